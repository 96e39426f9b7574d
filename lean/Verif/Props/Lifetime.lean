import Verif.Proofs.Lifetime
/-
C84 (destroying and reconnecting a filter while its sources deliver from other threads) and C85 (constructing it).
Statements are about the model of Model/Lifetime.lean with the words of Spec/Lifetime.lean.
-/
namespace MF.Life

/-- **C84**.  A Synchronizer (connected after its construction), TimeSynchronizer, InputAligner without timer, or a Cache that
is connected once, can be connected, connected anew and destroyed while any number of threads deliver through its sources: no
schedule leads to a call into an object that is not ready or no longer there. -/
theorem C84_safe (k : Kind) (srcs : List Nat) (later : List (List Nat)) (hd : Detaches k later) (ht : ¬ HasTimer k)
    (hs : k = .synchronizer → srcs = []) (schedule : List Move) :
    ∃ c, exec (life k srcs later) schedule = .ok c := by
  rcases inv_exec (E := False) _ (ok_life k srcs later hd (fun h => Or.inl (hs h))) schedule
    (quiet_of_no_timer _ (no_start_life k srcs later ht) schedule) with ⟨c, h, _⟩ | h
  · exact ⟨c, h⟩
  · exact absurd h.1 id

/-- A TimeSynchronizer with two inputs, reconnected and destroyed while three threads deliver: the hypotheses hold and
the schedule contains calls into the object. -/
example : Detaches .timeSynchronizer [[1, 1]] ∧ ¬ HasTimer .timeSynchronizer ∧
    (exec (life .timeSynchronizer [0, 1] [[1, 1]])
      (List.replicate 8 .main ++ [.deliver 0 0, .go 0])).toOption.map (fun c => c.threads 0) =
      some (.inside 0 ⟨0, 0⟩ []) := by
  refine ⟨Or.inr (Or.inl rfl), fun h => ?_, by rfl⟩
  rcases h with h | h <;> cases h

/-- **C84**.  Once the destructor has returned, no callback of the object is running, and none is ever entered again. -/
theorem C84_nothing_runs_afterwards (k : Kind) (srcs : List Nat) (later : List (List Nat)) (hd : Detaches k later)
    (l l' : List Move) (c c' : Config) (hq : TimerQuiet (life k srcs later) (l ++ l'))
    (hc : exec (life k srcs later) l = .ok c) (hend : c.prog = [])
    (hc' : exec (life k srcs later) (l ++ l') = .ok c') :
    ∀ t, ¬ InCallback (c'.threads t) ∧ ¬ Entering (c'.threads t) := by
  have hp : c'.prog = [] := by
    unfold exec at hc hc'
    rw [runE_append, hc] at hc'
    refine runE_inv (step := step) (I := fun c : Config => c.prog = []) (fun c m c' hi hs => ?_) l' c c' hend hc'
    by_cases hm : m = .main
    · subst hm
      injection hs with hs
      subst hs
      unfold mainStep
      rw [hi]
      exact hi
    · rw [(step_other c m c' hm hs).1]; exact hi
  rcases inv_exec (E := True) _ (ok_life k srcs later hd (fun _ => Or.inr trivial)) (l ++ l') hq with ⟨c2, h2, hi⟩ | h
  case inr => rw [h.2] at hc'; cases hc'
  rw [h2] at hc'
  injection hc' with hc'
  subst hc'
  obtain ⟨held, hok, _⟩ := hi.main
  rw [hp] at hok
  intro t
  have hpc := hi.pcs t
  constructor
  · intro hin
    cases e : c2.threads t <;> rw [e] at hin hpc <;> (try exact hin)
    next f h r => exact absurd (hok.2 f) (ne_nil_of_mem hpc.2.1.1)
  · intro hin
    cases e : c2.threads t <;> rw [e] at hin hpc <;> (try exact hin)
    next f todo =>
      cases todo with
      | nil => exact hin
      | cons x r => exact absurd (hok.2 f) (ne_nil_of_mem (hpc.2 x List.mem_cons_self))

/-- The destructor of a Synchronizer returns while another thread holds the mutex of a source it is no longer registered at. -/
example : (exec (life .synchronizer [] [[0]])
    (List.replicate 8 .main ++ [.deliver 0 0] ++ [.main])).toOption.map (fun c => (c.prog, c.stage, c.threads 0)) =
    some ([], .dead, .signal 0 []) := by rfl

/-- **C84**.  As long as a callback of the object has not returned, neither has the destructor, and the object stays usable.
In particular a filter that is destroyed by a callback it is itself running never comes back from its destructor (then
the thread `t` makes no step of its own until the destructor has returned). -/
theorem C84_destructor_waits (k : Kind) (srcs : List Nat) (later : List (List Nat)) (hd : Detaches k later)
    (hs : k = .synchronizer → srcs = [])
    (l l' : List Move) (c c' : Config) (t : Nat) (hq : TimerQuiet (life k srcs later) (l ++ l'))
    (hc : exec (life k srcs later) l = .ok c) (hin : InCallback (c.threads t)) (hl : .go t ∉ l')
    (hc' : exec (life k srcs later) (l ++ l') = .ok c') :
    InCallback (c'.threads t) ∧ c'.prog ≠ [] ∧ c'.stage = .ready := by
  have stay : InCallback (c'.threads t) := by
    unfold exec at hc hc'
    rw [runE_append, hc] at hc'
    clear hc hq
    induction l' generalizing c with
    | nil => simp only [runE] at hc'; injection hc' with hc'; subst hc'; exact hin
    | cons m l' ih =>
      simp only [runE] at hc'
      cases e : step c m with
      | error f => rw [e] at hc'; cases hc'
      | ok c1 =>
        rw [e] at hc'
        refine ih c1 ?_ (fun h => hl (List.mem_cons_of_mem _ h)) hc'
        rw [step_elsewhere c m c1 t (fun h => hl (by rw [h]; exact List.mem_cons_self))
          (fun h => by rw [h] at hin; exact hin) e]
        exact hin
  rcases inv_exec (E := False) _ (ok_life k srcs later hd (fun h => Or.inl (hs h))) (l ++ l') hq with ⟨c2, h2, hi⟩ | h
  case inr => exact absurd h.1 id
  rw [h2] at hc'
  injection hc' with hc'
  subst hc'
  refine ⟨stay, ?_⟩
  have hpc := hi.pcs t
  cases e : c2.threads t with
  | inside f h r =>
    rw [e] at hpc
    refine ⟨fun hp => ?_, ?_⟩
    · obtain ⟨held, hok, _⟩ := hi.main
      rw [hp] at hok
      exact absurd (hok.2 f) (ne_nil_of_mem hpc.2.1.1)
    · rcases hi.live f (ne_nil_of_mem hpc.2.1.1) with h | h
      · exact h
      · exact absurd h.1 id
  | _ => rw [e] at stay; exact absurd stay id

/-- A thread is in the callback when the destructor starts; nothing but the callback's return lets it go on. -/
example : (exec (life .timeSynchronizer [0] [])
    (List.replicate 5 .main ++ [.deliver 7 0, .go 7] ++ List.replicate 20 .main)).toOption.map
      (fun c => (c.prog, c.threads 7)) =
    some ([.lock 0, .erase 0 ⟨0, 0⟩, .unlock 0, .free], .inside 0 ⟨0, 0⟩ []) := by rfl

/-- **C84**.  The owner's thread is never stuck for good: whatever happened so far, there is a continuation in which the
callbacks that are running return and the object is completely destroyed. -/
theorem C84_can_finish (k : Kind) (srcs : List Nat) (later : List (List Nat)) (hd : Detaches k later)
    (hs : k = .synchronizer → srcs = []) (l : List Move) (hq : TimerQuiet (life k srcs later) l) :
    ∃ l' c, exec (life k srcs later) (l ++ l') = .ok c ∧ c.prog = [] ∧ c.stage = .dead := by
  rcases inv_exec (E := False) _ (ok_life k srcs later hd (fun h => Or.inl (hs h))) l hq with ⟨c, hc, hi⟩ | h
  case inr => exact absurd h.1 id
  obtain ⟨z0, hz0, hf0⟩ := life_free k srcs later
  rcases prog_shape z0 hf0 l c (by rw [← hz0]; exact hc) with h | ⟨z, h1, h2⟩
  · exact ⟨[], c, by simpa using hc, h.1, h.2⟩
  obtain ⟨l1, c1, g1, g2, g3⟩ := complete z c hi h1 h2
  refine ⟨l1 ++ [.main], mainStep c1, ?_, ?_, ?_⟩
  · unfold exec at hc ⊢
    rw [runE_append, hc]
    simp only []
    rw [runE_append, g1]
    rfl
  · unfold mainStep; rw [g3]
  · unfold mainStep; rw [g3]

/-- After a schedule that leaves a thread in the middle of a callback. -/
example : TimerQuiet (life (.aligner false) [0, 0] []) [.main, .main, .main, .main, .main, .deliver 3 0, .go 3] := by
  refine quiet_of_no_timer _ (no_start_life _ _ _ (fun h => ?_)) _
  rcases h with h | h <;> cases h

/-- **C84** for the classes with a timer (TimeSequencer, InputAligner with `setupDispatchTimer`): safe if the object is only
destroyed while no thread is in its timer callback (for instance because the callbacks run in the destroying thread).
Missing: neither class waits for its timer callback, see `C84_timer_race`. -/
theorem C84_timer_partial (k : Kind) (srcs : List Nat) (later : List (List Nat)) (hd : Detaches k later)
    (hs : k = .synchronizer → srcs = []) (schedule : List Move) (hq : TimerQuiet (life k srcs later) schedule) :
    ∃ c, exec (life k srcs later) schedule = .ok c := by
  rcases inv_exec (E := False) _ (ok_life k srcs later hd (fun h => Or.inl (hs h))) schedule hq with ⟨c, h, _⟩ | h
  · exact ⟨c, h⟩
  · exact absurd h.1 id

/-- A TimeSequencer whose timer ran and finished before it is destroyed. -/
example : TimerQuiet (life .sequencer [] []) [.main, .main, .main, .takeTimer 1, .go 1, .go 1, .main, .main] ∧
    (exec (life .sequencer [] [])
      [.main, .main, .main, .takeTimer 1, .go 1, .go 1, .main, .main]).toOption.map (fun c => c.stage) = some .dead := by
  refine ⟨fun l r c p e hc hp t => ?_, by rfl⟩
  have hn : l.length < 8 := by have := congrArg List.length e; simp at this; omega
  have hl : l = List.take l.length [.main, .main, .main, .takeTimer 1, .go 1, .go 1, .main, .main] := by rw [e]; simp
  rw [hl] at hc
  generalize l.length = n at hc hn
  rcases n with _ | _ | _ | _ | _ | _ | _ | _ | n
  case succ.succ.succ.succ.succ.succ.succ.succ => omega
  all_goals (injection hc with hc; subst hc)
  all_goals first | (cases hp; done) | skip
  by_cases h : t = 1
  · subst h; exact id
  · simp [setPc, set, h, start, mainStep, InTimer, life, construct, connectInput, lifeFrom, destroy, conns']

/-- **C84** is false for the classes with a timer: whenever the destructor is about to destroy the members while a thread
has taken the timer, the next step of that thread uses a destroyed object. -/
theorem C84_timer_race (k : Kind) (srcs : List Nat) (later : List (List Nat)) (l : List Move) (c : Config) (t : Nat)
    (hc : exec (life k srcs later) l = .ok c) (hp : c.prog = [.free]) (ht : InTimer (c.threads t)) :
    exec (life k srcs later) (l ++ [.main, .go t]) = .error .ub := by
  unfold exec at hc ⊢
  rw [runE_append, hc]
  have hth : (mainStep c).threads = c.threads := by unfold mainStep; rw [hp]
  have hst : (mainStep c).stage = .dead := by unfold mainStep; rw [hp]
  simp only [runE, step]
  have : goStep (mainStep c) t = .error .ub := by
    unfold goStep
    rw [hth, hst]
    cases e : c.threads t <;> rw [e] at ht <;> first | rfl | exact absurd ht id
  rw [this]

/-- Such states are reached, with and without `cancel()` in the destructor. -/
theorem C84_timer_violated :
    (exec (life .sequencer [0] []) ([.main, .main, .main, .takeTimer 0] ++ List.replicate 8 .main ++ [.go 0])) = .error .ub ∧
    (exec (life (.aligner true) [0] []) (List.replicate 6 .main ++ [.takeTimer 0] ++ List.replicate 4 .main ++ [.go 0])) =
      .error .ub := ⟨by rfl, by rfl⟩

/-- **C84** is false for the classes that do not detach: a PassThrough or Chain, and a Cache that was connected twice, are
called after they have been destroyed. -/
theorem C84_not_detaching_violated (f g : Nat) :
    exec (life .passThrough [f] []) (List.replicate 6 .main ++ [.deliver 0 f, .go 0]) = .error .ub ∧
    exec (life .chain [f] []) (List.replicate 6 .main ++ [.deliver 0 f, .go 0]) = .error .ub ∧
    (f ≠ g → exec (life .cache [f] [[g]]) (List.replicate 12 .main ++ [.deliver 0 f, .go 0]) = .error .ub) := by
  refine ⟨?_, ?_, fun h => ?_⟩
  · simp [exec, life, construct, lifeFrom, destroy, connectInput, conns', register, Kind.disconnectsOnConnect,
      Kind.disconnectsOnDestroy, List.zipIdx, runE, step, mainStep, start, goStep, setPc, set, touch, Except.map]
  · simp [exec, life, construct, lifeFrom, destroy, connectInput, conns', register, Kind.disconnectsOnConnect,
      Kind.disconnectsOnDestroy, List.zipIdx, runE, step, mainStep, start, goStep, setPc, set, touch, Except.map]
  · simp [exec, life, construct, lifeFrom, destroy, connectInput, conns', register, disconnect, Kind.disconnectsOnConnect,
      Kind.disconnectsOnDestroy, List.zipIdx, runE, step, mainStep, start, goStep, setPc, set, touch, Except.map, h]

/-- **C85**.  A TimeSynchronizer, Cache, TimeSequencer or InputAligner can be constructed with filters that are already
delivering: before the first call into the object it is completely constructed.  A Synchronizer can be connected to such
filters after its construction. -/
theorem C85_construction_safe (k : Kind) (srcs : List Nat) (later : List (List Nat)) (hd : Detaches k later)
    (hs : k = .synchronizer → srcs = []) (schedule : List Move) (hq : TimerQuiet (life k srcs later) schedule)
    (c : Config) (hc : exec (life k srcs later) schedule = .ok c) (t : Nat)
    (ht : InCallback (c.threads t) ∨ Entering (c.threads t) ∨ InTimer (c.threads t)) : c.stage = .ready := by
  rcases inv_exec (E := False) _ (ok_life k srcs later hd (fun h => Or.inl (hs h))) schedule hq with ⟨c2, h2, hi⟩ | h
  case inr => exact absurd h.1 id
  rw [h2] at hc
  injection hc with hc
  subst hc
  have hpc := hi.pcs t
  have up : ∀ f, c2.regs f ≠ [] → c2.stage = .ready := fun f hf => by
    rcases hi.live f hf with h | h
    · exact h
    · exact absurd h.1 id
  cases e : c2.threads t with
  | idle => rw [e] at ht; rcases ht with h | h | h <;> exact absurd h id
  | signal f todo =>
    rw [e] at ht hpc
    cases todo with
    | nil => rcases ht with h | h | h <;> exact absurd h id
    | cons x r => exact up f (ne_nil_of_mem (hpc.2 x List.mem_cons_self))
  | inside f x r => rw [e] at hpc; exact up f (ne_nil_of_mem hpc.2.1.1)
  | fetched => rw [e] at hpc; exact hpc
  | timer => rw [e] at hpc; exact hpc

/-- A call into a TimeSynchronizer whose constructor has connected only the first of two inputs. -/
example : (exec (life .timeSynchronizer [0, 1] [])
    (List.replicate 5 .main ++ [.deliver 0 0, .go 0])).toOption.map (fun c => (c.stage, c.threads 0)) =
    some (.ready, .inside 0 ⟨0, 0⟩ []) := by rfl

/-- **C85**.  A Synchronizer constructed with its filters fails exactly if a thread enters one of its callbacks before the
constructor has finished, and then by the assertion, never by using memory that is not there. -/
theorem C85_synchronizer_exact (srcs : List Nat) (later : List (List Nat)) (schedule : List Move) :
    (∃ c, exec (life .synchronizer srcs later) schedule = .ok c) ∨
    (exec (life .synchronizer srcs later) schedule = .error .assertFailed ∧
      ∃ l t r c, schedule = l ++ .go t :: r ∧ exec (life .synchronizer srcs later) l = .ok c ∧ c.stage = .built ∧
        Entering (c.threads t)) := by
  have hok := ok_life (E := True) .synchronizer srcs later (Or.inl rfl) (fun _ => Or.inr trivial)
  have nt : ¬ HasTimer .synchronizer := fun h => by rcases h with h | h <;> cases h
  have hq := quiet_of_no_timer _ (no_start_life .synchronizer srcs later nt)
  induction schedule using snoc_induction with
  | h0 => exact Or.inl ⟨_, rfl⟩
  | hs l m ih =>
    rcases ih with ⟨c, hc⟩ | ⟨he, l1, t, r, c, h1, h2⟩
    · rcases inv_exec (E := True) _ hok (l ++ [m]) (hq _) with ⟨c', h, _⟩ | ⟨_, h⟩
      · exact Or.inl ⟨c', h⟩
      · right
        refine ⟨h, ?_⟩
        unfold exec at h hc
        rw [runE_append, hc] at h
        simp only [runE] at h
        have hm : step c m = .error .assertFailed := by
          cases e : step c m with
          | ok c' => rw [e] at h; cases h
          | error f => rw [e] at h; exact h
        rcases inv_exec (E := True) _ hok l (hq _) with ⟨c2, k1, hi⟩ | ⟨_, k⟩
        case inr => unfold exec at k; rw [hc] at k; cases k
        have : c2 = c := by unfold exec at k1; rw [hc] at k1; injection k1 with k1; exact k1.symm
        subst this
        cases m with
        | main => cases hm
        | deliver t f => cases hm
        | takeTimer t => cases hm
        | go t =>
          refine ⟨l, t, [], c2, rfl, hc, ?_⟩
          have hb : touch c2.stage = .error .assertFailed → c2.stage = .built := by
            cases c2.stage <;> intro h <;> first | rfl | cases h
          have key : ∀ {p : Pc}, ((touch c2.stage).map fun _ => setPc c2 t p) = .error .assertFailed →
              c2.stage = .built := by
            intro p h
            cases e : touch c2.stage with
            | ok u => rw [e] at h; cases h
            | error f =>
              rw [e] at h
              injection h with h
              exact hb (by rw [e, h])
          have hnt := no_timer_exec _ (no_start_life .synchronizer srcs later nt) l c2 k1 t
          dsimp only [step] at hm
          unfold goStep at hm
          have hpc := hi.pcs t
          cases e : c2.threads t with
          | idle => rw [e] at hm; cases hm
          | signal f todo =>
            rw [e] at hm
            cases todo with
            | nil => cases hm
            | cons x r => exact ⟨key hm, trivial⟩
          | inside f x r =>
            rw [e] at hm hpc
            have := key hm
            rw [hpc.2.1.2] at this
            cases this
          | fetched => rw [e] at hnt; exact absurd trivial hnt
          | timer => rw [e] at hnt; exact absurd trivial hnt
    · right
      refine ⟨?_, l1, t, r ++ [m], c, by rw [h1]; simp, h2⟩
      unfold exec at he ⊢
      rw [runE_append, he]

/-- **C85**, the converse: whenever a thread gets as far before the constructor has finished, the assertion fails. -/
theorem C85_synchronizer_race (srcs : List Nat) (later : List (List Nat)) (l r : List Move) (t : Nat) (c : Config)
    (hc : exec (life .synchronizer srcs later) l = .ok c) (hb : c.stage = .built) (he : Entering (c.threads t)) :
    exec (life .synchronizer srcs later) (l ++ .go t :: r) = .error .assertFailed := by
  unfold exec at hc ⊢
  rw [runE_append, hc]
  simp only [runE, step]
  have : goStep c t = .error .assertFailed := by
    unfold goStep
    rw [hb]
    cases e : c.threads t with
    | signal f todo =>
      rw [e] at he
      cases todo with
      | nil => exact absurd he id
      | cons x r => rfl
    | _ => rw [e] at he; exact absurd he id
  rw [this]

/-- It happens: the second input is being connected when a message arrives on the first. -/
theorem C85_synchronizer_violated (f g : Nat) (later : List (List Nat)) :
    exec (life .synchronizer [f, g] later) ([.main, .main, .main, .main, .deliver 0 f] ++ [.go 0]) = .error .assertFailed := by
  simp [exec, life, construct, connectInput, register, Kind.disconnectsOnConnect, List.zipIdx, runE, step, mainStep, start,
    goStep, setPc, set, touch, Except.map]

end MF.Life
