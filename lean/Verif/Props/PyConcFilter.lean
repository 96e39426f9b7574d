import Verif.Proofs.PyConcFilter
/-
C87: threads that register callbacks and output messages on one Python SimpleFilter at the same time.
-/
namespace MF.PyFilter

variable {C M : Type}

/-- **C87**.  If nobody registers while messages are output, then under every schedule no output raises, and a thread that has come
to its end has called every callback exactly once for each of its messages, in the order of registration. -/
theorem C87_fixed_callbacks (cbs : List C) (progs : Nat → List (TOp C M)) (h : ∀ t, registers (progs t) = [])
    (schedule : List Nat) :
    (texec cbs progs schedule).raised = [] ∧ (texec cbs progs schedule).callbacks = cbs ∧
    ∀ t, ((texec cbs progs schedule).threads t).todo = [] → ((texec cbs progs schedule).threads t).pc = .idle →
      calledBy (texec cbs progs schedule) t = (outputs (progs t)).flatMap (fun msg => cbs.map (fun cb => (cb, msg))) := by
  have hf := texec_fixed cbs progs h schedule
  refine ⟨hf.raised, hf.same, fun t h1 h2 => ?_⟩
  have := hf.prog t
  rw [← this]
  simp [remaining, h1, h2, outputs]

/-- **C87**.  If one thread registers, whatever the others output, no registration is lost: the callbacks are those from before and
then the registered ones in order, and the returned ids are all different. -/
theorem C87_one_registrar (cbs : List C) (progs : Nat → List (TOp C M)) (r : Nat) (h : ∀ t, t ≠ r → registers (progs t) = [])
    (schedule : List Nat) :
    cbs <+: (texec cbs progs schedule).callbacks ∧
    (texec cbs progs schedule).callbacks <+: cbs ++ registers (progs r) ∧
    ((texec cbs progs schedule).ids.map (fun x => x.2.2)).Nodup ∧
    (Done (texec cbs progs schedule) → (texec cbs progs schedule).callbacks = cbs ++ registers (progs r) ∧
      (texec cbs progs schedule).ids.map (fun x => x.2.2) = (List.range (registers (progs r)).length).map (cbs.length + ·)) := by
  have ho := texec_onereg cbs progs r h schedule
  refine ⟨?_, ⟨_, ho.list⟩, ?_, ?_⟩
  · have h1 : cbs <+: cbs ++ registers (progs r) := List.prefix_append _ _
    have h2 : (texec cbs progs schedule).callbacks <+: cbs ++ registers (progs r) := ⟨_, ho.list⟩
    exact List.prefix_of_prefix_length_le h1 h2 ho.le
  · rw [ho.ids]
    unfold List.Nodup
    rw [List.pairwise_map]
    exact List.nodup_range.imp (fun hne he => hne (by omega))
  · intro hd
    have hl := ho.list
    obtain ⟨d1, d2⟩ := hd r
    simp only [pending, d1, d2, registers, List.append_nil] at hl
    refine ⟨hl, ?_⟩
    rw [ho.ids, hl, List.length_append, Nat.add_sub_cancel_left]

/-- **C87** (when an output raises; any programs).  Let thread `t` begin to output `msg` after `before`, and let it still be in that
output after `during`.  Then its next step raises exactly if the number of callbacks is no longer what it was at the beginning, and
the number never gets smaller. -/
theorem C87_raises_iff (cbs : List C) (progs : Nat → List (TOp C M)) (before during : List Nat) (t : Nat) (msg : M)
    (rest : List (TOp C M)) (h0 : AboutToSignal (texec cbs progs before) t msg rest)
    (h1 : Signalling (texec cbs progs (before ++ t :: during)) t rest) :
    ((texec cbs progs (before ++ t :: during ++ [t])).raised = (texec cbs progs (before ++ t :: during)).raised ++ [(t, msg)] ↔
      (texec cbs progs (before ++ t :: during)).callbacks.length ≠ (texec cbs progs before).callbacks.length) ∧
    (texec cbs progs before).callbacks.length ≤ (texec cbs progs (before ++ t :: during)).callbacks.length := by
  have hmono : ∀ (sch : List Nat) (c : Conc C M), c.callbacks.length ≤ (sch.foldl tstep c).callbacks.length := by
    intro sch
    induction sch using snoc_induction with
    | h0 => intro c; exact Nat.le_refl _
    | hs sch u ih =>
      intro c
      rw [List.foldl_append]
      refine Nat.le_trans (ih c) ?_
      generalize sch.foldl tstep c = c1
      simp only [List.foldl_cons, List.foldl_nil]
      have hst := tstep_cases c1 u
      generalize tstep c1 u = c2 at hst
      cases hst <;> first | exact Nat.le_refl _ | exact length_put _ _ _
  have heq : texec cbs progs (before ++ t :: during) = during.foldl tstep (tstep (texec cbs progs before) t) := by
    simp [texec, List.foldl_append]
  obtain ⟨pre, e1, e2⟩ := signalling _ t msg rest h0 during
  rw [texec_snoc]
  rw [heq] at h1 ⊢
  obtain ⟨h1, m', size, pos, hpc⟩ := h1
  refine ⟨?_, ?_⟩
  · have hpre : pre = [] := by
      rw [h1] at e1
      have := congrArg List.length e1
      rw [List.length_append] at this
      exact List.length_eq_zero_iff.mp (by omega)
    rcases e2 hpre with h | ⟨pos', h⟩
    · rw [hpc] at h; cases h
    · rw [hpc] at h
      cases h
      have hst := tstep_cases (during.foldl tstep (tstep (texec cbs progs before) t)) t
      generalize during.foldl tstep (tstep (texec cbs progs before) t) = c at hst hpc ⊢
      generalize tstep c t = c' at hst ⊢
      cases hst with
      | stop f1 f2 => rw [hpc] at f1; cases f1
      | beginRegister cb rest' f1 f2 => rw [hpc] at f1; cases f1
      | beginSignal m' rest' f1 f2 => rw [hpc] at f1; cases f1
      | register cb conn f1 => rw [hpc] at f1; cases f1
      | raise m' size' pos' f1 f2 =>
        rw [hpc] at f1; cases f1
        exact ⟨fun _ => f2, fun _ => rfl⟩
      | done m' size' pos' f1 f2 f3 =>
        rw [hpc] at f1; cases f1
        exact ⟨fun h => absurd h (by simp), fun h => absurd f2 h⟩
      | call m' size' pos' cb f1 f2 f3 =>
        rw [hpc] at f1; cases f1
        exact ⟨fun h => absurd h (by simp), fun h => absurd f2 h⟩
  · have h2 := hmono (t :: during) (texec cbs progs before)
    exact h2

/-- **C87** (one registering thread).  An output that comes to its end without an exception has called exactly the callbacks that
were registered when it began, each once, in order. -/
theorem C87_returned_complete (cbs : List C) (progs : Nat → List (TOp C M)) (r : Nat) (h : ∀ t, t ≠ r → registers (progs t) = [])
    (before during : List Nat) (t : Nat) (msg : M) (rest : List (TOp C M))
    (h0 : AboutToSignal (texec cbs progs before) t msg rest)
    (h1 : Signalling (texec cbs progs (before ++ t :: during)) t rest)
    (h2 : (texec cbs progs (before ++ t :: during ++ [t])).returned =
      (texec cbs progs (before ++ t :: during)).returned ++ [(t, msg)]) :
    calledBy (texec cbs progs (before ++ t :: during ++ [t])) t =
      calledBy (texec cbs progs before) t ++ (texec cbs progs before).callbacks.map (fun cb => (cb, msg)) := by
  have heq : texec cbs progs (before ++ t :: during) = during.foldl tstep (tstep (texec cbs progs before) t) := by
    simp [texec, List.foldl_append]
  obtain ⟨pre, e1, e2⟩ := signalling _ t msg rest h0 during
  obtain ⟨_, g2, g3⟩ := signalling_calls cbs progs r _ (texec_onereg cbs progs r h before) t msg rest h0 during
  rw [texec_snoc] at h2 ⊢
  rw [heq] at h1 h2 ⊢
  obtain ⟨h1, m', size, pos, hpc⟩ := h1
  have hpre : pre = [] := by
    rw [h1] at e1
    have := congrArg List.length e1
    rw [List.length_append] at this
    exact List.length_eq_zero_iff.mp (by omega)
  rcases e2 hpre with h' | ⟨pos', h'⟩
  · rw [hpc] at h'; cases h'
  · rw [hpc] at h'
    cases h'
    have g3 := g3 pos h1 hpc
    have hst := tstep_cases (during.foldl tstep (tstep (texec cbs progs before) t)) t
    generalize during.foldl tstep (tstep (texec cbs progs before) t) = c at hst hpc g2 g3 h2 ⊢
    generalize tstep c t = c' at hst h2 ⊢
    cases hst with
    | stop f1 f2 => rw [hpc] at f1; cases f1
    | beginRegister cb rest' f1 f2 => rw [hpc] at f1; cases f1
    | beginSignal m' rest' f1 f2 => rw [hpc] at f1; cases f1
    | register cb conn f1 => rw [hpc] at f1; cases f1
    | raise m' size' pos' f1 f2 => exact absurd h2 (by simp)
    | done m' size' pos' f1 f2 f3 =>
      rw [hpc] at f1; cases f1
      have : calledBy { c with threads := setThr c.threads t ⟨(c.threads t).todo, .idle⟩, returned := c.returned ++ [(t, msg)] } t =
        calledBy c t := rfl
      rw [this, g3, List.take_of_length_le (by omega)]
    | call m' size' pos' cb f1 f2 f3 => exact absurd h2 (by simp)

/-- Registrations and an output at the same time; callbacks are numbers. -/
def busy : Nat → List (TOp Nat Nat)
  | 0 => [.register 7]
  | 1 => [.signal 100]
  | 2 => [.register 8]
  | _ => []

/-- **C87** (disagreement with "every registered callback gets every later message").  Two threads register at the same time: both
get the same id, and one of the callbacks is never called. -/
theorem C87_registration_lost :
    (texec [] busy [0, 2, 0, 2, 1, 1, 1]).ids = [(0, 7, 0), (2, 8, 0)] ∧
    (texec [] busy [0, 2, 0, 2, 1, 1, 1]).callbacks = [8] ∧
    (texec [] busy [0, 2, 0, 2, 1, 1, 1]).calls = [(1, 8, 100)] := by decide

/-- **C87** (disagreement).  A registration during an output ends the output with an exception: the second callback, registered long
before, does not get the message. -/
theorem C87_output_cut_short :
    (texec [5, 6] busy [1, 1, 0, 0, 1]).raised = [(1, 100)] ∧ (texec [5, 6] busy [1, 1, 0, 0, 1]).calls = [(1, 5, 100)] ∧
    (texec [5, 6] busy [1, 1, 0, 0, 1]).callbacks = [5, 6, 7] := by decide

/-- **C87** (disagreement).  It raises even when all callbacks have been called. -/
theorem C87_raises_at_the_end :
    (texec [5] busy [1, 1, 0, 0, 1]).raised = [(1, 100)] ∧ (texec [5] busy [1, 1, 0, 0, 1]).calls = [(1, 5, 100)] := by decide

/-! ### The hypotheses are met -/

example : (texec [5, 6] busy ([1, 1, 0, 1, 1] ++ [0, 2, 2])).returned = [(1, 100)] ∧
    (texec [5, 6] busy ([1, 1, 0, 1, 1] ++ [0, 2, 2])).calls = [(1, 5, 100), (1, 6, 100)] ∧
    (texec [5, 6] busy ([1, 1, 0, 1, 1] ++ [0, 2, 2])).callbacks = [5, 6, 7, 8] := by decide

example : AboutToSignal (texec [5, 6] busy [0]) 1 100 [] ∧ Signalling (texec [5, 6] busy ([0] ++ 1 :: [1, 0])) 1 [] ∧
    (texec [5, 6] busy ([0] ++ 1 :: [1, 0])).callbacks.length ≠ (texec [5, 6] busy [0]).callbacks.length :=
  ⟨⟨rfl, rfl⟩, ⟨rfl, 100, 2, 1, rfl⟩, by decide⟩

/-- Programs with one registering thread and two outputs. -/
def calm : Nat → List (TOp Nat Nat)
  | 0 => [.register 7, .register 8]
  | 1 => [.signal 100, .signal 101]
  | _ => []

example : (∀ t, t ≠ 0 → registers (calm t) = []) ∧
    (texec [5] calm [1, 1, 1, 0, 0, 0, 0, 1, 1, 1, 1, 1]).returned = [(1, 100), (1, 101)] ∧
    (texec [5] calm [1, 1, 1, 0, 0, 0, 0, 1, 1, 1, 1, 1]).calls = [(1, 5, 100), (1, 5, 101), (1, 7, 101), (1, 8, 101)] := by
  refine ⟨fun t ht => ?_, by decide, by decide⟩
  match t with
  | 0 => exact absurd rfl ht
  | 1 => rfl
  | t + 2 => rfl

end MF.PyFilter
