import Verif.Proofs.Restart
import Verif.Proofs.Approx10
/-
Property C88: filters when the stamps of their inputs jump back (a recording is played again, a simulation is reset).
-/

namespace MF.ExactTime

variable {n : Nat}

/-- **C88** (TimeSynchronizer, partial: not if the pending sets of before fill the queue).  Let `k` sets be pending after the
history `old`, all with later stamps than everything that follows, and let there be room for more.  What follows is handled as by a
new policy, but one with a queue that is `k` places shorter.  So if time passes the same stamps again, the places stay lost until a
later set is output. -/
theorem C88_exact_smaller_queue_partial [NeZero n] (q : Nat) (old new : List (Fin n × Ev)) (s0 : State n)
    (h0 : run (construct n q) old = .ok s0) (hroom : q = 0 ∨ s0.tuples.length < q)
    (hnew : ∀ op ∈ new, ∀ p ∈ s0.tuples, op.2.stamp < p.1) :
    ∃ s f, run (construct n q) (old ++ new) = .ok s ∧ run (construct n (q - s0.tuples.length)) new = .ok f ∧
      s.log = s0.log ++ f.log ∧ s.tuples = f.tuples ++ s0.tuples := by
  have hi : Inv s0 := run_inv (inv_construct q) h0
  have hq : s0.queueSize = q := run_qsize old s0 h0
  obtain ⟨f, s, h1, h2, h3⟩ := run_behind (st := s0.tuples) (log := s0.log) new (construct n (q - s0.tuples.length)) s0 hi
    (inv_construct _) ⟨by simp [construct], by simp [construct], by
      rw [hq]
      show _ ∨ (0 < q - s0.tuples.length ∧ q = q - s0.tuples.length + s0.tuples.length)
      rcases hroom with h | h
      · exact Or.inl ⟨h, by show q - s0.tuples.length = 0; omega⟩
      · exact Or.inr ⟨by omega, by omega⟩⟩ hnew
  refine ⟨s, f, ?_, h1, h3.log, h3.tuples⟩
  unfold run at h0 h2 ⊢
  rw [runE_append, h0]
  exact h2

/-- The first messages of both inputs stamped 100 and 200 are alone; then time restarts: with three places the sets at 1 and 2 are
output, but the incomplete set at 3 is dropped by the one at 4. -/
example : ∃ s0 s, run (construct 2 3) [(0, ⟨0, 100⟩), (1, ⟨1, 200⟩)] = .ok s0 ∧ s0.tuples.length < 3 ∧
    run (construct 2 3) ([(0, ⟨0, 100⟩), (1, ⟨1, 200⟩)] ++
      [(0, ⟨2, 1⟩), (1, ⟨3, 1⟩), (0, ⟨4, 3⟩), (0, ⟨5, 4⟩), (1, ⟨6, 3⟩)]) = .ok s ∧
    (outs s.log).map List.ofFn = [[some ⟨2, 1⟩, some ⟨3, 1⟩]] := ⟨_, _, rfl, by decide, rfl, by decide⟩

/-- **C88** (TimeSynchronizer).  If the pending sets fill the queue, nothing is ever output again for as long as the stamps are
earlier: every message is dropped when it arrives, alone. -/
theorem C88_exact_blocked [NeZero n] (hn : 2 ≤ n) (q : Nat) (hq0 : 0 < q) (old new : List (Fin n × Ev)) (s0 : State n)
    (h0 : run (construct n q) old = .ok s0) (hfull : s0.tuples.length = q)
    (hnew : ∀ op ∈ new, ∀ p ∈ s0.tuples, op.2.stamp < p.1) :
    ∃ s, run (construct n q) (old ++ new) = .ok s ∧ s.tuples = s0.tuples ∧
      s.log = s0.log ++ new.map (fun op => Action.drop (upd (emptyTuple n) op.1 (some op.2))) := by
  have hi : Inv s0 := run_inv (inv_construct q) h0
  have hq : s0.queueSize = q := run_qsize old s0 h0
  obtain ⟨s, h1, h2, h3⟩ := run_blocked hn new s0 hi (by omega) (by omega) hnew
  refine ⟨s, ?_, h2, h3⟩
  unfold run at h0 h1 ⊢
  rw [runE_append, h0]
  exact h1

/-- A queue of two places: after the messages 100 and 200 of one input alone, matching messages at 1 are dropped one by one. -/
example : ∃ s0 s, run (construct 2 2) [(0, ⟨0, 100⟩), (0, ⟨1, 200⟩)] = .ok s0 ∧ s0.tuples.length = 2 ∧
    run (construct 2 2) ([(0, ⟨0, 100⟩), (0, ⟨1, 200⟩)] ++ [(0, ⟨2, 1⟩), (1, ⟨3, 1⟩)]) = .ok s ∧
    (outs s.log).length = 0 ∧ (drops s.log).map List.ofFn = [[some ⟨2, 1⟩, none], [none, some ⟨3, 1⟩]] :=
  ⟨_, _, rfl, by decide, rfl, by decide, by decide⟩

end MF.ExactTime

namespace MF.Approx
open MF.ApproxSpec (cost Spaced)

variable {n : Nat}

/-- **C88** (ApproximateTime).  Whatever was received before: once every input has delivered `queue_size` messages (`mid`), the sets
output later are made of those and of later messages only, each used at most once and in order of arrival. -/
theorem C88_approximate_forgets [NeZero n] (fuel : Nat) (cfg : Cfg n) (old mid new : List (Fin n × Ev)) (s0 s : State n)
    (h0 : run fuel cfg (old ++ mid) = .ok s0) (hm : ∀ i, cfg.queueSize ≤ (stream mid i).length)
    (h : run fuel cfg (old ++ mid ++ new) = .ok s) :
    ∃ later, s.out = s0.out ++ later ∧ ∀ i, List.Sublist (later.map (· i)) ((stream (mid ++ new) i).map some) := by
  obtain ⟨l, hl⟩ := run_after_out h0 new s h
  refine ⟨l, hl, fun i => ?_⟩
  obtain ⟨_, h2⟩ := run_since h0 new s h
  have hd : s.out.drop s0.out.length = l := by rw [hl]; simp
  obtain ⟨c, h3, h4⟩ := h2 i
  rw [hd] at h4
  obtain ⟨p, hp⟩ := held_suffix h0 (hm i)
  refine h4.trans (List.Sublist.map _ ?_)
  have h3 : view s0 i ++ stream new i = c ++ view s i := h3
  rw [stream_append, ← hp, List.append_assoc, h3]
  exact (List.sublist_append_left _ _).trans (List.sublist_append_right _ _)

/-- Example: a queue size of 2, a maximum interval of 1000 and no age penalty. -/
def restartCfg : Cfg 2 := ⟨2, 1000, fun x => x, fun _ => 0⟩

/-- Two messages of one input are left over when time restarts at 0. -/
def restartOld : List (Fin 2 × Ev) := [(0, ⟨0, 500⟩), (0, ⟨1, 600⟩)]

/-- Two messages of each input after the restart, and two more. -/
def restartMid : List (Fin 2 × Ev) := [(1, ⟨2, 0⟩), (1, ⟨3, 10⟩), (0, ⟨4, 1⟩), (0, ⟨5, 11⟩)]
def restartNew : List (Fin 2 × Ev) := [(1, ⟨6, 20⟩), (0, ⟨7, 21⟩), (1, ⟨8, 30⟩), (0, ⟨9, 31⟩)]

example : ∃ s0 s, run 100 restartCfg (restartOld ++ restartMid) = .ok s0 ∧
    run 100 restartCfg (restartOld ++ restartMid ++ restartNew) = .ok s ∧
    (∀ i, restartCfg.queueSize ≤ (stream restartMid i).length) ∧
    s0.out.length = 0 ∧ s.out.map List.ofFn = [[some ⟨7, 21⟩, some ⟨6, 20⟩]] := ⟨_, _, rfl, rfl, by decide, by decide, by decide⟩

/-- **C88** (ApproximateTime).  In between, sets can be output that mix messages of before and after the restart: here the message
500 of the first input is left over, the messages of the second one are at least 1000 apart, and after the restart its first message,
stamped 10, is output with 500 before the first input has delivered again. -/
theorem C88_approximate_mixed : ∃ s, run 100 (⟨2, 1000, fun x => x, fun i => if i = 1 then 1000 else 0⟩ : Cfg 2)
      [(0, ⟨0, 500⟩), (1, ⟨1, 10⟩)] = .ok s ∧
    s.out.map List.ofFn = [[some ⟨0, 500⟩, some ⟨1, 10⟩]] := ⟨_, rfl, by decide⟩

/-- **C88** (ApproximateTime).  Whatever was received before, with whatever stamps: once every input has delivered `queue_size`
messages (`mid`), and if from the first of these on every input respects its configured minimum distance between messages (0 by
default: time order), every set output later is optimal as in C32.  The streams that it is optimal in are what is held of `mid` (a
suffix), and everything later, `fut` included. -/
theorem C88_approximate_recovers [NeZero n] (fuel : Nat) (cfg : Cfg n) (num den : Int) (hden : 0 < den) (hnum : 0 ≤ num)
    (hscale : cfg.scale = fun x => (x * num).tdiv den) (hlow : ∀ i, 0 ≤ cfg.lower i)
    (old mid new : List (Fin n × Ev)) (s0 s : State n)
    (h0 : run fuel cfg (old ++ mid) = .ok s0) (hm : ∀ i, cfg.queueSize ≤ (stream mid i).length)
    (h : run fuel cfg (old ++ mid ++ new) = .ok s)
    (fut : Fin n → List Ev) (hsp : ∀ i, Spaced (cfg.lower i) (stream (mid ++ new) i ++ fut i)) :
    ∃ held : Fin n → List Ev, (∀ i, held i <:+ stream mid i) ∧
      ∀ pre C post, s.out = s0.out ++ (pre ++ C :: post) →
        ∃ used rest : Fin n → List Ev, (∀ i, held i ++ stream new i ++ fut i = used i ++ rest i) ∧
          (pre = [] → ∀ i, used i = []) ∧ (∀ t, pre.getLast? = some t → ∀ i, (used i).getLast? = t i) ∧
          ∃ c : Fin n → Ev, C = (fun i => some (c i)) ∧ (∀ i, c i ∈ rest i) ∧
            ∃ p, ∀ T : Fin n → Ev, (∀ i, T i ∈ rest i) → T p = c p → cost num den c ≤ cost num den T := by
  have hmono : ∀ x y, x ≤ y → cfg.scale x ≤ cfg.scale y := by rw [hscale]; exact tdiv_mono hnum hden
  refine ⟨view s0, fun i => held_suffix h0 (hm i), ?_⟩
  intro pre C post hout
  have hopt := run_opt_after (den := den) hnum (by omega) (by rw [hscale]; exact ApproxSpec.tdiv_exact hnum hden) hmono hlow h0 new s h fut (by
    intro i
    obtain ⟨p, hp⟩ := held_suffix h0 (hm i)
    have := hsp i
    rw [stream_append, ← hp, List.append_assoc, List.append_assoc] at this
    exact (List.pairwise_append.1 this).2.1)
  have := hopt.out pre C post (by rw [hout]; simp)
  unfold OptimalAfter at this
  simp only [List.append_assoc]
  exact this

example : restartCfg.scale = (fun x => (x * 1).tdiv 1) ∧
    ∀ i, Spaced (restartCfg.lower i) (stream (restartMid ++ restartNew) i ++ (fun _ => [⟨7, 200⟩]) i) := by
  refine ⟨by funext x; simp [restartCfg], ?_⟩
  intro i; unfold Spaced; revert i; decide

end MF.Approx

namespace MF.Epsilon

variable {n : Nat}

/-- **C88** (ApproximateEpsilonTime).  After any history there are messages, the last ones of each input and at most `queue_size`,
such that the policy goes on as a new one would that receives these and then what follows. -/
theorem C88_epsilon_memoryless [NeZero n] (fuel q : Nat) (eps : Int) (old : List (Fin n × Ev)) (s0 : State n)
    (h0 : run fuel (construct n q eps) old = .ok s0) :
    ∃ held : List (Fin n × Ev), (∀ i, stream held i <:+ stream old i ∧ (stream held i).length ≤ q) ∧
      ∀ new s, run fuel (construct n q eps) (old ++ new) = .ok s →
        ∃ f, run fuel (construct n q eps) (held ++ new) = .ok f ∧ s.out = s0.out ++ f.out := by
  obtain ⟨hi, _, hq⟩ := run_inv h0
  refine ⟨oneByOne s0.events, fun i => ?_, ?_⟩
  · rw [stream_oneByOne]
    obtain ⟨c, hc, _⟩ := run_history _ s0 h0 i
    exact ⟨⟨c, hc.symm⟩, by have := hi.bound i; omega⟩
  · intro new s h
    rw [run_after_held h0 (oneByOne s0.events) (stream_oneByOne s0.events) new] at h
    obtain ⟨f, h1, h2⟩ := Py.map_ok h
    exact ⟨f, h1, by rw [← h2]; rfl⟩

/-- **C88** (ApproximateEpsilonTime).  Whatever was received before: once every input has delivered `queue_size` messages (`mid`),
the policy goes on as a new one would that receives the last ones of these and then what follows. -/
theorem C88_epsilon_forgets [NeZero n] (fuel q : Nat) (eps : Int) (old mid : List (Fin n × Ev)) (s0 : State n)
    (h0 : run fuel (construct n q eps) (old ++ mid) = .ok s0) (hm : ∀ i, q ≤ (stream mid i).length) :
    ∃ held : List (Fin n × Ev), (∀ i, stream held i <:+ stream mid i) ∧
      ∀ new s, run fuel (construct n q eps) (old ++ mid ++ new) = .ok s →
        ∃ f, run fuel (construct n q eps) (held ++ new) = .ok f ∧ s.out = s0.out ++ f.out := by
  refine ⟨oneByOne s0.events, fun i => ?_, ?_⟩
  · rw [stream_oneByOne]; exact held_suffix h0 (hm i)
  · intro new s h
    rw [run_after_held h0 (oneByOne s0.events) (stream_oneByOne s0.events) new] at h
    obtain ⟨f, h1, h2⟩ := Py.map_ok h
    exact ⟨f, h1, by rw [← h2]; rfl⟩

example : ∃ s0 s, run 100 (construct 2 1 5) ([(0, ⟨0, 500⟩)] ++ [(0, ⟨1, 1⟩), (1, ⟨2, 2⟩)]) = .ok s0 ∧
    run 100 (construct 2 1 5) ([(0, ⟨0, 500⟩)] ++ [(0, ⟨1, 1⟩), (1, ⟨2, 2⟩)] ++ [(1, ⟨3, 12⟩), (0, ⟨4, 11⟩)]) = .ok s ∧
    s0.out.map List.ofFn = [[some ⟨1, 1⟩, some ⟨2, 2⟩]] ∧ s.out.length = 2 := ⟨_, _, rfl, rfl, by decide, by decide⟩

end MF.Epsilon

namespace MF.Aligner

variable {n : Nat}

/-- **C88** (InputAligner).  After the message `x` has been output, messages with an earlier stamp have no effect but to be counted
as dropped: what is output, and what is queued, is the same without them.  So after a restart of time nothing is output until the
stamps have reached `x` again. -/
theorem C88_aligner_ignores_restart (fuel : Nat) (timeout : Int) (old new : List (Op n)) (s0 s : State n)
    (h0 : run fuel timeout old = .ok s0) (x : Fin n × Ev) (hx : x ∈ s0.out) (h : run fuel timeout (old ++ new) = .ok s) :
    ∃ s', run fuel timeout (old ++ notOlder x.2.stamp new) = .ok s' ∧ s.out = s'.out ∧
      ∀ i, (s.queues i).items = (s'.queues i).items ∧ (s.queues i).processed = (s'.queues i).processed ∧
        (s.queues i).active = (s'.queues i).active := by
  obtain ⟨_, s', h1, d, h2⟩ := run_notOlder h0 hx new s h
  refine ⟨s', h1, ?_⟩
  rw [h2]
  exact ⟨rfl, fun i => ⟨rfl, rfl, rfl⟩⟩

example : ∃ s0 s, run 30 100 ([.add 0 ⟨0, 50⟩, .add 1 ⟨1, 50⟩, .dispatch] : List (Op 2)) = .ok s0 ∧ (0, ⟨0, 50⟩) ∈ s0.out ∧
    run 30 100 ([.add 0 ⟨0, 50⟩, .add 1 ⟨1, 50⟩, .dispatch] ++
      [.add 0 ⟨2, 1⟩, .add 1 ⟨3, 1⟩, .dispatch, .add 0 ⟨4, 60⟩, .add 1 ⟨5, 61⟩, .dispatch] : List (Op 2)) = .ok s ∧
    s.out.map (·.2.id) = [0, 1, 4] := ⟨_, _, rfl, by decide, rfl, by decide⟩

end MF.Aligner

namespace MF.Sequencer

/-- **C88** (TimeSequencer).  After the message `x` has been output, messages with an earlier stamp have no effect at all: after a
restart of time nothing is output until the stamps have reached `x` again. -/
theorem C88_sequencer_ignores_restart (delay : Int) (queueSize : Nat) (old new : List Op) (x : Ev)
    (hx : x ∈ (run delay queueSize old).out) :
    run delay queueSize (old ++ new) = run delay queueSize (old ++ notOlder x.stamp new) :=
  (run_notOlder delay queueSize old hx new).1

example : ⟨1, 20⟩ ∈ (run 5 0 [.add ⟨⟨1, 20⟩, .system⟩, .tick (fun _ => 30)]).out ∧
    (run 5 0 ([.add ⟨⟨1, 20⟩, .system⟩, .tick (fun _ => 30)] ++
      [.add ⟨⟨2, 1⟩, .system⟩, .tick (fun _ => 40), .add ⟨⟨3, 21⟩, .system⟩, .tick (fun _ => 50)])).out = [⟨1, 20⟩, ⟨3, 21⟩] := by
  decide

end MF.Sequencer

namespace MF.Cache

/-- **C88** (Cache, partial).  Let the cache hold the messages `stale` after room has been made for one more, all with later stamps
than everything that follows.  They are never evicted; the messages that follow are kept as by a new cache that has as many places
fewer. -/
theorem C88_cache_smaller_partial (n : Nat) (hn : 0 < n) (old new : List Ev) (hne : new ≠ []) (s0 : State)
    (h0 : run (construct n) (old.map .add) = .ok s0) (stale : List Ev) (hst : stale = s0.items.drop (s0.items.length + 1 - n))
    (hnew : ∀ e ∈ new, ∀ x ∈ stale, e.stamp < x.stamp) :
    stale.length < n ∧ ∃ s f, run (construct n) ((old ++ new).map .add) = .ok s ∧
      run (construct (n - stale.length)) (new.map .add) = .ok f ∧ s.items = f.items ++ stale := by
  have hlen : stale.length < n := by rw [hst, List.length_drop]; omega
  refine ⟨hlen, ?_⟩
  have hsz : s0.size = some n := by rw [(run_size hn _ s0 h0).2, configuredSize_adds]
  obtain ⟨e, new', rfl⟩ : ∃ e l, new = e :: l := by
    cases new with
    | nil => exact absurd rfl hne
    | cons e l => exact ⟨e, l, rfl⟩
  obtain ⟨f1, s1, h1, h2, h3⟩ := add_first hn hsz hst (hnew e (by simp))
  obtain ⟨f2, s2, h4, h5, h6⟩ := run_behind (by omega) new' f1 s1 h3 (fun x hx => hnew x (by simp [hx]))
  refine ⟨s2, f2, ?_, ?_, h6.items⟩
  · rw [List.map_append, run_append, h0]
    simp only [List.map_cons]
    show run s0 (.add e :: new'.map .add) = _
    simp only [run, step, h2]
    exact h5
  · simp only [List.map_cons, run, step, h1]
    exact h4

/-- **C88** (Cache).  In particular, of a full cache only one place is used: it holds the last message received and `n - 1` messages
of before the restart, for as long as the stamps are earlier than these. -/
theorem C88_cache_one_place (n : Nat) (hn : 0 < n) (old new : List Ev) (last : Ev) (s0 : State)
    (h0 : run (construct n) (old.map .add) = .ok s0) (hfull : s0.items.length = n)
    (hnew : ∀ e ∈ new ++ [last], ∀ x ∈ s0.items.drop 1, e.stamp < x.stamp) :
    ∃ s, run (construct n) ((old ++ (new ++ [last])).map .add) = .ok s ∧ s.items = last :: s0.items.drop 1 := by
  have hd : s0.items.drop 1 = s0.items.drop (s0.items.length + 1 - n) := by rw [show s0.items.length + 1 - n = 1 by omega]
  obtain ⟨_, s, f, h1, h2, h3⟩ := C88_cache_smaller_partial n hn old (new ++ [last]) (by simp) s0 h0 (s0.items.drop 1) hd hnew
  refine ⟨s, h1, ?_⟩
  rw [h3]
  rw [show n - (s0.items.drop 1).length = 1 by rw [List.length_drop]; omega] at h2
  obtain ⟨e, l, hl⟩ : ∃ e l, new ++ [last] = e :: l := by
    cases new with
    | nil => exact ⟨last, [], rfl⟩
    | cons e l => exact ⟨e, l ++ [last], rfl⟩
  have hg : (e :: l).getLast (by simp) = last := by simp [← hl]
  rw [hl] at h2
  obtain ⟨g, h4, h5⟩ := run_one l { size := some 1, items := [e], out := [e] } e rfl rfl
  have h6 : run (construct 1) ((e :: l).map .add) = run { size := some 1, items := [e], out := [e] } (l.map .add) := rfl
  rw [h6, h4] at h2
  cases h2
  rw [h5, hg]
  rfl

example : ∃ s0 s, run (construct 3) ([⟨0, 100⟩, ⟨1, 101⟩, ⟨2, 102⟩].map .add) = .ok s0 ∧ s0.items.length = 3 ∧
    run (construct 3) (([⟨0, 100⟩, ⟨1, 101⟩, ⟨2, 102⟩] ++ ([⟨3, 1⟩, ⟨4, 2⟩] ++ [⟨5, 3⟩]) : List Ev).map .add) = .ok s ∧
    s.items = [⟨5, 3⟩, ⟨1, 101⟩, ⟨2, 102⟩] := ⟨_, _, rfl, by decide, rfl, by decide⟩

end MF.Cache

namespace MF.Py

variable {n : Nat}

/-- **C88** (Python TimeSynchronizer).  If one input has `queue_size` messages waiting whose stamps are all later than everything
that follows, nothing is ever output again, and that input keeps exactly these messages. -/
theorem C88_py_exact_blocked [NeZero n] (boom : Nat → Bool) (q : Int) (old new : List (Fin n × Msg)) (s0 s : State n) (i : Fin n)
    (h0 : tsRun boom (construct n q) old = .ok s0) (hfull : ((held s0 i).length : Int) = q)
    (hnew : ∀ op ∈ new, ∀ x ∈ held s0 i, op.2.ev.stamp < x.stamp)
    (h : tsRun boom (construct n q) (old ++ new) = .ok s) : s.out = s0.out ∧ held s i = held s0 i := by
  obtain ⟨_, hinv, hqs⟩ := tsRun_induction (P := fun _ _ => True) trivial (fun _ _ _ _ _ _ _ _ _ _ _ => trivial) old s0 h0
  obtain ⟨h1, h2, _⟩ := tsRun_blocked h0 hinv hqs (i := i) (by simpa [held] using hfull) new (by
    intro op hop k hk
    obtain ⟨v, hv⟩ := mem_keys.1 hk
    have h1 := hnew op hop v (List.mem_map.2 ⟨_, hv, rfl⟩)
    have h2 := (hinv.ok i).stamp _ hv
    dsimp only at h2
    omega) s h
  exact ⟨h1, by unfold held; rw [h2]⟩

example : ∃ s0 s, tsRun noRaise (construct 2 2) (withHeaders [(0, ⟨0, 100⟩), (0, ⟨1, 200⟩)]) = .ok s0 ∧
    held s0 0 = [⟨0, 100⟩, ⟨1, 200⟩] ∧
    tsRun noRaise (construct 2 2) (withHeaders [(0, ⟨0, 100⟩), (0, ⟨1, 200⟩)] ++
      withHeaders [(0, ⟨2, 1⟩), (1, ⟨3, 1⟩), (1, ⟨4, 2⟩), (0, ⟨5, 2⟩)]) = .ok s ∧ s.out.length = 0 ∧
    held s 1 = [⟨3, 1⟩, ⟨4, 2⟩] := ⟨_, _, rfl, by decide, rfl, rfl, by decide⟩

/-- **C88** (Python ApproximateTimeSynchronizer).  The same, if the stamps that follow are earlier by at least the slop. -/
theorem C88_py_approximate_blocked [NeZero n] (boom : Nat → Bool) (slop q : Int) (allow : Bool) (old new : List (Fin n × Msg))
    (s0 s : State n) (i : Fin n) (h0 : approxRun boom slop allow (construct n q) old = .ok s0)
    (hfull : ((held s0 i).length : Int) = q)
    (hnew : ∀ op ∈ new, ∀ x ∈ held s0 i, op.2.ev.stamp < x.stamp ∧ op.2.ev.stamp + slop ≤ x.stamp)
    (h : approxRun boom slop allow (construct n q) (old ++ new) = .ok s) : s.out = s0.out ∧ held s i = held s0 i := by
  obtain ⟨_, hinv, hqs⟩ := approxRun_induction (P := fun _ _ => True) trivial (fun _ _ _ _ _ _ _ _ _ _ _ => trivial) old s0 h0
  obtain ⟨h1, h2, _⟩ := approxRun_blocked h0 hinv hqs (i := i) (by simpa [held] using hfull) new (by
    intro op hop k hk
    obtain ⟨v, hv⟩ := mem_keys.1 hk
    have h1 := hnew op hop v (List.mem_map.2 ⟨_, hv, rfl⟩)
    have h2 := (hinv.ok i).stamp _ hv
    dsimp only at h2
    omega) s h
  exact ⟨h1, by unfold held; rw [h2]⟩

example : ∃ s0 s, approxRun noRaise 10 false (construct 2 1) (withHeaders [(0, ⟨0, 100⟩)]) = .ok s0 ∧ held s0 0 = [⟨0, 100⟩] ∧
    approxRun noRaise 10 false (construct 2 1) (withHeaders [(0, ⟨0, 100⟩)] ++
      withHeaders [(0, ⟨2, 1⟩), (1, ⟨3, 1⟩), (1, ⟨4, 90⟩), (0, ⟨5, 89⟩)]) = .ok s ∧ s.out.length = 0 :=
  ⟨_, _, rfl, by decide, rfl, rfl⟩

end MF.Py
