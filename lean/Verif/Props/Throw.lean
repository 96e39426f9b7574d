import Verif.Proofs.Latest
import Verif.Proofs.ThrowExact
import Verif.Proofs.ThrowAligner
import Verif.Proofs.Sequencer
import Verif.Proofs.ThrowNone
/-
Property C55: callbacks that throw.

`boom k` says that call number `k` throws; it is arbitrary, so the theorems hold for every pattern of exceptions.  Callers catch
the exceptions and go on.  Logs (`out`, `calls`, `log`) hold every call that was started, also those that threw;
`delivered boom log` are the calls that returned normally.
-/
namespace MF.Throw

/-! ### Without exceptions -/

/-- **C55** (consistency of the model).  If no call throws, everything is as in the properties about the single components: the
functions with exceptions are extensions of the functions without. -/
theorem C55_without_exceptions {n : Nat} [NeZero n] {β : Type} (r : Signal.Registry β) (b : β) (delay : Int) (q fuel : Nat)
    (seqOps : List Sequencer.Op) (timeout : Int) (alignerOps : List (Aligner.Op n)) (ops : List (Fin n × Ev)) (eps : Int) :
    (call (fun _ => false) r b).1 = Signal.call r b ∧
    sequencerRun (fun _ => false) delay q seqOps = Sequencer.run delay q seqOps ∧
    alignerRun (fun _ => false) fuel timeout alignerOps = Aligner.run fuel timeout alignerOps ∧
    exactRun (fun _ => false) (ExactTime.construct n q) ops = ExactTime.run (ExactTime.construct n q) ops ∧
    epsilonRun (fun _ => false) fuel (Epsilon.construct n q eps) ops = Epsilon.run fuel (Epsilon.construct n q eps) ops := by
  refine ⟨?_, ?_, ?_, ?_, ?_⟩
  · unfold call Signal.call; rw [invoke_never]
  · have : sequencerStep (fun _ => false) = Sequencer.step := by
      funext s op
      cases op with
      | add m => rfl
      | tick now => unfold sequencerStep sequencerDispatch; simp only; rw [passOn_never]; rfl
    unfold sequencerRun Sequencer.run; rw [this]
  · have : alignerStep (n := n) (fun _ => false) fuel = Aligner.step fuel := by funext s op; exact alignerStep_never fuel s op
    unfold alignerRun Aligner.run; rw [this]
  · have : (fun (s : ExactTime.State n) (op : Fin n × Ev) => (exactAdd (fun _ => false) s op.1 op.2).map (·.1)) =
        fun s op => ExactTime.add s op.1 op.2 := by
      funext s op; rw [exactAdd_never, map_fst_false]
    unfold exactRun ExactTime.run; rw [this]
  · have : (fun (s : Epsilon.State n) (op : Fin n × Ev) => (epsilonAdd (fun _ => false) fuel s op.1 op.2).map (·.1)) =
        fun s op => Epsilon.add fuel s op.1 op.2 := by
      funext s op; rw [epsilonAdd_never, map_fst_false]
    unfold epsilonRun Epsilon.run; rw [this]

/-! ### Signals -/

/-- **C55** (signals).  A call reaches the callbacks in order of registration, up to and including the first that throws, and none
after it; whether or not one throws, the registered callbacks stay registered. -/
theorem C55_signal_stops_at_first_exception {β : Type} (boom : Nat → Bool) (r : Signal.Registry β) (b : β) :
    (call boom r b).1.callbacks = r.callbacks ∧ (call boom r b).1.next = r.next ∧
    ∃ reached rest, r.callbacks = reached ++ rest ∧
      (call boom r b).1.calls = r.calls ++ reached.map (fun k => (k, b)) ∧
      ((call boom r b).2 = false → rest = [] ∧ ∀ k ∈ reached, boom k = false) ∧
      ((call boom r b).2 = true → ∃ before k, reached = before ++ [k] ∧ boom k = true ∧ ∀ j ∈ before, boom j = false) := by
  refine ⟨rfl, rfl, ?_⟩
  exact invoke_spec boom b r.callbacks r.calls

/-- **C55** (signals).  After a call that threw, a call in which no callback throws reaches every registered callback. -/
theorem C55_signal_recovers {β : Type} (boom : Nat → Bool) (r : Signal.Registry β) (b b' : β) :
    (call (fun _ => false) (call boom r b).1 b').1.calls =
      (call boom r b).1.calls ++ r.callbacks.map (fun k => (k, b')) := by
  obtain ⟨_, _, reached, rest, h1, h2, h3, h4⟩ := C55_signal_stops_at_first_exception (fun _ => false) (call boom r b).1 b'
  have hf : (call (fun _ => false) (call boom r b).1 b').2 = false := by
    cases h : (call (fun _ => false) (call boom r b).1 b').2 with
    | false => rfl
    | true => obtain ⟨_, _, _, h5, _⟩ := h4 h; cases h5
  obtain ⟨h5, _⟩ := h3 hf
  rw [h2]
  subst h5
  rw [List.append_nil] at h1
  rw [← h1]; rfl

example : (call (fun k => k == 1) { next := 3, callbacks := [0, 1, 2], calls := [] } 'x').1.calls = [(0, 'x'), (1, 'x')] ∧
    (call (fun k => k == 1) { next := 3, callbacks := [0, 1, 2], calls := [] } 'x').2 = true := by decide

/-! ### Cache -/

/-- **C55** (Cache).  Exceptions thrown by the callbacks of a cache change nothing: after any history the cache, and with it every
answer to every query, is what it would be without exceptions, and the same messages were forwarded. -/
theorem C55_cache_unaffected (boom : Nat → Bool) (s : Cache.State) (ops : List Cache.Op) :
    runE (cacheStep boom) s ops = Cache.run s ops := cacheRun_eq boom ops s

example : ∃ s, runE (cacheStep (fun _ => true)) (Cache.construct 2) [.add ⟨1, 10⟩, .add ⟨2, 5⟩, .add ⟨3, 20⟩] = .ok s ∧
    s.items = [⟨1, 10⟩, ⟨3, 20⟩] ∧ s.out = [⟨1, 10⟩, ⟨2, 5⟩, ⟨3, 20⟩] := ⟨_, rfl, by decide, by decide⟩

/-- **C55** (Cache).  `add` throws iff the call of the callback it makes throws. -/
theorem C55_cache_propagates (boom : Nat → Bool) (s s' : Cache.State) (e : Ev) (thrown : Bool)
    (h : cacheAdd boom s e = .ok (s', thrown)) :
    s'.out = s.out ++ [e] ∧ thrown = boom s.out.length := by
  unfold cacheAdd at h
  cases hi : Cache.insertLocked s e with
  | error f => rw [hi] at h; cases h
  | ok s1 =>
    rw [hi] at h
    have ho : s1.out = s.out := by
      unfold Cache.insertLocked at hi
      cases hn : s.size with
      | none => rw [hn] at hi; cases hi
      | some n =>
        rw [hn] at hi
        dsimp only at hi
        cases hp : Cache.popLoop n s.items with
        | error f => rw [hp] at hi; cases hi
        | ok items => rw [hp] at hi; cases hi; rfl
    cases h
    exact ⟨by unfold Cache.forward; simp [ho], by rw [ho]⟩

example : ∃ s', cacheAdd (fun k => k == 1) { size := some 2, items := [⟨1, 10⟩], out := [⟨1, 10⟩] } ⟨2, 5⟩ = .ok (s', true) := ⟨_, rfl⟩

/-! ### TimeSequencer -/

/-- **C55** (TimeSequencer).  The queue is what it would be without exceptions; the output is a part of the output without
exceptions, in the same order, hence still in order of time. -/
theorem C55_sequencer_same_queue (boom : Nat → Bool) (delay : Int) (q : Nat) (ops : List Sequencer.Op) :
    (sequencerRun boom delay q ops).messages = (Sequencer.run delay q ops).messages ∧
    (sequencerRun boom delay q ops).out.Sublist (Sequencer.run delay q ops).out ∧
    TimeSorted (sequencerRun boom delay q ops).out := by
  obtain ⟨h1, _, _, _, h5⟩ := sequencerRun_eq boom delay q ops
  exact ⟨h1, h5, List.Pairwise.sublist h5 (Sequencer.run_inv delay q ops).out⟩

/-- **C55** (TimeSequencer).  A dispatch takes the due messages off the queue and passes them on in order; if a callback throws
for one of them, this is the last one passed on, and the later due messages (`lost`) are neither passed on nor queued any more.
Without exception nothing is lost. -/
theorem C55_sequencer_loses_rest (boom : Nat → Bool) (s : Sequencer.State) (now : Nat → Int) :
    ∃ sent lost, s.messages = sent ++ lost ++ (sequencerDispatch boom s now).1.messages ∧
      (sequencerDispatch boom s now).1.out = s.out ++ sent ∧
      ((sequencerDispatch boom s now).2 = false → lost = [] ∧
        ∀ k, s.out.length ≤ k → k < s.out.length + sent.length → boom k = false) ∧
      ((sequencerDispatch boom s now).2 = true → 0 < sent.length ∧ boom (s.out.length + sent.length - 1) = true ∧
        ∀ k, s.out.length ≤ k → k + 1 < s.out.length + sent.length → boom k = false) := by
  have hsplit := Sequencer.take_split s.delay now s.messages 0 s.last
  obtain ⟨sent, lost, h1, h2, h3, h4⟩ := passOn_spec boom (Sequencer.takeReady s.delay now 0 s.messages s.last).1 s.out
  refine ⟨sent, lost, ?_, h2, h3, h4⟩
  rw [← h1]
  exact hsplit

/-- Non-vacuity, and the loss: three messages are due, the callback throws for the first, the other two are lost. -/
theorem C55_sequencer_loss_witness :
    (sequencerRun (fun k => k == 0) 0 10 [.add ⟨⟨1, 1⟩, .system⟩, .add ⟨⟨2, 2⟩, .system⟩, .add ⟨⟨3, 3⟩, .system⟩,
      .tick (fun _ => 100), .tick (fun _ => 200)]).out = [⟨1, 1⟩] ∧
    (sequencerRun (fun k => k == 0) 0 10 [.add ⟨⟨1, 1⟩, .system⟩, .add ⟨⟨2, 2⟩, .system⟩, .add ⟨⟨3, 3⟩, .system⟩,
      .tick (fun _ => 100), .tick (fun _ => 200)]).messages = [] := by decide

/-! ### LatestTime -/

/-- **C55** (LatestTime).  Exceptions change nothing. -/
theorem C55_latest_unaffected {n : Nat} {D : Type} [Latest.Arith D] (boom : Nat → Bool) (dflt : Latest.Config D)
    (s : Latest.State n D) (ops : List (Latest.Op n)) :
    runE (fun s op => (latestAdd boom dflt s op).map (·.1)) s ops = Latest.run dflt s ops := latestRun_eq boom dflt ops s

/-- **C55** (LatestTime).  A message outputs at most one set, and `add` throws iff it outputs one and the call of the callback for
it throws. -/
theorem C55_latest_propagates {n : Nat} {D : Type} [Latest.Arith D] (boom : Nat → Bool) (dflt : Latest.Config D)
    (s s' : Latest.State n D) (op : Latest.Op n) (thrown : Bool) (h : latestAdd boom dflt s op = .ok (s', thrown)) :
    (s'.out = s.out ∧ thrown = false) ∨ (∃ t, s'.out = s.out ++ [t] ∧ thrown = boom s.out.length) := by
  unfold latestAdd at h
  cases ha : Latest.add dflt s op.input op.msg op.now with
  | error f => rw [ha] at h; cases h
  | ok s1 =>
    rw [ha] at h
    cases h
    have hout : s'.out = s.out ∨ ∃ t, s'.out = s.out ++ [t] := by
      rcases Latest.add_cases ha with ⟨_, rfl⟩ | ⟨_, _, _, _, _, _, _, _, _, _, ⟨_, h2⟩ | ⟨_, _, _, ⟨t, _, _, h2⟩ | ⟨_, h2⟩⟩⟩
      · exact Or.inl rfl
      · exact Or.inl h2
      · exact Or.inr ⟨t, h2⟩
      · exact Or.inl h2
    rcases hout with h1 | ⟨t, h1⟩
    · exact Or.inl ⟨h1, by simp [h1]⟩
    · exact Or.inr ⟨t, h1, by simp [h1]⟩

/-- Non-vacuity: the third message outputs a set and the callback throws for it. -/
example : ((Latest.run Latest.Fixed.dflt (Latest.initial 2 [])
      [⟨0, ⟨1, 0⟩, ⟨1000000000, .ros⟩⟩, ⟨1, ⟨2, 0⟩, ⟨1050000000, .ros⟩⟩]).bind fun s =>
    (latestAdd (fun k => k == 0) Latest.Fixed.dflt s ⟨0, ⟨3, 0⟩, ⟨1100000000, .ros⟩⟩).map
      (fun x => (x.1.out.length, x.2))).toOption = some (1, true) := by decide

/-! ### InputAligner -/

section
open Aligner
variable {n : Nat}

/-- **C55** (InputAligner).  Over all outputs, also those that threw, the stamps never decrease. -/
theorem C55_aligner_global_order (boom : Nat → Bool) (fuel : Nat) (timeout : Int) (ops : List (Aligner.Op n))
    (s : Aligner.State n) (h : alignerRun boom fuel timeout ops = .ok s) : TimeSorted (s.out.map (·.2)) := (runT_inv h).out

/-- **C55** (InputAligner).  The account of `C40_content` holds with the outputs that did not throw: no message is lost and none
is delivered twice because of an exception. -/
theorem C55_aligner_content (boom : Nat → Bool) (fuel : Nat) (timeout : Int) (ops : List (Aligner.Op n))
    (s : Aligner.State n) (h : alignerRun boom fuel timeout ops = .ok s) (i : Fin n) :
    (getQueueStatus s i).processed = (stream (delivered boom s.out) i).length ∧
    ∃ acc, acc.Sublist (stream (adds ops) i) ∧
      acc.length + (getQueueStatus s i).dropped = (stream (adds ops) i).length ∧
      (stream (delivered boom s.out) i ++ (s.queues i).items).Perm acc ∧
      ∀ t : Int, (stream (delivered boom s.out) i ++ (s.queues i).items).filter (fun x => decide (x.stamp = t)) =
        acc.filter (fun x => decide (x.stamp = t)) := by
  obtain ⟨h1, acc, h2, h3, h4⟩ := runT_acc h i
  exact ⟨h1, acc, h2, by rw [Nat.add_comm]; exact h3, perm_of_at h4, h4⟩

/-- **C55** (InputAligner).  A message whose output threw is the next one of its input to be output again; until then it is the
first in its queue. -/
theorem C55_aligner_retries (boom : Nat → Bool) (fuel : Nat) (timeout : Int) (ops : List (Aligner.Op n))
    (s : Aligner.State n) (h : alignerRun boom fuel timeout ops = .ok s) (pre post : List (Fin n × Ev)) (i : Fin n) (e : Ev)
    (ho : s.out = pre ++ (i, e) :: post) (hb : boom pre.length = true) :
    (stream post i ++ (s.queues i).items).head? = some e := runT_retry h pre i e post ho hb

/-- **C55** (InputAligner).  Every call returns, as in `C41_terminates`. -/
theorem C55_aligner_terminates (boom : Nat → Bool) (timeout : Int) (ops : List (Aligner.Op n)) (h0 : -maxTime < timeout)
    (hst : ∀ m ∈ adds ops, m.2.stamp - maxTime < timeout) (fuel : Nat) (hf : 2 * (adds ops).length + n < fuel) :
    ∃ s, alignerRun boom fuel timeout ops = .ok s := runT_terminates h0 hst hf

/-- The first output throws; the message is output again by the next dispatch. -/
example : ∃ s, alignerRun (fun k => k == 0) 30 100
      ([.add 0 ⟨1, 10⟩, .add 1 ⟨2, 12⟩, .dispatch, .add 0 ⟨3, 20⟩, .dispatch] : List (Aligner.Op 2)) = .ok s ∧
    s.out = [(0, ⟨1, 10⟩), (0, ⟨1, 10⟩), (1, ⟨2, 12⟩)] ∧ delivered (fun k => k == 0) s.out = [(0, ⟨1, 10⟩), (1, ⟨2, 12⟩)] ∧
    (s.queues 0).items = [⟨3, 20⟩] := ⟨_, rfl, by decide, by decide, by decide⟩

end

/-! ### ExactTime -/

section
open ExactTime
variable {n : Nat}

/-- **C55** (ExactTime).  Whatever throws, no call has undefined behaviour. -/
theorem C55_exact_no_fault [NeZero n] (boom : Nat → Bool) (q : Nat) (ops : List (Fin n × Ev)) :
    ∃ s, exactRun boom (construct n q) ops = .ok s := exactRun_ok boom q ops

/-- **C55** (ExactTime).  Every set given to the output callbacks is complete, all its messages carry the same stamp, and each was
added on its input. -/
theorem C55_exact_output [NeZero n] (boom : Nat → Bool) (q : Nat) (ops : List (Fin n × Ev)) (s : State n)
    (h : exactRun boom (construct n q) ops = .ok s) (t : Tuple n) (ht : t ∈ outs s.log) :
    Complete t ∧ (∃ T, HasStamp t T) ∧ ∀ i e, t i = some e → (i, e) ∈ ops := (exactRun_made ops s h).outs t ht

/-- **C55** (ExactTime).  A message added `k` times is at most `k` times in a set output without exception, replaced or pending: no
message is delivered twice.  It is at least `k` times in one of these or in a set given to the drop callbacks: no message is lost.
If no drop callback throws, the account is exact. -/
theorem C55_exact_accounting [NeZero n] (boom : Nat → Bool) (q : Nat) (ops : List (Fin n × Ev)) (s : State n)
    (h : exactRun boom (construct n q) ops = .ok s) (i : Fin n) (e : Ev) :
    let kept := occurrences i e (outs (delivered boom s.log)) + (replacedOn i s.log).count e + occurrences i e (pending s)
    kept ≤ (stream ops i).count e ∧ (stream ops i).count e ≤ kept + occurrences i e (drops s.log) ∧
    ((∀ k t, s.log[k]? = some (.drop t) → boom k = false) →
      (stream ops i).count e = kept + occurrences i e (drops s.log)) := by
  obtain ⟨h1, h2, h3⟩ := exactRun_books ops s h i e
  refine ⟨h1, h2, fun hn => h3 ?_⟩
  rintro ⟨k, t, k1, k2⟩
  rw [hn k t k1] at k2
  cases k2

/-- **C55** (ExactTime).  After every call that does not throw at most `queue_size` sets are pending. -/
theorem C55_exact_bounded_after_return [NeZero n] (boom : Nat → Bool) (q : Nat) (hq : 0 < q) (ops : List (Fin n × Ev))
    (s : State n) (h : exactRun boom (construct n q) ops = .ok s) (i : Fin n) (e : Ev) (s' : State n)
    (hs : exactAdd boom s i e = .ok (s', false)) : (pending s').length ≤ q := by
  obtain ⟨hw, hsq⟩ := exactRun_wf _ _ h
  obtain ⟨s1, thr, h1, _, h3, _⟩ := exactAdd_spec boom s hw.stamps hw.keys i e
  rw [h1] at hs
  cases hs
  rw [hsq] at h3
  unfold pending
  rw [List.length_map]
  exact h3 rfl hq

/-- **C55** (ExactTime).  With two inputs or more, as long as no drop callback throws, never more than `queue_size` sets are
pending. -/
theorem C55_exact_bounded_partial [NeZero n] (hn : 2 ≤ n) (boom : Nat → Bool) (q : Nat) (hq : 0 < q) (ops : List (Fin n × Ev))
    (s : State n) (h : exactRun boom (construct n q) ops = .ok s)
    (hd : ∀ k t, s.log[k]? = some (.drop t) → boom k = false) : (pending s).length ≤ q := by
  unfold pending
  rw [List.length_map]
  apply exactRun_bound hn hq ops s h
  rintro ⟨k, t, k1, k2⟩
  rw [hd k t k1] at k2
  cases k2

/-- **C55** (ExactTime).  A call that throws either called a drop callback last, or it called the output callbacks with a set that
is still pending. -/
theorem C55_exact_set_stays [NeZero n] (boom : Nat → Bool) (q : Nat) (ops : List (Fin n × Ev)) (s : State n)
    (h : exactRun boom (construct n q) ops = .ok s) (i : Fin n) (e : Ev) (s' : State n)
    (hs : exactAdd boom s i e = .ok (s', true)) :
    (∃ k t, s'.log[k]? = some (.drop t) ∧ boom k = true) ∨
    ∃ t, s'.log.getLast? = some (.out t) ∧ t ∈ pending s' ∧ t i = some e := by
  obtain ⟨hw, hsq⟩ := exactRun_wf _ _ h
  obtain ⟨s1, thr, h1, _, _, h4⟩ := exactAdd_spec boom s hw.stamps hw.keys i e
  rw [h1] at hs
  cases hs
  rcases h4 rfl with h5 | ⟨_, h5⟩
  · exact Or.inl h5
  · right
    obtain ⟨a, o, b, _, _, g3, _, _, _⟩ := stored_spec hw i e
    refine ⟨setOf s i e, by rw [h5]; simp, ?_, by simp [setOf]⟩
    rw [h5]
    unfold pending
    simp only
    rw [g3]
    simp

/-- **C55** (ExactTime).  A complete set is pending only because its output threw. -/
theorem C55_exact_complete_pending [NeZero n] (boom : Nat → Bool) (q : Nat) (ops : List (Fin n × Ev)) (s : State n)
    (h : exactRun boom (construct n q) ops = .ok s) (t : Tuple n) (ht : t ∈ pending s) (hc : Complete t) :
    ∃ k, s.log[k]? = some (.out t) ∧ boom k = true := exactRun_complete ops s h t ht hc

/-- Non-vacuity, and the fate of such a set: its output throws; it is not output again when other sets are output, but dropped as
an old one, although it is complete. -/
theorem C55_exact_complete_set_dropped : ∃ s, exactRun (fun k => k == 0) (construct 2 10)
      [(0, ⟨1, 5⟩), (1, ⟨2, 5⟩), (0, ⟨3, 6⟩), (1, ⟨4, 6⟩)] = .ok s ∧
    (outs s.log).map List.ofFn = [[some ⟨1, 5⟩, some ⟨2, 5⟩], [some ⟨3, 6⟩, some ⟨4, 6⟩]] ∧
    (outs (delivered (fun k => k == 0) s.log)).map List.ofFn = [[some ⟨3, 6⟩, some ⟨4, 6⟩]] ∧
    (drops s.log).map List.ofFn = [[some ⟨1, 5⟩, some ⟨2, 5⟩]] ∧ s.tuples.length = 0 := by
  refine ⟨_, rfl, ?_, ?_, ?_, ?_⟩ <;> decide

/-- It is output again if another message with its stamp arrives. -/
example : ∃ s, exactRun (fun k => k == 0) (construct 2 10) [(0, ⟨1, 5⟩), (1, ⟨2, 5⟩), (0, ⟨3, 5⟩)] = .ok s ∧
    (outs s.log).map List.ofFn = [[some ⟨1, 5⟩, some ⟨2, 5⟩], [some ⟨3, 5⟩, some ⟨2, 5⟩]] ∧ replacedOn 0 s.log = [⟨1, 5⟩] ∧
    s.tuples.length = 0 := by
  refine ⟨_, rfl, ?_, ?_, ?_⟩ <;> decide

/-- When a drop callback throws, the queue exceeds `queue_size`, and the set is given to the drop callbacks again. -/
theorem C55_exact_drop_throws_exceeds : ∃ s, exactRun (fun _ => true) (construct 2 1)
      [(0, ⟨1, 5⟩), (0, ⟨2, 6⟩), (0, ⟨3, 7⟩)] = .ok s ∧ s.tuples.length = 3 ∧
    (drops s.log).map List.ofFn = [[some ⟨1, 5⟩, none], [some ⟨1, 5⟩, none]] := by
  refine ⟨_, rfl, ?_, ?_⟩ <;> decide

end

/-! ### ApproximateEpsilonTime -/

section
open Epsilon
variable {n : Nat}

/-- **C55** (ApproximateEpsilonTime).  Every set given to the callbacks is complete, holds added messages, and no two of its stamps
differ by more than epsilon. -/
theorem C55_epsilon_output [NeZero n] (boom : Nat → Bool) (fuel q : Nat) (eps : Int) (ops : List (Fin n × Ev)) (s : State n)
    (h : epsilonRun boom fuel (construct n q eps) ops = .ok s) (t : Fin n → Option Ev) (ht : t ∈ s.out) :
    (∀ i, ∃ e, t i = some e ∧ (i, e) ∈ ops) ∧
    ∀ i j x y, i ≠ j → t i = some x → t j = some y → x.stamp ≤ y.stamp + eps := eps_run_output ops s h t ht

/-- **C55** (ApproximateEpsilonTime).  Sets delivered without exception use every message once, in order of arrival. -/
theorem C55_epsilon_each_message_once [NeZero n] (boom : Nat → Bool) (fuel q : Nat) (eps : Int) (ops : List (Fin n × Ev))
    (s : State n) (h : epsilonRun boom fuel (construct n q eps) ops = .ok s) (i : Fin n) :
    ∃ consumed, stream ops i = consumed ++ s.events i ∧
      List.Sublist ((delivered boom s.out).map (· i)) (consumed.map some) := eps_run_history ops s h i

/-- **C55** (ApproximateEpsilonTime).  A set whose output threw is the next one to be output. -/
theorem C55_epsilon_retries [NeZero n] (boom : Nat → Bool) (fuel q : Nat) (eps : Int) (ops : List (Fin n × Ev)) (s : State n)
    (h : epsilonRun boom fuel (construct n q eps) ops = .ok s) (pre post : List (Fin n → Option Ev)) (t u : Fin n → Option Ev)
    (ho : s.out = pre ++ t :: u :: post) (hb : boom pre.length = true) : u = t := eps_run_retry ops s h pre t u post ho hb

/-- **C55** (ApproximateEpsilonTime).  As long as no input received more than `queue_size` messages, exceptions only delay output:
the sets delivered without exception are the first ones of the sets output if nothing throws, and once some input has no
message waiting they are all of them. -/
theorem C55_epsilon_same_sets [NeZero n] (boom : Nat → Bool) (fuel fuel' q : Nat) (eps : Int) (ops : List (Fin n × Ev))
    (s s' : State n) (h : epsilonRun boom fuel (construct n q eps) ops = .ok s)
    (h' : Epsilon.run fuel' (construct n q eps) ops = .ok s') (hq : ∀ i, (stream ops i).length ≤ q) :
    delivered boom s.out <+: s'.out ∧ ((∃ i, s.events i = []) → delivered boom s.out = s'.out) :=
  steps_prefix (eps_run_canonical ops s h hq) (run_canonical ops s' h' hq) (Epsilon.run_inv h').1.someEmpty

/-- **C55** (ApproximateEpsilonTime).  Every input buffers at most `queue_size` messages plus one for every exception so far. -/
theorem C55_epsilon_bound_partial [NeZero n] (boom : Nat → Bool) (fuel q : Nat) (eps : Int) (ops : List (Fin n × Ev)) (s : State n)
    (h : epsilonRun boom fuel (construct n q eps) ops = .ok s) (i : Fin n) :
    (s.events i).length ≤ q + throws boom s.out := by
  obtain ⟨hinv, _, hq⟩ := eps_run_inv ops s h
  have := hinv.bound i
  rw [hq] at this
  exact this

/-- **C55** (ApproximateEpsilonTime).  With a non-negative epsilon every call returns. -/
theorem C55_epsilon_terminates [NeZero n] (boom : Nat → Bool) (q : Nat) (eps : Int) (heps : 0 ≤ eps) (ops : List (Fin n × Ev))
    (hmax : ∀ op ∈ ops, op.2.stamp ≤ maxTime) (fuel : Nat) (hfuel : ops.length ≤ fuel) :
    ∃ s, epsilonRun boom fuel (construct n q eps) ops = .ok s := eps_run_terminates boom q eps heps ops hmax fuel hfuel

/-- Non-vacuity, and the bound is reached: with `queue_size` 1 and two exceptions an input buffers three messages, and keeps more
than `queue_size` also after the callbacks stop throwing. -/
theorem C55_epsilon_queue_exceeded : ∃ s, epsilonRun (fun k => k == 0 || k == 1) 10 (construct 2 1 0)
      [(0, ⟨1, 5⟩), (1, ⟨2, 5⟩), (0, ⟨3, 6⟩), (0, ⟨4, 7⟩)] = .ok s ∧
    s.out.map List.ofFn = [[some ⟨1, 5⟩, some ⟨2, 5⟩], [some ⟨1, 5⟩, some ⟨2, 5⟩], [some ⟨1, 5⟩, some ⟨2, 5⟩]] ∧
    List.ofFn s.events = [[⟨3, 6⟩, ⟨4, 7⟩], []] := by
  refine ⟨_, rfl, ?_, ?_⟩ <;> decide

example : ∃ s, epsilonRun (fun k => k == 0 || k == 1) 10 (construct 2 1 0)
      [(0, ⟨1, 5⟩), (1, ⟨2, 5⟩), (0, ⟨3, 6⟩)] = .ok s ∧ throws (fun k => k == 0 || k == 1) s.out = 2 ∧
    List.ofFn s.events = [[⟨1, 5⟩, ⟨3, 6⟩], [⟨2, 5⟩]] := by
  refine ⟨_, rfl, ?_, ?_⟩ <;> decide

end

end MF.Throw
