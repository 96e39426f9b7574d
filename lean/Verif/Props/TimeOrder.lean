import Verif.Proofs.TimeOrder
import Verif.Props.Pairing
import Verif.Props.Pipeline
/-
C112: messages delivered in time order over all inputs.  The queue size the approximate synchronizers need.
-/
namespace MF.Epsilon

/-- **C112** (ApproximateEpsilonTime, two inputs).  Let the messages of both inputs together be delivered in time order, and let each
input have at most `queue_size` messages in any interval of length epsilon.  Then every call returns, every larger queue size gives the
same output, every pair within epsilon has a member in an output set, and no way of putting the messages together in pairs
within epsilon has more of them.  An input may pause as long as it likes. -/
theorem C112_epsilon (q : Nat) (hq : 0 < q) (eps : Int) (heps : 0 ≤ eps) (ops : List (Fin 2 × Ev)) (ho : InTimeOrder ops)
    (hw : Approx.AtMostWithin q eps ops) (hmax : ∀ op ∈ ops, op.2.stamp ≤ maxTime) (fuel : Nat) (hfuel : ops.length ≤ fuel) :
    ∃ s, run fuel (construct 2 q eps) ops = .ok s ∧
      (∀ q', q ≤ q' → ∃ s', run fuel (construct 2 q' eps) ops = .ok s' ∧ s'.out = s.out) ∧
      (∀ x y, (0, x) ∈ ops → (1, y) ∈ ops → x.stamp - y.stamp ≤ eps → y.stamp - x.stamp ≤ eps →
        ∃ t ∈ s.out, t 0 = some x ∨ t 1 = some y) ∧
      ∀ L, Pairing eps (stream ops 0) (stream ops 1) L → L.length ≤ s.out.length := by
  obtain ⟨s, h, h1⟩ := C107_finds_matches q hq eps heps ops ho.sorted hmax (recent_of_order ho hw) fuel hfuel
  refine ⟨s, h, fun q' hq' => ?_, h1, fun L hL => C110_maximum fuel q hq eps heps ops s h ho.sorted hmax (recent_of_order ho hw) L hL⟩
  have hw' : Approx.AtMostWithin q' eps ops := fun i T => Nat.le_trans (hw i T) hq'
  obtain ⟨s', h', _⟩ := C107_finds_matches q' (by omega) eps heps ops ho.sorted hmax (recent_of_order ho hw') fuel hfuel
  exact ⟨s', h', (C107_queue_size_irrelevant fuel fuel q q' hq (by omega) eps heps ops ops s s' h h' (fun _ => rfl) ho.sorted hmax
    (recent_of_order ho hw) (recent_of_order ho hw')).symm⟩

/-- Input 1 pauses while input 0 goes on for six messages, 20 apart. -/
def pauseOps : List (Fin 2 × Ev) :=
  [(0, ⟨0, 0⟩), (1, ⟨1, 3⟩), (0, ⟨2, 20⟩), (0, ⟨3, 40⟩), (0, ⟨4, 60⟩), (0, ⟨5, 80⟩), (0, ⟨6, 100⟩), (1, ⟨7, 105⟩), (1, ⟨8, 116⟩), (0, ⟨9, 120⟩)]

theorem pauseOps_within : Approx.AtMostWithin 1 10 pauseOps :=
  AtMostWithin.of_far (by intro i; unfold FarApart; revert i; decide) (by decide)

/-- The hypotheses hold with a queue of one place, although input 0 gets six messages ahead, and three pairs are output. -/
example : InTimeOrder pauseOps ∧ Approx.AtMostWithin 1 10 pauseOps ∧ (∀ op ∈ pauseOps, op.2.stamp ≤ maxTime) ∧
    ¬ AheadAtMost 4 10 pauseOps ∧
    ∃ s, run 20 (construct 2 1 10) pauseOps = .ok s ∧
      s.out.map List.ofFn = [[some ⟨0, 0⟩, some ⟨1, 3⟩], [some ⟨6, 100⟩, some ⟨7, 105⟩], [some ⟨9, 120⟩, some ⟨8, 116⟩]] := by
  refine ⟨by unfold InTimeOrder TimeSorted; decide, pauseOps_within, by decide, fun h => ?_, _, rfl, by decide⟩
  have := h 7 0 1 (by decide)
  revert this; decide

/-- **C112** (the density is needed).  Two messages within epsilon do not fit in a queue of one place. -/
theorem C112_epsilon_density_needed : ∃ ops : List (Fin 2 × Ev), InTimeOrder ops ∧ Approx.AtMostWithin 2 10 ops ∧
    (∃ s, run 20 (construct 2 1 10) ops = .ok s ∧ s.out.length = 1) ∧
    ∃ s, run 20 (construct 2 2 10) ops = .ok s ∧ s.out.length = 2 := by
  refine ⟨[(0, ⟨0, 0⟩), (0, ⟨1, 2⟩), (1, ⟨2, 4⟩), (1, ⟨3, 6⟩)], by unfold InTimeOrder TimeSorted; decide, fun i T => ?_,
    ⟨_, rfl, by decide⟩, _, rfl, by decide⟩
  refine Nat.le_trans (List.length_filter_le _ _) ?_
  revert i; decide

/-- **C112** (two inputs are needed).  With three inputs a larger queue can lose a set, although the messages are delivered in time
order and no input has two messages within epsilon. -/
theorem C112_epsilon_three_inputs : ∃ ops : List (Fin 3 × Ev), InTimeOrder ops ∧ Approx.AtMostWithin 1 10 ops ∧
    (∃ s, run 20 (construct 3 1 10) ops = .ok s ∧ s.out.map List.ofFn = [[some ⟨2, 15⟩, some ⟨1, 9⟩, some ⟨3, 16⟩]]) ∧
    ∃ s, run 20 (construct 3 2 10) ops = .ok s ∧ s.out.length = 0 := by
  refine ⟨[(0, ⟨0, 0⟩), (1, ⟨1, 9⟩), (0, ⟨2, 15⟩), (2, ⟨3, 16⟩)], by unfold InTimeOrder TimeSorted; decide,
    AtMostWithin.of_far (fun i => ?_) (by decide), ⟨_, rfl, by decide⟩, _, rfl, by decide⟩
  unfold FarApart; revert i; decide

/-- **C112** (ApproximateEpsilonTime, any number of inputs).  If moreover the stamps of each input are more than `2 * epsilon` apart, a
queue of one place is enough, whatever the number of inputs: the sets output are exactly the matching ones. -/
theorem C112_epsilon_sparse {n : Nat} [NeZero n] (q : Nat) (hq : 0 < q) (eps : Int) (heps : 0 ≤ eps) (ops : List (Fin n × Ev))
    (ho : InTimeOrder ops) (ha : ∀ i, FarApart (2 * eps) (stream ops i)) (hmax : ∀ op ∈ ops, op.2.stamp ≤ maxTime)
    (fuel : Nat) (hfuel : ops.length ≤ fuel) :
    ∃ s, run fuel (construct n q eps) ops = .ok s ∧ s.out.Nodup ∧
      ∀ t, t ∈ s.out ↔ ∃ T, t = (fun i => some (T i)) ∧ Matches eps ops T :=
  C108_epsilon q hq eps heps ops ho.sorted ha hmax
    (recent_of_order ho (AtMostWithin.of_far (fun i => (ha i).imp (fun h => by omega)) hq)) fuel hfuel

/-- Three inputs, the second of which pauses; queues of one place. -/
def pauseOps3 : List (Fin 3 × Ev) :=
  [(0, ⟨0, 0⟩), (1, ⟨1, 3⟩), (2, ⟨2, 7⟩), (0, ⟨3, 30⟩), (2, ⟨4, 31⟩), (0, ⟨5, 60⟩), (2, ⟨6, 62⟩), (2, ⟨7, 90⟩), (0, ⟨8, 91⟩), (1, ⟨9, 99⟩)]

example : InTimeOrder pauseOps3 ∧ (∀ i, FarApart (2 * 10) (stream pauseOps3 i)) ∧ (∀ op ∈ pauseOps3, op.2.stamp ≤ maxTime) ∧
    ∃ s, run 20 (construct 3 1 10) pauseOps3 = .ok s ∧
      s.out.map List.ofFn = [[some ⟨0, 0⟩, some ⟨1, 3⟩, some ⟨2, 7⟩], [some ⟨8, 91⟩, some ⟨9, 99⟩, some ⟨7, 90⟩]] := by
  refine ⟨by unfold InTimeOrder TimeSorted; decide, fun i => ?_, by decide, _, rfl, by decide⟩
  unfold FarApart; revert i; decide

end MF.Epsilon

namespace MF.Pipeline

/-- **C112** (behind an InputAligner).  Two inputs, messages in any order.  If each input is given at most `queue_size` messages in any
interval of length epsilon, an ApproximateEpsilonTime synchronizer behind an InputAligner puts as many of the dispatched
messages together as possible, and every larger queue size gives the same output. -/
theorem C112_aligner_epsilon (fuel : Nat) (timeout : Int) (q : Nat) (hq : 0 < q) (eps : Int) (heps : 0 ≤ eps) (ops : List (Aligner.Op 2))
    (hw : Approx.AtMostWithin q eps (Aligner.adds ops)) (s : Aligner.State 2) (h : Aligner.run fuel timeout ops = .ok s)
    (hmax : ∀ m ∈ s.out, m.2.stamp ≤ Epsilon.maxTime) (hfuel : s.out.length ≤ fuel) :
    ∃ d, alignerEpsilon fuel timeout q eps ops = .ok (s, d) ∧
      (∀ q', q ≤ q' → ∃ d', alignerEpsilon fuel timeout q' eps ops = .ok (s, d') ∧ d'.out = d.out) ∧
      (∀ x y, x ∈ stream s.out 0 → y ∈ stream s.out 1 → x.stamp - y.stamp ≤ eps → y.stamp - x.stamp ≤ eps →
        ∃ t ∈ d.out, t 0 = some x ∨ t 1 = some y) ∧
      ∀ L, Pairing eps (stream s.out 0) (stream s.out 1) L → L.length ≤ d.out.length := by
  have hw' : Approx.AtMostWithin q eps s.out := AtMostWithin.of_perm hw (fun i => by
    obtain ⟨acc, h1, _, h2, _⟩ := Aligner.C40_content fuel timeout ops s h i
    exact ⟨acc, h1, _, h2⟩)
  obtain ⟨d, h1, h2, h3, h4⟩ := Epsilon.C112_epsilon q hq eps heps s.out (Aligner.C39_global_order fuel timeout ops s h) hw' hmax fuel hfuel
  refine ⟨d, alignerEpsilon_ok.2 ⟨h, h1⟩, fun q' hq' => ?_, fun x y hx hy => h3 x y (mem_stream.1 hx) (mem_stream.1 hy), h4⟩
  obtain ⟨d', g1, g2⟩ := h2 q' hq'
  exact ⟨d', alignerEpsilon_ok.2 ⟨h, g1⟩, g2⟩

/-- Messages of two inputs in disorder, and a queue of one place. -/
def disorder : List (Aligner.Op 2) :=
  [.add 0 ⟨0, 40⟩, .add 0 ⟨1, 20⟩, .add 1 ⟨2, 43⟩, .add 0 ⟨3, 60⟩, .add 1 ⟨4, 19⟩, .add 1 ⟨5, 70⟩, .dispatch]

example : Approx.AtMostWithin 1 10 (Aligner.adds disorder) ∧ ∃ s d, alignerEpsilon 30 100 1 10 disorder = .ok (s, d) ∧
    s.out.length = 5 ∧ d.out.map List.ofFn = [[some ⟨1, 20⟩, some ⟨4, 19⟩], [some ⟨0, 40⟩, some ⟨2, 43⟩]] := by
  refine ⟨AtMostWithin.of_far (fun i => ?_) (by decide), _, _, rfl, by decide, by decide⟩
  unfold FarApart; revert i; decide

/-- **C112** (behind an InputAligner, any number of inputs).  Messages in any order, stamps of each input more than `2 * epsilon` apart:
an ApproximateEpsilonTime synchronizer with any queue size behind an InputAligner outputs exactly the matching sets of
the dispatched messages. -/
theorem C112_aligner_sparse {n : Nat} [NeZero n] (fuel : Nat) (timeout : Int) (q : Nat) (hq : 0 < q) (eps : Int) (heps : 0 ≤ eps)
    (ops : List (Aligner.Op n)) (ha : ∀ i, FarApart (2 * eps) (stream (Aligner.adds ops) i)) (s : Aligner.State n)
    (h : Aligner.run fuel timeout ops = .ok s) (hmax : ∀ m ∈ s.out, m.2.stamp ≤ Epsilon.maxTime) (hfuel : s.out.length ≤ fuel) :
    ∃ d, alignerEpsilon fuel timeout q eps ops = .ok (s, d) ∧ d.out.Nodup ∧
      ∀ t, t ∈ d.out ↔ ∃ T, t = (fun i => some (T i)) ∧ Matches eps s.out T := by
  have ha' : ∀ i, FarApart (2 * eps) (stream s.out i) := fun i => by
    obtain ⟨acc, h1, _, h2, _⟩ := Aligner.C40_content fuel timeout ops s h i
    exact (ha i).of_perm h1 h2
  obtain ⟨d, h1, h2⟩ := Epsilon.C112_epsilon_sparse q hq eps heps s.out (Aligner.C39_global_order fuel timeout ops s h) ha' hmax fuel hfuel
  exact ⟨d, alignerEpsilon_ok.2 ⟨h, h1⟩, h2⟩

/-- Three inputs in disorder. -/
def disorder3 : List (Aligner.Op 3) :=
  [.add 0 ⟨0, 40⟩, .add 2 ⟨6, 45⟩, .add 0 ⟨1, 15⟩, .add 1 ⟨2, 43⟩, .add 0 ⟨3, 65⟩, .add 1 ⟨4, 19⟩, .add 2 ⟨7, 22⟩, .add 1 ⟨5, 70⟩,
   .add 2 ⟨8, 80⟩, .dispatch]

example : (∀ i, FarApart (2 * 10) (stream (Aligner.adds disorder3) i)) ∧ ∃ s d, alignerEpsilon 30 100 1 10 disorder3 = .ok (s, d) ∧
    s.out.length = 7 ∧
    d.out.map List.ofFn = [[some ⟨1, 15⟩, some ⟨4, 19⟩, some ⟨7, 22⟩], [some ⟨0, 40⟩, some ⟨2, 43⟩, some ⟨6, 45⟩]] := by
  refine ⟨fun i => ?_, _, _, rfl, by decide, by decide⟩
  unfold FarApart; revert i; decide

end MF.Pipeline

namespace MF.Py

variable {n : Nat}

/-- **C112** (Python ApproximateTimeSynchronizer, any number of inputs).  Let the accepted messages be delivered in time order over all
inputs, with at most `queue_size` messages of an input in any interval of length `slop - 1`.  Then every larger queue size
gives the same output, and if no two messages of an input have the same stamp, every choice of one message per input within the
slop has a member in an output set. -/
theorem C112_python [NeZero n] (slop : Int) (allow : Bool) (q : Nat) (hq : 0 < q) (ops : List (Fin n × Msg))
    (ho : InTimeOrder (accepted allow ops)) (hw : Approx.AtMostWithin q (slop - 1) (accepted allow ops))
    (hd : ∀ i, DistinctStamps (stream (accepted allow ops) i)) :
    ∃ s, approxRun noRaise slop allow (construct n q) ops = .ok s ∧
      (∀ q', q ≤ q' → ∃ s', approxRun noRaise slop allow (construct n q') ops = .ok s' ∧ s'.out = s.out) ∧
      ∀ T : Fin n → Ev, (∀ i, (i, T i) ∈ accepted allow ops) → (∀ i j, (T i).stamp - (T j).stamp < slop) →
        ∃ t ∈ s.out, ∃ i, t i = T i := by
  have hr := reach_of_order hq ho hw
  obtain ⟨s, h, h1⟩ := C106_finds_matches slop allow q ops hd hr
  refine ⟨s, h, fun q' hq' => ?_, h1⟩
  have hr' := reach_of_order (q := q') (by omega) ho (fun i T => Nat.le_trans (hw i T) hq')
  obtain ⟨s', h', _⟩ := C106_finds_matches slop allow q' ops hd hr'
  have := C106_queue_size_irrelevant noRaise slop allow q q' ops hr hr'
  rw [h, h'] at this
  simp only [Except.map, Except.ok.injEq, Prod.mk.injEq] at this
  exact ⟨s', h', this.1.symm⟩

/-- **C112** (Python, sparse inputs).  Stamps more than `2 * (slop - 1)` apart: a queue of one place is enough, and the sets output are
exactly the matching ones. -/
theorem C112_python_sparse [NeZero n] (slop : Int) (hslop : 0 < slop) (allow : Bool) (q : Nat) (hq : 0 < q) (ops : List (Fin n × Msg))
    (ho : InTimeOrder (accepted allow ops)) (ha : ∀ i, FarApart (2 * (slop - 1)) (stream (accepted allow ops) i)) :
    ∃ s, approxRun noRaise slop allow (construct n q) ops = .ok s ∧ s.out.Nodup ∧
      ∀ T, T ∈ s.out ↔ Matches (slop - 1) (accepted allow ops) T :=
  C108_python slop hslop allow q ops ha
    (reach_of_order hq ho (AtMostWithin.of_far (fun i => (ha i).imp (fun h => by omega)) hq))

example : InTimeOrder (accepted false (withHeaders Epsilon.pauseOps3)) ∧
    (∀ i, FarApart (2 * (11 - 1)) (stream (accepted false (withHeaders Epsilon.pauseOps3)) i)) ∧
    ∃ s, approxRun noRaise 11 false (construct 3 1) (withHeaders Epsilon.pauseOps3) = .ok s ∧
      s.out.map List.ofFn = [[⟨0, 0⟩, ⟨1, 3⟩, ⟨2, 7⟩], [⟨8, 91⟩, ⟨9, 99⟩, ⟨7, 90⟩]] := by
  refine ⟨by unfold InTimeOrder TimeSorted; decide, fun i => ?_, _, rfl, by decide⟩
  unfold FarApart; revert i; decide

/-- The sample of `C112_epsilon`, with a queue of one place. -/
example : InTimeOrder (accepted false (withHeaders Epsilon.pauseOps)) ∧
    Approx.AtMostWithin 1 (11 - 1) (accepted false (withHeaders Epsilon.pauseOps)) ∧
    (∀ i, DistinctStamps (stream (accepted false (withHeaders Epsilon.pauseOps)) i)) ∧
    ∃ s, approxRun noRaise 11 false (construct 2 1) (withHeaders Epsilon.pauseOps) = .ok s ∧
      s.out.map List.ofFn = [[⟨0, 0⟩, ⟨1, 3⟩], [⟨6, 100⟩, ⟨7, 105⟩], [⟨9, 120⟩, ⟨8, 116⟩]] := by
  refine ⟨?_, Epsilon.pauseOps_within, fun i => ?_, _, rfl, by decide⟩
  · unfold InTimeOrder TimeSorted; decide
  · unfold DistinctStamps; revert i; decide

end MF.Py

namespace MF.Approx

/-- **C112** (ApproximateTime).  Here no queue size is enough: for every `queue_size` there are two inputs delivered in time order, with
stamps more than twice the maximum interval apart, one of which pauses, such that nothing is output, while with one place
more a set is.  A set waits in the queues until its input with the oldest message delivers something, and is lost if the queue of
the other one overflows in between. -/
theorem C112_approximate_no_queue_size (q : Nat) (hq : 0 < q) (fuel : Nat)
    (hfuel : (pausingEnd q).length * (pausingEnd q).length + (pausingEnd q).length ≤ fuel) :
    InTimeOrder (pausingEnd q) ∧ (∀ i, FarApart (2 * 50) (stream (pausingEnd q) i)) ∧ AtMostWithin 1 50 (pausingEnd q) ∧
    (∃ s, run fuel ⟨q, 50, fun x => x, fun _ => 0⟩ (pausingEnd q) = .ok s ∧ s.out = []) ∧
    ∃ s, run fuel ⟨q + 1, 50, fun x => x, fun _ => 0⟩ (pausingEnd q) = .ok s ∧
      (fun i => if i = 0 then some ⟨0, 0⟩ else some ⟨1, 1⟩) ∈ s.out := by
  refine ⟨order_pausing q, apart_pausing q, atMostWithin_of_apart (by decide) (apart_pausing q) (by decide), ?_, pausing_found q fuel hq hfuel⟩
  obtain ⟨s, h⟩ := C28_terminates fuel (pauseCfg q) hq (pausingEnd q) hfuel
  refine ⟨s, h, ?_⟩
  have hlen : (pausingEnd q).length = q + 3 := by simp [pausingEnd, pausing]
  have h20 : 20 ≤ fuel := by
    refine Nat.le_trans ?_ hfuel
    rw [hlen]
    have : 4 * 4 ≤ (q + 3) * (q + 3) := Nat.mul_le_mul (by omega) (by omega)
    omega
  obtain ⟨F, rfl⟩ : ∃ F, fuel = F + 20 := ⟨fuel - 20, by omega⟩
  exact pausing_lost hq h

/-- With queues of three places. -/
example : pausingEnd 3 = [(0, ⟨0, 0⟩), (1, ⟨1, 1⟩), (1, ⟨2, 200⟩), (1, ⟨3, 400⟩), (1, ⟨4, 600⟩), (0, ⟨5, 800⟩)] ∧
    (∃ s, run 100 ⟨3, 50, fun x => x, fun _ => 0⟩ (pausingEnd 3) = .ok s ∧ s.out.length = 0) ∧
    ∃ s, run 100 ⟨4, 50, fun x => x, fun _ => 0⟩ (pausingEnd 3) = .ok s ∧ s.out.map List.ofFn = [[some ⟨0, 0⟩, some ⟨1, 1⟩]] :=
  ⟨by decide, ⟨_, rfl, by decide⟩, _, rfl, by decide⟩

/-- **C112** (ApproximateTime, pauses of bounded length).  Messages delivered in time order, no input pausing for more than `G`, and the
queues have room for the messages of one input in any interval of length `G` plus the maximum interval: then no queue overflows,
and every larger queue size gives the same output.  (The sets are then the canonical ones, C33 and C34.) -/
theorem C112_approximate_pauses {n : Nat} [NeZero n] (cfg : Cfg n) (hM : 0 ≤ cfg.maxInterval) (hf : ∀ x, 0 ≤ x → x ≤ cfg.scale x)
    (hq : 0 < cfg.queueSize) (G : Int) (hG : 0 ≤ G) (ops : List (Fin n × Ev)) (ho : InTimeOrder ops) (hp : PausesAtMost G ops)
    (hw : AtMostWithin cfg.queueSize (G + cfg.maxInterval) ops) (fuel : Nat) (hfuel : ops.length * ops.length + ops.length ≤ fuel) :
    NoOverflow fuel cfg ops ∧ ∃ s, run fuel cfg ops = .ok s ∧
      ∀ q', cfg.queueSize ≤ q' → ∃ s', run fuel { cfg with queueSize := q' } ops = .ok s' ∧ s'.out = s.out := by
  have ha := aheadAtMost_of_pauses hG hM ho hp hw
  have hw' : AtMostWithin cfg.queueSize cfg.maxInterval ops := by
    intro i T
    refine Nat.le_trans ?_ (hw i T)
    rw [← List.countP_eq_length_filter, ← List.countP_eq_length_filter]
    refine List.countP_mono_left (fun x _ hx => ?_)
    rw [Bool.and_eq_true, decide_eq_true_eq, decide_eq_true_eq] at hx ⊢
    omega
  obtain ⟨s, h⟩ := C28_terminates fuel cfg hq ops hfuel
  refine ⟨C99_no_overflow fuel cfg hM hf ops ho.sorted ha hw', s, h, fun q' hq' => ?_⟩
  obtain ⟨s', h'⟩ := C28_terminates fuel { cfg with queueSize := q' } (Nat.lt_of_lt_of_le hq hq') ops hfuel
  exact ⟨s', h', (C99_queue_size_irrelevant fuel q' cfg hM hf ops s s' h h' hq' ho.sorted ha hw').1.symm⟩

/-- Input 0 sends every 20, input 1 pauses between 39 and 95. -/
def boundedPause : List (Fin 2 × Ev) :=
  [(1, ⟨0, 0⟩), (0, ⟨1, 1⟩), (1, ⟨2, 20⟩), (0, ⟨3, 21⟩), (1, ⟨4, 39⟩), (0, ⟨5, 40⟩), (0, ⟨6, 60⟩), (0, ⟨7, 80⟩), (1, ⟨8, 95⟩), (0, ⟨9, 100⟩), (1, ⟨10, 120⟩)]

theorem pausesAtMost_of_check {n : Nat} {G : Int} {ops : List (Fin n × Ev)}
    (h : ∀ k (hk : k < ops.length), ∀ j, j ≠ (ops[k]).1 →
      ((stream (ops.take k) j).any (fun y => decide ((ops[k]).2.stamp - G ≤ y.stamp)) ||
        (ops.take k).all (fun op => decide ((ops[k]).2.stamp - G ≤ op.2.stamp))) = true) : PausesAtMost G ops := by
  intro pre i e post hops j hj
  have hk : pre.length < ops.length := by rw [hops]; simp
  have e1 : ops.take pre.length = pre := by rw [hops]; simp
  have e2 : ops[pre.length] = (i, e) := by simp [hops]
  have := h pre.length hk j (by rw [e2]; exact hj)
  rw [e1, e2, Bool.or_eq_true, List.any_eq_true, List.all_eq_true] at this
  rcases this with ⟨y, hy, h1⟩ | h1
  · left; exact ⟨y, hy, by simpa using h1⟩
  · right; intro op hop; simpa using h1 op hop

/-- The hypotheses hold with `G = 41` and queues of three places; queues of two places lose a set. -/
example : InTimeOrder boundedPause ∧ PausesAtMost 41 boundedPause ∧ AtMostWithin 3 (41 + 10) boundedPause ∧
    (∃ s, run 200 ⟨3, 10, fun x => x, fun _ => 0⟩ boundedPause = .ok s ∧
      s.out.map List.ofFn = [[some ⟨1, 1⟩, some ⟨0, 0⟩], [some ⟨3, 21⟩, some ⟨2, 20⟩], [some ⟨5, 40⟩, some ⟨4, 39⟩], [some ⟨9, 100⟩, some ⟨8, 95⟩]]) ∧
    ∃ s, run 200 ⟨2, 10, fun x => x, fun _ => 0⟩ boundedPause = .ok s ∧ s.out.length = 3 := by
  refine ⟨by unfold InTimeOrder TimeSorted; decide, pausesAtMost_of_check (by decide),
    atMostWithin_of_check (fun i => ?_) (by decide), ⟨_, rfl, by decide⟩, _, rfl, by decide⟩
  unfold TimeSorted; revert i; decide

end MF.Approx
