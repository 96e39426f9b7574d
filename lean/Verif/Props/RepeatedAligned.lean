import Verif.Props.Repeated
import Verif.Props.PipelineMerge
/-
Property C126, continued: messages that are repeated and out of order, behind an InputAligner or TimeSequencers.
-/
namespace MF.Pipeline

open Aligner (getQueueStatus adds WellBehaved Due)
open ExactTime (outs)

variable {n : Nat}

/-- **C126** (behind an aligner).  `ExactTime` with any queue size behind an `InputAligner`, whatever the order in which the
messages arrive and however often stamps are repeated: a set with stamp `T` has been output if and only if the aligner has passed
on a message with stamp `T` on every input. -/
theorem C126_behind_aligner [NeZero n] (fuel : Nat) (timeout : Int) (q : Nat) (ops : List (Aligner.Op n))
    (s : Aligner.State n) (d : ExactTime.State n) (h : alignerExact fuel timeout q ops = .ok (s, d)) (T : Int) :
    (∃ t ∈ outs d.log, ∀ i, (t i).map (·.stamp) = some T) ↔ ∀ i, ∃ e ∈ stream s.out i, e.stamp = T := by
  obtain ⟨h1, h2⟩ := alignerExact_ok.1 h
  obtain ⟨d0, h0⟩ := exact_runs 0 s.out
  have hg := Aligner.C39_global_order fuel timeout ops s h1
  rw [C81_queue_size_irrelevant q 0 s.out hg d d0 h2 h0]
  exact ExactTime.C126_common_stamps s.out d0 h0 (fun i => stream_sorted hg i) T

/-- **C126** (end to end).  If the aligner has dropped nothing and holds nothing back, a set with stamp `T` has been output if and
only if every input has received a message with stamp `T`. -/
theorem C126_aligner_end_to_end [NeZero n] (fuel : Nat) (timeout : Int) (q : Nat) (ops : List (Aligner.Op n))
    (s : Aligner.State n) (d : ExactTime.State n) (h : alignerExact fuel timeout q ops = .ok (s, d))
    (hdrop : ∀ i, (getQueueStatus s i).dropped = 0) (hempty : ∀ i, (getQueueStatus s i).queueSize = 0) (T : Int) :
    (∃ t ∈ outs d.log, ∀ i, (t i).map (·.stamp) = some T) ↔ ∀ i, ∃ e ∈ stream (adds ops) i, e.stamp = T := by
  rw [C126_behind_aligner fuel timeout q ops s d h T]
  have hp : ∀ i e, e ∈ stream s.out i ↔ e ∈ stream (adds ops) i := fun i e =>
    (aligner_drained (alignerExact_ok.1 h).1 i (hdrop i) (hempty i)).mem_iff
  simp only [hp]

/-- **C126** (well-behaved inputs).  If every input keeps its announced period and no pause exceeds the timeout, a set with stamp
`T` has been output after `dispatchMessages()` if and only if every input has received a message with stamp `T` that is due. -/
theorem C126_aligner_due [NeZero n] (timeout : Int) (per : Fin n → Int) (ops : List (Aligner.Op n))
    (hw : WellBehaved timeout per (ops ++ [.dispatch])) (fuel q : Nat)
    (s : Aligner.State n) (d : ExactTime.State n) (h : alignerExact fuel timeout q (ops ++ [.dispatch]) = .ok (s, d)) (T : Int) :
    (∃ t ∈ outs d.log, ∀ i, (t i).map (·.stamp) = some T) ↔
      ∀ i, ∃ e ∈ stream (adds ops) i, Due per ops (i, e) ∧ e.stamp = T := by
  rw [C126_behind_aligner fuel timeout q _ s d h T]
  obtain ⟨a1, _, a3, a4, _⟩ := Aligner.C102_output timeout per _ ops hw (List.prefix_refl _) fuel s (alignerExact_ok.1 h).1
  have hm : ∀ i e, e ∈ stream s.out i ↔ e ∈ stream (adds ops) i ∧ Due per ops (i, e) := by
    intro i e
    constructor
    · intro he
      exact ⟨by rw [← a1 i]; exact List.mem_append.2 (Or.inl he), a3 (i, e) (mem_stream.1 he)⟩
    · rintro ⟨he, hdue⟩
      rw [← a1 i] at he
      rcases List.mem_append.1 he with he | he
      · exact he
      · exact absurd hdue (a4 i e he)
  simp only [hm, and_assoc]

/-- **C126** (behind sequencers).  `ExactTime` without queue limit behind one `TimeSequencer` per input, whatever the order in which
the messages arrive and however often stamps are repeated: a set with stamp `T` has been output if and only if every sequencer
has released a message with stamp `T`. -/
theorem C126_behind_sequencers [NeZero n] (delay : Fin n → Int) (seqSize : Fin n → Nat)
    (ops : List (Fin n × Sequencer.Op)) (s : Sequencers n) (d : ExactTime.State n)
    (h : sequencersExact delay seqSize 0 ops = .ok (s, d)) (T : Int) :
    (∃ t ∈ outs d.log, ∀ i, (t i).map (·.stamp) = some T) ↔ ∀ i, ∃ e ∈ (s.seq i).out, e.stamp = T := by
  obtain ⟨h1, h2⟩ := sequencersExact_ok h
  have hst : ∀ i, TimeSorted (stream s.out i) := by
    intro i
    rw [(h1 i).2, (h1 i).1]
    exact Sequencer.C44_output_sorted _ _ _
  rw [ExactTime.C126_common_stamps s.out d h2 hst T]
  simp only [(h1 _).2]

/-- Messages that are sent twice and out of order. -/
def repeatArrive : List (Aligner.Op 2) :=
  [.add 1 ⟨1, 20⟩, .add 1 ⟨2, 10⟩, .add 0 ⟨3, 30⟩, .add 0 ⟨4, 10⟩, .add 1 ⟨5, 20⟩, .add 0 ⟨6, 10⟩, .add 0 ⟨7, 20⟩,
   .add 1 ⟨8, 31⟩, .dispatch]

/-- Non-vacuity of `C126_aligner_end_to_end`: both common stamps are output although `ExactTime` alone, given the same messages
in order of arrival, outputs nothing. -/
example : summary 1 1 repeatArrive =
    .ok ([[some ⟨6, 10⟩, some ⟨2, 10⟩], [some ⟨7, 20⟩, some ⟨1, 20⟩]], [(0, 0), (0, 0)]) := by rfl
example : (ExactTime.run (ExactTime.construct 2 1) (adds repeatArrive)).map (fun s => (outs s.log).map List.ofFn) = .ok [] := by rfl

/-- Non-vacuity of `C126_behind_sequencers`. -/
example : (sequencersExact (fun _ => 50) (fun _ => 0) 0
    [((0 : Fin 2), .add ⟨⟨1, 20⟩, .system⟩), (1, .add ⟨⟨2, 10⟩, .system⟩), (0, .add ⟨⟨3, 10⟩, .system⟩), (0, .add ⟨⟨4, 10⟩, .system⟩),
     (0, .tick (fun _ => 100)), (1, .add ⟨⟨5, 30⟩, .system⟩), (1, .add ⟨⟨6, 20⟩, .system⟩), (1, .tick (fun _ => 100))]).map
      (fun p => ((outs p.2.log).map List.ofFn)) =
    .ok [[some ⟨4, 10⟩, some ⟨2, 10⟩], [some ⟨1, 20⟩, some ⟨6, 20⟩]] := by rfl

end MF.Pipeline
