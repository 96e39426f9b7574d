import Verif.Props.Pipeline
import Verif.Props.AlignerMerge
import Verif.Props.SequencerRoom
/-
C105: behind an InputAligner or a TimeSequencer that is given what it needs, the arrival order does not matter.
-/
namespace MF.Pipeline

open Aligner (adds WellBehaved Due)
open ExactTime (outs)
open Sequencer (Steady Room SameMessages due)

/-- **C105** (InputAligner).  Connect anything to the outputs of an `InputAligner`: other filters, or a user's callbacks with a
state of their own; all that is assumed is that their reaction to a message is determined by their state.  Let the inputs of
the aligner be well-behaved.  Then the state that what follows is in after a dispatch depends only on what each input has
delivered: not on how the inputs interleaved, on when messages were dispatched before, or on the timeout. -/
theorem C105_behind_aligner {n : Nat} {δ : Type} (down : δ → Fin n × Ev → Except Fault δ) (d0 : δ) (timeout timeout' : Int)
    (per : Fin n → Int) (ops ops' : List (Aligner.Op n)) (hw : WellBehaved timeout per (ops ++ [.dispatch]))
    (hw' : WellBehaved timeout' per (ops' ++ [.dispatch])) (hsame : SameStreams (adds ops) (adds ops')) (fuel fuel' : Nat)
    (s s' : Aligner.State n) (d d' : δ)
    (h : run (Aligner.step fuel) (·.out) down (Aligner.construct n timeout) d0 (ops ++ [.dispatch]) = .ok (s, d))
    (h' : run (Aligner.step fuel') (·.out) down (Aligner.construct n timeout') d0 (ops' ++ [.dispatch]) = .ok (s', d')) :
    d = d' ∧ ∀ i, (s.queues i).items = (s'.queues i).items := by
  obtain ⟨_, h1, h2⟩ := run_factor aligner_grow _ _ h
  obtain ⟨_, h1', h2'⟩ := run_factor aligner_grow _ _ h'
  obtain ⟨e1, e2⟩ := Aligner.C102_determined timeout timeout' per ops ops' hw hw' hsame fuel fuel' s s' h1 h1'
  refine ⟨?_, e2⟩
  have e3 : (Aligner.construct n timeout).out = (Aligner.construct n timeout').out := rfl
  simp only [e1, e3] at h2
  rw [h2'] at h2
  cases h2; rfl

/-- **C105** (InputAligner and `ExactTime`).  Let moreover no input send two messages with the same stamp.  `ExactTime` behind
such an aligner, with any queue size, outputs after a dispatch exactly the sets of messages with equal stamps that are due, in
time order. -/
theorem C105_aligner_exact {n : Nat} [NeZero n] (timeout : Int) (per : Fin n → Int) (ops : List (Aligner.Op n))
    (hw : WellBehaved timeout per (ops ++ [.dispatch])) (hd : ∀ i, DistinctStamps (stream (adds ops) i)) (fuel q : Nat)
    (s : Aligner.State n) (d : ExactTime.State n) (h : alignerExact fuel timeout q (ops ++ [.dispatch]) = .ok (s, d)) :
    SetsInOrder (outs d.log) ∧
    ∀ t, t ∈ outs d.log ↔ ∃ T, ∀ i, ∃ e ∈ stream (adds ops) i, Due per ops (i, e) ∧ e.stamp = T ∧ t i = some e := by
  have hadd : adds (ops ++ [Aligner.Op.dispatch]) = adds ops := by simp [adds, List.filterMap_append]
  obtain ⟨h1, h2⟩ := C81_exactly_common_stamps fuel timeout q _ s d h (fun i => by rw [hadd]; exact hd i)
  refine ⟨h1, fun t => (h2 t).trans ?_⟩
  obtain ⟨a1, _, a3, a4, _⟩ := Aligner.C102_output timeout per _ ops hw (List.prefix_refl _) fuel s (alignerExact_ok.1 h).1
  have hm : ∀ i e, e ∈ stream s.out i ↔ e ∈ stream (adds ops) i ∧ Due per ops (i, e) := by
    intro i e
    constructor
    · intro he
      exact ⟨by rw [← a1 i]; exact List.mem_append.2 (Or.inl he), a3 (i, e) (mem_stream.1 he)⟩
    · rintro ⟨he, hdue⟩
      rw [← a1 i] at he
      rcases List.mem_append.1 he with he | he
      · exact he
      · exact absurd hdue (a4 i e he)
  unfold MatchOf
  simp only [hm, and_assoc]

/-- **C105** (TimeSequencer).  Connect anything to a `TimeSequencer`.  Let every message arrive before its delay has passed, and
let the queue size be sufficient.  Then the state that what follows is in when the timer fires at `c` depends only on the
messages: not on the order in which they arrived (except among equal stamps), on when the timer fired before, or on the queue
size. -/
theorem C105_behind_sequencer {δ : Type} (down : δ → Ev → Except Fault δ) (d0 : δ) (delay c : Int) (q q' : Nat)
    (ops ops' : List Sequencer.Op) (hs : Steady ops) (hs' : Steady ops') (hp : Punctual delay ops) (hp' : Punctual delay ops')
    (hr : Room delay q ops) (hr' : Room delay q' ops') (hc : ∀ now, Sequencer.Op.tick now ∈ ops → now 0 ≤ c)
    (hc' : ∀ now, Sequencer.Op.tick now ∈ ops' → now 0 ≤ c) (hsame : SameMessages (Sequencer.added ops) (Sequencer.added ops'))
    (s s' : Sequencer.State) (d d' : δ)
    (h : run (fun s op => .ok (Sequencer.step s op)) (·.out) down (Sequencer.construct delay q) d0
      (ops ++ [.tick (fun _ => c)]) = .ok (s, d))
    (h' : run (fun s op => .ok (Sequencer.step s op)) (·.out) down (Sequencer.construct delay q') d0
      (ops' ++ [.tick (fun _ => c)]) = .ok (s', d')) :
    d = d' ∧ s.messages = s'.messages := by
  have hg : ∀ (s : Sequencer.State) op s', (Except.ok (Sequencer.step s op) : Except Fault Sequencer.State) = .ok s' →
      s.out <+: s'.out := by
    intro s op s' h
    cases h; exact seq_grow s op
  obtain ⟨_, h1, h2⟩ := run_factor hg _ _ h
  obtain ⟨_, h1', h2'⟩ := run_factor hg _ _ h'
  rw [runE_total] at h1 h1'
  obtain ⟨e1, e2⟩ := Sequencer.C103_determined delay c q q' ops ops' hs hs' hp hp' hr hr' hc hc' hsame
  have f1 : s = Sequencer.run delay q (ops ++ [.tick (fun _ => c)]) := (Except.ok.inj h1).symm
  have f2 : s' = Sequencer.run delay q' (ops' ++ [.tick (fun _ => c)]) := (Except.ok.inj h1').symm
  rw [← f1, ← f2] at e1 e2
  refine ⟨?_, e2⟩
  have e3 : (Sequencer.construct delay q).out = (Sequencer.construct delay q').out := rfl
  simp only [e1, e3] at h2
  rw [h2'] at h2
  cases h2; rfl

/-- **C105** (TimeSequencer and `Cache`).  A cache of size `N > 0` behind such a sequencer holds, at any time, the `N` newest of
the messages that are due, in time order; among equal stamps the last ones that arrived count as newest. -/
theorem C105_sequencer_cache (delay : Int) (q N : Nat) (hN : 0 < N) (ops : List Sequencer.Op) (hs : Steady ops)
    (hp : Punctual delay ops) (hr : Room delay q ops) :
    ∃ s ca l, sequencerCache delay q N ops = .ok (s, ca) ∧ TimeSorted l ∧
      SameMessages l ((Sequencer.added ops).filter (due delay ops)) ∧ ca.items = l.drop (l.length - N) := by
  obtain ⟨s, ca, h1, h2, h3, _⟩ := C80_cache_holds_most_recent delay q N hN ops
  obtain ⟨g1, g2, _⟩ := Sequencer.C103_output delay q ops hs hp hr
  rw [← h2] at g1 g2
  exact ⟨s, ca, s.out, h1, g1, g2, h3⟩

/-- **C105** (one TimeSequencer per input and `ExactTime`).  Let every sequencer be given punctual messages and a sufficient
queue size, let no two messages of an input have the same stamp, and let the synchronizer's queue be unlimited.  Then the sets
output are exactly those of messages that are due, with equal stamps, in time order. -/
theorem C105_sequencers_exact {n : Nat} [NeZero n] (delay : Fin n → Int) (seqSize : Fin n → Nat)
    (ops : List (Fin n × Sequencer.Op)) (hd : ∀ i, DistinctStamps (Sequencer.added (callsOf i ops)))
    (hs : ∀ i, Steady (callsOf i ops)) (hp : ∀ i, Punctual (delay i) (callsOf i ops))
    (hr : ∀ i, Room (delay i) (seqSize i) (callsOf i ops)) :
    ∃ s d, sequencersExact delay seqSize 0 ops = .ok (s, d) ∧ SetsInOrder (outs d.log) ∧
      ∀ t, t ∈ outs d.log ↔
        MatchOf (fun i => (Sequencer.added (callsOf i ops)).filter (due (delay i) (callsOf i ops))) t := by
  obtain ⟨s, d, h⟩ := C82_returns delay seqSize 0 ops
  obtain ⟨h1, h2, h3⟩ := C82_exactly_common_stamps delay seqSize 0 ops s d h hd
  refine ⟨s, d, h, h2, fun t => (h3 rfl t).trans ?_⟩
  have hm : ∀ i e, e ∈ (s.seq i).out ↔ e ∈ (Sequencer.added (callsOf i ops)).filter (due (delay i) (callsOf i ops)) := by
    intro i e
    have hsm := (Sequencer.C103_output (delay i) (seqSize i) _ (hs i) (hp i) (hr i)).2.1 e.stamp
    rw [← h1 i] at hsm
    have := congrArg (fun l => e ∈ l) hsm
    simpa only [List.mem_filter, decide_true, and_true, eq_iff_iff] using this
  unfold MatchOf
  simp only [hm]

/-- The two histories of C102 behind an aligner: `ExactTime` has output the one set that is due, in both; a counter of the
messages that have come through reads 6 in both. -/
example : (alignerExact 40 100 1 (Aligner.mergeA ++ [.dispatch])).map (fun p => (outs p.2.log).map List.ofFn) =
      .ok [[some ⟨4, 20⟩, some ⟨3, 20⟩]] ∧
    (alignerExact 40 100 1 (Aligner.mergeB ++ [.dispatch])).map (fun p => (outs p.2.log).map List.ofFn) =
      .ok [[some ⟨4, 20⟩, some ⟨3, 20⟩]] ∧
    (run (Aligner.step 40) (·.out) (fun (k : Nat) _ => .ok (k + 1)) (Aligner.construct 2 100) 0
      (Aligner.mergeA ++ [.dispatch])).map (·.2) = .ok 6 ∧
    (run (Aligner.step 40) (·.out) (fun (k : Nat) _ => .ok (k + 1)) (Aligner.construct 2 100) 0
      (Aligner.mergeB ++ [.dispatch])).map (·.2) = .ok 6 :=
  ⟨rfl, rfl, rfl, rfl⟩

example : WellBehaved 100 Aligner.mergePer (Aligner.mergeA ++ [.dispatch]) ∧
    WellBehaved 100 Aligner.mergePer (Aligner.mergeB ++ [.dispatch]) ∧ SameStreams (adds Aligner.mergeA) (adds Aligner.mergeB) ∧
    (∀ i, DistinctStamps (stream (adds Aligner.mergeA) i)) :=
  ⟨Aligner.mergeA_wellBehaved, Aligner.mergeB_wellBehaved, by unfold SameStreams; decide, by unfold DistinctStamps; decide⟩

/-- The two histories of C103 with a cache of size 2 behind the sequencer, which has three places in one and five in the
other; the conditions are those shown to hold there. -/
example : (sequencerCache 10 3 2 (Sequencer.roomA ++ [Sequencer.roomTick 21])).map (fun p => p.2.items) = .ok [⟨3, 5⟩, ⟨5, 8⟩] ∧
    (sequencerCache 10 5 2 (Sequencer.roomB ++ [Sequencer.roomTick 21])).map (fun p => p.2.items) = .ok [⟨3, 5⟩, ⟨5, 8⟩] ∧
    Steady Sequencer.roomA ∧ Steady Sequencer.roomB :=
  ⟨rfl, rfl, Sequencer.roomA_steady, Sequencer.roomB_steady⟩

/-- Two sequencers with two places each; stamp 5 is common and due, stamp 12 is common and not due. -/
def twoSequencers : List (Fin 2 × Sequencer.Op) :=
  [(0, Sequencer.roomMsg 1 5), (1, Sequencer.roomMsg 2 12), (1, Sequencer.roomMsg 3 5), (0, Sequencer.roomTick 15),
   (0, Sequencer.roomMsg 4 12), (1, Sequencer.roomTick 16)]

example : (∀ i, DistinctStamps (Sequencer.added (callsOf i twoSequencers))) ∧ (∀ i, Steady (callsOf i twoSequencers)) ∧
    (∀ i, Punctual 10 (callsOf i twoSequencers)) ∧ (∀ i, Room 10 2 (callsOf i twoSequencers)) ∧
    (sequencersExact (fun _ => 10) (fun _ => 2) 0 twoSequencers).map (fun p => (outs p.2.log).map List.ofFn) =
      .ok [[some ⟨1, 5⟩, some ⟨3, 5⟩]] := by
  have hst : ∀ i, Steady (callsOf i twoSequencers) := by
    intro i now hn
    match i with
    | 0 => simp [callsOf, twoSequencers, Sequencer.roomMsg, Sequencer.roomTick] at hn; subst hn; intro _; rfl
    | 1 => simp [callsOf, twoSequencers, Sequencer.roomMsg, Sequencer.roomTick] at hn; subst hn; intro _; rfl
  refine ⟨by unfold DistinctStamps; decide, hst, ?_, ?_, rfl⟩
  · intro i
    match i with
    | 0 => exact Sequencer.punctual_of_check (hst 0) (by decide)
    | 1 => exact Sequencer.punctual_of_check (hst 1) (by decide)
  · intro i
    match i with
    | 0 => exact Sequencer.room_of_check (by decide)
    | 1 => exact Sequencer.room_of_check (by decide)

end MF.Pipeline
