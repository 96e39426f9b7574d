import Verif.Proofs.PyApproxRoom
import Verif.Props.EpsilonRoom
/-
C101: the queue size a Python ApproximateTimeSynchronizer needs.
-/
namespace MF.Py
open MF.Epsilon (AheadAtMost aheadAtMost_of_check)

variable {n : Nat}

/-- **C101** (nothing is lost).  Let every input of a Python ApproximateTimeSynchronizer deliver in time order, and let at
every moment, for every two different inputs, one have delivered at most `queue_size` messages that are not behind the other
one by the slop or more.  Then the queues make no difference: for any two such queue sizes, whatever the callbacks raise,
either both histories block, or both synchronizers have output the same sets and are both usable or both locked. -/
theorem C101_queue_size_irrelevant [NeZero n] (boom : Nat → Bool) (slop : Int) (allow : Bool) (q q' : Nat) (hq : 0 < q) (hq' : 0 < q')
    (ops : List (Fin n × Msg)) (hs : ∀ i, TimeSorted (stream (accepted allow ops) i))
    (ha : AheadAtMost q (slop - 1) (accepted allow ops)) (ha' : AheadAtMost q' (slop - 1) (accepted allow ops)) :
    (approxRun boom slop allow (construct n q) ops).map (fun s => (s.out, s.locked)) =
      (approxRun boom slop allow (construct n q') ops).map (fun s => (s.out, s.locked)) := by
  rcases approxRun_like (boom := boom) (slop := slop) (allow := allow) (q := q) (q' := q') (by omega) (by omega) ops hs
    (fun k a b hab => by have := ha k a b hab; omega) (fun k a b hab => by have := ha' k a b hab; omega) with
    ⟨h1, h2⟩ | ⟨t, t', h1, h2, h3⟩
  · rw [h1, h2]
  · rw [h1, h2]
    show Except.ok (t.out, t.locked) = Except.ok (t'.out, t'.locked)
    rw [h3.out, h3.locked]

/-- **C101** (every match is found).  Under the same conditions, with strictly increasing inputs and callbacks that do not
raise, every set of one delivered message per input whose stamps differ by less than the slop has a member in an output set. -/
theorem C101_finds_matches [NeZero n] (slop : Int) (allow : Bool) (q : Nat) (hq : 0 < q) (ops : List (Fin n × Msg))
    (hs : ∀ i, StrictlyTimeSorted (stream (accepted allow ops) i)) (ha : AheadAtMost q (slop - 1) (accepted allow ops))
    (s : State n) (h : approxRun noRaise slop allow (construct n q) ops = .ok s) (T : Fin n → Ev)
    (hT : ∀ i, (i, T i) ∈ accepted allow ops) (hspan : ∀ i j, (T i).stamp - (T j).stamp < slop) :
    ∃ t ∈ s.out, ∃ i, t i = T i := by
  have hts : ∀ i, TimeSorted (stream (accepted allow ops) i) := fun i => (hs i).imp (fun h => by omega)
  have hlen : ∀ {k : Nat} (i j : Fin n), (Epsilon.notBehind (slop - 1) ((accepted allow ops).take k) i j).length ≤
      (accepted allow ops).length + 1 := by
    intro k i j
    unfold Epsilon.notBehind
    refine Nat.le_trans (List.length_filter_le _ _) ?_
    have := stream_le ((accepted allow ops).take k) i
    have := List.length_take_le' k (accepted allow ops)
    omega
  rcases approxRun_like (boom := noRaise) (slop := slop) (allow := allow) (q := q) (q' := ((accepted allow ops).length + 1 : Nat))
    (by omega) (by omega) ops hts (fun k a b hab => by have := ha k a b hab; omega)
    (fun k a b hab => by have := hlen (k := k) a b; omega) with ⟨h1, _⟩ | ⟨t, t', h1, h2, h3⟩
  · rw [h] at h1; cases h1
  · rw [h] at h1
    cases h1
    obtain ⟨hl, hkept⟩ := approx_kept ops t' h2 (fun j => by
      have := stream_le (accepted allow ops) j
      omega) (fun j => List.pairwise_map.2 ((hs j).imp (fun h => by omega)))
    obtain ⟨_, hinv, _⟩ := approxRun_induction (P := fun _ _ => True) trivial (fun _ _ _ _ _ _ _ _ _ _ _ => trivial) ops t' h2
    apply Classical.byContradiction
    intro hno
    refine hinv.quiet hl (fun j => (T j).stamp) ⟨fun j => ?_, hspan⟩
    rcases hkept j (T j) (mem_stream.2 (hT j)) with ⟨u, hu, hue⟩ | hmem
    · exact absurd ⟨u, by rw [h3.out]; exact hu, j, hue⟩ hno
    · exact mem_keys.2 ⟨_, hmem⟩

/-- Two inputs; the first one runs ahead by two messages.  The message at 300 is not matched by anything. -/
def roomOps : List (Fin 2 × Msg) :=
  withHeaders [(0, ⟨0, 100⟩), (0, ⟨1, 200⟩), (1, ⟨2, 105⟩), (1, ⟨3, 205⟩), (0, ⟨4, 300⟩), (1, ⟨5, 400⟩), (0, ⟨6, 395⟩)]

/-- The hypotheses are met with queues of two places, and three sets are output. -/
example : (∀ i, StrictlyTimeSorted (stream (accepted false roomOps) i)) ∧ AheadAtMost 2 (10 - 1) (accepted false roomOps) ∧
    ∃ s, approxRun noRaise 10 false (construct 2 2) roomOps = .ok s ∧ s.out.length = 3 := by
  refine ⟨?_, aheadAtMost_of_check (by decide), _, rfl, by decide⟩
  intro i; unfold StrictlyTimeSorted; revert i; decide

/-- **C101** (the room is needed).  With queues of one place a set is lost. -/
theorem C101_room_needed : ¬ AheadAtMost 1 (10 - 1) (accepted false roomOps) ∧
    ∃ s, approxRun noRaise 10 false (construct 2 1) roomOps = .ok s ∧ s.out.length = 2 := by
  refine ⟨fun h => ?_, _, rfl, by decide⟩
  have := h 2 0 1 (by decide)
  revert this; decide

/-- **C101** (time order is needed).  No input is ever ahead by more than one message, but the old message at 101, delivered
late, is put together with one that has been behind for long; queues of one place have lost that one. -/
theorem C101_order_needed : ∃ ops : List (Fin 2 × Msg), AheadAtMost 1 (10 - 1) (accepted false ops) ∧
    (∃ s, approxRun noRaise 10 false (construct 2 1) ops = .ok s ∧ s.out.length = 0) ∧
    ∃ s, approxRun noRaise 10 false (construct 2 2) ops = .ok s ∧ s.out.length = 1 :=
  ⟨withHeaders [(0, ⟨0, 100⟩), (1, ⟨1, 150⟩), (0, ⟨2, 200⟩), (1, ⟨3, 101⟩)], aheadAtMost_of_check (by decide),
    ⟨_, rfl, by decide⟩, ⟨_, rfl, by decide⟩⟩

end MF.Py
