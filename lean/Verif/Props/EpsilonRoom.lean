import Verif.Proofs.EpsilonRoom
/-
C97: the queue size an ApproximateEpsilonTime synchronizer needs.
-/
namespace MF.Epsilon

variable {n : Nat}

/-- **C97**.  Let every input deliver in time order and let no input run ahead of another one by more than `q` messages.
Then no queue of size `q` overflows. -/
theorem C97_no_overflow [NeZero n] (fuel q : Nat) (eps : Int) (heps : 0 ≤ eps) (ops : List (Fin n × Ev))
    (hs : ∀ i, TimeSorted (stream ops i)) (ha : AheadAtMost q eps ops) : NoOverflow fuel q eps ops :=
  noOverflow_of_ahead heps hs ha

/-- **C97** (nothing is lost).  Under the same conditions the output and what remains in the queues do not depend on
the queue size or on the interleaving, as long as they keep to this condition. -/
theorem C97_queue_size_irrelevant [NeZero n] (fuel fuel' q q' : Nat) (eps : Int) (heps : 0 ≤ eps)
    (ops ops' : List (Fin n × Ev)) (s s' : State n) (h : run fuel (construct n q eps) ops = .ok s)
    (h' : run fuel' (construct n q' eps) ops' = .ok s') (hsame : SameStreams ops ops')
    (hs : ∀ i, TimeSorted (stream ops i)) (ha : AheadAtMost q eps ops) (ha' : AheadAtMost q' eps ops') :
    s.out = s'.out ∧ s.events = s'.events :=
  C25_interleaving_independent fuel fuel' q q' eps ops ops' s s' h h' (noOverflow_of_ahead heps hs ha)
    (noOverflow_of_ahead heps (fun i => by rw [← hsame i]; exact hs i) ha') hsame

/-- **C97** (every match is found).  Under the same conditions, with two inputs every pair of messages within epsilon has
a member in an output set, with any number of inputs every set with equal stamps has. -/
theorem C97_finds_matches [NeZero n] (q : Nat) (eps : Int) (heps : 0 ≤ eps) (ops : List (Fin n × Ev))
    (hmax : ∀ op ∈ ops, op.2.stamp ≤ maxTime) (hs : ∀ i, TimeSorted (stream ops i)) (ha : AheadAtMost q eps ops)
    (fuel : Nat) (hfuel : ops.length ≤ fuel) :
    ∃ s, run fuel (construct n q eps) ops = .ok s ∧
      ∀ T : Fin n → Ev, (∀ i, (i, T i) ∈ ops) → (∀ i j, (T i).stamp - (T j).stamp ≤ eps) →
        (n = 2 ∨ ∀ i j, (T i).stamp = (T j).stamp) → ∃ t ∈ s.out, ∃ i, t i = some (T i) := by
  obtain ⟨s, h⟩ := C24_terminates_partial q eps heps ops hmax fuel hfuel
  refine ⟨s, h, fun T hT hspan hcase => ?_⟩
  refine C26_finds_matches_partial fuel q eps heps ops s h hmax (noOverflow_of_ahead heps hs ha) hs T hT hspan ?_
  rcases hcase with h | h
  · exact Or.inl h
  · exact Or.inr (Or.inr h)

theorem aheadAtMost_of_check {q : Nat} {eps : Int} {ops : List (Fin n × Ev)}
    (h : ∀ k, k ≤ ops.length → ∀ i j, i ≠ j → (notBehind eps (ops.take k) i j).length ≤ q) : AheadAtMost q eps ops := by
  intro k i j hij
  by_cases hk : k ≤ ops.length
  · exact h k hk i j hij
  · have := h ops.length (Nat.le_refl _) i j hij
    rw [List.take_length] at this
    rw [List.take_of_length_le (by omega)]
    exact this

/-- Four messages on the first input and three on the second; neither is ever more than two ahead. -/
def aheadOps : List (Fin 2 × Ev) :=
  [(0, ⟨0, 100⟩), (0, ⟨1, 200⟩), (1, ⟨2, 105⟩), (1, ⟨3, 195⟩), (0, ⟨4, 300⟩), (1, ⟨5, 305⟩), (0, ⟨6, 400⟩)]

example : AheadAtMost 2 10 aheadOps ∧ (∀ i, TimeSorted (stream aheadOps i)) ∧
    ∃ s, run 10 (construct 2 2 10) aheadOps = .ok s ∧ s.out.length = 3 := by
  refine ⟨aheadAtMost_of_check (by decide), ?_, _, rfl, by decide⟩
  intro i; unfold TimeSorted; revert i; decide

/-- **C97** (the room is needed).  The same history with queues of one place loses a set. -/
theorem C97_room_needed : ¬ AheadAtMost 1 10 aheadOps ∧
    ∃ s, run 10 (construct 2 1 10) aheadOps = .ok s ∧ s.out.length = 2 := by
  refine ⟨fun h => ?_, _, rfl, by decide⟩
  have := h 2 0 1 (by decide)
  revert this; decide

/-- **C97** (time order is needed).  A message that arrives out of order can wait in the queue although it is behind: no
input is ever ahead by more than one message, and with queues of one place the match of the first and the last message is
lost, with queues of two places it is found. -/
theorem C97_order_needed : ∃ ops : List (Fin 2 × Ev), AheadAtMost 1 10 ops ∧ ¬ NoOverflow 10 1 10 ops ∧
    (∃ s, run 10 (construct 2 1 10) ops = .ok s ∧ s.out.length = 0) ∧
    ∃ s, run 10 (construct 2 2 10) ops = .ok s ∧ s.out.length = 1 := by
  refine ⟨[(0, ⟨0, 100⟩), (1, ⟨1, 50⟩), (0, ⟨2, 20⟩), (1, ⟨3, 105⟩)], aheadAtMost_of_check (by decide), ?_,
    ⟨_, rfl, by decide⟩, ⟨_, rfl, by decide⟩⟩
  intro h
  have := h 3 _ rfl 0
  revert this; decide

end MF.Epsilon
