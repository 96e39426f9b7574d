import Verif.Props.Lossy
/-
C125 continued: a loss gains nothing with ApproximateEpsilonTime and two inputs.
-/
namespace MF.Epsilon

/-- **C125** (ApproximateEpsilonTime, two inputs: nothing is gained).  With two inputs in time order, and queues that reach back far enough (C107),
a synchronizer that misses some of the messages never outputs more sets, whatever its queue size and however its messages are interleaved. -/
theorem C125_epsilon_two_no_gain (fuel fuel' q q' : Nat) (hq : 0 < q) (eps : Int) (heps : 0 ≤ eps) (ops ops' : List (Fin 2 × Ev))
    (hsub : ∀ i, List.Sublist (stream ops' i) (stream ops i)) (s s' : State 2) (h : run fuel (construct 2 q eps) ops = .ok s)
    (h' : run fuel' (construct 2 q' eps) ops' = .ok s') (hs : ∀ i, TimeSorted (stream ops i))
    (hmax : ∀ op ∈ ops, op.2.stamp ≤ maxTime) (hr : Recent q eps ops) : s'.out.length ≤ s.out.length := by
  obtain ⟨h1, h2⟩ := C110_is_pairing fuel' q' eps ops' s' h'
  rw [← h2]
  exact C110_maximum fuel q hq eps heps ops s h hs hmax hr _
    ⟨fun e => Nat.le_trans (h1.1 e) ((hsub 0).count_le e), fun e => Nat.le_trans (h1.2.1 e) ((hsub 1).count_le e), h1.2.2⟩

/-- Of three messages on either input that match with epsilon 3, one is lost. -/
example : ∃ ops ops' : List (Fin 2 × Ev), (∀ i, List.Sublist (stream ops' i) (stream ops i)) ∧ (∀ i, TimeSorted (stream ops i)) ∧ Recent 3 3 ops ∧
    (∃ s, run 20 (construct 2 3 3) ops = .ok s ∧ s.out.length = 3) ∧ ∃ s', run 20 (construct 2 3 3) ops' = .ok s' ∧ s'.out.length = 2 := by
  refine ⟨[(0, ⟨0, 1⟩), (1, ⟨1, 3⟩), (0, ⟨2, 11⟩), (1, ⟨3, 13⟩), (1, ⟨4, 21⟩), (0, ⟨5, 23⟩)],
    [(0, ⟨0, 1⟩), (1, ⟨1, 3⟩), (1, ⟨3, 13⟩), (1, ⟨4, 21⟩), (0, ⟨5, 23⟩)], by decide, fun i => ?_, recent_of_check (by decide),
    ⟨_, rfl, by decide⟩, _, rfl, by decide⟩
  unfold TimeSorted; revert i; decide

end MF.Epsilon
