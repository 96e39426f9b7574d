import Verif.Spec.Sync
/-
Vocabulary for inputs that send in rounds, like sensors with a common trigger: C90.
-/
namespace MF

variable {n : Nat}

/-- Message `R k i` is what input `i` sends in round `k`.  The messages of a round span at most `w`. -/
def Tight (R : Nat → Fin n → Ev) (w : Int) : Prop := ∀ k i j, (R k j).stamp - (R k i).stamp ≤ w

/-- Every message of a round is later than every message of the round before, by at least `gap`. -/
def Separate (R : Nat → Fin n → Ev) (gap : Int) : Prop :=
  ∀ k i j, (R k i).stamp < (R (k + 1) j).stamp ∧ gap ≤ (R (k + 1) j).stamp - (R k i).stamp

/-- The history delivers the rounds: on every input, the messages of rounds 0, 1, 2, ... in this order, up to some round that
may be a different one on each input.  How the inputs interleave is arbitrary. -/
def Delivers (R : Nat → Fin n → Ev) (ops : List (Fin n × Ev)) : Prop :=
  ∀ i, stream ops i = (List.range (stream ops i).length).map (fun k => R k i)

/-- At no time is an input more than `lag` rounds ahead of another. -/
def LagAtMost (lag : Nat) (ops : List (Fin n × Ev)) : Prop :=
  ∀ pre, pre <+: ops → ∀ i j, (stream pre i).length ≤ (stream pre j).length + lag

/-- The sets of the first `k` rounds. -/
def roundSets (R : Nat → Fin n → Ev) (k : Nat) : List (Fin n → Option Ev) :=
  (List.range k).map (fun r i => some (R r i))

end MF
