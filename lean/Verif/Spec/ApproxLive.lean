import Verif.Spec.Overflow
import Verif.Spec.Sync
/-
Specification of inputs that keep delivering: the history is a sequence of windows, in each of which every input delivers
a message that is newer than everything delivered in the windows before it, and these are close enough to form a set.
-/
namespace MF.Approx

variable {n : Nat}

/-- The window `w` brings, on every input, a message newer than all messages delivered before the window; and these messages
are at most `maxInterval` apart. -/
def Refreshed (maxInterval : Int) (before w : List (Fin n × Ev)) : Prop :=
  ∃ T : Fin n → Ev, (∀ i, (i, T i) ∈ w) ∧ (∀ i, ∀ o ∈ before, o.2.stamp < (T i).stamp) ∧
    ∀ i j, (T i).stamp - (T j).stamp ≤ maxInterval

/-- Every input keeps delivering: every window brings such messages, and at most `m` messages on any input. -/
def Sustained (maxInterval : Int) (m : Nat) (ws : List (List (Fin n × Ev))) : Prop :=
  ∀ pre w post, ws = pre ++ w :: post → Refreshed maxInterval pre.flatten w ∧ ∀ i, (stream w i).length ≤ m

end MF.Approx
