import Verif.Spec.Latest
/-
Vocabulary for LatestTime inputs that stop: C116.
-/
namespace MF.Latest

open MF.Event (Time)

/-- An input of period `p` has delivered at least three messages, the last one more than a period before `now`. -/
def Overdue {n : Nat} (p : Int) (ops : List (Op n)) (i : Fin n) (now : Time) : Prop :=
  3 ≤ (deliveries ops i).length ∧ ∃ last, (deliveries ops i).getLast? = some last ∧ last.now.ns + p < now.ns

/-- The rate estimate of an input that is never counted as late: it has a rate, but no error estimate yet, or an error estimate that,
times the margin factor, is at least the rate. -/
def Blocking (r : Rate Rat) : Prop :=
  0 < r.hz ∧ (r.doErrorInit = true ∨ r.hz ≤ r.config.marginFactor * r.error)

end MF.Latest
