import Verif.Model.Basic
/-
Small independent vocabulary used in property statements.
-/
namespace MF

/-- Messages in non-decreasing stamp order. -/
def TimeSorted (l : List Ev) : Prop := l.Pairwise (fun a b => a.stamp ≤ b.stamp)

/-- Messages in strictly increasing stamp order. -/
def StrictlyTimeSorted (l : List Ev) : Prop := l.Pairwise (fun a b => a.stamp < b.stamp)

end MF
