import Verif.Spec.Latest
/-
Vocabulary for LatestTime with a clock that is replaced or set back.
-/
namespace MF.Latest

open MF.Event (Time)
open Arith

variable {n : Nat} {D : Type} [Arith D]

/-- The latest messages after more deliveries. -/
def receive (ops : List (Op n)) (events : Fin n → Option Ev) : Fin n → Option Ev :=
  fun i => match lastMsg ops i with | some e => some e | none => events i

/-- Every reading of `ops` comes from a clock of another type than `src`. -/
def OtherClock (src : Source) (ops : List (Op n)) : Prop := ∀ op ∈ ops, op.now.source ≠ src

/-- Every message of `later` arrives at a reading of the clock no later than one at which the same input had, in `ops`, delivered
a message other than its first. -/
def SetBack (ops later : List (Op n)) : Prop :=
  ∀ op ∈ later, ∃ a o b, ops = a ++ o :: b ∧ o.input = op.input ∧ deliveries a o.input ≠ [] ∧ op.now.ns ≤ o.now.ns

/-- The values can be sorted: comparing them with `>` is a strict weak order.  A NaN among two or more different numbers makes this
false. -/
def Sortable (l : List D) : Prop :=
  (∀ a ∈ l, gt a a = false) ∧ (∀ a ∈ l, ∀ b ∈ l, ∀ c ∈ l, gt a b = true → gt b c = true → gt a c = true) ∧
  (∀ a ∈ l, ∀ b ∈ l, ∀ c ∈ l, gt a c = true → gt a b = true ∨ gt b c = true)

end MF.Latest
