import Verif.Model.EventVars
/-
Vocabulary for programs over event variables.
-/
namespace MF.EventVars

open MF.Event

variable {α : Type}

/-- The program never asks for events whose mutable message is the message itself. -/
def Careful (ops : List (Op α)) : Prop :=
  ∀ op ∈ ops, (∀ k m r f, op ≠ .parts k m r false f) ∧ (∀ k j, op ≠ .withFlag k j false)

/-- The variable the statement writes. -/
def target : Op α → Option Nat
  | .default k => some k
  | .message k _ _ => some k
  | .parts k _ _ _ _ => some k
  | .assign k _ => some k
  | .withFlag k _ _ => some k
  | .get _ => none
  | .write _ _ => none

/-- `k` holds an event with a message after the program: the last statement that wrote it was not `default`. -/
def Defined (ops : List (Op α)) (k : Nat) : Prop :=
  ∃ a op b, ops = a ++ op :: b ∧ target op = some k ∧ (∀ x, op ≠ .default x) ∧ ∀ o ∈ b, target o ≠ some k

/-- The statement asks the variable `k` for its mutable message, itself or by copying `k`. -/
def Uses (k : Nat) (op : Op α) : Prop := op = .get k ∨ (∃ x, op = .assign x k) ∨ ∃ x c, op = .withFlag x k c

/-- After the statements `pre`, the statement `op` uses only what is there: the message given to a constructor exists and has a
creator, and the variable read is defined. -/
def OpOk (size : Nat) (pre : List (Op α)) : Op α → Prop
  | .message _ m _ => ∃ a, m = some a ∧ a < size
  | .parts _ m _ _ f => f = true ∧ ∃ a, m = some a ∧ a < size
  | .assign _ j => Defined pre j
  | .withFlag k j _ => k ≠ j ∧ Defined pre j
  | .get k => Defined pre k
  | _ => True

/-- Every statement uses only what is there. -/
def WellUsed (size : Nat) (ops : List (Op α)) : Prop :=
  ∀ pre op post, ops = pre ++ op :: post → OpOk size pre op

end MF.EventVars
