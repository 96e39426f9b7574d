import Verif.Model.NullSlots
/-
Vocabulary for callbacks that may get missing messages.
-/
namespace MF.NullSlots

open MF.Event

variable {α : Type}

/-- An event with a message object and a function to create copies. -/
def Good (h : Heap α) (e : Event) : Prop := ∃ a, e.msg = some a ∧ a < h.length ∧ e.factory = true

/-- Parameter kinds that can represent a missing message. -/
def Kind.nullable : Kind → Bool
  | .constPtr => true
  | .constEvent => true
  | _ => false

/-- Callbacks given by the kind of each parameter, and their modifications. -/
def callbacks {n : Nat} (cbs : List ((Fin n → Kind) × (Nat → α → α))) : List (List Kind × (Nat → α → α)) :=
  cbs.map (fun c => (List.ofFn c.1, c.2))

end MF.NullSlots
