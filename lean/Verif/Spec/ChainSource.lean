import Verif.Spec.Chain
/-
Vocabulary for property C120: a source, such as a Subscriber, in a Chain.
-/
namespace MF.Chain

variable {S M : Type}

/-- A filter that ignores what is added to it, as a Subscriber does: its `connectInput` and `add` do nothing
(subscriber.hpp:564-581); it only outputs by itself.  Simplification: `connectInput` is modelled as connecting this `add`. -/
def IsSource (B : Behaviour S M) (f : Nat) : Prop := ∀ s m, B f s m = (s, [])

/-- The call adds a filter, or is the output of a filter other than those of `pre`. -/
def notOf (pre : List Nat) (op : Op M) : Bool :=
  match op with
  | .addFilter _ => true
  | .add _ => false
  | .emit g _ => decide (g ∉ pre)

/-- The messages filter `f` outputs by itself, in order. -/
def emitted (f : Nat) (ops : List (Op M)) : List M :=
  ops.filterMap (fun op => match op with | .emit g m => if g = f then some m else none | _ => none)

end MF.Chain
