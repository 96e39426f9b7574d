import Verif.Model.Approx
import Verif.Model.Epsilon
import Verif.Model.ExactTime
import Verif.Model.Cache
import Verif.Model.PySync
/-
Specification for property C121: the same calls with other messages.

`g` says which message takes the place of which.  What a message contains is its `id`, which `g` may change at will; its stamp
becomes `φ` of the old one.
-/
namespace MF

/-- `g` replaces every message by one whose stamp is `φ` of the old stamp. -/
def Restamps (g : Ev → Ev) (φ : Int → Int) : Prop := ∀ e, (g e).stamp = φ e.stamp

/-- `φ` keeps the order of stamps, and different stamps different. -/
def KeepsOrder (φ : Int → Int) : Prop := ∀ x y, x < y → φ x < φ y

/-- `add` calls with their messages replaced. -/
def mapCalls {n : Nat} (g : Ev → Ev) (ops : List (Fin n × Ev)) : List (Fin n × Ev) := ops.map (fun op => (op.1, g op.2))

/-- A set of messages, one per input, with its messages replaced. -/
def mapSet {n : Nat} (g : Ev → Ev) (t : Fin n → Option Ev) : Fin n → Option Ev := fun i => (t i).map g

/-- Calls of an ApproximateTime policy with their messages replaced; the parameters stay. -/
def Approx.mapOp {n : Nat} (g : Ev → Ev) : Approx.Op n → Approx.Op n
  | .add i e => .add i (g e)
  | .setAgePenalty nonneg scale => .setAgePenalty nonneg scale
  | .setInterMessageLowerBound i d => .setInterMessageLowerBound i d
  | .setMaxIntervalDuration d => .setMaxIntervalDuration d

/-- What happened to an ExactTime policy's messages, with the messages replaced. -/
def ExactTime.mapAction {n : Nat} (g : Ev → Ev) : ExactTime.Action n → ExactTime.Action n
  | .out t => .out (mapSet g t)
  | .drop t => .drop (mapSet g t)
  | .replaced i e => .replaced i (g e)

/-- A call of a cache with its message replaced. -/
def Cache.mapOp (g : Ev → Ev) : Cache.Op → Cache.Op
  | .add e => .add (g e)
  | .setSize n => .setSize n

/-- What a Python synchronizer's callback receives, with the message replaced; whether it has a header stays. -/
def Py.mapMsg (g : Ev → Ev) (m : Py.Msg) : Py.Msg := { m with ev := g m.ev }

/-- Calls of a Python synchronizer's `add` with their messages replaced. -/
def Py.mapCalls {n : Nat} (g : Ev → Ev) (ops : List (Fin n × Py.Msg)) : List (Fin n × Py.Msg) :=
  ops.map (fun op => (op.1, Py.mapMsg g op.2))

end MF
