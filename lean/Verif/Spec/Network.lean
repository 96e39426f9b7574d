import Verif.Model.Network
/-
Vocabulary for the properties of connected filters, in terms of the history of calls.
-/
namespace MF.Network

/-- The kinds of the objects created, in order. -/
def created (ops : List Op) : List Kind := ops.filterMap (fun op => match op with | .create k => some k | _ => none)

/-- How many inputs a filter of a kind has. -/
def inputsOf : Kind → Nat
  | .source => 0
  | .passThrough => 1
  | .chain => 1
  | .cache => 1
  | .sequencer => 1
  | .synchronizer n => n
  | .aligner n => n

/-- The kind of object `x`, the `x`-th object created (from 0). -/
def kindOf (ops : List Op) (x : Nat) : Option Kind := (created ops)[x]?

/-- Object `x` was destroyed. -/
def Destroyed (ops : List Op) (x : Nat) : Prop := Op.destroy x ∈ ops

/-- Object `x` exists. -/
def Alive (ops : List Op) (x : Nat) : Prop := kindOf ops x ≠ none ∧ ¬ Destroyed ops x

/-- The source lists of the `connectInput` calls on `x`, in order. -/
def connects (ops : List Op) (x : Nat) : List (List Nat) :=
  ops.filterMap (fun op => match op with | .connect y srcs => if y = x then some srcs else none | _ => none)

/-- The source given for input `i` by the last `connectInput` on `x`. -/
def currentSource (ops : List Op) (x i : Nat) : Option Nat := (connects ops x).getLast?.bind (fun srcs => srcs[i]?)

/-- The source given for input `i` by the last `connectInput` on `x` that gave one. -/
def lastSource (ops : List Op) (x i : Nat) : Option Nat :=
  ((connects ops x).filter (fun srcs => decide (i < srcs.length))).getLast?.bind (fun srcs => srcs[i]?)

/-- How often `connectInput` on `x` gave `f` for input `i`. -/
def timesConnected (ops : List Op) (x i f : Nat) : Nat := (connects ops x).countP (fun srcs => decide (srcs[i]? = some f))

open Classical in
/-- How often an output of `f` is delivered to input `i` of `x`.  A filter that replaces its connections is delivered once
if `f` is its current source for the input, and no more once it is destroyed, if its destructor disconnects.  A Cache is
delivered as often as it was connected to `f`; its destructor undoes the last connection only. -/
noncomputable def subscriptions (ops : List Op) (f x i : Nat) : Nat :=
  match kindOf ops x with
  | none => 0
  | some .cache => timesConnected ops x i f - (if Destroyed ops x ∧ lastSource ops x i = some f then 1 else 0)
  | some k =>
    if currentSource ops x i = some f ∧ ¬ (Destroyed ops x ∧ k ≠ .passThrough ∧ k ≠ .chain) then 1 else 0

/-- Destroyed object `x` is still called by outputs of `f`: a PassThrough or Chain connected to `f`, or a Cache connected to
`f` by a `connectInput` that was not its last one. -/
def Dangling (ops : List Op) (f x : Nat) : Prop :=
  Destroyed ops x ∧
  (((kindOf ops x = some .passThrough ∨ kindOf ops x = some .chain) ∧ ∃ i, currentSource ops x i = some f) ∨
   (kindOf ops x = some .cache ∧ ∃ i, timesConnected ops x i f > (if lastSource ops x i = some f then 1 else 0)))

/-- The call `op` is safe after the history `pre`: it uses only existing filters, finds no dangling connection of the filter it
changes, and, if it outputs, calls no destroyed object. -/
def Safe (pre : List Op) : Op → Prop
  | .create _ => True
  | .connect x srcs =>
    Alive pre x ∧ (∀ k, kindOf pre x = some k → srcs.length ≤ k.slots) ∧ (∀ f ∈ srcs, Alive pre f) ∧
    (kindOf pre x ≠ some .cache → ∀ i f, lastSource pre x i = some f → ¬ Destroyed pre f)
  | .destroy x =>
    Alive pre x ∧ (kindOf pre x = some .passThrough ∨ kindOf pre x = some .chain ∨
      ∀ i f, lastSource pre x i = some f → Alive pre f)
  | .output f _ => Alive pre f ∧ ∀ x, ¬ Dangling pre f x

/-- The log of calls made in a history, if it ran without a fault. -/
def logOf (ops : List Op) : Option (List (Nat × Nat × Nat)) :=
  match run ops with
  | .ok s => some s.log
  | .error _ => none

/-- The calls of input `i` of `x` made by the last operation of a history. -/
def calls (before after : Net) (x i m : Nat) : Nat :=
  (after.log.drop before.log.length).countP (fun c => decide (c = (x, i, m)))

end MF.Network
