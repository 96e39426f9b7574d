import Verif.Model.PyCache
/-
Vocabulary for the Python Cache.
-/
namespace MF.PyCache

/-- The messages of a history that can be stored, each with its time: the stamp of its header, or for a message without header,
if those are allowed, the reading of the ROS clock. -/
def usable (allowHeaderless : Bool) (ops : List (Msg × Int)) : List (Msg × PTime) :=
  ops.filterMap (fun o =>
    match o.1.stamp with
    | some t => some (o.1, t)
    | none => if allowHeaderless then some (o.1, ⟨.ros, o.2⟩) else none)

/-- The last `k` elements of a list; none if `k` is not positive. -/
def lastN {α : Type} (k : Int) (l : List α) : List α := l.drop (l.length - k.toNat)

/-- All times are of the clock type `c`. -/
def OneClock (c : Source) (l : List (Msg × PTime)) : Prop := ∀ x ∈ l, x.2.clock = c

/-- The times do not decrease. -/
def InOrder (l : List (Msg × PTime)) : Prop := l.Pairwise (fun a b => a.2.ns ≤ b.2.ns)

/-- The times increase. -/
def InStrictOrder (l : List (Msg × PTime)) : Prop := l.Pairwise (fun a b => a.2.ns < b.2.ns)

/-- What the documentation of `getElemAfterTime` promises of its result for the held messages `l`: the oldest message after or
at time `t`, or nothing if there is none. -/
def OldestAfter (l : List (Msg × PTime)) (t : Int) (r : Option Msg) : Prop :=
  match r with
  | none => ∀ y ∈ l, y.2.ns < t
  | some m => ∃ x ∈ l, x.1 = m ∧ t ≤ x.2.ns ∧ ∀ y ∈ l, t ≤ y.2.ns → x.2.ns ≤ y.2.ns

/-- What the documentation of `getElemBeforeTime` promises: the newest message before or at time `t`. -/
def NewestBefore (l : List (Msg × PTime)) (t : Int) (r : Option Msg) : Prop :=
  match r with
  | none => ∀ y ∈ l, t < y.2.ns
  | some m => ∃ x ∈ l, x.1 = m ∧ x.2.ns ≤ t ∧ ∀ y ∈ l, y.2.ns ≤ t → y.2.ns ≤ x.2.ns

end MF.PyCache
