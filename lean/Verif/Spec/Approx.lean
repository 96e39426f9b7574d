import Verif.Spec.Sync
/-
Specification of approximate-time matching, independent of the implementation: an exhaustive search on complete
streams, without any of the shortcuts that let the implementation output a set early.
-/
namespace MF.ApproxSpec

variable {n : Nat}

/-- The first message of every input, if every input has one. -/
def fronts (d : Fin n → List Ev) : Option (Fin n → Ev) :=
  if ∀ i, d i ≠ [] then some (fun i => (d i).headD default) else none

/-- The first input whose message is oldest. -/
def oldest [NeZero n] (t : Fin n → Ev) : Fin n :=
  ((List.finRange n).find? (fun i => decide (∀ j, (t i).stamp ≤ (t j).stamp))).getD 0

/-- The last input whose message is newest. -/
def newest [NeZero n] (t : Fin n → Ev) : Fin n :=
  ((List.finRange n).reverse.find? (fun i => decide (∀ j, (t j).stamp ≤ (t i).stamp))).getD 0

/-- Time of the oldest message of a set. -/
def startOf [NeZero n] (t : Fin n → Ev) : Int := (t (oldest t)).stamp

/-- Time of the newest message of a set. -/
def endOf [NeZero n] (t : Fin n → Ev) : Int := (t (newest t)).stamp

/-- Set `t` is better than `c`: what it ends later, scaled by the age penalty, is less than what it starts later. -/
def better [NeZero n] (f : Int → Int) (t c : Fin n → Ev) : Prop := f (endOf t - endOf c) < startOf t - startOf c

instance [NeZero n] (f : Int → Int) (t c : Fin n → Ev) : Decidable (better f t c) := by unfold better; infer_instance

/-- All streams without their first message. -/
def tails (d : Fin n → List Ev) : Fin n → List Ev := fun i => (d i).tail

/-- The streams without the first message of input `m`. -/
def pop (d : Fin n → List Ev) (m : Fin n) : Fin n → List Ev := upd d m (d m).tail

/-- Number of messages in all streams. -/
def size (d : Fin n → List Ev) : Nat := ((List.finRange n).map (fun i => (d i).length)).sum

/-- Slide over the streams, always passing the oldest front message, until that is the pivot's; keep the best set of
front messages seen, and what follows it on every stream.  When a stream ends: with `closed = true` no more messages
will come on it, so nothing better can come and the best set is the result; with `closed = false` more may come, and the
search reports that it did not finish. -/
def searchN [NeZero n] (closed : Bool) (f : Int → Int) (p : Fin n) :
    Nat → (Fin n → Ev) → (Fin n → List Ev) → (Fin n → List Ev) → Option ((Fin n → Ev) × (Fin n → List Ev))
  | 0, _, _, _ => none
  | k + 1, best, after, d =>
    match fronts d with
    | none => if closed then some (best, after) else none
    | some t =>
      let best' := if better f t best then t else best
      let after' := if better f t best then tails d else after
      if oldest t = p then some (best', after') else searchN closed f p k best' after' (pop d (oldest t))

/-- The search with enough steps. -/
def search [NeZero n] (closed : Bool) (f : Int → Int) (p : Fin n) (best : Fin n → Ev) (after d : Fin n → List Ev) :
    Option ((Fin n → Ev) × (Fin n → List Ev)) :=
  searchN closed f p (size d + 1) best after d

/-- The next set of the streams `d`, and what remains after it: pass over oldest messages until the fronts span at most
`maxInterval`; the newest front is the pivot; search for the best set containing the pivot. -/
def nextN [NeZero n] (closed : Bool) (f : Int → Int) (maxInterval : Int) :
    Nat → (Fin n → List Ev) → Option ((Fin n → Ev) × (Fin n → List Ev))
  | 0, _ => none
  | k + 1, d =>
    match fronts d with
    | none => none
    | some t =>
      if endOf t - startOf t > maxInterval then nextN closed f maxInterval k (pop d (oldest t))
      else if oldest t = newest t then some (t, tails d)
      else search closed f (newest t) t (tails d) (pop d (oldest t))

/-- `nextN` with enough steps. -/
def next [NeZero n] (closed : Bool) (f : Int → Int) (maxInterval : Int) (d : Fin n → List Ev) :
    Option ((Fin n → Ev) × (Fin n → List Ev)) :=
  nextN closed f maxInterval (size d + 1) d

/-- All sets, one after the other. -/
def setsN [NeZero n] (closed : Bool) (f : Int → Int) (maxInterval : Int) : Nat → (Fin n → List Ev) → List (Fin n → Ev)
  | 0, _ => []
  | k + 1, d =>
    match next closed f maxInterval d with
    | none => []
    | some (t, d') => t :: setsN closed f maxInterval k d'

/-- The canonical sequence of sets of complete streams. -/
def sets [NeZero n] (closed : Bool) (f : Int → Int) (maxInterval : Int) (d : Fin n → List Ev) : List (Fin n → Ev) :=
  setsN closed f maxInterval (size d + 1) d

/-- Consecutive messages of an input are at least `bound` apart. -/
def Spaced (bound : Int) (l : List Ev) : Prop := l.Pairwise (fun a b => a.stamp + bound ≤ b.stamp)

/-- The cost of a set for an age penalty `num / den - 1`: `(1 + age_penalty) * end - start`, scaled by `den`. -/
def cost [NeZero n] (num den : Int) (t : Fin n → Ev) : Int := num * endOf t - den * startOf t

end MF.ApproxSpec
