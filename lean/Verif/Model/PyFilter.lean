import Verif.Model.Basic
/-
Model of the Python class SimpleFilter of src/message_filters/__init__.py (lines 44-63).

`C` stands for the callables, `A` for the extra arguments given at registration, `M` for what a filter outputs.
-/
namespace MF.PyFilter

/-- What happens to a filter: a callback is registered on it, or it outputs. -/
inductive Op (C A M : Type) where
  | register (cb : C) (args : A)
  | signal (msg : M)

/-- __init__.py:46-47: the filter.  `callbacks` holds the values of the dict, in insertion order; the key of the `k`-th is `k`
(nothing is ever removed).  `calls` logs the calls made, `ids` what `registerCallback` returned. -/
structure State (C A M : Type) where
  callbacks : List (C × A)
  calls : List (C × M × A)
  ids : List Nat

/-- __init__.py:46-47. -/
def construct (C A M : Type) : State C A M := { callbacks := [], calls := [], ids := [] }

/-- __init__.py:49-59, `registerCallback`. -/
def register {C A M : Type} (s : State C A M) (cb : C) (args : A) : State C A M :=
  { s with callbacks := s.callbacks ++ [(cb, args)], ids := s.ids ++ [s.callbacks.length] }

/-- What a call of a callback does: the callbacks it registers on this same filter, and whether it raises after that. -/
structure Effect (C A : Type) where
  registers : List (C × A)
  raises : Bool

/-- __init__.py:61-63: the loop of `signalMessage`, over the callbacks that are left.  The iterator over a dict raises
RuntimeError when it is asked to go on (also at the end) and the size of the dict has changed.  The second component says whether
the loop was left by an exception. -/
def signalLoop {C A M : Type} (beh : C → M → A → Effect C A) (msg : M) : List (C × A) → State C A M → State C A M × Bool
  | [], s => (s, false)
  | (cb, args) :: rest, s =>
    let e := beh cb msg args
    let s1 := e.registers.foldl (fun s r => register s r.1 r.2) { s with calls := s.calls ++ [(cb, msg, args)] }
    if e.raises then (s1, true)
    else if s1.callbacks.length ≠ s.callbacks.length then (s1, true)
    else signalLoop beh msg rest s1

/-- __init__.py:61-63, `signalMessage`. -/
def signal {C A M : Type} (beh : C → M → A → Effect C A) (s : State C A M) (msg : M) : State C A M × Bool :=
  signalLoop beh msg s.callbacks s

/-- One operation; an exception of `signal` reaches the caller, who carries on. -/
def step {C A M : Type} (beh : C → M → A → Effect C A) (s : State C A M) : Op C A M → State C A M
  | .register cb args => register s cb args
  | .signal msg => (signal beh s msg).1

/-- A history. -/
def run {C A M : Type} (beh : C → M → A → Effect C A) (s : State C A M) (ops : List (Op C A M)) : State C A M :=
  ops.foldl (step beh) s

end MF.PyFilter
