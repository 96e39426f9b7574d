import Verif.Model.Signal
/-
Vocabulary for the callback properties.
-/
namespace MF.Signal

open MF.Event

/-- Number of registrations in a history. -/
def registrations {β : Type} (ops : List (Op β)) : Nat :=
  ops.countP (fun op => match op with | .register => true | _ => false)

/-- The callback of the `k`-th registration (counted from 0) is connected at the end of the history: it was registered and
its connection was not disconnected afterwards. -/
def Connected {β : Type} (ops : List (Op β)) (k : Nat) : Prop :=
  ∃ pre post, ops = pre ++ .register :: post ∧ registrations pre = k ∧ Op.disconnect (some k) ∉ post

/-- The content of the message an event carries (`none`: null pointer or no such object). -/
def content {α : Type} (h : Heap α) (e : Event) : Option α := e.msg.bind (fun a => h[a]?)

variable {α : Type}

/-- Uses of a mutable event: `getMessage()`, or a modification through the pointer obtained last. -/
inductive Use (α : Type) where
  | get
  | write (f : α → α)

structure UseState (α : Type) where
  heap : Heap α
  event : Event
  got : List (Option Nat)

def use (s : UseState α) : Use α → Except Fault (UseState α)
  | .get => match getMut s.heap s.event with
    | .error f => .error f
    | .ok (h, e, p) => .ok { heap := h, event := e, got := s.got ++ [p] }
  | .write f => match s.got.getLast? with
    | some (some a) => .ok { s with heap := s.heap.modify a f }
    | _ => .ok s

/-- The comparison key of an event. -/
def key (e : Event) : Option Nat × Int × Bool := (e.msg, e.receipt.ns, e.needCopy)

/-- `a` is ordered before `b`. -/
def Before (a b : Event) : Prop := lt a b = .ok true


end MF.Signal
