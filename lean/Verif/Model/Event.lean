import Verif.Model.Basic
/-
Model of include/message_filters/message_event.hpp (class MessageEvent) and
include/message_filters/parameter_adapter.hpp (ParameterAdapter).

Message objects live in a heap: a list of payloads of an arbitrary type `α`, the address is the position.  Nothing is
freed (messages are held by shared pointers).  A null pointer is `none`.
-/
namespace MF.Event

abbrev Heap (α : Type) := List α

/-- `rclcpp::Time`. -/
structure Time where
  ns : Int
  source : Source
deriving DecidableEq, Repr

/-- `rclcpp::Time::operator==` (trusted): throws if the sources differ. -/
def Time.eq (a b : Time) : Except Fault Bool :=
  if a.source ≠ b.source then .error .threw else .ok (decide (a.ns = b.ns))

/-- `rclcpp::Time::operator<` (trusted): throws if the sources differ. -/
def Time.lt (a b : Time) : Except Fault Bool :=
  if a.source ≠ b.source then .error .threw else .ok (decide (a.ns < b.ns))

/-- message_event.hpp:231-237: the members.  `factory` says whether `create_` holds a function; every function is assumed to
create a new object (as `DefaultMessageCreator` does, lines 48-55). -/
structure Event where
  msg : Option Nat
  copy : Option Nat
  receipt : Time
  needCopy : Bool
  factory : Bool
deriving DecidableEq, Repr

/-- message_event.hpp:73-75, the default constructor (`receipt_time_` is `rclcpp::Time()`). -/
def default : Event := { msg := none, copy := none, receipt := ⟨0, .system⟩, needCopy := true, factory := false }

/-- message_event.hpp:110-118, the constructors from a message pointer. -/
def ofMessage (msg : Option Nat) (receipt : Time) : Event :=
  { msg := msg, copy := none, receipt := receipt, needCopy := true, factory := true }

/-- message_event.hpp:120-125, the constructor with all parts. -/
def ofParts (msg : Option Nat) (receipt : Time) (needCopy factory : Bool) : Event :=
  { msg := msg, copy := none, receipt := receipt, needCopy := needCopy, factory := factory }

/-- message_event.hpp:160-163 with 209-211: `MessageEvent<M const>::getMessage`. -/
def getConst (e : Event) : Option Nat := e.msg

/-- message_event.hpp:160-163 with 205-222: `MessageEvent<M>::getMessage` for a non-const `M`.  The result is the heap, the
event (its `message_copy_` is mutable) and the pointer. -/
def getMut {α : Type} (h : Heap α) (e : Event) : Except Fault (Heap α × Event × Option Nat) :=
  if !e.needCopy then .ok (h, e, e.msg)
  else match e.copy with
    | some c => .ok (h, e, some c)
    | none =>
      if !e.factory then .error .assertFailed
      else match e.msg with
        | none => .error .ub
        | some a => match h[a]? with
          | none => .error .ub
          | some v => .ok (h ++ [v], { e with copy := some h.length }, some h.length)

/-- message_event.hpp:82-85 and 145-153: construction from, or assignment of, a `MessageEvent<M const>`; the new event may
be a `MessageEvent<M const>` or a `MessageEvent<M>`. -/
def ofConst (e : Event) : Event := { e with copy := none }

/-- message_event.hpp:93-97: the same with an explicit flag. -/
def ofConstFlag (e : Event) (needCopy : Bool) : Event := { e with copy := none, needCopy := needCopy }

/-- message_event.hpp:77-80 and 137-143: construction from, or assignment of, a `MessageEvent<M>` with non-const `M`.  This
calls `rhs.getMessage()`, which may make the private copy of the right hand side.  The result is the heap, the right hand
side and the new event. -/
def ofMut {α : Type} (h : Heap α) (e : Event) : Except Fault (Heap α × Event × Event) :=
  match getMut h e with
  | .error f => .error f
  | .ok (h', e', p) => .ok (h', e', { e' with msg := p, copy := none })

/-- Comparison of message addresses by `std::shared_ptr::operator<`; the null pointer is the smallest. -/
def ptrLt : Option Nat → Option Nat → Bool
  | none, none => false
  | none, some _ => true
  | some _, none => false
  | some a, some b => decide (a < b)

/-- message_event.hpp:178-189, `operator<`. -/
def lt (x y : Event) : Except Fault Bool :=
  if x.msg ≠ y.msg then .ok (ptrLt x.msg y.msg)
  else match Time.eq x.receipt y.receipt with
    | .error f => .error f
    | .ok false => Time.lt x.receipt y.receipt
    | .ok true => .ok (decide (x.needCopy = false ∧ y.needCopy = true))

/-- message_event.hpp:191-195, `operator==`. -/
def eq (x y : Event) : Except Fault Bool :=
  if x.msg ≠ y.msg then .ok false
  else match Time.eq x.receipt y.receipt with
    | .error f => .error f
    | .ok false => .ok false
    | .ok true => .ok (decide (x.needCopy = y.needCopy))

/-- message_event.hpp:197-200, `operator!=`. -/
def ne (x y : Event) : Except Fault Bool :=
  match eq x y with
  | .error f => .error f
  | .ok b => .ok !b

/-- The eight callback parameter types of parameter_adapter.hpp:57-68, grouped by what they hand to the callback. -/
inductive Kind where
  | byValue     -- `M` (lines 69-81)
  | constRef    -- `const M &` (111-123)
  | constPtr    -- `shared_ptr<M const>`, `const shared_ptr<M const> &` (83-95, 125-137)
  | mutPtr      -- `shared_ptr<M>`, `const shared_ptr<M> &` (97-109, 139-151)
  | constEvent  -- `const MessageEvent<M const> &` (153-165)
  | mutEvent    -- `const MessageEvent<M> &` (167-179)
deriving DecidableEq, Repr

/-- Whether the parameter lets the callback modify a message. -/
def Kind.mutable : Kind → Bool
  | .mutPtr => true
  | .mutEvent => true
  | _ => false

/-- What a callback gets: the value it sees when it is called (`none` for a null pointer), the address of the message
object it can reach, and whether it may write to it. -/
structure View (α : Type) where
  val : Option α
  addr : Option Nat
  canWrite : Bool

/-- parameter_adapter.hpp:77-178, `getParameter`.  A callback taking `const MessageEvent<M> &` is taken to call
`getMessage()` on its event; later calls return the same pointer (C11).  A callback that takes
`const MessageEvent<M const> &` and builds its own `MessageEvent<M>` from it behaves like one taking `MessageEvent<M>`. -/
def getParameter {α : Type} (h : Heap α) (k : Kind) (e : Event) : Except Fault (Heap α × View α) :=
  match k with
  | .byValue | .constRef =>
    match getConst e with
    | none => .error .ub
    | some a => match h[a]? with
      | none => .error .ub
      | some v => .ok (h, { val := some v, addr := if k = .byValue then none else some a, canWrite := false })
  | .constPtr | .constEvent =>
    .ok (h, { val := (getConst e).bind (fun a => h[a]?), addr := getConst e, canWrite := false })
  | .mutPtr | .mutEvent =>
    match getMut h (ofConst e) with
    | .error f => .error f
    | .ok (h', _, p) => .ok (h', { val := p.bind (fun a => h'[a]?), addr := p, canWrite := true })

end MF.Event
