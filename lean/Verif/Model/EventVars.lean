import Verif.Model.Event
/-
Programs over several MessageEvent variables: construction, copying, assignment, `getMessage` and writes through the pointers
obtained.
-/
namespace MF.EventVars

open MF.Event

/-- The statements of a program over event variables.  `k` is the variable written, `j` the one read. -/
inductive Op (α : Type) where
  | default (k : Nat)
  | message (k : Nat) (m : Option Nat) (receipt : Time)
  | parts (k : Nat) (m : Option Nat) (receipt : Time) (needCopy factory : Bool)
  | assign (k j : Nat)
  | withFlag (k j : Nat) (needCopy : Bool)
  | get (k : Nat)
  | write (i : Nat) (f : α → α)

/-- The objects of the program.  `got` lists, oldest first, the results of `getMessage` on non-const events, with the variable
asked. -/
structure State (α : Type) where
  heap : Heap α
  ev : Nat → Event
  got : List (Nat × Option Nat)

/-- All variables default constructed, message_event.hpp:73-75. -/
def init {α : Type} (h : Heap α) : State α := { heap := h, ev := fun _ => Event.default, got := [] }

/-- Assignment to a variable. -/
def setEv (ev : Nat → Event) (k : Nat) (e : Event) : Nat → Event := fun x => if x = k then e else ev x

/-- message_event.hpp:77-85 and 137-153: copy construction, or assignment, of variable `j` to variable `k`, possibly the same.
`isMut j` tells whether `j` is a `MessageEvent<M>` with non-const `M`; its `getMessage()` may then create its private copy
before `k` is written. -/
def assign {α : Type} (isMut : Nat → Bool) (s : State α) (k j : Nat) : Except Fault (State α) :=
  if isMut j then
    match ofMut s.heap (s.ev j) with
    | .error f => .error f
    | .ok (h, src, new) => .ok { s with heap := h, ev := setEv (setEv s.ev j src) k new }
  else .ok { s with ev := setEv s.ev k (ofConst (s.ev j)) }

/-- message_event.hpp:87-97: the constructors with an explicit flag.  Constructing a variable from itself reads it before it
is initialised. -/
def withFlag {α : Type} (isMut : Nat → Bool) (s : State α) (k j : Nat) (needCopy : Bool) : Except Fault (State α) :=
  if k = j then .error .ub
  else if isMut j then
    match assign isMut s k j with
    | .error f => .error f
    | .ok s' => .ok { s' with ev := setEv s'.ev k { s'.ev k with needCopy := needCopy } }
  else .ok { s with ev := setEv s.ev k (ofConstFlag (s.ev j) needCopy) }

/-- One statement.  `parts` is message_event.hpp:120-125, or 99-105 with the parts of a `MessageEvent<void const>`; a new object
does not have a private copy.  `get` on a const event (160-163 with 209-211) has no effect.  `write` modifies the message
through the `i`-th pointer obtained; through a null pointer it is undefined. -/
def step {α : Type} (isMut : Nat → Bool) (s : State α) : Op α → Except Fault (State α)
  | .default k => .ok { s with ev := setEv s.ev k Event.default }
  | .message k m r => .ok { s with ev := setEv s.ev k (ofMessage m r) }
  | .parts k m r c f => .ok { s with ev := setEv s.ev k (ofParts m r c f) }
  | .assign k j => assign isMut s k j
  | .withFlag k j c => withFlag isMut s k j c
  | .get k =>
    if isMut k then
      match getMut s.heap (s.ev k) with
      | .error f => .error f
      | .ok (h, e, p) => .ok { heap := h, ev := setEv s.ev k e, got := s.got ++ [(k, p)] }
    else .ok s
  | .write i f =>
    match s.got[i]? with
    | none => .ok s
    | some (_, none) => .error .ub
    | some (_, some a) => .ok { s with heap := s.heap.modify a f }

end MF.EventVars
