import Verif.Model.Event
/-
Model of include/message_filters/signal1.hpp and signal9.hpp, include/message_filters/connection.hpp and
src/connection.cpp, and `registerCallback` of include/message_filters/simple_filter.hpp.
-/
namespace MF.Signal

open MF.Event

/-! ### Registration -/

/-- signal1.hpp:116-118 and signal9.hpp:151-153: `callbacks_`.  A callback helper is represented by the number of its
registration: helpers are distinct objects, and every `Connection` keeps its helper alive, so addresses are not reused
while a connection to them exists.  `calls` logs the invocations (helper, output).  The mutex is not represented. -/
structure Registry (β : Type) where
  next : Nat
  callbacks : List Nat
  calls : List (Nat × β)

def Registry.init {β : Type} : Registry β := { next := 0, callbacks := [], calls := [] }

/-- signal1.hpp:84-92, signal9.hpp:91-127 (`addCallback`); simple_filter.hpp:63-102 (`registerCallback`).  The connection
returned is the number of the helper. -/
def addCallback {β : Type} (r : Registry β) : Registry β × Nat :=
  ({ r with next := r.next + 1, callbacks := r.callbacks ++ [r.next] }, r.next)

/-- signal1.hpp:94-102, signal9.hpp:129-137, `removeCallback`: erases the first occurrence. -/
def removeCallback {β : Type} (r : Registry β) (helper : Nat) : Registry β :=
  { r with callbacks := r.callbacks.erase helper }

/-- A `Connection` (connection.hpp:52-68): default constructed, or bound to `removeCallback` of a helper
(simple_filter.hpp:67, 77, 89, 101; signal9.hpp:98).  The member `connection_disconnect_` is never set by any constructor. -/
abbrev Connection := Option Nat

/-- connection.cpp:39-46, `Connection::disconnect`. -/
def disconnect {β : Type} (r : Registry β) (c : Connection) : Registry β :=
  match c with
  | none => r
  | some helper => removeCallback r helper

/-- signal1.hpp:104-114, signal9.hpp:139-149, `call`: only which callbacks are invoked, in which order. -/
def call {β : Type} (r : Registry β) (b : β) : Registry β :=
  { r with calls := r.calls ++ r.callbacks.map (fun k => (k, b)) }

inductive Op (β : Type) where
  | register
  | disconnect (c : Connection)
  | signal (b : β)

def step {β : Type} (r : Registry β) : Op β → Registry β
  | .register => (addCallback r).1
  | .disconnect c => Signal.disconnect r c
  | .signal b => call r b

def run {β : Type} (ops : List (Op β)) : Registry β := ops.foldl step Registry.init

/-! ### What callbacks see and can modify -/

/-- Everything that earlier callbacks were given to write to may be changed at any time: `adv` is an arbitrary adversary,
applied to the addresses handed out for writing. -/
def tamper {α : Type} (adv : Nat → α → α) (handed : List Nat) (h : Heap α) : Heap α :=
  h.mapIdx (fun a v => if a ∈ handed then adv a v else v)

/-- The progress of one `call`: the heap, the addresses handed out for writing, and the values seen, one list per callback. -/
structure Progress (α : Type) where
  heap : Heap α
  handed : List Nat
  seen : List (List (Option α))

def addHanded {α : Type} (handed : List Nat) (v : View α) : List Nat :=
  if v.canWrite then handed ++ v.addr.toList else handed

/-- signal1.hpp:67-71, `CallbackHelper1T::call`, followed by arbitrary modifications. -/
def callHelper1 {α : Type} (force : Bool) (e : Event) (adv : Nat → α → α) (p : Progress α) (k : Kind) :
    Except Fault (Progress α) :=
  match getParameter p.heap k (ofConstFlag e (force || e.needCopy)) with
  | .error f => .error f
  | .ok (h, v) =>
    let handed := addHanded p.handed v
    .ok { heap := tamper adv handed h, handed := handed, seen := p.seen ++ [[v.val]] }

/-- The callbacks of a signal are called one after the other, each followed by the modifications `adv` chooses for it. -/
def runHelpers {α C : Type} (helper : (Nat → α → α) → Progress α → C → Except Fault (Progress α)) :
    List (C × (Nat → α → α)) → Progress α → Except Fault (Progress α)
  | [], p => .ok p
  | (c, adv) :: cs, p =>
    match helper adv p c with
    | .error f => .error f
    | .ok p' => runHelpers helper cs p'

/-- signal1.hpp:104-114, `Signal1::call` for callbacks of given parameter kinds, each with its adversary. -/
def call1 {α : Type} (h : Heap α) (e : Event) (cbs : List (Kind × (Nat → α → α))) : Except Fault (Progress α) :=
  runHelpers (callHelper1 (decide (cbs.length > 1)) e) cbs { heap := h, handed := [], seen := [] }

/-- The arguments of one callback of a `Signal9`, one after the other. -/
def getParameters {α : Type} : List (Kind × Event) → Heap α → Except Fault (Heap α × List (View α))
  | [], h => .ok (h, [])
  | (k, e) :: l, h =>
    match getParameter h k e with
    | .error f => .error f
    | .ok (h1, v) =>
      match getParameters l h1 with
      | .error f => .error f
      | .ok (h2, vs) => .ok (h2, v :: vs)

/-- signal9.hpp:69-76, `CallbackHelper9T::call`: the events with the forced flag, `my_es`, are built and not used; the
parameters are taken from `es`.  Then arbitrary modifications follow.  Simplification: the arguments are evaluated from
left to right. -/
def callHelper9 {α : Type} (_force : Bool) (es : List Event) (adv : Nat → α → α) (p : Progress α) (ks : List Kind) :
    Except Fault (Progress α) :=
  match getParameters (ks.zip es) p.heap with
  | .error f => .error f
  | .ok (h, vs) =>
    let handed := vs.foldl addHanded p.handed
    .ok { heap := tamper adv handed h, handed := handed, seen := p.seen ++ [vs.map (·.val)] }

/-- signal9.hpp:139-149, `Signal9::call`. -/
def call9 {α : Type} (h : Heap α) (es : List Event) (cbs : List (List Kind × (Nat → α → α))) : Except Fault (Progress α) :=
  runHelpers (callHelper9 (decide (cbs.length > 1)) es) cbs { heap := h, handed := [], seen := [] }

end MF.Signal
