import Verif.Model.Basic
/-
Model of how filters are connected and destroyed: `connectInput` and the destructors of
include/message_filters/pass_through.hpp, chain.hpp, cache.hpp, time_sequencer.hpp, synchronizer.hpp and input_aligner.hpp,
with `Connection` (connection.hpp, src/connection.cpp) and the registration of callbacks in simple_filter.hpp / signal1.hpp.

What a filter does with a message is modelled elsewhere; here only which input of which object is called counts.  A message
that a filter outputs in turn is a further `output` of the history.  Objects are identified by the number of their creation
(addresses are not reused).
-/
namespace MF.Network

/-- The filter classes.  `source` is a filter without input (Subscriber, whose `connectInput` does nothing:
subscriber.hpp:570-574, or a user defined SimpleFilter). -/
inductive Kind where
  | source | passThrough | chain | cache | sequencer
  | synchronizer (inputs : Nat)
  | aligner (inputs : Nat)
deriving DecidableEq, Repr

/-- Number of input connections a filter keeps: pass_through.hpp:89, chain.hpp:244, cache.hpp (`incoming_connection_`),
time_sequencer.hpp (`incoming_connection_`), synchronizer.hpp:180, input_aligner.hpp (`input_connections_`). -/
def Kind.slots : Kind → Nat
  | .source => 0
  | .passThrough | .chain | .cache | .sequencer => 1
  | .synchronizer n => n
  | .aligner n => n

/-- Whether `connectInput` disconnects the old inputs: pass_through.hpp:64, chain.hpp:192, time_sequencer.hpp:131,
synchronizer.hpp:112, input_aligner.hpp:123; not cache.hpp:86-91. -/
def Kind.disconnectsOnConnect : Kind → Bool
  | .cache => false
  | _ => true

/-- Whether the destructor disconnects the inputs: cache.hpp:93-96, time_sequencer.hpp:140-144, synchronizer.hpp:82-85,
input_aligner.hpp:111-114; PassThrough and Chain have no destructor. -/
def Kind.disconnectsOnDestroy : Kind → Bool
  | .passThrough | .chain => false
  | _ => true

/-- One registered callback: the helper object, and the input it is bound to. -/
structure Reg where
  id : Nat
  sink : Nat
  slot : Nat
deriving DecidableEq, Repr

/-- A filter object: its registered callbacks (`signal_`) and its input connections, a source and a helper each. -/
structure Obj where
  kind : Kind
  alive : Bool
  callbacks : List Reg
  conns : Nat → Option (Nat × Nat)

/-- The objects, the number of objects created, the next helper, and the log of calls (sink, input, message). -/
structure Net where
  objs : Nat → Obj
  size : Nat
  next : Nat
  log : List (Nat × Nat × Nat)

def noObj : Obj := { kind := .source, alive := false, callbacks := [], conns := fun _ => none }

def init : Net := { objs := fun _ => noObj, size := 0, next := 0, log := [] }

def setObj (n : Net) (x : Nat) (o : Obj) : Net := { n with objs := fun y => if y = x then o else n.objs y }

/-- Construction of a filter without connecting it. -/
def create (n : Net) (k : Kind) : Net :=
  { setObj n n.size { kind := k, alive := true, callbacks := [], conns := fun _ => none } with size := n.size + 1 }

/-- connection.cpp:39-46 with signal1.hpp:94-102: `Connection::disconnect`.  A connection holds the address of the signal of
its source (simple_filter.hpp:67), so it must not be used after the source is destroyed. -/
def disconnect (n : Net) (c : Option (Nat × Nat)) : Except Fault Net :=
  match c with
  | none => .ok n
  | some (f, k) =>
    if (n.objs f).alive then
      .ok (setObj n f { n.objs f with callbacks := (n.objs f).callbacks.filter (fun r => decide (r.id ≠ k)) })
    else .error .ub

/-- Disconnects the inputs in turn: pass_through.hpp:64 and the like, `disconnectAll` (synchronizer.hpp:163-168,
input_aligner.hpp:332-337).  The connection objects themselves are not reset. -/
def disconnectSlots (n : Net) (x : Nat) : Except Fault Net :=
  runE (fun m i => disconnect m ((n.objs x).conns i)) n (List.range (n.objs x).kind.slots)

/-- `connection = f.registerCallback(callback of input i of x)`: pass_through.hpp:65-70, chain.hpp:193-195,
cache.hpp:88-90, time_sequencer.hpp:132-137, synchronizer.hpp:92-101, input_aligner.hpp:315-324. -/
def register (n : Net) (x : Nat) (f i : Nat) : Except Fault Net :=
  if (n.objs f).alive then
    let n1 := setObj n f { n.objs f with callbacks := (n.objs f).callbacks ++ [⟨n.next, x, i⟩] }
    .ok { setObj n1 x { n1.objs x with conns := fun j => if j = i then some (f, n.next) else (n1.objs x).conns j } with
      next := n.next + 1 }
  else .error .ub

/-- `x.connectInput(srcs...)`.  More sources than inputs do not compile; this is treated as an error. -/
def connectInput (n : Net) (x : Nat) (srcs : List Nat) : Except Fault Net :=
  if !(n.objs x).alive then .error .ub
  else if srcs.length > (n.objs x).kind.slots then .error .ub
  else
    match (if (n.objs x).kind.disconnectsOnConnect then disconnectSlots n x else .ok n) with
    | .error f => .error f
    | .ok n1 => runE (fun m (p : Nat × Nat) => register m x p.1 p.2) n1 srcs.zipIdx

/-- The destructor of `x`. -/
def destroy (n : Net) (x : Nat) : Except Fault Net :=
  if !(n.objs x).alive then .error .ub
  else
    match (if (n.objs x).kind.disconnectsOnDestroy then disconnectSlots n x else .ok n) with
    | .error f => .error f
    | .ok n1 => .ok (setObj n1 x { n1.objs x with alive := false, callbacks := [] })

/-- Filter `f` outputs message `m`: every registered callback calls its sink; calling a destroyed object is undefined. -/
def output (n : Net) (f m : Nat) : Except Fault Net :=
  if !(n.objs f).alive then .error .ub
  else if (n.objs f).callbacks.all (fun r => (n.objs r.sink).alive) then
    .ok { n with log := n.log ++ (n.objs f).callbacks.map (fun r => (r.sink, r.slot, m)) }
  else .error .ub

inductive Op where
  | create (k : Kind)
  | connect (x : Nat) (srcs : List Nat)
  | destroy (x : Nat)
  | output (f m : Nat)

def step (n : Net) : Op → Except Fault Net
  | .create k => .ok (create n k)
  | .connect x srcs => connectInput n x srcs
  | .destroy x => Network.destroy n x
  | .output f m => Network.output n f m

def run (ops : List Op) : Except Fault Net := runE step init ops

end MF.Network
