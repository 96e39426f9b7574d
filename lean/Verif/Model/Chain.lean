import Verif.Model.Basic
/-
Model of include/message_filters/chain.hpp with the PassThrough filters (pass_through.hpp) it puts behind every filter.

The filters are identified by numbers; what a filter does with a message is an arbitrary function of its state and the
message, giving its next state and the messages it outputs (`Behaviour`).  A filter can also output by itself, from a timer
or another thread (`Op.emit`).  The connection of the chain's own input is modelled in Model/Network.lean: a message
arriving there is an `add` (chain.hpp:224-227).
-/
namespace MF.Chain

/-- What filter number `f` in state `s` does with a message: `F::add` (chain.hpp:150-151). -/
abbrev Behaviour (S M : Type) := Nat → S → M → S × List M

/-- A callback registered with one of the PassThroughs: `add` of a filter, or `Chain::lastFilterCB`. -/
inductive Target where
  | filter (f : Nat)
  | chain
deriving DecidableEq, Repr

/-- chain.hpp:234-245.  `filters` is the `filter` member of `filters_`; PassThrough number `i` is the one of
`filters_[i]`.  `filterCbs f` lists the PassThroughs registered with filter `f`, `passCbs i` the callbacks registered with
PassThrough `i`.  `sts` are the states of the filters and `out` is the log of the messages the chain output. -/
structure Chain (S M : Type) where
  filters : List Nat
  filterCbs : Nat → List Nat
  passCbs : Nat → List Target
  sts : Nat → S
  out : List M

variable {S M : Type}

/-- chain.hpp:113-115; the filters have states of their own. -/
def init (sts : Nat → S) : Chain S M :=
  { filters := [], filterCbs := fun _ => [], passCbs := fun _ => [], sts := sts, out := [] }

/-- chain.hpp:155: `last_filter_connection_.disconnect()`: the callback of the chain is removed from the PassThrough it was
last registered with, the one of the last filter. -/
def disconnectLast (c : Chain S M) : Chain S M :=
  { c with passCbs := fun i => if i + 1 = c.filters.length then (c.passCbs i).filter (fun t => decide (t ≠ .chain)) else c.passCbs i }

/-- chain.hpp:156: `info.passthrough->connectInput(*filter)`, pass_through.hpp:61-71; the PassThrough is new. -/
def connectPass (c : Chain S M) (i f : Nat) : Chain S M :=
  { c with filterCbs := fun g => if g = f then c.filterCbs g ++ [i] else c.filterCbs g }

/-- chain.hpp:157-159: `info.passthrough->registerCallback(lastFilterCB)`. -/
def registerLast (c : Chain S M) (i : Nat) : Chain S M :=
  { c with passCbs := fun j => if j = i then c.passCbs j ++ [.chain] else c.passCbs j }

/-- chain.hpp:160-162: `filter->connectInput(*filters_.back().passthrough)`: the filter gives up its old input
(pass_through.hpp:64; a Cache does not) and registers its `add`. -/
def connectFilter (c : Chain S M) (f i : Nat) : Chain S M :=
  { c with passCbs := fun j =>
      let old := (c.passCbs j).filter (fun t => decide (t ≠ .filter f))
      if j = i then old ++ [.filter f] else old }

/-- chain.hpp:136-167: `addFilter`, with the index it returns. -/
def addFilter (c : Chain S M) (f : Nat) : Chain S M × Nat :=
  let count := c.filters.length
  let c1 := disconnectLast c
  let c2 := connectPass c1 count f
  let c3 := registerLast c2 count
  let c4 := if c.filters.isEmpty then c3 else connectFilter c3 f (count - 1)
  ({ c4 with filters := c.filters ++ [f] }, count)

/-- chain.hpp:56-64, 176-184 and 213-221: `getFilter` and `getFilterForIndex`; `none` is the empty pointer. -/
def getFilter (c : Chain S M) (index : Nat) : Option Nat :=
  if index ≥ c.filters.length then none else c.filters[index]?

/-- Filter `f` outputs `o`: every PassThrough registered with it calls every callback registered with that PassThrough
(pass_through.hpp:78-87, signal1.hpp:104-112), which is `Chain::lastFilterCB` (chain.hpp:229-232) or `add` of a filter. -/
def emitWith (addTo : Chain S M → Nat → M → Except Fault (Chain S M)) (c : Chain S M) (f : Nat) (o : M) :
    Except Fault (Chain S M) :=
  runE (fun c t => match t with
    | .chain => .ok { c with out := c.out ++ [o] }
    | .filter g => addTo c g o) c ((c.filterCbs f).flatMap c.passCbs)

/-- `add` of filter `f`: the filter processes the message and outputs its results one after the other.  The depth of the
nested calls is bounded by the first argument; a call that needs more does not return (`hang`): in the code it would recurse
without bound or block on the mutex of the signal that is already being called. -/
def addTo (B : Behaviour S M) : Nat → Chain S M → Nat → M → Except Fault (Chain S M)
  | 0, _, _, _ => .error .hang
  | depth + 1, c, f, m =>
    runE (fun c o => emitWith (addTo B depth) c f o)
      { c with sts := fun g => if g = f then (B f (c.sts f) m).1 else c.sts g } (B f (c.sts f) m).2

/-- chain.hpp:201-211: `add`. -/
def add (B : Behaviour S M) (depth : Nat) (c : Chain S M) (m : M) : Except Fault (Chain S M) :=
  match c.filters with
  | [] => .ok c
  | f :: _ => addTo B depth c f m

inductive Op (M : Type) where
  | addFilter (f : Nat)
  | add (m : M)
  | emit (f : Nat) (m : M)

def step (B : Behaviour S M) (depth : Nat) (c : Chain S M) : Op M → Except Fault (Chain S M)
  | .addFilter f => .ok (addFilter c f).1
  | .add m => add B depth c m
  | .emit f m => emitWith (addTo B depth) c f m

def run (B : Behaviour S M) (depth : Nat) (sts : Nat → S) (ops : List (Op M)) : Except Fault (Chain S M) :=
  runE (step B depth) (init sts) ops

end MF.Chain
