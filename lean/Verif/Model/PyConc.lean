import Verif.Model.PySync
import Verif.Model.Mutex
/-
Several threads using the Python classes of src/message_filters/__init__.py.

First part: `TimeSynchronizer.add` statement by statement, as the body of a call that holds `self.lock`.  Second part: a
SimpleFilter on which threads register callbacks and output at the same time; nothing is locked there.  One operation on a dict
is one atomic step (CPython's interpreter lock, trusted); between two operations any other thread may run.
-/
namespace MF.Py
open MF.Mutex

variable {n : Nat}

/-- The point which a call of `TimeSynchronizer.add` has reached. -/
inductive Point (n : Nat) where
  /-- __init__.py:226-227: the lock, and the stamp -/
  | enter (i : Fin n) (m : Msg)
  /-- line 228, `my_queue[stamp.nanoseconds] = msg` -/
  | insert (i : Fin n) (e : Ev)
  /-- lines 229-230, one iteration per step -/
  | evict (i : Fin n)
  /-- lines 232-233, the sorted common stamps -/
  | collect
  /-- lines 235-236, the callbacks -/
  | output (ts : List Int)
  /-- lines 237-238, the deletion -/
  | delete (t : Int) (ts : List Int)

/-- __init__.py:225-239, one statement per step.  A call that finds the lock taken by a call that was left by an exception never
comes back (`hang`); an exception leaves the lock taken. -/
def statement (boom : Nat → Bool) : Point n → State n → Except Fault (State n × Option (Point n))
  | .enter i m, s =>
    if s.locked then .error .hang
    else if !m.header then .ok ({ s with locked := true }, none)
    else .ok (s, some (.insert i m.ev))
  | .insert i e, s => .ok ({ s with queues := upd s.queues i ((s.queues i).set e.stamp e) }, some (.evict i))
  | .evict i, s =>
    if ((s.queues i).length : Int) > s.queueSize then
      match (s.queues i).minKey with
      | none => .ok ({ s with locked := true }, none)
      | some k => .ok ({ s with queues := upd s.queues i ((s.queues i).del k) }, some (.evict i))
    else .ok (s, some .collect)
  | .collect, s => .ok (s, some (.output (sorted (fun a b => decide (a ≤ b)) (common s.queues))))
  | .output [], s => .ok ({ s with locked := false }, none)
  | .output (t :: ts), s =>
    match allSome (fun j => (s.queues j).get t) with
    | none => .ok ({ s with locked := true }, none)
    | some msgs =>
      if boom s.out.length then .ok ({ s with out := s.out ++ [msgs], locked := true }, none)
      else .ok ({ s with out := s.out ++ [msgs] }, some (.delete t ts))
  | .delete t ts, s => .ok ({ s with queues := fun j => (s.queues j).del t }, some (.output ts))

/-- `TimeSynchronizer.add` as a body of a locked call. -/
def tsBody (boom : Nat → Bool) : Impl (State n) (Fin n × Msg) (Point n) :=
  { enter := fun op => .enter op.1 op.2, micro := statement boom }

/-- __init__.py:226: `add` of a TimeSynchronizer takes the lock first. -/
def lockedAdd (_ : Fin n × Msg) : Bool := true

/-- The point which a call of `ApproximateTimeSynchronizer.add` has reached. -/
inductive APoint (n : Nat) where
  /-- __init__.py:261-279: the stamp, and the lock -/
  | enter (i : Fin n) (m : Msg)
  /-- line 280 -/
  | insert (i : Fin n) (e : Ev)
  /-- lines 281-282, one iteration per step -/
  | evict (i : Fin n) (e : Ev)
  /-- lines 290-304: the first `k` of the searched queues are done, their stamps are in `found` -/
  | search (i : Fin n) (e : Ev) (k : Nat) (found : List (List Int))
  /-- lines 305-314: the combinations that are left -/
  | combine (i : Fin n) (e : Ev) (vs : List (List Int))
  /-- lines 315-316 -/
  | delete (vv : List Int)

/-- __init__.py:284-288, the searched queues. -/
def searched (queues : Fin n → Dict Ev) (i : Fin n) : List (Dict Ev) :=
  (List.ofFn queues).take i ++ (List.ofFn queues).drop (i + 1)

/-- __init__.py:260-318, one statement per step; conventions as in `statement`. -/
def approxStatement (boom : Nat → Bool) (slop : Int) (allowHeaderless : Bool) :
    APoint n → State n → Except Fault (State n × Option (APoint n))
  | .enter i m, s =>
    if !m.header && !allowHeaderless then .ok (s, none)
    else if s.locked then .error .hang
    else .ok (s, some (.insert i m.ev))
  | .insert i e, s => .ok ({ s with queues := upd s.queues i ((s.queues i).set e.stamp e) }, some (.evict i e))
  | .evict i e, s =>
    if ((s.queues i).length : Int) > s.queueSize then
      match (s.queues i).minKey with
      | none => .ok ({ s with locked := true }, none)
      | some k => .ok ({ s with queues := upd s.queues i ((s.queues i).del k) }, some (.evict i e))
    else .ok (s, some (.search i e 0 []))
  | .search i e k found, s =>
    match (searched s.queues i)[k]? with
    | none => .ok (s, some (.combine i e (product found)))
    | some d =>
      if (topicStamps slop e.stamp d).isEmpty then .ok (s, none)
      else .ok (s, some (.search i e (k + 1)
        (found ++ [(sorted (fun a b => decide (a.2 ≤ b.2)) (topicStamps slop e.stamp d)).map (·.1)])))
  | .combine _ _ [], s => .ok ({ s with locked := false }, none)
  | .combine i e (v :: vs), s =>
    match allSome (fun j => ((v.insertIdx i e.stamp)[j.1]?).bind (fun t => (s.queues j).get t)) with
    | some msgs =>
      if spread (v.insertIdx i e.stamp) < slop then
        if boom s.out.length then .ok ({ s with out := s.out ++ [msgs], locked := true }, none)
        else .ok ({ s with out := s.out ++ [msgs] }, some (.delete (v.insertIdx i e.stamp)))
      else .ok (s, some (.combine i e vs))
    | none => .ok (s, some (.combine i e vs))
  | .delete vv, s => .ok ({ s with queues := fun j => (s.queues j).del (vv[j.1]?.getD 0), locked := false }, none)

/-- `ApproximateTimeSynchronizer.add` as a body of a locked call. -/
def approxBody (boom : Nat → Bool) (slop : Int) (allowHeaderless : Bool) : Impl (State n) (Fin n × Msg) (APoint n) :=
  { enter := fun op => .enter op.1 op.2, micro := approxStatement boom slop allowHeaderless }

/-- __init__.py:260-279: `add` of an ApproximateTimeSynchronizer takes the lock unless it ignores the message. -/
def lockedApproxAdd (allowHeaderless : Bool) (op : Fin n × Msg) : Bool := op.2.header || allowHeaderless

end MF.Py

namespace MF.PyFilter

/-- What a thread does with the filter: __init__.py:49-59 and 61-63. -/
inductive TOp (C M : Type) where
  | register (cb : C)
  | signal (msg : M)

/-- Where a thread is: between calls; after line 57 (`conn = len(self.callbacks)`); in the loop of lines 62-63, with the size the
dict had when the loop began and the position of the iterator. -/
inductive TPc (C M : Type) where
  | idle
  | registering (cb : C) (conn : Nat)
  | looping (msg : M) (size pos : Nat)

structure Thr (C M : Type) where
  todo : List (TOp C M)
  pc : TPc C M

/-- The filter and its threads.  The dict is the list of its values: key `k` is at position `k`, because keys are only ever
the number of entries at some earlier moment.  `calls`, `raised`, `returned` and `ids` are logs: callbacks called, by which
thread; messages whose `signalMessage` raised RuntimeError; messages whose `signalMessage` returned; results of
`registerCallback`. -/
structure Conc (C M : Type) where
  callbacks : List C
  threads : Nat → Thr C M
  calls : List (Nat × C × M)
  raised : List (Nat × M)
  returned : List (Nat × M)
  ids : List (Nat × C × Nat)

def setThr {C M : Type} (f : Nat → Thr C M) (t : Nat) (x : Thr C M) : Nat → Thr C M := fun u => if u = t then x else f u

/-- `self.callbacks[conn] = (cb, args)`: an existing key gets a new value. -/
def put {C : Type} (l : List C) (conn : Nat) (cb : C) : List C := if conn < l.length then l.set conn cb else l ++ [cb]

/-- Thread `t` makes one step.  The iterator over the values raises RuntimeError when it is asked to go on (also at the end) and
the size of the dict has changed. -/
def tstep {C M : Type} (c : Conc C M) (t : Nat) : Conc C M :=
  let th := c.threads t
  match th.pc with
  | .idle =>
    match th.todo with
    | [] => c
    | .register cb :: rest => { c with threads := setThr c.threads t ⟨rest, .registering cb c.callbacks.length⟩ }
    | .signal msg :: rest => { c with threads := setThr c.threads t ⟨rest, .looping msg c.callbacks.length 0⟩ }
  | .registering cb conn =>
    { c with callbacks := put c.callbacks conn cb, threads := setThr c.threads t ⟨th.todo, .idle⟩,
             ids := c.ids ++ [(t, cb, conn)] }
  | .looping msg size pos =>
    if c.callbacks.length ≠ size then
      { c with threads := setThr c.threads t ⟨th.todo, .idle⟩, raised := c.raised ++ [(t, msg)] }
    else match c.callbacks[pos]? with
      | none => { c with threads := setThr c.threads t ⟨th.todo, .idle⟩, returned := c.returned ++ [(t, msg)] }
      | some cb =>
        { c with threads := setThr c.threads t ⟨th.todo, .looping msg size (pos + 1)⟩, calls := c.calls ++ [(t, cb, msg)] }

/-- A filter with some callbacks, and threads about to run their programs. -/
def tstart {C M : Type} (cbs : List C) (progs : Nat → List (TOp C M)) : Conc C M :=
  { callbacks := cbs, threads := fun t => ⟨progs t, .idle⟩, calls := [], raised := [], returned := [], ids := [] }

/-- The execution under a schedule. -/
def texec {C M : Type} (cbs : List C) (progs : Nat → List (TOp C M)) (schedule : List Nat) : Conc C M :=
  schedule.foldl tstep (tstart cbs progs)

end MF.PyFilter
