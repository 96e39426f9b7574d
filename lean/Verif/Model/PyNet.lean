/-
Locks while messages travel through connected Python filters (src/message_filters/__init__.py), and exceptions.

Only the synchronizers have a lock: `threading.Lock()` (line 217), not reentrant, taken by `acquire()` and given back by `release()`
without `try`/`finally` or `with`.  So an exception that leaves `add` leaves the lock taken, and nobody gives it back.
-/
namespace MF.PyNet

/-- What a thread does to the locks.  `abandon f`: an exception leaves `add` of the synchronizer `f` after line 226 or 279 and before
line 239, 301 or 318. -/
inductive Act where
  | acquire (f : Nat)
  | release (f : Nat)
  | abandon (f : Nat)
deriving DecidableEq

/-- A lock: free, held by a thread that is inside `add`, or left taken by an exception. -/
inductive Lk where
  | free
  | held (t : Nat)
  | abandoned
deriving DecidableEq

/-- The locks, and what each thread still does. -/
structure State where
  lock : Nat → Lk
  todo : Nat → List Act

/-- Thread `t` makes a step.  `acquire()` waits (nothing changes) unless the lock is free, also if the thread itself holds it. -/
def step (s : State) (t : Nat) : State :=
  match s.todo t with
  | [] => s
  | .acquire f :: rest =>
    if s.lock f = .free then
      { lock := fun x => if x = f then .held t else s.lock x, todo := fun u => if u = t then rest else s.todo u }
    else s
  | .release f :: rest =>
    { lock := fun x => if x = f then .free else s.lock x, todo := fun u => if u = t then rest else s.todo u }
  | .abandon f :: rest =>
    { lock := fun x => if x = f then .abandoned else s.lock x, todo := fun u => if u = t then rest else s.todo u }

/-- All locks free. -/
def start (progs : Nat → List Act) : State := { lock := fun _ => .free, todo := progs }

/-- An execution. -/
def exec (s : State) (schedule : List Nat) : State := schedule.foldl step s

/-! ### Filters -/

/-- `plain`: SimpleFilter, Subscriber (82-83) and Cache (121-150), which call their callbacks without a lock.
`exact`: TimeSynchronizer (225-239).  `approximate`: ApproximateTimeSynchronizer (260-318). -/
inductive Kind where
  | plain
  | exact
  | approximate
deriving DecidableEq

/-- What a thread or a callback does: deliver a message to a filter, something that needs no lock (register a callback, query a
Cache), or raise an exception. -/
inductive Call where
  | deliver (f : Nat)
  | other
  | raise

/-- Filters and the callbacks that may be registered on them; a callback is the list of the calls it makes.  A filter `g` connected to
`f` is a callback `[deliver g]`.  Callbacks that catch exceptions are not modelled. -/
structure Net where
  kind : Nat → Kind
  callbacks : Nat → List (List Call)

/-- How a sequence of calls ends: it returns, or an exception comes out of it.  The traceback names the synchronizers whose `add` the
exception came through, outermost first. -/
inductive End where
  | returned
  | raised (traceback : List Nat)
deriving DecidableEq

/-- The lock operations of a sequence of calls and how it ends.  Which of the callbacks are registered when a filter outputs, and whether
a synchronizer outputs, is left open. -/
inductive Does (net : Net) : List Call → List Act → End → Prop where
  /-- nothing more to do -/
  | nil : Does net [] [] .returned
  /-- the rest is not executed -/
  | raise {cs} : Does net (.raise :: cs) [] (.raised [])
  /-- `registerCallback` (57-59), the queries of Cache (152-190): no lock -/
  | other {cs as e} (h : Does net cs as e) : Does net (.other :: cs) as e
  /-- `signalMessage` (61-63) without a lock -/
  | plain {f} {cbs : List (List Call)} {cs as e} (hk : net.kind f = .plain) (hcb : ∀ cb ∈ cbs, cb ∈ net.callbacks f)
      (h : Does net (cbs.flatten ++ cs) as e) : Does net (.deliver f :: cs) as e
  /-- 261-271: a message without header is ignored before the lock is taken -/
  | ignored {f cs as e} (hk : net.kind f = .approximate) (h : Does net cs as e) : Does net (.deliver f :: cs) as e
  /-- 225-239, 279-318: the callbacks are called under the lock (lines 236, 314) and return; then the lock is released -/
  | sync {f} {cbs : List (List Call)} {as cs as' e} (hk : net.kind f ≠ .plain) (hcb : ∀ cb ∈ cbs, cb ∈ net.callbacks f)
      (h : Does net cbs.flatten as .returned) (h' : Does net cs as' e) :
      Does net (.deliver f :: cs) (.acquire f :: (as ++ .release f :: as')) e
  /-- the same, and a callback raises -/
  | syncRaised {f} {cbs : List (List Call)} {as cs tb} (hk : net.kind f ≠ .plain) (hcb : ∀ cb ∈ cbs, cb ∈ net.callbacks f)
      (h : Does net cbs.flatten as (.raised tb)) : Does net (.deliver f :: cs) (.acquire f :: (as ++ [.abandon f])) (.raised (f :: tb))
  /-- lines 227 (message without header) and 230, 282 (`min` of an empty queue, if `queue_size` is negative) raise -/
  | ownRaise {f cs} (hk : net.kind f ≠ .plain) : Does net (.deliver f :: cs) [.acquire f, .abandon f] (.raised [f])

/-- What a thread does that makes the deliveries one after the other and goes on after an exception (as an executor does whose
user catches what comes out of `spin`); with the ends of the deliveries. -/
inductive Runs (net : Net) : List (List Call) → List Act → List End → Prop where
  | nil : Runs net [] [] []
  | cons {cs rest as as' e es} (h : Does net cs as e) (h' : Runs net rest as' es) : Runs net (cs :: rest) (as ++ as') (e :: es)

end MF.PyNet
