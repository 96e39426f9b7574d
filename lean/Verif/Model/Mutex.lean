import Verif.Model.Basic
/-
Threads calling the member functions of one filter.  A call that is protected by the filter's mutex takes it with
`std::lock_guard` for its whole duration (exact_time.hpp:96, approximate_time.hpp:168-169, approximate_epsilon_time.hpp:101,
latest_time.hpp:149, input_aligner.hpp:230 and 347, signal1.hpp:89, 96, 106, signal9.hpp:96, 131, 141, cache.hpp:131, 172,
211, 251, 278, 305, 323).  The body of a call is any program of atomic steps on the filter's state, so nothing is assumed
about the granularity of the machine; the steps of different threads are interleaved arbitrarily.
-/
namespace MF.Mutex

/-- The body of a call as a sequential program: the local state in which it starts, and one atomic step, which returns the new
state of the filter and the new local state (`none`: the body is finished). -/
structure Impl (σ Op L : Type) where
  enter : Op → L
  micro : L → σ → Except Fault (σ × Option L)

/-- The memory events that matter for data races: taking the mutex, accessing the filter's members, releasing the mutex. -/
inductive Event where
  | acquire (t : Nat)
  | access (t : Nat)
  | release (t : Nat)
deriving DecidableEq

/-- A thread: the calls it still has to make, and the call it is in (with whether it holds the mutex). -/
structure Thread (Op L : Type) where
  todo : List Op
  inside : Option (Bool × L)

/-- Filter, mutex (`owner`), threads.  `trace` and `order` are ghosts: the events so far, and the calls in the order in which
they took the mutex. -/
structure Config (σ Op L : Type) where
  shared : σ
  owner : Option Nat
  threads : Nat → Thread Op L
  trace : List Event
  order : List (Nat × Op)

variable {σ Op L : Type}

/-- Replace thread `t`. -/
def setThread (f : Nat → Thread Op L) (t : Nat) (x : Thread Op L) : Nat → Thread Op L :=
  fun u => if u = t then x else f u

/-- The scheduler lets thread `t` make one step.  `locked` tells which calls take the mutex.  A thread that has to wait for the
mutex, or has nothing to do, does nothing.  The last step of a body also releases the mutex. -/
def step (impl : Impl σ Op L) (locked : Op → Bool) (c : Config σ Op L) (t : Nat) : Except Fault (Config σ Op L) :=
  match (c.threads t).inside with
  | some (h, l) =>
    match impl.micro l c.shared with
    | .error f => .error f
    | .ok (s, some l') =>
      .ok { c with shared := s, threads := setThread c.threads t { c.threads t with inside := some (h, l') },
                   trace := c.trace ++ [.access t] }
    | .ok (s, none) =>
      .ok { c with shared := s, threads := setThread c.threads t { c.threads t with inside := none },
                   owner := if h then none else c.owner,
                   trace := c.trace ++ [.access t] ++ (if h then [.release t] else []) }
  | none =>
    match (c.threads t).todo with
    | [] => .ok c
    | op :: rest =>
      if locked op then
        if c.owner = none then
          .ok { c with owner := some t, threads := setThread c.threads t { todo := rest, inside := some (true, impl.enter op) },
                       trace := c.trace ++ [.acquire t], order := c.order ++ [(t, op)] }
        else .ok c
      else .ok { c with threads := setThread c.threads t { todo := rest, inside := some (false, impl.enter op) } }

/-- Threads `t` with programs `progs t` about to start; nobody holds the mutex. -/
def start (s : σ) (progs : Nat → List Op) : Config σ Op L :=
  { shared := s, owner := none, threads := fun t => { todo := progs t, inside := none }, trace := [], order := [] }

/-- The execution under a schedule (the list of the threads that make a step). -/
def exec (impl : Impl σ Op L) (locked : Op → Bool) (s : σ) (progs : Nat → List Op) (schedule : List Nat) :
    Except Fault (Config σ Op L) :=
  runE (step impl locked) (start s progs) schedule

/-- The body that does everything in one atomic step. -/
def atomic (seq : σ → Op → Except Fault σ) : Impl σ Op Op :=
  { enter := fun op => op
    micro := fun op s => match seq s op with | .error f => .error f | .ok s' => .ok (s', none) }

end MF.Mutex
