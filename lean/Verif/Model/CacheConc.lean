import Verif.Model.Cache
/-
A Cache whose `add` is called by several threads (cache.hpp:125-159).  The block that holds `cache_lock_` is one atomic step
(justified for any body by C51); the message is passed on after the lock has been released, in a separate step.
-/
namespace MF.Cache

/-- A thread: the messages it still has to add, and the message it has inserted but not passed on yet. -/
structure Adder where
  todo : List Ev
  pending : Option Ev

/-- The cache and the threads.  `inserted` and `passedOn` are ghosts: who did what, in which order. -/
structure Conc where
  cache : State
  threads : Nat → Adder
  inserted : List (Nat × Ev)
  passedOn : List (Nat × Ev)

/-- Replace thread `t`. -/
def setAdder (f : Nat → Adder) (t : Nat) (a : Adder) : Nat → Adder := fun u => if u = t then a else f u

/-- The scheduler lets thread `t` make one step: cache.hpp:130-156 (insert under the lock), or cache.hpp:158 (pass the message
on, no lock held). -/
def cstep (c : Conc) (t : Nat) : Except Fault Conc :=
  match (c.threads t).pending with
  | some e =>
    .ok { c with cache := forward c.cache e, threads := setAdder c.threads t { c.threads t with pending := none },
                 passedOn := c.passedOn ++ [(t, e)] }
  | none =>
    match (c.threads t).todo with
    | [] => .ok c
    | e :: rest =>
      match insertLocked c.cache e with
      | .error f => .error f
      | .ok s =>
        .ok { c with cache := s, threads := setAdder c.threads t { todo := rest, pending := some e },
                     inserted := c.inserted ++ [(t, e)] }

/-- A cache of size `n`, and threads `t` about to add the messages `progs t`. -/
def cstart (n : Nat) (progs : Nat → List Ev) : Conc :=
  { cache := construct n, threads := fun t => { todo := progs t, pending := none }, inserted := [], passedOn := [] }

/-- The execution under a schedule (the list of the threads that make a step). -/
def cexec (n : Nat) (progs : Nat → List Ev) (schedule : List Nat) : Except Fault Conc :=
  runE cstep (cstart n progs) schedule

end MF.Cache
