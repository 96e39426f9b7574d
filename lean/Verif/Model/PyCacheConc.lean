import Verif.Model.PyCache
/-
A Python Cache whose `add` is called by several threads (__init__.py:121-150; there is no lock).  One operation on a list is one
atomic step (CPython's interpreter lock, trusted); between two operations any other thread may run.
-/
namespace MF.PyCache

/-- Where a thread is in `add`: between calls; after line 141; after line 142; after the test on line 145 was true; after line
146; before line 150. -/
inductive Pc where
  | idle
  | timed (m : Msg)
  | appended (m : Msg)
  | full (m : Msg)
  | halfDeleted (m : Msg)
  | signal (m : Msg)
deriving DecidableEq, Repr

/-- A thread: the usable messages it still has to add, with their times, and where it is. -/
structure Thr where
  todo : List (Msg × PTime)
  pc : Pc

/-- The cache and its `W` threads.  `inserted`, `insertedTimes` (everything ever appended to the two lists) and `passedOn` (who
passed on what) are ghosts. -/
structure Conc (W : Nat) where
  cache : State
  threads : Fin W → Thr
  inserted : List Msg
  insertedTimes : List PTime
  passedOn : List (Fin W × Msg)

/-- Thread `t` makes one step of `add` (__init__.py:141-150).  `del l[0]` of an empty list raises IndexError. -/
def cstep {W : Nat} (c : Conc W) (t : Fin W) : Except Fault (Conc W) :=
  let th := c.threads t
  match th.pc with
  | .idle =>
    match th.todo with
    | [] => .ok c
    | (m, ts) :: rest =>
      .ok { c with cache := { c.cache with times := c.cache.times ++ [ts] }, threads := upd c.threads t ⟨rest, .timed m⟩,
                   insertedTimes := c.insertedTimes ++ [ts] }
  | .timed m =>
    .ok { c with cache := { c.cache with msgs := c.cache.msgs ++ [m] }, threads := upd c.threads t ⟨th.todo, .appended m⟩,
                 inserted := c.inserted ++ [m] }
  | .appended m =>
    if (c.cache.msgs.length : Int) > c.cache.cacheSize then .ok { c with threads := upd c.threads t ⟨th.todo, .full m⟩ }
    else .ok { c with threads := upd c.threads t ⟨th.todo, .signal m⟩ }
  | .full m =>
    if c.cache.msgs.isEmpty then .error .threw
    else .ok { c with cache := { c.cache with msgs := c.cache.msgs.tail }, threads := upd c.threads t ⟨th.todo, .halfDeleted m⟩ }
  | .halfDeleted m =>
    if c.cache.times.isEmpty then .error .threw
    else .ok { c with cache := { c.cache with times := c.cache.times.tail }, threads := upd c.threads t ⟨th.todo, .signal m⟩ }
  | .signal m =>
    .ok { c with cache := { c.cache with out := c.cache.out ++ [m] }, threads := upd c.threads t ⟨th.todo, .idle⟩,
                 passedOn := c.passedOn ++ [(t, m)] }

/-- A cache of size `k`, and threads about to add the messages `progs t`. -/
def cstart (W : Nat) (k : Int) (progs : Fin W → List (Msg × PTime)) : Conc W :=
  { cache := construct k true, threads := fun t => ⟨progs t, .idle⟩, inserted := [], insertedTimes := [], passedOn := [] }

/-- The execution under a schedule. -/
def cexec (W : Nat) (k : Int) (progs : Fin W → List (Msg × PTime)) (schedule : List (Fin W)) : Except Fault (Conc W) :=
  runE cstep (cstart W k progs) schedule

end MF.PyCache
