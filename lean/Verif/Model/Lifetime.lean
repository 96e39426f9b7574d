import Verif.Model.Basic
/-
The life of one filter object while its sources keep delivering from other threads: constructor, `connectInput` and destructor
of include/message_filters/synchronizer.hpp, time_synchronizer.hpp, cache.hpp, pass_through.hpp, chain.hpp,
time_sequencer.hpp and input_aligner.hpp, cut into the steps between which other threads can run.

One thread (`main`) constructs the object, connects it, connects it again any number of times and destroys it.  Any number of
other threads deliver messages through its sources, and run its timer.  What the object does with a message is modelled
elsewhere; here only whether it is touched while it exists and is initialised counts.  Callbacks that other objects have
registered at the same sources only prolong the time for which a source's mutex is held, so they need no steps of their own.
-/
namespace MF.Life

/-- State of the object's memory: not yet constructed, members constructed, usable, destroyed. -/
inductive Stage where
  | raw | built | ready | dead
deriving DecidableEq, Repr

/-- A registered callback of the object: the number of the `connectInput` call that registered it, and the input. -/
structure Helper where
  call : Nat
  input : Nat
deriving DecidableEq, Repr

/-- The steps of the owning thread. -/
inductive Act where
  /-- the members (queues, mutexes, signals, connections) are constructed -/
  | build
  /-- synchronizer.hpp:60, 65, 73, 79 with `initParent`: `parent_` is set -/
  | init
  /-- signal1.hpp:89, 96: `std::lock_guard` on the mutex of source `f` -/
  | lock (f : Nat)
  | unlock (f : Nat)
  /-- signal1.hpp:90: `callbacks_.push_back` -/
  | insert (f : Nat) (h : Helper)
  /-- signal1.hpp:97-101: `callbacks_.erase` -/
  | erase (f : Nat) (h : Helper)
  /-- `node->create_wall_timer`: time_sequencer.hpp `init`, input_aligner.hpp:216-222 `setupDispatchTimer` -/
  | startTimer
  /-- `update_timer_->cancel()` in the destructor of TimeSequencer -/
  | cancelTimer
  /-- the members are destroyed -/
  | free
deriving DecidableEq, Repr

/-- The filter classes.  `aligner timer`: whether `setupDispatchTimer` is used. -/
inductive Kind where
  | synchronizer | timeSynchronizer | cache | passThrough | chain | sequencer
  | aligner (timer : Bool)
deriving DecidableEq, Repr

/-- pass_through.hpp:64, chain.hpp:192, time_sequencer.hpp `connectInput`, synchronizer.hpp:112, input_aligner.hpp:123; not
cache.hpp:86-91. -/
def Kind.disconnectsOnConnect : Kind → Bool
  | .cache => false
  | _ => true

/-- cache.hpp:93-96, time_sequencer.hpp `~TimeSequencer`, synchronizer.hpp:82-85, input_aligner.hpp:111-114; PassThrough and
Chain have no destructor. -/
def Kind.disconnectsOnDestroy : Kind → Bool
  | .passThrough | .chain => false
  | _ => true

/-- simple_filter.hpp `registerCallback` with signal1.hpp:84-92. -/
def register (f : Nat) (h : Helper) : List Act := [.lock f, .insert f h, .unlock f]

/-- connection.cpp:39-46 with signal1.hpp:94-102. -/
def disconnect (p : Nat × Helper) : List Act := [.lock p.1, .erase p.1 p.2, .unlock p.1]

/-- `connectInput(srcs...)`, the `call`-th call, when `conns` are the connections the object holds:
synchronizer.hpp:87-116, input_aligner.hpp:119-127, 311-330, pass_through.hpp:60-70, chain.hpp, cache.hpp:86-91. -/
def connectInput (k : Kind) (call : Nat) (conns : List (Nat × Helper)) (srcs : List Nat) : List Act :=
  (if k.disconnectsOnConnect then conns.flatMap disconnect else []) ++
  srcs.zipIdx.flatMap (fun p => register p.1 ⟨call, p.2⟩)

/-- The connections held afterwards: those of the inputs that were connected are replaced, the others stay as they are. -/
def conns' (call : Nat) (conns : List (Nat × Helper)) (srcs : List Nat) : List (Nat × Helper) :=
  srcs.zipIdx.map (fun p => (p.1, ⟨call, p.2⟩)) ++ conns.drop srcs.length

/-- The destructor: cache.hpp:93-96, synchronizer.hpp:82-85 with 163-168, input_aligner.hpp:111-114 with 332-337, and
`~TimeSequencer`.  The members are destroyed after the body. -/
def destroy (k : Kind) (conns : List (Nat × Helper)) : List Act :=
  (if k = .sequencer then [.cancelTimer] else []) ++
  (if k.disconnectsOnDestroy then conns.flatMap disconnect else []) ++ [.free]

/-- Further calls of `connectInput`, then destruction. -/
def lifeFrom (k : Kind) : Nat → List (Nat × Helper) → List (List Nat) → List Act
  | _, conns, [] => destroy k conns
  | call, conns, srcs :: rest =>
    connectInput k call conns srcs ++ lifeFrom k (call + 1) (conns' call conns srcs) rest

/-- The constructor that is given `srcs`.  Synchronizer connects first and initialises then (synchronizer.hpp:68-74),
TimeSynchronizer the other way round (time_synchronizer.hpp:91-95: the base constructor without filters, synchronizer.hpp:76-80,
and then `connectInput`; the deprecated constructors, 97-140, delegate to it).  The other classes have nothing to initialise
after their members (cache.hpp:67-73, pass_through.hpp, chain.hpp, input_aligner.hpp:95-109), but TimeSequencer starts its timer
before it connects (time_sequencer.hpp:95-102). -/
def construct (k : Kind) (srcs : List Nat) : List Act :=
  match k with
  | .synchronizer => [.build] ++ connectInput k 0 [] srcs ++ [.init]
  | .timeSynchronizer => [.build, .init] ++ connectInput k 0 [] srcs
  | .sequencer => [.build, .init, .startTimer] ++ connectInput k 0 [] srcs
  | .aligner timer => [.build, .init] ++ connectInput k 0 [] srcs ++ (if timer then [.startTimer] else [])
  | _ => [.build, .init] ++ connectInput k 0 [] srcs

/-- The whole life: constructed with `srcs` (empty: the constructors without filters), connected again to each of `later`,
destroyed. -/
def life (k : Kind) (srcs : List Nat) (later : List (List Nat)) : List Act :=
  construct k srcs ++ lifeFrom k 1 (conns' 0 [] srcs) later

/-- Another thread: idle; holding the mutex of source `f` with callbacks `todo` still to call (signal1.hpp:104-115); in the
callback `h` of the object; having taken the timer from the executor without having called it; in the timer callback. -/
inductive Pc where
  | idle
  | signal (f : Nat) (todo : List Helper)
  | inside (f : Nat) (h : Helper) (todo : List Helper)
  | fetched
  | timer
deriving DecidableEq, Repr

inductive Who where
  | main
  | thread (t : Nat)
deriving DecidableEq, Repr

/-- The mutex and the callbacks (those of the object only) of every source, the other threads, what is left of the owner's
program, the object, and whether the executor may still take its timer. -/
structure Config where
  owner : Nat → Option Who
  regs : Nat → List Helper
  threads : Nat → Pc
  prog : List Act
  stage : Stage
  timerOn : Bool

def set {α : Type} (f : Nat → α) (i : Nat) (x : α) : Nat → α := fun j => if j = i then x else f j

/-- What the scheduler lets happen next: the owner makes a step; thread `t` has a message for source `f`; thread `t` goes on;
the executor hands the timer to thread `t`. -/
inductive Move where
  | main
  | deliver (t f : Nat)
  | go (t : Nat)
  | takeTimer (t : Nat)
deriving DecidableEq, Repr

/-- The object is used: the assertion on `parent_` fails before it is initialised (exact_time.hpp:94 and the like); using it
before its construction or after its destruction is undefined. -/
def touch : Stage → Except Fault Unit
  | .ready => .ok ()
  | .built => .error .assertFailed
  | .raw | .dead => .error .ub

/-- One step of the owner; a mutex that is taken makes it wait. -/
def mainStep (c : Config) : Config :=
  match c.prog with
  | [] => c
  | .build :: p => { c with prog := p, stage := .built }
  | .init :: p => { c with prog := p, stage := .ready }
  | .lock f :: p => if c.owner f = none then { c with prog := p, owner := set c.owner f (some .main) } else c
  | .unlock f :: p => { c with prog := p, owner := set c.owner f none }
  | .insert f h :: p => { c with prog := p, regs := set c.regs f (c.regs f ++ [h]) }
  | .erase f h :: p => { c with prog := p, regs := set c.regs f ((c.regs f).filter (fun x => decide (x ≠ h))) }
  | .startTimer :: p => { c with prog := p, timerOn := true }
  | .cancelTimer :: p => { c with prog := p, timerOn := false }
  | .free :: p => { c with prog := p, stage := .dead, timerOn := false }

def setPc (c : Config) (t : Nat) (p : Pc) : Config := { c with threads := set c.threads t p }

/-- One step of another thread: signal1.hpp:104-115 calls the registered callbacks in turn with the mutex held; entering and
leaving a callback both use the object (taking and releasing its own mutex). -/
def goStep (c : Config) (t : Nat) : Except Fault Config :=
  match c.threads t with
  | .idle => .ok c
  | .signal f [] => .ok { setPc c t .idle with owner := set c.owner f none }
  | .signal f (h :: rest) => (touch c.stage).map fun _ => setPc c t (.inside f h rest)
  | .inside f _ rest => (touch c.stage).map fun _ => setPc c t (.signal f rest)
  | .fetched => (touch c.stage).map fun _ => setPc c t .timer
  | .timer => (touch c.stage).map fun _ => setPc c t .idle

def step (c : Config) : Move → Except Fault Config
  | .main => .ok (mainStep c)
  | .deliver t f =>
    .ok (if c.threads t = .idle ∧ c.owner f = none then
      { setPc c t (.signal f (c.regs f)) with owner := set c.owner f (some (.thread t)) } else c)
  | .go t => goStep c t
  | .takeTimer t => .ok (if c.threads t = .idle ∧ c.timerOn = true then setPc c t .fetched else c)

/-- Before the constructor runs. -/
def start (prog : List Act) : Config :=
  { owner := fun _ => none, regs := fun _ => [], threads := fun _ => .idle, prog := prog, stage := .raw, timerOn := false }

def exec (prog : List Act) (schedule : List Move) : Except Fault Config := runE step (start prog) schedule

end MF.Life
