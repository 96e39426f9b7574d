/-
Locks held while messages travel through connected filters.

All mutexes are `std::mutex` (not recursive) taken with `std::lock_guard`.  A filter `f` has one mutex of its own (policy,
cache, sequencer, aligner) and one mutex in each of its signals.  `Signal1::call` and `Signal9::call` hold the mutex of the
signal while they call the callbacks.
-/
namespace MF.Lock

/-- `own f`: `mutex_`/`data_mutex_` of a policy or aligner, `cache_lock_`, `messages_mutex_`.  `sig f k`: `mutex_` of the `k`-th
signal of filter `f` (signal1.hpp:117, signal9.hpp:152).  An aligner has one signal per input; ExactTime has the signal of its
synchronizer (0) and the drop signal (1); the others have one signal. -/
inductive Mutex where
  | own (f : Nat)
  | sig (f k : Nat)
deriving DecidableEq

/-- What a thread does to mutexes. -/
inductive Act where
  | acquire (m : Mutex)
  | release (m : Mutex)
deriving DecidableEq

/-! ### Threads -/

/-- Who holds each mutex, and what each thread still does. -/
structure State where
  holder : Mutex → Option Nat
  todo : Nat → List Act

/-- Thread `t` makes a step.  It waits (nothing changes) if it wants a mutex that is held, also by itself. -/
def step (s : State) (t : Nat) : State :=
  match s.todo t with
  | [] => s
  | .acquire m :: rest =>
    if s.holder m = none then
      { holder := fun x => if x = m then some t else s.holder x, todo := fun u => if u = t then rest else s.todo u }
    else s
  | .release m :: rest =>
    { holder := fun x => if x = m ∧ s.holder m = some t then none else s.holder x, todo := fun u => if u = t then rest else s.todo u }

/-- All mutexes free. -/
def start (progs : Nat → List Act) : State := { holder := fun _ => none, todo := progs }

/-- An execution. -/
def exec (s : State) (schedule : List Nat) : State := schedule.foldl step s

/-! ### Filters -/

/-- How a filter takes its locks.
`relay`: calls on without a lock (chain.hpp:206-211, `Chain::add`, handing over to the first filter).
`forward`: PassThrough (pass_through.hpp:78-81), Subscriber (subscriber.hpp:585-588), the output of a Chain (chain.hpp:229-232): signals only.
`cache`: cache.hpp:125-157, the own mutex is released before signalling.
`sequencer`: time_sequencer.hpp:146-160 and 191-219, `dispatch` signals after releasing.
`policy`: exact_time.hpp:96, approximate_time.hpp:168, approximate_epsilon_time.hpp:101, latest_time.hpp:149: `add` signals while it holds
the own mutex.
`aligner`: input_aligner.hpp:226-241 and 340-364: `dispatchMessages` signals while it holds the own mutex. -/
inductive Kind where
  | relay
  | forward
  | cache
  | sequencer
  | policy
  | aligner

/-- What a thread or a callback can do with a filter: deliver a message to it, run its timer function (`dispatch`,
`dispatchMessages`), register or disconnect a callback of its signal `k`, query it (the `get…` functions of Cache), make it output on its
signal `k`. -/
inductive Call where
  | deliver (f : Nat)
  | timer (f : Nat)
  | connect (f k : Nat)
  | query (f : Nat)
  | output (f k : Nat)

/-- Filters and the callbacks that may be connected to their signals; a callback is the list of calls it makes.  A filter `g`
connected to `f` is a callback `[deliver g]`. -/
structure Net where
  kind : Nat → Kind
  callbacks : Nat → Nat → List (List Call)

/-- The lock operations of a sequence of calls.  Which callbacks are connected when a signal is called, and how many sets or messages
a filter outputs, is left open. -/
inductive Does (net : Net) : List Call → List Act → Prop where
  /-- nothing more to do -/
  | nil : Does net [] []
  /-- signal1.hpp:87-91, 94-102 and signal9.hpp:94-99, 129-137: the callbacks are changed under the mutex. -/
  | connect {f k cs as} (h : Does net cs as) : Does net (.connect f k :: cs) (.acquire (.sig f k) :: .release (.sig f k) :: as)
  /-- cache.hpp:168-340, the queries. -/
  | query {f cs as} (h : Does net cs as) : Does net (.query f :: cs) (.acquire (.own f) :: .release (.own f) :: as)
  /-- signal1.hpp:104-115 and signal9.hpp:139-152: the connected callbacks `cbs` are called under the mutex. -/
  | output {f k} {cbs : List (List Call)} {as cs as'} (hcb : ∀ cb ∈ cbs, cb ∈ net.callbacks f k) (h : Does net cbs.flatten as) (h' : Does net cs as') :
      Does net (.output f k :: cs) (.acquire (.sig f k) :: (as ++ .release (.sig f k) :: as'))
  /-- `Chain::add`: the first filter of the chain, if there is one. -/
  | relay {f} {cbs : List (List Call)} {cs as} (hk : net.kind f = .relay) (hcb : ∀ cb ∈ cbs, cb ∈ net.callbacks f 0) (h : Does net (cbs.flatten ++ cs) as) :
      Does net (.deliver f :: cs) as
  /-- PassThrough, Subscriber: one output. -/
  | forward {f cs as} (hk : net.kind f = .forward) (h : Does net (.output f 0 :: cs) as) : Does net (.deliver f :: cs) as
  /-- `Cache::add`: cache.hpp:131-154 under the mutex, then line 156. -/
  | cache {f cs as} (hk : net.kind f = .cache) (h : Does net (.output f 0 :: cs) as) :
      Does net (.deliver f :: cs) (.acquire (.own f) :: .release (.own f) :: as)
  /-- `TimeSequencer::add`. -/
  | sequencerAdd {f cs as} (hk : net.kind f = .sequencer) (h : Does net cs as) :
      Does net (.deliver f :: cs) (.acquire (.own f) :: .release (.own f) :: as)
  /-- `InputAligner::addEvent`. -/
  | alignerAdd {f cs as} (hk : net.kind f = .aligner) (h : Does net cs as) :
      Does net (.deliver f :: cs) (.acquire (.own f) :: .release (.own f) :: as)
  /-- `TimeSequencer::dispatch`: take the messages under the mutex, then output them. -/
  | sequencerTimer {f count cs as} (hk : net.kind f = .sequencer) (h : Does net (List.replicate count (.output f 0) ++ cs) as) :
      Does net (.timer f :: cs) (.acquire (.own f) :: .release (.own f) :: as)
  /-- `InputAligner::dispatchMessages`: outputs under the mutex. -/
  | alignerTimer {f} {ks : List Nat} {as cs as'} (hk : net.kind f = .aligner) (h : Does net (ks.map (.output f)) as) (h' : Does net cs as') :
      Does net (.timer f :: cs) (.acquire (.own f) :: (as ++ .release (.own f) :: as'))
  /-- `add` of a policy: any number of outputs and drops under the mutex. -/
  | policy {f} {ks : List Nat} {as cs as'} (hk : net.kind f = .policy) (h : Does net (ks.map (.output f)) as) (h' : Does net cs as') :
      Does net (.deliver f :: cs) (.acquire (.own f) :: (as ++ .release (.own f) :: as'))

end MF.Lock
