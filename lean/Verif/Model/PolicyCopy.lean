import Verif.Model.ExactTime
import Verif.Model.Approx
import Verif.Model.Epsilon
import Verif.Model.Latest
/-
Handing a policy object to a Synchronizer: the copy constructors and assignment operators of the four policies and the
constructors of include/message_filters/synchronizer.hpp.

The logs of the policy models (`log`, `calls`, `out`) are not part of the C++ objects.  The copies below carry them over, so
that a log shows what the policy output before it was copied followed by what the copy output.
-/
namespace MF.Copy

/-- A policy object: `parent_` (exact_time.hpp:186, approximate_time.hpp:620, approximate_epsilon_time.hpp:282,
latest_time.hpp:371; `none` is the null pointer, `some k` the address of synchronizer `k`) and everything else. -/
structure Obj (σ : Type) where
  parent : Option Nat
  core : σ

/-- A call of a member function of a policy.  Every `add` starts with `assert(parent_)` (exact_time.hpp:91,
approximate_time.hpp:168, approximate_epsilon_time.hpp:98, latest_time.hpp:147). -/
def call {σ O : Type} (isAdd : O → Bool) (step : σ → O → Except Fault σ) (o : Obj σ) (op : O) : Except Fault (Obj σ) :=
  if isAdd op = true ∧ o.parent = none then .error .assertFailed
  else
    match step o.core op with
    | .error f => .error f
    | .ok c => .ok { o with core := c }

/-- `initParent` of the four policies (exact_time.hpp:83-86, approximate_time.hpp:112-115,
approximate_epsilon_time.hpp:91-94, latest_time.hpp:124-127). -/
def initParent {σ : Type} (o : Obj σ) (sync : Nat) : Obj σ := { o with parent := some sync }

/-- synchronizer.hpp:70-82, `Synchronizer(const Policy &)`: the policy is copy constructed, then `init()` sets the parent.
`copy` is the copy constructor's effect on everything but `parent_`, which all of them copy. -/
def synchronizer {σ : Type} (copy : σ → σ) (policy : Obj σ) (sync : Nat) : Obj σ :=
  initParent { parent := policy.parent, core := copy policy.core } sync

/-! ### ExactTime -/

/-- An ExactTime policy with its `drop_signal_` (exact_time.hpp:188): the registered drop callbacks in order of
registration.  `calls` logs which drop callback was given which set. -/
structure Exact (n : Nat) where
  core : ExactTime.State n
  dropCallbacks : List Nat
  calls : List (Nat × ExactTime.Tuple n)

/-- exact_time.hpp:62-66. -/
def Exact.construct (n queueSize : Nat) : Exact n := ⟨ExactTime.construct n queueSize, [], []⟩

/-- The public calls of ExactTime. -/
inductive ExactOp (n : Nat) where
  | registerDropCallback (c : Nat)
  | add (i : Fin n) (e : Ev)

/-- Whether the call starts with `assert(parent_)`. -/
def ExactOp.isAdd {n : Nat} : ExactOp n → Bool
  | .add _ _ => true
  | .registerDropCallback _ => false

/-- The sets given to `drop_signal_.call`. -/
def dropped {n : Nat} : List (ExactTime.Action n) → List (ExactTime.Tuple n)
  | [] => []
  | .drop t :: l => t :: dropped l
  | _ :: l => dropped l

/-- exact_time.hpp:88-126 with 174-178: `registerDropCallback` and `add`; each dropped set is given to each registered drop
callback (signal9.hpp, see `Verif.Model.Signal`).  Simplification: the drop callbacks themselves do nothing. -/
def Exact.step {n : Nat} [NeZero n] (x : Exact n) : ExactOp n → Except Fault (Exact n)
  | .registerDropCallback c => .ok { x with dropCallbacks := x.dropCallbacks ++ [c] }
  | .add i e =>
    match ExactTime.add x.core i e with
    | .error f => .error f
    | .ok s => .ok { x with
        core := s,
        calls := x.calls ++ (dropped (s.log.drop x.core.log.length)).flatMap (fun t => x.dropCallbacks.map (fun c => (c, t))) }

/-- exact_time.hpp:73-81, `operator=`: `drop_signal_` is not assigned. -/
def Exact.assign {n : Nat} (lhs rhs : Exact n) : Exact n :=
  { core := { queueSize := rhs.core.queueSize, last := rhs.core.last, tuples := rhs.core.tuples, log := rhs.core.log },
    dropCallbacks := lhs.dropCallbacks, calls := rhs.calls }

/-- exact_time.hpp:68-71, the copy constructor: default initialised members, then `operator=`. -/
def Exact.copy {n : Nat} (e : Exact n) : Exact n := Exact.assign (Exact.construct n 0) e

/-! ### ApproximateTime -/

/-- Whether the call starts with `assert(parent_)`. -/
def approxIsAdd {n : Nat} : Approx.Op n → Bool
  | .add _ _ => true
  | _ => false

/-- approximate_time.hpp:92-110, `operator=`: every member but `candidate_`. -/
def approxAssign {n : Nat} (lhs rhs : Approx.State n) : Approx.State n :=
  { lhs with
    cfg := rhs.cfg, num := rhs.num, pivotTime := rhs.pivotTime, pivot := rhs.pivot, candStart := rhs.candStart,
    candEnd := rhs.candEnd, deques := rhs.deques, past := rhs.past, hasDropped := rhs.hasDropped, warned := rhs.warned,
    out := rhs.out }

/-- A default initialised ApproximateTime (approximate_time.hpp:86-88 before line 89); the members that are left
uninitialised are all overwritten by line 89. -/
def approxBlank (n : Nat) : Approx.State n :=
  { cfg := ⟨0, Approx.maxDuration, id, fun _ => 0⟩, deques := fun _ => [], num := 0, past := fun _ => [],
    cand := fun _ => none, candStart := 0, candEnd := 0, pivotTime := 0, pivot := none, hasDropped := fun _ => false,
    warned := fun _ => false, out := [] }

/-- approximate_time.hpp:86-90, the copy constructor. -/
def approxCopy {n : Nat} (e : Approx.State n) : Approx.State n := approxAssign (approxBlank n) e

/-! ### ApproximateEpsilonTime -/

/-- approximate_epsilon_time.hpp:81-89, `operator=`: `number_of_non_empty_events_` is not assigned. -/
def epsilonAssign {n : Nat} (lhs rhs : Epsilon.State n) : Epsilon.State n :=
  { lhs with queueSize := rhs.queueSize, events := rhs.events, epsilon := rhs.epsilon, out := rhs.out }

/-- approximate_epsilon_time.hpp:75-79, the copy constructor; `number_of_non_empty_events_` starts at 0 (line 286). -/
def epsilonCopy {n : Nat} (e : Epsilon.State n) : Epsilon.State n :=
  epsilonAssign { queueSize := 0, epsilon := e.epsilon, num := 0, events := fun _ => [], out := [] } e

/-! ### LatestTime -/

/-- The public calls of LatestTime (`setClock` is left out: the clock reading is part of the delivery). -/
inductive LatestOp (n : Nat) (D : Type) where
  | setRateConfigPerMessage (cs : List (Latest.Config D))
  | setRateConfig (c : Latest.Config D)
  | add (op : Latest.Op n)

/-- Whether the call starts with `assert(parent_)`. -/
def LatestOp.isAdd {n : Nat} {D : Type} : LatestOp n D → Bool
  | .add _ => true
  | _ => false

/-- latest_time.hpp:129-168. -/
def latestStep {n : Nat} {D : Type} [Latest.Arith D] (dflt : Latest.Config D) (s : Latest.State n D) :
    LatestOp n D → Except Fault (Latest.State n D)
  | .setRateConfigPerMessage cs => .ok (Latest.setRateConfigPerMessage s cs)
  | .setRateConfig c => .ok (Latest.setRateConfig s c)
  | .add op => Latest.add dflt s op.input op.msg op.now

/-- latest_time.hpp:114-122, `operator=`: `rate_configs_` is not assigned. -/
def latestAssign {n : Nat} {D : Type} (lhs rhs : Latest.State n D) : Latest.State n D :=
  { lhs with events := rhs.events, rates := rhs.rates, out := rhs.out }

/-- latest_time.hpp:109-112, the copy constructor. -/
def latestCopy {n : Nat} {D : Type} (e : Latest.State n D) : Latest.State n D :=
  latestAssign { events := fun _ => none, rates := [], configs := [], out := [] } e

/-! ### Construction while messages arrive -/

/-- What happens while `Synchronizer(const Policy &, Fs &...)` runs: its two actions (synchronizer.hpp:74-75, 93-115) and
deliveries of the upstream filters on other threads. -/
inductive Building (n : Nat) where
  | connect (i : Fin n)
  | init
  | deliver (i : Fin n) (e : Ev)

/-- A synchronizer under construction. -/
structure Half (n : Nat) (σ : Type) where
  obj : Obj σ
  connected : Fin n → Bool

/-- synchronizer.hpp:59-64, 70-76, 93-115 and 168-172: a message reaches `add` if its input is connected. -/
def Half.step {n : Nat} {σ : Type} (add : σ → Fin n × Ev → Except Fault σ) (sync : Nat) (h : Half n σ) :
    Building n → Except Fault (Half n σ)
  | .connect i => .ok { h with connected := upd h.connected i true }
  | .init => .ok { h with obj := initParent h.obj sync }
  | .deliver i e =>
    if h.connected i then
      match call (fun _ => true) add h.obj (i, e) with
      | .error f => .error f
      | .ok o => .ok { h with obj := o }
    else .ok h

end MF.Copy
