import Verif.Model.Aligner
import Verif.Model.Approx
import Verif.Model.Cache
import Verif.Model.Epsilon
import Verif.Model.ExactTime
import Verif.Model.Sequencer
/-
Filters connected to each other: what one filter outputs is what the next one is given.
-/
namespace MF.Pipeline

/-- One call of the first filter of a pipeline.  simple_filter.hpp:117-130 and signal1.hpp:104-114 (`signalMessage`, `call`),
input_aligner.hpp:403: a filter hands a message to the callbacks connected to it while the call that outputs it is running, in
the order of output; time_sequencer.hpp:215-218 does so for the messages taken out by one `dispatch`.  So the second filter
receives exactly what the call has appended to the output `log` of the first, in that order.
Simplifications: the second filter does not call the first one back; `down` is the callback of the second filter, connected
before the first message; if it does not return normally, neither does the call. -/
def feed {σ δ ω ο : Type} (up : σ → ω → Except Fault σ) (log : σ → List ο) (down : δ → ο → Except Fault δ)
    (p : σ × δ) (op : ω) : Except Fault (σ × δ) :=
  match up p.1 op with
  | .error f => .error f
  | .ok s' =>
    match runE down p.2 ((log s').drop (log p.1).length) with
    | .error f => .error f
    | .ok d' => .ok (s', d')

/-- A history of calls of the first filter of a pipeline. -/
def run {σ δ ω ο : Type} (up : σ → ω → Except Fault σ) (log : σ → List ο) (down : δ → ο → Except Fault δ)
    (s : σ) (d : δ) (ops : List ω) : Except Fault (σ × δ) :=
  runE (feed up log down) (s, d) ops

/-- A `TimeSequencer` whose output is connected to a `Cache` (time_sequencer.hpp:91-123, cache.hpp:69-83, `connectInput` at
cache.hpp:85-91).  An exception thrown by the sequencer's `add` goes to its caller. -/
def sequencerCache (delay : Int) (queueSize cacheSize : Nat) (ops : List Sequencer.Op) :
    Except Fault (Sequencer.State × Cache.State) :=
  run (fun s op => .ok (Sequencer.step s op)) (·.out) Cache.add (Sequencer.construct delay queueSize)
    (Cache.construct cacheSize) ops

/-- An `InputAligner` whose output `i` is connected to input `i` of a `Synchronizer` with the policy `ExactTime`
(input_aligner.hpp:121-168 `registerCallback<I>`, synchronizer.hpp:156-161 `add<i>`). -/
def alignerExact {n : Nat} [NeZero n] (fuel : Nat) (timeout : Int) (queueSize : Nat) (ops : List (Aligner.Op n)) :
    Except Fault (Aligner.State n × ExactTime.State n) :=
  run (Aligner.step fuel) (·.out) (fun s m => ExactTime.add s m.1 m.2) (Aligner.construct n timeout)
    (ExactTime.construct n queueSize) ops

/-- The same with the policy `ApproximateEpsilonTime`. -/
def alignerEpsilon {n : Nat} [NeZero n] (fuel : Nat) (timeout : Int) (queueSize : Nat) (eps : Int)
    (ops : List (Aligner.Op n)) : Except Fault (Aligner.State n × Epsilon.State n) :=
  run (Aligner.step fuel) (·.out) (fun s m => Epsilon.add fuel s m.1 m.2) (Aligner.construct n timeout)
    (Epsilon.construct n queueSize eps) ops

/-- The same with the policy `ApproximateTime`, constructed and configured as in `cfg`. -/
def alignerApprox {n : Nat} [NeZero n] (fuel : Nat) (timeout : Int) (cfg : Approx.Cfg n) (ops : List (Aligner.Op n)) :
    Except Fault (Aligner.State n × Approx.State n) :=
  match Approx.construct n cfg with
  | .error f => .error f
  | .ok d =>
    run (Aligner.step fuel) (·.out) (fun s m => Approx.step fuel s (.add m.1 m.2)) (Aligner.construct n timeout) d ops

/-- One `TimeSequencer` per input; `out` logs the outputs of all of them. -/
structure Sequencers (n : Nat) where
  seq : Fin n → Sequencer.State
  out : List (Fin n × Ev)

/-- A call of sequencer `op.1`: what it outputs is appended to the log (time_sequencer.hpp:215-218). -/
def Sequencers.step {n : Nat} (s : Sequencers n) (op : Fin n × Sequencer.Op) : Sequencers n :=
  let q := Sequencer.step (s.seq op.1) op.2
  { seq := upd s.seq op.1 q, out := s.out ++ (q.out.drop (s.seq op.1).out.length).map (fun e => (op.1, e)) }

/-- `n` sequencers, the output of sequencer `i` connected to input `i` of a `Synchronizer` with the policy `ExactTime`. -/
def sequencersExact {n : Nat} [NeZero n] (delay : Fin n → Int) (seqSize : Fin n → Nat) (queueSize : Nat)
    (ops : List (Fin n × Sequencer.Op)) : Except Fault (Sequencers n × ExactTime.State n) :=
  run (fun s op => .ok (Sequencers.step s op)) (·.out) (fun s m => ExactTime.add s m.1 m.2)
    { seq := fun i => Sequencer.construct (delay i) (seqSize i), out := [] } (ExactTime.construct n queueSize) ops

/-- The same with the policy `ApproximateEpsilonTime` (approximate_epsilon_time.hpp:96-113 `add`). -/
def sequencersEpsilon {n : Nat} [NeZero n] (fuel : Nat) (delay : Fin n → Int) (seqSize : Fin n → Nat) (queueSize : Nat)
    (eps : Int) (ops : List (Fin n × Sequencer.Op)) : Except Fault (Sequencers n × Epsilon.State n) :=
  run (fun s op => .ok (Sequencers.step s op)) (·.out) (fun s m => Epsilon.add fuel s m.1 m.2)
    { seq := fun i => Sequencer.construct (delay i) (seqSize i), out := [] } (Epsilon.construct n queueSize eps) ops

/-- The same with the policy `ApproximateTime`, constructed and configured as in `cfg` (approximate_time.hpp:165-201
`add`). -/
def sequencersApprox {n : Nat} [NeZero n] (fuel : Nat) (delay : Fin n → Int) (seqSize : Fin n → Nat) (cfg : Approx.Cfg n)
    (ops : List (Fin n × Sequencer.Op)) : Except Fault (Sequencers n × Approx.State n) :=
  match Approx.construct n cfg with
  | .error f => .error f
  | .ok d =>
    run (fun s op => .ok (Sequencers.step s op)) (·.out) (fun s m => Approx.step fuel s (.add m.1 m.2))
      { seq := fun i => Sequencer.construct (delay i) (seqSize i), out := [] } d ops

/-- An `InputAligner` with a `Cache` of size `sizes i` connected to every output `i` (input_aligner.hpp:121-168
`registerCallback<I>`, cache.hpp:125-159 `add`). -/
def alignerCaches {n : Nat} (fuel : Nat) (timeout : Int) (sizes : Fin n → Nat) (ops : List (Aligner.Op n)) :
    Except Fault (Aligner.State n × (Fin n → Cache.State)) :=
  run (Aligner.step fuel) (·.out)
    (fun c m => match Cache.add (c m.1) m.2 with | .error f => .error f | .ok c' => .ok (upd c m.1 c'))
    (Aligner.construct n timeout) (fun i => Cache.construct (sizes i)) ops

end MF.Pipeline
