import Verif.Model.Approx
/-
Callbacks that throw, continued from Model/Throw.lean: the ApproximateTime policy.  The functions are those of
Model/Approx.lean with the exits by exception added; they return the state that is left behind and whether an exception was
thrown.  The `k`-th call of the output signal throws if `boom k`.
-/
namespace MF.Throw
open MF.Approx

/-- The state left behind by a call of the output signal that throws, approximate_time.hpp:389: nothing after it is executed. -/
def approxInterrupted {n : Nat} (s : State n) : State n := { s with out := s.out ++ [s.cand] }

/-- approximate_time.hpp:386-397, `publishCandidate`: the signal is called first (line 389). -/
def approxPublish {n : Nat} (boom : Nat → Bool) (s : State n) : Except Fault (State n × Bool) :=
  if boom s.out.length then .ok (approxInterrupted s, true) else (publishCandidate s).map (fun s' => (s', false))

/-- approximate_time.hpp:581-615: the loop of the virtual search; the messages that it moved are not moved back when
`publishCandidate` throws. -/
def approxSearch {n : Nat} [NeZero n] (boom : Nat → Bool) : Nat → Int → (Fin n → Nat) → State n → Except Fault (State n × Bool)
  | 0, _, _, _ => .error .hang
  | fuel + 1, before, moves, s =>
    match getVirtualCandidateBoundary s true with
    | .error f => .error f
    | .ok (_, endTime) =>
    match getVirtualCandidateBoundary s false with
    | .error f => .error f
    | .ok (startIndex, startTime) =>
      if s.cfg.scale (endTime - s.candEnd) ≥ s.pivotTime - s.candStart then approxPublish boom s
      else if s.cfg.scale (endTime - s.candEnd) < startTime - s.candStart then
        match recoverAllN moves { s with num := 0 } with
        | .error f => .error f
        | .ok s' => if before = s'.num then .ok (s', false) else .error .assertFailed
      else if some startIndex = s.pivot then .error .assertFailed
      else if ¬ startTime < s.pivotTime then .error .assertFailed
      else
        match dequeMoveFrontToPast s startIndex with
        | .error f => .error f
        | .ok s' => approxSearch boom fuel before (upd moves startIndex (moves startIndex + 1)) s'

/-- approximate_time.hpp:563-616: the rest of the iteration. -/
def approxConclude {n : Nat} [NeZero n] (boom : Nat → Bool) (fuel : Nat) (s : State n) (endTime : Int) (startIndex : Fin n) :
    Except Fault (State n × Bool) :=
  if s.pivot = none then .error .assertFailed
  else if some startIndex = s.pivot then approxPublish boom s
  else if s.cfg.scale (endTime - s.candEnd) ≥ s.pivotTime - s.candStart then approxPublish boom s
  else if s.num < n then approxSearch boom fuel s.num (fun _ => 0) s
  else .ok (s, false)

/-- approximate_time.hpp:512-616: one iteration of the loop of `process`. -/
def approxIteration {n : Nat} [NeZero n] (boom : Nat → Bool) (fuel : Nat) (s : State n) : Except Fault (State n × Bool) :=
  match getCandidateBoundary s.deques true with
  | .error f => .error f
  | .ok (endIndex, endTime) =>
  match getCandidateBoundary s.deques false with
  | .error f => .error f
  | .ok (startIndex, startTime) =>
  match examine { s with hasDropped := fun i => if i ≠ endIndex then false else s.hasDropped i }
      endIndex endTime startIndex startTime with
  | .error f => .error f
  | .ok (false, s1) => .ok (s1, false)
  | .ok (true, s1) => approxConclude boom fuel s1 endTime startIndex

/-- approximate_time.hpp:508-618, `process`. -/
def approxProcess {n : Nat} [NeZero n] (boom : Nat → Bool) : Nat → State n → Except Fault (State n × Bool)
  | 0, s => if s.num = n then .error .hang else .ok (s, false)
  | fuel + 1, s =>
    if s.num = n then
      match approxIteration boom fuel s with
      | .error f => .error f
      | .ok (s', true) => .ok (s', true)
      | .ok (s', false) => approxProcess boom fuel s'
    else .ok (s, false)

/-- approximate_time.hpp:170-181: the first half of `add<i>(evt)`. -/
def approxAddPush {n : Nat} [NeZero n] (boom : Nat → Bool) (fuel : Nat) (s : State n) (i : Fin n) (e : Ev) :
    Except Fault (State n × Bool) :=
  let s1 : State n := { s with deques := upd s.deques i (s.deques i ++ [e]) }
  if (s1.deques i).length = 1 then
    let s2 : State n := { s1 with num := s1.num + 1 }
    if s2.num = n then approxProcess boom fuel s2 else .ok (s2, false)
  else (checkInterMessageBound s1 i).map (fun s' => (s', false))

/-- approximate_time.hpp:184-200: the second half of `add<i>(evt)`. -/
def approxAddLimit {n : Nat} [NeZero n] (boom : Nat → Bool) (fuel : Nat) (s : State n) (i : Fin n) :
    Except Fault (State n × Bool) :=
  if (s.deques i).length + (s.past i).length > s.cfg.queueSize then
    let s1 := recoverAll { s with num := 0 }
    match s1.deques i with
    | [] => .error .assertFailed
    | _ :: rest =>
      let s2 : State n := { s1 with deques := upd s1.deques i rest, hasDropped := upd s1.hasDropped i true }
      if s2.pivot = none then .ok (s2, false)
      else approxProcess boom fuel { s2 with cand := fun _ => none, pivot := none }
  else .ok (s, false)

/-- approximate_time.hpp:165-201, `add<i>(evt)`: an exception in the first half skips the queue limit. -/
def approxAdd {n : Nat} [NeZero n] (boom : Nat → Bool) (fuel : Nat) (s : State n) (i : Fin n) (e : Ev) :
    Except Fault (State n × Bool) :=
  match approxAddPush boom fuel s i e with
  | .error f => .error f
  | .ok (s1, true) => .ok (s1, true)
  | .ok (s1, false) => approxAddLimit boom fuel s1 i

/-- A history of `add` calls of a freshly constructed policy whose exceptions are caught by the callers. -/
def approxRun {n : Nat} [NeZero n] (boom : Nat → Bool) (fuel : Nat) (cfg : Cfg n) (ops : List (Fin n × Ev)) :
    Except Fault (State n) :=
  match construct n cfg with
  | .error f => .error f
  | .ok s => runE (fun s op => (approxAdd boom fuel s op.1 op.2).map (·.1)) s ops

end MF.Throw
