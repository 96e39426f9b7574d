import Verif.Model.ClockMix
import Verif.Model.Approx
/-
Model of include/message_filters/sync_policies/approximate_time.hpp for messages whose stamps are of different clock types: the
functions of Model/Approx.lean with an exit by exception at every comparison and every subtraction of two `rclcpp::Time`s.  The
functions that change the policy return the state that is left behind and whether an exception was thrown.
-/
namespace MF.ClockMix

/-- `rclcpp::Time::operator<` (and `>`): throws if the clock types differ (rclcpp, trusted). -/
def timeLt (a b : Time) : Except Fault Bool :=
  if a.source = b.source then .ok (decide (a.ns < b.ns)) else .error .threw

/-- `rclcpp::Time::operator-(Time)`: throws if the clock types differ (rclcpp, trusted). -/
def timeSub (a b : Time) : Except Fault Int :=
  if a.source = b.source then .ok (a.ns - b.ns) else .error .threw

/-- message_traits.hpp:88-102, `TimeStamp<M>::value`. -/
def timeOf (src : Nat → Source) (e : Ev) : Time := ⟨e.stamp, src e.id⟩

/-- approximate_time.hpp:620-641: the members as in `Approx.State`, with the clock types of `candidate_start_`,
`candidate_end_` and `pivot_time_`. -/
structure PState (n : Nat) where
  base : Approx.State n
  startSrc : Source
  endSrc : Source
  pivotSrc : Source

/-- approximate_time.hpp:630, `candidate_start_`. -/
def PState.candStart {n : Nat} (s : PState n) : Time := ⟨s.base.candStart, s.startSrc⟩
/-- approximate_time.hpp:631, `candidate_end_`. -/
def PState.candEnd {n : Nat} (s : PState n) : Time := ⟨s.base.candEnd, s.endSrc⟩
/-- approximate_time.hpp:632, `pivot_time_`. -/
def PState.pivotTime {n : Nat} (s : PState n) : Time := ⟨s.base.pivotTime, s.pivotSrc⟩

/-- An expression that may throw, evaluated in state `s`: an exception leaves `s` behind. -/
def orThrow {n : Nat} {α : Type} (s : PState n) (r : Except Fault α) (k : α → Except Fault (PState n × Bool)) :
    Except Fault (PState n × Bool) :=
  match r with
  | .ok a => k a
  | .error .threw => .ok (s, true)
  | .error f => .error f

/-- A part of the code that compares no times. -/
def lift {n : Nat} (s : PState n) (r : Except Fault (Approx.State n)) : Except Fault (PState n × Bool) :=
  match r with
  | .ok b => .ok ({ s with base := b }, false)
  | .error f => .error f

/-- approximate_time.hpp:70-84; a default constructed `rclcpp::Time` is of type `system` (rclcpp, trusted). -/
def approxConstruct (n : Nat) (cfg : Approx.Cfg n) : Except Fault (PState n) :=
  match Approx.construct n cfg with
  | .error f => .error f
  | .ok b => .ok { base := b, startSrc := .system, endSrc := .system, pivotSrc := .system }

/-- approximate_time.hpp:117-162, `checkInterMessageBound<i>`: the comparison of line 149 and the subtraction of line 152. -/
def approxBound {n : Nat} (src : Nat → Source) (s : PState n) (i : Fin n) : Except Fault (PState n × Bool) :=
  if s.base.warned i then .ok (s, false)
  else
    match (s.base.deques i).getLast? with
    | none => .error .assertFailed
    | some msg =>
      match (if (s.base.deques i).length = 1 then (s.base.past i).getLast?
        else (s.base.deques i)[(s.base.deques i).length - 2]?) with
      | none => .ok (s, false)
      | some prev =>
        orThrow s (timeLt (timeOf src msg) (timeOf src prev)) (fun b =>
          if b then .ok ({ s with base := { s.base with warned := upd s.base.warned i true } }, false)
          else orThrow s (timeSub (timeOf src msg) (timeOf src prev)) (fun d =>
            if d < s.base.cfg.lower i then .ok ({ s with base := { s.base with warned := upd s.base.warned i true } }, false)
            else .ok (s, false)))

/-- approximate_time.hpp:414-425, `checkBoundary<I>`. -/
def checkBoundary {n : Nat} (src : Nat → Source) (d : Fin n → List Ev) (isEnd : Bool) (acc : Option (Fin n × Time)) (i : Fin n) :
    Except Fault (Option (Fin n × Time)) :=
  match d i with
  | [] => .error .ub
  | e :: _ =>
    if i.val = 0 then .ok (some (i, timeOf src e))
    else
      match acc with
      | none => .error .ub
      | some (j, time) =>
        match timeLt (timeOf src e) time with
        | .error f => .error f
        | .ok b => if (b ^^ isEnd) then .ok (some (i, timeOf src e)) else .ok (some (j, time))

/-- approximate_time.hpp:399-441, `getCandidateStart` (`isEnd = false`) and `getCandidateEnd` (`isEnd = true`). -/
def candidateBoundary {n : Nat} (src : Nat → Source) (d : Fin n → List Ev) (isEnd : Bool) : Except Fault (Fin n × Time) :=
  match (List.finRange n).foldlM (checkBoundary src d isEnd) none with
  | .error f => .error f
  | .ok none => .error .ub
  | .ok (some r) => .ok r

/-- approximate_time.hpp:444-468, `getVirtualTime<i>`; adding a duration keeps the clock type. -/
def virtualTime {n : Nat} (src : Nat → Source) (s : PState n) (i : Fin n) : Except Fault Time :=
  if s.base.pivot = none then .error .assertFailed
  else
    match s.base.deques i with
    | [] =>
      match (s.base.past i).getLast? with
      | none => .error .assertFailed
      | some last =>
        match timeLt s.pivotTime ⟨last.stamp + s.base.cfg.lower i, src last.id⟩ with
        | .error f => .error f
        | .ok b => .ok (if b then ⟨last.stamp + s.base.cfg.lower i, src last.id⟩ else s.pivotTime)
    | e :: _ => .ok (timeOf src e)

/-- approximate_time.hpp:486: one element of the array built by `getVirtualTimes`. -/
def virtualTimesStep {n : Nat} (src : Nat → Source) (s : PState n) (times : Fin n → Time) (i : Fin n) :
    Except Fault (Fin n → Time) :=
  match virtualTime src s i with
  | .error f => .error f
  | .ok t => .ok (upd times i t)

/-- approximate_time.hpp:483-487, `getVirtualTimes`. -/
def virtualTimes {n : Nat} (src : Nat → Source) (s : PState n) : Except Fault (Fin n → Time) :=
  (List.finRange n).foldlM (virtualTimesStep src s) (fun _ => ⟨0, .system⟩)

/-- approximate_time.hpp:499-502: one round of the loop of `getVirtualCandidateBoundary`. -/
def virtualBoundaryStep {n : Nat} (times : Fin n → Time) (isEnd : Bool) (acc : Fin n × Time) (i : Fin n) :
    Except Fault (Fin n × Time) :=
  match timeLt (times i) acc.2 with
  | .error f => .error f
  | .ok b => .ok (if (b ^^ isEnd) then (i, times i) else acc)

/-- approximate_time.hpp:471-504, `getVirtualCandidateStart` / `getVirtualCandidateEnd`. -/
def virtualBoundary {n : Nat} [NeZero n] (src : Nat → Source) (s : PState n) (isEnd : Bool) : Except Fault (Fin n × Time) :=
  match virtualTimes src s with
  | .error f => .error f
  | .ok times => (List.finRange n).foldlM (virtualBoundaryStep times isEnd) (0, times 0)

/-- approximate_time.hpp:602-605: the end of a virtual search without a result. -/
def cleanUp {n : Nat} (before : Int) (moves : Fin n → Nat) (b : Approx.State n) : Except Fault (Approx.State n) :=
  match Approx.recoverAllN moves { b with num := 0 } with
  | .error f => .error f
  | .ok b' => if before = b'.num then .ok b' else .error .assertFailed

/-- approximate_time.hpp:581-615: the virtual search.  An exception leaves the messages moved so far where they are. -/
def approxSearch {n : Nat} [NeZero n] (src : Nat → Source) : Nat → Int → (Fin n → Nat) → PState n → Except Fault (PState n × Bool)
  | 0, _, _, _ => .error .hang
  | fuel + 1, before, moves, s =>
    orThrow s (virtualBoundary src s true) (fun e =>
    orThrow s (virtualBoundary src s false) (fun m =>
    orThrow s (timeSub e.2 s.candEnd) (fun age =>
    orThrow s (timeSub s.pivotTime s.candStart) (fun gain =>
      if s.base.cfg.scale age ≥ gain then lift s (Approx.publishCandidate s.base)
      else
        orThrow s (timeSub m.2 s.candStart) (fun gain' =>
          if s.base.cfg.scale age < gain' then lift s (cleanUp before moves s.base)
          else if some m.1 = s.base.pivot then .error .assertFailed
          else
            orThrow s (timeLt m.2 s.pivotTime) (fun b =>
              if b = false then .error .assertFailed
              else
                match Approx.dequeMoveFrontToPast s.base m.1 with
                | .error f => .error f
                | .ok b' => approxSearch src fuel before (upd moves m.1 (moves m.1 + 1)) { s with base := b' }))))))

/-- approximate_time.hpp:524-562: with the boundaries found, either the front of the oldest deque is deleted (`continue`) or
the iteration goes on with `k`. -/
def approxExamine {n : Nat} (s : PState n) (endIndex : Fin n) (endTime : Time) (startIndex : Fin n) (startTime : Time)
    (k : PState n → Except Fault (PState n × Bool)) : Except Fault (PState n × Bool) :=
  match s.base.pivot with
  | none =>
    orThrow s (timeSub endTime startTime) (fun d =>
      if d > s.base.cfg.maxInterval then lift s (Approx.dequeDeleteFront s.base startIndex)
      else if s.base.hasDropped endIndex then lift s (Approx.dequeDeleteFront s.base startIndex)
      else
        match Approx.makeCandidate s.base with
        | .error f => .error f
        | .ok b1 =>
          match Approx.dequeMoveFrontToPast { b1 with candStart := startTime.ns, candEnd := endTime.ns, pivot := some endIndex,
                                                      pivotTime := endTime.ns } startIndex with
          | .error f => .error f
          | .ok b2 => k { base := b2, startSrc := startTime.source, endSrc := endTime.source, pivotSrc := endTime.source })
  | some _ =>
    orThrow s (timeSub endTime s.candEnd) (fun age =>
    orThrow s (timeSub startTime s.candStart) (fun gain =>
      if s.base.cfg.scale age ≥ gain then
        match Approx.dequeMoveFrontToPast s.base startIndex with
        | .error f => .error f
        | .ok b2 => k { s with base := b2 }
      else
        match Approx.makeCandidate s.base with
        | .error f => .error f
        | .ok b1 =>
          match Approx.dequeMoveFrontToPast { b1 with candStart := startTime.ns, candEnd := endTime.ns } startIndex with
          | .error f => .error f
          | .ok b2 => k { s with base := b2, startSrc := startTime.source, endSrc := endTime.source }))

/-- approximate_time.hpp:563-616: the rest of the iteration. -/
def approxConclude {n : Nat} [NeZero n] (src : Nat → Source) (fuel : Nat) (endTime : Time) (startIndex : Fin n) (s : PState n) :
    Except Fault (PState n × Bool) :=
  if s.base.pivot = none then .error .assertFailed
  else
    orThrow s (timeSub endTime s.candEnd) (fun age =>
      if some startIndex = s.base.pivot then lift s (Approx.publishCandidate s.base)
      else
        orThrow s (timeSub s.pivotTime s.candStart) (fun gain =>
          if s.base.cfg.scale age ≥ gain then lift s (Approx.publishCandidate s.base)
          else if s.base.num < n then approxSearch src fuel s.base.num (fun _ => 0) s
          else .ok (s, false)))

/-- approximate_time.hpp:517-523. -/
def clearDropped {n : Nat} (s : PState n) (e : Fin n) : PState n :=
  { s with base := { s.base with hasDropped := fun i => if i ≠ e then false else s.base.hasDropped i } }

/-- approximate_time.hpp:512-616: one iteration of the loop of `process`. -/
def approxIteration {n : Nat} [NeZero n] (src : Nat → Source) (fuel : Nat) (s : PState n) : Except Fault (PState n × Bool) :=
  orThrow s (candidateBoundary src s.base.deques true) (fun e =>
  orThrow s (candidateBoundary src s.base.deques false) (fun m =>
    approxExamine (clearDropped s e.1) e.1 e.2 m.1 m.2 (approxConclude src fuel e.2 m.1)))

/-- approximate_time.hpp:508-618, `process`. -/
def approxProcess {n : Nat} [NeZero n] (src : Nat → Source) : Nat → PState n → Except Fault (PState n × Bool)
  | 0, s => if s.base.num = n then .error .hang else .ok (s, false)
  | fuel + 1, s =>
    if s.base.num = n then
      match approxIteration src fuel s with
      | .error f => .error f
      | .ok (s', true) => .ok (s', true)
      | .ok (s', false) => approxProcess src fuel s'
    else .ok (s, false)

/-- approximate_time.hpp:170-181: the first half of `add<i>(evt)`. -/
def approxAddPush {n : Nat} [NeZero n] (src : Nat → Source) (fuel : Nat) (s : PState n) (i : Fin n) (e : Ev) :
    Except Fault (PState n × Bool) :=
  let b1 : Approx.State n := { s.base with deques := upd s.base.deques i (s.base.deques i ++ [e]) }
  if (b1.deques i).length = 1 then
    let b2 : Approx.State n := { b1 with num := b1.num + 1 }
    if b2.num = n then approxProcess src fuel { s with base := b2 } else .ok ({ s with base := b2 }, false)
  else approxBound src { s with base := b1 } i

/-- approximate_time.hpp:184-200: the second half of `add<i>(evt)`, the queue limit. -/
def approxAddLimit {n : Nat} [NeZero n] (src : Nat → Source) (fuel : Nat) (s : PState n) (i : Fin n) :
    Except Fault (PState n × Bool) :=
  if (s.base.deques i).length + (s.base.past i).length > s.base.cfg.queueSize then
    let b1 := Approx.recoverAll { s.base with num := 0 }
    match b1.deques i with
    | [] => .error .assertFailed
    | _ :: rest =>
      let b2 : Approx.State n := { b1 with deques := upd b1.deques i rest, hasDropped := upd b1.hasDropped i true }
      if b2.pivot = none then .ok ({ s with base := b2 }, false)
      else approxProcess src fuel { s with base := { b2 with cand := fun _ => none, pivot := none } }
  else .ok (s, false)

/-- approximate_time.hpp:165-201, `add<i>(evt)`; an exception in the first half skips the second. -/
def approxAdd {n : Nat} [NeZero n] (src : Nat → Source) (fuel : Nat) (s : PState n) (i : Fin n) (e : Ev) :
    Except Fault (PState n × Bool) :=
  match approxAddPush src fuel s i e with
  | .error f => .error f
  | .ok (s1, true) => .ok (s1, true)
  | .ok (s1, false) => approxAddLimit src fuel s1 i

/-- A history of `add` calls of a freshly constructed policy; the caller catches the exceptions. -/
def approxRun {n : Nat} [NeZero n] (src : Nat → Source) (fuel : Nat) (cfg : Approx.Cfg n) (ops : List (Fin n × Ev)) :
    Except Fault (PState n) :=
  match approxConstruct n cfg with
  | .error f => .error f
  | .ok s => runE (fun s op => (approxAdd src fuel s op.1 op.2).map (·.1)) s ops

end MF.ClockMix
