import Verif.Model.PySync
/-
`connectInput` of the Python synchronizers called again (__init__.py:219-223).  It makes new queues; the callbacks registered
before stay registered on the old inputs, with the old queues as argument.
-/
namespace MF.Py

/-- What can happen: `connectInput` with `n` new inputs, or an input of the `g`-th generation outputs a message. -/
inductive ROp (n : Nat) where
  | reconnect
  | deliver (g : Nat) (i : Fin n) (m : Msg)

/-- The synchronizer, the current generation of inputs, and the queues of the earlier generations. -/
structure RState (n : Nat) where
  s : State n
  gen : Nat
  old : Nat → Fin n → Dict Ev

/-- After the constructor. -/
def rStart (n : Nat) (queueSize : Int) : RState n := { s := construct n queueSize, gen := 0, old := fun _ _ => [] }

/-- __init__.py:220: new queues. -/
def reconnect {n : Nat} (r : RState n) : RState n :=
  { s := { r.s with queues := fun _ => [] }, gen := r.gen + 1,
    old := fun g => if g = r.gen then r.s.queues else r.old g }

/-- Replace the queue of input `i` of generation `g`. -/
def setOld {n : Nat} (r : RState n) (g : Nat) (i : Fin n) (d : Dict Ev) : Nat → Fin n → Dict Ev :=
  fun g' => if g' = g then upd (r.old g) i d else r.old g'

/-- __init__.py:225-239 with an old queue as `my_queue`: only lines 228-230 use `my_queue`. -/
def tsAddOld {n : Nat} (boom : Nat → Bool) (r : RState n) (g : Nat) (i : Fin n) (m : Msg) : Except Fault (RState n) :=
  if r.s.locked then .error .hang
  else if !m.header then .ok { r with s := { r.s with locked := true } }
  else
    let d := (r.old g i).set m.ev.stamp m.ev
    match evict r.s.queueSize (d.length + 1) d with
    | .error f => .error f
    | .ok none => .ok { r with s := { r.s with locked := true }, old := setOld r g i [] }
    | .ok (some d') =>
      let l := tsLoop boom (sorted (fun a b => decide (a ≤ b)) (common r.s.queues)) r.s
      .ok { r with s := { l.1 with locked := l.2 }, old := setOld r g i d' }

/-- One operation on a TimeSynchronizer. -/
def tsRStep {n : Nat} (boom : Nat → Bool) (r : RState n) : ROp n → Except Fault (RState n)
  | .reconnect => .ok (reconnect r)
  | .deliver g i m =>
    if g = r.gen then (tsAdd boom r.s i m).map (fun x => { r with s := x.1 })
    else if g < r.gen then tsAddOld boom r g i m
    else .ok r

/-- __init__.py:260-318 with an old queue as `my_queue`: only lines 280-282 use it. -/
def approxAddOld {n : Nat} (boom : Nat → Bool) (slop : Int) (allow : Bool) (r : RState n) (g : Nat) (i : Fin n) (m : Msg) :
    Except Fault (RState n) :=
  if !m.header && !allow then .ok r
  else if r.s.locked then .error .hang
  else
    let d := (r.old g i).set m.ev.stamp m.ev
    match evict r.s.queueSize (d.length + 1) d with
    | .error f => .error f
    | .ok none => .ok { r with s := { r.s with locked := true }, old := setOld r g i [] }
    | .ok (some d') =>
      let qs := List.ofFn r.s.queues
      match nearStamps slop m.ev.stamp (qs.take i ++ qs.drop (i + 1)) with
      | none => .ok { r with old := setOld r g i d' }
      | some stamps =>
        let l := approxLoop boom slop i m.ev.stamp (product stamps) r.s
        .ok { r with s := { l.1 with locked := l.2 }, old := setOld r g i d' }

/-- One operation on an ApproximateTimeSynchronizer. -/
def approxRStep {n : Nat} (boom : Nat → Bool) (slop : Int) (allow : Bool) (r : RState n) : ROp n → Except Fault (RState n)
  | .reconnect => .ok (reconnect r)
  | .deliver g i m =>
    if g = r.gen then (approxAdd boom slop allow r.s i m).map (fun x => { r with s := x.1 })
    else if g < r.gen then approxAddOld boom slop allow r g i m
    else .ok r

end MF.Py
