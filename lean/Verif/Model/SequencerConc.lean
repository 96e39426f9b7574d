import Verif.Model.Sequencer
/-
The TimeSequencer used by several threads (time_sequencer.hpp:146-219).  `add` and the first block of `dispatch` hold
`messages_mutex_` for their whole duration, so each is one atomic step here (justified for any body by C51); the second block
of `dispatch`, which calls `signalMessage` for the messages taken, holds no lock, so each call is a separate step and anything
may happen in between: other threads (or the callback itself) may add messages, and another timer callback may run.
-/
namespace MF.Sequencer

/-- time_sequencer.hpp:229-239 plus, for each timer thread `w`, the part of its local `to_call` (line 194) that it has not
passed on yet (`flight w`). -/
structure Conc where
  base : State
  flight : Nat → List Ev

/-- What can happen next. -/
inductive Act where
  /-- Some thread calls `add`. -/
  | add (m : Msg)
  /-- The timer fires on thread `w`: the locked block of `dispatch`. -/
  | take (w : Nat) (now : Nat → Int)
  /-- Thread `w` passes on the next message of its `to_call`. -/
  | deliver (w : Nat)

/-- Replace the value at one index. -/
def setAt (f : Nat → List Ev) (w : Nat) (l : List Ev) : Nat → List Ev := fun v => if v = w then l else f v

/-- time_sequencer.hpp:146-160 (`add`), 196-210 (`take`, refused while the thread is still in its previous `dispatch`), 212-218
(`deliver`; nothing happens if everything has been passed on). -/
def cstep (c : Conc) : Act → Conc
  | .add m => { c with base := step c.base (.add m) }
  | .take w now =>
    match c.flight w with
    | [] =>
      let r := takeReady c.base.delay now 0 c.base.messages c.base.last
      { base := { c.base with messages := r.2.1, last := r.2.2 }, flight := setAt c.flight w r.1 }
    | _ :: _ => c
  | .deliver w =>
    match c.flight w with
    | [] => c
    | e :: l => { base := { c.base with out := c.base.out ++ [e] }, flight := setAt c.flight w l }

/-- A freshly constructed sequencer under a schedule. -/
def crun (delay : Int) (queueSize : Nat) (acts : List Act) : Conc :=
  acts.foldl cstep { base := construct delay queueSize, flight := fun _ => [] }

end MF.Sequencer
