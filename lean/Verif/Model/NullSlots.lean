import Verif.Model.Signal
import Verif.Model.ExactTime
/-
The events of an ExactTime tuple as handed to the callbacks of the output and of the drop signal.
-/
namespace MF.NullSlots

open MF.Event

/-- exact_time.hpp:98-99: a slot of a tuple holds the event assigned to it (`mk` gives the event of a message; assignment makes
no difference to it, message_event.hpp:145-153), or a default constructed event. -/
def slotEvent (mk : Ev → Event) : Option Ev → Event
  | none => Event.default
  | some e => ofConst (mk e)

/-- exact_time.hpp:145 and 176: the arguments of the signal, by `std::apply`. -/
def slotEvents {n : Nat} (mk : Ev → Event) (t : ExactTime.Tuple n) : List Event :=
  (List.finRange n).map (fun i => slotEvent mk (t i))

/-- exact_time.hpp:174-177, `call_drop_signal`, and 145, the output signal: `Signal9::call` for callbacks with the given
parameter kinds. -/
def callSlots {α : Type} {n : Nat} (h : Heap α) (mk : Ev → Event) (t : ExactTime.Tuple n)
    (cbs : List (List Kind × (Nat → α → α))) : Except Fault (Signal.Progress α) :=
  Signal.call9 h (slotEvents mk t) cbs

end MF.NullSlots
