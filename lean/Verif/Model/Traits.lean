import Verif.Model.Sequencer
import Verif.Model.Event
/-
Model of include/message_filters/message_traits.hpp and of the traits in null_types.hpp: what the filters know of a message.
-/
namespace MF.Traits

open MF.Event (Time)

/-- `std_msgs::msg::Header` with its stamp in nanoseconds (the sum of its two fields, see `Model/Time64.lean`). -/
structure Header where
  stamp : Int
  frame : String
deriving DecidableEq, Repr

/-- A message: which object it is and, if its type has a member `header` of type `std_msgs::msg::Header`, that member.
Simplification: whether there is one is a property of the type in C++, here it is one of the message. -/
structure Msg where
  id : Nat
  header : Option Header
deriving DecidableEq, Repr

/-- message_traits.hpp:50-59, `HasHeader<M>::value`. -/
def hasHeader (m : Msg) : Bool := m.header.isSome

/-- message_traits.hpp:66-78, `FrameId<M>::pointer(m)`, read; `none` is the null pointer.  No filter calls it. -/
def frameId (m : Msg) : Option String := m.header.map (·.frame)

/-- message_traits.hpp:85-102, `TimeStamp<M>::value(m)`: the stamp of the header, or time 0, as ROS time. -/
def timeStamp (m : Msg) : Time :=
  match m.header with
  | none => { source := .ros, ns := 0 }
  | some h => { source := .ros, ns := h.stamp }

/-- null_types.hpp:63-70, `TimeStamp<NullType>::value`: `rclcpp::Time()`.  No filter calls it: a `NullFilter` (48-61) never calls
a callback. -/
def nullTimeStamp : Time := { source := .system, ns := 0 }

/-- The message as the synchronization policies, the Cache and the InputAligner see it. -/
def event (m : Msg) : Ev := { id := m.id, stamp := (timeStamp m).ns }

/-- The message as the TimeSequencer sees it. -/
def sequenced (m : Msg) : Sequencer.Msg := { ev := event m, source := (timeStamp m).source }

/-- Messages arriving on the inputs of a filter. -/
def deliveries {n : Nat} (msgs : List (Fin n × Msg)) : List (Fin n × Ev) := msgs.map (fun o => (o.1, event o.2))

end MF.Traits
