/-
Conventions shared by all models.

* A message event is represented by `Ev`: `id` stands for the identity of the (shared) message object, `stamp` for
  `message_traits::TimeStamp<M>::value(*msg)` in nanoseconds (include/message_filters/message_traits.hpp:95-102).
  Payloads are never inspected by the filters.  Stamps are unbounded integers; the 64-bit arithmetic is treated
  separately in `Model/Time64.lean`.
* Undefined behaviour, failed assertions, exceptions and endless loops are outcomes of their own, never silently
  totalised.
-/
namespace MF

/-- A message event as seen by the filters: the shared message (`id`) and its header stamp.
include/message_filters/message_event.hpp:67-236 (only `getMessage()` and the stamp of the message matter here). -/
structure Ev where
  id : Nat
  stamp : Int
deriving DecidableEq, Repr, Inhabited

/-- Ways in which a C++ operation can fail to return normally. -/
inductive Fault where
  | ub            -- undefined behaviour (null dereference, out of bounds, front() of an empty container, ...)
  | assertFailed  -- a failed `assert`
  | threw         -- an escaping C++ exception
  | hang          -- no return within the given number of loop iterations
deriving DecidableEq, Repr

/-- The clock source of an `rclcpp::Time`.  message_traits.hpp:98-101 gives every message with a header a stamp of source
`ros`; a user specialisation of `TimeStamp` can use any source; `rclcpp::Time()` and `rclcpp::Clock().now()` are of source
`system` (rclcpp, trusted). -/
inductive Source where
  | system | ros | steady
deriving DecidableEq, Repr

/-- `f` with position `i` overwritten: assignment to one element of a tuple or vector, `std::get<i>(t) = a`. -/
def upd {n : Nat} {α : Type} (f : Fin n → α) (i : Fin n) (a : α) : Fin n → α :=
  fun j => if j = i then a else f j

/-- A history of calls: the calls are executed one after the other and the first fault ends the history. -/
def runE {S O : Type} (step : S → O → Except Fault S) (s : S) : List O → Except Fault S
  | [] => .ok s
  | op :: ops =>
    match step s op with
    | .error f => .error f
    | .ok s' => runE step s' ops

end MF
