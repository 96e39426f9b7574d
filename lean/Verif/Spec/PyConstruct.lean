import Verif.Model.PyConstruct
import Verif.Model.PyReconnect
/-
Vocabulary for construction and reconnection of the Python filters.
-/
namespace MF.Py

/-- The messages that arrive when the constructor has executed at least `need` statements, where `need` may depend on the
message; `done` statements were executed before. -/
def arriving {n : Nat} (need : Msg → Nat) : Nat → List (BOp n) → List (Fin n × Msg)
  | _, [] => []
  | done, .ctor :: l => arriving need (done + 1) l
  | done, .deliver i m :: l => if need m ≤ done then (i, m) :: arriving need done l else arriving need done l

/-- The messages that arrive on an input that is registered already (statement `i` registers input `i`), but before the
constructor has executed `need` statements. -/
def tooEarly {n : Nat} (need : Msg → Nat) : Nat → List (BOp n) → List (Fin n × Msg)
  | _, [] => []
  | done, .ctor :: l => tooEarly need (done + 1) l
  | done, .deliver i m :: l =>
    if i.1 < done ∧ done < need m then (i, m) :: tooEarly need done l else tooEarly need done l

/-- The messages that arrive when the constructor has executed exactly `k` statements. -/
def during {n : Nat} (k : Nat) : Nat → List (BOp n) → List (Fin n × Msg)
  | _, [] => []
  | done, .ctor :: l => during k (done + 1) l
  | done, .deliver i m :: l => if done = k then (i, m) :: during k done l else during k done l

/-- The first of the other inputs. -/
def firstOther {n : Nat} (i : Fin n) : Option (Fin n) := (List.finRange n).find? (fun j => j ≠ i)

/-- The operations without the messages of inputs that were replaced before, when `g` generations of inputs were replaced so
far. -/
def onlyCurrent {n : Nat} (g : Nat) : List (ROp n) → List (ROp n)
  | [] => []
  | .reconnect :: l => .reconnect :: onlyCurrent (g + 1) l
  | .deliver g' i m :: l => if g' < g then onlyCurrent g l else .deliver g' i m :: onlyCurrent g l

/-- The messages of inputs that were replaced before. -/
def fromReplaced {n : Nat} (g : Nat) : List (ROp n) → List Msg
  | [] => []
  | .reconnect :: l => fromReplaced (g + 1) l
  | .deliver g' _ m :: l => if g' < g then m :: fromReplaced g l else fromReplaced g l

/-- The current inputs' messages. -/
def messagesOf {n : Nat} (g : Nat) : List (ROp n) → List (Fin n × Msg)
  | [] => []
  | .reconnect :: l => messagesOf g l
  | .deliver g' i m :: l => if g' = g then (i, m) :: messagesOf g l else messagesOf g l

end MF.Py

namespace MF.PyCache

/-- The messages that arrive when the constructor has executed at least `need` statements, where `need` may depend on the
message; `done` statements were executed before. -/
def arriving (need : Msg → Nat) : Nat → List BOp → List (Msg × Int)
  | _, [] => []
  | done, .ctor :: l => arriving need (done + 1) l
  | done, .deliver m now :: l => if need m ≤ done then (m, now) :: arriving need done l else arriving need done l

end MF.PyCache
