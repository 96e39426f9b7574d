import Verif.Spec.Sync
import Verif.Spec.Latest
/-
Vocabulary for one source that is connected to every input of a synchronizer: C114.
-/
namespace MF

variable {n : Nat}

/-- What a synchronizer receives when all its inputs are fed by one source that outputs the messages of the first list: every
message reaches every input once before the next one reaches any.  The order of the inputs may differ from message to message
(it is that of the connections when the inputs are connected to the source itself, but there may be filters in between). -/
inductive FanOut : List Ev → List (Fin n × Ev) → Prop
  | nil : FanOut [] []
  | next {msgs : List Ev} {ops : List (Fin n × Ev)} (h : FanOut msgs ops) (m : Ev) (order : List (Fin n)) (once : order.Nodup)
      (all : ∀ i, i ∈ order) : FanOut (msgs ++ [m]) (ops ++ order.map (fun i => (i, m)))

/-- The set made of the same message for every input. -/
def same (m : Ev) : Fin n → Option Ev := fun _ => some m

end MF

namespace MF.Latest

open MF.Event (Time)

variable {n : Nat}

/-- A source of period `p` connected to every input: round `k` delivers message `M k` to inputs 0, 1, 2, ...; input `i` receives it at
time `t0 + k * p + off i`. -/
def round (src : Source) (M : Nat → Ev) (t0 p : Int) (off : Fin n → Int) (k : Nat) : List (Op n) :=
  (List.finRange n).map (fun i => ⟨i, M k, ⟨t0 + k * p + off i, src⟩⟩)

/-- The first `K` rounds. -/
def rounds (src : Source) (M : Nat → Ev) (t0 p : Int) (off : Fin n → Int) (K : Nat) : List (Op n) :=
  (List.range K).flatMap (round src M t0 p off)

end MF.Latest
