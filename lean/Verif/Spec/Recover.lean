import Verif.Spec.Approx
import Verif.Model.Approx
/-
What ApproximateTime may do after a message was lost because a queue was full: which messages it passes over before it
goes on as if nothing had happened.
-/
namespace MF.ApproxSpec

variable {n : Nat}

/-- Pass over the oldest first messages as long as the newest of the first messages is on an input of `F`.  Once the newest
is on another input, nothing is passed over any more; while it is on input `e`, only `e` counts. -/
def resumeN [NeZero n] : Nat → (Fin n → Bool) → (Fin n → List Ev) → Fin n → List Ev
  | 0, _, d => d
  | k + 1, F, d =>
    match fronts d with
    | none => d
    | some t => if F (newest t) then resumeN k (fun j => decide (j = newest t)) (pop d (oldest t)) else d

/-- `resumeN` with enough steps. -/
def resume [NeZero n] (F : Fin n → Bool) (d : Fin n → List Ev) : Fin n → List Ev := resumeN (size d + 1) F d

end MF.ApproxSpec

namespace MF.Approx

variable {n : Nat}

/-- The messages an input holds. -/
def held (s : State n) (i : Fin n) : List Ev := s.past i ++ s.deques i

/-- The same synchronizer with room for one more message on every input. -/
def roomier (s : State n) : State n := { s with cfg := { s.cfg with queueSize := s.cfg.queueSize + 1 } }

/-- Adding message `e` to input `i` loses a message: with room for one more message the input would then hold more than
`queue_size` messages. -/
def Loses [NeZero n] (fuel : Nat) (s : State n) (i : Fin n) (e : Ev) : Prop :=
  ∃ t, add fuel (roomier s) i e = .ok t ∧ s.cfg.queueSize < (held t i).length

/-- None of the messages `w` added after the messages `pre` makes the synchronizer lose a message. -/
def LosesNothing [NeZero n] (fuel : Nat) (cfg : Cfg n) (pre w : List (Fin n × Ev)) : Prop :=
  ∀ w1 op w2, w = w1 ++ op :: w2 → ∀ u, run fuel cfg (pre ++ w1) = .ok u → ¬ Loses fuel u op.1 op.2

end MF.Approx

namespace MF.Approx

/-- Two inputs, the second ahead: it receives `q` messages, and then one more before each message of the first. -/
def ahead (q : Nat) (A B : Nat → Ev) : Nat → List (Fin 2 × Ev)
  | 0 => (List.range q).map (fun m => (1, B m))
  | k + 1 => ahead q A B k ++ [(1, B (q + k)), (0, A k)]

end MF.Approx
