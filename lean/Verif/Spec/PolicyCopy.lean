import Verif.Model.PolicyCopy
/-
Vocabulary for the properties of handing a policy to a Synchronizer.
-/
namespace MF.Copy

/-- The yardstick: the policy object itself, put under synchronizer `sync` without being copied. -/
def inPlace {σ : Type} (policy : Obj σ) (sync : Nat) : Obj σ := { policy with parent := some sync }

/-- A policy object that belongs to no synchronizer and has been through the calls `ops`. -/
def StandAlone {σ O : Type} (isAdd : O → Bool) (step : σ → O → Except Fault σ) (fresh : σ) (ops : List O) (p : Obj σ) : Prop :=
  runE (call isAdd step) { parent := none, core := fresh } ops = .ok p

/-- Observation of a history: its result seen through `obs`. -/
def observe {σ α : Type} (obs : σ → α) : Except Fault (Obj σ) → Except Fault α
  | .error f => .error f
  | .ok o => .ok (obs o.core)

/-- The drop callbacks registered by a history. -/
def registered {n : Nat} (ops : List (ExactOp n)) : List Nat :=
  ops.filterMap (fun op => match op with | .registerDropCallback c => some c | .add _ _ => none)

/-- The deliveries of a LatestTime history. -/
def feed {n : Nat} {D : Type} (ops : List (Latest.Op n)) : List (LatestOp n D) := ops.map .add

/-- Some message arrives on a connected input before `init` has run. -/
def EarlyMessage {n : Nat} (l : List (Building n)) : Prop :=
  ∃ i e a b, l = a ++ .deliver i e :: b ∧ .connect i ∈ a ∧ .init ∉ a

end MF.Copy
