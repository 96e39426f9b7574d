import Verif.Spec.Sync
/-
Leaving inputs out of a synchronizer.
-/
namespace MF

/-- The inputs `σ 0`, `σ 1`, … of a synchronizer, and the calls on them in the history `ops`, in the same order, numbered
0, 1, …. -/
def narrow {m n : Nat} (σ : Fin m → Fin n) (ops : List (Fin n × Ev)) : List (Fin m × Ev) :=
  ops.filterMap (fun o => ((List.finRange m).find? (fun i => decide (σ i = o.1))).map (fun i => (i, o.2)))

/-- What a set has for those inputs. -/
def narrowSet {m n : Nat} {α : Type} (σ : Fin m → Fin n) (t : Fin n → α) : Fin m → α := fun i => t (σ i)

end MF
