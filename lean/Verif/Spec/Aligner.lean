import Verif.Model.Aligner
import Verif.Spec.Sync
/-
Vocabulary for the InputAligner properties.
-/
namespace MF.Aligner

variable {n : Nat}

/-- The messages added by a history, with their inputs, in order. -/
def adds (ops : List (Op n)) : List (Fin n × Ev) :=
  ops.filterMap (fun op => match op with | .add i e => some (i, e) | _ => none)

/-- The newest stamp added by a history (0 if there is none that is positive). -/
def newest (ops : List (Op n)) : Int := (adds ops).foldl (fun m x => if x.2.stamp > m then x.2.stamp else m) 0

/-- The period a history sets for input `i` last (0 if it sets none). -/
def periodOf (i : Fin n) (ops : List (Op n)) : Int :=
  ops.foldl (fun p op => match op with | .setPeriod j d => if j = i then d else p | _ => p) 0

/-- The period of input `i` is `p` from before its first message on. -/
def ConstPeriod (i : Fin n) (p : Int) (ops : List (Op n)) : Prop :=
  ∃ pre post, ops = pre ++ post ∧ (∀ e, Op.add i e ∉ pre) ∧ periodOf i pre = p ∧ ∀ d, Op.setPeriod i d ∉ post

/-- Messages arrive in order and at least `p` apart. -/
def Spaced (p : Int) (l : List Ev) : Prop := l.Pairwise (fun a b => a.stamp + p ≤ b.stamp)

end MF.Aligner
