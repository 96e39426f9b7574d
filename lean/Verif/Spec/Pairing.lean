import Verif.Spec.Basic
/-
Ways of putting the messages of two inputs together in pairs.
-/
namespace MF

/-- `L` is a way of putting messages of `A` and `B` together in pairs: each message is used at most as often as it occurs,
and the stamps of a pair differ by at most `eps`.  (The order of the pairs is not restricted, and pairs may cross.) -/
def Pairing (eps : Int) (A B : List Ev) (L : List (Ev × Ev)) : Prop :=
  (∀ e, (L.map Prod.fst).count e ≤ A.count e) ∧ (∀ e, (L.map Prod.snd).count e ≤ B.count e) ∧
  ∀ p ∈ L, p.1.stamp - p.2.stamp ≤ eps ∧ p.2.stamp - p.1.stamp ≤ eps

/-- The pairs of a list of output sets of a synchronizer with two inputs. -/
def pairsOf (out : List (Fin 2 → Option Ev)) : List (Ev × Ev) :=
  out.filterMap (fun t => (t 0).bind (fun x => (t 1).map (fun y => (x, y))))

/-- `L` is a way of putting messages of `n` inputs together in sets of one message per input: no message is in two of them, and
stamps within a set differ by less than `slop`. -/
def Grouping {n : Nat} (slop : Int) (ops : List (Fin n × Ev)) (L : List (Fin n → Ev)) : Prop :=
  (∀ i, (L.map (· i)).Nodup) ∧ ∀ T ∈ L, (∀ i, (i, T i) ∈ ops) ∧ ∀ i j, (T i).stamp - (T j).stamp < slop

end MF
