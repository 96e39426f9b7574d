import Verif.Spec.ZeroTolerance
import Verif.Proofs.ApproxZero
import Verif.Proofs.PyZero
import Verif.Proofs.ApproxRoom
import Verif.Props.ApproxMaximal
import Verif.Props.ExactTime
import Verif.Props.EpsilonRoom
/-
Helper lemmas for synchronization without tolerance.
-/
namespace MF

variable {n : Nat}

theorem strict_inj {l : List Ev} (h : StrictlyTimeSorted l) {x y : Ev} (hx : x ∈ l) (hy : y ∈ l) (he : x.stamp = y.stamp) :
    x = y := by
  obtain ⟨k, hk, hkx⟩ := List.getElem_of_mem hx
  obtain ⟨l', hl, hly⟩ := List.getElem_of_mem hy
  have hget := List.pairwise_iff_getElem.1 h
  rcases Nat.lt_trichotomy k l' with hkl | hkl | hkl
  · have := hget k l' hk hl hkl; rw [hkx, hly] at this; omega
  · subst hkl; rw [hkx] at hly; exact hly
  · have := hget l' k hl hk hkl; rw [hkx, hly] at this; omega

/-- Sets with equal stamps in time order are determined by which sets they are. -/
theorem sets_ext [NeZero n] {P : (Fin n → Option Ev) → Prop} {l m : List (Fin n → Option Ev)} (h1 : SetsInOrder l) (h2 : SetsInOrder m)
    (hP : ∀ t, P t → ∃ e, t 0 = some e) (hl : ∀ t, t ∈ l ↔ P t) (hm : ∀ t, t ∈ m ↔ P t) : l = m := by
  have g1 : l.Pairwise (fun t u => P t ∧ P u ∧ ∀ i j x y, t i = some x → u j = some y → x.stamp < y.stamp) := by
    refine h1.imp_of_mem ?_
    intro a b ha hb h
    exact ⟨(hl a).1 ha, (hl b).1 hb, h⟩
  have g2 : m.Pairwise (fun t u => P t ∧ P u ∧ ∀ i j x y, t i = some x → u j = some y → x.stamp < y.stamp) := by
    refine h2.imp_of_mem ?_
    intro a b ha hb h
    exact ⟨(hm a).1 ha, (hm b).1 hb, h⟩
  refine pairwise_ext ?_ g1 g2 (fun x => (hl x).trans (hm x).symm)
  rintro a b ⟨pa, pb, hab⟩ ⟨_, _, hba⟩
  obtain ⟨x, hx⟩ := hP a pa
  obtain ⟨y, hy⟩ := hP b pb
  have := hab 0 0 x y hx hy
  have := hba 0 0 y x hy hx
  omega

theorem atMostWithin_zero {q : Nat} (hq : 0 < q) {ops : List (Fin n × Ev)} (hs : ∀ i, StrictlyTimeSorted (stream ops i)) :
    Approx.AtMostWithin q 0 ops := by
  intro i T
  have hsl : StrictlyTimeSorted ((stream ops i).filter (fun x => decide (T - 0 ≤ x.stamp) && decide (x.stamp ≤ T))) :=
    (hs i).sublist List.filter_sublist
  cases hl : (stream ops i).filter (fun x => decide (T - 0 ≤ x.stamp) && decide (x.stamp ≤ T)) with
  | nil => exact Nat.zero_le _
  | cons x l =>
    cases l with
    | nil => exact hq
    | cons y l =>
      exfalso
      rw [hl] at hsl
      have h1 := (List.pairwise_cons.1 hsl).1 y (by simp)
      have hx := (List.mem_filter.1 (by rw [hl]; simp : x ∈ (stream ops i).filter _)).2
      have hy := (List.mem_filter.1 (by rw [hl]; simp : y ∈ (stream ops i).filter _)).2
      rw [Bool.and_eq_true, decide_eq_true_eq, decide_eq_true_eq] at hx hy
      omega

theorem strict_sorted {l : List Ev} (h : StrictlyTimeSorted l) : TimeSorted l := h.imp (fun h => by omega)

end MF
