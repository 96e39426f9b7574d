import Verif.Model.Multiset
import Verif.Spec.Basic
import Verif.Proofs.Basic
/-
Lemmas about sorted insertion.
-/
namespace MF

/-! ### Insertion -/

theorem insertEv_spec (e : Ev) (l : List Ev) (hl : TimeSorted l) :
    ∃ a b, l = a ++ b ∧ insertEv e l = a ++ e :: b ∧ (∀ x ∈ a, x.stamp ≤ e.stamp) ∧ ∀ x ∈ b, e.stamp < x.stamp := by
  induction l with
  | nil => exact ⟨[], [], rfl, rfl, by simp, by simp⟩
  | cons y l ih =>
    have hl' := List.pairwise_cons.1 hl
    unfold insertEv
    by_cases h : e.stamp < y.stamp
    · rw [if_pos h]
      refine ⟨[], y :: l, rfl, rfl, by simp, ?_⟩
      intro x hx
      rcases List.mem_cons.1 hx with hx | hx
      · rw [hx]; exact h
      · have := hl'.1 x hx; omega
    · rw [if_neg h]
      obtain ⟨a, b, h1, h2, h3, h4⟩ := ih hl'.2
      refine ⟨y :: a, b, by rw [h1]; rfl, by rw [h2]; rfl, ?_, h4⟩
      intro x hx
      rcases List.mem_cons.1 hx with hx | hx
      · rw [hx]; omega
      · exact h3 x hx

theorem insertEv_mem (e : Ev) (l : List Ev) (x : Ev) : x ∈ insertEv e l ↔ x = e ∨ x ∈ l := by
  induction l with
  | nil => simp [insertEv]
  | cons y l ih =>
    unfold insertEv
    split
    · simp
    · simp only [List.mem_cons, ih]
      constructor
      · rintro (h | h | h) <;> simp [h]
      · rintro (h | h | h) <;> simp [h]

theorem insertEv_sorted (e : Ev) (l : List Ev) (hl : TimeSorted l) : TimeSorted (insertEv e l) := by
  obtain ⟨a, b, h1, h2, h3, h4⟩ := insertEv_spec e l hl
  rw [h1] at hl
  obtain ⟨g1, g2, g3⟩ := List.pairwise_append.1 hl
  rw [h2]
  refine List.pairwise_append.2 ⟨g1, List.pairwise_cons.2 ⟨fun x hx => Int.le_of_lt (h4 x hx), g2⟩, ?_⟩
  intro x hx y hy
  rcases List.mem_cons.1 hy with hy | hy
  · rw [hy]; exact h3 x hx
  · exact g3 x hx y hy

theorem insertEv_length (e : Ev) (l : List Ev) : (insertEv e l).length = l.length + 1 := by
  induction l with
  | nil => rfl
  | cons y l ih => unfold insertEv; split <;> simp [ih]

/-- The messages with a given stamp. -/
def at' (t : Int) (l : List Ev) : List Ev := l.filter (fun x => decide (x.stamp = t))

theorem at_append (t : Int) (a b : List Ev) : at' t (a ++ b) = at' t a ++ at' t b := by simp [at']

theorem at_insert (t : Int) (e : Ev) (l : List Ev) (hl : TimeSorted l) : at' t (insertEv e l) = at' t (l ++ [e]) := by
  obtain ⟨a, b, h1, h2, h3, h4⟩ := insertEv_spec e l hl
  rw [h2, h1]
  by_cases he : e.stamp = t
  · have hb : at' t b = [] := by
      unfold at'
      rw [List.filter_eq_nil_iff]
      intro x hx
      have := h4 x hx
      simp; omega
    have : a ++ e :: b = a ++ [e] ++ b := by simp
    rw [this]
    simp only [at_append, hb, List.append_nil]
  · have he' : at' t [e] = [] := by simp [at', he]
    have : a ++ e :: b = a ++ [e] ++ b := by simp
    rw [this]
    simp only [at_append, he', List.append_nil]

theorem perm_of_at {a b : List Ev} (h : ∀ t, at' t a = at' t b) : a.Perm b := by
  rw [List.perm_iff_count]
  intro x
  have key : ∀ l : List Ev, l.count x = (at' x.stamp l).count x := by
    intro l
    unfold at'
    rw [List.count_filter]
    simp
  rw [key a, key b, h]

end MF
