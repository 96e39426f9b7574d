import Verif.Proofs.Pairing
/-
Helpers for C110 and C128, place by place: ApproximateEpsilonTime with two inputs stays ahead of every other way to put messages together in order.
-/
namespace MF.Epsilon

theorem fire_within_out {eps : Int} {v : Fin 2 → List Ev} {x y : Ev} {tl tl' : List Ev} (h0 : v 0 = x :: tl) (h1 : v 1 = y :: tl')
    (hlen : (fire eps v).1.length = 1) : ∃ t, (fire eps v).1 = [t] ∧ t 0 = some x ∧ t 1 = some y := by
  unfold fire at hlen ⊢
  by_cases hc : checkAll v eps (getOlder v) = true
  · rw [if_pos hc] at hlen ⊢
    exact ⟨_, rfl, by simp [h0], by simp [h1]⟩
  · rw [if_neg hc] at hlen
    simp at hlen

theorem sublist_drop_first {a : Ev} {A : List Ev} {L : List (Ev × Ev)} {f : Ev × Ev → Ev} (h : (L.map f).Sublist (a :: A))
    (hne : ∀ p ∈ L, f p ≠ a) : (L.map f).Sublist A := by
  cases L with
  | nil => exact List.nil_sublist _
  | cons p L =>
    rw [List.map_cons] at h ⊢
    cases h with
    | cons _ h => exact h
    | cons_cons _ h => exact absurd rfl (hne p (by simp))

theorem steps_ahead {eps : Int} (heps : 0 ≤ eps) {v w : Fin 2 → List Ev} {o} (h : Steps eps v o w) (hw : ∃ i, w i = []) :
    (∀ i, TimeSorted (v i)) → (∀ i, ∀ e ∈ v i, e.stamp ≤ maxTime) →
    ∀ L : List (Ev × Ev), (L.map Prod.fst).Sublist (v 0) → (L.map Prod.snd).Sublist (v 1) →
    (∀ p ∈ L, p.1.stamp - p.2.stamp ≤ eps ∧ p.2.stamp - p.1.stamp ≤ eps) →
    ∀ (k : Nat) (p : Ev × Ev), L[k]? = some p →
      ∃ t a b, o[k]? = some t ∧ t 0 = some a ∧ t 1 = some b ∧ a.stamp ≤ p.1.stamp ∧ b.stamp ≤ p.2.stamp := by
  have hcov : ∀ k : Fin 2, k = 0 ∨ k = 1 := by decide
  induction h with
  | refl v =>
    intro _ _ L h0 h1 _ k p hk
    have hp := List.mem_of_getElem? hk
    obtain ⟨i, hi⟩ := hw
    rcases hcov i with rfl | rfl
    · have := h0.subset (List.mem_map_of_mem hp); rw [hi] at this; cases this
    · have := h1.subset (List.mem_map_of_mem hp); rw [hi] at this; cases this
  | @head v o w hv _ ih =>
    intro hs hmax L h0 h1 hL k p hk
    have ih := ih hw (fun i => (fire_sorted eps v hv hs i).1) (fun i e he => hmax i e ((fire_sorted eps v hv hs i).2 e he))
    obtain ⟨a, A, hA⟩ := List.exists_cons_of_ne_nil (hv 0)
    obtain ⟨b, B, hB⟩ := List.exists_cons_of_ne_nil (hv 1)
    have hsA := hs 0
    have hsB := hs 1
    have hma := hmax 0 a (by rw [hA]; simp)
    have hmb := hmax 1 b (by rw [hB]; simp)
    rw [hA] at hsA h0
    rw [hB] at hsB h1
    have hgeA : ∀ x ∈ a :: A, a.stamp ≤ x.stamp := by
      intro x hx
      rcases List.mem_cons.1 hx with rfl | hx
      · exact Int.le_refl _
      · exact (List.pairwise_cons.1 hsA).1 x hx
    have hgeB : ∀ y ∈ b :: B, b.stamp ≤ y.stamp := by
      intro y hy
      rcases List.mem_cons.1 hy with rfl | hy
      · exact Int.le_refl _
      · exact (List.pairwise_cons.1 hsB).1 y hy
    have hfst : ∀ p ∈ L, a.stamp ≤ p.1.stamp := fun p hp => hgeA _ (h0.subset (List.mem_map_of_mem hp))
    have hsnd : ∀ p ∈ L, b.stamp ≤ p.2.stamp := fun p hp => hgeB _ (h1.subset (List.mem_map_of_mem hp))
    by_cases hab : a.stamp + eps < b.stamp
    · have hf := fire_too_old heps (i := 0) (j := 1) (by decide) hcov hA hB hab hmb
      rw [hf] at ih ⊢
      simp only [upd_same, upd_ne _ _ (by decide : (1 : Fin 2) ≠ 0), hB] at ih
      exact ih L (sublist_drop_first h0 (fun p hp he => by
        have := hsnd p hp; have := hL p hp; rw [he] at this; omega)) h1 hL k p hk
    · by_cases hba : b.stamp + eps < a.stamp
      · have hf := fire_too_old heps (i := 1) (j := 0) (by decide) (fun k => (hcov k).symm) hB hA hba hma
        rw [hf] at ih ⊢
        simp only [upd_same, upd_ne _ _ (by decide : (0 : Fin 2) ≠ 1), hA] at ih
        exact ih L h0 (sublist_drop_first h1 (fun p hp he => by
          have := hfst p hp; have := hL p hp; rw [he] at this; omega)) hL k p hk
      · obtain ⟨f1, f2, f3⟩ := fire_within hA hB (by omega) (by omega) hma hmb (eps := eps)
        obtain ⟨t, ht, t0, t1⟩ := fire_within_out hA hB f1
        rw [ht]
        rw [f2, f3] at ih
        cases L with
        | nil => simp at hk
        | cons p' L =>
          cases k with
          | zero =>
            simp only [List.getElem?_cons_zero, Option.some.injEq] at hk
            subst hk
            exact ⟨t, a, b, rfl, t0, t1, hfst _ (by simp), hsnd _ (by simp)⟩
          | succ k =>
            rw [List.getElem?_cons_succ] at hk
            have hr := ih L (by simpa using h0.tail) (by simpa using h1.tail) (fun p hp => hL p (by simp [hp])) k p hk
            simpa using hr

end MF.Epsilon
