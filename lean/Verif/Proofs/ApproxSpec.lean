import Verif.Spec.Approx
import Verif.Proofs.Epsilon
/-
Lemmas about the specification of approximate-time matching.
-/
namespace MF.ApproxSpec
open MF.Epsilon (total total_le)

variable {n : Nat}

theorem fronts_some {d : Fin n → List Ev} (h : ∀ i, d i ≠ []) : fronts d = some (fun i => (d i).headD default) := if_pos h

theorem fronts_none {d : Fin n → List Ev} (h : ∃ i, d i = []) : fronts d = none := by
  obtain ⟨i, hi⟩ := h
  exact if_neg (fun h => h i hi)

theorem exists_min [NeZero n] (g : Fin n → Int) : ∃ i, ∀ j, g i ≤ g j := by
  have : ∀ k, k ≤ n → 0 < k → ∃ i : Fin n, ∀ j : Fin n, j.val < k → g i ≤ g j := by
    intro k
    induction k with
    | zero => intro _ h; omega
    | succ k ih =>
      intro hk _
      by_cases h0 : k = 0
      · subst h0
        refine ⟨⟨0, by omega⟩, ?_⟩
        intro j hj
        have : j = ⟨0, by omega⟩ := Fin.ext (by show j.val = 0; omega)
        rw [this]; exact Int.le_refl _
      · obtain ⟨i, hi⟩ := ih (by omega) (by omega)
        by_cases hc : g i ≤ g ⟨k, by omega⟩
        · refine ⟨i, fun j hj => ?_⟩
          by_cases hjk : j.val = k
          · have : j = ⟨k, by omega⟩ := Fin.ext hjk
            rw [this]; exact hc
          · exact hi j (by omega)
        · refine ⟨⟨k, by omega⟩, fun j hj => ?_⟩
          by_cases hjk : j.val = k
          · have : j = ⟨k, by omega⟩ := Fin.ext hjk
            rw [this]; exact Int.le_refl _
          · have := hi j (by omega); omega
  obtain ⟨i, hi⟩ := this n (Nat.le_refl _) (Nat.pos_of_ne_zero (NeZero.ne n))
  exact ⟨i, fun j => hi j j.isLt⟩

theorem find_first (l : List (Fin n)) (q : Fin n → Bool) (hl : l.Pairwise (· < ·)) (hex : ∃ i ∈ l, q i = true) :
    ∃ i, l.find? q = some i ∧ q i = true ∧ ∀ j ∈ l, j < i → q j = false := by
  induction l with
  | nil => obtain ⟨i, hi, _⟩ := hex; simp at hi
  | cons a l ih =>
    have hl' := List.pairwise_cons.1 hl
    cases hq : q a with
    | true =>
      refine ⟨a, by simp [hq], hq, ?_⟩
      intro j hj hja
      rcases List.mem_cons.1 hj with h | h
      · subst h; exact absurd hja (by simp)
      · exact absurd (Fin.lt_trans hja (hl'.1 j h)) (by simp)
    | false =>
      obtain ⟨i, hi, hqi⟩ := hex
      rcases List.mem_cons.1 hi with h | h
      · subst h; rw [hq] at hqi; cases hqi
      · obtain ⟨k, h1, h2, h3⟩ := ih hl'.2 ⟨i, h, hqi⟩
        refine ⟨k, by simp [hq, h1], h2, ?_⟩
        intro j hj hjk
        rcases List.mem_cons.1 hj with h | h
        · subst h; exact hq
        · exact h3 j h hjk

theorem finRange_sorted (n : Nat) : (List.finRange n).Pairwise (· < ·) := by
  rw [List.pairwise_iff_getElem]
  intro i j hi hj hij
  simp only [List.getElem_finRange]
  exact hij

theorem oldest_spec [NeZero n] (t : Fin n → Ev) :
    (∀ j, (t (oldest t)).stamp ≤ (t j).stamp) ∧ ∀ j, j < oldest t → (t (oldest t)).stamp < (t j).stamp := by
  obtain ⟨i0, h0⟩ := exists_min (fun i => (t i).stamp)
  obtain ⟨i, h1, h2, h3⟩ := find_first (List.finRange n) (fun i => decide (∀ j, (t i).stamp ≤ (t j).stamp)) (finRange_sorted n)
    ⟨i0, List.mem_finRange _, by simpa using h0⟩
  have : oldest t = i := by unfold oldest; rw [h1]; rfl
  rw [this]
  simp only [decide_eq_true_eq] at h2
  refine ⟨h2, fun j hj => ?_⟩
  have h4 := h3 j (List.mem_finRange _) hj
  simp only [decide_eq_false_iff_not] at h4
  apply Classical.byContradiction
  intro hc
  apply h4
  intro k
  have := h2 k
  omega

theorem find_first_rev (l : List (Fin n)) (q : Fin n → Bool) (hl : l.Pairwise (fun a b => b < a)) (hex : ∃ i ∈ l, q i = true) :
    ∃ i, l.find? q = some i ∧ q i = true ∧ ∀ j ∈ l, i < j → q j = false := by
  induction l with
  | nil => obtain ⟨i, hi, _⟩ := hex; simp at hi
  | cons a l ih =>
    have hl' := List.pairwise_cons.1 hl
    cases hq : q a with
    | true =>
      refine ⟨a, by simp [hq], hq, ?_⟩
      intro j hj hja
      rcases List.mem_cons.1 hj with h | h
      · subst h; exact absurd hja (by simp)
      · exact absurd (Fin.lt_trans hja (hl'.1 j h)) (by simp)
    | false =>
      obtain ⟨i, hi, hqi⟩ := hex
      rcases List.mem_cons.1 hi with h | h
      · subst h; rw [hq] at hqi; cases hqi
      · obtain ⟨k, h1, h2, h3⟩ := ih hl'.2 ⟨i, h, hqi⟩
        refine ⟨k, by simp [hq, h1], h2, ?_⟩
        intro j hj hjk
        rcases List.mem_cons.1 hj with h | h
        · subst h; exact hq
        · exact h3 j h hjk

theorem newest_spec [NeZero n] (t : Fin n → Ev) :
    (∀ j, (t j).stamp ≤ (t (newest t)).stamp) ∧ ∀ j, newest t < j → (t j).stamp < (t (newest t)).stamp := by
  obtain ⟨i0, h0⟩ := exists_min (fun i => - (t i).stamp)
  obtain ⟨i, h1, h2, h3⟩ := find_first_rev (List.finRange n).reverse (fun i => decide (∀ j, (t j).stamp ≤ (t i).stamp))
    (by rw [List.pairwise_reverse]; exact finRange_sorted n)
    ⟨i0, by simp, by simp only [decide_eq_true_eq]; intro j; have := h0 j; omega⟩
  have : newest t = i := by unfold newest; rw [h1]; rfl
  rw [this]
  simp only [decide_eq_true_eq] at h2
  refine ⟨h2, fun j hj => ?_⟩
  have h4 := h3 j (by simp) hj
  simp only [decide_eq_false_iff_not] at h4
  apply Classical.byContradiction
  intro hc
  apply h4
  intro k
  have := h2 k
  omega

theorem startOf_le [NeZero n] (t : Fin n → Ev) (i : Fin n) : startOf t ≤ (t i).stamp := (oldest_spec t).1 i

theorem le_endOf [NeZero n] (t : Fin n → Ev) (i : Fin n) : (t i).stamp ≤ endOf t := (newest_spec t).1 i

theorem size_pop {d : Fin n → List Ev} {m : Fin n} (h : d m ≠ []) : size (pop d m) < size d := by
  unfold size pop
  apply MF.Epsilon.sum_map_lt
  · intro i _
    by_cases hi : i = m
    · subst hi; simp
    · rw [upd_ne _ _ hi]; exact Nat.le_refl _
  · refine ⟨m, List.mem_finRange m, ?_⟩
    rw [upd_same]
    cases hd : d m with
    | nil => exact absurd hd h
    | cons e tl => simp

theorem size_le {v w : Fin n → List Ev} (h : ∀ i, (v i).length ≤ (w i).length) : size v ≤ size w := total_le v w h

theorem fronts_ne {d : Fin n → List Ev} {t : Fin n → Ev} (h : fronts d = some t) : ∀ i, d i = t i :: (d i).tail := by
  unfold fronts at h
  split at h
  · rename_i hne
    cases h
    intro i
    cases hd : d i with
    | nil => exact absurd hd (hne i)
    | cons e tl => show e :: tl = (d i).headD default :: tl; rw [hd]; rfl
  · cases h

theorem searchN_fuel [NeZero n] (closed : Bool) (f : Int → Int) (p : Fin n) : ∀ (k k' : Nat) (best : Fin n → Ev)
    (after d : Fin n → List Ev), size d < k → size d < k' →
    searchN closed f p k best after d = searchN closed f p k' best after d := by
  intro k
  induction k with
  | zero => intro k' best after d h; omega
  | succ k ih =>
    intro k' best after d h h'
    cases k' with
    | zero => omega
    | succ k' =>
      unfold searchN
      cases hf : fronts d with
      | none => rfl
      | some t =>
        simp only
        split
        · rfl
        · have hne : d (oldest t) ≠ [] := by rw [fronts_ne hf (oldest t)]; simp
          have := size_pop hne
          exact ih k' _ _ _ (by omega) (by omega)

/-- One step of the search. -/
theorem search_some [NeZero n] {closed : Bool} {f : Int → Int} {p : Fin n} {best : Fin n → Ev} {after d : Fin n → List Ev}
    {t : Fin n → Ev} (h : fronts d = some t) :
    search closed f p best after d =
      if oldest t = p then
        some (if better f t best then t else best, if better f t best then tails d else after)
      else search closed f p (if better f t best then t else best) (if better f t best then tails d else after)
        (pop d (oldest t)) := by
  unfold search
  rw [searchN, h]
  simp only
  have hne : d (oldest t) ≠ [] := by rw [fronts_ne h (oldest t)]; simp
  have := size_pop hne
  rw [searchN_fuel closed f p (size d) (size (pop d (oldest t)) + 1) _ _ _ (by omega) (by omega)]

theorem search_none [NeZero n] {closed : Bool} {f : Int → Int} {p : Fin n} {best : Fin n → Ev} {after d : Fin n → List Ev}
    (h : fronts d = none) :
    search closed f p best after d = if closed then some (best, after) else none := by
  unfold search
  rw [searchN, h]

theorem nextN_fuel [NeZero n] (closed : Bool) (f : Int → Int) (M : Int) : ∀ (k k' : Nat) (d : Fin n → List Ev),
    size d < k → size d < k' → nextN closed f M k d = nextN closed f M k' d := by
  intro k
  induction k with
  | zero => intro k' d h; omega
  | succ k ih =>
    intro k' d h h'
    cases k' with
    | zero => omega
    | succ k' =>
      unfold nextN
      cases hf : fronts d with
      | none => rfl
      | some t =>
        simp only
        split
        · have hne : d (oldest t) ≠ [] := by rw [fronts_ne hf (oldest t)]; simp
          have := size_pop hne
          exact ih k' _ (by omega) (by omega)
        · rfl

theorem next_none [NeZero n] {closed : Bool} {f : Int → Int} {M : Int} {d : Fin n → List Ev} (h : fronts d = none) :
    next closed f M d = none := by
  unfold next; rw [nextN, h]

theorem next_some [NeZero n] {closed : Bool} {f : Int → Int} {M : Int} {d : Fin n → List Ev} {t : Fin n → Ev}
    (h : fronts d = some t) :
    next closed f M d =
      if endOf t - startOf t > M then next closed f M (pop d (oldest t))
      else if oldest t = newest t then some (t, tails d)
      else search closed f (newest t) t (tails d) (pop d (oldest t)) := by
  unfold next
  rw [nextN, h]
  simp only
  have hne : d (oldest t) ≠ [] := by rw [fronts_ne h (oldest t)]; simp
  have := size_pop hne
  rw [nextN_fuel closed f M (size d) (size (pop d (oldest t)) + 1) _ (by omega) (by omega)]

/-- `after` is what follows the messages of `best` in the streams `d0`. -/
def Follows (d0 : Fin n → List Ev) (best : Fin n → Ev) (after : Fin n → List Ev) : Prop :=
  ∀ i, ∃ a, d0 i = a ++ best i :: after i

theorem follows_fronts {d : Fin n → List Ev} {t : Fin n → Ev} (h : fronts d = some t) : Follows d t (tails d) :=
  fun i => ⟨[], fronts_ne h i⟩

theorem pop_suffix (d : Fin n → List Ev) (m i : Fin n) : ∃ a, d i = a ++ pop d m i := by
  unfold pop
  by_cases hi : i = m
  · subst hi
    refine ⟨(d i).take 1, ?_⟩
    rw [upd_same]
    cases d i <;> simp
  · exact ⟨[], by rw [upd_ne _ _ hi]; rfl⟩

/-- Induction over the size of the streams. -/
theorem size_induction {P : (Fin n → List Ev) → Prop} (h : ∀ d, (∀ d', size d' < size d → P d') → P d) : ∀ d, P d := by
  intro d
  generalize hk : size d = k
  induction k using Nat.strongRecOn generalizing d with
  | ind k ih =>
    apply h
    intro d' hd'
    exact ih (size d') (by omega) d' rfl

theorem search_follows [NeZero n] {closed : Bool} {f : Int → Int} {p : Fin n} (d0 : Fin n → List Ev) :
    ∀ (d : Fin n → List Ev) (best : Fin n → Ev) (after : Fin n → List Ev) (r : (Fin n → Ev) × (Fin n → List Ev)),
    (∀ i, ∃ a, d0 i = a ++ d i) → Follows d0 best after → search closed f p best after d = some r → Follows d0 r.1 r.2 := by
  apply size_induction (P := fun d => ∀ (best : Fin n → Ev) (after : Fin n → List Ev) (r : (Fin n → Ev) × (Fin n → List Ev)),
    (∀ i, ∃ a, d0 i = a ++ d i) → Follows d0 best after → search closed f p best after d = some r → Follows d0 r.1 r.2)
  intro d ih best after r hsuf hfol hs
  cases hf : fronts d with
  | none =>
    rw [search_none hf] at hs
    cases closed with
    | true => simp at hs; subst hs; exact hfol
    | false => simp at hs
  | some t =>
    rw [search_some hf] at hs
    have hfol' : Follows d0 (if better f t best then t else best) (if better f t best then tails d else after) := by
      by_cases hb : better f t best
      · rw [if_pos hb, if_pos hb]
        intro i
        obtain ⟨a, ha⟩ := hsuf i
        obtain ⟨b, hb⟩ := follows_fronts hf i
        exact ⟨a ++ b, by rw [ha, hb, List.append_assoc]⟩
      · rw [if_neg hb, if_neg hb]; exact hfol
    by_cases ho : oldest t = p
    · rw [if_pos ho] at hs
      cases hs
      exact hfol'
    · rw [if_neg ho] at hs
      have hne : d (oldest t) ≠ [] := by rw [fronts_ne hf (oldest t)]; simp
      refine ih _ (size_pop hne) _ _ r ?_ hfol' hs
      intro i
      obtain ⟨a, ha⟩ := hsuf i
      obtain ⟨b, hb⟩ := pop_suffix d (oldest t) i
      exact ⟨a ++ b, by rw [ha, List.append_assoc, ← hb]⟩

theorem next_follows [NeZero n] {closed : Bool} {f : Int → Int} {M : Int} :
    ∀ (d : Fin n → List Ev) (r : (Fin n → Ev) × (Fin n → List Ev)), next closed f M d = some r → Follows d r.1 r.2 := by
  apply size_induction (P := fun d => ∀ r, next closed f M d = some r → Follows d r.1 r.2)
  intro d ih r hs
  cases hf : fronts d with
  | none => rw [next_none hf] at hs; cases hs
  | some t =>
    rw [next_some hf] at hs
    have hne : d (oldest t) ≠ [] := by rw [fronts_ne hf (oldest t)]; simp
    split at hs
    · have := ih _ (size_pop hne) r hs
      intro i
      obtain ⟨a, ha⟩ := this i
      obtain ⟨b, hb⟩ := pop_suffix d (oldest t) i
      exact ⟨b ++ a, by rw [hb, ha, List.append_assoc]⟩
    · split at hs
      · cases hs; exact follows_fronts hf
      · exact search_follows d _ _ _ r (fun i => pop_suffix d _ i) (follows_fronts hf) hs

theorem next_size [NeZero n] {closed : Bool} {f : Int → Int} {M : Int} {d : Fin n → List Ev}
    {r : (Fin n → Ev) × (Fin n → List Ev)} (h : next closed f M d = some r) : size r.2 < size d := by
  have hf := next_follows d r h
  unfold size
  apply MF.Epsilon.sum_map_lt
  · intro i _
    obtain ⟨a, ha⟩ := hf i
    rw [ha]; simp; omega
  · refine ⟨0, List.mem_finRange _, ?_⟩
    obtain ⟨a, ha⟩ := hf 0
    rw [ha]; simp; omega

theorem setsN_fuel [NeZero n] (closed : Bool) (f : Int → Int) (M : Int) : ∀ (k k' : Nat) (d : Fin n → List Ev),
    size d < k → size d < k' → setsN closed f M k d = setsN closed f M k' d := by
  intro k
  induction k with
  | zero => intro k' d h; omega
  | succ k ih =>
    intro k' d h h'
    cases k' with
    | zero => omega
    | succ k' =>
      unfold setsN
      cases hf : next closed f M d with
      | none => rfl
      | some r =>
        have := next_size hf
        simp only
        rw [ih k' r.2 (by omega) (by omega)]

theorem sets_eq [NeZero n] (closed : Bool) (f : Int → Int) (M : Int) (d : Fin n → List Ev) :
    sets closed f M d = match next closed f M d with | none => [] | some (t, d') => t :: sets closed f M d' := by
  unfold sets
  rw [setsN]
  cases hf : next closed f M d with
  | none => rfl
  | some r =>
    have := next_size hf
    simp only
    rw [setsN_fuel closed f M (size d) (size r.2 + 1) r.2 (by omega) (by omega)]

theorem sets_congr [NeZero n] {closed : Bool} {f : Int → Int} {M : Int} {d d' : Fin n → List Ev}
    (h : next closed f M d = next closed f M d') : sets closed f M d = sets closed f M d' := by
  rw [sets_eq, h, ← sets_eq]

/-! ### A candidate that cannot be beaten is the result -/

theorem search_unbeatable [NeZero n] {closed : Bool} {f : Int → Int} {p : Fin n} {best : Fin n → Ev} {after : Fin n → List Ev}
    {P : Int} : ∀ d : Fin n → List Ev, (∃ x tl, d p = x :: tl ∧ x.stamp = P) →
    (∀ T : Fin n → Ev, (∀ i, T i ∈ d i) → (T p).stamp = P → ¬ better f T best) →
    search closed f p best after d = some (best, after) ∨
      (closed = false ∧ search closed f p best after d = none) := by
  apply size_induction (P := fun d => (∃ x tl, d p = x :: tl ∧ x.stamp = P) →
    (∀ T : Fin n → Ev, (∀ i, T i ∈ d i) → (T p).stamp = P → ¬ better f T best) →
    search closed f p best after d = some (best, after) ∨ (closed = false ∧ search closed f p best after d = none))
  intro d ih ⟨x, tl, hx, hxP⟩ hT
  cases hf : fronts d with
  | none =>
    rw [search_none hf]
    cases closed with
    | true => left; rfl
    | false => right; exact ⟨rfl, rfl⟩
  | some t =>
    have hfr := fronts_ne hf
    have htp : t p = x := by have := hfr p; rw [hx] at this; exact (List.cons.inj this).1.symm
    have hnb : ¬ better f t best := by
      apply hT t
      · intro i; rw [hfr i]; simp
      · rw [htp]; exact hxP
    rw [search_some hf, if_neg hnb, if_neg hnb]
    by_cases ho : oldest t = p
    · rw [if_pos ho]; left; rfl
    · rw [if_neg ho]
      have hne : d (oldest t) ≠ [] := by rw [hfr (oldest t)]; simp
      apply ih _ (size_pop hne)
      · refine ⟨x, tl, ?_, hxP⟩
        unfold pop; rw [upd_ne _ _ (Ne.symm ho)]; exact hx
      · intro T hTm hTp
        apply hT T _ hTp
        intro i
        obtain ⟨b, hb⟩ := pop_suffix d (oldest t) i
        rw [hb]; exact List.mem_append_right _ (hTm i)

/-! ### Optimality -/

theorem sorted_pop {d : Fin n → List Ev} {m : Fin n} (h : ∀ i, TimeSorted (d i)) (i : Fin n) : TimeSorted (pop d m i) := by
  obtain ⟨b, hb⟩ := pop_suffix d m i
  have := h i
  rw [hb] at this
  exact (List.pairwise_append.1 this).2.1

theorem front_le {d : Fin n → List Ev} {t : Fin n → Ev} (hf : fronts d = some t) (hs : ∀ i, TimeSorted (d i)) {i : Fin n} {x : Ev}
    (hx : x ∈ d i) : (t i).stamp ≤ x.stamp := by
  have h1 := fronts_ne hf i
  have h2 := hs i
  rw [h1] at h2 hx
  rcases List.mem_cons.1 hx with hx | hx
  · rw [hx]; exact Int.le_refl _
  · exact (List.pairwise_cons.1 h2).1 x hx

/-- The comparison `better` is exact for the age penalty `num / den - 1`. -/
def Exact (f : Int → Int) (num den : Int) : Prop := ∀ x y, 0 ≤ x → (f x < y ↔ num * x < den * y)

theorem better_iff [NeZero n] {f : Int → Int} {num den : Int} (hf : Exact f num den) {t c : Fin n → Ev} (h : endOf c ≤ endOf t) :
    better f t c ↔ cost num den t < cost num den c := by
  unfold better cost
  rw [hf _ _ (by omega)]
  rw [Int.mul_sub, Int.mul_sub]
  omega

theorem cost_mono [NeZero n] {num den : Int} (hn : 0 ≤ num) (hd : 0 ≤ den) {t c : Fin n → Ev} (he : endOf c ≤ endOf t)
    (hs : startOf t ≤ startOf c) : cost num den c ≤ cost num den t := by
  unfold cost
  have := Int.mul_le_mul_of_nonneg_left he hn
  have := Int.mul_le_mul_of_nonneg_left hs hd
  omega

theorem search_optimal [NeZero n] {closed : Bool} {f : Int → Int} {p : Fin n} {num den P : Int} (hf : Exact f num den)
    (hn : 0 ≤ num) (hd : 0 ≤ den) : ∀ (d : Fin n → List Ev) (best : Fin n → Ev) (after : Fin n → List Ev)
    (r : (Fin n → Ev) × (Fin n → List Ev)),
    (∀ i, TimeSorted (d i)) → (∃ x tl, d p = x :: tl ∧ x.stamp = P) → (best p).stamp = P →
    (∀ i, ∀ x ∈ d i, (best i).stamp ≤ x.stamp) →
    search closed f p best after d = some r →
    cost num den r.1 ≤ cost num den best ∧ (r.1 p).stamp = P ∧
    ∀ T : Fin n → Ev, (∀ i, T i ∈ d i) → (T p).stamp = P → cost num den r.1 ≤ cost num den T := by
  apply size_induction (P := fun d => ∀ (best : Fin n → Ev) (after : Fin n → List Ev)
    (r : (Fin n → Ev) × (Fin n → List Ev)),
    (∀ i, TimeSorted (d i)) → (∃ x tl, d p = x :: tl ∧ x.stamp = P) → (best p).stamp = P →
    (∀ i, ∀ x ∈ d i, (best i).stamp ≤ x.stamp) →
    search closed f p best after d = some r →
    cost num den r.1 ≤ cost num den best ∧ (r.1 p).stamp = P ∧
    ∀ T : Fin n → Ev, (∀ i, T i ∈ d i) → (T p).stamp = P → cost num den r.1 ≤ cost num den T)
  intro d ih best after r hs ⟨x, tl, hx, hxP⟩ hbp hble hr
  cases hfr : fronts d with
  | none =>
    rw [search_none hfr] at hr
    cases closed with
    | false => simp at hr
    | true =>
      simp at hr; subst hr
      refine ⟨Int.le_refl _, hbp, ?_⟩
      intro T hT
      exfalso
      have : ∀ i, d i ≠ [] := by intro i h0; have := hT i; rw [h0] at this; simp at this
      rw [fronts_some this] at hfr; cases hfr
  | some t =>
    have hcons := fronts_ne hfr
    have htp : (t p).stamp = P := by
      have := hcons p; rw [hx] at this; rw [← (List.cons.inj this).1]; exact hxP
    have htm : ∀ i, t i ∈ d i := by intro i; rw [hcons i]; simp
    have hend : endOf best ≤ endOf t := by
      have h1 := hble (newest best) (t (newest best)) (htm _)
      have h2 := le_endOf t (newest best)
      unfold endOf at *; omega
    -- the better of the two
    have hbest' : ∃ b, b = (if better f t best then t else best) ∧ cost num den b ≤ cost num den best ∧
        cost num den b ≤ cost num den t ∧ (b p).stamp = P ∧ ∀ i, ∀ x ∈ pop d (oldest t) i, (b i).stamp ≤ x.stamp := by
      refine ⟨_, rfl, ?_⟩
      have hsub : ∀ i, ∀ x ∈ pop d (oldest t) i, x ∈ d i := by
        intro i x hx
        obtain ⟨b, hb⟩ := pop_suffix d (oldest t) i
        rw [hb]; exact List.mem_append_right _ hx
      by_cases hb : better f t best
      · rw [if_pos hb]
        have := (better_iff hf hend).1 hb
        exact ⟨by omega, Int.le_refl _, htp, fun i x hx => front_le hfr hs (hsub i x hx)⟩
      · rw [if_neg hb]
        have : ¬ cost num den t < cost num den best := fun h => hb ((better_iff hf hend).2 h)
        exact ⟨Int.le_refl _, by omega, hbp, fun i x hx => hble i x (hsub i x hx)⟩
    obtain ⟨b, hb0, hb1, hb2, hb3, hb4⟩ := hbest'
    rw [search_some hfr, ← hb0] at hr
    have hTend : ∀ T : Fin n → Ev, (∀ i, T i ∈ d i) → endOf t ≤ endOf T := by
      intro T hT
      have h1 := front_le hfr hs (hT (newest t))
      have h2 := le_endOf T (newest t)
      unfold endOf at *; omega
    by_cases ho : oldest t = p
    · rw [if_pos ho] at hr
      cases hr
      refine ⟨hb1, hb3, ?_⟩
      intro T hT hTp
      have h1 := cost_mono (t := T) (c := t) hn hd (hTend T hT) (by
        have h2 := startOf_le T p
        have : startOf t = P := by unfold startOf; rw [ho]; exact htp
        omega)
      simp only
      omega
    · rw [if_neg ho] at hr
      have hne : d (oldest t) ≠ [] := by rw [hcons (oldest t)]; simp
      obtain ⟨g1, g2, g3⟩ := ih _ (size_pop hne) b _ r (fun i => sorted_pop hs i)
        ⟨x, tl, by unfold pop; rw [upd_ne _ _ (Ne.symm ho)]; exact hx, hxP⟩ hb3 hb4 hr
      refine ⟨by omega, g2, ?_⟩
      intro T hT hTp
      have hTm := hT (oldest t)
      rw [hcons (oldest t)] at hTm
      rcases List.mem_cons.1 hTm with hTm | hTm
      · have h1 := cost_mono (t := T) (c := t) hn hd (hTend T hT) (by
          have h2 := startOf_le T (oldest t)
          rw [hTm] at h2
          exact h2)
        omega
      · apply g3 T _ hTp
        intro i
        unfold pop
        by_cases hi : i = oldest t
        · rw [hi, upd_same]; exact hTm
        · rw [upd_ne _ _ hi]; exact hT i

theorem next_optimal [NeZero n] {closed : Bool} {f : Int → Int} {M num den : Int} (hf : Exact f num den)
    (hn : 0 ≤ num) (hd : 0 ≤ den) : ∀ (d : Fin n → List Ev) (r : (Fin n → Ev) × (Fin n → List Ev)),
    (∀ i, TimeSorted (d i)) → next closed f M d = some r →
    ∃ p, (∀ b, (∀ i, ∀ x ∈ d i, b ≤ x.stamp) → cost num den r.1 ≤ num * (r.1 p).stamp - den * b) ∧
      ∀ T : Fin n → Ev, (∀ i, T i ∈ d i) → T p = r.1 p → cost num den r.1 ≤ cost num den T := by
  apply size_induction (P := fun d => ∀ (r : (Fin n → Ev) × (Fin n → List Ev)),
    (∀ i, TimeSorted (d i)) → next closed f M d = some r →
    ∃ p, (∀ b, (∀ i, ∀ x ∈ d i, b ≤ x.stamp) → cost num den r.1 ≤ num * (r.1 p).stamp - den * b) ∧
      ∀ T : Fin n → Ev, (∀ i, T i ∈ d i) → T p = r.1 p → cost num den r.1 ≤ cost num den T)
  intro d ih r hs hr
  cases hfr : fronts d with
  | none => rw [next_none hfr] at hr; cases hr
  | some t =>
    rw [next_some hfr] at hr
    have hcons := fronts_ne hfr
    have htm : ∀ i, t i ∈ d i := by intro i; rw [hcons i]; simp
    have hne : d (oldest t) ≠ [] := by rw [hcons (oldest t)]; simp
    have hsub : ∀ i, ∀ x ∈ pop d (oldest t) i, x ∈ d i := by
      intro i x hx
      obtain ⟨b, hb⟩ := pop_suffix d (oldest t) i
      rw [hb]; exact List.mem_append_right _ hx
    have hpopT : ∀ T : Fin n → Ev, (∀ i, T i ∈ d i) → T (oldest t) = t (oldest t) ∨ ∀ i, T i ∈ pop d (oldest t) i := by
      intro T hT
      have hTm := hT (oldest t)
      rw [hcons (oldest t)] at hTm
      rcases List.mem_cons.1 hTm with hTm | hTm
      · left; exact hTm
      · right
        intro i
        unfold pop
        by_cases hi : i = oldest t
        · rw [hi, upd_same]; exact hTm
        · rw [upd_ne _ _ hi]; exact hT i
    have hTend : ∀ T : Fin n → Ev, (∀ i, T i ∈ d i) → endOf t ≤ endOf T := by
      intro T hT
      have h1 := front_le hfr hs (hT (newest t))
      have h2 := le_endOf T (newest t)
      unfold endOf at *; omega
    split at hr
    · -- the oldest front is passed over
      obtain ⟨p, g1, g2⟩ := ih _ (size_pop hne) r (fun i => sorted_pop hs i) hr
      refine ⟨p, fun b hb => g1 b (fun i x hx => hb i x (hsub i x hx)), ?_⟩
      intro T hT hTp
      rcases hpopT T hT with h | h
      · have h1 := g1 (startOf t) (by
          intro i x hx
          have h2 := front_le hfr hs (hsub i x hx)
          have h3 := startOf_le t i
          omega)
        have h2 : startOf T ≤ startOf t := by
          have := startOf_le T (oldest t); rw [h] at this; exact this
        have h3 : (r.1 p).stamp ≤ endOf T := by rw [← hTp]; exact le_endOf T p
        have h4 := Int.mul_le_mul_of_nonneg_left h2 hd
        have h5 := Int.mul_le_mul_of_nonneg_left h3 hn
        have h6 : cost num den T = num * endOf T - den * startOf T := rfl
        omega
      · exact g2 T h hTp
    · split at hr
      · rename_i ho
        cases hr
        refine ⟨newest t, ?_, ?_⟩
        · intro b hb
          have h1 : b ≤ startOf t := hb _ _ (htm _)
          have h2 := Int.mul_le_mul_of_nonneg_left h1 hd
          have h3 : cost num den t = num * (t (newest t)).stamp - den * startOf t := rfl
          simp only
          omega
        · intro T hT hTp
          apply cost_mono hn hd (hTend T hT)
          have h1 := startOf_le T (newest t)
          rw [hTp, ← ho] at h1
          exact h1
      · rename_i ho
        have hpp : pop d (oldest t) (newest t) = t (newest t) :: (d (newest t)).tail := by
          unfold pop; rw [upd_ne _ _ (Ne.symm ho)]; exact hcons _
        obtain ⟨g1, g2, g3⟩ := search_optimal (P := (t (newest t)).stamp) hf hn hd (pop d (oldest t)) t (tails d) r
          (fun i => sorted_pop hs i) ⟨_, _, hpp, rfl⟩ rfl (fun i x hx => front_le hfr hs (hsub i x hx)) hr
        refine ⟨newest t, ?_, ?_⟩
        · intro b hb
          have h1 : b ≤ startOf t := hb _ _ (htm _)
          have h2 := Int.mul_le_mul_of_nonneg_left h1 hd
          have h3 : cost num den t = num * (t (newest t)).stamp - den * startOf t := rfl
          rw [g2]
          omega
        · intro T hT hTp
          rcases hpopT T hT with h | h
          · have h1 : cost num den t ≤ cost num den T := by
              apply cost_mono hn hd (hTend T hT)
              have := startOf_le T (oldest t); rw [h] at this; exact this
            omega
          · exact g3 T h (by rw [hTp]; exact g2)

/-- Every set of the canonical sequence is the next set of what remains after the sets before it. -/
theorem sets_split [NeZero n] {closed : Bool} {f : Int → Int} {M : Int} : ∀ (pre : List (Fin n → Ev)) (d : Fin n → List Ev)
    (C : Fin n → Ev) (post : List (Fin n → Ev)), sets closed f M d = pre ++ C :: post →
    ∃ used rest : Fin n → List Ev, (∀ i, d i = used i ++ rest i) ∧ (pre = [] → ∀ i, used i = []) ∧
      (∀ t, pre.getLast? = some t → ∀ i, (used i).getLast? = some (t i)) ∧
      ∃ d', next closed f M rest = some (C, d') := by
  intro pre
  induction pre with
  | nil =>
    intro d C post h
    refine ⟨fun _ => [], d, fun _ => rfl, fun _ _ => rfl, by simp, ?_⟩
    rw [sets_eq] at h
    cases hn : next closed f M d with
    | none => rw [hn] at h; simp at h
    | some r =>
      rw [hn] at h
      simp only [List.nil_append] at h
      exact ⟨r.2, by rw [← (List.cons.inj h).1]⟩
  | cons t pre ih =>
    intro d C post h
    rw [sets_eq] at h
    cases hn : next closed f M d with
    | none => rw [hn] at h; simp at h
    | some r =>
      rw [hn] at h
      simp only [List.cons_append] at h
      obtain ⟨h1, h2⟩ := List.cons.inj h
      obtain ⟨used, rest, g1, g2, g3, g4⟩ := ih r.2 C post h2
      have hfol := next_follows d r hn
      refine ⟨fun i => (d i).take ((d i).length - (rest i).length), rest, ?_, by simp, ?_, g4⟩
      · intro i
        obtain ⟨a, ha⟩ := hfol i
        have : d i = (a ++ r.1 i :: used i) ++ rest i := by rw [ha, g1 i]; simp
        show d i = List.take ((d i).length - (rest i).length) (d i) ++ rest i
        rw [this, List.length_append, Nat.add_sub_cancel, List.take_left]
      · intro u hu i
        obtain ⟨a, ha⟩ := hfol i
        have : d i = (a ++ r.1 i :: used i) ++ rest i := by rw [ha, g1 i]; simp
        show (List.take ((d i).length - (rest i).length) (d i)).getLast? = _
        rw [this]
        have htake : List.take (((a ++ r.1 i :: used i) ++ rest i).length - (rest i).length) ((a ++ r.1 i :: used i) ++ rest i) =
            a ++ r.1 i :: used i := by
          rw [List.length_append, Nat.add_sub_cancel, List.take_left]
        rw [htake]
        cases hpre : pre.getLast? with
        | none =>
          rw [List.getLast?_eq_none_iff] at hpre
          rw [hpre] at hu
          simp at hu
          rw [g2 hpre i, ← hu, ← h1]
          simp
        | some v =>
          have : (t :: pre).getLast? = some v := by
            rw [List.getLast?_cons, hpre]; rfl
          rw [this] at hu
          cases hu
          have h3 := g3 u hpre i
          rw [List.getLast?_append, List.getLast?_cons, h3]
          rfl

theorem tdiv_exact {num den : Int} (hn : 0 ≤ num) (hd : 0 < den) : Exact (fun x => (x * num).tdiv den) num den := by
  intro x y hx
  have h0 : 0 ≤ x * num := Int.mul_nonneg hx hn
  simp only
  rw [Int.tdiv_eq_ediv_of_nonneg h0]
  rw [Int.ediv_lt_iff_lt_mul hd]
  rw [Int.mul_comm x num, Int.mul_comm y den]

end MF.ApproxSpec
