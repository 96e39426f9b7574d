import Verif.Spec.ApproxChoice
import Verif.Proofs.ApproxSpec
/-
The search of the specification finds the best contiguous set.
-/
namespace MF.ApproxSpec

variable {n : Nat}

theorem search_least [NeZero n] {f : Int → Int} {p : Fin n} {num den P : Int} (hf : Exact f num den)
    (hn : 0 ≤ num) (hd : 0 ≤ den) : ∀ (d : Fin n → List Ev) (best : Fin n → Ev) (after : Fin n → List Ev),
    (∀ i, TimeSorted (d i)) → (∃ x tl, d p = x :: tl ∧ x.stamp = P) → (best p).stamp = P →
    (∀ i, ∀ x ∈ d i, (best i).stamp ≤ x.stamp) →
    ∃ r, search true f p best after d = some r ∧ (r.1 p).stamp = P ∧
    (cost num den r.1 < cost num den best ∨ r.1 = best) ∧
    ∀ T : Fin n → Ev, (∀ i, T i ∈ d i) → (T p).stamp = P →
      cost num den r.1 < cost num den T ∨ (cost num den r.1 = cost num den T ∧ ∀ i, (r.1 i).stamp ≤ (T i).stamp) := by
  apply size_induction (P := fun d => ∀ (best : Fin n → Ev) (after : Fin n → List Ev),
    (∀ i, TimeSorted (d i)) → (∃ x tl, d p = x :: tl ∧ x.stamp = P) → (best p).stamp = P →
    (∀ i, ∀ x ∈ d i, (best i).stamp ≤ x.stamp) →
    ∃ r, search true f p best after d = some r ∧ (r.1 p).stamp = P ∧
    (cost num den r.1 < cost num den best ∨ r.1 = best) ∧
    ∀ T : Fin n → Ev, (∀ i, T i ∈ d i) → (T p).stamp = P →
      cost num den r.1 < cost num den T ∨ (cost num den r.1 = cost num den T ∧ ∀ i, (r.1 i).stamp ≤ (T i).stamp))
  intro d ih best after hs ⟨x, tl, hx, hxP⟩ hbp hble
  cases hfr : fronts d with
  | none =>
    rw [search_none hfr]
    refine ⟨_, rfl, hbp, Or.inr rfl, fun T hT => ?_⟩
    exfalso
    have : ∀ i, d i ≠ [] := by intro i h0; have := hT i; rw [h0] at this; simp at this
    rw [fronts_some this] at hfr; cases hfr
  | some t =>
    have hcons := fronts_ne hfr
    have htp : (t p).stamp = P := by
      have := hcons p; rw [hx] at this; rw [← (List.cons.inj this).1]; exact hxP
    have htm : ∀ i, t i ∈ d i := by intro i; rw [hcons i]; simp
    have hend : endOf best ≤ endOf t := by
      have h1 := hble (newest best) (t (newest best)) (htm _)
      have h2 := le_endOf t (newest best)
      unfold endOf at *; omega
    obtain ⟨b, hb0, hb1, hb2, hb3, hb4⟩ : ∃ b, b = (if better f t best then t else best) ∧
        (cost num den b < cost num den best ∨ b = best) ∧ cost num den b ≤ cost num den t ∧ (b p).stamp = P ∧
        ∀ i, ∀ x ∈ d i, (b i).stamp ≤ x.stamp := by
      refine ⟨_, rfl, ?_⟩
      by_cases hb : better f t best
      · rw [if_pos hb]
        have := (better_iff hf hend).1 hb
        exact ⟨Or.inl this, Int.le_refl _, htp, fun i x hx => front_le hfr hs hx⟩
      · rw [if_neg hb]
        have : ¬ cost num den t < cost num den best := fun h => hb ((better_iff hf hend).2 h)
        exact ⟨Or.inr rfl, by omega, hbp, hble⟩
    rw [search_some hfr, ← hb0]
    have hTend : ∀ T : Fin n → Ev, (∀ i, T i ∈ d i) → endOf t ≤ endOf T := by
      intro T hT
      have h1 := front_le hfr hs (hT (newest t))
      have h2 := le_endOf T (newest t)
      unfold endOf at *; omega
    by_cases ho : oldest t = p
    · rw [if_pos ho]
      refine ⟨_, rfl, hb3, hb1, fun T hT hTp => ?_⟩
      have h1 := cost_mono (t := T) (c := t) hn hd (hTend T hT) (by
        have h2 := startOf_le T p
        have : startOf t = P := by unfold startOf; rw [ho]; exact htp
        omega)
      simp only
      rcases Int.lt_or_eq_of_le (Int.le_trans hb2 h1) with h2 | h2
      · exact Or.inl h2
      · exact Or.inr ⟨h2, fun i => hb4 i _ (hT i)⟩
    · rw [if_neg ho]
      have hne : d (oldest t) ≠ [] := by rw [hcons (oldest t)]; simp
      have hsub : ∀ i, ∀ x ∈ pop d (oldest t) i, x ∈ d i := by
        intro i x hx
        obtain ⟨b, hb⟩ := pop_suffix d (oldest t) i
        rw [hb]; exact List.mem_append_right _ hx
      obtain ⟨r, g0, g1, g2, g3⟩ := ih _ (size_pop hne) b (if better f t best then tails d else after) (fun i => sorted_pop hs i)
        ⟨x, tl, by unfold pop; rw [upd_ne _ _ (Ne.symm ho)]; exact hx, hxP⟩ hb3 (fun i x hx => hb4 i x (hsub i x hx))
      refine ⟨r, g0, g1, ?_, ?_⟩
      · rcases g2 with g2 | g2
        · rcases hb1 with h | h
          · left; omega
          · left; rw [← h]; exact g2
        · rw [g2]; exact hb1
      · intro T hT hTp
        have hTm := hT (oldest t)
        rw [hcons (oldest t)] at hTm
        rcases List.mem_cons.1 hTm with hTm | hTm
        · have h1 := cost_mono (t := T) (c := t) hn hd (hTend T hT) (by
            have h2 := startOf_le T (oldest t)
            rw [hTm] at h2
            exact h2)
          rcases g2 with g2 | g2
          · left; omega
          · rw [g2]
            rcases Int.lt_or_eq_of_le (Int.le_trans hb2 h1) with h2 | h2
            · exact Or.inl h2
            · exact Or.inr ⟨h2, fun i => hb4 i _ (hT i)⟩
        · apply g3 T _ hTp
          intro i
          unfold pop
          by_cases hi : i = oldest t
          · rw [hi, upd_same]; exact hTm
          · rw [upd_ne _ _ hi]; exact hT i

/-- The oldest front message is in no possible set if the fronts are too far apart. -/
theorem possible_pop [NeZero n] {M : Int} {d : Fin n → List Ev} {t : Fin n → Ev} (hfr : fronts d = some t) (hs : ∀ i, TimeSorted (d i))
    (hM : M < endOf t - startOf t) (T : Fin n → Ev) : Possible M d T ↔ Possible M (pop d (oldest t)) T := by
  have hcons := fronts_ne hfr
  constructor
  · rintro ⟨h1, h2⟩
    refine ⟨fun i => ?_, h2⟩
    unfold pop
    by_cases hi : i = oldest t
    · subst hi
      rw [upd_same]
      have := h1 (oldest t)
      rw [hcons (oldest t)] at this
      rcases List.mem_cons.1 this with h | h
      · exfalso
        have h3 := front_le hfr hs (h1 (newest t))
        have h4 := h2 (newest t) (oldest t)
        rw [h] at h4
        unfold endOf startOf at hM
        omega
      · exact h
    · rw [upd_ne _ _ hi]; exact h1 i
  · rintro ⟨h1, h2⟩
    refine ⟨fun i => ?_, h2⟩
    obtain ⟨b, hb⟩ := pop_suffix d (oldest t) i
    rw [hb]; exact List.mem_append_right _ (h1 i)

theorem contiguous_congr {M : Int} {d d' : Fin n → List Ev} (h : ∀ T, Possible M d T ↔ Possible M d' T) (T : Fin n → Ev) :
    Contiguous M d T ↔ Contiguous M d' T := by
  unfold Contiguous
  simp only [h]

theorem best_congr [NeZero n] {M num den : Int} {d d' : Fin n → List Ev} (h : ∀ T, Possible M d T ↔ Possible M d' T) (C : Fin n → Ev) :
    Best M num den d C ↔ Best M num den d' C := by
  unfold Best
  simp only [contiguous_congr h]

/-- The set `c` has the least cost, and the oldest messages, among the sets with the pivot of the fronts `t`: then it is best. -/
theorem best_of_pivot [NeZero n] {M num den : Int} (hd : 0 < den) (hn : den ≤ num) {d : Fin n → List Ev} {t c : Fin n → Ev}
    (hs : ∀ i, StrictlyTimeSorted (d i)) (hfr : fronts d = some t) (hM : endOf t - startOf t ≤ M) (hc : ∀ i, c i ∈ d i)
    (hp : (c (newest t)).stamp = endOf t)
    (hl : ∀ T : Fin n → Ev, (∀ i, T i ∈ d i) → (T (newest t)).stamp = endOf t →
      cost num den c < cost num den T ∨ (cost num den c = cost num den T ∧ ∀ i, (c i).stamp ≤ (T i).stamp)) :
    Best M num den d c := by
  have hs' : ∀ i, TimeSorted (d i) := fun i => (hs i).imp (fun h => Int.le_of_lt h)
  have hcons := fronts_ne hfr
  have htm : ∀ i, t i ∈ d i := by intro i; rw [hcons i]; simp
  have hfit : ∀ T : Fin n → Ev, (∀ i j, (T i).stamp - (T j).stamp ≤ M) ↔ endOf T - startOf T ≤ M := by
    intro T
    refine ⟨fun h => h _ _, fun h i j => ?_⟩
    have := startOf_le T j
    have := le_endOf T i
    omega
  have ht : Possible M d t := ⟨htm, (hfit t).2 hM⟩
  refine ⟨⟨⟨hc, (hfit c).2 ?_⟩, ?_⟩, ?_⟩
  · have h1 : cost num den c ≤ cost num den t := by
      rcases hl t htm rfl with h | h
      · omega
      · omega
    have h2 : endOf t ≤ endOf c := by rw [← hp]; exact le_endOf c _
    unfold cost at h1
    have h3 : 0 ≤ (num - den) * (endOf c - endOf t) := Int.mul_nonneg (by omega) (by omega)
    have h4 : den * (endOf c - startOf c) ≤ den * (endOf t - startOf t) := by
      rw [Int.mul_sub, Int.mul_sub]
      rw [Int.sub_mul, Int.mul_sub, Int.mul_sub] at h3
      omega
    have := Int.le_of_mul_le_mul_left h4 hd
    omega
  · rintro ⟨U, hU, hlt⟩
    have h1 := front_le hfr hs' (hU.1 (newest t))
    have h2 := hlt (newest t)
    rw [hp] at h2
    unfold endOf at h2
    omega
  · intro T hT
    -- `T` takes a front message, so that it spans the pivot
    obtain ⟨i, hi⟩ : ∃ i, (T i).stamp ≤ (t i).stamp := by
      apply Classical.byContradiction
      intro h
      refine hT.2 ⟨t, ht, fun i => ?_⟩
      have : ¬ (T i).stamp ≤ (t i).stamp := fun h' => h ⟨i, h'⟩
      omega
    have h1 : startOf T ≤ endOf t := by
      have := startOf_le T i
      have := le_endOf t i
      omega
    have h2 : endOf t ≤ (T (newest t)).stamp := front_le hfr hs' (hT.1.1 (newest t))
    have hse : ∀ i, startOf T ≤ (upd T (newest t) (t (newest t)) i).stamp ∧ (upd T (newest t) (t (newest t)) i).stamp ≤ (T i).stamp := by
      intro i
      by_cases hi : i = newest t
      · subst hi
        rw [upd_same]
        exact ⟨h1, h2⟩
      · rw [upd_ne _ _ hi]
        exact ⟨startOf_le T i, Int.le_refl _⟩
    have hle : cost num den (upd T (newest t) (t (newest t))) ≤ cost num den T := by
      refine cost_mono (by omega) (by omega) ?_ ?_
      · have := (hse (newest (upd T (newest t) (t (newest t))))).2
        have h3 := le_endOf T (newest (upd T (newest t) (t (newest t))))
        unfold endOf at *; omega
      · exact (hse _).1
    rcases hl (upd T (newest t) (t (newest t))) (fun i => by
        by_cases hi : i = newest t
        · subst hi; rw [upd_same]; exact htm _
        · rw [upd_ne _ _ hi]; exact hT.1.1 i) (by rw [upd_same]; rfl) with h3 | ⟨h3, h4⟩
    · left; omega
    · rcases Int.lt_or_eq_of_le (h3 ▸ hle) with h5 | h5
      · left; exact h5
      · exact Or.inr ⟨h5, fun i => Int.le_trans (h4 i) (hse i).2⟩

/-- **The next set of complete streams is the best one**; if there is none, no set is possible. -/
theorem next_best [NeZero n] {f : Int → Int} {M num den : Int} (hf : Exact f num den) (hd : 0 < den) (hn : den ≤ num) :
    ∀ d : Fin n → List Ev, (∀ i, StrictlyTimeSorted (d i)) →
    (next true f M d = none ∧ ¬ ∃ T, Possible M d T) ∨ ∃ r, next true f M d = some r ∧ Best M num den d r.1 := by
  apply size_induction (P := fun d => (∀ i, StrictlyTimeSorted (d i)) →
    (next true f M d = none ∧ ¬ ∃ T, Possible M d T) ∨ ∃ r, next true f M d = some r ∧ Best M num den d r.1)
  intro d ih hs
  have hs' : ∀ i, TimeSorted (d i) := fun i => (hs i).imp (fun h => Int.le_of_lt h)
  cases hfr : fronts d with
  | none =>
    left
    refine ⟨next_none hfr, ?_⟩
    rintro ⟨T, hT, _⟩
    have : ∀ i, d i ≠ [] := by intro i h0; have := hT i; rw [h0] at this; simp at this
    rw [fronts_some this] at hfr; cases hfr
  | some t =>
    have hcons := fronts_ne hfr
    have htm : ∀ i, t i ∈ d i := by intro i; rw [hcons i]; simp
    have hne : d (oldest t) ≠ [] := by rw [hcons (oldest t)]; simp
    have hsub : ∀ i, ∀ x ∈ pop d (oldest t) i, x ∈ d i := by
      intro i x hx
      obtain ⟨b, hb⟩ := pop_suffix d (oldest t) i
      rw [hb]; exact List.mem_append_right _ hx
    rw [next_some hfr]
    split
    · rename_i hM
      have hpos := possible_pop hfr hs' (M := M) (by omega)
      rcases ih _ (size_pop hne) (fun i => by
        obtain ⟨b, hb⟩ := pop_suffix d (oldest t) i
        have := hs i
        rw [hb] at this
        exact (List.pairwise_append.1 this).2.1) with ⟨h1, h2⟩ | ⟨r, h1, h2⟩
      · left
        refine ⟨h1, ?_⟩
        rintro ⟨T, hT⟩
        exact h2 ⟨T, (hpos T).1 hT⟩
      · exact Or.inr ⟨r, h1, (best_congr hpos _).2 h2⟩
    · rename_i hM
      right
      have hTend : ∀ T : Fin n → Ev, (∀ i, T i ∈ d i) → endOf t ≤ endOf T := by
        intro T hT
        have h1 := front_le hfr hs' (hT (newest t))
        have h2 := le_endOf T (newest t)
        unfold endOf at *; omega
      split
      · rename_i ho
        refine ⟨_, rfl, best_of_pivot hd hn hs hfr (by omega) htm rfl fun T hT hTp => ?_⟩
        have h1 : cost num den t ≤ cost num den T := by
          refine cost_mono (by omega) (by omega) (hTend T hT) ?_
          have := startOf_le T (newest t)
          unfold startOf endOf at *
          rw [ho]; omega
        rcases Int.lt_or_eq_of_le h1 with h2 | h2
        · exact Or.inl h2
        · exact Or.inr ⟨h2, fun i => front_le hfr hs' (hT i)⟩
      · rename_i ho
        have hpp : pop d (oldest t) (newest t) = t (newest t) :: (d (newest t)).tail := by
          unfold pop; rw [upd_ne _ _ (Ne.symm ho)]; exact hcons _
        obtain ⟨r, g0, g1, g2, g3⟩ := search_least (P := (t (newest t)).stamp) hf (by omega) (by omega) (pop d (oldest t)) t (tails d)
          (fun i => sorted_pop hs' i) ⟨_, _, hpp, rfl⟩ rfl (fun i x hx => front_le hfr hs' (hsub i x hx))
        refine ⟨r, g0, best_of_pivot hd hn hs hfr (by omega) (fun i => ?_) g1 fun T hT hTp => ?_⟩
        · obtain ⟨a, ha⟩ := search_follows (closed := true) (f := f) (p := newest t) d _ t (tails d) r (pop_suffix d _) (follows_fronts hfr) g0 i
          rw [ha]; simp
        · have hTm := hT (oldest t)
          rw [hcons (oldest t)] at hTm
          rcases List.mem_cons.1 hTm with hTm | hTm
          · have h1 : cost num den t ≤ cost num den T := by
              apply cost_mono (by omega) (by omega) (hTend T hT)
              have := startOf_le T (oldest t); rw [hTm] at this; exact this
            rcases g2 with g2 | g2
            · left; omega
            · rw [g2]
              rcases Int.lt_or_eq_of_le h1 with h2 | h2
              · exact Or.inl h2
              · exact Or.inr ⟨h2, fun i => front_le hfr hs' (hT i)⟩
          · apply g3 T _ hTp
            intro i
            unfold pop
            by_cases hi : i = oldest t
            · rw [hi, upd_same]; exact hTm
            · rw [upd_ne _ _ hi]; exact hT i

theorem follows_newer {d d' : Fin n → List Ev} {t : Fin n → Ev} (hs : ∀ i, StrictlyTimeSorted (d i)) (h : Follows d t d') :
    d' = newerThan t d := by
  funext i
  obtain ⟨a, ha⟩ := h i
  have h1 := hs i
  rw [ha] at h1
  have h2 := List.pairwise_append.1 h1
  unfold newerThan
  rw [ha, List.filter_append, List.filter_cons_of_neg (by simp), List.filter_eq_nil_iff.2, List.filter_eq_self.2]
  · rfl
  · intro x hx
    simpa using (List.pairwise_cons.1 h2.2.1).1 x hx
  · intro x hx
    have := h2.2.2 x hx (t i) (by simp)
    simp; omega

theorem newerThan_strict {d : Fin n → List Ev} {C : Fin n → Ev} (hs : ∀ i, StrictlyTimeSorted (d i)) (i : Fin n) :
    StrictlyTimeSorted (newerThan C d i) := List.Pairwise.sublist List.filter_sublist (hs i)

/-- The canonical sequence of sets is chosen. -/
theorem sets_chosen [NeZero n] {f : Int → Int} {M num den : Int} (hf : Exact f num den) (hd : 0 < den) (hn : den ≤ num) :
    ∀ d : Fin n → List Ev, (∀ i, StrictlyTimeSorted (d i)) → Chosen M num den d (sets true f M d) := by
  apply size_induction (P := fun d => (∀ i, StrictlyTimeSorted (d i)) → Chosen M num den d (sets true f M d))
  intro d ih hs
  rw [sets_eq]
  rcases next_best hf hd hn d hs (M := M) with ⟨h1, h2⟩ | ⟨⟨C, d'⟩, h1, h2⟩
  · rw [h1]; exact .done h2
  · rw [h1]
    have h3 : d' = newerThan C d := follows_newer hs (next_follows d _ h1)
    refine .set h2 ?_
    rw [← h3]
    exact ih d' (next_size h1) (by rw [h3]; exact newerThan_strict hs)

theorem best_unique [NeZero n] {M num den : Int} {d : Fin n → List Ev} (hs : ∀ i, StrictlyTimeSorted (d i)) {C C' : Fin n → Ev}
    (h : Best M num den d C) (h' : Best M num den d C') : C = C' := by
  funext i
  have h1 := h.2 C' h'.1
  have h2 := h'.2 C h.1
  have h3 : (C i).stamp = (C' i).stamp := by
    rcases h1 with h1 | ⟨_, h1⟩
    · rcases h2 with h2 | ⟨h2, _⟩ <;> omega
    · rcases h2 with h2 | ⟨_, h2⟩
      · omega
      · have := h1 i; have := h2 i; omega
  have ha := h.1.1.1 i
  have hb := h'.1.1.1 i
  apply Classical.byContradiction
  intro hne
  have := hs i
  obtain ⟨a, b, hab⟩ := List.append_of_mem ha
  rw [hab] at this hb
  have h5 := List.pairwise_append.1 this
  rcases List.mem_append.1 hb with hb | hb
  · have := h5.2.2 _ hb (C i) (by simp); omega
  · rcases List.mem_cons.1 hb with hb | hb
    · exact hne hb.symm
    · have := (List.pairwise_cons.1 h5.2.1).1 _ hb; omega

end MF.ApproxSpec
