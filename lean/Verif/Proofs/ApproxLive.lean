import Verif.Proofs.Approx9
import Verif.Spec.ApproxLive
/-
Helper lemmas on the progress of the search of ApproximateTime.
-/
namespace MF.ApproxSpec

variable {n : Nat}

/-- If every stream has a message newer than the pivot, the search ends whether or not more messages can come, and with
messages that are not newer than any message newer than the pivot. -/
theorem search_finish [NeZero n] {f : Int → Int} {p : Fin n} {P : Int} : ∀ (d : Fin n → List Ev) (best : Fin n → Ev)
    (after : Fin n → List Ev), (∀ i, TimeSorted (d i)) → (∃ x tl, d p = x :: tl ∧ x.stamp = P) →
    (∀ i, ∃ y ∈ d i, P < y.stamp) → (∀ i, ∀ y ∈ d i, P < y.stamp → (best i).stamp ≤ y.stamp) →
    ∃ r, search false f p best after d = some r ∧ search true f p best after d = some r ∧
      ∀ i, ∀ y ∈ d i, P < y.stamp → (r.1 i).stamp ≤ y.stamp := by
  apply size_induction (P := fun d => ∀ (best : Fin n → Ev) (after : Fin n → List Ev),
    (∀ i, TimeSorted (d i)) → (∃ x tl, d p = x :: tl ∧ x.stamp = P) →
    (∀ i, ∃ y ∈ d i, P < y.stamp) → (∀ i, ∀ y ∈ d i, P < y.stamp → (best i).stamp ≤ y.stamp) →
    ∃ r, search false f p best after d = some r ∧ search true f p best after d = some r ∧
      ∀ i, ∀ y ∈ d i, P < y.stamp → (r.1 i).stamp ≤ y.stamp)
  intro d ih best after hs hp hy hb
  have hne : ∀ i, d i ≠ [] := by
    intro i h
    obtain ⟨y, hy, _⟩ := hy i
    rw [h] at hy; cases hy
  have hf := fronts_some hne
  generalize (fun i => (d i).headD default) = t at hf
  rw [search_some hf, search_some hf]
  have hb' : ∀ i, ∀ y ∈ d i, P < y.stamp → ((if better f t best then t else best) i).stamp ≤ y.stamp := by
    intro i y hm hP
    split
    · exact front_le hf hs hm
    · exact hb i y hm hP
  by_cases ho : oldest t = p
  · rw [if_pos ho, if_pos ho]
    exact ⟨_, rfl, rfl, hb'⟩
  · rw [if_neg ho, if_neg ho]
    obtain ⟨x, tl, hx, hxP⟩ := hp
    have htp : (t p).stamp = P := by
      have := fronts_ne hf p
      rw [hx] at this
      rw [← (List.cons.inj this).1]; exact hxP
    have hold : (t (oldest t)).stamp ≤ P := by rw [← htp]; exact (oldest_spec t).1 p
    have hkeep : ∀ i, ∀ y ∈ d i, P < y.stamp → y ∈ pop d (oldest t) i := by
      intro i y hm hP
      unfold pop
      by_cases hi : i = oldest t
      · subst hi
        rw [upd_same]
        have := fronts_ne hf (oldest t)
        rw [this] at hm
        rcases List.mem_cons.1 hm with h | h
        · rw [h] at hP; omega
        · exact h
      · rw [upd_ne _ _ hi]; exact hm
    have hsub : ∀ i, ∀ y ∈ pop d (oldest t) i, y ∈ d i := by
      intro i y hm
      obtain ⟨b, hb⟩ := pop_suffix d (oldest t) i
      rw [hb]; exact List.mem_append_right _ hm
    obtain ⟨r, g1, g2, g3⟩ := ih _ (size_pop (hne (oldest t))) (if better f t best then t else best)
      (if better f t best then tails d else after) (sorted_pop hs)
      ⟨x, tl, by unfold pop; rw [upd_ne _ _ (Ne.symm ho)]; exact hx, hxP⟩
      (fun i => by obtain ⟨y, h1, h2⟩ := hy i; exact ⟨y, hkeep i y h1 h2, h2⟩)
      (fun i y h1 h2 => hb' i y (hsub i y h1) h2)
    exact ⟨r, g1, g2, fun i y h1 h2 => g3 i y (hkeep i y h1 h2) h2⟩

theorem next_finish [NeZero n] {f : Int → Int} {M num den : Int} (hf : Exact f num den) (hn : 0 ≤ num) (hd : 0 < den)
    {d : Fin n → List Ev} {t : Fin n → Ev} (hs : ∀ i, TimeSorted (d i)) (ht : fronts d = some t)
    (hM : endOf t - startOf t ≤ M) (hy : ∀ i, ∃ y ∈ d i, endOf t < y.stamp) :
    ∃ r, next false f M d = some r ∧ next true f M d = some r ∧
      (∀ i, ∀ y ∈ d i, endOf t < y.stamp → (r.1 i).stamp ≤ y.stamp) ∧ endOf t ≤ endOf r.1 ∧
      ∀ lo, (∀ i, ∃ x ∈ d i, lo ≤ x.stamp ∧ x.stamp ≤ endOf t) → lo ≤ startOf r.1 := by
  have hfin : ∀ r : Fin n → Ev, (∀ T : Fin n → Ev, (∀ i, T i ∈ d i) → (T (newest t)).stamp = endOf t →
      cost num den r ≤ cost num den T) → endOf t ≤ endOf r →
      ∀ lo, (∀ i, ∃ x ∈ d i, lo ≤ x.stamp ∧ x.stamp ≤ endOf t) → lo ≤ startOf r := by
    intro r hopt hend lo hlo
    have hch : ∃ T : Fin n → Ev, ∀ i, T i ∈ d i ∧ lo ≤ (T i).stamp ∧ (T i).stamp ≤ endOf t := by
      have := fun i => (hlo i)
      exact ⟨fun i => Classical.choose (hlo i), fun i => Classical.choose_spec (hlo i)⟩
    obtain ⟨T0, hT0⟩ := hch
    let T : Fin n → Ev := fun i => if i = newest t then t i else T0 i
    have hT : ∀ i, T i ∈ d i ∧ lo ≤ (T i).stamp ∧ (T i).stamp ≤ endOf t := by
      intro i
      show (if i = newest t then t i else T0 i) ∈ _ ∧ _ ≤ (if i = newest t then t i else T0 i).stamp ∧
        (if i = newest t then t i else T0 i).stamp ≤ _
      split
      · rename_i hi
        refine ⟨by rw [fronts_ne ht i]; simp, ?_, le_endOf t i⟩
        subst hi
        obtain ⟨_, h2, h3⟩ := hT0 (newest t)
        exact Int.le_trans h2 h3
      · exact hT0 i
    have hTn : (T (newest t)).stamp = endOf t := by
      show (if newest t = newest t then t (newest t) else T0 (newest t)).stamp = _
      rw [if_pos rfl]; rfl
    have h1 := hopt T (fun i => (hT i).1) hTn
    have h2 : endOf T ≤ endOf t := (hT (newest T)).2.2
    have h3 : lo ≤ startOf T := (hT (oldest T)).2.1
    unfold cost at h1
    have h4 := Int.mul_le_mul_of_nonneg_left (Int.le_trans h2 hend) hn
    have h5 : den * startOf T ≤ den * startOf r := by omega
    have h6 := Int.le_of_mul_le_mul_left h5 hd
    omega
  have hM' : ¬ endOf t - startOf t > M := by omega
  rw [next_some ht, next_some ht, if_neg hM', if_neg hM']
  by_cases ho : oldest t = newest t
  · rw [if_pos ho, if_pos ho]
    refine ⟨_, rfl, rfl, fun i y hm _ => front_le ht hs hm, Int.le_refl _, ?_⟩
    intro lo hlo
    show lo ≤ startOf t
    have : startOf t = endOf t := by unfold startOf endOf; rw [ho]
    rw [this]
    obtain ⟨x, _, h1, h2⟩ := hlo 0
    omega
  · rw [if_neg ho, if_neg ho]
    have hcons := fronts_ne ht
    have hne : d (oldest t) ≠ [] := by rw [hcons (oldest t)]; simp
    have hpv : ∃ x tl, pop d (oldest t) (newest t) = x :: tl ∧ x.stamp = endOf t := by
      refine ⟨t (newest t), (d (newest t)).tail, ?_, rfl⟩
      unfold pop; rw [upd_ne _ _ (Ne.symm ho)]; exact hcons _
    have hkeep : ∀ i, ∀ y ∈ d i, endOf t < y.stamp → y ∈ pop d (oldest t) i := by
      intro i y hm hP
      unfold pop
      by_cases hi : i = oldest t
      · subst hi
        rw [upd_same]
        rw [hcons (oldest t)] at hm
        rcases List.mem_cons.1 hm with h | h
        · have := le_endOf t (oldest t); rw [h] at hP; omega
        · exact h
      · rw [upd_ne _ _ hi]; exact hm
    have hsub : ∀ i, ∀ y ∈ pop d (oldest t) i, y ∈ d i := by
      intro i y hm
      obtain ⟨b, hb⟩ := pop_suffix d (oldest t) i
      rw [hb]; exact List.mem_append_right _ hm
    obtain ⟨r, g1, g2, g3⟩ := search_finish (f := f) (p := newest t) (pop d (oldest t)) t (tails d) (sorted_pop hs) hpv
      (fun i => by obtain ⟨y, h1, h2⟩ := hy i; exact ⟨y, hkeep i y h1 h2, h2⟩)
      (fun i y hm _ => front_le ht hs (hsub i y hm))
    obtain ⟨k1, k2, k3⟩ := search_optimal hf hn (Int.le_of_lt hd) (pop d (oldest t)) t (tails d) r (sorted_pop hs) hpv rfl
      (fun i y hm => front_le ht hs (hsub i y hm)) g1
    have hend : endOf t ≤ endOf r.1 := by rw [← k2]; exact le_endOf _ _
    refine ⟨r, g1, g2, fun i y hm hP => g3 i y (hkeep i y hm hP) hP, hend, hfin r.1 ?_ hend⟩
    intro T hT hTp
    have hTm := hT (oldest t)
    rw [hcons (oldest t)] at hTm
    rcases List.mem_cons.1 hTm with h | h
    · have h1 : cost num den t ≤ cost num den T := by
        apply cost_mono hn (Int.le_of_lt hd)
        · rw [← hTp]; exact le_endOf _ _
        · have := startOf_le T (oldest t); rw [h] at this; exact this
      omega
    · refine k3 T ?_ hTp
      intro i
      unfold pop
      by_cases hi : i = oldest t
      · subst hi; rw [upd_same]; exact h
      · rw [upd_ne _ _ hi]; exact hT i

/-- Passing over messages until the fronts are close enough does not pass any message of a set that is close enough. -/
theorem next_pass [NeZero n] {f : Int → Int} {M : Int} {T : Fin n → Ev} (hT : ∀ i j, (T i).stamp - (T j).stamp ≤ M) :
    ∀ d : Fin n → List Ev, (∀ i, TimeSorted (d i)) → (∀ i, T i ∈ d i) →
    ∃ d' t, (∀ i, ∃ e, d i = e ++ d' i) ∧ (∀ closed, next closed f M d = next closed f M d') ∧ fronts d' = some t ∧
      endOf t - startOf t ≤ M ∧ ∀ i, T i ∈ d' i := by
  apply size_induction (P := fun d => (∀ i, TimeSorted (d i)) → (∀ i, T i ∈ d i) →
    ∃ d' t, (∀ i, ∃ e, d i = e ++ d' i) ∧ (∀ closed, next closed f M d = next closed f M d') ∧ fronts d' = some t ∧
      endOf t - startOf t ≤ M ∧ ∀ i, T i ∈ d' i)
  intro d ih hs hTd
  have hne : ∀ i, d i ≠ [] := fun i h => by have := hTd i; rw [h] at this; cases this
  have ht := fronts_some hne
  generalize (fun i => (d i).headD default) = t at ht
  by_cases hM : endOf t - startOf t ≤ M
  · exact ⟨d, t, fun i => ⟨[], rfl⟩, fun _ => rfl, ht, hM, hTd⟩
  · have hkeep : ∀ i, T i ∈ pop d (oldest t) i := by
      intro i
      unfold pop
      by_cases hi : i = oldest t
      · subst hi
        rw [upd_same]
        have hm := hTd (oldest t)
        rw [fronts_ne ht (oldest t)] at hm
        rcases List.mem_cons.1 hm with h | h
        · have h1 := hT (newest t) (oldest t)
          have h2 := front_le ht hs (hTd (newest t))
          rw [h] at h1
          unfold endOf startOf at hM
          omega
        · exact h
      · rw [upd_ne _ _ hi]; exact hTd i
    obtain ⟨d', t', g1, g2, g3, g4, g5⟩ := ih _ (size_pop (hne (oldest t))) (sorted_pop hs) hkeep
    refine ⟨d', t', ?_, ?_, g3, g4, g5⟩
    · intro i
      obtain ⟨e, he⟩ := g1 i
      obtain ⟨b, hb⟩ := pop_suffix d (oldest t) i
      exact ⟨b ++ e, by rw [hb, he, List.append_assoc]⟩
    · intro closed
      rw [next_some ht, if_pos (by omega), g2 closed]

/-- If the streams contain a set `T` that is close enough, and every stream has a message newer than `T`, then there is a
next set, whether or not more messages can come; its pivot time `P` is not later than `T`. -/
theorem next_exists [NeZero n] {f : Int → Int} {M num den : Int} (hf : Exact f num den) (hn : 0 ≤ num) (hd : 0 < den)
    {d : Fin n → List Ev} {T : Fin n → Ev} {c : Int} (hs : ∀ i, TimeSorted (d i)) (hTd : ∀ i, T i ∈ d i)
    (hT : ∀ i j, (T i).stamp - (T j).stamp ≤ M) (hc : ∀ i, (T i).stamp ≤ c) (hu : ∀ i, ∃ u ∈ d i, c < u.stamp) :
    ∃ r P, next false f M d = some r ∧ next true f M d = some r ∧ P ≤ c ∧
      (∀ i, ∃ x ∈ d i, x.stamp ≤ P) ∧
      (∀ i, ∀ y ∈ d i, P < y.stamp → (r.1 i).stamp ≤ y.stamp) ∧
      ∀ lo, (∀ i, ∃ x ∈ d i, lo ≤ x.stamp ∧ x.stamp ≤ P) → lo ≤ startOf r.1 := by
  obtain ⟨d', t, g1, g2, g3, g4, g5⟩ := next_pass (f := f) hT d hs hTd
  have hs' : ∀ i, TimeSorted (d' i) := by
    intro i
    obtain ⟨e, he⟩ := g1 i
    have := hs i
    rw [he] at this
    exact (List.pairwise_append.1 this).2.1
  have hold : ∀ i, ∀ x ∈ d i, x ∈ d' i ∨ x.stamp ≤ (t i).stamp := by
    intro i x hx
    obtain ⟨e, he⟩ := g1 i
    have h1 := hs i
    rw [he] at h1 hx
    rcases List.mem_append.1 hx with hx | hx
    · exact Or.inr ((List.pairwise_append.1 h1).2.2 x hx (t i) (by rw [fronts_ne g3 i]; simp))
    · exact Or.inl hx
  have hsub : ∀ i, ∀ x ∈ d' i, x ∈ d i := by
    intro i x hx
    obtain ⟨e, he⟩ := g1 i
    rw [he]; exact List.mem_append_right _ hx
  have hmem : ∀ i, t i ∈ d' i := by intro i; rw [fronts_ne g3 i]; simp
  have hP : endOf t ≤ c := Int.le_trans (front_le g3 hs' (g5 (newest t))) (hc _)
  have hkeep : ∀ i, ∀ y ∈ d i, endOf t < y.stamp → y ∈ d' i := by
    intro i y hy h
    rcases hold i y hy with h1 | h1
    · exact h1
    · have := le_endOf t i; omega
  obtain ⟨r, k1, k2, k3, k4, k5⟩ := next_finish (f := f) (M := M) hf hn hd hs' g3 g4 (fun i => by
    obtain ⟨u, h1, h2⟩ := hu i
    exact ⟨u, hkeep i u h1 (by omega), by omega⟩)
  refine ⟨r, endOf t, by rw [g2]; exact k1, by rw [g2]; exact k2, hP, ?_, ?_, ?_⟩
  · intro i; exact ⟨t i, hsub i _ (hmem i), le_endOf t i⟩
  · intro i y hy h; exact k3 i y (hkeep i y hy h) h
  · intro lo hlo
    refine k5 lo (fun i => ?_)
    obtain ⟨x, h1, h2, h3⟩ := hlo i
    rcases hold i x h1 with h | h
    · exact ⟨x, h, h2, h3⟩
    · exact ⟨t i, hmem i, by omega, le_endOf t i⟩

/-- What is newer than the message used comes after it. -/
theorem follows_keep {d d' : Fin n → List Ev} {t : Fin n → Ev} (hs : ∀ i, TimeSorted (d i)) (h : Follows d t d') {i : Fin n}
    {x : Ev} (hx : x ∈ d i) (hlt : (t i).stamp < x.stamp) : x ∈ d' i := by
  obtain ⟨a, ha⟩ := h i
  have h1 := hs i
  rw [ha] at h1 hx
  rcases List.mem_append.1 hx with hx | hx
  · have := (List.pairwise_append.1 h1).2.2 x hx (t i) (by simp)
    omega
  · rcases List.mem_cons.1 hx with hx | hx
    · rw [hx] at hlt; omega
    · exact hx

theorem follows_sorted {d d' : Fin n → List Ev} {t : Fin n → Ev} (hs : ∀ i, TimeSorted (d i)) (h : Follows d t d') (i : Fin n) :
    TimeSorted (d' i) := by
  obtain ⟨a, ha⟩ := h i
  have h1 := hs i
  rw [ha] at h1
  exact (List.pairwise_cons.1 (List.pairwise_append.1 h1).2.1).2

theorem follows_sub {d d' : Fin n → List Ev} {t : Fin n → Ev} (h : Follows d t d') {i : Fin n} {x : Ev} (hx : x ∈ d' i) :
    x ∈ d i := by
  obtain ⟨a, ha⟩ := h i
  rw [ha]; simp [hx]

/-- Beyond sets that are all older than a set `T` that is close enough and has newer messages after it, another set is
determined. -/
theorem sets_more [NeZero n] {f : Int → Int} {M num den a b : Int} (hf : Exact f num den) (hn : 0 ≤ num) (hd : 0 < den)
    {T : Fin n → Ev} (hT : ∀ i j, (T i).stamp - (T j).stamp ≤ M) (hTa : ∀ i, a < (T i).stamp) (hTb : ∀ i, (T i).stamp ≤ b) :
    ∀ (L : List (Fin n → Ev)) (d : Fin n → List Ev), (∀ i, TimeSorted (d i)) → L <+: sets true f M d →
    (∀ t ∈ L, ∀ i, (t i).stamp ≤ a) → (∀ i, T i ∈ d i) → (∀ i, ∃ z ∈ d i, b < z.stamp) →
    L.length < (sets false f M d).length := by
  have hab : a < b := by have := hTa 0; have := hTb 0; omega
  intro L
  induction L with
  | nil =>
    intro d hs _ _ hTd hz
    obtain ⟨r, P, g1, _⟩ := next_exists hf hn hd hs hTd hT hTb hz
    rw [sets_eq, g1]
    simp
  | cons c L ih =>
    intro d hs hpre hL hTd hz
    obtain ⟨r, P, g1, g2, _⟩ := next_exists hf hn hd hs hTd hT hTb hz
    rw [sets_eq, g2] at hpre
    obtain ⟨hc, hpre⟩ := List.cons_prefix_cons.1 hpre
    have hfol := next_follows d r g1
    rw [sets_eq, g1]
    have hle : ∀ i, (r.1 i).stamp ≤ a := by intro i; rw [← hc]; exact hL c (by simp) i
    have := ih r.2 (follows_sorted hs hfol) hpre (fun t ht => hL t (List.mem_cons_of_mem _ ht))
      (fun i => follows_keep hs hfol (hTd i) (by have := hle i; have := hTa i; omega))
      (fun i => by
        obtain ⟨z, h1, h2⟩ := hz i
        exact ⟨z, follows_keep hs hfol h1 (by have := hle i; omega), h2⟩)
    simp only [List.length_cons]
    omega

/-- With three layers of messages above `a`, the middle one close enough to form a set, some determined set lies entirely
above what every stream has below `a`. -/
theorem sets_reach [NeZero n] {f : Int → Int} {M num den lo a b c : Int} (hf : Exact f num den) (hn : 0 ≤ num) (hd : 0 < den)
    {D : Fin n → List Ev} (hs : ∀ i, TimeSorted (D i))
    (hx : ∀ i, ∃ x ∈ D i, lo ≤ x.stamp ∧ x.stamp ≤ a) (hy : ∀ i, ∃ y ∈ D i, a < y.stamp ∧ y.stamp ≤ b)
    {T : Fin n → Ev} (hT : ∀ i j, (T i).stamp - (T j).stamp ≤ M) (hTD : ∀ i, T i ∈ D i) (hTb : ∀ i, b < (T i).stamp)
    (hTc : ∀ i, (T i).stamp ≤ c) (hu : ∀ i, ∃ u ∈ D i, c < u.stamp) :
    ∃ t ∈ sets false f M D, lo ≤ startOf t := by
  have hbc : b < c := by have := hTb 0; have := hTc 0; omega
  have key : ∀ d : Fin n → List Ev, (∀ i, ∃ e, D i = e ++ d i) → (∀ i, ∀ x ∈ D i, b < x.stamp → x ∈ d i) →
      ∃ t ∈ sets false f M d, lo ≤ startOf t := by
    apply size_induction (P := fun d => (∀ i, ∃ e, D i = e ++ d i) → (∀ i, ∀ x ∈ D i, b < x.stamp → x ∈ d i) →
      ∃ t ∈ sets false f M d, lo ≤ startOf t)
    intro d ih hsuf hkeep
    have hsd : ∀ i, TimeSorted (d i) := by
      intro i
      obtain ⟨e, he⟩ := hsuf i
      have := hs i
      rw [he] at this
      exact (List.pairwise_append.1 this).2.1
    have hold : ∀ i, ∀ x ∈ D i, x ∈ d i ∨ ∀ y ∈ d i, x.stamp ≤ y.stamp := by
      intro i x hx
      obtain ⟨e, he⟩ := hsuf i
      have h1 := hs i
      rw [he] at h1 hx
      rcases List.mem_append.1 hx with hx | hx
      · exact Or.inr (fun y hy => (List.pairwise_append.1 h1).2.2 x hx y hy)
      · exact Or.inl hx
    obtain ⟨r, P, g1, _, hP, g2, g3, g5⟩ := next_exists hf hn hd hsd (fun i => hkeep i _ (hTD i) (hTb i)) hT hTc
      (fun i => by obtain ⟨u, h1, h2⟩ := hu i; exact ⟨u, hkeep i u h1 (by omega), h2⟩)
    have hfol := next_follows d r g1
    rw [sets_eq, g1]
    by_cases hPa : a < P
    · refine ⟨r.1, by simp, g5 lo ?_⟩
      intro i
      obtain ⟨x, h1, h2, h3⟩ := hx i
      rcases hold i x h1 with h | h
      · exact ⟨x, h, h2, by omega⟩
      · obtain ⟨x', k1, k2⟩ := g2 i
        exact ⟨x', k1, Int.le_trans h2 (h _ k1), k2⟩
    · obtain ⟨v, hv1, hv2⟩ := ih r.2 (next_size g1) (fun i => by
        obtain ⟨e, he⟩ := hsuf i
        obtain ⟨e', he'⟩ := hfol i
        exact ⟨e ++ e' ++ [r.1 i], by rw [he, he']; simp⟩) (fun i x hxD hxb => by
          obtain ⟨y, h1, h2, h3⟩ := hy i
          have hyd : y ∈ d i := by
            rcases hold i y h1 with h | h
            · exact h
            · obtain ⟨x', k1, k2⟩ := g2 i
              have := h _ k1; omega
          have := g3 i y hyd (by omega)
          exact follows_keep hsd hfol (hkeep i x hxD hxb) (by omega))
      exact ⟨v, List.mem_cons_of_mem _ hv1, hv2⟩
  exact key D (fun i => ⟨[], rfl⟩) (fun i x hx _ => hx)

end MF.ApproxSpec

namespace MF.Approx
open MF.ApproxSpec

variable {n : Nat}

theorem held_le [NeZero n] {fuel : Nat} {cfg : Cfg n} {ops : List (Fin n × Ev)} {s : State n} (h : run fuel cfg ops = .ok s)
    (i : Fin n) : (s.past i).length + (s.deques i).length ≤ (stream ops i).length := by
  obtain ⟨_, _, hh⟩ := run_facts h
  obtain ⟨c, hc, _⟩ := hh i
  rw [hc]
  unfold view
  simp only [List.length_append]
  omega

theorem stream_length_le (ops : List (Fin n × Ev)) (i : Fin n) : (stream ops i).length ≤ ops.length := by
  unfold stream
  rw [List.length_map]
  exact List.length_filter_le _ _

theorem run_append_left [NeZero n] {fuel : Nat} {cfg : Cfg n} {ops w : List (Fin n × Ev)} {s : State n}
    (h : run fuel cfg (ops ++ w) = .ok s) : ∃ s0, run fuel cfg ops = .ok s0 := by
  induction w using snoc_induction generalizing s with
  | h0 => rw [List.append_nil] at h; exact ⟨s, h⟩
  | hs w op ih =>
    rw [← List.append_assoc] at h
    obtain ⟨s1, h1, _⟩ := run_snoc_ok h
    exact ih h1

/-- To check that inputs keep delivering, look at the windows one by one. -/
theorem sustained_of_check {M : Int} {m : Nat} {ws : List (List (Fin n × Ev))}
    (T : Nat → Fin n → Ev) (h : ∀ k, k < ws.length → ∀ i, (i, T k i) ∈ ws.getD k [] ∧
      (∀ x ∈ (ws.take k).flatten, x.2.stamp < (T k i).stamp) ∧ (∀ j, (T k i).stamp - (T k j).stamp ≤ M) ∧
      (stream (ws.getD k []) i).length ≤ m) : Sustained M m ws := by
  intro pre w post hw
  subst hw
  have h1 := h pre.length (by simp)
  have e1 : (pre ++ w :: post).getD pre.length [] = w := by simp [List.getD_eq_getElem?_getD]
  have e2 : (pre ++ w :: post).take pre.length = pre := by rw [List.take_append_of_le_length (Nat.le_refl _), List.take_length]
  rw [e1, e2] at h1
  exact ⟨⟨T pre.length, fun i => (h1 i).1, fun i => (h1 i).2.1, fun i => (h1 i).2.2.1⟩, fun i => (h1 i).2.2.2⟩

/-- A history without overflow has none in its beginnings. -/
theorem noOverflow_prefix [NeZero n] {fuel : Nat} {cfg : Cfg n} {ops w : List (Fin n × Ev)}
    (h : NoOverflow fuel cfg (ops ++ w)) : NoOverflow fuel cfg ops := by
  intro k t ht
  have h1 := run_fits (big := (ops ++ w).length + 1) (ops.take k) t (by
    simp only [List.length_take, List.length_append]; omega) (by
      intro k' u hu i
      have h1 := held_le hu i
      have h2 := stream_length_le ((ops.take k).take k') i
      simp only [List.length_take] at h2
      show _ ≤ ops.length + 1
      omega) ht
  by_cases hk : k ≤ ops.length
  · have := h k (setQ _ t) (by rw [List.take_append_of_le_length hk]; exact h1)
    exact this
  · have := h ops.length (setQ _ t) (by
      rw [List.take_append_of_le_length (Nat.le_refl _), List.take_length]
      rw [List.take_of_length_le (by omega)] at h1
      exact h1)
    exact this

theorem exists_newest (l : List (Fin n × Ev)) (h : l ≠ []) : ∃ m, (∀ o ∈ l, o.2.stamp ≤ m) ∧ ∃ o ∈ l, o.2.stamp = m := by
  induction l with
  | nil => exact absurd rfl h
  | cons a l ih =>
    by_cases hl : l = []
    · subst hl
      exact ⟨a.2.stamp, by simp, a, by simp, rfl⟩
    · obtain ⟨m, h1, o, h2, h3⟩ := ih hl
      by_cases hm : m ≤ a.2.stamp
      · refine ⟨a.2.stamp, ?_, a, by simp, rfl⟩
        intro o ho
        rcases List.mem_cons.1 ho with h | h
        · rw [h]; exact Int.le_refl _
        · exact Int.le_trans (h1 o h) hm
      · refine ⟨m, ?_, o, List.mem_cons_of_mem _ h2, h3⟩
        intro o ho
        rcases List.mem_cons.1 ho with h | h
        · rw [h]; omega
        · exact h1 o h

theorem Refreshed.ne_nil [NeZero n] {M : Int} {b w : List (Fin n × Ev)} (h : Refreshed M b w) : w ≠ [] := by
  obtain ⟨T, he, _⟩ := h
  have := he 0
  intro hw; rw [hw] at this; cases this

theorem sortedOf {cfg : Cfg n} (hlow : ∀ i, 0 ≤ cfg.lower i) {d : Fin n → List Ev} (h : ∀ i, Spaced (cfg.lower i) (d i)) (i : Fin n) :
    TimeSorted (d i) := by
  have h1 := h i
  unfold Spaced at h1
  unfold TimeSorted
  refine h1.imp ?_
  intro a b hab
  have := hlow i
  omega

/-- An end part whose stamps are all at least `lo` is not longer than what follows a beginning older than `lo`. -/
theorem suffix_le {c g a b : List Ev} {lo : Int} (h : c ++ g = a ++ b) (hg : ∀ x ∈ g, lo ≤ x.stamp) (ha : ∀ x ∈ a, x.stamp < lo) :
    g.length ≤ b.length := by
  rcases List.append_eq_append_iff.1 h with ⟨e, h1, h2⟩ | ⟨e, h1, h2⟩
  · cases e with
    | nil => rw [h2]; simp
    | cons x e =>
      exfalso
      have h3 := hg x (by rw [h2]; simp)
      have h4 := ha x (by rw [h1]; simp)
      omega
  · rw [h2]; simp

/-- After four windows, some output set is newer than everything before them. -/
theorem recent_set [NeZero n] {fuel : Nat} {cfg : Cfg n} {num den : Int} (hden : 0 < den) (hnum : 0 ≤ num)
    (hscale : cfg.scale = fun x => (x * num).tdiv den) (hlow : ∀ i, 0 ≤ cfg.lower i)
    {A w1 w2 w3 w4 part : List (Fin n × Ev)} {s : State n} (h : run fuel cfg (A ++ w1 ++ w2 ++ w3 ++ w4 ++ part) = .ok s)
    (hq : NoOverflow fuel cfg (A ++ w1 ++ w2 ++ w3 ++ w4 ++ part))
    (hsp : ∀ i, Spaced (cfg.lower i) (stream (A ++ w1 ++ w2 ++ w3 ++ w4 ++ part) i))
    (hA : A ≠ [])
    (h1 : Refreshed cfg.maxInterval A w1) (h2 : Refreshed cfg.maxInterval (A ++ w1) w2) (h3 : Refreshed cfg.maxInterval (A ++ w1 ++ w2) w3)
    (h4 : Refreshed cfg.maxInterval (A ++ w1 ++ w2 ++ w3) w4) :
    ∃ t : Fin n → Ev, (fun i => some (t i)) ∈ s.out ∧ ∀ o ∈ A, ∀ i, o.2.stamp < (t i).stamp := by
  obtain ⟨lo, hlo, o0, ho0, ho0'⟩ := exists_newest A hA
  obtain ⟨a, ha, oa, hoa, hoa'⟩ := exists_newest (A ++ w1) (by simp [hA])
  obtain ⟨b, hb, ob, hob, hob'⟩ := exists_newest (A ++ w1 ++ w2) (by simp [hA])
  obtain ⟨c, hc, oc, hoc, hoc'⟩ := exists_newest (A ++ w1 ++ w2 ++ w3) (by simp [hA])
  have hmono : ∀ x y, x ≤ y → cfg.scale x ≤ cfg.scale y := by rw [hscale]; exact tdiv_mono hnum hden
  have hsorted := sortedOf hlow hsp
  obtain ⟨T1, t1, t1', _⟩ := h1
  obtain ⟨T2, t2, t2', _⟩ := h2
  obtain ⟨T3, t3, t3', t3''⟩ := h3
  obtain ⟨T4, t4, t4', _⟩ := h4
  obtain ⟨t, ht, hst⟩ := sets_reach (f := cfg.scale) (M := cfg.maxInterval) (lo := lo + 1) (a := a) (b := b) (c := c)
    (by rw [hscale]; exact tdiv_exact hnum hden) hnum hden hsorted
    (fun j => by
      have g1 := t1' j o0 ho0
      have g2 := ha (j, T1 j) (by simp [t1 j])
      exact ⟨T1 j, mem_stream.2 (by simp [t1 j]), by omega, g2⟩)
    (fun j => by
      have g1 := t2' j oa hoa
      have g2 := hb (j, T2 j) (by simp [t2 j])
      exact ⟨T2 j, mem_stream.2 (by simp [t2 j]), by omega, g2⟩)
    t3'' (fun j => mem_stream.2 (by simp [t3 j])) (fun j => by have := t3' j ob hob; omega)
    (fun j => hc (j, T3 j) (by simp [t3 j]))
    (fun j => by
      have g1 := t4' j oc hoc
      exact ⟨T4 j, mem_stream.2 (by simp [t4 j]), by omega⟩)
  have hemp := (run_facts h).1.someEmpty
  have hcan := (run_canonical_fits false hmono hlow _ s h hq (fun _ => [])
    (by intro i; rw [List.append_nil]; exact hsp i)).1
  rw [rest_nil hemp] at hcan
  have hD : (fun i => stream (A ++ w1 ++ w2 ++ w3 ++ w4 ++ part) i ++ []) = stream (A ++ w1 ++ w2 ++ w3 ++ w4 ++ part) := by
    funext i; simp
  rw [hD] at hcan
  simp only [lift, List.map_nil, List.append_nil] at hcan
  have hmem : (fun i => some (t i)) ∈ s.out := hcan.subset (List.mem_map.2 ⟨t, ht, rfl⟩)
  refine ⟨t, hmem, ?_⟩
  intro o ho i
  have := hlo o ho
  have := startOf_le t i
  omega

/-- What the policy holds after five or more windows. -/
theorem held_recent [NeZero n] {fuel : Nat} {cfg : Cfg n} {num den : Int} (hden : 0 < den) (hnum : 0 ≤ num)
    (hscale : cfg.scale = fun x => (x * num).tdiv den) (hlow : ∀ i, 0 ≤ cfg.lower i)
    {A w1 w2 w3 w4 part : List (Fin n × Ev)} {s : State n} (h : run fuel cfg (A ++ w1 ++ w2 ++ w3 ++ w4 ++ part) = .ok s)
    (hq : NoOverflow fuel cfg (A ++ w1 ++ w2 ++ w3 ++ w4 ++ part))
    (hsp : ∀ i, Spaced (cfg.lower i) (stream (A ++ w1 ++ w2 ++ w3 ++ w4 ++ part) i))
    (hA : A ≠ [])
    (h1 : Refreshed cfg.maxInterval A w1) (h2 : Refreshed cfg.maxInterval (A ++ w1) w2) (h3 : Refreshed cfg.maxInterval (A ++ w1 ++ w2) w3)
    (h4 : Refreshed cfg.maxInterval (A ++ w1 ++ w2 ++ w3) w4) (i : Fin n) :
    (s.past i).length + (s.deques i).length ≤ (stream (w1 ++ w2 ++ w3 ++ w4 ++ part) i).length := by
  obtain ⟨t, hmem, hnew⟩ := recent_set hden hnum hscale hlow h hq hsp hA h1 h2 h3 h4
  have hsorted := sortedOf hlow hsp
  obtain ⟨_, _, hh⟩ := run_facts h
  obtain ⟨cs, hcs, hsub⟩ := hh i
  have hti : t i ∈ cs := by
    have : some (t i) ∈ cs.map some := hsub.subset (List.mem_map.2 ⟨_, hmem, rfl⟩)
    simpa using this
  have hge : ∀ x ∈ view s i, (t i).stamp ≤ x.stamp := by
    intro x hx
    have := hsorted i
    rw [hcs] at this
    exact (List.pairwise_append.1 this).2.2 (t i) hti x hx
  have hsplit : cs ++ view s i = stream A i ++ stream (w1 ++ w2 ++ w3 ++ w4 ++ part) i := by
    rw [← hcs, ← stream_append]
    simp only [List.append_assoc]
  have := suffix_le hsplit hge (fun x hx => hnew _ (mem_stream.1 hx) i)
  unfold view at this
  rw [List.length_append] at this
  exact this

/-- A beginning of a sequence of windows: some whole windows, and a beginning of the next one. -/
theorem flatten_take {α : Type} : ∀ (ws : List (List α)) (k : Nat), ∃ pre part, ws.flatten.take k = pre.flatten ++ part ∧
    ((pre = ws ∧ part = []) ∨ ∃ w post, ws = pre ++ w :: post ∧ part <+: w) := by
  intro ws
  induction ws with
  | nil => intro k; exact ⟨[], [], by simp, Or.inl ⟨rfl, rfl⟩⟩
  | cons w ws ih =>
    intro k
    by_cases hk : k ≤ w.length
    · refine ⟨[], w.take k, ?_, Or.inr ⟨w, ws, rfl, List.take_prefix _ _⟩⟩
      rw [List.flatten_cons, List.take_append_of_le_length hk]; rfl
    · obtain ⟨pre, part, h1, h2⟩ := ih (k - w.length)
      refine ⟨w :: pre, part, ?_, ?_⟩
      · rw [List.flatten_cons, List.take_append, List.take_of_length_le (by omega), h1, List.flatten_cons, List.append_assoc]
      · rcases h2 with ⟨h2, h3⟩ | ⟨v, post, h2, h3⟩
        · exact Or.inl ⟨by rw [h2], h3⟩
        · exact Or.inr ⟨v, post, by rw [h2]; rfl, h3⟩

theorem last_four {α : Type} (l : List α) (h : 5 ≤ l.length) : ∃ b a1 a2 a3 a4, b ≠ [] ∧ l = b ++ [a1, a2, a3, a4] := by
  have hd : (l.drop (l.length - 4)).length = 4 := by rw [List.length_drop]; omega
  have hs := List.take_append_drop (l.length - 4) l
  match hm : l.drop (l.length - 4), hd with
  | [a1, a2, a3, a4], _ =>
    refine ⟨l.take (l.length - 4), a1, a2, a3, a4, ?_, by rw [← hm, hs]⟩
    intro h0
    have := congrArg List.length h0
    rw [List.length_take] at this
    simp at this
    omega

theorem stream_flatten_le {m : Nat} (i : Fin n) : ∀ (ws : List (List (Fin n × Ev))), (∀ w ∈ ws, (stream w i).length ≤ m) →
    (stream ws.flatten i).length ≤ ws.length * m := by
  intro ws
  induction ws with
  | nil => intro _; simp [stream]
  | cons w ws ih =>
    intro h
    have h1 := ih (fun v hv => h v (List.mem_cons_of_mem _ hv))
    have h2 := h w (by simp)
    rw [List.flatten_cons, stream_append, List.length_append, List.length_cons, Nat.succ_mul]
    omega

theorem Sustained.left {M : Int} {m : Nat} {a b : List (List (Fin n × Ev))} (h : Sustained M m (a ++ b)) : Sustained M m a := by
  intro pre w post hw
  exact h pre w (post ++ b) (by rw [hw]; simp)

theorem Sustained.mem {M : Int} {m : Nat} {ws : List (List (Fin n × Ev))} (h : Sustained M m ws) {w : List (Fin n × Ev)} (hw : w ∈ ws) (i : Fin n) :
    (stream w i).length ≤ m := by
  obtain ⟨a, b, hab⟩ := List.append_of_mem hw
  exact (h a w b hab).2 i

theorem stream_prefix_le {a b : List (Fin n × Ev)} (h : a <+: b) (i : Fin n) : (stream a i).length ≤ (stream b i).length := by
  obtain ⟨c, hc⟩ := h
  rw [← hc, stream_append, List.length_append]
  omega

/-- What is held at any time in a sustained history. -/
theorem held_sustained [NeZero n] {fuel : Nat} {cfg : Cfg n} {num den : Int} (hden : 0 < den) (hnum : 0 ≤ num)
    (hscale : cfg.scale = fun x => (x * num).tdiv den) (hlow : ∀ i, 0 ≤ cfg.lower i) {m : Nat}
    {pre : List (List (Fin n × Ev))} {part : List (Fin n × Ev)} (hS : Sustained cfg.maxInterval m pre) (hp : ∀ i, (stream part i).length ≤ m)
    {s : State n} (h : run fuel cfg (pre.flatten ++ part) = .ok s) (hq : NoOverflow fuel cfg (pre.flatten ++ part))
    (hsp : ∀ i, Spaced (cfg.lower i) (stream (pre.flatten ++ part) i))
    (i : Fin n) :
    (s.past i).length + (s.deques i).length ≤ 5 * m := by
  by_cases hlen : 5 ≤ pre.length
  · obtain ⟨b, w1, w2, w3, w4, hb, hpre⟩ := last_four pre hlen
    have hf : pre.flatten ++ part = b.flatten ++ w1 ++ w2 ++ w3 ++ w4 ++ part := by rw [hpre]; simp
    rw [hf] at h hq hsp
    have g1 := hS b w1 [w2, w3, w4] (by rw [hpre])
    have g2 := hS (b ++ [w1]) w2 [w3, w4] (by rw [hpre]; simp)
    have g3 := hS (b ++ [w1, w2]) w3 [w4] (by rw [hpre]; simp)
    have g4 := hS (b ++ [w1, w2, w3]) w4 [] (by rw [hpre]; simp)
    have e2 : (b ++ [w1]).flatten = b.flatten ++ w1 := by simp
    have e3 : (b ++ [w1, w2]).flatten = b.flatten ++ w1 ++ w2 := by simp
    have e4 : (b ++ [w1, w2, w3]).flatten = b.flatten ++ w1 ++ w2 ++ w3 := by simp
    rw [e2] at g2
    rw [e3] at g3
    rw [e4] at g4
    have hA : b.flatten ≠ [] := by
      cases b with
      | nil => exact absurd rfl hb
      | cons v b =>
        have := (hS [] v (b ++ [w1, w2, w3, w4]) (by rw [hpre]; simp)).1.ne_nil
        intro h0
        rw [List.flatten_cons, List.append_eq_nil_iff] at h0
        exact this h0.1
    have := held_recent hden hnum hscale hlow h hq hsp hA g1.1 g2.1 g3.1 g4.1 i
    simp only [stream_append, List.length_append] at this
    have := g1.2 i
    have := g2.2 i
    have := g3.2 i
    have := g4.2 i
    have := hp i
    omega
  · have h1 := held_le h i
    rw [stream_append, List.length_append] at h1
    have h2 := stream_flatten_le i pre (fun w hw => hS.mem hw i)
    have h3 := hp i
    have h4 : pre.length * m ≤ 4 * m := Nat.mul_le_mul_right m (by omega)
    omega

end MF.Approx
