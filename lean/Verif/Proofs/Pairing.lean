import Verif.Spec.Pairing
import Verif.Proofs.EpsilonReach
/-
Helper lemmas: the most pairs that two streams allow.
-/
namespace MF

theorem pairing_mem_fst {eps : Int} {A B : List Ev} {L : List (Ev × Ev)} (h : Pairing eps A B L) {p : Ev × Ev} (hp : p ∈ L) :
    p.1 ∈ A ∧ p.2 ∈ B := by
  refine ⟨?_, ?_⟩
  · have h1 := h.1 p.1
    have h2 : 0 < (L.map Prod.fst).count p.1 := List.count_pos_iff.2 (List.mem_map.2 ⟨p, hp, rfl⟩)
    exact List.count_pos_iff.1 (by omega)
  · have h1 := h.2.1 p.2
    have h2 : 0 < (L.map Prod.snd).count p.2 := List.count_pos_iff.2 (List.mem_map.2 ⟨p, hp, rfl⟩)
    exact List.count_pos_iff.1 (by omega)

theorem pairing_perm {eps : Int} {A B : List Ev} {L L' : List (Ev × Ev)} (hp : L.Perm L') (h : Pairing eps A B L) :
    Pairing eps A B L' := by
  refine ⟨fun e => ?_, fun e => ?_, fun p hp' => h.2.2 p (hp.mem_iff.2 hp')⟩
  · rw [← (hp.map Prod.fst).count_eq]; exact h.1 e
  · rw [← (hp.map Prod.snd).count_eq]; exact h.2.1 e

theorem pairing_swap {eps : Int} {A B : List Ev} {L : List (Ev × Ev)} (h : Pairing eps A B L) :
    Pairing eps B A (L.map Prod.swap) := by
  refine ⟨fun e => ?_, fun e => ?_, fun p hp => ?_⟩
  · rw [List.map_map]; exact h.2.1 e
  · rw [List.map_map]; exact h.1 e
  · obtain ⟨q, hq, rfl⟩ := List.mem_map.1 hp
    exact ⟨(h.2.2 q hq).2, (h.2.2 q hq).1⟩

/-- A first message that is too old for all of the other input is in no pair. -/
theorem pairing_drop {eps : Int} {a : Ev} {A B : List Ev} {L : List (Ev × Ev)} (hB : ∀ y ∈ B, a.stamp + eps < y.stamp)
    (h : Pairing eps (a :: A) B L) : Pairing eps A B L := by
  refine ⟨fun e => ?_, h.2.1, h.2.2⟩
  by_cases he : a = e
  · subst he
    have : (L.map Prod.fst).count a = 0 := by
      rw [List.count_eq_zero]
      intro hm
      obtain ⟨p, hp, rfl⟩ := List.mem_map.1 hm
      have h1 := hB p.2 (pairing_mem_fst h hp).2
      have h2 := (h.2.2 p hp).2
      omega
    omega
  · have := h.1 e
    rw [List.count_cons_of_ne he] at this
    exact this

theorem pairing_cons {eps : Int} {A B : List Ev} {p : Ev × Ev} {L : List (Ev × Ev)} (h : Pairing eps A B (p :: L)) :
    (∀ e, (L.map Prod.fst).count e + (if p.1 = e then 1 else 0) ≤ A.count e) ∧
    (∀ e, (L.map Prod.snd).count e + (if p.2 = e then 1 else 0) ≤ B.count e) ∧
    ∀ q ∈ L, q.1.stamp - q.2.stamp ≤ eps ∧ q.2.stamp - q.1.stamp ≤ eps := by
  refine ⟨fun e => ?_, fun e => ?_, fun q hq => h.2.2 q (List.mem_cons_of_mem _ hq)⟩
  · have := h.1 e
    rw [List.map_cons, List.count_cons] at this
    simpa using this
  · have := h.2.1 e
    rw [List.map_cons, List.count_cons] at this
    simpa using this

/-- If the first two messages are in a pair, the rest allows at most one pair less. -/
theorem pairing_match {eps : Int} {a b : Ev} {A B : List Ev} (hA : TimeSorted (a :: A)) (hB : TimeSorted (b :: B))
    (hab : a.stamp - b.stamp ≤ eps) (hba : b.stamp - a.stamp ≤ eps) {L : List (Ev × Ev)} (h : Pairing eps (a :: A) (b :: B) L) :
    ∃ L', Pairing eps A B L' ∧ L.length ≤ L'.length + 1 := by
  have hge : ∀ {x : Ev}, x ∈ a :: A → a.stamp ≤ x.stamp := by
    intro x hx
    rcases List.mem_cons.1 hx with rfl | hx
    · exact Int.le_refl _
    · exact (List.pairwise_cons.1 hA).1 x hx
  have hge' : ∀ {y : Ev}, y ∈ b :: B → b.stamp ≤ y.stamp := by
    intro y hy
    rcases List.mem_cons.1 hy with rfl | hy
    · exact Int.le_refl _
    · exact (List.pairwise_cons.1 hB).1 y hy
  -- counts in the tails
  have hcA : ∀ e, (a :: A).count e = A.count e + if a = e then 1 else 0 := by
    intro e; rw [List.count_cons]; simp
  have hcB : ∀ e, (b :: B).count e = B.count e + if b = e then 1 else 0 := by
    intro e; rw [List.count_cons]; simp
  have hfst : ∀ M : List (Ev × Ev), (∀ e, (M.map Prod.fst).count e ≤ (a :: A).count e) →
      (M.map Prod.fst).count a ≤ A.count a → ∀ e, (M.map Prod.fst).count e ≤ A.count e := by
    intro M h1 h2 e
    by_cases he : a = e
    · subst he; exact h2
    · have := h1 e; rw [hcA, if_neg he] at this; omega
  have hsnd : ∀ M : List (Ev × Ev), (∀ e, (M.map Prod.snd).count e ≤ (b :: B).count e) →
      (M.map Prod.snd).count b ≤ B.count b → ∀ e, (M.map Prod.snd).count e ≤ B.count e := by
    intro M h1 h2 e
    by_cases he : b = e
    · subst he; exact h2
    · have := h1 e; rw [hcB, if_neg he] at this; omega
  by_cases ha : (L.map Prod.fst).count a ≤ A.count a
  · by_cases hb : (L.map Prod.snd).count b ≤ B.count b
    · exact ⟨L, ⟨hfst L h.1 ha, hsnd L h.2.1 hb, h.2.2⟩, by omega⟩
    · have hm : b ∈ L.map Prod.snd := List.count_pos_iff.1 (by omega)
      obtain ⟨p, hp, hpb⟩ := List.mem_map.1 hm
      have hperm := List.perm_cons_erase hp
      have h1 := pairing_cons (pairing_perm hperm h)
      refine ⟨L.erase p, ⟨hfst _ (fun e => by have := h1.1 e; omega) ?_, hsnd _ (fun e => by have := h1.2.1 e; omega) ?_, h1.2.2⟩, ?_⟩
      · have := (hperm.map Prod.fst).count_eq a
        rw [List.map_cons, List.count_cons] at this
        omega
      · have := h1.2.1 b
        rw [hcB, if_pos rfl, if_pos hpb] at this
        omega
      · rw [hperm.length_eq]; simp
  · have hm : a ∈ L.map Prod.fst := List.count_pos_iff.1 (by omega)
    obtain ⟨p, hp, hpa⟩ := List.mem_map.1 hm
    have hperm := List.perm_cons_erase hp
    have h0 := pairing_perm hperm h
    have h1 := pairing_cons h0
    have hpB : b.stamp ≤ p.2.stamp := hge' (pairing_mem_fst h hp).2
    have hpe := h.2.2 p hp
    rw [hpa] at hpe
    have hl := hperm.length_eq
    generalize L.erase p = L1 at *
    have ha1 : (L1.map Prod.fst).count a ≤ A.count a := by
      have := h1.1 a
      rw [hcA, if_pos rfl, if_pos hpa] at this
      omega
    by_cases hb : (L1.map Prod.snd).count b ≤ B.count b
    · exact ⟨L1, ⟨hfst _ (fun e => by have := h1.1 e; omega) ha1, hsnd _ (fun e => by have := h1.2.1 e; omega) hb, h1.2.2⟩,
        by rw [hl]; simp⟩
    · have hm : b ∈ L1.map Prod.snd := List.count_pos_iff.1 (by omega)
      obtain ⟨q, hq, hqb⟩ := List.mem_map.1 hm
      have hperm1 := List.perm_cons_erase hq
      have hqA : a.stamp ≤ q.1.stamp := hge (pairing_mem_fst h0 (List.mem_cons_of_mem _ hq)).1
      have hqe := h1.2.2 q hq
      rw [hqb] at hqe
      refine ⟨(q.1, p.2) :: L1.erase q, ⟨hfst _ (fun e => ?_) ?_, hsnd _ (fun e => ?_) ?_, ?_⟩, ?_⟩
      · have h2 := h1.1 e
        rw [(hperm1.map Prod.fst).count_eq e] at h2
        simp only [List.map_cons] at h2 ⊢
        omega
      · have h2 := ha1
        rw [(hperm1.map Prod.fst).count_eq a] at h2
        exact h2
      · have h2 := h1.2.1 e
        rw [(hperm1.map Prod.snd).count_eq e, List.map_cons, List.count_cons] at h2
        rw [List.map_cons, List.count_cons]
        simp only [beq_iff_eq] at h2 ⊢
        omega
      · have h2 := h1.2.1 b
        rw [(hperm1.map Prod.snd).count_eq b, List.map_cons, List.count_cons, hcB, if_pos rfl] at h2
        rw [List.map_cons, List.count_cons]
        simp only [beq_iff_eq, hqb, if_true] at h2 ⊢
        omega
      · intro r hr
        rcases List.mem_cons.1 hr with rfl | hr
        · simp only
          omega
        · exact h1.2.2 r (hperm1.mem_iff.2 (List.mem_cons_of_mem _ hr))
      · have := hperm1.length_eq
        simp only [List.length_cons] at this hl ⊢
        omega

theorem pairing_nil {eps : Int} {A B : List Ev} {L : List (Ev × Ev)} (h : Pairing eps A B L) (he : A = [] ∨ B = []) : L = [] := by
  cases L with
  | nil => rfl
  | cons p L =>
    have := pairing_mem_fst h (List.mem_cons_self ..)
    rcases he with rfl | rfl
    · exact absurd this.1 (by simp)
    · exact absurd this.2 (by simp)

/-- Pairs of a list of sets whose members are in order those of the streams. -/
theorem pairing_of_sublists {eps : Int} {A B : List Ev} {L : List (Ev × Ev)} (h1 : (L.map Prod.fst).Sublist A)
    (h2 : (L.map Prod.snd).Sublist B) (h3 : ∀ p ∈ L, p.1.stamp - p.2.stamp ≤ eps ∧ p.2.stamp - p.1.stamp ≤ eps) :
    Pairing eps A B L := ⟨fun e => h1.count_le e, fun e => h2.count_le e, h3⟩

theorem filter_hit_le {n : Nat} (t : Fin n → Ev) (L : List (Fin n → Ev)) (hL : ∀ i, (L.map (· i)).Nodup) (is : List (Fin n)) :
    (L.filter (fun T => is.any (fun i => T i == t i))).length ≤ is.length := by
  induction is with
  | nil => simp
  | cons i is ih =>
    have h1 : (L.filter (fun T => (i :: is).any (fun i => T i == t i))).length ≤
        (L.filter (fun T => T i == t i)).length + (L.filter (fun T => is.any (fun i => T i == t i))).length := by
      clear ih hL
      induction L with
      | nil => simp
      | cons T L ih =>
        simp only [List.filter_cons, List.any_cons] at ih ⊢
        cases h1 : (T i == t i) <;> cases h2 : is.any (fun i => T i == t i) <;> simp <;> omega
    have h2 : (L.filter (fun T => T i == t i)).length ≤ 1 := by
      have h3 : (L.filter (fun T => T i == t i)).length = (L.map (· i)).count (t i) := by
        clear h1 ih hL
        induction L with
        | nil => simp
        | cons T L ih =>
          rw [List.map_cons, List.count_cons, List.filter_cons]
          by_cases h : T i = t i
          · simp [h, ih]
          · have : (T i == t i) = false := by simpa using h
            simp [h, ih]
      rw [h3]
      exact List.nodup_iff_count.1 (hL i) _
    rw [List.length_cons]
    omega

theorem length_split {α : Type} (L : List α) (p : α → Bool) : L.length = (L.filter p).length + (L.filter (fun x => !p x)).length := by
  induction L with
  | nil => rfl
  | cons x L ih =>
    simp only [List.filter_cons, List.length_cons]
    cases p x <;> simp <;> omega

/-- If every set of a family without common messages meets an output set, there are at most `n` times as many of them. -/
theorem share_of_hits {n : Nat} (out : List (Fin n → Ev)) : ∀ L : List (Fin n → Ev), (∀ i, (L.map (· i)).Nodup) →
    (∀ T ∈ L, ∃ t ∈ out, ∃ i, t i = T i) → L.length ≤ n * out.length := by
  induction out with
  | nil =>
    intro L _ h
    cases L with
    | nil => simp
    | cons T L =>
      obtain ⟨t, ht, _⟩ := h T (by simp)
      cases ht
  | cons t out ih =>
    intro L hL h
    have h1 := filter_hit_le t L hL (List.finRange n)
    rw [List.length_finRange] at h1
    have h2 := ih (L.filter (fun T => !(List.finRange n).any (fun i => T i == t i)))
      (fun i => (hL i).sublist ((List.filter_sublist).map _)) (by
        intro T hT
        obtain ⟨hT, hn⟩ := List.mem_filter.1 hT
        obtain ⟨u, hu, i, hi⟩ := h T hT
        rcases List.mem_cons.1 hu with rfl | hu
        · exfalso
          have : (List.finRange n).any (fun i => T i == u i) = true :=
            List.any_eq_true.2 ⟨i, List.mem_finRange i, by simp [hi]⟩
          rw [this] at hn
          cases hn
        · exact ⟨u, hu, i, hi⟩)
    have h3 := length_split L (fun T => (List.finRange n).any (fun i => T i == t i))
    rw [List.length_cons, Nat.mul_add, Nat.mul_one]
    omega

theorem count_stream {n : Nat} (ops : List (Fin n × Ev)) (i : Fin n) (e : Ev) : (stream ops i).count e = ops.count (i, e) := by
  induction ops with
  | nil => rfl
  | cons op ops ih =>
    obtain ⟨j, x⟩ := op
    have : stream ((j, x) :: ops) i = if j = i then x :: stream ops i else stream ops i := by
      unfold stream
      rw [List.filter_cons]
      by_cases h : j = i
      · subst h; simp
      · simp [h]
    rw [this]
    by_cases h : j = i
    · subst h
      rw [if_pos rfl, List.count_cons, List.count_cons, ih]
      simp
    · rw [if_neg h, ih, List.count_cons_of_ne (by simp [h])]

theorem count_le_of_check {l l' : List Ev} (h : ∀ e ∈ l, l.count e ≤ l'.count e) (e : Ev) : l.count e ≤ l'.count e := by
  by_cases he : e ∈ l
  · exact h e he
  · rw [List.count_eq_zero.2 he]; omega

theorem pairsOf_map (out : List (Fin 2 → Option Ev)) (h : ∀ t ∈ out, ∀ i, ∃ e, t i = some e) :
    (pairsOf out).length = out.length ∧ (pairsOf out).map (fun p => some p.1) = out.map (· 0) ∧
      (pairsOf out).map (fun p => some p.2) = out.map (· 1) := by
  induction out with
  | nil => simp [pairsOf]
  | cons t out ih =>
    obtain ⟨x, hx⟩ := h t (by simp) 0
    obtain ⟨y, hy⟩ := h t (by simp) 1
    obtain ⟨h1, h2, h3⟩ := ih (fun u hu => h u (List.mem_cons_of_mem _ hu))
    have : pairsOf (t :: out) = (x, y) :: pairsOf out := by simp [pairsOf, hx, hy]
    rw [this]
    simp [h1, h2, h3, hx, hy]

theorem mem_pairsOf {out : List (Fin 2 → Option Ev)} {p : Ev × Ev} (h : p ∈ pairsOf out) :
    ∃ t ∈ out, t 0 = some p.1 ∧ t 1 = some p.2 := by
  obtain ⟨t, ht, hp⟩ := List.mem_filterMap.1 h
  refine ⟨t, ht, ?_⟩
  cases h0 : t 0 with
  | none => rw [h0] at hp; cases hp
  | some x =>
    cases h1 : t 1 with
    | none => rw [h0, h1] at hp; cases hp
    | some y => rw [h0, h1] at hp; cases hp; exact ⟨rfl, rfl⟩

theorem sublist_of_map_some {l l' : List Ev} (h : List.Sublist (l.map some) (l'.map some)) : List.Sublist l l' := by
  have := h.filterMap id
  simpa [List.filterMap_map] using this

/-- Output sets that are complete, close together and take the messages of each input in order are a pairing. -/
theorem pairing_of_out {eps : Int} {ops : List (Fin 2 × Ev)} {out : List (Fin 2 → Option Ev)} (h : ∀ t ∈ out, ∀ i, ∃ e, t i = some e)
    (hsub : ∀ i, List.Sublist (out.map (· i)) ((stream ops i).map some))
    (hspan : ∀ t ∈ out, ∀ i j x y, i ≠ j → t i = some x → t j = some y → x.stamp - y.stamp ≤ eps) :
    Pairing eps (stream ops 0) (stream ops 1) (pairsOf out) ∧ (pairsOf out).length = out.length := by
  obtain ⟨h1, h2, h3⟩ := pairsOf_map out h
  refine ⟨pairing_of_sublists (sublist_of_map_some ?_) (sublist_of_map_some ?_) ?_, h1⟩
  · rw [List.map_map]
    have := hsub 0
    rw [← h2] at this
    exact this
  · rw [List.map_map]
    have := hsub 1
    rw [← h3] at this
    exact this
  · intro p hp
    obtain ⟨t, ht, h4, h5⟩ := mem_pairsOf hp
    exact ⟨hspan t ht 0 1 _ _ (by decide) h4 h5, hspan t ht 1 0 _ _ (by decide) h5 h4⟩

end MF

namespace MF.Epsilon

theorem fire_within {eps : Int} {v : Fin 2 → List Ev} {x y : Ev} {tl tl' : List Ev} (h0 : v 0 = x :: tl) (h1 : v 1 = y :: tl')
    (hxy : x.stamp - y.stamp ≤ eps) (hyx : y.stamp - x.stamp ≤ eps) (hmax : x.stamp ≤ maxTime) (hmax' : y.stamp ≤ maxTime) :
    (fire eps v).1.length = 1 ∧ (fire eps v).2 0 = tl ∧ (fire eps v).2 1 = tl' := by
  have hcov : ∀ k : Fin 2, k = 0 ∨ k = 1 := by decide
  obtain ⟨o1, o2, o3⟩ := getOlder_spec v
  have hch : checkAll v eps (getOlder v) = true := by
    unfold checkAll
    rw [List.all_eq_true]
    intro k _
    unfold withinEpsilon
    split
    · rfl
    · rename_i hne
      have hlow : x.stamp ≤ (getOlder v).1 + eps ∧ y.stamp ≤ (getOlder v).1 + eps ∨ (getOlder v) = (maxTime, none) := by
        rcases o3 with o3 | ⟨j, e, tl'', hj, o3⟩
        · exact Or.inr o3
        · left
          rcases hcov j with rfl | rfl
          · rw [h0] at hj; cases hj
            rw [o3]; simp only
            rcases hcov k with rfl | rfl
            · rw [o3] at hne; exact absurd rfl hne
            · have := o2 1 y tl' h1
              rw [o3] at this; simp only at this
              omega
          · rw [h1] at hj; cases hj
            rw [o3]; simp only
            rcases hcov k with rfl | rfl
            · have := o2 0 x tl h0
              rw [o3] at this; simp only at this
              omega
            · rw [o3] at hne; exact absurd rfl hne
      rcases hcov k with rfl | rfl
      · rw [h0]; simp only [decide_eq_true_eq]
        rcases hlow with h | h
        · omega
        · rw [h]; simp only
          have := o2 0 x tl h0
          have := o2 1 y tl' h1
          rw [h] at *
          simp only at *
          omega
      · rw [h1]; simp only [decide_eq_true_eq]
        rcases hlow with h | h
        · omega
        · rw [h]; simp only
          have := o2 0 x tl h0
          have := o2 1 y tl' h1
          rw [h] at *
          simp only at *
          omega
  unfold fire
  rw [if_pos hch]
  refine ⟨rfl, ?_, ?_⟩
  · simp only [h0, List.tail_cons]
  · simp only [h1, List.tail_cons]

theorem steps_most {eps : Int} (heps : 0 ≤ eps) {v w : Fin 2 → List Ev} {o} (h : Steps eps v o w) (hw : ∃ i, w i = []) :
    (∀ i, TimeSorted (v i)) → (∀ i, ∀ e ∈ v i, e.stamp ≤ maxTime) →
    ∀ L, Pairing eps (v 0) (v 1) L → L.length ≤ o.length := by
  have hcov : ∀ k : Fin 2, k = 0 ∨ k = 1 := by decide
  induction h with
  | refl v =>
    intro _ _ L hL
    obtain ⟨i, hi⟩ := hw
    have : L = [] := pairing_nil hL (by rcases hcov i with rfl | rfl; exact Or.inl hi; exact Or.inr hi)
    rw [this]; simp
  | @head v o w hv _ ih =>
    intro hs hmax L hL
    have ih := ih hw (fun i => (fire_sorted eps v hv hs i).1) (fun i e he => hmax i e ((fire_sorted eps v hv hs i).2 e he))
    obtain ⟨a, A, hA⟩ := List.exists_cons_of_ne_nil (hv 0)
    obtain ⟨b, B, hB⟩ := List.exists_cons_of_ne_nil (hv 1)
    have hsA := hs 0
    have hsB := hs 1
    have hma := hmax 0 a (by rw [hA]; simp)
    have hmb := hmax 1 b (by rw [hB]; simp)
    rw [hA] at hsA hL
    rw [hB] at hsB hL
    rw [List.length_append]
    by_cases hab : a.stamp + eps < b.stamp
    · have hf := fire_too_old heps (i := 0) (j := 1) (by decide) hcov hA hB hab hmb
      rw [hf] at ih ⊢
      simp only [upd_same, upd_ne _ _ (by decide : (1 : Fin 2) ≠ 0), hB] at ih
      have := ih L (pairing_drop (by
        intro y hy
        rcases List.mem_cons.1 hy with rfl | hy
        · exact hab
        · have := (List.pairwise_cons.1 hsB).1 y hy; omega) hL)
      simpa using this
    · by_cases hba : b.stamp + eps < a.stamp
      · have hf := fire_too_old heps (i := 1) (j := 0) (by decide) (fun k => (hcov k).symm) hB hA hba hma
        rw [hf] at ih ⊢
        simp only [upd_same, upd_ne _ _ (by decide : (0 : Fin 2) ≠ 1), hA] at ih
        have := pairing_swap (pairing_drop (by
          intro x hx
          rcases List.mem_cons.1 hx with rfl | hx
          · exact hba
          · have := (List.pairwise_cons.1 hsA).1 x hx; omega) (pairing_swap hL))
        have := ih _ this
        simpa using this
      · obtain ⟨f1, f2, f3⟩ := fire_within hA hB (by omega) (by omega) hma hmb (eps := eps)
        obtain ⟨L', hL', hlen⟩ := pairing_match hsA hsB (by omega) (by omega) hL
        rw [f2, f3] at ih
        have := ih L' hL'
        omega

end MF.Epsilon
