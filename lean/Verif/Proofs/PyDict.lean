import Verif.Model.PySync
import Verif.Proofs.Basic
/-
Lemmas about dicts, `evict`, `common`.
-/
namespace MF.Py

variable {V : Type} {n : Nat}

/-- A dict never has a key twice, and here every message is stored under its stamp. -/
structure DOk (d : Dict Ev) : Prop where
  nodup : d.keys.Nodup
  stamp : ∀ p ∈ d, p.2.stamp = p.1

theorem DOk.nil : DOk [] := ⟨List.nodup_nil, by simp⟩

theorem mem_keys {d : Dict V} {k : Int} : k ∈ d.keys ↔ ∃ v, (k, v) ∈ d := by
  simp [Dict.keys]

theorem get_some {d : Dict V} (hd : d.keys.Nodup) {k : Int} {v : V} : d.get k = some v ↔ (k, v) ∈ d := by
  induction d with
  | nil => simp [Dict.get]
  | cons p d ih =>
    obtain ⟨k', v'⟩ := p
    simp only [Dict.keys, List.map_cons, List.nodup_cons] at hd
    have ih' := ih hd.2
    by_cases h : k' = k
    · subst h
      simp only [Dict.get, List.find?_cons, decide_true, Option.map_some, Option.some.injEq, List.mem_cons, Prod.mk.injEq,
        true_and]
      constructor
      · intro h; exact Or.inl h.symm
      · rintro (h | h)
        · exact h.symm
        · exact absurd (List.mem_map.mpr ⟨(k', v), h, rfl⟩) hd.1
    · simp only [Dict.get, List.find?_cons, h, decide_false] at ih' ⊢
      rw [ih']
      simp [Ne.symm h]

theorem get_isSome {d : Dict V} {k : Int} : (d.get k).isSome ↔ k ∈ d.keys := by
  simp [Dict.get, Dict.keys]

theorem get_none {d : Dict V} {k : Int} : d.get k = none ↔ k ∉ d.keys := by
  rw [← get_isSome]
  cases d.get k <;> simp

theorem keys_set (d : Dict V) (k : Int) (v : V) : (d.set k v).keys = if k ∈ d.keys then d.keys else d.keys ++ [k] := by
  unfold Dict.set
  split
  · simp only [Dict.keys, List.map_map]
    apply List.map_congr_left
    intro p _
    simp only [Function.comp]
    split <;> simp_all
  · simp [Dict.keys]

theorem mem_keys_set {d : Dict V} {k k' : Int} {v : V} : k' ∈ (d.set k v).keys ↔ k' = k ∨ k' ∈ d.keys := by
  rw [keys_set]
  split
  · constructor
    · exact Or.inr
    · rintro (h | h)
      · subst h; assumption
      · exact h
  · simp [or_comm]

theorem nodup_keys_set {d : Dict V} (hd : d.keys.Nodup) (k : Int) (v : V) : (d.set k v).keys.Nodup := by
  rw [keys_set]
  split
  · exact hd
  · rw [List.nodup_append]
    refine ⟨hd, by simp, ?_⟩
    intro a ha b hb
    simp only [List.mem_singleton] at hb
    subst hb
    rintro rfl
    contradiction

theorem mem_set {d : Dict V} {k : Int} {v : V} {p : Int × V} : p ∈ d.set k v ↔ p = (k, v) ∨ (p ∈ d ∧ p.1 ≠ k) := by
  obtain ⟨a, b⟩ := p
  unfold Dict.set
  split
  · rename_i hk
    simp only [List.mem_map]
    constructor
    · rintro ⟨q, hq, h⟩
      split at h
      · exact Or.inl h.symm
      · subst h; exact Or.inr ⟨hq, by assumption⟩
    · rintro (h | ⟨h1, h2⟩)
      · obtain ⟨w, hw⟩ := mem_keys.mp hk
        exact ⟨(k, w), hw, by simp [h]⟩
      · exact ⟨(a, b), h1, if_neg h2⟩
  · rename_i hk
    simp only [List.mem_append, List.mem_singleton]
    constructor
    · rintro (h | h)
      · right
        refine ⟨h, ?_⟩
        rintro rfl
        exact hk (mem_keys.mpr ⟨_, h⟩)
      · exact Or.inl h
    · rintro (h | h)
      · exact Or.inr h
      · exact Or.inl h.1

theorem length_set (d : Dict V) (k : Int) (v : V) :
    (d.set k v).length = if k ∈ d.keys then d.length else d.length + 1 := by
  unfold Dict.set
  split <;> simp

theorem DOk.set {d : Dict Ev} (h : DOk d) (e : Ev) : DOk (d.set e.stamp e) := by
  refine ⟨nodup_keys_set h.nodup _ _, ?_⟩
  intro p hp
  rcases mem_set.mp hp with rfl | hp
  · rfl
  · exact h.stamp p hp.1

theorem mem_del {d : Dict V} {k : Int} {p : Int × V} : p ∈ d.del k ↔ p ∈ d ∧ p.1 ≠ k := by
  simp [Dict.del]

theorem keys_del (d : Dict V) (k : Int) : (d.del k).keys = d.keys.filter (fun x => decide (x ≠ k)) := by
  unfold Dict.del Dict.keys
  rw [List.filter_map]
  rfl

theorem mem_keys_del {d : Dict V} {k k' : Int} : k' ∈ (d.del k).keys ↔ k' ∈ d.keys ∧ k' ≠ k := by
  rw [keys_del]; simp

theorem del_sublist (d : Dict V) (k : Int) : (d.del k).Sublist d := List.filter_sublist

theorem DOk.sublist {d d' : Dict Ev} (h : DOk d) (hs : d'.Sublist d) : DOk d' :=
  ⟨h.nodup.sublist (hs.map _), fun p hp => h.stamp p (hs.subset hp)⟩

theorem length_del {d : Dict V} (hd : d.keys.Nodup) {k : Int} (hk : k ∈ d.keys) : (d.del k).length + 1 = d.length := by
  induction d with
  | nil => simp [Dict.keys] at hk
  | cons p d ih =>
    obtain ⟨a, b⟩ := p
    simp only [Dict.keys, List.map_cons, List.nodup_cons] at hd
    by_cases h : a = k
    · subst h
      have : Dict.del ((a, b) :: d) a = d := by
        unfold Dict.del
        rw [List.filter_cons_of_neg (by simp)]
        apply List.filter_eq_self.mpr
        intro p hp
        simp only [decide_eq_true_eq]
        rintro rfl
        exact hd.1 (List.mem_map.mpr ⟨p, hp, rfl⟩)
      rw [this]; rfl
    · have h2 : Dict.del ((a, b) :: d) k = (a, b) :: Dict.del d k := by
        unfold Dict.del
        rw [List.filter_cons_of_pos (by simp [h])]
      rw [h2]
      have hk' : k ∈ Dict.keys d := by
        simp only [Dict.keys, List.map_cons, List.mem_cons] at hk
        rcases hk with hk | hk
        · exact absurd hk.symm h
        · exact hk
      simp [ih hd.2 hk']

theorem foldl_min_le (l : List Int) (a : Int) : l.foldl min a ≤ a ∧ ∀ x ∈ l, l.foldl min a ≤ x := by
  induction l generalizing a with
  | nil => simp
  | cons b l ih =>
    simp only [List.foldl_cons, List.mem_cons]
    obtain ⟨h1, h2⟩ := ih (min a b)
    refine ⟨by omega, ?_⟩
    rintro x (rfl | hx)
    · omega
    · exact h2 x hx

theorem foldl_min_mem (l : List Int) (a : Int) : l.foldl min a = a ∨ l.foldl min a ∈ l := by
  induction l generalizing a with
  | nil => simp
  | cons b l ih =>
    simp only [List.foldl_cons, List.mem_cons]
    rcases ih (min a b) with h | h
    · rw [h]
      by_cases hab : a ≤ b
      · left; omega
      · right; left; omega
    · exact Or.inr (Or.inr h)

theorem foldl_max_ge (l : List Int) (a : Int) : a ≤ l.foldl max a ∧ ∀ x ∈ l, x ≤ l.foldl max a := by
  induction l generalizing a with
  | nil => simp
  | cons b l ih =>
    simp only [List.foldl_cons, List.mem_cons]
    obtain ⟨h1, h2⟩ := ih (max a b)
    refine ⟨by omega, ?_⟩
    rintro x (rfl | hx)
    · omega
    · exact h2 x hx

theorem foldl_max_mem (l : List Int) (a : Int) : l.foldl max a = a ∨ l.foldl max a ∈ l := by
  induction l generalizing a with
  | nil => simp
  | cons b l ih =>
    simp only [List.foldl_cons, List.mem_cons]
    rcases ih (max a b) with h | h
    · rw [h]
      by_cases hab : b ≤ a
      · left; omega
      · right; left; omega
    · exact Or.inr (Or.inr h)

theorem minKey_some {d : Dict V} {k : Int} (h : d.minKey = some k) : k ∈ d.keys ∧ ∀ x ∈ d.keys, k ≤ x := by
  unfold Dict.minKey at h
  cases hk : d.keys with
  | nil => rw [hk] at h; cases h
  | cons a l =>
    rw [hk] at h
    simp only [Option.some.injEq] at h
    subst h
    obtain ⟨h1, h2⟩ := foldl_min_le l a
    refine ⟨?_, ?_⟩
    · rcases foldl_min_mem l a with h | h
      · rw [h]; simp
      · exact List.mem_cons_of_mem _ h
    · intro x hx
      rcases List.mem_cons.mp hx with rfl | hx
      · exact h1
      · exact h2 x hx

theorem minKey_none {d : Dict V} : d.minKey = none ↔ d = [] := by
  unfold Dict.minKey
  cases d <;> simp [Dict.keys]

/-- What eviction leaves: a part of the dict, of the right size; what is gone is older than what is left. -/
structure Evicted (size : Int) (d d' : Dict Ev) : Prop where
  sub : d'.Sublist d
  len : (d'.length : Int) = if (d.length : Int) ≤ size then (d.length : Int) else size
  older : ∀ k ∈ d.keys, k ∉ d'.keys → ∀ k' ∈ d'.keys, k < k'

theorem evict_spec {size : Int} (hs : 0 ≤ size) : ∀ (fuel : Nat) (d : Dict Ev), d.keys.Nodup → d.length < fuel →
    ∃ d', evict size fuel d = .ok (some d') ∧ Evicted size d d' := by
  intro fuel
  induction fuel with
  | zero => intro d _ h; omega
  | succ fuel ih =>
    intro d hd hf
    unfold evict
    split
    · rename_i hlen
      cases hm : d.minKey with
      | none =>
        rw [minKey_none] at hm
        subst hm
        simp at hlen
        omega
      | some k =>
        obtain ⟨hk, hmin⟩ := minKey_some hm
        have hl := length_del hd hk
        have hnd : (d.del k).keys.Nodup := hd.sublist ((del_sublist d k).map _)
        obtain ⟨d', h1, h2⟩ := ih (d.del k) hnd (by omega)
        refine ⟨d', h1, h2.sub.trans (del_sublist d k), ?_, ?_⟩
        · have h3 := h2.len
          split at h3 <;> split <;> omega
        · intro x hx hx' y hy
          by_cases hxk : x = k
          · subst hxk
            have hy1 : y ∈ (d.del x).keys := (h2.sub.map _).subset hy
            obtain ⟨hy2, hy3⟩ := mem_keys_del.mp hy1
            have := hmin y hy2
            omega
          · exact h2.older x (mem_keys_del.mpr ⟨hx, hxk⟩) hx' y hy
    · rename_i hlen
      refine ⟨d, rfl, List.Sublist.refl d, ?_, fun k h1 h2 => absurd h1 h2⟩
      split <;> omega

theorem evict_negative {size : Int} (hs : size < 0) : ∀ (fuel : Nat) (d : Dict Ev), d.keys.Nodup → d.length < fuel →
    evict size fuel d = .ok none := by
  intro fuel
  induction fuel with
  | zero => intro d _ h; omega
  | succ fuel ih =>
    intro d hd hf
    unfold evict
    rw [if_pos (by omega)]
    cases hm : d.minKey with
    | none => rfl
    | some k =>
      have hl := length_del hd (minKey_some hm).1
      exact ih (d.del k) (hd.sublist ((del_sublist d k).map _)) (by omega)

theorem mem_foldl_inter (ls : List (List Int)) (a : List Int) (k : Int) :
    k ∈ ls.foldl inter a ↔ k ∈ a ∧ ∀ l ∈ ls, k ∈ l := by
  induction ls generalizing a with
  | nil => simp
  | cons l ls ih =>
    simp only [List.foldl_cons, ih, inter, List.mem_filter, decide_eq_true_eq, List.mem_cons, forall_eq_or_imp]
    exact and_assoc

theorem foldl_inter_sublist (ls : List (List Int)) (a : List Int) : (ls.foldl inter a).Sublist a := by
  induction ls generalizing a with
  | nil => exact List.Sublist.refl a
  | cons l ls ih => exact (ih (inter a l)).trans List.filter_sublist

theorem mem_common [NeZero n] {qs : Fin n → Dict Ev} {k : Int} : k ∈ common qs ↔ ∀ j, k ∈ (qs j).keys := by
  unfold common
  have hmem : ∀ l, l ∈ List.ofFn (fun j => (qs j).keys) ↔ ∃ j, (qs j).keys = l := by
    intro l
    simp [List.mem_ofFn]
  cases h : List.ofFn (fun j => (qs j).keys) with
  | nil =>
    have := congrArg List.length h
    simp at this
    exact absurd this (NeZero.ne n)
  | cons a ls =>
    rw [h] at hmem
    simp only [mem_foldl_inter]
    constructor
    · rintro ⟨h1, h2⟩ j
      rcases List.mem_cons.mp ((hmem _).mpr ⟨j, rfl⟩) with h3 | h3
      · rw [h3]; exact h1
      · exact h2 _ h3
    · intro hall
      have : ∀ l ∈ a :: ls, k ∈ l := by
        intro l hl
        obtain ⟨j, rfl⟩ := (hmem l).mp hl
        exact hall j
      exact ⟨this a (by simp), fun l hl => this l (by simp [hl])⟩

theorem nodup_common {qs : Fin n → Dict Ev} (h : ∀ j, (qs j).keys.Nodup) : (common qs).Nodup := by
  unfold common
  cases hl : List.ofFn (fun j => (qs j).keys) with
  | nil => exact List.nodup_nil
  | cons a ls =>
    have ha : a ∈ List.ofFn (fun j => (qs j).keys) := by rw [hl]; simp
    simp only [List.mem_ofFn] at ha
    obtain ⟨j, rfl⟩ := ha
    exact (h j).sublist (foldl_inter_sublist ls _)

theorem allSome_some {f : Fin n → Option Ev} {g : Fin n → Ev} : allSome f = some g ↔ ∀ j, f j = some (g j) := by
  unfold allSome
  constructor
  · intro h
    split at h
    · rename_i hs
      cases h
      intro j
      simp
    · cases h
  · intro h
    have hs : ∀ j, (f j).isSome := fun j => by rw [h j]; rfl
    rw [dif_pos hs]
    congr
    funext j
    simp [h j]

theorem allSome_none {f : Fin n → Option Ev} : allSome f = none ↔ ∃ j, f j = none := by
  unfold allSome
  split
  · rename_i hs
    simp only [reduceCtorEq, false_iff]
    rintro ⟨j, hj⟩
    have := hs j
    rw [hj] at this
    cases this
  · rename_i hs
    simp only [true_iff]
    apply Classical.byContradiction
    intro hn
    apply hs
    intro j
    cases hj : f j with
    | none => exact absurd ⟨j, hj⟩ hn
    | some v => rfl

theorem insertBy_perm {α : Type} (le : α → α → Bool) (a : α) (l : List α) : (insertBy le a l).Perm (a :: l) := by
  induction l with
  | nil => exact List.Perm.refl _
  | cons b l ih =>
    unfold insertBy
    split
    · exact List.Perm.refl _
    · exact (List.Perm.cons b ih).trans (List.Perm.swap a b l)

theorem sorted_perm {α : Type} (le : α → α → Bool) (l : List α) : (sorted le l).Perm l := by
  induction l with
  | nil => exact List.Perm.refl _
  | cons a l ih => exact (insertBy_perm le a _).trans (List.Perm.cons a ih)

theorem mem_sorted {α : Type} {le : α → α → Bool} {l : List α} {a : α} : a ∈ sorted le l ↔ a ∈ l :=
  (sorted_perm le l).mem_iff

theorem pairwise_insertBy {α : Type} {le : α → α → Bool} (trans : ∀ a b c, le a b = true → le b c = true → le a c = true)
    (total : ∀ a b, (le a b || le b a) = true) (a : α) {l : List α} (h : l.Pairwise (fun a b => le a b = true)) :
    (insertBy le a l).Pairwise (fun a b => le a b = true) := by
  induction l with
  | nil => simp [insertBy]
  | cons b l ih =>
    unfold insertBy
    rw [List.pairwise_cons] at h
    split
    · rename_i hab
      refine List.Pairwise.cons ?_ (List.Pairwise.cons h.1 h.2)
      intro c hc
      rcases List.mem_cons.mp hc with rfl | hc
      · exact hab
      · exact trans _ _ _ hab (h.1 c hc)
    · rename_i hab
      refine List.Pairwise.cons ?_ (ih h.2)
      intro c hc
      rcases List.mem_cons.mp ((insertBy_perm le a l).mem_iff.mp hc) with rfl | hc
      · have := total c b
        simp only [Bool.or_eq_true] at this
        rcases this with h1 | h1
        · exact absurd h1 hab
        · exact h1
      · exact h.1 c hc

theorem pairwise_sorted {α : Type} {le : α → α → Bool} (trans : ∀ a b c, le a b = true → le b c = true → le a c = true)
    (total : ∀ a b, (le a b || le b a) = true) (l : List α) : (sorted le l).Pairwise (fun a b => le a b = true) := by
  induction l with
  | nil => exact List.Pairwise.nil
  | cons a l ih => exact pairwise_insertBy trans total a ih

end MF.Py
