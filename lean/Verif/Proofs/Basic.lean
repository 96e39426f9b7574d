import Verif.Spec.Sync
/-
Generic lemmas.
-/
namespace MF

@[simp] theorem upd_same {n : Nat} {α : Type} (f : Fin n → α) (i : Fin n) (a : α) : upd f i a i = a := by simp [upd]

theorem upd_ne {n : Nat} {α : Type} (f : Fin n → α) {i j : Fin n} (a : α) (h : j ≠ i) : upd f i a j = f j := by
  simp [upd, h]

theorem runE_append {S O : Type} (step : S → O → Except Fault S) (s : S) (xs ys : List O) :
    runE step s (xs ++ ys) = match runE step s xs with | .error f => .error f | .ok s' => runE step s' ys := by
  induction xs generalizing s with
  | nil => rfl
  | cons x xs ih =>
    simp only [List.cons_append, runE]
    cases step s x with
    | error f => rfl
    | ok s' => exact ih s'

theorem runE_snoc_ok {S O : Type} {step : S → O → Except Fault S} {s : S} {xs : List O} {op : O} {s2 : S}
    (h : runE step s (xs ++ [op]) = .ok s2) : ∃ s1, runE step s xs = .ok s1 ∧ step s1 op = .ok s2 := by
  rw [runE_append] at h
  cases h1 : runE step s xs with
  | error f => rw [h1] at h; cases h
  | ok s1 =>
    rw [h1] at h
    simp only [runE] at h
    cases h2 : step s1 op with
    | error f => rw [h2] at h; cases h
    | ok s3 => rw [h2] at h; cases h; exact ⟨s1, rfl, h2⟩

theorem snoc_induction {α : Type} {P : List α → Prop} (h0 : P []) (hs : ∀ l a, P l → P (l ++ [a])) : ∀ l, P l := by
  have : ∀ k (l : List α), l.length = k → P l := by
    intro k
    induction k with
    | zero => intro l hl; rw [List.eq_nil_of_length_eq_zero hl]; exact h0
    | succ k ih =>
      intro l hl
      rcases List.eq_nil_or_concat l with h | ⟨l', a, h⟩
      · subst h; simp at hl
      · rw [List.concat_eq_append] at h; subst h
        exact hs l' a (ih l' (by simpa using hl))
  exact fun l => this _ l rfl

/-- Induction over the last call of a successful history. -/
theorem runE_induction {S O : Type} {step : S → O → Except Fault S} {P : List O → S → Prop} {s0 : S} (h0 : P [] s0)
    (hstep : ∀ ops s op s', runE step s0 ops = .ok s → P ops s → step s op = .ok s' → P (ops ++ [op]) s') :
    ∀ ops s, runE step s0 ops = .ok s → P ops s := by
  intro ops
  induction ops using snoc_induction with
  | h0 => intro s h; simp only [runE, Except.ok.injEq] at h; subst h; exact h0
  | hs ops op ih =>
    intro s h
    obtain ⟨s1, h1, h2⟩ := runE_snoc_ok h
    exact hstep ops s1 op s h1 (ih s1 h1) h2

/-- If an invariant is preserved and makes every step succeed, then every history succeeds. -/
theorem runE_ok {S O : Type} {step : S → O → Except Fault S} {I : S → Prop}
    (hstep : ∀ s op, I s → ∃ s', step s op = .ok s' ∧ I s') :
    ∀ (ops : List O) s, I s → ∃ s', runE step s ops = .ok s' ∧ I s' := by
  intro ops
  induction ops with
  | nil => intro s h; exact ⟨s, rfl, h⟩
  | cons op ops ih =>
    intro s h
    obtain ⟨s1, h1, h2⟩ := hstep s op h
    obtain ⟨s2, h3, h4⟩ := ih s1 h2
    exact ⟨s2, by simp [runE, h1, h3], h4⟩

theorem runE_inv {S O : Type} {step : S → O → Except Fault S} {I : S → Prop}
    (hstep : ∀ s op s', I s → step s op = .ok s' → I s') :
    ∀ (ops : List O) s s', I s → runE step s ops = .ok s' → I s' := by
  intro ops
  induction ops with
  | nil => intro s s' h h1; cases h1; exact h
  | cons op ops ih =>
    intro s s' h h1
    simp only [runE] at h1
    cases h2 : step s op with
    | error f => rw [h2] at h1; cases h1
    | ok s1 => rw [h2] at h1; exact ih s1 s' (hstep s op s1 h h2) h1

theorem stream_nil {n : Nat} (i : Fin n) : stream ([] : List (Fin n × Ev)) i = [] := rfl

theorem stream_append {n : Nat} (xs ys : List (Fin n × Ev)) (i : Fin n) :
    stream (xs ++ ys) i = stream xs i ++ stream ys i := by
  simp [stream]

theorem stream_snoc_same {n : Nat} (ops : List (Fin n × Ev)) (i : Fin n) (e : Ev) :
    stream (ops ++ [(i, e)]) i = stream ops i ++ [e] := by
  simp [stream]

theorem stream_snoc_ne {n : Nat} (ops : List (Fin n × Ev)) {i j : Fin n} (e : Ev) (h : j ≠ i) :
    stream (ops ++ [(j, e)]) i = stream ops i := by
  simp [stream, h]

theorem mem_stream {n : Nat} {ops : List (Fin n × Ev)} {i : Fin n} {e : Ev} :
    e ∈ stream ops i ↔ (i, e) ∈ ops := by
  simp only [stream, List.mem_map, List.mem_filter, decide_eq_true_eq]
  constructor
  · rintro ⟨⟨j, e'⟩, ⟨h1, h2⟩, h3⟩
    simp only at h2 h3; subst h2; subst h3; exact h1
  · intro h; exact ⟨(i, e), ⟨h, rfl⟩, rfl⟩

end MF

namespace MF

/-- Two lists ordered by an asymmetric relation with the same members are equal. -/
theorem pairwise_ext {α : Type} {R : α → α → Prop} (hR : ∀ a b, R a b → R b a → False) :
    ∀ {l m : List α}, l.Pairwise R → m.Pairwise R → (∀ x, x ∈ l ↔ x ∈ m) → l = m := by
  intro l
  induction l with
  | nil =>
    intro m _ _ h
    cases m with
    | nil => rfl
    | cons b m => exact absurd ((h b).2 (by simp)) (by simp)
  | cons a l ih =>
    intro m hl hm h
    cases m with
    | nil => exact absurd ((h a).1 (by simp)) (by simp)
    | cons b m =>
      have hl' := List.pairwise_cons.1 hl
      have hm' := List.pairwise_cons.1 hm
      have irr : ∀ x, ¬ R x x := fun x hx => hR x x hx hx
      have hab : a = b := by
        rcases List.mem_cons.1 ((h a).1 (by simp)) with h1 | h1
        · exact h1
        · rcases List.mem_cons.1 ((h b).2 (by simp)) with h2 | h2
          · exact h2.symm
          · exact (hR a b (hl'.1 b h2) (hm'.1 a h1)).elim
      subst hab
      congr 1
      apply ih hl'.2 hm'.2
      intro x
      constructor
      · intro hx
        rcases List.mem_cons.1 ((h x).1 (by simp [hx])) with h1 | h1
        · subst h1; exact (irr x (hl'.1 x hx)).elim
        · exact h1
      · intro hx
        rcases List.mem_cons.1 ((h x).2 (by simp [hx])) with h1 | h1
        · subst h1; exact (irr x (hm'.1 x hx)).elim
        · exact h1

/-- A list ordered by an asymmetric relation whose members occur in another such list is a sublist of it. -/
theorem pairwise_sublist {α : Type} {R : α → α → Prop} (hR : ∀ a b, R a b → R b a → False) :
    ∀ {m l : List α}, l.Pairwise R → m.Pairwise R → (∀ x ∈ l, x ∈ m) → List.Sublist l m := by
  intro m
  induction m with
  | nil =>
    intro l _ _ h
    cases l with
    | nil => exact List.Sublist.slnil
    | cons b l => exact absurd (h b (by simp)) (by simp)
  | cons a m ih =>
    intro l hl hm h
    have hm' := List.pairwise_cons.1 hm
    cases l with
    | nil => exact List.nil_sublist _
    | cons b l =>
      have hl' := List.pairwise_cons.1 hl
      rcases List.mem_cons.1 (h b (by simp)) with h1 | h1
      · subst h1
        apply List.Sublist.cons_cons
        apply ih hl'.2 hm'.2
        intro x hx
        rcases List.mem_cons.1 (h x (by simp [hx])) with h2 | h2
        · subst h2; exact (hR x x (hl'.1 x hx) (hl'.1 x hx)).elim
        · exact h2
      · apply List.Sublist.cons
        apply ih hl hm'.2
        intro x hx
        rcases List.mem_cons.1 (h x hx) with h2 | h2
        · subst h2
          rcases List.mem_cons.1 hx with h3 | h3
          · subst h3; exact h1
          · exact (hR x b (hm'.1 b h1) (hl'.1 x h3)).elim
        · exact h2

end MF
