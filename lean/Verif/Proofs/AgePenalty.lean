import Verif.Proofs.ApproxSpec
import Verif.Spec.ApproxChoice
/-
Helpers for C132: the best sets of the same messages for two age penalties.
-/
namespace MF.ApproxSpec

variable {n : Nat}

/-- Of two best sets of the same messages, the one for the larger age penalty is older but wider. -/
theorem best_age_penalty [NeZero n] {M num num' den : Int} (hden : 0 < den) (hnum : den ≤ num) (hlt : num < num') {d : Fin n → List Ev}
    {C C' : Fin n → Ev} (h : Best M num den d C) (h' : Best M num' den d C') :
    endOf C' ≤ endOf C ∧ startOf C' ≤ startOf C ∧ endOf C - startOf C ≤ endOf C' - startOf C' := by
  have h1 : num * endOf C - den * startOf C ≤ num * endOf C' - den * startOf C' := by
    rcases h.2 C' h'.1 with h | h
    · exact Int.le_of_lt h
    · exact Int.le_of_eq h.1
  have h2 : num' * endOf C' - den * startOf C' ≤ num' * endOf C - den * startOf C := by
    rcases h'.2 C h.1 with h | h
    · exact Int.le_of_lt h
    · exact Int.le_of_eq h.1
  generalize endOf C = e at *
  generalize endOf C' = e' at *
  generalize startOf C = s at *
  generalize startOf C' = s' at *
  have he : e' ≤ e := by
    apply Classical.byContradiction
    intro hc
    have h3 : 0 < (num' - num) * (e' - e) := Int.mul_pos (by omega) (by omega)
    rw [Int.sub_mul, Int.mul_sub, Int.mul_sub] at h3
    omega
  have h3 : 0 ≤ (num - den) * (e - e') := Int.mul_nonneg (by omega) (by omega)
  rw [Int.sub_mul, Int.mul_sub, Int.mul_sub] at h3
  have h4 : e - e' ≤ s - s' := by
    apply Classical.byContradiction
    intro hc
    have h5 : 0 < den * ((e - e') - (s - s')) := Int.mul_pos hden (by omega)
    rw [Int.mul_sub, Int.mul_sub, Int.mul_sub] at h5
    omega
  exact ⟨he, by omega, by omega⟩

/-- On every input the older one of two messages. -/
def olderOf (T C : Fin n → Ev) : Fin n → Ev := fun i => if (T i).stamp ≤ (C i).stamp then T i else C i

theorem olderOf_spec (T C : Fin n → Ev) (i : Fin n) : (olderOf T C i).stamp ≤ (C i).stamp ∧ (olderOf T C i).stamp ≤ (T i).stamp ∧
    (olderOf T C i = C i ∨ olderOf T C i = T i) := by
  by_cases hc : (T i).stamp ≤ (C i).stamp
  · have : olderOf T C i = T i := if_pos hc
    rw [this]; exact ⟨hc, Int.le_refl _, Or.inr rfl⟩
  · have : olderOf T C i = C i := if_neg hc
    rw [this]; exact ⟨Int.le_refl _, by omega, Or.inl rfl⟩

/-- The older messages of a possible set and a contiguous one are a contiguous set. -/
theorem contiguous_olderOf {M : Int} {d : Fin n → List Ev} {T C : Fin n → Ev} (hT : Possible M d T) (hC : Contiguous M d C) :
    Contiguous M d (olderOf T C) := by
  have ho := olderOf_spec T C
  refine ⟨⟨fun i => ?_, fun i j => ?_⟩, fun ⟨U, hU, hlt⟩ => hC.2 ⟨U, hU, fun i => ?_⟩⟩
  · rcases (ho i).2.2 with hi | hi <;> rw [hi]
    · exact hC.1.1 i
    · exact hT.1 i
  · have hi := ho i
    rcases (ho j).2.2 with hj | hj <;> rw [hj]
    · have := hC.1.2 i j; omega
    · have := hT.2 i j; omega
  · have := hlt i; have := (ho i).1; omega

theorem endOf_olderOf [NeZero n] (T C : Fin n → Ev) : endOf (olderOf T C) ≤ endOf T := by
  have h3 := (olderOf_spec T C (newest (olderOf T C))).2.1
  have h4 := le_endOf T (newest (olderOf T C))
  show (olderOf T C (newest (olderOf T C))).stamp ≤ _
  omega

/-- Moreover, each of its messages is at least as old as the other one's. -/
theorem best_age_penalty_each [NeZero n] {M num num' den : Int} (hden : 0 < den) (hnum : den ≤ num) (hlt : num < num') {d : Fin n → List Ev}
    {C C' : Fin n → Ev} (h : Best M num den d C) (h' : Best M num' den d C') (i : Fin n) : (C' i).stamp ≤ (C i).stamp := by
  have ⟨_, h2, _⟩ := best_age_penalty hden hnum hlt h h'
  have hT := olderOf_spec C' C
  have hstart : startOf C' ≤ startOf (olderOf C' C) := by
    show _ ≤ (olderOf C' C (oldest (olderOf C' C))).stamp
    rcases (hT (oldest (olderOf C' C))).2.2 with hi | hi <;> rw [hi]
    · have := startOf_le C (oldest (olderOf C' C)); omega
    · exact startOf_le C' _
  have hcost : cost num' den (olderOf C' C) ≤ cost num' den C' := by
    have h3 : num' * endOf (olderOf C' C) ≤ num' * endOf C' := Int.mul_le_mul_of_nonneg_left (endOf_olderOf C' C) (by omega)
    have h4 : den * startOf C' ≤ den * startOf (olderOf C' C) := Int.mul_le_mul_of_nonneg_left hstart (by omega)
    unfold cost
    omega
  rcases h'.2 _ (contiguous_olderOf h'.1.1 h.1) with h3 | h3
  · omega
  · have := h3.2 i; have := (hT i).1; omega

/-- Without age penalty the best set is one of least span. -/
theorem best_no_penalty [NeZero n] {M den : Int} (hden : 0 < den) {d : Fin n → List Ev} {C : Fin n → Ev} (h : Best M den den d C)
    (T : Fin n → Ev) (hT : Contiguous M d T) : endOf C - startOf C ≤ endOf T - startOf T := by
  have h1 : cost den den C ≤ cost den den T := by
    rcases h.2 T hT with h | h
    · exact Int.le_of_lt h
    · exact Int.le_of_eq h.1
  unfold cost at h1
  rw [← Int.mul_sub, ← Int.mul_sub] at h1
  exact Int.le_of_mul_le_mul_left h1 hden

/-- With a large age penalty the best set is the one complete first. -/
theorem best_large_penalty [NeZero n] {M num den : Int} (hden : 0 < den) (hnum : den * (M + 1) < num) {d : Fin n → List Ev} {C : Fin n → Ev}
    (h : Best M num den d C) (T : Fin n → Ev) (hT : Possible M d T) : endOf C ≤ endOf T := by
  apply Classical.byContradiction
  intro hc
  have hX := contiguous_olderOf hT h.1
  have hend := endOf_olderOf T C
  generalize olderOf T C = X at hX hend
  have h1 : cost num den C ≤ cost num den X := by
    rcases h.2 X hX with h | h
    · exact Int.le_of_lt h
    · exact Int.le_of_eq h.1
  have h2 : startOf C ≤ endOf C := startOf_le C _
  have h3 : endOf X - startOf X ≤ M := hX.1.2 _ _
  have h0 : 0 ≤ M := by have := hT.2 0 0; omega
  unfold cost at h1
  generalize endOf C = e at *
  generalize endOf X = x at *
  generalize startOf C = s at *
  generalize startOf X = y at *
  have h4 : den * (s - y) ≤ den * (e - x + M) := Int.mul_le_mul_of_nonneg_left (by omega) (by omega)
  have h6 : den * (e - x + M) ≤ den * ((M + 1) * (e - x)) := by
    apply Int.mul_le_mul_of_nonneg_left _ (by omega)
    have h7 : M * 1 ≤ M * (e - x) := Int.mul_le_mul_of_nonneg_left (by omega) h0
    rw [Int.add_mul]
    omega
  have h8 : (den * (M + 1)) * (e - x) < num * (e - x) := Int.mul_lt_mul_of_pos_right hnum (by omega)
  rw [Int.mul_assoc] at h8
  rw [Int.mul_sub] at h4
  rw [Int.mul_sub num] at h8
  omega

/-- On every input the newer one of two messages. -/
def newerOf (T C : Fin n → Ev) : Fin n → Ev := fun i => if (C i).stamp ≤ (T i).stamp then T i else C i

theorem newerOf_spec (T C : Fin n → Ev) (i : Fin n) : (C i).stamp ≤ (newerOf T C i).stamp ∧ (T i).stamp ≤ (newerOf T C i).stamp ∧
    (newerOf T C i = C i ∨ newerOf T C i = T i) := by
  by_cases hc : (C i).stamp ≤ (T i).stamp
  · have : newerOf T C i = T i := if_pos hc
    rw [this]; exact ⟨hc, Int.le_refl _, Or.inr rfl⟩
  · have : newerOf T C i = C i := if_neg hc
    rw [this]; exact ⟨Int.le_refl _, by omega, Or.inl rfl⟩

/-- A best set has on every input the first message from its oldest one on. -/
theorem best_first [NeZero n] {M num den : Int} (hden : 0 < den) (hnum : 0 ≤ num) {d : Fin n → List Ev} {C : Fin n → Ev}
    (h : Best M num den d C) (p j : Fin n) (x : Ev) (hx : x ∈ d p) (hj : (C j).stamp ≤ x.stamp) : (C p).stamp ≤ x.stamp := by
  apply Classical.byContradiction
  intro hc
  let Y : Fin n → Ev := fun i => if i = p then x else C i
  have hYp : Y p = x := if_pos rfl
  have hYi : ∀ i, i ≠ p → Y i = C i := fun i hi => if_neg hi
  have hle : ∀ i, (Y i).stamp ≤ (C i).stamp := by
    intro i
    by_cases hi : i = p
    · rw [hi, hYp]; omega
    · rw [hYi i hi]; exact Int.le_refl _
  have hge : ∀ i, (C j).stamp ≤ (Y i).stamp ∨ Y i = C i := by
    intro i
    by_cases hi : i = p
    · rw [hi, hYp]; exact Or.inl hj
    · exact Or.inr (hYi i hi)
  have hcon : Contiguous M d Y := by
    refine ⟨⟨fun i => ?_, fun a b => ?_⟩, fun ⟨U, hU, hlt⟩ => h.1.2 ⟨U, hU, fun i => ?_⟩⟩
    · by_cases hi : i = p
      · rw [hi, hYp]; exact hx
      · rw [hYi i hi]; exact h.1.1.1 i
    · have ha := hle a
      rcases hge b with hb | hb
      · have := h.1.1.2 a j; omega
      · rw [hb]; have := h.1.1.2 a b; omega
    · have := hlt i; have := hle i; omega
  have hend : endOf Y ≤ endOf C := by
    show (Y (newest Y)).stamp ≤ _
    have := hle (newest Y); have := le_endOf C (newest Y); omega
  have hstart : startOf C ≤ startOf Y := by
    show _ ≤ (Y (oldest Y)).stamp
    rcases hge (oldest Y) with hb | hb
    · have := startOf_le C j; omega
    · rw [hb]; exact startOf_le C _
  have h3 : num * endOf Y ≤ num * endOf C := Int.mul_le_mul_of_nonneg_left hend hnum
  have h4 : den * startOf C ≤ den * startOf Y := Int.mul_le_mul_of_nonneg_left hstart (by omega)
  rcases h.2 Y hcon with h5 | h5
  · unfold cost at h5; omega
  · have := h5.2 p; rw [hYp] at this; omega

/-- The best set for a larger penalty and a larger maximum interval is older on every input, also if it may use older messages than the other
one. -/
theorem best_later [NeZero n] {M M' num num' den : Int} (hM : M ≤ M') (hden : 0 < den) (hnum : den ≤ num) (hle : num ≤ num')
    {d d' : Fin n → List Ev}
    (hsub : ∀ i x, x ∈ d i → x ∈ d' i) (hup : ∀ i x y, x ∈ d' i → y ∈ d i → y.stamp ≤ x.stamp → x ∈ d i)
    {C C' : Fin n → Ev} (h : Best M num den d C) (h' : Best M' num' den d' C') (i : Fin n) : (C' i).stamp ≤ (C i).stamp := by
  have hpos : ∀ {T}, Possible M d T → Possible M' d' T := fun hT => ⟨fun i => hsub i _ (hT.1 i), fun a b => Int.le_trans (hT.2 a b) hM⟩
  have ho := olderOf_spec C C'
  have hn := newerOf_spec C C'
  have hX := contiguous_olderOf (hpos h.1.1) h'.1
  have e1 : endOf (olderOf C C') ≤ endOf C := endOf_olderOf C C'
  have e2 : endOf (olderOf C C') ≤ endOf C' := by
    show (olderOf C C' (newest (olderOf C C'))).stamp ≤ _
    have := (ho (newest (olderOf C C'))).1; have := le_endOf C' (newest (olderOf C C')); omega
  have e3 : endOf (newerOf C C') ≤ endOf C ∨ endOf (newerOf C C') ≤ endOf C' := by
    show (newerOf C C' (newest (newerOf C C'))).stamp ≤ _ ∨ (newerOf C C' (newest (newerOf C C'))).stamp ≤ _
    rcases (hn (newest (newerOf C C'))).2.2 with hi | hi <;> rw [hi]
    · exact Or.inr (le_endOf _ _)
    · exact Or.inl (le_endOf _ _)
  have s1 : startOf C ≤ startOf (newerOf C C') := by
    show _ ≤ (newerOf C C' (oldest (newerOf C C'))).stamp
    have := (hn (oldest (newerOf C C'))).2.1; have := startOf_le C (oldest (newerOf C C')); omega
  have s2 : startOf C' ≤ startOf (newerOf C C') := by
    show _ ≤ (newerOf C C' (oldest (newerOf C C'))).stamp
    have := (hn (oldest (newerOf C C'))).1; have := startOf_le C' (oldest (newerOf C C')); omega
  have s3 : startOf C ≤ startOf (olderOf C C') ∨ startOf C' ≤ startOf (olderOf C C') := by
    show _ ≤ (olderOf C C' (oldest (olderOf C C'))).stamp ∨ _ ≤ (olderOf C C' (oldest (olderOf C C'))).stamp
    rcases (ho (oldest (olderOf C C'))).2.2 with hi | hi <;> rw [hi]
    · exact Or.inr (startOf_le _ _)
    · exact Or.inl (startOf_le _ _)
  rcases h'.2 _ hX with h3 | h3
  · exfalso
    unfold cost at h3
    have hspan : endOf C - startOf C ≤ M := h.1.1.2 _ _
    have hw : endOf (newerOf C C') - startOf (newerOf C C') ≤ M := by
      have m0 : den * (endOf C' - endOf (olderOf C C')) ≤ num' * (endOf C' - endOf (olderOf C C')) :=
        Int.mul_le_mul_of_nonneg_right (by omega) (by omega)
      rw [Int.mul_sub num'] at m0
      have m4 : den * (endOf C' - endOf (olderOf C C')) < den * (startOf C' - startOf (olderOf C C')) := by
        rw [Int.mul_sub den (startOf C')]; omega
      have m5 := Int.lt_of_mul_lt_mul_left m4 (by omega)
      omega
    have hJ : Contiguous M d (newerOf C C') := by
      refine ⟨⟨fun i => ?_, fun a b => ?_⟩, fun ⟨U, hU, hlt⟩ => ?_⟩
      · rcases (hn i).2.2 with hi | hi
        · rw [hi]
          exact hup i _ _ (h'.1.1.1 i) (h.1.1.1 i) (by have := (hn i).2.1; rw [hi] at this; exact this)
        · rw [hi]; exact h.1.1.1 i
      · have := le_endOf (newerOf C C') a; have := startOf_le (newerOf C C') b; omega
      · have hq := hlt (newest U)
        have h1 : (C (newest U)).stamp ≤ (U (newest U)).stamp := by
          apply Classical.byContradiction
          intro hc
          apply h.1.2
          refine ⟨U, hU, fun k => ?_⟩
          apply Classical.byContradiction
          intro hk
          exact hc (best_first hden (by omega) h _ k _ (hU.1 _) (by have := le_endOf U k; unfold endOf at this; omega))
        have h2 : (C' (newest U)).stamp ≤ (U (newest U)).stamp := by
          apply Classical.byContradiction
          intro hc
          apply h'.1.2
          refine ⟨U, hpos hU, fun k => ?_⟩
          apply Classical.byContradiction
          intro hk
          exact hc (best_first hden (by omega) h' _ k _ (hsub _ _ (hU.1 _)) (by have := le_endOf U k; unfold endOf at this; omega))
        rcases (hn (newest U)).2.2 with hi | hi <;> rw [hi] at hq <;> omega
    have hc1 : num * endOf C - den * startOf C ≤ num * endOf (newerOf C C') - den * startOf (newerOf C C') := by
      rcases h.2 _ hJ with h | h
      · exact Int.le_of_lt h
      · exact Int.le_of_eq h.1
    clear hw hspan
    generalize endOf C = e at *
    generalize endOf C' = e' at *
    generalize startOf C = s at *
    generalize startOf C' = s' at *
    generalize endOf (olderOf C C') = x at *
    generalize startOf (olderOf C C') = y at *
    generalize endOf (newerOf C C') = w at *
    generalize startOf (newerOf C C') = z at *
    have m1 : den * (s' - y) ≤ den * (z - s) := Int.mul_le_mul_of_nonneg_left (by omega) (by omega)
    have m2 : num * (w - e) ≤ num * (e' - x) := Int.mul_le_mul_of_nonneg_left (by omega) (by omega)
    have m3 : num * (e' - x) ≤ num' * (e' - x) := Int.mul_le_mul_of_nonneg_right hle (by omega)
    rw [Int.mul_sub, Int.mul_sub] at m1 m2 m3
    omega
  · have := h3.2 i; have := (ho i).2.1; omega

/-- Of the sets for two penalties and two maximum intervals, the larger ones give as many, and each is older than that of the other one at the
same place. -/
theorem chosen_later [NeZero n] {M M' num num' den : Int} (hM : M ≤ M') (hden : 0 < den) (hnum : den ≤ num) (hle : num ≤ num')
    {l : List (Fin n → Ev)} :
    ∀ {d d' : Fin n → List Ev} {l' : List (Fin n → Ev)}, (∀ i x, x ∈ d i → x ∈ d' i) →
    (∀ i x y, x ∈ d' i → y ∈ d i → y.stamp ≤ x.stamp → x ∈ d i) → Chosen M num den d l → Chosen M' num' den d' l' →
    ∀ (k : Nat) (C : Fin n → Ev), l[k]? = some C → ∃ C', l'[k]? = some C' ∧ ∀ i, (C' i).stamp ≤ (C i).stamp := by
  induction l with
  | nil => intro d d' l' _ _ _ _ k C hk; simp at hk
  | cons B l ih =>
    intro d d' l' hsub hup hl hl' k C hk
    cases hl with
    | set hB hl =>
    cases hl' with
    | done hno => exact absurd ⟨B, fun i => hsub i _ (hB.1.1.1 i), fun a b => Int.le_trans (hB.1.1.2 a b) hM⟩ hno
    | @set _ B' l' hB' hl' =>
      have hBB := best_later hM hden hnum hle hsub hup hB hB'
      cases k with
      | zero =>
        simp only [List.getElem?_cons_zero, Option.some.injEq] at hk ⊢
        subst hk
        exact ⟨B', rfl, hBB⟩
      | succ k =>
        simp only [List.getElem?_cons_succ] at hk ⊢
        refine ih ?_ ?_ hl hl' k C hk
        · intro i x hx
          simp only [newerThan, List.mem_filter, decide_eq_true_eq] at hx ⊢
          exact ⟨hsub i x hx.1, by have := hBB i; omega⟩
        · intro i x y hx hy hxy
          simp only [newerThan, List.mem_filter, decide_eq_true_eq] at hx hy ⊢
          exact ⟨hup i x y hx.1 hy.1 hxy, by omega⟩

end MF.ApproxSpec

namespace MF.Approx

/-- An output set at a place of the beginning of a sequence is the set of the sequence at that place. -/
theorem getElem?_of_lifted {n : Nat} {out : List (Fin n → Option Ev)} {l : List (Fin n → Ev)} {k : Nat} {C : Fin n → Ev}
    (h : out <+: l.map (fun t i => some (t i))) (hk : out[k]? = some (fun i => some (C i))) : l[k]? = some C := by
  have hlt : k < out.length := (List.getElem?_eq_some_iff.1 hk).1
  obtain ⟨r, hr⟩ := h
  have h1 : (l.map (fun (t : Fin n → Ev) i => some (t i)))[k]? = some (fun i => some (C i)) := by
    rw [← hr, List.getElem?_append_left hlt]; exact hk
  rw [List.getElem?_map] at h1
  cases hl : l[k]? with
  | none => rw [hl] at h1; simp at h1
  | some B =>
    rw [hl] at h1
    simp only [Option.map_some, Option.some.injEq] at h1
    exact congrArg some (funext fun i => Option.some.inj (congrFun h1 i))

end MF.Approx
