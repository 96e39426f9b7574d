import Verif.Proofs.Approx6
/-
Helper lemmas about the ApproximateTime model, part 7: the maximum interval for inputs in any order.
-/
namespace MF.Approx

variable {n : Nat}

/-- Invariant for the maximum interval when the comparison of candidates is that of a linear cost. -/
def SpanLin (num den M : Int) (s : State n) : Prop :=
  (∀ t ∈ s.out, Within M t) ∧
  (s.pivot ≠ none → s.pivotTime ≤ s.candEnd ∧ num * s.candEnd - den * s.candStart ≤ (num - den) * s.pivotTime + den * M)

theorem lin_span {num den M P s e : Int} (hd : 0 < den) (hn : den ≤ num) (h1 : P ≤ e)
    (h2 : num * e - den * s ≤ (num - den) * P + den * M) : e - s ≤ M := by
  have h3 : (num - den) * P ≤ (num - den) * e := Int.mul_le_mul_of_nonneg_left h1 (by omega)
  have h4 : den * (e - s) ≤ den * M := by
    rw [Int.mul_sub]
    rw [Int.sub_mul, Int.sub_mul] at h3
    rw [Int.sub_mul] at h2
    omega
  exact Int.le_of_mul_le_mul_left h4 hd

theorem pstep_spanLin {num den M : Int} (hd : 0 < den) (hn : den ≤ num) {s s' : State n} (hi : LoopInv s)
    (_ : ∀ i, s.deques i ≠ []) (hM : s.cfg.maxInterval = M) (hf : ∀ x y, s.cfg.scale x < y → num * x < den * y)
    (hstep : PStep s s') (h : SpanLin num den M s) : SpanLin num den M s' := by
  have hx : ∀ m e p s1, IsStart s.deques m → IsEnd s.deques e → Examined s m e p s1 → After s m p s1 → SpanLin num den M s1 := by
    intro m e p s1 hm he hx ha
    refine ⟨by rw [ha.out]; exact h.1, fun _ => ?_⟩
    cases hx with
    | fresh h1 h2 h3 hp hs =>
      subst hs
      refine ⟨Int.le_refl _, ?_⟩
      show num * st s.deques e - den * st s.deques m ≤ (num - den) * st s.deques e + den * M
      have : den * (st s.deques e - st s.deques m) ≤ den * M := Int.mul_le_mul_of_nonneg_left (by omega) (by omega)
      rw [Int.sub_mul]
      rw [Int.mul_sub] at this
      omega
    | kept h1 h2 hs =>
      subst hs
      exact h.2 (by rw [h1]; simp)
    | better h1 h2 hs' =>
      subst hs'
      obtain ⟨c, hc, hpast⟩ := hi.pivoted p h1
      have h5 := h.2 (by rw [h1]; simp)
      refine ⟨?_, ?_⟩
      · show s.pivotTime ≤ st s.deques e
        obtain ⟨tl, h3⟩ := hc.head p
        unfold view at h3; rw [hpast, List.nil_append] at h3
        have := he.1 p
        rw [st_cons h3, hc.pivotTime] at this
        exact this
      · show num * st s.deques e - den * st s.deques m ≤ (num - den) * s.pivotTime + den * M
        have h6 := hf _ _ h2
        rw [Int.mul_sub, Int.mul_sub] at h6
        omega
  cases hstep with
  | delete m e hm he hp hc hs =>
    subst hs
    exact ⟨h.1, fun h0 => absurd hp h0⟩
  | go m e p hm he hx' ha hpm => exact hx m e p s' hm he hx' ha
  | publish m e p s1 hm he hx' ha hw hs' =>
    subst hs'
    have h1 := hx m e p s1 hm he hx' ha
    obtain ⟨c, hc⟩ := ha.candInv
    refine ⟨?_, fun h0 => absurd rfl h0⟩
    intro t ht
    rcases List.mem_append.1 (show t ∈ s1.out ++ [s1.cand] from ht) with ht | ht
    · exact h1.1 t ht
    · rw [List.mem_singleton] at ht
      subst ht
      intro i j x y hxi hyj
      rw [hc.cand i] at hxi
      rw [hc.cand j] at hyj
      cases hxi; cases hyj
      have h2 := h1.2 (by rw [hc.pivot]; simp)
      have := lin_span hd hn h2.1 h2.2
      have := hc.hi i; have := hc.lo j
      omega

theorem psteps_spanLin {num den M : Int} (hd : 0 < den) (hn : den ≤ num) {s s' : State n} (hi : LoopInv s)
    (hM : s.cfg.maxInterval = M) (hf : ∀ x y, s.cfg.scale x < y → num * x < den * y) (hstep : PSteps s s')
    (h : SpanLin num den M s) : SpanLin num den M s' := by
  have := psteps_ind (P := fun t => SpanLin num den M t ∧ t.cfg = s.cfg)
    (fun t t' a b c d => ⟨pstep_spanLin hd hn a b (by rw [d.2]; exact hM) (by rw [d.2]; exact hf) c d.1,
      by rw [pstep_cfg c, d.2]⟩) hi hstep ⟨h, rfl⟩
  exact this.2.2.1

theorem tdiv_lt {num den : Int} (hn : 0 ≤ num) (hd : 0 < den) (x y : Int) (h : (x * num).tdiv den < y) :
    num * x < den * y := by
  rcases Int.le_total 0 x with hx | hx
  · exact (ApproxSpec.tdiv_exact hn hd x y hx).1 h
  · have h1 : den * (x * num).tdiv den + (x * num).tmod den = x * num := Int.mul_tdiv_add_tmod _ _
    have h2 : (x * num).tmod den ≤ 0 := by
      have : 0 ≤ (-(x * num)).tmod den := Int.tmod_nonneg _ (by
        have := Int.mul_nonneg (a := -x) (b := num) (by omega) hn
        rw [Int.neg_mul] at this; exact this)
      rw [Int.neg_tmod] at this
      omega
    have h3 : den * (x * num).tdiv den < den * y := Int.mul_lt_mul_of_pos_left h hd
    rw [Int.mul_comm num x]
    omega

theorem tdiv_mono {num den : Int} (hn : 0 ≤ num) (hd : 0 < den) (x y : Int) (h : x ≤ y) :
    (x * num).tdiv den ≤ (y * num).tdiv den := by
  have hxy : x * num ≤ y * num := Int.mul_le_mul_of_nonneg_right h hn
  generalize x * num = a at *
  generalize y * num = b at *
  rcases Int.le_total 0 a with ha | ha
  · rw [Int.tdiv_eq_ediv_of_nonneg ha, Int.tdiv_eq_ediv_of_nonneg (by omega)]
    exact Int.ediv_le_ediv hd hxy
  · rcases Int.le_total 0 b with hb | hb
    · have h1 : a.tdiv den ≤ 0 := by
        have : 0 ≤ (-a).tdiv den := Int.tdiv_nonneg (by omega) (by omega)
        rw [Int.neg_tdiv] at this; omega
      have h2 : 0 ≤ b.tdiv den := Int.tdiv_nonneg hb (by omega)
      omega
    · have h1 : (-b).tdiv den ≤ (-a).tdiv den := by
        rw [Int.tdiv_eq_ediv_of_nonneg (by omega), Int.tdiv_eq_ediv_of_nonneg (by omega)]
        exact Int.ediv_le_ediv hd (by omega)
      rw [Int.neg_tdiv, Int.neg_tdiv] at h1
      omega

end MF.Approx
