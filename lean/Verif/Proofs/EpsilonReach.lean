import Verif.Spec.EpsilonReach
import Verif.Proofs.EpsilonFits
import Verif.Proofs.EpsilonRoom
import Verif.Proofs.PyReach
/-
Two inputs: what an overflowing queue of an ApproximateEpsilonTime synchronizer loses does not matter if no later message is
within epsilon of it.
-/
namespace MF.Epsilon

variable {n : Nat}

/-- An iteration with two inputs one of which is too old. -/
theorem fire_too_old {eps : Int} (heps : 0 ≤ eps) {v : Fin n → List Ev} {i j : Fin n} (hij : i ≠ j) (hcov : ∀ k, k = i ∨ k = j)
    {x y : Ev} {tl tl' : List Ev} (hi : v i = x :: tl) (hj : v j = y :: tl') (hlt : x.stamp + eps < y.stamp)
    (hmax : y.stamp ≤ maxTime) : fire eps v = ([], upd v i tl) := by
  obtain ⟨o1, o2, o3⟩ := getOlder_spec v
  have hold : getOlder v = (x.stamp, some i) := by
    have hle := o2 i x tl hi
    rcases o3 with o3 | ⟨k, e, tl'', hk, o3⟩
    · rw [o3] at hle; simp only at hle; omega
    · rcases hcov k with rfl | rfl
      · rw [hi] at hk; cases hk; exact o3
      · rw [hj] at hk; cases hk
        rw [o3] at hle; simp only at hle; omega
  have hch : checkAll v eps (getOlder v) = false := by
    rw [Bool.eq_false_iff]
    intro h
    unfold checkAll at h
    have := List.all_eq_true.1 h j (List.mem_finRange j)
    unfold withinEpsilon at this
    rw [hold] at this
    simp only [Option.some.injEq] at this
    rw [if_neg (Ne.symm hij), hj] at this
    simp only [decide_eq_true_eq] at this
    omega
  unfold fire
  rw [hch]
  simp only [Bool.false_eq_true, if_false]
  refine Prod.ext rfl ?_
  funext k
  dsimp only
  rcases hcov k with rfl | rfl
  · rw [upd_same, hold]
    simp only [onSync, hi]
    rw [if_pos (by rw [decide_eq_true_eq]; omega)]
    rfl
  · rw [upd_ne _ _ (Ne.symm hij), hold]
    simp only [onSync, hj]
    rw [if_neg (by rw [decide_eq_true_eq]; omega)]

/-- Messages that are not within epsilon of the new one make no difference in front of the queue. -/
theorem steps_in_front {eps : Int} (heps : 0 ≤ eps) {i j : Fin n} (hij : i ≠ j) (hcov : ∀ k, k = i ∨ k = j) {e : Ev}
    (hemax : e.stamp ≤ maxTime) {v0 w0 : Fin n → List Ev} {o} (h0j : v0 j = [e]) (h0i : v0 i ≠ []) (hst : Steps eps v0 o w0)
    (hw0 : ∃ k, w0 k = []) : ∀ (d : List Ev) (v : Fin n → List Ev), v j = [e] → v i = d ++ v0 i → TimeSorted (v i) →
    (∀ x ∈ v i, x.stamp ≤ maxTime) → (∀ x ∈ d, x.stamp - e.stamp ≤ eps → e.stamp - x.stamp ≤ eps → False) →
    ∃ w, Steps eps v o w ∧ (∃ k, w k = []) ∧ ∀ k, ∃ d', w k = d' ++ w0 k ∧ (d' ≠ [] → k = i ∧ w0 i = v0 i) := by
  intro d
  induction d with
  | nil =>
    intro v hj hi _ _ _
    have : v = v0 := by
      funext k
      rcases hcov k with rfl | rfl
      · simpa using hi
      · rw [hj, h0j]
    rw [this]
    exact ⟨w0, hst, hw0, fun k => ⟨[], rfl, fun h => absurd rfl h⟩⟩
  | cons x d ih =>
    intro v hj hi hsort hmax hno
    have hv : ∀ k, v k ≠ [] := by
      intro k
      rcases hcov k with rfl | rfl
      · rw [hi]; simp
      · rw [hj]; simp
    rcases Int.lt_or_le (x.stamp + eps) e.stamp with hlt | hge
    · have hf := fire_too_old heps hij hcov (tl := d ++ v0 i) (by rw [hi]; rfl) hj hlt hemax
      rw [hi] at hsort hmax
      obtain ⟨w, h1, h2, h3⟩ := ih (upd v i (d ++ v0 i)) (by rw [upd_ne _ _ (Ne.symm hij), hj]) (by rw [upd_same])
        (by rw [upd_same]; exact (List.pairwise_cons.1 hsort).2)
        (by rw [upd_same]; exact fun y hy => hmax y (by simp only [List.cons_append, List.mem_cons]; exact Or.inr hy))
        (fun y hy => hno y (List.mem_cons_of_mem _ hy))
      refine ⟨w, ?_, h2, h3⟩
      have := Steps.head (eps := eps) hv (o := o) (w := w) (by rw [hf]; exact h1)
      rw [hf] at this
      simpa using this
    · have hgt : e.stamp + eps < x.stamp := by
        rcases Int.lt_or_le (e.stamp + eps) x.stamp with h | h
        · exact h
        · exact (hno x (List.mem_cons_self ..) (by omega) (by omega)).elim
      rw [hi] at hsort hmax
      have hf := fire_too_old heps (Ne.symm hij) (fun k => (hcov k).symm) (v := v) (tl' := d ++ v0 i) hj (by rw [hi]; rfl) hgt
        (hmax x (by simp))
      obtain ⟨u, us, hu⟩ := List.exists_cons_of_ne_nil h0i
      have hux : x.stamp ≤ u.stamp := (List.pairwise_cons.1 hsort).1 u (by rw [hu]; simp)
      have hf0 := fire_too_old heps (Ne.symm hij) (fun k => (hcov k).symm) (v := v0) h0j hu (by omega)
        (hmax u (by rw [hu]; simp))
      have hv0 : ∀ k, v0 k ≠ [] := by
        intro k
        rcases hcov k with rfl | rfl
        · exact h0i
        · rw [h0j]; simp
      obtain ⟨ho, hw⟩ := steps_det hst (Steps.head hv0 (Steps.refl _)) hw0 ⟨j, by rw [hf0]; exact upd_same ..⟩
      rw [hf0] at ho hw
      refine ⟨(fire eps v).2, ?_, ⟨j, by rw [hf]; exact upd_same ..⟩, ?_⟩
      · have := Steps.head (eps := eps) hv (Steps.refl _)
        rw [ho]
        rw [hf] at this ⊢
        exact this
      · intro k
        rw [hf, hw]
        rcases hcov k with rfl | rfl
        · refine ⟨x :: d, ?_, fun _ => ⟨rfl, ?_⟩⟩
          · simp only; rw [upd_ne _ _ hij, upd_ne _ _ hij, hi]
          · simp only; rw [upd_ne _ _ hij]
        · exact ⟨[], by simp only; rw [upd_same, upd_same]; rfl, fun h => absurd rfl h⟩

theorem Recent.prefix {q : Nat} {eps : Int} {ops : List (Fin n × Ev)} {op} (h : Recent q eps (ops ++ [op])) : Recent q eps ops := by
  rintro pre j e post rfl
  exact h pre j e (post ++ [op]) (by simp)

/-- With two inputs the output is that of the iterations on the complete streams, and what is left of them ends with what is
in the queues. -/
theorem run_recent [NeZero n] {fuel q : Nat} {eps : Int} (heps : 0 ≤ eps) (hq : 0 < q) {a b : Fin n} (hab : a ≠ b)
    (hcov : ∀ k, k = a ∨ k = b) : ∀ (ops : List (Fin n × Ev)) (s : State n), run fuel (construct n q eps) ops = .ok s →
    (∀ i, TimeSorted (stream ops i)) → (∀ op ∈ ops, op.2.stamp ≤ maxTime) → Recent q eps ops →
    ∃ w, Steps eps (stream ops) s.out w ∧ (∃ k, w k = []) ∧
      ∀ i, ∃ d, w i = d ++ s.events i ∧ (d ≠ [] → (s.events i).length = q) := by
  apply runE_induction
  · intro _ _ _
    have : stream ([] : List (Fin n × Ev)) = fun _ => [] := by funext i; rfl
    rw [this]; exact ⟨fun _ => [], Steps.refl _, ⟨a, rfl⟩, fun i => ⟨[], rfl, fun h => absurd rfl h⟩⟩
  · intro ops s op s' hr ih hs hsort hmax hrec
    obtain ⟨j, e⟩ := op
    simp only at hs
    obtain ⟨hinv, hse, hsq⟩ := run_inv hr
    obtain ⟨w, hw, _, hd⟩ := ih (fun i => by
        have := hsort i
        unfold TimeSorted at this ⊢
        rw [stream_append] at this
        exact (List.pairwise_append.1 this).1) (fun o ho => hmax o (by simp [ho])) hrec.prefix
    have hnil : ∀ k, s.events k = [] → w k = [] := by
      intro k hk
      obtain ⟨d, h1, h2⟩ := hd k
      rw [hk, List.append_nil] at h1
      rw [h1]
      apply Classical.byContradiction
      intro hne
      have := h2 hne
      rw [hk] at this
      simp at this
      omega
    have hext := steps_extend hw (upd (fun _ => []) j [e])
    have h1 : extend (stream ops) (upd (fun _ => []) j [e]) = stream (ops ++ [(j, e)]) := by
      funext k
      unfold extend
      by_cases hk : k = j
      · subst hk; rw [upd_same, stream_snoc_same]
      · rw [upd_ne _ _ hk, stream_snoc_ne _ _ (Ne.symm hk)]; simp
    have h2 : extend w (upd (fun _ => []) j [e]) = upd w j (w j ++ [e]) := by
      funext k
      unfold extend
      by_cases hk : k = j
      · subst hk; rw [upd_same, upd_same]
      · rw [upd_ne _ _ hk, upd_ne _ _ hk]; simp
    rw [h1, h2] at hext
    have hempty : (∃ k, upd s.events j (s.events j ++ [e]) k = []) → ∃ k, upd w j (w j ++ [e]) k = [] := by
      rintro ⟨k, hk⟩
      refine ⟨k, ?_⟩
      by_cases hkj : k = j
      · subst hkj; rw [upd_same] at hk; simp at hk
      · rw [upd_ne _ _ hkj] at hk ⊢; exact hnil k hk
    obtain ⟨hinv', _, _, sp⟩ := add_ok hinv hs
    cases sp with
    | processed o hall hsteps hout =>
      have hj0 : s.events j = [] := by
        obtain ⟨k, hk⟩ := hinv.someEmpty
        by_cases hkj : k = j
        · rw [← hkj]; exact hk
        · have := hall k
          rw [upd_ne _ _ hkj] at this
          exact absurd hk this
      obtain ⟨i, hij, hcov'⟩ : ∃ i, i ≠ j ∧ ∀ k, k = i ∨ k = j := by
        rcases hcov j with rfl | rfl
        · exact ⟨b, Ne.symm hab, fun k => (hcov k).symm⟩
        · exact ⟨a, hab, hcov⟩
      obtain ⟨d, hdi, hdq⟩ := hd i
      have hwj := hnil j hj0
      have hvi : upd s.events j (s.events j ++ [e]) i = s.events i := upd_ne _ _ hij
      have hst := steps_input hw i
      obtain ⟨c, hc, _⟩ := hst
      have hsi := hsort i
      unfold TimeSorted at hsi
      rw [stream_snoc_ne _ _ (Ne.symm hij), hc] at hsi
      obtain ⟨w', g1, g2, g3⟩ := steps_in_front heps hij hcov' (hmax (j, e) (by simp)) (v0 := upd s.events j (s.events j ++ [e]))
        (by rw [upd_same, hj0]; rfl) (hall i) (hse ▸ hsteps) hinv'.someEmpty d (upd w j (w j ++ [e]))
        (by rw [upd_same, hwj]; rfl) (by rw [upd_ne _ _ hij, hvi, hdi]) (by rw [upd_ne _ _ hij]; exact (List.pairwise_append.1 hsi).2.1)
        (by
          rw [upd_ne _ _ hij]
          intro x hx
          refine hmax (i, x) ?_
          rw [List.mem_append]
          exact Or.inl (mem_stream.1 (by rw [hc]; simp [hx])))
        (by
          intro x hx hx1 hx2
          obtain ⟨d1, d2, rfl⟩ := List.append_of_mem hx
          have := hrec ops j e [] rfl i hij (c ++ d1) x (d2 ++ s.events i) (by rw [hc, hdi]; simp) hx1 hx2
          have h5 := hdq (by simp)
          rw [List.length_append] at this
          omega)
      refine ⟨w', by rw [hout]; exact steps_trans hext g1, g2, ?_⟩
      intro k
      obtain ⟨d', g4, g5⟩ := g3 k
      refine ⟨d', g4, fun hne => ?_⟩
      obtain ⟨rfl, g6⟩ := g5 hne
      rw [g6, hvi]
      apply hdq
      rintro rfl
      -- nothing was in front of the queue, so nothing is
      have hveq : upd w j (w j ++ [e]) = upd s.events j (s.events j ++ [e]) := by
        funext l
        by_cases hl : l = j
        · subst hl; rw [upd_same, upd_same, hwj, hj0]
        · rw [upd_ne _ _ hl, upd_ne _ _ hl]
          rcases hcov' l with rfl | h
          · simpa using hdi
          · exact absurd h hl
      rw [hveq] at g1
      obtain ⟨_, hww⟩ := steps_det g1 (hse ▸ hsteps) g2 hinv'.someEmpty
      rw [hww] at g4
      exact hne (List.self_eq_append_left.1 g4)
    | queued hnot hlen hev hout =>
      refine ⟨_, by rw [hout]; exact hext, hempty hnot, fun k => ?_⟩
      obtain ⟨d, g1, g2⟩ := hd k
      rw [hev]
      by_cases hk : k = j
      · subst hk
        rw [upd_same, upd_same, g1]
        refine ⟨d, by simp, fun hne => ?_⟩
        have := g2 hne
        omega
      · rw [upd_ne _ _ hk, upd_ne _ _ hk]
        exact ⟨d, g1, g2⟩
    | overflow hnot hlen hev hout =>
      refine ⟨_, by rw [hout]; exact hext, hempty hnot, fun k => ?_⟩
      obtain ⟨d, g1, g2⟩ := hd k
      rw [hev]
      by_cases hk : k = j
      · subst hk
        rw [upd_same, upd_same, g1]
        have hb := hinv.bound k
        cases hl : s.events k with
        | nil => rw [hl] at hlen; simp at hlen; omega
        | cons x xs =>
          rw [hl] at hlen hb
          simp only [List.length_cons] at hlen hb
          refine ⟨d ++ [x], by simp, fun _ => ?_⟩
          simp
          omega
      · rw [upd_ne _ _ hk, upd_ne _ _ hk]
        exact ⟨d, g1, g2⟩

/-- Among messages in strict time order it is the same to count the newer ones. -/
theorem recent_of_reach {q : Nat} {eps : Int} {ops : List (Fin n × Ev)} (hs : ∀ i, StrictlyTimeSorted (stream ops i))
    (hr : Py.Reach q (eps + 1) ops) : Recent q eps ops := by
  rintro pre j e post rfl i hij older x newer hst h1 h2
  have hsi := hs i
  unfold StrictlyTimeSorted at hsi
  rw [stream_append, hst] at hsi
  have hsi := (List.pairwise_append.1 hsi).1
  have := (hr pre j e post rfl).2 i hij x (by rw [hst]; simp) (by omega) (by omega)
  refine Nat.lt_of_le_of_lt ?_ this
  unfold newerOn
  rw [hst, List.filter_append, List.length_append, List.filter_cons_of_neg (by simp), (List.filter_eq_self (l := newer)).2]
  · omega
  · intro y hy
    rw [decide_eq_true_eq]
    exact (List.pairwise_cons.1 (List.pairwise_append.1 hsi).2.1).1 y hy

/-- The condition of C97 is stronger. -/
theorem recent_of_ahead {q : Nat} {eps : Int} {ops : List (Fin n × Ev)} (hs : ∀ i, TimeSorted (stream ops i))
    (ha : AheadAtMost q eps ops) : Recent q eps ops := by
  rintro pre j e post rfl i hij older x newer hst h1 h2
  have hk := ha (pre.length + 1) i j hij
  rw [List.take_append, List.take_of_length_le (Nat.le_succ _), show pre.length + 1 - pre.length = 1 by omega] at hk
  simp only [List.take_succ_cons, List.take_zero] at hk
  have hsj := hs j
  have hsi := hs i
  unfold TimeSorted at hsi hsj
  rw [stream_append, hst] at hsi
  rw [stream_append] at hsj
  have hle : ∀ y ∈ stream (pre ++ [(j, e)]) j, y.stamp ≤ e.stamp := by
    intro y hy
    rw [stream_snoc_same, List.mem_append] at hy
    rcases hy with hy | hy
    · exact (List.pairwise_append.1 hsj).2.2 y hy e (mem_stream.2 (by simp))
    · simp at hy; rw [hy]; exact Int.le_refl _
  have hall : ∀ y ∈ x :: newer, ((stream (pre ++ [(j, e)]) j).all (fun z => decide (z.stamp - eps ≤ y.stamp))) = true := by
    intro y hy
    rw [List.all_eq_true]
    intro z hz
    have h3 := hle z hz
    have h4 : x.stamp ≤ y.stamp := by
      rcases List.mem_cons.1 hy with rfl | hy
      · exact Int.le_refl _
      · exact (List.pairwise_cons.1 (List.pairwise_append.1 (List.pairwise_append.1 hsi).1).2.1).1 y hy
    rw [decide_eq_true_eq]
    omega
  unfold notBehind at hk
  rw [stream_snoc_ne _ _ (Ne.symm hij), hst, List.filter_append, List.length_append, List.filter_eq_self.2 hall, List.length_cons] at hk
  omega

end MF.Epsilon
