import Verif.Proofs.RoundsApprox
import Verif.Spec.Rates
import Verif.Spec.EpsilonRoom
import Verif.Spec.ApproxRoom
import Verif.Spec.ExactRoom
/-
Helper lemmas about inputs with known rates and delays.
-/
namespace MF

variable {n : Nat} {R : Nat → Fin n → Ev} {arr : Nat → Fin n → Int} {ops : List (Fin n × Ev)} {p G D : Int}

theorem Paced.add (h : Paced R p) (k m : Nat) (i : Fin n) : (R k i).stamp + (m : Int) * p ≤ (R (k + m) i).stamp := by
  induction m with
  | zero => simp
  | succ m ih =>
    have h1 := h (k + m) i
    have h2 : ((m + 1 : Nat) : Int) * p = (m : Int) * p + p := by rw [Int.natCast_add, Int.add_mul]; simp
    rw [show k + (m + 1) = k + m + 1 from rfl]
    omega

theorem Paced.lt (h : Paced R p) (hp : 0 < p) {k k' : Nat} (i : Fin n) (hk : k < k') : (R k i).stamp < (R k' i).stamp := by
  obtain ⟨m, rfl⟩ : ∃ m, k' = k + (m + 1) := ⟨k' - k - 1, by omega⟩
  have h1 := h.add k (m + 1) i
  have h2 : ((m + 1 : Nat) : Int) * p = (m : Int) * p + p := by rw [Int.natCast_add, Int.add_mul]; simp
  have h3 : 0 ≤ (m : Int) * p := Int.mul_nonneg (by omega) (by omega)
  omega

theorem Delivers.prefix (h : Delivers R ops) {pre : List (Fin n × Ev)} (hp : pre <+: ops) : Delivers R pre := by
  intro i
  obtain ⟨post, rfl⟩ := hp
  have h1 := h i
  rw [stream_append] at h1
  have h2 := congrArg (List.take (stream pre i).length) h1
  rw [List.take_left' rfl, ← List.map_take, List.take_range, Nat.min_eq_left (by simp)] at h2
  exact h2

theorem ByArrival.prefix (h : ByArrival arr ops) {pre : List (Fin n × Ev)} (hp : pre <+: ops) : ByArrival arr pre :=
  fun pre' i e hpre => h pre' i e (hpre.trans hp)

theorem Delivers.mem (h : Delivers R ops) {i : Fin n} {x : Ev} (hx : x ∈ stream ops i) :
    ∃ k, k < (stream ops i).length ∧ x = R k i := by
  rw [h i, List.mem_map] at hx
  obtain ⟨k, hk, rfl⟩ := hx
  exact ⟨k, List.mem_range.1 hk, rfl⟩

theorem Delivers.mem_of_lt (h : Delivers R ops) {i : Fin n} {k : Nat} (hk : k < (stream ops i).length) :
    R k i ∈ stream ops i := by
  rw [h i, List.mem_map]
  exact ⟨k, List.mem_range.2 hk, rfl⟩

/-- What has been delivered arrived before all that is still to come. -/
theorem arrived_first (hd : ∀ k i, arr k i ≤ arr (k + 1) i) (ops : List (Fin n × Ev)) (hb : ByArrival arr ops) :
    ∀ i k, k < (stream ops i).length → ∀ j, arr k i ≤ arr (stream ops j).length j := by
  have mono : ∀ k m i, arr k i ≤ arr (k + m) i := by
    intro k m i
    induction m with
    | zero => simp
    | succ m ih => have := hd (k + m) i; rw [show k + (m + 1) = k + m + 1 from rfl]; omega
  revert hb
  induction ops using snoc_induction with
  | h0 => intro _ i k hk; simp [stream] at hk
  | hs ops op ih =>
    obtain ⟨a, e⟩ := op
    intro hb i k hk j
    have hb' := hb.prefix (List.prefix_append ops [(a, e)])
    have hj : arr (stream ops j).length j ≤ arr (stream (ops ++ [(a, e)]) j).length j := by
      rw [stream_append, List.length_append]
      exact mono _ _ _
    refine Int.le_trans ?_ hj
    by_cases hk' : k < (stream ops i).length
    · exact ih hb' i k hk' j
    · have hia : i = a := by
        apply Classical.byContradiction
        intro hne
        rw [stream_append] at hk
        simp [stream, Ne.symm hne] at hk hk'
        omega
      subst hia
      have : k = (stream ops i).length := by
        rw [stream_append] at hk
        simp [stream] at hk hk'
        simp [stream]
        omega
      rw [this]
      exact hb ops i e (List.prefix_refl _) j

/-- A list of messages at least `p` apart, within an interval. -/
theorem spaced_count (hp : 0 < p) : ∀ (l : List Ev) (lo hi : Int), l.Pairwise (fun a b => a.stamp + p ≤ b.stamp) →
    (∀ x ∈ l, lo ≤ x.stamp ∧ x.stamp ≤ hi) → lo ≤ hi + p → (l.length : Int) * p ≤ hi - lo + p
  | [], lo, hi, _, _, h => by simp; omega
  | x :: l, lo, hi, hl, hb, _ => by
    rw [List.pairwise_cons] at hl
    have hx := hb x List.mem_cons_self
    have := spaced_count hp l (x.stamp + p) hi hl.2
      (fun y hy => ⟨hl.1 y hy, (hb y (List.mem_cons_of_mem _ hy)).2⟩) (by omega)
    have h2 : ((l.length + 1 : Nat) : Int) * p = (l.length : Int) * p + p := by rw [Int.natCast_add, Int.add_mul]; simp
    rw [List.length_cons, h2]
    omega

theorem spaced_count_le (hp : 0 < p) {l : List Ev} {lo hi : Int} {q : Nat} (hl : l.Pairwise (fun a b => a.stamp + p ≤ b.stamp))
    (hb : ∀ x ∈ l, lo ≤ x.stamp ∧ x.stamp ≤ hi) (hq : hi - lo < q * p) : l.length ≤ q := by
  cases hcase : l with
  | nil => simp
  | cons x l' =>
    have hx := hb x (by simp [hcase])
    have h1 := spaced_count hp l lo hi hl hb (by omega)
    rw [← hcase]
    apply Classical.byContradiction
    intro hc
    have h2 : ((q + 1 : Nat) : Int) * p ≤ (l.length : Int) * p := Int.mul_le_mul_of_nonneg_right (by omega) (by omega)
    have h3 : ((q + 1 : Nat) : Int) * p = (q : Int) * p + p := by rw [Int.natCast_add, Int.add_mul]; simp
    omega

theorem Paced.stream_spaced (h : Paced R p) (hp : 0 < p) (hdel : Delivers R ops) (i : Fin n) :
    (stream ops i).Pairwise (fun a b => a.stamp + p ≤ b.stamp) := by
  rw [hdel i, List.pairwise_map]
  refine List.pairwise_lt_range.imp ?_
  intro a b hab
  rcases Nat.lt_or_ge (a + 1) b with h1 | h1
  · have := h.lt hp i h1
    have := h a i
    omega
  · obtain rfl : b = a + 1 := by omega
    exact h a i

theorem Paced.strict (h : Paced R p) (hp : 0 < p) (hdel : Delivers R ops) (i : Fin n) : StrictlyTimeSorted (stream ops i) :=
  (h.stream_spaced hp hdel i).imp (fun h => by omega)

/-- Inputs with known rates and delays do not run ahead of each other by much. -/
theorem ahead_of_rates {q : Nat} {eps : Int} (hp : 0 < p) (heps : 0 ≤ eps) (hpace : Paced R p) (halive : Alive R G)
    (hdelay : Delayed R arr D) (hdel : Delivers R ops) (hb : ByArrival arr ops) (hq : D + G + eps < q * p) :
    Epsilon.AheadAtMost q eps ops := by
  intro k i j _
  have hpre : ops.take k <+: ops := List.take_prefix _ _
  have hdel' := hdel.prefix hpre
  have hfirst := arrived_first hdelay.2 _ (hb.prefix hpre)
  generalize ops.take k = pre at *
  have hs := hpace.stream_spaced hp hdel' i
  unfold Epsilon.notBehind
  -- the next message of `j` has not arrived before any of `i`
  have hnext : ∀ x ∈ stream pre i, x.stamp ≤ (R (stream pre j).length j).stamp + D := by
    intro x hx
    obtain ⟨k', hk', rfl⟩ := hdel'.mem hx
    have h1 := hfirst i k' hk' j
    have h2 := hdelay.1 k' i
    have h3 := hdelay.1 (stream pre j).length j
    omega
  cases hm : (stream pre j).length with
  | zero =>
    rw [hm] at hnext
    refine spaced_count_le hp (lo := (R 0 i).stamp) (hi := (R 0 j).stamp + D) (hs.sublist List.filter_sublist) ?_
      (by have := halive.2 j i; omega)
    intro x hx
    have hx := (List.mem_filter.1 hx).1
    refine ⟨?_, hnext x hx⟩
    obtain ⟨k', hk', rfl⟩ := hdel'.mem hx
    rcases Nat.eq_zero_or_pos k' with rfl | h0
    · exact Int.le_refl _
    · have := hpace.lt hp i h0; omega
  | succ m =>
    rw [hm] at hnext
    have hmem : R m j ∈ stream pre j := hdel'.mem_of_lt (by omega)
    have hgap := halive.1 m j
    refine spaced_count_le hp (lo := (R m j).stamp - eps) (hi := (R (m + 1) j).stamp + D) (hs.sublist List.filter_sublist) ?_
      (by omega)
    intro x hx
    obtain ⟨hx, hall⟩ := List.mem_filter.1 hx
    refine ⟨?_, hnext x hx⟩
    rw [List.all_eq_true] at hall
    simpa using hall _ hmem

theorem within_of_rates {q : Nat} {M : Int} (hp : 0 < p) (hpace : Paced R p) (hdel : Delivers R ops) (hq : M < q * p) :
    Approx.AtMostWithin q M ops := by
  intro i T
  refine spaced_count_le hp (lo := T - M) (hi := T) ((hpace.stream_spaced hp hdel i).sublist List.filter_sublist) ?_ (by omega)
  intro x hx
  simpa using (List.mem_filter.1 hx).2

/-- When the last message of a set arrives, another input has delivered at most `m` messages after its own one of the set. -/
theorem newer_of_rates {m : Nat} (hp : 0 < p) (hpace : Paced R p) (hdelay : Delayed R arr D) {pre post : List (Fin n × Ev)}
    {i : Fin n} {e : Ev} (hdel : Delivers R (pre ++ (i, e) :: post)) (hb : ByArrival arr (pre ++ (i, e) :: post))
    (hm : D < (m + 1) * p) {j : Fin n} {a : Nat} (ha : (R a j).stamp = e.stamp) {k : Nat} (hk : k < (stream pre j).length)
    (hnew : e.stamp < (R k j).stamp) : a < k ∧ k ≤ a + m := by
  have hpre : pre ++ [(i, e)] <+: pre ++ (i, e) :: post := ⟨post, by simp⟩
  have hpre0 : pre <+: pre ++ (i, e) :: post := ⟨(i, e) :: post, rfl⟩
  have hdel' := hdel.prefix hpre
  have he : e = R (stream pre i).length i := by
    apply hdel'.get
    rw [stream_append, List.getElem?_append_right (Nat.le_refl _)]
    simp [stream]
  have h1 := arrived_first hdelay.2 pre (hb.prefix hpre0) j k hk i
  have h2 := hdelay.1 k j
  have h3 := hdelay.1 (stream pre i).length i
  rw [← he] at h3
  have hak : a < k := by
    apply Classical.byContradiction
    intro hc
    rcases Nat.lt_or_ge k a with h | h
    · have := hpace.lt hp j h; omega
    · obtain rfl : k = a := by omega
      omega
  refine ⟨hak, ?_⟩
  apply Classical.byContradiction
  intro hc
  obtain ⟨d, rfl⟩ : ∃ d, k = a + (m + 1 + d) := ⟨k - a - m - 1, by omega⟩
  have h4 := hpace.add a (m + 1 + d) j
  have h5 : ((m + 1 + d : Nat) : Int) * p = ((m : Int) + 1) * p + (d : Int) * p := by
    rw [← Int.add_mul]; simp
  have h6 : 0 ≤ (d : Int) * p := Int.mul_nonneg (by omega) (by omega)
  omega

end MF
