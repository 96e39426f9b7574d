import Verif.Spec.EpsilonRoom
import Verif.Props.Epsilon
/-
What an ApproximateEpsilonTime synchronizer holds is not behind what it has used.
-/
namespace MF.Epsilon

variable {n : Nat}

/-- In iterations on inputs in time order, what remains is not older, by more than epsilon, than what is gone. -/
theorem steps_behind {eps : Int} (heps : 0 ≤ eps) {v w : Fin n → List Ev} {o} (h : Steps eps v o w)
    (hs : ∀ i, TimeSorted (v i)) (i j : Fin n) :
    ∃ c, v j = c ++ w j ∧ ∀ x ∈ w i, ∀ y ∈ c, y.stamp - eps ≤ x.stamp := by
  induction h with
  | refl v => exact ⟨[], rfl, by simp⟩
  | @head v o w hv hst ih =>
    have hsort : ∀ l, TimeSorted ((fire eps v).2 l) := by
      intro l
      have hl := hs l
      obtain ⟨e, tl, he, hcase⟩ := fire_input eps v hv l
      rw [he] at hl
      have htl : TimeSorted tl := (List.pairwise_cons.1 hl).2
      rcases hcase with ⟨_, _, hf⟩ | ⟨_, _, ⟨_, hf⟩ | ⟨_, hf⟩⟩
      · rw [hf]; exact htl
      · rw [hf]; exact htl
      · rw [hf]; exact hs l
    obtain ⟨c, h1, h2⟩ := ih hsort
    obtain ⟨o1, o2, o3⟩ := getOlder_spec v
    -- what remains is not older than the oldest front
    have hrem : ∀ x ∈ w i, (getOlder v).1 ≤ x.stamp := by
      intro x hx
      obtain ⟨ci, hci, _⟩ := steps_input (Steps.head hv hst) i
      obtain ⟨e, tl, he⟩ := List.exists_cons_of_ne_nil (hv i)
      have h3 := o2 i e tl he
      have hxm : x ∈ v i := by rw [hci]; simp [hx]
      have hsi := hs i
      unfold TimeSorted at hsi
      rw [he] at hxm hsi
      rcases List.mem_cons.1 hxm with rfl | hxm
      · exact h3
      · have := (List.pairwise_cons.1 hsi).1 x hxm; omega
    obtain ⟨e, tl, he, hcase⟩ := fire_input eps v hv j
    have hgone : (fire eps v).2 j = tl → e.stamp ≤ (getOlder v).1 + eps →
        ∃ c, v j = c ++ w j ∧ ∀ x ∈ w i, ∀ y ∈ c, y.stamp - eps ≤ x.stamp := by
      intro hf hle
      refine ⟨e :: c, by rw [he, ← hf, h1]; simp, ?_⟩
      intro x hx y hy
      rcases List.mem_cons.1 hy with rfl | hy
      · have := hrem x hx; omega
      · exact h2 x hx y hy
    rcases hcase with ⟨hc, _, hf⟩ | ⟨_, _, ⟨hle, hf⟩ | ⟨_, hf⟩⟩
    · apply hgone hf
      unfold checkAll at hc
      have hj := List.all_eq_true.1 hc j (List.mem_finRange j)
      unfold withinEpsilon at hj
      by_cases ho : some j = (getOlder v).2
      · rcases o3 with o3 | ⟨l, e', tl', hl, o3⟩
        · rw [o3] at ho; cases ho
        · rw [o3] at ho ⊢
          simp only [Option.some.injEq] at ho
          subst ho
          rw [he] at hl
          cases hl
          simp only; omega
      · rw [if_neg ho, he] at hj
        simpa using hj
    · exact hgone hf hle
    · exact ⟨c, by rw [← hf]; exact h1, h2⟩

theorem take_sorted {ops : List (Fin n × Ev)} {i : Fin n} (h : TimeSorted (stream ops i)) (k : Nat) :
    TimeSorted (stream (ops.take k) i) := by
  unfold TimeSorted at h ⊢
  rw [← List.take_append_drop k ops, stream_append] at h
  exact (List.pairwise_append.1 h).1

theorem noOverflow_of_ahead [NeZero n] {fuel q : Nat} {eps : Int} (heps : 0 ≤ eps) {ops : List (Fin n × Ev)}
    (hs : ∀ i, TimeSorted (stream ops i)) (ha : AheadAtMost q eps ops) : NoOverflow fuel q eps ops := by
  intro k s h i
  have hlen : ∀ i, (stream (ops.take k) i).length ≤ ops.length + 1 := by
    intro i
    have := stream_length_le (ops.take k) i
    rw [List.length_take] at this
    omega
  have hst := run_canonical (ops.take k) s h hlen
  obtain ⟨j, hj⟩ := (run_inv h).1.someEmpty
  by_cases hij : i = j
  · rw [hij, hj]; exact Nat.zero_le _
  · obtain ⟨c, h1, h2⟩ := steps_behind heps hst (fun i => take_sorted (hs i) k) i j
    obtain ⟨ci, h3, _⟩ := steps_input hst i
    rw [hj, List.append_nil] at h1
    have hsub : (s.events i).Sublist (notBehind eps (ops.take k) i j) := by
      unfold notBehind
      rw [h3, List.filter_append]
      have : (s.events i).filter (fun x => (stream (ops.take k) j).all (fun y => decide (y.stamp - eps ≤ x.stamp))) =
          s.events i := by
        rw [List.filter_eq_self]
        intro x hx
        rw [List.all_eq_true]
        intro y hy
        rw [decide_eq_true_eq]
        exact h2 x hx y (by rw [← h1]; exact hy)
      rw [this]
      exact List.sublist_append_right _ _
    have := hsub.length_le
    have := ha k i j hij
    omega

end MF.Epsilon
