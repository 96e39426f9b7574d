import Verif.Spec.Narrow
import Verif.Spec.ExactRoom
import Verif.Proofs.Basic
/-
Lemmas about leaving inputs out.
-/
namespace MF

variable {m n : Nat} {σ : Fin m → Fin n}

theorem narrow_keep (hσ : ∀ i j, σ i = σ j → i = j) (ops : List (Fin n × Ev)) (i : Fin m) (e : Ev) :
    narrow σ (ops ++ [(σ i, e)]) = narrow σ ops ++ [(i, e)] := by
  have : (List.finRange m).find? (fun j => decide (σ j = σ i)) = some i := by
    cases hf : (List.finRange m).find? (fun j => decide (σ j = σ i)) with
    | none =>
      rw [List.find?_eq_none] at hf
      exact absurd (hf i (List.mem_finRange i)) (by simp)
    | some j =>
      have := List.find?_some hf
      rw [decide_eq_true_eq] at this
      rw [hσ j i this]
  simp [narrow, this]

theorem narrow_skip (ops : List (Fin n × Ev)) {k : Fin n} (hk : ∀ i, σ i ≠ k) (e : Ev) :
    narrow σ (ops ++ [(k, e)]) = narrow σ ops := by
  have : (List.finRange m).find? (fun j => decide (σ j = k)) = none := by
    rw [List.find?_eq_none]
    intro j _
    simp [hk j]
  simp [narrow, this]

theorem stream_narrow (hσ : ∀ i j, σ i = σ j → i = j) (ops : List (Fin n × Ev)) (i : Fin m) :
    stream (narrow σ ops) i = stream ops (σ i) := by
  induction ops using snoc_induction with
  | h0 => rfl
  | hs ops op ih =>
    obtain ⟨k, e⟩ := op
    by_cases hk : ∃ j, σ j = k
    · obtain ⟨j, rfl⟩ := hk
      rw [narrow_keep hσ, stream_append, stream_append, ih]
      by_cases hji : j = i
      · subst hji; simp [stream]
      · have : σ j ≠ σ i := fun h => hji (hσ j i h)
        simp [stream, hji, this]
    · have hk' : ∀ j, σ j ≠ k := fun j h => hk ⟨j, h⟩
      have : k ≠ σ i := fun h => hk' i h.symm
      rw [narrow_skip ops hk', stream_append, ih]
      simp [stream, this]

/-- The last message of a set. -/
theorem completes_exists (hm : 0 < m) {T : Int} {t : Fin m → Option Ev} : ∀ (ops : List (Fin m × Ev)),
    (∀ j, ∃ x ∈ stream ops j, x.stamp = T ∧ t j = some x) →
    ∃ pre i e post, ops = pre ++ (i, e) :: post ∧ e.stamp = T ∧ Completes pre i e t := by
  intro ops
  induction ops using snoc_induction with
  | h0 => intro h; obtain ⟨x, hx, _⟩ := h ⟨0, hm⟩; simp [stream] at hx
  | hs ops op ih =>
    intro h
    obtain ⟨k, e⟩ := op
    by_cases hall : ∀ j, ∃ x ∈ stream ops j, x.stamp = T ∧ t j = some x
    · obtain ⟨pre, i, x, post, h1, h2⟩ := ih hall
      exact ⟨pre, i, x, post ++ [(k, e)], by rw [h1]; simp, h2⟩
    · rw [Classical.not_forall] at hall
      obtain ⟨j, hj⟩ := hall
      have key : ∀ i, (∃ x ∈ stream ops i, x.stamp = T ∧ t i = some x) ∨ (i = k ∧ e.stamp = T ∧ t i = some e) := by
        intro i
        obtain ⟨x, hx, h1, h2⟩ := h i
        rw [mem_stream] at hx
        simp only [List.mem_append, List.mem_cons, List.not_mem_nil, or_false, Prod.mk.injEq] at hx
        rcases hx with hx | ⟨rfl, rfl⟩
        · exact .inl ⟨x, mem_stream.2 hx, h1, h2⟩
        · exact .inr ⟨rfl, h1, h2⟩
      obtain ⟨rfl, h1, h2⟩ := (key j).resolve_left hj
      refine ⟨ops, j, e, [], rfl, h1, h2, fun i hi => ?_⟩
      obtain ⟨x, hx, h3, h4⟩ := (key i).resolve_right (fun h => hi h.1)
      exact ⟨x, hx, by rw [h3, h1], h4⟩

/-- The last message of what is left of a set comes no later than the last message of the set. -/
theorem completes_narrow (hm : 0 < m) (hσ : ∀ i j, σ i = σ j → i = j) {ops pre post : List (Fin n × Ev)} {i : Fin n} {e : Ev}
    {t : Fin n → Option Ev} (h : ops = pre ++ (i, e) :: post) (hc : Completes pre i e t) :
    ∃ pre' i' e' post', narrow σ ops = pre' ++ (i', e') :: post' ∧ e'.stamp = e.stamp ∧ Completes pre' i' e' (narrowSet σ t) ∧
      pre' <+: narrow σ pre := by
  have hall : ∀ j, ∃ x ∈ stream (narrow σ (pre ++ [(i, e)])) j, x.stamp = e.stamp ∧ narrowSet σ t j = some x := by
    intro j
    rw [stream_narrow hσ]
    by_cases hj : σ j = i
    · exact ⟨e, mem_stream.2 (by simp [hj]), rfl, by unfold narrowSet; rw [hj]; exact hc.1⟩
    · obtain ⟨x, hx, h1, h2⟩ := hc.2 (σ j) hj
      exact ⟨x, mem_stream.2 (by simp [mem_stream.1 hx]), h1, h2⟩
  obtain ⟨pre', i', e', post', h1, h2, h3⟩ := completes_exists hm _ hall
  have happ : narrow σ ops = narrow σ (pre ++ [(i, e)]) ++ narrow σ post := by
    rw [h]; simp only [narrow, ← List.filterMap_append, List.append_assoc, List.singleton_append]
  refine ⟨pre', i', e', post' ++ narrow σ post, ?_, h2, h3, ?_⟩
  · rw [happ, h1]; simp
  · by_cases hk : ∃ j, σ j = i
    · obtain ⟨j, rfl⟩ := hk
      rw [narrow_keep hσ] at h1
      rcases List.eq_nil_or_concat post' with rfl | ⟨l, b, rfl⟩
      · have := List.append_inj' h1 rfl
        rw [this.1]
        exact List.prefix_rfl
      · rw [List.concat_eq_append, ← List.cons_append, ← List.append_assoc] at h1
        have := List.append_inj' h1 rfl
        rw [this.1]
        exact List.prefix_append _ _
    · rw [narrow_skip pre (fun j h => hk ⟨j, h⟩)] at h1
      rw [h1]
      exact List.prefix_append _ _

theorem mem_narrow {ops : List (Fin n × Ev)} {o : Fin m × Ev} (h : o ∈ narrow σ ops) : (σ o.1, o.2) ∈ ops := by
  unfold narrow at h
  rw [List.mem_filterMap] at h
  obtain ⟨p, hp, h⟩ := h
  rw [Option.map_eq_some_iff] at h
  obtain ⟨j, hj, rfl⟩ := h
  have := List.find?_some hj
  rw [decide_eq_true_eq] at this
  rw [this]
  exact hp

end MF
