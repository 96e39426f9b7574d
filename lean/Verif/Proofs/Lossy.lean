import Verif.Spec.Lossy
import Verif.Proofs.Narrow
import Verif.Spec.Pairing
/-
Lemmas about lost messages.
-/
namespace MF

variable {n : Nat}

theorem survives_iff {ops' : List (Fin n × Ev)} {t : Fin n → Option Ev} :
    survives ops' t = true ↔ ∀ i e, t i = some e → (i, e) ∈ ops' := by
  unfold survives
  rw [decide_eq_true_eq]
  exact Iff.rfl

theorem stream_sublist {ops' ops : List (Fin n × Ev)} (h : List.Sublist ops' ops) (i : Fin n) :
    List.Sublist (stream ops' i) (stream ops i) := (h.filter _).map _

/-- In strict time order a message is delivered once. -/
theorem delivered_once {pre post : List (Fin n × Ev)} {j : Fin n} {x : Ev} (hs : StrictlyTimeSorted (stream (pre ++ post) j))
    (h1 : (j, x) ∈ pre) (h2 : (j, x) ∈ post) : False := by
  unfold StrictlyTimeSorted at hs
  rw [stream_append, List.pairwise_append] at hs
  have := hs.2.2 x (mem_stream.2 h1) x (mem_stream.2 h2)
  omega

/-- The last message of a set of which none was lost: what had come before it is part of what would have come, and the last message
itself. -/
theorem completes_lossy (hn : 0 < n) {ops' ops pre post : List (Fin n × Ev)} (hsub : List.Sublist ops' ops)
    (hinc : ∀ i, StrictlyTimeSorted (stream ops i)) {i : Fin n} {e : Ev} {t : Fin n → Option Ev} (h : ops = pre ++ (i, e) :: post)
    (hc : Completes pre i e t) (hk : survives ops' t = true) :
    ∃ pre' i' e' post', ops' = pre' ++ (i', e') :: post' ∧ e'.stamp = e.stamp ∧ Completes pre' i' e' t ∧
      List.Sublist pre' (pre ++ [(i, e)]) := by
  rw [survives_iff] at hk
  have h2 : ops = (pre ++ [(i, e)]) ++ post := by rw [h]; simp
  rw [h2] at hsub
  obtain ⟨p1, p2, rfl, hs1, hs2⟩ := List.sublist_append_iff.1 hsub
  have hall : ∀ j, ∃ x ∈ stream p1 j, x.stamp = e.stamp ∧ t j = some x := by
    intro j
    have : ∃ x, (j, x) ∈ pre ++ [(i, e)] ∧ x.stamp = e.stamp ∧ t j = some x := by
      by_cases hj : j = i
      · subst hj; exact ⟨e, by simp, rfl, hc.1⟩
      · obtain ⟨x, hx, h1, h2⟩ := hc.2 j hj
        exact ⟨x, by simp [mem_stream.1 hx], h1, h2⟩
    obtain ⟨x, hx, h3, h4⟩ := this
    refine ⟨x, ?_, h3, h4⟩
    rcases List.mem_append.1 (hk j x h4) with h5 | h5
    · exact mem_stream.2 h5
    · have := hinc j
      rw [h2] at this
      exact (delivered_once this hx (hs2.subset h5)).elim
  obtain ⟨pre', i', e', post', h5, h6, h7⟩ := completes_exists hn p1 hall
  refine ⟨pre', i', e', post' ++ p2, by rw [h5]; simp, h6, h7, ?_⟩
  rw [h5] at hs1
  exact (List.sublist_append_left _ _).trans hs1

/-- What a sublist leaves out. -/
theorem sublist_rest {α : Type} [DecidableEq α] {A' A : List α} (h : List.Sublist A' A) :
    ∃ D : List α, (∀ e, A.count e = A'.count e + D.count e) ∧ A.length = A'.length + D.length := by
  induction h with
  | slnil => exact ⟨[], by simp, rfl⟩
  | cons a _ ih =>
    obtain ⟨D, h1, h2⟩ := ih
    refine ⟨a :: D, fun e => ?_, by simp only [List.length_cons]; omega⟩
    have := h1 e
    simp only [List.count_cons]
    omega
  | cons_cons a _ ih =>
    obtain ⟨D, h1, h2⟩ := ih
    refine ⟨D, fun e => ?_, by simp only [List.length_cons]; omega⟩
    have := h1 e
    simp only [List.count_cons]
    omega

/-- Without one message there is at most one pair less. -/
theorem pairs_without {α β : Type} [DecidableEq α] (f : β → α) (d : α) : ∀ (L : List β) (c : α → Nat),
    (∀ e, (L.map f).count e ≤ c e + if d = e then 1 else 0) →
    ∃ L', List.Sublist L' L ∧ (∀ e, (L'.map f).count e ≤ c e) ∧ L.length ≤ L'.length + 1 := by
  intro L c h
  by_cases hd : d ∈ L.map f
  · obtain ⟨p, hp, rfl⟩ := List.mem_map.1 hd
    obtain ⟨a, b, rfl⟩ := List.append_of_mem hp
    refine ⟨a ++ b, (List.sublist_cons_self p b).append_left a, fun e => ?_, by simp only [List.length_append, List.length_cons]; omega⟩
    have := h e
    simp only [List.map_append, List.map_cons, List.count_append, List.count_cons, beq_iff_eq] at this ⊢
    omega
  · refine ⟨L, List.Sublist.refl L, fun e => ?_, by omega⟩
    by_cases he : d = e
    · subst he; rw [List.count_eq_zero.2 hd]; omega
    · have := h e
      rw [if_neg he] at this
      exact this

theorem pairs_without_list {α β : Type} [DecidableEq α] (f : β → α) : ∀ (D : List α) (L : List β) (c : α → Nat),
    (∀ e, (L.map f).count e ≤ c e + D.count e) →
    ∃ L', List.Sublist L' L ∧ (∀ e, (L'.map f).count e ≤ c e) ∧ L.length ≤ L'.length + D.length := by
  intro D
  induction D with
  | nil => intro L c h; exact ⟨L, List.Sublist.refl L, by simpa using h, by simp⟩
  | cons d D ih =>
    intro L c h
    obtain ⟨L1, h1, h2, h3⟩ := pairs_without f d L (fun e => c e + D.count e) (fun e => by
      have := h e
      simp only [List.count_cons, beq_iff_eq] at this
      omega)
    obtain ⟨L2, h4, h5, h6⟩ := ih L1 c h2
    exact ⟨L2, h4.trans h1, h5, by rw [List.length_cons]; omega⟩

/-- Losing messages loses at most as many pairs. -/
theorem pairing_lossy {eps : Int} {A A' B B' : List Ev} (hA : List.Sublist A' A) (hB : List.Sublist B' B) {L : List (Ev × Ev)}
    (hL : Pairing eps A B L) : ∃ L', Pairing eps A' B' L' ∧ L.length + A'.length + B'.length ≤ L'.length + A.length + B.length := by
  obtain ⟨D, hD, hD'⟩ := sublist_rest hA
  obtain ⟨E, hE, hE'⟩ := sublist_rest hB
  obtain ⟨L1, h1, h2, h3⟩ := pairs_without_list Prod.fst D L (fun e => A'.count e) (fun e => by
    have := hL.1 e; have := hD e; omega)
  obtain ⟨L2, h4, h5, h6⟩ := pairs_without_list Prod.snd E L1 (fun e => B'.count e) (fun e => by
    have := hL.2.1 e; have := hE e
    have := (h1.map Prod.snd).count_le e
    omega)
  refine ⟨L2, ⟨fun e => ?_, h5, fun p hp => hL.2.2 p (h1.subset (h4.subset hp))⟩, by omega⟩
  exact Nat.le_trans ((h4.map Prod.fst).count_le e) (h2 e)

theorem length_two (ops : List (Fin 2 × Ev)) : (stream ops 0).length + (stream ops 1).length = ops.length := by
  induction ops using snoc_induction with
  | h0 => rfl
  | hs ops op ih =>
    obtain ⟨k, e⟩ := op
    rw [stream_append, stream_append]
    simp only [List.length_append, List.length_singleton]
    rcases (by omega : k = 0 ∨ k = 1) with rfl | rfl
    · have h0 : stream [((0 : Fin 2), e)] 0 = [e] := rfl
      have h1 : stream [((0 : Fin 2), e)] 1 = [] := rfl
      rw [h0, h1, List.length_singleton, List.length_nil]; omega
    · have h0 : stream [((1 : Fin 2), e)] 0 = [] := rfl
      have h1 : stream [((1 : Fin 2), e)] 1 = [e] := rfl
      rw [h0, h1, List.length_singleton, List.length_nil]; omega

end MF
