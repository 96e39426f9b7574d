import Verif.Proofs.PyExact
import Verif.Spec.Python
/-
The Python TimeSynchronizer finds every set if its queues are large enough.
-/
namespace MF.Py

variable {n : Nat}

theorem stamp_inj {l : List Ev} (h : DistinctStamps l) {a b : Ev} (ha : a ∈ l) (hb : b ∈ l) (hab : a.stamp = b.stamp) : a = b := by
  unfold DistinctStamps at h
  induction l with
  | nil => cases ha
  | cons x l ih =>
    simp only [List.map_cons, List.nodup_cons] at h
    rcases List.mem_cons.mp ha with rfl | ha' <;> rcases List.mem_cons.mp hb with rfl | hb'
    · rfl
    · exact absurd (List.mem_map.mpr ⟨b, hb', hab.symm⟩) h.1
    · exact absurd (List.mem_map.mpr ⟨a, ha', hab⟩) h.1
    · exact ih h.2 ha' hb'

theorem nodup_subset_length {l l' : List Int} (h : l.Nodup) (hs : ∀ x ∈ l, x ∈ l') : l.length ≤ l'.length := by
  induction l generalizing l' with
  | nil => simp
  | cons x l ih =>
    simp only [List.nodup_cons] at h
    have hx : x ∈ l' := hs x (by simp)
    have := ih (l' := l'.erase x) h.2 (fun y hy => by
      rw [List.mem_erase_of_ne]
      · exact hs y (by simp [hy])
      · rintro rfl; exact h.1 hy)
    rw [List.length_erase_of_mem hx] at this
    have := List.length_pos_of_mem hx
    simp only [List.length_cons]
    omega

theorem Evicted.eq_of_fits {size : Int} {d d' : Dict Ev} (h : Evicted size d d') (hf : (d.length : Int) ≤ size) : d' = d := by
  have := h.len
  rw [if_pos hf] at this
  exact h.sub.eq_of_length (by omega)

structure Full (ops : List (Fin n × Ev)) (s : State n) [NeZero n] : Prop where
  keys : ∀ j k, k ∈ (s.queues j).keys ↔
    k ∈ (stream ops j).map (·.stamp) ∧ ¬ ∀ l, k ∈ (stream ops l).map (·.stamp)
  vals : ∀ j, ∀ p ∈ s.queues j, p.2 ∈ stream ops j
  out : ∀ t, t ∈ s.out ↔ ExactSet ops t
  nodup : (s.out.map stampOf).Nodup

theorem ts_full [NeZero n] (q : Int) (ops : List (Fin n × Ev)) (hq : ∀ i, ((stream ops i).length : Int) ≤ q)
    (hd : ∀ i, DistinctStamps (stream ops i)) :
    ∃ s, tsRun noRaise (construct n q) (withHeaders ops) = .ok s ∧ s.locked = false ∧ s.queueSize = q ∧ Inv s ∧ Full ops s ∧
      ((∀ i, StrictlyTimeSorted (stream ops i)) → (s.out.map stampOf).Pairwise (· < ·)) := by
  have i0 : Fin n := ⟨0, Nat.pos_of_ne_zero (NeZero.ne n)⟩
  induction ops using snoc_induction with
  | h0 =>
    refine ⟨construct n q, rfl, rfl, rfl, Inv.construct q, ⟨?_, ?_, ?_, ?_⟩, ?_⟩
    · intro j k
      simp [construct, Dict.keys, stream_nil]
    · intro j p hp
      simp [construct] at hp
    · intro t
      simp only [construct, List.not_mem_nil, false_iff]
      rintro ⟨h, -⟩
      have := h i0
      simp [stream_nil] at this
    · simp [construct]
    · intro _; simp [construct]
  | hs ops op ih =>
    obtain ⟨i, e⟩ := op
    have hsub : ∀ j, (stream ops j).Sublist (stream (ops ++ [(i, e)]) j) := by
      intro j
      rw [stream_append]
      exact List.sublist_append_left _ _
    obtain ⟨s, hrun, hl, hqs, hinv, hF, hS⟩ := ih (fun j => by have := (hsub j).length_le; have := hq j; omega)
      (fun j => (hd j).sublist ((hsub j).map _))
    have hdi := hd i
    have hqi := hq i
    unfold DistinctStamps at hdi
    rw [stream_snoc_same] at hdi hqi
    rw [List.map_append, List.nodup_append] at hdi
    have hnew : e.stamp ∉ (stream ops i).map (·.stamp) := fun h => hdi.2.2 _ h e.stamp (by simp) rfl
    -- stamps after the call
    have hst : ∀ j k, k ∈ (stream (ops ++ [(i, e)]) j).map (·.stamp) ↔
        k ∈ (stream ops j).map (·.stamp) ∨ (j = i ∧ k = e.stamp) := by
      intro j k
      by_cases hj : j = i
      · subst hj; rw [stream_snoc_same]; simp [or_comm, eq_comm]
      · rw [stream_snoc_ne _ _ (Ne.symm hj)]; simp [hj]
    have hmemst : ∀ j x, x ∈ stream (ops ++ [(i, e)]) j ↔ x ∈ stream ops j ∨ (j = i ∧ x = e) := by
      intro j x
      by_cases hj : j = i
      · subst hj; rw [stream_snoc_same]; simp
      · rw [stream_snoc_ne _ _ (Ne.symm hj)]; simp [hj]
    have hki : e.stamp ∉ (s.queues i).keys := fun h => hnew ((hF.keys i _).mp h).1
    have hlen : ((s.queues i).length : Int) ≤ (stream ops i).length := by
      have := nodup_subset_length (hinv.ok i).nodup (fun x hx => ((hF.keys i x).mp hx).1)
      simp only [Dict.keys, List.length_map] at this
      omega
    have hstepRun : ∀ s' r, tsAdd noRaise s i ⟨e, true⟩ = .ok (s', r) →
        tsRun noRaise (construct n q) (withHeaders (ops ++ [(i, e)])) = .ok s' := by
      intro s' r h
      unfold tsRun withHeaders at *
      rw [List.map_append, runE_append, hrun]
      simp only [List.map_cons, List.map_nil, runE, h]
      rfl
    obtain ⟨d', hE, hcase⟩ := tsAdd_spec noRaise s hinv (by omega) hl i e
    have hd' : d' = (s.queues i).set e.stamp e := by
      apply hE.eq_of_fits
      rw [length_set, if_neg hki, hqs]
      simp at hqi
      omega
    subst hd'
    have hkeys : ∀ j k, k ∈ (upd s.queues i ((s.queues i).set e.stamp e) j).keys ↔
        k ∈ (s.queues j).keys ∨ (j = i ∧ k = e.stamp) := by
      intro j k
      by_cases hj : j = i
      · subst hj; rw [upd_same, mem_keys_set]; simp [or_comm]
      · rw [upd_ne _ _ hj]; simp [hj]
    have hvals : ∀ j, ∀ p ∈ upd s.queues i ((s.queues i).set e.stamp e) j, p.2 ∈ stream (ops ++ [(i, e)]) j := by
      intro j p hp
      rw [hmemst]
      by_cases hj : j = i
      · subst hj
        rw [upd_same] at hp
        rcases mem_set.mp hp with rfl | hp
        · exact Or.inr ⟨rfl, rfl⟩
        · exact Or.inl (hF.vals j p hp.1)
      · rw [upd_ne _ _ hj] at hp; exact Or.inl (hF.vals j p hp)
    have dok := fun j => upd_DOk hinv.ok ((hinv.ok i).set e) (i := i) j
    -- the stamp is common after the call iff it is in all queues
    have hcomm : (∀ l, e.stamp ∈ (stream (ops ++ [(i, e)]) l).map (·.stamp)) ↔
        ∀ j, e.stamp ∈ (upd s.queues i ((s.queues i).set e.stamp e) j).keys := by
      constructor
      · intro h j
        rw [hkeys]
        by_cases hj : j = i
        · exact Or.inr ⟨hj, rfl⟩
        · left
          rw [hF.keys]
          refine ⟨?_, fun hall => hnew (hall i)⟩
          rcases (hst j _).mp (h j) with h1 | h1
          · exact h1
          · exact absurd h1.1 hj
      · intro h j
        rw [hst]
        rcases (hkeys j _).mp (h j) with h1 | h1
        · exact Or.inl ((hF.keys j _).mp h1).1
        · exact Or.inr h1
    have hother : ∀ k, k ≠ e.stamp → ((∀ l, k ∈ (stream (ops ++ [(i, e)]) l).map (·.stamp)) ↔
        ∀ l, k ∈ (stream ops l).map (·.stamp)) := by
      intro k hk
      constructor
      · intro h l
        rcases (hst l k).mp (h l) with h1 | h1
        · exact h1
        · exact absurd h1.2 hk
      · intro h l
        exact (hst l k).mpr (Or.inl (h l))
    have hold : ∀ t, ExactSet ops t → ExactSet (ops ++ [(i, e)]) t :=
      fun t ht => ⟨fun j => (hsub j).subset (ht.1 j), ht.2⟩
    have hback : ∀ t, ExactSet (ops ++ [(i, e)]) t → (t i).stamp ≠ e.stamp → ExactSet ops t := by
      intro t ht hne
      refine ⟨fun j => ?_, ht.2⟩
      rcases (hmemst j _).mp (ht.1 j) with h1 | ⟨h1, h2⟩
      · exact h1
      · subst h1; rw [h2] at hne; exact absurd rfl hne
    rcases hcase with ⟨hnc, hstep⟩ | ⟨msgs, hg, hstep⟩
    · refine ⟨_, hstepRun _ _ hstep, hl, hqs, (tsAdd_inv _ _ hinv _ _ _ _ hstep).1, ⟨?_, hvals, ?_, hF.nodup⟩, ?_⟩
      · intro j k
        simp only
        rw [hkeys, hst]
        by_cases hk : k = e.stamp
        · subst hk
          rw [hcomm]
          constructor
          · rintro (h | h)
            · exact ⟨Or.inl ((hF.keys j _).mp h).1, hnc⟩
            · exact ⟨Or.inr h, hnc⟩
          · rintro ⟨h | h, -⟩
            · left
              rw [hF.keys]
              exact ⟨h, fun hall => hnew (hall i)⟩
            · exact Or.inr h
        · rw [hother k hk, hF.keys]
          simp [hk]
      · intro t
        simp only
        rw [hF.out]
        refine ⟨hold t, fun ht => hback t ht ?_⟩
        intro heq
        apply hnc
        rw [← hcomm]
        intro l
        rw [← heq, ht.2 i l]
        exact List.mem_map.mpr ⟨t l, ht.1 l, rfl⟩
      · intro hso
        exact hS (fun j => (hso j).sublist (hsub j))
    · simp only [noRaise, Bool.false_eq_true, ↓reduceIte] at hstep
      have hmem := fun j => (get_some (dok j).nodup).mp (hg j)
      have hall : ∀ j, e.stamp ∈ (upd s.queues i ((s.queues i).set e.stamp e) j).keys := fun j => mem_keys.mpr ⟨_, hmem j⟩
      have hms : ∀ j, (msgs j).stamp = e.stamp := fun j => (dok j).stamp _ (hmem j)
      have hmsgs : ExactSet (ops ++ [(i, e)]) msgs := ⟨fun j => hvals j _ (hmem j), fun a b => by rw [hms, hms]⟩
      have hnotold : ∀ t ∈ s.out, stampOf t ≠ e.stamp := by
        intro t ht heq
        have := (hF.out t).mp ht
        apply hnew
        have h1 : (t i).stamp = e.stamp := by rw [← heq]; exact this.2 _ _
        rw [← h1]
        exact List.mem_map.mpr ⟨t i, this.1 i, rfl⟩
      refine ⟨_, hstepRun _ _ hstep, hl, hqs, (tsAdd_inv _ _ hinv _ _ _ _ hstep).1, ⟨?_, ?_, ?_, ?_⟩, ?_⟩
      · intro j k
        simp only
        rw [mem_keys_del, hkeys, hst]
        by_cases hk : k = e.stamp
        · subst hk
          rw [hcomm]
          simp [hall]
        · rw [hother k hk, hF.keys]
          simp [hk]
      · intro j p hp
        exact hvals j p (mem_del.mp hp).1
      · intro t
        simp only [List.mem_append, List.mem_singleton]
        rw [hF.out]
        constructor
        · rintro (h | rfl)
          · exact hold t h
          · exact hmsgs
        · intro ht
          by_cases heq : (t i).stamp = e.stamp
          · right
            funext j
            apply stamp_inj (hd j) (ht.1 j) (hmsgs.1 j)
            rw [hms, ← heq]
            exact ht.2 j i
          · exact Or.inl (hback t ht heq)
      · rw [List.map_append, List.nodup_append]
        refine ⟨hF.nodup, by simp, ?_⟩
        intro a ha b hb
        simp only [List.map_cons, List.map_nil, List.mem_singleton] at hb
        obtain ⟨t, ht, rfl⟩ := List.mem_map.mp ha
        have : b = e.stamp := by rw [hb]; exact hms _
        rw [this]
        exact hnotold t ht
      · intro hso
        rw [List.map_append, List.pairwise_append]
        refine ⟨hS (fun j => (hso j).sublist (hsub j)), by simp, ?_⟩
        intro a ha b hb
        simp only [List.map_cons, List.map_nil, List.mem_singleton] at hb
        obtain ⟨t, ht, rfl⟩ := List.mem_map.mp ha
        have hb' : b = e.stamp := by rw [hb]; exact hms _
        have h1 := (hF.out t).mp ht
        have h2 := hso i
        rw [stream_snoc_same] at h2
        unfold StrictlyTimeSorted at h2
        rw [List.pairwise_append] at h2
        have h3 := h2.2.2 (t i) (h1.1 i) e (by simp)
        rw [hb']
        have : stampOf t = (t i).stamp := h1.2 _ _
        rw [this]
        exact h3

end MF.Py
