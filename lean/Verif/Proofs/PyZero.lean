import Verif.Proofs.PyApprox3
import Verif.Proofs.PyExact2
/-
The Python ApproximateTimeSynchronizer with a slop of one nanosecond takes the steps of the TimeSynchronizer.
-/
namespace MF.Py

variable {n : Nat}

/-- Matching with a slop of one nanosecond is having the new stamp everywhere. -/
theorem match_one {qs : Fin n → Dict Ev} {i : Fin n} {st : Int} {f : Fin n → Int} (hi : f i = st) (hm : Match 1 qs f) :
    (∀ j, f j = st) ∧ ∀ j, st ∈ (qs j).keys := by
  have h1 : ∀ j, f j = st := by
    intro j
    have h1 := hm.2 i j
    have h2 := hm.2 j i
    omega
  exact ⟨h1, fun j => h1 j ▸ hm.1 j⟩

theorem tsAdd_eq_approxAdd [NeZero n] (boom : Nat → Bool) (allow : Bool) (s : State n) (hinv : Inv s) (i : Fin n) (e : Ev) :
    approxAdd boom 1 allow s i ⟨e, true⟩ = tsAdd boom s i ⟨e, true⟩ := by
  unfold approxAdd tsAdd
  rcases Bool.eq_false_or_eq_true s.locked with hl | hl
  · simp [hl]
  simp only [hl, Bool.not_true, Bool.false_and, Bool.false_eq_true, ↓reduceIte]
  have hset := (hinv.ok i).set e
  by_cases hq : s.queueSize < 0
  · rw [evict_negative hq (((s.queues i).set e.stamp e).length + 1) _ hset.nodup (by omega)]
  obtain ⟨d', hev, hE⟩ := evict_spec (by omega : 0 ≤ s.queueSize) (((s.queues i).set e.stamp e).length + 1) _ hset.nodup
    (by omega)
  rw [hev]
  simp only
  have hok : ∀ j, DOk (upd s.queues i d' j) := fun j => upd_DOk hinv.ok (hset.sublist hE.sub) (i := i) j
  have hcom : ∀ k ∈ common (upd s.queues i d'), k = e.stamp := by
    intro k hk
    rw [mem_common] at hk
    apply Classical.byContradiction
    intro hne
    apply hinv.quiet hl k
    intro j
    have := hk j
    by_cases hj : j = i
    · subst hj
      rw [upd_same] at this
      rcases mem_keys_set.mp ((hE.sub.map _).subset this) with h | h
      · exact absurd h hne
      · exact h
    · rwa [upd_ne _ _ hj] at this
  have hlen : ∀ v ∈ product (((List.ofFn (upd s.queues i d')).take i ++
      (List.ofFn (upd s.queues i d')).drop (i + 1)).map (nearOf 1 e.stamp)), v.length = n - 1 := by
    intro v hv
    rw [(mem_product.mp hv).1, List.length_map, others_length]
  rcases nodup_all_eq (nodup_common (fun j => (hok j).nodup)) hcom with h0 | h1
  · -- no stamp is common
    have hnone : ¬ ∀ j, e.stamp ∈ (upd s.queues i d' j).keys := by
      intro h
      have := mem_common.mpr h
      rw [h0] at this; cases this
    rw [h0]
    simp only [sorted, tsLoop]
    cases hn : nearStamps 1 e.stamp
        ((List.ofFn (upd s.queues i d')).take i ++ (List.ofFn (upd s.queues i d')).drop (i + 1)) with
    | none => simp
    | some stamps =>
      have := nearStamps_some hn
      subst this
      rcases approxLoop_spec (boom := boom) (slop := 1) (i := i) (st := e.stamp)
        (product (((List.ofFn (upd s.queues i d')).take i ++
          (List.ofFn (upd s.queues i d')).drop (i + 1)).map (nearOf 1 e.stamp)))
        { s with queues := upd s.queues i d' } with ⟨h1, h2⟩ | ⟨pre, v, post, msgs, h1, h2, h3, h4, h5⟩
      · rw [hl] at h2
        simp only [h2]
      · have hv : v ∈ product (((List.ofFn (upd s.queues i d')).take i ++
            (List.ofFn (upd s.queues i d')).drop (i + 1)).map (nearOf 1 e.stamp)) := by rw [h1]; simp
        exact absurd (match_one (combo_self v i e.stamp) ((good_iff (hlen v hv)).mp h3)).2 hnone
  · -- the new stamp is common
    have hmem : ∀ j, e.stamp ∈ (upd s.queues i d' j).keys := by
      have : e.stamp ∈ common (upd s.queues i d') := by rw [h1]; simp
      exact mem_common.mp this
    have hM : Match 1 (upd s.queues i d') (fun _ => e.stamp) := ⟨hmem, fun _ _ => by simp⟩
    have hs : ∀ j, ((upd s.queues i d' j).get e.stamp).isSome := fun j => get_isSome.mpr (hmem j)
    have hall : allSome (fun j => (upd s.queues i d' j).get e.stamp) =
        some (fun j => ((upd s.queues i d' j).get e.stamp).get (hs j)) := by
      rw [allSome_some]; intro j; simp
    obtain ⟨w, hw, hcw⟩ := match_in_product (i := i) rfl hM
    cases hn : nearStamps 1 e.stamp
        ((List.ofFn (upd s.queues i d')).take i ++ (List.ofFn (upd s.queues i d')).drop (i + 1)) with
    | none =>
      obtain ⟨d, hd, hfar⟩ := nearStamps_none hn
      exfalso
      obtain ⟨k, hk⟩ := List.mem_iff_getElem?.mp hd
      have hvl := (mem_product.mp hw).1
      have hkl : k < w.length := by
        rw [hvl, List.length_map]
        exact (List.getElem?_eq_some_iff.mp hk).1
      obtain ⟨l, hl1, hl2⟩ := (mem_product.mp hw).2 k w[k] (List.getElem?_eq_getElem hkl)
      rw [List.getElem?_map, hk] at hl1
      simp only [Option.map_some, Option.some.injEq] at hl1
      rw [← hl1, mem_nearOf] at hl2
      exact hfar _ hl2.1 hl2.2
    | some stamps =>
      have := nearStamps_some hn
      subst this
      rw [h1]
      simp only [sorted, insertBy, tsLoop, hall]
      rcases approxLoop_spec (boom := boom) (slop := 1) (i := i) (st := e.stamp)
        (product (((List.ofFn (upd s.queues i d')).take i ++
          (List.ofFn (upd s.queues i d')).drop (i + 1)).map (nearOf 1 e.stamp)))
        { s with queues := upd s.queues i d' } with ⟨h1, h2⟩ | ⟨pre, v, post, msgs, h1, h2, h3, h4, h5⟩
      · exfalso
        refine h1 w hw ((good_iff (hlen w hw)).mpr ?_)
        rw [hcw]; exact hM
      · have hv : v ∈ product (((List.ofFn (upd s.queues i d')).take i ++
            (List.ofFn (upd s.queues i d')).drop (i + 1)).map (nearOf 1 e.stamp)) := by rw [h1]; simp
        have hc := (match_one (combo_self v i e.stamp) ((good_iff (hlen v hv)).mp h3)).1
        have hins : ∀ j : Fin n, (v.insertIdx i e.stamp)[j.1]? = some e.stamp := by
          intro j
          rw [insert_eq_ofFn v i e.stamp (hlen v hv)]
          simp [hc j]
        rw [hl] at h5
        rw [h5]
        have h4' : allSome (fun j => (upd s.queues i d' j).get e.stamp) = some msgs := by
          rw [← h4]
          congr 1
          funext j
          rw [hins j]; rfl
        rw [hall] at h4'
        cases h4'
        simp only [hins, Option.getD_some]

/-- Histories of the two synchronizers agree. -/
theorem approxRun_eq_tsRun [NeZero n] (boom : Nat → Bool) (q : Int) (allow : Bool) (ops : List (Fin n × Msg))
    (hh : ∀ op ∈ ops, op.2.header = true) :
    approxRun boom 1 allow (construct n q) ops = tsRun boom (construct n q) ops := by
  have key : ∀ (ops : List (Fin n × Msg)) (s : State n), Inv s → (∀ op ∈ ops, op.2.header = true) →
      approxRun boom 1 allow s ops = tsRun boom s ops := by
    intro ops
    induction ops with
    | nil => intros; rfl
    | cons op ops ih =>
      intro s hinv hh
      obtain ⟨i, e, hd⟩ := op
      have hd : hd = true := hh _ List.mem_cons_self
      subst hd
      have hstep := tsAdd_eq_approxAdd boom allow s hinv i e
      unfold approxRun tsRun at ih ⊢
      unfold runE
      simp only [hstep]
      cases ht : tsAdd boom s i ⟨e, true⟩ with
      | error f => rfl
      | ok r =>
        have hi := (tsAdd_inv boom s hinv i ⟨e, true⟩ r.1 r.2 (by rw [ht])).1
        exact ih r.1 hi (fun op ho => hh op (List.mem_cons_of_mem _ ho))
  exact key ops _ (Inv.construct q) hh

end MF.Py
