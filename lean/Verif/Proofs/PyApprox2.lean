import Verif.Proofs.PyApprox
/-
The Python ApproximateTimeSynchronizer: what one call does, and the invariant.
-/
namespace MF.Py

variable {n : Nat}

theorem combo_self (v : List Int) (i : Fin n) (st : Int) : combo v i st i = st := by simp [combo]

/-- A matching set with the new stamp is one of the combinations tried. -/
theorem match_in_product {slop : Int} {qs : Fin n → Dict Ev} {i : Fin n} {st : Int} {f : Fin n → Int}
    (hi : f i = st) (hm : Match slop qs f) :
    ∃ v ∈ product (((List.ofFn qs).take i ++ (List.ofFn qs).drop (i + 1)).map (nearOf slop st)), combo v i st = f := by
  have hin := i.2
  have hlen : ((List.ofFn f).eraseIdx i).length = n - 1 := by
    rw [List.length_eraseIdx]
    simp [hin]
  have hget : ∀ j : Fin n, j ≠ i → ((List.ofFn f).eraseIdx i)[pos i j]? = some (f j) := by
    intro j hj
    have hj' : j.1 ≠ i.1 := fun h => hj (Fin.ext h)
    have hjn := j.2
    rw [List.getElem?_eraseIdx]
    unfold pos
    by_cases hlt : j.1 < i.1
    · rw [if_pos hlt, if_pos hlt]; simp
    · rw [if_neg hlt, if_neg (by omega)]
      have : j.1 - 1 + 1 = j.1 := by omega
      rw [this]; simp
  refine ⟨(List.ofFn f).eraseIdx i, ?_, ?_⟩
  · rw [mem_product]
    refine ⟨by rw [hlen, List.length_map, others_length], ?_⟩
    intro k x hk
    -- the input at place k
    have hkl : k < n - 1 := by
      rw [← hlen]
      exact (List.getElem?_eq_some_iff.mp hk).1
    have hex : ∃ j : Fin n, j ≠ i ∧ pos i j = k := by
      by_cases hki : k < i.1
      · refine ⟨⟨k, by omega⟩, fun h => ?_, ?_⟩
        · rw [← h] at hki; simp at hki
        · unfold pos; simp [hki]
      · refine ⟨⟨k + 1, by omega⟩, fun h => ?_, ?_⟩
        · rw [← h] at hki; simp at hki
        · unfold pos
          rw [if_neg (by simp; omega)]
          simp
    obtain ⟨j, hj, rfl⟩ := hex
    rw [hget j hj] at hk
    cases hk
    refine ⟨nearOf slop st (qs j), by rw [List.getElem?_map, others_getElem? qs i j hj]; rfl, ?_⟩
    rw [mem_nearOf]
    refine ⟨hm.1 j, ?_⟩
    have h1 := hm.2 i j
    have h2 := hm.2 j i
    rw [hi] at h1 h2
    unfold dist
    omega
  · funext j
    unfold combo
    split
    · rename_i h; rw [h, hi]
    · rename_i h; rw [hget j h]; rfl

theorem upd_ofFn_eq {s : State n} {i : Fin n} {d' : Dict Ev} : ({ s with queues := upd s.queues i d' } : State n).queues = upd s.queues i d' := rfl

theorem approxAdd_cases [NeZero n] (boom : Nat → Bool) (slop : Int) (allow : Bool) (s : State n) (hok : ∀ j, DOk (s.queues j))
    (i : Fin n) (m : Msg) (s' : State n) (r : Bool) (h : approxAdd boom slop allow s i m = .ok (s', r)) :
    (m.header = false ∧ allow = false ∧ s' = s ∧ r = false) ∨
    ((m.header || allow) = true ∧ s.locked = false ∧
     ((s.queueSize < 0 ∧ s' = { s with queues := upd s.queues i [], locked := true } ∧ r = true) ∨
      (0 ≤ s.queueSize ∧ ∃ d', Evicted s.queueSize ((s.queues i).set m.ev.stamp m.ev) d' ∧
       (((¬ ∃ f, f i = m.ev.stamp ∧ Match slop (upd s.queues i d') f) ∧ s' = { s with queues := upd s.queues i d' } ∧ r = false) ∨
        (∃ f msgs, f i = m.ev.stamp ∧ Match slop (upd s.queues i d') f ∧
          (∀ j, (upd s.queues i d' j).get (f j) = some (msgs j)) ∧
          (∀ g, g i = m.ev.stamp → Match slop (upd s.queues i d') g → ∀ j, (∀ k, k < j → g k = f k) →
            dist m.ev.stamp (f j) ≤ dist m.ev.stamp (g j)) ∧
          ((boom s.out.length = true ∧ r = true ∧
            s' = { s with queues := upd s.queues i d', out := s.out ++ [msgs], locked := true }) ∨
           (boom s.out.length = false ∧ r = false ∧
            s' = { s with queues := fun j => (upd s.queues i d' j).del (f j), out := s.out ++ [msgs] }))))))) := by
  obtain ⟨e, hd⟩ := m
  simp only
  unfold approxAdd at h
  by_cases hskip : (!hd && !allow) = true
  · left
    rw [if_pos hskip] at h
    have h := Except.ok.inj h
    simp only [Bool.and_eq_true, Bool.not_eq_true'] at hskip
    exact ⟨hskip.1, hskip.2, (congrArg Prod.fst h).symm, (congrArg Prod.snd h).symm⟩
  · right
    rw [if_neg hskip] at h
    refine ⟨by revert hskip; cases hd <;> cases allow <;> simp, ?_⟩
    rcases Bool.eq_false_or_eq_true s.locked with hl | hl
    · rw [if_pos hl] at h; cases h
    · refine ⟨hl, ?_⟩
      rw [if_neg (by simp [hl])] at h
      simp only at h
      have hset := (hok i).set e
      by_cases hq : s.queueSize < 0
      · left
        rw [evict_negative hq (((s.queues i).set e.stamp e).length + 1) _ hset.nodup (by omega)] at h
        have h := Except.ok.inj h
        exact ⟨hq, (congrArg Prod.fst h).symm, (congrArg Prod.snd h).symm⟩
      · right
        refine ⟨by omega, ?_⟩
        obtain ⟨d', hev, hE⟩ := evict_spec (by omega : 0 ≤ s.queueSize) (((s.queues i).set e.stamp e).length + 1) _ hset.nodup
          (by omega)
        rw [hev] at h
        simp only at h
        refine ⟨d', hE, ?_⟩
        have dok := fun j => upd_DOk hok (hset.sublist hE.sub) (i := i) j
        cases hn : nearStamps slop e.stamp
            ((List.ofFn (upd s.queues i d')).take i ++ (List.ofFn (upd s.queues i d')).drop (i + 1)) with
        | none =>
          left
          rw [hn] at h
          have h := Except.ok.inj h
          refine ⟨?_, (congrArg Prod.fst h).symm, (congrArg Prod.snd h).symm⟩
          rintro ⟨f, hf, hm⟩
          obtain ⟨d, hd, hfar⟩ := nearStamps_none hn
          obtain ⟨v, hv, _⟩ := match_in_product hf hm
          obtain ⟨k, hk⟩ := List.mem_iff_getElem?.mp hd
          have hvl := (mem_product.mp hv).1
          have hkl : k < v.length := by
            rw [hvl, List.length_map]
            exact (List.getElem?_eq_some_iff.mp hk).1
          obtain ⟨l, hl1, hl2⟩ := (mem_product.mp hv).2 k v[k] (List.getElem?_eq_getElem hkl)
          rw [List.getElem?_map, hk] at hl1
          simp only [Option.map_some, Option.some.injEq] at hl1
          rw [← hl1, mem_nearOf] at hl2
          exact hfar _ hl2.1 hl2.2
        | some stamps =>
          rw [hn] at h
          have hstamps := nearStamps_some hn
          subst hstamps
          simp only at h
          have hlen : ∀ v ∈ product (((List.ofFn (upd s.queues i d')).take i ++
              (List.ofFn (upd s.queues i d')).drop (i + 1)).map (nearOf slop e.stamp)), v.length = n - 1 := by
            intro v hv
            rw [(mem_product.mp hv).1, List.length_map, others_length]
          rcases approxLoop_spec (boom := boom) (slop := slop) (i := i) (st := e.stamp)
            (product (((List.ofFn (upd s.queues i d')).take i ++
              (List.ofFn (upd s.queues i d')).drop (i + 1)).map (nearOf slop e.stamp)))
            { s with queues := upd s.queues i d' } with ⟨h1, h2⟩ | ⟨pre, v, post, msgs, h1, h2, h3, h4, h5⟩
          · left
            rw [h2] at h
            have h := Except.ok.inj h
            refine ⟨?_, ?_, (congrArg Prod.snd h).symm⟩
            · rintro ⟨f, hf, hm⟩
              obtain ⟨v, hv, hc⟩ := match_in_product hf hm
              apply h1 v hv
              rw [good_iff (hlen v hv), hc]
              exact hm
            · have := (congrArg Prod.fst h).symm
              simp only at this
              rw [this, ← hl]
          · right
            have hvm : v ∈ pre ++ v :: post := by simp
            rw [← h1] at hvm
            have hvl := hlen v hvm
            rw [good_iff hvl] at h3
            rw [insert_eq_ofFn v i e.stamp hvl] at h4 h5
            refine ⟨combo v i e.stamp, msgs, combo_self v i e.stamp, h3, ?_, ?_, ?_⟩
            · intro j
              have := allSome_some.mp h4 j
              simpa using this
            · intro g hg hgm j hjk
              obtain ⟨w, hw, hwc⟩ := match_in_product hg hgm
              have hwl := hlen w hw
              have hwnot : w ∉ pre := by
                intro hwp
                apply h2 w hwp
                rw [good_iff hwl, hwc]
                exact hgm
              have hlex : w = v ∨ Lex e.stamp v w := by
                rw [h1] at hw
                rcases List.mem_append.mp hw with hw1 | hw1
                · exact absurd hw1 hwnot
                · rcases List.mem_cons.mp hw1 with hw2 | hw2
                  · exact Or.inl hw2
                  · right
                    have hp := product_lex e.stamp (((List.ofFn (upd s.queues i d')).take i ++
                      (List.ofFn (upd s.queues i d')).drop (i + 1)).map (nearOf slop e.stamp)) ?_ ?_
                    · rw [h1, List.pairwise_append] at hp
                      exact (List.pairwise_cons.mp hp.2.1).1 w hw2
                    · intro l hl
                      obtain ⟨d, hd, rfl⟩ := List.mem_map.mp hl
                      apply nearOf_nodup
                      have hd' : d ∈ List.ofFn (upd s.queues i d') := by
                        rcases List.mem_append.mp hd with hd | hd
                        · exact List.mem_of_mem_take hd
                        · exact List.mem_of_mem_drop hd
                      simp only [List.mem_ofFn] at hd'
                      obtain ⟨j, rfl⟩ := hd'
                      exact (dok j).nodup
                    · intro l hl
                      obtain ⟨d, hd, rfl⟩ := List.mem_map.mp hl
                      exact nearOf_sorted _ _ _
              rcases hlex with rfl | hlex
              · rw [hwc]; exact Int.le_refl _
              · by_cases hji : j = i
                · subst hji; rw [combo_self, hg]; exact Int.le_refl _
                · have hjn := j.2
                  have hin := i.2
                  have hji' : j.1 ≠ i.1 := fun h => hji (Fin.ext h)
                  have hpl : pos i j < n - 1 := by unfold pos; split <;> omega
                  have hvx : v[pos i j]? = some (combo v i e.stamp j) := by
                    unfold combo
                    rw [if_neg hji, List.getElem?_eq_getElem (by omega)]
                    rfl
                  have hwx : w[pos i j]? = some (g j) := by
                    rw [← hwc]
                    unfold combo
                    rw [if_neg hji, List.getElem?_eq_getElem (by omega)]
                    rfl
                  refine hlex.le (pos i j) _ _ ?_ hvx hwx
                  intro mm hmm
                  have hex : ∃ k : Fin n, k ≠ i ∧ pos i k = mm ∧ k < j := by
                    by_cases hki : mm < i.1
                    · refine ⟨⟨mm, by omega⟩, fun h => ?_, ?_, ?_⟩
                      · rw [← h] at hki; simp at hki
                      · unfold pos; simp [hki]
                      · unfold pos at hmm
                        rw [Fin.lt_def]
                        split at hmm <;> simp only <;> omega
                    · refine ⟨⟨mm + 1, by omega⟩, fun h => ?_, ?_, ?_⟩
                      · rw [← h] at hki; simp at hki
                      · unfold pos
                        rw [if_neg (by simp; omega)]
                        simp
                      · unfold pos at hmm
                        rw [Fin.lt_def]
                        split at hmm <;> simp only <;> omega
                  obtain ⟨k, hk1, hk2, hk3⟩ := hex
                  have := hjk k hk3
                  rw [← hwc] at this
                  unfold combo at this
                  rw [if_neg hk1, if_neg hk1, hk2] at this
                  rw [List.getElem?_eq_getElem (by omega), List.getElem?_eq_getElem (by omega)] at this ⊢
                  simp only [Option.getD_some] at this
                  rw [this]
            · rw [h5] at h
              have h := Except.ok.inj h
              cases hb : boom s.out.length with
              | true =>
                simp only [hb, ↓reduceIte] at h
                exact Or.inl ⟨rfl, (congrArg Prod.snd h).symm, (congrArg Prod.fst h).symm⟩
              | false =>
                simp only [hb, Bool.false_eq_true, ↓reduceIte] at h
                refine Or.inr ⟨rfl, (congrArg Prod.snd h).symm, ?_⟩
                have := (congrArg Prod.fst h).symm
                simp only at this
                rw [this]
                rw [← hl]
                congr
                funext j
                simp

end MF.Py
