import Verif.Proofs.PyApprox2
/-
The Python ApproximateTimeSynchronizer: invariants over histories.
-/
namespace MF.Py

variable {n : Nat}

structure InvA (slop : Int) (s : State n) : Prop where
  ok : ∀ j, DOk (s.queues j)
  quiet : s.locked = false → ∀ f, ¬ Match slop s.queues f
  bound : s.queueSize < 0 ∨ ∀ j, ((s.queues j).length : Int) ≤ s.queueSize

theorem InvA.construct [NeZero n] (slop q : Int) : InvA slop (construct n q) := by
  refine ⟨fun _ => DOk.nil, fun _ f h => ?_, ?_⟩
  · have := h.1 ⟨0, Nat.pos_of_ne_zero (NeZero.ne n)⟩
    simp [Py.construct, Dict.keys] at this
  · by_cases h : q < 0
    · exact Or.inl h
    · right; intro j; simp [Py.construct]; omega

theorem match_old {slop : Int} {s : State n} {i : Fin n} {e : Ev} {d' : Dict Ev} {f : Fin n → Int}
    (hsub : d'.Sublist ((s.queues i).set e.stamp e)) (hne : f i ≠ e.stamp) (hm : Match slop (upd s.queues i d') f) :
    Match slop s.queues f := by
  refine ⟨fun j => ?_, hm.2⟩
  have := hm.1 j
  by_cases hj : j = i
  · subst hj
    rw [upd_same] at this
    rcases mem_keys_set.mp ((hsub.map _).subset this) with h | h
    · exact absurd h hne
    · exact h
  · rwa [upd_ne _ _ hj] at this

theorem approxAdd_inv [NeZero n] (boom : Nat → Bool) (slop : Int) (allow : Bool) (s : State n) (hinv : InvA slop s)
    (i : Fin n) (m : Msg) (s' : State n) (r : Bool) (h : approxAdd boom slop allow s i m = .ok (s', r)) :
    InvA slop s' ∧ s'.queueSize = s.queueSize ∧ (r = true → s'.locked = true) ∧ (r = false → s'.locked = s.locked) := by
  obtain ⟨_, _, rfl, rfl⟩ | ⟨_, hl, ⟨hq, rfl, rfl⟩ | ⟨hq, d', hE, ⟨hn, rfl, rfl⟩ | ⟨f, msgs, hf, hm, hg, _, ⟨_, rfl, rfl⟩ | ⟨_, rfl, rfl⟩⟩⟩⟩ :=
    approxAdd_cases boom slop allow s hinv.ok i m s' r h
  · exact ⟨hinv, rfl, fun h => Bool.noConfusion h, fun _ => rfl⟩
  · exact ⟨⟨upd_DOk hinv.ok DOk.nil, fun h => Bool.noConfusion h, Or.inl hq⟩, rfl, fun _ => rfl, fun h => Bool.noConfusion h⟩
  · refine ⟨⟨upd_DOk hinv.ok (hE.dok (hinv.ok i)), fun _ f hm => ?_, Or.inr (upd_bound hinv.bound hq hE.length_le)⟩, rfl,
      fun h => Bool.noConfusion h, fun _ => rfl⟩
    by_cases hfi : f i = m.ev.stamp
    · exact hn ⟨f, hfi, hm⟩
    · exact hinv.quiet hl f (match_old hE.sub hfi hm)
  · exact ⟨⟨upd_DOk hinv.ok (hE.dok (hinv.ok i)), fun h => Bool.noConfusion h, Or.inr (upd_bound hinv.bound hq hE.length_le)⟩, rfl,
      fun _ => rfl, fun h => Bool.noConfusion h⟩
  · refine ⟨⟨fun j => (upd_DOk hinv.ok (hE.dok (hinv.ok i)) j).sublist (del_sublist _ _), fun _ g hgm => ?_, Or.inr ?_⟩, rfl,
      fun h => Bool.noConfusion h, fun _ => rfl⟩
    · have hk1 := fun j => mem_keys_del.mp (hgm.1 j)
      have hne := (hk1 i).2
      rw [hf] at hne
      exact hinv.quiet hl g (match_old hE.sub hne ⟨fun j => (hk1 j).1, hgm.2⟩)
    · intro j
      have h1 := upd_bound hinv.bound hq hE.length_le (i := i) j
      have h2 := (del_sublist (upd s.queues i d' j) (f j)).length_le
      simp only at h1 ⊢
      omega

/-- Induction over the calls of an ApproximateTimeSynchronizer. -/
theorem approxRun_induction [NeZero n] {boom : Nat → Bool} {slop q : Int} {allow : Bool} {P : List (Fin n × Msg) → State n → Prop}
    (h0 : P [] (construct n q))
    (hs : ∀ ops s i m s' r, approxRun boom slop allow (construct n q) ops = .ok s → InvA slop s → s.queueSize = q → P ops s →
      approxAdd boom slop allow s i m = .ok (s', r) → P (ops ++ [(i, m)]) s')
    (ops : List (Fin n × Msg)) (s : State n) (h : approxRun boom slop allow (construct n q) ops = .ok s) :
    P ops s ∧ InvA slop s ∧ s.queueSize = q := by
  induction ops using snoc_induction generalizing s with
  | h0 => cases h; exact ⟨h0, InvA.construct slop q, rfl⟩
  | hs ops op ih =>
    obtain ⟨s1, h1, h2⟩ := runE_snoc_ok h
    obtain ⟨hP, hI, hq⟩ := ih s1 h1
    obtain ⟨⟨s2, r⟩, h3, h4⟩ := map_ok h2
    cases h4
    obtain ⟨k1, k2, _⟩ := approxAdd_inv boom slop allow s1 hI op.1 op.2 s2 r h3
    exact ⟨hs ops s1 op.1 op.2 s2 r h1 hI hq hP h3, k1, k2.trans hq⟩

theorem accepted_snoc (allow : Bool) (ops : List (Fin n × Msg)) (i : Fin n) (m : Msg) :
    accepted allow (ops ++ [(i, m)]) = accepted allow ops ++ (if (m.header || allow) = true then [(i, m.ev)] else []) := by
  unfold accepted
  rw [List.filter_append, List.map_append]
  congr 1
  by_cases h : (m.header || allow) = true
  · rw [if_pos h, List.filter_cons_of_pos (by simpa using h)]; rfl
  · rw [if_neg h, List.filter_cons_of_neg (by simpa using h)]; rfl

theorem approx_from [NeZero n] {boom : Nat → Bool} {slop q : Int} {allow : Bool} (ops : List (Fin n × Msg)) (s : State n)
    (h : approxRun boom slop allow (construct n q) ops = .ok s) :
    (∀ j, ∀ p ∈ s.queues j, (j, p.2) ∈ accepted allow ops) ∧
    (∀ t ∈ s.out, (∀ i, (i, t i) ∈ accepted allow ops) ∧ ∀ i j, (t i).stamp - (t j).stamp < slop) := by
  refine (approxRun_induction (P := fun ops s => (∀ j, ∀ p ∈ s.queues j, (j, p.2) ∈ accepted allow ops) ∧
    (∀ t ∈ s.out, (∀ i, (i, t i) ∈ accepted allow ops) ∧ ∀ i j, (t i).stamp - (t j).stamp < slop)) ?_ ?_ ops s h).1
  · exact ⟨fun j p hp => by simp [construct] at hp, fun t ht => by simp [construct] at ht⟩
  · rintro ops s i m s' r - hinv - ⟨hP, hO⟩ hadd
    have sub : ∀ x ∈ accepted allow ops, x ∈ accepted allow (ops ++ [(i, m)]) := by
      intro x hx; rw [accepted_snoc]; exact List.mem_append_left _ hx
    have up : ∀ j, ∀ p ∈ s.queues j, (j, p.2) ∈ accepted allow (ops ++ [(i, m)]) := fun j p hp => sub _ (hP j p hp)
    have upO : ∀ t ∈ s.out, (∀ i', (i', t i') ∈ accepted allow (ops ++ [(i, m)])) ∧ ∀ i j, (t i).stamp - (t j).stamp < slop :=
      fun t ht => ⟨fun j => sub _ ((hO t ht).1 j), (hO t ht).2⟩
    obtain ⟨_, _, rfl, rfl⟩ | ⟨hh, hl, ⟨hq, rfl, rfl⟩ | ⟨hq, d', hE, hc⟩⟩ :=
      approxAdd_cases boom slop allow s hinv.ok i m s' r hadd
    · exact ⟨up, upO⟩
    · refine ⟨fun j p hp => ?_, upO⟩
      by_cases hj : j = i
      · subst hj; simp only [upd_same] at hp; cases hp
      · simp only [upd_ne _ _ hj] at hp; exact up j p hp
    · have updq : ∀ j, ∀ p ∈ upd s.queues i d' j, (j, p.2) ∈ accepted allow (ops ++ [(i, m)]) := by
        intro j p hp
        by_cases hj : j = i
        · subst hj
          rw [upd_same] at hp
          rcases mem_set.mp (hE.sub.subset hp) with rfl | hp
          · rw [accepted_snoc, if_pos hh]; simp
          · exact up j p hp.1
        · rw [upd_ne _ _ hj] at hp; exact up j p hp
      have dok := fun j => upd_DOk hinv.ok (hE.dok (hinv.ok i)) (i := i) j
      rcases hc with ⟨hc, rfl, rfl⟩ | ⟨f, msgs, hf, hm, hg, _, hc⟩
      · exact ⟨updq, upO⟩
      · have hmem := fun j => (get_some (dok j).nodup).mp (hg j)
        have hst : ∀ j, (msgs j).stamp = f j := fun j => (dok j).stamp _ (hmem j)
        have hset : (∀ i', (i', msgs i') ∈ accepted allow (ops ++ [(i, m)])) ∧ ∀ i j, (msgs i).stamp - (msgs j).stamp < slop :=
          ⟨fun j => updq j _ (hmem j), fun a b => by rw [hst, hst]; exact hm.2 a b⟩
        have outq : ∀ t ∈ s.out ++ [msgs], (∀ i', (i', t i') ∈ accepted allow (ops ++ [(i, m)])) ∧
            ∀ i j, (t i).stamp - (t j).stamp < slop := by
          intro t ht
          rcases List.mem_append.mp ht with ht | ht
          · exact upO t ht
          · simp only [List.mem_singleton] at ht; subst ht; exact hset
        rcases hc with ⟨_, rfl, rfl⟩ | ⟨_, rfl, rfl⟩
        · exact ⟨updq, outq⟩
        · exact ⟨fun j p hp => updq j p (mem_del.mp hp).1, outq⟩

theorem approx_count [NeZero n] {boom : Nat → Bool} {slop q : Int} {allow : Bool} (ops : List (Fin n × Msg)) (s : State n)
    (h : approxRun boom slop allow (construct n q) ops = .ok s) (j : Fin n) (e : Ev) :
    ((s.out.map (· j)).count e ≤ (accepted allow ops).count (j, e)) ∧
    (s.locked = false → (s.out.map (· j)).count e + (vals (s.queues j)).count e ≤ (accepted allow ops).count (j, e)) := by
  refine (approxRun_induction (P := fun ops s => ((s.out.map (· j)).count e ≤ (accepted allow ops).count (j, e)) ∧
    (s.locked = false → (s.out.map (· j)).count e + (vals (s.queues j)).count e ≤ (accepted allow ops).count (j, e)))
    ?_ ?_ ops s h).1
  · simp [construct, vals]
  · rintro ops s i m s' r - hinv - ⟨hP, hO⟩ hadd
    have hcnt : (accepted allow (ops ++ [(i, m)])).count (j, e) = (accepted allow ops).count (j, e) +
        (if (m.header || allow) = true ∧ (i, m.ev) = (j, e) then 1 else 0) := by
      rw [accepted_snoc, List.count_append]
      congr 1
      by_cases h : (m.header || allow) = true
      · rw [if_pos h, List.count_singleton]
        by_cases hx : (i, m.ev) = (j, e) <;> simp [h, hx]
      · rw [if_neg h, if_neg (fun hx => h hx.1)]; rfl
    obtain ⟨_, _, rfl, rfl⟩ | ⟨hh, hl, ⟨hq, rfl, rfl⟩ | ⟨hq, d', hE, hc⟩⟩ :=
      approxAdd_cases boom slop allow s hinv.ok i m s' r hadd
    · rw [hcnt]; exact ⟨by omega, fun h => by have := hO h; omega⟩
    · exact ⟨by rw [hcnt]; simp only; omega, fun h => Bool.noConfusion h⟩
    · have hO := hO hl
      have hupd : (vals (upd s.queues i d' j)).count e ≤
          (vals (s.queues j)).count e + (if (m.header || allow) = true ∧ (i, m.ev) = (j, e) then 1 else 0) := by
        by_cases hj : j = i
        · subst hj
          rw [upd_same]
          have h1 := count_sub hE.sub e
          have h2 := count_set (s.queues j) (hinv.ok j).nodup m.ev.stamp m.ev e
          have h3 : (if m.ev = e then 1 else 0) = (if (m.header || allow) = true ∧ (j, m.ev) = (j, e) then 1 else 0) := by
            by_cases hme : m.ev = e
            · rw [if_pos hme, if_pos ⟨hh, by rw [hme]⟩]
            · rw [if_neg hme, if_neg]
              rintro ⟨-, hx⟩
              exact hme (Prod.mk.inj hx).2
          rw [h3] at h2
          omega
        · rw [upd_ne _ _ hj]; omega
      have dok := fun j => upd_DOk hinv.ok (hE.dok (hinv.ok i)) (i := i) j
      rcases hc with ⟨hc, rfl, rfl⟩ | ⟨f, msgs, hf, hm, hg, _, hc⟩
      · rw [hcnt]
        exact ⟨by simp only; omega, fun _ => by simp only; omega⟩
      · have hmem := (get_some (dok j).nodup).mp (hg j)
        have hdel := count_del _ _ _ e hmem
        have hout : ((s.out ++ [msgs]).map (· j)).count e = (s.out.map (· j)).count e + (if msgs j = e then 1 else 0) := by
          rw [List.map_append, List.count_append]
          simp only [List.map_cons, List.map_nil, List.count_singleton]
          by_cases hx : msgs j = e <;> simp [hx]
        rw [hcnt]
        rcases hc with ⟨_, rfl, rfl⟩ | ⟨_, rfl, rfl⟩
        · exact ⟨by simp only [hout]; omega, fun h => Bool.noConfusion h⟩
        · exact ⟨by simp only [hout]; omega, fun _ => by simp only [hout]; omega⟩

end MF.Py
