import Verif.Proofs.Apart
import Verif.Proofs.ApproxMaximal
/-
Helper lemmas for C108: the ApproximateTime synchronizer on inputs whose stamps are far apart.
-/
namespace MF.Approx

variable {n : Nat}

/-- A candidate spans at most the maximum interval, and only its oldest message has been passed over. -/
structure Sparse (s : State n) : Prop where
  noDrop : ∀ i, s.hasDropped i = false
  cand : ∀ p, s.pivot = some p → s.candEnd - s.candStart ≤ s.cfg.maxInterval ∧
    ∃ a x, a ≠ p ∧ s.past = upd (fun _ => []) a [x] ∧ x.stamp = s.candStart

/-- The set is output, or none of its messages is gone. -/
def Remains (T : Fin n → Ev) (fut : Fin n → List Ev) (s : State n) : Prop :=
  (fun i => some (T i)) ∈ s.out ∨ ∀ i, T i ∈ view s i ++ fut i

/-- If the input whose message was passed over has another one, that one is so late that the candidate cannot be beaten. -/
theorem Sparse.late {s : State n} (h : Sparse s) (hM : 0 ≤ s.cfg.maxInterval) (hsc : ∀ x, 0 ≤ x → x ≤ s.cfg.scale x) {L : Fin n → List Ev}
    (ha : ∀ i, FarApart (2 * s.cfg.maxInterval) (L i)) (hsub : ∀ i, ∀ x ∈ view s i, x ∈ L i)
    (hst : ∀ i, StrictlyTimeSorted (view s i)) (hi : LoopInv s) (hne : ∀ i, s.deques i ≠ []) {e p : Fin n}
    (he : IsEnd s.deques e) (hp : s.pivot = some p) : s.pivotTime - s.candStart < s.cfg.scale (st s.deques e - s.candEnd) := by
  obtain ⟨h1, a, x, hap, hpast, hx⟩ := h.cand p hp
  obtain ⟨c, hc, _⟩ := hi.pivoted p hp
  obtain ⟨y, tl, hy⟩ := List.exists_cons_of_ne_nil (hne a)
  have hv : view s a = x :: y :: tl := by
    unfold view; rw [hpast, upd_same, hy]; rfl
  have h2 := hst a
  have h3 := hsub a
  unfold StrictlyTimeSorted at h2
  rw [hv] at h2 h3
  have hxy := (List.pairwise_cons.1 h2).1 y (by simp)
  have h4 : x.stamp + 2 * s.cfg.maxInterval < y.stamp := by
    apply Classical.byContradiction
    intro hn
    have := (ha a).eq (h3 x (by simp)) (h3 y (by simp)) (by omega) (by omega)
    rw [this] at hxy
    omega
  have h5 := he.1 a
  rw [st_cons hy] at h5
  have h6 := hc.hi p
  rw [hc.pivotTime] at h6
  have h7 := hsc (st s.deques e - s.candEnd) (by omega)
  omega

theorem examined_sparse {s s1 : State n} (hM : 0 ≤ s.cfg.maxInterval) (hsc : ∀ x, 0 ≤ x → x ≤ s.cfg.scale x) {L : Fin n → List Ev}
    (ha' : ∀ i, FarApart (2 * s.cfg.maxInterval) (L i)) (hsub : ∀ i, ∀ x ∈ view s i, x ∈ L i)
    (hst : ∀ i, StrictlyTimeSorted (view s i)) (hi : LoopInv s) (hne : ∀ i, s.deques i ≠ []) {m e p : Fin n}
    (hm : IsStart s.deques m) (he : IsEnd s.deques e) (hx : Examined s m e p s1) (ha : After s m p s1) (h : Sparse s) :
    (∀ i, view s1 i = view s i) ∧ s1.candEnd - s1.candStart ≤ s.cfg.maxInterval ∧
    ((p ≠ m ∧ s1.past = upd (fun _ => []) m [(s.deques m).headD default] ∧ ((s.deques m).headD default).stamp = s1.candStart) ∨ p = m ∨
      s1.pivotTime - s1.candStart < s1.cfg.scale (st s.deques e - s1.candEnd)) := by
  cases hx with
  | fresh h1 h2 h3 hp hs =>
    subst hs
    have hpast := hi.noPivot h1
    refine ⟨?_, h2, ?_⟩
    · intro i
      unfold fresh
      rw [view_moved]
      simp [view, candidated, cleared, hpast i]
    · by_cases hpm : p = m
      · exact Or.inr (Or.inl hpm)
      · left
        refine ⟨hpm, ?_, rfl⟩
        funext i
        obtain ⟨y, tl, hy⟩ := List.exists_cons_of_ne_nil (hne m)
        simp only [fresh, moved, candidated, cleared]
        by_cases him : i = m
        · subst him; rw [upd_same, upd_same, hy]; rfl
        · rw [upd_ne _ _ him, upd_ne _ _ him]
  | kept h1 h2 hs =>
    subst hs
    refine ⟨fun i => by unfold kept; rw [view_moved]; rfl, (h.cand p h1).1, Or.inr (Or.inr ?_)⟩
    exact h.late hM hsc ha' hsub hst hi hne he h1
  | better h1 h2 hs =>
    exfalso
    have := h.late hM hsc ha' hsub hst hi hne he h1
    obtain ⟨c, hc, hpp⟩ := hi.pivoted p h1
    have h3 := hm.1 p
    obtain ⟨tl, htl⟩ := hc.head p
    unfold view at htl
    rw [hpp, List.nil_append] at htl
    rw [st_cons htl, hc.pivotTime] at h3
    omega

theorem pstep_sparse {s s' : State n} (hM : 0 ≤ s.cfg.maxInterval) (hsc : ∀ x, 0 ≤ x → x ≤ s.cfg.scale x) {L fut : Fin n → List Ev}
    (ha' : ∀ i, FarApart (2 * s.cfg.maxInterval) (L i)) (hsub : ∀ i, ∀ x ∈ view s i, x ∈ L i)
    (hst : ∀ i, StrictlyTimeSorted (view s i ++ fut i)) (hi : LoopInv s) (hne : ∀ i, s.deques i ≠ []) {T : Fin n → Ev}
    (hT : ∀ i, T i ∈ L i) (hspan : ∀ i j, (T i).stamp - (T j).stamp ≤ s.cfg.maxInterval) (hs : PStep s s') (h : Sparse s) (hr : Remains T fut s) :
    Sparse s' ∧ Remains T fut s' := by
  have hst' : ∀ i, StrictlyTimeSorted (view s i) := fun i => (List.pairwise_append.1 (hst i)).1
  cases hs with
  | delete m e hm he hp hc hs =>
    subst hs
    have hpast := hi.noPivot hp
    refine ⟨⟨fun i => by simp [deleted, cleared, h.noDrop i], ?_⟩, ?_⟩
    · intro p hp'
      have : s.pivot = some p := hp'
      rw [hp] at this; cases this
    · rcases hr with hr | hr
      · exact Or.inl hr
      · right
        intro i
        have hri := hr i
        unfold view at hri ⊢
        simp only [deleted, cleared]
        by_cases him : i = m
        · subst him
          rw [upd_same, hpast i, List.nil_append]
          rw [hpast i, List.nil_append] at hri
          obtain ⟨y, tl, hy⟩ := List.exists_cons_of_ne_nil (hne i)
          rw [hy] at hri ⊢
          rcases List.mem_cons.1 (by simpa using hri : T i ∈ y :: (tl ++ fut i)) with h1 | h1
          · exfalso
            rcases hc with hc | hc
            · have h2 : st s.deques e ≤ (T e).stamp := by
                have h3 := hr e
                have h4 := hst e
                obtain ⟨z, tz, hz⟩ := List.exists_cons_of_ne_nil (hne e)
                unfold StrictlyTimeSorted at h4
                unfold view at h3 h4
                rw [hpast e, List.nil_append, hz] at h3 h4
                rw [st_cons hz]
                rcases List.mem_cons.1 (by simpa using h3 : T e ∈ z :: (tz ++ fut e)) with h5 | h5
                · rw [h5]; exact Int.le_refl _
                · exact Int.le_of_lt ((List.pairwise_cons.1 h4).1 _ h5)
              have h3 := hspan e i
              rw [h1] at h3
              rw [st_cons hy] at hc
              omega
            · rw [h.noDrop e] at hc; cases hc
          · simpa using h1
        · rw [upd_ne _ _ him]; exact hri
  | go m e p hm he hx ha hpm hage =>
    obtain ⟨h1, h2, h3⟩ := examined_sparse hM hsc ha' hsub hst' hi hne hm he hx ha h
    obtain ⟨c, hc⟩ := ha.candInv
    refine ⟨⟨hc.noDrop, ?_⟩, ?_⟩
    · intro p' hp'
      rw [hc.pivot] at hp'
      cases hp'
      rw [ha.cfg]
      refine ⟨h2, ?_⟩
      rcases h3 with ⟨_, h3, h4⟩ | h3 | h3
      · exact ⟨m, _, Ne.symm hpm, h3, h4⟩
      · exact absurd h3 hpm
      · omega
    · rcases hr with hr | hr
      · left; rw [ha.out]; exact hr
      · right; intro i; rw [h1 i]; exact hr i
  | publish m e p s1 hm he hx ha hw hs =>
    obtain ⟨h1, h2, h3⟩ := examined_sparse hM hsc ha' hsub hst' hi hne hm he hx ha h
    obtain ⟨c, hc⟩ := ha.candInv
    subst hs
    refine ⟨⟨hc.noDrop, fun p' hp' => by cases hp'⟩, ?_⟩
    rcases hr with hr | hr
    · left
      show _ ∈ s1.out ++ [s1.cand]
      rw [ha.out]; exact List.mem_append_left _ hr
    · by_cases hall : ∃ i, c i = T i
      · obtain ⟨i, hci⟩ := hall
        left
        have : c = T := matches_unique ha' (fun j => by
            obtain ⟨tl, htl⟩ := hc.head j
            rw [h1 j] at htl
            exact hsub j _ (by rw [htl]; simp)) hT (fun a b => by
            have := hc.hi a
            have := hc.lo b
            omega) hspan hci
        show _ ∈ s1.out ++ [s1.cand]
        rw [List.mem_append, List.mem_singleton]
        right
        funext j
        rw [hc.cand j, this]
      · right
        intro i
        obtain ⟨tl, htl⟩ := hc.head i
        have hri := hr i
        rw [← h1 i, htl] at hri
        show T i ∈ ([] ++ (view s1 i).tail) ++ fut i
        rw [htl]
        rcases List.mem_cons.1 (by simpa using hri : T i ∈ c i :: (tl ++ fut i)) with h4 | h4
        · exact absurd ⟨i, h4.symm⟩ hall
        · simpa using h4

theorem run_sparse [NeZero n] {fuel : Nat} {cfg : Cfg n} (hM : 0 ≤ cfg.maxInterval) (hsc : ∀ x, 0 ≤ x → x ≤ cfg.scale x) {L : Fin n → List Ev}
    (ha : ∀ i, FarApart (2 * cfg.maxInterval) (L i)) (hst : ∀ i, StrictlyTimeSorted (L i)) {T : Fin n → Ev} (hT : ∀ i, T i ∈ L i)
    (hspan : ∀ i j, (T i).stamp - (T j).stamp ≤ cfg.maxInterval) :
    ∀ (ops : List (Fin n × Ev)) (s : State n), run fuel cfg ops = .ok s → (∀ i, (stream ops i).length ≤ cfg.queueSize) →
    ∀ fut, (∀ i, L i = stream ops i ++ fut i) → Sparse s ∧ Remains T fut s := by
  apply run_induction
  · intro _ fut hL
    refine ⟨⟨fun _ => rfl, fun p hp => by cases hp⟩, Or.inr fun i => ?_⟩
    have := hT i
    rw [hL i] at this
    exact this
  · intro ops s i e s' hi hcfg hh hadd hi' ih hlen fut hL
    have hlen0 : ∀ j, (stream ops j).length ≤ cfg.queueSize := by
      intro j
      have := hlen j
      rw [stream_snoc] at this
      by_cases hj : j = i
      · subst hj; rw [upd_same] at this; simp at this; omega
      · rw [upd_ne _ _ hj] at this; exact this
    have hfut : ∀ j, L j = stream ops j ++ (upd fut i (e :: fut i)) j := by
      intro j
      rw [hL j, stream_snoc]
      by_cases hj : j = i
      · subst hj; rw [upd_same, upd_same, List.append_assoc]; rfl
      · rw [upd_ne _ _ hj, upd_ne _ _ hj]
    obtain ⟨h1, h2⟩ := ih hlen0 _ hfut
    cases hadd with
    | normal s1 hp hs hl =>
      have hh1 := pushed_hist hp hh
      rw [← stream_snoc] at hh1
      have hl1 := hp.inv hi.loop
      have hcfg1 : s1.cfg = cfg := by rw [hp.cfg, hcfg]
      have h3 : Sparse s1 := by
        refine ⟨by rw [hp.hasDropped]; exact h1.noDrop, fun p hp' => ?_⟩
        rw [hp.pivot] at hp'
        rw [hp.cfg, hp.past, hp.candStart, hp.candEnd]
        exact h1.cand p hp'
      have h4 : Remains T fut s1 := by
        rcases h2 with h2 | h2
        · exact Or.inl (by rw [hp.out]; exact h2)
        · right
          intro j
          have := h2 j
          by_cases hj : j = i
          · subst hj; rw [upd_same] at this; rw [hp.view_same]; simpa using this
          · rw [upd_ne _ _ hj] at this; rw [hp.view_ne hj]; exact this
      have := psteps_ind (P := fun t => (t.cfg = cfg ∧ Hist (stream (ops ++ [(i, e)])) t) ∧ Sparse t ∧ Remains T fut t)
        (by
          rintro t t' a b c ⟨⟨d1, d2⟩, d3, d4⟩
          refine ⟨⟨by rw [pstep_cfg c, d1], pstep_hist a c d2⟩, ?_⟩
          refine pstep_sparse (by rw [d1]; exact hM) (by rw [d1]; exact hsc) (by rw [d1]; exact ha) ?_ ?_ a b hT
            (by rw [d1]; exact hspan) c d3 d4
          · intro j x hx
            obtain ⟨cs, hcs, _⟩ := d2 j
            rw [hL j, hcs]
            simp [hx]
          · intro j
            exact strict_of_hist d2 (fun j => by rw [← hL j]; exact hst j) j)
        hl1 hs ⟨⟨hcfg1, hh1⟩, h3, h4⟩
      exact this.2.2.2
    | drop s1 s2 hp hs hl hs' =>
      exfalso
      have hh2 := psteps_hist (hp.inv hi.loop) hs (pushed_hist hp hh)
      rw [← stream_snoc] at hh2
      obtain ⟨c, hc, _⟩ := hh2 i
      have := hlen i
      rw [hc] at this
      rw [hcfg] at hl
      simp at this
      omega

/-- When everything has been delivered, a matching set is output or it is the candidate. -/
theorem run_sparse_fits [NeZero n] {fuel : Nat} {cfg : Cfg n} (hM : 0 ≤ cfg.maxInterval) (hsc : ∀ x, 0 ≤ x → x ≤ cfg.scale x)
    {ops : List (Fin n × Ev)} {s : State n} (h : run fuel cfg ops = .ok s) (hq : NoOverflow fuel cfg ops)
    (ha : ∀ i, FarApart (2 * cfg.maxInterval) (stream ops i)) (hst : ∀ i, StrictlyTimeSorted (stream ops i)) {T : Fin n → Ev}
    (hT : Matches cfg.maxInterval ops T) :
    (fun i => some (T i)) ∈ s.out ∨
    (∀ i, s.cand i = some (T i)) ∧ (∀ i, T i ∈ view s i) ∧ ∃ a, (∀ j, (T a).stamp ≤ (T j).stamp) ∧ ∃ older, stream ops a = older ++ [T a] := by
  have h1 := noOverflow_run h hq
  obtain ⟨h2, h3⟩ := run_sparse (cfg := { cfg with queueSize := ops.length + 1 }) hM hsc ha hst (fun i => mem_stream.2 (hT.1 i)) hT.2
    ops _ h1 (by
    intro i
    have : (stream ops i).length ≤ ops.length := by unfold stream; rw [List.length_map]; exact List.length_filter_le _ _
    show _ ≤ ops.length + 1
    omega) (fun _ => []) (fun i => by simp)
  rcases h3 with h3 | h3
  · exact Or.inl h3
  · right
    obtain ⟨hinv, _, hh⟩ := run_facts h1
    obtain ⟨k, hk⟩ := hinv.someEmpty
    have h3 : ∀ i, T i ∈ view (setQ (ops.length + 1) s) i := fun i => by simpa using h3 i
    cases hpv : (setQ (ops.length + 1) s).pivot with
    | none =>
      have h4 := h3 k
      unfold view at h4
      rw [hinv.loop.noPivot hpv k, hk] at h4
      cases h4
    | some p =>
      obtain ⟨c, hc, hpp⟩ := hinv.loop.pivoted p hpv
      obtain ⟨h4, a, x, hap, hpast, hx⟩ := h2.cand p hpv
      have hka : k = a := by
        apply Classical.byContradiction
        intro hka
        have h5 := h3 k
        unfold view at h5
        rw [hpast, upd_ne _ _ hka, hk] at h5
        cases h5
      subst hka
      have hv : view (setQ (ops.length + 1) s) k = [x] := by
        unfold view; rw [hpast, upd_same, hk]; rfl
      have hTx : T k = x := by
        have := h3 k
        rw [hv] at this
        simpa using this
      have hcx : c k = x := by
        obtain ⟨tl, htl⟩ := hc.head k
        rw [hv] at htl
        simp at htl
        exact htl.1.symm
      have hsub : ∀ i, ∀ y ∈ view (setQ (ops.length + 1) s) i, y ∈ stream ops i := by
        intro i y hy
        obtain ⟨cs, hcs, _⟩ := hh i
        rw [hcs]; simp [hy]
      have hcT : c = T := matches_unique ha (fun j => by
          obtain ⟨tl, htl⟩ := hc.head j
          exact hsub j _ (by rw [htl]; simp)) (fun i => mem_stream.2 (hT.1 i)) (fun i j => by
          have h5 := hc.hi i
          have h6 := hc.lo j
          have h7 : (setQ (ops.length + 1) s).cfg.maxInterval = cfg.maxInterval := by
            rw [(run_facts h1).2.1]
          omega) hT.2 (hcx.trans hTx.symm)
      refine ⟨fun i => by rw [← hcT]; exact hc.cand i, h3, k, fun j => ?_, ?_⟩
      · rw [hTx, hx, ← hcT]; exact hc.lo j
      · obtain ⟨cs, hcs, _⟩ := hh k
        exact ⟨cs, by rw [hcs, hv, hTx]⟩

end MF.Approx
