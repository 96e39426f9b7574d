import Verif.Spec.ApproxRoom
import Verif.Proofs.ApproxMaximal
/-
What an ApproximateTime synchronizer holds is not behind what it has used or set aside.
-/
namespace MF.Approx
open MF.Epsilon (notBehind AheadAtMost)

variable {n : Nat}

/-- What is held or still to come is not older, by more than `M`, than what is gone or set aside, and what is set aside is
not newer than the pivot. -/
def Behind (M : Int) (L fut : Fin n → List Ev) (s : State n) : Prop :=
  (∀ j c, L j = c ++ view s j → ∀ x ∈ c ++ s.past j, ∀ i, ∀ y ∈ view s i ++ fut i, x.stamp - M ≤ y.stamp) ∧
  ∀ j, ∀ x ∈ s.past j, s.pivot ≠ none → x.stamp ≤ s.pivotTime

theorem head_le {l tl fut : List Ev} {x y : Ev} (hl : l = x :: tl) (hs : TimeSorted (l ++ fut)) (hy : y ∈ l ++ fut) :
    x.stamp ≤ y.stamp := by
  subst hl
  rcases List.mem_cons.1 hy with h | h
  · rw [h]; exact Int.le_refl _
  · exact (List.pairwise_cons.1 hs).1 y h

/-- What is held is not older, by more than `M`, than the candidate. -/
theorem cand_behind {M : Int} {fut : Fin n → List Ev} {s : State n} {p : Fin n} {c : Fin n → Ev} (hc : CandInv s p c)
    (hsp : s.candEnd - s.candStart ≤ M) (hs : ∀ i, TimeSorted (view s i ++ fut i)) (i : Fin n) (y : Ev)
    (hy : y ∈ view s i ++ fut i) (j : Fin n) : (c j).stamp - M ≤ y.stamp := by
  obtain ⟨tl, htl⟩ := hc.head i
  have := head_le htl (hs i) hy
  have := hc.lo i
  have := hc.hi j
  omega

theorem examined_behind {M : Int} {L fut : Fin n → List Ev} {s s1 : State n} {m e p : Fin n} (hi : LoopInv s)
    (hne : ∀ i, s.deques i ≠ []) (hm : IsStart s.deques m)
    (hs : ∀ i, TimeSorted (view s i ++ fut i)) (hx : Examined s m e p s1) (ha : After s m p s1) (hsp : Span M s1)
    (hh : ∀ j, ∃ c, L j = c ++ view s j) (h : Behind M L fut s) : Behind M L fut s1 := by
  obtain ⟨c1, hc1⟩ := ha.candInv
  have hs1 : ∀ i, TimeSorted (view s1 i ++ fut i) := by
    intro i
    obtain ⟨q, hq⟩ := examined_view hi hx i
    have := hs i
    rw [hq, List.append_assoc] at this
    exact (List.pairwise_append.1 this).2.1
  have hspan := hsp.2 (by rw [hc1.pivot]; simp)
  -- the front that is set aside is not newer than the pivot
  have hpast : ∀ j, ∀ x ∈ s1.past j, x.stamp ≤ s1.pivotTime := by
    have hmp : st s.deques m ≤ s1.pivotTime := by
      cases hx with
      | fresh h1 h2 h3 hp hs' => subst hs' hp; exact hm.1 p
      | kept h1 h2 hs' =>
        obtain ⟨c, hc, hpp⟩ := hi.pivoted p h1
        obtain ⟨tl, htl⟩ := hc.head p
        simp only [view, hpp, List.nil_append] at htl
        have := hm.1 p
        rw [st_cons htl, hc.pivotTime] at this
        subst hs'; exact this
      | better h1 h2 hs' =>
        obtain ⟨c, hc, hpp⟩ := hi.pivoted p h1
        obtain ⟨tl, htl⟩ := hc.head p
        simp only [view, hpp, List.nil_append] at htl
        have := hm.1 p
        rw [st_cons htl, hc.pivotTime] at this
        subst hs'; exact this
    have hfront : ∀ x ∈ (s.deques m).take 1, x.stamp = st s.deques m := by
      intro x hx
      obtain ⟨a, tl, ha⟩ := List.exists_cons_of_ne_nil (hne m)
      rw [ha] at hx
      simp at hx
      rw [st_cons ha, hx]
    intro j x hxm
    cases hx with
    | fresh h1 h2 h3 hp hs' =>
      subst hs'
      simp only [fresh, moved, candidated] at hxm
      by_cases hj : j = m
      · subst hj
        rw [upd_same] at hxm
        have := hfront x (by simpa [cleared] using hxm)
        omega
      · rw [upd_ne _ _ hj] at hxm; cases hxm
    | kept h1 h2 hs' =>
      have hpt : s1.pivotTime = s.pivotTime := by subst hs'; rfl
      subst hs'
      simp only [kept, moved, cleared] at hxm
      by_cases hj : j = m
      · subst hj
        rw [upd_same] at hxm
        rcases List.mem_append.1 hxm with hx | hx
        · exact h.2 j x hx (by rw [h1]; simp)
        · have := hfront x hx
          omega
      · rw [upd_ne _ _ hj] at hxm
        exact h.2 j x hxm (by rw [h1]; simp)
    | better h1 h2 hs' =>
      subst hs'
      simp only [better, moved, candidated] at hxm
      by_cases hj : j = m
      · subst hj
        rw [upd_same] at hxm
        have := hfront x (by simpa [cleared] using hxm)
        omega
      · rw [upd_ne _ _ hj] at hxm; cases hxm
  refine ⟨?_, fun j x hx _ => hpast j x hx⟩
  intro j c hc x hxm i y hy
  obtain ⟨qj, hqj⟩ := examined_view hi hx j
  obtain ⟨qi, hqi⟩ := examined_view hi hx i
  have hpiv : s1.pivotTime - M ≤ y.stamp := by
    have := cand_behind hc1 hspan hs1 i y hy p
    rw [hc1.pivotTime] at this
    exact this
  rcases List.mem_append.1 hxm with hxc | hxp
  · -- gone: before, or set aside before
    have hor : ∃ c0, L j = c0 ++ view s j ∧ x ∈ c0 ++ s.past j := by
      cases hx with
      | fresh h1 h2 h3 hp hs' =>
        have : view s1 j = view s j := by
          subst hs'; unfold fresh; rw [view_moved]
          simp [view, candidated, cleared, hi.noPivot h1 j]
        exact ⟨c, by rw [hc, this], by simp [hxc]⟩
      | kept h1 h2 hs' =>
        have : view s1 j = view s j := by subst hs'; unfold kept; rw [view_moved]; rfl
        exact ⟨c, by rw [hc, this], by simp [hxc]⟩
      | better h1 h2 hs' =>
        have : view s1 j = s.deques j := by
          subst hs'; unfold better; rw [view_moved]
          simp [view, candidated, cleared]
        obtain ⟨c0, hc0⟩ := hh j
        refine ⟨c0, hc0, ?_⟩
        have heq : c0 ++ s.past j = c := by
          apply List.append_cancel_right (as := c0 ++ s.past j) (bs := s.deques j)
          rw [← this, ← hc, hc0, this]
          simp [view]
        rw [heq]; exact hxc
    obtain ⟨c0, h1, h2⟩ := hor
    exact h.1 j c0 h1 x h2 i y (by rw [hqi]; rcases List.mem_append.1 hy with h | h <;> simp [h])
  · have := hpast j x hxp
    omega

theorem pstep_behind {M : Int} {L fut : Fin n → List Ev} {s s' : State n} (hi : LoopInv s) (hne : ∀ i, s.deques i ≠ [])
    (hM : 0 ≤ M) (hs : ∀ i, TimeSorted (view s i ++ fut i)) (hstep : PStep s s')
    (hspan : ∀ m e p s1, IsStart s.deques m → IsEnd s.deques e → Examined s m e p s1 → After s m p s1 → Span M s1)
    (hh : ∀ j, ∃ c, L j = c ++ view s j) (h : Behind M L fut s) : Behind M L fut s' := by
  cases hstep with
  | delete m e hm he hp hc hs' =>
    have hpast := hi.noPivot hp
    subst hs'
    refine ⟨?_, fun j x hx h0 => absurd hp h0⟩
    intro j c hc' x hx i y hy
    replace hx : x ∈ c := by
      have : (deleted (cleared s e) m).past j = [] := hpast j
      rw [this] at hx; simpa using hx
    have hy' : y ∈ view s i ++ fut i := by
      rcases List.mem_append.1 hy with hy | hy
      · by_cases him : i = m
        · subst him
          simp only [view, deleted, cleared, upd_same, hpast, List.nil_append] at hy ⊢
          exact List.mem_append_left _ (List.mem_of_mem_tail hy)
        · simp only [view, deleted, cleared, upd_ne _ _ him] at hy ⊢
          exact List.mem_append_left _ hy
      · exact List.mem_append_right _ hy
    by_cases hjm : j = m
    · subst hjm
      obtain ⟨a, tl, ha⟩ := List.exists_cons_of_ne_nil (hne j)
      obtain ⟨c0, hc0⟩ := hh j
      have hv : view (deleted (cleared s e) j) j = tl := by
        simp only [view, deleted, cleared, upd_same, hpast, List.nil_append, ha, List.tail_cons]
      have hcc : c = c0 ++ [a] := by
        apply List.append_cancel_right (as := c) (bs := tl)
        rw [← hv, ← hc', hc0, hv]
        simp [view, hpast, ha]
      rw [hcc] at hx
      rcases List.mem_append.1 hx with hx | hx
      · exact h.1 j c0 hc0 x (by simp [hx]) i y hy'
      · have hxa : x = a := by simpa using hx
        subst hxa
        have h1 := hm.1 i
        rw [st_cons ha] at h1
        have hsi := hs i
        have hv : view s i = s.deques i := by simp [view, hpast]
        rw [hv] at hsi hy'
        have := st_mem (hne i) rfl hsi hy'
        omega
    · have hv : view (deleted (cleared s e) m) j = view s j := by
        simp only [view, deleted, cleared, upd_ne _ _ hjm]
      rw [hv] at hc'
      exact h.1 j c hc' x (by simp [hx]) i y hy'
  | go m e p hm he hx ha hpm => exact examined_behind hi hne hm hs hx ha (hspan m e p s' hm he hx ha) hh h
  | publish m e p s1 hm he hx ha hw hs' =>
    have hsp := hspan m e p s1 hm he hx ha
    have h1 := examined_behind hi hne hm hs hx ha hsp hh h
    subst hs'
    obtain ⟨c1, hc1⟩ := ha.candInv
    have hs1 : ∀ i, TimeSorted (view s1 i ++ fut i) := by
      intro i
      obtain ⟨q, hq⟩ := examined_view hi hx i
      have := hs i
      rw [hq, List.append_assoc] at this
      exact (List.pairwise_append.1 this).2.1
    refine ⟨?_, fun j x hx h0 => absurd rfl h0⟩
    intro j c hc x hxm i y hy
    replace hxm : x ∈ c := by
      have : (published s1).past j = [] := rfl
      rw [this] at hxm; simpa using hxm
    have hy' : y ∈ view s1 i ++ fut i := by
      rcases List.mem_append.1 hy with hy | hy
      · have : view (published s1) i = (view s1 i).tail := by simp [view, published]
        rw [this] at hy
        exact List.mem_append_left _ (List.mem_of_mem_tail hy)
      · exact List.mem_append_right _ hy
    obtain ⟨tl, htl⟩ := hc1.head j
    obtain ⟨q, hq⟩ := examined_view hi hx j
    obtain ⟨c0, hc0⟩ := hh j
    have hc0' : L j = (c0 ++ q) ++ view s1 j := by rw [hc0, hq, List.append_assoc]
    have hcc : c = (c0 ++ q) ++ [c1 j] := by
      apply List.append_cancel_right (as := c) (bs := tl)
      have : view (published s1) j = tl := by
        have : view (published s1) j = (view s1 j).tail := by simp [view, published]
        rw [this, htl]; rfl
      rw [← this, ← hc, hc0', htl, this]
      simp
    rw [hcc] at hxm
    rcases List.mem_append.1 hxm with hxm | hxm
    · exact h1.1 j (c0 ++ q) hc0' x (List.mem_append_left _ hxm) i y hy'
    · have hxa : x = c1 j := by simpa using hxm
      rw [hxa]
      exact cand_behind hc1 (hsp.2 (by rw [hc1.pivot]; simp)) hs1 i y hy' j

theorem examined_span {M : Int} {s : State n} (hi : LoopInv s) (hne : ∀ i, s.deques i ≠ [])
    (hM : s.cfg.maxInterval = M) (hf : ∀ x, 0 ≤ x → x ≤ s.cfg.scale x)
    (hs : ∀ i, TimeSorted (view s i)) (h : Span M s) :
    ∀ m e p s1, IsStart s.deques m → IsEnd s.deques e → Examined s m e p s1 → After s m p s1 → Span M s1 := by
  intro m e p s1 hm he hx ha
  refine ⟨by rw [ha.out]; exact h.1, fun _ => ?_⟩
  cases hx with
  | fresh h1 h2 h3 hp hs => subst hs; show st s.deques e - st s.deques m ≤ M; omega
  | kept h1 h2 hs =>
    subst hs
    exact h.2 (by rw [h1]; simp)
  | better h1 h2 hs' =>
    subst hs'
    show st s.deques e - st s.deques m ≤ M
    obtain ⟨c, hc, _⟩ := hi.pivoted p h1
    have h3 := end_ge_cand hc hne hs he
    have h4 := hf (st s.deques e - s.candEnd) (by omega)
    have h5 := h.2 (by rw [h1]; simp)
    omega

theorem sorted_fut {L fut : Fin n → List Ev} {s : State n} (h : Hist L s) (hL : ∀ i, TimeSorted (L i ++ fut i)) (i : Fin n) :
    TimeSorted (view s i ++ fut i) := by
  obtain ⟨c, hc, _⟩ := h i
  have := hL i
  rw [hc, List.append_assoc] at this
  exact (List.pairwise_append.1 this).2.1

theorem psteps_behind {M : Int} {L fut : Fin n → List Ev} {s s' : State n} (hi : LoopInv s)
    (hM0 : 0 ≤ M) (hM : s.cfg.maxInterval = M) (hf : ∀ x, 0 ≤ x → x ≤ s.cfg.scale x) (hh : Hist L s)
    (hL : ∀ i, TimeSorted (L i ++ fut i)) (hs : PSteps s s') (hsp : Span M s) (h : Behind M L fut s) :
    Span M s' ∧ Behind M L fut s' := by
  have := psteps_ind (P := fun t => (t.cfg = s.cfg ∧ Hist L t) ∧ Span M t ∧ Behind M L fut t)
    (by
      rintro t t' a b c ⟨⟨d1, d2⟩, d3, d4⟩
      have hsv : ∀ i, TimeSorted (view t i) := fun i => (List.pairwise_append.1 (sorted_fut d2 hL i)).1
      exact ⟨⟨by rw [pstep_cfg c, d1], pstep_hist a c d2⟩,
        pstep_span a b (by rw [d1]; exact hM) (by rw [d1]; exact hf) hsv c d3,
        pstep_behind a b hM0 (sorted_fut d2 hL) c
          (examined_span a b (by rw [d1]; exact hM) (by rw [d1]; exact hf) hsv d3)
          (fun j => by obtain ⟨c, hc, _⟩ := d2 j; exact ⟨c, hc⟩) d4⟩)
    hi hs ⟨⟨rfl, hh⟩, hsp, h⟩
  exact this.2.2.2

theorem pushed_behind {M : Int} {L fut : Fin n → List Ev} {s s1 : State n} {i : Fin n} {e : Ev}
    (hp : Pushed s s1 i e) (h : Behind M L (upd fut i (e :: fut i)) s) : Behind M (upd L i (L i ++ [e])) fut s1 := by
  refine ⟨?_, ?_⟩
  · intro j c hc x hx k y hy
    have hy' : y ∈ view s k ++ upd fut i (e :: fut i) k := by
      by_cases hk : k = i
      · subst hk; rw [hp.view_same] at hy; rw [upd_same]; simpa using hy
      · rw [hp.view_ne hk] at hy; rw [upd_ne _ _ hk]; exact hy
    have hc' : L j = c ++ view s j := by
      by_cases hj : j = i
      · subst hj
        rw [upd_same, hp.view_same, ← List.append_assoc] at hc
        exact List.append_cancel_right hc
      · rwa [upd_ne _ _ hj, hp.view_ne hj] at hc
    rw [hp.past] at hx
    exact h.1 j c hc' x hx k y hy'
  · rw [hp.past, hp.pivot, hp.pivotTime]; exact h.2

theorem run_behind [NeZero n] {fuel : Nat} {cfg : Cfg n} (hM : 0 ≤ cfg.maxInterval) (hf : ∀ x, 0 ≤ x → x ≤ cfg.scale x) :
    ∀ (ops : List (Fin n × Ev)) (s : State n), run fuel cfg ops = .ok s → (∀ i, (stream ops i).length ≤ cfg.queueSize) →
    ∀ (fut : Fin n → List Ev), (∀ i, TimeSorted (stream ops i ++ fut i)) →
      Span cfg.maxInterval s ∧ Behind cfg.maxInterval (stream ops) fut s := by
  apply run_induction
  · intro _ fut _
    refine ⟨⟨fun t ht => by simp [init] at ht, fun h0 => absurd rfl h0⟩, ?_, fun j x hx => by simp [init] at hx⟩
    intro j c hc x hx
    have : c = [] := by
      have := congrArg List.length hc
      simp [stream, init, view] at this
      exact List.eq_nil_of_length_eq_zero this.symm
    rw [this] at hx; simp [init] at hx
  · intro ops s i e s' hi hcfg hh hadd hi' ih hlen fut hst
    have hlen0 : ∀ j, (stream ops j).length ≤ cfg.queueSize := by
      intro j
      have := hlen j
      rw [stream_snoc] at this
      by_cases hj : j = i
      · subst hj; rw [upd_same] at this; simp at this; omega
      · rw [upd_ne _ _ hj] at this; exact this
    cases hadd with
    | normal s1 hp hs hl =>
      have hh1 := pushed_hist hp hh
      rw [← stream_snoc] at hh1
      have hl1 := hp.inv hi.loop
      have hcfg1 : s1.cfg = cfg := by rw [hp.cfg, hcfg]
      have hfut : ∀ j, stream (ops ++ [(i, e)]) j ++ fut j = stream ops j ++ (upd fut i (e :: fut i)) j := by
        intro j
        rw [stream_snoc]
        by_cases hj : j = i
        · subst hj; rw [upd_same, upd_same, List.append_assoc]; rfl
        · rw [upd_ne _ _ hj, upd_ne _ _ hj]
      obtain ⟨h0, h1⟩ := ih hlen0 (upd fut i (e :: fut i)) (fun j => by rw [← hfut]; exact hst j)
      have h1 := pushed_behind hp h1
      rw [← stream_snoc] at h1
      exact psteps_behind hl1 hM (by rw [hcfg1]) (by rw [hcfg1]; exact hf) hh1 hst hs (pushed_span hp h0) h1
    | drop s1 s2 hp hs hl hs' =>
      exfalso
      have hh2 := psteps_hist (hp.inv hi.loop) hs (pushed_hist hp hh)
      rw [← stream_snoc] at hh2
      obtain ⟨c, hc, _⟩ := hh2 i
      have := hlen i
      rw [hc] at this
      rw [hcfg] at hl
      simp at this
      omega

theorem filter_length_le {l l' : List Ev} {P : Ev → Bool} (h : ∃ c, l = c ++ l') (hP : ∀ x ∈ l', P x = true) :
    l'.length ≤ (l.filter P).length := by
  obtain ⟨c, rfl⟩ := h
  rw [List.filter_append, List.filter_eq_self.2 hP, List.length_append]
  omega

theorem take_time_sorted {ops : List (Fin n × Ev)} {i : Fin n} (h : TimeSorted (stream ops i)) (k : Nat) :
    TimeSorted (stream (ops.take k) i) := by
  unfold TimeSorted at h ⊢
  rw [← List.take_append_drop k ops, stream_append] at h
  exact (List.pairwise_append.1 h).1

theorem noOverflow_of_ahead [NeZero n] {fuel : Nat} {cfg : Cfg n} (hM : 0 ≤ cfg.maxInterval)
    (hf : ∀ x, 0 ≤ x → x ≤ cfg.scale x) {ops : List (Fin n × Ev)} (hs : ∀ i, TimeSorted (stream ops i))
    (ha : AheadAtMost cfg.queueSize cfg.maxInterval ops) (hw : AtMostWithin cfg.queueSize cfg.maxInterval ops) :
    NoOverflow fuel cfg ops := by
  intro k s h i
  have hlen : ∀ i, (stream (ops.take k) i).length ≤ ops.length + 1 := by
    intro i
    have : (stream (ops.take k) i).length ≤ (ops.take k).length := by
      unfold stream; rw [List.length_map]; exact List.length_filter_le _ _
    rw [List.length_take] at this
    omega
  obtain ⟨hinv, hcfg, hh⟩ := run_facts h
  obtain ⟨hsp, hb⟩ := run_behind (cfg := { cfg with queueSize := ops.length + 1 }) hM hf (ops.take k) s h hlen (fun _ => [])
    (fun i => by simpa using take_time_sorted (hs i) k)
  obtain ⟨j, hj⟩ := hinv.someEmpty
  have hvlen : (s.past i).length + (s.deques i).length = (view s i).length := by simp [view]
  rw [hvlen]
  obtain ⟨ci, hci, _⟩ := hh i
  by_cases hij : i = j
  · subst hij
    have hv : view s i = s.past i := by simp [view, hj]
    cases hp : s.pivot with
    | none => rw [hv, hinv.loop.noPivot hp i]; exact Nat.zero_le _
    | some p =>
      obtain ⟨c, hc, _⟩ := hinv.loop.pivoted p hp
      have hsv : ∀ i, TimeSorted (view s i ++ []) := fun i => by
        obtain ⟨c, hc, _⟩ := hh i
        have := take_time_sorted (hs i) k
        rw [hc] at this
        rw [List.append_nil]
        exact (List.pairwise_append.1 this).2.1
      have h1 := filter_length_le (l := stream (ops.take k) i) (l' := view s i)
        (P := fun x => decide (s.pivotTime - cfg.maxInterval ≤ x.stamp) && decide (x.stamp ≤ s.pivotTime)) ⟨ci, hci⟩ (by
          intro x hx
          rw [Bool.and_eq_true, decide_eq_true_eq, decide_eq_true_eq]
          refine ⟨?_, hb.2 i x (by rw [← hv]; exact hx) (by rw [hp]; simp)⟩
          have := cand_behind hc (hsp.2 (by rw [hp]; simp)) hsv i x (by simpa using hx) p
          rw [hc.pivotTime] at this
          exact this)
      have h2 := hw i s.pivotTime
      have h3 : ((stream (ops.take k) i).filter
          (fun x => decide (s.pivotTime - cfg.maxInterval ≤ x.stamp) && decide (x.stamp ≤ s.pivotTime))).length ≤
          ((stream ops i).filter
          (fun x => decide (s.pivotTime - cfg.maxInterval ≤ x.stamp) && decide (x.stamp ≤ s.pivotTime))).length := by
        conv => rhs; rw [← List.take_append_drop k ops]
        rw [stream_append, List.filter_append, List.length_append]
        omega
      omega
  · obtain ⟨cj, hcj, _⟩ := hh j
    have h1 := filter_length_le (l := stream (ops.take k) i) (l' := view s i)
      (P := fun x => (stream (ops.take k) j).all (fun y => decide (y.stamp - cfg.maxInterval ≤ x.stamp))) ⟨ci, hci⟩ (by
        intro x hx
        rw [List.all_eq_true]
        intro y hy
        rw [decide_eq_true_eq]
        refine hb.1 j cj hcj y ?_ i x (by simpa using hx)
        rw [hcj] at hy
        simpa [view, hj] using hy)
    have h2 := ha k i j hij
    unfold notBehind at h2
    omega

end MF.Approx
