import Verif.Proofs.Approx4
/-
Helper lemmas about the ApproximateTime model, part 5: histories, conservation, maximum interval.
-/
namespace MF.Approx
open MF.Epsilon (nonEmpty nonEmpty_eq_iff nonEmpty_upd nonEmpty_le total total_le total_stream)

variable {n : Nat}

/-- The messages added by a history, with their inputs. -/
def adds (ops : List (Op n)) : List (Fin n × Ev) :=
  ops.filterMap (fun op => match op with | .add i e => some (i, e) | _ => none)

theorem adds_append (xs ys : List (Op n)) : adds (xs ++ ys) = adds xs ++ adds ys := by simp [adds]

theorem adds_map (ops : List (Fin n × Ev)) : adds (ops.map (fun op => .add op.1 op.2)) = ops := by
  unfold adds
  induction ops with
  | nil => rfl
  | cons a l ih => simp [ih]

theorem examined_view {s s1 : State n} {m e p : Fin n} (h : LoopInv s) (hx : Examined s m e p s1) (i : Fin n) :
    ∃ q, view s i = q ++ view s1 i := by
  cases hx with
  | fresh h1 h2 h3 hp hs =>
    subst hs
    refine ⟨[], ?_⟩
    unfold fresh; rw [view_moved]
    simp [view, candidated, cleared, h.noPivot h1 i]
  | kept h1 h2 hs =>
    subst hs
    refine ⟨[], ?_⟩
    unfold kept; rw [view_moved]; rfl
  | better h1 h2 hs =>
    subst hs
    refine ⟨s.past i, ?_⟩
    unfold better; rw [view_moved]
    simp [view, candidated, cleared]

/-- Every message of `L i` was consumed or is still held, in order, and the sets output used consumed messages in
order. -/
def Hist (L : Fin n → List Ev) (s : State n) : Prop :=
  ∀ i, ∃ c, L i = c ++ view s i ∧ List.Sublist (s.out.map (· i)) (c.map some)

theorem Hist.consume {L : Fin n → List Ev} {s s' : State n} (h : Hist L s) (ho : s'.out = s.out)
    (hv : ∀ i, ∃ q, view s i = q ++ view s' i) : Hist L s' := by
  intro i
  obtain ⟨c, h1, h2⟩ := h i
  obtain ⟨q, hq⟩ := hv i
  refine ⟨c ++ q, by rw [h1, hq, List.append_assoc], ?_⟩
  rw [ho, List.map_append]
  exact h2.trans (List.sublist_append_left _ _)

theorem pstep_hist {L : Fin n → List Ev} {s s' : State n} (hi : LoopInv s) (hs : PStep s s') (h : Hist L s) : Hist L s' := by
  cases hs with
  | delete m e hm he hp hc hs =>
    subst hs
    refine h.consume (by rfl) ?_
    intro i
    by_cases him : i = m
    · subst him
      refine ⟨(s.deques i).take 1, ?_⟩
      simp only [view, deleted, cleared, upd_same, hi.noPivot hp i, List.nil_append]
      cases s.deques i <;> simp
    · exact ⟨[], by simp [view, deleted, cleared, upd_ne _ _ him]⟩
  | go m e p hm he hx ha hpm => exact h.consume ha.out (examined_view hi hx)
  | publish m e p s1 hm he hx ha hw hs =>
    subst hs
    have h1 : Hist L s1 := h.consume ha.out (examined_view hi hx)
    obtain ⟨c, hc⟩ := ha.candInv
    intro i
    obtain ⟨q, h2, h3⟩ := h1 i
    obtain ⟨tl, htl⟩ := hc.head i
    refine ⟨q ++ [c i], ?_, ?_⟩
    · rw [h2]
      show _ = q ++ [c i] ++ ([] ++ (view s1 i).tail)
      rw [htl]; simp
    · show List.Sublist ((s1.out ++ [s1.cand]).map (· i)) _
      rw [List.map_append, List.map_append]
      apply List.Sublist.append h3
      simp [hc.cand i]

theorem psteps_hist {L : Fin n → List Ev} {s s' : State n} (hi : LoopInv s) (hs : PSteps s s') (h : Hist L s) : Hist L s' :=
  (psteps_ind (P := Hist L) (fun _ _ a _ b c => pstep_hist a b c) hi hs h).2.2

theorem pushed_hist {L : Fin n → List Ev} {s s1 : State n} {i : Fin n} {e : Ev} (hp : Pushed s s1 i e) (h : Hist L s) :
    Hist (upd L i (L i ++ [e])) s1 := by
  intro j
  obtain ⟨c, h1, h2⟩ := h j
  refine ⟨c, ?_, by rw [hp.out]; exact h2⟩
  by_cases hj : j = i
  · subst hj; rw [upd_same, hp.view_same, h1, List.append_assoc]
  · rw [upd_ne _ _ hj, hp.view_ne hj, h1]

theorem view_dropped (s : State n) (i : Fin n) : view (dropped s i) = upd (view s) i (view s i).tail := by
  funext j
  show [] ++ _ = _
  rfl

theorem dropped_hist {L : Fin n → List Ev} {s : State n} (i : Fin n) (h : Hist L s) : Hist L (dropped s i) := by
  refine h.consume (by rfl) ?_
  intro j
  rw [view_dropped]
  by_cases hj : j = i
  · subst hj
    refine ⟨(view s j).take 1, ?_⟩
    rw [upd_same]
    cases view s j <;> simp
  · exact ⟨[], by rw [upd_ne _ _ hj]; rfl⟩

theorem add_hist {L : Fin n → List Ev} {s s' : State n} {i : Fin n} {e : Ev} (hi : LoopInv s) (hs : AddSpec s s' i e)
    (h : Hist L s) : Hist (upd L i (L i ++ [e])) s' := by
  cases hs with
  | normal s1 hp hs hl => exact psteps_hist (hp.inv hi) hs (pushed_hist hp h)
  | drop s1 s2 hp hs hl hs' =>
    exact psteps_hist (dropped_inv s2 i) hs' (dropped_hist i (psteps_hist (hp.inv hi) hs (pushed_hist hp h)))

theorem stream_snoc (ops : List (Fin n × Ev)) (i : Fin n) (e : Ev) :
    stream (ops ++ [(i, e)]) = upd (stream ops) i (stream ops i ++ [e]) := by
  funext j
  by_cases hj : j = i
  · subst hj; rw [stream_snoc_same, upd_same]
  · rw [stream_snoc_ne _ _ (Ne.symm hj), upd_ne _ _ hj]

/-- The constructed state. -/
def init (cfg : Cfg n) : State n :=
  { cfg := cfg, deques := fun _ => [], num := 0, past := fun _ => [], cand := fun _ => none, candStart := 0,
    candEnd := 0, pivotTime := 0, pivot := none, hasDropped := fun _ => false, warned := fun _ => false, out := [] }

theorem construct_eq (cfg : Cfg n) (h : 0 < cfg.queueSize) : construct n cfg = .ok (init cfg) := by
  unfold construct; rw [if_pos h]; rfl

theorem init_inv [NeZero n] (cfg : Cfg n) (h : 0 < cfg.queueSize) : Inv (init cfg) := by
  refine ⟨⟨?_, fun _ _ => rfl, ?_⟩, ⟨0, rfl⟩, ?_, h⟩
  · simp [init, nonEmpty]
  · intro p hp; cases hp
  · intro i; simp [view, init]

theorem candInv_cfg {s : State n} {p : Fin n} {c : Fin n → Ev} (h : CandInv s p c) (cfg : Cfg n) :
    CandInv { s with cfg := cfg } p c :=
  ⟨h.pivot, h.cand, h.head, h.pivotTime, h.lo, h.hi, h.loEx, h.hiEx, h.noDrop⟩

theorem inv_cfg {s : State n} (h : Inv s) (cfg : Cfg n) (hq : cfg.queueSize = s.cfg.queueSize) : Inv { s with cfg := cfg } := by
  refine ⟨⟨h.loop.num, h.loop.noPivot, ?_⟩, h.someEmpty, by simp only [hq]; exact h.bound, by simp only [hq]; exact h.qpos⟩
  intro p hp
  obtain ⟨c, hc, hpast⟩ := h.loop.pivoted p hp
  exact ⟨c, candInv_cfg hc cfg, hpast⟩

/-- The arguments of the setters satisfy their assertions. -/
def OpOk : Op n → Prop
  | .add _ _ => True
  | .setAgePenalty nonneg _ => nonneg = true
  | .setInterMessageLowerBound _ d => 0 ≤ d
  | .setMaxIntervalDuration d => 0 ≤ d

theorem step_spec [NeZero n] (fuel : Nat) {s : State n} (h : Inv s) (op : Op n) (hop : OpOk op) :
    ((∃ s', step fuel s op = .ok s' ∧ Inv s' ∧ s'.cfg.queueSize = s.cfg.queueSize ∧
        ∀ L, Hist L s → Hist (match op with | .add i e => upd L i (L i ++ [e]) | _ => L) s') ∨
      step fuel s op = .error .hang) ∧
    (∀ B, total (view s) + 1 ≤ B → B * B + B ≤ fuel → ∃ s', step fuel s op = .ok s') := by
  cases op with
  | add i e =>
    obtain ⟨h1, h2⟩ := add_spec fuel h i e
    refine ⟨?_, h2⟩
    rcases h1 with ⟨s', g1, g2, g3, g4⟩ | h1
    · left; exact ⟨s', g1, g3, by rw [g4], fun L hL => add_hist h.loop g2 hL⟩
    · right; exact h1
  | setAgePenalty nonneg scale =>
    have hop : nonneg = true := hop
    simp only [step, hop, if_true]
    exact ⟨Or.inl ⟨_, rfl, inv_cfg h _ rfl, rfl, fun L hL => hL⟩, fun _ _ _ => ⟨_, rfl⟩⟩
  | setInterMessageLowerBound i d =>
    have hop : d ≥ 0 := hop
    simp only [step, if_pos hop]
    exact ⟨Or.inl ⟨_, rfl, inv_cfg h _ rfl, rfl, fun L hL => hL⟩, fun _ _ _ => ⟨_, rfl⟩⟩
  | setMaxIntervalDuration d =>
    have hop : d ≥ 0 := hop
    simp only [step, if_pos hop]
    exact ⟨Or.inl ⟨_, rfl, inv_cfg h _ rfl, rfl, fun L hL => hL⟩, fun _ _ _ => ⟨_, rfl⟩⟩

theorem step_ok_opOk [NeZero n] {fuel : Nat} {s s' : State n} {op : Op n} (h : step fuel s op = .ok s') : OpOk op := by
  cases op with
  | add i e => trivial
  | setAgePenalty nonneg scale =>
    simp only [step] at h
    cases nonneg with
    | true => rfl
    | false => simp at h
  | setInterMessageLowerBound i d =>
    simp only [step] at h
    split at h
    · assumption
    · cases h
  | setMaxIntervalDuration d =>
    simp only [step] at h
    split at h
    · assumption
    · cases h

theorem runOps_ok [NeZero n] {fuel : Nat} {cfg : Cfg n} {ops : List (Op n)} {s : State n}
    (h : runOps fuel cfg ops = .ok s) :
    0 < cfg.queueSize ∧ runE (step fuel) (init cfg) ops = .ok s := by
  unfold runOps at h
  by_cases hq : 0 < cfg.queueSize
  · rw [construct_eq cfg hq] at h; exact ⟨hq, h⟩
  · unfold construct at h; rw [if_neg hq] at h; cases h

theorem runE_spec [NeZero n] (fuel : Nat) (cfg : Cfg n) (hq : 0 < cfg.queueSize) : ∀ (ops : List (Op n)) (s : State n),
    runE (step fuel) (init cfg) ops = .ok s → Inv s ∧ s.cfg.queueSize = cfg.queueSize ∧ Hist (stream (adds ops)) s := by
  apply runE_induction
  · exact ⟨init_inv cfg hq, rfl, fun i => ⟨[], rfl, List.nil_sublist _⟩⟩
  · intro ops s op s' _ ⟨hi, hc, hh⟩ hs
    rcases (step_spec fuel hi op (step_ok_opOk hs)).1 with ⟨s1, g1, g2, g3, g4⟩ | g1
    · rw [hs] at g1; cases g1
      refine ⟨g2, by rw [g3, hc], ?_⟩
      have := g4 _ hh
      cases op with
      | add i e => rw [adds_append]; simp only [adds, List.filterMap_cons, List.filterMap_nil]; rw [stream_snoc]; exact this
      | _ => rw [adds_append]; simp only [adds, List.filterMap_cons, List.filterMap_nil, List.append_nil]; exact this
    · rw [hs] at g1; cases g1

theorem total_view_le {ops : List (Fin n × Ev)} {s : State n} (h : Hist (stream ops) s) : total (view s) ≤ ops.length := by
  rw [← total_stream]
  apply total_le
  intro i
  obtain ⟨c, hc, _⟩ := h i
  rw [hc]; simp

theorem adds_length_le (ops : List (Op n)) : (adds ops).length ≤ ops.length := List.length_filterMap_le _ _

/-! ### Sets span at most the maximum interval -/

/-- Every two messages of the set are at most `d` apart. -/
def Within (d : Int) (t : Fin n → Option Ev) : Prop := ∀ i j x y, t i = some x → t j = some y → x.stamp - y.stamp ≤ d

/-- Invariant for the maximum interval. -/
def Span (M : Int) (s : State n) : Prop :=
  (∀ t ∈ s.out, Within M t) ∧ (s.pivot ≠ none → s.candEnd - s.candStart ≤ M)

/-- For inputs in time order the boundaries of the front messages never precede those of the candidate. -/
theorem end_ge_cand {s : State n} {p e : Fin n} {c : Fin n → Ev} (hc : CandInv s p c) (hne : ∀ i, s.deques i ≠ [])
    (hs : ∀ i, TimeSorted (view s i)) (he : IsEnd s.deques e) : s.candEnd ≤ st s.deques e := by
  obtain ⟨i, hi⟩ := hc.hiEx
  have h1 : (c i).stamp ≤ st s.deques i := by
    obtain ⟨tl, htl⟩ := hc.head i
    have hsi := hs i
    cases hd : s.deques i with
    | nil => exact absurd hd (hne i)
    | cons x r =>
      rw [st_cons hd]
      have hx : x ∈ view s i := by simp [view, hd]
      rw [htl] at hx hsi
      rcases List.mem_cons.1 hx with hx | hx
      · rw [hx]; exact Int.le_refl _
      · exact (List.pairwise_cons.1 hsi).1 x hx
  have := he.1 i
  omega

theorem pstep_span {M : Int} {s s' : State n} (hi : LoopInv s) (hne : ∀ i, s.deques i ≠ [])
    (hM : s.cfg.maxInterval = M) (hf : ∀ x, 0 ≤ x → x ≤ s.cfg.scale x)
    (hs : ∀ i, TimeSorted (view s i)) (hstep : PStep s s') (h : Span M s) : Span M s' := by
  have hx : ∀ m e p s1, IsStart s.deques m → IsEnd s.deques e → Examined s m e p s1 → After s m p s1 → Span M s1 := by
    intro m e p s1 hm he hx ha
    refine ⟨by rw [ha.out]; exact h.1, fun _ => ?_⟩
    cases hx with
    | fresh h1 h2 h3 hp hs => subst hs; show st s.deques e - st s.deques m ≤ M; omega
    | kept h1 h2 hs =>
      subst hs
      exact h.2 (by rw [h1]; simp)
    | better h1 h2 hs' =>
      subst hs'
      show st s.deques e - st s.deques m ≤ M
      obtain ⟨c, hc, _⟩ := hi.pivoted p h1
      have h3 := end_ge_cand hc hne hs he
      have h4 := hf (st s.deques e - s.candEnd) (by omega)
      have h5 := h.2 (by rw [h1]; simp)
      omega
  cases hstep with
  | delete m e hm he hp hc hs =>
    subst hs
    exact ⟨h.1, fun h0 => absurd hp h0⟩
  | go m e p hm he hx' ha hpm => exact hx m e p s' hm he hx' ha
  | publish m e p s1 hm he hx' ha hw hs' =>
    subst hs'
    have h1 := hx m e p s1 hm he hx' ha
    obtain ⟨c, hc⟩ := ha.candInv
    refine ⟨?_, fun h0 => absurd rfl h0⟩
    intro t ht
    rcases List.mem_append.1 (show t ∈ s1.out ++ [s1.cand] from ht) with ht | ht
    · exact h1.1 t ht
    · rw [List.mem_singleton] at ht
      subst ht
      intro i j x y hxi hyj
      rw [hc.cand i] at hxi
      rw [hc.cand j] at hyj
      cases hxi; cases hyj
      have := h1.2 (by rw [hc.pivot]; simp)
      have := hc.hi i; have := hc.lo j
      omega

theorem sorted_of_hist {L : Fin n → List Ev} {s : State n} (h : Hist L s) (hL : ∀ i, TimeSorted (L i)) (i : Fin n) :
    TimeSorted (view s i) := by
  obtain ⟨c, hc, _⟩ := h i
  have := hL i
  rw [hc] at this
  exact (List.pairwise_append.1 this).2.1

theorem psteps_span {M : Int} {L : Fin n → List Ev} {s s' : State n} (hi : LoopInv s) (hL : ∀ i, TimeSorted (L i))
    (hM : s.cfg.maxInterval = M) (hf : ∀ x, 0 ≤ x → x ≤ s.cfg.scale x) (hh : Hist L s) (hstep : PSteps s s')
    (h : Span M s) : Span M s' := by
  have := psteps_ind (P := fun t => Span M t ∧ t.cfg = s.cfg ∧ Hist L t)
    (fun t t' a b c d => ⟨pstep_span a b (by rw [d.2.1]; exact hM) (by rw [d.2.1]; exact hf)
      (fun i => sorted_of_hist d.2.2 hL i) c d.1, by rw [pstep_cfg c, d.2.1], pstep_hist a c d.2.2⟩) hi hstep
    ⟨h, rfl, hh⟩
  exact this.2.2.1

theorem pushed_span {M : Int} {s s1 : State n} {i : Fin n} {e : Ev} (hp : Pushed s s1 i e) (h : Span M s) : Span M s1 := by
  unfold Span at *
  rw [hp.out, hp.pivot, hp.candEnd, hp.candStart]; exact h

/-- The configuration never changes in a history of `add` calls. -/
theorem run_cfg [NeZero n] {fuel : Nat} {cfg : Cfg n} (hq : 0 < cfg.queueSize) : ∀ (ops : List (Op n)) (s : State n),
    runE (step fuel) (init cfg) ops = .ok s → (∀ op ∈ ops, ∃ i e, op = .add i e) → s.cfg = cfg := by
  apply runE_induction
  · intro _; rfl
  · intro ops s op s' hr ih hs hall
    have h1 := ih (fun o ho => hall o (by simp [ho]))
    obtain ⟨i, e, rfl⟩ := hall op (by simp)
    obtain ⟨hi, _, _⟩ := runE_spec fuel cfg hq ops s hr
    rcases (add_spec fuel hi i e).1 with ⟨s1, g1, _, _, g4⟩ | g1
    · have hs : add fuel s i e = .ok s' := hs
      rw [hs] at g1; cases g1; rw [g4, h1]
    · have hs : add fuel s i e = .ok s' := hs
      rw [hs] at g1; cases g1

/-- Induction principle for histories of `add` calls. -/
theorem run_induction [NeZero n] {fuel : Nat} {cfg : Cfg n} {P : List (Fin n × Ev) → State n → Prop}
    (h0 : P [] (init cfg))
    (hstep : ∀ ops s i e s', Inv s → s.cfg = cfg → Hist (stream ops) s → AddSpec s s' i e → Inv s' →
      P ops s → P (ops ++ [(i, e)]) s') :
    ∀ ops s, run fuel cfg ops = .ok s → P ops s := by
  intro ops
  induction ops using snoc_induction with
  | h0 =>
    intro s h
    have h := (runOps_ok h).2
    simp only [List.map_nil, runE, Except.ok.injEq] at h
    rw [← h]; exact h0
  | hs ops op ih =>
    intro s' h
    obtain ⟨hq, h⟩ := runOps_ok h
    rw [List.map_append] at h
    obtain ⟨s, h1, h2⟩ := runE_snoc_ok h
    have hrun : run fuel cfg ops = .ok s := by
      unfold run runOps; rw [construct_eq cfg hq]; exact h1
    obtain ⟨hi, _, hh⟩ := runE_spec fuel cfg hq _ s h1
    rw [adds_map] at hh
    have hcfg := run_cfg hq _ s h1 (by
      intro o ho; rw [List.mem_map] at ho; obtain ⟨a, _, rfl⟩ := ho; exact ⟨_, _, rfl⟩)
    obtain ⟨i, e⟩ := op
    have h2 : add fuel s i e = .ok s' := h2
    rcases (add_spec fuel hi i e).1 with ⟨s1, g1, g2, g3, g4⟩ | g1
    · rw [h2] at g1; cases g1
      exact hstep ops s i e s' hi hcfg hh g2 g3 (ih s hrun)
    · rw [h2] at g1; cases g1

theorem run_facts [NeZero n] {fuel : Nat} {cfg : Cfg n} {ops : List (Fin n × Ev)} {s : State n}
    (h : run fuel cfg ops = .ok s) : Inv s ∧ s.cfg = cfg ∧ Hist (stream ops) s := by
  obtain ⟨hq, h⟩ := runOps_ok h
  obtain ⟨hi, _, hh⟩ := runE_spec fuel cfg hq _ s h
  rw [adds_map] at hh
  refine ⟨hi, run_cfg hq _ s h ?_, hh⟩
  intro o ho; rw [List.mem_map] at ho; obtain ⟨a, _, rfl⟩ := ho; exact ⟨_, _, rfl⟩

end MF.Approx
