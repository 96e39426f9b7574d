import Verif.Proofs.Approx3
/-
Helper lemmas about the ApproximateTime model, part 4: `process` and `add` as sequences of steps, safety, termination.
-/
namespace MF.Approx
open MF.Epsilon (nonEmpty nonEmpty_eq_iff nonEmpty_upd nonEmpty_le total total_le sum_map_lt)

variable {n : Nat}

/-- One iteration of the loop of `process`. -/
inductive PStep (s s' : State n) : Prop where
  | delete (m e : Fin n) (hm : IsStart s.deques m) (he : IsEnd s.deques e) (hp : s.pivot = none)
      (hc : st s.deques e - st s.deques m > s.cfg.maxInterval ∨ s.hasDropped e = true)
      (hs : s' = deleted (cleared s e) m)
  | go (m e p : Fin n) (hm : IsStart s.deques m) (he : IsEnd s.deques e) (hx : Examined s m e p s') (ha : After s m p s')
      (hpm : p ≠ m) (hage : s'.cfg.scale (st s.deques e - s'.candEnd) < s'.pivotTime - s'.candStart)
  | publish (m e p : Fin n) (s1 : State n) (hm : IsStart s.deques m) (he : IsEnd s.deques e) (hx : Examined s m e p s1)
      (ha : After s m p s1) (hw : p = m ∨ Unbeatable s1 p) (hs : s' = published s1)

/-- A run of the loop of `process`. -/
inductive PSteps : State n → State n → Prop where
  | done {s : State n} (h : ∃ i, s.deques i = []) : PSteps s s
  | step {s s' s'' : State n} (hne : ∀ i, s.deques i ≠ []) (h1 : PStep s s') (h2 : PSteps s' s'') : PSteps s s''

theorem published_inv (s : State n) : LoopInv (published s) := by
  refine ⟨rfl, fun _ _ => rfl, ?_⟩
  intro p hp; cases hp

theorem pstep_inv {s s' : State n} (h : LoopInv s) (hs : PStep s s') : LoopInv s' := by
  cases hs with
  | delete m e hm he hp hc hs =>
    subst hs
    refine ⟨rfl, fun _ => h.noPivot hp, ?_⟩
    intro p hp'
    have : s.pivot = some p := hp'
    rw [hp] at this; cases this
  | go m e p hm he hx ha hpm =>
    obtain ⟨c, hc⟩ := ha.candInv
    refine ⟨ha.num, ?_, ?_⟩
    · intro h0; rw [hc.pivot] at h0; cases h0
    · intro q hq
      rw [hc.pivot] at hq; cases hq
      exact ⟨c, hc, ha.past hpm⟩
  | publish m e p s1 hm he hx ha hw hs => subst hs; exact published_inv s1

theorem process_spec [NeZero n] (fuel : Nat) : ∀ s : State n, LoopInv s →
    (∃ s', process fuel s = .ok s' ∧ PSteps s s') ∨ process fuel s = .error .hang := by
  induction fuel with
  | zero =>
    intro s h
    unfold process
    by_cases hn : s.num = n
    · right; rw [if_pos hn]
    · left
      rw [if_neg hn]
      refine ⟨s, rfl, .done ?_⟩
      apply Classical.byContradiction
      intro hc
      exact hn (by rw [h.num]; exact_mod_cast (nonEmpty_eq_iff _).2 (fun i hi => hc ⟨i, hi⟩))
  | succ fuel ih =>
    intro s h
    unfold process
    by_cases hn : s.num = n
    · rw [if_pos hn]
      have hne : ∀ i, s.deques i ≠ [] := by
        apply (nonEmpty_eq_iff _).1
        have := h.num; omega
      obtain ⟨m, e, hm, he, hd | ⟨s1, p, hx, ha, hcase⟩⟩ := iteration_spec fuel h hne
      · obtain ⟨hp, hc, hit⟩ := hd
        rw [hit]
        have hps : PStep s (deleted (cleared s e) m) := .delete m e hm he hp hc rfl
        rcases ih _ (pstep_inv h hps) with ⟨s', h1, h2⟩ | h1
        · left; exact ⟨s', h1, .step hne hps h2⟩
        · right; exact h1
      · rcases hcase with ⟨hpm, hit⟩ | ⟨hpm, hit, hU⟩ | ⟨hpm, hit, _, hage⟩ | ⟨_, hit, _⟩
        · rw [hit]
          have hps : PStep s (published s1) := .publish m e p s1 hm he hx ha (Or.inl hpm) rfl
          rcases ih _ (pstep_inv h hps) with ⟨s', h1, h2⟩ | h1
          · left; exact ⟨s', h1, .step hne hps h2⟩
          · right; exact h1
        · rw [hit]
          have hps : PStep s (published s1) := .publish m e p s1 hm he hx ha (Or.inr hU) rfl
          rcases ih _ (pstep_inv h hps) with ⟨s', h1, h2⟩ | h1
          · left; exact ⟨s', h1, .step hne hps h2⟩
          · right; exact h1
        · rw [hit]
          have hps : PStep s s1 := .go m e p hm he hx ha hpm hage
          rcases ih _ (pstep_inv h hps) with ⟨s', h1, h2⟩ | h1
          · left; exact ⟨s', h1, .step hne hps h2⟩
          · right; exact h1
        · right; rw [hit]
    · rw [if_neg hn]
      left
      refine ⟨s, rfl, .done ?_⟩
      apply Classical.byContradiction
      intro hc
      exact hn (by rw [h.num]; exact_mod_cast (nonEmpty_eq_iff _).2 (fun i hi => hc ⟨i, hi⟩))

theorem psteps_ind {P : State n → Prop} (hstep : ∀ s s', LoopInv s → (∀ i, s.deques i ≠ []) → PStep s s' → P s → P s')
    {s s' : State n} (hi : LoopInv s) (h : PSteps s s') (h0 : P s) : LoopInv s' ∧ (∃ i, s'.deques i = []) ∧ P s' := by
  induction h with
  | done h => exact ⟨hi, h, h0⟩
  | step hne h1 _ ih => exact ih (pstep_inv hi h1) (hstep _ _ hi hne h1 h0)

/-! ### Termination -/

theorem total_lt (v w : Fin n → List Ev) (h : ∀ i, (v i).length ≤ (w i).length) (i : Fin n)
    (hi : (v i).length < (w i).length) : total v < total w :=
  sum_map_lt _ _ _ (fun j _ => h j) ⟨i, List.mem_finRange i, hi⟩

theorem total_deques_le (s : State n) : total s.deques ≤ total (view s) :=
  total_le _ _ (fun i => by simp [view])

/-- The measure that decreases in every iteration. -/
def mu (s : State n) : Nat := total (view s) * total (view s) + total s.deques

theorem mu_lt_of_view {s s' : State n} (h : total (view s') < total (view s)) : mu s' < mu s := by
  unfold mu
  have h1 := total_deques_le s'
  have h2 : total (view s') * total (view s') + total (view s') ≤ total (view s) * total (view s') := by
    have : (total (view s') + 1) * total (view s') ≤ total (view s) * total (view s') := Nat.mul_le_mul_right _ h
    rw [Nat.add_mul] at this; omega
  have h3 : total (view s) * total (view s') < total (view s) * total (view s) :=
    Nat.mul_lt_mul_of_pos_left h (by omega)
  omega

theorem mu_lt_of_deques {s s' : State n} (h : total (view s') ≤ total (view s)) (hd : total s'.deques < total s.deques) :
    mu s' < mu s := by
  unfold mu
  have := Nat.mul_le_mul h h
  omega

theorem pstep_mu {s s' : State n} (_ : LoopInv s) (hne : ∀ i, s.deques i ≠ []) (hs : PStep s s') :
    mu s' < mu s := by
  have hview : ∀ i, (view s i).length > 0 := by
    intro i; unfold view; have := List.length_pos_iff.2 (hne i); simp; omega
  cases hs with
  | delete m e hm he hp hc hs =>
    subst hs
    apply mu_lt_of_view
    apply total_lt _ _ _ m
    · unfold view deleted cleared
      simp only [upd_same, List.length_append, List.length_tail]
      have := List.length_pos_iff.2 (hne m)
      omega
    · intro i
      unfold view deleted cleared
      by_cases hi : i = m
      · subst hi; simp
      · simp [upd_ne _ _ hi]
  | go m e p hm he hx ha hpm =>
    apply mu_lt_of_deques (total_le _ _ ha.viewLen)
    rw [ha.deques]
    exact total_tail s.deques m (hne m)
  | publish m e p s1 hm he hx ha hw hs =>
    subst hs
    apply mu_lt_of_view
    have hlen : ∀ i, (view (published s1) i).length < (view s i).length := by
      intro i
      have h1 := ha.viewLen i
      have h2 := hview i
      obtain ⟨c, hc⟩ := ha.candInv
      obtain ⟨tl, h3⟩ := hc.head i
      have : (view (published s1) i).length = (view s1 i).length - 1 := by
        show ([] ++ (view s1 i).tail).length = _
        simp
      rw [this, h3]
      rw [h3] at h1
      simp at h1 ⊢; omega
    exact total_lt _ _ (fun i => Nat.le_of_lt (hlen i)) m (hlen m)

theorem process_terminates [NeZero n] (fuel : Nat) : ∀ s : State n, LoopInv s → mu s ≤ fuel →
    ∃ s', process fuel s = .ok s' := by
  induction fuel with
  | zero =>
    intro s h hmu
    unfold process
    by_cases hn : s.num = n
    · exfalso
      have hne : ∀ i, s.deques i ≠ [] := by
        apply (nonEmpty_eq_iff _).1
        have := h.num; omega
      have h1 : 0 < (s.deques 0).length := List.length_pos_iff.2 (hne 0)
      have h2 : total (fun _ : Fin n => ([] : List Ev)) < total s.deques := by
        apply total_lt _ _ _ 0
        · simpa using h1
        · intro i; simp
      unfold mu at hmu; omega
    · rw [if_neg hn]; exact ⟨s, rfl⟩
  | succ fuel ih =>
    intro s h hmu
    unfold process
    by_cases hn : s.num = n
    · rw [if_pos hn]
      have hne : ∀ i, s.deques i ≠ [] := by
        apply (nonEmpty_eq_iff _).1
        have := h.num; omega
      have next : ∀ s1, iteration fuel s = .ok s1 → PStep s s1 →
          ∃ s', (match iteration fuel s with | .error f => Except.error f | .ok s' => process fuel s') = .ok s' := by
        intro s1 h1 h2
        rw [h1]
        have := pstep_mu h hne h2
        exact ih s1 (pstep_inv h h2) (by omega)
      obtain ⟨m, e, hm, he, ⟨hp, hc, hit⟩ | ⟨s1, p, hx, ha, hcase⟩⟩ := iteration_spec fuel h hne
      · exact next _ hit (.delete m e hm he hp hc rfl)
      · rcases hcase with ⟨hpm, hit⟩ | ⟨hpm, hit, hU⟩ | ⟨hpm, hit, _, hage⟩ | ⟨_, hit, hf⟩
        · exact next _ hit (.publish m e p s1 hm he hx ha (Or.inl hpm) rfl)
        · exact next _ hit (.publish m e p s1 hm he hx ha (Or.inr hU) rfl)
        · exact next _ hit (.go m e p hm he hx ha hpm hage)
        · exfalso
          have h1 : total s1.deques < total s.deques := by
            rw [ha.deques]; exact total_tail s.deques m (hne m)
          have h2 := total_deques_le s
          have h3 : 1 ≤ total (view s) * total (view s) := Nat.mul_pos (by omega) (by omega)
          unfold mu at hmu
          omega
    · rw [if_neg hn]; exact ⟨s, rfl⟩

/-! ### `add` -/

theorem psteps_inv {s s' : State n} (hi : LoopInv s) (h : PSteps s s') : LoopInv s' ∧ ∃ i, s'.deques i = [] :=
  let ⟨a, b, _⟩ := psteps_ind (P := fun _ => True) (fun _ _ _ _ _ _ => trivial) hi h trivial
  ⟨a, b⟩

/-- Invariant between calls. -/
structure Inv (s : State n) : Prop where
  loop : LoopInv s
  someEmpty : ∃ i, s.deques i = []
  bound : ∀ i, (view s i).length ≤ s.cfg.queueSize
  qpos : 0 < s.cfg.queueSize

/-- The state after the message was appended to its deque (with the counter and the warning flag updated). -/
structure Pushed (s s1 : State n) (i : Fin n) (e : Ev) : Prop where
  deques : s1.deques = upd s.deques i (s.deques i ++ [e])
  num : s1.num = nonEmpty s1.deques
  cfg : s1.cfg = s.cfg
  past : s1.past = s.past
  cand : s1.cand = s.cand
  candStart : s1.candStart = s.candStart
  candEnd : s1.candEnd = s.candEnd
  pivotTime : s1.pivotTime = s.pivotTime
  pivot : s1.pivot = s.pivot
  hasDropped : s1.hasDropped = s.hasDropped
  out : s1.out = s.out

theorem Pushed.view_same {s s1 : State n} {i : Fin n} {e : Ev} (h : Pushed s s1 i e) : view s1 i = view s i ++ [e] := by
  unfold view; rw [h.deques, h.past, upd_same, List.append_assoc]

theorem Pushed.view_ne {s s1 : State n} {i : Fin n} {e : Ev} (h : Pushed s s1 i e) {j : Fin n} (hj : j ≠ i) :
    view s1 j = view s j := by
  unfold view; rw [h.deques, h.past, upd_ne _ _ hj]

theorem Pushed.inv {s s1 : State n} {i : Fin n} {e : Ev} (h : Pushed s s1 i e) (hi : LoopInv s) : LoopInv s1 := by
  refine ⟨h.num, ?_, ?_⟩
  · intro hp; rw [h.pivot] at hp; rw [h.past]; exact hi.noPivot hp
  · intro p hp
    rw [h.pivot] at hp
    obtain ⟨c, hc, hpast⟩ := hi.pivoted p hp
    refine ⟨c, ⟨by rw [h.pivot]; exact hp, by rw [h.cand]; exact hc.cand, ?_, by rw [h.pivotTime]; exact hc.pivotTime,
      by rw [h.candStart]; exact hc.lo, by rw [h.candEnd]; exact hc.hi, by rw [h.candStart]; exact hc.loEx,
      by rw [h.candEnd]; exact hc.hiEx, by rw [h.hasDropped]; exact hc.noDrop⟩, by rw [h.past]; exact hpast⟩
    intro j
    obtain ⟨tl, htl⟩ := hc.head j
    by_cases hj : j = i
    · subst hj; rw [h.view_same, htl]; exact ⟨tl ++ [e], rfl⟩
    · rw [h.view_ne hj]; exact ⟨tl, htl⟩

theorem push_num {s : State n} (h : s.num = nonEmpty s.deques) (i : Fin n) (e : Ev) :
    (nonEmpty (upd s.deques i (s.deques i ++ [e])) : Int) = s.num + if (s.deques i).isEmpty then 1 else 0 := by
  rw [nonEmpty_upd, h]
  cases s.deques i <;> simp

theorem addPush_spec [NeZero n] (fuel : Nat) {s : State n} (h : Inv s) (i : Fin n) (e : Ev) :
    ∃ s1, Pushed s s1 i e ∧
      ((∃ s', addPush fuel s i e = .ok s' ∧ PSteps s1 s') ∨ addPush fuel s i e = .error .hang) ∧
      (mu s1 ≤ fuel → ∃ s', addPush fuel s i e = .ok s') := by
  have hnum := push_num h.loop.num i e
  unfold addPush
  simp only [upd_same]
  by_cases hl : (s.deques i ++ [e]).length = 1
  · rw [if_pos hl]
    have hemp : s.deques i = [] := by
      cases hd : s.deques i with
      | nil => rfl
      | cons x tl => rw [hd] at hl; simp at hl
    rw [hemp] at hnum
    simp at hnum
    let s1 : State n := State.mk s.cfg (upd s.deques i (s.deques i ++ [e])) (s.num + 1) s.past s.cand s.candStart s.candEnd
      s.pivotTime s.pivot s.hasDropped s.warned s.out
    have hp : Pushed s s1 i e := by
      refine ⟨rfl, ?_, rfl, rfl, rfl, rfl, rfl, rfl, rfl, rfl, rfl⟩
      show s.num + 1 = _
      rw [← hnum]; simp [s1, hemp]
    refine ⟨s1, hp, ?_⟩
    by_cases hn : s.num + 1 = (n : Int)
    · rw [if_pos hn]
      exact ⟨process_spec fuel s1 (hp.inv h.loop), process_terminates fuel s1 (hp.inv h.loop)⟩
    · rw [if_neg hn]
      refine ⟨Or.inl ⟨s1, rfl, .done ?_⟩, fun _ => ⟨s1, rfl⟩⟩
      apply Classical.byContradiction
      intro hc
      have : s1.num = n := by rw [hp.num]; exact_mod_cast (nonEmpty_eq_iff _).2 (fun i hi => hc ⟨i, hi⟩)
      exact hn this
  · rw [if_neg hl]
    have hemp : s.deques i ≠ [] := by intro h0; rw [h0] at hl; simp at hl
    have hnum' : (nonEmpty (upd s.deques i (s.deques i ++ [e])) : Int) = s.num := by
      rw [hnum]
      cases hd : s.deques i with
      | nil => exact absurd hd hemp
      | cons x tl => simp
    have hempty : ∃ j, upd s.deques i (s.deques i ++ [e]) j = [] := by
      obtain ⟨j, hj⟩ := h.someEmpty
      refine ⟨j, ?_⟩
      by_cases hji : j = i
      · subst hji; exact absurd hj hemp
      · rw [upd_ne _ _ hji]; exact hj
    have key : ∃ w, checkInterMessageBound (State.mk s.cfg (upd s.deques i (s.deques i ++ [e])) s.num s.past s.cand s.candStart s.candEnd
      s.pivotTime s.pivot s.hasDropped s.warned s.out) i = .ok (State.mk s.cfg (upd s.deques i (s.deques i ++ [e])) s.num s.past s.cand s.candStart s.candEnd
      s.pivotTime s.pivot s.hasDropped w s.out) := by
      unfold checkInterMessageBound
      simp only [upd_same, List.getLast?_concat]
      by_cases hw : s.warned i = true
      · rw [if_pos hw]; exact ⟨s.warned, rfl⟩
      · rw [if_neg hw]
        split
        · exact ⟨s.warned, rfl⟩
        · split
          · exact ⟨_, rfl⟩
          · split
            · exact ⟨_, rfl⟩
            · exact ⟨_, rfl⟩
    obtain ⟨w, hw⟩ := key
    refine ⟨_, ?_, Or.inl ⟨_, hw, .done hempty⟩, fun _ => ⟨_, hw⟩⟩
    exact ⟨rfl, hnum'.symm, rfl, rfl, rfl, rfl, rfl, rfl, rfl, rfl, rfl⟩

/-- The state in which the oldest message of the offending input has been dropped (lines 187-196). -/
def dropped (s : State n) (i : Fin n) : State n :=
  { s with past := fun _ => [], deques := upd (view s) i (view s i).tail,
           num := (nonEmpty (upd (view s) i (view s i).tail) : Int), hasDropped := upd s.hasDropped i true,
           cand := if s.pivot = none then s.cand else fun _ => none, pivot := none }

theorem dropped_inv (s : State n) (i : Fin n) : LoopInv (dropped s i) := by
  refine ⟨rfl, fun _ _ => rfl, ?_⟩
  intro p hp; cases hp

theorem addLimit_spec [NeZero n] (fuel : Nat) {s : State n} (h : LoopInv s) (hq : 0 < s.cfg.queueSize) (i : Fin n)
    (hempty : ∃ j, s.deques j = []) :
    ((view s i).length ≤ s.cfg.queueSize ∧ addLimit fuel s i = .ok s) ∨
    (s.cfg.queueSize < (view s i).length ∧ s.pivot = none ∧ addLimit fuel s i = .ok (dropped s i) ∧
      ∃ j, (dropped s i).deques j = []) ∨
    (s.cfg.queueSize < (view s i).length ∧ s.pivot ≠ none ∧ addLimit fuel s i = process fuel (dropped s i)) := by
  unfold addLimit
  have hlen : (s.deques i).length + (s.past i).length = (view s i).length := by simp [view]; omega
  rw [hlen]
  by_cases hc : (view s i).length > s.cfg.queueSize
  · rw [if_pos hc]
    right
    rw [recoverAll_eq]
    simp only
    cases hv : view s i with
    | nil => rw [hv] at hc; simp at hc
    | cons x rest =>
      simp only
      rw [hv] at hc
      have hrest : rest ≠ [] := by
        intro h0; rw [h0] at hc; simp at hc; omega
      have hnum : (nonEmpty (view s) : Int) = nonEmpty (upd (view s) i rest) := by
        rw [nonEmpty_upd, hv]
        cases rest with
        | nil => exact absurd rfl hrest
        | cons y tl => simp
      by_cases hp : s.pivot = none
      · left
        rw [if_pos hp]
        refine ⟨by simpa using hc, hp, ?_, ?_⟩
        · congr 1
          unfold dropped
          rw [if_pos hp, hv, List.tail_cons, hnum, hp]
        · obtain ⟨j, hj⟩ := hempty
          refine ⟨j, ?_⟩
          have hvj : view s j = [] := by unfold view; rw [h.noPivot hp j, hj]; rfl
          have hji : j ≠ i := by intro h0; subst h0; rw [hvj] at hv; cases hv
          simp only [dropped, upd_ne _ _ hji]; exact hvj
      · right
        rw [if_neg hp]
        refine ⟨by simpa using hc, hp, ?_⟩
        congr 1
        unfold dropped
        rw [if_neg hp, hv, List.tail_cons, hnum]
  · rw [if_neg hc]
    left; exact ⟨by omega, rfl⟩

/-- What a call of `add` does. -/
inductive AddSpec (s s' : State n) (i : Fin n) (e : Ev) : Prop where
  | normal (s1 : State n) (hp : Pushed s s1 i e) (hs : PSteps s1 s') (hl : (view s' i).length ≤ s.cfg.queueSize)
  | drop (s1 s2 : State n) (hp : Pushed s s1 i e) (hs : PSteps s1 s2) (hl : s.cfg.queueSize < (view s2 i).length)
      (hs' : PSteps (dropped s2 i) s')

/-! ### Effects of runs on configuration and sizes -/

theorem pstep_cfg {s s' : State n} (hs : PStep s s') : s'.cfg = s.cfg := by
  cases hs with
  | delete m e hm he hp hc hs => subst hs; rfl
  | go m e p hm he hx ha hpm => exact ha.cfg
  | publish m e p s1 hm he hx ha hw hs => subst hs; exact ha.cfg

theorem pstep_len {s s' : State n} (hs : PStep s s') (i : Fin n) : (view s' i).length ≤ (view s i).length := by
  cases hs with
  | delete m e hm he hp hc hs =>
    subst hs
    unfold view deleted cleared
    by_cases hi : i = m
    · subst hi; simp
    · simp [upd_ne _ _ hi]
  | go m e p hm he hx ha hpm => exact ha.viewLen i
  | publish m e p s1 hm he hx ha hw hs =>
    subst hs
    have h1 := ha.viewLen i
    have : (view (published s1) i).length = (view s1 i).length - 1 := by
      show ([] ++ (view s1 i).tail).length = _
      simp
    omega

theorem psteps_cfg_len {s s' : State n} (hi : LoopInv s) (h : PSteps s s') :
    s'.cfg = s.cfg ∧ ∀ i, (view s' i).length ≤ (view s i).length := by
  have := psteps_ind (P := fun t => t.cfg = s.cfg ∧ ∀ i, (view t i).length ≤ (view s i).length)
    (fun t t' _ _ ht hP => ⟨by rw [pstep_cfg ht, hP.1], fun i => Nat.le_trans (pstep_len ht i) (hP.2 i)⟩)
    hi h ⟨rfl, fun _ => Nat.le_refl _⟩
  exact this.2.2

theorem dropped_len (s : State n) (i j : Fin n) : (view (dropped s i) j).length ≤ (view s j).length := by
  show ([] ++ upd (view s) i (view s i).tail j).length ≤ _
  by_cases hj : j = i
  · subst hj; simp
  · simp [upd_ne _ _ hj]

theorem dropped_len_same (s : State n) (i : Fin n) : (view (dropped s i) i).length = (view s i).length - 1 := by
  show ([] ++ upd (view s) i (view s i).tail i).length = _
  simp

theorem add_spec [NeZero n] (fuel : Nat) {s : State n} (h : Inv s) (i : Fin n) (e : Ev) :
    ((∃ s', add fuel s i e = .ok s' ∧ AddSpec s s' i e ∧ Inv s' ∧ s'.cfg = s.cfg) ∨ add fuel s i e = .error .hang) ∧
    (∀ B, total (view s) + 1 ≤ B → B * B + B ≤ fuel → ∃ s', add fuel s i e = .ok s') := by
  obtain ⟨s1, hp, hcase, hterm⟩ := addPush_spec fuel h i e
  have hl1 := hp.inv h.loop
  have hv1 : total (view s1) ≤ total (view s) + 1 := by
    have : view s1 = upd (view s) i (view s i ++ [e]) := by
      funext j
      by_cases hj : j = i
      · subst hj; rw [hp.view_same, upd_same]
      · rw [hp.view_ne hj, upd_ne _ _ hj]
    rw [this]
    unfold total
    have h3 := MF.Epsilon.sum_indicator (List.finRange n) (List.nodup_finRange n) i (fun j => (view s j).length)
    rw [if_pos (List.mem_finRange i)] at h3
    have : ((List.finRange n).map (fun j => (upd (view s) i (view s i ++ [e]) j).length)) =
        ((List.finRange n).map (fun j => (if i = j then 1 else 0) + (view s j).length)) := by
      apply List.map_congr_left
      intro j _
      by_cases hj : j = i
      · subst hj; simp; omega
      · simp [upd_ne _ _ hj, Ne.symm hj]
    rw [this, h3]
    omega
  unfold add
  -- termination of a run started in a state that holds at most as much as `s1`
  have hmu : ∀ t : State n, (∀ j, (view t j).length ≤ (view s1 j).length) → ∀ B, total (view s) + 1 ≤ B → B * B + B ≤ fuel →
      mu t ≤ fuel := by
    intro t ht B hB hf
    have h1 : total (view t) ≤ B := Nat.le_trans (total_le _ _ ht) (by omega)
    have h2 := total_deques_le t
    have h3 := Nat.mul_le_mul h1 h1
    unfold mu; omega
  rcases hcase with ⟨s2, hadd, hsteps⟩ | hhang
  · rw [hadd]
    simp only
    obtain ⟨hl2, hemp2⟩ := psteps_inv hl1 hsteps
    obtain ⟨hcfg2, hlen2⟩ := psteps_cfg_len hl1 hsteps
    have hq2 : 0 < s2.cfg.queueSize := by rw [hcfg2, hp.cfg]; exact h.qpos
    have hvi : (view s2 i).length ≤ s.cfg.queueSize + 1 := by
      have h1 := hlen2 i
      rw [hp.view_same] at h1
      have := h.bound i
      simp at h1; omega
    have hvj : ∀ j, j ≠ i → (view s2 j).length ≤ s.cfg.queueSize := by
      intro j hj
      have h1 := hlen2 j
      rw [hp.view_ne hj] at h1
      have := h.bound j; omega
    rcases addLimit_spec fuel hl2 hq2 i hemp2 with ⟨h1, h2⟩ | ⟨h1, h2, h3, h4⟩ | ⟨h1, h2, h3⟩
    · rw [h2]
      rw [hcfg2, hp.cfg] at h1
      refine ⟨Or.inl ⟨s2, rfl, .normal s1 hp hsteps h1, ⟨hl2, hemp2, ?_, hq2⟩, by rw [hcfg2, hp.cfg]⟩, fun _ _ _ => ⟨_, rfl⟩⟩
      intro j
      rw [hcfg2, hp.cfg]
      by_cases hj : j = i
      · subst hj; exact h1
      · exact hvj j hj
    · rw [h3]
      rw [hcfg2, hp.cfg] at h1
      have hc : (dropped s2 i).cfg = s.cfg := by show s2.cfg = _; rw [hcfg2, hp.cfg]
      refine ⟨Or.inl ⟨_, rfl, .drop s1 s2 hp hsteps h1 (.done h4), ⟨dropped_inv s2 i, h4, ?_, by rw [hc]; exact h.qpos⟩, hc⟩,
        fun _ _ _ => ⟨_, rfl⟩⟩
      intro j
      rw [hc]
      by_cases hj : j = i
      · subst hj; rw [dropped_len_same]; omega
      · have := dropped_len s2 i j; have := hvj j hj; omega
    · rw [h3]
      rw [hcfg2, hp.cfg] at h1
      have hc : (dropped s2 i).cfg = s.cfg := by show s2.cfg = _; rw [hcfg2, hp.cfg]
      constructor
      · rcases process_spec fuel (dropped s2 i) (dropped_inv s2 i) with ⟨s', g1, g2⟩ | g1
        · left
          obtain ⟨gl, ge⟩ := psteps_inv (dropped_inv s2 i) g2
          obtain ⟨gc, gle⟩ := psteps_cfg_len (dropped_inv s2 i) g2
          refine ⟨s', g1, .drop s1 s2 hp hsteps h1 g2, ⟨gl, ge, ?_, by rw [gc, hc]; exact h.qpos⟩, by rw [gc, hc]⟩
          intro j
          rw [gc, hc]
          have h5 := gle j
          by_cases hj : j = i
          · subst hj; rw [dropped_len_same] at h5; omega
          · have := dropped_len s2 i j; have := hvj j hj; omega
        · right; exact g1
      · intro B hB hf
        apply process_terminates
        · exact dropped_inv s2 i
        · exact hmu _ (fun j => Nat.le_trans (dropped_len s2 i j) (hlen2 j)) B hB hf
  · rw [hhang]
    refine ⟨Or.inr rfl, ?_⟩
    intro B hB hf
    obtain ⟨s', hs'⟩ := hterm (hmu s1 (fun _ => Nat.le_refl _) B hB hf)
    rw [hs'] at hhang; cases hhang

end MF.Approx
