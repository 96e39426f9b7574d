import Verif.Proofs.ThrowApprox1
/-
Helper lemmas about the ApproximateTime policy with callbacks that throw, part 2: `process` and `add`.
-/
namespace MF.Throw
open MF.Approx
open MF.Epsilon (nonEmpty nonEmpty_eq_iff nonEmpty_upd nonEmpty_le total total_le)

variable {n : Nat}

/-- One iteration of the loop of `process`; the flag says that the output signal threw. -/
inductive TStep (boom : Nat → Bool) (s s' : State n) : Bool → Prop where
  | delete (m e : Fin n) (hm : IsStart s.deques m) (he : IsEnd s.deques e) (hp : s.pivot = none)
      (hs : s' = deleted (cleared s e) m) : TStep boom s s' false
  | go (m e p : Fin n) (hm : IsStart s.deques m) (he : IsEnd s.deques e) (hx : Examined s m e p s') (ha : WAfter s m p s') :
      TStep boom s s' false
  | publish (m e p : Fin n) (s1 : State n) (hm : IsStart s.deques m) (he : IsEnd s.deques e) (hx : Examined s m e p s1)
      (ha : WAfter s m p s1) (hb : boom s1.out.length = false) (hs : s' = published s1) : TStep boom s s' false
  | threw (m e p : Fin n) (s1 s2 : State n) (hm : IsStart s.deques m) (he : IsEnd s.deques e) (hx : Examined s m e p s1)
      (ha : WAfter s m p s1) (hsh : Shift s1 s2) (hd : s2 = s1 ∨ (p ≠ m ∧ s2.deques p = s1.deques p))
      (hb : boom s1.out.length = true) (hs : s' = approxInterrupted s2) : TStep boom s s' true

/-- A run of the loop of `process` that does not end in a fault. -/
inductive TSteps (boom : Nat → Bool) : State n → State n → Bool → Prop where
  | done {s : State n} (h : s.pivot = none → ∃ i, s.deques i = []) : TSteps boom s s false
  | threw {s s' : State n} (hne : ∀ i, s.deques i ≠ []) (h1 : TStep boom s s' true) : TSteps boom s s' true
  | step {s s' s'' : State n} {thr : Bool} (hne : ∀ i, s.deques i ≠ []) (h1 : TStep boom s s' false)
      (h2 : TSteps boom s' s'' thr) : TSteps boom s s'' thr

theorem interrupted_inv {s s2 : State n} {m p : Fin n} {s0 : State n} (ha : WAfter s0 m p s) (h : Shift s s2)
    (hd : s2 = s ∨ (p ≠ m ∧ s2.deques p = s.deques p)) : WInv (approxInterrupted s2) := by
  obtain ⟨c, hc⟩ := ha.cand
  have hc2 := h.wcand hc
  refine ⟨h.num, ?_, ?_, ?_⟩
  · intro h0
    have h0 : s2.pivot = none := h0
    rw [hc2.pivot] at h0; cases h0
  · intro q hq
    have hq : s2.pivot = some q := hq
    rw [hc2.pivot] at hq
    cases hq
    exact ⟨c, hc2.pivot, hc2.cand, hc2.head, hc2.lo, hc2.hi, hc2.hiEx⟩
  · intro q hq
    have hq : s2.pivot = some q := hq
    rw [hc2.pivot] at hq
    cases hq
    rcases hd with hd | ⟨hpm, hd⟩
    · subst hd; exact ha.front
    · left
      obtain ⟨x, tl, h1, h2⟩ := ha.frontNe hpm
      refine ⟨x, tl, hd.trans h1, ?_⟩
      show s2.pivotTime ≤ _
      rw [h.pivotTime]; exact h2

theorem published_winv (s : State n) : WInv (published s) := by
  refine ⟨rfl, fun _ _ => rfl, ?_, ?_⟩
  · intro p hp; cases hp
  · intro p hp; cases hp

theorem tstep_inv {boom : Nat → Bool} {s s' : State n} {thr : Bool} (h : WInv s) (hs : TStep boom s s' thr) : WInv s' := by
  cases hs with
  | delete m e hm he hp hs =>
    subst hs
    refine ⟨rfl, fun _ => h.noPivot hp, ?_, ?_⟩
    · intro p hp'
      have : s.pivot = some p := hp'
      rw [hp] at this; cases this
    · intro p hp'
      have : s.pivot = some p := hp'
      rw [hp] at this; cases this
  | go m e p hm he hx ha =>
    obtain ⟨c, hc⟩ := ha.cand
    refine ⟨ha.num, ?_, ?_, ?_⟩
    · intro h0; rw [hc.pivot] at h0; cases h0
    · intro q hq
      rw [hc.pivot] at hq; cases hq
      exact ⟨c, hc⟩
    · intro q hq
      rw [hc.pivot] at hq; cases hq
      exact ha.front
  | publish m e p s1 hm he hx ha hb hs => subst hs; exact published_winv s1
  | threw m e p s1 s2 hm he hx ha hsh hd hb hs => subst hs; exact interrupted_inv ha hsh hd

theorem threw_pivot {boom : Nat → Bool} {s s' : State n} (hs : TStep boom s s' true) : s'.pivot ≠ none := by
  cases hs with
  | threw m e p s1 s2 hm he hx ha hsh hd hb hs =>
    subst hs
    obtain ⟨c, hc⟩ := ha.cand
    show s2.pivot ≠ none
    rw [hsh.pivot, hc.pivot]; simp

theorem tsteps_ind {boom : Nat → Bool} {P : State n → Prop}
    (hstep : ∀ s s' thr, WInv s → (∀ i, s.deques i ≠ []) → TStep boom s s' thr → P s → P s')
    {s s' : State n} {thr : Bool} (hi : WInv s) (h : TSteps boom s s' thr) (h0 : P s) :
    WInv s' ∧ (s'.pivot = none → ∃ i, s'.deques i = []) ∧ P s' := by
  induction h with
  | done h => exact ⟨hi, h, h0⟩
  | threw hne h1 => exact ⟨tstep_inv hi h1, fun h => absurd h (threw_pivot h1), hstep _ _ _ hi hne h1 h0⟩
  | step hne h1 _ ih => exact ih (tstep_inv hi h1) (hstep _ _ _ hi hne h1 h0)

theorem not_full {s : State n} (h : WInv s) (hn : ¬ s.num = n) : ∃ i, s.deques i = [] := by
  apply Classical.byContradiction
  intro hc
  exact hn (by rw [h.num]; exact_mod_cast (nonEmpty_eq_iff _).2 (fun i hi => hc ⟨i, hi⟩))

theorem full {s : State n} (h : WInv s) (hn : s.num = n) : ∀ i, s.deques i ≠ [] := by
  apply (nonEmpty_eq_iff _).1
  have := h.num; omega

theorem processT_spec [NeZero n] (boom : Nat → Bool) (fuel : Nat) :
    ∀ s : State n, WInv s →
    (∃ s' thr, approxProcess boom fuel s = .ok (s', thr) ∧ TSteps boom s s' thr) ∨
    approxProcess boom fuel s = .error .hang := by
  induction fuel with
  | zero =>
    intro s h
    unfold approxProcess
    by_cases hn : s.num = n
    · right; rw [if_pos hn]
    · left
      rw [if_neg hn]
      exact ⟨s, false, rfl, .done (fun _ => not_full h hn)⟩
  | succ fuel ih =>
    intro s h
    unfold approxProcess
    by_cases hn : s.num = n
    · rw [if_pos hn]
      have hne := full h hn
      have next : ∀ s1, TStep boom s s1 false →
          (∃ s' thr, approxProcess boom fuel s1 = .ok (s', thr) ∧ TSteps boom s s' thr) ∨
          approxProcess boom fuel s1 = .error .hang := by
        intro s1 hs1
        rcases ih s1 (tstep_inv h hs1) with ⟨s', thr, h1, h2⟩ | h1
        · left; exact ⟨s', thr, h1, .step hne hs1 h2⟩
        · right; exact h1
      obtain ⟨m, e, hm, he, ⟨hpv, hc, hit⟩ | ⟨s1, p, hx, ha, hout⟩⟩ := iterationT_spec boom fuel h hne
      · rw [hit]
        exact next _ (.delete m e hm he hpv rfl)
      · generalize hr : approxIteration boom fuel s = r at hout
        cases hout with
        | hang hf => right; rfl
        | stays => exact next _ (.go m e p hm he hx ha)
        | published hb => exact next _ (.publish m e p s1 hm he hx ha hb rfl)
        | interrupted s2 hsh hd hb =>
          left
          exact ⟨_, true, rfl, .threw hne (.threw m e p s1 s2 hm he hx ha hsh hd hb rfl)⟩
    · left
      rw [if_neg hn]
      exact ⟨s, false, rfl, .done (fun _ => not_full h hn)⟩

/-! ### Termination -/

theorem wafter_len {s s1 : State n} {m p : Fin n} (ha : WAfter s m p s1) (i : Fin n) :
    (view s1 i).length ≤ (view s i).length := by
  obtain ⟨q, hq⟩ := ha.view i; rw [hq]; simp

theorem tstep_mu {boom : Nat → Bool} {s s' : State n} (hne : ∀ i, s.deques i ≠ []) (hs : TStep boom s s' false) :
    mu s' < mu s := by
  have hview : ∀ i, (view s i).length > 0 := by
    intro i; unfold view; have := List.length_pos_iff.2 (hne i); simp; omega
  cases hs with
  | delete m e hm he hp hs =>
    subst hs
    apply mu_lt_of_view
    apply total_lt _ _ _ m
    · unfold view deleted cleared
      simp only [upd_same, List.length_append, List.length_tail]
      have := List.length_pos_iff.2 (hne m)
      omega
    · intro i
      unfold view deleted cleared
      by_cases hi : i = m
      · subst hi; simp
      · simp [upd_ne _ _ hi]
  | go m e p hm he hx ha =>
    apply mu_lt_of_deques (total_le _ _ (wafter_len ha))
    rw [ha.deques]
    exact total_tail s.deques m (hne m)
  | publish m e p s1 hm he hx ha hb hs =>
    subst hs
    apply mu_lt_of_view
    have hlen : ∀ i, (view (published s1) i).length < (view s i).length := by
      intro i
      have h1 := wafter_len ha i
      have h2 := hview i
      have : (view (published s1) i).length = (view s1 i).length - 1 := by
        show ([] ++ (view s1 i).tail).length = _
        simp
      omega
    exact total_lt _ _ (fun i => Nat.le_of_lt (hlen i)) m (hlen m)

theorem processT_terminates [NeZero n] (boom : Nat → Bool) (fuel : Nat) : ∀ s : State n, WInv s → mu s ≤ fuel →
    approxProcess boom fuel s ≠ .error .hang := by
  induction fuel with
  | zero =>
    intro s h hmu
    unfold approxProcess
    by_cases hn : s.num = n
    · exfalso
      have hne := full h hn
      have h1 : 0 < (s.deques 0).length := List.length_pos_iff.2 (hne 0)
      have h2 : total (fun _ : Fin n => ([] : List Ev)) < total s.deques := by
        apply total_lt _ _ _ 0
        · simpa using h1
        · intro i; simp
      unfold mu at hmu; omega
    · rw [if_neg hn]; simp
  | succ fuel ih =>
    intro s h hmu
    unfold approxProcess
    by_cases hn : s.num = n
    · rw [if_pos hn]
      have hne := full h hn
      have next : ∀ s1, TStep boom s s1 false → approxProcess boom fuel s1 ≠ .error .hang := by
        intro s1 h2
        have := tstep_mu hne h2
        exact ih s1 (tstep_inv h h2) (by omega)
      obtain ⟨m, e, hm, he, ⟨hpv, hc, hit⟩ | ⟨s1, p, hx, ha, hout⟩⟩ := iterationT_spec boom fuel h hne
      · rw [hit]
        exact next _ (.delete m e hm he hpv rfl)
      · generalize hr : approxIteration boom fuel s = r at hout
        cases hout with
        | hang hf =>
          exfalso
          have h1 : total s1.deques < total s.deques := by
            rw [ha.deques]; exact total_tail s.deques m (hne m)
          have h2 := total_deques_le s
          have h3 : 1 ≤ total (view s) * total (view s) := Nat.mul_pos (by omega) (by omega)
          unfold mu at hmu
          omega
        | stays => exact next _ (.go m e p hm he hx ha)
        | published hb => exact next _ (.publish m e p s1 hm he hx ha hb rfl)
        | interrupted s2 hsh hd hb => simp
    · rw [if_neg hn]; simp

/-! ### `add` -/

/-- Invariant between calls. -/
structure CInv (s : State n) : Prop where
  loop : WInv s
  someEmpty : s.pivot = none → ∃ i, s.deques i = []
  qpos : 0 < s.cfg.queueSize

theorem pushed_winv {s s1 : State n} {i : Fin n} {e : Ev} (h : Pushed s s1 i e) (hi : WInv s) : WInv s1 := by
  refine ⟨h.num, ?_, ?_, ?_⟩
  · intro hp; rw [h.pivot] at hp; rw [h.past]; exact hi.noPivot hp
  · intro p hp
    rw [h.pivot] at hp
    obtain ⟨c, hc⟩ := hi.pivoted p hp
    refine ⟨c, by rw [h.pivot]; exact hp, by rw [h.cand]; exact hc.cand, ?_,
      by rw [h.candStart]; exact hc.lo, by rw [h.candEnd]; exact hc.hi, by rw [h.candEnd]; exact hc.hiEx⟩
    intro j
    obtain ⟨tl, htl⟩ := hc.head j
    by_cases hj : j = i
    · subst hj; rw [h.view_same, htl]; exact ⟨tl ++ [e], rfl⟩
    · rw [h.view_ne hj]; exact ⟨tl, htl⟩
  · intro p hp
    rw [h.pivot] at hp
    have hfr : ∀ j, FrontGe s s.pivotTime j → FrontGe s1 s1.pivotTime j := by
      rintro j ⟨x, tl, h1, h2⟩
      rw [h.pivotTime]
      by_cases hj : j = i
      · subst hj; exact ⟨x, tl ++ [e], by rw [h.deques, upd_same, h1]; rfl, h2⟩
      · exact ⟨x, tl, by rw [h.deques, upd_ne _ _ hj]; exact h1, h2⟩
    rcases hi.front p hp with h1 | h1
    · exact Or.inl (hfr p h1)
    · exact Or.inr (fun j hj => hfr j (h1 j hj))

/-- The result of a part of `add` that started in `s1`. -/
def RunsFrom (boom : Nat → Bool) (s1 : State n) (r : Except Fault (State n × Bool)) : Prop :=
  (∃ s' thr, r = .ok (s', thr) ∧ TSteps boom s1 s' thr) ∨ r = .error .hang

theorem checkBound_ok {s : State n} (i : Fin n) (e : Ev) (d : List Ev) (hd : s.deques i = d ++ [e]) :
    ∃ w, checkInterMessageBound s i = .ok { s with warned := w } := by
  unfold checkInterMessageBound
  rw [hd, List.getLast?_concat]
  by_cases hw : s.warned i = true
  · rw [if_pos hw]; exact ⟨s.warned, rfl⟩
  · rw [if_neg hw]
    simp only
    split
    · exact ⟨s.warned, rfl⟩
    · split
      · exact ⟨_, rfl⟩
      · split
        · exact ⟨_, rfl⟩
        · exact ⟨s.warned, rfl⟩

theorem addPushT_spec [NeZero n] (boom : Nat → Bool) (fuel : Nat) {s : State n}
    (h : CInv s) (i : Fin n) (e : Ev) :
    ∃ s1, Pushed s s1 i e ∧ RunsFrom boom s1 (approxAddPush boom fuel s i e) ∧
      (mu s1 ≤ fuel → approxAddPush boom fuel s i e ≠ .error .hang) := by
  have hnum := push_num h.loop.num i e
  unfold approxAddPush
  simp only [upd_same]
  by_cases hl : (s.deques i ++ [e]).length = 1
  · rw [if_pos hl]
    have hemp : s.deques i = [] := by
      cases hd : s.deques i with
      | nil => rfl
      | cons x tl => rw [hd] at hl; simp at hl
    rw [hemp] at hnum
    simp at hnum
    let s1 : State n := State.mk s.cfg (upd s.deques i (s.deques i ++ [e])) (s.num + 1) s.past s.cand s.candStart s.candEnd
      s.pivotTime s.pivot s.hasDropped s.warned s.out
    have hp : Pushed s s1 i e := by
      refine ⟨rfl, ?_, rfl, rfl, rfl, rfl, rfl, rfl, rfl, rfl, rfl⟩
      show s.num + 1 = _
      rw [← hnum]; simp [s1, hemp]
    refine ⟨s1, hp, ?_⟩
    by_cases hn : s.num + 1 = (n : Int)
    · rw [if_pos hn]
      exact ⟨processT_spec boom fuel s1 (pushed_winv hp h.loop), processT_terminates boom fuel s1 (pushed_winv hp h.loop)⟩
    · rw [if_neg hn]
      refine ⟨Or.inl ⟨s1, false, rfl, .done (fun _ => not_full (pushed_winv hp h.loop) hn)⟩, fun _ => by simp⟩
  · rw [if_neg hl]
    have hemp : s.deques i ≠ [] := by intro h0; rw [h0] at hl; simp at hl
    have hnum' : (nonEmpty (upd s.deques i (s.deques i ++ [e])) : Int) = s.num := by
      rw [hnum]
      cases hd : s.deques i with
      | nil => exact absurd hd hemp
      | cons x tl => simp
    let s0 : State n := State.mk s.cfg (upd s.deques i (s.deques i ++ [e])) s.num s.past s.cand s.candStart s.candEnd
      s.pivotTime s.pivot s.hasDropped s.warned s.out
    obtain ⟨w, hw⟩ := checkBound_ok (s := s0) i e (s.deques i) (by simp [s0])
    let s1 : State n := State.mk s.cfg (upd s.deques i (s.deques i ++ [e])) s.num s.past s.cand s.candStart s.candEnd
      s.pivotTime s.pivot s.hasDropped w s.out
    have hres : (checkInterMessageBound s0 i).map (fun s' => (s', false)) = .ok (s1, false) := by rw [hw]; rfl
    have hres' : (checkInterMessageBound (State.mk s.cfg (upd s.deques i (s.deques i ++ [e])) s.num s.past s.cand s.candStart
      s.candEnd s.pivotTime s.pivot s.hasDropped s.warned s.out) i).map (fun s' => (s', false)) = .ok (s1, false) := hres
    rw [hres']
    refine ⟨s1, ⟨rfl, hnum'.symm, rfl, rfl, rfl, rfl, rfl, rfl, rfl, rfl, rfl⟩, Or.inl ⟨s1, false, rfl, .done ?_⟩,
      fun _ => by simp⟩
    intro hp0
    obtain ⟨j, hj⟩ := h.someEmpty hp0
    refine ⟨j, ?_⟩
    show upd s.deques i (s.deques i ++ [e]) j = []
    by_cases hji : j = i
    · subst hji; exact absurd hj hemp
    · rw [upd_ne _ _ hji]; exact hj

theorem dropped_winv (s : State n) (i : Fin n) : WInv (dropped s i) := by
  refine ⟨rfl, fun _ _ => rfl, ?_, ?_⟩
  · intro p hp; cases hp
  · intro p hp; cases hp

theorem addLimitT_spec [NeZero n] (boom : Nat → Bool) (fuel : Nat) {s : State n}
    (h : CInv s) (i : Fin n) :
    ((view s i).length ≤ s.cfg.queueSize ∧ approxAddLimit boom fuel s i = .ok (s, false)) ∨
    (s.cfg.queueSize < (view s i).length ∧ RunsFrom boom (dropped s i) (approxAddLimit boom fuel s i) ∧
      (mu (dropped s i) ≤ fuel → approxAddLimit boom fuel s i ≠ .error .hang)) := by
  unfold approxAddLimit
  have hlen : (s.deques i).length + (s.past i).length = (view s i).length := by simp [view]; omega
  rw [hlen]
  by_cases hc : (view s i).length > s.cfg.queueSize
  · rw [if_pos hc]
    right
    refine ⟨hc, ?_⟩
    rw [recoverAll_eq]
    simp only
    cases hv : view s i with
    | nil => rw [hv] at hc; simp at hc
    | cons x rest =>
      simp only
      rw [hv] at hc
      have hrest : rest ≠ [] := by
        intro h0; rw [h0] at hc; simp at hc; have := h.qpos; omega
      have hnum : (nonEmpty (view s) : Int) = nonEmpty (upd (view s) i rest) := by
        rw [nonEmpty_upd, hv]
        cases rest with
        | nil => exact absurd rfl hrest
        | cons y tl => simp
      by_cases hp : s.pivot = none
      · rw [if_pos hp]
        have hd : dropped s i = State.mk s.cfg (upd (view s) i rest) (nonEmpty (view s) : Int) (fun _ => []) s.cand s.candStart
            s.candEnd s.pivotTime s.pivot (upd s.hasDropped i true) s.warned s.out := by
          unfold dropped
          rw [if_pos hp, hv, List.tail_cons, hnum, hp]
        rw [← hd]
        refine ⟨Or.inl ⟨_, false, rfl, .done ?_⟩, fun _ => by simp⟩
        intro _
        obtain ⟨j, hj⟩ := h.someEmpty hp
        refine ⟨j, ?_⟩
        have hvj : view s j = [] := by unfold view; rw [h.loop.noPivot hp j, hj]; rfl
        have hji : j ≠ i := by intro h0; subst h0; rw [hvj] at hv; cases hv
        simp only [dropped, upd_ne _ _ hji]; exact hvj
      · rw [if_neg hp]
        have hd : dropped s i = State.mk s.cfg (upd (view s) i rest) (nonEmpty (view s) : Int) (fun _ => []) (fun _ => none)
            s.candStart s.candEnd s.pivotTime none (upd s.hasDropped i true) s.warned s.out := by
          unfold dropped
          rw [if_neg hp, hv, List.tail_cons, hnum]
        rw [← hd]
        exact ⟨processT_spec boom fuel _ (dropped_winv s i),
          processT_terminates boom fuel _ (dropped_winv s i)⟩
  · rw [if_neg hc]
    left; exact ⟨by omega, rfl⟩

/-- What a call of `add` does. -/
inductive TAdd (boom : Nat → Bool) (s s' : State n) (i : Fin n) (e : Ev) : Bool → Prop where
  | threw (s1 : State n) (hp : Pushed s s1 i e) (hs : TSteps boom s1 s' true) : TAdd boom s s' i e true
  | normal (s1 : State n) (hp : Pushed s s1 i e) (hs : TSteps boom s1 s' false) (hl : (view s' i).length ≤ s.cfg.queueSize) :
      TAdd boom s s' i e false
  | drop (s1 s2 : State n) (thr : Bool) (hp : Pushed s s1 i e) (hs : TSteps boom s1 s2 false)
      (hl : s.cfg.queueSize < (view s2 i).length) (hs' : TSteps boom (dropped s2 i) s' thr) : TAdd boom s s' i e thr

theorem tstep_cfg {boom : Nat → Bool} {s s' : State n} {thr : Bool} (hs : TStep boom s s' thr) : s'.cfg = s.cfg := by
  cases hs with
  | delete m e hm he hp hs => subst hs; rfl
  | go m e p hm he hx ha => exact ha.cfg
  | publish m e p s1 hm he hx ha hb hs => subst hs; exact ha.cfg
  | threw m e p s1 s2 hm he hx ha hsh hd hb hs => subst hs; exact hsh.cfg.trans ha.cfg

/-- Messages only leave the buffers from the front. -/
theorem tstep_view {boom : Nat → Bool} {s s' : State n} {thr : Bool} (hi : WInv s) (hs : TStep boom s s' thr) (i : Fin n) :
    ∃ q, view s i = q ++ view s' i := by
  cases hs with
  | delete m e hm he hp hs =>
    subst hs
    by_cases him : i = m
    · subst him
      refine ⟨(s.deques i).take 1, ?_⟩
      simp only [view, deleted, cleared, upd_same, hi.noPivot hp i, List.nil_append]
      cases s.deques i <;> simp
    · exact ⟨[], by simp [view, deleted, cleared, upd_ne _ _ him]⟩
  | go m e p hm he hx ha => exact ha.view i
  | publish m e p s1 hm he hx ha hb hs =>
    subst hs
    obtain ⟨q, hq⟩ := ha.view i
    refine ⟨q ++ (view s1 i).take 1, ?_⟩
    rw [hq]
    show _ = q ++ (view s1 i).take 1 ++ ([] ++ (view s1 i).tail)
    cases view s1 i <;> simp
  | threw m e p s1 s2 hm he hx ha hsh hd hb hs =>
    subst hs
    obtain ⟨q, hq⟩ := ha.view i
    refine ⟨q, ?_⟩
    show _ = q ++ view s2 i
    rw [hsh.view]; exact hq

theorem tsteps_facts {boom : Nat → Bool} {s s' : State n} {thr : Bool} (hi : WInv s) (h : TSteps boom s s' thr) :
    WInv s' ∧ (s'.pivot = none → ∃ i, s'.deques i = []) ∧ s'.cfg = s.cfg ∧ ∀ i, ∃ q, view s i = q ++ view s' i := by
  have := tsteps_ind (P := fun t => t.cfg = s.cfg ∧ ∀ i, ∃ q, view s i = q ++ view t i)
    (fun t t' thr hi _ ht hP => ⟨by rw [tstep_cfg ht, hP.1], fun i => by
      obtain ⟨q, hq⟩ := hP.2 i
      obtain ⟨q', hq'⟩ := tstep_view hi ht i
      exact ⟨q ++ q', by rw [hq, hq', List.append_assoc]⟩⟩)
    hi h ⟨rfl, fun _ => ⟨[], rfl⟩⟩
  exact this

theorem total_pushed {s s1 : State n} {i : Fin n} {e : Ev} (hp : Pushed s s1 i e) : total (view s1) ≤ total (view s) + 1 := by
  have : view s1 = upd (view s) i (view s i ++ [e]) := by
    funext j
    by_cases hj : j = i
    · subst hj; rw [hp.view_same, upd_same]
    · rw [hp.view_ne hj, upd_ne _ _ hj]
  rw [this]
  unfold total
  have h3 := MF.Epsilon.sum_indicator (List.finRange n) (List.nodup_finRange n) i (fun j => (view s j).length)
  rw [if_pos (List.mem_finRange i)] at h3
  have : ((List.finRange n).map (fun j => (upd (view s) i (view s i ++ [e]) j).length)) =
      ((List.finRange n).map (fun j => (if i = j then 1 else 0) + (view s j).length)) := by
    apply List.map_congr_left
    intro j _
    by_cases hj : j = i
    · subst hj; simp; omega
    · simp [upd_ne _ _ hj, Ne.symm hj]
  rw [this, h3]
  omega

theorem addT_spec [NeZero n] (boom : Nat → Bool) (fuel : Nat) {s : State n} (h : CInv s) (i : Fin n) (e : Ev) :
    ((∃ s' thr, approxAdd boom fuel s i e = .ok (s', thr) ∧ TAdd boom s s' i e thr ∧ CInv s' ∧ s'.cfg = s.cfg) ∨
      approxAdd boom fuel s i e = .error .hang) ∧
    (∀ B, total (view s) + 1 ≤ B → B * B + B ≤ fuel → approxAdd boom fuel s i e ≠ .error .hang) := by
  obtain ⟨s1, hp, hcase, hterm⟩ := addPushT_spec boom fuel h i e
  have hl1 := pushed_winv hp h.loop
  have hv1 := total_pushed hp
  have hmu : ∀ t : State n, (∀ j, (view t j).length ≤ (view s1 j).length) → ∀ B, total (view s) + 1 ≤ B → B * B + B ≤ fuel →
      mu t ≤ fuel := by
    intro t ht B hB hf
    have h1 : total (view t) ≤ B := Nat.le_trans (total_le _ _ ht) (by omega)
    have h2 := total_deques_le t
    have h3 := Nat.mul_le_mul h1 h1
    unfold mu; omega
  have fin : ∀ t s' thr, WInv t → t.cfg = s.cfg → TSteps boom t s' thr → CInv s' ∧ s'.cfg = s.cfg := by
    intro t s' thr ht hc hs
    obtain ⟨f1, f2, f3, f4⟩ := tsteps_facts ht hs
    have hc' : s'.cfg = s.cfg := by rw [f3, hc]
    exact ⟨⟨f1, f2, by rw [hc']; exact h.qpos⟩, hc'⟩
  unfold approxAdd
  rcases hcase with ⟨s2, thr, hadd, hsteps⟩ | hhang
  · rw [hadd]
    obtain ⟨hc2, hcfg2⟩ := fin s1 s2 thr hl1 hp.cfg hsteps
    cases thr with
    | true => simp only; exact ⟨Or.inl ⟨s2, true, rfl, .threw s1 hp hsteps, hc2, hcfg2⟩, fun _ _ _ => by simp⟩
    | false =>
      simp only
      have hlen2 : ∀ j, (view s2 j).length ≤ (view s1 j).length := by
        intro j
        obtain ⟨q, hq⟩ := (tsteps_facts hl1 hsteps).2.2.2 j
        rw [hq]; simp
      rcases addLimitT_spec boom fuel hc2 i with ⟨g1, g2⟩ | ⟨g1, g2, g3⟩
      · rw [g2]
        rw [hcfg2] at g1
        exact ⟨Or.inl ⟨s2, false, rfl, .normal s1 hp hsteps g1, hc2, hcfg2⟩, fun _ _ _ => by simp⟩
      · rw [hcfg2] at g1
        refine ⟨?_, ?_⟩
        · rcases g2 with ⟨s', thr, k1, k2⟩ | k1
          · left
            obtain ⟨hc3, hcfg3⟩ := fin (dropped s2 i) s' thr (dropped_winv s2 i) hcfg2 k2
            exact ⟨s', thr, k1, .drop s1 s2 thr hp hsteps g1 k2, hc3, hcfg3⟩
          · right; exact k1
        · intro B hB hf
          exact g3 (hmu _ (fun j => Nat.le_trans (dropped_len s2 i j) (hlen2 j)) B hB hf)
  · rw [hhang]
    refine ⟨Or.inr rfl, ?_⟩
    intro B hB hf
    exact absurd hhang (hterm (hmu s1 (fun _ => Nat.le_refl _) B hB hf))

end MF.Throw
