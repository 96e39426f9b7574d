import Verif.Proofs.Throw
import Verif.Proofs.Epsilon
/-
Helper lemmas about ApproximateEpsilonTime with throwing callbacks.
-/
namespace MF.Throw

theorem delivered_append_false {α : Type} {boom : Nat → Bool} (l : List α) : ∀ o : List α,
    (∀ k, l.length ≤ k → k < l.length + o.length → boom k = false) → delivered boom (l ++ o) = delivered boom l ++ o := by
  intro o
  induction o using snoc_induction with
  | h0 => intro _; simp
  | hs o x ih =>
    intro h
    rw [← List.append_assoc, delivered_snoc, ih (fun k h1 h2 => h k h1 (by simp; omega)),
      h (l ++ o).length (by simp) (by simp)]
    simp

theorem throws_append_false {α : Type} {boom : Nat → Bool} (l : List α) : ∀ o : List α,
    (∀ k, l.length ≤ k → k < l.length + o.length → boom k = false) → throws boom (l ++ o) = throws boom l := by
  intro o
  induction o using snoc_induction with
  | h0 => intro _; simp
  | hs o x ih =>
    intro h
    rw [← List.append_assoc, throws_snoc, ih (fun k h1 h2 => h k h1 (by simp; omega)),
      h (l ++ o).length (by simp) (by simp)]
    simp

open Epsilon

variable {n : Nat}

/-- The front messages. -/
def heads (v : Fin n → List Ev) : Fin n → Option Ev := fun i => (v i).head?

theorem fire_of_check {eps : Int} {v : Fin n → List Ev} (h : checkAll v eps (getOlder v) = true) :
    fire eps v = ([heads v], fun i => (v i).tail) := by
  unfold fire; rw [if_pos h]; rfl

theorem processT_ok (boom : Nat → Bool) (fuel : Nat) : ∀ (s s' : State n) (thr : Bool), s.num = nonEmpty s.events →
    epsilonProcess boom fuel s = .ok (s', thr) →
    s'.num = nonEmpty s'.events ∧ s'.queueSize = s.queueSize ∧ s'.epsilon = s.epsilon ∧
    ∃ o, Steps s.epsilon s.events o s'.events ∧
      (∀ k, s.out.length ≤ k → k < s.out.length + o.length → boom k = false) ∧
      ((thr = false ∧ s'.out = s.out ++ o ∧ ∃ i, s'.events i = []) ∨
       (thr = true ∧ s'.out = (s.out ++ o) ++ [heads s'.events] ∧ boom (s.out ++ o).length = true ∧ (∀ i, s'.events i ≠ []) ∧
        checkAll s'.events s'.epsilon (getOlder s'.events) = true)) := by
  induction fuel with
  | zero =>
    intro s s' thr hn h
    unfold epsilonProcess at h
    by_cases hf : s.num = n
    · rw [if_pos hf] at h; cases h
    · rw [if_neg hf] at h; cases h
      refine ⟨hn, rfl, rfl, [], Steps.refl _, by intro k h1 h2; simp at h2; omega, Or.inl ⟨rfl, by simp, ?_⟩⟩
      apply Classical.byContradiction
      intro hno
      apply hf
      rw [hn]
      exact_mod_cast (nonEmpty_eq_iff s.events).2 (fun i hi => hno ⟨i, hi⟩)
  | succ fuel ih =>
    intro s s' thr hn h
    by_cases hf : ∀ i, s.events i ≠ []
    · have hfull : s.num = n := by rw [hn]; exact_mod_cast (nonEmpty_eq_iff s.events).2 hf
      simp only [epsilonProcess] at h
      rw [if_pos hfull] at h
      by_cases hc : checkAll s.events s.epsilon (getOlder s.events) = true
      · rw [if_pos hc, signal_ok s hf] at h
        simp only at h
        cases hb : boom s.out.length with
        | true =>
          rw [hb, if_pos rfl] at h
          simp only [Except.ok.injEq, Prod.mk.injEq] at h
          obtain ⟨rfl, rfl⟩ := h
          refine ⟨hn, rfl, rfl, [], Steps.refl _, by intro k h1 h2; simp at h2; omega, Or.inr ⟨rfl, ?_, by simpa using hb, hf, hc⟩⟩
          simp [heads]; rfl
        | false =>
          rw [hb, if_neg (by decide)] at h
          obtain ⟨h1, h2, h3, h4, h5⟩ := eraseFronts_spec { s with out := s.out ++ [fun i => (s.events i).head?] }
          obtain ⟨g1, g2, g3, o, g4, g5, g6⟩ := ih _ s' thr (h4 hn) h
          have hev : (eraseFronts { s with out := s.out ++ [fun i => (s.events i).head?] }).events =
              (fire s.epsilon s.events).2 := by
            rw [fire_of_check hc]; funext i; exact h5 i
          rw [h3] at g5 g6
          rw [h2, hev] at g4
          refine ⟨g1, by rw [g2, h1], by rw [g3, h2], [heads s.events] ++ o, ?_, ?_, ?_⟩
          · have := Steps.head hf g4
            rw [fire_of_check hc] at this; exact this
          · intro k k1 k2
            by_cases hk : k = s.out.length
            · rw [hk]; exact hb
            · exact g5 k (by simp; omega) (by simp at k2 ⊢; omega)
          · have e1 : s.out ++ [fun i => (s.events i).head?] ++ o = s.out ++ ([heads s.events] ++ o) := by
              rw [List.append_assoc]; rfl
            rw [e1] at g6
            exact g6
      · rw [if_neg hc] at h
        obtain ⟨h1, h2, h3, h4, h5⟩ := eraseOld_spec (getOlder s.events).1 s
        obtain ⟨g1, g2, g3, o, g4, g5, g6⟩ := ih _ s' thr (h4 hn) h
        have hev : (eraseOld (getOlder s.events).1 s).events = (fire s.epsilon s.events).2 := by
          unfold fire; rw [if_neg hc]; funext i; exact h5 i
        rw [h3] at g5 g6
        rw [h2, hev] at g4
        refine ⟨g1, by rw [g2, h1], by rw [g3, h2], o, ?_, g5, g6⟩
        have := Steps.head hf g4
        have e1 : (fire s.epsilon s.events).1 = [] := by unfold fire; rw [if_neg hc]
        rw [e1] at this; exact this
    · have hf' : s.num ≠ n := by
        intro hh
        apply hf
        apply (nonEmpty_eq_iff s.events).1
        rw [hn] at hh; exact_mod_cast hh
      simp only [epsilonProcess] at h
      rw [if_neg hf'] at h
      cases h
      refine ⟨hn, rfl, rfl, [], Steps.refl _, by intro k h1 h2; simp at h2; omega, Or.inl ⟨rfl, by simp, ?_⟩⟩
      apply Classical.byContradiction
      intro hno
      exact hf (fun i hi => hno ⟨i, hi⟩)

/-- Processing does not fail if it does not fail without exceptions. -/
theorem processT_of_process (boom : Nat → Bool) (fuel : Nat) : ∀ s : State n,
    (∃ r, epsilonProcess boom fuel s = .ok r) ∨ ∃ f, epsilonProcess boom fuel s = .error f ∧ process fuel s = .error f := by
  induction fuel with
  | zero =>
    intro s
    unfold epsilonProcess process
    split
    · right; exact ⟨_, rfl, rfl⟩
    · left; exact ⟨_, rfl⟩
  | succ fuel ih =>
    intro s
    simp only [epsilonProcess, process]
    split
    · split
      · cases hs : signal s with
        | error f => right; exact ⟨f, rfl, rfl⟩
        | ok s' =>
          simp only
          split
          · left; exact ⟨_, rfl⟩
          · exact ih _
      · exact ih _
    · left; exact ⟨_, rfl⟩

/-- Invariant. -/
structure InvT (boom : Nat → Bool) (s : State n) : Prop where
  num : s.num = nonEmpty s.events
  bound : ∀ i, (s.events i).length ≤ s.queueSize + throws boom s.out
  state : ((∃ i, s.events i = []) ∧ ∀ pre x, s.out = pre ++ [x] → boom pre.length = false) ∨
    ((∀ i, s.events i ≠ []) ∧ (∃ pre, s.out = pre ++ [heads s.events] ∧ boom pre.length = true) ∧
      checkAll s.events s.epsilon (getOlder s.events) = true)

theorem invT_construct [NeZero n] (boom : Nat → Bool) (q : Nat) (eps : Int) : InvT boom (construct n q eps) := by
  have := inv_construct (n := n) q eps
  refine ⟨this.num, fun i => by simp [construct], Or.inl ⟨this.someEmpty, ?_⟩⟩
  intro pre x h
  simp [construct] at h

/-- The ways in which an `add` can go. -/
inductive AddT (boom : Nat → Bool) (s s' : State n) (i : Fin n) (e : Ev) (thr : Bool) : Prop where
  | processed (o) (hall : ∀ j, upd s.events i (s.events i ++ [e]) j ≠ [])
      (hsteps : Steps s.epsilon (upd s.events i (s.events i ++ [e])) o s'.events)
      (hb : ∀ k, s.out.length ≤ k → k < s.out.length + o.length → boom k = false)
      (hres : (thr = false ∧ s'.out = s.out ++ o ∧ ∃ i, s'.events i = []) ∨
       (thr = true ∧ s'.out = (s.out ++ o) ++ [heads s'.events] ∧ boom (s.out ++ o).length = true ∧ (∀ i, s'.events i ≠ []) ∧
        checkAll s'.events s'.epsilon (getOlder s'.events) = true))
  | queued (ht : thr = false) (hnot : ∃ j, upd s.events i (s.events i ++ [e]) j = [])
      (hlen : (s.events i).length + 1 ≤ s.queueSize)
      (hev : s'.events = upd s.events i (s.events i ++ [e])) (hout : s'.out = s.out)
  | overflow (ht : thr = false) (hnot : ∃ j, upd s.events i (s.events i ++ [e]) j = [])
      (hlen : s.queueSize < (s.events i).length + 1)
      (hev : s'.events = upd s.events i (s.events i ++ [e]).tail) (hout : s'.out = s.out)

theorem addT_shape (boom : Nat → Bool) (fuel : Nat) (s : State n) (hn : s.num = nonEmpty s.events) (i : Fin n) (e : Ev) :
    (∃ s1 : State n, s1.num = nonEmpty s1.events ∧ s1.queueSize = s.queueSize ∧ s1.epsilon = s.epsilon ∧ s1.out = s.out ∧
      s1.events = upd s.events i (s.events i ++ [e]) ∧ (∀ j, s1.events j ≠ []) ∧
      epsilonAdd boom fuel s i e = epsilonProcess boom fuel s1) ∨
    (∃ s', epsilonAdd boom fuel s i e = .ok (s', false) ∧ s'.num = nonEmpty s'.events ∧ s'.epsilon = s.epsilon ∧
      s'.queueSize = s.queueSize ∧ AddT boom s s' i e false) := by
  have hnum : (if (s.events i).length = 0 then s.num + 1 else s.num) =
      (nonEmpty (upd s.events i (s.events i ++ [e])) : Int) := by
    rw [nonEmpty_upd, ← hn]
    cases h : s.events i <;> simp
  unfold epsilonAdd
  simp only
  rw [hnum]
  by_cases hall : ∀ j, upd s.events i (s.events i ++ [e]) j ≠ []
  · left
    refine ⟨{ s with num := (nonEmpty (upd s.events i (s.events i ++ [e])) : Int),
                     events := upd s.events i (s.events i ++ [e]) }, rfl, rfl, rfl, rfl, rfl, hall, ?_⟩
    rw [if_pos]
    exact_mod_cast (nonEmpty_eq_iff _).2 hall
  · right
    have hnot : ∃ j, upd s.events i (s.events i ++ [e]) j = [] := by
      apply Classical.byContradiction; intro h; exact hall (fun j hj => h ⟨j, hj⟩)
    rw [if_neg (by
      intro h; apply hall; apply (nonEmpty_eq_iff _).1; exact_mod_cast h)]
    have hl : (upd s.events i (s.events i ++ [e]) i).length = (s.events i).length + 1 := by simp
    by_cases hlen : (s.events i).length + 1 > s.queueSize
    · rw [if_pos (by simp only [hl]; exact hlen)]
      obtain ⟨h1, h2, h3, h4, h5⟩ := eraseFront_spec (State.mk s.queueSize s.epsilon
        (nonEmpty (upd s.events i (s.events i ++ [e])) : Int) (upd s.events i (s.events i ++ [e])) s.out) i
      have hev : (eraseFront (State.mk s.queueSize s.epsilon
        (nonEmpty (upd s.events i (s.events i ++ [e])) : Int) (upd s.events i (s.events i ++ [e])) s.out) i).events =
          upd s.events i (s.events i ++ [e]).tail := by
        rw [h4]
        funext j
        by_cases hj : j = i
        · subst hj; simp
        · simp [upd_ne _ _ hj]
      exact ⟨_, rfl, h5 rfl, h2, h1, AddT.overflow rfl hnot hlen hev h3⟩
    · rw [if_neg (by simp only [hl]; exact hlen)]
      exact ⟨_, rfl, rfl, rfl, rfl, AddT.queued rfl hnot (by omega) rfl rfl⟩

theorem addT_ok {boom : Nat → Bool} {fuel : Nat} {s s' : State n} (hn : s.num = nonEmpty s.events) {i : Fin n} {e : Ev}
    {thr : Bool} (h : epsilonAdd boom fuel s i e = .ok (s', thr)) :
    s'.num = nonEmpty s'.events ∧ s'.epsilon = s.epsilon ∧ s'.queueSize = s.queueSize ∧ AddT boom s s' i e thr := by
  rcases addT_shape boom fuel s hn i e with ⟨s1, h1, h2, h3, h4, h5, h6, h7⟩ | ⟨s2, h1, h2, h3, h4, h5⟩
  · rw [h7] at h
    obtain ⟨g1, g2, g3, o, g4, g5, g6⟩ := processT_ok boom fuel s1 s' thr h1 h
    refine ⟨g1, by rw [g3, h3], by rw [g2, h2], AddT.processed o (h5 ▸ h6) ?_ ?_ ?_⟩
    · rw [h3, h5] at g4; exact g4
    · rw [h4] at g5; exact g5
    · rw [h4] at g6; exact g6
  · rw [h] at h1
    simp only [Except.ok.injEq, Prod.mk.injEq] at h1
    obtain ⟨rfl, rfl⟩ := h1
    exact ⟨h2, h3, h4, h5⟩

/-- If the previous call left a set behind, the iterations begin with it. -/
theorem steps_begin {eps : Int} {v w : Fin n → List Ev} {o : List (Fin n → Option Ev)} (h : Steps eps v o w)
    (hc : checkAll v eps (getOlder v) = true) :
    (o = [] ∧ w = v) ∨ ∃ o', o = heads v :: o' ∧ Steps eps (fun i => (v i).tail) o' w := by
  cases h with
  | refl => exact Or.inl ⟨rfl, rfl⟩
  | head hv h2 =>
    right
    rw [fire_of_check hc] at h2 ⊢
    exact ⟨_, rfl, h2⟩

theorem heads_upd {v : Fin n → List Ev} (hv : ∀ i, v i ≠ []) (i : Fin n) (e : Ev) :
    ∀ j, ((upd v i (v i ++ [e])) j).head? = (v j).head? := by
  intro j
  by_cases hj : j = i
  · subst hj
    rw [upd_same]
    obtain ⟨x, tl, he⟩ := List.exists_cons_of_ne_nil (hv j)
    rw [he]; rfl
  · rw [upd_ne _ _ hj]

theorem check_upd {v : Fin n → List Ev} {eps : Int} (hv : ∀ i, v i ≠ []) (i : Fin n) (e : Ev)
    (hc : checkAll v eps (getOlder v) = true) :
    checkAll (upd v i (v i ++ [e])) eps (getOlder (upd v i (v i ++ [e]))) = true := by
  rw [getOlder_congr _ _ (heads_upd hv i e), checkAll_congr _ _ eps _ (heads_upd hv i e)]
  exact hc

theorem addT_inv {boom : Nat → Bool} {s s' : State n} (hs : InvT boom s) {i : Fin n} {e : Ev} {thr : Bool}
    (hn : s'.num = nonEmpty s'.events) (hq : s'.queueSize = s.queueSize) (heps : s'.epsilon = s.epsilon)
    (h : AddT boom s s' i e thr) : InvT boom s' := by
  cases h with
  | processed o hall hsteps hb hres =>
    rcases hres with ⟨_, hout, hempty⟩ | ⟨_, hout, hbt, hne, hc⟩
    · have hthrows : throws boom s'.out = throws boom s.out := by rw [hout]; exact throws_append_false _ _ hb
      refine ⟨hn, ?_, Or.inl ⟨hempty, ?_⟩⟩
      · intro j
        rw [hq, hthrows]
        rcases hs.state with ⟨⟨m, hm⟩, _⟩ | ⟨hne, _, hc⟩
        · have hmi : m = i := by
            apply Classical.byContradiction
            intro hne
            have := hall m
            rw [upd_ne _ _ hne] at this
            exact this hm
          subst hmi
          obtain ⟨c, hcc, _⟩ := steps_input hsteps j
          have hl : (upd s.events m (s.events m ++ [e]) j).length = c.length + (s'.events j).length := by rw [hcc]; simp
          by_cases hj : j = m
          · subst hj
            rw [upd_same, hm] at hl
            simp at hl
            by_cases hz : s.queueSize + throws boom s.out = 0
            · obtain ⟨p, hp⟩ := hempty
              by_cases hpj : p = j
              · subst hpj; rw [hp]; simp
              · exfalso
                have h1 := hs.bound p
                have h2 := hall p
                rw [upd_ne _ _ hpj] at h2
                exact h2 (List.eq_nil_of_length_eq_zero (by omega))
            · omega
          · rw [upd_ne _ _ hj] at hl
            have := hs.bound j
            omega
        · rcases steps_begin hsteps (check_upd hne i e hc) with ⟨_, h2⟩ | ⟨o', _, h2⟩
          · exfalso
            obtain ⟨p, hp⟩ := hempty
            rw [h2] at hp
            exact hall p hp
          · obtain ⟨c, hcc, _⟩ := steps_input h2 j
            have hl : (upd s.events i (s.events i ++ [e]) j).tail.length = c.length + (s'.events j).length := by
              rw [hcc]; simp
            rw [List.length_tail] at hl
            have := hs.bound j
            by_cases hj : j = i
            · subst hj; rw [upd_same] at hl; simp at hl; omega
            · rw [upd_ne _ _ hj] at hl; omega
      · intro pre x hpre
        rw [hout] at hpre
        rcases List.eq_nil_or_concat o with ho | ⟨o', y, ho⟩
        · subst ho
          rcases hs.state with ⟨_, h2⟩ | ⟨hne, _, hc⟩
          · exact h2 pre x (by simpa using hpre)
          · exfalso
            rcases steps_begin hsteps (check_upd hne i e hc) with ⟨_, h2⟩ | ⟨o', h2, _⟩
            · obtain ⟨p, hp⟩ := hempty
              rw [h2] at hp
              exact hall p hp
            · cases h2
        · rw [List.concat_eq_append] at ho
          subst ho
          rw [← List.append_assoc] at hpre
          obtain ⟨h1, _⟩ := List.append_inj' hpre rfl
          rw [← h1]
          apply hb
          · simp
          · simp
    · have hthrows : throws boom s'.out = throws boom s.out + 1 := by
        rw [hout, throws_snoc, throws_append_false _ _ hb, hbt]; simp
      refine ⟨hn, ?_, Or.inr ⟨hne, ⟨_, hout, hbt⟩, hc⟩⟩
      intro j
      rw [hq, hthrows]
      obtain ⟨c, hcc, _⟩ := steps_input hsteps j
      have hl : (upd s.events i (s.events i ++ [e]) j).length = c.length + (s'.events j).length := by rw [hcc]; simp
      have := hs.bound j
      by_cases hj : j = i
      · subst hj; rw [upd_same] at hl; simp at hl; omega
      · rw [upd_ne _ _ hj] at hl; omega
  | queued ht hnot hlen hev hout =>
    have hst : (∃ i, s.events i = []) ∧ ∀ pre x, s.out = pre ++ [x] → boom pre.length = false := by
      rcases hs.state with h | ⟨hne, _, _⟩
      · exact h
      · exfalso
        obtain ⟨p, hp⟩ := hnot
        by_cases hpi : p = i
        · subst hpi; rw [upd_same] at hp; simp at hp
        · rw [upd_ne _ _ hpi] at hp; exact hne p hp
    refine ⟨hn, ?_, Or.inl ⟨by rw [hev]; exact hnot, by rw [hout]; exact hst.2⟩⟩
    intro j
    rw [hev, hq, hout]
    by_cases hj : j = i
    · subst hj; rw [upd_same]; simp; omega
    · rw [upd_ne _ _ hj]; exact hs.bound j
  | overflow ht hnot hlen hev hout =>
    have hst : (∃ i, s.events i = []) ∧ ∀ pre x, s.out = pre ++ [x] → boom pre.length = false := by
      rcases hs.state with h | ⟨hne, _, _⟩
      · exact h
      · exfalso
        obtain ⟨p, hp⟩ := hnot
        by_cases hpi : p = i
        · subst hpi; rw [upd_same] at hp; simp at hp
        · rw [upd_ne _ _ hpi] at hp; exact hne p hp
    refine ⟨hn, ?_, Or.inl ⟨?_, by rw [hout]; exact hst.2⟩⟩
    · intro j
      rw [hev, hq, hout]
      by_cases hj : j = i
      · subst hj; rw [upd_same]; have := hs.bound j; simp; omega
      · rw [upd_ne _ _ hj]; exact hs.bound j
    · rw [hev]
      obtain ⟨p, hp⟩ := hnot
      refine ⟨p, ?_⟩
      by_cases hpi : p = i
      · subst hpi; rw [upd_same] at hp; simp at hp
      · rw [upd_ne _ _ hpi] at hp ⊢; exact hp

theorem stepT_ok {boom : Nat → Bool} {fuel : Nat} {s s' : State n} {op : Fin n × Ev}
    (h : (epsilonAdd boom fuel s op.1 op.2).map (·.1) = .ok s') : ∃ thr, epsilonAdd boom fuel s op.1 op.2 = .ok (s', thr) := by
  cases h1 : epsilonAdd boom fuel s op.1 op.2 with
  | error f => rw [h1] at h; cases h
  | ok r =>
    rw [h1] at h
    simp only [Except.map, Except.ok.injEq] at h
    exact ⟨r.2, by rw [← h]⟩

theorem eps_run_inv [NeZero n] {boom : Nat → Bool} {fuel q : Nat} {eps : Int} : ∀ (ops : List (Fin n × Ev)) (s : State n),
    epsilonRun boom fuel (construct n q eps) ops = .ok s → InvT boom s ∧ s.epsilon = eps ∧ s.queueSize = q := by
  apply runE_induction
  · exact ⟨invT_construct boom q eps, rfl, rfl⟩
  · intro ops s op s' _ ⟨h1, h2, h3⟩ hs
    obtain ⟨thr, hs⟩ := stepT_ok hs
    obtain ⟨g1, g2, g3, g4⟩ := addT_ok h1.num hs
    exact ⟨addT_inv h1 g1 g3 g2 g4, by rw [g2, h2], by rw [g3, h3]⟩

theorem AddT.delivered_eq {boom : Nat → Bool} {s s' : State n} {i : Fin n} {e : Ev} {thr : Bool}
    (h : AddT boom s s' i e thr) : ∃ o, delivered boom s'.out = delivered boom s.out ++ o ∧
      ((∃ j, upd s.events i (s.events i ++ [e]) j = []) ∧ o = [] ∧
        ((s'.events = upd s.events i (s.events i ++ [e])) ∨ (s.queueSize < (s.events i).length + 1 ∧
        s'.events = upd s.events i (s.events i ++ [e]).tail)) ∨
       Steps s.epsilon (upd s.events i (s.events i ++ [e])) o s'.events) := by
  cases h with
  | processed o hall hsteps hb hres =>
    refine ⟨o, ?_, Or.inr hsteps⟩
    rcases hres with ⟨_, hout, _⟩ | ⟨_, hout, hbt, _, _⟩
    · rw [hout]; exact delivered_append_false _ _ hb
    · rw [hout, delivered_snoc, hbt]; simpa using delivered_append_false _ _ hb
  | queued ht hnot hlen hev hout => exact ⟨[], by rw [hout]; simp, Or.inl ⟨hnot, rfl, Or.inl hev⟩⟩
  | overflow ht hnot hlen hev hout => exact ⟨[], by rw [hout]; simp, Or.inl ⟨hnot, rfl, Or.inr ⟨hlen, hev⟩⟩⟩

theorem eps_run_history [NeZero n] {boom : Nat → Bool} {fuel q : Nat} {eps : Int} : ∀ (ops : List (Fin n × Ev)) (s : State n),
    epsilonRun boom fuel (construct n q eps) ops = .ok s → ∀ i,
    ∃ c, stream ops i = c ++ s.events i ∧ List.Sublist ((delivered boom s.out).map (· i)) (c.map some) := by
  apply runE_induction
  · intro i; exact ⟨[], by simp [stream, construct], by simp [construct, delivered]⟩
  · intro ops s op s' hr ih hs j
    obtain ⟨i, e⟩ := op
    obtain ⟨thr, hs⟩ := stepT_ok hs
    simp only at hs
    obtain ⟨hinv, heps, hq⟩ := eps_run_inv _ _ hr
    obtain ⟨c, hc, hsub⟩ := ih j
    obtain ⟨_, _, _, sp⟩ := addT_ok hinv.num hs
    have hstream : stream (ops ++ [(i, e)]) j = c ++ upd s.events i (s.events i ++ [e]) j := by
      by_cases hj : j = i
      · subst hj; rw [stream_snoc_same, upd_same, hc, List.append_assoc]
      · rw [stream_snoc_ne _ _ (Ne.symm hj), upd_ne _ _ hj, hc]
    obtain ⟨o, h1, h2⟩ := sp.delivered_eq
    rw [h1]
    rcases h2 with ⟨_, ho, hev | ⟨_, hev⟩⟩ | hsteps
    · subst ho
      exact ⟨c, by rw [hstream, hev], by simpa using hsub⟩
    · subst ho
      rw [hev]
      by_cases hj : j = i
      · subst hj
        rw [upd_same] at hstream ⊢
        cases hl : s.events j ++ [e] with
        | nil => simp at hl
        | cons x xs =>
          refine ⟨c ++ [x], by rw [hstream, hl]; simp, ?_⟩
          rw [List.append_nil, List.map_append]
          exact hsub.trans (List.sublist_append_left _ _)
      · rw [upd_ne _ _ hj] at hstream ⊢
        exact ⟨c, hstream, by simpa using hsub⟩
    · obtain ⟨c', h3, h4⟩ := steps_input hsteps j
      refine ⟨c ++ c', by rw [hstream, h3, List.append_assoc], ?_⟩
      rw [List.map_append, List.map_append]
      exact List.Sublist.append hsub h4

theorem eps_run_output [NeZero n] {boom : Nat → Bool} {fuel q : Nat} {eps : Int} : ∀ (ops : List (Fin n × Ev)) (s : State n),
    epsilonRun boom fuel (construct n q eps) ops = .ok s → ∀ t ∈ s.out, (∀ i, ∃ e, t i = some e ∧ (i, e) ∈ ops) ∧
      ∀ i j x y, i ≠ j → t i = some x → t j = some y → x.stamp ≤ y.stamp + eps := by
  apply runE_induction
  · intro t ht; simp [construct] at ht
  · intro ops s op s' hr ih hs t ht
    obtain ⟨i, e⟩ := op
    obtain ⟨thr, hs'⟩ := stepT_ok hs
    simp only at hs'
    obtain ⟨hinv, heps, _⟩ := eps_run_inv _ _ hr
    obtain ⟨_, he', _, sp⟩ := addT_ok hinv.num hs'
    have hold : t ∈ s.out → (∀ j, ∃ x, t j = some x ∧ (j, x) ∈ ops ++ [(i, e)]) ∧
        ∀ i j x y, i ≠ j → t i = some x → t j = some y → x.stamp ≤ y.stamp + eps := by
      intro h
      obtain ⟨h1, h2⟩ := ih t h
      refine ⟨fun j => ?_, h2⟩
      obtain ⟨x, hx, hm⟩ := h1 j
      exact ⟨x, hx, List.mem_append_left _ hm⟩
    cases sp with
    | queued _ _ _ _ hout => rw [hout] at ht; exact hold ht
    | overflow _ _ _ _ hout => rw [hout] at ht; exact hold ht
    | processed o hall hsteps hb hres =>
      have hsuf : ∀ j x, x ∈ upd s.events i (s.events i ++ [e]) j → (j, x) ∈ ops ++ [(i, e)] := by
        intro j x hx
        obtain ⟨c, hc, _⟩ := eps_run_history _ _ hr j
        by_cases hj : j = i
        · subst hj
          rw [upd_same] at hx
          rcases List.mem_append.1 hx with hx | hx
          · exact List.mem_append_left _ (mem_stream.1 (by rw [hc]; exact List.mem_append_right _ hx))
          · rw [List.mem_singleton] at hx; subst hx; simp
        · rw [upd_ne _ _ hj] at hx
          exact List.mem_append_left _ (mem_stream.1 (by rw [hc]; exact List.mem_append_right _ hx))
      have hnew : ∀ t ∈ o, (∀ j, ∃ x, t j = some x ∧ (j, x) ∈ ops ++ [(i, e)]) ∧
        ∀ i j x y, i ≠ j → t i = some x → t j = some y → x.stamp ≤ y.stamp + eps := by
        intro t ht
        rw [heps] at hsteps
        obtain ⟨g1, g2⟩ := steps_output hsteps t ht
        refine ⟨fun j => ?_, g2⟩
        obtain ⟨x, hx⟩ := g1 j
        refine ⟨x, hx, hsuf j x ?_⟩
        obtain ⟨c, hc, hsub⟩ := steps_input hsteps j
        have : some x ∈ c.map some := hsub.subset (List.mem_map.2 ⟨t, ht, hx⟩)
        simp at this
        rw [hc]; simp [this]
      rcases hres with ⟨_, hout, _⟩ | ⟨_, hout, hbt, hne, hc⟩
      · rw [hout] at ht
        rcases List.mem_append.1 ht with ht | ht
        · exact hold ht
        · exact hnew t ht
      · rw [hout] at ht
        rcases List.mem_append.1 ht with ht | ht
        · rcases List.mem_append.1 ht with ht | ht
          · exact hold ht
          · exact hnew t ht
        · rw [List.mem_singleton] at ht
          obtain ⟨g1, g2⟩ := fire_output s'.epsilon s'.events hne t (by rw [fire_of_check hc, ht]; simp)
          rw [he', heps] at g2
          refine ⟨fun j => ?_, g2⟩
          obtain ⟨x, hx⟩ := g1 j
          refine ⟨x, hx, hsuf j x ?_⟩
          obtain ⟨c, hcc, _⟩ := steps_input hsteps j
          rw [hcc]
          apply List.mem_append_right
          rw [ht] at hx
          unfold heads at hx
          cases hev : s'.events j with
          | nil => rw [hev] at hx; simp at hx
          | cons y l => rw [hev] at hx; simp at hx; subst hx; simp

/-- A set whose output threw is the next one output. -/
theorem eps_run_retry [NeZero n] {boom : Nat → Bool} {fuel q : Nat} {eps : Int} : ∀ (ops : List (Fin n × Ev)) (s : State n),
    epsilonRun boom fuel (construct n q eps) ops = .ok s →
    ∀ pre t u post, s.out = pre ++ t :: u :: post → boom pre.length = true → u = t := by
  apply runE_induction
  · intro pre t u post h; simp [construct] at h
  · intro ops s op s' hr ih hs pre t u post hpre hbp
    obtain ⟨i, e⟩ := op
    obtain ⟨thr, hs'⟩ := stepT_ok hs
    simp only at hs'
    obtain ⟨hinv, heps, _⟩ := eps_run_inv _ _ hr
    obtain ⟨_, he', _, sp⟩ := addT_ok hinv.num hs'
    cases sp with
    | queued _ _ _ _ hout => rw [hout] at hpre; exact ih pre t u post hpre hbp
    | overflow _ _ _ _ hout => rw [hout] at hpre; exact ih pre t u post hpre hbp
    | processed o hall hsteps hb hres =>
      -- the new entries
      obtain ⟨X, hX, hXhead⟩ : ∃ X, s'.out = s.out ++ X ∧ ∀ hne : (∀ j, s.events j ≠ []),
          checkAll s.events s.epsilon (getOlder s.events) = true → X = [] ∨ X.head? = some (heads s.events) := by
        rcases hres with ⟨_, hout, _⟩ | ⟨_, hout, _, _, _⟩
        · refine ⟨o, hout, ?_⟩
          intro hne hc
          rcases steps_begin hsteps (check_upd hne i e hc) with ⟨h1, _⟩ | ⟨o', h1, _⟩
          · exact Or.inl h1
          · right; rw [h1, show heads (upd s.events i (s.events i ++ [e])) = heads s.events from funext (heads_upd hne i e)]; rfl
        · refine ⟨o ++ [heads s'.events], by rw [hout, List.append_assoc], ?_⟩
          intro hne hc
          right
          rcases steps_begin hsteps (check_upd hne i e hc) with ⟨h1, h2⟩ | ⟨o', h1, _⟩
          · rw [h1, h2, show heads (upd s.events i (s.events i ++ [e])) = heads s.events from funext (heads_upd hne i e)]; rfl
          · rw [h1, show heads (upd s.events i (s.events i ++ [e])) = heads s.events from funext (heads_upd hne i e)]; rfl
      -- where the two entries are
      rcases Nat.lt_or_ge (pre.length + 1) s.out.length with hlt | hge
      · -- both old
        have : ∃ p, s.out = pre ++ t :: u :: p := by
          rw [hX] at hpre
          refine ⟨s.out.drop (pre.length + 2), ?_⟩
          have h1 : s.out = (s.out ++ X).take s.out.length := by simp
          conv => lhs; rw [← List.take_append_drop (pre.length + 2) s.out]
          have h2 : s.out.take (pre.length + 2) = (s.out ++ X).take (pre.length + 2) := by
            rw [List.take_append_of_le_length (by omega)]
          rw [h2, hpre]
          have : pre ++ t :: u :: post = (pre ++ [t, u]) ++ post := by simp
          rw [this, List.take_left' (by simp)]
          simp
        obtain ⟨p, hp⟩ := this
        exact ih pre t u p hp hbp
      · rcases Nat.lt_or_ge pre.length s.out.length with hlt2 | hge2
        · -- the first is the last old entry
          have hl : pre.length + 1 = s.out.length := by omega
          rw [hX] at hpre
          have h1 : s.out = pre ++ [t] ∧ X = u :: post := by
            have : pre ++ t :: u :: post = (pre ++ [t]) ++ (u :: post) := by simp
            rw [this] at hpre
            exact List.append_inj hpre (by simp; omega)
          rcases hinv.state with ⟨_, h2⟩ | ⟨hne, ⟨p, hp, _⟩, hc⟩
          · rw [h2 pre t h1.1] at hbp; cases hbp
          · have ht : t = heads s.events := by
              rw [h1.1] at hp
              have := (List.append_inj' hp rfl).2
              simpa using this
            rcases hXhead hne hc with h3 | h3
            · rw [h1.2] at h3; cases h3
            · rw [h1.2] at h3; simp at h3; rw [h3, ht]
        · -- both new: the first did not throw
          exfalso
          have hlen : s'.out.length = pre.length + (2 + post.length) := by rw [hpre]; simp; omega
          have : pre.length < s.out.length + o.length := by
            rcases hres with ⟨_, hout, _⟩ | ⟨_, hout, _, _, _⟩
            · rw [hout] at hlen; simp at hlen; omega
            · rw [hout] at hlen; simp at hlen; omega
          rw [hb pre.length hge2 this] at hbp
          cases hbp

/-- Iterations that stop earlier output less. -/
theorem steps_prefix {eps : Int} {v w w' : Fin n → List Ev} {o o'} (h : Steps eps v o w) (h' : Steps eps v o' w')
    (hw' : ∃ i, w' i = []) : o <+: o' ∧ ((∃ i, w i = []) → o = o') := by
  induction h generalizing o' w' with
  | refl v =>
    refine ⟨List.nil_prefix, ?_⟩
    rintro ⟨i, hi⟩
    cases h' with
    | refl => rfl
    | head hv _ => exact absurd hi (hv i)
  | head hv _ ih =>
    cases h' with
    | refl => obtain ⟨i, hi⟩ := hw'; exact absurd hi (hv i)
    | head hv' h2 =>
      obtain ⟨h3, h4⟩ := ih h2 hw'
      refine ⟨(List.prefix_append_right_inj _).2 h3, fun he => by rw [h4 he]⟩

theorem eps_run_canonical [NeZero n] {boom : Nat → Bool} {fuel q : Nat} {eps : Int} : ∀ (ops : List (Fin n × Ev)) (s : State n),
    epsilonRun boom fuel (construct n q eps) ops = .ok s → (∀ i, (stream ops i).length ≤ q) →
    Steps eps (stream ops) (delivered boom s.out) s.events := by
  apply runE_induction
  · intro _
    have : stream ([] : List (Fin n × Ev)) = fun _ => [] := by funext i; rfl
    rw [this]; exact Steps.refl _
  · intro ops s op s' hr ih hs hlen
    obtain ⟨i, e⟩ := op
    obtain ⟨thr, hs'⟩ := stepT_ok hs
    simp only at hs'
    obtain ⟨hinv, heps, hq⟩ := eps_run_inv _ _ hr
    have hlen' : ∀ j, (stream ops j).length ≤ q := by
      intro j
      have := hlen j
      rw [stream_append, List.length_append] at this
      omega
    have ih := ih hlen'
    have hext := steps_extend ih (upd (fun _ => []) i [e])
    have h1 : extend (stream ops) (upd (fun _ => []) i [e]) = stream (ops ++ [(i, e)]) := by
      funext j
      unfold extend
      by_cases hj : j = i
      · subst hj; rw [upd_same, stream_snoc_same]
      · rw [upd_ne _ _ hj, stream_snoc_ne _ _ (Ne.symm hj)]; simp
    have h2 : extend s.events (upd (fun _ => []) i [e]) = upd s.events i (s.events i ++ [e]) := by
      funext j
      unfold extend
      by_cases hj : j = i
      · subst hj; rw [upd_same, upd_same]
      · rw [upd_ne _ _ hj, upd_ne _ _ hj]; simp
    rw [h1, h2] at hext
    obtain ⟨_, _, _, sp⟩ := addT_ok hinv.num hs'
    obtain ⟨o, g1, g2⟩ := sp.delivered_eq
    rw [g1]
    rcases g2 with ⟨_, ho, hev | ⟨hov, hev⟩⟩ | hsteps
    · subst ho; rw [hev]; simpa using hext
    · exfalso
      obtain ⟨c, hc, _⟩ := eps_run_history ops s hr i
      have := hlen i
      rw [stream_snoc_same, List.length_append, hc, List.length_append] at this
      simp at this
      omega
    · rw [heps] at hsteps
      exact steps_trans hext hsteps

theorem eps_run_terminates [NeZero n] (boom : Nat → Bool) (q : Nat) (eps : Int) (heps : 0 ≤ eps) (ops : List (Fin n × Ev))
    (hmax : ∀ op ∈ ops, op.2.stamp ≤ maxTime) (fuel : Nat) (hfuel : ops.length ≤ fuel) :
    ∃ s, epsilonRun boom fuel (construct n q eps) ops = .ok s := by
  revert hmax hfuel
  induction ops using snoc_induction with
  | h0 => intro _ _; exact ⟨_, rfl⟩
  | hs ops op ih =>
    intro hmax hfuel
    simp at hfuel
    obtain ⟨s, hs⟩ := ih (fun o ho => hmax o (by simp [ho])) (by omega)
    obtain ⟨i, e⟩ := op
    obtain ⟨hinv, he, _⟩ := eps_run_inv _ _ hs
    have hstep : ∃ r, epsilonAdd boom fuel s i e = .ok r := by
      rcases addT_shape boom fuel s hinv.num i e with ⟨s1, h1, h2, h3, h4, h5, h6, h7⟩ | ⟨s2, h1, _⟩
      · rw [h7]
        have hsuf : ∀ j, ∃ c, stream (ops ++ [(i, e)]) j = c ++ s1.events j := by
          intro j
          obtain ⟨c, hc, _⟩ := eps_run_history ops s hs j
          refine ⟨c, ?_⟩
          rw [h5]
          by_cases hj : j = i
          · subst hj; rw [stream_snoc_same, upd_same, hc, List.append_assoc]
          · rw [stream_snoc_ne _ _ (Ne.symm hj), upd_ne _ _ hj, hc]
        have hp : ∃ s', process fuel s1 = .ok s' := by
          apply process_terminates fuel s1 h1 (by rw [h3, he]; exact heps)
          · intro j x hx
            obtain ⟨c, hc⟩ := hsuf j
            have : x ∈ stream (ops ++ [(i, e)]) j := by rw [hc]; simp [hx]
            exact hmax (j, x) (mem_stream.1 this)
          · have : total s1.events ≤ total (stream (ops ++ [(i, e)])) := by
              apply total_le
              intro j
              obtain ⟨c, hc⟩ := hsuf j
              rw [hc]; simp
            rw [total_stream] at this
            simp at this
            omega
        rcases processT_of_process boom fuel s1 with h8 | ⟨f, _, h8⟩
        · exact h8
        · obtain ⟨s', hp⟩ := hp
          rw [hp] at h8; cases h8
      · exact ⟨_, h1⟩
    obtain ⟨r, hr⟩ := hstep
    refine ⟨r.1, ?_⟩
    unfold epsilonRun at hs ⊢
    rw [runE_append, hs]
    simp [runE, hr, Except.map]

end MF.Throw
