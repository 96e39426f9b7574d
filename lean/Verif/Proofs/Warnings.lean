import Verif.Model.Warnings
import Verif.Spec.Warnings
import Verif.Proofs.Approx7
/-
Helper lemmas about the warnings of ApproximateTime.
-/
namespace MF

theorem follows_snoc {l : List Ev} {e a b : Ev} : Follows (l ++ [e]) a b ↔ Follows l a b ∨ (l.getLast? = some a ∧ b = e) := by
  constructor
  · rintro ⟨pre, post, h⟩
    rcases List.eq_nil_or_concat post with rfl | ⟨post', x, rfl⟩
    · have h1 : l ++ [e] = (pre ++ [a]) ++ [b] := by rw [h]; simp
      obtain ⟨h2, h3⟩ := List.append_inj' h1 rfl
      right
      rw [h2]
      simp only [List.cons.injEq, and_true] at h3
      exact ⟨by simp, h3.symm⟩
    · left
      have h1 : l ++ [e] = (pre ++ a :: b :: post') ++ [x] := by rw [h]; simp
      exact ⟨pre, post', (List.append_inj' h1 rfl).1⟩
  · rintro (⟨pre, post, rfl⟩ | ⟨h, rfl⟩)
    · exact ⟨pre, post ++ [e], by simp⟩
    · obtain ⟨pre, rfl⟩ : ∃ pre, l = pre ++ [a] := by
        rcases List.eq_nil_or_concat l with rfl | ⟨pre, x, rfl⟩
        · cases h
        · simp at h; exact ⟨pre, by simp [h]⟩
      exact ⟨pre, [], by simp⟩

theorem follows_nil {a b : Ev} : ¬ Follows [] a b := by
  rintro ⟨pre, post, h⟩
  have := congrArg List.length h
  simp at this

end MF

namespace MF.Approx

variable {n : Nat}

theorem psteps_warned {s s' : State n} (hi : LoopInv s) (h : PSteps s s') : s'.warned = s.warned := by
  have := psteps_ind (P := fun t => t.warned = s.warned) (fun t t' _ _ ht hP => by
    rw [← hP]
    cases ht with
    | delete m e hm he hp hc hs => subst hs; rfl
    | go m e p hm he hx ha hpm => exact ha.warned
    | publish m e p s1 hm he hx ha hw hs => subst hs; exact ha.warned) hi h rfl
  exact this.2.2

theorem process_warned [NeZero n] {fuel : Nat} {s s' : State n} (hi : LoopInv s) (h : process fuel s = .ok s') :
    s'.warned = s.warned := by
  rcases process_spec fuel s hi with ⟨s1, h1, h2⟩ | h1
  · rw [h1] at h; cases h; exact psteps_warned hi h2
  · rw [h1] at h; cases h

theorem addLimit_warned [NeZero n] {fuel : Nat} {s s' : State n} (hi : LoopInv s) (hq : 0 < s.cfg.queueSize) (i : Fin n)
    (hempty : ∃ j, s.deques j = []) (h : addLimit fuel s i = .ok s') : s'.warned = s.warned := by
  rcases addLimit_spec fuel hi hq i hempty with ⟨_, h1⟩ | ⟨_, _, h1, _⟩ | ⟨_, _, h1⟩
  · rw [h1] at h; cases h; rfl
  · rw [h1] at h; cases h; rfl
  · rw [h1] at h; exact (process_warned (dropped_inv s i) h).trans rfl

/-- The warning that is due when `e` follows the last message of a deque. -/
def due (lower : Int) (i : Fin n) (last : Option Ev) (e : Ev) : Option (Warning n) :=
  match last with
  | none => none
  | some x => if e.stamp < x.stamp then some (.outOfOrder i)
    else if e.stamp - x.stamp < lower then some (.tooClose i (e.stamp - x.stamp) lower) else none

theorem due_some {lower : Int} {i : Fin n} {last : Option Ev} {e : Ev} :
    (due lower i last e).isSome = true ↔ ∃ x, last = some x ∧ Violates lower x e := by
  cases last with
  | none => simp [due]
  | some x =>
    simp only [due, Option.some.injEq, exists_eq_left', Violates]
    by_cases h1 : e.stamp < x.stamp
    · simp [h1]
    · rw [if_neg h1]
      by_cases h2 : e.stamp - x.stamp < lower
      · simp [h2]
      · simp [h1, h2]

theorem snd_last {l : List Ev} {e : Ev} (h : l ≠ []) : (l ++ [e])[(l ++ [e]).length - 2]? = l.getLast? := by
  rcases List.eq_nil_or_concat l with rfl | ⟨l', x, rfl⟩
  · exact absurd rfl h
  · simp

theorem addWarning_eq (s : State n) (i : Fin n) (e : Ev) :
    addWarning s i e = if s.warned i then none else due (s.cfg.lower i) i (s.deques i).getLast? e := by
  unfold addWarning boundWarning
  simp only [upd_same]
  by_cases hd : s.deques i = []
  · rw [hd]; simp [due]
  · have hl : (s.deques i ++ [e]).length ≠ 1 := by
      rw [List.length_append]
      have := List.length_pos_iff.2 hd
      simp; omega
    rw [if_neg hl]
    by_cases hw : s.warned i = true
    · rw [if_pos hw, if_pos hw]
    · rw [if_neg hw, if_neg hw, List.getLast?_concat]
      dsimp only
      rw [if_neg hl, snd_last hd]
      cases (s.deques i).getLast? with
      | none => rfl
      | some x => rfl

theorem check_eq (s : State n) (i : Fin n) (hd : s.deques i ≠ []) :
    checkInterMessageBound s i = .ok { s with warned := if (boundWarning s i).isSome then upd s.warned i true else s.warned } := by
  generalize hb : boundWarning s i = w
  unfold boundWarning at hb
  unfold checkInterMessageBound
  by_cases hw : s.warned i = true
  · rw [if_pos hw] at hb ⊢; subst hb; rfl
  · rw [if_neg hw] at hb ⊢
    cases hg : (s.deques i).getLast? with
    | none => exact absurd (List.getLast?_eq_none_iff.1 hg) hd
    | some msg =>
      rw [hg] at hb
      dsimp only at hb ⊢
      generalize (if (s.deques i).length = 1 then (s.past i).getLast? else (s.deques i)[(s.deques i).length - 2]?) = prev at hb ⊢
      cases prev with
      | none => dsimp only at hb; subst hb; rfl
      | some prev =>
        dsimp only at hb ⊢
        by_cases h1 : msg.stamp < prev.stamp
        · rw [if_pos h1] at hb ⊢; subst hb; rfl
        · rw [if_neg h1] at hb ⊢
          by_cases h2 : msg.stamp - prev.stamp < s.cfg.lower i
          · rw [if_pos h2] at hb ⊢; subst hb; rfl
          · rw [if_neg h2] at hb ⊢; subst hb; rfl

/-- The flag after a call of `add`. -/
theorem add_warned [NeZero n] {fuel : Nat} {s s' : State n} (h : Inv s) {i : Fin n} {e : Ev} (hadd : add fuel s i e = .ok s') :
    s'.warned = if (addWarning s i e).isSome then upd s.warned i true else s.warned := by
  unfold add at hadd
  cases hpush : addPush fuel s i e with
  | error f => rw [hpush] at hadd; cases hadd
  | ok s2 =>
    rw [hpush] at hadd
    dsimp only at hadd
    obtain ⟨s1, hp, hc, _⟩ := addPush_spec fuel h i e
    rcases hc with ⟨s2', h2, hps⟩ | h2
    · rw [hpush] at h2; cases h2
      have hl1 := hp.inv h.loop
      obtain ⟨hl2, he2⟩ := psteps_inv hl1 hps
      have hq2 : 0 < s2.cfg.queueSize := by rw [(psteps_cfg_len hl1 hps).1, hp.cfg]; exact h.qpos
      rw [addLimit_warned hl2 hq2 i he2 hadd]
      have hnum := push_num h.loop.num i e
      unfold addPush at hpush
      unfold addWarning
      simp only [upd_same] at hpush ⊢
      by_cases hl : (s.deques i ++ [e]).length = 1
      · rw [if_pos hl] at hpush ⊢
        by_cases hn : s.num + 1 = (n : Int)
        · rw [if_pos hn] at hpush
          refine (process_warned ?_ hpush).trans rfl
          have hemp : s.deques i = [] := by
            cases hd : s.deques i with
            | nil => rfl
            | cons x tl => rw [hd] at hl; simp at hl
          rw [hemp] at hnum
          simp at hnum
          refine Pushed.inv (s := s) (i := i) (e := e) ⟨rfl, ?_, rfl, rfl, rfl, rfl, rfl, rfl, rfl, rfl, rfl⟩ h.loop
          show s.num + 1 = _
          rw [← hnum]; simp [hemp]
        · rw [if_neg hn] at hpush; cases hpush; rfl
      · rw [if_neg hl] at hpush ⊢
        rw [check_eq _ _ (by simp)] at hpush
        cases hpush
        rfl
    · rw [hpush] at h2; cases h2

/-- While a message waits, the deque ends with the last message received. -/
theorem deque_last {L : Fin n → List Ev} {s : State n} (h : Hist L s) {i : Fin n} (hd : s.deques i ≠ []) :
    (s.deques i).getLast? = (L i).getLast? := by
  obtain ⟨c, h1, _⟩ := h i
  rw [h1]
  unfold view
  rw [← List.append_assoc, List.getLast?_append]
  cases hg : (s.deques i).getLast? with
  | none => exact absurd (List.getLast?_eq_none_iff.1 hg) hd
  | some x => rfl

theorem warned_iff [NeZero n] {fuel : Nat} {cfg : Cfg n} {ops : List (Fin n × Ev)} {s s' : State n} {i : Fin n} {e : Ev}
    (h : run fuel cfg ops = .ok s) (hadd : add fuel s i e = .ok s') (j : Fin n) :
    s'.warned j = true ↔ s.warned j = true ∨
      (j = i ∧ s.deques i ≠ [] ∧ ∃ x, (stream ops i).getLast? = some x ∧ Violates (cfg.lower i) x e) := by
  obtain ⟨hi, hc, hh⟩ := run_facts h
  rw [add_warned hi hadd, addWarning_eq]
  by_cases hw : s.warned i = true
  · rw [if_pos hw]
    constructor
    · intro h1; exact Or.inl h1
    · rintro (h1 | ⟨rfl, _⟩)
      · exact h1
      · exact hw
  · rw [if_neg hw]
    have hiff : (due (s.cfg.lower i) i (s.deques i).getLast? e).isSome = true ↔
        (s.deques i ≠ [] ∧ ∃ x, (stream ops i).getLast? = some x ∧ Violates (cfg.lower i) x e) := by
      rw [due_some, hc]
      constructor
      · rintro ⟨x, h1, h2⟩
        have hd : s.deques i ≠ [] := by intro h0; rw [h0] at h1; cases h1
        exact ⟨hd, x, by rw [← deque_last hh hd]; exact h1, h2⟩
      · rintro ⟨hd, x, h1, h2⟩
        exact ⟨x, by rw [deque_last hh hd]; exact h1, h2⟩
    by_cases hdue : (due (s.cfg.lower i) i (s.deques i).getLast? e).isSome = true
    · rw [if_pos hdue]
      by_cases hj : j = i
      · subst hj; rw [upd_same]; exact ⟨fun _ => Or.inr ⟨rfl, hiff.1 hdue⟩, fun _ => rfl⟩
      · rw [upd_ne _ _ hj]
        exact ⟨Or.inl, fun h1 => h1.elim id (fun h2 => absurd h2.1 hj)⟩
    · rw [if_neg hdue]
      exact ⟨Or.inl, fun h1 => h1.elim id (fun h2 => absurd (hiff.2 h2.2) hdue)⟩

theorem wrun_snoc_ok [NeZero n] {fuel : Nat} {cfg : Cfg n} {ops : List (Fin n × Ev)} {i : Fin n} {e : Ev} {s' : State n}
    (h : run fuel cfg (ops ++ [(i, e)]) = .ok s') : ∃ s, run fuel cfg ops = .ok s ∧ add fuel s i e = .ok s' := by
  obtain ⟨hq, h1⟩ := runOps_ok h
  rw [List.map_append] at h1
  obtain ⟨s, h2, h3⟩ := runE_snoc_ok h1
  refine ⟨s, ?_, h3⟩
  unfold run runOps
  rw [construct_eq cfg hq]
  exact h2

theorem warned_sound [NeZero n] {fuel : Nat} {cfg : Cfg n} : ∀ (ops : List (Fin n × Ev)) (s : State n),
    run fuel cfg ops = .ok s → ∀ i, s.warned i = true → ∃ a b, Follows (stream ops i) a b ∧ Violates (cfg.lower i) a b := by
  intro ops
  induction ops using snoc_induction with
  | h0 =>
    intro s h i hw
    have h := (runOps_ok h).2
    simp only [List.map_nil, runE, Except.ok.injEq] at h
    rw [← h] at hw; cases hw
  | hs ops op ih =>
    intro s' h i hw
    obtain ⟨s, h1, h2⟩ := wrun_snoc_ok (i := op.1) (e := op.2) h
    rcases (warned_iff h1 h2 i).1 hw with h3 | ⟨rfl, _, x, h4, h5⟩
    · obtain ⟨a, b, h4, h5⟩ := ih s h1 i h3
      refine ⟨a, b, ?_, h5⟩
      by_cases hi : op.1 = i
      · subst hi; rw [stream_snoc_same]; exact follows_snoc.2 (Or.inl h4)
      · rw [stream_snoc_ne _ _ hi]; exact h4
    · exact ⟨x, op.2, by rw [stream_snoc_same]; exact follows_snoc.2 (Or.inr ⟨h4, rfl⟩), h5⟩

/-- While an input has sent nothing, the last message of every other input waits in its deque. -/
theorem waiting [NeZero n] {fuel : Nat} {cfg : Cfg n} : ∀ (ops : List (Fin n × Ev)) (s : State n),
    run fuel cfg ops = .ok s → ∀ j, stream ops j = [] → ∀ i, stream ops i ≠ [] → s.deques i ≠ [] := by
  apply run_induction
  · intro j _ i hi; exact absurd rfl hi
  · intro ops s i e s' hi hc hh hadd hi' ih j hj i' hi'
    have hji : i ≠ j := by intro h0; subst h0; rw [stream_snoc_same] at hj; simp at hj
    rw [stream_snoc_ne _ _ hji] at hj
    have hne : ∀ s1, Pushed s s1 i e → s1.deques i' ≠ [] := by
      intro s1 hp
      rw [hp.deques]
      by_cases h1 : i' = i
      · subst h1; rw [upd_same]; simp
      · rw [upd_ne _ _ h1]
        rw [stream_snoc_ne _ _ (Ne.symm h1)] at hi'
        exact ih j hj i' hi'
    have hvj : view s j = [] := by
      obtain ⟨c, h1, _⟩ := hh j
      rw [hj] at h1
      exact (List.append_eq_nil_iff.1 h1.symm).2
    have hstay : ∀ s1, Pushed s s1 i e → ∀ s2, PSteps s1 s2 → s2 = s1 := by
      intro s1 hp s2 hs
      cases hs with
      | done _ => rfl
      | step hn _ _ =>
        have h1 := hp.view_ne (Ne.symm hji)
        rw [hvj] at h1
        exact absurd (List.append_eq_nil_iff.1 h1).2 (hn j)
    cases hadd with
    | normal s1 hp hs hl =>
      rw [hstay s1 hp s' hs]; exact hne s1 hp
    | drop s1 s2 hp hs hl hs' =>
      have h2 := hstay s1 hp s2 hs
      subst h2
      have h3 : s' = dropped s2 i := by
        cases hs' with
        | done _ => rfl
        | step hn _ _ =>
          exfalso
          apply hn j
          show upd (view s2) i (view s2 i).tail j = []
          rw [upd_ne _ _ (Ne.symm hji), hp.view_ne (Ne.symm hji), hvj]
      rw [h3]
      show upd (view s2) i (view s2 i).tail i' ≠ []
      by_cases h1 : i' = i
      · subst h1
        rw [upd_same]
        intro h0
        have h4 := congrArg List.length h0
        rw [List.length_tail] at h4
        have := hi.qpos
        simp at h4; omega
      · rw [upd_ne _ _ h1]
        intro h0
        exact hne s2 hp (List.append_eq_nil_iff.1 h0).2

theorem warned_complete [NeZero n] {fuel : Nat} {cfg : Cfg n} : ∀ (ops : List (Fin n × Ev)) (s : State n),
    run fuel cfg ops = .ok s → ∀ j, stream ops j = [] → ∀ i a b, Follows (stream ops i) a b → Violates (cfg.lower i) a b →
    s.warned i = true := by
  intro ops
  induction ops using snoc_induction with
  | h0 => intro s _ j _ i a b hf _; exact absurd hf follows_nil
  | hs ops op ih =>
    intro s' h j hj i a b hf hv
    obtain ⟨s, h1, h2⟩ := wrun_snoc_ok (i := op.1) (e := op.2) h
    have hji : op.1 ≠ j := by intro h0; rw [← h0, show op = (op.1, op.2) from rfl, stream_snoc_same] at hj; simp at hj
    rw [show op = (op.1, op.2) from rfl, stream_snoc_ne _ _ hji] at hj
    refine (warned_iff h1 h2 i).2 ?_
    by_cases hi : op.1 = i
    · subst hi
      rw [show op = (op.1, op.2) from rfl, stream_snoc_same, follows_snoc] at hf
      rcases hf with hf | ⟨hl, rfl⟩
      · exact Or.inl (ih s h1 j hj _ a b hf hv)
      · refine Or.inr ⟨rfl, waiting ops s h1 j hj op.1 ?_, a, hl, hv⟩
        intro h0; rw [h0] at hl; cases hl
    · rw [show op = (op.1, op.2) from rfl, stream_snoc_ne _ _ hi] at hf
      exact Or.inl (ih s h1 j hj i a b hf hv)

end MF.Approx
