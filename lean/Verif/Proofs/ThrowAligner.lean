import Verif.Proofs.Throw
import Verif.Proofs.Aligner2
/-
Helper lemmas about the InputAligner with throwing callbacks.
-/
namespace MF.Throw

open Aligner

variable {n : Nat}

/-- The state after a message was given to callbacks that threw. -/
def failed (s : State n) (i : Fin n) (e : Ev) : State n :=
  { stamped s with lastOut := e.stamp, out := s.out ++ [(i, e)] }

/-- One iteration of the dispatch loop: a normal one, or one that ends with an exception. -/
inductive IterT (boom : Nat → Bool) (s : State n) : State n → Option Bool → Prop where
  | normal (s' : State n) (b : Bool) (h : Iter s s' b) (hb : s'.out ≠ s.out → boom s.out.length = false) :
      IterT boom s s' (some b)
  | fail (i : Fin n) (e : Ev) (l : List Ev) (h : (s.queues i).items = e :: l) (hmin : ∀ j, e.stamp ≤ ts s j)
      (hb : boom s.out.length = true) : IterT boom s (failed s i e) none

theorem dispatchFirstT_spec (boom : Nat → Bool) (s : State n) :
    ∃ s' r, alignerDispatchFirst boom s = .ok (s', r) ∧ IterT boom s s' r := by
  obtain ⟨s0, b0, h0, i0⟩ := dispatchFirst_spec s
  have htsfun : (fun i => (s.queues i).firstTimeStamp.2) = ts s := rfl
  unfold alignerDispatchFirst
  unfold dispatchFirst at h0
  simp only [htsfun] at h0 ⊢
  rcases idx_spec (ts s) with ⟨hn, h⟩ | ⟨k, h, hmin⟩
  · rw [h] at h0 ⊢
    simp only [Except.ok.injEq, Prod.mk.injEq] at h0
    obtain ⟨rfl, rfl⟩ := h0
    exact ⟨_, _, rfl, .normal _ _ i0 (fun h => absurd rfl h)⟩
  · rw [h] at h0 ⊢
    simp only at h0 ⊢
    have hk : ((stamped s).queues k).items = (s.queues k).items := first_items _
    unfold alignerDispatchAt
    unfold dispatchAt at h0
    cases hq : (s.queues k).items with
    | cons e l =>
      rw [hk, hq] at h0
      rw [hk, hq]
      simp only at h0 ⊢
      cases hb : boom s.out.length with
      | true =>
        rw [if_pos (by exact hb)]
        exact ⟨_, _, rfl, IterT.fail k e l hq (by intro j; have := hmin j; rw [ts_cons hq] at this; exact this) hb⟩
      | false =>
        rw [if_neg (by rw [show (stamped s).out = s.out from rfl, hb]; decide)]
        cases hp : (((stamped s).queues k)).popFirst with
        | error f => rw [hp] at h0; cases h0
        | ok q =>
          rw [hp] at h0
          simp only [Except.ok.injEq, Prod.mk.injEq] at h0
          obtain ⟨h1, h2⟩ := h0
          simp only
          rw [h1]; subst h2
          exact ⟨_, _, rfl, .normal _ _ i0 (fun _ => hb)⟩
    | nil =>
      rw [hk, hq] at h0
      rw [hk, hq]
      simp only at h0 ⊢
      have hda : dispatchAt (stamped s) k = .ok (s0, b0) := by
        unfold dispatchAt
        rw [hk, hq]
        exact h0
      rw [hda]
      refine ⟨_, _, rfl, .normal _ _ i0 ?_⟩
      intro hne
      exfalso
      apply hne
      split at h0
      · simp only [Except.ok.injEq, Prod.mk.injEq] at h0
        rw [← h0.1]; rfl
      · simp only [Except.ok.injEq, Prod.mk.injEq] at h0
        rw [← h0.1]; rfl

theorem loopT_ind {P : State n → Prop} (boom : Nat → Bool) (hstep : ∀ s s' r, IterT boom s s' r → P s → P s') (fuel : Nat) :
    ∀ s : State n, P s → (∃ s' b, alignerLoop boom fuel s = .ok (s', b) ∧ P s') ∨ alignerLoop boom fuel s = .error .hang := by
  induction fuel with
  | zero => intro s _; right; rfl
  | succ fuel ih =>
    intro s hs
    obtain ⟨s1, r, h1, h2⟩ := dispatchFirstT_spec boom s
    unfold alignerLoop
    rw [h1]
    have hs1 := hstep _ _ _ h2 hs
    match r with
    | none => left; exact ⟨s1, true, rfl, hs1⟩
    | some false => left; exact ⟨s1, false, rfl, hs1⟩
    | some true => exact ih s1 hs1

theorem dispatchT_ind {P : State n → Prop} (boom : Nat → Bool) (hstep : ∀ s s' r, IterT boom s s' r → P s → P s')
    {fuel : Nat} {s : State n} (h0 : P s) :
    (∃ s' b, alignerDispatch boom fuel s = .ok (s', b) ∧ P s') ∨ alignerDispatch boom fuel s = .error .hang := by
  unfold alignerDispatch
  split
  · exact loopT_ind boom hstep fuel s h0
  · left; exact ⟨s, false, rfl, h0⟩

theorem dispatchT_ok {P : State n → Prop} {boom : Nat → Bool} (hstep : ∀ s s' r, IterT boom s s' r → P s → P s')
    {fuel : Nat} {s s' : State n} (h0 : P s) (h : alignerStep boom fuel s .dispatch = .ok s') : P s' := by
  unfold alignerStep at h
  rcases dispatchT_ind boom hstep (fuel := fuel) h0 with ⟨s1, b, h1, h2⟩ | h1
  · simp only [h1, Except.map, Except.ok.injEq] at h; rw [← h]; exact h2
  · simp only [h1, Except.map] at h; cases h

theorem failed_items (s : State n) (i : Fin n) (e : Ev) (j : Fin n) :
    ((failed s i e).queues j).items = (s.queues j).items := stamped_items s j

theorem iterT_inv {boom : Nat → Bool} {s s' : State n} {r : Option Bool} (h : IterT boom s s' r) (hi : Inv s) : Inv s' := by
  cases h with
  | normal s' b h hb => exact iter_inv h hi
  | fail i e l h hmin hb =>
    have he : e ∈ (s.queues i).items := by rw [h]; simp
    refine ⟨?_, ?_, ?_, ?_, ?_⟩
    · intro j; rw [failed_items]; exact hi.sorted j
    · intro j x hx
      rw [failed_items] at hx
      have h1 := hmin j
      have h2 := ts_le (hi.sorted j) hx
      show e.stamp ≤ x.stamp
      omega
    · show TimeSorted ((s.out ++ [(i, e)]).map (·.2))
      rw [List.map_append]
      refine List.pairwise_append.2 ⟨hi.out, List.pairwise_singleton _ _, ?_⟩
      intro x hx y hy
      simp at hy
      subst hy
      obtain ⟨m, hm, rfl⟩ := List.mem_map.1 hx
      have := hi.outLe m hm
      have := hi.fresh i y he
      omega
    · intro m hm
      show m.2.stamp ≤ e.stamp
      rcases List.mem_append.1 (show m ∈ s.out ++ [(i, e)] from hm) with hm | hm
      · have := hi.outLe m hm
        have := hi.fresh i e he
        omega
      · rw [List.mem_singleton] at hm; rw [hm]; exact Int.le_refl _
    · right
      exact ⟨(i, e), by show (s.out ++ [(i, e)]).getLast? = _; simp, rfl⟩

theorem stepT_nondispatch {boom : Nat → Bool} {fuel : Nat} {s s' : State n} {op : Op n} (hop : op ≠ .dispatch)
    (h : alignerStep boom fuel s op = .ok s') : step fuel s op = .ok s' := by
  cases op with
  | add i e => exact h
  | setPeriod i d => exact h
  | dispatch => exact absurd rfl hop

theorem stepT_inv {boom : Nat → Bool} {fuel : Nat} {s s' : State n} {op : Op n} (h : alignerStep boom fuel s op = .ok s')
    (hi : Inv s) : Inv s' := by
  cases op with
  | dispatch => exact dispatchT_ok (P := Inv) (fun _ _ _ a b => iterT_inv a b) hi h
  | add i e => exact step_inv (fuel := fuel) (stepT_nondispatch (by simp) h) hi
  | setPeriod i d => exact step_inv (fuel := fuel) (stepT_nondispatch (by simp) h) hi

theorem runT_inv {boom : Nat → Bool} {fuel : Nat} {timeout : Int} {ops : List (Op n)} {s : State n}
    (h : alignerRun boom fuel timeout ops = .ok s) : Inv s :=
  runE_inv (I := Inv) (fun _ _ _ a b => stepT_inv b a) ops _ s (construct_inv timeout) h

/-! ### Accounting -/

/-- The log is that of a normal iteration. -/
theorem iter_out {s s' : State n} {b : Bool} (h : Iter s s' b) : s'.out = s.out ∨ ∃ i e l,
    (s.queues i).items = e :: l ∧ s' = sent s i e l := by
  cases h with
  | send i e l h hmin => right; exact ⟨i, e, l, h, rfl⟩
  | timeout i h hmin ht => left; rfl
  | stop i h hmin ht => left; rfl
  | empty h => left; rfl

theorem iterT_acc {boom : Nat → Bool} {s s' : State n} {r : Option Bool} (h : IterT boom s s' r) (L : Fin n → List Ev)
    (hi : ∀ j, Acc (L j) (stream (delivered boom s.out) j) (s.queues j)) :
    ∀ j, Acc (L j) (stream (delivered boom s'.out) j) (s'.queues j) := by
  cases h with
  | normal s' b h hb =>
    -- apply the lemma for the normal aligner to a state whose log holds only the calls that returned
    intro j
    have key : ∀ t t' : State n, t.queues = s.queues → t.lastIn = s.lastIn → t.timeout = s.timeout →
        t.lastOut = s.lastOut → t.out = delivered boom s.out → t'.queues = s'.queues →
        t'.out = delivered boom s'.out → t'.lastOut = s'.lastOut → t'.lastIn = s'.lastIn → t'.timeout = s'.timeout →
        Iter t t' b := by
      intro t t' q1 q2 q3 q4 q5 q6 q7 q8 q9 q10
      have hts : ∀ i, ts t i = ts s i := by intro i; unfold ts; rw [q1]
      have hst : (stamped t).queues = (stamped s).queues := by simp [stamped, q1]
      have hext : ∀ u v : State n, u.queues = v.queues → u.lastIn = v.lastIn → u.timeout = v.timeout →
          u.lastOut = v.lastOut → u.out = v.out → u = v := by
        intro u v a1 a2 a3 a4 a5
        cases u; cases v; simp_all
      cases h with
      | send i e l h hmin =>
        have hbl : boom s.out.length = false := hb (by simp [sent])
        have : t' = sent t i e l := by
          apply hext
          · rw [q6]; simp [sent, hst, q1]
          · rw [q9]; simp [sent, q2]
          · rw [q10]; simp [sent, q3]
          · rw [q8]; simp [sent]
          · rw [q7]; simp [sent, q5, delivered_snoc, hbl]
        rw [this]
        exact Iter.send i e l (by rw [q1]; exact h) (by intro j; rw [hts]; exact hmin j)
      | timeout i h hmin ht =>
        have : t' = timedOut t i := by
          apply hext
          · rw [q6]; simp [timedOut, hst, q1]
          · rw [q9]; simp [timedOut, q2]
          · rw [q10]; simp [timedOut, q3]
          · rw [q8]; simp [timedOut, q4]
          · rw [q7]; simp [timedOut, q5]
        rw [this]
        exact Iter.timeout i (by rw [q1]; exact h) (by intro j; rw [hts, hts]; exact hmin j) (by rw [hts, q2, q3]; exact ht)
      | stop i h hmin ht =>
        have : t' = stamped t := by
          apply hext
          · rw [q6]; exact hst.symm
          · rw [q9]; simp [stamped, q2]
          · rw [q10]; simp [stamped, q3]
          · rw [q8]; simp [stamped, q4]
          · rw [q7]; simp [stamped, q5]
        rw [this]
        exact Iter.stop i (by rw [q1]; exact h) (by intro j; rw [hts, hts]; exact hmin j) (by rw [hts, q2, q3]; exact ht)
      | empty h =>
        have : t' = stamped t := by
          apply hext
          · rw [q6]; exact hst.symm
          · rw [q9]; simp [stamped, q2]
          · rw [q10]; simp [stamped, q3]
          · rw [q8]; simp [stamped, q4]
          · rw [q7]; simp [stamped, q5]
        rw [this]
        exact Iter.empty h
    have hiter := key { s with out := delivered boom s.out } { s' with out := delivered boom s'.out }
      rfl rfl rfl rfl rfl rfl rfl rfl rfl rfl
    exact iter_acc hiter L hi j
  | fail i e l h hmin hb =>
    intro j
    have : delivered boom (failed s i e).out = delivered boom s.out := by
      show delivered boom (s.out ++ [(i, e)]) = _
      rw [delivered_snoc, hb]; simp
    rw [this]
    exact stamped_acc (hi j)

theorem accT_add {s : State n} {ops : List (Op n)} {O : Fin n → List Ev} (hinv : Inv s)
    (ih : ∀ j, Acc (stream (adds ops) j) (O j) (s.queues j)) (i : Fin n) (e : Ev) :
    ∀ j, Acc (stream (adds (ops ++ [.add i e])) j) (O j) ((add s i e).queues j) := by
  intro j
  rw [adds_snoc_add]
  rcases add_eq s i e with ⟨h1, h2⟩ | ⟨h1, h2⟩
  · rw [h2]
    by_cases hj : j = i
    · subst hj
      rw [stream_snoc_same]
      obtain ⟨g1, acc, g2, g3, g4⟩ := ih j
      refine ⟨by simpa [refused] using g1, acc, g2.trans (List.sublist_append_left _ _), ?_, ?_⟩
      · simp [refused]; omega
      · intro t; rw [refused_items]; exact g4 t
    · rw [stream_snoc_ne _ _ (Ne.symm hj)]
      have hq : (refused s i).queues j = s.queues j := by simp [refused, upd_ne _ _ hj]
      rw [hq]; exact ih j
  · rw [h2]
    by_cases hj : j = i
    · subst hj
      rw [stream_snoc_same]
      obtain ⟨g1, acc, g2, g3, g4⟩ := ih j
      refine ⟨by simpa [queued] using g1, acc ++ [e], g2.append_right _, ?_, ?_⟩
      · simp [queued]; omega
      · intro t
        rw [queued_items_same]
        rw [at_append, at_insert t e _ (hinv.sorted j), at_append, at_append, ← g4 t, at_append, List.append_assoc]
    · rw [stream_snoc_ne _ _ (Ne.symm hj), queued_ne s i e hj]; exact ih j

theorem add_out (s : State n) (i : Fin n) (e : Ev) : (add s i e).out = s.out := by
  rcases add_eq s i e with ⟨_, h2⟩ | ⟨_, h2⟩ <;> rw [h2] <;> rfl

theorem runT_acc {boom : Nat → Bool} {fuel : Nat} {timeout : Int} {ops : List (Op n)} {s : State n}
    (h : alignerRun boom fuel timeout ops = .ok s) :
    ∀ j, Acc (stream (adds ops) j) (stream (delivered boom s.out) j) (s.queues j) := by
  refine runE_induction (P := fun ops (s : State n) => ∀ j, Acc (stream (adds ops) j)
    (stream (delivered boom s.out) j) (s.queues j)) ?_ ?_ ops s h
  · intro j
    exact ⟨rfl, [], List.Sublist.refl _, rfl, by intro t; rfl⟩
  · intro ops s op s' hrun ih hs j
    have hinv : Inv s := runT_inv hrun
    cases op with
    | add i e =>
      simp only [alignerStep, Except.ok.injEq] at hs
      subst hs
      rw [add_out]
      exact accT_add hinv ih i e j
    | setPeriod i d =>
      simp only [alignerStep, Except.ok.injEq] at hs
      subst hs
      rw [adds_snoc_period]
      refine acc_congr (ih j) (period_items s i j d) ?_ ?_
      · unfold setInputPeriod
        by_cases hj : j = i
        · subst hj; simp
        · simp [upd_ne _ _ hj]
      · unfold setInputPeriod
        by_cases hj : j = i
        · subst hj; simp
        · simp [upd_ne _ _ hj]
    | dispatch =>
      rw [adds_snoc_dispatch]
      exact dispatchT_ok (P := fun s => ∀ j, Acc (stream (adds ops) j) (stream (delivered boom s.out) j) (s.queues j))
        (fun _ _ _ a b => iterT_acc a _ b) ih hs j

/-! ### Retries -/

/-- A message whose delivery threw is the next one tried on its input. -/
def Retry (boom : Nat → Bool) (s : State n) : Prop :=
  ∀ pre i e post, s.out = pre ++ (i, e) :: post → boom pre.length = true →
    (stream post i ++ (s.queues i).items).head? = some e

theorem snoc_split {α : Type} {l pre post : List α} {x y : α} (h : l ++ [y] = pre ++ x :: post) :
    (pre = l ∧ x = y ∧ post = []) ∨ ∃ p, post = p ++ [y] ∧ l = pre ++ x :: p := by
  rcases List.eq_nil_or_concat post with h0 | ⟨p, z, h0⟩
  · left
    subst h0
    obtain ⟨h1, h2⟩ := List.append_inj' h rfl
    cases h2
    exact ⟨h1.symm, rfl, rfl⟩
  · right
    rw [List.concat_eq_append] at h0
    subst h0
    have : l ++ [y] = (pre ++ x :: p) ++ [z] := by rw [h]; simp
    obtain ⟨h1, h2⟩ := List.append_inj' this rfl
    cases h2
    exact ⟨p, rfl, h1⟩

theorem iterT_retry {boom : Nat → Bool} {s s' : State n} {r : Option Bool} (h : IterT boom s s' r) (hi : Retry boom s) :
    Retry boom s' := by
  cases h with
  | normal s' b h hb =>
    have same : s'.out = s.out → (∀ j, (s'.queues j).items = (s.queues j).items) → Retry boom s' := by
      intro h1 h2 pre i e post h3 h4
      rw [h2]; rw [h1] at h3; exact hi pre i e post h3 h4
    cases h with
    | send i e l h hmin =>
      have hbl : boom s.out.length = false := hb (by simp [sent])
      intro pre j x post h3 h4
      rcases snoc_split (show s.out ++ [(i, e)] = _ from h3) with ⟨g1, _, _⟩ | ⟨p, g1, g2⟩
      · rw [g1, hbl] at h4; cases h4
      · have := hi pre j x p g2 h4
        rw [g1]
        by_cases hj : j = i
        · subst hj
          rw [stream_snoc_same]
          have hq : ((sent s j e l).queues j).items = l := by simp [sent]
          rw [hq]
          rw [h] at this
          simpa using this
        · rw [stream_snoc_ne _ _ (Ne.symm hj)]
          have hq : ((sent s i e l).queues j).items = (s.queues j).items := by
            simp only [sent, upd_ne _ _ hj]; exact stamped_items s j
          rw [hq]; exact this
    | timeout i h hmin ht => exact same rfl (timedOut_items s i)
    | stop i h hmin ht => exact same rfl (stamped_items s)
    | empty h => exact same rfl (stamped_items s)
  | fail i e l h hmin hb =>
    intro pre j x post h3 h4
    rcases snoc_split (show s.out ++ [(i, e)] = _ from h3) with ⟨g1, g2, g3⟩ | ⟨p, g1, g2⟩
    · cases g2
      subst g3
      rw [failed_items, h]
      simp [stream_nil]
    · have := hi pre j x p g2 h4
      rw [g1, failed_items]
      by_cases hj : j = i
      · subst hj
        rw [stream_snoc_same, h]
        rw [h] at this
        cases hp : stream p j with
        | nil => rw [hp] at this; simpa using this
        | cons a b => rw [hp] at this; simpa using this
      · rw [stream_snoc_ne _ _ (Ne.symm hj)]; exact this

theorem insert_head {e x : Ev} {l : List Ev} (h : x.stamp ≤ e.stamp) : (insertEv e (x :: l)).head? = some x := by
  unfold insertEv
  rw [if_neg (by omega)]
  rfl

theorem runT_retry {boom : Nat → Bool} {fuel : Nat} {timeout : Int} {ops : List (Op n)} {s : State n}
    (h : alignerRun boom fuel timeout ops = .ok s) : Retry boom s := by
  refine runE_induction (P := fun _ (s : State n) => Retry boom s) ?_ ?_ ops s h
  · intro pre i e post h; simp [construct] at h
  · intro ops s op s' hrun ih hs
    have hinv : Inv s := runT_inv hrun
    cases op with
    | add i e =>
      simp only [alignerStep, Except.ok.injEq] at hs
      subst hs
      intro pre j x post h3 h4
      rw [add_out] at h3
      have hprev := ih pre j x post h3 h4
      rcases add_eq s i e with ⟨h1, h2⟩ | ⟨h1, h2⟩
      · rw [h2, refused_items]; exact hprev
      · rw [h2]
        by_cases hj : j = i
        · subst hj
          rw [queued_items_same]
          cases hp : stream post j with
          | cons a b => rw [hp] at hprev; simpa using hprev
          | nil =>
            rw [hp] at hprev
            cases hq : (s.queues j).items with
            | nil => rw [hq] at hprev; simp at hprev
            | cons y l =>
              rw [hq] at hprev
              simp at hprev
              subst hprev
              have := hinv.outLe (j, y) (by rw [h3]; simp)
              simp only at this
              simpa using insert_head (e := e) (x := y) (l := l) (by omega)
        · rw [queued_ne s i e hj]; exact hprev
    | setPeriod i d =>
      simp only [alignerStep, Except.ok.injEq] at hs
      subst hs
      intro pre j x post h3 h4
      rw [period_items]
      exact ih pre j x post h3 h4
    | dispatch => exact dispatchT_ok (P := Retry boom) (fun _ _ _ a b => iterT_retry a b) ih hs

/-! ### Termination -/

theorem iterT_frame {boom : Nat → Bool} {s s' : State n} {r : Option Bool} (h : IterT boom s s' r) :
    s'.lastIn = s.lastIn ∧ s'.timeout = s.timeout := by
  cases h with
  | normal s' b h hb => obtain ⟨h1, h2, _⟩ := iter_frame h; exact ⟨h1, h2⟩
  | fail i e l h hmin hb => exact ⟨rfl, rfl⟩

theorem loopT_terminates (boom : Nat → Bool) (fuel : Nat) : ∀ s : State n, s.lastIn - maxTime < s.timeout → measure' s < fuel →
    ∃ s' b, alignerLoop boom fuel s = .ok (s', b) := by
  induction fuel with
  | zero => intro s _ h; omega
  | succ fuel ih =>
    intro s hk hm
    obtain ⟨s1, r, h1, h2⟩ := dispatchFirstT_spec boom s
    unfold alignerLoop
    rw [h1]
    obtain ⟨g1, g2⟩ := iterT_frame h2
    cases h2 with
    | normal s' b h hb =>
      cases b with
      | false => exact ⟨s1, false, rfl⟩
      | true =>
        have := iter_measure h hk
        exact ih s1 (by rw [g1, g2]; exact hk) (by omega)
    | fail i e l h hmin hb => exact ⟨_, true, rfl⟩

theorem runT_frame {boom : Nat → Bool} {fuel : Nat} {timeout : Int} {ops : List (Op n)} {s : State n}
    (h : alignerRun boom fuel timeout ops = .ok s) : s.timeout = timeout ∧ s.lastIn ≤ newest ops := by
  refine runE_induction (P := fun ops (s : State n) => s.timeout = timeout ∧ s.lastIn ≤ newest ops) ?_ ?_ ops s h
  · exact ⟨rfl, Int.le_refl _⟩
  · intro ops s op s' hrun ih hs
    cases op with
    | add i e =>
      simp only [alignerStep, Except.ok.injEq] at hs
      subst hs
      rw [newest_snoc_add]
      unfold add
      split
      · refine ⟨ih.1, ?_⟩
        have := ih.2
        show s.lastIn ≤ _
        omega
      · simp only
        split
        · refine ⟨ih.1, ?_⟩
          show e.stamp ≤ _
          omega
        · refine ⟨ih.1, ?_⟩
          have := ih.2
          show s.lastIn ≤ _
          omega
    | setPeriod i d =>
      simp only [alignerStep, Except.ok.injEq] at hs
      subst hs
      refine ⟨ih.1, ?_⟩
      have : newest (ops ++ [Op.setPeriod i d]) = newest ops := by
        unfold newest; rw [adds_snoc_period]
      rw [this]; exact ih.2
    | dispatch =>
      have : newest (ops ++ [Op.dispatch]) = newest ops := by
        unfold newest; rw [adds_snoc_dispatch]
      rw [this]
      exact dispatchT_ok (P := fun s => s.timeout = timeout ∧ s.lastIn ≤ newest ops)
        (fun _ _ _ a b => by obtain ⟨h1, h2⟩ := iterT_frame a; rw [h1, h2]; exact b) ih hs

theorem runT_lengths {boom : Nat → Bool} {fuel : Nat} {timeout : Int} {ops : List (Op n)} {s : State n}
    (h : alignerRun boom fuel timeout ops = .ok s) (i : Fin n) :
    (stream (adds ops) i).length = (s.queues i).processed + (s.queues i).dropped + (s.queues i).items.length := by
  obtain ⟨h1, acc, h2, h3, h4⟩ := runT_acc h i
  have := (perm_of_at h4).length_eq
  rw [List.length_append] at this
  omega

theorem runT_terminates {boom : Nat → Bool} {timeout : Int} {ops : List (Op n)} (h0 : -maxTime < timeout)
    (hst : ∀ m ∈ adds ops, m.2.stamp - maxTime < timeout) {fuel : Nat} (hf : 2 * (adds ops).length + n < fuel) :
    ∃ s, alignerRun boom fuel timeout ops = .ok s := by
  induction ops using snoc_induction with
  | h0 => exact ⟨_, rfl⟩
  | hs ops op ih =>
    have hlen : (adds ops).length ≤ (adds (ops ++ [op])).length := by rw [adds_append]; simp
    obtain ⟨s, hs⟩ := ih (fun m hm => hst m (by rw [adds_append]; exact List.mem_append_left _ hm)) (by omega)
    have hstep : ∃ s', alignerStep boom fuel s op = .ok s' := by
      cases op with
      | add i e => exact ⟨_, rfl⟩
      | setPeriod i d => exact ⟨_, rfl⟩
      | dispatch =>
        obtain ⟨k1, k2⟩ := runT_frame hs
        have htot : Epsilon.total (fun i => (s.queues i).items) ≤ (adds ops).length := by
          rw [← Epsilon.total_stream]
          apply Epsilon.total_le
          intro i
          have := runT_lengths hs i
          omega
        have hk : s.lastIn - maxTime < s.timeout := by
          rw [k1]
          obtain ⟨g1, _, g3⟩ := newest_spec ops
          rcases g3 with g3 | ⟨m, hm, g3⟩
          · omega
          · have := hst m (by rw [adds_append]; exact List.mem_append_left _ hm)
            omega
        have : ∃ s' b, alignerDispatch boom fuel s = .ok (s', b) := by
          unfold alignerDispatch
          split
          · exact loopT_terminates boom fuel s hk (by have := measure_le s; omega)
          · exact ⟨s, false, rfl⟩
        obtain ⟨s', b, h⟩ := this
        exact ⟨s', by simp [alignerStep, h, Except.map]⟩
    obtain ⟨s', h'⟩ := hstep
    refine ⟨s', ?_⟩
    unfold alignerRun at hs ⊢
    rw [runE_append, hs]
    simp only [runE, h']

end MF.Throw
