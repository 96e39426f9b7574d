import Verif.Model.Aligner
import Verif.Spec.Aligner
import Verif.Proofs.Multiset
/-
Helper lemmas about the InputAligner model.
-/
namespace MF.Aligner

variable {n : Nat}

/-- The stamp `firstTimeStamp` returns for an input. -/
def ts (s : State n) (i : Fin n) : Int := (s.queues i).firstTimeStamp.2

theorem ts_cons {s : State n} {i : Fin n} {e : Ev} {l : List Ev} (h : (s.queues i).items = e :: l) : ts s i = e.stamp := by
  unfold ts Queue.firstTimeStamp; rw [h]

theorem ts_nil {s : State n} {i : Fin n} (h : (s.queues i).items = []) :
    ts s i = if (s.queues i).active then (s.queues i).next else maxTime := by
  unfold ts Queue.firstTimeStamp; rw [h]; simp only; split <;> rfl

theorem first_items (q : Queue) : q.firstTimeStamp.1.items = q.items := by
  unfold Queue.firstTimeStamp
  split
  · rfl
  · split <;> rfl

theorem first_nil {q : Queue} (h : q.items = []) : q.firstTimeStamp.1 = q := by
  unfold Queue.firstTimeStamp
  rw [h]; simp only; split <;> rfl

theorem first_cons {q : Queue} {e : Ev} {l : List Ev} (h : q.items = e :: l) :
    q.firstTimeStamp.1 = { q with next := e.stamp + q.period, active := true } := by
  unfold Queue.firstTimeStamp; rw [h]

theorem first_counts (q : Queue) : q.firstTimeStamp.1.processed = q.processed ∧ q.firstTimeStamp.1.dropped = q.dropped ∧
    q.firstTimeStamp.1.period = q.period := by
  unfold Queue.firstTimeStamp
  split
  · exact ⟨rfl, rfl, rfl⟩
  · split <;> exact ⟨rfl, rfl, rfl⟩

theorem idx_fold (t : Fin n → Int) (l : List (Fin n)) : ∀ j, ∃ k, l.foldl (fun best i => match best with
      | none => some i
      | some j => if t i < t j then some i else some j) (some j) = some k ∧ t k ≤ t j ∧ ∀ i ∈ l, t k ≤ t i := by
  induction l with
  | nil => intro j; exact ⟨j, rfl, Int.le_refl _, by simp⟩
  | cons a l ih =>
    intro j
    simp only [List.foldl_cons]
    by_cases h : t a < t j
    · rw [if_pos h]
      obtain ⟨k, h1, h2, h3⟩ := ih a
      refine ⟨k, h1, by omega, ?_⟩
      intro i hi
      rcases List.mem_cons.1 hi with hi | hi
      · rw [hi]; exact h2
      · exact h3 i hi
    · rw [if_neg h]
      obtain ⟨k, h1, h2, h3⟩ := ih j
      refine ⟨k, h1, h2, ?_⟩
      intro i hi
      rcases List.mem_cons.1 hi with hi | hi
      · rw [hi]; omega
      · exact h3 i hi

theorem idx_spec (t : Fin n → Int) : (n = 0 ∧ getFirstSampleIdx t = none) ∨
    ∃ k, getFirstSampleIdx t = some k ∧ ∀ i, t k ≤ t i := by
  cases n with
  | zero => left; exact ⟨rfl, rfl⟩
  | succ m =>
    right
    unfold getFirstSampleIdx
    have hmem : ∀ i : Fin (m+1), i ∈ List.finRange (m+1) := List.mem_finRange
    rw [List.finRange_succ] at hmem ⊢
    rw [List.foldl_cons]
    obtain ⟨k, h1, h2, h3⟩ := idx_fold t ((List.finRange m).map Fin.succ) 0
    refine ⟨k, h1, ?_⟩
    intro i
    rcases List.mem_cons.1 (hmem i) with hi | hi
    · rw [hi]; exact h2
    · exact h3 i hi

/-- The state after a message was dispatched. -/
def sent (s : State n) (i : Fin n) (e : Ev) (l : List Ev) : State n :=
  { s with lastOut := e.stamp, out := s.out ++ [(i, e)],
           queues := upd (stamped s).queues i
             { (stamped s).queues i with items := l, processed := (s.queues i).processed + 1 } }

/-- The state after an input timed out. -/
def timedOut (s : State n) (i : Fin n) : State n :=
  { s with queues := upd (stamped s).queues i { s.queues i with active := false } }

/-- One iteration of the dispatch loop. -/
inductive Iter (s : State n) : State n → Bool → Prop where
  | send (i : Fin n) (e : Ev) (l : List Ev) (h : (s.queues i).items = e :: l) (hmin : ∀ j, e.stamp ≤ ts s j) :
      Iter s (sent s i e l) true
  | timeout (i : Fin n) (h : (s.queues i).items = []) (hmin : ∀ j, ts s i ≤ ts s j)
      (ht : s.lastIn - ts s i ≥ s.timeout) : Iter s (timedOut s i) true
  | stop (i : Fin n) (h : (s.queues i).items = []) (hmin : ∀ j, ts s i ≤ ts s j)
      (ht : s.lastIn - ts s i < s.timeout) : Iter s (stamped s) false
  | empty (h : n = 0) : Iter s (stamped s) false

theorem dispatchFirst_spec (s : State n) : ∃ s' b, dispatchFirst s = .ok (s', b) ∧ Iter s s' b := by
  unfold dispatchFirst
  rcases idx_spec (ts s) with ⟨h0, h⟩ | ⟨k, h, hmin⟩
  · have : (fun i => (s.queues i).firstTimeStamp.2) = ts s := rfl
    simp only [this, h]
    exact ⟨_, _, rfl, .empty h0⟩
  · have : (fun i => (s.queues i).firstTimeStamp.2) = ts s := rfl
    simp only [this, h]
    unfold dispatchAt
    have hk : ((stamped s).queues k).items = (s.queues k).items := first_items _
    cases hq : (s.queues k).items with
    | cons e l =>
      rw [hk, hq]
      simp only [Queue.popFirst]
      rw [hk, hq]
      simp only
      refine ⟨_, _, rfl, ?_⟩
      have := Iter.send (s := s) k e l hq (by intro j; have := hmin j; rw [ts_cons hq] at this; exact this)
      have h2 : ((stamped s).queues k).processed = (s.queues k).processed := (first_counts _).1
      unfold sent at this
      rw [← h2] at this
      exact this
    | nil =>
      rw [hk, hq]
      simp only
      have h1 : (stamped s).queues k = s.queues k := first_nil hq
      have h2 : upd (stamped s).queues k (s.queues k) = (stamped s).queues := by
        funext j
        by_cases hj : j = k
        · subst hj; rw [upd_same, h1]
        · rw [upd_ne _ _ hj]
      rw [h1, first_nil hq, h2, h1]
      by_cases ht : s.lastIn - ts s k ≥ s.timeout
      · rw [if_pos (by exact ht)]
        refine ⟨_, _, rfl, ?_⟩
        have := Iter.timeout (s := s) k hq hmin ht
        unfold timedOut at this
        exact this
      · rw [if_neg (by exact ht)]
        exact ⟨_, _, rfl, Iter.stop k hq hmin (by omega)⟩

/-- A run of the dispatch loop. -/
inductive DSteps : State n → State n → Prop where
  | done {s s' : State n} (h : Iter s s' false) : DSteps s s'
  | step {s s1 s' : State n} (h : Iter s s1 true) (h2 : DSteps s1 s') : DSteps s s'

theorem loop_spec (fuel : Nat) : ∀ s : State n,
    (∃ s', dispatchLoop fuel s = .ok s' ∧ DSteps s s') ∨ dispatchLoop fuel s = .error .hang := by
  induction fuel with
  | zero => intro s; right; rfl
  | succ fuel ih =>
    intro s
    obtain ⟨s1, b, h1, h2⟩ := dispatchFirst_spec s
    unfold dispatchLoop
    rw [h1]
    cases b with
    | false => left; exact ⟨s1, rfl, .done h2⟩
    | true =>
      simp only
      rcases ih s1 with ⟨s', g1, g2⟩ | g1
      · left; exact ⟨s', g1, .step h2 g2⟩
      · right; exact g1

theorem available_iff (s : State n) : inputsAvailable s = true ↔ ∃ i, (s.queues i).items ≠ [] := by
  unfold inputsAvailable
  rw [List.any_eq_true]
  constructor
  · rintro ⟨i, _, h⟩; exact ⟨i, by simpa using h⟩
  · rintro ⟨i, h⟩; exact ⟨i, List.mem_finRange i, by simpa using h⟩

theorem dispatch_spec (fuel : Nat) (s : State n) :
    ((∀ i, (s.queues i).items = []) ∧ dispatch fuel s = .ok s) ∨
    ((∃ i, (s.queues i).items ≠ []) ∧ ((∃ s', dispatch fuel s = .ok s' ∧ DSteps s s') ∨ dispatch fuel s = .error .hang)) := by
  unfold dispatch
  by_cases h : inputsAvailable s = true
  · right
    rw [if_pos h]
    exact ⟨(available_iff s).1 h, loop_spec fuel s⟩
  · left
    rw [if_neg h]
    refine ⟨?_, rfl⟩
    intro i
    apply Classical.byContradiction
    intro hc
    exact h ((available_iff s).2 ⟨i, hc⟩)

theorem dsteps_ind {P : State n → Prop} (hstep : ∀ s s' b, Iter s s' b → P s → P s') {s s' : State n} (h : DSteps s s')
    (h0 : P s) : P s' := by
  induction h with
  | done h => exact hstep _ _ _ h h0
  | step h _ ih => exact ih (hstep _ _ _ h h0)

theorem dispatch_ind {P : State n → Prop} (hstep : ∀ s s' b, Iter s s' b → P s → P s') {fuel : Nat} {s s' : State n}
    (h : dispatch fuel s = .ok s') (h0 : P s) : P s' := by
  rcases dispatch_spec fuel s with ⟨_, h1⟩ | ⟨_, ⟨s1, h1, h2⟩ | h1⟩
  · rw [h] at h1; cases h1; exact h0
  · rw [h] at h1; cases h1; exact dsteps_ind hstep h2 h0
  · rw [h] at h1; cases h1

theorem adds_append (xs ys : List (Op n)) : adds (xs ++ ys) = adds xs ++ adds ys := by simp [adds]

theorem mem_adds {ops : List (Op n)} {i : Fin n} {e : Ev} : (i, e) ∈ adds ops ↔ Op.add i e ∈ ops := by
  unfold adds
  rw [List.mem_filterMap]
  constructor
  · rintro ⟨op, h1, h2⟩
    cases op with
    | add j x => simp at h2; rw [← h2.1, ← h2.2]; exact h1
    | _ => simp at h2
  · intro h; exact ⟨_, h, rfl⟩

/-! ### Order -/

/-- Invariant: queues are sorted and not older than the last output; the output is sorted. -/
structure Inv (s : State n) : Prop where
  sorted : ∀ i, TimeSorted (s.queues i).items
  fresh : ∀ i, ∀ x ∈ (s.queues i).items, s.lastOut ≤ x.stamp
  out : TimeSorted (s.out.map (·.2))
  outLe : ∀ m ∈ s.out, m.2.stamp ≤ s.lastOut
  last : (s.out = [] ∧ s.lastOut = 0) ∨ ∃ m, s.out.getLast? = some m ∧ m.2.stamp = s.lastOut

theorem ts_le {s : State n} {i : Fin n} {x : Ev} (hs : TimeSorted (s.queues i).items) (hx : x ∈ (s.queues i).items) :
    ts s i ≤ x.stamp := by
  cases hq : (s.queues i).items with
  | nil => rw [hq] at hx; cases hx
  | cons e l =>
    rw [ts_cons hq]
    rw [hq] at hx hs
    rcases List.mem_cons.1 hx with hx | hx
    · rw [hx]; exact Int.le_refl _
    · exact (List.pairwise_cons.1 hs).1 x hx

theorem stamped_items (s : State n) (i : Fin n) : ((stamped s).queues i).items = (s.queues i).items := first_items _

theorem sent_items (s : State n) (i : Fin n) (e : Ev) (l : List Ev) (h : (s.queues i).items = e :: l) (j : Fin n) :
    ∃ q, (s.queues j).items = q ++ ((sent s i e l).queues j).items ∧ q = if j = i then [e] else [] := by
  unfold sent
  by_cases hj : j = i
  · subst hj; exact ⟨[e], by simp [h], by simp⟩
  · refine ⟨[], ?_, by simp [hj]⟩
    simp only [upd_ne _ _ hj, List.nil_append]
    exact (stamped_items s j).symm

theorem timedOut_items (s : State n) (i : Fin n) (j : Fin n) :
    ((timedOut s i).queues j).items = (s.queues j).items := by
  unfold timedOut
  by_cases hj : j = i
  · subst hj; simp
  · simp only [upd_ne _ _ hj]; exact stamped_items s j

theorem iter_inv {s s' : State n} {b : Bool} (h : Iter s s' b) (hi : Inv s) : Inv s' := by
  cases h with
  | send i e l h hmin =>
    have hmem : ∀ j, ∀ x ∈ ((sent s i e l).queues j).items, x ∈ (s.queues j).items := by
      intro j x hx
      obtain ⟨q, hq, _⟩ := sent_items s i e l h j
      rw [hq]; exact List.mem_append_right _ hx
    have he : e ∈ (s.queues i).items := by rw [h]; simp
    refine ⟨?_, ?_, ?_, ?_, ?_⟩
    · intro j
      obtain ⟨q, hq, _⟩ := sent_items s i e l h j
      have := hi.sorted j
      rw [hq] at this
      exact (List.pairwise_append.1 this).2.1
    · intro j x hx
      have h1 := hmin j
      have h2 := ts_le (hi.sorted j) (hmem j x hx)
      show e.stamp ≤ x.stamp
      omega
    · show TimeSorted ((s.out ++ [(i, e)]).map (·.2))
      rw [List.map_append]
      refine List.pairwise_append.2 ⟨hi.out, List.pairwise_singleton _ _, ?_⟩
      intro x hx y hy
      simp at hy
      subst hy
      obtain ⟨m, hm, rfl⟩ := List.mem_map.1 hx
      have := hi.outLe m hm
      have := hi.fresh i y he
      omega
    · intro m hm
      show m.2.stamp ≤ e.stamp
      rcases List.mem_append.1 (show m ∈ s.out ++ [(i, e)] from hm) with hm | hm
      · have := hi.outLe m hm
        have := hi.fresh i e he
        omega
      · rw [List.mem_singleton] at hm; rw [hm]; exact Int.le_refl _
    · right
      exact ⟨(i, e), by show (s.out ++ [(i, e)]).getLast? = _; simp, rfl⟩
  | timeout i h hmin ht =>
    refine ⟨?_, ?_, hi.out, hi.outLe, hi.last⟩
    · intro j; rw [timedOut_items]; exact hi.sorted j
    · intro j x hx; rw [timedOut_items] at hx; exact hi.fresh j x hx
  | stop i h hmin ht =>
    refine ⟨?_, ?_, hi.out, hi.outLe, hi.last⟩
    · intro j; rw [stamped_items]; exact hi.sorted j
    · intro j x hx; rw [stamped_items] at hx; exact hi.fresh j x hx
  | empty h =>
    refine ⟨?_, ?_, hi.out, hi.outLe, hi.last⟩
    · intro j; rw [stamped_items]; exact hi.sorted j
    · intro j x hx; rw [stamped_items] at hx; exact hi.fresh j x hx

theorem construct_inv (timeout : Int) : Inv (construct n timeout) :=
  ⟨fun _ => List.Pairwise.nil, by intro i x hx; simp [construct, Queue.init] at hx, List.Pairwise.nil,
    by intro m hm; simp [construct] at hm, Or.inl ⟨rfl, rfl⟩⟩

/-- What `add` does when the message is not too old. -/
def queued (s : State n) (i : Fin n) (e : Ev) : State n :=
  { s with lastIn := if e.stamp > s.lastIn then e.stamp else s.lastIn,
           queues := upd s.queues i { s.queues i with items := insertEv e (s.queues i).items } }

/-- What `add` does when the message is too old. -/
def refused (s : State n) (i : Fin n) : State n :=
  { s with queues := upd s.queues i { s.queues i with dropped := (s.queues i).dropped + 1 } }

theorem add_eq (s : State n) (i : Fin n) (e : Ev) :
    (e.stamp < s.lastOut ∧ add s i e = refused s i) ∨ (s.lastOut ≤ e.stamp ∧ add s i e = queued s i e) := by
  unfold add
  by_cases h : e.stamp < s.lastOut
  · left; rw [if_pos h]; exact ⟨h, rfl⟩
  · right
    rw [if_neg h]
    refine ⟨by omega, ?_⟩
    unfold queued
    by_cases h2 : e.stamp > s.lastIn
    · simp only [if_pos h2]
    · simp only [if_neg h2]

theorem queued_items_same (s : State n) (i : Fin n) (e : Ev) :
    ((queued s i e).queues i).items = insertEv e (s.queues i).items := by simp [queued]

theorem queued_ne (s : State n) (i : Fin n) (e : Ev) {j : Fin n} (h : j ≠ i) :
    (queued s i e).queues j = s.queues j := by simp [queued, upd_ne _ _ h]

theorem refused_items (s : State n) (i j : Fin n) : ((refused s i).queues j).items = (s.queues j).items := by
  unfold refused
  by_cases hj : j = i
  · subst hj; simp
  · simp [upd_ne _ _ hj]

theorem period_items (s : State n) (i j : Fin n) (d : Int) :
    ((setInputPeriod s i d).queues j).items = (s.queues j).items := by
  unfold setInputPeriod
  by_cases hj : j = i
  · subst hj; simp
  · simp [upd_ne _ _ hj]

theorem step_inv {fuel : Nat} {s s' : State n} {op : Op n} (h : step fuel s op = .ok s') (hi : Inv s) : Inv s' := by
  cases op with
  | add i e =>
    simp only [step, Except.ok.injEq] at h
    rcases add_eq s i e with ⟨h1, h2⟩ | ⟨h1, h2⟩
    · rw [h2] at h; subst h
      refine ⟨?_, ?_, hi.out, hi.outLe, hi.last⟩
      · intro j; rw [refused_items]; exact hi.sorted j
      · intro j x hx; rw [refused_items] at hx; exact hi.fresh j x hx
    · rw [h2] at h; subst h
      refine ⟨?_, ?_, hi.out, hi.outLe, hi.last⟩
      · intro j
        by_cases hj : j = i
        · subst hj; rw [queued_items_same]; exact insertEv_sorted e _ (hi.sorted j)
        · rw [queued_ne s i e hj]; exact hi.sorted j
      · intro j x hx
        by_cases hj : j = i
        · subst hj
          rw [queued_items_same, insertEv_mem] at hx
          rcases hx with hx | hx
          · rw [hx]; exact h1
          · exact hi.fresh j x hx
        · rw [queued_ne s i e hj] at hx; exact hi.fresh j x hx
  | setPeriod i d =>
    simp only [step, Except.ok.injEq] at h
    subst h
    refine ⟨?_, ?_, hi.out, hi.outLe, hi.last⟩
    · intro j; rw [period_items]; exact hi.sorted j
    · intro j x hx; rw [period_items] at hx; exact hi.fresh j x hx
  | dispatch => exact dispatch_ind (fun _ _ _ a b => iter_inv a b) h hi

theorem run_inv {fuel : Nat} {timeout : Int} {ops : List (Op n)} {s : State n} (h : run fuel timeout ops = .ok s) : Inv s :=
  runE_induction (P := fun _ s => Inv s) (construct_inv timeout) (fun _ _ _ _ _ a b => step_inv b a) ops s h

end MF.Aligner
