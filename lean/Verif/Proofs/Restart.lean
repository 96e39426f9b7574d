import Verif.Proofs.RestartExact
import Verif.Proofs.EpsilonFits
import Verif.Proofs.Aligner2
import Verif.Proofs.Sequencer
import Verif.Proofs.Cache
import Verif.Proofs.PyApprox3
import Verif.Spec.Restart
/-
Helper lemmas for the behaviour of the filters when the stamps jump back.
-/

namespace MF.Epsilon

variable {n : Nat}

/-- The same state with more sets in front of its log. -/
def after (o : List (Fin n → Option Ev)) (s : State n) : State n := { s with out := o ++ s.out }

theorem eraseFront_after (o : List (Fin n → Option Ev)) (s : State n) (i : Fin n) :
    eraseFront (after o s) i = after o (eraseFront s i) := by
  unfold eraseFront after
  dsimp only
  cases s.events i <;> rfl

theorem eraseIfOnSync_after (o : List (Fin n → Option Ev)) (ts : Int) (s : State n) (i : Fin n) :
    eraseIfOnSync ts (after o s) i = after o (eraseIfOnSync ts s i) := by
  rw [eraseIfOnSync_eq, eraseIfOnSync_eq, eraseFront_after]
  show (if onSync s.events s.epsilon ts i = true then _ else _) = _
  by_cases h : onSync s.events s.epsilon ts i = true
  · rw [if_pos h, if_pos h]
  · rw [if_neg h, if_neg h]

theorem foldl_after (o : List (Fin n → Option Ev)) (f : State n → Fin n → State n) (hf : ∀ s i, f (after o s) i = after o (f s i)) :
    ∀ (l : List (Fin n)) (s : State n), l.foldl f (after o s) = after o (l.foldl f s) := by
  intro l
  induction l with
  | nil => intro s; rfl
  | cons i l ih => intro s; rw [List.foldl_cons, List.foldl_cons, hf, ih]

theorem process_after (o : List (Fin n → Option Ev)) : ∀ (fuel : Nat) (s : State n),
    process fuel (after o s) = (process fuel s).map (after o) := by
  intro fuel
  induction fuel with
  | zero =>
    intro s
    unfold process
    show (if s.num = n then _ else _) = _
    by_cases h : s.num = n
    · rw [if_pos h, if_pos h]; rfl
    · rw [if_neg h, if_neg h]; rfl
  | succ fuel ih =>
    intro s
    unfold process
    show (if s.num = n then _ else _) = _
    by_cases h : s.num = n
    · rw [if_pos h, if_pos h]
      dsimp only
      show (if checkAll s.events s.epsilon (getOlder s.events) = true then _ else _) = _
      by_cases hc : checkAll s.events s.epsilon (getOlder s.events) = true
      · rw [if_pos hc, if_pos hc]
        have hsig : signal (after o s) = (signal s).map (after o) := by
          unfold signal
          show (if (List.finRange n).all (fun i => !(s.events i).isEmpty) = true then _ else _) = _
          by_cases ha : (List.finRange n).all (fun i => !(s.events i).isEmpty) = true
          · rw [if_pos ha, if_pos ha]
            simp [after, Except.map]
          · rw [if_neg ha, if_neg ha]; rfl
        rw [hsig]
        cases hs : signal s with
        | error f => rfl
        | ok s' =>
          show process fuel (eraseFronts (after o s')) = _
          rw [show eraseFronts (after o s') = after o (eraseFronts s') from foldl_after o eraseFront (eraseFront_after o) _ _]
          exact ih _
      · rw [if_neg hc, if_neg hc]
        show process fuel (eraseOld (getOlder s.events).1 (after o s)) = _
        rw [show eraseOld (getOlder s.events).1 (after o s) = after o (eraseOld (getOlder s.events).1 s) from
          foldl_after o _ (eraseIfOnSync_after o _) _ _]
        exact ih _
    · rw [if_neg h, if_neg h]; rfl

theorem add_after (o : List (Fin n → Option Ev)) (fuel : Nat) (s : State n) (i : Fin n) (e : Ev) :
    add fuel (after o s) i e = (add fuel s i e).map (after o) := by
  rw [add_appended, add_appended]
  have h : appended (after o s) i e = after o (appended s i e) := rfl
  rw [h]
  show (if (appended s i e).num = n then _ else if ((appended s i e).events i).length > s.queueSize then _ else _) = _
  by_cases h1 : (appended s i e).num = n
  · rw [if_pos h1, if_pos h1]; exact process_after o fuel _
  · rw [if_neg h1, if_neg h1]
    by_cases h2 : ((appended s i e).events i).length > s.queueSize
    · rw [if_pos h2, if_pos h2, eraseFront_after]; rfl
    · rw [if_neg h2, if_neg h2]; rfl

/-- A history that delivers `v i` on every input `i`, one input after the other. -/
def oneByOne (v : Fin n → List Ev) : List (Fin n × Ev) := (List.finRange n).flatMap (fun i => (v i).map (fun e => (i, e)))

theorem stream_map_same (i : Fin n) (l : List Ev) : stream (l.map (fun e => (i, e))) i = l := by
  induction l with
  | nil => rfl
  | cons a l ih =>
    simp only [stream, List.map_cons, List.filter_cons, decide_true, if_true] at ih ⊢
    rw [ih]

theorem stream_map_ne {i j : Fin n} (h : i ≠ j) (l : List Ev) : stream (l.map (fun e => (i, e))) j = [] := by
  induction l with
  | nil => rfl
  | cons a l ih =>
    simp only [stream, List.map_cons, List.filter_cons, decide_eq_true_eq, if_neg h] at ih ⊢
    exact ih

theorem stream_flatMap (v : Fin n → List Ev) (j : Fin n) : ∀ l : List (Fin n), l.Nodup →
    stream (l.flatMap (fun i => (v i).map (fun e => (i, e)))) j = if j ∈ l then v j else [] := by
  intro l
  induction l with
  | nil => intro _; rfl
  | cons a l ih =>
    intro hl
    obtain ⟨h1, h2⟩ := List.nodup_cons.1 hl
    rw [List.flatMap_cons, stream_append, ih h2]
    by_cases hj : a = j
    · subst hj
      rw [stream_map_same, if_neg h1, if_pos (by simp), List.append_nil]
    · rw [stream_map_ne hj, List.nil_append]
      by_cases hm : j ∈ l
      · rw [if_pos hm, if_pos (by simp [hm])]
      · rw [if_neg hm, if_neg (by simp [hm, Ne.symm hj])]

theorem stream_oneByOne (v : Fin n → List Ev) (j : Fin n) : stream (oneByOne v) j = v j := by
  unfold oneByOne
  rw [stream_flatMap v j _ (List.nodup_finRange n), if_pos (List.mem_finRange j)]

/-- The state of a policy that holds `v` and has output nothing. -/
def holding (q : Nat) (eps : Int) (v : Fin n → List Ev) : State n :=
  { queueSize := q, epsilon := eps, num := nonEmpty v, events := v, out := [] }

/-- A history with an input that delivers nothing, too short for an overflow, is only stored. -/
theorem run_stored [NeZero n] (fuel q : Nat) (eps : Int) (k : Fin n) : ∀ (ops : List (Fin n × Ev)), stream ops k = [] →
    (∀ i, (stream ops i).length ≤ q) → run fuel (construct n q eps) ops = .ok (holding q eps (stream ops)) := by
  intro ops
  induction ops using snoc_induction with
  | h0 =>
    intro _ _
    have hv : stream ([] : List (Fin n × Ev)) = fun _ => [] := by funext i; rfl
    show Except.ok _ = _
    rw [hv]
    unfold holding construct
    have : nonEmpty (fun _ : Fin n => ([] : List Ev)) = 0 := by
      unfold nonEmpty
      rw [List.countP_eq_zero]
      intro i _; simp
    rw [this]
    rfl
  | hs ops op ih =>
    intro hk hq
    obtain ⟨i, e⟩ := op
    have hst : stream (ops ++ [(i, e)]) = upd (stream ops) i (stream ops i ++ [e]) := by
      funext j
      by_cases hj : j = i
      · subst hj; rw [stream_snoc_same, upd_same]
      · rw [stream_snoc_ne _ _ (Ne.symm hj), upd_ne _ _ hj]
    have hle : ∀ j, (stream ops j).length ≤ q := by
      intro j
      have := hq j
      rw [stream_append, List.length_append] at this
      omega
    have hk' : stream ops k = [] := by
      rw [stream_append] at hk
      exact (List.append_eq_nil_iff.1 hk).1
    unfold run
    rw [runE_append]
    have ih := ih hk' hle
    unfold run at ih
    rw [ih]
    show runE _ (holding q eps (stream ops)) [(i, e)] = _
    have hnum : (appended (holding q eps (stream ops)) i e).num = nonEmpty (upd (stream ops) i (stream ops i ++ [e])) := by
      rw [nonEmpty_upd]
      show (if (stream ops i).length = 0 then (nonEmpty (stream ops) : Int) + 1 else nonEmpty (stream ops)) = _
      cases stream ops i <;> simp
    have hadd : add fuel (holding q eps (stream ops)) i e = .ok (holding q eps (stream (ops ++ [(i, e)]))) := by
      rw [add_appended, if_neg, if_neg]
      · rw [hst]
        have h1 : appended (holding q eps (stream ops)) i e =
            { queueSize := q, epsilon := eps, num := (appended (holding q eps (stream ops)) i e).num,
              events := upd (stream ops) i (stream ops i ++ [e]), out := [] } := rfl
        rw [h1, hnum]
        rfl
      · have := hq i
        rw [stream_snoc_same, List.length_append, List.length_singleton] at this
        rw [appended_length]
        show ¬ (stream ops i).length + 1 > q
        omega
      · rw [hnum, ← hst]
        intro h
        exact (nonEmpty_eq_iff _).1 (by exact_mod_cast h) k hk
    simp only [runE, hadd]

theorem runE_after (o : List (Fin n → Option Ev)) (fuel : Nat) : ∀ (ops : List (Fin n × Ev)) (s : State n),
    run fuel (after o s) ops = (run fuel s ops).map (after o) := by
  intro ops
  induction ops with
  | nil => intro s; rfl
  | cons op ops ih =>
    intro s
    unfold run at ih ⊢
    simp only [runE]
    rw [add_after]
    cases h : add fuel s op.1 op.2 with
    | error f => rfl
    | ok s' => exact ih s'

/-- What the policy does after a history depends only on the messages it holds then. -/
theorem run_after_held [NeZero n] {fuel q : Nat} {eps : Int} {old : List (Fin n × Ev)} {s0 : State n}
    (h0 : run fuel (construct n q eps) old = .ok s0) (held : List (Fin n × Ev)) (hh : ∀ i, stream held i = s0.events i)
    (new : List (Fin n × Ev)) :
    run fuel (construct n q eps) (old ++ new) = (run fuel (construct n q eps) (held ++ new)).map (after s0.out) := by
  obtain ⟨hi, h1, h2⟩ := run_inv h0
  obtain ⟨k, hk⟩ := hi.someEmpty
  have hst : stream held = s0.events := funext hh
  have h3 := run_stored fuel q eps k held (by rw [hh k]; exact hk) (by
    intro i
    have := hi.bound i
    rw [h2] at this
    rw [hh i]; exact this)
  have hs0 : s0 = after s0.out (holding q eps (stream held)) := by
    rw [hst]
    have hn := hi.num
    obtain ⟨a, b, c, d, e⟩ := s0
    dsimp only at h1 h2 hn
    subst h1 h2 hn
    simp [after, holding]
  have h5 := runE_after s0.out fuel new (holding q eps (stream held))
  unfold run at h0 h3 h5 ⊢
  rw [runE_append, runE_append, h0, h3]
  rw [← hs0] at h5
  exact h5

theorem held_suffix [NeZero n] {fuel q : Nat} {eps : Int} {old mid : List (Fin n × Ev)} {s : State n} {i : Fin n}
    (h : run fuel (construct n q eps) (old ++ mid) = .ok s) (hm : q ≤ (stream mid i).length) : s.events i <:+ stream mid i := by
  obtain ⟨hi, _, hq⟩ := run_inv h
  obtain ⟨c, hc, _⟩ := run_history _ s h i
  have hb := hi.bound i
  rw [hq] at hb
  rw [stream_append] at hc
  exact List.suffix_of_suffix_length_le ⟨c, hc.symm⟩ ⟨stream old i, rfl⟩ (by omega)

end MF.Epsilon

namespace MF.Aligner

variable {n : Nat}

/-- The same state with other counts of dropped messages. -/
def setDropped (d : Fin n → Nat) (s : State n) : State n := { s with queues := fun i => { s.queues i with dropped := d i } }

/-- Equal up to the counts of dropped messages. -/
def Same (a b : State n) : Prop := ∃ d, b = setDropped d a

theorem Same.refl (s : State n) : Same s s := ⟨fun i => (s.queues i).dropped, rfl⟩

theorem first_setDropped (d : Fin n → Nat) (s : State n) (i : Fin n) :
    ((setDropped d s).queues i).firstTimeStamp =
      ({ (s.queues i).firstTimeStamp.1 with dropped := d i }, (s.queues i).firstTimeStamp.2) := by
  unfold setDropped
  dsimp only
  generalize s.queues i = q
  obtain ⟨items, next, period, active, processed, dropped⟩ := q
  cases items with
  | nil => cases active <;> rfl
  | cons e l => rfl

theorem stamped_setDropped (d : Fin n → Nat) (s : State n) : stamped (setDropped d s) = setDropped d (stamped s) := by
  unfold stamped
  have : (fun i => ((setDropped d s).queues i).firstTimeStamp.1) = fun i => { (s.queues i).firstTimeStamp.1 with dropped := d i } := by
    funext i; rw [first_setDropped]
  rw [this]
  rfl

theorem upd_setDropped (d : Fin n → Nat) (f : Fin n → Queue) (i : Fin n) (q : Queue) :
    (fun j => { upd f i q j with dropped := d j }) = upd (fun j => { f j with dropped := d j }) i { q with dropped := d i } := by
  funext j
  by_cases hj : j = i
  · subst hj; rw [upd_same, upd_same]
  · rw [upd_ne _ _ hj, upd_ne _ _ hj]

/-- Input `i` after `firstTimeStamp`. -/
def looked (s : State n) (i : Fin n) : State n := { s with queues := upd s.queues i (s.queues i).firstTimeStamp.1 }

/-- Input `i` switched off. -/
def switchedOff (s : State n) (i : Fin n) : State n := { s with queues := upd s.queues i { s.queues i with active := false } }

theorem dispatchAt_empty {s : State n} {i : Fin n} (h : (s.queues i).items = []) :
    dispatchAt s i = if s.lastIn - (s.queues i).firstTimeStamp.2 ≥ s.timeout then .ok (switchedOff (looked s i) i, true)
      else .ok (looked s i, false) := by
  unfold dispatchAt
  rw [h]
  rfl

theorem looked_setDropped (d : Fin n → Nat) (s : State n) (i : Fin n) : looked (setDropped d s) i = setDropped d (looked s i) := by
  unfold looked
  rw [first_setDropped]
  unfold setDropped
  dsimp only
  rw [upd_setDropped]

theorem switchedOff_setDropped (d : Fin n → Nat) (s : State n) (i : Fin n) :
    switchedOff (setDropped d s) i = setDropped d (switchedOff s i) := by
  unfold switchedOff setDropped
  dsimp only
  rw [upd_setDropped]

theorem dispatchAt_setDropped (d : Fin n → Nat) (s : State n) (i : Fin n) :
    dispatchAt (setDropped d s) i = (dispatchAt s i).map (fun r => (setDropped d r.1, r.2)) := by
  cases h : (s.queues i).items with
  | cons e l =>
    unfold dispatchAt
    simp only [Queue.popFirst, setDropped, h, Except.map]
    rw [upd_setDropped]
  | nil =>
    rw [dispatchAt_empty h, dispatchAt_empty (show ((setDropped d s).queues i).items = [] from h), first_setDropped]
    show (if s.lastIn - (s.queues i).firstTimeStamp.2 ≥ s.timeout then _ else _) = _
    rw [looked_setDropped, switchedOff_setDropped]
    by_cases hc : s.lastIn - (s.queues i).firstTimeStamp.2 ≥ s.timeout
    · rw [if_pos hc, if_pos hc]; rfl
    · rw [if_neg hc, if_neg hc]; rfl

theorem dispatchFirst_setDropped (d : Fin n → Nat) (s : State n) :
    dispatchFirst (setDropped d s) = (dispatchFirst s).map (fun r => (setDropped d r.1, r.2)) := by
  unfold dispatchFirst
  have : (fun i => ((setDropped d s).queues i).firstTimeStamp.2) = fun i => (s.queues i).firstTimeStamp.2 := by
    funext i; rw [first_setDropped]
  dsimp only
  rw [this, stamped_setDropped]
  cases getFirstSampleIdx (fun i => (s.queues i).firstTimeStamp.2) with
  | none => rfl
  | some i => exact dispatchAt_setDropped d (stamped s) i

theorem dispatchLoop_setDropped (d : Fin n → Nat) : ∀ (fuel : Nat) (s : State n),
    dispatchLoop fuel (setDropped d s) = (dispatchLoop fuel s).map (setDropped d) := by
  intro fuel
  induction fuel with
  | zero => intro s; rfl
  | succ fuel ih =>
    intro s
    unfold dispatchLoop
    rw [dispatchFirst_setDropped]
    cases dispatchFirst s with
    | error f => rfl
    | ok r =>
      obtain ⟨s', b⟩ := r
      cases b with
      | true => exact ih s'
      | false => rfl

theorem dispatch_setDropped (d : Fin n → Nat) (fuel : Nat) (s : State n) :
    dispatch fuel (setDropped d s) = (dispatch fuel s).map (setDropped d) := by
  unfold dispatch
  show (if inputsAvailable s = true then _ else _) = _
  by_cases h : inputsAvailable s = true
  · rw [if_pos h, if_pos h]; exact dispatchLoop_setDropped d fuel s
  · rw [if_neg h, if_neg h]; rfl

theorem step_same {fuel : Nat} {a b b' : State n} (h : Same a b) (op : Op n) (hs : step fuel b op = .ok b') :
    ∃ a', step fuel a op = .ok a' ∧ Same a' b' := by
  obtain ⟨d, rfl⟩ := h
  cases op with
  | add i e =>
    refine ⟨_, rfl, ?_⟩
    have hs : add (setDropped d a) i e = b' := by simpa [step] using hs
    subst hs
    unfold add
    show Same _ (if e.stamp < a.lastOut then _ else _)
    by_cases hl : e.stamp < a.lastOut
    · rw [if_pos hl, if_pos hl]
      refine ⟨upd d i (d i + 1), ?_⟩
      unfold setDropped
      dsimp only
      congr 1
      funext j
      by_cases hj : j = i
      · subst hj; rw [upd_same, upd_same, upd_same]
      · rw [upd_ne _ _ hj, upd_ne _ _ hj, upd_ne _ _ hj]
    · rw [if_neg hl, if_neg hl]
      dsimp only
      refine ⟨d, ?_⟩
      show _ = _
      by_cases hg : e.stamp > a.lastIn
      · rw [if_pos hg, if_pos (show e.stamp > (setDropped d a).lastIn from hg)]
        unfold setDropped
        dsimp only
        rw [upd_setDropped]
      · rw [if_neg hg, if_neg (show ¬ e.stamp > (setDropped d a).lastIn from hg)]
        unfold setDropped
        dsimp only
        rw [upd_setDropped]
  | setPeriod i p =>
    refine ⟨_, rfl, d, ?_⟩
    have hs : setInputPeriod (setDropped d a) i p = b' := by simpa [step] using hs
    rw [← hs]
    unfold setInputPeriod setDropped
    dsimp only
    rw [upd_setDropped]
  | dispatch =>
    have hs : dispatch fuel (setDropped d a) = .ok b' := hs
    rw [dispatch_setDropped] at hs
    show ∃ a', dispatch fuel a = .ok a' ∧ _
    cases hd : dispatch fuel a with
    | error f => rw [hd] at hs; cases hs
    | ok a' =>
      rw [hd] at hs
      cases hs
      exact ⟨a', rfl, d, rfl⟩

theorem step_keeps {fuel : Nat} {s s' : State n} {op : Op n} (hs : step fuel s op = .ok s') {x : Fin n × Ev} (hx : x ∈ s.out) :
    x ∈ s'.out := by
  cases op with
  | add i e =>
    simp only [step, Except.ok.injEq] at hs
    rcases add_eq s i e with ⟨_, h2⟩ | ⟨_, h2⟩ <;> rw [h2] at hs <;> subst hs <;> exact hx
  | setPeriod i d => simp only [step, Except.ok.injEq] at hs; subst hs; exact hx
  | dispatch =>
    refine dispatch_ind (P := fun s => x ∈ s.out) ?_ hs hx
    intro a b _ hab hx
    cases hab with
    | send i e l h hmin => exact List.mem_append_left _ hx
    | timeout i h hmin ht => exact hx
    | stop i h hmin ht => exact hx
    | empty h => exact hx

theorem run_notOlder {fuel : Nat} {timeout : Int} {old : List (Op n)} {s0 : State n} (h0 : run fuel timeout old = .ok s0)
    {x : Fin n × Ev} (hx : x ∈ s0.out) : ∀ (new : List (Op n)) (s : State n), run fuel timeout (old ++ new) = .ok s →
    x ∈ s.out ∧ ∃ s', run fuel timeout (old ++ notOlder x.2.stamp new) = .ok s' ∧ Same s' s := by
  intro new
  induction new using snoc_induction with
  | h0 =>
    intro s h
    rw [List.append_nil, h0] at h
    cases h
    exact ⟨hx, s0, by rw [show notOlder x.2.stamp ([] : List (Op n)) = [] from rfl, List.append_nil]; exact h0, Same.refl s0⟩
  | hs new op ih =>
    intro s h
    rw [← List.append_assoc] at h
    obtain ⟨s1, h1, h2⟩ := runE_snoc_ok h
    obtain ⟨k1, s1', k2, k3⟩ := ih s1 h1
    have hfil : notOlder x.2.stamp (new ++ [op]) = notOlder x.2.stamp new ++ notOlder x.2.stamp [op] := List.filter_append ..
    refine ⟨step_keeps h2 k1, ?_⟩
    rw [hfil, ← List.append_assoc]
    have hother : notOlder x.2.stamp [op] = [op] → ∃ s', run fuel timeout (old ++ notOlder x.2.stamp new ++ notOlder x.2.stamp [op]) = .ok s' ∧
        Same s' s := by
      intro he
      obtain ⟨a', g1, g2⟩ := step_same k3 op h2
      refine ⟨a', run_join k2 ?_, g2⟩
      rw [he]
      simp only [runE, g1]
    cases op with
    | add i e =>
      by_cases hl : x.2.stamp ≤ e.stamp
      · exact hother (by simp [notOlder, hl])
      · have he : notOlder x.2.stamp [Op.add i e] = [] := by simp [notOlder, hl]
        rw [he, List.append_nil]
        refine ⟨s1', k2, ?_⟩
        have hle := (run_inv h1).outLe x k1
        simp only [step, Except.ok.injEq] at h2
        rcases add_eq s1 i e with ⟨_, g⟩ | ⟨g, _⟩
        · rw [g] at h2
          subst h2
          obtain ⟨d, hd⟩ := k3
          refine ⟨upd d i (d i + 1), ?_⟩
          rw [hd]
          unfold refused setDropped
          dsimp only
          congr 1
          funext j
          by_cases hj : j = i
          · subst hj; rw [upd_same, upd_same]
          · rw [upd_ne _ _ hj, upd_ne _ _ hj]
        · omega
    | setPeriod i d => exact hother rfl
    | dispatch => exact hother rfl

end MF.Aligner

namespace MF.Sequencer

theorem run_notOlder (delay : Int) (queueSize : Nat) (old : List Op) {x : Ev} (hx : x ∈ (run delay queueSize old).out) :
    ∀ new : List Op, run delay queueSize (old ++ new) = run delay queueSize (old ++ notOlder x.stamp new) ∧
      x ∈ (run delay queueSize (old ++ new)).out := by
  intro new
  induction new using snoc_induction with
  | h0 => exact ⟨rfl, by rw [List.append_nil]; exact hx⟩
  | hs new op ih =>
    obtain ⟨h1, h2⟩ := ih
    have hfil : notOlder x.stamp (new ++ [op]) = notOlder x.stamp new ++ notOlder x.stamp [op] := List.filter_append ..
    rw [hfil, ← List.append_assoc, ← List.append_assoc, run_snoc]
    have hother : notOlder x.stamp [op] = [op] →
        step (run delay queueSize (old ++ new)) op = run delay queueSize (old ++ notOlder x.stamp new ++ notOlder x.stamp [op]) := by
      intro he
      rw [he, run_snoc, h1]
    have hi := run_inv delay queueSize (old ++ new)
    have hle := hi.outLe x h2
    refine ⟨?_, ?_⟩
    · cases op with
      | add m =>
        by_cases hl : x.stamp ≤ m.ev.stamp
        · exact hother (by simp [notOlder, hl])
        · have he : notOlder x.stamp [Op.add m] = [] := by simp [notOlder, hl]
          rw [he, List.append_nil, ← h1]
          rcases step_cases (run delay queueSize (old ++ new)) (.add m) with ⟨g, _⟩ | ⟨m', g1, _, g2, _⟩ | ⟨now, g1, _⟩
          · exact g
          · cases g1; omega
          · cases g1
      | tick now => exact hother rfl
    · rcases step_cases (run delay queueSize (old ++ new)) op with ⟨g, _⟩ | ⟨m', _, _, _, g⟩ | ⟨now, _, g⟩
      · rw [g]; exact h2
      · rw [g]; exact h2
      · rw [g]; exact List.mem_append_left _ h2

end MF.Sequencer

namespace MF.Cache

theorem insertBack_append (e : Ev) : ∀ (st : List Ev), (∀ x ∈ st, e.stamp < x.stamp) → ∀ (rev passed : List Ev),
    insertBack e (st ++ rev) passed = insertBack e rev (st.reverse ++ passed) := by
  intro st
  induction st with
  | nil => intro _ rev passed; rfl
  | cons x st ih =>
    intro h rev passed
    rw [List.cons_append, insertBack, if_pos (h x (by simp)), ih (fun y hy => h y (by simp [hy]))]
    simp

theorem insertBack_passed (e : Ev) : ∀ (rev passed p : List Ev), insertBack e rev (passed ++ p) = insertBack e rev passed ++ p := by
  intro rev
  induction rev with
  | nil => intro passed p; rfl
  | cons x rev ih =>
    intro passed p
    unfold insertBack
    by_cases h : x.stamp > e.stamp
    · rw [if_pos h, if_pos h]; exact ih (x :: passed) p
    · rw [if_neg h, if_neg h]; simp

theorem add_ok' {s : State} {m : Nat} (hm : 0 < m) (hs : s.size = some m) (e : Ev) :
    add s e = .ok { s with items := insertBack e (s.items.drop (s.items.length + 1 - m)).reverse [], out := s.out ++ [e] } := by
  simp [add, insertLocked, forward, hs, popLoop_eq m hm]

/-- Cache `s` holds what the smaller cache `f` holds, and then `st`. -/
structure Behind (st : List Ev) (m : Nat) (f s : State) : Prop where
  items : s.items = f.items ++ st
  fsize : f.size = some m
  ssize : s.size = some (m + st.length)

theorem add_behind {st : List Ev} {m : Nat} (hm : 0 < m) {f s : State} (h : Behind st m f s) {e : Ev}
    (he : ∀ x ∈ st, e.stamp < x.stamp) : ∃ f' s', add f e = .ok f' ∧ add s e = .ok s' ∧ Behind st m f' s' := by
  refine ⟨_, _, add_ok' hm h.fsize e, add_ok' (by omega) h.ssize e, ?_, h.fsize, h.ssize⟩
  dsimp only
  rw [h.items]
  have h1 : (f.items ++ st).length + 1 - (m + st.length) = f.items.length + 1 - m := by
    rw [List.length_append]; omega
  rw [h1, List.drop_append_of_le_length (by omega), List.reverse_append, insertBack_append e _ (by simpa using he), List.append_nil,
    List.reverse_reverse, ← List.nil_append st, insertBack_passed]
  simp

theorem run_behind {st : List Ev} {m : Nat} (hm : 0 < m) : ∀ (new : List Ev) (f s : State), Behind st m f s →
    (∀ e ∈ new, ∀ x ∈ st, e.stamp < x.stamp) →
    ∃ f' s', run f (new.map .add) = .ok f' ∧ run s (new.map .add) = .ok s' ∧ Behind st m f' s' := by
  intro new
  induction new with
  | nil => intro f s h _; exact ⟨f, s, rfl, rfl, h⟩
  | cons e new ih =>
    intro f s h he
    obtain ⟨f1, s1, h1, h2, h3⟩ := add_behind hm h (he e (by simp))
    obtain ⟨f2, s2, h4, h5, h6⟩ := ih f1 s1 h3 (fun x hx => he x (by simp [hx]))
    exact ⟨f2, s2, by simp [run, step, h1, h4], by simp [run, step, h2, h5], h6⟩

/-- The first of the messages that are older than everything kept. -/
theorem add_first {s : State} {n : Nat} (hn : 0 < n) (hs : s.size = some n) {e : Ev} {st : List Ev}
    (hst : st = s.items.drop (s.items.length + 1 - n)) (he : ∀ x ∈ st, e.stamp < x.stamp) :
    ∃ f' s', add (construct (n - st.length)) e = .ok f' ∧ add s e = .ok s' ∧ Behind st (n - st.length) f' s' := by
  have hlen : st.length + 1 ≤ n := by
    rw [hst, List.length_drop]; omega
  have hm : 0 < n - st.length := by omega
  have hc : (construct (n - st.length)).size = some (n - st.length) := by
    simp [construct, setCacheSize, show n - st.length ≠ 0 by omega]
  have hi : (construct (n - st.length)).items = [] := by
    simp [construct, setCacheSize, show n - st.length ≠ 0 by omega]
  refine ⟨_, _, add_ok' hm hc e, add_ok' hn hs e, ?_, hc, by
    show s.size = _
    rw [hs]; congr 1; omega⟩
  dsimp only
  rw [hi, ← hst]
  have := insertBack_append e st.reverse (by simpa using he) [] []
  simp only [List.append_nil, List.reverse_reverse] at this
  rw [this, List.drop_nil]
  rfl

theorem configuredSize_adds (n : Nat) : ∀ l : List Ev, configuredSize n (l.map .add) = n := by
  intro l
  induction l with
  | nil => rfl
  | cons e l ih => exact ih

theorem run_one (new : List Ev) : ∀ (f : State) (x : Ev), f.size = some 1 → f.items = [x] →
    ∃ s, run f (new.map .add) = .ok s ∧ s.items = [(x :: new).getLast (by simp)] := by
  induction new with
  | nil => intro f x _ h; exact ⟨f, rfl, h⟩
  | cons e new ih =>
    intro f x hf h
    have h1 := add_ok' (by omega : 0 < 1) hf e
    rw [h] at h1
    obtain ⟨s, h2, h3⟩ := ih { f with items := [e], out := f.out ++ [e] } e hf rfl
    refine ⟨s, ?_, ?_⟩
    · have h1 : add f e = .ok { f with items := [e], out := f.out ++ [e] } := h1
      simp only [List.map_cons, run, step, h1]
      exact h2
    · rw [h3, List.getLast_cons (a := x) (by simp)]

end MF.Cache

namespace MF.Py

variable {n : Nat}

/-- A full queue whose messages are all newer than the new one stays as it is. -/
theorem evict_new {size : Int} {d d' : Dict Ev} {e : Ev} (hd : DOk d) (hfull : (d.length : Int) = size)
    (hnew : ∀ k ∈ d.keys, e.stamp < k) (h : Evicted size (d.set e.stamp e) d') : d' = d := by
  have hk : e.stamp ∉ d.keys := fun hk => by have := hnew _ hk; omega
  have hset : d.set e.stamp e = d ++ [(e.stamp, e)] := by
    unfold Dict.set; rw [if_neg hk]
  have hsub := h.sub
  have hlen := h.len
  rw [hset] at hlen
  rw [if_neg (by rw [List.length_append, List.length_singleton]; omega)] at hlen
  have hgone : e.stamp ∉ d'.keys := by
    intro hin
    -- one of the old keys is gone
    have hex : ∃ k ∈ d.keys, k ∉ d'.keys := by
      apply Classical.byContradiction
      intro hno
      have hall : ∀ k ∈ d.keys, k ∈ d'.keys := fun k hk => Classical.byContradiction (fun hk' => hno ⟨k, hk, hk'⟩)
      have hnd : (e.stamp :: d.keys).Nodup := List.nodup_cons.2 ⟨hk, hd.nodup⟩
      have := hnd.length_le_of_subset (l₂ := d'.keys) (by
        intro y hy
        rcases List.mem_cons.1 hy with hy | hy
        · rw [hy]; exact hin
        · exact hall y hy)
      simp only [List.length_cons, Dict.keys, List.length_map] at this
      omega
    obtain ⟨k, hk1, hk2⟩ := hex
    have h1 := h.older k (by rw [mem_keys_set]; exact Or.inr hk1) hk2 e.stamp hin
    have h2 := hnew k hk1
    omega
  rw [hset] at hsub
  obtain ⟨a, b, hab, ha, hb⟩ := List.sublist_append_iff.1 hsub
  have hb' : b = [] := by
    cases b with
    | nil => rfl
    | cons y b =>
      exfalso
      have hy : y ∈ [(e.stamp, e)] := hb.subset (by simp)
      rw [List.mem_singleton] at hy
      apply hgone
      rw [hab, hy]
      simp [Dict.keys]
  rw [hb', List.append_nil] at hab
  rw [hab] at hlen ⊢
  exact ha.eq_of_length (by omega)

theorem tsRun_blocked [NeZero n] {boom : Nat → Bool} {q : Int} {old : List (Fin n × Msg)} {s0 : State n} {i : Fin n}
    (h0 : tsRun boom (construct n q) old = .ok s0) (hinv : Inv s0) (hq : s0.queueSize = q)
    (hfull : ((s0.queues i).length : Int) = q) : ∀ (new : List (Fin n × Msg)),
    (∀ op ∈ new, ∀ k ∈ (s0.queues i).keys, op.2.ev.stamp < k) → ∀ s, tsRun boom (construct n q) (old ++ new) = .ok s →
    s.out = s0.out ∧ s.queues i = s0.queues i ∧ Inv s ∧ s.queueSize = q := by
  intro new
  induction new using snoc_induction with
  | h0 =>
    intro _ s h
    rw [List.append_nil, h0] at h
    cases h
    exact ⟨rfl, rfl, hinv, hq⟩
  | hs new op ih =>
    intro hnew s h
    rw [← List.append_assoc] at h
    obtain ⟨s1, h1, h2⟩ := runE_snoc_ok h
    obtain ⟨k1, k2, k3, k4⟩ := ih (fun o ho => hnew o (by simp [ho])) s1 h1
    obtain ⟨⟨s2, r⟩, h3, h4⟩ := map_ok h2
    cases h4
    obtain ⟨g1, g2, _⟩ := tsAdd_inv boom s1 k3 op.1 op.2 s2 r h3
    have hop := hnew op (by simp)
    have hlt : ∀ k ∈ (s1.queues i).keys, op.2.ev.stamp < k := by rw [k2]; exact hop
    have hd' : ∀ d', Evicted s1.queueSize ((s1.queues op.1).set op.2.ev.stamp op.2.ev) d' → upd s1.queues op.1 d' i = s1.queues i := by
      intro d' hE
      by_cases hj : i = op.1
      · subst hj
        rw [upd_same]
        exact evict_new (k3.ok _) (by rw [k2, k4]; exact hfull) hlt hE
      · rw [upd_ne _ _ hj]
    suffices hx : s2.out = s1.out ∧ s2.queues i = s1.queues i from
      ⟨hx.1.trans k1, hx.2.trans k2, g1, g2.trans k4⟩
    obtain ⟨hl, ⟨_, rfl, rfl⟩ | ⟨_, hq, rfl, rfl⟩ | ⟨_, hq, d', hE, ⟨hc, rfl, rfl⟩ | ⟨msgs, hg, _⟩⟩⟩ :=
      tsAdd_cases boom s1 k3 op.1 op.2 s2 r h3
    · exact ⟨rfl, rfl⟩
    · exfalso
      have : (0 : Int) ≤ (s0.queues i).length := Int.natCast_nonneg _
      omega
    · exact ⟨rfl, hd' d' hE⟩
    · exfalso
      have h5 := hg i
      rw [hd' d' hE] at h5
      have h6 : op.2.ev.stamp ∈ (s1.queues i).keys := by
        rw [← get_isSome, h5]; rfl
      have := hlt _ h6
      omega

theorem approxRun_blocked [NeZero n] {boom : Nat → Bool} {slop q : Int} {allow : Bool} {old : List (Fin n × Msg)} {s0 : State n}
    {i : Fin n} (h0 : approxRun boom slop allow (construct n q) old = .ok s0) (hinv : InvA slop s0) (hq : s0.queueSize = q)
    (hfull : ((s0.queues i).length : Int) = q) : ∀ (new : List (Fin n × Msg)),
    (∀ op ∈ new, ∀ k ∈ (s0.queues i).keys, op.2.ev.stamp < k ∧ op.2.ev.stamp + slop ≤ k) →
    ∀ s, approxRun boom slop allow (construct n q) (old ++ new) = .ok s →
    s.out = s0.out ∧ s.queues i = s0.queues i ∧ InvA slop s ∧ s.queueSize = q := by
  intro new
  induction new using snoc_induction with
  | h0 =>
    intro _ s h
    rw [List.append_nil, h0] at h
    cases h
    exact ⟨rfl, rfl, hinv, hq⟩
  | hs new op ih =>
    intro hnew s h
    rw [← List.append_assoc] at h
    obtain ⟨s1, h1, h2⟩ := runE_snoc_ok h
    obtain ⟨k1, k2, k3, k4⟩ := ih (fun o ho => hnew o (by simp [ho])) s1 h1
    obtain ⟨⟨s2, r⟩, h3, h4⟩ := map_ok h2
    cases h4
    obtain ⟨g1, g2, _⟩ := approxAdd_inv boom slop allow s1 k3 op.1 op.2 s2 r h3
    have hop := hnew op (by simp)
    have hlt : ∀ k ∈ (s1.queues i).keys, op.2.ev.stamp < k ∧ op.2.ev.stamp + slop ≤ k := by rw [k2]; exact hop
    have hd' : ∀ d', Evicted s1.queueSize ((s1.queues op.1).set op.2.ev.stamp op.2.ev) d' → upd s1.queues op.1 d' i = s1.queues i := by
      intro d' hE
      by_cases hj : i = op.1
      · subst hj
        rw [upd_same]
        exact evict_new (k3.ok _) (by rw [k2, k4]; exact hfull) (fun k hk => (hlt k hk).1) hE
      · rw [upd_ne _ _ hj]
    suffices hx : s2.out = s1.out ∧ s2.queues i = s1.queues i from
      ⟨hx.1.trans k1, hx.2.trans k2, g1, g2.trans k4⟩
    obtain ⟨_, _, rfl, rfl⟩ | ⟨_, hl, ⟨hq, rfl, rfl⟩ | ⟨hq, d', hE, ⟨hn, rfl, rfl⟩ | ⟨f, msgs, hf, hm, _⟩⟩⟩ :=
      approxAdd_cases boom slop allow s1 k3.ok op.1 op.2 s2 r h3
    · exact ⟨rfl, rfl⟩
    · exfalso
      have : (0 : Int) ≤ (s0.queues i).length := Int.natCast_nonneg _
      omega
    · exact ⟨rfl, hd' d' hE⟩
    · exfalso
      have h5 := hm.1 i
      rw [hd' d' hE] at h5
      obtain ⟨h6, h7⟩ := hlt _ h5
      have h8 := hm.2 i op.1
      rw [hf] at h8
      omega

end MF.Py
