import Verif.Proofs.ThrowEpsilon
import Verif.Proofs.ExactTime
/-
Helper lemmas about ExactTime with throwing callbacks.
-/
namespace MF.Throw

open ExactTime

variable {n : Nat}

/-- What the drop loops can do to a state: drop a prefix of the pending sets, or call the drop callbacks for a prefix of them and
fail. -/
inductive Drops (boom : Nat → Bool) : State n → State n → Prop where
  | refl (s : State n) : Drops boom s s
  | ok (s : State n) (pre kept : List (Int × Tuple n)) (h : s.tuples = pre ++ kept)
      (hb : ∀ k, s.log.length ≤ k → k < s.log.length + pre.length → boom k = false) {s' : State n}
      (h2 : Drops boom { s with tuples := kept, log := s.log ++ pre.map (fun p => .drop p.2) } s') : Drops boom s s'
  | fail (s : State n) (pre kept : List (Int × Tuple n)) (p : Int × Tuple n) (h : s.tuples = pre ++ p :: kept)
      (hb : boom (s.log ++ pre.map (fun p => Action.drop p.2)).length = true) :
      Drops boom s { s with log := s.log ++ pre.map (fun p => .drop p.2) ++ [.drop p.2] }

theorem dropLoop_spec (boom : Nat → Bool) : ∀ (l : List (Int × Tuple n)) (log : List (Action n)),
    (exactDropLoop boom l log = (log ++ l.map (fun p => .drop p.2), false) ∧
      ∀ k, log.length ≤ k → k < log.length + l.length → boom k = false) ∨
    (∃ pre p post, l = pre ++ p :: post ∧ exactDropLoop boom l log = (log ++ pre.map (fun p => .drop p.2) ++ [.drop p.2], true) ∧
      boom (log ++ pre.map (fun p => Action.drop p.2)).length = true) := by
  intro l
  induction l with
  | nil => intro log; left; exact ⟨by simp [exactDropLoop], by intro k h1 h2; simp at h2; omega⟩
  | cons p l ih =>
    intro log
    unfold exactDropLoop
    cases hb : boom log.length with
    | true => right; exact ⟨[], p, l, rfl, by simp, by simpa using hb⟩
    | false =>
      simp only [Bool.false_eq_true, if_false]
      rcases ih (log ++ [.drop p.2]) with ⟨h1, h2⟩ | ⟨pre, q, post, h1, h2, h3⟩
      · left
        refine ⟨by rw [h1]; simp, ?_⟩
        intro k k1 k2
        by_cases hk : k = log.length
        · rw [hk]; exact hb
        · exact h2 k (by simp; omega) (by simp at k2 ⊢; omega)
      · right
        refine ⟨p :: pre, q, post, by rw [h1]; rfl, by rw [h2]; simp, ?_⟩
        rw [← h3]; congr 1; simp

theorem dropRangeT_spec (boom : Nat → Bool) (s : State n) (pre kept : List (Int × Tuple n)) (h : s.tuples = pre ++ kept) :
    ((exactDropRange boom s pre kept).2 = false ∧
      (exactDropRange boom s pre kept).1 = { s with tuples := kept, log := s.log ++ pre.map (fun p => .drop p.2) } ∧
      ∀ k, s.log.length ≤ k → k < s.log.length + pre.length → boom k = false) ∨
    ((exactDropRange boom s pre kept).2 = true ∧ ∃ a p b, pre = a ++ p :: b ∧
      (exactDropRange boom s pre kept).1 = { s with log := s.log ++ a.map (fun p => .drop p.2) ++ [.drop p.2] } ∧
      boom (s.log ++ a.map (fun p => Action.drop p.2)).length = true) := by
  unfold exactDropRange
  rcases dropLoop_spec boom pre s.log with ⟨h1, h2⟩ | ⟨a, p, b, h1, h2, h3⟩
  · left; rw [h1]; exact ⟨rfl, rfl, h2⟩
  · right; rw [h2]; exact ⟨rfl, a, p, b, h1, rfl, h3⟩

/-- The state after the message was stored. -/
def stored (s : State n) (i : Fin n) (e : Ev) : State n :=
  { s with tuples := store e.stamp (upd (tupleAt e.stamp s.tuples) i (some e)) s.tuples,
           log := s.log ++ (tupleAt e.stamp s.tuples i).toList.map (Action.replaced i) }

theorem stored_def (s : State n) (i : Fin n) (e : Ev) : stored s i e =
  { s with tuples := store e.stamp (upd (tupleAt e.stamp s.tuples) i (some e)) s.tuples,
           log := s.log ++ (tupleAt e.stamp s.tuples i).toList.map (Action.replaced i) } := rfl

/-- The set a message is stored in. -/
def setOf (s : State n) (i : Fin n) (e : Ev) : Tuple n := upd (tupleAt e.stamp s.tuples) i (some e)

/-- The state after a set was given to the output callbacks and these returned. -/
def signalled (s : State n) (t : Tuple n) (T : Int) : State n :=
  { s with log := s.log ++ [.out t], last := T, tuples := s.tuples.filter (fun p => decide (p.1 ≠ T)) }

theorem signalled_def (s : State n) (t : Tuple n) (T : Int) : signalled s t T =
  { s with log := s.log ++ [.out t], last := T, tuples := s.tuples.filter (fun p => decide (p.1 ≠ T)) } := rfl

/-- The state after the first part of a map was dropped. -/
def droppedPart (s : State n) (pre kept : List (Int × Tuple n)) : State n :=
  { s with tuples := kept, log := s.log ++ pre.map (fun p => .drop p.2) }

theorem droppedPart_def (s : State n) (pre kept : List (Int × Tuple n)) : droppedPart s pre kept =
  { s with tuples := kept, log := s.log ++ pre.map (fun p => .drop p.2) } := rfl

/-- Some drop callback threw. -/
def DropThrew (boom : Nat → Bool) (s : State n) : Prop := ∃ k t, s.log[k]? = some (Action.drop t) ∧ boom k = true

/-- One `add`. -/
inductive ExactAdd (boom : Nat → Bool) (s s' : State n) (i : Fin n) (e : Ev) (thr : Bool) : Prop where
  | incomplete (hc : ¬ Complete (setOf s i e)) (hd : Drops boom (stored s i e) s')
  | threw (hc : Complete (setOf s i e)) (hb : boom (stored s i e).log.length = true) (ht : thr = true)
      (h : s' = { stored s i e with log := (stored s i e).log ++ [.out (setOf s i e)] })
  | output (hc : Complete (setOf s i e)) (hb : boom (stored s i e).log.length = false)
      (hd : Drops boom (signalled (stored s i e) (setOf s i e) e.stamp) s')

theorem drops_trans {boom : Nat → Bool} {s s1 : State n} (pre kept : List (Int × Tuple n)) (h : s.tuples = pre ++ kept)
    (hb : ∀ k, s.log.length ≤ k → k < s.log.length + pre.length → boom k = false)
    (h2 : Drops boom { s with tuples := kept, log := s.log ++ pre.map (fun p => .drop p.2) } s1) : Drops boom s s1 :=
  .ok s pre kept h hb h2

theorem drop_at_end (boom : Nat → Bool) (s : State n) (a : List (Int × Tuple n)) (p : Int × Tuple n)
    (h : boom (s.log ++ a.map (fun p => Action.drop p.2)).length = true) :
    DropThrew boom { s with log := s.log ++ a.map (fun p => .drop p.2) ++ [.drop p.2] } :=
  ⟨_, p.2, by simp only; rw [List.getElem?_append_right (Nat.le_refl _)]; simp, h⟩

theorem dropExceedingT_spec (boom : Nat → Bool) (s : State n) :
    Drops boom s (exactDropExceeding boom s).1 ∧
    ((exactDropExceeding boom s).2 = false → 0 < s.queueSize → (exactDropExceeding boom s).1.tuples.length ≤ s.queueSize) ∧
    ((exactDropExceeding boom s).2 = true → DropThrew boom (exactDropExceeding boom s).1) := by
  unfold exactDropExceeding
  by_cases h : s.queueSize > 0 ∧ s.tuples.length > s.queueSize
  · rw [if_pos h]
    have hsplit : s.tuples = s.tuples.take (s.tuples.length - s.queueSize) ++ s.tuples.drop (s.tuples.length - s.queueSize) :=
      (List.take_append_drop _ _).symm
    rcases dropRangeT_spec boom s _ _ hsplit with ⟨h1, h2, h3⟩ | ⟨h1, a, p, b, h2, h3, h4⟩
    · refine ⟨?_, ?_, ?_⟩
      · rw [h2]; exact .ok s _ _ hsplit h3 (.refl _)
      · intro _ _; rw [h2]; simp; omega
      · intro hc; rw [h1] at hc; cases hc
    · refine ⟨?_, ?_, ?_⟩
      · rw [h3]
        refine .fail s a (b ++ s.tuples.drop (s.tuples.length - s.queueSize)) p ?_ h4
        conv => lhs; rw [hsplit, h2]
        simp
      · intro hc; rw [h1] at hc; cases hc
      · intro _; rw [h3]; exact drop_at_end boom s a p h4
  · rw [if_neg h]
    refine ⟨.refl s, ?_, ?_⟩
    · intro _ hq
      simp only
      omega
    · intro hc; cases hc

theorem dropThrew_mono {boom : Nat → Bool} {s s' : State n} (h : Drops boom s s') (hd : DropThrew boom s) : DropThrew boom s' := by
  induction h with
  | refl s => exact hd
  | ok s pre kept h hb h2 ih =>
    apply ih
    obtain ⟨k, t, h1, h2⟩ := hd
    refine ⟨k, t, ?_, h2⟩
    have : k < s.log.length := by
      rw [List.getElem?_eq_some_iff] at h1; exact h1.1
    simp only
    rw [List.getElem?_append_left this]; exact h1
  | fail s pre kept p h hb => exact drop_at_end boom s pre p hb

theorem exactAdd_spec [NeZero n] (boom : Nat → Bool) (s : State n) (hstamps : ∀ p ∈ s.tuples, HasStamp p.2 p.1)
    (hkeys : s.tuples.Pairwise (fun p q => p.1 < q.1)) (i : Fin n) (e : Ev) :
    ∃ s' thr, exactAdd boom s i e = .ok (s', thr) ∧ ExactAdd boom s s' i e thr ∧
      (thr = false → 0 < s.queueSize → s'.tuples.length ≤ s.queueSize) ∧
      (thr = true → DropThrew boom s' ∨ (Complete (setOf s i e) ∧
        s' = { stored s i e with log := (stored s i e).log ++ [.out (setOf s i e)] })) := by
  have hstamp : HasStamp (setOf s i e) e.stamp := by
    obtain ⟨a, o, b, h1, _, _, h4, _⟩ := map_split e.stamp s.tuples hkeys
    intro j x hx
    unfold setOf at hx
    by_cases hj : j = i
    · subst hj; rw [upd_same] at hx; cases hx; rfl
    · rw [upd_ne _ _ hj, h4] at hx
      cases ho : o with
      | none => rw [ho] at hx; simp [emptyTuple] at hx
      | some t0 => rw [ho] at hx; exact hstamps (e.stamp, t0) (by rw [h1, ho]; simp) j x hx
  unfold exactAdd
  simp only
  rw [← stored_def, show upd (tupleAt e.stamp s.tuples) i (some e) = setOf s i e from rfl]
  have hqs : (stored s i e).queueSize = s.queueSize := rfl
  unfold exactCheckTuple
  by_cases hc : Complete (setOf s i e)
  · rw [if_pos ((isFull_iff _).2 hc)]
    obtain ⟨e0, he0⟩ := hc 0
    rw [he0]
    simp only
    have hs0 : e0.stamp = e.stamp := hstamp 0 e0 he0
    cases hb : boom (stored s i e).log.length with
    | true =>
      rw [if_pos rfl]
      exact ⟨_, _, rfl, .threw hc hb rfl rfl, by simp, fun _ => Or.inr ⟨hc, rfl⟩⟩
    | false =>
      rw [if_neg (by decide), hs0]
      rw [← signalled_def]
      have hq2 : (signalled (stored s i e) (setOf s i e) e.stamp).queueSize = s.queueSize := rfl
      generalize hu : signalled (stored s i e) (setOf s i e) e.stamp = u at hq2
      unfold exactClearOld
      have hsplit : u.tuples = u.tuples.takeWhile (fun p => decide (p.1 ≤ u.last)) ++
          u.tuples.dropWhile (fun p => decide (p.1 ≤ u.last)) := List.takeWhile_append_dropWhile.symm
      rcases dropRangeT_spec boom u _ _ hsplit with ⟨h1, h2, h3⟩ | ⟨h1, a, p, b, h2, h3, h4⟩
      · rw [h1, if_neg (by decide), h2]
        rw [← droppedPart_def]
        generalize hv : droppedPart u (u.tuples.takeWhile (fun p => decide (p.1 ≤ u.last))) (u.tuples.dropWhile (fun p => decide (p.1 ≤ u.last))) = v
        have hvq : v.queueSize = s.queueSize := by rw [← hv]; exact hq2
        obtain ⟨g1, g2, g3⟩ := dropExceedingT_spec boom v
        refine ⟨(exactDropExceeding boom v).1, (exactDropExceeding boom v).2, rfl, .output hc hb ?_, ?_, ?_⟩
        · rw [hu]
          refine .ok u _ _ hsplit h3 ?_
          rw [← droppedPart_def, hv]; exact g1
        · intro ht hq; rw [hvq] at g2; exact g2 ht hq
        · intro ht; exact Or.inl (g3 ht)
      · rw [h1, if_pos rfl]
        refine ⟨_, _, rfl, .output hc hb ?_, by simp, fun _ => Or.inl ?_⟩
        · rw [hu, h3]
          refine .fail u a (b ++ u.tuples.dropWhile (fun p => decide (p.1 ≤ u.last))) p ?_ h4
          conv => lhs; rw [hsplit, h2]
          simp
        · rw [h3]; exact drop_at_end boom u a p h4
  · rw [if_neg (fun h => hc ((isFull_iff _).1 h))]
    obtain ⟨g1, g2, g3⟩ := dropExceedingT_spec boom (stored s i e)
    exact ⟨(exactDropExceeding boom (stored s i e)).1, (exactDropExceeding boom (stored s i e)).2, rfl, .incomplete hc g1,
      fun ht hq => g2 ht hq, fun ht => Or.inl (g3 ht)⟩

/-! ### Invariant -/

/-- The pending sets are well formed. -/
structure WF (s : State n) : Prop where
  keys : s.tuples.Pairwise (fun p q => p.1 < q.1)
  stamps : ∀ p ∈ s.tuples, HasStamp p.2 p.1

theorem wf_sub {s s' : State n} (h : s'.tuples.Sublist s.tuples) (hw : WF s) : WF s' :=
  ⟨hw.keys.sublist h, fun p hp => hw.stamps p (h.subset hp)⟩

theorem drops_sub {boom : Nat → Bool} {s s' : State n} (h : Drops boom s s') : s'.tuples.Sublist s.tuples ∧
    s'.queueSize = s.queueSize := by
  induction h with
  | refl s => exact ⟨List.Sublist.refl _, rfl⟩
  | ok s pre kept h hb h2 ih =>
    refine ⟨ih.1.trans ?_, ih.2⟩
    rw [h]; exact List.sublist_append_right _ _
  | fail s pre kept p h hb => exact ⟨List.Sublist.refl _, rfl⟩

/-- How the pending sets change when a message is stored. -/
theorem stored_spec {s : State n} (hw : WF s) (i : Fin n) (e : Ev) : ∃ (a : List (Int × Tuple n)) (o : Option (Tuple n)) (b : List (Int × Tuple n)),
    s.tuples = a ++ (o.toList.map (fun t => (e.stamp, t)) ++ b) ∧ tupleAt e.stamp s.tuples = o.getD (emptyTuple n) ∧
    (stored s i e).tuples = a ++ (e.stamp, setOf s i e) :: b ∧
    (signalled (stored s i e) (setOf s i e) e.stamp).tuples = a ++ b ∧ HasStamp (setOf s i e) e.stamp ∧
    WF (stored s i e) := by
  obtain ⟨a, o, b, h1, h2, h3, h4, h5⟩ := map_split e.stamp s.tuples hw.keys
  have hstamp : HasStamp (setOf s i e) e.stamp := by
    intro j x hx
    unfold setOf at hx
    by_cases hj : j = i
    · subst hj; rw [upd_same] at hx; cases hx; rfl
    · rw [upd_ne _ _ hj, h4] at hx
      cases ho : o with
      | none => rw [ho] at hx; simp [emptyTuple] at hx
      | some t0 => rw [ho] at hx; exact hw.stamps (e.stamp, t0) (by rw [h1, ho]; simp) j x hx
  have hst : (stored s i e).tuples = a ++ (e.stamp, setOf s i e) :: b := h5 _
  refine ⟨a, o, b, h1, h4, hst, ?_, hstamp, ?_, ?_⟩
  · unfold signalled
    simp only
    rw [hst, List.filter_append, List.filter_cons_of_neg (by simp)]
    congr 1
    · rw [List.filter_eq_self]; intro p hp; have := h2 p hp; simp; omega
    · rw [List.filter_eq_self]; intro p hp; have := h3 p hp; simp; omega
  · rw [hst]
    have hk := hw.keys
    rw [h1, List.pairwise_append] at hk
    rw [List.pairwise_append]
    refine ⟨hk.1, List.pairwise_cons.2 ⟨h3, (List.pairwise_append.1 hk.2.1).2.1⟩, ?_⟩
    intro p hp q hq
    rcases List.mem_cons.1 hq with rfl | hq
    · exact h2 p hp
    · exact hk.2.2 p hp q (List.mem_append.2 (Or.inr hq))
  · rw [hst]
    intro p hp
    rcases List.mem_append.1 hp with hp | hp
    · exact hw.stamps p (by rw [h1]; simp [hp])
    · rcases List.mem_cons.1 hp with rfl | hp
      · exact hstamp
      · exact hw.stamps p (by rw [h1]; simp [hp])

theorem signalled_wf {s : State n} {t : Tuple n} {T : Int} (hw : WF s) : WF (signalled s t T) :=
  wf_sub (by exact List.filter_sublist) hw

theorem exactAdd_wf {boom : Nat → Bool} {s s' : State n} {i : Fin n} {e : Ev} {thr : Bool} (hw : WF s)
    (h : ExactAdd boom s s' i e thr) : WF s' ∧ s'.queueSize = s.queueSize := by
  obtain ⟨a, o, b, _, _, _, _, _, hws⟩ := stored_spec hw i e
  cases h with
  | incomplete hc hd => exact ⟨wf_sub (drops_sub hd).1 hws, (drops_sub hd).2⟩
  | threw hc hb ht h => subst h; exact ⟨⟨hws.keys, hws.stamps⟩, rfl⟩
  | output hc hb hd => exact ⟨wf_sub (drops_sub hd).1 (signalled_wf hws), (drops_sub hd).2⟩

theorem exactStep_ok [NeZero n] {boom : Nat → Bool} {s s' : State n} {op : Fin n × Ev} (hw : WF s)
    (h : (exactAdd boom s op.1 op.2).map (·.1) = .ok s') : ∃ thr, ExactAdd boom s s' op.1 op.2 thr ∧
      (thr = false → 0 < s.queueSize → s'.tuples.length ≤ s.queueSize) ∧
      (thr = true → DropThrew boom s' ∨ (Complete (setOf s op.1 op.2) ∧
        s' = { stored s op.1 op.2 with log := (stored s op.1 op.2).log ++ [.out (setOf s op.1 op.2)] })) := by
  obtain ⟨s1, thr, h1, h2, h3, h4⟩ := exactAdd_spec boom s hw.stamps hw.keys op.1 op.2
  rw [h1] at h
  simp only [Except.map, Except.ok.injEq] at h
  subst h
  exact ⟨thr, h2, h3, h4⟩

theorem wf_construct (q : Nat) : WF (construct n q) := ⟨List.Pairwise.nil, by simp [construct]⟩

theorem exactRun_wf [NeZero n] {boom : Nat → Bool} {q : Nat} : ∀ (ops : List (Fin n × Ev)) (s : State n),
    exactRun boom (construct n q) ops = .ok s → WF s ∧ s.queueSize = q := by
  apply runE_induction
  · exact ⟨wf_construct q, rfl⟩
  · intro ops s op s' _ ⟨h1, h2⟩ hs
    obtain ⟨thr, h3, _⟩ := exactStep_ok h1 hs
    obtain ⟨h4, h5⟩ := exactAdd_wf h1 h3
    exact ⟨h4, by rw [h5, h2]⟩

theorem exactRun_ok [NeZero n] (boom : Nat → Bool) (q : Nat) (ops : List (Fin n × Ev)) :
    ∃ s, exactRun boom (construct n q) ops = .ok s := by
  obtain ⟨s, h, _⟩ := runE_ok (I := WF) (step := fun s op => (exactAdd boom s op.1 op.2).map (·.1)) (by
    intro s op hw
    obtain ⟨s1, thr, h1, h2, _, _⟩ := exactAdd_spec boom s hw.stamps hw.keys op.1 op.2
    exact ⟨s1, by rw [h1]; rfl, (exactAdd_wf hw h2).1⟩) ops (construct n q) (wf_construct q)
  exact ⟨s, h⟩

/-! ### What is pending and output -/

/-- Sets pending or output are made of added messages. -/
structure Made (ops : List (Fin n × Ev)) (s : State n) : Prop where
  pend : ∀ p ∈ s.tuples, ∀ j x, p.2 j = some x → (j, x) ∈ ops
  outs : ∀ t ∈ outs s.log, Complete t ∧ (∃ T, HasStamp t T) ∧ ∀ j x, t j = some x → (j, x) ∈ ops

theorem drops_outs {boom : Nat → Bool} {s s' : State n} (h : Drops boom s s') : outs s'.log = outs s.log := by
  induction h with
  | refl s => rfl
  | ok s pre kept h hb h2 ih => rw [ih]; simp only [outs_append, outs_dropmap, List.append_nil]
  | fail s pre kept p h hb => simp only [outs_append, outs_dropmap, List.append_nil]; simp [outs]

theorem made_drops {boom : Nat → Bool} {ops : List (Fin n × Ev)} {s s' : State n} (h : Drops boom s s') (hm : Made ops s) :
    Made ops s' :=
  ⟨fun p hp => hm.pend p ((drops_sub h).1.subset hp), by rw [drops_outs h]; exact hm.outs⟩

theorem exactRun_made [NeZero n] {boom : Nat → Bool} {q : Nat} : ∀ (ops : List (Fin n × Ev)) (s : State n),
    exactRun boom (construct n q) ops = .ok s → Made ops s := by
  apply runE_induction
  · exact ⟨by simp [construct], by simp [construct, outs]⟩
  · intro ops s op s' hr hm hs
    obtain ⟨i, e⟩ := op
    obtain ⟨hw, _⟩ := exactRun_wf _ _ hr
    obtain ⟨thr, h3, _⟩ := exactStep_ok hw hs
    simp only at h3
    obtain ⟨a, o, b, g1, g2, g3, g4, g5, _⟩ := stored_spec hw i e
    have hset : ∀ j x, setOf s i e j = some x → (j, x) ∈ ops ++ [(i, e)] := by
      intro j x hx
      unfold setOf at hx
      by_cases hj : j = i
      · subst hj; rw [upd_same] at hx; cases hx; simp
      · rw [upd_ne _ _ hj, g2] at hx
        cases ho : o with
        | none => rw [ho] at hx; simp [emptyTuple] at hx
        | some t0 =>
          rw [ho] at hx
          exact List.mem_append_left _ (hm.pend (e.stamp, t0) (by rw [g1, ho]; simp) j x hx)
    have hst : Made (ops ++ [(i, e)]) (stored s i e) := by
      constructor
      · rw [g3]
        intro p hp j x hx
        rcases List.mem_append.1 hp with hp | hp
        · exact List.mem_append_left _ (hm.pend p (by rw [g1]; simp [hp]) j x hx)
        · rcases List.mem_cons.1 hp with rfl | hp
          · exact hset j x hx
          · exact List.mem_append_left _ (hm.pend p (by rw [g1]; simp [hp]) j x hx)
      · have : outs (stored s i e).log = outs s.log := by
          unfold stored; simp only [outs_append, outs_repl, List.append_nil]
        rw [this]
        intro t ht
        obtain ⟨k1, k2, k3⟩ := hm.outs t ht
        exact ⟨k1, k2, fun j x hx => List.mem_append_left _ (k3 j x hx)⟩
    have hout : Complete (setOf s i e) → ∀ t ∈ outs ((stored s i e).log ++ [Action.out (setOf s i e)]),
        Complete t ∧ (∃ T, HasStamp t T) ∧ ∀ j x, t j = some x → (j, x) ∈ ops ++ [(i, e)] := by
      intro hc t ht
      rw [outs_append] at ht
      rcases List.mem_append.1 ht with ht | ht
      · exact hst.outs t ht
      · simp [outs] at ht
        subst ht
        exact ⟨hc, ⟨_, g5⟩, hset⟩
    cases h3 with
    | incomplete hc hd => exact made_drops hd hst
    | threw hc hb ht h => subst h; exact ⟨hst.pend, hout hc⟩
    | output hc hb hd =>
      refine made_drops hd ⟨?_, hout hc⟩
      intro p hp
      exact hst.pend p ((List.mem_filter.1 hp).1)

/-- A complete pending set is one whose output threw. -/
theorem exactRun_complete [NeZero n] {boom : Nat → Bool} {q : Nat} : ∀ (ops : List (Fin n × Ev)) (s : State n),
    exactRun boom (construct n q) ops = .ok s →
    ∀ t ∈ pending s, Complete t → ∃ k, s.log[k]? = some (.out t) ∧ boom k = true := by
  apply runE_induction
  · intro t ht; simp [construct, pending] at ht
  · intro ops s op s' hr ih hs
    obtain ⟨i, e⟩ := op
    obtain ⟨hw, _⟩ := exactRun_wf _ _ hr
    obtain ⟨thr, h3, _⟩ := exactStep_ok hw hs
    simp only at h3
    obtain ⟨a, o, b, g1, g2, g3, g4, g5, _⟩ := stored_spec hw i e
    have old : ∀ p, p ∈ a ∨ p ∈ b → Complete p.2 → ∃ k, (stored s i e).log[k]? = some (.out p.2) ∧ boom k = true := by
      intro p hp hc
      obtain ⟨k, h1, h2⟩ := ih p.2 (List.mem_map.2 ⟨p, by rw [g1]; rcases hp with hp | hp <;> simp [hp], rfl⟩) hc
      refine ⟨k, ?_, h2⟩
      have : k < s.log.length := by rw [List.getElem?_eq_some_iff] at h1; exact h1.1
      unfold stored; simp only
      rw [List.getElem?_append_left this]; exact h1
    have mono : ∀ {u v : State n}, Drops boom u v → (∀ p ∈ u.tuples, Complete p.2 → ∃ k, u.log[k]? = some (.out p.2) ∧ boom k = true) →
        ∀ p ∈ v.tuples, Complete p.2 → ∃ k, v.log[k]? = some (.out p.2) ∧ boom k = true := by
      intro u v h
      induction h with
      | refl s => exact id
      | ok s pre kept h hb h2 ih =>
        intro hu
        apply ih
        intro p hp hc
        obtain ⟨k, h1, h2⟩ := hu p (by rw [h]; exact List.mem_append_right _ hp) hc
        refine ⟨k, ?_, h2⟩
        have : k < s.log.length := by rw [List.getElem?_eq_some_iff] at h1; exact h1.1
        simp only
        rw [List.getElem?_append_left this]; exact h1
      | fail s pre kept p h hb =>
        intro hu p hp hc
        obtain ⟨k, h1, h2⟩ := hu p hp hc
        refine ⟨k, ?_, h2⟩
        have : k < s.log.length := by rw [List.getElem?_eq_some_iff] at h1; exact h1.1
        simp only
        rw [List.append_assoc, List.getElem?_append_left this]; exact h1
    have fin : (∀ p ∈ s'.tuples, Complete p.2 → ∃ k, s'.log[k]? = some (.out p.2) ∧ boom k = true) →
        ∀ t ∈ pending s', Complete t → ∃ k, s'.log[k]? = some (.out t) ∧ boom k = true := by
      intro h t ht hc
      obtain ⟨p, hp, rfl⟩ := List.mem_map.1 ht
      exact h p hp hc
    apply fin
    cases h3 with
    | incomplete hc hd =>
      apply mono hd
      intro p hp hcp
      rw [g3] at hp
      rcases List.mem_append.1 hp with hp | hp
      · exact old p (Or.inl hp) hcp
      · rcases List.mem_cons.1 hp with rfl | hp
        · exact absurd hcp hc
        · exact old p (Or.inr hp) hcp
    | threw hc hb ht h =>
      subst h
      intro p hp hcp
      simp only at hp ⊢
      rw [g3] at hp
      have lift : (∃ k, (stored s i e).log[k]? = some (.out p.2) ∧ boom k = true) →
          ∃ k, ((stored s i e).log ++ [Action.out (setOf s i e)])[k]? = some (.out p.2) ∧ boom k = true := by
        rintro ⟨k, h1, h2⟩
        refine ⟨k, ?_, h2⟩
        have : k < (stored s i e).log.length := by rw [List.getElem?_eq_some_iff] at h1; exact h1.1
        rw [List.getElem?_append_left this]; exact h1
      rcases List.mem_append.1 hp with hp | hp
      · exact lift (old p (Or.inl hp) hcp)
      · rcases List.mem_cons.1 hp with rfl | hp
        · exact ⟨(stored s i e).log.length, by simp, hb⟩
        · exact lift (old p (Or.inr hp) hcp)
    | output hc hb hd =>
      apply mono hd
      intro p hp hcp
      rw [g4] at hp
      obtain ⟨k, h1, h2⟩ := old p (List.mem_append.1 hp) hcp
      refine ⟨k, ?_, h2⟩
      have : k < (stored s i e).log.length := by rw [List.getElem?_eq_some_iff] at h1; exact h1.1
      show ((stored s i e).log ++ [Action.out (setOf s i e)])[k]? = _
      rw [List.getElem?_append_left this]; exact h1

/-! ### Conservation -/

theorem occ_append (i : Fin n) (e : Ev) (l m : List (Tuple n)) :
    occurrences i e (l ++ m) = occurrences i e l + occurrences i e m := by
  simp [occurrences, List.countP_append]

theorem occ_sub {i : Fin n} {e : Ev} {l m : List (Tuple n)} (h : l.Sublist m) : occurrences i e l ≤ occurrences i e m :=
  h.countP_le

theorem outs_delivered_dropmap (boom : Nat → Bool) (log : List (Action n)) (pre : List (Int × Tuple n)) :
    outs (delivered boom (log ++ pre.map (fun p => Action.drop p.2))) = outs (delivered boom log) := by
  induction pre using snoc_induction with
  | h0 => simp
  | hs pre p ih =>
    rw [List.map_append, ← List.append_assoc]
    simp only [List.map_cons, List.map_nil]
    rw [delivered_snoc, outs_append, ih]
    split <;> simp [outs]

theorem outs_delivered_repl (boom : Nat → Bool) (log : List (Action n)) (i : Fin n) (o : Option Ev) :
    outs (delivered boom (log ++ o.toList.map (Action.replaced i))) = outs (delivered boom log) := by
  cases o with
  | none => simp
  | some x =>
    simp only [Option.toList, List.map_cons, List.map_nil]
    rw [delivered_snoc, outs_append]
    split <;> simp [outs]

/-- The books: sets output without exception, sets dropped, messages replaced, sets pending. -/
def held (boom : Nat → Bool) (s : State n) (i : Fin n) (e : Ev) : Nat :=
  occurrences i e (outs (delivered boom s.log)) + (replacedOn i s.log).count e + occurrences i e (pending s)

/-- `held` plus the sets given to drop callbacks. -/
def heldOrDropped (boom : Nat → Bool) (s : State n) (i : Fin n) (e : Ev) : Nat :=
  held boom s i e + occurrences i e (drops s.log)

theorem drops_books {boom : Nat → Bool} {s s' : State n} (h : Drops boom s s') (i : Fin n) (e : Ev) :
    held boom s' i e ≤ held boom s i e ∧ heldOrDropped boom s i e ≤ heldOrDropped boom s' i e ∧
    (¬ DropThrew boom s' → heldOrDropped boom s' i e = heldOrDropped boom s i e) := by
  induction h with
  | refl s => exact ⟨Nat.le_refl _, Nat.le_refl _, fun _ => rfl⟩
  | ok s pre kept h hb h2 ih =>
    obtain ⟨i1, i2, i3⟩ := ih
    have e1 : held boom { s with tuples := kept, log := s.log ++ pre.map (fun p => Action.drop p.2) } i e +
        occurrences i e (pre.map (·.2)) = held boom s i e := by
      unfold held pending
      simp only
      rw [outs_delivered_dropmap, replacedOn_append, replacedOn_dropmap, List.append_nil, h, List.map_append, occ_append]
      omega
    have e2 : occurrences i e (drops (s.log ++ pre.map (fun p => Action.drop p.2))) =
        occurrences i e (drops s.log) + occurrences i e (pre.map (·.2)) := by
      rw [drops_append, drops_dropmap, occ_append]
    unfold heldOrDropped at i2 i3 ⊢
    simp only at i2 i3
    rw [e2] at i2 i3
    refine ⟨by omega, by omega, fun hn => ?_⟩
    have := i3 hn
    omega
  | fail s pre kept p h hb =>
    have e1 : held boom { s with log := s.log ++ pre.map (fun p => Action.drop p.2) ++ [Action.drop p.2] } i e =
        held boom s i e := by
      unfold held pending
      simp only
      have : s.log ++ pre.map (fun p => Action.drop p.2) ++ [Action.drop p.2] =
          s.log ++ (pre ++ [p]).map (fun p => Action.drop p.2) := by simp
      rw [this, outs_delivered_dropmap, replacedOn_append, replacedOn_dropmap, List.append_nil]
    refine ⟨by omega, ?_, ?_⟩
    · unfold heldOrDropped
      rw [e1]
      simp only [drops_append, occ_append]
      omega
    · intro hn; exact absurd (drop_at_end boom s pre p hb) hn

theorem stored_books {boom : Nat → Bool} {s : State n} (hw : WF s) (i : Fin n) (e : Ev) (j : Fin n) (x : Ev) :
    held boom (stored s i e) j x = held boom s j x + (if j = i ∧ x = e then 1 else 0) ∧
    drops (stored s i e).log = drops s.log := by
  obtain ⟨a, o, b, g1, g2, g3, _, _, _⟩ := stored_spec hw i e
  have hd : drops (stored s i e).log = drops s.log := by
    unfold stored; simp only [drops_append, drops_repl, List.append_nil]
  refine ⟨?_, hd⟩
  unfold held pending
  have h1 : outs (delivered boom (stored s i e).log) = outs (delivered boom s.log) := by
    unfold stored; simp only; exact outs_delivered_repl boom s.log i _
  have h2 : replacedOn j (stored s i e).log = replacedOn j s.log ++
      if i = j then ((o.getD (emptyTuple n)) i).toList else [] := by
    unfold stored; simp only; rw [replacedOn_append, replacedOn_repl, g2]
  rw [h1, h2, g3, g1]
  simp only [List.map_append, List.map_cons, occ_append, List.count_append]
  have h3 : occurrences j x (setOf s i e :: b.map (·.2)) =
      occurrences j x (b.map (·.2)) + if setOf s i e j = some x then 1 else 0 := by
    unfold occurrences; rw [List.countP_cons]; simp
  rw [h3]
  have hset : setOf s i e j = if j = i then some e else (o.getD (emptyTuple n)) j := by
    unfold setOf; rw [g2]
    by_cases hj : j = i
    · subst hj; simp
    · rw [upd_ne _ _ hj, if_neg hj]
  rw [hset]
  cases o with
  | none =>
    by_cases hj : j = i
    · subst hj
      simp [emptyTuple, occurrences]
      by_cases hx : e = x
      · subst hx; simp; omega
      · have : ¬ x = e := fun h => hx h.symm
        simp [hx, this]
    · have hj' : ¬ i = j := fun h => hj h.symm
      simp [emptyTuple, occurrences, hj, hj']
  | some t0 =>
    by_cases hj : j = i
    · subst hj
      simp [occurrences]
      cases ht : t0 j with
      | none =>
        by_cases hx : e = x
        · subst hx; simp; omega
        · have : ¬ x = e := fun h => hx h.symm
          simp [hx, this]
      | some y =>
        by_cases hy : y = x
        · subst hy
          by_cases hx : e = y
          · subst hx; simp; omega
          · have : ¬ y = e := fun h => hx h.symm
            simp [hx, this]; omega
        · by_cases hx : e = x
          · subst hx; simp [hy]; omega
          · have : ¬ x = e := fun h => hx h.symm
            simp [hx, this, hy]
    · have hj' : ¬ i = j := fun h => hj h.symm
      simp [occurrences, hj, hj']
      omega

theorem signalled_books {boom : Nat → Bool} {s : State n} (hw : WF s) (i : Fin n) (e : Ev)
    (hb : boom (stored s i e).log.length = false) (j : Fin n) (x : Ev) :
    held boom (signalled (stored s i e) (setOf s i e) e.stamp) j x = held boom (stored s i e) j x ∧
    drops (signalled (stored s i e) (setOf s i e) e.stamp).log = drops (stored s i e).log := by
  obtain ⟨a, o, b, g1, g2, g3, g4, _, _⟩ := stored_spec hw i e
  refine ⟨?_, ?_⟩
  · unfold held pending
    rw [g4, g3]
    have h1 : (signalled (stored s i e) (setOf s i e) e.stamp).log = (stored s i e).log ++ [Action.out (setOf s i e)] := rfl
    rw [h1, delivered_snoc, hb, outs_append, replacedOn_append]
    have : replacedOn j [Action.out (setOf s i e)] = [] := rfl
    rw [this]
    simp only [List.map_append, List.map_cons, occ_append, Bool.false_eq_true, if_false, List.append_nil]
    have h2 : occurrences j x (setOf s i e :: b.map (·.2)) =
      occurrences j x (b.map (·.2)) + occurrences j x [setOf s i e] := by
      unfold occurrences; rw [List.countP_cons]; simp
    rw [h2]
    have h3 : outs [Action.out (setOf s i e)] = [setOf s i e] := rfl
    rw [h3]
    omega
  · show drops ((stored s i e).log ++ [Action.out (setOf s i e)]) = _
    rw [drops_append]; simp [drops]

theorem exactRun_books [NeZero n] {boom : Nat → Bool} {q : Nat} : ∀ (ops : List (Fin n × Ev)) (s : State n),
    exactRun boom (construct n q) ops = .ok s → ∀ i e,
    held boom s i e ≤ (stream ops i).count e ∧ (stream ops i).count e ≤ heldOrDropped boom s i e ∧
    (¬ DropThrew boom s → (stream ops i).count e = heldOrDropped boom s i e) := by
  apply runE_induction
  · intro i e
    have : held boom (construct n q) i e = 0 := by simp [held, construct, delivered, outs, occurrences, replacedOn, pending]
    refine ⟨by omega, by simp [stream], fun _ => ?_⟩
    unfold heldOrDropped; rw [this]; simp [stream, construct, drops, occurrences]
  · intro ops s op s' hr ih hs j x
    obtain ⟨i, e⟩ := op
    obtain ⟨hw, _⟩ := exactRun_wf _ _ hr
    obtain ⟨thr, h3, _⟩ := exactStep_ok hw hs
    simp only at h3
    obtain ⟨i1, i2, i3⟩ := ih j x
    have hstream : (stream (ops ++ [(i, e)]) j).count x = (stream ops j).count x + (if j = i ∧ x = e then 1 else 0) := by
      by_cases hj : j = i
      · subst hj
        rw [stream_snoc_same, List.count_append]
        by_cases hx : x = e
        · subst hx; simp
        · have : ¬ e = x := fun h => hx h.symm
          simp [hx, this]
      · rw [stream_snoc_ne _ _ (Ne.symm hj)]; simp [hj]
    obtain ⟨b1, b2⟩ := stored_books (boom := boom) hw i e j x
    -- a drop callback that threw before has still thrown
    have keep : ∀ u : State n, s.log <+: u.log → DropThrew boom s → DropThrew boom u := by
      rintro u ⟨l, hl⟩ ⟨k, t, k1, k2⟩
      refine ⟨k, t, ?_, k2⟩
      have : k < s.log.length := by rw [List.getElem?_eq_some_iff] at k1; exact k1.1
      rw [← hl, List.getElem?_append_left this]; exact k1
    have hpre : s.log <+: (stored s i e).log := ⟨_, rfl⟩
    rw [hstream]
    unfold heldOrDropped at i2 i3 ⊢
    cases h3 with
    | incomplete hc hd =>
      obtain ⟨d1, d2, d3⟩ := drops_books hd j x
      unfold heldOrDropped at d2 d3
      rw [b2] at d2 d3
      refine ⟨by omega, by omega, fun hn => ?_⟩
      have h1 := d3 hn
      have h2 := i3 (fun h => hn (dropThrew_mono hd (keep _ hpre h)))
      omega
    | threw hc hb ht h =>
      subst h
      have e1 : held boom { stored s i e with log := (stored s i e).log ++ [Action.out (setOf s i e)] } j x =
          held boom (stored s i e) j x := by
        unfold held pending
        simp only
        rw [delivered_snoc, hb, outs_append, replacedOn_append]
        have : replacedOn j [Action.out (setOf s i e)] = [] := rfl
        rw [this]; simp [outs]
      have e2 : drops ((stored s i e).log ++ [Action.out (setOf s i e)]) = drops s.log := by
        rw [drops_append, b2]; simp [drops]
      simp only at e1 e2 ⊢
      rw [e1, e2, b1]
      refine ⟨by omega, by omega, fun hn => ?_⟩
      have h2 := i3 (fun h => hn (keep _ (hpre.trans ⟨_, rfl⟩) h))
      omega
    | output hc hb hd =>
      obtain ⟨d1, d2, d3⟩ := drops_books hd j x
      obtain ⟨c1, c2⟩ := signalled_books hw i e hb j x
      unfold heldOrDropped at d2 d3
      rw [c2, b2] at d2 d3
      refine ⟨by omega, by omega, fun hn => ?_⟩
      have h1 := d3 hn
      have h2 := i3 (fun h => hn (dropThrew_mono hd (keep _ (hpre.trans ⟨_, rfl⟩) h)))
      omega

/-! ### Bound -/

theorem exactRun_bound [NeZero n] (hn : 2 ≤ n) {boom : Nat → Bool} {q : Nat} (hq : 0 < q) :
    ∀ (ops : List (Fin n × Ev)) (s : State n), exactRun boom (construct n q) ops = .ok s → ¬ DropThrew boom s →
    s.tuples.length ≤ q := by
  apply runE_induction
  · intro _; simp [construct]
  · intro ops s op s' hr ih hs hnd
    obtain ⟨i, e⟩ := op
    obtain ⟨hw, hsq⟩ := exactRun_wf _ _ hr
    obtain ⟨thr, h3, h4, h5⟩ := exactStep_ok hw hs
    simp only at h3 h4 h5
    cases thr with
    | false => have := h4 rfl (by omega); omega
    | true =>
      rcases h5 rfl with h6 | ⟨h6, h7⟩
      · exact absurd h6 hnd
      · -- the set was already pending: it has another message
        obtain ⟨a, o, b, g1, g2, g3, _, _, _⟩ := stored_spec hw i e
        have ho : o ≠ none := by
          intro ho
          have : ∃ j : Fin n, j ≠ i := by
            by_cases h0 : i.val = 0
            · exact ⟨⟨1, by omega⟩, fun h => by rw [← h] at h0; simp at h0⟩
            · exact ⟨⟨0, by omega⟩, fun h => by rw [← h] at h0; simp at h0⟩
          obtain ⟨j, hj⟩ := this
          obtain ⟨x, hx⟩ := h6 j
          unfold setOf at hx
          rw [upd_ne _ _ hj, g2, ho] at hx
          simp [emptyTuple] at hx
        have hlen : (stored s i e).tuples.length = s.tuples.length := by
          rw [g3, g1]
          cases o with
          | none => exact absurd rfl ho
          | some t0 => simp
        have hs : ¬ DropThrew boom s := by
          rintro ⟨k, t, k1, k2⟩
          apply hnd
          refine ⟨k, t, ?_, k2⟩
          have : k < s.log.length := by rw [List.getElem?_eq_some_iff] at k1; exact k1.1
          rw [h7]
          show ((s.log ++ _) ++ [Action.out _])[k]? = _
          rw [List.append_assoc, List.getElem?_append_left this]; exact k1
        have := ih hs
        rw [h7]
        simp only
        omega

end MF.Throw
