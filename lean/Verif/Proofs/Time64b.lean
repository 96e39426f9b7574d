import Verif.Proofs.Time64
/-
C56, continued: ApproximateEpsilonTime, InputAligner and TimeSequencer.
-/
namespace MF.Time64

theorem foldlM_eq {α σ : Type} {f : σ → α → Except Fault σ} {g : σ → α → σ} {P : σ → Prop}
    (hf : ∀ s a, P s → f s a = .ok (g s a) ∧ P (g s a)) :
    ∀ (l : List α) (s : σ), P s → l.foldlM f s = .ok (l.foldl g s) ∧ P (l.foldl g s) := by
  intro l
  induction l with
  | nil => intro s h; exact ⟨rfl, h⟩
  | cons a l ih =>
    intro s h
    obtain ⟨h1, h2⟩ := hf s a h
    rw [List.foldlM_cons, h1, List.foldl_cons]
    exact ih _ h2

section
open Epsilon
variable {n : Nat}

structure ERng (s : State n) : Prop where
  epsilon : DurationOk s.epsilon
  events : ∀ i, ∀ e ∈ s.events i, R e.stamp

theorem eraseFront_rng {s : State n} (h : ERng s) (i : Fin n) : ERng (eraseFront s i) := by
  unfold eraseFront
  split
  · exact h
  · rename_i e l he
    exact ⟨h.epsilon, upd_forall h.events i (fun x hx => h.events i x (by rw [he]; simp [hx]))⟩

theorem eraseFronts_rng {s : State n} (h : ERng s) : ERng (eraseFronts s) := by
  have : ∀ (l : List (Fin n)) (s : State n), ERng s → ERng (l.foldl eraseFront s) := by
    intro l
    induction l with
    | nil => intro s h; exact h
    | cons i l ih => intro s h; rw [List.foldl_cons]; exact ih _ (eraseFront_rng h i)
  exact this _ s h

theorem older_rng {v : Fin n → List Ev} (h : ∀ i, ∀ e ∈ v i, R e.stamp) : ∀ (l : List (Fin n)) (cur : Int × Option (Fin n)),
    R cur.1 ∨ (cur.1 = maxTime ∧ cur.2 = none) →
    (R (l.foldl (olderBetween v) cur).1 ∨ ((l.foldl (olderBetween v) cur).1 = maxTime ∧ ∀ i ∈ l, v i = [])) := by
  intro l
  induction l with
  | nil =>
    intro cur hc
    rcases hc with hc | hc
    · exact .inl hc
    · exact .inr ⟨hc.1, fun i hi => absurd hi (by simp)⟩
  | cons i l ih =>
    intro cur hc
    rw [List.foldl_cons]
    unfold olderBetween
    cases hv : v i with
    | nil =>
      simp only
      rcases ih cur hc with h1 | h1
      · exact .inl h1
      · exact .inr ⟨h1.1, fun j hj => by
          rcases List.mem_cons.1 hj with rfl | hj
          · exact hv
          · exact h1.2 j hj⟩
    | cons e t =>
      have he : R e.stamp := h i e (by rw [hv]; simp)
      have keep : ∀ cur' : Int × Option (Fin n), R cur'.1 → R (l.foldl (olderBetween v) cur').1 := by
        intro cur' hc'
        clear ih hc
        induction l generalizing cur' with
        | nil => exact hc'
        | cons j l ih2 =>
          rw [List.foldl_cons]
          apply ih2
          unfold olderBetween
          split
          · exact hc'
          · rename_i x y hx
            split
            · exact h j x (by rw [hx]; simp)
            · exact hc'
      simp only
      split
      · exact .inl (keep _ he)
      · rename_i hlt
        rcases hc with hc | hc
        · exact .inl (keep _ hc)
        · exfalso
          rw [hc.1] at hlt
          unfold R maxStamp at he
          unfold maxTime at hlt
          omega

theorem getOlder_rng {v : Fin n → List Ev} (h : ∀ i, ∀ e ∈ v i, R e.stamp) : R (getOlder v).1 ∨ ∀ i, v i = [] := by
  rcases older_rng h (List.finRange n) (maxTime, none) (.inr ⟨rfl, rfl⟩) with h1 | h1
  · exact .inl h1
  · exact .inr fun i => h1.2 i (List.mem_finRange i)

theorem checkAll_eq {v : Fin n → List Ev} {eps : Int} (he : DurationOk eps) {older : Int × Option (Fin n)}
    (ho : R older.1 ∨ ∀ i, v i = []) (l : List (Fin n)) :
    epsilonCheckAll v eps older l = .ok (l.all (withinEpsilon v eps older)) := by
  induction l with
  | nil => rfl
  | cons i l ih =>
    have h1 : epsilonWithin v eps older i = .ok (withinEpsilon v eps older i) := by
      unfold epsilonWithin withinEpsilon
      split
      · rfl
      · cases hv : v i with
        | nil => rfl
        | cons e t =>
          simp only
          rcases ho with ho | ho
          · rw [checked_add ho he]
          · rw [ho i] at hv; cases hv
    unfold epsilonCheckAll
    rw [h1, List.all_cons]
    cases withinEpsilon v eps older i with
    | false => rfl
    | true => rw [Bool.true_and]; exact ih

theorem eraseOld_eq {s : State n} (h : ERng s) {ts : Int} (ho : R ts ∨ ∀ i, s.events i = []) :
    (List.finRange n).foldlM (epsilonEraseIfOnSync ts) s = .ok (eraseOld ts s) ∧ ERng (eraseOld ts s) := by
  have := foldlM_eq (f := epsilonEraseIfOnSync ts) (g := eraseIfOnSync ts)
    (P := fun t : State n => ERng t ∧ (R ts ∨ ∀ i, t.events i = [])) (by
      rintro t i ⟨h1, h2⟩
      unfold epsilonEraseIfOnSync eraseIfOnSync
      cases hv : t.events i with
      | nil => exact ⟨rfl, h1, h2⟩
      | cons e l =>
        rcases h2 with h2 | h2
        · simp only
          rw [checked_add h2 h1.epsilon]
          simp only
          split
          · exact ⟨rfl, h1, .inl h2⟩
          · exact ⟨rfl, eraseFront_rng h1 i, .inl h2⟩
        · rw [h2 i] at hv; cases hv) (List.finRange n) s ⟨h, ho⟩
  exact ⟨this.1, this.2.1⟩

theorem epsilonProcess_eq : ∀ (fuel : Nat) (s : State n), ERng s →
    epsilonProcess fuel s = process fuel s ∧ ∀ s', process fuel s = .ok s' → ERng s' := by
  intro fuel
  induction fuel with
  | zero =>
    intro s h
    unfold epsilonProcess process
    split
    · exact ⟨by first | rfl | trivial, fun s' hs => by cases hs⟩
    · exact ⟨by first | rfl | trivial, fun s' hs => by cases hs; exact h⟩
  | succ fuel ih =>
    intro s h
    unfold epsilonProcess process
    split
    · have ho := getOlder_rng h.events
      simp only
      rw [checkAll_eq h.epsilon ho]
      unfold checkAll
      cases (List.finRange n).all (withinEpsilon s.events s.epsilon (getOlder s.events)) with
      | true =>
        simp only [if_true]
        cases hs : signal s with
        | error f => exact ⟨by first | rfl | trivial, fun s' hs => by cases hs⟩
        | ok s1 =>
          have h1 : ERng s1 := by
            unfold signal at hs
            split at hs
            · cases hs; exact ⟨h.epsilon, h.events⟩
            · cases hs
          exact ih _ (eraseFronts_rng h1)
      | false =>
        obtain ⟨h1, h2⟩ := eraseOld_eq h ho
        simp only [Bool.false_eq_true, if_false]
        rw [h1]
        exact ih _ h2
    · exact ⟨by first | rfl | trivial, fun s' hs => by cases hs; exact h⟩

theorem epsilonAdd_eq (fuel : Nat) {s : State n} (h : ERng s) (i : Fin n) {e : Ev} (he : R e.stamp) :
    epsilonAdd fuel s i e = add fuel s i e ∧ ∀ s', add fuel s i e = .ok s' → ERng s' := by
  have hd : ∀ x ∈ s.events i ++ [e], R x.stamp := by
    intro x hx
    rcases List.mem_append.1 hx with hx | hx
    · exact h.events i x hx
    · rw [List.mem_singleton] at hx; subst hx; exact he
  have hr : ∀ k, ERng (State.mk s.queueSize s.epsilon k (upd s.events i (s.events i ++ [e])) s.out) :=
    fun k => ⟨h.epsilon, upd_forall h.events i hd⟩
  unfold epsilonAdd add
  simp only
  generalize (if (s.events i).length = 0 then s.num + 1 else s.num) = num
  split
  · exact epsilonProcess_eq fuel _ (hr num)
  · split
    · exact ⟨by first | rfl | trivial, fun s' hs => by cases hs; exact eraseFront_rng (hr num) i⟩
    · exact ⟨by first | rfl | trivial, fun s' hs => by cases hs; exact hr num⟩

theorem epsilonRun_eq (fuel : Nat) : ∀ (ops : List (Fin n × Ev)) (s : State n), ERng s → (∀ op ∈ ops, R op.2.stamp) →
    epsilonRun fuel s ops = run fuel s ops := by
  intro ops
  induction ops with
  | nil => intro s _ _; rfl
  | cons op ops ih =>
    intro s h hops
    obtain ⟨h1, h2⟩ := epsilonAdd_eq fuel h op.1 (hops op (by simp))
    unfold epsilonRun run
    simp only [runE]
    rw [h1]
    cases hx : add fuel s op.1 op.2 with
    | error f => rfl
    | ok t => exact ih t (h2 t hx) (fun o ho => hops o (by simp [ho]))

end

/-! ### InputAligner -/

section
open Aligner
variable {n : Nat}

/-- Range of `next_ts_`. -/
def R3 (x : Int) : Prop := -Approx.maxDuration ≤ x ∧ x ≤ maxStamp + Approx.maxDuration

structure QRng (q : Queue) : Prop where
  items : ∀ e ∈ q.items, R e.stamp
  next : R3 q.next
  period : DurationOk q.period

structure ARng (s : State n) : Prop where
  lastIn : R s.lastIn
  queues : ∀ i, QRng (s.queues i)

theorem firstTimeStamp_eq {q : Queue} (h : QRng q) : firstTimeStamp q = .ok q.firstTimeStamp := by
  unfold firstTimeStamp Queue.firstTimeStamp
  cases hi : q.items with
  | nil => simp only; split <;> rfl
  | cons e l => simp only; rw [checked_add (h.items e (by rw [hi]; simp)) h.period]

theorem firstTimeStamp_rng {q : Queue} (h : QRng q) : QRng q.firstTimeStamp.1 ∧ R3 q.firstTimeStamp.2 := by
  unfold Queue.firstTimeStamp
  cases hi : q.items with
  | nil =>
    simp only
    split
    · exact ⟨h, h.next⟩
    · exact ⟨h, by unfold R3 maxTime maxStamp Approx.maxDuration; omega⟩
  | cons e l =>
    have he := h.items e (by rw [hi]; simp)
    have hp := h.period
    simp only
    refine ⟨⟨fun x hx => h.items x (by rw [hi]; exact hx), ?_, h.period⟩, ?_⟩
    · simp only; unfold R R3 DurationOk at *; omega
    · unfold R R3 Approx.maxDuration at *; omega

/-- What `alignerStampStep` does when nothing overflows. -/
def stampStep (x : State n × (Fin n → Int)) (i : Fin n) : State n × (Fin n → Int) :=
  ({ x.1 with queues := upd x.1.queues i (x.1.queues i).firstTimeStamp.1 }, upd x.2 i (x.1.queues i).firstTimeStamp.2)

theorem stampFold {s : State n} : ∀ (l : List (Fin n)), l.Nodup → ∀ (q : Fin n → Queue) (ts : Fin n → Int),
    l.foldl stampStep ({ s with queues := q }, ts) =
      ({ s with queues := fun j => if j ∈ l then (q j).firstTimeStamp.1 else q j },
       fun j => if j ∈ l then (q j).firstTimeStamp.2 else ts j) := by
  intro l
  induction l with
  | nil => intro _ q ts; simp
  | cons i l ih =>
    intro hn q ts
    obtain ⟨h1, h2⟩ := List.nodup_cons.1 hn
    rw [List.foldl_cons]
    have := ih h2 (upd q i (q i).firstTimeStamp.1) (upd ts i (q i).firstTimeStamp.2)
    unfold stampStep at this ⊢
    simp only at this ⊢
    rw [this]
    congr 1
    · congr 1
      funext j
      by_cases hj : j = i
      · subst hj; rw [if_neg h1, upd_same, if_pos (by simp)]
      · rw [upd_ne _ _ hj]; simp [hj]
    · funext j
      by_cases hj : j = i
      · subst hj; rw [if_neg h1, upd_same, if_pos (by simp)]
      · rw [upd_ne _ _ hj, upd_ne _ _ hj]; simp [hj]

theorem stamped_rng {s : State n} (h : ARng s) : ARng (stamped s) :=
  ⟨h.lastIn, fun i => (firstTimeStamp_rng (h.queues i)).1⟩

theorem stampAll {s : State n} (h : ARng s) :
    (List.finRange n).foldlM alignerStampStep (s, fun _ => 0) = .ok (stamped s, fun i => (s.queues i).firstTimeStamp.2) := by
  have h1 := foldlM_eq (f := alignerStampStep) (g := stampStep) (P := fun x : State n × (Fin n → Int) => ARng x.1) (by
    rintro ⟨t, ts⟩ i ht
    unfold alignerStampStep stampStep
    simp only at ht ⊢
    rw [firstTimeStamp_eq (ht.queues i)]
    refine ⟨rfl, ht.lastIn, ?_⟩
    intro j
    simp only
    by_cases hj : j = i
    · subst hj; rw [upd_same]; exact (firstTimeStamp_rng (ht.queues j)).1
    · rw [upd_ne _ _ hj]; exact ht.queues j) (List.finRange n) (s, fun _ => 0) h
  rw [h1.1]
  have h2 := stampFold (s := s) (List.finRange n) (List.nodup_finRange n) s.queues (fun _ => 0)
  have h3 : ({ s with queues := s.queues } : State n) = s := rfl
  rw [h3] at h2
  rw [h2]
  unfold stamped
  simp

theorem dispatchAt_eq {s : State n} (h : ARng s) (i : Fin n) :
    alignerDispatchAt s i = dispatchAt s i ∧ ∀ r, dispatchAt s i = .ok r → ARng r.1 := by
  have hu : ∀ {t : State n} {q : Queue}, ARng t → QRng q → ∀ j, QRng (upd t.queues i q j) := by
    intro t q ht hq j
    by_cases hj : j = i
    · subst hj; rw [upd_same]; exact hq
    · rw [upd_ne _ _ hj]; exact ht.queues j
  unfold alignerDispatchAt dispatchAt
  cases hi : (s.queues i).items with
  | cons e l =>
    simp only
    unfold Queue.popFirst
    rw [hi]
    refine ⟨by first | rfl | trivial, fun r hr => ?_⟩
    cases hr
    refine ⟨h.lastIn, hu h ⟨?_, (h.queues i).next, (h.queues i).period⟩⟩
    intro x hx
    exact (h.queues i).items x (by rw [hi]; simp [hx])
  | nil =>
    obtain ⟨h1, h2⟩ := firstTimeStamp_rng (h.queues i)
    simp only
    rw [firstTimeStamp_eq (h.queues i)]
    simp only
    have h3 : checked (s.lastIn - (s.queues i).firstTimeStamp.2) = .ok (s.lastIn - (s.queues i).firstTimeStamp.2) := by
      have := h.lastIn
      unfold R R3 maxStamp Approx.maxDuration at *
      apply checked_ok <;> simp only [int64Min, int64Max] <;> omega
    rw [h3]
    simp only
    split
    · refine ⟨by first | rfl | trivial, fun r hr => ?_⟩
      cases hr
      refine ⟨h.lastIn, fun j => ?_⟩
      simp only [upd_same]
      by_cases hj : j = i
      · subst hj; rw [upd_same]; exact ⟨h1.items, h1.next, h1.period⟩
      · rw [upd_ne _ _ hj, upd_ne _ _ hj]; exact h.queues j
    · refine ⟨by first | rfl | trivial, fun r hr => ?_⟩
      cases hr
      exact ⟨h.lastIn, hu h h1⟩

theorem dispatchFirst_eq {s : State n} (h : ARng s) :
    alignerDispatchFirst s = dispatchFirst s ∧ ∀ r, dispatchFirst s = .ok r → ARng r.1 := by
  unfold alignerDispatchFirst dispatchFirst
  rw [stampAll h]
  simp only
  cases getFirstSampleIdx fun i => (s.queues i).firstTimeStamp.2 with
  | none => exact ⟨by first | rfl | trivial, fun r hr => by cases hr; exact stamped_rng h⟩
  | some i => exact dispatchAt_eq (stamped_rng h) i

theorem alignerLoop_eq : ∀ (fuel : Nat) (s : State n), ARng s →
    alignerLoop fuel s = dispatchLoop fuel s ∧ ∀ s', dispatchLoop fuel s = .ok s' → ARng s' := by
  intro fuel
  induction fuel with
  | zero => intro s h; exact ⟨by first | rfl | trivial, fun s' hs => by cases hs⟩
  | succ fuel ih =>
    intro s h
    obtain ⟨h1, h2⟩ := dispatchFirst_eq h
    unfold alignerLoop dispatchLoop
    rw [h1]
    generalize dispatchFirst s = x at h2
    match x, h2 with
    | .error f, _ => exact ⟨by first | rfl | trivial, fun s' hs => by cases hs⟩
    | .ok (t, true), h2 => exact ih t (h2 _ rfl)
    | .ok (t, false), h2 => exact ⟨by first | rfl | trivial, fun s' hs => by cases hs; exact h2 _ rfl⟩

/-- The stamps and periods given to the aligner. -/
def OpRng : Op n → Prop
  | .add _ e => R e.stamp
  | .setPeriod _ d => DurationOk d
  | .dispatch => True

theorem alignerStep_eq (fuel : Nat) {s : State n} (h : ARng s) {op : Op n} (ho : OpRng op) :
    alignerStep fuel s op = step fuel s op ∧ ∀ s', step fuel s op = .ok s' → ARng s' := by
  have hu : ∀ {t : State n} {i : Fin n} {q : Queue}, ARng t → QRng q → ∀ j, QRng (upd t.queues i q j) := by
    intro t i q ht hq j
    by_cases hj : j = i
    · subst hj; rw [upd_same]; exact hq
    · rw [upd_ne _ _ hj]; exact ht.queues j
  cases op with
  | add i e =>
    refine ⟨by first | rfl | trivial, fun s' hs => ?_⟩
    cases hs
    unfold add
    split
    · exact ⟨h.lastIn, hu h ⟨(h.queues i).items, (h.queues i).next, (h.queues i).period⟩⟩
    · have h1 : ARng (if e.stamp > s.lastIn then { s with lastIn := e.stamp } else s) := by
        split
        · exact ⟨ho, h.queues⟩
        · exact h
      simp only
      generalize (if e.stamp > s.lastIn then { s with lastIn := e.stamp } else s) = s1 at h1
      refine ⟨h1.lastIn, hu h1 ⟨?_, (h1.queues i).next, (h1.queues i).period⟩⟩
      intro x hx
      rcases (insertEv_mem _ _ _).1 hx with hx | hx
      · subst hx; exact ho
      · exact (h1.queues i).items x hx
  | setPeriod i d =>
    refine ⟨by first | rfl | trivial, fun s' hs => ?_⟩
    cases hs
    exact ⟨h.lastIn, hu h ⟨(h.queues i).items, (h.queues i).next, ho⟩⟩
  | dispatch =>
    show alignerDispatch fuel s = dispatch fuel s ∧ _
    unfold alignerDispatch step dispatch
    split
    · exact alignerLoop_eq fuel s h
    · exact ⟨by first | rfl | trivial, fun s' hs => by cases hs; exact h⟩

theorem alignerRunE_eq (fuel : Nat) : ∀ (ops : List (Op n)) (s : State n), ARng s → (∀ op ∈ ops, OpRng op) →
    runE (alignerStep fuel) s ops = runE (step fuel) s ops := by
  intro ops
  induction ops with
  | nil => intro s _ _; rfl
  | cons op ops ih =>
    intro s h hops
    obtain ⟨h1, h2⟩ := alignerStep_eq fuel h (hops op (by simp))
    simp only [runE]
    rw [h1]
    cases hx : step fuel s op with
    | error f => rfl
    | ok t => exact ih t (h2 t hx) (fun o ho => hops o (by simp [ho]))

end

/-! ### TimeSequencer -/

section
open Sequencer

theorem takeReady_eq {delay : Int} (hd : DurationOk delay) (now : Nat → Int) : ∀ (l : List Ev) (k : Nat) (last : Int),
    (∀ e ∈ l, R e.stamp) → takeReady delay now k l last = .ok (Sequencer.takeReady delay now k l last) := by
  intro l
  induction l with
  | nil => intro k last _; rfl
  | cons e l ih =>
    intro k last h
    unfold takeReady Sequencer.takeReady
    rw [checked_add (h e (by simp)) hd]
    simp only
    split
    · rw [ih (k + 1) e.stamp (fun x hx => h x (by simp [hx]))]
    · rfl

theorem takeReady_sub (delay : Int) (now : Nat → Int) : ∀ (l : List Ev) (k : Nat) (last : Int),
    ∀ e ∈ (Sequencer.takeReady delay now k l last).2.1, e ∈ l := by
  intro l
  induction l with
  | nil => intro k last e he; exact he
  | cons x l ih =>
    intro k last e he
    unfold Sequencer.takeReady at he
    split at he
    · exact List.mem_cons_of_mem _ (ih _ _ e he)
    · exact he

theorem sequencerRun_eq {delay : Int} (hd : DurationOk delay) : ∀ (ops : List Op) (s : State), s.delay = delay →
    (∀ e ∈ s.messages, R e.stamp) → (∀ m, Op.add m ∈ ops → R m.ev.stamp) →
    runE sequencerStep s ops = .ok (ops.foldl step s) := by
  intro ops
  induction ops with
  | nil => intro s _ _ _; rfl
  | cons op ops ih =>
    intro s hs hm hops
    have h1 : sequencerStep s op = .ok (step s op) ∧ (step s op).delay = delay ∧ ∀ e ∈ (step s op).messages, R e.stamp := by
      cases op with
      | add m =>
        refine ⟨rfl, ?_⟩
        unfold step
        simp only
        cases hx : add s m with
        | error f => exact ⟨hs, hm⟩
        | ok t =>
          unfold add at hx
          split at hx
          · cases hx
          · split at hx
            · cases hx; exact ⟨hs, hm⟩
            · cases hx
              refine ⟨hs, ?_⟩
              have hins : ∀ e ∈ insertEv m.ev s.messages, R e.stamp := by
                intro e he
                rcases (insertEv_mem _ _ _).1 he with he | he
                · subst he; exact hops m (by simp)
                · exact hm e he
              simp only
              split
              · intro e he
                apply hins
                revert he
                cases insertEv m.ev s.messages with
                | nil => intro he; exact he
                | cons x l => intro he; exact (List.mem_filter.1 he).1
              · exact hins
      | tick now =>
        refine ⟨?_, hs, ?_⟩
        · show sequencerDispatch s now = _
          unfold sequencerDispatch
          rw [hs, takeReady_eq hd now s.messages 0 s.last hm]
          simp only [step, dispatch, hs]
        · intro e he
          exact hm e (takeReady_sub _ _ _ _ _ e he)
    simp only [runE, List.foldl_cons]
    rw [h1.1]
    exact ih _ h1.2.1 h1.2.2 (fun m hm' => hops m (by simp [hm']))

end

/-! ### ApproximateTime: histories -/

section
open Approx
variable {n : Nat}

/-- The stamps and settings given to ApproximateTime. -/
def ApproxRng : Op n → Prop
  | .add _ e => R e.stamp
  | .setAgePenalty _ scale => AgeOk scale
  | .setInterMessageLowerBound _ d => DurationOk d
  | .setMaxIntervalDuration _ => True

theorem approxStep_eq [NeZero n] (fuel : Nat) {s : State n} (h : Rng s) {op : Op n} (ho : ApproxRng op) :
    approxStep fuel s op = step fuel s op ∧ ∀ s', step fuel s op = .ok s' → Rng s' := by
  cases op with
  | add i e => exact add_eq fuel h i ho
  | setAgePenalty b scale =>
    refine ⟨by first | rfl | trivial, fun s' hs => ?_⟩
    simp only [step] at hs
    split at hs
    · cases hs; exact ⟨⟨h.cfg.lower, ho⟩, h.deques, h.past, h.candStart, h.candEnd, h.pivotTime⟩
    · cases hs
  | setInterMessageLowerBound i d =>
    refine ⟨by first | rfl | trivial, fun s' hs => ?_⟩
    simp only [step] at hs
    split at hs
    · rename_i hd
      cases hs
      refine ⟨⟨fun j => ?_, h.cfg.age⟩, h.deques, h.past, h.candStart, h.candEnd, h.pivotTime⟩
      simp only
      by_cases hj : j = i
      · subst hj; rw [upd_same]; exact ⟨hd, ho.2⟩
      · rw [upd_ne _ _ hj]; exact h.cfg.lower j
    · cases hs
  | setMaxIntervalDuration d =>
    refine ⟨by first | rfl | trivial, fun s' hs => ?_⟩
    simp only [step] at hs
    split at hs
    · cases hs; exact ⟨⟨h.cfg.lower, h.cfg.age⟩, h.deques, h.past, h.candStart, h.candEnd, h.pivotTime⟩
    · cases hs

theorem approxRunE_eq [NeZero n] (fuel : Nat) : ∀ (ops : List (Op n)) (s : State n), Rng s → (∀ op ∈ ops, ApproxRng op) →
    runE (approxStep fuel) s ops = runE (step fuel) s ops := by
  intro ops
  induction ops with
  | nil => intro s _ _; rfl
  | cons op ops ih =>
    intro s h hops
    obtain ⟨h1, h2⟩ := approxStep_eq fuel h (hops op (by simp))
    simp only [runE]
    rw [h1]
    cases hx : step fuel s op with
    | error f => rfl
    | ok t => exact ih t (h2 t hx) (fun o ho => hops o (by simp [ho]))

end

end MF.Time64
