import Verif.Spec.ClockMix
import Verif.Proofs.Multiset
import Verif.Proofs.Aligner
/-
Helper lemmas about the input aligner under messages of different clock types.
-/
namespace MF.ClockMix

variable {n : Nat}

/-- All times of the aligner are of type `ros`. -/
structure AllRos (src : Nat → Source) (s : AState n) : Prop where
  inSrc : s.inSrc = .ros
  outSrc : s.outSrc = .ros
  nextSrc : ∀ i, s.nextSrc i = .ros
  items : ∀ i, ∀ x ∈ (s.base.queues i).items, src x.id = .ros

theorem allRos_construct (src : Nat → Source) (timeout : Int) : AllRos src (alignerConstruct n timeout) :=
  ⟨rfl, rfl, fun _ => rfl, fun i x hx => by cases hx⟩

theorem mem_insertEv {e x : Ev} {l : List Ev} (h : x ∈ insertEv e l) : x = e ∨ x ∈ l := by
  induction l with
  | nil => simp [insertEv] at h; exact Or.inl h
  | cons y l ih =>
    unfold insertEv at h
    split at h
    · rcases List.mem_cons.1 h with h | h
      · exact Or.inl h
      · exact Or.inr h
    · rcases List.mem_cons.1 h with h | h
      · exact Or.inr (by simp [h])
      · rcases ih h with h | h
        · exact Or.inl h
        · exact Or.inr (by simp [h])

theorem add_items (src : Nat → Source) (s : Aligner.State n) (hs : ∀ i, ∀ x ∈ (s.queues i).items, src x.id = .ros) (i : Fin n) (e : Ev)
    (he : src e.id = .ros) : ∀ j, ∀ x ∈ ((Aligner.add s i e).queues j).items, src x.id = .ros := by
  intro j x hx
  unfold Aligner.add at hx
  split at hx
  · by_cases hj : j = i
    · subst hj; dsimp only at hx; rw [upd_same] at hx; exact hs j x hx
    · dsimp only at hx; rw [upd_ne _ _ hj] at hx; exact hs j x hx
  · have hq : ∀ t : Aligner.State n, t.queues = s.queues →
        x ∈ ((upd t.queues i { t.queues i with items := insertEv e (t.queues i).items }) j).items → src x.id = .ros := by
      intro t ht hx
      rw [ht] at hx
      by_cases hj : j = i
      · subst hj; rw [upd_same] at hx
        rcases mem_insertEv hx with h | h
        · rw [h]; exact he
        · exact hs j x h
      · rw [upd_ne _ _ hj] at hx; exact hs j x hx
    dsimp only at hx
    split at hx
    · exact hq _ rfl hx
    · exact hq _ rfl hx

theorem alignerAdd_spec (src : Nat → Source) {s : AState n} (hs : AllRos src s) (i : Fin n) (e : Ev) :
    (src e.id ≠ .ros → alignerAdd src s i e = (s, true)) ∧
    (src e.id = .ros → ∃ s', alignerAdd src s i e = (s', false) ∧ s'.base = Aligner.add s.base i e ∧ AllRos src s') := by
  constructor
  · intro he
    unfold alignerAdd
    rw [hs.outSrc, if_pos he]
  · intro he
    have hit := add_items src s.base hs.items i e he
    unfold alignerAdd
    rw [if_neg (by rw [hs.outSrc]; exact fun h => h he)]
    split
    · exact ⟨_, rfl, rfl, ⟨hs.inSrc, hs.outSrc, hs.nextSrc, hit⟩⟩
    · rw [if_neg (by rw [hs.inSrc]; exact fun h => h he)]
      dsimp only
      have hany : (s.base.queues i).items.any (fun x => decide (src x.id ≠ src e.id)) = false := by
        rw [List.any_eq_false]
        intro x hx
        rw [hs.items i x hx, he]; simp
      rw [hany]
      refine ⟨_, rfl, rfl, ⟨?_, hs.outSrc, hs.nextSrc, hit⟩⟩
      dsimp only
      split
      · exact he
      · exact hs.inSrc

theorem firstSrc_ros (src : Nat → Source) {s : AState n} (hs : AllRos src s) (i : Fin n) : firstSrc src s i = .ros := by
  unfold firstSrc
  cases h : (s.base.queues i).items with
  | nil => dsimp only; split; exact hs.nextSrc i; rfl
  | cons e l => exact hs.items i e (by rw [h]; simp)

theorem firstTimeStamp_items (q : Aligner.Queue) : q.firstTimeStamp.1.items = q.items := by
  unfold Aligner.Queue.firstTimeStamp
  cases h : q.items with
  | nil => dsimp only; split <;> exact h
  | cons e l => rfl

theorem stamped_allRos (src : Nat → Source) {s : AState n} (hs : AllRos src s) : AllRos src (alignerStamped src s) := by
  refine ⟨hs.inSrc, hs.outSrc, ?_, ?_⟩
  · intro i
    unfold alignerStamped
    dsimp only
    cases h : (s.base.queues i).items with
    | nil => exact hs.nextSrc i
    | cons e l => exact hs.items i e (by rw [h]; simp)
  · intro i x hx
    unfold alignerStamped Aligner.stamped at hx
    dsimp only at hx
    rw [firstTimeStamp_items] at hx
    exact hs.items i x hx

/-- `dispatchAt` does not add messages to the queues. -/
theorem dispatchAt_items {s s' : Aligner.State n} {i : Fin n} {go : Bool} (h : Aligner.dispatchAt s i = .ok (s', go)) :
    ∀ j, ∀ x ∈ (s'.queues j).items, x ∈ (s.queues j).items := by
  intro j x hx
  unfold Aligner.dispatchAt at h
  cases hi : (s.queues i).items with
  | nil =>
    rw [hi] at h
    dsimp only at h
    have hfi := firstTimeStamp_items (s.queues i)
    split at h
    · cases h
      dsimp only at hx
      by_cases hj : j = i
      · subst hj; rw [upd_same, upd_same] at hx; dsimp only at hx; rw [hfi] at hx; exact hx
      · rw [upd_ne _ _ hj, upd_ne _ _ hj] at hx; exact hx
    · cases h
      dsimp only at hx
      by_cases hj : j = i
      · subst hj; rw [upd_same, hfi] at hx; exact hx
      · rw [upd_ne _ _ hj] at hx; exact hx
  | cons e l =>
    rw [hi] at h
    dsimp only at h
    unfold Aligner.Queue.popFirst at h
    rw [hi] at h
    dsimp only at h
    cases h
    dsimp only at hx
    by_cases hj : j = i
    · subst hj; rw [upd_same] at hx; dsimp only at hx; rw [hi]; simp [hx]
    · rw [upd_ne _ _ hj] at hx; exact hx

theorem dispatchFirst_spec (src : Nat → Source) {s : AState n} (hs : AllRos src s) :
    match Aligner.dispatchFirst s.base with
    | .error f => alignerDispatchFirst src s = .error f
    | .ok (b, go) => ∃ s', alignerDispatchFirst src s = .ok (s', go, false) ∧ s'.base = b ∧ AllRos src s' := by
  have hno : ((List.finRange n).any (fun i => (List.finRange n).any (fun j => decide (firstSrc src s i ≠ firstSrc src s j)))) = false := by
    rw [List.any_eq_false]
    intro i _
    rw [Bool.not_eq_true, List.any_eq_false]
    intro j _
    rw [firstSrc_ros src hs i, firstSrc_ros src hs j]; simp
  have hst := stamped_allRos src hs
  unfold alignerDispatchFirst Aligner.dispatchFirst
  rw [if_neg (by rw [hno]; simp)]
  dsimp only
  cases hidx : Aligner.getFirstSampleIdx (fun i => (s.base.queues i).firstTimeStamp.2) with
  | none => exact ⟨_, rfl, rfl, hst⟩
  | some i =>
    dsimp only
    have hb : (alignerStamped src s).base = Aligner.stamped s.base := rfl
    unfold alignerDispatchAt
    rw [hb]
    cases hit : ((Aligner.stamped s.base).queues i).items with
    | nil =>
      dsimp only
      rw [if_neg (by rw [hst.inSrc, firstSrc_ros src hst i]; simp)]
      cases hd : Aligner.dispatchAt (Aligner.stamped s.base) i with
      | error f => rfl
      | ok r =>
        obtain ⟨b, go⟩ := r
        exact ⟨_, rfl, rfl, ⟨hst.inSrc, hst.outSrc, hst.nextSrc, fun j x hx => hst.items j x (dispatchAt_items hd j x hx)⟩⟩
    | cons e l =>
      dsimp only
      cases hd : Aligner.dispatchAt (Aligner.stamped s.base) i with
      | error f => rfl
      | ok r =>
        obtain ⟨b, go⟩ := r
        exact ⟨_, rfl, rfl, ⟨hst.inSrc, hst.items i e (by rw [hb, hit]; simp), hst.nextSrc,
          fun j x hx => hst.items j x (dispatchAt_items hd j x hx)⟩⟩

theorem loop_spec (src : Nat → Source) (fuel : Nat) : ∀ (s : AState n), AllRos src s →
    match Aligner.dispatchLoop fuel s.base with
    | .error f => alignerLoop src fuel s = .error f
    | .ok b => ∃ s', alignerLoop src fuel s = .ok (s', false) ∧ s'.base = b ∧ AllRos src s' := by
  induction fuel with
  | zero => intro s hs; rfl
  | succ fuel ih =>
    intro s hs
    have h := dispatchFirst_spec src hs
    unfold Aligner.dispatchLoop alignerLoop
    cases hd : Aligner.dispatchFirst s.base with
    | error f => rw [hd] at h; dsimp only at h ⊢; rw [h]
    | ok r =>
      obtain ⟨b, go⟩ := r
      rw [hd] at h
      dsimp only at h
      obtain ⟨s', h1, h2, h3⟩ := h
      rw [h1]
      cases go with
      | true => dsimp only; rw [← h2]; exact ih s' h3
      | false => exact ⟨s', rfl, h2, h3⟩

theorem alignerStep_spec (src : Nat → Source) (fuel : Nat) {s : AState n} (hs : AllRos src s) (op : Aligner.Op n)
    (hop : ∀ i e, op = .add i e → src e.id = .ros) :
    match Aligner.step fuel s.base op with
    | .error f => alignerStep src fuel s op = .error f
    | .ok b => ∃ s', alignerStep src fuel s op = .ok (s', false) ∧ s'.base = b ∧ AllRos src s' := by
  cases op with
  | add i e =>
    obtain ⟨s', h1, h2, h3⟩ := (alignerAdd_spec src hs i e).2 (hop i e rfl)
    exact ⟨s', by simp only [alignerStep, h1], h2, h3⟩
  | setPeriod i d =>
    refine ⟨_, rfl, rfl, ⟨hs.inSrc, hs.outSrc, hs.nextSrc, ?_⟩⟩
    intro j x hx
    dsimp only [Aligner.setInputPeriod] at hx
    by_cases hj : j = i
    · subst hj; rw [upd_same] at hx; exact hs.items j x hx
    · rw [upd_ne _ _ hj] at hx; exact hs.items j x hx
  | dispatch =>
    simp only [Aligner.step, alignerStep, Aligner.dispatch, alignerDispatch]
    cases hin : Aligner.inputsAvailable s.base with
    | true => exact loop_spec src fuel s hs
    | false => exact ⟨s, rfl, rfl, hs⟩

/-- The calls without the messages of other clock types than `ros`. -/
abbrev rosOnly (src : Nat → Source) (ops : List (Aligner.Op n)) : List (Aligner.Op n) :=
  ops.filter (fun op => match op with | .add _ e => decide (src e.id = .ros) | _ => true)

theorem alignerRun_spec (src : Nat → Source) (fuel : Nat) (ops : List (Aligner.Op n)) : ∀ (s : AState n), AllRos src s →
    match runE (Aligner.step fuel) s.base (rosOnly src ops) with
    | .error f => runE (fun s op => (alignerStep src fuel s op).map (·.1)) s ops = .error f
    | .ok b => ∃ s', runE (fun s op => (alignerStep src fuel s op).map (·.1)) s ops = .ok s' ∧ s'.base = b ∧ AllRos src s' := by
  induction ops with
  | nil => intro s hs; exact ⟨s, rfl, rfl, hs⟩
  | cons op ops ih =>
    intro s hs
    have step : (∀ i e, op = .add i e → src e.id = .ros) → rosOnly src (op :: ops) = op :: rosOnly src ops →
        match runE (Aligner.step fuel) s.base (rosOnly src (op :: ops)) with
        | .error f => runE (fun s op => (alignerStep src fuel s op).map (·.1)) s (op :: ops) = .error f
        | .ok b => ∃ s', runE (fun s op => (alignerStep src fuel s op).map (·.1)) s (op :: ops) = .ok s' ∧ s'.base = b ∧ AllRos src s' := by
      intro hop hf
      rw [hf]
      simp only [runE]
      have h := alignerStep_spec src fuel hs op hop
      cases hst : Aligner.step fuel s.base op with
      | error f => rw [hst] at h; dsimp only at h ⊢; rw [h]; rfl
      | ok b =>
        rw [hst] at h
        dsimp only at h ⊢
        obtain ⟨s', h1, h2, h3⟩ := h
        rw [h1]
        have := ih s' h3
        rw [h2] at this
        exact this
    cases op with
    | add i e =>
      by_cases he : src e.id = .ros
      · exact step (fun j x h => by cases h; exact he) (List.filter_cons_of_pos (by simpa using he))
      · have hf : rosOnly src (Aligner.Op.add i e :: ops) = rosOnly src ops := List.filter_cons_of_neg (by simpa using he)
        rw [hf]
        simp only [runE, alignerStep, (alignerAdd_spec src hs i e).1 he, Except.map]
        exact ih s hs
    | setPeriod i d => exact step (fun j x h => by cases h) (List.filter_cons_of_pos rfl)
    | dispatch => exact step (fun j x h => by cases h) (List.filter_cons_of_pos rfl)

end MF.ClockMix
