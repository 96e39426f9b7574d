import Verif.Spec.PolicyAssign
import Verif.Proofs.PolicyCopy
/-
Lemmas about assigning a policy to the policy of an existing Synchronizer.
-/
namespace MF.Approx

variable {n : Nat}

/-- The same policy with another candidate. -/
def setC (c : Fin n → Option Ev) (s : State n) : State n := { s with cand := c }

/-- Equal, or equal up to the candidate while there is no pivot. -/
def UpToCand (s t : State n) : Prop := s = t ∨ (s.pivot = none ∧ ∃ c, t = setC c s)

/-- The results of two calls related by `UpToCand`. -/
def RelR (r r' : Except Fault (State n)) : Prop :=
  (∃ f, r = .error f ∧ r' = .error f) ∨ ∃ s t, r = .ok s ∧ r' = .ok t ∧ UpToCand s t

theorem RelR.rfl' (r : Except Fault (State n)) : RelR r r := by
  cases r with
  | error f => exact Or.inl ⟨f, rfl, rfl⟩
  | ok s => exact Or.inr ⟨s, s, rfl, rfl, Or.inl rfl⟩

theorem RelR.map (r r' : Except Fault (State n)) (k : State n → Except Fault (State n)) :
    RelR r r' → (∀ s t, UpToCand s t → RelR (k s) (k t)) →
    RelR (match r with | .error f => .error f | .ok s => k s) (match r' with | .error f => .error f | .ok s => k s) := by
  rintro (⟨f, h1, h2⟩ | ⟨s, t, h1, h2, h3⟩) hk
  · subst h1 h2; exact Or.inl ⟨f, rfl, rfl⟩
  · subst h1 h2; exact hk s t h3

theorem iteration_setC [NeZero n] (fuel : Nat) (s : State n) (c : Fin n → Option Ev) (hp : s.pivot = none) :
    RelR (iteration fuel s) (iteration fuel (setC c s)) := by
  unfold iteration
  show RelR _ (match getCandidateBoundary s.deques true with
    | .error f => .error f
    | .ok (endIndex, endTime) => _)
  cases getCandidateBoundary s.deques true with
  | error f => exact Or.inl ⟨f, rfl, rfl⟩
  | ok r =>
    obtain ⟨ei, et⟩ := r
    dsimp only
    show RelR _ (match getCandidateBoundary s.deques false with
      | .error f => .error f
      | .ok (startIndex, startTime) => _)
    cases getCandidateBoundary s.deques false with
    | error f => exact Or.inl ⟨f, rfl, rfl⟩
    | ok r =>
      obtain ⟨si, st⟩ := r
      dsimp only
      unfold examine
      simp only [setC, hp]
      by_cases h1 : et - st > s.cfg.maxInterval
      · simp only [h1, if_true]
        unfold dequeDeleteFront
        cases hd : s.deques si with
        | nil => exact Or.inl ⟨_, rfl, rfl⟩
        | cons e rest => exact Or.inr ⟨_, _, rfl, rfl, Or.inr ⟨rfl, c, rfl⟩⟩
      · simp only [h1, if_false]
        by_cases h2 : (if ei ≠ ei then false else s.hasDropped ei) = true
        · simp only [h2, if_true]
          unfold dequeDeleteFront
          cases hd : s.deques si with
          | nil => exact Or.inl ⟨_, rfl, rfl⟩
          | cons e rest => exact Or.inr ⟨_, _, rfl, rfl, Or.inr ⟨rfl, c, rfl⟩⟩
        · simp only [h2]
          unfold makeCandidate
          dsimp only
          cases (List.finRange n).all (fun i => !(s.deques i).isEmpty) with
          | false => exact Or.inl ⟨_, rfl, rfl⟩
          | true => exact RelR.rfl' _

theorem iteration_upTo [NeZero n] (fuel : Nat) {s t : State n} (h : UpToCand s t) :
    RelR (iteration fuel s) (iteration fuel t) := by
  rcases h with h | ⟨hp, c, h⟩
  · subst h; exact RelR.rfl' _
  · subst h; exact iteration_setC fuel s c hp

theorem UpToCand.num {s t : State n} (h : UpToCand s t) : t.num = s.num := by
  rcases h with h | ⟨_, c, h⟩ <;> subst h <;> rfl

theorem process_upTo [NeZero n] (fuel : Nat) {s t : State n} (h : UpToCand s t) :
    RelR (process fuel s) (process fuel t) := by
  induction fuel generalizing s t with
  | zero =>
    unfold process
    rw [h.num]
    split
    · exact Or.inl ⟨_, rfl, rfl⟩
    · exact Or.inr ⟨_, _, rfl, rfl, h⟩
  | succ fuel ih =>
    unfold process
    rw [h.num]
    by_cases hn : s.num = n
    · simp only [hn, if_true]
      exact RelR.map _ _ (process fuel) (iteration_upTo fuel h) (fun s t h => ih h)
    · simp only [hn, if_false]
      exact Or.inr ⟨_, _, rfl, rfl, h⟩

theorem checkInterMessageBound_setC (s : State n) (c : Fin n → Option Ev) (i : Fin n) (hp : s.pivot = none) :
    RelR (checkInterMessageBound s i) (checkInterMessageBound (setC c s) i) := by
  obtain ⟨cfg, deques, num, past, cand, cs, ce, pt, pivot, hd, warned, out⟩ := s
  have hp : pivot = none := hp
  subst hp
  have hok : ∀ w, RelR (.ok ⟨cfg, deques, num, past, cand, cs, ce, pt, none, hd, w, out⟩)
      (.ok ⟨cfg, deques, num, past, c, cs, ce, pt, none, hd, w, out⟩) :=
    fun w => Or.inr ⟨_, _, rfl, rfl, Or.inr ⟨rfl, c, rfl⟩⟩
  unfold checkInterMessageBound setC
  dsimp only
  by_cases hw : warned i = true
  · rw [if_pos hw, if_pos hw]; exact hok _
  · rw [if_neg hw, if_neg hw]
    cases (deques i).getLast? with
    | none => exact Or.inl ⟨_, rfl, rfl⟩
    | some msg =>
      dsimp only
      generalize (if (deques i).length = 1 then (past i).getLast? else (deques i)[(deques i).length - 2]?) = r
      cases r with
      | none => exact hok _
      | some prev =>
        dsimp only
        by_cases h1 : msg.stamp < prev.stamp
        · rw [if_pos h1, if_pos h1]; exact hok _
        · rw [if_neg h1, if_neg h1]
          by_cases h2 : msg.stamp - prev.stamp < cfg.lower i
          · rw [if_pos h2, if_pos h2]; exact hok _
          · rw [if_neg h2, if_neg h2]; exact hok _

theorem recover_setC (s : State n) (c : Fin n → Option Ev) (i : Fin n) :
    recover (setC c s) i = setC c (recover s i) ∧ (recover s i).pivot = s.pivot := by
  obtain ⟨cfg, deques, num, past, cand, cs, ce, pt, pivot, hd, warned, out⟩ := s
  unfold recover countNonEmpty setC
  dsimp only
  by_cases he : (upd deques i (moveBack (past i).length (past i) (deques i)).snd i).isEmpty = true
  · rw [if_pos he, if_pos he]; exact ⟨rfl, rfl⟩
  · rw [if_neg he, if_neg he]; exact ⟨rfl, rfl⟩

theorem recoverAll_setC (s : State n) (c : Fin n → Option Ev) :
    recoverAll (setC c s) = setC c (recoverAll s) ∧ (recoverAll s).pivot = s.pivot := by
  unfold recoverAll
  generalize List.finRange n = l
  induction l generalizing s with
  | nil => exact ⟨rfl, rfl⟩
  | cons a l ih =>
    simp only [List.foldl_cons]
    obtain ⟨h1, h2⟩ := recover_setC s c a
    rw [h1, ← h2]
    exact ih _

theorem addPush_upTo [NeZero n] (fuel : Nat) {s t : State n} (h : UpToCand s t) (i : Fin n) (e : Ev) :
    RelR (addPush fuel s i e) (addPush fuel t i e) := by
  rcases h with h | ⟨hp, c, h⟩
  · subst h; exact RelR.rfl' _
  · subst h
    unfold addPush
    dsimp only [setC]
    split
    · split
      · exact process_upTo fuel (Or.inr ⟨hp, c, rfl⟩)
      · exact Or.inr ⟨_, _, rfl, rfl, Or.inr ⟨hp, c, rfl⟩⟩
    · exact checkInterMessageBound_setC { s with deques := upd s.deques i (s.deques i ++ [e]) } c i hp

theorem addLimit_upTo [NeZero n] (fuel : Nat) {s t : State n} (h : UpToCand s t) (i : Fin n) :
    RelR (addLimit fuel s i) (addLimit fuel t i) := by
  rcases h with h | ⟨hp, c, h⟩
  · subst h; exact RelR.rfl' _
  · subst h
    unfold addLimit
    show RelR _ (if (s.deques i).length + (s.past i).length > s.cfg.queueSize then _ else _)
    by_cases hl : (s.deques i).length + (s.past i).length > s.cfg.queueSize
    · rw [if_pos hl, if_pos hl]
      obtain ⟨h1, h2⟩ := recoverAll_setC { s with num := 0 } c
      have h1 : recoverAll { setC c s with num := 0 } = setC c (recoverAll { s with num := 0 }) := h1
      have h2 : (recoverAll { s with num := 0 }).pivot = none := h2.trans hp
      dsimp only
      rw [h1]
      generalize recoverAll { s with num := 0 } = r at h2
      obtain ⟨cfg, deques, num, past, cand, cs, ce, pt, pivot, hd, warned, out⟩ := r
      have h2 : pivot = none := h2
      subst h2
      unfold setC
      dsimp only
      cases deques i with
      | nil => exact Or.inl ⟨_, rfl, rfl⟩
      | cons x rest =>
        dsimp only
        rw [if_pos rfl, if_pos rfl]
        exact Or.inr ⟨_, _, rfl, rfl, Or.inr ⟨rfl, c, rfl⟩⟩
    · rw [if_neg hl, if_neg hl]
      exact Or.inr ⟨_, _, rfl, rfl, Or.inr ⟨hp, c, rfl⟩⟩

theorem step_upTo [NeZero n] (fuel : Nat) {s t : State n} (h : UpToCand s t) (op : Op n) :
    RelR (step fuel s op) (step fuel t op) := by
  cases op with
  | add i e => exact RelR.map _ _ (fun s => addLimit fuel s i) (addPush_upTo fuel h i e) (fun s t h => addLimit_upTo fuel h i)
  | setAgePenalty nonneg scale =>
    rcases h with h | ⟨hp, c, h⟩
    · subst h; exact RelR.rfl' _
    · subst h
      simp only [step]
      split
      · exact Or.inr ⟨_, _, rfl, rfl, Or.inr ⟨hp, c, rfl⟩⟩
      · exact Or.inl ⟨_, rfl, rfl⟩
  | setInterMessageLowerBound i d =>
    rcases h with h | ⟨hp, c, h⟩
    · subst h; exact RelR.rfl' _
    · subst h
      simp only [step]
      split
      · exact Or.inr ⟨_, _, rfl, rfl, Or.inr ⟨hp, c, rfl⟩⟩
      · exact Or.inl ⟨_, rfl, rfl⟩
  | setMaxIntervalDuration d =>
    rcases h with h | ⟨hp, c, h⟩
    · subst h; exact RelR.rfl' _
    · subst h
      simp only [step]
      split
      · exact Or.inr ⟨_, _, rfl, rfl, Or.inr ⟨hp, c, rfl⟩⟩
      · exact Or.inl ⟨_, rfl, rfl⟩

end MF.Approx

namespace MF.Epsilon

variable {n : Nat}

theorem eraseFront_offset (s : State n) (i : Fin n) :
    (eraseFront s i).num - nonEmpty (eraseFront s i).events = s.num - nonEmpty s.events := by
  unfold eraseFront
  cases h : s.events i with
  | nil => rfl
  | cons e rest =>
    simp only
    rw [nonEmpty_upd, h]
    cases rest <;> simp <;> omega

theorem eraseIfOnSync_offset (ts : Int) (s : State n) (i : Fin n) :
    (eraseIfOnSync ts s i).num - nonEmpty (eraseIfOnSync ts s i).events = s.num - nonEmpty s.events ∧
    (eraseIfOnSync ts s i).out = s.out := by
  unfold eraseIfOnSync
  cases h : s.events i with
  | nil => exact ⟨rfl, rfl⟩
  | cons e rest =>
    simp only
    split
    · exact ⟨rfl, rfl⟩
    · exact ⟨eraseFront_offset s i, (eraseFront_spec s i).2.2.1⟩

theorem eraseOld_offset (ts : Int) (s : State n) :
    (eraseOld ts s).num - nonEmpty (eraseOld ts s).events = s.num - nonEmpty s.events ∧ (eraseOld ts s).out = s.out := by
  unfold eraseOld
  generalize List.finRange n = l
  induction l generalizing s with
  | nil => exact ⟨rfl, rfl⟩
  | cons a l ih =>
    simp only [List.foldl_cons]
    obtain ⟨h1, h2⟩ := ih (eraseIfOnSync ts s a)
    obtain ⟨h3, h4⟩ := eraseIfOnSync_offset ts s a
    exact ⟨by rw [h1, h3], by rw [h2, h4]⟩

/-- With an input empty the fronts never all lie within epsilon. -/
theorem checkAll_empty (v : Fin n → List Ev) (eps : Int) (h : nonEmpty v < n) : checkAll v eps (getOlder v) = false := by
  have hne : ¬ ∀ i, v i ≠ [] := fun hall => by
    have := (nonEmpty_eq_iff v).2 hall; omega
  obtain ⟨i, hi⟩ := Classical.not_forall.1 hne
  have hi : v i = [] := Classical.byContradiction hi
  cases hc : checkAll v eps (getOlder v) with
  | false => rfl
  | true =>
    unfold checkAll at hc
    have := List.all_eq_true.1 hc i (List.mem_finRange i)
    unfold withinEpsilon at this
    by_cases ho : some i = (getOlder v).2
    · rcases (getOlder_spec v).2.2 with h0 | ⟨j, e, tl, hv, h0⟩
      · rw [h0] at ho; cases ho
      · rw [h0] at ho; cases ho; rw [hi] at hv; cases hv
    · rw [if_neg ho, hi] at this
      cases this

theorem process_over {fuel : Nat} {c : Int} (hc : 0 < c) {s s' : State n} (h : s.num - nonEmpty s.events = c)
    (hs : process fuel s = .ok s') : s'.num - nonEmpty s'.events = c ∧ s'.out = s.out := by
  induction fuel generalizing s with
  | zero =>
    unfold process at hs
    split at hs <;> cases hs
    exact ⟨h, rfl⟩
  | succ fuel ih =>
    unfold process at hs
    by_cases hn : s.num = n
    · rw [if_pos hn] at hs
      dsimp only at hs
      rw [checkAll_empty s.events s.epsilon (by omega)] at hs
      simp only [Bool.false_eq_true, if_false] at hs
      obtain ⟨h1, h2⟩ := eraseOld_offset (getOlder s.events).1 s
      obtain ⟨h3, h4⟩ := ih (h1.trans h) hs
      exact ⟨h3, h4.trans h2⟩
    · rw [if_neg hn] at hs; cases hs; exact ⟨h, rfl⟩

theorem add_over {fuel : Nat} {c : Int} (hc : 0 < c) {s s' : State n} (h : s.num - nonEmpty s.events = c) (i : Fin n) (e : Ev)
    (hs : add fuel s i e = .ok s') : s'.num - nonEmpty s'.events = c ∧ s'.out = s.out := by
  have h1 : (if (s.events i).length = 0 then s.num + 1 else s.num) - (nonEmpty (upd s.events i (s.events i ++ [e])) : Int) = c := by
    rw [nonEmpty_upd]
    cases s.events i <;> simp <;> omega
  unfold add at hs
  dsimp only at hs
  generalize (if (s.events i).length = 0 then s.num + 1 else s.num) = m at h1 hs
  split at hs
  · exact process_over hc (s := ⟨s.queueSize, s.epsilon, m, upd s.events i (s.events i ++ [e]), s.out⟩) h1 hs
  · split at hs
    · cases hs
      exact ⟨(eraseFront_offset _ i).trans h1, (eraseFront_spec _ i).2.2.1⟩
    · cases hs; exact ⟨h1, rfl⟩

end MF.Epsilon
