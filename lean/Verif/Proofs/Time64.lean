import Verif.Spec.Time64
import Verif.Proofs.Basic
import Verif.Proofs.Multiset
/-
C56: the filters with checked 64-bit arithmetic do the same as with unbounded integers.
-/
namespace MF.Time64

/-- The largest stamp of a header. -/
def maxStamp : Int := 2147483647 * 1000000000 + 4294967295

/-- Range of the stamps of headers. -/
def R (x : Int) : Prop := 0 ≤ x ∧ x ≤ maxStamp

/-- Range of the virtual times of ApproximateTime. -/
def R2 (x : Int) : Prop := 0 ≤ x ∧ x ≤ maxStamp + Approx.maxDuration

theorem R.r2 {x : Int} (h : R x) : R2 x := by
  unfold R R2 Approx.maxDuration at *; omega

theorem header_range {x : Int} (h : HeaderStamp x) : R x := by
  obtain ⟨h, ⟨h1, h2, h3, h4⟩, ht⟩ := h
  unfold Header.time checked at ht
  split at ht
  · cases ht
  · split at ht
    · cases ht
      unfold R maxStamp
      omega
    · cases ht

theorem checked_ok {x : Int} (h1 : int64Min ≤ x) (h2 : x ≤ int64Max) : checked x = .ok x := by
  unfold checked; rw [if_pos ⟨h1, h2⟩]

theorem checked_add {a d : Int} (ha : R a) (hd : DurationOk d) : checked (a + d) = .ok (a + d) := by
  unfold R DurationOk Approx.maxDuration maxStamp at *
  apply checked_ok <;> simp only [int64Min, int64Max] <;> omega

theorem checked_sub {a b : Int} (ha : R2 a) (hb : R2 b) : checked (a - b) = .ok (a - b) := by
  unfold R2 Approx.maxDuration maxStamp at *
  apply checked_ok <;> simp only [int64Min, int64Max] <;> omega

theorem age_fits {scale : Int → Int} (h : AgeOk scale) {x : Int} (h1 : -maxStamp ≤ x) (h2 : x ≤ maxStamp + Approx.maxDuration) :
    checked (scale x) = .ok (scale x) := by
  obtain ⟨num, den, hd, hn, hn2, rfl⟩ := h
  unfold maxStamp Approx.maxDuration at *
  have e1 : -(int64Max * den) ≤ x * num := by
    unfold int64Max
    rcases Int.le_total 0 x with hx | hx
    · have := Int.mul_nonneg hx (by omega : 0 ≤ num)
      omega
    · have : x * (2 * den) ≤ x * num := Int.mul_le_mul_of_nonpos_left hx hn2
      have h3 : -4611686018427387903 * (2 * den) ≤ x * (2 * den) := Int.mul_le_mul_of_nonneg_right (by omega) (by omega)
      omega
  have e2 : x * num ≤ int64Max * den := by
    unfold int64Max
    rcases Int.le_total 0 x with hx | hx
    · have : x * num ≤ x * (2 * den) := Int.mul_le_mul_of_nonneg_left hn2 hx
      have h3 : x * (2 * den) ≤ 4611686018427387903 * (2 * den) := Int.mul_le_mul_of_nonneg_right (by omega) (by omega)
      omega
    · have := Int.mul_nonpos_of_nonpos_of_nonneg hx (by omega : 0 ≤ num)
      omega
  have key : ∀ y : Int, -(int64Max * den) ≤ y → y ≤ int64Max * den → int64Min ≤ y.tdiv den ∧ y.tdiv den ≤ int64Max := by
    intro y h3 h4
    have h5 : y.tdiv den ≤ int64Max := by
      have := Int.tdiv_le_tdiv hd h4
      rwa [Int.mul_tdiv_cancel _ (by omega)] at this
    have h6 : -int64Max ≤ y.tdiv den := by
      have := Int.tdiv_le_tdiv hd h3
      rwa [Int.neg_tdiv, Int.mul_tdiv_cancel _ (by omega)] at this
    unfold int64Min int64Max at *
    omega
  obtain ⟨h3, h4⟩ := key _ e1 e2
  exact checked_ok h3 h4

theorem foldlM_inv {α σ : Type} {f : σ → α → Except Fault σ} {P : σ → Prop} (hf : ∀ s a s', P s → f s a = .ok s' → P s') :
    ∀ (l : List α) (s s' : σ), P s → l.foldlM f s = .ok s' → P s' := by
  intro l
  induction l with
  | nil => intro s s' h hs; cases hs; exact h
  | cons a l ih =>
    intro s s' h hs
    rw [List.foldlM_cons] at hs
    cases hx : f s a with
    | error e => rw [hx] at hs; cases hs
    | ok t => rw [hx] at hs; exact ih t s' (hf s a t h hx) hs

/-! ### ApproximateTime -/

section
open Approx
variable {n : Nat}

structure CfgOk (c : Cfg n) : Prop where
  lower : ∀ i, 0 ≤ c.lower i ∧ c.lower i ≤ Approx.maxDuration
  age : AgeOk c.scale

/-- All times in the state come from headers. -/
structure Rng (s : State n) : Prop where
  cfg : CfgOk s.cfg
  deques : ∀ i, ∀ e ∈ s.deques i, R e.stamp
  past : ∀ i, ∀ e ∈ s.past i, R e.stamp
  candStart : R s.candStart
  candEnd : R s.candEnd
  pivotTime : R s.pivotTime

theorem upd_forall {α : Type} {P : α → Prop} {f : Fin n → List α} (h : ∀ i, ∀ e ∈ f i, P e) (i : Fin n) {l : List α}
    (hl : ∀ e ∈ l, P e) : ∀ j, ∀ e ∈ upd f i l j, P e := by
  intro j e he
  by_cases hj : j = i
  · subst hj; rw [upd_same] at he; exact hl e he
  · rw [upd_ne _ _ hj] at he; exact h j e he

theorem checkBound_eq {s : State n} (h : Rng s) (i : Fin n) : approxCheckBound s i = checkInterMessageBound s i := by
  unfold approxCheckBound checkInterMessageBound
  split
  · rfl
  · cases hm : (s.deques i).getLast? with
    | none => rfl
    | some msg =>
      simp only
      cases hp : (if (s.deques i).length = 1 then (s.past i).getLast? else (s.deques i)[(s.deques i).length - 2]?) with
      | none => rfl
      | some prev =>
        have h1 : R msg.stamp := h.deques i _ (List.mem_of_getLast? hm)
        have h2 : R prev.stamp := by
          split at hp
          · exact h.past i _ (List.mem_of_getLast? hp)
          · exact h.deques i _ (List.mem_of_getElem? hp)
        simp only
        split
        · rfl
        · rw [checked_sub h1.r2 h2.r2]

theorem checkBound_rng {s s' : State n} (h : Rng s) {i : Fin n} (hs : checkInterMessageBound s i = .ok s') : Rng s' := by
  have : ∃ w, s' = { s with warned := w } := by
    unfold checkInterMessageBound at hs
    split at hs
    · cases hs; exact ⟨_, rfl⟩
    · split at hs
      · cases hs
      · simp only at hs
        split at hs
        · cases hs; exact ⟨_, rfl⟩
        · split at hs
          · cases hs; exact ⟨_, rfl⟩
          · split at hs <;> cases hs <;> exact ⟨_, rfl⟩
  obtain ⟨w, rfl⟩ := this
  exact ⟨h.cfg, h.deques, h.past, h.candStart, h.candEnd, h.pivotTime⟩

theorem virtualTime_eq {s : State n} (h : Rng s) (i : Fin n) : approxVirtualTime s i = getVirtualTime s i := by
  unfold approxVirtualTime getVirtualTime
  split
  · rfl
  · cases hd : s.deques i with
    | nil =>
      simp only
      cases hl : (s.past i).getLast? with
      | none => rfl
      | some last =>
        have h1 := h.past i _ (List.mem_of_getLast? hl)
        have h2 := h.cfg.lower i
        simp only
        rw [checked_add h1 (by unfold DurationOk Approx.maxDuration at *; omega)]
    | cons e l => rfl

theorem virtualTime_rng {s : State n} (h : Rng s) {i : Fin n} {t : Int} (ht : getVirtualTime s i = .ok t) : R2 t := by
  unfold getVirtualTime at ht
  split at ht
  · cases ht
  · split at ht
    · split at ht
      · cases ht
      · rename_i last hl
        have h1 := h.past i _ (List.mem_of_getLast? hl)
        have h2 := h.cfg.lower i
        simp only at ht
        split at ht
        · cases ht; unfold R2; unfold R at h1; omega
        · cases ht; exact h.pivotTime.r2
    · rename_i e l he
      cases ht
      exact (h.deques i e (by rw [he]; simp)).r2

theorem virtualBoundary_eq [NeZero n] {s : State n} (h : Rng s) (b : Bool) :
    approxVirtualBoundary s b = getVirtualCandidateBoundary s b := by
  have : approxVirtualStep s = virtualTimesStep s := by
    funext times i
    unfold approxVirtualStep virtualTimesStep
    rw [virtualTime_eq h]
    try (cases getVirtualTime s i <;> rfl)
  unfold approxVirtualBoundary getVirtualCandidateBoundary getVirtualTimes
  rw [this]
  try (cases (List.finRange n).foldlM (virtualTimesStep s) (fun _ => 0) <;> rfl)

theorem virtualBoundary_rng [NeZero n] {s : State n} (h : Rng s) {b : Bool} {i : Fin n} {t : Int}
    (ht : getVirtualCandidateBoundary s b = .ok (i, t)) : R2 t := by
  unfold getVirtualCandidateBoundary at ht
  split at ht
  · cases ht
  · rename_i times htimes
    have h1 : ∀ j, R2 (times j) := by
      refine foldlM_inv (P := fun f : Fin n → Int => ∀ j, R2 (f j)) ?_ _ _ _ ?_ htimes
      · intro f j f' hf hf' k
        unfold virtualTimesStep at hf'
        split at hf'
        · cases hf'
        · rename_i v hv
          cases hf'
          by_cases hk : k = j
          · subst hk; rw [upd_same]; exact virtualTime_rng h hv
          · rw [upd_ne _ _ hk]; exact hf k
      · intro j; unfold R2 maxStamp Approx.maxDuration; omega
    have h2 : ∀ (l : List (Fin n)) (acc : Fin n × Int), R2 acc.2 → R2 (l.foldl (virtualBoundaryStep times b) acc).2 := by
      intro l
      induction l with
      | nil => intro acc h; exact h
      | cons j l ih =>
        intro acc h
        rw [List.foldl_cons]
        apply ih
        unfold virtualBoundaryStep
        split
        · exact h1 j
        · exact h
    have h3 := h2 (List.finRange n) (0, times 0) (h1 0)
    have h4 := congrArg Prod.snd (Except.ok.inj ht)
    rw [h4] at h3
    exact h3

theorem age_eq {s : State n} (h : Rng s) {t : Int} (ht : R2 t) : approxAge s t = .ok (s.cfg.scale (t - s.candEnd)) := by
  unfold approxAge
  rw [checked_sub ht h.candEnd.r2]
  have := h.candEnd
  unfold R R2 at *
  exact age_fits h.cfg.age (by omega) (by omega)

/-! Preservation of the ranges -/

theorem deleteFront_rng {s s' : State n} (h : Rng s) {i : Fin n} (hs : dequeDeleteFront s i = .ok s') : Rng s' := by
  unfold dequeDeleteFront at hs
  split at hs
  · cases hs
  · rename_i e l he
    cases hs
    exact ⟨h.cfg, upd_forall h.deques i (fun x hx => h.deques i x (by rw [he]; simp [hx])), h.past, h.candStart, h.candEnd,
      h.pivotTime⟩

theorem moveFront_rng {s s' : State n} (h : Rng s) {i : Fin n} (hs : dequeMoveFrontToPast s i = .ok s') : Rng s' := by
  unfold dequeMoveFrontToPast at hs
  split at hs
  · cases hs
  · rename_i e l he
    cases hs
    refine ⟨h.cfg, upd_forall h.deques i (fun x hx => h.deques i x (by rw [he]; simp [hx])), upd_forall h.past i ?_, h.candStart,
      h.candEnd, h.pivotTime⟩
    intro x hx
    rcases List.mem_append.1 hx with hx | hx
    · exact h.past i x hx
    · rw [List.mem_singleton] at hx; subst hx; exact h.deques i x (by rw [he]; simp)

theorem makeCandidate_rng {s s' : State n} (h : Rng s) (hs : makeCandidate s = .ok s') : Rng s' := by
  unfold makeCandidate at hs
  split at hs
  · cases hs
    exact ⟨h.cfg, h.deques, fun _ _ hx => absurd hx (by simp), h.candStart, h.candEnd, h.pivotTime⟩
  · cases hs

theorem moveBack_mem {P : Ev → Prop} : ∀ (k : Nat) (v q : List Ev), (∀ e ∈ v, P e) → (∀ e ∈ q, P e) →
    (∀ e ∈ (moveBack k v q).1, P e) ∧ ∀ e ∈ (moveBack k v q).2, P e := by
  intro k
  induction k with
  | zero => intro v q hv hq; exact ⟨hv, hq⟩
  | succ k ih =>
    intro v q hv hq
    unfold moveBack
    split
    · exact ⟨hv, hq⟩
    · rename_i e he
      apply ih
      · intro x hx; exact hv x (List.dropLast_subset v hx)
      · intro x hx
        rcases List.mem_cons.1 hx with rfl | hx
        · exact hv x (List.mem_of_getLast? he)
        · exact hq x hx

theorem countNonEmpty_rng {s : State n} (h : Rng s) (i : Fin n) : Rng (countNonEmpty s i) := by
  unfold countNonEmpty
  split
  · exact h
  · exact ⟨h.cfg, h.deques, h.past, h.candStart, h.candEnd, h.pivotTime⟩

theorem counted_rng {s : State n} (h : Rng s) (i : Fin n) {v q : List Ev} (hv : ∀ e ∈ v, R e.stamp) (hq : ∀ e ∈ q, R e.stamp) :
    Rng (countNonEmpty { s with past := upd s.past i v, deques := upd s.deques i q } i) := by
  apply countNonEmpty_rng
  exact ⟨h.cfg, upd_forall h.deques i hq, upd_forall h.past i hv, h.candStart, h.candEnd, h.pivotTime⟩

theorem recoverN_rng {moves : Fin n → Nat} {s s' : State n} {i : Fin n} (h : Rng s) (hs : recoverN moves s i = .ok s') :
    Rng s' := by
  unfold recoverN at hs
  split at hs
  · cases hs
    obtain ⟨h1, h2⟩ := moveBack_mem (moves i) (s.past i) (s.deques i) (h.past i) (h.deques i)
    exact counted_rng h i h1 h2
  · cases hs

theorem recover_rng {s : State n} {i : Fin n} (h : Rng s) : Rng (recover s i) := by
  unfold recover
  obtain ⟨h1, h2⟩ := moveBack_mem (s.past i).length (s.past i) (s.deques i) (h.past i) (h.deques i)
  exact counted_rng h i h1 h2

theorem recoverAll_rng {s : State n} (h : Rng s) : Rng (recoverAll s) := by
  unfold recoverAll
  have : ∀ (l : List (Fin n)) (s : State n), Rng s → Rng (l.foldl recover s) := by
    intro l
    induction l with
    | nil => intro s h; exact h
    | cons i l ih => intro s h; rw [List.foldl_cons]; exact ih _ (recover_rng h)
  exact this _ s h

theorem recoverAndDelete_rng {s s' : State n} {i : Fin n} (h : Rng s) (hs : recoverAndDelete s i = .ok s') : Rng s' := by
  unfold recoverAndDelete at hs
  obtain ⟨h1, h2⟩ := moveBack_mem (s.past i).length (s.past i) (s.deques i) (h.past i) (h.deques i)
  simp only at hs
  split at hs
  · cases hs
  · rename_i e l he
    cases hs
    refine counted_rng h i h1 ?_
    intro x hx
    exact h2 x (by rw [he]; simp [hx])

theorem publish_rng {s s' : State n} (h : Rng s) (hs : publishCandidate s = .ok s') : Rng s' := by
  unfold publishCandidate at hs
  refine foldlM_inv (P := Rng) (f := recoverAndDelete) (fun s i s' h hs => recoverAndDelete_rng h hs) _ _ _ ?_ hs
  exact ⟨h.cfg, h.deques, h.past, h.candStart, h.candEnd, h.pivotTime⟩

theorem search_eq [NeZero n] : ∀ (fuel : Nat) (before : Int) (moves : Fin n → Nat) (s : State n), Rng s →
    approxSearch fuel before moves s = virtualSearch fuel before moves s ∧
    ∀ s', virtualSearch fuel before moves s = .ok s' → Rng s' := by
  intro fuel
  induction fuel with
  | zero => intro before moves s h; exact ⟨by first | rfl | trivial, fun s' hs => by cases hs⟩
  | succ fuel ih =>
    intro before moves s h
    unfold approxSearch virtualSearch
    rw [virtualBoundary_eq h, virtualBoundary_eq h]
    cases h1 : getVirtualCandidateBoundary s true with
    | error f => exact ⟨by first | rfl | trivial, fun s' hs => by cases hs⟩
    | ok r1 =>
      obtain ⟨i1, endTime⟩ := r1
      simp only
      cases h2 : getVirtualCandidateBoundary s false with
      | error f => exact ⟨by first | rfl | trivial, fun s' hs => by cases hs⟩
      | ok r2 =>
        obtain ⟨i2, startTime⟩ := r2
        simp only
        rw [age_eq h (virtualBoundary_rng h h1), checked_sub h.pivotTime.r2 h.candStart.r2]
        simp only
        split
        · exact ⟨by first | rfl | trivial, fun s' hs => publish_rng h hs⟩
        · rw [checked_sub (virtualBoundary_rng h h2) h.candStart.r2]
          simp only
          split
          · refine ⟨by first | rfl | trivial, fun s' hs => ?_⟩
            split at hs
            · cases hs
            · rename_i t ht
              split at hs
              · cases hs
                refine foldlM_inv (P := Rng) (f := recoverN moves) (fun s i s' h hs => recoverN_rng h hs) _ _ _ ?_ ht
                exact ⟨h.cfg, h.deques, h.past, h.candStart, h.candEnd, h.pivotTime⟩
              · cases hs
          · split
            · exact ⟨by first | rfl | trivial, fun s' hs => by cases hs⟩
            · split
              · exact ⟨by first | rfl | trivial, fun s' hs => by cases hs⟩
              · cases hm : dequeMoveFrontToPast s i2 with
                | error f => exact ⟨by first | rfl | trivial, fun s' hs => by cases hs⟩
                | ok t => exact ih _ _ _ (moveFront_rng h hm)

theorem examine_eq {s : State n} (h : Rng s) (i : Fin n) {endTime : Int} (he : R endTime) (j : Fin n) {startTime : Int}
    (hst : R startTime) :
    approxExamine s i endTime j startTime = examine s i endTime j startTime ∧
    ∀ b s', examine s i endTime j startTime = .ok (b, s') → Rng s' := by
  have map1 : ∀ {x : Except Fault (State n)} {b b' : Bool} {s' : State n} (hx : ∀ t, x = .ok t → Rng t),
      x.map (fun s => (b', s)) = .ok (b, s') → Rng s' := by
    intro x b b' s' hx hm
    cases x with
    | error f => cases hm
    | ok t => have : t = s' := congrArg Prod.snd (Except.ok.inj hm); exact this ▸ hx t rfl
  unfold approxExamine examine
  cases hp : s.pivot with
  | none =>
    simp only
    rw [checked_sub he.r2 hst.r2]
    simp only
    split
    · exact ⟨by first | rfl | trivial, fun b s' hs => map1 (fun t ht => deleteFront_rng h ht) hs⟩
    · split
      · exact ⟨by first | rfl | trivial, fun b s' hs => map1 (fun t ht => deleteFront_rng h ht) hs⟩
      · cases hm : makeCandidate s with
        | error f => exact ⟨by first | rfl | trivial, fun b s' hs => by cases hs⟩
        | ok s1 =>
          have h1 := makeCandidate_rng h hm
          refine ⟨by first | rfl | trivial, fun b s' hs => map1 (fun t ht => moveFront_rng ?_ ht) hs⟩
          exact ⟨h1.cfg, h1.deques, h1.past, hst, he, he⟩
  | some p =>
    simp only
    rw [age_eq h he.r2, checked_sub hst.r2 h.candStart.r2]
    simp only
    split
    · exact ⟨by first | rfl | trivial, fun b s' hs => map1 (fun t ht => moveFront_rng h ht) hs⟩
    · cases hm : makeCandidate s with
      | error f => exact ⟨by first | rfl | trivial, fun b s' hs => by cases hs⟩
      | ok s1 =>
        have h1 := makeCandidate_rng h hm
        refine ⟨by first | rfl | trivial, fun b s' hs => map1 (fun t ht => moveFront_rng ?_ ht) hs⟩
        exact ⟨h1.cfg, h1.deques, h1.past, hst, he, h1.pivotTime⟩

theorem conclude_eq [NeZero n] (fuel : Nat) {s : State n} (h : Rng s) {endTime : Int} (he : R endTime) (j : Fin n) :
    approxConclude fuel s endTime j = conclude fuel s endTime j ∧ ∀ s', conclude fuel s endTime j = .ok s' → Rng s' := by
  unfold approxConclude conclude
  split
  · exact ⟨by first | rfl | trivial, fun s' hs => by cases hs⟩
  · rw [age_eq h he.r2]
    simp only
    split
    · exact ⟨by first | rfl | trivial, fun s' hs => publish_rng h hs⟩
    · rw [checked_sub h.pivotTime.r2 h.candStart.r2]
      simp only
      split
      · exact ⟨by first | rfl | trivial, fun s' hs => publish_rng h hs⟩
      · split
        · exact search_eq fuel _ _ s h
        · exact ⟨by first | rfl | trivial, fun s' hs => by cases hs; exact h⟩

theorem boundary_rng {s : State n} (h : Rng s) {b : Bool} {i : Fin n} {t : Int}
    (ht : getCandidateBoundary s.deques b = .ok (i, t)) : R t := by
  unfold getCandidateBoundary at ht
  split at ht
  · cases ht
  · cases ht
  · rename_i r hr
    cases ht
    have := foldlM_inv (P := fun x : Option (Fin n × Int) => ∀ i t, x = some (i, t) → R t)
      (f := checkBoundary s.deques b) ?_ (List.finRange n) none (some (i, t)) (by intro i t hx; cases hx) hr
    · exact this i t rfl
    · intro acc j acc' hacc hs k u hk
      subst hk
      unfold checkBoundary at hs
      split at hs
      · cases hs
      · rename_i e l he
        have h1 : R e.stamp := h.deques j e (by rw [he]; simp)
        split at hs
        · cases hs; exact h1
        · split at hs
          · cases hs
          · split at hs
            · cases hs; exact h1
            · cases hs; exact hacc _ _ rfl

theorem iteration_eq [NeZero n] (fuel : Nat) {s : State n} (h : Rng s) :
    approxIteration fuel s = iteration fuel s ∧ ∀ s', iteration fuel s = .ok s' → Rng s' := by
  unfold approxIteration iteration
  cases h1 : getCandidateBoundary s.deques true with
  | error f => exact ⟨by first | rfl | trivial, fun s' hs => by cases hs⟩
  | ok r1 =>
    obtain ⟨i1, endTime⟩ := r1
    simp only
    cases h2 : getCandidateBoundary s.deques false with
    | error f => exact ⟨by first | rfl | trivial, fun s' hs => by cases hs⟩
    | ok r2 =>
      obtain ⟨i2, startTime⟩ := r2
      simp only
      have hr : Rng { s with hasDropped := fun i => if i ≠ i1 then false else s.hasDropped i } :=
        ⟨h.cfg, h.deques, h.past, h.candStart, h.candEnd, h.pivotTime⟩
      obtain ⟨h3, h4⟩ := examine_eq hr i1 (boundary_rng h h1) i2 (boundary_rng h h2)
      rw [h3]
      generalize examine _ i1 endTime i2 startTime = x at h4
      match x, h4 with
      | .error f, _ => exact ⟨by first | rfl | trivial, fun s' hs => by cases hs⟩
      | .ok (false, s1), h4 => exact ⟨by first | rfl | trivial, fun s' hs => by cases hs; exact h4 _ _ rfl⟩
      | .ok (true, s1), h4 => exact conclude_eq fuel (h4 _ _ rfl) (boundary_rng h h1) i2

theorem process_eq [NeZero n] : ∀ (fuel : Nat) (s : State n), Rng s →
    approxProcess fuel s = process fuel s ∧ ∀ s', process fuel s = .ok s' → Rng s' := by
  intro fuel
  induction fuel with
  | zero =>
    intro s h
    unfold approxProcess process
    split
    · exact ⟨by first | rfl | trivial, fun s' hs => by cases hs⟩
    · exact ⟨by first | rfl | trivial, fun s' hs => by cases hs; exact h⟩
  | succ fuel ih =>
    intro s h
    unfold approxProcess process
    split
    · obtain ⟨h1, h2⟩ := iteration_eq fuel h
      rw [h1]
      cases hx : iteration fuel s with
      | error f => exact ⟨by first | rfl | trivial, fun s' hs => by cases hs⟩
      | ok t => exact ih t (h2 t hx)
    · exact ⟨by first | rfl | trivial, fun s' hs => by cases hs; exact h⟩

theorem addPush_eq [NeZero n] (fuel : Nat) {s : State n} (h : Rng s) (i : Fin n) {e : Ev} (he : R e.stamp) :
    approxAddPush fuel s i e = addPush fuel s i e ∧ ∀ s', addPush fuel s i e = .ok s' → Rng s' := by
  have hd : ∀ x ∈ s.deques i ++ [e], R x.stamp := by
    intro x hx
    rcases List.mem_append.1 hx with hx | hx
    · exact h.deques i x hx
    · rw [List.mem_singleton] at hx; subst hx; exact he
  unfold approxAddPush addPush
  simp only
  split
  · split
    · exact process_eq fuel _ ⟨h.cfg, upd_forall h.deques i hd, h.past, h.candStart, h.candEnd, h.pivotTime⟩
    · exact ⟨by first | rfl | trivial, fun s' hs => by
        cases hs; exact ⟨h.cfg, upd_forall h.deques i hd, h.past, h.candStart, h.candEnd, h.pivotTime⟩⟩
  · have hr : Rng { s with deques := upd s.deques i (s.deques i ++ [e]) } :=
      ⟨h.cfg, upd_forall h.deques i hd, h.past, h.candStart, h.candEnd, h.pivotTime⟩
    exact ⟨checkBound_eq hr i, fun s' hs => checkBound_rng hr hs⟩

theorem addLimit_eq [NeZero n] (fuel : Nat) {s : State n} (h : Rng s) (i : Fin n) :
    approxAddLimit fuel s i = addLimit fuel s i ∧ ∀ s', addLimit fuel s i = .ok s' → Rng s' := by
  unfold approxAddLimit addLimit
  split
  · have hr : Rng (recoverAll { s with num := 0 }) :=
      recoverAll_rng ⟨h.cfg, h.deques, h.past, h.candStart, h.candEnd, h.pivotTime⟩
    generalize recoverAll { s with num := 0 } = s1 at hr
    simp only
    cases hx : s1.deques i with
    | nil => exact ⟨by first | rfl | trivial, fun s' hs => by cases hs⟩
    | cons x l =>
      simp only
      have hd := upd_forall hr.deques i (l := l) (fun y hy => hr.deques i y (by rw [hx]; simp [hy]))
      split
      · exact ⟨by first | rfl | trivial, fun s' hs => by cases hs; exact ⟨hr.cfg, hd, hr.past, hr.candStart, hr.candEnd, hr.pivotTime⟩⟩
      · exact process_eq fuel _ ⟨hr.cfg, hd, hr.past, hr.candStart, hr.candEnd, hr.pivotTime⟩
  · exact ⟨by first | rfl | trivial, fun s' hs => by cases hs; exact h⟩

theorem add_eq [NeZero n] (fuel : Nat) {s : State n} (h : Rng s) (i : Fin n) {e : Ev} (he : R e.stamp) :
    approxAdd fuel s i e = add fuel s i e ∧ ∀ s', add fuel s i e = .ok s' → Rng s' := by
  unfold approxAdd add
  obtain ⟨h1, h2⟩ := addPush_eq fuel h i he
  rw [h1]
  cases hx : addPush fuel s i e with
  | error f => exact ⟨by first | rfl | trivial, fun s' hs => by cases hs⟩
  | ok t => exact addLimit_eq fuel (h2 t hx) i

end

end MF.Time64
