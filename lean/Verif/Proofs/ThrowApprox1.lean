import Verif.Model.ThrowApprox
import Verif.Proofs.Approx5
import Verif.Proofs.Throw
/-
Helper lemmas about the ApproximateTime policy with callbacks that throw, part 1: one iteration of `process`.
-/
namespace MF.Throw
open MF.Approx
open MF.Epsilon (nonEmpty nonEmpty_eq_iff nonEmpty_upd nonEmpty_le total total_le)

variable {n : Nat}

/-- What is known while a candidate `c` is held.  After an exception the pivot message may have been set aside, and a later
candidate need not contain it. -/
structure WCand (s : State n) (p : Fin n) (c : Fin n → Ev) : Prop where
  pivot : s.pivot = some p
  cand : ∀ i, s.cand i = some (c i)
  head : ∀ i, ∃ tl, view s i = c i :: tl
  lo : ∀ i, s.candStart ≤ (c i).stamp
  hi : ∀ i, (c i).stamp ≤ s.candEnd
  hiEx : ∃ i, (c i).stamp = s.candEnd

/-- The first message of the deque of input `i` is not older than `t`. -/
def FrontGe (s : State n) (t : Int) (i : Fin n) : Prop := ∃ x tl, s.deques i = x :: tl ∧ t ≤ x.stamp

/-- Invariant at the head of the loop of `process`.  The pivot message, or what follows it, is not older than the pivot time,
or else all other inputs have reached the pivot time. -/
structure WInv (s : State n) : Prop where
  num : s.num = nonEmpty s.deques
  noPivot : s.pivot = none → ∀ i, s.past i = []
  pivoted : ∀ p, s.pivot = some p → ∃ c, WCand s p c
  front : ∀ p, s.pivot = some p → FrontGe s s.pivotTime p ∨ ∀ j, j ≠ p → FrontGe s s.pivotTime j

/-- `s'` is `s` after messages have been set aside. -/
structure Shift (s s' : State n) : Prop where
  eq : s' = { s with past := s'.past, deques := s'.deques, num := s'.num }
  view : view s' = view s
  num : s'.num = nonEmpty s'.deques
  suffix : ∀ i, s'.deques i <:+ s.deques i

theorem Shift.refl {s : State n} (h : s.num = nonEmpty s.deques) : Shift s s :=
  ⟨rfl, rfl, h, fun _ => List.suffix_refl _⟩

theorem Shift.moved (s : State n) (m : Fin n) : Shift s (moved s m) := by
  refine ⟨rfl, view_moved s m, rfl, ?_⟩
  intro i
  by_cases hi : i = m
  · subst hi; simp only [Approx.moved, upd_same]; exact List.tail_suffix _
  · simp only [Approx.moved, upd_ne _ _ hi]; exact List.suffix_refl _

theorem Shift.trans {s t u : State n} (h : Shift s t) (h' : Shift t u) : Shift s u := by
  refine ⟨?_, h'.view.trans h.view, h'.num, fun i => (h'.suffix i).trans (h.suffix i)⟩
  rw [h'.eq]
  conv => lhs; rw [h.eq]

theorem Shift.cand {s t : State n} (h : Shift s t) : t.cand = s.cand := by rw [h.eq]
theorem Shift.out {s t : State n} (h : Shift s t) : t.out = s.out := by rw [h.eq]
theorem Shift.pivot {s t : State n} (h : Shift s t) : t.pivot = s.pivot := by rw [h.eq]
theorem Shift.pivotTime {s t : State n} (h : Shift s t) : t.pivotTime = s.pivotTime := by rw [h.eq]
theorem Shift.candStart {s t : State n} (h : Shift s t) : t.candStart = s.candStart := by rw [h.eq]
theorem Shift.candEnd {s t : State n} (h : Shift s t) : t.candEnd = s.candEnd := by rw [h.eq]
theorem Shift.cfg {s t : State n} (h : Shift s t) : t.cfg = s.cfg := by rw [h.eq]

theorem Shift.wcand {s t : State n} (h : Shift s t) {p : Fin n} {c : Fin n → Ev} (hc : WCand s p c) : WCand t p c :=
  ⟨by rw [h.pivot]; exact hc.pivot, by rw [h.cand]; exact hc.cand, by rw [h.view]; exact hc.head,
    by rw [h.candStart]; exact hc.lo, by rw [h.candEnd]; exact hc.hi, by rw [h.candEnd]; exact hc.hiEx⟩

/-- The four ways a part of the loop that ends with an attempt to publish can go. -/
inductive Outcome (boom : Nat → Bool) (fuel : Nat) (s : State n) (m p : Fin n) : Except Fault (State n × Bool) → Prop where
  | hang (h : fuel ≤ total s.deques) : Outcome boom fuel s m p (.error .hang)
  | stays : Outcome boom fuel s m p (.ok (s, false))
  | published (h : boom s.out.length = false) : Outcome boom fuel s m p (.ok (published s, false))
  | interrupted (s2 : State n) (h : Shift s s2) (hd : s2 = s ∨ (p ≠ m ∧ s2.deques p = s.deques p))
      (hb : boom s.out.length = true) : Outcome boom fuel s m p (.ok (approxInterrupted s2, true))

theorem publishT_outcome (boom : Nat → Bool) (fuel : Nat) {s : State n} (m p : Fin n)
    (hnum : s.num = nonEmpty s.deques) (h : ∀ i, view s i ≠ []) : Outcome boom fuel s m p (approxPublish boom s) := by
  unfold approxPublish
  cases hb : boom s.out.length with
  | true => simp only [if_true]; exact .interrupted s (Shift.refl hnum) (Or.inl rfl) hb
  | false =>
    rw [publish_eq s h]
    simp only [Bool.false_eq_true, if_false]
    exact .published hb

theorem shift_restored {s : State n} (moves : Fin n → Nat) (hmv : ∀ i, moves i ≤ (s.past i).length)
    (h : s.num = nonEmpty s.deques) : Shift (restored moves s) s := by
  refine ⟨rfl, (view_restored moves s).symm, h, ?_⟩
  intro i
  exact List.suffix_append _ _

theorem search_outcome [NeZero n] (boom : Nat → Bool) (fuel : Nat) : ∀ (F : Nat) (moves : Fin n → Nat) (s : State n)
    (m0 p : Fin n) (c : Fin n → Ev), p ≠ m0 → FrontGe s s.pivotTime p → moves p = 0 →
    s.num = nonEmpty s.deques → WCand s p c → (∀ i, moves i ≤ (s.past i).length) →
    F + total s.deques ≤ fuel + total (restored moves s).deques →
    Outcome boom F (restored moves s) m0 p (approxSearch boom fuel (restored moves s).num moves s) := by
  induction fuel with
  | zero =>
    intro F moves s m0 p c _ _ _ _ _ _ hF
    unfold approxSearch
    exact .hang (by omega)
  | succ fuel ih =>
    intro F moves s m0 p c hpm0 hfr hmp0 hnum hc hmv hF
    have hne : ∀ i, view s i ≠ [] := by
      intro i; obtain ⟨tl, h⟩ := hc.head i; rw [h]; simp
    have hpv : s.pivot ≠ none := by rw [hc.pivot]; simp
    have hvt : ∀ i, getVirtualTime s i = .ok (vt s i) := fun i => getVirtualTime_eq s i hpv (hne i)
    obtain ⟨e, he1, he2⟩ := virtualBoundary s true hvt
    obtain ⟨m, hm1, hm2⟩ := virtualBoundary s false hvt
    unfold approxSearch
    rw [he1, hm1]
    simp only
    have hsh := shift_restored moves hmv hnum
    by_cases h1 : s.cfg.scale (vt s e - s.candEnd) ≥ s.pivotTime - s.candStart
    · rw [if_pos h1]
      unfold approxPublish
      cases hb : boom s.out.length with
      | true =>
        simp only [if_true]
        exact .interrupted s hsh (Or.inr ⟨hpm0, by simp [restored, hmp0]⟩) hb
      | false =>
        rw [publish_eq s hne, ← published_restored moves]
        simp only [Bool.false_eq_true, if_false]
        exact .published hb
    · rw [if_neg h1]
      by_cases h2 : s.cfg.scale (vt s e - s.candEnd) < vt s m - s.candStart
      · rw [if_pos h2, recoverAllN_eq moves s hmv]
        simp only
        rw [if_pos (by rfl)]
        exact .stays
      · rw [if_neg h2]
        have hlt : vt s m < s.pivotTime := by omega
        have hdm : s.deques m ≠ [] := by
          intro h0
          unfold vt at hlt
          rw [h0] at hlt
          simp only at hlt
          cases hla : (s.past m).getLast? with
          | none =>
            rw [List.getLast?_eq_none_iff] at hla
            exact hne m (by simp [view, hla, h0])
          | some last => rw [hla] at hlt; simp only at hlt; split at hlt <;> omega
        obtain ⟨x, tl, hx1, hx2⟩ := hfr
        have hmp : m ≠ p := by
          intro h0
          subst h0
          unfold vt at hlt; rw [hx1] at hlt
          simp only at hlt; omega
        have hmp' : ¬ some m = s.pivot := by
          rw [hc.pivot]; intro h0; cases h0; exact hmp rfl
        rw [if_neg hmp', if_neg (by omega), move_eq s m hnum hdm]
        have hfr' : FrontGe (moved s m) (moved s m).pivotTime p :=
          ⟨x, tl, by simp only [moved]; rw [upd_ne _ _ (Ne.symm hmp)]; exact hx1, hx2⟩
        simp only
        have hrest := restored_moved moves s m hdm hmv
        have htot : total (moved s m).deques < total s.deques := total_tail s.deques m hdm
        have ih := ih F (upd moves m (moves m + 1)) (moved s m) m0 p c hpm0 hfr' (by rw [upd_ne _ _ (Ne.symm hmp)]; exact hmp0) (by rfl) ((Shift.moved s m).wcand hc) (by
              intro i
              by_cases hi : i = m
              · subst hi
                cases hd : s.deques i with
                | nil => exact absurd hd hdm
                | cons x tl => simp [moved, hd]; exact hmv i
              · simp [moved, upd_ne _ _ hi]; exact hmv i) (by rw [hrest]; omega)
        rw [hrest] at ih
        exact ih

/-- Facts about the state after the examination. -/
structure WAfter (s : State n) (m p : Fin n) (s1 : State n) : Prop where
  num : s1.num = nonEmpty s1.deques
  deques : s1.deques = upd s.deques m (s.deques m).tail
  cfg : s1.cfg = s.cfg
  out : s1.out = s.out
  view : ∀ i, ∃ q, view s i = q ++ view s1 i
  cand : ∃ c, WCand s1 p c
  front : FrontGe s1 s1.pivotTime p ∨ ∀ j, j ≠ p → FrontGe s1 s1.pivotTime j
  frontNe : p ≠ m → FrontGe s1 s1.pivotTime p

theorem front_moved {s : State n} (hne : ∀ i, s.deques i ≠ []) {m : Fin n} (hm : IsStart s.deques m) (T : Int) (p : Fin n)
    (h : FrontGe s T p ∨ ∀ j, j ≠ p → FrontGe s T j) :
    (FrontGe (moved s m) T p ∨ ∀ j, j ≠ p → FrontGe (moved s m) T j) ∧ (p ≠ m → FrontGe (moved s m) T p) := by
  have keep : ∀ j, j ≠ m → FrontGe s T j → FrontGe (moved s m) T j := by
    rintro j hj ⟨x, tl, h1, h2⟩
    exact ⟨x, tl, by simp only [moved]; rw [upd_ne _ _ hj]; exact h1, h2⟩
  have ge : ∀ j, T ≤ st s.deques j → FrontGe s T j := by
    intro j hj
    have := eq_cons_of_ne (hne j)
    exact ⟨_, _, this, hj⟩
  have le : ∀ j, FrontGe s T j → T ≤ st s.deques j := by
    rintro j ⟨x, tl, h1, h2⟩
    rw [st_cons h1]; exact h2
  by_cases hpm : p = m
  · subst hpm
    refine ⟨Or.inr ?_, fun h0 => absurd rfl h0⟩
    intro j hj
    apply keep j hj
    rcases h with h | h
    · apply ge; have := le p h; have := hm.1 j; omega
    · exact h j hj
  · have hp : FrontGe (moved s m) T p := by
      apply keep p hpm
      rcases h with h | h
      · exact h
      · apply ge; have := le m (h m (Ne.symm hpm)); have := hm.1 p; omega
    exact ⟨Or.inl hp, fun _ => hp⟩

theorem examined_wafter {s s1 : State n} {m e p : Fin n} (h : WInv s) (hne : ∀ i, s.deques i ≠ [])
    (hm : IsStart s.deques m) (he : IsEnd s.deques e) (hx : Examined s m e p s1) : WAfter s m p s1 := by
  have hfront : ∀ (t : State n), t.deques = s.deques → (∀ i, t.past i = []) →
      ∀ i, ∃ tl, view t i = (s.deques i).headD default :: tl := by
    intro t h1 h2 i
    refine ⟨(s.deques i).tail, ?_⟩
    unfold view
    rw [h2, h1, List.nil_append]
    exact eq_cons_of_ne (hne i)
  cases hx with
  | fresh h1 h2 h3 hp hs =>
    subst hs; subst hp
    have hfr := front_moved (s := { candidated (cleared s p) with candStart := st s.deques m, candEnd := st s.deques p, pivot := some p, pivotTime := st s.deques p }) hne hm (st s.deques p) p (Or.inl ⟨_, _, eq_cons_of_ne (hne p), Int.le_refl _⟩)
    refine ⟨rfl, rfl, rfl, rfl, ?_, ⟨fun i => (s.deques i).headD default, ?_⟩, hfr.1, hfr.2⟩
    · intro i
      refine ⟨[], ?_⟩
      unfold fresh; rw [view_moved]
      simp [view, candidated, cleared, h.noPivot h1 i]
    · refine (Shift.moved _ m).wcand ?_
      exact ⟨rfl, fun i => head?_of_ne (hne i), hfront _ rfl (fun _ => rfl), hm.1, he.1, ⟨p, rfl⟩⟩
  | kept h1 h2 hs =>
    subst hs
    obtain ⟨c, hc⟩ := h.pivoted p h1
    have hfr := front_moved (s := cleared s e) hne hm s.pivotTime p (h.front p h1)
    refine ⟨rfl, rfl, rfl, rfl, ?_, ⟨c, ?_⟩, hfr.1, hfr.2⟩
    · intro i; unfold kept; rw [view_moved]; exact ⟨[], rfl⟩
    · refine (Shift.moved _ m).wcand ?_
      exact ⟨hc.pivot, hc.cand, hc.head, hc.lo, hc.hi, hc.hiEx⟩
  | better h1 h2 hs =>
    subst hs
    have hfr := front_moved (s := { candidated (cleared s e) with candStart := st s.deques m, candEnd := st s.deques e }) hne hm s.pivotTime p (h.front p h1)
    refine ⟨rfl, rfl, rfl, rfl, ?_, ⟨fun i => (s.deques i).headD default, ?_⟩, hfr.1, hfr.2⟩
    · intro i
      refine ⟨s.past i, ?_⟩
      unfold better; rw [view_moved]; simp [view, candidated, cleared]
    · refine (Shift.moved _ m).wcand ?_
      exact ⟨h1, fun i => head?_of_ne (hne i), hfront _ rfl (fun _ => rfl), hm.1, he.1, ⟨e, rfl⟩⟩

/-- One iteration, with all deques non-empty. -/
theorem iterationT_spec [NeZero n] (boom : Nat → Bool) (fuel : Nat) {s : State n} (h : WInv s) (hne : ∀ i, s.deques i ≠ []) :
    ∃ m e, IsStart s.deques m ∧ IsEnd s.deques e ∧
    ((s.pivot = none ∧ (st s.deques e - st s.deques m > s.cfg.maxInterval ∨ s.hasDropped e = true) ∧
        approxIteration boom fuel s = .ok (deleted (cleared s e) m, false)) ∨
     ∃ s1 p, Examined s m e p s1 ∧ WAfter s m p s1 ∧ Outcome boom fuel s1 m p (approxIteration boom fuel s)) := by
  have hn : 0 < n := Nat.pos_of_ne_zero (NeZero.ne n)
  obtain ⟨e, he1, he⟩ := boundary s.deques hn hne true
  obtain ⟨m, hm1, hm⟩ := boundary s.deques hn hne false
  simp only [if_true] at he
  simp only [Bool.false_eq_true, if_false] at hm
  refine ⟨m, e, hm, he, ?_⟩
  have hit : approxIteration boom fuel s = match examine (cleared s e) e (st s.deques e) m (st s.deques m) with
      | .error f => .error f
      | .ok (false, s1) => .ok (s1, false)
      | .ok (true, s1) => approxConclude boom fuel s1 (st s.deques e) m := by
    unfold approxIteration
    rw [he1, hm1]
    rfl
  rw [hit]
  -- the part after the examination
  have hconc : ∀ s1 p, Examined s m e p s1 →
      WAfter s m p s1 ∧ Outcome boom fuel s1 m p (approxConclude boom fuel s1 (st s.deques e) m) := by
    intro s1 p hx
    have ha := examined_wafter h hne hm he hx
    refine ⟨ha, ?_⟩
    obtain ⟨c, hc⟩ := ha.cand
    have hview : ∀ i, view s1 i ≠ [] := by
      intro i; obtain ⟨tl, h⟩ := hc.head i; rw [h]; simp
    have hpub := publishT_outcome boom fuel m p ha.num hview
    unfold approxConclude
    rw [if_neg (by rw [hc.pivot]; simp)]
    by_cases hpm : some m = s1.pivot
    · rw [if_pos hpm]; exact hpub
    · rw [if_neg hpm]
      have hpm' : p ≠ m := by intro h0; subst h0; exact hpm hc.pivot.symm
      split
      · exact hpub
      · split
        · have hr0 := restored_zero s1 ha.num
          have hv := search_outcome boom fuel fuel (fun _ => 0) s1 m p c hpm' (ha.frontNe hpm') rfl ha.num hc
            (fun _ => Nat.zero_le _) (by rw [hr0]; omega)
          rw [hr0] at hv
          exact hv
        · exact .stays
  unfold examine
  cases hpiv : s.pivot with
  | none =>
    have hpiv' : (cleared s e).pivot = none := hpiv
    rw [hpiv']
    simp only
    have hdel : dequeDeleteFront (cleared s e) m = .ok (deleted (cleared s e) m) :=
      delete_eq (cleared s e) m h.num (hne m)
    by_cases hmax : st s.deques e - st s.deques m > s.cfg.maxInterval
    · left
      refine ⟨trivial, Or.inl hmax, ?_⟩
      rw [if_pos (by exact hmax), hdel]; rfl
    · by_cases hdr : s.hasDropped e = true
      · left
        refine ⟨trivial, Or.inr hdr, ?_⟩
        rw [if_neg (by exact hmax), if_pos (by simpa [cleared] using hdr), hdel]; rfl
      · right
        rw [if_neg (by exact hmax), if_neg (by simpa [cleared] using hdr), makeCandidate_eq (cleared s e) hne]
        simp only
        rw [move_eq _ m (by exact h.num) (by exact hne m)]
        have hx : Examined s m e e (fresh s m e) := .fresh hpiv (by omega) (by simpa using hdr) rfl rfl
        exact ⟨_, _, hx, hconc _ _ hx⟩
  | some p0 =>
    right
    have hpiv' : (cleared s e).pivot = some p0 := hpiv
    rw [hpiv']
    simp only
    by_cases hb : s.cfg.scale (st s.deques e - s.candEnd) ≥ st s.deques m - s.candStart
    · rw [if_pos (by exact hb), move_eq (cleared s e) m h.num (hne m)]
      have hx : Examined s m e p0 (kept s m e) := .kept hpiv hb rfl
      exact ⟨_, _, hx, hconc _ _ hx⟩
    · rw [if_neg (by exact hb), makeCandidate_eq (cleared s e) hne]
      simp only
      rw [move_eq _ m (by exact h.num) (by exact hne m)]
      have hx : Examined s m e p0 (better s m e) := .better hpiv (by omega) rfl
      exact ⟨_, _, hx, hconc _ _ hx⟩

end MF.Throw
