import Verif.Proofs.Approx1
/-
Helper lemmas about the ApproximateTime model, part 2: the virtual search and one iteration of `process`.
-/
namespace MF.Approx
open MF.Epsilon (nonEmpty nonEmpty_eq_iff nonEmpty_upd nonEmpty_le total)

variable {n : Nat}

/-- Consecutive messages are at least `d` apart. -/
def Apart (d : Int) (l : List Ev) : Prop := l.Pairwise (fun a b => a.stamp + d ≤ b.stamp)

/-- Set `T` is not better than a candidate with boundaries `cs`, `ce`: for a monotone `f` this says
`f (end T - ce) ≥ start T - cs`. -/
def NotBetter (f : Int → Int) (cs ce : Int) (T : Fin n → Ev) : Prop :=
  ∃ a b, f ((T b).stamp - ce) ≥ (T a).stamp - cs

/-- What is known while a candidate `c` with pivot `p` is held. -/
structure CandInv (s : State n) (p : Fin n) (c : Fin n → Ev) : Prop where
  pivot : s.pivot = some p
  cand : ∀ i, s.cand i = some (c i)
  head : ∀ i, ∃ tl, view s i = c i :: tl
  pivotTime : (c p).stamp = s.pivotTime
  lo : ∀ i, s.candStart ≤ (c i).stamp
  hi : ∀ i, (c i).stamp ≤ s.candEnd
  loEx : ∃ i, (c i).stamp = s.candStart
  hiEx : ∃ i, (c i).stamp = s.candEnd
  noDrop : ∀ i, s.hasDropped i = false

/-- Invariant at the head of the loop of `process`. -/
structure LoopInv (s : State n) : Prop where
  num : s.num = nonEmpty s.deques
  noPivot : s.pivot = none → ∀ i, s.past i = []
  pivoted : ∀ p, s.pivot = some p → ∃ c, CandInv s p c ∧ s.past p = []

theorem st_mem {d : Fin n → List Ev} {i : Fin n} {e : Ev} {l fut : List Ev} (hd : d i ≠ []) (hl : l = d i ++ fut)
    (hs : TimeSorted l) (he : e ∈ l) : st d i ≤ e.stamp := by
  cases h : d i with
  | nil => exact absurd h hd
  | cons x tl =>
    rw [st_cons h]
    rw [h, List.cons_append] at hl
    subst hl
    rcases List.mem_cons.1 he with h1 | h1
    · subst h1; exact Int.le_refl _
    · exact (List.pairwise_cons.1 hs).1 e h1

theorem Apart.sorted {d : Int} (hd : 0 ≤ d) {l : List Ev} (h : Apart d l) : TimeSorted l := by
  unfold Apart at h
  exact h.imp (by intro a b h; omega)

/-! ### Virtual times -/

/-- The value of `getVirtualTime` when it succeeds. -/
def vt (s : State n) (i : Fin n) : Int :=
  match s.deques i with
  | [] =>
    match (s.past i).getLast? with
    | none => 0
    | some last => if last.stamp + s.cfg.lower i > s.pivotTime then last.stamp + s.cfg.lower i else s.pivotTime
  | e :: _ => e.stamp

theorem getVirtualTime_eq (s : State n) (i : Fin n) (hp : s.pivot ≠ none) (hv : view s i ≠ []) :
    getVirtualTime s i = .ok (vt s i) := by
  unfold getVirtualTime vt
  rw [if_neg hp]
  cases hd : s.deques i with
  | cons e tl => rfl
  | nil =>
    simp only
    cases hl : (s.past i).getLast? with
    | none =>
      rw [List.getLast?_eq_none_iff] at hl
      exact absurd (by simp [view, hl, hd]) hv
    | some last => simp only; split <;> rfl

theorem virtualTimes_fold (s : State n) (h : ∀ i, getVirtualTime s i = .ok (vt s i)) (l : List (Fin n)) (t : Fin n → Int) :
    ∃ t', l.foldlM (virtualTimesStep s) t = .ok t' ∧ (∀ i ∈ l, t' i = vt s i) ∧ ∀ i, t i = vt s i → t' i = vt s i := by
  induction l generalizing t with
  | nil => exact ⟨t, rfl, by simp, fun i h => h⟩
  | cons a l ih =>
    rw [List.foldlM_cons, virtualTimesStep, h a]
    simp only [bind, Except.bind]
    obtain ⟨t', h1, h2, h3⟩ := ih (upd t a (vt s a))
    refine ⟨t', h1, ?_, ?_⟩
    · intro i hi
      rcases List.mem_cons.1 hi with hi | hi
      · subst hi; exact h3 i (by simp)
      · exact h2 i hi
    · intro i hi
      by_cases hia : i = a
      · subst hia; exact h3 i (by simp)
      · exact h3 i (by rw [upd_ne _ _ hia]; exact hi)

theorem getVirtualTimes_eq (s : State n) (h : ∀ i, getVirtualTime s i = .ok (vt s i)) : getVirtualTimes s = .ok (vt s) := by
  obtain ⟨t', h1, h2, _⟩ := virtualTimes_fold s h (List.finRange n) (fun _ => 0)
  unfold getVirtualTimes
  rw [h1]
  congr 1
  funext i; exact h2 i (List.mem_finRange i)

theorem virtualBoundary [NeZero n] (s : State n) (isEnd : Bool) (h : ∀ i, getVirtualTime s i = .ok (vt s i)) :
    ∃ m, getVirtualCandidateBoundary s isEnd = .ok (m, vt s m) ∧
      if isEnd then ∀ k, vt s k ≤ vt s m else ∀ k, vt s m ≤ vt s k := by
  unfold getVirtualCandidateBoundary
  rw [getVirtualTimes_eq s h]
  obtain ⟨m, h1, h2⟩ := virtualBoundary_fold (vt s) isEnd (List.finRange n) 0
  refine ⟨m, ?_, ?_⟩
  · simp only; rw [h1]
  · cases isEnd with
    | true => simp only [if_true] at h2 ⊢; exact fun k => h2 k (Or.inr (List.mem_finRange k))
    | false => simp only [Bool.false_eq_true, if_false] at h2 ⊢; exact fun k => h2 k (Or.inr (List.mem_finRange k))

/-- A message that is not older than what the deque and the bound allow is not older than the virtual time, except that
an exhausted input is only known to stay above its rate bound. -/
theorem vt_le {s : State n} {p : Fin n} {fut : Fin n → List Ev} (hl : ∀ i, 0 ≤ s.cfg.lower i)
    (hap : ∀ i, Apart (s.cfg.lower i) (view s i ++ fut i)) (hne : ∀ i, view s i ≠ [])
    {T : Fin n → Ev} (hTp : (T p).stamp = s.pivotTime) (hT : ∀ i, T i ∈ s.deques i ++ fut i) (k : Fin n) :
    ∃ b, vt s k ≤ (T b).stamp := by
  unfold vt
  cases hd : s.deques k with
  | cons e tl =>
    simp only
    refine ⟨k, ?_⟩
    have h1 := hT k
    rw [hd] at h1
    have hs := (hap k).sorted (hl k)
    unfold view at hs
    rw [hd, List.append_assoc] at hs
    have hs := (List.pairwise_append.1 hs).2.1
    rcases List.mem_cons.1 h1 with h1 | h1
    · rw [h1]; exact Int.le_refl _
    · exact (List.pairwise_cons.1 hs).1 _ h1
  | nil =>
    simp only
    cases hla : (s.past k).getLast? with
    | none =>
      rw [List.getLast?_eq_none_iff] at hla
      exact absurd (by simp [view, hla, hd]) (hne k)
    | some last =>
      simp only
      split
      · refine ⟨k, ?_⟩
        have h1 := hT k
        rw [hd] at h1
        have hap := hap k
        unfold view at hap
        rw [hd, List.append_nil] at hap
        have := (List.pairwise_append.1 hap).2.2 last (List.mem_of_getLast? hla) (T k) (by simpa using h1)
        exact this
      · exact ⟨p, by omega⟩

/-! ### The virtual search -/

/-- The state before the virtual moves. -/
def restored (moves : Fin n → Nat) (s : State n) : State n :=
  { s with past := fun i => (s.past i).take ((s.past i).length - moves i),
           deques := fun i => (s.past i).drop ((s.past i).length - moves i) ++ s.deques i,
           num := (nonEmpty (fun i => (s.past i).drop ((s.past i).length - moves i) ++ s.deques i) : Int) }

theorem restored_zero (s : State n) (h : s.num = nonEmpty s.deques) : restored (fun _ => 0) s = s := by
  unfold restored
  simp
  rw [← h]

theorem published_congr (s t : State n) (h : view s = view t) (h1 : s.cand = t.cand)
    (h2 : { s with past := t.past, deques := t.deques, num := t.num } = t) : published s = published t := by
  unfold published
  rw [h, h1]
  rw [← h2]

theorem view_restored (moves : Fin n → Nat) (s : State n) : view (restored moves s) = view s := by
  funext i
  simp [view, restored, ← List.append_assoc]

theorem published_restored (moves : Fin n → Nat) (s : State n) : published (restored moves s) = published s := by
  unfold published
  rw [view_restored]
  rfl

theorem restored_moved (moves : Fin n → Nat) (s : State n) (m : Fin n) (hm : s.deques m ≠ [])
    (_ : ∀ i, moves i ≤ (s.past i).length) :
    restored (upd moves m (moves m + 1)) (moved s m) = restored moves s := by
  have hp : ∀ i, ((moved s m).past i).take (((moved s m).past i).length - (upd moves m (moves m + 1) i)) =
      (s.past i).take ((s.past i).length - moves i) := by
    intro i
    by_cases hi : i = m
    · subst hi
      cases hd : s.deques i with
      | nil => exact absurd hd hm
      | cons e tl =>
        simp only [moved, upd_same, hd, List.take_succ_cons, List.take_zero, List.length_append, List.length_singleton]
        rw [show (s.past i).length + 1 - (moves i + 1) = (s.past i).length - moves i by omega,
          List.take_append_of_le_length (by omega)]
    · simp [moved, upd_ne _ _ hi]
  have hq : ∀ i, ((moved s m).past i).drop (((moved s m).past i).length - (upd moves m (moves m + 1) i)) ++ (moved s m).deques i =
      (s.past i).drop ((s.past i).length - moves i) ++ s.deques i := by
    intro i
    by_cases hi : i = m
    · subst hi
      cases hd : s.deques i with
      | nil => exact absurd hd hm
      | cons e tl =>
        simp only [moved, upd_same, hd, List.take_succ_cons, List.take_zero, List.length_append, List.length_singleton,
          List.tail_cons]
        rw [show (s.past i).length + 1 - (moves i + 1) = (s.past i).length - moves i by omega,
          List.drop_append_of_le_length (by omega)]
        simp
    · simp [moved, upd_ne _ _ hi]
  unfold restored
  rw [funext hp, funext hq]
  rfl

/-- The candidate held by `s` cannot be beaten by any set of messages that are still in the deques or arrive later, as
long as the inputs respect their bounds. -/
def Unbeatable (s : State n) (p : Fin n) : Prop :=
  (∀ x y, x ≤ y → s.cfg.scale x ≤ s.cfg.scale y) → (∀ i, 0 ≤ s.cfg.lower i) →
  ∀ fut : Fin n → List Ev, (∀ i, Apart (s.cfg.lower i) (view s i ++ fut i)) →
  ∀ T : Fin n → Ev, (T p).stamp = s.pivotTime → (∀ i, T i ∈ s.deques i ++ fut i) →
    NotBetter s.cfg.scale s.candStart s.candEnd T

/-- The candidate held by `s` can still be beaten: there is a future `fut`, of at most one message per input and none on
the pivot's, that respects the bounds and with which a better set `T` contains the pivot message. -/
def Beatable (s : State n) (p : Fin n) : Prop :=
  ∃ (fut : Fin n → List Ev) (T : Fin n → Ev) (a b : Fin n),
    (∀ i, fut i = [] ∨ ∃ x, fut i = [x] ∧ ∀ last, (view s i).getLast? = some last → last.stamp + s.cfg.lower i ≤ x.stamp) ∧
    fut p = [] ∧ (∀ i, T i ∈ s.deques i ++ fut i) ∧ (T p).stamp = s.pivotTime ∧
    (∀ i, (T a).stamp ≤ (T i).stamp) ∧ (∀ i, (T i).stamp ≤ (T b).stamp) ∧
    s.cfg.scale ((T b).stamp - s.candEnd) < (T a).stamp - s.candStart

/-- What the virtual times stand for: the front message, or a message that may come on an exhausted input. -/
def vmsg (s : State n) (i : Fin n) : Ev :=
  match s.deques i with
  | [] => ⟨0, vt s i⟩
  | e :: _ => e

def vfut (s : State n) (i : Fin n) : List Ev :=
  match s.deques i with
  | [] => [⟨0, vt s i⟩]
  | _ :: _ => []

theorem vmsg_stamp (s : State n) (i : Fin n) : (vmsg s i).stamp = vt s i := by
  unfold vmsg vt
  cases s.deques i <;> rfl

theorem beatable_of_vt {s : State n} {p e m : Fin n} (hp : s.deques p ≠ []) (hvp : vt s p = s.pivotTime)
    (he : ∀ k, vt s k ≤ vt s e) (hm : ∀ k, vt s m ≤ vt s k)
    (h : s.cfg.scale (vt s e - s.candEnd) < vt s m - s.candStart) : Beatable s p := by
  refine ⟨vfut s, vmsg s, m, e, ?_, ?_, ?_, by rw [vmsg_stamp]; exact hvp, ?_, ?_, by rw [vmsg_stamp, vmsg_stamp]; exact h⟩
  · intro i
    unfold vfut
    cases hd : s.deques i with
    | cons x tl => exact Or.inl rfl
    | nil =>
      refine Or.inr ⟨_, rfl, ?_⟩
      intro last hl
      unfold view at hl
      rw [hd, List.append_nil] at hl
      unfold vt
      rw [hd]
      simp only
      rw [hl]
      simp only
      split <;> omega
  · unfold vfut
    cases hd : s.deques p with
    | cons x tl => rfl
    | nil => exact absurd hd hp
  · intro i
    unfold vfut vmsg
    cases hd : s.deques i with
    | cons x tl => simp
    | nil => simp
  · intro i; rw [vmsg_stamp, vmsg_stamp]; exact hm i
  · intro i; rw [vmsg_stamp, vmsg_stamp]; exact he i

theorem beatable_moved {s : State n} {p m : Fin n} (h : Beatable (moved s m) p) : Beatable s p := by
  obtain ⟨fut, T, a, b, h1, h2, h3, h4⟩ := h
  refine ⟨fut, T, a, b, ?_, h2, ?_, h4⟩
  · rw [view_moved] at h1; exact h1
  · intro i
    have := h3 i
    by_cases hi : i = m
    · subst hi
      simp only [moved, upd_same] at this
      rcases List.mem_append.1 this with h5 | h5
      · exact List.mem_append_left _ (List.mem_of_mem_tail h5)
      · exact List.mem_append_right _ h5
    · simpa only [moved, upd_ne _ _ hi] using this

theorem total_tail (d : Fin n → List Ev) (m : Fin n) (hm : d m ≠ []) : total (upd d m (d m).tail) < total d := by
  unfold total
  apply MF.Epsilon.sum_map_lt
  · intro i _
    by_cases hi : i = m
    · subst hi; simp
    · rw [upd_ne _ _ hi]; exact Nat.le_refl _
  · refine ⟨m, List.mem_finRange m, ?_⟩
    rw [upd_same]
    cases h : d m with
    | nil => exact absurd h hm
    | cons e tl => simp

theorem moved_candInv {s : State n} {p : Fin n} {c : Fin n → Ev} (h : CandInv s p c) (m : Fin n) :
    CandInv (moved s m) p c := by
  refine ⟨h.pivot, h.cand, ?_, h.pivotTime, h.lo, h.hi, h.loEx, h.hiEx, h.noDrop⟩
  rw [view_moved]; exact h.head

theorem virtualSearch_spec [NeZero n] (fuel : Nat) : ∀ (moves : Fin n → Nat) (s : State n) (p : Fin n) (c : Fin n → Ev),
    s.num = nonEmpty s.deques → CandInv s p c → s.past p = [] → (∀ i, moves i ≤ (s.past i).length) →
    (virtualSearch fuel (restored moves s).num moves s = .error .hang ∧ fuel ≤ total s.deques) ∨
    (virtualSearch fuel (restored moves s).num moves s = .ok (restored moves s) ∧ Beatable s p) ∨
    (virtualSearch fuel (restored moves s).num moves s = .ok (published (restored moves s)) ∧ Unbeatable s p) := by
  induction fuel with
  | zero => intro moves s p c _ _ _ _; left; exact ⟨rfl, Nat.zero_le _⟩
  | succ fuel ih =>
    intro moves s p c hnum hc hp hmv
    have hne : ∀ i, view s i ≠ [] := by
      intro i; obtain ⟨tl, h⟩ := hc.head i; rw [h]; simp
    have hpv : s.pivot ≠ none := by rw [hc.pivot]; simp
    have hvt : ∀ i, getVirtualTime s i = .ok (vt s i) := fun i => getVirtualTime_eq s i hpv (hne i)
    have hdp : ∃ tl, s.deques p = c p :: tl := by
      obtain ⟨tl, h⟩ := hc.head p
      unfold view at h; rw [hp] at h; exact ⟨tl, h⟩
    have hvp : vt s p = s.pivotTime := by
      obtain ⟨tl, h⟩ := hdp
      unfold vt; rw [h]; exact hc.pivotTime
    obtain ⟨e, he1, he2⟩ := virtualBoundary s true hvt
    obtain ⟨m, hm1, hm2⟩ := virtualBoundary s false hvt
    simp only [if_true] at he2
    simp only [Bool.false_eq_true, if_false] at hm2
    unfold virtualSearch
    rw [he1, hm1]
    simp only
    by_cases h1 : s.cfg.scale (vt s e - s.candEnd) ≥ s.pivotTime - s.candStart
    · rw [if_pos h1, publish_eq s hne, published_restored]
      refine Or.inr (Or.inr ⟨rfl, ?_⟩)
      intro hmono hlow fut hap T hTp hT
      obtain ⟨b, hb⟩ := vt_le hlow hap hne hTp hT e
      refine ⟨p, b, ?_⟩
      have := hmono (vt s e - s.candEnd) ((T b).stamp - s.candEnd) (by omega)
      omega
    · rw [if_neg h1]
      by_cases h2 : s.cfg.scale (vt s e - s.candEnd) < vt s m - s.candStart
      · rw [if_pos h2, recoverAllN_eq moves s hmv]
        right; left
        refine ⟨?_, beatable_of_vt (by obtain ⟨tl, h⟩ := hdp; rw [h]; simp) hvp he2 hm2 h2⟩
        simp only
        rw [if_pos (by rfl)]
        rfl
      · rw [if_neg h2]
        have hlt : vt s m < s.pivotTime := by omega
        have hmp : ¬ some m = s.pivot := by
          rw [hc.pivot]; intro h; cases h; omega
        rw [if_neg hmp, if_neg (by omega)]
        have hdm : s.deques m ≠ [] := by
          intro h0
          unfold vt at hlt
          rw [h0] at hlt
          simp only at hlt
          cases hla : (s.past m).getLast? with
          | none =>
            rw [List.getLast?_eq_none_iff] at hla
            exact hne m (by simp [view, hla, h0])
          | some last => rw [hla] at hlt; simp only at hlt; split at hlt <;> omega
        rw [move_eq s m hnum hdm]
        simp only
        have hmp' : p ≠ m := by intro h; subst h; exact hmp hc.pivot.symm
        have hrest := restored_moved moves s m hdm hmv
        have ih := ih (upd moves m (moves m + 1)) (moved s m) p c (by rfl) (moved_candInv hc m)
          (by simp only [moved]; rw [upd_ne _ _ hmp']; exact hp) (by
            intro i
            by_cases hi : i = m
            · subst hi
              cases hd : s.deques i with
              | nil => exact absurd hd hdm
              | cons x tl => simp [moved, hd]; exact hmv i
            · simp [moved, upd_ne _ _ hi]; exact hmv i)
        rw [hrest] at ih
        rcases ih with ⟨ih, hf⟩ | ⟨ih, hB⟩ | ⟨ih, hU⟩
        · left
          refine ⟨ih, ?_⟩
          have : total (moved s m).deques < total s.deques := total_tail s.deques m hdm
          omega
        · right; left; exact ⟨ih, beatable_moved hB⟩
        · right; right
          refine ⟨ih, ?_⟩
          intro hmono hlow fut hap T hTp hT
          have hTm := hT m
          cases hd : s.deques m with
          | nil => exact absurd hd hdm
          | cons x tl =>
            rw [hd] at hTm
            rcases List.mem_cons.1 hTm with hTm | hTm
            · obtain ⟨b, hb⟩ := vt_le hlow hap hne hTp hT e
              refine ⟨m, b, ?_⟩
              have := hmono (vt s e - s.candEnd) ((T b).stamp - s.candEnd) (by omega)
              have hvm : vt s m = x.stamp := by unfold vt; rw [hd]
              rw [hTm]; omega
            · refine hU hmono hlow fut ?_ T hTp ?_
              · rw [view_moved]; exact hap
              · intro i
                by_cases hi : i = m
                · subst hi; simp only [moved, upd_same, hd, List.tail_cons]; exact hTm
                · simp only [moved, upd_ne _ _ hi]; exact hT i

end MF.Approx
