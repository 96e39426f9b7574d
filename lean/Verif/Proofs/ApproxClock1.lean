import Verif.Model.ApproxClock
import Verif.Proofs.Approx5
/-
Helper lemmas about ApproximateTime under messages of different clock types, part 1: boundaries, the virtual search.
-/
namespace MF.ClockMix
open Approx (view st vt CandInv LoopInv moved published)
open Epsilon (nonEmpty)

variable {n : Nat}

/-! ### Exits by exception -/

/-- The result of a function with exits by exception, compared with the function that knows no clock types: the same state (which
satisfies `P`), an exception that leaves a state satisfying `T`, or the same fault. -/
inductive Sim (P T : PState n → Prop) : Except Fault (PState n × Bool) → Except Fault (Approx.State n) → Prop where
  | done (s' : PState n) (h : P s') : Sim P T (.ok (s', false)) (.ok s'.base)
  | threw (s' : PState n) (r : Except Fault (Approx.State n)) (h : T s') : Sim P T (.ok (s', true)) r
  | fault (f : Fault) : Sim P T (.error f) (.error f)

theorem Sim.imp {P T P' T' : PState n → Prop} {r : Except Fault (PState n × Bool)} {r' : Except Fault (Approx.State n)}
    (h : Sim P T r r') (hP : ∀ s, P s → P' s) (hT : ∀ s, T s → T' s) : Sim P' T' r r' := by
  cases h with
  | done s' h => exact .done s' (hP s' h)
  | threw s' r0 h => exact .threw s' _ (hT s' h)
  | fault f => exact .fault f

theorem sim_sub {P T : PState n → Prop} {s : PState n} {a b : Time} {k : Int → Except Fault (PState n × Bool)}
    {r : Except Fault (Approx.State n)} (hT : a.source ≠ b.source → T s)
    (hk : a.source = b.source → Sim P T (k (a.ns - b.ns)) r) : Sim P T (orThrow s (timeSub a b) k) r := by
  unfold timeSub
  by_cases h : a.source = b.source
  · rw [if_pos h]; exact hk h
  · rw [if_neg h]; exact .threw s r (hT h)

theorem sim_lt {P T : PState n → Prop} {s : PState n} {a b : Time} {k : Bool → Except Fault (PState n × Bool)}
    {r : Except Fault (Approx.State n)} (hT : a.source ≠ b.source → T s)
    (hk : a.source = b.source → Sim P T (k (decide (a.ns < b.ns))) r) : Sim P T (orThrow s (timeLt a b) k) r := by
  unfold timeLt
  by_cases h : a.source = b.source
  · rw [if_pos h]; exact hk h
  · rw [if_neg h]; exact .threw s r (hT h)

/-! ### The boundaries of the front messages -/

/-- The clock type of the front message. -/
def fc (src : Nat → Source) (d : Fin n → List Ev) (i : Fin n) : Source := src ((d i).headD default).id

theorem boundary_fold (src : Nat → Source) (d : Fin n → List Ev) (hd : ∀ i, d i ≠ []) (isEnd : Bool) (l : List (Fin n))
    (h0 : ∀ i ∈ l, i.val ≠ 0) : ∀ (j : Fin n) (t : Time),
    (l.foldlM (checkBoundary src d isEnd) (some (j, t)) = .error .threw ∧ ∃ i, fc src d i ≠ t.source) ∨
    ∃ j' ns', l.foldlM (checkBoundary src d isEnd) (some (j, t)) = .ok (some (j', ⟨ns', t.source⟩)) ∧
      l.foldlM (Approx.checkBoundary d isEnd) (some (j, t.ns)) = .ok (some (j', ns')) ∧ ∀ i ∈ l, fc src d i = t.source := by
  induction l with
  | nil => intro j t; right; exact ⟨j, t.ns, rfl, rfl, by simp⟩
  | cons a l ih =>
    intro j t
    have ih := ih (fun i hi => h0 i (by simp [hi]))
    have ha := h0 a (by simp)
    obtain ⟨e, tl, he⟩ := List.exists_cons_of_ne_nil (hd a)
    have hfa : fc src d a = src e.id := by unfold fc; rw [he]; rfl
    rw [List.foldlM_cons, List.foldlM_cons]
    have h1 : checkBoundary src d isEnd (some (j, t)) a = match timeLt (timeOf src e) t with
        | .error f => .error f
        | .ok b => if (b ^^ isEnd) then .ok (some (a, timeOf src e)) else .ok (some (j, t)) := by
      unfold checkBoundary; rw [he]; dsimp only; rw [if_neg ha]; first | done | rfl
    have h2 : Approx.checkBoundary d isEnd (some (j, t.ns)) a =
        if (decide (e.stamp < t.ns) ^^ isEnd) then .ok (some (a, e.stamp)) else .ok (some (j, t.ns)) := by
      unfold Approx.checkBoundary; rw [he]; dsimp only; rw [if_neg ha]
    rw [h1, h2]
    unfold timeLt
    by_cases hs : (timeOf src e).source = t.source
    · rw [if_pos hs]
      have hs' : src e.id = t.source := hs
      dsimp only
      rw [show (timeOf src e).ns = e.stamp from rfl]
      by_cases hb : (decide (e.stamp < t.ns) ^^ isEnd) = true
      · rw [if_pos hb, if_pos hb]
        simp only [bind, Except.bind]
        rcases ih a (timeOf src e) with ⟨g1, i, g2⟩ | ⟨j', ns', g1, g2, g3⟩
        · left; exact ⟨g1, i, by rw [← hs]; exact g2⟩
        · right
          rw [hs] at g1
          refine ⟨j', ns', g1, g2, ?_⟩
          intro i hi
          rcases List.mem_cons.1 hi with hi | hi
          · rw [hi, hfa, hs']
          · rw [g3 i hi, hs]
      · rw [if_neg hb, if_neg hb]
        simp only [bind, Except.bind]
        rcases ih j t with ⟨g1, i, g2⟩ | ⟨j', ns', g1, g2, g3⟩
        · left; exact ⟨g1, i, g2⟩
        · right
          refine ⟨j', ns', g1, g2, ?_⟩
          intro i hi
          rcases List.mem_cons.1 hi with hi | hi
          · rw [hi, hfa, hs']
          · exact g3 i hi
    · rw [if_neg hs]
      left
      exact ⟨rfl, a, by rw [hfa]; exact hs⟩

/-- The search for a boundary throws exactly if the front messages are of different clock types; otherwise it finds what the
search without clock types finds. -/
theorem boundary_cases (src : Nat → Source) (d : Fin n → List Ev) (hn : 0 < n) (hd : ∀ i, d i ≠ []) (isEnd : Bool) :
    (candidateBoundary src d isEnd = .error .threw ∧ ∃ i j, fc src d i ≠ fc src d j) ∨
    ∃ m c, candidateBoundary src d isEnd = .ok (m, ⟨st d m, c⟩) ∧ Approx.getCandidateBoundary d isEnd = .ok (m, st d m) ∧
      ∀ i, fc src d i = c := by
  obtain ⟨m, hm, _⟩ := Approx.boundary d hn hd isEnd
  obtain ⟨k, rfl⟩ : ∃ k, n = k + 1 := ⟨n - 1, by omega⟩
  obtain ⟨e, tl, he⟩ := List.exists_cons_of_ne_nil (hd 0)
  have hfa : fc src d 0 = src e.id := by unfold fc; rw [he]; rfl
  have h1 : checkBoundary src d isEnd none 0 = .ok (some (0, timeOf src e)) := by
    unfold checkBoundary; rw [he]; rfl
  have h2 : Approx.checkBoundary d isEnd none 0 = .ok (some (0, e.stamp)) := by
    unfold Approx.checkBoundary; rw [he]; rfl
  have h0 : ∀ i ∈ (List.finRange k).map Fin.succ, i.val ≠ 0 := by
    intro i hi
    rw [List.mem_map] at hi
    obtain ⟨j, _, rfl⟩ := hi
    simp
  rcases boundary_fold src d hd isEnd _ h0 0 (timeOf src e) with ⟨g1, i, g2⟩ | ⟨j', ns', g1, g2, g3⟩
  · left
    refine ⟨?_, i, 0, ?_⟩
    · unfold candidateBoundary
      rw [List.finRange_succ, List.foldlM_cons, h1]
      simp only [bind, Except.bind]
      rw [g1]
    · rw [hfa]; exact g2
  · right
    rw [show (timeOf src e).ns = e.stamp from rfl] at g2
    have hb : Approx.getCandidateBoundary d isEnd = .ok (j', ns') := by
      unfold Approx.getCandidateBoundary
      rw [List.finRange_succ, List.foldlM_cons, h2]
      simp only [bind, Except.bind]
      rw [g2]
    rw [hb] at hm
    simp only [Except.ok.injEq, Prod.mk.injEq] at hm
    obtain ⟨rfl, rfl⟩ := hm
    refine ⟨j', (timeOf src e).source, ?_, ?_, ?_⟩
    · unfold candidateBoundary
      rw [List.finRange_succ, List.foldlM_cons, h1]
      simp only [bind, Except.bind]
      rw [g1]
    · exact hb
    · intro i
      have hi := List.mem_finRange i
      rw [List.finRange_succ] at hi
      rcases List.mem_cons.1 hi with hi | hi
      · rw [hi, hfa]; rfl
      · exact g3 i hi

/-! ### Invariants -/

/-- Every set output is of one clock type, and so are the candidate and the times kept with it. -/
structure Clk (src : Nat → Source) (s : PState n) : Prop where
  out : ∀ t ∈ s.base.out, ∃ c, ∀ i x, t i = some x → src x.id = c
  cur : s.base.pivot ≠ none → s.startSrc = s.pivotSrc ∧ s.endSrc = s.pivotSrc ∧
    ∀ i x, s.base.cand i = some x → src x.id = s.pivotSrc

/-- All messages held are of clock type `c`. -/
def AllClk (src : Nat → Source) (c : Source) (b : Approx.State n) : Prop := ∀ i, ∀ x ∈ view b i, src x.id = c

theorem pivotSrc_of_all [NeZero n] {src : Nat → Source} {c : Source} {s : PState n} (hk : Clk src s) (hi : LoopInv s.base)
    (h : AllClk src c s.base) (hp : s.base.pivot ≠ none) : s.pivotSrc = c ∧ s.startSrc = c ∧ s.endSrc = c := by
  obtain ⟨h1, h2, h3⟩ := hk.cur hp
  have : s.pivotSrc = c := by
    cases hpv : s.base.pivot with
    | none => exact absurd hpv hp
    | some p =>
      obtain ⟨cd, hc, _⟩ := hi.pivoted p hpv
      rw [← h3 0 (cd 0) (hc.cand 0)]
      obtain ⟨tl, htl⟩ := hc.head 0
      exact h 0 (cd 0) (by rw [htl]; simp)
  exact ⟨this, by rw [h1, this], by rw [h2, this]⟩

/-- An exception left `s'` when the work began in `s`. -/
structure Cut (src : Nat → Source) (s s' : PState n) : Prop where
  inv : LoopInv s'.base
  clk : Clk src s'
  view : ∀ i, ∃ q, view s.base i = q ++ view s'.base i
  out : s'.base.out = s.base.out
  cfg : s'.base.cfg = s.base.cfg
  mixed : ∀ c, ¬ AllClk src c s.base

theorem Cut.self {src : Nat → Source} {s : PState n} (hi : LoopInv s.base) (hk : Clk src s) (hm : ∀ c, ¬ AllClk src c s.base) :
    Cut src s s := ⟨hi, hk, fun _ => ⟨[], rfl⟩, rfl, rfl, hm⟩

/-! ### Virtual times -/

theorem virtualTime_cases (src : Nat → Source) (s : PState n) (i : Fin n) (hp : s.base.pivot ≠ none) (hv : view s.base i ≠ []) :
    (virtualTime src s i = .error .threw ∧ ∀ c, s.pivotSrc = c → ¬ AllClk src c s.base) ∨
    ∃ c', virtualTime src s i = .ok ⟨vt s.base i, c'⟩ ∧ ∀ c, s.pivotSrc = c → AllClk src c s.base → c' = c := by
  unfold virtualTime vt
  rw [if_neg hp]
  cases hd : s.base.deques i with
  | cons e tl =>
    right
    refine ⟨src e.id, rfl, ?_⟩
    intro c _ h
    exact h i e (by unfold Approx.view; rw [hd]; simp)
  | nil =>
    dsimp only
    cases hl : (s.base.past i).getLast? with
    | none =>
      rw [List.getLast?_eq_none_iff] at hl
      exact absurd (by simp [Approx.view, hl, hd]) hv
    | some last =>
      dsimp only
      have hmem : last ∈ view s.base i := by
        unfold Approx.view; exact List.mem_append_left _ (List.mem_of_getLast? hl)
      unfold timeLt
      by_cases hs : s.pivotTime.source = src last.id
      · rw [if_pos hs]
        right
        have hs' : s.pivotSrc = src last.id := hs
        refine ⟨s.pivotSrc, ?_, fun c h _ => h⟩
        dsimp only
        rw [show s.pivotTime.ns = s.base.pivotTime from rfl]
        by_cases hb : s.base.pivotTime < last.stamp + s.base.cfg.lower i
        · rw [if_pos (by simpa using hb), if_pos (by omega), hs']
        · rw [if_neg (by simpa using hb), if_neg (by omega)]; rfl
      · rw [if_neg hs]
        left
        refine ⟨rfl, ?_⟩
        intro c hc h
        apply hs
        rw [h i last hmem, ← hc]; rfl

theorem virtualTimes_cases (src : Nat → Source) (s : PState n) (hp : s.base.pivot ≠ none) (hv : ∀ i, view s.base i ≠ []) :
    (virtualTimes src s = .error .threw ∧ ∀ c, s.pivotSrc = c → ¬ AllClk src c s.base) ∨
    ∃ t, virtualTimes src s = .ok t ∧ ∀ i, (t i).ns = vt s.base i ∧ ∀ c, s.pivotSrc = c → AllClk src c s.base → (t i).source = c := by
  have key : ∀ (l : List (Fin n)) (t : Fin n → Time),
      (l.foldlM (virtualTimesStep src s) t = .error .threw ∧ ∀ c, s.pivotSrc = c → ¬ AllClk src c s.base) ∨
      ∃ t', l.foldlM (virtualTimesStep src s) t = .ok t' ∧ ∀ i,
        ((t' i).ns = vt s.base i ∧ ∀ c, s.pivotSrc = c → AllClk src c s.base → (t' i).source = c) ∨ (i ∉ l ∧ t' i = t i) := by
    intro l
    induction l with
    | nil => intro t; right; exact ⟨t, rfl, fun i => Or.inr ⟨by simp, rfl⟩⟩
    | cons a l ih =>
      intro t
      rw [List.foldlM_cons]
      rcases virtualTime_cases src s a hp (hv a) with ⟨h1, h2⟩ | ⟨c', h1, h2⟩
      · left
        refine ⟨?_, h2⟩
        unfold virtualTimesStep
        rw [h1]; rfl
      · have hst : virtualTimesStep src s t a = .ok (upd t a ⟨vt s.base a, c'⟩) := by unfold virtualTimesStep; rw [h1]
        rw [hst]
        simp only [bind, Except.bind]
        rcases ih (upd t a ⟨vt s.base a, c'⟩) with g | ⟨t', g1, g2⟩
        · left; exact g
        · right
          refine ⟨t', g1, fun i => ?_⟩
          rcases g2 i with g | ⟨g3, g4⟩
          · left; exact g
          · by_cases hia : i = a
            · left
              subst hia
              rw [upd_same] at g4
              rw [g4]
              exact ⟨rfl, h2⟩
            · right
              rw [upd_ne _ _ hia] at g4
              exact ⟨by simp [hia, g3], g4⟩
  rcases key (List.finRange n) (fun _ => ⟨0, .system⟩) with h | ⟨t, h1, h2⟩
  · left; exact h
  · right
    refine ⟨t, h1, fun i => ?_⟩
    rcases h2 i with h | ⟨h, _⟩
    · exact h
    · exact absurd (List.mem_finRange i) h

theorem virtualBoundary_fold (t : Fin n → Time) (isEnd : Bool) (l : List (Fin n)) : ∀ (j : Fin n) (c0 : Source),
    (l.foldlM (virtualBoundaryStep t isEnd) (j, ⟨(t j).ns, c0⟩) = .error .threw ∧ ∃ i, (t i).source ≠ c0) ∨
    ∃ m, l.foldlM (virtualBoundaryStep t isEnd) (j, ⟨(t j).ns, c0⟩) = .ok (m, ⟨(t m).ns, c0⟩) ∧
      l.foldl (Approx.virtualBoundaryStep (fun i => (t i).ns) isEnd) (j, (t j).ns) = (m, (t m).ns) := by
  induction l with
  | nil => intro j c0; right; exact ⟨j, rfl, rfl⟩
  | cons a l ih =>
    intro j c0
    rw [List.foldlM_cons, List.foldl_cons]
    have h1 : virtualBoundaryStep t isEnd (j, ⟨(t j).ns, c0⟩) a = match timeLt (t a) ⟨(t j).ns, c0⟩ with
        | .error f => .error f
        | .ok b => .ok (if (b ^^ isEnd) then (a, t a) else (j, ⟨(t j).ns, c0⟩)) := by
      unfold virtualBoundaryStep; rfl
    have h2 : Approx.virtualBoundaryStep (fun i => (t i).ns) isEnd (j, (t j).ns) a =
        if (decide ((t a).ns < (t j).ns) ^^ isEnd) then (a, (t a).ns) else (j, (t j).ns) := rfl
    rw [h1, h2]
    unfold timeLt
    by_cases hs : (t a).source = c0
    · rw [if_pos hs]
      dsimp only
      by_cases hb : (decide ((t a).ns < (t j).ns) ^^ isEnd) = true
      · rw [if_pos hb, if_pos hb]
        simp only [bind, Except.bind]
        have : t a = ⟨(t a).ns, c0⟩ := by cases hta : t a; rw [hta] at hs; simp at hs; rw [hs]
        rw [this]
        exact ih a c0
      · rw [if_neg hb, if_neg hb]
        simp only [bind, Except.bind]
        exact ih j c0
    · rw [if_neg hs]
      left
      exact ⟨rfl, a, hs⟩

theorem virtualBoundary_cases [NeZero n] (src : Nat → Source) (s : PState n) (isEnd : Bool) (hp : s.base.pivot ≠ none)
    (hv : ∀ i, view s.base i ≠ []) :
    (virtualBoundary src s isEnd = .error .threw ∧ ∀ c, s.pivotSrc = c → ¬ AllClk src c s.base) ∨
    ∃ m c', virtualBoundary src s isEnd = .ok (m, ⟨vt s.base m, c'⟩) ∧
      Approx.getVirtualCandidateBoundary s.base isEnd = .ok (m, vt s.base m) ∧
      (if isEnd then ∀ k, vt s.base k ≤ vt s.base m else ∀ k, vt s.base m ≤ vt s.base k) ∧
      ∀ c, s.pivotSrc = c → AllClk src c s.base → c' = c := by
  have hvt : ∀ i, Approx.getVirtualTime s.base i = .ok (vt s.base i) := fun i => Approx.getVirtualTime_eq s.base i hp (hv i)
  obtain ⟨m0, hm0, hm1⟩ := Approx.virtualBoundary s.base isEnd hvt
  unfold virtualBoundary
  rcases virtualTimes_cases src s hp hv with ⟨h1, h2⟩ | ⟨t, h1, h2⟩
  · rw [h1]; left; exact ⟨rfl, h2⟩
  · rw [h1]
    dsimp only
    have hfun : (fun i => (t i).ns) = vt s.base := funext (fun i => (h2 i).1)
    have ht0 : t 0 = ⟨(t 0).ns, (t 0).source⟩ := rfl
    rcases virtualBoundary_fold t isEnd (List.finRange n) 0 (t 0).source with ⟨g1, i, g2⟩ | ⟨m, g1, g2⟩
    · left
      rw [ht0, g1]
      refine ⟨rfl, fun c hc h => g2 ?_⟩
      rw [(h2 i).2 c hc h, (h2 0).2 c hc h]
    · right
      rw [hfun] at g2
      have hap : Approx.getVirtualCandidateBoundary s.base isEnd = .ok (m, vt s.base m) := by
        unfold Approx.getVirtualCandidateBoundary
        rw [Approx.getVirtualTimes_eq s.base hvt]
        dsimp only
        rw [← (h2 0).1, g2, (h2 m).1]
      rw [hap] at hm0
      simp only [Except.ok.injEq, Prod.mk.injEq] at hm0
      obtain ⟨hmm, _⟩ := hm0
      refine ⟨m, (t 0).source, ?_, hap, ?_, fun c hc h => (h2 0).2 c hc h⟩
      · rw [ht0, g1, (h2 m).1]
      · rw [hmm]; exact hm1

end MF.ClockMix
