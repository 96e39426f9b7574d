import Verif.Proofs.RoundsEpsilon
import Verif.Proofs.RoundsExact
import Verif.Proofs.RoundsPy
import Verif.Props.Approx
import Verif.Props.ExactTime
import Verif.Props.PySync
/-
Property C90: inputs that send in rounds are put together round by round, by every synchronizer.
-/
namespace MF

variable {n : Nat}

/-- Sample rounds: 0 and 10, 20 and 30, 40 and 50, ... -/
def sampleRounds : Nat → Fin 2 → Ev := fun k i => ⟨2 * k + i, 20 * k + 10 * i⟩

/-- Sample rounds of messages with equal stamps: 0 and 0, 20 and 20, ... -/
def equalRounds : Nat → Fin 2 → Ev := fun k i => ⟨2 * k + i, 20 * k⟩

/-- Sample interleaving: input 1 is one round ahead, then input 0. -/
def roundOps (R : Nat → Fin 2 → Ev) : List (Fin 2 × Ev) := [(0, R 0 0), (1, R 0 1), (1, R 1 1), (0, R 1 0), (0, R 2 0), (1, R 2 1)]

theorem sampleRounds_ok : Tight sampleRounds 10 ∧ Separate sampleRounds 10 := by
  constructor
  · intro k i j
    have := j.isLt
    simp only [sampleRounds]; omega
  · intro k i j
    have := i.isLt
    simp only [sampleRounds]; omega

theorem equalRounds_ok : Tight equalRounds 0 ∧ Separate equalRounds 20 := by
  constructor
  · intro k i j
    simp only [equalRounds]; omega
  · intro k i j
    simp only [equalRounds]; omega

theorem roundOps_lag (R : Nat → Fin 2 → Ev) : LagAtMost 1 (roundOps R) := by
  intro pre hp
  have h : ∀ k < 7, ∀ i j, (stream ((roundOps R).take k) i).length ≤ (stream ((roundOps R).take k) j).length + 1 := by
    have hs : ∀ k i, (stream ((roundOps R).take k) i).length = ((([0, 1, 1, 0, 0, 1] : List (Fin 2)).take k).filter (· = i)).length := by
      intro k i
      have h1 : (([0, 1, 1, 0, 0, 1] : List (Fin 2)).take k) = ((roundOps R).take k).map (·.1) := by rw [List.map_take]; rfl
      rw [h1]
      generalize (roundOps R).take k = l
      induction l with
      | nil => rfl
      | cons a l ih =>
        by_cases ha : a.1 = i
        · simp [stream, ha] at ih ⊢; exact ih
        · simp [stream, ha] at ih ⊢; exact ih
    intro k hk i j
    rw [hs, hs]
    revert k i j
    decide
  have h1 := h pre.length (by have := hp.length_le; simp [roundOps] at this; omega)
  rw [← List.prefix_iff_eq_take.1 hp] at h1
  exact h1

theorem roundOps_delivers (R : Nat → Fin 2 → Ev) : Delivers R (roundOps R) := by
  intro i
  match i with
  | 0 => rfl
  | 1 => rfl

/-- **C90** (ApproximateTime).  Let the inputs send in rounds: the messages of a round span at most `w`, consecutive rounds are at
least `w` apart, and no input is ever more than `lag` rounds ahead of another.  With a queue size above `lag`, a maximum interval
of at least `w` and any age penalty that is not negative, exactly the rounds are output: one set for each, in order, none mixed
and none left out.  At most one round that is complete has not been output yet. -/
theorem C90_approx_rounds [NeZero n] (fuel : Nat) (cfg : Approx.Cfg n) (R : Nat → Fin n → Ev) (w : Int) (lag : Nat) (ht : Tight R w)
    (hg : Separate R w) (hsc : ∀ x, 0 ≤ x → x ≤ cfg.scale x) (hw : w ≤ cfg.maxInterval) (hq : lag < cfg.queueSize)
    (ops : List (Fin n × Ev)) (hd : Delivers R ops) (hl : LagAtMost lag ops)
    (hfuel : ops.length * ops.length + ops.length ≤ fuel) :
    ∃ s k, Approx.run fuel cfg ops = .ok s ∧ s.out = roundSets R k ∧ (∀ i, k ≤ (stream ops i).length) ∧
      ∃ i, (stream ops i).length ≤ k + 1 := by
  obtain ⟨s, hs⟩ := Approx.C28_terminates fuel cfg (by omega) ops hfuel
  obtain ⟨k, hk⟩ := Approx.run_rounded ht hg hsc hw hq ops s hs hd hl
  exact ⟨s, k, hs, hk.out, hk.le, Approx.rounded_done hk (Approx.run_facts hs).1.someEmpty⟩

example : Tight sampleRounds 10 ∧ Separate sampleRounds 10 ∧ (∀ x, 0 ≤ x → x ≤ Approx.sampleCfg.scale x) ∧
    10 ≤ Approx.sampleCfg.maxInterval ∧ 1 < Approx.sampleCfg.queueSize ∧ Delivers sampleRounds (roundOps sampleRounds) ∧
    LagAtMost 1 (roundOps sampleRounds) ∧
    ((Approx.run 100 Approx.sampleCfg (roundOps sampleRounds)).toOption.map (fun s => s.out.map List.ofFn)) =
      some ((roundSets sampleRounds 2).map List.ofFn) := by
  refine ⟨sampleRounds_ok.1, sampleRounds_ok.2, ?_, by decide, by decide, roundOps_delivers _, roundOps_lag _, by decide⟩
  intro x hx; show x ≤ (x * 11).tdiv 10
  rw [Int.tdiv_eq_ediv_of_nonneg (by omega)]; omega

/-- The distance between rounds cannot be smaller.  Rounds that span 10 and are 9 apart, (0, 10), (19, 29), (38, 48), are mixed:
(19, 10) and (38, 29) are output. -/
theorem C90_approx_gap_needed : ∃ (R : Nat → Fin 2 → Ev) (ops : List (Fin 2 × Ev)), Tight R 10 ∧ Separate R 9 ∧ Delivers R ops ∧
    LagAtMost 1 ops ∧ (Approx.run 100 Approx.sampleCfg ops).toOption.map (fun s => s.out.map List.ofFn) =
      some [[some (R 1 0), some (R 0 1)], [some (R 2 0), some (R 1 1)]] := by
  refine ⟨fun k i => ⟨2 * k + i, 19 * k + 10 * i⟩, _, ?_, ?_, roundOps_delivers _, roundOps_lag _, by decide⟩
  · intro k i j
    have := j.isLt
    simp only; omega
  · intro k i j
    have := i.isLt
    simp only; omega

/-- The queue size cannot be smaller.  With queue size 1 and an input that is one round ahead, rounds are lost and mixed. -/
theorem C90_approx_queue_needed : ∃ (R : Nat → Fin 2 → Ev) (ops : List (Fin 2 × Ev)), Tight R 10 ∧ Separate R 10 ∧ Delivers R ops ∧
    LagAtMost 1 ops ∧ (Approx.run 100 { Approx.sampleCfg with queueSize := 1 } ops).toOption.map (fun s => s.out.map List.ofFn) =
      some [[some (R 2 0), some (R 1 1)]] :=
  ⟨sampleRounds, _, sampleRounds_ok.1, sampleRounds_ok.2, roundOps_delivers _, roundOps_lag _, by decide⟩

/-- **C90** (ApproximateEpsilonTime).  Let the inputs send in rounds that span at most epsilon.  How far apart the rounds are does
not matter.  With a queue size of at least `lag`, exactly the rounds are output, each of them as soon as it is complete.
(Stamps are 64-bit numbers.) -/
theorem C90_epsilon_rounds [NeZero n] (fuel q lag : Nat) (eps : Int) (R : Nat → Fin n → Ev) (ht : Tight R eps) (hq : lag ≤ q)
    (ops : List (Fin n × Ev)) (s : Epsilon.State n) (h : Epsilon.run fuel (Epsilon.construct n q eps) ops = .ok s)
    (hd : Delivers R ops) (hl : LagAtMost lag ops) (h64 : ∀ i, ∀ e ∈ stream ops i, e.stamp ≤ Epsilon.maxTime) :
    ∃ k, s.out = roundSets R k ∧ (∀ i, k ≤ (stream ops i).length) ∧ ∃ i, (stream ops i).length = k := by
  obtain ⟨k, hk, ho⟩ := Epsilon.run_rounded ht hq ops s h hd hl h64
  refine ⟨k, ho, hk.le, ?_⟩
  obtain ⟨i, hi⟩ := (Epsilon.run_inv h).1.someEmpty
  refine ⟨i, ?_⟩
  have h1 := hk.le i
  have h2 := hk.events i
  rw [hi] at h2
  have h3 := congrArg List.length h2
  rw [List.length_drop] at h3
  simp only [List.length_nil] at h3
  omega

example : Tight sampleRounds 10 ∧ Delivers sampleRounds (roundOps sampleRounds) ∧ LagAtMost 1 (roundOps sampleRounds) ∧
    ((Epsilon.run 100 (Epsilon.construct 2 1 10) (roundOps sampleRounds)).toOption.map (fun s => s.out.map List.ofFn)) =
      some ((roundSets sampleRounds 3).map List.ofFn) :=
  ⟨sampleRounds_ok.1, roundOps_delivers _, roundOps_lag _, by decide⟩

/-- **C90** (ExactTime).  Let the messages of a round have the same stamp, and later rounds later stamps.  With an unlimited queue
or a queue size of at least `lag`, exactly the rounds are output, each of them as soon as it is complete, and the drop callback is
never called. -/
theorem C90_exact_rounds [NeZero n] (q lag : Nat) (R : Nat → Fin n → Ev) (ht : Tight R 0) (hg : Separate R 0) (hq : q = 0 ∨ lag ≤ q)
    (ops : List (Fin n × Ev)) (hd : Delivers R ops) (hl : LagAtMost lag ops) :
    ∃ s k, ExactTime.run (ExactTime.construct n q) ops = .ok s ∧ ExactTime.outs s.log = roundSets R k ∧ ExactTime.drops s.log = [] ∧
      (∀ i, k ≤ (stream ops i).length) ∧ ∃ i, (stream ops i).length = k := by
  obtain ⟨s, hs⟩ := ExactTime.C15_never_faults q ops
  obtain ⟨k, M, hk⟩ := ExactTime.run_rounded (τ := fun r => (R r ⟨0, Nat.pos_of_ne_zero (NeZero.ne n)⟩).stamp)
    (fun r i => by
      have h1 := ht r i ⟨0, Nat.pos_of_ne_zero (NeZero.ne n)⟩
      have h2 := ht r ⟨0, Nat.pos_of_ne_zero (NeZero.ne n)⟩ i
      show (R r i).stamp = _
      omega)
    (fun r r' h => (hg.later h _ _).1) hq ops s hs hd hl
  exact ⟨s, k, hs, hk.outs, hk.drops, hk.lo, hk.least⟩

example : Tight equalRounds 0 ∧ Separate equalRounds 0 ∧ Delivers equalRounds (roundOps equalRounds) ∧
    LagAtMost 1 (roundOps equalRounds) ∧
    ((ExactTime.run (ExactTime.construct 2 1) (roundOps equalRounds)).toOption.map (fun s => (ExactTime.outs s.log).map List.ofFn)) =
      some ((roundSets equalRounds 3).map List.ofFn) :=
  ⟨equalRounds_ok.1, fun k i j => ⟨(equalRounds_ok.2 k i j).1, by have := (equalRounds_ok.2 k i j).2; omega⟩,
    roundOps_delivers _, roundOps_lag _, by decide⟩

/-- **C90** (Python ApproximateTimeSynchronizer).  Let the rounds span less than the slop and be at least the slop apart.  With a
queue size of at least `lag`, and not zero, exactly the rounds are output, each of them as soon as it is complete. -/
theorem C90_python_approx_rounds [NeZero n] (slop q w : Int) (lag : Nat) (allow : Bool) (R : Nat → Fin n → Ev) (ht : Tight R w)
    (hw : w < slop) (hg : Separate R slop) (hq : (lag : Int) ≤ q) (hq1 : 1 ≤ q) (ops : List (Fin n × Ev)) (hd : Delivers R ops)
    (hl : LagAtMost lag ops) :
    ∃ s k, Py.approxRun Py.noRaise slop allow (Py.construct n q) (Py.withHeaders ops) = .ok s ∧ s.out = (List.range k).map R ∧
      (∀ i, k ≤ (stream ops i).length) ∧ ∃ i, (stream ops i).length = k := by
  obtain ⟨s, hs, _⟩ := Py.C66_approximate_always_returns_partial slop q allow (by omega) (Py.withHeaders ops)
  obtain ⟨k, hk⟩ := Py.approx_rounded ht hw hg hq hq1 _ s hs ops rfl hd hl
  exact ⟨s, k, hs, hk.out, hk.lo, hk.least⟩

example : Tight equalRounds 0 ∧ Separate equalRounds 20 ∧ Delivers equalRounds (roundOps equalRounds) ∧
    LagAtMost 1 (roundOps equalRounds) ∧
    ((Py.approxRun Py.noRaise 20 false (Py.construct 2 1) (Py.withHeaders (roundOps equalRounds))).toOption.map
      (fun s => s.out.map List.ofFn)) = some (((List.range 3).map equalRounds).map List.ofFn) :=
  ⟨equalRounds_ok.1, equalRounds_ok.2, roundOps_delivers _, roundOps_lag _, by decide⟩

/-- The span must be smaller than the slop, not only equal to it: rounds that span exactly the slop are never output. -/
theorem C90_python_span_needed : ∃ (R : Nat → Fin 2 → Ev) (ops : List (Fin 2 × Ev)), Tight R 10 ∧ Separate R 10 ∧ Delivers R ops ∧
    LagAtMost 1 ops ∧ (Py.approxRun Py.noRaise 10 false (Py.construct 2 10) (Py.withHeaders ops)).toOption.map
      (fun s => s.out.map List.ofFn) = some [] :=
  ⟨sampleRounds, _, sampleRounds_ok.1, sampleRounds_ok.2, roundOps_delivers _, roundOps_lag _, by decide⟩

/-- **C90** (Python TimeSynchronizer).  As for ExactTime; the queue size must not be zero. -/
theorem C90_python_exact_rounds [NeZero n] (q : Int) (lag : Nat) (R : Nat → Fin n → Ev) (ht : Tight R 0) (hg : Separate R 0)
    (hq : (lag : Int) ≤ q) (hq1 : 1 ≤ q) (ops : List (Fin n × Ev)) (hd : Delivers R ops) (hl : LagAtMost lag ops) :
    ∃ s k, Py.tsRun Py.noRaise (Py.construct n q) (Py.withHeaders ops) = .ok s ∧ s.out = (List.range k).map R ∧
      (∀ i, k ≤ (stream ops i).length) ∧ ∃ i, (stream ops i).length = k := by
  obtain ⟨s, hs, _⟩ := Py.C66_always_returns_partial q (by omega) ops
  obtain ⟨k, hk⟩ := Py.ts_rounded ht hg hq hq1 _ s hs ops rfl hd hl
  exact ⟨s, k, hs, hk.out, hk.lo, hk.least⟩

example : Tight equalRounds 0 ∧ Delivers equalRounds (roundOps equalRounds) ∧ LagAtMost 1 (roundOps equalRounds) ∧
    ((Py.tsRun Py.noRaise (Py.construct 2 1) (Py.withHeaders (roundOps equalRounds))).toOption.map
      (fun s => s.out.map List.ofFn)) = some (((List.range 3).map equalRounds).map List.ofFn) :=
  ⟨equalRounds_ok.1, roundOps_delivers _, roundOps_lag _, by decide⟩

end MF
