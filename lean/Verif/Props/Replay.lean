import Verif.Spec.Replay
import Verif.Proofs.Replay
import Verif.Props.Rounds
import Verif.Props.Epsilon
/-
Property C123: what a synchronizer does with sets that have been synchronized already.
-/
namespace MF

variable {n : Nat}

/-- Two sets of two messages, and a replay of them: the second set begins with the other input. -/
def replaySets : List (Fin 2 → Ev) :=
  [fun i => if i = 0 then ⟨0, 100⟩ else ⟨1, 100⟩, fun i => if i = 0 then ⟨2, 200⟩ else ⟨3, 200⟩]

def replayOps : List (Fin 2 × Ev) := [(0, ⟨0, 100⟩), (1, ⟨1, 100⟩), (1, ⟨3, 200⟩), (0, ⟨2, 200⟩)]

theorem replaySample : Replay replaySets replayOps :=
  .next (.next .nil _ [0, 1] (by decide) (by decide)) _ [1, 0] (by decide) (by decide)

/-- A history from which the synchronizers make those two sets, and which has other messages in it. -/
def replayFirst : List (Fin 2 × Ev) :=
  [(0, ⟨0, 100⟩), (0, ⟨9, 150⟩), (1, ⟨1, 100⟩), (1, ⟨3, 200⟩), (0, ⟨2, 200⟩), (1, ⟨8, 300⟩)]

/-- A list of complete sets is a list of sets of messages. -/
theorem exists_full : ∀ (l : List (Fin n → Option Ev)), (∀ t ∈ l, ∀ i, ∃ e, t i = some e) → ∃ sets : List (Fin n → Ev), l = sets.map full := by
  intro l
  induction l with
  | nil => intro _; exact ⟨[], rfl⟩
  | cons t l ih =>
    intro h
    obtain ⟨sets, hs⟩ := ih (fun u hu => h u (by simp [hu]))
    refine ⟨(fun i => Classical.choose (h t (by simp) i)) :: sets, ?_⟩
    rw [List.map_cons, ← hs]
    congr 1
    funext i
    exact Classical.choose_spec (h t (by simp) i)

/-- **C123** (ExactTime): the sets output by an ExactTime synchronizer, whatever it received, are output again, all of them and
in the same order, by every ExactTime synchronizer that receives them set by set, whatever its queue size; it drops nothing. -/
theorem C123_exact [NeZero n] (q : Nat) (ops : List (Fin n × Ev)) (s : ExactTime.State n)
    (h : ExactTime.run (ExactTime.construct n q) ops = .ok s) :
    ∃ sets : List (Fin n → Ev), ExactTime.outs s.log = sets.map full ∧
      ∀ q' ops', Replay sets ops' → ∃ s', ExactTime.run (ExactTime.construct n q') ops' = .ok s' ∧
        ExactTime.outs s'.log = ExactTime.outs s.log ∧ ExactTime.drops s'.log = [] := by
  have hc := ExactTime.C15_outputs_complete_equal_stamps q ops s h
  obtain ⟨sets, hsets⟩ := exists_full (ExactTime.outs s.log) (fun t ht i => by
    obtain ⟨T, hT⟩ := hc t ht
    obtain ⟨e, he, _⟩ := hT i
    exact ⟨e, he⟩)
  refine ⟨sets, hsets, fun q' ops' hr => ?_⟩
  obtain ⟨s', hs'⟩ := ExactTime.C15_never_faults q' ops'
  obtain ⟨h1, _⟩ := ExactTime.run_replay hr (fun t ht => by
    obtain ⟨T, hT⟩ := hc (full t) (by rw [hsets]; exact List.mem_map.2 ⟨t, ht, rfl⟩)
    refine ⟨T, fun i => ?_⟩
    obtain ⟨e, he, _, h2⟩ := hT i
    cases he
    exact h2) s' hs'
  refine ⟨s', hs', ?_, ?_⟩
  · rw [h1, hsets]
    generalize sets = l
    induction l with
    | nil => rfl
    | cons a l ih => simp only [List.map_cons, ExactTime.outs, ih]
  · rw [h1]
    generalize sets = l
    induction l with
    | nil => rfl
    | cons a l ih => simp only [List.map_cons, ExactTime.drops, ih]

example : (ExactTime.run (ExactTime.construct 2 5) replayFirst).toOption.map (fun s => (ExactTime.outs s.log).map List.ofFn) =
    some (replaySets.map (fun t => List.ofFn (full t))) := by decide

/-- **C123** (ApproximateEpsilonTime): the same for every queue size of at least one and every epsilon that is not smaller.
(Stamps are 64-bit numbers.) -/
theorem C123_epsilon [NeZero n] (fuel q : Nat) (eps : Int) (heps : 0 ≤ eps) (ops : List (Fin n × Ev)) (s : Epsilon.State n)
    (h64 : ∀ op ∈ ops, op.2.stamp ≤ 2 ^ 63 - 1) (h : Epsilon.run fuel (Epsilon.construct n q eps) ops = .ok s) :
    ∃ sets : List (Fin n → Ev), s.out = sets.map full ∧
      ∀ fuel' q' eps' ops', 1 ≤ q' → eps ≤ eps' → Replay sets ops' → ops'.length ≤ fuel' →
        ∃ s', Epsilon.run fuel' (Epsilon.construct n q' eps') ops' = .ok s' ∧ s'.out = s.out := by
  have hc := Epsilon.C21_sets_within_epsilon fuel q eps ops s h
  obtain ⟨sets, hsets⟩ := exists_full s.out (fun t ht i => by
    obtain ⟨e, he, _⟩ := (hc t ht).1 i
    exact ⟨e, he⟩)
  refine ⟨sets, hsets, fun fuel' q' eps' ops' hq' he' hr hf => ?_⟩
  have hG : ∀ t ∈ sets, (∀ i j, (t i).stamp - (t j).stamp ≤ eps') ∧ ∀ i, (t i).stamp ≤ Epsilon.maxTime := by
    intro t ht
    obtain ⟨h1, h2⟩ := hc (full t) (by rw [hsets]; exact List.mem_map.2 ⟨t, ht, rfl⟩)
    refine ⟨fun i j => ?_, fun i => ?_⟩
    · by_cases hij : i = j
      · subst hij; omega
      · have := h2 i j (t i) (t j) hij rfl rfl
        omega
    · obtain ⟨e, he, hm⟩ := h1 i
      cases he
      have := h64 _ hm
      unfold Epsilon.maxTime
      dsimp only at this
      omega
  obtain ⟨s', hs'⟩ := Epsilon.C24_terminates_partial q' eps' (by omega) ops' (fun o ho => by
    obtain ⟨t, ht, h1⟩ := hr.mem o ho
    rw [h1]
    exact (hG t ht).2 o.1) fuel' hf
  exact ⟨s', hs', by rw [(Epsilon.run_replay (by omega) hq' hr hG s' hs').1, hsets]⟩

example : (∀ op ∈ replayFirst, op.2.stamp ≤ 2 ^ 63 - 1) ∧ replayOps.length ≤ 100 ∧
    (Epsilon.run 100 (Epsilon.construct 2 5 10) replayFirst).toOption.map (fun s => s.out.map List.ofFn) =
    some (replaySets.map (fun t => List.ofFn (full t))) := by decide

/-- **C123** (Python TimeSynchronizer): the same for every queue size of at least one. -/
theorem C123_python_time [NeZero n] (boom : Nat → Bool) (q : Int) (ops : List (Fin n × Py.Msg)) (s : Py.State n)
    (h : Py.tsRun boom (Py.construct n q) ops = .ok s) (q' : Int) (hq' : 1 ≤ q') (ops' : List (Fin n × Ev))
    (hr : Replay s.out ops') :
    ∃ s', Py.tsRun Py.noRaise (Py.construct n q') (Py.withHeaders ops') = .ok s' ∧ s'.out = s.out := by
  obtain ⟨s', hs', _⟩ := Py.C66_always_returns_partial q' (by omega) ops'
  exact ⟨s', hs', (Py.ts_replay hq' hr (fun t ht => (Py.C63_complete_sets boom q ops s h t ht).2) s' hs').1⟩

example : (Py.tsRun Py.noRaise (Py.construct 2 5) (Py.withHeaders replayFirst)).toOption.map (fun s => s.out.map List.ofFn) =
    some (replaySets.map List.ofFn) := by decide

/-- **C123** (Python ApproximateTimeSynchronizer): the same for every queue size of at least one and every slop that is not
smaller. -/
theorem C123_python_approximate [NeZero n] (boom : Nat → Bool) (slop q : Int) (allow : Bool) (ops : List (Fin n × Py.Msg))
    (s : Py.State n) (h : Py.approxRun boom slop allow (Py.construct n q) ops = .ok s) (slop' q' : Int) (hs : slop ≤ slop')
    (hq' : 1 ≤ q') (allow' : Bool) (ops' : List (Fin n × Ev)) (hr : Replay s.out ops') :
    ∃ s', Py.approxRun Py.noRaise slop' allow' (Py.construct n q') (Py.withHeaders ops') = .ok s' ∧ s'.out = s.out := by
  obtain ⟨s', hs', _⟩ := Py.C66_approximate_always_returns_partial slop' q' allow' (by omega) (Py.withHeaders ops')
  refine ⟨s', hs', (Py.approx_replay hq' hr (fun t ht i j => ?_) s' hs').1⟩
  have := (Py.C67_complete_sets boom slop q allow ops s h t ht).2 i j
  omega

example : (Py.approxRun Py.noRaise 10 false (Py.construct 2 5) (Py.withHeaders replayFirst)).toOption.map
    (fun s => s.out.map List.ofFn) = some (replaySets.map List.ofFn) := by decide

/-- **C123**: an ApproximateTime synchronizer is not like this.  Of these messages, in order and with room for all of them, it makes
the three sets (10, 12), (13, 30) and (50, 50).  A synchronizer with the same parameters that receives these sets, one after the
other, outputs (13, 12) and (50, 50). -/
theorem C123_approximate_differs : ∃ (ops : List (Fin 2 × Ev)) (sets : List (Fin 2 → Ev)) (ops' : List (Fin 2 × Ev)),
    (∀ i, StrictlyTimeSorted (stream ops i)) ∧ Replay sets ops' ∧
    (Approx.run 200 ⟨20, 20, fun x => (x * 11).tdiv 10, fun _ => 0⟩ ops).toOption.map (fun s => s.out.map List.ofFn) =
      some (sets.map (fun t => List.ofFn (full t))) ∧
    (Approx.run 200 ⟨20, 20, fun x => (x * 11).tdiv 10, fun _ => 0⟩ ops').toOption.map (fun s => s.out.map List.ofFn) =
      some [[some ⟨4, 13⟩, some ⟨3, 12⟩], [some ⟨6, 50⟩, some ⟨7, 50⟩]] := by
  refine ⟨[(1, ⟨0, 0⟩), (0, ⟨1, 10⟩), (0, ⟨2, 11⟩), (1, ⟨3, 12⟩), (0, ⟨4, 13⟩), (1, ⟨5, 30⟩), (0, ⟨6, 50⟩), (1, ⟨7, 50⟩)],
    [fun i => if i = 0 then ⟨1, 10⟩ else ⟨3, 12⟩, fun i => if i = 0 then ⟨4, 13⟩ else ⟨5, 30⟩,
      fun i => if i = 0 then ⟨6, 50⟩ else ⟨7, 50⟩],
    [(0, ⟨1, 10⟩), (1, ⟨3, 12⟩), (0, ⟨4, 13⟩), (1, ⟨5, 30⟩), (0, ⟨6, 50⟩), (1, ⟨7, 50⟩)], ?_, ?_, by decide, by decide⟩
  · unfold StrictlyTimeSorted; decide
  · exact .next (.next (.next .nil _ [0, 1] (by decide) (by decide)) _ [0, 1] (by decide) (by decide)) _ [0, 1] (by decide) (by decide)

/-- **C123** (ApproximateTime): sets that span at most `w` and are at least `w` apart are output again, in the same order, by every
ApproximateTime synchronizer with room for two messages, a maximum interval of at least `w` and an age penalty that is not
negative; it may withhold the last one. -/
theorem C123_approximate [NeZero n] (fuel : Nat) (cfg : Approx.Cfg n) (w : Int) (hw0 : 0 ≤ w) (hw : w ≤ cfg.maxInterval)
    (hsc : ∀ x, 0 ≤ x → x ≤ cfg.scale x) (hq : 2 ≤ cfg.queueSize) (sets : List (Fin n → Ev))
    (hspan : ∀ t ∈ sets, ∀ i j, (t i).stamp - (t j).stamp ≤ w)
    (hapart : sets.Pairwise (fun t u => ∀ i j, (t i).stamp < (u j).stamp ∧ w ≤ (u j).stamp - (t i).stamp))
    (ops' : List (Fin n × Ev)) (hr : Replay sets ops') (hfuel : ops'.length * ops'.length + ops'.length ≤ fuel) :
    ∃ s k, Approx.run fuel cfg ops' = .ok s ∧ s.out = (sets.take k).map full ∧ sets.length ≤ k + 1 := by
  obtain ⟨B, hB⟩ := Replay.bound sets
  obtain ⟨s, k, h1, h2, h3, i, h4⟩ := C90_approx_rounds fuel cfg (Replay.extend sets B w) w 1
    (Replay.extend_tight hw0 hspan) (Replay.extend_separate hw0 hapart hB) hsc hw (by omega) ops'
    (Replay.delivers hr B w) hr.lag hfuel
  rw [hr.stream, List.length_map] at h4
  have h3 := h3 i
  rw [hr.stream, List.length_map] at h3
  exact ⟨s, k, h1, by rw [h2]; exact Replay.roundSets_extend B w h3, h4⟩

example : (∀ t ∈ replaySets, ∀ i j, (t i).stamp - (t j).stamp ≤ 10) ∧
    replaySets.Pairwise (fun t u => ∀ i j, (t i).stamp < (u j).stamp ∧ 10 ≤ (u j).stamp - (t i).stamp) ∧
    10 ≤ Approx.sampleCfg.maxInterval ∧ (∀ x, 0 ≤ x → x ≤ Approx.sampleCfg.scale x) ∧ 2 ≤ Approx.sampleCfg.queueSize ∧
    (Approx.run 100 Approx.sampleCfg replayOps).toOption.map (fun s => s.out.map List.ofFn) =
      some (replaySets.map (fun t => List.ofFn (full t))) :=
  ⟨by decide, by decide, by decide, fun x hx => by simp only [Approx.sampleCfg]; rw [Int.tdiv_eq_ediv_of_nonneg (by omega)]; omega, by decide, by decide⟩

end MF
