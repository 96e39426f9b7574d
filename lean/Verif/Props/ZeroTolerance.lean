import Verif.Proofs.ZeroTolerance
/-
C100: without tolerance, approximate synchronization is exact synchronization.
-/
namespace MF
open MF.Epsilon (AheadAtMost aheadAtMost_of_check)

variable {n : Nat}

/-- **C100** (C++ ApproximateTime).  Let the maximum interval be zero, every input strictly increasing, and let no input run
ahead of another one by more than the queue size.  Then after every call the sets output are exactly the sets with equal
stamps that can be made of the messages delivered, in time order: nothing is lost and nothing is kept back, whatever the
age penalty and the lower bounds. -/
theorem C100_approximate [NeZero n] (fuel : Nat) (cfg : Approx.Cfg n) (hM : cfg.maxInterval = 0)
    (hf : ∀ x, 0 ≤ x → x ≤ cfg.scale x) (ops : List (Fin n × Ev)) (s : Approx.State n) (h : Approx.run fuel cfg ops = .ok s)
    (hs : ∀ i, StrictlyTimeSorted (stream ops i)) (ha : AheadAtMost cfg.queueSize 0 ops) :
    SetsInOrder s.out ∧ ∀ t, t ∈ s.out ↔ EqualStamps ops t := by
  have hts : ∀ i, TimeSorted (stream ops i) := fun i => strict_sorted (hs i)
  have hq : 0 < cfg.queueSize := (Approx.runOps_ok h).1
  have hno : Approx.NoOverflow fuel cfg ops := Approx.noOverflow_of_ahead (by omega) hf hts (by rw [hM]; exact ha)
    (by rw [hM]; exact atMostWithin_zero hq hs)
  obtain ⟨hinv, _, hh⟩ := Approx.run_facts h
  have hspan := Approx.C31_max_interval_in_order fuel cfg hf ops s h hts
  have hfol := Approx.C98_sets_follow fuel cfg ops s h hs
  -- members of output sets
  have hmem : ∀ t ∈ s.out, ∀ i, ∃ e, t i = some e ∧ e ∈ stream ops i := by
    intro t ht i
    obtain ⟨c, hc, hsub⟩ := hh i
    obtain ⟨e, he, hee⟩ := List.mem_map.1 (hsub.subset (List.mem_map.2 ⟨t, ht, rfl⟩))
    exact ⟨e, hee.symm, by rw [hc]; simp [he]⟩
  have heq : ∀ t ∈ s.out, ∀ i j x y, t i = some x → t j = some y → x.stamp = y.stamp := by
    intro t ht i j x y hx hy
    have h1 := hspan t ht i j x y hx hy
    have h2 := hspan t ht j i y x hy hx
    omega
  refine ⟨?_, fun t => ⟨fun ht => ?_, fun ht => ?_⟩⟩
  · refine List.Pairwise.imp_of_mem ?_ hfol
    intro t u ht hu hlt i j x y hx hy
    obtain ⟨a, b, ha, hb, hab⟩ := hlt i
    rw [hx] at ha; cases ha
    have := heq u hu i j b y hb hy
    omega
  · obtain ⟨e0, h0, _⟩ := hmem t ht 0
    refine ⟨e0.stamp, fun i => ?_⟩
    obtain ⟨e, he, hes⟩ := hmem t ht i
    exact ⟨e, mem_stream.1 hes, heq t ht i 0 e e0 he h0, he⟩
  · obtain ⟨T, hT⟩ := ht
    let f : Fin n → Ev := fun i => Classical.choose (hT i)
    have hf1 : ∀ i, (i, f i) ∈ ops ∧ (f i).stamp = T ∧ t i = some (f i) := fun i => Classical.choose_spec (hT i)
    have hprompt := Approx.run_prompt (by omega : cfg.maxInterval ≤ 0) (hf 0 (Int.le_refl 0)) ops s h
    have hset := Approx.run_settled_fits h hno hs f (fun i => mem_stream.2 (hf1 i).1)
      (fun i j => by rw [(hf1 i).2.1, (hf1 j).2.1]; omega)
    rcases hset with hw | ⟨p, c, hc, _⟩ | ⟨S, hS, hc⟩
    · obtain ⟨i, hi⟩ := hinv.someEmpty
      have := hw i
      simp [Approx.view, hi, hinv.loop.noPivot hprompt.1 i] at this
    · have := hc.pivot
      rw [hprompt.1] at this; cases this
    · have hshare : ∃ i, S i = some (f i) := by
        rcases hc with hc | ⟨i, j, a, b, hSi, hSj, h1, h2⟩
        · exact hc
        · have := heq S hS i j a b hSi hSj
          rw [(hf1 i).2.1] at h1
          rw [(hf1 j).2.1] at h2
          omega
      obtain ⟨i, hi⟩ := hshare
      have : S = t := by
        funext j
        obtain ⟨e, he, hes⟩ := hmem S hS j
        have h1 := heq S hS i j (f i) e hi he
        rw [he, (hf1 j).2.2]
        congr 1
        refine strict_inj (hs j) hes (mem_stream.2 (hf1 j).1) ?_
        rw [(hf1 j).2.1, ← h1, (hf1 i).2.1]
      rw [← this]; exact hS

/-- **C100** (C++ ApproximateEpsilonTime).  The same for epsilon zero. -/
theorem C100_epsilon [NeZero n] (fuel q : Nat) (ops : List (Fin n × Ev)) (s : Epsilon.State n)
    (h : Epsilon.run fuel (Epsilon.construct n q 0) ops = .ok s) (hmax : ∀ op ∈ ops, op.2.stamp ≤ Epsilon.maxTime)
    (hs : ∀ i, StrictlyTimeSorted (stream ops i)) (ha : AheadAtMost q 0 ops) :
    SetsInOrder s.out ∧ ∀ t, t ∈ s.out ↔ EqualStamps ops t := by
  have hts : ∀ i, TimeSorted (stream ops i) := fun i => strict_sorted (hs i)
  have hno := Epsilon.C97_no_overflow fuel q 0 (by omega) ops hts ha
  have hsets := Epsilon.C21_sets_within_epsilon fuel q 0 ops s h
  have heq : ∀ t ∈ s.out, ∀ i j x y, t i = some x → t j = some y → x.stamp = y.stamp := by
    intro t ht i j x y hx hy
    by_cases hij : i = j
    · subst hij; rw [hx] at hy; cases hy; rfl
    · have h1 := (hsets t ht).2 i j x y hij hx hy
      have h2 := (hsets t ht).2 j i y x (fun h => hij h.symm) hy hx
      omega
  refine ⟨?_, fun t => ⟨fun ht => ?_, fun ht => ?_⟩⟩
  · have key : ∀ i, s.out.Pairwise (fun S S' => ∃ a b, S i = some a ∧ S' i = some b ∧ a.stamp < b.stamp) := by
      intro i
      obtain ⟨c, hc, hsub⟩ := Epsilon.C22_each_message_once_in_order fuel q 0 ops s h i
      have h1 : StrictlyTimeSorted c := by have := hs i; rw [hc] at this; exact (List.pairwise_append.1 this).1
      have h2 : (c.map some).Pairwise (fun x y => ∃ a b, x = some a ∧ y = some b ∧ a.stamp < b.stamp) :=
        List.pairwise_map.2 (h1.imp (fun h => ⟨_, _, rfl, rfl, h⟩))
      exact List.pairwise_map.1 (h2.sublist hsub)
    refine List.Pairwise.imp_of_mem ?_ (key 0)
    intro t u ht hu hlt i j x y hx hy
    obtain ⟨a, b, ha, hb, hab⟩ := hlt
    have h1 := heq t ht i 0 x a hx ha
    have h2 := heq u hu 0 j b y hb hy
    omega
  · obtain ⟨e0, h0, _⟩ := (hsets t ht).1 0
    refine ⟨e0.stamp, fun i => ?_⟩
    obtain ⟨e, he, hes⟩ := (hsets t ht).1 i
    exact ⟨e, hes, heq t ht i 0 e e0 he h0, he⟩
  · obtain ⟨T, hT⟩ := ht
    let f : Fin n → Ev := fun i => Classical.choose (hT i)
    have hf1 : ∀ i, (i, f i) ∈ ops ∧ (f i).stamp = T ∧ t i = some (f i) := fun i => Classical.choose_spec (hT i)
    obtain ⟨S, hS, i, hi⟩ := Epsilon.C26_finds_matches_partial fuel q 0 (by omega) ops s h hmax hno hts f (fun i => (hf1 i).1)
      (fun i j => by rw [(hf1 i).2.1, (hf1 j).2.1]; omega) (Or.inr (Or.inl rfl))
    have : S = t := by
      funext j
      obtain ⟨e, he, hes⟩ := (hsets S hS).1 j
      have h1 := heq S hS i j (f i) e hi he
      rw [he, (hf1 j).2.2]
      congr 1
      refine strict_inj (hs j) (mem_stream.2 hes) (mem_stream.2 (hf1 j).1) ?_
      rw [(hf1 j).2.1, ← h1, (hf1 i).2.1]
    rw [← this]; exact hS

/-- ExactTime with unlimited queues, in the same words. -/
theorem exact_sets [NeZero n] (ops : List (Fin n × Ev)) (s : ExactTime.State n)
    (h : ExactTime.run (ExactTime.construct n 0) ops = .ok s) (hs : ∀ i, StrictlyTimeSorted (stream ops i)) :
    SetsInOrder (ExactTime.outs s.log) ∧ ∀ t, t ∈ ExactTime.outs s.log ↔ EqualStamps ops t := by
  obtain ⟨h1, h2⟩ := ExactTime.C19_outputs_exactly_common_stamps ops s h hs
  refine ⟨h1, fun t => (h2 t).trans ?_⟩
  unfold EqualStamps
  simp only [mem_stream]

theorem equalStamps_same {ops ops' : List (Fin n × Ev)} (h : SameStreams ops ops') (t : Fin n → Option Ev) :
    EqualStamps ops t ↔ EqualStamps ops' t := by
  unfold EqualStamps
  simp only [← mem_stream, h _]

/-- **C100** (they agree).  ApproximateTime with a maximum interval of zero outputs the same sequence of sets as ExactTime
with unlimited queues does for the same streams, in any interleaving. -/
theorem C100_approximate_is_exact [NeZero n] (fuel : Nat) (cfg : Approx.Cfg n) (hM : cfg.maxInterval = 0)
    (hf : ∀ x, 0 ≤ x → x ≤ cfg.scale x) (ops ops' : List (Fin n × Ev)) (s : Approx.State n) (s' : ExactTime.State n)
    (h : Approx.run fuel cfg ops = .ok s) (h' : ExactTime.run (ExactTime.construct n 0) ops' = .ok s')
    (hsame : SameStreams ops ops') (hs : ∀ i, StrictlyTimeSorted (stream ops i)) (ha : AheadAtMost cfg.queueSize 0 ops) :
    s.out = ExactTime.outs s'.log := by
  obtain ⟨h1, h2⟩ := C100_approximate fuel cfg hM hf ops s h hs ha
  obtain ⟨h3, h4⟩ := exact_sets ops' s' h' (fun i => by rw [← hsame i]; exact hs i)
  exact sets_ext h1 h3 (fun t ⟨T, hT⟩ => (hT 0).imp (fun _ h => h.2.2)) h2 (fun t => (h4 t).trans (equalStamps_same hsame t).symm)

/-- **C100** (they agree).  ApproximateEpsilonTime with epsilon zero outputs the same sequence of sets as ExactTime with
unlimited queues does for the same streams, in any interleaving. -/
theorem C100_epsilon_is_exact [NeZero n] (fuel q : Nat) (ops ops' : List (Fin n × Ev)) (s : Epsilon.State n)
    (s' : ExactTime.State n) (h : Epsilon.run fuel (Epsilon.construct n q 0) ops = .ok s)
    (h' : ExactTime.run (ExactTime.construct n 0) ops' = .ok s') (hsame : SameStreams ops ops')
    (hmax : ∀ op ∈ ops, op.2.stamp ≤ Epsilon.maxTime) (hs : ∀ i, StrictlyTimeSorted (stream ops i)) (ha : AheadAtMost q 0 ops) :
    s.out = ExactTime.outs s'.log := by
  obtain ⟨h1, h2⟩ := C100_epsilon fuel q ops s h hmax hs ha
  obtain ⟨h3, h4⟩ := exact_sets ops' s' h' (fun i => by rw [← hsame i]; exact hs i)
  exact sets_ext h1 h3 (fun t ⟨T, hT⟩ => (hT 0).imp (fun _ h => h.2.2)) h2 (fun t => (h4 t).trans (equalStamps_same hsame t).symm)

/-- **C100** (Python).  With a slop of one nanosecond, the smallest that outputs anything, an ApproximateTimeSynchronizer
behaves exactly like a TimeSynchronizer: for every history of messages with headers, in any order and of any queue size,
including the histories in which callbacks raise, the states are the same after every call. -/
theorem C100_python [NeZero n] (boom : Nat → Bool) (q : Int) (allow : Bool) (ops : List (Fin n × Py.Msg))
    (hh : ∀ op ∈ ops, op.2.header = true) :
    Py.approxRun boom 1 allow (Py.construct n q) ops = Py.tsRun boom (Py.construct n q) ops :=
  Py.approxRun_eq_tsRun boom q allow ops hh

/-- Two inputs with three common stamps; the first one runs ahead by two messages. -/
def zeroOps : List (Fin 2 × Ev) :=
  [(0, ⟨0, 100⟩), (0, ⟨1, 150⟩), (1, ⟨2, 100⟩), (1, ⟨3, 120⟩), (1, ⟨4, 150⟩), (1, ⟨5, 200⟩), (0, ⟨6, 200⟩)]

/-- The same streams, the second one first. -/
def zeroOps' : List (Fin 2 × Ev) :=
  [(1, ⟨2, 100⟩), (1, ⟨3, 120⟩), (1, ⟨4, 150⟩), (1, ⟨5, 200⟩), (0, ⟨0, 100⟩), (0, ⟨1, 150⟩), (0, ⟨6, 200⟩)]

def zeroCfg (q : Nat) : Approx.Cfg 2 := ⟨q, 0, fun x => (x * 11).tdiv 10, fun _ => 0⟩

/-- The hypotheses are met, with three sets output by each. -/
example : (zeroCfg 2).maxInterval = 0 ∧ (∀ x, 0 ≤ x → x ≤ (zeroCfg 2).scale x) ∧ (∀ i, StrictlyTimeSorted (stream zeroOps i)) ∧
    AheadAtMost 2 0 zeroOps ∧ SameStreams zeroOps zeroOps' ∧ (∀ op ∈ zeroOps, op.2.stamp ≤ Epsilon.maxTime) ∧
    (∃ s, Approx.run 100 (zeroCfg 2) zeroOps = .ok s ∧ s.out.length = 3) ∧
    (∃ s, Epsilon.run 100 (Epsilon.construct 2 2 0) zeroOps = .ok s ∧ s.out.length = 3) ∧
    ∃ s, ExactTime.run (ExactTime.construct 2 0) zeroOps' = .ok s ∧ (ExactTime.outs s.log).length = 3 := by
  refine ⟨rfl, ?_, ?_, aheadAtMost_of_check (by decide), ?_, by decide, ⟨_, rfl, by decide⟩, ⟨_, rfl, by decide⟩,
    ⟨_, rfl, by decide⟩⟩
  · intro x hx; show x ≤ (x * 11).tdiv 10
    rw [Int.tdiv_eq_ediv_of_nonneg (by omega)]; omega
  · intro i; unfold StrictlyTimeSorted; revert i; decide
  · intro i; revert i; decide

/-- **C100** (room is needed).  Queues of one place lose a set that ExactTime outputs. -/
theorem C100_room_needed : ¬ AheadAtMost 1 0 zeroOps ∧
    (∃ s, Approx.run 100 (zeroCfg 1) zeroOps = .ok s ∧ s.out.length = 2) ∧
    (∃ s, Epsilon.run 100 (Epsilon.construct 2 1 0) zeroOps = .ok s ∧ s.out.length = 2) ∧
    ∃ s, ExactTime.run (ExactTime.construct 2 0) zeroOps = .ok s ∧ (ExactTime.outs s.log).length = 3 := by
  refine ⟨fun h => ?_, ⟨_, rfl, by decide⟩, ⟨_, rfl, by decide⟩, ⟨_, rfl, by decide⟩⟩
  have := h 2 0 1 (by decide)
  revert this; decide

/-- **C100** (strictly increasing streams are needed).  ExactTime replaces a message by a later one with the same stamp;
ApproximateTime keeps both and outputs the earlier one. -/
theorem C100_strict_needed : ∃ ops : List (Fin 2 × Ev), (∀ i, TimeSorted (stream ops i)) ∧ AheadAtMost 2 0 ops ∧
    (∃ s, Approx.run 100 (zeroCfg 2) ops = .ok s ∧ s.out.map List.ofFn = [[some ⟨0, 100⟩, some ⟨2, 100⟩]]) ∧
    ∃ s, ExactTime.run (ExactTime.construct 2 0) ops = .ok s ∧
      (ExactTime.outs s.log).map List.ofFn = [[some ⟨1, 100⟩, some ⟨2, 100⟩]] := by
  refine ⟨[(0, ⟨0, 100⟩), (0, ⟨1, 100⟩), (1, ⟨2, 100⟩)], ?_, aheadAtMost_of_check (by decide), ⟨_, rfl, by decide⟩, ⟨_, rfl, by decide⟩⟩
  intro i; unfold TimeSorted; revert i; decide

/-- Messages with headers, in and out of order. -/
example : (∀ op ∈ Py.withHeaders [((0 : Fin 2), ⟨0, 100⟩), (1, ⟨1, 90⟩), (1, ⟨2, 100⟩), (0, ⟨3, 90⟩)], op.2.header = true) ∧
    ∃ s, Py.approxRun Py.noRaise 1 false (Py.construct 2 5)
      (Py.withHeaders [(0, ⟨0, 100⟩), (1, ⟨1, 90⟩), (1, ⟨2, 100⟩), (0, ⟨3, 90⟩)]) = .ok s ∧ s.out.length = 2 :=
  ⟨by decide, _, rfl, by decide⟩

/-- **C100** (headers are needed).  A message without header is ignored by the ApproximateTimeSynchronizer, but leaves the
TimeSynchronizer locked, so that the next message blocks for ever. -/
theorem C100_headers_needed : ∃ ops : List (Fin 2 × Py.Msg),
    (∃ s, Py.approxRun Py.noRaise 1 false (Py.construct 2 5) ops = .ok s ∧ s.out.length = 1) ∧
    Py.tsRun Py.noRaise (Py.construct 2 5) ops = .error .hang :=
  ⟨[(0, ⟨⟨0, 50⟩, false⟩), (0, ⟨⟨1, 100⟩, true⟩), (1, ⟨⟨2, 100⟩, true⟩)], ⟨_, rfl, by decide⟩, rfl⟩

/-- **C100** (slop two nanoseconds is not exact any more). -/
theorem C100_slop_two : ∃ s, Py.approxRun Py.noRaise 2 false (Py.construct 2 5)
      (Py.withHeaders [((0 : Fin 2), ⟨0, 100⟩), (1, ⟨1, 101⟩)]) = .ok s ∧ s.out.length = 1 := ⟨_, rfl, by decide⟩

end MF
