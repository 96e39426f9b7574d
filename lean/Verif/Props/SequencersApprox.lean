import Verif.Proofs.SequencersApprox
import Verif.Props.Pipeline
import Verif.Props.SequencerRoom
/-
Property C119: the approximate policies behind one TimeSequencer per input.
-/
namespace MF.Pipeline

open MF.Sequencer (Steady Room SameMessages due added)

/-- What sequencer `i` of a pipeline has output is in time order and consists of messages it received. -/
theorem released {n : Nat} (delay : Fin n → Int) (size : Fin n → Nat) {ops : List (Fin n × Sequencer.Op)} {s : Sequencers n}
    (h : ∀ i, s.seq i = Sequencer.run (delay i) (size i) (callsOf i ops) ∧ stream s.out i = (s.seq i).out) (i : Fin n) :
    TimeSorted (stream s.out i) ∧ ∀ x ∈ stream s.out i, x ∈ added (callsOf i ops) := by
  rw [(h i).2, (h i).1]
  refine ⟨Sequencer.C44_output_sorted _ _ _, fun x hx => ?_⟩
  have hc := (Sequencer.C44_content (delay i) (size i) (callsOf i ops) x.stamp).subset
    (List.mem_filter.2 ⟨List.mem_append_left _ hx, by simp⟩)
  exact (List.mem_filter.1 hc).1

variable {n : Nat} [NeZero n]

/-- **C119** (returns).  With a non-negative epsilon and no stamp above the largest time every call of the pipeline with
`ApproximateEpsilonTime` returns. -/
theorem C119_epsilon_returns (delay : Fin n → Int) (size : Fin n → Nat) (q : Nat) (eps : Int) (heps : 0 ≤ eps)
    (ops : List (Fin n × Sequencer.Op)) (hmax : ∀ i, ∀ x ∈ added (callsOf i ops), x.stamp ≤ Epsilon.maxTime) :
    ∃ N, ∀ fuel, N ≤ fuel → ∃ s d, sequencersEpsilon fuel delay size q eps ops = .ok (s, d) := by
  refine ⟨(ops.foldl Sequencers.step { seq := fun i => Sequencer.construct (delay i) (size i), out := [] }).out.length,
    fun fuel hf => sequencersEpsilon_runs ?_⟩
  intro l hl
  subst hl
  refine Epsilon.C24_terminates_partial q eps heps _ ?_ fuel hf
  rintro ⟨i, x⟩ hx
  exact hmax i x ((released delay size (sequencers_inv delay size ops) i).2 x (mem_stream.2 hx))

/-- **C119** (returns).  With a positive queue size every call of the pipeline with `ApproximateTime` returns. -/
theorem C119_approximate_returns (delay : Fin n → Int) (size : Fin n → Nat) (cfg : Approx.Cfg n) (hq : 0 < cfg.queueSize)
    (ops : List (Fin n × Sequencer.Op)) :
    ∃ N, ∀ fuel, N ≤ fuel → ∃ s d, sequencersApprox fuel delay size cfg ops = .ok (s, d) := by
  generalize hL : (ops.foldl Sequencers.step { seq := fun i => Sequencer.construct (delay i) (size i), out := [] }).out = L
  refine ⟨L.length * L.length + L.length, fun fuel hf => sequencersApprox_runs ?_⟩
  intro l hl
  rw [hL] at hl
  subst hl
  exact Approx.C28_terminates fuel cfg hq _ hf

/-- **C119**.  `ApproximateEpsilonTime` behind one `TimeSequencer` per input, whose messages may arrive in any order: of two
inputs, or with epsilon 0, every set of released messages within epsilon has a member in some output set, as long as the
synchronizer's queues do not overflow. -/
theorem C119_epsilon_finds_matches (fuel : Nat) (delay : Fin n → Int) (size : Fin n → Nat) (q : Nat) (eps : Int)
    (heps : 0 ≤ eps) (ops : List (Fin n × Sequencer.Op)) (s : Sequencers n) (d : Epsilon.State n)
    (h : sequencersEpsilon fuel delay size q eps ops = .ok (s, d))
    (hmax : ∀ i, ∀ x ∈ added (callsOf i ops), x.stamp ≤ Epsilon.maxTime) (hq : Epsilon.NoOverflow fuel q eps s.out)
    (T : Fin n → Ev) (hT : ∀ i, T i ∈ (Sequencer.run (delay i) (size i) (callsOf i ops)).out)
    (hspan : ∀ i j, (T i).stamp - (T j).stamp ≤ eps) (hcase : n = 2 ∨ eps = 0 ∨ ∀ i j, (T i).stamp = (T j).stamp) :
    ∃ t ∈ d.out, ∃ i, t i = some (T i) := by
  obtain ⟨h1, h2⟩ := sequencersEpsilon_ok h
  have hr := released delay size h1
  refine Epsilon.C26_finds_matches_partial fuel q eps heps s.out d h2 ?_ hq (fun i => (hr i).1) T ?_ hspan hcase
  · rintro ⟨i, x⟩ hx
    exact hmax i x ((hr i).2 x (mem_stream.2 hx))
  · intro i
    apply mem_stream.1
    rw [(h1 i).2, (h1 i).1]
    exact hT i

/-- **C119** (end to end).  If the messages arrive before their delay has passed and the sequencers' queue sizes suffice,
this holds for all messages received that are due. -/
theorem C119_epsilon_end_to_end (fuel : Nat) (delay : Fin n → Int) (size : Fin n → Nat) (q : Nat) (eps : Int)
    (heps : 0 ≤ eps) (ops : List (Fin n × Sequencer.Op)) (s : Sequencers n) (d : Epsilon.State n)
    (h : sequencersEpsilon fuel delay size q eps ops = .ok (s, d))
    (hmax : ∀ i, ∀ x ∈ added (callsOf i ops), x.stamp ≤ Epsilon.maxTime) (hq : Epsilon.NoOverflow fuel q eps s.out)
    (hs : ∀ i, Steady (callsOf i ops)) (hp : ∀ i, Punctual (delay i) (callsOf i ops))
    (hr : ∀ i, Room (delay i) (size i) (callsOf i ops))
    (T : Fin n → Ev) (hT : ∀ i, T i ∈ added (callsOf i ops)) (hdue : ∀ i, due (delay i) (callsOf i ops) (T i) = true)
    (hspan : ∀ i j, (T i).stamp - (T j).stamp ≤ eps) (hcase : n = 2 ∨ eps = 0 ∨ ∀ i j, (T i).stamp = (T j).stamp) :
    ∃ t ∈ d.out, ∃ i, t i = some (T i) := by
  refine C119_epsilon_finds_matches fuel delay size q eps heps ops s d h hmax hq T ?_ hspan hcase
  intro i
  have ho := (Sequencer.C103_output (delay i) (size i) (callsOf i ops) (hs i) (hp i) (hr i)).2.1 (T i).stamp
  have : T i ∈ ((added (callsOf i ops)).filter (due (delay i) (callsOf i ops))).filter
      (fun x => decide (x.stamp = (T i).stamp)) :=
    List.mem_filter.2 ⟨List.mem_filter.2 ⟨hT i, hdue i⟩, by simp⟩
  rw [← ho] at this
  exact (List.mem_filter.1 this).1

/-- **C119**.  `ApproximateTime` behind one `TimeSequencer` per input, with any non-negative age penalty and without lower
bounds: whatever the arrival order, the sets respect the maximum interval, and as long as the synchronizer's queues do not
overflow the output is a prefix of the sets that an exhaustive search finds in the released messages, and contains every
set that is determined by them. -/
theorem C119_approximate_canonical (fuel : Nat) (delay : Fin n → Int) (size : Fin n → Nat) (cfg : Approx.Cfg n)
    (num den : Int) (hden : 0 < den) (hnum : den ≤ num) (hscale : cfg.scale = fun x => (x * num).tdiv den)
    (hlow : ∀ i, cfg.lower i = 0) (ops : List (Fin n × Sequencer.Op)) (s : Sequencers n) (d : Approx.State n)
    (h : sequencersApprox fuel delay size cfg ops = .ok (s, d)) :
    (∀ t ∈ d.out, ∀ i j x y, t i = some x → t j = some y → x.stamp - y.stamp ≤ cfg.maxInterval) ∧
    (Approx.NoOverflow fuel cfg s.out →
      d.out <+: (ApproxSpec.sets true cfg.scale cfg.maxInterval
        (fun i => (Sequencer.run (delay i) (size i) (callsOf i ops)).out)).map (fun t i => some (t i)) ∧
      (ApproxSpec.sets false cfg.scale cfg.maxInterval
        (fun i => (Sequencer.run (delay i) (size i) (callsOf i ops)).out)).map (fun t i => some (t i)) <+: d.out) := by
  obtain ⟨h1, h2⟩ := sequencersApprox_ok h
  have hr := released delay size h1
  have hstr : (fun i => (Sequencer.run (delay i) (size i) (callsOf i ops)).out) = stream s.out := by
    funext i
    rw [(h1 i).2, (h1 i).1]
  rw [hstr]
  have hsp : ∀ i, ApproxSpec.Spaced (cfg.lower i) (stream s.out i) := by
    intro i
    rw [hlow i]
    exact (hr i).1.imp (fun h => by simpa using h)
  have hmono : ∀ x y, x ≤ y → cfg.scale x ≤ cfg.scale y := by
    rw [hscale]
    intro x y hxy
    exact tdiv_mono hden (Int.mul_le_mul_of_nonneg_right hxy (by omega))
  refine ⟨Approx.C31_max_interval fuel cfg num den hden hnum hscale s.out d h2, fun hq => ⟨?_, ?_⟩⟩
  · have := Approx.C33_prefix_of_canonical fuel cfg hmono (fun i => by rw [hlow i]; omega) s.out d h2 hq (fun _ => [])
      (by simpa using hsp)
    simpa using this
  · exact (Approx.C34_determined_sets_are_output fuel cfg hmono (fun i => by rw [hlow i]; omega) s.out d h2 hq hsp).1

/-- **C119** (end to end).  If the messages arrive before their delay has passed and the sequencers' queue sizes suffice, the
output is a prefix of the sets that an exhaustive search finds in the messages received that are due, sorted by time, and
contains every set that is determined by them. -/
theorem C119_approximate_end_to_end (fuel : Nat) (delay : Fin n → Int) (size : Fin n → Nat) (cfg : Approx.Cfg n)
    (num den : Int) (hden : 0 < den) (hnum : den ≤ num) (hscale : cfg.scale = fun x => (x * num).tdiv den)
    (hlow : ∀ i, cfg.lower i = 0) (ops : List (Fin n × Sequencer.Op)) (s : Sequencers n) (d : Approx.State n)
    (h : sequencersApprox fuel delay size cfg ops = .ok (s, d)) (hq : Approx.NoOverflow fuel cfg s.out)
    (hs : ∀ i, Steady (callsOf i ops)) (hp : ∀ i, Punctual (delay i) (callsOf i ops))
    (hr : ∀ i, Room (delay i) (size i) (callsOf i ops)) (l : Fin n → List Ev) (hl : ∀ i, TimeSorted (l i))
    (hsame : ∀ i, SameMessages (l i) ((added (callsOf i ops)).filter (due (delay i) (callsOf i ops)))) :
    d.out <+: (ApproxSpec.sets true cfg.scale cfg.maxInterval l).map (fun t i => some (t i)) ∧
    (ApproxSpec.sets false cfg.scale cfg.maxInterval l).map (fun t i => some (t i)) <+: d.out := by
  have e : (fun i => (Sequencer.run (delay i) (size i) (callsOf i ops)).out) = l := by
    funext i
    obtain ⟨a, b, _⟩ := Sequencer.C103_output (delay i) (size i) (callsOf i ops) (hs i) (hp i) (hr i)
    exact Sequencer.sorted_at_ext _ _ a (hl i) (fun t => (b t).trans (hsame i t).symm)
  have := (C119_approximate_canonical fuel delay size cfg num den hden hnum hscale hlow ops s d h).2 hq
  rwa [e] at this

/-- **C119** (the arrival order does not matter).  Two pipelines that receive the same messages on every input, in any order
except among equal stamps and interleaved in any way with the timers, and in which the same messages are due: the output of
one is an initial part of the output of the other, and they differ only in sets that the messages do not determine. -/
theorem C119_approximate_order_irrelevant (fuel fuel' : Nat) (delay : Fin n → Int) (size size' : Fin n → Nat)
    (cfg : Approx.Cfg n)
    (num den : Int) (hden : 0 < den) (hnum : den ≤ num) (hscale : cfg.scale = fun x => (x * num).tdiv den)
    (hlow : ∀ i, cfg.lower i = 0) (ops ops' : List (Fin n × Sequencer.Op)) (s s' : Sequencers n) (d d' : Approx.State n)
    (h : sequencersApprox fuel delay size cfg ops = .ok (s, d))
    (h' : sequencersApprox fuel' delay size' cfg ops' = .ok (s', d'))
    (hq : Approx.NoOverflow fuel cfg s.out) (hq' : Approx.NoOverflow fuel' cfg s'.out)
    (hs : ∀ i, Steady (callsOf i ops)) (hp : ∀ i, Punctual (delay i) (callsOf i ops))
    (hr : ∀ i, Room (delay i) (size i) (callsOf i ops))
    (hs' : ∀ i, Steady (callsOf i ops')) (hp' : ∀ i, Punctual (delay i) (callsOf i ops'))
    (hr' : ∀ i, Room (delay i) (size' i) (callsOf i ops'))
    (hsame : ∀ i, SameMessages ((added (callsOf i ops)).filter (due (delay i) (callsOf i ops)))
      ((added (callsOf i ops')).filter (due (delay i) (callsOf i ops')))) :
    (d.out <+: d'.out ∨ d'.out <+: d.out) ∧
    ∃ common, common <+: d.out ∧ common <+: d'.out ∧ common =
      (ApproxSpec.sets false cfg.scale cfg.maxInterval
        (fun i => (Sequencer.run (delay i) (size i) (callsOf i ops)).out)).map (fun t i => some (t i)) := by
  have key := fun i => Sequencer.C103_output (delay i) (size i) (callsOf i ops) (hs i) (hp i) (hr i)
  have a := C119_approximate_end_to_end fuel delay size cfg num den hden hnum hscale hlow ops s d h hq hs hp hr _
    (fun i => (key i).1) (fun i => (key i).2.1)
  have b := C119_approximate_end_to_end fuel' delay size' cfg num den hden hnum hscale hlow ops' s' d' h' hq' hs' hp' hr'
    (fun i => (Sequencer.run (delay i) (size i) (callsOf i ops)).out)
    (fun i => (key i).1) (fun i t => ((key i).2.1 t).trans (hsame i t))
  exact ⟨List.prefix_or_prefix_of_prefix a.1 b.1, _, a.2, b.2, rfl⟩

/-- The configuration of the examples. -/
def cfg119 : Approx.Cfg 2 := ⟨10, 50, fun x => (x * 11).tdiv 10, fun _ => 0⟩

/-- Two inputs, out of order on both. -/
def sample119 : List (Fin 2 × Sequencer.Op) :=
  [(0, .add ⟨⟨1, 20⟩, .system⟩), (1, .add ⟨⟨2, 11⟩, .system⟩), (0, .add ⟨⟨3, 10⟩, .system⟩), (0, .tick (fun _ => 100)),
   (1, .add ⟨⟨4, 40⟩, .system⟩), (1, .add ⟨⟨5, 22⟩, .system⟩), (1, .tick (fun _ => 100))]

/-- The same messages in another order. -/
def sample119' : List (Fin 2 × Sequencer.Op) :=
  [(0, .add ⟨⟨3, 10⟩, .system⟩), (1, .add ⟨⟨5, 22⟩, .system⟩), (1, .add ⟨⟨2, 11⟩, .system⟩), (0, .add ⟨⟨1, 20⟩, .system⟩),
   (1, .add ⟨⟨4, 40⟩, .system⟩), (1, .tick (fun _ => 100)), (0, .tick (fun _ => 100))]

/-- **C119** (the sequencers are needed).  The same messages, added to the synchronizer in the order in which they arrive,
are combined differently. -/
theorem C119_order_needed :
    (sequencersEpsilon 50 (fun _ => 50) (fun _ => 0) 10 2 sample119).map (fun p => p.2.out.map List.ofFn) =
      .ok [[some ⟨3, 10⟩, some ⟨2, 11⟩], [some ⟨1, 20⟩, some ⟨5, 22⟩]] ∧
    (Epsilon.run 50 (Epsilon.construct 2 10 2)
      [(0, ⟨1, 20⟩), (1, ⟨2, 11⟩), (0, ⟨3, 10⟩), (1, ⟨4, 40⟩), (1, ⟨5, 22⟩)]).map (fun d => d.out.map List.ofFn) = .ok [] ∧
    (sequencersApprox 500 (fun _ => 50) (fun _ => 0) cfg119 sample119).map (fun p => p.2.out.map List.ofFn) =
      .ok [[some ⟨3, 10⟩, some ⟨2, 11⟩]] ∧
    (Approx.run 500 cfg119
      [(0, ⟨1, 20⟩), (1, ⟨2, 11⟩), (0, ⟨3, 10⟩), (1, ⟨4, 40⟩), (1, ⟨5, 22⟩)]).map (fun d => d.out.map List.ofFn) =
      .ok [[some ⟨1, 20⟩, some ⟨2, 11⟩]] := by
  refine ⟨?_, ?_, ?_, ?_⟩ <;> rfl

theorem steady119 (ops : List (Fin 2 × Sequencer.Op)) (hops : ops = sample119 ∨ ops = sample119') (i : Fin 2) :
    Steady (callsOf i ops) := by
  intro now hn
  have : (i, Sequencer.Op.tick now) ∈ ops := by
    unfold callsOf at hn
    obtain ⟨⟨j, o⟩, h1, h2⟩ := List.mem_map.1 hn
    obtain ⟨h1, h3⟩ := List.mem_filter.1 h1
    simp at h3
    dsimp only at h2
    rw [← h2, ← h3]
    exact h1
  rcases hops with rfl | rfl
  · simp [sample119] at this
    rcases this with ⟨_, rfl⟩ | ⟨_, rfl⟩ <;> intro k <;> rfl
  · simp [sample119'] at this
    rcases this with ⟨_, rfl⟩ | ⟨_, rfl⟩ <;> intro k <;> rfl

/-- The hypotheses of the theorems above hold of the samples, in which all messages are due; both orders give the same. -/
example : (∀ i, Punctual 50 (callsOf i sample119)) ∧ (∀ i, Punctual 50 (callsOf i sample119')) ∧
    (∀ i, Room 50 3 (callsOf i sample119)) ∧ (∀ i, Room 50 3 (callsOf i sample119')) ∧
    (∀ i, ∀ x ∈ added (callsOf i sample119), x.stamp ≤ Epsilon.maxTime ∧ due 50 (callsOf i sample119) x = true) ∧
    (∀ i, SameMessages ((added (callsOf i sample119)).filter (due 50 (callsOf i sample119)))
      ((added (callsOf i sample119')).filter (due 50 (callsOf i sample119')))) ∧
    (sequencersApprox 500 (fun _ => 50) (fun _ => 3) cfg119 sample119').map (fun p => p.2.out.map List.ofFn) =
      .ok [[some ⟨3, 10⟩, some ⟨2, 11⟩]] := by
  refine ⟨fun i => Sequencer.punctual_of_check (steady119 _ (.inl rfl) i) ?_,
    fun i => Sequencer.punctual_of_check (steady119 _ (.inr rfl) i) ?_, fun i => Sequencer.room_of_check ?_,
    fun i => Sequencer.room_of_check ?_, by decide, ?_, rfl⟩
  · revert i; decide
  · revert i; decide
  · revert i; decide
  · revert i; decide
  · intro i
    match i with
    | 0 =>
      have h1 : (added (callsOf 0 sample119)).filter (due 50 (callsOf 0 sample119)) = [⟨1, 20⟩, ⟨3, 10⟩] := by decide
      have h2 : (added (callsOf 0 sample119')).filter (due 50 (callsOf 0 sample119')) = [⟨3, 10⟩, ⟨1, 20⟩] := by decide
      rw [h1, h2]
      intro t
      by_cases a : (20 : Int) = t
      · subst a; decide
      by_cases b : (10 : Int) = t
      · subst b; decide
      simp [a, b]
    | 1 =>
      have h1 : (added (callsOf 1 sample119)).filter (due 50 (callsOf 1 sample119)) = [⟨2, 11⟩, ⟨4, 40⟩, ⟨5, 22⟩] := by decide
      have h2 : (added (callsOf 1 sample119')).filter (due 50 (callsOf 1 sample119')) = [⟨5, 22⟩, ⟨2, 11⟩, ⟨4, 40⟩] := by
        decide
      rw [h1, h2]
      intro t
      by_cases a : (11 : Int) = t
      · subst a; decide
      by_cases b : (40 : Int) = t
      · subst b; decide
      by_cases c : (22 : Int) = t
      · subst c; decide
      simp [a, b, c]

/-- What the synchronizer receives in the samples. -/
example : (sequencersApprox 500 (fun _ => 50) (fun _ => 0) cfg119 sample119).map (fun p => p.1.out) =
    .ok [(0, ⟨3, 10⟩), (0, ⟨1, 20⟩), (1, ⟨2, 11⟩), (1, ⟨5, 22⟩), (1, ⟨4, 40⟩)] := by rfl
example : Approx.NoOverflow 500 cfg119 [(0, ⟨3, 10⟩), (0, ⟨1, 20⟩), (1, ⟨2, 11⟩), (1, ⟨5, 22⟩), (1, ⟨4, 40⟩)] :=
  Approx.noOverflow_of_check (by decide)
example : Epsilon.NoOverflow (n := 2) 50 10 2 [(0, ⟨3, 10⟩), (0, ⟨1, 20⟩), (1, ⟨2, 11⟩), (1, ⟨5, 22⟩), (1, ⟨4, 40⟩)] :=
  Epsilon.noOverflow_of_check (by decide)

end MF.Pipeline
