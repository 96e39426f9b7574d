import Verif.Proofs.Pipeline
import Verif.Props.Epsilon
import Verif.Props.Approx
/-
Properties C80-C83: filters connected to each other.
-/
namespace MF.Pipeline

open Aligner (getQueueStatus adds)
open ExactTime (outs)

/-! ### C80: TimeSequencer → Cache -/

/-- **C80**.  A cache of size `N > 0` fed by a `TimeSequencer`: every history returns normally, the sequencer behaves as
it does alone, and the cache holds exactly the last `N` of the messages released so far, in time order; none of the released
messages it no longer holds is newer than one it holds. -/
theorem C80_cache_holds_most_recent (delay : Int) (queueSize N : Nat) (hN : 0 < N) (ops : List Sequencer.Op) :
    ∃ s c, sequencerCache delay queueSize N ops = .ok (s, c) ∧ s = Sequencer.run delay queueSize ops ∧
      c.items = s.out.drop (s.out.length - N) ∧ c.out = s.out ∧ TimeSorted c.items ∧
      ∀ x ∈ s.out, x ∉ c.items → c.items.length = N ∧ ∀ y ∈ c.items, x.stamp ≤ y.stamp := by
  have hs := Sequencer.C44_output_sorted delay queueSize ops
  obtain ⟨c, h1, _, h3, h4⟩ := cache_sorted N hN _ hs
  refine ⟨_, c, sequencerCache_ok.2 ⟨rfl, h1⟩, rfl, h3, h4, ?_, ?_⟩
  · rw [h3]; exact hs.sublist (List.drop_sublist _ _)
  · intro x hx hxc
    generalize (Sequencer.run delay queueSize ops).out = l at *
    have hsplit := List.take_append_drop (l.length - N) l
    have hxt : x ∈ l.take (l.length - N) := by
      rw [← hsplit] at hx
      rcases List.mem_append.1 hx with h | h
      · exact h
      · rw [h3] at hxc; exact absurd h hxc
    constructor
    · rw [h3, List.length_drop]
      have : l.take (l.length - N) ≠ [] := fun h => by rw [h] at hxt; cases hxt
      have : l.length - N ≠ 0 := fun h => this (by rw [h]; rfl)
      omega
    · intro y hy
      rw [h3] at hy
      rw [← hsplit] at hs
      exact (List.pairwise_append.1 hs).2.2 x hxt y hy

/-- **C80** (end to end).  Let every message arrive less than `delay` after its stamp, and let the sequencer have no queue
limit.  When the timer fires at time `c`, every message received so far with `stamp + delay ≤ c` is in the cache, unless
the cache is full of messages that are at least as new; and the cache holds only messages received. -/
theorem C80_end_to_end (delay : Int) (N : Nat) (hN : 0 < N) (ops : List Sequencer.Op) (hp : Punctual delay ops) (c : Int) :
    ∃ s ca, sequencerCache delay 0 N (ops ++ [.tick (fun _ => c)]) = .ok (s, ca) ∧
      (∀ x ∈ Sequencer.added ops, x.stamp + delay ≤ c →
        x ∈ ca.items ∨ (ca.items.length = N ∧ ∀ y ∈ ca.items, x.stamp ≤ y.stamp)) ∧
      ∀ x ∈ ca.items, x ∈ Sequencer.added ops := by
  obtain ⟨s, ca, h1, h2, h3, _, _, h6⟩ := C80_cache_holds_most_recent delay 0 N hN (ops ++ [.tick (fun _ => c)])
  obtain ⟨e1, _⟩ := Sequencer.C45_exact delay 0 ops c
  have hk := punctual_kept hp
  have e1 : s.out = (Sequencer.run delay 0 ops).out ++
      (Sequencer.run delay 0 ops).messages.filter (fun e => decide (e.stamp + delay ≤ c)) := by rw [h2]; exact e1
  refine ⟨s, ca, h1, ?_, ?_⟩
  · intro x hx hxc
    have hxo : x ∈ s.out := by
      rw [e1]
      rcases List.mem_append.1 ((hk x).2 hx) with h | h
      · exact List.mem_append.2 (Or.inl h)
      · exact List.mem_append.2 (Or.inr (by simp [h, hxc]))
    by_cases hin : x ∈ ca.items
    · exact Or.inl hin
    · exact Or.inr (h6 x hxo hin)
  · intro x hx
    rw [h3] at hx
    have hx := (List.drop_sublist _ _).subset hx
    rw [e1] at hx
    apply (hk x).1
    rcases List.mem_append.1 hx with h | h
    · exact List.mem_append.2 (Or.inl h)
    · exact List.mem_append.2 (Or.inr (List.mem_filter.1 h).1)

/-- Out of order arrivals that a cache alone would not handle (C03): size 2, delay 10. -/
def lateSample : List Sequencer.Op :=
  [.add ⟨⟨1, 30⟩, .system⟩, .add ⟨⟨2, 20⟩, .system⟩, .tick (fun _ => 25), .add ⟨⟨3, 25⟩, .system⟩, .add ⟨⟨4, 16⟩, .system⟩]

example : Punctual 10 lateSample := by
  intro pre m post h
  have hm : Sequencer.Op.add m ∈ lateSample := by rw [h]; simp
  have hlen : pre.length < 5 := by
    have := congrArg List.length h
    simp [lateSample] at this; omega
  have htick : ∀ now, Sequencer.Op.tick now ∈ pre → ∀ k, now k = 25 := by
    intro now hn k
    have : Sequencer.Op.tick now ∈ lateSample := by rw [h]; simp [hn]
    simp [lateSample] at this
    rw [this]
  simp [lateSample] at hm
  refine ⟨?_, ?_, ?_⟩
  · rcases hm with rfl | rfl | rfl | rfl <;> rfl
  · rcases hm with rfl | rfl | rfl | rfl <;> decide
  · intro now hn k
    rw [htick now hn k]
    rcases hm with rfl | rfl | rfl | rfl <;> decide
example : (sequencerCache 10 0 2 (lateSample ++ [.tick (fun _ => 100)])).map (fun p => p.2.items) =
    .ok [⟨3, 25⟩, ⟨1, 30⟩] := by rfl

/-! ### C81: InputAligner → ExactTime -/

/-- **C81**.  Fed in time order across all inputs, `ExactTime` outputs the same sets whatever its queue size. -/
theorem C81_queue_size_irrelevant {n : Nat} [NeZero n] (q q' : Nat) (ops : List (Fin n × Ev))
    (hs : TimeSorted (ops.map (·.2))) (s s' : ExactTime.State n) (h : ExactTime.run (ExactTime.construct n q) ops = .ok s)
    (h' : ExactTime.run (ExactTime.construct n q') ops = .ok s') : outs s.log = outs s'.log :=
  exact_any_size q q' ops hs s s' h h'

/-- **C81**.  `ExactTime` behind an `InputAligner`: the pipeline returns whenever the aligner alone does, and the aligner
behaves as it does alone. -/
theorem C81_returns {n : Nat} [NeZero n] (fuel : Nat) (timeout : Int) (q : Nat) (ops : List (Aligner.Op n))
    (s : Aligner.State n) : Aligner.run fuel timeout ops = .ok s ↔ ∃ d, alignerExact fuel timeout q ops = .ok (s, d) := by
  constructor
  · intro h
    obtain ⟨d, hd⟩ := exact_runs q s.out
    exact ⟨d, alignerExact_ok.2 ⟨h, hd⟩⟩
  · rintro ⟨d, h⟩; exact (alignerExact_ok.1 h).1

/-- **C81**.  Let no two messages of an input have the same stamp (they may arrive in any order).  `ExactTime` behind an
`InputAligner`, with any queue size, outputs exactly the sets whose stamp occurs among the dispatched messages of every
input, in time order. -/
theorem C81_exactly_common_stamps {n : Nat} [NeZero n] (fuel : Nat) (timeout : Int) (q : Nat) (ops : List (Aligner.Op n))
    (s : Aligner.State n) (d : ExactTime.State n) (h : alignerExact fuel timeout q ops = .ok (s, d))
    (hd : ∀ i, DistinctStamps (stream (adds ops) i)) :
    SetsInOrder (outs d.log) ∧ ∀ t, t ∈ outs d.log ↔ MatchOf (stream s.out) t := by
  obtain ⟨h1, h2⟩ := alignerExact_ok.1 h
  obtain ⟨d0, h0⟩ := exact_runs 0 s.out
  have hg := Aligner.C39_global_order fuel timeout ops s h1
  rw [C81_queue_size_irrelevant q 0 s.out hg d d0 h2 h0]
  exact ExactTime.C19_outputs_exactly_common_stamps s.out d0 h0 (fun i => aligner_strict h1 i (hd i))

/-- **C81** (end to end).  If moreover the aligner has dropped nothing and holds nothing back, the sets output are exactly
those whose stamp occurs among the messages added on every input. -/
theorem C81_end_to_end {n : Nat} [NeZero n] (fuel : Nat) (timeout : Int) (q : Nat) (ops : List (Aligner.Op n))
    (s : Aligner.State n) (d : ExactTime.State n) (h : alignerExact fuel timeout q ops = .ok (s, d))
    (hd : ∀ i, DistinctStamps (stream (adds ops) i))
    (hdrop : ∀ i, (getQueueStatus s i).dropped = 0) (hempty : ∀ i, (getQueueStatus s i).queueSize = 0) :
    SetsInOrder (outs d.log) ∧ ∀ t, t ∈ outs d.log ↔ MatchOf (stream (adds ops)) t := by
  obtain ⟨h1, h2⟩ := C81_exactly_common_stamps fuel timeout q ops s d h hd
  refine ⟨h1, fun t => (h2 t).trans ?_⟩
  have hp : ∀ i e, e ∈ stream s.out i ↔ e ∈ stream (adds ops) i := fun i e =>
    (aligner_drained (alignerExact_ok.1 h).1 i (hdrop i) (hempty i)).mem_iff
  unfold MatchOf
  simp only [hp]

/-- **C81** (arrival order).  Two histories that add the same messages on each input, in whatever order within and across
inputs, with whatever periods, timeouts, dispatch times and queue sizes, lead to the same output, provided nothing is
dropped or held back by the aligners. -/
theorem C81_arrival_order_irrelevant {n : Nat} [NeZero n] (fuel fuel' : Nat) (timeout timeout' : Int) (q q' : Nat)
    (ops ops' : List (Aligner.Op n)) (s s' : Aligner.State n) (d d' : ExactTime.State n)
    (h : alignerExact fuel timeout q ops = .ok (s, d)) (h' : alignerExact fuel' timeout' q' ops' = .ok (s', d'))
    (hd : ∀ i, DistinctStamps (stream (adds ops) i))
    (hsame : ∀ i, (stream (adds ops) i).Perm (stream (adds ops') i))
    (hdrop : ∀ i, (getQueueStatus s i).dropped = 0 ∧ (getQueueStatus s' i).dropped = 0)
    (hempty : ∀ i, (getQueueStatus s i).queueSize = 0 ∧ (getQueueStatus s' i).queueSize = 0) :
    outs d.log = outs d'.log := by
  obtain ⟨h1, h2⟩ := C81_end_to_end fuel timeout q ops s d h hd (fun i => (hdrop i).1) (fun i => (hempty i).1)
  obtain ⟨h1', h2'⟩ := C81_end_to_end fuel' timeout' q' ops' s' d' h' (fun i => distinct_perm (hd i) (hsame i))
    (fun i => (hdrop i).2) (fun i => (hempty i).2)
  have hm : ∀ t, t ∈ outs d.log ↔ t ∈ outs d'.log := by
    intro t
    rw [h2, h2']
    unfold MatchOf
    simp only [fun i (e : Ev) => (hsame i).mem_iff (a := e)]
  have hc : ∀ t ∈ outs d.log, ExactTime.Complete t := by
    intro t ht
    obtain ⟨T, hT⟩ := (h2 t).1 ht
    intro i
    obtain ⟨e, _, _, he⟩ := hT i
    exact ⟨e, he⟩
  -- compare on complete sets, where the order is asymmetric
  let R := fun t u : ExactTime.Tuple n => (∀ i j x y, t i = some x → u j = some y → x.stamp < y.stamp) ∧
    ExactTime.Complete t ∧ ExactTime.Complete u
  have hR : ∀ a b, R a b → R b a → False := by
    intro a b hab hba
    obtain ⟨x, hx⟩ := hab.2.1 0
    obtain ⟨y, hy⟩ := hab.2.2 0
    have g1 := hab.1 0 0 x y hx hy
    have g2 := hba.1 0 0 y x hy hx
    omega
  refine pairwise_ext (R := R) hR ?_ ?_ hm
  · exact List.Pairwise.imp_of_mem (fun {a b} ha hb hab => ⟨hab, hc a ha, hc b hb⟩) h1
  · exact List.Pairwise.imp_of_mem (fun {a b} ha hb hab => ⟨hab, hc a ((hm a).2 ha), hc b ((hm b).2 hb)⟩) h1'

/-- Two arrival orders of the same messages. -/
def arrive1 : List (Aligner.Op 2) :=
  [.setPeriod 0 10, .add 0 ⟨1, 10⟩, .add 0 ⟨2, 20⟩, .add 0 ⟨3, 30⟩, .add 1 ⟨5, 10⟩, .dispatch, .add 1 ⟨4, 20⟩, .dispatch,
   .add 1 ⟨6, 31⟩, .dispatch]
def arrive2 : List (Aligner.Op 2) :=
  [.add 1 ⟨6, 31⟩, .add 1 ⟨5, 10⟩, .add 0 ⟨3, 30⟩, .add 0 ⟨1, 10⟩, .add 1 ⟨4, 20⟩, .add 0 ⟨2, 20⟩, .dispatch]

/-- Everything the hypotheses of C81 speak of, for a history. -/
def summary (timeout : Int) (q : Nat) (ops : List (Aligner.Op 2)) :=
  (alignerExact 50 timeout q ops).map (fun p => ((outs p.2.log).map List.ofFn,
    List.ofFn (fun i => ((getQueueStatus p.1 i).queueSize, (getQueueStatus p.1 i).dropped))))

example : summary 100 1 arrive1 =
    .ok ([[some ⟨1, 10⟩, some ⟨5, 10⟩], [some ⟨2, 20⟩, some ⟨4, 20⟩]], [(0, 0), (0, 0)]) := by rfl
example : summary 1 3 arrive2 =
    .ok ([[some ⟨1, 10⟩, some ⟨5, 10⟩], [some ⟨2, 20⟩, some ⟨4, 20⟩]], [(0, 0), (0, 0)]) := by rfl
example : ∀ i, DistinctStamps (stream (adds arrive2) i) := by
  intro i; unfold DistinctStamps; revert i; decide
example : ∀ i, (stream (adds arrive1) i).Perm (stream (adds arrive2) i) := by decide
/-- Without the aligner, a queue of size 1 loses both sets of the first history. -/
example : (ExactTime.run (ExactTime.construct 2 1) (adds arrive1)).map (fun s => (outs s.log).map List.ofFn) = .ok [] := by rfl

/-! ### C82: one TimeSequencer per input → ExactTime -/

/-- **C82**.  `ExactTime` behind one `TimeSequencer` per input.  Each sequencer behaves as it does alone on its own
calls.  If no two messages of an input have the same stamp (they may arrive in any order), the sets are output in time
order, whatever the queue sizes; and without queue limit of the synchronizer they are exactly the sets whose stamp occurs
among the released messages of every input. -/
theorem C82_exactly_common_stamps {n : Nat} [NeZero n] (delay : Fin n → Int) (seqSize : Fin n → Nat) (q : Nat)
    (ops : List (Fin n × Sequencer.Op)) (s : Sequencers n) (d : ExactTime.State n)
    (h : sequencersExact delay seqSize q ops = .ok (s, d))
    (hd : ∀ i, DistinctStamps (Sequencer.added (callsOf i ops))) :
    (∀ i, s.seq i = Sequencer.run (delay i) (seqSize i) (callsOf i ops)) ∧
    SetsInOrder (outs d.log) ∧
    (q = 0 → ∀ t, t ∈ outs d.log ↔ MatchOf (fun i => (s.seq i).out) t) := by
  obtain ⟨h1, h2⟩ := sequencersExact_ok h
  have hst : ∀ i, StrictlyTimeSorted (stream s.out i) := by
    intro i
    rw [(h1 i).2, (h1 i).1]
    exact strict_of_distinct (Sequencer.C44_output_sorted _ _ _) (seq_distinct _ _ _ (hd i))
  refine ⟨fun i => (h1 i).1, (ExactTime.C20_monotone_partial q s.out d h2).2 hst, ?_⟩
  intro hq t
  subst hq
  rw [(ExactTime.C19_outputs_exactly_common_stamps s.out d h2 hst).2 t]
  unfold MatchOf
  simp only [(h1 _).2]

/-- **C82** (returns).  Such a pipeline returns from every call. -/
theorem C82_returns {n : Nat} [NeZero n] (delay : Fin n → Int) (seqSize : Fin n → Nat) (q : Nat)
    (ops : List (Fin n × Sequencer.Op)) : ∃ s d, sequencersExact delay seqSize q ops = .ok (s, d) :=
  sequencersExact_runs delay seqSize q ops

/-- **C82** (end to end).  If moreover no queue is limited, the messages of each input arrive less than the delay after their
stamps, and every sequencer has released what it received, the sets output are exactly those whose stamp occurs among the
messages received on every input. -/
theorem C82_end_to_end {n : Nat} [NeZero n] (delay : Fin n → Int) (ops : List (Fin n × Sequencer.Op)) (s : Sequencers n)
    (d : ExactTime.State n) (h : sequencersExact delay (fun _ => 0) 0 ops = .ok (s, d))
    (hd : ∀ i, DistinctStamps (Sequencer.added (callsOf i ops)))
    (hp : ∀ i, Punctual (delay i) (callsOf i ops)) (hrel : ∀ i, (s.seq i).messages = []) :
    SetsInOrder (outs d.log) ∧ ∀ t, t ∈ outs d.log ↔ MatchOf (fun i => Sequencer.added (callsOf i ops)) t := by
  obtain ⟨h1, h2, h3⟩ := C82_exactly_common_stamps delay (fun _ => 0) 0 ops s d h hd
  refine ⟨h2, fun t => (h3 rfl t).trans ?_⟩
  have hm : ∀ i e, e ∈ (s.seq i).out ↔ e ∈ Sequencer.added (callsOf i ops) := by
    intro i e
    rw [← punctual_kept (hp i), ← h1 i, hrel i, List.append_nil]
  unfold MatchOf
  simp only [hm]

/-- Two inputs, out of order on both. -/
def sample82 : List (Fin 2 × Sequencer.Op) :=
  [(0, .add ⟨⟨1, 20⟩, .system⟩), (1, .add ⟨⟨2, 10⟩, .system⟩), (0, .add ⟨⟨3, 10⟩, .system⟩), (0, .tick (fun _ => 100)),
   (1, .add ⟨⟨4, 30⟩, .system⟩), (1, .add ⟨⟨5, 20⟩, .system⟩), (1, .tick (fun _ => 100))]

example : (sequencersExact (fun _ => 50) (fun _ => 0) 0 sample82).map (fun p => ((outs p.2.log).map List.ofFn,
    List.ofFn (fun i => (p.1.seq i).messages))) =
    .ok ([[some ⟨3, 10⟩, some ⟨2, 10⟩], [some ⟨1, 20⟩, some ⟨5, 20⟩]], [[], []]) := by rfl
example : ∀ i, DistinctStamps (Sequencer.added (callsOf i sample82)) := by
  intro i; unfold DistinctStamps; revert i; decide
example : ∀ i, Punctual 50 (callsOf i sample82) := by
  intro i
  have hlast : ∃ l last, callsOf i sample82 = l ++ [last] ∧ (∀ now, Sequencer.Op.tick now ∉ l) ∧
      (∀ m, Sequencer.Op.add m ≠ last) ∧ ∀ m, Sequencer.Op.add m ∈ l → m.source = Source.system ∧ 0 ≤ m.ev.stamp := by
    match i with
    | 0 =>
      refine ⟨[.add ⟨⟨1, 20⟩, .system⟩, .add ⟨⟨3, 10⟩, .system⟩], .tick (fun _ => 100), rfl, by simp, by simp, ?_⟩
      intro m hm; simp at hm; rcases hm with rfl | rfl <;> exact ⟨rfl, by decide⟩
    | 1 =>
      refine ⟨[.add ⟨⟨2, 10⟩, .system⟩, .add ⟨⟨4, 30⟩, .system⟩, .add ⟨⟨5, 20⟩, .system⟩], .tick (fun _ => 100), rfl, by simp,
        by simp, ?_⟩
      intro m hm; simp at hm; rcases hm with rfl | rfl | rfl <;> exact ⟨rfl, by decide⟩
  obtain ⟨l, last, h1, h2, h3, h4⟩ := hlast
  rw [h1]
  intro pre m post h
  rcases List.eq_nil_or_concat post with hp | ⟨post', x, hp⟩
  · subst hp
    have := congrArg List.getLast? h
    simp at this
    exact absurd this.symm (h3 m)
  · rw [hp, List.concat_eq_append] at h
    have h : l ++ [last] = (pre ++ Sequencer.Op.add m :: post') ++ [x] := by simpa using h
    obtain ⟨h5, _⟩ := List.append_inj' h rfl
    refine ⟨(h4 m (by rw [h5]; simp)).1, (h4 m (by rw [h5]; simp)).2, ?_⟩
    intro now hn
    exact absurd (by rw [h5]; simp [hn]) (h2 now)

/-! ### C83: InputAligner → approximate policies -/

/-- **C83**.  `ApproximateEpsilonTime` behind an `InputAligner`: of two inputs, or with epsilon 0, every set of dispatched
messages within epsilon has a member in some output set, as long as the synchronizer's queues do not overflow; the
messages may have arrived in any order. -/
theorem C83_epsilon_finds_matches {n : Nat} [NeZero n] (fuel : Nat) (timeout : Int) (q : Nat) (eps : Int) (heps : 0 ≤ eps)
    (ops : List (Aligner.Op n)) (s : Aligner.State n) (d : Epsilon.State n)
    (h : alignerEpsilon fuel timeout q eps ops = .ok (s, d)) (hmax : ∀ m ∈ s.out, m.2.stamp ≤ Epsilon.maxTime)
    (hq : Epsilon.NoOverflow fuel q eps s.out) (T : Fin n → Ev) (hT : ∀ i, T i ∈ stream s.out i)
    (hspan : ∀ i j, (T i).stamp - (T j).stamp ≤ eps) (hcase : n = 2 ∨ eps = 0 ∨ ∀ i j, (T i).stamp = (T j).stamp) :
    ∃ t ∈ d.out, ∃ i, t i = some (T i) := by
  obtain ⟨h1, h2⟩ := alignerEpsilon_ok.1 h
  have hg := Aligner.C39_global_order fuel timeout ops s h1
  exact Epsilon.C26_finds_matches_partial fuel q eps heps s.out d h2 hmax hq (fun i => stream_sorted hg i) T
    (fun i => mem_stream.1 (hT i)) hspan hcase

/-- **C83**.  `ApproximateTime` behind an `InputAligner`, with any non-negative age penalty and without lower bounds:
whatever the arrival order, the sets respect the maximum interval, and as long as the synchronizer's queues do not overflow
the output is a prefix of the sets that an exhaustive search finds in the dispatched messages, and contains every set
that is determined by them. -/
theorem C83_approximate_canonical {n : Nat} [NeZero n] (fuel : Nat) (timeout : Int) (cfg : Approx.Cfg n)
    (num den : Int) (hden : 0 < den) (hnum : den ≤ num) (hscale : cfg.scale = fun x => (x * num).tdiv den)
    (hlow : ∀ i, cfg.lower i = 0) (ops : List (Aligner.Op n)) (s : Aligner.State n) (d : Approx.State n)
    (h : alignerApprox fuel timeout cfg ops = .ok (s, d)) :
    (∀ t ∈ d.out, ∀ i j x y, t i = some x → t j = some y → x.stamp - y.stamp ≤ cfg.maxInterval) ∧
    (Approx.NoOverflow fuel cfg s.out →
      d.out <+: (ApproxSpec.sets true cfg.scale cfg.maxInterval (stream s.out)).map (fun t i => some (t i)) ∧
      (ApproxSpec.sets false cfg.scale cfg.maxInterval (stream s.out)).map (fun t i => some (t i)) <+: d.out) := by
  obtain ⟨h1, h2⟩ := alignerApprox_ok.1 h
  have hg := Aligner.C39_global_order fuel timeout ops s h1
  have hsp : ∀ i, ApproxSpec.Spaced (cfg.lower i) (stream s.out i) := by
    intro i
    rw [hlow i]
    exact (stream_sorted hg i).imp (fun h => by simpa using h)
  have hmono : ∀ x y, x ≤ y → cfg.scale x ≤ cfg.scale y := by
    rw [hscale]
    intro x y hxy
    exact tdiv_mono hden (Int.mul_le_mul_of_nonneg_right hxy (by omega))
  refine ⟨Approx.C31_max_interval fuel cfg num den hden hnum hscale s.out d h2, fun hq => ⟨?_, ?_⟩⟩
  · have := Approx.C33_prefix_of_canonical fuel cfg hmono (fun i => by rw [hlow i]; omega) s.out d h2 hq (fun _ => [])
      (by simpa using hsp)
    simpa using this
  · exact (Approx.C34_determined_sets_are_output fuel cfg hmono (fun i => by rw [hlow i]; omega) s.out d h2 hq hsp).1

/-- Arrivals out of order on both inputs; stamps differ by at most 2. -/
def sample83 : List (Aligner.Op 2) :=
  [.add 0 ⟨1, 20⟩, .add 1 ⟨2, 22⟩, .add 0 ⟨3, 10⟩, .add 1 ⟨4, 11⟩, .add 0 ⟨5, 30⟩, .add 1 ⟨6, 29⟩, .add 1 ⟨7, 40⟩, .dispatch]

example : (alignerEpsilon 50 5 10 2 sample83).map (fun p => (p.2.out.map List.ofFn, List.ofFn (stream p.1.out))) =
    .ok ([[some ⟨3, 10⟩, some ⟨4, 11⟩], [some ⟨1, 20⟩, some ⟨2, 22⟩], [some ⟨5, 30⟩, some ⟨6, 29⟩]],
      [[⟨3, 10⟩, ⟨1, 20⟩, ⟨5, 30⟩], [⟨4, 11⟩, ⟨2, 22⟩, ⟨6, 29⟩, ⟨7, 40⟩]]) := by rfl
example : (alignerApprox 500 5 ⟨10, 50, fun x => (x * 11).tdiv 10, fun _ => 0⟩ sample83).map (fun p => p.2.out.map List.ofFn) =
    .ok [[some ⟨3, 10⟩, some ⟨4, 11⟩], [some ⟨1, 20⟩, some ⟨2, 22⟩], [some ⟨5, 30⟩, some ⟨6, 29⟩]] := by rfl

end MF.Pipeline
