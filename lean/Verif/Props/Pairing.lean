import Verif.Proofs.Pairing
import Verif.Props.EpsilonReach
import Verif.Props.ApproxChoice
import Verif.Props.PyReach
/-
C110: how many sets the approximate synchronizers output.
-/
namespace MF.Epsilon

/-- What an ApproximateEpsilonTime synchronizer with two inputs outputs is a way of putting their messages together in pairs
within epsilon, whatever the queue size. -/
theorem C110_is_pairing (fuel q : Nat) (eps : Int) (ops : List (Fin 2 × Ev)) (s : State 2)
    (h : run fuel (construct 2 q eps) ops = .ok s) :
    Pairing eps (stream ops 0) (stream ops 1) (pairsOf s.out) ∧ (pairsOf s.out).length = s.out.length := by
  have h1 := C21_sets_within_epsilon fuel q eps ops s h
  refine pairing_of_out (fun t ht i => ?_) (fun i => ?_) (fun t ht => (h1 t ht).2)
  · obtain ⟨e, he, _⟩ := (h1 t ht).1 i
    exact ⟨e, he⟩
  · obtain ⟨c, hc, hsub⟩ := C22_each_message_once_in_order fuel q eps ops s h i
    rw [hc, List.map_append]
    exact hsub.trans (List.sublist_append_left _ _)

/-- **C110** (no pair more is possible).  Take two inputs that deliver in time order, and queues that reach back far enough (C107).
Then at every moment an ApproximateEpsilonTime synchronizer has output as many sets as any way of putting the messages added
so far together in pairs within epsilon has pairs, even one that knows all messages in advance and may let pairs cross. -/
theorem C110_maximum (fuel q : Nat) (hq : 0 < q) (eps : Int) (heps : 0 ≤ eps) (ops : List (Fin 2 × Ev)) (s : State 2)
    (h : run fuel (construct 2 q eps) ops = .ok s) (hs : ∀ i, TimeSorted (stream ops i))
    (hmax : ∀ op ∈ ops, op.2.stamp ≤ maxTime) (hr : Recent q eps ops) (L : List (Ev × Ev))
    (hL : Pairing eps (stream ops 0) (stream ops 1) L) : L.length ≤ s.out.length := by
  obtain ⟨w, h1, h2, _⟩ := run_recent heps hq (by decide) fin2_cover ops s h hs hmax hr
  exact steps_most heps h1 h2 hs (fun i e he => hmax (i, e) (mem_stream.1 he)) L hL

/-- **C110** (against another queue size).  No queue size, not even one so small that messages are lost, and no other interleaving
of the same inputs gives more sets. -/
theorem C110_against_other_queue_sizes (fuel fuel' q q' : Nat) (hq : 0 < q) (eps eps' : Int) (heps : 0 ≤ eps) (hle : eps' ≤ eps)
    (ops ops' : List (Fin 2 × Ev)) (s s' : State 2) (h : run fuel (construct 2 q eps) ops = .ok s)
    (h' : run fuel' (construct 2 q' eps') ops' = .ok s') (hsame : SameStreams ops ops') (hs : ∀ i, TimeSorted (stream ops i))
    (hmax : ∀ op ∈ ops, op.2.stamp ≤ maxTime) (hr : Recent q eps ops) : s'.out.length ≤ s.out.length := by
  have hstr : stream ops = stream ops' := funext hsame
  obtain ⟨h1, h2⟩ := C110_is_pairing fuel' q' eps' ops' s' h'
  rw [← h2]
  rw [← hstr] at h1
  exact C110_maximum fuel q hq eps heps ops s h hs hmax hr _
    ⟨h1.1, h1.2.1, fun p hp => by have := h1.2.2 p hp; omega⟩

/-- **C110** (against ApproximateTime).  An ApproximateTime synchronizer whose sets may span at most epsilon never outputs more
sets for the same inputs, whatever its queue size, age penalty and minimum distances. -/
theorem C110_against_approximate_time (fuel fuel' q : Nat) (hq : 0 < q) (eps : Int) (heps : 0 ≤ eps) (cfg : Approx.Cfg 2)
    (hle : cfg.maxInterval ≤ eps) (hf : ∀ x, 0 ≤ x → x ≤ cfg.scale x) (ops ops' : List (Fin 2 × Ev)) (s : State 2)
    (s' : Approx.State 2) (h : run fuel (construct 2 q eps) ops = .ok s) (h' : Approx.run fuel' cfg ops' = .ok s')
    (hsame : SameStreams ops ops') (hs : ∀ i, TimeSorted (stream ops i)) (hmax : ∀ op ∈ ops, op.2.stamp ≤ maxTime)
    (hr : Recent q eps ops) : s'.out.length ≤ s.out.length := by
  have hstr : stream ops = stream ops' := funext hsame
  have h1 := Approx.C27_complete_sets fuel' cfg _ s' h'
  have h2 := Approx.C31_max_interval_in_order fuel' cfg hf ops' s' h' (by rw [← hstr]; exact hs)
  obtain ⟨h3, h4⟩ := pairing_of_out (eps := eps) (ops := ops') (out := s'.out)
    (fun t ht i => by obtain ⟨e, he, _⟩ := h1 t ht i; exact ⟨e, he⟩)
    (fun i => by
      obtain ⟨c, hc, hsub⟩ := Approx.C30_each_message_once_in_order fuel' cfg _ s' h' i
      rw [Approx.adds_map] at hc
      rw [hc, List.map_append]
      exact hsub.trans (List.sublist_append_left _ _))
    (fun t ht i j x y _ hx hy => by have := h2 t ht i j x y hx hy; omega)
  rw [← h4]
  rw [← hstr] at h3
  exact C110_maximum fuel q hq eps heps ops s h hs hmax hr _ h3

/-- **C110** (against the Python synchronizer).  A Python ApproximateTimeSynchronizer that demands stamps less than `slop ≤ eps + 1`
apart never gives more sets to its callbacks for the same inputs, whatever its queue size and whatever its callbacks raise. -/
theorem C110_against_python (fuel q : Nat) (hq : 0 < q) (eps : Int) (heps : 0 ≤ eps) (boom : Nat → Bool) (slop q' : Int)
    (hle : slop ≤ eps + 1) (allow : Bool) (ops : List (Fin 2 × Ev)) (ops' : List (Fin 2 × Py.Msg)) (s : State 2) (s' : Py.State 2)
    (h : run fuel (construct 2 q eps) ops = .ok s) (h' : Py.approxRun boom slop allow (Py.construct 2 q') ops' = .ok s')
    (hsame : SameStreams ops (Py.accepted allow ops')) (hs : ∀ i, TimeSorted (stream ops i))
    (hmax : ∀ op ∈ ops, op.2.stamp ≤ maxTime) (hr : Recent q eps ops) : s'.out.length ≤ s.out.length := by
  have hstr : stream ops = stream (Py.accepted allow ops') := funext hsame
  have h1 := Py.C67_each_once boom slop q' allow ops' s' h'
  have h2 := Py.C67_complete_sets boom slop q' allow ops' s' h'
  have := C110_maximum fuel q hq eps heps ops s h hs hmax hr (s'.out.map (fun t => (t 0, t 1))) ⟨fun e => ?_, fun e => ?_, ?_⟩
  · simpa using this
  · rw [List.map_map, hstr, count_stream]
    exact h1 0 e
  · rw [List.map_map, hstr, count_stream]
    exact h1 1 e
  · intro p hp
    obtain ⟨t, ht, rfl⟩ := List.mem_map.1 hp
    have h3 := (h2 t ht).2 0 1
    have h4 := (h2 t ht).2 1 0
    simp only
    omega

/-- The hypotheses are met by a history in which queues of two places overflow; three pairs are possible, also crossing ones. -/
example : Recent 2 10 recentOps ∧ (∀ i, TimeSorted (stream recentOps i)) ∧ (∀ op ∈ recentOps, op.2.stamp ≤ maxTime) ∧
    ∃ s, run 20 (construct 2 2 10) recentOps = .ok s ∧ s.out.length = 3 ∧
      Pairing 10 (stream recentOps 0) (stream recentOps 1)
        [(⟨8, 500⟩, ⟨9, 500⟩), (⟨4, 400⟩, ⟨6, 395⟩), (⟨3, 390⟩, ⟨7, 398⟩)] := by
  refine ⟨recent_of_check (by decide), ?_, by decide, _, rfl, by decide, fun e => ?_, fun e => ?_, by decide⟩
  · intro i; unfold TimeSorted; revert i; decide
  · exact count_le_of_check (by decide) e
  · exact count_le_of_check (by decide) e

/-- **C110** (the queues must reach back).  With queues of one place a set is lost. -/
theorem C110_room_needed : (∃ s, run 20 (construct 2 1 10) recentOps = .ok s ∧ s.out.length = 2) ∧
    ∃ L, Pairing 10 (stream recentOps 0) (stream recentOps 1) L ∧ L.length = 3 := by
  refine ⟨⟨_, rfl, by decide⟩, [(⟨8, 500⟩, ⟨9, 500⟩), (⟨4, 400⟩, ⟨6, 395⟩), (⟨3, 390⟩, ⟨7, 398⟩)], ⟨fun e => ?_, fun e => ?_, by decide⟩, rfl⟩
  · exact count_le_of_check (by decide) e
  · exact count_le_of_check (by decide) e

/-- Messages at 0, 1, 2 and 3 on one input and then at 3, 4, 5 and 6 on the other. -/
def staggered : List (Fin 2 × Ev) :=
  [(0, ⟨0, 0⟩), (0, ⟨1, 1⟩), (0, ⟨2, 2⟩), (0, ⟨3, 3⟩), (1, ⟨4, 3⟩), (1, ⟨5, 4⟩), (1, ⟨6, 5⟩), (1, ⟨7, 6⟩)]

/-- **C110** (strictly more).  The other two can output far fewer sets: with a tolerance of 3, ApproximateEpsilonTime puts 0 with 3, 1
with 4, 2 with 5 and 3 with 6.  ApproximateTime outputs the single set of 3 and 3, because that is the closest one. -/
theorem C110_strict : Recent 10 3 staggered ∧ (∀ i, TimeSorted (stream staggered i)) ∧
    (∃ s, run 20 (construct 2 10 3) staggered = .ok s ∧ s.out.length = 4) ∧
    (∃ s, Approx.run 100 ⟨10, 3, fun x => (x * 11).tdiv 10, fun _ => 0⟩ staggered = .ok s ∧
      s.out.map List.ofFn = [[some ⟨3, 3⟩, some ⟨4, 3⟩]]) := by
  refine ⟨recent_of_check (by decide), ?_, ⟨_, rfl, by decide⟩, _, rfl, by decide⟩
  intro i; unfold TimeSorted; revert i; decide

/-- The same with messages at `0, …, k` and `k, …, 2k`. -/
def staggeredUpTo (k : Nat) : List (Fin 2 × Ev) :=
  (List.range (k + 1)).map (fun m => (0, ⟨m, m⟩)) ++ (List.range (k + 1)).map (fun m => (1, ⟨k + 1 + m, k + m⟩))

theorem stream_staggered (k : Nat) : stream (staggeredUpTo k) 0 = (List.range (k + 1)).map (fun m => (⟨m, m⟩ : Ev)) ∧
    stream (staggeredUpTo k) 1 = (List.range (k + 1)).map (fun m => (⟨k + 1 + m, k + m⟩ : Ev)) := by
  have hsame : ∀ (j : Fin 2) (f : Nat → Ev) (l : List Nat), stream (l.map (fun m => (j, f m))) j = l.map f := by
    intro j f l
    induction l with
    | nil => rfl
    | cons a l ih => unfold stream at *; simpa using ih
  have hother : ∀ (i j : Fin 2) (f : Nat → Ev) (l : List Nat), j ≠ i → stream (l.map (fun m => (j, f m))) i = [] := by
    intro i j f l hij
    induction l with
    | nil => rfl
    | cons a l ih => unfold stream at *; simpa [hij] using ih
  unfold staggeredUpTo
  constructor
  · rw [stream_append, hsame, hother _ _ _ _ (by decide), List.append_nil]
  · rw [stream_append, hsame, hother _ _ _ _ (by decide), List.nil_append]

theorem spaced_staggered (k : Nat) (i : Fin 2) : ApproxSpec.Spaced 1 (stream (staggeredUpTo k) i) := by
  obtain ⟨h0, h1⟩ := stream_staggered k
  have hr : ∀ f : Nat → Ev, (∀ a b, a < b → (f a).stamp + 1 ≤ (f b).stamp) → ApproxSpec.Spaced 1 ((List.range (k + 1)).map f) := by
    intro f hf
    unfold ApproxSpec.Spaced
    rw [List.pairwise_map]
    exact List.pairwise_lt_range.imp (fun h => hf _ _ h)
  rcases fin2_cover i with rfl | rfl
  · rw [h0]; exact hr _ (fun a b h => by simp only; omega)
  · rw [h1]; exact hr _ (fun a b h => by simp only; omega)

/-- **C110** (no share is guaranteed).  For every `k` there are two strictly increasing inputs for which `k + 1` sets within `k` are
possible and ApproximateEpsilonTime outputs them, but ApproximateTime outputs at most one, whatever its age penalty, maximum interval and
lower bounds (of at most 1, so that the inputs respect them). -/
theorem C110_no_share (k : Nat) (hk : 2 * (k : Int) ≤ maxTime) (fuel : Nat) (hfuel : 2 * (k + 1) ≤ fuel) :
    (∃ s, run fuel (construct 2 (k + 1) k) (staggeredUpTo k) = .ok s ∧ s.out.length = k + 1) ∧
    ∀ (fuel' : Nat) (cfg : Approx.Cfg 2) (num den : Int), 0 < den → den ≤ num → cfg.scale = (fun x => (x * num).tdiv den) →
      0 ≤ cfg.maxInterval → (∀ i, 0 ≤ cfg.lower i ∧ cfg.lower i ≤ 1) → k + 1 ≤ cfg.queueSize →
      ∀ s, Approx.run fuel' cfg (staggeredUpTo k) = .ok s → s.out.length ≤ 1 := by
  obtain ⟨h0, h1⟩ := stream_staggered k
  have hlen : ∀ i, (stream (staggeredUpTo k) i).length = k + 1 := by
    intro i
    rcases fin2_cover i with rfl | rfl
    · rw [h0]; simp
    · rw [h1]; simp
  have hspaced := spaced_staggered k
  have hstrict : ∀ i, StrictlyTimeSorted (stream (staggeredUpTo k) i) := fun i => (hspaced i).imp (fun h => by omega)
  have hsorted : ∀ i, TimeSorted (stream (staggeredUpTo k) i) := fun i => (hspaced i).imp (fun h => by omega)
  constructor
  · have hmax : ∀ op ∈ staggeredUpTo k, op.2.stamp ≤ maxTime := by
      intro op hop
      unfold staggeredUpTo at hop
      rcases List.mem_append.1 hop with hop | hop <;> obtain ⟨m, hm, rfl⟩ := List.mem_map.1 hop <;>
        · have := List.mem_range.1 hm; simp only; omega
    obtain ⟨s, hs⟩ := C24_terminates_partial (k + 1) k (by omega) (staggeredUpTo k) hmax fuel (by
      unfold staggeredUpTo; simp; omega)
    refine ⟨s, hs, Nat.le_antisymm ?_ ?_⟩
    · obtain ⟨c, hc, hsub⟩ := C22_each_message_once_in_order fuel (k + 1) k _ s hs 0
      have h2 := hsub.length_le
      have h3 := congrArg List.length hc
      rw [hlen, List.length_append] at h3
      rw [List.length_map, List.length_map] at h2
      omega
    · have hrec : Recent (k + 1) k (staggeredUpTo k) := by
        rintro pre j e post hops i _ older x newer hst _ _
        have := hlen i
        rw [hops, stream_append, hst] at this
        simp at this
        omega
      have hpair := C110_maximum fuel (k + 1) (by omega) k (by omega) _ s hs hsorted hmax hrec
        ((List.range (k + 1)).map (fun m => ((⟨m, m⟩ : Ev), (⟨k + 1 + m, k + m⟩ : Ev)))) ⟨fun e => ?_, fun e => ?_, ?_⟩
      · simpa using hpair
      · rw [h0, List.map_map]; exact Nat.le_refl _
      · rw [h1, List.map_map]; exact Nat.le_refl _
      · intro p hp
        obtain ⟨m, _, rfl⟩ := List.mem_map.1 hp
        simp only
        omega
  · intro fuel' cfg num den hden hnum hscale hM hlow hq s hs
    obtain ⟨l, hl⟩ := ApproxSpec.C109_exists cfg.maxInterval num den hden hnum _ hstrict
    have hp := Approx.C109_output fuel' cfg num den hden hnum hscale (fun i => (hlow i).1) _ s hs
      (Approx.noOverflow_of_short (fun i => by rw [hlen]; exact hq)) (fun _ => []) (by simpa using hstrict)
      (fun i => by
        rw [List.append_nil]
        exact (hspaced i).imp (fun h => by have := (hlow i).2; omega)) l (by simpa using hl)
    have hle : s.out.length ≤ l.length := by simpa using hp.length_le
    suffices l.length ≤ 1 by omega
    cases hl with
    | done _ => simp
    | @set _ C l' hb hl' =>
      have hst : ∀ i : Fin 2, ((fun i : Fin 2 => if i = 0 then (⟨k, k⟩ : Ev) else ⟨k + 1, k⟩) i).stamp = k := by
        intro i; simp only; split <;> rfl
      have hT : ApproxSpec.Contiguous cfg.maxInterval (stream (staggeredUpTo k)) (fun i => if i = 0 then ⟨k, k⟩ else ⟨k + 1, k⟩) := by
        refine ⟨⟨fun i => ?_, fun i j => ?_⟩, ?_⟩
        · rcases fin2_cover i with rfl | rfl
          · rw [h0]; exact List.mem_map.2 ⟨k, List.mem_range.2 (by omega), by simp⟩
          · rw [h1]; exact List.mem_map.2 ⟨0, List.mem_range.2 (by omega), by simp⟩
        · have h2 := hst i
          have h3 := hst j
          simp only at h2 h3 ⊢
          omega
        · rintro ⟨U, hU, hlt⟩
          have h2 := hU.1 1
          rw [h1] at h2
          obtain ⟨m, _, hm⟩ := List.mem_map.1 h2
          have h3 := hlt 1
          rw [← hm] at h3
          simp at h3
          omega
      have hC0 := hb.1.1.1 0
      have hC1 := hb.1.1.1 1
      rw [h0] at hC0
      rw [h1] at hC1
      obtain ⟨a, ha, hC0⟩ := List.mem_map.1 hC0
      obtain ⟨b, hb', hC1⟩ := List.mem_map.1 hC1
      have hak := List.mem_range.1 ha
      have hcost : ApproxSpec.cost num den C ≤ ApproxSpec.cost num den (fun i : Fin 2 => if i = 0 then (⟨k, k⟩ : Ev) else ⟨k + 1, k⟩) := by
        rcases hb.2 _ hT with h2 | ⟨h2, _⟩ <;> omega
      have hstart : ApproxSpec.startOf (fun i : Fin 2 => if i = 0 then (⟨k, k⟩ : Ev) else ⟨k + 1, k⟩) = k := by
        unfold ApproxSpec.startOf; exact hst _
      have hend : ApproxSpec.endOf (fun i : Fin 2 => if i = 0 then (⟨k, k⟩ : Ev) else ⟨k + 1, k⟩) = k := by
        unfold ApproxSpec.endOf; exact hst _
      unfold ApproxSpec.cost at hcost
      rw [hstart, hend] at hcost
      have hs1 := ApproxSpec.startOf_le C 0
      have he1 := ApproxSpec.le_endOf C 1
      rw [← hC0] at hs1
      rw [← hC1] at he1
      simp only at hs1 he1
      have hak' : a = k := by
        apply Classical.byContradiction
        intro hne
        have e1 : num * (k : Int) ≤ num * ApproxSpec.endOf C := Int.mul_le_mul_of_nonneg_left (by omega) (by omega)
        have e2 : den * ApproxSpec.startOf C ≤ den * ((k : Int) - 1) := Int.mul_le_mul_of_nonneg_left (by omega) (by omega)
        rw [Int.mul_sub] at e2
        omega
      cases hl' with
      | done _ => simp
      | @set _ D _ hD _ =>
        exfalso
        have hD0 := hD.1.1.1 0
        unfold ApproxSpec.newerThan at hD0
        obtain ⟨h2, h3⟩ := List.mem_filter.1 hD0
        rw [h0] at h2
        obtain ⟨m, hm, hDm⟩ := List.mem_map.1 h2
        have := List.mem_range.1 hm
        rw [← hC0, ← hDm] at h3
        simp at h3
        omega

/-- **C110** (only two inputs).  With three inputs the number of sets can be smaller than possible: the history of
`C26_misses_matching_set` allows one set, none is output. -/
theorem C110_three_inputs : ∃ (ops : List (Fin 3 × Ev)) (s : State 3), run 10 (construct 3 10 10) ops = .ok s ∧ s.out = [] ∧
    Grouping 11 ops [fun i => if i = 0 then ⟨3, 9⟩ else if i = 1 then ⟨1, 8⟩ else ⟨2, 18⟩] := by
  refine ⟨[(0, ⟨0, 0⟩), (1, ⟨1, 8⟩), (2, ⟨2, 18⟩), (0, ⟨3, 9⟩)], _, rfl, rfl, ?_, ?_⟩
  · decide
  · intro T hT
    rw [List.mem_singleton.1 hT]
    decide

end MF.Epsilon

namespace MF.Py

variable {n : Nat}

/-- **C110** (Python).  If the queues of a Python ApproximateTimeSynchronizer reach back far enough (C106) and no two messages of an
input have the same stamp, any way of putting the messages together in sets within the slop has at most `n` times as many sets
as are given to the callbacks, `n` being the number of inputs. -/
theorem C110_python_share [NeZero n] (slop : Int) (allow : Bool) (q : Nat) (ops : List (Fin n × Msg))
    (hd : ∀ i, DistinctStamps (stream (accepted allow ops) i)) (hr : Reach q slop (accepted allow ops)) :
    ∃ s, approxRun noRaise slop allow (construct n q) ops = .ok s ∧
      ∀ L, Grouping slop (accepted allow ops) L → L.length ≤ n * s.out.length := by
  obtain ⟨s, h1, h2⟩ := C106_finds_matches slop allow q ops hd hr
  exact ⟨s, h1, fun L hL => share_of_hits s.out L hL.1 (fun T hT => h2 T (hL.2 T hT).1 (hL.2 T hT).2)⟩

/-- Messages at 0 and 10 on one input, at 10 and 20 on the other. -/
def greedyOps : List (Fin 2 × Ev) := [(0, ⟨0, 0⟩), (0, ⟨1, 10⟩), (1, ⟨2, 10⟩), (1, ⟨3, 20⟩)]

/-- **C110** (the share is sharp).  For two inputs the half is reached: of 0, 10 and 10, 20 two sets within a slop of 11 are possible,
and the synchronizer outputs the one of 10 and 10. -/
theorem C110_share_sharp : (∀ i, DistinctStamps (stream greedyOps i)) ∧ Reach 10 11 greedyOps ∧
    (∃ s, approxRun noRaise 11 false (construct 2 10) (withHeaders greedyOps) = .ok s ∧ s.out.length = 1) ∧
    Grouping 11 greedyOps [fun i => if i = 0 then ⟨0, 0⟩ else ⟨2, 10⟩, fun i => if i = 0 then ⟨1, 10⟩ else ⟨3, 20⟩] := by
  refine ⟨by unfold DistinctStamps; decide, reach_of_check (by decide), ⟨_, rfl, by decide⟩, by decide, ?_⟩
  intro T hT
  rcases List.mem_cons.1 hT with rfl | hT
  · decide
  · rw [List.mem_singleton.1 hT]
    decide

end MF.Py
