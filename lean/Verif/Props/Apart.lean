import Verif.Proofs.ApartApprox
import Verif.Props.ApproxRoom
import Verif.Props.ApproxMaximal
import Verif.Props.EpsilonReach
/-
C108: inputs whose stamps are far apart compared with the tolerance.  All approximate synchronizers output the matching sets.
-/
namespace MF

variable {n : Nat}

/-- **C108** (the matching sets are disjoint).  If the stamps of each input are more than two tolerances apart, two matching sets
that share a message are the same. -/
theorem C108_matches_disjoint {w : Int} {ops : List (Fin n × Ev)} (ha : ∀ i, FarApart (2 * w) (stream ops i)) {S T : Fin n → Ev}
    (hS : Matches w ops S) (hT : Matches w ops T) {i : Fin n} (hi : S i = T i) : S = T :=
  matches_unique ha (fun i => mem_stream.2 (hS.1 i)) (fun i => mem_stream.2 (hT.1 i)) hS.2 hT.2 hi

/-- Lists of sets that follow one another on input 0 and have the same members are equal. -/
theorem follow_ext [NeZero n] {l m : List (Fin n → Option Ev)}
    (hl : l.Pairwise (fun S S' => ∃ a b, S 0 = some a ∧ S' 0 = some b ∧ a.stamp < b.stamp))
    (hm : m.Pairwise (fun S S' => ∃ a b, S 0 = some a ∧ S' 0 = some b ∧ a.stamp < b.stamp)) (h : ∀ x, x ∈ l ↔ x ∈ m) : l = m := by
  refine pairwise_ext ?_ hl hm h
  rintro S S' ⟨a, b, h1, h2, h3⟩ ⟨a', b', h4, h5, h6⟩
  rw [h1] at h5
  rw [h2] at h4
  cases h4; cases h5
  omega

end MF

namespace MF.Epsilon

variable {n : Nat}

theorem out_follow [NeZero n] {fuel q : Nat} {eps : Int} {ops : List (Fin n × Ev)} {s : State n}
    (h : run fuel (construct n q eps) ops = .ok s) (hs : ∀ i, StrictlyTimeSorted (stream ops i)) :
    s.out.Pairwise (fun S S' => ∃ a b, S 0 = some a ∧ S' 0 = some b ∧ a.stamp < b.stamp) := by
  obtain ⟨c, hc, hsub⟩ := run_history ops s h 0
  have h1 : StrictlyTimeSorted c := by
    have := hs 0
    unfold StrictlyTimeSorted at this
    rw [hc] at this
    exact (List.pairwise_append.1 this).1
  have h2 : (c.map some).Pairwise (fun x y => ∃ a b, x = some a ∧ y = some b ∧ a.stamp < b.stamp) :=
    List.pairwise_map.2 (h1.imp (fun h => ⟨_, _, rfl, rfl, h⟩))
  exact List.pairwise_map.1 (h2.sublist hsub)

/-- **C108** (ApproximateEpsilonTime).  Let the messages of each input be in time order, with stamps more than `2 * epsilon` apart.
Whenever a message is delivered, let each message of another input that is within epsilon of it be among the last `queue_size` ones
of that input.  Then every call returns and the sets that are output are exactly the matching ones, each once, whatever the number
of inputs and however they interleave. -/
theorem C108_epsilon [NeZero n] (q : Nat) (hq : 0 < q) (eps : Int) (heps : 0 ≤ eps) (ops : List (Fin n × Ev))
    (hs : ∀ i, TimeSorted (stream ops i)) (ha : ∀ i, FarApart (2 * eps) (stream ops i)) (hmax : ∀ op ∈ ops, op.2.stamp ≤ maxTime)
    (hr : Recent q eps ops) (fuel : Nat) (hfuel : ops.length ≤ fuel) :
    ∃ s, run fuel (construct n q eps) ops = .ok s ∧ s.out.Nodup ∧
      ∀ t, t ∈ s.out ↔ ∃ T, t = (fun i => some (T i)) ∧ Matches eps ops T := by
  obtain ⟨s, h⟩ := C24_terminates_partial q eps heps ops hmax fuel hfuel
  have hstrict := fun i => (ha i).strict (by omega) (hs i)
  refine ⟨s, h, (out_follow h hstrict).imp ?_, fun t => ⟨fun ht => ?_, ?_⟩⟩
  · rintro S S' ⟨a, b, h1, h2, h3⟩ rfl
    rw [h1] at h2; cases h2; omega
  · obtain ⟨h1, h2⟩ := C21_sets_within_epsilon fuel q eps ops s h t ht
    refine ⟨fun i => (h1 i).choose, funext fun i => (h1 i).choose_spec.1, fun i => (h1 i).choose_spec.2, fun i j => ?_⟩
    by_cases hij : i = j
    · subst hij; omega
    · exact h2 i j _ _ hij (h1 i).choose_spec.1 (h1 j).choose_spec.1
  · rintro ⟨T, rfl, hT⟩
    rcases run_apart heps hq ha hs hmax hr hT ops s h [] (by simp) with h1 | h1
    · exact h1
    · obtain ⟨k, hk⟩ := (run_inv h).1.someEmpty
      have := h1 k (hT.1 k)
      rw [hk] at this; cases this

/-- **C108** (what the output depends on).  Under these conditions neither the interleaving nor the queue size matters. -/
theorem C108_epsilon_interleaving [NeZero n] (q q' : Nat) (hq : 0 < q) (hq' : 0 < q') (eps : Int) (heps : 0 ≤ eps)
    (ops ops' : List (Fin n × Ev)) (hsame : SameStreams ops ops') (hs : ∀ i, TimeSorted (stream ops i))
    (ha : ∀ i, FarApart (2 * eps) (stream ops i)) (hmax : ∀ op ∈ ops, op.2.stamp ≤ maxTime) (hr : Recent q eps ops)
    (hr' : Recent q' eps ops') (fuel : Nat) (hfuel : ops.length ≤ fuel) (hfuel' : ops'.length ≤ fuel) :
    ∃ s s', run fuel (construct n q eps) ops = .ok s ∧ run fuel (construct n q' eps) ops' = .ok s' ∧ s.out = s'.out := by
  have hmem : ∀ op, op ∈ ops ↔ op ∈ ops' := by
    rintro ⟨i, e⟩
    rw [← mem_stream, ← mem_stream, hsame i]
  obtain ⟨s, h1, _, h3⟩ := C108_epsilon q hq eps heps ops hs ha hmax hr fuel hfuel
  obtain ⟨s', h4, _, h6⟩ := C108_epsilon q' hq' eps heps ops' (fun i => by rw [← hsame i]; exact hs i)
    (fun i => by rw [← hsame i]; exact ha i) (fun op hop => hmax op ((hmem op).2 hop)) hr' fuel hfuel'
  have hstrict := fun i => (ha i).strict (by omega) (hs i)
  refine ⟨s, s', h1, h4, follow_ext (out_follow h1 hstrict) (out_follow h4 (fun i => by rw [← hsame i]; exact hstrict i)) fun t => ?_⟩
  rw [h3, h6]
  unfold Matches
  simp only [hmem]

/-- **C108** (known rates and delays).  Stamps at least `p > 2 * epsilon` apart, messages delivered in the order of arrival and
arriving at most `D` after their stamp: a queue size of more than `(D + epsilon) / p` is enough. -/
theorem C108_epsilon_rates [NeZero n] (q : Nat) (eps : Int) (heps : 0 ≤ eps) (R : Nat → Fin n → Ev) (arr : Nat → Fin n → Int) (p D : Int)
    (hp : 2 * eps < p) (hpace : Paced R p) (hdelay : Delayed R arr D) (hq : D + eps < q * p) (ops : List (Fin n × Ev))
    (hdel : Delivers R ops) (hb : ByArrival arr ops) (hmax : ∀ op ∈ ops, op.2.stamp ≤ maxTime) (fuel : Nat)
    (hfuel : ops.length ≤ fuel) :
    ∃ s, run fuel (construct n q eps) ops = .ok s ∧ s.out.Nodup ∧
      ∀ t, t ∈ s.out ↔ ∃ T, t = (fun i => some (T i)) ∧ Matches eps ops T := by
  have hq0 : 0 < q := by
    rcases Nat.eq_zero_or_pos q with rfl | h
    · have := hdelay.1 0 0
      rw [Int.natCast_zero, Int.zero_mul] at hq
      omega
    · exact h
  have hstrict := fun i => hpace.strict (by omega) hdel i
  refine C108_epsilon q hq0 eps heps ops (fun i => (hstrict i).imp (fun h => Int.le_of_lt h)) (fun i => ?_) hmax
    (recent_of_reach hstrict (Py.reach_of_rates (by omega) hq0 hpace hdelay hdel hb (by omega))) fuel hfuel
  exact (hpace.stream_spaced (by omega) hdel i).imp (fun h => by omega)

/-- Three inputs, epsilon 10: 100-105-98 and 331-325-330 match; 200 and 261 have no match on input 1, and 150 none at all. -/
def sparseOps : List (Fin 3 × Ev) :=
  [(0, ⟨0, 100⟩), (0, ⟨1, 200⟩), (1, ⟨2, 105⟩), (2, ⟨3, 98⟩), (1, ⟨4, 150⟩), (2, ⟨5, 201⟩), (2, ⟨6, 260⟩), (0, ⟨7, 261⟩), (1, ⟨8, 325⟩),
   (0, ⟨9, 331⟩), (2, ⟨10, 330⟩)]

theorem sparse_apart : ∀ i, FarApart (2 * 10) (stream sparseOps i) := by intro i; unfold FarApart; revert i; decide

theorem sparse_sorted : ∀ i, TimeSorted (stream sparseOps i) := by intro i; unfold TimeSorted; revert i; decide

/-- The hypotheses of `C108_epsilon` hold with queues of two places, one of which overflows, and two sets are output. -/
example : (∀ i, FarApart (2 * 10) (stream sparseOps i)) ∧ (∀ i, TimeSorted (stream sparseOps i)) ∧ Recent 2 10 sparseOps ∧
    (∀ op ∈ sparseOps, op.2.stamp ≤ maxTime) ∧ ¬ NoOverflow 20 1 10 sparseOps ∧
    ∃ s, run 20 (construct 3 2 10) sparseOps = .ok s ∧
      s.out.map List.ofFn = [[some ⟨0, 100⟩, some ⟨2, 105⟩, some ⟨3, 98⟩], [some ⟨9, 331⟩, some ⟨8, 325⟩, some ⟨10, 330⟩]] := by
  refine ⟨sparse_apart, sparse_sorted, recent_of_check (by decide), by decide, fun h => ?_, _, rfl, by decide⟩
  have := h 2 _ rfl 0
  revert this; decide

example : Matches 10 sparseOps (fun i => if i = 0 then ⟨9, 331⟩ else if i = 1 then ⟨8, 325⟩ else ⟨10, 330⟩) := by
  unfold Matches; decide

/-- **C108** (the distance is needed).  At exactly `2 * epsilon` a message can match two of another input, and only one of these
sets is output. -/
theorem C108_epsilon_distance_needed : ∃ ops : List (Fin 2 × Ev), (∀ i, FarApart (2 * 10 - 1) (stream ops i)) ∧
    Recent 2 10 ops ∧ Matches 10 ops (fun i => if i = 0 then ⟨1, 20⟩ else ⟨2, 10⟩) ∧
    ∃ s, run 20 (construct 2 2 10) ops = .ok s ∧ s.out.map List.ofFn = [[some ⟨0, 0⟩, some ⟨2, 10⟩]] := by
  refine ⟨[(0, ⟨0, 0⟩), (0, ⟨1, 20⟩), (1, ⟨2, 10⟩)], fun i => ?_, recent_of_check (by decide), by unfold Matches; decide,
    _, rfl, by decide⟩
  unfold FarApart; revert i; decide

/-- **C108** (the room is needed).  A queue of one place has lost the message at 100 when its partner arrives. -/
theorem C108_epsilon_room_needed : ∃ ops : List (Fin 2 × Ev), (∀ i, FarApart (2 * 10) (stream ops i)) ∧ (∀ i, TimeSorted (stream ops i)) ∧
    ¬ Recent 1 10 ops ∧ Recent 2 10 ops ∧ Matches 10 ops (fun i => if i = 0 then ⟨0, 100⟩ else ⟨2, 105⟩) ∧
    ∃ s, run 20 (construct 2 1 10) ops = .ok s ∧ s.out.length = 0 := by
  refine ⟨[(0, ⟨0, 100⟩), (0, ⟨1, 200⟩), (1, ⟨2, 105⟩)], fun i => ?_, fun i => ?_, fun h => ?_, recent_of_check (by decide),
    by unfold Matches; decide, _, rfl, by decide⟩
  · unfold FarApart; revert i; decide
  · unfold TimeSorted; revert i; decide
  · have := h [(0, ⟨0, 100⟩), (0, ⟨1, 200⟩)] 1 ⟨2, 105⟩ [] rfl 0 (by decide) [] ⟨0, 100⟩ [⟨1, 200⟩] rfl (by decide) (by decide)
    revert this; decide

end MF.Epsilon

namespace MF.Py

variable {n : Nat}

/-- **C108** (Python ApproximateTimeSynchronizer).  Let the stamps of each input be more than `2 * (slop - 1)` apart, in any order.
Under the condition of C106 on the queue size, the sets that are output are exactly those whose stamps differ by less than the
slop, each once. -/
theorem C108_python [NeZero n] (slop : Int) (hslop : 0 < slop) (allow : Bool) (q : Nat) (ops : List (Fin n × Msg))
    (ha : ∀ i, FarApart (2 * (slop - 1)) (stream (accepted allow ops) i)) (hr : Reach q slop (accepted allow ops)) :
    ∃ s, approxRun noRaise slop allow (construct n q) ops = .ok s ∧ s.out.Nodup ∧
      ∀ T, T ∈ s.out ↔ Matches (slop - 1) (accepted allow ops) T := by
  have hd : ∀ i, DistinctStamps (stream (accepted allow ops) i) := fun i => List.pairwise_map.2 ((ha i).imp (fun h => by omega))
  obtain ⟨s, h, hf⟩ := C106_finds_matches slop allow q ops hd hr
  have hin := fun t ht => C67_complete_sets noRaise slop q allow ops s h t ht
  refine ⟨s, h, ?_, fun T => ⟨fun hT => ⟨(hin T hT).1, fun i j => by have := (hin T hT).2 i j; omega⟩, fun hT => ?_⟩⟩
  · have hnd : (s.out.map (· 0)).Nodup := by
      rw [List.nodup_iff_count]
      intro e
      refine Nat.le_trans (C67_each_once noRaise slop q allow ops s h 0 e) ?_
      have h1 : (stream (accepted allow ops) 0).Nodup := (List.pairwise_map.1 (hd 0)).imp (fun h h' => h (by rw [h']))
      have h2 := List.nodup_iff_count.1 h1 e
      refine Nat.le_trans ?_ h2
      unfold stream
      have h3 := List.count_le_count_map (l := (accepted allow ops).filter (fun op => op.1 = 0)) (f := Prod.snd) (x := ((0 : Fin n), e))
      rw [List.count_filter (by simp)] at h3
      exact h3
    unfold List.Nodup at hnd ⊢
    exact (List.pairwise_map.1 hnd).imp (fun h h' => h (by rw [h']))
  · obtain ⟨t, ht, i, hi⟩ := hf T hT.1 (fun i j => by have := hT.2 i j; omega)
    have := C108_matches_disjoint ha (S := t) ⟨(hin t ht).1, fun i j => by have := (hin t ht).2 i j; omega⟩ hT hi
    rw [← this]; exact ht

/-- The hypotheses are met by the sample history of `C108_epsilon` with one message out of order. -/
def sparsePy : List (Fin 3 × Ev) :=
  [(0, ⟨1, 200⟩), (0, ⟨0, 100⟩), (1, ⟨2, 105⟩), (2, ⟨3, 98⟩), (1, ⟨4, 150⟩), (2, ⟨5, 201⟩), (2, ⟨6, 260⟩), (0, ⟨7, 261⟩), (1, ⟨8, 325⟩),
   (0, ⟨9, 331⟩), (2, ⟨10, 330⟩)]

example : (∀ i, FarApart (2 * (11 - 1)) (stream (accepted false (withHeaders sparsePy)) i)) ∧
    Reach 2 11 (accepted false (withHeaders sparsePy)) ∧
    ∃ s, approxRun noRaise 11 false (construct 3 2) (withHeaders sparsePy) = .ok s ∧
      s.out.map List.ofFn = [[⟨0, 100⟩, ⟨2, 105⟩, ⟨3, 98⟩], [⟨9, 331⟩, ⟨8, 325⟩, ⟨10, 330⟩]] := by
  refine ⟨fun i => ?_, reach_of_check (by decide), _, rfl, by decide⟩
  unfold FarApart; revert i; decide

/-- **C108** (the distance is needed). -/
theorem C108_python_distance_needed : ∃ ops : List (Fin 2 × Ev), (∀ i, FarApart (2 * (11 - 1) - 1) (stream ops i)) ∧
    Reach 2 11 ops ∧ Matches (11 - 1) ops (fun i => if i = 0 then ⟨1, 20⟩ else ⟨2, 10⟩) ∧
    ∃ s, approxRun noRaise 11 false (construct 2 2) (withHeaders ops) = .ok s ∧ s.out.map List.ofFn = [[⟨0, 0⟩, ⟨2, 10⟩]] := by
  refine ⟨[(0, ⟨0, 0⟩), (0, ⟨1, 20⟩), (1, ⟨2, 10⟩)], fun i => ?_, reach_of_check (by decide), by unfold Matches; decide,
    _, rfl, by decide⟩
  unfold FarApart; revert i; decide

end MF.Py

namespace MF.Approx

variable {n : Nat}

theorem atMostWithin_of_apart {M : Int} (hM : 0 ≤ M) {ops : List (Fin n × Ev)} (ha : ∀ i, FarApart (2 * M) (stream ops i)) {q : Nat} (hq : 0 < q) :
    AtMostWithin q M ops := by
  intro i T
  have h1 := List.Pairwise.sublist (List.filter_sublist (p := fun x : Ev => decide (T - M ≤ x.stamp) && decide (x.stamp ≤ T))) (ha i)
  match hl : (stream ops i).filter (fun x => decide (T - M ≤ x.stamp) && decide (x.stamp ≤ T)) with
  | [] => rw [hl]; exact Nat.zero_le _
  | [x] => rw [hl]; exact hq
  | x :: y :: tl =>
    exfalso
    have hx : x ∈ (stream ops i).filter (fun x => decide (T - M ≤ x.stamp) && decide (x.stamp ≤ T)) := by rw [hl]; simp
    have hy : y ∈ (stream ops i).filter (fun x => decide (T - M ≤ x.stamp) && decide (x.stamp ≤ T)) := by rw [hl]; simp
    simp only [List.mem_filter, Bool.and_eq_true, decide_eq_true_eq] at hx hy
    rw [hl] at h1
    have := (List.pairwise_cons.1 h1).1 y (by simp)
    omega

/-- **C108** (ApproximateTime).  Let the messages of each input be in time order, with stamps more than twice the maximum interval
apart, and let no input run ahead of another one by more than `queue_size` messages.  Then every output set is a matching one, no set
is output twice, and every matching set is output, with at most one exception, whose oldest message is the last one of its input so
far: that set is output as soon as this input delivers anything. -/
theorem C108_approximate [NeZero n] (cfg : Cfg n) (hM : 0 ≤ cfg.maxInterval) (hf : ∀ x, 0 ≤ x → x ≤ cfg.scale x)
    (hq : 0 < cfg.queueSize) (ops : List (Fin n × Ev)) (hs : ∀ i, TimeSorted (stream ops i))
    (ha : ∀ i, FarApart (2 * cfg.maxInterval) (stream ops i)) (hr : Epsilon.AheadAtMost cfg.queueSize cfg.maxInterval ops) (fuel : Nat)
    (hfuel : ops.length * ops.length + ops.length ≤ fuel) :
    ∃ s, run fuel cfg ops = .ok s ∧ s.out.Nodup ∧
      (∀ t ∈ s.out, ∃ T, t = (fun i => some (T i)) ∧ Matches cfg.maxInterval ops T) ∧
      (∀ T, Matches cfg.maxInterval ops T → (fun i => some (T i)) ∈ s.out ∨
        ∃ a, (∀ j, (T a).stamp ≤ (T j).stamp) ∧ ∃ older, stream ops a = older ++ [T a]) ∧
      ∀ T T', Matches cfg.maxInterval ops T → Matches cfg.maxInterval ops T' → (fun i => some (T i)) ∉ s.out →
        (fun i => some (T' i)) ∉ s.out → T = T' := by
  obtain ⟨s, h⟩ := C28_terminates fuel cfg hq ops hfuel
  have hstrict := fun i => (ha i).strict (by omega) (hs i)
  have hno := C99_no_overflow fuel cfg hM hf ops hs hr (atMostWithin_of_apart hM ha hq)
  refine ⟨s, h, ?_, fun t ht => ?_, fun T hT => ?_, fun T T' hT hT' h1 h2 => ?_⟩
  · refine (C98_sets_follow fuel cfg ops s h hstrict).imp ?_
    rintro S S' h1 rfl
    obtain ⟨a, b, h2, h3, h4⟩ := h1 0
    rw [h2] at h3; cases h3; omega
  · have h1 : ∀ i, ∃ e, t i = some e ∧ (i, e) ∈ ops := by
      intro i
      obtain ⟨c, hc, hsub⟩ := (run_facts h).2.2 i
      obtain ⟨e, he, hte⟩ := List.mem_map.1 (hsub.subset (List.mem_map.2 ⟨t, ht, rfl⟩))
      exact ⟨e, hte.symm, mem_stream.1 (by rw [hc]; simp [he])⟩
    have h2 := C31_max_interval_in_order fuel cfg hf ops s h hs t ht
    exact ⟨fun i => (h1 i).choose, funext fun i => (h1 i).choose_spec.1, fun i => (h1 i).choose_spec.2,
      fun i j => h2 i j _ _ (h1 i).choose_spec.1 (h1 j).choose_spec.1⟩
  · rcases run_sparse_fits hM hf h hno ha hstrict hT with h1 | h1
    · exact Or.inl h1
    · exact Or.inr h1.2.2
  · rcases run_sparse_fits hM hf h hno ha hstrict hT with h3 | h3
    · exact absurd h3 h1
    · rcases run_sparse_fits hM hf h hno ha hstrict hT' with h4 | h4
      · exact absurd h4 h2
      · funext i
        have := h3.1 i
        rw [h4.1 i] at this
        exact (Option.some.inj this).symm

/-- A configuration for the sample history.  The last set waits, as input 1 could still deliver a message at 329. -/
def sparseCfg (q : Nat) : Cfg 3 := ⟨q, 10, fun x => (x * 11).tdiv 10, fun _ => 0⟩

example : (∀ i, FarApart (2 * (sparseCfg 3).maxInterval) (stream Epsilon.sparseOps i)) ∧ (∀ i, TimeSorted (stream Epsilon.sparseOps i)) ∧
    Epsilon.AheadAtMost 3 10 Epsilon.sparseOps ∧ (∀ x, 0 ≤ x → x ≤ (sparseCfg 3).scale x) ∧
    (∃ s, run 200 (sparseCfg 3) Epsilon.sparseOps = .ok s ∧ s.out.map List.ofFn = [[some ⟨0, 100⟩, some ⟨2, 105⟩, some ⟨3, 98⟩]]) ∧
    ∃ s, run 200 (sparseCfg 3) (Epsilon.sparseOps ++ [(1, ⟨11, 400⟩)]) = .ok s ∧
      s.out.map List.ofFn = [[some ⟨0, 100⟩, some ⟨2, 105⟩, some ⟨3, 98⟩], [some ⟨9, 331⟩, some ⟨8, 325⟩, some ⟨10, 330⟩]] :=
  ⟨Epsilon.sparse_apart, Epsilon.sparse_sorted, Epsilon.aheadAtMost_of_check (by decide), fun x hx => by
    show x ≤ (x * 11).tdiv 10
    rw [Int.tdiv_eq_ediv_of_nonneg (by omega)]; omega, ⟨_, rfl, by decide⟩, _, rfl, by decide⟩

/-- **C108** (the distance is needed).  At exactly twice the maximum interval a message can match two of another input, and only one
of these sets is output. -/
theorem C108_approximate_distance_needed : ∃ ops : List (Fin 2 × Ev), (∀ i, FarApart (2 * 10 - 1) (stream ops i)) ∧
    (∀ i, TimeSorted (stream ops i)) ∧ Epsilon.AheadAtMost 3 10 ops ∧ Matches 10 ops (fun i => if i = 0 then ⟨1, 20⟩ else ⟨2, 10⟩) ∧
    ∃ s, run 100 ⟨3, 10, fun x => (x * 11).tdiv 10, fun _ => 0⟩ ops = .ok s ∧
      s.out.map List.ofFn = [[some ⟨0, 0⟩, some ⟨2, 10⟩], [some ⟨4, 60⟩, some ⟨3, 60⟩]] := by
  refine ⟨[(0, ⟨0, 0⟩), (0, ⟨1, 20⟩), (1, ⟨2, 10⟩), (1, ⟨3, 60⟩), (0, ⟨4, 60⟩)], fun i => ?_, fun i => ?_,
    Epsilon.aheadAtMost_of_check (by decide), by unfold Matches; decide, _, rfl, by decide⟩
  · unfold FarApart; revert i; decide
  · unfold TimeSorted; revert i; decide

/-- **C108** (the three synchronizers agree).  Under the conditions of `C108_approximate` the ApproximateEpsilonTime synchronizer and the
Python ApproximateTimeSynchronizer with the corresponding tolerances output the same sets, and the ApproximateTime synchronizer outputs
the same sets in the same order as the former, except that the last one may still be missing. -/
theorem C108_agree [NeZero n] (cfg : Cfg n) (hM : 0 ≤ cfg.maxInterval) (hf : ∀ x, 0 ≤ x → x ≤ cfg.scale x)
    (hq : 0 < cfg.queueSize) (ops : List (Fin n × Ev)) (hs : ∀ i, TimeSorted (stream ops i))
    (ha : ∀ i, FarApart (2 * cfg.maxInterval) (stream ops i)) (hr : Epsilon.AheadAtMost cfg.queueSize cfg.maxInterval ops)
    (hmax : ∀ op ∈ ops, op.2.stamp ≤ Epsilon.maxTime) (fuel : Nat) (hfuel : ops.length * ops.length + ops.length ≤ fuel) :
    ∃ s s1 s2, run fuel cfg ops = .ok s ∧ Epsilon.run fuel (Epsilon.construct n cfg.queueSize cfg.maxInterval) ops = .ok s1 ∧
      Py.approxRun Py.noRaise (cfg.maxInterval + 1) false (Py.construct n cfg.queueSize) (Py.withHeaders ops) = .ok s2 ∧
      (∀ T : Fin n → Ev, (fun i => some (T i)) ∈ s1.out ↔ T ∈ s2.out) ∧ s1.out.length = s2.out.length ∧
      (s1.out = s.out ∨ ∃ T, s1.out = s.out ++ [T]) := by
  have hacc : Py.accepted false (Py.withHeaders ops) = ops := by
    simp [Py.accepted, Py.withHeaders, List.filter_map, Function.comp_def]
  have hsl : cfg.maxInterval + 1 - 1 = cfg.maxInterval := by omega
  obtain ⟨s, h1, h2, h3, h4, h5⟩ := C108_approximate cfg hM hf hq ops hs ha hr fuel hfuel
  obtain ⟨s1, g1, g2, g3⟩ := Epsilon.C108_epsilon cfg.queueSize hq cfg.maxInterval hM ops hs ha hmax (Epsilon.recent_of_ahead hs hr) fuel
    (by omega)
  obtain ⟨s2, f1, f2, f3⟩ := Py.C108_python (n := n) (cfg.maxInterval + 1) (by omega) false cfg.queueSize (Py.withHeaders ops)
    (by rw [hacc, hsl]; exact ha) (by rw [hacc]; exact Py.reach_of_ahead hq hs (by rw [hsl]; exact hr))
  rw [hacc, hsl] at f3
  have hstrict := fun i => (ha i).strict (by omega) (hs i)
  have hiff : ∀ T : Fin n → Ev, (fun i => some (T i)) ∈ s1.out ↔ T ∈ s2.out := by
    intro T
    rw [g3, f3]
    constructor
    · rintro ⟨T', h, hT'⟩
      have : T = T' := funext fun i => Option.some.inj (congrFun h i)
      rw [this]; exact hT'
    · exact fun h => ⟨T, rfl, h⟩
  refine ⟨s, s1, s2, h1, g1, f1, hiff, ?_, ?_⟩
  · have hp : s1.out.Perm (s2.out.map (fun T i => some (T i))) := by
      refine (List.perm_ext_iff_of_nodup g2 ?_).2 (fun t => ?_)
      · unfold List.Nodup at f2 ⊢
        exact List.pairwise_map.2 (f2.imp (fun h h' => h (funext fun i => Option.some.inj (congrFun h' i))))
      · constructor
        · intro ht
          obtain ⟨T, rfl, _⟩ := (g3 t).1 ht
          exact List.mem_map.2 ⟨T, (hiff T).1 ht, rfl⟩
        · intro ht
          obtain ⟨T, hT, rfl⟩ := List.mem_map.1 ht
          exact (hiff T).2 hT
    simpa using hp.length_eq
  · have hfol := (C98_sets_follow fuel cfg ops s h1 hstrict).imp (fun h => h 0)
    have hno := C99_no_overflow fuel cfg hM hf ops hs hr (atMostWithin_of_apart hM ha hq)
    by_cases hall : ∀ T, Matches cfg.maxInterval ops T → (fun i => some (T i)) ∈ s.out
    · left
      refine follow_ext (Epsilon.out_follow g1 hstrict) hfol (fun t => ?_)
      rw [g3]
      exact ⟨fun ⟨T, h, hT⟩ => h ▸ hall T hT, h3 t⟩
    · right
      obtain ⟨T, hT⟩ := Classical.not_forall.1 hall
      obtain ⟨hT, hTo⟩ := Classical.not_imp.1 hT
      refine ⟨fun i => some (T i), follow_ext (Epsilon.out_follow g1 hstrict) ?_ (fun t => ?_)⟩
      · rcases run_sparse_fits hM hf h1 hno ha hstrict hT with h6 | ⟨_, h6, _⟩
        · exact absurd h6 hTo
        · rw [List.pairwise_append]
          refine ⟨hfol, by simp, fun S hS S' hS' => ?_⟩
          rw [List.mem_singleton] at hS'
          subst hS'
          obtain ⟨a, ha', _, hlt⟩ := out_before_held (run_facts h1).2.2 hstrict hS 0
          exact ⟨a, T 0, ha', rfl, hlt _ (h6 0)⟩
      · rw [g3, List.mem_append, List.mem_singleton]
        constructor
        · rintro ⟨T', rfl, hT'⟩
          by_cases h6 : (fun i => some (T' i)) ∈ s.out
          · exact Or.inl h6
          · right; rw [h5 T' T hT' hT h6 hTo]
        · rintro (h6 | rfl)
          · exact h3 t h6
          · exact ⟨T, rfl, hT⟩

example : ∃ (s : State 3) (s1 : Epsilon.State 3) (s2 : Py.State 3), run 200 (sparseCfg 3) Epsilon.sparseOps = .ok s ∧
    Epsilon.run 200 (Epsilon.construct 3 3 10) Epsilon.sparseOps = .ok s1 ∧
    Py.approxRun Py.noRaise 11 false (Py.construct 3 3) (Py.withHeaders Epsilon.sparseOps) = .ok s2 ∧
    s.out.length = 1 ∧ s1.out.length = 2 ∧ s2.out.length = 2 := ⟨_, _, _, rfl, rfl, rfl, by decide, by decide, by decide⟩

end MF.Approx
