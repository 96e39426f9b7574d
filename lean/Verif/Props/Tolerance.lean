import Verif.Props.Apart
import Verif.Props.Pairing
/-
C128: what a larger tolerance changes in the output of the approximate synchronizers.
-/
namespace MF

variable {n : Nat}

theorem matches_mono {w w' : Int} (hw : w ≤ w') {ops : List (Fin n × Ev)} {T : Fin n → Ev} (h : Matches w ops T) : Matches w' ops T :=
  ⟨h.1, fun i j => by have := h.2 i j; omega⟩

theorem filter_sublist_of_imp {α : Type} {p p' : α → Bool} (h : ∀ x, p x = true → p' x = true) {l : List α} :
    (l.filter p).Sublist (l.filter p') := by
  have : l.filter p = (l.filter p').filter p := by
    rw [List.filter_filter]
    refine List.filter_congr (fun x _ => ?_)
    cases hp : p x
    · rfl
    · simp [h x hp]
  rw [this]; exact List.filter_sublist

end MF

namespace MF.Epsilon

variable {n : Nat}

theorem Recent.mono {q : Nat} {eps eps' : Int} (hle : eps ≤ eps') {ops : List (Fin n × Ev)} (h : Recent q eps' ops) : Recent q eps ops :=
  fun pre j e post ho i hi older x newer hx h1 h2 => h pre j e post ho i hi older x newer hx (by omega) (by omega)

theorem AheadAtMost.mono {q : Nat} {eps eps' : Int} (hle : eps ≤ eps') {ops : List (Fin n × Ev)} (h : AheadAtMost q eps' ops) :
    AheadAtMost q eps ops := by
  intro k i j hij
  refine Nat.le_trans (List.Sublist.length_le ?_) (h k i j hij)
  refine filter_sublist_of_imp (fun x hx => ?_)
  rw [List.all_eq_true] at hx ⊢
  intro y hy
  have := hx y hy
  simp only [decide_eq_true_eq] at this ⊢
  omega

/-- **C128** (ApproximateEpsilonTime).  On inputs whose stamps are more than two of the larger epsilon apart, a larger epsilon only
adds sets: the output with the smaller one is that with the larger one, in the same order, without the sets whose stamps differ by
more than the smaller one. -/
theorem C128_epsilon_apart [NeZero n] (q : Nat) (hq : 0 < q) (eps eps' : Int) (heps : 0 ≤ eps) (hle : eps ≤ eps') (ops : List (Fin n × Ev))
    (hs : ∀ i, TimeSorted (stream ops i)) (ha : ∀ i, FarApart (2 * eps') (stream ops i)) (hmax : ∀ op ∈ ops, op.2.stamp ≤ maxTime)
    (hr : Recent q eps' ops) (fuel : Nat) (hfuel : ops.length ≤ fuel) :
    ∃ s s', run fuel (construct n q eps) ops = .ok s ∧ run fuel (construct n q eps') ops = .ok s' ∧ s.out.Sublist s'.out ∧
      ∀ t ∈ s'.out, (t ∈ s.out ↔ ∀ i j a b, t i = some a → t j = some b → a.stamp - b.stamp ≤ eps) := by
  have ha1 : ∀ i, FarApart (2 * eps) (stream ops i) := fun i => (ha i).mono (by omega)
  obtain ⟨s, h1, _, h3⟩ := C108_epsilon q hq eps heps ops hs ha1 hmax (hr.mono hle) fuel hfuel
  obtain ⟨s', g1, _, g3⟩ := C108_epsilon q hq eps' (by omega) ops hs ha hmax hr fuel hfuel
  have hstrict := fun i => (ha i).strict (by omega) (hs i)
  refine ⟨s, s', h1, g1, pairwise_sublist ?_ (out_follow h1 hstrict) (out_follow g1 hstrict) (fun t ht => ?_), fun t ht => ?_⟩
  · rintro S S' ⟨a, b, h1, h2, h3⟩ ⟨a', b', h4, h5, h6⟩
    rw [h1] at h5
    rw [h2] at h4
    cases h4; cases h5
    omega
  · obtain ⟨T, hT, hm⟩ := (h3 t).1 ht
    exact (g3 t).2 ⟨T, hT, matches_mono hle hm⟩
  · obtain ⟨T, rfl, hm⟩ := (g3 t).1 ht
    rw [h3]
    constructor
    · rintro ⟨T', hT', hm'⟩ i j a b hi hj
      have h4 := congrFun hT' i
      have h5 := congrFun hT' j
      simp only [Option.some.injEq] at hi hj h4 h5
      rw [← hi, ← hj, h4, h5]
      exact hm'.2 i j
    · exact fun h => ⟨T, rfl, hm.1, fun i j => h i j _ _ rfl rfl⟩

/-- The hypotheses hold on the sample history of C108, and the two outputs differ. -/
example : (∀ i, FarApart (2 * 10) (stream sparseOps i)) ∧ (∀ i, TimeSorted (stream sparseOps i)) ∧ Recent 2 10 sparseOps ∧
    (∀ op ∈ sparseOps, op.2.stamp ≤ maxTime) ∧
    (∃ s, run 20 (construct 3 2 6) sparseOps = .ok s ∧ s.out.map List.ofFn = [[some ⟨9, 331⟩, some ⟨8, 325⟩, some ⟨10, 330⟩]]) ∧
    ∃ s, run 20 (construct 3 2 10) sparseOps = .ok s ∧
      s.out.map List.ofFn = [[some ⟨0, 100⟩, some ⟨2, 105⟩, some ⟨3, 98⟩], [some ⟨9, 331⟩, some ⟨8, 325⟩, some ⟨10, 330⟩]] :=
  ⟨sparse_apart, sparse_sorted, recent_of_check (by decide), by decide, ⟨_, rfl, by decide⟩, _, rfl, by decide⟩

/-- **C128** (two inputs, ApproximateEpsilonTime).  With two inputs in time order, however close their messages, a larger epsilon never
means fewer sets, provided that the queues have room for the larger one. -/
theorem C128_epsilon_two (q : Nat) (hq : 0 < q) (eps eps' : Int) (heps : 0 ≤ eps) (hle : eps ≤ eps') (ops : List (Fin 2 × Ev))
    (hs : ∀ i, TimeSorted (stream ops i)) (hmax : ∀ op ∈ ops, op.2.stamp ≤ maxTime) (hr : Recent q eps' ops) (fuel : Nat)
    (hfuel : ops.length ≤ fuel) :
    ∃ s s', run fuel (construct 2 q eps) ops = .ok s ∧ run fuel (construct 2 q eps') ops = .ok s' ∧ s.out.length ≤ s'.out.length := by
  obtain ⟨s, h⟩ := C24_terminates_partial (n := 2) q eps heps ops hmax fuel hfuel
  obtain ⟨s', h'⟩ := C24_terminates_partial (n := 2) q eps' (by omega) ops hmax fuel hfuel
  exact ⟨s, s', h, h', C110_against_other_queue_sizes fuel fuel q q hq eps' eps (by omega) hle ops ops s' s h' h (fun _ => rfl) hs hmax hr⟩

/-- **C128** (but it can mean other sets, ApproximateEpsilonTime).  With epsilon 3 the messages at 6 and 5 make a set; with 6 the one at 5 has been
used, with the older one at 0. -/
theorem C128_epsilon_two_other : ∃ ops : List (Fin 2 × Ev), (∀ i, TimeSorted (stream ops i)) ∧ Recent 2 6 ops ∧
    (∃ s, run 20 (construct 2 2 3) ops = .ok s ∧ s.out.map List.ofFn = [[some ⟨2, 6⟩, some ⟨1, 5⟩]]) ∧
    ∃ s, run 20 (construct 2 2 6) ops = .ok s ∧ s.out.map List.ofFn = [[some ⟨0, 0⟩, some ⟨1, 5⟩]] := by
  refine ⟨[(0, ⟨0, 0⟩), (1, ⟨1, 5⟩), (0, ⟨2, 6⟩)], fun i => ?_, recent_of_check (by decide), ⟨_, rfl, by decide⟩, _, rfl, by decide⟩
  unfold TimeSorted; revert i; decide

/-- **C128** (three inputs, ApproximateEpsilonTime).  From three inputs on a larger epsilon can mean fewer sets, although all inputs are in
time order and no queue overflows. -/
theorem C128_epsilon_three_fewer : ∃ ops : List (Fin 3 × Ev), (∀ i, StrictlyTimeSorted (stream ops i)) ∧ Recent 7 3 ops ∧
    (∃ s, run 20 (construct 3 7 2) ops = .ok s ∧
      s.out.map List.ofFn = [[some ⟨0, 3⟩, some ⟨2, 4⟩, some ⟨3, 3⟩], [some ⟨1, 7⟩, some ⟨4, 8⟩, some ⟨6, 8⟩]]) ∧
    ∃ s, run 20 (construct 3 7 3) ops = .ok s ∧ s.out.map List.ofFn = [[some ⟨0, 3⟩, some ⟨2, 4⟩, some ⟨3, 3⟩]] := by
  refine ⟨[(0, ⟨0, 3⟩), (0, ⟨1, 7⟩), (1, ⟨2, 4⟩), (2, ⟨3, 3⟩), (1, ⟨4, 8⟩), (2, ⟨5, 4⟩), (2, ⟨6, 8⟩)], fun i => ?_,
    recent_of_check (by decide), ⟨_, rfl, by decide⟩, _, rfl, by decide⟩
  unfold StrictlyTimeSorted; revert i; decide

end MF.Epsilon

namespace MF.Py

variable {n : Nat}

theorem Reach.slop_mono {q : Nat} {slop slop' : Int} (hle : slop ≤ slop') {ops : List (Fin n × Ev)} (h : Reach q slop' ops) : Reach q slop ops :=
  fun pre i e post ho => ⟨(h pre i e post ho).1, fun j hj x hx h1 h2 => (h pre i e post ho).2 j hj x hx (by omega) (by omega)⟩

/-- **C128** (Python ApproximateTimeSynchronizer).  On inputs whose stamps are more than `2 * (slop - 1)` apart for the larger slop, a
larger slop only adds sets: those of the smaller one are exactly those of the larger one whose stamps differ by less than the smaller
one. -/
theorem C128_python_apart [NeZero n] (slop slop' : Int) (hslop : 0 < slop) (hle : slop ≤ slop') (allow : Bool) (q : Nat)
    (ops : List (Fin n × Msg)) (ha : ∀ i, FarApart (2 * (slop' - 1)) (stream (accepted allow ops) i))
    (hr : Reach q slop' (accepted allow ops)) :
    ∃ s s', approxRun noRaise slop allow (construct n q) ops = .ok s ∧ approxRun noRaise slop' allow (construct n q) ops = .ok s' ∧
      s.out.Nodup ∧ s'.out.Nodup ∧ ∀ T, T ∈ s.out ↔ T ∈ s'.out ∧ ∀ i j, (T i).stamp - (T j).stamp < slop := by
  have ha1 : ∀ i, FarApart (2 * (slop - 1)) (stream (accepted allow ops) i) := fun i => (ha i).mono (by omega)
  obtain ⟨s, h1, h2, h3⟩ := C108_python slop hslop allow q ops ha1 (hr.slop_mono hle)
  obtain ⟨s', g1, g2, g3⟩ := C108_python slop' (by omega) allow q ops ha hr
  refine ⟨s, s', h1, g1, h2, g2, fun T => ?_⟩
  rw [h3, g3]
  constructor
  · exact fun h => ⟨matches_mono (by omega) h, fun i j => by have := h.2 i j; omega⟩
  · exact fun h => ⟨h.1.1, fun i j => by have := h.2 i j; omega⟩

example : (∀ i, FarApart (2 * (11 - 1)) (stream (accepted false (withHeaders sparsePy)) i)) ∧
    Reach 2 11 (accepted false (withHeaders sparsePy)) ∧
    (∃ s, approxRun noRaise 7 false (construct 3 2) (withHeaders sparsePy) = .ok s ∧
      s.out.map List.ofFn = [[⟨9, 331⟩, ⟨8, 325⟩, ⟨10, 330⟩]]) ∧
    ∃ s, approxRun noRaise 11 false (construct 3 2) (withHeaders sparsePy) = .ok s ∧
      s.out.map List.ofFn = [[⟨0, 100⟩, ⟨2, 105⟩, ⟨3, 98⟩], [⟨9, 331⟩, ⟨8, 325⟩, ⟨10, 330⟩]] := by
  refine ⟨fun i => ?_, reach_of_check (by decide), ⟨_, rfl, by decide⟩, _, rfl, by decide⟩
  unfold FarApart; revert i; decide

/-- **C128** (a larger slop can mean fewer sets, Python).  Three inputs in time order: slop 3 gives two sets and slop 5 only one. -/
theorem C128_python_three_fewer : ∃ ops : List (Fin 3 × Ev), (∀ i, StrictlyTimeSorted (stream ops i)) ∧ Reach 6 5 ops ∧
    (∃ s, approxRun noRaise 3 false (construct 3 6) (withHeaders ops) = .ok s ∧
      s.out.map List.ofFn = [[⟨0, 3⟩, ⟨3, 5⟩, ⟨2, 3⟩], [⟨1, 6⟩, ⟨5, 6⟩, ⟨4, 8⟩]]) ∧
    ∃ s, approxRun noRaise 5 false (construct 3 6) (withHeaders ops) = .ok s ∧ s.out.map List.ofFn = [[⟨1, 6⟩, ⟨3, 5⟩, ⟨2, 3⟩]] := by
  refine ⟨[(0, ⟨0, 3⟩), (0, ⟨1, 6⟩), (2, ⟨2, 3⟩), (1, ⟨3, 5⟩), (2, ⟨4, 8⟩), (1, ⟨5, 6⟩)], fun i => ?_, reach_of_check (by decide),
    ⟨_, rfl, by decide⟩, _, rfl, by decide⟩
  unfold StrictlyTimeSorted; revert i; decide

/-- **C128** (two inputs that are not in time order, Python). -/
theorem C128_python_two_fewer : ∃ ops : List (Fin 2 × Ev), Reach 4 4 ops ∧
    (∃ s, approxRun noRaise 3 false (construct 2 4) (withHeaders ops) = .ok s ∧
      s.out.map List.ofFn = [[⟨0, 2⟩, ⟨2, 0⟩], [⟨3, 7⟩, ⟨1, 5⟩]]) ∧
    ∃ s, approxRun noRaise 4 false (construct 2 4) (withHeaders ops) = .ok s ∧ s.out.map List.ofFn = [[⟨0, 2⟩, ⟨1, 5⟩]] :=
  ⟨[(0, ⟨0, 2⟩), (1, ⟨1, 5⟩), (1, ⟨2, 0⟩), (0, ⟨3, 7⟩)], reach_of_check (by decide), ⟨_, rfl, by decide⟩, _, rfl, by decide⟩

end MF.Py

namespace MF.Approx

variable {n : Nat}

/-- **C128** (ApproximateTime).  On inputs whose stamps are more than two of the larger maximum intervals apart, a larger maximum interval only
adds sets.  A set within the smaller one is output with both or with neither, except for one that may still be waiting with either:
its oldest message is the last one of its input so far.  All other sets of the larger one span more than the smaller one. -/
theorem C128_approximate_apart [NeZero n] (cfg : Cfg n) (M : Int) (hM : 0 ≤ M) (hle : M ≤ cfg.maxInterval) (hf : ∀ x, 0 ≤ x → x ≤ cfg.scale x)
    (hq : 0 < cfg.queueSize) (ops : List (Fin n × Ev)) (hs : ∀ i, TimeSorted (stream ops i))
    (ha : ∀ i, FarApart (2 * cfg.maxInterval) (stream ops i)) (hr : Epsilon.AheadAtMost cfg.queueSize cfg.maxInterval ops) (fuel : Nat)
    (hfuel : ops.length * ops.length + ops.length ≤ fuel) :
    ∃ s s', run fuel { cfg with maxInterval := M } ops = .ok s ∧ run fuel cfg ops = .ok s' ∧
      (∀ t ∈ s.out, t ∈ s'.out ∨ ∃ a e, t a = some e ∧ (∀ j b, t j = some b → e.stamp ≤ b.stamp) ∧ ∃ older, stream ops a = older ++ [e]) ∧
      ∀ t ∈ s'.out, t ∈ s.out ∨ (∃ i j a b, t i = some a ∧ t j = some b ∧ M < a.stamp - b.stamp) ∨
        ∃ a e, t a = some e ∧ (∀ j b, t j = some b → e.stamp ≤ b.stamp) ∧ ∃ older, stream ops a = older ++ [e] := by
  obtain ⟨s, h1, _, h3, h4, _⟩ := C108_approximate { cfg with maxInterval := M } hM hf hq ops hs
    (fun i => (ha i).mono (by show 2 * M ≤ _; omega)) (hr.mono hle) fuel hfuel
  obtain ⟨s', g1, _, g3, g4, _⟩ := C108_approximate cfg (by omega) hf hq ops hs ha hr fuel hfuel
  refine ⟨s, s', h1, g1, fun t ht => ?_, fun t ht => ?_⟩
  · obtain ⟨T, rfl, hm⟩ := h3 t ht
    rcases g4 T (matches_mono hle hm) with h | ⟨a, h5, h6⟩
    · exact Or.inl h
    · exact Or.inr ⟨a, T a, rfl, fun j b hb => by cases hb; exact h5 j, h6⟩
  · obtain ⟨T, rfl, hm⟩ := g3 t ht
    by_cases hw : ∀ i j, (T i).stamp - (T j).stamp ≤ M
    · rcases h4 T ⟨hm.1, hw⟩ with h | ⟨a, h5, h6⟩
      · exact Or.inl h
      · exact Or.inr (Or.inr ⟨a, T a, rfl, fun j b hb => by cases hb; exact h5 j, h6⟩)
    · obtain ⟨i, hi⟩ := Classical.not_forall.1 hw
      obtain ⟨j, hj⟩ := Classical.not_forall.1 hi
      exact Or.inr (Or.inl ⟨i, j, T i, T j, rfl, rfl, by omega⟩)

/-- Both outputs on the sample history of C108 and one more message. -/
example : (∀ i, FarApart (2 * (sparseCfg 3).maxInterval) (stream (Epsilon.sparseOps ++ [(1, ⟨11, 400⟩)]) i)) ∧
    (∀ i, TimeSorted (stream (Epsilon.sparseOps ++ [(1, ⟨11, 400⟩)]) i)) ∧ Epsilon.AheadAtMost 3 10 (Epsilon.sparseOps ++ [(1, ⟨11, 400⟩)]) ∧
    (∃ s, run 200 { sparseCfg 3 with maxInterval := 6 } (Epsilon.sparseOps ++ [(1, ⟨11, 400⟩)]) = .ok s ∧
      s.out.map List.ofFn = [[some ⟨9, 331⟩, some ⟨8, 325⟩, some ⟨10, 330⟩]]) ∧
    ∃ s, run 200 (sparseCfg 3) (Epsilon.sparseOps ++ [(1, ⟨11, 400⟩)]) = .ok s ∧
      s.out.map List.ofFn = [[some ⟨0, 100⟩, some ⟨2, 105⟩, some ⟨3, 98⟩], [some ⟨9, 331⟩, some ⟨8, 325⟩, some ⟨10, 330⟩]] := by
  refine ⟨fun i => ?_, fun i => ?_, Epsilon.aheadAtMost_of_check (by decide), ⟨_, rfl, by decide⟩, _, rfl, by decide⟩
  · unfold FarApart; revert i; decide
  · unfold TimeSorted; revert i; decide

/-- **C128** (closer inputs, ApproximateTime).  Without the distance a larger maximum interval can take a set away and output another one
instead: the messages at 8 and 9 make a set under 3, while under 6 the former goes with that at 6 and the latter with that at 12. -/
theorem C128_approximate_other : ∃ ops : List (Fin 2 × Ev), (∀ i, StrictlyTimeSorted (stream ops i)) ∧
    ∃ s s', run 200 ⟨50, 3, fun x => (x * 11).tdiv 10, fun _ => 0⟩ ops = .ok s ∧
      run 200 ⟨50, 6, fun x => (x * 11).tdiv 10, fun _ => 0⟩ ops = .ok s' ∧
      s.out.map List.ofFn = [[some ⟨2, 8⟩, some ⟨5, 9⟩], [some ⟨6, 100⟩, some ⟨7, 100⟩], [some ⟨8, 200⟩, some ⟨9, 200⟩]] ∧
      s'.out.map List.ofFn = [[some ⟨2, 8⟩, some ⟨1, 6⟩], [some ⟨3, 12⟩, some ⟨5, 9⟩], [some ⟨6, 100⟩, some ⟨7, 100⟩],
        [some ⟨8, 200⟩, some ⟨9, 200⟩]] := by
  refine ⟨[(0, ⟨0, 2⟩), (1, ⟨1, 6⟩), (0, ⟨2, 8⟩), (0, ⟨3, 12⟩), (0, ⟨4, 18⟩), (1, ⟨5, 9⟩), (0, ⟨6, 100⟩), (1, ⟨7, 100⟩), (0, ⟨8, 200⟩),
    (1, ⟨9, 200⟩)], fun i => ?_, _, _, rfl, rfl, by decide, by decide⟩
  unfold StrictlyTimeSorted; revert i; decide

end MF.Approx
