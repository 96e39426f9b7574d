import Verif.Proofs.Narrow
import Verif.Props.ExactRoom
import Verif.Props.PyRoom
import Verif.Props.Pairing
/-
Property C124: what an additional input does to the sets of the other inputs.
-/
namespace MF

variable {m n : Nat}

/-- A history with three inputs; the third has no message with the stamp 200. -/
def widerOps : List (Fin 3 × Ev) :=
  [(0, ⟨0, 100⟩), (2, ⟨1, 100⟩), (1, ⟨2, 100⟩), (1, ⟨3, 200⟩), (0, ⟨4, 200⟩), (2, ⟨5, 300⟩), (0, ⟨6, 300⟩), (1, ⟨7, 300⟩)]

/-- **C124** (ExactTime).  Let some inputs `σ 0`, `σ 1`, … of an ExactTime synchronizer, which deliver their messages in strict time
order as the others do, also be connected to one of their own with the same queue size.  Then it outputs, in the same order,
the sets of the first one without the other inputs, and possibly more. -/
theorem C124_exact [NeZero m] [NeZero n] (q : Nat) (σ : Fin m → Fin n) (hσ : ∀ i j, σ i = σ j → i = j) (ops : List (Fin n × Ev))
    (hinc : ∀ i, StrictlyTimeSorted (stream ops i)) (s : ExactTime.State n) (s' : ExactTime.State m)
    (h : ExactTime.run (ExactTime.construct n q) ops = .ok s)
    (h' : ExactTime.run (ExactTime.construct m q) (narrow σ ops) = .ok s') :
    List.Sublist ((ExactTime.outs s.log).map (narrowSet σ)) (ExactTime.outs s'.log) := by
  have hinc' : ∀ i, StrictlyTimeSorted (stream (narrow σ ops) i) := fun i => by rw [stream_narrow hσ]; exact hinc _
  have hb := (ExactTime.C20_monotone_partial q ops s h).2 hinc
  have hb' := (ExactTime.C20_monotone_partial q _ s' h').2 hinc'
  have hm : 0 < m := Nat.pos_of_ne_zero (NeZero.ne m)
  have hc' := ExactTime.C15_outputs_complete_equal_stamps q _ s' h'
  have hmem : ∀ t ∈ ExactTime.outs s.log, narrowSet σ t ∈ ExactTime.outs s'.log := by
    intro t ht
    rcases Nat.eq_zero_or_pos q with rfl | hq
    · rw [(ExactTime.C19_outputs_exactly_common_stamps ops s h hinc).2] at ht
      rw [(ExactTime.C19_outputs_exactly_common_stamps _ s' h' hinc').2]
      obtain ⟨T, hT⟩ := ht
      refine ⟨T, fun i => ?_⟩
      rw [stream_narrow hσ]
      exact hT (σ i)
    · rw [ExactTime.C95_bounded_outputs q hq ops s h hinc] at ht
      rw [ExactTime.C95_bounded_outputs q hq _ s' h' hinc']
      obtain ⟨pre, i, e, post, h1, h2, h3⟩ := ht
      obtain ⟨pre', i', e', post', a, b, c, d⟩ := completes_narrow hm hσ h1 h2
      refine ⟨pre', i', e', post', a, c, fun l hl hx => h3 l hl (fun x hxl => ?_)⟩
      obtain ⟨hx1, op, hop, hx2⟩ := hx x hxl
      exact ⟨by omega, (σ op.1, op.2), mem_narrow (d.subset hop), hx2⟩
  have first' : ∀ t ∈ ExactTime.outs s'.log, ∃ x, t 0 = some x := fun t ht => by
    obtain ⟨T, hT⟩ := hc' t ht
    obtain ⟨x, hx, _⟩ := hT 0
    exact ⟨x, hx⟩
  refine pairwise_sublist (R := fun t u : Fin m → Option Ev => ∃ x y, t 0 = some x ∧ u 0 = some y ∧ x.stamp < y.stamp) ?_ ?_ ?_ ?_
  · rintro t u ⟨x, y, h1, h2, h3⟩ ⟨x', y', h1', h2', h3'⟩
    rw [h1] at h2'; cases h2'
    rw [h2] at h1'; cases h1'
    omega
  · rw [List.pairwise_map]
    refine hb.imp_of_mem (fun {t u} ht hu h => ?_)
    obtain ⟨x, hx⟩ := first' _ (hmem t ht)
    obtain ⟨y, hy⟩ := first' _ (hmem u hu)
    exact ⟨x, y, hx, hy, h (σ 0) (σ 0) x y hx hy⟩
  · refine hb'.imp_of_mem (fun {t u} ht hu h => ?_)
    obtain ⟨x, hx⟩ := first' _ ht
    obtain ⟨y, hy⟩ := first' _ hu
    exact ⟨x, y, hx, hy, h 0 0 x y hx hy⟩
  · intro t ht
    obtain ⟨u, hu, rfl⟩ := List.mem_map.1 ht
    exact hmem u hu

/-- Without the third input the set with the stamp 200 is there as well. -/
example : (∀ i, StrictlyTimeSorted (stream widerOps i)) ∧
    (ExactTime.run (ExactTime.construct 3 2) widerOps).toOption.map (fun s => (ExactTime.outs s.log).map List.ofFn) =
      some [[some ⟨0, 100⟩, some ⟨2, 100⟩, some ⟨1, 100⟩], [some ⟨6, 300⟩, some ⟨7, 300⟩, some ⟨5, 300⟩]] ∧
    (ExactTime.run (ExactTime.construct 2 2) (narrow (Fin.castLE (by decide)) widerOps)).toOption.map
        (fun s => (ExactTime.outs s.log).map List.ofFn) =
      some [[some ⟨0, 100⟩, some ⟨2, 100⟩], [some ⟨4, 200⟩, some ⟨3, 200⟩], [some ⟨6, 300⟩, some ⟨7, 300⟩]] :=
  ⟨by unfold StrictlyTimeSorted; decide, by decide, by decide⟩

/-- **C124** (ExactTime, order needed).  When messages are out of order the sets can be others: here (2, 2) without the third input,
with it (1, 1, 1). -/
theorem C124_exact_order_needed : ∃ ops : List (Fin 3 × Ev),
    (ExactTime.run (ExactTime.construct 3 0) ops).toOption.map (fun s => (ExactTime.outs s.log).map List.ofFn) =
      some [[some ⟨0, 1⟩, some ⟨3, 1⟩, some ⟨4, 1⟩]] ∧
    (ExactTime.run (ExactTime.construct 2 0) (narrow (Fin.castLE (by decide)) ops)).toOption.map
        (fun s => (ExactTime.outs s.log).map List.ofFn) = some [[some ⟨1, 2⟩, some ⟨2, 2⟩]] :=
  ⟨[(0, ⟨0, 1⟩), (0, ⟨1, 2⟩), (1, ⟨2, 2⟩), (1, ⟨3, 1⟩), (2, ⟨4, 1⟩)], by decide, by decide⟩

/-- **C124** (Python TimeSynchronizer).  The same for every queue size. -/
theorem C124_python_time [NeZero m] [NeZero n] (q : Int) (hq : 0 ≤ q) (σ : Fin m → Fin n) (hσ : ∀ i j, σ i = σ j → i = j)
    (ops : List (Fin n × Ev)) (hinc : ∀ i, StrictlyTimeSorted (stream ops i)) :
    ∃ s s', Py.tsRun Py.noRaise (Py.construct n q) (Py.withHeaders ops) = .ok s ∧
      Py.tsRun Py.noRaise (Py.construct m q) (Py.withHeaders (narrow σ ops)) = .ok s' ∧
      List.Sublist (s.out.map (narrowSet σ)) s'.out := by
  have hinc' : ∀ i, StrictlyTimeSorted (stream (narrow σ ops) i) := fun i => by rw [stream_narrow hσ]; exact hinc _
  have hm : 0 < m := Nat.pos_of_ne_zero (NeZero.ne m)
  obtain ⟨s, h1, _, h2, h3⟩ := Py.C96_bounded_outputs q hq ops hinc
  obtain ⟨s', h1', _, h2', h3'⟩ := Py.C96_bounded_outputs q hq _ hinc'
  refine ⟨s, s', h1, h1', ?_⟩
  have heq := fun t ht => (Py.C63_complete_sets Py.noRaise q _ s h1 t ht).2
  refine pairwise_sublist (R := fun a b : Fin m → Ev => Py.stampOf a < Py.stampOf b) (fun a b h1 h2 => by omega) ?_
    (List.pairwise_map.1 h2') ?_
  · rw [List.pairwise_map]
    refine (List.pairwise_map.1 h2).imp_of_mem (fun {t u} ht hu h => ?_)
    unfold Py.stampOf at h ⊢
    unfold narrowSet
    rw [heq t ht (σ _) 0, heq u hu (σ _) 0]
    exact h
  · intro t ht
    obtain ⟨u, hu, rfl⟩ := List.mem_map.1 ht
    rw [h3] at hu
    rw [h3']
    obtain ⟨pre, i, e, post, a, b, c⟩ := hu
    obtain ⟨pre', i', e', post', a', b', c', d'⟩ := completes_narrow hm hσ a b
    refine ⟨pre', i', e', post', a', c', fun j => ?_⟩
    have hc := c (σ j)
    have : newerOn pre' j e'.stamp ≤ newerOn pre (σ j) e.stamp := by
      unfold newerOn
      rw [← stream_narrow hσ pre j, b']
      obtain ⟨r, hr⟩ := d'
      rw [← hr, stream_append, List.filter_append, List.length_append]
      omega
    omega

example : (∀ i, StrictlyTimeSorted (stream widerOps i)) ∧
    (Py.tsRun Py.noRaise (Py.construct 3 2) (Py.withHeaders widerOps)).toOption.map (fun s => s.out.length) = some 2 ∧
    (Py.tsRun Py.noRaise (Py.construct 2 2) (Py.withHeaders (narrow (Fin.castLE (by decide)) widerOps))).toOption.map
      (fun s => s.out.length) = some 3 :=
  ⟨by unfold StrictlyTimeSorted; decide, by decide, by decide⟩

/-- **C124** (ApproximateEpsilonTime, two of the inputs).  Let two inputs of an ApproximateEpsilonTime synchronizer, in time order, also
be connected to one of their own whose queues reach back far enough (C107).  Then that has output at least as many sets as the
first one, whatever the queue size of the first and whatever the other inputs deliver. -/
theorem C124_epsilon_two [NeZero n] (fuel fuel' q q' : Nat) (hq : 0 < q') (eps : Int) (heps : 0 ≤ eps) (σ : Fin 2 → Fin n)
    (hσ : ∀ i j, σ i = σ j → i = j) (ops : List (Fin n × Ev)) (s : Epsilon.State n) (s' : Epsilon.State 2)
    (h : Epsilon.run fuel (Epsilon.construct n q eps) ops = .ok s)
    (h' : Epsilon.run fuel' (Epsilon.construct 2 q' eps) (narrow σ ops) = .ok s')
    (hs : ∀ i, TimeSorted (stream ops (σ i))) (hmax : ∀ op ∈ ops, op.2.stamp ≤ Epsilon.maxTime)
    (hr : Epsilon.Recent q' eps (narrow σ ops)) : s.out.length ≤ s'.out.length := by
  have h1 := Epsilon.C21_sets_within_epsilon fuel q eps ops s h
  obtain ⟨h3, h4⟩ := pairing_of_out (eps := eps) (ops := narrow σ ops) (out := s.out.map (narrowSet σ))
    (fun t ht i => by
      obtain ⟨u, hu, rfl⟩ := List.mem_map.1 ht
      obtain ⟨e, he, _⟩ := (h1 u hu).1 (σ i)
      exact ⟨e, he⟩)
    (fun i => by
      obtain ⟨c, hc, hsub⟩ := Epsilon.C22_each_message_once_in_order fuel q eps ops s h (σ i)
      rw [stream_narrow hσ, hc, List.map_append, List.map_map]
      exact hsub.trans (List.sublist_append_left _ _))
    (fun t ht i j x y hij hx hy => by
      obtain ⟨u, hu, rfl⟩ := List.mem_map.1 ht
      exact (h1 u hu).2 (σ i) (σ j) x y (fun h => hij (hσ i j h)) hx hy)
  rw [List.length_map] at h4
  rw [← h4]
  refine Epsilon.C110_maximum fuel' q' hq eps heps (narrow σ ops) s' h' (fun i => ?_) (fun op hop => hmax _ (mem_narrow hop)) hr _ h3
  rw [stream_narrow hσ]
  exact hs i

example : (∀ i, TimeSorted (stream widerOps i)) ∧ (∀ op ∈ widerOps, op.2.stamp ≤ Epsilon.maxTime) ∧
    Epsilon.Recent 3 10 (narrow (Fin.castLE (by decide : 2 ≤ 3)) widerOps) ∧
    (Epsilon.run 100 (Epsilon.construct 3 3 10) widerOps).toOption.map (fun s => s.out.length) = some 2 ∧
    (Epsilon.run 100 (Epsilon.construct 2 3 10) (narrow (Fin.castLE (by decide)) widerOps)).toOption.map
      (fun s => s.out.length) = some 3 := by
  refine ⟨by unfold TimeSorted; decide, by decide, Epsilon.recent_of_check (by decide), by decide, by decide⟩

/-- **C124** (ApproximateEpsilonTime, three of the inputs).  For three of four inputs this fails, even in order and with room for
everything: two sets with the fourth input, one without. -/
theorem C124_epsilon_three_fails : ∃ ops : List (Fin 4 × Ev), (∀ i, StrictlyTimeSorted (stream ops i)) ∧
    (Epsilon.run 100 (Epsilon.construct 4 20 3) ops).toOption.map (fun s => s.out.length) = some 2 ∧
    (Epsilon.run 100 (Epsilon.construct 3 20 3) (narrow (Fin.castLE (by decide)) ops)).toOption.map (fun s => s.out.length) =
      some 1 :=
  ⟨[(0, ⟨0, 2⟩), (0, ⟨1, 3⟩), (3, ⟨2, 1⟩), (1, ⟨3, 4⟩), (2, ⟨4, 4⟩), (1, ⟨5, 6⟩), (2, ⟨6, 7⟩), (0, ⟨7, 5⟩), (3, ⟨8, 2⟩), (1, ⟨9, 10⟩),
    (3, ⟨10, 5⟩), (1, ⟨11, 14⟩)], by unfold StrictlyTimeSorted; decide, by decide, by decide⟩

/-- **C124** (ApproximateTime).  ApproximateTime may output more sets with an additional input: three with the third input, two
without, in order and with room for everything. -/
theorem C124_approximate_fails : ∃ ops : List (Fin 3 × Ev), (∀ i, StrictlyTimeSorted (stream ops i)) ∧
    (Approx.run 100 ⟨10, 100, fun x => (x * 11).tdiv 10, fun _ => 0⟩ ops).toOption.map (fun s => s.out.map List.ofFn) =
      some [[some ⟨0, 0⟩, some ⟨2, 9⟩, some ⟨1, 0⟩], [some ⟨3, 10⟩, some ⟨4, 19⟩, some ⟨5, 19⟩],
        [some ⟨6, 50⟩, some ⟨7, 50⟩, some ⟨8, 50⟩]] ∧
    (Approx.run 100 ⟨10, 100, fun x => (x * 11).tdiv 10, fun _ => 0⟩ (narrow (Fin.castLE (by decide : 2 ≤ 3)) ops)).toOption.map
        (fun s => s.out.map List.ofFn) = some [[some ⟨3, 10⟩, some ⟨2, 9⟩], [some ⟨6, 50⟩, some ⟨7, 50⟩]] :=
  ⟨[(0, ⟨0, 0⟩), (2, ⟨1, 0⟩), (1, ⟨2, 9⟩), (0, ⟨3, 10⟩), (1, ⟨4, 19⟩), (2, ⟨5, 19⟩), (0, ⟨6, 50⟩), (1, ⟨7, 50⟩), (2, ⟨8, 50⟩)],
    by unfold StrictlyTimeSorted; decide, by decide, by decide⟩

/-- **C124** (Python ApproximateTimeSynchronizer).  So may the Python ApproximateTimeSynchronizer. -/
theorem C124_python_approximate_fails : ∃ ops : List (Fin 3 × Ev), (∀ i, StrictlyTimeSorted (stream ops i)) ∧
    (Py.approxRun Py.noRaise 4 false (Py.construct 3 20) (Py.withHeaders ops)).toOption.map (fun s => s.out.length) = some 3 ∧
    (Py.approxRun Py.noRaise 4 false (Py.construct 2 20) (Py.withHeaders (narrow (Fin.castLE (by decide)) ops))).toOption.map
      (fun s => s.out.length) = some 2 :=
  ⟨[(0, ⟨0, 1⟩), (0, ⟨1, 5⟩), (1, ⟨2, 4⟩), (2, ⟨3, 2⟩), (2, ⟨4, 4⟩), (1, ⟨5, 6⟩), (0, ⟨6, 6⟩), (1, ⟨7, 8⟩), (2, ⟨8, 6⟩)],
    by unfold StrictlyTimeSorted; decide, by decide, by decide⟩

end MF
