import Verif.Proofs.Lossy
import Verif.Props.Narrow
import Verif.Props.Apart
/-
Property C125: what the loss of messages costs.
-/
namespace MF

variable {n : Nat}

/-- A history with three inputs and three sets. -/
def lossOps : List (Fin 3 × Ev) :=
  [(0, ⟨0, 100⟩), (2, ⟨1, 100⟩), (1, ⟨2, 100⟩), (1, ⟨3, 200⟩), (0, ⟨4, 200⟩), (2, ⟨5, 200⟩), (2, ⟨6, 300⟩), (0, ⟨7, 300⟩), (1, ⟨8, 300⟩)]

/-- Two of its messages are lost. -/
def lossOps' : List (Fin 3 × Ev) :=
  [(0, ⟨0, 100⟩), (2, ⟨1, 100⟩), (1, ⟨2, 100⟩), (0, ⟨4, 200⟩), (2, ⟨6, 300⟩), (0, ⟨7, 300⟩), (1, ⟨8, 300⟩)]

private theorem first_stamps [NeZero n] (q : Nat) (ops : List (Fin n × Ev)) (s : ExactTime.State n)
    (h : ExactTime.run (ExactTime.construct n q) ops = .ok s) (hinc : ∀ i, StrictlyTimeSorted (stream ops i)) :
    (ExactTime.outs s.log).Pairwise (fun t u => ∃ x y, t 0 = some x ∧ u 0 = some y ∧ x.stamp < y.stamp) := by
  have hc := ExactTime.C15_outputs_complete_equal_stamps q _ s h
  refine ((ExactTime.C20_monotone_partial q ops s h).2 hinc).imp_of_mem (fun {t u} ht hu h => ?_)
  obtain ⟨T, hT⟩ := hc t ht
  obtain ⟨U, hU⟩ := hc u hu
  obtain ⟨x, hx, _⟩ := hT 0
  obtain ⟨y, hy, _⟩ := hU 0
  exact ⟨x, y, hx, hy, h 0 0 x y hx hy⟩

private theorem first_asymm [NeZero n] (t u : Fin n → Option Ev) : (∃ x y, t 0 = some x ∧ u 0 = some y ∧ x.stamp < y.stamp) →
    (∃ x y, u 0 = some x ∧ t 0 = some y ∧ x.stamp < y.stamp) → False := by
  rintro ⟨x, y, h1, h2, h3⟩ ⟨x', y', h1', h2', h3'⟩
  rw [h1] at h2'; cases h2'
  rw [h2] at h1'; cases h1'
  omega

/-- **C125** (ExactTime).  Let messages of inputs in strict time order be lost, so that only the calls `ops'` are made.  Then every set
of which no message is lost is output nevertheless, in the same order, whatever the queue size. -/
theorem C125_exact [NeZero n] (q : Nat) (ops ops' : List (Fin n × Ev)) (hsub : List.Sublist ops' ops)
    (hinc : ∀ i, StrictlyTimeSorted (stream ops i)) (s s' : ExactTime.State n)
    (h : ExactTime.run (ExactTime.construct n q) ops = .ok s) (h' : ExactTime.run (ExactTime.construct n q) ops' = .ok s') :
    List.Sublist ((ExactTime.outs s.log).filter (survives ops')) (ExactTime.outs s'.log) := by
  have hinc' : ∀ i, StrictlyTimeSorted (stream ops' i) := fun i => (hinc i).sublist (stream_sublist hsub i)
  refine pairwise_sublist first_asymm ((first_stamps q ops s h hinc).sublist List.filter_sublist)
    (first_stamps q ops' s' h' hinc') (fun t ht => ?_)
  obtain ⟨ht, hk⟩ := List.mem_filter.1 ht
  rcases Nat.eq_zero_or_pos q with rfl | hq
  · rw [(ExactTime.C19_outputs_exactly_common_stamps ops s h hinc).2] at ht
    rw [(ExactTime.C19_outputs_exactly_common_stamps _ s' h' hinc').2]
    obtain ⟨T, hT⟩ := ht
    refine ⟨T, fun i => ?_⟩
    obtain ⟨e, _, h1, h2⟩ := hT i
    exact ⟨e, mem_stream.2 (survives_iff.1 hk i e h2), h1, h2⟩
  · rw [ExactTime.C95_bounded_outputs q hq ops s h hinc] at ht
    rw [ExactTime.C95_bounded_outputs q hq _ s' h' hinc']
    obtain ⟨pre, i, e, post, h1, h2, h3⟩ := ht
    obtain ⟨pre', i', e', post', a, b, c, d⟩ := completes_lossy (Nat.pos_of_ne_zero (NeZero.ne n)) hsub hinc h1 h2 hk
    refine ⟨pre', i', e', post', a, c, fun l hl hx => h3 l hl (fun x hxl => ?_)⟩
    obtain ⟨hx1, op, hop, hx2⟩ := hx x hxl
    refine ⟨by omega, op, ?_, hx2⟩
    rcases List.mem_append.1 (d.subset hop) with h4 | h4
    · exact h4
    · rw [List.mem_singleton.1 h4] at hx2
      dsimp only at hx2
      omega

/-- **C125** (ExactTime, unlimited queue).  Without a limit nothing else is output. -/
theorem C125_exact_unlimited [NeZero n] (ops ops' : List (Fin n × Ev)) (hsub : List.Sublist ops' ops)
    (hinc : ∀ i, StrictlyTimeSorted (stream ops i)) (s s' : ExactTime.State n)
    (h : ExactTime.run (ExactTime.construct n 0) ops = .ok s) (h' : ExactTime.run (ExactTime.construct n 0) ops' = .ok s') :
    ExactTime.outs s'.log = (ExactTime.outs s.log).filter (survives ops') := by
  have hinc' : ∀ i, StrictlyTimeSorted (stream ops' i) := fun i => (hinc i).sublist (stream_sublist hsub i)
  refine pairwise_ext first_asymm (first_stamps 0 ops' s' h' hinc')
    ((first_stamps 0 ops s h hinc).sublist List.filter_sublist) (fun t => ?_)
  rw [List.mem_filter, (ExactTime.C19_outputs_exactly_common_stamps ops s h hinc).2,
    (ExactTime.C19_outputs_exactly_common_stamps _ s' h' hinc').2, survives_iff]
  constructor
  · rintro ⟨T, hT⟩
    refine ⟨⟨T, fun i => ?_⟩, fun i e he => ?_⟩
    · obtain ⟨e, h1, h2, h3⟩ := hT i
      exact ⟨e, (stream_sublist hsub i).subset h1, h2, h3⟩
    · obtain ⟨x, h1, _, h3⟩ := hT i
      rw [he] at h3; cases h3
      exact mem_stream.1 h1
  · rintro ⟨⟨T, hT⟩, hk⟩
    refine ⟨T, fun i => ?_⟩
    obtain ⟨e, _, h2, h3⟩ := hT i
    exact ⟨e, mem_stream.2 (hk i e h3), h2, h3⟩

example : List.Sublist lossOps' lossOps ∧ (∀ i, StrictlyTimeSorted (stream lossOps i)) ∧
    (ExactTime.run (ExactTime.construct 3 0) lossOps).toOption.map
      (fun s => ((ExactTime.outs s.log).length, ((ExactTime.outs s.log).filter (survives lossOps')).length)) = some (3, 2) :=
  ⟨by decide, by unfold StrictlyTimeSorted; decide, by decide⟩

/-- **C125** (ExactTime, bounded queue).  With a limit a loss can also make room for another set: here for (1, 1), with a queue of one
place, when the message with the stamp 2 is lost. -/
theorem C125_exact_may_gain : ∃ ops ops' : List (Fin 2 × Ev), List.Sublist ops' ops ∧
    (∀ i, StrictlyTimeSorted (stream ops i)) ∧
    (ExactTime.run (ExactTime.construct 2 1) ops).toOption.map (fun s => (ExactTime.outs s.log).length) = some 0 ∧
    (ExactTime.run (ExactTime.construct 2 1) ops').toOption.map (fun s => (ExactTime.outs s.log).length) = some 1 :=
  ⟨[(0, ⟨0, 1⟩), (0, ⟨1, 2⟩), (1, ⟨2, 1⟩)], [(0, ⟨0, 1⟩), (1, ⟨2, 1⟩)], by decide, by unfold StrictlyTimeSorted; decide,
    by decide, by decide⟩

/-- **C125** (Python TimeSynchronizer). -/
theorem C125_python_time [NeZero n] (q : Int) (hq : 0 ≤ q) (ops ops' : List (Fin n × Ev)) (hsub : List.Sublist ops' ops)
    (hinc : ∀ i, StrictlyTimeSorted (stream ops i)) :
    ∃ s s', Py.tsRun Py.noRaise (Py.construct n q) (Py.withHeaders ops) = .ok s ∧
      Py.tsRun Py.noRaise (Py.construct n q) (Py.withHeaders ops') = .ok s' ∧
      List.Sublist (s.out.filter (fun t => survives ops' (fun i => some (t i)))) s'.out := by
  have hinc' : ∀ i, StrictlyTimeSorted (stream ops' i) := fun i => (hinc i).sublist (stream_sublist hsub i)
  obtain ⟨s, h1, _, h2, h3⟩ := Py.C96_bounded_outputs q hq ops hinc
  obtain ⟨s', h1', _, h2', h3'⟩ := Py.C96_bounded_outputs q hq ops' hinc'
  refine ⟨s, s', h1, h1', ?_⟩
  refine pairwise_sublist (R := fun a b : Fin n → Ev => Py.stampOf a < Py.stampOf b) (fun a b h1 h2 => by omega)
    ((List.pairwise_map.1 h2).sublist List.filter_sublist) (List.pairwise_map.1 h2') (fun t ht => ?_)
  obtain ⟨ht, hk⟩ := List.mem_filter.1 ht
  rw [h3] at ht
  rw [h3']
  obtain ⟨pre, i, e, post, a, b, c⟩ := ht
  obtain ⟨pre', i', e', post', a', b', c', d'⟩ := completes_lossy (Nat.pos_of_ne_zero (NeZero.ne n)) hsub hinc a b hk
  refine ⟨pre', i', e', post', a', c', fun j => ?_⟩
  have hc := c j
  have : newerOn pre' j e'.stamp ≤ newerOn pre j e.stamp := by
    unfold newerOn
    rw [b']
    have := ((stream_sublist d' j).filter (fun x => decide (e.stamp < x.stamp))).length_le
    rw [stream_append, List.filter_append, List.length_append] at this
    have h0 : (stream [(i, e)] j).filter (fun x => decide (e.stamp < x.stamp)) = [] := by
      rw [List.filter_eq_nil_iff]
      intro x hx
      rw [mem_stream] at hx
      rw [(Prod.mk.inj (List.mem_singleton.1 hx)).2]
      simp
    rw [h0] at this
    exact this
  omega

example : List.Sublist lossOps' lossOps ∧ (∀ i, StrictlyTimeSorted (stream lossOps i)) ∧
    (Py.tsRun Py.noRaise (Py.construct 3 2) (Py.withHeaders lossOps)).toOption.map
      (fun s => (s.out.length, (s.out.filter (fun t => survives lossOps' (fun i => some (t i)))).length)) = some (3, 2) :=
  ⟨by decide, by unfold StrictlyTimeSorted; decide, by decide⟩

/-- **C125** (ApproximateEpsilonTime, two inputs).  With two inputs in time order, and queues that reach back far enough (C107), the loss of
`k` messages costs at most `k` sets. -/
theorem C125_epsilon_two (fuel fuel' q q' : Nat) (hq : 0 < q') (eps : Int) (heps : 0 ≤ eps) (ops ops' : List (Fin 2 × Ev))
    (hsub : List.Sublist ops' ops) (s s' : Epsilon.State 2) (h : Epsilon.run fuel (Epsilon.construct 2 q eps) ops = .ok s)
    (h' : Epsilon.run fuel' (Epsilon.construct 2 q' eps) ops' = .ok s') (hs : ∀ i, TimeSorted (stream ops i))
    (hmax : ∀ op ∈ ops, op.2.stamp ≤ Epsilon.maxTime) (hr : Epsilon.Recent q' eps ops') :
    s.out.length ≤ s'.out.length + (ops.length - ops'.length) := by
  obtain ⟨h1, h2⟩ := Epsilon.C110_is_pairing fuel q eps ops s h
  obtain ⟨L, h3, h4⟩ := pairing_lossy (stream_sublist hsub 0) (stream_sublist hsub 1) h1
  have h5 := Epsilon.C110_maximum fuel' q' hq eps heps ops' s' h' (fun i => (hs i).sublist (stream_sublist hsub i))
    (fun op hop => hmax op (hsub.subset hop)) hr L h3
  have := length_two ops
  have := length_two ops'
  have := hsub.length_le
  omega

/-- Three messages, of which one is lost, in each of two inputs: two sets remain of three. -/
example : ∃ ops ops' : List (Fin 2 × Ev), List.Sublist ops' ops ∧ (∀ i, TimeSorted (stream ops i)) ∧
    (∀ op ∈ ops, op.2.stamp ≤ Epsilon.maxTime) ∧ Epsilon.Recent 3 10 ops' ∧
    (Epsilon.run 100 (Epsilon.construct 2 3 10) ops).toOption.map (fun s => s.out.length) = some 3 ∧
    (Epsilon.run 100 (Epsilon.construct 2 3 10) ops').toOption.map (fun s => s.out.length) = some 2 :=
  ⟨[(0, ⟨0, 100⟩), (1, ⟨1, 103⟩), (1, ⟨2, 200⟩), (0, ⟨3, 201⟩), (0, ⟨4, 300⟩), (1, ⟨5, 300⟩)],
    [(0, ⟨0, 100⟩), (1, ⟨1, 103⟩), (0, ⟨3, 201⟩), (0, ⟨4, 300⟩), (1, ⟨5, 300⟩)], by decide, by unfold TimeSorted; decide, by decide,
    Epsilon.recent_of_check (by decide), by decide, by decide⟩

/-- **C125** (ApproximateEpsilonTime, stamps far apart).  With any number of inputs in time order whose stamps are more than two epsilons
apart, and queues that reach back far enough before and after the loss, the sets output are those of which no message was
lost. -/
theorem C125_epsilon_apart [NeZero n] (q : Nat) (hq : 0 < q) (eps : Int) (heps : 0 ≤ eps) (ops ops' : List (Fin n × Ev))
    (hsub : List.Sublist ops' ops) (hs : ∀ i, TimeSorted (stream ops i)) (ha : ∀ i, FarApart (2 * eps) (stream ops i))
    (hmax : ∀ op ∈ ops, op.2.stamp ≤ Epsilon.maxTime) (hr : Epsilon.Recent q eps ops) (hr' : Epsilon.Recent q eps ops') (fuel : Nat)
    (hfuel : ops.length ≤ fuel) :
    ∃ s s', Epsilon.run fuel (Epsilon.construct n q eps) ops = .ok s ∧ Epsilon.run fuel (Epsilon.construct n q eps) ops' = .ok s' ∧
      ∀ t, t ∈ s'.out ↔ t ∈ s.out ∧ survives ops' t = true := by
  obtain ⟨s, h1, _, h2⟩ := Epsilon.C108_epsilon q hq eps heps ops hs ha hmax hr fuel hfuel
  obtain ⟨s', h1', _, h2'⟩ := Epsilon.C108_epsilon q hq eps heps ops' (fun i => (hs i).sublist (stream_sublist hsub i))
    (fun i => (ha i).sublist (stream_sublist hsub i)) (fun op hop => hmax op (hsub.subset hop)) hr' fuel
    (Nat.le_trans hsub.length_le hfuel)
  refine ⟨s, s', h1, h1', fun t => ?_⟩
  rw [h2, h2', survives_iff]
  constructor
  · rintro ⟨T, rfl, hT⟩
    exact ⟨⟨T, rfl, fun i => hsub.subset (hT.1 i), hT.2⟩, fun i e he => by cases he; exact hT.1 i⟩
  · rintro ⟨⟨T, rfl, hT⟩, hk⟩
    exact ⟨T, rfl, fun i => hk i (T i) rfl, hT.2⟩

example : List.Sublist lossOps' lossOps ∧ (∀ i, TimeSorted (stream lossOps i)) ∧ (∀ i, FarApart (2 * 10) (stream lossOps i)) ∧
    (∀ op ∈ lossOps, op.2.stamp ≤ Epsilon.maxTime) ∧ Epsilon.Recent 3 10 lossOps ∧ Epsilon.Recent 3 10 lossOps' ∧
    (Epsilon.run 100 (Epsilon.construct 3 3 10) lossOps').toOption.map (fun s => s.out.length) = some 2 :=
  ⟨by decide, by unfold TimeSorted; decide, by unfold FarApart; decide, by decide, Epsilon.recent_of_check (by decide),
    Epsilon.recent_of_check (by decide), by decide⟩

/-- **C125** (ApproximateTime, stamps far apart).  Let the stamps of each input, in time order, be more than twice the maximum interval
apart, and let no input run ahead of another by more than the queue size, before and after the loss.  Then every output set of
which no message was lost is output nevertheless; a set whose oldest message is now the last one of its input may still be
withheld, and there is at most one of these. -/
theorem C125_approximate_apart [NeZero n] (cfg : Approx.Cfg n) (hM : 0 ≤ cfg.maxInterval) (hf : ∀ x, 0 ≤ x → x ≤ cfg.scale x)
    (hq : 0 < cfg.queueSize) (ops ops' : List (Fin n × Ev)) (hsub : List.Sublist ops' ops) (hs : ∀ i, TimeSorted (stream ops i))
    (ha : ∀ i, FarApart (2 * cfg.maxInterval) (stream ops i)) (hr : Epsilon.AheadAtMost cfg.queueSize cfg.maxInterval ops)
    (hr' : Epsilon.AheadAtMost cfg.queueSize cfg.maxInterval ops') (fuel : Nat)
    (hfuel : ops.length * ops.length + ops.length ≤ fuel) :
    ∃ s s', Approx.run fuel cfg ops = .ok s ∧ Approx.run fuel cfg ops' = .ok s' ∧
      (∀ t ∈ s.out, survives ops' t = true → t ∈ s'.out ∨
        ∃ (T : Fin n → Ev) (a : Fin n), t = (fun i => some (T i)) ∧ (∀ j, (T a).stamp ≤ (T j).stamp) ∧ ∃ older, stream ops' a = older ++ [T a]) ∧
      ∀ t ∈ s.out, ∀ u ∈ s.out, survives ops' t = true → survives ops' u = true → t ∉ s'.out → u ∉ s'.out → t = u := by
  obtain ⟨s, h1, _, h2, _⟩ := Approx.C108_approximate cfg hM hf hq ops hs ha hr fuel hfuel
  obtain ⟨s', h1', _, _, h3', h4'⟩ := Approx.C108_approximate cfg hM hf hq ops' (fun i => (hs i).sublist (stream_sublist hsub i))
    (fun i => (ha i).sublist (stream_sublist hsub i)) hr' fuel
    (Nat.le_trans (Nat.add_le_add (Nat.mul_le_mul hsub.length_le hsub.length_le) hsub.length_le) hfuel)
  have key : ∀ t ∈ s.out, survives ops' t = true → ∃ T, t = (fun i => some (T i)) ∧ Matches cfg.maxInterval ops' T := by
    intro t ht hk
    obtain ⟨T, rfl, hT⟩ := h2 t ht
    exact ⟨T, rfl, fun i => survives_iff.1 hk i (T i) rfl, hT.2⟩
  refine ⟨s, s', h1, h1', fun t ht hk => ?_, fun t ht u hu hk hk' hn hn' => ?_⟩
  · obtain ⟨T, rfl, hT⟩ := key t ht hk
    rcases h3' T hT with h | ⟨a, ha1, ha2⟩
    · exact .inl h
    · exact .inr ⟨T, a, rfl, ha1, ha2⟩
  · obtain ⟨T, rfl, hT⟩ := key t ht hk
    obtain ⟨U, rfl, hU⟩ := key u hu hk'
    rw [h4' T U hT hU hn hn']

example : List.Sublist lossOps' lossOps ∧ (∀ i, TimeSorted (stream lossOps i)) ∧ (∀ i, FarApart (2 * 20) (stream lossOps i)) ∧
    Epsilon.AheadAtMost 3 20 lossOps ∧ Epsilon.AheadAtMost 3 20 lossOps' ∧
    (Approx.run 100 ⟨3, 20, fun x => (x * 11).tdiv 10, fun _ => 0⟩ lossOps).toOption.map (fun s => s.out.length) = some 3 ∧
    (Approx.run 100 ⟨3, 20, fun x => (x * 11).tdiv 10, fun _ => 0⟩ lossOps').toOption.map (fun s => s.out.length) = some 2 :=
  ⟨by decide, by unfold TimeSorted; decide, by unfold FarApart; decide, Epsilon.aheadAtMost_of_check (by decide),
    Epsilon.aheadAtMost_of_check (by decide), by decide, by decide⟩

/-- **C125** (Python ApproximateTimeSynchronizer).  With three inputs the loss of one message can cost two sets, in order and with room
for everything. -/
theorem C125_python_approximate_fails : ∃ ops ops' : List (Fin 3 × Ev), List.Sublist ops' ops ∧ ops.length = ops'.length + 1 ∧
    (∀ i, StrictlyTimeSorted (stream ops i)) ∧
    (Py.approxRun Py.noRaise 4 false (Py.construct 3 20) (Py.withHeaders ops)).toOption.map (fun s => s.out.length) = some 3 ∧
    (Py.approxRun Py.noRaise 4 false (Py.construct 3 20) (Py.withHeaders ops')).toOption.map (fun s => s.out.length) = some 1 :=
  ⟨[(0, ⟨0, 2⟩), (1, ⟨1, 2⟩), (1, ⟨2, 3⟩), (1, ⟨3, 4⟩), (2, ⟨4, 4⟩), (0, ⟨5, 4⟩), (0, ⟨6, 7⟩), (2, ⟨7, 6⟩), (1, ⟨8, 6⟩), (1, ⟨9, 10⟩),
      (2, ⟨10, 10⟩)],
    [(0, ⟨0, 2⟩), (1, ⟨1, 2⟩), (1, ⟨2, 3⟩), (1, ⟨3, 4⟩), (0, ⟨5, 4⟩), (0, ⟨6, 7⟩), (2, ⟨7, 6⟩), (1, ⟨8, 6⟩), (1, ⟨9, 10⟩), (2, ⟨10, 10⟩)],
    by decide, by decide, by unfold StrictlyTimeSorted; decide, by decide, by decide⟩

end MF
