import Verif.Spec.Ahead
import Verif.Proofs.Ahead
import Verif.Props.Pairing
import Verif.Props.Tolerance
/-
C110 and C128, place by place: ApproximateEpsilonTime with two inputs outputs the oldest sets.
-/
namespace MF.Epsilon

theorem Ahead.length_le {out' out : List (Fin 2 → Option Ev)} (h : Ahead out' out) : out.length ≤ out'.length := by
  apply Classical.byContradiction
  intro hc
  have hlt : out'.length < out.length := by omega
  obtain ⟨t', ht, _⟩ := h out'.length _ (List.getElem?_eq_getElem hlt)
  have := (List.getElem?_eq_some_iff.1 ht).1
  omega

/-- **C110** (place by place).  Take two inputs that deliver in time order, and queues that reach back far enough (C107).  Let `L` be any other way to
put messages added so far together in pairs within epsilon, in order on both inputs.  Then an ApproximateEpsilonTime synchronizer has output a `k`-th
set for every `k`-th pair of `L`, and on both inputs its message is at least as old. -/
theorem C110_place_by_place (fuel q : Nat) (hq : 0 < q) (eps : Int) (heps : 0 ≤ eps) (ops : List (Fin 2 × Ev)) (s : State 2)
    (h : run fuel (construct 2 q eps) ops = .ok s) (hs : ∀ i, TimeSorted (stream ops i))
    (hmax : ∀ op ∈ ops, op.2.stamp ≤ maxTime) (hr : Recent q eps ops) (L : List (Ev × Ev))
    (h0 : (L.map Prod.fst).Sublist (stream ops 0)) (h1 : (L.map Prod.snd).Sublist (stream ops 1))
    (hL : ∀ p ∈ L, p.1.stamp - p.2.stamp ≤ eps ∧ p.2.stamp - p.1.stamp ≤ eps) (k : Nat) (p : Ev × Ev) (hk : L[k]? = some p) :
    ∃ t a b, s.out[k]? = some t ∧ t 0 = some a ∧ t 1 = some b ∧ a.stamp ≤ p.1.stamp ∧ b.stamp ≤ p.2.stamp := by
  obtain ⟨w, g1, g2, _⟩ := run_recent heps hq (by decide) fin2_cover ops s h hs hmax hr
  exact steps_ahead heps g1 g2 hs (fun i e he => hmax (i, e) (mem_stream.1 he)) L h0 h1 hL k p hk

theorem ahead_of_out (fuel q : Nat) (hq : 0 < q) (eps : Int) (heps : 0 ≤ eps) (ops : List (Fin 2 × Ev)) (s : State 2)
    (h : run fuel (construct 2 q eps) ops = .ok s) (hs : ∀ i, TimeSorted (stream ops i))
    (hmax : ∀ op ∈ ops, op.2.stamp ≤ maxTime) (hr : Recent q eps ops) (out : List (Fin 2 → Option Ev)) (hc : ∀ t ∈ out, ∀ i, ∃ e, t i = some e)
    (hsub : ∀ i, List.Sublist (out.map (· i)) ((stream ops i).map some))
    (hspan : ∀ t ∈ out, ∀ i j x y, i ≠ j → t i = some x → t j = some y → x.stamp - y.stamp ≤ eps) : Ahead s.out out := by
  obtain ⟨g1, g2, g3⟩ := pairsOf_map out hc
  intro k t hk
  have hklt : k < (pairsOf out).length := by rw [g1]; exact (List.getElem?_eq_some_iff.1 hk).1
  have hp := List.getElem?_eq_getElem hklt
  generalize (pairsOf out)[k] = p at hp
  have e0 : t 0 = some p.1 := by
    have := congrArg (fun l => l[k]?) g2
    simp only [List.getElem?_map, hp, hk, Option.map_some, Option.some.injEq] at this
    exact this.symm
  have e1 : t 1 = some p.2 := by
    have := congrArg (fun l => l[k]?) g3
    simp only [List.getElem?_map, hp, hk, Option.map_some, Option.some.injEq] at this
    exact this.symm
  obtain ⟨t', a, b, h1, h2, h3, h4, h5⟩ := C110_place_by_place fuel q hq eps heps ops s h hs hmax hr (pairsOf out)
    (sublist_of_map_some (by rw [List.map_map]; have := hsub 0; rw [← g2] at this; exact this))
    (sublist_of_map_some (by rw [List.map_map]; have := hsub 1; rw [← g3] at this; exact this))
    (fun p hp => by
      obtain ⟨t, ht, h4, h5⟩ := mem_pairsOf hp
      exact ⟨hspan t ht 0 1 _ _ (by decide) h4 h5, hspan t ht 1 0 _ _ (by decide) h5 h4⟩) k p hp
  refine ⟨t', h1, fun i x hx => ?_⟩
  rcases fin2_cover i with rfl | rfl
  · rw [e0] at hx; cases hx; exact ⟨a, h2, h4⟩
  · rw [e1] at hx; cases hx; exact ⟨b, h3, h5⟩

/-- **C125** (ApproximateEpsilonTime, two inputs, place by place).  With two inputs in time order and queues that reach back far enough: the `k`-th set
is at least as old, on both inputs, as the `k`-th set of a synchronizer that misses some of the messages, whatever the queue size and the
interleaving of the latter, and also if its epsilon is smaller. -/
theorem C125_epsilon_two_older (fuel fuel' q q' : Nat) (hq : 0 < q') (eps eps' : Int) (heps : 0 ≤ eps') (hle : eps ≤ eps') (ops ops' : List (Fin 2 × Ev))
    (s s' : State 2) (h : run fuel (construct 2 q eps) ops = .ok s) (h' : run fuel' (construct 2 q' eps') ops' = .ok s')
    (hmiss : ∀ i, List.Sublist (stream ops i) (stream ops' i)) (hs : ∀ i, TimeSorted (stream ops' i)) (hmax : ∀ op ∈ ops', op.2.stamp ≤ maxTime)
    (hr : Recent q' eps' ops') : Ahead s'.out s.out := by
  have h1 := C21_sets_within_epsilon fuel q eps ops s h
  refine ahead_of_out fuel' q' hq eps' heps ops' s' h' hs hmax hr s.out (fun t ht i => ?_) (fun i => ?_) (fun t ht i j x y hij hx hy => ?_)
  · obtain ⟨e, he, _⟩ := (h1 t ht).1 i
    exact ⟨e, he⟩
  · obtain ⟨c, hc, hsub⟩ := C22_each_message_once_in_order fuel q eps ops s h i
    refine List.Sublist.trans ?_ ((hmiss i).map some)
    rw [hc, List.map_append]
    exact hsub.trans (List.sublist_append_left _ _)
  · exact Int.le_trans ((h1 t ht).2 i j x y hij hx hy) hle

/-- Without the message at 0 the first set is 6-5, with it 0-5. -/
example : ∃ ops ops' : List (Fin 2 × Ev), (∀ i, List.Sublist (stream ops i) (stream ops' i)) ∧ (∀ i, TimeSorted (stream ops' i)) ∧ Recent 3 6 ops' ∧
    (∃ s, run 20 (construct 2 3 6) ops = .ok s ∧ s.out.map List.ofFn = [[some ⟨2, 6⟩, some ⟨1, 5⟩]]) ∧
    ∃ s', run 20 (construct 2 3 6) ops' = .ok s' ∧ s'.out.map List.ofFn = [[some ⟨0, 0⟩, some ⟨1, 5⟩], [some ⟨2, 6⟩, some ⟨3, 10⟩]] := by
  refine ⟨[(1, ⟨1, 5⟩), (0, ⟨2, 6⟩), (1, ⟨3, 10⟩)], [(0, ⟨0, 0⟩), (1, ⟨1, 5⟩), (0, ⟨2, 6⟩), (1, ⟨3, 10⟩)], by decide, fun i => ?_,
    recent_of_check (by decide), ⟨_, rfl, by decide⟩, _, rfl, by decide⟩
  unfold TimeSorted; revert i; decide

/-- **C128** (two inputs, ApproximateEpsilonTime, place by place).  With two inputs in time order, however close their messages, and queues that have
room for the larger epsilon: the `k`-th set with the larger epsilon is at least as old as the `k`-th set with the smaller one, on both inputs,
whatever the queue size and the interleaving of the latter. -/
theorem C128_epsilon_two_older (fuel fuel' q q' : Nat) (hq : 0 < q') (eps eps' : Int) (heps : 0 ≤ eps') (hle : eps ≤ eps') (ops ops' : List (Fin 2 × Ev))
    (s s' : State 2) (h : run fuel (construct 2 q eps) ops = .ok s) (h' : run fuel' (construct 2 q' eps') ops' = .ok s')
    (hsame : SameStreams ops ops') (hs : ∀ i, TimeSorted (stream ops' i)) (hmax : ∀ op ∈ ops', op.2.stamp ≤ maxTime) (hr : Recent q' eps' ops') :
    Ahead s'.out s.out :=
  C125_epsilon_two_older fuel fuel' q q' hq eps eps' heps hle ops ops' s s' h h'
    (fun i => by have := hsame i; rw [this]; exact List.Sublist.refl _) hs hmax hr

/-- **C110** (place by place, against ApproximateTime).  The `k`-th set of ApproximateEpsilonTime is at least as old, on both inputs, as the `k`-th set
of an ApproximateTime synchronizer whose sets may span at most epsilon, whatever its queue size, age penalty and minimum distances. -/
theorem C110_approximate_time_older (fuel fuel' q : Nat) (hq : 0 < q) (eps : Int) (heps : 0 ≤ eps) (cfg : Approx.Cfg 2)
    (hle : cfg.maxInterval ≤ eps) (hf : ∀ x, 0 ≤ x → x ≤ cfg.scale x) (ops ops' : List (Fin 2 × Ev)) (s : State 2)
    (s' : Approx.State 2) (h : run fuel (construct 2 q eps) ops = .ok s) (h' : Approx.run fuel' cfg ops' = .ok s')
    (hsame : SameStreams ops ops') (hs : ∀ i, TimeSorted (stream ops i)) (hmax : ∀ op ∈ ops, op.2.stamp ≤ maxTime)
    (hr : Recent q eps ops) : Ahead s.out s'.out := by
  have hstr : stream ops = stream ops' := funext hsame
  have h1 := Approx.C27_complete_sets fuel' cfg _ s' h'
  have h2 := Approx.C31_max_interval_in_order fuel' cfg hf ops' s' h' (by rw [← hstr]; exact hs)
  refine ahead_of_out fuel q hq eps heps ops s h hs hmax hr s'.out (fun t ht i => ?_) (fun i => ?_) (fun t ht i j x y _ hx hy => ?_)
  · obtain ⟨e, he, _⟩ := h1 t ht i; exact ⟨e, he⟩
  · obtain ⟨c, hc, hsub⟩ := Approx.C30_each_message_once_in_order fuel' cfg _ s' h' i
    rw [Approx.adds_map] at hc
    rw [hstr, hc, List.map_append]
    exact hsub.trans (List.sublist_append_left _ _)
  · have := h2 t ht i j x y hx hy; omega

/-- Epsilon 6 gives the sets 0-5 and 6-9, epsilon 3 the set 6-5 only, ApproximateTime with maximum interval 6 the set 6-5. -/
example : ∃ ops : List (Fin 2 × Ev), (∀ i, TimeSorted (stream ops i)) ∧ Recent 3 6 ops ∧
    (∃ s, run 20 (construct 2 3 3) ops = .ok s ∧ s.out.map List.ofFn = [[some ⟨2, 6⟩, some ⟨1, 5⟩]]) ∧
    (∃ s, run 20 (construct 2 3 6) ops = .ok s ∧ s.out.map List.ofFn = [[some ⟨0, 0⟩, some ⟨1, 5⟩], [some ⟨2, 6⟩, some ⟨3, 10⟩]]) ∧
    ∃ s, Approx.run 100 ⟨10, 6, fun x => (x * 11).tdiv 10, fun _ => 0⟩ ops = .ok s ∧ s.out.map List.ofFn = [[some ⟨2, 6⟩, some ⟨1, 5⟩]] := by
  refine ⟨[(0, ⟨0, 0⟩), (1, ⟨1, 5⟩), (0, ⟨2, 6⟩), (1, ⟨3, 10⟩)], fun i => ?_, recent_of_check (by decide), ⟨_, rfl, by decide⟩,
    ⟨_, rfl, by decide⟩, _, rfl, by decide⟩
  unfold TimeSorted; revert i; decide

end MF.Epsilon
