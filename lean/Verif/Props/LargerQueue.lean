import Verif.Props.Cache
import Verif.Props.PyCache
import Verif.Props.Tolerance
import Verif.Proofs.LargerSequencer
/-
C129: what a larger cache or queue changes.
-/
namespace MF.Cache

theorem insert_sublist {a b a' b' : List Ev} {e : Ev} (h : (a ++ b).Sublist (a' ++ b')) (ha : ∀ x ∈ a, x.stamp ≤ e.stamp)
    (hb : ∀ x ∈ b, e.stamp < x.stamp) (ha' : ∀ x ∈ a', x.stamp ≤ e.stamp) (hb' : ∀ x ∈ b', e.stamp < x.stamp) :
    (a ++ e :: b).Sublist (a' ++ e :: b') := by
  have key : ∀ c d : List Ev, (∀ x ∈ c, x.stamp ≤ e.stamp) → (∀ x ∈ d, e.stamp < x.stamp) →
      (c ++ d).filter (fun x => decide (x.stamp ≤ e.stamp)) = c ∧ (c ++ d).filter (fun x => decide (e.stamp < x.stamp)) = d := by
    intro c d hc hd
    rw [List.filter_append, List.filter_append, List.filter_eq_self.2 (fun x hx => by simpa using hc x hx),
      List.filter_eq_nil_iff.2 (fun x hx => by have := hd x hx; simp; omega),
      List.filter_eq_nil_iff.2 (fun x hx => by have := hc x hx; simp; omega),
      List.filter_eq_self.2 (fun x hx => by simpa using hd x hx)]
    simp
  have h1 := h.filter (fun x => decide (x.stamp ≤ e.stamp))
  have h2 := h.filter (fun x => decide (e.stamp < x.stamp))
  rw [(key a b ha hb).1, (key a' b' ha' hb').1] at h1
  rw [(key a b ha hb).2, (key a' b' ha' hb').2] at h2
  exact h1.append (h2.cons_cons e)

theorem adds_sublist (n n' : Nat) (hn : 0 < n) (hle : n ≤ n') (es : List Ev) :
    ∃ s s', run (construct n) (es.map .add) = .ok s ∧ run (construct n') (es.map .add) = .ok s' ∧ s.items.Sublist s'.items ∧
      s.items.length = min n es.length ∧ s'.items.length = min n' es.length ∧ s.size = some n ∧ s'.size = some n' := by
  induction es using snoc_induction with
  | h0 =>
    have key : ∀ m : Nat, 0 < m → construct m = { size := some m, items := [], out := [] } := by
      intro m hm
      simp only [construct, setCacheSize, if_neg (show ¬ m = 0 by omega)]
    rw [key n hn, key n' (by omega)]
    exact ⟨_, _, rfl, rfl, List.Sublist.refl _, by simp, by simp, rfl, rfl⟩
  | hs es e ih =>
    obtain ⟨s, s', h1, h2, h3, h4, h5, h6, h7⟩ := ih
    obtain ⟨a, b, g1, g2, g3, g4⟩ := add_spec s n hn h6 (run_inv' (inv_construct hn) h1).sorted e
    obtain ⟨a', b', f1, f2, f3, f4⟩ := add_spec s' n' (by omega) h7 (run_inv' (inv_construct (by omega)) h2).sorted e
    refine ⟨{ s with items := a ++ e :: b, out := s.out ++ [e] }, { s' with items := a' ++ e :: b', out := s'.out ++ [e] },
      by rw [List.map_append, run_append, h1]; show run s [Op.add e] = _; simp only [run, step, g2],
      by rw [List.map_append, run_append, h2]; show run s' [Op.add e] = _; simp only [run, step, f2], ?_, ?_, ?_, h6, h7⟩
    · refine insert_sublist ?_ g3 g4 f3 f4
      rw [← g1, ← f1]
      by_cases hfull : n' ≤ es.length
      · have e1 : s.items.length + 1 - n = 1 := by omega
        have e2 : s'.items.length + 1 - n' = 1 := by omega
        rw [e1, e2, List.drop_one, List.drop_one]
        exact h3.tail
      · have e2 : s'.items.length + 1 - n' = 0 := by omega
        rw [e2, List.drop_zero]
        exact (List.drop_sublist _ _).trans h3
    · have := congrArg List.length g1
      simp only [List.length_drop, List.length_append, List.length_cons, List.length_nil] at this ⊢
      omega
    · have := congrArg List.length f1
      simp only [List.length_drop, List.length_append, List.length_cons, List.length_nil] at this ⊢
      omega

/-- **C129** (Cache).  A larger cache holds all a smaller one holds, in whatever order the messages arrive.  Its intervals contain those of the
smaller one, and its neighbours of a time are at least as close. -/
theorem C129_cache (n n' : Nat) (hn : 0 < n) (hle : n ≤ n') (es : List Ev) :
    ∃ s s', run (construct n) (es.map .add) = .ok s ∧ run (construct n') (es.map .add) = .ok s' ∧ s.items.Sublist s'.items ∧
      (∀ a b, (getInterval s a b).Sublist (getInterval s' a b)) ∧
      (∀ t e, getElemBeforeTime s t = some e → ∃ e', getElemBeforeTime s' t = some e' ∧ e.stamp ≤ e'.stamp ∧ e'.stamp < t) ∧
      ∀ t e, getElemAfterTime s t = some e → ∃ e', getElemAfterTime s' t = some e' ∧ e'.stamp ≤ e.stamp ∧ t < e'.stamp := by
  obtain ⟨s, s', h1, h2, h3, _⟩ := adds_sublist n n' hn hle es
  refine ⟨s, s', h1, h2, h3, fun a b => ?_, fun t e he => ?_, fun t e he => ?_⟩
  · rw [C04_getInterval n hn _ s h1, C04_getInterval n' (by omega) _ s' h2]
    exact h3.filter _
  · obtain ⟨g1, g2, _⟩ := (C05_getElemBeforeTime n hn _ s h1 t).2 e he
    cases h : getElemBeforeTime s' t with
    | none => exact absurd g2 ((C05_getElemBeforeTime n' (by omega) _ s' h2 t).1.1 h e (h3.subset g1))
    | some e' =>
      obtain ⟨_, f2, f3⟩ := (C05_getElemBeforeTime n' (by omega) _ s' h2 t).2 e' h
      exact ⟨e', rfl, f3 e (h3.subset g1) g2, f2⟩
  · obtain ⟨g1, g2, _⟩ := (C05_getElemAfterTime n hn _ s h1 t).2 e he
    cases h : getElemAfterTime s' t with
    | none => exact absurd g2 ((C05_getElemAfterTime n' (by omega) _ s' h2 t).1.1 h e (h3.subset g1))
    | some e' =>
      obtain ⟨_, f2, f3⟩ := (C05_getElemAfterTime n' (by omega) _ s' h2 t).2 e' h
      exact ⟨e', rfl, f3 e (h3.subset g1) g2, f2⟩

example : (∃ s, run (construct 2) ([⟨0, 10⟩, ⟨1, 20⟩, ⟨2, 30⟩, ⟨3, 5⟩].map .add) = .ok s ∧ s.items = [⟨3, 5⟩, ⟨2, 30⟩] ∧
      getElemBeforeTime s 25 = some ⟨3, 5⟩) ∧
    ∃ s, run (construct 4) ([⟨0, 10⟩, ⟨1, 20⟩, ⟨2, 30⟩, ⟨3, 5⟩].map .add) = .ok s ∧ s.items = [⟨3, 5⟩, ⟨0, 10⟩, ⟨1, 20⟩, ⟨2, 30⟩] ∧
      getElemBeforeTime s 25 = some ⟨1, 20⟩ := ⟨⟨_, rfl, by decide, by decide⟩, _, rfl, by decide, by decide⟩

/-- **C129** (the size must not change).  After both caches have been set to the same size, the one that was smaller can hold a message the
one that was larger has given up. -/
theorem C129_cache_resized : (∃ s, run (construct 2) ([⟨0, 10⟩, ⟨1, 20⟩, ⟨2, 30⟩, ⟨3, 5⟩].map .add ++ [.setSize 3, .add ⟨4, 40⟩]) = .ok s ∧
      s.items = [⟨3, 5⟩, ⟨2, 30⟩, ⟨4, 40⟩]) ∧
    ∃ s, run (construct 4) ([⟨0, 10⟩, ⟨1, 20⟩, ⟨2, 30⟩, ⟨3, 5⟩].map .add ++ [.setSize 3, .add ⟨4, 40⟩]) = .ok s ∧
      s.items = [⟨1, 20⟩, ⟨2, 30⟩, ⟨4, 40⟩] := ⟨⟨_, rfl, by decide⟩, _, rfl, by decide⟩

end MF.Cache

namespace MF.PyCache

/-- **C129** (Python Cache).  What a smaller cache holds are the last messages a larger one holds. -/
theorem C129_python_cache (k k' : Int) (hle : k ≤ k') (al : Bool) (ops : List (Msg × Int)) :
    (run (construct k al) ops).msgs <:+ (run (construct k' al) ops).msgs ∧ (run (construct k al) ops).times <:+ (run (construct k' al) ops).times := by
  obtain ⟨h1, h2, _⟩ := C70_last_messages k al ops
  obtain ⟨g1, g2, _⟩ := C70_last_messages k' al ops
  have key : lastN k (usable al ops) <:+ lastN k' (usable al ops) := by
    unfold lastN
    have e : (usable al ops).length - k.toNat =
        ((usable al ops).length - k'.toNat) + ((usable al ops).length - k.toNat - ((usable al ops).length - k'.toNat)) := by omega
    rw [e, ← List.drop_drop]
    exact List.drop_suffix _ _
  rw [h1, h2, g1, g2]
  exact ⟨key.map _, key.map _⟩

end MF.PyCache

namespace MF.Epsilon

/-- **C129** (three inputs, ApproximateEpsilonTime).  A larger queue can mean fewer sets, although all inputs are in time order. -/
theorem C129_epsilon_three_fewer : ∃ ops : List (Fin 3 × Ev), (∀ i, StrictlyTimeSorted (stream ops i)) ∧
    (∃ s, run 20 (construct 3 1 3) ops = .ok s ∧ s.out.length = 2) ∧ ∃ s, run 20 (construct 3 3 3) ops = .ok s ∧ s.out.length = 1 := by
  refine ⟨[(1, ⟨0, 1⟩), (2, ⟨1, 3⟩), (1, ⟨2, 3⟩), (0, ⟨3, 4⟩), (0, ⟨4, 5⟩), (2, ⟨5, 7⟩), (1, ⟨6, 5⟩)], fun i => ?_,
    ⟨_, rfl, by decide⟩, _, rfl, by decide⟩
  unfold StrictlyTimeSorted; revert i; decide

/-- **C129** (two inputs, ApproximateEpsilonTime).  A larger queue can mean other sets. -/
theorem C129_epsilon_two_other : ∃ ops : List (Fin 2 × Ev), (∀ i, StrictlyTimeSorted (stream ops i)) ∧
    ∃ s s', run 20 (construct 2 1 3) ops = .ok s ∧ run 20 (construct 2 3 3) ops = .ok s' ∧
      ∃ t ∈ s.out.map List.ofFn, t ∉ s'.out.map List.ofFn := by
  refine ⟨[(1, ⟨0, 4⟩), (0, ⟨1, 3⟩), (0, ⟨2, 5⟩), (0, ⟨3, 7⟩), (1, ⟨4, 5⟩), (0, ⟨5, 10⟩), (1, ⟨6, 6⟩)], fun i => ?_,
    _, _, rfl, rfl, by decide⟩
  unfold StrictlyTimeSorted; revert i; decide

end MF.Epsilon

namespace MF.Py

/-- **C129** (Python ApproximateTimeSynchronizer).  A larger queue can mean other sets. -/
theorem C129_python_other : ∃ ops : List (Fin 2 × Ev), (∀ i, StrictlyTimeSorted (stream ops i)) ∧
    ∃ s s', approxRun noRaise 3 false (construct 2 1) (withHeaders ops) = .ok s ∧
      approxRun noRaise 3 false (construct 2 3) (withHeaders ops) = .ok s' ∧ ∃ t ∈ s.out.map List.ofFn, t ∉ s'.out.map List.ofFn := by
  refine ⟨[(1, ⟨0, 2⟩), (0, ⟨1, 4⟩), (0, ⟨2, 8⟩), (0, ⟨3, 11⟩), (1, ⟨4, 5⟩), (1, ⟨5, 9⟩), (0, ⟨6, 13⟩)], fun i => ?_,
    _, _, rfl, rfl, by decide⟩
  unfold StrictlyTimeSorted; revert i; decide

end MF.Py

namespace MF.Approx

/-- **C129** (ApproximateTime).  A larger queue can mean other sets. -/
theorem C129_approximate_other : ∃ ops : List (Fin 2 × Ev), (∀ i, StrictlyTimeSorted (stream ops i)) ∧
    ∃ s s', run 200 ⟨1, 4, fun x => (x * 11).tdiv 10, fun _ => 0⟩ ops = .ok s ∧
      run 200 ⟨3, 4, fun x => (x * 11).tdiv 10, fun _ => 0⟩ ops = .ok s' ∧ ∃ t ∈ s.out.map List.ofFn, t ∉ s'.out.map List.ofFn := by
  refine ⟨[(0, ⟨0, 1⟩), (1, ⟨1, 3⟩), (1, ⟨2, 4⟩), (0, ⟨3, 5⟩), (0, ⟨4, 9⟩), (1, ⟨5, 6⟩), (1, ⟨6, 8⟩), (1, ⟨7, 10⟩), (0, ⟨8, 1000⟩),
    (1, ⟨9, 1000⟩), (0, ⟨10, 2000⟩), (1, ⟨11, 2000⟩)], fun i => ?_, _, _, rfl, rfl, by decide⟩
  unfold StrictlyTimeSorted; revert i; decide

end MF.Approx

namespace MF.Sequencer

/-- **C129** (TimeSequencer).  If no two messages have the same stamp and the clock stands still while a timer call runs, a larger queue (or an
unlimited one, size 0) only adds messages to the output, in whatever order they arrive and however late the timer calls are. -/
theorem C129_sequencer (delay : Int) (q q' : Nat) (hq : 0 < q) (hle : q' = 0 ∨ q ≤ q') (ops : List Op) (hst : Steady ops)
    (hd : ((added ops).map (·.stamp)).Nodup) : (run delay q ops).out.Sublist (run delay q' ops).out :=
  (run_larger delay q q' hq hle ops hst hd).1.out

/-- Messages of stamps 10, 20, 12, 30; the timer fires at 15 and 40. -/
def largerOps : List Op :=
  [.add ⟨⟨0, 10⟩, .system⟩, .add ⟨⟨1, 20⟩, .system⟩, .tick (fun _ => 15), .add ⟨⟨2, 12⟩, .system⟩, .add ⟨⟨3, 30⟩, .system⟩, .tick (fun _ => 40)]

example : Steady largerOps ∧ ((added largerOps).map (·.stamp)).Nodup ∧ (run 0 1 largerOps).out = [⟨3, 30⟩] ∧
    (run 0 2 largerOps).out = [⟨0, 10⟩, ⟨1, 20⟩, ⟨3, 30⟩] ∧ (run 0 0 largerOps).out = [⟨0, 10⟩, ⟨2, 12⟩, ⟨1, 20⟩, ⟨3, 30⟩] := by
  refine ⟨fun now hn k => ?_, by decide, by decide, by decide, by decide⟩
  simp only [largerOps, List.mem_cons, List.not_mem_nil, or_false, reduceCtorEq, false_or, Op.tick.injEq] at hn
  rcases hn with rfl | rfl <;> rfl

/-- **C129** (the stamps must differ).  An overflowing queue gives up all messages with the oldest stamp.  The empty queue then accepts an older message,
which comes too late for the larger queue. -/
theorem C129_sequencer_distinct_needed :
    let ops : List Op := [.add ⟨⟨0, 10⟩, .system⟩, .add ⟨⟨1, 10⟩, .system⟩, .add ⟨⟨2, 10⟩, .system⟩, .tick (fun _ => 15),
      .add ⟨⟨3, 5⟩, .system⟩, .tick (fun _ => 20)]
    (run 0 2 ops).out = [⟨3, 5⟩] ∧ (run 0 3 ops).out = [⟨0, 10⟩, ⟨1, 10⟩, ⟨2, 10⟩] := ⟨by decide, by decide⟩

/-- **C129** (the clock must stand still).  The clock is set back within a timer call, after its first reading: the smaller queue outputs the message at
20, the larger one only that at 10, and then gives up the one at 20 for newer ones. -/
theorem C129_sequencer_steady_needed :
    let ops : List Op := [.add ⟨⟨0, 10⟩, .system⟩, .add ⟨⟨1, 20⟩, .system⟩, .tick (fun k => if k = 0 then 25 else 5),
      .add ⟨⟨2, 30⟩, .system⟩, .add ⟨⟨3, 40⟩, .system⟩, .tick (fun _ => 50)]
    (run 0 1 ops).out = [⟨1, 20⟩, ⟨3, 40⟩] ∧ (run 0 2 ops).out = [⟨0, 10⟩, ⟨2, 30⟩, ⟨3, 40⟩] := ⟨by decide, by decide⟩

end MF.Sequencer
