import Verif.Proofs.Aligner2
/-
Properties C39 to C43: InputAligner.

A history is a list of calls (`add<I>(msg)`, `setInputPeriod<I>(d)`, `dispatchMessages()`) of an aligner with `n` inputs.
`adds ops` are the messages added, `s.out` the messages output, `stream l i` those of input `i`.
The first argument of `run` bounds the iterations of the dispatch loop; a run that needs more is the outcome `hang`.
-/
namespace MF.Aligner

variable {n : Nat}

/-- C39: over all outputs together the stamps never decrease. -/
theorem C39_global_order (fuel : Nat) (timeout : Int) (ops : List (Op n)) (s : State n)
    (h : run fuel timeout ops = .ok s) : TimeSorted (s.out.map (·.2)) := (run_inv h).out

/-- A history with two inputs in which output happens in several dispatches. -/
def sample : List (Op 2) :=
  [.setPeriod 0 10, .add 0 ⟨1, 10⟩, .add 1 ⟨2, 25⟩, .add 1 ⟨3, 12⟩, .dispatch, .add 0 ⟨4, 20⟩, .add 0 ⟨5, 5⟩, .dispatch,
   .add 0 ⟨6, 30⟩, .dispatch]

example : ∃ s, run 30 100 sample = .ok s ∧
    s.out = [(0, ⟨1, 10⟩), (1, ⟨3, 12⟩), (0, ⟨4, 20⟩), (1, ⟨2, 25⟩)] ∧
    (List.ofFn (getQueueStatus s)) = [⟨true, 1, 2, 1⟩, ⟨true, 0, 2, 0⟩] := ⟨_, rfl, by decide, by decide⟩

/-- C40: every added message is output, dropped or queued, as reported by `getQueueStatus`; `processed` counts exactly the
messages output. -/
theorem C40_accounting (fuel : Nat) (timeout : Int) (ops : List (Op n)) (s : State n) (h : run fuel timeout ops = .ok s)
    (i : Fin n) :
    (stream (adds ops) i).length =
      (getQueueStatus s i).processed + (getQueueStatus s i).dropped + (getQueueStatus s i).queueSize ∧
    (getQueueStatus s i).processed = (stream s.out i).length :=
  ⟨run_lengths h i, (run_acc h i).1⟩

/-- C40: for each input, the accepted messages are the added ones without the dropped ones (`acc`); output and queue are
these messages sorted by stamp, messages with the same stamp staying in arrival order; nothing is invented, duplicated or
lost. -/
theorem C40_content (fuel : Nat) (timeout : Int) (ops : List (Op n)) (s : State n) (h : run fuel timeout ops = .ok s)
    (i : Fin n) :
    ∃ acc, acc.Sublist (stream (adds ops) i) ∧
      acc.length + (getQueueStatus s i).dropped = (stream (adds ops) i).length ∧
      (stream s.out i ++ (s.queues i).items).Perm acc ∧
      TimeSorted (stream s.out i ++ (s.queues i).items) ∧
      ∀ t : Int, (stream s.out i ++ (s.queues i).items).filter (fun x => decide (x.stamp = t)) =
        acc.filter (fun x => decide (x.stamp = t)) := by
  obtain ⟨_, acc, h2, h3, h4⟩ := run_acc h i
  exact ⟨acc, h2, by rw [Nat.add_comm]; exact h3, perm_of_at h4, out_queue_sorted (run_inv h) i, h4⟩

/-- C40: a message is dropped iff it is older than the last message output (than time 0 if there was no output); a message
that is not dropped is queued; nothing else changes. -/
theorem C40_dropped_iff (fuel : Nat) (timeout : Int) (ops : List (Op n)) (s : State n) (h : run fuel timeout ops = .ok s)
    (i : Fin n) (e : Ev) :
    let old := e.stamp < (match s.out.getLast? with | some m => m.2.stamp | none => 0)
    (old → getQueueStatus (add s i e) i = { getQueueStatus s i with dropped := (getQueueStatus s i).dropped + 1 } ∧
      ((add s i e).queues i).items = (s.queues i).items) ∧
    (¬ old → getQueueStatus (add s i e) i = { getQueueStatus s i with queueSize := (getQueueStatus s i).queueSize + 1 } ∧
      e ∈ ((add s i e).queues i).items) ∧
    (add s i e).out = s.out ∧ ∀ j, j ≠ i → (add s i e).queues j = s.queues j := by
  have hlast : s.lastOut = (match s.out.getLast? with | some m => m.2.stamp | none => 0) := by
    rcases (run_inv h).last with ⟨h1, h2⟩ | ⟨m, h1, h2⟩
    · rw [h1, h2]; rfl
    · rw [h1, ← h2]
  rw [← hlast]
  simp only
  rcases add_eq s i e with ⟨h1, h2⟩ | ⟨h1, h2⟩ <;> rw [h2]
  · refine ⟨fun _ => ⟨?_, refused_items s i i⟩, fun hc => absurd h1 hc, rfl, fun j hj => by simp [refused, upd_ne _ _ hj]⟩
    simp [getQueueStatus, refused]
  · refine ⟨fun hc => absurd hc (by omega), fun _ => ⟨?_, ?_⟩, rfl, fun j hj => queued_ne s i e hj⟩
    · simp [getQueueStatus, queued, insertEv_length]
    · rw [queued_items_same, insertEv_mem]; exact Or.inl rfl

/-- Two messages with the same stamp and one that is too old. -/
example : ∃ s, run 30 100 ([.add 0 ⟨1, 7⟩, .add 0 ⟨2, 7⟩, .add 0 ⟨3, 4⟩, .dispatch, .add 0 ⟨4, 5⟩] : List (Op 1)) = .ok s ∧
    stream s.out 0 = [⟨3, 4⟩, ⟨1, 7⟩, ⟨2, 7⟩] ∧ getQueueStatus s 0 = ⟨true, 0, 3, 1⟩ := ⟨_, rfl, by decide, by decide⟩

/-- C41: every call returns, if the timeout is not so negative that an inactive input times out, i.e. if
`stamp < Time::max + timeout` for all stamps and for 0. -/
theorem C41_terminates (timeout : Int) (ops : List (Op n)) (h0 : 0 < maxTime + timeout)
    (hst : ∀ m ∈ adds ops, m.2.stamp < maxTime + timeout) (fuel : Nat) (hf : 2 * (adds ops).length + n < fuel) :
    ∃ s, run fuel timeout ops = .ok s :=
  run_terminates (by omega) (fun m hm => by have := hst m hm; omega) hf

/-- C41: with a positive timeout every call returns, whatever the stamps up to `Time::max`. -/
theorem C41_terminates_positive_timeout (timeout : Int) (ops : List (Op n)) (h0 : 0 < timeout)
    (hst : ∀ m ∈ adds ops, m.2.stamp ≤ maxTime) (fuel : Nat) (hf : 2 * (adds ops).length + n < fuel) :
    ∃ s, run fuel timeout ops = .ok s :=
  C41_terminates timeout ops (by unfold maxTime; omega) (fun m hm => by have := hst m hm; omega) fuel hf

example : ∀ m ∈ adds sample, m.2.stamp < maxTime + 100 := by decide

/-- C41: the condition is needed.  Without periods, a dispatch while a message with `timeout ≤ stamp - Time::max` has been
added and a message is queued never returns. -/
theorem C41_hangs_otherwise (fuel : Nat) (timeout : Int) (ops : List (Op n)) (s : State n)
    (h : run fuel timeout ops = .ok s) (hp : ∀ i d, Op.setPeriod i d ∉ ops) (hst : ∀ m ∈ adds ops, m.2.stamp ≤ maxTime)
    (hq : ∃ i, (getQueueStatus s i).queueSize ≠ 0) (hbad : ∃ m ∈ adds ops, timeout ≤ m.2.stamp - maxTime) :
    ∀ fuel', step fuel' s .dispatch = .error .hang := by
  intro fuel'
  obtain ⟨i, hi⟩ := hq
  show dispatch fuel' s = _
  unfold dispatch
  have hav : inputsAvailable s = true := by
    rw [available_iff]
    exact ⟨i, by intro hc; apply hi; simp [getQueueStatus, hc]⟩
  rw [if_pos hav]
  apply loop_hangs (by have := i.isLt; omega) fuel' s (run_small h hp hst)
  rw [run_timeout h, run_newest h]
  obtain ⟨m, hm, hb⟩ := hbad
  have := (newest_spec ops).2.1 m hm
  omega

/-- Timeout 0 and one message stamped `Time::max`. -/
example : ∃ s, run 1 0 ([.add 0 ⟨1, maxTime⟩] : List (Op 2)) = .ok s ∧ (getQueueStatus s 0).queueSize ≠ 0 ∧
    (0 : Int) ≤ maxTime - maxTime := ⟨_, rfl, by decide, by decide⟩

/-- C42: after a dispatch either nothing is queued, or some input without queued messages is active, its expected next
stamp is not later than any queued message, and it has not exceeded the timeout with respect to any message added.
Here the expected next stamp is `next`; `C42_next_expected` says what it is. -/
theorem C42_progress (fuel : Nat) (timeout : Int) (ops : List (Op n)) (s : State n)
    (h : run fuel timeout (ops ++ [.dispatch]) = .ok s) (hst : ∀ m ∈ adds ops, m.2.stamp < maxTime) :
    (∀ i, (getQueueStatus s i).queueSize = 0) ∨
    ∃ i, (getQueueStatus s i).queueSize = 0 ∧ (getQueueStatus s i).active = true ∧
      (∀ j, ∀ x ∈ (s.queues j).items, (s.queues i).next ≤ x.stamp) ∧
      ∀ m ∈ adds ops, m.2.stamp - (s.queues i).next < timeout := by
  obtain ⟨s0, h0, h1⟩ := runE_snoc_ok h
  by_cases hne : ∃ i, (s.queues i).items ≠ []
  · right
    have hmax : ∀ i, ∀ x ∈ (s.queues i).items, x.stamp < maxTime := by
      intro i x hx
      have hm := mem_added h (i := i) (x := x) (List.mem_append_right _ hx)
      rw [adds_snoc_dispatch] at hm
      exact hst (i, x) (mem_stream.1 hm)
    obtain ⟨i, g1, g2, g3, g4⟩ := dispatch_final h1 (run_inv h) hmax hne
    refine ⟨i, by simp [getQueueStatus, g1], g2, g3, ?_⟩
    intro m hm
    rw [run_newest h, run_timeout h] at g4
    have := (newest_spec (ops ++ [.dispatch])).2.1 m (by rw [adds_snoc_dispatch]; exact hm)
    omega
  · left
    intro i
    have : (s.queues i).items = [] := Classical.byContradiction fun hc => hne ⟨i, hc⟩
    simp [getQueueStatus, this]

/-- C42: the expected next stamp of an active input without queued messages is the stamp of its last output plus its
period, if the period was not changed after the first message of that input. -/
theorem C42_next_expected (fuel : Nat) (timeout : Int) (ops : List (Op n)) (s : State n)
    (h : run fuel timeout ops = .ok s) (i : Fin n) (p : Int) (hc : ConstPeriod i p ops)
    (hq : (getQueueStatus s i).queueSize = 0) (ha : (getQueueStatus s i).active = true) :
    ∃ e, (stream s.out i).getLast? = some e ∧ (s.queues i).next = e.stamp + p :=
  (run_next h hc).live (by simpa [getQueueStatus] using hq) ha

/-- C42: an input that has delivered output and is now inactive without queued messages has timed out: some message (or
time 0) is later than its last output plus its period by at least the timeout. -/
theorem C42_inactive_means_timed_out (fuel : Nat) (timeout : Int) (ops : List (Op n)) (s : State n)
    (h : run fuel timeout ops = .ok s) (i : Fin n) (p : Int) (hc : ConstPeriod i p ops)
    (hq : (getQueueStatus s i).queueSize = 0) (ha : (getQueueStatus s i).active = false) (e : Ev)
    (he : (stream s.out i).getLast? = some e) :
    timeout ≤ newest ops - (e.stamp + p) := by
  have := (run_next h hc).dead (by simpa [getQueueStatus] using hq) ha e he
  rw [run_timeout h, run_newest h] at this
  exact this

/-- `sample` leaves the message 30 queued for input 0 because input 1 is active and expected at 25 (its period is 0). -/
example : ∃ s, run 30 100 sample = .ok s ∧ (getQueueStatus s 0).queueSize = 1 ∧ (getQueueStatus s 1).queueSize = 0 ∧
    (getQueueStatus s 1).active = true ∧ (s.queues 1).next = 25 := ⟨_, rfl, by decide, by decide, by decide, by decide⟩

example : ConstPeriod (0 : Fin 2) 10 sample :=
  ⟨[.setPeriod 0 10], sample.tail, rfl, by intro e; simp, by decide, by intro d; simp [sample]⟩

/-- An input times out: input 1 stays silent. -/
example : ∃ s, run 30 100 ([.add 1 ⟨1, 10⟩, .add 0 ⟨2, 20⟩, .dispatch, .add 0 ⟨3, 130⟩, .dispatch] : List (Op 2)) = .ok s ∧
    (getQueueStatus s 1) = ⟨false, 0, 1, 0⟩ ∧ s.out.map (·.2.id) = [1, 2, 3] := ⟨_, rfl, by decide, by decide⟩

/-- C43: an input with a constant period whose messages arrive in order at least the period apart never has a message
dropped while it is active or has queued messages, whatever the other inputs do. -/
theorem C43_not_dropped_while_active (fuel : Nat) (timeout : Int) (ops : List (Op n)) (s : State n)
    (h : run fuel timeout ops = .ok s) (i : Fin n) (p : Int) (hp : 0 ≤ p) (hc : ConstPeriod i p ops) (e : Ev)
    (hL : Spaced p (stream (adds ops) i ++ [e]))
    (hlive : (getQueueStatus s i).active = true ∨ (getQueueStatus s i).queueSize ≠ 0) :
    (getQueueStatus (add s i e) i).dropped = (getQueueStatus s i).dropped := by
  have ht := run_tame h hp hc (List.pairwise_append.1 hL).1
  have := tame_add hL ht (by
    rcases hlive with hl | hl
    · exact Or.inl hl
    · right; intro hcc; apply hl; simp [getQueueStatus, hcc])
  show ((add s i e).queues i).dropped = (s.queues i).dropped
  rw [add_dropped, if_neg (by omega)]; rfl

/-- C43: once a message of input `i` has been output (after `ops1`), as long as no message is later than the last output of
the input plus its period by the timeout, and its messages arrive in order at least the period apart, none of its messages
is dropped, whatever the other inputs do. -/
theorem C43_no_loss (fuel : Nat) (timeout : Int) (ops1 ops2 : List (Op n)) (s1 s2 : State n)
    (h1 : run fuel timeout ops1 = .ok s1) (h2 : run fuel timeout (ops1 ++ ops2) = .ok s2)
    (i : Fin n) (p : Int) (hp : 0 ≤ p) (hc : ConstPeriod i p ops1) (hc2 : ∀ d, Op.setPeriod i d ∉ ops2)
    (hL : Spaced p (stream (adds (ops1 ++ ops2)) i))
    (hout : stream s1.out i ≠ [])
    (hlive : ∀ pre, pre <+: ops2 → ∀ s e, run fuel timeout (ops1 ++ pre) = .ok s →
      (stream s.out i).getLast? = some e → newest (ops1 ++ pre) - (e.stamp + p) < timeout) :
    (getQueueStatus s2 i).dropped = (getQueueStatus s1 i).dropped := by
  have key : (getQueueStatus s2 i).dropped = (getQueueStatus s1 i).dropped ∧ stream s2.out i ≠ [] := by
    induction ops2 using snoc_induction generalizing s2 with
    | h0 => rw [List.append_nil, h1] at h2; cases h2; exact ⟨rfl, hout⟩
    | hs ops op ih =>
      rw [← List.append_assoc] at h2 hL
      obtain ⟨s, hs1, hs2⟩ := runE_snoc_ok h2
      have hc2' : ∀ d, Op.setPeriod i d ∉ ops := fun d hd => hc2 d (List.mem_append_left _ hd)
      have hL' : Spaced p (stream (adds (ops1 ++ ops)) i) := by
        rw [adds_append (ops1 ++ ops), stream_append] at hL
        exact (List.pairwise_append.1 hL).1
      obtain ⟨ih1, ih2⟩ := ih s hs1 hc2' hL'
        (fun pre hpre => hlive pre (hpre.trans (List.prefix_append _ _)))
      have hgrow : stream s2.out i ≠ [] := by
        obtain ⟨t, ht⟩ := stream_prefix (out_grows hs2) i
        rw [← ht]
        intro hcc
        exact ih2 (List.append_eq_nil_iff.1 hcc).1
      refine ⟨?_, hgrow⟩
      rw [← ih1]
      have hcc := constPeriod_append hc hc2'
      cases op with
      | dispatch => exact dispatch_dropped hs2 i
      | setPeriod j d =>
        simp only [step, Except.ok.injEq] at hs2
        subst hs2
        by_cases hj : i = j
        · subst hj; simp [getQueueStatus, setInputPeriod]
        · simp [getQueueStatus, setInputPeriod, upd_ne _ _ hj]
      | add j e =>
        simp only [step, Except.ok.injEq] at hs2
        subst hs2
        by_cases hj : i = j
        · subst hj
          rw [adds_snoc_add, stream_snoc_same] at hL
          apply C43_not_dropped_while_active fuel timeout (ops1 ++ ops) s hs1 i p hp hcc e hL
          apply Classical.byContradiction
          intro hnl
          have hna : (getQueueStatus s i).active = false := by
            cases ha : (getQueueStatus s i).active with
            | false => rfl
            | true => exact absurd (Or.inl ha) hnl
          have hnq : (getQueueStatus s i).queueSize = 0 := Classical.byContradiction fun hh => hnl (Or.inr hh)
          obtain ⟨x, hx⟩ : ∃ x, (stream s.out i).getLast? = some x := by
            cases hg : (stream s.out i).getLast? with
            | none => exact absurd (List.getLast?_eq_none_iff.1 hg) ih2
            | some x => exact ⟨x, rfl⟩
          have a := C42_inactive_means_timed_out fuel timeout (ops1 ++ ops) s hs1 i p hcc hnq hna x hx
          have b := hlive ops (List.prefix_append _ _) s x hs1 hx
          omega
        · show ((add s j e).queues i).dropped = (s.queues i).dropped
          rw [add_dropped, if_neg (by rintro ⟨h, _⟩; exact hj h)]; rfl
  exact key.1

/-- The hypotheses are met by a history with a slow input 0 (period 10) and a fast input 1. -/
example : ∃ s1 s2, run 30 100 ([.setPeriod 0 10, .add 0 ⟨1, 10⟩, .add 1 ⟨2, 15⟩, .dispatch] : List (Op 2)) = .ok s1 ∧
    run 30 100 ([.setPeriod 0 10, .add 0 ⟨1, 10⟩, .add 1 ⟨2, 15⟩, .dispatch] ++
      [.add 1 ⟨3, 30⟩, .dispatch, .add 0 ⟨4, 20⟩, .dispatch] : List (Op 2)) = .ok s2 ∧
    stream s1.out 0 ≠ [] ∧ (getQueueStatus s2 0).dropped = 0 ∧ (getQueueStatus s2 0).processed = 2 ∧
    s2.out.map (·.2.id) = [1, 2, 4] ∧ Spaced 10 [⟨1, 10⟩, ⟨4, 20⟩] :=
  ⟨_, _, rfl, rfl, by decide, by decide, by decide, by decide, by unfold Spaced; decide⟩

end MF.Aligner
