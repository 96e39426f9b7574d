import Verif.Proofs.AlignerDelay
import Verif.Props.Aligner
/-
Property C117: how long an InputAligner holds a message.
-/
namespace MF.Aligner

variable {n : Nat}

/-- C117: after `dispatchMessages`, no message that is still queued is older by the timeout or more than any message that
was ever added to any input. -/
theorem C117_held_less_than_timeout (fuel : Nat) (timeout : Int) (ops : List (Op n)) (s : State n)
    (h : run fuel timeout (ops ++ [.dispatch]) = .ok s) (hst : ∀ m ∈ adds ops, m.2.stamp < maxTime)
    (i : Fin n) (x : Ev) (hx : x ∈ (s.queues i).items) (m : Fin n × Ev) (hm : m ∈ adds ops) :
    m.2.stamp < x.stamp + timeout := by
  rcases C42_progress fuel timeout ops s h hst with h0 | ⟨k, _, _, h1, h2⟩
  · have := h0 i
    simp only [getQueueStatus, List.length_eq_zero_iff] at this
    rw [this] at hx; cases hx
  · have a := h1 i x hx
    have b := h2 m hm
    omega

/-- C117: a message that is not older than the last output when it is added (nor than time 0) is output by the next
`dispatchMessages` at which a message at least the timeout newer has been added, to whatever input, whether or not the
other inputs deliver. -/
theorem C117_output_in_time (fuel : Nat) (timeout : Int) (pre post : List (Op n)) (i : Fin n) (e : Ev) (s0 s : State n)
    (h0 : run fuel timeout pre = .ok s0) (hage : ∀ m ∈ s0.out, m.2.stamp ≤ e.stamp) (h00 : 0 ≤ e.stamp)
    (h : run fuel timeout (pre ++ .add i e :: post ++ [.dispatch]) = .ok s)
    (hst : ∀ m ∈ adds (pre ++ .add i e :: post), m.2.stamp < maxTime)
    (hnew : ∃ m ∈ adds (pre ++ .add i e :: post), e.stamp + timeout ≤ m.2.stamp) :
    (i, e) ∈ s.out := by
  have hlast : s0.lastOut ≤ e.stamp := by
    rcases (run_inv h0).last with ⟨_, h2⟩ | ⟨m, h1, h2⟩
    · omega
    · have := hage m (List.mem_of_getLast? h1); omega
  have hk : Kept i e s := by
    have h' := h
    rw [List.append_assoc, List.cons_append] at h'
    obtain ⟨s1, g1, g2⟩ := run_split h'
    rw [h0] at g1
    injection g1 with g1
    subst g1
    refine runE_kept (s := add s0 i e) (post ++ [.dispatch]) (by simpa [runE, step] using g2) ?_
    rcases add_eq s0 i e with ⟨h1, _⟩ | ⟨_, h2⟩
    · omega
    · left; rw [h2, queued_items_same, insertEv_mem]; exact Or.inl rfl
  rcases hk with hk | hk
  · obtain ⟨m, hm, hle⟩ := hnew
    have := C117_held_less_than_timeout fuel timeout _ s h hst i e hk m hm
    omega
  · exact hk

/-- C117: memory.  If the messages of an input are at least `d` apart, then after `dispatchMessages` its queue spans less
than the timeout: it holds at most `1 + (timeout - 1) / d` messages, even if another input has stopped. -/
theorem C117_queue_bound (fuel : Nat) (timeout : Int) (ops : List (Op n)) (s : State n)
    (h : run fuel timeout (ops ++ [.dispatch]) = .ok s) (hst : ∀ m ∈ adds ops, m.2.stamp < maxTime)
    (i : Fin n) (d : Int) (hd : 0 < d)
    (hL : (stream (adds ops) i).Pairwise (fun a b => a.stamp + d ≤ b.stamp ∨ b.stamp + d ≤ a.stamp))
    (hne : (getQueueStatus s i).queueSize ≠ 0) :
    ((getQueueStatus s i).queueSize - 1 : Nat) * d < timeout := by
  obtain ⟨acc, h1, _, h3, h4, _⟩ := C40_content fuel timeout (ops ++ [.dispatch]) s h i
  rw [adds_snoc_dispatch] at h1
  have hsp := spaced_of_perm h3 (hL.sublist h1) hd h4
  have hq : Spaced d (s.queues i).items := (List.pairwise_append.1 hsp).2.1
  cases hc : (s.queues i).items with
  | nil => simp [getQueueStatus, hc] at hne
  | cons e l =>
    rw [hc] at hq
    obtain ⟨x, hx, hle⟩ := spaced_span l e hq
    have hm := mem_added h (i := i) (x := x) (List.mem_append_right _ (by rw [hc]; exact hx))
    rw [adds_snoc_dispatch] at hm
    have := C117_held_less_than_timeout fuel timeout ops s h hst i e (by rw [hc]; simp) (i, x) (mem_stream.1 hm)
    simp only [getQueueStatus, hc, List.length_cons, Nat.add_sub_cancel]
    simp only at this
    omega

/-- C117: time does not count.  After a `dispatchMessages`, further calls change nothing, however many and however much
later they come: what is held is released only by new messages (or by a changed period). -/
theorem C117_time_does_not_release (fuel : Nat) (hf : 0 < fuel) (timeout : Int) (ops : List (Op n)) (s : State n)
    (h : run fuel timeout (ops ++ [.dispatch]) = .ok s) (k : Nat) :
    run fuel timeout (ops ++ [.dispatch] ++ List.replicate k .dispatch) = .ok s := by
  obtain ⟨s0, h0, h1⟩ := runE_snoc_ok h
  have key : ∀ k, runE (step fuel) s (List.replicate k .dispatch) = .ok s := by
    intro k
    induction k with
    | zero => rfl
    | succ k ih =>
      rw [List.replicate_succ]
      simp only [runE, show step fuel s .dispatch = .ok s from dispatch_settled h1 hf]
      exact ih
  exact run_join h (key k)

/-- C117: so a message can be held for ever although one of the inputs has stopped: input 1 delivered one message and
stopped, then input 0 delivers a message and stops too; the second message is never output. -/
theorem C117_can_hold_for_ever (k : Nat) : ∃ s : State 2,
    run 10 100 ([.add 1 ⟨1, 10⟩, .add 0 ⟨2, 20⟩, .dispatch] ++ List.replicate k .dispatch) = .ok s ∧
    s.out = [(1, ⟨1, 10⟩)] ∧ (getQueueStatus s 0).queueSize = 1 := by
  refine ⟨_, C117_time_does_not_release 10 (by omega) 100 [.add 1 ⟨1, 10⟩, .add 0 ⟨2, 20⟩] _ rfl k, by decide, by decide⟩

/-- The bounds are met: message 2 of input 0 (stamp 20) is held while stamps up to 109 arrive, and is output once a
message stamped 120 has arrived; input 1 delivered only message 1. -/
example : ∃ s : State 2, run 20 100 ([.add 1 ⟨1, 10⟩, .add 0 ⟨2, 20⟩, .add 0 ⟨3, 109⟩] ++ [.dispatch]) = .ok s ∧
    (s.queues 0).items = [⟨2, 20⟩, ⟨3, 109⟩] ∧ s.out = [(1, ⟨1, 10⟩)] := ⟨_, rfl, by decide, by decide⟩

example : ∃ s0 s : State 2, run 20 100 [.add 1 ⟨1, 10⟩] = .ok s0 ∧
    run 20 100 ([.add 1 ⟨1, 10⟩] ++ .add 0 ⟨2, 20⟩ :: [.add 0 ⟨3, 120⟩] ++ [.dispatch]) = .ok s ∧
    (∀ m ∈ s0.out, m.2.stamp ≤ 20) ∧
    s.out = [(1, ⟨1, 10⟩), (0, ⟨2, 20⟩), (0, ⟨3, 120⟩)] := ⟨_, _, rfl, rfl, by decide, by decide⟩

/-- A queue as long as the bound allows up to one: timeout 100, messages 30 apart, 3 messages are queued (the bound is 4). -/
example : ∃ s : State 2, run 20 100 ([.add 1 ⟨1, 10⟩, .add 0 ⟨2, 10⟩, .add 0 ⟨3, 40⟩, .add 0 ⟨4, 70⟩, .add 0 ⟨5, 100⟩] ++
      [.dispatch]) = .ok s ∧ (getQueueStatus s 0).queueSize = 3 ∧ ((3 - 1 : Nat) : Int) * 30 < 100 :=
  ⟨_, rfl, by decide, by decide⟩

end MF.Aligner
