import Verif.Proofs.SequencerConc
import Verif.Props.Sequencer
/-
C53: the TimeSequencer under concurrent use.
-/
namespace MF.Sequencer

/-- C53: with timer callbacks on one thread, every schedule (messages may be added by other threads at any moment, also while
messages taken from the queue are being passed on) does what some history of a sequencer used by one thread does, with the
same `add` calls in the same order: the messages passed on, followed by those still to be passed on by the timer thread, are
the output of that history, and the queue is its queue. -/
theorem C53_single_timer_linearizable (delay : Int) (queueSize w : Nat) (acts : List Act) (hw : OnlyTimer w acts) :
    ∃ ops, addsOf ops = addCalls acts ∧ (∀ now, Op.tick now ∈ ops → Act.take w now ∈ acts) ∧
      (crun delay queueSize acts).base.out ++ (crun delay queueSize acts).flight w = (run delay queueSize ops).out ∧
      (crun delay queueSize acts).base.messages = (run delay queueSize ops).messages := by
  obtain ⟨ops, h1, h2, h3, _, h5, _⟩ := single_exists delay queueSize w acts hw
  exact ⟨ops, h1, h2, h5, h3⟩

/-- C53: with timer callbacks on one thread, the output is in temporal order in every schedule. -/
theorem C53_single_timer_sorted (delay : Int) (queueSize w : Nat) (acts : List Act) (hw : OnlyTimer w acts) :
    TimeSorted (crun delay queueSize acts).base.out := by
  obtain ⟨ops, _, _, h, _⟩ := C53_single_timer_linearizable delay queueSize w acts hw
  have := C44_output_sorted delay queueSize ops
  rw [← h] at this
  exact this.sublist (List.sublist_append_left _ _)

/-- C53: in every schedule, with any number of timer threads, a message is passed on only after some timer callback has found
its stamp plus the delay to be in the past. -/
theorem C53_delay (delay : Int) (queueSize W : Nat) (acts : List Act) (hW : TimersBelow W acts) (e : Ev)
    (he : e ∈ (crun delay queueSize acts).base.out) :
    ∃ w now k, Act.take w now ∈ acts ∧ e.stamp + delay ≤ now k := by
  obtain ⟨ops, h⟩ := sim_exists delay queueSize W acts hW
  have h1 : e ∈ (run delay queueSize ops).out := h.content.subset (by simp [he])
  obtain ⟨now, k, h2, h3⟩ := out_waited delay queueSize ops e h1
  obtain ⟨w, hw⟩ := h.ticks now h2
  exact ⟨w, now, k, hw, h3⟩

/-- C53: in every schedule, with any number of timer threads, no message is passed on more often than it was added: the
messages with stamp `t` passed on, being passed on and queued are, up to order, among those added. -/
theorem C53_no_duplicates (delay : Int) (queueSize W : Nat) (acts : List Act) (hW : TimersBelow W acts) (e : Ev) :
    ((crun delay queueSize acts).base.out ++ inFlight W (crun delay queueSize acts) ++
      (crun delay queueSize acts).base.messages).count e ≤ (added (addCalls acts)).count e := by
  obtain ⟨ops, h⟩ := sim_exists delay queueSize W acts hW
  rw [← h.adds, added_addsOf, h.messages]
  have h1 := (h.content.append_right (run delay queueSize ops).messages).count_eq e
  rw [h1]
  have h2 := (C44_content delay queueSize ops e.stamp).count_le e
  rwa [List.count_filter (by simp), List.count_filter (by simp)] at h2

/-- C53: with any number of timer threads, each one passes on messages in temporal order; what is lost is only the order
between the threads.  The queue behaves as in some history of a sequencer used by one thread, whose output is a permutation of
what the threads have passed on and are passing on. -/
theorem C53_many_timers (delay : Int) (queueSize W : Nat) (acts : List Act) (hW : TimersBelow W acts) :
    (∀ w, TimeSorted ((crun delay queueSize acts).flight w)) ∧
    ∃ ops, addsOf ops = addCalls acts ∧
      ((crun delay queueSize acts).base.out ++ inFlight W (crun delay queueSize acts)).Perm (run delay queueSize ops).out ∧
      (crun delay queueSize acts).base.messages = (run delay queueSize ops).messages := by
  obtain ⟨ops, h⟩ := sim_exists delay queueSize W acts hW
  exact ⟨fun w => (C44_output_sorted delay queueSize ops).sublist (h.flight w), ops, h.adds, h.content, h.messages⟩

/-- C53: two timer callbacks running at the same time can pass messages on in the wrong order. -/
theorem C53_two_timers_disorder :
    (crun 0 0 [.add ⟨⟨1, 1⟩, .system⟩, .take 0 (fun _ => 1), .add ⟨⟨2, 2⟩, .system⟩, .take 1 (fun _ => 2), .deliver 1,
      .deliver 0]).base.out = [⟨2, 2⟩, ⟨1, 1⟩] := by decide

/-- Non-vacuity: a message added while the timer thread is passing on another one (`OnlyTimer` holds of this schedule). -/
example : OnlyTimer 0 [.add ⟨⟨1, 1⟩, .system⟩, .add ⟨⟨2, 2⟩, .system⟩, .take 0 (fun _ => 5), .deliver 0,
      .add ⟨⟨3, 1⟩, .system⟩, .add ⟨⟨4, 3⟩, .system⟩, .deliver 0, .take 0 (fun _ => 5), .deliver 0] ∧
    (crun 0 0 [.add ⟨⟨1, 1⟩, .system⟩, .add ⟨⟨2, 2⟩, .system⟩, .take 0 (fun _ => 5), .deliver 0,
      .add ⟨⟨3, 1⟩, .system⟩, .add ⟨⟨4, 3⟩, .system⟩, .deliver 0, .take 0 (fun _ => 5), .deliver 0]).base.out =
      [⟨1, 1⟩, ⟨2, 2⟩, ⟨4, 3⟩] := by
  refine ⟨?_, by decide⟩
  intro a ha
  simp only [List.mem_cons, List.not_mem_nil, or_false] at ha
  rcases ha with h | h | h | h | h | h | h | h | h <;> subst h <;> trivial

/-- Non-vacuity of the theorems about several timer threads. -/
example : TimersBelow 2 [.add ⟨⟨1, 1⟩, .system⟩, .take 0 (fun _ => 1), .add ⟨⟨2, 2⟩, .system⟩, .take 1 (fun _ => 2),
    .deliver 1, .deliver 0] := by
  intro a ha
  simp only [List.mem_cons, List.not_mem_nil, or_false] at ha
  rcases ha with h | h | h | h | h | h <;> subst h <;> first | trivial | decide

end MF.Sequencer
