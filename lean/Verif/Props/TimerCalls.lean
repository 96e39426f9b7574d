import Verif.Proofs.TimerCalls
/-
C131: what more frequent timer calls and the delay of a TimeSequencer change.
-/
namespace MF.Sequencer

/-- **C131**.  Take timer calls away from a history of a TimeSequencer with an unlimited queue whose clock stands still while a timer call runs, or
make its delay larger.  All that was output or waiting is still output or waiting, in the same order: messages are output later, but none is lost that
was not lost before. -/
theorem C131_fewer_timer_calls (delay delay' : Int) (hd : delay ≤ delay') (ops ops' : List Op) (ht : Thinned ops ops') (hst : Steady ops) :
    ((run delay 0 ops).out ++ (run delay 0 ops).messages).Sublist ((run delay' 0 ops').out ++ (run delay' 0 ops').messages) :=
  (run_fewer hd ht hst).sub

/-- **C131** (the output in the end).  After a last timer call at a time when everything is due, the output with more timer calls and the smaller delay
is part of that with fewer of them and the larger delay. -/
theorem C131_output_in_the_end (delay delay' : Int) (hd : delay ≤ delay') (ops ops' : List Op) (ht : Thinned ops ops') (hst : Steady ops) (now : Int)
    (hdue : ∀ x ∈ added ops', x.stamp + delay' ≤ now) :
    (run delay 0 (ops ++ [.tick (fun _ => now)])).out.Sublist (run delay' 0 (ops' ++ [.tick (fun _ => now)])).out := by
  have h := run_fewer hd ht hst
  have h2 := (run_config delay' 0 ops').1
  rw [run_snoc, run_snoc]
  have h3 := (fewer_tick h (now := fun _ => now) (fun _ => rfl)).sub
  have e : (dispatch (run delay' 0 ops') (fun _ => now)).messages = [] := by
    show (takeReady (run delay' 0 ops').delay (fun _ => now) 0 (run delay' 0 ops').messages (run delay' 0 ops').last).2.1 = []
    rw [(take_eq (c := now) (fun _ => rfl) h.il.sorted).2, List.filter_eq_nil_iff]
    intro x hx
    have := hdue x (messages_added delay' 0 ops' hx)
    rw [h2]
    simp; omega
  rw [e, List.append_nil] at h3
  exact (List.sublist_append_left _ _).trans h3

/-- A message at 5 arrives after the one at 10 has been output by the first timer call; without this call both are output. -/
def lateOps : List Op := [.add ⟨⟨0, 10⟩, .system⟩, .tick (fun _ => 15), .add ⟨⟨1, 5⟩, .system⟩, .add ⟨⟨2, 12⟩, .system⟩]

example : Steady lateOps ∧ Thinned lateOps [.add ⟨⟨0, 10⟩, .system⟩, .add ⟨⟨1, 5⟩, .system⟩, .add ⟨⟨2, 12⟩, .system⟩] ∧
    (∀ x ∈ added [.add ⟨⟨0, 10⟩, .system⟩, .add ⟨⟨1, 5⟩, .system⟩, .add ⟨⟨2, 12⟩, .system⟩], x.stamp + 3 ≤ 20) ∧
    (run 3 0 (lateOps ++ [.tick (fun _ => 20)])).out = [⟨0, 10⟩, ⟨2, 12⟩] ∧
    (run 3 0 ([.add ⟨⟨0, 10⟩, .system⟩, .add ⟨⟨1, 5⟩, .system⟩, .add ⟨⟨2, 12⟩, .system⟩] ++ [.tick (fun _ => 20)])).out =
      [⟨1, 5⟩, ⟨0, 10⟩, ⟨2, 12⟩] := by
  refine ⟨fun now hn k => ?_, .keep _ (.skip _ (.keep _ (.keep _ .nil))), by decide, by decide, by decide⟩
  simp only [lateOps, List.mem_cons, List.not_mem_nil, or_false, reduceCtorEq, false_or, Op.tick.injEq] at hn
  subst hn; rfl

/-- With the same timer calls and a larger delay the late message is output, too. -/
example : Thinned lateOps lateOps ∧ (run 3 0 (lateOps ++ [.tick (fun _ => 20)])).out = [⟨0, 10⟩, ⟨2, 12⟩] ∧
    (run 6 0 (lateOps ++ [.tick (fun _ => 20)])).out = [⟨1, 5⟩, ⟨0, 10⟩, ⟨2, 12⟩] :=
  ⟨.keep _ (.keep _ (.keep _ (.keep _ .nil))), by decide, by decide⟩

/-- **C131** (the queue must be unlimited, delay).  A full queue loses a message that a smaller delay would have output in time. -/
theorem C131_unlimited_needed_delay :
    let ops : List Op := [.add ⟨⟨0, 10⟩, .system⟩, .tick (fun _ => 15), .add ⟨⟨1, 20⟩, .system⟩, .tick (fun _ => 40)]
    (run 0 1 ops).out = [⟨0, 10⟩, ⟨1, 20⟩] ∧ (run 10 1 ops).out = [⟨1, 20⟩] := ⟨by decide, by decide⟩

/-- **C131** (the queue must be unlimited).  A full queue loses a message that an additional timer call would have output in time. -/
theorem C131_unlimited_needed :
    Thinned [.add ⟨⟨0, 10⟩, .system⟩, .tick (fun _ => 15), .add ⟨⟨1, 20⟩, .system⟩, .tick (fun _ => 30)]
      [.add ⟨⟨0, 10⟩, .system⟩, .add ⟨⟨1, 20⟩, .system⟩, .tick (fun _ => 30)] ∧
    (run 0 1 [.add ⟨⟨0, 10⟩, .system⟩, .tick (fun _ => 15), .add ⟨⟨1, 20⟩, .system⟩, .tick (fun _ => 30)]).out = [⟨0, 10⟩, ⟨1, 20⟩] ∧
    (run 0 1 [.add ⟨⟨0, 10⟩, .system⟩, .add ⟨⟨1, 20⟩, .system⟩, .tick (fun _ => 30)]).out = [⟨1, 20⟩] :=
  ⟨.keep _ (.skip _ (.keep _ (.keep _ .nil))), by decide, by decide⟩

/-- **C131** (the clock must stand still).  The clock moves on within the second timer call.  The sequencer that was called before stops at its first
reading; the other one needs this reading for the message at 10 and outputs that at 20 with the next one, so that the message at 15 comes too late. -/
theorem C131_steady_needed :
    let late : List Op := [.tick (fun k => if k = 0 then 15 else 25), .add ⟨⟨2, 15⟩, .system⟩, .tick (fun _ => 30)]
    Thinned ([.add ⟨⟨0, 10⟩, .system⟩, .add ⟨⟨1, 20⟩, .system⟩, .tick (fun _ => 12)] ++ late)
      ([.add ⟨⟨0, 10⟩, .system⟩, .add ⟨⟨1, 20⟩, .system⟩] ++ late) ∧
    (run 0 0 ([.add ⟨⟨0, 10⟩, .system⟩, .add ⟨⟨1, 20⟩, .system⟩, .tick (fun _ => 12)] ++ late)).out = [⟨0, 10⟩, ⟨2, 15⟩, ⟨1, 20⟩] ∧
    (run 0 0 ([.add ⟨⟨0, 10⟩, .system⟩, .add ⟨⟨1, 20⟩, .system⟩] ++ late)).out = [⟨0, 10⟩, ⟨1, 20⟩] :=
  ⟨.keep _ (.keep _ (.skip _ (.keep _ (.keep _ (.keep _ .nil))))), by decide, by decide⟩

end MF.Sequencer
