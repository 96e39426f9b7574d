import Verif.Proofs.SequencerRoom
import Verif.Props.Sequencer
/-
Property C103: what a TimeSequencer with punctual messages outputs, and the queue size it needs.
-/
namespace MF.Sequencer

open MF.Pipeline (Punctual)

/-- **C103**.  Let every message arrive before its delay has passed, and let the queue size be sufficient: never more
messages are waiting.  Then at any time exactly the messages that are due have been output, in time order, equal stamps in
order of arrival; the others are queued; none is lost. -/
theorem C103_output (delay : Int) (queueSize : Nat) (ops : List Op) (hs : Steady ops) (hp : Punctual delay ops)
    (hr : Room delay queueSize ops) :
    TimeSorted (run delay queueSize ops).out ∧
    SameMessages (run delay queueSize ops).out ((added ops).filter (due delay ops)) ∧
    TimeSorted (run delay queueSize ops).messages ∧
    SameMessages (run delay queueSize ops).messages (waiting delay ops) := by
  have hk := run_kept hs hp hr ops (List.prefix_refl _)
  have hi := run_inv delay queueSize ops
  exact ⟨hi.out, kept_out hk, hi.sorted, kept_held hk⟩

/-- **C103**.  A sufficient queue size makes no difference. -/
theorem C103_queue_size_irrelevant (delay : Int) (q q' : Nat) (ops : List Op) (hs : Steady ops) (hp : Punctual delay ops)
    (hr : Room delay q ops) (hr' : Room delay q' ops) :
    (run delay q ops).out = (run delay q' ops).out ∧ (run delay q ops).messages = (run delay q' ops).messages := by
  obtain ⟨a1, a2, a3, a4⟩ := C103_output delay q ops hs hp hr
  obtain ⟨b1, b2, b3, b4⟩ := C103_output delay q' ops hs hp hr'
  exact ⟨sorted_at_ext _ _ a1 b1 (fun t => (a2 t).trans (b2 t).symm), sorted_at_ext _ _ a3 b3 (fun t => (a4 t).trans (b4 t).symm)⟩

/-- **C103**.  The output depends only on the messages and the clock: two sequencers that receive the same messages, in any
order except among equal stamps, and whose timers fire in between at any times before `c`, have output the same messages in
the same order when their timers fire at `c`. -/
theorem C103_determined (delay c : Int) (q q' : Nat) (ops ops' : List Op)
    (hs : Steady ops) (hs' : Steady ops') (hp : Punctual delay ops) (hp' : Punctual delay ops')
    (hr : Room delay q ops) (hr' : Room delay q' ops')
    (hc : ∀ now, Op.tick now ∈ ops → now 0 ≤ c) (hc' : ∀ now, Op.tick now ∈ ops' → now 0 ≤ c)
    (hsame : SameMessages (added ops) (added ops')) :
    (run delay q (ops ++ [.tick (fun _ => c)])).out = (run delay q' (ops' ++ [.tick (fun _ => c)])).out ∧
    (run delay q (ops ++ [.tick (fun _ => c)])).messages = (run delay q' (ops' ++ [.tick (fun _ => c)])).messages := by
  have hdue : ∀ ops : List Op, (∀ now, Op.tick now ∈ ops → now 0 ≤ c) → ∀ x,
      due delay (ops ++ [.tick (fun _ => c)]) x = decide (x.stamp + delay ≤ c) := by
    intro ops h x
    rw [due_snoc_tick]
    cases hd : due delay ops x with
    | false => simp
    | true =>
      obtain ⟨now, h1, h2⟩ := (due_iff delay ops x).1 hd
      have := h now h1
      simp only [Bool.true_or]
      symm; rw [decide_eq_true_eq]; omega
  have hadd : ∀ ops : List Op, added (ops ++ [.tick (fun _ => c)]) = added ops := by
    intro ops; rw [added_snoc]; simp [added]
  have ext : ∀ (q : Nat) (ops : List Op), Steady ops → Punctual delay ops → Room delay q ops →
      (∀ now, Op.tick now ∈ ops → now 0 ≤ c) →
      Kept delay (ops ++ [.tick (fun _ => c)]) (run delay q (ops ++ [.tick (fun _ => c)])) := by
    intro q ops hs hp hr hc
    refine run_kept (ops := ops ++ [.tick (fun _ => c)]) ?_ ?_ ?_ _ (List.prefix_refl _)
    · intro now hn k
      rcases List.mem_append.1 hn with hn | hn
      · exact hs now hn k
      · rw [List.mem_singleton] at hn; cases hn; rfl
    · intro pre m post heq
      rcases List.eq_nil_or_concat post with rfl | ⟨post', last, rfl⟩
      · exfalso
        have := congrArg List.getLast? heq
        simp at this
      · have heq' : ops ++ [.tick (fun _ => c)] = (pre ++ .add m :: post') ++ [last] := by rw [heq]; simp
        exact hp pre m post' (List.append_inj_left' heq' rfl)
    · rcases hr with hr | hr
      · exact Or.inl hr
      · right
        intro pre hpre
        rcases List.prefix_concat_iff.1 (by simpa using hpre) with h | h
        · subst h
          refine Nat.le_trans ?_ (hr ops (List.prefix_refl _))
          unfold waiting
          rw [hadd, show (fun x => !due delay (ops ++ [.tick (fun _ => c)]) x) =
            (fun x => (!decide (x.stamp + delay ≤ c)) && !due delay ops x) by
              funext x; rw [due_snoc_tick, Bool.not_or, Bool.and_comm]]
          rw [← List.filter_filter]
          exact List.length_filter_le _ _
        · exact hr pre h
  have k1 := ext q ops hs hp hr hc
  have k2 := ext q' ops' hs' hp' hr' hc'
  have i1 := run_inv delay q (ops ++ [.tick (fun _ => c)])
  have i2 := run_inv delay q' (ops' ++ [.tick (fun _ => c)])
  have e1 : due delay (ops ++ [.tick (fun _ => c)]) = fun x => decide (x.stamp + delay ≤ c) := funext (hdue ops hc)
  have e2 : due delay (ops' ++ [.tick (fun _ => c)]) = fun x => decide (x.stamp + delay ≤ c) := funext (hdue ops' hc')
  have hsame' : ∀ t, at' t (added ops) = at' t (added ops') := hsame
  constructor
  · refine sorted_at_ext _ _ i1.out i2.out (fun t => ?_)
    rw [kept_out k1, kept_out k2, hadd, hadd, e1, e2, at_filter, at_filter, hsame' t]
  · refine sorted_at_ext _ _ i1.sorted i2.sorted (fun t => ?_)
    rw [kept_held k1, kept_held k2]
    unfold waiting
    rw [hadd, hadd, e1, e2, at_filter, at_filter, hsame' t]

/-- A message of the examples. -/
def roomMsg (id : Nat) (stamp : Int) : Op := .add ⟨⟨id, stamp⟩, .system⟩

/-- The timer fires and the clock reads `c`. -/
def roomTick (c : Int) : Op := .tick (fun _ => c)

/-- Messages out of order, two with equal stamps, and timer calls in between. -/
def roomA : List Op := [roomMsg 1 5, roomMsg 2 3, roomTick 14, roomMsg 3 5, roomMsg 4 12, roomTick 15, roomMsg 5 8, roomTick 21]

/-- The same messages in another order, and no timer call before the last message. -/
def roomB : List Op := [roomMsg 4 12, roomMsg 1 5, roomMsg 5 8, roomMsg 3 5, roomMsg 2 3]

theorem roomA_steady : Steady roomA := by
  intro now hn
  simp [roomA, roomMsg, roomTick] at hn
  rcases hn with rfl | rfl | rfl <;> intro k <;> rfl

theorem roomB_steady : Steady roomB := by
  intro now hn
  simp [roomB, roomMsg] at hn

/-- A queue size of 3 is sufficient for the first history, 5 for the second; the messages with stamps up to 11 are output. -/
example : Punctual 10 roomA ∧ Punctual 10 roomB ∧ Room 10 3 roomA ∧ Room 10 5 roomB ∧
    SameMessages (added roomA) (added roomB) ∧
    (run 10 3 (roomA ++ [roomTick 21])).out = [⟨2, 3⟩, ⟨1, 5⟩, ⟨3, 5⟩, ⟨5, 8⟩] ∧
    (run 10 5 (roomB ++ [roomTick 21])).messages = [⟨4, 12⟩] := by
  refine ⟨punctual_of_check roomA_steady (by decide), punctual_of_check roomB_steady (by decide),
    room_of_check (by decide), room_of_check (by decide), ?_, by decide, by decide⟩
  intro t
  have h1 : added roomA = [⟨1, 5⟩, ⟨2, 3⟩, ⟨3, 5⟩, ⟨4, 12⟩, ⟨5, 8⟩] := by decide
  have h2 : added roomB = [⟨4, 12⟩, ⟨1, 5⟩, ⟨5, 8⟩, ⟨3, 5⟩, ⟨2, 3⟩] := by decide
  rw [h1, h2]
  by_cases a : (5 : Int) = t
  · subst a; decide
  by_cases b : (3 : Int) = t
  · subst b; decide
  by_cases c : (12 : Int) = t
  · subst c; decide
  by_cases d : (8 : Int) = t
  · subst d; decide
  simp [a, b, c, d]

/-- **C103**: the queue size cannot be smaller than the number of messages waiting: with queue size 2, `roomA` loses
messages, and the two with equal stamps together. -/
theorem C103_room_needed : ¬ Room 10 2 roomA ∧ (run 10 2 (roomA ++ [roomTick 21])).out = [⟨2, 3⟩, ⟨5, 8⟩] := by
  refine ⟨?_, by decide⟩
  rintro (h | h)
  · cases h
  · have := h (roomA.take 5) (List.take_prefix _ _)
    revert this; decide

/-- **C103**: if a message arrives after its delay has passed, the output depends on when the timer fired. -/
theorem C103_punctual_needed :
    (run 10 0 [roomMsg 1 5, roomTick 15, roomMsg 2 4, roomTick 20]).out = [⟨1, 5⟩] ∧
    (run 10 0 [roomMsg 1 5, roomMsg 2 4, roomTick 20]).out = [⟨2, 4⟩, ⟨1, 5⟩] := by decide

end MF.Sequencer
