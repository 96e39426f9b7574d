import Verif.Proofs.AlignerMerge
import Verif.Props.Aligner
/-
Property C102: what an InputAligner with well-behaved inputs outputs.
-/
namespace MF.Aligner

variable {n : Nat}

/-- **C102**.  Let the inputs be well-behaved.  After every dispatch, for every input the messages output, followed by the
messages queued, are the messages received from it, in order; nothing is dropped.  Output are exactly the messages that are
due, and over all inputs they are output in the order of their stamps, equal stamps in the order of the inputs. -/
theorem C102_output (timeout : Int) (per : Fin n → Int) (ops pre : List (Op n)) (hw : WellBehaved timeout per ops)
    (hp : pre ++ [.dispatch] <+: ops) (fuel : Nat) (s : State n) (h : run fuel timeout (pre ++ [.dispatch]) = .ok s) :
    (∀ i, stream s.out i ++ (s.queues i).items = stream (adds pre) i) ∧
    (∀ i, (getQueueStatus s i).dropped = 0) ∧
    (∀ m ∈ s.out, Due per pre m) ∧
    (∀ i, ∀ x ∈ (s.queues i).items, ¬ Due per pre (i, x)) ∧
    s.out.Pairwise NotAfter := by
  obtain ⟨s0, h0, h1⟩ := runE_snoc_ok h
  have hp' : pre <+: ops := (List.prefix_append _ _).trans hp
  have hm := run_merge hw h0 hp'
  obtain ⟨hd, hrest⟩ := dispatch_disp (fun i => (hw.period i).1) (wb_spaced hw hp')
    (fun i x hx => (hw.stamps (i, x) (mem_stream.1 ((wb_stream hp').subset hx))).2) (hw.alive pre hp) h1
    (wb_disp hw hp' h0 hm)
  refine ⟨hd.merge.all, ?_, fun m hmem i last hl => hd.merge.due m hmem i last hl, ?_, hd.merge.sorted⟩
  · intro i
    have g1 := C40_accounting fuel timeout _ s h i
    have g2 := congrArg List.length (hd.merge.all i)
    rw [adds_snoc_dispatch] at g1
    rw [List.length_append] at g2
    have g3 : (getQueueStatus s i).queueSize = (s.queues i).items.length := rfl
    omega
  · intro i x hx hdue
    obtain ⟨k, last, g1, g2⟩ := hrest i x hx
    exact g2 (hdue k last g1)

/-- **C102**.  The output depends only on what each input delivered: two histories that end with a dispatch and in which
every input delivered the same messages have the same output, in the same order, and the same messages queued, however the
inputs were interleaved and whenever messages were dispatched in between. -/
theorem C102_determined (timeout timeout' : Int) (per : Fin n → Int) (ops ops' : List (Op n))
    (hw : WellBehaved timeout per (ops ++ [.dispatch])) (hw' : WellBehaved timeout' per (ops' ++ [.dispatch]))
    (hsame : SameStreams (adds ops) (adds ops')) (fuel fuel' : Nat) (s s' : State n)
    (h : run fuel timeout (ops ++ [.dispatch]) = .ok s) (h' : run fuel' timeout' (ops' ++ [.dispatch]) = .ok s') :
    s.out = s'.out ∧ ∀ i, (s.queues i).items = (s'.queues i).items := by
  obtain ⟨a1, _, a2, a3, a4⟩ := C102_output timeout per _ ops hw (List.prefix_refl _) fuel s h
  obtain ⟨b1, _, b2, b3, b4⟩ := C102_output timeout' per _ ops' hw' (List.prefix_refl _) fuel' s' h'
  have hdue : ∀ m, Due per ops m ↔ Due per ops' m := by
    intro m
    unfold Due DueFor
    simp only [hsame _]
  have key : ∀ i, stream s.out i = stream s'.out i ∧ (s.queues i).items = (s'.queues i).items := by
    intro i
    refine split_unique (fun x => Due per ops (i, x)) _ _ _ _ (by rw [a1, b1]; exact hsame i) ?_ (a3 i) ?_ ?_
    · intro x hx; exact a2 (i, x) (mem_stream.1 hx)
    · intro x hx; exact (hdue _).2 (b2 (i, x) (mem_stream.1 hx))
    · intro x hx hd; exact b3 i x hx ((hdue _).1 hd)
  exact ⟨sorted_ext _ _ a4 b4 (fun i => (key i).1), fun i => (key i).2⟩

/-- **C102**.  The aligner holds no more than needed: if no input has delivered more than `q` messages that another input
that has delivered something may still precede, then after a dispatch at most `q` messages of each input are queued. -/
theorem C102_held (timeout : Int) (per : Fin n → Int) (ops pre : List (Op n)) (hw : WellBehaved timeout per ops)
    (hp : pre ++ [.dispatch] <+: ops) (fuel : Nat) (s : State n) (h : run fuel timeout (pre ++ [.dispatch]) = .ok s)
    (j : Fin n) (q : Nat) (hq : ∀ i last, i ≠ j → (stream (adds pre) i).getLast? = some last →
      ((stream (adds pre) j).filter (fun x => decide (last.stamp + per i ≤ x.stamp))).length ≤ q) :
    (getQueueStatus s j).queueSize ≤ q := by
  obtain ⟨a1, _, _, a3, _⟩ := C102_output timeout per ops pre hw hp fuel s h
  show (s.queues j).items.length ≤ q
  have hsp := wb_spaced hw ((List.prefix_append _ _).trans hp) j
  have hall := a1 j
  have hnd := a3 j
  rw [← hall] at hsp hq
  cases hi : (s.queues j).items with
  | nil => exact Nat.zero_le _
  | cons e l =>
    rw [hi] at hsp hq hnd hall
    have hsp := (List.pairwise_append.1 hsp).2.1
    have h0 := hnd e (by simp)
    unfold Due DueFor at h0
    obtain ⟨i, h0⟩ := Classical.not_forall.1 h0
    obtain ⟨last, h0⟩ := Classical.not_forall.1 h0
    obtain ⟨hl, h0⟩ := Classical.not_imp.1 h0
    simp only at h0
    have hper := (hw.period j).1
    have hij : i ≠ j := by
      intro hc; subst hc
      have he : e ∈ stream (adds pre) i := by rw [← hall]; simp
      have := last_ge hper (wb_spaced hw ((List.prefix_append _ _).trans hp) i) he hl
      apply h0
      by_cases hlt : e.stamp < last.stamp + per i
      · exact Or.inl hlt
      · exact Or.inr ⟨by omega, Fin.le_refl _⟩
    refine Nat.le_trans ?_ (hq i last hij hl)
    rw [List.filter_append, List.length_append]
    refine Nat.le_trans ?_ (Nat.le_add_left _ _)
    rw [List.filter_eq_self.2]
    · exact Nat.le_refl _
    · intro x hx
      rcases List.mem_cons.1 hx with hx | hx
      · subst hx; simp only [decide_eq_true_eq]; omega
      · have := List.rel_of_pairwise_cons hsp hx
        simp only [decide_eq_true_eq]; omega

/-- The periods of the examples. -/
def mergePer : Fin 2 → Int := fun i => if i = 0 then 10 else 0

/-- Two inputs, dispatched after every few messages. -/
def mergeA : List (Op 2) :=
  [.setPeriod 0 10, .add 0 ⟨1, 10⟩, .add 1 ⟨2, 12⟩, .dispatch, .add 1 ⟨3, 20⟩, .add 0 ⟨4, 20⟩, .dispatch, .add 0 ⟨5, 31⟩,
   .add 1 ⟨6, 40⟩, .add 1 ⟨7, 42⟩]

/-- The same inputs, interleaved in another way and not dispatched in between. -/
def mergeB : List (Op 2) :=
  [.setPeriod 0 10, .add 1 ⟨2, 12⟩, .add 1 ⟨3, 20⟩, .add 1 ⟨6, 40⟩, .add 0 ⟨1, 10⟩, .add 1 ⟨7, 42⟩, .add 0 ⟨4, 20⟩,
   .add 0 ⟨5, 31⟩]

theorem mergeA_wellBehaved : WellBehaved 100 mergePer (mergeA ++ [.dispatch]) := by
  refine wellBehaved_of_check ?_ (by unfold Spaced; decide) (by decide) (by decide)
  intro i
  refine ⟨by revert i; decide, ?_⟩
  match i with
  | 0 => exact ⟨[.setPeriod 0 10], (mergeA ++ [Op.dispatch]).tail, rfl, by intro e; simp, by decide, by intro d; simp [mergeA]⟩
  | 1 => exact ⟨[], mergeA ++ [.dispatch], rfl, by intro e; simp, by decide, by intro d; simp [mergeA]⟩

theorem mergeB_wellBehaved : WellBehaved 100 mergePer (mergeB ++ [.dispatch]) := by
  refine wellBehaved_of_check ?_ (by unfold Spaced; decide) (by decide) (by decide)
  intro i
  refine ⟨by revert i; decide, ?_⟩
  match i with
  | 0 => exact ⟨[.setPeriod 0 10], (mergeB ++ [Op.dispatch]).tail, rfl, by intro e; simp, by decide, by intro d; simp [mergeB]⟩
  | 1 => exact ⟨[], mergeB ++ [.dispatch], rfl, by intro e; simp, by decide, by intro d; simp [mergeB]⟩

/-- All conditions hold for both histories; the message 42 is not due (input 0 may deliver one with stamp 41); 20 of input 0
precedes 20 of input 1. -/
example : SameStreams (adds mergeA) (adds mergeB) ∧ ∃ s, run 40 100 (mergeA ++ [.dispatch]) = .ok s ∧
    s.out = [(0, ⟨1, 10⟩), (1, ⟨2, 12⟩), (0, ⟨4, 20⟩), (1, ⟨3, 20⟩), (0, ⟨5, 31⟩), (1, ⟨6, 40⟩)] ∧
    (s.queues 1).items = [⟨7, 42⟩] ∧ ∃ s', run 40 100 (mergeB ++ [.dispatch]) = .ok s' ∧ s'.out = s.out :=
  ⟨by unfold SameStreams; decide, _, rfl, by decide, by decide, _, rfl, by decide⟩

/-- `C102_held` applies to `mergeA` with `q = 1` for input 1. -/
example : ∀ i last, i ≠ 1 → (stream (adds mergeA) i).getLast? = some last →
    ((stream (adds mergeA) 1).filter (fun x => decide (last.stamp + mergePer i ≤ x.stamp))).length ≤ 1 := by
  intro i last hi hl
  match i with
  | 0 =>
    have : last = ⟨5, 31⟩ := by
      have h : (stream (adds mergeA) 0).getLast? = some ⟨5, 31⟩ := by decide
      rw [h] at hl; cases hl; rfl
    subst this; decide
  | 1 => exact absurd rfl hi

/-- **C102**: if messages are dispatched before an input delivered its first message, the output depends on when. -/
theorem C102_start_needed : ∃ s s', run 20 100 ([.add 0 ⟨1, 20⟩, .dispatch, .add 1 ⟨2, 10⟩, .dispatch] : List (Op 2)) = .ok s ∧
    run 20 100 ([.add 0 ⟨1, 20⟩, .add 1 ⟨2, 10⟩, .dispatch] : List (Op 2)) = .ok s' ∧
    s.out = [(0, ⟨1, 20⟩)] ∧ s'.out = [(1, ⟨2, 10⟩)] := ⟨_, _, rfl, rfl, by decide, by decide⟩

/-- **C102**: if an input delivers earlier than its period allows, the output depends on when messages are dispatched. -/
theorem C102_spacing_needed : ∃ s s',
    run 20 100 ([.setPeriod 1 10, .add 1 ⟨1, 10⟩, .add 0 ⟨2, 15⟩, .dispatch, .add 1 ⟨3, 12⟩, .dispatch] : List (Op 2)) = .ok s ∧
    run 20 100 ([.setPeriod 1 10, .add 1 ⟨1, 10⟩, .add 0 ⟨2, 15⟩, .add 1 ⟨3, 12⟩, .dispatch] : List (Op 2)) = .ok s' ∧
    s.out = [(1, ⟨1, 10⟩), (0, ⟨2, 15⟩)] ∧ s'.out = [(1, ⟨1, 10⟩), (1, ⟨3, 12⟩), (0, ⟨2, 15⟩)] :=
  ⟨_, _, rfl, rfl, by decide, by decide⟩

/-- **C102**: if an input is overdue by the timeout at a dispatch, the output depends on when messages are dispatched. -/
theorem C102_alive_needed : ∃ s s',
    run 20 100 ([.add 0 ⟨1, 10⟩, .add 1 ⟨2, 10⟩, .dispatch, .add 0 ⟨3, 110⟩, .dispatch, .add 1 ⟨4, 50⟩, .dispatch]
      : List (Op 2)) = .ok s ∧
    run 20 100 ([.add 0 ⟨1, 10⟩, .add 1 ⟨2, 10⟩, .dispatch, .add 0 ⟨3, 110⟩, .add 1 ⟨4, 50⟩, .dispatch]
      : List (Op 2)) = .ok s' ∧
    s.out.map (·.2.id) = [1, 2, 3] ∧ s'.out.map (·.2.id) = [1, 2, 4] := ⟨_, _, rfl, rfl, by decide, by decide⟩

/-- **C102**: if a period is changed after the first message of its input, the output depends on when messages are
dispatched. -/
theorem C102_period_needed : ∃ s s',
    run 20 100 ([.add 0 ⟨1, 10⟩, .add 1 ⟨2, 10⟩, .add 1 ⟨3, 12⟩, .dispatch, .setPeriod 0 50, .dispatch] : List (Op 2)) = .ok s ∧
    run 20 100 ([.add 0 ⟨1, 10⟩, .add 1 ⟨2, 10⟩, .add 1 ⟨3, 12⟩, .setPeriod 0 50, .dispatch] : List (Op 2)) = .ok s' ∧
    s.out.map (·.2.id) = [1] ∧ s'.out.map (·.2.id) = [1, 2, 3] := ⟨_, _, rfl, rfl, by decide, by decide⟩

end MF.Aligner
