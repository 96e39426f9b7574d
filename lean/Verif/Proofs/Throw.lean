import Verif.Model.Throw
import Verif.Spec.Throw
import Verif.Proofs.Basic
import Verif.Proofs.Sequencer
/-
Helper lemmas about callbacks that throw: signals, Cache, TimeSequencer.
-/
namespace MF.Throw

theorem delivered_nil {α : Type} (boom : Nat → Bool) : delivered boom ([] : List α) = [] := rfl

theorem delivered_snoc {α : Type} (boom : Nat → Bool) (l : List α) (x : α) :
    delivered boom (l ++ [x]) = delivered boom l ++ if boom l.length then [] else [x] := by
  unfold delivered
  rw [List.zipIdx_append, List.filter_append, List.map_append]
  congr 1
  cases h : boom l.length <;> simp [h]

theorem delivered_sublist {α : Type} (boom : Nat → Bool) (l : List α) : (delivered boom l).Sublist l := by
  induction l using snoc_induction with
  | h0 => exact List.Sublist.refl _
  | hs l x ih =>
    rw [delivered_snoc]
    refine ih.append ?_
    split
    · exact List.nil_sublist _
    · exact List.Sublist.refl _

theorem throws_snoc {α : Type} (boom : Nat → Bool) (l : List α) (x : α) :
    throws boom (l ++ [x]) = throws boom l + if boom l.length then 1 else 0 := by
  unfold throws
  simp [List.range_succ, List.countP_append]

theorem delivered_length {α : Type} (boom : Nat → Bool) (l : List α) :
    (delivered boom l).length + throws boom l = l.length := by
  induction l using snoc_induction with
  | h0 => rfl
  | hs l x ih =>
    rw [delivered_snoc, throws_snoc]
    split <;> simp <;> omega

/-! ### Signals -/

theorem invoke_spec {β : Type} (boom : Nat → Bool) (b : β) : ∀ (ks : List Nat) (log : List (Nat × β)),
    ∃ pre post, ks = pre ++ post ∧ (invoke boom b ks log).1 = log ++ pre.map (fun k => (k, b)) ∧
      ((invoke boom b ks log).2 = false → post = [] ∧ ∀ k ∈ pre, boom k = false) ∧
      ((invoke boom b ks log).2 = true → ∃ before k, pre = before ++ [k] ∧ boom k = true ∧ ∀ j ∈ before, boom j = false) := by
  intro ks
  induction ks with
  | nil => intro log; exact ⟨[], [], rfl, by simp [invoke], by simp, by simp [invoke]⟩
  | cons k ks ih =>
    intro log
    unfold invoke
    cases hb : boom k with
    | true =>
      refine ⟨[k], ks, rfl, by simp, by simp, fun _ => ⟨[], k, rfl, hb, by simp⟩⟩
    | false =>
      simp only [Bool.false_eq_true, if_false]
      obtain ⟨pre, post, h1, h2, h3, h4⟩ := ih (log ++ [(k, b)])
      refine ⟨k :: pre, post, by rw [h1]; rfl, by rw [h2]; simp, ?_, ?_⟩
      · intro h
        obtain ⟨g1, g2⟩ := h3 h
        refine ⟨g1, ?_⟩
        intro j hj
        rcases List.mem_cons.1 hj with rfl | hj
        · exact hb
        · exact g2 j hj
      · intro h
        obtain ⟨before, j, g1, g2, g3⟩ := h4 h
        refine ⟨k :: before, j, by rw [g1]; rfl, g2, ?_⟩
        intro i hi
        rcases List.mem_cons.1 hi with rfl | hi
        · exact hb
        · exact g3 i hi

/-! ### Cache -/

theorem cacheStep_eq (boom : Nat → Bool) (s : Cache.State) (op : Cache.Op) : cacheStep boom s op = Cache.step s op := by
  cases op with
  | add e =>
    simp only [cacheStep, cacheAdd, Cache.step, Cache.add]
    cases Cache.insertLocked s e <;> rfl
  | setSize n => rfl

theorem cacheRun_eq (boom : Nat → Bool) (ops : List Cache.Op) : ∀ s, runE (cacheStep boom) s ops = Cache.run s ops := by
  induction ops with
  | nil => intro s; rfl
  | cons op ops ih =>
    intro s
    unfold runE Cache.run
    rw [cacheStep_eq]
    cases Cache.step s op with
    | error f => rfl
    | ok s' => exact ih s'

/-! ### TimeSequencer -/

theorem passOn_spec (boom : Nat → Bool) : ∀ (l out : List Ev), ∃ sent lost, l = sent ++ lost ∧
    (passOn boom l out).1 = out ++ sent ∧
    ((passOn boom l out).2 = false → lost = [] ∧ ∀ k, out.length ≤ k → k < out.length + sent.length → boom k = false) ∧
    ((passOn boom l out).2 = true → 0 < sent.length ∧ boom (out.length + sent.length - 1) = true ∧
      ∀ k, out.length ≤ k → k + 1 < out.length + sent.length → boom k = false) := by
  intro l
  induction l with
  | nil => intro out; exact ⟨[], [], rfl, by simp [passOn], by intro _; exact ⟨rfl, by intro k h1 h2; simp at h2; omega⟩, by simp [passOn]⟩
  | cons e l ih =>
    intro out
    unfold passOn
    cases hb : boom out.length with
    | true =>
      refine ⟨[e], l, rfl, by simp, by simp, fun _ => ⟨by simp, by simpa using hb, ?_⟩⟩
      intro k h1 h2; simp at h2; omega
    | false =>
      simp only [Bool.false_eq_true, if_false]
      obtain ⟨sent, lost, h1, h2, h3, h4⟩ := ih (out ++ [e])
      simp only [List.length_append, List.length_singleton] at h3 h4
      refine ⟨e :: sent, lost, by rw [h1]; rfl, by rw [h2]; simp, ?_, ?_⟩
      · intro h
        obtain ⟨g1, g2⟩ := h3 h
        refine ⟨g1, ?_⟩
        intro k k1 k2
        by_cases hk : k = out.length
        · rw [hk]; exact hb
        · exact g2 k (by omega) (by simp at k2; omega)
      · intro h
        obtain ⟨g1, g2, g3⟩ := h4 h
        refine ⟨by simp, ?_, ?_⟩
        · rw [← g2]; congr 1; simp only [List.length_cons]; omega
        · intro k k1 k2
          by_cases hk : k = out.length
          · rw [hk]; exact hb
          · exact g3 k (by omega) (by simp at k2; omega)

theorem sequencerStep_eq (boom : Nat → Bool) {s s' : Sequencer.State} (op : Sequencer.Op)
    (hm : s.messages = s'.messages) (hl : s.last = s'.last) (hd : s.delay = s'.delay) (hq : s.queueSize = s'.queueSize)
    (ho : s.out.Sublist s'.out) :
    (sequencerStep boom s op).messages = (Sequencer.step s' op).messages ∧
    (sequencerStep boom s op).last = (Sequencer.step s' op).last ∧
    (sequencerStep boom s op).delay = (Sequencer.step s' op).delay ∧
    (sequencerStep boom s op).queueSize = (Sequencer.step s' op).queueSize ∧
    (sequencerStep boom s op).out.Sublist (Sequencer.step s' op).out := by
  cases op with
  | add m =>
    unfold sequencerStep Sequencer.step Sequencer.add
    by_cases h1 : m.source ≠ Source.system
    · simp only [if_pos h1]; exact ⟨hm, hl, hd, hq, ho⟩
    · simp only [if_neg h1]
      by_cases h2 : m.ev.stamp < s.last
      · have h2' : m.ev.stamp < s'.last := by rw [← hl]; exact h2
        simp only [if_pos h2, if_pos h2']; exact ⟨hm, hl, hd, hq, ho⟩
      · have h2' : ¬ m.ev.stamp < s'.last := by rw [← hl]; exact h2
        simp only [if_neg h2, if_neg h2']
        refine ⟨?_, hl, hd, hq, ho⟩
        simp only [hm, hq]
  | tick now =>
    simp only [sequencerStep, sequencerDispatch, Sequencer.step, Sequencer.dispatch]
    rw [hm, hl, hd]
    refine ⟨rfl, rfl, rfl, hq, ?_⟩
    obtain ⟨sent, lost, h1, h2, _, _⟩ := passOn_spec boom (Sequencer.takeReady s'.delay now 0 s'.messages s'.last).1 s.out
    rw [h2, h1]
    exact ho.append (List.sublist_append_left _ _)

theorem sequencerRun_eq (boom : Nat → Bool) (delay : Int) (q : Nat) (ops : List Sequencer.Op) :
    (sequencerRun boom delay q ops).messages = (Sequencer.run delay q ops).messages ∧
    (sequencerRun boom delay q ops).last = (Sequencer.run delay q ops).last ∧
    (sequencerRun boom delay q ops).delay = (Sequencer.run delay q ops).delay ∧
    (sequencerRun boom delay q ops).queueSize = (Sequencer.run delay q ops).queueSize ∧
    (sequencerRun boom delay q ops).out.Sublist (Sequencer.run delay q ops).out := by
  induction ops using snoc_induction with
  | h0 => exact ⟨rfl, rfl, rfl, rfl, List.Sublist.refl _⟩
  | hs ops op ih =>
    unfold sequencerRun Sequencer.run at ih ⊢
    rw [List.foldl_append, List.foldl_append]
    obtain ⟨h1, h2, h3, h4, h5⟩ := ih
    exact sequencerStep_eq boom op h1 h2 h3 h4 h5

/-! ### LatestTime -/

theorem latestRun_eq {n : Nat} {D : Type} [Latest.Arith D] (boom : Nat → Bool) (dflt : Latest.Config D)
    (ops : List (Latest.Op n)) : ∀ s : Latest.State n D,
    runE (fun s op => (latestAdd boom dflt s op).map (·.1)) s ops = Latest.run dflt s ops := by
  unfold Latest.run
  induction ops with
  | nil => intro s; rfl
  | cons op ops ih =>
    intro s
    unfold runE
    have : (latestAdd boom dflt s op).map (·.1) = Latest.add dflt s op.input op.msg op.now := by
      unfold latestAdd
      cases Latest.add dflt s op.input op.msg op.now <;> rfl
    rw [this]
    cases Latest.add dflt s op.input op.msg op.now with
    | error f => rfl
    | ok s' => exact ih s'

end MF.Throw
