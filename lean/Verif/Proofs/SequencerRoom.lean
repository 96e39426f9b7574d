import Verif.Proofs.Sequencer
import Verif.Spec.SequencerRoom
/-
Helper lemmas for property C103.
-/
namespace MF.Sequencer

open MF.Pipeline (Punctual)

theorem due_snoc_add (d : Int) (ops : List Op) (m : Msg) (x : Ev) : due d (ops ++ [.add m]) x = due d ops x := by
  simp [due]

theorem due_snoc_tick (d : Int) (ops : List Op) (now : Nat → Int) (x : Ev) :
    due d (ops ++ [.tick now]) x = (due d ops x || decide (x.stamp + d ≤ now 0)) := by
  simp [due]

theorem due_stamp (d : Int) (ops : List Op) {x y : Ev} (h : x.stamp = y.stamp) : due d ops x = due d ops y := by
  unfold due; rw [h]

theorem due_iff (d : Int) (ops : List Op) (x : Ev) : due d ops x = true ↔ ∃ now, Op.tick now ∈ ops ∧ x.stamp + d ≤ now 0 := by
  unfold due
  rw [List.any_eq_true]
  constructor
  · rintro ⟨op, h1, h2⟩
    cases op with
    | add m => cases h2
    | tick now => exact ⟨now, h1, by simpa using h2⟩
  · rintro ⟨now, h1, h2⟩
    exact ⟨_, h1, by simpa using h2⟩

/-- Filtering by a predicate that depends on the stamp only. -/
theorem at_filter (t : Int) (p : Ev → Bool) (l : List Ev) : at' t (l.filter p) = (at' t l).filter p := by
  unfold at'
  rw [List.filter_filter, List.filter_filter]
  congr 1; funext x; rw [Bool.and_comm]

/-- What holds after a history if nothing was lost. -/
structure Kept (d : Int) (ops : List Op) (s : State) : Prop where
  all : ∀ t, at' t (s.out ++ s.messages) = at' t (added ops)
  out : ∀ x ∈ s.out, due d ops x = true
  held : ∀ x ∈ s.messages, due d ops x = false

theorem kept_held {d : Int} {ops : List Op} {s : State} (h : Kept d ops s) (t : Int) :
    at' t s.messages = at' t (waiting d ops) := by
  unfold waiting
  rw [at_filter, ← h.all t, ← at_filter, List.filter_append]
  rw [show s.out.filter (fun x => !due d ops x) = [] by
    rw [List.filter_eq_nil_iff]; intro x hx; rw [h.out x hx]; simp]
  rw [show s.messages.filter (fun x => !due d ops x) = s.messages by
    rw [List.filter_eq_self]; intro x hx; rw [h.held x hx]; rfl]
  rfl

theorem kept_out {d : Int} {ops : List Op} {s : State} (h : Kept d ops s) (t : Int) :
    at' t s.out = at' t ((added ops).filter (due d ops)) := by
  rw [at_filter, ← h.all t, ← at_filter, List.filter_append]
  rw [show s.messages.filter (due d ops) = [] by
    rw [List.filter_eq_nil_iff]; intro x hx; rw [h.held x hx]; simp]
  rw [show s.out.filter (due d ops) = s.out by
    rw [List.filter_eq_self]; intro x hx; exact h.out x hx]
  rw [List.append_nil]

theorem take_const (d c : Int) (now : Nat → Int) (hn : ∀ k, now k = c) : ∀ (l : List Ev) (k : Nat) (last : Int), TimeSorted l →
    (∀ x ∈ (takeReady d now k l last).1, x.stamp + d ≤ c) ∧ ∀ x ∈ (takeReady d now k l last).2.1, c < x.stamp + d := by
  intro l
  induction l with
  | nil => intro k last _; exact ⟨by simp [takeReady], by simp [takeReady]⟩
  | cons e l ih =>
    intro k last hl
    obtain ⟨h1, h2⟩ := List.pairwise_cons.1 hl
    unfold takeReady
    rw [hn k]
    by_cases h : e.stamp + d ≤ c
    · rw [if_pos h]
      obtain ⟨a, b⟩ := ih (k + 1) e.stamp h2
      refine ⟨?_, b⟩
      intro x hx
      rcases List.mem_cons.1 hx with hx | hx
      · rw [hx]; exact h
      · exact a x hx
    · rw [if_neg h]
      refine ⟨fun x hx => absurd hx List.not_mem_nil, ?_⟩
      intro x hx
      rcases List.mem_cons.1 hx with hx | hx
      · rw [hx]; omega
      · have := h1 x hx; omega

theorem run_kept {d : Int} {q : Nat} {ops : List Op} (hs : Steady ops) (hp : Punctual d ops) (hr : Room d q ops) :
    ∀ pre, pre <+: ops → Kept d pre (run d q pre) := by
  intro pre
  induction pre using snoc_induction with
  | h0 =>
    intro _
    exact ⟨fun t => rfl, fun x hx => absurd hx List.not_mem_nil, fun x hx => absurd hx List.not_mem_nil⟩
  | hs pre op ih =>
    intro hpre
    have hpre' : pre <+: ops := (List.prefix_append _ _).trans hpre
    have hk := ih hpre'
    have hi := run_inv d q pre
    obtain ⟨hcd, hcq⟩ := run_config d q pre
    rw [run_snoc]
    cases op with
    | tick now =>
      have hnow : ∀ k, now k = now 0 := hs now (hpre.subset (by simp))
      show Kept d _ (dispatch (run d q pre) now)
      have hcon := dispatch_content (run d q pre) now
      obtain ⟨t1, t2⟩ := take_const (run d q pre).delay (now 0) now hnow (run d q pre).messages 0 (run d q pre).last hi.sorted
      rw [hcd] at t1 t2
      have hsplit := take_split d now (run d q pre).messages 0 (run d q pre).last
      refine ⟨?_, ?_, ?_⟩
      · intro t
        rw [hcon, hk.all t, added_snoc]
        simp [added]
      · intro x hx
        rw [due_snoc_tick, Bool.or_eq_true, decide_eq_true_eq]
        unfold dispatch at hx
        rw [hcd] at hx
        rcases List.mem_append.1 hx with hx | hx
        · exact Or.inl (hk.out x hx)
        · exact Or.inr (t1 x hx)
      · intro x hx
        rw [due_snoc_tick]
        unfold dispatch at hx
        rw [hcd] at hx
        have h1 := t2 x hx
        have h2 : x ∈ (run d q pre).messages := by rw [hsplit]; exact List.mem_append_right _ hx
        rw [hk.held x h2]
        simp only [Bool.false_or, decide_eq_false_iff_not]
        omega
    | add m =>
      obtain ⟨tl, htl⟩ := hpre
      obtain ⟨p1, p2, p3⟩ := hp pre m tl (by rw [← htl]; simp)
      have hnd : due d pre m.ev = false := by
        cases hdue : due d pre m.ev with
        | false => rfl
        | true =>
          exfalso
          obtain ⟨now, h1, h2⟩ := (due_iff d pre m.ev).1 hdue
          have := p3 now h1 0
          omega
      have hlast : (run d q pre).last ≤ m.ev.stamp := by
        rw [hi.last]
        unfold lastOutput
        cases hl : (run d q pre).out.getLast? with
        | none => exact p2
        | some y =>
          obtain ⟨now, g1, g2⟩ := (due_iff d pre y).1 (hk.out y (List.mem_of_getLast? hl))
          have := p3 now g1 0
          show y.stamp ≤ _
          omega
      have hadd : added (pre ++ [.add m]) = added pre ++ [m.ev] := by
        rw [added_snoc]; simp [added, p1]
      have hins : ∀ t, at' t ((run d q pre).out ++ insertEv m.ev (run d q pre).messages) = at' t (added (pre ++ [.add m])) := by
        intro t
        rw [at_append, at_insert _ _ _ hi.sorted, ← at_append, ← List.append_assoc, at_append, hk.all t, hadd, at_append]
      have hstep : step (run d q pre) (.add m) =
          { run d q pre with messages := insertEv m.ev (run d q pre).messages } := by
        rcases add_eq (run d q pre) m with ⟨h, _⟩ | ⟨_, h, _⟩ | ⟨_, _, h⟩
        · exact absurd p1 h
        · omega
        · show (match add (run d q pre) m with | .ok s' => s' | .error _ => run d q pre) = _
          rw [h]
          show queued _ _ = _
          unfold queued
          rw [if_neg]
          rw [hcq]
          rintro ⟨h1, h2⟩
          rcases hr with hr | hr
          · exact h1 hr
          · have h3 := hr (pre ++ [.add m]) ⟨tl, htl⟩
            have h4 : (insertEv m.ev (run d q pre).messages).length = (waiting d (pre ++ [.add m])).length := by
              rw [insertEv_length]
              have h5 := (perm_of_at (kept_held hk)).length_eq
              rw [h5]
              unfold waiting
              rw [hadd]
              simp only [due_snoc_add]
              rw [List.filter_append, List.length_append]
              simp [hnd]
            omega
      rw [hstep]
      refine ⟨hins, ?_, ?_⟩
      · intro x hx; rw [due_snoc_add]; exact hk.out x hx
      · intro x hx
        rw [due_snoc_add]
        rcases (insertEv_mem _ _ _).1 hx with hx | hx
        · rw [hx]; exact hnd
        · exact hk.held x hx

/-- Two lists in time order with the same messages at every stamp are equal. -/
theorem sorted_at_ext (a : List Ev) : ∀ b, TimeSorted a → TimeSorted b → (∀ t, at' t a = at' t b) → a = b := by
  induction a with
  | nil =>
    intro b _ _ h
    cases b with
    | nil => rfl
    | cons y b => have := h y.stamp; simp [at'] at this
  | cons x a ih =>
    intro b ha hb h
    cases b with
    | nil => have := h x.stamp; simp [at'] at this
    | cons y b =>
      have hxy : x.stamp = y.stamp := by
        have h1 : x ∈ y :: b := (perm_of_at h).mem_iff.1 (by simp)
        have h2 : y ∈ x :: a := (perm_of_at h).mem_iff.2 (by simp)
        have h3 : y.stamp ≤ x.stamp := by
          rcases List.mem_cons.1 h1 with h1 | h1
          · rw [h1]; exact Int.le_refl _
          · exact List.rel_of_pairwise_cons hb h1
        have h4 : x.stamp ≤ y.stamp := by
          rcases List.mem_cons.1 h2 with h2 | h2
          · rw [h2]; exact Int.le_refl _
          · exact List.rel_of_pairwise_cons ha h2
        omega
      have he : x = y := by
        have := h x.stamp
        unfold at' at this
        rw [List.filter_cons_of_pos (by simp), List.filter_cons_of_pos (by simp [hxy])] at this
        exact (List.cons.inj this).1
      subst he
      congr 1
      refine ih b (List.Pairwise.of_cons ha) (List.Pairwise.of_cons hb) ?_
      intro t
      have := h t
      unfold at' at this ⊢
      by_cases ht : x.stamp = t
      · rw [List.filter_cons_of_pos (by simp [ht]), List.filter_cons_of_pos (by simp [ht])] at this
        exact (List.cons.inj this).2
      · rw [List.filter_cons_of_neg (by simp [ht]), List.filter_cons_of_neg (by simp [ht])] at this
        exact this

/-! ### Checking the conditions for a given history -/

/-- The message added next is punctual. -/
def punctualAt (d : Int) (pre : List Op) : Op → Bool
  | .add m => decide (m.source = Source.system) && decide (0 ≤ m.ev.stamp) && !due d pre m.ev
  | .tick _ => true

theorem punctual_of_check {d : Int} {ops : List Op} (hs : Steady ops)
    (h : ∀ k, k < ops.length → (ops.drop k).head?.all (punctualAt d (ops.take k)) = true) : Punctual d ops := by
  intro pre m post heq
  have := h pre.length (by rw [heq]; simp)
  rw [heq] at this
  simp [punctualAt] at this
  refine ⟨this.1.1, this.1.2, ?_⟩
  intro now hn k
  rw [hs now (by rw [heq]; exact List.mem_append_left _ hn) k]
  apply Classical.byContradiction
  intro hc
  have hd := (due_iff d pre m.ev).2 ⟨now, hn, by omega⟩
  rw [this.2] at hd; cases hd

theorem room_of_check {d : Int} {q : Nat} {ops : List Op} (h : ∀ k, k ≤ ops.length → (waiting d (ops.take k)).length ≤ q) :
    Room d q ops := by
  right
  rintro pre ⟨t, rfl⟩
  have := h pre.length (by simp)
  rwa [List.take_left] at this

end MF.Sequencer
