import Verif.Spec.ChainSource
import Verif.Proofs.Chain
/-
Lemmas for property C120: a source in a Chain.
-/
namespace MF.Chain

variable {S M : Type}

theorem pipe_filters_append (B : Behaviour S M) : ∀ (a b : List Nat) (sts : Nat → S) (ms : List M),
    pipe B (a ++ b) sts ms = pipe B b (pipe B a sts ms).1 (pipe B a sts ms).2 := by
  intro a
  induction a with
  | nil => intro b sts ms; rfl
  | cons f a ih => intro b sts ms; simp only [List.cons_append, pipe, ih]

theorem feed_source {B : Behaviour S M} {f : Nat} (h : IsSource B f) : ∀ (ms : List M) (s : S), feed (B f) s ms = (s, []) := by
  intro ms
  induction ms with
  | nil => intro s; rfl
  | cons m ms ih => intro s; simp only [feed, h s m, ih, List.append_nil]

/-- What is added before a source changes nothing at or behind it. -/
theorem pipe_source {B : Behaviour S M} {f : Nat} (h : IsSource B f) (a b : List Nat) (sts : Nat → S) (ms : List M) :
    pipe B (a ++ f :: b) sts ms = ((pipe B a sts ms).1, []) := by
  rw [pipe_filters_append]
  simp only [pipe, feed_source h, pipe_nil]
  congr 1
  funext g
  by_cases hg : g = f
  · simp [hg]
  · simp [hg]

theorem pipe_congr (B : Behaviour S M) (P : Nat → Prop) : ∀ (fs : List Nat), (∀ f ∈ fs, P f) → ∀ (sts sts' : Nat → S)
    (ms : List M), (∀ g, P g → sts g = sts' g) →
    (pipe B fs sts ms).2 = (pipe B fs sts' ms).2 ∧ ∀ g, P g → (pipe B fs sts ms).1 g = (pipe B fs sts' ms).1 g := by
  intro fs
  induction fs with
  | nil => intro _ sts sts' ms h; exact ⟨rfl, h⟩
  | cons f fs ih =>
    intro hfs sts sts' ms h
    simp only [pipe]
    rw [← h f (hfs f (by simp))]
    apply ih (fun g hg => hfs g (by simp [hg]))
    intro g hg
    by_cases e : g = f
    · simp [e]
    · simp [e, h g hg]

/-- The chain `p` with the filters `pre` before the source, and the chain `q` without them. -/
structure Behind (pre : List Nat) (f : Nat) (p q : Pipeline S M) : Prop where
  filters : p.filters = pre ++ q.filters
  head : ∃ rest, q.filters = f :: rest
  nodup : p.filters.Nodup
  sts : ∀ g, g ∉ pre → p.sts g = q.sts g
  out : p.out = q.out

theorem behind_step {B : Behaviour S M} {pre : List Nat} {f : Nat} (hf : IsSource B f) {p q : Pipeline S M}
    (h : Behind pre f p q) (op : Op M) (hnew : ∀ g, op = .addFilter g → g ∉ p.filters) :
    if notOf pre op then Behind pre f (p.step B op) (q.step B op) else Behind pre f (p.step B op) q := by
  obtain ⟨rest, hr⟩ := h.head
  have hnd := h.nodup
  rw [h.filters, List.nodup_append] at hnd
  obtain ⟨_, hq, hdis⟩ := hnd
  have hnotin : ∀ g ∈ q.filters, g ∉ pre := fun g hg hp => hdis g hp g hg rfl
  cases op with
  | addFilter g =>
    simp only [notOf, if_true]
    refine ⟨by simp [Pipeline.step, h.filters, List.append_assoc], ⟨rest ++ [g], by simp [Pipeline.step, hr]⟩, ?_,
      h.sts, h.out⟩
    simp only [Pipeline.step]
    rw [List.nodup_append]
    refine ⟨h.nodup, by simp, ?_⟩
    intro a ha b hb e
    simp at hb
    subst hb; subst e
    exact hnew _ rfl ha
  | add m =>
    simp only [notOf]
    have hne : p.filters ≠ [] := by rw [h.filters, hr]; simp
    simp only [Pipeline.step, if_neg hne]
    have e := pipe_source hf pre rest p.sts [m]
    rw [← hr, ← h.filters] at e
    rw [e]
    refine ⟨h.filters, h.head, h.nodup, ?_, by simpa using h.out⟩
    intro g hg
    show (pipe B pre p.sts [m]).1 g = _
    rw [pipe_frame_state B pre _ _ g hg]
    exact h.sts g hg
  | emit g m =>
    by_cases hg : g ∈ pre
    · have hgp : g ∈ p.filters := by rw [h.filters]; simp [hg]
      simp only [notOf, hg, not_true_eq_false, decide_false, Pipeline.step, if_pos hgp]
      have hd : p.filters.drop (p.filters.idxOf g + 1) = pre.drop (pre.idxOf g + 1) ++ f :: rest := by
        rw [h.filters, List.idxOf_append, if_pos hg, List.drop_append_of_le_length, hr]
        have := List.idxOf_lt_length_of_mem hg
        omega
      rw [hd, pipe_source hf]
      refine ⟨h.filters, h.head, h.nodup, ?_, by simpa using h.out⟩
      intro k hk
      show (pipe B _ p.sts [m]).1 k = _
      rw [pipe_frame_state B _ _ _ k (fun hm => hk (List.mem_of_mem_drop hm))]
      exact h.sts k hk
    · simp only [notOf, hg, not_false_eq_true, decide_true, if_true]
      by_cases hgq : g ∈ q.filters
      · have hgp : g ∈ p.filters := by rw [h.filters]; simp [hgq]
        simp only [Pipeline.step, if_pos hgp, if_pos hgq]
        have hd : p.filters.drop (p.filters.idxOf g + 1) = q.filters.drop (q.filters.idxOf g + 1) := by
          rw [h.filters, List.idxOf_append, if_neg hg]
          rw [show q.filters.idxOf g + pre.length + 1 = pre.length + (q.filters.idxOf g + 1) by omega]
          rw [List.drop_length_add_append]
        rw [hd]
        obtain ⟨c1, c2⟩ := pipe_congr B (fun k => k ∉ pre) (q.filters.drop (q.filters.idxOf g + 1))
          (fun k hk => hnotin k (List.mem_of_mem_drop hk)) p.sts q.sts [m] h.sts
        exact ⟨h.filters, h.head, h.nodup, c2, by show p.out ++ _ = q.out ++ _; rw [c1, h.out]⟩
      · have hgp : g ∉ p.filters := by rw [h.filters]; simp [hg, hgq]
        simp only [Pipeline.step, if_neg hgp, if_neg hgq]
        exact h

theorem added_append (xs ys : List (Op M)) : added (xs ++ ys) = added xs ++ added ys := by
  unfold added; rw [List.filterMap_append]

theorem added_map (l : List Nat) : added (l.map (Op.addFilter (M := M))) = l := by
  induction l with
  | nil => rfl
  | cons a l ih =>
    have : added (Op.addFilter a :: l.map (Op.addFilter (M := M))) = a :: added (l.map (Op.addFilter (M := M))) := rfl
    rw [List.map_cons, this, ih]

theorem added_notOf (pre : List Nat) (ops : List (Op M)) : added (ops.filter (notOf pre)) = added ops := by
  induction ops using snoc_induction with
  | h0 => rfl
  | hs ops op ih =>
    rw [List.filter_append, added_append, added_append, ih]
    congr 1
    cases op with
    | addFilter f => rfl
    | add m => rfl
    | emit g m =>
      by_cases hg : g ∈ pre
      · simp [notOf, hg, added]
      · simp [notOf, hg, added]

theorem behind_run {B : Behaviour S M} {pre : List Nat} {f : Nat} (hf : IsSource B f) (sts : Nat → S) (ops : List (Op M))
    (hn : (pre ++ f :: added ops).Nodup) :
    Behind pre f (pipeline B sts (pre.map .addFilter ++ .addFilter f :: ops))
      (pipeline B sts (.addFilter f :: ops.filter (notOf pre))) := by
  revert hn
  induction ops using snoc_induction with
  | h0 =>
    intro hn
    have hfil : ∀ l : List Nat, pipeline B sts (l.map (Op.addFilter (M := M))) = ⟨l, sts, []⟩ := by
      intro l
      induction l using snoc_induction with
      | h0 => rfl
      | hs l a ih =>
        rw [List.map_append]
        show pipeline B sts (List.map Op.addFilter l ++ [Op.addFilter a]) = _
        rw [pipeline_snoc, ih]; rfl
    have e : pre.map (Op.addFilter (M := M)) ++ [.addFilter f] = (pre ++ [f]).map .addFilter := by simp
    have e2 : [Op.addFilter (M := M) f] = [f].map .addFilter := by simp
    simp only [List.filter_nil]
    rw [e, e2, hfil, hfil]
    exact ⟨rfl, ⟨[], rfl⟩, hn, fun _ _ => rfl, rfl⟩
  | hs ops op ih =>
    intro hn
    rw [added_append] at hn
    have hsub : (pre ++ f :: added ops).Nodup := by
      refine List.Sublist.nodup ?_ hn
      exact List.Sublist.append_left (List.Sublist.cons_cons _ (List.sublist_append_left _ _)) _
    have h := ih hsub
    have e1 : pre.map Op.addFilter ++ Op.addFilter f :: (ops ++ [op]) =
        (pre.map Op.addFilter ++ Op.addFilter f :: ops) ++ [op] := by simp
    rw [e1, pipeline_snoc, List.filter_append]
    have hs := behind_step (B := B) hf h op (by
      rintro g rfl hg
      rw [pipeline_filters, added_append] at hg
      rw [added_map] at hg
      have e3 : added (Op.addFilter f :: ops) = f :: added ops := rfl
      rw [e3] at hg
      rw [show pre ++ f :: (added ops ++ added [Op.addFilter g]) = (pre ++ f :: added ops) ++ [g] by simp [added],
        List.nodup_append] at hn
      exact hn.2.2 g hg g (by simp) rfl)
    by_cases hb : notOf pre op = true
    · rw [if_pos hb] at hs
      have e2 : Op.addFilter f :: (ops.filter (notOf pre) ++ [op].filter (notOf pre)) =
          (Op.addFilter f :: ops.filter (notOf pre)) ++ [op] := by simp [hb]
      rw [e2, pipeline_snoc]
      exact hs
    · rw [if_neg hb] at hs
      simpa [hb] using hs

end MF.Chain
