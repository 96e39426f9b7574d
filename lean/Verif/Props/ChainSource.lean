import Verif.Proofs.ChainSource
/-
Property C120: a source, such as a Subscriber, in a Chain.
-/
namespace MF.Chain

variable {S M : Type}

/-- **C120**.  Let a chain contain a source, with filters `pre` before it.  Whatever happens after it was added (messages
added to the chain, filters outputting by themselves, further filters added), the chain outputs exactly what a chain that
starts with the source outputs when nothing is added to it and the filters of `pre` are silent. -/
theorem C120_only_behind_source {B : Behaviour S M} {f : Nat} (hf : IsSource B f) (sts : Nat → S) (pre : List Nat)
    (ops : List (Op M)) (hn : (pre ++ f :: added ops).Nodup) (depth : Nat) (hd : pre.length + 1 + (added ops).length ≤ depth) :
    ∃ c c', run B depth sts (pre.map .addFilter ++ .addFilter f :: ops) = .ok c ∧
      run B depth sts (.addFilter f :: ops.filter (notOf pre)) = .ok c' ∧ c.out = c'.out ∧
      ∀ g, g ∉ pre → c.sts g = c'.sts g := by
  have e : added (pre.map Op.addFilter ++ Op.addFilter f :: ops) = pre ++ f :: added ops := by
    rw [added_append, added_map]; rfl
  have e' : added (Op.addFilter f :: ops.filter (notOf pre)) = f :: added ops := by
    have : added (Op.addFilter f :: ops.filter (notOf pre)) = f :: added (ops.filter (notOf pre)) := rfl
    rw [this, added_notOf]
  obtain ⟨c, h1, h2⟩ := run_refines B depth sts (pre.map .addFilter ++ .addFilter f :: ops) (by rw [e]; exact hn)
    (by rw [e]; simp; omega)
  obtain ⟨c', h3, h4⟩ := run_refines B depth sts (.addFilter f :: ops.filter (notOf pre))
    (by rw [e']; exact (List.nodup_append.1 hn).2.1) (by rw [e']; simp; omega)
  have hb := behind_run hf sts ops hn
  refine ⟨c, c', h1, h3, ?_, ?_⟩
  · rw [h2.out, h4.out]; exact hb.out
  · intro g hg
    rw [h2.sts, h4.sts]; exact hb.sts g hg

/-- **C120** (a Subscriber and PassThroughs).  If the filters behind the source output every message unchanged and do not
output anything else, the chain outputs what the source outputs, once and in order, whatever is added to the chain and
whatever the filters before the source do. -/
theorem C120_passes_source {B : Behaviour S M} {f : Nat} (hf : IsSource B f) (sts : Nat → S) (pre : List Nat)
    (ops : List (Op M)) (hn : (pre ++ f :: added ops).Nodup) (depth : Nat) (hd : pre.length + 1 + (added ops).length ≤ depth)
    (ht : ∀ g ∈ added ops, ∀ s m, (B g s m).2 = [m]) (hquiet : ∀ g m, Op.emit g m ∈ ops → g ∉ added ops) :
    ∃ c, run B depth sts (pre.map .addFilter ++ .addFilter f :: ops) = .ok c ∧ c.out = emitted f ops := by
  obtain ⟨c, c', h1, h2, h3, _⟩ := C120_only_behind_source hf sts pre ops hn depth hd
  refine ⟨c, h1, ?_⟩
  have e : added (pre.map Op.addFilter ++ Op.addFilter f :: ops) = pre ++ f :: added ops := by
    rw [added_append, added_map]; rfl
  obtain ⟨c2, h4, h5⟩ := run_refines B depth sts (pre.map .addFilter ++ .addFilter f :: ops) (by rw [e]; exact hn)
    (by rw [e]; simp; omega)
  rw [h1] at h4
  cases h4
  rw [h5.out, (behind_run hf sts ops hn).out]
  clear h1 h2 h3 h5 hd e
  have hpipe : ∀ fs : List Nat, (∀ g ∈ fs, ∀ s m, (B g s m).2 = [m]) → ∀ sts ms, (pipe B fs sts ms).2 = ms := by
    intro fs
    induction fs with
    | nil => intro _ sts ms; rfl
    | cons g fs ih =>
      intro hg sts ms
      simp only [pipe]
      rw [ih (fun k hk => hg k (by simp [hk]))]
      have : ∀ (ms : List M) (s : S), (feed (B g) s ms).2 = ms := by
        intro ms
        induction ms with
        | nil => intro s; rfl
        | cons m ms ih => intro s; simp only [feed, hg g (by simp) s m, ih]; rfl
      exact this ms _
  -- every initial part of the history
  have key : ∀ l, (∀ g ∈ added l, ∀ s m, (B g s m).2 = [m]) → (∀ g m, Op.emit g m ∈ l → g ∉ added l) →
      (pre ++ f :: added l).Nodup →
      (pipeline B sts (.addFilter f :: l.filter (notOf pre))).out = emitted f l := by
    intro l
    induction l using snoc_induction with
    | h0 => intro _ _ _; rfl
    | hs l op ih =>
      intro ht hq hn
      rw [added_append] at ht hq hn
      have hsub : (pre ++ f :: added l).Nodup :=
        List.Sublist.nodup (List.Sublist.append_left (List.Sublist.cons_cons _ (List.sublist_append_left _ _)) _) hn
      have ih := ih (fun g hg => ht g (by simp [hg])) (fun g m hm hg => hq g m (by simp [hm]) (by simp [hg])) hsub
      have hfil : (pipeline B sts (.addFilter f :: l.filter (notOf pre))).filters = f :: added l := by
        rw [pipeline_filters]
        show f :: added (l.filter (notOf pre)) = _
        rw [added_notOf]
      have hem : emitted f (l ++ [op]) = emitted f l ++ emitted f [op] := by
        unfold emitted; rw [List.filterMap_append]
      rw [List.filter_append, hem]
      cases op with
      | addFilter g =>
        have e2 : Op.addFilter f :: (l.filter (notOf pre) ++ [Op.addFilter g].filter (notOf pre)) =
            (Op.addFilter f :: l.filter (notOf pre)) ++ [Op.addFilter g] := by simp [notOf]
        rw [e2, pipeline_snoc]
        simp only [Pipeline.step, ih]
        simp [emitted]
      | add m => simpa [notOf, emitted] using ih
      | emit g m =>
        have hga := hq g m (by simp)
        simp only [added, List.filterMap_cons, List.filterMap_nil, List.append_nil] at hga
        have hga : g ∉ added l := hga
        have hfp : f ∉ pre := by
          intro h
          exact (List.nodup_append.1 hn).2.2 f h f (by simp) rfl
        by_cases hgp : g ∈ pre
        · have hne : g ≠ f := fun h => hfp (h ▸ hgp)
          simpa [notOf, hgp, emitted, hne] using ih
        · have e2 : Op.addFilter f :: (l.filter (notOf pre) ++ [Op.emit g m].filter (notOf pre)) =
              (Op.addFilter f :: l.filter (notOf pre)) ++ [Op.emit g m] := by simp [notOf, hgp]
          rw [e2, pipeline_snoc]
          by_cases hgf : g = f
          · subst hgf
            simp only [Pipeline.step, hfil, List.mem_cons, true_or, if_true, List.idxOf_cons_self, Nat.zero_add,
              List.drop_succ_cons, List.drop_zero, ih]
            rw [hpipe (added l) (fun k hk => ht k (by simp [hk]))]
            simp [emitted]
          · simp only [Pipeline.step, hfil, List.mem_cons, hgf, hga, or_self, if_false, ih]
            simp [emitted, hgf]
  exact key ops ht hquiet hn

/-- **C120** (a source at the front).  Adding messages to a chain that starts with a source has no effect at all. -/
theorem C120_add_ignored {B : Behaviour S M} {f : Nat} (hf : IsSource B f) (sts : Nat → S) (ops : List (Op M)) (m : M)
    (hn : (f :: added ops).Nodup) (depth : Nat) (hd : 1 + (added ops).length ≤ depth) :
    ∃ c c', run B depth sts (.addFilter f :: ops) = .ok c ∧ run B depth sts (.addFilter f :: ops ++ [.add m]) = .ok c' ∧
      c'.out = c.out ∧ c'.sts = c.sts ∧ c'.filters = c.filters := by
  have e : ∀ l : List (Op M), added (Op.addFilter f :: l) = f :: added l := fun _ => rfl
  have e2 : added (ops ++ [Op.add m]) = added ops := by rw [added_append]; simp [added]
  obtain ⟨c, h1, h2⟩ := run_refines B depth sts (.addFilter f :: ops) (by rw [e]; exact hn) (by rw [e]; simp; omega)
  obtain ⟨c', h3, h4⟩ := run_refines B depth sts (.addFilter f :: (ops ++ [.add m])) (by rw [e, e2]; exact hn)
    (by rw [e, e2]; simp; omega)
  refine ⟨c, c', h1, by simpa using h3, ?_⟩
  have hs : pipeline B sts (.addFilter f :: (ops ++ [.add m])) = pipeline B sts (.addFilter f :: ops) := by
    rw [show Op.addFilter f :: (ops ++ [Op.add m]) = (Op.addFilter f :: ops) ++ [Op.add m] by simp, pipeline_snoc]
    have hfil : (pipeline B sts (.addFilter f :: ops)).filters = f :: added ops := by rw [pipeline_filters]; rfl
    have := pipe_source hf [] (added ops) (pipeline B sts (.addFilter f :: ops)).sts [m]
    simp only [List.nil_append] at this
    simp only [Pipeline.step, hfil, this, pipe, List.append_nil]
    rw [if_neg (by simp), ← hfil]
  rw [h4.out, h4.sts, h4.filters, hs, h2.out, h2.sts, h2.filters]
  exact ⟨rfl, rfl, rfl⟩

/-- Filter 1 is a source, the others pass every message and count them. -/
def srcDemo : Behaviour Nat Nat := fun f s m => if f = 1 then (s, []) else (s + 1, [m])

example : IsSource srcDemo 1 := fun _ _ => rfl

/-- A PassThrough, a source and another PassThrough; messages are added to the chain and output by the source and by the
first filter; only those of the source come out. -/
example : (run srcDemo 3 (fun _ => 0) ([0].map .addFilter ++ .addFilter 1 ::
      [.add 5, .emit 1 6, .addFilter 2, .emit 0 7, .emit 1 8, .add 9])).toOption.map (fun c => (c.out, c.sts 0, c.sts 2)) =
    some ([6, 8], 2, 1) ∧
    emitted 1 ([.add 5, .emit 1 6, .addFilter 2, .emit 0 7, .emit 1 8, .add 9] : List (Op Nat)) = [6, 8] ∧
    ([0] ++ 1 :: added ([.add 5, .emit 1 6, .addFilter 2, .emit 0 7, .emit 1 8, .add 9] : List (Op Nat))).Nodup := by
  refine ⟨rfl, rfl, by decide⟩

end MF.Chain
