import Verif.Proofs.Chain
/-
Properties of Chain (C12).
-/
namespace MF.Chain

variable {S M : Type}

/-- C12.  For every history of adding filters (distinct objects), adding messages and filters outputting by themselves, in any
order, and whatever the filters do: no call recurses deeper than the number of filters, and the chain outputs exactly what
the pipeline of its filters outputs. -/
theorem C12_pipeline (B : Behaviour S M) (sts : Nat → S) (ops : List (Op M)) (depth : Nat) (hd : (added ops).Nodup)
    (hdepth : (added ops).length ≤ depth) :
    ∃ c, run B depth sts ops = .ok c ∧ c.out = (pipeline B sts ops).out ∧ c.sts = (pipeline B sts ops).sts := by
  obtain ⟨c, h1, h2⟩ := run_refines B depth sts ops hd hdepth
  exact ⟨c, h1, h2.out, h2.sts⟩

/-- C12, for a chain that is built first: the output is what the last filter makes of everything the one before it output, and
so on down to the messages added. -/
theorem C12_all_messages (B : Behaviour S M) (sts : Nat → S) (fs : List Nat) (ms : List M) (hd : fs.Nodup) (hne : fs ≠ []) :
    ∃ c, run B fs.length sts (fs.map .addFilter ++ ms.map .add) = .ok c ∧ c.out = (pipe B fs sts ms).2 := by
  have hadd : added (fs.map Op.addFilter ++ ms.map Op.add) = fs := by
    unfold added
    rw [List.filterMap_append, List.filterMap_map, List.filterMap_map]
    have h1 : ∀ l : List Nat, List.filterMap ((fun op : Op M => match op with | .addFilter f => some f | _ => none) ∘ Op.addFilter) l = l := by
      intro l; induction l with
      | nil => rfl
      | cons a l ih => simp only [List.filterMap_cons, Function.comp, ih] at *
    have h2 : ∀ l : List M, List.filterMap ((fun op : Op M => match op with | .addFilter f => some f | _ => none) ∘ Op.add) l = [] := by
      intro l; induction l with
      | nil => rfl
      | cons a l ih => simp only [List.filterMap_cons, Function.comp, ih] at *
    exact (congr (congrArg HAppend.hAppend (h1 fs)) (h2 ms)).trans (List.append_nil fs)
  obtain ⟨c, h1, h2⟩ := run_refines B fs.length sts (fs.map .addFilter ++ ms.map .add) (by rw [hadd]; exact hd) (by rw [hadd]; exact Nat.le_refl _)
  refine ⟨c, h1, ?_⟩
  rw [h2.out]
  have hfil : ∀ l : List Nat, pipeline B sts (l.map (Op.addFilter (M := M))) = ⟨l, sts, []⟩ := by
    intro l
    induction l using snoc_induction with
    | h0 => rfl
    | hs l a ih =>
      rw [List.map_append]
      show pipeline B sts (List.map Op.addFilter l ++ [Op.addFilter a]) = _
      rw [pipeline_snoc, ih]; rfl
  have hmsg : ∀ l : List M, pipeline B sts (fs.map .addFilter ++ l.map .add) = ⟨fs, (pipe B fs sts l).1, (pipe B fs sts l).2⟩ := by
    intro l
    induction l using snoc_induction with
    | h0 => simp only [List.map_nil, List.append_nil, hfil, pipe_nil]
    | hs l a ih =>
      rw [List.map_append, ← List.append_assoc]
      show pipeline B sts (List.map Op.addFilter fs ++ List.map Op.add l ++ [Op.add a]) = _
      rw [pipeline_snoc, ih]
      simp only [Pipeline.step, if_neg hne, pipe_append B fs sts l [a] hd]
  rw [hmsg]

/-- C12, one message: after any history, a message added to a non-empty chain is passed through all the filters in the order
in which they were added, and what comes out of the last one is output by the chain, once. -/
theorem C12_add (B : Behaviour S M) (sts : Nat → S) (ops : List (Op M)) (m : M) (depth : Nat) (hd : (added ops).Nodup)
    (hdepth : (added ops).length ≤ depth) (hne : added ops ≠ []) :
    ∃ c c', run B depth sts ops = .ok c ∧ run B depth sts (ops ++ [.add m]) = .ok c' ∧
      c'.out = c.out ++ (pipe B (added ops) c.sts [m]).2 := by
  obtain ⟨c, h1, h2⟩ := run_refines B depth sts ops hd hdepth
  have hf : c.filters = added ops := by rw [h2.filters, pipeline_filters]
  obtain ⟨c', h3, h4⟩ := step_refines B (d := depth) h2 (.add m) (by intro f hf'; cases hf') (by rw [hf]; exact hdepth)
  refine ⟨c, c', h1, ?_, ?_⟩
  · unfold run at h1 ⊢
    rw [runE_append, h1]
    simp only [runE, h3]
  · rw [h4.out, ← hf, h2.out, h2.sts]
    simp only [Pipeline.step]
    rw [if_neg (by rw [pipeline_filters]; exact hne), h2.filters]

/-- C12, PassThrough filters: a chain of filters that pass every message outputs the messages added since the first filter was
added, each exactly once and in order, whenever further filters are added. -/
theorem C12_transparent {B : Behaviour S M} (hB : Transparent B) (sts : Nat → S) (before after : List (Op M)) (f : Nat)
    (depth : Nat) (hb : ∀ op ∈ before, ∃ m, op = .add m) (ha : ∀ op ∈ after, ∀ g m, op ≠ .emit g m)
    (hd : (f :: added after).Nodup) (hdepth : (added after).length + 1 ≤ depth) :
    ∃ c, run B depth sts (before ++ [.addFilter f] ++ after) = .ok c ∧ c.out = messages after := by
  have hadd0 : added before = [] := by
    unfold added
    rw [List.filterMap_eq_nil_iff]
    intro op hop
    obtain ⟨m, rfl⟩ := hb op hop
    rfl
  have hadd : added (before ++ [.addFilter f] ++ after) = f :: added after := by
    have : ∀ xs ys : List (Op M), added (xs ++ ys) = added xs ++ added ys := by
      intro xs ys; unfold added; rw [List.filterMap_append]
    rw [this, this, hadd0]
    rfl
  obtain ⟨c, h1, h2⟩ := run_refines B depth sts (before ++ [.addFilter f] ++ after) (by rw [hadd]; exact hd)
    (by rw [hadd]; simpa using hdepth)
  refine ⟨c, h1, ?_⟩
  rw [h2.out]
  have hp0 : ∀ l : List (Op M), (∀ op ∈ l, ∃ m, op = .add m) → pipeline B sts l = ⟨[], sts, []⟩ := by
    intro l
    induction l using snoc_induction with
    | h0 => intro _; rfl
    | hs l a ih =>
      intro h
      rw [pipeline_snoc, ih (fun op hop => h op (by simp [hop]))]
      obtain ⟨m, rfl⟩ := h a (by simp)
      rfl
  have hp : ∀ l : List (Op M), (∀ op ∈ l, ∀ g m, op ≠ .emit g m) →
      (pipeline B sts (before ++ [.addFilter f] ++ l)).out = messages l ∧ (pipeline B sts (before ++ [.addFilter f] ++ l)).filters ≠ [] := by
    intro l
    induction l using snoc_induction with
    | h0 =>
      intro _
      rw [List.append_nil, pipeline_snoc, hp0 before hb]
      simp [Pipeline.step, messages]
    | hs l a ih =>
      intro h
      obtain ⟨h3, h4⟩ := ih (fun op hop => h op (by simp [hop]))
      rw [← List.append_assoc, pipeline_snoc, messages_snoc]
      cases a with
      | addFilter g => exact ⟨by simp only [Pipeline.step, h3, List.append_nil], by simp [Pipeline.step]⟩
      | add m =>
        simp only [Pipeline.step, if_neg h4, pipe_transparent hB]
        exact ⟨by rw [h3], h4⟩
      | emit g m => exact absurd rfl (h _ (by simp) g m)
  exact (hp after ha).1

/-- C12: an empty chain outputs nothing. -/
theorem C12_empty (B : Behaviour S M) (sts : Nat → S) (ops : List (Op M)) (depth : Nat) (h : added ops = []) :
    ∃ c, run B depth sts ops = .ok c ∧ c.out = [] := by
  obtain ⟨c, h1, h2⟩ := run_refines B depth sts ops (by rw [h]; exact List.nodup_nil) (by rw [h]; simp)
  refine ⟨c, h1, ?_⟩
  rw [h2.out]
  clear h1 h2
  induction ops using snoc_induction with
  | h0 => rfl
  | hs ops op ih =>
    rw [added_snoc] at h
    have hops : added ops = [] := List.append_eq_nil_iff.1 h |>.1
    have hf : (pipeline B sts ops).filters = [] := by rw [pipeline_filters]; exact hops
    rw [pipeline_snoc]
    cases op with
    | addFilter f => simp at h
    | add m => simp only [Pipeline.step, if_pos hf]; exact ih hops
    | emit f m => simp only [Pipeline.step, hf]; exact ih hops

/-- C12: `addFilter` returns the index under which `getFilter` returns this filter at any later time, for every history, also
if filters are added more than once. -/
theorem C12_index {B : Behaviour S M} {sts : Nat → S} {ops rest : List (Op M)} {f depth : Nat} {c c' : Chain S M}
    (h : run B depth sts ops = .ok c) (h' : run B depth sts (ops ++ [.addFilter f] ++ rest) = .ok c') :
    getFilter c' (addFilter c f).2 = some f := by
  have h1 := filters_run B depth sts _ _ h
  have h2 := filters_run B depth sts _ _ h'
  have hadd : added (ops ++ [.addFilter f] ++ rest) = added ops ++ [f] ++ added rest := by
    unfold added
    rw [List.filterMap_append, List.filterMap_append]
    rfl
  show getFilter c' c.filters.length = some f
  unfold getFilter
  rw [h2, hadd, h1]
  simp

/-- C12: `getFilter` of an index that was not returned by `addFilter` is null. -/
theorem C12_out_of_range {B : Behaviour S M} {sts : Nat → S} {ops : List (Op M)} {depth : Nat} {c : Chain S M}
    (h : run B depth sts ops = .ok c) (i : Nat) : getFilter c i = none ↔ (added ops).length ≤ i := by
  have h1 := filters_run B depth sts _ _ h
  unfold getFilter
  rw [h1]
  by_cases hi : i ≥ (added ops).length
  · simp [hi]
  · simp [hi]

/-- The filters must be distinct objects: adding the same filter twice makes it its own input, and a message it outputs never
gets through. -/
theorem C12_same_filter_twice {B : Behaviour S M} (sts : Nat → S) (hB : ∀ s m, (B 0 s m).2 ≠ []) (m : M) (depth : Nat) :
    run B depth sts [.addFilter 0, .addFilter 0, .add m] = .error .hang := by
  have key : ∀ (d : Nat) (c : Chain S M) (m : M), (c.filterCbs 0).flatMap c.passCbs = [.filter 0, .chain] →
      addTo B d c 0 m = .error .hang := by
    intro d
    induction d with
    | zero => intro c m _; rfl
    | succ d ih =>
      intro c m hc
      simp only [addTo]
      cases ho : (B 0 (c.sts 0) m).2 with
      | nil => exact absurd ho (hB _ _)
      | cons o os =>
        simp only [runE, emitWith, hc]
        have := ih { c with sts := fun g => if g = 0 then (B 0 (c.sts 0) m).1 else c.sts g } o hc
        rw [this]
  simp only [run, runE, step, add]
  have h := key depth (addFilter (addFilter (init sts) 0).1 0).1 m rfl
  have hf : (addFilter (addFilter (init sts : Chain S M) 0).1 0).1.filters = [0, 0] := rfl
  rw [hf]
  simp only [h]

/-! Non-vacuity: a filter that drops odd numbers, one that doubles every message, one that numbers them. -/

def demo : Behaviour Nat Nat
  | 0, s, m => (s, if m % 2 = 0 then [m] else [])
  | 1, s, m => (s, [m, m])
  | _, s, m => (s + 1, [m + 100 * s])

def demoOut (ops : List (Op Nat)) : Option (List Nat) :=
  match run demo 3 (fun _ => 0) ops with
  | .ok c => some c.out
  | .error _ => none

example : (added ([.add 2, .addFilter 0, .add 4, .addFilter 1, .addFilter 2, .add 6, .add 7, .emit 1 8] : List (Op Nat))).Nodup := by decide

example : demoOut [.add 2, .addFilter 0, .add 4, .addFilter 1, .addFilter 2, .add 6, .add 7, .emit 1 8] = some [4, 6, 106, 208] := rfl

example : (pipe demo [0, 1, 2] (fun _ => 0) [6, 7, 8]).2 = [6, 106, 208, 308] := rfl

example : Transparent (fun _ (s : Nat) (m : Nat) => (s, [m])) := fun _ _ _ => rfl

end MF.Chain
