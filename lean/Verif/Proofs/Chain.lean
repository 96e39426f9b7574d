import Verif.Proofs.Basic
import Verif.Spec.Chain
/-
Lemmas about the model of Chain.
-/
namespace MF.Chain

variable {S M : Type}

/-! ### The pipeline -/

theorem feed_append (b : S → M → S × List M) : ∀ (ms ns : List M) (s : S),
    feed b s (ms ++ ns) = ((feed b (feed b s ms).1 ns).1, (feed b s ms).2 ++ (feed b (feed b s ms).1 ns).2) := by
  intro ms
  induction ms with
  | nil => intro ns s; simp [feed]
  | cons m ms ih => intro ns s; simp [feed, ih, List.append_assoc]

theorem pipe_frame (B : Behaviour S M) : ∀ (fs : List Nat) (sts : Nat → S) (ms : List M) (f : Nat) (s : S), f ∉ fs →
    pipe B fs (fun g => if g = f then s else sts g) ms =
      (fun g => if g = f then s else (pipe B fs sts ms).1 g, (pipe B fs sts ms).2) := by
  intro fs
  induction fs with
  | nil => intro sts ms f s _; rfl
  | cons a fs ih =>
    intro sts ms f s hf
    simp only [List.mem_cons, not_or] at hf
    have hne : ¬ a = f := fun h => hf.1 h.symm
    simp only [pipe, if_neg hne]
    rw [← ih _ _ f s hf.2]
    congr 1
    funext g
    by_cases h1 : g = a
    · subst h1; simp [hne]
    · simp [h1]

theorem pipe_frame_state (B : Behaviour S M) : ∀ (fs : List Nat) (sts : Nat → S) (ms : List M) (f : Nat), f ∉ fs →
    (pipe B fs sts ms).1 f = sts f := by
  intro fs
  induction fs with
  | nil => intro sts ms f _; rfl
  | cons a fs ih =>
    intro sts ms f hf
    simp only [List.mem_cons, not_or] at hf
    simp only [pipe]
    rw [ih _ _ f hf.2, if_neg hf.1]

theorem pipe_append (B : Behaviour S M) : ∀ (fs : List Nat) (sts : Nat → S) (ms ns : List M), fs.Nodup →
    pipe B fs sts (ms ++ ns) = ((pipe B fs (pipe B fs sts ms).1 ns).1, (pipe B fs sts ms).2 ++ (pipe B fs (pipe B fs sts ms).1 ns).2) := by
  intro fs
  induction fs with
  | nil => intro sts ms ns _; rfl
  | cons f fs ih =>
    intro sts ms ns hn
    rw [List.nodup_cons] at hn
    obtain ⟨hf, hn⟩ := hn
    simp only [pipe]
    rw [feed_append]
    simp only
    rw [ih _ _ _ hn]
    simp only [pipe_frame B fs _ _ f _ hf, if_true]
    have key : ∀ (t : Nat → S) (s s' : S), (fun g => if g = f then s' else (if g = f then s else t g)) = fun g => if g = f then s' else t g := by
      intro t s s'; funext g; by_cases h : g = f <;> simp [h]
    simp only [key, pipe_frame B fs _ _ f _ hf]

theorem pipe_nil (B : Behaviour S M) : ∀ (fs : List Nat) (sts : Nat → S), pipe B fs sts [] = (sts, []) := by
  intro fs
  induction fs with
  | nil => intro sts; rfl
  | cons f fs ih =>
    intro sts
    simp only [pipe, feed]
    rw [ih]
    congr 1
    funext g
    by_cases h : g = f <;> simp [h]

/-! ### Wiring -/

structure Wired (c : Chain S M) : Prop where
  nodup : c.filters.Nodup
  filterCbs : ∀ i (h : i < c.filters.length), c.filterCbs c.filters[i] = [i]
  others : ∀ g, g ∉ c.filters → c.filterCbs g = []
  inner : ∀ i (h : i + 1 < c.filters.length), c.passCbs i = [.filter c.filters[i + 1]]
  last : ∀ i, i + 1 = c.filters.length → c.passCbs i = [.chain]
  beyond : ∀ i, c.filters.length ≤ i → c.passCbs i = []

theorem wired_init (sts : Nat → S) : Wired (init sts : Chain S M) := by
  constructor
  · simp [init]
  · intro i h; exact absurd h (Nat.not_lt_zero i)
  · intro g _; rfl
  · intro i h; exact absurd h (Nat.not_lt_zero (i + 1))
  · intro i h; exact absurd h (Nat.succ_ne_zero i)
  · intro i _; rfl

theorem wired_addFilter {c : Chain S M} (h : Wired c) {f : Nat} (hf : f ∉ c.filters) : Wired (addFilter c f).1 := by
  have hfil : (addFilter c f).1.filters = c.filters ++ [f] := rfl
  have hlen : (addFilter c f).1.filters.length = c.filters.length + 1 := by rw [hfil]; simp
  have hfc : ∀ g, (addFilter c f).1.filterCbs g = if g = f then [c.filters.length] else c.filterCbs g := by
    intro g
    have h0 := h.others f hf
    unfold addFilter
    by_cases he : c.filters.isEmpty
    · simp only [he, if_true, registerLast, connectPass, disconnectLast]
      by_cases hg : g = f
      · subst hg; simp [h0]
      · simp [hg]
    · simp only [he, registerLast, connectPass, disconnectLast, connectFilter]
      by_cases hg : g = f
      · subst hg; simp [h0]
      · simp [hg]
  have hnot : ∀ j, (Target.filter f) ∉ c.passCbs j := by
    intro j hm
    by_cases h1 : j + 1 < c.filters.length
    · rw [h.inner j h1] at hm
      simp at hm
      exact hf (by rw [hm]; exact List.getElem_mem _)
    · by_cases h2 : j + 1 = c.filters.length
      · rw [h.last j h2] at hm; simp at hm
      · rw [h.beyond j (by omega)] at hm; cases hm
  have hpc : ∀ j, (addFilter c f).1.passCbs j =
      if j + 1 = c.filters.length then [.filter f] else if j = c.filters.length then [.chain] else c.passCbs j := by
    intro j
    unfold addFilter
    by_cases he : c.filters.isEmpty
    · simp only [he, if_true, registerLast, connectPass, disconnectLast]
      have hl : c.filters.length = 0 := by simpa using he
      have hb := h.beyond j (by omega)
      rw [hl, hb]
      by_cases hj : j = 0
      · subst hj; simp
      · simp [hj]
    · have hl : 0 < c.filters.length := by
        cases hc : c.filters with
        | nil => rw [hc] at he; simp at he
        | cons a l => simp
      simp only [he, Bool.false_eq_true, if_false, registerLast, connectPass, disconnectLast, connectFilter]
      have hflt : (c.passCbs j).filter (fun t => decide (t ≠ .filter f)) = c.passCbs j := by
        rw [List.filter_eq_self]
        intro t ht
        have : t ≠ .filter f := by rintro rfl; exact hnot j ht
        simpa using this
      by_cases h1 : j + 1 = c.filters.length
      · have h3 : j = c.filters.length - 1 := by omega
        have h4 : ¬ j = c.filters.length := by omega
        rw [if_pos h1, if_neg h4, h.last j h1]
        simp [h1, ← h3]
      · have h3 : ¬ j = c.filters.length - 1 := by omega
        by_cases h4 : j = c.filters.length
        · have := h.beyond j (by omega)
          rw [if_neg h1, if_pos h4]
          simp [h1, h3, h4, this]
          have h5 := h.beyond c.filters.length (Nat.le_refl _)
          rw [h5]
          simp
          intro h6; omega
        · rw [if_neg h1, if_neg h4]
          simp [h1, h3, h4]
          simpa using hflt
  constructor
  · rw [hfil, List.nodup_append]
    refine ⟨h.nodup, by simp, ?_⟩
    intro a ha b hb
    simp at hb
    subst hb
    rintro rfl
    exact hf ha
  · intro i hi
    rw [hfc]
    simp only [hfil]
    rw [hlen] at hi
    by_cases h1 : i = c.filters.length
    · subst h1; simp
    · have h2 : i < c.filters.length := by omega
      rw [List.getElem_append_left h2]
      rw [if_neg (by intro h3; exact hf (by rw [← h3]; exact List.getElem_mem _))]
      exact h.filterCbs i h2
  · intro g hg
    rw [hfil] at hg
    simp only [List.mem_append, List.mem_singleton, not_or] at hg
    rw [hfc, if_neg hg.2]
    exact h.others g hg.1
  · intro i hi
    rw [hlen] at hi
    rw [hpc]
    simp only [hfil]
    by_cases h1 : i + 1 = c.filters.length
    · rw [if_pos h1]; simp [h1]
    · rw [if_neg h1, if_neg (by omega), h.inner i (by omega), List.getElem_append_left (by omega)]
  · intro i hi
    rw [hlen] at hi
    have h1 : i = c.filters.length := by omega
    rw [hpc, if_neg (by omega), if_pos h1]
  · intro i hi
    rw [hlen] at hi
    rw [hpc, if_neg (by omega), if_neg (by omega), h.beyond i (by omega)]

/-! ### Delivery -/

/-- The chain with its dynamic part advanced along a pipeline. -/
def advance (B : Behaviour S M) (fs : List Nat) (c : Chain S M) (ms : List M) : Chain S M :=
  { c with sts := (pipe B fs c.sts ms).1, out := c.out ++ (pipe B fs c.sts ms).2 }

theorem wired_advance {B : Behaviour S M} {fs : List Nat} {c : Chain S M} {ms : List M} (h : Wired c) : Wired (advance B fs c ms) :=
  ⟨h.nodup, h.filterCbs, h.others, h.inner, h.last, h.beyond⟩

theorem advance_advance (B : Behaviour S M) {fs : List Nat} (hn : fs.Nodup) (c : Chain S M) (ms ns : List M) :
    advance B fs (advance B fs c ms) ns = advance B fs c (ms ++ ns) := by
  unfold advance
  simp only [pipe_append B fs _ _ _ hn, List.append_assoc]

theorem drop_nodup {l : List Nat} (h : l.Nodup) (k : Nat) : (l.drop k).Nodup := (List.drop_sublist k l).nodup h

theorem emit_loop {L : Nat} {P : Chain S M → Prop} (B : Behaviour S M) (e : Chain S M → M → Except Fault (Chain S M)) (fs : List Nat) (hn : fs.Nodup)
    (he : ∀ c : Chain S M, Wired c → c.filters.length = L → ∀ o, P c → e c o = .ok (advance B fs c [o]))
    (hP : ∀ c : Chain S M, ∀ ms, P c → P (advance B fs c ms)) :
    ∀ (os : List M) (c : Chain S M), Wired c → c.filters.length = L → P c → runE e c os = .ok (advance B fs c os) := by
  intro os
  induction os with
  | nil =>
    intro c _ _ _
    simp only [runE, advance, pipe_nil, List.append_nil]
  | cons o os ih =>
    intro c hw hl hp
    simp only [runE]
    rw [he c hw hl o hp]
    simp only
    rw [ih _ (wired_advance hw) hl (hP c [o] hp), advance_advance B hn]
    rfl

theorem emit_and_add (B : Behaviour S M) : ∀ (d : Nat) (c : Chain S M), Wired c → ∀ k (hk : k < c.filters.length), ∀ (m : M),
    (c.filters.length - k ≤ d → addTo B d c c.filters[k] m = .ok (advance B (c.filters.drop k) c [m])) ∧
    (c.filters.length - k ≤ d + 1 → emitWith (addTo B d) c c.filters[k] m = .ok (advance B (c.filters.drop (k + 1)) c [m])) := by
  intro d
  -- the second part follows from the first at the same depth
  have emit_of_add : ∀ d : Nat, (∀ (c : Chain S M), Wired c → ∀ k (hk : k < c.filters.length), ∀ (m : M),
      c.filters.length - k ≤ d → addTo B d c c.filters[k] m = .ok (advance B (c.filters.drop k) c [m])) →
      ∀ (c : Chain S M), Wired c → ∀ k (hk : k < c.filters.length), ∀ (m : M), c.filters.length - k ≤ d + 1 →
      emitWith (addTo B d) c c.filters[k] m = .ok (advance B (c.filters.drop (k + 1)) c [m]) := by
    intro d hadd c hw k hk m hd
    unfold emitWith
    rw [hw.filterCbs k hk]
    simp only [List.flatMap_cons, List.flatMap_nil, List.append_nil]
    by_cases h1 : k + 1 < c.filters.length
    · rw [hw.inner k h1]
      simp only [runE]
      rw [hadd c hw (k + 1) h1 m (by omega)]
    · rw [hw.last k (by omega)]
      simp only [runE]
      rw [List.drop_eq_nil_of_le (by omega)]
      rfl
  have hadd : ∀ (d : Nat) (c : Chain S M), Wired c → ∀ k (hk : k < c.filters.length), ∀ (m : M),
      c.filters.length - k ≤ d → addTo B d c c.filters[k] m = .ok (advance B (c.filters.drop k) c [m]) := by
    intro d
    induction d with
    | zero => intro c hw k hk m hd; omega
    | succ d ih =>
      intro c hw k hk m hd
      have hemit := emit_of_add d ih
      simp only [addTo]
      generalize hc1 : ({ c with sts := fun g => if g = c.filters[k] then (B c.filters[k] (c.sts c.filters[k]) m).1 else c.sts g } : Chain S M) = c1
      have hw1 : Wired c1 := by
        subst hc1
        exact ⟨hw.nodup, hw.filterCbs, hw.others, hw.inner, hw.last, hw.beyond⟩
      have hf1 : c1.filters = c.filters := by subst hc1; rfl
      rw [emit_loop B (L := c.filters.length) (P := fun c' => c'.filters = c.filters)
        (fun c' o => emitWith (addTo B d) c' c.filters[k] o) (c.filters.drop (k + 1)) (drop_nodup hw.nodup _)
        (by
          intro c' hw' hl o hp
          have hk' : k < c'.filters.length := by rw [hp]; exact hk
          have := hemit c' hw' k hk' o (by rw [hp]; exact hd)
          simp only [hp] at this
          exact this)
        (fun c' ms hp => hp) _ c1 hw1 (by rw [hf1]) hf1]
      congr 1
      have hdrop : c.filters.drop k = c.filters[k] :: c.filters.drop (k + 1) := (List.drop_eq_getElem_cons hk)
      rw [hdrop]
      unfold advance
      subst hc1
      simp [pipe, feed]
  intro c hw k hk m
  exact ⟨hadd d c hw k hk m, emit_of_add d (hadd d) c hw k hk m⟩

theorem emit_other (B : Behaviour S M) (d : Nat) {c : Chain S M} (hw : Wired c) {f : Nat} (hf : f ∉ c.filters) (m : M) :
    emitWith (addTo B d) c f m = .ok c := by
  unfold emitWith
  rw [hw.others f hf]
  rfl

/-! ### Refinement -/

theorem added_snoc (ops : List (Op M)) (op : Op M) : added (ops ++ [op]) =
    added ops ++ match op with | .addFilter f => [f] | _ => [] := by
  unfold added
  rw [List.filterMap_append]
  cases op <;> simp

theorem messages_snoc (ops : List (Op M)) (op : Op M) : messages (ops ++ [op]) =
    messages ops ++ match op with | .add m => [m] | _ => [] := by
  unfold messages
  rw [List.filterMap_append]
  cases op <;> simp

theorem pipeline_snoc (B : Behaviour S M) (sts : Nat → S) (ops : List (Op M)) (op : Op M) :
    pipeline B sts (ops ++ [op]) = (pipeline B sts ops).step B op := by
  unfold pipeline; rw [List.foldl_append]; rfl

theorem pipeline_filters (B : Behaviour S M) (sts : Nat → S) : ∀ ops : List (Op M), (pipeline B sts ops).filters = added ops := by
  intro ops
  induction ops using snoc_induction with
  | h0 => rfl
  | hs ops op ih =>
    rw [pipeline_snoc, added_snoc]
    cases op with
    | addFilter f => simp [Pipeline.step, ih]
    | add m =>
      simp only [Pipeline.step]
      split <;> simp [ih]
    | emit f m =>
      simp only [Pipeline.step]
      split <;> simp [ih]

/-- The chain and the pipeline agree. -/
structure Agrees (c : Chain S M) (p : Pipeline S M) : Prop where
  wired : Wired c
  filters : c.filters = p.filters
  sts : c.sts = p.sts
  out : c.out = p.out

theorem step_refines (B : Behaviour S M) {d : Nat} {c : Chain S M} {p : Pipeline S M} (h : Agrees c p) (op : Op M)
    (hop : ∀ f, op = .addFilter f → f ∉ c.filters) (hd : c.filters.length ≤ d) :
    ∃ c', step B d c op = .ok c' ∧ Agrees c' (p.step B op) := by
  cases op with
  | addFilter f =>
    have hf := hop f rfl
    refine ⟨_, rfl, wired_addFilter h.wired hf, ?_, ?_, ?_⟩
    · show c.filters ++ [f] = p.filters ++ [f]; rw [h.filters]
    · show (addFilter c f).1.sts = p.sts
      rw [← h.sts]
      unfold addFilter disconnectLast connectPass registerLast connectFilter
      by_cases he : c.filters.isEmpty <;> simp [he]
    · show (addFilter c f).1.out = p.out
      rw [← h.out]
      unfold addFilter disconnectLast connectPass registerLast connectFilter
      by_cases he : c.filters.isEmpty <;> simp [he]
  | add m =>
    simp only [step, add, Pipeline.step]
    cases hc : c.filters with
    | nil =>
      rw [if_pos (by rw [← h.filters, hc])]
      exact ⟨c, rfl, h⟩
    | cons f fs =>
      rw [if_neg (by rw [← h.filters, hc]; simp)]
      have hk : 0 < c.filters.length := by rw [hc]; simp
      have h0 := (emit_and_add B d c h.wired 0 hk m).1 (by omega)
      have he : c.filters[0] = f := by simp [hc]
      rw [he] at h0
      refine ⟨_, h0, wired_advance h.wired, h.filters, ?_, ?_⟩
      · simp only [advance, List.drop_zero, h.filters, h.sts]
      · simp only [advance, List.drop_zero, h.filters, h.sts, h.out]
  | emit f m =>
    simp only [step, Pipeline.step]
    by_cases hf : f ∈ p.filters
    · rw [if_pos hf]
      have hf' : f ∈ c.filters := by rw [h.filters]; exact hf
      have hk : c.filters.idxOf f < c.filters.length := List.idxOf_lt_length_iff.2 hf'
      have h0 := (emit_and_add B d c h.wired (c.filters.idxOf f) hk m).2 (by omega)
      have he : c.filters[c.filters.idxOf f] = f := List.getElem_idxOf hk
      rw [he] at h0
      refine ⟨_, h0, wired_advance h.wired, h.filters, ?_, ?_⟩
      · simp only [advance, h.filters, h.sts]
      · simp only [advance, h.filters, h.sts, h.out]
    · rw [if_neg hf]
      exact ⟨c, emit_other B d h.wired (by rw [h.filters]; exact hf) m, h⟩

theorem run_refines (B : Behaviour S M) (d : Nat) (sts : Nat → S) : ∀ ops : List (Op M), (added ops).Nodup →
    (added ops).length ≤ d → ∃ c, run B d sts ops = .ok c ∧ Agrees c (pipeline B sts ops) := by
  intro ops
  induction ops using snoc_induction with
  | h0 => intro _ _; exact ⟨init sts, rfl, wired_init sts, rfl, rfl, rfl⟩
  | hs ops op ih =>
    intro hn hd
    rw [added_snoc] at hn hd
    rw [List.nodup_append] at hn
    rw [List.length_append] at hd
    obtain ⟨c, h1, h2⟩ := ih hn.1 (by omega)
    have hfil : c.filters = added ops := by rw [h2.filters, pipeline_filters]
    obtain ⟨c', h3, h4⟩ := step_refines B (d := d) h2 op (by
      rintro f rfl hm
      rw [hfil] at hm
      exact hn.2.2 f hm f (by simp) rfl) (by rw [hfil]; omega)
    refine ⟨c', ?_, ?_⟩
    · unfold run at h1 ⊢
      rw [runE_append, h1]
      simp only [runE, h3]
    · rw [pipeline_snoc]; exact h4

theorem filters_addTo (B : Behaviour S M) : ∀ (d : Nat) (c c' : Chain S M) (f : Nat) (m : M), addTo B d c f m = .ok c' →
    c'.filters = c.filters := by
  intro d
  induction d with
  | zero => intro c c' f m h; cases h
  | succ d ih =>
    intro c c' f m h
    simp only [addTo] at h
    refine runE_inv (I := fun x : Chain S M => x.filters = c.filters) ?_ _ _ _ (by rfl) h
    intro x o x' hx hs
    unfold emitWith at hs
    refine runE_inv (I := fun x : Chain S M => x.filters = c.filters) ?_ _ _ _ hx hs
    intro y t y' hy ht
    cases t with
    | chain => simp only [Except.ok.injEq] at ht; subst ht; exact hy
    | filter g => rw [ih _ _ _ _ ht]; exact hy

theorem filters_run (B : Behaviour S M) (d : Nat) (sts : Nat → S) (ops : List (Op M)) (c : Chain S M)
    (h : run B d sts ops = .ok c) : c.filters = added ops := by
  refine runE_induction (P := fun ops (c : Chain S M) => c.filters = added ops) rfl ?_ ops c h
  intro ops s op s' _ hs hst
  rw [added_snoc]
  cases op with
  | addFilter f =>
    simp only [step, Except.ok.injEq] at hst
    subst hst
    show s.filters ++ [f] = _
    rw [hs]
  | add m =>
    simp only [step, add] at hst
    cases hf : s.filters with
    | nil => rw [hf] at hst; simp only [Except.ok.injEq] at hst; subst hst; simp [hs]
    | cons a l => rw [hf] at hst; rw [filters_addTo B d _ _ _ _ hst]; simp [hs]
  | emit f m =>
    simp only [step] at hst
    unfold emitWith at hst
    simp only [List.append_nil]
    refine runE_inv (I := fun x : Chain S M => x.filters = added ops) ?_ _ _ _ hs hst
    intro y t y' hy ht
    cases t with
    | chain => simp only [Except.ok.injEq] at ht; subst ht; exact hy
    | filter g => rw [filters_addTo B d _ _ _ _ ht]; exact hy

/-! ### Transparent filters -/

theorem feed_transparent {B : Behaviour S M} (hB : Transparent B) (f : Nat) : ∀ (ms : List M) (s : S), (feed (B f) s ms).2 = ms := by
  intro ms
  induction ms with
  | nil => intro s; rfl
  | cons m ms ih => intro s; simp [feed, hB f s m, ih]

theorem pipe_transparent {B : Behaviour S M} (hB : Transparent B) : ∀ (fs : List Nat) (sts : Nat → S) (ms : List M),
    (pipe B fs sts ms).2 = ms := by
  intro fs
  induction fs with
  | nil => intro sts ms; rfl
  | cons f fs ih => intro sts ms; simp only [pipe]; rw [ih, feed_transparent hB]

end MF.Chain
