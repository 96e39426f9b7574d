import Verif.Proofs.Warnings
/-
Helper lemmas about what a process with several synchronizers prints.
-/
namespace MF.Approx

variable {n m : Nat}

theorem opsOf_snoc_same (ops : List (Fin m × Fin n × Ev)) (k : Fin m) (i : Fin n) (e : Ev) :
    opsOf k (ops ++ [(k, i, e)]) = opsOf k ops ++ [(i, e)] := by
  simp [opsOf, List.filterMap_append]

theorem opsOf_snoc_ne (ops : List (Fin m × Fin n × Ev)) {k k' : Fin m} (h : k' ≠ k) (i : Fin n) (e : Ev) :
    opsOf k (ops ++ [(k', i, e)]) = opsOf k ops := by
  simp [opsOf, List.filterMap_append, h]

theorem follows_append {l : List Ev} {a b : Ev} (h : Follows l a b) (r : List Ev) : Follows (l ++ r) a b := by
  obtain ⟨pre, post, rfl⟩ := h
  exact ⟨pre, post ++ r, by simp⟩

theorem Warning.True.mono {lower : Fin n → Int} {l l' : Fin n → List Ev} (h : ∀ i, ∃ r, l' i = l i ++ r) {w : Warning n}
    (hw : w.True lower l) : w.True lower l' := by
  cases w with
  | outOfOrder i =>
    obtain ⟨a, b, h1, h2⟩ := hw
    obtain ⟨r, hr⟩ := h i
    exact ⟨a, b, by rw [hr]; exact follows_append h1 r, h2⟩
  | tooClose i g bd =>
    obtain ⟨h0, a, b, h1, h2⟩ := hw
    obtain ⟨r, hr⟩ := h i
    exact ⟨h0, a, b, by rw [hr]; exact follows_append h1 r, h2⟩

/-- What holds of a process at any time. -/
structure PInv [NeZero n] (fuel : Nat) (cfg : Fin m → Cfg n) (ops : List (Fin m × Fin n × Ev)) (p : Proc n m) : Prop where
  runs : ∀ k, run fuel (cfg k) (opsOf k ops) = .ok (p.syncs k)
  order : ∀ i, p.orderOnce i = true ↔ ∃ k w, (k, w) ∈ p.lines ∧ w.text = (i, true)
  close : ∀ i, p.closeOnce i = true ↔ ∃ k w, (k, w) ∈ p.lines ∧ w.text = (i, false)
  once : (p.lines.map (fun l => l.2.text)).Nodup
  sound : ∀ k w, (k, w) ∈ p.lines → w.True (cfg k).lower (stream (opsOf k ops))
  warned : ∀ k w, (k, w) ∈ p.lines → (p.syncs k).warned w.input = true
  one : ∀ k w w', (k, w) ∈ p.lines → (k, w') ∈ p.lines → w.input = w'.input → w = w'
  said : ∀ k i, (p.syncs k).warned i = true → ∃ k' w, (k', w) ∈ p.lines ∧ w.input = i

theorem due_true {lower : Int} {i : Fin n} {last : Option Ev} {e : Ev} {w : Warning n} (h : due lower i last e = some w) :
    w.input = i ∧ ∃ x, last = some x ∧
      ((w = .outOfOrder i ∧ e.stamp < x.stamp) ∨
       (w = .tooClose i (e.stamp - x.stamp) lower ∧ 0 ≤ e.stamp - x.stamp ∧ e.stamp - x.stamp < lower)) := by
  cases last with
  | none => cases h
  | some x =>
    simp only [due] at h
    by_cases h1 : e.stamp < x.stamp
    · rw [if_pos h1] at h; cases h; exact ⟨rfl, x, rfl, Or.inl ⟨rfl, h1⟩⟩
    · rw [if_neg h1] at h
      by_cases h2 : e.stamp - x.stamp < lower
      · rw [if_pos h2] at h; cases h; exact ⟨rfl, x, rfl, Or.inr ⟨rfl, by omega, h2⟩⟩
      · rw [if_neg h2] at h; cases h

/-- The lines after a call. -/
inductive Said (p : Proc n m) (k : Fin m) (ow : Option (Warning n)) (p1 : Proc n m) : Prop where
  | nothing (h : ow = none) (hp : p1 = p)
  | again (w : Warning n) (h : ow = some w) (hp : p1 = p) (hb : ∃ k' w', (k', w') ∈ p.lines ∧ w'.text = w.text)
  | new (w : Warning n) (h : ow = some w) (hs : p1.syncs = p.syncs) (hl : p1.lines = p.lines ++ [(k, w)])
      (hb : ∀ k' w', (k', w') ∈ p.lines → w'.text ≠ w.text)
      (ho : ∀ i, p1.orderOnce i = true ↔ p.orderOnce i = true ∨ w.text = (i, true))
      (hc : ∀ i, p1.closeOnce i = true ↔ p.closeOnce i = true ∨ w.text = (i, false))

theorem said_of (p : Proc n m) (k : Fin m) (ow : Option (Warning n))
    (ho : ∀ i, p.orderOnce i = true ↔ ∃ k w, (k, w) ∈ p.lines ∧ w.text = (i, true))
    (hc : ∀ i, p.closeOnce i = true ↔ ∃ k w, (k, w) ∈ p.lines ∧ w.text = (i, false)) :
    Said p k ow (match ow with | none => p | some w => warnOnce p k w) := by
  cases ow with
  | none => exact .nothing rfl rfl
  | some w =>
    cases w with
    | outOfOrder i =>
      dsimp only [warnOnce]
      by_cases h : p.orderOnce i = true
      · rw [if_pos h]; exact .again _ rfl rfl ((ho i).1 h)
      · rw [if_neg h]
        refine .new _ rfl rfl rfl ?_ ?_ ?_
        · intro k' w' h1 h2; exact h ((ho i).2 ⟨k', w', h1, h2⟩)
        · intro j
          by_cases hj : j = i
          · subst hj; simp [Warning.text]
          · simp [upd_ne _ _ hj, Warning.text, Ne.symm hj]
        · intro j; simp [Warning.text]
    | tooClose i g bd =>
      dsimp only [warnOnce]
      by_cases h : p.closeOnce i = true
      · rw [if_pos h]; exact .again _ rfl rfl ((hc i).1 h)
      · rw [if_neg h]
        refine .new _ rfl rfl rfl ?_ ?_ ?_
        · intro k' w' h1 h2; exact h ((hc i).2 ⟨k', w', h1, h2⟩)
        · intro j; simp [Warning.text]
        · intro j
          by_cases hj : j = i
          · subst hj; simp [Warning.text]
          · simp [upd_ne _ _ hj, Warning.text, Ne.symm hj]

theorem text_input {w w' : Warning n} (h : w.text = w'.text) : w.input = w'.input := by
  cases w <;> cases w' <;> simp [Warning.text] at h <;> exact h

theorem wrun_snoc [NeZero n] {fuel : Nat} {cfg : Cfg n} {ops : List (Fin n × Ev)} {i : Fin n} {e : Ev} {s s' : State n}
    (h : run fuel cfg ops = .ok s) (hadd : add fuel s i e = .ok s') : run fuel cfg (ops ++ [(i, e)]) = .ok s' := by
  obtain ⟨hq, h1⟩ := runOps_ok h
  unfold run runOps
  rw [construct_eq cfg hq, List.map_append]
  dsimp only
  rw [runE_append, h1]
  show runE (step fuel) s [Op.add i e] = _
  simp only [runE, step]
  rw [hadd]

theorem procAdd_spec [NeZero n] {fuel : Nat} {cfg : Fin m → Cfg n} {ops : List (Fin m × Fin n × Ev)} {p p' : Proc n m} {k : Fin m}
    {i : Fin n} {e : Ev} (h : PInv fuel cfg ops p) (hs : procAdd fuel p (k, i, e) = .ok p') :
    ∃ s' p1, add fuel (p.syncs k) i e = .ok s' ∧ Said p k (addWarning (p.syncs k) i e) p1 ∧
      p' = { p1 with syncs := upd p1.syncs k s' } := by
  unfold procAdd at hs
  dsimp only at hs
  cases hadd : add fuel (p.syncs k) i e with
  | error f => rw [hadd] at hs; cases hs
  | ok s' =>
    rw [hadd] at hs
    cases hs
    exact ⟨s', _, rfl, said_of p k _ h.order h.close, rfl⟩

theorem PInv.step [NeZero n] {fuel : Nat} {cfg : Fin m → Cfg n} {ops : List (Fin m × Fin n × Ev)} {p p' : Proc n m} {k : Fin m}
    {i : Fin n} {e : Ev} (h : PInv fuel cfg ops p) (hs : procAdd fuel p (k, i, e) = .ok p') :
    PInv fuel cfg (ops ++ [(k, i, e)]) p' := by
  obtain ⟨s', p1, hadd, hsaid, rfl⟩ := procAdd_spec h hs
  obtain ⟨hi, hcfg, hh⟩ := run_facts (h.runs k)
  have hwarn := add_warned hi hadd
  have hruns : ∀ k', run fuel (cfg k') (opsOf k' (ops ++ [(k, i, e)])) = .ok (upd p.syncs k s' k') := by
    intro k'
    by_cases hk : k' = k
    · subst hk; rw [upd_same, opsOf_snoc_same]; exact wrun_snoc (h.runs k') hadd
    · rw [upd_ne _ _ hk, opsOf_snoc_ne _ (Ne.symm hk)]; exact h.runs k'
  have hext : ∀ k' j, ∃ r, stream (opsOf k' (ops ++ [(k, i, e)])) j = stream (opsOf k' ops) j ++ r := by
    intro k' j
    by_cases hk : k = k'
    · subst hk
      rw [opsOf_snoc_same, stream_append]
      exact ⟨_, rfl⟩
    · rw [opsOf_snoc_ne _ hk]; exact ⟨[], by simp⟩
  have hsound : ∀ k' w, (k', w) ∈ p.lines → w.True (cfg k').lower (stream (opsOf k' (ops ++ [(k, i, e)]))) :=
    fun k' w hw => (h.sound k' w hw).mono (hext k')
  have hmono : ∀ k' j, (p.syncs k').warned j = true → (upd p.syncs k s' k').warned j = true := by
    intro k' j hw
    by_cases hk : k' = k
    · subst hk
      rw [upd_same, hwarn]
      by_cases h1 : (addWarning (p.syncs k') i e).isSome = true
      · rw [if_pos h1]
        by_cases hj : j = i
        · subst hj; rw [upd_same]
        · rw [upd_ne _ _ hj]; exact hw
      · rw [if_neg h1]; exact hw
    · rw [upd_ne _ _ hk]; exact hw
  have hback : ∀ k' j, (upd p.syncs k s' k').warned j = true →
      (p.syncs k').warned j = true ∨ (k' = k ∧ j = i ∧ (addWarning (p.syncs k) i e).isSome = true) := by
    intro k' j hw
    by_cases hk : k' = k
    · subst hk
      rw [upd_same, hwarn] at hw
      by_cases h1 : (addWarning (p.syncs k') i e).isSome = true
      · rw [if_pos h1] at hw
        by_cases hj : j = i
        · exact Or.inr ⟨rfl, hj, h1⟩
        · rw [upd_ne _ _ hj] at hw; exact Or.inl hw
      · rw [if_neg h1] at hw; exact Or.inl hw
    · rw [upd_ne _ _ hk] at hw; exact Or.inl hw
  have hdue : ∀ w, addWarning (p.syncs k) i e = some w → (p.syncs k).warned i = false ∧ w.input = i ∧
      w.True (cfg k).lower (stream (opsOf k (ops ++ [(k, i, e)]))) := by
    intro w hw
    rw [addWarning_eq] at hw
    by_cases h1 : (p.syncs k).warned i = true
    · rw [if_pos h1] at hw; cases hw
    · rw [if_neg h1] at hw
      obtain ⟨h2, x, h3, h4⟩ := due_true hw
      have hd : (p.syncs k).deques i ≠ [] := by intro h0; rw [h0] at h3; cases h3
      rw [deque_last hh hd] at h3
      have hf : Follows (stream (opsOf k (ops ++ [(k, i, e)])) i) x e := by
        rw [opsOf_snoc_same, stream_snoc_same]; exact follows_snoc.2 (Or.inr ⟨h3, rfl⟩)
      refine ⟨by cases hb : (p.syncs k).warned i with
        | true => exact absurd hb h1
        | false => rfl, h2, ?_⟩
      rcases h4 with ⟨rfl, h5⟩ | ⟨rfl, h5, h6⟩
      · exact ⟨x, e, hf, h5⟩
      · rw [hcfg] at h6 ⊢
        exact ⟨rfl, x, e, hf, rfl, h5, h6⟩
  cases hsaid with
  | nothing hn hp =>
    subst hp
    refine ⟨hruns, h.order, h.close, h.once, hsound, fun k' w hw => hmono k' _ (h.warned k' w hw), h.one, ?_⟩
    intro k' j hw
    rcases hback k' j hw with h1 | ⟨_, _, h1⟩
    · exact h.said k' j h1
    · rw [hn] at h1; cases h1
  | again w hw hp hb =>
    subst hp
    refine ⟨hruns, h.order, h.close, h.once, hsound, fun k' w hw => hmono k' _ (h.warned k' w hw), h.one, ?_⟩
    intro k' j hwj
    rcases hback k' j hwj with h1 | ⟨_, rfl, _⟩
    · exact h.said k' j h1
    · obtain ⟨k'', w', h2, h3⟩ := hb
      exact ⟨k'', w', h2, by rw [text_input h3]; exact (hdue w hw).2.1⟩
  | new w hw hsy hl hb ho hc =>
    obtain ⟨hnw, hin, htrue⟩ := hdue w hw
    have hwk : (upd p.syncs k s' k).warned i = true := by
      rw [upd_same, hwarn, if_pos (by rw [hw]; rfl), upd_same]
    have hmem : ∀ k' w', (k', w') ∈ p1.lines ↔ (k', w') ∈ p.lines ∨ (k' = k ∧ w' = w) := by
      intro k' w'; rw [hl]; simp
    refine ⟨?_, ?_, ?_, ?_, ?_, ?_, ?_, ?_⟩
    · intro k'; show _ = Except.ok (upd p1.syncs k s' k'); rw [hsy]; exact hruns k'
    · intro j
      show p1.orderOnce j = true ↔ _
      rw [ho, h.order]
      constructor
      · rintro (⟨k', w', h1, h2⟩ | h1)
        · exact ⟨k', w', (hmem k' w').2 (Or.inl h1), h2⟩
        · exact ⟨k, w, (hmem k w).2 (Or.inr ⟨rfl, rfl⟩), h1⟩
      · rintro ⟨k', w', h1, h2⟩
        rcases (hmem k' w').1 h1 with h3 | ⟨rfl, rfl⟩
        · exact Or.inl ⟨k', w', h3, h2⟩
        · exact Or.inr h2
    · intro j
      show p1.closeOnce j = true ↔ _
      rw [hc, h.close]
      constructor
      · rintro (⟨k', w', h1, h2⟩ | h1)
        · exact ⟨k', w', (hmem k' w').2 (Or.inl h1), h2⟩
        · exact ⟨k, w, (hmem k w).2 (Or.inr ⟨rfl, rfl⟩), h1⟩
      · rintro ⟨k', w', h1, h2⟩
        rcases (hmem k' w').1 h1 with h3 | ⟨rfl, rfl⟩
        · exact Or.inl ⟨k', w', h3, h2⟩
        · exact Or.inr h2
    · show (p1.lines.map (fun l => l.2.text)).Nodup
      rw [hl, List.map_append, List.nodup_append]
      refine ⟨h.once, by simp, ?_⟩
      intro a ha b hb'
      rw [List.mem_map] at ha
      obtain ⟨⟨k', w'⟩, h1, rfl⟩ := ha
      simp only [List.map_cons, List.map_nil, List.mem_singleton] at hb'
      rw [hb']
      exact hb k' w' h1
    · intro k' w' hw'
      rcases (hmem k' w').1 hw' with h1 | ⟨rfl, rfl⟩
      · exact hsound k' w' h1
      · exact htrue
    · intro k' w' hw'
      show (upd p1.syncs k s' k').warned _ = true
      rw [hsy]
      rcases (hmem k' w').1 hw' with h1 | ⟨rfl, rfl⟩
      · exact hmono k' _ (h.warned k' w' h1)
      · rw [hin]; exact hwk
    · intro k' w1 w2 h1 h2 h3
      rcases (hmem k' w1).1 h1 with h4 | ⟨rfl, rfl⟩
      · rcases (hmem k' w2).1 h2 with h5 | ⟨rfl, rfl⟩
        · exact h.one k' w1 w2 h4 h5 h3
        · have h6 := h.warned k' w1 h4
          rw [h3, hin, hnw] at h6; cases h6
      · rcases (hmem k' w2).1 h2 with h5 | ⟨_, rfl⟩
        · have h6 := h.warned k' w2 h5
          rw [← h3, hin, hnw] at h6; cases h6
        · rfl
    · intro k' j hwj
      change (upd p1.syncs k s' k').warned j = true at hwj
      rw [hsy] at hwj
      rcases hback k' j hwj with h1 | ⟨_, rfl, _⟩
      · obtain ⟨k'', w', h2, h3⟩ := h.said k' j h1
        exact ⟨k'', w', (hmem k'' w').2 (Or.inl h2), h3⟩
      · exact ⟨k, w, (hmem k w).2 (Or.inr ⟨rfl, rfl⟩), hin⟩

theorem procRun_inv [NeZero n] {fuel : Nat} {cfg : Fin m → Cfg n} {s0 : Fin m → State n} (h0 : ∀ k, construct n (cfg k) = .ok (s0 k)) :
    ∀ (ops : List (Fin m × Fin n × Ev)) (p : Proc n m), procRun fuel (procInit s0) ops = .ok p → PInv fuel cfg ops p := by
  apply runE_induction
  · refine ⟨?_, ?_, ?_, by simp [procInit], ?_, ?_, ?_, ?_⟩
    · intro k
      unfold run runOps
      rw [h0 k]
      rfl
    · intro i; simp [procInit]
    · intro i; simp [procInit]
    · intro k w h; simp [procInit] at h
    · intro k w h; simp [procInit] at h
    · intro k w w' h; simp [procInit] at h
    · intro k i h
      exfalso
      have h1 := h0 k
      unfold construct at h1
      by_cases hq : (cfg k).queueSize > 0
      · rw [if_pos hq] at h1
        have h2 : (s0 k).warned i = true := h
        rw [← Except.ok.inj h1] at h2
        cases h2
      · rw [if_neg hq] at h1; cases h1
  · intro ops p op p' _ ih hs
    exact PInv.step ih hs

end MF.Approx
