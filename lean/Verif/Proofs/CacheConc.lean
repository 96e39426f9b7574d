import Verif.Spec.CacheConc
import Verif.Proofs.Cache
import Verif.Proofs.Basic
/-
Lemmas for the concurrent Cache.
-/
namespace MF.Cache

theorem setAdder_same (f : Nat → Adder) (t : Nat) (a : Adder) : setAdder f t a t = a := by simp [setAdder]

theorem setAdder_ne (f : Nat → Adder) {t u : Nat} (h : u ≠ t) (a : Adder) : setAdder f t a u = f u := by simp [setAdder, h]

theorem byThread_snoc_same (t : Nat) (log : List (Nat × Ev)) (e : Ev) :
    byThread t (log ++ [(t, e)]) = byThread t log ++ [e] := by simp [byThread]

theorem byThread_snoc_ne {t u : Nat} (h : t ≠ u) (log : List (Nat × Ev)) (e : Ev) :
    byThread t (log ++ [(u, e)]) = byThread t log := by
  simp [byThread, Ne.symm h]

/-- A log is a permutation of the concatenation of its parts by thread. -/
theorem perm_byThread (W : Nat) (log : List (Nat × Ev)) (h : ∀ p ∈ log, p.1 < W) :
    (log.map (·.2)).Perm ((List.range W).flatMap (fun t => byThread t log)) := by
  rw [List.perm_iff_count]
  intro x
  have key : ∀ W' : Nat, ((List.range W').flatMap (fun t => byThread t log)).count x =
      ((log.filter (fun p => decide (p.1 < W'))).map (·.2)).count x := by
    intro W'
    induction W' with
    | zero =>
      have : log.filter (fun p => decide (p.1 < 0)) = [] := by simp
      rw [this]; rfl
    | succ W' ih =>
      rw [List.range_succ, List.flatMap_append, List.count_append, ih]
      simp only [List.flatMap_cons, List.flatMap_nil, List.append_nil]
      unfold byThread
      clear ih h
      induction log with
      | nil => rfl
      | cons p log ihl =>
        rw [List.filter_cons, List.filter_cons, List.filter_cons]
        by_cases h1 : p.1 < W'
        · have h2 : ¬ p.1 = W' := by omega
          have h3 : p.1 < W' + 1 := by omega
          rw [if_pos (by simpa using h1), if_neg (by simpa using h2), if_pos (by simpa using h3)]
          rw [List.map_cons, List.map_cons, List.count_cons, List.count_cons]
          omega
        · by_cases h2 : p.1 = W'
          · have h3 : p.1 < W' + 1 := by omega
            rw [if_neg (by simpa using h1), if_pos (by simpa using h2), if_pos (by simpa using h3)]
            rw [List.map_cons, List.map_cons, List.count_cons, List.count_cons]
            omega
          · have h3 : ¬ p.1 < W' + 1 := by omega
            rw [if_neg (by simpa using h1), if_neg (by simpa using h2), if_neg (by simpa using h3)]
            exact ihl
  rw [key W]
  congr 2
  symm
  rw [List.filter_eq_self]
  intro p hp
  simpa using h p hp

/-- What is true after every schedule. -/
structure CInv (n : Nat) (progs : Nat → List Ev) (c : Conc) : Prop where
  cache : ∃ s, run (construct n) (c.inserted.map (fun p => Op.add p.2)) = .ok s ∧ s.items = c.cache.items ∧ s.size = c.cache.size
  prog : ∀ t, byThread t c.inserted ++ (c.threads t).todo = progs t
  passed : ∀ t, byThread t c.passedOn ++ (c.threads t).pending.toList = byThread t c.inserted
  log : c.cache.out = c.passedOn.map (·.2)

theorem insertLocked_congr {a b : State} (h1 : a.items = b.items) (h2 : a.size = b.size) (e : Ev) {s : State}
    (h : insertLocked b e = .ok s) : ∃ s', add a e = .ok s' ∧ s'.items = s.items ∧ s'.size = s.size ∧ s.out = b.out := by
  unfold add
  unfold insertLocked at *
  rw [h2, h1]
  cases hs : b.size with
  | none => rw [hs] at h; cases h
  | some k =>
    rw [hs] at h
    simp only at h ⊢
    cases hp : popLoop k b.items with
    | error f => rw [hp] at h; cases h
    | ok kept =>
      rw [hp] at h
      simp only at h ⊢
      cases h
      exact ⟨_, rfl, rfl, by simp [forward, h2, hs], rfl⟩

theorem run_snoc {s s' : State} {ops : List Op} (h : run s ops = .ok s') (op : Op) : run s (ops ++ [op]) = step s' op := by
  rw [run_append, h]
  show run s' [op] = _
  unfold run
  cases step s' op <;> rfl

theorem cexec_snoc {n : Nat} {progs : Nat → List Ev} {schedule : List Nat} {c : Conc}
    (h : cexec n progs schedule = .ok c) (t : Nat) : cexec n progs (schedule ++ [t]) = cstep c t := by
  unfold cexec at *
  rw [runE_append, h]
  show runE cstep c [t] = _
  unfold runE
  cases cstep c t <;> rfl

theorem cinv_exec {n : Nat} {progs : Nat → List Ev} {schedule : List Nat} {c : Conc}
    (h : cexec n progs schedule = .ok c) : CInv n progs c := by
  refine runE_inv (I := CInv n progs) ?_ schedule (cstart n progs) c ?_ h
  rotate_left
  · refine ⟨⟨_, rfl, rfl, rfl⟩, fun t => rfl, fun t => rfl, ?_⟩
    show (construct n).out = []
    unfold construct setCacheSize; split <;> rfl
  · intro c t c' hi hc
    unfold cstep at hc
    split at hc
    · rename_i e he
      cases hc
      refine ⟨hi.cache, ?_, ?_, ?_⟩
      · intro u
        by_cases hu : u = t
        · subst hu; simp only [setAdder_same]; exact hi.prog u
        · simp only [setAdder_ne _ hu]; exact hi.prog u
      · intro u
        by_cases hu : u = t
        · subst hu
          have := hi.passed u
          rw [he] at this
          simp only [setAdder_same, byThread_snoc_same]
          simpa using this
        · simp only [setAdder_ne _ hu, byThread_snoc_ne hu]; exact hi.passed u
      · show c.cache.out ++ [e] = _
        rw [hi.log]; simp
    · rename_i he
      split at hc
      · cases hc; exact hi
      · rename_i e rest htodo
        split at hc
        · cases hc
        · rename_i s hs
          cases hc
          obtain ⟨s0, g1, g2, g3⟩ := hi.cache
          obtain ⟨s1, k1, k2, k3, k4⟩ := insertLocked_congr g2 g3 e hs
          refine ⟨⟨s1, ?_, k2, k3⟩, ?_, ?_, ?_⟩
          · show run (construct n) ((c.inserted ++ [(t, e)]).map _) = _
            rw [List.map_append]
            show run (construct n) (_ ++ [Op.add e]) = _
            rw [run_snoc g1]
            exact k1
          · intro u
            by_cases hu : u = t
            · subst hu
              have := hi.prog u
              rw [htodo] at this
              simp only [setAdder_same, byThread_snoc_same]
              simpa using this
            · simp only [setAdder_ne _ hu, byThread_snoc_ne hu]; exact hi.prog u
          · intro u
            by_cases hu : u = t
            · subst hu
              have := hi.passed u
              rw [he] at this
              simp only [setAdder_same, byThread_snoc_same]
              simp at this
              simp [this]
            · simp only [setAdder_ne _ hu, byThread_snoc_ne hu]; exact hi.passed u
          · show s.out = _
            rw [k4]; exact hi.log

theorem mem_thread {n W : Nat} {progs : Nat → List Ev} (hW : ∀ t, W ≤ t → progs t = []) {c : Conc} (hi : CInv n progs c) :
    (∀ p ∈ c.inserted, p.1 < W) ∧ (∀ p ∈ c.passedOn, p.1 < W) := by
  have key : ∀ (t : Nat), W ≤ t → byThread t c.inserted = [] ∧ byThread t c.passedOn = [] := by
    intro t ht
    have h1 := hi.prog t
    rw [hW t ht] at h1
    have h2 : byThread t c.inserted = [] := (List.append_eq_nil_iff.1 h1).1
    have h3 := hi.passed t
    rw [h2] at h3
    exact ⟨h2, (List.append_eq_nil_iff.1 h3).1⟩
  have aux : ∀ (log : List (Nat × Ev)) (p : Nat × Ev), p ∈ log → byThread p.1 log ≠ [] := by
    intro log p hp hnil
    have : p.2 ∈ byThread p.1 log := by
      unfold byThread
      exact List.mem_map.2 ⟨p, List.mem_filter.2 ⟨hp, by simp⟩, rfl⟩
    rw [hnil] at this
    cases this
  constructor
  · intro p hp
    rcases Nat.lt_or_ge p.1 W with h | h
    · exact h
    · exact absurd (key p.1 h).1 (aux _ p hp)
  · intro p hp
    rcases Nat.lt_or_ge p.1 W with h | h
    · exact h
    · exact absurd (key p.1 h).2 (aux _ p hp)

theorem count_le_of_byThread {a b : List (Nat × Ev)} (h : ∀ t, ∃ l, byThread t a ++ l = byThread t b) (e : Ev) :
    (a.map (·.2)).count e ≤ (b.map (·.2)).count e := by
  obtain ⟨W, hW⟩ : ∃ W, (∀ p ∈ a, p.1 < W) ∧ (∀ p ∈ b, p.1 < W) := by
    have : ∀ l : List (Nat × Ev), ∃ W, ∀ p ∈ l, p.1 < W := by
      intro l
      induction l with
      | nil => exact ⟨0, by simp⟩
      | cons p l ih =>
        obtain ⟨W, h⟩ := ih
        refine ⟨W + p.1 + 1, ?_⟩
        intro q hq
        rw [List.mem_cons] at hq
        rcases hq with hq | hq
        · subst hq; omega
        · have := h q hq; omega
    obtain ⟨W1, h1⟩ := this a
    obtain ⟨W2, h2⟩ := this b
    refine ⟨W1 + W2, ?_, ?_⟩
    · intro p hp; have := h1 p hp; omega
    · intro p hp; have := h2 p hp; omega
  rw [(perm_byThread W a hW.1).count_eq e, (perm_byThread W b hW.2).count_eq e]
  clear hW
  induction W with
  | zero => simp
  | succ W ih =>
    rw [List.range_succ, List.flatMap_append, List.flatMap_append, List.count_append, List.count_append]
    simp only [List.flatMap_cons, List.flatMap_nil, List.append_nil]
    obtain ⟨l, hl⟩ := h W
    rw [← hl, List.count_append]
    omega

end MF.Cache
