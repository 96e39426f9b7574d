import Verif.Proofs.Latest
import Verif.Spec.LatestClock
/-
Lemmas about LatestTime with a clock that is replaced or set back.
-/
namespace MF.Latest

open MF.Event (Time)
open Arith

variable {n : Nat} {D : Type} [Arith D]

/-- A message at a reading that `compute_hz` rejects replaces the latest message and changes nothing else. -/
theorem add_rejected {dflt : Config D} {s : State n D} {i : Fin n} {e : Ev} {now : Time} {r : Rate D}
    (he : s.events i ≠ none) (hr : s.rates[i.val]? = some r)
    (hrej : ¬ ∃ d, timeSub now r.prev = .ok d ∧ le (seconds d : D) zero = false) :
    add dflt s i e now = .ok { s with events := upd s.events i (some e) } := by
  unfold add
  cases hv : s.events i with
  | none => exact absurd hv he
  | some e0 =>
    dsimp only
    rw [hr]
    dsimp only
    obtain ⟨b, r', h1, h2, _, h4⟩ := computeHz_ok r now
    cases b with
    | true => exact absurd (h4.1 rfl) hrej
    | false =>
      rw [h1]
      dsimp only
      rw [h2 rfl]
      have : s.rates.set i.val r = s.rates := by
        obtain ⟨hlt, hx⟩ := List.getElem?_eq_some_iff.1 hr
        rw [← hx]
        exact List.set_getElem_self hlt
      rw [this]

theorem receive_cons (op : Op n) (ops : List (Op n)) (events : Fin n → Option Ev) :
    receive (op :: ops) events = receive ops (upd events op.input (some op.msg)) := by
  funext i
  have h : lastMsg (op :: ops) i = match lastMsg ops i with
      | some e => some e
      | none => if op.input = i then some op.msg else none := by
    unfold lastMsg deliveries
    by_cases hi : op.input = i
    · rw [List.filter_cons_of_pos (by simp [hi])]
      cases hl : (ops.filter (fun op => decide (op.input = i))) with
      | nil => simp [hi]
      | cons a l =>
        have : (op :: a :: l).getLast? = (a :: l).getLast? := by simp [List.getLast?_cons_cons]
        rw [this]
        cases hg : (a :: l).getLast? with
        | none => simp at hg
        | some x => rfl
    · rw [List.filter_cons_of_neg (by simp [hi])]
      cases ((ops.filter (fun op => decide (op.input = i))).getLast?) with
      | none => simp [hi]
      | some x => rfl
  unfold receive
  rw [h]
  cases lastMsg ops i with
  | some e => rfl
  | none =>
    dsimp only
    by_cases hi : op.input = i
    · rw [if_pos hi, ← hi, upd_same]
    · rw [if_neg hi, upd_ne _ _ (Ne.symm hi)]

/-- A run of rejected messages. -/
theorem run_rejected {dflt : Config D} (ops : List (Op n)) (s : State n D)
    (h : ∀ op ∈ ops, s.events op.input ≠ none ∧ ∃ r, s.rates[op.input.val]? = some r ∧
      ¬ ∃ d, timeSub op.now r.prev = .ok d ∧ le (seconds d : D) zero = false) :
    run dflt s ops = .ok { s with events := receive ops s.events } := by
  induction ops generalizing s with
  | nil => rfl
  | cons op ops ih =>
    obtain ⟨h1, r, h2, h3⟩ := h op (by simp)
    unfold run
    simp only [runE]
    rw [add_rejected h1 h2 h3]
    dsimp only
    have := ih { s with events := upd s.events op.input (some op.msg) } (by
      intro o ho
      obtain ⟨g1, g2⟩ := h o (by simp [ho])
      refine ⟨?_, g2⟩
      by_cases hi : o.input = op.input
      · rw [hi]
        show upd s.events op.input (some op.msg) op.input ≠ none
        rw [upd_same]; simp
      · show upd s.events op.input (some op.msg) o.input ≠ none
        rw [upd_ne _ _ hi]; exact g1)
    unfold run at this
    rw [this, receive_cons]

/-- A rate was last updated no earlier than at any non-first delivery of its input. -/
theorem run_prev [Lawful D] {dflt : Config D} {configs : List (Config D)} {src : Source} (ops : List (Op n)) (s : State n D)
    (h : run dflt (initial n configs) ops = .ok s) (hc : OneClock src ops) :
    ∀ a o b, ops = a ++ o :: b → deliveries a o.input ≠ [] →
      ∃ r, s.rates[o.input.val]? = some r ∧ o.now.ns ≤ r.prev.ns := by
  revert hc
  revert h
  revert ops s
  unfold run
  refine runE_induction (P := fun ops (s : State n D) => OneClock src ops → ∀ a o b, ops = a ++ o :: b →
    deliveries a o.input ≠ [] → ∃ r, s.rates[o.input.val]? = some r ∧ o.now.ns ≤ r.prev.ns) ?_ ?_
  · intro _ a o b h; simp at h
  · intro ops s op s' hrun ih hs hc a o b hsplit hd
    have hc' : OneClock src ops := fun x hx => hc x (by simp [hx])
    have hsrc := run_sources ops s hrun hc'
    have hnow : op.now.source = src := hc op (by simp)
    rcases List.eq_nil_or_concat b with rfl | ⟨b', x, rfl⟩
    · -- the delivery itself
      have h1 := List.append_inj' hsplit rfl
      obtain ⟨h2, h3⟩ := h1
      simp only [List.cons.injEq, and_true] at h3
      subst h2 h3
      rcases add_cases hs with ⟨h2, _⟩ | ⟨e0, r, bb, r', h1, h2, h3, h4, h5, h6, h7⟩
      · rw [(run_events ops s hrun).1] at h2
        exact absurd ((lastMsg_none _ _).1 h2) hd
      · rw [h5]
        obtain ⟨hlt, hx⟩ := List.getElem?_eq_some_iff.1 h2
        refine ⟨r', by rw [List.getElem?_set_self hlt], ?_⟩
        have hsr := hsrc r (List.mem_of_getElem? h2)
        have := (update_prev r op.now (by rw [hsr, hnow])).1
        rwa [update_eq h3] at this
    · rw [List.concat_eq_append] at hsplit
      have hsplit : ops ++ [op] = (a ++ o :: b') ++ [x] := by rw [hsplit]; simp
      obtain ⟨h2, h3⟩ := List.append_inj' hsplit rfl
      obtain ⟨r, hr, hle⟩ := ih hc' a o b' h2 hd
      rcases add_cases hs with ⟨_, h4⟩ | ⟨e0, r0, bb, r', h1, h2', h3', h4, h5, h6, h7⟩
      · subst h4
        refine ⟨r, ?_, hle⟩
        show (s.rates ++ _)[o.input.val]? = some r
        obtain ⟨hlt, hx⟩ := List.getElem?_eq_some_iff.1 hr
        rw [List.getElem?_append_left hlt, hr]
      · rw [h5]
        by_cases hi : op.input = o.input
        · obtain ⟨hlt, hx⟩ := List.getElem?_eq_some_iff.1 h2'
          rw [← hi]
          refine ⟨r', by rw [List.getElem?_set_self hlt], ?_⟩
          rw [hi, hr] at h2'
          cases h2'
          obtain ⟨b1, r1, g1, g2, g3, g4⟩ := computeHz_ok r op.now
          rw [h3'] at g1
          cases g1
          cases bb with
          | false => rw [g2 rfl]; exact hle
          | true =>
            rw [(g3 rfl).1]
            obtain ⟨d, hd1, hd2⟩ := g4.1 rfl
            rw [Lawful.le_seconds] at hd2
            unfold timeSub at hd1
            split at hd1
            · cases hd1
            · cases hd1
              simp at hd2
              omega
        · refine ⟨r, ?_, hle⟩
          have : op.input.val ≠ o.input.val := fun h => hi (Fin.ext h)
          rw [List.getElem?_set_ne this, hr]

/-! ### Faults -/

theorem pivotLoop_fault {v : List (Rate D)} {now : Time} {l : List Nat} {f : Fault} (hl : ∀ x ∈ l, x < v.length)
    (h : pivotLoop v now l = .error f) : f = .threw ∧ ∃ r ∈ v, r.prev.source ≠ now.source := by
  induction l with
  | nil => cases h
  | cons p l ih =>
    have ih := ih (fun x hx => hl x (by simp [hx]))
    obtain ⟨r, hr⟩ : ∃ r, v[p]? = some r := ⟨v[p]'(hl p (by simp)), List.getElem?_eq_getElem _⟩
    unfold pivotLoop at h
    rw [hr] at h
    dsimp only at h
    cases ht : timeSub now r.prev with
    | error g =>
      rw [ht] at h
      cases h
      unfold timeSub at ht
      split at ht
      · rename_i hne
        cases ht
        exact ⟨rfl, r, List.mem_of_getElem? hr, fun h => hne h.symm⟩
      · cases ht
    | ok d =>
      rw [ht] at h
      dsimp only at h
      split at h
      · split at h
        · cases h
        · exact ih h
      · split at h
        · exact ih h
        · split at h
          · cases h
          · exact ih h

theorem mem_foldr_insertIdx (f : Nat → Nat → Bool) (l : List Nat) (x : Nat) : x ∈ l.foldr (insertIdx f) [] ↔ x ∈ l := by
  induction l with
  | nil => simp
  | cons a l ih => simp only [List.foldr_cons, mem_insertIdx, ih, List.mem_cons]

theorem strictWeak_iff (l : List D) : strictWeak gt l = true ↔ Sortable l := by
  unfold strictWeak Sortable
  simp only [List.all_eq_true, Bool.and_eq_true, Bool.not_eq_true', Bool.or_eq_true, Bool.and_eq_false_iff]
  constructor
  · intro h
    refine ⟨fun a ha => (h a ha).1, ?_, ?_⟩
    · intro a ha b hb c hc h1 h2
      rcases ((h a ha).2 b hb c hc).1 with (h3 | h3) | h3
      · rw [h1] at h3; cases h3
      · rw [h2] at h3; cases h3
      · exact h3
    · intro a ha b hb c hc h1
      rcases ((h a ha).2 b hb c hc).2 with (h3 | h3) | h3
      · rw [h1] at h3; cases h3
      · exact Or.inl h3
      · exact Or.inr h3
  · rintro ⟨h1, h2, h3⟩ a ha
    refine ⟨h1 a ha, fun b hb c hc => ⟨?_, ?_⟩⟩
    · cases hab : gt a b with
      | false => exact Or.inl (Or.inl rfl)
      | true =>
        cases hbc : gt b c with
        | false => exact Or.inl (Or.inr rfl)
        | true => exact Or.inr (h2 a ha b hb c hc hab hbc)
    · cases hac : gt a c with
      | false => exact Or.inl (Or.inl rfl)
      | true =>
        rcases h3 a ha b hb c hc hac with h | h
        · exact Or.inl (Or.inr h)
        · exact Or.inr h

/-- The two faults of `find_pivot`. -/
theorem findPivot_fault {v : List (Rate D)} {now : Time} {f : Fault} (h : findPivot v now = .error f) :
    (f = .ub ∧ ¬ Sortable (v.map (·.hz))) ∨
    (f = .threw ∧ Sortable (v.map (·.hz)) ∧ ∃ r ∈ v, r.prev.source ≠ now.source) := by
  unfold findPivot sortIndices at h
  by_cases hw : strictWeak gt (v.map (·.hz)) = true
  · rw [if_pos hw] at h
    dsimp only at h
    obtain ⟨h1, h2⟩ := pivotLoop_fault (fun x hx => List.mem_range.1 ((mem_foldr_insertIdx _ _ x).1 hx)) h
    exact Or.inr ⟨h1, (strictWeak_iff _).1 hw, h2⟩
  · rw [if_neg hw] at h
    cases h
    exact Or.inl ⟨rfl, fun hs => hw ((strictWeak_iff _).2 hs)⟩

theorem findPivot_unsortable {v : List (Rate D)} {now : Time} (h : ¬ Sortable (v.map (·.hz))) :
    findPivot v now = .error .ub := by
  unfold findPivot sortIndices
  rw [if_neg (fun hs => h ((strictWeak_iff _).1 hs))]

end MF.Latest
