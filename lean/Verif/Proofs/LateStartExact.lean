import Verif.Proofs.LateStart
import Verif.Proofs.ExactTime
/-
Helper lemmas for ExactTime with an input that has not delivered anything yet.
-/
namespace MF.ExactTime

variable {n : Nat}

/-- Everything received so far, as the synchronizer would store it without limit. -/
def full (ops : List (Fin n × Ev)) : List (Int × Tuple n) :=
  ops.foldl (fun m op => store op.2.stamp (upd (tupleAt op.2.stamp m) op.1 (some op.2)) m) []

theorem full_snoc (ops : List (Fin n × Ev)) (i : Fin n) (e : Ev) :
    full (ops ++ [(i, e)]) = store e.stamp (upd (tupleAt e.stamp (full ops)) i (some e)) (full ops) := by
  simp [full, List.foldl_append]

theorem store_mem {k : Int} {t : Tuple n} {m : List (Int × Tuple n)} {p : Int × Tuple n} (h : p ∈ store k t m) : p = (k, t) ∨ p ∈ m := by
  induction m with
  | nil => simp [store] at h; exact Or.inl h
  | cons a m ih =>
    obtain ⟨k', t'⟩ := a
    unfold store at h
    split at h
    · rcases List.mem_cons.1 h with h | h
      · exact Or.inr (by simp [h])
      · rcases ih h with h | h
        · exact Or.inl h
        · exact Or.inr (List.mem_cons_of_mem _ h)
    · split at h
      · rcases List.mem_cons.1 h with h | h
        · exact Or.inl h
        · exact Or.inr (List.mem_cons_of_mem _ h)
      · rcases List.mem_cons.1 h with h | h
        · exact Or.inl h
        · exact Or.inr h

theorem store_sorted {k : Int} {t : Tuple n} {m : List (Int × Tuple n)} (h : m.Pairwise (fun p q => p.1 < q.1)) :
    (store k t m).Pairwise (fun p q => p.1 < q.1) := by
  induction m with
  | nil => simp [store]
  | cons a m ih =>
    obtain ⟨k', t'⟩ := a
    rw [List.pairwise_cons] at h
    unfold store
    split
    · rename_i hk
      rw [List.pairwise_cons]
      refine ⟨fun p hp => ?_, ih h.2⟩
      rcases store_mem hp with rfl | hp
      · exact hk
      · exact h.1 p hp
    · split
      · rename_i hk
        rw [List.pairwise_cons]
        exact ⟨fun p hp => by have := h.1 p hp; dsimp only at this ⊢; omega, h.2⟩
      · rename_i h1 h2
        rw [List.pairwise_cons, List.pairwise_cons]
        refine ⟨fun p hp => ?_, h⟩
        rcases List.mem_cons.1 hp with rfl | hp
        · dsimp only; omega
        · have := h.1 p hp; dsimp only at this ⊢; omega

theorem full_sorted (ops : List (Fin n × Ev)) : (full ops).Pairwise (fun p q => p.1 < q.1) := by
  induction ops using snoc_induction with
  | h0 => exact List.Pairwise.nil
  | hs ops op ih => obtain ⟨i, e⟩ := op; rw [full_snoc]; exact store_sorted ih

theorem store_key {k : Int} {t : Tuple n} (m : List (Int × Tuple n)) : (k, t) ∈ store k t m := by
  induction m with
  | nil => simp [store]
  | cons a m ih =>
    obtain ⟨k', t'⟩ := a
    unfold store
    split
    · exact List.mem_cons_of_mem _ ih
    · split <;> simp

theorem store_keeps {k : Int} {t : Tuple n} {m : List (Int × Tuple n)} {x : Int} (h : x ∈ m.map (·.1)) :
    x ∈ (store k t m).map (·.1) := by
  induction m with
  | nil => cases h
  | cons a m ih =>
    obtain ⟨k', t'⟩ := a
    simp only [List.map_cons, List.mem_cons] at h
    unfold store
    split
    · simp only [List.map_cons, List.mem_cons]
      rcases h with h | h
      · exact Or.inl h
      · exact Or.inr (ih h)
    · split
      · rename_i hk
        simp only [List.map_cons, List.mem_cons]
        rcases h with h | h
        · exact Or.inl (by omega)
        · exact Or.inr h
      · simp only [List.map_cons, List.mem_cons]; exact Or.inr h

theorem full_keys {ops : List (Fin n × Ev)} {op : Fin n × Ev} (h : op ∈ ops) : op.2.stamp ∈ (full ops).map (·.1) := by
  induction ops using snoc_induction with
  | h0 => cases h
  | hs ops op' ih =>
    obtain ⟨i, e⟩ := op'
    rw [full_snoc]
    rcases List.mem_append.1 h with h | h
    · exact store_keeps (ih h)
    · rw [List.mem_singleton] at h
      subst h
      exact List.mem_map.2 ⟨_, store_key _, rfl⟩

theorem tupleAt_append {k : Int} {a b : List (Int × Tuple n)} (h : ∀ p ∈ a, p.1 ≠ k) : tupleAt k (a ++ b) = tupleAt k b := by
  induction a with
  | nil => rfl
  | cons x a ih =>
    obtain ⟨k', t'⟩ := x
    rw [List.cons_append]
    conv => lhs; unfold tupleAt
    rw [if_neg (h (k', t') (by simp))]
    exact ih (fun p hp => h p (List.mem_cons_of_mem _ hp))

theorem tupleAt_none {k : Int} {a : List (Int × Tuple n)} (h : ∀ p ∈ a, p.1 ≠ k) : tupleAt k a = emptyTuple n := by
  have := tupleAt_append (b := []) h
  rw [List.append_nil] at this; exact this

theorem store_append {k : Int} {t : Tuple n} {a b : List (Int × Tuple n)} (h : ∀ p ∈ a, p.1 < k) :
    store k t (a ++ b) = a ++ store k t b := by
  induction a with
  | nil => rfl
  | cons x a ih =>
    obtain ⟨k', t'⟩ := x
    have hx := h (k', t') (by simp)
    rw [List.cons_append, List.cons_append]
    conv => lhs; unfold store
    rw [if_pos hx, ih (fun p hp => h p (List.mem_cons_of_mem _ hp))]

theorem store_before {k : Int} {t : Tuple n} {a b : List (Int × Tuple n)} (h : ∀ p ∈ b, k < p.1) :
    store k t (a ++ b) = store k t a ++ b := by
  induction a with
  | nil =>
    cases b with
    | nil => rfl
    | cons y b =>
      obtain ⟨k', t'⟩ := y
      have := h (k', t') (by simp)
      dsimp only at this
      simp only [List.nil_append, store, List.cons_append]
      rw [if_neg (by omega), if_neg (by omega)]
  | cons x a ih =>
    obtain ⟨k', t'⟩ := x
    rw [List.cons_append]
    unfold store
    split
    · rw [List.cons_append, ih]
    · split <;> rfl

theorem store_length {k : Int} {t : Tuple n} (m : List (Int × Tuple n)) : m.length ≤ (store k t m).length := by
  induction m with
  | nil => simp
  | cons a m ih =>
    obtain ⟨k', t'⟩ := a
    unfold store
    split
    · simp only [List.length_cons]; omega
    · split <;> simp

theorem lastN_right {α : Type} {q : Nat} (a : List α) {b : List α} (h : a = [] ∨ q ≤ b.length) : lastN q (a ++ b) = lastN q b := by
  rcases h with rfl | h
  · rfl
  · unfold lastN
    rw [List.length_append, show a.length + b.length - q = a.length + (b.length - q) by omega, ← List.drop_drop,
      List.drop_left]

/-- Storing into the last `q` entries and keeping `q` of them is keeping the last `q` entries of the whole. -/
theorem lastN_store {q : Nat} {m : List (Int × Tuple n)} (hm : m.Pairwise (fun p q => p.1 < q.1)) (k : Int) (i : Fin n)
    (e : Ev) : lastN q (store k (upd (tupleAt k (lastN q m)) i (some e)) (lastN q m)) =
      lastN q (store k (upd (tupleAt k m) i (some e)) m) := by
  have hab : m.take (m.length - q) ++ lastN q m = m := List.take_append_drop _ _
  have hl : m.take (m.length - q) = [] ∨ q ≤ (lastN q m).length := by
    rw [lastN_length]
    by_cases h : q ≤ m.length
    · right; omega
    · left; rw [List.take_eq_nil_iff]; left; omega
  generalize m.take (m.length - q) = a at hab hl
  generalize lastN q m = b at hab hl
  subst hab
  rw [List.pairwise_append] at hm
  by_cases hk : ∀ p ∈ b, k < p.1
  · rcases hl with rfl | hl
    · rfl
    · have h0 := store_before (t := upd (tupleAt k b) i (some e)) (a := []) hk
      rw [List.nil_append] at h0
      rw [h0, store_before hk, lastN_right _ (Or.inr hl), lastN_right _ (Or.inr hl)]
  · have hk' : ∀ p ∈ a, p.1 < k := by
      intro p hp
      apply Classical.byContradiction
      intro hpk
      apply hk
      intro p' hp'
      have := hm.2.2 p hp p' hp'
      omega
    rw [store_append hk', tupleAt_append (fun p hp => by have := hk' p hp; omega), lastN_right]
    rcases hl with hl | hl
    · exact Or.inl hl
    · exact Or.inr (Nat.le_trans hl (store_length _))

theorem tupleAt_slot {k : Int} {j : Fin n} {m : List (Int × Tuple n)} (h : ∀ p ∈ m, p.2 j = none) : tupleAt k m j = none := by
  induction m with
  | nil => rfl
  | cons a m ih =>
    obtain ⟨k', t'⟩ := a
    unfold tupleAt
    split
    · exact h (k', t') (by simp)
    · exact ih (fun p hp => h p (List.mem_cons_of_mem _ hp))

theorem full_slot {j : Fin n} {ops : List (Fin n × Ev)} (h : Silent j ops) : ∀ p ∈ full ops, p.2 j = none := by
  induction ops using snoc_induction with
  | h0 => intro p hp; cases hp
  | hs ops op ih =>
    obtain ⟨i, e⟩ := op
    intro p hp
    rw [full_snoc] at hp
    rcases store_mem hp with rfl | hp
    · show upd _ i _ j = none
      rw [upd_ne _ _ (Ne.symm h.last)]
      exact tupleAt_slot (ih h.left)
    · exact ih h.left p hp

theorem dropExceeding_lastN {s : State n} (h : 0 < s.queueSize) : (dropExceeding s).tuples = lastN s.queueSize s.tuples ∧
    (dropExceeding s).last = s.last ∧ (dropExceeding s).queueSize = s.queueSize ∧ outs (dropExceeding s).log = outs s.log := by
  unfold dropExceeding
  split
  · refine ⟨rfl, rfl, rfl, ?_⟩
    unfold dropRange
    dsimp only
    rw [outs_append]
    have : ∀ l : List (Int × Tuple n), outs (l.map (fun p => Action.drop p.2)) = [] := by
      intro l; induction l with
      | nil => rfl
      | cons x l ih => simp only [List.map_cons, outs]; exact ih
    rw [this, List.append_nil]
  · rename_i hc
    refine ⟨?_, rfl, rfl, rfl⟩
    unfold lastN
    rw [show s.tuples.length - s.queueSize = 0 by omega]; rfl

/-- What is stored while input `j` is silent. -/
theorem run_late [NeZero n] {q : Nat} (hq : 0 < q) {j : Fin n} (ops : List (Fin n × Ev)) (h : Silent j ops) :
    ∃ s, run (construct n q) ops = .ok s ∧ s.queueSize = q ∧ s.tuples = lastN q (full ops) ∧ s.last = 0 ∧ outs s.log = [] := by
  induction ops using snoc_induction with
  | h0 => exact ⟨_, rfl, rfl, by simp [construct, full, lastN], rfl, rfl⟩
  | hs ops op ih =>
    obtain ⟨i, e⟩ := op
    obtain ⟨s, h1, h2, h3, h4, h5⟩ := ih h.left
    have hnone : upd (tupleAt e.stamp s.tuples) i (some e) j = none := by
      rw [upd_ne _ _ (Ne.symm h.last)]
      apply tupleAt_slot
      intro p hp
      rw [h3] at hp
      exact full_slot h.left p (List.mem_of_mem_drop hp)
    have hadd : add s i e = .ok (dropExceeding { s with
        tuples := store e.stamp (upd (tupleAt e.stamp s.tuples) i (some e)) s.tuples,
        log := s.log ++ (tupleAt e.stamp s.tuples i).toList.map (.replaced i) }) := by
      unfold add checkTuple
      dsimp only
      rw [if_neg]
      intro hf
      rw [isFull_iff] at hf
      have := hf j
      rw [hnone] at this
      obtain ⟨x, hx⟩ := this
      cases hx
    obtain ⟨g1, g2, g3, g4⟩ := dropExceeding_lastN (s := { s with
        tuples := store e.stamp (upd (tupleAt e.stamp s.tuples) i (some e)) s.tuples,
        log := s.log ++ (tupleAt e.stamp s.tuples i).toList.map (.replaced i) }) (by rw [← h2] at hq; exact hq)
    refine ⟨_, ?_, g3.trans h2, ?_, g2.trans h4, ?_⟩
    · rw [run, runE_append_ok _ _ _ _ _ h1]; simp only [runE, hadd]
    · rw [g1]
      dsimp only
      rw [h2, h3, full_snoc, lastN_store (full_sorted ops)]
    · rw [g4]
      dsimp only
      rw [outs_append, h5]
      cases tupleAt e.stamp s.tuples i <;> rfl

/-! ### What is too old to be kept -/

theorem store_filter {T k : Int} (hk : T ≤ k) (t : Tuple n) (m : List (Int × Tuple n)) :
    (store k t m).filter (fun p => decide (T ≤ p.1)) = store k t (m.filter (fun p => decide (T ≤ p.1))) := by
  induction m with
  | nil => simp [store, hk]
  | cons a m ih =>
    obtain ⟨k', t'⟩ := a
    by_cases h1 : k' < k
    · by_cases h2 : T ≤ k'
      · simp [store, h1, h2, ih]
      · simp [store, h1, h2, ih]
    · by_cases h3 : k' = k
      · subst h3; simp [store, hk]
      · have h2 : T ≤ k' := by omega
        simp [store, h1, h2, h3, hk]

theorem store_filter_old {T k : Int} (hk : ¬ T ≤ k) (t : Tuple n) (m : List (Int × Tuple n)) :
    (store k t m).filter (fun p => decide (T ≤ p.1)) = m.filter (fun p => decide (T ≤ p.1)) := by
  induction m with
  | nil => simp [store, hk]
  | cons a m ih =>
    obtain ⟨k', t'⟩ := a
    by_cases h1 : k' < k
    · have h2 : ¬ T ≤ k' := by omega
      simp [store, h1, h2, ih]
    · by_cases h3 : k' = k
      · subst h3; simp [store, hk]
      · simp [store, h1, h3, hk, List.filter_cons]

theorem tupleAt_filter {T k : Int} (hk : T ≤ k) (m : List (Int × Tuple n)) :
    tupleAt k (m.filter (fun p => decide (T ≤ p.1))) = tupleAt k m := by
  induction m with
  | nil => rfl
  | cons a m ih =>
    obtain ⟨k', t'⟩ := a
    by_cases h2 : T ≤ k'
    · simp [h2, tupleAt, ih]
    · have : k' ≠ k := by omega
      simp [h2, tupleAt, ih, this]

theorem full_from (T : Int) (ops : List (Fin n × Ev)) : full (from_ T ops) = (full ops).filter (fun p => decide (T ≤ p.1)) := by
  induction ops using snoc_induction with
  | h0 => rfl
  | hs ops op ih =>
    obtain ⟨i, e⟩ := op
    have h1 : from_ T (ops ++ [(i, e)]) = from_ T ops ++ if T ≤ e.stamp then [(i, e)] else [] := by
      unfold from_; rw [List.filter_append]; congr 1
      by_cases h : T ≤ e.stamp <;> simp [h]
    rw [h1, full_snoc]
    by_cases h : T ≤ e.stamp
    · rw [if_pos h, full_snoc, ih, store_filter h, tupleAt_filter h]
    · rw [if_neg h, List.append_nil, ih, store_filter_old h]

theorem sorted_filter {T : Int} {m : List (Int × Tuple n)} (h : m.Pairwise (fun p q => p.1 < q.1)) :
    ∃ a, m = a ++ m.filter (fun p => decide (T ≤ p.1)) := by
  induction m with
  | nil => exact ⟨[], rfl⟩
  | cons x m ih =>
    rw [List.pairwise_cons] at h
    by_cases hx : T ≤ x.1
    · refine ⟨[], ?_⟩
      rw [List.nil_append, eq_comm, List.filter_eq_self]
      intro p hp
      rcases List.mem_cons.1 hp with rfl | hp
      · simpa using hx
      · have := h.1 p hp; simp; omega
    · obtain ⟨a, ha⟩ := ih h.2
      refine ⟨x :: a, ?_⟩
      rw [List.filter_cons, if_neg (by simpa using hx), List.cons_append, ← ha]

theorem nodup_length_le {l m : List Int} (h : l.Nodup) (hs : ∀ x ∈ l, x ∈ m) : l.length ≤ m.length := by
  induction l generalizing m with
  | nil => simp
  | cons a l ih =>
    rw [List.nodup_cons] at h
    have ha := hs a (by simp)
    have := ih (m := m.erase a) h.2 (fun x hx => by
      have hxa : x ≠ a := fun h0 => h.1 (h0 ▸ hx)
      exact (List.mem_erase_of_ne hxa).2 (hs x (List.mem_cons_of_mem _ hx)))
    rw [List.length_erase_of_mem ha] at this
    have : 0 < m.length := List.length_pos_of_mem ha
    simp only [List.length_cons]; omega

theorem lastN_from {q : Nat} {T : Int} {ops : List (Fin n × Ev)} (h : StampsFrom q T ops) :
    lastN q (full (from_ T ops)) = lastN q (full ops) := by
  obtain ⟨l, h1, h2, h3⟩ := h
  obtain ⟨a, ha⟩ := sorted_filter (T := T) (full_sorted ops)
  have hlen : q ≤ ((full ops).filter (fun p => decide (T ≤ p.1))).length := by
    rw [← h2, ← List.length_map (f := fun p : Int × Tuple n => p.1) (as := (full ops).filter _)]
    refine nodup_length_le h1 (fun x hx => ?_)
    obtain ⟨g1, op, g2, rfl⟩ := h3 x hx
    obtain ⟨p, g3, g4⟩ := List.mem_map.1 (full_keys g2)
    refine List.mem_map.2 ⟨p, List.mem_filter.2 ⟨g3, ?_⟩, g4⟩
    rw [g4]; simpa using g1
  rw [full_from]
  conv => rhs; rw [ha]
  rw [lastN_right _ (Or.inr hlen)]

theorem from_silent {j : Fin n} {T : Int} {ops : List (Fin n × Ev)} (h : Silent j ops) : Silent j (from_ T ops) :=
  fun op ho => h op (List.mem_filter.1 ho).1

/-! ### The log of the past has no influence -/

theorem dropRange_log (s : State n) (L : List (Action n)) (a b : List (Int × Tuple n)) :
    dropRange { s with log := L ++ s.log } a b = { dropRange s a b with log := L ++ (dropRange s a b).log } := by
  simp [dropRange]

theorem dropExceeding_log (s : State n) (L : List (Action n)) :
    dropExceeding { s with log := L ++ s.log } = { dropExceeding s with log := L ++ (dropExceeding s).log } := by
  unfold dropExceeding
  dsimp only
  split
  · exact dropRange_log s L _ _
  · rfl

theorem add_log [NeZero n] (s : State n) (L : List (Action n)) (i : Fin n) (e : Ev) :
    add { s with log := L ++ s.log } i e = (add s i e).map (fun t => { t with log := L ++ t.log }) := by
  unfold add checkTuple
  dsimp only
  split
  · cases upd (tupleAt e.stamp s.tuples) i (some e) 0 with
    | none => rfl
    | some e0 =>
      simp only [Except.map, clearOldTuples, List.append_assoc]
      rw [← dropExceeding_log, ← dropRange_log]
  · simp only [Except.map, List.append_assoc]
    rw [← dropExceeding_log]

theorem run_log [NeZero n] (ops : List (Fin n × Ev)) (s : State n) (L : List (Action n)) :
    run { s with log := L ++ s.log } ops = (run s ops).map (fun t => { t with log := L ++ t.log }) := by
  induction ops generalizing s with
  | nil => rfl
  | cons op ops ih =>
    simp only [run, runE]
    rw [add_log]
    cases add s op.1 op.2 with
    | error f => rfl
    | ok t => exact ih t

end MF.ExactTime
