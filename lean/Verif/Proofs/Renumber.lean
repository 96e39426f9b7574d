import Verif.Spec.Renumber
import Verif.Proofs.Shift
import Verif.Proofs.Epsilon
import Verif.Proofs.PyExact
import Verif.Proofs.ApproxSpec
import Verif.Spec.ApproxChoice
import Verif.Spec.Sync
/-
Lemmas for property C122: ExactTime, ApproximateEpsilonTime and the Python TimeSynchronizer.
-/
namespace MF

variable {n : Nat} {σ τ : Fin n → Fin n}

theorem renumber_inj (h : Renumbering σ τ) {i j : Fin n} (hij : τ i = τ j) : i = j := by
  have := congrArg σ hij
  rwa [h.forth, h.forth] at this

theorem renumber_upd {α : Type} (h : Renumbering σ τ) (f : Fin n → α) (i : Fin n) (a : α) :
    renumberSet τ (upd f i a) = upd (renumberSet τ f) (σ i) a := by
  funext j
  unfold renumberSet
  by_cases hj : j = σ i
  · subst hj
    rw [upd_same, h.back, upd_same]
  · rw [upd_ne _ _ hj, upd_ne]
    intro he
    apply hj
    rw [← he, h.forth]

theorem renumber_perm (h : Renumbering σ τ) : ((List.finRange n).map τ).Perm (List.finRange n) := by
  refine (List.perm_ext_iff_of_nodup ?_ (List.nodup_finRange n)).2 ?_
  · refine List.Pairwise.map τ ?_ (List.nodup_finRange n)
    intro a b hab hne
    exact hab (renumber_inj h hne)
  · intro a
    refine ⟨fun _ => List.mem_finRange a, fun _ => ?_⟩
    rw [List.mem_map]
    exact ⟨σ a, List.mem_finRange _, h.back a⟩

theorem renumber_all (h : Renumbering σ τ) (p : Fin n → Bool) :
    (List.finRange n).all (fun j => p (τ j)) = (List.finRange n).all p := by
  rw [Bool.eq_iff_iff, List.all_eq_true, List.all_eq_true]
  constructor
  · intro h1 i _
    have := h1 (σ i) (List.mem_finRange _)
    rwa [h.back] at this
  · intro h1 j _
    exact h1 _ (List.mem_finRange _)

end MF

namespace MF.ExactTime

variable {n : Nat} {σ τ : Fin n → Fin n}

/-- A stored tuple, with the inputs under their new numbers. -/
def renumberEntry (τ : Fin n → Fin n) (p : Int × Tuple n) : Int × Tuple n := (p.1, renumberSet τ p.2)

/-- All messages of a tuple have the stamp `k`. -/
def Keyed (k : Int) (t : Tuple n) : Prop := ∀ i e, t i = some e → e.stamp = k

/-- The state after the same calls with the inputs numbered differently. -/
structure Renumbered (σ τ : Fin n → Fin n) (s s' : State n) : Prop where
  queueSize : s'.queueSize = s.queueSize
  tuples : s'.tuples = s.tuples.map (renumberEntry τ)
  log : s'.log = s.log.map (renumberAction σ τ)
  keyed : ∀ p ∈ s.tuples, Keyed p.1 p.2

theorem tupleAt_keyed (k : Int) : ∀ (m : List (Int × Tuple n)), (∀ p ∈ m, Keyed p.1 p.2) → Keyed k (tupleAt k m) := by
  intro m
  induction m with
  | nil => intro _ i e h; cases h
  | cons p m ih =>
    intro h
    simp only [tupleAt]
    split
    · rename_i hk
      rw [← hk]
      exact h p (by simp)
    · exact ih (fun p hp => h p (by simp [hp]))

theorem store_mem (k : Int) (t : Tuple n) : ∀ (m : List (Int × Tuple n)), ∀ p ∈ store k t m, p = (k, t) ∨ p ∈ m := by
  intro m
  induction m with
  | nil => intro p hp; exact .inl (by simpa [store] using hp)
  | cons q m ih =>
    intro p hp
    simp only [store] at hp
    split at hp
    · rcases List.mem_cons.1 hp with rfl | hp
      · exact .inr (by simp)
      · rcases ih p hp with h | h
        · exact .inl h
        · exact .inr (by simp [h])
    · split at hp
      · rcases List.mem_cons.1 hp with rfl | hp
        · exact .inl rfl
        · exact .inr (by simp [hp])
      · rcases List.mem_cons.1 hp with rfl | hp
        · exact .inl rfl
        · exact .inr hp

theorem tupleAt_renumber (k : Int) : ∀ (m : List (Int × Tuple n)),
    tupleAt k (m.map (renumberEntry τ)) = renumberSet τ (tupleAt k m) := by
  intro m
  induction m with
  | nil => rfl
  | cons p m ih =>
    simp only [List.map_cons, renumberEntry, tupleAt]
    split
    · rfl
    · exact ih

theorem store_renumber (k : Int) (t : Tuple n) : ∀ (m : List (Int × Tuple n)),
    store k (renumberSet τ t) (m.map (renumberEntry τ)) = (store k t m).map (renumberEntry τ) := by
  intro m
  induction m with
  | nil => rfl
  | cons p m ih =>
    simp only [List.map_cons, store]
    have e : (renumberEntry τ p).1 = p.1 := rfl
    simp only [e]
    split
    · rw [List.map_cons]; exact congrArg _ ih
    · split <;> rfl

theorem renumbered_dropRange {s s' : State n} (h : Renumbered σ τ s s') (d k : List (Int × Tuple n))
    (hk : ∀ p ∈ k, p ∈ s.tuples) :
    Renumbered σ τ (dropRange s d k) (dropRange s' (d.map (renumberEntry τ)) (k.map (renumberEntry τ))) := by
  refine ⟨h.queueSize, rfl, ?_, fun p hp => h.keyed p (hk p hp)⟩
  simp only [dropRange, h.log, List.map_append, List.map_map]
  rfl

theorem renumbered_exceeding {s s' : State n} (h : Renumbered σ τ s s') :
    Renumbered σ τ (dropExceeding s) (dropExceeding s') := by
  unfold dropExceeding
  rw [h.queueSize, h.tuples, List.length_map, ← List.map_take, ← List.map_drop]
  split
  · exact renumbered_dropRange h _ _ (fun p hp => List.mem_of_mem_drop hp)
  · exact h

theorem renumbered_clear {s s' : State n} (h : Renumbered σ τ s s') (hl : s'.last = s.last) :
    Renumbered σ τ (clearOldTuples s) (clearOldTuples s') := by
  unfold clearOldTuples
  rw [h.tuples, hl, List.takeWhile_map, List.dropWhile_map]
  have e : ((fun p : Int × Tuple n => decide (p.1 ≤ s.last)) ∘ renumberEntry τ) = (fun p => decide (p.1 ≤ s.last)) := rfl
  rw [e]
  exact renumbered_dropRange h _ _ (fun p hp => (List.dropWhile_sublist _).mem hp)

theorem renumbered_check [NeZero n] (hr : Renumbering σ τ) {s s' : State n} (h : Renumbered σ τ s s') (t : Tuple n) (k : Int)
    (hk : Keyed k t) : RelE (Renumbered σ τ) (checkTuple s t) (checkTuple s' (renumberSet τ t)) := by
  have hf : isFull (renumberSet τ t) = isFull t := renumber_all hr (fun i => (t i).isSome)
  unfold checkTuple
  rw [hf]
  by_cases h1 : isFull t = true
  · rw [if_pos h1, if_pos h1]
    have hall : ∀ i, ∃ e, t i = some e := by
      intro i
      unfold isFull at h1
      rw [List.all_eq_true] at h1
      exact Option.isSome_iff_exists.1 (h1 i (List.mem_finRange i))
    obtain ⟨e0, he0⟩ := hall 0
    obtain ⟨e1, he1⟩ := hall (τ 0)
    have he1' : renumberSet τ t 0 = some e1 := he1
    rw [he0, he1']
    have hst : e1.stamp = e0.stamp := (hk _ _ he1).trans (hk _ _ he0).symm
    dsimp only
    rw [hst]
    have hm : Renumbered σ τ
        { s with log := s.log ++ [.out t], last := e0.stamp, tuples := s.tuples.filter (fun p => decide (p.1 ≠ e0.stamp)) }
        { s' with log := s'.log ++ [.out (renumberSet τ t)], last := e0.stamp,
                  tuples := s'.tuples.filter (fun p => decide (p.1 ≠ e0.stamp)) } := by
      refine ⟨h.queueSize, ?_, ?_, ?_⟩
      · simp only [h.tuples, List.filter_map]
        rfl
      · simp only [h.log, List.map_append]
        rfl
      · intro p hp
        exact h.keyed p (List.mem_filter.1 hp).1
    exact renumbered_exceeding (renumbered_clear hm rfl)
  · rw [if_neg h1, if_neg h1]
    exact renumbered_exceeding h

theorem renumbered_add [NeZero n] (hr : Renumbering σ τ) {s s' : State n} (h : Renumbered σ τ s s') (i : Fin n) (e : Ev) :
    RelE (Renumbered σ τ) (add s i e) (add s' (σ i) e) := by
  unfold add
  have e1 : tupleAt e.stamp s'.tuples = renumberSet τ (tupleAt e.stamp s.tuples) := by rw [h.tuples, tupleAt_renumber]
  have hkt := tupleAt_keyed e.stamp s.tuples h.keyed
  have hku : Keyed e.stamp (upd (tupleAt e.stamp s.tuples) i (some e)) := by
    intro j x hx
    by_cases hj : j = i
    · subst hj
      rw [upd_same] at hx
      cases hx
      rfl
    · rw [upd_ne _ _ hj] at hx
      exact hkt j x hx
  dsimp only
  rw [e1, ← renumber_upd hr]
  have hm : Renumbered σ τ
      { s with tuples := store e.stamp (upd (tupleAt e.stamp s.tuples) i (some e)) s.tuples,
               log := s.log ++ (tupleAt e.stamp s.tuples i).toList.map (.replaced i) }
      { s' with tuples := store e.stamp (renumberSet τ (upd (tupleAt e.stamp s.tuples) i (some e))) s'.tuples,
                log := s'.log ++ (renumberSet τ (tupleAt e.stamp s.tuples) (σ i)).toList.map (.replaced (σ i)) } := by
    refine ⟨h.queueSize, ?_, ?_, ?_⟩
    · simp only [h.tuples]
      rw [store_renumber]
    · simp only [h.log, List.map_append, renumberSet, hr.back]
      cases tupleAt e.stamp s.tuples i <;> rfl
    · intro p hp
      rcases store_mem _ _ _ p hp with rfl | hp
      · exact hku
      · exact h.keyed p hp
  exact renumbered_check hr hm _ _ hku

end MF.ExactTime

namespace MF.Epsilon

variable {n : Nat} {σ τ : Fin n → Fin n}

/-- The state after the same calls with the inputs numbered differently. -/
structure Renumbered (τ : Fin n → Fin n) (s s' : State n) : Prop where
  queueSize : s'.queueSize = s.queueSize
  epsilon : s'.epsilon = s.epsilon
  nonneg : 0 ≤ s.epsilon
  events : s'.events = renumberSet τ s.events
  out : s'.out = s.out.map (renumberSet τ)
  count : s.num = nonEmpty s.events
  count' : s'.num = nonEmpty s'.events

theorem nonEmpty_renumber (hr : Renumbering σ τ) (v : Fin n → List Ev) : nonEmpty (renumberSet τ v) = nonEmpty v := by
  unfold nonEmpty
  have := (renumber_perm hr).countP_eq (fun i => !(v i).isEmpty)
  rw [List.countP_map] at this
  exact this

theorem renumbered_num (hr : Renumbering σ τ) {s s' : State n} (h : Renumbered τ s s') : s'.num = s.num := by
  rw [h.count, h.count', h.events, nonEmpty_renumber hr]

theorem older_renumber (hr : Renumbering σ τ) (v : Fin n → List Ev) : (getOlder (renumberSet τ v)).1 = (getOlder v).1 := by
  have key : ∀ (v w : Fin n → List Ev), (∀ i, ∃ j, w j = v i) → (getOlder w).1 ≤ (getOlder v).1 := by
    intro v w h
    obtain ⟨h1, h2, _⟩ := getOlder_spec w
    rcases (getOlder_spec v).2.2 with h3 | ⟨i, e, tl, h3, h4⟩
    · rw [h3]; exact h1
    · rw [h4]
      obtain ⟨j, hj⟩ := h i
      exact h2 j e tl (hj.trans h3)
  apply Int.le_antisymm
  · exact key _ _ (fun i => ⟨σ i, by unfold renumberSet; rw [hr.back]⟩)
  · exact key _ _ (fun j => ⟨τ j, rfl⟩)

theorem checkAll_iff (v : Fin n → List Ev) (eps : Int) (heps : 0 ≤ eps) :
    checkAll v eps (getOlder v) = true ↔ ∀ i, ∃ e tl, v i = e :: tl ∧ e.stamp ≤ (getOlder v).1 + eps := by
  unfold checkAll
  rw [List.all_eq_true]
  constructor
  · intro h i
    have := h i (List.mem_finRange i)
    unfold withinEpsilon at this
    split at this
    · rename_i hi
      rcases (getOlder_spec v).2.2 with h3 | ⟨j, e, tl, h3, h4⟩
      · rw [h3] at hi; cases hi
      · rw [h4] at hi
        cases hi
        exact ⟨e, tl, h3, by rw [h4]; show e.stamp ≤ e.stamp + eps; omega⟩
    · cases hv : v i with
      | nil => rw [hv] at this; cases this
      | cons e tl =>
        rw [hv] at this
        exact ⟨e, tl, rfl, of_decide_eq_true this⟩
  · intro h i _
    obtain ⟨e, tl, h1, h2⟩ := h i
    unfold withinEpsilon
    split
    · rfl
    · rw [h1]
      exact decide_eq_true h2

theorem checkAll_renumber (hr : Renumbering σ τ) (v : Fin n → List Ev) (eps : Int) (heps : 0 ≤ eps) :
    checkAll (renumberSet τ v) eps (getOlder (renumberSet τ v)) = checkAll v eps (getOlder v) := by
  rw [Bool.eq_iff_iff, checkAll_iff _ _ heps, checkAll_iff _ _ heps, older_renumber hr]
  constructor
  · intro h i
    have := h (σ i)
    unfold renumberSet at this
    rwa [hr.back] at this
  · intro h j
    exact h (τ j)

theorem renumbered_eraseFront (hr : Renumbering σ τ) {s s' : State n} (h : Renumbered τ s s') (i : Fin n) :
    Renumbered τ (eraseFront s i) (eraseFront s' (σ i)) := by
  obtain ⟨a1, a2, a3, a4, a5⟩ := eraseFront_spec s i
  obtain ⟨b1, b2, b3, b4, b5⟩ := eraseFront_spec s' (σ i)
  refine ⟨by rw [a1, b1, h.queueSize], by rw [a2, b2, h.epsilon], by rw [a2]; exact h.nonneg, ?_, by rw [a3, b3, h.out],
    a5 h.count, b5 h.count'⟩
  rw [a4, b4, renumber_upd hr, h.events]
  unfold renumberSet
  rw [hr.back]

theorem renumbered_fronts {s s' : State n} (h : Renumbered τ s s') :
    Renumbered τ (eraseFronts s) (eraseFronts s') := by
  obtain ⟨a1, a2, a3, a4, a5⟩ := eraseFronts_spec s
  obtain ⟨b1, b2, b3, b4, b5⟩ := eraseFronts_spec s'
  refine ⟨by rw [a1, b1, h.queueSize], by rw [a2, b2, h.epsilon], by rw [a2]; exact h.nonneg, ?_, by rw [a3, b3, h.out],
    a4 h.count, b4 h.count'⟩
  funext j
  rw [b5, h.events]
  unfold renumberSet
  rw [a5]

theorem renumbered_old (ts : Int) {s s' : State n} (h : Renumbered τ s s') :
    Renumbered τ (eraseOld ts s) (eraseOld ts s') := by
  obtain ⟨a1, a2, a3, a4, a5⟩ := eraseOld_spec ts s
  obtain ⟨b1, b2, b3, b4, b5⟩ := eraseOld_spec ts s'
  refine ⟨by rw [a1, b1, h.queueSize], by rw [a2, b2, h.epsilon], by rw [a2]; exact h.nonneg, ?_, by rw [a3, b3, h.out],
    a4 h.count, b4 h.count'⟩
  funext j
  rw [b5, h.events, h.epsilon]
  unfold renumberSet
  rw [a5]
  rfl

theorem renumbered_signal (hr : Renumbering σ τ) {s s' : State n} (h : Renumbered τ s s') :
    RelE (Renumbered τ) (signal s) (signal s') := by
  unfold signal
  have e : (List.finRange n).all (fun i => !(s'.events i).isEmpty) = (List.finRange n).all (fun i => !(s.events i).isEmpty) := by
    rw [h.events]
    exact renumber_all hr (fun i => !(s.events i).isEmpty)
  rw [e]
  split
  · exact { h with out := by simp only [h.out, h.events, List.map_append, List.map_cons, List.map_nil]; rfl }
  · exact rfl

theorem renumbered_process (hr : Renumbering σ τ) : ∀ (fuel : Nat) (s s' : State n), Renumbered τ s s' →
    RelE (Renumbered τ) (process fuel s) (process fuel s') := by
  intro fuel
  induction fuel with
  | zero =>
    intro s s' h
    unfold process
    rw [renumbered_num hr h]
    split
    · exact rfl
    · exact h
  | succ fuel ih =>
    intro s s' h
    unfold process
    rw [renumbered_num hr h]
    split
    · have ho : (getOlder s'.events).1 = (getOlder s.events).1 := by rw [h.events, older_renumber hr]
      have hc : checkAll s'.events s'.epsilon (getOlder s'.events) = checkAll s.events s.epsilon (getOlder s.events) := by
        rw [h.events, h.epsilon, checkAll_renumber hr _ _ h.nonneg]
      dsimp only
      rw [hc]
      split
      · have hsig := renumbered_signal hr h
        cases h1 : signal s with
        | error f => rw [h1] at hsig; rw [relE_error hsig]; exact rfl
        | ok a =>
          rw [h1] at hsig
          obtain ⟨a', h2, h3⟩ := relE_ok hsig
          rw [h2]
          exact ih _ _ (renumbered_fronts h3)
      · rw [ho]
        exact ih _ _ (renumbered_old _ h)
    · exact h

theorem renumbered_add (hr : Renumbering σ τ) (fuel : Nat) {s s' : State n} (h : Renumbered τ s s') (i : Fin n) (e : Ev) :
    RelE (Renumbered τ) (add fuel s i e) (add fuel s' (σ i) e) := by
  have hd : s'.events (σ i) = s.events i := by rw [h.events]; unfold renumberSet; rw [hr.back]
  have hcnt : ∀ (t : State n) (j : Fin n), t.num = nonEmpty t.events →
      (if (t.events j).length = 0 then t.num + 1 else t.num) = nonEmpty (upd t.events j (t.events j ++ [e])) := by
    intro t j ht
    have := nonEmpty_upd t.events j (t.events j ++ [e])
    rw [this, ht]
    cases t.events j <;> simp
  have hm : Renumbered τ
      { s with num := if (s.events i).length = 0 then s.num + 1 else s.num, events := upd s.events i (s.events i ++ [e]) }
      { s' with num := if (s'.events (σ i)).length = 0 then s'.num + 1 else s'.num,
                events := upd s'.events (σ i) (s'.events (σ i) ++ [e]) } := by
    refine ⟨h.queueSize, h.epsilon, h.nonneg, ?_, h.out, hcnt s i h.count, hcnt s' (σ i) h.count'⟩
    rw [hd]
    simp only [renumber_upd hr, h.events]
  have hn := renumbered_num hr hm
  unfold add
  dsimp only
  dsimp only at hn
  have hl : (upd s'.events (σ i) (s'.events (σ i) ++ [e]) (σ i)).length = (upd s.events i (s.events i ++ [e]) i).length := by
    simp only [upd_same, hd]
  by_cases h1 : (if (s.events i).length = 0 then s.num + 1 else s.num) = (n : Int)
  · rw [if_pos h1, if_pos (hn.trans h1)]
    exact renumbered_process hr _ _ _ hm
  · have h1' : ¬(if (s'.events (σ i)).length = 0 then s'.num + 1 else s'.num) = (n : Int) := by rw [hn]; exact h1
    rw [if_neg h1, if_neg h1']
    by_cases h2 : (upd s.events i (s.events i ++ [e]) i).length > s.queueSize
    · have h2' : (upd s'.events (σ i) (s'.events (σ i) ++ [e]) (σ i)).length > s'.queueSize := by
        rw [hl, h.queueSize]; exact h2
      rw [if_pos h2, if_pos h2']
      exact renumbered_eraseFront hr hm i
    · have h2' : ¬(upd s'.events (σ i) (s'.events (σ i) ++ [e]) (σ i)).length > s'.queueSize := by
        rw [hl, h.queueSize]; exact h2
      rw [if_neg h2, if_neg h2']
      exact hm

end MF.Epsilon

namespace MF.Py

variable {n : Nat} {σ τ : Fin n → Fin n}

/-- The state after the same calls with the inputs numbered differently. -/
structure Renumbered (τ : Fin n → Fin n) (s s' : State n) : Prop where
  queueSize : s'.queueSize = s.queueSize
  queues : s'.queues = renumberSet τ s.queues
  locked : s'.locked = s.locked
  out : s'.out = s.out.map (renumberSet τ)

theorem common_renumber [NeZero n] (hr : Renumbering σ τ) (q : Fin n → Dict Ev) (hq : ∀ j, (q j).keys.Nodup) :
    sorted (fun a b => decide (a ≤ b)) (common (renumberSet τ q)) = sorted (fun a b => decide (a ≤ b)) (common q) := by
  have tr : ∀ a b c : Int, decide (a ≤ b) = true → decide (b ≤ c) = true → decide (a ≤ c) = true := by
    intro a b c h1 h2; simp only [decide_eq_true_eq] at *; omega
  have to : ∀ a b : Int, (decide (a ≤ b) || decide (b ≤ a)) = true := by
    intro a b; simp only [Bool.or_eq_true, decide_eq_true_eq]; omega
  apply List.Perm.eq_of_pairwise (le := fun a b => decide (a ≤ b) = true)
  · intro a b _ _ h1 h2
    simp only [decide_eq_true_eq] at *
    omega
  · exact pairwise_sorted tr to _
  · exact pairwise_sorted tr to _
  · refine (sorted_perm _ _).trans (List.Perm.trans ?_ (sorted_perm _ _).symm)
    refine (List.perm_ext_iff_of_nodup (nodup_common (fun j => hq (τ j))) (nodup_common hq)).2 ?_
    intro k
    rw [mem_common, mem_common]
    constructor
    · intro h i
      have := h (σ i)
      unfold renumberSet at this
      rwa [hr.back] at this
    · intro h j
      exact h (τ j)

theorem allSome_renumber (hr : Renumbering σ τ) (f : Fin n → Option Ev) :
    allSome (renumberSet τ f) = (allSome f).map (renumberSet τ) := by
  cases h : allSome f with
  | none =>
    obtain ⟨i, hi⟩ := allSome_none.1 h
    exact allSome_none.2 ⟨σ i, by unfold renumberSet; rw [hr.back]; exact hi⟩
  | some t =>
    exact allSome_some.2 (fun j => allSome_some.1 h (τ j))

theorem renumbered_loop (hr : Renumbering σ τ) (boom : Nat → Bool) : ∀ (ts : List Int) (s s' : State n), Renumbered τ s s' →
    Renumbered τ (tsLoop boom ts s).1 (tsLoop boom ts s').1 ∧ (tsLoop boom ts s').2 = (tsLoop boom ts s).2 := by
  intro ts
  induction ts with
  | nil => intro s s' h; exact ⟨h, rfl⟩
  | cons t ts ih =>
    intro s s' h
    have e : (fun j => (s'.queues j).get t) = renumberSet τ (fun j => (s.queues j).get t) := by
      rw [h.queues]; rfl
    have el : s'.out.length = s.out.length := by rw [h.out, List.length_map]
    simp only [tsLoop, e, allSome_renumber hr, el]
    cases allSome (fun j => (s.queues j).get t) with
    | none => exact ⟨h, rfl⟩
    | some msgs =>
      simp only [Option.map_some]
      split
      · exact ⟨{ h with out := by simp only [h.out, List.map_append, List.map_cons, List.map_nil] }, rfl⟩
      · apply ih
        exact { h with
          out := by simp only [h.out, List.map_append, List.map_cons, List.map_nil]
          queues := by simp only [h.queues]; rfl }

theorem renumbered_tsAdd [NeZero n] (hr : Renumbering σ τ) (boom : Nat → Bool) {s s' : State n} (h : Renumbered τ s s')
    (hinv : Inv s) (i : Fin n) (m : Msg) :
    RelE (fun r r' => Renumbered τ r.1 r'.1 ∧ r'.2 = r.2) (tsAdd boom s i m) (tsAdd boom s' (σ i) m) := by
  have hd : s'.queues (σ i) = s.queues i := by rw [h.queues]; unfold renumberSet; rw [hr.back]
  unfold tsAdd
  rw [h.locked]
  split
  · exact rfl
  split
  · exact ⟨{ h with locked := rfl }, rfl⟩
  dsimp only
  rw [hd, h.queueSize]
  have hset := (hinv.ok i).set m.ev
  have hu : ∀ d, Renumbered τ { s with queues := upd s.queues i d } { s' with queues := upd s'.queues (σ i) d } := by
    intro d
    exact { h with queues := by simp only [h.queues, renumber_upd hr] }
  by_cases hq : 0 ≤ s.queueSize
  · obtain ⟨d', hev, hE⟩ := evict_spec hq (((s.queues i).set m.ev.stamp m.ev).length + 1) _ hset.nodup (by omega)
    rw [hev]
    dsimp only
    have hnd : ∀ j, (upd s.queues i d' j).keys.Nodup := by
      intro j
      by_cases hj : j = i
      · subst hj; rw [upd_same]; exact (hset.sublist hE.sub).nodup
      · rw [upd_ne _ _ hj]; exact (hinv.ok j).nodup
    have hc : sorted (fun a b => decide (a ≤ b)) (common (upd s'.queues (σ i) d')) =
        sorted (fun a b => decide (a ≤ b)) (common (upd s.queues i d')) := by
      have := (hu d').queues
      dsimp only at this
      rw [this]
      exact common_renumber hr _ hnd
    rw [hc]
    obtain ⟨h1, h2⟩ := renumbered_loop hr boom (sorted (fun a b => decide (a ≤ b)) (common (upd s.queues i d'))) _ _ (hu d')
    rw [h.queueSize, h.locked] at h1 h2
    refine ⟨?_, h2⟩
    dsimp only
    exact { h1 with locked := h2 }
  · have hev := evict_negative (size := s.queueSize) (by omega) (((s.queues i).set m.ev.stamp m.ev).length + 1) _ hset.nodup
      (by omega)
    rw [hev]
    exact ⟨{ hu [] with locked := rfl, queueSize := rfl }, rfl⟩

end MF.Py

namespace MF.ApproxSpec

variable {n : Nat} {σ τ : Fin n → Fin n}

theorem startOf_renumber [NeZero n] (hr : Renumbering σ τ) (t : Fin n → Ev) : startOf (renumberSet τ t) = startOf t := by
  apply Int.le_antisymm
  · have := startOf_le (renumberSet τ t) (σ (oldest t))
    unfold renumberSet at this
    rw [hr.back] at this
    exact this
  · exact startOf_le t _

theorem endOf_renumber [NeZero n] (hr : Renumbering σ τ) (t : Fin n → Ev) : endOf (renumberSet τ t) = endOf t := by
  apply Int.le_antisymm
  · exact le_endOf t _
  · have := le_endOf (renumberSet τ t) (σ (newest t))
    unfold renumberSet at this
    rw [hr.back] at this
    exact this

theorem cost_renumber [NeZero n] (hr : Renumbering σ τ) (num den : Int) (t : Fin n → Ev) :
    cost num den (renumberSet τ t) = cost num den t := by
  unfold cost
  rw [startOf_renumber hr, endOf_renumber hr]

theorem renumber_forth {α : Type} (hr : Renumbering σ τ) (t : Fin n → α) : renumberSet τ (renumberSet σ t) = t := by
  funext j
  unfold renumberSet
  rw [hr.forth]

theorem possible_renumber (hr : Renumbering σ τ) (M : Int) (d : Fin n → List Ev) (T : Fin n → Ev) :
    Possible M (renumberSet τ d) (renumberSet τ T) ↔ Possible M d T := by
  constructor
  · rintro ⟨h1, h2⟩
    refine ⟨fun i => ?_, fun i j => ?_⟩
    · have := h1 (σ i)
      unfold renumberSet at this
      rwa [hr.back] at this
    · have := h2 (σ i) (σ j)
      unfold renumberSet at this
      rwa [hr.back, hr.back] at this
  · rintro ⟨h1, h2⟩
    exact ⟨fun j => h1 _, fun i j => h2 _ _⟩

theorem contiguous_renumber (hr : Renumbering σ τ) (M : Int) (d : Fin n → List Ev) (T : Fin n → Ev) :
    Contiguous M (renumberSet τ d) (renumberSet τ T) ↔ Contiguous M d T := by
  unfold Contiguous
  rw [possible_renumber hr]
  constructor
  · rintro ⟨h1, h2⟩
    refine ⟨h1, ?_⟩
    rintro ⟨U, h3, h4⟩
    exact h2 ⟨renumberSet τ U, (possible_renumber hr M d U).2 h3, fun j => h4 _⟩
  · rintro ⟨h1, h2⟩
    refine ⟨h1, ?_⟩
    rintro ⟨U, h3, h4⟩
    rw [← renumber_forth hr U] at h3
    refine h2 ⟨renumberSet σ U, (possible_renumber hr M d _).1 h3, fun i => ?_⟩
    have := h4 (σ i)
    unfold renumberSet at this ⊢
    rwa [hr.back] at this

theorem best_renumber [NeZero n] (hr : Renumbering σ τ) {M num den : Int} {d : Fin n → List Ev} {C : Fin n → Ev}
    (h : Best M num den d C) : Best M num den (renumberSet τ d) (renumberSet τ C) := by
  refine ⟨(contiguous_renumber hr M d C).2 h.1, fun T hT => ?_⟩
  rw [← renumber_forth hr T] at hT ⊢
  rw [cost_renumber hr, cost_renumber hr]
  rcases h.2 _ ((contiguous_renumber hr M d _).1 hT) with h1 | ⟨h1, h2⟩
  · exact .inl h1
  · exact .inr ⟨h1, fun j => h2 _⟩

theorem chosen_renumber [NeZero n] (hr : Renumbering σ τ) {M num den : Int} {d : Fin n → List Ev} {l : List (Fin n → Ev)}
    (h : Chosen M num den d l) : Chosen M num den (renumberSet τ d) (l.map (renumberSet τ)) := by
  induction h with
  | done h =>
    refine .done ?_
    rintro ⟨T, hT⟩
    rw [← renumber_forth hr T] at hT
    exact h ⟨_, (possible_renumber hr _ _ _).1 hT⟩
  | set h _ ih => exact .set (best_renumber hr h) ih

end MF.ApproxSpec

namespace MF

variable {n : Nat} {σ τ : Fin n → Fin n}

theorem stream_renumber (hr : Renumbering σ τ) (ops : List (Fin n × Ev)) : stream (renumber σ ops) = renumberSet τ (stream ops) := by
  funext j
  unfold stream renumber renumberSet
  rw [List.filter_map, List.map_map]
  have : (fun op : Fin n × Ev => decide (op.1 = j)) ∘ (fun op : Fin n × Ev => (σ op.1, op.2)) = fun op : Fin n × Ev => decide (op.1 = τ j) := by
    funext op
    apply decide_eq_decide.2
    constructor
    · intro h; rw [← h]; exact (hr.back _).symm
    · intro h; show σ op.1 = j; rw [h, hr.forth]
  rw [this]
  rfl

end MF
