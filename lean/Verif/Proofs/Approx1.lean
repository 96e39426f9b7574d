import Verif.Model.Approx
import Verif.Proofs.Epsilon
/-
Helper lemmas about the ApproximateTime model, part 1: boundaries, recovery and the effect of the primitive steps.
-/
namespace MF.Approx
open MF.Epsilon (nonEmpty nonEmpty_eq_iff nonEmpty_upd total)

variable {n : Nat}

/-- Stamp of the front message of input `i` (meaningful when `d i` is not empty). -/
def st (d : Fin n → List Ev) (i : Fin n) : Int := ((d i).headD default).stamp

theorem st_cons {d : Fin n → List Ev} {i : Fin n} {e : Ev} {tl : List Ev} (h : d i = e :: tl) : st d i = e.stamp := by
  simp [st, h]

/-- `m` is the first input whose front message is oldest. -/
def IsStart (d : Fin n → List Ev) (m : Fin n) : Prop := (∀ j, st d m ≤ st d j) ∧ ∀ j, j < m → st d m < st d j

/-- `m` is the last input whose front message is newest. -/
def IsEnd (d : Fin n → List Ev) (m : Fin n) : Prop := (∀ j, st d j ≤ st d m) ∧ ∀ j, m < j → st d j < st d m

theorem IsStart.unique {d : Fin n → List Ev} {a b : Fin n} (ha : IsStart d a) (hb : IsStart d b) : a = b := by
  apply Classical.byContradiction
  intro h
  rcases Nat.lt_or_gt_of_ne (fun h' => h (Fin.ext h')) with h1 | h1
  · have := hb.2 a h1; have := ha.1 b; omega
  · have := ha.2 b h1; have := hb.1 a; omega

theorem IsEnd.unique {d : Fin n → List Ev} {a b : Fin n} (ha : IsEnd d a) (hb : IsEnd d b) : a = b := by
  apply Classical.byContradiction
  intro h
  rcases Nat.lt_or_gt_of_ne (fun h' => h (Fin.ext h')) with h1 | h1
  · have := ha.2 b h1; have := hb.1 a; omega
  · have := hb.2 a h1; have := ha.1 b; omega

theorem boundary_fold (d : Fin n → List Ev) (hd : ∀ i, d i ≠ []) (isEnd : Bool) (l : List (Fin n)) (j : Fin n)
    (hl : (j :: l).Pairwise (· < ·)) :
    ∃ m, l.foldlM (checkBoundary d isEnd) (some (j, st d j)) = .ok (some (m, st d m)) ∧ m ∈ j :: l ∧
      if isEnd then (∀ k ∈ j :: l, st d k ≤ st d m) ∧ ∀ k ∈ j :: l, m < k → st d k < st d m
      else (∀ k ∈ j :: l, st d m ≤ st d k) ∧ ∀ k ∈ j :: l, k < m → st d m < st d k := by
  induction l using snoc_induction with
  | h0 => refine ⟨j, rfl, by simp, ?_⟩; cases isEnd <;> simp
  | hs l a ih =>
    have hl' : (j :: l).Pairwise (· < ·) := by
      rw [← List.cons_append, List.pairwise_append] at hl; exact hl.1
    have hla : ∀ k ∈ j :: l, k < a := by
      rw [← List.cons_append, List.pairwise_append] at hl
      intro k hk; exact hl.2.2 k hk a (by simp)
    obtain ⟨m, h1, h2, h3⟩ := ih hl'
    have ha0 : a.val ≠ 0 := by have := hla j (by simp); have : j.val < a.val := this; omega
    obtain ⟨e, tl, he⟩ : ∃ e tl, d a = e :: tl := by
      cases h : d a with
      | nil => exact absurd h (hd a)
      | cons e tl => exact ⟨e, tl, rfl⟩
    rw [List.foldlM_append, h1]
    simp only [bind, Except.bind]
    have hsa := st_cons he
    simp only [List.foldlM_cons, List.foldlM_nil, checkBoundary, he, if_neg ha0, bind, Except.bind, pure, Except.pure]
    have hma := hla m h2
    cases isEnd with
    | true =>
      simp only [Bool.xor_true, Bool.not_eq_true', decide_eq_false_iff_not] at h3 ⊢
      simp only [if_true] at h3 ⊢
      by_cases hc : e.stamp < st d m
      · rw [if_neg (by simpa using hc)]
        refine ⟨m, rfl, by simp at h2 ⊢; rcases h2 with h2 | h2 <;> simp [h2], ?_, ?_⟩
        · intro k hk
          simp only [← List.cons_append, List.mem_append, List.mem_singleton] at hk
          rcases hk with hk | hk
          · exact h3.1 k hk
          · subst hk; omega
        · intro k hk hmk
          simp only [← List.cons_append, List.mem_append, List.mem_singleton] at hk
          rcases hk with hk | hk
          · exact h3.2 k hk hmk
          · subst hk; omega
      · rw [if_pos (by simpa using hc), ← hsa]
        refine ⟨a, rfl, by simp, ?_, ?_⟩
        · intro k hk
          simp only [← List.cons_append, List.mem_append, List.mem_singleton] at hk
          rcases hk with hk | hk
          · have := h3.1 k hk; omega
          · subst hk; omega
        · intro k hk hmk
          simp only [← List.cons_append, List.mem_append, List.mem_singleton] at hk
          rcases hk with hk | hk
          · have := hla k hk; exact absurd (Fin.lt_trans this hmk) (by simp)
          · subst hk; exact absurd hmk (by simp)
    | false =>
      simp only [Bool.xor_false, decide_eq_true_eq] at h3 ⊢
      simp only [Bool.false_eq_true, if_false] at h3 ⊢
      by_cases hc : e.stamp < st d m
      · rw [if_pos hc, ← hsa]
        refine ⟨a, rfl, by simp, ?_, ?_⟩
        · intro k hk
          simp only [← List.cons_append, List.mem_append, List.mem_singleton] at hk
          rcases hk with hk | hk
          · have := h3.1 k hk; omega
          · subst hk; omega
        · intro k hk hmk
          simp only [← List.cons_append, List.mem_append, List.mem_singleton] at hk
          rcases hk with hk | hk
          · have := h3.1 k hk; omega
          · subst hk; exact absurd hmk (by simp)
      · rw [if_neg hc]
        refine ⟨m, rfl, by simp at h2 ⊢; rcases h2 with h2 | h2 <;> simp [h2], ?_, ?_⟩
        · intro k hk
          simp only [← List.cons_append, List.mem_append, List.mem_singleton] at hk
          rcases hk with hk | hk
          · exact h3.1 k hk
          · subst hk; omega
        · intro k hk hmk
          simp only [← List.cons_append, List.mem_append, List.mem_singleton] at hk
          rcases hk with hk | hk
          · exact h3.2 k hk hmk
          · subst hk; exact absurd (Fin.lt_trans hma hmk) (by simp)

theorem finRange_sorted (n : Nat) : (List.finRange n).Pairwise (· < ·) := by
  rw [List.pairwise_iff_getElem]
  intro i j hi hj hij
  simp only [List.getElem_finRange]
  exact hij

theorem boundary (d : Fin n → List Ev) (hn : 0 < n) (hd : ∀ i, d i ≠ []) (isEnd : Bool) :
    ∃ m, getCandidateBoundary d isEnd = .ok (m, st d m) ∧ if isEnd then IsEnd d m else IsStart d m := by
  obtain ⟨k, rfl⟩ : ∃ k, n = k + 1 := ⟨n - 1, by omega⟩
  have hsorted := finRange_sorted (k + 1)
  have hmem : ∀ i : Fin (k+1), i ∈ List.finRange (k+1) := List.mem_finRange
  rw [List.finRange_succ] at hsorted hmem
  obtain ⟨m, h1, h2, h3⟩ := boundary_fold d hd isEnd _ _ hsorted
  refine ⟨m, ?_, ?_⟩
  · unfold getCandidateBoundary
    rw [List.finRange_succ, List.foldlM_cons]
    have : checkBoundary d isEnd none 0 = .ok (some (0, st d 0)) := by
      unfold checkBoundary
      cases h : d 0 with
      | nil => exact absurd h (hd 0)
      | cons e tl => simp [st_cons h]
    rw [this]
    simp only [bind, Except.bind]
    rw [h1]
  · cases isEnd with
    | true => simp only [if_true] at h3 ⊢; exact ⟨fun j => h3.1 j (hmem j), fun j => h3.2 j (hmem j)⟩
    | false =>
      simp only [Bool.false_eq_true, if_false] at h3 ⊢
      exact ⟨fun j => h3.1 j (hmem j), fun j => h3.2 j (hmem j)⟩

theorem virtualBoundary_fold (times : Fin n → Int) (isEnd : Bool) (l : List (Fin n)) (j : Fin n) :
    ∃ m, l.foldl (virtualBoundaryStep times isEnd) (j, times j) = (m, times m) ∧
      if isEnd then ∀ k, k = j ∨ k ∈ l → times k ≤ times m else ∀ k, k = j ∨ k ∈ l → times m ≤ times k := by
  induction l generalizing j with
  | nil => refine ⟨j, rfl, ?_⟩; cases isEnd <;> simp
  | cons a l ih =>
    simp only [List.foldl_cons, virtualBoundaryStep]
    cases isEnd with
    | true =>
      simp only [Bool.xor_true, Bool.not_eq_true', decide_eq_false_iff_not, if_true] at ih ⊢
      by_cases hc : times a < times j
      · rw [if_neg (by simpa using hc)]
        obtain ⟨m, h1, h2⟩ := ih j
        refine ⟨m, h1, ?_⟩
        intro k hk
        rcases hk with hk | hk
        · exact h2 k (Or.inl hk)
        · rcases List.mem_cons.1 hk with hk | hk
          · subst hk; have := h2 j (Or.inl rfl); omega
          · exact h2 k (Or.inr hk)
      · rw [if_pos (by simpa using hc)]
        obtain ⟨m, h1, h2⟩ := ih a
        refine ⟨m, h1, ?_⟩
        intro k hk
        rcases hk with hk | hk
        · subst hk; have := h2 a (Or.inl rfl); omega
        · rcases List.mem_cons.1 hk with hk | hk
          · exact h2 k (Or.inl hk)
          · exact h2 k (Or.inr hk)
    | false =>
      simp only [Bool.xor_false, decide_eq_true_eq, Bool.false_eq_true, if_false] at ih ⊢
      by_cases hc : times a < times j
      · rw [if_pos hc]
        obtain ⟨m, h1, h2⟩ := ih a
        refine ⟨m, h1, ?_⟩
        intro k hk
        rcases hk with hk | hk
        · subst hk; have := h2 a (Or.inl rfl); omega
        · rcases List.mem_cons.1 hk with hk | hk
          · exact h2 k (Or.inl hk)
          · exact h2 k (Or.inr hk)
      · rw [if_neg hc]
        obtain ⟨m, h1, h2⟩ := ih j
        refine ⟨m, h1, ?_⟩
        intro k hk
        rcases hk with hk | hk
        · exact h2 k (Or.inl hk)
        · rcases List.mem_cons.1 hk with hk | hk
          · subst hk; have := h2 j (Or.inl rfl); omega
          · exact h2 k (Or.inr hk)

/-! ### Recovery -/

theorem moveBack_eq (k : Nat) (v q : List Ev) (h : k ≤ v.length) :
    moveBack k v q = (v.take (v.length - k), v.drop (v.length - k) ++ q) := by
  induction k generalizing v q with
  | zero => simp [moveBack]
  | succ k ih =>
    rcases List.eq_nil_or_concat v with hv | ⟨v', a, hv⟩
    · subst hv; simp at h
    · rw [List.concat_eq_append] at hv; subst hv
      simp only [moveBack, List.getLast?_concat, List.dropLast_concat]
      rw [ih v' (a :: q) (by simpa using h)]
      simp only [List.length_append, List.length_singleton]
      have h1 : v'.length + 1 - (k + 1) = v'.length - k := by omega
      rw [h1, List.take_append_of_le_length (by omega), List.drop_append_of_le_length (by omega)]
      simp

theorem moveBack_all (v q : List Ev) : moveBack v.length v q = ([], v ++ q) := by
  rw [moveBack_eq _ _ _ (Nat.le_refl _)]; simp

/-- What input `i` holds, oldest first: the messages set aside and the deque. -/
def view (s : State n) (i : Fin n) : List Ev := s.past i ++ s.deques i

/-- Input `i` replaced by `v` set aside and `q` in the deque, which is counted if it is not empty. -/
def refill (s : State n) (i : Fin n) (v q : List Ev) : State n :=
  { s with past := upd s.past i v, deques := upd s.deques i q, num := s.num + if q.isEmpty then 0 else 1 }

/-- Inputs in `l` replaced by `v` and `q`. -/
def refillAll (s : State n) (l : List (Fin n)) (v q : Fin n → List Ev) : State n :=
  { s with past := fun i => if i ∈ l then v i else s.past i, deques := fun i => if i ∈ l then q i else s.deques i,
           num := s.num + l.countP (fun i => !(q i).isEmpty) }

theorem refill_cons (s : State n) (a : Fin n) (l : List (Fin n)) (hl : (a :: l).Nodup) (v q : Fin n → List Ev) :
    refillAll (refill s a (v a) (q a)) l v q = refillAll s (a :: l) v q := by
  have hl' := List.nodup_cons.1 hl
  unfold refillAll refill
  congr 1
  · funext i
    by_cases hia : i = a
    · subst hia; simp [hl'.1]
    · by_cases hil : i ∈ l <;> simp [hil, hia, upd_ne]
  · rw [List.countP_cons]
    cases (q a).isEmpty <;> simp <;> omega
  · funext i
    by_cases hia : i = a
    · subst hia; simp [hl'.1]
    · by_cases hil : i ∈ l <;> simp [hil, hia, upd_ne]

theorem refillAll_congr (s : State n) (l : List (Fin n)) (v q v' q' : Fin n → List Ev) (hv : ∀ i ∈ l, v i = v' i)
    (hq : ∀ i ∈ l, q i = q' i) : refillAll s l v q = refillAll s l v' q' := by
  unfold refillAll
  congr 1
  · funext i; by_cases hil : i ∈ l <;> simp [hil, hq]
  · congr 2; apply List.countP_congr; intro i hi; rw [hq i hi]
  · funext i; by_cases hil : i ∈ l <;> simp [hil, hv]

theorem refillAll_all (s : State n) (v q : Fin n → List Ev) :
    refillAll { s with num := 0 } (List.finRange n) v q = { s with past := v, deques := q, num := (nonEmpty q : Int) } := by
  unfold refillAll
  simp only [List.mem_finRange, if_true, Int.zero_add]
  rfl

/-- A fold of per-input replacements, each of which depends only on what its own input holds. -/
theorem refill_foldM (f : State n → Fin n → Except Fault (State n)) (V Q : List Ev → List Ev → Fin n → List Ev)
    (P : List Ev → List Ev → Fin n → Prop)
    (hf : ∀ s i, P (s.past i) (s.deques i) i → f s i = .ok (refill s i (V (s.past i) (s.deques i) i) (Q (s.past i) (s.deques i) i)))
    (l : List (Fin n)) (hl : l.Nodup) : ∀ s : State n, (∀ i ∈ l, P (s.past i) (s.deques i) i) →
    l.foldlM f s = .ok (refillAll s l (fun i => V (s.past i) (s.deques i) i) (fun i => Q (s.past i) (s.deques i) i)) := by
  induction l with
  | nil => intro s _; simp [refillAll]; rfl
  | cons a l ih =>
    intro s hs
    have hl' := List.nodup_cons.1 hl
    have hne : ∀ i ∈ l, i ≠ a := fun i hi h => hl'.1 (h ▸ hi)
    rw [List.foldlM_cons, hf s a (hs a (by simp))]
    simp only [bind, Except.bind]
    have hp : ∀ i ∈ l, ∀ v q, (refill s a v q).past i = s.past i := by
      intro i hi v q; simp [refill, upd_ne _ _ (hne i hi)]
    have hq : ∀ i ∈ l, ∀ v q, (refill s a v q).deques i = s.deques i := by
      intro i hi v q; simp [refill, upd_ne _ _ (hne i hi)]
    rw [ih hl'.2 _ (fun i hi => by rw [hp i hi, hq i hi]; exact hs i (by simp [hi]))]
    congr 1
    rw [← refill_cons s a l hl]
    apply refillAll_congr
    · intro i hi; rw [hp i hi, hq i hi]
    · intro i hi; rw [hp i hi, hq i hi]

theorem foldlM_ok {S A : Type} (f : S → A → S) (l : List A) (s : S) :
    l.foldlM (fun s a => (Except.ok (f s a) : Except Fault S)) s = .ok (l.foldl f s) := by
  induction l generalizing s with
  | nil => rfl
  | cons a l ih => rw [List.foldlM_cons, List.foldl_cons]; exact ih _

theorem recover_eq (s : State n) (i : Fin n) : recover s i = refill s i [] (view s i) := by
  unfold recover countNonEmpty refill
  simp only [moveBack_all, upd_same]
  unfold view
  split <;> simp_all

theorem recoverAll_eq (s : State n) :
    recoverAll { s with num := 0 } = { s with past := fun _ => [], deques := view s, num := (nonEmpty (view s) : Int) } := by
  have h := refill_foldM (n := n) (fun s i => .ok (recover s i)) (fun _ _ _ => []) (fun p d _ => p ++ d) (fun _ _ _ => True)
    (fun s i _ => by rw [recover_eq]; rfl) (List.finRange n) (List.nodup_finRange n) { s with num := 0 } (fun _ _ => trivial)
  rw [foldlM_ok] at h
  unfold recoverAll
  rw [Except.ok.inj h]
  exact refillAll_all s _ _

theorem recoverAndDelete_eq (s : State n) (i : Fin n) (h : view s i ≠ []) :
    recoverAndDelete s i = .ok (refill s i [] (view s i).tail) := by
  unfold recoverAndDelete countNonEmpty refill
  simp only [moveBack_all, upd_same]
  unfold view at *
  cases hv : s.past i ++ s.deques i with
  | nil => exact absurd hv h
  | cons e tl => simp only [List.tail_cons]; split <;> simp_all

theorem recoverN_eq (moves : Fin n → Nat) (s : State n) (i : Fin n) (h : moves i ≤ (s.past i).length) :
    recoverN moves s i = .ok (refill s i ((s.past i).take ((s.past i).length - moves i))
      ((s.past i).drop ((s.past i).length - moves i) ++ s.deques i)) := by
  unfold recoverN countNonEmpty refill
  rw [if_pos h]
  simp only [moveBack_eq _ _ _ h, upd_same]
  split <;> simp_all

theorem recoverAllN_eq (moves : Fin n → Nat) (s : State n) (h : ∀ i, moves i ≤ (s.past i).length) :
    recoverAllN moves { s with num := 0 } = .ok
    { s with past := fun i => (s.past i).take ((s.past i).length - moves i),
             deques := fun i => (s.past i).drop ((s.past i).length - moves i) ++ s.deques i,
             num := (nonEmpty (fun i => (s.past i).drop ((s.past i).length - moves i) ++ s.deques i) : Int) } := by
  unfold recoverAllN
  rw [refill_foldM (recoverN moves) (fun p _ i => p.take (p.length - moves i)) (fun p d i => p.drop (p.length - moves i) ++ d)
    (fun p _ i => moves i ≤ p.length) (fun s i h => recoverN_eq moves s i h) (List.finRange n) (List.nodup_finRange n)
    { s with num := 0 } (fun i _ => h i)]
  rw [refillAll_all]

/-- The state after the candidate has been published. -/
def published (s : State n) : State n :=
  { s with past := fun _ => [], deques := fun i => (view s i).tail, num := (nonEmpty (fun i => (view s i).tail) : Int),
           out := s.out ++ [s.cand], cand := fun _ => none, pivot := none }

theorem publish_eq (s : State n) (h : ∀ i, view s i ≠ []) : publishCandidate s = .ok (published s) := by
  unfold publishCandidate
  rw [refill_foldM recoverAndDelete (fun _ _ _ => []) (fun p d _ => (p ++ d).tail) (fun p d _ => p ++ d ≠ [])
    (fun s i h => recoverAndDelete_eq s i h) (List.finRange n) (List.nodup_finRange n)
    { s with out := s.out ++ [s.cand], cand := fun _ => none, pivot := none, num := 0 } (fun i _ => h i)]
  congr 1
  exact refillAll_all { s with out := s.out ++ [s.cand], cand := fun _ => none, pivot := none } _ _

/-! ### Moving one message -/

/-- The state after the front of deque `i` was moved to the past. -/
def moved (s : State n) (i : Fin n) : State n :=
  { s with past := upd s.past i (s.past i ++ (s.deques i).take 1), deques := upd s.deques i (s.deques i).tail,
           num := (nonEmpty (upd s.deques i (s.deques i).tail) : Int) }

theorem move_eq (s : State n) (i : Fin n) (hnum : s.num = nonEmpty s.deques) (h : s.deques i ≠ []) :
    dequeMoveFrontToPast s i = .ok (moved s i) := by
  unfold dequeMoveFrontToPast moved
  cases hd : s.deques i with
  | nil => exact absurd hd h
  | cons e tl =>
    simp only [List.take_succ_cons, List.take_zero, List.tail_cons]
    congr 2
    rw [nonEmpty_upd, hd, hnum]
    cases tl <;> simp <;> omega

theorem view_moved (s : State n) (i : Fin n) : view (moved s i) = view s := by
  funext j
  unfold view moved
  by_cases hj : j = i
  · subst hj
    simp only [upd_same]
    cases s.deques j <;> simp
  · simp [upd_ne _ _ hj]

/-- The state after the front of deque `i` was deleted. -/
def deleted (s : State n) (i : Fin n) : State n :=
  { s with deques := upd s.deques i (s.deques i).tail, num := (nonEmpty (upd s.deques i (s.deques i).tail) : Int) }

theorem delete_eq (s : State n) (i : Fin n) (hnum : s.num = nonEmpty s.deques) (h : s.deques i ≠ []) :
    dequeDeleteFront s i = .ok (deleted s i) := by
  unfold dequeDeleteFront deleted
  cases hd : s.deques i with
  | nil => exact absurd hd h
  | cons e tl =>
    simp only [List.tail_cons]
    congr 2
    rw [nonEmpty_upd, hd, hnum]
    cases tl <;> simp <;> omega

/-- The state after a candidate was made from the front messages. -/
def candidated (s : State n) : State n := { s with cand := fun i => (s.deques i).head?, past := fun _ => [] }

theorem makeCandidate_eq (s : State n) (h : ∀ i, s.deques i ≠ []) : makeCandidate s = .ok (candidated s) := by
  unfold makeCandidate
  rw [if_pos (by rw [List.all_eq_true]; intro i _; simpa using h i)]
  rfl

end MF.Approx
