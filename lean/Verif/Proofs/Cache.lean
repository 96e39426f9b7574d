import Verif.Model.Cache
import Verif.Spec.Cache
/-
Helper lemmas about the cache model.
-/
namespace MF.Cache

theorem popLoop_eq (n : Nat) (hn : 0 < n) (l : List Ev) :
    popLoop n l = .ok (l.drop (l.length + 1 - n)) := by
  induction l with
  | nil => simp [popLoop]; omega
  | cons e l ih =>
    unfold popLoop
    split
    · rename_i h
      rw [ih]
      simp only [List.length_cons] at h ⊢
      have : l.length + 1 + 1 - n = (l.length + 1 - n) + 1 := by omega
      rw [this, List.drop_succ_cons]
    · rename_i h
      simp only [List.length_cons] at h ⊢
      have : l.length + 1 + 1 - n = 0 := by omega
      rw [this, List.drop_zero]

theorem insertBack_spec (e : Ev) (rev passed : List Ev) :
    ∃ a b, rev.reverse = a ++ b ∧ insertBack e rev passed = a ++ e :: (b ++ passed) ∧
      (∀ x ∈ b, e.stamp < x.stamp) ∧ (∀ x, a.getLast? = some x → x.stamp ≤ e.stamp) := by
  induction rev generalizing passed with
  | nil => exact ⟨[], [], by simp, by simp [insertBack], by simp, by simp⟩
  | cons x rev ih =>
    unfold insertBack
    split
    · rename_i h
      obtain ⟨a, b, h1, h2, h3, h4⟩ := ih (x :: passed)
      refine ⟨a, b ++ [x], ?_, ?_, ?_, h4⟩
      · simp [h1]
      · simp [h2]
      · intro y hy
        rcases List.mem_append.1 hy with hy | hy
        · exact h3 y hy
        · simp at hy; subst hy; exact h
    · rename_i h
      refine ⟨(x :: rev).reverse, [], by simp, by simp, by simp, ?_⟩
      intro y hy
      simp at hy
      subst hy; omega

/-- Insertion into a sorted list: everything before is not newer, everything behind is newer. -/
theorem insertBack_sorted_spec (e : Ev) (l : List Ev) (hl : TimeSorted l) :
    ∃ a b, l = a ++ b ∧ insertBack e l.reverse [] = a ++ e :: b ∧
      (∀ x ∈ a, x.stamp ≤ e.stamp) ∧ (∀ x ∈ b, e.stamp < x.stamp) := by
  obtain ⟨a, b, h1, h2, h3, h4⟩ := insertBack_spec e l.reverse []
  simp only [List.reverse_reverse, List.append_nil] at h1 h2
  refine ⟨a, b, h1, h2, ?_, h3⟩
  intro x hx
  rcases List.eq_nil_or_concat a with ha | ⟨a', z, ha⟩
  · simp [ha] at hx
  · have hz : z.stamp ≤ e.stamp := h4 z (by simp [ha])
    rw [ha, List.concat_eq_append] at hx
    rcases List.mem_append.1 hx with hx | hx
    · have hs : TimeSorted (a' ++ [z] ++ b) := by simpa [h1, ha, List.concat_eq_append] using hl
      unfold TimeSorted at hs
      rw [List.pairwise_append, List.pairwise_append] at hs
      have := hs.1.2.2 x hx z (by simp)
      omega
    · simp at hx; subst hx; exact hz

/-- The shape of one `add` on an initialised, sorted cache. -/
theorem add_spec (s : State) (n : Nat) (hn : 0 < n) (hsz : s.size = some n) (hs : TimeSorted s.items) (e : Ev) :
    ∃ a b, s.items.drop (s.items.length + 1 - n) = a ++ b ∧
      add s e = .ok { s with items := a ++ e :: b, out := s.out ++ [e] } ∧
      (∀ x ∈ a, x.stamp ≤ e.stamp) ∧ (∀ x ∈ b, e.stamp < x.stamp) := by
  have hk : TimeSorted (s.items.drop (s.items.length + 1 - n)) := hs.sublist (List.drop_sublist _ _)
  obtain ⟨a, b, h1, h2, h3, h4⟩ := insertBack_sorted_spec e _ hk
  refine ⟨a, b, h1, ?_, h3, h4⟩
  simp [add, insertLocked, forward, hsz, popLoop_eq n hn, h2]

theorem sorted_insert {a b : List Ev} {e : Ev} (h : TimeSorted (a ++ b))
    (ha : ∀ x ∈ a, x.stamp ≤ e.stamp) (hb : ∀ x ∈ b, e.stamp < x.stamp) : TimeSorted (a ++ e :: b) := by
  unfold TimeSorted at *
  rw [List.pairwise_append] at h ⊢
  refine ⟨h.1, ?_, ?_⟩
  · rw [List.pairwise_cons]
    exact ⟨fun y hy => by have := hb y hy; omega, h.2.1⟩
  · intro x hx y hy
    rcases List.mem_cons.1 hy with rfl | hy
    · exact ha x hx
    · exact h.2.2 x hx y hy

/-- The invariant of reachable caches. -/
structure Inv (s : State) : Prop where
  init : ∃ n, 0 < n ∧ s.size = some n
  sorted : TimeSorted s.items

theorem inv_construct {n : Nat} (hn : 0 < n) : Inv (construct n) := by
  have h0 : n ≠ 0 := by omega
  constructor
  · exact ⟨n, hn, by simp [construct, setCacheSize, h0]⟩
  · simp [construct, setCacheSize, h0, TimeSorted]

theorem step_inv {s : State} (hs : Inv s) (op : Op) : ∃ s', step s op = .ok s' ∧ Inv s' := by
  obtain ⟨⟨n, hn, hsz⟩, hsorted⟩ := hs
  cases op with
  | add e =>
    obtain ⟨a, b, h1, h2, h3, h4⟩ := add_spec s n hn hsz hsorted e
    refine ⟨_, h2, ⟨n, hn, hsz⟩, ?_⟩
    have : TimeSorted (a ++ b) := h1 ▸ hsorted.sublist (List.drop_sublist _ _)
    exact sorted_insert this h3 h4
  | setSize m =>
    refine ⟨_, rfl, ?_⟩
    unfold setCacheSize
    split
    · exact ⟨⟨n, hn, hsz⟩, hsorted⟩
    · exact ⟨⟨m, by omega, rfl⟩, hsorted⟩

theorem run_append (s : State) (xs ys : List Op) :
    run s (xs ++ ys) = match run s xs with | .error f => .error f | .ok s' => run s' ys := by
  induction xs generalizing s with
  | nil => rfl
  | cons x xs ih =>
    simp only [List.cons_append, run]
    cases step s x with
    | error f => rfl
    | ok s' => exact ih s'

theorem run_inv {s : State} (hs : Inv s) (ops : List Op) : ∃ s', run s ops = .ok s' ∧ Inv s' := by
  induction ops generalizing s with
  | nil => exact ⟨s, rfl, hs⟩
  | cons op ops ih =>
    obtain ⟨s1, h1, h2⟩ := step_inv hs op
    obtain ⟨s2, h3, h4⟩ := ih h2
    exact ⟨s2, by simp [run, h1, h3], h4⟩

theorem run_inv' {s s' : State} (hs : Inv s) {ops : List Op} (h : run s ops = .ok s') : Inv s' := by
  obtain ⟨s2, h1, h2⟩ := run_inv hs ops
  rw [h] at h1; cases h1; exact h2

/-! ### Index loops -/

theorem scanUp_eq (p : Ev → Bool) (l : List Ev) (k i : Nat) (hk : l.length ≤ i + k) :
    scanUp p l k i = i + ((l.drop i).takeWhile p).length := by
  induction k generalizing i with
  | zero =>
    have : l.drop i = [] := List.drop_eq_nil_of_le (by omega)
    simp [scanUp, this]
  | succ k ih =>
    unfold scanUp
    by_cases hi : i < l.length
    · rw [List.getElem?_eq_getElem hi]
      simp only
      rw [List.drop_eq_getElem_cons hi, List.takeWhile_cons]
      split
      · rw [ih (i + 1) (by omega)]
        simp; omega
      · simp
    · rw [List.getElem?_eq_none (by omega)]
      have : l.drop i = [] := List.drop_eq_nil_of_le (by omega)
      simp [this]

theorem drop_takeWhile_length (p : Ev → Bool) (l : List Ev) :
    l.drop (l.takeWhile p).length = l.dropWhile p := by
  induction l with
  | nil => simp
  | cons x l ih =>
    rw [List.takeWhile_cons, List.dropWhile_cons]
    split <;> simp [ih]

theorem take_takeWhile_length (p : Ev → Bool) (l : List Ev) :
    l.take (l.takeWhile p).length = l.takeWhile p := by
  induction l with
  | nil => simp
  | cons x l ih =>
    rw [List.takeWhile_cons]
    split <;> simp [ih]

/-- On a sorted list, skipping the prefix below `start` and keeping the prefix up to `end_` is filtering. -/
theorem sorted_interval (l : List Ev) (hl : TimeSorted l) (start end_ : Int) :
    (l.dropWhile (fun x => decide (x.stamp < start))).takeWhile (fun x => decide (x.stamp ≤ end_)) =
      l.filter (fun x => decide (start ≤ x.stamp ∧ x.stamp ≤ end_)) := by
  induction l with
  | nil => simp
  | cons x l ih =>
    have hl' := List.pairwise_cons.1 hl
    by_cases h1 : x.stamp < start
    · rw [List.dropWhile_cons_of_pos (by simpa using h1), ih hl'.2, List.filter_cons_of_neg]
      simp; omega
    · rw [List.dropWhile_cons_of_neg (by simpa using h1)]
      by_cases h2 : x.stamp ≤ end_
      · rw [List.takeWhile_cons_of_pos (by simpa using h2), List.filter_cons_of_pos (by simp; omega)]
        rw [← ih hl'.2]
        congr 1
        have : l.dropWhile (fun x => decide (x.stamp < start)) = l := by
          cases l with
          | nil => rfl
          | cons y l =>
            rw [List.dropWhile_cons_of_neg]
            have := hl'.1 y (by simp)
            simp; omega
        rw [this]
      · rw [List.takeWhile_cons_of_neg (by simpa using h2)]
        symm
        rw [List.filter_eq_nil_iff]
        intro y hy
        rcases List.mem_cons.1 hy with rfl | hy
        · simp; omega
        · have := hl'.1 y hy
          simp; omega

theorem getInterval_eq (s : State) (hs : TimeSorted s.items) (start end_ : Int) :
    getInterval s start end_ = s.items.filter (fun x => decide (start ≤ x.stamp ∧ x.stamp ≤ end_)) := by
  unfold getInterval
  simp only
  rw [scanUp_eq _ _ _ _ (by omega), scanUp_eq _ _ _ _ (by omega)]
  simp only [List.drop_zero, Nat.zero_add]
  rw [drop_takeWhile_length, Nat.add_sub_cancel_left, take_takeWhile_length]
  exact sorted_interval _ hs _ _

/-! ### Closest elements -/

theorem beforeLoop_spec (t : Int) (l : List Ev) (k i : Nat) (elem : Option Nat) (hk : l.length ≤ i + k) :
    beforeLoop t l k i elem =
      (let m := ((l.drop i).takeWhile (fun x => decide (x.stamp < t))).length
       if m = 0 then elem else some (i + m - 1)) := by
  induction k generalizing i elem with
  | zero =>
    have : l.drop i = [] := List.drop_eq_nil_of_le (by omega)
    simp [beforeLoop, this]
  | succ k ih =>
    unfold beforeLoop
    by_cases hi : i < l.length
    · rw [List.getElem?_eq_getElem hi]
      simp only
      rw [List.drop_eq_getElem_cons hi]
      by_cases h : l[i].stamp < t
      · rw [if_pos h, ih _ _ (by omega), List.takeWhile_cons_of_pos (by simpa using h)]
        simp only [List.length_cons]
        by_cases hm : ((l.drop (i+1)).takeWhile (fun x => decide (x.stamp < t))).length = 0
        · simp [hm]
        · simp [hm]
      · rw [if_neg h, List.takeWhile_cons_of_neg (by simpa using h)]
        simp
    · rw [List.getElem?_eq_none (by omega)]
      have : l.drop i = [] := List.drop_eq_nil_of_le (by omega)
      simp [this]

theorem getElemBeforeTime_eq (s : State) (t : Int) :
    getElemBeforeTime s t = (s.items.takeWhile (fun x => decide (x.stamp < t))).getLast? := by
  unfold getElemBeforeTime
  rw [beforeLoop_spec _ _ _ _ _ (by omega)]
  simp only [List.drop_zero, Nat.zero_add]
  rw [List.getLast?_eq_getElem?]
  by_cases hm : (s.items.takeWhile (fun x => decide (x.stamp < t))).length = 0
  · simp [hm]
  · simp only [hm, if_false]
    have hlt : (s.items.takeWhile (fun x => decide (x.stamp < t))).length - 1 <
      (s.items.takeWhile (fun x => decide (x.stamp < t))).length := by omega
    have hpre := List.takeWhile_prefix (fun x : Ev => decide (x.stamp < t)) (l := s.items)
    obtain ⟨tl, htl⟩ := hpre
    generalize hT : s.items.takeWhile (fun x => decide (x.stamp < t)) = T at *
    rw [← htl, List.getElem?_append_left hlt]

theorem sorted_takeWhile_eq_filter (l : List Ev) (hl : TimeSorted l) (t : Int) :
    l.takeWhile (fun x => decide (x.stamp < t)) = l.filter (fun x => decide (x.stamp < t)) := by
  induction l with
  | nil => rfl
  | cons x l ih =>
    have hl' := List.pairwise_cons.1 hl
    by_cases h : x.stamp < t
    · rw [List.takeWhile_cons_of_pos (by simpa using h), List.filter_cons_of_pos (by simpa using h), ih hl'.2]
    · rw [List.takeWhile_cons_of_neg (by simpa using h)]
      symm
      rw [List.filter_eq_nil_iff]
      intro y hy
      rcases List.mem_cons.1 hy with rfl | hy
      · simpa using h
      · have := hl'.1 y hy
        simp; omega

theorem afterLoop_spec (t : Int) (l : List Ev) (hl : TimeSorted l) (i : Nat) (elem : Option Nat)
    (hi : i ≤ l.length) :
    (match afterLoop t l i elem with | some j => l[j]? | none => none) =
      match ((l.take i).filter (fun x => decide (t < x.stamp))).head? with
      | some x => some x
      | none => (match elem with | some j => l[j]? | none => none) := by
  induction i generalizing elem with
  | zero => simp [afterLoop]
  | succ i ih =>
    unfold afterLoop
    have hi' : i < l.length := by omega
    rw [List.getElem?_eq_getElem hi', ← List.take_append_getElem hi']
    simp only [List.filter_append]
    by_cases h : l[i].stamp > t
    · rw [if_pos h, ih _ (by omega)]
      simp only [h, decide_true, List.filter_cons_of_pos, List.filter_nil]
      cases hf : (l.take i).filter (fun x => decide (t < x.stamp)) with
      | nil => simp [hi']
      | cons y ys => simp
    · rw [if_neg h]
      have : (l.take i).filter (fun x => decide (t < x.stamp)) = [] := by
        rw [List.filter_eq_nil_iff]
        intro y hy
        have hs : TimeSorted (l.take i ++ [l[i]] ++ l.drop (i+1)) := by
          rw [List.take_append_getElem hi', List.take_append_drop]; exact hl
        unfold TimeSorted at hs
        rw [List.pairwise_append, List.pairwise_append] at hs
        have := hs.1.2.2 y hy l[i] (by simp)
        simp; omega
      rw [this]
      have h2 : List.filter (fun x => decide (t < x.stamp)) [l[i]] = [] := by
        rw [List.filter_eq_nil_iff]; intro y hy; simp at hy; subst hy; simp; omega
      rw [h2]
      simp

theorem getElemAfterTime_eq (s : State) (hs : TimeSorted s.items) (t : Int) :
    getElemAfterTime s t = (s.items.filter (fun x => decide (t < x.stamp))).head? := by
  unfold getElemAfterTime
  have := afterLoop_spec t s.items hs s.items.length none (by omega)
  simp only [List.take_length] at this
  refine Eq.trans ?_ (this.trans ?_)
  · cases afterLoop t s.items s.items.length none <;> rfl
  · cases (s.items.filter (fun x => decide (t < x.stamp))).head? <;> rfl

/-! ### Surrounding interval -/

theorem scanDown_le (p : Ev → Bool) (l : List Ev) (i : Nat) : scanDown p l i ≤ i := by
  induction i with
  | zero => simp [scanDown]
  | succ i ih =>
    unfold scanDown
    split
    · split
      · omega
      · omega
    · omega

/-- Everything walked over satisfies `p`; the stopping element does not (unless it is the first). -/
theorem scanDown_spec (p : Ev → Bool) (l : List Ev) (i : Nat) (hi : i < l.length) (r : Nat)
    (hr : scanDown p l i = r) :
    (∀ j (_ : j < l.length), r < j → j ≤ i → p l[j] = true) ∧
    (r = 0 ∨ ∀ h : r < l.length, p l[r] = false) := by
  induction i with
  | zero =>
    simp only [scanDown] at hr
    exact ⟨by intro j _ h1 h2; omega, Or.inl hr.symm⟩
  | succ i ih =>
    unfold scanDown at hr
    rw [List.getElem?_eq_getElem hi] at hr
    simp only at hr
    by_cases hp : p l[i+1] = true
    · rw [if_pos hp] at hr
      obtain ⟨ih1, ih2⟩ := ih (by omega) hr
      refine ⟨?_, ih2⟩
      intro j hj h1 h2
      by_cases hji : j = i + 1
      · subst hji; exact hp
      · exact ih1 j hj h1 (by omega)
    · rw [if_neg hp] at hr
      subst hr
      refine ⟨by intro j _ h1 h2; omega, Or.inr ?_⟩
      intro _
      simpa using hp

theorem scanUpTo_spec (p : Ev → Bool) (l : List Ev) (k i : Nat) (hi : i < l.length) (hk : l.length ≤ i + k + 1)
    (r : Nat) (hr : scanUpTo p l k i = r) :
    i ≤ r ∧ r < l.length ∧
    (∀ j (_ : j < l.length), i ≤ j → j < r → p l[j] = true) ∧
    (r = l.length - 1 ∨ ∀ h : r < l.length, p l[r] = false) := by
  induction k generalizing i with
  | zero =>
    simp only [scanUpTo] at hr
    exact ⟨by omega, by omega, by intro j _ h1 h2; omega, Or.inl (by omega)⟩
  | succ k ih =>
    unfold scanUpTo at hr
    by_cases h : i < l.length - 1
    · rw [if_pos h, List.getElem?_eq_getElem hi] at hr
      simp only at hr
      by_cases hp : p l[i] = true
      · rw [if_pos hp] at hr
        obtain ⟨h1, h2, h3, h4⟩ := ih (i + 1) (by omega) (by omega) hr
        refine ⟨by omega, h2, ?_, h4⟩
        intro j hj hij hjs
        by_cases hji : j = i
        · subst hji; exact hp
        · exact h3 j hj (by omega) hjs
      · rw [if_neg hp] at hr
        subst hr
        exact ⟨by omega, hi, by intro j _ h1 h2; omega, Or.inr (fun _ => by simpa using hp)⟩
    · rw [if_neg h] at hr
      subst hr
      exact ⟨by omega, hi, by intro j _ h1 h2; omega, Or.inl (by omega)⟩

/-! ### Histories -/

theorem added_append (xs ys : List Op) : added (xs ++ ys) = added xs ++ added ys := by
  induction xs with
  | nil => rfl
  | cons x xs ih => cases x <;> simp [added, ih]

theorem configuredSize_append (n : Nat) (xs ys : List Op) :
    configuredSize n (xs ++ ys) = configuredSize (configuredSize n xs) ys := by
  induction xs generalizing n with
  | nil => rfl
  | cons x xs ih => cases x <;> simp [configuredSize, ih]

/-- Induction over the last call of a successful history. -/
theorem run_induction {P : List Op → State → Prop} {s0 : State} (h0 : P [] s0)
    (hstep : ∀ ops s op s', run s0 ops = .ok s → P ops s → step s op = .ok s' → P (ops ++ [op]) s') :
    ∀ ops s, run s0 ops = .ok s → P ops s := by
  have key : ∀ k ops s, ops.length = k → run s0 ops = .ok s → P ops s := by
    intro k
    induction k with
    | zero =>
      intro ops s hk h
      have : ops = [] := List.eq_nil_of_length_eq_zero hk
      subst this
      simp only [run, Except.ok.injEq] at h
      subst h; exact h0
    | succ k ih =>
      intro ops s hk h
      rcases List.eq_nil_or_concat ops with hn | ⟨ops', op, hc⟩
      · subst hn; simp at hk
      · rw [List.concat_eq_append] at hc
        subst hc
        rw [run_append] at h
        cases h1 : run s0 ops' with
        | error f => rw [h1] at h; cases h
        | ok s1 =>
          rw [h1] at h
          simp only [run] at h
          cases h2 : step s1 op with
          | error f => rw [h2] at h; cases h
          | ok s2 =>
            rw [h2] at h
            simp only [Except.ok.injEq] at h
            subst h
            exact hstep ops' s1 op s2 h1 (ih ops' s1 (by simpa using hk) h1) h2
  exact fun ops s h => key _ ops s rfl h

theorem run_size {n : Nat} (hn : 0 < n) : ∀ ops s, run (construct n) ops = .ok s →
    0 < configuredSize n ops ∧ s.size = some (configuredSize n ops) := by
  have hn0 : n ≠ 0 := by omega
  apply run_induction
  · exact ⟨hn, by simp [configuredSize, construct, setCacheSize, hn0]⟩
  · intro ops s op s' hr ⟨h1, h2⟩ hs
    rw [configuredSize_append]
    cases op with
    | add e =>
      obtain ⟨a, b, _, h4, _⟩ := add_spec s _ h1 h2 (run_inv' (inv_construct hn) hr).sorted e
      simp only [step] at hs
      rw [h4] at hs; cases hs
      exact ⟨h1, h2⟩
    | setSize m =>
      simp only [step, setCacheSize] at hs
      simp only [configuredSize]
      by_cases hm : m = 0
      · simp only [hm, if_true, Except.ok.injEq] at hs ⊢
        subst hs; exact ⟨h1, h2⟩
      · simp only [hm, if_false, Except.ok.injEq] at hs ⊢
        subst hs; exact ⟨by omega, rfl⟩

/-- What one `add` does in a reachable state, phrased with the history. -/
theorem reach_add {n : Nat} (hn : 0 < n) {ops : List Op} {s s' : State} {e : Ev}
    (hr : run (construct n) ops = .ok s) (hs : step s (.add e) = .ok s') :
    ∃ a b, s.items.drop (s.items.length + 1 - configuredSize n ops) = a ++ b ∧
      s'.items = a ++ e :: b ∧ s'.out = s.out ++ [e] ∧
      (∀ x ∈ a, x.stamp ≤ e.stamp) ∧ (∀ x ∈ b, e.stamp < x.stamp) := by
  obtain ⟨h1, h2⟩ := run_size hn ops s hr
  obtain ⟨a, b, h3, h4, h5, h6⟩ := add_spec s _ h1 h2 (run_inv' (inv_construct hn) hr).sorted e
  simp only [step] at hs
  rw [h4] at hs; cases hs
  exact ⟨a, b, h3, rfl, rfl, h5, h6⟩

theorem reach_setSize {s s' : State} {m : Nat} (hs : step s (.setSize m) = .ok s') :
    s'.items = s.items ∧ s'.out = s.out := by
  simp only [step, setCacheSize] at hs
  split at hs <;> · cases hs; exact ⟨rfl, rfl⟩

end MF.Cache
