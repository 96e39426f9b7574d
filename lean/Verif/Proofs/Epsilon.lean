import Verif.Model.Epsilon
import Verif.Proofs.Basic
/-
Helper lemmas about the ApproximateEpsilonTime model.
-/
namespace MF.Epsilon

variable {n : Nat}

/-! ### Oldest front -/

theorem older_fold (v : Fin n → List Ev) (l : List (Fin n)) (init : Int × Option (Fin n)) :
    (l.foldl (olderBetween v) init).1 ≤ init.1 ∧
    (∀ i ∈ l, ∀ e tl, v i = e :: tl → (l.foldl (olderBetween v) init).1 ≤ e.stamp) ∧
    (l.foldl (olderBetween v) init = init ∨
      ∃ i ∈ l, ∃ e tl, v i = e :: tl ∧ l.foldl (olderBetween v) init = (e.stamp, some i)) := by
  induction l generalizing init with
  | nil => simp
  | cons a l ih =>
    simp only [List.foldl_cons]
    obtain ⟨h1, h2, h3⟩ := ih (olderBetween v init a)
    have hstep : (olderBetween v init a).1 ≤ init.1 ∧ (∀ e tl, v a = e :: tl → (olderBetween v init a).1 ≤ e.stamp) ∧
        (olderBetween v init a = init ∨ ∃ e tl, v a = e :: tl ∧ olderBetween v init a = (e.stamp, some a)) := by
      unfold olderBetween
      cases hv : v a with
      | nil => simp
      | cons e tl =>
        simp only
        split
        · rename_i h
          refine ⟨by simp only; omega, ?_, Or.inr ⟨e, tl, rfl, rfl⟩⟩
          intro e' tl' he; cases he; simp
        · rename_i h
          refine ⟨by omega, ?_, Or.inl rfl⟩
          intro e' tl' he; cases he; omega
    obtain ⟨g1, g2, g3⟩ := hstep
    refine ⟨by omega, ?_, ?_⟩
    · intro i hi e tl hv
      rcases List.mem_cons.1 hi with rfl | hi
      · have := g2 e tl hv; omega
      · exact h2 i hi e tl hv
    · rcases h3 with h3 | ⟨i, hi, e, tl, hv, h3⟩
      · rcases g3 with g3 | ⟨e, tl, hv, g3⟩
        · left; rw [h3, g3]
        · right; exact ⟨a, by simp, e, tl, hv, by rw [h3, g3]⟩
      · right; exact ⟨i, by simp [hi], e, tl, hv, h3⟩

/-- What `getOlder` returns. -/
theorem getOlder_spec (v : Fin n → List Ev) :
    (getOlder v).1 ≤ maxTime ∧ (∀ i e tl, v i = e :: tl → (getOlder v).1 ≤ e.stamp) ∧
    (getOlder v = (maxTime, none) ∨ ∃ i e tl, v i = e :: tl ∧ getOlder v = (e.stamp, some i)) := by
  obtain ⟨h1, h2, h3⟩ := older_fold v (List.finRange n) (maxTime, none)
  refine ⟨h1, fun i e tl hv => h2 i (List.mem_finRange i) e tl hv, ?_⟩
  rcases h3 with h3 | ⟨i, _, e, tl, hv, h3⟩
  · exact Or.inl h3
  · exact Or.inr ⟨i, e, tl, hv, h3⟩

/-- `getOlder` only looks at the front messages. -/
theorem getOlder_congr (v w : Fin n → List Ev) (h : ∀ i, (v i).head? = (w i).head?) : getOlder v = getOlder w := by
  have : olderBetween v = olderBetween w := by
    funext cur i
    have hi := h i
    unfold olderBetween
    cases hv : v i <;> cases hw : w i <;> simp_all
  unfold getOlder; rw [this]

theorem checkAll_congr (v w : Fin n → List Ev) (eps : Int) (o : Int × Option (Fin n)) (h : ∀ i, (v i).head? = (w i).head?) :
    checkAll v eps o = checkAll w eps o := by
  have : withinEpsilon v eps o = withinEpsilon w eps o := by
    funext i
    have hi := h i
    unfold withinEpsilon
    cases hv : v i <;> cases hw : w i <;> simp_all
  unfold checkAll; rw [this]

/-! ### Counting non-empty inputs -/

/-- The number of inputs with at least one buffered message. -/
def nonEmpty (v : Fin n → List Ev) : Nat := (List.finRange n).countP (fun i => !(v i).isEmpty)

theorem nonEmpty_le (v : Fin n → List Ev) : nonEmpty v ≤ n := by
  have := List.countP_le_length (p := fun i => !(v i).isEmpty) (l := List.finRange n)
  simpa [nonEmpty] using this

theorem nonEmpty_eq_iff (v : Fin n → List Ev) : nonEmpty v = n ↔ ∀ i, v i ≠ [] := by
  have hlen : (List.finRange n).length = n := List.length_finRange
  constructor
  · intro h i
    have : (List.finRange n).countP (fun i => !(v i).isEmpty) = (List.finRange n).length := by
      rw [hlen]; exact h
    rw [List.countP_eq_length] at this
    have := this i (List.mem_finRange i)
    simpa using this
  · intro h
    have : (List.finRange n).countP (fun i => !(v i).isEmpty) = (List.finRange n).length := by
      rw [List.countP_eq_length]; intro i _; simpa using h i
    rw [hlen] at this; exact this

theorem countP_upd (l : List (Fin n)) (hl : l.Nodup) (v : Fin n → List Ev) (i : Fin n) (w : List Ev) :
    (l.countP (fun j => !(upd v i w j).isEmpty) : Int) =
      l.countP (fun j => !(v j).isEmpty) +
        if i ∈ l then ((if w.isEmpty then 0 else 1) - (if (v i).isEmpty then 0 else 1)) else 0 := by
  induction l with
  | nil => simp
  | cons a l ih =>
    have hl' := List.nodup_cons.1 hl
    have ih := ih hl'.2
    by_cases ha : a = i
    · subst ha
      rw [if_neg hl'.1] at ih
      rw [List.countP_cons, List.countP_cons]
      simp only [upd_same, List.mem_cons, true_or, if_true]
      cases hw : w.isEmpty <;> cases hv : (v a).isEmpty <;> simp [ih] <;> omega
    · rw [List.countP_cons, List.countP_cons, upd_ne _ _ ha]
      have : (i ∈ a :: l) ↔ i ∈ l := by simp [Ne.symm ha]
      simp only [this]
      push_cast
      omega

theorem nonEmpty_upd (v : Fin n → List Ev) (i : Fin n) (w : List Ev) :
    (nonEmpty (upd v i w) : Int) = nonEmpty v + ((if w.isEmpty then 0 else 1) - (if (v i).isEmpty then 0 else 1)) := by
  have := countP_upd (List.finRange n) (List.nodup_finRange n) v i w
  rw [if_pos (List.mem_finRange i)] at this
  exact this

/-! ### Erasing fronts -/

theorem eraseFront_spec (s : State n) (i : Fin n) :
    (eraseFront s i).queueSize = s.queueSize ∧ (eraseFront s i).epsilon = s.epsilon ∧
    (eraseFront s i).out = s.out ∧ (eraseFront s i).events = upd s.events i (s.events i).tail ∧
    (s.num = nonEmpty s.events → (eraseFront s i).num = nonEmpty (eraseFront s i).events) := by
  unfold eraseFront
  cases h : s.events i with
  | nil =>
    refine ⟨rfl, rfl, rfl, ?_, fun h => h⟩
    funext j
    by_cases hj : j = i
    · subst hj; rw [upd_same, h]; rfl
    · rw [upd_ne _ _ hj]
  | cons e rest =>
    refine ⟨rfl, rfl, rfl, rfl, ?_⟩
    intro hn
    simp only
    rw [nonEmpty_upd, h, ← hn]
    cases rest <;> simp
    omega

/-- A fold of erasures: those inputs of `l` whose front passes the test lose their front. -/
theorem fold_erase (f : State n → Fin n → State n) (p : Fin n → Bool)
    (hf : ∀ s i, (f s i).queueSize = s.queueSize ∧ (f s i).epsilon = s.epsilon ∧ (f s i).out = s.out ∧
      (s.num = nonEmpty s.events → (f s i).num = nonEmpty (f s i).events) )
    (s0 : State n)
    (hv : ∀ s i, s.epsilon = s0.epsilon → s.events i = s0.events i →
      (f s i).events = upd s.events i (if p i then (s.events i).tail else s.events i))
    (l : List (Fin n)) (hl : l.Nodup) (s : State n) (hs : ∀ i ∈ l, s.events i = s0.events i) (he : s.epsilon = s0.epsilon) :
    (l.foldl f s).queueSize = s.queueSize ∧ (l.foldl f s).epsilon = s.epsilon ∧ (l.foldl f s).out = s.out ∧
    (s.num = nonEmpty s.events → (l.foldl f s).num = nonEmpty (l.foldl f s).events) ∧
    (∀ i, (l.foldl f s).events i = if i ∈ l ∧ p i = true then (s.events i).tail else s.events i) := by
  induction l generalizing s with
  | nil => simp
  | cons a l ih =>
    have hl' := List.nodup_cons.1 hl
    simp only [List.foldl_cons]
    obtain ⟨f1, f2, f3, f4⟩ := hf s a
    have f5 := hv s a he (hs a (by simp))
    obtain ⟨g1, g2, g3, g4, g5⟩ := ih hl'.2 (f s a) (by
      intro i hi
      have : i ≠ a := fun h => hl'.1 (h ▸ hi)
      rw [f5, upd_ne _ _ this]; exact hs i (by simp [hi])) (by rw [f2, he])
    refine ⟨by rw [g1, f1], by rw [g2, f2], by rw [g3, f3], fun h => g4 (f4 h), ?_⟩
    intro i
    rw [g5 i, f5]
    by_cases hi : i = a
    · subst hi
      have : ¬ (i ∈ l ∧ p i = true) := fun h => hl'.1 h.1
      rw [if_neg this, upd_same]
      simp
    · rw [upd_ne _ _ hi]
      simp [hi]

theorem eraseFronts_spec (s : State n) :
    (eraseFronts s).queueSize = s.queueSize ∧ (eraseFronts s).epsilon = s.epsilon ∧ (eraseFronts s).out = s.out ∧
    (s.num = nonEmpty s.events → (eraseFronts s).num = nonEmpty (eraseFronts s).events) ∧
    (∀ i, (eraseFronts s).events i = (s.events i).tail) := by
  obtain ⟨h1, h2, h3, h4, h5⟩ := fold_erase eraseFront (fun _ => true)
    (fun s i => by
      obtain ⟨a, b, c, d, e⟩ := eraseFront_spec s i
      exact ⟨a, b, c, e⟩) s
    (fun s i _ _ => by simp [(eraseFront_spec s i).2.2.2.1]) (List.finRange n) (List.nodup_finRange n) s
    (fun _ _ => rfl) rfl
  refine ⟨h1, h2, h3, h4, ?_⟩
  intro i
  have := h5 i
  simpa [List.mem_finRange, eraseFronts] using this

/-- Does the front of input `i` exist and lie no later than `ts + eps`? -/
def onSync (v : Fin n → List Ev) (eps ts : Int) (i : Fin n) : Bool :=
  match v i with
  | [] => false
  | e :: _ => decide (e.stamp ≤ ts + eps)

theorem eraseIfOnSync_eq (ts : Int) (s : State n) (i : Fin n) :
    eraseIfOnSync ts s i = if onSync s.events s.epsilon ts i then eraseFront s i else s := by
  unfold eraseIfOnSync onSync
  cases h : s.events i with
  | nil => simp
  | cons e tl =>
    simp only
    by_cases hh : ts + s.epsilon < e.stamp
    · have : ¬ e.stamp ≤ ts + s.epsilon := by omega
      simp [hh, this]
    · have : e.stamp ≤ ts + s.epsilon := by omega
      simp [hh, this]

theorem eraseOld_spec (ts : Int) (s : State n) :
    (eraseOld ts s).queueSize = s.queueSize ∧ (eraseOld ts s).epsilon = s.epsilon ∧ (eraseOld ts s).out = s.out ∧
    (s.num = nonEmpty s.events → (eraseOld ts s).num = nonEmpty (eraseOld ts s).events) ∧
    (∀ i, (eraseOld ts s).events i = if onSync s.events s.epsilon ts i then (s.events i).tail else s.events i) := by
  obtain ⟨h1, h2, h3, h4, h5⟩ := fold_erase (eraseIfOnSync ts) (onSync s.events s.epsilon ts)
    (fun s i => by
      rw [eraseIfOnSync_eq]
      obtain ⟨a, b, c, d, e⟩ := eraseFront_spec s i
      split
      · exact ⟨a, b, c, e⟩
      · exact ⟨rfl, rfl, rfl, fun h => h⟩) s
    (fun s' i he hi => by
      rw [eraseIfOnSync_eq]
      have : onSync s'.events s'.epsilon ts i = onSync s.events s.epsilon ts i := by
        unfold onSync; rw [hi, he]
      rw [this]
      split
      · exact (eraseFront_spec s' i).2.2.2.1
      · funext j
        by_cases hj : j = i
        · subst hj; simp
        · rw [upd_ne _ _ hj]) (List.finRange n) (List.nodup_finRange n) s
    (fun _ _ => rfl) rfl
  refine ⟨h1, h2, h3, h4, ?_⟩
  intro i
  have := h5 i
  simpa [List.mem_finRange, eraseOld] using this

/-! ### One iteration of `process` as a step on the buffers -/

/-- One loop iteration on the buffers alone. -/
def fire (eps : Int) (v : Fin n → List Ev) : List (Fin n → Option Ev) × (Fin n → List Ev) :=
  if checkAll v eps (getOlder v) then ([fun i => (v i).head?], fun i => (v i).tail)
  else ([], fun i => if onSync v eps (getOlder v).1 i then (v i).tail else v i)

/-- Some sequence of iterations, with the sets output on the way. -/
inductive Steps (eps : Int) : (Fin n → List Ev) → List (Fin n → Option Ev) → (Fin n → List Ev) → Prop where
  | refl (v) : Steps eps v [] v
  | head {v o w} : (∀ i, v i ≠ []) → Steps eps (fire eps v).2 o w → Steps eps v ((fire eps v).1 ++ o) w

theorem signal_ok (s : State n) (h : ∀ i, s.events i ≠ []) :
    signal s = .ok { s with out := s.out ++ [fun i => (s.events i).head?] } := by
  unfold signal
  rw [if_pos]
  rw [List.all_eq_true]
  intro i _
  simpa using h i

/-- Unfolding one iteration of `process`. -/
theorem process_succ (fuel : Nat) (s : State n) (hn : s.num = nonEmpty s.events) (h : ∀ i, s.events i ≠ []) :
    ∃ s', process (fuel + 1) s = process fuel s' ∧ s'.num = nonEmpty s'.events ∧
      s'.queueSize = s.queueSize ∧ s'.epsilon = s.epsilon ∧
      s'.events = (fire s.epsilon s.events).2 ∧ s'.out = s.out ++ (fire s.epsilon s.events).1 := by
  have hfull : s.num = n := by rw [hn]; exact_mod_cast (nonEmpty_eq_iff s.events).2 h
  simp only [process]
  rw [if_pos hfull]
  unfold fire
  by_cases hc : checkAll s.events s.epsilon (getOlder s.events) = true
  · rw [if_pos hc, signal_ok s h]
    simp only
    obtain ⟨h1, h2, h3, h4, h5⟩ := eraseFronts_spec { s with out := s.out ++ [fun i => (s.events i).head?] }
    refine ⟨_, rfl, h4 hn, h1, h2, ?_, ?_⟩
    · rw [if_pos hc]; funext i; exact h5 i
    · rw [if_pos hc, h3]
  · rw [if_neg hc]
    obtain ⟨h1, h2, h3, h4, h5⟩ := eraseOld_spec (getOlder s.events).1 s
    refine ⟨_, rfl, h4 hn, h1, h2, ?_, ?_⟩
    · rw [if_neg hc]; funext i; exact h5 i
    · rw [if_neg hc, h3]; simp

theorem process_ok (fuel : Nat) : ∀ (s s' : State n), s.num = nonEmpty s.events → process fuel s = .ok s' →
    s'.num = nonEmpty s'.events ∧ s'.queueSize = s.queueSize ∧ s'.epsilon = s.epsilon ∧
    (∃ i, s'.events i = []) ∧ ∃ o, s'.out = s.out ++ o ∧ Steps s.epsilon s.events o s'.events := by
  induction fuel with
  | zero =>
    intro s s' hn h
    unfold process at h
    by_cases hf : s.num = n
    · rw [if_pos hf] at h; cases h
    · rw [if_neg hf] at h; cases h
      refine ⟨hn, rfl, rfl, ?_, [], by simp, Steps.refl _⟩
      apply Classical.byContradiction
      intro hno
      apply hf
      rw [hn]
      exact_mod_cast (nonEmpty_eq_iff s.events).2 (fun i hi => hno ⟨i, hi⟩)
  | succ fuel ih =>
    intro s s' hn h
    by_cases hf : ∀ i, s.events i ≠ []
    · obtain ⟨s1, h1, h2, h3, h4, h5, h6⟩ := process_succ fuel s hn hf
      rw [h1] at h
      obtain ⟨g1, g2, g3, g4, o, g5, g6⟩ := ih s1 s' h2 h
      refine ⟨g1, by rw [g2, h3], by rw [g3, h4], g4, (fire s.epsilon s.events).1 ++ o, ?_, ?_⟩
      · rw [g5, h6, List.append_assoc]
      · rw [h4, h5] at g6
        exact Steps.head hf g6
    · have hf' : s.num ≠ n := by
        intro hh
        apply hf
        apply (nonEmpty_eq_iff s.events).1
        rw [hn] at hh; exact_mod_cast hh
      simp only [process] at h
      rw [if_neg hf'] at h
      cases h
      refine ⟨hn, rfl, rfl, ?_, [], by simp, Steps.refl _⟩
      apply Classical.byContradiction
      intro hno
      exact hf (fun i hi => hno ⟨i, hi⟩)

/-- `process` never faults in any way other than not terminating. -/
theorem process_fault (fuel : Nat) : ∀ (s : State n) (f : Fault), s.num = nonEmpty s.events →
    process fuel s = .error f → f = .hang := by
  induction fuel with
  | zero =>
    intro s f hn h
    unfold process at h
    split at h
    · cases h; rfl
    · cases h
  | succ fuel ih =>
    intro s f hn h
    by_cases hf : ∀ i, s.events i ≠ []
    · obtain ⟨s1, h1, h2, _⟩ := process_succ fuel s hn hf
      rw [h1] at h
      exact ih s1 f h2 h
    · have hf' : s.num ≠ n := by
        intro hh
        apply hf
        apply (nonEmpty_eq_iff s.events).1
        rw [hn] at hh; exact_mod_cast hh
      simp only [process] at h
      rw [if_neg hf'] at h
      cases h

/-! ### What iterations do to each input -/

theorem fire_input (eps : Int) (v : Fin n → List Ev) (hv : ∀ i, v i ≠ []) (i : Fin n) :
    ∃ e tl, v i = e :: tl ∧
      ((checkAll v eps (getOlder v) = true ∧ (fire eps v).1 = [fun i => (v i).head?] ∧ (fire eps v).2 i = tl) ∨
       (checkAll v eps (getOlder v) = false ∧ (fire eps v).1 = [] ∧
        ((e.stamp ≤ (getOlder v).1 + eps ∧ (fire eps v).2 i = tl) ∨
         ((getOlder v).1 + eps < e.stamp ∧ (fire eps v).2 i = v i)))) := by
  obtain ⟨e, tl, he⟩ := List.exists_cons_of_ne_nil (hv i)
  refine ⟨e, tl, he, ?_⟩
  unfold fire
  by_cases hc : checkAll v eps (getOlder v) = true
  · left; rw [if_pos hc]; exact ⟨hc, rfl, by simp [he]⟩
  · right
    rw [if_neg hc]
    refine ⟨by simpa using hc, rfl, ?_⟩
    simp only [onSync, he]
    by_cases h : e.stamp ≤ (getOlder v).1 + eps
    · left; simp [h]
    · right; simp [h]; omega

theorem steps_input {eps : Int} {v w : Fin n → List Ev} {o} (h : Steps eps v o w) (i : Fin n) :
    ∃ c, v i = c ++ w i ∧ List.Sublist (o.map (· i)) (c.map some) := by
  induction h with
  | refl v => exact ⟨[], by simp, by simp⟩
  | @head v o w hv _ ih =>
    obtain ⟨c, h1, h2⟩ := ih
    obtain ⟨e, tl, he, hcase⟩ := fire_input eps v hv i
    rcases hcase with ⟨_, ho, hf⟩ | ⟨_, ho, ⟨_, hf⟩ | ⟨_, hf⟩⟩
    · refine ⟨e :: c, by rw [he, ← hf, h1]; simp, ?_⟩
      rw [ho]
      simp only [List.map_cons, he, List.head?_cons, List.singleton_append]
      exact List.Sublist.cons_cons _ h2
    · refine ⟨e :: c, by rw [he, ← hf, h1]; simp, ?_⟩
      rw [ho]
      simp only [List.nil_append, List.map_cons]
      exact List.Sublist.cons _ h2
    · refine ⟨c, by rw [← hf]; exact h1, ?_⟩
      rw [ho]; simpa using h2

theorem steps_trans {eps : Int} {u v w : Fin n → List Ev} {o o'} (h : Steps eps u o v) (h' : Steps eps v o' w) :
    Steps eps u (o ++ o') w := by
  induction h with
  | refl v => simpa using h'
  | head hv _ ih => rw [List.append_assoc]; exact Steps.head hv (ih h')

/-- The buffers with further messages behind them. -/
def extend (v w : Fin n → List Ev) : Fin n → List Ev := fun i => v i ++ w i

theorem fire_extend (eps : Int) (v w : Fin n → List Ev) (hv : ∀ i, v i ≠ []) :
    fire eps (extend v w) = ((fire eps v).1, extend (fire eps v).2 w) := by
  have hh : ∀ i, (extend v w i).head? = (v i).head? := by
    intro i
    obtain ⟨e, tl, he⟩ := List.exists_cons_of_ne_nil (hv i)
    simp [extend, he]
  have ht : ∀ i, (extend v w i).tail = (v i).tail ++ w i := by
    intro i
    obtain ⟨e, tl, he⟩ := List.exists_cons_of_ne_nil (hv i)
    simp [extend, he]
  have ho : ∀ ts i, onSync (extend v w) eps ts i = onSync v eps ts i := by
    intro ts i
    obtain ⟨e, tl, he⟩ := List.exists_cons_of_ne_nil (hv i)
    simp [onSync, extend, he]
  unfold fire
  rw [getOlder_congr _ _ hh, checkAll_congr _ _ eps _ hh]
  by_cases hc : checkAll v eps (getOlder v) = true
  · rw [if_pos hc, if_pos hc]
    refine Prod.ext ?_ ?_
    · simp only [hh]
    · funext i; exact ht i
  · rw [if_neg hc, if_neg hc]
    refine Prod.ext rfl ?_
    funext i
    simp only [extend, ho]
    split
    · exact ht i
    · rfl

theorem steps_extend {eps : Int} {v v' : Fin n → List Ev} {o} (h : Steps eps v o v') (w : Fin n → List Ev) :
    Steps eps (extend v w) o (extend v' w) := by
  induction h with
  | refl v => exact Steps.refl _
  | @head v o v' hv _ ih =>
    have hne : ∀ i, extend v w i ≠ [] := by intro i h; simp [extend] at h; exact hv i h.1
    have := Steps.head (eps := eps) (v := extend v w) hne (o := o) (w := extend v' w) (by
      rw [fire_extend eps v w hv]; exact ih)
    rw [fire_extend eps v w hv] at this
    exact this

theorem steps_det {eps : Int} {v w w' : Fin n → List Ev} {o o'} (h : Steps eps v o w) (h' : Steps eps v o' w')
    (hw : ∃ i, w i = []) (hw' : ∃ i, w' i = []) : o = o' ∧ w = w' := by
  induction h generalizing o' w' with
  | refl v =>
    cases h' with
    | refl => exact ⟨rfl, rfl⟩
    | head hv _ => obtain ⟨i, hi⟩ := hw; exact absurd hi (hv i)
  | head hv _ ih =>
    cases h' with
    | refl => obtain ⟨i, hi⟩ := hw'; exact absurd hi (hv i)
    | head hv' h2 =>
      obtain ⟨h3, h4⟩ := ih h2 hw hw'
      exact ⟨by rw [h3], h4⟩

/-! ### Invariant and one `add` -/

structure Inv (s : State n) : Prop where
  num : s.num = nonEmpty s.events
  someEmpty : ∃ i, s.events i = []
  bound : ∀ i, (s.events i).length ≤ s.queueSize

theorem inv_construct [NeZero n] (q : Nat) (eps : Int) : Inv (construct n q eps) := by
  refine ⟨?_, ⟨0, rfl⟩, fun i => by simp [construct]⟩
  have : nonEmpty (construct n q eps).events = 0 := by
    unfold nonEmpty
    rw [List.countP_eq_zero]
    intro i _; simp [construct]
  rw [this]; rfl

/-- The three ways in which an `add` can go. -/
inductive AddSpec (s s' : State n) (i : Fin n) (e : Ev) : Prop where
  | processed (o) (hall : ∀ j, upd s.events i (s.events i ++ [e]) j ≠ [])
      (hsteps : Steps s.epsilon (upd s.events i (s.events i ++ [e])) o s'.events) (hout : s'.out = s.out ++ o)
  | queued (hnot : ∃ j, upd s.events i (s.events i ++ [e]) j = [])
      (hlen : (s.events i).length + 1 ≤ s.queueSize)
      (hev : s'.events = upd s.events i (s.events i ++ [e])) (hout : s'.out = s.out)
  | overflow (hnot : ∃ j, upd s.events i (s.events i ++ [e]) j = [])
      (hlen : s.queueSize < (s.events i).length + 1)
      (hev : s'.events = upd s.events i (s.events i ++ [e]).tail) (hout : s'.out = s.out)

theorem add_shape (fuel : Nat) (s : State n) (hs : Inv s) (i : Fin n) (e : Ev) :
    (∃ s1 : State n, s1.num = nonEmpty s1.events ∧ s1.queueSize = s.queueSize ∧ s1.epsilon = s.epsilon ∧ s1.out = s.out ∧
      s1.events = upd s.events i (s.events i ++ [e]) ∧ (∀ j, s1.events j ≠ []) ∧ add fuel s i e = process fuel s1) ∨
    (∃ s', add fuel s i e = .ok s' ∧ Inv s' ∧ s'.epsilon = s.epsilon ∧ s'.queueSize = s.queueSize ∧
      (∃ j, upd s.events i (s.events i ++ [e]) j = []) ∧ AddSpec s s' i e) := by
  have hnum : (if (s.events i).length = 0 then s.num + 1 else s.num) =
      (nonEmpty (upd s.events i (s.events i ++ [e])) : Int) := by
    rw [nonEmpty_upd, ← hs.num]
    cases h : s.events i <;> simp
  unfold add
  simp only
  rw [hnum]
  by_cases hall : ∀ j, upd s.events i (s.events i ++ [e]) j ≠ []
  · left
    refine ⟨{ s with num := (nonEmpty (upd s.events i (s.events i ++ [e])) : Int),
                     events := upd s.events i (s.events i ++ [e]) }, rfl, rfl, rfl, rfl, rfl, hall, ?_⟩
    rw [if_pos]
    exact_mod_cast (nonEmpty_eq_iff _).2 hall
  · right
    have hnot : ∃ j, upd s.events i (s.events i ++ [e]) j = [] := by
      apply Classical.byContradiction; intro h; exact hall (fun j hj => h ⟨j, hj⟩)
    rw [if_neg (by
      intro h; apply hall; apply (nonEmpty_eq_iff _).1; exact_mod_cast h)]
    have hl : (upd s.events i (s.events i ++ [e]) i).length = (s.events i).length + 1 := by simp
    by_cases hlen : (s.events i).length + 1 > s.queueSize
    · rw [if_pos (by simp only [hl]; exact hlen)]
      obtain ⟨h1, h2, h3, h4, h5⟩ := eraseFront_spec (State.mk s.queueSize s.epsilon
        (nonEmpty (upd s.events i (s.events i ++ [e])) : Int) (upd s.events i (s.events i ++ [e])) s.out) i
      have hev : (eraseFront (State.mk s.queueSize s.epsilon
        (nonEmpty (upd s.events i (s.events i ++ [e])) : Int) (upd s.events i (s.events i ++ [e])) s.out) i).events =
          upd s.events i (s.events i ++ [e]).tail := by
        rw [h4]
        funext j
        by_cases hj : j = i
        · subst hj; simp
        · simp [upd_ne _ _ hj]
      refine ⟨_, rfl, ⟨h5 rfl, ?_, ?_⟩, h2, h1, hnot, AddSpec.overflow hnot hlen hev h3⟩
      · rw [hev]
        obtain ⟨j, hj⟩ := hnot
        refine ⟨j, ?_⟩
        by_cases hji : j = i
        · subst hji; rw [upd_same] at hj; simp at hj
        · rw [upd_ne _ _ hji] at hj ⊢; exact hj
      · intro j
        rw [hev, h1]
        by_cases hji : j = i
        · subst hji; rw [upd_same]; have := hs.bound j; simp; omega
        · rw [upd_ne _ _ hji]; exact hs.bound j
    · rw [if_neg (by simp only [hl]; exact hlen)]
      refine ⟨_, rfl, ⟨rfl, hnot, ?_⟩, rfl, rfl, hnot, AddSpec.queued hnot (by omega) rfl rfl⟩
      intro j
      simp only
      by_cases hji : j = i
      · subst hji; rw [upd_same]; simp; omega
      · rw [upd_ne _ _ hji]; exact hs.bound j

theorem add_ok {fuel : Nat} {s s' : State n} (hs : Inv s) {i : Fin n} {e : Ev} (h : add fuel s i e = .ok s') :
    Inv s' ∧ s'.epsilon = s.epsilon ∧ s'.queueSize = s.queueSize ∧ AddSpec s s' i e := by
  rcases add_shape fuel s hs i e with ⟨s1, h1, h2, h3, h4, h5, h6, h7⟩ | ⟨s2, h1, h2, h3, h4, _, h5⟩
  · rw [h7] at h
    obtain ⟨g1, g2, g3, g4, o, g5, g6⟩ := process_ok fuel s1 s' h1 h
    refine ⟨⟨g1, g4, ?_⟩, by rw [g3, h3], by rw [g2, h2], AddSpec.processed o (h5 ▸ h6) ?_ (by rw [g5, h4])⟩
    · intro j
      obtain ⟨c, hc, _⟩ := steps_input g6 j
      rw [g2, h2]
      have hl : (s1.events j).length = c.length + (s'.events j).length := by rw [hc]; simp
      -- every input held at most `queueSize`; the one that just received a message was empty before
      by_cases hji : j = i
      · subst hji
        -- input j was the empty one
        obtain ⟨k, hk⟩ := hs.someEmpty
        have hkj : k = j := by
          apply Classical.byContradiction
          intro hne
          have := h6 k
          rw [h5, upd_ne _ _ hne] at this
          exact this hk
        subst hkj
        rw [h5, upd_same, hk] at hl
        simp at hl
        -- if j kept its message then another input became empty although it had one; otherwise length 0
        by_cases hq : s.queueSize = 0
        · -- all other inputs are empty, so n = 1 and input j must be the empty one
          obtain ⟨m, hm⟩ := g4
          by_cases hmk : m = k
          · subst hmk; rw [hm]; simp
          · exfalso
            have hb := hs.bound m
            have : s.events m = [] := List.eq_nil_of_length_eq_zero (by omega)
            have h7' := h6 m
            rw [h5, upd_ne _ _ hmk] at h7'
            exact h7' this
        · omega
      · rw [h5, upd_ne _ _ hji] at hl
        have := hs.bound j
        omega
    · rw [h3, h5] at g6; exact g6
  · rw [h] at h1; cases h1
    exact ⟨h2, h3, h4, h5⟩

theorem run_inv [NeZero n] {fuel q : Nat} {eps : Int} {ops : List (Fin n × Ev)} {s : State n}
    (h : run fuel (construct n q eps) ops = .ok s) : Inv s ∧ s.epsilon = eps ∧ s.queueSize = q := by
  revert h
  revert ops s
  intro ops s
  revert ops s
  apply runE_induction
  · exact ⟨inv_construct q eps, rfl, rfl⟩
  · intro ops s op s' _ ⟨h1, h2, h3⟩ hs
    obtain ⟨g1, g2, g3, _⟩ := add_ok h1 hs
    exact ⟨g1, by rw [g2, h2], by rw [g3, h3]⟩

/-- Everything buffered or output on an input, against what was added there. -/
theorem run_history [NeZero n] {fuel q : Nat} {eps : Int} : ∀ (ops : List (Fin n × Ev)) (s : State n),
    run fuel (construct n q eps) ops = .ok s → ∀ i,
    ∃ c, stream ops i = c ++ s.events i ∧ List.Sublist (s.out.map (· i)) (c.map some) := by
  apply runE_induction
  · intro i; exact ⟨[], by simp [stream, construct], by simp [construct]⟩
  · intro ops s op s' hr ih hs j
    obtain ⟨i, e⟩ := op
    simp only at hs
    obtain ⟨hinv, heps, hq⟩ := run_inv hr
    obtain ⟨c, hc, hsub⟩ := ih j
    obtain ⟨_, _, _, sp⟩ := add_ok hinv hs
    have hstream : stream (ops ++ [(i, e)]) j = c ++ upd s.events i (s.events i ++ [e]) j := by
      by_cases hj : j = i
      · subst hj; rw [stream_snoc_same, upd_same, hc, List.append_assoc]
      · rw [stream_snoc_ne _ _ (Ne.symm hj), upd_ne _ _ hj, hc]
    cases sp with
    | processed o hall hsteps hout =>
      obtain ⟨c', h1, h2⟩ := steps_input hsteps j
      refine ⟨c ++ c', by rw [hstream, h1, List.append_assoc], ?_⟩
      rw [hout, List.map_append, List.map_append]
      exact List.Sublist.append hsub h2
    | queued hnot hlen hev hout =>
      exact ⟨c, by rw [hstream, hev], by rw [hout]; exact hsub⟩
    | overflow hnot hlen hev hout =>
      rw [hev, hout]
      by_cases hj : j = i
      · subst hj
        rw [upd_same] at hstream ⊢
        cases hl : s.events j ++ [e] with
        | nil => simp at hl
        | cons x xs =>
          refine ⟨c ++ [x], by rw [hstream, hl]; simp, ?_⟩
          rw [List.map_append]
          exact hsub.trans (List.sublist_append_left _ _)
      · rw [upd_ne _ _ hj] at hstream ⊢
        exact ⟨c, hstream, hsub⟩

/-- Without overflow the whole run is one sequence of iterations on the complete streams. -/
theorem run_canonical [NeZero n] {fuel q : Nat} {eps : Int} : ∀ (ops : List (Fin n × Ev)) (s : State n),
    run fuel (construct n q eps) ops = .ok s → (∀ i, (stream ops i).length ≤ q) →
    Steps eps (stream ops) s.out s.events := by
  apply runE_induction
  · intro _
    have : stream ([] : List (Fin n × Ev)) = fun _ => [] := by funext i; rfl
    rw [this]; exact Steps.refl _
  · intro ops s op s' hr ih hs hlen
    obtain ⟨i, e⟩ := op
    simp only at hs
    obtain ⟨hinv, heps, hq⟩ := run_inv hr
    have hlen' : ∀ j, (stream ops j).length ≤ q := by
      intro j
      have := hlen j
      rw [stream_append, List.length_append] at this
      omega
    have ih := ih hlen'
    have hext := steps_extend ih (upd (fun _ => []) i [e])
    have h1 : extend (stream ops) (upd (fun _ => []) i [e]) = stream (ops ++ [(i, e)]) := by
      funext j
      unfold extend
      by_cases hj : j = i
      · subst hj; rw [upd_same, stream_snoc_same]
      · rw [upd_ne _ _ hj, stream_snoc_ne _ _ (Ne.symm hj)]; simp
    have h2 : extend s.events (upd (fun _ => []) i [e]) = upd s.events i (s.events i ++ [e]) := by
      funext j
      unfold extend
      by_cases hj : j = i
      · subst hj; rw [upd_same, upd_same]
      · rw [upd_ne _ _ hj, upd_ne _ _ hj]; simp
    rw [h1, h2] at hext
    obtain ⟨_, _, _, sp⟩ := add_ok hinv hs
    cases sp with
    | processed o hall hsteps hout =>
      rw [hout]
      rw [heps] at hsteps
      exact steps_trans hext hsteps
    | queued hnot hlen hev hout => rw [hout, hev]; exact hext
    | overflow hnot hlen2 hev hout =>
      exfalso
      obtain ⟨c, hc, _⟩ := run_history ops s hr i
      have := hlen i
      rw [stream_snoc_same, List.length_append, hc, List.length_append] at this
      simp at this
      omega

/-! ### Termination -/

theorem sum_map_lt {α : Type} (l : List α) (f g : α → Nat) (hle : ∀ a ∈ l, f a ≤ g a) (hlt : ∃ a ∈ l, f a < g a) :
    (l.map f).sum < (l.map g).sum := by
  induction l with
  | nil => simp at hlt
  | cons a l ih =>
    have hle' : ∀ x ∈ l, f x ≤ g x := fun x hx => hle x (by simp [hx])
    have hsum : (l.map f).sum ≤ (l.map g).sum := by
      clear ih hlt hle
      induction l with
      | nil => simp
      | cons b l ih => 
        have h1 := hle' b (by simp)
        have h2 := ih (fun x hx => hle' x (by simp [hx]))
        simp only [List.map_cons, List.sum_cons]; omega
    simp only [List.map_cons, List.sum_cons]
    obtain ⟨x, hx, hlt⟩ := hlt
    have ha := hle a (by simp)
    rcases List.mem_cons.1 hx with rfl | hx
    · omega
    · have := ih hle' ⟨x, hx, hlt⟩; omega

/-- Number of buffered messages. -/
def total (v : Fin n → List Ev) : Nat := ((List.finRange n).map (fun i => (v i).length)).sum

theorem fire_total [NeZero n] (eps : Int) (heps : 0 ≤ eps) (v : Fin n → List Ev) (hv : ∀ i, v i ≠ [])
    (hmax : ∀ i, ∀ e ∈ v i, e.stamp ≤ maxTime) : total (fire eps v).2 < total v := by
  unfold total
  have hpt : ∀ i, ((fire eps v).2 i).length ≤ (v i).length := by
    intro i
    obtain ⟨e, tl, he, hcase⟩ := fire_input eps v hv i
    rcases hcase with ⟨_, _, hf⟩ | ⟨_, _, ⟨_, hf⟩ | ⟨_, hf⟩⟩ <;> rw [hf] <;> simp [he]
  apply sum_map_lt
  · intro i _; exact hpt i
  · -- an input whose front is the oldest loses it
    obtain ⟨_, _, ho⟩ := getOlder_spec v
    have : ∃ i, ∃ e tl, v i = e :: tl ∧ e.stamp ≤ (getOlder v).1 + eps := by
      rcases ho with ho | ⟨i, e, tl, hv', ho⟩
      · obtain ⟨e, tl, he⟩ := List.exists_cons_of_ne_nil (hv 0)
        refine ⟨0, e, tl, he, ?_⟩
        have := hmax 0 e (by rw [he]; simp)
        rw [ho]; simp only; omega
      · exact ⟨i, e, tl, hv', by rw [ho]; simp only; omega⟩
    obtain ⟨i, e, tl, hv', hle⟩ := this
    refine ⟨i, List.mem_finRange i, ?_⟩
    obtain ⟨e', tl', he, hcase⟩ := fire_input eps v hv i
    have hee : e = e' ∧ tl = tl' := by rw [hv'] at he; cases he; exact ⟨rfl, rfl⟩
    rcases hcase with ⟨_, _, hf⟩ | ⟨_, _, ⟨_, hf⟩ | ⟨h, _⟩⟩
    · rw [hf, he]; simp
    · rw [hf, he]; simp
    · rw [← hee.1] at h; omega

theorem process_terminates [NeZero n] (fuel : Nat) : ∀ (s : State n), s.num = nonEmpty s.events → 0 ≤ s.epsilon →
    (∀ i, ∀ e ∈ s.events i, e.stamp ≤ maxTime) → total s.events ≤ fuel → ∃ s', process fuel s = .ok s' := by
  induction fuel with
  | zero =>
    intro s hn heps hmax ht
    by_cases hf : ∀ i, s.events i ≠ []
    · exfalso
      have := fire_total s.epsilon heps s.events hf hmax
      omega
    · refine ⟨s, ?_⟩
      unfold process
      rw [if_neg]
      intro hh; apply hf; apply (nonEmpty_eq_iff _).1; rw [hn] at hh; exact_mod_cast hh
  | succ fuel ih =>
    intro s hn heps hmax ht
    by_cases hf : ∀ i, s.events i ≠ []
    · obtain ⟨s1, h1, h2, h3, h4, h5, h6⟩ := process_succ fuel s hn hf
      rw [h1]
      apply ih s1 h2 (by rw [h4]; exact heps)
      · intro i e he
        rw [h5] at he
        obtain ⟨e', tl, he', hcase⟩ := fire_input s.epsilon s.events hf i
        apply hmax i e
        rcases hcase with ⟨_, _, hh⟩ | ⟨_, _, ⟨_, hh⟩ | ⟨_, hh⟩⟩
        · rw [hh] at he; rw [he']; simp [he]
        · rw [hh] at he; rw [he']; simp [he]
        · rw [hh] at he; exact he
      · have := fire_total s.epsilon heps s.events hf hmax
        rw [h5]; omega
    · refine ⟨s, ?_⟩
      simp only [process]
      rw [if_neg]
      intro hh; apply hf; apply (nonEmpty_eq_iff _).1; rw [hn] at hh; exact_mod_cast hh

theorem sum_map_le {α : Type} (l : List α) (f g : α → Nat) (hle : ∀ a ∈ l, f a ≤ g a) :
    (l.map f).sum ≤ (l.map g).sum := by
  induction l with
  | nil => simp
  | cons b l ih =>
    have h1 := hle b (by simp)
    have h2 := ih (fun x hx => hle x (by simp [hx]))
    simp only [List.map_cons, List.sum_cons]; omega

theorem sum_indicator (l : List (Fin n)) (hl : l.Nodup) (i : Fin n) (f : Fin n → Nat) :
    (l.map (fun j => (if i = j then 1 else 0) + f j)).sum = (if i ∈ l then 1 else 0) + (l.map f).sum := by
  induction l with
  | nil => simp
  | cons a l ih =>
    have hl' := List.nodup_cons.1 hl
    have ih := ih hl'.2
    simp only [List.map_cons, List.sum_cons, List.mem_cons]
    rw [ih]
    by_cases h : i = a
    · subst h; simp [hl'.1]; omega
    · simp [h]; omega

theorem total_stream (ops : List (Fin n × Ev)) : total (stream ops) = ops.length := by
  induction ops with
  | nil =>
    unfold total
    have : (fun i : Fin n => (stream ([] : List (Fin n × Ev)) i).length) = fun _ => 0 := by funext i; rfl
    rw [this]
    induction (List.finRange n) with
    | nil => rfl
    | cons a l ih => simpa using ih
  | cons op ops ih =>
    obtain ⟨i, e⟩ := op
    unfold total at ih ⊢
    have : (fun j : Fin n => (stream ((i, e) :: ops) j).length) =
        fun j => (if i = j then 1 else 0) + (stream ops j).length := by
      funext j
      have : stream ((i, e) :: ops) j = (if i = j then [e] else []) ++ stream ops j := by
        have := stream_append [(i, e)] ops j
        rw [List.singleton_append] at this
        rw [this]
        congr 1
        unfold stream
        by_cases h : i = j <;> simp [h]
      rw [this]
      by_cases h : i = j <;> simp [h]
      omega
    rw [this, sum_indicator _ (List.nodup_finRange n), ih, if_pos (List.mem_finRange i)]
    simp; omega

theorem total_le (v w : Fin n → List Ev) (h : ∀ i, (v i).length ≤ (w i).length) : total v ≤ total w :=
  sum_map_le _ _ _ (fun i _ => h i)

/-! ### Output sets -/

theorem fire_output (eps : Int) (v : Fin n → List Ev) (hv : ∀ i, v i ≠ []) :
    ∀ t ∈ (fire eps v).1, (∀ i, ∃ e, t i = some e) ∧
      ∀ i j x y, i ≠ j → t i = some x → t j = some y → x.stamp ≤ y.stamp + eps := by
  intro t ht
  unfold fire at ht
  by_cases hc : checkAll v eps (getOlder v) = true
  · rw [if_pos hc] at ht
    simp at ht
    subst ht
    have hfront : ∀ i, ∃ e tl, v i = e :: tl := fun i => List.exists_cons_of_ne_nil (hv i)
    refine ⟨fun i => by obtain ⟨e, tl, he⟩ := hfront i; exact ⟨e, by simp [he]⟩, ?_⟩
    intro i j x y hij hx hy
    obtain ⟨e, tl, he⟩ := hfront i
    obtain ⟨f, tl', hf⟩ := hfront j
    simp [he] at hx; simp [hf] at hy
    subst hx; subst hy
    obtain ⟨_, ho2, ho3⟩ := getOlder_spec v
    have hei := ho2 i e tl he
    have hfj := ho2 j f tl' hf
    have hall : ∀ k, withinEpsilon v eps (getOlder v) k = true := by
      intro k
      unfold checkAll at hc
      rw [List.all_eq_true] at hc
      exact hc k (List.mem_finRange k)
    have hw : ∀ k x tl, v k = x :: tl → some k = (getOlder v).2 ∨ x.stamp ≤ (getOlder v).1 + eps := by
      intro k x tl hk
      have := hall k
      unfold withinEpsilon at this
      rw [hk] at this
      by_cases hidx : some k = (getOlder v).2
      · exact Or.inl hidx
      · rw [if_neg hidx] at this
        simp at this
        exact Or.inr this
    rcases hw i e tl he with hi | hi
    · have hj : f.stamp ≤ (getOlder v).1 + eps := by
        rcases hw j f tl' hf with hj | hj
        · rw [← hi] at hj; cases hj; exact absurd rfl hij
        · exact hj
      rcases ho3 with ho3 | ⟨k, g, tl3, hk, ho3⟩
      · rw [ho3] at hi; cases hi
      · rw [ho3] at hi hj hfj
        simp at hi
        subst hi
        rw [he] at hk; cases hk
        simp only at hj hfj
        omega
    · omega
  · rw [if_neg hc] at ht; simp at ht

theorem steps_output {eps : Int} {v w : Fin n → List Ev} {o} (h : Steps eps v o w) :
    ∀ t ∈ o, (∀ i, ∃ e, t i = some e) ∧
      ∀ i j x y, i ≠ j → t i = some x → t j = some y → x.stamp ≤ y.stamp + eps := by
  induction h with
  | refl v => simp
  | @head v o w hv _ ih =>
    intro t ht
    rcases List.mem_append.1 ht with ht | ht
    · exact fire_output eps v hv t ht
    · exact ih t ht

/-- If a full set of buffered messages loses a member in an iteration without output, then that member and the set's
message on some other input are further apart than the member and the oldest front allow. -/
theorem fire_discards [NeZero n] (eps : Int) (_heps : 0 ≤ eps) (v : Fin n → List Ev) (hv : ∀ i, v i ≠ [])
    (hsorted : ∀ i, TimeSorted (v i)) (T : Fin n → Ev) (hT : ∀ i, T i ∈ v i)
    (hmax : ∀ i, ∀ e ∈ v i, e.stamp ≤ maxTime) (i : Fin n) (hlost : T i ∉ (fire eps v).2 i) :
    (∃ t ∈ (fire eps v).1, t i = some (T i)) ∨
    (∃ o k, o ≠ k ∧ i ≠ k ∧ (getOlder v).2 = some o ∧ (∃ e tl, v o = e :: tl ∧ e.stamp ≤ (T i).stamp ∧ (T i).stamp ≤ e.stamp + eps ∧
      e.stamp + eps < (T k).stamp ∧ (i = o → e = T i))) := by
  obtain ⟨e, tl, he, hcase⟩ := fire_input eps v hv i
  have hTi := hT i
  rcases hcase with ⟨_, ho, hf⟩ | ⟨hc, ho, ⟨hle, hf⟩ | ⟨_, hf⟩⟩
  · left
    rw [hf] at hlost
    rw [he] at hTi
    have : T i = e := by
      rcases List.mem_cons.1 hTi with h | h
      · exact h
      · exact absurd h hlost
    rw [ho]
    exact ⟨fun i => (v i).head?, by simp, by simp [he, this]⟩
  · right
    rw [hf] at hlost
    rw [he] at hTi
    have hTe : T i = e := by
      rcases List.mem_cons.1 hTi with h | h
      · exact h
      · exact absurd h hlost
    obtain ⟨_, ho2, ho3⟩ := getOlder_spec v
    have hmin := ho2 i e tl he
    -- some front is too late
    have hlate : ∃ k, withinEpsilon v eps (getOlder v) k = false := by
      unfold checkAll at hc
      rw [List.all_eq_false] at hc
      obtain ⟨k, _, hk⟩ := hc
      exact ⟨k, by simpa using hk⟩
    obtain ⟨k, hk⟩ := hlate
    obtain ⟨f, tf, hfk⟩ := List.exists_cons_of_ne_nil (hv k)
    have hk' : some k ≠ (getOlder v).2 ∧ (getOlder v).1 + eps < f.stamp := by
      unfold withinEpsilon at hk
      rw [hfk] at hk
      by_cases hidx : some k = (getOlder v).2
      · rw [if_pos hidx] at hk; cases hk
      · rw [if_neg hidx] at hk; simp at hk; exact ⟨hidx, by omega⟩
    have hTk : f.stamp ≤ (T k).stamp := by
      have h1 := hT k
      have h2 := hsorted k
      rw [hfk] at h1 h2
      rcases List.mem_cons.1 h1 with h | h
      · rw [h]; omega
      · exact (List.pairwise_cons.1 h2).1 _ h
    rcases ho3 with ho3 | ⟨o, g, tg, hg, ho3⟩
    · exfalso
      have := hmax k f (by rw [hfk]; simp)
      rw [ho3] at hk'
      simp only at hk'
      omega
    · refine ⟨o, k, ?_, ?_, by rw [ho3], g, tg, hg, ?_, ?_, ?_, ?_⟩
      · intro hok; subst hok; rw [ho3] at hk'; exact hk'.1 rfl
      · intro hik; subst hik
        rw [he] at hfk; cases hfk
        omega
      · rw [ho3] at hmin; rw [hTe]; exact hmin
      · rw [ho3] at hle; rw [hTe]; exact hle
      · rw [ho3] at hk'; simp only at hk'; omega
      · intro hio; subst hio; rw [he] at hg; cases hg; exact hTe.symm
  · rw [hf] at hlost; exact absurd hTi hlost

theorem fire_sorted (eps : Int) (v : Fin n → List Ev) (hv : ∀ i, v i ≠ []) (hsorted : ∀ i, TimeSorted (v i)) (i : Fin n) :
    TimeSorted ((fire eps v).2 i) ∧ ∀ e ∈ (fire eps v).2 i, e ∈ v i := by
  obtain ⟨e, tl, he, hcase⟩ := fire_input eps v hv i
  have hs := hsorted i
  rcases hcase with ⟨_, _, hf⟩ | ⟨_, _, ⟨_, hf⟩ | ⟨_, hf⟩⟩
  · rw [hf]; rw [he] at hs; exact ⟨(List.pairwise_cons.1 hs).2, fun x hx => by rw [he]; simp [hx]⟩
  · rw [hf]; rw [he] at hs; exact ⟨(List.pairwise_cons.1 hs).2, fun x hx => by rw [he]; simp [hx]⟩
  · rw [hf]; exact ⟨hs, fun x hx => hx⟩

theorem steps_match [NeZero n] {eps : Int} (heps : 0 ≤ eps) {v w : Fin n → List Ev} {o} (h : Steps eps v o w)
    (hw : ∃ i, w i = []) (T : Fin n → Ev)
    (hspan : ∀ i j, (T i).stamp ≤ (T j).stamp + eps)
    (hcase : n = 2 ∨ eps = 0 ∨ ∀ i j, (T i).stamp = (T j).stamp) :
    (∀ i, TimeSorted (v i)) → (∀ i, T i ∈ v i) → (∀ i, ∀ e ∈ v i, e.stamp ≤ maxTime) →
    ∃ t ∈ o, ∃ i, t i = some (T i) := by
  induction h with
  | refl v =>
    intro _ hT _
    obtain ⟨i, hi⟩ := hw
    have := hT i
    rw [hi] at this; simp at this
  | @head v o w hv _ ih =>
    intro hsorted hT hmax
    by_cases hlost : ∃ i, T i ∉ (fire eps v).2 i
    · obtain ⟨i, hi⟩ := hlost
      rcases fire_discards eps heps v hv hsorted T hT hmax i hi with ⟨t, ht, hti⟩ | ⟨oi, k, hok, hik, _, g, tg, hg, h1, h2, h3, h4⟩
      · exact ⟨t, by simp [ht], i, hti⟩
      · exfalso
        have hsp := hspan k i
        rcases hcase with hn | he0 | heq
        · have hio : i = oi := by
            subst hn
            apply Fin.ext
            have h5 : oi.val ≠ k.val := fun h => hok (Fin.ext h)
            have h6 : i.val ≠ k.val := fun h => hik (Fin.ext h)
            omega
          have := h4 hio
          subst this
          omega
        · omega
        · have := heq k i; omega
    · have hkeep : ∀ i, T i ∈ (fire eps v).2 i := by
        intro i
        apply Classical.byContradiction
        intro h; exact hlost ⟨i, h⟩
      obtain ⟨t, ht, i, hti⟩ := ih hw (fun i => (fire_sorted eps v hv hsorted i).1) hkeep
        (fun i e he => hmax i e ((fire_sorted eps v hv hsorted i).2 e he))
      exact ⟨t, by simp [ht], i, hti⟩

/-! ### Negative epsilon -/

theorem fire_negative (eps : Int) (heps : eps < 0) (hn : 2 ≤ n) (v : Fin n → List Ev) (hv : ∀ i, v i ≠ []) :
    (fire eps v).2 = v := by
  obtain ⟨_, ho2, ho3⟩ := getOlder_spec v
  have hc : checkAll v eps (getOlder v) = false := by
    unfold checkAll
    rw [List.all_eq_false]
    -- an index different from the oldest one
    obtain ⟨k, hk⟩ : ∃ k : Fin n, some k ≠ (getOlder v).2 := by
      by_cases h : some (⟨0, by omega⟩ : Fin n) = (getOlder v).2
      · refine ⟨⟨1, by omega⟩, ?_⟩
        rw [← h]; simp
      · exact ⟨_, h⟩
    refine ⟨k, List.mem_finRange k, ?_⟩
    obtain ⟨f, tf, hf⟩ := List.exists_cons_of_ne_nil (hv k)
    unfold withinEpsilon
    rw [if_neg hk, hf]
    have := ho2 k f tf hf
    simp; omega
  unfold fire
  rw [hc]
  simp only [Bool.false_eq_true, if_false]
  funext i
  obtain ⟨f, tf, hf⟩ := List.exists_cons_of_ne_nil (hv i)
  have := ho2 i f tf hf
  have hos : onSync v eps (getOlder v).1 i = false := by
    unfold onSync; rw [hf]; simp; omega
  rw [hos]; simp

theorem process_negative (hn : 2 ≤ n) (fuel : Nat) : ∀ (s : State n), s.num = nonEmpty s.events → s.epsilon < 0 →
    (∀ i, s.events i ≠ []) → process fuel s = .error .hang := by
  induction fuel with
  | zero =>
    intro s hnum _ hv
    unfold process
    rw [if_pos]
    rw [hnum]; exact_mod_cast (nonEmpty_eq_iff _).2 hv
  | succ fuel ih =>
    intro s hnum heps hv
    obtain ⟨s1, h1, h2, h3, h4, h5, h6⟩ := process_succ fuel s hnum hv
    rw [h1]
    rw [fire_negative s.epsilon heps hn s.events hv] at h5
    exact ih s1 h2 (by rw [h4]; exact heps) (by rw [h5]; exact hv)

end MF.Epsilon
