import Verif.Proofs.Aligner
import Verif.Proofs.Epsilon
/-
Accounting, termination, progress and well-behaved inputs of the InputAligner model.
-/
namespace MF.Aligner

variable {n : Nat}

/-! ### Accounting -/

/-- What is known about one input: `L` are the messages added, `O` those output, `q` its queue. -/
def Acc (L O : List Ev) (q : Queue) : Prop :=
  q.processed = O.length ∧
  ∃ acc : List Ev, acc.Sublist L ∧ q.dropped + acc.length = L.length ∧ ∀ t, at' t (O ++ q.items) = at' t acc

theorem acc_congr {L O : List Ev} {q q' : Queue} (h : Acc L O q) (h1 : q'.items = q.items)
    (h2 : q'.processed = q.processed) (h3 : q'.dropped = q.dropped) : Acc L O q' := by
  unfold Acc at *
  rw [h1, h2, h3]; exact h

theorem stamped_acc {s : State n} {L O : List Ev} {j : Fin n} (h : Acc L O (s.queues j)) :
    Acc L O ((stamped s).queues j) :=
  acc_congr h (first_items _) (first_counts _).1 (first_counts _).2.1

theorem iter_acc {s s' : State n} {b : Bool} (h : Iter s s' b) (L : Fin n → List Ev)
    (hi : ∀ j, Acc (L j) (stream s.out j) (s.queues j)) : ∀ j, Acc (L j) (stream s'.out j) (s'.queues j) := by
  intro j
  cases h with
  | send i e l h hmin =>
    by_cases hj : j = i
    · subst hj
      have ho : stream (sent s j e l).out j = stream s.out j ++ [e] := stream_snoc_same s.out j e
      obtain ⟨h1, acc, h2, h3, h4⟩ := hi j
      rw [ho]
      have hq : ((sent s j e l).queues j).items = l := by simp [sent]
      have hp : ((sent s j e l).queues j).processed = (s.queues j).processed + 1 := by simp [sent]
      have hd : ((sent s j e l).queues j).dropped = (s.queues j).dropped := by
        simp only [sent, upd_same]; exact (first_counts _).2.1
      refine ⟨by rw [hp, h1]; simp, acc, h2, by rw [hd]; exact h3, ?_⟩
      intro t
      rw [hq, ← h4 t, h]
      simp
    · have ho : stream (sent s i e l).out j = stream s.out j := stream_snoc_ne s.out e (Ne.symm hj)
      rw [ho]
      have hq : (sent s i e l).queues j = (stamped s).queues j := by simp [sent, upd_ne _ _ hj]
      rw [hq]
      exact stamped_acc (hi j)
  | timeout i h hmin ht =>
    by_cases hj : j = i
    · subst hj
      exact acc_congr (hi j) (timedOut_items s j j) (by simp [timedOut]) (by simp [timedOut])
    · have hq : (timedOut s i).queues j = (stamped s).queues j := by simp [timedOut, upd_ne _ _ hj]
      rw [hq]
      exact stamped_acc (hi j)
  | stop i h hmin ht => exact stamped_acc (hi j)
  | empty h => exact stamped_acc (hi j)

theorem adds_snoc_add (ops : List (Op n)) (i : Fin n) (e : Ev) : adds (ops ++ [.add i e]) = adds ops ++ [(i, e)] := by
  rw [adds_append]; rfl

theorem adds_snoc_period (ops : List (Op n)) (i : Fin n) (d : Int) : adds (ops ++ [.setPeriod i d]) = adds ops := by
  rw [adds_append]; simp [adds]

theorem adds_snoc_dispatch (ops : List (Op n)) : adds (ops ++ [.dispatch]) = adds ops := by
  rw [adds_append]; simp [adds]

theorem run_acc {fuel : Nat} {timeout : Int} {ops : List (Op n)} {s : State n} (h : run fuel timeout ops = .ok s) :
    ∀ j, Acc (stream (adds ops) j) (stream s.out j) (s.queues j) := by
  refine runE_induction (P := fun ops s => ∀ j, Acc (stream (adds ops) j) (stream s.out j) (s.queues j)) ?_ ?_ ops s h
  · intro j
    exact ⟨rfl, [], List.Sublist.refl _, rfl, by intro t; rfl⟩
  · intro ops s op s' hrun ih hs j
    have hinv : Inv s := run_inv hrun
    cases op with
    | add i e =>
      simp only [step, Except.ok.injEq] at hs
      rw [adds_snoc_add]
      rcases add_eq s i e with ⟨h1, h2⟩ | ⟨h1, h2⟩
      · rw [h2] at hs; subst hs
        by_cases hj : j = i
        · subst hj
          rw [stream_snoc_same]
          obtain ⟨g1, acc, g2, g3, g4⟩ := ih j
          refine ⟨by simpa [refused] using g1, acc, g2.trans (List.sublist_append_left _ _), ?_, ?_⟩
          · simp [refused]; omega
          · intro t; rw [refused_items]; exact g4 t
        · rw [stream_snoc_ne _ _ (Ne.symm hj)]
          have hq : (refused s i).queues j = s.queues j := by simp [refused, upd_ne _ _ hj]
          rw [hq]; exact ih j
      · rw [h2] at hs; subst hs
        by_cases hj : j = i
        · subst hj
          rw [stream_snoc_same]
          obtain ⟨g1, acc, g2, g3, g4⟩ := ih j
          refine ⟨by simpa [queued] using g1, acc ++ [e], g2.append_right _, ?_, ?_⟩
          · simp [queued]; omega
          · intro t
            rw [queued_items_same]
            show at' t (stream s.out j ++ _) = _
            rw [at_append, at_insert t e _ (hinv.sorted j), at_append, at_append, ← g4 t, at_append, List.append_assoc]
        · rw [stream_snoc_ne _ _ (Ne.symm hj), queued_ne s i e hj]; exact ih j
    | setPeriod i d =>
      simp only [step, Except.ok.injEq] at hs
      subst hs
      rw [adds_snoc_period]
      refine acc_congr (ih j) (period_items s i j d) ?_ ?_
      · unfold setInputPeriod
        by_cases hj : j = i
        · subst hj; simp
        · simp [upd_ne _ _ hj]
      · unfold setInputPeriod
        by_cases hj : j = i
        · subst hj; simp
        · simp [upd_ne _ _ hj]
    | dispatch =>
      rw [adds_snoc_dispatch]
      exact dispatch_ind (P := fun s => ∀ j, Acc (stream (adds ops) j) (stream s.out j) (s.queues j))
        (fun _ _ _ a b => iter_acc a _ b) hs ih j

theorem out_queue_sorted {s : State n} (hi : Inv s) (i : Fin n) : TimeSorted (stream s.out i ++ (s.queues i).items) := by
  refine List.pairwise_append.2 ⟨?_, hi.sorted i, ?_⟩
  · refine List.Pairwise.sublist ?_ hi.out
    unfold stream
    exact List.Sublist.map _ (List.filter_sublist)
  · intro x hx y hy
    have := hi.outLe (i, x) (mem_stream.1 hx)
    have := hi.fresh i y hy
    simp at *
    omega

theorem mem_added {fuel : Nat} {timeout : Int} {ops : List (Op n)} {s : State n} (h : run fuel timeout ops = .ok s)
    {i : Fin n} {x : Ev} (hx : x ∈ stream s.out i ++ (s.queues i).items) : x ∈ stream (adds ops) i := by
  obtain ⟨_, acc, h2, _, h4⟩ := run_acc h i
  exact h2.subset ((perm_of_at h4).mem_iff.1 hx)

theorem run_lengths {fuel : Nat} {timeout : Int} {ops : List (Op n)} {s : State n} (h : run fuel timeout ops = .ok s)
    (i : Fin n) : (stream (adds ops) i).length = (s.queues i).processed + (s.queues i).dropped + (s.queues i).items.length := by
  obtain ⟨h1, acc, h2, h3, h4⟩ := run_acc h i
  have := (perm_of_at h4).length_eq
  simp at this
  omega

/-! ### The newest stamp -/

theorem newest_snoc_add (ops : List (Op n)) (i : Fin n) (e : Ev) :
    newest (ops ++ [.add i e]) = if e.stamp > newest ops then e.stamp else newest ops := by
  unfold newest; rw [adds_snoc_add, List.foldl_append]; rfl

theorem newest_spec (ops : List (Op n)) : 0 ≤ newest ops ∧ (∀ m ∈ adds ops, m.2.stamp ≤ newest ops) ∧
    (newest ops = 0 ∨ ∃ m ∈ adds ops, newest ops = m.2.stamp) := by
  unfold newest
  generalize adds ops = l
  induction l using snoc_induction with
  | h0 => simp
  | hs l a ih =>
    rw [List.foldl_append]
    simp only [List.foldl_cons, List.foldl_nil]
    obtain ⟨h1, h2, h3⟩ := ih
    split
    · refine ⟨by omega, ?_, Or.inr ⟨a, by simp, rfl⟩⟩
      intro m hm
      rcases List.mem_append.1 hm with hm | hm
      · have := h2 m hm; omega
      · rw [List.mem_singleton] at hm; rw [hm]; exact Int.le_refl _
    · refine ⟨h1, ?_, ?_⟩
      · intro m hm
        rcases List.mem_append.1 hm with hm | hm
        · exact h2 m hm
        · rw [List.mem_singleton] at hm; rw [hm]; omega
      · rcases h3 with h3 | ⟨m, hm, h3⟩
        · exact Or.inl h3
        · exact Or.inr ⟨m, List.mem_append_left _ hm, h3⟩

theorem iter_frame {s s' : State n} {b : Bool} (h : Iter s s' b) : s'.lastIn = s.lastIn ∧ s'.timeout = s.timeout ∧
    ∀ j, (s'.queues j).period = (s.queues j).period := by
  cases h with
  | send i e l h hmin =>
    refine ⟨rfl, rfl, ?_⟩
    intro j
    by_cases hj : j = i
    · subst hj; simp only [sent, upd_same]; exact (first_counts _).2.2
    · simp only [sent, upd_ne _ _ hj]; exact (first_counts _).2.2
  | timeout i h hmin ht =>
    refine ⟨rfl, rfl, ?_⟩
    intro j
    by_cases hj : j = i
    · subst hj; simp only [timedOut, upd_same]
    · simp only [timedOut, upd_ne _ _ hj]; exact (first_counts _).2.2
  | stop i h hmin ht => exact ⟨rfl, rfl, fun j => (first_counts _).2.2⟩
  | empty h => exact ⟨rfl, rfl, fun j => (first_counts _).2.2⟩

theorem dispatch_frame {fuel : Nat} {s s' : State n} (h : dispatch fuel s = .ok s') : s'.lastIn = s.lastIn ∧
    s'.timeout = s.timeout ∧ ∀ j, (s'.queues j).period = (s.queues j).period := by
  refine dispatch_ind (P := fun x => x.lastIn = s.lastIn ∧ x.timeout = s.timeout ∧
    ∀ j, (x.queues j).period = (s.queues j).period) ?_ h ⟨rfl, rfl, fun _ => rfl⟩
  intro a b _ hab ⟨h1, h2, h3⟩
  obtain ⟨g1, g2, g3⟩ := iter_frame hab
  exact ⟨g1.trans h1, g2.trans h2, fun j => (g3 j).trans (h3 j)⟩

theorem run_timeout {fuel : Nat} {timeout : Int} {ops : List (Op n)} {s : State n} (h : run fuel timeout ops = .ok s) :
    s.timeout = timeout := by
  refine runE_induction (P := fun _ s => s.timeout = timeout) rfl ?_ ops s h
  intro ops s op s' _ ih hs
  cases op with
  | add i e =>
    simp only [step, Except.ok.injEq] at hs
    rcases add_eq s i e with ⟨_, h2⟩ | ⟨_, h2⟩ <;> rw [h2] at hs <;> subst hs <;> exact ih
  | setPeriod i d => simp only [step, Except.ok.injEq] at hs; subst hs; exact ih
  | dispatch => exact (dispatch_frame hs).2.1.trans ih

theorem run_newest {fuel : Nat} {timeout : Int} {ops : List (Op n)} {s : State n} (h : run fuel timeout ops = .ok s) :
    s.lastIn = newest ops := by
  refine runE_induction (P := fun ops s => s.lastIn = newest ops) rfl ?_ ops s h
  intro ops s op s' hrun ih hs
  cases op with
  | add i e =>
    simp only [step, Except.ok.injEq] at hs
    rw [newest_snoc_add]
    rcases add_eq s i e with ⟨h1, h2⟩ | ⟨h1, h2⟩
    · rw [h2] at hs; subst hs
      show s.lastIn = _
      rw [ih]
      have hle : s.lastOut ≤ newest ops := by
        obtain ⟨g1, g2, _⟩ := newest_spec ops
        rcases (run_inv hrun).last with ⟨_, h0⟩ | ⟨m, hm, h0⟩
        · omega
        · have hm' : m ∈ s.out := List.mem_of_getLast? hm
          have := mem_added hrun (i := m.1) (x := m.2) (List.mem_append_left _ (mem_stream.2 hm'))
          have := g2 (m.1, m.2) (mem_stream.1 this)
          simp at this
          omega
      rw [if_neg (by omega)]
    · rw [h2] at hs; subst hs
      show (if e.stamp > s.lastIn then e.stamp else s.lastIn) = _
      rw [ih]
  | setPeriod i d =>
    simp only [step, Except.ok.injEq] at hs; subst hs
    show s.lastIn = _
    rw [ih]; unfold newest; rw [adds_snoc_period]
  | dispatch =>
    rw [(dispatch_frame hs).1, ih]; unfold newest; rw [adds_snoc_dispatch]

/-! ### Termination -/

def weight (q : Queue) : Nat := 2 * q.items.length + (if q.items = [] ∧ q.active = true then 1 else 0)

def measure' (s : State n) : Nat := ((List.finRange n).map (fun i => weight (s.queues i))).sum

theorem weight_first (q : Queue) : weight q.firstTimeStamp.1 = weight q := by
  cases hq : q.items with
  | nil => rw [first_nil hq]
  | cons e l => rw [first_cons hq]; simp [weight, hq]

theorem iter_measure {s s' : State n} (h : Iter s s' true) (hk : s.lastIn - maxTime < s.timeout) :
    measure' s' < measure' s := by
  generalize hb : true = b at h
  cases h with
  | send i e l h hmin =>
    apply Epsilon.sum_map_lt
    · intro j _
      by_cases hj : j = i
      · subst hj; simp only [sent, upd_same, weight, h]; split <;> simp <;> omega
      · simp only [sent, upd_ne _ _ hj]; rw [show (stamped s).queues j = (s.queues j).firstTimeStamp.1 from rfl, weight_first]
        exact Nat.le_refl _
    · refine ⟨i, List.mem_finRange i, ?_⟩
      simp only [sent, upd_same, weight, h]; split <;> simp <;> omega
  | timeout i h hmin ht =>
    have hact : (s.queues i).active = true := by
      apply Classical.byContradiction
      intro hc
      rw [ts_nil h, if_neg hc] at ht
      omega
    apply Epsilon.sum_map_lt
    · intro j _
      by_cases hj : j = i
      · subst hj; simp only [timedOut, upd_same, weight, h]; simp
      · simp only [timedOut, upd_ne _ _ hj]
        rw [show (stamped s).queues j = (s.queues j).firstTimeStamp.1 from rfl, weight_first]
        exact Nat.le_refl _
    · refine ⟨i, List.mem_finRange i, ?_⟩
      simp only [timedOut, upd_same, weight, h]; simp [hact]
  | stop i h hmin ht => cases hb
  | empty h => cases hb

theorem loop_terminates (fuel : Nat) : ∀ s : State n, s.lastIn - maxTime < s.timeout → measure' s < fuel →
    ∃ s', dispatchLoop fuel s = .ok s' := by
  induction fuel with
  | zero => intro s _ h; omega
  | succ fuel ih =>
    intro s hk hm
    obtain ⟨s1, b, h1, h2⟩ := dispatchFirst_spec s
    unfold dispatchLoop
    rw [h1]
    cases b with
    | false => exact ⟨s1, rfl⟩
    | true =>
      simp only
      have := iter_measure h2 hk
      obtain ⟨g1, g2, _⟩ := iter_frame h2
      exact ih s1 (by rw [g1, g2]; exact hk) (by omega)

theorem measure_le (s : State n) : measure' s ≤ 2 * Epsilon.total (fun i => (s.queues i).items) + n := by
  unfold measure' Epsilon.total
  have h : ∀ l : List (Fin n), (l.map (fun i => weight (s.queues i))).sum ≤
      2 * (l.map (fun i => (s.queues i).items.length)).sum + l.length := by
    intro l
    induction l with
    | nil => simp
    | cons a l ih =>
      simp only [List.map_cons, List.sum_cons, List.length_cons]
      have : weight (s.queues a) ≤ 2 * (s.queues a).items.length + 1 := by
        unfold weight; split <;> omega
      omega
  have := h (List.finRange n)
  rw [List.length_finRange] at this
  exact this

theorem dispatch_terminates {fuel : Nat} (s : State n) (hk : s.lastIn - maxTime < s.timeout)
    (hm : 2 * Epsilon.total (fun i => (s.queues i).items) + n < fuel) : ∃ s', dispatch fuel s = .ok s' := by
  unfold dispatch
  split
  · exact loop_terminates fuel s hk (by have := measure_le s; omega)
  · exact ⟨s, rfl⟩

theorem total_queued {fuel : Nat} {timeout : Int} {ops : List (Op n)} {s : State n} (h : run fuel timeout ops = .ok s) :
    Epsilon.total (fun i => (s.queues i).items) ≤ (adds ops).length := by
  rw [← Epsilon.total_stream]
  apply Epsilon.total_le
  intro i
  have := run_lengths h i
  omega

theorem run_terminates {timeout : Int} {ops : List (Op n)} (h0 : -maxTime < timeout)
    (hst : ∀ m ∈ adds ops, m.2.stamp - maxTime < timeout) {fuel : Nat} (hf : 2 * (adds ops).length + n < fuel) :
    ∃ s, run fuel timeout ops = .ok s := by
  induction ops using snoc_induction with
  | h0 => exact ⟨_, rfl⟩
  | hs ops op ih =>
    have hlen : (adds ops).length ≤ (adds (ops ++ [op])).length := by rw [adds_append]; simp
    obtain ⟨s, hs⟩ := ih (fun m hm => hst m (by rw [adds_append]; exact List.mem_append_left _ hm)) (by omega)
    have hstep : ∃ s', step fuel s op = .ok s' := by
      cases op with
      | add i e => exact ⟨_, rfl⟩
      | setPeriod i d => exact ⟨_, rfl⟩
      | dispatch =>
        apply dispatch_terminates
        · rw [run_newest hs, run_timeout hs]
          obtain ⟨g1, _, g3⟩ := newest_spec ops
          rcases g3 with g3 | ⟨m, hm, g3⟩
          · omega
          · have := hst m (by rw [adds_append]; exact List.mem_append_left _ hm)
            omega
        · have := total_queued hs
          omega
    obtain ⟨s', h'⟩ := hstep
    refine ⟨s', ?_⟩
    unfold run at hs ⊢
    rw [runE_append, hs]
    simp only [runE, h']

/-- Without periods no expected stamp lies after the largest time. -/
def Small (s : State n) : Prop := ∀ i, (s.queues i).period = 0 ∧ (s.queues i).next ≤ maxTime ∧
  ∀ x ∈ (s.queues i).items, x.stamp ≤ maxTime

theorem first_small {q : Queue} (h : q.period = 0 ∧ q.next ≤ maxTime ∧ ∀ x ∈ q.items, x.stamp ≤ maxTime) :
    q.firstTimeStamp.1.period = 0 ∧ q.firstTimeStamp.1.next ≤ maxTime ∧ ∀ x ∈ q.firstTimeStamp.1.items, x.stamp ≤ maxTime := by
  cases hq : q.items with
  | nil => rw [first_nil hq]; exact h
  | cons e l =>
    rw [first_cons hq]
    refine ⟨h.1, ?_, by simpa [hq] using h.2.2⟩
    have := h.2.2 e (by rw [hq]; simp)
    show e.stamp + q.period ≤ maxTime
    rw [h.1]; omega

theorem iter_small {s s' : State n} {b : Bool} (h : Iter s s' b) (hi : Small s) : Small s' := by
  intro j
  cases h with
  | send i e l h hmin =>
    by_cases hj : j = i
    · subst hj
      obtain ⟨a1, a2, a3⟩ := first_small (hi j)
      simp only [sent, upd_same]
      refine ⟨a1, a2, ?_⟩
      intro x hx
      exact (hi j).2.2 x (by rw [h]; exact List.mem_cons_of_mem _ hx)
    · simp only [sent, upd_ne _ _ hj]; exact first_small (hi j)
  | timeout i h hmin ht =>
    by_cases hj : j = i
    · subst hj; simp only [timedOut, upd_same]; exact hi j
    · simp only [timedOut, upd_ne _ _ hj]; exact first_small (hi j)
  | stop i h hmin ht => exact first_small (hi j)
  | empty h => exact first_small (hi j)

theorem loop_hangs (hn : 0 < n) (fuel : Nat) : ∀ s : State n, Small s → s.timeout ≤ s.lastIn - maxTime →
    dispatchLoop fuel s = .error .hang := by
  induction fuel with
  | zero => intro s _ _; rfl
  | succ fuel ih =>
    intro s hs hk
    obtain ⟨s1, b, h1, h2⟩ := dispatchFirst_spec s
    unfold dispatchLoop
    rw [h1]
    obtain ⟨g1, g2, _⟩ := iter_frame h2
    have hs1 := iter_small h2 hs
    cases b with
    | true => exact ih s1 hs1 (by rw [g1, g2]; exact hk)
    | false =>
      exfalso
      generalize hb : false = b at h2
      cases h2 with
      | send i e l h hmin => cases hb
      | timeout i h hmin ht => cases hb
      | stop i h hmin ht =>
        have : ts s i ≤ maxTime := by
          rw [ts_nil h]; split
          · exact (hs i).2.1
          · exact Int.le_refl _
        omega
      | empty h => omega

theorem run_small {fuel : Nat} {timeout : Int} {ops : List (Op n)} {s : State n} (h : run fuel timeout ops = .ok s)
    (hp : ∀ i d, Op.setPeriod i d ∉ ops) (hm : ∀ m ∈ adds ops, m.2.stamp ≤ maxTime) : Small s := by
  have := runE_induction (P := fun ops s => (∀ i d, Op.setPeriod i d ∉ ops) → (∀ m ∈ adds ops, m.2.stamp ≤ maxTime) → Small s)
    (step := step fuel) (s0 := construct n timeout) ?_ ?_ ops s h
  · exact this hp hm
  · intro _ _ i
    exact ⟨rfl, Int.le_refl _, by intro x hx; simp [construct, Queue.init] at hx⟩
  · intro ops s op s' hrun ih hs hp hm
    have ih' := ih (fun i d hc => hp i d (List.mem_append_left _ hc))
      (fun m hm' => hm m (by rw [adds_append]; exact List.mem_append_left _ hm'))
    cases op with
    | add i e =>
      simp only [step, Except.ok.injEq] at hs
      have he : e.stamp ≤ maxTime := hm (i, e) (by rw [adds_snoc_add]; simp)
      rcases add_eq s i e with ⟨h1, h2⟩ | ⟨h1, h2⟩
      · rw [h2] at hs; subst hs
        intro j
        by_cases hj : j = i
        · subst hj; simpa [refused] using ih' j
        · simpa [refused, upd_ne _ _ hj] using ih' j
      · rw [h2] at hs; subst hs
        intro j
        by_cases hj : j = i
        · subst hj
          obtain ⟨a1, a2, a3⟩ := ih' j
          refine ⟨by simpa [queued] using a1, by simpa [queued] using a2, ?_⟩
          intro x hx
          rw [queued_items_same, insertEv_mem] at hx
          rcases hx with hx | hx
          · rw [hx]; exact he
          · exact a3 x hx
        · rw [queued_ne s i e hj]; exact ih' j
    | setPeriod i d => exact absurd (List.mem_append_right _ (List.mem_singleton.2 rfl)) (hp i d)
    | dispatch => exact dispatch_ind (fun _ _ _ a b => iter_small a b) hs ih'

/-! ### What dispatching leaves behind -/

theorem dsteps_final {s s' : State n} (h : DSteps s s') :
    n = 0 ∨ ∃ i, (s'.queues i).items = [] ∧ (∀ j, ts s' i ≤ ts s' j) ∧ s'.lastIn - ts s' i < s'.timeout := by
  induction h with
  | done h =>
    rename_i s s'
    have hts : ∀ j, ts (stamped s) j = ts s j := by
      intro j
      cases hq : (s.queues j).items with
      | cons e l => rw [ts_cons hq, ts_cons (by rw [stamped_items]; exact hq)]
      | nil =>
        unfold ts
        rw [show (stamped s).queues j = (s.queues j).firstTimeStamp.1 from rfl, first_nil hq]
    generalize hb : false = b at h
    cases h with
    | send i e l h hmin => cases hb
    | timeout i h hmin ht => cases hb
    | stop i h hmin ht =>
      right
      refine ⟨i, by rw [stamped_items]; exact h, ?_, ?_⟩
      · intro j; rw [hts, hts]; exact hmin j
      · rw [hts]; exact ht
    | empty h => left; exact h
  | step _ _ ih => exact ih

theorem dispatch_final {fuel : Nat} {s s' : State n} (h : dispatch fuel s = .ok s') (hi : Inv s')
    (hst : ∀ i, ∀ x ∈ (s'.queues i).items, x.stamp < maxTime) (hne : ∃ i, (s'.queues i).items ≠ []) :
    ∃ i, (s'.queues i).items = [] ∧ (s'.queues i).active = true ∧
      (∀ j, ∀ x ∈ (s'.queues j).items, (s'.queues i).next ≤ x.stamp) ∧ s'.lastIn - (s'.queues i).next < s'.timeout := by
  obtain ⟨j, hj⟩ := hne
  rcases dispatch_spec fuel s with ⟨h0, h1⟩ | ⟨_, ⟨s1, h1, h2⟩ | h1⟩
  · rw [h] at h1; cases h1; exact absurd (h0 j) hj
  · rw [h] at h1; cases h1
    rcases dsteps_final h2 with h0 | ⟨i, h3, h4, h5⟩
    · subst h0; exact j.elim0
    · have hact : (s'.queues i).active = true := by
        apply Classical.byContradiction
        intro hc
        obtain ⟨x, l, hx⟩ := List.exists_cons_of_ne_nil hj
        have := h4 j
        rw [ts_nil h3, if_neg hc, ts_cons hx] at this
        have := hst j x (by rw [hx]; simp)
        omega
      have hts : ts s' i = (s'.queues i).next := by rw [ts_nil h3, if_pos hact]
      refine ⟨i, h3, hact, ?_, by rw [hts] at h5; exact h5⟩
      intro k x hx
      have a := h4 k
      have b := ts_le (hi.sorted k) hx
      rw [hts] at a
      omega
  · rw [h] at h1; cases h1

/-! ### The expected next stamp -/

theorem periodOf_snoc (i : Fin n) (ops : List (Op n)) (op : Op n) : periodOf i (ops ++ [op]) =
    match op with | .setPeriod j d => if j = i then d else periodOf i ops | _ => periodOf i ops := by
  unfold periodOf; rw [List.foldl_append]; rfl

theorem step_period {fuel : Nat} {s s' : State n} {op : Op n} (h : step fuel s op = .ok s') (i : Fin n) :
    (s'.queues i).period = match op with | .setPeriod j d => if j = i then d else (s.queues i).period | _ => (s.queues i).period := by
  cases op with
  | add j e =>
    simp only [step, Except.ok.injEq] at h
    rcases add_eq s j e with ⟨_, h2⟩ | ⟨_, h2⟩ <;> rw [h2] at h <;> subst h <;> by_cases hj : i = j
    · subst hj; simp [refused]
    · simp [refused, upd_ne _ _ hj]
    · subst hj; simp [queued]
    · simp [queued, upd_ne _ _ hj]
  | setPeriod j d =>
    simp only [step, Except.ok.injEq] at h
    subst h
    by_cases hj : i = j
    · subst hj; simp [setInputPeriod]
    · simp [setInputPeriod, upd_ne _ _ hj, Ne.symm hj]
  | dispatch => exact (dispatch_frame h).2.2 i

theorem run_period {fuel : Nat} {timeout : Int} {ops : List (Op n)} {s : State n} (h : run fuel timeout ops = .ok s)
    (i : Fin n) : (s.queues i).period = periodOf i ops := by
  refine runE_induction (P := fun ops s => (s.queues i).period = periodOf i ops) rfl ?_ ops s h
  intro ops s op s' _ ih hs
  rw [step_period hs, periodOf_snoc, ih]
  cases op <;> rfl

/-- The expected next stamp of input `i`, and why it is inactive. -/
structure NextInv (i : Fin n) (p : Int) (s : State n) : Prop where
  live : (s.queues i).items = [] → (s.queues i).active = true →
    ∃ e, (stream s.out i).getLast? = some e ∧ (s.queues i).next = e.stamp + p
  dead : (s.queues i).items = [] → (s.queues i).active = false → ∀ e, (stream s.out i).getLast? = some e →
    s.timeout ≤ s.lastIn - (e.stamp + p)

theorem first_same {s : State n} {i : Fin n} (h : (s.queues i).items = []) : (stamped s).queues i = s.queues i := first_nil h

theorem iter_next {i : Fin n} {p : Int} {s s' : State n} {b : Bool} (h : Iter s s' b) (hp : (s.queues i).period = p)
    (hi : NextInv i p s) : NextInv i p s' := by
  have hstamped : NextInv i p (stamped s) := by
    constructor
    · intro h1 h2
      rw [stamped_items] at h1
      rw [first_same h1] at h2 ⊢
      exact hi.live h1 h2
    · intro h1 h2
      rw [stamped_items] at h1
      rw [first_same h1] at h2
      exact hi.dead h1 h2
  cases h with
  | send j e l h hmin =>
    by_cases hj : i = j
    · subst hj
      have hact : ((sent s i e l).queues i).active = true := by
        simp only [sent, upd_same, stamped, first_cons h]
      constructor
      · intro _ _
        refine ⟨e, ?_, ?_⟩
        · show (stream (s.out ++ [(i, e)]) i).getLast? = some e
          rw [stream_snoc_same]; simp
        · simp only [sent, upd_same, stamped, first_cons h, hp]
      · intro _ h2; rw [hact] at h2; cases h2
    · have hq : (sent s j e l).queues i = (stamped s).queues i := by simp [sent, upd_ne _ _ hj]
      have ho : stream (sent s j e l).out i = stream s.out i := stream_snoc_ne s.out e (Ne.symm hj)
      constructor
      · intro h1 h2; rw [hq] at h1 h2 ⊢; rw [ho]; exact hstamped.live h1 h2
      · intro h1 h2; rw [hq] at h1 h2; rw [ho]; exact hstamped.dead h1 h2
  | timeout j h hmin ht =>
    by_cases hj : i = j
    · subst hj
      constructor
      · intro _ h2; simp [timedOut] at h2
      · intro _ _ e he
        show s.timeout ≤ s.lastIn - _
        by_cases ha : (s.queues i).active = true
        · obtain ⟨e', h1, h2⟩ := hi.live h ha
          have he' : (stream s.out i).getLast? = some e := he
          rw [h1] at he'
          cases he'
          rw [ts_nil h, if_pos ha, h2] at ht
          omega
        · exact hi.dead h (by simpa using ha) e he
    · have hq : (timedOut s j).queues i = (stamped s).queues i := by simp [timedOut, upd_ne _ _ hj]
      constructor
      · intro h1 h2; rw [hq] at h1 h2 ⊢; exact hstamped.live h1 h2
      · intro h1 h2; rw [hq] at h1 h2; exact hstamped.dead h1 h2
  | stop j h hmin ht => exact hstamped
  | empty h => exact hstamped

theorem dispatch_next {i : Fin n} {p : Int} {fuel : Nat} {s s' : State n} (h : dispatch fuel s = .ok s')
    (hp : (s.queues i).period = p) (hi : NextInv i p s) : NextInv i p s' :=
  (dispatch_ind (P := fun s => (s.queues i).period = p ∧ NextInv i p s)
    (fun _ _ _ a b => ⟨((iter_frame a).2.2 i).trans b.1, iter_next a b.1 b.2⟩) h ⟨hp, hi⟩).2

theorem step_next {i : Fin n} {p : Int} {fuel : Nat} {s s' : State n} {op : Op n} (h : step fuel s op = .ok s')
    (hp : (s.queues i).period = p) (hi : NextInv i p s) : NextInv i p s' := by
  cases op with
  | dispatch => exact dispatch_next h hp hi
  | setPeriod j d =>
    simp only [step, Except.ok.injEq] at h
    subst h
    have h1 : ∀ k, ((setInputPeriod s j d).queues k).items = (s.queues k).items := fun k => period_items s j k d
    have h2 : ∀ k, ((setInputPeriod s j d).queues k).active = (s.queues k).active := by
      intro k
      by_cases hk : k = j
      · subst hk; simp [setInputPeriod]
      · simp [setInputPeriod, upd_ne _ _ hk]
    have h3 : ∀ k, ((setInputPeriod s j d).queues k).next = (s.queues k).next := by
      intro k
      by_cases hk : k = j
      · subst hk; simp [setInputPeriod]
      · simp [setInputPeriod, upd_ne _ _ hk]
    constructor
    · rw [h1, h2, h3]; exact hi.live
    · rw [h1, h2]; exact hi.dead
  | add j e =>
    simp only [step, Except.ok.injEq] at h
    rcases add_eq s j e with ⟨_, g⟩ | ⟨_, g⟩
    · rw [g] at h; subst h
      have h2 : ((refused s j).queues i).active = (s.queues i).active := by
        by_cases hk : i = j
        · subst hk; simp [refused]
        · simp [refused, upd_ne _ _ hk]
      have h3 : ((refused s j).queues i).next = (s.queues i).next := by
        by_cases hk : i = j
        · subst hk; simp [refused]
        · simp [refused, upd_ne _ _ hk]
      constructor
      · rw [refused_items, h2, h3]; exact hi.live
      · rw [refused_items, h2]; exact hi.dead
    · rw [g] at h; subst h
      by_cases hj : i = j
      · subst hj
        have hne : ((queued s i e).queues i).items ≠ [] := by
          rw [queued_items_same]
          intro hc
          have := insertEv_length e (s.queues i).items
          rw [hc] at this; simp at this
        exact ⟨fun h => absurd h hne, fun h => absurd h hne⟩
      · rw [← queued_ne s j e hj] at hp
        constructor
        · rw [queued_ne s j e hj]; exact hi.live
        · rw [queued_ne s j e hj]
          intro h1 h2 x hx
          have := hi.dead h1 h2 x hx
          show s.timeout ≤ (if e.stamp > s.lastIn then e.stamp else s.lastIn) - _
          split <;> omega

theorem stream_no_add {i : Fin n} {ops : List (Op n)} (h : ∀ e, Op.add i e ∉ ops) : stream (adds ops) i = [] := by
  cases hs : stream (adds ops) i with
  | nil => rfl
  | cons x l =>
    exfalso
    have : x ∈ stream (adds ops) i := by rw [hs]; simp
    exact h x (mem_adds.1 (mem_stream.1 this))

/-- Before the first message of an input nothing is known about it. -/
theorem run_untouched {fuel : Nat} {timeout : Int} {ops : List (Op n)} {s : State n} (h : run fuel timeout ops = .ok s)
    {i : Fin n} (hno : ∀ e, Op.add i e ∉ ops) : (s.queues i).items = [] ∧ (s.queues i).active = false ∧ stream s.out i = [] := by
  have hL := stream_no_add hno
  have hmem := fun x hx => mem_added h (i := i) (x := x) hx
  rw [hL] at hmem
  have hnil : stream s.out i ++ (s.queues i).items = [] := by
    cases hx : stream s.out i ++ (s.queues i).items with
    | nil => rfl
    | cons y l => exact absurd (hmem y (by rw [hx]; simp)) (by simp)
  have := List.append_eq_nil_iff.1 hnil
  refine ⟨this.2, ?_, this.1⟩
  -- activity
  have key := runE_induction (P := fun ops s => (∀ e, Op.add i e ∉ ops) → (s.queues i).items = [] → (s.queues i).active = false)
    (step := step fuel) (s0 := construct n timeout) (by intro _ _; rfl) ?_ ops s h
  · exact key hno this.2
  · intro ops s op s' hrun ih hs hno hnil
    have hno' : ∀ e, Op.add i e ∉ ops := fun e hc => hno e (List.mem_append_left _ hc)
    have hL := stream_no_add hno'
    have hnil0 : (s.queues i).items = [] := by
      cases hx : (s.queues i).items with
      | nil => rfl
      | cons y l =>
        have := mem_added hrun (i := i) (x := y) (List.mem_append_right _ (by rw [hx]; simp))
        rw [hL] at this; cases this
    have hact := ih hno' hnil0
    cases op with
    | add j e =>
      have hj : i ≠ j := by
        intro hc; subst hc; exact hno e (by simp)
      simp only [step, Except.ok.injEq] at hs
      rcases add_eq s j e with ⟨_, g⟩ | ⟨_, g⟩ <;> rw [g] at hs <;> subst hs
      · simpa [refused, upd_ne _ _ hj] using hact
      · rw [queued_ne s j e hj]; exact hact
    | setPeriod j d =>
      simp only [step, Except.ok.injEq] at hs
      subst hs
      by_cases hj : i = j
      · subst hj; simpa [setInputPeriod] using hact
      · simpa [setInputPeriod, upd_ne _ _ hj] using hact
    | dispatch =>
      refine (dispatch_ind (P := fun s => (s.queues i).items = [] ∧ (s.queues i).active = false) ?_ hs ⟨hnil0, hact⟩).2
      rintro a b _ hab ⟨h1, h2⟩
      have hst : ((stamped a).queues i).items = [] ∧ ((stamped a).queues i).active = false := by
        rw [first_same h1]; exact ⟨h1, h2⟩
      cases hab with
      | send j e l h hmin =>
        have hj : i ≠ j := by intro hc; subst hc; rw [h1] at h; cases h
        simpa only [sent, upd_ne _ _ hj] using hst
      | timeout j h hmin ht =>
        by_cases hj : i = j
        · subst hj; simp [timedOut, h1]
        · simpa only [timedOut, upd_ne _ _ hj] using hst
      | stop j h hmin ht => exact hst
      | empty h => exact hst

theorem run_split {fuel : Nat} {timeout : Int} {pre post : List (Op n)} {s : State n}
    (h : run fuel timeout (pre ++ post) = .ok s) : ∃ s0, run fuel timeout pre = .ok s0 ∧ runE (step fuel) s0 post = .ok s := by
  unfold run at h ⊢
  rw [runE_append] at h
  cases h1 : runE (step fuel) (construct n timeout) pre with
  | error f => rw [h1] at h; cases h
  | ok s0 => rw [h1] at h; exact ⟨s0, rfl, h⟩

theorem run_join {fuel : Nat} {timeout : Int} {pre post : List (Op n)} {s0 s : State n}
    (h0 : run fuel timeout pre = .ok s0) (h : runE (step fuel) s0 post = .ok s) : run fuel timeout (pre ++ post) = .ok s := by
  unfold run at h0 ⊢
  rw [runE_append, h0]; exact h

theorem const_induction {fuel : Nat} {timeout : Int} {i : Fin n} {p : Int} {P : List (Op n) → State n → Prop}
    (h0 : ∀ ops s, run fuel timeout ops = .ok s → (∀ e, Op.add i e ∉ ops) → P ops s)
    (hs : ∀ ops s op s', run fuel timeout ops = .ok s → (s.queues i).period = p → P ops s → step fuel s op = .ok s' →
      P (ops ++ [op]) s')
    {ops : List (Op n)} {s : State n} (h : run fuel timeout ops = .ok s) (hc : ConstPeriod i p ops) :
    (s.queues i).period = p ∧ P ops s := by
  obtain ⟨pre, post, rfl, hno, hp, hpost⟩ := hc
  obtain ⟨s0, hpre, hrest⟩ := run_split h
  have := runE_induction (step := step fuel) (s0 := s0)
    (P := fun l s => (∀ d, Op.setPeriod i d ∉ l) → (s.queues i).period = p ∧ P (pre ++ l) s) ?_ ?_ post s hrest
  · exact this hpost
  · intro _
    rw [List.append_nil]
    exact ⟨by rw [run_period hpre, hp], h0 pre s0 hpre hno⟩
  · intro l s op s' hl ih hstep hl'
    obtain ⟨h1, h2⟩ := ih (fun d hc => hl' d (List.mem_append_left _ hc))
    constructor
    · rw [step_period hstep]
      cases op with
      | setPeriod j d =>
        by_cases hj : j = i
        · subst hj; exact absurd (List.mem_append_right _ (List.mem_singleton.2 rfl)) (hl' d)
        · simp only [if_neg hj]; exact h1
      | add j e => exact h1
      | dispatch => exact h1
    · rw [← List.append_assoc]
      exact hs (pre ++ l) s op s' (run_join hpre hl) h1 h2 hstep

theorem run_next {fuel : Nat} {timeout : Int} {ops : List (Op n)} {s : State n} (h : run fuel timeout ops = .ok s)
    {i : Fin n} {p : Int} (hc : ConstPeriod i p ops) : NextInv i p s := by
  refine (const_induction (P := fun _ s => NextInv i p s) ?_ ?_ h hc).2
  · intro ops s hrun hno
    obtain ⟨h1, h2, h3⟩ := run_untouched hrun hno
    constructor
    · intro _ h; rw [h2] at h; cases h
    · intro _ _ e he; rw [h3] at he; cases he
  · intro ops s op s' hrun hp hi hs
    exact step_next hs hp hi

/-! ### Well-behaved inputs -/

/-- The last output is not later than the earliest stamp the next message of the input may have. -/
def Tame (i : Fin n) (p : Int) (L : List Ev) (s : State n) : Prop :=
  ((s.queues i).active = true ∨ (s.queues i).items ≠ []) → ∃ e, L.getLast? = some e ∧ s.lastOut ≤ e.stamp + p ∧
    ((s.queues i).active = true → (s.queues i).next ≤ e.stamp + p)

theorem spaced_last {p : Int} (hp : 0 ≤ p) {L : List Ev} (h : Spaced p L) {e x : Ev} (he : L.getLast? = some e) (hx : x ∈ L) :
    x.stamp ≤ e.stamp := by
  obtain ⟨l, rfl⟩ := List.getLast?_eq_some_iff.1 he
  rcases List.mem_append.1 hx with hx | hx
  · have := (List.pairwise_append.1 h).2.2 x hx e (by simp)
    omega
  · rw [List.mem_singleton] at hx; rw [hx]; exact Int.le_refl _

theorem iter_tame {i : Fin n} {p : Int} (hp0 : 0 ≤ p) {L : List Ev} (hL : Spaced p L) {s s' : State n} {b : Bool}
    (h : Iter s s' b) (hmem : ∀ x ∈ (s.queues i).items, x ∈ L) (hp : (s.queues i).period = p)
    (hi : Tame i p L s) : Tame i p L s' := by
  have hstamped : ∀ e, L.getLast? = some e → ((s.queues i).active = true → (s.queues i).next ≤ e.stamp + p) →
      ((stamped s).queues i).active = true → ((stamped s).queues i).next ≤ e.stamp + p := by
    intro e he hn ha
    cases hq : (s.queues i).items with
    | nil => rw [first_same hq] at ha ⊢; exact hn ha
    | cons x l =>
      have : (stamped s).queues i = _ := first_cons hq
      rw [this]
      show x.stamp + (s.queues i).period ≤ _
      rw [hp]
      have := spaced_last hp0 hL he (hmem x (by rw [hq]; simp))
      omega
  have hlive : ((stamped s).queues i).active = true ∨ (s.queues i).items ≠ [] →
      (s.queues i).active = true ∨ (s.queues i).items ≠ [] := by
    rintro (h | h)
    · cases hq : (s.queues i).items with
      | nil => rw [first_same hq] at h; exact Or.inl h
      | cons x l => right; simp
    · exact Or.inr h
  cases h with
  | send j x l h hmin =>
    by_cases hj : i = j
    · subst hj
      intro _
      obtain ⟨e, h1, h2, h3⟩ := hi (Or.inr (by rw [h]; simp))
      have hx := spaced_last hp0 hL h1 (hmem x (by rw [h]; simp))
      refine ⟨e, h1, ?_, ?_⟩
      · show x.stamp ≤ _; omega
      · intro ha
        have := hstamped e h1 h3 (by simp [stamped, first_cons h])
        simpa only [sent, upd_same] using this
    · have hq : (sent s j x l).queues i = (stamped s).queues i := by simp [sent, upd_ne _ _ hj]
      intro hlv
      rw [hq, stamped_items] at hlv
      obtain ⟨e, h1, h2, h3⟩ := hi (hlive hlv)
      refine ⟨e, h1, ?_, ?_⟩
      · show x.stamp ≤ _
        have hm := hmin i
        cases hqi : (s.queues i).items with
        | nil =>
          have ha : (s.queues i).active = true := by
            rcases hlive hlv with ha | ha
            · exact ha
            · exact absurd hqi ha
          rw [ts_nil hqi, if_pos ha] at hm
          have := h3 ha
          omega
        | cons y l' =>
          rw [ts_cons hqi] at hm
          have := spaced_last hp0 hL h1 (hmem y (by rw [hqi]; simp))
          omega
      · rw [hq]; exact hstamped e h1 h3
  | timeout j h hmin ht =>
    by_cases hj : i = j
    · subst hj
      intro hlv
      rcases hlv with hlv | hlv
      · simp [timedOut] at hlv
      · rw [timedOut_items] at hlv; exact absurd h hlv
    · have hq : (timedOut s j).queues i = (stamped s).queues i := by simp [timedOut, upd_ne _ _ hj]
      intro hlv
      rw [hq, stamped_items] at hlv
      obtain ⟨e, h1, h2, h3⟩ := hi (hlive hlv)
      exact ⟨e, h1, h2, by rw [hq]; exact hstamped e h1 h3⟩
  | stop j h hmin ht =>
    intro hlv
    rw [stamped_items] at hlv
    obtain ⟨e, h1, h2, h3⟩ := hi (hlive hlv)
    exact ⟨e, h1, h2, hstamped e h1 h3⟩
  | empty h =>
    intro hlv
    rw [stamped_items] at hlv
    obtain ⟨e, h1, h2, h3⟩ := hi (hlive hlv)
    exact ⟨e, h1, h2, hstamped e h1 h3⟩

theorem iter_items_subset {s s' : State n} {b : Bool} (h : Iter s s' b) (i : Fin n) :
    ∀ x ∈ (s'.queues i).items, x ∈ (s.queues i).items := by
  cases h with
  | send j e l h hmin =>
    intro x hx
    obtain ⟨q, hq, _⟩ := sent_items s j e l h i
    rw [hq]; exact List.mem_append_right _ hx
  | timeout j h hmin ht => intro x hx; rw [timedOut_items] at hx; exact hx
  | stop j h hmin ht => intro x hx; rw [stamped_items] at hx; exact hx
  | empty h => intro x hx; rw [stamped_items] at hx; exact hx

theorem tame_add {i : Fin n} {p : Int} {L : List Ev} {e : Ev} (hL : Spaced p (L ++ [e])) {s : State n} (hi : Tame i p L s)
    (hlv : (s.queues i).active = true ∨ (s.queues i).items ≠ []) : s.lastOut ≤ e.stamp := by
  obtain ⟨x, h1, h2, _⟩ := hi hlv
  have := (List.pairwise_append.1 hL).2.2 x (List.mem_of_getLast? h1) e (by simp)
  omega

theorem run_tame {fuel : Nat} {timeout : Int} {ops : List (Op n)} {s : State n} (h : run fuel timeout ops = .ok s)
    {i : Fin n} {p : Int} (hp0 : 0 ≤ p) (hc : ConstPeriod i p ops) (hL : Spaced p (stream (adds ops) i)) :
    Tame i p (stream (adds ops) i) s := by
  refine (const_induction (P := fun ops s => Spaced p (stream (adds ops) i) → Tame i p (stream (adds ops) i) s) ?_ ?_ h hc).2 hL
  · intro ops s hrun hno _ hlv
    obtain ⟨h1, h2, h3⟩ := run_untouched hrun hno
    rcases hlv with hlv | hlv
    · rw [h2] at hlv; cases hlv
    · exact absurd h1 hlv
  · intro ops s op s' hrun hp ih hs hL
    have hpre : Spaced p (stream (adds ops) i) := by
      rw [adds_append, stream_append] at hL
      exact (List.pairwise_append.1 hL).1
    have hi := ih hpre
    cases op with
    | add j e =>
      rw [adds_snoc_add] at hL ⊢
      simp only [step, Except.ok.injEq] at hs
      by_cases hj : i = j
      · subst hj
        rw [stream_snoc_same] at hL ⊢
        rcases add_eq s i e with ⟨h1, g⟩ | ⟨h1, g⟩
        · rw [g] at hs; subst hs
          intro hlv
          have hlv' : (s.queues i).active = true ∨ (s.queues i).items ≠ [] := by
            rw [refused_items] at hlv
            simpa [refused] using hlv
          have := tame_add hL hi hlv'
          omega
        · rw [g] at hs; subst hs
          intro _
          refine ⟨e, by simp, ?_, ?_⟩
          · show s.lastOut ≤ _; omega
          · intro ha
            have ha' : (s.queues i).active = true := by simpa [queued] using ha
            obtain ⟨x, h2, _, h3⟩ := hi (Or.inl ha')
            have := h3 ha'
            have := (List.pairwise_append.1 hL).2.2 x (List.mem_of_getLast? h2) e (by simp)
            show ((queued s i e).queues i).next ≤ _
            have hn : ((queued s i e).queues i).next = (s.queues i).next := by simp [queued]
            rw [hn]; omega
      · rw [stream_snoc_ne _ _ (Ne.symm hj)] at hL ⊢
        rcases add_eq s j e with ⟨h1, g⟩ | ⟨h1, g⟩
        · rw [g] at hs; subst hs
          have hq : (refused s j).queues i = s.queues i := by simp [refused, upd_ne _ _ hj]
          unfold Tame at hi ⊢
          rw [hq]; exact hi
        · rw [g] at hs; subst hs
          unfold Tame at hi ⊢
          rw [queued_ne s j e hj]; exact hi
    | setPeriod j d =>
      rw [adds_snoc_period] at hL ⊢
      simp only [step, Except.ok.injEq] at hs
      subst hs
      have h1 := period_items s j i d
      have h2 : ((setInputPeriod s j d).queues i).active = (s.queues i).active := by
        by_cases hk : i = j
        · subst hk; simp [setInputPeriod]
        · simp [setInputPeriod, upd_ne _ _ hk]
      have h3 : ((setInputPeriod s j d).queues i).next = (s.queues i).next := by
        by_cases hk : i = j
        · subst hk; simp [setInputPeriod]
        · simp [setInputPeriod, upd_ne _ _ hk]
      unfold Tame at hi ⊢
      rw [h1, h2, h3]; exact hi
    | dispatch =>
      rw [adds_snoc_dispatch] at hL ⊢
      refine (dispatch_ind (P := fun s => (∀ x ∈ (s.queues i).items, x ∈ stream (adds ops) i) ∧ (s.queues i).period = p ∧
        Tame i p (stream (adds ops) i) s) ?_ hs ⟨?_, hp, hi⟩).2.2
      · rintro a b _ hab ⟨h1, h2, h3⟩
        exact ⟨fun x hx => h1 x (iter_items_subset hab i x hx), ((iter_frame hab).2.2 i).trans h2,
          iter_tame hp0 hL hab h1 h2 h3⟩
      · intro x hx
        exact mem_added hrun (List.mem_append_right _ hx)

theorem add_dropped (s : State n) (i j : Fin n) (e : Ev) :
    ((add s j e).queues i).dropped = (s.queues i).dropped + if i = j ∧ e.stamp < s.lastOut then 1 else 0 := by
  rcases add_eq s j e with ⟨h1, h2⟩ | ⟨h1, h2⟩ <;> rw [h2]
  · by_cases hj : i = j
    · subst hj; simp [refused, h1]
    · simp [refused, upd_ne _ _ hj, hj]
  · rw [if_neg (by omega)]
    by_cases hj : i = j
    · subst hj; simp [queued]
    · rw [queued_ne s j e hj]; rfl

theorem dispatch_dropped {fuel : Nat} {s s' : State n} (h : dispatch fuel s = .ok s') (i : Fin n) :
    (s'.queues i).dropped = (s.queues i).dropped := by
  refine dispatch_ind (P := fun x => (x.queues i).dropped = (s.queues i).dropped) ?_ h rfl
  intro a b _ hab ha
  rw [← ha]
  cases hab with
  | send j e l h hmin =>
    by_cases hj : i = j
    · subst hj; simp only [sent, upd_same]; exact (first_counts _).2.1
    · simp only [sent, upd_ne _ _ hj]; exact (first_counts _).2.1
  | timeout j h hmin ht =>
    by_cases hj : i = j
    · subst hj; simp only [timedOut, upd_same]
    · simp only [timedOut, upd_ne _ _ hj]; exact (first_counts _).2.1
  | stop j h hmin ht => exact (first_counts _).2.1
  | empty h => exact (first_counts _).2.1

theorem out_grows {fuel : Nat} {s s' : State n} {op : Op n} (h : step fuel s op = .ok s') : s.out <+: s'.out := by
  cases op with
  | add j e =>
    simp only [step, Except.ok.injEq] at h
    rcases add_eq s j e with ⟨_, h2⟩ | ⟨_, h2⟩ <;> rw [h2] at h <;> subst h <;> exact List.prefix_refl _
  | setPeriod j d => simp only [step, Except.ok.injEq] at h; subst h; exact List.prefix_refl _
  | dispatch =>
    refine dispatch_ind (P := fun x => s.out <+: x.out) ?_ h (List.prefix_refl _)
    intro a b _ hab ha
    cases hab with
    | send j e l h hmin => exact ha.trans (List.prefix_append _ _)
    | timeout j h hmin ht => exact ha
    | stop j h hmin ht => exact ha
    | empty h => exact ha

theorem stream_prefix {a b : List (Fin n × Ev)} (h : a <+: b) (i : Fin n) : stream a i <+: stream b i := by
  obtain ⟨c, rfl⟩ := h
  rw [stream_append]; exact List.prefix_append _ _

theorem constPeriod_append {i : Fin n} {p : Int} {a b : List (Op n)} (h : ConstPeriod i p a)
    (hb : ∀ d, Op.setPeriod i d ∉ b) : ConstPeriod i p (a ++ b) := by
  obtain ⟨pre, post, rfl, h1, h2, h3⟩ := h
  refine ⟨pre, post ++ b, by rw [List.append_assoc], h1, h2, ?_⟩
  intro d hd
  rcases List.mem_append.1 hd with hd | hd
  · exact h3 d hd
  · exact hb d hd

end MF.Aligner
