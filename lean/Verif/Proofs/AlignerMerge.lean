import Verif.Proofs.Aligner2
import Verif.Spec.AlignerMerge
/-
Helper lemmas for property C102.
-/
namespace MF.Aligner

variable {n : Nat}

/-! ### One turn of the dispatch loop, with the choice among equal stamps -/

theorem idx_fold_first (t : Fin n → Int) (l : List (Fin n)) : ∀ j, l.Pairwise (· < ·) → (∀ i ∈ l, j < i) →
    ∃ k, l.foldl (fun best i => match best with
      | none => some i
      | some j => if t i < t j then some i else some j) (some j) = some k ∧
      (t k < t j ∨ (t k = t j ∧ k ≤ j)) ∧ j ≤ k ∧ ∀ i ∈ l, t k < t i ∨ (t k = t i ∧ k ≤ i) := by
  induction l with
  | nil => intro j _ _; exact ⟨j, rfl, Or.inr ⟨rfl, Fin.le_refl _⟩, Fin.le_refl _, by simp⟩
  | cons a l ih =>
    intro j hl hj
    simp only [List.foldl_cons]
    have hal : ∀ i ∈ l, a < i := fun i hi => List.rel_of_pairwise_cons hl hi
    have hja := hj a (by simp)
    by_cases h : t a < t j
    · rw [if_pos h]
      obtain ⟨k, h1, h2, h3, h4⟩ := ih a (List.Pairwise.of_cons hl) hal
      refine ⟨k, h1, by left; omega, by omega, ?_⟩
      intro i hi
      rcases List.mem_cons.1 hi with hi | hi
      · rw [hi]; exact h2
      · exact h4 i hi
    · rw [if_neg h]
      obtain ⟨k, h1, h2, h3, h4⟩ := ih j (List.Pairwise.of_cons hl) (fun i hi => hj i (List.mem_cons_of_mem _ hi))
      refine ⟨k, h1, h2, h3, ?_⟩
      intro i hi
      rcases List.mem_cons.1 hi with hi | hi
      · rw [hi]; omega
      · exact h4 i hi

theorem idx_first (t : Fin n → Int) : (n = 0 ∧ getFirstSampleIdx t = none) ∨
    ∃ k, getFirstSampleIdx t = some k ∧ ∀ i, t k < t i ∨ (t k = t i ∧ k ≤ i) := by
  cases n with
  | zero => left; exact ⟨rfl, rfl⟩
  | succ m =>
    right
    unfold getFirstSampleIdx
    have hmem : ∀ i : Fin (m+1), i ∈ List.finRange (m+1) := List.mem_finRange
    have hs : (List.finRange (m+1)).Pairwise (· < ·) := List.pairwise_lt_finRange _
    rw [List.finRange_succ] at hmem hs ⊢
    rw [List.foldl_cons]
    obtain ⟨k, h1, h2, _, h4⟩ := idx_fold_first t ((List.finRange m).map Fin.succ) 0 (List.Pairwise.of_cons hs)
      (fun i hi => List.rel_of_pairwise_cons hs hi)
    refine ⟨k, h1, ?_⟩
    intro i
    rcases List.mem_cons.1 (hmem i) with hi | hi
    · rw [hi]; exact h2
    · exact h4 i hi

/-- One iteration of the dispatch loop. -/
inductive Turn (s : State n) : State n → Bool → Prop where
  | send (i : Fin n) (e : Ev) (l : List Ev) (h : (s.queues i).items = e :: l)
      (hmin : ∀ j, e.stamp < ts s j ∨ (e.stamp = ts s j ∧ i ≤ j)) : Turn s (sent s i e l) true
  | timeout (i : Fin n) (h : (s.queues i).items = []) (hmin : ∀ j, ts s i ≤ ts s j)
      (ht : s.lastIn - ts s i ≥ s.timeout) : Turn s (timedOut s i) true
  | stop (i : Fin n) (h : (s.queues i).items = []) (hmin : ∀ j, ts s i < ts s j ∨ (ts s i = ts s j ∧ i ≤ j))
      (ht : s.lastIn - ts s i < s.timeout) : Turn s (stamped s) false
  | empty (h : n = 0) : Turn s (stamped s) false

theorem Turn.iter {s s' : State n} {b : Bool} (h : Turn s s' b) : Iter s s' b := by
  cases h with
  | send i e l h hmin => exact .send i e l h (fun j => by have := hmin j; omega)
  | timeout i h hmin ht => exact .timeout i h hmin ht
  | stop i h hmin ht => exact .stop i h (fun j => by have := hmin j; omega) ht
  | empty h => exact .empty h

theorem dispatchFirst_turn (s : State n) : ∃ s' b, dispatchFirst s = .ok (s', b) ∧ Turn s s' b := by
  unfold dispatchFirst
  rcases idx_first (ts s) with ⟨h0, h⟩ | ⟨k, h, hmin⟩
  · have : (fun i => (s.queues i).firstTimeStamp.2) = ts s := rfl
    simp only [this, h]
    exact ⟨_, _, rfl, .empty h0⟩
  · have : (fun i => (s.queues i).firstTimeStamp.2) = ts s := rfl
    simp only [this, h]
    unfold dispatchAt
    have hk : ((stamped s).queues k).items = (s.queues k).items := first_items _
    cases hq : (s.queues k).items with
    | cons e l =>
      rw [hk, hq]
      simp only [Queue.popFirst]
      rw [hk, hq]
      simp only
      refine ⟨_, _, rfl, ?_⟩
      have := Turn.send (s := s) k e l hq (by intro j; have := hmin j; rw [ts_cons hq] at this; exact this)
      have h2 : ((stamped s).queues k).processed = (s.queues k).processed := (first_counts _).1
      unfold sent at this
      rw [← h2] at this
      exact this
    | nil =>
      rw [hk, hq]
      simp only
      have h1 : (stamped s).queues k = s.queues k := first_nil hq
      have h2 : upd (stamped s).queues k (s.queues k) = (stamped s).queues := by
        funext j
        by_cases hj : j = k
        · subst hj; rw [upd_same, h1]
        · rw [upd_ne _ _ hj]
      rw [h1, first_nil hq, h2, h1]
      by_cases ht : s.lastIn - ts s k ≥ s.timeout
      · rw [if_pos (by exact ht)]
        refine ⟨_, _, rfl, ?_⟩
        have := Turn.timeout (s := s) k hq (fun j => by have := hmin j; omega) ht
        unfold timedOut at this
        exact this
      · rw [if_neg (by exact ht)]
        exact ⟨_, _, rfl, Turn.stop k hq hmin (by omega)⟩

/-- The loop: an invariant of the turns holds in the end, and the last turn stopped the loop. -/
theorem loop_turns {P : State n → Prop} (hstep : ∀ s s' b, Turn s s' b → P s → P s') (fuel : Nat) :
    ∀ s s' : State n, dispatchLoop fuel s = .ok s' → P s → ∃ s1, P s1 ∧ Turn s1 s' false := by
  induction fuel with
  | zero => intro s s' h; cases h
  | succ fuel ih =>
    intro s s' h hP
    obtain ⟨s1, b, h1, h2⟩ := dispatchFirst_turn s
    unfold dispatchLoop at h
    rw [h1] at h
    cases b with
    | true => exact ih s1 s' h (hstep _ _ _ h2 hP)
    | false => cases h; exact ⟨s, hP, h2⟩

theorem dispatch_turns {P : State n → Prop} (hstep : ∀ s s' b, Turn s s' b → P s → P s') {fuel : Nat} {s s' : State n}
    (h : dispatch fuel s = .ok s') (h0 : P s) :
    ((∀ i, (s.queues i).items = []) ∧ s' = s) ∨ ∃ s1, P s1 ∧ Turn s1 s' false := by
  unfold dispatch at h
  by_cases hav : inputsAvailable s = true
  · rw [if_pos hav] at h
    exact Or.inr (loop_turns hstep fuel s s' h h0)
  · rw [if_neg hav] at h
    cases h
    left
    refine ⟨?_, rfl⟩
    intro i
    apply Classical.byContradiction
    intro hc
    exact hav ((available_iff s).2 ⟨i, hc⟩)

/-! ### The invariant -/

/-- What holds after a history with the per-input streams `L`. -/
structure Merge (per : Fin n → Int) (L : Fin n → List Ev) (s : State n) : Prop where
  all : ∀ i, stream s.out i ++ (s.queues i).items = L i
  sorted : s.out.Pairwise NotAfter
  after : ∀ m ∈ s.out, ∀ i, ∀ x ∈ (s.queues i).items, NotAfter m (i, x)
  due : ∀ m ∈ s.out, ∀ i last, (L i).getLast? = some last →
    m.2.stamp < last.stamp + per i ∨ (m.2.stamp = last.stamp + per i ∧ m.1 ≤ i)

/-- `Merge` together with what is needed to keep it during a dispatch. -/
structure Disp (timeout : Int) (newestIn : Int) (per : Fin n → Int) (L : Fin n → List Ev) (s : State n) : Prop where
  merge : Merge per L s
  next : ∀ i, L i ≠ [] → NextInv i (per i) s
  period : ∀ i, L i ≠ [] → (s.queues i).period = per i
  idle : ∀ i, L i = [] → (s.queues i).active = false
  lastIn : s.lastIn = newestIn
  tmo : s.timeout = timeout

theorem last_ge {p : Int} (hp : 0 ≤ p) {L : List Ev} (hL : Spaced p L) {x last : Ev} (hx : x ∈ L)
    (hlast : L.getLast? = some last) : x.stamp ≤ last.stamp := spaced_last hp hL hlast hx

/-- The time stamp an input is compared with. -/
theorem ts_due {timeout nw : Int} {per : Fin n → Int} {L : Fin n → List Ev} {s : State n} (hd : Disp timeout nw per L s)
    (hp : ∀ i, 0 ≤ per i) (hL : ∀ i, Spaced (per i) (L i))
    (halive : ∀ i last, (L i).getLast? = some last → nw - (last.stamp + per i) < timeout)
    (i : Fin n) (last : Ev) (hlast : (L i).getLast? = some last) :
    ts s i ≤ last.stamp + per i ∧ ((s.queues i).items = [] → ts s i = last.stamp + per i) := by
  have hall := hd.merge.all i
  have hne : L i ≠ [] := by intro h; rw [h] at hlast; cases hlast
  cases hq : (s.queues i).items with
  | cons e l =>
    refine ⟨?_, by intro h; cases h⟩
    rw [ts_cons hq]
    have he : e ∈ L i := by rw [← hall, hq]; simp
    have := last_ge (hp i) (hL i) he hlast
    have := hp i
    omega
  | nil =>
    rw [hq, List.append_nil] at hall
    have hlo : (stream s.out i).getLast? = some last := by rw [hall]; exact hlast
    rw [ts_nil hq]
    cases ha : (s.queues i).active with
    | true =>
      obtain ⟨e, h1, h2⟩ := (hd.next i hne).live hq ha
      rw [hlo] at h1; cases h1
      rw [if_pos rfl, h2]
      exact ⟨Int.le_refl _, fun _ => rfl⟩
    | false =>
      have := (hd.next i hne).dead hq ha last hlo
      have := halive i last hlast
      rw [hd.tmo, hd.lastIn] at *
      omega

theorem stream_snoc (out : List (Fin n × Ev)) (i j : Fin n) (e : Ev) :
    stream (out ++ [(i, e)]) j = stream out j ++ (if i = j then [e] else []) := by
  rw [stream_append]
  congr 1
  unfold stream
  by_cases h : i = j
  · subst h; simp
  · simp [h]

theorem merge_of_items {per : Fin n → Int} {L : Fin n → List Ev} {s s' : State n} (h : Merge per L s) (ho : s'.out = s.out)
    (hi : ∀ j, (s'.queues j).items = (s.queues j).items) : Merge per L s' := by
  refine ⟨?_, by rw [ho]; exact h.sorted, ?_, by rw [ho]; exact h.due⟩
  · intro i; rw [ho, hi]; exact h.all i
  · intro m hm i x hx
    rw [ho] at hm; rw [hi] at hx
    exact h.after m hm i x hx

theorem iter_idle {s s' : State n} {b : Bool} (h : Iter s s' b) {i : Fin n} (hq : (s.queues i).items = [])
    (ha : (s.queues i).active = false) : (s'.queues i).active = false := by
  have h1 : (stamped s).queues i = s.queues i := first_same hq
  cases h with
  | send j e l h hmin =>
    have hj : i ≠ j := by intro hc; subst hc; rw [hq] at h; cases h
    show (upd (stamped s).queues j _ i).active = false
    rw [upd_ne _ _ hj, h1]; exact ha
  | timeout j h hmin ht =>
    by_cases hj : i = j
    · subst hj; simp [timedOut]
    · show (upd (stamped s).queues j _ i).active = false
      rw [upd_ne _ _ hj, h1]; exact ha
  | stop j h hmin ht => rw [h1]; exact ha
  | empty h => rw [h1]; exact ha

theorem turn_disp {timeout nw : Int} {per : Fin n → Int} {L : Fin n → List Ev}
    (hp : ∀ i, 0 ≤ per i) (hL : ∀ i, Spaced (per i) (L i))
    (halive : ∀ i last, (L i).getLast? = some last → nw - (last.stamp + per i) < timeout)
    {s s' : State n} {b : Bool} (h : Turn s s' b) (hd : Disp timeout nw per L s) : Disp timeout nw per L s' := by
  obtain ⟨f1, f2, f3⟩ := iter_frame h.iter
  have hm := hd.merge
  refine ⟨?_, fun i hi => iter_next h.iter (hd.period i hi) (hd.next i hi), fun i hi => (f3 i).trans (hd.period i hi),
    fun i hi => iter_idle h.iter (by have := hm.all i; rw [hi] at this; exact (List.append_eq_nil_iff.1 this).2) (hd.idle i hi),
    f1.trans hd.lastIn, f2.trans hd.tmo⟩
  cases h with
  | timeout i h hmin ht => exact merge_of_items hm rfl (fun j => timedOut_items s i j)
  | stop i h hmin ht => exact merge_of_items hm rfl (fun j => stamped_items s j)
  | empty h => exact merge_of_items hm rfl (fun j => stamped_items s j)
  | send i e l h hmin =>
    have hitems : ∀ j, (s.queues j).items = (if i = j then [e] else []) ++ ((sent s i e l).queues j).items := by
      intro j
      obtain ⟨q, h1, h2⟩ := sent_items s i e l h j
      rw [h1, h2]
      by_cases hj : j = i
      · subst hj; simp
      · rw [if_neg hj, if_neg (fun h => hj h.symm)]
    have hsub : ∀ j, ∀ x ∈ ((sent s i e l).queues j).items, x ∈ (s.queues j).items := by
      intro j x hx; rw [hitems j]; exact List.mem_append_right _ hx
    have hsorted : ∀ j, Spaced (per j) ((s.queues j).items) := by
      intro j
      have := hL j
      rw [← hm.all j] at this
      exact (List.pairwise_append.1 this).2.1
    refine ⟨?_, ?_, ?_, ?_⟩
    · intro j
      have := hm.all j
      rw [hitems j, ← List.append_assoc] at this
      show stream (s.out ++ [(i, e)]) j ++ _ = _
      rw [stream_snoc]; exact this
    · show (s.out ++ [(i, e)]).Pairwise NotAfter
      refine List.pairwise_append.2 ⟨hm.sorted, List.pairwise_singleton _ _, ?_⟩
      intro a ha b hb
      rw [List.mem_singleton] at hb; subst hb
      exact hm.after a ha i e (by rw [h]; simp)
    · intro m hmem j x hx
      rcases List.mem_append.1 (show m ∈ s.out ++ [(i, e)] from hmem) with hmem | hmem
      · exact hm.after m hmem j x (hsub j x hx)
      · rw [List.mem_singleton] at hmem; subst hmem
        have h1 : ts s j ≤ x.stamp := by
          have hx := hsub j x hx
          cases hq : (s.queues j).items with
          | nil => rw [hq] at hx; cases hx
          | cons y r =>
            rw [ts_cons hq]
            rw [hq] at hx
            rcases List.mem_cons.1 hx with hx | hx
            · rw [hx]; exact Int.le_refl _
            · have h2 := hsorted j
              rw [hq] at h2
              have := List.rel_of_pairwise_cons h2 hx
              have := hp j
              omega
        have := hmin j
        unfold NotAfter
        simp only
        omega
    · intro m hmem j last hlast
      rcases List.mem_append.1 (show m ∈ s.out ++ [(i, e)] from hmem) with hmem | hmem
      · exact hm.due m hmem j last hlast
      · rw [List.mem_singleton] at hmem; subst hmem
        have := (ts_due hd hp hL halive j last hlast).1
        have := hmin j
        simp only
        omega

/-- What a dispatch leaves queued is not due. -/
theorem dispatch_disp {timeout nw : Int} {per : Fin n → Int} {L : Fin n → List Ev}
    (hp : ∀ i, 0 ≤ per i) (hL : ∀ i, Spaced (per i) (L i)) (hst : ∀ i, ∀ x ∈ L i, x.stamp < maxTime)
    (halive : ∀ i last, (L i).getLast? = some last → nw - (last.stamp + per i) < timeout)
    {fuel : Nat} {s s' : State n} (h : dispatch fuel s = .ok s') (hd : Disp timeout nw per L s) :
    Disp timeout nw per L s' ∧ ∀ j, ∀ x ∈ (s'.queues j).items, ∃ i last, (L i).getLast? = some last ∧
      ¬ (x.stamp < last.stamp + per i ∨ (x.stamp = last.stamp + per i ∧ j ≤ i)) := by
  rcases dispatch_turns (fun s s' b => turn_disp hp hL halive (s := s) (s' := s') (b := b)) h hd with ⟨h0, rfl⟩ | ⟨s1, h1, h2⟩
  · exact ⟨hd, fun j x hx => by rw [h0 j] at hx; cases hx⟩
  · have hd' := turn_disp hp hL halive h2 h1
    refine ⟨hd', ?_⟩
    generalize hb : false = b at h2
    cases h2 with
    | send i e l h hmin => cases hb
    | timeout i h hmin ht => cases hb
    | empty h0 => intro j; subst h0; exact j.elim0
    | stop i h0 hmin ht =>
      intro j x hx
      rw [stamped_items] at hx
      have hxL : x ∈ L j := by rw [← h1.merge.all j]; exact List.mem_append_right _ hx
      have htx : ts s1 j ≤ x.stamp := by
        cases hq : (s1.queues j).items with
        | nil => rw [hq] at hx; cases hx
        | cons y r =>
          rw [ts_cons hq]
          rw [hq] at hx
          rcases List.mem_cons.1 hx with hx | hx
          · rw [hx]; exact Int.le_refl _
          · have h2 := hL j
            rw [← h1.merge.all j, hq] at h2
            have := List.rel_of_pairwise_cons (List.pairwise_append.1 h2).2.1 hx
            have := hp j
            omega
      have hmax := hst j x hxL
      have hact : (s1.queues i).active = true := by
        apply Classical.byContradiction
        intro hc
        have := hmin j
        rw [ts_nil h0, if_neg hc] at this
        omega
      have hne' : L i ≠ [] := by
        intro hc
        rw [h1.idle i hc] at hact; cases hact
      obtain ⟨last, g1, g2⟩ := (h1.next i hne').live h0 hact
      have hall := h1.merge.all i
      rw [h0, List.append_nil] at hall
      rw [hall] at g1
      refine ⟨i, last, g1, ?_⟩
      have hts : ts s1 i = last.stamp + per i := by rw [ts_nil h0, if_pos hact, g2]
      have hne : j ≠ i := by intro hc; subst hc; rw [h0] at hx; cases hx
      have := hmin j
      omega

/-! ### Histories -/

theorem constPeriod_prefix {i : Fin n} {p : Int} {pre ops : List (Op n)} (h : ConstPeriod i p ops) (hp : pre <+: ops)
    (hne : stream (adds pre) i ≠ []) : ConstPeriod i p pre := by
  obtain ⟨a, b, rfl, h1, h2, h3⟩ := h
  rcases List.prefix_or_prefix_of_prefix hp (List.prefix_append a b) with hpa | ⟨c, hc⟩
  · exfalso
    exact hne (stream_no_add (fun e he => h1 e (hpa.subset he)))
  · subst hc
    have hcb : c <+: b := (List.prefix_append_right_inj a).1 hp
    exact ⟨a, c, rfl, h1, h2, fun d hd => h3 d (hcb.subset hd)⟩

theorem wb_stream {i : Fin n} {pre ops : List (Op n)} (hp : pre <+: ops) : stream (adds pre) i <+: stream (adds ops) i := by
  obtain ⟨c, rfl⟩ := hp
  rw [adds_append, stream_append]; exact List.prefix_append _ _

theorem wb_spaced {timeout : Int} {per : Fin n → Int} {ops pre : List (Op n)} (h : WellBehaved timeout per ops)
    (hp : pre <+: ops) (i : Fin n) : Spaced (per i) (stream (adds pre) i) :=
  (h.spaced i).sublist (wb_stream hp).sublist

theorem wb_disp {timeout : Int} {per : Fin n → Int} {ops pre : List (Op n)} (h : WellBehaved timeout per ops)
    (hp : pre <+: ops) {fuel : Nat} {s : State n} (hr : run fuel timeout pre = .ok s)
    (hm : Merge per (stream (adds pre)) s) : Disp timeout (newest pre) per (stream (adds pre)) s := by
  refine ⟨hm, ?_, ?_, ?_, run_newest hr, run_timeout hr⟩
  · intro i hi; exact run_next hr (constPeriod_prefix (h.period i).2 hp hi)
  · intro i hi
    obtain ⟨a, b, rfl, h1, h2, h3⟩ := constPeriod_prefix (h.period i).2 hp hi
    exact (const_induction (P := fun _ _ => True) (fun _ _ _ _ => trivial) (fun _ _ _ _ _ _ _ _ => trivial) hr
      ⟨a, b, rfl, h1, h2, h3⟩).1
  · intro i hi
    refine (run_untouched hr ?_).2.1
    intro e he
    have : e ∈ stream (adds pre) i := mem_stream.2 (mem_adds.2 he)
    rw [hi] at this; cases this

/-- No output before the first dispatch. -/
theorem no_dispatch_out {fuel : Nat} {timeout : Int} {ops : List (Op n)} {s : State n} (h : run fuel timeout ops = .ok s) :
    Op.dispatch ∉ ops → s.out = [] := by
  refine runE_induction (P := fun ops (s : State n) => Op.dispatch ∉ ops → s.out = []) (fun _ => rfl) ?_ ops s h
  intro ops s op s' _ ih hs hno
  have ih := ih (fun hc => hno (List.mem_append_left _ hc))
  cases op with
  | add i e =>
    simp only [step, Except.ok.injEq] at hs
    rcases add_eq s i e with ⟨_, h2⟩ | ⟨_, h2⟩ <;> rw [h2] at hs <;> subst hs <;> exact ih
  | setPeriod i d => simp only [step, Except.ok.injEq] at hs; subst hs; exact ih
  | dispatch => exact absurd (List.mem_append_right _ (List.mem_singleton.2 rfl)) hno

theorem insert_last (e : Ev) (l : List Ev) (h : ∀ x ∈ l, x.stamp ≤ e.stamp) : insertEv e l = l ++ [e] := by
  induction l with
  | nil => rfl
  | cons y l ih =>
    unfold insertEv
    have := h y (by simp)
    rw [if_neg (by omega), ih (fun x hx => h x (List.mem_cons_of_mem _ hx))]
    rfl

theorem add_merge {timeout : Int} {per : Fin n → Int} {ops pre : List (Op n)} {i : Fin n} {e : Ev}
    (h : WellBehaved timeout per ops) (hp : pre ++ [.add i e] <+: ops) {fuel : Nat} {s : State n}
    (hr : run fuel timeout pre = .ok s) (hm : Merge per (stream (adds pre)) s) :
    Merge per (stream (adds (pre ++ [.add i e]))) (add s i e) := by
  have hp' : pre <+: ops := (List.prefix_append _ _).trans hp
  have hspi : Spaced (per i) (stream (adds pre) i ++ [e]) := by
    have := wb_spaced h hp i
    rw [adds_snoc_add, stream_snoc, if_pos rfl] at this
    exact this
  have hpos : 0 ≤ e.stamp := by
    have : (i, e) ∈ adds ops := by
      rw [mem_adds]; exact hp.subset (by simp)
    exact (h.stamps _ this).1
  have hperi := (h.period i).1
  -- every message output so far does not come after the new one
  have hafter : ∀ m ∈ s.out, NotAfter m (i, e) := by
    intro m hmem
    cases hl : (stream (adds pre) i).getLast? with
    | none =>
      exfalso
      have hnil : stream (adds pre) i = [] := List.getLast?_eq_none_iff.1 hl
      have hd : Op.dispatch ∈ pre := by
        apply Classical.byContradiction
        intro hc
        rw [no_dispatch_out hr hc] at hmem; cases hmem
      obtain ⟨a, b, hab⟩ := List.append_of_mem hd
      have hpre : a ++ [Op.dispatch] <+: ops := by
        refine List.IsPrefix.trans ?_ hp'
        rw [hab, show a ++ Op.dispatch :: b = (a ++ [Op.dispatch]) ++ b by simp]
        exact List.prefix_append _ _
      have h1 := h.started a hpre i (by
        intro hc
        have h2 := wb_stream (i := i) hp
        rw [hc, adds_snoc_add, stream_snoc, if_pos rfl] at h2
        have := List.prefix_nil.1 h2
        simp at this)
      have h2 := wb_stream (i := i) (pre := a) (ops := pre) (by rw [hab]; exact List.prefix_append _ _)
      rw [hnil] at h2
      exact h1 (List.prefix_nil.1 h2)
    | some last =>
      have h1 := hm.due m hmem i last hl
      have h2 := (List.pairwise_append.1 hspi).2.2 last (List.mem_of_getLast? hl) e (by simp)
      unfold NotAfter
      simp only
      omega
  have hlo : s.lastOut ≤ e.stamp := by
    rcases (run_inv hr).last with ⟨_, h2⟩ | ⟨m, h1, h2⟩
    · rw [h2]; exact hpos
    · have := hafter m (List.mem_of_getLast? h1)
      unfold NotAfter at this
      simp only at this
      omega
  rcases add_eq s i e with ⟨h1, _⟩ | ⟨_, h2⟩
  · omega
  · rw [h2]
    have hins : insertEv e (s.queues i).items = (s.queues i).items ++ [e] := by
      apply insert_last
      intro x hx
      have hxm : x ∈ stream (adds pre) i := by rw [← hm.all i]; exact List.mem_append_right _ hx
      have := (List.pairwise_append.1 hspi).2.2 x hxm e (by simp)
      omega
    have hq : ∀ j, ((queued s i e).queues j).items = (s.queues j).items ++ (if i = j then [e] else []) := by
      intro j
      by_cases hj : j = i
      · subst hj; rw [queued_items_same, hins, if_pos rfl]
      · rw [queued_ne s i e hj, if_neg (fun hc => hj hc.symm), List.append_nil]
    refine ⟨?_, hm.sorted, ?_, ?_⟩
    · intro j
      rw [hq, adds_snoc_add, stream_snoc, ← List.append_assoc]
      congr 1
      exact hm.all j
    · intro m hmem j x hx
      rw [hq] at hx
      rcases List.mem_append.1 hx with hx | hx
      · exact hm.after m hmem j x hx
      · by_cases hj : i = j
        · subst hj
          rw [if_pos rfl, List.mem_singleton] at hx
          subst hx; exact hafter m hmem
        · rw [if_neg hj] at hx; cases hx
    · intro m hmem j last hlast
      rw [adds_snoc_add, stream_snoc] at hlast
      by_cases hj : i = j
      · subst hj
        rw [if_pos rfl, List.getLast?_append] at hlast
        simp at hlast
        subst hlast
        have := hafter m hmem
        unfold NotAfter at this
        simp only at this
        omega
      · rw [if_neg hj, List.append_nil] at hlast
        exact hm.due m hmem j last hlast

theorem run_merge {timeout : Int} {per : Fin n → Int} {ops : List (Op n)} (h : WellBehaved timeout per ops) {fuel : Nat}
    {pre : List (Op n)} {s : State n} (hr : run fuel timeout pre = .ok s) :
    pre <+: ops → Merge per (stream (adds pre)) s := by
  refine runE_induction (P := fun pre s => pre <+: ops → Merge per (stream (adds pre)) s) ?_ ?_ pre s hr
  · intro _
    exact ⟨fun i => rfl, List.Pairwise.nil, fun m hm => absurd hm List.not_mem_nil, fun m hm => absurd hm List.not_mem_nil⟩
  · intro pre s op s' hrun ih hs hp
    have hp' : pre <+: ops := (List.prefix_append _ _).trans hp
    have hm := ih hp'
    cases op with
    | add i e =>
      simp only [step, Except.ok.injEq] at hs
      subst hs
      exact add_merge h hp hrun hm
    | setPeriod i d =>
      simp only [step, Except.ok.injEq] at hs
      subst hs
      rw [adds_snoc_period]
      exact merge_of_items hm rfl (fun j => period_items s i j d)
    | dispatch =>
      rw [adds_snoc_dispatch]
      refine (dispatch_disp (fun i => (h.period i).1) (wb_spaced h hp') ?_ (h.alive pre hp) hs (wb_disp h hp' hrun hm)).1.merge
      intro i x hx
      exact (h.stamps (i, x) (mem_stream.1 ((wb_stream hp').subset hx))).2

/-! ### The output is determined -/

theorem mem_of_stream {a : List (Fin n × Ev)} {i : Fin n} {e : Ev} (h : e ∈ stream a i) : (i, e) ∈ a := mem_stream.1 h

theorem stream_cons (m : Fin n × Ev) (l : List (Fin n × Ev)) (j : Fin n) :
    stream (m :: l) j = (if m.1 = j then [m.2] else []) ++ stream l j := by
  unfold stream
  by_cases h : m.1 = j <;> simp [h]

theorem sorted_ext (a : List (Fin n × Ev)) : ∀ b, a.Pairwise NotAfter → b.Pairwise NotAfter →
    (∀ i, stream a i = stream b i) → a = b := by
  induction a with
  | nil =>
    intro b _ _ h
    cases b with
    | nil => rfl
    | cons m b => have := h m.1; rw [stream_cons, if_pos rfl] at this; cases this
  | cons m a ih =>
    intro b ha hb h
    cases b with
    | nil => have := h m.1; rw [stream_cons, if_pos rfl] at this; cases this
    | cons k b =>
      have hmk : m = k := by
        by_cases hi : m.1 = k.1
        · have := h m.1
          rw [stream_cons, stream_cons, if_pos rfl, if_pos hi.symm] at this
          have h2 : m.2 = k.2 := by simpa using (List.cons.inj this).1
          exact Prod.ext hi h2
        · exfalso
          have h1 : k ∈ a := by
            have := h k.1
            rw [stream_cons, stream_cons, if_pos rfl, if_neg hi] at this
            have hk : k.2 ∈ stream a k.1 := by
              have h2 : stream a k.1 = k.2 :: stream b k.1 := by simpa using this
              rw [h2]; simp
            exact mem_stream.1 hk
          have h2 : m ∈ b := by
            have := h m.1
            rw [stream_cons, stream_cons, if_pos rfl, if_neg (fun hc => hi hc.symm)] at this
            have hk : m.2 ∈ stream b m.1 := by
              have h2 : m.2 :: stream a m.1 = stream b m.1 := by simpa using this
              rw [← h2]; simp
            exact mem_stream.1 hk
          have g1 : NotAfter m k := List.rel_of_pairwise_cons ha h1
          have g2 : NotAfter k m := List.rel_of_pairwise_cons hb h2
          unfold NotAfter at g1 g2
          exact hi (by omega)
      subst hmk
      congr 1
      refine ih b (List.Pairwise.of_cons ha) (List.Pairwise.of_cons hb) ?_
      intro i
      have := h i
      rw [stream_cons, stream_cons] at this
      exact List.append_cancel_left this

/-- A list is split in at most one way into elements with and elements without a property. -/
theorem split_unique {α : Type} (D : α → Prop) : ∀ (a b c d : List α), a ++ b = c ++ d → (∀ x ∈ a, D x) → (∀ x ∈ b, ¬ D x) →
    (∀ x ∈ c, D x) → (∀ x ∈ d, ¬ D x) → a = c ∧ b = d
  | [], b, [], d, h, _, _, _, _ => ⟨rfl, h⟩
  | [], b, x :: c, d, h, _, hb, hc, _ => absurd (hc x (by simp)) (hb x (by rw [show b = x :: (c ++ d) from h]; simp))
  | x :: a, b, [], d, h, ha, _, _, hd => absurd (ha x (by simp)) (hd x (by rw [show d = x :: (a ++ b) from h.symm]; simp))
  | x :: a, b, y :: c, d, h, ha, hb, hc, hd => by
    have h' := List.cons.inj h
    obtain ⟨e1, e2⟩ := split_unique D a b c d h'.2 (fun z hz => ha z (List.mem_cons_of_mem _ hz)) hb
      (fun z hz => hc z (List.mem_cons_of_mem _ hz)) hd
    exact ⟨by rw [h'.1, e1], e2⟩

/-! ### Checking the conditions for a given history -/

/-- The call is a dispatch. -/
def isDispatch : Op n → Bool
  | .dispatch => true
  | _ => false

theorem wellBehaved_of_check {timeout : Int} {per : Fin n → Int} {ops : List (Op n)}
    (hper : ∀ i, 0 ≤ per i ∧ ConstPeriod i (per i) ops) (hs : ∀ i, Spaced (per i) (stream (adds ops) i))
    (hst : ∀ m ∈ adds ops, 0 ≤ m.2.stamp ∧ m.2.stamp < maxTime)
    (hc : ∀ k, k < ops.length → (ops.drop k).head?.any isDispatch = true →
      (∀ i, stream (adds ops) i ≠ [] → stream (adds (ops.take k)) i ≠ []) ∧
      ∀ i, ∀ last ∈ (stream (adds (ops.take k)) i).getLast?, newest (ops.take k) - (last.stamp + per i) < timeout) :
    WellBehaved timeout per ops := by
  have key : ∀ pre, pre ++ [Op.dispatch] <+: ops → ∃ k, k < ops.length ∧ (ops.drop k).head?.any isDispatch = true ∧
      ops.take k = pre := by
    rintro pre ⟨t, rfl⟩
    refine ⟨pre.length, by simp, ?_, by simp⟩
    simp [isDispatch]
  refine ⟨hper, hs, hst, ?_, ?_⟩
  · intro pre hp
    obtain ⟨k, h1, h2, rfl⟩ := key pre hp
    exact (hc k h1 h2).1
  · intro pre hp i last hl
    obtain ⟨k, h1, h2, rfl⟩ := key pre hp
    exact (hc k h1 h2).2 i last hl

end MF.Aligner
