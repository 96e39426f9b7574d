import Verif.Proofs.ExactTime
/-
Properties C15-C20 of the ExactTime policy (TimeSynchronizer).
-/
namespace MF.ExactTime

variable {n : Nat}

/-- Sample history for two inputs: a match at 2 supersedes the pending message at 1; 3 and 4 stay pending. -/
def sampleOps : List (Fin 2 × Ev) :=
  [(0, ⟨0, 1⟩), (0, ⟨1, 2⟩), (1, ⟨2, 2⟩), (0, ⟨3, 3⟩), (0, ⟨4, 3⟩), (1, ⟨5, 4⟩)]

/-- Where everything in the state comes from (used by several theorems below). -/
theorem provenance [NeZero n] (q : Nat) (ops : List (Fin n × Ev)) (s : State n) (h : run (construct n q) ops = .ok s) :
    (∀ p ∈ s.tuples, ∀ i e, p.2 i = some e → e ∈ stream ops i) ∧
    (∀ t ∈ outs s.log, ∃ T, HasStamp t T ∧ ∀ i, ∃ e, t i = some e ∧ e ∈ stream ops i) ∧
    (∀ t ∈ drops s.log, ¬ Complete t ∧ (∃ i e, t i = some e) ∧ (∃ T, HasStamp t T) ∧
      ∀ i e, t i = some e → e ∈ stream ops i) := by
  revert h
  revert ops s
  apply runE_induction
  · simp [construct, outs, drops]
  · intro ops s op s' hr ⟨ih1, ih2, ih3⟩ hs
    obtain ⟨i, e⟩ := op
    have hinv : Inv s := run_inv (inv_construct q) hr
    simp only at hs
    obtain ⟨a, o, b, t, sp⟩ := add_spec' hinv hs
    obtain ⟨ma, mb, mo⟩ := sp.mem_old
    have hmono : ∀ j x, x ∈ stream ops j → x ∈ stream (ops ++ [(i, e)]) j := by
      intro j x hx; rw [stream_append]; exact List.mem_append.2 (Or.inl hx)
    have ht : ∀ j x, t j = some x → x ∈ stream (ops ++ [(i, e)]) j := by
      intro j x hx
      rw [sp.tuple] at hx
      by_cases hj : j = i
      · subst hj; rw [upd_same] at hx; cases hx
        rw [stream_snoc_same]; simp
      · rw [upd_ne _ _ hj] at hx
        cases ho : o with
        | none => rw [ho] at hx; simp [emptyTuple] at hx
        | some t0 => rw [ho] at hx; exact hmono j x (ih1 _ (mo t0 ho) j x hx)
    have hall : ∀ p ∈ a ++ (e.stamp, t) :: b, ∀ j x, p.2 j = some x → x ∈ stream (ops ++ [(i, e)]) j := by
      intro p hp j x hx
      rcases List.mem_append.1 hp with hp | hp
      · exact hmono j x (ih1 p (ma p hp) j x hx)
      · rcases List.mem_cons.1 hp with rfl | hp
        · exact ht j x hx
        · exact hmono j x (ih1 p (mb p hp) j x hx)
    obtain ⟨lf, lp, _⟩ := sp.log_outs
    by_cases hc : Complete t
    · obtain ⟨lo, ld⟩ := lf hc
      obtain ⟨st, _, _⟩ := sp.full hc
      refine ⟨?_, ?_, ?_⟩
      · rw [st]; intro p hp; exact hall p (by simp [hp])
      · rw [lo]; intro t' ht'
        rcases List.mem_append.1 ht' with ht' | ht'
        · obtain ⟨T, h1, h2⟩ := ih2 t' ht'
          exact ⟨T, h1, fun j => by obtain ⟨x, hx, hx'⟩ := h2 j; exact ⟨x, hx, hmono j x hx'⟩⟩
        · simp at ht'; subst ht'
          exact ⟨e.stamp, sp.stamp, fun j => by obtain ⟨x, hx⟩ := hc j; exact ⟨x, hx, ht j x hx⟩⟩
      · rw [ld]; intro t' ht'
        rcases List.mem_append.1 ht' with ht' | ht'
        · obtain ⟨h1, h2, h3, h4⟩ := ih3 t' ht'
          exact ⟨h1, h2, h3, fun j x hx => hmono j x (h4 j x hx)⟩
        · obtain ⟨p, hp, rfl⟩ := List.mem_map.1 ht'
          exact ⟨hinv.incomplete p (ma p hp), hinv.nonempty p (ma p hp), ⟨_, hinv.stamps p (ma p hp)⟩,
            fun j x hx => hall p (by simp [hp]) j x hx⟩
    · obtain ⟨lo, ld⟩ := lp hc
      obtain ⟨_, st, _⟩ := sp.part hc
      refine ⟨?_, ?_, ?_⟩
      · rw [st]; intro p hp; exact hall p (List.mem_of_mem_drop hp)
      · rw [lo]; intro t' ht'
        obtain ⟨T, h1, h2⟩ := ih2 t' ht'
        exact ⟨T, h1, fun j => by obtain ⟨x, hx, hx'⟩ := h2 j; exact ⟨x, hx, hmono j x hx'⟩⟩
      · rw [ld]; intro t' ht'
        rcases List.mem_append.1 ht' with ht' | ht'
        · obtain ⟨h1, h2, h3, h4⟩ := ih3 t' ht'
          exact ⟨h1, h2, h3, fun j x hx => hmono j x (h4 j x hx)⟩
        · obtain ⟨p, hp, rfl⟩ := List.mem_map.1 ht'
          have hp' := List.mem_of_mem_take hp
          have hx := hall p hp'
          rcases List.mem_append.1 hp' with hp' | hp'
          · exact ⟨hinv.incomplete p (ma p hp'), hinv.nonempty p (ma p hp'), ⟨_, hinv.stamps p (ma p hp')⟩, hx⟩
          · rcases List.mem_cons.1 hp' with rfl | hp'
            · exact ⟨hc, ⟨i, e, sp.slot⟩, ⟨_, sp.stamp⟩, hx⟩
            · exact ⟨hinv.incomplete p (mb p hp'), hinv.nonempty p (mb p hp'), ⟨_, hinv.stamps p (mb p hp')⟩, hx⟩

/-- **C15** (no fault).  No history makes the policy fail. -/
theorem C15_never_faults [NeZero n] (q : Nat) (ops : List (Fin n × Ev)) : ∃ s, run (construct n q) ops = .ok s := by
  obtain ⟨s, h, _⟩ := run_ok (inv_construct q) ops
  exact ⟨s, h⟩

/-- **C15**.  Every output set has, for every input, a message that was added on that input, and all its messages
carry one and the same stamp. -/
theorem C15_outputs_complete_equal_stamps [NeZero n] (q : Nat) (ops : List (Fin n × Ev)) (s : State n)
    (h : run (construct n q) ops = .ok s) :
    ∀ t ∈ outs s.log, ∃ T, ∀ i, ∃ e, t i = some e ∧ (i, e) ∈ ops ∧ e.stamp = T := by
  intro t ht
  obtain ⟨T, h1, h2⟩ := (provenance q ops s h).2.1 t ht
  refine ⟨T, fun i => ?_⟩
  obtain ⟨e, h3, h4⟩ := h2 i
  exact ⟨e, h3, mem_stream.1 h4, h1 i e h3⟩

example : ∃ s, run (construct 2 0) sampleOps = .ok s ∧
    (outs s.log).map List.ofFn = [[some ⟨1, 2⟩, some ⟨2, 2⟩]] ∧ (drops s.log).map List.ofFn = [[some ⟨0, 1⟩, none]] ∧
    replacedOn 0 s.log = [⟨3, 3⟩] ∧
    (pending s).map List.ofFn = [[some ⟨4, 3⟩, none], [none, some ⟨5, 4⟩]] :=
  ⟨_, rfl, by decide, by decide, by decide, by decide⟩

/-- **C15** (promptness).  No complete set is ever left waiting: every pending set lacks a message for some input. -/
theorem C15_complete_sets_never_wait [NeZero n] (q : Nat) (ops : List (Fin n × Ev)) (s : State n)
    (h : run (construct n q) ops = .ok s) : ∀ t ∈ pending s, ∃ i, t i = none := by
  intro t ht
  obtain ⟨p, hp, rfl⟩ := List.mem_map.1 ht
  have hinc := (run_inv (inv_construct q) h).incomplete p hp
  apply Classical.byContradiction
  intro hno
  apply hinc
  intro i
  cases hi : p.2 i with
  | none => exact absurd ⟨i, hi⟩ hno
  | some e => exact ⟨e, rfl⟩

theorem occurrences_append (i : Fin n) (e : Ev) (l m : List (Tuple n)) :
    occurrences i e (l ++ m) = occurrences i e l + occurrences i e m := by
  simp [occurrences]

theorem occurrences_cons (i : Fin n) (e : Ev) (t : Tuple n) (l : List (Tuple n)) :
    occurrences i e (t :: l) = (if t i = some e then 1 else 0) + occurrences i e l := by
  unfold occurrences
  rw [List.countP_cons]
  by_cases h : t i = some e
  · simp [h]; omega
  · simp [h]

/-- **C16** (conservation).  The number of times message `e` was added on input `i` is the number of output sets, of
dropped sets and of pending sets holding it in slot `i` plus the number of times it was replaced there. -/
theorem C16_conservation [NeZero n] (q : Nat) (ops : List (Fin n × Ev)) (s : State n)
    (h : run (construct n q) ops = .ok s) (i : Fin n) (e : Ev) :
    (stream ops i).count e = occurrences i e (outs s.log) + occurrences i e (drops s.log) +
      (replacedOn i s.log).count e + occurrences i e (pending s) := by
  revert h
  revert ops s
  apply runE_induction
  · simp [construct, outs, drops, replacedOn, pending, stream, occurrences]
  · intro ops s op s' hr ih hs
    obtain ⟨j, x⟩ := op
    have hinv : Inv s := run_inv (inv_construct q) hr
    simp only at hs
    obtain ⟨a, o, b, t, sp⟩ := add_spec' hinv hs
    obtain ⟨lf, lp, lr⟩ := sp.log_outs
    have hpend : occurrences i e (pending s) = occurrences i e (a.map (·.2)) +
        (if (o.getD (emptyTuple n)) i = some e then 1 else 0) + occurrences i e (b.map (·.2)) := by
      unfold pending
      rw [sp.split]
      cases o with
      | none => simp [occurrences_append, emptyTuple]
      | some t0 => simp [occurrences_append, occurrences_cons]; omega
    have hrep := lr i
    have hcount : (stream (ops ++ [(j, x)]) i).count e + (if (o.getD (emptyTuple n)) i = some e then 1 else 0) =
        (stream ops i).count e + (if t i = some e then 1 else 0) +
          (if j = i then ((o.getD (emptyTuple n)) j).toList else []).count e := by
      by_cases hj : j = i
      · subst hj
        rw [stream_snoc_same, sp.slot, List.count_append]
        have h1 : (((o.getD (emptyTuple n)) j).toList).count e = if (o.getD (emptyTuple n)) j = some e then 1 else 0 := by
          cases (o.getD (emptyTuple n)) j with
          | none => simp
          | some y => simp [List.count_cons]
        have h2 : [x].count e = if (some x : Option Ev) = some e then 1 else 0 := by
          simp [List.count_cons]
        rw [if_pos rfl, h1, h2]
      · rw [stream_snoc_ne _ _ hj, sp.tuple, upd_ne _ _ (Ne.symm hj), if_neg hj]
        simp
    by_cases hc : Complete t
    · obtain ⟨lo, ld⟩ := lf hc
      obtain ⟨st, _, _⟩ := sp.full hc
      have : occurrences i e (pending s') = occurrences i e (b.map (·.2)) := by rw [pending, st]
      rw [lo, ld, hrep, this, List.count_append]
      simp only [occurrences_append, occurrences_cons]
      have h0 : occurrences i e ([] : List (Tuple n)) = 0 := rfl
      omega
    · obtain ⟨lo, ld⟩ := lp hc
      obtain ⟨_, st, _⟩ := sp.part hc
      have hsplit : occurrences i e
          (((a ++ (x.stamp, t) :: b).take (excess s.queueSize (a ++ (x.stamp, t) :: b).length)).map (·.2)) +
          occurrences i e (pending s') = occurrences i e ((a ++ (x.stamp, t) :: b).map (·.2)) := by
        rw [pending, st, ← occurrences_append, ← List.map_append, List.take_append_drop]
      rw [List.map_append, List.map_cons, occurrences_append, occurrences_cons] at hsplit
      simp only at hsplit
      rw [lo, ld, hrep, List.count_append, occurrences_append]
      omega

/-- **C16**.  If no message is added twice on the same input, each added message is at any moment in exactly one of
the four situations, and exactly once (the four counts add up to one). -/
theorem C16_exactly_one_fate [NeZero n] (q : Nat) (ops : List (Fin n × Ev)) (s : State n)
    (h : run (construct n q) ops = .ok s) (i : Fin n) (hd : (stream ops i).Nodup) (e : Ev) (he : (i, e) ∈ ops) :
    occurrences i e (outs s.log) + occurrences i e (drops s.log) +
      (replacedOn i s.log).count e + occurrences i e (pending s) = 1 := by
  rw [← C16_conservation q ops s h i e]
  exact List.Nodup.count hd |>.trans (if_pos (mem_stream.2 he))

example : (stream sampleOps 0).Nodup ∧ (stream sampleOps 1).Nodup ∧ ((0 : Fin 2), (⟨3, 3⟩ : Ev)) ∈ sampleOps := by decide

/-- **C17** (bound).  A bounded synchronizer never holds more than `queue_size` pending sets. -/
theorem C17_bounded [NeZero n] (q : Nat) (hq : 0 < q) (ops : List (Fin n × Ev)) (s : State n)
    (h : run (construct n q) ops = .ok s) : (pending s).length ≤ q := by
  have hinv : Inv s := run_inv (inv_construct q) h
  have hqs : s.queueSize = q := by
    revert h
    have : ∀ ops s, run (construct n q) ops = .ok s → s.queueSize = q := by
      apply runE_induction
      · rfl
      · intro ops s op s' hr ih hs
        obtain ⟨a, o, b, t, sp⟩ := add_spec' (run_inv (inv_construct q) hr) hs
        rw [sp.qsize, ih]
    exact this ops s
  have := hinv.bound (by omega)
  simpa [pending, hqs] using this

/-- The queue size never changes. -/
theorem run_queueSize [NeZero n] (q : Nat) : ∀ ops s, run (construct n q) ops = .ok s → s.queueSize = q := by
  apply runE_induction
  · rfl
  · intro ops s op s' hr ih hs
    obtain ⟨a, o, b, t, sp⟩ := add_spec' (run_inv (inv_construct q) hr) hs
    rw [sp.qsize, ih]

/-- **C17/C18** (which sets one add discards).  The sets dropped by one `add` are older than every set still
pending afterwards, they are dropped oldest first, and if the add output nothing then something is dropped only
when the queue is full afterwards. -/
theorem C17_discards_oldest [NeZero n] (q : Nat) (ops : List (Fin n × Ev)) (op : Fin n × Ev) (s s' : State n)
    (h : run (construct n q) ops = .ok s) (h' : run (construct n q) (ops ++ [op]) = .ok s') :
    ∃ new, drops s'.log = drops s.log ++ new ∧
      new.Pairwise (fun t u => ∀ i j x y, t i = some x → u j = some y → x.stamp < y.stamp) ∧
      (∀ t ∈ new, ∀ u ∈ pending s', ∀ i j x y, t i = some x → u j = some y → x.stamp < y.stamp) ∧
      (outs s'.log = outs s.log → new ≠ [] → 0 < q ∧ (pending s').length = q) := by
  obtain ⟨s1, h1, hs⟩ := runE_snoc_ok h'
  have : s1 = s := by unfold run at h; rw [h] at h1; cases h1; rfl
  subst this
  obtain ⟨i, e⟩ := op
  have hinv : Inv s1 := run_inv (inv_construct q) h
  simp only at hs
  obtain ⟨a, o, b, t, sp⟩ := add_spec' hinv hs
  obtain ⟨lf, lp, _⟩ := sp.log_outs
  have hsorted := sp.sorted hinv
  have hstamps : ∀ p ∈ a ++ (e.stamp, t) :: b, HasStamp p.2 p.1 := by
    obtain ⟨ma, mb, _⟩ := sp.mem_old
    intro p hp
    rcases List.mem_append.1 hp with hp | hp
    · exact hinv.stamps p (ma p hp)
    · rcases List.mem_cons.1 hp with rfl | hp
      · exact sp.stamp
      · exact hinv.stamps p (mb p hp)
  have hlt : (a ++ (e.stamp, t) :: b).Pairwise
      (fun p u => ∀ i j x y, p.2 i = some x → u.2 j = some y → x.stamp < y.stamp) := by
    refine List.Pairwise.imp_of_mem ?_ hsorted
    intro p u hp hu hpu i j x y hx hy
    rw [hstamps p hp i x hx, hstamps u hu j y hy]; exact hpu
  by_cases hc : Complete t
  · obtain ⟨lo, ld⟩ := lf hc
    obtain ⟨st, _, _⟩ := sp.full hc
    rw [List.pairwise_append] at hlt
    refine ⟨_, ld, ?_, ?_, ?_⟩
    · rw [List.pairwise_map]; exact hlt.1
    · intro t0 ht0 u hu
      obtain ⟨p, hp, rfl⟩ := List.mem_map.1 ht0
      unfold pending at hu
      obtain ⟨r, hr, rfl⟩ := List.mem_map.1 hu
      rw [st] at hr
      exact hlt.2.2 p hp r (by simp [hr])
    · intro ho _
      rw [lo] at ho
      simp at ho
  · obtain ⟨lo, ld⟩ := lp hc
    obtain ⟨_, st, _⟩ := sp.part hc
    have hq := run_queueSize q ops s1 h
    rw [← List.take_append_drop (excess s1.queueSize (a ++ (e.stamp, t) :: b).length) (a ++ (e.stamp, t) :: b),
      List.pairwise_append, ← st] at hlt
    refine ⟨_, ld, ?_, ?_, ?_⟩
    · rw [List.pairwise_map]; exact hlt.1
    · intro t0 ht0 u hu
      obtain ⟨p, hp, rfl⟩ := List.mem_map.1 ht0
      unfold pending at hu
      obtain ⟨r, hr, rfl⟩ := List.mem_map.1 hu
      exact hlt.2.2 p hp r hr
    · intro _ hne
      have hx : excess s1.queueSize (a ++ (e.stamp, t) :: b).length ≠ 0 := by
        intro h0; rw [h0] at hne; simp at hne
      rw [pending, List.length_map, st, List.length_drop]
      unfold excess at hx ⊢
      rw [hq] at hx ⊢
      split at hx
      · rename_i hq0
        rw [if_pos hq0]
        exact ⟨hq0, by omega⟩
      · exact absurd rfl hx

example : ∃ s s', run (construct 2 2) (sampleOps.drop 3) = .ok s ∧
    run (construct 2 2) (sampleOps.drop 3 ++ [(1, ⟨6, 5⟩)]) = .ok s' ∧
    (pending s).length = 2 ∧ (pending s').length = 2 ∧ (drops s'.log).map List.ofFn = [[some ⟨4, 3⟩, none]] :=
  ⟨_, _, rfl, rfl, by decide, by decide, by decide⟩

/-- **C18**.  Every dropped set is incomplete (some slot is null) and not empty, and holds only added messages of
one stamp. -/
theorem C18_dropped_sets_incomplete [NeZero n] (q : Nat) (ops : List (Fin n × Ev)) (s : State n)
    (h : run (construct n q) ops = .ok s) :
    ∀ t ∈ drops s.log, (∃ i, t i = none) ∧ (∃ i e, t i = some e) ∧
      ∃ T, ∀ i e, t i = some e → (i, e) ∈ ops ∧ e.stamp = T := by
  intro t ht
  obtain ⟨h1, h2, ⟨T, h3⟩, h4⟩ := (provenance q ops s h).2.2 t ht
  refine ⟨?_, h2, T, fun i e he => ⟨mem_stream.1 (h4 i e he), h3 i e he⟩⟩
  apply Classical.byContradiction
  intro hno
  apply h1
  intro i
  cases hi : t i with
  | none => exact absurd ⟨i, hi⟩ hno
  | some e => exact ⟨e, rfl⟩

/-- **C18** (output supersedes older sets).  When an `add` outputs a set with stamp `T`, then exactly the pending
sets with a stamp older than `T` are dropped, oldest first, and exactly the younger ones stay pending. -/
theorem C18_output_drops_exactly_older [NeZero n] (q : Nat) (ops : List (Fin n × Ev)) (i : Fin n) (e : Ev)
    (s s' : State n) (h : run (construct n q) ops = .ok s) (h' : run (construct n q) (ops ++ [(i, e)]) = .ok s')
    (hout : outs s'.log ≠ outs s.log) :
    (∃ t, outs s'.log = outs s.log ++ [t] ∧ ∀ j x, t j = some x → x.stamp = e.stamp) ∧
    drops s'.log = drops s.log ++ (s.tuples.filter (fun p => decide (p.1 < e.stamp))).map (·.2) ∧
    s'.tuples = s.tuples.filter (fun p => decide (e.stamp < p.1)) ∧
    (∀ p ∈ s.tuples, ∀ j x, p.2 j = some x → x.stamp = p.1) := by
  obtain ⟨s1, h1, hs⟩ := runE_snoc_ok h'
  have : s1 = s := by unfold run at h; rw [h] at h1; cases h1; rfl
  subst this
  have hinv : Inv s1 := run_inv (inv_construct q) h
  simp only at hs
  obtain ⟨a, o, b, t, sp⟩ := add_spec' hinv hs
  obtain ⟨lf, lp, _⟩ := sp.log_outs
  by_cases hc : Complete t
  · obtain ⟨lo, ld⟩ := lf hc
    obtain ⟨st, _, _⟩ := sp.full hc
    have fa : a.filter (fun p => decide (p.1 < e.stamp)) = a ∧ a.filter (fun p => decide (e.stamp < p.1)) = [] := by
      constructor
      · rw [List.filter_eq_self]; intro p hp; simpa using sp.below p hp
      · rw [List.filter_eq_nil_iff]; intro p hp; have := sp.below p hp; simp; omega
    have fb : b.filter (fun p => decide (p.1 < e.stamp)) = [] ∧ b.filter (fun p => decide (e.stamp < p.1)) = b := by
      constructor
      · rw [List.filter_eq_nil_iff]; intro p hp; have := sp.above p hp; simp; omega
      · rw [List.filter_eq_self]; intro p hp; simpa using sp.above p hp
    have fo : (o.toList.map (fun t => (e.stamp, t))).filter (fun p => decide (p.1 < e.stamp)) = [] ∧
        (o.toList.map (fun t => (e.stamp, t))).filter (fun p => decide (e.stamp < p.1)) = [] := by
      cases o <;> simp
    refine ⟨⟨t, lo, sp.stamp⟩, ?_, ?_, hinv.stamps⟩
    · rw [ld, sp.split]
      simp only [List.filter_append, fa.1, fb.1, fo.1, List.append_nil]
    · rw [st, sp.split]
      simp only [List.filter_append, fa.2, fb.2, fo.2, List.nil_append]
  · exact absurd (lp hc).1 hout

example : ∃ s s', run (construct 2 0) (sampleOps.take 2) = .ok s ∧ run (construct 2 0) (sampleOps.take 2 ++ [(1, ⟨2, 2⟩)]) = .ok s' ∧
    (outs s.log).length = 0 ∧ (outs s'.log).length = 1 ∧ (drops s'.log).length = 1 :=
  ⟨_, _, rfl, rfl, by decide, by decide, by decide⟩

/-- **C20** (partial: inputs in time order).  If every input delivers non-decreasing stamps then the output sets have
non-decreasing stamps; strictly increasing inputs give strictly increasing outputs.  Missing from the full statement:
out-of-order inputs, for which it is false (`C20_out_of_order_output`). -/
theorem C20_monotone_partial [NeZero n] (q : Nat) (ops : List (Fin n × Ev)) (s : State n)
    (h : run (construct n q) ops = .ok s) :
    ((∀ i, TimeSorted (stream ops i)) →
      (outs s.log).Pairwise (fun t u => ∀ i j x y, t i = some x → u j = some y → x.stamp ≤ y.stamp)) ∧
    ((∀ i, StrictlyTimeSorted (stream ops i)) →
      (outs s.log).Pairwise (fun t u => ∀ i j x y, t i = some x → u j = some y → x.stamp < y.stamp)) := by
  have key : ∀ (R : Int → Int → Prop), ∀ ops s, run (construct n q) ops = .ok s →
      (∀ i, (stream ops i).Pairwise (fun a b => R a.stamp b.stamp)) →
      (outs s.log).Pairwise (fun t u => ∀ i j x y, t i = some x → u j = some y → R x.stamp y.stamp) := by
    intro R
    apply runE_induction
    · simp [construct, outs]
    · intro ops s op s' hr ih hs hsort
      obtain ⟨k, e⟩ := op
      have hinv : Inv s := run_inv (inv_construct q) hr
      simp only at hs
      obtain ⟨a, o, b, t, sp⟩ := add_spec' hinv hs
      obtain ⟨lf, lp, _⟩ := sp.log_outs
      have hsort' : ∀ i, (stream ops i).Pairwise (fun a b => R a.stamp b.stamp) := by
        intro i; have := hsort i; rw [stream_append] at this; exact (List.pairwise_append.1 this).1
      by_cases hc : Complete t
      · rw [(lf hc).1, List.pairwise_append]
        refine ⟨ih hsort', by simp, ?_⟩
        intro t0 ht0 u hu i j x y hx hy
        simp at hu; subst hu
        obtain ⟨T, hT, hall⟩ := (provenance q ops s hr).2.1 t0 ht0
        obtain ⟨z, hz, hzs⟩ := hall k
        have hord := hsort k
        rw [stream_snoc_same, List.pairwise_append] at hord
        have hze := hord.2.2 z hzs e (by simp)
        rw [hT i x hx, sp.stamp j y hy, ← hT k z hz]
        exact hze
      · rw [(lp hc).1]; exact ih hsort'
  exact ⟨key (· ≤ ·) ops s h, key (· < ·) ops s h⟩

example : (∀ i, TimeSorted (stream sampleOps i)) ∧
    ∃ s, run (construct 2 0) (sampleOps ++ [(0, ⟨6, 4⟩)]) = .ok s ∧ (outs s.log).length = 2 := by
  refine ⟨?_, _, rfl, by decide⟩
  intro i; unfold TimeSorted; revert i; decide

/-- **C20** is false without that assumption: a set older than one already output can be output. -/
theorem C20_out_of_order_output : ∃ s : State 2,
    run (construct 2 10) [(0, ⟨0, 2⟩), (1, ⟨1, 2⟩), (0, ⟨2, 1⟩), (1, ⟨3, 1⟩)] = .ok s ∧
      (outs s.log).map List.ofFn = [[some ⟨0, 2⟩, some ⟨1, 2⟩], [some ⟨2, 1⟩, some ⟨3, 1⟩]] := ⟨_, rfl, by decide⟩

/-- **C19**.  With strictly increasing inputs and an unlimited queue the output consists exactly of the sets whose
stamp occurs on every input, in increasing stamp order. -/
theorem C19_outputs_exactly_common_stamps [NeZero n] (ops : List (Fin n × Ev)) (s : State n)
    (h : run (construct n 0) ops = .ok s) (hinc : ∀ i, StrictlyTimeSorted (stream ops i)) :
    (outs s.log).Pairwise (fun t u => ∀ i j x y, t i = some x → u j = some y → x.stamp < y.stamp) ∧
    ∀ t, t ∈ outs s.log ↔ ∃ T, ∀ i, ∃ e ∈ stream ops i, e.stamp = T ∧ t i = some e := by
  refine ⟨(C20_monotone_partial 0 ops s h).2 hinc, ?_⟩
  -- what is pending: every message newer than all outputs; everything complete has been output
  have key : ∀ ops s, run (construct n 0) ops = .ok s → (∀ i, StrictlyTimeSorted (stream ops i)) →
      (∀ i e, e ∈ stream ops i → (∀ t ∈ outs s.log, ∀ x, t i = some x → x.stamp < e.stamp) →
        ∃ p ∈ s.tuples, p.1 = e.stamp ∧ p.2 i = some e) ∧
      (∀ T, (∀ i, ∃ e ∈ stream ops i, e.stamp = T) → ∃ t ∈ outs s.log, HasStamp t T) := by
    apply runE_induction
    · intro _
      constructor
      · intro i e he; simp [stream] at he
      · intro T hT; obtain ⟨e, he, _⟩ := hT 0; simp [stream] at he
    · intro ops s op s' hr ih hs hsort
      obtain ⟨k, e⟩ := op
      have hinv : Inv s := run_inv (inv_construct 0) hr
      have hq : s.queueSize = 0 := run_queueSize 0 ops s hr
      simp only at hs
      obtain ⟨a, o, b, t, sp⟩ := add_spec' hinv hs
      obtain ⟨lf, lp, _⟩ := sp.log_outs
      have hsort' : ∀ i, StrictlyTimeSorted (stream ops i) := by
        intro i; have := hsort i; unfold StrictlyTimeSorted at this ⊢
        rw [stream_append] at this; exact (List.pairwise_append.1 this).1
      obtain ⟨ih1, ih2⟩ := ih hsort'
      have hprov := (provenance 0 ops s hr).2.1
      have hlast : ∀ x ∈ stream ops k, x.stamp < e.stamp := by
        intro x hx
        have hord := hsort k
        unfold StrictlyTimeSorted at hord
        rw [stream_snoc_same, List.pairwise_append] at hord
        exact hord.2.2 x hx e (by simp)
      -- every earlier output is older than the new message
      have hout_lt : ∀ u ∈ outs s.log, ∀ j x, u j = some x → x.stamp < e.stamp := by
        intro u hu j x hx
        obtain ⟨T, hT, hall⟩ := hprov u hu
        obtain ⟨z, hz, hzs⟩ := hall k
        have := hlast z hzs
        have h1 := hT k z hz
        have h2 := hT j x hx
        omega
      have hpairs : ∀ p ∈ s.tuples, p.1 = e.stamp → o = some p.2 := by
        intro p hp hpe
        rw [sp.split] at hp
        rcases List.mem_append.1 hp with hp | hp
        · have := sp.below p hp; omega
        · rcases List.mem_append.1 hp with hp | hp
          · cases ho : o with
            | none => rw [ho] at hp; simp at hp
            | some t0 => rw [ho] at hp; simp at hp; rw [hp]
          · have := sp.above p hp; omega
      -- every message with the new stamp that has arrived sits in the tuple
      have hslots : ∀ j x, x ∈ stream (ops ++ [(k, e)]) j → x.stamp = e.stamp → t j = some x := by
        intro j x hx hxe
        by_cases hj : j = k
        · subst hj
          rw [stream_snoc_same] at hx
          rcases List.mem_append.1 hx with hx | hx
          · have := hlast x hx; omega
          · simp at hx; subst hx; exact sp.slot
        · rw [stream_snoc_ne _ _ (Ne.symm hj)] at hx
          obtain ⟨p, hp, hp1, hp2⟩ := ih1 j x hx (by
            intro u hu y hy; rw [hxe]; exact hout_lt u hu j y hy)
          have := hpairs p hp (by omega)
          rw [sp.tuple, upd_ne _ _ hj, this]
          exact hp2
      have hcomplete : (∀ i, ∃ x ∈ stream (ops ++ [(k, e)]) i, x.stamp = e.stamp) → Complete t := by
        intro hall i
        obtain ⟨x, hx, hxe⟩ := hall i
        exact ⟨x, hslots i x hx hxe⟩
      constructor
      · intro i x hx hnew
        by_cases hxe : x.stamp = e.stamp
        · -- it is in the tuple of the new stamp
          have htx := hslots i x hx hxe
          by_cases hc : Complete t
          · exfalso
            rw [(lf hc).1] at hnew
            have := hnew t (by simp) x htx
            omega
          · obtain ⟨_, st, _⟩ := sp.part hc
            refine ⟨(e.stamp, t), ?_, by simp [hxe], htx⟩
            rw [st, hq]
            simp [excess]
        · have hx' : x ∈ stream ops i := by
            by_cases hi : i = k
            · subst hi
              rw [stream_snoc_same] at hx
              rcases List.mem_append.1 hx with hx | hx
              · exact hx
              · simp at hx; subst hx; exact absurd rfl hxe
            · rwa [stream_snoc_ne _ _ (Ne.symm hi)] at hx
          obtain ⟨p, hp, hp1, hp2⟩ := ih1 i x hx' (by
            intro u hu y hy
            apply hnew u _ y hy
            by_cases hc : Complete t
            · rw [(lf hc).1]; simp [hu]
            · rw [(lp hc).1]; exact hu)
          have hp' : p ∈ a ∨ p ∈ b := by
            rw [sp.split] at hp
            rcases List.mem_append.1 hp with hp | hp
            · exact Or.inl hp
            · rcases List.mem_append.1 hp with hp | hp
              · exfalso
                obtain ⟨t0, _, rfl⟩ := List.mem_map.1 hp
                exact hxe hp1.symm
              · exact Or.inr hp
          by_cases hc : Complete t
          · obtain ⟨st, _, _⟩ := sp.full hc
            have hxk : e.stamp < x.stamp := by
              rw [(lf hc).1] at hnew
              obtain ⟨y, hy⟩ := hc i
              have h1 := hnew t (by simp) y hy
              have h2 := sp.stamp i y hy
              omega
            refine ⟨p, ?_, hp1, hp2⟩
            rw [st]
            rcases hp' with hp' | hp'
            · have := sp.below p hp'; omega
            · exact hp'
          · obtain ⟨_, st, _⟩ := sp.part hc
            refine ⟨p, ?_, hp1, hp2⟩
            rw [st, hq]
            simp only [excess, Nat.lt_irrefl, if_false, List.drop_zero, gt_iff_lt]
            rcases hp' with hp' | hp' <;> simp [hp']
      · intro T hT
        by_cases hTe : T = e.stamp
        · subst hTe
          have hc := hcomplete hT
          rw [(lf hc).1]
          exact ⟨t, by simp, sp.stamp⟩
        · have hT' : ∀ i, ∃ x ∈ stream ops i, x.stamp = T := by
            intro i
            obtain ⟨x, hx, hxT⟩ := hT i
            by_cases hi : i = k
            · subst hi
              rw [stream_snoc_same] at hx
              rcases List.mem_append.1 hx with hx | hx
              · exact ⟨x, hx, hxT⟩
              · simp at hx; subst hx; exact absurd hxT.symm hTe
            · rw [stream_snoc_ne _ _ (Ne.symm hi)] at hx
              exact ⟨x, hx, hxT⟩
          obtain ⟨u, hu, huT⟩ := ih2 T hT'
          refine ⟨u, ?_, huT⟩
          by_cases hc : Complete t
          · rw [(lf hc).1]; simp [hu]
          · rw [(lp hc).1]; exact hu
  intro t
  constructor
  · intro ht
    obtain ⟨T, h1, h2⟩ := (provenance 0 ops s h).2.1 t ht
    refine ⟨T, fun i => ?_⟩
    obtain ⟨e, h3, h4⟩ := h2 i
    exact ⟨e, h4, h1 i e h3, h3⟩
  · rintro ⟨T, hT⟩
    obtain ⟨u, hu, huT⟩ := (key ops s h hinc).2 T (fun i => by
      obtain ⟨e, h1, h2, _⟩ := hT i; exact ⟨e, h1, h2⟩)
    obtain ⟨_, _, hall⟩ := (provenance 0 ops s h).2.1 u hu
    have : u = t := by
      funext i
      obtain ⟨x, hx, hxs⟩ := hall i
      obtain ⟨y, hy, hyT, hty⟩ := hT i
      rw [hx, hty]
      have hxy : x.stamp = y.stamp := by rw [huT i x hx, hyT]
      congr 1
      -- strictly increasing stamps: at most one message per stamp
      obtain ⟨m1, hm1, hx1⟩ := List.getElem_of_mem hxs
      obtain ⟨m2, hm2, hy2⟩ := List.getElem_of_mem hy
      have hp := List.pairwise_iff_getElem.1 (hinc i)
      rcases Nat.lt_trichotomy m1 m2 with hlt | heq | hgt
      · have := hp m1 m2 hm1 hm2 hlt; rw [hx1, hy2] at this; omega
      · subst heq; rw [← hx1, ← hy2]
      · have := hp m2 m1 hm2 hm1 hgt; rw [hx1, hy2] at this; omega
    rw [← this]; exact hu

/-- **C19** (interleaving independence).  Two histories delivering the same strictly increasing streams produce the
same output sequence. -/
theorem C19_interleaving_independent [NeZero n] (ops ops' : List (Fin n × Ev)) (s s' : State n)
    (h : run (construct n 0) ops = .ok s) (h' : run (construct n 0) ops' = .ok s')
    (hinc : ∀ i, StrictlyTimeSorted (stream ops i)) (hsame : SameStreams ops ops') :
    outs s.log = outs s'.log := by
  have hinc' : ∀ i, StrictlyTimeSorted (stream ops' i) := fun i => hsame i ▸ hinc i
  obtain ⟨o1, m1⟩ := C19_outputs_exactly_common_stamps ops s h hinc
  obtain ⟨o2, m2⟩ := C19_outputs_exactly_common_stamps ops' s' h' hinc'
  have hmem : ∀ t, t ∈ outs s.log ↔ t ∈ outs s'.log := by
    intro t; rw [m1, m2]
    constructor
    · rintro ⟨T, hT⟩; exact ⟨T, fun i => by rw [← hsame i]; exact hT i⟩
    · rintro ⟨T, hT⟩; exact ⟨T, fun i => by rw [hsame i]; exact hT i⟩
  refine pairwise_ext (R := fun t u => Complete t ∧ Complete u ∧
    ∀ i j x y, t i = some x → u j = some y → x.stamp < y.stamp) ?_ ?_ ?_ hmem
  · rintro t u ⟨ht, hu, h1⟩ ⟨_, _, h2⟩
    obtain ⟨x, hx⟩ := ht 0
    obtain ⟨y, hy⟩ := hu 0
    have := h1 0 0 x y hx hy
    have := h2 0 0 y x hy hx
    omega
  · refine List.Pairwise.imp_of_mem ?_ o1
    intro t u ht hu h1
    refine ⟨fun i => ?_, fun i => ?_, h1⟩
    · obtain ⟨T, hT⟩ := (m1 t).1 ht; obtain ⟨e, _, _, he⟩ := hT i; exact ⟨e, he⟩
    · obtain ⟨T, hT⟩ := (m1 u).1 hu; obtain ⟨e, _, _, he⟩ := hT i; exact ⟨e, he⟩
  · refine List.Pairwise.imp_of_mem ?_ o2
    intro t u ht hu h1
    refine ⟨fun i => ?_, fun i => ?_, h1⟩
    · obtain ⟨T, hT⟩ := (m2 t).1 ht; obtain ⟨e, _, _, he⟩ := hT i; exact ⟨e, he⟩
    · obtain ⟨T, hT⟩ := (m2 u).1 hu; obtain ⟨e, _, _, he⟩ := hT i; exact ⟨e, he⟩

/-- **C19** (bounded queue).  A bounded queue can only lose sets: with any queue size the output is a subsequence of
what the unlimited queue outputs on any interleaving of the same strictly increasing streams. -/
theorem C19_bounded_queue_subsequence [NeZero n] (q : Nat) (ops ops' : List (Fin n × Ev)) (s s' : State n)
    (h : run (construct n q) ops = .ok s) (h' : run (construct n 0) ops' = .ok s')
    (hinc : ∀ i, StrictlyTimeSorted (stream ops i)) (hsame : SameStreams ops ops') :
    List.Sublist (outs s.log) (outs s'.log) := by
  have hinc' : ∀ i, StrictlyTimeSorted (stream ops' i) := fun i => hsame i ▸ hinc i
  have o1 := (C20_monotone_partial q ops s h).2 hinc
  obtain ⟨o2, m2⟩ := C19_outputs_exactly_common_stamps ops' s' h' hinc'
  have c1 : ∀ t ∈ outs s.log, Complete t ∧ ∃ T, ∀ i, ∃ e ∈ stream ops i, e.stamp = T ∧ t i = some e := by
    intro t ht
    obtain ⟨T, h1, h2⟩ := (provenance q ops s h).2.1 t ht
    refine ⟨fun i => ?_, T, fun i => ?_⟩
    · obtain ⟨e, he, _⟩ := h2 i; exact ⟨e, he⟩
    · obtain ⟨e, he, hes⟩ := h2 i; exact ⟨e, hes, h1 i e he, he⟩
  have hmem : ∀ t ∈ outs s.log, t ∈ outs s'.log := by
    intro t ht
    rw [m2]
    obtain ⟨_, T, hT⟩ := c1 t ht
    exact ⟨T, fun i => by rw [← hsame i]; exact hT i⟩
  refine pairwise_sublist (R := fun t u => Complete t ∧ Complete u ∧
    ∀ i j x y, t i = some x → u j = some y → x.stamp < y.stamp) ?_ ?_ ?_ hmem
  · rintro t u ⟨ht, hu, h1⟩ ⟨_, _, h2⟩
    obtain ⟨x, hx⟩ := ht 0
    obtain ⟨y, hy⟩ := hu 0
    have := h1 0 0 x y hx hy
    have := h2 0 0 y x hy hx
    omega
  · refine List.Pairwise.imp_of_mem ?_ o1
    intro t u ht hu h1
    exact ⟨(c1 t ht).1, (c1 u hu).1, h1⟩
  · refine List.Pairwise.imp_of_mem ?_ o2
    intro t u ht hu h1
    refine ⟨fun i => ?_, fun i => ?_, h1⟩
    · obtain ⟨T, hT⟩ := (m2 t).1 ht; obtain ⟨e, _, _, he⟩ := hT i; exact ⟨e, he⟩
    · obtain ⟨T, hT⟩ := (m2 u).1 hu; obtain ⟨e, _, _, he⟩ := hT i; exact ⟨e, he⟩

/-- Two interleavings of the streams 1,2,4 and 2,3,4. -/
def sampleA : List (Fin 2 × Ev) := [(0, ⟨0, 1⟩), (0, ⟨1, 2⟩), (0, ⟨2, 4⟩), (1, ⟨3, 2⟩), (1, ⟨4, 3⟩), (1, ⟨5, 4⟩)]
def sampleB : List (Fin 2 × Ev) := [(1, ⟨3, 2⟩), (0, ⟨0, 1⟩), (1, ⟨4, 3⟩), (0, ⟨1, 2⟩), (1, ⟨5, 4⟩), (0, ⟨2, 4⟩)]

example : (∀ i, StrictlyTimeSorted (stream sampleA i)) ∧ SameStreams sampleA sampleB ∧
    ∃ s, run (construct 2 0) sampleA = .ok s ∧ (outs s.log).map List.ofFn =
      [[some ⟨1, 2⟩, some ⟨3, 2⟩], [some ⟨2, 4⟩, some ⟨5, 4⟩]] := by
  refine ⟨?_, ?_, _, rfl, by decide⟩
  · intro i; unfold StrictlyTimeSorted; revert i; decide
  · unfold SameStreams; decide

end MF.ExactTime
