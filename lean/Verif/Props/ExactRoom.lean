import Verif.Proofs.ExactRoom
/-
C95: exactly which sets a bounded ExactTime queue loses.
-/
namespace MF.ExactTime

variable {n : Nat}

/-- One call, in terms of what was delivered before it. -/
theorem publishes_iff [NeZero n] {q : Nat} (hq : 0 < q) {ops : List (Fin n × Ev)} {s s' : State n} {k : Fin n} {e : Ev}
    (hr : run (construct n q) ops = .ok s) (hs : add s k e = .ok s')
    (hinc : ∀ i, StrictlyTimeSorted (stream ops i)) (hlast : ∀ x ∈ stream ops k, x.stamp < e.stamp) (u : Tuple n) :
    (u ∈ outs s'.log ↔ u ∈ outs s.log ∨ (Completes ops k e u ∧ FewNewer q ops e.stamp)) := by
  have hinv : Inv s := run_inv (inv_construct q) hr
  have hret := retains hq ops s hr hinc
  obtain ⟨a, o, b, t, sp⟩ := add_spec' hinv hs
  obtain ⟨lf, lp, _⟩ := sp.log_outs
  have hprov := (provenance q ops s hr).1
  obtain ⟨_, _, mo⟩ := sp.mem_old
  have htk : t k = some e := sp.slot
  have hslot : ∀ j, j ≠ k → ∀ x, t j = some x → x ∈ stream ops j ∧ ∃ t0, o = some t0 := by
    intro j hj x hx
    rw [sp.tuple, upd_ne _ _ hj] at hx
    cases ho : o with
    | none => rw [ho] at hx; simp [emptyTuple] at hx
    | some t0 => rw [ho] at hx; exact ⟨hprov _ (mo t0 ho) j x hx, t0, rfl⟩
  -- the tuple is complete exactly if the message completes a set with few newer stamps
  have key : Complete t ↔ ((∀ j, j ≠ k → ∃ x ∈ stream ops j, x.stamp = e.stamp) ∧ FewNewer q ops e.stamp) := by
    by_cases hone : ∃ j : Fin n, j ≠ k
    · obtain ⟨j0, hj0⟩ := hone
      constructor
      · intro hc
        have h1 : ∀ j, j ≠ k → ∃ x ∈ stream ops j, x.stamp = e.stamp := by
          intro j hj
          obtain ⟨x, hx⟩ := hc j
          exact ⟨x, (hslot j hj x hx).1, sp.stamp j x hx⟩
        refine ⟨h1, ?_⟩
        apply Classical.byContradiction
        intro hf
        obtain ⟨y, hy, hye⟩ := h1 j0 hj0
        obtain ⟨x, hx⟩ := hc j0
        obtain ⟨_, t0, ho⟩ := hslot j0 hj0 x hx
        exact (hret e.stamp ⟨⟨j0, y, hy, hye⟩, k, hlast⟩).2 hf _ (mo t0 ho) rfl
      · rintro ⟨h1, hf⟩
        obtain ⟨y, hy, hye⟩ := h1 j0 hj0
        obtain ⟨p, hp, hpT, hps⟩ := (hret e.stamp ⟨⟨j0, y, hy, hye⟩, k, hlast⟩).1 hf
        have ho : o = some p.2 := by
          rw [sp.split] at hp
          rcases List.mem_append.1 hp with hp | hp
          · have := sp.below p hp; omega
          · rcases List.mem_append.1 hp with hp | hp
            · cases ho : o with
              | none => rw [ho] at hp; simp at hp
              | some t0 => rw [ho] at hp; simp at hp; rw [hp]
            · have := sp.above p hp; omega
        intro j
        by_cases hj : j = k
        · subst hj; exact ⟨e, htk⟩
        · obtain ⟨x, hx, hxe⟩ := h1 j hj
          refine ⟨x, ?_⟩
          rw [sp.tuple, upd_ne _ _ hj, ho]
          exact hps j x hx hxe
    · have hall : ∀ j : Fin n, j = k := fun j => Classical.byContradiction fun hj => hone ⟨j, hj⟩
      constructor
      · intro _
        refine ⟨fun j hj => absurd (hall j) hj, ?_⟩
        intro l _ hx
        cases l with
        | nil => exact hq
        | cons x l =>
          obtain ⟨h1, op, h2, h3⟩ := hx x (by simp)
          have := hlast op.2 (by rw [← hall op.1]; exact mem_stream.2 h2)
          omega
      · intro _ j
        rw [hall j]; exact ⟨e, htk⟩
  -- a set completed by the message is the tuple
  have huniq : ∀ j x y, x ∈ stream ops j → y ∈ stream ops j → x.stamp = y.stamp → x = y := by
    intro j x y hx hy hxy
    obtain ⟨m1, hm1, hx1⟩ := List.mem_iff_getElem.1 hx
    obtain ⟨m2, hm2, hy2⟩ := List.mem_iff_getElem.1 hy
    have hp := List.pairwise_iff_getElem.1 (hinc j)
    rcases Nat.lt_trichotomy m1 m2 with hlt | heq | hgt
    · have := hp m1 m2 hm1 hm2 hlt; rw [hx1, hy2] at this; omega
    · subst heq; rw [← hx1, ← hy2]
    · have := hp m2 m1 hm2 hm1 hgt; rw [hx1, hy2] at this; omega
  have hself : Complete t → Completes ops k e t := by
    intro hc
    refine ⟨htk, fun j hj => ?_⟩
    obtain ⟨x, hx⟩ := hc j
    exact ⟨x, (hslot j hj x hx).1, sp.stamp j x hx, hx⟩
  by_cases hc : Complete t
  · rw [(lf hc).1, List.mem_append, List.mem_singleton]
    constructor
    · rintro (h | rfl)
      · exact Or.inl h
      · exact Or.inr ⟨hself hc, (key.1 hc).2⟩
    · rintro (h | ⟨⟨h1, h2⟩, _⟩)
      · exact Or.inl h
      · right
        funext j
        by_cases hj : j = k
        · subst hj; rw [h1, htk]
        · obtain ⟨x, hx, hxe, hux⟩ := h2 j hj
          obtain ⟨y, hy, hye, hty⟩ := (hself hc).2 j hj
          rw [hux, hty, huniq j x y hx hy (by omega)]
  · rw [(lp hc).1]
    constructor
    · intro h; exact Or.inl h
    · rintro (h | ⟨⟨_, h2⟩, hf⟩)
      · exact h
      · exact absurd (key.2 ⟨fun j hj => by obtain ⟨x, hx, hxe, _⟩ := h2 j hj; exact ⟨x, hx, hxe⟩, hf⟩) hc

/-- **C95**.  With strictly increasing inputs and queue size `q > 0` a set is output if and only if fewer than `q`
different newer stamps had been delivered when its last message arrived. -/
theorem C95_bounded_outputs [NeZero n] (q : Nat) (hq : 0 < q) (ops : List (Fin n × Ev)) (s : State n)
    (h : run (construct n q) ops = .ok s) (hinc : ∀ i, StrictlyTimeSorted (stream ops i)) (t : Tuple n) :
    t ∈ outs s.log ↔ ∃ pre i e post, ops = pre ++ (i, e) :: post ∧ Completes pre i e t ∧ FewNewer q pre e.stamp := by
  revert h hinc
  have key : ∀ ops s, run (construct n q) ops = .ok s → (∀ i, StrictlyTimeSorted (stream ops i)) →
      (t ∈ outs s.log ↔ ∃ pre i e post, ops = pre ++ (i, e) :: post ∧ Completes pre i e t ∧ FewNewer q pre e.stamp) := by
    apply runE_induction
    · intro _
      constructor
      · intro h; simp [construct, outs] at h
      · rintro ⟨pre, i, e, post, h, _⟩; simp at h
    · intro ops s op s' hr ih hs hsort
      obtain ⟨k, e⟩ := op
      have hsort' : ∀ i, StrictlyTimeSorted (stream ops i) := by
        intro i; have := hsort i; unfold StrictlyTimeSorted at this ⊢
        rw [stream_append] at this; exact (List.pairwise_append.1 this).1
      have hlast : ∀ x ∈ stream ops k, x.stamp < e.stamp := by
        intro x hx
        have hord := hsort k
        unfold StrictlyTimeSorted at hord
        rw [stream_snoc_same, List.pairwise_append] at hord
        exact hord.2.2 x hx e (by simp)
      rw [publishes_iff hq hr hs hsort' hlast t, ih hsort']
      constructor
      · rintro (⟨pre, i, x, post, h1, h2, h3⟩ | ⟨h2, h3⟩)
        · exact ⟨pre, i, x, post ++ [(k, e)], by rw [h1]; simp, h2, h3⟩
        · exact ⟨ops, k, e, [], rfl, h2, h3⟩
      · rintro ⟨pre, i, x, post, h1, h2, h3⟩
        rcases List.eq_nil_or_concat post with rfl | ⟨post', b, rfl⟩
        · obtain ⟨h4, h5⟩ := List.append_inj' h1 rfl
          simp only [List.cons.injEq, Prod.mk.injEq, and_true] at h5
          obtain ⟨rfl, rfl⟩ := h5
          rw [h4]
          exact Or.inr ⟨h2, h3⟩
        · left
          rw [List.concat_eq_append, ← List.cons_append, ← List.append_assoc] at h1
          obtain ⟨h4, _⟩ := List.append_inj' h1 rfl
          exact ⟨pre, i, x, post', h4, h2, h3⟩
  exact key ops s

/-- Sets ordered as a run outputs them. -/
private def Before [NeZero n] (t u : Tuple n) : Prop :=
  Complete t ∧ Complete u ∧ ∀ i j x y, t i = some x → u j = some y → x.stamp < y.stamp

private theorem before_asymm [NeZero n] (t u : Tuple n) : Before t u → Before u t → False := by
  rintro ⟨ht, hu, h1⟩ ⟨_, _, h2⟩
  obtain ⟨x, hx⟩ := ht 0
  obtain ⟨y, hy⟩ := hu 0
  have := h1 0 0 x y hx hy
  have := h2 0 0 y x hy hx
  omega

private theorem outs_before [NeZero n] (q : Nat) (ops : List (Fin n × Ev)) (s : State n)
    (h : run (construct n q) ops = .ok s) (hinc : ∀ i, StrictlyTimeSorted (stream ops i)) :
    (outs s.log).Pairwise Before := by
  refine List.Pairwise.imp_of_mem ?_ ((C20_monotone_partial q ops s h).2 hinc)
  have hc : ∀ t ∈ outs s.log, Complete t := by
    intro t ht i
    obtain ⟨T, _, h2⟩ := (provenance q ops s h).2.1 t ht
    obtain ⟨e, he, _⟩ := h2 i
    exact ⟨e, he⟩
  intro t u ht hu h1
  exact ⟨hc t ht, hc u hu, h1⟩

/-- **C95** (a larger queue never loses more).  The output with a queue size is a subsequence of the output with a
larger one. -/
theorem C95_larger_queue [NeZero n] (q q' : Nat) (hq : 0 < q) (hle : q ≤ q') (ops : List (Fin n × Ev)) (s s' : State n)
    (h : run (construct n q) ops = .ok s) (h' : run (construct n q') ops = .ok s')
    (hinc : ∀ i, StrictlyTimeSorted (stream ops i)) : List.Sublist (outs s.log) (outs s'.log) := by
  refine pairwise_sublist before_asymm (outs_before q ops s h hinc) (outs_before q' ops s' h' hinc) ?_
  intro t ht
  rw [C95_bounded_outputs q hq ops s h hinc] at ht
  rw [C95_bounded_outputs q' (by omega) ops s' h' hinc]
  obtain ⟨pre, i, e, post, h1, h2, h3⟩ := ht
  exact ⟨pre, i, e, post, h1, h2, fun l hl hx => by have := h3 l hl hx; omega⟩

/-- The last message of a set that occurs on every input. -/
private theorem completes_exists [NeZero n] (t : Tuple n) (T : Int) : ∀ ops : List (Fin n × Ev),
    (∀ i, StrictlyTimeSorted (stream ops i)) → (∀ i, ∃ e ∈ stream ops i, e.stamp = T ∧ t i = some e) →
    ∃ pre i e post, ops = pre ++ (i, e) :: post ∧ Completes pre i e t := by
  intro ops
  induction ops using snoc_induction with
  | h0 => intro _ h; obtain ⟨e, he, _⟩ := h 0; simp [stream] at he
  | hs ops op ih =>
    intro hsort h
    obtain ⟨k, e⟩ := op
    have hsort' : ∀ i, StrictlyTimeSorted (stream ops i) := by
      intro i; have := hsort i; unfold StrictlyTimeSorted at this ⊢
      rw [stream_append] at this; exact (List.pairwise_append.1 this).1
    by_cases hall : ∀ i, ∃ x ∈ stream ops i, x.stamp = T ∧ t i = some x
    · obtain ⟨pre, i, x, post, h1, h2⟩ := ih hsort' hall
      exact ⟨pre, i, x, post ++ [(k, e)], by rw [h1]; simp, h2⟩
    · have hother : ∀ j, j ≠ k → ∃ x ∈ stream ops j, x.stamp = T ∧ t j = some x := by
        intro j hj
        obtain ⟨x, hx, hxT, hxt⟩ := h j
        rcases mem_stream_snoc.1 hx with hx | ⟨hjk, _⟩
        · exact ⟨x, hx, hxT, hxt⟩
        · exact absurd hjk hj
      obtain ⟨x, hx, hxT, hxt⟩ := h k
      rcases mem_stream_snoc.1 hx with hx | ⟨_, rfl⟩
      · refine absurd (fun i => ?_) hall
        by_cases hi : i = k
        · subst hi; exact ⟨x, hx, hxT, hxt⟩
        · exact hother i hi
      · refine ⟨ops, k, x, [], rfl, hxt, fun j hj => ?_⟩
        obtain ⟨y, hy, hyT, hyt⟩ := hother j hj
        exact ⟨y, hy, by omega, hyt⟩

/-- **C95** (enough room).  If at most `q - 1` different newer stamps have been delivered whenever the last message of
a set arrives, then nothing is lost: the output is that of an unlimited queue. -/
theorem C95_enough_room [NeZero n] (q : Nat) (hq : 0 < q) (ops : List (Fin n × Ev)) (s s' : State n)
    (h : run (construct n q) ops = .ok s) (h' : run (construct n 0) ops = .ok s')
    (hinc : ∀ i, StrictlyTimeSorted (stream ops i))
    (hroom : ∀ pre i e post, ops = pre ++ (i, e) :: post →
      (∀ j, j ≠ i → ∃ x ∈ stream pre j, x.stamp = e.stamp) → FewNewer q pre e.stamp) :
    outs s.log = outs s'.log := by
  refine pairwise_ext before_asymm (outs_before q ops s h hinc) (outs_before 0 ops s' h' hinc) (fun t => ?_)
  rw [C95_bounded_outputs q hq ops s h hinc, (C19_outputs_exactly_common_stamps ops s' h' hinc).2]
  constructor
  · rintro ⟨pre, i, e, post, rfl, ⟨h2, h3⟩, _⟩
    refine ⟨e.stamp, fun j => ?_⟩
    by_cases hj : j = i
    · subst hj; exact ⟨e, mem_stream.2 (by simp), rfl, h2⟩
    · obtain ⟨x, hx, hxe, hxt⟩ := h3 j hj
      exact ⟨x, by rw [stream_append]; simp [hx], hxe, hxt⟩
  · rintro ⟨T, hT⟩
    obtain ⟨pre, i, e, post, h1, h2⟩ := completes_exists t T ops hinc hT
    refine ⟨pre, i, e, post, h1, h2, hroom pre i e post h1 (fun j hj => ?_)⟩
    obtain ⟨x, hx, hxe, _⟩ := h2.2 j hj
    exact ⟨x, hx, hxe⟩

/-- Input 1 lags: the set with stamp 1 completes after stamps 2 and 3, the one with stamp 2 after stamp 3 only. -/
def laggingOps : List (Fin 2 × Ev) :=
  [(0, ⟨0, 1⟩), (0, ⟨1, 2⟩), (0, ⟨2, 3⟩), (1, ⟨3, 1⟩), (1, ⟨4, 2⟩), (1, ⟨5, 3⟩)]

/-- With queue size 2 the set with stamp 1 is lost, the other two are not; with queue size 3 nothing is lost. -/
example : (∀ i, StrictlyTimeSorted (stream laggingOps i)) ∧
    (∃ s, run (construct 2 2) laggingOps = .ok s ∧ (outs s.log).map List.ofFn =
      [[some ⟨1, 2⟩, some ⟨4, 2⟩], [some ⟨2, 3⟩, some ⟨5, 3⟩]]) ∧
    ∃ s, run (construct 2 3) laggingOps = .ok s ∧ (outs s.log).length = 3 := by
  refine ⟨?_, ⟨_, rfl, by decide⟩, _, rfl, by decide⟩
  intro i; unfold StrictlyTimeSorted; revert i; decide

/-- The first set really has two newer stamps before its last message, the second has one. -/
example : ¬ FewNewer 2 (laggingOps.take 3) 1 ∧ FewNewer 2 (laggingOps.take 4) 2 ∧
    Completes (laggingOps.take 3) 1 ⟨3, 1⟩ (fun i => if i = 0 then some ⟨0, 1⟩ else some ⟨3, 1⟩) := by
  refine ⟨?_, ?_, rfl, ?_⟩
  · intro h
    have := h [2, 3] (by decide) (by
      intro x hx
      simp only [List.mem_cons, List.not_mem_nil, or_false] at hx
      rcases hx with rfl | rfl
      · exact ⟨by decide, (0, ⟨1, 2⟩), by simp [laggingOps], rfl⟩
      · exact ⟨by decide, (0, ⟨2, 3⟩), by simp [laggingOps], rfl⟩)
    simp at this
  · intro l hl hx
    have := Py.nodup_subset_length hl (l' := [3]) (by
      intro x hxl
      obtain ⟨h1, op, h2, h3⟩ := hx x hxl
      simp only [laggingOps, List.take, List.mem_cons, List.not_mem_nil, or_false] at h2
      rcases h2 with rfl | rfl | rfl | rfl <;> (subst h3; revert h1; decide))
    simpa using Nat.lt_succ_of_le this
  · intro j hj
    refine ⟨⟨0, 1⟩, ?_, rfl, ?_⟩
    · have : j = 0 := by omega
      subst this; decide
    · have : j = 0 := by omega
      subst this; rfl

/-- **C95** needs inputs in stamp order: here a set completes with only one newer stamp delivered and room for two,
and is still not output, because the output of the newer set discarded its first message. -/
theorem C95_order_needed : ∃ s : State 2,
    run (construct 2 2) [(0, ⟨0, 1⟩), (0, ⟨1, 2⟩), (1, ⟨2, 2⟩), (1, ⟨3, 1⟩)] = .ok s ∧
      (outs s.log).map List.ofFn = [[some ⟨1, 2⟩, some ⟨2, 2⟩]] := ⟨_, rfl, by decide⟩

end MF.ExactTime
