import Verif.Spec.Pipeline
import Verif.Props.Aligner
import Verif.Props.Sequencer
import Verif.Props.Cache
import Verif.Props.ExactTime
/-
Helper lemmas about filters connected to each other.
-/
namespace MF.Pipeline

/-! ### Joint runs -/

section
variable {σ δ ω ο : Type} {up : σ → ω → Except Fault σ} {log : σ → List ο} {down : δ → ο → Except Fault δ}

theorem run_factor (hgrow : ∀ s op s', up s op = .ok s' → log s <+: log s') {s0 : σ} {d0 : δ} :
    ∀ ops p, run up log down s0 d0 ops = .ok p →
      log s0 <+: log p.1 ∧ runE up s0 ops = .ok p.1 ∧ runE down d0 ((log p.1).drop (log s0).length) = .ok p.2 := by
  apply runE_induction
  · exact ⟨List.prefix_rfl, rfl, by simp [runE]⟩
  · intro ops p op p' _ ih h
    obtain ⟨⟨v, hv⟩, h2, h3⟩ := ih
    unfold feed at h
    cases h4 : up p.1 op with
    | error f => rw [h4] at h; cases h
    | ok s' =>
      rw [h4] at h
      obtain ⟨w, hw⟩ := hgrow _ _ _ h4
      have e1 : (log s').drop (log p.1).length = w := by rw [← hw]; simp
      have e2 : (log p.1).drop (log s0).length = v := by rw [← hv]; simp
      have e3 : (log s').drop (log s0).length = v ++ w := by rw [← hw, ← hv]; simp
      simp only [e1] at h
      cases h5 : runE down p.2 w with
      | error f => rw [h5] at h; cases h
      | ok d' =>
        rw [h5] at h; cases h
        refine ⟨⟨v ++ w, by rw [← hw, ← hv]; simp⟩, ?_, ?_⟩
        · rw [runE_append, h2]; simp [runE, h4]
        · rw [e2] at h3
          show runE down d0 ((log s').drop (log s0).length) = _
          rw [e3, runE_append, h3]; exact h5

theorem run_exists (hgrow : ∀ s op s', up s op = .ok s' → log s <+: log s') {s0 : σ} {d0 : δ} :
    ∀ ops s d, runE up s0 ops = .ok s → runE down d0 ((log s).drop (log s0).length) = .ok d →
      run up log down s0 d0 ops = .ok (s, d) := by
  intro ops
  induction ops using snoc_induction with
  | h0 =>
    intro s d h1 h2
    cases h1
    simp [runE] at h2
    subst h2; rfl
  | hs ops op ih =>
    intro s d h1 h2
    obtain ⟨s1, h3, h4⟩ := runE_snoc_ok h1
    have hpre : log s0 <+: log s1 :=
      runE_inv (I := fun s => log s0 <+: log s) (fun s op s' h hs => h.trans (hgrow _ _ _ hs)) ops s0 s1 List.prefix_rfl h3
    obtain ⟨v, hv⟩ := hpre
    obtain ⟨w, hw⟩ := hgrow _ _ _ h4
    have e1 : (log s).drop (log s1).length = w := by rw [← hw]; simp
    have e2 : (log s1).drop (log s0).length = v := by rw [← hv]; simp
    have e3 : (log s).drop (log s0).length = v ++ w := by rw [← hw, ← hv]; simp
    rw [e3, runE_append] at h2
    cases h5 : runE down d0 v with
    | error f => rw [h5] at h2; cases h2
    | ok d1 =>
      rw [h5] at h2
      have := ih s1 d1 h3 (by rw [e2]; exact h5)
      unfold run at this ⊢
      rw [runE_append, this]
      simp only [runE, feed, h4, e1, h2]
end

theorem runE_total {S O : Type} (f : S → O → S) : ∀ (ops : List O) (s : S),
    runE (fun s op => .ok (f s op)) s ops = .ok (ops.foldl f s) := by
  intro ops
  induction ops with
  | nil => intro s; rfl
  | cons op ops ih => intro s; exact ih _

/-! ### Growth of the logs -/

theorem seq_grow (s : Sequencer.State) (op : Sequencer.Op) : s.out <+: (Sequencer.step s op).out := by
  rcases Sequencer.step_cases s op with ⟨h, _⟩ | ⟨m, _, _, _, h⟩ | ⟨now, _, h⟩ <;> rw [h]
  · exact List.prefix_rfl
  · exact List.prefix_rfl
  · exact List.prefix_append _ _

theorem aligner_grow {n : Nat} {fuel : Nat} (s : Aligner.State n) (op : Aligner.Op n) (s' : Aligner.State n)
    (h : Aligner.step fuel s op = .ok s') : s.out <+: s'.out := by
  cases op with
  | add i e =>
    simp only [Aligner.step, Except.ok.injEq] at h
    subst h
    unfold Aligner.add
    by_cases h1 : e.stamp < s.lastOut
    · rw [if_pos h1]; exact List.prefix_rfl
    · rw [if_neg h1]; dsimp only
      by_cases h2 : e.stamp > s.lastIn
      · rw [if_pos h2]; exact List.prefix_rfl
      · rw [if_neg h2]; exact List.prefix_rfl
  | setPeriod i d =>
    simp only [Aligner.step, Except.ok.injEq] at h
    subst h; exact List.prefix_rfl
  | dispatch =>
    have h' : Aligner.dispatch fuel s = .ok s' := h
    refine Aligner.dispatch_ind (P := fun x => s.out <+: x.out) ?_ h' List.prefix_rfl
    intro a b c hit hp
    refine hp.trans ?_
    cases hit with
    | send i e l _ _ => exact List.prefix_append _ _
    | timeout i _ _ _ => exact List.prefix_rfl
    | stop i _ _ _ => exact List.prefix_rfl
    | empty _ => exact List.prefix_rfl

/-! ### A cache fed in time order -/

theorem cache_sorted (N : Nat) (hN : 0 < N) (l : List Ev) (hl : TimeSorted l) :
    ∃ c, runE Cache.add (Cache.construct N) l = .ok c ∧ c.size = some N ∧ c.items = l.drop (l.length - N) ∧ c.out = l := by
  have hN0 : N ≠ 0 := by omega
  induction l using snoc_induction with
  | h0 => exact ⟨_, rfl, by simp [Cache.construct, Cache.setCacheSize, hN0], by simp [Cache.construct, Cache.setCacheSize, hN0],
      by simp [Cache.construct, Cache.setCacheSize, hN0]⟩
  | hs l e ih =>
    have hl' := List.pairwise_append.1 hl
    obtain ⟨c, h1, h2, h3, h4⟩ := ih hl'.1
    have hsub : c.items.Sublist l := by rw [h3]; exact List.drop_sublist _ _
    obtain ⟨a, b, h5, h6, _, h8⟩ := Cache.add_spec c N hN h2 (hl'.1.sublist hsub) e
    have hb : b = [] := by
      rw [List.eq_nil_iff_forall_not_mem]
      intro x hx
      have := h8 x hx
      have hx' : x ∈ l := hsub.subset ((List.drop_sublist _ _).subset (by rw [h5]; simp [hx]))
      have := hl'.2.2 x hx' e (by simp)
      omega
    subst hb
    rw [List.append_nil] at h5
    refine ⟨{ c with items := a ++ [e], out := c.out ++ [e] }, by rw [runE_append, h1]; simp only [runE, h6], h2, ?_, by simp [h4]⟩
    show a ++ [e] = _
    rw [← h5, h3, List.drop_drop, List.length_drop]
    by_cases hlen : l.length < N
    · rw [show l.length - N + (l.length - (l.length - N) + 1 - N) = 0 by omega,
        show (l ++ [e]).length - N = 0 by simp; omega]
      simp
    · rw [show l.length - N + (l.length - (l.length - N) + 1 - N) = l.length + 1 - N by omega,
        show (l ++ [e]).length - N = l.length + 1 - N by simp]
      rw [List.drop_append_of_le_length (by omega)]

/-! ### ExactTime fed in time order -/

open ExactTime in
/-- Two ExactTime states, one of them without queue limit, that agree on the newest stamp `T`. -/
def Rel {n : Nat} (T : Int) (s s' : ExactTime.State n) : Prop :=
  s.queueSize = 0 ∧ 0 < s'.queueSize ∧ outs s.log = outs s'.log ∧
  ∃ (o : Option (Tuple n)) (a a' : List (Int × Tuple n)), s.tuples = a ++ o.toList.map (fun t => (T, t)) ∧ s'.tuples = a' ++ o.toList.map (fun t => (T, t)) ∧
    (∀ p ∈ a, p.1 < T) ∧ ∀ p ∈ a', p.1 < T

theorem Rel.mono {n : Nat} {T T' : Int} {s s' : ExactTime.State n} (h : Rel T s s') (hT : T ≤ T') : Rel T' s s' := by
  obtain ⟨h1, h2, h3, o, a, a', h4, h5, h6, h7⟩ := h
  refine ⟨h1, h2, h3, ?_⟩
  by_cases he : T = T'
  · subst he; exact ⟨o, a, a', h4, h5, h6, h7⟩
  · refine ⟨none, s.tuples, s'.tuples, by simp, by simp, ?_, ?_⟩
    · intro p hp
      rw [h4] at hp
      rcases List.mem_append.1 hp with hp | hp
      · have := h6 p hp; omega
      · obtain ⟨t, _, rfl⟩ := List.mem_map.1 hp; simp only; omega
    · intro p hp
      rw [h5] at hp
      rcases List.mem_append.1 hp with hp | hp
      · have := h7 p hp; omega
      · obtain ⟨t, _, rfl⟩ := List.mem_map.1 hp; simp only; omega

open ExactTime in
/-- The split of the map around its largest key. -/
theorem split_last {n : Nat} {T : Int} {a b c : List (Int × Tuple n)} {o o' : Option (Tuple n)}
    (h : c ++ o.toList.map (fun t => (T, t)) = a ++ (o'.toList.map (fun t => (T, t)) ++ b)) (hc : ∀ p ∈ c, p.1 < T)
    (ha : ∀ p ∈ a, p.1 < T) (hb : ∀ p ∈ b, T < p.1) : a = c ∧ o' = o ∧ b = [] := by
  have hb0 : b = [] := by
    rw [List.eq_nil_iff_forall_not_mem]
    intro p hp
    have h1 := hb p hp
    have : p ∈ c ++ o.toList.map (fun t => (T, t)) := by rw [h]; simp [hp]
    rcases List.mem_append.1 this with h2 | h2
    · have := hc p h2; omega
    · obtain ⟨t, _, rfl⟩ := List.mem_map.1 h2; simp only at h1; omega
  subst hb0
  rw [List.append_nil] at h
  have hf := congrArg (List.filter (fun p => decide (p.1 < T))) h
  have hg := congrArg (List.filter (fun p => decide (¬ p.1 < T))) h
  simp only [List.filter_append] at hf hg
  have f1 : ∀ l : List (Int × Tuple n), (∀ p ∈ l, p.1 < T) → l.filter (fun p => decide (p.1 < T)) = l ∧
      l.filter (fun p => decide (¬ p.1 < T)) = [] := by
    intro l hl
    constructor
    · rw [List.filter_eq_self]; intro p hp; have := hl p hp; simpa using this
    · rw [List.filter_eq_nil_iff]; intro p hp; have := hl p hp; simp; omega
  have f2 : ∀ q : Option (Tuple n), (q.toList.map (fun t => (T, t))).filter (fun p => decide (p.1 < T)) = [] ∧
      (q.toList.map (fun t => (T, t))).filter (fun p => decide (¬ p.1 < T)) = q.toList.map (fun t => (T, t)) := by
    intro q; cases q <;> simp
  rw [(f1 c hc).1, (f1 a ha).1, (f2 o).1, (f2 o').1] at hf
  rw [(f1 c hc).2, (f1 a ha).2, (f2 o).2, (f2 o').2] at hg
  simp only [List.append_nil] at hf
  refine ⟨hf.symm, ?_, rfl⟩
  cases o <;> cases o' <;> simp_all

open ExactTime in
theorem Rel.step {n : Nat} [NeZero n] {T : Int} {s s' s1 s1' : ExactTime.State n} (hr : Rel T s s') (hi : Inv s)
    (hi' : Inv s') (i : Fin n) (e : Ev) (he : e.stamp = T) (h : add s i e = .ok s1) (h' : add s' i e = .ok s1') :
    Rel T s1 s1' := by
  obtain ⟨h1, h2, h3, o, c, c', h4, h5, h6, h7⟩ := hr
  obtain ⟨a, o1, b, t, sp⟩ := add_spec' hi h
  obtain ⟨a', o1', b', t', sp'⟩ := add_spec' hi' h'
  subst he
  obtain ⟨ea, eo, eb⟩ := split_last (h4.symm.trans sp.split) h6 sp.below sp.above
  obtain ⟨ea', eo', eb'⟩ := split_last (h5.symm.trans sp'.split) h7 sp'.below sp'.above
  subst ea; subst eo; subst eb; subst ea'; subst eo'; subst eb'
  have ht : t' = t := by rw [sp.tuple, sp'.tuple]
  subst ht
  have q1 := sp.qsize
  have q2 := sp'.qsize
  refine ⟨by omega, by omega, ?_⟩
  by_cases hf : Complete t'
  · obtain ⟨g1, _, _⟩ := sp.full hf
    obtain ⟨g1', _, _⟩ := sp'.full hf
    obtain ⟨l1, _⟩ := sp.log_outs
    obtain ⟨l1', _⟩ := sp'.log_outs
    refine ⟨?_, none, [], [], by simp [g1], by simp [g1'], by simp, by simp⟩
    rw [(l1 hf).1, (l1' hf).1, h3]
  · obtain ⟨_, g1, _⟩ := sp.part hf
    obtain ⟨_, g1', _⟩ := sp'.part hf
    obtain ⟨_, l1, _⟩ := sp.log_outs
    obtain ⟨_, l1', _⟩ := sp'.log_outs
    refine ⟨by rw [(l1 hf).1, (l1' hf).1, h3], some t', a, a'.drop (excess s'.queueSize (a'.length + 1)), ?_, ?_, sp.below, ?_⟩
    · rw [g1, h1]; simp [excess]
    · rw [g1']
      have : excess s'.queueSize (a'.length + 1) ≤ a'.length := by unfold excess; split <;> omega
      simp only [List.length_append, List.length_cons, List.length_nil, Nat.zero_add]
      rw [List.drop_append_of_le_length this]; rfl
    · intro p hp; exact sp'.below p ((List.drop_sublist _ _).subset hp)

theorem exact_rel {n : Nat} [NeZero n] (q : Nat) (hq : 0 < q) (ops : List (Fin n × Ev)) (hs : TimeSorted (ops.map (·.2)))
    (s s' : ExactTime.State n) (h : ExactTime.run (ExactTime.construct n 0) ops = .ok s)
    (h' : ExactTime.run (ExactTime.construct n q) ops = .ok s') (T : Int) (hT : ∀ m ∈ ops, m.2.stamp ≤ T) :
    Rel T s s' := by
  induction ops using snoc_induction generalizing s s' T with
  | h0 =>
    cases h; cases h'
    exact ⟨rfl, hq, rfl, none, [], [], rfl, rfl, by simp, by simp⟩
  | hs ops op ih =>
    obtain ⟨s1, g1, g2⟩ := runE_snoc_ok h
    obtain ⟨s1', g1', g2'⟩ := runE_snoc_ok h'
    rw [List.map_append] at hs
    have hs' := List.pairwise_append.1 hs
    have hr := ih hs'.1 s1 s1' g1 g1' op.2.stamp (fun m hm => hs'.2.2 m.2 (List.mem_map.2 ⟨m, hm, rfl⟩) op.2 (by simp))
    exact (hr.step (ExactTime.run_inv (ExactTime.inv_construct 0) g1) (ExactTime.run_inv (ExactTime.inv_construct q) g1')
      op.1 op.2 rfl g2 g2').mono (hT op (by simp))

theorem exact_runs {n : Nat} [NeZero n] (q : Nat) (ops : List (Fin n × Ev)) :
    ∃ s, ExactTime.run (ExactTime.construct n q) ops = .ok s := by
  obtain ⟨s, h, _⟩ := ExactTime.run_ok (ExactTime.inv_construct q) ops
  exact ⟨s, h⟩

theorem stamp_bound {n : Nat} (ops : List (Fin n × Ev)) : ∃ T : Int, ∀ m ∈ ops, m.2.stamp ≤ T := by
  induction ops with
  | nil => exact ⟨0, by simp⟩
  | cons op ops ih =>
    obtain ⟨T, hT⟩ := ih
    refine ⟨max T op.2.stamp, ?_⟩
    intro m hm
    rcases List.mem_cons.1 hm with rfl | hm
    · omega
    · have := hT m hm; omega

/-- Fed in time order, ExactTime outputs the same sets whatever its queue size. -/
theorem exact_any_size {n : Nat} [NeZero n] (q q' : Nat) (ops : List (Fin n × Ev)) (hs : TimeSorted (ops.map (·.2)))
    (s s' : ExactTime.State n) (h : ExactTime.run (ExactTime.construct n q) ops = .ok s)
    (h' : ExactTime.run (ExactTime.construct n q') ops = .ok s') : ExactTime.outs s.log = ExactTime.outs s'.log := by
  obtain ⟨s0, h0⟩ := exact_runs 0 ops
  have key : ∀ q s, ExactTime.run (ExactTime.construct n q) ops = .ok s → ExactTime.outs s0.log = ExactTime.outs s.log := by
    intro q s h
    rcases Nat.eq_zero_or_pos q with h1 | h1
    · subst h1; rw [h0] at h; cases h; rfl
    · have hb := stamp_bound ops
      obtain ⟨T, hT⟩ := hb
      exact (exact_rel q h1 ops hs s0 s h0 h T hT).2.2.1
  rw [← key q s h, ← key q' s' h']

/-! ### Order of the streams -/

theorem strict_of_distinct {l : List Ev} (hs : TimeSorted l) (hd : DistinctStamps l) : StrictlyTimeSorted l := by
  unfold TimeSorted DistinctStamps StrictlyTimeSorted at *
  exact (hs.and hd).imp (fun h => by have := h.1; have := h.2; omega)

theorem stream_sorted {n : Nat} {ops : List (Fin n × Ev)} (h : TimeSorted (ops.map (·.2))) (i : Fin n) :
    TimeSorted (stream ops i) := by
  unfold stream
  exact h.sublist (List.filter_sublist.map _)

theorem distinct_sublist {l l' : List Ev} (h : DistinctStamps l) (hs : l'.Sublist l) : DistinctStamps l' :=
  List.Pairwise.sublist hs h

theorem distinct_perm {l l' : List Ev} (h : DistinctStamps l) (hs : l.Perm l') : DistinctStamps l' :=
  (hs.pairwise_iff (fun h => h.symm)).1 h

theorem aligner_strict {n : Nat} {fuel : Nat} {timeout : Int} {ops : List (Aligner.Op n)} {s : Aligner.State n}
    (h : Aligner.run fuel timeout ops = .ok s) (i : Fin n) (hd : DistinctStamps (stream (Aligner.adds ops) i)) :
    StrictlyTimeSorted (stream s.out i) := by
  obtain ⟨acc, h1, _, h3, h4, _⟩ := Aligner.C40_content fuel timeout ops s h i
  have h5 := distinct_perm (distinct_sublist hd h1) h3.symm
  exact strict_of_distinct (h4.sublist (List.sublist_append_left _ _)) (distinct_sublist h5 (List.sublist_append_left _ _))

theorem aligner_drained {n : Nat} {fuel : Nat} {timeout : Int} {ops : List (Aligner.Op n)} {s : Aligner.State n}
    (h : Aligner.run fuel timeout ops = .ok s) (i : Fin n) (hd : (Aligner.getQueueStatus s i).dropped = 0)
    (hq : (Aligner.getQueueStatus s i).queueSize = 0) : (stream s.out i).Perm (stream (Aligner.adds ops) i) := by
  obtain ⟨acc, h1, h2, h3, _, _⟩ := Aligner.C40_content fuel timeout ops s h i
  have hi : (s.queues i).items = [] := by
    simp only [Aligner.getQueueStatus] at hq
    exact List.eq_nil_of_length_eq_zero hq
  rw [hi, List.append_nil] at h3
  have : acc = stream (Aligner.adds ops) i := h1.eq_of_length (by omega)
  rwa [this] at h3

theorem alignerExact_ok {n : Nat} [NeZero n] {fuel : Nat} {timeout : Int} {q : Nat} {ops : List (Aligner.Op n)}
    {s : Aligner.State n} {d : ExactTime.State n} :
    alignerExact fuel timeout q ops = .ok (s, d) ↔
      Aligner.run fuel timeout ops = .ok s ∧ ExactTime.run (ExactTime.construct n q) s.out = .ok d := by
  constructor
  · intro h
    have := run_factor aligner_grow ops (s, d) h
    exact ⟨this.2.1, this.2.2⟩
  · rintro ⟨h1, h2⟩
    exact run_exists aligner_grow ops s d h1 h2

theorem alignerEpsilon_ok {n : Nat} [NeZero n] {fuel : Nat} {timeout : Int} {q : Nat} {eps : Int}
    {ops : List (Aligner.Op n)} {s : Aligner.State n} {d : Epsilon.State n} :
    alignerEpsilon fuel timeout q eps ops = .ok (s, d) ↔
      Aligner.run fuel timeout ops = .ok s ∧ Epsilon.run fuel (Epsilon.construct n q eps) s.out = .ok d := by
  constructor
  · intro h
    have := run_factor aligner_grow ops (s, d) h
    exact ⟨this.2.1, this.2.2⟩
  · rintro ⟨h1, h2⟩
    exact run_exists aligner_grow ops s d h1 h2

theorem runE_map {S A B : Type} (step : S → B → Except Fault S) (g : A → B) : ∀ (l : List A) (s : S),
    runE (fun s a => step s (g a)) s l = runE step s (l.map g) := by
  intro l
  induction l with
  | nil => intro s; rfl
  | cons a l ih =>
    intro s
    simp only [List.map_cons, runE]
    cases step s (g a) with
    | error f => rfl
    | ok s' => exact ih s'

theorem alignerApprox_ok {n : Nat} [NeZero n] {fuel : Nat} {timeout : Int} {cfg : Approx.Cfg n}
    {ops : List (Aligner.Op n)} {s : Aligner.State n} {d : Approx.State n} :
    alignerApprox fuel timeout cfg ops = .ok (s, d) ↔
      Aligner.run fuel timeout ops = .ok s ∧ Approx.run fuel cfg s.out = .ok d := by
  unfold alignerApprox Approx.run Approx.runOps
  cases hc : Approx.construct n cfg with
  | error f =>
    constructor
    · intro h; cases h
    · rintro ⟨_, h⟩; cases h
  | ok d0 =>
    dsimp only
    constructor
    · intro h
      have := run_factor aligner_grow ops (s, d) h
      refine ⟨this.2.1, ?_⟩
      rw [← runE_map]
      exact this.2.2
    · rintro ⟨h1, h2⟩
      rw [← runE_map] at h2
      exact run_exists aligner_grow ops s d h1 h2

/-! ### Sequencers -/

theorem sequencerCache_ok {delay : Int} {q N : Nat} {ops : List Sequencer.Op} {s : Sequencer.State} {c : Cache.State} :
    sequencerCache delay q N ops = .ok (s, c) ↔
      s = Sequencer.run delay q ops ∧ runE Cache.add (Cache.construct N) s.out = .ok c := by
  have hg : ∀ (s : Sequencer.State) op s', (Except.ok (Sequencer.step s op) : Except Fault Sequencer.State) = .ok s' →
      s.out <+: s'.out := by
    intro s op s' h
    cases h; exact seq_grow s op
  constructor
  · intro h
    have := run_factor hg ops (s, c) h
    refine ⟨?_, this.2.2⟩
    have h2 := this.2.1
    rw [runE_total] at h2
    exact (Except.ok.inj h2).symm
  · rintro ⟨h1, h2⟩
    refine run_exists hg ops s c ?_ h2
    rw [runE_total, h1]; rfl

theorem stream_tag {n : Nat} (k i : Fin n) (l : List Ev) : stream (l.map (fun e => (k, e))) i = if k = i then l else [] := by
  by_cases h : k = i
  · simp [stream, List.filter_map, Function.comp_def, h]
  · simp [stream, List.filter_map, Function.comp_def, h]

/-- Invariant of the sequencers: each is in the state its own calls lead to, and the log has its output. -/
theorem sequencers_inv {n : Nat} (delay : Fin n → Int) (size : Fin n → Nat) (ops : List (Fin n × Sequencer.Op)) :
    let s := ops.foldl Sequencers.step { seq := fun i => Sequencer.construct (delay i) (size i), out := [] }
    ∀ i, s.seq i = Sequencer.run (delay i) (size i) (callsOf i ops) ∧ stream s.out i = (s.seq i).out := by
  dsimp only
  induction ops using snoc_induction with
  | h0 => intro i; exact ⟨rfl, rfl⟩
  | hs ops op ih =>
    intro i
    rw [List.foldl_append]
    generalize ops.foldl Sequencers.step _ = s at ih
    obtain ⟨h1, h2⟩ := ih i
    obtain ⟨k, x⟩ := op
    simp only [List.foldl_cons, List.foldl_nil, Sequencers.step]
    rw [stream_append]
    by_cases hk : k = i
    · subst hk
      refine ⟨?_, ?_⟩
      · rw [upd_same, h1]
        simp [callsOf, ← Sequencer.run_snoc]
      · rw [upd_same, h2]
        rw [stream_tag, if_pos rfl]
        obtain ⟨w, hw⟩ := seq_grow (s.seq k) x
        rw [← hw]; simp
    · have hk' : i ≠ k := fun h => hk h.symm
      refine ⟨?_, ?_⟩
      · rw [upd_ne _ _ hk', h1]
        simp [callsOf, hk]
      · rw [upd_ne _ _ hk', h2]
        rw [stream_tag, if_neg hk, List.append_nil]

theorem sequencersExact_ok {n : Nat} [NeZero n] {delay : Fin n → Int} {size : Fin n → Nat} {q : Nat}
    {ops : List (Fin n × Sequencer.Op)} {s : Sequencers n} {d : ExactTime.State n}
    (h : sequencersExact delay size q ops = .ok (s, d)) :
    (∀ i, s.seq i = Sequencer.run (delay i) (size i) (callsOf i ops) ∧ stream s.out i = (s.seq i).out) ∧
      ExactTime.run (ExactTime.construct n q) s.out = .ok d := by
  have hg : ∀ (s : Sequencers n) op s', (Except.ok (Sequencers.step s op) : Except Fault (Sequencers n)) = .ok s' →
      s.out <+: s'.out := by
    intro s op s' h
    cases h; exact List.prefix_append _ _
  have := run_factor hg ops (s, d) h
  refine ⟨?_, this.2.2⟩
  have h2 := this.2.1
  rw [runE_total] at h2
  have h3 := sequencers_inv delay size ops
  rw [Except.ok.inj h2] at h3
  exact h3

/-- Nothing is lost by a sequencer without queue limit whose messages arrive in time. -/
theorem punctual_kept {delay : Int} {ops : List Sequencer.Op} (hp : Punctual delay ops) :
    ∀ x, x ∈ (Sequencer.run delay 0 ops).out ++ (Sequencer.run delay 0 ops).messages ↔ x ∈ Sequencer.added ops := by
  have hout : ∀ ops, ∀ x ∈ (Sequencer.run delay 0 ops).out, ∃ now, Sequencer.Op.tick now ∈ ops ∧ ∃ k, x.stamp + delay ≤ now k := by
    intro ops
    induction ops using snoc_induction with
    | h0 => intro x hx; simp [Sequencer.run, Sequencer.construct] at hx
    | hs ops op ih =>
      intro x hx
      cases op with
      | add m =>
        rw [Sequencer.C45_no_output_on_add] at hx
        obtain ⟨now, h1, h2⟩ := ih x hx
        exact ⟨now, by simp [h1], h2⟩
      | tick now =>
        obtain ⟨new, h1, h2, _⟩ := Sequencer.C45_delay delay 0 ops now
        rw [h1] at hx
        rcases List.mem_append.1 hx with hx | hx
        · obtain ⟨now', h3, h4⟩ := ih x hx
          exact ⟨now', by simp [h3], h4⟩
        · obtain ⟨j, hj, hjx⟩ := List.getElem_of_mem hx
          exact ⟨now, by simp, j, h2 j x (by rw [List.getElem?_eq_getElem hj, hjx])⟩
  intro x
  constructor
  · intro hx
    have := Sequencer.C44_content delay 0 ops x.stamp
    have hx2 : x ∈ ((Sequencer.run delay 0 ops).out ++ (Sequencer.run delay 0 ops).messages).filter
        (fun y => decide (y.stamp = x.stamp)) := by simpa using hx
    exact (List.mem_filter.1 (this.subset hx2)).1
  · intro hx
    unfold Sequencer.added at hx
    obtain ⟨op, hop, hx⟩ := List.mem_filterMap.1 hx
    cases op with
    | tick now => cases hx
    | add m =>
      obtain ⟨pre, post, hsplit⟩ := List.append_of_mem hop
      obtain ⟨h1, h2, h3⟩ := hp pre m post hsplit
      simp only [h1, if_true, Option.some.injEq] at hx
      subst hx
      rw [hsplit]
      apply Sequencer.C44_nothing_lost delay pre post m h1
      unfold Sequencer.lastOutput
      cases hl : (Sequencer.run delay 0 pre).out.getLast? with
      | none => exact h2
      | some y =>
        obtain ⟨now, g1, k, g2⟩ := hout pre y (List.mem_of_getLast? hl)
        have := h3 now g1 k
        show y.stamp ≤ _
        omega

theorem seq_distinct (delay : Int) (q : Nat) (ops : List Sequencer.Op) (h : DistinctStamps (Sequencer.added ops)) :
    DistinctStamps (Sequencer.run delay q ops).out := by
  -- at most one message per stamp
  have h1 : ∀ t, (((Sequencer.run delay q ops).out).filter (fun x => decide (x.stamp = t))).length ≤ 1 := by
    intro t
    have hc := Sequencer.C44_content delay q ops t
    rw [List.filter_append] at hc
    have hc := (List.sublist_append_left _ _).trans hc
    refine Nat.le_trans hc.length_le ?_
    have hd : DistinctStamps ((Sequencer.added ops).filter (fun x => decide (x.stamp = t))) :=
      distinct_sublist h List.filter_sublist
    generalize hl : (Sequencer.added ops).filter (fun x => decide (x.stamp = t)) = l at hd
    match l, hl, hd with
    | [], _, _ => simp
    | [_], _, _ => simp
    | a :: b :: l, hl, hd =>
      have ha : a ∈ (Sequencer.added ops).filter (fun x => decide (x.stamp = t)) := by rw [hl]; simp
      have hb : b ∈ (Sequencer.added ops).filter (fun x => decide (x.stamp = t)) := by rw [hl]; simp
      have ha := (List.mem_filter.1 ha).2
      have hb := (List.mem_filter.1 hb).2
      simp at ha hb
      have := (List.pairwise_cons.1 hd).1 b (by simp)
      omega
  generalize (Sequencer.run delay q ops).out = l at h1
  clear h
  induction l with
  | nil => exact List.Pairwise.nil
  | cons a l ih =>
    refine List.pairwise_cons.2 ⟨?_, ih (fun t => ?_)⟩
    · intro b hb hab
      have := h1 a.stamp
      rw [List.filter_cons_of_pos (by simp)] at this
      have hb' : b ∈ l.filter (fun x => decide (x.stamp = a.stamp)) := by simp [hb, hab]
      have := List.length_pos_of_mem hb'
      simp only [List.length_cons] at *
      omega
    · exact Nat.le_trans ((List.sublist_cons_self _ _).filter _).length_le (h1 t)

theorem sequencersExact_runs {n : Nat} [NeZero n] (delay : Fin n → Int) (size : Fin n → Nat) (q : Nat)
    (ops : List (Fin n × Sequencer.Op)) : ∃ s d, sequencersExact delay size q ops = .ok (s, d) := by
  obtain ⟨d, hd⟩ := exact_runs q
    (ops.foldl Sequencers.step { seq := fun i => Sequencer.construct (delay i) (size i), out := [] }).out
  refine ⟨_, d, run_exists ?_ ops _ d (runE_total _ _ _) hd⟩
  intro s op s' h
  cases h; exact List.prefix_append _ _

theorem tdiv_mono {den x y : Int} (hden : 0 < den) (h : x ≤ y) : x.tdiv den ≤ y.tdiv den :=
  Int.tdiv_le_tdiv hden h

end MF.Pipeline
