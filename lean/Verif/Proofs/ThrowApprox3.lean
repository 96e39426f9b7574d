import Verif.Proofs.ThrowApprox2
import Verif.Proofs.Approx7
/-
Helper lemmas about the ApproximateTime policy with callbacks that throw, part 3: histories.
-/
namespace MF.Throw
open MF.Approx
open MF.Epsilon (nonEmpty nonEmpty_eq_iff nonEmpty_upd nonEmpty_le total total_le total_stream)

variable {n : Nat}

/-- A predicate kept by the steps of the loop and by the queue limit is kept by `add` once the message is stored. -/
theorem tadd_ind {boom : Nat → Bool} {P : State n → Prop}
    (hstep : ∀ s s' thr, WInv s → (∀ i, s.deques i ≠ []) → TStep boom s s' thr → P s → P s')
    (hdrop : ∀ s i, WInv s → P s → P (dropped s i)) {s s' : State n} {i : Fin n} {e : Ev} {thr : Bool} (hi : WInv s)
    (hpush : ∀ s1, Pushed s s1 i e → P s1) (h : TAdd boom s s' i e thr) : P s' := by
  cases h with
  | threw s1 hp hs => exact (tsteps_ind hstep (pushed_winv hp hi) hs (hpush s1 hp)).2.2
  | normal s1 hp hs hl => exact (tsteps_ind hstep (pushed_winv hp hi) hs (hpush s1 hp)).2.2
  | drop s1 s2 thr hp hs hl hs' =>
    obtain ⟨h1, _, h2⟩ := tsteps_ind hstep (pushed_winv hp hi) hs (hpush s1 hp)
    exact (tsteps_ind hstep (dropped_winv s2 i) hs' (hdrop s2 i h1 h2)).2.2

/-- Every message of `L i` was consumed or is still held, in order; the sets delivered used consumed messages in order; all
sets given to the callbacks are complete sets of messages of `L`. -/
structure HistT (boom : Nat → Bool) (L : Fin n → List Ev) (s : State n) : Prop where
  order : ∀ i, ∃ c, L i = c ++ view s i ∧ List.Sublist ((delivered boom s.out).map (· i)) (c.map some)
  made : ∀ t ∈ s.out, ∀ i, ∃ e, t i = some e ∧ e ∈ L i

theorem HistT.consume {boom : Nat → Bool} {L : Fin n → List Ev} {s s' : State n} (h : HistT boom L s) (ho : s'.out = s.out)
    (hv : ∀ i, ∃ q, view s i = q ++ view s' i) : HistT boom L s' := by
  refine ⟨?_, by rw [ho]; exact h.made⟩
  intro i
  obtain ⟨c, h1, h2⟩ := h.order i
  obtain ⟨q, hq⟩ := hv i
  refine ⟨c ++ q, by rw [h1, hq, List.append_assoc], ?_⟩
  rw [ho, List.map_append]
  exact h2.trans (List.sublist_append_left _ _)

theorem made_cand {boom : Nat → Bool} {L : Fin n → List Ev} {s : State n} {p : Fin n} {c : Fin n → Ev} (h : HistT boom L s)
    (hc : WCand s p c) : ∀ t ∈ s.out ++ [s.cand], ∀ i, ∃ e, t i = some e ∧ e ∈ L i := by
  intro t ht i
  rcases List.mem_append.1 ht with ht | ht
  · exact h.made t ht i
  · rw [List.mem_singleton] at ht
    subst ht
    refine ⟨c i, hc.cand i, ?_⟩
    obtain ⟨q, h2, _⟩ := h.order i
    obtain ⟨tl, htl⟩ := hc.head i
    rw [h2, htl]; simp

theorem tstep_hist {boom : Nat → Bool} {L : Fin n → List Ev} {s s' : State n} {thr : Bool} (hi : WInv s)
    (hs : TStep boom s s' thr) (h : HistT boom L s) : HistT boom L s' := by
  have hv := tstep_view hi hs
  cases hs with
  | delete m e hm he hp hs => exact h.consume (by rw [hs]; rfl) hv
  | go m e p hm he hx ha => exact h.consume ha.out hv
  | publish m e p s1 hm he hx ha hb hs =>
    subst hs
    have h1 : HistT boom L s1 := h.consume ha.out ha.view
    obtain ⟨c, hc⟩ := ha.cand
    refine ⟨?_, made_cand h1 hc⟩
    intro i
    obtain ⟨q, h2, h3⟩ := h1.order i
    obtain ⟨tl, htl⟩ := hc.head i
    refine ⟨q ++ [c i], ?_, ?_⟩
    · rw [h2]
      show _ = q ++ [c i] ++ ([] ++ (view s1 i).tail)
      rw [htl]; simp
    · show List.Sublist ((delivered boom (s1.out ++ [s1.cand])).map (· i)) _
      rw [delivered_snoc, if_neg (by rw [hb]; simp), List.map_append, List.map_append]
      apply List.Sublist.append h3
      simp [hc.cand i]
  | threw m e p s1 s2 hm he hx ha hsh hd hb hs =>
    subst hs
    have h1 : HistT boom L s1 := h.consume ha.out ha.view
    have h2 : HistT boom L s2 := h1.consume hsh.out (by rw [hsh.view]; exact fun i => ⟨[], rfl⟩)
    obtain ⟨c, hc⟩ := ha.cand
    refine ⟨?_, made_cand h2 (hsh.wcand hc)⟩
    intro i
    obtain ⟨q, g1, g2⟩ := h2.order i
    refine ⟨q, g1, ?_⟩
    show List.Sublist ((delivered boom (s2.out ++ [s2.cand])).map (· i)) _
    rw [delivered_snoc, hsh.out, if_pos hb, List.append_nil]
    rw [hsh.out] at g2
    exact g2

theorem pushed_histT {boom : Nat → Bool} {L : Fin n → List Ev} {s s1 : State n} {i : Fin n} {e : Ev} (hp : Pushed s s1 i e)
    (h : HistT boom L s) : HistT boom (upd L i (L i ++ [e])) s1 := by
  refine ⟨?_, ?_⟩
  · intro j
    obtain ⟨c, h1, h2⟩ := h.order j
    refine ⟨c, ?_, by rw [hp.out]; exact h2⟩
    by_cases hj : j = i
    · subst hj; rw [upd_same, hp.view_same, h1, List.append_assoc]
    · rw [upd_ne _ _ hj, hp.view_ne hj, h1]
  · rw [hp.out]
    intro t ht j
    obtain ⟨x, h1, h2⟩ := h.made t ht j
    refine ⟨x, h1, ?_⟩
    by_cases hj : j = i
    · subst hj; rw [upd_same]; simp [h2]
    · rw [upd_ne _ _ hj]; exact h2

theorem dropped_view (s : State n) (i j : Fin n) : ∃ q, view s j = q ++ view (dropped s i) j := by
  rw [view_dropped]
  by_cases hj : j = i
  · subst hj
    refine ⟨(view s j).take 1, ?_⟩
    rw [upd_same]
    cases view s j <;> simp
  · exact ⟨[], by rw [upd_ne _ _ hj]; rfl⟩

theorem tadd_hist {boom : Nat → Bool} {L : Fin n → List Ev} {s s' : State n} {i : Fin n} {e : Ev} {thr : Bool} (hi : WInv s)
    (h : TAdd boom s s' i e thr) (hh : HistT boom L s) : HistT boom (upd L i (L i ++ [e])) s' :=
  tadd_ind (P := HistT boom (upd L i (L i ++ [e]))) (fun _ _ _ hi _ hs h => tstep_hist hi hs h)
    (fun s i _ h => h.consume (by rfl) (dropped_view s i)) hi (fun _ hp => pushed_histT hp hh) h

/-! ### Sizes -/

theorem tstep_throws {boom : Nat → Bool} {s s' : State n} {thr : Bool} (hs : TStep boom s s' thr) :
    throws boom s'.out = throws boom s.out + (if thr then 1 else 0) := by
  cases hs with
  | delete m e hm he hp hs => subst hs; simp [deleted, cleared]
  | go m e p hm he hx ha => rw [ha.out]; simp
  | publish m e p s1 hm he hx ha hb hs =>
    subst hs
    show throws boom (s1.out ++ [s1.cand]) = _
    rw [throws_snoc, hb, ha.out]
  | threw m e p s1 s2 hm he hx ha hsh hd hb hs =>
    subst hs
    show throws boom (s2.out ++ [s2.cand]) = _
    rw [throws_snoc, hsh.out, hb, ha.out]

theorem tsteps_throws {boom : Nat → Bool} {s s' : State n} {thr : Bool} (hs : TSteps boom s s' thr) :
    throws boom s'.out = throws boom s.out + (if thr then 1 else 0) := by
  induction hs with
  | done h => simp
  | threw hne h1 => exact tstep_throws h1
  | step hne h1 _ ih => have := tstep_throws h1; simp at this; omega

theorem tadd_throws {boom : Nat → Bool} {s s' : State n} {i : Fin n} {e : Ev} {thr : Bool} (h : TAdd boom s s' i e thr) :
    throws boom s'.out = throws boom s.out + (if thr then 1 else 0) := by
  cases h with
  | threw s1 hp hs => have := tsteps_throws hs; rw [hp.out] at this; exact this
  | normal s1 hp hs hl => have := tsteps_throws hs; rw [hp.out] at this; exact this
  | drop s1 s2 thr hp hs hl hs' =>
    have h1 := tsteps_throws hs
    have h2 := tsteps_throws hs'
    rw [hp.out] at h1
    rw [h2]
    show throws boom s2.out + _ = _
    rw [h1]; simp

theorem tsteps_len {boom : Nat → Bool} {s s' : State n} {thr : Bool} (hi : WInv s) (hs : TSteps boom s s' thr) (i : Fin n) :
    (view s' i).length ≤ (view s i).length := by
  obtain ⟨q, hq⟩ := (tsteps_facts hi hs).2.2.2 i
  rw [hq]; simp

theorem tadd_bound {boom : Nat → Bool} {s s' : State n} {i : Fin n} {e : Ev} {thr : Bool} (hi : WInv s)
    (h : TAdd boom s s' i e thr) (hb : ∀ j, (view s j).length ≤ s.cfg.queueSize + throws boom s.out) (j : Fin n) :
    (view s' j).length ≤ s.cfg.queueSize + throws boom s'.out := by
  have hpush : ∀ s1, Pushed s s1 i e → (view s1 j).length ≤ s.cfg.queueSize + throws boom s.out + (if j = i then 1 else 0) := by
    intro s1 hp
    have := hb j
    by_cases hj : j = i
    · subst hj; rw [hp.view_same]; simp; omega
    · rw [hp.view_ne hj, if_neg hj]; omega
  cases h with
  | threw s1 hp hs =>
    have h1 := hpush s1 hp
    have h2 := tsteps_len (pushed_winv hp hi) hs j
    have h3 := tsteps_throws hs
    rw [hp.out] at h3
    simp at h3
    split at h1 <;> omega
  | normal s1 hp hs hl =>
    have h1 := hpush s1 hp
    have h2 := tsteps_len (pushed_winv hp hi) hs j
    have h3 := tsteps_throws hs
    rw [hp.out] at h3
    simp at h3
    by_cases hj : j = i
    · subst hj; omega
    · rw [if_neg hj] at h1; omega
  | drop s1 s2 thr hp hs hl hs' =>
    have h1 := hpush s1 hp
    have h2 := tsteps_len (pushed_winv hp hi) hs j
    have h3 := tsteps_throws hs
    have h4 := tsteps_len (dropped_winv s2 i) hs' j
    have h5 := tsteps_throws hs'
    have h6 : throws boom s2.out ≤ throws boom s'.out := by
      rw [h5]; exact Nat.le_add_right _ _
    rw [hp.out] at h3
    simp at h3
    by_cases hj : j = i
    · subst hj
      rw [dropped_len_same] at h4
      simp at h1
      omega
    · rw [if_neg hj] at h1
      have := dropped_len s2 i j
      omega

/-! ### The maximum interval -/

theorem tstep_spanLin {boom : Nat → Bool} {num den M : Int} (hn2 : 2 ≤ n) (hd : 0 < den) (hn : den ≤ num) {s s' : State n}
    {thr : Bool} (hi : WInv s) (hM : s.cfg.maxInterval = M) (hf : ∀ x y, s.cfg.scale x < y → num * x < den * y)
    (hstep : TStep boom s s' thr) (h : SpanLin num den M s) : SpanLin num den M s' := by
  have hx : ∀ m e p s1, IsStart s.deques m → IsEnd s.deques e → Examined s m e p s1 → WAfter s m p s1 → SpanLin num den M s1 := by
    intro m e p s1 hm he hx ha
    refine ⟨by rw [ha.out]; exact h.1, fun _ => ?_⟩
    cases hx with
    | fresh h1 h2 h3 hp hs =>
      subst hs
      refine ⟨Int.le_refl _, ?_⟩
      show num * st s.deques e - den * st s.deques m ≤ (num - den) * st s.deques e + den * M
      have : den * (st s.deques e - st s.deques m) ≤ den * M := Int.mul_le_mul_of_nonneg_left (by omega) (by omega)
      rw [Int.sub_mul]
      rw [Int.mul_sub] at this
      omega
    | kept h1 h2 hs =>
      subst hs
      exact h.2 (by rw [h1]; simp)
    | better h1 h2 hs' =>
      subst hs'
      have h5 := h.2 (by rw [h1]; simp)
      refine ⟨?_, ?_⟩
      · show s.pivotTime ≤ st s.deques e
        have le : ∀ j, FrontGe s s.pivotTime j → s.pivotTime ≤ st s.deques e := by
          rintro j ⟨x, tl, g1, g2⟩
          have := he.1 j
          rw [st_cons g1] at this
          omega
        rcases hi.front p h1 with g | g
        · exact le p g
        · have : ∃ j : Fin n, j ≠ p := by
            by_cases h0 : p.val = 0
            · refine ⟨⟨1, by omega⟩, ?_⟩
              intro h; rw [← h] at h0; simp at h0
            · refine ⟨⟨0, by omega⟩, ?_⟩
              intro h; rw [← h] at h0; simp at h0
          obtain ⟨j, hj⟩ := this
          exact le j (g j hj)
      · show num * st s.deques e - den * st s.deques m ≤ (num - den) * s.pivotTime + den * M
        have h6 := hf _ _ h2
        rw [Int.mul_sub, Int.mul_sub] at h6
        omega
  have hout : ∀ {p c} (t : State n), WCand t p c → SpanLin num den M t → ∀ u ∈ t.out ++ [t.cand], Within M u := by
    intro p c t hc h1 u hu
    rcases List.mem_append.1 hu with hu | hu
    · exact h1.1 u hu
    · rw [List.mem_singleton] at hu
      subst hu
      intro i j x y hxi hyj
      rw [hc.cand i] at hxi
      rw [hc.cand j] at hyj
      cases hxi; cases hyj
      have h2 := h1.2 (by rw [hc.pivot]; simp)
      have := lin_span hd hn h2.1 h2.2
      have := hc.hi i; have := hc.lo j
      omega
  cases hstep with
  | delete m e hm he hp hs =>
    subst hs
    exact ⟨h.1, fun h0 => absurd hp h0⟩
  | go m e p hm he hx' ha => exact hx m e p s' hm he hx' ha
  | publish m e p s1 hm he hx' ha hb hs' =>
    subst hs'
    obtain ⟨c, hc⟩ := ha.cand
    exact ⟨hout s1 hc (hx m e p s1 hm he hx' ha), fun h0 => absurd rfl h0⟩
  | threw m e p s1 s2 hm he hx' ha hsh hd hb hs' =>
    subst hs'
    obtain ⟨c, hc⟩ := ha.cand
    have h1 := hx m e p s1 hm he hx' ha
    have h2 : SpanLin num den M s2 := by
      unfold SpanLin at *
      rw [hsh.out, hsh.pivot, hsh.candEnd, hsh.candStart, hsh.pivotTime]; exact h1
    exact ⟨hout s2 (hsh.wcand hc) h2, h2.2⟩

theorem pushed_spanLin {num den M : Int} {s s1 : State n} {i : Fin n} {e : Ev} (hp : Pushed s s1 i e)
    (h : SpanLin num den M s) : SpanLin num den M s1 := by
  unfold SpanLin at *
  rw [hp.out, hp.pivot, hp.candEnd, hp.candStart, hp.pivotTime]; exact h

/-! ### Runs -/

theorem init_cinv [NeZero n] (cfg : Cfg n) (h : 0 < cfg.queueSize) : CInv (init cfg) := by
  refine ⟨⟨?_, fun _ _ => rfl, ?_, ?_⟩, fun _ => ⟨0, rfl⟩, h⟩
  · simp [init, nonEmpty]
  · intro p hp; cases hp
  · intro p hp; cases hp

theorem approxRun_ok [NeZero n] {boom : Nat → Bool} {fuel : Nat} {cfg : Cfg n} {ops : List (Fin n × Ev)} {s : State n}
    (h : approxRun boom fuel cfg ops = .ok s) :
    0 < cfg.queueSize ∧ runE (fun s op => (approxAdd boom fuel s op.1 op.2).map (·.1)) (init cfg) ops = .ok s := by
  unfold approxRun at h
  by_cases hq : 0 < cfg.queueSize
  · rw [construct_eq cfg hq] at h; exact ⟨hq, h⟩
  · unfold construct at h; rw [if_neg hq] at h; cases h

theorem addT_ok_spec [NeZero n] {boom : Nat → Bool} {fuel : Nat} {s s' : State n} (hc : CInv s) {op : Fin n × Ev}
    (h : (approxAdd boom fuel s op.1 op.2).map (·.1) = .ok s') :
    ∃ thr, approxAdd boom fuel s op.1 op.2 = .ok (s', thr) ∧ TAdd boom s s' op.1 op.2 thr ∧ CInv s' ∧ s'.cfg = s.cfg := by
  rcases (addT_spec boom fuel hc op.1 op.2).1 with ⟨t, thr, h1, h2, h3, h4⟩ | h1
  · rw [h1] at h
    have h : t = s' := by simpa [Except.map] using h
    subst h
    exact ⟨thr, h1, h2, h3, h4⟩
  · rw [h1] at h; cases h

theorem approxRun_facts [NeZero n] {boom : Nat → Bool} {fuel : Nat} {cfg : Cfg n} (hq : 0 < cfg.queueSize) :
    ∀ (ops : List (Fin n × Ev)) (s : State n),
    runE (fun s op => (approxAdd boom fuel s op.1 op.2).map (·.1)) (init cfg) ops = .ok s →
    CInv s ∧ s.cfg = cfg ∧ HistT boom (stream ops) s ∧ ∀ i, (view s i).length ≤ cfg.queueSize + throws boom s.out := by
  apply runE_induction
  · refine ⟨init_cinv cfg hq, rfl, ⟨fun i => ⟨[], rfl, ?_⟩, ?_⟩, ?_⟩
    · simp [init, delivered_nil]
    · intro t ht; simp [init] at ht
    · intro i; simp [view, init]
  · intro ops s op s' _ ⟨hc, hcfg, hh, hb⟩ hs
    obtain ⟨thr, h1, h2, h3, h4⟩ := addT_ok_spec hc hs
    refine ⟨h3, by rw [h4, hcfg], ?_, ?_⟩
    · have := tadd_hist hc.loop h2 hh
      obtain ⟨i, e⟩ := op
      rw [stream_snoc]
      exact this
    · intro j
      have := tadd_bound hc.loop h2 (by rw [hcfg]; exact hb) j
      rw [hcfg] at this
      exact this

theorem total_view_leT {boom : Nat → Bool} {ops : List (Fin n × Ev)} {s : State n} (h : HistT boom (stream ops) s) :
    total (view s) ≤ ops.length := by
  rw [← total_stream]
  apply total_le
  intro i
  obtain ⟨c, hc, _⟩ := h.order i
  rw [hc]; simp

theorem approxRun_span [NeZero n] {boom : Nat → Bool} {fuel : Nat} {cfg : Cfg n} {num den : Int} (hn2 : 2 ≤ n) (hd : 0 < den)
    (hn : den ≤ num) (hf : ∀ x y, cfg.scale x < y → num * x < den * y) (hq : 0 < cfg.queueSize) :
    ∀ (ops : List (Fin n × Ev)) (s : State n),
    runE (fun s op => (approxAdd boom fuel s op.1 op.2).map (·.1)) (init cfg) ops = .ok s →
    CInv s ∧ s.cfg = cfg ∧ SpanLin num den cfg.maxInterval s := by
  apply runE_induction
  · refine ⟨init_cinv cfg hq, rfl, ?_, fun h0 => absurd rfl h0⟩
    intro t ht; simp [init] at ht
  · intro ops s op s' _ ⟨hc, hcfg, hsp⟩ hs
    obtain ⟨thr, h1, h2, h3, h4⟩ := addT_ok_spec hc hs
    have h5 := tadd_ind (P := fun t => SpanLin num den cfg.maxInterval t ∧ t.cfg = cfg)
      (fun a b thr hi _ hs h => ⟨tstep_spanLin hn2 hd hn hi (by rw [h.2]) (by rw [h.2]; exact hf) hs h.1,
        by rw [tstep_cfg hs, h.2]⟩)
      (fun a i _ h => ⟨⟨h.1.1, fun h0 => absurd rfl h0⟩, h.2⟩) hc.loop
      (fun s1 hp => ⟨pushed_spanLin hp hsp, by rw [hp.cfg, hcfg]⟩) h2
    exact ⟨h3, h5.2, h5.1⟩

/-- Neither undefined behaviour nor a failing assertion. -/
theorem approxRun_faults [NeZero n] {boom : Nat → Bool} {fuel : Nat} : ∀ (ops : List (Fin n × Ev)) (s : State n) (f : Fault),
    CInv s → runE (fun s op => (approxAdd boom fuel s op.1 op.2).map (·.1)) s ops = .error f → f = .hang := by
  intro ops
  induction ops with
  | nil => intro s f _ h; cases h
  | cons op ops ih =>
    intro s f hc h
    simp only [runE] at h
    rcases (addT_spec boom fuel hc op.1 op.2).1 with ⟨t, thr, h1, h2, h3, h4⟩ | h1
    · rw [h1] at h
      exact ih t f h3 h
    · rw [h1] at h; cases h; rfl

/-- Enough fuel: no call runs for ever. -/
theorem approxRun_returns [NeZero n] {boom : Nat → Bool} {fuel : Nat} {cfg : Cfg n} (hq : 0 < cfg.queueSize)
    (ops : List (Fin n × Ev)) (hfuel : ops.length * ops.length + ops.length ≤ fuel) :
    runE (fun s op => (approxAdd boom fuel s op.1 op.2).map (·.1)) (init cfg) ops ≠ .error .hang := by
  revert hfuel
  induction ops using snoc_induction with
  | h0 => intro _; simp [runE]
  | hs ops op ih =>
    intro hfuel
    rw [List.length_append, List.length_singleton] at hfuel
    have hle : ops.length * ops.length ≤ (ops.length + 1) * (ops.length + 1) := Nat.mul_le_mul (by omega) (by omega)
    have ih := ih (by omega)
    rw [runE_append]
    cases hr : runE (fun s op => (approxAdd boom fuel s op.1 op.2).map (·.1)) (init cfg) ops with
    | error f => rw [hr] at ih; exact ih
    | ok s =>
      obtain ⟨hc, _, hh, _⟩ := approxRun_facts hq ops s hr
      have htot := total_view_leT hh
      have := (addT_spec boom fuel hc op.1 op.2).2 (ops.length + 1) (by omega) hfuel
      simp only [runE]
      cases hadd : approxAdd boom fuel s op.1 op.2 with
      | ok r => simp [Except.map]
      | error f => rw [hadd] at this; simpa [Except.map] using this

theorem tstep_threw {boom : Nat → Bool} {s s' : State n} (hs : TStep boom s s' true) :
    ∃ t, s'.out.getLast? = some t ∧ boom (s'.out.length - 1) = true ∧ ∀ j, (view s' j).head? = t j := by
  cases hs with
  | threw m e p s1 s2 hm he hx ha hsh hd hb hs =>
    subst hs
    obtain ⟨c, hc⟩ := ha.cand
    have hc2 := hsh.wcand hc
    refine ⟨s2.cand, by simp [approxInterrupted], ?_, ?_⟩
    · show boom ((s2.out ++ [s2.cand]).length - 1) = true
      simp [hsh.out, hb]
    · intro j
      show (view s2 j).head? = _
      obtain ⟨tl, htl⟩ := hc2.head j
      rw [htl, hc2.cand j]; rfl

theorem tsteps_threw {boom : Nat → Bool} {s s' : State n} {thr : Bool} (hs : TSteps boom s s' thr) (ht : thr = true) :
    ∃ t, s'.out.getLast? = some t ∧ boom (s'.out.length - 1) = true ∧ ∀ j, (view s' j).head? = t j := by
  induction hs with
  | done h => cases ht
  | threw hne h1 => exact tstep_threw h1
  | step hne h1 _ ih => exact ih ht

theorem tadd_threw {boom : Nat → Bool} {s s' : State n} {i : Fin n} {e : Ev} (h : TAdd boom s s' i e true) :
    ∃ t, s'.out.getLast? = some t ∧ boom (s'.out.length - 1) = true ∧ ∀ j, (view s' j).head? = t j := by
  cases h with
  | threw s1 hp hs => exact tsteps_threw hs rfl
  | drop s1 s2 thr hp hs hl hs' => exact tsteps_threw hs' rfl

/-! ### Stalling -/

/-- While every input holds a message that has not been set aside, `add` only stores. -/
theorem add_stalled [NeZero n] (boom : Nat → Bool) (fuel : Nat) {s : State n} (hne : ∀ i, s.deques i ≠ []) (i : Fin n) (e : Ev)
    (hl : (view s i).length < s.cfg.queueSize) :
    ∃ w, approxAdd boom fuel s i e = .ok ({ s with deques := upd s.deques i (s.deques i ++ [e]), warned := w }, false) := by
  have hlen : ¬ (s.deques i ++ [e]).length = 1 := by
    have := List.length_pos_iff.2 (hne i)
    rw [List.length_append, List.length_singleton]; omega
  let s0 : State n := State.mk s.cfg (upd s.deques i (s.deques i ++ [e])) s.num s.past s.cand s.candStart s.candEnd
    s.pivotTime s.pivot s.hasDropped s.warned s.out
  obtain ⟨w, hw⟩ := checkBound_ok (s := s0) i e (s.deques i) (by simp [s0])
  refine ⟨w, ?_⟩
  have hres : approxAddPush boom fuel s i e = (checkInterMessageBound s0 i).map (fun s' => (s', false)) := by
    unfold approxAddPush
    simp only [upd_same]
    rw [if_neg hlen]
  unfold approxAdd
  rw [hres, hw]
  simp only [Except.map]
  unfold approxAddLimit
  have hneg : ¬ ((upd s.deques i (s.deques i ++ [e]) i).length + (s.past i).length > s.cfg.queueSize) := by
    rw [upd_same]
    unfold view at hl
    simp at hl ⊢
    omega
  exact if_neg hneg

theorem run_stalled [NeZero n] (boom : Nat → Bool) (fuel : Nat) : ∀ (ops : List (Fin n × Ev)) (s : State n),
    (∀ i, s.deques i ≠ []) → (∀ i, (view s i).length + (stream ops i).length ≤ s.cfg.queueSize) →
    ∃ s', runE (fun s op => (approxAdd boom fuel s op.1 op.2).map (·.1)) s ops = .ok s' ∧ s'.out = s.out ∧
      ∀ i, view s' i = view s i ++ stream ops i := by
  intro ops
  induction ops with
  | nil => intro s _ _; exact ⟨s, rfl, rfl, fun i => by simp [stream]⟩
  | cons op ops ih =>
    intro s hne hl
    obtain ⟨i, e⟩ := op
    have hstr : ∀ j, stream ((i, e) :: ops) j = (if j = i then [e] else []) ++ stream ops j := by
      intro j
      by_cases hj : j = i
      · subst hj; simp [stream]
      · simp [stream, Ne.symm hj, hj]
    have hli := hl i
    rw [hstr i] at hli
    simp at hli
    obtain ⟨w, hw⟩ := add_stalled boom fuel hne i e (by omega)
    have hv : ∀ j, view ({ s with deques := upd s.deques i (s.deques i ++ [e]), warned := w } : State n) j =
        view s j ++ (if j = i then [e] else []) := by
      intro j
      unfold view
      by_cases hj : j = i
      · subst hj; simp
      · simp [upd_ne _ _ hj, hj]
    obtain ⟨s', g1, g2, g3⟩ := ih { s with deques := upd s.deques i (s.deques i ++ [e]), warned := w } (by
        intro j
        by_cases hj : j = i
        · subst hj; simp
        · simp only [upd_ne _ _ hj]; exact hne j) (by
        intro j
        rw [hv j]
        have := hl j
        rw [hstr j] at this
        simp only [List.length_append] at this ⊢
        show _ ≤ s.cfg.queueSize
        omega)
    refine ⟨s', ?_, g2, ?_⟩
    · simp only [runE]
      rw [hw]
      exact g1
    · intro j
      rw [g3 j, hv j, hstr j, List.append_assoc]

/-! ### No exceptions -/

theorem search_never [NeZero n] (fuel : Nat) : ∀ (before : Int) (moves : Fin n → Nat) (s : State n),
    approxSearch (fun _ => false) fuel before moves s = (virtualSearch fuel before moves s).map (fun s' => (s', false)) := by
  induction fuel with
  | zero => intro before moves s; rfl
  | succ fuel ih =>
    intro before moves s
    unfold approxSearch virtualSearch
    cases getVirtualCandidateBoundary s true with
    | error f => rfl
    | ok r =>
      cases getVirtualCandidateBoundary s false with
      | error f => rfl
      | ok r' =>
        obtain ⟨_, endTime⟩ := r
        obtain ⟨startIndex, startTime⟩ := r'
        simp only
        split
        · rfl
        · split
          · cases recoverAllN moves { s with num := 0 } with
            | error f => rfl
            | ok s' => simp only; split <;> rfl
          · split
            · rfl
            · split
              · rfl
              · cases dequeMoveFrontToPast s startIndex with
                | error f => rfl
                | ok s' => exact ih _ _ _

theorem iteration_never [NeZero n] (fuel : Nat) (s : State n) :
    approxIteration (fun _ => false) fuel s = (iteration fuel s).map (fun s' => (s', false)) := by
  unfold approxIteration iteration
  cases getCandidateBoundary s.deques true with
  | error f => rfl
  | ok r =>
    cases getCandidateBoundary s.deques false with
    | error f => rfl
    | ok r' =>
      obtain ⟨endIndex, endTime⟩ := r
      obtain ⟨startIndex, startTime⟩ := r'
      simp only
      generalize examine _ endIndex endTime startIndex startTime = x
      cases x with
      | error f => rfl
      | ok q =>
        obtain ⟨b, s1⟩ := q
        cases b with
        | false => rfl
        | true =>
          simp only
          unfold approxConclude conclude
          split
          · rfl
          · split
            · rfl
            · split
              · rfl
              · split
                · exact search_never _ _ _ _
                · rfl

theorem process_never [NeZero n] (fuel : Nat) : ∀ s : State n,
    approxProcess (fun _ => false) fuel s = (process fuel s).map (fun s' => (s', false)) := by
  induction fuel with
  | zero => intro s; unfold approxProcess process; split <;> rfl
  | succ fuel ih =>
    intro s
    unfold approxProcess process
    split
    · rw [iteration_never]
      cases iteration fuel s with
      | error f => rfl
      | ok s' => exact ih s'
    · rfl

theorem approxAdd_never [NeZero n] (fuel : Nat) (s : State n) (i : Fin n) (e : Ev) :
    approxAdd (fun _ => false) fuel s i e = (add fuel s i e).map (fun s' => (s', false)) := by
  have h1 : approxAddPush (fun _ => false) fuel s i e = (addPush fuel s i e).map (fun s' => (s', false)) := by
    unfold approxAddPush addPush
    simp only
    split
    · split
      · exact process_never _ _
      · rfl
    · rfl
  have h2 : ∀ t : State n, approxAddLimit (fun _ => false) fuel t i = (addLimit fuel t i).map (fun s' => (s', false)) := by
    intro t
    unfold approxAddLimit addLimit
    split
    · generalize recoverAll { t with num := 0 } = u
      simp only
      cases u.deques i with
      | nil => rfl
      | cons x rest =>
        simp only
        split
        · rfl
        · exact process_never _ _
    · rfl
  unfold approxAdd add
  rw [h1]
  cases addPush fuel s i e with
  | error f => rfl
  | ok s1 => exact h2 s1

end MF.Throw
