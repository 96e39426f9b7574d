import Verif.Proofs.ApproxClock2
/-
Helper lemmas about ApproximateTime under messages of different clock types, part 3: `process`, `add`, histories.
-/
namespace MF.ClockMix
open Approx (view CandInv LoopInv PStep PSteps Hist mu Pushed dropped)
open Epsilon (nonEmpty nonEmpty_eq_iff nonEmpty_upd total total_le)

variable {n : Nat}

/-! ### `process` -/

theorem pstep_view {s s' : Approx.State n} (hi : LoopInv s) (hs : PStep s s') (i : Fin n) : ∃ q, view s i = q ++ view s' i := by
  cases hs with
  | delete m e hm he hp hc hs =>
    subst hs
    by_cases him : i = m
    · subst him
      refine ⟨(s.deques i).take 1, ?_⟩
      simp only [Approx.view, Approx.deleted, Approx.cleared, upd_same, hi.noPivot hp i, List.nil_append]
      cases s.deques i <;> simp
    · exact ⟨[], by simp [Approx.view, Approx.deleted, Approx.cleared, upd_ne _ _ him]⟩
  | go m e p hm he hx ha hpm => exact Approx.examined_view hi hx i
  | publish m e p s1 hm he hx ha hw hs =>
    subst hs
    obtain ⟨q, hq⟩ := Approx.examined_view hi hx i
    refine ⟨q ++ (view s1 i).take 1, ?_⟩
    rw [hq]
    show _ = q ++ (view s1 i).take 1 ++ ([] ++ (view s1 i).tail)
    cases view s1 i <;> simp

/-- What is known of the state `s'` that a part of `add` leaves behind when it began with the members `b`. -/
structure Fine (src : Nat → Source) (b : Approx.State n) (s' : PState n) : Prop where
  inv : LoopInv s'.base
  clk : Clk src s'
  hist : ∀ L, Hist L b → Hist L s'.base
  cfg : s'.base.cfg = b.cfg
  len : ∀ i, (view s'.base i).length ≤ (view b i).length
  all : ∀ c, AllClk src c b → AllClk src c s'.base

theorem Fine.trans {src : Nat → Source} {b : Approx.State n} {s s' : PState n} (h : Fine src b s) (h' : Fine src s.base s') :
    Fine src b s' :=
  ⟨h'.inv, h'.clk, fun L hL => h'.hist L (h.hist L hL), by rw [h'.cfg, h.cfg], fun i => Nat.le_trans (h'.len i) (h.len i),
    fun c hc => h'.all c (h.all c hc)⟩

theorem Fine.self {src : Nat → Source} {s : PState n} (h : LoopInv s.base) (hk : Clk src s) : Fine src s.base s :=
  ⟨h, hk, fun _ h => h, rfl, fun _ => Nat.le_refl _, fun _ h => h⟩

theorem all_of_view {src : Nat → Source} {b b' : Approx.State n} (h : ∀ i, ∃ q, view b i = q ++ view b' i) (c : Source)
    (hc : AllClk src c b) : AllClk src c b' := by
  intro i x hx
  obtain ⟨q, hq⟩ := h i
  exact hc i x (by rw [hq]; simp [hx])

theorem Fine.pstep {src : Nat → Source} {b : Approx.State n} {s : PState n} (hi : LoopInv b) (hk : Clk src s) (hs : PStep b s.base) :
    Fine src b s :=
  ⟨Approx.pstep_inv hi hs, hk, fun _ h => Approx.pstep_hist hi hs h, Approx.pstep_cfg hs, Approx.pstep_len hs,
    all_of_view (pstep_view hi hs)⟩

theorem Cut.fine {src : Nat → Source} {s s' : PState n} (h : Cut src s s') : Fine src s.base s' := by
  refine ⟨h.inv, h.clk, fun L hL => hL.consume h.out h.view, h.cfg, ?_, all_of_view h.view⟩
  intro i
  obtain ⟨q, hq⟩ := h.view i
  rw [hq]; simp

/-- An exception is only thrown if the messages held are of different clock types. -/
def Thrown (src : Nat → Source) (b : Approx.State n) (s' : PState n) : Prop :=
  Fine src b s' ∧ ∀ c, ¬ AllClk src c b

theorem iteration_pstep [NeZero n] (fuel : Nat) {s s' : Approx.State n} (h : LoopInv s) (hne : ∀ i, s.deques i ≠ [])
    (hs : Approx.iteration fuel s = .ok s') : PStep s s' := by
  obtain ⟨m, e, hm, he, ⟨hp, hc, hit⟩ | ⟨s1, p, hx, ha, hcase⟩⟩ := Approx.iteration_spec fuel h hne
  · rw [hit] at hs; cases hs; exact .delete m e hm he hp hc rfl
  · rcases hcase with ⟨hpm, hit⟩ | ⟨hpm, hit, hU⟩ | ⟨hpm, hit, _, hage⟩ | ⟨_, hit, _⟩
    · rw [hit] at hs; cases hs; exact .publish m e p s1 hm he hx ha (Or.inl hpm) rfl
    · rw [hit] at hs; cases hs; exact .publish m e p s1 hm he hx ha (Or.inr hU) rfl
    · rw [hit] at hs; cases hs; exact .go m e p hm he hx ha hpm hage
    · rw [hit] at hs; cases hs

theorem process_sim [NeZero n] (src : Nat → Source) (fuel : Nat) : ∀ (s : PState n), LoopInv s.base → Clk src s →
    Sim (Fine src s.base) (Thrown src s.base) (approxProcess src fuel s) (Approx.process fuel s.base) := by
  induction fuel with
  | zero =>
    intro s h hk
    unfold approxProcess Approx.process
    by_cases hn : s.base.num = n
    · rw [if_pos hn, if_pos hn]; exact .fault _
    · rw [if_neg hn, if_neg hn]; exact .done s (Fine.self h hk)
  | succ fuel ih =>
    intro s h hk
    unfold approxProcess Approx.process
    by_cases hn : s.base.num = n
    · rw [if_pos hn, if_pos hn]
      have hne : ∀ i, s.base.deques i ≠ [] := by
        apply (nonEmpty_eq_iff _).1
        have := h.num; omega
      have hsim := iteration_sim src fuel s h hk hne
      have hps : ∀ b', Approx.iteration fuel s.base = .ok b' → PStep s.base b' := fun b' hb => iteration_pstep fuel h hne hb
      revert hsim hps
      generalize approxIteration src fuel s = r
      generalize Approx.iteration fuel s.base = r'
      intro hsim hps
      cases hsim with
      | done s' hk' =>
        dsimp only
        have hf := Fine.pstep h hk' (hps _ rfl)
        refine (ih s' hf.inv hk').imp (fun t ht => hf.trans ht) (fun t ht => ⟨hf.trans ht.1, fun c hc => ht.2 c (hf.all c hc)⟩)
      | threw s' r hc => exact .threw s' _ ⟨hc.fine, hc.mixed⟩
      | fault f => exact .fault f
    · rw [if_neg hn, if_neg hn]; exact .done s (Fine.self h hk)

/-! ### `add` -/

theorem bound_sim (src : Nat → Source) (s : PState n) (i : Fin n) (h : LoopInv s.base) (hk : Clk src s) :
    Sim (Fine src s.base) (Thrown src s.base) (approxBound src s i) (Approx.checkInterMessageBound s.base i) := by
  have hw : ∀ w, Fine src s.base { s with base := { s.base with warned := w } } := by
    intro w
    refine ⟨⟨h.num, h.noPivot, ?_⟩, ⟨hk.out, hk.cur⟩, fun _ h => h, rfl, fun _ => Nat.le_refl _, fun _ h => h⟩
    intro p hp
    obtain ⟨c, hc, hpast⟩ := h.pivoted p hp
    exact ⟨c, ⟨hc.pivot, hc.cand, hc.head, hc.pivotTime, hc.lo, hc.hi, hc.loEx, hc.hiEx, hc.noDrop⟩, hpast⟩
  unfold approxBound Approx.checkInterMessageBound
  by_cases hwi : s.base.warned i = true
  · rw [if_pos hwi, if_pos hwi]; exact .done s (Fine.self h hk)
  rw [if_neg hwi, if_neg hwi]
  cases hl : (s.base.deques i).getLast? with
  | none => exact .fault _
  | some msg =>
    dsimp only
    cases hpr : (if (s.base.deques i).length = 1 then (s.base.past i).getLast?
        else (s.base.deques i)[(s.base.deques i).length - 2]?) with
    | none => exact .done s (Fine.self h hk)
    | some prev =>
      have hm1 : msg ∈ view s.base i := by
        unfold Approx.view; exact List.mem_append_right _ (List.mem_of_getLast? hl)
      have hm2 : prev ∈ view s.base i := by
        unfold Approx.view
        split at hpr
        · exact List.mem_append_left _ (List.mem_of_getLast? hpr)
        · exact List.mem_append_right _ (List.mem_of_getElem? hpr)
      dsimp only
      apply sim_lt
      · intro hne
        refine ⟨Fine.self h hk, fun c hall => hne ?_⟩
        show src msg.id = src prev.id
        rw [hall i msg hm1, hall i prev hm2]
      intro heq
      show Sim _ _ (if decide (msg.stamp < prev.stamp) = true then _ else _) _
      by_cases hlt : msg.stamp < prev.stamp
      · rw [if_pos (by simpa using hlt), if_pos hlt]
        exact .done { s with base := { s.base with warned := upd s.base.warned i true } } (hw _)
      · rw [if_neg (by simpa using hlt), if_neg hlt]
        apply sim_sub
        · intro hne; exact absurd heq hne
        intro _
        show Sim _ _ (if msg.stamp - prev.stamp < s.base.cfg.lower i then _ else _) _
        split
        · exact .done { s with base := { s.base with warned := upd s.base.warned i true } } (hw _)
        · exact .done s (Fine.self h hk)

theorem sim_no_error {P T : PState n → Prop} {r : Except Fault (PState n × Bool)} {r' : Except Fault (Approx.State n)}
    (h : Sim P T r r') (b : Approx.State n) (hb : r' = .ok b) : ∃ s t, r = .ok (s, t) := by
  cases h with
  | done s' _ => exact ⟨_, _, rfl⟩
  | threw s' _ _ => exact ⟨_, _, rfl⟩
  | fault f => cases hb

theorem push_sim [NeZero n] (src : Nat → Source) (fuel : Nat) (s : PState n) (h : LoopInv s.base) (hk : Clk src s) (i : Fin n) (e : Ev) :
    ∃ b1, Pushed s.base b1 i e ∧
      Sim (Fine src b1) (Thrown src b1) (approxAddPush src fuel s i e) (Approx.addPush fuel s.base i e) ∧
      (mu b1 ≤ fuel → ∃ b, Approx.addPush fuel s.base i e = .ok b) := by
  have hnum := Approx.push_num h.num i e
  unfold approxAddPush Approx.addPush
  dsimp only
  by_cases hl : (upd s.base.deques i (s.base.deques i ++ [e]) i).length = 1
  · rw [if_pos hl, if_pos hl]
    have hemp : s.base.deques i = [] := by
      rw [upd_same] at hl
      cases hd : s.base.deques i with
      | nil => rfl
      | cons x tl => rw [hd] at hl; simp at hl
    rw [hemp] at hnum
    simp at hnum
    let b1 : Approx.State n := { s.base with deques := upd s.base.deques i (s.base.deques i ++ [e]), num := s.base.num + 1 }
    have hp : Pushed s.base b1 i e := by
      refine ⟨rfl, ?_, rfl, rfl, rfl, rfl, rfl, rfl, rfl, rfl, rfl⟩
      show s.base.num + 1 = _
      rw [← hnum]; simp [b1, hemp]
    have hk1 : Clk src { s with base := b1 } := ⟨hk.out, hk.cur⟩
    refine ⟨b1, hp, ?_⟩
    by_cases hn : s.base.num + 1 = (n : Int)
    · rw [if_pos hn, if_pos hn]
      exact ⟨process_sim src fuel { s with base := b1 } (hp.inv h) hk1, Approx.process_terminates fuel b1 (hp.inv h)⟩
    · rw [if_neg hn, if_neg hn]
      exact ⟨.done { s with base := b1 } (Fine.self (s := { s with base := b1 }) (hp.inv h) hk1), fun _ => ⟨_, rfl⟩⟩
  · rw [if_neg hl, if_neg hl]
    have hemp : s.base.deques i ≠ [] := by intro h0; rw [upd_same, h0] at hl; simp at hl
    let b1 : Approx.State n := { s.base with deques := upd s.base.deques i (s.base.deques i ++ [e]) }
    have hp : Pushed s.base b1 i e := by
      refine ⟨rfl, ?_, rfl, rfl, rfl, rfl, rfl, rfl, rfl, rfl, rfl⟩
      show s.base.num = _
      rw [hnum]
      cases hd : s.base.deques i with
      | nil => exact absurd hd hemp
      | cons x tl => simp
    have hk1 : Clk src { s with base := b1 } := ⟨hk.out, hk.cur⟩
    refine ⟨b1, hp, bound_sim src { s with base := b1 } i (hp.inv h) hk1, fun _ => ?_⟩
    unfold Approx.checkInterMessageBound
    split
    · exact ⟨_, rfl⟩
    · dsimp only
      rw [upd_same, List.getLast?_concat]
      dsimp only
      split
      · exact ⟨_, rfl⟩
      · split
        · exact ⟨_, rfl⟩
        · split
          · exact ⟨_, rfl⟩
          · exact ⟨_, rfl⟩

theorem dropped_view (s : Approx.State n) (i j : Fin n) : ∃ q, view s j = q ++ view (dropped s i) j := by
  rw [Approx.view_dropped]
  by_cases hj : j = i
  · subst hj
    refine ⟨(view s j).take 1, ?_⟩
    rw [upd_same]
    cases view s j <;> simp
  · exact ⟨[], by rw [upd_ne _ _ hj]; rfl⟩

theorem limit_sim [NeZero n] (src : Nat → Source) (fuel : Nat) (s : PState n) (h : LoopInv s.base) (hk : Clk src s)
    (hq : 0 < s.base.cfg.queueSize) (i : Fin n) :
    Sim (Fine src s.base) (Thrown src s.base) (approxAddLimit src fuel s i) (Approx.addLimit fuel s.base i) ∧
      (mu (dropped s.base i) ≤ fuel → ∃ b, Approx.addLimit fuel s.base i = .ok b) := by
  have hlen : (s.base.deques i).length + (s.base.past i).length = (view s.base i).length := by simp [Approx.view]; omega
  unfold approxAddLimit Approx.addLimit
  rw [hlen]
  by_cases hc : (view s.base i).length > s.base.cfg.queueSize
  · rw [if_pos hc, if_pos hc, Approx.recoverAll_eq]
    dsimp only
    cases hv : view s.base i with
    | nil => rw [hv] at hc; simp at hc
    | cons x rest =>
      rw [hv] at hc
      have hrest : rest ≠ [] := by
        intro h0; rw [h0] at hc; simp at hc; omega
      have hnum : (nonEmpty (view s.base) : Int) = nonEmpty (upd (view s.base) i rest) := by
        rw [nonEmpty_upd, hv]
        cases rest with
        | nil => exact absurd rfl hrest
        | cons y tl => simp
      have hkd : Clk src { s with base := dropped s.base i } := ⟨hk.out, fun h0 => absurd rfl h0⟩
      have hfine : Fine src s.base { s with base := dropped s.base i } :=
        ⟨Approx.dropped_inv s.base i, hkd, fun _ h => Approx.dropped_hist i h, rfl, Approx.dropped_len s.base i,
          all_of_view (dropped_view s.base i)⟩
      dsimp only
      by_cases hp : s.base.pivot = none
      · rw [if_pos hp, if_pos hp]
        have hd : ∀ b, b = dropped s.base i → Sim (Fine src s.base) (Thrown src s.base) (.ok ({ s with base := b }, false)) (.ok b) := by
          intro b hb
          subst hb
          exact .done { s with base := dropped s.base i } hfine
        refine ⟨hd _ ?_, fun _ => ⟨_, rfl⟩⟩
        unfold Approx.dropped
        rw [if_pos hp, hv, List.tail_cons, hnum, hp]
      · rw [if_neg hp, if_neg hp]
        have hd : ∀ b, b = dropped s.base i →
            Sim (Fine src s.base) (Thrown src s.base) (approxProcess src fuel { s with base := b }) (Approx.process fuel b) ∧
            (mu (dropped s.base i) ≤ fuel → ∃ b', Approx.process fuel b = .ok b') := by
          intro b hb
          subst hb
          refine ⟨(process_sim src fuel { s with base := dropped s.base i } (Approx.dropped_inv s.base i) hkd).imp
            (fun t ht => hfine.trans ht) (fun t ht => ⟨hfine.trans ht.1, fun c hc => ht.2 c (hfine.all c hc)⟩),
            Approx.process_terminates fuel _ (Approx.dropped_inv s.base i)⟩
        apply hd
        unfold Approx.dropped
        rw [if_neg hp, hv, List.tail_cons, hnum]
  · rw [if_neg hc, if_neg hc]
    exact ⟨.done s (Fine.self h hk), fun _ => ⟨_, rfl⟩⟩

theorem pushed_total {s s1 : Approx.State n} {i : Fin n} {e : Ev} (hp : Pushed s s1 i e) : total (view s1) ≤ total (view s) + 1 := by
  have : view s1 = upd (view s) i (view s i ++ [e]) := by
    funext j
    by_cases hj : j = i
    · subst hj; rw [hp.view_same, upd_same]
    · rw [hp.view_ne hj, upd_ne _ _ hj]
  rw [this]
  unfold total
  have h3 := MF.Epsilon.sum_indicator (List.finRange n) (List.nodup_finRange n) i (fun j => (view s j).length)
  rw [if_pos (List.mem_finRange i)] at h3
  have : ((List.finRange n).map (fun j => (upd (view s) i (view s i ++ [e]) j).length)) =
      ((List.finRange n).map (fun j => (if i = j then 1 else 0) + (view s j).length)) := by
    apply List.map_congr_left
    intro j _
    by_cases hj : j = i
    · subst hj; simp; omega
    · simp [upd_ne _ _ hj, Ne.symm hj]
  rw [this, h3]
  omega

theorem add_sim [NeZero n] (src : Nat → Source) (fuel : Nat) (s : PState n) (h : LoopInv s.base) (hk : Clk src s)
    (hq : 0 < s.base.cfg.queueSize) (i : Fin n) (e : Ev) :
    ∃ b1, Pushed s.base b1 i e ∧
      Sim (Fine src b1) (Thrown src b1) (approxAdd src fuel s i e) (Approx.add fuel s.base i e) ∧
      ∀ B, total (view s.base) + 1 ≤ B → B * B + B ≤ fuel → ∃ s' t, approxAdd src fuel s i e = .ok (s', t) := by
  obtain ⟨b1, hp, hsim, hterm⟩ := push_sim src fuel s h hk i e
  refine ⟨b1, hp, ?_⟩
  have hmu : ∀ t : Approx.State n, (∀ j, (view t j).length ≤ (view b1 j).length) → ∀ B, total (view s.base) + 1 ≤ B →
      B * B + B ≤ fuel → mu t ≤ fuel := by
    intro t ht B hB hf
    have h1 : total (view t) ≤ B := Nat.le_trans (total_le _ _ ht) (by have := pushed_total hp; omega)
    have h2 := Approx.total_deques_le t
    have h3 := Nat.mul_le_mul h1 h1
    unfold Approx.mu; omega
  unfold approxAdd Approx.add
  have hterm' : ∀ B, total (view s.base) + 1 ≤ B → B * B + B ≤ fuel → ∃ b, Approx.addPush fuel s.base i e = .ok b :=
    fun B h1 h2 => hterm (hmu b1 (fun _ => Nat.le_refl _) B h1 h2)
  revert hsim hterm'
  generalize approxAddPush src fuel s i e = r
  generalize Approx.addPush fuel s.base i e = r'
  intro hsim hterm'
  cases hsim with
  | done s' hf =>
    dsimp only
    have hq' : 0 < s'.base.cfg.queueSize := by rw [hf.cfg, hp.cfg]; exact hq
    obtain ⟨g1, g2⟩ := limit_sim src fuel s' hf.inv hf.clk hq' i
    refine ⟨g1.imp (fun t ht => hf.trans ht) (fun t ht => ⟨hf.trans ht.1, fun c hc => ht.2 c (hf.all c hc)⟩), ?_⟩
    intro B hB hfu
    obtain ⟨b, hb⟩ := g2 (hmu _ (fun j => Nat.le_trans (Approx.dropped_len s'.base i j) (hf.len j)) B hB hfu)
    exact sim_no_error g1 b hb
  | threw s' _ hT => exact ⟨.threw s' _ hT, fun _ _ _ => ⟨_, _, rfl⟩⟩
  | fault f =>
    refine ⟨.fault f, ?_⟩
    intro B hB hfu
    obtain ⟨b, hb⟩ := hterm' B hB hfu
    cases hb

/-- What is known after a history. -/
structure Reached (src : Nat → Source) (cfg : Approx.Cfg n) (ops : List (Fin n × Ev)) (s : PState n) : Prop where
  inv : LoopInv s.base
  clk : Clk src s
  hist : Hist (stream ops) s.base
  cfg : s.base.cfg = cfg

/-- The constructed policy. -/
def pinit (cfg : Approx.Cfg n) : PState n := { base := Approx.init cfg, startSrc := .system, endSrc := .system, pivotSrc := .system }

theorem approxConstruct_eq (cfg : Approx.Cfg n) (h : 0 < cfg.queueSize) : approxConstruct n cfg = .ok (pinit cfg) := by
  unfold approxConstruct; rw [Approx.construct_eq cfg h]; rfl

theorem reached_init [NeZero n] (src : Nat → Source) (cfg : Approx.Cfg n) (h : 0 < cfg.queueSize) : Reached src cfg [] (pinit cfg) :=
  ⟨(Approx.init_inv cfg h).loop, ⟨fun t ht => (by cases ht), fun h0 => absurd rfl h0⟩, fun i => ⟨[], rfl, List.nil_sublist _⟩, rfl⟩

theorem reached_add [NeZero n] {src : Nat → Source} {fuel : Nat} {cfg : Approx.Cfg n} {ops : List (Fin n × Ev)} {s : PState n}
    (hq : 0 < cfg.queueSize) (h : Reached src cfg ops s) (i : Fin n) (e : Ev) {s' : PState n} {t : Bool}
    (hs : approxAdd src fuel s i e = .ok (s', t)) : Reached src cfg (ops ++ [(i, e)]) s' := by
  obtain ⟨b1, hp, hsim, _⟩ := add_sim src fuel s h.inv h.clk (by rw [h.cfg]; exact hq) i e
  rw [hs] at hsim
  have hf : Fine src b1 s' := by
    revert hsim
    generalize Approx.add fuel s.base i e = r'
    intro hsim
    cases hsim with
    | done _ hf => exact hf
    | threw _ _ hf => exact hf.1
  refine ⟨hf.inv, hf.clk, ?_, by rw [hf.cfg, hp.cfg, h.cfg]⟩
  rw [Approx.stream_snoc]
  exact hf.hist _ (Approx.pushed_hist hp h.hist)

theorem run_pinit [NeZero n] {src : Nat → Source} {fuel : Nat} {cfg : Approx.Cfg n} {ops : List (Fin n × Ev)} (hq : 0 < cfg.queueSize) :
    approxRun src fuel cfg ops = runE (fun s op => (approxAdd src fuel s op.1 op.2).map (·.1)) (pinit cfg) ops := by
  unfold approxRun
  rw [approxConstruct_eq cfg hq]

theorem run_qpos [NeZero n] {src : Nat → Source} {fuel : Nat} {cfg : Approx.Cfg n} {ops : List (Fin n × Ev)} {s : PState n}
    (h : approxRun src fuel cfg ops = .ok s) : 0 < cfg.queueSize := by
  by_cases hq : 0 < cfg.queueSize
  · exact hq
  · unfold approxRun approxConstruct Approx.construct at h
    rw [if_neg hq] at h; cases h

theorem run_reached [NeZero n] {src : Nat → Source} {fuel : Nat} {cfg : Approx.Cfg n} {ops : List (Fin n × Ev)} {s : PState n}
    (h : approxRun src fuel cfg ops = .ok s) : Reached src cfg ops s := by
  have hq := run_qpos h
  rw [run_pinit hq] at h
  have key : ∀ ops s, runE (fun s op => (approxAdd src fuel s op.1 op.2).map (·.1)) (pinit cfg) ops = .ok s → Reached src cfg ops s := by
    apply runE_induction
    · exact reached_init src cfg hq
    · intro ops s op s' _ ih hs
      cases ha : approxAdd src fuel s op.1 op.2 with
      | error f => rw [ha] at hs; cases hs
      | ok r =>
        rw [ha] at hs
        cases hs
        exact reached_add hq ih op.1 op.2 (s' := r.1) (t := r.2) ha
  exact key ops s h

theorem run_ok [NeZero n] (src : Nat → Source) (fuel : Nat) (cfg : Approx.Cfg n) (hq : 0 < cfg.queueSize) (ops : List (Fin n × Ev))
    (hf : (ops.length + 1) * (ops.length + 1) + (ops.length + 1) ≤ fuel) : ∃ s, approxRun src fuel cfg ops = .ok s := by
  have key : ∀ ops : List (Fin n × Ev), (ops.length + 1) * (ops.length + 1) + (ops.length + 1) ≤ fuel →
      ∃ s, approxRun src fuel cfg ops = .ok s := by
    intro ops
    induction ops using snoc_induction with
    | h0 => intro _; rw [run_pinit hq]; exact ⟨_, rfl⟩
    | hs ops op ih =>
      intro hf
      rw [List.length_append, List.length_singleton] at hf
      have hle : (ops.length + 1) * (ops.length + 1) ≤ (ops.length + 1 + 1) * (ops.length + 1 + 1) :=
        Nat.mul_le_mul (by omega) (by omega)
      obtain ⟨s, hs⟩ := ih (by omega)
      have hr := run_reached hs
      obtain ⟨_, _, _, ht⟩ := add_sim src fuel s hr.inv hr.clk (by rw [hr.cfg]; exact hq) op.1 op.2
      have htot := Approx.total_view_le hr.hist
      obtain ⟨s', t, hadd⟩ := ht (ops.length + 1) (by omega) (by omega)
      refine ⟨s', ?_⟩
      rw [run_pinit hq] at hs ⊢
      rw [runE_append, hs]
      simp only [runE]
      rw [hadd]; rfl
  exact key ops hf

end MF.ClockMix
