import Verif.Spec.ClockMix
import Verif.Proofs.ApproxClock3
/-
Helper lemmas about ApproximateTime under messages of different clock types: special histories.
-/
namespace MF.ClockMix
open Approx (Inv Hist view Pushed PSteps recoverAll_eq LoopInv)
open Epsilon (nonEmpty nonEmpty_eq_iff nonEmpty_upd)

variable {n : Nat}

/-! ### One clock type -/

theorem add_same [NeZero n] (src : Nat → Source) (c : Source) (fuel : Nat) {s : PState n} (h : LoopInv s.base) (hk : Clk src s)
    (hq : 0 < s.base.cfg.queueSize) (hall : AllClk src c s.base) (i : Fin n) (e : Ev) (he : src e.id = c) :
    (∃ s', approxAdd src fuel s i e = .ok (s', false) ∧ Approx.add fuel s.base i e = .ok s'.base) ∨
    ∃ f, approxAdd src fuel s i e = .error f ∧ Approx.add fuel s.base i e = .error f := by
  obtain ⟨b1, hp, hsim, _⟩ := add_sim src fuel s h hk hq i e
  have hb : AllClk src c b1 := by
    intro j x hx
    by_cases hj : j = i
    · subst hj
      rw [hp.view_same, List.mem_append, List.mem_singleton] at hx
      rcases hx with hx | rfl
      · exact hall j x hx
      · exact he
    · rw [hp.view_ne hj] at hx; exact hall j x hx
  revert hsim
  generalize approxAdd src fuel s i e = r
  generalize Approx.add fuel s.base i e = r'
  intro hsim
  cases hsim with
  | done s' _ => exact Or.inl ⟨s', rfl, rfl⟩
  | threw s' _ hT => exact absurd hb (hT.2 c)
  | fault f => exact Or.inr ⟨f, rfl, rfl⟩

theorem reached_all {src : Nat → Source} {cfg : Approx.Cfg n} {ops : List (Fin n × Ev)} {s : PState n} (h : Reached src cfg ops s)
    {c : Source} (hc : ∀ op ∈ ops, src op.2.id = c) : AllClk src c s.base := by
  intro i x hx
  obtain ⟨q, hq, _⟩ := h.hist i
  exact hc (i, x) (mem_stream.1 (by rw [hq]; simp [hx]))

theorem approxRun_same [NeZero n] (src : Nat → Source) (c : Source) (fuel : Nat) (cfg : Approx.Cfg n) (ops : List (Fin n × Ev))
    (h : ∀ op ∈ ops, src op.2.id = c) : (approxRun src fuel cfg ops).map (·.base) = Approx.run fuel cfg ops := by
  by_cases hq : 0 < cfg.queueSize
  · unfold Approx.run Approx.runOps
    rw [Approx.construct_eq cfg hq]
    dsimp only
    have key : ∀ ops : List (Fin n × Ev), (∀ op ∈ ops, src op.2.id = c) →
        (approxRun src fuel cfg ops).map (·.base) =
          runE (Approx.step fuel) (Approx.init cfg) (ops.map (fun op => Approx.Op.add op.1 op.2)) := by
      intro ops
      induction ops using snoc_induction with
      | h0 => intro _; rw [run_pinit hq]; rfl
      | hs ops op ih =>
        intro h
        have ih := ih (fun o ho => h o (by simp [ho]))
        rw [List.map_append, runE_append, ← ih]
        cases hr : approxRun src fuel cfg ops with
        | error f =>
          rw [run_pinit hq] at hr ⊢
          rw [runE_append, hr]; rfl
        | ok s =>
          have hre := run_reached hr
          rw [run_pinit hq] at hr ⊢
          rw [runE_append, hr]
          simp only [Except.map, runE, List.map_cons, List.map_nil]
          rw [show Approx.step fuel s.base (.add op.1 op.2) = Approx.add fuel s.base op.1 op.2 from rfl]
          rcases add_same src c fuel hre.inv hre.clk (by rw [hre.cfg]; exact hq)
            (reached_all hre (fun o ho => h o (by simp [ho]))) op.1 op.2 (h op (by simp)) with ⟨s', h1, h2⟩ | ⟨f, h1, h2⟩
          · rw [h1, h2]; first | done | rfl
          · rw [h1, h2]; first | done | rfl
    exact key ops h
  · unfold approxRun approxConstruct Approx.run Approx.runOps Approx.construct
    rw [if_neg hq]; rfl

/-! ### Two inputs of different clock types -/

theorem keep_length (q : Nat) (l : List Ev) : (keep q l).length = min l.length q := by
  unfold keep; rw [List.length_drop]; omega

theorem keep_le (q : Nat) (l : List Ev) : (keep q l).length ≤ q := by
  rw [keep_length]; omega

theorem keep_snoc (q : Nat) (l : List Ev) (e : Ev) :
    keep q (l ++ [e]) = if (keep q l).length + 1 ≤ q then keep q l ++ [e] else (keep q l ++ [e]).tail := by
  rw [keep_length]
  unfold keep
  rw [List.length_append, List.length_singleton]
  split
  · have h1 : l.length - q = 0 := by omega
    have h2 : l.length + 1 - q = 0 := by omega
    rw [h1, h2]; simp
  · have h2 : l.length + 1 - q = (l.length - q) + 1 := by omega
    have h3 : l.length - q ≤ l.length := Nat.sub_le _ _
    have h4 : l.drop (l.length - q) ++ [e] = (l ++ [e]).drop (l.length - q) := (List.drop_append_of_le_length h3).symm
    rw [h2, h4, List.tail_drop]

/-- What holds while no iteration was completed: the queues are the last `queueSize` messages of the inputs. -/
structure Idle (q : Nat) (L : Fin n → List Ev) (s : Approx.State n) : Prop where
  past : ∀ i, s.past i = []
  pivot : s.pivot = none
  out : s.out = []
  qsize : s.cfg.queueSize = q
  num : s.num = nonEmpty s.deques
  deques : ∀ i, s.deques i = keep q (L i)

theorem bound_any (src : Nat → Source) (s : PState n) (i : Fin n) (h : s.base.deques i ≠ []) (hpast : s.base.past i = []) :
    ∃ w t, approxBound src s i = .ok ({ s with base := { s.base with warned := w } }, t) ∧
      (t = true → ∃ x ∈ s.base.deques i, ∃ y ∈ s.base.deques i, src x.id ≠ src y.id) := by
  unfold approxBound
  by_cases hw : s.base.warned i = true
  · rw [if_pos hw]; exact ⟨s.base.warned, false, rfl, by simp⟩
  · rw [if_neg hw]
    cases hl : (s.base.deques i).getLast? with
    | none => exact absurd (List.getLast?_eq_none_iff.1 hl) h
    | some msg =>
      dsimp only
      cases hpr : (if (s.base.deques i).length = 1 then (s.base.past i).getLast?
          else (s.base.deques i)[(s.base.deques i).length - 2]?) with
      | none => exact ⟨s.base.warned, false, rfl, by simp⟩
      | some prev =>
        have hm1 : msg ∈ s.base.deques i := List.mem_of_getLast? hl
        have hm2 : prev ∈ s.base.deques i := by
          split at hpr
          · rw [hpast] at hpr; cases hpr
          · exact List.mem_of_getElem? hpr
        dsimp only
        unfold timeLt timeSub
        by_cases hc : (timeOf src msg).source = (timeOf src prev).source
        · rw [if_pos hc, if_pos hc]
          dsimp only [orThrow]
          split
          · exact ⟨_, false, rfl, by simp⟩
          · split
            · exact ⟨_, false, rfl, by simp⟩
            · exact ⟨s.base.warned, false, rfl, by simp⟩
        · rw [if_neg hc]
          exact ⟨s.base.warned, true, rfl, fun _ => ⟨msg, hm1, prev, hm2, hc⟩⟩

theorem process_throws [NeZero n] (src : Nat → Source) (fuel : Nat) (hf : 0 < fuel) (s : PState n) (hn : s.base.num = n)
    (hne : ∀ i, s.base.deques i ≠ []) (hd : ∃ i j, fc src s.base.deques i ≠ fc src s.base.deques j) :
    approxProcess src fuel s = .ok (s, true) := by
  obtain ⟨k, rfl⟩ : ∃ k, fuel = k + 1 := ⟨fuel - 1, by omega⟩
  unfold approxProcess
  rw [if_pos hn]
  have : approxIteration src k s = .ok (s, true) := by
    unfold approxIteration
    rcases boundary_cases src s.base.deques (Nat.pos_of_ne_zero (NeZero.ne n)) hne true with ⟨h1, _⟩ | ⟨m, c, h1, _, h3⟩
    · rw [h1]; rfl
    · obtain ⟨i, j, hij⟩ := hd
      exact absurd (by rw [h3 i, h3 j]) hij
  rw [this]

theorem idle_limit {q : Nat} {L : Fin n → List Ev} {s : Approx.State n} (hs : Idle q L s) (i : Fin n) (e : Ev) :
    ∀ l, l = s.deques i ++ [e] → l.length ≤ q → l = keep q (L i ++ [e]) := by
  intro l hl hle
  rw [keep_snoc, ← hs.deques i, if_pos, hl]
  rw [hl] at hle; simpa using hle

theorem fc_mem (src : Nat → Source) (d : Fin n → List Ev) (i : Fin n) (h : d i ≠ []) : ∃ x ∈ d i, fc src d i = src x.id := by
  obtain ⟨x, tl, hx⟩ := List.exists_cons_of_ne_nil h
  exact ⟨x, by rw [hx]; simp, by unfold fc; rw [hx]; rfl⟩

theorem approxAdd_idle [NeZero n] (src : Nat → Source) (clk : Fin n → Source) (a b : Fin n) (hab : clk a ≠ clk b) (fuel q : Nat)
    (hfuel : 0 < fuel) (hq : 0 < q) {L : Fin n → List Ev} {s : PState n} (hs : Idle q L s.base) (hL : ∀ i, ∀ x ∈ L i, src x.id = clk i)
    (i : Fin n) (e : Ev) (he : src e.id = clk i) :
    ∃ s' t, approxAdd src fuel s i e = .ok (s', t) ∧ Idle q (upd L i (L i ++ [e])) s'.base ∧
      (t = true ↔ s.base.deques i = [] ∧ ∀ j, j ≠ i → s.base.deques j ≠ []) := by
  have hview : view s.base = s.base.deques := by funext j; unfold view; rw [hs.past j]; rfl
  have hnum := Approx.push_num hs.num i e
  have hclk : ∀ j, ∀ x ∈ upd s.base.deques i (s.base.deques i ++ [e]) j, src x.id = clk j := by
    have hold : ∀ j, ∀ x ∈ s.base.deques j, src x.id = clk j := by
      intro j x hx
      rw [hs.deques j] at hx
      exact hL j x (List.mem_of_mem_drop hx)
    intro j x hx
    by_cases hj : j = i
    · subst hj
      rw [upd_same, List.mem_append, List.mem_singleton] at hx
      rcases hx with hx | hx
      · exact hold j x hx
      · rw [hx]; exact he
    · rw [upd_ne _ _ hj] at hx; exact hold j x hx
  have hsmall : (s.base.deques i).length + 1 ≤ q →
      ∀ j, upd s.base.deques i (s.base.deques i ++ [e]) j = keep q (upd L i (L i ++ [e]) j) := by
    intro hle j
    by_cases hj : j = i
    · subst hj
      rw [upd_same, upd_same]
      exact idle_limit hs j e _ rfl (by simpa using hle)
    · rw [upd_ne _ _ hj, upd_ne _ _ hj]; exact hs.deques j
  unfold approxAdd approxAddPush
  dsimp only
  by_cases hemp : s.base.deques i = []
  · have hlen : (upd s.base.deques i (s.base.deques i ++ [e]) i).length = 1 := by rw [upd_same, hemp]; rfl
    rw [if_pos hlen]
    rw [hemp] at hnum
    simp only [List.isEmpty_nil, if_true, List.nil_append] at hnum
    by_cases hn : s.base.num + 1 = (n : Int)
    · rw [if_pos hn]
      have hall : ∀ j, upd s.base.deques i (s.base.deques i ++ [e]) j ≠ [] := by
        apply (nonEmpty_eq_iff _).1
        rw [hemp]
        rw [← hnum] at hn
        exact_mod_cast hn
      rw [process_throws src fuel hfuel _ hn hall ⟨a, b, by
        obtain ⟨x, hx, h1⟩ := fc_mem src _ a (hall a)
        obtain ⟨y, hy, h2⟩ := fc_mem src _ b (hall b)
        rw [h1, h2, hclk a x hx, hclk b y hy]; exact hab⟩]
      refine ⟨_, true, rfl, ⟨hs.past, hs.pivot, hs.out, hs.qsize, ?_, hsmall (by rw [hemp]; exact hq)⟩, ?_⟩
      · dsimp only; rw [hemp]; exact hnum.symm
      · refine ⟨fun _ => ⟨hemp, fun j hj => ?_⟩, fun _ => rfl⟩
        have := hall j
        rwa [upd_ne _ _ hj] at this
    · rw [if_neg hn]
      unfold approxAddLimit
      dsimp only
      rw [if_neg (by rw [hlen, hs.past i, hs.qsize]; simp; omega)]
      refine ⟨_, false, rfl, ⟨hs.past, hs.pivot, hs.out, hs.qsize, ?_, hsmall (by rw [hemp]; exact hq)⟩, ?_⟩
      · dsimp only; rw [hemp]; exact hnum.symm
      · refine ⟨(fun h => by cases h), ?_⟩
        rintro ⟨_, hall⟩
        exfalso
        apply hn
        rw [← hnum]
        have : nonEmpty (upd s.base.deques i [e]) = n := by
          apply (nonEmpty_eq_iff _).2
          intro j
          by_cases hj : j = i
          · subst hj; rw [upd_same]; simp
          · rw [upd_ne _ _ hj]; exact hall j hj
        rw [this]
  · have hlen : ¬ (upd s.base.deques i (s.base.deques i ++ [e]) i).length = 1 := by
      intro h; rw [upd_same] at h; apply hemp; apply List.eq_nil_of_length_eq_zero; simpa using h
    rw [if_neg hlen]
    have hnum' : (nonEmpty (upd s.base.deques i (s.base.deques i ++ [e])) : Int) = s.base.num := by
      rw [hnum]
      cases hd : s.base.deques i with
      | nil => exact absurd hd hemp
      | cons x tl => simp
    obtain ⟨w, t, hw, ht⟩ := bound_any src { s with base := { s.base with deques := upd s.base.deques i (s.base.deques i ++ [e]) } } i
      (by dsimp only; rw [upd_same]; simp) (hs.past i)
    have htf : t = false := by
      cases t with
      | false => rfl
      | true =>
        obtain ⟨x, hx, y, hy, hne⟩ := ht rfl
        exact absurd (by rw [hclk i x hx, hclk i y hy]) hne
    subst htf
    rw [hw]
    unfold approxAddLimit
    dsimp only
    have hnot : ∀ b : Bool, b = false → (b = true ↔ s.base.deques i = [] ∧ ∀ j, j ≠ i → s.base.deques j ≠ []) := by
      intro b hb
      exact ⟨(fun h => by rw [hb] at h; cases h), fun h => absurd h.1 hemp⟩
    by_cases hbig : (upd s.base.deques i (s.base.deques i ++ [e]) i).length + (s.base.past i).length > s.base.cfg.queueSize
    · have hre := recoverAll_eq { s.base with deques := upd s.base.deques i (s.base.deques i ++ [e]), warned := w }
      dsimp only at hre
      rw [if_pos hbig, hre]
      have hv : view { s.base with deques := upd s.base.deques i (s.base.deques i ++ [e]), warned := w } =
          upd s.base.deques i (s.base.deques i ++ [e]) := by
        funext j; unfold view; dsimp only; rw [hs.past j]; rfl
      rw [hv]
      dsimp only
      rw [upd_same]
      obtain ⟨x, tl, hx⟩ := List.exists_cons_of_ne_nil hemp
      rw [hx]
      simp only [List.cons_append]
      rw [if_pos hs.pivot]
      refine ⟨_, false, rfl, ⟨fun _ => rfl, hs.pivot, hs.out, hs.qsize, ?_, ?_⟩, hx ▸ hnot _ rfl⟩
      · dsimp only
        have hc : ∀ j, (upd (upd s.base.deques i (x :: (tl ++ [e]))) i (tl ++ [e]) j).isEmpty =
            (upd s.base.deques i (x :: (tl ++ [e])) j).isEmpty := by
          intro j
          by_cases hj : j = i
          · subst hj; rw [upd_same, upd_same]; simp
          · rw [upd_ne _ _ hj]
        unfold nonEmpty
        simp only [hc]
      · intro j
        dsimp only
        by_cases hj : j = i
        · subst hj
          rw [upd_same, upd_same, keep_snoc, ← hs.deques j, if_neg]
          · rw [hx]; rfl
          · rw [upd_same, hs.past j, hs.qsize] at hbig
            simp only [List.length_append, List.length_singleton, List.length_nil] at hbig; omega
        · rw [upd_ne _ _ hj, upd_ne _ _ hj, upd_ne _ _ hj]; exact hs.deques j
    · rw [if_neg hbig]
      refine ⟨_, false, rfl, ⟨hs.past, hs.pivot, hs.out, hs.qsize, ?_, ?_⟩, hnot _ rfl⟩
      · dsimp only; exact hnum'.symm
      · apply hsmall
        rw [upd_same, hs.past i, hs.qsize] at hbig
        simp only [List.length_append, List.length_singleton, List.length_nil] at hbig; omega

theorem approxRun_snoc [NeZero n] {src : Nat → Source} {fuel : Nat} {cfg : Approx.Cfg n} (hq : 0 < cfg.queueSize)
    {ops : List (Fin n × Ev)} {s s' : PState n} {t : Bool} {i : Fin n} {e : Ev} (h : approxRun src fuel cfg ops = .ok s)
    (ha : approxAdd src fuel s i e = .ok (s', t)) : approxRun src fuel cfg (ops ++ [(i, e)]) = .ok s' := by
  rw [run_pinit hq] at h ⊢
  rw [runE_append, h]
  simp only [runE]
  rw [ha]; rfl

theorem approxRun_idle [NeZero n] (src : Nat → Source) (clk : Fin n → Source) (a b : Fin n) (hab : clk a ≠ clk b) (fuel : Nat)
    (hfuel : 0 < fuel) (cfg : Approx.Cfg n) (hq : 0 < cfg.queueSize) (ops : List (Fin n × Ev)) (h : Fixed src clk ops) :
    ∃ s, approxRun src fuel cfg ops = .ok s ∧ Idle cfg.queueSize (stream ops) s.base := by
  induction ops using snoc_induction with
  | h0 =>
    refine ⟨pinit cfg, by rw [run_pinit hq]; rfl, ⟨fun _ => rfl, rfl, rfl, rfl, ?_, fun i => ?_⟩⟩
    · exact (Approx.init_inv cfg hq).loop.num
    · rw [stream_nil]; simp [keep, pinit, Approx.init]
  | hs ops op ih =>
    obtain ⟨s, h1, h2⟩ := ih (fun o ho => h o (by simp [ho]))
    obtain ⟨s', t, g1, g2, _⟩ := approxAdd_idle src clk a b hab fuel _ hfuel hq h2
      (fun i x hx => h (i, x) (by simp [mem_stream.1 hx])) op.1 op.2 (h op (by simp))
    refine ⟨s', approxRun_snoc hq h1 g1, ?_⟩
    rw [show op = (op.1, op.2) from rfl, Approx.stream_snoc]; exact g2

/-! ### A policy that has been stopped -/

/-- No candidate set is pending although every input has a message. -/
structure Stuck (s : PState n) : Prop where
  inv : LoopInv s.base
  pivot : s.base.pivot = none
  all : ∀ i, s.base.deques i ≠ []

theorem stuck_add [NeZero n] (src : Nat → Source) (fuel : Nat) {s : PState n} (hs : Stuck s) (hq : 0 < s.base.cfg.queueSize)
    (i : Fin n) (e : Ev) :
    ∃ s' t, approxAdd src fuel s i e = .ok (s', t) ∧ Stuck s' ∧ s'.base.out = s.base.out ∧ s'.base.cfg = s.base.cfg := by
  have hpast := hs.inv.noPivot hs.pivot
  have hnum := Approx.push_num hs.inv.num i e
  have hemp := hs.all i
  have hnum' : (nonEmpty (upd s.base.deques i (s.base.deques i ++ [e])) : Int) = s.base.num := by
    rw [hnum]
    cases hd : s.base.deques i with
    | nil => exact absurd hd hemp
    | cons x tl => simp
  have hall : ∀ j, upd s.base.deques i (s.base.deques i ++ [e]) j ≠ [] := by
    intro j
    by_cases hj : j = i
    · subst hj; rw [upd_same]; simp
    · rw [upd_ne _ _ hj]; exact hs.all j
  have hlen : ¬ (upd s.base.deques i (s.base.deques i ++ [e]) i).length = 1 := by
    intro h; rw [upd_same] at h; apply hemp; apply List.eq_nil_of_length_eq_zero; simpa using h
  unfold approxAdd approxAddPush
  dsimp only
  rw [if_neg hlen]
  obtain ⟨w, t, hw, _⟩ := bound_any src { s with base := { s.base with deques := upd s.base.deques i (s.base.deques i ++ [e]) } } i
    (hall i) (hpast i)
  rw [hw]
  have hst : Stuck { s with base := { s.base with deques := upd s.base.deques i (s.base.deques i ++ [e]), warned := w } } := by
    refine ⟨⟨hnum'.symm, fun _ => hpast, fun p hp => ?_⟩, hs.pivot, hall⟩
    dsimp only at hp; rw [hs.pivot] at hp; cases hp
  cases t with
  | true => exact ⟨_, true, rfl, hst, rfl, rfl⟩
  | false =>
    unfold approxAddLimit
    dsimp only
    split
    · rename_i hbig
      have hre := recoverAll_eq { s.base with deques := upd s.base.deques i (s.base.deques i ++ [e]), warned := w }
      dsimp only at hre
      rw [hre]
      have hv : view { s.base with deques := upd s.base.deques i (s.base.deques i ++ [e]), warned := w } =
          upd s.base.deques i (s.base.deques i ++ [e]) := by
        funext j; unfold view; dsimp only; rw [hpast j]; rfl
      rw [hv]
      dsimp only
      rw [upd_same]
      obtain ⟨x, tl, hx⟩ := List.exists_cons_of_ne_nil hemp
      rw [hx]
      simp only [List.cons_append]
      rw [if_pos hs.pivot]
      have hall2 : ∀ j, upd (upd s.base.deques i (x :: (tl ++ [e]))) i (tl ++ [e]) j ≠ [] := by
        intro j
        by_cases hj : j = i
        · subst hj; rw [upd_same]; simp
        · rw [upd_ne _ _ hj, upd_ne _ _ hj]; exact hs.all j
      refine ⟨_, false, rfl, ⟨⟨?_, fun _ _ => rfl, fun p hp => ?_⟩, hs.pivot, hall2⟩, rfl, rfl⟩
      · dsimp only
        rw [(nonEmpty_eq_iff _).2 hall2, (nonEmpty_eq_iff (upd s.base.deques i (x :: (tl ++ [e])))).2 (by
          intro j
          by_cases hj : j = i
          · subst hj; rw [upd_same]; simp
          · rw [upd_ne _ _ hj]; exact hs.all j)]
      · dsimp only at hp; rw [hs.pivot] at hp; cases hp
    · exact ⟨_, false, rfl, hst, rfl, rfl⟩

theorem stuck_run [NeZero n] (src : Nat → Source) (fuel : Nat) (ops : List (Fin n × Ev)) : ∀ {s : PState n}, Stuck s →
    0 < s.base.cfg.queueSize →
    ∃ s', runE (fun s op => (approxAdd src fuel s op.1 op.2).map (·.1)) s ops = .ok s' ∧ Stuck s' ∧ s'.base.out = s.base.out := by
  induction ops with
  | nil => intro s hs _; exact ⟨s, rfl, hs, rfl⟩
  | cons op ops ih =>
    intro s hs hq
    obtain ⟨s1, t, h1, h2, h3, h4⟩ := stuck_add src fuel hs hq op.1 op.2
    obtain ⟨s2, g1, g2, g3⟩ := ih h2 (by rw [h4]; exact hq)
    refine ⟨s2, ?_, g2, by rw [g3, h3]⟩
    simp only [runE]
    rw [h1]
    exact g1

/-! ### Inputs that have not overflowed while one input is silent -/

/-- Everything sent is held. -/
structure Whole (L : Fin n → List Ev) (s : Approx.State n) : Prop where
  past : ∀ i, s.past i = []
  pivot : s.pivot = none
  out : s.out = []
  num : s.num = nonEmpty s.deques
  deques : ∀ i, s.deques i = L i

theorem whole_add [NeZero n] (src : Nat → Source) (fuel : Nat) {L : Fin n → List Ev} {s : PState n} (hs : Whole L s.base)
    (i k : Fin n) (hik : i ≠ k) (hk : L k = []) (e : Ev)
    (hlim : (L i).length + 1 ≤ s.base.cfg.queueSize ∨
      (s.base.warned i = false ∧ ∃ x, (L i).getLast? = some x ∧ src x.id ≠ src e.id)) :
    ∃ s' t, approxAdd src fuel s i e = .ok (s', t) ∧ Whole (upd L i (L i ++ [e])) s'.base ∧ s'.base.cfg = s.base.cfg ∧
      (s.base.warned i = false → (∀ x, (L i).getLast? = some x → src x.id ≠ src e.id) → s'.base.warned i = false) := by
  have hnum := Approx.push_num hs.num i e
  have hdeq : ∀ j, upd s.base.deques i (s.base.deques i ++ [e]) j = upd L i (L i ++ [e]) j := by
    intro j
    by_cases hj : j = i
    · subst hj; rw [upd_same, upd_same, hs.deques j]
    · rw [upd_ne _ _ hj, upd_ne _ _ hj, hs.deques j]
  have hkne : (nonEmpty (upd s.base.deques i (s.base.deques i ++ [e])) : Int) ≠ n := by
    intro h
    have := (nonEmpty_eq_iff _).1 (by exact_mod_cast h) k
    rw [hdeq, upd_ne _ _ (Ne.symm hik)] at this
    exact this hk
  unfold approxAdd approxAddPush
  dsimp only
  by_cases hemp : s.base.deques i = []
  · have hlen : (upd s.base.deques i (s.base.deques i ++ [e]) i).length = 1 := by rw [upd_same, hemp]; rfl
    rw [if_pos hlen]
    have hn1 : (nonEmpty (upd s.base.deques i (s.base.deques i ++ [e])) : Int) = s.base.num + 1 := by
      rw [hnum, hemp]; simp
    rw [if_neg (by rw [← hn1]; exact hkne)]
    unfold approxAddLimit
    dsimp only
    have hle : (L i).length + 1 ≤ s.base.cfg.queueSize := by
      rcases hlim with h | ⟨_, x, hx, _⟩
      · exact h
      · rw [← hs.deques i, hemp] at hx; cases hx
    rw [if_neg (by rw [hlen, hs.past i]; simp; omega)]
    exact ⟨_, false, rfl, ⟨hs.past, hs.pivot, hs.out, hn1.symm, hdeq⟩, rfl, fun h _ => h⟩
  · have hlen : ¬ (upd s.base.deques i (s.base.deques i ++ [e]) i).length = 1 := by
      intro h; rw [upd_same] at h; apply hemp; apply List.eq_nil_of_length_eq_zero; simpa using h
    rw [if_neg hlen]
    have hnum' : (nonEmpty (upd s.base.deques i (s.base.deques i ++ [e])) : Int) = s.base.num := by
      rw [hnum]
      cases hd : s.base.deques i with
      | nil => exact absurd hd hemp
      | cons x tl => simp
    have hthrow : s.base.warned i = false → ∀ x, (L i).getLast? = some x → src x.id ≠ src e.id →
        approxBound src { s with base := { s.base with deques := upd s.base.deques i (s.base.deques i ++ [e]) } } i =
          .ok ({ s with base := { s.base with deques := upd s.base.deques i (s.base.deques i ++ [e]) } }, true) := by
      intro hw x hx hne
      unfold approxBound
      dsimp only
      rw [if_neg (by rw [hw]; simp), show (upd s.base.deques i (s.base.deques i ++ [e]) i).getLast? = some e from by
        rw [upd_same, List.getLast?_concat]]
      dsimp only
      rw [if_neg hlen]
      have : (upd s.base.deques i (s.base.deques i ++ [e]) i)[(upd s.base.deques i (s.base.deques i ++ [e]) i).length - 2]? = some x := by
        rw [upd_same]
        rw [← hs.deques i, List.getLast?_eq_getElem?] at hx
        have hpos : 0 < (s.base.deques i).length := by
          cases hd : s.base.deques i with
          | nil => exact absurd hd hemp
          | cons x tl => simp
        rw [List.length_append, List.length_singleton,
          show (s.base.deques i).length + 1 - 2 = (s.base.deques i).length - 1 by omega,
          List.getElem?_append_left (by omega)]
        exact hx
      rw [this]
      dsimp only
      unfold timeLt
      rw [if_neg (by exact fun h => hne h.symm)]
      rfl
    by_cases hth : s.base.warned i = false ∧ ∃ x, (L i).getLast? = some x ∧ src x.id ≠ src e.id
    · obtain ⟨hw, x, hx, hne⟩ := hth
      rw [hthrow hw x hx hne]
      exact ⟨_, true, rfl, ⟨hs.past, hs.pivot, hs.out, hnum'.symm, hdeq⟩, rfl, fun h _ => h⟩
    · have hle : (L i).length + 1 ≤ s.base.cfg.queueSize := by
        rcases hlim with h | h
        · exact h
        · exact absurd h hth
      obtain ⟨w, t, hw, _⟩ := bound_any src { s with base := { s.base with deques := upd s.base.deques i (s.base.deques i ++ [e]) } } i
        (by dsimp only; rw [upd_same]; simp) (hs.past i)
      have hcl : s.base.warned i = false → (∀ x, (L i).getLast? = some x → src x.id ≠ src e.id) → w i = false := by
        intro h1 h2
        exfalso
        obtain ⟨x, hx⟩ : ∃ x, (L i).getLast? = some x := by
          cases hgl : (L i).getLast? with
          | none => rw [← hs.deques i] at hgl; exact absurd (List.getLast?_eq_none_iff.1 hgl) hemp
          | some x => exact ⟨x, rfl⟩
        exact hth ⟨h1, x, hx, h2 x hx⟩
      rw [hw]
      cases t with
      | true => exact ⟨_, true, rfl, ⟨hs.past, hs.pivot, hs.out, hnum'.symm, hdeq⟩, rfl, hcl⟩
      | false =>
        unfold approxAddLimit
        dsimp only
        rw [if_neg (by rw [upd_same, hs.past i, List.length_append, hs.deques i]; simp; omega)]
        exact ⟨_, false, rfl, ⟨hs.past, hs.pivot, hs.out, hnum'.symm, hdeq⟩, rfl, hcl⟩

theorem whole_init [NeZero n] (cfg : Approx.Cfg n) (hq : 0 < cfg.queueSize) : Whole (fun _ => []) (pinit cfg).base :=
  ⟨fun _ => rfl, rfl, rfl, (Approx.init_inv cfg hq).loop.num, fun _ => rfl⟩

/-- While one input is silent and no input got more than the queue size, everything is held. -/
theorem whole_run [NeZero n] (src : Nat → Source) (fuel : Nat) (cfg : Approx.Cfg n) (hq : 0 < cfg.queueSize) (k : Fin n)
    (ops : List (Fin n × Ev)) : stream ops k = [] → (∀ i, (stream ops i).length ≤ cfg.queueSize) →
    ∃ s, approxRun src fuel cfg ops = .ok s ∧ Whole (stream ops) s.base ∧ s.base.cfg = cfg := by
  induction ops using snoc_induction with
  | h0 =>
    intro _ _
    refine ⟨pinit cfg, by rw [run_pinit hq]; rfl, ?_, rfl⟩
    rw [show stream ([] : List (Fin n × Ev)) = fun _ => [] from funext (fun i => stream_nil i)]
    exact whole_init cfg hq
  | hs ops op ih =>
    obtain ⟨i, e⟩ := op
    intro h1 h2
    rw [Approx.stream_snoc] at h1 h2 ⊢
    have hik : i ≠ k := by
      intro h; subst h; rw [upd_same] at h1; simp at h1
    rw [upd_ne _ _ (Ne.symm hik)] at h1
    obtain ⟨s, g1, g2, g3⟩ := ih h1 (by
      intro j
      have := h2 j
      by_cases hj : j = i
      · subst hj; rw [upd_same] at this; simp at this; omega
      · rwa [upd_ne _ _ hj] at this)
    have hl := h2 i
    rw [upd_same] at hl
    obtain ⟨s', t, k1, k2, k3, _⟩ := whole_add src fuel g2 i k hik h1 e (Or.inl (by rw [g3]; simpa using hl))
    exact ⟨s', approxRun_snoc hq g1 k1, k2, by rw [k3, g3]⟩

/-- The call that brings the last missing message when the oldest messages are of different clock types. -/
theorem whole_full [NeZero n] (src : Nat → Source) (fuel : Nat) (hf : 0 < fuel) {L : Fin n → List Ev} {s : PState n}
    (hs : Whole L s.base) (i : Fin n) (e : Ev) (hi : L i = []) (hothers : ∀ j, j ≠ i → L j ≠ []) (a b : Fin n) (x y : Ev)
    (hx : (upd L i (L i ++ [e]) a).head? = some x) (hy : (upd L i (L i ++ [e]) b).head? = some y) (hne : src x.id ≠ src y.id) :
    ∃ s', approxAdd src fuel s i e = .ok (s', true) ∧ Stuck s' ∧ s'.base.out = [] ∧ s'.base.cfg = s.base.cfg := by
  have hdeq : upd s.base.deques i (s.base.deques i ++ [e]) = upd L i (L i ++ [e]) := by
    funext j
    by_cases hj : j = i
    · subst hj; rw [upd_same, upd_same, hs.deques j]
    · rw [upd_ne _ _ hj, upd_ne _ _ hj, hs.deques j]
  have hall : ∀ j, upd s.base.deques i (s.base.deques i ++ [e]) j ≠ [] := by
    intro j
    rw [hdeq]
    by_cases hj : j = i
    · subst hj; rw [upd_same]; simp
    · rw [upd_ne _ _ hj]; exact hothers j hj
  have hnum := Approx.push_num hs.num i e
  have hn1 : (nonEmpty (upd s.base.deques i (s.base.deques i ++ [e])) : Int) = s.base.num + 1 := by
    rw [hnum, hs.deques i, hi]; simp
  have hn : s.base.num + 1 = (n : Int) := by rw [← hn1, (nonEmpty_eq_iff _).2 hall]
  unfold approxAdd approxAddPush
  dsimp only
  rw [if_pos (by rw [upd_same, hs.deques i, hi]; rfl), if_pos hn]
  rw [process_throws src fuel hf _ hn hall ⟨a, b, by
    dsimp only
    rw [hdeq]
    unfold fc
    rw [List.headD_eq_head?_getD, List.headD_eq_head?_getD, hx, hy]; exact hne⟩]
  refine ⟨_, rfl, ⟨⟨hn1.symm, fun _ => hs.past, fun p hp => ?_⟩, hs.pivot, hall⟩, hs.out, rfl⟩
  dsimp only at hp; rw [hs.pivot] at hp; cases hp

/-- Messages of one input whose neighbours are of different clock types are all kept. -/
theorem alternating_run [NeZero n] (src : Nat → Source) (fuel : Nat) (cfg : Approx.Cfg n) (hq : 0 < cfg.queueSize) (i k : Fin n)
    (hik : i ≠ k) (l : List Ev) : (∀ p x y q, l = p ++ x :: y :: q → src x.id ≠ src y.id) →
    ∃ s, approxRun src fuel cfg (l.map (fun e => (i, e))) = .ok s ∧ Whole (upd (fun _ => []) i l) s.base ∧
      s.base.warned i = false ∧ s.base.cfg = cfg := by
  induction l using snoc_induction with
  | h0 =>
    intro _
    refine ⟨pinit cfg, by rw [run_pinit hq]; rfl, ?_, rfl, rfl⟩
    rw [show upd (fun _ => ([] : List Ev)) i [] = fun _ => [] from by
      funext j
      by_cases hj : j = i
      · subst hj; rw [upd_same]
      · rw [upd_ne _ _ hj]]
    exact whole_init cfg hq
  | hs l e ih =>
    intro h
    obtain ⟨s, g1, g2, g3, g4⟩ := ih (by
      intro p x y q hl
      exact h p x y (q ++ [e]) (by rw [hl]; simp))
    have hlast : ∀ x, (upd (fun _ => ([] : List Ev)) i l i).getLast? = some x → src x.id ≠ src e.id := by
      intro x hx
      rw [upd_same] at hx
      obtain ⟨p, hp⟩ := List.getLast?_eq_some_iff.1 hx
      exact h p x e [] (by rw [hp]; simp)
    obtain ⟨s', t, k1, k2, k3, k4⟩ := whole_add src fuel g2 i k hik (by rw [upd_ne _ _ (Ne.symm hik)]) e (by
      cases hgl : l.getLast? with
      | none =>
        left
        rw [upd_same, List.getLast?_eq_none_iff.1 hgl, g4]
        show 1 ≤ _
        exact hq
      | some x =>
        right
        exact ⟨g3, x, by rw [upd_same]; exact hgl, hlast x (by rw [upd_same]; exact hgl)⟩)
    refine ⟨s', ?_, ?_, k4 g3 hlast, by rw [k3, g4]⟩
    · rw [List.map_append]
      exact approxRun_snoc hq g1 k1
    · rw [upd_same] at k2
      have : upd (upd (fun _ => ([] : List Ev)) i l) i (l ++ [e]) = upd (fun _ => []) i (l ++ [e]) := by
        funext j
        by_cases hj : j = i
        · subst hj; rw [upd_same, upd_same]
        · rw [upd_ne _ _ hj, upd_ne _ _ hj, upd_ne _ _ hj]
      rw [← this]; exact k2

end MF.ClockMix
