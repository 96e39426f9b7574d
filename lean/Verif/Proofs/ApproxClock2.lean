import Verif.Proofs.ApproxClock1
/-
Helper lemmas about ApproximateTime under messages of different clock types, part 2: the virtual search, `process`.
-/
namespace MF.ClockMix
open Approx (view st vt CandInv LoopInv moved published cleared candidated deleted fresh kept better Examined After PStep PSteps Hist mu)
open Epsilon (nonEmpty nonEmpty_eq_iff)

variable {n : Nat}

theorem clk_published {src : Nat → Source} {s : PState n} (hk : Clk src s) (hp : s.base.pivot ≠ none) :
    Clk src { s with base := published s.base } := by
  refine ⟨?_, fun h => absurd rfl h⟩
  intro t ht
  rcases List.mem_append.1 (show t ∈ s.base.out ++ [s.base.cand] from ht) with ht | ht
  · exact hk.out t ht
  · rw [List.mem_singleton] at ht
    subst ht
    exact ⟨s.pivotSrc, (hk.cur hp).2.2⟩

theorem sim_publish {src : Nat → Source} {T : PState n → Prop} {s : PState n} (hk : Clk src s) (hp : s.base.pivot ≠ none)
    (hv : ∀ i, view s.base i ≠ []) : Sim (Clk src) T (lift s (Approx.publishCandidate s.base)) (Approx.publishCandidate s.base) := by
  rw [Approx.publish_eq s.base hv]
  exact .done { s with base := published s.base } (clk_published hk hp)

theorem search_sim [NeZero n] (src : Nat → Source) (fuel : Nat) (before : Int) : ∀ (moves : Fin n → Nat) (s : PState n) (p : Fin n)
    (cd : Fin n → Ev), s.base.num = nonEmpty s.base.deques → CandInv s.base p cd → s.base.past p = [] →
    (∀ i, moves i ≤ (s.base.past i).length) → Clk src s →
    Sim (Clk src) (Cut src s) (approxSearch src fuel before moves s) (Approx.virtualSearch fuel before moves s.base) := by
  induction fuel with
  | zero => intro moves s p cd _ _ _ _ _; exact .fault _
  | succ fuel ih =>
    intro moves s p cd hnum hc hpast hmv hk
    have hne : ∀ i, view s.base i ≠ [] := by
      intro i; obtain ⟨tl, h⟩ := hc.head i; rw [h]; simp
    have hpv : s.base.pivot ≠ none := by rw [hc.pivot]; simp
    have hinv : LoopInv s.base := by
      refine ⟨hnum, fun h => absurd h hpv, ?_⟩
      intro q hq
      rw [hc.pivot] at hq; cases hq
      exact ⟨cd, hc, hpast⟩
    have hcut : (∀ c, s.pivotSrc = c → ¬ AllClk src c s.base) → Cut src s s := by
      intro h
      refine Cut.self hinv hk ?_
      intro c hall
      exact h c (pivotSrc_of_all hk hinv hall hpv).1 hall
    obtain ⟨hcs, hce, _⟩ := hk.cur hpv
    have hvp : vt s.base p = s.base.pivotTime := by
      obtain ⟨tl, h⟩ := hc.head p
      unfold Approx.view at h; rw [hpast] at h
      unfold vt; rw [show s.base.deques p = cd p :: tl from h]; exact hc.pivotTime
    unfold approxSearch Approx.virtualSearch
    rcases virtualBoundary_cases src s true hpv hne with ⟨h1, h2⟩ | ⟨e, ce, he1, he2, he3, he4⟩
    · rw [h1]; exact .threw s _ (hcut h2)
    rcases virtualBoundary_cases src s false hpv hne with ⟨h1, h2⟩ | ⟨m, cm, hm1, hm2, hm3, hm4⟩
    · rw [he1, h1]; exact .threw s _ (hcut h2)
    rw [he1, hm1, he2, hm2]
    simp only [if_true] at he3
    simp only [Bool.false_eq_true, if_false] at hm3
    show Sim (Clk src) (Cut src s) (orThrow s (timeSub ⟨vt s.base e, ce⟩ s.candEnd) _) _
    apply sim_sub
    · intro h
      apply hcut
      intro c h3 h4
      apply h
      show ce = s.endSrc
      rw [he4 c h3 h4, hce, h3]
    intro _
    apply sim_sub
    · intro h; exact absurd hcs.symm h
    intro _
    show Sim (Clk src) (Cut src s)
      (if s.base.cfg.scale (vt s.base e - s.base.candEnd) ≥ s.base.pivotTime - s.base.candStart then _ else _)
      (if s.base.cfg.scale (vt s.base e - s.base.candEnd) ≥ s.base.pivotTime - s.base.candStart then _ else _)
    by_cases hg : s.base.cfg.scale (vt s.base e - s.base.candEnd) ≥ s.base.pivotTime - s.base.candStart
    · rw [if_pos hg, if_pos hg]
      exact sim_publish hk hpv hne
    rw [if_neg hg, if_neg hg]
    apply sim_sub
    · intro h
      apply hcut
      intro c h3 h4
      apply h
      show cm = s.startSrc
      rw [hm4 c h3 h4, hcs, h3]
    intro hms
    have hms' : cm = s.startSrc := hms
    show Sim (Clk src) (Cut src s)
      (if s.base.cfg.scale (vt s.base e - s.base.candEnd) < vt s.base m - s.base.candStart then _ else _)
      (if s.base.cfg.scale (vt s.base e - s.base.candEnd) < vt s.base m - s.base.candStart then _ else _)
    by_cases hl : s.base.cfg.scale (vt s.base e - s.base.candEnd) < vt s.base m - s.base.candStart
    · rw [if_pos hl, if_pos hl]
      unfold cleanUp
      rw [Approx.recoverAllN_eq moves s.base hmv]
      dsimp only
      split
      · exact .done { s with base := Approx.restored moves s.base } ⟨hk.out, hk.cur⟩
      · exact .fault _
    rw [if_neg hl, if_neg hl]
    have hlt : vt s.base m < s.base.pivotTime := by omega
    have hmp : ¬ some m = s.base.pivot := by
      rw [hc.pivot]; intro h; cases h; omega
    rw [if_neg hmp, if_neg hmp]
    apply sim_lt
    · intro h; exact absurd (show cm = s.pivotSrc by rw [hms', hcs]) h
    intro _
    show Sim (Clk src) (Cut src s) (if decide (vt s.base m < s.base.pivotTime) = false then _ else _) _
    rw [if_neg (by simpa using hlt), if_neg (by omega)]
    have hdm : s.base.deques m ≠ [] := by
      intro h0
      unfold vt at hlt
      rw [h0] at hlt
      simp only at hlt
      cases hla : (s.base.past m).getLast? with
      | none =>
        rw [List.getLast?_eq_none_iff] at hla
        exact hne m (by simp [Approx.view, hla, h0])
      | some last => rw [hla] at hlt; simp only at hlt; split at hlt <;> omega
    rw [Approx.move_eq s.base m hnum hdm]
    dsimp only
    have hmp' : p ≠ m := by intro h; subst h; exact hmp hc.pivot.symm
    have hrec := ih (upd moves m (moves m + 1)) { s with base := moved s.base m } p cd (by rfl) (Approx.moved_candInv hc m)
      (by simp only [moved]; rw [upd_ne _ _ hmp']; exact hpast) (by
        intro i
        by_cases hi : i = m
        · subst hi
          cases hd : s.base.deques i with
          | nil => exact absurd hd hdm
          | cons x tl => simp [moved, hd]; exact hmv i
        · simp [moved, upd_ne _ _ hi]; exact hmv i) ⟨hk.out, hk.cur⟩
    refine hrec.imp (fun _ h => h) ?_
    intro t ht
    refine ⟨ht.inv, ht.clk, ?_, ht.out, ht.cfg, ?_⟩
    · have := ht.view
      dsimp only at this
      rw [Approx.view_moved] at this
      exact this
    · intro c hall
      apply ht.mixed c
      unfold AllClk at hall ⊢
      dsimp only
      rw [Approx.view_moved]
      exact hall

/-- The part of an iteration after the examination. -/
theorem conclude_sim [NeZero n] (src : Nat → Source) (fuel : Nat) (et : Time) (m p : Fin n) (s : PState n) (cd : Fin n → Ev)
    (hnum : s.base.num = nonEmpty s.base.deques) (hc : CandInv s.base p cd) (hpast : p ≠ m → s.base.past p = []) (hk : Clk src s)
    (het : et.source = s.endSrc) :
    Sim (Clk src) (Cut src s) (approxConclude src fuel et m s) (Approx.conclude fuel s.base et.ns m) := by
  have hne : ∀ i, view s.base i ≠ [] := by
    intro i; obtain ⟨tl, h⟩ := hc.head i; rw [h]; simp
  have hpv : s.base.pivot ≠ none := by rw [hc.pivot]; simp
  unfold approxConclude Approx.conclude
  rw [if_neg hpv, if_neg hpv]
  apply sim_sub
  · intro h; exact absurd het h
  intro _
  by_cases hm : some m = s.base.pivot
  · rw [if_pos hm, if_pos hm]
    exact sim_publish hk hpv hne
  rw [if_neg hm, if_neg hm]
  apply sim_sub
  · intro h; exact absurd (hk.cur hpv).1.symm h
  intro _
  show Sim (Clk src) (Cut src s)
    (if s.base.cfg.scale (et.ns - s.base.candEnd) ≥ s.base.pivotTime - s.base.candStart then _ else _)
    (if s.base.cfg.scale (et.ns - s.base.candEnd) ≥ s.base.pivotTime - s.base.candStart then _ else _)
  by_cases hg : s.base.cfg.scale (et.ns - s.base.candEnd) ≥ s.base.pivotTime - s.base.candStart
  · rw [if_pos hg, if_pos hg]
    exact sim_publish hk hpv hne
  rw [if_neg hg, if_neg hg]
  by_cases hn : s.base.num < n
  · rw [if_pos hn, if_pos hn]
    refine search_sim src fuel _ _ s p cd hnum hc (hpast ?_) (fun _ => Nat.zero_le _) hk
    intro h; subst h; exact hm hc.pivot.symm
  · rw [if_neg hn, if_neg hn]
    exact .done s hk

theorem front_mem {b : Approx.State n} {src : Nat → Source} {c : Source} (hd : ∀ i, b.deques i ≠ []) (h : AllClk src c b) (i : Fin n) :
    fc src b.deques i = c := by
  unfold fc
  obtain ⟨e, tl, he⟩ := List.exists_cons_of_ne_nil (hd i)
  rw [he]
  exact h i e (by unfold Approx.view; rw [he]; simp)

theorem iteration_sim [NeZero n] (src : Nat → Source) (fuel : Nat) (s : PState n) (h : LoopInv s.base) (hk : Clk src s)
    (hne : ∀ i, s.base.deques i ≠ []) :
    Sim (Clk src) (Cut src s) (approxIteration src fuel s) (Approx.iteration fuel s.base) := by
  have hn : 0 < n := Nat.pos_of_ne_zero (NeZero.ne n)
  have hcut : (∃ i j, fc src s.base.deques i ≠ fc src s.base.deques j) → Cut src s s := by
    intro ⟨i, j, hij⟩
    refine Cut.self h hk ?_
    intro c hall
    exact hij (by rw [front_mem hne hall i, front_mem hne hall j])
  unfold approxIteration Approx.iteration
  rcases boundary_cases src s.base.deques hn hne true with ⟨h1, h2⟩ | ⟨e, ce, he1, he2, he3⟩
  · rw [h1]; exact .threw s _ (hcut h2)
  rcases boundary_cases src s.base.deques hn hne false with ⟨h1, h2⟩ | ⟨m, cm, hm1, hm2, hm3⟩
  · rw [he1, h1]; exact .threw s _ (hcut h2)
  have hcc : cm = ce := by rw [← hm3 e, ← he3 e]
  subst hcc
  obtain ⟨e', he', hend⟩ := Approx.boundary s.base.deques hn hne true
  obtain ⟨m', hm', hstart⟩ := Approx.boundary s.base.deques hn hne false
  simp only [if_true] at hend
  simp only [Bool.false_eq_true, if_false] at hstart
  rw [he2] at he'; cases he'
  rw [hm2] at hm'; cases hm'
  rw [he1, hm1, he2, hm2]
  show Sim (Clk src) (Cut src s) (approxExamine (clearDropped s e) e ⟨st s.base.deques e, cm⟩ m ⟨st s.base.deques m, cm⟩
    (approxConclude src fuel ⟨st s.base.deques e, cm⟩ m)) (match Approx.examine (cleared s.base e) e (st s.base.deques e) m (st s.base.deques m) with
      | .error f => .error f
      | .ok (false, s1) => .ok s1
      | .ok (true, s1) => Approx.conclude fuel s1 (st s.base.deques e) m)
  have hkc : Clk src (clearDropped s e) := ⟨hk.out, hk.cur⟩
  -- the part after the examination
  have hconc : ∀ (s1 : PState n) (p : Fin n), Examined s.base m e p s1.base → Clk src s1 → cm = s1.endSrc →
      Sim (Clk src) (Cut src s) (approxConclude src fuel ⟨st s.base.deques e, cm⟩ m s1) (Approx.conclude fuel s1.base (st s.base.deques e) m) := by
    intro s1 p hx hk1 hs1
    have ha := Approx.examined_after h hne hstart hend hx
    obtain ⟨cd, hc⟩ := ha.candInv
    have hview := Approx.examined_view h hx
    refine (conclude_sim src fuel ⟨st s.base.deques e, cm⟩ m p s1 cd ha.num hc ha.past hk1 hs1).imp (fun _ h => h) ?_
    intro t ht
    refine ⟨ht.inv, ht.clk, ?_, by rw [ht.out, ha.out], by rw [ht.cfg, ha.cfg], ?_⟩
    · intro i
      obtain ⟨q, hq⟩ := hview i
      obtain ⟨q', hq'⟩ := ht.view i
      exact ⟨q ++ q', by rw [hq, hq', List.append_assoc]⟩
    · intro c hall
      apply ht.mixed c
      intro i x hx
      obtain ⟨q, hq⟩ := hview i
      exact hall i x (by rw [hq]; simp [hx])
  have hdel : Approx.dequeDeleteFront (cleared s.base e) m = .ok (deleted (cleared s.base e) m) :=
    Approx.delete_eq (cleared s.base e) m h.num (hne m)
  have hfront : ∀ i x, (s.base.deques i).head? = some x → src x.id = cm := by
    intro i x hx
    have := he3 i
    unfold fc at this
    cases hd : s.base.deques i with
    | nil => exact absurd hd (hne i)
    | cons y tl =>
      rw [hd] at this hx
      cases hx
      exact this
  unfold approxExamine Approx.examine
  cases hpiv : s.base.pivot with
  | none =>
    have hpiv1 : (cleared s.base e).pivot = none := hpiv
    have hpiv2 : (clearDropped s e).base.pivot = none := hpiv
    rw [hpiv1, hpiv2]
    apply sim_sub
    · intro h0; exact absurd rfl h0
    intro _
    dsimp only
    have hdelS : ∀ b : Approx.State n, Approx.dequeDeleteFront (cleared s.base e) m = .ok b →
        b.pivot = none → b.out = s.base.out → Sim (Clk src) (Cut src s)
          (lift (clearDropped s e) (Approx.dequeDeleteFront (clearDropped s e).base m))
          (match Except.map (fun s => (false, s)) (Approx.dequeDeleteFront (cleared s.base e) m) with
            | .error f => .error f
            | .ok (false, s1) => .ok s1
            | .ok (true, s1) => Approx.conclude fuel s1 (st s.base.deques e) m) := by
      intro b hb h1 h2
      rw [show (clearDropped s e).base = cleared s.base e from rfl, hb]
      refine Sim.done { clearDropped s e with base := b } ⟨by dsimp only; rw [h2]; exact hk.out, fun h => absurd h1 h⟩
    by_cases hmax : st s.base.deques e - st s.base.deques m > s.base.cfg.maxInterval
    · rw [if_pos (show st s.base.deques e - st s.base.deques m > (clearDropped s e).base.cfg.maxInterval from hmax),
        if_pos (show st s.base.deques e - st s.base.deques m > (cleared s.base e).cfg.maxInterval from hmax)]
      exact hdelS _ hdel hpiv rfl
    · rw [if_neg (show ¬ st s.base.deques e - st s.base.deques m > (clearDropped s e).base.cfg.maxInterval from hmax),
        if_neg (show ¬ st s.base.deques e - st s.base.deques m > (cleared s.base e).cfg.maxInterval from hmax)]
      by_cases hdr : s.base.hasDropped e = true
      · have hdr' : (cleared s.base e).hasDropped e = true := by simpa [cleared] using hdr
        rw [if_pos (show (clearDropped s e).base.hasDropped e = true from hdr'), if_pos hdr']
        exact hdelS _ hdel hpiv rfl
      · have hdr' : ¬ (cleared s.base e).hasDropped e = true := by simpa [cleared] using hdr
        rw [if_neg (show ¬ (clearDropped s e).base.hasDropped e = true from hdr'), if_neg hdr',
          show (clearDropped s e).base = cleared s.base e from rfl, Approx.makeCandidate_eq (cleared s.base e) hne]
        dsimp only
        rw [Approx.move_eq _ m (by exact h.num) (by exact hne m)]
        exact hconc ⟨fresh s.base m e, cm, cm, cm⟩ e (.fresh hpiv (by omega) (by simpa using hdr) rfl rfl)
          ⟨hk.out, fun _ => ⟨rfl, rfl, hfront⟩⟩ rfl
  | some p0 =>
    have hpiv1 : (cleared s.base e).pivot = some p0 := hpiv
    have hpiv2 : (clearDropped s e).base.pivot = some p0 := hpiv
    have hpne : s.base.pivot ≠ none := by rw [hpiv]; simp
    rw [hpiv1, hpiv2]
    obtain ⟨hk1, hk2, hk3⟩ := hk.cur hpne
    have hcutC : (∀ c, s.pivotSrc = c → ¬ AllClk src c s.base) → Cut src s (clearDropped s e) := by
      intro hmix
      obtain ⟨cd, hc, hpast⟩ := h.pivoted p0 hpiv
      refine ⟨⟨h.num, fun h0 => absurd h0 hpne, ?_⟩, hkc, fun i => ⟨[], rfl⟩, rfl, rfl, ?_⟩
      · intro q hq
        have hq : s.base.pivot = some q := hq
        rw [hpiv] at hq; cases hq
        refine ⟨cd, ⟨hc.pivot, hc.cand, hc.head, hc.pivotTime, hc.lo, hc.hi, hc.loEx, hc.hiEx, ?_⟩, hpast⟩
        intro i
        show (if i ≠ e then false else s.base.hasDropped i) = false
        rw [hc.noDrop i]; simp
      · intro c hall
        exact hmix c (pivotSrc_of_all hk h hall hpne).1 hall
    apply sim_sub
    · intro h0
      apply hcutC
      intro c h3 h4
      apply h0
      show cm = s.endSrc
      rw [hk2, h3, ← he3 e, front_mem hne h4 e]
    intro hse
    have hse : cm = s.endSrc := hse
    apply sim_sub
    · intro h0; exact absurd (show cm = s.startSrc by rw [hse, hk2, hk1]) h0
    intro _
    show Sim (Clk src) (Cut src s)
      (if s.base.cfg.scale (st s.base.deques e - s.base.candEnd) ≥ st s.base.deques m - s.base.candStart then _ else _) _
    by_cases hb : s.base.cfg.scale (st s.base.deques e - s.base.candEnd) ≥ st s.base.deques m - s.base.candStart
    · dsimp only
      rw [if_pos hb, if_pos (by exact hb), show (clearDropped s e).base = cleared s.base e from rfl,
        Approx.move_eq (cleared s.base e) m h.num (hne m)]
      exact hconc { s with base := kept s.base m e } p0 (.kept hpiv hb rfl) ⟨hk.out, fun _ => ⟨hk1, hk2, hk3⟩⟩ hse
    · dsimp only
      rw [if_neg hb, if_neg (by exact hb), show (clearDropped s e).base = cleared s.base e from rfl,
        Approx.makeCandidate_eq (cleared s.base e) hne]
      dsimp only
      rw [Approx.move_eq _ m (by exact h.num) (by exact hne m)]
      have hps : cm = s.pivotSrc := by rw [hse, hk2]
      exact hconc { base := better s.base m e, startSrc := cm, endSrc := cm, pivotSrc := s.pivotSrc } p0 (.better hpiv (by omega) rfl)
        ⟨hk.out, fun _ => ⟨hps, hps, fun i x hx => by rw [hfront i x hx]; exact hps⟩⟩ rfl

end MF.ClockMix
