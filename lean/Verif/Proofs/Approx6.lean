import Verif.Proofs.Approx5
import Verif.Proofs.ApproxSpec
/-
Helper lemmas about the ApproximateTime model, part 6: simulation of the canonical search.
-/
namespace MF.Approx
open MF.ApproxSpec (fronts oldest newest startOf endOf tails pop search next sets)

variable {n : Nat}

/-- The messages still to be looked at, with what will come later. -/
def full (s : State n) (fut : Fin n → List Ev) : Fin n → List Ev := fun i => s.deques i ++ fut i

/-- What follows the candidate on every stream. -/
def afterCand (s : State n) (fut : Fin n → List Ev) : Fin n → List Ev := fun i => (view s i).tail ++ fut i

def candOf (s : State n) : Fin n → Ev := fun i => (s.cand i).getD default

def cont [NeZero n] (closed : Bool) (f : Int → Int) (M : Int) (r : Option ((Fin n → Ev) × (Fin n → List Ev))) :
    List (Fin n → Ev) :=
  match r with
  | none => []
  | some (t, d) => t :: sets closed f M d

theorem sets_cont [NeZero n] (closed : Bool) (f : Int → Int) (M : Int) (d : Fin n → List Ev) :
    sets closed f M d = cont closed f M (next closed f M d) := ApproxSpec.sets_eq closed f M d

/-- The sets the canonical search still produces from a state, if `fut` is what will come. -/
def rest [NeZero n] (closed : Bool) (s : State n) (fut : Fin n → List Ev) : List (Fin n → Ev) :=
  match s.pivot with
  | none => sets closed s.cfg.scale s.cfg.maxInterval (full s fut)
  | some p => cont closed s.cfg.scale s.cfg.maxInterval
      (search closed s.cfg.scale p (candOf s) (afterCand s fut) (full s fut))

def lift (l : List (Fin n → Ev)) : List (Fin n → Option Ev) := l.map (fun t i => some (t i))

theorem full_fronts {s : State n} (fut : Fin n → List Ev) (hne : ∀ i, s.deques i ≠ []) :
    fronts (full s fut) = some (fun i => (s.deques i).headD default) := by
  rw [ApproxSpec.fronts_some]
  · congr 1
    funext i
    unfold full
    cases hd : s.deques i with
    | nil => exact absurd hd (hne i)
    | cons e tl => rfl
  · intro i
    unfold full
    simp [hne i]

theorem oldest_eq [NeZero n] {d : Fin n → List Ev} {m : Fin n} (hm : IsStart d m) :
    oldest (fun i => (d i).headD default) = m :=
  IsStart.unique (d := d) (ApproxSpec.oldest_spec (fun i => (d i).headD default)) hm

theorem newest_eq [NeZero n] {d : Fin n → List Ev} {e : Fin n} (he : IsEnd d e) :
    newest (fun i => (d i).headD default) = e :=
  IsEnd.unique (d := d) (ApproxSpec.newest_spec (fun i => (d i).headD default)) he

theorem startOf_eq [NeZero n] {d : Fin n → List Ev} {m : Fin n} (hm : IsStart d m) :
    startOf (fun i => (d i).headD default) = st d m := by
  unfold startOf; rw [oldest_eq hm]; rfl

theorem endOf_eq [NeZero n] {d : Fin n → List Ev} {e : Fin n} (he : IsEnd d e) :
    endOf (fun i => (d i).headD default) = st d e := by
  unfold endOf; rw [newest_eq he]; rfl

theorem cand_start [NeZero n] {s : State n} {p : Fin n} {c : Fin n → Ev} (hc : CandInv s p c) : startOf c = s.candStart := by
  obtain ⟨i, hi⟩ := hc.loEx
  have h1 := ApproxSpec.startOf_le c i
  have h2 : s.candStart ≤ startOf c := hc.lo _
  omega

theorem cand_end [NeZero n] {s : State n} {p : Fin n} {c : Fin n → Ev} (hc : CandInv s p c) : endOf c = s.candEnd := by
  obtain ⟨i, hi⟩ := hc.hiEx
  have h1 := ApproxSpec.le_endOf c i
  have h2 : endOf c ≤ s.candEnd := hc.hi _
  omega

theorem candOf_eq {s : State n} {p : Fin n} {c : Fin n → Ev} (hc : CandInv s p c) : candOf s = c := by
  funext i; unfold candOf; rw [hc.cand i]; rfl

theorem full_tails {s : State n} (fut : Fin n → List Ev) (hne : ∀ i, s.deques i ≠ []) :
    tails (full s fut) = fun i => (s.deques i).tail ++ fut i := by
  funext i
  unfold tails full
  cases hd : s.deques i with
  | nil => exact absurd hd (hne i)
  | cons e tl => rfl

theorem full_pop {s s1 : State n} {m : Fin n} (fut : Fin n → List Ev) (hne : ∀ i, s.deques i ≠ [])
    (hd : s1.deques = upd s.deques m (s.deques m).tail) : full s1 fut = pop (full s fut) m := by
  funext i
  unfold pop full
  rw [hd]
  by_cases hi : i = m
  · subst hi
    rw [upd_same, upd_same]
    cases hd : s.deques i with
    | nil => exact absurd hd (hne i)
    | cons e tl => rfl
  · rw [upd_ne _ _ hi, upd_ne _ _ hi]

theorem examined_rest [NeZero n] (closed : Bool) {s s1 : State n} {m e p : Fin n} (fut : Fin n → List Ev) (h : LoopInv s)
    (hne : ∀ i, s.deques i ≠ []) (hm : IsStart s.deques m) (he : IsEnd s.deques e) (hx : Examined s m e p s1)
    (ha : After s m p s1) :
    (p = m → rest closed s fut = candOf s1 :: sets closed s.cfg.scale s.cfg.maxInterval (afterCand s1 fut)) ∧
    (p ≠ m → rest closed s fut = rest closed s1 fut) := by
  have hfr := full_fronts fut hne
  obtain ⟨c1, hc1⟩ := ha.candInv
  have hpop := full_pop fut hne ha.deques
  have hr1 : rest closed s1 fut = cont closed s.cfg.scale s.cfg.maxInterval
      (search closed s.cfg.scale p (candOf s1) (afterCand s1 fut) (pop (full s fut) m)) := by
    unfold rest; rw [hc1.pivot]; simp only; rw [ha.cfg, hpop]
  rw [hr1]
  cases hx with
  | fresh h1 h2 h3 hp hs =>
    subst hp
    have hcand : candOf s1 = fun i => (s.deques i).headD default := by
      subst hs
      funext i
      simp only [candOf, fresh, moved, candidated, cleared]
      rw [head?_of_ne (hne i)]; rfl
    have hafter : afterCand s1 fut = tails (full s fut) := by
      rw [full_tails fut hne]
      subst hs
      funext i
      unfold afterCand fresh
      rw [view_moved]
      simp [view, candidated, cleared]
    have hrs : rest closed s fut = cont closed s.cfg.scale s.cfg.maxInterval
        (if m = p then some (candOf s1, afterCand s1 fut) else
          search closed s.cfg.scale p (candOf s1) (afterCand s1 fut) (pop (full s fut) m)) := by
      unfold rest
      rw [h1]
      simp only
      rw [sets_cont, ApproxSpec.next_some hfr, endOf_eq he, startOf_eq hm, oldest_eq hm, newest_eq he,
        if_neg (by omega), hcand, hafter]
    rw [hrs]
    constructor
    · intro hpm; rw [if_pos hpm.symm]; rfl
    · intro hpm; rw [if_neg (Ne.symm hpm)]
  | kept h1 h2 hs =>
    obtain ⟨c, hc, hpast⟩ := h.pivoted p h1
    have hcand : candOf s1 = candOf s := by subst hs; rfl
    have hafter : afterCand s1 fut = afterCand s fut := by
      subst hs; funext i; unfold afterCand kept; rw [view_moved]; rfl
    have hnb : ¬ ApproxSpec.better s.cfg.scale (fun i => (s.deques i).headD default) (candOf s) := by
      unfold ApproxSpec.better
      rw [candOf_eq hc, endOf_eq he, startOf_eq hm, cand_end hc, cand_start hc]
      omega
    have hrs : rest closed s fut = cont closed s.cfg.scale s.cfg.maxInterval
        (if m = p then some (candOf s1, afterCand s1 fut) else
          search closed s.cfg.scale p (candOf s1) (afterCand s1 fut) (pop (full s fut) m)) := by
      unfold rest
      rw [h1]
      simp only
      rw [ApproxSpec.search_some hfr, oldest_eq hm, if_neg hnb, if_neg hnb, hcand, hafter]
    rw [hrs]
    constructor
    · intro hpm; rw [if_pos hpm.symm]; rfl
    · intro hpm; rw [if_neg (Ne.symm hpm)]
  | better h1 h2 hs =>
    obtain ⟨c, hc, hpast⟩ := h.pivoted p h1
    have hcand : candOf s1 = fun i => (s.deques i).headD default := by
      subst hs
      funext i
      simp only [candOf, better, moved, candidated, cleared]
      rw [head?_of_ne (hne i)]; rfl
    have hafter : afterCand s1 fut = tails (full s fut) := by
      rw [full_tails fut hne]
      subst hs
      funext i
      unfold afterCand better
      rw [view_moved]
      simp [view, candidated, cleared]
    have hnb : ApproxSpec.better s.cfg.scale (fun i => (s.deques i).headD default) (candOf s) := by
      unfold ApproxSpec.better
      rw [candOf_eq hc, endOf_eq he, startOf_eq hm, cand_end hc, cand_start hc]
      omega
    have hrs : rest closed s fut = cont closed s.cfg.scale s.cfg.maxInterval
        (if m = p then some (candOf s1, afterCand s1 fut) else
          search closed s.cfg.scale p (candOf s1) (afterCand s1 fut) (pop (full s fut) m)) := by
      unfold rest
      rw [h1]
      simp only
      rw [ApproxSpec.search_some hfr, oldest_eq hm, if_pos hnb, if_pos hnb, hcand, hafter]
    rw [hrs]
    constructor
    · intro hpm; rw [if_pos hpm.symm]; rfl
    · intro hpm; rw [if_neg (Ne.symm hpm)]

theorem lift_cons (t : Fin n → Ev) (l : List (Fin n → Ev)) : lift (t :: l) = (fun i => some (t i)) :: lift l := rfl

/-- One iteration keeps the sequence of sets still to come. -/
theorem pstep_rest [NeZero n] (closed : Bool) {s s' : State n} (fut : Fin n → List Ev) (h : LoopInv s)
    (hne : ∀ i, s.deques i ≠ []) (hd : s.pivot = none → ∀ e, IsEnd s.deques e → s.hasDropped e = false)
    (hmono : ∀ x y, x ≤ y → s.cfg.scale x ≤ s.cfg.scale y) (hlow : ∀ i, 0 ≤ s.cfg.lower i)
    (hap : ∀ i, Apart (s.cfg.lower i) (view s i ++ fut i)) (hs : PStep s s') :
    (∀ i, s'.hasDropped i = false) ∧
    (s.out ++ lift (rest closed s fut)) <+: (s'.out ++ lift (rest closed s' fut)) ∧
    (closed = true → s.out ++ lift (rest closed s fut) = s'.out ++ lift (rest closed s' fut)) := by
  cases hs with
  | delete m e hm he hp hc hs =>
    have hd' : ∀ i, s'.hasDropped i = false := by
      subst hs; intro i
      by_cases hie : i = e
      · subst hie; simp [deleted, cleared, hd hp i he]
      · simp [deleted, cleared, hie]
    have hrest : rest closed s' fut = rest closed s fut := by
      have hp' : s'.pivot = none := by subst hs; exact hp
      have hcfg : s'.cfg = s.cfg := by subst hs; rfl
      unfold rest
      rw [hp, hp']
      simp only
      rw [hcfg, full_pop (s := s) (s1 := s') (m := m) fut hne (by subst hs; rfl)]
      symm
      apply ApproxSpec.sets_congr
      rw [ApproxSpec.next_some (full_fronts fut hne), endOf_eq he, startOf_eq hm, oldest_eq hm]
      rw [if_pos]
      rcases hc with hc | hc
      · exact hc
      · rw [hd hp e he] at hc; cases hc
    have hout : s'.out = s.out := by subst hs; rfl
    rw [hrest, hout]
    exact ⟨hd', List.prefix_refl _, fun _ => rfl⟩
  | go m e p hm he hx ha hpm =>
    obtain ⟨c, hc⟩ := ha.candInv
    rw [(examined_rest closed fut h hne hm he hx ha).2 hpm, ha.out]
    exact ⟨hc.noDrop, List.prefix_refl _, fun _ => rfl⟩
  | publish m e p s1 hm he hx ha hw hs =>
    subst hs
    obtain ⟨c, hc⟩ := ha.candInv
    have hex := examined_rest closed fut h hne hm he hx ha
    have hpub : rest closed (published s1) fut = sets closed s.cfg.scale s.cfg.maxInterval (afterCand s1 fut) := by
      unfold rest published
      simp only
      rw [ha.cfg]
      rfl
    have hcand : s1.cand = fun i => some (candOf s1 i) := by
      funext i; rw [candOf_eq hc, hc.cand i]
    have hgood : rest closed s fut = candOf s1 :: sets closed s.cfg.scale s.cfg.maxInterval (afterCand s1 fut) →
        s.out ++ lift (rest closed s fut) = (published s1).out ++ lift (rest closed (published s1) fut) := by
      intro h0
      rw [h0, hpub, lift_cons]
      show s.out ++ _ = (s1.out ++ [s1.cand]) ++ _
      rw [ha.out, List.append_assoc, hcand]
      rfl
    refine ⟨fun i => hc.noDrop i, ?_⟩
    by_cases hpm : p = m
    · have := hgood (hex.1 hpm)
      rw [this]
      exact ⟨List.prefix_refl _, fun _ => rfl⟩
    · have hU : Unbeatable s1 p := hw.resolve_left hpm
      have hpp : ∃ tl, s1.deques p = c p :: tl := by
        obtain ⟨tl, h3⟩ := hc.head p
        unfold view at h3; rw [ha.past hpm, List.nil_append] at h3
        exact ⟨tl, h3⟩
      obtain ⟨tl, htl⟩ := hpp
      have hap1 : ∀ i, Apart (s1.cfg.lower i) (view s1 i ++ fut i) := by
        intro i
        obtain ⟨q, hq⟩ := examined_view h hx i
        have := hap i
        rw [hq, List.append_assoc] at this
        rw [ha.cfg]
        exact (List.pairwise_append.1 this).2.1
      have hr1 : rest closed s1 fut = cont closed s.cfg.scale s.cfg.maxInterval
          (search closed s.cfg.scale p c (afterCand s1 fut) (full s1 fut)) := by
        unfold rest; rw [hc.pivot]; simp only; rw [ha.cfg, candOf_eq hc]
      rcases ApproxSpec.search_unbeatable (closed := closed) (f := s.cfg.scale) (p := p) (best := c)
        (after := afterCand s1 fut) (P := s1.pivotTime) (full s1 fut)
        ⟨c p, tl ++ fut p, by unfold full; rw [htl]; rfl, hc.pivotTime⟩
        (by
          intro T hT hTp hb
          obtain ⟨a, b, hab⟩ := hU (by rw [ha.cfg]; exact hmono) (by rw [ha.cfg]; exact hlow) fut hap1 T hTp hT
          unfold ApproxSpec.better at hb
          rw [cand_end hc, cand_start hc] at hb
          have h1 := ApproxSpec.startOf_le T a
          have h2 := ApproxSpec.le_endOf T b
          have h3 := hmono ((T b).stamp - s1.candEnd) (endOf T - s1.candEnd) (by omega)
          rw [ha.cfg] at hab
          omega) with h1 | ⟨hcl, h1⟩
      · have := hgood (by rw [hex.2 hpm, hr1, h1, candOf_eq hc]; rfl)
        rw [this]
        exact ⟨List.prefix_refl _, fun _ => rfl⟩
      · refine ⟨?_, fun h0 => by rw [hcl] at h0; cases h0⟩
        rw [hex.2 hpm, hr1, h1]
        show s.out ++ [] <+: _
        rw [List.append_nil]
        show s.out <+: (s1.out ++ [s1.cand]) ++ _
        rw [ha.out, List.append_assoc]
        exact List.prefix_append _ _

theorem apart_of_hist {d : Int} {L fut : Fin n → List Ev} {s : State n} {i : Fin n} (h : Hist L s) (hL : Apart d (L i ++ fut i)) :
    Apart d (view s i ++ fut i) := by
  obtain ⟨c, hc, _⟩ := h i
  rw [hc, List.append_assoc] at hL
  exact (List.pairwise_append.1 hL).2.1

theorem psteps_rest [NeZero n] (closed : Bool) {s s' : State n} {L : Fin n → List Ev} (fut : Fin n → List Ev) (h : LoopInv s)
    (hd : ∀ i, s.hasDropped i = false)
    (hmono : ∀ x y, x ≤ y → s.cfg.scale x ≤ s.cfg.scale y) (hlow : ∀ i, 0 ≤ s.cfg.lower i) (hh : Hist L s)
    (hap : ∀ i, Apart (s.cfg.lower i) (L i ++ fut i)) (hs : PSteps s s') :
    (∀ i, s'.hasDropped i = false) ∧
    (s.out ++ lift (rest closed s fut)) <+: (s'.out ++ lift (rest closed s' fut)) ∧
    (closed = true → s.out ++ lift (rest closed s fut) = s'.out ++ lift (rest closed s' fut)) := by
  have := psteps_ind (P := fun t => (t.cfg = s.cfg ∧ Hist L t) ∧ (∀ i, t.hasDropped i = false) ∧
      (s.out ++ lift (rest closed s fut)) <+: (t.out ++ lift (rest closed t fut)) ∧
      (closed = true → s.out ++ lift (rest closed s fut) = t.out ++ lift (rest closed t fut)))
    (by
      intro t t' a b c ⟨⟨d1, d2⟩, d3, d4, d5⟩
      obtain ⟨e1, e2, e3⟩ := pstep_rest closed fut a b (fun _ e _ => d3 e) (by rw [d1]; exact hmono) (by rw [d1]; exact hlow)
        (fun i => apart_of_hist d2 (by rw [d1]; exact hap i)) c
      exact ⟨⟨by rw [pstep_cfg c, d1], pstep_hist a c d2⟩, e1, d4.trans e2, fun hcl => (d5 hcl).trans (e3 hcl)⟩)
    h hs ⟨⟨rfl, hh⟩, hd, List.prefix_refl _, fun _ => rfl⟩
  exact this.2.2.2

theorem pushed_rest [NeZero n] (closed : Bool) {s s1 : State n} {i : Fin n} {e : Ev} (fut : Fin n → List Ev) (h : LoopInv s)
    (hp : Pushed s s1 i e) : rest closed s1 fut = rest closed s (upd fut i (e :: fut i)) := by
  have hfull : full s1 fut = full s (upd fut i (e :: fut i)) := by
    funext j
    unfold full
    rw [hp.deques]
    by_cases hj : j = i
    · subst hj; rw [upd_same, upd_same, List.append_assoc]; rfl
    · rw [upd_ne _ _ hj, upd_ne _ _ hj]
  unfold rest
  rw [hp.pivot, hp.cfg, hfull]
  cases hpv : s.pivot with
  | none => rfl
  | some p =>
    simp only
    have hcand : candOf s1 = candOf s := by unfold candOf; rw [hp.cand]
    have hafter : afterCand s1 fut = afterCand s (upd fut i (e :: fut i)) := by
      funext j
      unfold afterCand
      by_cases hj : j = i
      · subst hj
        obtain ⟨c, hc, _⟩ := h.pivoted p hpv
        obtain ⟨tl, htl⟩ := hc.head j
        rw [hp.view_same, upd_same, htl]
        simp
      · rw [hp.view_ne hj, upd_ne _ _ hj]
    rw [hcand, hafter]

/-- Without overflow, the output so far followed by what the canonical search still finds is the canonical sequence. -/
theorem run_canonical [NeZero n] {fuel : Nat} {cfg : Cfg n} (closed : Bool)
    (hmono : ∀ x y, x ≤ y → cfg.scale x ≤ cfg.scale y) (hlow : ∀ i, 0 ≤ cfg.lower i) :
    ∀ (ops : List (Fin n × Ev)) (s : State n), run fuel cfg ops = .ok s →
    (∀ i, (stream ops i).length ≤ cfg.queueSize) →
    (∀ i, s.hasDropped i = false) ∧
    ∀ fut : Fin n → List Ev, (∀ i, Apart (cfg.lower i) (stream ops i ++ fut i)) →
      lift (sets closed cfg.scale cfg.maxInterval (fun i => stream ops i ++ fut i)) <+: (s.out ++ lift (rest closed s fut)) ∧
      (closed = true → lift (sets closed cfg.scale cfg.maxInterval (fun i => stream ops i ++ fut i)) =
        s.out ++ lift (rest closed s fut)) := by
  apply run_induction
  · intro _
    refine ⟨fun _ => rfl, fun fut _ => ?_⟩
    have : (init cfg).out ++ lift (rest closed (init cfg) fut) =
        lift (sets closed cfg.scale cfg.maxInterval (fun i => stream [] i ++ fut i)) := rfl
    rw [this]
    exact ⟨List.prefix_refl _, fun _ => rfl⟩
  · intro ops s i e s' hi hcfg hh hadd hi' ih hlen
    have hlen0 : ∀ j, (stream ops j).length ≤ cfg.queueSize := by
      intro j
      have := hlen j
      rw [stream_snoc] at this
      by_cases hj : j = i
      · subst hj; rw [upd_same] at this; simp at this; omega
      · rw [upd_ne _ _ hj] at this; exact this
    obtain ⟨hd, ih⟩ := ih hlen0
    have hmain : ∀ s1, Pushed s s1 i e → ∀ s2, PSteps s1 s2 → (∀ i, s2.hasDropped i = false) ∧
        ∀ fut : Fin n → List Ev, (∀ j, Apart (cfg.lower j) (stream (ops ++ [(i, e)]) j ++ fut j)) →
      lift (sets closed cfg.scale cfg.maxInterval (fun j => stream (ops ++ [(i, e)]) j ++ fut j)) <+:
        (s2.out ++ lift (rest closed s2 fut)) ∧
      (closed = true → lift (sets closed cfg.scale cfg.maxInterval (fun j => stream (ops ++ [(i, e)]) j ++ fut j)) =
        s2.out ++ lift (rest closed s2 fut)) := by
      intro s1 hp s2 hs
      have hh1 := pushed_hist hp hh
      rw [← stream_snoc] at hh1
      have hl1 := hp.inv hi.loop
      have hcfg1 : s1.cfg = cfg := by rw [hp.cfg, hcfg]
      have hstep : ∀ fut : Fin n → List Ev, (∀ j, Apart (cfg.lower j) (stream (ops ++ [(i, e)]) j ++ fut j)) → _ :=
        fun fut hap => psteps_rest closed (L := stream (ops ++ [(i, e)])) fut hl1 (by rw [hp.hasDropped]; exact hd)
          (by rw [hcfg1]; exact hmono) (by rw [hcfg1]; exact hlow) hh1 (by rw [hcfg1]; exact hap) hs
      have hd2 : ∀ i, s2.hasDropped i = false :=
        (psteps_ind (P := fun t => ∀ i, t.hasDropped i = false) (by
          intro t t' a b c d
          cases c with
          | delete m e hm he hp hc hs => subst hs; intro i; simp [deleted, cleared, d i]
          | go m e p hm he hx ha hpm => obtain ⟨c, hc⟩ := ha.candInv; exact hc.noDrop
          | publish m e p s1 hm he hx ha hw hs =>
            subst hs; obtain ⟨c, hc⟩ := ha.candInv; exact fun i => hc.noDrop i) hl1 hs
          (by rw [hp.hasDropped]; exact hd)).2.2
      refine ⟨hd2, fun fut hap => ?_⟩
      have hst : (fun j => stream (ops ++ [(i, e)]) j ++ fut j) = fun j => stream ops j ++ (upd fut i (e :: fut i)) j := by
        funext j
        rw [stream_snoc]
        by_cases hj : j = i
        · subst hj; rw [upd_same, upd_same, List.append_assoc]; rfl
        · rw [upd_ne _ _ hj, upd_ne _ _ hj]
      obtain ⟨_, h2, h3⟩ := hstep fut hap
      obtain ⟨g1, g2⟩ := ih (upd fut i (e :: fut i)) (by
        intro j
        have h4 := hap j
        rw [show stream (ops ++ [(i, e)]) j ++ fut j = stream ops j ++ (upd fut i (e :: fut i)) j from congrFun hst j] at h4
        exact h4)
      rw [pushed_rest closed fut hi.loop hp, hp.out] at h2 h3
      rw [hst]
      exact ⟨g1.trans h2, fun hcl => (g2 hcl).trans (h3 hcl)⟩
    cases hadd with
    | normal s1 hp hs hl => exact hmain s1 hp s' hs
    | drop s1 s2 hp hs hl hs' =>
      exfalso
      have hh2 := psteps_hist (hp.inv hi.loop) hs (pushed_hist hp hh)
      rw [← stream_snoc] at hh2
      obtain ⟨c, hc, _⟩ := hh2 i
      have := hlen i
      rw [hc] at this
      rw [hcfg] at hl
      simp at this
      omega

/-- Nothing is left to find when some input has no unexamined message and none will come. -/
theorem rest_nil [NeZero n] {s : State n} (h : ∃ i, s.deques i = []) : rest false s (fun _ => []) = [] := by
  have hf : fronts (full s (fun _ => [])) = none := by
    apply ApproxSpec.fronts_none
    obtain ⟨i, hi⟩ := h
    exact ⟨i, by unfold full; rw [hi]; rfl⟩
  unfold rest
  cases s.pivot with
  | none => simp only; rw [sets_cont, ApproxSpec.next_none hf]; rfl
  | some p => simp only; rw [ApproxSpec.search_none hf]; rfl

end MF.Approx
