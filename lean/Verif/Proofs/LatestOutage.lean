import Verif.Spec.LatestOutage
import Verif.Props.Latest
/-
Lemmas for C116: LatestTime inputs that stop.
-/
namespace MF.Latest

open MF.Event (Time)
open Arith

variable {n : Nat}

/-- A periodic input has an error estimate exactly from its third message on. -/
theorem good_fold_init {p : Int} (hp : 0 < p) {src : Source} : ∀ (ts : List Time) (r : Rate Rat) (t : Time), Good p r t →
    t.source = src → (∀ x ∈ ts, x.source = src) → Periodic p (t :: ts) → ts ≠ [] →
    (ts.foldl Rate.update r).doErrorInit = false := by
  intro ts
  induction ts with
  | nil => intro r t _ _ _ _ h; exact absurd rfl h
  | cons x ts ih =>
    intro r t h hs hx hper _
    have hx1 := hx x (by simp)
    have hg := good_next hp h (by rw [hs, hx1]) hper.1
    cases ts with
    | nil => exact hg.2
    | cons y ts => exact ih _ x hg.1 hx1 (fun z hz => hx z (by simp [hz])) hper.2 (by simp)

theorem start_update_init {t0 t1 : Time} (c : Config Rat) (hs : t0.source = t1.source) (ht : t0.ns < t1.ns) :
    ((Rate.start t0 c).update t1) =
      { prev := t1, hz := 1000000000 / ((t1.ns - t0.ns : Int) : Rat), error := 0, config := c, doHzInit := false, doErrorInit := true } := by
  have h1 : timeSub t1 t0 = .ok (t1.ns - t0.ns) := by simp [timeSub, hs]
  have h2 : le (seconds (t1.ns - t0.ns) : Rat) zero = false := by rw [Lawful.le_seconds]; simp; omega
  unfold Rate.update fuel Rate.computeHz Rate.pass Rate.start
  simp only [h1, h2, period_recip rfl]
  rfl

theorem periodic_errorInit {p : Int} (hp : 0 < p) {src : Source} {dflt : Config Rat} {configs : List (Config Rat)}
    {ops : List (Op n)} {i : Fin n} {r : Rate Rat} (hr : estimate dflt configs ops i i = some r)
    (hper : Periodic p ((deliveries ops i).map (·.now))) (hc : ∀ o ∈ deliveries ops i, o.now.source = src)
    (h2 : 2 ≤ (deliveries ops i).length) : r.doErrorInit = decide ((deliveries ops i).length = 2) := by
  unfold estimate at hr
  cases hd : deliveries ops i with
  | nil => rw [hd] at h2; simp at h2
  | cons a l =>
    rw [hd] at hr hper hc h2
    simp only [List.head?_cons, Option.map_some, List.tail_cons, Option.some.injEq] at hr
    cases l with
    | nil => simp at h2
    | cons b l =>
      simp only [List.map_cons, List.foldl_cons] at hr hper
      have h1 := good_first hp (configFor dflt configs i) ((hc a (by simp)).trans (hc b (by simp)).symm) hper.1
      cases l with
      | nil =>
        rw [← hr]
        simp only [List.map_nil, List.foldl_nil]
        rw [start_update_init _ ((hc a (by simp)).trans (hc b (by simp)).symm) (by have := hper.1; omega)]
        simp
      | cons c l =>
        have h3 := good_fold_init hp ((c :: l).map (·.now)) _ b.now h1 (hc b (by simp)) (by
          intro x hx
          obtain ⟨o, ho, rfl⟩ := List.mem_map.1 hx
          exact hc o (by simp only [List.mem_cons] at ho ⊢; exact Or.inr (Or.inr ho))) hper.2 (by simp)
        rw [← hr, h3]
        simp

/-- The estimate of a periodic input, whether it is overdue or not. -/
theorem periodic_rate_any {p : Int} (hp : 0 < p) {src : Source} {dflt : Config Rat} {configs : List (Config Rat)}
    {ops : List (Op n)} {i : Fin n} {r : Rate Rat} {now : Time} (hr : estimate dflt configs ops i i = some r)
    (hper : Periodic p ((deliveries ops i).map (·.now))) (hc : ∀ o ∈ ops, o.now.source = src)
    (hmono : ∀ last, (deliveries ops i).getLast? = some last → last.now.ns ≤ now.ns) :
    (Eligible r now ↔ 2 ≤ (deliveries ops i).length ∧ ¬ Overdue p ops i now) ∧
      (2 ≤ (deliveries ops i).length → r.hz = 1000000000 / (p : Rat)) := by
  have hcd : ∀ o ∈ deliveries ops i, o.now.source = src := fun o ho => hc o (List.mem_filter.1 ho).1
  obtain ⟨last, h1, h2, h3⟩ := periodic_estimate hp hr hper hcd
  rcases h3 with ⟨c, h4, h5⟩ | ⟨h4, h5⟩
  · refine ⟨⟨?_, fun h => by omega⟩, fun h => by omega⟩
    rintro ⟨hz, _⟩
    rw [h5] at hz
    simp only [Rate.start, Lawful.gt_irrefl] at hz
    cases hz
  · refine ⟨?_, fun _ => h5.hz⟩
    have hinit := periodic_errorInit hp hr hper hcd h4
    have hpos : gt r.hz zero = true := by
      rw [h5.hz]
      simp only [gt, zero, decide_eq_true_eq]
      rw [Rat.lt_div_iff (rat_pos hp)]
      grind
    have hm := hmono last h1
    have hlate : Late r now ↔ Overdue p ops i now := by
      unfold Late Overdue
      rw [hinit, h5.hz, h5.error, h2]
      constructor
      · rintro ⟨g1, g2, g3⟩
        have g2 := of_decide_eq_false g2
        refine ⟨by omega, last, h1, ?_⟩
        have hd : 0 < now.ns - last.now.ns := by omega
        rw [period_recip rfl] at g3
        have hgt := gt_recip hp hd
        simp only [gt, sub, mul, decide_eq_true_eq, decide_eq_decide] at g3 hgt
        have : p < now.ns - last.now.ns := by
          rw [← hgt]
          generalize 1000000000 / (p : Rat) = x at g3 ⊢
          generalize 1000000000 / ((now.ns - last.now.ns : Int) : Rat) = y at g3 ⊢
          grind
        omega
      · rintro ⟨g1, last', g2, g3⟩
        rw [h1] at g2; cases g2
        refine ⟨by omega, decide_eq_false (by omega), ?_⟩
        have hd : 0 < now.ns - last.now.ns := by omega
        rw [period_recip rfl]
        have hgt := gt_recip hp hd
        simp only [gt, sub, mul, decide_eq_true_eq, decide_eq_decide] at hgt ⊢
        have := hgt.2 (by omega)
        generalize 1000000000 / (p : Rat) = x at this ⊢
        generalize 1000000000 / ((now.ns - last.now.ns : Int) : Rat) = y at this ⊢
        grind
    unfold Eligible
    rw [hlate]
    exact ⟨fun h => ⟨h4, h.2⟩, fun h => ⟨hpos, h.2⟩⟩

/-- A blocking input is eligible at all later times. -/
theorem blocking_eligible {r : Rate Rat} (h : Blocking r) {now : Time} (hn : r.prev.ns ≤ now.ns) : Eligible r now := by
  refine ⟨by simpa [gt, zero] using h.1, ?_⟩
  rintro ⟨h1, h2, h3⟩
  have hd : 0 < now.ns - r.prev.ns := by omega
  rw [period_recip rfl] at h3
  have hy : (0 : Rat) < 1000000000 / ((now.ns - r.prev.ns : Int) : Rat) := by
    rw [Rat.lt_div_iff (rat_pos hd)]; grind
  simp only [gt, sub, mul, decide_eq_true_eq] at h3
  rcases h.2 with h4 | h4
  · rw [h2] at h4; cases h4
  · generalize 1000000000 / ((now.ns - r.prev.ns : Int) : Rat) = y at h3 hy
    grind

/-- An input with an error estimate is late once it has been silent long enough. -/
theorem late_after {r : Rate Rat} {now : Time} (h1 : r.doErrorInit = false) (hn : r.prev.ns < now.ns)
    (h2 : 1000000000 < ((now.ns - r.prev.ns : Int) : Rat) * (r.hz - r.config.marginFactor * r.error)) : Late r now := by
  refine ⟨by omega, h1, ?_⟩
  have hd : 0 < now.ns - r.prev.ns := by omega
  rw [period_recip rfl]
  have hp := rat_pos hd
  have : 1000000000 / ((now.ns - r.prev.ns : Int) : Rat) < r.hz - r.config.marginFactor * r.error := by
    rw [Rat.div_lt_iff hp, Rat.mul_comm]; exact h2
  simp only [gt, sub, mul, decide_eq_true_eq]
  generalize 1000000000 / ((now.ns - r.prev.ns : Int) : Rat) = y at this ⊢
  grind

/-- The clock reading of the last message used for a rate estimate, if readings increase. -/
theorem fold_prev {lo hi : Rat} {src : Source} : ∀ (ts : List Time) (r : Rate Rat), r.prev.source = src →
    (∀ x ∈ ts, x.source = src) → RatesWithin lo hi (r.prev :: ts) →
    (ts.foldl Rate.update r).prev = (r.prev :: ts).getLast (by simp) := by
  intro ts
  induction ts with
  | nil => intro r _ _ _; rfl
  | cons x ts ih =>
    intro r hs hx hw
    have hx1 := hx x (by simp)
    have hu : (r.update x).prev = x := by
      obtain ⟨b, r', g1, g2, g3, g4⟩ := computeHz_ok r x
      rw [update_eq g1]
      cases b with
      | true => exact (g3 rfl).1
      | false =>
        have h1 := hw.1
        have := g4.2 ⟨x.ns - r.prev.ns, by simp [timeSub, hs, hx1], by rw [Lawful.le_seconds]; simp; omega⟩
        cases this
    have := ih (r.update x) (by rw [hu, hx1]) (fun y hy => hx y (by simp [hy])) (by rw [hu]; exact hw.2.2.2)
    rw [List.foldl_cons, this]
    simp only [hu]
    rfl

theorem estimate_last {lo hi : Rat} {src : Source} {dflt : Config Rat} {configs : List (Config Rat)} {ops : List (Op n)} {i : Fin n}
    {r : Rate Rat} (hc : ∀ o ∈ deliveries ops i, o.now.source = src) (hr : estimate dflt configs ops i i = some r)
    (hw : RatesWithin lo hi ((deliveries ops i).map (·.now))) :
    ∃ last, (deliveries ops i).getLast? = some last ∧ r.prev = last.now := by
  unfold estimate at hr
  cases hd : deliveries ops i with
  | nil => rw [hd] at hr; cases hr
  | cons a l =>
    rw [hd] at hr hw hc
    simp only [List.head?_cons, Option.map_some, List.tail_cons, Option.some.injEq] at hr
    have h := fold_prev (src := src) (l.map (·.now)) (Rate.start a.now (configFor dflt configs i)) (hc a (by simp)) (by
      intro x hx
      obtain ⟨o, ho, rfl⟩ := List.mem_map.1 hx
      exact hc o (by simp [ho])) hw
    rw [hr] at h
    refine ⟨(a :: l).getLast (by simp), List.getLast?_eq_some_getLast (by simp), ?_⟩
    rw [h]
    exact List.getLast_map (f := fun o : Op n => o.now) (l := a :: l) (by simp)

theorem rates_append {lo hi : Rat} : ∀ (l m : List Time), RatesWithin lo hi (l ++ m) → RatesWithin lo hi l := by
  intro l
  induction l with
  | nil => intro m _; trivial
  | cons a l ih =>
    intro m h
    cases l with
    | nil => trivial
    | cons b l => exact ⟨h.1, h.2.1, h.2.2.1, ih m h.2.2.2⟩

theorem rates_last {lo hi : Rat} {t : Time} : ∀ (l : List Time) (h : l ≠ []), RatesWithin lo hi (l ++ [t]) →
    (l.getLast h).ns < t.ns := by
  intro l
  induction l with
  | nil => intro h; exact absurd rfl h
  | cons a l ih =>
    intro _ hper
    cases l with
    | nil => exact hper.1
    | cons b l => exact ih (by simp) hper.2.2.2

/-- The third message of an input, after a shorter interval. -/
theorem third_blocks {c : Config Rat} {b t : Time} {d1 : Int} {e0 : Rat} (hs : b.source = t.source) (hbt : b.ns < t.ns) (hd1 : 0 < d1)
    (h0 : 0 ≤ c.rateAlpha) (h1 : c.rateAlpha ≤ 1) (hshort : t.ns - b.ns < d1)
    (hm : (d1 : Rat) ≤ c.marginFactor * ((d1 : Rat) - ((t.ns - b.ns : Int) : Rat))) :
    Blocking (({ prev := b, hz := 1000000000 / (d1 : Rat), error := e0, config := c, doHzInit := false, doErrorInit := true } :
      Rate Rat).update t) := by
  have g1 : timeSub t b = .ok (t.ns - b.ns) := by simp [timeSub, hs]
  have g2 : le (seconds (t.ns - b.ns) : Rat) zero = false := by rw [Lawful.le_seconds]; simp; omega
  have hd2 : 0 < t.ns - b.ns := by omega
  generalize t.ns - b.ns = d2 at *
  have hp1 := rat_pos hd1
  have hp2 := rat_pos hd2
  have hlt : (d2 : Rat) < (d1 : Rat) := by exact_mod_cast hshort
  have hgt := gt_recip hd2 hd1
  simp only [gt, decide_eq_decide] at hgt
  have hgt := hgt.2 hshort
  have hf1 : 1000000000 / (d1 : Rat) * d1 = 1000000000 := Rat.div_mul_cancel (by grind)
  have hf2 : 1000000000 / (d2 : Rat) * d2 = 1000000000 := Rat.div_mul_cancel (by grind)
  have hf1p : (0 : Rat) < 1000000000 / (d1 : Rat) := by rw [Rat.lt_div_iff hp1]; grind
  have hhz : (Arith.add (div c.rateAlpha (seconds d2)) (mul (sub one c.rateAlpha) (1000000000 / (d1 : Rat))) : Rat) =
      c.rateAlpha * (1000000000 / (d2 : Rat)) + (1 - c.rateAlpha) * (1000000000 / (d1 : Rat)) := by
    simp only [Arith.add, div, mul, sub, one, seconds]
    grind
  have herr : (fabs (sub (1000000000 / (d1 : Rat)) (1000000000 / (d2 : Rat)) : Rat) : Rat) = 1000000000 / (d2 : Rat) - 1000000000 / (d1 : Rat) := by
    simp only [fabs, sub]
    grind
  unfold Rate.update fuel Rate.computeHz Rate.pass
  simp only [g1, g2, period_recip rfl, hhz, herr, Bool.false_eq_true, if_false, if_true]
  generalize 1000000000 / (d1 : Rat) = f1 at *
  generalize 1000000000 / (d2 : Rat) = f2 at *
  have hmix := rat_mix (a := c.rateAlpha) (x := f2) (y := f1) (lo := f1) (hi := f2) h0 h1 (by grind) (by grind) (by grind) (by grind)
  refine ⟨by show (0 : Rat) < _; grind, Or.inr ?_⟩
  show _ ≤ c.marginFactor * (f2 - f1)
  have hk : f2 ≤ c.marginFactor * (f2 - f1) := by
    -- multiply by `d1`: `(f2 - f1) * d1 = f2 * (d1 - d2)`
    have e1 : (f2 - f1) * (d1 : Rat) = f2 * ((d1 : Rat) - (d2 : Rat)) := by grind
    have hf2p : 0 < f2 := by grind
    have e2 : f2 * (d1 : Rat) ≤ f2 * (c.marginFactor * ((d1 : Rat) - (d2 : Rat))) := Rat.mul_le_mul_of_nonneg_left hm (by grind)
    have e3 : f2 * (d1 : Rat) ≤ c.marginFactor * (f2 - f1) * (d1 : Rat) := by
      have : f2 * (c.marginFactor * ((d1 : Rat) - (d2 : Rat))) = c.marginFactor * (f2 - f1) * (d1 : Rat) := by grind
      rw [← this]; exact e2
    exact Rat.le_of_mul_le_mul_right e3 hp1
  grind

/-- A message that deviates from a constant period restarts the estimate. -/
theorem step_blocks {p : Int} (hp : 0 < p) {r : Rate Rat} {t t1 : Time} (hg : Good p r t) (hinit : r.doErrorInit = false)
    (hs : t.source = t1.source) (hlt : t.ns < t1.ns) (hne : t1.ns ≠ t.ns + p) :
    Blocking (r.update t1) ∧ (r.update t1).hz = 1000000000 / ((t1.ns - t.ns : Int) : Rat) := by
  have h1 : timeSub t1 r.prev = .ok (t1.ns - t.ns) := by rw [hg.prev]; simp [timeSub, hs]
  have hd : 0 < t1.ns - t.ns := by omega
  have hne : t1.ns - t.ns ≠ p := by omega
  generalize t1.ns - t.ns = d at *
  have h2 : le (seconds d : Rat) zero = false := by rw [Lawful.le_seconds]; simp; omega
  have hp1 := rat_pos hp
  have hp2 := rat_pos hd
  have hdiff : (1000000000 / (p : Rat)) ≠ 1000000000 / (d : Rat) := by
    intro h
    have g1 := gt_recip hp hd
    have g2 := gt_recip hd hp
    rw [h] at g1
    rw [h] at g2
    simp only [gt, decide_eq_decide] at g1 g2
    rcases Int.lt_or_gt_of_ne hne with h' | h'
    · have := g2.2 h'; grind
    · have := g1.2 h'; grind
  have h5 : gt (fabs (sub r.hz (1000000000 / (d : Rat)) : Rat)) (mul r.config.marginFactor r.error) = true := by
    rw [hg.error, hg.hz]
    simp only [gt, mul, fabs, sub, decide_eq_true_eq]
    grind
  have hpos : (0 : Rat) < 1000000000 / (d : Rat) := by rw [Rat.lt_div_iff hp2]; grind
  unfold Rate.update fuel Rate.computeHz Rate.pass
  simp only [h1, h2, period_recip rfl, hg.init, hinit, h5, Bool.false_eq_true, if_false, if_true, Rate.computeHz, Rate.pass]
  exact ⟨⟨hpos, Or.inl rfl⟩, trivial⟩

end MF.Latest
