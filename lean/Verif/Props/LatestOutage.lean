import Verif.Proofs.LatestOutage
/-
Property C116: LatestTime when an input stops.
-/
namespace MF.Latest

open MF.Event (Time)
open Arith

variable {n : Nat}

/-- **C116** (periodic inputs).  With exact arithmetic, if every input delivers at a constant period until it possibly stops, a set is
output exactly for the messages of the input with the smallest period among those that have delivered at least twice and are not
overdue, once every input has delivered.  So a fast input that stops after three or more messages gives way after one period. -/
theorem C116_periodic_partial (p : Fin n → Int) (hp : ∀ i, 0 < p i) (dflt : Config Rat) (configs : List (Config Rat)) (src : Source)
    (ops : List (Op n)) (op : Op n) (hc : OneClock src (ops ++ [op])) (ho : InOrder (ops ++ [op]))
    (hper : ∀ i, Periodic (p i) ((deliveries (ops ++ [op]) i).map (·.now)))
    (hmono : ∀ i last, (deliveries (ops ++ [op]) i).getLast? = some last → last.now.ns ≤ op.now.ns) :
    ∃ s s', run dflt (initial n configs) ops = .ok s ∧ run dflt (initial n configs) (ops ++ [op]) = .ok s' ∧
      (s'.out ≠ s.out ↔ (∀ i, deliveries (ops ++ [op]) i ≠ []) ∧ 2 ≤ (deliveries (ops ++ [op]) op.input).length ∧
        ∀ j, j ≠ op.input → 2 ≤ (deliveries (ops ++ [op]) j).length → ¬ Overdue (p j) (ops ++ [op]) j op.now →
          p op.input < p j ∨ (p op.input = p j ∧ op.input < j)) := by
  obtain ⟨s', hs', hrates'⟩ := C36_in_order_partial dflt configs src (ops ++ [op]) hc ho
  obtain ⟨s, hs, hstep⟩ := runE_snoc_ok hs'
  refine ⟨s, s', hs, hs', ?_⟩
  rw [C37_trigger dflt configs src ops op hc s s' hs hs']
  have hlen : 2 ≤ (deliveries (ops ++ [op]) op.input).length ↔ deliveries ops op.input ≠ [] := by
    rw [deliveries_snoc, if_pos rfl]
    cases deliveries ops op.input with
    | nil => simp
    | cons a l => simp
  -- the rate table
  have htab : ∀ (i : Fin n) (r : Rate Rat), s'.rates[i.val]? = some r →
      (Eligible r op.now ↔ 2 ≤ (deliveries (ops ++ [op]) i).length ∧ ¬ Overdue (p i) (ops ++ [op]) i op.now) ∧
      (2 ≤ (deliveries (ops ++ [op]) i).length → r.hz = 1000000000 / (p i : Rat)) := by
    intro i r hr
    rw [hrates'] at hr
    split at hr
    · cases hr
    rename_i hne
    exact periodic_rate_any (hp i) hr (hper i) (fun o hm => hc o hm) (hmono i)
  have hslot : ∀ i : Fin n, deliveries (ops ++ [op]) i ≠ [] → ∃ r, s'.rates[i.val]? = some r := by
    intro i hne
    rw [hrates', if_neg hne]
    unfold estimate
    cases hd : (deliveries (ops ++ [op]) i).head? with
    | none => exact absurd (List.head?_eq_none_iff.1 hd) hne
    | some f => exact ⟨_, rfl⟩
  have hidx : ∀ (q : Nat) (r : Rate Rat), s'.rates[q]? = some r → q < n := by
    intro q r hq
    have h1 := (run_rates _ _ hs').1
    rcases List.getElem?_eq_some_iff.1 hq with ⟨h, _⟩
    have := (firstArrivals_nodup (ops ++ [op])).length_le_of_subset (l₂ := List.finRange n) (fun x _ => List.mem_finRange x)
    simp at this
    omega
  have hself : ¬ Overdue (p op.input) (ops ++ [op]) op.input op.now := by
    rintro ⟨_, last, h1, h2⟩
    rw [deliveries_snoc, if_pos rfl] at h1
    simp at h1
    subst h1
    have := hp op.input
    omega
  constructor
  · rintro ⟨h1, _, h3, r, hr, he, hmax⟩
    refine ⟨h3, hlen.2 h1, ?_⟩
    intro j hj h2j hov
    obtain ⟨rj, hrj⟩ := hslot j (h3 j)
    have hej := (htab j rj hrj).1.2 ⟨h2j, hov⟩
    have hzi := (htab op.input r hr).2 (hlen.2 h1)
    have hzj := (htab j rj hrj).2 h2j
    rcases hmax j.val rj (fun h => hj (Fin.ext h)) hrj hej with h | ⟨h, hlt⟩
    · left
      rw [hzi, hzj, gt_recip (hp _) (hp _)] at h
      exact of_decide_eq_true h
    · rw [hzi, hzj, gt_recip (hp _) (hp _)] at h
      have := of_decide_eq_false h
      by_cases hlt' : p op.input < p j
      · exact Or.inl hlt'
      · exact Or.inr ⟨by omega, hlt⟩
  · rintro ⟨h1, h2, h3⟩
    refine ⟨hlen.1 h2, ?_, h1, ?_⟩
    · obtain ⟨r', hr'⟩ := hslot op.input (h1 _)
      obtain ⟨_, _, hrun⟩ := run_rates _ _ hs
      rcases add_cases hstep with ⟨h4, _⟩ | ⟨e0, r, b, r1, h4, h5, h6, _⟩
      · rw [(run_events _ _ hs).1, lastMsg_none] at h4
        exact absurd h4 (hlen.1 h2)
      · refine ⟨r, h5, ?_⟩
        -- the state before: the same theorem on the shorter history
        obtain ⟨s0, hs0, hr0⟩ := C36_in_order_partial dflt configs src ops (fun o ho => hc o (by simp [ho])) (inOrder_init ho)
        have : s0 = s := by
          have := hs0.symm.trans hs
          injection this
        subst this
        rw [hr0, if_neg (hlen.1 h2)] at h5
        exact periodic_prev (hp _) h5 (by
            have := hper op.input
            rw [deliveries_snoc, if_pos rfl] at this
            simpa using this)
          (fun o hm => hc o (by simp [(List.mem_filter.1 hm).1])) (hc op (by simp))
    · obtain ⟨r, hr⟩ := hslot op.input (h1 _)
      refine ⟨r, hr, (htab _ r hr).1.2 ⟨h2, hself⟩, ?_⟩
      intro q rq hq hrq heq
      have hqn := hidx q rq hrq
      obtain ⟨h2q, hovq⟩ := (htab ⟨q, hqn⟩ rq hrq).1.1 heq
      have hzi := (htab op.input r hr).2 h2
      have hzq := (htab ⟨q, hqn⟩ rq hrq).2 h2q
      rw [hzi, hzq, gt_recip (hp _) (hp _), gt_recip (hp _) (hp _)]
      rcases h3 ⟨q, hqn⟩ (fun h => hq (by rw [← h])) h2q hovq with h | ⟨h, hlt⟩
      · exact Or.inl (decide_eq_true h)
      · refine Or.inr ⟨decide_eq_false (by omega), hlt⟩


/-- Input 0 delivers at 10 Hz and stops after three messages; input 1 delivers at 1 Hz. -/
def stopping : List (Op 2) :=
  [⟨0, ⟨1, 0⟩, ⟨1000000000, .ros⟩⟩, ⟨1, ⟨2, 0⟩, ⟨1050000000, .ros⟩⟩, ⟨0, ⟨3, 0⟩, ⟨1100000000, .ros⟩⟩,
   ⟨0, ⟨4, 0⟩, ⟨1200000000, .ros⟩⟩, ⟨1, ⟨5, 0⟩, ⟨2050000000, .ros⟩⟩, ⟨1, ⟨6, 0⟩, ⟨3050000000, .ros⟩⟩]

/-- It meets the hypotheses, and the messages of input 1 are output. -/
example : OneClock .ros stopping ∧ InOrder stopping ∧
    (∀ i : Fin 2, Periodic ((fun j : Fin 2 => if j = 0 then 100000000 else 1000000000) i) ((deliveries stopping i).map (·.now))) ∧
    (∀ i : Fin 2, ∀ last ∈ (deliveries stopping i).getLast?, last.now.ns ≤ 3050000000) ∧
    outputs (run Fixed.dflt (initial 2 []) stopping) = some [[3, 2], [4, 2], [4, 5], [4, 6]] := by
  refine ⟨by unfold OneClock; decide, by unfold InOrder; decide, ?_, by decide, by decide⟩
  intro i
  match i with
  | 0 => simp [Periodic, stopping, deliveries]
  | 1 => simp [Periodic, stopping, deliveries]

/-- An input that has stopped never gives way exactly if its estimate is blocking: it has a rate, and no error estimate yet or one so
large that the margin covers the whole rate. -/
theorem C116_never_late_iff (r : Rate Rat) : Blocking r ↔ ∀ now : Time, r.prev.ns ≤ now.ns → Eligible r now := by
  refine ⟨fun h now hn => blocking_eligible h hn, fun h => ?_⟩
  have h0 : 0 < r.hz := by simpa [gt, zero] using (h r.prev (Int.le_refl _)).1
  refine ⟨h0, ?_⟩
  cases he : r.doErrorInit with
  | true => exact Or.inl rfl
  | false =>
    right
    apply Classical.byContradiction
    intro hlt
    have hlt : 0 < r.hz - r.config.marginFactor * r.error := by grind
    generalize hδ : r.hz - r.config.marginFactor * r.error = δ at hlt
    have hden : (0 : Int) < δ.den := by have := δ.den_pos; omega
    let t : Time := ⟨r.prev.ns + (1000000000 * δ.den + 1), r.prev.source⟩
    have hd : t.ns - r.prev.ns = 1000000000 * δ.den + 1 := by show r.prev.ns + _ - _ = _; omega
    refine (h t (by show r.prev.ns ≤ r.prev.ns + _; omega)).2 (late_after he (by show r.prev.ns < r.prev.ns + _; omega) ?_)
    rw [hδ, hd]
    have hdn : (0 : Rat) < (δ.den : Rat) := by exact_mod_cast rat_pos hden
    have h1 : δ * (δ.den : Rat) = δ.num := by
      have h2 : δ = (δ.num : Rat) / (δ.den : Rat) := by rw [← Rat.mkRat_eq_div, Rat.mkRat_self]
      have h3 : (δ.num : Rat) / (δ.den : Rat) * (δ.den : Rat) = δ.num := Rat.div_mul_cancel (by grind)
      rw [← h2] at h3
      exact h3
    have h2 : (1 : Rat) ≤ δ.num := by
      have : 0 < δ.num := by rw [Rat.lt_iff] at hlt; simpa using hlt
      have : (1 : Int) ≤ δ.num := by omega
      exact_mod_cast this
    have h3 : (((1000000000 * (δ.den : Int) + 1 : Int)) : Rat) = 1000000000 * (δ.den : Rat) + 1 := by
      push_cast; rfl
    rw [h3]
    grind

/-- **C116** (takes over).  A message of an input whose clock readings advance is output, once every input has delivered, if every other
input has no rate yet or has an error estimate and has been silent for longer than the estimate allows.  (Exact arithmetic, smoothing
factors of the rate and the error between 0 and 1.) -/
theorem C116_takes_over_partial (dflt : Config Rat) (configs : List (Config Rat)) (src : Source) (ops : List (Op n)) (op : Op n)
    (hc : OneClock src (ops ++ [op])) (ho : InOrder (ops ++ [op])) (hall : ∀ i, deliveries (ops ++ [op]) i ≠ [])
    (hcfg : ∀ c ∈ dflt :: configs, 0 ≤ c.rateAlpha ∧ c.rateAlpha ≤ 1 ∧ 0 ≤ c.errorAlpha ∧ c.errorAlpha ≤ 1)
    (lo hi : Rat) (hlo : 0 < lo) (hw : RatesWithin lo hi ((deliveries (ops ++ [op]) op.input).map (·.now)))
    (h2 : 2 ≤ (deliveries (ops ++ [op]) op.input).length) (s : State n Rat) (hs : run dflt (initial n configs) ops = .ok s)
    (hother : ∀ (j : Fin n) (r : Rate Rat), j ≠ op.input → s.rates[j.val]? = some r → r.hz ≤ 0 ∨
      (r.doErrorInit = false ∧ r.prev.ns < op.now.ns ∧
        1000000000 < ((op.now.ns - r.prev.ns : Int) : Rat) * (r.hz - r.config.marginFactor * r.error))) :
    ∃ s', run dflt (initial n configs) (ops ++ [op]) = .ok s' ∧ s'.out ≠ s.out := by
  obtain ⟨s', r, hs', hr, hlo', _, _, _⟩ := C58_estimate_within_bounds dflt configs src (ops ++ [op]) hc ho op.input lo hi hcfg hw h2
  refine ⟨s', hs', ?_⟩
  rw [C37_trigger dflt configs src ops op hc s s' hs hs']
  obtain ⟨s0, hs0, hr0⟩ := C36_in_order_partial dflt configs src ops (fun o ho => hc o (by simp [ho])) (inOrder_init ho)
  have : s0 = s := by
    have := hs0.symm.trans hs
    injection this
  subst this
  obtain ⟨s1, hs1, hr1⟩ := C36_in_order_partial dflt configs src (ops ++ [op]) hc ho
  have : s1 = s' := by
    have := hs1.symm.trans hs'
    injection this
  subst this
  have hd : deliveries ops op.input ≠ [] := by
    intro h
    rw [deliveries_snoc, if_pos rfl, h] at h2
    simp at h2
  have hsame : ∀ j, j ≠ op.input → deliveries (ops ++ [op]) j = deliveries ops j := by
    intro j hj
    rw [deliveries_snoc, if_neg (fun h => hj h.symm)]
  refine ⟨hd, ?_, hall, r, hr, ⟨?_, ?_⟩, ?_⟩
  · have hslot := hr0 op.input
    rw [if_neg hd] at hslot
    rw [deliveries_snoc, if_pos rfl, List.map_append] at hw
    cases hh : estimate dflt configs ops op.input op.input with
    | none =>
      unfold estimate at hh
      rw [Option.map_eq_none_iff, List.head?_eq_none_iff] at hh
      exact absurd hh hd
    | some r0 =>
      rw [hh] at hslot
      refine ⟨r0, hslot, ?_⟩
      obtain ⟨last, g1, g2⟩ := estimate_last (src := src) (fun o ho => hc o (by simp [(List.mem_filter.1 ho).1])) hh (rates_append _ _ hw)
      have := rates_last _ (by simpa using hd) hw
      rw [List.getLast_map] at this
      rw [List.getLast?_eq_some_getLast hd] at g1
      injection g1 with g1
      rw [g2, ← g1]
      exact this
  · simp only [gt, zero, decide_eq_true_eq]; grind
  · have hprev : r.prev = op.now := by
      have hslot := hr1 op.input
      rw [if_neg (hall _), hr] at hslot
      obtain ⟨last, g1, g2⟩ := estimate_last (src := src) (fun o ho => hc o (List.mem_filter.1 ho).1) hslot.symm hw
      rw [deliveries_snoc, if_pos rfl] at g1
      simp at g1
      rw [g2, ← g1]
    rintro ⟨hne, _⟩
    rw [hprev] at hne
    exact hne rfl
  · intro q r' hq hr' he
    exfalso
    have hqn : q < n := by
      have h1 := (run_rates _ _ hs').1
      rcases List.getElem?_eq_some_iff.1 hr' with ⟨h, _⟩
      have := (firstArrivals_nodup (ops ++ [op])).length_le_of_subset (l₂ := List.finRange n) (fun x _ => List.mem_finRange x)
      simp at this
      omega
    have hj : (⟨q, hqn⟩ : Fin n) ≠ op.input := fun h => hq (by rw [← h])
    have hslot := hr1 ⟨q, hqn⟩
    have hslot0 := hr0 ⟨q, hqn⟩
    rw [if_neg (hall _)] at hslot
    have hne := hall ⟨q, hqn⟩
    rw [hsame _ hj] at hne
    rw [if_neg hne] at hslot0
    have heq : estimate dflt configs (ops ++ [op]) (⟨q, hqn⟩ : Fin n) ⟨q, hqn⟩ = estimate dflt configs ops ⟨q, hqn⟩ ⟨q, hqn⟩ := by
      unfold estimate; rw [hsame _ hj]
    rw [heq, ← hslot0] at hslot
    rw [hr'] at hslot
    rcases hother ⟨q, hqn⟩ r' hj hslot.symm with h | ⟨g1, g2, g3⟩
    · have := he.1
      simp only [gt, zero, decide_eq_true_eq] at this
      grind
    · exact he.2 (late_after g1 g2 g3)

/-- The messages of input 1 in `stopping` meet these hypotheses in all but the arithmetic: its clock readings are 1 s apart, and input 0
has delivered three messages. -/
example : (∀ i : Fin 2, deliveries stopping i ≠ []) ∧ 2 ≤ (deliveries stopping 1).length ∧ RatesWithin 1 1 ((deliveries stopping 1).map (·.now)) := by
  refine ⟨by decide, by decide, ?_⟩
  simp only [stopping, deliveries]
  have h : (1000000000 : Rat) / ((1000000000 : Int) : Rat) = 1 := by
    have : ((1000000000 : Int) : Rat) = 1000000000 := rfl
    rw [this]; grind
  exact ⟨by decide, by show (1 : Rat) ≤ 1000000000 / ((1000000000 : Int) : Rat); rw [h]; exact Rat.le_refl,
    by show 1000000000 / ((1000000000 : Int) : Rat) ≤ (1 : Rat); rw [h]; exact Rat.le_refl,
    by decide, by show (1 : Rat) ≤ 1000000000 / ((1000000000 : Int) : Rat); rw [h]; exact Rat.le_refl,
    by show 1000000000 / ((1000000000 : Int) : Rat) ≤ (1 : Rat); rw [h]; exact Rat.le_refl, trivial⟩

/-- **C116** (violated).  If the input with the blocking estimate stops and all other inputs are slower, nothing is ever output again,
however long they go on. -/
theorem C116_silent_forever (dflt : Config Rat) (configs : List (Config Rat)) (src : Source) (hist ext : List (Op n))
    (hc : OneClock src (hist ++ ext)) (ho : InOrder (hist ++ ext))
    (hcfg : ∀ c ∈ dflt :: configs, 0 ≤ c.rateAlpha ∧ c.rateAlpha ≤ 1 ∧ 0 ≤ c.errorAlpha ∧ c.errorAlpha ≤ 1)
    (s : State n Rat) (hs : run dflt (initial n configs) hist = .ok s) (j : Fin n) (r : Rate Rat) (hr : s.rates[j.val]? = some r)
    (hb : Blocking r) (hstop : ∀ op ∈ ext, op.input ≠ j ∧ r.prev.ns ≤ op.now.ns) (lo hi : Rat) (hhi : hi < r.hz)
    (hslow : ∀ i, i ≠ j → RatesWithin lo hi ((deliveries (hist ++ ext) i).map (·.now))) :
    ∃ s', run dflt (initial n configs) (hist ++ ext) = .ok s' ∧ s'.out = s.out := by
  induction ext using snoc_induction with
  | h0 => exact ⟨s, by rw [List.append_nil]; exact hs, rfl⟩
  | hs ext op ih =>
    rw [← List.append_assoc] at hc ho hslow ⊢
    have hc1 : OneClock src (hist ++ ext) := fun o h => hc o (List.mem_append.2 (Or.inl h))
    obtain ⟨s1, hs1, hout⟩ := ih hc1 (inOrder_init ho) (fun o h => hstop o (by simp [h])) (fun i hi => by
      have := hslow i hi
      rw [deliveries_snoc] at this
      split at this
      · rw [List.map_append] at this
        exact rates_append _ _ this
      · exact this)
    obtain ⟨s2, hs2, hr2⟩ := C36_in_order_partial dflt configs src (hist ++ ext ++ [op]) hc ho
    refine ⟨s2, hs2, ?_⟩
    apply Classical.byContradiction
    intro hne
    rw [← hout] at hne
    obtain ⟨hd, _, hall, ro, hro, _, hmax⟩ := (C37_trigger dflt configs src (hist ++ ext) op hc s1 s2 hs1 hs2).1 hne
    obtain ⟨hij, hnow⟩ := hstop op (by simp)
    have h2 : 2 ≤ (deliveries (hist ++ ext ++ [op]) op.input).length := by
      rw [deliveries_snoc, if_pos rfl, List.length_append]
      have := List.length_pos_iff.2 hd
      simp; omega
    obtain ⟨s3, ro', hs3, hro', _, hle, _⟩ :=
      C58_estimate_within_bounds dflt configs src (hist ++ ext ++ [op]) hc ho op.input lo hi hcfg (hslow _ hij) h2
    have : s3 = s2 := by
      have := hs3.symm.trans hs2
      injection this
    subst this
    rw [hro] at hro'
    injection hro' with hro'
    subst hro'
    -- the estimate of the input that stopped is still the same
    have hsame : deliveries (hist ++ ext ++ [op]) j = deliveries hist j := by
      unfold deliveries
      rw [List.append_assoc, List.filter_append]
      have : (ext ++ [op]).filter (fun o => decide (o.input = j)) = [] :=
        List.filter_eq_nil_iff.2 (fun o h => by simpa using (hstop o h).1)
      rw [this, List.append_nil]
    have hrj : s3.rates[j.val]? = some r := by
      obtain ⟨s0, hs0, hr0⟩ := C36_in_order_partial dflt configs src hist (fun o h => hc o (by simp [h]))
        (inOrder_pre (post := ext ++ [op]) (by rw [← List.append_assoc]; exact ho))
      have : s0 = s := by
        have := hs0.symm.trans hs
        injection this
      subst this
      rw [hr2, if_neg (hall j)]
      rw [hr0] at hr
      split at hr
      · cases hr
      · rw [← hr]; unfold estimate; rw [hsame]
    rcases hmax j.val r (fun h => hij (Fin.ext h.symm)) hrj (blocking_eligible hb hnow) with h | ⟨h, _⟩
    · simp only [gt, decide_eq_true_eq] at h; grind
    · simp only [gt, decide_eq_false_iff_not] at h; grind

/-- An input that has delivered exactly two messages blocks, whatever the configuration. -/
theorem C116_two_messages_block (dflt : Config Rat) (configs : List (Config Rat)) (src : Source) (ops : List (Op n))
    (hc : OneClock src ops) (ho : InOrder ops) (j : Fin n) (a b : Op n) (hd : deliveries ops j = [a, b]) (hab : a.now.ns < b.now.ns) :
    ∃ s r, run dflt (initial n configs) ops = .ok s ∧ s.rates[j.val]? = some r ∧ Blocking r ∧
      r.hz = 1000000000 / ((b.now.ns - a.now.ns : Int) : Rat) := by
  obtain ⟨s, hs, hr⟩ := C36_in_order_partial dflt configs src ops hc ho
  have hrj := hr j
  have hsrc : ∀ o ∈ [a, b], o.now.source = src := fun o h => hc o (List.mem_filter.1 (by rw [← hd] at h; exact h)).1
  rw [if_neg (by rw [hd]; simp)] at hrj
  unfold estimate at hrj
  rw [hd] at hrj
  simp only [List.head?_cons, Option.map_some, List.tail_cons, List.map_cons, List.map_nil, List.foldl_cons, List.foldl_nil] at hrj
  rw [start_update_init _ ((hsrc a (by simp)).trans (hsrc b (by simp)).symm) hab] at hrj
  refine ⟨s, _, hs, hrj, ⟨?_, Or.inl rfl⟩, rfl⟩
  show (0 : Rat) < 1000000000 / _
  rw [Rat.lt_div_iff (rat_pos (by omega))]
  grind

example : deliveries (stopping.take 3) 0 = [⟨0, ⟨1, 0⟩, ⟨1000000000, .ros⟩⟩, ⟨0, ⟨3, 0⟩, ⟨1100000000, .ros⟩⟩] ∧
    InOrder (stopping.take 3) ∧ OneClock .ros (stopping.take 3) := by
  refine ⟨rfl, by unfold InOrder; decide, by unfold OneClock; decide⟩

/-- An input whose first two intervals differ by enough blocks after its third message: with the default margin factor of 10, if the
second interval is shorter by a tenth or more. -/
theorem C116_uneven_start_blocks (dflt : Config Rat) (configs : List (Config Rat)) (src : Source) (ops : List (Op n))
    (hc : OneClock src ops) (ho : InOrder ops) (j : Fin n) (a b c : Op n) (hd : deliveries ops j = [a, b, c])
    (hab : a.now.ns < b.now.ns) (hbc : b.now.ns < c.now.ns)
    (halpha : 0 ≤ (configFor dflt configs j).rateAlpha ∧ (configFor dflt configs j).rateAlpha ≤ 1)
    (hm : ((b.now.ns - a.now.ns : Int) : Rat) ≤
      (configFor dflt configs j).marginFactor * (((b.now.ns - a.now.ns : Int) : Rat) - ((c.now.ns - b.now.ns : Int) : Rat)))
    (hshort : c.now.ns - b.now.ns < b.now.ns - a.now.ns) :
    ∃ s r, run dflt (initial n configs) ops = .ok s ∧ s.rates[j.val]? = some r ∧ Blocking r := by
  obtain ⟨s, hs, hr⟩ := C36_in_order_partial dflt configs src ops hc ho
  have hrj := hr j
  have hsrc : ∀ o ∈ [a, b, c], o.now.source = src := fun o h => hc o (List.mem_filter.1 (by rw [← hd] at h; exact h)).1
  rw [if_neg (by rw [hd]; simp)] at hrj
  unfold estimate at hrj
  rw [hd] at hrj
  simp only [List.head?_cons, Option.map_some, List.tail_cons, List.map_cons, List.map_nil, List.foldl_cons, List.foldl_nil] at hrj
  rw [start_update_init _ ((hsrc a (by simp)).trans (hsrc b (by simp)).symm) hab] at hrj
  refine ⟨s, _, hs, hrj, ?_⟩
  exact third_blocks ((hsrc b (by simp)).trans (hsrc c (by simp)).symm) hbc (by omega) halpha.1 halpha.2 hshort hm

/-- Input 0 delivers after 1 s and then after 0.5 s. -/
def uneven : List (Op 2) :=
  [⟨0, ⟨1, 0⟩, ⟨1000000000, .ros⟩⟩, ⟨1, ⟨2, 0⟩, ⟨1050000000, .ros⟩⟩, ⟨0, ⟨3, 0⟩, ⟨2000000000, .ros⟩⟩, ⟨0, ⟨4, 0⟩, ⟨2500000000, .ros⟩⟩]

/-- Then it stops, and input 1 goes on at 1 Hz without any further output: shown for eight messages. -/
example : OneClock .ros uneven ∧ InOrder uneven ∧ (deliveries uneven 0).map (·.now.ns) = [1000000000, 2000000000, 2500000000] ∧
    (1000000000 : Rat) ≤ 10 * (1000000000 - 500000000) ∧
    outputs (run Fixed.dflt (initial 2 []) (uneven ++ (List.range 8).map (fun k => ⟨1, ⟨10 + k, 0⟩, ⟨2550000000 + k * 1000000000, .ros⟩⟩))) =
      some [[3, 2], [4, 2]] := by
  refine ⟨by unfold OneClock; decide, by unfold InOrder; decide, by decide, by grind, by decide⟩

/-- An input that delivered at a constant period, at least three times, and whose last message then came earlier or later, blocks: the
deviation is taken for a change of its rate. -/
theorem C116_step_change_blocks (p : Int) (hp : 0 < p) (dflt : Config Rat) (configs : List (Config Rat)) (src : Source)
    (ops : List (Op n)) (op : Op n) (hc : OneClock src (ops ++ [op])) (ho : InOrder (ops ++ [op])) (h3 : 3 ≤ (deliveries ops op.input).length)
    (hper : Periodic p ((deliveries ops op.input).map (·.now))) (last : Op n) (hlast : (deliveries ops op.input).getLast? = some last)
    (hlt : last.now.ns < op.now.ns) (hne : op.now.ns ≠ last.now.ns + p) :
    ∃ s r, run dflt (initial n configs) (ops ++ [op]) = .ok s ∧ s.rates[op.input.val]? = some r ∧ Blocking r ∧
      r.hz = 1000000000 / ((op.now.ns - last.now.ns : Int) : Rat) := by
  obtain ⟨s, hs, hr⟩ := C36_in_order_partial dflt configs src (ops ++ [op]) hc ho
  have hrj := hr op.input
  have hsrc : ∀ o ∈ deliveries ops op.input, o.now.source = src := fun o h => hc o (by simp [(List.mem_filter.1 h).1])
  have hd : deliveries ops op.input ≠ [] := by intro h; rw [h] at h3; simp at h3
  rw [if_neg (by rw [deliveries_snoc, if_pos rfl]; simp)] at hrj
  cases hh : estimate dflt configs ops op.input op.input with
  | none =>
    unfold estimate at hh
    rw [Option.map_eq_none_iff, List.head?_eq_none_iff] at hh
    exact absurd hh hd
  | some r0 =>
    have hupd : estimate dflt configs (ops ++ [op]) op.input op.input = some (r0.update op.now) := by
      unfold estimate at hh ⊢
      rw [head_snoc op hd, tail_snoc hd]
      rw [Option.map_eq_some_iff] at hh
      obtain ⟨f, hf, hh⟩ := hh
      rw [hf, Option.map_some, List.map_append, List.foldl_append, hh]
      rfl
    rw [hupd] at hrj
    obtain ⟨last', g1, g2, g3⟩ := periodic_estimate hp hh hper hsrc
    rw [hlast] at g1; cases g1
    have hinit := periodic_errorInit hp hh hper hsrc (by omega)
    rw [decide_eq_false (by omega)] at hinit
    rcases g3 with ⟨_, g4, _⟩ | ⟨_, hg⟩
    · omega
    · obtain ⟨k1, k2⟩ := step_blocks hp hg hinit (by rw [hsrc last (List.mem_of_getLast? hlast), hc op (by simp)]) hlt hne
      exact ⟨s, _, hs, hrj, k1, k2⟩

/-- Three messages at 10 Hz and a fourth 150 ms later. -/
example : let ops : List (Op 2) := stopping.take 4
    OneClock .ros (ops ++ [⟨0, ⟨7, 0⟩, ⟨1350000000, .ros⟩⟩]) ∧ InOrder (ops ++ [⟨0, ⟨7, 0⟩, ⟨1350000000, .ros⟩⟩]) ∧
    (deliveries ops 0).length = 3 ∧ Periodic 100000000 ((deliveries ops 0).map (·.now)) := by
  refine ⟨by unfold OneClock; decide, by unfold InOrder; decide, by decide, ?_⟩
  simp [Periodic, stopping, deliveries]

end MF.Latest
