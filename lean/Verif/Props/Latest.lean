import Verif.Proofs.Latest
/-
Properties C35 to C37 and C57: LatestTime.
-/
namespace MF.Latest

open MF.Event (Time)
open Arith

variable {D : Type} [Arith D] {n : Nat}

/-- C35: one message outputs at most one set, which consists of the most recent message of every input (including the
message just added), so nothing is output before every input has delivered.  This holds for any floating point behaviour
and any clock. -/
theorem C35_latest (dflt : Config D) (configs : List (Config D)) (ops : List (Op n)) (op : Op n) (s s' : State n D)
    (h : run dflt (initial n configs) ops = .ok s) (h' : run dflt (initial n configs) (ops ++ [op]) = .ok s') :
    s'.out = s.out ∨ ∃ t, s'.out = s.out ++ [t] ∧ ∀ i, lastMsg (ops ++ [op]) i = some (t i) := by
  obtain ⟨s1, h1, h2⟩ := runE_snoc_ok h'
  have : s1 = s := by
    have := h.symm.trans h1
    injection this with this
    exact this.symm
  subst this
  obtain ⟨hev, _⟩ := run_events _ _ h'
  rcases add_cases h2 with ⟨_, rfl⟩ | ⟨_, _, _, _, _, _, _, _, _, _, ⟨_, g⟩ | ⟨_, _, _, ⟨t, _, g1, g2⟩ | ⟨_, g⟩⟩⟩
  · exact Or.inl rfl
  · exact Or.inl g
  · refine Or.inr ⟨t, g2, ?_⟩
    intro i
    rw [← hev, full_some.1 g1 i]
  · exact Or.inl g

/-- C35: the first message of an input never causes an output, and the clock must have advanced; so every input but the one
that triggers may have delivered only once, and the triggering input has delivered before. -/
theorem C35_not_on_first (dflt : Config D) (configs : List (Config D)) (ops : List (Op n)) (op : Op n) (s s' : State n D)
    (h : run dflt (initial n configs) ops = .ok s) (h' : run dflt (initial n configs) (ops ++ [op]) = .ok s')
    (hout : s'.out ≠ s.out) : deliveries ops op.input ≠ [] := by
  obtain ⟨s1, h1, h2⟩ := runE_snoc_ok h'
  have : s1 = s := by
    have := h.symm.trans h1
    injection this with this
    exact this.symm
  subst this
  obtain ⟨hev, _⟩ := run_events _ _ h
  intro hd
  rw [← lastMsg_none, ← hev] at hd
  rcases add_cases h2 with ⟨_, rfl⟩ | ⟨_, _, _, _, h3, _⟩
  · exact hout rfl
  · rw [hd] at h3; cases h3

/-- Two inputs; 10 Hz and 5 Hz. -/
def sample : List (Op 2) :=
  [⟨0, ⟨1, 0⟩, ⟨1000000000, .ros⟩⟩, ⟨1, ⟨2, 0⟩, ⟨1050000000, .ros⟩⟩, ⟨0, ⟨3, 0⟩, ⟨1100000000, .ros⟩⟩,
   ⟨0, ⟨4, 0⟩, ⟨1200000000, .ros⟩⟩, ⟨1, ⟨5, 0⟩, ⟨1250000000, .ros⟩⟩, ⟨0, ⟨6, 0⟩, ⟨1300000000, .ros⟩⟩]

/-- The messages (identities) of the sets output by a history. -/
def outputs {n : Nat} (r : Except Fault (State n D)) : Option (List (List Nat)) :=
  match r with
  | .ok s => some (s.out.map (fun t => (List.finRange n).map (fun i => (t i).id)))
  | .error _ => none

example : outputs (run Fixed.dflt (initial 2 []) sample) = some [[3, 2], [4, 2], [6, 5]] := by decide

/-- C36, the exact condition: with one clock and no NaN, a history is safe unless some input delivers a further message
while the number of inputs seen is at most its index; then `add` reads beyond the end of the rate table. -/
theorem C36_safe_iff [Lawful D] (dflt : Config D) (configs : List (Config D)) (src : Source) (ops : List (Op n))
    (hc : OneClock src ops) :
    (OutOfBounds ops → run dflt (initial n configs) ops = .error .ub) ∧
    (¬ OutOfBounds ops → ∃ s, run dflt (initial n configs) ops = .ok s) := run_fault ops hc

/-- C36 (partial: for histories in which the inputs send their first messages in the order of their indices; in general it is
false, see `C36_out_of_bounds` and `C36_wrong_rate`): no fault, and the estimate kept for input `i` is made from the messages
and the configuration of input `i`. -/
theorem C36_in_order_partial [Lawful D] (dflt : Config D) (configs : List (Config D)) (src : Source) (ops : List (Op n))
    (hc : OneClock src ops) (ho : InOrder ops) :
    ∃ s, run dflt (initial n configs) ops = .ok s ∧
      ∀ i : Fin n, s.rates[i.val]? = if deliveries ops i = [] then none else estimate dflt configs ops i i := by
  obtain ⟨s, hs⟩ := (run_fault (dflt := dflt) (configs := configs) ops hc).2 (inOrder_safe ho)
  refine ⟨s, hs, ?_⟩
  obtain ⟨h1, h2, h3⟩ := run_rates ops s hs
  intro i
  by_cases hd : deliveries ops i = []
  · rw [if_pos hd]
    have : i ∉ firstArrivals ops := by rw [mem_firstArrivals]; exact fun h => h hd
    rw [inOrder_mem ho] at this
    exact List.getElem?_eq_none_iff.2 (by omega)
  · rw [if_neg hd]
    apply h3
    exact inOrder_get ho ((inOrder_mem ho i).1 ((mem_firstArrivals ops i).2 hd))

/-- C36, what is kept in general: slot `k` of the rate table is started by the first message, and has the configuration, of
the input that was the `k`-th to arrive, and is updated by the later messages of input `k`. -/
theorem C36_rate_slots (dflt : Config D) (configs : List (Config D)) (ops : List (Op n)) (s : State n D)
    (h : run dflt (initial n configs) ops = .ok s) :
    s.rates.length = (firstArrivals ops).length ∧
    ∀ (k j : Fin n), (firstArrivals ops)[k.val]? = some j → s.rates[k.val]? = estimate dflt configs ops j k :=
  ⟨(run_rates ops s h).1, (run_rates ops s h).2.2⟩

/-- C36: a history in which no input repeats before all inputs have been seen is safe. -/
theorem C36_safe_if_all_first [Lawful D] (dflt : Config D) (configs : List (Config D)) (src : Source) (ops : List (Op n))
    (hc : OneClock src ops)
    (ha : ∀ pre op post, ops = pre ++ op :: post → deliveries pre op.input ≠ [] → ∀ j, deliveries pre j ≠ []) :
    ∃ s, run dflt (initial n configs) ops = .ok s := by
  refine (run_fault ops hc).2 ?_
  rintro ⟨pre, op, post, h1, h2, h3⟩
  have hall := ha pre op post h1 h2
  have hsub : (List.finRange n).length ≤ (firstArrivals pre).length := by
    apply List.Nodup.length_le_of_subset (List.nodup_finRange n)
    intro j _
    rw [mem_firstArrivals]; exact hall j
  simp at hsub
  omega

/-- C36 is false: input 1 delivering twice before input 0 delivers reads beyond the end of the rate table. -/
theorem C36_out_of_bounds : ∃ ops : List (Op 2), OneClock .ros ops ∧
    run Fixed.dflt (initial 2 []) ops = .error .ub :=
  ⟨[⟨1, ⟨1, 0⟩, ⟨1, .ros⟩⟩, ⟨1, ⟨2, 0⟩, ⟨2, .ros⟩⟩], by intro op h; simp at h; rcases h with rfl | rfl <;> rfl, rfl⟩

/-- C36 is false also without a fault: if input 1 arrives first, the estimate kept for input 0 is not the one made from the
messages and the configuration of input 0 (5 Hz with its first message at 1.0 s and its second at 1.2 s, but 1 Hz is
estimated because the first message of input 1 came at 0.2 s). -/
theorem C36_wrong_rate : ∃ (ops : List (Op 2)) (s : State 2 Fixed), OneClock .ros ops ∧
    run Fixed.dflt (initial 2 []) ops = .ok s ∧ s.rates[0]?.map (·.hz.val) = some 1000000000 ∧
    (estimate Fixed.dflt [] ops 0 0).map (·.hz.val) = some 5000000000 :=
  ⟨[⟨1, ⟨1, 0⟩, ⟨200000000, .ros⟩⟩, ⟨0, ⟨2, 0⟩, ⟨1000000000, .ros⟩⟩, ⟨0, ⟨3, 0⟩, ⟨1200000000, .ros⟩⟩], _,
    by intro op h; simp at h; rcases h with rfl | rfl | rfl <;> rfl, rfl, by decide, by decide⟩

/-- The hypotheses of C36 and C37 are met by `sample`. -/
example : OneClock .ros sample ∧ InOrder sample := by
  refine ⟨?_, by unfold InOrder; decide⟩
  intro op h
  simp [sample] at h
  rcases h with rfl | rfl | rfl | rfl | rfl | rfl <;> rfl

/-- C37: a message causes an output exactly when its input had delivered before, the clock has advanced since the last
message used for its rate, every input has delivered, and its input is the one of the highest estimated rate (ties to the
lower index) among those that have an estimated rate and are not late. -/
theorem C37_trigger [Lawful D] (dflt : Config D) (configs : List (Config D)) (src : Source) (ops : List (Op n)) (op : Op n)
    (hc : OneClock src (ops ++ [op])) (s s' : State n D)
    (h : run dflt (initial n configs) ops = .ok s) (h' : run dflt (initial n configs) (ops ++ [op]) = .ok s') :
    s'.out ≠ s.out ↔ deliveries ops op.input ≠ [] ∧ (∃ r, s.rates[op.input.val]? = some r ∧ r.prev.ns < op.now.ns) ∧
      (∀ i, deliveries (ops ++ [op]) i ≠ []) ∧ IsPivot s'.rates op.now op.input.val := by
  obtain ⟨s1, h1, h2⟩ := runE_snoc_ok h'
  have : s1 = s := by
    have := h.symm.trans h1
    injection this with this
    exact this.symm
  subst this
  obtain ⟨hev, _⟩ := run_events _ _ h
  obtain ⟨hev', _⟩ := run_events _ _ h'
  have hsrc := run_sources _ _ h (src := src) (fun o ho => hc o (by simp [ho]))
  have hsrc' := run_sources _ _ h' hc
  have hnow := hc op (by simp)
  rcases add_cases h2 with ⟨h3, rfl⟩ | ⟨e0, r, b, r', h3, h4, h5, h6, h7, h8, h9⟩
  · constructor
    · intro hx; exact absurd rfl hx
    · rintro ⟨hd, _⟩
      rw [hev, lastMsg_none] at h3
      exact absurd h3 hd
  · have hd : deliveries ops op.input ≠ [] := by
      rw [Ne, ← lastMsg_none, ← hev, h3]; simp
    obtain ⟨b', r'', g1, _, _, g4⟩ := computeHz_ok r op.now
    rw [h5] at g1
    injection g1 with g1
    injection g1 with g1 g1'
    subst g1 g1'
    have hrs : r.prev.source = op.now.source := by rw [hsrc r (List.mem_of_getElem? h4), hnow]
    have hadv : b = true ↔ r.prev.ns < op.now.ns := by
      rw [g4]
      simp only [timeSub, hrs, ne_eq, not_true_eq_false, if_false, Except.ok.injEq, exists_eq_left', Lawful.le_seconds,
        decide_eq_false_iff_not]
      omega
    have hfull : (∃ t, full s'.events = some t) ↔ ∀ i, deliveries (ops ++ [op]) i ≠ [] := by
      rw [← Option.isSome_iff_exists, ← Option.ne_none_iff_isSome, Ne, full_none]
      constructor
      · intro hf i hdi
        apply hf
        intro hall
        have := hall i
        rw [hev', (lastMsg_none _ _).2 hdi] at this
        cases this
      · intro hall hf
        apply hf
        intro i
        rw [hev', ← Option.ne_none_iff_isSome, Ne, lastMsg_none]
        exact hall i
    rcases h9 with ⟨hb, ho⟩ | ⟨hb, p, hp, hcase⟩
    · constructor
      · intro hx; exact absurd ho hx
      · rintro ⟨_, ⟨r0, hr0, hlt⟩, _⟩
        rw [h4] at hr0
        injection hr0 with hr0
        subst hr0
        rw [← hadv, hb] at hlt
        cases hlt
    · obtain ⟨p', hp', hpiv⟩ := findPivot_ok (v := s'.rates) (now := op.now) (fun x hx => by rw [hsrc' x hx, hnow])
      rw [hp] at hp'
      injection hp' with hp'
      subst hp'
      rcases hcase with ⟨t, hpi, hft, ho⟩ | ⟨hno, ho⟩
      · constructor
        · intro _
          exact ⟨hd, ⟨r, h4, hadv.1 hb⟩, hfull.1 ⟨t, hft⟩, (hpiv _).1 hpi⟩
        · intro _ hx
          rw [ho] at hx
          simp at hx
      · constructor
        · intro hx; exact absurd ho hx
        · rintro ⟨_, _, hf, hpi⟩
          exact absurd ⟨(hpiv _).2 hpi, hfull.2 hf⟩ hno

/-- C37: a message never causes an output if the clock has not advanced since the previous message of its input.  (The
previous message must be one that was used for the rate of this input: not its first, unless the inputs arrived in order.) -/
theorem C37_clock_must_advance [Lawful D] (dflt : Config D) (configs : List (Config D)) (src : Source) (ops : List (Op n))
    (op prev : Op n) (hc : OneClock src (ops ++ [op])) (s s' : State n D)
    (h : run dflt (initial n configs) ops = .ok s) (h' : run dflt (initial n configs) (ops ++ [op]) = .ok s')
    (hprev : (deliveries ops op.input).getLast? = some prev)
    (hused : (deliveries ops op.input).length ≥ 2 ∨ (firstArrivals ops)[op.input.val]? = some op.input)
    (hclock : op.now.ns ≤ prev.now.ns) : s'.out = s.out := by
  apply Classical.byContradiction
  intro hne
  obtain ⟨hd, ⟨r, hr, hlt⟩, _⟩ := (C37_trigger dflt configs src ops op hc s s' h h').1 hne
  obtain ⟨hlen, htl, hest⟩ := run_rates ops s h
  have hk : op.input.val < (firstArrivals ops).length := by
    rcases List.getElem?_eq_some_iff.1 hr with ⟨h, _⟩; omega
  obtain ⟨j, hj⟩ : ∃ j, (firstArrivals ops)[op.input.val]? = some j := ⟨_, List.getElem?_eq_getElem hk⟩
  have hrj := hest op.input j hj
  rw [hr] at hrj
  unfold estimate at hrj
  cases hh : (deliveries ops j).head? with
  | none => rw [hh] at hrj; cases hrj
  | some first =>
    rw [hh] at hrj
    simp only [Option.map_some, Option.some.injEq] at hrj
    have hmemd : ∀ i, ∀ o ∈ deliveries ops i, o.now.source = src := by
      intro i o ho
      exact hc o (by simp [(List.mem_filter.1 ho).1])
    cases hds : deliveries ops op.input with
    | nil => exact absurd hds hd
    | cons a l =>
      rw [hds] at hrj hprev
      simp only [List.tail_cons] at hrj
      rcases List.eq_nil_or_concat l with rfl | ⟨l', last, rfl⟩
      · simp only [List.map_nil, List.foldl_nil] at hrj
        simp at hprev
        subst hprev
        rw [hds] at hused
        rcases hused with hu | hu
        · simp at hu
        · rw [hj] at hu
          injection hu with hu
          subst hu
          rw [hds] at hh
          simp at hh
          subst hh
          rw [hrj] at hlt
          simp only [Rate.start] at hlt
          omega
      · have hl : (a :: (l' ++ [last])).getLast? = some last := by
          rw [← List.cons_append, List.getLast?_append]; simp
        have hl' : prev = last := by
          have : some last = some prev := by rw [← hl]; simpa using hprev
          injection this with this; exact this.symm
        subst hl'
        have hsrcs : ∀ (ts : List Time) (r0 : Rate D), r0.prev.source = src → (∀ t ∈ ts, t.source = src) →
            (ts.foldl Rate.update r0).prev.source = src := by
          intro ts
          induction ts with
          | nil => intro r0 h0 _; exact h0
          | cons t ts ih =>
            intro r0 h0 ht
            refine ih _ ?_ (fun x hx => ht x (by simp [hx]))
            have h1 := ht t (by simp)
            rw [(update_prev r0 t (by rw [h0, h1])).2, h1]
        have hpsrc : prev.now.source = src := hmemd op.input prev (by rw [hds]; simp)
        have hx : (List.foldl Rate.update (Rate.start first.now (configFor dflt configs j)) (l'.map (·.now))).prev.source = src := by
          apply hsrcs
          · exact hmemd j first (List.mem_of_mem_head? hh)
          · intro t ht
            obtain ⟨o, ho, rfl⟩ := List.mem_map.1 ht
            exact hmemd op.input o (by rw [hds]; simp [ho])
        have := (update_prev _ prev.now (by rw [hx, hpsrc])).1
        simp only [List.concat_eq_append, List.map_append, List.map_cons, List.map_nil, List.foldl_append, List.foldl_cons,
          List.foldl_nil] at hrj
        rw [← hrj] at this
        omega

/-- C37: `compute_hz` returns after at most two passes of its loop, whatever the arithmetic. -/
theorem C37_two_passes (r : Rate D) (now : Time) : ∃ b r', r.computeHz 2 now = .ok (b, r') := by
  obtain ⟨b, r', h, _⟩ := computeHz_ok r now
  exact ⟨b, r', h⟩

/-- C57: with exact arithmetic, if every input delivers at a constant period and none is overdue, a set is output exactly for
the messages of the input with the smallest period among those that have delivered at least twice (ties to the lower index),
once every input has delivered. -/
theorem C57_periodic (p : Fin n → Int) (hp : ∀ i, 0 < p i) (dflt : Config Rat) (configs : List (Config Rat)) (src : Source)
    (ops : List (Op n)) (op : Op n) (hc : OneClock src (ops ++ [op])) (ho : InOrder (ops ++ [op]))
    (hper : ∀ i, Periodic (p i) ((deliveries (ops ++ [op]) i).map (·.now)))
    (hpun : ∀ i last, (deliveries (ops ++ [op]) i).getLast? = some last →
      last.now.ns ≤ op.now.ns ∧ op.now.ns ≤ last.now.ns + p i) :
    ∃ s s', run dflt (initial n configs) ops = .ok s ∧ run dflt (initial n configs) (ops ++ [op]) = .ok s' ∧
      (s'.out ≠ s.out ↔ (∀ i, deliveries (ops ++ [op]) i ≠ []) ∧ 2 ≤ (deliveries (ops ++ [op]) op.input).length ∧
        ∀ j, j ≠ op.input → 2 ≤ (deliveries (ops ++ [op]) j).length →
          p op.input < p j ∨ (p op.input = p j ∧ op.input < j)) := by
  obtain ⟨s', hs', hrates'⟩ := C36_in_order_partial dflt configs src (ops ++ [op]) hc ho
  obtain ⟨s, hs, hstep⟩ := runE_snoc_ok hs'
  refine ⟨s, s', hs, hs', ?_⟩
  rw [C37_trigger dflt configs src ops op hc s s' hs hs']
  have hlen : 2 ≤ (deliveries (ops ++ [op]) op.input).length ↔ deliveries ops op.input ≠ [] := by
    rw [deliveries_snoc, if_pos rfl]
    cases deliveries ops op.input with
    | nil => simp
    | cons a l => simp
  -- the rate table
  have htab : ∀ (i : Fin n) (r : Rate Rat), s'.rates[i.val]? = some r →
      (Eligible r op.now ↔ 2 ≤ (deliveries (ops ++ [op]) i).length) ∧
      (2 ≤ (deliveries (ops ++ [op]) i).length → r.hz = 1000000000 / (p i : Rat)) := by
    intro i r hr
    rw [hrates'] at hr
    split at hr
    · cases hr
    rename_i hne
    exact periodic_rate (hp i) hr (hper i) (fun o hm => hc o hm) (hpun i)
  have hslot : ∀ i : Fin n, deliveries (ops ++ [op]) i ≠ [] → ∃ r, s'.rates[i.val]? = some r := by
    intro i hne
    rw [hrates', if_neg hne]
    unfold estimate
    cases hd : (deliveries (ops ++ [op]) i).head? with
    | none => exact absurd (List.head?_eq_none_iff.1 hd) hne
    | some f => exact ⟨_, rfl⟩
  have hidx : ∀ (q : Nat) (r : Rate Rat), s'.rates[q]? = some r → q < n := by
    intro q r hq
    have h1 := (run_rates _ _ hs').1
    rcases List.getElem?_eq_some_iff.1 hq with ⟨h, _⟩
    have := (firstArrivals_nodup (ops ++ [op])).length_le_of_subset (l₂ := List.finRange n) (fun x _ => List.mem_finRange x)
    simp at this
    omega
  constructor
  · rintro ⟨h1, _, h3, r, hr, he, hmax⟩
    refine ⟨h3, hlen.2 h1, ?_⟩
    intro j hj h2j
    obtain ⟨rj, hrj⟩ := hslot j (h3 j)
    have hej := (htab j rj hrj).1.2 h2j
    have hzi := (htab op.input r hr).2 (hlen.2 h1)
    have hzj := (htab j rj hrj).2 h2j
    rcases hmax j.val rj (fun h => hj (Fin.ext h)) hrj hej with h | ⟨h, hlt⟩
    · left
      rw [hzi, hzj, gt_recip (hp _) (hp _)] at h
      exact of_decide_eq_true h
    · rw [hzi, hzj, gt_recip (hp _) (hp _)] at h
      have := of_decide_eq_false h
      by_cases hlt' : p op.input < p j
      · exact Or.inl hlt'
      · exact Or.inr ⟨by omega, hlt⟩
  · rintro ⟨h1, h2, h3⟩
    refine ⟨hlen.1 h2, ?_, h1, ?_⟩
    · obtain ⟨r', hr'⟩ := hslot op.input (h1 _)
      obtain ⟨_, _, hrun⟩ := run_rates _ _ hs
      rcases add_cases hstep with ⟨h4, _⟩ | ⟨e0, r, b, r1, h4, h5, h6, _⟩
      · rw [(run_events _ _ hs).1, lastMsg_none] at h4
        exact absurd h4 (hlen.1 h2)
      · refine ⟨r, h5, ?_⟩
        -- the state before: the same theorem on the shorter history
        obtain ⟨s0, hs0, hr0⟩ := C36_in_order_partial dflt configs src ops (fun o ho => hc o (by simp [ho])) (inOrder_init ho)
        have : s0 = s := by
          have := hs0.symm.trans hs
          injection this
        subst this
        rw [hr0, if_neg (hlen.1 h2)] at h5
        exact periodic_prev (hp _) h5 (by
            have := hper op.input
            rw [deliveries_snoc, if_pos rfl] at this
            simpa using this)
          (fun o hm => hc o (by simp [(List.mem_filter.1 hm).1])) (hc op (by simp))
    · obtain ⟨r, hr⟩ := hslot op.input (h1 _)
      refine ⟨r, hr, (htab _ r hr).1.2 h2, ?_⟩
      intro q rq hq hrq heq
      have hqn := hidx q rq hrq
      have h2q := (htab ⟨q, hqn⟩ rq hrq).1.1 heq
      have hzi := (htab op.input r hr).2 h2
      have hzq := (htab ⟨q, hqn⟩ rq hrq).2 h2q
      rw [hzi, hzq, gt_recip (hp _) (hp _), gt_recip (hp _) (hp _)]
      rcases h3 ⟨q, hqn⟩ (fun h => hq (by rw [← h])) h2q with h | ⟨h, hlt⟩
      · exact Or.inl (decide_eq_true h)
      · refine Or.inr ⟨decide_eq_false (by omega), hlt⟩

/-- `sample` meets the hypotheses of C57: periods of 100 ms and 200 ms. -/
example : (∀ i : Fin 2, Periodic ((fun j : Fin 2 => if j = 0 then 100000000 else 200000000) i) ((deliveries sample i).map (·.now))) ∧
    ∀ i : Fin 2, ∀ last ∈ (deliveries sample i).getLast?, last.now.ns ≤ 1300000000 ∧
      1300000000 ≤ last.now.ns + (if i = 0 then 100000000 else 200000000) := by
  constructor
  · intro i
    match i with
    | 0 => simp [Periodic, sample, deliveries]
    | 1 => simp [Periodic, sample, deliveries]
  · decide

/-- C36: with inputs arriving in order, the estimate of input `i` has the configuration given for input `i` (one per input),
the common configuration (exactly one given), or the defaults (any other number). -/
theorem C36_configuration_partial [Lawful D] (dflt : Config D) (configs : List (Config D)) (src : Source) (ops : List (Op n))
    (hc : OneClock src ops) (ho : InOrder ops) (i : Fin n) (hd : deliveries ops i ≠ []) :
    ∃ s r, run dflt (initial n configs) ops = .ok s ∧ s.rates[i.val]? = some r ∧
      (configs.length = n → configs[i.val]? = some r.config) ∧
      (configs.length ≠ n → ∀ c, configs = [c] → r.config = c) ∧
      (configs.length ≠ n → configs.length ≠ 1 → r.config = dflt) := by
  obtain ⟨s, hs, hr⟩ := C36_in_order_partial dflt configs src ops hc ho
  have hri := hr i
  rw [if_neg hd] at hri
  unfold estimate at hri
  cases hh : (deliveries ops i).head? with
  | none => exact absurd (List.head?_eq_none_iff.1 hh) hd
  | some f =>
    rw [hh] at hri
    refine ⟨s, _, hs, hri, ?_, ?_, ?_⟩
    · intro hl
      rw [fold_config]
      simp only [Rate.start, configFor, if_pos hl]
      have : i.val < configs.length := by omega
      simp [this]
    · intro hl c hcs
      rw [fold_config]
      simp only [Rate.start, configFor, if_neg hl]
      subst hcs
      simp
    · intro hl hl1
      rw [fold_config]
      simp only [Rate.start, configFor, if_neg hl, if_neg hl1]

/-- C58: in exact arithmetic, with smoothing factors between 0 and 1, the estimated rate of an input always lies within any
bounds that hold for the rates observed between its consecutive messages, and the estimated error within their width. -/
theorem C58_estimate_within_bounds (dflt : Config Rat) (configs : List (Config Rat)) (src : Source) (ops : List (Op n))
    (hc : OneClock src ops) (ho : InOrder ops) (i : Fin n) (lo hi : Rat)
    (hcfg : ∀ c ∈ dflt :: configs, 0 ≤ c.rateAlpha ∧ c.rateAlpha ≤ 1 ∧ 0 ≤ c.errorAlpha ∧ c.errorAlpha ≤ 1)
    (hw : RatesWithin lo hi ((deliveries ops i).map (·.now))) (h2 : 2 ≤ (deliveries ops i).length) :
    ∃ s r, run dflt (initial n configs) ops = .ok s ∧ s.rates[i.val]? = some r ∧
      lo ≤ r.hz ∧ r.hz ≤ hi ∧ 0 ≤ r.error ∧ r.error ≤ hi - lo := by
  obtain ⟨s, hs, hr⟩ := C36_in_order_partial dflt configs src ops hc ho
  have hri := hr i
  have hmem : ∀ o ∈ deliveries ops i, o.now.source = src := fun o hm => hc o (List.mem_filter.1 hm).1
  cases hd : deliveries ops i with
  | nil => rw [hd] at h2; simp at h2
  | cons a l =>
    rw [if_neg (by rw [hd]; simp)] at hri
    unfold estimate at hri
    rw [hd] at hri hw hmem h2
    simp only [List.head?_cons, Option.map_some, List.tail_cons] at hri
    have hcm : configFor dflt configs i ∈ dflt :: configs := by
      unfold configFor
      split
      · rename_i h
        have hlt : i.val < configs.length := by omega
        simp [hlt]
      · split
        · rename_i h
          simp [h]
        · simp
    obtain ⟨c1, c2, c3, c4⟩ := hcfg _ hcm
    have h := within_fold (lo := lo) (hi := hi) (l.map (fun o : Op n => o.now)) (Rate.start a.now (configFor dflt configs i)) a.now c1 c2 c3 c4
      (Or.inl ⟨rfl, rfl, rfl⟩) (hmem a (by simp)) (by
        intro x hx
        obtain ⟨o, ho, rfl⟩ := List.mem_map.1 hx
        exact hmem o (by simp [ho])) hw (by
        cases l with
        | nil => simp at h2
        | cons b l => simp)
    exact ⟨s, _, hs, hri, h.lower, h.upper, h.error0, h.error1⟩

/-- `sample` meets the hypotheses of C58 for input 1 (one interval, of 200 ms). -/
example : RatesWithin 4 6 ((deliveries sample 1).map (·.now)) ∧ 2 ≤ (deliveries sample 1).length := by
  refine ⟨?_, by decide⟩
  simp only [sample, deliveries]
  refine ⟨by decide, ?_, ?_, trivial⟩
  · show (4 : Rat) ≤ 1000000000 / ((200000000 : Int) : Rat)
    have : ((200000000 : Int) : Rat) = 200000000 := rfl
    rw [this]; grind
  · show 1000000000 / ((200000000 : Int) : Rat) ≤ (6 : Rat)
    have : ((200000000 : Int) : Rat) = 200000000 := rfl
    rw [this]; grind

end MF.Latest
