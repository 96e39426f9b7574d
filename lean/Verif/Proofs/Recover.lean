import Verif.Proofs.Approx9
import Verif.Spec.Recover
/-
Helper lemmas: ApproximateTime after a message was lost to a full queue.
-/
namespace MF.ApproxSpec

variable {n : Nat}

theorem resumeN_fuel [NeZero n] : ∀ (k k' : Nat) (F : Fin n → Bool) (d : Fin n → List Ev), size d < k → size d < k' →
    resumeN k F d = resumeN k' F d := by
  intro k
  induction k with
  | zero => intro k' F d h; omega
  | succ k ih =>
    intro k' F d h h'
    cases k' with
    | zero => omega
    | succ k' =>
      simp only [resumeN]
      cases hf : fronts d with
      | none => rfl
      | some t =>
        simp only
        have hne : d (oldest t) ≠ [] := by rw [fronts_ne hf]; simp
        have := size_pop hne
        rw [ih k' _ _ (by omega) (by omega)]

theorem resume_none [NeZero n] {F : Fin n → Bool} {d : Fin n → List Ev} (h : fronts d = none) : resume F d = d := by
  unfold resume resumeN; rw [h]

theorem resume_some [NeZero n] {F : Fin n → Bool} {d : Fin n → List Ev} {t : Fin n → Ev} (h : fronts d = some t) :
    resume F d = if F (newest t) then resume (fun j => decide (j = newest t)) (pop d (oldest t)) else d := by
  have hne : d (oldest t) ≠ [] := by rw [fronts_ne h]; simp
  have := size_pop hne
  conv => lhs; unfold resume resumeN; rw [h]
  simp only
  rw [resumeN_fuel (size d) (size (pop d (oldest t)) + 1) _ _ (by omega) (by omega)]
  rfl

theorem resume_no [NeZero n] {F : Fin n → Bool} (h : ∀ i, F i = false) (d : Fin n → List Ev) : resume F d = d := by
  cases hf : fronts d with
  | none => exact resume_none hf
  | some t => rw [resume_some hf, if_neg (by rw [h]; simp)]

end MF.ApproxSpec

namespace MF.Approx
open MF.ApproxSpec (fronts oldest newest startOf endOf tails pop search next sets resume)

variable {n : Nat}

/-- The sets still to come, if some inputs have lost messages. -/
def frest [NeZero n] (closed : Bool) (s : State n) (fut : Fin n → List Ev) : List (Fin n → Ev) :=
  match s.pivot with
  | none => sets closed s.cfg.scale s.cfg.maxInterval (resume s.hasDropped (full s fut))
  | some _ => rest closed s fut

theorem frest_eq [NeZero n] (closed : Bool) {s : State n} (fut : Fin n → List Ev) (hd : ∀ i, s.hasDropped i = false) :
    frest closed s fut = rest closed s fut := by
  unfold frest
  cases hp : s.pivot with
  | none => simp only; rw [ApproxSpec.resume_no hd]; unfold rest; rw [hp]
  | some p => rfl

theorem frest_unflagged [NeZero n] (closed : Bool) {s : State n} (fut : Fin n → List Ev) (hne : ∀ i, s.deques i ≠ [])
    (hd : s.pivot = none → ∀ e, IsEnd s.deques e → s.hasDropped e = false) {e : Fin n} (he : IsEnd s.deques e) :
    frest closed s fut = rest closed s fut := by
  unfold frest
  cases hp : s.pivot with
  | none =>
    simp only
    rw [ApproxSpec.resume_some (full_fronts fut hne), newest_eq he, hd hp e he]
    unfold rest; rw [hp]
    rfl
  | some p => rfl

theorem pstep_frest [NeZero n] (closed : Bool) {s s' : State n} (fut : Fin n → List Ev) (h : LoopInv s)
    (hne : ∀ i, s.deques i ≠ [])
    (hmono : ∀ x y, x ≤ y → s.cfg.scale x ≤ s.cfg.scale y) (hlow : ∀ i, 0 ≤ s.cfg.lower i)
    (hap : ∀ i, Apart (s.cfg.lower i) (view s i ++ fut i)) (hs : PStep s s') :
    (s.out ++ lift (frest closed s fut)) <+: (s'.out ++ lift (frest closed s' fut)) ∧
    (closed = true → s.out ++ lift (frest closed s fut) = s'.out ++ lift (frest closed s' fut)) := by
  have main : (s.pivot = none → ∀ e, IsEnd s.deques e → s.hasDropped e = false) → (∃ e, IsEnd s.deques e) →
      (s.out ++ lift (frest closed s fut)) <+: (s'.out ++ lift (frest closed s' fut)) ∧
      (closed = true → s.out ++ lift (frest closed s fut) = s'.out ++ lift (frest closed s' fut)) := by
    intro hd ⟨e, he⟩
    obtain ⟨h1, h2, h3⟩ := pstep_rest closed fut h hne hd hmono hlow hap hs
    rw [frest_unflagged closed fut hne hd he, frest_eq closed fut h1]
    exact ⟨h2, h3⟩
  have hx' : ∀ {m e p : Fin n} {s1 : State n}, IsEnd s.deques e → Examined s m e p s1 →
      s.pivot = none → ∀ e, IsEnd s.deques e → s.hasDropped e = false := by
    intro m e p s1 he hx hp e' he'
    rw [he'.unique he]
    cases hx with
    | fresh h1 h2 h3 hp hs => exact h3
    | kept h1 h2 hs => rw [h1] at hp; cases hp
    | better h1 h2 hs => rw [h1] at hp; cases hp
  cases hs with
  | delete m e hm he hp hc hs =>
    cases hd : s.hasDropped e with
    | false => exact main (fun _ e' he' => by rw [he'.unique he]; exact hd) ⟨e, he⟩
    | true =>
      have hp' : s'.pivot = none := by subst hs; exact hp
      have hcfg : s'.cfg = s.cfg := by subst hs; rfl
      have hout : s'.out = s.out := by subst hs; rfl
      have hfl : s'.hasDropped = fun j => decide (j = e) := by
        subst hs
        funext j
        by_cases hj : j = e
        · subst hj; simp [deleted, cleared, hd]
        · simp [deleted, cleared, hj]
      have : frest closed s' fut = frest closed s fut := by
        unfold frest
        rw [hp, hp']
        simp only
        rw [hcfg, full_pop (s := s) (s1 := s') (m := m) fut hne (by subst hs; rfl), hfl,
          ApproxSpec.resume_some (full_fronts fut hne), newest_eq he, oldest_eq hm, hd]
        rfl
      rw [this, hout]
      exact ⟨List.prefix_refl _, fun _ => rfl⟩
  | go m e p hm he hx ha hpm => exact main (hx' he hx) ⟨e, he⟩
  | publish m e p s1 hm he hx ha hw hs => exact main (hx' he hx) ⟨e, he⟩

theorem psteps_frest [NeZero n] (closed : Bool) {s s' : State n} {L : Fin n → List Ev} (fut : Fin n → List Ev) (h : LoopInv s)
    (hmono : ∀ x y, x ≤ y → s.cfg.scale x ≤ s.cfg.scale y) (hlow : ∀ i, 0 ≤ s.cfg.lower i) (hh : Hist L s)
    (hap : ∀ i, Apart (s.cfg.lower i) (L i ++ fut i)) (hs : PSteps s s') :
    (s.out ++ lift (frest closed s fut)) <+: (s'.out ++ lift (frest closed s' fut)) ∧
    (closed = true → s.out ++ lift (frest closed s fut) = s'.out ++ lift (frest closed s' fut)) := by
  have := psteps_ind (P := fun t => (t.cfg = s.cfg ∧ Hist L t) ∧
      (s.out ++ lift (frest closed s fut)) <+: (t.out ++ lift (frest closed t fut)) ∧
      (closed = true → s.out ++ lift (frest closed s fut) = t.out ++ lift (frest closed t fut)))
    (by
      intro t t' a b c ⟨⟨d1, d2⟩, d4, d5⟩
      obtain ⟨e2, e3⟩ := pstep_frest closed fut a b (by rw [d1]; exact hmono) (by rw [d1]; exact hlow)
        (fun i => apart_of_hist d2 (by rw [d1]; exact hap i)) c
      exact ⟨⟨by rw [pstep_cfg c, d1], pstep_hist a c d2⟩, d4.trans e2, fun hcl => (d5 hcl).trans (e3 hcl)⟩)
    h hs ⟨⟨rfl, hh⟩, List.prefix_refl _, fun _ => rfl⟩
  exact this.2.2.2

theorem pushed_frest [NeZero n] (closed : Bool) {s s1 : State n} {i : Fin n} {e : Ev} (fut : Fin n → List Ev) (h : LoopInv s)
    (hp : Pushed s s1 i e) : frest closed s1 fut = frest closed s (upd fut i (e :: fut i)) := by
  unfold frest
  rw [hp.pivot]
  cases hpv : s.pivot with
  | none =>
    simp only
    have hfull : full s1 fut = full s (upd fut i (e :: fut i)) := by
      funext j
      unfold full
      rw [hp.deques]
      by_cases hj : j = i
      · subst hj; rw [upd_same, upd_same, List.append_assoc]; rfl
      · rw [upd_ne _ _ hj, upd_ne _ _ hj]
    rw [hp.cfg, hfull, hp.hasDropped]
  | some p => exact pushed_rest closed fut h hp

theorem frest_nil [NeZero n] {s : State n} (h : ∃ i, s.deques i = []) : frest false s (fun _ => []) = [] := by
  unfold frest
  cases hp : s.pivot with
  | none =>
    have hf : fronts (full s (fun _ => [])) = none := by
      apply ApproxSpec.fronts_none
      obtain ⟨i, hi⟩ := h
      exact ⟨i, by unfold full; rw [hi]; rfl⟩
    simp only
    rw [ApproxSpec.resume_none hf, sets_cont, ApproxSpec.next_none hf]
    rfl
  | some p => exact rest_nil h

/-- The two halves of `add`, and what `add` would do with room for one more message. -/
theorem add_halves [NeZero n] {fuel : Nat} {u u' : State n} {j : Fin n} {x : Ev} (hi : Inv u) (h : add fuel u j x = .ok u') :
    ∃ s1 p, Pushed u s1 j x ∧ PSteps s1 p ∧ add fuel (roomier u) j x = .ok (roomier p) ∧
      (((view p j).length ≤ u.cfg.queueSize ∧ u' = p) ∨ (u.cfg.queueSize < (view p j).length ∧ PSteps (dropped p j) u')) := by
  obtain ⟨s1, hp, hcase, _⟩ := addPush_spec fuel hi j x
  have hl1 := hp.inv hi.loop
  rcases hcase with ⟨p, hadd, hsteps⟩ | hhang
  · obtain ⟨hl2, hemp2⟩ := psteps_inv hl1 hsteps
    obtain ⟨hcfg2, hlen2⟩ := psteps_cfg_len hl1 hsteps
    have hc : p.cfg = u.cfg := by rw [hcfg2, hp.cfg]
    have hvj : (view p j).length ≤ u.cfg.queueSize + 1 := by
      have h1 := hlen2 j
      rw [hp.view_same] at h1
      have := hi.bound j
      simp at h1; omega
    have hroom : add fuel (roomier u) j x = .ok (roomier p) := by
      unfold add
      have : addPush fuel (roomier u) j x = .ok (roomier p) := by
        have := addPush_setQ (u.cfg.queueSize + 1) fuel u j x
        rw [hadd] at this
        have e1 : roomier u = setQ (u.cfg.queueSize + 1) u := rfl
        have e2 : roomier p = setQ (u.cfg.queueSize + 1) p := by unfold roomier setQ; rw [hc]
        rw [e1, e2, this]
        rfl
      rw [this]
      refine addLimit_fits fuel (roomier p) j ?_
      show (p.past j).length + (p.deques j).length ≤ p.cfg.queueSize + 1
      rw [hc]
      simpa [view] using hvj
    refine ⟨s1, p, hp, hsteps, hroom, ?_⟩
    unfold add at h
    rw [hadd] at h
    simp only at h
    rcases addLimit_spec fuel hl2 (by rw [hc]; exact hi.qpos) j hemp2 with ⟨h1, h2⟩ | ⟨h1, h2, h3, h4⟩ | ⟨h1, h2, h3⟩
    · rw [h2] at h; cases h
      left; rw [hc] at h1; exact ⟨h1, rfl⟩
    · rw [h3] at h; cases h
      right; rw [hc] at h1; exact ⟨h1, .done h4⟩
    · rw [h3] at h
      right; rw [hc] at h1
      refine ⟨h1, ?_⟩
      rcases process_spec fuel (dropped p j) (dropped_inv p j) with ⟨s', g1, g2⟩ | g1
      · rw [h] at g1; cases g1; exact g2
      · rw [h] at g1; cases g1
  · unfold add at h
    rw [hhang] at h
    cases h

/-- What `add` would do with room for one more message. -/
theorem add_roomier [NeZero n] {fuel : Nat} {u t : State n} {j : Fin n} {x : Ev} (hi : Inv u) (h : add fuel (roomier u) j x = .ok t) :
    ∃ s1 p, Pushed u s1 j x ∧ PSteps s1 p ∧ t = roomier p := by
  obtain ⟨s1, hp, hcase, _⟩ := addPush_spec fuel hi j x
  have hl1 := hp.inv hi.loop
  have e1 : roomier u = setQ (u.cfg.queueSize + 1) u := rfl
  have hq := addPush_setQ (u.cfg.queueSize + 1) fuel u j x
  rcases hcase with ⟨p, hadd, hsteps⟩ | hhang
  · obtain ⟨hcfg2, hlen2⟩ := psteps_cfg_len hl1 hsteps
    have hc : p.cfg = u.cfg := by rw [hcfg2, hp.cfg]
    have hvj : (view p j).length ≤ u.cfg.queueSize + 1 := by
      have h1 := hlen2 j
      rw [hp.view_same] at h1
      have := hi.bound j
      simp at h1; omega
    have e2 : roomier p = setQ (u.cfg.queueSize + 1) p := by unfold roomier setQ; rw [hc]
    refine ⟨s1, p, hp, hsteps, ?_⟩
    unfold add at h
    rw [e1, hq, hadd] at h
    have h' : addLimit fuel (roomier p) j = .ok t := by rw [e2]; exact h
    rw [addLimit_fits fuel (roomier p) j (by
      show (p.past j).length + (p.deques j).length ≤ p.cfg.queueSize + 1
      rw [hc]
      simpa [view] using hvj)] at h'
    cases h'
    rfl
  · unfold add at h
    rw [e1, hq, hhang] at h
    cases h

/-- The messages to be matched after `t` lost the oldest message of input `i`, if `fut` comes. -/
def remaining (t : State n) (i : Fin n) (fut : Fin n → List Ev) : Fin n → List Ev :=
  fun j => upd (held t) i (held t i).tail j ++ fut j

/-- The output of `t`, then the canonical sets of what remains, from state `s` on. -/
def Goes [NeZero n] (closed : Bool) (t : State n) (i : Fin n) (w : List (Fin n × Ev)) (s : State n) (fut : Fin n → List Ev) : Prop :=
  (t.out ++ lift (sets closed t.cfg.scale t.cfg.maxInterval (resume (upd t.hasDropped i true) (remaining t i (fun j => stream w j ++ fut j)))))
      <+: (s.out ++ lift (frest closed s fut)) ∧
  (closed = true → t.out ++ lift (sets closed t.cfg.scale t.cfg.maxInterval
      (resume (upd t.hasDropped i true) (remaining t i (fun j => stream w j ++ fut j)))) = s.out ++ lift (frest closed s fut))

theorem loses_spec [NeZero n] {fuel : Nat} {cfg : Cfg n} {pre : List (Fin n × Ev)} {u : State n} (h : run fuel cfg pre = .ok u)
    {j : Fin n} {x : Ev} {p : State n} (hp : add fuel (roomier u) j x = .ok (roomier p)) (hno : ¬ Loses fuel u j x) :
    ¬ u.cfg.queueSize < (view p j).length := fun hl => hno ⟨_, hp, hl⟩

theorem stream_fut (w : List (Fin n × Ev)) (j : Fin n) (x : Ev) (fut : Fin n → List Ev) :
    (fun k => stream (w ++ [(j, x)]) k ++ fut k) = fun k => stream w k ++ upd fut j (x :: fut j) k := by
  funext k
  rw [stream_snoc]
  by_cases hk : k = j
  · subst hk; rw [upd_same, upd_same, List.append_assoc]; rfl
  · rw [upd_ne _ _ hk, upd_ne _ _ hk]

/-- One more message, with room for it. -/
theorem goes_push [NeZero n] {fuel : Nat} {cfg : Cfg n} {closed : Bool}
    (hmono : ∀ x y, x ≤ y → cfg.scale x ≤ cfg.scale y) (hlow : ∀ i, 0 ≤ cfg.lower i) {all w : List (Fin n × Ev)}
    {t u s1 p : State n} {i j : Fin n} {x : Ev} (hu : run fuel cfg all = .ok u)
    (ih : ∀ fut : Fin n → List Ev, (∀ k, Apart (cfg.lower k) (stream all k ++ fut k)) → Goes closed t i w u fut)
    (hp : Pushed u s1 j x) (hs : PSteps s1 p) (fut : Fin n → List Ev)
    (hap : ∀ k, Apart (cfg.lower k) (stream (all ++ [(j, x)]) k ++ fut k)) : Goes closed t i (w ++ [(j, x)]) p fut := by
  obtain ⟨hi, hcfg, hh⟩ := run_facts hu
  have hh1 := pushed_hist hp hh
  rw [← stream_snoc] at hh1
  have hc1 : s1.cfg = cfg := by rw [hp.cfg, hcfg]
  obtain ⟨h2, h3⟩ := psteps_frest closed fut (hp.inv hi.loop) (by rw [hc1]; exact hmono) (by rw [hc1]; exact hlow) hh1
    (by rw [hc1]; exact hap) hs
  obtain ⟨g1, g2⟩ := ih (upd fut j (x :: fut j)) (by
    intro k
    have := hap k
    rw [congrFun (stream_fut all j x fut) k] at this
    exact this)
  unfold Goes
  rw [stream_fut]
  rw [pushed_frest closed fut hi.loop hp, hp.out] at h2 h3
  exact ⟨g1.trans h2, fun hcl => (g2 hcl).trans (h3 hcl)⟩

/-- The first steps after the loss. -/
theorem goes_first [NeZero n] {fuel : Nat} {cfg : Cfg n} {closed : Bool}
    (hmono : ∀ x y, x ≤ y → cfg.scale x ≤ cfg.scale y) (hlow : ∀ i, 0 ≤ cfg.lower i) {pre : List (Fin n × Ev)}
    {u t s : State n} {i : Fin n} {e : Ev} (hu : run fuel cfg pre = .ok u) (ht : add fuel (roomier u) i e = .ok t)
    (hlose : cfg.queueSize < (held t i).length) (hs : run fuel cfg (pre ++ [(i, e)]) = .ok s) (fut : Fin n → List Ev)
    (hap : ∀ k, Apart (cfg.lower k) (stream (pre ++ [(i, e)]) k ++ fut k)) : Goes closed t i [] s fut := by
  obtain ⟨hi, hcfg, hh⟩ := run_facts hu
  obtain ⟨u0, hu0, hadd⟩ := run_snoc_ok hs
  rw [hu] at hu0; cases hu0
  obtain ⟨s1, p, hp, hst, hr, hor⟩ := add_halves hi hadd
  rw [ht] at hr; cases hr
  rcases hor with ⟨h1, _⟩ | ⟨_, h2⟩
  · rw [hcfg] at h1
    have h3 : (view p i).length ≤ cfg.queueSize := h1
    have : (held (roomier p) i).length = (view p i).length := rfl
    omega
  · have hh1 := pushed_hist hp hh
    rw [← stream_snoc] at hh1
    have hh2 := dropped_hist i (psteps_hist (hp.inv hi.loop) hst hh1)
    have hc : (dropped p i).cfg = cfg := by
      show p.cfg = _
      rw [(psteps_cfg_len (hp.inv hi.loop) hst).1, hp.cfg, hcfg]
    exact psteps_frest closed fut (dropped_inv p i) (by rw [hc]; exact hmono) (by rw [hc]; exact hlow) hh2
      (by rw [hc]; exact hap) h2

theorem losesNothing_snoc [NeZero n] {fuel : Nat} {cfg : Cfg n} {pre w : List (Fin n × Ev)} {op : Fin n × Ev}
    (h : LosesNothing fuel cfg pre (w ++ [op])) : LosesNothing fuel cfg pre w ∧
      ∀ u, run fuel cfg (pre ++ w) = .ok u → ¬ Loses fuel u op.1 op.2 := by
  constructor
  · intro w1 op1 w2 hw
    exact h w1 op1 (w2 ++ [op]) (by rw [hw]; simp)
  · exact h w op [] rfl

theorem goes_run [NeZero n] {fuel : Nat} {cfg : Cfg n} {closed : Bool}
    (hmono : ∀ x y, x ≤ y → cfg.scale x ≤ cfg.scale y) (hlow : ∀ i, 0 ≤ cfg.lower i) {pre : List (Fin n × Ev)}
    {u t : State n} {i : Fin n} {e : Ev} (hu : run fuel cfg pre = .ok u) (ht : add fuel (roomier u) i e = .ok t)
    (hlose : cfg.queueSize < (held t i).length) : ∀ (w : List (Fin n × Ev)) (s : State n),
    run fuel cfg (pre ++ [(i, e)] ++ w) = .ok s → LosesNothing fuel cfg (pre ++ [(i, e)]) w → ∀ fut : Fin n → List Ev,
    (∀ k, Apart (cfg.lower k) (stream (pre ++ [(i, e)] ++ w) k ++ fut k)) → Goes closed t i w s fut := by
  intro w
  induction w using snoc_induction with
  | h0 =>
    intro s hs _ fut hap
    rw [List.append_nil] at hs hap
    exact goes_first hmono hlow hu ht hlose hs fut hap
  | hs w op ih =>
    intro s hs hno fut hap
    rw [← List.append_assoc] at hs hap
    obtain ⟨v, hv, hadd⟩ := run_snoc_ok hs
    obtain ⟨hno1, hno2⟩ := losesNothing_snoc hno
    obtain ⟨s1, p, hp, hst, hr, hor⟩ := add_halves (run_facts hv).1 hadd
    have hfit := loses_spec hv hr (hno2 v hv)
    rcases hor with ⟨_, h2⟩ | ⟨h1, _⟩
    · subst h2
      exact goes_push hmono hlow hv (fun fut' hap' => ih v hv hno1 fut' hap') hp hst fut hap
    · exact absurd h1 hfit

end MF.Approx

namespace MF.ApproxSpec

variable {n : Nat}

theorem oldest_ne_newest [NeZero n] (hn : 2 ≤ n) (t : Fin n → Ev) : oldest t ≠ newest t := by
  intro h
  obtain ⟨h1, h2⟩ := oldest_spec t
  obtain ⟨h3, h4⟩ := newest_spec t
  rw [h] at h1 h2
  let z : Fin n := ⟨0, by omega⟩
  let l : Fin n := ⟨n - 1, by omega⟩
  by_cases h5 : newest t = z
  · have h6 := h4 l (by rw [h5]; show 0 < n - 1; omega)
    have h7 := h1 l
    omega
  · have h6 := h2 z (by
      show 0 < (newest t).val
      have : (newest t).val ≠ 0 := fun h => h5 (Fin.ext h)
      omega)
    have h7 := h3 z
    omega

/-- What is passed over, if anything is. -/
theorem resume_skips [NeZero n] (hn : 2 ≤ n) : ∀ (d : Fin n → List Ev) (F : Fin n → Bool), resume F d = d ∨
    ∃ e h tl, F e = true ∧ d e = h :: tl ∧ resume F d e = d e ∧
      ∀ j, ∃ sk, d j = sk ++ resume F d j ∧ ∀ x ∈ sk, x.stamp < h.stamp ∨ (x.stamp = h.stamp ∧ j < e) := by
  apply size_induction
  intro d ih F
  cases hf : fronts d with
  | none => left; exact resume_none hf
  | some t =>
    rw [resume_some hf]
    cases hF : F (newest t) with
    | false => left; simp
    | true =>
      right
      rw [if_pos rfl]
      have hcons := fronts_ne hf
      have hne : oldest t ≠ newest t := oldest_ne_newest hn t
      have hsz : size (pop d (oldest t)) < size d := size_pop (by rw [hcons]; simp)
      refine ⟨newest t, t (newest t), (d (newest t)).tail, hF, hcons _, ?_⟩
      have hpe : pop d (oldest t) (newest t) = d (newest t) := upd_ne _ _ (Ne.symm hne)
      have hfirst : (t (oldest t)).stamp < (t (newest t)).stamp ∨
          ((t (oldest t)).stamp = (t (newest t)).stamp ∧ oldest t < newest t) := by
        have h1 := (newest_spec t).1 (oldest t)
        by_cases h2 : (t (oldest t)).stamp = (t (newest t)).stamp
        · right
          refine ⟨h2, ?_⟩
          rcases Nat.lt_or_gt_of_ne (fun h => hne (Fin.ext h)) with h3 | h3
          · exact h3
          · have := (newest_spec t).2 (oldest t) h3; omega
        · left; omega
      rcases ih _ hsz (fun j => decide (j = newest t)) with h | ⟨e, h, tl, h1, h2, h3, h4⟩
      · rw [h]
        refine ⟨hpe, fun j => ?_⟩
        by_cases hj : j = oldest t
        · subst hj
          refine ⟨[t (oldest t)], ?_, ?_⟩
          · unfold pop; rw [upd_same]; exact hcons _
          · intro x hx
            rw [List.mem_singleton] at hx
            subst hx; exact hfirst
        · exact ⟨[], by unfold pop; rw [upd_ne _ _ hj]; rfl, by simp⟩
      · have he : e = newest t := by simpa using h1
        subst he
        rw [hpe, hcons] at h2
        injection h2 with h2 h2'
        refine ⟨by rw [h3, hpe], fun j => ?_⟩
        obtain ⟨sk, g1, g2⟩ := h4 j
        rw [← h2] at g2
        by_cases hj : j = oldest t
        · subst hj
          refine ⟨t (oldest t) :: sk, ?_, ?_⟩
          · rw [List.cons_append, ← g1]; unfold pop; rw [upd_same]; exact hcons _
          · intro x hx
            rcases List.mem_cons.1 hx with hx | hx
            · subst hx; exact hfirst
            · exact g2 x hx
        · refine ⟨sk, ?_, g2⟩
          rw [← g1]; unfold pop; rw [upd_ne _ _ hj]

/-- Later messages that are newer than everything held are not passed over. -/
theorem resume_later [NeZero n] (hn : 2 ≤ n) {fut : Fin n → List Ev} : ∀ (d : Fin n → List Ev) (F : Fin n → Bool),
    (∀ e, F e = true → d e ≠ []) → (∀ i j, ∀ x ∈ d i, ∀ y ∈ fut j, x.stamp < y.stamp) →
    resume F (fun j => d j ++ fut j) = fun j => resume F d j ++ fut j := by
  apply size_induction
  intro d ih F hF hnew
  cases hf : fronts d with
  | none =>
    rw [resume_none hf]
    cases hf' : fronts (fun j => d j ++ fut j) with
    | none => exact resume_none hf'
    | some t =>
      rw [resume_some hf', if_neg]
      intro hFe
      have hcons := fronts_ne hf'
      -- the newest is on an input that holds a message
      have h1 := hF _ hFe
      have h2 : t (newest t) ∈ d (newest t) := by
        have := hcons (newest t)
        cases hd : d (newest t) with
        | nil => exact absurd hd h1
        | cons x tl => simp only [hd, List.cons_append] at this; injection this with h _; rw [h]; simp
      have h3 : ∃ j, d j = [] := by
        apply Classical.byContradiction
        intro h
        rw [fronts_some (fun i hi => h ⟨i, hi⟩)] at hf
        cases hf
      obtain ⟨j, hj⟩ := h3
      have h4 : t j ∈ fut j := by
        have := hcons j
        simp only [hj, List.nil_append] at this
        rw [this]; simp
      have h5 := hnew _ j _ h2 _ h4
      have h6 := (newest_spec t).1 j
      omega
  | some t =>
    have hcons := fronts_ne hf
    have hf' : fronts (fun j => d j ++ fut j) = some t := by
      rw [fronts_some (by intro i h0; rw [hcons i] at h0; cases h0)]
      congr 1
      funext i
      rw [hcons i]; rfl
    rw [resume_some hf, resume_some hf']
    cases hFe : F (newest t) with
    | false => simp
    | true =>
      rw [if_pos rfl, if_pos rfl]
      have hsz : size (pop d (oldest t)) < size d := size_pop (by rw [hcons]; simp)
      have hpop : pop (fun j => d j ++ fut j) (oldest t) = fun j => pop d (oldest t) j ++ fut j := by
        funext j
        unfold pop
        by_cases hj : j = oldest t
        · subst hj; rw [upd_same, upd_same]
          show (d (oldest t) ++ fut (oldest t)).tail = (d (oldest t)).tail ++ fut (oldest t)
          rw [hcons (oldest t)]; rfl
        · rw [upd_ne _ _ hj, upd_ne _ _ hj]
      rw [hpop]
      refine ih _ hsz _ ?_ ?_
      · intro e he
        have : e = newest t := by simpa using he
        subst this
        unfold pop
        rw [upd_ne _ _ (Ne.symm (oldest_ne_newest hn t)), hcons]
        simp
      · intro i j x hx
        obtain ⟨a, ha⟩ := pop_suffix d (oldest t) i
        exact hnew i j x (by rw [ha]; exact List.mem_append_right _ hx)

end MF.ApproxSpec

namespace MF.Approx

variable {n : Nat}

/-- An input that has lost a message, and has not been passed since, holds a message. -/
def FlagInv (s : State n) : Prop := ∀ e, s.hasDropped e = true → s.deques e ≠ []

theorem psteps_flag [NeZero n] (hn : 2 ≤ n) {s s' : State n} (hi : LoopInv s) (h : PSteps s s') (hf : FlagInv s) : FlagInv s' := by
  refine (psteps_ind (P := FlagInv) ?_ hi h hf).2.2
  intro t t' _ hne hst ht
  cases hst with
  | delete m e hm he hp hc hs =>
    subst hs
    intro k hk
    have hke : k = e := by
      apply Classical.byContradiction
      intro hke
      simp [deleted, cleared, hke] at hk
    subst hke
    have hkm : k ≠ m := by
      intro hkm
      subst hkm
      exact ApproxSpec.oldest_ne_newest hn (fun i => (t.deques i).headD default) (by rw [oldest_eq hm, newest_eq he])
    show upd t.deques m _ k ≠ []
    rw [upd_ne _ _ hkm]; exact hne k
  | go m e p hm he hx ha hpm =>
    obtain ⟨c, hc⟩ := ha.candInv
    intro k hk; rw [hc.noDrop] at hk; cases hk
  | publish m e p s1 hm he hx ha hw hs =>
    subst hs
    obtain ⟨c, hc⟩ := ha.candInv
    intro k hk
    have : s1.hasDropped k = true := hk
    rw [hc.noDrop] at this; cases this

theorem pushed_flag {s s1 : State n} {i : Fin n} {e : Ev} (hp : Pushed s s1 i e) (h : FlagInv s) : FlagInv s1 := by
  intro k hk
  rw [hp.deques]
  by_cases hki : k = i
  · subst hki; rw [upd_same]; simp
  · rw [upd_ne _ _ hki]; exact h k (by rw [← hp.hasDropped]; exact hk)

theorem dropped_flag {s : State n} {i : Fin n} (h : FlagInv s) (hl : 2 ≤ (view s i).length) : FlagInv (dropped s i) := by
  intro k hk
  show upd (view s) i (view s i).tail k ≠ []
  by_cases hki : k = i
  · subst hki
    rw [upd_same]
    intro h0
    have := congrArg List.length h0
    simp at this; omega
  · rw [upd_ne _ _ hki]
    have : s.hasDropped k = true := by
      have : upd s.hasDropped i true k = true := hk
      rwa [upd_ne _ _ hki] at this
    unfold view
    intro h0
    exact h k this (List.append_eq_nil_iff.1 h0).2

theorem run_flag [NeZero n] (hn : 2 ≤ n) {fuel : Nat} {cfg : Cfg n} : ∀ (ops : List (Fin n × Ev)) (s : State n),
    run fuel cfg ops = .ok s → FlagInv s := by
  apply run_induction
  · intro k hk; cases hk
  · intro ops s i e s' hi hcfg hh hadd hi' ih
    cases hadd with
    | normal s1 hp hs hl => exact psteps_flag hn (hp.inv hi.loop) hs (pushed_flag hp ih)
    | drop s1 s2 hp hs hl hs' =>
      refine psteps_flag hn (dropped_inv s2 i) hs' (dropped_flag (psteps_flag hn (hp.inv hi.loop) hs (pushed_flag hp ih)) ?_)
      have := hi.qpos
      omega

/-! ### Starvation -/

/-- The second input has lost a message and holds the messages `l`, the first holds nothing. -/
structure Starved (s : State 2) (l : List Ev) : Prop where
  first : s.deques 0 = []
  second : s.deques 1 = l
  noPivot : s.pivot = none
  lost : s.hasDropped 1 = true
  out : s.out = []

theorem psteps_done {s s' : State n} (h : PSteps s s') (he : ∃ i, s.deques i = []) : s' = s := by
  cases h with
  | done _ => rfl
  | step hne h1 h2 => obtain ⟨i, hi⟩ := he; exact absurd hi (hne i)

/-- One more message on the second input, whose queue is full. -/
theorem starve_second {fuel : Nat} {s s' : State 2} {x : Ev} {l : List Ev} (b : Ev) (hi : Inv s) (h0 : s.deques 0 = [])
    (h1 : s.deques 1 = x :: l) (hp : s.pivot = none) (ho : s.out = []) (hl : s.cfg.queueSize = l.length + 1)
    (hs : add fuel s 1 b = .ok s') : Starved s' (l ++ [b]) := by
  obtain ⟨s1, p, hpu, hst, hr, hor⟩ := add_halves hi hs
  have hd0 : s1.deques 0 = [] := by rw [hpu.deques, upd_ne _ _ (by decide)]; exact h0
  have := psteps_done hst ⟨0, hd0⟩
  subst this
  have hv : ∀ i, view p i = p.deques i := by
    intro i
    unfold view
    rw [(hpu.inv hi.loop).noPivot (by rw [hpu.pivot]; exact hp) i]
    rfl
  have hd1 : p.deques 1 = x :: (l ++ [b]) := by rw [hpu.deques, upd_same, h1]; rfl
  rcases hor with ⟨g1, _⟩ | ⟨_, g2⟩
  · exfalso
    have := g1
    rw [hv, hd1, hl] at this
    simp only [List.length_cons, List.length_append, List.length_nil] at this
    omega
  · have hz : (dropped p 1).deques 0 = [] := by
      show upd (view p) 1 (view p 1).tail 0 = []
      rw [upd_ne _ _ (by decide), hv, hd0]
    have := psteps_done g2 ⟨0, hz⟩
    subst this
    refine ⟨hz, ?_, rfl, ?_, ?_⟩
    · show upd (view p) 1 (view p 1).tail 1 = _
      rw [upd_same, hv, hd1]; rfl
    · show upd p.hasDropped 1 true 1 = true
      rw [upd_same]
    · show p.out = []
      rw [hpu.out, ho]

/-- A message on the first input that is not newer than those the second holds. -/
theorem starve_first {fuel : Nat} {s s' : State 2} {x : Ev} {l : List Ev} {a : Ev} (hi : Inv s) (h : Starved s (x :: l))
    (hax : a.stamp ≤ x.stamp) (hs : add fuel s 0 a = .ok s') : Starved s' (x :: l) := by
  obtain ⟨s1, p, hpu, hst, hr, hor⟩ := add_halves hi hs
  have hd0 : s1.deques 0 = [a] := by rw [hpu.deques, upd_same, h.first]; rfl
  have hd1 : s1.deques 1 = x :: l := by rw [hpu.deques, upd_ne _ _ (by decide)]; exact h.second
  have hpv : s1.pivot = none := by rw [hpu.pivot]; exact h.noPivot
  have hlost : s1.hasDropped 1 = true := by rw [hpu.hasDropped]; exact h.lost
  have hst0 : st s1.deques 0 = a.stamp := st_cons hd0
  have hst1 : st s1.deques 1 = x.stamp := st_cons hd1
  have hend : IsEnd s1.deques 1 := by
    refine ⟨fun j => ?_, fun j hj => absurd hj (by omega)⟩
    match j with
    | 0 => rw [hst0, hst1]; exact hax
    | 1 => exact Int.le_refl _
  have hstart : IsStart s1.deques 0 := by
    refine ⟨fun j => ?_, fun j hj => absurd hj (by omega)⟩
    match j with
    | 0 => exact Int.le_refl _
    | 1 => rw [hst0, hst1]; exact hax
  have hx' : ∀ {m e q : Fin 2} {s2 : State 2}, IsEnd s1.deques e → ¬ Examined s1 m e q s2 := by
    intro m e q s2 he hx
    have := he.unique hend
    subst this
    cases hx with
    | fresh h1 h2 h3 hp hs => rw [hlost] at h3; cases h3
    | kept h1 h2 hs => rw [hpv] at h1; cases h1
    | better h1 h2 hs => rw [hpv] at h1; cases h1
  have hp : p = deleted (cleared s1 1) 0 := by
    cases hst with
    | done he =>
      obtain ⟨i, hi⟩ := he
      match i with
      | 0 => rw [hd0] at hi; cases hi
      | 1 => rw [hd1] at hi; cases hi
    | step hne hstep hrest =>
      cases hstep with
      | delete m e hm he hp hc hs =>
        have := he.unique hend
        subst this
        have := hm.unique hstart
        subst this
        subst hs
        exact psteps_done hrest ⟨0, by show upd s1.deques 0 (s1.deques 0).tail 0 = []; rw [upd_same, hd0]; rfl⟩
      | go m e q hm he hx ha hpm => exact absurd hx (hx' he)
      | publish m e q s2 hm he hx ha hw hs => exact absurd hx (hx' he)
  have hp0 : p.deques 0 = [] := by rw [hp]; show upd s1.deques 0 (s1.deques 0).tail 0 = []; rw [upd_same, hd0]; rfl
  rcases hor with ⟨_, g2⟩ | ⟨g1, _⟩
  · subst g2
    subst hp
    refine ⟨hp0, ?_, hpv, ?_, by show s1.out = []; rw [hpu.out, h.out]⟩
    · show upd s1.deques 0 (s1.deques 0).tail 1 = _
      rw [upd_ne _ _ (by decide), hd1]
    · show (if (1 : Fin 2) ≠ 1 then false else s1.hasDropped 1) = true
      simp [hlost]
  · exfalso
    have hv : view p 0 = [] := by
      unfold view
      rw [hp0]
      have : p.past 0 = [] := by rw [hp]; show s1.past 0 = []; rw [(hpu.inv hi.loop).noPivot hpv]
      rw [this]; rfl
    have := g1
    rw [hv] at this
    simp at this

/-- The second input runs ahead until its queue is full. -/
theorem starve_fill {fuel : Nat} {cfg : Cfg 2} (B : Nat → Ev) : ∀ (q : Nat) (s : State 2), q ≤ cfg.queueSize →
    run fuel cfg ((List.range q).map (fun m => (1, B m))) = .ok s →
    s.deques 0 = [] ∧ s.deques 1 = (List.range q).map B ∧ s.pivot = none ∧ s.out = [] := by
  intro q
  induction q with
  | zero =>
    intro s _ h
    obtain ⟨hq, h⟩ := runOps_ok h
    cases h
    exact ⟨rfl, rfl, rfl, rfl⟩
  | succ q ih =>
    intro s' hq h
    rw [List.range_succ, List.map_append] at h
    obtain ⟨s, h1, h2⟩ := run_snoc_ok (op := ((1 : Fin 2), B q)) h
    dsimp only at h2
    obtain ⟨g1, g2, g3, g4⟩ := ih s (by omega) h1
    obtain ⟨hi, hcfg, _⟩ := run_facts h1
    obtain ⟨s1, p, hpu, hst, hr, hor⟩ := add_halves hi h2
    have hd0 : s1.deques 0 = [] := by rw [hpu.deques, upd_ne _ _ (by decide)]; exact g1
    have := psteps_done hst ⟨0, hd0⟩
    subst this
    have hd1 : p.deques 1 = (List.range (q + 1)).map B := by rw [hpu.deques, upd_same, g2, List.range_succ, List.map_append]; rfl
    have hv : view p 1 = p.deques 1 := by
      unfold view
      rw [(hpu.inv hi.loop).noPivot (by rw [hpu.pivot]; exact g3) 1]
      rfl
    rcases hor with ⟨_, h3⟩ | ⟨h3, _⟩
    · subst h3
      exact ⟨hd0, hd1, by rw [hpu.pivot]; exact g3, by rw [hpu.out]; exact g4⟩
    · exfalso
      have h4 : s.cfg.queueSize < (view p 1).length := h3
      rw [hv, hd1, hcfg] at h4
      simp at h4
      omega

/-- To check that nothing is lost, only the prefixes need to be run. -/
theorem losesNothing_of_check [NeZero n] {fuel : Nat} {cfg : Cfg n} {pre w : List (Fin n × Ev)}
    (h : ∀ k (hk : k < w.length), (run fuel cfg (pre ++ w.take k)).toOption.all (fun u =>
      (add fuel (roomier u) (w[k]).1 (w[k]).2).toOption.all (fun t => decide ((held t (w[k]).1).length ≤ u.cfg.queueSize))) = true) :
    LosesNothing fuel cfg pre w := by
  intro w1 op w2 hw u hu hl
  obtain ⟨t, ht, hlen⟩ := hl
  have hk : w1.length < w.length := by rw [hw]; simp
  have := h w1.length hk
  have e1 : w.take w1.length = w1 := by rw [hw]; simp
  have e2 : w[w1.length] = op := by simp [hw]
  rw [e1, hu, e2] at this
  simp only [Except.toOption, Option.all_some, ht, decide_eq_true_eq] at this
  omega

end MF.Approx
