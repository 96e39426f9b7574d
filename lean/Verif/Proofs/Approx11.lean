import Verif.Proofs.Approx9
/-
Helper lemmas about the ApproximateTime model, part 11: when no set is output, none is determined.
-/
namespace MF.ApproxSpec

variable {n : Nat}

theorem search_cases [NeZero n] {closed : Bool} {f : Int → Int} {p : Fin n} (d0 : Fin n → List Ev) :
    ∀ (d : Fin n → List Ev) (best : Fin n → Ev) (after : Fin n → List Ev) (r : (Fin n → Ev) × (Fin n → List Ev)),
    (∀ i, ∃ a, d0 i = a ++ d i) → search closed f p best after d = some r → r = (best, after) ∨ Follows d0 r.1 r.2 := by
  apply size_induction (P := fun d => ∀ (best : Fin n → Ev) (after : Fin n → List Ev) (r : (Fin n → Ev) × (Fin n → List Ev)),
    (∀ i, ∃ a, d0 i = a ++ d i) → search closed f p best after d = some r → r = (best, after) ∨ Follows d0 r.1 r.2)
  intro d ih best after r hsuf hs
  cases hf : fronts d with
  | none =>
    rw [search_none hf] at hs
    cases closed with
    | true => simp at hs; exact Or.inl hs.symm
    | false => simp at hs
  | some t =>
    rw [search_some hf] at hs
    have hfol : Follows d0 t (tails d) := by
      intro i
      obtain ⟨a, ha⟩ := hsuf i
      obtain ⟨b, hb⟩ := follows_fronts hf i
      exact ⟨a ++ b, by rw [ha, hb, List.append_assoc]⟩
    have hne : d (oldest t) ≠ [] := by rw [fronts_ne hf (oldest t)]; simp
    have hsuf' : ∀ i, ∃ a, d0 i = a ++ pop d (oldest t) i := by
      intro i
      obtain ⟨a, ha⟩ := hsuf i
      obtain ⟨b, hb⟩ := pop_suffix d (oldest t) i
      exact ⟨a ++ b, by rw [ha, List.append_assoc, ← hb]⟩
    by_cases hb : better f t best
    · rw [if_pos hb, if_pos hb] at hs
      right
      by_cases ho : oldest t = p
      · rw [if_pos ho] at hs; cases hs; exact hfol
      · rw [if_neg ho] at hs
        rcases ih _ (size_pop hne) _ _ r hsuf' hs with h | h
        · rw [h]; exact hfol
        · exact h
    · rw [if_neg hb, if_neg hb] at hs
      by_cases ho : oldest t = p
      · rw [if_pos ho] at hs; cases hs; exact Or.inl rfl
      · rw [if_neg ho] at hs
        exact ih _ (size_pop hne) _ _ r hsuf' hs

theorem search_closed [NeZero n] {f : Int → Int} {p : Fin n} :
    ∀ (d : Fin n → List Ev) (best : Fin n → Ev) (after : Fin n → List Ev), ∃ r, search true f p best after d = some r := by
  apply size_induction (P := fun d => ∀ (best : Fin n → Ev) (after : Fin n → List Ev),
    ∃ r, search true f p best after d = some r)
  intro d ih best after
  cases hf : fronts d with
  | none => rw [search_none hf]; exact ⟨_, rfl⟩
  | some t =>
    rw [search_some hf]
    by_cases ho : oldest t = p
    · rw [if_pos ho]; exact ⟨_, rfl⟩
    · rw [if_neg ho]
      have hne : d (oldest t) ≠ [] := by rw [fronts_ne hf (oldest t)]; simp
      exact ih _ (size_pop hne) _ _

end MF.ApproxSpec

namespace MF.Approx
open MF.ApproxSpec (fronts oldest newest startOf endOf tails pop search next sets Exact cost Follows)
open MF.Epsilon (nonEmpty nonEmpty_eq_iff nonEmpty_upd nonEmpty_le total)

variable {n : Nat}

/-- If a candidate is held, it can still be beaten. -/
def Wait (s : State n) : Prop := ∀ p, s.pivot = some p → Beatable s p

/-- If a candidate is held, at most one input is exhausted. -/
def One (s : State n) : Prop := s.pivot ≠ none → ∃ m, ∀ i, s.deques i = [] → i = m

theorem wait_of_none {s : State n} (h : s.pivot = none) : Wait s ∧ One s :=
  ⟨fun p hp => by rw [h] at hp; exact absurd hp (by simp), fun hp => absurd h hp⟩

theorem process_waits [NeZero n] (fuel : Nat) : ∀ (s s' : State n), LoopInv s → process fuel s = .ok s' →
    (s.num = n ∨ s.pivot = none) → Wait s' ∧ One s' := by
  induction fuel with
  | zero =>
    intro s s' h hp hor
    unfold process at hp
    by_cases hn : s.num = n
    · rw [if_pos hn] at hp; cases hp
    · rw [if_neg hn] at hp; cases hp
      exact wait_of_none (hor.resolve_left hn)
  | succ fuel ih =>
    intro s s' h hp hor
    unfold process at hp
    by_cases hn : s.num = n
    · rw [if_pos hn] at hp
      have hne : ∀ i, s.deques i ≠ [] := by
        apply (nonEmpty_eq_iff _).1
        have := h.num; omega
      obtain ⟨m, e, hm, he, ⟨hpn, hc, hit⟩ | ⟨s1, p, hx, ha, hcase⟩⟩ := iteration_spec fuel h hne
      · rw [hit] at hp
        exact ih _ s' (pstep_inv h (.delete m e hm he hpn hc rfl)) hp (Or.inr hpn)
      · rcases hcase with ⟨hpm, hit⟩ | ⟨hpm, hit, hU⟩ | ⟨hpm, hit, hB, hage⟩ | ⟨_, hit, hf⟩
        · rw [hit] at hp
          exact ih _ s' (pstep_inv h (.publish m e p s1 hm he hx ha (Or.inl hpm) rfl)) hp (Or.inr rfl)
        · rw [hit] at hp
          exact ih _ s' (pstep_inv h (.publish m e p s1 hm he hx ha (Or.inr hU) rfl)) hp (Or.inr rfl)
        · rw [hit] at hp
          have hi1 := pstep_inv h (.go m e p hm he hx ha hpm hage)
          by_cases hn1 : s1.num = n
          · exact ih _ s' hi1 hp (Or.inl hn1)
          · have hs : s' = s1 := by
              have : process fuel s1 = .ok s1 := by
                cases fuel with
                | zero => unfold process; rw [if_neg hn1]
                | succ k => unfold process; rw [if_neg hn1]
              have hp : process fuel s1 = .ok s' := hp
              rw [this] at hp; cases hp; rfl
            subst hs
            have hlt : s'.num < n := by
              have := nonEmpty_le s'.deques
              have := ha.num
              omega
            obtain ⟨c, hc⟩ := ha.candInv
            refine ⟨?_, fun _ => ⟨m, ?_⟩⟩
            · intro q hq
              rw [hc.pivot] at hq; cases hq
              exact hB hlt
            · intro i hi
              apply Classical.byContradiction
              intro him
              rw [ha.deques, upd_ne _ _ him] at hi
              exact hne i hi
        · rw [hit] at hp; cases hp
    · rw [if_neg hn] at hp; cases hp
      exact wait_of_none (hor.resolve_left hn)

theorem beatable_push {s s1 : State n} {p i : Fin n} {e : Ev} (hp : Pushed s s1 i e) (hip : i = p) (h : Beatable s p) :
    Beatable s1 p := by
  subst hip
  obtain ⟨fut, T, a, b, h1, h2, h3, h4, h5, h6, h7⟩ := h
  refine ⟨fut, T, a, b, ?_, h2, ?_, by rw [hp.pivotTime]; exact h4, h5, h6, by
    rw [hp.cfg, hp.candEnd, hp.candStart]; exact h7⟩
  · intro j
    by_cases hj : j = i
    · subst hj; exact Or.inl h2
    · rw [hp.view_ne hj, hp.cfg]; exact h1 j
  · intro j
    by_cases hj : j = i
    · subst hj
      have := h3 j
      rw [hp.deques, upd_same]
      rw [h2, List.append_nil] at this ⊢
      exact List.mem_append_left _ this
    · rw [hp.deques, upd_ne _ _ hj]; exact h3 j

/-- `addPush` to an exhausted input leaves a candidate only if it can be beaten; with two inputs every `addPush` does. -/
theorem addPush_waits [NeZero n] (fuel : Nat) {s s' : State n} (h : Inv s) (h1 : One s) (i : Fin n) (e : Ev)
    (ha : addPush fuel s i e = .ok s') : One s' ∧ ((s.deques i = [] ∨ (n = 2 ∧ Wait s)) → Wait s') := by
  have hnum := push_num h.loop.num i e
  unfold addPush at ha
  simp only [upd_same] at ha
  by_cases hl : (s.deques i ++ [e]).length = 1
  · rw [if_pos hl] at ha
    have hemp : s.deques i = [] := by
      cases hd : s.deques i with
      | nil => rfl
      | cons x tl => rw [hd] at hl; simp at hl
    rw [hemp] at hnum
    simp at hnum
    let s1 : State n := State.mk s.cfg (upd s.deques i (s.deques i ++ [e])) (s.num + 1) s.past s.cand s.candStart s.candEnd
      s.pivotTime s.pivot s.hasDropped s.warned s.out
    have hp : Pushed s s1 i e := by
      refine ⟨rfl, ?_, rfl, rfl, rfl, rfl, rfl, rfl, rfl, rfl, rfl⟩
      show s.num + 1 = _
      rw [← hnum]; simp [s1, hemp]
    by_cases hn : s.num + 1 = (n : Int)
    · rw [if_pos hn] at ha
      obtain ⟨g1, g2⟩ := process_waits fuel s1 s' (hp.inv h.loop) ha (Or.inl hn)
      exact ⟨g2, fun _ => g1⟩
    · rw [if_neg hn] at ha
      cases ha
      have hpn : s.pivot = none := by
        apply Classical.byContradiction
        intro hpv
        obtain ⟨m, hm⟩ := h1 hpv
        apply hn
        have : s1.num = n := by
          rw [hp.num]
          have : ∀ j, s1.deques j ≠ [] := by
            intro j hj
            by_cases hji : j = i
            · subst hji; rw [hp.deques, upd_same] at hj; simp at hj
            · rw [hp.deques, upd_ne _ _ hji] at hj
              exact hji ((hm j hj).trans (hm i hemp).symm)
          exact_mod_cast (nonEmpty_eq_iff _).2 this
        exact this
      obtain ⟨g1, g2⟩ := wait_of_none (s := s1) hpn
      exact ⟨g2, fun _ => g1⟩
  · rw [if_neg hl] at ha
    have hemp : s.deques i ≠ [] := by intro h0; rw [h0] at hl; simp at hl
    have hnum' : (nonEmpty (upd s.deques i (s.deques i ++ [e])) : Int) = s.num := by
      rw [hnum]
      cases hd : s.deques i with
      | nil => exact absurd hd hemp
      | cons x tl => simp
    obtain ⟨s1, hp, hs1⟩ : ∃ s1, Pushed s s1 i e ∧ s1 = s' := by
      refine ⟨s', ?_, rfl⟩
      unfold checkInterMessageBound at ha
      simp only [upd_same, List.getLast?_concat] at ha
      split at ha
      · cases ha; exact ⟨rfl, hnum'.symm, rfl, rfl, rfl, rfl, rfl, rfl, rfl, rfl, rfl⟩
      · split at ha
        · cases ha; exact ⟨rfl, hnum'.symm, rfl, rfl, rfl, rfl, rfl, rfl, rfl, rfl, rfl⟩
        · split at ha
          · cases ha; exact ⟨rfl, hnum'.symm, rfl, rfl, rfl, rfl, rfl, rfl, rfl, rfl, rfl⟩
          · split at ha
            · cases ha; exact ⟨rfl, hnum'.symm, rfl, rfl, rfl, rfl, rfl, rfl, rfl, rfl, rfl⟩
            · cases ha; exact ⟨rfl, hnum'.symm, rfl, rfl, rfl, rfl, rfl, rfl, rfl, rfl, rfl⟩
    subst hs1
    constructor
    · intro hpv
      rw [hp.pivot] at hpv
      obtain ⟨m, hm⟩ := h1 hpv
      refine ⟨m, ?_⟩
      intro j hj
      by_cases hji : j = i
      · subst hji; rw [hp.deques, upd_same] at hj; simp at hj
      · rw [hp.deques, upd_ne _ _ hji] at hj; exact hm j hj
    · intro hor
      rcases hor with h0 | ⟨h2, hw⟩
      · exact absurd h0 hemp
      · intro p hpp
        rw [hp.pivot] at hpp
        refine beatable_push hp ?_ (hw p hpp)
        obtain ⟨j, hj⟩ := h.someEmpty
        obtain ⟨c, hc, hpast⟩ := h.loop.pivoted p hpp
        have hjp : j ≠ p := by
          intro hjp; subst hjp
          obtain ⟨tl, htl⟩ := hc.head j
          unfold view at htl; rw [hpast, hj] at htl; cases htl
        have hji : j ≠ i := by intro hji; subst hji; exact hemp hj
        have := i.2; have := j.2; have := p.2
        have e1 : j.val ≠ p.val := fun h => hjp (Fin.ext h)
        have e2 : j.val ≠ i.val := fun h => hji (Fin.ext h)
        exact Fin.ext (by omega)

theorem add_waits [NeZero n] (fuel : Nat) {s s' : State n} (h : Inv s) (h1 : One s) (i : Fin n) (e : Ev)
    (ha : add fuel s i e = .ok s') : One s' ∧ ((s.deques i = [] ∨ (n = 2 ∧ Wait s)) → Wait s') := by
  unfold add at ha
  obtain ⟨s0, hp, hcase, _⟩ := addPush_spec fuel h i e
  rcases hcase with ⟨s2, hadd, hsteps⟩ | hhang
  · rw [hadd] at ha
    simp only at ha
    have hw := addPush_waits fuel h h1 i e hadd
    have hl1 := hp.inv h.loop
    obtain ⟨hl2, hemp2⟩ := psteps_inv hl1 hsteps
    obtain ⟨hcfg2, _⟩ := psteps_cfg_len hl1 hsteps
    have hq2 : 0 < s2.cfg.queueSize := by rw [hcfg2, hp.cfg]; exact h.qpos
    rcases addLimit_spec fuel hl2 hq2 i hemp2 with ⟨g1, g2⟩ | ⟨g1, g2, g3, g4⟩ | ⟨g1, g2, g3⟩
    · rw [g2] at ha; cases ha; exact hw
    · rw [g3] at ha; cases ha
      obtain ⟨k1, k2⟩ := wait_of_none (s := dropped s2 i) rfl
      exact ⟨k2, fun _ => k1⟩
    · rw [g3] at ha
      obtain ⟨k1, k2⟩ := process_waits fuel _ s' (dropped_inv s2 i) ha (Or.inr rfl)
      exact ⟨k2, fun _ => k1⟩
  · rw [hhang] at ha; cases ha

theorem run_one [NeZero n] {fuel : Nat} {cfg : Cfg n} : ∀ (ops : List (Fin n × Ev)) (s : State n),
    run fuel cfg ops = .ok s → One s ∧ (n = 2 → Wait s) := by
  intro ops
  induction ops using snoc_induction with
  | h0 =>
    intro s h
    obtain ⟨hq, h⟩ := runOps_ok h
    cases h
    obtain ⟨k1, k2⟩ := wait_of_none (s := init cfg) rfl
    exact ⟨k2, fun _ => k1⟩
  | hs ops op ih =>
    intro s' h
    obtain ⟨s, h1, h2⟩ := run_snoc_ok h
    obtain ⟨hi, _, _⟩ := run_facts h1
    obtain ⟨g1, g2⟩ := ih s h1
    obtain ⟨k1, k2⟩ := add_waits fuel hi g1 op.1 op.2 h2
    exact ⟨k1, fun h2 => k2 (Or.inr ⟨h2, g2 h2⟩)⟩

/-- A state in which a candidate is held only if it can be beaten: two futures differ in the next set, and one of them has
nothing after it. -/
theorem wait_open [NeZero n] {s : State n} {num den : Int} (hn : 0 ≤ num) (hd : 0 < den)
    (hf : Exact s.cfg.scale num den) (hlow : ∀ i, 0 ≤ s.cfg.lower i) (hi : Inv s) (hw : Wait s)
    (hap : ∀ i, Apart (s.cfg.lower i) (view s i)) :
    ∃ fut : Fin n → List Ev, (∀ i, fut i = [] ∨ ∃ x, fut i = [x] ∧
        ∀ last, (view s i).getLast? = some last → last.stamp + s.cfg.lower i ≤ x.stamp) ∧
      (∀ i, fut i = [] ∨ view s i ≠ []) ∧
      ∀ (k : Nat) (C : Fin n → Ev), (rest true s (fun _ => []))[k]? = some C → (rest true s fut)[k]? = some C → False := by
  obtain ⟨m, hm⟩ := hi.someEmpty
  have hfr : fronts (full s (fun _ => [])) = none :=
    ApproxSpec.fronts_none ⟨m, by unfold full; rw [hm]; rfl⟩
  cases hpv : s.pivot with
  | none =>
    refine ⟨fun _ => [], fun i => Or.inl rfl, fun i => Or.inl rfl, ?_⟩
    intro k C h1 _
    unfold rest at h1
    rw [hpv] at h1
    simp only at h1
    rw [sets_cont, ApproxSpec.next_none hfr] at h1
    simp [cont] at h1
  | some p =>
    obtain ⟨fut, T, a, b, h1, h2, h3, h4, h5, h6, h7⟩ := hw p hpv
    obtain ⟨c, hc, hpast⟩ := hi.loop.pivoted p hpv
    refine ⟨fut, h1, fun i => Or.inr (by obtain ⟨tl, htl⟩ := hc.head i; rw [htl]; simp), ?_⟩
    have hapf : ∀ i, Apart (s.cfg.lower i) (view s i ++ fut i) := by
      intro i
      rcases h1 i with h0 | ⟨x, h0, hx⟩
      · rw [h0, List.append_nil]; exact hap i
      · rw [h0]
        unfold Apart
        rw [List.pairwise_append]
        refine ⟨hap i, by simp, ?_⟩
        intro y hy z hz
        rw [List.mem_singleton] at hz; subst hz
        obtain ⟨q, hq⟩ : ∃ last, (view s i).getLast? = some last := by
          cases hl : (view s i).getLast? with
          | none => rw [List.getLast?_eq_none_iff] at hl; rw [hl] at hy; cases hy
          | some last => exact ⟨last, rfl⟩
        have h8 := hx q hq
        obtain ⟨l, hl⟩ : ∃ l, view s i = l ++ [q] := by
          rw [List.getLast?_eq_some_iff] at hq; exact hq
        have h9 : y.stamp ≤ q.stamp := by
          rw [hl] at hy
          rcases List.mem_append.1 hy with hy | hy
          · have := hap i
            rw [hl] at this
            have := (List.pairwise_append.1 this).2.2 y hy q (by simp)
            have := hlow i
            omega
          · rw [List.mem_singleton] at hy; subst hy; exact Int.le_refl _
        omega
    have hge : ∀ i, ∀ x ∈ full s fut i, (c i).stamp ≤ x.stamp := by
      intro i x hx
      obtain ⟨tl, htl⟩ := hc.head i
      have hs := (hapf i).sorted (hlow i)
      have hx' : x ∈ view s i ++ fut i := by
        unfold view
        rw [List.append_assoc]
        exact List.mem_append_right _ hx
      rw [htl, List.cons_append] at hs hx'
      rcases List.mem_cons.1 hx' with h | h
      · rw [h]; exact Int.le_refl _
      · exact (List.pairwise_cons.1 hs).1 _ h
    have hcand := candOf_eq hc
    obtain ⟨r, hr⟩ := ApproxSpec.search_closed (f := s.cfg.scale) (p := p) (full s fut) (candOf s) (afterCand s fut)
    have hso : ∀ i, TimeSorted (full s fut i) := by
      intro i
      have := (hapf i).sorted (hlow i)
      unfold view at this
      rw [List.append_assoc] at this
      exact (List.pairwise_append.1 this).2.1
    have hdp : ∃ x tl, full s fut p = x :: tl ∧ x.stamp = s.pivotTime := by
      obtain ⟨tl, htl⟩ := hc.head p
      unfold view at htl; rw [hpast, List.nil_append] at htl
      exact ⟨c p, tl ++ fut p, by unfold full; rw [htl]; rfl, hc.pivotTime⟩
    have hopt := (ApproxSpec.search_optimal hf hn (by omega) (full s fut) (candOf s) (afterCand s fut) r hso hdp
      (by rw [hcand]; exact hc.pivotTime) (by rw [hcand]; exact hge) hr).2.2 T h3 h4
    have hend : endOf T = (T b).stamp := by
      have := ApproxSpec.le_endOf T b
      have : endOf T ≤ (T b).stamp := h6 _
      omega
    have hstart : startOf T = (T a).stamp := by
      have := ApproxSpec.startOf_le T a
      have : (T a).stamp ≤ startOf T := h5 _
      omega
    have hcT : cost num den T < cost num den c := by
      rw [← ApproxSpec.better_iff hf]
      · unfold ApproxSpec.better
        rw [hend, hstart, cand_end hc, cand_start hc]
        exact h7
      · have e1 := hge (newest c) (T (newest c)) (h3 _)
        have e2 := ApproxSpec.le_endOf T (newest c)
        have e3 : endOf c = (c (newest c)).stamp := rfl
        omega
    intro k C hk0 hk1
    unfold rest at hk0 hk1
    rw [hpv] at hk0 hk1
    simp only at hk0 hk1
    rw [ApproxSpec.search_none hfr] at hk0
    rw [hr] at hk1
    rw [if_pos rfl] at hk0
    obtain ⟨r1, r2⟩ := r
    simp only [cont] at hk0 hk1
    cases k with
    | zero =>
      simp only [List.getElem?_cons_zero, Option.some.injEq] at hk0 hk1
      rw [hk1] at hopt
      rw [← hk0, hcand] at hopt
      simp only at hopt
      omega
    | succ k =>
      rw [List.getElem?_cons_succ] at hk1
      rcases ApproxSpec.search_cases (full s fut) (full s fut) _ _ _ (fun i => ⟨[], rfl⟩) hr with hcs | hcs
      · have : r1 = candOf s := (Prod.mk.inj hcs).1
        rw [this, hcand] at hopt
        simp only at hopt
        omega
      · obtain ⟨al, hal⟩ := hcs m
        have hlen : (full s fut m).length ≤ 1 := by
          unfold full
          rw [hm]
          rcases h1 m with h0 | ⟨x, h0, _⟩
          · rw [h0]; simp
          · rw [h0]; simp
        have hnil : r2 m = [] := by
          rw [hal] at hlen
          simp only [List.length_append, List.length_cons] at hlen
          exact List.length_eq_zero_iff.1 (by omega)
        rw [sets_cont, ApproxSpec.next_none (ApproxSpec.fronts_none ⟨m, hnil⟩)] at hk1
        simp [cont] at hk1

theorem lift_get (l : List (Fin n → Ev)) (k : Nat) (C : Fin n → Ev) :
    (lift l)[k]? = some (fun i => some (C i)) ↔ l[k]? = some C := by
  unfold lift
  rw [List.getElem?_map]
  cases l[k]? with
  | none => simp
  | some t =>
    simp only [Option.map_some, Option.some.injEq]
    constructor
    · intro h; funext i; have := congrFun h i; simpa using this
    · intro h; rw [h]

/-- In a state that holds a candidate only if it can be beaten, exactly the sets that all futures agree on were output. -/
theorem wait_exact [NeZero n] {fuel : Nat} {cfg : Cfg n} {num den : Int} (hden : 0 < den) (hnum : 0 ≤ num)
    (hscale : cfg.scale = fun x => (x * num).tdiv den) (hlow : ∀ i, 0 ≤ cfg.lower i)
    (ops : List (Fin n × Ev)) (s : State n) (h : run fuel cfg ops = .ok s) (hq : NoOverflow fuel cfg ops)
    (hsp : ∀ i, Apart (cfg.lower i) (stream ops i)) (hw : Wait s) (k : Nat) (C : Fin n → Ev)
    (hdet : ∀ fut : Fin n → List Ev, (∀ i, Apart (cfg.lower i) (stream ops i ++ fut i)) →
      (sets true cfg.scale cfg.maxInterval (fun i => stream ops i ++ fut i))[k]? = some C) :
    s.out[k]? = some (fun i => some (C i)) := by
  have hmono : ∀ x y, x ≤ y → cfg.scale x ≤ cfg.scale y := by rw [hscale]; exact tdiv_mono hnum hden
  obtain ⟨hi, hcfg, hh⟩ := run_facts h
  have hcan := run_canonical_fits true hmono hlow ops s h hq
  have hview : ∀ i, ∃ u, stream ops i = u ++ view s i := fun i => by
    obtain ⟨u, hu, _⟩ := hh i; exact ⟨u, hu⟩
  have hapv : ∀ i, Apart (s.cfg.lower i) (view s i) := by
    intro i
    obtain ⟨u, hu⟩ := hview i
    have := hsp i
    rw [hu] at this
    rw [hcfg]
    exact (List.pairwise_append.1 this).2.1
  obtain ⟨fut, hfut, hne, hno⟩ := wait_open hnum hden (by rw [hcfg, hscale]; exact ApproxSpec.tdiv_exact hnum hden)
    (by rw [hcfg]; exact hlow) hi hw hapv
  -- the future is admissible, unless nothing was received on the input that gets a message
  have hadm : ∀ i, Apart (cfg.lower i) (stream ops i ++ fut i) := by
    intro i
    rcases hfut i with h0 | ⟨x, h0, hx⟩
    · rw [h0, List.append_nil]; exact hsp i
    · rw [h0]
      have hv : view s i ≠ [] := by
        rcases hne i with h1 | h1
        · rw [h0] at h1; cases h1
        · exact h1
      obtain ⟨u, hu⟩ := hview i
      cases hl : (view s i).getLast? with
      | none => rw [List.getLast?_eq_none_iff] at hl; exact absurd hl hv
      | some q =>
        have h8 := hx q hl
        rw [List.getLast?_eq_some_iff] at hl
        obtain ⟨l, hl⟩ := hl
        unfold Apart
        rw [List.pairwise_append]
        refine ⟨hsp i, by simp, ?_⟩
        intro y hy z hz
        rw [List.mem_singleton] at hz; subst hz
        have h9 : y.stamp ≤ q.stamp := by
          have h10 := hsp i
          rw [hu, hl, ← List.append_assoc] at hy h10
          rcases List.mem_append.1 hy with hy | hy
          · have := (List.pairwise_append.1 h10).2.2 y hy q (by simp)
            have := hlow i
            omega
          · rw [List.mem_singleton] at hy; subst hy; exact Int.le_refl _
        rw [hcfg] at h8
        omega
  have hnil : ∀ i, Apart (cfg.lower i) (stream ops i ++ (fun _ : Fin n => ([] : List Ev)) i) := by
    intro i; rw [List.append_nil]; exact hsp i
  have g0 := (lift_get _ k C).2 (hdet _ hnil)
  have g1 := (lift_get _ k C).2 (hdet _ hadm)
  rw [(hcan _ hnil).2 rfl] at g0
  rw [(hcan _ hadm).2 rfl] at g1
  by_cases hk : k < s.out.length
  · rw [List.getElem?_append_left hk] at g0; exact g0
  · exfalso
    rw [List.getElem?_append_right (by omega)] at g0 g1
    exact hno _ C ((lift_get _ _ C).1 g0) ((lift_get _ _ C).1 g1)

end MF.Approx
