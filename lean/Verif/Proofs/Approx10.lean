import Verif.Proofs.Approx8
import Verif.Proofs.Approx9
/-
Helper lemmas about the ApproximateTime model, part 10: what is output after some moment, whatever happened before it.
-/
namespace MF.Approx
open MF.Epsilon (nonEmpty nonEmpty_eq_iff nonEmpty_upd nonEmpty_le total)
open MF.ApproxSpec (startOf endOf cost Exact startOf_le le_endOf cost_mono better_iff)

variable {n : Nat}

/-! ### Where the messages of later sets come from -/

/-- Every message of `L i` was consumed or is still held, and the sets output from number `base` on used consumed messages of
`L i`, in order. -/
def Since (L : Fin n → List Ev) (base : Nat) (s : State n) : Prop :=
  base ≤ s.out.length ∧ ∀ i, ∃ c, L i = c ++ view s i ∧ List.Sublist ((s.out.drop base).map (· i)) (c.map some)

theorem Since.consume {L : Fin n → List Ev} {base : Nat} {s s' : State n} (h : Since L base s) (ho : s'.out = s.out)
    (hv : ∀ i, ∃ q, view s i = q ++ view s' i) : Since L base s' := by
  refine ⟨by rw [ho]; exact h.1, ?_⟩
  intro i
  obtain ⟨c, h1, h2⟩ := h.2 i
  obtain ⟨q, hq⟩ := hv i
  refine ⟨c ++ q, by rw [h1, hq, List.append_assoc], ?_⟩
  rw [ho, List.map_append]
  exact h2.trans (List.sublist_append_left _ _)

theorem pstep_since {L : Fin n → List Ev} {base : Nat} {s s' : State n} (hi : LoopInv s) (hs : PStep s s') (h : Since L base s) :
    Since L base s' := by
  cases hs with
  | delete m e hm he hp hc hs =>
    subst hs
    refine h.consume (by rfl) ?_
    intro i
    by_cases him : i = m
    · subst him
      refine ⟨(s.deques i).take 1, ?_⟩
      simp only [view, deleted, cleared, upd_same, hi.noPivot hp i, List.nil_append]
      cases s.deques i <;> simp
    · exact ⟨[], by simp [view, deleted, cleared, upd_ne _ _ him]⟩
  | go m e p hm he hx ha hpm => exact h.consume ha.out (examined_view hi hx)
  | publish m e p s1 hm he hx ha hw hs =>
    subst hs
    have h1 : Since L base s1 := h.consume ha.out (examined_view hi hx)
    obtain ⟨c, hc⟩ := ha.candInv
    refine ⟨?_, ?_⟩
    · show base ≤ (s1.out ++ [s1.cand]).length
      rw [List.length_append]
      exact Nat.le_trans h1.1 (Nat.le_add_right _ _)
    intro i
    obtain ⟨q, h2, h3⟩ := h1.2 i
    obtain ⟨tl, htl⟩ := hc.head i
    refine ⟨q ++ [c i], ?_, ?_⟩
    · rw [h2]
      show _ = q ++ [c i] ++ ([] ++ (view s1 i).tail)
      rw [htl]; simp
    · show List.Sublist (((s1.out ++ [s1.cand]).drop base).map (· i)) _
      rw [List.drop_append_of_le_length h1.1, List.map_append, List.map_append]
      apply List.Sublist.append h3
      simp [hc.cand i]

theorem psteps_since {L : Fin n → List Ev} {base : Nat} {s s' : State n} (hi : LoopInv s) (hs : PSteps s s') (h : Since L base s) :
    Since L base s' :=
  (psteps_ind (P := Since L base) (fun _ _ a _ b c => pstep_since a b c) hi hs h).2.2

theorem pushed_since {L : Fin n → List Ev} {base : Nat} {s s1 : State n} {i : Fin n} {e : Ev} (hp : Pushed s s1 i e)
    (h : Since L base s) : Since (upd L i (L i ++ [e])) base s1 := by
  refine ⟨by rw [hp.out]; exact h.1, ?_⟩
  intro j
  obtain ⟨c, h1, h2⟩ := h.2 j
  refine ⟨c, ?_, by rw [hp.out]; exact h2⟩
  by_cases hj : j = i
  · subst hj; rw [upd_same, hp.view_same, h1, List.append_assoc]
  · rw [upd_ne _ _ hj, hp.view_ne hj, h1]

theorem dropped_since {L : Fin n → List Ev} {base : Nat} {s : State n} (i : Fin n) (h : Since L base s) :
    Since L base (dropped s i) := by
  refine h.consume (by rfl) ?_
  intro j
  rw [view_dropped]
  by_cases hj : j = i
  · subst hj
    refine ⟨(view s j).take 1, ?_⟩
    rw [upd_same]
    cases view s j <;> simp
  · exact ⟨[], by rw [upd_ne _ _ hj]; rfl⟩

theorem add_since {L : Fin n → List Ev} {base : Nat} {s s' : State n} {i : Fin n} {e : Ev} (hi : LoopInv s) (hs : AddSpec s s' i e)
    (h : Since L base s) : Since (upd L i (L i ++ [e])) base s' := by
  cases hs with
  | normal s1 hp hs hl => exact psteps_since (hp.inv hi) hs (pushed_since hp h)
  | drop s1 s2 hp hs hl hs' =>
    exact psteps_since (dropped_inv s2 i) hs' (dropped_since i (psteps_since (hp.inv hi) hs (pushed_since hp h)))

/-- Induction over what follows a history. -/
theorem run_after_induction [NeZero n] {fuel : Nat} {cfg : Cfg n} {old : List (Fin n × Ev)} {s0 : State n}
    (h0 : run fuel cfg old = .ok s0) {P : List (Fin n × Ev) → State n → Prop} (hP : P [] s0)
    (hstep : ∀ new s i e s', Inv s → s.cfg = cfg → AddSpec s s' i e → P new s → P (new ++ [(i, e)]) s') :
    ∀ new s, run fuel cfg (old ++ new) = .ok s → P new s := by
  intro new
  induction new using snoc_induction with
  | h0 =>
    intro s h
    rw [List.append_nil, h0] at h
    cases h
    exact hP
  | hs new op ih =>
    intro s' h
    rw [← List.append_assoc] at h
    obtain ⟨s, h1, h2⟩ := run_snoc_ok h
    obtain ⟨hi, hcfg, _⟩ := run_facts h1
    rcases (add_spec fuel hi op.1 op.2).1 with ⟨s1, g1, g2, g3, g4⟩ | g1
    · rw [h2] at g1; cases g1
      exact hstep new s op.1 op.2 s' hi hcfg g2 (ih s h1)
    · rw [h2] at g1; cases g1

theorem view_upd (V : Fin n → List Ev) (new : List (Fin n × Ev)) (i : Fin n) (e : Ev) :
    (fun j => V j ++ stream (new ++ [(i, e)]) j) = upd (fun j => V j ++ stream new j) i ((V i ++ stream new i) ++ [e]) := by
  funext j
  rw [stream_snoc]
  by_cases hj : j = i
  · subst hj; rw [upd_same, upd_same, List.append_assoc]
  · rw [upd_ne _ _ hj, upd_ne _ _ hj]

theorem run_since [NeZero n] {fuel : Nat} {cfg : Cfg n} {old : List (Fin n × Ev)} {s0 : State n}
    (h0 : run fuel cfg old = .ok s0) : ∀ new s, run fuel cfg (old ++ new) = .ok s →
    Since (fun i => view s0 i ++ stream new i) s0.out.length s := by
  refine run_after_induction h0 ?_ ?_
  · refine ⟨Nat.le_refl _, fun i => ⟨[], by simp [stream], by simp⟩⟩
  · intro new s i e s' hi _ hadd ih
    rw [view_upd]
    exact add_since hi.loop hadd ih

theorem pstep_out {s s' : State n} (hs : PStep s s') : ∃ l, s'.out = s.out ++ l := by
  cases hs with
  | delete m e hm he hp hc hs => subst hs; exact ⟨[], by simp [deleted, cleared]⟩
  | go m e p hm he hx ha hpm => exact ⟨[], by rw [ha.out]; simp⟩
  | publish m e p s1 hm he hx ha hw hs =>
    subst hs
    exact ⟨[s1.cand], by show s1.out ++ [s1.cand] = _; rw [ha.out]⟩

theorem psteps_out {s s' : State n} (h : PSteps s s') : ∃ l, s'.out = s.out ++ l := by
  induction h with
  | done h => exact ⟨[], by simp⟩
  | step hne h1 _ ih =>
    obtain ⟨a, ha⟩ := pstep_out h1
    obtain ⟨b, hb⟩ := ih
    exact ⟨a ++ b, by rw [hb, ha, List.append_assoc]⟩

theorem add_out {s s' : State n} {i : Fin n} {e : Ev} (hs : AddSpec s s' i e) : ∃ l, s'.out = s.out ++ l := by
  cases hs with
  | normal s1 hp hs hl =>
    obtain ⟨l, h⟩ := psteps_out hs
    exact ⟨l, by rw [h, hp.out]⟩
  | drop s1 s2 hp hs hl hs' =>
    obtain ⟨a, ha⟩ := psteps_out hs
    obtain ⟨b, hb⟩ := psteps_out hs'
    have hb : s'.out = s2.out ++ b := hb
    exact ⟨a ++ b, by rw [hb, ha, hp.out, List.append_assoc]⟩

theorem run_after_out [NeZero n] {fuel : Nat} {cfg : Cfg n} {old : List (Fin n × Ev)} {s0 : State n}
    (h0 : run fuel cfg old = .ok s0) : ∀ new s, run fuel cfg (old ++ new) = .ok s → ∃ l, s.out = s0.out ++ l := by
  refine run_after_induction h0 ?_ ?_
  · exact ⟨[], by simp⟩
  · intro new s i e s' hi _ hadd ⟨a, ha⟩
    obtain ⟨b, hb⟩ := add_out hadd
    exact ⟨a ++ b, by rw [hb, ha, List.append_assoc]⟩

/-- What is held after at least `queue_size` messages on an input is all from those messages. -/
theorem held_suffix [NeZero n] {fuel : Nat} {cfg : Cfg n} {old mid : List (Fin n × Ev)} {s : State n} {i : Fin n}
    (h : run fuel cfg (old ++ mid) = .ok s) (hm : cfg.queueSize ≤ (stream mid i).length) : view s i <:+ stream mid i := by
  obtain ⟨hi, hcfg, hh⟩ := run_facts h
  obtain ⟨c, hc, _⟩ := hh i
  have hb := hi.bound i
  rw [hcfg] at hb
  rw [stream_append] at hc
  exact List.suffix_of_suffix_length_le ⟨c, hc.symm⟩ ⟨stream old i, rfl⟩ (by omega)

/-! ### Later sets are optimal if the messages held and to come are in order -/

/-- If the messages held and to come are in order, no set of them with the pivot message is cheaper than the candidate, unless one
that can still be found is as cheap. -/
def LocalLead [NeZero n] (num den : Int) (s : State n) : Prop :=
  ∀ fut : Fin n → List Ev, (∀ i, TimeSorted (view s i ++ fut i)) → ∀ p, s.pivot = some p →
    Leading num den fut s (fun i => view s i ++ fut i) p

theorem LocalLead.none [NeZero n] {num den : Int} {s : State n} (h : s.pivot = none) : LocalLead num den s := by
  intro fut _ p hp
  rw [h] at hp; cases hp

theorem examined_local [NeZero n] {num den : Int} (hn : 0 ≤ num) (hd : 0 ≤ den) {s s1 : State n} {m e p : Fin n}
    (hf : Exact s.cfg.scale num den) (h : LoopInv s) (hne : ∀ i, s.deques i ≠ []) (hm : IsStart s.deques m)
    (he : IsEnd s.deques e) (hx : Examined s m e p s1) (ha : After s m p s1) (hl : LocalLead num den s) : LocalLead num den s1 := by
  intro fut hs q hq
  obtain ⟨c1, hc1⟩ := ha.candInv
  rw [hc1.pivot] at hq
  cases hq
  cases hx with
  | fresh h1 h2 h3 hp hs1 =>
    have hv : ∀ i, view s1 i = s.deques i := by
      intro i; rw [hs1]; unfold fresh; rw [view_moved]; simp [view, candidated, cleared]
    have hc1 : candOf s1 = fun i => (s.deques i).headD default := by rw [hs1]; exact candOf_heads s
    have hsd := hs e
    rw [hv e] at hsd
    refine (front_lead hn hd hne hm he ha hsd (fun i => view s1 i ++ fut i) _ rfl (by rw [hc1]) (by rw [hc1]; exact Int.le_refl _) ?_).1
    intro T hT hTp
    exact Or.inr ⟨T, fun i => by have := hT i; simp only [hv i] at this; exact this, hTp, Int.le_refl _⟩
  | kept h1 h2 hs1 =>
    have hv : ∀ i, view s1 i = view s i := by
      intro i; rw [hs1]; unfold kept; rw [view_moved]; rfl
    have hs' : ∀ i, TimeSorted (view s i ++ fut i) := fun i => by rw [← hv i]; exact hs i
    obtain ⟨c, hc, hpast⟩ := h.pivoted p h1
    have hcs : candOf s = c := candOf_eq hc
    have hc1 : candOf s1 = c := by rw [hs1]; exact hcs
    have hcp : c p = (s.deques p).headD default := by
      obtain ⟨tl, htl⟩ := hc.head p
      unfold view at htl
      rw [hpast, List.nil_append] at htl
      rw [htl]; rfl
    have hsd : TimeSorted (s.deques e ++ fut e) := by
      have := hs' e
      unfold view at this
      rw [List.append_assoc] at this
      exact (List.pairwise_append.1 this).2.1
    refine (front_lead hn hd hne hm he ha hsd (fun i => view s1 i ++ fut i) _ rfl (by rw [hc1]; exact hcp) ?_ ?_).1
    · rw [hc1]
      have hend := end_ge_cand hc hne (fun i => (List.pairwise_append.1 (hs' i)).1) he
      have hend' : endOf c ≤ endOf (fun i => (s.deques i).headD default) := by rw [endOf_eq he, cand_end hc]; exact hend
      have : ¬ ApproxSpec.better s.cfg.scale (fun i => (s.deques i).headD default) c := by
        unfold ApproxSpec.better
        rw [endOf_eq he, startOf_eq hm, cand_start hc, cand_end hc]
        omega
      rw [better_iff hf hend'] at this
      omega
    · intro T hT hTp
      have := hl fut hs' p h1 T (fun i => by have := hT i; simp only [hv i] at this; exact this)
      rw [hcs] at this
      rw [hc1] at hTp ⊢
      exact this hTp
  | better h1 h2 hs1 =>
    have hv : ∀ i, view s1 i = s.deques i := by
      intro i; rw [hs1]; unfold better; rw [view_moved]; simp [view, candidated, cleared]
    have hc1 : candOf s1 = fun i => (s.deques i).headD default := by rw [hs1]; exact candOf_heads s
    have hsd := hs e
    rw [hv e] at hsd
    refine (front_lead hn hd hne hm he ha hsd (fun i => view s1 i ++ fut i) _ rfl (by rw [hc1]) (by rw [hc1]; exact Int.le_refl _) ?_).1
    intro T hT hTp
    exact Or.inr ⟨T, fun i => by have := hT i; simp only [hv i] at this; exact this, hTp, Int.le_refl _⟩

theorem pstep_local [NeZero n] {num den : Int} (hn : 0 ≤ num) (hd : 0 ≤ den) {s s' : State n} (hf : Exact s.cfg.scale num den)
    (h : LoopInv s) (hne : ∀ i, s.deques i ≠ []) (hs : PStep s s') (hl : LocalLead num den s) : LocalLead num den s' := by
  cases hs with
  | delete m e hm he hp hc hs => subst hs; exact LocalLead.none hp
  | go m e p hm he hx ha hpm => exact examined_local hn hd hf h hne hm he hx ha hl
  | publish m e p s1 hm he hx ha hw hs => subst hs; exact LocalLead.none rfl

theorem psteps_local [NeZero n] {num den : Int} (hn : 0 ≤ num) (hd : 0 ≤ den) {s s' : State n} (hf : Exact s.cfg.scale num den)
    (h : LoopInv s) (hs : PSteps s s') (hl : LocalLead num den s) : LocalLead num den s' := by
  have := psteps_ind (P := fun t => t.cfg = s.cfg ∧ LocalLead num den t)
    (by
      intro t t' a b c ⟨d1, d2⟩
      exact ⟨by rw [pstep_cfg c, d1], pstep_local hn hd (by rw [d1]; exact hf) a b c d2⟩) h hs ⟨rfl, hl⟩
  exact this.2.2.2

theorem pushed_local [NeZero n] {num den : Int} {s s1 : State n} {i : Fin n} {e : Ev} (hp : Pushed s s1 i e)
    (hl : LocalLead num den s) : LocalLead num den s1 := by
  intro fut hs p hp'
  rw [hp.pivot] at hp'
  have hD : ∀ j, s1.deques j ++ fut j = s.deques j ++ upd fut i (e :: fut i) j := by
    intro j
    rw [hp.deques]
    by_cases hj : j = i
    · subst hj; rw [upd_same, upd_same, List.append_assoc]; rfl
    · rw [upd_ne _ _ hj, upd_ne _ _ hj]
  have hV : ∀ j, view s1 j ++ fut j = view s j ++ upd fut i (e :: fut i) j := by
    intro j
    unfold view
    rw [List.append_assoc, List.append_assoc, hD j, hp.past]
  have := hl (upd fut i (e :: fut i)) (fun j => by rw [← hV j]; exact hs j) p hp'
  have hc : candOf s1 = candOf s := by unfold candOf; rw [hp.cand]
  intro T hT hTp
  rw [hc] at hTp ⊢
  rcases this T (fun j => by show T j ∈ view s j ++ _; rw [← hV j]; exact hT j) hTp with h1 | ⟨T', h1, h2, h3⟩
  · exact Or.inl h1
  · exact Or.inr ⟨T', fun j => by rw [hD j]; exact h1 j, h2, h3⟩

theorem run_local [NeZero n] {fuel : Nat} {cfg : Cfg n} {num den : Int} (hn : 0 ≤ num) (hd : 0 ≤ den)
    (hf : Exact cfg.scale num den) : ∀ (ops : List (Fin n × Ev)) (s : State n), run fuel cfg ops = .ok s → LocalLead num den s := by
  apply run_induction
  · exact LocalLead.none rfl
  · intro ops s i e s' hi hcfg hh hadd hi' ih
    have hmain : ∀ s1, Pushed s s1 i e → ∀ s2, PSteps s1 s2 → s2.cfg = cfg ∧ LocalLead num den s2 := by
      intro s1 hp s2 hs
      have hc1 : s1.cfg = cfg := by rw [hp.cfg, hcfg]
      exact ⟨by rw [(psteps_cfg_len (hp.inv hi.loop) hs).1, hc1],
        psteps_local hn hd (by rw [hc1]; exact hf) (hp.inv hi.loop) hs (pushed_local hp ih)⟩
    cases hadd with
    | normal s1 hp hs hl => exact (hmain s1 hp s' hs).2
    | drop s1 s2 hp hs hl hs' =>
      obtain ⟨g1, g2⟩ := hmain s1 hp s2 hs
      have hc2 : (dropped s2 i).cfg = cfg := g1
      exact psteps_local hn hd (by rw [hc2]; exact hf) (dropped_inv s2 i) hs' (LocalLead.none rfl)

/-- After any history `old`, if the messages held then and all that follow are in order, every later set is optimal among them. -/
theorem run_opt_after [NeZero n] {fuel : Nat} {cfg : Cfg n} {num den : Int} (hn : 0 ≤ num) (hd : 0 ≤ den)
    (hf : Exact cfg.scale num den) (hmono : ∀ x y, x ≤ y → cfg.scale x ≤ cfg.scale y) (hlow : ∀ i, 0 ≤ cfg.lower i)
    {old : List (Fin n × Ev)} {s0 : State n} (h0 : run fuel cfg old = .ok s0) :
    ∀ (new : List (Fin n × Ev)) (s : State n), run fuel cfg (old ++ new) = .ok s →
    ∀ fut : Fin n → List Ev, (∀ i, Apart (cfg.lower i) (view s0 i ++ (stream new i ++ fut i))) →
      OptInv num den (fun i => view s0 i ++ (stream new i ++ fut i)) fut s0.out.length s := by
  refine run_after_induction h0 ?_ ?_
  · intro fut hap
    refine ⟨?_, fun _ => [], fun i => view s0 i ++ fut i, ⟨fun _ => by simp [stream], Nat.le_refl _, fun _ _ => rfl, ?_, fun i => ⟨[], rfl⟩⟩, ?_⟩
    · intro pre C post h
      exact absurd h (by simp)
    · intro t ht
      exact absurd ht (by simp)
    · intro p hp
      exact run_local hn hd hf old s0 h0 fut (fun i => by have := (hap i).sorted (hlow i); simpa [stream] using this) p hp
  · intro new s i e s' hi hcfg hadd ih fut hap
    have hst : (fun j => view s0 j ++ (stream (new ++ [(i, e)]) j ++ fut j)) =
        fun j => view s0 j ++ (stream new j ++ (upd fut i (e :: fut i)) j) := by
      funext j
      rw [congrFun (stream_upd new fut i e) j]
    have ih := ih (upd fut i (e :: fut i)) (by
      intro j
      have h4 := hap j
      rw [congrFun hst j] at h4
      exact h4)
    rw [← hst] at ih
    exact add_opt hn hd hf hmono hlow hap hi hcfg hadd ih

end MF.Approx
