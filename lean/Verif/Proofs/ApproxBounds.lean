import Verif.Proofs.ApproxLive
import Verif.Proofs.Approx10
import Verif.Proofs.Approx11
import Verif.Spec.ApproxEarly
/-
Helper lemmas about the ApproximateTime model: the order in which the messages are passed over, and two synchronizers with
different minimum distances.
-/
namespace MF.Approx
open MF.ApproxSpec (fronts next sets search Spaced Determined)

variable {n : Nat}

/-- The order in which the fronts of the queues are passed over: by stamp, then by input. -/
def Before (p : Ev) (b : Fin n) (q : Ev) (i : Fin n) : Prop := p.stamp < q.stamp ∨ (p.stamp = q.stamp ∧ b < i)

theorem Before.asymm {p q : Ev} {b i : Fin n} (h : Before p b q i) (h' : Before q i p b) : False := by
  unfold Before at h h'
  have : b < i → i < b → False := fun h1 h2 => by
    have h1 : b.val < i.val := h1
    have h2 : i.val < b.val := h2
    omega
  rcases h with h | ⟨h, hb⟩ <;> rcases h' with h' | ⟨h', hb'⟩
  · omega
  · omega
  · omega
  · exact this hb hb'

theorem Before.mono {p q q' : Ev} {b i : Fin n} (h : Before p b q i) (hq : q.stamp ≤ q'.stamp) : Before p b q' i := by
  unfold Before at *
  rcases h with h | ⟨h, hb⟩
  · left; omega
  · by_cases h1 : p.stamp < q'.stamp
    · exact Or.inl h1
    · right; exact ⟨by omega, hb⟩

/-- Messages passed over come before those left, and before the last one passed over on an exhausted input. -/
def Ordered (s : State n) : Prop :=
  ∀ b i, b ≠ i → ∀ p ∈ s.past b, ∀ q, (q ∈ s.deques i ∨ (s.deques i = [] ∧ (s.past i).getLast? = some q)) → Before p b q i

theorem ordered_of_nil {s : State n} (h : ∀ i, s.past i = []) : Ordered s := by
  intro b i _ p hp; rw [h b] at hp; cases hp

/-- What examining the fronts does to the messages passed over. -/
theorem examined_past {s s1 : State n} {m e p : Fin n} (hne : ∀ i, s.deques i ≠ []) (hx : Examined s m e p s1) :
    (∀ b, b ≠ m → ∀ x ∈ s1.past b, x ∈ s.past b) ∧
    ∃ l, s1.past m = l ++ [(s.deques m).headD default] ∧ ∀ x ∈ l, x ∈ s.past m := by
  have ht : (s.deques m).take 1 = [(s.deques m).headD default] := by
    rw [eq_cons_of_ne (hne m)]; rfl
  cases hx with
  | fresh h1 h2 h3 hp hs =>
    subst hs
    refine ⟨?_, [], ?_, by simp⟩
    · intro b hb x hx
      simp [fresh, moved, candidated, upd_ne _ _ hb] at hx
    · simp only [fresh, moved, candidated, cleared, upd_same, List.nil_append]; exact ht
  | kept h1 h2 hs =>
    subst hs
    refine ⟨?_, s.past m, ?_, fun x hx => hx⟩
    · intro b hb x hx
      simpa [kept, moved, cleared, upd_ne _ _ hb] using hx
    · simp only [kept, moved, cleared, upd_same]; rw [ht]
  | better h1 h2 hs =>
    subst hs
    refine ⟨?_, [], ?_, by simp⟩
    · intro b hb x hx
      simp [better, moved, candidated, upd_ne _ _ hb] at hx
    · simp only [better, moved, candidated, cleared, upd_same, List.nil_append]; exact ht

theorem start_before {d : Fin n → List Ev} {m j : Fin n} (hm : IsStart d m) (hj : m ≠ j) :
    Before ((d m).headD default) m ((d j).headD default) j := by
  have h1 := hm.1 j
  have h2 := hm.2 j
  unfold st at h1 h2
  unfold Before
  by_cases h : ((d m).headD default).stamp < ((d j).headD default).stamp
  · exact Or.inl h
  · right
    refine ⟨by omega, ?_⟩
    apply Classical.byContradiction
    intro hc
    have : j < m := by
      have h3 : j.val ≠ m.val := fun h => hj (Fin.ext h.symm)
      have h4 : ¬ m.val < j.val := hc
      show j.val < m.val
      omega
    exact h (h2 this)

theorem headD_le {l : List Ev} (h : TimeSorted l) {q : Ev} (hq : q ∈ l) : (l.headD default).stamp ≤ q.stamp := by
  cases l with
  | nil => cases hq
  | cons x tl =>
    rcases List.mem_cons.1 hq with h1 | h1
    · rw [h1]; exact Int.le_refl _
    · exact (List.pairwise_cons.1 h).1 _ h1

theorem examined_ordered {s s1 : State n} {m e p : Fin n} (hne : ∀ i, s.deques i ≠ []) (hso : ∀ i, TimeSorted (view s i))
    (hm : IsStart s.deques m) (hx : Examined s m e p s1) (ha : After s m p s1) (h : Ordered s) : Ordered s1 := by
  obtain ⟨h1, l, hl, h2⟩ := examined_past hne hx
  have hsd : ∀ i, TimeSorted (s.deques i) := fun i => (List.pairwise_append.1 (hso i)).2.1
  clear hx
  intro b i hbi x hx q hq
  have hfront : ∀ j, (s.deques j).headD default ∈ s.deques j := by
    intro j
    have := eq_cons_of_ne (hne j)
    rw [this]; simp
  by_cases hi : i = m
  · subst hi
    have hxb := h1 b hbi x hx
    have hmem : q ∈ s.deques i := by
      rcases hq with hq | ⟨_, hq⟩
      · rw [ha.deques, upd_same] at hq; exact List.mem_of_mem_tail hq
      · rw [hl, List.getLast?_concat] at hq
        cases hq; exact hfront i
    exact h b i hbi x hxb q (Or.inl hmem)
  · have hmem : q ∈ s.deques i := by
      rcases hq with hq | ⟨h0, _⟩
      · rw [ha.deques, upd_ne _ _ hi] at hq; exact hq
      · rw [ha.deques, upd_ne _ _ hi] at h0; exact absurd h0 (hne i)
    by_cases hb : b = m
    · subst hb
      rw [hl] at hx
      rcases List.mem_append.1 hx with hx | hx
      · exact h b i hbi x (h2 x hx) q (Or.inl hmem)
      · rw [List.mem_singleton] at hx
        rw [hx]
        exact (start_before hm hbi).mono (headD_le (hsd i) hmem)
    · exact h b i hbi x (h1 b hb x hx) q (Or.inl hmem)

theorem pstep_ordered {s s' : State n} (hi : LoopInv s) (hne : ∀ i, s.deques i ≠ []) (hso : ∀ i, TimeSorted (view s i))
    (hs : PStep s s') (h : Ordered s) : Ordered s' := by
  cases hs with
  | delete m e hm he hp hc hs =>
    subst hs
    exact ordered_of_nil (hi.noPivot hp)
  | go m e p hm he hx ha hpm => exact examined_ordered hne hso hm hx ha h
  | publish m e p s1 hm he hx ha hw hs => subst hs; exact ordered_of_nil (fun _ => rfl)

theorem psteps_ordered {L : Fin n → List Ev} {s s' : State n} (hi : LoopInv s) (hL : ∀ i, TimeSorted (L i))
    (hh : Hist L s) (hs : PSteps s s') (h : Ordered s) : Ordered s' := by
  have := psteps_ind (P := fun t => Ordered t ∧ Hist L t)
    (fun t t' a b c d => ⟨pstep_ordered a b (fun i => sorted_of_hist d.2 hL i) c d.1, pstep_hist a c d.2⟩) hi hs ⟨h, hh⟩
  exact this.2.2.1

theorem pushed_ordered {s s1 : State n} {i : Fin n} {e : Ev} (hi : LoopInv s) (hp : Pushed s s1 i e)
    (hso : TimeSorted (view s i ++ [e])) (h : Ordered s) : Ordered s1 := by
  intro b j hbj x hx q hq
  rw [hp.past] at hx hq
  rw [hp.deques] at hq
  by_cases hj : j = i
  · subst hj
    rw [upd_same] at hq
    have hq : q ∈ s.deques j ∨ q = e := by
      rcases hq with hq | ⟨hq, _⟩
      · rcases List.mem_append.1 hq with hq | hq
        · exact Or.inl hq
        · exact Or.inr (List.mem_singleton.1 hq)
      · simp at hq
    rcases hq with hq | rfl
    · exact h b j hbj x hx q (Or.inl hq)
    · have hle : ∀ y ∈ view s j, y.stamp ≤ q.stamp := fun y hy =>
        (List.pairwise_append.1 hso).2.2 y hy q (by simp)
      cases hd : s.deques j with
      | cons y tl =>
        exact (h b j hbj x hx y (Or.inl (by rw [hd]; simp))).mono (hle y (by unfold view; rw [hd]; simp))
      | nil =>
        cases hpv : s.pivot with
        | none => rw [hi.noPivot hpv b] at hx; cases hx
        | some p =>
          obtain ⟨c, hc, _⟩ := hi.pivoted p hpv
          obtain ⟨tl, htl⟩ := hc.head j
          have hne : s.past j ≠ [] := by
            intro h0; unfold view at htl; rw [h0, hd] at htl; cases htl
          have hlast := List.getLast?_eq_some_getLast hne
          exact (h b j hbj x hx _ (Or.inr ⟨hd, hlast⟩)).mono
            (hle _ (by unfold view; exact List.mem_append_left _ (List.getLast_mem hne)))
  · rw [upd_ne _ _ hj] at hq
    exact h b j hbj x hx q hq

theorem run_ordered [NeZero n] {fuel : Nat} {cfg : Cfg n} : ∀ (ops : List (Fin n × Ev)) (s : State n),
    run fuel cfg ops = .ok s → (∀ i, TimeSorted (stream ops i)) → Ordered s := by
  apply run_induction (P := fun ops s => (∀ i, TimeSorted (stream ops i)) → Ordered s)
  · intro _; exact ordered_of_nil (fun _ => rfl)
  · intro ops s i e s' hi _ hh hs _ ih hso
    have hso0 : ∀ j, TimeSorted (stream ops j) := by
      intro j
      have := hso j
      rw [stream_append] at this
      exact (List.pairwise_append.1 this).1
    have hL : ∀ j, TimeSorted (upd (stream ops) i (stream ops i ++ [e]) j) := by
      intro j
      rw [← stream_snoc]; exact hso j
    have h0 := ih hso0
    have hview : ∀ s1, Pushed s s1 i e → Ordered s1 := by
      intro s1 hp
      refine pushed_ordered hi.loop hp ?_ h0
      have := sorted_of_hist (pushed_hist hp hh) hL i
      rw [hp.view_same] at this
      exact this
    cases hs with
    | normal s1 hp hs hl => exact psteps_ordered (hp.inv hi.loop) hL (pushed_hist hp hh) hs (hview s1 hp)
    | drop s1 s2 hp hs hl hs' =>
      exact psteps_ordered (dropped_inv s2 i) hL (dropped_hist i (psteps_hist (hp.inv hi.loop) hs (pushed_hist hp hh))) hs'
        (ordered_of_nil (fun _ => rfl))

/-- A message on an input that still has some to look at changes no output, if the queue has room. -/
theorem add_quiet [NeZero n] {fuel : Nat} {cfg : Cfg n} {ops : List (Fin n × Ev)} {i : Fin n} {e : Ev} {s s' : State n}
    (h : run fuel cfg ops = .ok s) (h' : run fuel cfg (ops ++ [(i, e)]) = .ok s') (hq : ops.length < cfg.queueSize)
    (hi : s.deques i ≠ []) : s'.out = s.out := by
  obtain ⟨s0, g1, g2⟩ := run_snoc_ok h'
  rw [h] at g1; cases g1
  obtain ⟨hinv, hcfg, hh⟩ := run_facts h
  have hempty : ∀ s1, Pushed s s1 i e → ∀ s2, PSteps s1 s2 → s2 = s1 := by
    intro s1 hp s2 hs
    cases hs with
    | done _ => rfl
    | step hne _ _ =>
      exfalso
      obtain ⟨j, hj⟩ := hinv.someEmpty
      have hji : j ≠ i := by intro h0; rw [h0] at hj; exact hi hj
      refine hne j ?_
      rw [hp.deques, upd_ne _ _ hji]; exact hj
  rcases (add_spec fuel hinv i e).1 with ⟨s1, k1, k2, _, _⟩ | k1
  · have g2 : add fuel s i e = .ok s' := g2
    rw [g2] at k1; cases k1
    cases k2 with
    | normal s1 hp hs hl => rw [hempty s1 hp _ hs, hp.out]
    | drop s1 s2 hp hs hl hs' =>
      exfalso
      rw [hempty s1 hp _ hs, hp.view_same, hcfg] at hl
      obtain ⟨c, hc, _⟩ := hh i
      have h1 : (stream ops i).length ≤ ops.length := by unfold stream; rw [List.length_map]; exact List.length_filter_le _ _
      rw [hc] at h1
      simp only [List.length_append, List.length_cons, List.length_nil] at hl h1
      omega
  · have g2 : add fuel s i e = .ok s' := g2
    rw [g2] at k1; cases k1

theorem rest_exhausted [NeZero n] {s : State n} {fut : Fin n → List Ev} (hp : s.pivot = none) (h : ∃ i, full s fut i = []) :
    rest true s fut = [] := by
  unfold rest
  rw [hp]
  simp only
  rw [sets_cont, ApproxSpec.next_none (ApproxSpec.fronts_none h)]
  rfl

theorem rest_some_ne [NeZero n] {s : State n} {fut : Fin n → List Ev} {p : Fin n} (hp : s.pivot = some p) :
    rest true s fut ≠ [] := by
  unfold rest
  rw [hp]
  simp only
  obtain ⟨r, hr⟩ := ApproxSpec.search_closed (f := s.cfg.scale) (p := p) (full s fut) (candOf s) (afterCand s fut)
  rw [hr]
  obtain ⟨r1, r2⟩ := r
  simp [cont]

theorem lift_append_eq (l : List (Fin n → Ev)) (h : lift l = []) : l = [] := by
  cases l with
  | nil => rfl
  | cons a l => simp [lift] at h

/-- The last message held on an input is the last one received. -/
theorem last_held {s : State n} {ops : List (Fin n × Ev)} {i : Fin n} (hh : Hist (stream ops) s) (hv : view s i ≠ []) :
    (view s i).getLast? = (stream ops i).getLast? := by
  obtain ⟨c, hc, _⟩ := hh i
  rw [hc, List.getLast?_append]
  cases hl : (view s i).getLast? with
  | none => exact absurd (List.getLast?_eq_none_iff.1 hl) hv
  | some x => rfl

/-- Two synchronizers with room for everything, one with larger minimum distances. -/
theorem bounds_prefix [NeZero n] {fuel fuel' : Nat} {cfg : Cfg n} {lower' : Fin n → Int} {num den : Int} (hden : 0 < den)
    (hnum : 0 ≤ num) (hscale : cfg.scale = fun x => (x * num).tdiv den) (hlow : ∀ i, 0 ≤ cfg.lower i)
    (hle : ∀ i, cfg.lower i ≤ lower' i) : ∀ (ops : List (Fin n × Ev)) (s s' : State n), ops.length ≤ cfg.queueSize →
    run fuel cfg ops = .ok s → run fuel' { cfg with lower := lower' } ops = .ok s' →
    (∀ i, Spaced (lower' i) (stream ops i)) → s.out <+: s'.out := by
  have hmono : ∀ x y, x ≤ y → cfg.scale x ≤ cfg.scale y := by rw [hscale]; exact tdiv_mono hnum hden
  have hlow' : ∀ i, 0 ≤ lower' i := fun i => Int.le_trans (hlow i) (hle i)
  have hweak : ∀ i (l : List Ev), Spaced (lower' i) l → Spaced (cfg.lower i) l := by
    intro i l hl
    unfold Spaced at hl ⊢
    exact hl.imp (by intro a b hab; have := hle i; omega)
  have hroom : ∀ (ops : List (Fin n × Ev)), ops.length ≤ cfg.queueSize → ∀ i, (stream ops i).length ≤ cfg.queueSize := by
    intro ops h i
    have : (stream ops i).length ≤ ops.length := by unfold stream; rw [List.length_map]; exact List.length_filter_le _ _
    omega
  intro ops
  induction ops using snoc_induction with
  | h0 =>
    intro s s' _ h h' _
    obtain ⟨_, h⟩ := runOps_ok h
    cases h
    exact List.nil_prefix
  | hs ops op ih =>
    intro s s' hl h h' hsp
    obtain ⟨i, e⟩ := op
    have hl0 : ops.length < cfg.queueSize := by
      simp only [List.length_append, List.length_cons, List.length_nil] at hl; omega
    have hsp0 : ∀ j, Spaced (lower' j) (stream ops j) := by
      intro j
      have := hsp j
      rw [stream_append] at this
      exact (List.pairwise_append.1 this).1
    obtain ⟨t, g1, g2⟩ := run_snoc_ok h
    obtain ⟨t', g1', g2'⟩ := run_snoc_ok h'
    have hpre := ih t t' (by omega) g1 g1' hsp0
    obtain ⟨hinv, hcfg, hh⟩ := run_facts g1
    obtain ⟨hinv', hcfg', hh'⟩ := run_facts g1'
    -- the canonical sequences
    have can0 := fun fut hf => (run_canonical_fits true hmono hlow ops t g1 (noOverflow_of_short (hroom ops (by omega))) fut hf).2 rfl
    have can0' := fun fut hf => (run_canonical_fits (cfg := { cfg with lower := lower' }) true hmono hlow' ops t' g1'
      (noOverflow_of_short (hroom ops (by omega))) fut hf).2 rfl
    have can := (run_canonical_fits true hmono hlow _ s h (noOverflow_of_short (hroom _ hl)) (fun _ => [])
      (fun j => by rw [List.append_nil]; exact hweak j _ (hsp j))).2 rfl
    have can' := (run_canonical_fits (cfg := { cfg with lower := lower' }) true hmono hlow' _ s' h'
      (noOverflow_of_short (hroom _ hl)) (fun _ => []) (fun j => by rw [List.append_nil]; exact hsp j)).2 rfl
    have hcmp : s.out ++ lift (rest true s fun _ => []) = s'.out ++ lift (rest true s' fun _ => []) := by
      rw [← can, ← can']
    have hpre' : s.out.length ≤ s'.out.length → s.out <+: s'.out := by
      intro hlen
      exact List.prefix_of_prefix_length_le ⟨_, hcmp⟩ ⟨_, rfl⟩ hlen
    have hgrow' : t'.out.length ≤ s'.out.length := by
      rcases (add_spec fuel' hinv' i e).1 with ⟨s1, k1, k2, _, _⟩ | k1
      · have g2' : add fuel' t' i e = .ok s' := g2'
        rw [g2'] at k1; cases k1
        obtain ⟨l, hl⟩ := add_out k2
        rw [hl, List.length_append]; omega
      · have g2' : add fuel' t' i e = .ok s' := g2'
        rw [g2'] at k1; cases k1
    by_cases hd : t.deques i = []
    · refine hpre' ?_
      by_cases hd' : t'.deques i = []
      · -- both look at their queues: all that is determined comes out
        have hw := (add_waits fuel' hinv' (run_one ops t' g1').1 i e g2').2 (Or.inl hd')
        apply Classical.byContradiction
        intro hlt
        have hk : s'.out.length < s.out.length := by omega
        have hget := congrArg (fun l => l[s'.out.length]?) can
        rw [List.getElem?_append_left hk] at hget
        unfold lift at hget
        rw [List.getElem?_map] at hget
        cases hC : (sets true cfg.scale cfg.maxInterval (fun j => stream (ops ++ [(i, e)]) j ++ []))[s'.out.length]? with
        | none => rw [hC, List.getElem?_eq_getElem hk] at hget; cases hget
        | some C =>
          rw [hC] at hget
          have hex := wait_exact (cfg := { cfg with lower := lower' }) hden hnum hscale hlow' _ s' h'
            (noOverflow_of_short (hroom _ hl)) hsp hw s'.out.length C (by
              intro fut hf
              have hcan := (run_canonical_fits true hmono hlow _ s h (noOverflow_of_short (hroom _ hl)) fut
                (fun j => hweak j _ (hf j))).2 rfl
              show (sets true cfg.scale cfg.maxInterval _)[_]? = _
              rw [← lift_get, hcan, List.getElem?_append_left hk, ← hget]
              rfl)
          rw [List.getElem?_eq_none (by omega)] at hex
          cases hex
      · -- the larger bounds do not look at the queues, and have nothing to catch up with
        have hq' := add_quiet g1' h' hl0 hd'
        rw [hq']
        obtain ⟨b, hb⟩ := hinv'.someEmpty
        have hbi : b ≠ i := by intro h0; rw [h0] at hb; exact hd' hb
        cases hpv' : t'.pivot with
        | none =>
          have hsplit : (fun j => stream (ops ++ [(i, e)]) j ++ []) = fun j => stream ops j ++ stream [(i, e)] j := by
            funext j; rw [stream_append, List.append_nil]
          have hc := can0' (fun j => stream [(i, e)] j) (by intro j; rw [← stream_append]; exact hsp j)
          rw [rest_exhausted hpv' ⟨b, by
            unfold full
            rw [hb, List.nil_append]
            unfold stream
            simp [Ne.symm hbi]⟩] at hc
          have hc : lift (sets true cfg.scale cfg.maxInterval (fun j => stream ops j ++ stream [(i, e)] j)) = t'.out ++ lift [] := hc
          rw [hsplit, hc] at can
          have := congrArg List.length can
          simp only [List.length_append, lift, List.map_nil, List.length_nil] at this
          omega
        | some p' =>
          exfalso
          have hf0 : ∀ j, Spaced (lower' j) (stream ops j ++ []) := by intro j; rw [List.append_nil]; exact hsp0 j
          cases hpv : t.pivot with
          | none =>
            have hc := can0 (fun _ => []) (fun j => hweak j _ (hf0 j))
            have hc' := can0' (fun _ => []) hf0
            rw [rest_exhausted hpv ⟨i, by unfold full; rw [hd]; rfl⟩] at hc
            have hc' : lift (sets true cfg.scale cfg.maxInterval (fun j => stream ops j ++ [])) =
                t'.out ++ lift (rest true t' fun _ => []) := hc'
            rw [hc] at hc'
            have h1 := congrArg List.length hc'
            have h2 := hpre.length_le
            have h3 : (rest true t' fun _ => []) = [] := by
              apply List.length_eq_zero_iff.1
              simp only [List.length_append, lift, List.map_nil, List.length_nil, List.length_map] at h1
              omega
            exact rest_some_ne hpv' h3
          | some p =>
            have hso : ∀ j, TimeSorted (stream ops j) := fun j => Apart.sorted (hlow' j) (hsp0 j)
            have ho := run_ordered ops t g1 hso
            have ho' := run_ordered ops t' g1' hso
            obtain ⟨c, hc, _⟩ := hinv.loop.pivoted p hpv
            obtain ⟨c', hc', _⟩ := hinv'.loop.pivoted p' hpv'
            have hv : ∀ j, view t j ≠ [] := fun j => by obtain ⟨tl, htl⟩ := hc.head j; rw [htl]; simp
            have hv' : ∀ j, view t' j ≠ [] := fun j => by obtain ⟨tl, htl⟩ := hc'.head j; rw [htl]; simp
            have hdb : t.deques b ≠ [] := by
              intro h0
              obtain ⟨m, hm⟩ := (run_one ops t g1).1 (by rw [hpv]; simp)
              exact hbi ((hm b h0).trans (hm i hd).symm)
            have hlast : ∀ j, (view t j).getLast? = (view t' j).getLast? := fun j => by
              rw [last_held hh (hv j), last_held hh' (hv' j)]
            -- the last message on `i` and the last one on `b`
            have hi1 : (t.past i).getLast? = (t'.deques i).getLast? := by
              have := hlast i
              unfold view at this
              rw [hd, List.append_nil, List.getLast?_append] at this
              rw [this, List.getLast?_eq_some_getLast hd']; rfl
            have hb1 : (t.deques b).getLast? = (t'.past b).getLast? := by
              have := hlast b
              unfold view at this
              rw [hb, List.append_nil, List.getLast?_append] at this
              rw [← this, List.getLast?_eq_some_getLast hdb]; rfl
            have hz := List.getLast?_eq_some_getLast hd'
            have hy := List.getLast?_eq_some_getLast hdb
            rw [hz] at hi1
            rw [hy] at hb1
            exact (ho i b (Ne.symm hbi) _ (List.mem_of_getLast? hi1) _ (Or.inl (List.getLast_mem hdb))).asymm
              (ho' b i hbi _ (List.mem_of_getLast? hb1.symm) _ (Or.inl (List.getLast_mem hd')))
    · -- nothing new from the smaller bounds
      refine hpre' ?_
      rw [add_quiet g1 h hl0 hd]
      exact Nat.le_trans hpre.length_le hgrow'

end MF.Approx
