import Verif.Proofs.Approx7
/-
Helper lemmas about the ApproximateTime model, part 8: optimality of the output sets, also when queues overflow.
-/
namespace MF.Approx
open MF.Epsilon (nonEmpty nonEmpty_eq_iff nonEmpty_upd nonEmpty_le total)
open MF.ApproxSpec (startOf endOf cost Exact startOf_le le_endOf cost_mono better_iff)

variable {n : Nat}

/-- The set `C`, output after the sets `pre`, is the cheapest one with its pivot message that can be made of the messages of the
streams `W` after the set before it. -/
def OptimalAfter [NeZero n] (num den : Int) (W : Fin n → List Ev) (pre : List (Fin n → Option Ev)) (C : Fin n → Option Ev) : Prop :=
  ∃ used rest : Fin n → List Ev, (∀ i, W i = used i ++ rest i) ∧
    (pre = [] → ∀ i, used i = []) ∧ (∀ t, pre.getLast? = some t → ∀ i, (used i).getLast? = t i) ∧
    ∃ c : Fin n → Ev, C = (fun i => some (c i)) ∧ (∀ i, c i ∈ rest i) ∧
      ∃ p, ∀ T : Fin n → Ev, (∀ i, T i ∈ rest i) → T p = c p → cost num den c ≤ cost num den T

/-- The streams `W`, of which `fut` has not arrived yet, split behind the last set output.  The sets are counted from number
`base` on. -/
structure Left (W fut : Fin n → List Ev) (base : Nat) (s : State n) (used rest : Fin n → List Ev) : Prop where
  split : ∀ i, W i = used i ++ rest i
  ge : base ≤ s.out.length
  first : s.out.drop base = [] → ∀ i, used i = []
  last : ∀ t, (s.out.drop base).getLast? = some t → ∀ i, (used i).getLast? = t i
  held : ∀ i, ∃ passed, rest i = passed ++ (view s i ++ fut i)

/-- No set with the pivot message is cheaper than the candidate, unless one that can still be found is as cheap. -/
def Leading [NeZero n] (num den : Int) (fut : Fin n → List Ev) (s : State n) (rest : Fin n → List Ev) (p : Fin n) : Prop :=
  ∀ T : Fin n → Ev, (∀ i, T i ∈ rest i) → T p = candOf s p → cost num den (candOf s) ≤ cost num den T ∨
    ∃ T' : Fin n → Ev, (∀ i, T' i ∈ s.deques i ++ fut i) ∧ T' p = candOf s p ∧ cost num den T' ≤ cost num den T

/-- The invariant. -/
structure OptInv [NeZero n] (num den : Int) (W fut : Fin n → List Ev) (base : Nat) (s : State n) : Prop where
  out : ∀ pre C post, s.out.drop base = pre ++ C :: post → OptimalAfter num den W pre C
  left : ∃ used rest, Left W fut base s used rest ∧ ∀ p, s.pivot = some p → Leading num den fut s rest p

theorem Left.consume {W fut : Fin n → List Ev} {base : Nat} {s s' : State n} {used rest : Fin n → List Ev} (h : Left W fut base s used rest)
    (ho : s'.out = s.out) (hv : ∀ i, ∃ q, view s i = q ++ view s' i) : Left W fut base s' used rest := by
  refine ⟨h.split, by rw [ho]; exact h.ge, by rw [ho]; exact h.first, by rw [ho]; exact h.last, fun i => ?_⟩
  obtain ⟨a, ha⟩ := h.held i
  obtain ⟨q, hq⟩ := hv i
  exact ⟨a ++ q, by rw [ha, hq]; simp⟩

theorem Left.sorted {W fut : Fin n → List Ev} {base : Nat} {s : State n} {used rest : Fin n → List Ev} (h : Left W fut base s used rest)
    (hW : ∀ i, TimeSorted (W i)) (i : Fin n) : TimeSorted (rest i) := by
  have := hW i
  rw [h.split i] at this
  exact (List.pairwise_append.1 this).2.1

theorem Left.sorted_held {W fut : Fin n → List Ev} {base : Nat} {s : State n} {used rest : Fin n → List Ev} (h : Left W fut base s used rest)
    (hW : ∀ i, TimeSorted (W i)) (i : Fin n) : TimeSorted (view s i ++ fut i) := by
  have := h.sorted hW i
  obtain ⟨a, ha⟩ := h.held i
  rw [ha] at this
  exact (List.pairwise_append.1 this).2.1

theorem Left.sorted_view {W fut : Fin n → List Ev} {base : Nat} {s : State n} {used rest : Fin n → List Ev} (h : Left W fut base s used rest)
    (hW : ∀ i, TimeSorted (W i)) (i : Fin n) : TimeSorted (view s i) :=
  (List.pairwise_append.1 (h.sorted_held hW i)).1

theorem mem_after_head {l tl : List Ev} {x y : Ev} (hl : l = x :: tl) (hs : TimeSorted l) (hy : y ∈ l) : x.stamp ≤ y.stamp := by
  rw [hl] at hs hy
  rcases List.mem_cons.1 hy with h | h
  · rw [h]; exact Int.le_refl _
  · exact (List.pairwise_cons.1 hs).1 y h

/-- The messages of a set that were passed over can be replaced by front messages that are not newer than the pivot. -/
theorem replace_passed [NeZero n] {num den : Int} (hn : 0 ≤ num) (hd : 0 ≤ den) {rest D : Fin n → List Ev} {g T : Fin n → Ev}
    {p : Fin n} (hs : ∀ i, TimeSorted (rest i)) (hr : ∀ i, ∃ passed, rest i = passed ++ D i) (hg : ∀ i, ∃ tl, D i = g i :: tl)
    (hgp : ∀ i, (g i).stamp ≤ (g p).stamp) (hT : ∀ i, T i ∈ rest i) (hTp : T p = g p) :
    ∃ T' : Fin n → Ev, (∀ i, T' i ∈ D i) ∧ T' p = g p ∧ cost num den T' ≤ cost num den T := by
  refine ⟨fun i => if T i ∈ D i then T i else g i, ?_, ?_, ?_⟩
  · intro i
    dsimp only
    split
    · assumption
    · obtain ⟨tl, h⟩ := hg i
      rw [h]; simp
  · dsimp only
    split
    · exact hTp
    · rfl
  · apply cost_mono hn hd
    · show (if T (ApproxSpec.newest _) ∈ D _ then _ else _ : Ev).stamp ≤ _
      split
      · exact le_endOf T _
      · have := hgp (ApproxSpec.newest fun i => if T i ∈ D i then T i else g i)
        have h2 := le_endOf T p
        rw [hTp] at h2
        omega
    · show _ ≤ (if T (ApproxSpec.oldest _) ∈ D _ then _ else _ : Ev).stamp
      generalize ApproxSpec.oldest (fun i => if T i ∈ D i then T i else g i) = o
      split
      · exact startOf_le T o
      · rename_i hno
        have h1 := startOf_le T o
        obtain ⟨a, ha⟩ := hr o
        obtain ⟨tl, htl⟩ := hg o
        have hso := hs o
        rw [ha] at hso
        have hm := hT o
        rw [ha] at hm
        rcases List.mem_append.1 hm with hm | hm
        · have := (List.pairwise_append.1 hso).2.2 (T o) hm (g o) (by rw [htl]; simp)
          omega
        · exact absurd hm hno

theorem candOf_heads (s : State n) : (fun i => ((s.deques i).head?).getD default) = fun i => (s.deques i).headD default := by
  funext i
  cases s.deques i <;> rfl

/-- What is shown for each kind of examination: `g` are the front messages, which the candidate beats or equals. -/
theorem front_lead [NeZero n] {num den : Int} (hn : 0 ≤ num) (hd : 0 ≤ den) {fut : Fin n → List Ev} {s s1 : State n}
    {m e p : Fin n} (hne : ∀ i, s.deques i ≠ []) (hm : IsStart s.deques m) (he : IsEnd s.deques e)
    (ha : After s m p s1) (hsd : TimeSorted (s.deques e ++ fut e)) (rest : Fin n → List Ev) :
    ∀ g : Fin n → Ev, g = (fun i => (s.deques i).headD default) → candOf s1 p = g p →
      cost num den (candOf s1) ≤ cost num den g →
      (∀ T : Fin n → Ev, (∀ i, T i ∈ rest i) → T p = candOf s1 p → cost num den (candOf s1) ≤ cost num den T ∨
        ∃ T' : Fin n → Ev, (∀ i, T' i ∈ s.deques i ++ fut i) ∧ T' p = candOf s1 p ∧ cost num den T' ≤ cost num den T) →
      Leading num den fut s1 rest p ∧
      (p = m → ∀ T : Fin n → Ev, (∀ i, T i ∈ rest i) → T p = candOf s1 p → cost num den (candOf s1) ≤ cost num den T) := by
  intro g hg hcp hcg hT
  have hgm : st s.deques m = (g m).stamp := by rw [hg]; rfl
  have hge : st s.deques e = (g e).stamp := by rw [hg]; rfl
  have hcons : ∀ i, s.deques i = g i :: (s.deques i).tail := fun i => by rw [hg]; exact eq_cons_of_ne (hne i)
  -- sets of the deques that have the oldest front message
  have hfront : ∀ T' : Fin n → Ev, (∀ i, T' i ∈ s.deques i ++ fut i) → T' m = g m → cost num den g ≤ cost num den T' := by
    intro T' hT' hTm
    apply cost_mono hn hd
    · have h1 : endOf g = st s.deques e := by rw [hg]; exact endOf_eq he
      have h2 := le_endOf T' e
      have h3 := mem_after_head (tl := (s.deques e).tail ++ fut e) (x := g e) (by rw [← List.cons_append, ← hcons e]) hsd (hT' e)
      omega
    · have h1 : startOf g = st s.deques m := by rw [hg]; exact startOf_eq hm
      have h2 := startOf_le T' m
      rw [hTm] at h2
      omega
  have hcase : ∀ T : Fin n → Ev, (∀ i, T i ∈ rest i) → T p = candOf s1 p → cost num den (candOf s1) ≤ cost num den T ∨
      (p ≠ m ∧ ∃ T' : Fin n → Ev, (∀ i, T' i ∈ s1.deques i ++ fut i) ∧ T' p = candOf s1 p ∧ cost num den T' ≤ cost num den T) := by
    intro T h1 h2
    rcases hT T h1 h2 with h3 | ⟨T', h3, h4, h5⟩
    · exact Or.inl h3
    · by_cases htm : T' m = g m
      · left
        have := hfront T' h3 htm
        omega
      · right
        refine ⟨?_, T', ?_, h4, h5⟩
        · intro hpm
          apply htm
          rw [← hpm, h4, hcp]
        · intro i
          rw [ha.deques]
          by_cases hi : i = m
          · subst hi
            rw [upd_same]
            have := h3 i
            rw [hcons i, List.cons_append] at this
            rcases List.mem_cons.1 this with h6 | h6
            · exact absurd h6 htm
            · exact h6
          · rw [upd_ne _ _ hi]; exact h3 i
  refine ⟨fun T h1 h2 => ?_, fun hpm T h1 h2 => ?_⟩
  · rcases hcase T h1 h2 with h3 | ⟨_, h3⟩
    · exact Or.inl h3
    · exact Or.inr h3
  · rcases hcase T h1 h2 with h3 | ⟨h3, _⟩
    · exact h3
    · exact absurd hpm h3

/-- The examination of the front messages keeps the invariant; if the oldest front message is the pivot, the candidate is optimal. -/
theorem examined_opt [NeZero n] {num den : Int} (hn : 0 ≤ num) (hd : 0 ≤ den) {W fut : Fin n → List Ev} {base : Nat} {s s1 : State n}
    {m e p : Fin n} {used rest : Fin n → List Ev} (hf : Exact s.cfg.scale num den) (hW : ∀ i, TimeSorted (W i)) (h : LoopInv s)
    (hne : ∀ i, s.deques i ≠ []) (hm : IsStart s.deques m) (he : IsEnd s.deques e) (hx : Examined s m e p s1)
    (ha : After s m p s1) (hl : Left W fut base s used rest) (hlead : ∀ p, s.pivot = some p → Leading num den fut s rest p) :
    Left W fut base s1 used rest ∧ Leading num den fut s1 rest p ∧
    (p = m → ∀ T : Fin n → Ev, (∀ i, T i ∈ rest i) → T p = candOf s1 p → cost num den (candOf s1) ≤ cost num den T) := by
  have hl1 : Left W fut base s1 used rest := hl.consume ha.out (examined_view h hx)
  refine ⟨hl1, ?_⟩
  have hsd : TimeSorted (s.deques e ++ fut e) := by
    have := hl.sorted_held hW e
    unfold view at this
    rw [List.append_assoc] at this
    exact (List.pairwise_append.1 this).2.1
  have key := front_lead hn hd hne hm he ha hsd rest
  cases hx with
  | fresh h1 h2 h3 hp hs =>
    have hc1 : candOf s1 = fun i => (s.deques i).headD default := by rw [hs]; exact candOf_heads s
    apply key _ rfl (by rw [hc1]) (by rw [hc1]; exact Int.le_refl _)
    intro T hT hTp
    right
    rw [hc1] at hTp ⊢
    refine replace_passed (g := fun i => (s.deques i).headD default) (p := p) hn hd (hl.sorted hW) ?_ ?_ ?_ hT hTp
    · intro i
      obtain ⟨a, ha'⟩ := hl.held i
      refine ⟨a, ?_⟩
      rw [ha']
      unfold view
      rw [h.noPivot h1 i]
      rfl
    · intro i
      exact ⟨(s.deques i).tail ++ fut i, by rw [← List.cons_append, ← eq_cons_of_ne (hne i)]⟩
    · intro i
      rw [hp]
      exact he.1 i
  | kept h1 h2 hs =>
    obtain ⟨c, hc, hpast⟩ := h.pivoted p h1
    have hcs : candOf s = c := candOf_eq hc
    have hc1 : candOf s1 = c := by rw [hs]; exact hcs
    have hcp : c p = (s.deques p).headD default := by
      obtain ⟨tl, htl⟩ := hc.head p
      unfold view at htl
      rw [hpast, List.nil_append] at htl
      rw [htl]; rfl
    apply key _ rfl (by rw [hc1]; exact hcp)
    · rw [hc1]
      have hend := end_ge_cand hc hne (hl.sorted_view hW) he
      have hend' : endOf c ≤ endOf (fun i => (s.deques i).headD default) := by rw [endOf_eq he, cand_end hc]; exact hend
      have : ¬ ApproxSpec.better s.cfg.scale (fun i => (s.deques i).headD default) c := by
        unfold ApproxSpec.better
        rw [endOf_eq he, startOf_eq hm, cand_start hc, cand_end hc]
        omega
      rw [better_iff hf hend'] at this
      omega
    · intro T hT hTp
      have := hlead p h1 T hT
      rw [hcs] at this
      rw [hc1] at hTp ⊢
      exact this hTp
  | better h1 h2 hs =>
    obtain ⟨c, hc, hpast⟩ := h.pivoted p h1
    have hcs : candOf s = c := candOf_eq hc
    have hc1 : candOf s1 = fun i => (s.deques i).headD default := by rw [hs]; exact candOf_heads s
    have hcp : c p = (s.deques p).headD default := by
      obtain ⟨tl, htl⟩ := hc.head p
      unfold view at htl
      rw [hpast, List.nil_append] at htl
      rw [htl]; rfl
    apply key _ rfl (by rw [hc1]) (by rw [hc1]; exact Int.le_refl _)
    intro T hT hTp
    have hlt : cost num den (fun i => (s.deques i).headD default) < cost num den c := by
      have hend := end_ge_cand hc hne (hl.sorted_view hW) he
      have hend' : endOf c ≤ endOf (fun i => (s.deques i).headD default) := by rw [endOf_eq he, cand_end hc]; exact hend
      rw [← better_iff hf hend']
      unfold ApproxSpec.better
      rw [endOf_eq he, startOf_eq hm, cand_start hc, cand_end hc]
      exact h2
    have := hlead p h1 T hT
    rw [hcs] at this
    rw [hc1] at hTp ⊢
    rcases this (by rw [hTp]; exact hcp.symm) with h3 | ⟨T', h3, h4, h5⟩
    · left; omega
    · exact Or.inr ⟨T', h3, by rw [h4]; exact hcp, h5⟩

/-- A candidate that leads and is unbeatable is optimal. -/
theorem unbeatable_opt [NeZero n] {num den : Int} {W fut : Fin n → List Ev} {base : Nat} {s : State n}
    {p : Fin n} {used rest : Fin n → List Ev} {c : Fin n → Ev} (hf : Exact s.cfg.scale num den)
    (hmono : ∀ x y, x ≤ y → s.cfg.scale x ≤ s.cfg.scale y) (hlow : ∀ i, 0 ≤ s.cfg.lower i)
    (hap : ∀ i, Apart (s.cfg.lower i) (view s i ++ fut i)) (hW : ∀ i, TimeSorted (W i)) (hc : CandInv s p c)
    (hl : Left W fut base s used rest) (hlead : Leading num den fut s rest p) (hu : Unbeatable s p) (T : Fin n → Ev)
    (hT : ∀ i, T i ∈ rest i) (hTp : T p = candOf s p) : cost num den (candOf s) ≤ cost num den T := by
  rcases hlead T hT hTp with h | ⟨T', h1, h2, h3⟩
  · exact h
  · have hcs : candOf s = c := candOf_eq hc
    rw [hcs] at h2 ⊢
    obtain ⟨a, b, hab⟩ := hu hmono hlow fut hap T' (by rw [h2]; exact hc.pivotTime) h1
    have hend : endOf c ≤ endOf T' := by
      obtain ⟨tl, htl⟩ := hc.head (ApproxSpec.newest c)
      have h4 := mem_after_head (x := c (ApproxSpec.newest c)) (tl := tl ++ fut (ApproxSpec.newest c))
        (by rw [htl]; rfl) (hl.sorted_held hW (ApproxSpec.newest c))
        (y := T' (ApproxSpec.newest c)) (by unfold view; rw [List.append_assoc]; exact List.mem_append_right _ (h1 _))
      have h5 := le_endOf T' (ApproxSpec.newest c)
      show (c (ApproxSpec.newest c)).stamp ≤ _
      omega
    have : ¬ ApproxSpec.better s.cfg.scale T' c := by
      unfold ApproxSpec.better
      rw [cand_start hc, cand_end hc]
      have h4 := hmono ((T' b).stamp - s.candEnd) (endOf T' - s.candEnd) (by have := le_endOf T' b; omega)
      have h5 := startOf_le T' a
      omega
    rw [better_iff hf hend] at this
    omega

theorem pstep_opt [NeZero n] {num den : Int} (hn : 0 ≤ num) (hd : 0 ≤ den) {W fut : Fin n → List Ev} {base : Nat} {s s' : State n}
    (hf : Exact s.cfg.scale num den) (hmono : ∀ x y, x ≤ y → s.cfg.scale x ≤ s.cfg.scale y) (hlow : ∀ i, 0 ≤ s.cfg.lower i)
    (hW : ∀ i, Apart (s.cfg.lower i) (W i)) (h : LoopInv s) (hne : ∀ i, s.deques i ≠ []) (hs : PStep s s')
    (hi : OptInv num den W fut base s) : OptInv num den W fut base s' := by
  have hW' : ∀ i, TimeSorted (W i) := fun i => (hW i).sorted (hlow i)
  obtain ⟨hout, used, rest, hl, hlead⟩ := hi
  cases hs with
  | delete m e hm he hp hc hs =>
    subst hs
    refine ⟨hout, used, rest, hl.consume rfl ?_, fun p hp' => ?_⟩
    · intro i
      by_cases him : i = m
      · subst him
        refine ⟨(s.deques i).take 1, ?_⟩
        simp only [view, deleted, cleared, upd_same, h.noPivot hp i, List.nil_append]
        cases s.deques i <;> simp
      · exact ⟨[], by simp [view, deleted, cleared, upd_ne _ _ him]⟩
    · have : s.pivot = some p := hp'
      rw [hp] at this; cases this
  | go m e p hm he hx ha hpm =>
    obtain ⟨h1, h2, _⟩ := examined_opt hn hd hf hW' h hne hm he hx ha hl hlead
    obtain ⟨c, hc⟩ := ha.candInv
    refine ⟨by rw [ha.out]; exact hout, used, rest, h1, fun q hq => ?_⟩
    rw [hc.pivot] at hq; cases hq
    exact h2
  | publish m e p s1 hm he hx ha hw hs =>
    subst hs
    obtain ⟨h1, h2, h3⟩ := examined_opt hn hd hf hW' h hne hm he hx ha hl hlead
    obtain ⟨c, hc⟩ := ha.candInv
    have hcs : candOf s1 = c := candOf_eq hc
    have hcand : s1.cand = fun i => some (c i) := funext hc.cand
    have hopt : ∀ T : Fin n → Ev, (∀ i, T i ∈ rest i) → T p = c p → cost num den c ≤ cost num den T := by
      rcases hw with hw | hw
      · rw [← hcs]; exact h3 hw
      · rw [← hcs]
        refine unbeatable_opt (by rw [ha.cfg]; exact hf) (by rw [ha.cfg]; exact hmono) (by rw [ha.cfg]; exact hlow) ?_ hW' hc h1 h2 hw
        intro i
        rw [ha.cfg]
        have h4 := hW i
        rw [h1.split i] at h4
        obtain ⟨a, ha'⟩ := h1.held i
        rw [ha'] at h4
        exact (List.pairwise_append.1 (List.pairwise_append.1 h4).2.1).2.1
    have hmem : ∀ i, c i ∈ rest i := by
      intro i
      obtain ⟨a, ha'⟩ := h1.held i
      obtain ⟨tl, htl⟩ := hc.head i
      rw [ha', htl]; simp
    refine ⟨?_, ?_⟩
    · intro pre C post hpost
      have hpost : (s1.out ++ [s1.cand]).drop base = pre ++ C :: post := hpost
      rw [List.drop_append_of_le_length h1.ge] at hpost
      rcases List.eq_nil_or_concat post with h4 | ⟨post', x, h4⟩
      · subst h4
        obtain ⟨h5, h6⟩ := List.append_inj' hpost rfl
        cases h6
        rw [← h5]
        exact ⟨used, rest, h1.split, h1.first, h1.last, c, hcand, hmem, p, hopt⟩
      · subst h4
        rw [List.concat_eq_append, ← List.cons_append, ← List.append_assoc] at hpost
        obtain ⟨h5, _⟩ := List.append_inj' hpost rfl
        rw [ha.out] at h5
        exact hout pre C post' h5
    · -- the streams behind the set that has just been output
      have hsp : ∀ i, ∃ u, W i = (u ++ [c i]) ++ ((view s1 i).tail ++ fut i) := by
        intro i
        obtain ⟨a, ha'⟩ := h1.held i
        obtain ⟨tl, htl⟩ := hc.head i
        exact ⟨used i ++ a, by rw [h1.split i, ha', htl]; simp⟩
      refine ⟨fun i => (hsp i).choose ++ [c i], fun i => (view s1 i).tail ++ fut i, ⟨fun i => (hsp i).choose_spec, ?_, ?_, ?_, ?_⟩, ?_⟩
      · show base ≤ (s1.out ++ [s1.cand]).length
        rw [List.length_append]
        exact Nat.le_trans h1.ge (Nat.le_add_right _ _)
      · intro h0
        have h0 : (s1.out ++ [s1.cand]).drop base = [] := h0
        rw [List.drop_append_of_le_length h1.ge] at h0
        exact absurd h0 (by simp)
      · intro t ht i
        have ht : ((s1.out ++ [s1.cand]).drop base).getLast? = some t := ht
        rw [List.drop_append_of_le_length h1.ge, List.getLast?_append] at ht
        simp at ht
        rw [← ht, hcand]
        simp
      · intro i
        exact ⟨[], rfl⟩
      · intro q hq; cases hq

theorem psteps_opt [NeZero n] {num den : Int} (hn : 0 ≤ num) (hd : 0 ≤ den) {W fut : Fin n → List Ev} {base : Nat} {s s' : State n}
    (hf : Exact s.cfg.scale num den) (hmono : ∀ x y, x ≤ y → s.cfg.scale x ≤ s.cfg.scale y) (hlow : ∀ i, 0 ≤ s.cfg.lower i)
    (hW : ∀ i, Apart (s.cfg.lower i) (W i)) (h : LoopInv s) (hs : PSteps s s')
    (hi : OptInv num den W fut base s) : OptInv num den W fut base s' := by
  have := psteps_ind (P := fun t => t.cfg = s.cfg ∧ OptInv num den W fut base t)
    (by
      intro t t' a b c ⟨d1, d2⟩
      exact ⟨by rw [pstep_cfg c, d1], pstep_opt hn hd (by rw [d1]; exact hf) (by rw [d1]; exact hmono) (by rw [d1]; exact hlow)
        (by rw [d1]; exact hW) a b c d2⟩)
    h hs ⟨rfl, hi⟩
  exact this.2.2.2

theorem pushed_opt [NeZero n] {num den : Int} {W fut : Fin n → List Ev} {base : Nat} {s s1 : State n} {i : Fin n} {e : Ev}
    (hp : Pushed s s1 i e) (hi : OptInv num den W (upd fut i (e :: fut i)) base s) : OptInv num den W fut base s1 := by
  obtain ⟨hout, used, rest, hl, hlead⟩ := hi
  have hD : ∀ j, s1.deques j ++ fut j = s.deques j ++ upd fut i (e :: fut i) j := by
    intro j
    rw [hp.deques]
    by_cases hj : j = i
    · subst hj; rw [upd_same, upd_same, List.append_assoc]; rfl
    · rw [upd_ne _ _ hj, upd_ne _ _ hj]
  refine ⟨by rw [hp.out]; exact hout, used, rest, ⟨hl.split, by rw [hp.out]; exact hl.ge, by rw [hp.out]; exact hl.first, by rw [hp.out]; exact hl.last, ?_⟩, ?_⟩
  · intro j
    obtain ⟨a, ha⟩ := hl.held j
    refine ⟨a, ?_⟩
    rw [ha]
    unfold view
    rw [List.append_assoc, List.append_assoc, hD j, hp.past]
  · intro p hp'
    rw [hp.pivot] at hp'
    have := hlead p hp'
    have hc : candOf s1 = candOf s := by unfold candOf; rw [hp.cand]
    intro T hT hTp
    rw [hc] at hTp ⊢
    rcases this T hT hTp with h1 | ⟨T', h1, h2, h3⟩
    · exact Or.inl h1
    · exact Or.inr ⟨T', fun j => by rw [hD j]; exact h1 j, h2, h3⟩

theorem dropped_opt [NeZero n] {num den : Int} {W fut : Fin n → List Ev} {base : Nat} {s : State n} {i : Fin n}
    (hi : OptInv num den W fut base s) : OptInv num den W fut base (dropped s i) := by
  obtain ⟨hout, used, rest, hl, hlead⟩ := hi
  refine ⟨hout, used, rest, hl.consume rfl ?_, fun p hp => ?_⟩
  · intro j
    rw [view_dropped]
    by_cases hj : j = i
    · subst hj
      refine ⟨(view s j).take 1, ?_⟩
      rw [upd_same]
      cases view s j <;> simp
    · exact ⟨[], by rw [upd_ne _ _ hj]; rfl⟩
  · cases hp

theorem stream_upd (ops : List (Fin n × Ev)) (fut : Fin n → List Ev) (i : Fin n) (e : Ev) :
    (fun j => stream (ops ++ [(i, e)]) j ++ fut j) = fun j => stream ops j ++ (upd fut i (e :: fut i)) j := by
  funext j
  rw [stream_snoc]
  by_cases hj : j = i
  · subst hj; rw [upd_same, upd_same, List.append_assoc]; rfl
  · rw [upd_ne _ _ hj, upd_ne _ _ hj]

/-- `add` keeps the invariant, whatever overflows. -/
theorem add_opt [NeZero n] {cfg : Cfg n} {num den : Int} (hn : 0 ≤ num) (hd : 0 ≤ den)
    (hf : Exact cfg.scale num den) (hmono : ∀ x y, x ≤ y → cfg.scale x ≤ cfg.scale y) (hlow : ∀ i, 0 ≤ cfg.lower i)
    {W fut : Fin n → List Ev} {base : Nat} {s s' : State n} {i : Fin n} {e : Ev} (hW : ∀ i, Apart (cfg.lower i) (W i))
    (hi : Inv s) (hcfg : s.cfg = cfg) (hadd : AddSpec s s' i e) (ih : OptInv num den W (upd fut i (e :: fut i)) base s) :
    OptInv num den W fut base s' := by
  have hmain : ∀ s1, Pushed s s1 i e → ∀ s2, PSteps s1 s2 → s2.cfg = cfg ∧ OptInv num den W fut base s2 := by
    intro s1 hp s2 hs
    have hc1 : s1.cfg = cfg := by rw [hp.cfg, hcfg]
    refine ⟨by rw [(psteps_cfg_len (hp.inv hi.loop) hs).1, hc1], ?_⟩
    exact psteps_opt hn hd (by rw [hc1]; exact hf) (by rw [hc1]; exact hmono) (by rw [hc1]; exact hlow) (by rw [hc1]; exact hW)
      (hp.inv hi.loop) hs (pushed_opt hp ih)
  cases hadd with
  | normal s1 hp hs hl => exact (hmain s1 hp s' hs).2
  | drop s1 s2 hp hs hl hs' =>
    obtain ⟨g1, g2⟩ := hmain s1 hp s2 hs
    have hc2 : (dropped s2 i).cfg = cfg := g1
    exact psteps_opt hn hd (by rw [hc2]; exact hf) (by rw [hc2]; exact hmono) (by rw [hc2]; exact hlow) (by rw [hc2]; exact hW)
      (dropped_inv s2 i) hs' (dropped_opt g2)

/-- The invariant holds after every history, whatever overflowed. -/
theorem run_opt [NeZero n] {fuel : Nat} {cfg : Cfg n} {num den : Int} (hn : 0 ≤ num) (hd : 0 ≤ den)
    (hf : Exact cfg.scale num den) (hmono : ∀ x y, x ≤ y → cfg.scale x ≤ cfg.scale y) (hlow : ∀ i, 0 ≤ cfg.lower i) :
    ∀ (ops : List (Fin n × Ev)) (s : State n), run fuel cfg ops = .ok s →
    ∀ fut : Fin n → List Ev, (∀ i, Apart (cfg.lower i) (stream ops i ++ fut i)) →
      OptInv num den (fun i => stream ops i ++ fut i) fut 0 s := by
  apply run_induction
  · intro fut _
    refine ⟨?_, fun _ => [], fut, ⟨fun _ => rfl, Nat.zero_le _, fun _ _ => rfl, ?_, fun i => ⟨[], rfl⟩⟩, ?_⟩
    · intro pre C post h
      exact absurd h (by simp [init])
    · intro t ht
      exact absurd ht (by simp [init])
    · intro p hp
      exact absurd hp (by simp [init])
  · intro ops s i e s' hi hcfg hh hadd hi' ih fut hap
    have hst := stream_upd ops fut i e
    have ih := ih (upd fut i (e :: fut i)) (by
      intro j
      have h4 := hap j
      rw [show stream (ops ++ [(i, e)]) j ++ fut j = stream ops j ++ (upd fut i (e :: fut i)) j from congrFun hst j] at h4
      exact h4)
    rw [← hst] at ih
    exact add_opt hn hd hf hmono hlow hap hi hcfg hadd ih

end MF.Approx
