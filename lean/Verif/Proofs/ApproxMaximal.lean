import Verif.Proofs.Approx9
import Verif.Spec.Maximal
/-
Helper lemmas: no possible set is passed over by ApproximateTime without a reason.
-/
namespace MF.Approx
open MF.Epsilon (nonEmpty nonEmpty_eq_iff nonEmpty_upd nonEmpty_le total)

variable {n : Nat}

/-- All messages of `T` are held or still to come. -/
def Waiting (T : Fin n → Ev) (fut : Fin n → List Ev) (s : State n) : Prop := ∀ i, T i ∈ view s i ++ fut i

/-- `T` conflicts with every set that can come of the present search. -/
def Doomed (T : Fin n → Ev) (s : State n) : Prop :=
  ∃ p c, CandInv s p c ∧ s.past p = [] ∧ (c p = T p ∨ ((c p).stamp < (T p).stamp ∧ ∃ j, (T j).stamp < (c j).stamp))

/-- `T` conflicts with a set already output. -/
def Hit (T : Fin n → Ev) (s : State n) : Prop := ∃ S ∈ s.out, Conflict S T

def Settled (T : Fin n → Ev) (fut : Fin n → List Ev) (s : State n) : Prop := Waiting T fut s ∨ Doomed T s ∨ Hit T s

theorem strict_head {l tl : List Ev} {x y : Ev} (hl : l = x :: tl) (hs : StrictlyTimeSorted l) (hy : y ∈ l) :
    y = x ∨ (x.stamp < y.stamp ∧ y ∈ tl) := by
  subst hl
  rcases List.mem_cons.1 hy with h | h
  · exact Or.inl h
  · exact Or.inr ⟨(List.pairwise_cons.1 hs).1 y h, h⟩

theorem delete_settled {T : Fin n → Ev} {fut : Fin n → List Ev} {s : State n} {m e : Fin n} (hi : LoopInv s)
    (hne : ∀ i, s.deques i ≠ []) (hs : ∀ i, StrictlyTimeSorted (view s i ++ fut i)) (hp : s.pivot = none)
    (hm : IsStart s.deques m) (hc : st s.deques e - st s.deques m > s.cfg.maxInterval)
    (hT : ∀ i j, (T i).stamp - (T j).stamp ≤ s.cfg.maxInterval) (h : Settled T fut s) :
    Settled T fut (deleted (cleared s e) m) := by
  rcases h with h | ⟨p, c, hcand, _⟩ | h
  · left
    intro i
    have hpast := hi.noPivot hp
    by_cases him : i = m
    · subst him
      have hmem := h i
      have hte := h e
      have hse := hs e
      have hsi := hs i
      simp only [view, hpast, List.nil_append] at hmem hte hse hsi
      obtain ⟨x, tx, hx⟩ := List.exists_cons_of_ne_nil (hne i)
      obtain ⟨y, ty, hy⟩ := List.exists_cons_of_ne_nil (hne e)
      rw [st_cons hx, st_cons hy] at hc
      simp only [view, deleted, cleared, upd_same, hpast, List.nil_append]
      rw [hx, List.tail_cons]
      rw [hy] at hte hse
      rw [hx] at hmem hsi
      rcases strict_head (List.cons_append) hse hte with h1 | ⟨h1, _⟩ <;>
        rcases strict_head (List.cons_append) hsi hmem with h2 | ⟨_, h2⟩
      · have := hT e i; rw [h1, h2] at this; omega
      · exact h2
      · have := hT e i; rw [h2] at this; omega
      · exact h2
    · have := h i
      simpa [view, deleted, cleared, upd_ne _ _ him] using this
  · have := hcand.pivot; rw [hp] at this; cases this
  · exact Or.inr (Or.inr h)

theorem examined_settled {T : Fin n → Ev} {fut : Fin n → List Ev} {s s1 : State n} {m e p : Fin n} (hi : LoopInv s)
    (hne : ∀ i, s.deques i ≠ []) (hs : ∀ i, StrictlyTimeSorted (view s i ++ fut i))
    (hx : Examined s m e p s1) (ha : After s m p s1) (h : Settled T fut s) :
    Waiting T fut s1 ∨ (∃ c, CandInv s1 p c ∧ (c p = T p ∨ ((c p).stamp < (T p).stamp ∧ ∃ j, (T j).stamp < (c j).stamp))) ∨
      Hit T s1 := by
  rcases h with h | h | h
  · cases hx with
    | fresh h1 h2 h3 hp hs' =>
      left
      intro i
      have : view s1 i = view s i := by
        subst hs'
        unfold fresh; rw [view_moved]
        simp [view, candidated, cleared, hi.noPivot h1 i]
      rw [this]; exact h i
    | kept h1 h2 hs' =>
      left
      intro i
      have : view s1 i = view s i := by subst hs'; unfold kept; rw [view_moved]; rfl
      rw [this]; exact h i
    | better h1 h2 hs' =>
      have hv : ∀ i, view s1 i = s.deques i := by
        intro i
        subst hs'
        unfold better; rw [view_moved]
        simp [view, candidated, cleared]
      by_cases hall : ∀ i, T i ∈ s.deques i ++ fut i
      · left; intro i; rw [hv i]; exact hall i
      · right; left
        obtain ⟨j, hj⟩ : ∃ j, T j ∉ s.deques j ++ fut j := Classical.not_forall.1 hall
        obtain ⟨c, hc⟩ := ha.candInv
        obtain ⟨c0, hc0, hpast⟩ := hi.pivoted p h1
        refine ⟨c, hc, ?_⟩
        have hTj := h j
        have hsj := hs j
        unfold view at hTj hsj
        rw [List.append_assoc] at hTj hsj
        have hjp : T j ∈ s.past j := by
          rcases List.mem_append.1 hTj with h | h
          · exact h
          · exact absurd h hj
        obtain ⟨tl, htl⟩ := hc.head j
        rw [hv j] at htl
        have hlt : (T j).stamp < (c j).stamp := (List.pairwise_append.1 hsj).2.2 _ hjp _ (by rw [htl]; simp)
        have hTp := h p
        have hsp := hs p
        obtain ⟨tp, htp⟩ := hc.head p
        rw [hv p] at htp
        simp only [view, hpast, List.nil_append, htp] at hTp hsp
        rcases strict_head (List.cons_append) hsp hTp with h1 | ⟨h1, _⟩
        · exact Or.inl h1.symm
        · exact Or.inr ⟨h1, j, hlt⟩
  · obtain ⟨p', c, hc, hpast, hor⟩ := h
    right; left
    obtain ⟨c', hc'⟩ := ha.candInv
    have hpp : p' = p := by
      cases hx with
      | fresh h1 => rw [hc.pivot] at h1; cases h1
      | kept h1 => rw [hc.pivot] at h1; cases h1; rfl
      | better h1 => rw [hc.pivot] at h1; cases h1; rfl
    subst hpp
    have hle : ∀ i, (c i).stamp ≤ (c' i).stamp := by
      intro i
      obtain ⟨q, hq⟩ := examined_view hi hx i
      obtain ⟨t1, ht1⟩ := hc.head i
      obtain ⟨t2, ht2⟩ := hc'.head i
      have hsi := hs i
      have hmem : c' i ∈ view s i := by rw [hq, ht2]; simp
      have hsv := (List.pairwise_append.1 hsi).1
      rcases strict_head ht1 hsv hmem with h | ⟨h, _⟩
      · rw [h]; exact Int.le_refl _
      · omega
    have heq : c' p' = c p' := by
      obtain ⟨t1, ht1⟩ := hc.head p'
      obtain ⟨t2, ht2⟩ := hc'.head p'
      have hv : view s1 p' = view s p' := by
        cases hx with
        | fresh h1 => rw [hc.pivot] at h1; cases h1
        | kept h1 h2 hs' => subst hs'; unfold kept; rw [view_moved]; rfl
        | better h1 h2 hs' =>
          subst hs'
          unfold better; rw [view_moved]
          simp [view, candidated, cleared, hpast]
      rw [hv, ht1] at ht2
      exact (List.cons.inj ht2).1.symm
    refine ⟨c', hc', ?_⟩
    rw [heq]
    rcases hor with h | ⟨h, j, hj⟩
    · exact Or.inl h
    · exact Or.inr ⟨h, j, by have := hle j; omega⟩
  · right; right
    obtain ⟨S, hS, hc⟩ := h
    exact ⟨S, by rw [ha.out]; exact hS, hc⟩

theorem pstep_settled {T : Fin n → Ev} {fut : Fin n → List Ev} {s s' : State n} (hi : LoopInv s)
    (hne : ∀ i, s.deques i ≠ []) (hd : ∀ i, s.hasDropped i = false) (hs : ∀ i, StrictlyTimeSorted (view s i ++ fut i))
    (hT : ∀ i j, (T i).stamp - (T j).stamp ≤ s.cfg.maxInterval) (hstep : PStep s s') (h : Settled T fut s) :
    Settled T fut s' := by
  cases hstep with
  | delete m e hm he hp hc hs' =>
    subst hs'
    rcases hc with hc | hc
    · exact delete_settled hi hne hs hp hm hc hT h
    · rw [hd e] at hc; cases hc
  | go m e p hm he hx ha hpm =>
    rcases examined_settled hi hne hs hx ha h with h | ⟨c, hc, h⟩ | h
    · exact Or.inl h
    · exact Or.inr (Or.inl ⟨p, c, hc, ha.past hpm, h⟩)
    · exact Or.inr (Or.inr h)
  | publish m e p s1 hm he hx ha hw hs' =>
    subst hs'
    rcases examined_settled hi hne hs hx ha h with h | ⟨c, hc, h⟩ | ⟨S, hS, h⟩
    · obtain ⟨c, hc⟩ := ha.candInv
      by_cases hall : ∃ i, T i = c i
      · obtain ⟨i, hi'⟩ := hall
        right; right
        exact ⟨s1.cand, by simp [published], Or.inl ⟨i, by rw [hc.cand i, hi']⟩⟩
      · left
        intro i
        obtain ⟨tl, htl⟩ := hc.head i
        have := h i
        rw [htl] at this
        show T i ∈ ([] ++ (view s1 i).tail) ++ fut i
        rw [htl]
        rcases List.mem_cons.1 (by simpa using this : T i ∈ c i :: (tl ++ fut i)) with h1 | h1
        · exact absurd ⟨i, h1⟩ hall
        · simpa using h1
    · right; right
      refine ⟨s1.cand, by simp [published], ?_⟩
      rcases h with h | ⟨h, j, hj⟩
      · exact Or.inl ⟨p, by rw [hc.cand p, h]⟩
      · exact Or.inr ⟨p, j, c p, c j, hc.cand p, hc.cand j, h, hj⟩
    · right; right
      exact ⟨S, by simp [published, hS], h⟩

theorem noDrop_pstep {s s' : State n} (hd : ∀ i, s.hasDropped i = false) (hs : PStep s s') :
    ∀ i, s'.hasDropped i = false := by
  cases hs with
  | delete m e hm he hp hc hs => subst hs; intro i; simp [deleted, cleared, hd i]
  | go m e p hm he hx ha hpm => obtain ⟨c, hc⟩ := ha.candInv; exact hc.noDrop
  | publish m e p s1 hm he hx ha hw hs =>
    subst hs; obtain ⟨c, hc⟩ := ha.candInv; exact fun i => hc.noDrop i

theorem strict_of_hist {L fut : Fin n → List Ev} {s : State n} (h : Hist L s) (hL : ∀ i, StrictlyTimeSorted (L i ++ fut i))
    (i : Fin n) : StrictlyTimeSorted (view s i ++ fut i) := by
  obtain ⟨c, hc, _⟩ := h i
  have := hL i
  rw [hc, List.append_assoc] at this
  exact (List.pairwise_append.1 this).2.1

theorem psteps_settled {T : Fin n → Ev} {L fut : Fin n → List Ev} {s s' : State n} (hi : LoopInv s)
    (hd : ∀ i, s.hasDropped i = false) (hh : Hist L s) (hL : ∀ i, StrictlyTimeSorted (L i ++ fut i))
    (hT : ∀ i j, (T i).stamp - (T j).stamp ≤ s.cfg.maxInterval) (hs : PSteps s s') (h : Settled T fut s) :
    (∀ i, s'.hasDropped i = false) ∧ Settled T fut s' := by
  have := psteps_ind (P := fun t => (t.cfg = s.cfg ∧ Hist L t) ∧ (∀ i, t.hasDropped i = false) ∧ Settled T fut t)
    (by
      rintro t t' a b c ⟨⟨d1, d2⟩, d3, d4⟩
      exact ⟨⟨by rw [pstep_cfg c, d1], pstep_hist a c d2⟩, noDrop_pstep d3 c,
        pstep_settled a b d3 (strict_of_hist d2 hL) (by rw [d1]; exact hT) c d4⟩)
    hi hs ⟨⟨rfl, hh⟩, hd, h⟩
  exact this.2.2.2

theorem pushed_settled {T : Fin n → Ev} {fut : Fin n → List Ev} {s s1 : State n} {i : Fin n} {e : Ev} (hi : LoopInv s)
    (hp : Pushed s s1 i e) (h : Settled T (upd fut i (e :: fut i)) s) : Settled T fut s1 := by
  rcases h with h | ⟨p, c, hc, hpast, h⟩ | ⟨S, hS, h⟩
  · left
    intro j
    have := h j
    by_cases hj : j = i
    · subst hj; rw [upd_same] at this; rw [hp.view_same]; simpa using this
    · rw [upd_ne _ _ hj] at this; rw [hp.view_ne hj]; exact this
  · right; left
    obtain ⟨c', hc', hpast'⟩ := (hp.inv hi).pivoted p (by rw [hp.pivot]; exact hc.pivot)
    have : c' = c := by
      funext j
      have h1 := hc'.cand j
      rw [hp.cand, hc.cand j] at h1
      exact (Option.some.inj h1).symm
    subst this
    exact ⟨p, c', hc', hpast', h⟩
  · right; right; exact ⟨S, by rw [hp.out]; exact hS, h⟩

theorem run_settled [NeZero n] {fuel : Nat} {cfg : Cfg n} :
    ∀ (ops : List (Fin n × Ev)) (s : State n), run fuel cfg ops = .ok s → (∀ i, (stream ops i).length ≤ cfg.queueSize) →
    (∀ i, s.hasDropped i = false) ∧
    ∀ (fut : Fin n → List Ev) (T : Fin n → Ev), (∀ i, StrictlyTimeSorted (stream ops i ++ fut i)) →
      (∀ i, T i ∈ stream ops i ++ fut i) → (∀ i j, (T i).stamp - (T j).stamp ≤ cfg.maxInterval) → Settled T fut s := by
  apply run_induction
  · intro _
    exact ⟨fun _ => rfl, fun fut T _ hT _ => Or.inl hT⟩
  · intro ops s i e s' hi hcfg hh hadd hi' ih hlen
    have hlen0 : ∀ j, (stream ops j).length ≤ cfg.queueSize := by
      intro j
      have := hlen j
      rw [stream_snoc] at this
      by_cases hj : j = i
      · subst hj; rw [upd_same] at this; simp at this; omega
      · rw [upd_ne _ _ hj] at this; exact this
    obtain ⟨hd, ih⟩ := ih hlen0
    cases hadd with
    | normal s1 hp hs hl =>
      have hh1 := pushed_hist hp hh
      rw [← stream_snoc] at hh1
      have hl1 := hp.inv hi.loop
      have hcfg1 : s1.cfg = cfg := by rw [hp.cfg, hcfg]
      have hd1 : ∀ j, s1.hasDropped j = false := by rw [hp.hasDropped]; exact hd
      refine ⟨(psteps_ind (P := fun t => ∀ i, t.hasDropped i = false) (fun _ _ _ _ c d => noDrop_pstep d c) hl1 hs hd1).2.2,
        fun fut T hst hT hsp => ?_⟩
      have hfut : ∀ j, stream (ops ++ [(i, e)]) j ++ fut j = stream ops j ++ (upd fut i (e :: fut i)) j := by
        intro j
        rw [stream_snoc]
        by_cases hj : j = i
        · subst hj; rw [upd_same, upd_same, List.append_assoc]; rfl
        · rw [upd_ne _ _ hj, upd_ne _ _ hj]
      have h0 := ih (upd fut i (e :: fut i)) T (fun j => by rw [← hfut]; exact hst j) (fun j => by rw [← hfut]; exact hT j) hsp
      exact (psteps_settled hl1 hd1 hh1 hst (by rw [hcfg1]; exact hsp) hs (pushed_settled hi.loop hp h0)).2
    | drop s1 s2 hp hs hl hs' =>
      exfalso
      have hh2 := psteps_hist (hp.inv hi.loop) hs (pushed_hist hp hh)
      rw [← stream_snoc] at hh2
      obtain ⟨c, hc, _⟩ := hh2 i
      have := hlen i
      rw [hc] at this
      rw [hcfg] at hl
      simp at this
      omega

theorem run_settled_fits [NeZero n] {fuel : Nat} {cfg : Cfg n} {ops : List (Fin n × Ev)} {s : State n}
    (h : run fuel cfg ops = .ok s) (hf : NoOverflow fuel cfg ops) (hs : ∀ i, StrictlyTimeSorted (stream ops i))
    (T : Fin n → Ev) (hT : ∀ i, T i ∈ stream ops i) (hsp : ∀ i j, (T i).stamp - (T j).stamp ≤ cfg.maxInterval) :
    Settled T (fun _ => []) s := by
  have h1 := noOverflow_run h hf
  have := (run_settled ops _ h1 (by
    intro i
    have : (stream ops i).length ≤ ops.length := by unfold stream; rw [List.length_map]; exact List.length_filter_le _ _
    show _ ≤ ops.length + 1
    omega)).2 (fun _ => []) T (by simpa using hs) (by simpa using hT) hsp
  rcases this with h | ⟨p, c, hc, hpast, h⟩ | h
  · exact Or.inl h
  · exact Or.inr (Or.inl ⟨p, c, ⟨hc.1, hc.2, hc.3, hc.4, hc.5, hc.6, hc.7, hc.8, hc.9⟩, hpast, h⟩)
  · exact Or.inr (Or.inr h)

end MF.Approx
