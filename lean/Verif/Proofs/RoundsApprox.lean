import Verif.Proofs.Approx9
import Verif.Spec.Rounds
/-
Helper lemmas about ApproximateTime on inputs that send in rounds.
-/
namespace MF

variable {n : Nat}

theorem Delivers.get {R : Nat → Fin n → Ev} {ops : List (Fin n × Ev)} (h : Delivers R ops) {i : Fin n} {k : Nat} {e : Ev}
    (hk : (stream ops i)[k]? = some e) : e = R k i := by
  have hlt : k < (stream ops i).length := by
    apply Classical.byContradiction
    intro hc
    rw [List.getElem?_eq_none (by omega)] at hk; cases hk
  rw [h i, List.getElem?_map, List.getElem?_range hlt] at hk
  simpa using hk.symm

theorem Delivers.init {R : Nat → Fin n → Ev} {ops : List (Fin n × Ev)} {op : Fin n × Ev} (h : Delivers R (ops ++ [op])) :
    Delivers R ops := by
  intro i
  have h1 := h i
  rw [stream_append] at h1
  have h2 := congrArg (List.take (stream ops i).length) h1
  rw [List.take_left' rfl, ← List.map_take, List.take_range, Nat.min_eq_left (by simp)] at h2
  exact h2

theorem LagAtMost.init {lag : Nat} {ops : List (Fin n × Ev)} {op : Fin n × Ev} (h : LagAtMost lag (ops ++ [op])) :
    LagAtMost lag ops := fun pre hp => h pre (hp.trans (List.prefix_append _ _))

theorem roundSets_length (R : Nat → Fin n → Ev) (k : Nat) : (roundSets R k).length = k := by simp [roundSets]

theorem roundSets_succ (R : Nat → Fin n → Ev) (k : Nat) :
    roundSets R (k + 1) = roundSets R k ++ [fun i => some (R k i)] := by
  simp [roundSets, List.range_succ]

end MF

namespace MF.Approx

variable {n : Nat}

/-- `k` rounds were output and nothing else happened; at most the first message of the next round was passed over on each
input. -/
structure Rounded (R : Nat → Fin n → Ev) (L : Fin n → List Ev) (k : Nat) (s : State n) : Prop where
  view : ∀ i, view s i = (L i).drop k
  le : ∀ i, k ≤ (L i).length
  out : s.out = roundSets R k
  noDrop : ∀ i, s.hasDropped i = false
  past : ∀ i, (s.past i).length ≤ 1

/-- `L` consists of messages of the rounds. -/
def Sends (R : Nat → Fin n → Ev) (L : Fin n → List Ev) : Prop := ∀ i k e, (L i)[k]? = some e → e = R k i

theorem Rounded.front {R : Nat → Fin n → Ev} {L : Fin n → List Ev} {k : Nat} {s : State n} (h : Rounded R L k s)
    (hL : Sends R L) {i : Fin n} (hp : s.past i = []) (hne : s.deques i ≠ []) : st s.deques i = (R k i).stamp := by
  obtain ⟨e, tl, hd⟩ := List.exists_cons_of_ne_nil hne
  rw [st_cons hd]
  have h1 := h.view i
  unfold Approx.view at h1
  rw [hp, hd, List.nil_append] at h1
  have h2 : (L i)[k]? = some e := by
    have := congrArg (fun l => l[0]?) h1
    simpa [List.getElem?_drop] using this.symm
  rw [hL i k e h2]

theorem Rounded.second {R : Nat → Fin n → Ev} {L : Fin n → List Ev} {k : Nat} {s : State n} (h : Rounded R L k s)
    (hL : Sends R L) {i : Fin n} (hp : s.past i ≠ []) (hne : s.deques i ≠ []) : st s.deques i = (R (k + 1) i).stamp := by
  obtain ⟨e, tl, hd⟩ := List.exists_cons_of_ne_nil hne
  obtain ⟨x, tl', hx⟩ := List.exists_cons_of_ne_nil hp
  have hlen := h.past i
  rw [hx] at hlen
  have htl : tl' = [] := by cases tl' with
    | nil => rfl
    | cons a b => simp at hlen
  subst htl
  rw [st_cons hd]
  have h1 := h.view i
  unfold Approx.view at h1
  rw [hx, hd] at h1
  have h2 : (L i)[k + 1]? = some e := by
    have := congrArg (fun l => l[1]?) h1
    simpa [List.getElem?_drop] using this.symm
  rw [hL i (k + 1) e h2]

theorem Rounded.head {R : Nat → Fin n → Ev} {L : Fin n → List Ev} {k : Nat} {s : State n} (h : Rounded R L k s)
    (hL : Sends R L) {i : Fin n} {e : Ev} {tl : List Ev} (hv : Approx.view s i = e :: tl) : e = R k i := by
  have h1 := h.view i
  rw [hv] at h1
  refine hL i k e ?_
  have := congrArg (fun l => l[0]?) h1
  simpa [List.getElem?_drop] using this.symm

theorem examined_rounded {R : Nat → Fin n → Ev} {w : Int} (ht : Tight R w) (hg : Separate R w) {L : Fin n → List Ev}
    (hL : Sends R L) {k : Nat} {s s1 : State n} (hsc : ∀ x, 0 ≤ x → x ≤ s.cfg.scale x) (hi : LoopInv s)
    (hne : ∀ i, s.deques i ≠ []) {m e p : Fin n} (hm : IsStart s.deques m) (he : IsEnd s.deques e)
    (hx : Examined s m e p s1) (ha : After s m p s1) (h : Rounded R L k s) : Rounded R L k s1 := by
  obtain ⟨c, hc⟩ := ha.candInv
  cases hx with
  | fresh h1 h2 h3 hp hs =>
    subst hs
    have hpast := hi.noPivot h1
    refine ⟨?_, h.le, ha.out.trans h.out, hc.noDrop, ?_⟩
    · intro i
      unfold fresh
      rw [view_moved, ← h.view i]
      simp [Approx.view, candidated, cleared, hpast i]
    · intro i
      simp only [fresh, moved, candidated, cleared]
      by_cases him : i = m
      · subst him; rw [upd_same, List.nil_append, List.length_take]; omega
      · rw [upd_ne _ _ him]; simp
  | kept h1 h2 hs =>
    subst hs
    obtain ⟨c0, hc0, hpp⟩ := hi.pivoted p h1
    refine ⟨?_, h.le, ha.out.trans h.out, hc.noDrop, ?_⟩
    · intro i; unfold kept; rw [view_moved]; exact h.view i
    · intro i
      simp only [kept, moved, cleared]
      by_cases him : i = m
      · subst him
        rw [upd_same]
        have hpi : s.past i = [] := by
          apply Classical.byContradiction
          intro hpi
          have h3 := h.second hL hpi (hne i)
          have h4 := h.front hL hpp (hne p)
          have h5 := hm.1 p
          have h6 := (hg k p i).1
          omega
        rw [hpi, List.nil_append, List.length_take]; omega
      · rw [upd_ne _ _ him]; exact h.past i
  | better h1 h2 hs =>
    exfalso
    obtain ⟨c0, hc0, hpp⟩ := hi.pivoted p h1
    have hR : ∀ i, c0 i = R k i := by
      intro i
      obtain ⟨tl, htl⟩ := hc0.head i
      exact h.head hL htl
    obtain ⟨a, hlo⟩ := hc0.loEx
    obtain ⟨b, hhi⟩ := hc0.hiEx
    rw [hR] at hlo hhi
    have h3 := h.front hL hpp (hne p)
    have h4 := hm.1 p
    have h5 := ht k a p
    have h6 := ht k b p
    by_cases hall : ∀ i, s.past i = []
    · have hb := h.front hL (hall b) (hne b)
      have hma := h.front hL (hall a) (hne a)
      have h7 := he.1 b
      have h8 := hm.1 a
      have h9 := hsc (st s.deques e - s.candEnd) (by omega)
      omega
    · obtain ⟨j, hj⟩ := Classical.not_forall.1 hall
      have h7 := h.second hL hj (hne j)
      have h8 := he.1 j
      have h9 := (hg k b j)
      have h10 := hsc (st s.deques e - s.candEnd) (by omega)
      omega

theorem pstep_rounded {R : Nat → Fin n → Ev} {w : Int} (ht : Tight R w) (hg : Separate R w) {L : Fin n → List Ev}
    (hL : Sends R L) {s s' : State n} (hsc : ∀ x, 0 ≤ x → x ≤ s.cfg.scale x) (hw : w ≤ s.cfg.maxInterval) (hi : LoopInv s)
    (hne : ∀ i, s.deques i ≠ []) (hs : PStep s s') (h : ∃ k, Rounded R L k s) : ∃ k, Rounded R L k s' := by
  obtain ⟨k, h⟩ := h
  cases hs with
  | delete m e hm he hp hc hs =>
    exfalso
    have hpast := hi.noPivot hp
    rcases hc with hc | hc
    · have h1 := h.front hL (hpast e) (hne e)
      have h2 := h.front hL (hpast m) (hne m)
      have h3 := ht k m e
      omega
    · rw [h.noDrop e] at hc; cases hc
  | go m e p hm he hx ha hpm => exact ⟨k, examined_rounded ht hg hL hsc hi hne hm he hx ha h⟩
  | publish m e p s1 hm he hx ha hw hs =>
    have h1 := examined_rounded ht hg hL hsc hi hne hm he hx ha h
    obtain ⟨c, hc⟩ := ha.candInv
    subst hs
    have hlen : ∀ i, k < (L i).length := by
      intro i
      obtain ⟨tl, htl⟩ := hc.head i
      have := h1.view i
      rw [htl] at this
      apply Classical.byContradiction
      intro hk
      rw [List.drop_eq_nil_of_le (by omega)] at this; cases this
    refine ⟨k + 1, ?_, fun i => hlen i, ?_, hc.noDrop, fun i => by simp [published]⟩
    · intro i
      show [] ++ (Approx.view s1 i).tail = _
      rw [h1.view i, List.nil_append, List.tail_drop]
    · show s1.out ++ [s1.cand] = _
      rw [roundSets_succ, h1.out]
      congr 2
      funext i
      obtain ⟨tl, htl⟩ := hc.head i
      rw [hc.cand i, h1.head hL htl]

/-- When the loop ends, at most one complete round is withheld. -/
theorem rounded_done {R : Nat → Fin n → Ev} {L : Fin n → List Ev} {k : Nat} {s : State n} (h : Rounded R L k s)
    (hemp : ∃ i, s.deques i = []) : ∃ i, (L i).length ≤ k + 1 := by
  obtain ⟨i, hd⟩ := hemp
  refine ⟨i, ?_⟩
  have h1 := congrArg List.length (h.view i)
  have h2 := h.past i
  unfold Approx.view at h1
  rw [hd, List.append_nil, List.length_drop] at h1
  omega

theorem run_rounded [NeZero n] {fuel : Nat} {cfg : Cfg n} {R : Nat → Fin n → Ev} {w : Int} {lag : Nat} (ht : Tight R w)
    (hg : Separate R w) (hsc : ∀ x, 0 ≤ x → x ≤ cfg.scale x) (hw : w ≤ cfg.maxInterval) (hq : lag + 1 ≤ cfg.queueSize) :
    ∀ (ops : List (Fin n × Ev)) (s : State n), run fuel cfg ops = .ok s → Delivers R ops → LagAtMost lag ops →
    ∃ k, Rounded R (stream ops) k s := by
  apply run_induction
  · intro _ _
    exact ⟨0, fun i => by simp [Approx.view, init, stream], fun i => Nat.zero_le _, rfl, fun _ => rfl, fun _ => by simp [init]⟩
  · intro ops s i e s' hi hcfg hh hadd hi' ih hd hl
    obtain ⟨k, h⟩ := ih hd.init hl.init
    have hL : Sends R (stream (ops ++ [(i, e)])) := fun j k x hx => hd.get hx
    have hpush : ∀ s1, Pushed s s1 i e → Rounded R (stream (ops ++ [(i, e)])) k s1 := by
      intro s1 hp
      refine ⟨?_, ?_, hp.out.trans h.out, ?_, ?_⟩
      · intro j
        by_cases hj : j = i
        · subst hj
          rw [hp.view_same, stream_snoc_same, h.view j, List.drop_append_of_le_length (h.le j)]
        · rw [hp.view_ne hj, stream_snoc_ne _ _ (Ne.symm hj), h.view j]
      · intro j
        by_cases hj : j = i
        · subst hj; rw [stream_snoc_same, List.length_append]; exact Nat.le_trans (h.le j) (Nat.le_add_right _ _)
        · rw [stream_snoc_ne _ _ (Ne.symm hj)]; exact h.le j
      · intro j; rw [hp.hasDropped]; exact h.noDrop j
      · intro j; rw [hp.past]; exact h.past j
    have hsteps : ∀ s1 s2, Pushed s s1 i e → PSteps s1 s2 →
        (∃ j, s2.deques j = []) ∧ ∃ k, Rounded R (stream (ops ++ [(i, e)])) k s2 := by
      intro s1 s2 hp hs
      have := psteps_ind (P := fun t => t.cfg = cfg ∧ ∃ k, Rounded R (stream (ops ++ [(i, e)])) k t) (by
        intro t t' a b c d
        refine ⟨(pstep_cfg c).trans d.1, pstep_rounded ht hg hL ?_ ?_ a b c d.2⟩
        · rw [d.1]; exact hsc
        · rw [d.1]; exact hw) (hp.inv hi.loop) hs ⟨hp.cfg.trans hcfg, k, hpush s1 hp⟩
      exact ⟨this.2.1, this.2.2.2⟩
    cases hadd with
    | normal s1 hp hs hl => exact (hsteps s1 s' hp hs).2
    | drop s1 s2 hp hs hov hs' =>
      exfalso
      obtain ⟨hemp, k2, h2⟩ := hsteps s1 s2 hp hs
      obtain ⟨j, hj⟩ := rounded_done h2 hemp
      have h3 := hl _ (List.prefix_refl _) i j
      rw [h2.view i, List.length_drop, hcfg] at hov
      omega

end MF.Approx
