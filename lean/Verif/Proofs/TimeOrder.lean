import Verif.Spec.TimeOrder
import Verif.Proofs.Recover
import Verif.Props.Apart
import Verif.Props.EpsilonReach
import Verif.Props.PyReach
/-
Lemmas for C112.
-/
namespace MF

variable {n : Nat}

theorem InTimeOrder.sorted {ops : List (Fin n × Ev)} (h : InTimeOrder ops) (i : Fin n) : TimeSorted (stream ops i) := by
  unfold stream
  exact List.Pairwise.sublist (List.filter_sublist.map _) h

/-- Whatever was delivered before is not newer. -/
theorem InTimeOrder.before {ops pre post : List (Fin n × Ev)} {j : Fin n} {e : Ev} (h : InTimeOrder ops)
    (ho : ops = pre ++ (j, e) :: post) (i : Fin n) (x : Ev) (hx : x ∈ stream pre i) : x.stamp ≤ e.stamp := by
  subst ho
  unfold InTimeOrder TimeSorted at h
  rw [List.map_append, List.map_cons] at h
  exact (List.pairwise_append.1 h).2.2 x (List.mem_map.2 ⟨(i, x), mem_stream.1 hx, rfl⟩) e (List.mem_cons_self ..)

theorem recent_of_order {q : Nat} {eps : Int} {ops : List (Fin n × Ev)} (ho : InTimeOrder ops)
    (hw : Approx.AtMostWithin q eps ops) : Epsilon.Recent q eps ops := by
  intro pre j e post hops i hij older x newer hst h1 h2
  have hlt := hw i e.stamp
  have hsi := ho.sorted i
  unfold TimeSorted at hsi
  have hb := ho.before hops i
  rw [hops, stream_append, hst] at hsi hlt
  rw [List.filter_append, List.filter_append, List.length_append, List.length_append] at hlt
  have hall : (x :: newer).filter (fun y => decide (e.stamp - eps ≤ y.stamp) && decide (y.stamp ≤ e.stamp)) = x :: newer := by
    rw [List.filter_eq_self]
    intro y hy
    have h3 := hb y (by rw [hst]; exact List.mem_append.2 (Or.inr hy))
    have h4 : x.stamp ≤ y.stamp := by
      rcases List.mem_cons.1 hy with rfl | hy
      · exact Int.le_refl _
      · exact (List.pairwise_cons.1 (List.pairwise_append.1 (List.pairwise_append.1 hsi).1).2.1).1 y hy
    rw [Bool.and_eq_true, decide_eq_true_eq, decide_eq_true_eq]
    omega
  rw [hall, List.length_cons] at hlt
  omega

theorem reach_of_order {q : Nat} (hq : 0 < q) {slop : Int} {ops : List (Fin n × Ev)} (ho : InTimeOrder ops)
    (hw : Approx.AtMostWithin q (slop - 1) ops) : Py.Reach q slop ops := by
  intro pre i e post hops
  refine ⟨?_, fun j hj x hx h1 h2 => ?_⟩
  · have : newerOn pre i e.stamp = 0 := by
      unfold newerOn
      rw [List.length_eq_zero_iff, List.filter_eq_nil_iff]
      intro y hy
      have := ho.before hops i y hy
      rw [decide_eq_true_eq]
      omega
    omega
  · have hlt := hw j e.stamp
    have hb := ho.before hops j
    unfold newerOn
    rw [hops, stream_append, List.filter_append, List.length_append] at hlt
    have hsub : (stream pre j).filter (fun y => decide (x.stamp < y.stamp)) =
        ((stream pre j).filter (fun y => decide (e.stamp - (slop - 1) ≤ y.stamp) && decide (y.stamp ≤ e.stamp))).filter
          (fun y => decide (x.stamp < y.stamp)) := by
      rw [List.filter_filter]
      apply List.filter_congr
      intro y hy
      have := hb y hy
      by_cases h : x.stamp < y.stamp
      · rw [decide_eq_true h, Bool.true_and, decide_eq_true (show e.stamp - (slop - 1) ≤ y.stamp by omega), decide_eq_true this]
        rfl
      · rw [decide_eq_false h, Bool.false_and]
    rw [hsub]
    have hmem : x ∈ (stream pre j).filter (fun y => decide (e.stamp - (slop - 1) ≤ y.stamp) && decide (y.stamp ≤ e.stamp)) := by
      rw [List.mem_filter, Bool.and_eq_true, decide_eq_true_eq, decide_eq_true_eq]
      exact ⟨hx, by omega, hb x hx⟩
    have hlt2 : (((stream pre j).filter (fun y => decide (e.stamp - (slop - 1) ≤ y.stamp) && decide (y.stamp ≤ e.stamp))).filter
          (fun y => decide (x.stamp < y.stamp))).length <
        ((stream pre j).filter (fun y => decide (e.stamp - (slop - 1) ≤ y.stamp) && decide (y.stamp ≤ e.stamp))).length := by
      apply List.length_filter_lt_length_iff_exists.2
      exact ⟨x, hmem, by simp⟩
    omega

theorem AtMostWithin.of_perm {q : Nat} {M : Int} {ops ops' : List (Fin n × Ev)} (hw : Approx.AtMostWithin q M ops)
    (h : ∀ i, ∃ acc, acc.Sublist (stream ops i) ∧ ∃ l, (stream ops' i ++ l).Perm acc) : Approx.AtMostWithin q M ops' := by
  intro i T
  obtain ⟨acc, h1, l, h2⟩ := h i
  refine Nat.le_trans ?_ (Nat.le_trans (h1.filter _).length_le (hw i T))
  have := (h2.filter (fun x => decide (T - M ≤ x.stamp) && decide (x.stamp ≤ T))).length_eq
  rw [List.filter_append, List.length_append] at this
  omega

/-- Stamps more than `M` apart. -/
theorem AtMostWithin.of_far {M : Int} {ops : List (Fin n × Ev)} (ha : ∀ i, FarApart M (stream ops i)) {q : Nat} (hq : 0 < q) :
    Approx.AtMostWithin q M ops := by
  intro i T
  have h1 := List.Pairwise.sublist (List.filter_sublist (p := fun x : Ev => decide (T - M ≤ x.stamp) && decide (x.stamp ≤ T))) (ha i)
  match hl : (stream ops i).filter (fun x => decide (T - M ≤ x.stamp) && decide (x.stamp ≤ T)) with
  | [] => rw [hl]; exact Nat.zero_le _
  | [x] => rw [hl]; exact hq
  | x :: y :: tl =>
    exfalso
    have hx : x ∈ (stream ops i).filter (fun x => decide (T - M ≤ x.stamp) && decide (x.stamp ≤ T)) := by rw [hl]; simp
    have hy : y ∈ (stream ops i).filter (fun x => decide (T - M ≤ x.stamp) && decide (x.stamp ≤ T)) := by rw [hl]; simp
    simp only [List.mem_filter, Bool.and_eq_true, decide_eq_true_eq] at hx hy
    rw [hl] at h1
    have := (List.pairwise_cons.1 h1).1 y (by simp)
    omega

theorem FarApart.of_perm {g : Int} {l m acc : List Ev} (h : FarApart g l) (hsub : acc.Sublist l) {r : List Ev} (hp : (m ++ r).Perm acc) :
    FarApart g m := by
  have h1 : FarApart g acc := List.Pairwise.sublist hsub h
  have h2 : (m ++ r).Pairwise (fun x y : Ev => x.stamp + g < y.stamp ∨ y.stamp + g < x.stamp) :=
    (hp.pairwise_iff (fun h => h.symm)).2 h1
  exact (List.pairwise_append.1 h2).1

/-- The last message of an input. -/
theorem last_split : ∀ (ops : List (Fin n × Ev)) (i : Fin n), stream ops i ≠ [] →
    ∃ pre e post, ops = pre ++ (i, e) :: post ∧ stream post i = [] := by
  intro ops i
  induction ops using snoc_induction with
  | h0 => intro h; exact absurd rfl h
  | hs ops op ih =>
    intro h
    by_cases hop : op.1 = i
    · subst hop
      exact ⟨ops, op.2, [], rfl, rfl⟩
    · have hs : stream (ops ++ [op]) i = stream ops i := stream_snoc_ne _ _ hop
      rw [hs] at h
      obtain ⟨pre, e, post, h1, h2⟩ := ih h
      refine ⟨pre, e, post ++ [op], by rw [h1]; simp, ?_⟩
      have : stream (post ++ [op]) i = stream post i := stream_snoc_ne _ _ hop
      rw [this, h2]

theorem aheadAtMost_of_pauses {q : Nat} {G M : Int} (hG : 0 ≤ G) (hM : 0 ≤ M) {ops : List (Fin n × Ev)} (ho : InTimeOrder ops)
    (hp : PausesAtMost G ops) (hw : Approx.AtMostWithin q (G + M) ops) : Epsilon.AheadAtMost q M ops := by
  intro k i j hij
  by_cases hne : stream (ops.take k) i = []
  · unfold Epsilon.notBehind
    rw [hne]
    exact Nat.zero_le _
  · obtain ⟨pre, e, post, h1, h2⟩ := last_split _ i hne
    have hops : ops = pre ++ (i, e) :: (post ++ ops.drop k) := by
      conv => lhs; rw [← List.take_append_drop k ops, h1]
      simp
    refine Nat.le_trans ?_ (hw i e.stamp)
    unfold Epsilon.notBehind
    have hst : stream ops i = stream (ops.take k) i ++ stream (ops.drop k) i := by
      rw [← stream_append, List.take_append_drop]
    rw [hst, List.filter_append, List.length_append]
    refine Nat.le_trans ?_ (Nat.le_add_right _ _)
    rw [← List.countP_eq_length_filter, ← List.countP_eq_length_filter]
    refine List.countP_mono_left (fun x hx hnb => ?_)
    rw [List.all_eq_true] at hnb
    rw [h1, stream_append] at hx
    have hx' : x ∈ stream pre i ∨ x = e := by
      rcases List.mem_append.1 hx with h | h
      · exact Or.inl h
      · have : stream ((i, e) :: post) i = e :: stream post i := by simp [stream]
        rw [this, h2] at h
        exact Or.inr (List.mem_singleton.1 h)
    rw [Bool.and_eq_true, decide_eq_true_eq, decide_eq_true_eq]
    rcases hx' with hx' | rfl
    · refine ⟨?_, ho.before hops i x hx'⟩
      rcases hp pre i e _ hops j (Ne.symm hij) with ⟨y, hy, hyG⟩ | hall
      · have := hnb y (by rw [h1, stream_append]; exact List.mem_append.2 (Or.inl hy))
        rw [decide_eq_true_eq] at this
        omega
      · have := hall (i, x) (mem_stream.1 hx')
        dsimp only at this
        omega
    · omega

end MF

namespace MF.Approx

/-- The configuration of C112: the age penalty is 0. -/
def pauseCfg (q : Nat) : Cfg 2 := ⟨q, 50, fun x => x, fun _ => 0⟩

theorem stream_pausing (q : Nat) : stream (pausing q) 0 = [⟨0, 0⟩] ∧
    stream (pausing q) 1 = ⟨1, 1⟩ :: (List.range q).map (fun m => (⟨m + 2, 200 * (m + 1)⟩ : Ev)) := by
  unfold pausing
  constructor
  · rw [stream_append]
    have : stream ((List.range q).map (fun m => ((1 : Fin 2), (⟨m + 2, 200 * (m + 1)⟩ : Ev)))) 0 = [] := by
      unfold stream
      rw [List.map_eq_nil_iff, List.filter_eq_nil_iff]
      intro a ha
      obtain ⟨m, _, rfl⟩ := List.mem_map.1 ha
      simp
    rw [this]; rfl
  · rw [stream_append]
    have : stream ((List.range q).map (fun m => ((1 : Fin 2), (⟨m + 2, 200 * (m + 1)⟩ : Ev)))) 1 =
        (List.range q).map (fun m => (⟨m + 2, 200 * (m + 1)⟩ : Ev)) := by
      unfold stream
      rw [List.filter_eq_self.2]
      · rw [List.map_map]; rfl
      · intro a ha
        obtain ⟨m, _, rfl⟩ := List.mem_map.1 ha
        simp
    rw [this]; rfl

theorem stream_pausingEnd (q : Nat) : stream (pausingEnd q) 0 = [⟨0, 0⟩, ⟨q + 2, 200 * (q + 1)⟩] ∧
    stream (pausingEnd q) 1 = ⟨1, 1⟩ :: (List.range q).map (fun m => (⟨m + 2, 200 * (m + 1)⟩ : Ev)) := by
  unfold pausingEnd
  rw [stream_snoc_same, stream_snoc_ne _ _ (by decide), (stream_pausing q).1, (stream_pausing q).2]
  exact ⟨rfl, rfl⟩

theorem apart_pausing (q : Nat) (i : Fin 2) : FarApart (2 * 50) (stream (pausingEnd q) i) := by
  unfold FarApart
  match i with
  | 0 =>
    rw [(stream_pausingEnd q).1]
    simp only [List.pairwise_cons, List.mem_singleton, List.Pairwise.nil, and_true, forall_eq, List.not_mem_nil, false_implies, implies_true]
    left
    omega
  | 1 =>
    rw [(stream_pausingEnd q).2, List.pairwise_cons]
    refine ⟨fun y hy => ?_, ?_⟩
    · obtain ⟨m, _, rfl⟩ := List.mem_map.1 hy
      left
      dsimp only
      omega
    · rw [List.pairwise_map]
      refine List.pairwise_lt_range.imp (fun {a b} h => ?_)
      left
      dsimp only
      omega

theorem order_pausing (q : Nat) : InTimeOrder (pausingEnd q) := by
  unfold InTimeOrder pausingEnd pausing TimeSorted
  simp only [List.map_append, List.map_cons, List.map_nil, List.map_map]
  rw [List.pairwise_append]
  refine ⟨?_, by simp, ?_⟩
  · rw [List.pairwise_append]
    refine ⟨by simp, ?_, ?_⟩
    · rw [List.pairwise_map]
      refine List.pairwise_lt_range.imp (fun {a b} h => ?_)
      show (200 * ((a : Int) + 1)) ≤ 200 * ((b : Int) + 1)
      omega
    · intro a ha b hb
      obtain ⟨m, _, rfl⟩ := List.mem_map.1 hb
      show a.stamp ≤ 200 * ((m : Int) + 1)
      simp only [List.mem_cons, List.not_mem_nil, or_false] at ha
      rcases ha with rfl | rfl <;> dsimp only <;> omega
  · intro a ha b hb
    rw [List.mem_singleton] at hb
    subst hb
    show a.stamp ≤ 200 * ((q : Int) + 1)
    rw [List.mem_append] at ha
    rcases ha with ha | ha
    · simp only [List.mem_cons, List.not_mem_nil, or_false] at ha
      rcases ha with rfl | rfl <;> dsimp only <;> omega
    · obtain ⟨m, hm, rfl⟩ := List.mem_map.1 ha
      have := List.mem_range.1 hm
      show (200 * ((m : Int) + 1)) ≤ 200 * ((q : Int) + 1)
      omega

/-- The first two messages are the candidate, which waits for input 0. -/
structure PairWaits (s : State 2) (l : List Ev) : Prop where
  deque0 : s.deques 0 = []
  past0 : s.past 0 = [⟨0, 0⟩]
  deque1 : s.deques 1 = ⟨1, 1⟩ :: l
  past1 : s.past 1 = []
  out : s.out = []

theorem waiting_start (F q : Nat) (hq : 0 < q) {s : State 2}
    (h : run (F + 20) (pauseCfg q) [(0, ⟨0, 0⟩), (1, ⟨1, 1⟩)] = .ok s) : PairWaits s [] := by
  have h1 := noOverflow_run h (noOverflow_of_short (by intro i; match i with | 0 => exact hq | 1 => exact hq))
  have h2 : ∃ t, run (F + 20) (pauseCfg 3) [(0, ⟨0, 0⟩), (1, ⟨1, 1⟩)] = .ok t ∧ PairWaits t [] := ⟨_, rfl, rfl, rfl, rfl, rfl, rfl⟩
  obtain ⟨t, h3, h4⟩ := h2
  have h5 : t = setQ 3 s := by
    have : Except.ok (ε := Fault) t = .ok (setQ 3 s) := h3.symm.trans h1
    injection this
  rw [h5] at h4
  exact ⟨h4.deque0, h4.past0, h4.deque1, h4.past1, h4.out⟩

theorem waiting_push {fuel : Nat} {s s' : State 2} {l : List Ev} (b : Ev) (hi : Inv s) (hw : PairWaits s l)
    (hl : l.length + 2 ≤ s.cfg.queueSize) (hs : add fuel s 1 b = .ok s') : PairWaits s' (l ++ [b]) := by
  obtain ⟨s1, p, hpu, hst, hr, hor⟩ := add_halves hi hs
  have hd0 : s1.deques 0 = [] := by rw [hpu.deques, upd_ne _ _ (by decide)]; exact hw.deque0
  have := psteps_done hst ⟨0, hd0⟩
  subst this
  have hd1 : p.deques 1 = ⟨1, 1⟩ :: (l ++ [b]) := by rw [hpu.deques, upd_same, hw.deque1]; rfl
  have hv : view p 1 = ⟨1, 1⟩ :: (l ++ [b]) := by
    unfold view
    rw [hpu.past, hw.past1, hd1]; rfl
  rcases hor with ⟨_, g⟩ | ⟨g, _⟩
  · subst g
    exact ⟨hd0, by rw [hpu.past]; exact hw.past0, hd1, by rw [hpu.past]; exact hw.past1, by rw [hpu.out]; exact hw.out⟩
  · exfalso
    rw [hv] at g
    simp only [List.length_cons, List.length_append, List.length_nil] at g
    omega

/-- The queue is full: the candidate is lost, and the first message of input 0 is passed over. -/
theorem waiting_lost {fuel : Nat} {s s' : State 2} {l : List Ev} (b : Ev) (hi : Inv s) (hw : PairWaits s l)
    (hl : l.length + 1 = s.cfg.queueSize) (hpos : ∀ x ∈ l ++ [b], 0 ≤ x.stamp) (hs : add fuel s 1 b = .ok s') :
    Starved s' (l ++ [b]) := by
  obtain ⟨s1, p, hpu, hst, hr, hor⟩ := add_halves hi hs
  have hd0 : s1.deques 0 = [] := by rw [hpu.deques, upd_ne _ _ (by decide)]; exact hw.deque0
  have := psteps_done hst ⟨0, hd0⟩
  subst this
  have hd1 : p.deques 1 = ⟨1, 1⟩ :: (l ++ [b]) := by rw [hpu.deques, upd_same, hw.deque1]; rfl
  have hv1 : view p 1 = ⟨1, 1⟩ :: (l ++ [b]) := by
    unfold view
    rw [hpu.past, hw.past1, hd1]; rfl
  have hv0 : view p 0 = [⟨0, 0⟩] := by
    unfold view
    rw [hpu.past, hw.past0, hd0]; rfl
  rcases hor with ⟨g, _⟩ | ⟨_, g⟩
  · exfalso
    have g' := g
    rw [hv1] at g'
    simp only [List.length_cons, List.length_append, List.length_nil] at g'
    omega
  · have e0 : (dropped p 1).deques 0 = [⟨0, 0⟩] := by
      show upd (view p) 1 (view p 1).tail 0 = _
      rw [upd_ne _ _ (by decide), hv0]
    have e1 : (dropped p 1).deques 1 = l ++ [b] := by
      show upd (view p) 1 (view p 1).tail 1 = _
      rw [upd_same, hv1]; rfl
    have elost : (dropped p 1).hasDropped 1 = true := by
      show upd p.hasDropped 1 true 1 = true
      rw [upd_same]
    have eout : (dropped p 1).out = [] := by show p.out = []; rw [hpu.out, hw.out]
    have epv : (dropped p 1).pivot = none := rfl
    generalize dropped p 1 = d at *
    obtain ⟨y, tl, hy⟩ : ∃ y tl, l ++ [b] = y :: tl := by
      cases l with
      | nil => exact ⟨b, [], rfl⟩
      | cons y tl => exact ⟨y, tl ++ [b], rfl⟩
    have hy0 : 0 ≤ y.stamp := hpos y (by rw [hy]; simp)
    have hst0 : st d.deques 0 = 0 := st_cons e0
    have hst1 : st d.deques 1 = y.stamp := st_cons (e1.trans hy)
    have hend : IsEnd d.deques 1 := by
      refine ⟨fun j => ?_, fun j hj => absurd hj (by omega)⟩
      match j with
      | 0 => rw [hst0, hst1]; exact hy0
      | 1 => exact Int.le_refl _
    have hstart : IsStart d.deques 0 := by
      refine ⟨fun j => ?_, fun j hj => absurd hj (by omega)⟩
      match j with
      | 0 => exact Int.le_refl _
      | 1 => rw [hst0, hst1]; exact hy0
    have hx' : ∀ {m e q : Fin 2} {s2 : State 2}, IsEnd d.deques e → ¬ Examined d m e q s2 := by
      intro m e q s2 he hx
      have := he.unique hend
      subst this
      cases hx with
      | fresh h1 h2 h3 hp hs => rw [elost] at h3; cases h3
      | kept h1 h2 hs => rw [epv] at h1; cases h1
      | better h1 h2 hs => rw [epv] at h1; cases h1
    cases g with
    | done he =>
      obtain ⟨i, hi⟩ := he
      match i with
      | 0 => rw [e0] at hi; cases hi
      | 1 => rw [e1, hy] at hi; cases hi
    | step hne hstep hrest =>
      cases hstep with
      | delete m e hm he hp hc hs =>
        have := he.unique hend
        subst this
        have := hm.unique hstart
        subst this
        subst hs
        have hz : (deleted (cleared d 1) 0).deques 0 = [] := by
          show upd d.deques 0 (d.deques 0).tail 0 = []
          rw [upd_same, e0]; rfl
        have := psteps_done hrest ⟨0, hz⟩
        subst this
        refine ⟨hz, ?_, epv, ?_, eout⟩
        · show upd d.deques 0 (d.deques 0).tail 1 = _
          rw [upd_ne _ _ (by decide), e1]
        · show (if (1 : Fin 2) ≠ 1 then false else d.hasDropped 1) = true
          simp [elost]
      | go m e q hm he hx ha hpm => exact absurd hx (hx' he)
      | publish m e q s2 hm he hx ha hw hs => exact absurd hx (hx' he)

/-- A message on input 0 that is far newer than everything input 1 holds. -/
theorem drained {a : Ev} : ∀ (l : List Ev) (s s' : State 2), s.deques 0 = [a] → s.deques 1 = l → s.pivot = none →
    (∀ x ∈ l, s.cfg.maxInterval < a.stamp - x.stamp ∧ x.stamp < a.stamp) → PSteps s s' → s'.out = s.out ∧ s'.pivot = none ∧ s'.past = s.past ∧
      s'.deques 0 = [a] := by
  intro l
  induction l with
  | nil =>
    intro s s' h0 h1 hp _ hst
    have := psteps_done hst ⟨1, h1⟩
    subst this
    exact ⟨rfl, hp, rfl, h0⟩
  | cons x l ih =>
    intro s s' h0 h1 hp hfar hst
    have hst0 : st s.deques 0 = a.stamp := st_cons h0
    have hst1 : st s.deques 1 = x.stamp := st_cons h1
    obtain ⟨hx1, hx2⟩ := hfar x (by simp)
    have hend : IsEnd s.deques 0 := by
      refine ⟨fun j => ?_, fun j hj => ?_⟩
      · match j with
        | 0 => exact Int.le_refl _
        | 1 => rw [hst0, hst1]; omega
      · match j with
        | 0 => exact absurd hj (by omega)
        | 1 => rw [hst0, hst1]; omega
    have hstart : IsStart s.deques 1 := by
      refine ⟨fun j => ?_, fun j hj => ?_⟩
      · match j with
        | 0 => rw [hst0, hst1]; omega
        | 1 => exact Int.le_refl _
      · match j with
        | 0 => rw [hst0, hst1]; omega
        | 1 => exact absurd hj (by omega)
    have hx' : ∀ {m e q : Fin 2} {s2 : State 2}, IsStart s.deques m → IsEnd s.deques e → ¬ Examined s m e q s2 := by
      intro m e q s2 hm he hx
      have := he.unique hend
      subst this
      have := hm.unique hstart
      subst this
      cases hx with
      | fresh h1 h2 h3 hp hs => rw [hst0, hst1] at h2; omega
      | kept h1 h2 hs => rw [hp] at h1; cases h1
      | better h1 h2 hs => rw [hp] at h1; cases h1
    cases hst with
    | done he =>
      obtain ⟨i, hi⟩ := he
      match i with
      | 0 => rw [h0] at hi; cases hi
      | 1 => rw [h1] at hi; cases hi
    | step hne hstep hrest =>
      cases hstep with
      | delete m e hm he hp' hc hs =>
        have := he.unique hend
        subst this
        have := hm.unique hstart
        subst this
        subst hs
        refine ih (deleted (cleared s 0) 1) _ ?_ ?_ hp (fun y hy => hfar y (List.mem_cons_of_mem _ hy)) hrest
        · show upd s.deques 1 (s.deques 1).tail 0 = _
          rw [upd_ne _ _ (by decide), h0]
        · show upd s.deques 1 (s.deques 1).tail 1 = _
          rw [upd_same, h1]; rfl
      | go m e q hm he hx ha hpm => exact absurd hx (hx' hm he)
      | publish m e q s2 hm he hx ha hw hs => exact absurd hx (hx' hm he)

theorem pausing_succ (q : Nat) : pausing (q + 1) = pausing q ++ [(1, ⟨q + 2, 200 * (q + 1)⟩)] := by
  unfold pausing
  rw [List.range_succ, List.map_append, ← List.append_assoc]
  rfl

/-- The messages input 1 sends during the pause. -/
def paused (q : Nat) : List Ev := (List.range q).map (fun m => (⟨m + 2, 200 * (m + 1)⟩ : Ev))

theorem paused_succ (q : Nat) : paused (q + 1) = paused q ++ [⟨q + 2, 200 * (q + 1)⟩] := by
  unfold paused
  rw [List.range_succ, List.map_append]
  rfl

theorem waiting_run {F Q : Nat} (hQ : 0 < Q) : ∀ (q : Nat) (s : State 2), q < Q → run (F + 20) (pauseCfg Q) (pausing q) = .ok s →
    PairWaits s (paused q) := by
  intro q
  induction q with
  | zero => intro s _ h; exact waiting_start F Q hQ h
  | succ q ih =>
    intro s hq h
    rw [pausing_succ] at h
    obtain ⟨u, hu, hadd⟩ := run_snoc_ok h
    obtain ⟨hi, hcfg, _⟩ := run_facts hu
    rw [paused_succ]
    refine waiting_push _ hi (ih u (by omega) hu) ?_ hadd
    rw [hcfg]
    unfold paused
    rw [List.length_map, List.length_range]
    show q + 2 ≤ Q
    omega

theorem pausing_lost {F q : Nat} (hq : 0 < q) {s : State 2} (h : run (F + 20) (pauseCfg q) (pausingEnd q) = .ok s) : s.out = [] := by
  obtain ⟨k, rfl⟩ : ∃ k, q = k + 1 := ⟨q - 1, by omega⟩
  unfold pausingEnd at h
  obtain ⟨t, ht, hadd⟩ := run_snoc_ok h
  dsimp only at hadd
  obtain ⟨hit, hcfgt, _⟩ := run_facts ht
  rw [pausing_succ] at ht
  obtain ⟨u, hu, hadd2⟩ := run_snoc_ok ht
  obtain ⟨hi, hcfg, _⟩ := run_facts hu
  have hpos : ∀ x ∈ paused (k + 1), 0 ≤ x.stamp ∧ 50 < 200 * ((k : Int) + 1 + 1) - x.stamp := by
    intro x hx
    obtain ⟨m, hm, rfl⟩ := List.mem_map.1 hx
    have := List.mem_range.1 hm
    dsimp only
    omega
  have hst : Starved t (paused (k + 1)) := by
    rw [paused_succ]
    refine waiting_lost _ hi (waiting_run (by omega) k u (by omega) hu) ?_ ?_ hadd2
    · rw [hcfg]
      unfold paused
      rw [List.length_map, List.length_range]
      rfl
    · intro x hx
      rw [← paused_succ] at hx
      exact (hpos x hx).1
  obtain ⟨s1, p, hpu, hst1, hr, hor⟩ := add_halves hit hadd
  have hd := drained (paused (k + 1)) s1 p (by rw [hpu.deques, upd_same, hst.first]; rfl)
    (by rw [hpu.deques, upd_ne _ _ (by decide)]; exact hst.second) (by rw [hpu.pivot]; exact hst.noPivot)
    (by
      intro x hx
      rw [hpu.cfg, hcfgt]
      have := (hpos x hx).2
      have e : (pauseCfg (k + 1)).maxInterval = 50 := rfl
      rw [e]
      dsimp only
      constructor <;> push_cast <;> omega) hst1
  have hv : view p 0 = [⟨k + 1 + 2, 200 * ((k + 1 : Nat) + 1)⟩] := by
    unfold view
    rw [hd.2.2.1, hpu.past, hit.loop.noPivot hst.noPivot 0, hd.2.2.2]; rfl
  rcases hor with ⟨_, g⟩ | ⟨g, _⟩
  · subst g
    rw [hd.1, hpu.out, hst.out]
  · exfalso
    have g' := g
    rw [hcfgt] at g'
    have e : (pauseCfg (k + 1)).queueSize = k + 1 := rfl
    have : (view p 0).length = 1 := by rw [hv]; rfl
    rw [e] at g'
    omega

theorem pausing_found (q fuel : Nat) (hq : 0 < q) (hfuel : (pausingEnd q).length * (pausingEnd q).length + (pausingEnd q).length ≤ fuel) :
    ∃ s, run fuel (pauseCfg (q + 1)) (pausingEnd q) = .ok s ∧
      (fun i => if i = 0 then some ⟨0, 0⟩ else some ⟨1, 1⟩) ∈ s.out := by
  have hlen : ∀ i, (stream (pausingEnd q) i).length ≤ q + 1 := by
    intro i
    match i with
    | 0 => rw [(stream_pausingEnd q).1]; simp; omega
    | 1 => rw [(stream_pausingEnd q).2]; simp
  have hahead : Epsilon.AheadAtMost (q + 1) 50 (pausingEnd q) := by
    intro k i j _
    refine Nat.le_trans (List.length_filter_le _ _) (Nat.le_trans ?_ (hlen i))
    conv => rhs; rw [← List.take_append_drop k (pausingEnd q)]
    rw [stream_append, List.length_append]
    omega
  obtain ⟨s, h, _, _, h4, _⟩ := C108_approximate (pauseCfg (q + 1)) (show (0 : Int) ≤ 50 by decide) (fun x _ => Int.le_refl x) (by show 0 < q + 1; omega)
    (pausingEnd q) (order_pausing q).sorted (apart_pausing q) hahead fuel hfuel
  refine ⟨s, h, ?_⟩
  have hm0 : ((0 : Fin 2), (⟨0, 0⟩ : Ev)) ∈ pausingEnd q := mem_stream.1 (by rw [(stream_pausingEnd q).1]; simp)
  have hm1 : ((1 : Fin 2), (⟨1, 1⟩ : Ev)) ∈ pausingEnd q := mem_stream.1 (by rw [(stream_pausingEnd q).2]; simp)
  have hM : Matches (pauseCfg (q + 1)).maxInterval (pausingEnd q) (fun i => if i = 0 then (⟨0, 0⟩ : Ev) else ⟨1, 1⟩) := by
    refine ⟨fun i => ?_, ?_⟩
    · match i with
      | 0 => exact hm0
      | 1 => exact hm1
    · show ∀ i j : Fin 2, _ ≤ (50 : Int)
      decide
  rcases h4 _ hM with g | ⟨a, g1, older, g2⟩
  · have e : (fun i : Fin 2 => some (if i = 0 then (⟨0, 0⟩ : Ev) else ⟨1, 1⟩)) = fun i => if i = 0 then some ⟨0, 0⟩ else some ⟨1, 1⟩ := by
      funext i
      split <;> rfl
    rw [← e]; exact g
  · exfalso
    match a with
    | 1 => have := g1 0; revert this; decide
    | 0 =>
      rw [(stream_pausingEnd q).1] at g2
      have := congrArg List.getLast? g2
      simp at this

end MF.Approx
