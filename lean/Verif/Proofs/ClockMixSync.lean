import Verif.Spec.ClockMix
import Verif.Proofs.ExactTime
import Verif.Proofs.Approx5
/-
Helper lemmas about the synchronization policies and the input aligner under messages of different clock types.
-/
namespace MF.ClockMix

variable {n : Nat}

/-! ### ExactTime -/

theorem foreign_iff (src : Nat → Source) (s : ExactTime.State n) (e : Ev) :
    foreign src s.tuples e = true ↔ ∃ x, Waiting s x ∧ src x.id ≠ src e.id := by
  unfold foreign Waiting
  rw [List.any_eq_true]
  constructor
  · rintro ⟨p, hp, h⟩
    rw [List.any_eq_true] at h
    obtain ⟨i, _, h⟩ := h
    cases hx : p.2 i with
    | none => rw [hx] at h; cases h
    | some x => rw [hx] at h; exact ⟨x, ⟨p, hp, i, hx⟩, by simpa using h⟩
  · rintro ⟨x, ⟨p, hp, i, hx⟩, h⟩
    refine ⟨p, hp, ?_⟩
    rw [List.any_eq_true]
    exact ⟨i, List.mem_finRange i, by rw [hx]; simpa using h⟩

/-- A message waiting after `add` was waiting before or is the new one. -/
theorem waiting_add [NeZero n] {s s' : ExactTime.State n} (hs : ExactTime.Inv s) {i : Fin n} {e : Ev}
    (h : ExactTime.add s i e = .ok s') {x : Ev} (hx : Waiting s' x) : x = e ∨ Waiting s x := by
  obtain ⟨a, o, b, t, sp⟩ := ExactTime.add_spec' hs h
  obtain ⟨ma, mb, mo⟩ := sp.mem_old
  obtain ⟨p, hp, j, hj⟩ := hx
  have key : p ∈ a ++ (e.stamp, t) :: b := by
    by_cases hc : ExactTime.Complete t
    · rw [(sp.full hc).1] at hp; simp [hp]
    · rw [(sp.part hc).2.1] at hp; exact List.mem_of_mem_drop hp
  rw [List.mem_append, List.mem_cons] at key
  rcases key with h1 | h1 | h1
  · exact Or.inr ⟨p, ma p h1, j, hj⟩
  · subst h1
    simp only at hj
    rw [sp.tuple] at hj
    by_cases hji : j = i
    · subst hji; rw [upd_same] at hj; cases hj; exact Or.inl rfl
    · rw [upd_ne _ _ hji] at hj
      cases ho : o with
      | none => rw [ho] at hj; simp [ExactTime.emptyTuple] at hj
      | some t0 => rw [ho] at hj; exact Or.inr ⟨_, mo t0 ho, j, hj⟩
  · exact Or.inr ⟨p, mb p h1, j, hj⟩

/-- What the policy keeps between calls: the base invariant, and one clock type. -/
structure ExactInv (src : Nat → Source) (s : ExactTime.State n) : Prop where
  base : ExactTime.Inv s
  clock : ∀ x, Waiting s x → ∀ y, Waiting s y → src x.id = src y.id

theorem exactInv_construct (src : Nat → Source) (q : Nat) : ExactInv src (ExactTime.construct n q) :=
  ⟨ExactTime.inv_construct q, fun _ hx => by obtain ⟨p, hp, _⟩ := hx; simp [ExactTime.construct] at hp⟩

theorem exactAdd_spec [NeZero n] (src : Nat → Source) {s : ExactTime.State n} (hs : ExactInv src s) (i : Fin n) (e : Ev) :
    ∃ s' b, exactAdd src s i e = .ok (s', b) ∧ ExactInv src s' ∧
      (b = true ↔ ∃ x, Waiting s x ∧ src x.id ≠ src e.id) ∧
      (b = true → s' = s) ∧ (b = false → ExactTime.add s i e = .ok s') := by
  unfold exactAdd
  by_cases hf : foreign src s.tuples e = true
  · rw [if_pos hf]
    exact ⟨s, true, rfl, hs, ⟨fun _ => (foreign_iff src s e).1 hf, fun _ => rfl⟩, fun _ => rfl, (fun h => by cases h)⟩
  · rw [if_neg hf]
    obtain ⟨s', a, o, b, t, h1, h2⟩ := ExactTime.add_spec s hs.base i e
    refine ⟨s', false, by rw [h1]; rfl, ⟨ExactTime.add_inv hs.base h1, ?_⟩, ?_, (fun h => by cases h), fun _ => h1⟩
    · have hall : ∀ x, Waiting s' x → src x.id = src e.id := by
        intro x hx
        rcases waiting_add hs.base h1 hx with h | h
        · rw [h]
        · apply Classical.byContradiction
          intro hne
          exact hf ((foreign_iff src s e).2 ⟨x, h, hne⟩)
      intro x hx y hy
      rw [hall x hx, hall y hy]
    · constructor
      · intro h; cases h
      · intro h; exact absurd ((foreign_iff src s e).2 h) hf

theorem exactRun_inv [NeZero n] (src : Nat → Source) (ops : List (Fin n × Ev)) : ∀ (s : ExactTime.State n), ExactInv src s →
    ∃ s', exactRunFrom src s ops = .ok s' ∧ ExactInv src s' := by
  unfold exactRunFrom
  intro s hs
  apply runE_ok (I := ExactInv src) _ ops s hs
  intro s op hs
  obtain ⟨s', b, h1, h2, _⟩ := exactAdd_spec src hs op.1 op.2
  exact ⟨s', by rw [h1]; rfl, h2⟩

/-- A history is the history of the messages that were accepted. -/
theorem exactRun_accepted [NeZero n] (src : Nat → Source) (q : Nat) : ∀ (ops : List (Fin n × Ev)) (s : ExactTime.State n),
    exactRunFrom src (ExactTime.construct n q) ops = .ok s →
    ∃ acc, List.Sublist acc ops ∧ ExactTime.run (ExactTime.construct n q) acc = .ok s := by
  unfold exactRunFrom
  apply runE_induction
  · exact ⟨[], List.Sublist.refl _, rfl⟩
  · intro ops s op s' hrun ⟨acc, hsub, hacc⟩ hstep
    obtain ⟨s1, g1, g2⟩ := exactRun_inv src ops (ExactTime.construct n q) (exactInv_construct src q)
    unfold exactRunFrom at g1
    rw [hrun] at g1; cases g1
    obtain ⟨s2, b, h1, h2, h3, h4, h5⟩ := exactAdd_spec src g2 op.1 op.2
    rw [h1] at hstep
    cases hstep
    cases b with
    | true =>
      rw [h4 rfl]
      exact ⟨acc, hsub.trans (List.sublist_append_left _ _), hacc⟩
    | false =>
      refine ⟨acc ++ [op], hsub.append (List.Sublist.refl _), ?_⟩
      unfold ExactTime.run at hacc ⊢
      rw [runE_append, hacc]
      simp only [runE, h5 rfl]

theorem waiting_run [NeZero n] (src : Nat → Source) (q : Nat) : ∀ (ops : List (Fin n × Ev)) (s : ExactTime.State n),
    exactRunFrom src (ExactTime.construct n q) ops = .ok s → ∀ x, Waiting s x → ∃ i, (i, x) ∈ ops := by
  unfold exactRunFrom
  apply runE_induction
  · intro x hx; obtain ⟨p, hp, _⟩ := hx; simp [ExactTime.construct] at hp
  · intro ops s op s' hrun ih hstep x hx
    obtain ⟨s1, g1, g2⟩ := exactRun_inv src ops (ExactTime.construct n q) (exactInv_construct src q)
    unfold exactRunFrom at g1
    rw [hrun] at g1; cases g1
    obtain ⟨s2, b, h1, h2, h3, h4, h5⟩ := exactAdd_spec src g2 op.1 op.2
    rw [h1] at hstep
    cases hstep
    cases b with
    | true => rw [h4 rfl] at hx; obtain ⟨i, hi⟩ := ih x hx; exact ⟨i, by simp [hi]⟩
    | false =>
      rcases waiting_add g2.base (h5 rfl) hx with h | h
      · subst h; exact ⟨op.1, by simp⟩
      · obtain ⟨i, hi⟩ := ih x h; exact ⟨i, by simp [hi]⟩

theorem exactRun_same [NeZero n] (src : Nat → Source) (c : Source) (q : Nat) (ops : List (Fin n × Ev))
    (h : ∀ op ∈ ops, src op.2.id = c) :
    exactRunFrom src (ExactTime.construct n q) ops = ExactTime.run (ExactTime.construct n q) ops := by
  induction ops using snoc_induction with
  | h0 => rfl
  | hs ops op ih =>
    have ih := ih (fun o ho => h o (by simp [ho]))
    obtain ⟨s1, g1, g2⟩ := exactRun_inv src ops (ExactTime.construct n q) (exactInv_construct src q)
    have hrun := g1
    rw [ih] at g1
    unfold ExactTime.run at g1 ⊢
    have hr := hrun
    unfold exactRunFrom at hr ⊢
    rw [runE_append, hr, runE_append, g1]
    simp only [runE]
    obtain ⟨s2, b, h1, h2, h3, h4, h5⟩ := exactAdd_spec src g2 op.1 op.2
    rw [h1]
    cases b with
    | true =>
      obtain ⟨x, hx, hne⟩ := h3.1 rfl
      obtain ⟨i, hi⟩ := waiting_run src q ops s1 hrun x hx
      exact absurd ((h (i, x) (by simp [hi])).trans (h op (by simp)).symm) hne
    | false => rw [h5 rfl]; rfl

theorem exactRun_stuck [NeZero n] (src : Nat → Source) (ops : List (Fin n × Ev)) : ∀ (s : ExactTime.State n), ExactInv src s →
    (∃ x, Waiting s x ∧ ∀ op ∈ ops, src op.2.id ≠ src x.id) → exactRunFrom src s ops = .ok s := by
  induction ops with
  | nil => intro s _ _; rfl
  | cons op ops ih =>
    intro s hs ⟨x, hx, hne⟩
    obtain ⟨s2, b, h1, h2, h3, h4, h5⟩ := exactAdd_spec src hs op.1 op.2
    have hb : b = true := h3.2 ⟨x, hx, (hne op (by simp)).symm⟩
    have hr := ih s hs ⟨x, hx, fun o ho => hne o (by simp [ho])⟩
    unfold exactRunFrom at hr ⊢
    simp only [runE]
    rw [h1, h4 hb]
    exact hr

/-- The messages of a set that is output or dropped all have the same clock type. -/
theorem exactRun_sets [NeZero n] (src : Nat → Source) (q : Nat) : ∀ (ops : List (Fin n × Ev)) (s : ExactTime.State n),
    exactRunFrom src (ExactTime.construct n q) ops = .ok s →
    ∀ t, t ∈ ExactTime.outs s.log ∨ t ∈ ExactTime.drops s.log →
      ∀ i j x y, t i = some x → t j = some y → src x.id = src y.id := by
  unfold exactRunFrom
  apply runE_induction
  · intro t ht; simp [ExactTime.construct, ExactTime.outs, ExactTime.drops] at ht
  · intro ops s op s' hrun ih hstep
    obtain ⟨s1, g1, g2⟩ := exactRun_inv src ops (ExactTime.construct n q) (exactInv_construct src q)
    unfold exactRunFrom at g1
    rw [hrun] at g1; cases g1
    obtain ⟨s2, b, h1, h2, h3, h4, h5⟩ := exactAdd_spec src g2 op.1 op.2
    rw [h1] at hstep
    cases hstep
    cases b with
    | true => rw [h4 rfl]; exact ih
    | false =>
      obtain ⟨a, o, b, t, sp⟩ := ExactTime.add_spec' g2.base (h5 rfl)
      obtain ⟨ma, mb, mo⟩ := sp.mem_old
      obtain ⟨l1, l2, _⟩ := sp.log_outs
      have hclk : ∀ x, Waiting s x → src x.id = src op.2.id := by
        intro x hx
        apply Classical.byContradiction
        intro hne
        exact absurd (h3.2 ⟨x, hx, hne⟩) (by simp)
      have ht : ∀ j x, t j = some x → src x.id = src op.2.id := by
        intro j x hx
        rw [sp.tuple] at hx
        by_cases hj : j = op.1
        · subst hj; rw [upd_same] at hx; cases hx; rfl
        · rw [upd_ne _ _ hj] at hx
          cases ho : o with
          | none => rw [ho] at hx; simp [ExactTime.emptyTuple] at hx
          | some t0 => rw [ho] at hx; exact hclk x ⟨_, mo t0 ho, j, hx⟩
      have hp : ∀ p ∈ a ++ (op.2.stamp, t) :: b, ∀ j x, p.2 j = some x → src x.id = src op.2.id := by
        intro p hp j x hx
        rw [List.mem_append, List.mem_cons] at hp
        rcases hp with h | h | h
        · exact hclk x ⟨p, ma p h, j, hx⟩
        · subst h; exact ht j x hx
        · exact hclk x ⟨p, mb p h, j, hx⟩
      have old : ∀ t', t' ∈ ExactTime.outs s.log ∨ t' ∈ ExactTime.drops s.log ∨
          (∃ p ∈ a ++ (op.2.stamp, t) :: b, t' = p.2) → ∀ i j x y, t' i = some x → t' j = some y → src x.id = src y.id := by
        intro t' h i j x y hx hy
        rcases h with h | h | ⟨p, hpm, h⟩
        · exact ih t' (Or.inl h) i j x y hx hy
        · exact ih t' (Or.inr h) i j x y hx hy
        · subst h; rw [hp p hpm i x hx, hp p hpm j y hy]
      intro t' ht'
      apply old
      by_cases hc : ExactTime.Complete t
      · rw [(l1 hc).1, (l1 hc).2] at ht'
        simp only [List.mem_append, List.mem_singleton, List.mem_map] at ht'
        rcases ht' with (h | h) | (h | ⟨p, h, h'⟩)
        · exact Or.inl h
        · exact Or.inr (Or.inr ⟨(op.2.stamp, t), by simp, h⟩)
        · exact Or.inr (Or.inl h)
        · exact Or.inr (Or.inr ⟨p, by simp [h], h'.symm⟩)
      · rw [(l2 hc).1, (l2 hc).2] at ht'
        simp only [List.mem_append, List.mem_map] at ht'
        rcases ht' with h | (h | ⟨p, h, h'⟩)
        · exact Or.inl h
        · exact Or.inr (Or.inl h)
        · exact Or.inr (Or.inr ⟨p, List.mem_of_mem_take h, h'.symm⟩)

/-! ### ApproximateEpsilonTime -/

theorem older_fold_same (src : Nat → Source) (v : Fin n → List Ev) (hv : ∀ i, ∀ e, (v i).head? = some e → src e.id = .ros) :
    ∀ (l : List (Fin n)) (c : Int × Option (Fin n)),
      l.foldlM (olderBetween src v) (c, Source.ros) = some (l.foldl (Epsilon.olderBetween v) c, Source.ros) := by
  intro l
  induction l with
  | nil => intro c; rfl
  | cons i l ih =>
    intro c
    rw [List.foldlM_cons, List.foldl_cons]
    have : olderBetween src v (c, Source.ros) i = some (Epsilon.olderBetween v c i, Source.ros) := by
      unfold olderBetween Epsilon.olderBetween
      cases h : v i with
      | nil => rfl
      | cons e tl =>
        have := hv i e (by rw [h]; rfl)
        simp only [this, ne_eq, not_true, if_false]
        split <;> rfl
    rw [this]
    exact ih _

theorem getOlder_same (src : Nat → Source) (v : Fin n → List Ev) (hv : ∀ i, ∀ e, (v i).head? = some e → src e.id = .ros) :
    getOlder src v = some (Epsilon.getOlder v, Source.ros) :=
  older_fold_same src v hv _ _

theorem older_fold_foreign (src : Nat → Source) (v : Fin n → List Ev) (i : Fin n) (e : Ev) (hi : (v i).head? = some e)
    (he : src e.id ≠ .ros) : ∀ (l : List (Fin n)) (c : Int × Option (Fin n)), i ∈ l →
      l.foldlM (olderBetween src v) (c, Source.ros) = none := by
  intro l
  induction l with
  | nil => intro c h; cases h
  | cons j l ih =>
    intro c h
    rw [List.foldlM_cons]
    by_cases hj : ∃ x, (v j).head? = some x ∧ src x.id ≠ .ros
    · obtain ⟨x, hx, hne⟩ := hj
      have : olderBetween src v (c, Source.ros) j = none := by
        unfold olderBetween
        cases hv : v j with
        | nil => rw [hv] at hx; cases hx
        | cons y tl =>
          rw [hv] at hx; cases hx
          simp only
          rw [if_pos (Ne.symm hne)]
      rw [this]; rfl
    · have hil : i ∈ l := by
        rcases List.mem_cons.1 h with h | h
        · subst h; exact absurd ⟨e, hi, he⟩ hj
        · exact h
      have : ∃ c', olderBetween src v (c, Source.ros) j = some (c', Source.ros) := by
        unfold olderBetween
        cases hv : v j with
        | nil => exact ⟨c, rfl⟩
        | cons y tl =>
          have hy : src y.id = .ros := by
            apply Classical.byContradiction
            intro hne; exact hj ⟨y, by rw [hv]; rfl, hne⟩
          simp only [hy, ne_eq, not_true, if_false]
          split
          · exact ⟨_, rfl⟩
          · exact ⟨_, rfl⟩
      obtain ⟨c', hc'⟩ := this
      rw [hc']
      exact ih c' hil

theorem getOlder_foreign (src : Nat → Source) (v : Fin n → List Ev) (i : Fin n) (e : Ev) (hi : (v i).head? = some e)
    (he : src e.id ≠ .ros) : getOlder src v = none :=
  older_fold_foreign src v i e hi he _ _ (List.mem_finRange i)

/-- Every input has a message and the oldest of some input is not of type `ros`. -/
def EpsilonDead (src : Nat → Source) (s : Epsilon.State n) : Prop :=
  (∀ i, s.events i ≠ []) ∧ ∃ i e, (s.events i).head? = some e ∧ src e.id ≠ .ros

/-- The messages of the output sets are of type `ros`. -/
def OutRos (src : Nat → Source) (out : List (Fin n → Option Ev)) : Prop := ∀ t ∈ out, ∀ i x, t i = some x → src x.id = .ros

open Epsilon (nonEmpty nonEmpty_eq_iff nonEmpty_upd) in
/-- One iteration, for arbitrary clock types: it throws, or it is an iteration of `Epsilon.process`. -/
theorem epsilonProcess_spec (src : Nat → Source) (fuel : Nat) : ∀ (s : Epsilon.State n), s.num = nonEmpty s.events →
    (∀ f, epsilonProcess src fuel s = .error f → Epsilon.process fuel s = .error f) ∧
    ∀ s' b, epsilonProcess src fuel s = .ok (s', b) →
      s'.num = nonEmpty s'.events ∧ (OutRos src s.out → OutRos src s'.out) ∧ (∃ o, s'.out = s.out ++ o) ∧
      (∀ i, ∃ p, s.events i = p ++ s'.events i) ∧ s'.queueSize = s.queueSize ∧ s'.epsilon = s.epsilon ∧
      (b = true → EpsilonDead src s') ∧ (b = false → (∃ i, s'.events i = []) ∧ Epsilon.process fuel s = .ok s') := by
  have hempty : ∀ s : Epsilon.State n, s.num = nonEmpty s.events → ¬ s.num = n → ∃ i, s.events i = [] := by
    intro s hn hf
    apply Classical.byContradiction
    intro hno
    apply hf
    rw [hn]
    exact_mod_cast (nonEmpty_eq_iff s.events).2 (fun i hi => hno ⟨i, hi⟩)
  induction fuel with
  | zero =>
    intro s hn
    unfold epsilonProcess Epsilon.process
    by_cases hf : s.num = n
    · simp only [if_pos hf]
      exact ⟨(fun f h => by cases h; rfl), (fun s' b h => by cases h)⟩
    · rw [if_neg hf]
      refine ⟨(fun f h => by cases h), ?_⟩
      intro s' b h
      cases h
      exact ⟨hn, id, ⟨[], by simp⟩, fun i => ⟨[], rfl⟩, rfl, rfl, (fun h => by cases h), fun _ => ⟨hempty s hn hf, by rw [if_neg hf]⟩⟩
  | succ fuel ih =>
    intro s hn
    unfold epsilonProcess
    by_cases hf : s.num = n
    · rw [if_pos hf]
      have hall : ∀ i, s.events i ≠ [] := by
        apply (nonEmpty_eq_iff s.events).1
        rw [hn] at hf; exact_mod_cast hf
      by_cases hd : ∃ i e, (s.events i).head? = some e ∧ src e.id ≠ .ros
      · obtain ⟨i, e, h1, h2⟩ := hd
        rw [getOlder_foreign src s.events i e h1 h2]
        refine ⟨(fun f h => by cases h), ?_⟩
        intro s' b h
        cases h
        exact ⟨hn, id, ⟨[], by simp⟩, fun i => ⟨[], rfl⟩, rfl, rfl, fun _ => ⟨hall, i, e, h1, h2⟩, (fun h => by cases h)⟩
      · have hros : ∀ i, ∀ e, (s.events i).head? = some e → src e.id = .ros := by
          intro i e h
          apply Classical.byContradiction
          intro hne; exact hd ⟨i, e, h, hne⟩
        rw [getOlder_same src s.events hros]
        simp only
        by_cases hc : Epsilon.checkAll s.events s.epsilon (Epsilon.getOlder s.events) = true
        · rw [if_pos hc, Epsilon.signal_ok s hall]
          simp only
          have hspec := Epsilon.eraseFronts_spec { s with out := s.out ++ [fun i => (s.events i).head?] }
          have hpr : Epsilon.process (fuel + 1) s =
              Epsilon.process fuel (Epsilon.eraseFronts { s with out := s.out ++ [fun i => (s.events i).head?] }) := by
            simp only [Epsilon.process]
            rw [if_pos hf, if_pos hc, Epsilon.signal_ok s hall]
          rw [hpr]
          obtain ⟨h1, h2, h3, h4, h5⟩ := hspec
          obtain ⟨g1, g2⟩ := ih _ (h4 hn)
          refine ⟨g1, ?_⟩
          intro s' b h
          obtain ⟨k1, k2, ⟨o, k3⟩, k4, k5, k6, k7, k8⟩ := g2 s' b h
          refine ⟨k1, ?_, ⟨[fun i => (s.events i).head?] ++ o, by rw [k3, h3, List.append_assoc]⟩, ?_, by rw [k5, h1],
            by rw [k6, h2], k7, k8⟩
          · intro ho
            apply k2
            rw [h3]
            intro t ht i x hx
            rw [List.mem_append, List.mem_singleton] at ht
            rcases ht with ht | ht
            · exact ho t ht i x hx
            · subst ht; exact hros i x hx
          · intro i
            obtain ⟨p, hp⟩ := k4 i
            rw [h5 i] at hp
            exact ⟨(s.events i).take 1 ++ p, by
              rw [List.append_assoc, ← hp]
              show s.events i = (s.events i).take 1 ++ (s.events i).tail
              cases s.events i <;> rfl⟩
        · rw [if_neg hc]
          have hspec := Epsilon.eraseOld_spec (Epsilon.getOlder s.events).1 s
          have hpr : Epsilon.process (fuel + 1) s =
              Epsilon.process fuel (Epsilon.eraseOld (Epsilon.getOlder s.events).1 s) := by
            simp only [Epsilon.process]
            rw [if_pos hf, if_neg hc]
          rw [hpr]
          obtain ⟨h1, h2, h3, h4, h5⟩ := hspec
          obtain ⟨g1, g2⟩ := ih _ (h4 hn)
          refine ⟨g1, ?_⟩
          intro s' b h
          obtain ⟨k1, k2, ⟨o, k3⟩, k4, k5, k6, k7, k8⟩ := g2 s' b h
          refine ⟨k1, ?_, ⟨o, by rw [k3, h3]⟩, ?_, by rw [k5, h1], by rw [k6, h2], k7, k8⟩
          · intro ho
            apply k2
            rw [h3]; exact ho
          · intro i
            obtain ⟨p, hp⟩ := k4 i
            rw [h5 i] at hp
            split at hp
            · exact ⟨(s.events i).take 1 ++ p, by
                rw [List.append_assoc, ← hp]
                cases s.events i <;> rfl⟩
            · exact ⟨p, hp⟩
    · rw [if_neg hf]
      refine ⟨(fun f h => by cases h), ?_⟩
      intro s' b h
      cases h
      refine ⟨hn, id, ⟨[], by simp⟩, fun i => ⟨[], rfl⟩, rfl, rfl, (fun h => by cases h), fun _ => ⟨hempty s hn hf, ?_⟩⟩
      simp only [Epsilon.process]
      rw [if_neg hf]

open Epsilon (nonEmpty nonEmpty_eq_iff nonEmpty_upd) in
/-- `add`, for arbitrary clock types. -/
theorem epsilonAdd_spec (src : Nat → Source) (fuel : Nat) (s : Epsilon.State n) (i : Fin n) (e : Ev)
    (hn : s.num = nonEmpty s.events) :
    (∀ f, epsilonAdd src fuel s i e = .error f → Epsilon.add fuel s i e = .error f ∧ f = .hang) ∧
    ∀ s' b, epsilonAdd src fuel s i e = .ok (s', b) →
      s'.num = nonEmpty s'.events ∧ (OutRos src s.out → OutRos src s'.out) ∧ (∃ o, s'.out = s.out ++ o) ∧
      (∀ j, ∃ p, upd s.events i (s.events i ++ [e]) j = p ++ s'.events j) ∧ s'.queueSize = s.queueSize ∧
      s'.epsilon = s.epsilon ∧ (b = true → EpsilonDead src s') ∧
      (b = false → (∃ j, s'.events j = []) ∧ Epsilon.add fuel s i e = .ok s') := by
  have hnum : (if (s.events i).length = 0 then s.num + 1 else s.num) =
      (nonEmpty (upd s.events i (s.events i ++ [e])) : Int) := by
    rw [nonEmpty_upd, ← hn]
    cases s.events i <;> simp
  unfold epsilonAdd Epsilon.add
  dsimp only
  rw [hnum]
  by_cases hf : (nonEmpty (upd s.events i (s.events i ++ [e])) : Int) = n
  · simp only [if_pos hf]
    have hs := epsilonProcess_spec src fuel
      (Epsilon.State.mk s.queueSize s.epsilon (nonEmpty (upd s.events i (s.events i ++ [e])) : Int)
        (upd s.events i (s.events i ++ [e])) s.out) rfl
    refine ⟨fun f h => ⟨hs.1 f h, Epsilon.process_fault fuel _ f rfl (hs.1 f h)⟩, hs.2⟩
  · simp only [if_neg hf]
    have hex : ∃ j, upd s.events i (s.events i ++ [e]) j = [] := by
      apply Classical.byContradiction
      intro hno
      apply hf
      exact_mod_cast (nonEmpty_eq_iff _).2 (fun i hi => hno ⟨i, hi⟩)
    split
    · refine ⟨(fun f h => by cases h), ?_⟩
      intro s' b h
      cases h
      obtain ⟨h1, h2, h3, h4, h5⟩ := Epsilon.eraseFront_spec
        (Epsilon.State.mk s.queueSize s.epsilon (nonEmpty (upd s.events i (s.events i ++ [e])) : Int)
          (upd s.events i (s.events i ++ [e])) s.out) i
      dsimp only at h1 h2 h3 h4 h5
      refine ⟨h5 rfl, fun h => by rw [h3]; exact h, ⟨[], by rw [h3]; simp⟩, ?_, h1, h2, (fun h => by cases h), fun _ => ⟨?_, rfl⟩⟩
      · intro j
        rw [h4]
        by_cases hj : j = i
        · subst hj
          refine ⟨(upd s.events j (s.events j ++ [e]) j).take 1, ?_⟩
          rw [upd_same, upd_same]
          cases s.events j <;> simp
        · exact ⟨[], by simp [upd_ne _ _ hj]⟩
      · obtain ⟨j, hj⟩ := hex
        refine ⟨j, ?_⟩
        rw [h4]
        by_cases hji : j = i
        · subst hji; rw [upd_same] at hj; simp at hj
        · rw [upd_ne _ _ hji]; exact hj
    · refine ⟨(fun f h => by cases h), ?_⟩
      intro s' b h
      cases h
      exact ⟨rfl, id, ⟨[], by simp⟩, fun j => ⟨[], rfl⟩, rfl, rfl, (fun h => by cases h), fun _ => ⟨hex, rfl⟩⟩

open Epsilon (nonEmpty nonEmpty_eq_iff nonEmpty_upd) in
/-- Every history: counter, outputs of type `ros`, buffers made of messages of the history. -/
theorem epsilonRun_inv (src : Nat → Source) (fuel q : Nat) (eps : Int) : ∀ (ops : List (Fin n × Ev)) (s : Epsilon.State n),
    epsilonRunFrom src fuel (Epsilon.construct n q eps) ops = .ok s →
    s.num = nonEmpty s.events ∧ OutRos src s.out ∧ s.queueSize = q ∧ s.epsilon = eps ∧
      ∀ i, ∃ c, stream ops i = c ++ s.events i := by
  unfold epsilonRunFrom
  apply runE_induction
  · refine ⟨?_, (fun t ht => by simp [Epsilon.construct] at ht), rfl, rfl, fun i => ⟨[], by simp [stream, Epsilon.construct]⟩⟩
    have : nonEmpty (Epsilon.construct n q eps).events = 0 := by
      unfold nonEmpty
      rw [List.countP_eq_zero]
      intro i _; simp [Epsilon.construct]
    rw [this]; rfl
  · intro ops s op s' _ ⟨h1, h2, hq, he, h3⟩ hstep
    cases hadd : epsilonAdd src fuel s op.1 op.2 with
    | error f => rw [hadd] at hstep; cases hstep
    | ok r =>
      rw [hadd] at hstep
      cases hstep
      obtain ⟨g1, g2, _, g4, g5, g6, _⟩ := (epsilonAdd_spec src fuel s op.1 op.2 h1).2 r.1 r.2 hadd
      refine ⟨g1, g2 h2, by rw [g5, hq], by rw [g6, he], ?_⟩
      intro j
      obtain ⟨c, hc⟩ := h3 j
      obtain ⟨p, hp⟩ := g4 j
      by_cases hj : j = op.1
      · subst hj
        rw [upd_same] at hp
        refine ⟨c ++ p, ?_⟩
        rw [show op = (op.1, op.2) from rfl, stream_snoc_same, hc, List.append_assoc, hp, List.append_assoc]
      · rw [upd_ne _ _ hj] at hp
        refine ⟨c ++ p, ?_⟩
        rw [show op = (op.1, op.2) from rfl, stream_snoc_ne _ _ (Ne.symm hj), hc, hp, List.append_assoc]

theorem epsilonRun_same (src : Nat → Source) (fuel q : Nat) (eps : Int) (ops : List (Fin n × Ev))
    (h : ∀ op ∈ ops, src op.2.id = .ros) :
    epsilonRunFrom src fuel (Epsilon.construct n q eps) ops = Epsilon.run fuel (Epsilon.construct n q eps) ops := by
  induction ops using snoc_induction with
  | h0 => rfl
  | hs ops op ih =>
    have ih := ih (fun o ho => h o (by simp [ho]))
    cases hr : epsilonRunFrom src fuel (Epsilon.construct n q eps) ops with
    | error f =>
      have hr' := hr
      rw [ih] at hr
      unfold epsilonRunFrom at hr' ⊢
      unfold Epsilon.run at hr ⊢
      rw [runE_append, runE_append, hr, hr']
    | ok s =>
      obtain ⟨h1, h2, _, _, h3⟩ := epsilonRun_inv src fuel q eps ops s hr
      have hr' := hr
      rw [ih] at hr
      unfold epsilonRunFrom at hr' ⊢
      unfold Epsilon.run at hr ⊢
      rw [runE_append, runE_append, hr, hr']
      simp only [runE]
      obtain ⟨g1, g2⟩ := epsilonAdd_spec src fuel s op.1 op.2 h1
      cases hadd : epsilonAdd src fuel s op.1 op.2 with
      | error f => rw [(g1 f hadd).1]; rfl
      | ok r =>
        obtain ⟨s', b⟩ := r
        obtain ⟨k1, _, _, k4, _, _, k7, k8⟩ := g2 s' b hadd
        cases b with
        | false => rw [(k8 rfl).2]; rfl
        | true =>
          obtain ⟨_, i, x, hx, hne⟩ := k7 rfl
          exfalso
          apply hne
          have hmem : x ∈ s'.events i := by
            cases hv : s'.events i with
            | nil => rw [hv] at hx; cases hx
            | cons y tl => rw [hv] at hx; cases hx; simp
          obtain ⟨p, hp⟩ := k4 i
          have hm2 : x ∈ upd s.events op.1 (s.events op.1 ++ [op.2]) i := by rw [hp]; simp [hmem]
          have hold : ∀ j, ∀ y ∈ s.events j, src y.id = .ros := by
            intro j y hy
            obtain ⟨c, hc⟩ := h3 j
            have : y ∈ stream ops j := by rw [hc]; simp [hy]
            exact h (j, y) (by simp [mem_stream.1 this])
          by_cases hi : i = op.1
          · rw [hi, upd_same, List.mem_append, List.mem_singleton] at hm2
            rcases hm2 with hm2 | hm2
            · exact hold _ x hm2
            · rw [hm2]; exact h op (by simp)
          · rw [upd_ne _ _ hi] at hm2; exact hold i x hm2

open Epsilon (nonEmpty nonEmpty_eq_iff nonEmpty_upd) in
/-- Once every input has a message and the oldest of some input is not of type `ros`, every call throws, nothing is output and every
message is kept. -/
theorem epsilonAdd_dead (src : Nat → Source) (fuel : Nat) (hfuel : 0 < fuel) (s : Epsilon.State n)
    (hn : s.num = nonEmpty s.events) (hd : EpsilonDead src s) (i : Fin n) (e : Ev) :
    ∃ s', epsilonAdd src fuel s i e = .ok (s', true) ∧ s'.num = nonEmpty s'.events ∧ EpsilonDead src s' ∧ s'.out = s.out ∧
      s'.events = upd s.events i (s.events i ++ [e]) := by
  obtain ⟨hall, k, x, hx, hne⟩ := hd
  have hlen : (s.events i).length ≠ 0 := by
    intro h; exact hall i (List.eq_nil_of_length_eq_zero h)
  have hfull : s.num = n := by rw [hn]; exact_mod_cast (nonEmpty_eq_iff s.events).2 hall
  have hx' : (upd s.events i (s.events i ++ [e]) k).head? = some x := by
    by_cases hk : k = i
    · subst hk
      rw [upd_same]
      cases hv : s.events k with
      | nil => exact absurd hv (hall k)
      | cons y tl => rw [hv] at hx; simpa using hx
    · rw [upd_ne _ _ hk]; exact hx
  have hall' : ∀ j, upd s.events i (s.events i ++ [e]) j ≠ [] := by
    intro j
    by_cases hj : j = i
    · subst hj; rw [upd_same]; simp
    · rw [upd_ne _ _ hj]; exact hall j
  refine ⟨{ s with events := upd s.events i (s.events i ++ [e]) }, ?_, ?_, ⟨hall', k, x, hx', hne⟩, rfl, rfl⟩
  · unfold epsilonAdd
    dsimp only
    rw [if_neg hlen, if_pos hfull]
    cases fuel with
    | zero => omega
    | succ fuel =>
      unfold epsilonProcess
      dsimp only
      rw [if_pos hfull, getOlder_foreign src _ k x hx' hne]
  · dsimp only
    rw [hfull]
    exact_mod_cast ((nonEmpty_eq_iff _).2 hall').symm

open Epsilon (nonEmpty nonEmpty_eq_iff nonEmpty_upd) in
theorem epsilonRun_dead (src : Nat → Source) (fuel : Nat) (hfuel : 0 < fuel) (ops : List (Fin n × Ev)) :
    ∀ (s : Epsilon.State n), s.num = nonEmpty s.events → EpsilonDead src s →
    ∃ s', epsilonRunFrom src fuel s ops = .ok s' ∧ s'.out = s.out ∧ ∀ i, s'.events i = s.events i ++ stream ops i := by
  unfold epsilonRunFrom
  induction ops with
  | nil => intro s _ _; exact ⟨s, rfl, rfl, fun i => by simp [stream]⟩
  | cons op ops ih =>
    intro s hn hd
    obtain ⟨s1, h1, h2, h3, h4, h5⟩ := epsilonAdd_dead src fuel hfuel s hn hd op.1 op.2
    obtain ⟨s', g1, g2, g3⟩ := ih s1 h2 h3
    refine ⟨s', by simp only [runE]; rw [h1]; exact g1, by rw [g2, h4], ?_⟩
    intro i
    rw [g3 i, h5, show op :: ops = [op] ++ ops from rfl, stream_append]
    by_cases hi : i = op.1
    · rw [hi, upd_same]
      have := stream_snoc_same [] op.1 op.2
      simp only [List.nil_append, stream_nil] at this
      rw [show [op] = [(op.1, op.2)] from rfl, this, List.append_assoc]
    · rw [upd_ne _ _ hi]
      have := stream_snoc_ne [] op.2 (Ne.symm hi)
      simp only [List.nil_append, stream_nil] at this
      rw [show [op] = [(op.1, op.2)] from rfl, this]; rfl

open Epsilon (nonEmpty nonEmpty_eq_iff nonEmpty_upd) in
/-- If no message of some input is of type `ros`, nothing is output; a call throws exactly if every input has a message then. -/
theorem epsilonAdd_fixed (src : Nat → Source) (fuel : Nat) (hfuel : 0 < fuel) (k : Fin n) (s : Epsilon.State n)
    (hn : s.num = nonEmpty s.events) (hk : ∀ x ∈ s.events k, src x.id ≠ .ros) (i : Fin n) (e : Ev)
    (he : i = k → src e.id ≠ .ros) :
    ∃ s' b, epsilonAdd src fuel s i e = .ok (s', b) ∧ s'.num = nonEmpty s'.events ∧ (∀ x ∈ s'.events k, src x.id ≠ .ros) ∧
      s'.out = s.out ∧ (b = true ↔ ∀ j, j ≠ i → s.events j ≠ []) := by
  have hnum : (if (s.events i).length = 0 then s.num + 1 else s.num) =
      (nonEmpty (upd s.events i (s.events i ++ [e])) : Int) := by
    rw [nonEmpty_upd, ← hn]
    cases s.events i <;> simp
  have hk' : ∀ x ∈ upd s.events i (s.events i ++ [e]) k, src x.id ≠ .ros := by
    intro x hx
    by_cases hki : k = i
    · subst hki
      rw [upd_same, List.mem_append, List.mem_singleton] at hx
      rcases hx with hx | hx
      · exact hk x hx
      · rw [hx]; exact he rfl
    · rw [upd_ne _ _ hki] at hx; exact hk x hx
  have hcond : (∀ j, upd s.events i (s.events i ++ [e]) j ≠ []) ↔ ∀ j, j ≠ i → s.events j ≠ [] := by
    constructor
    · intro h j hj; have := h j; rwa [upd_ne _ _ hj] at this
    · intro h j
      by_cases hj : j = i
      · subst hj; rw [upd_same]; simp
      · rw [upd_ne _ _ hj]; exact h j hj
  unfold epsilonAdd
  dsimp only
  rw [hnum]
  by_cases hf : (nonEmpty (upd s.events i (s.events i ++ [e])) : Int) = n
  · rw [if_pos hf]
    have hall : ∀ j, upd s.events i (s.events i ++ [e]) j ≠ [] := (nonEmpty_eq_iff _).1 (by exact_mod_cast hf)
    obtain ⟨x, tl, hx⟩ := List.exists_cons_of_ne_nil (hall k)
    cases fuel with
    | zero => omega
    | succ fuel =>
      unfold epsilonProcess
      dsimp only
      rw [if_pos hf, getOlder_foreign src _ k x (by rw [hx]; rfl) (hk' x (by rw [hx]; simp))]
      exact ⟨_, true, rfl, rfl, hk', rfl, ⟨fun _ => hcond.1 hall, fun _ => rfl⟩⟩
  · rw [if_neg hf]
    have hno : ¬ ∀ j, j ≠ i → s.events j ≠ [] := by
      intro h
      exact hf (by exact_mod_cast (nonEmpty_eq_iff _).2 (hcond.2 h))
    split
    · obtain ⟨h1, h2, h3, h4, h5⟩ := Epsilon.eraseFront_spec
        (Epsilon.State.mk s.queueSize s.epsilon (nonEmpty (upd s.events i (s.events i ++ [e])) : Int)
          (upd s.events i (s.events i ++ [e])) s.out) i
      dsimp only at h1 h2 h3 h4 h5
      refine ⟨_, false, rfl, h5 rfl, ?_, h3, ⟨(fun h => by cases h), fun h => absurd h hno⟩⟩
      intro x hx
      rw [h4] at hx
      by_cases hki : k = i
      · subst hki
        rw [upd_same] at hx
        exact hk' x (List.mem_of_mem_tail hx)
      · rw [upd_ne _ _ hki] at hx; exact hk' x hx
    · exact ⟨_, false, rfl, rfl, hk', rfl, ⟨(fun h => by cases h), fun h => absurd h hno⟩⟩

open Epsilon (nonEmpty nonEmpty_eq_iff nonEmpty_upd) in
theorem epsilonRun_fixed (src : Nat → Source) (fuel : Nat) (hfuel : 0 < fuel) (q : Nat) (eps : Int) (k : Fin n)
    (ops : List (Fin n × Ev)) (h : ∀ op ∈ ops, op.1 = k → src op.2.id ≠ .ros) :
    ∃ s, epsilonRunFrom src fuel (Epsilon.construct n q eps) ops = .ok s ∧ s.out = [] := by
  have key : ∃ s, epsilonRunFrom src fuel (Epsilon.construct n q eps) ops = .ok s ∧ s.num = nonEmpty s.events ∧
      (∀ x ∈ s.events k, src x.id ≠ .ros) ∧ s.out = [] := by
    induction ops using snoc_induction with
    | h0 =>
      obtain ⟨h1, _⟩ := epsilonRun_inv src fuel q eps [] (Epsilon.construct n q eps) rfl
      exact ⟨_, rfl, h1, (fun x hx => by simp [Epsilon.construct] at hx), rfl⟩
    | hs ops op ih =>
      obtain ⟨s, h1, h2, h3, h4⟩ := ih (fun o ho => h o (by simp [ho]))
      obtain ⟨s', b, g1, g2, g3, g4, _⟩ := epsilonAdd_fixed src fuel hfuel k s h2 h3 op.1 op.2 (h op (by simp))
      refine ⟨s', ?_, g2, g3, by rw [g4, h4]⟩
      unfold epsilonRunFrom at h1 ⊢
      rw [runE_append, h1]
      simp only [runE]
      rw [g1]; rfl
  obtain ⟨s, h1, _, _, h4⟩ := key
  exact ⟨s, h1, h4⟩

end MF.ClockMix
