import Verif.Proofs.Approx2
/-
Helper lemmas about the ApproximateTime model, part 3: one iteration of `process`.
-/
namespace MF.Approx
open MF.Epsilon (nonEmpty nonEmpty_eq_iff nonEmpty_upd nonEmpty_le total)

variable {n : Nat}

/-- Lines 517-523. -/
def cleared (s : State n) (e : Fin n) : State n :=
  { s with hasDropped := fun i => if i ≠ e then false else s.hasDropped i }

/-- The state after the first candidate was made (lines 539-544). -/
def fresh (s : State n) (m e : Fin n) : State n :=
  moved { candidated (cleared s e) with candStart := st s.deques m, candEnd := st s.deques e, pivot := some e,
                                        pivotTime := st s.deques e } m

/-- The state after a worse candidate was passed over (line 553). -/
def kept (s : State n) (m e : Fin n) : State n := moved (cleared s e) m

/-- The state after a better candidate replaced the previous one (lines 556-559). -/
def better (s : State n) (m e : Fin n) : State n :=
  moved { candidated (cleared s e) with candStart := st s.deques m, candEnd := st s.deques e } m

/-- What lines 524-562 do when they do not delete a message. -/
inductive Examined (s : State n) (m e : Fin n) (p : Fin n) (s1 : State n) : Prop where
  | fresh (h1 : s.pivot = none) (h2 : st s.deques e - st s.deques m ≤ s.cfg.maxInterval) (h3 : s.hasDropped e = false)
      (hp : p = e) (hs : s1 = fresh s m e)
  | kept (h1 : s.pivot = some p) (h2 : s.cfg.scale (st s.deques e - s.candEnd) ≥ st s.deques m - s.candStart)
      (hs : s1 = kept s m e)
  | better (h1 : s.pivot = some p) (h2 : s.cfg.scale (st s.deques e - s.candEnd) < st s.deques m - s.candStart)
      (hs : s1 = better s m e)

theorem head?_of_ne {d : Fin n → List Ev} {i : Fin n} (h : d i ≠ []) :
    (d i).head? = some ((d i).headD default) := by
  cases hd : d i with
  | nil => exact absurd hd h
  | cons e tl => rfl

theorem eq_cons_of_ne {d : Fin n → List Ev} {i : Fin n} (h : d i ≠ []) :
    d i = (d i).headD default :: (d i).tail := by
  cases hd : d i with
  | nil => exact absurd hd h
  | cons e tl => rfl

/-- Facts about the state after the examination. -/
structure After (s : State n) (m p : Fin n) (s1 : State n) : Prop where
  num : s1.num = nonEmpty s1.deques
  deques : s1.deques = upd s.deques m (s.deques m).tail
  past : p ≠ m → s1.past p = []
  cfg : s1.cfg = s.cfg
  out : s1.out = s.out
  warned : s1.warned = s.warned
  viewLen : ∀ i, (view s1 i).length ≤ (view s i).length
  candInv : ∃ c, CandInv s1 p c

theorem examined_after {s s1 : State n} {m e p : Fin n} (h : LoopInv s) (hne : ∀ i, s.deques i ≠ [])
    (hm : IsStart s.deques m) (he : IsEnd s.deques e) (hx : Examined s m e p s1) : After s m p s1 := by
  have hfront : ∀ (t : State n), t.deques = s.deques → (∀ i, t.past i = []) →
      ∀ i, ∃ tl, view t i = (s.deques i).headD default :: tl := by
    intro t h1 h2 i
    refine ⟨(s.deques i).tail, ?_⟩
    unfold view
    rw [h2, h1, List.nil_append]
    exact eq_cons_of_ne (hne i)
  cases hx with
  | fresh h1 h2 h3 hp hs =>
    subst hs; subst hp
    refine ⟨rfl, rfl, ?_, rfl, rfl, rfl, ?_, fun i => (s.deques i).headD default, ?_⟩
    · intro hpm; simp [fresh, moved, candidated, upd_ne _ _ hpm]
    · intro i; unfold fresh; rw [view_moved]; simp [view, candidated, cleared]
    · apply moved_candInv
      refine ⟨rfl, fun i => head?_of_ne (hne i), hfront _ rfl (fun _ => rfl), rfl, hm.1, he.1, ⟨m, rfl⟩, ⟨p, rfl⟩, ?_⟩
      intro i
      simp only [candidated, cleared]
      by_cases hi : i = p
      · subst hi; simp [h3]
      · simp [hi]
  | kept h1 h2 hs =>
    subst hs
    obtain ⟨c, hc, hpast⟩ := h.pivoted p h1
    refine ⟨rfl, rfl, ?_, rfl, rfl, rfl, ?_, c, ?_⟩
    · intro hpm; simp only [kept, moved]; rw [upd_ne _ _ hpm]; exact hpast
    · intro i; unfold kept; rw [view_moved]; exact Nat.le_refl _
    · apply moved_candInv
      refine ⟨hc.pivot, hc.cand, hc.head, hc.pivotTime, hc.lo, hc.hi, hc.loEx, hc.hiEx, ?_⟩
      intro i
      simp [cleared, hc.noDrop i]
  | better h1 h2 hs =>
    subst hs
    obtain ⟨c, hc, hpast⟩ := h.pivoted p h1
    refine ⟨rfl, rfl, ?_, rfl, rfl, rfl, ?_, fun i => (s.deques i).headD default, ?_⟩
    · intro hpm; simp [better, moved, candidated, upd_ne _ _ hpm]
    · intro i; unfold better; rw [view_moved]; simp [view, candidated, cleared]
    · apply moved_candInv
      refine ⟨hc.pivot, fun i => head?_of_ne (hne i), hfront _ rfl (fun _ => rfl), ?_, hm.1, he.1, ⟨m, rfl⟩, ⟨e, rfl⟩, ?_⟩
      · obtain ⟨tl, h3⟩ := hc.head p
        unfold view at h3; rw [hpast, List.nil_append] at h3
        simp only [h3, List.headD_cons, candidated, cleared]
        exact hc.pivotTime
      · intro i
        simp [cleared, candidated, hc.noDrop i]

/-- One iteration, with all deques non-empty. -/
theorem iteration_spec [NeZero n] (fuel : Nat) {s : State n} (h : LoopInv s) (hne : ∀ i, s.deques i ≠ []) :
    ∃ m e, IsStart s.deques m ∧ IsEnd s.deques e ∧
    ((s.pivot = none ∧ (st s.deques e - st s.deques m > s.cfg.maxInterval ∨ s.hasDropped e = true) ∧
        iteration fuel s = .ok (deleted (cleared s e) m)) ∨
     ∃ s1 p, Examined s m e p s1 ∧ After s m p s1 ∧
      ((p = m ∧ iteration fuel s = .ok (published s1)) ∨
       (p ≠ m ∧ iteration fuel s = .ok (published s1) ∧ Unbeatable s1 p) ∨
       (p ≠ m ∧ iteration fuel s = .ok s1 ∧ (s1.num < n → Beatable s1 p) ∧
          s1.cfg.scale (st s.deques e - s1.candEnd) < s1.pivotTime - s1.candStart) ∨
       (p ≠ m ∧ iteration fuel s = .error .hang ∧ fuel ≤ total s1.deques))) := by
  have hn : 0 < n := Nat.pos_of_ne_zero (NeZero.ne n)
  obtain ⟨e, he1, he⟩ := boundary s.deques hn hne true
  obtain ⟨m, hm1, hm⟩ := boundary s.deques hn hne false
  simp only [if_true] at he
  simp only [Bool.false_eq_true, if_false] at hm
  refine ⟨m, e, hm, he, ?_⟩
  have hit : iteration fuel s = match examine (cleared s e) e (st s.deques e) m (st s.deques m) with
      | .error f => .error f
      | .ok (false, s1) => .ok s1
      | .ok (true, s1) => conclude fuel s1 (st s.deques e) m := by
    unfold iteration
    rw [he1, hm1]
    rfl
  rw [hit]
  -- the part after the examination
  have hconc : ∀ s1 p, Examined s m e p s1 →
      ∃ s1 p, Examined s m e p s1 ∧ After s m p s1 ∧
      ((p = m ∧ conclude fuel s1 (st s.deques e) m = .ok (published s1)) ∨
       (p ≠ m ∧ conclude fuel s1 (st s.deques e) m = .ok (published s1) ∧ Unbeatable s1 p) ∨
       (p ≠ m ∧ conclude fuel s1 (st s.deques e) m = .ok s1 ∧ (s1.num < n → Beatable s1 p) ∧
          s1.cfg.scale (st s.deques e - s1.candEnd) < s1.pivotTime - s1.candStart) ∨
       (p ≠ m ∧ conclude fuel s1 (st s.deques e) m = .error .hang ∧ fuel ≤ total s1.deques)) ∧
      True := by
    intro s1 p hx
    have ha := examined_after h hne hm he hx
    refine ⟨s1, p, hx, ha, ?_, trivial⟩
    obtain ⟨c, hc⟩ := ha.candInv
    have hview : ∀ i, view s1 i ≠ [] := by
      intro i; obtain ⟨tl, h⟩ := hc.head i; rw [h]; simp
    unfold conclude
    rw [if_neg (by rw [hc.pivot]; simp), publish_eq s1 hview]
    by_cases hpm : p = m
    · left
      rw [if_pos (by rw [hc.pivot, hpm])]
      exact ⟨hpm, rfl⟩
    · rw [if_neg (by rw [hc.pivot]; intro h; cases h; exact hpm rfl)]
      right
      by_cases hage : s1.cfg.scale (st s.deques e - s1.candEnd) ≥ s1.pivotTime - s1.candStart
      · rw [if_pos hage]
        left
        refine ⟨hpm, rfl, ?_⟩
        intro hmono hlow fut hap T hTp hT
        refine ⟨p, e, ?_⟩
        have hTe : st s.deques e ≤ (T e).stamp := by
          have h1 := hT e
          have h2 := (hap e).sorted (hlow e)
          unfold view at h2
          rw [ha.deques] at h1 h2
          by_cases hem : e = m
          · subst hem
            -- the front of deque e was set aside: it is the last element of the past
            have h3 : ∃ q, s1.past e = q ++ (s.deques e).take 1 := by
              cases hx with
              | fresh _ _ _ _ hs => subst hs; exact ⟨_, by simp only [fresh, moved, upd_same]; rfl⟩
              | kept _ _ hs => subst hs; exact ⟨_, by simp only [kept, moved, upd_same]; rfl⟩
              | better _ _ hs => subst hs; exact ⟨_, by simp only [better, moved, upd_same]; rfl⟩
            obtain ⟨q, h3⟩ := h3
            rw [h3, upd_same] at h2
            rw [upd_same] at h1
            rw [List.append_assoc, List.append_assoc] at h2
            have h2 := (List.pairwise_append.1 h2).2.1
            cases hd : s.deques e with
            | nil => exact absurd hd (hne e)
            | cons x tl =>
              rw [hd] at h1 h2
              simp only [List.take_succ_cons, List.take_zero, List.tail_cons, List.singleton_append] at h1 h2
              rw [st_cons hd]
              exact (List.pairwise_cons.1 h2).1 _ h1
          · rw [upd_ne _ _ hem] at h1 h2
            rw [List.append_assoc] at h2
            have h2 := (List.pairwise_append.1 h2).2.1
            exact st_mem (hne e) rfl h2 h1
        have := hmono (st s.deques e - s1.candEnd) ((T e).stamp - s1.candEnd) (by omega)
        omega
      · rw [if_neg hage]
        by_cases hnum : s1.num < n
        · rw [if_pos hnum]
          have hr0 := restored_zero s1 ha.num
          have hv := virtualSearch_spec fuel (fun _ => 0) s1 p c ha.num hc (ha.past hpm) (fun _ => Nat.zero_le _)
          rw [hr0] at hv
          rcases hv with ⟨hv, hf⟩ | ⟨hv, hB⟩ | ⟨hv, hU⟩
          · right; right; exact ⟨hpm, hv, hf⟩
          · right; left; exact ⟨hpm, hv, fun _ => hB, by omega⟩
          · left; exact ⟨hpm, hv, hU⟩
        · rw [if_neg hnum]
          right; left; exact ⟨hpm, rfl, fun h => absurd h hnum, by omega⟩
  unfold examine
  cases hpiv : s.pivot with
  | none =>
    have hpiv' : (cleared s e).pivot = none := hpiv
    rw [hpiv']
    simp only
    have hdel : dequeDeleteFront (cleared s e) m = .ok (deleted (cleared s e) m) :=
      delete_eq (cleared s e) m h.num (hne m)
    by_cases hmax : st s.deques e - st s.deques m > s.cfg.maxInterval
    · left
      refine ⟨trivial, Or.inl hmax, ?_⟩
      rw [if_pos (by exact hmax), hdel]; rfl
    · by_cases hdr : s.hasDropped e = true
      · left
        refine ⟨trivial, Or.inr hdr, ?_⟩
        rw [if_neg (by exact hmax), if_pos (by simpa [cleared] using hdr), hdel]; rfl
      · right
        rw [if_neg (by exact hmax), if_neg (by simpa [cleared] using hdr), makeCandidate_eq (cleared s e) hne]
        simp only
        rw [move_eq _ m (by exact h.num) (by exact hne m)]
        have hx : Examined s m e e (fresh s m e) := .fresh hpiv (by omega) (by simpa using hdr) rfl rfl
        obtain ⟨s1, p, a, b, c, _⟩ := hconc _ _ hx
        cases a with
        | fresh h1 h2 h3 hp hs => subst hs; exact ⟨_, p, .fresh h1 h2 h3 hp rfl, b, c⟩
        | kept h1 => rw [hpiv] at h1; cases h1
        | better h1 => rw [hpiv] at h1; cases h1
  | some p0 =>
    right
    have hpiv' : (cleared s e).pivot = some p0 := hpiv
    rw [hpiv']
    simp only
    by_cases hb : s.cfg.scale (st s.deques e - s.candEnd) ≥ st s.deques m - s.candStart
    · rw [if_pos (by exact hb), move_eq (cleared s e) m h.num (hne m)]
      obtain ⟨s1, p, a, b, c, _⟩ := hconc _ _ (.kept hpiv hb rfl)
      cases a with
      | fresh h1 => rw [hpiv] at h1; cases h1
      | kept h1 h2 hs => subst hs; exact ⟨_, p, .kept h1 h2 rfl, b, c⟩
      | better h1 h2 => omega
    · rw [if_neg (by exact hb), makeCandidate_eq (cleared s e) hne]
      simp only
      rw [move_eq _ m (by exact h.num) (by exact hne m)]
      obtain ⟨s1, p, a, b, c, _⟩ := hconc _ _ (.better hpiv (by omega) rfl)
      cases a with
      | fresh h1 => rw [hpiv] at h1; cases h1
      | kept h1 h2 => omega
      | better h1 h2 hs => subst hs; exact ⟨_, p, .better h1 h2 rfl, b, c⟩

end MF.Approx
