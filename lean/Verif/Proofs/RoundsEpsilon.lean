import Verif.Proofs.Epsilon
import Verif.Proofs.RoundsApprox
/-
Helper lemmas about ApproximateEpsilonTime on inputs that send in rounds.
-/
namespace MF.Epsilon
open MF.Approx (Sends)

variable {n : Nat}

/-- Fronts within epsilon of each other are output. -/
theorem checkAll_tight {v : Fin n → List Ev} {eps : Int} {c : Fin n → Ev} (hv : ∀ i, ∃ tl, v i = c i :: tl)
    (ht : ∀ i j, (c j).stamp - (c i).stamp ≤ eps) (hmax : ∀ i, (c i).stamp ≤ maxTime) : checkAll v eps (getOlder v) = true := by
  unfold checkAll
  rw [List.all_eq_true]
  intro i _
  unfold withinEpsilon
  obtain ⟨tl, hi⟩ := hv i
  by_cases h0 : some i = (getOlder v).2
  · rw [if_pos h0]
  · rw [if_neg h0, hi]
    refine decide_eq_true ?_
    rcases (getOlder_spec v).2.2 with h | ⟨j, e, tl', hj, h⟩
    · rw [h]
      have := hmax i
      have := ht i i
      show maxTime + eps ≥ (c i).stamp
      omega
    · rw [h]
      obtain ⟨tl2, hj2⟩ := hv j
      rw [hj] at hj2
      cases hj2
      have := ht j i
      show (c j).stamp + eps ≥ (c i).stamp
      omega

/-- `k` rounds were output, the rest is queued. -/
structure Rounded (R : Nat → Fin n → Ev) (L : Fin n → List Ev) (k : Nat) (v : Fin n → List Ev) : Prop where
  events : ∀ i, v i = (L i).drop k
  le : ∀ i, k ≤ (L i).length

theorem fire_rounded {R : Nat → Fin n → Ev} {eps : Int} (ht : Tight R eps) {L : Fin n → List Ev} (hL : Sends R L)
    (hmax : ∀ i, ∀ e ∈ L i, e.stamp ≤ maxTime) {k : Nat} {v : Fin n → List Ev} (h : Rounded R L k v) (hne : ∀ i, v i ≠ []) :
    Rounded R L (k + 1) (fire eps v).2 ∧ (fire eps v).1 = [fun i => some (R k i)] := by
  have hget : ∀ i, (L i)[k]? = some (R k i) ∧ k < (L i).length := by
    intro i
    have hlt : k < (L i).length := by
      apply Classical.byContradiction
      intro hc
      have := h.events i
      rw [List.drop_eq_nil_of_le (by omega)] at this
      exact hne i this
    have h1 : (L i)[k]? = some (L i)[k] := List.getElem?_eq_getElem hlt
    rw [h1, ← hL i k _ h1]
    exact ⟨rfl, hlt⟩
  have hv : ∀ i, v i = R k i :: (L i).drop (k + 1) := by
    intro i
    obtain ⟨h1, h2⟩ := hget i
    rw [h.events i, List.drop_eq_getElem_cons h2]
    rw [List.getElem?_eq_getElem h2] at h1
    rw [Option.some.inj h1]
  have hc : checkAll v eps (getOlder v) = true :=
    checkAll_tight (c := R k) (fun i => ⟨_, hv i⟩) (fun i j => ht k i j)
      (fun i => hmax i _ (List.mem_of_getElem? (hget i).1))
  unfold fire
  rw [if_pos hc]
  refine ⟨⟨fun i => ?_, fun i => (hget i).2⟩, ?_⟩
  · show (v i).tail = _
    rw [hv i]; rfl
  · show [fun i => (v i).head?] = _
    congr 1
    funext i
    rw [hv i]; rfl

theorem steps_rounded {R : Nat → Fin n → Ev} {eps : Int} (ht : Tight R eps) {L : Fin n → List Ev} (hL : Sends R L)
    (hmax : ∀ i, ∀ e ∈ L i, e.stamp ≤ maxTime) {v w : Fin n → List Ev} {o} (hs : Steps eps v o w) :
    ∀ k, Rounded R L k v → ∃ k', Rounded R L k' w ∧ roundSets R k ++ o = roundSets R k' := by
  induction hs with
  | refl v => intro k h; exact ⟨k, h, List.append_nil _⟩
  | @head v o w hne _ ih =>
    intro k h
    obtain ⟨h1, h2⟩ := fire_rounded ht hL hmax h hne
    obtain ⟨k', h3, h4⟩ := ih (k + 1) h1
    refine ⟨k', h3, ?_⟩
    rw [h2, ← List.append_assoc, ← roundSets_succ, h4]

theorem run_rounded [NeZero n] {fuel q lag : Nat} {eps : Int} {R : Nat → Fin n → Ev} (ht : Tight R eps) (hq : lag ≤ q) :
    ∀ (ops : List (Fin n × Ev)) (s : State n), run fuel (construct n q eps) ops = .ok s → Delivers R ops →
    LagAtMost lag ops → (∀ i, ∀ e ∈ stream ops i, e.stamp ≤ maxTime) →
    ∃ k, Rounded R (stream ops) k s.events ∧ s.out = roundSets R k := by
  apply runE_induction
  · intro _ _ _
    exact ⟨0, ⟨fun i => by simp [construct, stream], fun i => Nat.zero_le _⟩, rfl⟩
  · intro ops s op s' hr ih hs hd hl hmax
    obtain ⟨i, e⟩ := op
    simp only at hs
    obtain ⟨hinv, heps, hqs⟩ := run_inv hr
    obtain ⟨k, h, hout⟩ := ih hd.init hl.init (fun j x hx => hmax j x (by rw [stream_append]; exact List.mem_append_left _ hx))
    have hL : Sends R (stream (ops ++ [(i, e)])) := fun j k x hx => hd.get hx
    have hpush : Rounded R (stream (ops ++ [(i, e)])) k (upd s.events i (s.events i ++ [e])) := by
      refine ⟨?_, ?_⟩
      · intro j
        by_cases hj : j = i
        · subst hj
          rw [upd_same, stream_snoc_same, h.events j, List.drop_append_of_le_length (h.le j)]
        · rw [upd_ne _ _ hj, stream_snoc_ne _ _ (Ne.symm hj), h.events j]
      · intro j
        by_cases hj : j = i
        · subst hj; rw [stream_snoc_same, List.length_append]; exact Nat.le_trans (h.le j) (Nat.le_add_right _ _)
        · rw [stream_snoc_ne _ _ (Ne.symm hj)]; exact h.le j
    obtain ⟨_, _, _, sp⟩ := add_ok hinv hs
    cases sp with
    | processed o hall hsteps ho =>
      rw [heps] at hsteps
      obtain ⟨k', h3, h4⟩ := steps_rounded ht hL hmax hsteps k hpush
      exact ⟨k', h3, by rw [ho, hout, h4]⟩
    | queued hnot hlen hev ho => exact ⟨k, by rw [hev]; exact hpush, by rw [ho, hout]⟩
    | overflow hnot hlen hev ho =>
      exfalso
      obtain ⟨j, hj⟩ := hnot
      have h1 := hpush.events i
      have h2 := hpush.events j
      rw [hj] at h2
      have h3 := congrArg List.length h2
      have h4 := congrArg List.length h1
      have h5 := hl _ (List.prefix_refl _) i j
      rw [upd_same] at h4
      simp only [List.length_append, List.length_drop, List.length_nil, List.length_cons] at h3 h4
      omega

end MF.Epsilon
