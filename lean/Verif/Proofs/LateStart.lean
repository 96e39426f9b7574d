import Verif.Spec.LateStart
import Verif.Proofs.Epsilon
/-
Helper lemmas about synchronizers one input of which has not delivered anything yet.
-/
namespace MF

variable {n : Nat}

theorem lastN_length {α : Type} (k : Nat) (l : List α) : (lastN k l).length = min l.length k := by
  simp only [lastN, List.length_drop]; omega

theorem lastN_snoc {α : Type} (k : Nat) (l : List α) (e : α) :
    lastN k (l ++ [e]) = if (lastN k l).length + 1 ≤ k then lastN k l ++ [e] else (lastN k l ++ [e]).tail := by
  rw [lastN_length]
  unfold lastN
  rw [List.length_append, List.length_singleton]
  split
  · have h1 : l.length + 1 - k = 0 := by omega
    have h2 : l.length - k = 0 := by omega
    rw [h1, h2, List.drop_zero, List.drop_zero]
  · have h1 : l.length + 1 - k = (l.length - k) + 1 := by omega
    rw [h1, ← List.drop_drop, List.drop_one, List.drop_append_of_le_length (by omega)]

theorem lastN_lastN {α : Type} {k m : Nat} (h : k ≤ m) (l : List α) : lastN k (lastN m l) = lastN k l := by
  unfold lastN
  rw [List.drop_drop, List.length_drop]
  congr 1; omega

/-- What was there before does not matter for the last `k` elements, if these agree and are the same number. -/
theorem lastN_append {α : Type} {k : Nat} (a : List α) {l l' : List α} (h : lastN k l = lastN k l') :
    lastN k (a ++ l) = lastN k (a ++ l') := by
  have hl := congrArg List.length h
  rw [lastN_length, lastN_length] at hl
  by_cases hk : k ≤ l.length
  · have key : ∀ m : List α, k ≤ m.length → lastN k (a ++ m) = lastN k m := by
      intro m hm
      unfold lastN
      rw [List.length_append, show a.length + m.length - k = a.length + (m.length - k) by omega, ← List.drop_drop, List.drop_left]
    rw [key l hk, key l' (by omega), h]
  · unfold lastN at h
    rw [show l.length - k = 0 by omega, show l'.length - k = 0 by omega] at h
    have h : l = l' := h
    rw [h]

theorem Silent.left {j : Fin n} {a b : List (Fin n × Ev)} (h : Silent j (a ++ b)) : Silent j a :=
  fun op ho => h op (List.mem_append_left _ ho)

theorem Silent.last {j : Fin n} {a : List (Fin n × Ev)} {op : Fin n × Ev} (h : Silent j (a ++ [op])) : op.1 ≠ j :=
  h op (by simp)

theorem Silent.stream {j : Fin n} {ops : List (Fin n × Ev)} (h : Silent j ops) : stream ops j = [] := by
  unfold MF.stream
  rw [List.map_eq_nil_iff, List.filter_eq_nil_iff]
  intro op ho; simp [h op ho]

/-- Running two histories that end in equal states. -/
theorem runE_append_ok {σ ω : Type} (step : σ → ω → Except Fault σ) (s s1 : σ) (a b : List ω) (h : runE step s a = .ok s1) :
    runE step s (a ++ b) = runE step s1 b := by
  induction a generalizing s with
  | nil => cases h; rfl
  | cons x a ih =>
    simp only [runE, List.cons_append] at h ⊢
    cases hx : step s x with
    | error f => rw [hx] at h; cases h
    | ok s2 => rw [hx] at h; exact ih s2 h

end MF

namespace MF.Epsilon

variable {n : Nat}

/-- What is stored while input `j` is silent and has nothing stored. -/
theorem run_late (fuel : Nat) {j : Fin n} {s0 : State n} (hi : Inv s0) (hj : s0.events j = []) (ops : List (Fin n × Ev))
    (h : Silent j ops) :
    ∃ s, run fuel s0 ops = .ok s ∧ Inv s ∧ s.epsilon = s0.epsilon ∧ s.queueSize = s0.queueSize ∧ s.out = s0.out ∧
      s.events = fun i => lastN s0.queueSize (s0.events i ++ stream ops i) := by
  induction ops using snoc_induction with
  | h0 =>
    refine ⟨_, rfl, hi, rfl, rfl, rfl, ?_⟩
    funext i
    have := hi.bound i
    simp only [stream, List.filter_nil, List.map_nil, List.append_nil, lastN]
    rw [Nat.sub_eq_zero_of_le this]; rfl
  | hs ops op ih =>
    obtain ⟨i, e⟩ := op
    obtain ⟨s, h1, h2, h3, h4, h5, h6⟩ := ih h.left
    have hij : i ≠ j := h.last
    have hj : upd s.events i (s.events i ++ [e]) j = [] := by
      rw [upd_ne _ _ (Ne.symm hij), h6]
      simp [h.left.stream, lastN, hj]
    have hst : ∀ l, l = lastN s0.queueSize (s0.events i ++ stream (ops ++ [(i, e)]) i) →
        upd s.events i l = fun k => lastN s0.queueSize (s0.events k ++ stream (ops ++ [(i, e)]) k) := by
      rintro l rfl
      funext k
      by_cases hk : k = i
      · subst hk; rw [upd_same]
      · rw [upd_ne _ _ hk, h6, stream_snoc_ne _ _ (Ne.symm hk)]
    rcases add_shape fuel s h2 i e with ⟨s1, _, _, _, _, g5, g6, _⟩ | ⟨s', g1, g2, g3, g4, _, g5⟩
    · exact absurd (by rw [g5]; exact hj) (g6 j)
    · refine ⟨s', ?_, g2, by rw [g3, h3], by rw [g4, h4], ?_, ?_⟩
      · rw [run, runE_append_ok _ _ _ _ _ h1]; simp only [runE, g1]
      · cases g5 with
        | processed o hall => exact absurd hj (hall j)
        | queued _ _ _ ho => rw [ho, h5]
        | overflow _ _ _ ho => rw [ho, h5]
      · cases g5 with
        | processed o hall => exact absurd hj (hall j)
        | queued _ hl hev _ =>
          rw [hev]; apply hst
          rw [stream_snoc_same, ← List.append_assoc, lastN_snoc]
          rw [h6, h4] at hl
          rw [if_pos hl, h6]
        | overflow _ hl hev _ =>
          rw [hev]; apply hst
          rw [stream_snoc_same, ← List.append_assoc, lastN_snoc]
          rw [h6, h4] at hl
          rw [if_neg (by dsimp only at hl; omega), h6]

end MF.Epsilon
