import Verif.Proofs.Epsilon
import Verif.Spec.Overflow
/-
Helper lemmas about the ApproximateEpsilonTime model: the queue size matters only to an `add` that finds its queue too long.
-/
namespace MF.Epsilon

variable {n : Nat}

/-- The same state with another queue size. -/
def setQ (q : Nat) (s : State n) : State n := { s with queueSize := q }

theorem foldl_setQ {A : Type} (q : Nat) (f : State n → A → State n) (hf : ∀ s a, f (setQ q s) a = setQ q (f s a)) (l : List A)
    (s : State n) : l.foldl f (setQ q s) = setQ q (l.foldl f s) := by
  induction l generalizing s with
  | nil => rfl
  | cons a l ih => rw [List.foldl_cons, List.foldl_cons, hf, ih]

theorem eraseFront_setQ (q : Nat) (s : State n) (i : Fin n) : eraseFront (setQ q s) i = setQ q (eraseFront s i) := by
  unfold eraseFront
  have e1 : (setQ q s).events = s.events := rfl
  rw [e1]
  cases s.events i with
  | nil => rfl
  | cons e r => rfl

theorem eraseIfOnSync_setQ (q : Nat) (ts : Int) (s : State n) (i : Fin n) :
    eraseIfOnSync ts (setQ q s) i = setQ q (eraseIfOnSync ts s i) := by
  unfold eraseIfOnSync
  have e1 : (setQ q s).events = s.events := rfl
  have e2 : (setQ q s).epsilon = s.epsilon := rfl
  rw [e1, e2]
  cases s.events i with
  | nil => rfl
  | cons e r =>
    dsimp only
    by_cases h : ts + s.epsilon < e.stamp
    · rw [if_pos h, if_pos h]
    · rw [if_neg h, if_neg h]; exact eraseFront_setQ q s i

theorem signal_setQ (q : Nat) (s : State n) : signal (setQ q s) = (signal s).map (setQ q) := by
  unfold signal
  have e1 : (setQ q s).events = s.events := rfl
  rw [e1]
  by_cases h : (List.finRange n).all (fun i => !(s.events i).isEmpty) = true
  · rw [if_pos h, if_pos h]; rfl
  · rw [if_neg h, if_neg h]; rfl

theorem process_setQ (q : Nat) (fuel : Nat) : ∀ s : State n, process fuel (setQ q s) = (process fuel s).map (setQ q) := by
  induction fuel with
  | zero =>
    intro s
    unfold process
    have e6 : (setQ q s).num = s.num := rfl
    rw [e6]
    by_cases h : s.num = n
    · rw [if_pos h, if_pos h]; rfl
    · rw [if_neg h, if_neg h]; rfl
  | succ fuel ih =>
    intro s
    unfold process
    have e1 : (setQ q s).events = s.events := rfl
    have e2 : (setQ q s).epsilon = s.epsilon := rfl
    have e6 : (setQ q s).num = s.num := rfl
    rw [e6, e1, e2]
    by_cases h : s.num = n
    · rw [if_pos h, if_pos h]
      dsimp only
      by_cases hc : checkAll s.events s.epsilon (getOlder s.events) = true
      · rw [if_pos hc, if_pos hc, signal_setQ]
        cases signal s with
        | error f => rfl
        | ok s' =>
          show process fuel (eraseFronts (setQ q s')) = _
          have : eraseFronts (setQ q s') = setQ q (eraseFronts s') := foldl_setQ q eraseFront (eraseFront_setQ q) _ s'
          rw [this]
          exact ih _
      · rw [if_neg hc, if_neg hc]
        have : eraseOld (getOlder s.events).1 (setQ q s) = setQ q (eraseOld (getOlder s.events).1 s) :=
          foldl_setQ q _ (eraseIfOnSync_setQ q _) _ s
        rw [this]
        exact ih _
    · rw [if_neg h, if_neg h]; rfl

/-- The state after the message was appended to its queue and counted. -/
def appended (s : State n) (i : Fin n) (e : Ev) : State n :=
  { s with num := if (s.events i).length = 0 then s.num + 1 else s.num, events := upd s.events i (s.events i ++ [e]) }

theorem add_appended (fuel : Nat) (s : State n) (i : Fin n) (e : Ev) :
    add fuel s i e = if (appended s i e).num = (n : Int) then process fuel (appended s i e)
      else if ((appended s i e).events i).length > s.queueSize then .ok (eraseFront (appended s i e) i)
      else .ok (appended s i e) := rfl

theorem appended_length (s : State n) (i : Fin n) (e : Ev) : ((appended s i e).events i).length = (s.events i).length + 1 := by
  show (upd s.events i (s.events i ++ [e]) i).length = _
  rw [upd_same, List.length_append, List.length_singleton]

theorem stream_length_le (ops : List (Fin n × Ev)) (i : Fin n) : (stream ops i).length ≤ ops.length := by
  unfold stream
  rw [List.length_map]
  exact List.length_filter_le _ _

/-- If the queues would hold at most `q` messages anyway, a policy with `queue_size = q` goes through the same states. -/
theorem run_fits [NeZero n] {fuel q : Nat} {eps : Int} {big : Nat} : ∀ (ops : List (Fin n × Ev)) (s : State n),
    ops.length < big →
    (∀ k s, run fuel (construct n big eps) (ops.take k) = .ok s → ∀ i, (s.events i).length ≤ q) →
    run fuel (construct n q eps) ops = .ok s → run fuel (construct n big eps) ops = .ok (setQ big s) := by
  intro ops
  induction ops using snoc_induction with
  | h0 =>
    intro s hb _ h
    cases h
    rfl
  | hs ops op ih =>
    intro s' hb hfit h
    obtain ⟨i, e⟩ := op
    rw [List.length_append, List.length_singleton] at hb
    obtain ⟨s, h1, h2⟩ := runE_snoc_ok h
    have h3 := ih s (by omega) (by
      intro k t ht
      by_cases hk : k ≤ ops.length
      · refine hfit k t ?_
        rw [List.take_append_of_le_length hk]
        exact ht
      · refine hfit ops.length t ?_
        rw [List.take_append_of_le_length (Nat.le_refl _), List.take_length]
        rw [List.take_of_length_le (by omega)] at ht
        exact ht) h1
    have hsnoc : ∀ t, add fuel (setQ big s) i e = .ok t → run fuel (construct n big eps) (ops ++ [(i, e)]) = .ok t := by
      intro t ht
      unfold run at h3 ⊢
      rw [runE_append, h3]
      show runE _ (setQ big s) [(i, e)] = _
      simp only [runE, ht]
    have hroom : (s.events i).length + 1 ≤ big := by
      obtain ⟨c, hc, _⟩ := run_history ops (setQ big s) h3 i
      have h5 := stream_length_le ops i
      rw [hc, List.length_append] at h5
      have : ((setQ big s).events i).length = (s.events i).length := rfl
      omega
    obtain ⟨_, _, hsq⟩ := run_inv h1
    have hap : appended (setQ big s) i e = setQ big (appended s i e) := rfl
    dsimp only at h2
    rw [add_appended] at h2
    by_cases hn : (appended s i e).num = (n : Int)
    · rw [if_pos hn] at h2
      apply hsnoc
      rw [add_appended, hap, if_pos (show (setQ big (appended s i e)).num = (n : Int) from hn), process_setQ, h2]
      rfl
    · rw [if_neg hn] at h2
      have hadd : add fuel (setQ big s) i e = .ok (setQ big (appended s i e)) := by
        rw [add_appended, hap, if_neg (show ¬ (setQ big (appended s i e)).num = (n : Int) from hn), if_neg]
        show ¬ ((appended s i e).events i).length > big
        rw [appended_length]
        omega
      have h6 := hfit (ops.length + 1) _ (by
        rw [List.take_of_length_le (by simp)]
        exact hsnoc _ hadd) i
      have h6 : ((appended s i e).events i).length ≤ q := h6
      rw [if_neg (by rw [hsq]; omega)] at h2
      cases h2
      exact hsnoc _ hadd

theorem noOverflow_run [NeZero n] {fuel q : Nat} {eps : Int} {ops : List (Fin n × Ev)} {s : State n}
    (h : run fuel (construct n q eps) ops = .ok s) (hf : NoOverflow fuel q eps ops) :
    run fuel (construct n (ops.length + 1) eps) ops = .ok (setQ (ops.length + 1) s) :=
  run_fits ops s (by omega) hf h

/-- In particular, queues with room for all messages of their input do not overflow. -/
theorem noOverflow_of_short [NeZero n] {fuel q : Nat} {eps : Int} {ops : List (Fin n × Ev)}
    (hq : ∀ i, (stream ops i).length ≤ q) : NoOverflow fuel q eps ops := by
  intro k s h i
  obtain ⟨c, hc, _⟩ := run_history _ s h i
  have h1 : (stream (ops.take k) i).length ≤ (stream ops i).length := by
    conv => rhs; rw [← List.take_append_drop k ops]
    rw [stream_append, List.length_append]
    omega
  have h2 := hq i
  rw [hc, List.length_append] at h1
  omega

/-- To check it for a given history, only the prefixes need to be run. -/
theorem noOverflow_of_check {fuel q : Nat} {eps : Int} {ops : List (Fin n × Ev)}
    (h : ∀ k, k ≤ ops.length → (run fuel (construct n (ops.length + 1) eps) (ops.take k)).toOption.all
      (fun s => decide (∀ i, (s.events i).length ≤ q)) = true) : NoOverflow fuel q eps ops := by
  have key : ∀ k, k ≤ ops.length → ∀ s, run fuel (construct n (ops.length + 1) eps) (ops.take k) = .ok s →
      ∀ i, (s.events i).length ≤ q := by
    intro k hk s hs
    have := h k hk
    rw [hs] at this
    simpa [Except.toOption] using this
  intro k s hs
  by_cases hk : k ≤ ops.length
  · exact key k hk s hs
  · refine key ops.length (Nat.le_refl _) s ?_
    rw [List.take_length]
    rw [List.take_of_length_le (by omega)] at hs
    exact hs

/-- Without overflow the whole run is one sequence of iterations on the complete streams. -/
theorem run_canonical_fits [NeZero n] {fuel q : Nat} {eps : Int} (ops : List (Fin n × Ev)) (s : State n)
    (h : run fuel (construct n q eps) ops = .ok s) (hf : NoOverflow fuel q eps ops) : Steps eps (stream ops) s.out s.events :=
  run_canonical ops (setQ (ops.length + 1) s) (noOverflow_run h hf) (fun i => by have := stream_length_le ops i; omega)

end MF.Epsilon
