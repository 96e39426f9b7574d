import Verif.Proofs.ApproxMaximal
/-
ApproximateTime with a maximum interval of zero never keeps a candidate back.
-/
namespace MF.Approx
open MF.Epsilon (nonEmpty)

variable {n : Nat}

theorem countNonEmpty_pivot (s : State n) (i : Fin n) : (countNonEmpty s i).pivot = s.pivot := by
  unfold countNonEmpty; split <;> rfl

theorem countNonEmpty_cfg (s : State n) (i : Fin n) : (countNonEmpty s i).cfg = s.cfg := by
  unfold countNonEmpty; split <;> rfl

theorem recoverAndDelete_keeps {s s' : State n} {i : Fin n} (h : recoverAndDelete s i = .ok s') :
    s'.pivot = s.pivot ∧ s'.cfg = s.cfg := by
  unfold recoverAndDelete at h
  dsimp only at h
  split at h
  · cases h
  · cases h
    exact ⟨countNonEmpty_pivot _ _, countNonEmpty_cfg _ _⟩

theorem foldlM_keeps : ∀ (l : List (Fin n)) (s s' : State n), l.foldlM recoverAndDelete s = .ok s' →
    s'.pivot = s.pivot ∧ s'.cfg = s.cfg
  | [], s, s', h => by cases h; exact ⟨rfl, rfl⟩
  | i :: l, s, s', h => by
    rw [List.foldlM_cons] at h
    cases hr : recoverAndDelete s i with
    | error f => rw [hr] at h; cases h
    | ok s1 =>
      rw [hr] at h
      have h1 := recoverAndDelete_keeps hr
      have h2 := foldlM_keeps l s1 s' h
      exact ⟨h2.1.trans h1.1, h2.2.trans h1.2⟩

theorem publishCandidate_keeps {s s' : State n} (h : publishCandidate s = .ok s') : s'.pivot = none ∧ s'.cfg = s.cfg :=
  foldlM_keeps _ _ _ h

/-- Nothing is kept back, and the configuration rules it out. -/
def Prompt (s : State n) : Prop := s.pivot = none ∧ s.cfg.maxInterval ≤ 0 ∧ 0 ≤ s.cfg.scale 0

theorem dequeDeleteFront_prompt {s s' : State n} {i : Fin n} (h : dequeDeleteFront s i = .ok s') (hp : Prompt s) : Prompt s' := by
  unfold dequeDeleteFront at h
  split at h
  · cases h
  · cases h; exact hp

theorem except_map_ok {α β : Type} {f : α → β} {x : Except Fault α} {b : β} (h : x.map f = .ok b) : ∃ a, x = .ok a ∧ f a = b := by
  cases x with
  | error e => cases h
  | ok a => exact ⟨a, rfl, Except.ok.inj h⟩

theorem makeCandidate_cfg {s s' : State n} (h : makeCandidate s = .ok s') : s'.cfg = s.cfg := by
  unfold makeCandidate at h
  split at h
  · cases h; rfl
  · cases h

theorem examine_prompt {s s1 : State n} {e m : Fin n} {et mt : Int} {b : Bool} (h : examine s e et m mt = .ok (b, s1))
    (hp : Prompt s) :
    (b = false ∧ Prompt s1) ∨
    (b = true ∧ s1.cfg = s.cfg ∧ s1.candEnd = et ∧ s1.pivotTime = et ∧ s1.candStart = mt ∧ et - mt ≤ s.cfg.maxInterval) := by
  unfold examine at h
  simp only [hp.1] at h
  have hp' : Prompt { s with pivot := none } := ⟨rfl, hp.2⟩
  by_cases hbig : et - mt > s.cfg.maxInterval
  · rw [if_pos hbig] at h
    obtain ⟨a, ha, hb⟩ := except_map_ok h
    cases hb
    exact Or.inl ⟨rfl, dequeDeleteFront_prompt ha hp⟩
  rw [if_neg hbig] at h
  by_cases hd : s.hasDropped e = true
  · rw [if_pos hd] at h
    obtain ⟨a, ha, hb⟩ := except_map_ok h
    cases hb
    exact Or.inl ⟨rfl, dequeDeleteFront_prompt ha hp⟩
  rw [if_neg hd] at h
  right
  cases hc : makeCandidate s with
  | error f => rw [hc] at h; cases h
  | ok s2 =>
    rw [hc] at h
    obtain ⟨a, ha, hb⟩ := except_map_ok h
    cases hb
    unfold dequeMoveFrontToPast at ha
    split at ha
    · cases ha
    · cases ha
      have hcfg := makeCandidate_cfg hc
      exact ⟨rfl, hcfg, rfl, rfl, rfl, by omega⟩

theorem iteration_prompt [NeZero n] {fuel : Nat} {s s' : State n} (h : iteration fuel s = .ok s') (hp : Prompt s) : Prompt s' := by
  unfold iteration at h
  split at h
  · cases h
  rename_i e et he
  split at h
  · cases h
  rename_i m mt hm
  split at h
  · cases h
  · rename_i s1 hx
    cases h
    rcases examine_prompt hx hp with ⟨_, h1⟩ | ⟨h1, _⟩
    · exact h1
    · cases h1
  · rename_i s1 hx
    rcases examine_prompt hx hp with ⟨h1, _⟩ | ⟨_, h1, h2, h3, h4, h5⟩
    · cases h1
    obtain ⟨_, hm0, hs0⟩ := hp
    have hm0 : s.cfg.maxInterval ≤ 0 := hm0
    have hfin : publishCandidate s1 = .ok s' → Prompt s' := by
      intro h
      obtain ⟨ha, hb⟩ := publishCandidate_keeps h
      refine ⟨ha, ?_, ?_⟩
      · rw [hb, h1]; exact hm0
      · rw [hb, h1]; exact hs0
    have hage : s1.cfg.scale (et - s1.candEnd) ≥ s1.pivotTime - s1.candStart := by
      rw [h1, h2, h3, h4, Int.sub_self]
      have h5 : et - mt ≤ s.cfg.maxInterval := h5
      have hs0 : 0 ≤ s.cfg.scale 0 := hs0
      show s.cfg.scale 0 ≥ et - mt
      omega
    unfold conclude at h
    split at h
    · cases h
    split at h
    · exact hfin h
    · exact hfin h

theorem process_prompt [NeZero n] : ∀ (fuel : Nat) (s s' : State n), process fuel s = .ok s' → Prompt s → Prompt s'
  | 0, s, s', h, hp => by
    unfold process at h
    split at h
    · cases h
    · cases h; exact hp
  | fuel + 1, s, s', h, hp => by
    unfold process at h
    split at h
    · cases hi : iteration fuel s with
      | error f => rw [hi] at h; cases h
      | ok s1 =>
        rw [hi] at h
        exact process_prompt fuel s1 s' h (iteration_prompt hi hp)
    · cases h; exact hp

theorem recover_keeps (s : State n) (i : Fin n) : (recover s i).pivot = s.pivot ∧ (recover s i).cfg = s.cfg := by
  unfold recover
  exact ⟨countNonEmpty_pivot _ _, countNonEmpty_cfg _ _⟩

theorem recoverAll_keeps (s : State n) : (recoverAll s).pivot = s.pivot ∧ (recoverAll s).cfg = s.cfg := by
  unfold recoverAll
  generalize List.finRange n = l
  induction l generalizing s with
  | nil => exact ⟨rfl, rfl⟩
  | cons i l ih =>
    rw [List.foldl_cons]
    exact ⟨(ih _).1.trans (recover_keeps s i).1, (ih _).2.trans (recover_keeps s i).2⟩

theorem checkInterMessageBound_prompt {s s' : State n} {i : Fin n} (h : checkInterMessageBound s i = .ok s') (hp : Prompt s) :
    Prompt s' := by
  unfold checkInterMessageBound at h
  dsimp only at h
  split at h
  · cases h; exact hp
  · split at h
    · cases h
    · split at h
      · cases h; exact hp
      · split at h
        · cases h; exact hp
        · split at h <;> (cases h; exact hp)

theorem add_prompt [NeZero n] {fuel : Nat} {s s' : State n} {i : Fin n} {e : Ev} (h : add fuel s i e = .ok s') (hp : Prompt s) :
    Prompt s' := by
  unfold add at h
  cases ha : addPush fuel s i e with
  | error f => rw [ha] at h; cases h
  | ok s1 =>
    rw [ha] at h
    have h1 : Prompt s1 := by
      unfold addPush at ha
      dsimp only at ha
      split at ha
      · split at ha
        · exact process_prompt _ _ _ ha hp
        · cases ha; exact hp
      · exact checkInterMessageBound_prompt ha hp
    have h : addLimit fuel s1 i = .ok s' := h
    unfold addLimit at h
    split at h
    · dsimp only at h
      split at h
      · cases h
      · obtain ⟨k1, k2⟩ := recoverAll_keeps { s1 with num := 0 }
        have h2 : Prompt (recoverAll { s1 with num := 0 }) := by
          unfold Prompt
          rw [k1, k2]; exact h1
        rw [if_pos h2.1] at h
        cases h; exact h2
    · cases h; exact h1

/-- With a maximum interval of zero nothing is ever kept back. -/
theorem run_prompt [NeZero n] {fuel : Nat} {cfg : Cfg n} (hm : cfg.maxInterval ≤ 0) (hs : 0 ≤ cfg.scale 0)
    (ops : List (Fin n × Ev)) : ∀ s, run fuel cfg ops = .ok s → Prompt s := by
  induction ops using snoc_induction with
  | h0 =>
    intro s h
    have h := (runOps_ok h).2
    simp only [List.map_nil, runE, Except.ok.injEq] at h
    rw [← h]; exact ⟨rfl, hm, hs⟩
  | hs ops op ih =>
    intro s' h
    obtain ⟨s, h1, h2⟩ := run_snoc_ok h
    exact add_prompt h2 (ih s h1)

end MF.Approx
