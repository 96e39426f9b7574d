import Verif.Spec.PolicyCopy
import Verif.Proofs.Approx5
import Verif.Proofs.Epsilon
import Verif.Proofs.ExactTime
import Verif.Proofs.Latest
/-
Lemmas about handing a policy to a Synchronizer.
-/
namespace MF.Copy

variable {n : Nat}

theorem call_ok {σ O : Type} {isAdd : O → Bool} {step : σ → O → Except Fault σ} {o o' : Obj σ} {op : O}
    (h : call isAdd step o op = .ok o') :
    ¬ (isAdd op = true ∧ o.parent = none) ∧ step o.core op = .ok o'.core ∧ o'.parent = o.parent := by
  unfold call at h
  by_cases hp : isAdd op = true ∧ o.parent = none
  · rw [if_pos hp] at h; cases h
  · rw [if_neg hp] at h
    cases hs : step o.core op with
    | error f => rw [hs] at h; cases h
    | ok c => rw [hs] at h; cases h; exact ⟨hp, rfl, rfl⟩

/-- With a parent set, the calls of the object are the calls of the policy. -/
theorem run_call {σ O : Type} {isAdd : O → Bool} {step : σ → O → Except Fault σ} (k : Nat) (c : σ) (ops : List O) :
    runE (call isAdd step) { parent := some k, core := c } ops =
      match runE step c ops with | .error f => .error f | .ok c' => .ok { parent := some k, core := c' } := by
  induction ops generalizing c with
  | nil => rfl
  | cons op ops ih =>
    simp only [runE, call]
    rw [if_neg (by simp)]
    cases step c op with
    | error f => rfl
    | ok c' => exact ih c'

/-- What is kept by the calls that need no parent holds of every stand-alone policy. -/
theorem standAlone_inv {σ O : Type} {isAdd : O → Bool} {step : σ → O → Except Fault σ} {I : σ → Prop}
    (hstep : ∀ s op s', I s → isAdd op = false → step s op = .ok s' → I s') {fresh : σ} (h0 : I fresh) {ops : List O}
    {p : Obj σ} (h : StandAlone isAdd step fresh ops p) : I p.core ∧ p.parent = none := by
  have := runE_inv (I := fun o : Obj σ => I o.core ∧ o.parent = none) (step := call isAdd step) ?_ ops _ p ⟨h0, rfl⟩ h
  · exact this
  · intro o op o' ⟨h1, h2⟩ h3
    obtain ⟨g1, g2, g3⟩ := call_ok h3
    refine ⟨hstep _ op _ h1 ?_ g2, by rw [g3, h2]⟩
    cases ha : isAdd op with
    | false => rfl
    | true => exact absurd ⟨ha, h2⟩ g1

/-- Two policies whose calls are related by `R` are observed alike. -/
theorem observe_sim {σ τ O α : Type} {isAdd : O → Bool} {step : σ → O → Except Fault σ} {step' : τ → O → Except Fault τ}
    {R : σ → τ → Prop} {obs : σ → α} {obs' : τ → α}
    (hstep : ∀ s t op, R s t → (∃ f, step s op = .error f ∧ step' t op = .error f) ∨
      ∃ s' t', step s op = .ok s' ∧ step' t op = .ok t' ∧ R s' t')
    (hobs : ∀ s t, R s t → obs s = obs' t) (k : Nat) (s : σ) (t : τ) (h : R s t) (ops : List O) :
    observe obs (runE (call isAdd step) { parent := some k, core := s } ops) =
      observe obs' (runE (call isAdd step') { parent := some k, core := t } ops) := by
  rw [run_call, run_call]
  induction ops generalizing s t with
  | nil => simp [runE, observe, hobs s t h]
  | cons op ops ih =>
    simp only [runE]
    rcases hstep s t op h with ⟨f, h1, h2⟩ | ⟨s', t', h1, h2, h3⟩
    · rw [h1, h2]; rfl
    · rw [h1, h2]; exact ih s' t' h3

end MF.Copy

namespace MF.Approx

variable {n : Nat}

/-- Without a pivot there is no candidate. -/
def NoCand (s : State n) : Prop := s.pivot = none → s.cand = fun _ => none

theorem pstep_noCand {s s' : State n} (hs : PStep s s') (h : NoCand s) : NoCand s' := by
  cases hs with
  | delete m e hm he hp hc hs => subst hs; intro _; exact h hp
  | go m e p hm he hx ha hpm =>
    intro hp
    obtain ⟨c, hc⟩ := ha.candInv
    rw [hc.pivot] at hp; cases hp
  | publish m e p s1 hm he hx ha hw hs => subst hs; intro _; rfl

theorem psteps_noCand {s s' : State n} (h : PSteps s s') : NoCand s → NoCand s' := by
  induction h with
  | done h => exact id
  | step hne h1 h2 ih => exact fun h => ih (pstep_noCand h1 h)

end MF.Approx

namespace MF.Approx

variable {n : Nat}

theorem runE_noCand [NeZero n] (fuel : Nat) (cfg : Cfg n) (hq : 0 < cfg.queueSize) (ops : List (Op n)) (s : State n)
    (h : runE (step fuel) (init cfg) ops = .ok s) : NoCand s := by
  revert h
  revert ops s
  apply runE_induction
  · intro _; rfl
  · intro ops s op s' hr ih hs
    have hi := (runE_spec fuel cfg hq ops s hr).1
    cases op with
    | add i e =>
      rcases (add_spec fuel hi i e).1 with ⟨s1, g1, g2, _⟩ | g1
      · have hs : add fuel s i e = .ok s' := hs
        rw [hs] at g1; cases g1
        cases g2 with
        | normal s1 hp hs hl =>
          refine psteps_noCand hs ?_
          intro h0; rw [hp.cand]; rw [hp.pivot] at h0; exact ih h0
        | drop s1 s2 hp hs hl hs' =>
          refine psteps_noCand hs' ?_
          have h2 : NoCand s2 := by
            refine psteps_noCand hs ?_
            intro h0; rw [hp.cand]; rw [hp.pivot] at h0; exact ih h0
          intro _
          show (if s2.pivot = none then s2.cand else fun _ => none) = fun _ => none
          by_cases h0 : s2.pivot = none
          · rw [if_pos h0]; exact h2 h0
          · rw [if_neg h0]
      · have hs : add fuel s i e = .ok s' := hs
        rw [hs] at g1; cases g1
    | setAgePenalty nonneg scale =>
      simp only [step] at hs
      split at hs <;> cases hs
      exact ih
    | setInterMessageLowerBound i d =>
      simp only [step] at hs
      split at hs <;> cases hs
      exact ih
    | setMaxIntervalDuration d =>
      simp only [step] at hs
      split at hs <;> cases hs
      exact ih

end MF.Approx

namespace MF.Copy

variable {n : Nat}

theorem approxCopy_eq {s : Approx.State n} (h : s.cand = fun _ => none) : approxCopy s = s := by
  cases s; simp only at h; subst h; rfl

/-- What is true of a copied ApproximateEpsilonTime in which messages were waiting. -/
structure Dead (j : Fin n) (o : List (Fin n → Option Ev)) (s : Epsilon.State n) : Prop where
  short : s.num < Epsilon.nonEmpty s.events
  waiting : s.events j ≠ []
  pos : 0 < s.queueSize
  out : s.out = o

theorem dead_step {fuel : Nat} {j : Fin n} {o : List (Fin n → Option Ev)} {s : Epsilon.State n} (h : Dead j o s)
    (op : Fin n × Ev) : ∃ s', Epsilon.add fuel s op.1 op.2 = .ok s' ∧ Dead j o s' := by
  obtain ⟨i, e⟩ := op
  have hle := Epsilon.nonEmpty_le (upd s.events i (s.events i ++ [e]))
  have hup := Epsilon.nonEmpty_upd s.events i (s.events i ++ [e])
  have hs := h.short
  have hwait : ∀ w : List Ev, w ≠ [] → upd s.events i w j ≠ [] := by
    intro w hw
    by_cases hj : j = i
    · subst hj; rw [upd_same]; exact hw
    · rw [upd_ne _ _ hj]; exact h.waiting
  unfold Epsilon.add
  simp only [upd_same]
  cases hv : s.events i with
  | nil =>
    rw [hv] at hup hle
    simp only [List.nil_append] at hup hle
    simp at hup
    have h1 : ¬ ((s.num + 1 : Int) = n) := by omega
    have h2 : ¬ (1 > s.queueSize) := by have := h.pos; omega
    simp only [List.length_nil, if_true, List.nil_append, List.length_singleton, if_neg h1, if_neg h2]
    exact ⟨_, rfl, ⟨by simp only; omega, hwait _ (by simp), h.pos, h.out⟩⟩
  | cons x tl =>
    rw [hv] at hup hle
    simp at hup
    have h1 : ¬ (s.num = (n : Int)) := by simp only [List.cons_append] at hle; omega
    have h0 : ¬ ((x :: tl).length = 0) := by simp
    simp only [if_neg h0, if_neg h1]
    by_cases h2 : (x :: tl ++ [e]).length > s.queueSize
    · rw [if_pos h2]
      refine ⟨_, rfl, ?_⟩
      unfold Epsilon.eraseFront
      simp only [upd_same, List.cons_append]
      have hup2 := Epsilon.nonEmpty_upd (upd s.events i (x :: (tl ++ [e]))) i (tl ++ [e])
      simp at hup2
      refine ⟨?_, ?_, h.pos, h.out⟩
      · have : (tl ++ [e]).isEmpty = false := by cases tl <;> rfl
        simp only [this]
        simp
        omega
      · simp only
        have := hwait (tl ++ [e]) (by simp)
        by_cases hj : j = i
        · subst hj; rw [upd_same]; simp
        · rw [upd_ne _ _ hj, upd_ne _ _ hj]; exact h.waiting
    · rw [if_neg h2]
      exact ⟨_, rfl, ⟨by simp only [List.cons_append]; omega, hwait _ (by simp), h.pos, h.out⟩⟩

end MF.Copy
