import Verif.Model.Throw
import Verif.Proofs.Throw
/-
C55: exceptions of callbacks reach the caller of the filter and end the call (InputAligner, ExactTime, ApproximateEpsilonTime).
-/
namespace MF.Throw

variable {n : Nat}

theorem alignerDispatchAt_throws {boom : Nat → Bool} {s s' : Aligner.State n} {i : Fin n} {r : Option Bool}
    (h : alignerDispatchAt boom s i = .ok (s', r)) :
    throws boom s'.out = throws boom s.out + (if r = none then 1 else 0) := by
  unfold alignerDispatchAt at h
  split at h
  · split at h
    · rename_i hb
      cases h
      simp only
      rw [throws_snoc, hb]; simp
    · rename_i hb
      simp only at h
      split at h
      · cases h
      · cases h
        simp only
        rw [throws_snoc, if_neg hb]; simp
  · rename_i hi
    unfold Aligner.dispatchAt at h
    rw [hi] at h
    simp only at h
    split at h
    · cases h
    · rename_i hx
      cases h
      split at hx <;> cases hx <;> simp

theorem alignerLoop_throws {boom : Nat → Bool} {fuel : Nat} {s s' : Aligner.State n} {thr : Bool}
    (h : alignerLoop boom fuel s = .ok (s', thr)) :
    throws boom s'.out = throws boom s.out + (if thr then 1 else 0) := by
  induction fuel generalizing s with
  | zero => cases h
  | succ fuel ih =>
    have hd : ∀ {t r}, alignerDispatchFirst boom s = .ok (t, r) →
        throws boom t.out = throws boom s.out + (if r = none then 1 else 0) := by
      intro t r hx
      unfold alignerDispatchFirst at hx
      simp only at hx
      split at hx
      · cases hx; simp [Aligner.stamped]
      · have := alignerDispatchAt_throws hx
        simpa [Aligner.stamped] using this
    unfold alignerLoop at h
    split at h
    · cases h
    · rename_i hx; have h1 := hd hx; have h2 := ih h; simp at h1; omega
    · rename_i hx; have h1 := hd hx; cases h; simpa using h1
    · rename_i hx; have h1 := hd hx; cases h; simpa using h1

theorem alignerDispatch_throws {boom : Nat → Bool} {fuel : Nat} {s s' : Aligner.State n} {thr : Bool}
    (h : alignerDispatch boom fuel s = .ok (s', thr)) :
    throws boom s'.out = throws boom s.out + (if thr then 1 else 0) := by
  unfold alignerDispatch at h
  split at h
  · exact alignerLoop_throws h
  · cases h; simp

theorem eraseFront_out (s : Epsilon.State n) (i : Fin n) : (Epsilon.eraseFront s i).out = s.out := by
  unfold Epsilon.eraseFront; split <;> rfl

theorem foldl_out {f : Epsilon.State n → Fin n → Epsilon.State n} (hf : ∀ s i, (f s i).out = s.out) (l : List (Fin n))
    (s : Epsilon.State n) : (l.foldl f s).out = s.out := by
  induction l generalizing s with
  | nil => rfl
  | cons i l ih => rw [List.foldl_cons, ih, hf]

theorem eraseFronts_out' (s : Epsilon.State n) : (Epsilon.eraseFronts s).out = s.out := foldl_out eraseFront_out _ _

theorem eraseOld_out' (ts : Int) (s : Epsilon.State n) : (Epsilon.eraseOld ts s).out = s.out := by
  apply foldl_out
  intro s i
  unfold Epsilon.eraseIfOnSync
  split
  · rfl
  · split
    · rfl
    · exact eraseFront_out s i

theorem epsilonProcess_throws {boom : Nat → Bool} {fuel : Nat} {s s' : Epsilon.State n} {thr : Bool}
    (h : epsilonProcess boom fuel s = .ok (s', thr)) :
    throws boom s'.out = throws boom s.out + (if thr then 1 else 0) := by
  induction fuel generalizing s with
  | zero =>
    unfold epsilonProcess at h
    split at h
    · cases h
    · cases h; simp
  | succ fuel ih =>
    unfold epsilonProcess at h
    simp only at h
    split at h
    · split at h
      · split at h
        · cases h
        · rename_i s1 hs1
          have ho : s1.out = s.out ++ [fun i => (s.events i).head?] := by
            unfold Epsilon.signal at hs1
            split at hs1
            · cases hs1; rfl
            · cases hs1
          split at h
          · rename_i hb
            cases h
            rw [ho, throws_snoc, hb]
          · rename_i hb
            rw [ih h, eraseFronts_out', ho, throws_snoc, if_neg hb]; simp
      · rw [ih h, eraseOld_out']
    · cases h; simp

theorem epsilonAdd_throws {boom : Nat → Bool} {fuel : Nat} {s s' : Epsilon.State n} {i : Fin n} {e : Ev} {thr : Bool}
    (h : epsilonAdd boom fuel s i e = .ok (s', thr)) :
    throws boom s'.out = throws boom s.out + (if thr then 1 else 0) := by
  unfold epsilonAdd at h
  simp only at h
  generalize (if (s.events i).length = 0 then s.num + 1 else s.num) = num at h
  split at h
  · have := epsilonProcess_throws h; exact this
  · split at h
    · cases h; rw [eraseFront_out]; simp
    · cases h; simp

/-! ### ExactTime -/

/-- `a` stands for a call of a callback. -/
def isCall : ExactTime.Action n → Bool
  | .replaced _ _ => false
  | _ => true

/-- The calls in the part of the log after position `k0`: only the last may have thrown, and did if `thr`. -/
def Reaches (boom : Nat → Bool) (k0 : Nat) (log : List (ExactTime.Action n)) (thr : Bool) : Prop :=
  ∀ k a, k0 ≤ k → log[k]? = some a → isCall a = true → (boom k = true ↔ thr = true ∧ k + 1 = log.length)

theorem reaches_snoc {boom : Nat → Bool} {k0 : Nat} {log : List (ExactTime.Action n)} (h : Reaches boom k0 log false)
    (a : ExactTime.Action n) : Reaches boom k0 (log ++ [a]) (boom log.length) := by
  intro k b hk hb hc
  rcases Nat.lt_trichotomy k log.length with hlt | heq | hgt
  · rw [List.getElem?_append_left hlt] at hb
    have h1 := h k b hk hb hc
    constructor
    · intro h2; exact absurd (h1.1 h2).1 (by simp)
    · rintro ⟨_, h2⟩; rw [List.length_append, List.length_singleton] at h2; omega
  · subst heq
    rw [List.length_append, List.length_singleton]
    exact ⟨fun h => ⟨h, rfl⟩, fun h => h.1⟩
  · rw [List.getElem?_eq_none (by rw [List.length_append, List.length_singleton]; omega)] at hb; cases hb

theorem reaches_ghost {boom : Nat → Bool} {log : List (ExactTime.Action n)} {ghost : List (ExactTime.Action n)}
    (hg : ∀ a ∈ ghost, isCall a = false) : Reaches boom log.length (log ++ ghost) false := by
  intro k a hk ha hc
  rw [List.getElem?_append_right hk] at ha
  rw [hg a (List.mem_of_getElem? ha)] at hc
  cases hc

theorem exactDropLoop_reaches {boom : Nat → Bool} {k0 : Nat} : ∀ (l : List (Int × ExactTime.Tuple n))
    (log : List (ExactTime.Action n)), Reaches boom k0 log false →
    Reaches boom k0 (exactDropLoop boom l log).1 (exactDropLoop boom l log).2 := by
  intro l
  induction l with
  | nil => intro log h; exact h
  | cons p l ih =>
    intro log h
    unfold exactDropLoop
    have h1 := reaches_snoc h (.drop p.2)
    split
    · rename_i hb; rw [hb] at h1; exact h1
    · rename_i hb; exact ih _ (by simpa [hb] using h1)

theorem exactDropRange_reaches {boom : Nat → Bool} {k0 : Nat} {s : ExactTime.State n} (d k : List (Int × ExactTime.Tuple n))
    (h : Reaches boom k0 s.log false) :
    Reaches boom k0 (exactDropRange boom s d k).1.log (exactDropRange boom s d k).2 := by
  have h1 := exactDropLoop_reaches d s.log h
  unfold exactDropRange
  simp only
  split
  · rename_i hb; rw [hb] at h1; exact h1
  · rename_i hb; rw [Bool.not_eq_true] at hb; rw [hb] at h1; exact h1

theorem exactDropExceeding_reaches {boom : Nat → Bool} {k0 : Nat} {s : ExactTime.State n} (h : Reaches boom k0 s.log false) :
    Reaches boom k0 (exactDropExceeding boom s).1.log (exactDropExceeding boom s).2 := by
  unfold exactDropExceeding
  split
  · exact exactDropRange_reaches _ _ h
  · exact h

theorem exactAdd_reaches [NeZero n] {boom : Nat → Bool} {s s' : ExactTime.State n} {i : Fin n} {e : Ev} {thr : Bool}
    (h : exactAdd boom s i e = .ok (s', thr)) : Reaches boom s.log.length s'.log thr := by
  have hg : Reaches boom s.log.length
      (s.log ++ (ExactTime.tupleAt e.stamp s.tuples i).toList.map (ExactTime.Action.replaced i)) false := by
    apply reaches_ghost
    intro a ha
    obtain ⟨x, _, rfl⟩ := List.mem_map.1 ha
    rfl
  unfold exactAdd exactCheckTuple at h
  simp only at h
  split at h
  · split at h
    · cases h
    · have h1 := fun t => reaches_snoc hg (.out t)
      split at h
      · rename_i hb
        rw [hb] at h1
        cases h
        exact h1 _
      · rename_i hb
        rw [Bool.not_eq_true] at hb
        rw [hb] at h1
        split at h
        · rename_i hr
          cases h
          rw [← hr]
          exact exactDropRange_reaches _ _ (h1 _)
        · rename_i hr
          rw [Bool.not_eq_true] at hr
          have h := Except.ok.inj h
          rw [show s' = _ from (congrArg Prod.fst h).symm, show thr = _ from (congrArg Prod.snd h).symm]
          apply exactDropExceeding_reaches
          rw [← hr]
          exact exactDropRange_reaches _ _ (h1 _)
  · have h := Except.ok.inj h
    rw [show s' = _ from (congrArg Prod.fst h).symm, show thr = _ from (congrArg Prod.snd h).symm]
    exact exactDropExceeding_reaches hg

end MF.Throw
