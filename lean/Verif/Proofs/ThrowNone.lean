import Verif.Model.Throw
/-
Without exceptions the functions of Model/Throw.lean are those of the other model files.
-/
namespace MF.Throw

/-- No call throws. -/
abbrev never : Nat → Bool := fun _ => false

theorem invoke_never {β : Type} (b : β) : ∀ (ks : List Nat) (log : List (Nat × β)),
    invoke never b ks log = (log ++ ks.map (fun k => (k, b)), false) := by
  intro ks
  induction ks with
  | nil => intro log; simp [invoke]
  | cons k ks ih =>
    intro log
    unfold invoke
    rw [if_neg (by simp [never]), ih]
    simp

theorem passOn_never : ∀ (l out : List Ev), passOn never l out = (out ++ l, false) := by
  intro l
  induction l with
  | nil => intro out; simp [passOn]
  | cons e l ih =>
    intro out
    unfold passOn
    rw [if_neg (by simp [never]), ih]
    simp

section
variable {n : Nat}

theorem dropLoop_never : ∀ (l : List (Int × ExactTime.Tuple n)) (log : List (ExactTime.Action n)),
    exactDropLoop never l log = (log ++ l.map (fun p => .drop p.2), false) := by
  intro l
  induction l with
  | nil => intro out; simp [exactDropLoop]
  | cons e l ih =>
    intro out
    unfold exactDropLoop
    rw [if_neg (by simp [never]), ih]
    simp

theorem dropRange_never (s : ExactTime.State n) (a b : List (Int × ExactTime.Tuple n)) :
    exactDropRange never s a b = (ExactTime.dropRange s a b, false) := by
  unfold exactDropRange
  rw [dropLoop_never]
  rfl

theorem dropExceeding_never (s : ExactTime.State n) :
    exactDropExceeding never s = (ExactTime.dropExceeding s, false) := by
  unfold exactDropExceeding ExactTime.dropExceeding
  split
  · exact dropRange_never _ _ _
  · rfl

theorem exactAdd_never [NeZero n] (s : ExactTime.State n) (i : Fin n) (e : Ev) :
    exactAdd never s i e = (ExactTime.add s i e).map (fun s => (s, false)) := by
  unfold exactAdd ExactTime.add
  simp only
  generalize ({ s with tuples := _, log := _ } : ExactTime.State n) = u
  generalize upd _ i _ = t
  unfold exactCheckTuple ExactTime.checkTuple
  split
  · cases t 0 with
    | none => rfl
    | some e0 =>
      simp only
      rw [if_neg (by simp [never])]
      unfold exactClearOld
      rw [dropRange_never, if_neg (by simp), dropExceeding_never]
      rfl
  · rw [dropExceeding_never]; rfl

theorem epsilonProcess_never (fuel : Nat) : ∀ s : Epsilon.State n,
    epsilonProcess never fuel s = (Epsilon.process fuel s).map (fun s => (s, false)) := by
  induction fuel with
  | zero => intro s; unfold epsilonProcess Epsilon.process; split <;> rfl
  | succ fuel ih =>
    intro s
    unfold epsilonProcess Epsilon.process
    split
    · simp only
      split
      · cases Epsilon.signal s with
        | error f => rfl
        | ok s' =>
          simp only
          rw [if_neg (by simp [never]), ih]
      · exact ih _
    · rfl

theorem epsilonAdd_never (fuel : Nat) (s : Epsilon.State n) (i : Fin n) (e : Ev) :
    epsilonAdd never fuel s i e = (Epsilon.add fuel s i e).map (fun s => (s, false)) := by
  unfold epsilonAdd Epsilon.add
  simp only
  generalize (if (s.events i).length = 0 then s.num + 1 else s.num) = num
  split
  · exact epsilonProcess_never fuel _
  · split <;> rfl

theorem alignerDispatchAt_never (s : Aligner.State n) (i : Fin n) :
    alignerDispatchAt never s i = (Aligner.dispatchAt s i).map (fun x => (x.1, some x.2)) := by
  unfold alignerDispatchAt
  cases h : (s.queues i).items with
  | nil =>
    simp only
    cases Aligner.dispatchAt s i with
    | error f => rfl
    | ok x => rfl
  | cons e l =>
    unfold Aligner.dispatchAt
    rw [h]
    simp only
    rw [if_neg (by simp [never])]
    cases (s.queues i).popFirst <;> rfl

theorem alignerLoop_never (fuel : Nat) : ∀ s : Aligner.State n,
    alignerLoop never fuel s = (Aligner.dispatchLoop fuel s).map (fun s => (s, false)) := by
  induction fuel with
  | zero => intro s; rfl
  | succ fuel ih =>
    intro s
    unfold alignerLoop Aligner.dispatchLoop alignerDispatchFirst Aligner.dispatchFirst
    simp only
    cases Aligner.getFirstSampleIdx (fun i => (s.queues i).firstTimeStamp.2) with
    | none => rfl
    | some i =>
      simp only
      rw [alignerDispatchAt_never]
      cases Aligner.dispatchAt (Aligner.stamped s) i with
      | error f => rfl
      | ok x =>
        obtain ⟨s', b⟩ := x
        cases b
        · rfl
        · exact ih s'

theorem alignerStep_never (fuel : Nat) (s : Aligner.State n) (op : Aligner.Op n) :
    alignerStep never fuel s op = Aligner.step fuel s op := by
  cases op with
  | add i e => rfl
  | setPeriod i d => rfl
  | dispatch =>
    unfold alignerStep Aligner.step alignerDispatch Aligner.dispatch
    simp only
    split
    · rw [alignerLoop_never]
      cases Aligner.dispatchLoop fuel s <;> rfl
    · rfl

theorem map_fst_false {S : Type} (x : Except Fault S) : (x.map (fun s => (s, false))).map (·.1) = x := by
  cases x <;> rfl

end

end MF.Throw
