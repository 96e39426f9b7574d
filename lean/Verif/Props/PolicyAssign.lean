import Verif.Proofs.PolicyAssign
import Verif.Props.PolicyCopy
/-
Property C76: assigning a policy to the policy of an existing Synchronizer (`*sync.getPolicy() = policy`).  A user expects the
synchronizer to go on, with its own callbacks, as a synchronizer with that policy.
-/
namespace MF.Copy

variable {n : Nat}

/-- **C76**, what goes wrong with a stand-alone policy: after the assignment the synchronizer refuses every message with an
assertion, whatever other calls are made in between.  For all four policies. -/
theorem C76_standalone_policy_asserts {σ O : Type} (isAdd : O → Bool) (step : σ → O → Except Fault σ) (assign : σ → σ → σ)
    (lhs rhs : Obj σ) (hr : rhs.parent = none) (ops : List O) (o : Obj σ)
    (h : runE (call isAdd step) (assignObj assign lhs rhs) ops = .ok o) (op : O) (ho : isAdd op = true) :
    call isAdd step o op = .error .assertFailed := by
  have : o.parent = none := by
    refine runE_inv (I := fun o : Obj σ => o.parent = none) ?_ ops (assignObj assign lhs rhs) o hr h
    intro s op s' hs hc
    rw [(call_ok hc).2.2, hs]
  unfold call
  rw [if_pos ⟨ho, this⟩]

/-- **C76**, what goes wrong with the policy of another synchronizer `k`: whatever happens afterwards, the policy gives its
sets to `k`, never to its own synchronizer.  For all four policies. -/
theorem C76_outputs_go_to_other {σ O : Type} (isAdd : O → Bool) (step : σ → O → Except Fault σ) (assign : σ → σ → σ)
    (lhs rhs : Obj σ) (k : Nat) (hr : rhs.parent = some k) (ops : List O) (o : Obj σ)
    (h : runE (call isAdd step) (assignObj assign lhs rhs) ops = .ok o) : o.parent = some k := by
  refine runE_inv (I := fun o : Obj σ => o.parent = some k) ?_ ops (assignObj assign lhs rhs) o hr h
  intro s op s' hs hc
  rw [(call_ok hc).2.2, hs]

/-- Both cases with ExactTime: a queue-size-3 policy is assigned to synchronizer 0's policy.  Stand-alone, the next message
fails; from synchronizer 1, the set is output, but to synchronizer 1. -/
example :
    (match call ExactOp.isAdd Exact.step
        (assignObj Exact.assign ⟨some 0, Exact.construct 2 1⟩ ⟨none, Exact.construct 2 3⟩) (.add 0 ⟨1, 5⟩) with
      | .error .assertFailed => true | _ => false) = true ∧
    (match runE (call ExactOp.isAdd Exact.step)
        (assignObj Exact.assign ⟨some 0, Exact.construct 2 1⟩ ⟨some 1, Exact.construct 2 3⟩)
        [.add 0 ⟨1, 5⟩, .add 1 ⟨2, 5⟩] with
      | .ok o => (o.parent, o.core.core.log.length) | _ => (none, 0)) = (some 1, 1) := by
  decide

/-- **C76** for ExactTime, with `init()` called after the assignment: in every respect, the synchronizer is one with the
assigned policy and its own drop callbacks (those of the assigned policy are left behind). -/
theorem C76_exact [NeZero n] (lhs rhs : Obj (Exact n)) (sync : Nat) (ops : List (ExactOp n)) :
    runE (call ExactOp.isAdd Exact.step) (assignAndInit Exact.assign lhs rhs sync) ops =
      runE (call ExactOp.isAdd Exact.step)
        (inPlace ⟨rhs.parent, { rhs.core with dropCallbacks := lhs.core.dropCallbacks }⟩ sync) ops := by
  obtain ⟨_, ⟨_, _, _, _⟩, _, _⟩ := rhs
  rfl

/-- `C76_exact` in use: synchronizer 0 had drop callback 7 and queue size 5, the assigned policy drop callback 8, queue size 1
and one waiting message.  The next message drops the waiting one, and callback 7 is told. -/
example : dropCalls (runE (call ExactOp.isAdd Exact.step)
    (assignAndInit Exact.assign ⟨some 0, { Exact.construct 2 5 with dropCallbacks := [7] }⟩
      (match Exact.step { Exact.construct 2 1 with dropCallbacks := [8] } (.add (0 : Fin 2) ⟨1, 10⟩) with
        | .ok x => ⟨some 1, x⟩ | .error _ => ⟨none, Exact.construct 2 0⟩) 0) [.add 0 ⟨2, 20⟩]) = some [7] := by
  decide

/-- **C76** for ApproximateTime, with `init()`, what holds: if some input of the assigned policy has no waiting message (a fresh
policy, for instance), the synchronizer outputs exactly what the assigned policy would.  Missing: assigned policies that hold a
candidate set (see `C76_approximate_violated`). -/
theorem C76_approximate_partial [NeZero n] (fuel : Nat) (lhs : Obj (Approx.State n)) (cfg : Approx.Cfg n)
    (hist : List (Approx.Op n)) (rhs : Obj (Approx.State n)) (h : Approx.runOps fuel cfg hist = .ok rhs.core)
    (hw : ∃ i, rhs.core.deques i = [] ∧ rhs.core.past i = []) (sync : Nat) (ops : List (Approx.Op n)) :
    observe (fun s => s.out) (runE (call approxIsAdd (Approx.step fuel)) (assignAndInit approxAssign lhs rhs sync) ops) =
      observe (fun s => s.out) (runE (call approxIsAdd (Approx.step fuel)) (inPlace rhs sync) ops) := by
  have hq : 0 < cfg.queueSize := by
    apply Classical.byContradiction
    intro hn
    unfold Approx.runOps Approx.construct at h
    rw [if_neg hn] at h; cases h
  unfold Approx.runOps at h
  rw [Approx.construct_eq cfg hq] at h
  have h : runE (Approx.step fuel) (Approx.init cfg) hist = .ok rhs.core := h
  have hp : rhs.core.pivot = none := by
    cases hp : rhs.core.pivot with
    | none => rfl
    | some p =>
      obtain ⟨c, hc, _⟩ := (Approx.runE_spec fuel cfg hq hist rhs.core h).1.loop.pivoted p hp
      obtain ⟨i, h1, h2⟩ := hw
      obtain ⟨tl, htl⟩ := hc.head i
      simp [Approx.view, h1, h2] at htl
  refine (observe_sim (isAdd := approxIsAdd) (R := Approx.UpToCand) (step := Approx.step fuel) (step' := Approx.step fuel)
    ?_ ?_ sync rhs.core (approxAssign lhs.core rhs.core) (Or.inr ⟨hp, lhs.core.cand, rfl⟩) ops).symm
  · intro s t op hst
    exact Approx.step_upTo fuel hst op
  · intro s t hst
    rcases hst with hst | ⟨_, c, hst⟩ <;> subst hst <;> rfl

/-- C76 is false for ApproximateTime even with `init()`: the assigned policy held the candidate (10, 14), the synchronizer the
candidate (70, 72).  The next message makes the synchronizer output its own old candidate instead. -/
theorem C76_approximate_violated : ∃ (l r : Approx.State 2) (ops : List (Approx.Op 2)),
    Approx.runOps 100 ⟨10, 50, id, fun _ => 0⟩ [.add 0 ⟨7, 70⟩, .add 1 ⟨8, 72⟩] = .ok l ∧
    Approx.runOps 100 ⟨10, 50, id, fun _ => 0⟩ candidateOps = .ok r ∧
    approxOutputs (runE (call approxIsAdd (Approx.step 100)) (inPlace ⟨some 1, r⟩ 0) ops) =
      some [[some ⟨1, 10⟩, some ⟨2, 14⟩]] ∧
    approxOutputs (runE (call approxIsAdd (Approx.step 100)) (assignAndInit approxAssign ⟨some 0, l⟩ ⟨some 1, r⟩ 0) ops) =
      some [[some ⟨7, 70⟩, some ⟨8, 72⟩]] :=
  ⟨_, _, [.add 0 ⟨4, 30⟩], rfl, rfl, by decide, by decide⟩

/-- The hypotheses of `C76_approximate_partial` are met by a policy with a waiting message, assigned over one that holds a
candidate; the synchronizer outputs a set later. -/
example : ∃ (l r : Approx.State 2), Approx.runOps 100 ⟨10, 50, id, fun _ => 0⟩ candidateOps = .ok l ∧
    Approx.runOps 100 ⟨10, 50, id, fun _ => 0⟩ [.add 0 ⟨7, 70⟩] = .ok r ∧ (r.deques 1 = [] ∧ r.past 1 = []) ∧
    l.cand 0 = some ⟨1, 10⟩ ∧
    approxOutputs (runE (call approxIsAdd (Approx.step 100)) (assignAndInit approxAssign ⟨some 0, l⟩ ⟨some 1, r⟩ 0)
      [.add 1 ⟨8, 70⟩]) = some [[some ⟨7, 70⟩, some ⟨8, 70⟩]] :=
  ⟨_, _, rfl, rfl, ⟨rfl, rfl⟩, by decide, by decide⟩

theorem inputsWaiting_eq (s : Epsilon.State n) : inputsWaiting s = Epsilon.nonEmpty s.events := by
  unfold inputsWaiting Epsilon.nonEmpty
  congr 1
  funext i
  cases s.events i <;> rfl

/-- **C76** for ApproximateEpsilonTime, with `init()`, what holds: if the synchronizer and the assigned policy have messages
waiting on the same number of inputs, the synchronizer goes on exactly as the assigned policy would.  Missing: different numbers
(see `C76_epsilon_dead`). -/
theorem C76_epsilon_partial [NeZero n] (fuel q q' : Nat) (eps eps' : Int) (hist hist' : List (Fin n × Ev))
    (lhs rhs : Obj (Epsilon.State n)) (hl : Epsilon.run fuel (Epsilon.construct n q eps) hist = .ok lhs.core)
    (hr : Epsilon.run fuel (Epsilon.construct n q' eps') hist' = .ok rhs.core)
    (hw : inputsWaiting lhs.core = inputsWaiting rhs.core) (sync : Nat) (ops : List (Fin n × Ev)) :
    runE (call (fun _ => true) (fun s (op : Fin n × Ev) => Epsilon.add fuel s op.1 op.2))
        (assignAndInit epsilonAssign lhs rhs sync) ops =
      runE (call (fun _ => true) (fun s (op : Fin n × Ev) => Epsilon.add fuel s op.1 op.2)) (inPlace rhs sync) ops := by
  have h1 := (Epsilon.run_inv hl).1.num
  have h2 := (Epsilon.run_inv hr).1.num
  rw [inputsWaiting_eq, inputsWaiting_eq] at hw
  have h3 : lhs.core.num = rhs.core.num := by rw [h1, h2, hw]
  have h4 : epsilonAssign lhs.core rhs.core = rhs.core := by
    unfold epsilonAssign
    rw [h3]
  unfold assignAndInit assignObj initParent inPlace
  rw [h4]

/-- **C76** for ApproximateEpsilonTime, with `init()`, what goes wrong: if the numbers of inputs with waiting messages differ,
the synchronizer never outputs anything again, whatever arrives.  That includes assigning a fresh policy to a synchronizer with
a waiting message. -/
theorem C76_epsilon_dead [NeZero n] (fuel q q' : Nat) (eps eps' : Int) (hist hist' : List (Fin n × Ev))
    (lhs rhs : Obj (Epsilon.State n)) (hl : Epsilon.run fuel (Epsilon.construct n q eps) hist = .ok lhs.core)
    (hr : Epsilon.run fuel (Epsilon.construct n q' eps') hist' = .ok rhs.core)
    (hw : inputsWaiting lhs.core ≠ inputsWaiting rhs.core) (sync : Nat) (ops : List (Fin n × Ev)) (o : Obj (Epsilon.State n))
    (ho : runE (call (fun _ => true) (fun s (op : Fin n × Ev) => Epsilon.add fuel s op.1 op.2))
        (assignAndInit epsilonAssign lhs rhs sync) ops = .ok o) : o.core.out = rhs.core.out := by
  have h1 := (Epsilon.run_inv hl).1.num
  have hri := (Epsilon.run_inv hr).1
  rw [inputsWaiting_eq, inputsWaiting_eq] at hw
  rcases Nat.lt_or_gt_of_ne hw with hlt | hgt
  · have hpos : 0 < Epsilon.nonEmpty rhs.core.events := by omega
    obtain ⟨j, _, hj⟩ := List.countP_pos_iff.1 hpos
    have hj : rhs.core.events j ≠ [] := by intro h0; rw [h0] at hj; cases hj
    refine (runE_inv (I := fun o : Obj (Epsilon.State n) => Dead j rhs.core.out o.core) ?_ ops _ o ?_ ho).out
    · intro s op s' hs hc
      obtain ⟨t, g1, g2⟩ := dead_step (fuel := fuel) hs op
      have := (call_ok hc).2.1
      rw [g1] at this
      cases this
      exact g2
    · refine ⟨?_, hj, ?_, rfl⟩
      · show lhs.core.num < Epsilon.nonEmpty rhs.core.events
        omega
      · show 0 < rhs.core.queueSize
        have := hri.bound j
        have : 0 < (rhs.core.events j).length := List.length_pos_iff.2 hj
        omega
  · refine (runE_inv (I := fun o : Obj (Epsilon.State n) =>
      o.core.num - Epsilon.nonEmpty o.core.events = (Epsilon.nonEmpty lhs.core.events : Int) - Epsilon.nonEmpty rhs.core.events ∧
      o.core.out = rhs.core.out) ?_ ops _ o ?_ ho).2
    · intro s op s' ⟨hs, hs'⟩ hc
      obtain ⟨g1, g2⟩ := Epsilon.add_over (by omega) hs op.1 op.2 (call_ok hc).2.1
      exact ⟨g1, g2.trans hs'⟩
    · refine ⟨?_, rfl⟩
      show lhs.core.num - (Epsilon.nonEmpty rhs.core.events : Int) = _
      rw [h1]

/-- The identities of the messages of the sets output by a history of an ApproximateEpsilonTime object, and of those waiting. -/
def epsilonView (r : Except Fault (Obj (Epsilon.State n))) : Option (List (List (Option Nat)) × List (List Nat)) :=
  match r with
  | .ok o => some (o.core.out.map (fun t => List.ofFn (fun i => (t i).map (·.id))),
      List.ofFn (fun i => (o.core.events i).map (·.id)))
  | .error _ => none

/-- C76 is false for ApproximateEpsilonTime even with `init()`: a fresh policy is assigned to a synchronizer with one waiting
message.  Of the next two messages, which match, the fresh policy makes a set; the synchronizer loses both. -/
theorem C76_epsilon_violated : ∃ (l : Epsilon.State 2) (ops : List (Fin 2 × Ev)),
    Epsilon.run 10 (Epsilon.construct 2 5 3) [(0, ⟨1, 10⟩)] = .ok l ∧
    epsilonView (runE (call (fun _ => true) (fun s (op : Fin 2 × Ev) => Epsilon.add 10 s op.1 op.2))
      (inPlace ⟨none, Epsilon.construct 2 5 3⟩ 0) ops) = some ([[some 2, some 3]], [[], []]) ∧
    epsilonView (runE (call (fun _ => true) (fun s (op : Fin 2 × Ev) => Epsilon.add 10 s op.1 op.2))
      (assignAndInit epsilonAssign ⟨some 0, l⟩ ⟨none, Epsilon.construct 2 5 3⟩ 0) ops) = some ([], [[], []]) :=
  ⟨_, [(0, ⟨2, 20⟩), (1, ⟨3, 20⟩)], rfl, by decide, by decide⟩

/-- The hypotheses of `C76_epsilon_partial` are met with one input waiting on each side; queue size and epsilon become those
of the assigned policy, and its waiting message is matched. -/
example : ∃ (l r : Epsilon.State 2), Epsilon.run 10 (Epsilon.construct 2 5 0) [(0, ⟨1, 10⟩)] = .ok l ∧
    Epsilon.run 10 (Epsilon.construct 2 7 3) [(1, ⟨2, 30⟩)] = .ok r ∧ inputsWaiting l = inputsWaiting r ∧
    epsilonView (runE (call (fun _ => true) (fun s (op : Fin 2 × Ev) => Epsilon.add 10 s op.1 op.2))
      (assignAndInit epsilonAssign ⟨some 0, l⟩ ⟨some 1, r⟩ 0) [(0, ⟨3, 32⟩)]) = some ([[some 3, some 2]], [[], []]) :=
  ⟨_, _, rfl, rfl, by decide, by decide⟩

/-- The hypotheses of `C76_epsilon_dead` are met on both sides of the difference. -/
example : ∃ (l r : Epsilon.State 2), Epsilon.run 10 (Epsilon.construct 2 5 3) [(0, ⟨1, 10⟩)] = .ok l ∧
    Epsilon.run 10 (Epsilon.construct 2 5 3) [] = .ok r ∧ inputsWaiting r < inputsWaiting l := ⟨_, _, rfl, rfl, by decide⟩

section
variable {D : Type} [Latest.Arith D]

/-- **C76** for LatestTime, with `init()`: in every respect, the synchronizer is one with the assigned policy and its own rate
configuration (that of the assigned policy is left behind). -/
theorem C76_latest (dflt : Latest.Config D) (lhs rhs : Obj (Latest.State n D)) (sync : Nat) (ops : List (LatestOp n D)) :
    runE (call LatestOp.isAdd (latestStep dflt)) (assignAndInit latestAssign lhs rhs sync) ops =
      runE (call LatestOp.isAdd (latestStep dflt))
        (inPlace ⟨rhs.parent, { rhs.core with configs := lhs.core.configs }⟩ sync) ops := rfl

end

/-- `C76_latest` in use: the synchronizer was configured with a large margin, the assigned policy with none; the pivot is
waited for, as in `C38_latest_violated` with that margin. -/
example : latestOutputs (runE (call LatestOp.isAdd (latestStep Latest.Fixed.dflt))
    (assignAndInit latestAssign
      ⟨some 0, Latest.setRateConfig (Latest.construct 2 Latest.Fixed) ⟨⟨900000000⟩, ⟨300000000⟩, ⟨100000000000⟩⟩⟩
      ⟨none, Latest.construct 2 Latest.Fixed⟩ 0) (feed stopping)) = some [[3, 2], [4, 2]] := by
  decide

end MF.Copy
