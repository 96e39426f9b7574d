import Verif.Proofs.PolicyCopy
/-
Properties C38 (a Synchronizer built from a configured policy behaves like that policy), C60 (the same for a policy that is
already in use) and C61 (messages arriving while a Synchronizer is being constructed).
-/
namespace MF.Copy

variable {n : Nat}

/-- **C38** for ApproximateTime.  Whatever was configured on the policy object, the synchronizer built from it answers every
history of calls exactly like the policy object itself would. -/
theorem C38_approximate [NeZero n] (fuel : Nat) (cfg : Approx.Cfg n) (fresh : Approx.State n)
    (hf : Approx.construct n cfg = .ok fresh) (setup : List (Approx.Op n)) (p : Obj (Approx.State n))
    (hp : StandAlone approxIsAdd (Approx.step fuel) fresh setup p) (sync : Nat) (ops : List (Approx.Op n)) :
    runE (call approxIsAdd (Approx.step fuel)) (synchronizer approxCopy p sync) ops =
      runE (call approxIsAdd (Approx.step fuel)) (inPlace p sync) ops := by
  have h0 : fresh.cand = fun _ => none := by
    unfold Approx.construct at hf
    split at hf
    · cases hf; rfl
    · cases hf
  have := (standAlone_inv (I := fun s : Approx.State n => s.cand = fun _ => none) ?_ h0 hp).1
  · unfold synchronizer inPlace initParent
    rw [approxCopy_eq this]
  · intro s op s' hs ha h
    cases op with
    | add i e => cases ha
    | setAgePenalty nonneg scale => simp only [Approx.step] at h; split at h <;> cases h; exact hs
    | setInterMessageLowerBound i d => simp only [Approx.step] at h; split at h <;> cases h; exact hs
    | setMaxIntervalDuration d => simp only [Approx.step] at h; split at h <;> cases h; exact hs

/-- **C38** for ApproximateEpsilonTime: queue size and epsilon are kept. -/
theorem C38_epsilon (fuel queueSize : Nat) (epsilon : Int) (setup : List (Fin n × Ev)) (p : Obj (Epsilon.State n))
    (hp : StandAlone (fun _ => true) (fun s (op : Fin n × Ev) => Epsilon.add fuel s op.1 op.2)
      (Epsilon.construct n queueSize epsilon) setup p) (sync : Nat) (ops : List (Fin n × Ev)) :
    runE (call (fun _ => true) (fun s (op : Fin n × Ev) => Epsilon.add fuel s op.1 op.2))
        (synchronizer epsilonCopy p sync) ops =
      runE (call (fun _ => true) (fun s (op : Fin n × Ev) => Epsilon.add fuel s op.1 op.2)) (inPlace p sync) ops := by
  have := (standAlone_inv (I := fun s : Epsilon.State n => s.num = 0) ?_ rfl hp).1
  · have he : epsilonCopy p.core = p.core := by
      cases hc : p.core; rw [hc] at this; simp only at this; subst this; rfl
    unfold synchronizer inPlace initParent
    rw [he]
  · intro s op s' _ ha _; cases ha

/-- The configuration of a sample ApproximateTime policy: everything changed from its default. -/
def sampleSetup : List (Approx.Op 2) :=
  [.setAgePenalty true (fun x => 2 * x), .setInterMessageLowerBound 1 5, .setMaxIntervalDuration 7]

/-- The hypotheses of `C38_approximate` are met by a policy with every setting changed. -/
example : ∃ p, StandAlone approxIsAdd (Approx.step 10) (Approx.init ⟨3, 50, id, fun _ => 0⟩) sampleSetup p ∧
    p.core.cfg.maxInterval = 7 ∧ p.core.cfg.lower 1 = 5 ∧ p.core.cfg.scale 4 = 8 ∧ p.core.cfg.queueSize = 3 :=
  ⟨_, rfl, rfl, rfl, rfl, rfl⟩

/-- The hypotheses of `C38_epsilon` are met by the constructed policy. -/
example : StandAlone (fun _ => true) (fun s (op : Fin 2 × Ev) => Epsilon.add 10 s op.1 op.2) (Epsilon.construct 2 3 4) []
    ⟨none, Epsilon.construct 2 3 4⟩ := rfl

/-- Everything but the drop callbacks survives the copy of an ExactTime policy. -/
theorem exact_core_sim [NeZero n] (s t : Exact n) (op : ExactOp n) (h : s.core = t.core) :
    (∃ f, s.step op = .error f ∧ t.step op = .error f) ∨
    ∃ s' t', s.step op = .ok s' ∧ t.step op = .ok t' ∧ s'.core = t'.core := by
  cases op with
  | registerDropCallback c => exact Or.inr ⟨_, _, rfl, rfl, h⟩
  | add i e =>
    simp only [Exact.step, h]
    cases ExactTime.add t.core i e with
    | error f => exact Or.inl ⟨f, rfl, rfl⟩
    | ok c => exact Or.inr ⟨_, _, rfl, rfl, rfl⟩

/-- **C38** for ExactTime, what holds: the outputs, the dropped sets and the whole matching state of the synchronizer are those
of the policy object.  Missing: the drop callbacks registered on the policy object (see `C38_exact_violated`). -/
theorem C38_exact_partial [NeZero n] (queueSize : Nat) (setup : List (ExactOp n)) (p : Obj (Exact n))
    (_hp : StandAlone ExactOp.isAdd Exact.step (Exact.construct n queueSize) setup p) (sync : Nat) (ops : List (ExactOp n)) :
    observe (fun x => x.core) (runE (call ExactOp.isAdd Exact.step) (synchronizer Exact.copy p sync) ops) =
      observe (fun x => x.core) (runE (call ExactOp.isAdd Exact.step) (inPlace p sync) ops) :=
  observe_sim (isAdd := ExactOp.isAdd) (R := fun s t : Exact n => s.core = t.core) exact_core_sim (fun _ _ h => h) sync
    (Exact.copy p.core) p.core rfl ops

theorem exact_standAlone [NeZero n] {queueSize : Nat} {setup : List (ExactOp n)} {p : Obj (Exact n)}
    (hp : StandAlone ExactOp.isAdd Exact.step (Exact.construct n queueSize) setup p) :
    p.core.core = ExactTime.construct n queueSize ∧ p.core.calls = [] := by
  refine (standAlone_inv (I := fun x : Exact n => x.core = ExactTime.construct n queueSize ∧ x.calls = []) ?_ ⟨rfl, rfl⟩ hp).1
  intro s op s' hs ha h
  cases op with
  | registerDropCallback c => cases h; exact hs
  | add i e => cases ha

/-- **C38** for ExactTime, what is lost: the synchronizer behaves in every respect as if no drop callback had ever been
registered on the policy object. -/
theorem C38_exact_forgets_drop_callbacks [NeZero n] (queueSize : Nat) (setup : List (ExactOp n)) (p : Obj (Exact n))
    (hp : StandAlone ExactOp.isAdd Exact.step (Exact.construct n queueSize) setup p) (sync : Nat) (ops : List (ExactOp n)) :
    runE (call ExactOp.isAdd Exact.step) (synchronizer Exact.copy p sync) ops =
      runE (call ExactOp.isAdd Exact.step) (inPlace ⟨none, Exact.construct n queueSize⟩ sync) ops := by
  obtain ⟨h1, h2⟩ := exact_standAlone hp
  have : Exact.copy p.core = Exact.construct n queueSize := by
    unfold Exact.copy Exact.assign
    rw [h1, h2]; rfl
  unfold synchronizer inPlace initParent
  rw [this]

/-- **C38** for ExactTime: only drop callbacks registered on the synchronizer itself are ever called. -/
theorem C38_exact_drop_callbacks_called [NeZero n] (queueSize : Nat) (setup : List (ExactOp n)) (p o : Obj (Exact n))
    (hp : StandAlone ExactOp.isAdd Exact.step (Exact.construct n queueSize) setup p) (sync : Nat) (ops : List (ExactOp n))
    (ho : runE (call ExactOp.isAdd Exact.step) (synchronizer Exact.copy p sync) ops = .ok o) :
    ∀ c t, (c, t) ∈ o.core.calls → c ∈ registered ops := by
  rw [C38_exact_forgets_drop_callbacks queueSize setup p hp sync ops] at ho
  suffices h : o.core.dropCallbacks = registered ops ∧ ∀ c t, (c, t) ∈ o.core.calls → c ∈ registered ops from h.2
  revert ho
  revert ops o
  intro o ops
  revert ops o
  have := runE_induction (step := call ExactOp.isAdd Exact.step) (s0 := inPlace ⟨none, Exact.construct n queueSize⟩ sync)
    (P := fun ops (o : Obj (Exact n)) =>
      o.core.dropCallbacks = registered ops ∧ ∀ c t, (c, t) ∈ o.core.calls → c ∈ registered ops) ?_ ?_
  · exact fun o ops => this ops o
  · exact ⟨rfl, fun c t h => by cases h⟩
  · intro ops s op s' _ ⟨h1, h2⟩ h
    obtain ⟨_, h3, _⟩ := call_ok h
    have happ : registered (ops ++ [op]) = registered ops ++ registered [op] := by simp [registered]
    rw [happ]
    cases op with
    | registerDropCallback c =>
      simp only [Exact.step, Except.ok.injEq] at h3
      rw [← h3]
      exact ⟨by rw [h1]; rfl, fun c' t ht => List.mem_append.2 (Or.inl (h2 c' t ht))⟩
    | add i e =>
      have hnil : registered [ExactOp.add i e] = [] := rfl
      rw [hnil, List.append_nil]
      simp only [Exact.step] at h3
      cases ha : ExactTime.add s.core.core i e with
      | error f => rw [ha] at h3; cases h3
      | ok c =>
        rw [ha] at h3
        simp only [Except.ok.injEq] at h3
        rw [← h3]
        refine ⟨h1, ?_⟩
        intro c' t ht
        rcases List.mem_append.1 ht with ht | ht
        · exact h2 c' t ht
        · obtain ⟨t', _, ht'⟩ := List.mem_flatMap.1 ht
          obtain ⟨c'', hc, heq⟩ := List.mem_map.1 ht'
          cases heq
          rw [← h1]; exact hc

/-- The drop callbacks called by a history, in order. -/
def dropCalls (r : Except Fault (Obj (Exact n))) : Option (List Nat) :=
  match r with
  | .ok o => some (o.core.calls.map (·.1))
  | .error _ => none

/-- C38 is false for ExactTime: a drop callback registered on the policy object is called if the object itself is used and is
not called by the synchronizer built from it. -/
theorem C38_exact_violated : ∃ (setup : List (ExactOp 2)) (p : Obj (Exact 2)) (ops : List (ExactOp 2)),
    StandAlone ExactOp.isAdd Exact.step (Exact.construct 2 1) setup p ∧
    dropCalls (runE (call ExactOp.isAdd Exact.step) (inPlace p 0) ops) = some [7] ∧
    dropCalls (runE (call ExactOp.isAdd Exact.step) (synchronizer Exact.copy p 0) ops) = some [] :=
  ⟨[.registerDropCallback 7], _, [.add 0 ⟨1, 10⟩, .add 0 ⟨2, 20⟩], rfl, by decide, by decide⟩

section
variable {D : Type} [Latest.Arith D]

/-- **C38** for LatestTime, what is lost: whatever rate configuration was set on the policy object, the synchronizer built
from it behaves as if none had been set. -/
theorem C38_latest_forgets_rate_config (dflt : Latest.Config D) (setup : List (LatestOp n D)) (p : Obj (Latest.State n D))
    (hp : StandAlone LatestOp.isAdd (latestStep dflt) (Latest.construct n D) setup p) (sync : Nat)
    (ops : List (LatestOp n D)) :
    runE (call LatestOp.isAdd (latestStep dflt)) (synchronizer latestCopy p sync) ops =
      runE (call LatestOp.isAdd (latestStep dflt)) (inPlace ⟨none, Latest.construct n D⟩ sync) ops := by
  have := (standAlone_inv (I := fun s : Latest.State n D => s.events = (fun _ => none) ∧ s.rates = [] ∧ s.out = []) ?_
    ⟨rfl, rfl, rfl⟩ hp).1
  · obtain ⟨h1, h2, h3⟩ := this
    have he : latestCopy p.core = Latest.construct n D := by
      unfold latestCopy latestAssign Latest.construct
      rw [h1, h2, h3]
    unfold synchronizer inPlace initParent
    rw [he]
  · intro s op s' hs ha h
    cases op with
    | add op => cases ha
    | setRateConfig c => cases h; exact hs
    | setRateConfigPerMessage c => cases h; exact hs

/-- **C38** for LatestTime, what holds: if no rate configuration was set on the policy object, the synchronizer behaves like
it.  Missing: the rate configuration (see `C38_latest_violated`). -/
theorem C38_latest_partial (dflt : Latest.Config D) (setup : List (LatestOp n D)) (p : Obj (Latest.State n D))
    (hp : StandAlone LatestOp.isAdd (latestStep dflt) (Latest.construct n D) setup p) (hc : setup = []) (sync : Nat)
    (ops : List (LatestOp n D)) :
    runE (call LatestOp.isAdd (latestStep dflt)) (synchronizer latestCopy p sync) ops =
      runE (call LatestOp.isAdd (latestStep dflt)) (inPlace p sync) ops := by
  rw [C38_latest_forgets_rate_config dflt setup p hp sync ops]
  subst hc
  cases hp
  rfl

/-- **C38** for LatestTime, the remedy: the same configuration calls made on the synchronizer have the effect they would have
had on the policy object. -/
theorem C38_latest_configure_afterwards (dflt : Latest.Config D) (setup : List (LatestOp n D)) (p q : Obj (Latest.State n D))
    (hp : StandAlone LatestOp.isAdd (latestStep dflt) (Latest.construct n D) setup p)
    (_hq : StandAlone LatestOp.isAdd (latestStep dflt) (Latest.construct n D) [] q) (sync : Nat) (ops : List (LatestOp n D)) :
    runE (call LatestOp.isAdd (latestStep dflt)) (synchronizer latestCopy q sync) (setup ++ ops) =
      runE (call LatestOp.isAdd (latestStep dflt)) (inPlace p sync) ops := by
  cases _hq
  rw [runE_append]
  have key : ∀ (setup : List (LatestOp n D)) (s : Latest.State n D) (p : Obj (Latest.State n D)),
      runE (call LatestOp.isAdd (latestStep dflt)) ⟨none, s⟩ setup = .ok p →
      runE (call LatestOp.isAdd (latestStep dflt)) ⟨some sync, s⟩ setup = .ok (inPlace p sync) := by
    intro setup
    induction setup with
    | nil => intro s p h; cases h; rfl
    | cons op setup ih =>
      intro s p h
      cases op with
      | add op => simp [runE, call, LatestOp.isAdd] at h
      | setRateConfig c => exact ih _ p h
      | setRateConfigPerMessage c => exact ih _ p h
  have h1 : runE (call LatestOp.isAdd (latestStep dflt))
      (synchronizer latestCopy { parent := none, core := Latest.construct n D } sync) setup = .ok (inPlace p sync) := key _ _ _ hp
  rw [h1]

end

/-- The messages (identities) of the sets output by a history of a LatestTime object. -/
def latestOutputs {D : Type} (r : Except Fault (Obj (Latest.State n D))) : Option (List (List Nat)) :=
  match r with
  | .ok o => some (o.core.out.map (fun t => (List.finRange n).map (fun i => (t i).id)))
  | .error _ => none

/-- Two inputs; input 0 has two regular messages and then stops. -/
def stopping : List (Latest.Op 2) :=
  [⟨0, ⟨1, 0⟩, ⟨1000000000, .ros⟩⟩, ⟨1, ⟨2, 0⟩, ⟨1050000000, .ros⟩⟩, ⟨0, ⟨3, 0⟩, ⟨1100000000, .ros⟩⟩,
   ⟨0, ⟨4, 0⟩, ⟨1205000000, .ros⟩⟩, ⟨1, ⟨5, 0⟩, ⟨1250000000, .ros⟩⟩, ⟨1, ⟨6, 0⟩, ⟨1500000000, .ros⟩⟩]

/-- C38 is false for LatestTime: with a large margin configured on the policy object, that object waits for its stopped
pivot, while the synchronizer built from it switches to the other input, as with the default margin. -/
theorem C38_latest_violated : ∃ (setup : List (LatestOp 2 Latest.Fixed)) (p : Obj (Latest.State 2 Latest.Fixed)),
    StandAlone LatestOp.isAdd (latestStep Latest.Fixed.dflt) (Latest.construct 2 Latest.Fixed) setup p ∧
    latestOutputs (runE (call LatestOp.isAdd (latestStep Latest.Fixed.dflt)) (inPlace p 0) (feed stopping)) =
      some [[3, 2], [4, 2]] ∧
    latestOutputs (runE (call LatestOp.isAdd (latestStep Latest.Fixed.dflt)) (synchronizer latestCopy p 0) (feed stopping)) =
      some [[3, 2], [4, 2], [4, 6]] :=
  ⟨[.setRateConfig ⟨⟨900000000⟩, ⟨300000000⟩, ⟨100000000000⟩⟩], _, rfl, by decide, by decide⟩

/-- **C60** for ExactTime.  A synchronizer built from a policy in use (for instance from `*other.getPolicy()`) goes on exactly
where that policy stood: same outputs, same dropped sets. -/
theorem C60_exact [NeZero n] (used : Obj (Exact n)) (sync : Nat) (ops : List (ExactOp n)) :
    observe (fun x => x.core) (runE (call ExactOp.isAdd Exact.step) (synchronizer Exact.copy used sync) ops) =
      observe (fun x => x.core) (runE (call ExactOp.isAdd Exact.step) (inPlace used sync) ops) :=
  observe_sim (isAdd := ExactOp.isAdd) (R := fun s t : Exact n => s.core = t.core) exact_core_sim (fun _ _ h => h) sync
    (Exact.copy used.core) used.core rfl ops

/-- **C60** for ApproximateTime, what holds: as long as some input has no waiting message, the copy goes on where the policy
stood.  Missing: policies holding a candidate set (see `C60_approximate_violated`). -/
theorem C60_approximate_partial [NeZero n] (fuel : Nat) (cfg : Approx.Cfg n) (hist : List (Approx.Op n))
    (s : Approx.State n) (h : Approx.runOps fuel cfg hist = .ok s) (hw : ∃ i, s.deques i = [] ∧ s.past i = []) (old sync : Nat)
    (ops : List (Approx.Op n)) :
    runE (call approxIsAdd (Approx.step fuel)) (synchronizer approxCopy ⟨some old, s⟩ sync) ops =
      runE (call approxIsAdd (Approx.step fuel)) (inPlace ⟨some old, s⟩ sync) ops := by
  have hq : 0 < cfg.queueSize := by
    apply Classical.byContradiction
    intro hn
    unfold Approx.runOps Approx.construct at h
    rw [if_neg hn] at h; cases h
  unfold Approx.runOps at h
  rw [Approx.construct_eq cfg hq] at h
  have h : runE (Approx.step fuel) (Approx.init cfg) hist = .ok s := h
  have hc : s.cand = fun _ => none := by
    apply Approx.runE_noCand fuel cfg hq hist s h
    cases hp : s.pivot with
    | none => rfl
    | some p =>
      obtain ⟨c, hc, _⟩ := (Approx.runE_spec fuel cfg hq hist s h).1.loop.pivoted p hp
      obtain ⟨i, h1, h2⟩ := hw
      obtain ⟨tl, htl⟩ := hc.head i
      simp [Approx.view, h1, h2] at htl
  unfold synchronizer inPlace initParent
  rw [approxCopy_eq hc]

/-- The sets output by a history of an ApproximateTime object. -/
def approxOutputs (r : Except Fault (Obj (Approx.State n))) : Option (List (List (Option Ev))) :=
  match r with
  | .ok o => some (o.core.out.map List.ofFn)
  | .error _ => none

/-- A history in which a candidate (10 with 14) is found but not yet proved best. -/
def candidateOps : List (Approx.Op 2) := [.add 0 ⟨1, 10⟩, .add 1 ⟨2, 14⟩]

/-- C60 is false for ApproximateTime: the policy would output the set (10, 14); its copy outputs a set of null messages. -/
theorem C60_approximate_violated : ∃ (s : Approx.State 2) (ops : List (Approx.Op 2)),
    Approx.runOps 100 ⟨10, 50, id, fun _ => 0⟩ candidateOps = .ok s ∧
    approxOutputs (runE (call approxIsAdd (Approx.step 100)) (inPlace ⟨some 0, s⟩ 1) ops) =
      some [[some ⟨1, 10⟩, some ⟨2, 14⟩]] ∧
    approxOutputs (runE (call approxIsAdd (Approx.step 100)) (synchronizer approxCopy ⟨some 0, s⟩ 1) ops) =
      some [[none, none]] :=
  ⟨_, [.add 0 ⟨4, 30⟩], rfl, by decide, by decide⟩

/-- The hypotheses of `C60_approximate_partial` are met with messages waiting on one input. -/
example : ∃ s, Approx.runOps 100 ⟨10, 50, id, fun _ => 0⟩ ([.add 0 ⟨1, 10⟩, .add 0 ⟨2, 12⟩] : List (Approx.Op 2)) = .ok s ∧
    (s.deques 1 = [] ∧ s.past 1 = []) ∧ s.deques 0 = [⟨1, 10⟩, ⟨2, 12⟩] :=
  ⟨_, rfl, ⟨rfl, rfl⟩, by decide⟩

/-- **C60** for ApproximateEpsilonTime, what holds: the copy of a policy with no waiting message goes on where the policy
stood.  Missing: policies with waiting messages, of which `C60_epsilon_dead` says what happens. -/
theorem C60_epsilon_partial [NeZero n] (fuel queueSize : Nat) (epsilon : Int) (hist : List (Fin n × Ev)) (s : Epsilon.State n)
    (h : Epsilon.run fuel (Epsilon.construct n queueSize epsilon) hist = .ok s) (hw : ∀ i, s.events i = []) (old sync : Nat)
    (ops : List (Fin n × Ev)) :
    runE (call (fun _ => true) (fun s (op : Fin n × Ev) => Epsilon.add fuel s op.1 op.2))
        (synchronizer epsilonCopy ⟨some old, s⟩ sync) ops =
      runE (call (fun _ => true) (fun s (op : Fin n × Ev) => Epsilon.add fuel s op.1 op.2))
        (inPlace ⟨some old, s⟩ sync) ops := by
  have hi := (Epsilon.run_inv h).1
  have h0 : s.num = 0 := by
    rw [hi.num]
    have : Epsilon.nonEmpty s.events = 0 := by
      unfold Epsilon.nonEmpty
      rw [List.countP_eq_zero]
      intro i _; simp [hw i]
    rw [this]; rfl
  have he : epsilonCopy s = s := by
    cases s; simp only at h0; subst h0; rfl
  unfold synchronizer inPlace initParent
  simp only [he]

/-- **C60** for ApproximateEpsilonTime, what goes wrong: if a message is waiting on any input when the policy is copied, the
copy never outputs anything again, whatever arrives. -/
theorem C60_epsilon_dead [NeZero n] (fuel queueSize : Nat) (epsilon : Int) (hist : List (Fin n × Ev)) (s : Epsilon.State n)
    (h : Epsilon.run fuel (Epsilon.construct n queueSize epsilon) hist = .ok s) (hw : ∃ i, s.events i ≠ []) (old sync : Nat)
    (ops : List (Fin n × Ev)) :
    ∃ o, runE (call (fun _ => true) (fun s (op : Fin n × Ev) => Epsilon.add fuel s op.1 op.2))
        (synchronizer epsilonCopy ⟨some old, s⟩ sync) ops = .ok o ∧ o.core.out = s.out := by
  have hi := (Epsilon.run_inv h).1
  obtain ⟨j, hj⟩ := hw
  have hd : Dead j s.out (epsilonCopy s) := by
    refine ⟨?_, hj, ?_, rfl⟩
    · show (0 : Int) < Epsilon.nonEmpty s.events
      have : 0 < Epsilon.nonEmpty s.events := by
        unfold Epsilon.nonEmpty
        rw [List.countP_pos_iff]
        refine ⟨j, List.mem_finRange j, ?_⟩
        cases hv : s.events j with
        | nil => exact absurd hv hj
        | cons x tl => rfl
      omega
    · show 0 < s.queueSize
      have := hi.bound j
      have : 0 < (s.events j).length := List.length_pos_iff.2 hj
      omega
  obtain ⟨s', h1, h2⟩ := runE_ok (I := Dead j s.out) (step := fun s (op : Fin n × Ev) => Epsilon.add fuel s op.1 op.2)
    (fun s op hs => dead_step hs op) ops _ hd
  refine ⟨⟨some sync, s'⟩, ?_, h2.out⟩
  show runE (call _ _) { parent := some sync, core := epsilonCopy s } ops = _
  rw [run_call, h1]

/-- The two cases of C60 for ApproximateEpsilonTime, and what the policy itself would have output. -/
example : ∃ s, Epsilon.run 10 (Epsilon.construct 2 5 3) [(0, ⟨1, 10⟩)] = .ok s ∧ s.events 0 ≠ [] ∧
    (match Epsilon.run 10 s [(1, ⟨2, 11⟩)] with | .ok s' => s'.out.map List.ofFn | .error _ => []) =
      [[some ⟨1, 10⟩, some ⟨2, 11⟩]] :=
  ⟨_, rfl, by decide, by decide⟩

example : ∃ s, Epsilon.run 10 (Epsilon.construct 2 5 3) [(0, ⟨1, 10⟩), (1, ⟨2, 11⟩)] = .ok s ∧ ∀ i, s.events i = [] :=
  ⟨_, rfl, by decide⟩

section
variable {D : Type} [Latest.Arith D]

/-- What an observer sees of a LatestTime policy: the sets output so far, the latest messages and the rate estimates. -/
def latestView (s : Latest.State n D) : List (Fin n → Ev) × (Fin n → Option Ev) × List (Latest.Rate D) :=
  (s.out, s.events, s.rates)

/-- **C60** for LatestTime.  If every input has delivered before the policy is copied, the copy goes on exactly where the
policy stood (the lost rate configuration is needed at first messages only). -/
theorem C60_latest (dflt : Latest.Config D) (s : Latest.State n D) (hall : ∀ i, s.events i ≠ none) (old sync : Nat)
    (ops : List (LatestOp n D)) :
    observe latestView (runE (call LatestOp.isAdd (latestStep dflt)) (synchronizer latestCopy ⟨some old, s⟩ sync) ops) =
      observe latestView (runE (call LatestOp.isAdd (latestStep dflt)) (inPlace ⟨some old, s⟩ sync) ops) := by
  refine observe_sim (isAdd := LatestOp.isAdd) (step := latestStep dflt) (step' := latestStep dflt) (obs := latestView)
    (obs' := latestView) (R := fun s t : Latest.State n D =>
    s.events = t.events ∧ s.rates = t.rates ∧ s.out = t.out ∧ ∀ i, s.events i ≠ none) ?_ ?_ sync (latestCopy s) s ⟨rfl, rfl, rfl, hall⟩ ops
  · intro s t op ⟨h1, h2, h3, h4⟩
    cases op with
    | setRateConfig c => exact Or.inr ⟨_, _, rfl, rfl, h1, h2, h3, h4⟩
    | setRateConfigPerMessage c => exact Or.inr ⟨_, _, rfl, rfl, h1, h2, h3, h4⟩
    | add op =>
      have hup : ∀ i, upd t.events op.input (some op.msg) i ≠ none := by
        intro i
        by_cases hi : i = op.input
        · subst hi; rw [upd_same]; simp
        · rw [upd_ne _ _ hi, ← h1]; exact h4 i
      simp only [latestStep, Latest.add]
      rw [h1, h2, h3]
      cases he : t.events op.input with
      | none => exact absurd (h1 ▸ he) (h4 op.input)
      | some e0 =>
        simp only
        cases hr : t.rates[op.input.val]? with
        | none => exact Or.inl ⟨_, rfl, rfl⟩
        | some r =>
          simp only
          cases hc : r.computeHz Latest.fuel op.now with
          | error f => exact Or.inl ⟨_, rfl, rfl⟩
          | ok br =>
            obtain ⟨b, r'⟩ := br
            cases b with
            | false => exact Or.inr ⟨_, _, rfl, rfl, rfl, rfl, rfl, hup⟩
            | true =>
              simp only
              cases hf : Latest.findPivot (t.rates.set op.input.val r') op.now with
              | error f => exact Or.inl ⟨_, rfl, rfl⟩
              | ok pivot =>
                simp only
                cases (if pivot = some op.input.val then Latest.full (upd t.events op.input (some op.msg)) else none) with
                | none => exact Or.inr ⟨_, _, rfl, rfl, rfl, rfl, rfl, hup⟩
                | some x => exact Or.inr ⟨_, _, rfl, rfl, rfl, rfl, rfl, hup⟩
  · intro s t ⟨h1, h2, h3, _⟩
    simp [latestView, h1, h2, h3]

end

/-- The hypothesis of `C60_latest` is met. -/
example : ∃ s, Latest.run Latest.Fixed.dflt (Latest.construct 2 Latest.Fixed) (stopping.take 4) = .ok s ∧
    ∀ i, s.events i ≠ none :=
  ⟨_, rfl, by decide⟩

/-- **C61**.  While `Synchronizer(policy, f0, f1, ...)` is being constructed from a policy of its own, the assertion on the
parent fails exactly if a message arrives on an input that is already connected before the constructor has finished.
`Ok` is any invariant of the policy under which messages are accepted. -/
theorem C61_construction_race {σ : Type} (add : σ → Fin n × Ev → Except Fault σ) (Ok : σ → Prop)
    (hadd : ∀ s op, Ok s → ∃ s', add s op = .ok s' ∧ Ok s') (s : σ) (hs : Ok s) (sync : Nat) (l : List (Building n)) :
    (EarlyMessage l → runE (Half.step add sync) ⟨⟨none, s⟩, fun _ => false⟩ l = .error .assertFailed) ∧
    (¬ EarlyMessage l → ∃ h, runE (Half.step add sync) ⟨⟨none, s⟩, fun _ => false⟩ l = .ok h) := by
  suffices h : (EarlyMessage l ∧ runE (Half.step add sync) ⟨⟨none, s⟩, fun _ => false⟩ l = .error .assertFailed) ∨
      (¬ EarlyMessage l ∧ ∃ h, runE (Half.step add sync) ⟨⟨none, s⟩, fun _ => false⟩ l = .ok h ∧ Ok h.obj.core ∧
        (h.obj.parent = none ↔ Building.init ∉ l) ∧ ∀ i, h.connected i = true ↔ Building.connect i ∈ l) by
    rcases h with ⟨h1, h2⟩ | ⟨h1, h, h2, _⟩
    · exact ⟨fun _ => h2, fun h => absurd h1 h⟩
    · exact ⟨fun h => absurd h h1, fun _ => ⟨h, h2⟩⟩
  induction l using snoc_induction with
  | h0 =>
    right
    refine ⟨?_, _, rfl, hs, by simp, by simp⟩
    rintro ⟨i, e, a, b, h, _⟩
    cases a <;> cases h
  | hs l x ih =>
    rw [runE_append]
    rcases ih with ⟨h1, h2⟩ | ⟨h1, h, h2, h3, h4, h5⟩
    · left
      rw [h2]
      obtain ⟨i, e, a, b, hl, g1, g2⟩ := h1
      exact ⟨⟨i, e, a, b ++ [x], by rw [hl]; simp, g1, g2⟩, rfl⟩
    · rw [h2]
      -- an early message in the longer list is in the shorter one, or it is the last event
      have hsplit : EarlyMessage (l ++ [x]) → ∃ i e, x = .deliver i e ∧ .connect i ∈ l ∧ .init ∉ l := by
        rintro ⟨i, e, a, b, hl, g1, g2⟩
        rcases List.eq_nil_or_concat b with hb | ⟨b', y, hb⟩
        · subst hb
          have := List.append_inj' hl rfl
          obtain ⟨e1, e2⟩ := this
          subst e1; cases e2
          exact ⟨i, e, rfl, g1, g2⟩
        · rw [List.concat_eq_append] at hb
          subst hb
          have hl : l ++ [x] = (a ++ .deliver i e :: b') ++ [y] := by rw [hl]; simp
          obtain ⟨e1, _⟩ := List.append_inj' hl rfl
          exact absurd ⟨i, e, a, b', e1, g1, g2⟩ h1
      simp only [runE]
      cases x with
      | connect i =>
        right
        refine ⟨?_, _, rfl, h3, by simp [h4], ?_⟩
        · intro he; obtain ⟨_, _, hx, _⟩ := hsplit he; cases hx
        · intro j
          simp only [List.mem_append, List.mem_singleton, Building.connect.injEq, ← h5]
          by_cases hj : j = i
          · subst hj; simp
          · simp [upd_ne _ _ hj, hj]
      | init =>
        right
        refine ⟨?_, _, rfl, h3, by simp [initParent], by simp [h5]⟩
        intro he; obtain ⟨_, _, hx, _⟩ := hsplit he; cases hx
      | deliver i e =>
        by_cases hc : h.connected i = true
        · by_cases hp : h.obj.parent = none
          · left
            refine ⟨⟨i, e, l, [], rfl, (h5 i).1 hc, h4.1 hp⟩, ?_⟩
            simp [Half.step, hc, call, hp]
          · right
            obtain ⟨s', g1, g2⟩ := hadd h.obj.core (i, e) h3
            refine ⟨?_, ⟨⟨h.obj.parent, s'⟩, h.connected⟩, ?_, g2, ?_, ?_⟩
            · intro he; obtain ⟨_, _, _, _, hx⟩ := hsplit he; exact hp (h4.2 hx)
            · simp [Half.step, hc, call, hp, g1]
            · simp [h4]
            · simp [h5]
        · right
          refine ⟨?_, h, ?_, h3, by simp [h4], by simp [h5]⟩
          · intro he
            obtain ⟨i', e', hx, hci, _⟩ := hsplit he
            cases hx
            exact hc ((h5 i).2 hci)
          · simp [Half.step, hc]

/-- **C61** for `Synchronizer<ExactTime>` (a TimeSynchronizer initialises before it connects, see C85): the condition is exact from the constructed policy on. -/
theorem C61_exact [NeZero n] (queueSize sync : Nat) (l : List (Building n)) :
    (∃ h, runE (Half.step (fun s (op : Fin n × Ev) => ExactTime.add s op.1 op.2) sync)
      ⟨⟨none, ExactTime.construct n queueSize⟩, fun _ => false⟩ l = .ok h) ↔ ¬ EarlyMessage l := by
  have := C61_construction_race (fun s (op : Fin n × Ev) => ExactTime.add s op.1 op.2) ExactTime.Inv ?_ _
    (ExactTime.inv_construct queueSize) sync l
  · obtain ⟨h1, h2⟩ := this
    refine ⟨fun ⟨h, hh⟩ he => ?_, h2⟩
    rw [h1 he] at hh; cases hh
  · intro s op hs
    obtain ⟨s', h, hi⟩ := ExactTime.run_ok hs [op]
    unfold ExactTime.run runE at h
    cases ha : ExactTime.add s op.1 op.2 with
    | error f => rw [ha] at h; cases h
    | ok s1 => rw [ha] at h; cases h; exact ⟨_, rfl, hi⟩

/-- Both cases of C61 occur. -/
example : EarlyMessage ([.connect 0, .deliver 0 ⟨1, 5⟩, .connect 1, .init] : List (Building 2)) :=
  ⟨0, ⟨1, 5⟩, [.connect 0], [.connect 1, .init], rfl, by simp, by simp⟩

example : ∃ h, runE (Half.step (fun s (op : Fin 2 × Ev) => ExactTime.add s op.1 op.2) 0)
    ⟨⟨none, ExactTime.construct 2 0⟩, fun _ => false⟩
    [.deliver 0 ⟨1, 5⟩, .connect 0, .connect 1, .init, .deliver 0 ⟨2, 6⟩, .deliver 1 ⟨3, 6⟩] = .ok h ∧
    (ExactTime.outs h.obj.core.log).map List.ofFn = [[some ⟨2, 6⟩, some ⟨3, 6⟩]] :=
  ⟨_, rfl, by decide⟩

end MF.Copy
