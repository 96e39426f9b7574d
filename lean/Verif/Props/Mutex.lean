import Verif.Proofs.Locks
import Verif.Props.ExactTime
import Verif.Props.Approx
import Verif.Props.Epsilon
import Verif.Props.Latest
import Verif.Props.Aligner
import Verif.Props.Signal
/-
C51 (calls of several threads take effect one after the other) and C62 (data races).
-/
namespace MF.Mutex

variable {σ Op L : Type}

/-- **C51**.  However the body of a call is divided into atomic steps, and however the steps of the threads are interleaved:
whenever no thread is inside a call, the state (with everything output so far) is that of one thread making the calls one
after the other, in an order in which the calls of each thread are a prefix of its program (the rest is still to be made). -/
theorem C51_linearizable {impl : Impl σ Op L} {seq : σ → Op → Except Fault σ} (himpl : Implements impl seq)
    {locked : Op → Bool} {progs : Nat → List Op} (hl : ∀ t, ∀ op ∈ progs t, locked op = true) (s0 : σ) (schedule : List Nat)
    (c : Config σ Op L) (h : exec impl locked s0 progs schedule = .ok c) (hq : Quiet c) :
    ∃ order, (∀ t, callsOf t order ++ (c.threads t).todo = progs t) ∧ sequentially seq s0 order = .ok c.shared := by
  rcases exec_lin (s0 := s0) himpl hl schedule with ⟨c', h1, h2⟩ | ⟨f, o, h1, _⟩
  · rw [h] at h1
    cases h1
    cases h2.stand with
    | free _ _ hs => exact ⟨c.order, h2.programs, hs⟩
    | held t ho o op s1 l hor hin =>
      have := hq t
      rw [hin] at this
      cases this
  · rw [h] at h1; cases h1

/-- **C51** (all calls made). -/
theorem C51_all_calls_made {impl : Impl σ Op L} {seq : σ → Op → Except Fault σ} (himpl : Implements impl seq)
    {locked : Op → Bool} {progs : Nat → List Op} (hl : ∀ t, ∀ op ∈ progs t, locked op = true) (s0 : σ) (schedule : List Nat)
    (c : Config σ Op L) (h : exec impl locked s0 progs schedule = .ok c) (hf : Finished c) :
    ∃ order, (∀ t, callsOf t order = progs t) ∧ sequentially seq s0 order = .ok c.shared := by
  obtain ⟨order, h1, h2⟩ := C51_linearizable himpl hl s0 schedule c h (fun t => (hf t).1)
  refine ⟨order, fun t => ?_, h2⟩
  have := h1 t
  rw [(hf t).2, List.append_nil] at this
  exact this

/-- **C51** (mutual exclusion).  At no moment are two threads inside a locked call, and what the thread inside has found is the
state after some sequence of complete calls. -/
theorem C51_one_at_a_time {impl : Impl σ Op L} {seq : σ → Op → Except Fault σ} (himpl : Implements impl seq)
    {locked : Op → Bool} {progs : Nat → List Op} (hl : ∀ t, ∀ op ∈ progs t, locked op = true) (s0 : σ) (schedule : List Nat)
    (c : Config σ Op L) (h : exec impl locked s0 progs schedule = .ok c) :
    (∀ t u, (c.threads t).inside ≠ none → (c.threads u).inside ≠ none → t = u) ∧
    ∀ t, (c.threads t).inside ≠ none → ∃ order op s1, (∀ u, callsOf u (order ++ [(t, op)]) ++ (c.threads u).todo = progs u) ∧
      sequentially seq s0 order = .ok s1 := by
  rcases exec_lin (s0 := s0) himpl hl schedule with ⟨c', h1, h2⟩ | ⟨f, o, h1, _⟩
  · rw [h] at h1
    cases h1
    cases h2.stand with
    | free _ hq _ => exact ⟨fun t _ ht => absurd (hq t) ht, fun t ht => absurd (hq t) ht⟩
    | held t ho o op s1 l hor hin hq hs =>
      have key : ∀ u, (c.threads u).inside ≠ none → u = t := by
        intro u hu
        apply Classical.byContradiction
        intro hne
        exact hu (hq u hne)
      refine ⟨fun u v hu hv => (key u hu).trans (key v hv).symm, fun u hu => ?_⟩
      have := key u hu
      subst this
      exact ⟨o, op, s1, fun v => hor ▸ h2.programs v, hs⟩
  · rw [h] at h1; cases h1

/-- **C51** (mutual exclusion, also if other threads make unlocked calls). -/
theorem C51_mutual_exclusion (impl : Impl σ Op L) (locked : Op → Bool) (progs : Nat → List Op) (s0 : σ) (schedule : List Nat)
    (c : Config σ Op L) (h : exec impl locked s0 progs schedule = .ok c) (t u : Nat) (l l' : L)
    (ht : (c.threads t).inside = some (true, l)) (hu : (c.threads u).inside = some (true, l')) : t = u := by
  have h1 := exec_owner h t l ht
  have h2 := exec_owner h u l' hu
  rw [h1] at h2
  cases h2
  rfl

/-- **C51** (faults).  A concurrent execution can only fail in a way in which some sequential execution of calls from the
programs fails. -/
theorem C51_faults {impl : Impl σ Op L} {seq : σ → Op → Except Fault σ} (himpl : Implements impl seq)
    {locked : Op → Bool} {progs : Nat → List Op} (hl : ∀ t, ∀ op ∈ progs t, locked op = true) (s0 : σ) (schedule : List Nat)
    (f : Fault) (h : exec impl locked s0 progs schedule = .error f) :
    ∃ order, (∀ t, ∃ rest, callsOf t order ++ rest = progs t) ∧ sequentially seq s0 order = .error f := by
  rcases exec_lin (s0 := s0) himpl hl schedule with ⟨c', h1, h2⟩ | ⟨f', o, h1, h2, h3⟩
  · rw [h] at h1; cases h1
  · rw [h] at h1; cases h1; exact ⟨o, h3, h2⟩

/-! ### The filters -/

variable {n : Nat}

/-- **C51** for ExactTime: no schedule fails, and the result is that of a history of `add` calls. -/
theorem C51_exact_time [NeZero n] (q : Nat) {impl : Impl (ExactTime.State n) (Fin n × Ev) L}
    (himpl : Implements impl (fun s op => ExactTime.add s op.1 op.2)) (progs : Nat → List (Fin n × Ev)) (schedule : List Nat) :
    ∃ c, exec impl lockedExact (ExactTime.construct n q) progs schedule = .ok c ∧
      (Finished c → ∃ order, (∀ t, callsOf t order = progs t) ∧
        ExactTime.run (ExactTime.construct n q) (order.map (·.2)) = .ok c.shared) := by
  cases h : exec impl lockedExact (ExactTime.construct n q) progs schedule with
  | error f =>
    obtain ⟨order, _, h2⟩ := C51_faults himpl (fun _ _ _ => rfl) _ schedule f h
    obtain ⟨s, hs⟩ := ExactTime.C15_never_faults q (order.map (·.2))
    unfold sequentially at h2
    unfold ExactTime.run at hs
    rw [hs] at h2; cases h2
  | ok c => exact ⟨c, rfl, fun hf => C51_all_calls_made himpl (fun _ _ _ => rfl) _ schedule c h hf⟩

/-- The hypothesis of `C51_exact_time` is met by `ExactTime::add` statement by statement, which always comes to its end. -/
theorem C51_exact_time_statements [NeZero n] :
    Implements (ExactTime.body (n := n)) (fun s op => ExactTime.add s op.1 op.2) ∧
    ∀ (op : Fin n × Ev) (s : ExactTime.State n), ∃ r, Runs ExactTime.body (ExactTime.body.enter op) s r :=
  ⟨ExactTime.body_implements, fun _ s => ExactTime.body_terminates _ s⟩

/-- **C51** for ExactTime (one thread per input, unlimited queue, strictly increasing stamps): all schedules produce the same
output sequence. -/
theorem C51_exact_time_schedule_independent [NeZero n] {impl : Impl (ExactTime.State n) (Fin n × Ev) L}
    (himpl : Implements impl (fun s op => ExactTime.add s op.1 op.2)) (progs : Nat → List (Fin n × Ev))
    (feeder : Fin n → Nat) (hfeed : ∀ t, ∀ op ∈ progs t, t = feeder op.1)
    (hinc : ∀ i, StrictlyTimeSorted (stream (progs (feeder i)) i)) (schedule schedule' : List Nat)
    (c c' : Config (ExactTime.State n) (Fin n × Ev) L)
    (h : exec impl lockedExact (ExactTime.construct n 0) progs schedule = .ok c) (hf : Finished c)
    (h' : exec impl lockedExact (ExactTime.construct n 0) progs schedule' = .ok c') (hf' : Finished c') :
    ExactTime.outs c.shared.log = ExactTime.outs c'.shared.log := by
  obtain ⟨o, h1, h2⟩ := C51_all_calls_made himpl (fun _ _ _ => rfl) _ schedule c h hf
  obtain ⟨o', h1', h2'⟩ := C51_all_calls_made himpl (fun _ _ _ => rfl) _ schedule' c' h' hf'
  have hs : ∀ i, stream (o.map (·.2)) i = stream (progs (feeder i)) i := fun i => by
    rw [stream_callsOf feeder o (fun x hx => hfeed x.1 x.2 (h1 x.1 ▸ mem_callsOf hx)) i, h1]
  have hs' : ∀ i, stream (o'.map (·.2)) i = stream (progs (feeder i)) i := fun i => by
    rw [stream_callsOf feeder o' (fun x hx => hfeed x.1 x.2 (h1' x.1 ▸ mem_callsOf hx)) i, h1']
  exact ExactTime.C19_interleaving_independent _ _ _ _ h2 h2' (fun i => (hs i).symm ▸ hinc i)
    (fun i => (hs i).trans (hs' i).symm)

/-- Two threads, one per input; the schedule interleaves the statements of `ExactTime::add`. -/
def exactProgs : Nat → List (Fin 2 × Ev)
  | 0 => [(0, ⟨1, 10⟩), (0, ⟨2, 20⟩)]
  | 1 => [(1, ⟨3, 10⟩), (1, ⟨4, 20⟩)]
  | _ => []

/-- Fair interleaving of two threads. -/
def roundRobin : Nat → List Nat
  | 0 => []
  | k + 1 => 0 :: 1 :: roundRobin k

/-- Thread 1 first. -/
def oneAfterTheOther : List Nat := List.replicate 30 1 ++ List.replicate 30 0

/-- What an execution has output. -/
def exactOutput (schedule : List Nat) : Option (List (List (Option Ev)) × Bool) :=
  match exec ExactTime.body lockedExact (ExactTime.construct 2 0) exactProgs schedule with
  | .error _ => none
  | .ok c => some ((ExactTime.outs c.shared.log).map List.ofFn,
      (c.threads 0).todo.isEmpty && (c.threads 1).todo.isEmpty && (c.threads 0).inside.isNone && (c.threads 1).inside.isNone)

example : exactOutput (roundRobin 40) =
    some ([[some ⟨1, 10⟩, some ⟨3, 10⟩], [some ⟨2, 20⟩, some ⟨4, 20⟩]], true) := by decide

example : exactOutput oneAfterTheOther =
    some ([[some ⟨1, 10⟩, some ⟨3, 10⟩], [some ⟨2, 20⟩, some ⟨4, 20⟩]], true) := by decide

example : Implements (ExactTime.body (n := 2)) (fun s op => ExactTime.add s op.1 op.2) ∧
    (∀ t, ∀ op ∈ exactProgs t, t = (fun i : Fin 2 => i.val) op.1) ∧
    (∀ i : Fin 2, StrictlyTimeSorted (stream (exactProgs i.val) i)) := by
  refine ⟨ExactTime.body_implements, ?_, by unfold StrictlyTimeSorted; decide⟩
  intro t op hop
  match t with
  | 0 => simp [exactProgs] at hop; rcases hop with rfl | rfl <;> rfl
  | 1 => simp [exactProgs] at hop; rcases hop with rfl | rfl <;> rfl
  | t + 2 => simp [exactProgs] at hop

/-- **C51** for ApproximateTime: no schedule of `add` calls of `k` threads fails or hangs, and the result is that of a history of
calls. -/
theorem C51_approximate_time [NeZero n] (fuel : Nat) (cfg : Approx.Cfg n) (hq : 0 < cfg.queueSize) (s0 : Approx.State n)
    (hs0 : Approx.construct n cfg = .ok s0) {impl : Impl (Approx.State n) (Fin n × Ev) L}
    (himpl : Implements impl (fun s op => Approx.step fuel s (.add op.1 op.2))) (k : Nat) (progs : Nat → List (Fin n × Ev))
    (hk : ∀ t, k ≤ t → progs t = []) (hfuel : totalCalls k progs * totalCalls k progs + totalCalls k progs ≤ fuel)
    (schedule : List Nat) :
    ∃ c, exec impl (fun op => lockedApprox (.add op.1 op.2)) s0 progs schedule = .ok c ∧
      (Finished c → ∃ order, (∀ t, callsOf t order = progs t) ∧ Approx.run fuel cfg (order.map (·.2)) = .ok c.shared) := by
  have hrun : ∀ ops : List (Fin n × Ev), Approx.run fuel cfg ops = runE (fun s op => Approx.step fuel s (.add op.1 op.2)) s0 ops := by
    intro ops
    unfold Approx.run Approx.runOps
    rw [hs0]
    exact runE_map (Approx.step fuel) (fun op : Fin n × Ev => Approx.Op.add op.1 op.2) s0 ops
  cases h : exec impl (fun op => lockedApprox (.add op.1 op.2)) s0 progs schedule with
  | error f =>
    obtain ⟨order, h1, h2⟩ := C51_faults himpl (fun _ _ _ => rfl) _ schedule f h
    have hlen := length_order_le hk h1
    obtain ⟨s, hs⟩ := Approx.C28_terminates fuel cfg hq (order.map (·.2)) (by
      rw [List.length_map]
      exact Nat.le_trans (Nat.add_le_add (Nat.mul_le_mul hlen hlen) hlen) hfuel)
    rw [hrun] at hs
    unfold sequentially at h2
    rw [hs] at h2; cases h2
  | ok c =>
    refine ⟨c, rfl, fun hf => ?_⟩
    obtain ⟨order, h1, h2⟩ := C51_all_calls_made himpl (fun _ _ _ => rfl) _ schedule c h hf
    exact ⟨order, h1, (hrun _).trans h2⟩

/-- Every specification is implemented by some body; two threads deliver to two inputs. -/
example : Implements (atomic (fun s (op : Fin 2 × Ev) => Approx.step 20 s (.add op.1 op.2)))
      (fun s op => Approx.step 20 s (.add op.1 op.2)) ∧
    (∀ t, 2 ≤ t → exactProgs t = []) ∧ totalCalls 2 exactProgs * totalCalls 2 exactProgs + totalCalls 2 exactProgs ≤ 20 ∧
    (match exec (atomic (fun s (op : Fin 2 × Ev) => Approx.step 20 s (.add op.1 op.2)))
        (fun op => lockedApprox (.add op.1 op.2)) (Approx.init Approx.sampleCfg) exactProgs (roundRobin 4) with
      | .ok c => some (c.shared.out.map List.ofFn)
      | .error _ => none) = some [[some ⟨1, 10⟩, some ⟨3, 10⟩]] := by
  refine ⟨atomic_implements _, ?_, by decide, by decide⟩
  intro t ht
  match t with
  | t + 2 => rfl

/-- **C51** for ApproximateTime (one thread per input, no overflow, inputs respect their minimum distance): of the outputs of two
schedules one is a prefix of the other. -/
theorem C51_approximate_time_schedules_agree [NeZero n] (fuel : Nat) (cfg : Approx.Cfg n) (hq : 0 < cfg.queueSize)
    (hmono : ∀ x y, x ≤ y → cfg.scale x ≤ cfg.scale y) (hlow : ∀ i, 0 ≤ cfg.lower i) (s0 : Approx.State n)
    (hs0 : Approx.construct n cfg = .ok s0) {impl : Impl (Approx.State n) (Fin n × Ev) L}
    (himpl : Implements impl (fun s op => Approx.step fuel s (.add op.1 op.2))) (k : Nat) (progs : Nat → List (Fin n × Ev))
    (hk : ∀ t, k ≤ t → progs t = []) (hfuel : totalCalls k progs * totalCalls k progs + totalCalls k progs ≤ fuel)
    (feeder : Fin n → Nat) (hfeed : ∀ t, ∀ op ∈ progs t, t = feeder op.1)
    (hsize : ∀ i, (stream (progs (feeder i)) i).length ≤ cfg.queueSize)
    (hsp : ∀ i, ApproxSpec.Spaced (cfg.lower i) (stream (progs (feeder i)) i)) (schedule schedule' : List Nat)
    (c c' : Config (Approx.State n) (Fin n × Ev) L)
    (h : exec impl (fun op => lockedApprox (.add op.1 op.2)) s0 progs schedule = .ok c) (hf : Finished c)
    (h' : exec impl (fun op => lockedApprox (.add op.1 op.2)) s0 progs schedule' = .ok c') (hf' : Finished c') :
    c.shared.out <+: c'.shared.out ∨ c'.shared.out <+: c.shared.out := by
  obtain ⟨d, e1, e2⟩ := C51_approximate_time fuel cfg hq s0 hs0 himpl k progs hk hfuel schedule
  obtain ⟨d', e1', e2'⟩ := C51_approximate_time fuel cfg hq s0 hs0 himpl k progs hk hfuel schedule'
  rw [h] at e1
  rw [h'] at e1'
  cases e1
  cases e1'
  obtain ⟨o, h1, h2⟩ := e2 hf
  obtain ⟨o', h1', h2'⟩ := e2' hf'
  have hs : ∀ i, stream (o.map (·.2)) i = stream (progs (feeder i)) i := fun i => by
    rw [stream_callsOf feeder o (fun x hx => hfeed x.1 x.2 (h1 x.1 ▸ mem_callsOf hx)) i, h1]
  have hs' : ∀ i, stream (o'.map (·.2)) i = stream (progs (feeder i)) i := fun i => by
    rw [stream_callsOf feeder o' (fun x hx => hfeed x.1 x.2 (h1' x.1 ▸ mem_callsOf hx)) i, h1']
  exact Approx.C33_interleavings_agree fuel fuel cfg hmono hlow _ _ _ _ h2 h2' (fun i => (hs i).trans (hs' i).symm)
    (Approx.noOverflow_of_short (fun i => (hs i).symm ▸ hsize i)) (Approx.noOverflow_of_short (fun i => (hs' i).symm ▸ hsize i))
    (fun i => (hs i).symm ▸ hsp i)

/-- **C51** for ApproximateEpsilonTime with a non-negative epsilon: no schedule fails or hangs, and the result is that of a history
of calls. -/
theorem C51_epsilon_time [NeZero n] (fuel q : Nat) (eps : Int) (heps : 0 ≤ eps)
    {impl : Impl (Epsilon.State n) (Fin n × Ev) L} (himpl : Implements impl (fun s op => Epsilon.add fuel s op.1 op.2)) (k : Nat)
    (progs : Nat → List (Fin n × Ev)) (hk : ∀ t, k ≤ t → progs t = []) (hfuel : totalCalls k progs ≤ fuel)
    (hmax : ∀ t, ∀ op ∈ progs t, op.2.stamp ≤ Epsilon.maxTime) (schedule : List Nat) :
    ∃ c, exec impl lockedEpsilon (Epsilon.construct n q eps) progs schedule = .ok c ∧
      (Finished c → ∃ order, (∀ t, callsOf t order = progs t) ∧
        Epsilon.run fuel (Epsilon.construct n q eps) (order.map (·.2)) = .ok c.shared) := by
  cases h : exec impl lockedEpsilon (Epsilon.construct n q eps) progs schedule with
  | error f =>
    obtain ⟨order, h1, h2⟩ := C51_faults himpl (fun _ _ _ => rfl) _ schedule f h
    have hlen := length_order_le hk h1
    obtain ⟨s, hs⟩ := Epsilon.C24_terminates_partial q eps heps (order.map (·.2)) (by
      intro op hop
      obtain ⟨x, hx, rfl⟩ := List.mem_map.1 hop
      obtain ⟨rest, hr⟩ := h1 x.1
      exact hmax x.1 x.2 (hr ▸ List.mem_append_left _ (mem_callsOf hx))) fuel (by rw [List.length_map]; omega)
    unfold Epsilon.run at hs
    unfold sequentially at h2
    rw [hs] at h2; cases h2
  | ok c => exact ⟨c, rfl, fun hf => C51_all_calls_made himpl (fun _ _ _ => rfl) _ schedule c h hf⟩

/-- **C51** for ApproximateEpsilonTime (one thread per input, no overflow): all schedules produce the same output sequence. -/
theorem C51_epsilon_time_schedule_independent [NeZero n] (fuel q : Nat) (eps : Int)
    {impl : Impl (Epsilon.State n) (Fin n × Ev) L} (himpl : Implements impl (fun s op => Epsilon.add fuel s op.1 op.2))
    (progs : Nat → List (Fin n × Ev)) (feeder : Fin n → Nat) (hfeed : ∀ t, ∀ op ∈ progs t, t = feeder op.1)
    (hsize : ∀ i, (stream (progs (feeder i)) i).length ≤ q) (schedule schedule' : List Nat)
    (c c' : Config (Epsilon.State n) (Fin n × Ev) L)
    (h : exec impl lockedEpsilon (Epsilon.construct n q eps) progs schedule = .ok c) (hf : Finished c)
    (h' : exec impl lockedEpsilon (Epsilon.construct n q eps) progs schedule' = .ok c') (hf' : Finished c') :
    c.shared.out = c'.shared.out := by
  obtain ⟨o, h1, h2⟩ := C51_all_calls_made himpl (fun _ _ _ => rfl) _ schedule c h hf
  obtain ⟨o', h1', h2'⟩ := C51_all_calls_made himpl (fun _ _ _ => rfl) _ schedule' c' h' hf'
  have hs : ∀ i, stream (o.map (·.2)) i = stream (progs (feeder i)) i := fun i => by
    rw [stream_callsOf feeder o (fun x hx => hfeed x.1 x.2 (h1 x.1 ▸ mem_callsOf hx)) i, h1]
  have hs' : ∀ i, stream (o'.map (·.2)) i = stream (progs (feeder i)) i := fun i => by
    rw [stream_callsOf feeder o' (fun x hx => hfeed x.1 x.2 (h1' x.1 ▸ mem_callsOf hx)) i, h1']
  exact (Epsilon.C25_interleaving_independent fuel fuel q q eps _ _ _ _ h2 h2'
    (Epsilon.noOverflow_of_short (fun i => (hs i).symm ▸ hsize i)) (Epsilon.noOverflow_of_short (fun i => (hs' i).symm ▸ hsize i))
    (fun i => (hs i).trans (hs' i).symm)).1

/-- **C51** for InputAligner: with any number of threads adding and dispatching, what has been output at any quiet moment is in
temporal order, and every added message is output, counted as dropped or queued, exactly once. -/
theorem C51_input_aligner (fuel : Nat) (timeout : Int) {impl : Impl (Aligner.State n) (Aligner.Op n) L}
    (himpl : Implements impl (Aligner.step fuel)) (progs : Nat → List (Aligner.Op n))
    (hl : ∀ t, ∀ op ∈ progs t, lockedAligner op = true) (schedule : List Nat) (c : Config (Aligner.State n) (Aligner.Op n) L)
    (h : exec impl lockedAligner (Aligner.construct n timeout) progs schedule = .ok c) (hq : Quiet c) :
    TimeSorted (c.shared.out.map (·.2)) ∧
    ∃ order, (∀ t, callsOf t order ++ (c.threads t).todo = progs t) ∧
      Aligner.run fuel timeout (order.map (·.2)) = .ok c.shared ∧
      ∀ i, (stream (Aligner.adds (order.map (·.2))) i).length =
        (stream c.shared.out i).length + (Aligner.getQueueStatus c.shared i).dropped +
          (Aligner.getQueueStatus c.shared i).queueSize := by
  obtain ⟨order, h1, h2⟩ := C51_linearizable himpl hl _ schedule c h hq
  refine ⟨Aligner.C39_global_order fuel timeout _ _ h2, order, h1, h2, fun i => ?_⟩
  obtain ⟨h3, h4⟩ := Aligner.C40_accounting fuel timeout _ _ h2 i
  rw [h3, h4]

/-- **C51** for the signals of all filters: with any number of threads registering, disconnecting and signalling, the callbacks
called are those of a sequence of these operations. -/
theorem C51_signal {β : Type} {impl : Impl (Signal.Registry β) (Signal.Op β) L} (himpl : Implements impl stepSignal)
    (progs : Nat → List (Signal.Op β)) (schedule : List Nat) (c : Config (Signal.Registry β) (Signal.Op β) L)
    (h : exec impl lockedSignal Signal.Registry.init progs schedule = .ok c) (hf : Finished c) :
    ∃ order, (∀ t, callsOf t order = progs t) ∧ c.shared = Signal.run (order.map (·.2)) := by
  obtain ⟨order, h1, h2⟩ := C51_all_calls_made himpl (fun _ _ _ => rfl) _ schedule c h hf
  refine ⟨order, h1, ?_⟩
  have key : ∀ (ops : List (Signal.Op β)) r, runE stepSignal r ops = .ok (ops.foldl Signal.step r) := by
    intro ops
    induction ops with
    | nil => intro r; rfl
    | cons op ops ih => intro r; simp only [runE, stepSignal, List.foldl_cons]; exact ih _
  unfold sequentially at h2
  rw [key] at h2
  injection h2 with h2
  exact h2.symm

/-! ### Data races -/

/-- **C62**.  Calls that hold the mutex never race, whatever the threads, the programs and the schedule. -/
theorem C62_locked_calls_no_race (impl : Impl σ Op L) {locked : Op → Bool} {progs : Nat → List Op}
    (hl : ∀ t, ∀ op ∈ progs t, locked op = true) (s0 : σ) (schedule : List Nat) (c : Config σ Op L)
    (h : exec impl locked s0 progs schedule = .ok c) : ¬ Race c.trace := (exec_raceInv hl h).noRace

/-- **C62**.  A call that does not take the mutex races with any call of another thread that could be made first. -/
theorem C62_unlocked_call_races (impl : Impl σ Op L) {locked : Op → Bool} {progs : Nat → List Op} (s0 : σ) (t u : Nat)
    (htu : t ≠ u) (op op' : Op) (rest rest' : List Op) (hu : progs u = op :: rest) (ht : progs t = op' :: rest')
    (hlock : locked op = false) (s1 s2 : σ) (o1 o2 : Option L) (h1 : impl.micro (impl.enter op') s0 = .ok (s1, o1))
    (h2 : impl.micro (impl.enter op) s1 = .ok (s2, o2)) :
    ∃ schedule c, exec impl locked s0 progs schedule = .ok c ∧ Race c.trace := by
  obtain ⟨c2, e2, hs2, hu2, ⟨i, hi⟩, hall⟩ := first_access impl (locked := locked) s0 t u htu op' rest' ht s1 o1 h1
  rw [hu] at hu2
  obtain ⟨c4, e4, htr⟩ := then_unlocked impl (locked := locked) c2 u op rest hu2 hlock s2 o2 (hs2 ▸ h2)
  refine ⟨[t, t] ++ [u, u], c4, ?_, ?_⟩
  · unfold exec at e2 ⊢
    rw [runE_append, e2]
    exact e4
  · rw [htr]
    refine ⟨i, c2.trace.length, t, u, lt_of_getElem? hi, htu, getElem?_mono hi, by simp, ?_⟩
    refine not_HB_first (e := .access u) (by simp) (fun v hv => by cases hv) ?_ i
    intro j x hj hx
    rw [List.getElem?_append_left hj] at hx
    rw [hall x (List.mem_of_getElem? hx)]
    exact htu

/-- **C62** for the filters whose every operation is protected: ExactTime, ApproximateEpsilonTime, and the signals (registering,
disconnecting, calling) of every filter. -/
theorem C62_protected_filters [NeZero n] {β : Type} :
    (∀ (impl : Impl (ExactTime.State n) (Fin n × Ev) L) s0 progs schedule c,
      exec impl lockedExact s0 progs schedule = .ok c → ¬ Race c.trace) ∧
    (∀ (impl : Impl (Epsilon.State n) (Fin n × Ev) L) s0 progs schedule c,
      exec impl lockedEpsilon s0 progs schedule = .ok c → ¬ Race c.trace) ∧
    (∀ (impl : Impl (Signal.Registry β) (Signal.Op β) L) s0 progs schedule c,
      exec impl lockedSignal s0 progs schedule = .ok c → ¬ Race c.trace) :=
  ⟨fun impl s0 _ schedule c h => C62_locked_calls_no_race impl (fun _ _ _ => rfl) s0 schedule c h,
   fun impl s0 _ schedule c h => C62_locked_calls_no_race impl (fun _ _ _ => rfl) s0 schedule c h,
   fun impl s0 _ schedule c h => C62_locked_calls_no_race impl (fun _ _ _ => rfl) s0 schedule c h⟩

/-- **C62** for the other filters: delivering messages (and, for the aligner, dispatching) from any threads is free of races as long
as no thread calls a setter. -/
theorem C62_without_setters [NeZero n] {D : Type} :
    (∀ (impl : Impl (Approx.State n) (Approx.Op n) L) s0 progs schedule c, (∀ t, ∀ op ∈ progs t, ∃ i e, op = .add i e) →
      exec impl lockedApprox s0 progs schedule = .ok c → ¬ Race c.trace) ∧
    (∀ (impl : Impl (Latest.State n D) (LatestOp n D) L) s0 progs schedule c, (∀ t, ∀ op ∈ progs t, ∃ a, op = .add a) →
      exec impl lockedLatest s0 progs schedule = .ok c → ¬ Race c.trace) ∧
    (∀ (impl : Impl (Aligner.State n) (Aligner.Op n) L) s0 progs schedule c,
      (∀ t, ∀ op ∈ progs t, op = .dispatch ∨ ∃ i e, op = .add i e) →
      exec impl lockedAligner s0 progs schedule = .ok c → ¬ Race c.trace) := by
  refine ⟨?_, ?_, ?_⟩
  · intro impl s0 progs schedule c hp h
    exact C62_locked_calls_no_race impl (fun t op hop => by obtain ⟨i, e, rfl⟩ := hp t op hop; rfl) s0 schedule c h
  · intro impl s0 progs schedule c hp h
    exact C62_locked_calls_no_race impl (fun t op hop => by obtain ⟨a, rfl⟩ := hp t op hop; rfl) s0 schedule c h
  · intro impl s0 progs schedule c hp h
    exact C62_locked_calls_no_race impl
      (fun t op hop => by rcases hp t op hop with rfl | ⟨i, e, rfl⟩ <;> rfl) s0 schedule c h

/-- Thread 0 runs `a`, thread 1 runs `b`. -/
def two {Op : Type} (a b : List Op) : Nat → List Op
  | 0 => a
  | 1 => b
  | _ => []

/-- **C62**: the setters race with message delivery.  ApproximateTime's `setMaxIntervalDuration`, `setInterMessageLowerBound` and
`setAgePenalty`, LatestTime's `setRateConfigs…` and InputAligner's `setInputPeriod`, called by one thread while another delivers its
first message. -/
theorem C62_setters_race :
    (∀ op ∈ ([.setMaxIntervalDuration 5, .setInterMessageLowerBound 0 3, .setAgePenalty true id] : List (Approx.Op 2)),
      ∃ schedule c, exec (atomic (Approx.step 10)) lockedApprox (Approx.init Approx.sampleCfg)
        (two [.add 0 ⟨1, 10⟩] [op]) schedule = .ok c ∧ Race c.trace) ∧
    (∃ schedule c, exec (atomic (stepLatest Latest.Fixed.dflt)) lockedLatest (Latest.construct 2 Latest.Fixed)
      (two [.add ⟨0, ⟨1, 0⟩, ⟨5, .ros⟩⟩] [.setRateConfigs []]) schedule = .ok c ∧ Race c.trace) ∧
    (∃ schedule c, exec (atomic (Aligner.step 10)) lockedAligner (Aligner.construct 2 100)
      (two [.add 0 ⟨1, 10⟩] [.setPeriod 0 7]) schedule = .ok c ∧ Race c.trace) := by
  refine ⟨?_, ?_, ?_⟩
  · intro op hop
    simp only [List.mem_cons, List.not_mem_nil, or_false] at hop
    rcases hop with rfl | rfl | rfl <;>
      exact C62_unlocked_call_races _ _ 0 1 (by decide) _ _ [] [] rfl rfl rfl _ _ none none rfl rfl
  · exact C62_unlocked_call_races _ _ 0 1 (by decide) _ _ [] [] rfl rfl rfl _ _ none none rfl rfl
  · exact C62_unlocked_call_races _ _ 0 1 (by decide) _ _ [] [] rfl rfl rfl _ _ none none rfl rfl

/-- Two threads that both access the filter under the mutex: the trace of `exactProgs` has many accesses by both threads. -/
example : (match exec ExactTime.body lockedExact (ExactTime.construct 2 0) exactProgs (roundRobin 40) with
    | .ok c => some ((c.trace.filter (fun e => e = .access 0)).length, (c.trace.filter (fun e => e = .access 1)).length)
    | .error _ => none) = some (8, 16) := by decide

end MF.Mutex
