import Verif.Props.Mutex
import Verif.Props.PySync
import Verif.Proofs.PyConc
/-
C86: the Python synchronizers when several threads (a MultiThreadedExecutor) deliver messages.
-/
namespace MF.Py
open MF.Mutex

variable {n : Nat} {L : Type}

/-- A call of `add` with a well-formed message, without the flag of the message. -/
def bare (x : Nat × (Fin n × Msg)) : Nat × (Fin n × Ev) := (x.1, (x.2.1, x.2.2.ev))

theorem bare_order {order : List (Nat × (Fin n × Msg))} {progs : Nat → List (Fin n × Ev)}
    (h : ∀ t, callsOf t order = withHeaders (progs t)) :
    (∀ t, callsOf t (order.map bare) = progs t) ∧ withHeaders ((order.map bare).map (·.2)) = order.map (·.2) := by
  constructor
  · intro t
    have h1 : callsOf t (order.map bare) = (callsOf t order).map (fun o => (o.1, o.2.ev)) := by
      unfold callsOf
      rw [List.filter_map, List.map_map, List.map_map]
      rfl
    rw [h1, h t, withHeaders, List.map_map]
    conv => rhs; rw [← List.map_id (progs t)]
    rfl
  · unfold withHeaders
    rw [List.map_map, List.map_map]
    apply List.map_congr_left
    intro x hx
    have := mem_callsOf hx
    rw [h x.1] at this
    obtain ⟨o, _, ho⟩ := List.mem_map.mp this
    obtain ⟨t, i, ⟨e, b⟩⟩ := x
    cases ho
    rfl

theorem prefix_headers {order : List (Nat × (Fin n × Msg))} {progs : Nat → List (Fin n × Ev)}
    (h : ∀ t, ∃ rest, callsOf t order ++ rest = withHeaders (progs t)) :
    withHeaders ((order.map bare).map (·.2)) = order.map (·.2) := by
  unfold withHeaders
  rw [List.map_map, List.map_map]
  apply List.map_congr_left
  intro x hx
  have hm := mem_callsOf hx
  obtain ⟨rest, hr⟩ := h x.1
  have : x.2 ∈ withHeaders (progs x.1) := by rw [← hr]; exact List.mem_append_left _ hm
  obtain ⟨o, _, ho⟩ := List.mem_map.mp this
  obtain ⟨t, i, ⟨e, b⟩⟩ := x
  cases ho
  rfl

/-- **C86**.  The statement-level bodies of the two `add` methods have, run alone, the effect of the sequential models, and they
always come to an end (or wait forever for a lock that nobody will release). -/
theorem C86_statements (boom : Nat → Bool) (slop : Int) (allow : Bool) :
    (Implements (tsBody (n := n) boom) (fun s op => (tsAdd boom s op.1 op.2).map (·.1)) ∧
      ∀ (op : Fin n × Msg) (s : State n), ∃ r, Runs (tsBody boom) ((tsBody boom).enter op) s r) ∧
    (Implements (approxBody (n := n) boom slop allow) (fun s op => (approxAdd boom slop allow s op.1 op.2).map (·.1)) ∧
      ∀ (op : Fin n × Msg) (s : State n), ∃ r, Runs (approxBody boom slop allow) ((approxBody boom slop allow).enter op) s r) :=
  ⟨⟨tsBody_implements boom, tsBody_terminates boom⟩, ⟨approxBody_implements boom slop allow, approxBody_terminates boom slop allow⟩⟩

/-- **C86** (TimeSynchronizer).  Threads deliver well-formed messages, no callback raises, the queue size is not negative: under no
schedule does a thread block forever, and when all calls are done the synchronizer is in a state that a single thread could have
brought about, making the calls of each thread in their order. -/
theorem C86_time_synchronizer [NeZero n] (q : Int) (hq : 0 ≤ q) {impl : Impl (State n) (Fin n × Msg) L}
    (himpl : Implements impl (fun s op => (tsAdd noRaise s op.1 op.2).map (·.1))) (progs : Nat → List (Fin n × Ev))
    (schedule : List Nat) :
    ∃ c, exec impl lockedAdd (construct n q) (fun t => withHeaders (progs t)) schedule = .ok c ∧
      (Finished c → ∃ order, (∀ t, callsOf t order = progs t) ∧
        tsRun noRaise (construct n q) (withHeaders (order.map (·.2))) = .ok c.shared ∧ c.shared.locked = false) := by
  cases h : exec impl lockedAdd (construct n q) (fun t => withHeaders (progs t)) schedule with
  | error f =>
    obtain ⟨order, h1, h2⟩ := C51_faults himpl (fun _ _ _ => rfl) _ schedule f h
    obtain ⟨s, hs, _⟩ := C66_always_returns_partial q hq ((order.map bare).map (·.2))
    rw [prefix_headers h1] at hs
    unfold sequentially at h2
    unfold tsRun at hs
    rw [hs] at h2; cases h2
  | ok c =>
    refine ⟨c, rfl, fun hf => ?_⟩
    obtain ⟨order, h1, h2⟩ := C51_all_calls_made himpl (fun _ _ _ => rfl) _ schedule c h hf
    obtain ⟨h3, h4⟩ := bare_order h1
    refine ⟨order.map bare, h3, by rw [h4]; exact h2, ?_⟩
    obtain ⟨s, hs, hl⟩ := C66_always_returns_partial q hq ((order.map bare).map (·.2))
    rw [h4] at hs
    unfold sequentially at h2
    unfold tsRun at hs
    rw [hs] at h2; cases h2
    exact hl

/-- **C86** (TimeSynchronizer).  One thread per input, queues that are long enough and distinct stamps on each input: all schedules
output the same sets; if each input is in time order, they output them in the same order. -/
theorem C86_schedule_independent [NeZero n] (q : Int) {impl : Impl (State n) (Fin n × Msg) L}
    (himpl : Implements impl (fun s op => (tsAdd noRaise s op.1 op.2).map (·.1))) (progs : Nat → List (Fin n × Ev))
    (feeder : Fin n → Nat) (hfeed : ∀ t, ∀ op ∈ progs t, t = feeder op.1)
    (hsize : ∀ i, ((stream (progs (feeder i)) i).length : Int) ≤ q) (hd : ∀ i, DistinctStamps (stream (progs (feeder i)) i))
    (schedule schedule' : List Nat) (c c' : Config (State n) (Fin n × Msg) L)
    (h : exec impl lockedAdd (construct n q) (fun t => withHeaders (progs t)) schedule = .ok c) (hf : Finished c)
    (h' : exec impl lockedAdd (construct n q) (fun t => withHeaders (progs t)) schedule' = .ok c') (hf' : Finished c') :
    c.shared.out.Perm c'.shared.out ∧
    ((∀ i, StrictlyTimeSorted (stream (progs (feeder i)) i)) → c.shared.out = c'.shared.out) ∧
    ∀ t, t ∈ c.shared.out ↔ (∀ i, t i ∈ stream (progs (feeder i)) i) ∧ ∀ i j, (t i).stamp = (t j).stamp := by
  obtain ⟨o, h1, h2⟩ := C51_all_calls_made himpl (fun _ _ _ => rfl) _ schedule c h hf
  obtain ⟨o', h1', h2'⟩ := C51_all_calls_made himpl (fun _ _ _ => rfl) _ schedule' c' h' hf'
  obtain ⟨h3, h4⟩ := bare_order h1
  obtain ⟨h3', h4'⟩ := bare_order h1'
  have hs : ∀ i, stream ((o.map bare).map (·.2)) i = stream (progs (feeder i)) i := fun i => by
    rw [stream_callsOf feeder (o.map bare) (fun x hx => hfeed x.1 x.2 (h3 x.1 ▸ mem_callsOf hx)) i, h3]
  have hs' : ∀ i, stream ((o'.map bare).map (·.2)) i = stream (progs (feeder i)) i := fun i => by
    rw [stream_callsOf feeder (o'.map bare) (fun x hx => hfeed x.1 x.2 (h3' x.1 ▸ mem_callsOf hx)) i, h3']
  obtain ⟨s, s', e1, e2, e3, e4⟩ := C65_interleaving q ((o.map bare).map (·.2)) ((o'.map bare).map (·.2))
    (fun i => by rw [hs, hs']) (fun i => by rw [hs]; exact hsize i) (fun i => by rw [hs]; exact hd i)
  obtain ⟨s2, e5, e6, _⟩ := C65_finds_all_sets q ((o.map bare).map (·.2)) (fun i => by rw [hs]; exact hsize i)
    (fun i => by rw [hs]; exact hd i)
  rw [h4] at e1 e5
  rw [h4'] at e2
  unfold sequentially at h2 h2'
  unfold tsRun at e1 e2 e5
  rw [e1] at h2 e5; cases h2; cases e5
  rw [e2] at h2'; cases h2'
  refine ⟨e3, fun hi => e4 (fun i => by rw [hs]; exact hi i), fun t => ?_⟩
  rw [e6]
  unfold ExactSet
  simp only [hs]

/-- **C86** (ApproximateTimeSynchronizer).  The same for the approximate synchronizer: no schedule blocks a thread, and the result
is one that a single thread could have brought about. -/
theorem C86_approximate [NeZero n] (slop q : Int) (hq : 0 ≤ q) (allow : Bool) {impl : Impl (State n) (Fin n × Msg) L}
    (himpl : Implements impl (fun s op => (approxAdd noRaise slop allow s op.1 op.2).map (·.1)))
    (progs : Nat → List (Fin n × Msg)) (hl : ∀ t, ∀ op ∈ progs t, (op.2.header || allow) = true) (schedule : List Nat) :
    ∃ c, exec impl (lockedApproxAdd allow) (construct n q) progs schedule = .ok c ∧
      (Finished c → ∃ order, (∀ t, callsOf t order = progs t) ∧
        approxRun noRaise slop allow (construct n q) (order.map (·.2)) = .ok c.shared ∧ c.shared.locked = false) := by
  cases h : exec impl (lockedApproxAdd allow) (construct n q) progs schedule with
  | error f =>
    obtain ⟨order, h1, h2⟩ := C51_faults himpl hl _ schedule f h
    obtain ⟨s, hs, _⟩ := C66_approximate_always_returns_partial slop q allow hq (order.map (·.2))
    unfold sequentially at h2
    unfold approxRun at hs
    rw [hs] at h2; cases h2
  | ok c =>
    refine ⟨c, rfl, fun hf => ?_⟩
    obtain ⟨order, h1, h2⟩ := C51_all_calls_made himpl hl _ schedule c h hf
    refine ⟨order, h1, h2, ?_⟩
    obtain ⟨s, hs, hlk⟩ := C66_approximate_always_returns_partial slop q allow hq (order.map (·.2))
    unfold sequentially at h2
    unfold approxRun at hs
    rw [hs] at h2; cases h2
    exact hlk

/-- **C86** (disagreement with "no thread ever blocks forever").  Whatever the callbacks and messages do, the only way in which a
schedule fails is a thread that waits forever, and it fails only after a call that raised: there is an order of the calls made so
far in which some call raises, the last call blocks, and each thread's calls are in order. -/
theorem C86_blocks_only_after_exception [NeZero n] (boom : Nat → Bool) (q : Int) {impl : Impl (State n) (Fin n × Msg) L}
    (himpl : Implements impl (fun s op => (tsAdd boom s op.1 op.2).map (·.1))) (progs : Nat → List (Fin n × Msg))
    (schedule : List Nat) (f : Fault) (h : exec impl lockedAdd (construct n q) progs schedule = .error f) :
    f = .hang ∧ ∃ before i m s s', tsRun boom (construct n q) before = .ok s ∧ tsAdd boom s i m = .ok (s', true) ∧
      ∃ t, (i, m) ∈ progs t ∧ ∀ op ∈ before, ∃ t, op ∈ progs t := by
  obtain ⟨order, h1, h2⟩ := C51_faults himpl (fun _ _ _ => rfl) _ schedule f h
  have hmem : ∀ op ∈ order.map (·.2), ∃ t, op ∈ progs t := by
    intro op hop
    obtain ⟨x, hx, rfl⟩ := List.mem_map.mp hop
    obtain ⟨rest, hr⟩ := h1 x.1
    exact ⟨x.1, by rw [← hr]; exact List.mem_append_left _ (mem_callsOf hx)⟩
  have hlocked : ∀ (ops : List (Fin n × Msg)) (s : State n), (∀ op ∈ ops, ∃ t, op ∈ progs t) →
      tsRun boom (construct n q) ops = .ok s → s.locked = true →
      ∃ before i m s s', tsRun boom (construct n q) before = .ok s ∧ tsAdd boom s i m = .ok (s', true) ∧
        ∃ t, (i, m) ∈ progs t ∧ ∀ op ∈ before, ∃ t, op ∈ progs t := by
    intro ops
    induction ops using snoc_induction with
    | h0 => intro s _ h hl; cases h; cases hl
    | hs ops op ih =>
      intro s hm h hl
      obtain ⟨s1, e1, e2⟩ := runE_snoc_ok h
      cases ha : tsAdd boom s1 op.1 op.2 with
      | error g => rw [ha] at e2; cases e2
      | ok p =>
        obtain ⟨s2, r⟩ := p
        have hlr := tsAdd_locked ha
        rw [ha] at e2
        cases e2
        rw [hl] at hlr
        subst hlr
        obtain ⟨t, ht⟩ := hm op (by simp)
        exact ⟨ops, op.1, op.2, s1, s2, e1, ha, t, ht, fun o ho => hm o (List.mem_append_left _ ho)⟩
  have key : ∀ (ops : List (Fin n × Msg)) (f : Fault), (∀ op ∈ ops, ∃ t, op ∈ progs t) → tsRun boom (construct n q) ops = .error f →
      f = .hang ∧ ∃ before i m s s', tsRun boom (construct n q) before = .ok s ∧ tsAdd boom s i m = .ok (s', true) ∧
        ∃ t, (i, m) ∈ progs t ∧ ∀ op ∈ before, ∃ t, op ∈ progs t := by
    intro ops
    induction ops using snoc_induction with
    | h0 => intro f _ h; cases h
    | hs ops op ih =>
      intro f hm h
      have hm' : ∀ o ∈ ops, ∃ t, o ∈ progs t := fun o ho => hm o (List.mem_append_left _ ho)
      cases hr : tsRun boom (construct n q) ops with
      | error f' =>
        have hr' := hr
        unfold tsRun at h hr'
        rw [runE_append, hr'] at h
        cases h
        exact ih f hm' hr
      | ok s =>
        have hr' := hr
        unfold tsRun at h hr'
        rw [runE_append, hr'] at h
        cases ha : tsAdd boom s op.1 op.2 with
        | ok p => simp [runE, ha, Except.map] at h
        | error g =>
          simp [runE, ha, Except.map] at h
          obtain ⟨hl, rfl⟩ := tsAdd_error ha
          exact ⟨h.symm, hlocked ops s hm' hr hl⟩
  have h2' : tsRun boom (construct n q) (order.map (·.2)) = .error f := h2
  exact key _ f hmem h2'

/-- **C86** (disagreement).  After an exception every thread that delivers a message blocks: in a configuration in which no call
is running and the lock was left taken, the next call of any thread waits forever. -/
theorem C86_exception_blocks_every_thread (boom : Nat → Bool) (q : Int) (progs : Nat → List (Fin n × Msg))
    (schedule : List Nat) (c : Config (State n) (Fin n × Msg) (Point n))
    (h : exec (tsBody boom) lockedAdd (construct n q) progs schedule = .ok c) (hq : Quiet c)
    (hl : c.shared.locked = true) (t : Nat) (ht : (c.threads t).todo ≠ []) :
    exec (tsBody boom) lockedAdd (construct n q) progs (schedule ++ [t, t]) = .error .hang := by
  have hown : c.owner = none := by
    rcases exec_lin (s0 := construct n q) (tsBody_implements boom) (locked := lockedAdd) (progs := progs) (fun _ _ _ => rfl)
      schedule with ⟨c', h1, h2⟩ | ⟨f, o, h1, _⟩
    · rw [h] at h1
      cases h1
      cases h2.stand with
      | free ho _ _ => exact ho
      | held u _ _ _ _ _ _ hin => have := hq u; rw [hin] at this; cases this
    · rw [h] at h1; cases h1
  unfold exec at h ⊢
  rw [runE_append, h]
  cases htodo : (c.threads t).todo with
  | nil => exact absurd htodo ht
  | cons op rest =>
    simp [runE, step, hq t, htodo, lockedAdd, hown, setThread, tsBody, statement, hl]

/-! ### The hypotheses are met -/

/-- Two threads, one per input. -/
def pyProgs : Nat → List (Fin 2 × Ev)
  | 0 => [(0, ⟨0, 10⟩), (0, ⟨1, 20⟩)]
  | 1 => [(1, ⟨2, 10⟩), (1, ⟨3, 20⟩)]
  | _ => []

def pyOutput (boom : Nat → Bool) (schedule : List Nat) : Except Fault (List (List Ev)) :=
  (exec (tsBody boom) lockedAdd (construct 2 5) (fun t => withHeaders (pyProgs t)) schedule).map
    (fun c => c.shared.out.map List.ofFn)

example : pyOutput noRaise (roundRobin 40) = .ok [[⟨0, 10⟩, ⟨2, 10⟩], [⟨1, 20⟩, ⟨3, 20⟩]] := by rfl

example : pyOutput noRaise (List.replicate 40 1 ++ List.replicate 40 0) = .ok [[⟨0, 10⟩, ⟨2, 10⟩], [⟨1, 20⟩, ⟨3, 20⟩]] := by rfl

/-- A callback that raises blocks the other thread. -/
example : pyOutput (fun k => k == 0) (roundRobin 40) = .error .hang := by rfl

example : (∀ t, ∀ op ∈ pyProgs t, t = (fun i : Fin 2 => i.val) op.1) ∧
    (∀ i : Fin 2, ((stream (pyProgs i.val) i).length : Int) ≤ 5) ∧
    (∀ i : Fin 2, StrictlyTimeSorted (stream (pyProgs i.val) i)) := by
  refine ⟨?_, by decide, by unfold StrictlyTimeSorted; decide⟩
  intro t op hop
  match t with
  | 0 => simp [pyProgs] at hop; rcases hop with rfl | rfl <;> rfl
  | 1 => simp [pyProgs] at hop; rcases hop with rfl | rfl <;> rfl
  | t + 2 => simp [pyProgs] at hop

/-- The same with the approximate synchronizer, slop 10. -/
example : (exec (approxBody noRaise 10 false) (lockedApproxAdd false) (construct 2 5) (fun t => withHeaders (pyProgs t))
    (roundRobin 60)).map (fun c => c.shared.out.map List.ofFn) = .ok [[⟨0, 10⟩, ⟨2, 10⟩], [⟨1, 20⟩, ⟨3, 20⟩]] := by rfl

end MF.Py
