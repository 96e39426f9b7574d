import Verif.Proofs.FanOut
import Verif.Props.Approx
import Verif.Props.PySync
/-
Property C114: one source connected to every input of a synchronizer.
-/
namespace MF

variable {n : Nat}

/-- Sample messages: the second is older than the first, the third has the stamp of the second. -/
def fanMsgs : List Ev := [⟨1, 100⟩, ⟨2, 50⟩, ⟨3, 50⟩]

/-- Sample deliveries: the last message reaches the inputs in another order. -/
def fanOps : List (Fin 2 × Ev) := [(0, ⟨1, 100⟩), (1, ⟨1, 100⟩), (0, ⟨2, 50⟩), (1, ⟨2, 50⟩), (1, ⟨3, 50⟩), (0, ⟨3, 50⟩)]

theorem fanOps_fan : FanOut fanMsgs fanOps :=
  .next (msgs := [⟨1, 100⟩, ⟨2, 50⟩]) (ops := [(0, ⟨1, 100⟩), (1, ⟨1, 100⟩), (0, ⟨2, 50⟩), (1, ⟨2, 50⟩)])
    (.next (msgs := [⟨1, 100⟩]) (ops := [(0, ⟨1, 100⟩), (1, ⟨1, 100⟩)])
      (.next (msgs := []) (ops := []) .nil ⟨1, 100⟩ [0, 1] (by decide) (by decide)) ⟨2, 50⟩ [0, 1] (by decide) (by decide))
    ⟨3, 50⟩ [1, 0] (by decide) (by decide)

/-- **C114** (ExactTime).  Every message is output with itself, at once and in the order of arrival, whatever the stamps and the queue
size; nothing else is output, nothing is dropped and nothing is kept. -/
theorem C114_exact [NeZero n] (q : Nat) (msgs : List Ev) (ops : List (Fin n × Ev)) (h : FanOut msgs ops) :
    ∃ s, ExactTime.run (ExactTime.construct n q) ops = .ok s ∧ ExactTime.outs s.log = msgs.map same ∧
      ExactTime.drops s.log = [] ∧ s.tuples = [] := by
  obtain ⟨s, hs⟩ := ExactTime.C15_never_faults q ops
  obtain ⟨h1, h2⟩ := ExactTime.run_fan h s hs
  refine ⟨s, hs, ?_, ?_, h2⟩
  · rw [h1]
    generalize msgs = l
    induction l with
    | nil => rfl
    | cons a l ih => simp only [List.map_cons, ExactTime.outs, ih]
  · rw [h1]
    generalize msgs = l
    induction l with
    | nil => rfl
    | cons a l ih => simp only [List.map_cons, ExactTime.drops, ih]

example : FanOut fanMsgs fanOps ∧ ((ExactTime.run (ExactTime.construct 2 1) fanOps).toOption.map
    (fun s => (ExactTime.outs s.log).map (fun t => List.ofFn (fun i => (t i).map (·.id))))) =
      some [[some 1, some 1], [some 2, some 2], [some 3, some 3]] := ⟨fanOps_fan, by decide⟩

/-- **C114** (ApproximateEpsilonTime).  The same for every epsilon of at least 0 and every queue size of at least 1 (stamps are 64-bit
numbers, not the largest one). -/
theorem C114_epsilon [NeZero n] (fuel q : Nat) (eps : Int) (heps : 0 ≤ eps) (hq : 1 ≤ q) (msgs : List Ev) (ops : List (Fin n × Ev))
    (h : FanOut msgs ops) (hmax : ∀ o ∈ ops, o.2.stamp < Epsilon.maxTime) (hfuel : ops.length ≤ fuel) :
    ∃ s, Epsilon.run fuel (Epsilon.construct n q eps) ops = .ok s ∧ s.out = msgs.map same ∧ ∀ i, s.events i = [] := by
  obtain ⟨s, hs⟩ := Epsilon.C24_terminates_partial q eps heps ops (fun o ho => by have := hmax o ho; omega) fuel hfuel
  obtain ⟨h1, h2⟩ := Epsilon.run_fan heps hq h s hs hmax
  exact ⟨s, hs, h1, fun i => congrFun h2 i⟩

example : FanOut fanMsgs fanOps ∧ (∀ o ∈ fanOps, o.2.stamp < Epsilon.maxTime) ∧
    ((Epsilon.run 6 (Epsilon.construct 2 1 0) fanOps).toOption.map
      (fun s => s.out.map (fun t => List.ofFn (fun i => (t i).map (·.id))))) =
      some [[some 1, some 1], [some 2, some 2], [some 3, some 3]] := ⟨fanOps_fan, by decide, by decide⟩

/-- The queue size must not be 0: then a synchronizer of two or more inputs outputs nothing, whatever it receives. -/
theorem C114_epsilon_queue_needed [NeZero n] (hn : 2 ≤ n) (fuel : Nat) (eps : Int) (ops : List (Fin n × Ev)) (s : Epsilon.State n)
    (h : Epsilon.run fuel (Epsilon.construct n 0 eps) ops = .ok s) : s.out = [] := by
  revert ops s
  suffices key : ∀ ops s, Epsilon.run fuel (Epsilon.construct n 0 eps) ops = .ok s → s.out = [] ∧ ∀ i, s.events i = [] from
    fun ops s h => (key ops s h).1
  apply runE_induction
  · exact ⟨rfl, fun _ => rfl⟩
  · intro ops s op s' hr ⟨ho, he⟩ hs
    obtain ⟨hinv, _, hq⟩ := Epsilon.run_inv hr
    obtain ⟨_, _, _, hcase⟩ := Epsilon.add_ok hinv hs
    cases hcase with
    | processed o hall _ _ =>
      exfalso
      obtain ⟨j, hj⟩ : ∃ j : Fin n, j ≠ op.1 := by
        by_cases h0 : op.1.val = 0
        · exact ⟨⟨1, by omega⟩, fun h => by have h1 : 1 = op.1.val := congrArg Fin.val h; omega⟩
        · exact ⟨⟨0, by omega⟩, fun h => by have h1 : 0 = op.1.val := congrArg Fin.val h; omega⟩
      have := hall j
      rw [upd_ne _ _ hj] at this
      exact this (he j)
    | queued _ hlen _ _ => rw [hq] at hlen; omega
    | overflow _ _ hev hout =>
      refine ⟨by rw [hout, ho], fun j => ?_⟩
      rw [hev]
      by_cases hj : j = op.1
      · subst hj; rw [upd_same, he]; rfl
      · rw [upd_ne _ _ hj]; exact he j

example : ∃ s, Epsilon.run 6 (Epsilon.construct 2 0 0) fanOps = .ok s := ⟨_, rfl⟩

/-- **C114** (ApproximateTime).  The same for every queue size, maximum interval and lower bounds, and every age penalty of at least
0: although the policy waits for later messages in general, it never does here. -/
theorem C114_approximate [NeZero n] (fuel : Nat) (cfg : Approx.Cfg n) (hq : 0 < cfg.queueSize) (hM : 0 ≤ cfg.maxInterval)
    (hsc : ∀ x, 0 ≤ x → x ≤ cfg.scale x) (msgs : List Ev) (ops : List (Fin n × Ev)) (h : FanOut msgs ops)
    (hfuel : ops.length * ops.length + ops.length ≤ fuel) :
    ∃ s, Approx.run fuel cfg ops = .ok s ∧ s.out = msgs.map same ∧ ∀ i, s.deques i = [] ∧ s.past i = [] := by
  obtain ⟨s, hs⟩ := Approx.C28_terminates fuel cfg hq ops hfuel
  obtain ⟨h1, h2, h3⟩ := Approx.run_fan hM (hsc 0 (Int.le_refl 0)) h s hs
  exact ⟨s, hs, h1, fun i => ⟨congrFun h3 i, h2.past i⟩⟩

example : FanOut fanMsgs fanOps ∧ ((Approx.run 42 { queueSize := 1, scale := fun x => x + x / 10, lower := fun _ => 5, maxInterval := 0 }
      fanOps).toOption.map (fun s => s.out.map (fun t => List.ofFn (fun i => (t i).map (·.id))))) =
      some [[some 1, some 1], [some 2, some 2], [some 3, some 3]] := ⟨fanOps_fan, by decide⟩

/-- **C114** (Python TimeSynchronizer).  The same for every queue size of at least 1. -/
theorem C114_python_exact [NeZero n] (q : Int) (hq : 1 ≤ q) (msgs : List Ev) (ops : List (Fin n × Ev)) (h : FanOut msgs ops) :
    ∃ s, Py.tsRun Py.noRaise (Py.construct n q) (Py.withHeaders ops) = .ok s ∧ s.out = msgs.map (fun m _ => m) ∧
      ∀ i, s.queues i = [] := by
  obtain ⟨s, hs, _⟩ := Py.C66_always_returns_partial q (by omega) ops
  obtain ⟨h1, h2⟩ := Py.ts_fan hq h s hs
  exact ⟨s, hs, h1, fun i => congrFun h2 i⟩

example : FanOut fanMsgs fanOps ∧ ((Py.tsRun Py.noRaise (Py.construct 2 1) (Py.withHeaders fanOps)).toOption.map
    (fun s => s.out.map (fun t => List.ofFn (fun i => (t i).id)))) = some [[1, 1], [2, 2], [3, 3]] := ⟨fanOps_fan, by decide⟩

/-- **C114** (Python ApproximateTimeSynchronizer).  The same for every slop above 0. -/
theorem C114_python_approximate [NeZero n] (slop q : Int) (allow : Bool) (hslop : 0 < slop) (hq : 1 ≤ q) (msgs : List Ev)
    (ops : List (Fin n × Ev)) (h : FanOut msgs ops) :
    ∃ s, Py.approxRun Py.noRaise slop allow (Py.construct n q) (Py.withHeaders ops) = .ok s ∧ s.out = msgs.map (fun m _ => m) ∧
      ∀ i, s.queues i = [] := by
  obtain ⟨s, hs, _⟩ := Py.C66_approximate_always_returns_partial slop q allow (by omega) (Py.withHeaders ops)
  obtain ⟨h1, h2⟩ := Py.approx_fan hslop hq h s hs
  exact ⟨s, hs, h1, fun i => congrFun h2 i⟩

example : FanOut fanMsgs fanOps ∧ ((Py.approxRun Py.noRaise 1 false (Py.construct 2 1) (Py.withHeaders fanOps)).toOption.map
    (fun s => s.out.map (fun t => List.ofFn (fun i => (t i).id)))) = some [[1, 1], [2, 2], [3, 3]] := ⟨fanOps_fan, by decide⟩

/-- The slop must not be 0: then a Python ApproximateTimeSynchronizer outputs nothing, whatever it receives. -/
theorem C114_python_slop_needed [NeZero n] (boom : Nat → Bool) (q : Int) (allow : Bool) (ops : List (Fin n × Py.Msg)) (s : Py.State n)
    (h : Py.approxRun boom 0 allow (Py.construct n q) ops = .ok s) : s.out = [] := by
  rw [List.eq_nil_iff_forall_not_mem]
  intro t ht
  have h0 : Fin n := ⟨0, Nat.pos_of_ne_zero (NeZero.ne n)⟩
  have := (Py.C67_complete_sets boom 0 q allow ops s h t ht).2 h0 h0
  omega

example : ∃ s, Py.approxRun Py.noRaise 0 false (Py.construct 2 10) (Py.withHeaders fanOps) = .ok s := ⟨_, rfl⟩

end MF

namespace MF.Latest

variable {n : Nat}

/-- **C114** (LatestTime, failure).  LatestTime does not put a message together with itself.  Let a source of period `p` be connected
to every input, each message reaching the inputs in the order of their indices, each input at a fixed delay (equal delays included)
before the next message.  With exact arithmetic exactly one set is output for every message but the first: the new message for
input 0 and the PREVIOUS message for all other inputs. -/
theorem C114_latest_stale [NeZero n] (src : Source) (M : Nat → Ev) (t0 p : Int) (hp : 0 < p) (off : Fin n → Int)
    (hoff : ∀ i j : Fin n, i ≤ j → off i ≤ off j ∧ off j ≤ off i + p) (dflt : Config Rat) (configs : List (Config Rat)) (K : Nat) :
    ∃ s, run dflt (initial n configs) (rounds src M t0 p off (K + 1)) = .ok s ∧
      s.out = (List.range K).map (fun k i => if i = 0 then M (k + 1) else M k) := by
  obtain ⟨s, hs, hout⟩ := run_fan (src := src) (M := M) (t0 := t0) hp hoff dflt configs (K + 1) 0 (Nat.zero_le _)
  exact ⟨s, by rw [← upTo_zero]; exact hs, hout⟩

example : ∃ s, run (⟨1 / 10, 1 / 10, 10⟩ : Config Rat) (initial 2 []) (rounds .ros (fun k => ⟨k, 10 * k⟩) 1000 100 (fun i => i.val) 4) = .ok s ∧
    s.out.map (fun t => List.ofFn (fun i => (t i).id)) = [[1, 0], [2, 1], [3, 2]] ∧
    ∀ i j : Fin 2, i ≤ j → (i.val : Int) ≤ j.val ∧ (j.val : Int) ≤ i.val + 100 := by
  obtain ⟨s, hs, hout⟩ := C114_latest_stale .ros (fun k => ⟨k, 10 * k⟩) 1000 100 (by decide) (fun i : Fin 2 => (i.val : Int))
    (by decide) ⟨1 / 10, 1 / 10, 10⟩ [] 3
  exact ⟨s, hs, by rw [hout]; decide, by decide⟩

end MF.Latest
