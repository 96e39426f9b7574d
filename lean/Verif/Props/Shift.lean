import Verif.Spec.Shift
import Verif.Proofs.ShiftMore
import Verif.Proofs.ShiftPy
/-
Property C121: only the differences between stamps matter to the approximate policies, only their order to ExactTime and Cache,
and the contents of messages matter to none of them.
-/
namespace MF

variable {n : Nat}

/-- **C121** (ApproximateTime): moving all stamps by the same amount, and replacing the contents of the messages at will, changes
nothing but the messages themselves: the same calls fail in the same way, the same sets are output in the same order, with
every message replaced, and the same inputs are warned about.  Parameters may be changed in between. -/
theorem C121_approximate [NeZero n] (g : Ev → Ev) (c : Int) (hg : Restamps g (· + c)) (fuel : Nat) (cfg : Approx.Cfg n)
    (ops : List (Approx.Op n)) :
    (Approx.runOps fuel cfg (ops.map (Approx.mapOp g))).map (fun s => (s.out, s.warned)) =
      (Approx.runOps fuel cfg ops).map (fun s => (s.out.map (mapSet g), s.warned)) := by
  have h := Approx.moved_run hg fuel cfg ops
  cases h1 : Approx.runOps fuel cfg ops with
  | error f => rw [h1] at h; rw [relE_error h]; rfl
  | ok s =>
    rw [h1] at h
    obtain ⟨s', h2, h3⟩ := relE_ok h
    rw [h2]
    show Except.ok _ = Except.ok _
    dsimp only
    rw [h3.out, h3.warned]
    rfl

/-- **C121** (ApproximateEpsilonTime): the same, for stamps below the largest 64 bit integer. -/
theorem C121_epsilon [NeZero n] (g : Ev → Ev) (c : Int) (hg : Restamps g (· + c)) (fuel queueSize : Nat) (epsilon : Int)
    (ops : List (Fin n × Ev)) (hs : ∀ op ∈ ops, op.2.stamp < 2 ^ 63 - 1 ∧ (g op.2).stamp < 2 ^ 63 - 1) :
    (Epsilon.run fuel (Epsilon.construct n queueSize epsilon) (mapCalls g ops)).map (·.out) =
      (Epsilon.run fuel (Epsilon.construct n queueSize epsilon) ops).map (fun s => s.out.map (mapSet g)) := by
  have h : RelE (Epsilon.Moved g c) (Epsilon.run fuel (Epsilon.construct n queueSize epsilon) ops)
      (Epsilon.run fuel (Epsilon.construct n queueSize epsilon) (mapCalls g ops)) := by
    unfold Epsilon.run mapCalls
    apply relE_runE (P := fun o o' => o' = (o.1, g o.2) ∧ o.2.stamp < Epsilon.maxTime ∧ o.2.stamp + c < Epsilon.maxTime)
    · intro a a' o o' h ho
      obtain ⟨rfl, h1, h2⟩ := ho
      exact Epsilon.moved_add hg fuel h o.1 o.2 ⟨h1, h2⟩
    · intro o ho
      obtain ⟨h1, h2⟩ := hs o ho
      rw [hg o.2] at h2
      dsimp only at h2
      refine ⟨rfl, ?_, ?_⟩
      · unfold Epsilon.maxTime; omega
      · unfold Epsilon.maxTime; omega
    · refine { queueSize := rfl, epsilon := rfl, num := rfl, events := rfl, out := rfl, count := ?_, small := ?_ }
      · simp [Epsilon.construct, Epsilon.nonEmpty]
      · intro i e he; cases he
  cases h1 : Epsilon.run fuel (Epsilon.construct n queueSize epsilon) ops with
  | error f => rw [h1] at h; rw [relE_error h]; rfl
  | ok s =>
    rw [h1] at h
    obtain ⟨s', h2, h3⟩ := relE_ok h
    rw [h2]
    show Except.ok _ = Except.ok _
    dsimp only
    rw [h3.out]
    rfl

/-- **C121** (ExactTime): only which stamps are equal and which is the smaller matters: replacing the stamps by others in the same
order, and the contents at will, changes nothing but the messages in the sets output and dropped. -/
theorem C121_exact [NeZero n] (g : Ev → Ev) (φ : Int → Int) (hφ : KeepsOrder φ) (hg : Restamps g φ) (queueSize : Nat)
    (ops : List (Fin n × Ev)) :
    (ExactTime.run (ExactTime.construct n queueSize) (mapCalls g ops)).map (·.log) =
      (ExactTime.run (ExactTime.construct n queueSize) ops).map (fun s => s.log.map (ExactTime.mapAction g)) := by
  have h : RelE (ExactTime.Moved g φ) (ExactTime.run (ExactTime.construct n queueSize) ops)
      (ExactTime.run (ExactTime.construct n queueSize) (mapCalls g ops)) := by
    unfold ExactTime.run mapCalls
    apply relE_runE (P := fun o o' => o' = (o.1, g o.2))
    · intro a a' o o' h ho
      subst ho
      exact ExactTime.moved_add hφ hg h o.1 o.2
    · intro o _; rfl
    · exact ⟨rfl, rfl, rfl⟩
  cases h1 : ExactTime.run (ExactTime.construct n queueSize) ops with
  | error f => rw [h1] at h; rw [relE_error h]; rfl
  | ok s =>
    rw [h1] at h
    obtain ⟨s', h2, h3⟩ := relE_ok h
    rw [h2]
    show Except.ok _ = Except.ok _
    dsimp only
    rw [h3.log]

/-- **C121** (Cache): the same for a cache: it forwards the replaced messages, and a query about the replaced times answers with
the replaced messages. -/
theorem C121_cache (g : Ev → Ev) (φ : Int → Int) (hφ : KeepsOrder φ) (hg : Restamps g φ) (size : Nat) (ops : List Cache.Op)
    (a b : Int) :
    (Cache.run (Cache.construct size) (ops.map (Cache.mapOp g))).map (fun s => (s.out, Cache.getInterval s (φ a) (φ b),
        Cache.getSurroundingInterval s (φ a) (φ b), Cache.getElemBeforeTime s (φ a), Cache.getElemAfterTime s (φ a))) =
      (Cache.run (Cache.construct size) ops).map (fun s => (s.out.map g, (Cache.getInterval s a b).map g,
        (Cache.getSurroundingInterval s a b).map g, (Cache.getElemBeforeTime s a).map g, (Cache.getElemAfterTime s a).map g)) := by
  have h0 : Cache.construct size = Cache.mapState g (Cache.construct size) := by
    unfold Cache.construct Cache.setCacheSize Cache.mapState
    split <;> rfl
  have h := Cache.run_map hφ hg ops (Cache.construct size)
  rw [← h0] at h
  rw [h]
  cases Cache.run (Cache.construct size) ops with
  | error f => rfl
  | ok s =>
    show Except.ok _ = Except.ok _
    simp only [Cache.interval_map hφ hg, Cache.surrounding_map hφ hg, Cache.before_map hφ hg, Cache.after_map hφ hg]
    rfl

/-- **C121** (Python TimeSynchronizer): only the order of the stamps matters, whichever callbacks raise. -/
theorem C121_python_time (g : Ev → Ev) (φ : Int → Int) (hφ : KeepsOrder φ) (hg : Restamps g φ) (boom : Nat → Bool)
    (queueSize : Int) (ops : List (Fin n × Py.Msg)) :
    (Py.tsRun boom (Py.construct n queueSize) (Py.mapCalls g ops)).map (fun s => (s.out, s.locked)) =
      (Py.tsRun boom (Py.construct n queueSize) ops).map (fun s => (s.out.map (fun t j => g (t j)), s.locked)) := by
  have h := Py.tsRun_map hφ hg boom ops (Py.construct n queueSize)
  have h0 : Py.mapState g φ (Py.construct n queueSize) = Py.construct n queueSize := rfl
  rw [h0] at h
  unfold Py.mapCalls
  rw [h]
  cases Py.tsRun boom (Py.construct n queueSize) ops <;> rfl

/-- **C121** (Python ApproximateTimeSynchronizer): only the differences between stamps matter; the clock that stamps messages
without header is moved along with the other stamps. -/
theorem C121_python_approximate (g : Ev → Ev) (c : Int) (hg : Restamps g (· + c)) (boom : Nat → Bool) (slop : Int)
    (allowHeaderless : Bool) (queueSize : Int) (ops : List (Fin n × Py.Msg)) :
    (Py.approxRun boom slop allowHeaderless (Py.construct n queueSize) (Py.mapCalls g ops)).map (fun s => (s.out, s.locked)) =
      (Py.approxRun boom slop allowHeaderless (Py.construct n queueSize) ops).map
        (fun s => (s.out.map (fun t j => g (t j)), s.locked)) := by
  have h := Py.approxRun_map hg boom slop allowHeaderless ops (Py.construct n queueSize)
  have h0 : Py.mapState g (· + c) (Py.construct n queueSize) = Py.construct n queueSize := rfl
  rw [h0] at h
  unfold Py.mapCalls
  rw [h]
  cases Py.approxRun boom slop allowHeaderless (Py.construct n queueSize) ops <;> rfl

/-- **C121**: for the approximate policies the order alone is not enough: doubling all stamps takes a match away. -/
theorem C121_order_not_enough :
    ((Epsilon.run 10 (Epsilon.construct 2 5 1) [(0, ⟨1, 10⟩), (1, ⟨2, 11⟩)]).map (fun s => s.out.length)).toOption = some 1 ∧
    ((Epsilon.run 10 (Epsilon.construct 2 5 1)
      (mapCalls (fun e => { e with stamp := 2 * e.stamp }) [(0, ⟨1, 10⟩), (1, ⟨2, 11⟩)])).map (fun s => s.out.length)).toOption = some 0 ∧
    ((Approx.run 10 { queueSize := 5, maxInterval := 1, scale := id, lower := fun _ => 0 } [((0 : Fin 2), ⟨1, 10⟩), (1, ⟨2, 11⟩),
      (0, ⟨3, 20⟩), (1, ⟨4, 21⟩)]).map (fun s => s.out.length)).toOption = some 1 ∧
    ((Approx.run 10 { queueSize := 5, maxInterval := 1, scale := id, lower := fun _ => 0 }
      (mapCalls (fun e => { e with stamp := 2 * e.stamp }) [((0 : Fin 2), ⟨1, 10⟩), (1, ⟨2, 11⟩), (0, ⟨3, 20⟩),
        (1, ⟨4, 21⟩)])).map (fun s => s.out.length)).toOption = some 0 := by
  refine ⟨?_, ?_, ?_, ?_⟩ <;> decide

/-! The hypotheses can be met, and the runs compared output something. -/

example : Restamps (fun e => ⟨e.id + 100, e.stamp + 7⟩) (· + 7) := fun _ => rfl

example : KeepsOrder (fun x => 3 * x + 1) := by intro x y h; dsimp only; omega

example : Restamps (fun e => ⟨e.id + 100, 3 * e.stamp + 1⟩) (fun x => 3 * x + 1) := fun _ => rfl

example : ∀ op ∈ [((0 : Fin 2), (⟨1, 10⟩ : Ev)), (1, ⟨2, 11⟩)], op.2.stamp < 2 ^ 63 - 1 ∧ op.2.stamp + 7 < 2 ^ 63 - 1 := by
  decide

example : ((Epsilon.run 10 (Epsilon.construct 2 5 1) (mapCalls (fun e => ⟨e.id + 100, e.stamp + 7⟩)
    [((0 : Fin 2), (⟨1, 10⟩ : Ev)), (1, ⟨2, 11⟩)])).map (fun s => s.out.map (fun t => (t 0, t 1)))).toOption =
    some [(some ⟨101, 17⟩, some ⟨102, 18⟩)] := by decide

example : ((Approx.run 10 { queueSize := 5, maxInterval := 1, scale := id, lower := fun _ => 0 }
    (mapCalls (fun e => ⟨e.id + 100, e.stamp + 7⟩) [((0 : Fin 2), ⟨1, 10⟩), (1, ⟨2, 11⟩), (0, ⟨3, 20⟩), (1, ⟨4, 21⟩)])).map
      (fun s => s.out.map (fun t => (t 0, t 1)))).toOption = some [(some ⟨101, 17⟩, some ⟨102, 18⟩)] := by decide

example : ((Py.approxRun (fun _ => false) 5 false (Py.construct 2 3) (Py.mapCalls (fun e => ⟨e.id + 100, e.stamp + 7⟩)
    [(0, ⟨⟨1, 10⟩, true⟩), (1, ⟨⟨2, 11⟩, true⟩)])).map (fun s => s.out.map (fun t => (t 0, t 1)))).toOption =
    some [(⟨101, 17⟩, ⟨102, 18⟩)] := by decide

end MF
