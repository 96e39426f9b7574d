import Verif.Proofs.LateStart
import Verif.Proofs.LateStartApprox
import Verif.Proofs.LateStartExact
import Verif.Proofs.LateStartPy
import Verif.Props.Approx
import Verif.Props.ExactTime
/-
Property C115: an input that delivers nothing for a while, at the start or later.
-/
namespace MF

variable {n : Nat}

theorem runE_congr_ok {σ α : Type} (step : σ → α → Except Fault σ) {s t : σ} {a a' b : List α}
    (h : runE step s a = .ok t) (h' : runE step s a' = .ok t) : runE step s (a ++ b) = runE step s (a' ++ b) := by
  rw [runE_append_ok _ _ _ _ _ h, runE_append_ok _ _ _ _ _ h']

/-- Sample deliveries while input 0 is silent: five messages, and the last two of them. -/
def lateLong : List (Fin 2 × Ev) := [(1, ⟨1, 10⟩), (1, ⟨2, 20⟩), (1, ⟨3, 30⟩), (1, ⟨4, 40⟩), (1, ⟨5, 50⟩)]

def lateShort : List (Fin 2 × Ev) := [(1, ⟨4, 40⟩), (1, ⟨5, 50⟩)]

theorem lateLong_silent : Silent 0 lateLong := by unfold Silent; decide

theorem lateShort_silent : Silent 0 lateShort := by unfold Silent; decide

theorem late_same : SameLast 2 lateLong lateShort := by unfold SameLast; decide

/-- Sample deliveries when input 0 has started. -/
def latePost : List (Fin 2 × Ev) := [(0, ⟨6, 40⟩), (0, ⟨7, 50⟩), (0, ⟨8, 100⟩), (1, ⟨9, 100⟩)]

/-! ### ApproximateEpsilonTime -/

/-- **C115** (ApproximateEpsilonTime).  As long as an input of which nothing is stored delivers nothing, nothing is output, and of
every other input the last `q` messages are kept: those stored before and those received since. -/
theorem C115_epsilon_waits [NeZero n] (fuel q : Nat) (eps : Int) (j : Fin n) (hist pre : List (Fin n × Ev)) (s : Epsilon.State n)
    (hs : Epsilon.run fuel (Epsilon.construct n q eps) hist = .ok s) (hj : s.events j = []) (h : Silent j pre) :
    ∃ s', Epsilon.run fuel (Epsilon.construct n q eps) (hist ++ pre) = .ok s' ∧ s'.out = s.out ∧
      ∀ i, s'.events i = lastN q (s.events i ++ stream pre i) := by
  obtain ⟨hi, _, hq⟩ := Epsilon.run_inv hs
  obtain ⟨s', h1, _, _, _, h5, h6⟩ := Epsilon.run_late fuel hi hj pre h
  refine ⟨s', ?_, h5, fun i => by rw [h6, hq]⟩
  unfold Epsilon.run at hs h1 ⊢
  rw [runE_append_ok _ _ _ _ _ hs, h1]

/-- **C115** (ApproximateEpsilonTime).  How long the input is silent does not matter: whatever is delivered afterwards, the outcome only
depends on the last `q` messages each other input delivered meanwhile. -/
theorem C115_epsilon [NeZero n] (fuel q : Nat) (eps : Int) (j : Fin n) (hist pre pre' post : List (Fin n × Ev)) (s : Epsilon.State n)
    (hs : Epsilon.run fuel (Epsilon.construct n q eps) hist = .ok s) (hj : s.events j = [])
    (h : Silent j pre) (h' : Silent j pre') (hl : SameLast q pre pre') :
    Epsilon.run fuel (Epsilon.construct n q eps) (hist ++ pre ++ post) =
      Epsilon.run fuel (Epsilon.construct n q eps) (hist ++ pre' ++ post) := by
  obtain ⟨hi, _, hq⟩ := Epsilon.run_inv hs
  obtain ⟨a, a1, a2, a3, a4, a5, a6⟩ := Epsilon.run_late fuel hi hj pre h
  obtain ⟨b, b1, b2, b3, b4, b5, b6⟩ := Epsilon.run_late fuel hi hj pre' h'
  have hev : a.events = b.events := by
    rw [a6, b6, hq]; funext i; exact lastN_append _ (hl i)
  have hab : a = b := by
    have hnum : a.num = b.num := by rw [a2.num, b2.num, hev]
    cases a; cases b
    dsimp only at *
    subst hnum hev a3 a4 a5
    rw [b3, b4, b5]
  subst hab
  rw [List.append_assoc, List.append_assoc]
  unfold Epsilon.run at hs a1 b1 ⊢
  rw [runE_append_ok _ _ _ _ _ hs, runE_append_ok _ _ _ _ _ hs]
  exact runE_congr_ok _ a1 b1

/-- At the start, nothing is stored of any input.  With queue size 2 the first three of five messages have no influence. -/
example : Silent 0 lateLong ∧ Silent 0 lateShort ∧ SameLast 2 lateLong lateShort ∧
    ((Epsilon.run 20 (Epsilon.construct 2 2 0) (lateLong ++ latePost)).toOption.map
      (fun s => s.out.map (fun t => List.ofFn (fun i => (t i).map (·.id))))) =
      some [[some 6, some 4], [some 7, some 5], [some 8, some 9]] :=
  ⟨lateLong_silent, lateShort_silent, late_same, by decide⟩

/-- After a first output on both inputs, nothing of input 0 is stored either: an outage. -/
example : (Epsilon.run 20 (Epsilon.construct 2 2 0) [(0, ⟨20, 1⟩), (1, ⟨21, 1⟩)]).toOption.map
    (fun s => (s.events 0, s.out.length)) = some ([], 1) := by decide

/-- That nothing of the input is stored is needed: a message of the input still stored is matched meanwhile, and then the messages
received before the last `q` do have an influence. -/
theorem C115_epsilon_stored_needed : ∃ (hist pre pre' : List (Fin 2 × Ev)), Silent 0 pre ∧ Silent 0 pre' ∧ SameLast 1 pre pre' ∧
    (Epsilon.run 20 (Epsilon.construct 2 1 0) (hist ++ pre)).toOption.map (fun s => s.out.length) = some 1 ∧
    (Epsilon.run 20 (Epsilon.construct 2 1 0) (hist ++ pre')).toOption.map (fun s => s.out.length) = some 0 :=
  ⟨[(0, ⟨1, 5⟩)], [(1, ⟨2, 5⟩), (1, ⟨3, 6⟩)], [(1, ⟨3, 6⟩)], by unfold Silent; decide, by unfold Silent; decide,
    by unfold SameLast; decide, by decide, by decide⟩

/-! ### ApproximateTime -/

/-- **C115** (ApproximateTime).  As long as an input of which nothing is stored delivers nothing, nothing is output, and of every other
input the last `queueSize` messages are kept. -/
theorem C115_approximate_waits [NeZero n] (fuel : Nat) (cfg : Approx.Cfg n) (j : Fin n) (hist pre : List (Fin n × Ev))
    (s : Approx.State n) (hs : Approx.run fuel cfg hist = .ok s) (hj : s.deques j = [] ∧ s.past j = []) (h : Silent j pre) :
    ∃ s', Approx.run fuel cfg (hist ++ pre) = .ok s' ∧ s'.out = s.out ∧
      ∀ i, s'.deques i = lastN cfg.queueSize (s.deques i ++ stream pre i) := by
  obtain ⟨hi, hc, _⟩ := Approx.run_facts hs
  obtain ⟨hq, hr⟩ := Approx.runOps_ok hs
  obtain ⟨w, h1⟩ := Approx.run_late fuel hi (j := j) (by unfold Approx.view; rw [hj.1, hj.2]; rfl) pre h
  refine ⟨Approx.setW w (Approx.waitState s pre), ?_, rfl, fun i => ?_⟩
  · unfold Approx.run Approx.runOps
    rw [Approx.construct_eq cfg hq]
    show runE (Approx.step fuel) (Approx.init cfg) _ = _
    rw [List.map_append, runE_append_ok _ _ _ _ _ hr]
    exact h1
  · show lastN s.cfg.queueSize _ = _
    rw [hc]

/-- **C115** (ApproximateTime).  How long the input is silent does not matter: whatever is delivered afterwards, the sets output only
depend on the last `queueSize + 1` messages each other input delivered meanwhile. -/
theorem C115_approximate [NeZero n] (fuel : Nat) (cfg : Approx.Cfg n) (j : Fin n) (hist pre pre' post : List (Fin n × Ev))
    (s : Approx.State n) (hs : Approx.run fuel cfg hist = .ok s) (hj : s.deques j = [] ∧ s.past j = [])
    (h : Silent j pre) (h' : Silent j pre') (hl : SameLast (cfg.queueSize + 1) pre pre') (t : Approx.State n)
    (ht : Approx.run fuel cfg (hist ++ pre ++ post) = .ok t) :
    ∃ t', Approx.run fuel cfg (hist ++ pre' ++ post) = .ok t' ∧ t'.out = t.out := by
  obtain ⟨hi, hc, _⟩ := Approx.run_facts hs
  obtain ⟨hq, hr⟩ := Approx.runOps_ok hs
  have hv : Approx.view s j = [] := by unfold Approx.view; rw [hj.1, hj.2]; rfl
  obtain ⟨w, h1⟩ := Approx.run_late fuel hi hv pre h
  obtain ⟨w', h2⟩ := Approx.run_late fuel hi hv pre' h'
  have hbound : ∀ i, (s.deques i).length ≤ cfg.queueSize := fun i => by
    have := hi.bound i
    unfold Approx.view at this
    rw [List.length_append, hc] at this; omega
  have hw : Approx.waitState s pre = Approx.waitState s pre' := by
    have e1 : (fun i => lastN s.cfg.queueSize (s.deques i ++ stream pre i)) =
        fun i => lastN s.cfg.queueSize (s.deques i ++ stream pre' i) := by
      funext i
      rw [hc]
      apply lastN_append
      rw [← lastN_lastN (k := cfg.queueSize) (m := cfg.queueSize + 1) (by omega), hl i, lastN_lastN (by omega)]
    have e2 : (fun i => s.hasDropped i || decide (s.cfg.queueSize < (s.deques i ++ stream pre i).length)) =
        fun i => s.hasDropped i || decide (s.cfg.queueSize < (s.deques i ++ stream pre' i).length) := by
      funext i
      have hlen := congrArg List.length (hl i)
      rw [lastN_length, lastN_length] at hlen
      have := hbound i
      rw [hc, List.length_append, List.length_append]
      congr 1
      rw [decide_eq_decide]; omega
    unfold Approx.waitState
    rw [e1, e2]
  rw [← hw] at h2
  obtain ⟨_, ht⟩ := Approx.runOps_ok ht
  rw [List.append_assoc, List.map_append, runE_append_ok _ _ _ _ _ hr, List.map_append, runE_append_ok _ _ _ _ _ h1] at ht
  obtain ⟨t', h3, v, rfl⟩ := Approx.runE_upToW fuel post (s := Approx.setW w (Approx.waitState s pre)) (t := Approx.setW w' (Approx.waitState s pre)) ⟨w', rfl⟩ ht
  refine ⟨Approx.setW v t, ?_, rfl⟩
  unfold Approx.run Approx.runOps
  rw [Approx.construct_eq cfg hq]
  show runE (Approx.step fuel) (Approx.init cfg) _ = _
  rw [List.append_assoc, List.map_append, runE_append_ok _ _ _ _ _ hr, List.map_append, runE_append_ok _ _ _ _ _ h2]
  exact h3

/-- With queue size 1, the first three of five messages have no influence. -/
example : Silent 0 lateLong ∧ Silent 0 lateShort ∧ SameLast (1 + 1) lateLong lateShort ∧
    (Approx.run 100 ({ Approx.sampleCfg with queueSize := 1 } : Approx.Cfg 2) (lateLong ++ latePost)).toOption.map
      (fun s => s.out.map (fun t => List.ofFn (fun i => (t i).map (·.id)))) =
    (Approx.run 100 ({ Approx.sampleCfg with queueSize := 1 } : Approx.Cfg 2) (lateShort ++ latePost)).toOption.map
      (fun s => s.out.map (fun t => List.ofFn (fun i => (t i).map (·.id)))) :=
  ⟨lateLong_silent, lateShort_silent, late_same, by decide⟩

/-- After a first output nothing of input 0 is stored: an outage. -/
example : (Approx.run 100 Approx.sampleCfg [(0, ⟨20, 1⟩), (1, ⟨21, 1⟩)]).toOption.map
    (fun s => (s.deques 0, s.past 0, s.out.length)) = some ([], [], 1) := by decide

/-- One message more than is stored does matter: that a message was dropped is remembered, and the first set that could have contained
it is not output. -/
theorem C115_approximate_one_more_needed : ∃ (cfg : Approx.Cfg 2) (pre pre' post : List (Fin 2 × Ev)),
    Silent 0 pre ∧ Silent 0 pre' ∧ SameLast cfg.queueSize pre pre' ∧
    (Approx.run 100 cfg (pre ++ post)).toOption.map (fun s => s.out.length) = some 0 ∧
    (Approx.run 100 cfg (pre' ++ post)).toOption.map (fun s => s.out.length) = some 1 :=
  ⟨{ Approx.sampleCfg with queueSize := 1 }, [(1, ⟨1, 0⟩), (1, ⟨2, 10⟩)], [(1, ⟨2, 10⟩)], [(0, ⟨3, 5⟩), (0, ⟨4, 100⟩)],
    by unfold Silent; decide, by unfold Silent; decide, by unfold SameLast; decide, by decide, by decide⟩

/-! ### ExactTime -/

/-- **C115** (ExactTime).  As long as an input has not delivered anything, nothing is output; afterwards, if `q` different stamps not
earlier than `T` have been received, the messages stamped before `T` have no influence on the output. -/
theorem C115_exact [NeZero n] (q : Nat) (hq : 0 < q) (T : Int) (j : Fin n) (pre post : List (Fin n × Ev)) (h : Silent j pre)
    (hT : StampsFrom q T pre) :
    (∃ s, ExactTime.run (ExactTime.construct n q) pre = .ok s ∧ ExactTime.outs s.log = []) ∧
    ∃ s s', ExactTime.run (ExactTime.construct n q) (pre ++ post) = .ok s ∧
      ExactTime.run (ExactTime.construct n q) (from_ T pre ++ post) = .ok s' ∧ ExactTime.outs s.log = ExactTime.outs s'.log := by
  obtain ⟨a, a1, a2, a3, a4, a5⟩ := ExactTime.run_late hq pre h
  obtain ⟨b, b1, b2, b3, b4, b5⟩ := ExactTime.run_late hq (from_ T pre) (ExactTime.from_silent h)
  refine ⟨⟨a, a1, a5⟩, ?_⟩
  obtain ⟨s, hs⟩ := ExactTime.C15_never_faults (n := n) q (pre ++ post)
  obtain ⟨s', hs'⟩ := ExactTime.C15_never_faults (n := n) q (from_ T pre ++ post)
  refine ⟨s, s', hs, hs', ?_⟩
  unfold ExactTime.run at hs hs' a1 b1
  rw [runE_append_ok _ _ _ _ _ a1] at hs
  rw [runE_append_ok _ _ _ _ _ b1] at hs'
  have ha : a = { ({ a with log := [] } : ExactTime.State n) with log := a.log ++ ({ a with log := [] } : ExactTime.State n).log } := by
    simp
  have hb : b = { ({ a with log := [] } : ExactTime.State n) with log := b.log ++ ({ a with log := [] } : ExactTime.State n).log } := by
    have ht : b.tuples = a.tuples := by rw [a3, b3, ExactTime.lastN_from hT]
    have hl : b.last = a.last := by rw [a4, b4]
    have hz : b.queueSize = a.queueSize := by rw [a2, b2]
    cases a; cases b
    dsimp only at ht hl hz
    subst ht hl hz
    simp
  have ra := ExactTime.run_log post { a with log := [] } a.log
  have rb := ExactTime.run_log post { a with log := [] } b.log
  rw [← ha] at ra
  rw [← hb] at rb
  unfold ExactTime.run at ra rb
  rw [ra] at hs
  rw [rb] at hs'
  cases hc : runE (fun s op => ExactTime.add s op.1 op.2) ({ a with log := [] } : ExactTime.State n) post with
  | error f => rw [hc] at hs; cases hs
  | ok t =>
    rw [hc] at hs hs'
    cases hs; cases hs'
    simp only [ExactTime.outs_append, a5, b5]

example : Silent 0 lateLong ∧ StampsFrom 2 40 lateLong ∧ from_ 40 lateLong = lateShort ∧
    (ExactTime.run (ExactTime.construct 2 2) (lateLong ++ latePost)).toOption.map
      (fun s => (ExactTime.outs s.log).map (fun t => List.ofFn (fun i => (t i).map (·.id)))) =
      some [[some 6, some 4], [some 7, some 5], [some 8, some 9]] :=
  ⟨lateLong_silent, ⟨[40, 50], by decide, rfl, by unfold lateLong; decide⟩, by decide, by decide⟩

/-- As many different stamps are needed: a message within the last `q` stamps is still matched. -/
theorem C115_exact_stamps_needed : ∃ (T : Int) (pre post : List (Fin 2 × Ev)), Silent 0 pre ∧ StampsFrom 1 T pre ∧
    (ExactTime.run (ExactTime.construct 2 2) (pre ++ post)).toOption.map (fun s => (ExactTime.outs s.log).length) = some 1 ∧
    (ExactTime.run (ExactTime.construct 2 2) (from_ T pre ++ post)).toOption.map (fun s => (ExactTime.outs s.log).length) = some 0 :=
  ⟨6, [(1, ⟨1, 5⟩), (1, ⟨2, 6⟩)], [(0, ⟨3, 5⟩)], by unfold Silent; decide, ⟨[6], by decide, rfl, by decide⟩, by decide, by decide⟩

/-! ### The Python synchronizers -/

/-- **C115** (Python TimeSynchronizer).  While an input has not delivered anything, nothing is output, and afterwards the outcome only
depends on the last `q` messages of each other input, if stamps increase strictly until then. -/
theorem C115_python_exact [NeZero n] (boom : Nat → Bool) (q : Nat) (j : Fin n) (pre pre' : List (Fin n × Ev))
    (post : List (Fin n × Py.Msg)) (h : Silent j pre) (h' : Silent j pre') (hst : ∀ i, StrictlyTimeSorted (stream pre i))
    (hst' : ∀ i, StrictlyTimeSorted (stream pre' i)) (hl : SameLast q pre pre') :
    (∃ s, Py.tsRun boom (Py.construct n q) (Py.withHeaders pre) = .ok s ∧ s.out = []) ∧
    Py.tsRun boom (Py.construct n q) (Py.withHeaders pre ++ post) = Py.tsRun boom (Py.construct n q) (Py.withHeaders pre' ++ post) := by
  have a := Py.ts_late boom q pre h hst
  have b := Py.ts_late boom q pre' h' hst'
  have hw : Py.waiting q pre = Py.waiting q pre' := by
    unfold Py.waiting
    rw [show (fun i => Py.asDict (lastN q (stream pre i))) = fun i => Py.asDict (lastN q (stream pre' i)) from
      funext fun i => by rw [hl i]]
  rw [← hw] at b
  exact ⟨⟨_, a, rfl⟩, runE_congr_ok _ a b⟩

/-- **C115** (Python ApproximateTimeSynchronizer).  The same, for every slop and with headerless messages allowed or not. -/
theorem C115_python_approximate [NeZero n] (boom : Nat → Bool) (slop : Int) (allow : Bool) (q : Nat) (j : Fin n)
    (pre pre' : List (Fin n × Ev)) (post : List (Fin n × Py.Msg)) (h : Silent j pre) (h' : Silent j pre')
    (hst : ∀ i, StrictlyTimeSorted (stream pre i)) (hst' : ∀ i, StrictlyTimeSorted (stream pre' i)) (hl : SameLast q pre pre') :
    (∃ s, Py.approxRun boom slop allow (Py.construct n q) (Py.withHeaders pre) = .ok s ∧ s.out = []) ∧
    Py.approxRun boom slop allow (Py.construct n q) (Py.withHeaders pre ++ post) =
      Py.approxRun boom slop allow (Py.construct n q) (Py.withHeaders pre' ++ post) := by
  have a := Py.approx_late boom slop allow q pre h hst
  have b := Py.approx_late boom slop allow q pre' h' hst'
  have hw : Py.waiting q pre = Py.waiting q pre' := by
    unfold Py.waiting
    rw [show (fun i => Py.asDict (lastN q (stream pre i))) = fun i => Py.asDict (lastN q (stream pre' i)) from
      funext fun i => by rw [hl i]]
  rw [← hw] at b
  exact ⟨⟨_, a, rfl⟩, runE_congr_ok _ a b⟩

example : Silent 0 lateLong ∧ Silent 0 lateShort ∧ (∀ i, StrictlyTimeSorted (stream lateLong i)) ∧
    (∀ i, StrictlyTimeSorted (stream lateShort i)) ∧ SameLast 2 lateLong lateShort ∧
    (Py.tsRun (fun _ => false) (Py.construct 2 2) (Py.withHeaders lateLong ++ Py.withHeaders latePost)).toOption.map
      (fun s => s.out.map (fun t => List.ofFn (fun i => (t i).id))) = some [[6, 4], [7, 5], [8, 9]] :=
  ⟨lateLong_silent, lateShort_silent, by unfold StrictlyTimeSorted; decide, by unfold StrictlyTimeSorted; decide, late_same,
    by decide⟩

end MF
