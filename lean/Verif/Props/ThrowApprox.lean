import Verif.Proofs.ThrowApprox3
import Verif.Proofs.ThrowReach
/-
Property C55, continued from Props/Throw.lean: the ApproximateTime policy when output callbacks throw and the callers of `add`
catch the exceptions.  At the end, for the other filters: an exception of a callback reaches the caller.  `boom k` says that the `k`-th call of the output callbacks throws; `s.out` lists the sets given to the
callbacks, `delivered boom s.out` those whose call returned normally; input `i` holds the messages `s.past i ++ s.deques i`.
-/
namespace MF.Throw
open MF.Approx

variable {n : Nat}

/-- Configuration used in the examples: queue size 4, maximum interval 100, age penalty 1/10. -/
def sampleCfg : Cfg 2 := ⟨4, 100, fun x => (x * 11).tdiv 10, fun _ => 0⟩

/-- **C55** (ApproximateTime).  Without exceptions the policy behaves as in the model of the other properties. -/
theorem C55_approx_without_exceptions [NeZero n] (fuel : Nat) (cfg : Cfg n) (ops : List (Fin n × Ev)) :
    approxRun (fun _ => false) fuel cfg ops = run fuel cfg ops := by
  unfold approxRun run runOps
  cases construct n cfg with
  | error f => rfl
  | ok s =>
    simp only
    induction ops generalizing s with
    | nil => rfl
    | cons op ops ih =>
      have h1 : (approxAdd (fun _ => false) fuel s op.1 op.2).map (·.1) = add fuel s op.1 op.2 := by
        rw [approxAdd_never]
        cases add fuel s op.1 op.2 <;> rfl
      simp only [runE, List.map_cons, step]
      rw [h1]
      cases add fuel s op.1 op.2 with
      | error f => rfl
      | ok s' => exact ih s'

/-- **C55** (ApproximateTime).  Let `queue_size ≥ 1`.  Whatever throws, whatever the stamps and their order, every call of `add`
ends (normally or with the exception of the callback): no assertion fails, no empty buffer is read, no loop runs for ever. -/
theorem C55_approx_no_fault [NeZero n] (boom : Nat → Bool) (fuel : Nat) (cfg : Cfg n) (hq : 0 < cfg.queueSize)
    (ops : List (Fin n × Ev)) (hfuel : ops.length * ops.length + ops.length ≤ fuel) :
    ∃ s, approxRun boom fuel cfg ops = .ok s := by
  unfold approxRun
  rw [construct_eq cfg hq]
  simp only
  have h1 := approxRun_returns (boom := boom) hq ops hfuel
  cases hr : runE (fun s op => (approxAdd boom fuel s op.1 op.2).map (·.1)) (init cfg) ops with
  | ok s => exact ⟨s, rfl⟩
  | error f =>
    have := approxRun_faults ops _ f (init_cinv cfg hq) hr
    rw [hr, this] at h1
    exact absurd rfl h1

example : 0 < sampleCfg.queueSize := by decide

/-- **C55** (ApproximateTime).  Every set given to the callbacks has, for every input, a message that was added on that input. -/
theorem C55_approx_complete_sets [NeZero n] (boom : Nat → Bool) (fuel : Nat) (cfg : Cfg n) (ops : List (Fin n × Ev))
    (s : State n) (h : approxRun boom fuel cfg ops = .ok s) :
    ∀ t ∈ s.out, ∀ i, ∃ e, t i = some e ∧ (i, e) ∈ ops := by
  obtain ⟨hq, h⟩ := approxRun_ok h
  obtain ⟨_, _, hh, _⟩ := approxRun_facts hq ops s h
  intro t ht i
  obtain ⟨e, h1, h2⟩ := hh.made t ht i
  exact ⟨e, h1, mem_stream.1 h2⟩

/-- **C55** (ApproximateTime).  The sets delivered use the messages of each input in the order of their arrival and each at most
once; what was used precedes what is still held. -/
theorem C55_approx_each_once_in_order [NeZero n] (boom : Nat → Bool) (fuel : Nat) (cfg : Cfg n) (ops : List (Fin n × Ev))
    (s : State n) (h : approxRun boom fuel cfg ops = .ok s) (i : Fin n) :
    ∃ gone, stream ops i = gone ++ (s.past i ++ s.deques i) ∧
      List.Sublist ((delivered boom s.out).map (· i)) (gone.map some) := by
  obtain ⟨hq, h⟩ := approxRun_ok h
  exact (approxRun_facts hq ops s h).2.2.1.order i

/-- **C55** (ApproximateTime).  Each input holds at most `queue_size` messages, plus one for each exception thrown so far. -/
theorem C55_approx_bounded_partial [NeZero n] (boom : Nat → Bool) (fuel : Nat) (cfg : Cfg n) (ops : List (Fin n × Ev))
    (s : State n) (h : approxRun boom fuel cfg ops = .ok s) (i : Fin n) :
    (s.past i ++ s.deques i).length ≤ cfg.queueSize + throws boom s.out := by
  obtain ⟨hq, h⟩ := approxRun_ok h
  exact (approxRun_facts hq ops s h).2.2.2 i

/-- **C55** (ApproximateTime).  Let there be two inputs or more and `1 + age_penalty = num / den ≥ 1`.  Every set given to the
callbacks, before or after exceptions, spans at most the maximum interval. -/
theorem C55_approx_max_interval [NeZero n] (hn : 2 ≤ n) (boom : Nat → Bool) (fuel : Nat) (cfg : Cfg n) (num den : Int)
    (hden : 0 < den) (hnum : den ≤ num) (hscale : cfg.scale = fun x => (x * num).tdiv den)
    (ops : List (Fin n × Ev)) (s : State n) (h : approxRun boom fuel cfg ops = .ok s) :
    ∀ t ∈ s.out, ∀ i j x y, t i = some x → t j = some y → x.stamp - y.stamp ≤ cfg.maxInterval := by
  have hf : ∀ x y, cfg.scale x < y → num * x < den * y := by
    rw [hscale]; exact tdiv_lt (by omega) hden
  obtain ⟨hq, h⟩ := approxRun_ok h
  intro t ht i j x y hx hy
  exact (approxRun_span hn hden hnum hf hq ops s h).2.2.1 t ht i j x y hx hy

/-- **C55** (ApproximateTime).  When a call of `add` throws, the messages of the set whose output threw are not lost: they are
the first messages held for their inputs. -/
theorem C55_approx_set_stays [NeZero n] (boom : Nat → Bool) (fuel : Nat) (cfg : Cfg n) (ops : List (Fin n × Ev))
    (s : State n) (h : approxRun boom fuel cfg ops = .ok s) (i : Fin n) (e : Ev) (s' : State n)
    (hs : approxAdd boom fuel s i e = .ok (s', true)) :
    ∃ t, s'.out.getLast? = some t ∧ boom (s'.out.length - 1) = true ∧ ∀ j, (s'.past j ++ s'.deques j).head? = t j := by
  obtain ⟨hq, h⟩ := approxRun_ok h
  obtain ⟨hc, _, _, _⟩ := approxRun_facts hq ops s h
  obtain ⟨thr, h1, h2, _, _⟩ := addT_ok_spec (op := (i, e)) hc (s' := s') (by simp only; rw [hs]; rfl)
  rw [hs] at h1
  cases h1
  exact tadd_threw h2

/-- **C55** (ApproximateTime).  An exception of a callback reaches the caller of `add`, and ends the call: a call of `add` ends
with an exception if and only if one of the calls of the callbacks made by it threw, and then exactly one did. -/
theorem C55_approx_exception_reaches_caller [NeZero n] (boom : Nat → Bool) (fuel : Nat) (cfg : Cfg n) (ops : List (Fin n × Ev))
    (s : State n) (h : approxRun boom fuel cfg ops = .ok s) (i : Fin n) (e : Ev) (s' : State n) (thr : Bool)
    (hs : approxAdd boom fuel s i e = .ok (s', thr)) :
    throws boom s'.out = throws boom s.out + (if thr then 1 else 0) := by
  obtain ⟨hq, h⟩ := approxRun_ok h
  obtain ⟨hc, _, _, _⟩ := approxRun_facts hq ops s h
  obtain ⟨thr', h1, h2, _, _⟩ := addT_ok_spec (op := (i, e)) hc (s' := s') (by simp only; rw [hs]; rfl)
  rw [hs] at h1
  cases h1
  exact tadd_throws h2

/-- **C55** (ApproximateTime), finding.  If an exception leaves every input with a message that was not yet set aside, then the
policy is stalled: the messages that follow are only stored.  Nothing is output, however well they match, until one input
would hold more than `queue_size` messages. -/
theorem C55_approx_stalls [NeZero n] (boom boom' : Nat → Bool) (fuel fuel' : Nat) (cfg : Cfg n) (ops : List (Fin n × Ev))
    (s : State n) (h : approxRun boom fuel cfg ops = .ok s) (hne : ∀ i, s.deques i ≠ []) (more : List (Fin n × Ev))
    (hl : ∀ i, (s.past i ++ s.deques i).length + (stream more i).length ≤ cfg.queueSize) :
    ∃ s', runE (fun s op => (approxAdd boom' fuel' s op.1 op.2).map (·.1)) s more = .ok s' ∧ s'.out = s.out ∧
      ∀ i, s'.past i ++ s'.deques i = s.past i ++ s.deques i ++ stream more i := by
  obtain ⟨hq, h⟩ := approxRun_ok h
  obtain ⟨_, hcfg, _, _⟩ := approxRun_facts hq ops s h
  exact run_stalled boom' fuel' more s hne (by rw [hcfg]; exact hl)

/-- Non-vacuity of `C55_approx_stalls`: two inputs, the first already holds the next message when the first set is output.  The
output throws once; the two sets that follow match exactly but are not output. -/
theorem C55_approx_stall_witness : ∃ s s', approxRun (fun k => k == 0) 100 sampleCfg
      [(0, ⟨1, 100⟩), (0, ⟨2, 110⟩), (1, ⟨3, 100⟩)] = .ok s ∧ (∀ i, s.deques i ≠ []) ∧
    approxRun (fun k => k == 0) 100 sampleCfg
      [(0, ⟨1, 100⟩), (0, ⟨2, 110⟩), (1, ⟨3, 100⟩), (1, ⟨4, 110⟩), (0, ⟨5, 120⟩), (1, ⟨6, 120⟩)] = .ok s' ∧
    s'.out.map List.ofFn = [[some ⟨1, 100⟩, some ⟨3, 100⟩]] ∧ (delivered (fun k => k == 0) s'.out).length = 0 := by
  refine ⟨_, _, rfl, ?_, rfl, ?_, ?_⟩ <;> decide

/-- The same messages without the exception: all three sets are delivered. -/
example : ∃ s', approxRun (fun _ => false) 100 sampleCfg
      [(0, ⟨1, 100⟩), (0, ⟨2, 110⟩), (1, ⟨3, 100⟩), (1, ⟨4, 110⟩), (0, ⟨5, 120⟩), (1, ⟨6, 120⟩)] = .ok s' ∧
    s'.out.map List.ofFn = [[some ⟨1, 100⟩, some ⟨3, 100⟩], [some ⟨2, 110⟩, some ⟨4, 110⟩], [some ⟨5, 120⟩, some ⟨6, 120⟩]] :=
  ⟨_, rfl, by decide⟩

/-- Finding: when the stall ends because a queue overflows, the set whose output threw is destroyed; its message of the
overflowing input is dropped and it is never delivered. -/
theorem C55_approx_stall_loses_set : ∃ s', approxRun (fun k => k == 0) 100 sampleCfg
      [(0, ⟨1, 100⟩), (0, ⟨2, 110⟩), (1, ⟨3, 100⟩), (1, ⟨4, 110⟩), (0, ⟨5, 120⟩), (0, ⟨6, 130⟩), (0, ⟨7, 140⟩)] = .ok s' ∧
    (delivered (fun k => k == 0) s'.out).map List.ofFn = [[some ⟨2, 110⟩, some ⟨4, 110⟩]] := by
  refine ⟨_, rfl, ?_⟩; decide

/-- Otherwise the set is tried again, when the next message is added on an input that holds none: here it is delivered. -/
example : ∃ s s', approxRun (fun k => k == 0) 100 sampleCfg [(0, ⟨1, 100⟩), (1, ⟨2, 100⟩)] = .ok s ∧
    (approxAdd (fun k => k == 0) 100 s 0 ⟨3, 110⟩) = .ok (s', false) ∧
    (delivered (fun k => k == 0) s'.out).map List.ofFn = [[some ⟨1, 100⟩, some ⟨2, 100⟩]] ∧
    (∃ s'', approxAdd (fun _ => true) 100 s 0 ⟨3, 110⟩ = .ok (s'', true)) := by
  refine ⟨_, _, rfl, rfl, ?_, _, rfl⟩; decide

/-- The bound of `C55_approx_bounded_partial` is reached: queue size 1, one exception, two messages held. -/
example : ∃ s, approxRun (fun k => k == 0) 100 ⟨1, 100, fun x => (x * 11).tdiv 10, fun _ => 0⟩
      ([(0, ⟨1, 100⟩), (1, ⟨2, 100⟩), (0, ⟨3, 110⟩)] : List (Fin 2 × Ev)) = .ok s ∧ throws (fun k => k == 0) s.out = 1 := by
  refine ⟨_, rfl, ?_⟩; decide

/-! ### The other filters: an exception of a callback reaches the caller and ends the call -/

/-- **C55** (InputAligner).  A dispatch ends with an exception if and only if one of the callbacks called by it threw; nothing
is output after that. -/
theorem C55_aligner_exception_reaches_caller (boom : Nat → Bool) (fuel : Nat) (s s' : Aligner.State n) (thr : Bool)
    (h : alignerDispatch boom fuel s = .ok (s', thr)) :
    throws boom s'.out = throws boom s.out + (if thr then 1 else 0) := alignerDispatch_throws h

example : ∃ s', alignerDispatch (fun k => k == 1) 30
      (Aligner.add (Aligner.add (Aligner.add (Aligner.construct 2 100) 0 ⟨1, 10⟩) 1 ⟨2, 12⟩) 0 ⟨3, 14⟩) = .ok (s', true) ∧
    s'.out = [(0, ⟨1, 10⟩), (1, ⟨2, 12⟩)] := ⟨_, rfl, by decide⟩

/-- **C55** (ApproximateEpsilonTime).  `add` ends with an exception if and only if one of the callbacks called by it threw. -/
theorem C55_epsilon_exception_reaches_caller (boom : Nat → Bool) (fuel : Nat) (s s' : Epsilon.State n) (i : Fin n) (e : Ev)
    (thr : Bool) (h : epsilonAdd boom fuel s i e = .ok (s', thr)) :
    throws boom s'.out = throws boom s.out + (if thr then 1 else 0) := epsilonAdd_throws h

example : ∃ s s', epsilonRun (fun k => k == 0) 10 (Epsilon.construct 2 5 0) [(0, ⟨1, 5⟩)] = .ok s ∧
    epsilonAdd (fun k => k == 0) 10 s 1 ⟨2, 5⟩ = .ok (s', true) := ⟨_, _, rfl, rfl⟩

/-- **C55** (ExactTime).  Of the calls of output and drop callbacks made by a call of `add`, none threw if it returns normally;
if it ends with an exception then the last of them threw, and only that one. -/
theorem C55_exact_exception_reaches_caller [NeZero n] (boom : Nat → Bool) (s s' : ExactTime.State n) (i : Fin n) (e : Ev)
    (thr : Bool) (h : exactAdd boom s i e = .ok (s', thr)) (k : Nat) (a : ExactTime.Action n) (hk : s.log.length ≤ k)
    (ha : s'.log[k]? = some a) (hcall : ∀ j x, a ≠ .replaced j x) :
    boom k = true ↔ thr = true ∧ k + 1 = s'.log.length := by
  refine exactAdd_reaches h k a hk ha ?_
  cases a with
  | replaced j x => exact absurd rfl (hcall j x)
  | out t => rfl
  | drop t => rfl

example : ∃ s s', exactRun (fun k => k == 1) (ExactTime.construct 2 10) [(0, ⟨1, 4⟩), (0, ⟨2, 5⟩)] = .ok s ∧
    exactAdd (fun k => k == 1) s 1 ⟨3, 5⟩ = .ok (s', true) ∧ s'.log.length = 2 := ⟨_, _, rfl, rfl, by decide⟩

end MF.Throw
