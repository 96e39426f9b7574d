import Verif.Proofs.Approx7
import Verif.Proofs.Approx9
/-
Properties C27-C34 of the ApproximateTime policy.
-/
namespace MF.Approx
open MF.ApproxSpec (sets cost Spaced)

variable {n : Nat}

/-- Configuration used in the examples: queue size 10, maximum interval 50, age penalty 1/10, no message bounds. -/
def sampleCfg : Cfg 2 := ⟨10, 50, fun x => (x * 11).tdiv 10, fun _ => 0⟩

/-- Sample history: 100 is matched with 103 (not 90); then 140 with 141. -/
def sampleOps : List (Fin 2 × Ev) :=
  [(0, ⟨0, 90⟩), (1, ⟨1, 100⟩), (0, ⟨2, 103⟩), (0, ⟨3, 140⟩), (1, ⟨4, 141⟩), (1, ⟨5, 160⟩), (0, ⟨6, 190⟩)]

/-- The same messages in another interleaving. -/
def sampleOps' : List (Fin 2 × Ev) :=
  [(1, ⟨1, 100⟩), (1, ⟨4, 141⟩), (1, ⟨5, 160⟩), (0, ⟨0, 90⟩), (0, ⟨2, 103⟩), (0, ⟨3, 140⟩), (0, ⟨6, 190⟩)]

/-- **C27** (with C28).  Let `queue_size ≥ 1`.  Every history of `add` calls and of accepted setter calls returns
normally, whatever the stamps and the configuration: no assertion fails, no empty buffer is read, no loop runs for ever.
`L * L + L` iterations are enough for each call, where `L` is the number of calls. -/
theorem C27_C28_returns_normally [NeZero n] (fuel : Nat) (cfg : Cfg n) (hq : 0 < cfg.queueSize) (ops : List (Op n))
    (hops : ∀ op ∈ ops, OpOk op) (hfuel : ops.length * ops.length + ops.length ≤ fuel) :
    ∃ s, runOps fuel cfg ops = .ok s := by
  revert hops hfuel
  unfold runOps
  rw [construct_eq cfg hq]
  induction ops using snoc_induction with
  | h0 => intro _ _; exact ⟨_, rfl⟩
  | hs ops op ih =>
    intro hops hfuel
    rw [List.length_append, List.length_singleton] at hfuel
    have hle : ops.length * ops.length ≤ (ops.length + 1) * (ops.length + 1) := Nat.mul_le_mul (by omega) (by omega)
    obtain ⟨s, hs⟩ := ih (fun o ho => hops o (by simp [ho])) (by omega)
    have hs : runE (step fuel) (init cfg) ops = .ok s := hs
    obtain ⟨hi, _, hh⟩ := runE_spec fuel cfg hq ops s hs
    have htot := total_view_le hh
    have hlen := adds_length_le ops
    obtain ⟨s', hs'⟩ := (step_spec fuel hi op (hops op (by simp))).2 (ops.length + 1) (by omega) hfuel
    refine ⟨s', ?_⟩
    show runE (step fuel) (init cfg) (ops ++ [op]) = .ok s'
    rw [runE_append, hs]
    simp [runE, hs']

example : 0 < sampleCfg.queueSize ∧ ∀ op ∈ [Op.setMaxIntervalDuration 7, .add (0 : Fin 2) ⟨0, 5⟩], OpOk op := by
  refine ⟨by decide, ?_⟩
  intro op hop
  simp at hop
  rcases hop with rfl | rfl
  · show (0 : Int) ≤ 7; decide
  · trivial

/-- **C27**.  Independently of any bound on the loops, no call ends in an assertion failure or undefined behaviour. -/
theorem C27_no_other_fault [NeZero n] (fuel : Nat) (cfg : Cfg n) (hq : 0 < cfg.queueSize) (ops : List (Op n))
    (hops : ∀ op ∈ ops, OpOk op) (f : Fault) (h : runOps fuel cfg ops = .error f) : f = .hang := by
  unfold runOps at h
  rw [construct_eq cfg hq] at h
  have key : ∀ (ops : List (Op n)) (s : State n), (∀ op ∈ ops, OpOk op) → Inv s → runE (step fuel) s ops = .error f →
      f = .hang := by
    intro ops
    induction ops with
    | nil => intro s _ _ h; cases h
    | cons op ops ih =>
      intro s hops hi h
      simp only [runE] at h
      rcases (step_spec fuel hi op (hops op (by simp))).1 with ⟨s1, g1, g2, _⟩ | g1
      · rw [g1] at h; exact ih s1 (fun o ho => hops o (by simp [ho])) g2 h
      · rw [g1] at h; cases h; rfl
  exact key ops _ hops (init_inv cfg hq) h

/-- **C27**.  Every output set is complete: it has, for every input, a message that was added on that input. -/
theorem C27_complete_sets [NeZero n] (fuel : Nat) (cfg : Cfg n) (ops : List (Op n)) (s : State n)
    (h : runOps fuel cfg ops = .ok s) : ∀ t ∈ s.out, ∀ i, ∃ e, t i = some e ∧ Op.add i e ∈ ops := by
  intro t ht i
  obtain ⟨hq, h⟩ := runOps_ok h
  obtain ⟨_, _, hh⟩ := runE_spec fuel cfg hq ops s h
  obtain ⟨c, hc, hsub⟩ := hh i
  have : t i ∈ c.map some := hsub.subset (List.mem_map.2 ⟨t, ht, rfl⟩)
  obtain ⟨e, he, het⟩ := List.mem_map.1 this
  refine ⟨e, het.symm, ?_⟩
  have hmem : (i, e) ∈ adds ops := mem_stream.1 (by rw [hc]; simp [he])
  unfold adds at hmem
  obtain ⟨op, hop, hop2⟩ := List.mem_filterMap.1 hmem
  cases op with
  | add j e' => simp at hop2; rw [← hop2.1, ← hop2.2]; exact hop
  | _ => simp at hop2

example : ∃ s, run 100 sampleCfg sampleOps = .ok s ∧
    s.out.map List.ofFn = [[some ⟨2, 103⟩, some ⟨1, 100⟩], [some ⟨3, 140⟩, some ⟨4, 141⟩]] := ⟨_, rfl, by decide⟩

/-- The excluded point of C27: `queue_size = 0` is refused by an assertion in the constructor only.  In a build
without assertions the second message on one of two inputs reads the front of an empty buffer. -/
theorem C27_queue_size_zero :
    (∀ cfg : Cfg 2, cfg.queueSize = 0 → construct 2 cfg = .error .assertFailed) ∧
    (∃ s, add 10 (init ⟨0, 50, id, fun _ => 0⟩ : State 2) 0 ⟨0, 1⟩ = .ok s ∧ add 10 s 0 ⟨1, 2⟩ = .error .ub) := by
  refine ⟨?_, _, rfl, rfl⟩
  intro cfg h
  unfold construct
  rw [if_neg (by omega)]

/-- C27, the other excluded points: a negative age penalty, lower bound or maximum interval fails an assertion, at any time;
other values are accepted at any time, change only the configuration, and are used by the next `add`. -/
theorem C27_setters [NeZero n] (fuel : Nat) (s : State n) (scale : Int → Int) (i : Fin n) (d : Int) :
    step fuel s (.setAgePenalty false scale) = .error .assertFailed ∧
    (d < 0 → step fuel s (.setInterMessageLowerBound i d) = .error .assertFailed ∧
      step fuel s (.setMaxIntervalDuration d) = .error .assertFailed) ∧
    step fuel s (.setAgePenalty true scale) = .ok { s with cfg := { s.cfg with scale := scale } } ∧
    (0 ≤ d → step fuel s (.setInterMessageLowerBound i d) = .ok { s with cfg := { s.cfg with lower := upd s.cfg.lower i d } } ∧
      step fuel s (.setMaxIntervalDuration d) = .ok { s with cfg := { s.cfg with maxInterval := d } }) := by
  refine ⟨rfl, fun h => ?_, rfl, fun h => ?_⟩
  · simp only [step]
    rw [if_neg (by omega), if_neg (by omega)]
    exact ⟨rfl, rfl⟩
  · simp only [step]
    rw [if_pos (by omega), if_pos (by omega)]
    exact ⟨rfl, rfl⟩

/-- **C28**.  Every `add` of every history of `add` calls returns. -/
theorem C28_terminates [NeZero n] (fuel : Nat) (cfg : Cfg n) (hq : 0 < cfg.queueSize) (ops : List (Fin n × Ev))
    (hfuel : ops.length * ops.length + ops.length ≤ fuel) : ∃ s, run fuel cfg ops = .ok s := by
  apply C27_C28_returns_normally fuel cfg hq
  · intro op hop
    rw [List.mem_map] at hop
    obtain ⟨a, _, rfl⟩ := hop
    trivial
  · simpa using hfuel

/-- **C29**.  After every call each input holds at most `queue_size` messages, counting those set aside during a
search, and some input has no message left to look at. -/
theorem C29_bounded [NeZero n] (fuel : Nat) (cfg : Cfg n) (ops : List (Op n)) (s : State n)
    (h : runOps fuel cfg ops = .ok s) :
    (∀ i, (s.past i).length + (s.deques i).length ≤ cfg.queueSize) ∧ ∃ i, s.deques i = [] := by
  obtain ⟨hq, h⟩ := runOps_ok h
  obtain ⟨hi, hc, _⟩ := runE_spec fuel cfg hq ops s h
  refine ⟨fun i => ?_, hi.someEmpty⟩
  have := hi.bound i
  unfold view at this
  rw [List.length_append] at this
  omega

example : ∃ s, run 100 { sampleCfg with queueSize := 2 } [(0, ⟨0, 1⟩), (0, ⟨1, 2⟩), (0, ⟨2, 3⟩)] = .ok s ∧
    List.ofFn s.deques = [[⟨1, 2⟩, ⟨2, 3⟩], []] ∧ List.ofFn s.hasDropped = [true, false] := ⟨_, rfl, by decide, by decide⟩

/-- **C30**.  Per input, what is still held is the most recently added part of the stream, and the messages used by
successive sets form a subsequence of the rest. -/
theorem C30_each_message_once_in_order [NeZero n] (fuel : Nat) (cfg : Cfg n) (ops : List (Op n)) (s : State n)
    (h : runOps fuel cfg ops = .ok s) (i : Fin n) :
    ∃ consumed, stream (adds ops) i = consumed ++ (s.past i ++ s.deques i) ∧
      List.Sublist (s.out.map (· i)) (consumed.map some) := by
  obtain ⟨hq, h⟩ := runOps_ok h
  exact (runE_spec fuel cfg hq ops s h).2.2 i

/-- **C30** (corollary).  If the messages added on an input are distinct, no message occurs in two output sets. -/
theorem C30_no_message_in_two_sets [NeZero n] (fuel : Nat) (cfg : Cfg n) (ops : List (Op n)) (s : State n)
    (h : runOps fuel cfg ops = .ok s) (i : Fin n) (hd : (stream (adds ops) i).Nodup) : (s.out.map (· i)).Nodup := by
  obtain ⟨c, hc, hsub⟩ := C30_each_message_once_in_order fuel cfg ops s h i
  have : (c.map some).Nodup := by
    rw [hc] at hd
    have := (List.nodup_append.1 hd).1
    unfold List.Nodup at *
    rw [List.pairwise_map]
    exact this.imp (fun h h' => h (Option.some.inj h'))
  exact hsub.nodup this

example : (stream sampleOps 0).Nodup ∧ (stream sampleOps 1).Nodup := by decide

/-- **C31**, for inputs in time order.  No output set spans more than the maximum interval.  Of the arithmetic of the age
penalty only `d * (1 + age_penalty) ≥ d` is used, so this covers every rounding of the floating-point product. -/
theorem C31_max_interval_in_order [NeZero n] (fuel : Nat) (cfg : Cfg n) (hf : ∀ x, 0 ≤ x → x ≤ cfg.scale x)
    (ops : List (Fin n × Ev)) (s : State n) (h : run fuel cfg ops = .ok s) (hs : ∀ i, TimeSorted (stream ops i)) :
    ∀ t ∈ s.out, ∀ i j x y, t i = some x → t j = some y → x.stamp - y.stamp ≤ cfg.maxInterval := by
  have key : ∀ ops s, run fuel cfg ops = .ok s → (∀ i, TimeSorted (stream ops i)) → Span cfg.maxInterval s := by
    apply run_induction
    · intro _
      exact ⟨fun t ht => by simp [init] at ht, fun h0 => absurd rfl h0⟩
    · intro ops s i e s' hi hcfg hh hadd hi' ih hsorted
      have hs0 : ∀ j, TimeSorted (stream ops j) := by
        intro j
        have := hsorted j
        rw [stream_snoc] at this
        by_cases hj : j = i
        · subst hj; rw [upd_same] at this; exact (List.pairwise_append.1 this).1
        · rw [upd_ne _ _ hj] at this; exact this
      have hspan := ih hs0
      have h1 : ∀ s1, Pushed s s1 i e → ∀ s2, PSteps s1 s2 → LoopInv s2 ∧ Span cfg.maxInterval s2 ∧ s2.cfg = cfg ∧
          Hist (stream (ops ++ [(i, e)])) s2 := by
        intro s1 hp s2 hps
        have hh1 := pushed_hist hp hh
        rw [← stream_snoc] at hh1
        have hl := hp.inv hi.loop
        have hc1 : s1.cfg = cfg := by rw [hp.cfg, hcfg]
        exact ⟨(psteps_inv hl hps).1, psteps_span hl hsorted (by rw [hc1]) (by rw [hc1]; exact hf) hh1 hps (pushed_span hp hspan),
          by rw [(psteps_cfg_len hl hps).1, hc1], psteps_hist hl hps hh1⟩
      cases hadd with
      | normal s1 hp hps hl => exact (h1 s1 hp s' hps).2.1
      | drop s1 s2 hp hps hl hps' =>
        obtain ⟨g1, g2, g3, g4⟩ := h1 s1 hp s2 hps
        refine psteps_span (dropped_inv s2 i) hsorted (by show s2.cfg.maxInterval = _; rw [g3])
          (by show ∀ x, 0 ≤ x → x ≤ s2.cfg.scale x; rw [g3]; exact hf) (dropped_hist i g4) hps' ?_
        exact ⟨g2.1, fun h0 => absurd rfl h0⟩
  intro t ht i j x y hx hy
  exact (key ops s h hs).1 t ht i j x y hx hy

example : (∀ x, 0 ≤ x → x ≤ sampleCfg.scale x) ∧ ∀ i, TimeSorted (stream sampleOps i) := by
  refine ⟨?_, ?_⟩
  · intro x hx; show x ≤ (x * 11).tdiv 10
    rw [Int.tdiv_eq_ediv_of_nonneg (by omega)]; omega
  · intro i; unfold TimeSorted; revert i; decide

/-- **C31**, for inputs in any order.  Let `1 + age_penalty = num / den ≥ 1`, the product being truncated towards zero.
No output set spans more than the maximum interval. -/
theorem C31_max_interval [NeZero n] (fuel : Nat) (cfg : Cfg n) (num den : Int) (hden : 0 < den) (hnum : den ≤ num)
    (hscale : cfg.scale = fun x => (x * num).tdiv den)
    (ops : List (Fin n × Ev)) (s : State n) (h : run fuel cfg ops = .ok s) :
    ∀ t ∈ s.out, ∀ i j x y, t i = some x → t j = some y → x.stamp - y.stamp ≤ cfg.maxInterval := by
  have hf : ∀ x y, cfg.scale x < y → num * x < den * y := by
    rw [hscale]; exact tdiv_lt (by omega) hden
  have key : ∀ ops s, run fuel cfg ops = .ok s → SpanLin num den cfg.maxInterval s := by
    apply run_induction
    · exact ⟨fun t ht => by simp [init] at ht, fun h0 => absurd rfl h0⟩
    · intro ops s i e s' hi hcfg hh hadd hi' ih
      have h1 : ∀ s1, Pushed s s1 i e → ∀ s2, PSteps s1 s2 → SpanLin num den cfg.maxInterval s2 ∧ s2.cfg = cfg := by
        intro s1 hp s2 hps
        have hl := hp.inv hi.loop
        have hc1 : s1.cfg = cfg := by rw [hp.cfg, hcfg]
        have hsp : SpanLin num den cfg.maxInterval s1 := by
          unfold SpanLin at *
          rw [hp.out, hp.pivot, hp.candEnd, hp.candStart, hp.pivotTime]; exact ih
        exact ⟨psteps_spanLin hden hnum hl (by rw [hc1]) (by rw [hc1]; exact hf) hps hsp,
          by rw [(psteps_cfg_len hl hps).1, hc1]⟩
      cases hadd with
      | normal s1 hp hps hl => exact (h1 s1 hp s' hps).1
      | drop s1 s2 hp hps hl hps' =>
        obtain ⟨g2, g3⟩ := h1 s1 hp s2 hps
        refine psteps_spanLin hden hnum (dropped_inv s2 i) (by show s2.cfg.maxInterval = _; rw [g3])
          (by show ∀ x y, s2.cfg.scale x < y → _; rw [g3]; exact hf) hps' ?_
        exact ⟨g2.1, fun h0 => absurd rfl h0⟩
  intro t ht i j x y hx hy
  exact (key ops s h).1 t ht i j x y hx hy

/-- **C32**.  Let every input, now and in any future `fut`, respect its configured minimum distance between messages (0 by
default: time order).  Let `1 + age_penalty = num / den`.  Every output set `C` has a pivot input `p` such that, among all
sets `T` that can be made, now or ever, of messages after the previously output set (`rest`) and that contain the pivot
message `C p`, the set `C` has the least cost `(1 + age_penalty) * end - start`.  Queues may overflow: `rest` also contains
the messages that were dropped. -/
theorem C32_optimal [NeZero n] (fuel : Nat) (cfg : Cfg n) (num den : Int) (hden : 0 < den) (hnum : 0 ≤ num)
    (hscale : cfg.scale = fun x => (x * num).tdiv den) (hlow : ∀ i, 0 ≤ cfg.lower i)
    (ops : List (Fin n × Ev)) (s : State n) (h : run fuel cfg ops = .ok s)
    (fut : Fin n → List Ev) (hsp : ∀ i, Spaced (cfg.lower i) (stream ops i ++ fut i))
    (pre post : List (Fin n → Option Ev)) (C : Fin n → Option Ev) (hout : s.out = pre ++ C :: post) :
    ∃ used rest : Fin n → List Ev, (∀ i, stream ops i ++ fut i = used i ++ rest i) ∧
      (pre = [] → ∀ i, used i = []) ∧ (∀ t, pre.getLast? = some t → ∀ i, (used i).getLast? = t i) ∧
      ∃ c : Fin n → Ev, C = (fun i => some (c i)) ∧ (∀ i, c i ∈ rest i) ∧
        ∃ p, ∀ T : Fin n → Ev, (∀ i, T i ∈ rest i) → T p = c p → cost num den c ≤ cost num den T := by
  have hmono : ∀ x y, x ≤ y → cfg.scale x ≤ cfg.scale y := by rw [hscale]; exact tdiv_mono hnum hden
  exact (run_opt hnum (by omega) (by rw [hscale]; exact ApproxSpec.tdiv_exact hnum hden) hmono hlow ops s h fut hsp).out
    pre C post hout

example : sampleCfg.scale = (fun x => (x * 11).tdiv 10) ∧ (∀ i, 0 ≤ sampleCfg.lower i) ∧
    ∀ i, Spaced (sampleCfg.lower i) (stream sampleOps i ++ (fun _ => [⟨7, 200⟩]) i) := by
  refine ⟨rfl, fun _ => Int.le_refl _, ?_⟩
  intro i; unfold Spaced; revert i; decide

/-- With one place per queue, 100 and then 103 are dropped on the first input; the set (140, 141) is output all the same. -/
example : ∃ s, run 100 { sampleCfg with queueSize := 1 }
      [(0, ⟨0, 100⟩), (0, ⟨1, 103⟩), (0, ⟨2, 140⟩), (1, ⟨3, 141⟩), (0, ⟨4, 142⟩), (1, ⟨5, 170⟩)] = .ok s ∧
    s.out.map List.ofFn = [[some ⟨2, 140⟩, some ⟨3, 141⟩]] := ⟨_, rfl, by decide⟩

/-- **C33**.  Let no queue overflow and every input respect its configured minimum distance between messages, now and in
any future `fut`.  The sets output so far are a prefix of the canonical sequence of the complete streams, which does not
depend on the order of arrival or on when sets were output early.  (Of the age-penalty arithmetic only monotonicity is
used.) -/
theorem C33_prefix_of_canonical [NeZero n] (fuel : Nat) (cfg : Cfg n)
    (hmono : ∀ x y, x ≤ y → cfg.scale x ≤ cfg.scale y) (hlow : ∀ i, 0 ≤ cfg.lower i)
    (ops : List (Fin n × Ev)) (s : State n) (h : run fuel cfg ops = .ok s)
    (hq : NoOverflow fuel cfg ops)
    (fut : Fin n → List Ev) (hsp : ∀ i, Spaced (cfg.lower i) (stream ops i ++ fut i)) :
    s.out <+: (sets true cfg.scale cfg.maxInterval (fun i => stream ops i ++ fut i)).map (fun t i => some (t i)) := by
  have hcan := (run_canonical_fits true hmono hlow ops s h hq fut hsp).2 rfl
  unfold lift at hcan
  rw [hcan]
  exact List.prefix_append _ _

/-- **C33** (corollary).  The outputs of two interleavings of the same streams are prefixes of one another. -/
theorem C33_interleavings_agree [NeZero n] (fuel fuel' : Nat) (cfg : Cfg n)
    (hmono : ∀ x y, x ≤ y → cfg.scale x ≤ cfg.scale y) (hlow : ∀ i, 0 ≤ cfg.lower i)
    (ops ops' : List (Fin n × Ev)) (s s' : State n) (h : run fuel cfg ops = .ok s) (h' : run fuel' cfg ops' = .ok s')
    (hsame : SameStreams ops ops') (hq : NoOverflow fuel cfg ops) (hq' : NoOverflow fuel' cfg ops')
    (hsp : ∀ i, Spaced (cfg.lower i) (stream ops i)) :
    s.out <+: s'.out ∨ s'.out <+: s.out := by
  have hst : stream ops' = stream ops := funext (fun i => (hsame i).symm)
  have h1 := C33_prefix_of_canonical fuel cfg hmono hlow ops s h hq (fun _ => []) (by simpa using hsp)
  have h2 := C33_prefix_of_canonical fuel' cfg hmono hlow ops' s' h' hq' (fun _ => [])
    (by rw [hst]; simpa using hsp)
  rw [hst] at h2
  exact List.prefix_or_prefix_of_prefix h1 h2

example : SameStreams sampleOps sampleOps' ∧ ∃ s', run 100 sampleCfg sampleOps' = .ok s' ∧
    s'.out.map List.ofFn = [[some ⟨2, 103⟩, some ⟨1, 100⟩], [some ⟨3, 140⟩, some ⟨4, 141⟩]] := by
  refine ⟨?_, _, rfl, by decide⟩
  unfold SameStreams; decide

/-- The history has four messages on the first input, but queues of two places do not overflow. -/
example : NoOverflow 100 { sampleCfg with queueSize := 2 } sampleOps := noOverflow_of_check (by decide)

example : ((sets true sampleCfg.scale sampleCfg.maxInterval (stream sampleOps)).map List.ofFn) =
    [[⟨2, 103⟩, ⟨1, 100⟩], [⟨3, 140⟩, ⟨4, 141⟩], [⟨6, 190⟩, ⟨5, 160⟩]] := by decide

/-- **C34**.  Every set that an exhaustive search determines from the received messages alone (`closed = false`: the
search ends before any stream is exhausted) has been output when `add` returns, and some input has no message left to
look at. -/
theorem C34_determined_sets_are_output [NeZero n] (fuel : Nat) (cfg : Cfg n)
    (hmono : ∀ x y, x ≤ y → cfg.scale x ≤ cfg.scale y) (hlow : ∀ i, 0 ≤ cfg.lower i)
    (ops : List (Fin n × Ev)) (s : State n) (h : run fuel cfg ops = .ok s)
    (hq : NoOverflow fuel cfg ops) (hsp : ∀ i, Spaced (cfg.lower i) (stream ops i)) :
    (sets false cfg.scale cfg.maxInterval (stream ops)).map (fun t i => some (t i)) <+: s.out ∧ ∃ i, s.deques i = [] := by
  have hemp := (run_facts h).1.someEmpty
  have hcan := (run_canonical_fits false hmono hlow ops s h hq (fun _ => [])
    (by intro i; rw [List.append_nil]; exact hsp i)).1
  rw [rest_nil hemp] at hcan
  have : (fun i => stream ops i ++ []) = stream ops := by funext i; simp
  rw [this] at hcan
  refine ⟨?_, hemp⟩
  show lift _ <+: _
  simpa [lift] using hcan

example : ((sets false sampleCfg.scale sampleCfg.maxInterval (stream sampleOps)).map List.ofFn) =
    [[⟨2, 103⟩, ⟨1, 100⟩], [⟨3, 140⟩, ⟨4, 141⟩]] := by decide

/-- An exact match may be passed over: with (1, 10) on one input and (9, 10) on the other, the set output is (10, 9),
and 10 on the second input is left over.  This is the behaviour C32 describes (optimal for its pivot, 9), not a fault. -/
theorem C32_exact_match_may_be_missed :
    ∃ s, run 100 sampleCfg [(0, ⟨0, 1⟩), (0, ⟨1, 10⟩), (1, ⟨2, 9⟩), (1, ⟨3, 10⟩)] = .ok s ∧
      s.out.map List.ofFn = [[some ⟨1, 10⟩, some ⟨2, 9⟩]] ∧ List.ofFn s.deques = [[], [⟨3, 10⟩]] := ⟨_, rfl, by decide, by decide⟩

end MF.Approx
