import Verif.Proofs.ClockMix
import Verif.Proofs.ClockMixSync
import Verif.Proofs.ClockMixApprox
import Verif.Proofs.ClockMixAligner
/-
**C78**, **C79**: messages and query times whose clock types differ.  `src id` is the clock type of the stamp of message `id`; it is an
arbitrary function in every theorem.
-/
namespace MF.ClockMix

/-! ### Cache -/

/-- **C78**.  At every time the messages of a cache are of one clock type. -/
theorem C78_cache_one_clock (src : Nat → Source) (n : Nat) (hn : 0 < n) (ops : List Cache.Op) :
    ∃ s, cacheRun src n ops = .ok s ∧ OneClock src s.items := by
  obtain ⟨s, h1, h2⟩ := cacheRun_inv (src := src) hn ops
  exact ⟨s, h1, h2.clock⟩

/-- **C78**.  While all messages are of one clock type nothing is different from a cache that ignores clock types. -/
theorem C78_cache_same_clock (src : Nat → Source) (c : Source) (n : Nat) (hn : 0 < n) (ops : List Cache.Op)
    (h : ∀ x ∈ Cache.added ops, src x.id = c) : cacheRun src n ops = Cache.run (Cache.construct n) ops := by
  have h0 : (Cache.construct n).items = [] := by unfold Cache.construct Cache.setCacheSize; split <;> rfl
  exact cacheRun_same src c ops _ (Cache.inv_construct hn) (by rw [h0]; intro x hx; cases hx) h

/-- **C78** (the claim fails for a full cache: `items` changes although the message is refused).  `add` on a cache of size `m` throws
exactly if one of the messages that remain after making room for the new one is of another clock type; then the oldest messages are
gone all the same, the new message is neither stored nor forwarded. -/
theorem C78_cache_add_partial (src : Nat → Source) (n : Nat) (hn : 0 < n) (ops : List Cache.Op) (s : Cache.State)
    (h : cacheRun src n ops = .ok s) (m : Nat) (hm : s.size = some m) (e : Ev) :
    ∃ s' thrown, cacheAdd src s e = .ok (s', thrown) ∧
      (thrown = true ↔ ∃ x ∈ s.items.drop (s.items.length + 1 - m), src x.id ≠ src e.id) ∧
      (thrown = true → s'.items = s.items.drop (s.items.length + 1 - m) ∧ s'.out = s.out) ∧
      (thrown = false → Cache.add s e = .ok s') := by
  have hs := cacheRun_inv' hn h
  obtain ⟨k, hk, hsz⟩ := hs.base.init
  rw [hm] at hsz; cases hsz
  rcases cacheAdd_cases src s m hk hm hs.clock e with ⟨hall, s1, h1, h2⟩ | ⟨hex, h2⟩
  · refine ⟨s1, false, h2, ⟨(fun h => by cases h), ?_⟩, (fun h => by cases h), fun _ => h1⟩
    rintro ⟨x, hx, hne⟩
    exact absurd (hall x hx) hne
  · exact ⟨_, true, h2, ⟨fun _ => hex, fun _ => rfl⟩, fun _ => ⟨rfl, rfl⟩, (fun h => by cases h)⟩

/-- **C78**.  A cache with room to spare refuses every later message of another clock type, for ever and without any effect. -/
theorem C78_cache_stuck (src : Nat → Source) (n : Nat) (hn : 0 < n) (ops : List Cache.Op) (s : Cache.State)
    (h : cacheRun src n ops = .ok s) (m : Nat) (hm : s.size = some m) (hroom : s.items.length < m) (hne : s.items ≠ [])
    (es : List Ev) (hes : ∀ e ∈ es, ∀ x ∈ s.items, src x.id ≠ src e.id) :
    cacheRun src n (ops ++ es.map .add) = .ok s := by
  have hs := cacheRun_inv' hn h
  have hstuck := cacheRun_stuck src m (by omega) s hm hroom hs.clock (List.exists_mem_of_ne_nil _ hne) es hes
  unfold cacheRun at h ⊢
  rw [runE_append, h]
  exact hstuck

/-- A full cache of size 2 loses message 0 to the refused message 2; the next message of the old clock type is stored. -/
theorem C78_cache_loses_message : ∃ s s' s'', cacheRun (fun id => if id = 2 then .steady else .ros) 2 [.add ⟨0, 1⟩, .add ⟨1, 2⟩] = .ok s ∧
    cacheAdd (fun id => if id = 2 then .steady else .ros) s ⟨2, 9⟩ = .ok (s', true) ∧ s.items = [⟨0, 1⟩, ⟨1, 2⟩] ∧ s'.items = [⟨1, 2⟩] ∧
    cacheAdd (fun id => if id = 2 then .steady else .ros) s' ⟨3, 10⟩ = .ok (s'', false) ∧ s''.items = [⟨1, 2⟩, ⟨3, 10⟩] :=
  ⟨_, _, _, rfl, rfl, rfl, rfl, rfl, rfl⟩

/-- A cache of size 1 never compares: it changes over to the new clock type. -/
example : ∃ s, cacheRun (fun id => if id = 2 then .steady else .ros) 1 [.add ⟨0, 1⟩, .add ⟨2, 2⟩] = .ok s ∧ s.items = [⟨2, 2⟩] :=
  ⟨_, rfl, rfl⟩

example : ∃ s, cacheRun (fun id => if id < 2 then .system else .ros) 5 ([.add ⟨0, 1⟩, .add ⟨1, 2⟩] ++ [⟨2, 3⟩, ⟨3, 4⟩].map .add) = .ok s ∧
    s.items = [⟨0, 1⟩, ⟨1, 2⟩] := ⟨_, rfl, rfl⟩

/-! ### Queries of the cache -/

/-- **C79**.  `getInterval` throws exactly if the cache is not empty and the start is of another clock type than the messages, or the end
is and some message is not older than the start; otherwise it answers as if there were no clock types. -/
theorem C79_getInterval (src : Nat → Source) (n : Nat) (hn : 0 < n) (ops : List Cache.Op) (s : Cache.State)
    (h : cacheRun src n ops = .ok s) (c : Source) (hc : ∀ x ∈ s.items, src x.id = c) (start end_ : Time) :
    (getInterval src s start end_ = none ↔
      s.items ≠ [] ∧ (start.source ≠ c ∨ (end_.source ≠ c ∧ ∃ x ∈ s.items, start.ns ≤ x.stamp))) ∧
    (∀ l, getInterval src s start end_ = some l → l = s.items.filter (fun x => decide (start.ns ≤ x.stamp ∧ x.stamp ≤ end_.ns))) := by
  have hs := cacheRun_inv' hn h
  obtain ⟨h1, h2⟩ := getInterval_cases src s c hc start end_
  exact ⟨h1, fun l hl => by rw [h2 l hl]; exact Cache.getInterval_eq s hs.base.sorted _ _⟩

/-- **C79**.  `getElemBeforeTime` throws exactly if the cache is not empty and the time is of another clock type. -/
theorem C79_getElemBeforeTime (src : Nat → Source) (n : Nat) (hn : 0 < n) (ops : List Cache.Op) (s : Cache.State)
    (h : cacheRun src n ops = .ok s) (c : Source) (hc : ∀ x ∈ s.items, src x.id = c) (t : Time) :
    (getElemBeforeTime src s t = none ↔ s.items ≠ [] ∧ t.source ≠ c) ∧
    (∀ r, getElemBeforeTime src s t = some r → r = (s.items.filter (fun x => decide (x.stamp < t.ns))).getLast?) := by
  have hs := cacheRun_inv' hn h
  obtain ⟨h1, h2⟩ := getElemBeforeTime_cases src s c hc t
  exact ⟨h1, fun l hl => by rw [h2 l hl]; rw [Cache.getElemBeforeTime_eq, Cache.sorted_takeWhile_eq_filter _ hs.base.sorted]⟩

/-- **C79**.  `getElemAfterTime` throws exactly if the cache is not empty and the time is of another clock type. -/
theorem C79_getElemAfterTime (src : Nat → Source) (n : Nat) (hn : 0 < n) (ops : List Cache.Op) (s : Cache.State)
    (h : cacheRun src n ops = .ok s) (c : Source) (hc : ∀ x ∈ s.items, src x.id = c) (t : Time) :
    (getElemAfterTime src s t = none ↔ s.items ≠ [] ∧ t.source ≠ c) ∧
    (∀ r, getElemAfterTime src s t = some r → r = (s.items.filter (fun x => decide (t.ns < x.stamp))).head?) := by
  have hs := cacheRun_inv' hn h
  obtain ⟨h1, h2⟩ := getElemAfterTime_cases src s c hc t
  exact ⟨h1, fun l hl => by rw [h2 l hl]; exact Cache.getElemAfterTime_eq s hs.base.sorted _⟩

/-- **C79**.  `getSurroundingInterval` compares nothing with fewer than two messages; with two or more it throws exactly if the start is
of another clock type, or the end is and the start is older than the newest message. -/
theorem C79_getSurroundingInterval (src : Nat → Source) (n : Nat) (hn : 0 < n) (ops : List Cache.Op) (s : Cache.State)
    (_h : cacheRun src n ops = .ok s) (c : Source) (hc : ∀ x ∈ s.items, src x.id = c) (start end_ : Time) :
    (getSurroundingInterval src s start end_ = none ↔
      2 ≤ s.items.length ∧ (start.source ≠ c ∨ (end_.source ≠ c ∧ ∃ x, s.items.getLast? = some x ∧ start.ns < x.stamp))) ∧
    (∀ l, getSurroundingInterval src s start end_ = some l → l = Cache.getSurroundingInterval s start.ns end_.ns) :=
  getSurroundingInterval_cases src s c hc start end_

/-- The hypothesis of the four theorems is met: there is such a clock type. -/
theorem C79_clock_exists (src : Nat → Source) (n : Nat) (hn : 0 < n) (ops : List Cache.Op) (s : Cache.State)
    (h : cacheRun src n ops = .ok s) : ∃ c, ∀ x ∈ s.items, src x.id = c := by
  have hs := cacheRun_inv' hn h
  cases hi : s.items with
  | nil => exact ⟨.ros, fun x hx => by cases hx⟩
  | cons y l => exact ⟨src y.id, fun x hx => hs.clock x (by rw [hi]; exact hx) y (by rw [hi]; simp)⟩

/-- A steady end time is noticed only if a message is not older than the start. -/
example : ∃ s, cacheRun (fun _ => .ros) 5 [.add ⟨0, 1⟩, .add ⟨1, 5⟩] = .ok s ∧
    getInterval (fun _ => .ros) s ⟨6, .ros⟩ ⟨9, .steady⟩ = some [] ∧ getInterval (fun _ => .ros) s ⟨5, .ros⟩ ⟨9, .steady⟩ = none ∧
    getInterval (fun _ => .ros) s ⟨2, .ros⟩ ⟨9, .ros⟩ = some [⟨1, 5⟩] ∧
    getElemBeforeTime (fun _ => .ros) s ⟨5, .system⟩ = none ∧ getElemBeforeTime (fun _ => .ros) s ⟨5, .ros⟩ = some (some ⟨0, 1⟩) ∧
    getElemAfterTime (fun _ => .ros) s ⟨5, .system⟩ = none ∧ getElemAfterTime (fun _ => .ros) s ⟨1, .ros⟩ = some (some ⟨1, 5⟩) ∧
    getSurroundingInterval (fun _ => .ros) s ⟨5, .ros⟩ ⟨6, .steady⟩ = some [⟨1, 5⟩] ∧
    getSurroundingInterval (fun _ => .ros) s ⟨4, .ros⟩ ⟨6, .steady⟩ = none :=
  ⟨_, rfl, by decide, by decide, by decide, by decide, by decide, by decide, by decide, by decide, by decide⟩

/-! ### ExactTime -/

variable {n : Nat}

/-- **C78**.  The waiting messages of the ExactTime policy are at every time of one clock type, and so are the messages of every set that
is output or dropped. -/
theorem C78_exact_one_clock [NeZero n] (src : Nat → Source) (q : Nat) (ops : List (Fin n × Ev)) :
    ∃ s, exactRunFrom src (ExactTime.construct n q) ops = .ok s ∧
      (∀ x, Waiting s x → ∀ y, Waiting s y → src x.id = src y.id) ∧
      ∀ t, t ∈ ExactTime.outs s.log ∨ t ∈ ExactTime.drops s.log →
        ∀ i j x y, t i = some x → t j = some y → src x.id = src y.id := by
  obtain ⟨s, h1, h2⟩ := exactRun_inv src ops (ExactTime.construct n q) (exactInv_construct src q)
  exact ⟨s, h1, h2.clock, exactRun_sets src q ops s h1⟩

/-- **C78**.  `add` throws exactly if a message of another clock type is waiting, and then it changes nothing; otherwise it does what it
does without clock types. -/
theorem C78_exact_add [NeZero n] (src : Nat → Source) (q : Nat) (ops : List (Fin n × Ev)) (s : ExactTime.State n)
    (h : exactRunFrom src (ExactTime.construct n q) ops = .ok s) (i : Fin n) (e : Ev) :
    ∃ s' thrown, exactAdd src s i e = .ok (s', thrown) ∧
      (thrown = true ↔ ∃ x, Waiting s x ∧ src x.id ≠ src e.id) ∧
      (thrown = true → s' = s) ∧ (thrown = false → ExactTime.add s i e = .ok s') := by
  obtain ⟨s1, h1, h2⟩ := exactRun_inv src ops (ExactTime.construct n q) (exactInv_construct src q)
  rw [h] at h1; cases h1
  obtain ⟨s', b, g1, _, g3, g4, g5⟩ := exactAdd_spec src h2 i e
  exact ⟨s', b, g1, g3, g4, g5⟩

/-- **C78**.  Every history has the effect of the history of those of its messages that were accepted. -/
theorem C78_exact_accepted [NeZero n] (src : Nat → Source) (q : Nat) (ops : List (Fin n × Ev)) (s : ExactTime.State n)
    (h : exactRunFrom src (ExactTime.construct n q) ops = .ok s) :
    ∃ acc, List.Sublist acc ops ∧ ExactTime.run (ExactTime.construct n q) acc = .ok s :=
  exactRun_accepted src q ops s h

/-- **C78**.  With one clock type all are accepted. -/
theorem C78_exact_same_clock [NeZero n] (src : Nat → Source) (c : Source) (q : Nat) (ops : List (Fin n × Ev))
    (h : ∀ op ∈ ops, src op.2.id = c) :
    exactRunFrom src (ExactTime.construct n q) ops = ExactTime.run (ExactTime.construct n q) ops :=
  exactRun_same src c q ops h

/-- **C78**.  One waiting message blocks all later messages of other clock types, for ever. -/
theorem C78_exact_stuck [NeZero n] (src : Nat → Source) (q : Nat) (ops : List (Fin n × Ev)) (s : ExactTime.State n)
    (h : exactRunFrom src (ExactTime.construct n q) ops = .ok s) (x : Ev) (hx : Waiting s x) (more : List (Fin n × Ev))
    (hm : ∀ op ∈ more, src op.2.id ≠ src x.id) : exactRunFrom src (ExactTime.construct n q) (ops ++ more) = .ok s := by
  obtain ⟨s1, h1, h2⟩ := exactRun_inv src ops (ExactTime.construct n q) (exactInv_construct src q)
  rw [h] at h1; cases h1
  have := exactRun_stuck src more s h2 ⟨x, hx, hm⟩
  unfold exactRunFrom at h this ⊢
  rw [runE_append, h]
  exact this

/-- Message 0 waits; the complete pair 1, 2 of another clock type is refused; the partner 3 of message 0 is accepted. -/
example : ∃ s : ExactTime.State 2, exactRunFrom (fun id => if id = 1 ∨ id = 2 then .steady else .ros) (ExactTime.construct 2 5)
      [(0, ⟨0, 4⟩), (0, ⟨1, 7⟩), (1, ⟨2, 7⟩), (1, ⟨3, 4⟩)] = .ok s ∧
    (ExactTime.outs s.log).map List.ofFn = [[some ⟨0, 4⟩, some ⟨3, 4⟩]] ∧ s.tuples.length = 0 := ⟨_, rfl, by decide, by decide⟩

/-! ### ApproximateEpsilonTime -/

/-- **C78**.  Sets of the ApproximateEpsilonTime policy consist of messages of type `ros` only. -/
theorem C78_epsilon_outputs (src : Nat → Source) (fuel q : Nat) (eps : Int) (ops : List (Fin n × Ev)) (s : Epsilon.State n)
    (h : epsilonRunFrom src fuel (Epsilon.construct n q eps) ops = .ok s) :
    ∀ t ∈ s.out, ∀ i x, t i = some x → src x.id = .ros :=
  (epsilonRun_inv src fuel q eps ops s h).2.1

/-- **C78**.  If all messages are of type `ros` nothing is different from a policy that ignores clock types. -/
theorem C78_epsilon_ros (src : Nat → Source) (fuel q : Nat) (eps : Int) (ops : List (Fin n × Ev))
    (h : ∀ op ∈ ops, src op.2.id = .ros) :
    epsilonRunFrom src fuel (Epsilon.construct n q eps) ops = Epsilon.run fuel (Epsilon.construct n q eps) ops :=
  epsilonRun_same src fuel q eps ops h

/-- **C78** (the claim fails: the message that makes the call throw is kept).  A call that throws leaves a message on every input, at the
front of one of them a message that is not of type `ros`; a call that does not throw does what it does without clock types. -/
theorem C78_epsilon_add_partial (src : Nat → Source) (fuel q : Nat) (eps : Int) (ops : List (Fin n × Ev)) (s : Epsilon.State n)
    (h : epsilonRunFrom src fuel (Epsilon.construct n q eps) ops = .ok s) (i : Fin n) (e : Ev) (s' : Epsilon.State n) (thrown : Bool)
    (ha : epsilonAdd src fuel s i e = .ok (s', thrown)) :
    (thrown = true → (∀ j, s'.events j ≠ []) ∧ ∃ j x, (s'.events j).head? = some x ∧ src x.id ≠ .ros) ∧
    (thrown = false → Epsilon.add fuel s i e = .ok s') := by
  obtain ⟨h1, _⟩ := epsilonRun_inv src fuel q eps ops s h
  obtain ⟨_, _, _, _, _, _, g7, g8⟩ := (epsilonAdd_spec src fuel s i e h1).2 s' thrown ha
  exact ⟨g7, fun hb => (g8 hb).2⟩

/-- **C78** (why it fails).  From the first exception on the policy is dead: whatever arrives, every call throws, nothing is output, and
every message is kept, so that the queues grow without regard to the queue size. -/
theorem C78_epsilon_dead (src : Nat → Source) (fuel : Nat) (hfuel : 0 < fuel) (q : Nat) (eps : Int) (ops : List (Fin n × Ev))
    (s : Epsilon.State n) (h : epsilonRunFrom src fuel (Epsilon.construct n q eps) ops = .ok s) (i : Fin n) (e : Ev) (s' : Epsilon.State n)
    (ha : epsilonAdd src fuel s i e = .ok (s', true)) (more : List (Fin n × Ev)) :
    ∃ s'', epsilonRunFrom src fuel (Epsilon.construct n q eps) (ops ++ (i, e) :: more) = .ok s'' ∧ s''.out = s'.out ∧
      (∀ j, s''.events j = s'.events j ++ stream more j) ∧
      ∀ j x, ∃ s3, epsilonAdd src fuel s'' j x = .ok (s3, true) := by
  obtain ⟨h1, _⟩ := epsilonRun_inv src fuel q eps ops s h
  obtain ⟨g1, _, _, _, _, _, g7, _⟩ := (epsilonAdd_spec src fuel s i e h1).2 s' true ha
  obtain ⟨s'', k1, k2, k3⟩ := epsilonRun_dead src fuel hfuel more s' g1 (g7 rfl)
  have hrun : epsilonRunFrom src fuel (Epsilon.construct n q eps) (ops ++ (i, e) :: more) = .ok s'' := by
    unfold epsilonRunFrom at h k1 ⊢
    rw [runE_append, h]
    simp only [runE]
    rw [ha]
    exact k1
  refine ⟨s'', hrun, k2, k3, ?_⟩
  intro j x
  obtain ⟨hn, _⟩ := epsilonRun_inv src fuel q eps _ s'' hrun
  obtain ⟨hall, k, y, hy, hne⟩ := g7 rfl
  have hdead : EpsilonDead src s'' := by
    refine ⟨?_, k, y, ?_, hne⟩
    · intro j hj
      rw [k3 j, List.append_eq_nil_iff] at hj
      exact hall j hj.1
    · rw [k3 k, List.head?_append, hy]; rfl
  obtain ⟨s3, h3, _⟩ := epsilonAdd_dead src fuel hfuel s'' hn hdead j x
  exact ⟨s3, h3⟩

/-- **C78**.  If one input never delivers a message of type `ros`, nothing is ever output. -/
theorem C78_epsilon_silent (src : Nat → Source) (fuel : Nat) (hfuel : 0 < fuel) (q : Nat) (eps : Int) (k : Fin n)
    (ops : List (Fin n × Ev)) (h : ∀ op ∈ ops, op.1 = k → src op.2.id ≠ .ros) :
    ∃ s, epsilonRunFrom src fuel (Epsilon.construct n q eps) ops = .ok s ∧ s.out = [] :=
  epsilonRun_fixed src fuel hfuel q eps k ops h

/-- One message of type `steady` (id 0) with queue size 1: the complete pairs that follow are not output and the queues exceed the queue
size. -/
theorem C78_epsilon_bound_violated : ∃ s : Epsilon.State 2,
    epsilonRunFrom (fun id => if id = 0 then .steady else .ros) 20 (Epsilon.construct 2 1 10)
      [(0, ⟨0, 1⟩), (1, ⟨1, 1⟩), (0, ⟨2, 20⟩), (1, ⟨3, 20⟩), (0, ⟨4, 40⟩), (1, ⟨5, 40⟩)] = .ok s ∧
    s.out.length = 0 ∧ List.ofFn s.events = [[⟨0, 1⟩, ⟨2, 20⟩, ⟨4, 40⟩], [⟨1, 1⟩, ⟨3, 20⟩, ⟨5, 40⟩]] := ⟨_, rfl, rfl, by decide⟩

/-- The same history without the odd clock type outputs all three pairs. -/
example : ∃ s : Epsilon.State 2, epsilonRunFrom (fun _ => .ros) 20 (Epsilon.construct 2 1 10)
      [(0, ⟨0, 1⟩), (1, ⟨1, 1⟩), (0, ⟨2, 20⟩), (1, ⟨3, 20⟩), (0, ⟨4, 40⟩), (1, ⟨5, 40⟩)] = .ok s ∧ s.out.length = 3 := ⟨_, rfl, rfl⟩

/-! ### ApproximateTime -/

/-- **C78**.  With one clock type nothing is different from a policy that ignores clock types. -/
theorem C78_approx_same_clock [NeZero n] (src : Nat → Source) (c : Source) (fuel : Nat) (cfg : Approx.Cfg n) (ops : List (Fin n × Ev))
    (h : ∀ op ∈ ops, src op.2.id = c) : (approxRun src fuel cfg ops).map (·.base) = Approx.run fuel cfg ops :=
  approxRun_same src c fuel cfg ops h

/-- **C78**.  Whatever the clock types of the messages of every input, every call returns or throws (no undefined behaviour, no failed
assertion, no endless loop), every set that was output is complete and of one clock type, and the messages of every input are output in
the order in which they arrived, each at most once. -/
theorem C78_approx_one_clock [NeZero n] (src : Nat → Source) (fuel : Nat) (cfg : Approx.Cfg n) (hq : 0 < cfg.queueSize)
    (ops : List (Fin n × Ev)) (hfuel : (ops.length + 1) * (ops.length + 1) + (ops.length + 1) ≤ fuel) :
    ∃ s, approxRun src fuel cfg ops = .ok s ∧
      (∀ t ∈ s.base.out, ∃ c, ∀ i, ∃ x, t i = some x ∧ src x.id = c) ∧
      ∀ i, ∃ l : List Ev, s.base.out.map (· i) = l.map some ∧ l.Sublist (stream ops i) := by
  obtain ⟨s, hs⟩ := run_ok src fuel cfg hq ops hfuel
  have hr := run_reached hs
  have hsub : ∀ i, ∃ l : List Ev, s.base.out.map (· i) = l.map some ∧ l.Sublist (stream ops i) := by
    intro i
    obtain ⟨q, h1, h2⟩ := hr.hist i
    obtain ⟨l, h3, h4⟩ := List.sublist_map_iff.1 h2
    exact ⟨l, h4, by rw [h1]; exact h3.trans (List.sublist_append_left _ _)⟩
  refine ⟨s, hs, ?_, hsub⟩
  intro t ht
  obtain ⟨c, hc⟩ := hr.clk.out t ht
  refine ⟨c, fun i => ?_⟩
  obtain ⟨l, h1, _⟩ := hsub i
  have : t i ∈ l.map some := by rw [← h1]; exact List.mem_map.2 ⟨t, ht, rfl⟩
  obtain ⟨x, _, hx⟩ := List.mem_map.1 this
  exact ⟨x, hx.symm, hc i x hx.symm⟩

/-- **C78**.  After any history, a call throws only if the messages held and the new one are not all of one clock type; if they are, the
call does what the policy does that ignores clock types. -/
theorem C78_approx_no_false_throw [NeZero n] (src : Nat → Source) (c : Source) (fuel : Nat) (cfg : Approx.Cfg n)
    (ops : List (Fin n × Ev)) (s : PState n) (hs : approxRun src fuel cfg ops = .ok s) (i : Fin n) (e : Ev) (he : src e.id = c)
    (hc : ∀ j, ∀ x ∈ s.base.past j ++ s.base.deques j, src x.id = c) :
    (∀ s', approxAdd src fuel s i e ≠ .ok (s', true)) ∧
      (approxAdd src fuel s i e).map (fun r => r.1.base) = Approx.add fuel s.base i e := by
  have hr := run_reached hs
  rcases add_same src c fuel hr.inv hr.clk (by rw [hr.cfg]; exact run_qpos hs) hc i e he with ⟨s', h1, h2⟩ | ⟨f, h1, h2⟩
  · rw [h1, h2]; exact ⟨by simp, rfl⟩
  · rw [h1, h2]; exact ⟨by simp, rfl⟩

/-- One message of another clock type (id 2) among messages of type `ros`: the pair before it is output, the pair after it not, since the
message is kept. -/
example : ∃ s : PState 2, approxRun (fun id => if id = 2 then .steady else .ros) 100
      { queueSize := 3, scale := id, lower := fun _ => 0, maxInterval := 1000 }
      [(0, ⟨0, 1⟩), (1, ⟨1, 1⟩), (0, ⟨2, 20⟩), (1, ⟨3, 20⟩), (0, ⟨4, 40⟩), (1, ⟨5, 40⟩)] = .ok s ∧
    s.base.out.map (fun t => List.ofFn t) = [[some ⟨0, 1⟩, some ⟨1, 1⟩]] ∧
    List.ofFn s.base.deques = [[⟨2, 20⟩, ⟨4, 40⟩], [⟨3, 20⟩, ⟨5, 40⟩]] := ⟨_, rfl, rfl, by decide⟩

/-- **C78** (the claim fails: messages that cannot be compared are kept).  If every input keeps to one clock type and two inputs differ,
nothing is ever output, nothing hangs, and every input holds its newest `queueSize` messages. -/
theorem C78_approx_two_clocks_partial [NeZero n] (src : Nat → Source) (clk : Fin n → Source) (a b : Fin n) (hab : clk a ≠ clk b)
    (fuel : Nat) (hfuel : 0 < fuel) (cfg : Approx.Cfg n) (hq : 0 < cfg.queueSize) (ops : List (Fin n × Ev)) (h : Fixed src clk ops) :
    ∃ s, approxRun src fuel cfg ops = .ok s ∧ s.base.out = [] ∧ (∀ i, s.base.past i = []) ∧
      ∀ i, s.base.deques i = keep cfg.queueSize (stream ops i) := by
  obtain ⟨s, h1, h2⟩ := approxRun_idle src clk a b hab fuel hfuel cfg hq ops h
  exact ⟨s, h1, h2.out, h2.past, h2.deques⟩

/-- **C78**.  In that situation exactly one call throws, the one that brings the last missing first message: it throws exactly if its
input had no message before and all others had. -/
theorem C78_approx_throws_once [NeZero n] (src : Nat → Source) (clk : Fin n → Source) (a b : Fin n) (hab : clk a ≠ clk b)
    (fuel : Nat) (hfuel : 0 < fuel) (cfg : Approx.Cfg n) (hq : 0 < cfg.queueSize) (ops : List (Fin n × Ev)) (h : Fixed src clk ops)
    (s : PState n) (hs : approxRun src fuel cfg ops = .ok s) (i : Fin n) (e : Ev) (he : src e.id = clk i) :
    ∃ s' thrown, approxAdd src fuel s i e = .ok (s', thrown) ∧
      (thrown = true ↔ stream ops i = [] ∧ ∀ j, j ≠ i → stream ops j ≠ []) := by
  obtain ⟨s1, h1, h2⟩ := approxRun_idle src clk a b hab fuel hfuel cfg hq ops h
  rw [hs] at h1; cases h1
  obtain ⟨s', t, g1, _, g3⟩ := approxAdd_idle src clk a b hab fuel _ hfuel hq h2
    (fun i x hx => h (i, x) (mem_stream.1 hx)) i e he
  refine ⟨s', t, g1, ?_⟩
  have hk : ∀ j, s.base.deques j = [] ↔ stream ops j = [] := by
    intro j
    rw [h2.deques j, ← List.length_eq_zero_iff, keep_length, ← List.length_eq_zero_iff]
    omega
  rw [g3, hk i]
  constructor
  · rintro ⟨x, y⟩; exact ⟨x, fun j hj hh => y j hj ((hk j).2 hh)⟩
  · rintro ⟨x, y⟩; exact ⟨x, fun j hj hh => y j hj ((hk j).1 hh)⟩

example : ∃ s : PState 2, approxRun (fun id => if id < 10 then .ros else .steady) 100
      { queueSize := 2, scale := id, lower := fun _ => 0, maxInterval := 1000 }
      [(0, ⟨0, 1⟩), (1, ⟨10, 1⟩), (0, ⟨1, 20⟩), (1, ⟨11, 20⟩), (0, ⟨2, 40⟩), (1, ⟨12, 40⟩)] = .ok s ∧
    s.base.out.length = 0 ∧ List.ofFn s.base.deques = [[⟨1, 20⟩, ⟨2, 40⟩], [⟨11, 20⟩, ⟨12, 40⟩]] := ⟨_, rfl, rfl, by decide⟩

/-- **C78** (the claim fails: later messages of the usual clock type are not handled as before).  When the last input gets its first
message and the first messages of the inputs are not all of one clock type, this call throws, and no set is ever output again whatever is
sent afterwards, even if all later messages are of one clock type and the queues have long dropped the odd message. -/
theorem C78_approx_dead [NeZero n] (src : Nat → Source) (fuel : Nat) (hfuel : 0 < fuel) (cfg : Approx.Cfg n) (hq : 0 < cfg.queueSize)
    (ops : List (Fin n × Ev)) (i : Fin n) (e : Ev) (hi : stream ops i = []) (hothers : ∀ j, j ≠ i → stream ops j ≠ [])
    (hlim : ∀ j, (stream ops j).length ≤ cfg.queueSize) (a b : Fin n) (x y : Ev)
    (hx : (stream (ops ++ [(i, e)]) a).head? = some x) (hy : (stream (ops ++ [(i, e)]) b).head? = some y) (hne : src x.id ≠ src y.id) :
    (∃ s s', approxRun src fuel cfg ops = .ok s ∧ approxAdd src fuel s i e = .ok (s', true)) ∧
      ∀ later, ∃ s, approxRun src fuel cfg (ops ++ [(i, e)] ++ later) = .ok s ∧ s.base.out = [] := by
  obtain ⟨s, h1, h2, h3⟩ := whole_run src fuel cfg hq i ops hi hlim
  obtain ⟨s', k1, k2, k3, k4⟩ := whole_full src fuel hfuel h2 i e hi hothers a b x y
    (by rw [← Approx.stream_snoc]; exact hx) (by rw [← Approx.stream_snoc]; exact hy) hne
  refine ⟨⟨s, s', h1, k1⟩, fun later => ?_⟩
  obtain ⟨s2, g1, _, g3⟩ := stuck_run src fuel later k2 (by rw [k4, h3]; exact hq)
  refine ⟨s2, ?_, by rw [g3, k3]⟩
  have h4 := approxRun_snoc hq h1 k1
  rw [run_pinit hq] at h4 ⊢
  rw [runE_append, h4]
  exact g1

/-- After one odd message all later pairs are of one clock type, the odd message has been dropped, and nothing is output
(the input that once threw holds one message more than the queue size). -/
example : ∃ s : PState 2, approxRun (fun id => if id = 0 then .steady else .ros) 100
      { queueSize := 1, scale := id, lower := fun _ => 0, maxInterval := 1000 }
      [(1, ⟨1, 1⟩), (0, ⟨0, 1⟩), (1, ⟨3, 20⟩), (0, ⟨2, 20⟩), (1, ⟨5, 40⟩), (0, ⟨4, 40⟩), (0, ⟨6, 60⟩), (1, ⟨7, 60⟩)] = .ok s ∧
    s.base.out.length = 0 ∧ List.ofFn s.base.deques = [[⟨4, 40⟩, ⟨6, 60⟩], [⟨7, 60⟩]] := ⟨_, rfl, rfl, by decide⟩

/-- **C78** (the claim fails, and with it the queue limit).  While another input is silent, an input whose messages alternate between
clock types keeps all of them, whatever the queue size. -/
theorem C78_approx_bound_violated [NeZero n] (src : Nat → Source) (fuel : Nat) (cfg : Approx.Cfg n) (hq : 0 < cfg.queueSize)
    (i k : Fin n) (hik : i ≠ k) (l : List Ev) (h : ∀ p x y q, l = p ++ x :: y :: q → src x.id ≠ src y.id) :
    ∃ s, approxRun src fuel cfg (l.map (fun e => (i, e))) = .ok s ∧ s.base.deques i = l := by
  obtain ⟨s, h1, h2, _, _⟩ := alternating_run src fuel cfg hq i k hik l h
  exact ⟨s, h1, by rw [h2.deques i, upd_same]⟩

/-- Such lists exist in every length. -/
example (N : Nat) : ∃ l : List Ev, l.length = N ∧ ∀ p x y q, l = p ++ x :: y :: q →
    (fun id => if id % 2 = 0 then Source.ros else .steady) x.id ≠ (fun id => if id % 2 = 0 then Source.ros else .steady) y.id := by
  refine ⟨(List.range N).map (fun k => ⟨k, k⟩), by simp, ?_⟩
  intro p x y q h
  have h1 : ((List.range N).map (fun k => (⟨k, k⟩ : Ev)))[p.length]? = some x := by rw [h]; simp
  have h2 : ((List.range N).map (fun k => (⟨k, k⟩ : Ev)))[p.length + 1]? = some y := by
    rw [h, List.getElem?_append_right (by omega)]; simp
  rw [List.getElem?_map] at h1 h2
  obtain ⟨u, hu, rfl⟩ := Option.map_eq_some_iff.1 h1
  obtain ⟨v, hv, rfl⟩ := Option.map_eq_some_iff.1 h2
  obtain ⟨_, hu⟩ := List.getElem?_eq_some_iff.1 hu
  obtain ⟨_, hv⟩ := List.getElem?_eq_some_iff.1 hv
  rw [List.getElem_range] at hu hv
  subst hu; subst hv
  dsimp only
  by_cases hm : p.length % 2 = 0
  · rw [if_pos hm, if_neg (by omega)]; simp
  · rw [if_neg hm, if_pos (by omega)]; simp

/-! ### InputAligner -/

/-- **C78**.  The aligner ignores the messages that are not of type `ros`: every history has the effect of the history without them. -/
theorem C78_aligner (src : Nat → Source) (fuel : Nat) (timeout : Int) (ops : List (Aligner.Op n)) :
    (alignerRun src fuel timeout ops).map (·.base) =
      Aligner.run fuel timeout (ops.filter (fun op => match op with | .add _ e => decide (src e.id = .ros) | _ => true)) := by
  have h := alignerRun_spec src fuel ops (alignerConstruct n timeout) (allRos_construct src timeout)
  unfold alignerRun Aligner.run
  cases hr : runE (Aligner.step fuel) (alignerConstruct n timeout).base (rosOnly src ops) with
  | error f => rw [hr] at h; dsimp only at h; rw [h]; exact hr.symm
  | ok b =>
    rw [hr] at h
    obtain ⟨s', h1, h2, _⟩ := h
    rw [h1]
    simp only [Except.map, h2]
    exact hr.symm

/-- **C78**.  After any history: `add` throws exactly for messages that are not of type `ros`, and then it changes nothing; a dispatch never
throws. -/
theorem C78_aligner_throws (src : Nat → Source) (fuel : Nat) (timeout : Int) (ops : List (Aligner.Op n)) (s : AState n)
    (h : alignerRun src fuel timeout ops = .ok s) :
    (∀ i e, (src e.id ≠ .ros → alignerAdd src s i e = (s, true)) ∧ (src e.id = .ros → (alignerAdd src s i e).2 = false)) ∧
    ∀ s' thrown, alignerDispatch src fuel s = .ok (s', thrown) → thrown = false := by
  have hs := alignerRun_spec src fuel ops (alignerConstruct n timeout) (allRos_construct src timeout)
  unfold alignerRun at h
  have hr : AllRos src s := by
    cases hr : runE (Aligner.step fuel) (alignerConstruct n timeout).base (rosOnly src ops) with
    | error f => rw [hr] at hs; dsimp only at hs; rw [h] at hs; cases hs
    | ok b =>
      rw [hr] at hs
      obtain ⟨s', h1, _, h3⟩ := hs
      rw [h] at h1; cases h1; exact h3
  refine ⟨fun i e => ⟨(alignerAdd_spec src hr i e).1, ?_⟩, ?_⟩
  · intro he
    obtain ⟨s', h1, _⟩ := (alignerAdd_spec src hr i e).2 he
    rw [h1]
  · intro s' thrown hd
    have := alignerStep_spec src fuel hr .dispatch (fun i e h => by cases h)
    cases hst : Aligner.step fuel s.base .dispatch with
    | error f =>
      rw [hst] at this
      dsimp only [alignerStep] at this
      rw [hd] at this; cases this
    | ok b =>
      rw [hst] at this
      obtain ⟨s2, h1, _⟩ := this
      dsimp only [alignerStep] at h1
      rw [hd] at h1; cases h1; rfl

/-- Message 1 (steady) is ignored; message 2 is dispatched, message 0 waits for the next one of input 1. -/
example : ∃ s : AState 2, alignerRun (fun id => if id = 1 then .steady else .ros) 20 1000
      [.add 0 ⟨0, 5⟩, .add 1 ⟨1, 1⟩, .add 1 ⟨2, 4⟩, .dispatch] = .ok s ∧ s.base.out = [(1, ⟨2, 4⟩)] :=
  ⟨_, rfl, by decide⟩

end MF.ClockMix
