import Verif.Proofs.PyCache
/-
Properties of the Python Cache.
-/
namespace MF.PyCache

/-- **C70**.  After any history a Python Cache holds the last `cache_size` usable messages in the order of their arrival, each
with its own time, and has passed on every usable message once, in order. -/
theorem C70_last_messages (k : Int) (al : Bool) (ops : List (Msg × Int)) :
    (run (construct k al) ops).msgs = (lastN k (usable al ops)).map (·.1) ∧
    (run (construct k al) ops).times = (lastN k (usable al ops)).map (·.2) ∧
    (run (construct k al) ops).out = (usable al ops).map (·.1) :=
  ⟨(holds k al ops).msgs, (holds k al ops).times, (holds k al ops).out⟩

/-- **C70**.  A message without a header changes nothing and is not passed on unless such messages are allowed. -/
theorem C70_headerless_ignored (s : State) (hs : s.allowHeaderless = false) (m : Msg) (hm : m.stamp = none) (now : Int) :
    add s m now = s := by
  simp [add, hm, hs]

/-- **C70**.  `getInterval` returns the held messages with a time in the closed interval, in the order of their arrival. -/
theorem C70_getInterval (k : Int) (al : Bool) (ops : List (Msg × Int)) (c : Source) (hc : OneClock c (lastN k (usable al ops)))
    (a b : Int) (hab : a ≤ b) :
    getInterval (run (construct k al) ops) ⟨c, a⟩ ⟨c, b⟩ =
      .ok (((lastN k (usable al ops)).filter (fun x => decide (a ≤ x.2.ns ∧ x.2.ns ≤ b))).map (·.1)) := by
  unfold getInterval
  simp only [ple, ↓reduceIte, hab, decide_true]
  rw [holds_zip]
  exact comprehension_ok (q := fun t => decide (a ≤ t.ns ∧ t.ns ≤ b)) (fun x hx => by
    have := hc x hx
    unfold between ple
    simp only [this, ↓reduceIte]
    by_cases h1 : a ≤ x.2.ns <;> by_cases h2 : x.2.ns ≤ b <;> simp [h1, h2])

/-- **C70**.  `getInterval` with a reversed interval fails an assertion; it never returns a list. -/
theorem C70_getInterval_reversed (s : State) (c : Source) (a b : Int) (hab : b < a) :
    getInterval s ⟨c, a⟩ ⟨c, b⟩ = .error .assertFailed := by
  have : ¬ a ≤ b := by omega
  simp [getInterval, ple, this]

/-- **C70**.  A query with a time of another clock type than that of a held message raises. -/
theorem C70_clock_mismatch (k : Int) (al : Bool) (ops : List (Msg × Int)) (t u : PTime)
    (hx : ∃ x ∈ lastN k (usable al ops), x.2.clock ≠ t.clock) (hu : u.clock = t.clock) (hle : t.ns ≤ u.ns) :
    getElemAfterTime (run (construct k al) ops) t = .error .threw ∧
    getElemBeforeTime (run (construct k al) ops) t = .error .threw ∧
    getInterval (run (construct k al) ops) t u = .error .threw := by
  obtain ⟨x, hx, hne⟩ := hx
  have h1 : ∀ p q : PTime, ple p q = .error .threw ∨ ∃ b, ple p q = .ok b := by
    intro p q
    unfold ple
    split
    · exact Or.inr ⟨_, rfl⟩
    · exact Or.inl rfl
  have h2 : ∀ p, between t u p = .error .threw ∨ ∃ b, between t u p = .ok b := by
    intro p
    unfold between
    rcases h1 t p with h | ⟨b, h⟩
    · simp [h]
    · rw [h]
      cases b
      · exact Or.inr ⟨_, rfl⟩
      · exact h1 _ _
  refine ⟨?_, ?_, ?_⟩
  · unfold getElemAfterTime
    rw [holds_zip, comprehension_threw (fun y _ => h1 _ _) ⟨x, hx, by unfold ple; rw [if_neg (fun h => hne h.symm)]⟩]
  · unfold getElemBeforeTime
    rw [holds_zip, comprehension_threw (p := fun x => ple x t) (fun y _ => h1 _ _) ⟨x, hx, by unfold ple; rw [if_neg hne]⟩]
  · unfold getInterval
    have : ple t u = .ok true := by simp [ple, hu, hle]
    rw [this]
    simp only
    rw [holds_zip, comprehension_threw (fun y _ => h2 _) ⟨x, hx, by unfold between ple; rw [if_neg (fun h => hne h.symm)]⟩]

/-- **C70**.  For every history `getElemAfterTime` returns the first arrived of the held messages that are not before `t`. -/
theorem C70_getElemAfterTime_first_arrived (k : Int) (al : Bool) (ops : List (Msg × Int)) (c : Source)
    (hc : OneClock c (lastN k (usable al ops))) (t : Int) :
    getElemAfterTime (run (construct k al) ops) ⟨c, t⟩ =
      .ok (((lastN k (usable al ops)).find? (fun x => decide (t ≤ x.2.ns))).map (·.1)) := by
  unfold getElemAfterTime
  rw [holds_zip, comprehension_ok (q := fun x => decide (t ≤ x.ns)) (fun x hx => by simp [ple, hc x hx])]
  simp [List.head?_filter]

/-- **C70**.  For every history `getElemBeforeTime` returns the last arrived of the held messages that are not after `t`. -/
theorem C70_getElemBeforeTime_last_arrived (k : Int) (al : Bool) (ops : List (Msg × Int)) (c : Source)
    (hc : OneClock c (lastN k (usable al ops))) (t : Int) :
    getElemBeforeTime (run (construct k al) ops) ⟨c, t⟩ =
      .ok (((lastN k (usable al ops)).reverse.find? (fun x => decide (x.2.ns ≤ t))).map (·.1)) := by
  unfold getElemBeforeTime
  rw [holds_zip, comprehension_ok (q := fun x => decide (x.ns ≤ t)) (fun x hx => by simp [ple, hc x hx])]
  simp only [Except.ok.injEq]
  rw [List.getLast?_map, List.getLast?_filter]

/-- **C70** (partial: only for messages that arrived in time order).  `getElemAfterTime` does what it promises. -/
theorem C70_getElemAfterTime_partial (k : Int) (al : Bool) (ops : List (Msg × Int)) (c : Source)
    (hc : OneClock c (lastN k (usable al ops))) (ho : InOrder (lastN k (usable al ops))) (t : Int) :
    ∃ r, getElemAfterTime (run (construct k al) ops) ⟨c, t⟩ = .ok r ∧ OldestAfter (lastN k (usable al ops)) t r := by
  refine ⟨_, C70_getElemAfterTime_first_arrived k al ops c hc t, ?_⟩
  generalize lastN k (usable al ops) = l at *
  clear hc
  induction l with
  | nil => intro y hy; cases hy
  | cons x l ih =>
    rw [List.find?_cons]
    unfold InOrder at ho
    rw [List.pairwise_cons] at ho
    by_cases hx : t ≤ x.2.ns
    · simp only [hx, decide_true]
      exact ⟨x, by simp, rfl, hx, fun y hy _ => by
        rcases List.mem_cons.mp hy with rfl | hy
        · exact Int.le_refl _
        · exact ho.1 y hy⟩
    · simp only [hx, decide_false]
      have := ih ho.2
      cases hf : l.find? (fun x => decide (t ≤ x.2.ns)) with
      | none =>
        rw [hf] at this
        simp only [Option.map_none, OldestAfter] at this ⊢
        intro y hy
        rcases List.mem_cons.mp hy with rfl | hy
        · omega
        · exact this y hy
      | some z =>
        rw [hf] at this
        simp only [Option.map_some, OldestAfter] at this ⊢
        obtain ⟨w, h1, h2, h3, h4⟩ := this
        refine ⟨w, List.mem_cons_of_mem _ h1, h2, h3, fun y hy hty => ?_⟩
        rcases List.mem_cons.mp hy with rfl | hy
        · omega
        · exact h4 y hy hty

/-- **C70** (partial: only for messages that arrived in time order).  `getElemBeforeTime` does what it promises. -/
theorem C70_getElemBeforeTime_partial (k : Int) (al : Bool) (ops : List (Msg × Int)) (c : Source)
    (hc : OneClock c (lastN k (usable al ops))) (ho : InOrder (lastN k (usable al ops))) (t : Int) :
    ∃ r, getElemBeforeTime (run (construct k al) ops) ⟨c, t⟩ = .ok r ∧ NewestBefore (lastN k (usable al ops)) t r := by
  refine ⟨_, C70_getElemBeforeTime_last_arrived k al ops c hc t, ?_⟩
  generalize lastN k (usable al ops) = l at *
  clear hc
  induction l using snoc_induction with
  | h0 => intro y hy; cases hy
  | hs l x ih =>
    rw [List.reverse_append, List.reverse_singleton, List.singleton_append, List.find?_cons]
    unfold InOrder at ho
    rw [List.pairwise_append] at ho
    by_cases hx : x.2.ns ≤ t
    · simp only [hx, decide_true]
      exact ⟨x, by simp, rfl, hx, fun y hy _ => by
        rcases List.mem_append.mp hy with hy | hy
        · exact ho.2.2 y hy x (by simp)
        · simp only [List.mem_singleton] at hy; subst hy; exact Int.le_refl _⟩
    · simp only [hx, decide_false]
      have := ih ho.1
      cases hf : l.reverse.find? (fun x => decide (x.2.ns ≤ t)) with
      | none =>
        rw [hf] at this
        simp only [Option.map_none, NewestBefore] at this ⊢
        intro y hy
        rcases List.mem_append.mp hy with hy | hy
        · exact this y hy
        · simp only [List.mem_singleton] at hy; subst hy; omega
      | some z =>
        rw [hf] at this
        simp only [Option.map_some, NewestBefore] at this ⊢
        obtain ⟨w, h1, h2, h3, h4⟩ := this
        refine ⟨w, List.mem_append_left _ h1, h2, h3, fun y hy hty => ?_⟩
        rcases List.mem_append.mp hy with hy | hy
        · exact h4 y hy hty
        · simp only [List.mem_singleton] at hy; subst hy; omega

/-- **C70** (partial: only for messages that arrived in time order).  The time given by `getLastestTime` is the greatest, that
given by `getOldestTime` the smallest of the held messages; both are `None` exactly if no message is held. -/
theorem C70_extreme_times_partial (k : Int) (al : Bool) (ops : List (Msg × Int)) (ho : InOrder (lastN k (usable al ops))) :
    (match getLastestTime (run (construct k al) ops) with
      | none => lastN k (usable al ops) = []
      | some t => (∃ x ∈ lastN k (usable al ops), x.2 = t) ∧ ∀ x ∈ lastN k (usable al ops), x.2.ns ≤ t.ns) ∧
    (match getOldestTime (run (construct k al) ops) with
      | none => lastN k (usable al ops) = []
      | some t => (∃ x ∈ lastN k (usable al ops), x.2 = t) ∧ ∀ x ∈ lastN k (usable al ops), t.ns ≤ x.2.ns) := by
  unfold getLastestTime getOldestTime
  rw [(holds k al ops).times]
  generalize lastN k (usable al ops) = l at *
  constructor
  · rcases l.eq_nil_or_concat with rfl | ⟨l, x, rfl⟩
    · simp
    · rw [List.concat_eq_append] at ho ⊢
      unfold InOrder at ho
      rw [List.pairwise_append] at ho
      simp only [List.map_append, List.map_cons, List.map_nil, List.getLast?_concat]
      refine ⟨⟨x, by simp, rfl⟩, fun y hy => ?_⟩
      rcases List.mem_append.mp hy with hy | hy
      · exact ho.2.2 y hy x (by simp)
      · simp only [List.mem_singleton] at hy; subst hy; exact Int.le_refl _
  · match l with
    | [] => simp
    | x :: l =>
      unfold InOrder at ho
      rw [List.pairwise_cons] at ho
      simp only [List.map_cons, List.head?_cons]
      refine ⟨⟨x, by simp, rfl⟩, fun y hy => ?_⟩
      rcases List.mem_cons.mp hy with rfl | hy
      · exact Int.le_refl _
      · exact ho.1 y hy

/-- **C70** (partial: only for strictly increasing times).  `getLast` returns the message that arrived last. -/
theorem C70_getLast_partial (k : Int) (al : Bool) (ops : List (Msg × Int)) (c : Source)
    (hc : OneClock c (lastN k (usable al ops))) (ho : InStrictOrder (lastN k (usable al ops))) :
    getLast (run (construct k al) ops) = .ok (((lastN k (usable al ops)).getLast?).map (·.1)) := by
  unfold getLast getLastestTime
  have htimes := (holds k al ops).times
  rcases hl : (lastN k (usable al ops)).eq_nil_or_concat with h | ⟨l, x, h⟩
  · rw [htimes, h]; rfl
  · rw [List.concat_eq_append] at h
    rw [htimes, h]
    simp only [List.map_append, List.map_cons, List.map_nil, List.getLast?_concat, Option.map_some]
    have hx : x.2 = ⟨c, x.2.ns⟩ := by
      have := hc x (by rw [h]; simp)
      cases hx2 : x.2
      rw [hx2] at this
      simp only at this
      rw [this]
    rw [hx, C70_getElemAfterTime_first_arrived k al ops c hc, h]
    unfold InStrictOrder at ho
    rw [h, List.pairwise_append] at ho
    have : l.find? (fun y => decide (x.2.ns ≤ y.2.ns)) = none := by
      rw [List.find?_eq_none]
      intro y hy
      have := ho.2.2 y hy x (by simp)
      simp only [decide_eq_true_eq]
      omega
    rw [List.find?_append, this]
    simp

/-- A message with a header stamp in ROS time. -/
def at' (id : Nat) (ns : Int) : Msg × Int := (⟨id, some ⟨.ros, ns⟩⟩, 0)

example : let ops := [at' 0 10, at' 1 20, at' 2 20, at' 3 30]
    OneClock .ros (lastN 3 (usable false ops)) ∧ InOrder (lastN 3 (usable false ops)) ∧
    getElemAfterTime (run (construct 3 false) ops) ⟨.ros, 11⟩ = .ok (some (at' 1 20).1) ∧
    getElemBeforeTime (run (construct 3 false) ops) ⟨.ros, 29⟩ = .ok (some (at' 2 20).1) ∧
    getLast (run (construct 3 false) ops) = .ok (some (at' 3 30).1) ∧
    getInterval (run (construct 3 false) ops) ⟨.ros, 0⟩ ⟨.ros, 20⟩ = .ok [(at' 1 20).1, (at' 2 20).1] := by
  refine ⟨?_, ?_, rfl, rfl, rfl, rfl⟩
  · unfold OneClock; decide
  · unfold InOrder; decide

/-- **C70** (disagreement).  With messages out of order the promises fail: after times 30, 10, 20, `getElemAfterTime 5` gives the
message at 30 rather than 10, `getElemBeforeTime 35` gives 20 rather than 30, the latest time is said to be 20, the oldest 30,
and `getLast` gives the first message. -/
theorem C70_violated_out_of_order : let s := run (construct 5 false) [at' 0 30, at' 1 10, at' 2 20]
    getElemAfterTime s ⟨.ros, 5⟩ = .ok (some (at' 0 30).1) ∧ getElemBeforeTime s ⟨.ros, 35⟩ = .ok (some (at' 2 20).1) ∧
    getLastestTime s = some ⟨.ros, 20⟩ ∧ getOldestTime s = some ⟨.ros, 30⟩ ∧ getLast s = .ok (some (at' 0 30).1) :=
  ⟨rfl, rfl, rfl, rfl, rfl⟩

/-- **C70** (disagreement).  With two messages at the same time `getLast` gives the older one. -/
theorem C70_getLast_violated_equal_times :
    getLast (run (construct 5 false) [at' 0 10, at' 1 20, at' 2 20]) = .ok (some (at' 1 20).1) := rfl

/-- **C70** (disagreement).  One message whose stamp is of another clock type makes the queries raise, `getLast` included, until
it has left the cache. -/
theorem C70_mixed_clocks : let s := run (construct 5 false) [at' 0 10, (⟨1, some ⟨.system, 20⟩⟩, 0)]
    getLast s = .error .threw ∧ getElemAfterTime s ⟨.ros, 0⟩ = .error .threw := ⟨rfl, rfl⟩

end MF.PyCache
