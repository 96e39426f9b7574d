import Verif.Proofs.PyConc
import Verif.Proofs.PyConstruct
/-
Properties of the construction and reconnection of the Python filters.
-/
namespace MF.Py

variable {n : Nat}

/-! ### Messages that arrive while the constructor runs -/

/-- **C73**.  A TimeSynchronizer whose inputs already deliver while its constructor runs: exactly the messages that arrive on a
registered input before the lock exists (statement `n + 2`) raise an exception and are lost; from then on it behaves like a
synchronizer to which they were never given. -/
theorem C73_construction_ts (boom : Nat → Bool) (q : Int) (ops : List (BOp n)) :
    (runE (tsBuild boom) (buildStart n q) ops).map (fun b => (b.s, b.raised)) =
      (tsRun boom (construct n q) (arriving (fun _ => n + 2) 0 ops)).map (fun s => (s, tooEarly (fun _ => n + 2) 0 ops)) := by
  simpa [buildStart] using ts_construct (boom := boom) ops (buildStart n q)

/-- **C73** (part).  The same for an ApproximateTimeSynchronizer, which is ready when the slop is set (statement `n + 3`), and for
messages without header one statement later.  Missing: messages that arrive after the lock was created and before the slop is
set, see `C73_construction_violated`. -/
theorem C73_construction_approx_partial (boom : Nat → Bool) (slop : Int) (allow : Bool) (q : Int) (ops : List (BOp n))
    (h : ∀ x ∈ during (n + 2) 0 ops, x.2.header = false) :
    (runE (approxBuild boom slop allow) (buildStart n q) ops).map (fun b => (b.s, b.raised)) =
      (approxRun boom slop allow (construct n q) (arriving (fun m => if m.header then n + 3 else n + 4) 0 ops)).map
        (fun s => (s, tooEarly (fun m => if m.header then n + 3 else n + 4) 0 ops)) := by
  simpa [buildStart] using approx_construct (boom := boom) (slop := slop) (allow := allow) ops (buildStart n q) h

/-- Two inputs.  One message too early, then the constructor completes, then a set. -/
example : ∃ b, runE (tsBuild noRaise) (buildStart 2 5)
      [.ctor, .deliver 0 ⟨⟨0, 10⟩, true⟩, .deliver 1 ⟨⟨1, 10⟩, true⟩, .ctor, .ctor, .ctor, .deliver 1 ⟨⟨2, 10⟩, true⟩,
        .deliver 0 ⟨⟨3, 10⟩, true⟩] = .ok b ∧
    b.raised = [(0, ⟨⟨0, 10⟩, true⟩)] ∧ b.s.out.map List.ofFn = [[⟨3, 10⟩, ⟨2, 10⟩]] := ⟨_, rfl, by decide, by decide⟩

example : ∃ b, runE (approxBuild noRaise 5 true) (buildStart 2 5)
      [.ctor, .deliver 0 ⟨⟨0, 10⟩, true⟩, .ctor, .ctor, .ctor, .deliver 0 ⟨⟨9, 10⟩, false⟩, .ctor,
        .deliver 1 ⟨⟨2, 10⟩, true⟩, .deliver 0 ⟨⟨3, 12⟩, true⟩] = .ok b ∧
    b.raised = [(0, ⟨⟨0, 10⟩, true⟩), (0, ⟨⟨9, 10⟩, false⟩)] ∧ b.s.out.map List.ofFn = [[⟨3, 12⟩, ⟨2, 10⟩]] :=
  ⟨_, rfl, by decide, by decide⟩

/-- **C73** is false for an ApproximateTimeSynchronizer: two messages that arrive after the lock was created and before the slop
is set.  The second one raises an exception while the lock is held.  The constructor completes, but every later message waits for
the lock forever. -/
theorem C73_construction_violated :
    ∃ b, runE (approxBuild noRaise 5 false) (buildStart 2 5)
        [.ctor, .ctor, .ctor, .ctor, .deliver 0 ⟨⟨0, 10⟩, true⟩, .deliver 1 ⟨⟨1, 10⟩, true⟩, .ctor, .ctor] = .ok b ∧
      b.s.out = [] ∧ ∀ i e, approxBuild noRaise 5 false b (.deliver i ⟨e, true⟩) = .error .hang := by
  refine ⟨_, rfl, rfl, ?_⟩
  intro i e
  have hi := i.2
  have h : ¬ (2 + 2 + 2 ≤ i.1) := by omega
  show approxBuild noRaise 5 false { stage := 6, s := _, raised := _ } (.deliver i ⟨e, true⟩) = _
  simp only [approxBuild]
  rw [if_neg (by omega)]
  rfl

/-- **C73** (what happens to the messages missing from `C73_construction_approx_partial`).  A message with header that arrives after the
lock was created and before the slop is set: it raises an exception exactly if the queue size is negative or the first of the other inputs
does not exist or already has a message, and then the lock stays locked; otherwise it is stored and the lock is free.  A negative
queue size also empties the queue of the input. -/
theorem C73_construction_window (boom : Nat → Bool) (slop : Int) (allow : Bool) (b : Build n) (hstage : b.stage = n + 2)
    (hl : b.s.locked = false) (i : Fin n) (hd : (b.s.queues i).keys.Nodup) (m : Msg) (hm : m.header = true) :
    ∃ b', approxBuild boom slop allow b (.deliver i m) = .ok b' ∧
      (b'.s.locked = true ↔ b.s.queueSize < 0 ∨ ∀ j, firstOther i = some j → b.s.queues j ≠ []) ∧
      b'.raised = (if b'.s.locked then b.raised ++ [(i, m)] else b.raised) ∧
      (0 ≤ b.s.queueSize → ∃ d, evict b.s.queueSize (((b.s.queues i).set m.ev.stamp m.ev).length + 1)
        ((b.s.queues i).set m.ev.stamp m.ev) = .ok (some d) ∧ b'.s.queues = upd b.s.queues i d) ∧
      (b.s.queueSize < 0 → b'.s.queues = upd b.s.queues i []) := by
  have hi := i.2
  unfold approxBuild
  dsimp only
  rw [if_neg (by omega), if_neg (by rw [hm]; simp), if_neg (by omega), if_pos (by omega), if_neg (by rw [hl]; simp)]
  obtain ⟨o, ho⟩ := evict_ok b.s.queueSize (((b.s.queues i).set m.ev.stamp m.ev).length + 1)
    ((b.s.queues i).set m.ev.stamp m.ev) (by omega)
  rw [ho]
  cases o with
  | none =>
    have hneg : b.s.queueSize < 0 := by
      rcases Int.lt_or_le b.s.queueSize 0 with h | h
      · exact h
      · exact absurd ho (evict_not_none h _ _)
    exact ⟨_, rfl, by simp [hneg], rfl, fun h => by omega, fun _ => rfl⟩
  | some d =>
    have hpos : 0 ≤ b.s.queueSize := by
      rcases Int.lt_or_le b.s.queueSize 0 with h | h
      · have := evict_negative h (((b.s.queues i).set m.ev.stamp m.ev).length + 1) _ (nodup_keys_set hd m.ev.stamp m.ev) (by omega)
        rw [ho] at this; cases this
      · exact h
    have hh := others_head (upd b.s.queues i d) i
    have hfo : ∀ j, firstOther i = some j → j ≠ i := by
      intro j hj
      have := List.find?_some hj
      simpa using this
    dsimp only
    cases hq : (List.ofFn (upd b.s.queues i d)).take i ++ (List.ofFn (upd b.s.queues i d)).drop (i + 1) with
    | nil =>
      rw [hq] at hh
      have hnone : firstOther i = none := by
        cases hf : firstOther i with
        | none => rfl
        | some j => rw [hf] at hh; cases hh
      exact ⟨_, rfl, by simp [hnone], rfl, fun _ => ⟨d, rfl, rfl⟩, fun h => by omega⟩
    | cons x tl =>
      rw [hq] at hh
      cases hf : firstOther i with
      | none => rw [hf] at hh; cases hh
      | some j =>
        rw [hf] at hh
        have hx : x = b.s.queues j := by
          have : some x = some (upd b.s.queues i d j) := hh
          rw [upd_ne _ _ (hfo j hf)] at this
          exact Option.some.inj this
        cases x with
        | nil =>
          refine ⟨_, rfl, ?_, by simp [hl], fun _ => ⟨d, rfl, rfl⟩, fun h => by omega⟩
          dsimp only
          rw [hl]
          constructor
          · intro h; cases h
          · rintro (h | h)
            · omega
            · exact absurd hx.symm (h j rfl)
        | cons y ys =>
          refine ⟨_, rfl, ?_, rfl, fun _ => ⟨d, rfl, rfl⟩, fun h => by omega⟩
          dsimp only
          refine ⟨fun _ => Or.inr ?_, fun _ => rfl⟩
          intro k hk
          cases hk
          rw [← hx]; simp

/-- **C73**.  After such an exception every later message with header waits for the lock forever. -/
theorem C73_construction_locked (boom : Nat → Bool) (slop : Int) (allow : Bool) (b : Build n) (hstage : n + 2 ≤ b.stage)
    (hl : b.s.locked = true) (i : Fin n) (m : Msg) (hm : m.header = true) :
    approxBuild boom slop allow b (.deliver i m) = .error .hang := by
  have hi := i.2
  unfold approxBuild
  dsimp only
  rw [if_neg (by omega), if_neg (by rw [hm]; simp), if_neg (by omega)]
  by_cases h3 : b.stage < n + 3
  · rw [if_pos h3, if_pos hl]
  · rw [if_neg h3]
    unfold approxAdd
    rw [if_neg (by rw [hm]; simp), if_pos hl]; rfl

/-- Three inputs, the lock exists, the slop does not: a message of input 0 is stored, one of input 2 raises since input 0 has a message,
one of input 0 (again) does not, since input 1 has none. -/
example : ∃ b, runE (approxBuild noRaise 5 false) (buildStart 3 5)
      [.ctor, .ctor, .ctor, .ctor, .ctor, .deliver 0 ⟨⟨0, 10⟩, true⟩, .deliver 0 ⟨⟨1, 20⟩, true⟩] = .ok b ∧
    b.stage = 3 + 2 ∧ b.s.locked = false ∧ b.raised = [] ∧
    ∃ b', approxBuild noRaise 5 false b (.deliver 2 ⟨⟨2, 20⟩, true⟩) = .ok b' ∧ b'.s.locked = true :=
  ⟨_, rfl, rfl, rfl, rfl, _, rfl, rfl⟩

/-! ### Connecting new inputs -/

/-- **C73**.  After `connectInput` was called again, messages of the replaced inputs (with headers) have no influence on a
TimeSynchronizer, although their callbacks are still registered: what it holds, outputs and raises is as if they had not come. -/
theorem C73_replaced_inputs_ts [NeZero n] (boom : Nat → Bool) (q : Int) (hq : 0 ≤ q) (ops : List (ROp n)) (r : RState n)
    (hh : ∀ m ∈ fromReplaced 0 ops, m.header = true) (h : runE (tsRStep boom) (rStart n q) ops = .ok r) :
    ∃ r', runE (tsRStep boom) (rStart n q) (onlyCurrent 0 ops) = .ok r' ∧ r'.s = r.s := by
  obtain ⟨r', h1, h2, _⟩ := ts_reconnect hq ops (rStart n q) (rStart n q) r
    ⟨Inv.construct q, rfl, fun _ _ => DOk.nil⟩ rfl rfl hh h
  exact ⟨r', h1, h2⟩

/-- **C73**.  The same for an ApproximateTimeSynchronizer, also for messages without header. -/
theorem C73_replaced_inputs_approx [NeZero n] (boom : Nat → Bool) (slop : Int) (allow : Bool) (q : Int) (hq : 0 ≤ q)
    (ops : List (ROp n)) (r : RState n) (h : runE (approxRStep boom slop allow) (rStart n q) ops = .ok r) :
    ∃ r', runE (approxRStep boom slop allow) (rStart n q) (onlyCurrent 0 ops) = .ok r' ∧ r'.s = r.s := by
  obtain ⟨r', h1, h2, _⟩ := approx_reconnect hq ops (rStart n q) (rStart n q) r
    ⟨InvA.construct slop q, rfl, fun _ _ => DOk.nil⟩ rfl rfl h
  exact ⟨r', h1, h2⟩

/-- **C73**.  A TimeSynchronizer that is connected to new inputs behaves like a new one: after any history `a`, `connectInput`, and
any messages of old and new inputs, what it holds is what a new synchronizer would hold that was given the messages of the new
inputs only, and what it has output since is what that one would output. -/
theorem C73_reconnect_ts [NeZero n] (boom : Nat → Bool) (q : Int) (hq : 0 ≤ q) (a b : List (ROp n)) (r1 r2 : RState n)
    (h1 : runE (tsRStep boom) (rStart n q) a = .ok r1) (hl : r1.s.locked = false)
    (hb : ∀ op ∈ b, op ≠ .reconnect) (hh : ∀ m ∈ fromReplaced (r1.gen + 1) b, m.header = true)
    (h2 : runE (tsRStep boom) r1 (.reconnect :: b) = .ok r2) :
    ∃ s, tsRun (fun k => boom (r1.s.out.length + k)) (construct n q) (messagesOf (r1.gen + 1) b) = .ok s ∧
      held r2.s = held s ∧ r2.s.out = r1.s.out ++ s.out ∧ r2.s.locked = s.locked := by
  have hinv : RInv q r1 := runE_inv (I := RInv q) (fun r op r' h hs => tsRStep_inv h hs) a _ _
    ⟨Inv.construct q, rfl, fun _ _ => DOk.nil⟩ h1
  simp only [runE, tsRStep] at h2
  obtain ⟨rf', k1, k2, k3⟩ := ts_reconnect hq b (reconnect r1) (reconnect r1) r2 (reconnect_inv hinv) rfl rfl hh h2
  have k4 := ts_after_reconnect boom r1.s.out b (reconnect r1) (construct n q) hb (by
    show ({ r1.s with queues := fun _ => [] } : State n) = _
    unfold withOut construct
    rw [← hinv.size, ← hl]
    simp)
  rw [k1] at k4
  cases hs : tsRun (fun k => boom (r1.s.out.length + k)) (construct n q) (messagesOf (r1.gen + 1) b) with
  | error f =>
    have hg : (reconnect r1).gen = r1.gen + 1 := rfl
    rw [hg, hs] at k4; cases k4
  | ok s =>
    have hg : (reconnect r1).gen = r1.gen + 1 := rfl
    rw [hg, hs] at k4
    have k5 : rf'.s = withOut r1.s.out s := Except.ok.inj k4
    rw [k2] at k5
    exact ⟨s, rfl, by rw [k5]; rfl, by rw [k5]; rfl, by rw [k5]; rfl⟩

/-- **C73**.  The same for an ApproximateTimeSynchronizer. -/
theorem C73_reconnect_approx [NeZero n] (boom : Nat → Bool) (slop : Int) (allow : Bool) (q : Int) (hq : 0 ≤ q)
    (a b : List (ROp n)) (r1 r2 : RState n)
    (h1 : runE (approxRStep boom slop allow) (rStart n q) a = .ok r1) (hl : r1.s.locked = false)
    (hb : ∀ op ∈ b, op ≠ .reconnect) (h2 : runE (approxRStep boom slop allow) r1 (.reconnect :: b) = .ok r2) :
    ∃ s, approxRun (fun k => boom (r1.s.out.length + k)) slop allow (construct n q) (messagesOf (r1.gen + 1) b) = .ok s ∧
      held r2.s = held s ∧ r2.s.out = r1.s.out ++ s.out ∧ r2.s.locked = s.locked := by
  have hinv : RInvA slop q r1 := runE_inv (I := RInvA slop q) (fun r op r' h hs => approxRStep_inv hq h hs) a _ _
    ⟨InvA.construct slop q, rfl, fun _ _ => DOk.nil⟩ h1
  simp only [runE, approxRStep] at h2
  obtain ⟨rf', k1, k2, k3⟩ := approx_reconnect hq b (reconnect r1) (reconnect r1) r2 (reconnect_invA hinv) rfl rfl h2
  have k4 := approx_after_reconnect boom slop allow r1.s.out b (reconnect r1) (construct n q) hb (by
    show ({ r1.s with queues := fun _ => [] } : State n) = _
    unfold withOut construct
    rw [← hinv.size, ← hl]
    simp)
  rw [k1] at k4
  cases hs : approxRun (fun k => boom (r1.s.out.length + k)) slop allow (construct n q) (messagesOf (r1.gen + 1) b) with
  | error f =>
    have hg : (reconnect r1).gen = r1.gen + 1 := rfl
    rw [hg, hs] at k4; cases k4
  | ok s =>
    have hg : (reconnect r1).gen = r1.gen + 1 := rfl
    rw [hg, hs] at k4
    have k5 : rf'.s = withOut r1.s.out s := Except.ok.inj k4
    rw [k2] at k5
    exact ⟨s, rfl, by rw [k5]; rfl, by rw [k5]; rfl, by rw [k5]; rfl⟩

/-- Input 0 of the old generation would complete a set with the message of the new input 1; it does not. -/
example : ∃ r, runE (tsRStep noRaise) (rStart 2 5)
      [.deliver 0 0 ⟨⟨0, 10⟩, true⟩, .reconnect, .deliver 1 1 ⟨⟨1, 10⟩, true⟩, .deliver 0 0 ⟨⟨2, 10⟩, true⟩,
        .deliver 1 0 ⟨⟨3, 10⟩, true⟩] = .ok r ∧
    r.s.out.map List.ofFn = [[⟨3, 10⟩, ⟨1, 10⟩]] := ⟨_, rfl, by decide⟩

example : ∃ r, runE (approxRStep noRaise 5 true) (rStart 2 5)
      [.deliver 0 0 ⟨⟨0, 10⟩, true⟩, .reconnect, .deliver 1 1 ⟨⟨1, 10⟩, true⟩, .deliver 0 0 ⟨⟨2, 11⟩, false⟩,
        .deliver 1 0 ⟨⟨3, 12⟩, true⟩] = .ok r ∧
    r.s.out.map List.ofFn = [[⟨3, 12⟩, ⟨1, 10⟩]] := ⟨_, rfl, by decide⟩

end MF.Py

namespace MF.PyCache

/-- **C73**.  A Cache whose input already delivers while its constructor runs ends up as if only the messages had come that arrive
after `cache_times` exists (statement 4), those without header one statement later. -/
theorem C73_construction_cache (k : Int) (al : Bool) (ops : List BOp) :
    (ops.foldl build (buildStart k al)).s =
      run (construct k al) (arriving (fun m => if m.stamp = none then 5 else 4) 0 ops) :=
  cache_construct ops (buildStart k al)

example : ([.ctor, .deliver ⟨0, some ⟨.ros, 3⟩⟩ 0, .ctor, .ctor, .ctor, .deliver ⟨1, some ⟨.ros, 4⟩⟩ 0, .deliver ⟨2, none⟩ 7, .ctor,
    .deliver ⟨3, none⟩ 8].foldl build (buildStart 5 true)).s.msgs.map (·.id) = [1, 3] := by decide

end MF.PyCache
