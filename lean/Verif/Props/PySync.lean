import Verif.Proofs.PyStep
/-
Properties of the Python synchronizers.
-/
namespace MF.Py

variable {n : Nat}

/-! ### TimeSynchronizer -/

/-- **C63**.  Every set given to the callbacks of a TimeSynchronizer has one message of each input, received on that input with
a header, and all stamps are equal; whatever the history, the queue size and the exceptions raised by callbacks. -/
theorem C63_complete_sets [NeZero n] (boom : Nat → Bool) (q : Int) (ops : List (Fin n × Msg)) (s : State n)
    (h : tsRun boom (construct n q) ops = .ok s) (t : Fin n → Ev) (ht : t ∈ s.out) :
    (∀ i, (i, (⟨t i, true⟩ : Msg)) ∈ ops) ∧ ∀ i j, (t i).stamp = (t j).stamp :=
  (ts_from ops s h).2 t ht

/-- **C63**.  A message is given to the callbacks at most as often as it was received on the input in question. -/
theorem C63_each_once [NeZero n] (boom : Nat → Bool) (q : Int) (ops : List (Fin n × Msg)) (s : State n)
    (h : tsRun boom (construct n q) ops = .ok s) (j : Fin n) (e : Ev) :
    (s.out.map (· j)).count e ≤ ops.count (j, ⟨e, true⟩) :=
  (ts_count ops s h j e).1

example : ∃ s, tsRun noRaise (construct 2 5)
      (withHeaders [(0, ⟨0, 10⟩), (0, ⟨1, 20⟩), (1, ⟨2, 20⟩), (1, ⟨3, 10⟩), (1, ⟨4, 10⟩)]) = .ok s ∧
    s.out.map List.ofFn = [[⟨1, 20⟩, ⟨2, 20⟩], [⟨0, 10⟩, ⟨3, 10⟩]] := ⟨_, rfl, by decide⟩

/-- **C64**.  A TimeSynchronizer holds at most `queue_size` messages of each input, all with different stamps. -/
theorem C64_bounded [NeZero n] (boom : Nat → Bool) (q : Int) (hq : 0 ≤ q) (ops : List (Fin n × Msg)) (s : State n)
    (h : tsRun boom (construct n q) ops = .ok s) (j : Fin n) :
    ((held s j).length : Int) ≤ q ∧ DistinctStamps (held s j) := by
  obtain ⟨_, hinv, hqs⟩ := tsRun_induction (P := fun _ _ => True) trivial (fun _ _ _ _ _ _ _ _ _ _ _ => trivial) ops s h
  refine ⟨?_, ?_⟩
  · rcases hinv.bound with hb | hb
    · omega
    · rw [← hqs]; simpa [held] using hb j
  · unfold DistinctStamps held
    rw [List.map_map]
    have : (s.queues j).map ((fun x => x.stamp) ∘ fun x => x.2) = (s.queues j).keys :=
      List.map_congr_left (fun p hp => (hinv.ok j).stamp p hp)
    rw [this]
    exact (hinv.ok j).nodup

/-- **C64**.  A call of `add` that returns outputs at most one set, and the added message is in it. -/
theorem C64_at_most_one_set [NeZero n] (boom : Nat → Bool) (q : Int) (ops : List (Fin n × Msg)) (s : State n)
    (h : tsRun boom (construct n q) ops = .ok s) (i : Fin n) (m : Msg) (s' : State n)
    (hs : tsAdd boom s i m = .ok (s', false)) :
    s'.out = s.out ∨ ∃ t, s'.out = s.out ++ [t] ∧ t i = m.ev := by
  obtain ⟨_, hinv, hqs⟩ := tsRun_induction (P := fun _ _ => True) trivial (fun _ _ _ _ _ _ _ _ _ _ _ => trivial) ops s h
  obtain ⟨hl, ⟨_, rfl, h1⟩ | ⟨_, hq, rfl, h1⟩ | ⟨hh, hq, d', hE, ⟨hc, rfl, _⟩ | ⟨msgs, hg, ⟨_, h1, _⟩ | ⟨_, _, rfl⟩⟩⟩⟩ :=
    tsAdd_cases boom s hinv i m s' false hs
  · cases h1
  · cases h1
  · exact Or.inl rfl
  · cases h1
  · right
    refine ⟨msgs, rfl, ?_⟩
    have h1 := hg i
    rw [upd_same] at h1
    have hdk := hE.dok (hinv.ok i)
    rcases mem_set.mp (hE.sub.subset ((get_some hdk.nodup).mp h1)) with h2 | h2
    · exact (Prod.mk.inj h2).2
    · exact absurd rfl h2.2

/-- **C64**.  What a call of `add` that returns does to the messages held.  Nothing but the new message is added.  A message that
was held, or is new, is still held unless it is in the set output by this call; or it has the stamp of the new message, which
replaces it; or the queue of the new message was full and the message is older than all that are still held there. -/
theorem C64_evicts_oldest [NeZero n] (boom : Nat → Bool) (q : Int) (ops : List (Fin n × Msg)) (s : State n)
    (h : tsRun boom (construct n q) ops = .ok s) (i : Fin n) (m : Msg) (s' : State n)
    (hs : tsAdd boom s i m = .ok (s', false)) (j : Fin n) (x : Ev) :
    (x ∈ held s' j → x ∈ held s j ∨ (j = i ∧ x = m.ev)) ∧
    ((x ∈ held s j ∨ (j = i ∧ x = m.ev)) → x ∉ held s' j →
      (∃ t, s'.out = s.out ++ [t] ∧ t j = x) ∨
      (j = i ∧ x ≠ m.ev ∧ x.stamp = m.ev.stamp) ∨
      (j = i ∧ (∀ y ∈ held s' i, x.stamp < y.stamp) ∧ ((held s i).length : Int) = q)) ∧
    (∀ t, s'.out = s.out ++ [t] → t j ∉ held s' j) := by
  obtain ⟨_, hinv, hqs⟩ := tsRun_induction (P := fun _ _ => True) trivial (fun _ _ _ _ _ _ _ _ _ _ _ => trivial) ops s h
  obtain ⟨hl, ⟨_, rfl, h1⟩ | ⟨_, hq, rfl, h1⟩ | ⟨hh, hq, d', hE, ⟨hc, rfl, _⟩ | ⟨msgs, hg, ⟨_, h1, _⟩ | ⟨_, _, rfl⟩⟩⟩⟩ :=
    tsAdd_cases boom s hinv i m s' false hs
  · cases h1
  · cases h1
  · have hb : ∀ j, ((s.queues j).length : Int) ≤ s.queueSize := by
      rcases hinv.bound with hb | hb
      · omega
      · exact hb
    obtain ⟨h1, h2⟩ := insert_account hinv.ok hb hE
    rw [hqs] at h2
    exact ⟨h1 j x, fun h3 h4 => Or.inr (h2 j x h3 h4), fun t ht => by simp at ht⟩
  · cases h1
  · have hb : ∀ j, ((s.queues j).length : Int) ≤ s.queueSize := by
      rcases hinv.bound with hb | hb
      · omega
      · exact hb
    obtain ⟨h1, h2, h3⟩ := output_account hinv.ok hb hE (f := fun _ => m.ev.stamp) hg
    rw [hqs] at h2
    refine ⟨h1 j x, fun h4 h5 => ?_, fun t ht => ?_⟩
    · rcases h2 j x h4 h5 with h6 | h6
      · exact Or.inl ⟨msgs, rfl, h6.symm⟩
      · exact Or.inr h6
    · have : t = msgs := by
        have h7 := List.append_cancel_left ht
        simp only [List.cons.injEq, and_true] at h7
        exact h7.symm
      subst this
      exact h3 j

/-- **C64**.  As long as every call returned, no complete set is left waiting: there are no messages with the same stamp in the
queues of all inputs. -/
theorem C64_nothing_withheld [NeZero n] (boom : Nat → Bool) (q : Int) (ops : List (Fin n × Msg)) (s : State n)
    (h : tsRun boom (construct n q) ops = .ok s) (hl : s.locked = false) :
    ¬ ∃ t : Fin n → Ev, (∀ j, t j ∈ held s j) ∧ ∀ a b, (t a).stamp = (t b).stamp := by
  obtain ⟨_, hinv, hqs⟩ := tsRun_induction (P := fun _ _ => True) trivial (fun _ _ _ _ _ _ _ _ _ _ _ => trivial) ops s h
  rintro ⟨t, h1, h2⟩
  apply hinv.quiet hl (t ⟨0, Nat.pos_of_ne_zero (NeZero.ne n)⟩).stamp
  intro j
  rw [h2 _ j]
  exact mem_keys.mpr ⟨_, (mem_vals (hinv.ok j)).mp (h1 j)⟩

example : ∃ s, tsRun noRaise (construct 2 2) (withHeaders [(0, ⟨0, 10⟩), (0, ⟨1, 30⟩), (0, ⟨2, 20⟩), (1, ⟨3, 10⟩)]) = .ok s ∧
    s.locked = false ∧ List.ofFn (held s) = [[⟨1, 30⟩, ⟨2, 20⟩], [⟨3, 10⟩]] ∧ s.out.length = 0 := ⟨_, rfl, rfl, by decide, rfl⟩

/-- **C65**.  If the queues are large enough and the messages of one input have different stamps, then every call returns and the
sets output are exactly the sets of messages, one of each input, with the same stamp; none is output twice.  The inputs may
deliver in any order. -/
theorem C65_finds_all_sets [NeZero n] (q : Int) (ops : List (Fin n × Ev)) (hq : ∀ i, ((stream ops i).length : Int) ≤ q)
    (hd : ∀ i, DistinctStamps (stream ops i)) :
    ∃ s, tsRun noRaise (construct n q) (withHeaders ops) = .ok s ∧ (∀ t, t ∈ s.out ↔ ExactSet ops t) ∧
      (s.out.map stampOf).Nodup := by
  obtain ⟨s, h1, _, _, _, h2, _⟩ := ts_full q ops hq hd
  exact ⟨s, h1, h2.out, h2.nodup⟩

theorem nodup_of_map {α β : Type} (f : α → β) {l : List α} (h : (l.map f).Nodup) : l.Nodup := by
  induction l with
  | nil => simp
  | cons a l ih =>
    simp only [List.map_cons, List.nodup_cons] at h ⊢
    exact ⟨fun ha => h.1 (List.mem_map.mpr ⟨a, ha, rfl⟩), ih h.2⟩

/-- **C65**.  Two histories that deliver the same messages on each input, interleaved differently, output the same sets,
possibly in a different order; if each input delivers in time order, the order is the same too. -/
theorem C65_interleaving [NeZero n] (q : Int) (ops ops' : List (Fin n × Ev)) (hsame : SameStreams ops ops')
    (hq : ∀ i, ((stream ops i).length : Int) ≤ q) (hd : ∀ i, DistinctStamps (stream ops i)) :
    ∃ s s', tsRun noRaise (construct n q) (withHeaders ops) = .ok s ∧ tsRun noRaise (construct n q) (withHeaders ops') = .ok s' ∧
      s.out.Perm s'.out ∧ ((∀ i, StrictlyTimeSorted (stream ops i)) → s.out = s'.out) := by
  obtain ⟨s, h1, _, _, _, h2, h3⟩ := ts_full q ops hq hd
  obtain ⟨s', h1', _, _, _, h2', h3'⟩ := ts_full q ops' (fun i => by rw [← hsame i]; exact hq i)
    (fun i => by rw [← hsame i]; exact hd i)
  have hmem : ∀ t, t ∈ s.out ↔ t ∈ s'.out := by
    intro t
    rw [h2.out, h2'.out]
    unfold ExactSet
    constructor
    · rintro ⟨a, b⟩; exact ⟨fun i => by rw [← hsame i]; exact a i, b⟩
    · rintro ⟨a, b⟩; exact ⟨fun i => by rw [hsame i]; exact a i, b⟩
  refine ⟨s, s', h1, h1', ?_, ?_⟩
  · exact (List.perm_ext_iff_of_nodup (nodup_of_map _ h2.nodup) (nodup_of_map _ h2'.nodup)).mpr hmem
  · intro hso
    have p1 := List.pairwise_map.mp (h3 hso)
    have p2 := List.pairwise_map.mp (h3' (fun i => by rw [← hsame i]; exact hso i))
    exact pairwise_ext (R := fun a b : Fin n → Ev => stampOf a < stampOf b) (fun a b h1 h2 => by omega) p1 p2 hmem

/-- **C65**.  If each input delivers in time order, so does the synchronizer. -/
theorem C65_time_order [NeZero n] (q : Int) (ops : List (Fin n × Ev)) (hq : ∀ i, ((stream ops i).length : Int) ≤ q)
    (hso : ∀ i, StrictlyTimeSorted (stream ops i)) :
    ∃ s, tsRun noRaise (construct n q) (withHeaders ops) = .ok s ∧ (s.out.map stampOf).Pairwise (· < ·) := by
  obtain ⟨s, h1, _, _, _, _, h3⟩ := ts_full q ops hq (fun i => by
    unfold DistinctStamps List.Nodup
    rw [List.pairwise_map]
    exact (hso i).imp (fun h => by omega))
  exact ⟨s, h1, h3 hso⟩

example : let ops : List (Fin 2 × Ev) := [(0, ⟨0, 1⟩), (0, ⟨1, 2⟩), (1, ⟨2, 2⟩), (1, ⟨3, 3⟩), (0, ⟨4, 3⟩)]
    (∀ i, ((stream ops i).length : Int) ≤ 3) ∧ (∀ i, StrictlyTimeSorted (stream ops i)) ∧
    ∃ s, tsRun noRaise (construct 2 3) (withHeaders ops) = .ok s ∧ s.out.map stampOf = [2, 3] := by
  refine ⟨by decide, ?_, _, rfl, by decide⟩
  intro i
  match i with
  | 0 => simp [StrictlyTimeSorted, stream]
  | 1 => simp [StrictlyTimeSorted, stream]

/-- **C66**.  Without exceptions of callbacks, with headers and a queue size that is not negative, every call returns. -/
theorem C66_always_returns_partial [NeZero n] (q : Int) (hq : 0 ≤ q) (ops : List (Fin n × Ev)) :
    ∃ s, tsRun noRaise (construct n q) (withHeaders ops) = .ok s ∧ s.locked = false := by
  suffices h : ∃ s, tsRun noRaise (construct n q) (withHeaders ops) = .ok s ∧ s.locked = false ∧ Inv s ∧ s.queueSize = q by
    obtain ⟨s, h1, h2, _⟩ := h
    exact ⟨s, h1, h2⟩
  induction ops using snoc_induction with
  | h0 => exact ⟨_, rfl, rfl, Inv.construct q, rfl⟩
  | hs ops op ih =>
    obtain ⟨s, h1, h2, h3, h4⟩ := ih
    have hstep : ∃ s', tsAdd noRaise s op.1 ⟨op.2, true⟩ = .ok (s', false) := by
      obtain ⟨d', _, ⟨_, h⟩ | ⟨msgs, _, h⟩⟩ := tsAdd_spec noRaise s h3 (by omega) h2 op.1 op.2
      · exact ⟨_, h⟩
      · simp only [noRaise, Bool.false_eq_true, ↓reduceIte] at h
        exact ⟨_, h⟩
    obtain ⟨s', h5⟩ := hstep
    obtain ⟨k1, k2, k3⟩ := tsAdd_inv _ _ h3 _ _ _ _ h5
    refine ⟨s', ?_, k3, k1, k2.trans h4⟩
    unfold tsRun withHeaders at *
    rw [List.map_append, runE_append, h1]
    simp only [List.map_cons, List.map_nil, runE, h5]
    rfl

/-- **C66** (disagreement).  After a call of `add` that raised an exception, every later call of `add`, on any input, blocks
forever: the lock is never released. -/
theorem C66_exception_blocks_forever [NeZero n] (boom : Nat → Bool) (q : Int) (ops : List (Fin n × Msg)) (s : State n)
    (h : tsRun boom (construct n q) ops = .ok s) (i : Fin n) (m : Msg) (s' : State n)
    (hs : tsAdd boom s i m = .ok (s', true)) (boom' : Nat → Bool) (j : Fin n) (m' : Msg) :
    tsAdd boom' s' j m' = .error .hang := by
  obtain ⟨_, hinv, _⟩ := tsRun_induction (P := fun _ _ => True) trivial (fun _ _ _ _ _ _ _ _ _ _ _ => trivial) ops s h
  have := (tsAdd_inv boom s hinv i m s' true hs).2.2
  unfold tsAdd
  rw [if_pos this]

/-- **C66** (disagreement).  Which calls raise: those with a message without header, all calls if the queue size is negative, and
those that complete a set whose callback raises. -/
theorem C66_raises_iff [NeZero n] (boom : Nat → Bool) (q : Int) (ops : List (Fin n × Msg)) (s : State n)
    (h : tsRun boom (construct n q) ops = .ok s) (i : Fin n) (m : Msg) (s' : State n) (r : Bool)
    (hs : tsAdd boom s i m = .ok (s', r)) :
    r = true ↔ (m.header = false ∨ q < 0 ∨ ∃ t, s'.out = s.out ++ [t] ∧ boom s.out.length = true) := by
  obtain ⟨_, hinv, hqs⟩ := tsRun_induction (P := fun _ _ => True) trivial (fun _ _ _ _ _ _ _ _ _ _ _ => trivial) ops s h
  obtain ⟨hl, ⟨hh, rfl, rfl⟩ | ⟨hh, hq, rfl, rfl⟩ | ⟨hh, hq, d', hE, ⟨hc, rfl, rfl⟩ | ⟨msgs, hg, ⟨hb, rfl, rfl⟩ | ⟨hb, rfl, rfl⟩⟩⟩⟩ :=
    tsAdd_cases boom s hinv i m s' r hs
  · simp [hh]
  · simp [hqs ▸ hq]
  · rw [hqs] at hq
    simp only [Bool.false_eq_true, hh, Bool.true_eq_false, false_or, false_iff]
    rintro (h1 | ⟨t, ht, _⟩)
    · omega
    · simp at ht
  · simp [hb]
  · rw [hqs] at hq
    simp only [Bool.false_eq_true, hh, Bool.true_eq_false, false_or, false_iff, hb]
    rintro (h1 | ⟨t, ht, h2⟩)
    · omega
    · exact h2

/-- **C66** (disagreement).  A concrete case: one message without a header, and no set is ever output again. -/
theorem C66_headerless_message_disables (q : Int) :
    tsRun noRaise (construct 2 q) [(0, ⟨⟨0, 0⟩, false⟩), (0, ⟨⟨1, 5⟩, true⟩)] = .error .hang := rfl

/-- **C66** (disagreement).  A concrete case: the first callback raises, and the next message blocks its thread. -/
theorem C66_raising_callback_disables :
    tsRun (fun k => k == 0) (construct 2 5) (withHeaders [(0, ⟨0, 1⟩), (1, ⟨1, 1⟩), (0, ⟨2, 2⟩)]) = .error .hang := by rfl

/-- **C66** (disagreement, ApproximateTimeSynchronizer).  After a call that raised every later call with a usable message blocks
forever. -/
theorem C66_approximate_exception_blocks_forever [NeZero n] (boom : Nat → Bool) (slop q : Int) (allow : Bool)
    (ops : List (Fin n × Msg)) (s : State n) (h : approxRun boom slop allow (construct n q) ops = .ok s) (i : Fin n) (m : Msg)
    (s' : State n) (hs : approxAdd boom slop allow s i m = .ok (s', true)) (boom' : Nat → Bool) (j : Fin n) (m' : Msg)
    (hm : m'.header = true ∨ allow = true) : approxAdd boom' slop allow s' j m' = .error .hang := by
  obtain ⟨_, hinv, _⟩ := approxRun_induction (P := fun _ _ => True) trivial (fun _ _ _ _ _ _ _ _ _ _ _ => trivial) ops s h
  have := (approxAdd_inv boom slop allow s hinv i m s' true hs).2.2.1 rfl
  unfold approxAdd
  rw [if_neg (by rcases hm with h | h <;> simp [h]), if_pos this]

/-- **C66** (ApproximateTimeSynchronizer).  Without exceptions of callbacks and with a queue size that is not negative every call
returns, also for messages without header. -/
theorem C66_approximate_always_returns_partial [NeZero n] (slop q : Int) (allow : Bool) (hq : 0 ≤ q) (ops : List (Fin n × Msg)) :
    ∃ s, approxRun noRaise slop allow (construct n q) ops = .ok s ∧ s.locked = false := by
  suffices h : ∃ s, approxRun noRaise slop allow (construct n q) ops = .ok s ∧ s.locked = false ∧ InvA slop s ∧ s.queueSize = q by
    obtain ⟨s, h1, h2, _⟩ := h
    exact ⟨s, h1, h2⟩
  induction ops using snoc_induction with
  | h0 => exact ⟨_, rfl, rfl, InvA.construct slop q, rfl⟩
  | hs ops op ih =>
    obtain ⟨s, h1, h2, h3, h4⟩ := ih
    have hstep : ∃ p, approxAdd noRaise slop allow s op.1 op.2 = .ok p := by
      unfold approxAdd
      split
      · exact ⟨_, rfl⟩
      · rw [if_neg (by simp [h2])]
        obtain ⟨d', hev, _⟩ := evict_spec (by omega : 0 ≤ s.queueSize) (((s.queues op.1).set op.2.ev.stamp op.2.ev).length + 1) _
          ((h3.ok op.1).set op.2.ev).nodup (by omega)
        simp only [hev]
        split
        · exact ⟨_, rfl⟩
        · exact ⟨_, rfl⟩
    obtain ⟨⟨s', r⟩, h5⟩ := hstep
    obtain ⟨k1, k2, k3, k4⟩ := approxAdd_inv _ _ _ _ h3 _ _ _ _ h5
    have hr : r = false := by
      obtain ⟨_, _, rfl, rfl⟩ | ⟨_, hl, ⟨hq', rfl, rfl⟩ | ⟨_, d', hE, ⟨hn, rfl, rfl⟩ | ⟨f, msgs, hf, hm, hg, _, ⟨hb, rfl, rfl⟩ | ⟨_, rfl, rfl⟩⟩⟩⟩ :=
        approxAdd_cases _ _ _ s h3.ok _ _ s' r h5
      · rfl
      · omega
      · rfl
      · cases hb
      · rfl
    refine ⟨s', ?_, (k4 hr).trans h2, k1, k2.trans h4⟩
    unfold approxRun at *
    rw [runE_append, h1]
    simp only [runE, h5]
    rfl

/-! ### ApproximateTimeSynchronizer -/

/-- **C67**.  Every set given to the callbacks of an ApproximateTimeSynchronizer has one message of each input, received on that
input, and any two of its stamps differ by less than the slop. -/
theorem C67_complete_sets [NeZero n] (boom : Nat → Bool) (slop q : Int) (allow : Bool) (ops : List (Fin n × Msg)) (s : State n)
    (h : approxRun boom slop allow (construct n q) ops = .ok s) (t : Fin n → Ev) (ht : t ∈ s.out) :
    (∀ i, (i, t i) ∈ accepted allow ops) ∧ ∀ i j, (t i).stamp - (t j).stamp < slop :=
  (approx_from ops s h).2 t ht

/-- **C67**.  A message is given to the callbacks at most as often as it was received. -/
theorem C67_each_once [NeZero n] (boom : Nat → Bool) (slop q : Int) (allow : Bool) (ops : List (Fin n × Msg)) (s : State n)
    (h : approxRun boom slop allow (construct n q) ops = .ok s) (j : Fin n) (e : Ev) :
    (s.out.map (· j)).count e ≤ (accepted allow ops).count (j, e) :=
  (approx_count ops s h j e).1

/-- **C67**.  At most `queue_size` messages of each input are held. -/
theorem C67_bounded [NeZero n] (boom : Nat → Bool) (slop q : Int) (allow : Bool) (hq : 0 ≤ q) (ops : List (Fin n × Msg)) (s : State n)
    (h : approxRun boom slop allow (construct n q) ops = .ok s) (j : Fin n) : ((held s j).length : Int) ≤ q := by
  obtain ⟨_, hinv, hqs⟩ := approxRun_induction (P := fun _ _ => True) trivial (fun _ _ _ _ _ _ _ _ _ _ _ => trivial) ops s h
  rcases hinv.bound with hb | hb
  · omega
  · rw [← hqs]; simpa [held] using hb j

/-- **C67**.  A call of `add` that returns outputs at most one set, and the added message is in it. -/
theorem C67_at_most_one_set [NeZero n] (boom : Nat → Bool) (slop q : Int) (allow : Bool) (ops : List (Fin n × Msg)) (s : State n)
    (h : approxRun boom slop allow (construct n q) ops = .ok s) (i : Fin n) (m : Msg) (s' : State n)
    (hs : approxAdd boom slop allow s i m = .ok (s', false)) :
    s'.out = s.out ∨ ∃ t, s'.out = s.out ++ [t] ∧ t i = m.ev := by
  obtain ⟨_, hinv, hqs⟩ := approxRun_induction (P := fun _ _ => True) trivial (fun _ _ _ _ _ _ _ _ _ _ _ => trivial) ops s h
  obtain ⟨_, _, rfl, _⟩ | ⟨_, hl, ⟨hq, rfl, h1⟩ | ⟨hq, d', hE, ⟨hn, rfl, _⟩ | ⟨f, msgs, hf, hm, hg, _, ⟨_, h1, _⟩ | ⟨_, _, rfl⟩⟩⟩⟩ :=
    approxAdd_cases boom slop allow s hinv.ok i m s' false hs
  · exact Or.inl rfl
  · cases h1
  · exact Or.inl rfl
  · cases h1
  · right
    refine ⟨msgs, rfl, ?_⟩
    have h1 := hg i
    rw [upd_same, hf] at h1
    have hdk := hE.dok (hinv.ok i)
    rcases mem_set.mp (hE.sub.subset ((get_some hdk.nodup).mp h1)) with h2 | h2
    · exact (Prod.mk.inj h2).2
    · exact absurd rfl h2.2

/-- **C67**.  What a call of `add` that returns, with a usable message, does to the messages held; read as `C64_evicts_oldest`. -/
theorem C67_evicts_oldest [NeZero n] (boom : Nat → Bool) (slop q : Int) (allow : Bool) (ops : List (Fin n × Msg)) (s : State n)
    (h : approxRun boom slop allow (construct n q) ops = .ok s) (i : Fin n) (m : Msg) (hu : (m.header || allow) = true)
    (s' : State n) (hs : approxAdd boom slop allow s i m = .ok (s', false)) (j : Fin n) (x : Ev) :
    (x ∈ held s' j → x ∈ held s j ∨ (j = i ∧ x = m.ev)) ∧
    ((x ∈ held s j ∨ (j = i ∧ x = m.ev)) → x ∉ held s' j →
      (∃ t, s'.out = s.out ++ [t] ∧ t j = x) ∨
      (j = i ∧ x ≠ m.ev ∧ x.stamp = m.ev.stamp) ∨
      (j = i ∧ (∀ y ∈ held s' i, x.stamp < y.stamp) ∧ ((held s i).length : Int) = q)) ∧
    (∀ t, s'.out = s.out ++ [t] → t j ∉ held s' j) := by
  obtain ⟨_, hinv, hqs⟩ := approxRun_induction (P := fun _ _ => True) trivial (fun _ _ _ _ _ _ _ _ _ _ _ => trivial) ops s h
  obtain ⟨h1, h2, _⟩ | ⟨_, hl, ⟨hq, rfl, h1⟩ | ⟨hq, d', hE, ⟨hn, rfl, _⟩ | ⟨f, msgs, hf, hm, hg, _, ⟨_, h1, _⟩ | ⟨_, _, rfl⟩⟩⟩⟩ :=
    approxAdd_cases boom slop allow s hinv.ok i m s' false hs
  · rw [h1, h2] at hu; cases hu
  · cases h1
  · have hb : ∀ j, ((s.queues j).length : Int) ≤ s.queueSize := by
      rcases hinv.bound with hb | hb
      · omega
      · exact hb
    obtain ⟨h1, h2⟩ := insert_account hinv.ok hb hE
    rw [hqs] at h2
    exact ⟨h1 j x, fun h3 h4 => Or.inr (h2 j x h3 h4), fun t ht => by simp at ht⟩
  · cases h1
  · have hb : ∀ j, ((s.queues j).length : Int) ≤ s.queueSize := by
      rcases hinv.bound with hb | hb
      · omega
      · exact hb
    obtain ⟨h1, h2, h3⟩ := output_account hinv.ok hb hE hg
    rw [hqs] at h2
    refine ⟨h1 j x, fun h4 h5 => ?_, fun t ht => ?_⟩
    · rcases h2 j x h4 h5 with h6 | h6
      · exact Or.inl ⟨msgs, rfl, h6.symm⟩
      · exact Or.inr h6
    · have : t = msgs := by
        have h7 := List.append_cancel_left ht
        simp only [List.cons.injEq, and_true] at h7
        exact h7.symm
      subst this
      exact h3 j

/-- **C67**.  A message without header is ignored unless such messages are allowed. -/
theorem C67_headerless_ignored (boom : Nat → Bool) (slop : Int) (s : State n) (i : Fin n) (m : Msg) (hm : m.header = false) :
    approxAdd boom slop false s i m = .ok (s, false) := by
  unfold approxAdd
  simp [hm]

example : ∃ s, approxRun noRaise 10 false (construct 3 5)
      (withHeaders [(0, ⟨0, 100⟩), (1, ⟨1, 103⟩), (1, ⟨2, 98⟩), (2, ⟨3, 105⟩), (2, ⟨4, 101⟩), (0, ⟨5, 105⟩)]) = .ok s ∧
    s.out.map List.ofFn = [[⟨0, 100⟩, ⟨1, 103⟩, ⟨3, 105⟩], [⟨5, 105⟩, ⟨2, 98⟩, ⟨4, 101⟩]] := ⟨_, rfl, by decide⟩

/-- **C68**.  As long as every call returned, no matching set is left waiting: there are no messages, one held of each input, whose
stamps all differ by less than the slop. -/
theorem C68_nothing_withheld [NeZero n] (boom : Nat → Bool) (slop q : Int) (allow : Bool) (ops : List (Fin n × Msg)) (s : State n)
    (h : approxRun boom slop allow (construct n q) ops = .ok s) (hl : s.locked = false) :
    ¬ ∃ t : Fin n → Ev, (∀ j, t j ∈ held s j) ∧ ∀ a b, (t a).stamp - (t b).stamp < slop := by
  obtain ⟨_, hinv, hqs⟩ := approxRun_induction (P := fun _ _ => True) trivial (fun _ _ _ _ _ _ _ _ _ _ _ => trivial) ops s h
  rintro ⟨t, h1, h2⟩
  exact hinv.quiet hl (fun j => (t j).stamp) ⟨fun j => mem_keys.mpr ⟨_, (mem_vals (hinv.ok j)).mp (h1 j)⟩, h2⟩

example : ∃ s, approxRun noRaise 10 false (construct 2 5) (withHeaders [(0, ⟨0, 100⟩), (1, ⟨1, 110⟩), (1, ⟨2, 85⟩)]) = .ok s ∧
    s.locked = false ∧ List.ofFn (held s) = [[⟨0, 100⟩], [⟨1, 110⟩, ⟨2, 85⟩]] := ⟨_, rfl, rfl, by decide⟩

/-- **C68** (boundary).  The slop is exclusive: with a slop of zero (or less) no set is ever output, not even of messages with the
same stamp. -/
theorem C68_zero_slop_outputs_nothing [NeZero n] (boom : Nat → Bool) (slop q : Int) (hs : slop ≤ 0) (allow : Bool)
    (ops : List (Fin n × Msg)) (s : State n) (h : approxRun boom slop allow (construct n q) ops = .ok s) : s.out = [] := by
  match ho : s.out with
  | [] => rfl
  | t :: l =>
    have i0 : Fin n := ⟨0, Nat.pos_of_ne_zero (NeZero.ne n)⟩
    have := (C67_complete_sets boom slop q allow ops s h t (by rw [ho]; simp)).2 i0 i0
    omega

example : ∃ s, approxRun noRaise 0 false (construct 2 5) (withHeaders [(0, ⟨0, 100⟩), (1, ⟨1, 100⟩)]) = .ok s ∧ s.out.length = 0 :=
  ⟨_, rfl, rfl⟩

/-- **C69**.  Which set is output: compare the set `t` output by a call with any other matching set `u` containing the new message
that could have been output instead.  At the first input where the two differ, the message of `t` is at least as close to the
new message as that of `u`. -/
theorem C69_closest_first [NeZero n] (boom : Nat → Bool) (slop q : Int) (allow : Bool) (ops : List (Fin n × Msg)) (s : State n)
    (h : approxRun boom slop allow (construct n q) ops = .ok s) (i : Fin n) (m : Msg) (s' : State n)
    (hs : approxAdd boom slop allow s i m = .ok (s', false)) (t : Fin n → Ev) (ht : s'.out = s.out ++ [t])
    (u : Fin n → Ev) (hui : u i = m.ev) (hu : ∀ j, j ≠ i → u j ∈ held s j) (hum : ∀ a b, (u a).stamp - (u b).stamp < slop)
    (j : Fin n) (hj : ∀ k, k < j → u k = t k) :
    ((t j).stamp - m.ev.stamp).natAbs ≤ ((u j).stamp - m.ev.stamp).natAbs := by
  obtain ⟨_, hinv, hqs⟩ := approxRun_induction (P := fun _ _ => True) trivial (fun _ _ _ _ _ _ _ _ _ _ _ => trivial) ops s h
  obtain ⟨_, _, rfl, _⟩ | ⟨_, hl, ⟨hq, rfl, h1⟩ | ⟨hq, d', hE, ⟨hn, rfl, _⟩ | ⟨f, msgs, hf, hm, hg, hbest, ⟨_, h1, _⟩ | ⟨_, _, rfl⟩⟩⟩⟩ :=
    approxAdd_cases boom slop allow s hinv.ok i m s' false hs
  · simp at ht
  · cases h1
  · simp at ht
  · cases h1
  · have htm : t = msgs := by
      have h7 := List.append_cancel_left ht
      simp only [List.cons.injEq, and_true] at h7
      exact h7.symm
    subst htm
    have dok := fun j => upd_DOk hinv.ok (hE.dok (hinv.ok i)) (i := i) j
    have hmem := fun j => (get_some (dok j).nodup).mp (hg j)
    have hst : ∀ j, (t j).stamp = f j := fun j => (dok j).stamp _ (hmem j)
    have hnew : m.ev.stamp ∈ d'.keys := by
      have := mem_keys.mpr ⟨_, hmem i⟩
      rwa [upd_same, hf] at this
    have hmatch : Match slop (upd s.queues i d') (fun j => (u j).stamp) := by
      refine ⟨fun k => ?_, hum⟩
      by_cases hk : k = i
      · subst hk; rw [upd_same]; show (u k).stamp ∈ d'.keys; rw [hui]; exact hnew
      · rw [upd_ne _ _ hk]
        exact mem_keys.mpr ⟨_, (mem_vals (hinv.ok k)).mp (hu k hk)⟩
    have := hbest (fun j => (u j).stamp) (by simp [hui]) hmatch j (fun k hk => by show (u k).stamp = f k; rw [hj k hk, hst])
    unfold dist at this
    rw [hst]
    omega

/-- **C69**.  With two inputs the new message is paired with the closest message held of the other input. -/
theorem C69_two_inputs (boom : Nat → Bool) (slop q : Int) (allow : Bool) (ops : List (Fin 2 × Msg)) (s : State 2)
    (h : approxRun boom slop allow (construct 2 q) ops = .ok s) (i j : Fin 2) (hij : j ≠ i) (m : Msg) (s' : State 2)
    (hs : approxAdd boom slop allow s i m = .ok (s', false)) (t : Fin 2 → Ev) (ht : s'.out = s.out ++ [t])
    (x : Ev) (hx : x ∈ held s j) :
    ((t j).stamp - m.ev.stamp).natAbs ≤ (x.stamp - m.ev.stamp).natAbs := by
  have hti : t i = m.ev := by
    rcases C67_at_most_one_set boom slop q allow ops s h i m s' hs with h1 | ⟨t', h1, h2⟩
    · rw [h1] at ht; simp at ht
    · rw [h1] at ht
      have h7 := List.append_cancel_left ht
      simp only [List.cons.injEq, and_true] at h7
      rw [← h7]; exact h2
  have hsp : ∀ a b, (t a).stamp - (t b).stamp < slop := by
    have hrun : approxRun boom slop allow (construct 2 q) (ops ++ [(i, m)]) = .ok s' := by
      unfold approxRun at *
      rw [runE_append, h]
      simp only [runE, hs]
      rfl
    exact (C67_complete_sets boom slop q allow _ s' hrun t (by rw [ht]; simp)).2
  by_cases hfar : ((t j).stamp - m.ev.stamp).natAbs ≤ (x.stamp - m.ev.stamp).natAbs
  · exact hfar
  · -- then the set with `x` matches and is closer
    let u : Fin 2 → Ev := fun k => if k = i then m.ev else x
    have hui : u i = m.ev := by simp [u]
    have huj : u j = x := by simp [u, hij]
    have hcases : ∀ k : Fin 2, k = i ∨ k = j := by
      intro k
      have h1 : i.1 ≠ j.1 := fun h => hij (Fin.ext h.symm)
      have := k.2; have := i.2; have := j.2
      rcases Nat.lt_or_ge k.1 1 with h2 | h2 <;> rcases Nat.lt_or_ge i.1 1 with h3 | h3
      · left; apply Fin.ext; omega
      · right; apply Fin.ext; omega
      · right; apply Fin.ext; omega
      · left; apply Fin.ext; omega
    have a1 := hsp i j
    have a2 := hsp j i
    have a3 := hsp i i
    rw [hti] at a1 a2 a3
    have hum : ∀ a b, (u a).stamp - (u b).stamp < slop := by
      intro a b
      rcases hcases a with rfl | rfl <;> rcases hcases b with rfl | rfl <;> simp only [hui, huj] <;> omega
    have hbest := C69_closest_first boom slop q allow ops s h i m s' hs t ht u hui
      (fun k hk => by rcases hcases k with rfl | rfl; · exact absurd rfl hk
                      · rw [huj]; exact hx) hum
    have := hbest j (fun k hk => by
      rcases hcases k with rfl | rfl
      · rw [hui, hti]
      · exact absurd hk (Nat.lt_irrefl _))
    rw [huj] at this
    exact this

example : ∃ s, approxRun noRaise 10 false (construct 2 5) (withHeaders [(1, ⟨0, 93⟩), (1, ⟨1, 102⟩), (1, ⟨2, 98⟩)]) = .ok s ∧
    ∃ s', approxAdd noRaise 10 false s 0 ⟨⟨3, 100⟩, true⟩ = .ok (s', false) ∧ s'.out.map List.ofFn = [[⟨3, 100⟩, ⟨1, 102⟩]] :=
  ⟨_, rfl, _, rfl, by decide⟩

end MF.Py
