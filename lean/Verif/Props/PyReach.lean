import Verif.Proofs.PyReach
import Verif.Props.PyApproxRoom
import Verif.Props.PySync
import Verif.Props.Rates
/-
C106: how far back the queues of a Python ApproximateTimeSynchronizer have to reach.
-/
namespace MF.Py

variable {n : Nat}

/-- **C106** (nothing is lost).  Whenever a message is delivered, let fewer than `queue_size` newer ones of its own input have
come before it, and let every message of another input that is within the slop of it be among the `queue_size` newest of that
input.  Then the queue size makes no difference: any other one with this property gives the same sets, and the lock is left in
the same state, also if callbacks raise.  The inputs need not be in time order. -/
theorem C106_queue_size_irrelevant [NeZero n] (boom : Nat → Bool) (slop : Int) (allow : Bool) (q q' : Nat)
    (ops : List (Fin n × Msg)) (hr : Reach q slop (accepted allow ops)) (hr' : Reach q' slop (accepted allow ops)) :
    (approxRun boom slop allow (construct n q) ops).map (fun s => (s.out, s.locked)) =
      (approxRun boom slop allow (construct n q') ops).map (fun s => (s.out, s.locked)) := by
  rcases approxRun_alike (boom := boom) (slop := slop) (allow := allow) (q := q) (q' := q') ops [] (by simpa using hr)
    (by simpa using hr') with ⟨h1, h2⟩ | ⟨t, t', h1, h2, h3⟩
  · rw [h1, h2]
  · rw [h1, h2]
    simp only [Except.map, h3.out, h3.locked]

/-- **C106** (every match is found).  Under the same condition, if no two messages of an input have the same stamp, every choice
of one message per input within the slop has a member in an output set. -/
theorem C106_finds_matches [NeZero n] (slop : Int) (allow : Bool) (q : Nat) (ops : List (Fin n × Msg))
    (hd : ∀ i, DistinctStamps (stream (accepted allow ops) i)) (hr : Reach q slop (accepted allow ops)) :
    ∃ s, approxRun noRaise slop allow (construct n q) ops = .ok s ∧
      ∀ T : Fin n → Ev, (∀ i, (i, T i) ∈ accepted allow ops) → (∀ i j, (T i).stamp - (T j).stamp < slop) →
        ∃ t ∈ s.out, ∃ i, t i = T i := by
  obtain ⟨s, h, _⟩ := C66_approximate_always_returns_partial slop q allow (by omega) ops
  refine ⟨s, h, fun T hT hspan => ?_⟩
  rcases approxRun_alike (boom := noRaise) (slop := slop) (allow := allow) (q := q) (q' := (accepted allow ops).length + 1) ops []
    (by simpa using hr) (by simpa using reach_large _) with ⟨h1, _⟩ | ⟨t, t', h1, h2, h3⟩
  · rw [h] at h1; cases h1
  · rw [h] at h1
    cases h1
    obtain ⟨hl, hkept⟩ := approx_kept ops t' h2 (fun j => by
      have := stream_le (accepted allow ops) j
      omega) hd
    obtain ⟨_, hinv, _⟩ := approxRun_induction (P := fun _ _ => True) trivial (fun _ _ _ _ _ _ _ _ _ _ _ => trivial) ops t' h2
    apply Classical.byContradiction
    intro hno
    refine hinv.quiet hl (fun j => (T j).stamp) ⟨fun j => ?_, hspan⟩
    rcases hkept j (T j) (mem_stream.2 (hT j)) with ⟨u, hu, hue⟩ | hmem
    · exact absurd ⟨u, by rw [h3.out]; exact hu, j, hue⟩ hno
    · exact mem_keys.2 ⟨_, hmem⟩

/-- **C106** (known rates and delays).  Let the stamps of every input be at least `p` apart, let messages arrive at most `D`
after their stamp and be delivered in the order of arrival.  Then a queue size of more than `(D + slop - 1) / p` is enough; unlike
in C104, inputs may pause or start at any time. -/
theorem C106_rates [NeZero n] (slop : Int) (hslop : 0 < slop) (allow : Bool) (q : Nat) (R : Nat → Fin n → Ev)
    (arr : Nat → Fin n → Int) (p D : Int) (hp : 0 < p) (hpace : Paced R p) (hdelay : Delayed R arr D)
    (hq : D + (slop - 1) < q * p) (ops : List (Fin n × Ev)) (hdel : Delivers R ops) (hb : ByArrival arr ops) :
    ∃ s, approxRun noRaise slop allow (construct n q) (withHeaders ops) = .ok s ∧
      (∀ q', q ≤ q' → ∃ s', approxRun noRaise slop allow (construct n (q' : Nat)) (withHeaders ops) = .ok s' ∧ s.out = s'.out) ∧
      ∀ T : Fin n → Ev, (∀ i, (i, T i) ∈ ops) → (∀ i j, (T i).stamp - (T j).stamp < slop) → ∃ t ∈ s.out, ∃ i, t i = T i := by
  have hq0 : 0 < q := by
    rcases Nat.eq_zero_or_pos q with rfl | h
    · have := hdelay.1 0 0
      rw [Int.natCast_zero, Int.zero_mul] at hq
      omega
    · exact h
  have hacc : accepted allow (withHeaders ops) = ops := by
    simp [accepted, withHeaders, List.filter_map, Function.comp_def]
  have hr : Reach q slop (accepted allow (withHeaders ops)) := by
    rw [hacc]; exact reach_of_rates hp hq0 hpace hdelay hdel hb hq
  have hd : ∀ i, DistinctStamps (stream (accepted allow (withHeaders ops)) i) := by
    rw [hacc]
    exact fun i => List.pairwise_map.2 ((hpace.strict hp hdel i).imp (fun h => by omega))
  obtain ⟨s, h1, h2⟩ := C106_finds_matches slop allow q (withHeaders ops) hd hr
  rw [hacc] at h2
  refine ⟨s, h1, fun q' hle => ?_, h2⟩
  obtain ⟨s', h3, _⟩ := C66_approximate_always_returns_partial slop q' allow (by omega) (withHeaders ops)
  refine ⟨s', h3, ?_⟩
  have := C106_queue_size_irrelevant noRaise slop allow q q' (withHeaders ops) hr (hr.mono hle)
  rw [h1, h3] at this
  simp only [Except.map, Except.ok.injEq, Prod.mk.injEq] at this
  exact this.1

/-- The condition of C101 implies this one. -/
theorem C106_weaker_than_C101 {q : Nat} (hq : 0 < q) {slop : Int} {ops : List (Fin n × Ev)} (hs : ∀ i, TimeSorted (stream ops i))
    (ha : Epsilon.AheadAtMost q (slop - 1) ops) : Reach q slop ops := reach_of_ahead hq hs ha

theorem reach_of_check {q : Nat} {slop : Int} {ops : List (Fin n × Ev)}
    (h : ∀ k : Fin ops.length, newerOn (ops.take k) (ops[k]).1 (ops[k]).2.stamp < q ∧
      ∀ j, j ≠ (ops[k]).1 → ∀ x ∈ stream (ops.take k) j, x.stamp - (ops[k]).2.stamp < slop → (ops[k]).2.stamp - x.stamp < slop →
        newerOn (ops.take k) j x.stamp < q) : Reach q slop ops := by
  rintro pre i e post rfl
  have := h ⟨pre.length, by simp⟩
  simpa using this

/-- Input 0 is far ahead of input 1, and one of its messages is out of order; what input 1 delivers is never within 10 of
anything but the newest two messages. -/
def pauseOps : List (Fin 2 × Ev) :=
  [(0, ⟨0, 100⟩), (0, ⟨1, 200⟩), (0, ⟨2, 300⟩), (0, ⟨3, 400⟩), (0, ⟨4, 390⟩), (1, ⟨5, 398⟩), (1, ⟨6, 395⟩), (0, ⟨7, 500⟩), (1, ⟨8, 500⟩)]

/-- The condition holds with queues of two places, and three sets are output; the condition of C101 needs five places. -/
example : Reach 2 10 pauseOps ∧ (∀ i, DistinctStamps (stream pauseOps i)) ∧ ¬ Epsilon.AheadAtMost 4 (10 - 1) pauseOps ∧
    ∃ s, approxRun noRaise 10 false (construct 2 2) (withHeaders pauseOps) = .ok s ∧ s.out.length = 3 := by
  refine ⟨reach_of_check (by decide), by unfold DistinctStamps; decide, fun h => ?_, _, rfl, by decide⟩
  have := h 5 0 1 (by decide)
  revert this; decide

/-- Period 10; input 1 is stamped 4 later and takes 5: a queue size of 1 is enough with a slop of 5, as `5 + (5 - 1) < 1 * 10`. -/
def fast : Nat → Fin 2 → Ev := fun k i => if i = 0 then ⟨2 * k, 10 * k⟩ else ⟨2 * k + 1, 10 * k + 4⟩

/-- The arrival times if input 1 takes `d`. -/
def fastArr (d : Int) : Nat → Fin 2 → Int := fun k i => if i = 0 then 10 * k else 10 * k + 4 + d

theorem fast_ok (d : Int) (hd : 0 ≤ d) : Paced fast 10 ∧ Delayed fast (fastArr d) d := by
  refine ⟨?_, ?_, ?_⟩
  · intro k i; unfold fast; split <;> simp <;> omega
  · intro k i; unfold fast fastArr; split <;> simp <;> omega
  · intro k i; unfold fastArr; split <;> simp <;> omega

example : ∃ ops, Delivers fast ops ∧ ByArrival (fastArr 5) ops ∧ (5 : Int) + (5 - 1) < (1 : Nat) * 10 ∧
    ∃ s, approxRun noRaise 5 false (construct 2 1) (withHeaders ops) = .ok s ∧ s.out.length = 2 :=
  ⟨[(0, ⟨0, 0⟩), (1, ⟨1, 4⟩), (0, ⟨2, 10⟩), (1, ⟨3, 14⟩)], by unfold Delivers; decide, byArrival_of_check (by decide), by decide,
    _, rfl, by decide⟩

/-- **C106** (the bound is sharp).  If input 1 takes 6, `D + slop - 1` is exactly one period, and with a queue size of 1 all matches
can be lost: each message of input 1 arrives when the one it belongs to has just been replaced. -/
theorem C106_rates_sharp : ∃ (R : Nat → Fin 2 → Ev) (arr : Nat → Fin 2 → Int) (ops : List (Fin 2 × Ev)),
    Paced R 10 ∧ Delayed R arr 6 ∧ Delivers R ops ∧ ByArrival arr ops ∧ (6 : Int) + (5 - 1) = (1 : Nat) * 10 ∧
    (∃ s, approxRun noRaise 5 false (construct 2 1) (withHeaders ops) = .ok s ∧ s.out.length = 0) ∧
    ∃ s, approxRun noRaise 5 false (construct 2 2) (withHeaders ops) = .ok s ∧ s.out.length = 2 :=
  ⟨fast, fastArr 6, [(0, ⟨0, 0⟩), (0, ⟨2, 10⟩), (1, ⟨1, 4⟩), (0, ⟨4, 20⟩), (1, ⟨3, 14⟩)], (fast_ok 6 (by decide)).1,
    (fast_ok 6 (by decide)).2, by unfold Delivers; decide, byArrival_of_check (by decide), by decide, ⟨_, rfl, by decide⟩,
    _, rfl, by decide⟩

/-- **C106** (a message must not be late by `queue_size` messages).  Every message within the slop of another one is among the
newest when that one arrives, but the third message is older than one that came before it on the same input and does not get a
place. -/
theorem C106_late_needed : ∃ ops : List (Fin 2 × Ev), ¬ Reach 1 10 ops ∧
    (∃ s, approxRun noRaise 10 false (construct 2 1) (withHeaders ops) = .ok s ∧ s.out.length = 0) ∧
    ∃ s, approxRun noRaise 10 false (construct 2 2) (withHeaders ops) = .ok s ∧ s.out.length = 1 := by
  refine ⟨[(1, ⟨0, 100⟩), (0, ⟨1, 200⟩), (0, ⟨2, 100⟩)], fun h => ?_, ⟨_, rfl, by decide⟩, _, rfl, by decide⟩
  have := (h [(1, ⟨0, 100⟩), (0, ⟨1, 200⟩)] 0 ⟨2, 100⟩ [] rfl).1
  revert this; decide

end MF.Py
