import Verif.Proofs.EpsilonReach
import Verif.Props.EpsilonRoom
import Verif.Props.PyReach
/-
C107: which queue size an ApproximateEpsilonTime synchronizer with two inputs needs.
-/
namespace MF.Epsilon

theorem fin2_cover : ∀ k : Fin 2, k = 0 ∨ k = 1 := by decide

/-- **C107** (nothing is lost).  Take two inputs that deliver in time order.  Whenever a message is delivered, let each message of
the other input that is within epsilon of it be among the last `queue_size` ones of that input.  Then the sets that are output
depend on nothing but what each input delivers: any other queue size with this property, and any other interleaving, gives the
same ones, although queues may overflow. -/
theorem C107_queue_size_irrelevant (fuel fuel' q q' : Nat) (hq : 0 < q) (hq' : 0 < q') (eps : Int) (heps : 0 ≤ eps)
    (ops ops' : List (Fin 2 × Ev)) (s s' : State 2) (h : run fuel (construct 2 q eps) ops = .ok s)
    (h' : run fuel' (construct 2 q' eps) ops' = .ok s') (hsame : SameStreams ops ops') (hs : ∀ i, TimeSorted (stream ops i))
    (hmax : ∀ op ∈ ops, op.2.stamp ≤ maxTime) (hr : Recent q eps ops) (hr' : Recent q' eps ops') : s.out = s'.out := by
  have hstr : stream ops = stream ops' := funext hsame
  obtain ⟨w, h1, h2, _⟩ := run_recent heps hq (by decide) fin2_cover ops s h hs hmax hr
  obtain ⟨w', h3, h4, _⟩ := run_recent heps hq' (by decide) fin2_cover ops' s' h' (by rw [← hstr]; exact hs)
    (fun op hop => hmax op (mem_stream.1 (by rw [hstr]; exact mem_stream.2 hop))) hr'
  rw [← hstr] at h3
  exact (steps_det h1 h3 h2 h4).1

/-- **C107** (every match is found).  Under the same condition every pair of messages within epsilon has a member in an output
set. -/
theorem C107_finds_matches (q : Nat) (hq : 0 < q) (eps : Int) (heps : 0 ≤ eps) (ops : List (Fin 2 × Ev))
    (hs : ∀ i, TimeSorted (stream ops i)) (hmax : ∀ op ∈ ops, op.2.stamp ≤ maxTime) (hr : Recent q eps ops)
    (fuel : Nat) (hfuel : ops.length ≤ fuel) :
    ∃ s, run fuel (construct 2 q eps) ops = .ok s ∧
      ∀ x y, (0, x) ∈ ops → (1, y) ∈ ops → x.stamp - y.stamp ≤ eps → y.stamp - x.stamp ≤ eps →
        ∃ t ∈ s.out, t 0 = some x ∨ t 1 = some y := by
  obtain ⟨s, h⟩ := C24_terminates_partial q eps heps ops hmax fuel hfuel
  refine ⟨s, h, fun x y hx hy h1 h2 => ?_⟩
  obtain ⟨w, g1, g2, _⟩ := run_recent heps hq (by decide) fin2_cover ops s h hs hmax hr
  obtain ⟨t, ht, i, hi⟩ := steps_match heps g1 g2 (fun i : Fin 2 => if i = 0 then x else y)
    (fun i j => by
      rcases fin2_cover i with rfl | rfl <;> rcases fin2_cover j with rfl | rfl <;> simp <;> omega)
    (Or.inl rfl) hs (fun i => by
      rcases fin2_cover i with rfl | rfl
      · exact mem_stream.2 hx
      · exact mem_stream.2 hy)
    (fun i e he => hmax (i, e) (mem_stream.1 he))
  refine ⟨t, ht, ?_⟩
  rcases fin2_cover i with rfl | rfl
  · exact Or.inl hi
  · exact Or.inr hi

/-- **C107** (known rates and delays).  Let the stamps of both inputs be at least `p` apart, let messages arrive at most `D` after
their stamp and be delivered in the order of arrival.  Then a queue size of more than `(D + eps) / p` is enough; unlike in C104,
inputs may pause or start at any time. -/
theorem C107_rates (q : Nat) (eps : Int) (heps : 0 ≤ eps) (R : Nat → Fin 2 → Ev) (arr : Nat → Fin 2 → Int) (p D : Int) (hp : 0 < p)
    (hpace : Paced R p) (hdelay : Delayed R arr D) (hq : D + eps < q * p) (ops : List (Fin 2 × Ev)) (hdel : Delivers R ops)
    (hb : ByArrival arr ops) (hmax : ∀ op ∈ ops, op.2.stamp ≤ maxTime) (fuel : Nat) (hfuel : ops.length ≤ fuel) :
    ∃ s, run fuel (construct 2 q eps) ops = .ok s ∧
      (∀ q', q ≤ q' → ∃ s', run fuel (construct 2 q' eps) ops = .ok s' ∧ s.out = s'.out) ∧
      ∀ x y, (0, x) ∈ ops → (1, y) ∈ ops → x.stamp - y.stamp ≤ eps → y.stamp - x.stamp ≤ eps →
        ∃ t ∈ s.out, t 0 = some x ∨ t 1 = some y := by
  have hq0 : 0 < q := by
    rcases Nat.eq_zero_or_pos q with rfl | h
    · have := hdelay.1 0 0
      rw [Int.natCast_zero, Int.zero_mul] at hq
      omega
    · exact h
  have hstrict := fun i => hpace.strict hp hdel i
  have hs : ∀ i, TimeSorted (stream ops i) := fun i => (hstrict i).imp (fun h => Int.le_of_lt h)
  have hreach : Py.Reach q (eps + 1) ops := Py.reach_of_rates hp hq0 hpace hdelay hdel hb (by omega)
  have hr := recent_of_reach hstrict hreach
  obtain ⟨s, h1, h2⟩ := C107_finds_matches q hq0 eps heps ops hs hmax hr fuel hfuel
  refine ⟨s, h1, fun q' hle => ?_, h2⟩
  obtain ⟨s', h3⟩ := C24_terminates_partial q' eps heps ops hmax fuel hfuel
  exact ⟨s', h3, C107_queue_size_irrelevant fuel fuel q q' hq0 (by omega) eps heps ops ops s s' h1 h3 (fun _ => rfl) hs hmax hr
    (recent_of_reach hstrict (hreach.mono hle))⟩

/-- The condition of C97 implies this one. -/
theorem C107_weaker_than_C97 {n : Nat} {q : Nat} {eps : Int} {ops : List (Fin n × Ev)} (hs : ∀ i, TimeSorted (stream ops i))
    (ha : AheadAtMost q eps ops) : Recent q eps ops := recent_of_ahead hs ha

theorem recent_of_check {n : Nat} {q : Nat} {eps : Int} {ops : List (Fin n × Ev)}
    (h : ∀ k : Fin ops.length, ∀ i, i ≠ (ops[k]).1 → ∀ m : Fin (stream (ops.take k) i).length,
      (stream (ops.take k) i)[m].stamp - (ops[k]).2.stamp ≤ eps → (ops[k]).2.stamp - (stream (ops.take k) i)[m].stamp ≤ eps →
      (stream (ops.take k) i).length < q + m + 1) : Recent q eps ops := by
  rintro pre j e post rfl i hij older x newer hst h1 h2
  have hk := h ⟨pre.length, by simp⟩ i (by simpa using hij)
  have htake : (pre ++ (j, e) :: post).take pre.length = pre := by simp
  simp only [Fin.getElem_fin, List.getElem_append_right (Nat.le_refl _), Nat.sub_self, List.getElem_cons_zero] at hk
  have hlen : older.length < (stream pre i).length := by rw [hst]; simp
  have := hk ⟨older.length, by simp only [htake]; exact hlen⟩
  simp only [htake, hst, List.getElem_append_right (Nat.le_refl _), Nat.sub_self, List.getElem_cons_zero, List.length_append,
    List.length_cons] at this
  have := this h1 h2
  omega

/-- Input 0 is far ahead of input 1, but what input 1 delivers is never within 10 of anything but the newest two messages. -/
def recentOps : List (Fin 2 × Ev) :=
  [(0, ⟨0, 100⟩), (0, ⟨1, 200⟩), (0, ⟨2, 300⟩), (0, ⟨3, 390⟩), (0, ⟨4, 400⟩), (1, ⟨5, 250⟩), (1, ⟨6, 395⟩), (1, ⟨7, 398⟩),
   (0, ⟨8, 500⟩), (1, ⟨9, 500⟩)]

/-- The condition holds with queues of two places, although they overflow, and three sets are output. -/
example : Recent 2 10 recentOps ∧ (∀ i, TimeSorted (stream recentOps i)) ∧ ¬ AheadAtMost 4 10 recentOps ∧ ¬ NoOverflow 20 2 10 recentOps ∧
    (∀ op ∈ recentOps, op.2.stamp ≤ maxTime) ∧ ∃ s, run 20 (construct 2 2 10) recentOps = .ok s ∧ s.out.length = 3 := by
  refine ⟨recent_of_check (by decide), ?_, fun h => ?_, fun h => ?_, by decide, _, rfl, by decide⟩
  · intro i; unfold TimeSorted; revert i; decide
  · have := h 5 0 1 (by decide)
    revert this; decide
  · have := h 5 _ rfl 0
    revert this; decide

/-- **C107** (the condition is needed).  With queues of one place the last message but one that input 1 needs is gone. -/
theorem C107_room_needed : ¬ Recent 1 10 recentOps ∧
    (∃ s, run 20 (construct 2 1 10) recentOps = .ok s ∧ s.out.length = 2) ∧
    ∃ s, run 20 (construct 2 2 10) recentOps = .ok s ∧ s.out.length = 3 := by
  refine ⟨fun h => ?_, ⟨_, rfl, by decide⟩, _, rfl, by decide⟩
  have := h (recentOps.take 6) 1 ⟨6, 395⟩ (recentOps.drop 7) rfl 0 (by decide) [⟨0, 100⟩, ⟨1, 200⟩, ⟨2, 300⟩] ⟨3, 390⟩ [⟨4, 400⟩] rfl
    (by decide) (by decide)
  revert this; decide

/-- The hypotheses of `C107_rates` are met by input 1 taking 5 and an epsilon of 4: `5 + 4 < 1 * 10`. -/
example : ∃ ops, Delivers Py.fast ops ∧ ByArrival (Py.fastArr 5) ops ∧ (5 : Int) + 4 < (1 : Nat) * 10 ∧
    ∃ s, run 10 (construct 2 1 4) ops = .ok s ∧ s.out.length = 2 :=
  ⟨[(0, ⟨0, 0⟩), (1, ⟨1, 4⟩), (0, ⟨2, 10⟩), (1, ⟨3, 14⟩)], by unfold Delivers; decide, byArrival_of_check (by decide), by decide,
    _, rfl, by decide⟩

/-- **C107** (the bound is sharp).  If `D + eps` is exactly one period, with a queue size of 1 all matches can be lost. -/
theorem C107_rates_sharp : ∃ (R : Nat → Fin 2 → Ev) (arr : Nat → Fin 2 → Int) (ops : List (Fin 2 × Ev)),
    Paced R 10 ∧ Delayed R arr 6 ∧ Delivers R ops ∧ ByArrival arr ops ∧ (6 : Int) + 4 = (1 : Nat) * 10 ∧
    (∃ s, run 10 (construct 2 1 4) ops = .ok s ∧ s.out.length = 0) ∧ ∃ s, run 10 (construct 2 2 4) ops = .ok s ∧ s.out.length = 2 :=
  ⟨Py.fast, Py.fastArr 6, [(0, ⟨0, 0⟩), (0, ⟨2, 10⟩), (1, ⟨1, 4⟩), (0, ⟨4, 20⟩), (1, ⟨3, 14⟩)], (Py.fast_ok 6 (by decide)).1,
    (Py.fast_ok 6 (by decide)).2, by unfold Delivers; decide, byArrival_of_check (by decide), by decide, ⟨_, rfl, by decide⟩,
    _, rfl, by decide⟩

/-- **C107** (two inputs only).  With three inputs the queue size makes a difference under the same condition, and the larger queue
is the one that loses a set: it still holds the too old 0, and the 8 is discarded together with it. -/
theorem C107_three_inputs : ∃ ops : List (Fin 3 × Ev), Recent 1 10 ops ∧ (∀ i, TimeSorted (stream ops i)) ∧
    (∃ s, run 10 (construct 3 1 10) ops = .ok s ∧ s.out.length = 1) ∧ ∃ s, run 10 (construct 3 2 10) ops = .ok s ∧ s.out.length = 0 := by
  refine ⟨[(1, ⟨0, 8⟩), (0, ⟨1, 0⟩), (0, ⟨2, 9⟩), (2, ⟨3, 18⟩)], recent_of_check (by decide), ?_, ⟨_, rfl, by decide⟩, _, rfl, by decide⟩
  intro i; unfold TimeSorted; revert i; decide

/-- **C107** (time order is needed). -/
theorem C107_order_needed : ∃ ops : List (Fin 2 × Ev), Recent 1 10 ops ∧
    (∃ s, run 10 (construct 2 1 10) ops = .ok s ∧ s.out.length = 1) ∧ ∃ s, run 10 (construct 2 2 10) ops = .ok s ∧ s.out.length = 0 := by
  refine ⟨[(0, ⟨0, 100⟩), (0, ⟨1, 50⟩), (1, ⟨2, 50⟩)], recent_of_check (by decide), ⟨_, rfl, by decide⟩, _, rfl, by decide⟩

end MF.Epsilon
