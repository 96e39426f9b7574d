import Verif.Proofs.ApproxRoom
import Verif.Props.Approx
import Verif.Props.EpsilonRoom
/-
C99: the queue size an ApproximateTime synchronizer needs.
-/
namespace MF.Approx
open MF.Epsilon (AheadAtMost aheadAtMost_of_check)
open MF.ApproxSpec (sets Spaced)

variable {n : Nat}

/-- **C99**.  Let every input deliver in time order.  If no input runs ahead of another one by more than `q` messages (not
counting messages that the other input has left behind by more than the maximum interval), and no input delivers more than
`q` messages within the maximum interval, then no queue of size `q` overflows.  Of the arithmetic of the age penalty only
`d * (1 + age_penalty) ≥ d` is used. -/
theorem C99_no_overflow [NeZero n] (fuel : Nat) (cfg : Cfg n) (hM : 0 ≤ cfg.maxInterval) (hf : ∀ x, 0 ≤ x → x ≤ cfg.scale x)
    (ops : List (Fin n × Ev)) (hs : ∀ i, TimeSorted (stream ops i))
    (ha : AheadAtMost cfg.queueSize cfg.maxInterval ops) (hw : AtMostWithin cfg.queueSize cfg.maxInterval ops) :
    NoOverflow fuel cfg ops :=
  noOverflow_of_ahead hM hf hs ha hw

/-- **C99** (nothing is lost).  Under the same conditions a larger queue makes no difference to the output or to what is
held. -/
theorem C99_queue_size_irrelevant [NeZero n] (fuel q : Nat) (cfg : Cfg n) (hM : 0 ≤ cfg.maxInterval)
    (hf : ∀ x, 0 ≤ x → x ≤ cfg.scale x) (ops : List (Fin n × Ev)) (s s' : State n)
    (h : run fuel cfg ops = .ok s) (h' : run fuel { cfg with queueSize := q } ops = .ok s') (hq : cfg.queueSize ≤ q)
    (hs : ∀ i, TimeSorted (stream ops i))
    (ha : AheadAtMost cfg.queueSize cfg.maxInterval ops) (hw : AtMostWithin cfg.queueSize cfg.maxInterval ops) :
    s.out = s'.out ∧ s.past = s'.past ∧ s.deques = s'.deques := by
  have h1 := noOverflow_run h (noOverflow_of_ahead hM hf hs ha hw)
  have h2 := noOverflow_run h' (noOverflow_of_ahead (cfg := { cfg with queueSize := q }) hM hf hs (fun k i j hij => Nat.le_trans (ha k i j hij) hq)
    (fun i T => Nat.le_trans (hw i T) hq))
  have h1 : run fuel { cfg with queueSize := ops.length + 1 } ops = .ok (setQ (ops.length + 1) s) := h1
  have h2 : run fuel { cfg with queueSize := ops.length + 1 } ops = .ok (setQ (ops.length + 1) s') := h2
  rw [h1] at h2
  have h3 := Except.ok.inj h2
  exact ⟨(congrArg (fun t : State n => t.out) h3 :), (congrArg (fun t : State n => t.past) h3 :),
    (congrArg (fun t : State n => t.deques) h3 :)⟩

/-- **C99** (interleavings).  Two synchronizers that differ in their queue sizes only receive the same streams, each in its
own interleaving.  If the conditions hold for both, one of them has output a prefix of what the other one has, and both a
prefix of the reference sequence, which depends on nothing but the streams. -/
theorem C99_interleavings_agree [NeZero n] (fuel fuel' q : Nat) (cfg : Cfg n) (hM : 0 ≤ cfg.maxInterval)
    (hf : ∀ x, 0 ≤ x → x ≤ cfg.scale x) (hmono : ∀ x y, x ≤ y → cfg.scale x ≤ cfg.scale y) (hlow : ∀ i, 0 ≤ cfg.lower i)
    (ops ops' : List (Fin n × Ev)) (s s' : State n) (h : run fuel cfg ops = .ok s)
    (h' : run fuel' { cfg with queueSize := q } ops' = .ok s') (hsame : SameStreams ops ops')
    (hsp : ∀ i, Spaced (cfg.lower i) (stream ops i)) (ha : AheadAtMost cfg.queueSize cfg.maxInterval ops)
    (ha' : AheadAtMost q cfg.maxInterval ops') (hw : AtMostWithin cfg.queueSize cfg.maxInterval ops)
    (hw' : AtMostWithin q cfg.maxInterval ops) :
    (s.out <+: s'.out ∨ s'.out <+: s.out) ∧
    s.out <+: (sets true cfg.scale cfg.maxInterval (stream ops)).map (fun t i => some (t i)) ∧
    s'.out <+: (sets true cfg.scale cfg.maxInterval (stream ops)).map (fun t i => some (t i)) := by
  have hst : stream ops' = stream ops := funext (fun i => (hsame i).symm)
  have hts : ∀ i, TimeSorted (stream ops i) := fun i => (hsp i).imp (fun h => by have := hlow i; omega)
  have hts' : ∀ i, TimeSorted (stream ops' i) := by rw [hst]; exact hts
  have hw2 : AtMostWithin q cfg.maxInterval ops' := by
    intro i T
    rw [hst]
    exact hw' i T
  have h1 := C33_prefix_of_canonical fuel cfg hmono hlow ops s h (noOverflow_of_ahead hM hf hts ha hw) (fun _ => [])
    (by simpa using hsp)
  have h2 := C33_prefix_of_canonical fuel' { cfg with queueSize := q } hmono hlow ops' s' h'
    (noOverflow_of_ahead (cfg := { cfg with queueSize := q }) hM hf hts' ha' hw2) (fun _ => []) (by rw [hst]; simpa using hsp)
  simp only [hst, List.append_nil] at h1 h2
  exact ⟨List.prefix_or_prefix_of_prefix h1 h2, h1, h2⟩

/-- Only the stamps of the messages of an input can be the newest of an interval. -/
theorem atMostWithin_of_check {q : Nat} {M : Int} {ops : List (Fin n × Ev)} (hs : ∀ i, TimeSorted (stream ops i))
    (h : ∀ i, ∀ e ∈ stream ops i,
      ((stream ops i).filter (fun x => decide (e.stamp - M ≤ x.stamp) && decide (x.stamp ≤ e.stamp))).length ≤ q) :
    AtMostWithin q M ops := by
  intro i T
  cases hl : ((stream ops i).filter (fun x => decide (T - M ≤ x.stamp) && decide (x.stamp ≤ T))).getLast? with
  | none =>
    rw [List.getLast?_eq_none_iff] at hl
    rw [hl]; exact Nat.zero_le _
  | some e =>
    have hm := List.mem_of_getLast? hl
    rw [List.mem_filter, Bool.and_eq_true, decide_eq_true_eq, decide_eq_true_eq] at hm
    refine Nat.le_trans ?_ (h i e hm.1)
    have hsub : (stream ops i).filter (fun x => decide (T - M ≤ x.stamp) && decide (x.stamp ≤ T)) =
        ((stream ops i).filter (fun x => decide (T - M ≤ x.stamp) && decide (x.stamp ≤ T))).filter
          (fun x => decide (e.stamp - M ≤ x.stamp) && decide (x.stamp ≤ e.stamp)) := by
      rw [eq_comm, List.filter_eq_self]
      intro x hx
      have hx2 := (List.mem_filter.1 hx).2
      rw [Bool.and_eq_true, decide_eq_true_eq, decide_eq_true_eq] at hx2
      have hle : x.stamp ≤ e.stamp := by
        have hsl := (hs i).sublist (List.filter_sublist (p := fun x => decide (T - M ≤ x.stamp) && decide (x.stamp ≤ T)))
        obtain ⟨l', hl'⟩ := List.getLast?_eq_some_iff.1 hl
        rw [hl'] at hsl hx
        rcases List.mem_append.1 hx with hx | hx
        · exact (List.pairwise_append.1 hsl).2.2 x hx e (by simp)
        · have : x = e := by simpa using hx
          rw [this]; exact Int.le_refl _
      rw [Bool.and_eq_true, decide_eq_true_eq, decide_eq_true_eq]
      omega
    rw [hsub]
    exact (List.filter_sublist.filter _).length_le

/-- The sample history needs queues of three messages. -/
example : 0 ≤ sampleCfg.maxInterval ∧ (∀ x, 0 ≤ x → x ≤ sampleCfg.scale x) ∧ (∀ i, TimeSorted (stream sampleOps i)) ∧
    AheadAtMost 3 sampleCfg.maxInterval sampleOps ∧ AtMostWithin 3 sampleCfg.maxInterval sampleOps ∧
    ∃ s, run 100 { sampleCfg with queueSize := 3 } sampleOps = .ok s ∧ s.out.length = 2 := by
  have hs : ∀ i, TimeSorted (stream sampleOps i) := by intro i; unfold TimeSorted; revert i; decide
  refine ⟨by decide, ?_, hs, aheadAtMost_of_check (by decide), atMostWithin_of_check hs (by decide), _, rfl, by decide⟩
  intro x hx; show x ≤ (x * 11).tdiv 10
  rw [Int.tdiv_eq_ediv_of_nonneg (by omega)]; omega

/-- Three inputs: the messages at 62, 64 and 66 of the first one all lie between the candidate and the pivot at 100. -/
def denseOps : List (Fin 3 × Ev) :=
  [(1, ⟨0, 61⟩), (1, ⟨1, 130⟩), (2, ⟨2, 100⟩), (2, ⟨3, 131⟩), (0, ⟨4, 60⟩), (0, ⟨5, 62⟩), (0, ⟨6, 64⟩), (0, ⟨7, 66⟩), (0, ⟨8, 160⟩)]

def denseCfg (q : Nat) : Cfg 3 := ⟨q, 50, fun x => (x * 11).tdiv 10, fun _ => 0⟩

/-- **C99** (the second condition is needed).  No input ever runs ahead by more than two messages, but one delivers four
within the maximum interval: queues of two places drop a message of the set that queues of four places output. -/
theorem C99_density_needed : AheadAtMost 2 50 denseOps ∧ ¬ AtMostWithin 2 50 denseOps ∧ AtMostWithin 4 50 denseOps ∧
    (∃ s, run 100 (denseCfg 2) denseOps = .ok s ∧ s.out.map List.ofFn = [[some ⟨6, 64⟩, some ⟨0, 61⟩, some ⟨2, 100⟩]]) ∧
    ∃ s, run 100 (denseCfg 4) denseOps = .ok s ∧ s.out.map List.ofFn = [[some ⟨5, 62⟩, some ⟨0, 61⟩, some ⟨2, 100⟩]] := by
  have hs : ∀ i, TimeSorted (stream denseOps i) := by intro i; unfold TimeSorted; revert i; decide
  refine ⟨aheadAtMost_of_check (by decide), fun h => ?_, atMostWithin_of_check hs (by decide), ⟨_, rfl, by decide⟩,
    ⟨_, rfl, by decide⟩⟩
  have := h 0 66
  revert this; decide

/-- **C99** (the first condition is needed).  No input delivers more than one message within the maximum interval, but one
runs ahead by two: queues of one place lose a set that queues of two places output. -/
theorem C99_room_needed : ∃ ops : List (Fin 2 × Ev), AtMostWithin 1 50 ops ∧ ¬ AheadAtMost 1 50 ops ∧ AheadAtMost 2 50 ops ∧
    (∃ s, run 100 { sampleCfg with queueSize := 1 } ops = .ok s ∧ s.out.length = 1) ∧
    ∃ s, run 100 { sampleCfg with queueSize := 2 } ops = .ok s ∧ s.out.length = 2 := by
  refine ⟨[(0, ⟨0, 100⟩), (0, ⟨1, 200⟩), (1, ⟨2, 100⟩), (1, ⟨3, 200⟩)], atMostWithin_of_check ?_ (by decide), fun h => ?_,
    aheadAtMost_of_check (by decide), ⟨_, rfl, by decide⟩, ⟨_, rfl, by decide⟩⟩
  · intro i; unfold TimeSorted; revert i; decide
  · have := h 2 0 1 (by decide)
    revert this; decide

end MF.Approx
