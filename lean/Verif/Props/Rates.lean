import Verif.Proofs.Rates
import Verif.Props.EpsilonRoom
import Verif.Props.ApproxRoom
import Verif.Props.ExactRoom
import Verif.Props.PyRoom
import Verif.Props.PyApproxRoom
import Verif.Props.PySync
/-
C104: which queue size is large enough for inputs with known rates and delays.
-/
namespace MF

variable {n : Nat}

theorem byArrival_of_check {arr : Nat → Fin n → Int} {ops : List (Fin n × Ev)}
    (h : ∀ k : Fin ops.length, ∀ j, arr (stream (ops.take k) (ops[k]).1).length (ops[k]).1 ≤
      arr (stream (ops.take k) j).length j) : ByArrival arr ops := by
  rintro pre i e ⟨post, rfl⟩ j
  have := h ⟨pre.length, by simp⟩ j
  simpa using this

private theorem size_pos [NeZero n] {R : Nat → Fin n → Ev} {arr : Nat → Fin n → Int} {p G D x : Int} {q : Nat} (hp : 0 < p)
    (hpace : Paced R p) (halive : Alive R G) (hdelay : Delayed R arr D) (hx : 0 ≤ x) (hq : D + G + x < q * p) : 0 < q := by
  rcases Nat.eq_zero_or_pos q with rfl | h
  · have h1 := hpace 0 0
    have h2 := halive.1 0 0
    have h3 := hdelay.1 0 0
    simp at hq
    omega
  · exact h

/-- **C104** (ApproximateEpsilonTime).  Let the stamps of every input be at least `p` apart and at most `G`, let messages arrive
at most `D` after their stamp and be delivered in the order of arrival.  Then a queue size of more than `(D + G + epsilon) / p`
is enough: a larger one gives the same sets, and every match of two inputs, or of equal stamps, is found. -/
theorem C104_epsilon [NeZero n] (q : Nat) (eps : Int) (heps : 0 ≤ eps) (R : Nat → Fin n → Ev) (arr : Nat → Fin n → Int)
    (p G D : Int) (hp : 0 < p) (hpace : Paced R p) (halive : Alive R G) (hdelay : Delayed R arr D)
    (hq : D + G + eps < q * p) (ops : List (Fin n × Ev)) (hdel : Delivers R ops) (hb : ByArrival arr ops)
    (hmax : ∀ op ∈ ops, op.2.stamp ≤ Epsilon.maxTime) (fuel : Nat) (hfuel : ops.length ≤ fuel) :
    ∃ s, Epsilon.run fuel (Epsilon.construct n q eps) ops = .ok s ∧
      (∀ q' s', q ≤ q' → Epsilon.run fuel (Epsilon.construct n q' eps) ops = .ok s' → s.out = s'.out ∧ s.events = s'.events) ∧
      ∀ T : Fin n → Ev, (∀ i, (i, T i) ∈ ops) → (∀ i j, (T i).stamp - (T j).stamp ≤ eps) →
        (n = 2 ∨ ∀ i j, (T i).stamp = (T j).stamp) → ∃ t ∈ s.out, ∃ i, t i = some (T i) := by
  have ha := ahead_of_rates hp heps hpace halive hdelay hdel hb hq
  have hs : ∀ i, TimeSorted (stream ops i) := fun i => (hpace.strict hp hdel i).imp (fun h => by omega)
  obtain ⟨s, h1, h2⟩ := Epsilon.C97_finds_matches q eps heps ops hmax hs ha fuel hfuel
  exact ⟨s, h1, fun q' s' hle h' => Epsilon.C97_queue_size_irrelevant fuel fuel q q' eps heps ops ops s s' h1 h' (fun _ => rfl) hs ha
    (fun k i j hij => Nat.le_trans (ha k i j hij) hle), h2⟩

/-- **C104** (ApproximateTime).  For such inputs a queue size of more than `(D + G + maximum interval) / p` is enough: no queue
overflows, and a larger queue size makes no difference to the sets or to what is held. -/
theorem C104_approximate [NeZero n] (cfg : Approx.Cfg n) (hM : 0 ≤ cfg.maxInterval) (hf : ∀ x, 0 ≤ x → x ≤ cfg.scale x)
    (R : Nat → Fin n → Ev) (arr : Nat → Fin n → Int) (p G D : Int) (hp : 0 < p) (hpace : Paced R p) (halive : Alive R G)
    (hdelay : Delayed R arr D) (hq : D + G + cfg.maxInterval < cfg.queueSize * p) (ops : List (Fin n × Ev))
    (hdel : Delivers R ops) (hb : ByArrival arr ops) (fuel : Nat) (hfuel : ops.length * ops.length + ops.length ≤ fuel) :
    ∃ s, Approx.run fuel cfg ops = .ok s ∧ Approx.NoOverflow fuel cfg ops ∧
      ∀ q', cfg.queueSize ≤ q' → ∃ s', Approx.run fuel { cfg with queueSize := q' } ops = .ok s' ∧
        s.out = s'.out ∧ s.past = s'.past ∧ s.deques = s'.deques := by
  have hq0 : 0 < cfg.queueSize := size_pos hp hpace halive hdelay hM hq
  have ha := ahead_of_rates hp hM hpace halive hdelay hdel hb hq
  have h0 : 0 ≤ D + G := by
    have h1 := hpace 0 0
    have h2 := halive.1 0 0
    have h3 := hdelay.1 0 0
    omega
  have hw := within_of_rates (M := cfg.maxInterval) (q := cfg.queueSize) hp hpace hdel (by omega)
  have hs : ∀ i, TimeSorted (stream ops i) := fun i => (hpace.strict hp hdel i).imp (fun h => by omega)
  obtain ⟨s, h1⟩ := Approx.C28_terminates fuel cfg hq0 ops hfuel
  refine ⟨s, h1, Approx.C99_no_overflow fuel cfg hM hf ops hs ha hw, fun q' hle => ?_⟩
  obtain ⟨s', h2⟩ := Approx.C28_terminates fuel { cfg with queueSize := q' } (by show 0 < q'; omega) ops hfuel
  exact ⟨s', h2, Approx.C99_queue_size_irrelevant fuel q' cfg hM hf ops s s' h1 h2 hle hs ha hw⟩

/-- **C104** (Python ApproximateTimeSynchronizer).  For such inputs a queue size of more than `(D + G + slop - 1) / p` is enough:
another one of at least that size gives the same sets, and every set within the slop has a member in an output set. -/
theorem C104_python_approximate [NeZero n] (slop : Int) (hslop : 0 < slop) (allow : Bool) (q : Nat) (R : Nat → Fin n → Ev)
    (arr : Nat → Fin n → Int) (p G D : Int) (hp : 0 < p) (hpace : Paced R p) (halive : Alive R G) (hdelay : Delayed R arr D)
    (hq : D + G + (slop - 1) < q * p) (ops : List (Fin n × Ev)) (hdel : Delivers R ops) (hb : ByArrival arr ops) :
    ∃ s, Py.approxRun Py.noRaise slop allow (Py.construct n q) (Py.withHeaders ops) = .ok s ∧
      (∀ q', q ≤ q' → ∃ s', Py.approxRun Py.noRaise slop allow (Py.construct n (q' : Nat)) (Py.withHeaders ops) = .ok s' ∧
        s.out = s'.out) ∧
      ∀ T : Fin n → Ev, (∀ i, (i, T i) ∈ ops) → (∀ i j, (T i).stamp - (T j).stamp < slop) → ∃ t ∈ s.out, ∃ i, t i = T i := by
  have hq0 : 0 < q := size_pos hp hpace halive hdelay (by omega) hq
  have hacc : Py.accepted allow (Py.withHeaders ops) = ops := by
    simp [Py.accepted, Py.withHeaders, List.filter_map, Function.comp_def]
  have ha : Epsilon.AheadAtMost q (slop - 1) (Py.accepted allow (Py.withHeaders ops)) := by
    rw [hacc]; exact ahead_of_rates hp (by omega) hpace halive hdelay hdel hb hq
  have hs : ∀ i, StrictlyTimeSorted (stream (Py.accepted allow (Py.withHeaders ops)) i) := by
    rw [hacc]; exact fun i => hpace.strict hp hdel i
  obtain ⟨s, h1, _⟩ := Py.C66_approximate_always_returns_partial slop q allow (by omega) (Py.withHeaders ops)
  refine ⟨s, h1, fun q' hle => ?_, fun T hT hsp => ?_⟩
  · obtain ⟨s', h2, _⟩ := Py.C66_approximate_always_returns_partial slop q' allow (by omega) (Py.withHeaders ops)
    refine ⟨s', h2, ?_⟩
    have := Py.C101_queue_size_irrelevant Py.noRaise slop allow q q' hq0 (by omega) (Py.withHeaders ops)
      (fun i => (hs i).imp (fun h => by omega)) ha (fun k i j hij => Nat.le_trans (ha k i j hij) hle)
    rw [h1, h2] at this
    simp only [Except.map, Except.ok.injEq, Prod.mk.injEq] at this
    exact this.1
  · exact Py.C101_finds_matches slop allow q hq0 (Py.withHeaders ops) hs ha s h1 T (by rw [hacc]; exact hT) hsp

/-- The stamps newer than a set, on one input, when the last message of the set arrives. -/
private theorem few_newer {R : Nat → Fin n → Ev} {arr : Nat → Fin n → Int} {p D : Int} {m : Nat} (hp : 0 < p)
    (hpace : Paced R p) (hdelay : Delayed R arr D) {pre post : List (Fin n × Ev)} {i : Fin n} {e : Ev}
    (hdel : Delivers R (pre ++ (i, e) :: post)) (hb : ByArrival arr (pre ++ (i, e) :: post)) (hm : D < (m + 1) * p)
    (hall : ∀ j, j ≠ i → ∃ x ∈ stream pre j, x.stamp = e.stamp) {op : Fin n × Ev} (hop : op ∈ pre) (hnew : e.stamp < op.2.stamp) :
    op.1 ≠ i ∧ ∃ a, (R a op.1).stamp = e.stamp ∧ ∃ d, d < m ∧ op.2 = R (a + 1 + d) op.1 := by
  obtain ⟨j, x⟩ := op
  have hdel' : Delivers R pre := hdel.prefix ⟨(i, e) :: post, rfl⟩
  have hji : j ≠ i := by
    rintro rfl
    have := hpace.strict hp hdel j
    unfold StrictlyTimeSorted at this
    rw [stream_append, List.pairwise_append] at this
    have := this.2.2 x (mem_stream.2 hop) e (mem_stream.2 (by simp))
    simp at hnew
    omega
  refine ⟨hji, ?_⟩
  obtain ⟨y, hy, hye⟩ := hall j hji
  obtain ⟨a, _, rfl⟩ := hdel'.mem hy
  obtain ⟨k, hk, rfl⟩ := hdel'.mem (mem_stream.2 hop)
  have := newer_of_rates hp hpace hdelay hdel hb hm hye hk hnew
  refine ⟨a, hye, k - a - 1, by omega, ?_⟩
  show R k j = R (a + 1 + (k - a - 1)) j
  rw [show a + 1 + (k - a - 1) = k by omega]

/-- **C104** (ExactTime).  Let the stamps of every input be at least `p` apart, let messages arrive at most `D` after their stamp
and be delivered in the order of arrival.  If `D / p` is less than `m + 1`, a queue size of more than `(n - 1) m` is enough: the
output is that of an unlimited queue, all sets with equal stamps. -/
theorem C104_exact [NeZero n] (q m : Nat) (R : Nat → Fin n → Ev) (arr : Nat → Fin n → Int) (p D : Int) (hp : 0 < p)
    (hpace : Paced R p) (hdelay : Delayed R arr D) (hm : D < (m + 1) * p) (hq : (n - 1) * m < q)
    (ops : List (Fin n × Ev)) (hdel : Delivers R ops) (hb : ByArrival arr ops) :
    ∃ s s', ExactTime.run (ExactTime.construct n q) ops = .ok s ∧ ExactTime.run (ExactTime.construct n 0) ops = .ok s' ∧
      ExactTime.outs s.log = ExactTime.outs s'.log ∧
      ∀ t, t ∈ ExactTime.outs s.log ↔ ∃ T, ∀ i, ∃ e ∈ stream ops i, e.stamp = T ∧ t i = some e := by
  obtain ⟨s, h1⟩ := ExactTime.C15_never_faults q ops
  obtain ⟨s', h2⟩ := ExactTime.C15_never_faults 0 ops
  have hs := fun i => hpace.strict hp hdel i
  have key : ExactTime.outs s.log = ExactTime.outs s'.log := by
    refine ExactTime.C95_enough_room q (by omega) ops s s' h1 h2 hs ?_
    rintro pre i e post rfl hall
    intro l hl hx
    refine Nat.lt_of_le_of_lt ?_ hq
    have hsel : ∀ j, ∃ a, j ≠ i → (R a j).stamp = e.stamp := by
      intro j
      by_cases hj : j = i
      · exact ⟨0, fun h => absurd hj h⟩
      · obtain ⟨y, hy, hye⟩ := hall j hj
        obtain ⟨a, _, rfl⟩ := (hdel.prefix ⟨(i, e) :: post, rfl⟩).mem hy
        exact ⟨a, fun _ => hye⟩
    obtain ⟨a, ha⟩ := Classical.axiomOfChoice hsel
    have hlen : (((List.finRange n).erase i).flatMap (fun j => (List.range m).map (fun d => (R (a j + 1 + d) j).stamp))).length =
        (n - 1) * m := by
      have hlen' : ∀ L : List (Fin n), (L.flatMap (fun j => (List.range m).map (fun d => (R (a j + 1 + d) j).stamp))).length =
          L.length * m := by
        intro L
        induction L with
        | nil => simp
        | cons j L ih => rw [List.flatMap_cons, List.length_append, ih]; simp [Nat.add_mul, Nat.add_comm]
      rw [hlen', List.length_erase_of_mem (List.mem_finRange i)]
      simp
    rw [← hlen]
    refine Py.nodup_subset_length hl (fun x hxl => ?_)
    obtain ⟨hxT, op, hop, rfl⟩ := hx x hxl
    obtain ⟨hji, b, hb', d, hd, hd'⟩ := few_newer hp hpace hdelay hdel hb hm hall hop hxT
    have hab : a op.1 = b := by
      have := ha op.1 hji
      rcases Nat.lt_trichotomy (a op.1) b with h | h | h
      · have := hpace.lt hp op.1 h; omega
      · exact h
      · have := hpace.lt hp op.1 h; omega
    rw [List.mem_flatMap]
    refine ⟨op.1, ?_, List.mem_map.2 ⟨d, List.mem_range.2 hd, by rw [hab, ← hd']⟩⟩
    rw [(List.nodup_finRange n).mem_erase_iff]
    exact ⟨hji, List.mem_finRange _⟩
  refine ⟨s, s', h1, h2, key, fun t => ?_⟩
  rw [key]
  exact (ExactTime.C19_outputs_exactly_common_stamps ops s' h2 hs).2 t

/-- **C104** (ExactTime with a common trigger).  If moreover all inputs send with the same stamps, a queue size of more than
`D / p` is enough, with any number of inputs. -/
theorem C104_exact_common_trigger [NeZero n] (q : Nat) (R : Nat → Fin n → Ev) (arr : Nat → Fin n → Int) (p D : Int) (hp : 0 < p)
    (hpace : Paced R p) (hcommon : ∀ k i j, (R k i).stamp = (R k j).stamp) (hdelay : Delayed R arr D) (hq : D < q * p)
    (ops : List (Fin n × Ev)) (hdel : Delivers R ops) (hb : ByArrival arr ops) :
    ∃ s s', ExactTime.run (ExactTime.construct n q) ops = .ok s ∧ ExactTime.run (ExactTime.construct n 0) ops = .ok s' ∧
      ExactTime.outs s.log = ExactTime.outs s'.log ∧
      ∀ t, t ∈ ExactTime.outs s.log ↔ ∃ T, ∀ i, ∃ e ∈ stream ops i, e.stamp = T ∧ t i = some e := by
  have hq0 : 0 < q := by
    rcases Nat.eq_zero_or_pos q with rfl | h
    · have := hdelay.1 0 0; simp at hq; omega
    · exact h
  obtain ⟨m, rfl⟩ : ∃ m, q = m + 1 := ⟨q - 1, by omega⟩
  obtain ⟨s, h1⟩ := ExactTime.C15_never_faults (m + 1) ops
  obtain ⟨s', h2⟩ := ExactTime.C15_never_faults 0 ops
  have hs := fun i => hpace.strict hp hdel i
  have key : ExactTime.outs s.log = ExactTime.outs s'.log := by
    refine ExactTime.C95_enough_room (m + 1) (by omega) ops s s' h1 h2 hs ?_
    rintro pre i e post rfl hall
    intro l hl hx
    obtain ⟨a, he⟩ : ∃ a, e = R a i := by
      obtain ⟨a, _, h⟩ := hdel.mem (i := i) (x := e) (mem_stream.2 (by simp))
      exact ⟨a, h⟩
    have := Py.nodup_subset_length hl (l' := (List.range m).map (fun d => (R (a + 1 + d) i).stamp)) (fun x hxl => by
      obtain ⟨hxT, op, hop, rfl⟩ := hx x hxl
      obtain ⟨_, b, hb', d, hd, hd'⟩ := few_newer hp hpace hdelay hdel hb (by simpa using hq) hall hop hxT
      have hab : a = b := by
        rw [hcommon b op.1 i, he] at hb'
        rcases Nat.lt_trichotomy a b with h | h | h
        · have := hpace.lt hp i h; omega
        · exact h
        · have := hpace.lt hp i h; omega
      exact List.mem_map.2 ⟨d, List.mem_range.2 hd, by rw [hab, hd', hcommon _ i op.1]⟩)
    simp at this
    omega
  refine ⟨s, s', h1, h2, key, fun t => ?_⟩
  rw [key]
  exact (ExactTime.C19_outputs_exactly_common_stamps ops s' h2 hs).2 t

/-- **C104** (Python TimeSynchronizer).  For such inputs, with a common trigger or without, a queue size of more than `D / p` is
enough: all sets with equal stamps are output, in increasing order. -/
theorem C104_python_exact [NeZero n] (q : Nat) (R : Nat → Fin n → Ev) (arr : Nat → Fin n → Int) (p D : Int) (hp : 0 < p)
    (hpace : Paced R p) (hdelay : Delayed R arr D) (hq : D < q * p) (ops : List (Fin n × Ev)) (hdel : Delivers R ops)
    (hb : ByArrival arr ops) :
    ∃ s, Py.tsRun Py.noRaise (Py.construct n q) (Py.withHeaders ops) = .ok s ∧ (∀ t, t ∈ s.out ↔ Py.ExactSet ops t) ∧
      (s.out.map Py.stampOf).Pairwise (· < ·) := by
  have hq0 : 0 < q := by
    rcases Nat.eq_zero_or_pos q with rfl | h
    · have := hdelay.1 0 0; simp at hq; omega
    · exact h
  obtain ⟨m, rfl⟩ : ∃ m, q = m + 1 := ⟨q - 1, by omega⟩
  refine Py.C96_enough_room ((m + 1 : Nat) : Int) (by omega) ops (fun i => hpace.strict hp hdel i) ?_
  rintro pre i e post rfl hall j
  suffices h : newerOn pre j e.stamp ≤ m by omega
  unfold newerOn
  have hdel' : Delivers R pre := hdel.prefix ⟨(i, e) :: post, rfl⟩
  by_cases hj : j = i
  · rw [List.filter_eq_nil_iff.2]
    · simp
    · intro x hx hnew
      exact (few_newer hp hpace hdelay hdel hb (by simpa using hq) hall (mem_stream.1 hx) (by simpa using hnew)).1 hj
  · obtain ⟨y, hy, hye⟩ := hall j hj
    obtain ⟨a, _, rfl⟩ := hdel'.mem hy
    have hnd : (((stream pre j).filter (fun x => decide (e.stamp < x.stamp))).map (·.stamp)).Nodup :=
      List.pairwise_map.2 (((hpace.strict hp hdel' j).sublist List.filter_sublist).imp (fun h => by omega))
    have := Py.nodup_subset_length hnd (l' := (List.range m).map (fun d => (R (a + 1 + d) j).stamp)) (fun x hx => by
      obtain ⟨z, hz, rfl⟩ := List.mem_map.1 hx
      obtain ⟨hz, hnew⟩ := List.mem_filter.1 hz
      obtain ⟨k, hk, rfl⟩ := hdel'.mem hz
      have := newer_of_rates (m := m) hp hpace hdelay hdel hb (by simpa using hq) hye hk (by simpa using hnew)
      refine List.mem_map.2 ⟨k - a - 1, List.mem_range.2 (by omega), ?_⟩
      rw [show a + 1 + (k - a - 1) = k by omega])
    simpa using this

/-- Two inputs of period 100; the messages of the second are stamped 5 later and arrive 150 late. -/
def sensors : Nat → Fin 2 → Ev := fun k i => if i = 0 then ⟨2 * k, 100 * k⟩ else ⟨2 * k + 1, 100 * k + 5⟩

/-- When they arrive. -/
def sensorsArr : Nat → Fin 2 → Int := fun k i => if i = 0 then 100 * k else 100 * k + 155

def sensorOps : List (Fin 2 × Ev) :=
  [(0, ⟨0, 0⟩), (0, ⟨2, 100⟩), (1, ⟨1, 5⟩), (0, ⟨4, 200⟩), (1, ⟨3, 105⟩), (0, ⟨6, 300⟩), (1, ⟨5, 205⟩)]

theorem sensors_ok : Paced sensors 100 ∧ Alive sensors 100 ∧ Delayed sensors sensorsArr 150 ∧ Delivers sensors sensorOps ∧
    ByArrival sensorsArr sensorOps := by
  refine ⟨?_, ⟨?_, ?_⟩, ⟨?_, ?_⟩, ?_, byArrival_of_check (by decide)⟩
  · intro k i; unfold sensors; split <;> simp <;> omega
  · intro k i; unfold sensors; split <;> simp <;> omega
  · intro i j; unfold sensors; split <;> split <;> simp
  · intro k i; unfold sensors sensorsArr; split <;> simp <;> omega
  · intro k i; unfold sensorsArr; split <;> simp <;> omega
  · unfold Delivers; decide

/-- With epsilon 10, maximum interval 50 and slop 10 a queue size of 3 or 4 is enough by the theorems. -/
example : (150 : Int) + 100 + 10 < (3 : Nat) * 100 ∧ (150 : Int) + 100 + 50 < (4 : Nat) * 100 ∧ (∀ op ∈ sensorOps, op.2.stamp ≤ Epsilon.maxTime) ∧
    (∃ s, Epsilon.run 10 (Epsilon.construct 2 3 10) sensorOps = .ok s ∧ s.out.length = 3) ∧
    (∃ s, Approx.run 100 { Approx.sampleCfg with queueSize := 4 } sensorOps = .ok s ∧ s.out.length = 3) ∧
    ∃ s, Py.approxRun Py.noRaise 10 false (Py.construct 2 3) (Py.withHeaders sensorOps) = .ok s ∧ s.out.length = 3 :=
  ⟨by decide, by decide, by decide, ⟨_, rfl, by decide⟩, ⟨_, rfl, by decide⟩, _, rfl, by decide⟩

/-- A common trigger of period 10; the second input takes 10, exactly one period. -/
def trigger : Nat → Fin 2 → Ev := fun k i => if i = 0 then ⟨2 * k, 10 * k⟩ else ⟨2 * k + 1, 10 * k⟩

def triggerArr : Nat → Fin 2 → Int := fun k i => if i = 0 then 10 * k else 10 * k + 10

def triggerOps : List (Fin 2 × Ev) := [(0, ⟨0, 0⟩), (0, ⟨2, 10⟩), (1, ⟨1, 0⟩), (0, ⟨4, 20⟩), (1, ⟨3, 10⟩)]

theorem trigger_ok : Paced trigger 10 ∧ Alive trigger 10 ∧ (∀ k i j, (trigger k i).stamp = (trigger k j).stamp) ∧
    Delayed trigger triggerArr 10 ∧ Delivers trigger triggerOps ∧ ByArrival triggerArr triggerOps := by
  refine ⟨?_, ⟨?_, ?_⟩, ?_, ⟨?_, ?_⟩, ?_, byArrival_of_check (by decide)⟩
  · intro k i; unfold trigger; split <;> simp <;> omega
  · intro k i; unfold trigger; split <;> simp <;> omega
  · intro i j; unfold trigger; split <;> split <;> simp
  · intro k i j; unfold trigger; split <;> split <;> simp
  · intro k i; unfold trigger triggerArr; split <;> simp <;> omega
  · intro k i; unfold triggerArr; split <;> simp <;> omega
  · unfold Delivers; decide

/-- With a queue size of 2 the conditions for exact synchronization hold, `10 < 2 * 10` and `(2 - 1) * 1 < 2`, and both sets are
output. -/
example : (10 : Int) < (2 : Nat) * 10 ∧ (10 : Int) < ((1 : Nat) + 1) * 10 ∧ (2 - 1) * 1 < 2 ∧
    (∃ s, ExactTime.run (ExactTime.construct 2 2) triggerOps = .ok s ∧ (ExactTime.outs s.log).length = 2) ∧
    ∃ s, Py.tsRun Py.noRaise (Py.construct 2 2) (Py.withHeaders triggerOps) = .ok s ∧ s.out.length = 2 :=
  ⟨by decide, by decide, by decide, ⟨_, rfl, by decide⟩, _, rfl, by decide⟩

/-- **C104** (the bounds for exact synchronization are sharp).  If the delay is exactly `queue size * period`, sets are lost: with a
period and a delay of 10 and a queue size of 1 neither synchronizer outputs anything. -/
theorem C104_exact_delay_needed : ∃ (R : Nat → Fin 2 → Ev) (arr : Nat → Fin 2 → Int) (ops : List (Fin 2 × Ev)),
    Paced R 10 ∧ (∀ k i j, (R k i).stamp = (R k j).stamp) ∧ Delayed R arr 10 ∧ Delivers R ops ∧ ByArrival arr ops ∧
    (10 : Int) = (1 : Nat) * 10 ∧
    (∃ s, ExactTime.run (ExactTime.construct 2 1) ops = .ok s ∧ ExactTime.outs s.log = []) ∧
    (∃ s, ExactTime.run (ExactTime.construct 2 2) ops = .ok s ∧ (ExactTime.outs s.log).length = 2) ∧
    ∃ s, Py.tsRun Py.noRaise (Py.construct 2 1) (Py.withHeaders ops) = .ok s ∧ s.out.length = 0 :=
  ⟨trigger, triggerArr, triggerOps, trigger_ok.1, trigger_ok.2.2.1, trigger_ok.2.2.2.1, trigger_ok.2.2.2.2.1, trigger_ok.2.2.2.2.2,
    by decide, ⟨_, rfl, by decide⟩, ⟨_, rfl, by decide⟩, _, rfl, by decide⟩

/-- **C104** (the delay counts for approximate synchronization too).  The same inputs with a queue size of 1, which is more than
epsilon, or the maximum interval, or the slop, of 5 requires without the delay: all matches are lost. -/
theorem C104_delay_needed : ∃ (R : Nat → Fin 2 → Ev) (arr : Nat → Fin 2 → Int) (ops : List (Fin 2 × Ev)),
    Paced R 10 ∧ Alive R 10 ∧ Delayed R arr 10 ∧ Delivers R ops ∧ ByArrival arr ops ∧
    (∃ s, Epsilon.run 10 (Epsilon.construct 2 1 5) ops = .ok s ∧ s.out.length = 0) ∧
    (∃ s, Epsilon.run 10 (Epsilon.construct 2 3 5) ops = .ok s ∧ s.out.length = 2) ∧
    (∃ s, Approx.run 100 { Approx.sampleCfg with queueSize := 1, maxInterval := 5 } ops = .ok s ∧ s.out.length = 0) ∧
    (∃ s, Approx.run 100 { Approx.sampleCfg with queueSize := 3, maxInterval := 5 } ops = .ok s ∧ s.out.length = 2) ∧
    (∃ s, Py.approxRun Py.noRaise 5 false (Py.construct 2 1) (Py.withHeaders ops) = .ok s ∧ s.out.length = 0) ∧
    ∃ s, Py.approxRun Py.noRaise 5 false (Py.construct 2 3) (Py.withHeaders ops) = .ok s ∧ s.out.length = 2 :=
  ⟨trigger, triggerArr, triggerOps, trigger_ok.1, trigger_ok.2.1, trigger_ok.2.2.2.1, trigger_ok.2.2.2.2.1, trigger_ok.2.2.2.2.2,
    ⟨_, rfl, by decide⟩, ⟨_, rfl, by decide⟩, ⟨_, rfl, by decide⟩, ⟨_, rfl, by decide⟩, ⟨_, rfl, by decide⟩, _, rfl, by decide⟩

end MF
