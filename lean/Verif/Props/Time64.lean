import Verif.Proofs.Time64b
/-
Property C56: 64-bit time arithmetic.  Model: Model/Time64.lean; vocabulary: Spec/Time64.lean.
-/
namespace MF.Time64

/-- **C56**.  Differences of header stamps, and sums of a header stamp and a duration up to the default maximum, fit into 64 bits. -/
theorem C56_no_overflow (a b d : Int) (ha : HeaderStamp a) (hb : HeaderStamp b) (hd : DurationOk d) :
    checked (a - b) = .ok (a - b) ∧ checked (a + d) = .ok (a + d) :=
  ⟨checked_sub (header_range ha).r2 (header_range hb).r2, checked_add (header_range ha) hd⟩

/-- Non-vacuity: the largest and the smallest header stamp. -/
example : HeaderStamp 2147483651294967295 ∧ HeaderStamp 0 ∧ DurationOk 2147483647999999999 :=
  ⟨⟨⟨2147483647, 4294967295⟩, by simp [Header.typed], rfl⟩, ⟨⟨0, 0⟩, by simp [Header.typed], rfl⟩, by
    unfold DurationOk Approx.maxDuration; omega⟩

/-- **C56**.  Every header with non-negative seconds has a time; one with negative seconds makes the conversion throw. -/
theorem C56_header_time (h : Header) (ht : h.typed) :
    (0 ≤ h.sec → h.time = .ok (h.sec * 1000000000 + h.nanosec)) ∧ (h.sec < 0 → h.time = .error .threw) := by
  obtain ⟨h1, h2, h3, h4⟩ := ht
  unfold Header.time
  constructor
  · intro h5
    rw [if_neg (by omega)]
    exact checked_ok (by unfold int64Min; omega) (by unfold int64Max; omega)
  · intro h5; rw [if_pos h5]

example : (⟨2147483647, 4294967295⟩ : Header).typed ∧ (⟨-2147483648, 0⟩ : Header).typed := by simp [Header.typed]

/-- **C56**.  For normalised headers (`nanosec` below 10^9), comparing times is comparing seconds, then nanoseconds; equal times
are equal headers. -/
theorem C56_header_order (h h' : Header) (x x' : Int) (ht : h.typed) (ht' : h'.typed) (hn : h.nanosec < 1000000000)
    (hn' : h'.nanosec < 1000000000) (hx : h.time = .ok x) (hx' : h'.time = .ok x') :
    (x < x' ↔ h.sec < h'.sec ∨ (h.sec = h'.sec ∧ h.nanosec < h'.nanosec)) ∧ (x = x' ↔ h = h') := by
  have key : ∀ (g : Header) (y : Int), g.time = .ok y → y = g.sec * 1000000000 + g.nanosec := by
    intro g y hy
    unfold Header.time checked at hy
    split at hy
    · cases hy
    · split at hy
      · cases hy; rfl
      · cases hy
  have e1 := key h x hx
  have e2 := key h' x' hx'
  obtain ⟨_, _, h3, _⟩ := ht
  obtain ⟨_, _, h3', _⟩ := ht'
  refine ⟨by omega, ?_, ?_⟩
  · intro he
    cases h; cases h'
    simp only at *
    congr 1 <;> omega
  · intro he; subst he; omega

example : (⟨5, 10⟩ : Header).time = .ok 5000000010 ∧ (⟨5, 999999999⟩ : Header).time = .ok 5999999999 := ⟨rfl, rfl⟩

section
open Approx
variable {n : Nat}

/-- The arguments of the calls are header stamps, age penalties from 0 to 1 and durations up to the default maximum. -/
def ApproxArgs : Op n → Prop
  | .add _ e => HeaderStamp e.stamp
  | .setAgePenalty _ scale => AgeOk scale
  | .setInterMessageLowerBound _ d => DurationOk d
  | .setMaxIntervalDuration _ => True

/-- **C56** (ApproximateTime).  With header stamps, in any order, age penalties from 0 to 1 and lower bounds up to the default
maximum duration, the policy computes with 64 bits what it would compute with unbounded integers; in particular no call
throws because of an overflow, and all properties of the other model hold for it. -/
theorem C56_approx_exact [NeZero n] (fuel : Nat) (cfg : Cfg n) (hage : AgeOk cfg.scale)
    (hlow : ∀ i, 0 ≤ cfg.lower i ∧ DurationOk (cfg.lower i)) (ops : List (Op n)) (hops : ∀ op ∈ ops, ApproxArgs op) :
    approxRun fuel cfg ops = runOps fuel cfg ops := by
  unfold approxRun runOps
  cases hc : construct n cfg with
  | error f => rfl
  | ok s =>
    have hz : R 0 := by unfold R maxStamp; omega
    have hs : Rng s := by
      unfold construct at hc
      split at hc
      · cases hc
        exact ⟨⟨fun i => ⟨(hlow i).1, (hlow i).2.2⟩, hage⟩, fun _ _ h => absurd h (by simp), fun _ _ h => absurd h (by simp), hz,
          hz, hz⟩
      · cases hc
    refine approxRunE_eq fuel ops s hs ?_
    intro op hop
    have := hops op hop
    cases op with
    | add i e => exact header_range this
    | setAgePenalty b f => exact this
    | setInterMessageLowerBound i d => exact this
    | setMaxIntervalDuration d => trivial

/-- The default age penalty 0.1. -/
example : AgeOk (fun x => (x * 11).tdiv 10) := ⟨11, 10, by omega, by omega, by omega, rfl⟩

/-- Non-vacuity: the extreme stamps. -/
example : ∃ s, approxRun 100 (⟨10, maxDuration, fun x => (x * 11).tdiv 10, fun _ => 0⟩ : Cfg 2)
      [.add 0 ⟨1, 0⟩, .add 0 ⟨2, 2147483651294967295⟩, .add 1 ⟨3, 1⟩] = .ok s ∧
    s.out.map List.ofFn = [[some ⟨1, 0⟩, some ⟨3, 1⟩]] := ⟨_, rfl, by decide⟩

/-- Finding: outside these bounds `add` throws.  With age penalty 9 one message with an unset stamp (0) is enough if the others
carry the current time. -/
theorem C56_age_penalty_overflow :
    approxRun 100 (⟨10, maxDuration, fun x => (x * 10).tdiv 1, fun _ => 0⟩ : Cfg 2)
      [.add 0 ⟨1, 0⟩, .add 0 ⟨2, 1700000000000000000⟩, .add 1 ⟨3, 1⟩] = .error .threw := rfl

end

section
open Epsilon
variable {n : Nat}

/-- **C56** (ApproximateEpsilonTime).  With header stamps and an epsilon up to the default maximum duration, 64-bit arithmetic is
exact. -/
theorem C56_epsilon_exact (fuel q : Nat) (eps : Int) (heps : DurationOk eps) (ops : List (Fin n × Ev))
    (hops : ∀ op ∈ ops, HeaderStamp op.2.stamp) :
    epsilonRun fuel (construct n q eps) ops = run fuel (construct n q eps) ops :=
  epsilonRun_eq fuel ops _ ⟨heps, fun _ _ h => absurd h (by simp [construct])⟩ (fun op ho => header_range (hops op ho))

example : ∃ s, epsilonRun 10 (construct 2 5 2147483647999999999) [(0, ⟨1, 2147483651294967295⟩), (1, ⟨2, 0⟩)] = .ok s ∧
    List.ofFn s.events = [[⟨1, 2147483651294967295⟩], []] := ⟨_, rfl, by decide⟩

/-- Finding: with the largest 64-bit duration as epsilon ("accept anything") the first comparison throws. -/
theorem C56_epsilon_overflow :
    epsilonRun 10 (construct 2 5 int64Max) [(0, ⟨1, 5⟩), (1, ⟨2, 5⟩)] = .error .threw := rfl

end

section
open Aligner
variable {n : Nat}

/-- The arguments of the calls are header stamps and durations up to the default maximum. -/
def AlignerArgs : Op n → Prop
  | .add _ e => HeaderStamp e.stamp
  | .setPeriod _ d => DurationOk d
  | .dispatch => True

/-- **C56** (InputAligner).  With header stamps and input periods up to the default maximum duration, and any timeout, 64-bit
arithmetic is exact. -/
theorem C56_aligner_exact (fuel : Nat) (timeout : Int) (ops : List (Op n)) (hops : ∀ op ∈ ops, AlignerArgs op) :
    alignerRun fuel timeout ops = run fuel timeout ops := by
  refine alignerRunE_eq fuel ops _ ⟨by show R 0; unfold R maxStamp; omega,
    fun i => ⟨fun _ h => absurd h (by simp [construct, Queue.init]), ?_, ?_⟩⟩ ?_
  · show R3 maxTime
    unfold R3 maxTime maxStamp Approx.maxDuration; omega
  · show DurationOk 0
    unfold DurationOk Approx.maxDuration; omega
  · intro op hop
    have := hops op hop
    cases op with
    | add i e => exact header_range this
    | setPeriod i d => exact this
    | dispatch => trivial

example : ∃ s, alignerRun 30 100 ([.setPeriod 1 2147483647999999999, .add 0 ⟨1, 0⟩, .add 1 ⟨2, 2147483647000000000⟩, .dispatch] :
      List (Op 2)) = .ok s ∧ s.out = [(0, ⟨1, 0⟩), (1, ⟨2, 2147483647000000000⟩)] := ⟨_, rfl, by decide⟩

end

section
open Sequencer

/-- **C56** (TimeSequencer).  With header stamps and a delay up to the default maximum duration, 64-bit arithmetic is exact; no
dispatch throws. -/
theorem C56_sequencer_exact (delay : Int) (hd : DurationOk delay) (q : Nat) (ops : List Op)
    (hops : ∀ m, Op.add m ∈ ops → HeaderStamp m.ev.stamp) :
    sequencerRun delay q ops = .ok (run delay q ops) :=
  sequencerRun_eq hd ops _ rfl (fun _ h => absurd h (by simp [construct])) (fun m hm => header_range (hops m hm))

example : ∃ s, sequencerRun 2147483647999999999 10 [.add ⟨⟨1, 2147483651294967295⟩, .system⟩, .tick (fun _ => int64Max)] = .ok s ∧
    s.out = [⟨1, 2147483651294967295⟩] := ⟨_, rfl, by decide⟩

end

end MF.Time64
