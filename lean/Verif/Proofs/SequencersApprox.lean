import Verif.Proofs.Pipeline
import Verif.Proofs.SequencerRoom
/-
Lemmas for property C119: approximate policies behind one TimeSequencer per input.
-/
namespace MF.Pipeline

variable {n : Nat} {delay : Fin n → Int} {size : Fin n → Nat} {ops : List (Fin n × Sequencer.Op)}

theorem sequencers_grow (s : Sequencers n) (op : Fin n × Sequencer.Op) (s' : Sequencers n)
    (h : (Except.ok (Sequencers.step s op) : Except Fault (Sequencers n)) = .ok s') : s.out <+: s'.out := by
  cases h; exact List.prefix_append _ _

theorem sequencers_alone {s : Sequencers n}
    (h : runE (fun s op => .ok (Sequencers.step s op))
      { seq := fun i => Sequencer.construct (delay i) (size i), out := [] } ops = .ok s) (i : Fin n) :
    s.seq i = Sequencer.run (delay i) (size i) (callsOf i ops) ∧ stream s.out i = (s.seq i).out := by
  rw [runE_total] at h
  have h3 := sequencers_inv delay size ops
  rw [Except.ok.inj h] at h3
  exact h3 i

theorem sequencersEpsilon_ok [NeZero n] {fuel q : Nat} {eps : Int} {s : Sequencers n} {d : Epsilon.State n}
    (h : sequencersEpsilon fuel delay size q eps ops = .ok (s, d)) :
    (∀ i, s.seq i = Sequencer.run (delay i) (size i) (callsOf i ops) ∧ stream s.out i = (s.seq i).out) ∧
      Epsilon.run fuel (Epsilon.construct n q eps) s.out = .ok d := by
  have := run_factor sequencers_grow ops (s, d) h
  exact ⟨sequencers_alone this.2.1, this.2.2⟩

theorem sequencersApprox_ok [NeZero n] {fuel : Nat} {cfg : Approx.Cfg n} {s : Sequencers n} {d : Approx.State n}
    (h : sequencersApprox fuel delay size cfg ops = .ok (s, d)) :
    (∀ i, s.seq i = Sequencer.run (delay i) (size i) (callsOf i ops) ∧ stream s.out i = (s.seq i).out) ∧
      Approx.run fuel cfg s.out = .ok d := by
  unfold sequencersApprox at h
  unfold Approx.run Approx.runOps
  cases hc : Approx.construct n cfg with
  | error f => rw [hc] at h; cases h
  | ok d0 =>
    rw [hc] at h
    have := run_factor sequencers_grow ops (s, d) h
    refine ⟨sequencers_alone this.2.1, ?_⟩
    dsimp only
    rw [← runE_map]
    exact this.2.2

theorem sequencersEpsilon_runs [NeZero n] {fuel q : Nat} {eps : Int}
    (hrun : ∀ l : List (Fin n × Ev),
      l = (ops.foldl Sequencers.step { seq := fun i => Sequencer.construct (delay i) (size i), out := [] }).out →
      ∃ d, Epsilon.run fuel (Epsilon.construct n q eps) l = .ok d) :
    ∃ s d, sequencersEpsilon fuel delay size q eps ops = .ok (s, d) := by
  obtain ⟨d, hd⟩ := hrun _ rfl
  exact ⟨_, d, run_exists sequencers_grow ops _ d (runE_total _ _ _) hd⟩

theorem sequencersApprox_runs [NeZero n] {fuel : Nat} {cfg : Approx.Cfg n}
    (hrun : ∀ l : List (Fin n × Ev),
      l = (ops.foldl Sequencers.step { seq := fun i => Sequencer.construct (delay i) (size i), out := [] }).out →
      ∃ d, Approx.run fuel cfg l = .ok d) :
    ∃ s d, sequencersApprox fuel delay size cfg ops = .ok (s, d) := by
  obtain ⟨d, hd⟩ := hrun _ rfl
  unfold sequencersApprox
  unfold Approx.run Approx.runOps at hd
  cases hc : Approx.construct n cfg with
  | error f => rw [hc] at hd; cases hd
  | ok d0 =>
    rw [hc] at hd
    dsimp only at hd ⊢
    rw [← runE_map] at hd
    exact ⟨_, d, run_exists sequencers_grow ops _ d (runE_total _ _ _) hd⟩

end MF.Pipeline
