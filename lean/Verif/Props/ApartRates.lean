import Verif.Props.Apart
import Verif.Props.Rates
/-
C108 for inputs with known rates and delays.
-/
namespace MF

variable {n : Nat}

/-- **C108** (Python, known rates and delays).  Stamps at least `p > 2 * (slop - 1)` apart, messages delivered in the order of arrival and
arriving at most `D` after their stamp: a queue size of more than `(D + slop - 1) / p` is enough. -/
theorem C108_python_rates [NeZero n] (slop : Int) (hslop : 0 < slop) (allow : Bool) (q : Nat) (R : Nat → Fin n → Ev)
    (arr : Nat → Fin n → Int) (p D : Int) (hp : 2 * (slop - 1) < p) (hpace : Paced R p) (hdelay : Delayed R arr D)
    (hq : D + (slop - 1) < q * p) (ops : List (Fin n × Ev)) (hdel : Delivers R ops) (hb : ByArrival arr ops) :
    ∃ s, Py.approxRun Py.noRaise slop allow (Py.construct n q) (Py.withHeaders ops) = .ok s ∧ s.out.Nodup ∧
      ∀ T, T ∈ s.out ↔ Matches (slop - 1) ops T := by
  have hq0 : 0 < q := by
    rcases Nat.eq_zero_or_pos q with rfl | h
    · have := hdelay.1 0 0
      rw [Int.natCast_zero, Int.zero_mul] at hq
      omega
    · exact h
  have hacc : Py.accepted allow (Py.withHeaders ops) = ops := by
    simp [Py.accepted, Py.withHeaders, List.filter_map, Function.comp_def]
  have := Py.C108_python slop hslop allow q (Py.withHeaders ops) (by
      rw [hacc]
      exact fun i => (hpace.stream_spaced (by omega) hdel i).imp (fun h => by omega)) (by
      rw [hacc]
      exact Py.reach_of_rates (by omega) hq0 hpace hdelay hdel hb (by omega))
  rw [hacc] at this
  exact this

/-- **C108** (ApproximateTime, known rates and delays).  Stamps more than twice the maximum interval and at most `G` apart, messages
delivered in the order of arrival and arriving at most `D` after their stamp: with a queue size of more than
`(D + G + maximum interval) / p` all matching sets but at most one, the newest, have been output. -/
theorem C108_approximate_rates [NeZero n] (cfg : Approx.Cfg n) (hM : 0 ≤ cfg.maxInterval) (hf : ∀ x, 0 ≤ x → x ≤ cfg.scale x)
    (R : Nat → Fin n → Ev) (arr : Nat → Fin n → Int) (p G D : Int) (hp : 2 * cfg.maxInterval < p) (hpace : Paced R p)
    (halive : Alive R G) (hdelay : Delayed R arr D) (hq : D + G + cfg.maxInterval < cfg.queueSize * p) (ops : List (Fin n × Ev))
    (hdel : Delivers R ops) (hb : ByArrival arr ops) (fuel : Nat) (hfuel : ops.length * ops.length + ops.length ≤ fuel) :
    ∃ s, Approx.run fuel cfg ops = .ok s ∧ s.out.Nodup ∧
      (∀ t ∈ s.out, ∃ T, t = (fun i => some (T i)) ∧ Matches cfg.maxInterval ops T) ∧
      (∀ T, Matches cfg.maxInterval ops T → (fun i => some (T i)) ∈ s.out ∨
        ∃ a, (∀ j, (T a).stamp ≤ (T j).stamp) ∧ ∃ older, stream ops a = older ++ [T a]) ∧
      ∀ T T', Matches cfg.maxInterval ops T → Matches cfg.maxInterval ops T' → (fun i => some (T i)) ∉ s.out →
        (fun i => some (T' i)) ∉ s.out → T = T' := by
  have hq0 : 0 < cfg.queueSize := by
    rcases Nat.eq_zero_or_pos cfg.queueSize with h | h
    · have h1 := hdelay.1 0 0
      have h2 := hpace 0 0
      have h3 := halive.1 0 0
      rw [h, Int.natCast_zero, Int.zero_mul] at hq
      omega
    · exact h
  have hstrict := fun i => hpace.strict (by omega) hdel i
  exact Approx.C108_approximate cfg hM hf hq0 ops (fun i => (hstrict i).imp (fun h => Int.le_of_lt h))
    (fun i => (hpace.stream_spaced (by omega) hdel i).imp (fun h => by omega))
    (ahead_of_rates (by omega) hM hpace halive hdelay hdel hb hq) fuel hfuel

/-- The hypotheses are met by the inputs of C104 that send every 10 and arrive up to 10 late, with a tolerance of 4. -/
example : Paced trigger 10 ∧ Alive trigger 10 ∧ Delayed trigger triggerArr 10 ∧ Delivers trigger triggerOps ∧
    ByArrival triggerArr triggerOps ∧ (2 * (5 - 1) : Int) < 10 ∧ (10 + (5 - 1) : Int) < (2 : Nat) * 10 ∧ (10 + 10 + 4 : Int) < (3 : Nat) * 10 ∧
    (∃ s, Py.approxRun Py.noRaise 5 false (Py.construct 2 2) (Py.withHeaders triggerOps) = .ok s ∧ s.out.length = 2) ∧
    ∃ s, Approx.run 100 { Approx.sampleCfg with queueSize := 3, maxInterval := 4 } triggerOps = .ok s ∧ s.out.length = 2 :=
  ⟨trigger_ok.1, trigger_ok.2.1, trigger_ok.2.2.2.1, trigger_ok.2.2.2.2.1, trigger_ok.2.2.2.2.2, by decide, by decide, by decide,
    ⟨_, rfl, by decide⟩, _, rfl, by decide⟩

end MF
