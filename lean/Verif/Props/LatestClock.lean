import Verif.Proofs.LatestClock
import Verif.Props.Latest
/-
Property C77: LatestTime when its clock is replaced (`setClock`) or set back, and the exact faults of LatestTime.
-/
namespace MF.Latest

open MF.Event (Time)
open Arith

variable {n : Nat} {D : Type} [Arith D]

/-- **C77**, clock of another type.  Once every input has delivered, no message that arrives under a clock of another type causes
an output or changes a rate: the policy only keeps the latest messages, however long that goes on.  (It goes on from there when
the old clock is restored.) -/
theorem C77_other_clock_silent (dflt : Config D) (configs : List (Config D)) (src : Source) (ops later : List (Op n))
    (s : State n D) (h : run dflt (initial n configs) ops = .ok s) (hc : OneClock src ops)
    (hall : ∀ i, deliveries ops i ≠ []) (hl : OtherClock src later) :
    run dflt (initial n configs) (ops ++ later) = .ok { s with events := receive later s.events } := by
  have h0 : run dflt (initial n configs) (ops ++ later) = run dflt s later := by
    unfold run at h ⊢
    rw [runE_append, h]
  rw [h0]
  apply run_rejected
  intro op hop
  have hlen := (run_rates ops s h).1
  have hsrc := run_sources ops s h hc
  have hn : (firstArrivals ops).length = n := by
    have h1 := (firstArrivals_nodup ops).length_le_of_subset (l₂ := List.finRange n) (fun x _ => List.mem_finRange x)
    have h2 := (List.nodup_finRange n).length_le_of_subset (l₂ := firstArrivals ops)
      (fun x _ => (mem_firstArrivals ops x).2 (hall x))
    simp at h1 h2
    omega
  refine ⟨?_, ?_⟩
  · rw [(run_events ops s h).1]
    exact fun hx => hall _ ((lastMsg_none _ _).1 hx)
  · have hlt : op.input.val < s.rates.length := by rw [hlen, hn]; exact op.input.isLt
    refine ⟨s.rates[op.input.val], List.getElem?_eq_getElem hlt, ?_⟩
    rintro ⟨d, hd, _⟩
    unfold timeSub at hd
    rw [if_pos (by rw [hsrc _ (List.getElem_mem hlt)]; exact hl op hop)] at hd
    cases hd

/-- **C77**, clock set back.  While every message arrives at a reading no later than one at which its input has already delivered
(other than for the first time), nothing is output and no rate changes; only the latest messages are kept.  So after the clock is
set back by some time, that time must pass again before anything is output. -/
theorem C77_set_back_silent [Lawful D] (dflt : Config D) (configs : List (Config D)) (src : Source) (ops later : List (Op n))
    (s : State n D) (h : run dflt (initial n configs) ops = .ok s) (hc : OneClock src (ops ++ later))
    (hl : SetBack ops later) :
    run dflt (initial n configs) (ops ++ later) = .ok { s with events := receive later s.events } := by
  have hc1 : OneClock src ops := fun o ho => hc o (by simp [ho])
  have h0 : run dflt (initial n configs) (ops ++ later) = run dflt s later := by
    unfold run at h ⊢
    rw [runE_append, h]
  rw [h0]
  apply run_rejected
  intro op hop
  obtain ⟨a, o, b, h1, h2, h3, h4⟩ := hl op hop
  obtain ⟨r, hr, hle⟩ := run_prev ops s h hc1 a o b h1 h3
  refine ⟨?_, r, by rw [← h2]; exact hr, ?_⟩
  · rw [(run_events ops s h).1]
    intro hx
    have := (lastMsg_none _ _).1 hx
    have hm : o ∈ deliveries ops op.input := by
      unfold deliveries
      rw [List.mem_filter]
      exact ⟨by rw [h1]; simp, by simp [h2]⟩
    rw [this] at hm
    cases hm
  · rintro ⟨d, hd1, hd2⟩
    rw [Lawful.le_seconds] at hd2
    unfold timeSub at hd1
    split at hd1
    · cases hd1
    · cases hd1
      simp at hd2
      omega

/-- `sample` followed by messages under a steady clock, and by messages after the clock went back to 1 s, meets the hypotheses. -/
def steadyLater : List (Op 2) := [⟨0, ⟨7, 0⟩, ⟨5000000000, .steady⟩⟩, ⟨1, ⟨8, 0⟩, ⟨6000000000, .steady⟩⟩]
def backLater : List (Op 2) := [⟨0, ⟨7, 0⟩, ⟨1000000000, .ros⟩⟩, ⟨1, ⟨8, 0⟩, ⟨1000000001, .ros⟩⟩]

example : OneClock .ros sample ∧ (∀ i, deliveries sample i ≠ []) ∧ OtherClock .ros steadyLater ∧
    OneClock .ros (sample ++ backLater) ∧
    outputs (run Fixed.dflt (initial 2 []) (sample ++ steadyLater)) = outputs (run Fixed.dflt (initial 2 []) sample) ∧
    outputs (run Fixed.dflt (initial 2 []) (sample ++ backLater)) = some [[3, 2], [4, 2], [6, 5]] := by
  unfold OneClock OtherClock
  decide

example : SetBack sample backLater := by
  intro op hop
  simp only [backLater, List.mem_cons, List.not_mem_nil, or_false] at hop
  rcases hop with rfl | rfl
  · exact ⟨sample.take 2, _, sample.drop 3, rfl, rfl, by decide, by decide⟩
  · exact ⟨sample.take 4, _, sample.drop 5, rfl, rfl, by decide, by decide⟩

/-- **C36**, exactly when a message is undefined behaviour: its input has delivered before, and either the rate table is too
short, or the new rates cannot be sorted (a NaN). -/
theorem C36_undefined_iff (dflt : Config D) (s : State n D) (i : Fin n) (e : Ev) (now : Time) :
    add dflt s i e now = .error .ub ↔ s.events i ≠ none ∧
      (s.rates[i.val]? = none ∨
       ∃ r r', s.rates[i.val]? = some r ∧ r.computeHz fuel now = .ok (true, r') ∧
         ¬ Sortable ((s.rates.set i r').map (·.hz))) := by
  unfold add
  cases hv : s.events i with
  | none => simp
  | some e0 =>
    dsimp only
    cases hr : s.rates[i.val]? with
    | none => simp
    | some r =>
      dsimp only
      obtain ⟨b, r', h1, _⟩ := computeHz_ok r now
      rw [h1]
      cases b with
      | false =>
        dsimp only
        constructor
        · intro h; cases h
        · rintro ⟨_, h | ⟨r1, r2, h2, h3, _⟩⟩
          · cases h
          · cases h2; rw [h1] at h3; cases h3
      | true =>
        dsimp only
        constructor
        · intro h
          refine ⟨by simp, Or.inr ⟨r, r', rfl, h1, ?_⟩⟩
          cases hf : findPivot (s.rates.set i.val r') now with
          | error f =>
            rw [hf] at h
            dsimp only at h
            cases h
            rcases findPivot_fault hf with ⟨_, h2⟩ | ⟨h2, _⟩
            · exact h2
            · cases h2
          | ok p =>
            rw [hf] at h
            dsimp only at h
            split at h <;> cases h
        · rintro ⟨_, h | ⟨r1, r2, h2, h3, h4⟩⟩
          · cases h
          · cases h2
            rw [h1] at h3
            cases h3
            rw [findPivot_unsortable h4]

/-- **C77**: the only other way a message can fail is an exception, and only if some rate was last updated under a clock of
another type than that of the message. -/
theorem C77_throws_only_if_mixed (dflt : Config D) (s : State n D) (i : Fin n) (e : Ev) (now : Time) (f : Fault)
    (h : add dflt s i e now = .error f) (hf : f ≠ .ub) :
    f = .threw ∧ s.events i ≠ none ∧ ∃ r ∈ s.rates, r.prev.source ≠ now.source := by
  unfold add at h
  cases hv : s.events i with
  | none => rw [hv] at h; cases h
  | some e0 =>
    rw [hv] at h
    dsimp only at h
    cases hr : s.rates[i.val]? with
    | none => rw [hr] at h; cases h; exact absurd rfl hf
    | some r =>
      rw [hr] at h
      dsimp only at h
      obtain ⟨b, r', h1, _, h3, _⟩ := computeHz_ok r now
      rw [h1] at h
      cases b with
      | false => cases h
      | true =>
        dsimp only at h
        cases hp : findPivot (s.rates.set i.val r') now with
        | error g =>
          rw [hp] at h
          cases h
          rcases findPivot_fault hp with ⟨h2, _⟩ | ⟨h2, _, x, hx, hs⟩
          · exact absurd h2 hf
          · refine ⟨h2, by simp, x, ?_, hs⟩
            rcases List.mem_or_eq_of_mem_set hx with hx | hx
            · exact hx
            · subst hx
              rw [(h3 rfl).1] at hs
              exact absurd rfl hs
        | ok p =>
          rw [hp] at h
          dsimp only at h
          split at h <;> cases h

/-- C77 is false in general: input 0 delivers at 10 Hz under the ROS clock; then the clock is replaced by a steady one and input 1
delivers twice, a second apart.  The second of these messages throws. -/
theorem C77_mixed_clocks_throw : ∃ ops : List (Op 2),
    (match run Fixed.dflt (initial 2 []) ops with | .error .threw => true | _ => false) = true :=
  ⟨[⟨0, ⟨1, 0⟩, ⟨0, .ros⟩⟩, ⟨0, ⟨9, 0⟩, ⟨100000000, .ros⟩⟩, ⟨1, ⟨2, 0⟩, ⟨10, .steady⟩⟩,
     ⟨1, ⟨3, 0⟩, ⟨1000000010, .steady⟩⟩], by decide⟩

/-- A type of numbers with a NaN. -/
inductive WithNaN where
  | nan
  | num (i : Int)
deriving DecidableEq

instance : Arith WithNaN where
  zero := .num 0
  one := .num 1000000000
  add a b := match a, b with | .num a, .num b => .num (a + b) | _, _ => .nan
  sub a b := match a, b with | .num a, .num b => .num (a - b) | _, _ => .nan
  mul a b := match a, b with | .num a, .num b => .num (a * b / 1000000000) | _, _ => .nan
  div a b := match a, b with | .num a, .num b => .num (a * 1000000000 / b) | _, _ => .nan
  fabs a := match a with | .num a => .num (if a < 0 then -a else a) | .nan => .nan
  gt a b := match a, b with | .num a, .num b => decide (b < a) | _, _ => false
  le a b := match a, b with | .num a, .num b => decide (a ≤ b) | _, _ => false
  eq a b := match a, b with | .num a, .num b => decide (a = b) | _, _ => false
  seconds d := .num d

/-- C36 with a smoothing factor that is not a number for input 0 (`setRateConfigPerMessage`): as soon as the three inputs have
rates, sorting them is undefined behaviour. -/
theorem C36_nan_undefined : ∃ ops : List (Op 3), OneClock .ros ops ∧ InOrder ops ∧
    (match run (D := WithNaN) ⟨.num 900000000, .num 300000000, .num 10000000000⟩
        (initial 3 [⟨.nan, .num 300000000, .num 10000000000⟩, ⟨.num 900000000, .num 300000000, .num 10000000000⟩,
          ⟨.num 900000000, .num 300000000, .num 10000000000⟩]) ops with
      | .error .ub => true | _ => false) = true := by
  refine ⟨[⟨0, ⟨1, 0⟩, ⟨0, .ros⟩⟩, ⟨1, ⟨2, 0⟩, ⟨0, .ros⟩⟩, ⟨2, ⟨3, 0⟩, ⟨0, .ros⟩⟩, ⟨1, ⟨4, 0⟩, ⟨1000000000, .ros⟩⟩,
    ⟨2, ⟨5, 0⟩, ⟨500000000, .ros⟩⟩, ⟨0, ⟨6, 0⟩, ⟨1000000000, .ros⟩⟩, ⟨0, ⟨7, 0⟩, ⟨2000000000, .ros⟩⟩], ?_, ?_, ?_⟩
  · unfold OneClock; decide
  · unfold InOrder; decide
  · decide

end MF.Latest
