import Verif.Props.ApproxMaximal
import Verif.Props.ApproxLive
import Verif.Props.Rates
/-
C98 and C94 together: while every input keeps delivering, every possible set is decided soon.
-/
namespace MF.Approx
open MF.ApproxSpec (Spaced)

variable {n : Nat}

/-- **C98** (within four windows).  While every input keeps delivering (C94), each possible set is decided at the latest four windows
after its messages: it is output, or it shares a message with an output set or crosses one. -/
theorem C98_decided_within_four_windows [NeZero n] (fuel : Nat) (cfg : Cfg n) (num den : Int) (hden : 0 < den) (hnum : 0 ≤ num)
    (hscale : cfg.scale = fun x => (x * num).tdiv den) (hlow : ∀ i, 0 ≤ cfg.lower i)
    (m : Nat) (hm : 5 * m ≤ cfg.queueSize) (ws : List (List (Fin n × Ev))) (w1 w2 w3 w4 : List (Fin n × Ev))
    (hS : Sustained cfg.maxInterval m (ws ++ [w1, w2, w3, w4]))
    (hsp : ∀ i, Spaced (cfg.lower i) (stream (ws ++ [w1, w2, w3, w4]).flatten i))
    (hs : ∀ i, StrictlyTimeSorted (stream (ws ++ [w1, w2, w3, w4]).flatten i))
    (s : State n) (h : run fuel cfg (ws ++ [w1, w2, w3, w4]).flatten = .ok s)
    (T : Fin n → Ev) (hT : ∀ i, (i, T i) ∈ ws.flatten) (hfit : ∀ i j, (T i).stamp - (T j).stamp ≤ cfg.maxInterval) :
    ∃ S ∈ s.out, Conflict S T := by
  obtain ⟨t, ht, hlt⟩ := C94_recent fuel cfg num den hden hnum hscale hlow m hm ws w1 w2 w3 w4 hS hsp s h
  exact C98_maximal fuel cfg _ s h (C94_no_overflow fuel cfg num den hden hnum hscale hlow m _ hS hsp hm) hs T
    (fun i => by simp only [List.flatten_append]; exact List.mem_append_left _ (hT i)) hfit _ ht 0 (t 0) rfl (hlt (0, T 0) (hT 0) 0)

/-- **C98** (known rates and delays).  Under the conditions of C104 on the queue size, every possible set that is older than some output
set on some input is output or conflicts with an output set. -/
theorem C98_rates [NeZero n] (cfg : Cfg n) (hM : 0 ≤ cfg.maxInterval) (hf : ∀ x, 0 ≤ x → x ≤ cfg.scale x)
    (R : Nat → Fin n → Ev) (arr : Nat → Fin n → Int) (p G D : Int) (hp : 0 < p) (hpace : Paced R p) (halive : Alive R G)
    (hdelay : Delayed R arr D) (hq : D + G + cfg.maxInterval < cfg.queueSize * p) (ops : List (Fin n × Ev))
    (hdel : Delivers R ops) (hb : ByArrival arr ops) (fuel : Nat) (hfuel : ops.length * ops.length + ops.length ≤ fuel) :
    ∃ s, run fuel cfg ops = .ok s ∧
      ∀ T : Fin n → Ev, (∀ i, (i, T i) ∈ ops) → (∀ i j, (T i).stamp - (T j).stamp ≤ cfg.maxInterval) →
        ∀ S ∈ s.out, ∀ i a, S i = some a → (T i).stamp < a.stamp → ∃ S' ∈ s.out, Conflict S' T := by
  obtain ⟨s, h1, h2, _⟩ := C104_approximate cfg hM hf R arr p G D hp hpace halive hdelay hq ops hdel hb fuel hfuel
  exact ⟨s, h1, fun T hT hsp S hS i a ha hlt =>
    C98_maximal fuel cfg ops s h1 h2 (fun i => hpace.strict hp hdel i) T hT hsp S hS i a ha hlt⟩

/-- The hypotheses hold for the six windows of C94; the set of the messages at 20 and 0 of the first window is possible. -/
example : Sustained liveCfg.maxInterval 2 liveWindows ∧ liveWindows = liveWindows.take 2 ++ liveWindows.drop 2 ∧
    (∀ i, StrictlyTimeSorted (stream liveWindows.flatten i)) ∧
    (∀ i : Fin 2, (i, if i = 0 then (⟨2, 20⟩ : Ev) else ⟨0, 0⟩) ∈ (liveWindows.take 2).flatten) ∧
    ∃ s, run 1000 liveCfg liveWindows.flatten = .ok s ∧ s.out.length = 6 := by
  refine ⟨sustained_of_check (fun k i => if i = 0 then ⟨3 * k + 2, 100 * k + 20⟩ else ⟨3 * k, 100 * k⟩) (by decide), by decide,
    fun i => ?_, by decide, _, rfl, by decide⟩
  unfold StrictlyTimeSorted; revert i; decide

end MF.Approx
