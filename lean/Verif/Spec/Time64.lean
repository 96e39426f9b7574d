import Verif.Model.Time64
/-
Vocabulary for the properties about 64-bit time arithmetic.
-/
namespace MF.Time64

/-- `x` is the time in nanoseconds of some header stamp that `rclcpp::Time` accepts. -/
def HeaderStamp (x : Int) : Prop := ∃ h : Header, h.typed ∧ h.time = .ok x

/-- Durations up to the default maximum interval (2147483647 s and 999999999 ns), in either direction. -/
def DurationOk (d : Int) : Prop := -Approx.maxDuration ≤ d ∧ d ≤ Approx.maxDuration

/-- `scale` is multiplication by `num / den`, rounded toward zero, for some factor from 1 to 2: age penalties 0 to 1. -/
def AgeOk (scale : Int → Int) : Prop :=
  ∃ num den : Int, 0 < den ∧ den ≤ num ∧ num ≤ 2 * den ∧ scale = fun x => (x * num).tdiv den

end MF.Time64
