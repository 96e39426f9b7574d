import Verif.Model.Latest
/-
Vocabulary for the LatestTime properties.
-/
namespace MF.Latest

open MF.Event (Time)
open Arith

/-- What is needed of the floating point operations when no NaN occurs: `>` is a strict weak order, and the sign of a
duration in seconds is that of its nanoseconds. -/
class Lawful (D : Type) [Arith D] : Prop where
  gt_irrefl : ∀ a : D, gt a a = false
  gt_trans : ∀ a b c : D, gt a b = true → gt b c = true → gt a c = true
  gt_negtrans : ∀ a b c : D, gt a c = true → gt a b = true ∨ gt b c = true
  le_seconds : ∀ d : Int, le (seconds d : D) zero = decide (d ≤ 0)
  eq_seconds : ∀ d : Int, eq (seconds d : D) zero = decide (d = 0)

/-- The deliveries to input `i`. -/
def deliveries {n : Nat} (ops : List (Op n)) (i : Fin n) : List (Op n) := ops.filter (fun op => decide (op.input = i))

/-- The most recent message of input `i`. -/
def lastMsg {n : Nat} (ops : List (Op n)) (i : Fin n) : Option Ev := (deliveries ops i).getLast?.map (·.msg)

/-- The inputs in the order of their first messages. -/
def firstArrivals {n : Nat} (ops : List (Op n)) : List (Fin n) :=
  ops.foldl (fun l op => if op.input ∈ l then l else l ++ [op.input]) []

/-- Some input delivers a further message while the number of inputs seen is at most its index. -/
def OutOfBounds {n : Nat} (ops : List (Op n)) : Prop :=
  ∃ pre op post, ops = pre ++ op :: post ∧ deliveries pre op.input ≠ [] ∧ (firstArrivals pre).length ≤ op.input.val

variable {D : Type} [Arith D]

/-- The initial state with a rate configuration. -/
def initial (n : Nat) (configs : List (Config D)) : State n D := setRateConfigPerMessage (construct n D) configs

/-- One more message at clock reading `now` for the rate estimate `r`. -/
def Rate.update (r : Rate D) (now : Time) : Rate D :=
  match r.computeHz fuel now with
  | .ok (_, r') => r'
  | .error _ => r

/-- The rate estimate that starts with the first message of input `start` (and the configuration of that input) and is
updated with the later messages of input `i`. -/
def estimate {n : Nat} (dflt : Config D) (configs : List (Config D)) (ops : List (Op n)) (start i : Fin n) : Option (Rate D) :=
  (deliveries ops start).head?.map (fun first =>
    ((deliveries ops i).tail.map (·.now)).foldl Rate.update (Rate.start first.now (configFor dflt configs start)))

/-- At clock reading `now` the next message is overdue by more than the margin. -/
def Late (r : Rate D) (now : Time) : Prop :=
  now.ns ≠ r.prev.ns ∧ r.doErrorInit = false ∧
    gt (sub r.hz (div one (seconds (now.ns - r.prev.ns)))) (mul r.config.marginFactor r.error) = true

/-- Has an estimated rate and is not late. -/
def Eligible (r : Rate D) (now : Time) : Prop := gt r.hz zero = true ∧ ¬ Late r now

/-- `p` is the eligible input of highest rate, ties to the lower index. -/
def IsPivot (v : List (Rate D)) (now : Time) (p : Nat) : Prop :=
  ∃ r, v[p]? = some r ∧ Eligible r now ∧
    ∀ (q : Nat) (r' : Rate D), q ≠ p → v[q]? = some r' → Eligible r' now →
      gt r.hz r'.hz = true ∨ (gt r'.hz r.hz = false ∧ p < q)

/-- All clock readings come from a clock of one source. -/
def OneClock {n : Nat} (src : Source) (ops : List (Op n)) : Prop := ∀ op ∈ ops, op.now.source = src

/-- The inputs sent their first messages in the order of their indices. -/
def InOrder {n : Nat} (ops : List (Op n)) : Prop :=
  firstArrivals ops = (List.finRange n).take (firstArrivals ops).length

/-- Exact arithmetic. -/
instance : Arith Rat where
  zero := 0
  one := 1
  add a b := a + b
  sub a b := a - b
  mul a b := a * b
  div a b := a / b
  fabs a := if a < 0 then -a else a
  gt a b := decide (b < a)
  le a b := decide (a ≤ b)
  eq a b := decide (a = b)
  seconds d := (d : Rat) / 1000000000

/-- Fixed point arithmetic with nine decimals, used in the examples because it can be evaluated by the kernel. -/
structure Fixed where
  val : Int
deriving DecidableEq

instance : Arith Fixed where
  zero := ⟨0⟩
  one := ⟨1000000000⟩
  add a b := ⟨a.val + b.val⟩
  sub a b := ⟨a.val - b.val⟩
  mul a b := ⟨a.val * b.val / 1000000000⟩
  div a b := ⟨a.val * 1000000000 / b.val⟩
  fabs a := ⟨if a.val < 0 then -a.val else a.val⟩
  gt a b := decide (b.val < a.val)
  le a b := decide (a.val ≤ b.val)
  eq a b := decide (a.val = b.val)
  seconds d := ⟨d⟩

/-- The defaults of latest_time.hpp:209-211. -/
def Fixed.dflt : Config Fixed := ⟨⟨900000000⟩, ⟨300000000⟩, ⟨10000000000⟩⟩

/-- Consecutive clock readings `p` nanoseconds apart. -/
def Periodic (p : Int) : List Time → Prop
  | [] => True
  | [_] => True
  | a :: b :: l => b.ns = a.ns + p ∧ Periodic p (b :: l)

/-- Consecutive clock readings increase, and the instantaneous rate (in 1/s) lies between `lo` and `hi`. -/
def RatesWithin (lo hi : Rat) : List Time → Prop
  | [] => True
  | [_] => True
  | a :: b :: l => a.ns < b.ns ∧ lo ≤ 1000000000 / ((b.ns - a.ns : Int) : Rat) ∧ 1000000000 / ((b.ns - a.ns : Int) : Rat) ≤ hi ∧
      RatesWithin lo hi (b :: l)

end MF.Latest
