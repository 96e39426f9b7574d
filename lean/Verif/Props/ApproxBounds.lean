import Verif.Proofs.ApproxBounds
import Verif.Props.ApproxEarly
/-
Larger minimum distances between the messages of ApproximateTime, any number of inputs: C89.
-/
namespace MF.Approx
open MF.ApproxSpec (Spaced Determined)

variable {n : Nat}

/-- **C89** (larger bounds only help, any number of inputs).  Take two synchronizers that differ only in the configured
minimum distances, and let the inputs respect the larger ones.  If no queue overflows, then after every history the one
with the larger distances has output all the sets the other one has output, the same in the same order, and possibly more:
raising a bound never delays a set, even though with three or more inputs a set may be withheld after it is determined. -/
theorem C89_larger_bounds_never_delay [NeZero n] (fuel fuel' : Nat) (cfg : Cfg n) (lower' : Fin n → Int) (num den : Int)
    (hden : 0 < den) (hnum : 0 ≤ num) (hscale : cfg.scale = fun x => (x * num).tdiv den) (hlow : ∀ i, 0 ≤ cfg.lower i)
    (hle : ∀ i, cfg.lower i ≤ lower' i) (ops : List (Fin n × Ev)) (s s' : State n)
    (h : run fuel cfg ops = .ok s) (hq : NoOverflow fuel cfg ops)
    (h' : run fuel' { cfg with lower := lower' } ops = .ok s') (hq' : NoOverflow fuel' { cfg with lower := lower' } ops)
    (hsp : ∀ i, Spaced (lower' i) (stream ops i)) : s.out <+: s'.out :=
  bounds_prefix (cfg := { cfg with queueSize := ops.length + 1 }) hden hnum hscale hlow hle ops
    (setQ (ops.length + 1) s) (setQ (ops.length + 1) s') (by simp) (noOverflow_run h hq) (noOverflow_run h' hq') hsp

/-- Three inputs, at most one message per 40 on the last two in the second configuration. -/
def boundsOps : List (Fin 3 × Ev) := [(0, ⟨0, 100⟩), (1, ⟨1, 90⟩), (2, ⟨2, 90⟩), (2, ⟨3, 200⟩)]

/-- With the distances the set of 100, 90 and 90 comes out when the third message arrives; without them it is still held
after the fourth. -/
example : (∃ s, run 100 withheldCfg boundsOps = .ok s ∧ s.out = []) ∧
    (∃ s, run 100 { withheldCfg with lower := fun i => if i = 0 then 0 else 40 } (boundsOps.take 3) = .ok s ∧
      s.out.map List.ofFn = [[some ⟨0, 100⟩, some ⟨1, 90⟩, some ⟨2, 90⟩]]) ∧
    NoOverflow 100 withheldCfg boundsOps ∧
    NoOverflow 100 { withheldCfg with lower := fun i => if i = 0 then 0 else 40 } boundsOps ∧
    (∀ i : Fin 3, withheldCfg.lower i ≤ if i = 0 then 0 else 40) ∧
    ∀ i, Spaced (if i = 0 then 0 else 40) (stream boundsOps i) :=
  ⟨⟨_, rfl, rfl⟩, ⟨_, rfl, by decide⟩, noOverflow_of_check (by decide), noOverflow_of_check (by decide), by decide,
    by unfold Spaced; decide⟩

/-- If the inputs do not respect the larger distances the output may differ: 100 and 90 are put together although a
message at 99 follows at once. -/
theorem C89_bounds_must_hold :
    let ops : List (Fin 2 × Ev) := [(0, ⟨0, 100⟩), (1, ⟨1, 90⟩), (1, ⟨2, 99⟩), (1, ⟨3, 300⟩), (0, ⟨4, 310⟩)]
    (∃ s, run 100 { earlyCfg with lower := fun _ => 0 } ops = .ok s ∧
      (s.out.map List.ofFn).head? = some [some ⟨0, 100⟩, some ⟨2, 99⟩]) ∧
    (∃ s, run 100 earlyCfg ops = .ok s ∧ (s.out.map List.ofFn).head? = some [some ⟨0, 100⟩, some ⟨1, 90⟩]) ∧
    ∀ i, Spaced 0 (stream ops i) :=
  ⟨⟨_, rfl, by decide⟩, ⟨_, rfl, by decide⟩, by unfold Spaced; decide⟩

end MF.Approx
