import Verif.Model.Chain
/-
Specification of a chain: a pipeline.
-/
namespace MF.Chain

variable {S M : Type}

/-- One filter consumes a list of messages. -/
def feed (b : S → M → S × List M) : S → List M → S × List M
  | s, [] => (s, [])
  | s, m :: ms =>
    let r := b s m
    let r' := feed b r.1 ms
    (r'.1, r.2 ++ r'.2)

/-- The filters `fs` in order: each consumes everything the one before it output. -/
def pipe (B : Behaviour S M) : List Nat → (Nat → S) → List M → (Nat → S) × List M
  | [], sts, ms => (sts, ms)
  | f :: fs, sts, ms =>
    let r := feed (B f) (sts f) ms
    pipe B fs (fun g => if g = f then r.1 else sts g) r.2

/-- The specification state: filters in the order they were added, their states, and what was output. -/
structure Pipeline (S M : Type) where
  filters : List Nat
  sts : Nat → S
  out : List M

/-- An added message goes through all filters (through none and nowhere if there are none); what a filter outputs by itself
goes through the filters after it. -/
def Pipeline.step (B : Behaviour S M) (p : Pipeline S M) : Op M → Pipeline S M
  | .addFilter f => { p with filters := p.filters ++ [f] }
  | .add m =>
    if p.filters = [] then p
    else { p with sts := (pipe B p.filters p.sts [m]).1, out := p.out ++ (pipe B p.filters p.sts [m]).2 }
  | .emit f m =>
    if f ∈ p.filters then
      let rest := p.filters.drop (p.filters.idxOf f + 1)
      { p with sts := (pipe B rest p.sts [m]).1, out := p.out ++ (pipe B rest p.sts [m]).2 }
    else p

def pipeline (B : Behaviour S M) (sts : Nat → S) (ops : List (Op M)) : Pipeline S M :=
  ops.foldl (Pipeline.step B) { filters := [], sts := sts, out := [] }

/-- The filters added, in order. -/
def added (ops : List (Op M)) : List Nat := ops.filterMap (fun op => match op with | .addFilter f => some f | _ => none)

/-- The messages added to the chain, in order. -/
def messages (ops : List (Op M)) : List M := ops.filterMap (fun op => match op with | .add m => some m | _ => none)

/-- Every filter outputs every message unchanged, as a PassThrough does. -/
def Transparent (B : Behaviour S M) : Prop := ∀ f s m, (B f s m).2 = [m]

end MF.Chain
