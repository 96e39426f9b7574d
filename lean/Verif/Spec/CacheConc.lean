import Verif.Model.CacheConc
import Verif.Spec.Cache
/-
Vocabulary for the concurrent Cache properties.
-/
namespace MF.Cache

/-- The messages thread `t` handled in a log. -/
def byThread (t : Nat) (log : List (Nat × Ev)) : List Ev := (log.filter (fun p => decide (p.1 = t))).map (·.2)

/-- Every thread has added all its messages, and passed them on. -/
def Finished (c : Conc) : Prop := ∀ t, (c.threads t).todo = [] ∧ (c.threads t).pending = none

/-- All the messages of the threads below `W`. -/
def allMessages (W : Nat) (progs : Nat → List Ev) : List Ev := (List.range W).flatMap progs

end MF.Cache
