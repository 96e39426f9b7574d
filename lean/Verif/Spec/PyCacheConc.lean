import Verif.Model.PyCacheConc
/-
Vocabulary for the Python Cache with several threads.
-/
namespace MF.PyCache

/-- No thread is inside `add`. -/
def Idle {W : Nat} (c : Conc W) : Prop := ∀ t, (c.threads t).pc = .idle

/-- All threads have made all their calls. -/
def Finished {W : Nat} (c : Conc W) : Prop := ∀ t, (c.threads t).pc = .idle ∧ (c.threads t).todo = []

/-- What thread `t` did, in a log of who did what. -/
def byThread {W : Nat} (t : Fin W) (log : List (Fin W × Msg)) : List Msg := (log.filter (fun p => decide (p.1 = t))).map (·.2)

end MF.PyCache
