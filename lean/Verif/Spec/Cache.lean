import Verif.Model.Cache
import Verif.Spec.Basic
/-
Vocabulary for the cache properties: what a history of calls added, and the size it configured.
-/
namespace MF.Cache

/-- The messages added by a history, in call order. -/
def added : List Op → List Ev
  | [] => []
  | .add e :: ops => e :: added ops
  | .setSize _ :: ops => added ops

/-- The size in force after a history that started with size `n` (a request for 0 is ignored). -/
def configuredSize (n : Nat) : List Op → Nat
  | [] => n
  | .add _ :: ops => configuredSize n ops
  | .setSize m :: ops => configuredSize (if m = 0 then n else m) ops

end MF.Cache
