import Verif.Model.PolicyCopy
/-
Assigning a policy object to the policy of an existing Synchronizer, `*sync.getPolicy() = policy` (`getPolicy` is
synchronizer.hpp:152).  Simplification: the assignment is not interrupted by other threads (none of the operators takes the
policy's mutex).
-/
namespace MF.Copy

/-- `operator=` of the four policies: every one of them starts with `parent_ = rhs.parent_` (exact_time.hpp:75,
approximate_time.hpp:94, approximate_epsilon_time.hpp:83, latest_time.hpp:116).  `assign` is the effect on everything else
(`Exact.assign`, `approxAssign`, `epsilonAssign`, `latestAssign`). -/
def assignObj {σ : Type} (assign : σ → σ → σ) (lhs rhs : Obj σ) : Obj σ :=
  { parent := rhs.parent, core := assign lhs.core rhs.core }

/-- The assignment followed by `sync.init()`, which is public (synchronizer.hpp:87-90). -/
def assignAndInit {σ : Type} (assign : σ → σ → σ) (lhs rhs : Obj σ) (sync : Nat) : Obj σ :=
  initParent (assignObj assign lhs rhs) sync

end MF.Copy
