import Verif.Spec.Approx
/-
A description of the sets of an ApproximateTime synchronizer that does not mention how they are searched: no pivot, no order of
examination.  It is the one users know: sets are contiguous, and of minimal size among the contiguous ones.
-/
namespace MF.ApproxSpec

variable {n : Nat}

/-- `T` takes one message of every stream, and they are at most `M` apart. -/
def Possible (M : Int) (d : Fin n → List Ev) (T : Fin n → Ev) : Prop :=
  (∀ i, T i ∈ d i) ∧ ∀ i j, (T i).stamp - (T j).stamp ≤ M

/-- `T` is possible, and there is no room for another possible set before it: none is older on every input. -/
def Contiguous (M : Int) (d : Fin n → List Ev) (T : Fin n → Ev) : Prop :=
  Possible M d T ∧ ¬ ∃ U, Possible M d U ∧ ∀ i, (U i).stamp < (T i).stamp

/-- `C` has the least cost of all contiguous sets and, of those with this cost, the oldest messages. -/
def Best [NeZero n] (M num den : Int) (d : Fin n → List Ev) (C : Fin n → Ev) : Prop :=
  Contiguous M d C ∧ ∀ T, Contiguous M d T →
    cost num den C < cost num den T ∨ (cost num den C = cost num den T ∧ ∀ i, (C i).stamp ≤ (T i).stamp)

/-- What is newer than the set `C`. -/
def newerThan (C : Fin n → Ev) (d : Fin n → List Ev) : Fin n → List Ev :=
  fun i => (d i).filter (fun x => decide ((C i).stamp < x.stamp))

/-- The sets of the streams `d`: the best one, then the best one of what is newer, until no set is possible. -/
inductive Chosen [NeZero n] (M num den : Int) : (Fin n → List Ev) → List (Fin n → Ev) → Prop where
  | done {d} : (¬ ∃ T, Possible M d T) → Chosen M num den d []
  | set {d C l} : Best M num den d C → Chosen M num den (newerThan C d) l → Chosen M num den d (C :: l)

end MF.ApproxSpec
