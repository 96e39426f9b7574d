import Verif.Model.PyCache
/-
Vocabulary for the comparison of the C++ and the Python Cache.
-/
namespace MF.PyCache

/-- The message `e` as the Python Cache sees it: with a header whose stamp is of clock type `c`. -/
def stamped (c : Source) (e : Ev) : Msg := ⟨e.id, some ⟨c, e.stamp⟩⟩

end MF.PyCache
