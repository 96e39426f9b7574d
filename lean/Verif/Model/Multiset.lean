import Verif.Model.Basic
/-
`std::multiset` of events ordered by stamp, as used by InputAligner and TimeSequencer: the list of its elements in iteration
order.
-/
namespace MF

/-- `std::multiset::insert` (input_aligner.hpp:363 with the comparison of lines 243-251; time_sequencer.hpp:155 with the
comparison of lines 172-181): the element is placed after all elements that are not greater. -/
def insertEv (e : Ev) : List Ev → List Ev
  | [] => [e]
  | x :: l => if e.stamp < x.stamp then e :: x :: l else x :: insertEv e l

end MF
