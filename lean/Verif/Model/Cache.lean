import Verif.Model.Basic
/-
Model of include/message_filters/cache.hpp (class Cache).
-/
namespace MF.Cache

/-- cache.hpp:340-344.  `size = none` is the indeterminate value of `cache_size_` before any successful
`setCacheSize`.  `items` is `cache_`, front first.  `out` is the log of `signalMessage` calls.
Simplification: the mutex is not represented (each method is one atomic step; `signalMessage` is outside the
lock, see `Model/CacheConc.lean` for the concurrent version). -/
structure State where
  size : Option Nat
  items : List Ev
  out : List Ev
deriving DecidableEq, Repr

/-- cache.hpp:102-110, `setCacheSize`. -/
def setCacheSize (s : State) (n : Nat) : State :=
  if n = 0 then s else { s with size := some n }

/-- cache.hpp:69-83, the constructors (the parent filter is not represented). -/
def construct (n : Nat) : State :=
  setCacheSize { size := none, items := [], out := [] } n

/-- cache.hpp:135-137, `while (cache_.size() >= cache_size_) cache_.pop_front();`.
`pop_front` on an empty deque is undefined. -/
def popLoop (n : Nat) : List Ev → Except Fault (List Ev)
  | [] => if 0 ≥ n then .error .ub else .ok []
  | e :: l => if (e :: l).length ≥ n then popLoop n l else .ok (e :: l)

/-- cache.hpp:143-155, the reverse walk and the insertion.  `rev` is the part of the deque from `rev_it` to
`rend()`, `passed` the part already walked over (in forward order). -/
def insertBack (e : Ev) : (rev passed : List Ev) → List Ev
  | [], passed => e :: passed
  | x :: rev, passed =>
    if x.stamp > e.stamp then insertBack e rev (x :: passed)
    else (x :: rev).reverse ++ e :: passed

/-- cache.hpp:130-156, the block of `add(evt)` that holds `cache_lock_`. -/
def insertLocked (s : State) (e : Ev) : Except Fault State :=
  match s.size with
  | none => .error .ub
  | some n =>
    match popLoop n s.items with
    | .error f => .error f
    | .ok kept => .ok { s with items := insertBack e kept.reverse [] }

/-- cache.hpp:158, `this->signalMessage(evt)`. -/
def forward (s : State) (e : Ev) : State := { s with out := s.out ++ [e] }

/-- cache.hpp:125-159, `add(evt)` (`add(msg)`, 116-119, and `callback`, 335-338, delegate to it) without interference of other
threads between the two parts. -/
def add (s : State) (e : Ev) : Except Fault State :=
  match insertLocked s e with
  | .error f => .error f
  | .ok s' => .ok (forward s' e)

/-- The index loop `while (i < cache_.size() && p(cache_[i])) i++` of cache.hpp:176-180, 184-188, 257-260.
The first argument bounds the number of iterations; callers pass `cache_.size()`, which is enough. -/
def scanUp (p : Ev → Bool) (l : List Ev) : Nat → Nat → Nat
  | 0, i => i
  | k + 1, i =>
    match l[i]? with
    | some x => if p x then scanUp p l k (i + 1) else i
    | none => i

/-- cache.hpp:169-197, `getInterval`.  The copy loop over `[start_index, end_index)` is `drop`/`take`. -/
def getInterval (s : State) (start end_ : Int) : List Ev :=
  let startIndex := scanUp (fun x => decide (x.stamp < start)) s.items s.items.length 0
  let endIndex := scanUp (fun x => decide (x.stamp ≤ end_)) s.items s.items.length startIndex
  (s.items.drop startIndex).take (endIndex - startIndex)

/-- cache.hpp:220-224, `while (i > 0 && stamp(cache_[i]) > start) i--`. -/
def scanDown (p : Ev → Bool) (l : List Ev) : Nat → Nat
  | 0 => 0
  | i + 1 =>
    match l[i + 1]? with
    | some x => if p x then scanDown p l i else i + 1
    | none => i + 1

/-- cache.hpp:227-231, `while (i < size - 1 && stamp(cache_[i]) < end) i++`.  First argument: iteration bound. -/
def scanUpTo (p : Ev → Bool) (l : List Ev) : Nat → Nat → Nat
  | 0, i => i
  | k + 1, i =>
    if i < l.length - 1 then
      match l[i]? with
      | some x => if p x then scanUpTo p l k (i + 1) else i
      | none => i
    else i

/-- cache.hpp:206-240, `getSurroundingInterval`.  Simplification: `int` indices are unbounded. -/
def getSurroundingInterval (s : State) (start end_ : Int) : List Ev :=
  if s.items.length = 0 then []
  else
    let startIndex := scanDown (fun x => decide (x.stamp > start)) s.items (s.items.length - 1)
    let endIndex := scanUpTo (fun x => decide (x.stamp < end_)) s.items s.items.length startIndex
    (s.items.drop startIndex).take (endIndex - startIndex + 1)

/-- cache.hpp:255-260, the loop of `getElemBeforeTime` (`elem` is `elem_index`, `none` for -1). -/
def beforeLoop (t : Int) (l : List Ev) : Nat → Nat → Option Nat → Option Nat
  | 0, _, elem => elem
  | k + 1, i, elem =>
    match l[i]? with
    | some x => if x.stamp < t then beforeLoop t l k (i + 1) (some i) else elem
    | none => elem

/-- cache.hpp:247-267, `getElemBeforeTime`; `none` is the null pointer. -/
def getElemBeforeTime (s : State) (t : Int) : Option Ev :=
  match beforeLoop t s.items s.items.length 0 none with
  | some i => s.items[i]?
  | none => none

/-- cache.hpp:282-287, the loop of `getElemAfterTime`; the first argument is `i + 1`. -/
def afterLoop (t : Int) (l : List Ev) : Nat → Option Nat → Option Nat
  | 0, elem => elem
  | i + 1, elem =>
    match l[i]? with
    | some x => if x.stamp > t then afterLoop t l i (some i) else elem
    | none => elem

/-- cache.hpp:274-296, `getElemAfterTime`; `none` is the null pointer. -/
def getElemAfterTime (s : State) (t : Int) : Option Ev :=
  match afterLoop t s.items s.items.length none with
  | some i => s.items[i]?
  | none => none

/-- cache.hpp:301-314, `getLatestTime`.  An empty cache yields a default constructed `rclcpp::Time` (0). -/
def getLatestTime (s : State) : Int :=
  match s.items.getLast? with
  | some e => e.stamp
  | none => 0

/-- cache.hpp:319-332, `getOldestTime`. -/
def getOldestTime (s : State) : Int :=
  match s.items.head? with
  | some e => e.stamp
  | none => 0

/-- The calls that change a cache. -/
inductive Op where
  | add (e : Ev)
  | setSize (n : Nat)
deriving DecidableEq, Repr

/-- One call. -/
def step (s : State) : Op → Except Fault State
  | .add e => add s e
  | .setSize n => .ok (setCacheSize s n)

/-- A history of calls. -/
def run (s : State) : List Op → Except Fault State
  | [] => .ok s
  | op :: ops =>
    match step s op with
    | .error f => .error f
    | .ok s' => run s' ops

end MF.Cache
