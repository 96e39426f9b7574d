import Verif.Model.Basic
/-
Model of include/message_filters/subscriber.hpp.

The middleware is represented by the subscriptions created so far (numbered in the order of creation) and the deliveries it
makes to them.  A subscription lives as long as a shared pointer to it exists: the Subscriber's own or a copy the user got
from `getSubscriber()`.  A node lives until the user releases it, or as long as the Subscriber holds a shared pointer to it.
`rclcpp::Node::create_subscription` may throw (invalid topic name, refused QoS); whether it does is a parameter of the call.
The overloads taking an `rmw_qos_profile_t` convert it (`QoSInitialization::from_rmw`) and otherwise repeat the code of the
ones taking an `rclcpp::QoS`; QoS values and options are represented by numbers, the default options by 0.
-/
namespace MF.Subscriber

/-- What a subscription was created with. -/
structure Cfg where
  node : Nat
  topic : String
  qos : Nat
  options : Nat
deriving DecidableEq, Repr

/-- subscriber.hpp:590-597 (`sub_` is the number of the subscription), with the subscriptions created, the copies of
subscription pointers held by the user, the nodes the user has released, the log of output messages, and whether the
Subscriber still exists. -/
structure Sub where
  sub : Option Nat
  nodeShared : Option Nat
  nodeRaw : Option Nat
  topic : String
  qos : Nat
  options : Nat
  alive : Bool
  created : List Cfg
  held : List Nat
  released : List Nat
  out : List Nat

/-- subscriber.hpp:349: the default constructor.  The other constructors (subscriber.hpp:249-344) call `subscribe` with the
node's address, so they are a `subscribe` call on a default-constructed Subscriber: `Op.raw`, also for shared nodes. -/
def init : Sub :=
  { sub := none, nodeShared := none, nodeRaw := none, topic := "", qos := 0, options := 0, alive := true, created := [],
    held := [], released := [], out := [] }

/-- The node object exists. -/
def nodeAlive (s : Sub) (n : Nat) : Bool := decide (n ∉ s.released) || decide (s.nodeShared = some n)

/-- subscriber.hpp:552-555: `unsubscribe`. -/
def unsubscribe (s : Sub) : Sub := { s with sub := none }

/-- The result of a call: it returned, or threw an exception, leaving this state; or it was undefined. -/
abbrev Result := Except Fault (Sub × Bool)

/-- subscriber.hpp:419-439 and 512-533: `subscribe(NodeType *, topic, qos, options)`.  The second component of the result
tells whether the call returned normally.  The arguments are copied first: `topic` may be `topic_` itself. -/
def subscribeRaw (s : Sub) (c : Cfg) (ok : Bool) : Result :=
  let s1 := unsubscribe s
  if c.topic ≠ "" then
    let s2 := { s1 with topic := c.topic, qos := c.qos, options := c.options }
    if !nodeAlive s2 c.node then .error .ub
    else if !ok then .ok (s2, false)
    else .ok ({ s2 with sub := some s2.created.length, created := s2.created ++ [c], nodeRaw := some c.node }, true)
  else .ok (s1, true)

/-- subscriber.hpp:398-407 and 490-499: `subscribe(NodePtr, topic, qos, options)`.  If the inner call throws, the node is
not remembered. -/
def subscribeShared (s : Sub) (c : Cfg) (ok : Bool) : Result :=
  match subscribeRaw s c ok with
  | .error f => .error f
  | .ok (s1, false) => .ok (s1, false)
  | .ok (s1, true) => .ok ({ s1 with nodeRaw := none, nodeShared := some c.node }, true)

/-- subscriber.hpp:538-547: `subscribe()`. -/
def resubscribe (s : Sub) (ok : Bool) : Result :=
  if s.topic ≠ "" then
    match s.nodeRaw with
    | some n => subscribeRaw s ⟨n, s.topic, s.qos, s.options⟩ ok
    | none =>
      match s.nodeShared with
      | some n => subscribeShared s ⟨n, s.topic, s.qos, s.options⟩ ok
      | none => .ok (s, true)
  else .ok (s, true)

/-- The middleware hands message `m` to subscription `id`, if that still exists: subscriber.hpp:431-434 and 585-588.  The
callback holds the address of the Subscriber. -/
def deliver (s : Sub) (id m : Nat) : Except Fault Sub :=
  if s.sub = some id ∨ id ∈ s.held then
    if s.alive then .ok { s with out := s.out ++ [m] } else .error .ub
  else .ok s

/-- The user's calls.  `raw`: `subscribe(node.get() or a bare pointer, ...)`, that is all overloads but the ones taking a
shared node and options (subscriber.hpp:365-370, 381-386, 451-458, 470-477 forward here with default options, number 0).
`copy`: the user calls `getSubscriber()` (subscriber.hpp:565) and keeps the pointer; `drop`: gives such a pointer up.
`release`: the user gives up (or destroys) a node.  `destroy`: subscriber.hpp:351-354. -/
inductive Op where
  | raw (c : Cfg) (ok : Bool)
  | shared (c : Cfg) (ok : Bool)
  | resubscribe (ok : Bool)
  | unsubscribe
  | copy
  | drop (id : Nat)
  | release (n : Nat)
  | deliver (id m : Nat)
  | destroy

def stateOf : Result → Except Fault Sub
  | .error f => .error f
  | .ok (s, _) => .ok s

def guardAlive (s : Sub) (r : Except Fault Sub) : Except Fault Sub := if s.alive then r else .error .ub

def step (s : Sub) : Op → Except Fault Sub
  | .raw c ok => guardAlive s (if c.node ∈ s.released then .error .ub else stateOf (subscribeRaw s c ok))
  | .shared c ok => guardAlive s (if c.node ∈ s.released then .error .ub else stateOf (subscribeShared s c ok))
  | .resubscribe ok => guardAlive s (stateOf (Subscriber.resubscribe s ok))
  | .unsubscribe => guardAlive s (.ok (Subscriber.unsubscribe s))
  | .copy => guardAlive s (.ok (match s.sub with | some id => { s with held := id :: s.held } | none => s))
  | .drop id => .ok { s with held := s.held.erase id }
  | .release n => .ok { s with released := n :: s.released }
  | .deliver id m => Subscriber.deliver s id m
  | .destroy => guardAlive s (.ok { Subscriber.unsubscribe s with alive := false, nodeShared := none })

def run (ops : List Op) : Except Fault Sub := runE step init ops

end MF.Subscriber
