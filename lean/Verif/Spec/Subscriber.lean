import Verif.Model.Subscriber
/-
Vocabulary for the properties of Subscriber, in terms of the history of calls.
-/
namespace MF.Subscriber

/-- A `subscribe` call with arguments: whether it was an overload with a shared node and options, and whether the
subscription could be created. -/
structure Call where
  cfg : Cfg
  shared : Bool
  ok : Bool
deriving DecidableEq, Repr

/-- The `subscribe` calls with arguments, in order. -/
def callsOf (ops : List Op) : List Call :=
  ops.filterMap (fun op => match op with
    | .raw c ok => some ⟨c, false, ok⟩
    | .shared c ok => some ⟨c, true, ok⟩
    | _ => none)

/-- The last call with a topic, successful or not. -/
def lastNamed (ops : List Op) : Option Call := ((callsOf ops).filter (fun c => decide (c.cfg.topic ≠ ""))).getLast?

/-- A call that makes the Subscriber remember its node: a successful one, or an empty topic with a shared node and options. -/
def setsNode (c : Call) : Prop := (c.cfg.topic ≠ "" ∧ c.ok = true) ∨ (c.cfg.topic = "" ∧ c.shared = true)

instance (c : Call) : Decidable (setsNode c) := by unfold setsNode; infer_instance

/-- The node remembered. -/
def lastNode (ops : List Op) : Option Nat := ((callsOf ops).filter (fun c => decide (setsNode c))).getLast?.map (·.cfg.node)

/-- The node the Subscriber keeps alive. -/
def keptNode (ops : List Op) : Option Nat :=
  ((callsOf ops).filter (fun c => decide (setsNode c ∧ c.shared = true))).getLast?.map (·.cfg.node)

/-- What `subscribe()` without arguments subscribes to. -/
def remembered (ops : List Op) : Option Cfg :=
  match lastNamed ops, lastNode ops with
  | some c, some n => some ⟨n, c.cfg.topic, c.cfg.qos, c.cfg.options⟩
  | _, _ => none

def currentRev : List Op → Option Cfg
  | [] => none
  | .raw c ok :: _ => if c.topic ≠ "" ∧ ok = true then some c else none
  | .shared c ok :: _ => if c.topic ≠ "" ∧ ok = true then some c else none
  | .resubscribe ok :: before => if ok then remembered before.reverse else none
  | .unsubscribe :: _ => none
  | .destroy :: _ => none
  | _ :: before => currentRev before

/-- The subscription the Subscriber should have: determined by the last call that subscribes or unsubscribes. -/
def current (ops : List Op) : Option Cfg := currentRev ops.reverse

def Destroyed (ops : List Op) : Prop := Op.destroy ∈ ops

/-- The user never keeps a copy of the subscription pointer. -/
def NoCopies (ops : List Op) : Prop := Op.copy ∉ ops

/-- A call is safe after the history `ops` and with copies of the subscription pointers `held` in the user's hands: the Subscriber
still exists (for a delivery: if the subscription does), and a node that is used still exists. -/
def Safe (ops : List Op) (held : List Nat) : Op → Prop
  | .raw c _ => ¬ Destroyed ops ∧ Op.release c.node ∉ ops
  | .shared c _ => ¬ Destroyed ops ∧ Op.release c.node ∉ ops
  | .resubscribe _ => ¬ Destroyed ops ∧
      ∀ cfg, remembered ops = some cfg → Op.release cfg.node ∉ ops ∨ keptNode ops = some cfg.node
  | .unsubscribe => ¬ Destroyed ops
  | .copy => ¬ Destroyed ops
  | .destroy => ¬ Destroyed ops
  | .drop _ => True
  | .release _ => True
  | .deliver id _ => Destroyed ops → id ∉ held

end MF.Subscriber
