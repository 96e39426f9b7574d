import Verif.Model.PyFilter
/-
Model of the Python class Subscriber of src/message_filters/__init__.py (lines 66-90).

`V` stands for Python values.  Trusted: how Python binds the arguments of a call to the parameters of a function, how it looks up
attributes, and the signature of `Node.create_subscription` of rclpy:
`create_subscription(self, msg_type, topic, callback, qos_profile, *, callback_group=None, event_callbacks=None,
qos_overriding_options=None, raw=False)`.
-/
namespace MF.PySubscriber

/-- The exceptions that occur. -/
inductive Raise where
  | indexError
  | typeError
  | recursionError
  | attributeError
deriving DecidableEq

/-- Keyword arguments: a dict, given by its items. -/
abbrev Kwargs (V : Type) := List (String × V)

/-- `d[key]`, `none` if there is no such key. -/
def get {V : Type} (d : Kwargs V) (key : String) : Option V := (d.find? (fun p => p.1 == key)).map (·.2)

/-- `kwargs.setdefault(key, v)`. -/
def setdefault {V : Type} (d : Kwargs V) (key : String) (v : V) : Kwargs V :=
  match get d key with
  | some _ => d
  | none => d ++ [(key, v)]

/-- How Python binds a call `f(*pos, **kw)` of a function with the required parameters `params` and the keyword-only parameters
`optional` (which have defaults): too many positional arguments, a parameter given twice, an unknown keyword and a missing
required parameter raise TypeError. -/
def bind {V : Type} (params optional : List String) (pos : List V) (kw : Kwargs V) : Except Raise (Kwargs V) :=
  if pos.length > params.length then .error .typeError
  else
    let bound := params.zip pos
    if kw.any (fun p => (bound.map (·.1)).contains p.1) then .error .typeError
    else if kw.any (fun p => !(params ++ optional).contains p.1) then .error .typeError
    else if params.any (fun q => !((bound ++ kw).map (·.1)).contains q) then .error .typeError
    else .ok (bound ++ kw)

/-- The required parameters of `Node.create_subscription` (rclpy). -/
def required : List String := ["msg_type", "topic", "callback", "qos_profile"]

/-- The keyword-only parameters of `Node.create_subscription` (rclpy). -/
def optional : List String := ["callback_group", "event_callbacks", "qos_overriding_options", "raw"]

/-- __init__.py:75-80: the members of a constructed Subscriber.  `sub` is the subscription, given by the arguments it was created
with. -/
structure Sub (V : Type) where
  node : V
  topic : V
  sub : Kwargs V

/-- __init__.py:75-80, `Subscriber(*args, **kwargs)`.  `self.callback` is the value `callback`, the number 10 the value `ten`. -/
def construct {V : Type} (callback ten : V) (args : List V) (kwargs : Kwargs V) : Except Raise (Sub V) :=
  match args[0]? with
  | none => .error .indexError
  | some node =>
    match args[2]? with
    | none => .error .indexError
    | some topic =>
      let kwargs := setdefault kwargs "qos_profile" ten
      match bind required optional (args.drop 1 ++ [callback]) kwargs with
      | .error r => .error r
      | .ok sub => .ok { node := node, topic := topic, sub := sub }

/-- __init__.py:85-86, `getTopic`. -/
def getTopic {V : Type} (s : Sub V) : V := s.topic

/-- __init__.py:88-90: the lookup of `obj.key` on a Subscriber.  `own` is what the normal lookup finds (instance attributes, then
the class and its bases); only if that fails Python calls `__getattr__(key)`, which evaluates `self.sub`, again by a lookup, and
then looks `key` up on the subscription.  The first argument bounds the depth of recursion, exceeding it raises RecursionError. -/
def getattr {V : Type} (own : String → Option V) (subAttr : V → String → Option V) : Nat → String → Except Raise V
  | 0, _ => .error .recursionError
  | depth + 1, key =>
    match own key with
    | some v => .ok v
    | none =>
      match getattr own subAttr depth "sub" with
      | .error r => .error r
      | .ok sub =>
        match subAttr sub key with
        | some v => .ok v
        | none => .error .attributeError

/-- __init__.py:82-83: rclpy calls `callback(msg)`, which calls `signalMessage(msg)`. -/
def callback {C A M : Type} (beh : C → M → A → PyFilter.Effect C A) (s : PyFilter.State C A M) (msg : M) : PyFilter.State C A M × Bool :=
  PyFilter.signal beh s msg

end MF.PySubscriber
