import Verif.Model.PySubscriber
import Verif.Props.PyFilter
/-
Property C92: the Python class Subscriber.
-/
namespace MF.PySubscriber

variable {V : Type}

theorem get_append (a b : Kwargs V) (key : String) : get (a ++ b) key = (get a key).or (get b key) := by
  unfold get
  rw [List.find?_append]
  cases a.find? (fun p => p.1 == key) <;> rfl

theorem get_none {d : Kwargs V} {key : String} : get d key = none ↔ ∀ p ∈ d, p.1 ≠ key := by
  unfold get
  rw [Option.map_eq_none_iff, List.find?_eq_none]
  simp

theorem mem_setdefault {d : Kwargs V} {key : String} {v : V} {p : String × V} :
    p ∈ setdefault d key v ↔ p ∈ d ∨ (get d key = none ∧ p = (key, v)) := by
  unfold setdefault
  cases h : get d key with
  | some x => simp
  | none => simp

theorem get_setdefault (d : Kwargs V) (key : String) (v : V) (k : String) :
    get (setdefault d key v) k = if k = key then some ((get d key).getD v) else get d k := by
  unfold setdefault
  by_cases hk : k = key
  · subst hk
    rw [if_pos rfl]
    cases h : get d k with
    | some x => simp [h]
    | none => rw [get_append, h]; simp [get]
  · rw [if_neg hk]
    cases h : get d key with
    | some x => rfl
    | none =>
      rw [get_append]
      have : get [(key, v)] k = none := get_none.2 (by intro p hp; simp at hp; subst hp; exact Ne.symm hk)
      rw [this]; simp

/-- What binding does with a message type, a topic, a callback and keyword arguments. -/
theorem bind_three (t topic cb : V) (kw : Kwargs V) (hq : get kw "qos_profile" ≠ none) :
    bind required optional [t, topic, cb] kw =
      if ∀ p ∈ kw, p.1 ∈ "qos_profile" :: optional then
        .ok ([("msg_type", t), ("topic", topic), ("callback", cb)] ++ kw)
      else .error .typeError := by
  unfold bind
  rw [if_neg (by simp [required])]
  simp only [required, List.zip_cons_cons, List.zip_nil_right]
  by_cases hall : ∀ p ∈ kw, p.1 ∈ "qos_profile" :: optional
  · rw [if_pos hall, if_neg, if_neg, if_neg]
    · obtain ⟨p, hp⟩ : ∃ p ∈ kw, p.1 = "qos_profile" := by
        apply Classical.byContradiction
        intro h
        exact hq (get_none.2 (fun p hp h1 => h ⟨p, hp, h1⟩))
      simp only [List.any_eq_true, not_exists, not_and, Bool.not_eq_true, Bool.not_eq_false', List.contains_eq_mem, decide_eq_true_eq]
      intro q hq'
      simp only [List.mem_cons, List.not_mem_nil, or_false] at hq'
      simp only [List.map_append, List.map_cons, List.map_nil, List.mem_append, List.mem_cons, List.mem_map]
      rcases hq' with rfl | rfl | rfl | rfl
      · simp
      · simp
      · simp
      · exact Or.inr ⟨p, hp.1, hp.2⟩
    · simp only [List.any_eq_true, not_exists, not_and, Bool.not_eq_true, Bool.not_eq_false', List.contains_eq_mem, decide_eq_true_eq]
      intro p hp
      have := hall p hp
      simp only [List.mem_cons] at this
      rcases this with h | h
      · simp [h]
      · exact List.mem_append_right _ h
    · simp only [List.any_eq_true, not_exists, not_and, Bool.not_eq_true, List.contains_eq_mem, decide_eq_false_iff_not]
      intro p hp h1
      have := hall p hp
      simp only [optional, List.mem_cons, List.not_mem_nil, or_false] at this
      simp only [List.map_cons, List.map_nil, List.mem_cons, List.not_mem_nil, or_false] at h1
      rcases h1 with h1 | h1 | h1 <;> rw [h1] at this <;> revert this <;> decide
  · rw [if_neg hall]
    by_cases h1 : (kw.any fun p => (List.map (fun x => x.1) [("msg_type", t), ("topic", topic), ("callback", cb)]).contains p.1) = true
    · rw [if_pos h1]
    · rw [if_neg h1, if_pos]
      simp only [List.any_eq_true, not_exists, not_and, Bool.not_eq_true, List.contains_eq_mem, decide_eq_false_iff_not] at h1
      simp only [List.any_eq_true, Bool.not_eq_true', List.contains_eq_mem, decide_eq_false_iff_not]
      obtain ⟨p, hp⟩ := Classical.not_forall.1 hall
      obtain ⟨hp1, hp2⟩ := Classical.not_imp.1 hp
      refine ⟨p, hp1, fun h2 => ?_⟩
      have h3 := h1 p hp1
      simp only [List.cons_append, List.nil_append, List.mem_cons] at h2
      simp only [List.map_cons, List.map_nil, List.mem_cons, List.not_mem_nil, or_false, not_or] at h3
      rcases h2 with h2 | h2 | h2 | h2
      · exact h3.1 h2
      · exact h3.2.1 h2
      · exact h3.2.2 h2
      · exact hp2 (List.mem_cons.2 h2)

theorem construct_three (callback ten a b c : V) (kwargs : Kwargs V) :
    construct callback ten [a, b, c] kwargs =
      match bind required optional [b, c, callback] (setdefault kwargs "qos_profile" ten) with
      | .error r => .error r
      | .ok sub => .ok { node := a, topic := c, sub := sub } := rfl

/-- **C92** (which arguments are accepted).  The constructor succeeds exactly if there are three positional arguments, a node, a
type and a topic, and all others are given by keyword, with the names of the settings of a subscription. -/
theorem C92_constructs_iff_partial (callback ten : V) (args : List V) (kwargs : Kwargs V) :
    (∃ s, construct callback ten args kwargs = .ok s) ↔ args.length = 3 ∧ ∀ p ∈ kwargs, p.1 ∈ "qos_profile" :: optional := by
  have hq : get (setdefault kwargs "qos_profile" ten) "qos_profile" ≠ none := by
    rw [get_setdefault, if_pos rfl]; simp
  have hall : (∀ p ∈ setdefault kwargs "qos_profile" ten, p.1 ∈ "qos_profile" :: optional) ↔
      ∀ p ∈ kwargs, p.1 ∈ "qos_profile" :: optional := by
    constructor
    · intro h p hp; exact h p (mem_setdefault.2 (Or.inl hp))
    · intro h p hp
      rcases mem_setdefault.1 hp with h1 | ⟨_, rfl⟩
      · exact h p h1
      · simp
  match args with
  | [] => simp [construct]
  | [_] => simp [construct]
  | [_, _] => simp [construct]
  | [a, b, c] =>
    rw [construct_three, bind_three b c callback _ hq]
    by_cases h : ∀ p ∈ setdefault kwargs "qos_profile" ten, p.1 ∈ "qos_profile" :: optional
    · rw [if_pos h]; exact ⟨fun _ => ⟨rfl, hall.1 h⟩, fun _ => ⟨_, rfl⟩⟩
    · rw [if_neg h]
      constructor
      · rintro ⟨s, hs⟩; cases hs
      · intro h1; exact absurd (hall.2 h1.2) h
  | a :: b :: c :: d :: rest =>
    constructor
    · rintro ⟨s, hs⟩
      exfalso
      unfold construct at hs
      simp only [List.getElem?_cons_zero, List.getElem?_cons_succ, List.drop_succ_cons, List.drop_zero] at hs
      have : bind required optional (b :: c :: d :: rest ++ [callback]) (setdefault kwargs "qos_profile" ten) = .error .typeError := by
        unfold bind
        by_cases hl : (b :: c :: d :: rest ++ [callback]).length > required.length
        · rw [if_pos hl]
        · rw [if_neg hl]
          have hr : rest = [] := by
            simp [required] at hl
            cases rest with
            | nil => rfl
            | cons x l => simp at hl
          subst hr
          simp only [required, List.cons_append, List.nil_append, List.zip_cons_cons, List.zip_nil_right]
          rw [if_pos]
          rw [List.any_eq_true]
          obtain ⟨p, hp⟩ : ∃ p ∈ setdefault kwargs "qos_profile" ten, p.1 = "qos_profile" := by
            apply Classical.byContradiction
            intro h
            exact hq (get_none.2 (fun p hp h1 => h ⟨p, hp, h1⟩))
          exact ⟨p, hp.1, by simp [hp.2]⟩
      rw [this] at hs
      cases hs
    · rintro ⟨h, _⟩; simp at h

/-- **C92** (not "identical arguments").  rclpy accepts the quality of service as fourth positional argument; a Subscriber raises
TypeError with any fourth positional argument, whatever the keyword arguments. -/
theorem C92_positional_qos_rejected (callback ten node t topic qos : V) :
    bind required optional [t, topic, callback, qos] [] =
      .ok [("msg_type", t), ("topic", topic), ("callback", callback), ("qos_profile", qos)] ∧
    (∀ kwargs s, construct callback ten [node, t, topic, qos] kwargs ≠ .ok s) ∧
    construct callback ten [node, t, topic, qos] [] = .error .typeError ∧
    construct callback ten [node, t] [("topic", topic)] = .error .indexError := by
  refine ⟨rfl, ?_, rfl, rfl⟩
  intro kwargs s h
  have := ((C92_constructs_iff_partial callback ten [node, t, topic, qos] kwargs).1 ⟨s, h⟩).1
  simp at this

/-- **C92** (the subscription).  A Subscriber that was constructed made its subscription on the given node with the given type and
topic, its own callback, the given quality of service (10 if none was given) and all other settings as given.  `getTopic` returns
the given topic. -/
theorem C92_subscription (callback ten : V) (args : List V) (kwargs : Kwargs V) (s : Sub V)
    (h : construct callback ten args kwargs = .ok s) :
    ∃ node t topic, args = [node, t, topic] ∧ s.node = node ∧ getTopic s = topic ∧ get s.sub "msg_type" = some t ∧
      get s.sub "topic" = some topic ∧ get s.sub "callback" = some callback ∧
      get s.sub "qos_profile" = some ((get kwargs "qos_profile").getD ten) ∧
      ∀ key ∈ optional, get s.sub key = get kwargs key := by
  obtain ⟨hl, hk⟩ := (C92_constructs_iff_partial callback ten args kwargs).1 ⟨s, h⟩
  match args, hl with
  | [a, b, c], _ =>
    have hq : get (setdefault kwargs "qos_profile" ten) "qos_profile" ≠ none := by
      rw [get_setdefault, if_pos rfl]; simp
    rw [construct_three, bind_three b c callback _ hq] at h
    by_cases hall : ∀ p ∈ setdefault kwargs "qos_profile" ten, p.1 ∈ "qos_profile" :: optional
    · rw [if_pos hall] at h
      cases h
      refine ⟨a, b, c, rfl, rfl, rfl, rfl, rfl, rfl, ?_, ?_⟩
      · show get _ "qos_profile" = _
        rw [get_append, get_setdefault, if_pos rfl]
        rfl
      · intro key hkey
        show get _ key = _
        rw [get_append, get_setdefault]
        simp only [optional, List.mem_cons, List.not_mem_nil, or_false] at hkey
        rcases hkey with rfl | rfl | rfl | rfl <;> simp [get]
    · rw [if_neg hall] at h; cases h

example : ∃ s, construct "cb" "10" ["node", "Image", "cam"] [("raw", "True")] = .ok s ∧ get s.sub "raw" = some "True" ∧
    get s.sub "qos_profile" = some "10" := ⟨_, rfl, rfl, rfl⟩

/-- **C92** (every message is passed on).  Whatever is registered and received in between, every message received from the
subscription is given to every callback registered before, once per registration, in order.  (Callbacks that raise or register are
treated in C72 and C87.) -/
theorem C92_forwards {C A M : Type} (beh : C → M → A → PyFilter.Effect C A) (hq : PyFilter.Quiet beh)
    (ops : List (PyFilter.Op C A M)) (msg : M) :
    let s := PyFilter.run beh (PyFilter.construct C A M) ops
    callback beh s msg = ({ s with calls := PyFilter.expected [] (ops ++ [.signal msg]) }, false) := by
  intro s
  have h1 := (PyFilter.C72_each_callback_once beh hq (ops ++ [.signal msg])).1
  have h2 : PyFilter.run beh (PyFilter.construct C A M) (ops ++ [.signal msg]) = (PyFilter.signal beh s msg).1 := by
    unfold PyFilter.run; rw [List.foldl_append]; rfl
  rw [h2] at h1
  unfold callback
  have h3 := PyFilter.signalLoop_quiet hq msg s.callbacks s
  change PyFilter.signal beh s msg = _ at h3
  rw [h3] at h1 ⊢
  rw [← h1]

example : PyFilter.Quiet (fun _ _ _ => ⟨[], false⟩ : Nat → Nat → Nat → PyFilter.Effect Nat Nat) := fun _ _ _ => rfl

/-- **C92** (attributes).  On a constructed Subscriber an attribute of its own is found, otherwise that of the subscription,
otherwise AttributeError is raised.  On an object without the attribute `sub` (its constructor has not come that far, or was not
run, as in copying) every lookup of another attribute it does not have itself ends in RecursionError, at any recursion limit. -/
theorem C92_attributes (own : String → Option V) (subAttr : V → String → Option V) (depth : Nat) (key : String) :
    (∀ v, own key = some v → getattr own subAttr (depth + 1) key = .ok v) ∧
    (∀ sub, own key = none → own "sub" = some sub →
      (∀ v, subAttr sub key = some v → getattr own subAttr (depth + 2) key = .ok v) ∧
      (subAttr sub key = none → getattr own subAttr (depth + 2) key = .error .attributeError)) ∧
    (own key = none → own "sub" = none → getattr own subAttr depth key = .error .recursionError) := by
  refine ⟨?_, ?_, ?_⟩
  · intro v h; simp [getattr, h]
  · intro sub h1 h2
    exact ⟨fun v h3 => by simp [getattr, h1, h2, h3], fun h3 => by simp [getattr, h1, h2, h3]⟩
  · intro h1 h2
    have key' : ∀ d k, own k = none → getattr own subAttr d k = .error .recursionError := by
      intro d
      induction d with
      | zero => intro k _; rfl
      | succ d ih =>
        intro k hk
        simp only [getattr, hk]
        rw [ih "sub" h2]
    exact key' depth key h1

example : getattr (fun k => if k = "sub" then some 7 else none) (fun _ k => if k = "topic_name" then some 1 else none) 1000
    "topic_name" = .ok 1 := rfl

end MF.PySubscriber
