import Verif.Proofs.Subscriber
/-
Properties of Subscriber (C48, C49).
-/
namespace MF.Subscriber

/-! ## C48 -/

/-- C48.  After any history: if the last call that subscribes or unsubscribes
subscribed successfully, the Subscriber has exactly the subscription this call made, which is the newest one created; if not,
it has none. -/
theorem C48_current {ops : List Op} {s : Sub} (h : run ops = .ok s) :
    match current ops with
    | none => s.sub = none
    | some cfg => s.sub = some (s.created.length - 1) ∧ s.created.getLast? = some cfg := by
  have hh := hist_run h
  have hs := hh.sub
  cases hsub : s.sub with
  | none =>
    rw [hsub] at hs
    rw [← hs]; rfl
  | some id =>
    have hn := hh.newest id hsub
    rw [hsub] at hs
    simp only [Option.bind_some] at hs
    have hlt : id < s.created.length := by omega
    rw [List.getElem?_eq_getElem hlt] at hs
    rw [← hs]
    refine ⟨by congr 1; omega, ?_⟩
    rw [List.getLast?_eq_getElem?, ← hn]
    simp [hlt]

/-- C48.  Messages of the current subscription are output, once each; messages of all earlier subscriptions are not, if the
user keeps no copy of a subscription pointer.  Nothing else outputs messages. -/
theorem C48_forwards_only_current_partial {ops : List Op} {s : Sub} (hno : NoCopies ops) (h : run ops = .ok s) (id m : Nat) :
    ∃ s', run (ops ++ [.deliver id m]) = .ok s' ∧
      s'.out = s.out ++ (if current ops ≠ none ∧ id + 1 = s.created.length then [m] else []) := by
  have hh := hist_run h
  have hheld := hh.held hno
  have hcond : (s.sub = some id ∨ id ∈ s.held) ↔ (current ops ≠ none ∧ id + 1 = s.created.length) := by
    rw [hheld]
    have := C48_current h
    constructor
    · rintro (hs | hs)
      · refine ⟨?_, hh.newest id hs⟩
        intro hc
        rw [hc] at this
        simp only at this
        rw [this] at hs; cases hs
      · cases hs
    · rintro ⟨h1, h2⟩
      left
      cases hc : current ops with
      | none => exact absurd hc h1
      | some cfg =>
        rw [hc] at this
        rw [this.1]; congr 1; omega
  have hrun : ∀ s', step s (.deliver id m) = .ok s' → run (ops ++ [.deliver id m]) = .ok s' := by
    intro s' hs
    have h0 : runE step init ops = .ok s := h
    unfold run
    rw [runE_append, h0]
    simp only [runE, hs]
  by_cases hc : s.sub = some id ∨ id ∈ s.held
  · have halive : s.alive = true := by
      rw [hh.alive]
      intro hd
      -- a destroyed Subscriber has no subscription
      have hsub : s.sub = some id := by
        rcases hc with hc | hc
        · exact hc
        · rw [hheld] at hc; cases hc
      rw [sub_of_destroyed h hd] at hsub
      cases hsub
    refine ⟨{ s with out := s.out ++ [m] }, hrun _ ?_, ?_⟩
    · simp only [step, deliver]; rw [if_pos hc, if_pos halive]
    · rw [if_pos (hcond.1 hc)]
  · refine ⟨s, hrun _ ?_, ?_⟩
    · simp only [step, deliver]; rw [if_neg hc]
    · rw [if_neg (fun h' => hc (hcond.2 h'))]; simp

/-- C48: no other call outputs anything. -/
theorem C48_others_silent {ops : List Op} {op : Op} {s s' : Sub} (hop : ∀ id m, op ≠ .deliver id m) (h : run ops = .ok s)
    (h' : run (ops ++ [op]) = .ok s') : s'.out = s.out := by
  obtain ⟨s1, h1, h2⟩ := runE_snoc_ok h'
  have : s1 = s := by have := h1.symm.trans h; injection this
  subst this
  cases op with
  | raw c ok =>
    obtain ⟨_, hr⟩ := guardAlive_ok h2
    split at hr
    · cases hr
    · obtain ⟨b, hb⟩ := stateOf_ok hr
      exact (raw_effect hb).out
  | shared c ok =>
    obtain ⟨_, hr⟩ := guardAlive_ok h2
    split at hr
    · cases hr
    · obtain ⟨b, hb⟩ := stateOf_ok hr
      obtain ⟨s3, h6, h7⟩ := shared_split hb
      rw [h7]
      split
      · exact (raw_effect h6).out
      · exact (raw_effect h6).out
  | resubscribe ok =>
    obtain ⟨ha, hr⟩ := guardAlive_ok h2
    obtain ⟨b, hb⟩ := stateOf_ok hr
    rcases resubscribe_cases (hist_run h) ha ok with ⟨_, h3, _⟩ | ⟨c, _, _, _, _, _, hcase⟩
    · rw [h3] at hb; injection hb with hb; injection hb with hb; rw [hb]
    · rcases hcase with ⟨_, hq⟩ | ⟨_, _, hq⟩
      · rw [hq] at hb; exact (raw_effect hb).out
      · rw [hq] at hb
        obtain ⟨s3, h6, h7⟩ := shared_split hb
        rw [h7]
        split
        · exact (raw_effect h6).out
        · exact (raw_effect h6).out
  | unsubscribe =>
    obtain ⟨_, hr⟩ := guardAlive_ok h2
    injection hr with hr; subst hr; rfl
  | copy =>
    obtain ⟨_, hr⟩ := guardAlive_ok h2
    injection hr with hr; subst hr
    cases s1.sub <;> rfl
  | drop id => simp only [step, Except.ok.injEq] at h2; subst h2; rfl
  | release n => simp only [step, Except.ok.injEq] at h2; subst h2; rfl
  | deliver id m => exact absurd rfl (hop id m)
  | destroy =>
    obtain ⟨_, hr⟩ := guardAlive_ok h2
    injection hr with hr; subst hr; rfl

/-- C48 does not hold if the user keeps the pointer returned by `getSubscriber()`: the old subscription stays and its messages
are still output after `unsubscribe` or after subscribing to another topic, and after the Subscriber is destroyed its
subscription calls into the destroyed object. -/
theorem C48_copied_subscription_violates :
    (∃ s, run [.raw ⟨1, "a", 0, 0⟩ true, .copy, .unsubscribe, .deliver 0 7] = .ok s ∧ s.out = [7]) ∧
    (∃ s, run [.raw ⟨1, "a", 0, 0⟩ true, .copy, .raw ⟨1, "b", 0, 0⟩ true, .deliver 0 7, .deliver 1 8] = .ok s ∧ s.out = [7, 8]) ∧
    run [.raw ⟨1, "a", 0, 0⟩ true, .copy, .destroy, .deliver 0 7] = .error .ub :=
  ⟨⟨_, rfl, rfl⟩, ⟨_, rfl, rfl⟩, rfl⟩

/-- Non-vacuity: subscribed to "a", then to "b", then unsubscribed, then subscribed again. -/
example : ∃ s, run [.raw ⟨1, "a", 0, 0⟩ true, .deliver 0 5, .shared ⟨1, "b", 3, 2⟩ true, .deliver 0 6, .deliver 1 7, .unsubscribe,
    .deliver 1 8, .resubscribe true, .deliver 1 9, .deliver 2 10] = .ok s ∧ s.out = [5, 7, 10] ∧
    s.created = [⟨1, "a", 0, 0⟩, ⟨1, "b", 3, 2⟩, ⟨1, "b", 3, 2⟩] := ⟨_, rfl, rfl, rfl⟩

/-! ## C49 -/

/-- C49, exactly.  `subscribe()` creates one new subscription, with the topic, QoS and options of the last call that named a
topic and with the node of the last call that made the Subscriber remember its node; it does nothing if there was no such
call. -/
theorem C49_exact {ops : List Op} {s s' : Sub} (h : run ops = .ok s) (h' : run (ops ++ [.resubscribe true]) = .ok s') :
    match remembered ops with
    | none => s' = s
    | some cfg => s'.created = s.created ++ [cfg] ∧ s'.sub = some s.created.length := by
  obtain ⟨s1, h1, h2⟩ := runE_snoc_ok h'
  have : s1 = s := by have := h1.symm.trans h; injection this
  subst this
  obtain ⟨ha, hr⟩ := guardAlive_ok h2
  obtain ⟨b, hb⟩ := stateOf_ok hr
  rcases resubscribe_cases (hist_run h) ha true with ⟨h3, h4, _⟩ | ⟨c, h3, h4, _, _, _, hcase⟩
  · rw [h3]
    rw [h4] at hb
    injection hb with hb
    injection hb with hb
    exact hb.symm
  · rw [h3]
    rcases hcase with ⟨_, hq⟩ | ⟨_, _, hq⟩
    · rw [hq] at hb
      have he := raw_effect hb
      exact ⟨(he.made h4 rfl).2.1, (he.made h4 rfl).1⟩
    · rw [hq] at hb
      obtain ⟨s3, h6, h7⟩ := shared_split hb
      have he := raw_effect h6
      rw [h7]
      cases b
      · exact ⟨(he.made h4 rfl).2.1, (he.made h4 rfl).1⟩
      · exact ⟨(he.made h4 rfl).2.1, (he.made h4 rfl).1⟩

theorem remembered_regular {ops : List Op} (hok : ∀ c ∈ callsOf ops, c.cfg.topic ≠ "" → c.ok = true)
    (hempty : ∀ c ∈ callsOf ops, c.cfg.topic = "" → c.shared = false) :
    remembered ops = (lastNamed ops).map (·.cfg) := by
  have e : (callsOf ops).filter (fun c => decide (setsNode c)) = (callsOf ops).filter (fun c => decide (c.cfg.topic ≠ "")) := by
    apply List.filter_congr
    intro c hc
    by_cases ht : c.cfg.topic = ""
    · have := hempty c hc ht
      simp [setsNode, ht, this]
    · have := hok c hc ht
      simp [setsNode, ht, this]
  have hnode : lastNode ops = (lastNamed ops).map (·.cfg.node) := by
    unfold lastNode lastNamed
    rw [e]
  unfold remembered
  rw [hnode]
  cases lastNamed ops <;> rfl

/-- C49.  If no `subscribe` call with a topic failed, and no empty topic was given together with a shared node and options,
then `subscribe()` re-creates the subscription of the last `subscribe` call with a topic: same node, topic, QoS and options;
and it does nothing if there was none. -/
theorem C49_restores_partial {ops : List Op} {s s' : Sub} (hok : ∀ c ∈ callsOf ops, c.cfg.topic ≠ "" → c.ok = true)
    (hempty : ∀ c ∈ callsOf ops, c.cfg.topic = "" → c.shared = false) (h : run ops = .ok s)
    (h' : run (ops ++ [.resubscribe true]) = .ok s') :
    match lastNamed ops with
    | none => s' = s
    | some c => s'.created = s.created ++ [c.cfg] ∧ s'.sub = some s.created.length := by
  have := C49_exact h h'
  rw [remembered_regular hok hempty] at this
  cases hl : lastNamed ops with
  | none => rw [hl] at this; exact this
  | some c => rw [hl] at this; exact this

/-- C49 fails after an empty topic with a shared node and options (the node is replaced), and after a `subscribe` that threw
(topic, QoS and options are replaced, the node is not). -/
theorem C49_wrong_node :
    (∃ s, run [.raw ⟨1, "a", 0, 0⟩ true, .shared ⟨2, "", 0, 0⟩ true, .resubscribe true] = .ok s ∧
      s.created = [⟨1, "a", 0, 0⟩, ⟨2, "a", 0, 0⟩]) ∧
    (∃ s, run [.raw ⟨1, "a", 0, 0⟩ true, .raw ⟨2, "b", 5, 6⟩ false, .resubscribe true] = .ok s ∧
      s.created = [⟨1, "a", 0, 0⟩, ⟨1, "b", 5, 6⟩]) := ⟨⟨_, rfl, rfl⟩, ⟨_, rfl, rfl⟩⟩

/-- C49, lifetime: on an existing Subscriber, `subscribe()` is well defined exactly if there is nothing to re-create, or the
node has not been released, or it is the node the Subscriber keeps alive: the one of the last call with a shared node and
options. -/
theorem C49_safe_iff {ops : List Op} {s : Sub} (ok : Bool) (h : run ops = .ok s) (hd : ¬ Destroyed ops) :
    (∃ s', run (ops ++ [.resubscribe ok]) = .ok s') ↔
      ∀ cfg, remembered ops = some cfg → Op.release cfg.node ∉ ops ∨ keptNode ops = some cfg.node := by
  have hh := hist_run h
  have ha := hh.alive.2 hd
  have hkept := hh.kept ha
  have e : ∀ s', run (ops ++ [.resubscribe ok]) = .ok s' ↔ stateOf (resubscribe s ok) = .ok s' := by
    intro s'
    have h0 : runE step init ops = .ok s := h
    unfold run
    rw [runE_append, h0]
    simp only [runE, step, guardAlive, ha, if_true]
    cases stateOf (resubscribe s ok) <;> simp
  simp only [e]
  have hal : ∀ n, nodeAlive s n = true ↔ Op.release n ∉ ops ∨ keptNode ops = some n := by
    intro n
    unfold nodeAlive
    rw [Bool.or_eq_true, decide_eq_true_eq, decide_eq_true_eq, hh.released, hkept]
  have hst : ∀ r : Result, (∃ s', stateOf r = .ok s') ↔ ∃ p, r = .ok p := by
    intro r
    constructor
    · rintro ⟨s', hs'⟩
      obtain ⟨b, hb⟩ := stateOf_ok hs'
      exact ⟨_, hb⟩
    · rintro ⟨⟨a, b⟩, rfl⟩
      exact ⟨a, rfl⟩
  rw [hst]
  rcases resubscribe_cases hh ha ok with ⟨h3, h4, _⟩ | ⟨c, h3, h4, _, _, _, hcase⟩
  · rw [h3, h4]
    simp
  · rw [h3]
    have : (∃ p, resubscribe s ok = .ok p) ↔ nodeAlive s c.node = true := by
      rcases hcase with ⟨_, hq⟩ | ⟨_, _, hq⟩
      · rw [hq, raw_defined]; simp [h4]
      · rw [hq, shared_defined]; simp [h4]
    rw [this, hal]
    simp

/-- C49: the overload with a shared node but without options keeps only the address of the node, so re-subscribing after the
user has released the node is undefined; the overload with options keeps the node alive. -/
theorem C49_shared_node_dangles :
    run [.raw ⟨1, "a", 0, 0⟩ true, .release 1, .resubscribe true] = .error .ub ∧
    (∃ s, run [.shared ⟨1, "a", 0, 0⟩ true, .release 1, .resubscribe true] = .ok s ∧ s.sub = some 1) := ⟨rfl, ⟨_, rfl, rfl⟩⟩

/-- C49, lifetime.  After any history a node exists exactly if the user has not released it, or the Subscriber exists and keeps it alive:
it was given to the last call that made the Subscriber keep a node.  In particular a destroyed Subscriber keeps no node alive. -/
theorem C49_node_lifetime {ops : List Op} {s : Sub} (h : run ops = .ok s) (n : Nat) :
    nodeAlive s n = true ↔ Op.release n ∉ ops ∨ (¬ Destroyed ops ∧ keptNode ops = some n) := by
  have hh := hist_run h
  have hdead : s.alive = false → s.nodeShared = none := dead_keeps_none h
  unfold nodeAlive
  rw [Bool.or_eq_true, decide_eq_true_eq, decide_eq_true_eq, hh.released, ← hh.alive]
  cases ha : s.alive with
  | true => rw [hh.kept ha]; simp
  | false => rw [hdead ha]; simp

example : ∃ s, run [.shared ⟨1, "a", 0, 0⟩ true, .release 1] = .ok s ∧ nodeAlive s 1 = true ∧
    ∃ s', run [.shared ⟨1, "a", 0, 0⟩ true, .release 1, .destroy] = .ok s' ∧ nodeAlive s' 1 = false :=
  ⟨_, rfl, rfl, _, rfl, rfl⟩

/-- Non-vacuity of C49_restores_partial. -/
example : ∃ s, run [.raw ⟨1, "a", 0, 0⟩ true, .shared ⟨2, "b", 4, 9⟩ true, .raw ⟨5, "", 1, 1⟩ true, .resubscribe true] = .ok s ∧
    s.created = [⟨1, "a", 0, 0⟩, ⟨2, "b", 4, 9⟩, ⟨2, "b", 4, 9⟩] := ⟨_, rfl, rfl⟩

/-- C49, C48.  One more call after a history without a fault: it is well defined exactly if it is safe, and undefined
behaviour otherwise. -/
theorem C49_step_safe_iff {ops : List Op} {s : Sub} (h : run ops = .ok s) (op : Op) :
    ((∃ s', run (ops ++ [op]) = .ok s') ↔ Safe ops s.held op) ∧ (¬ Safe ops s.held op → run (ops ++ [op]) = .error .ub) := by
  have hh := hist_run h
  have e : run (ops ++ [op]) = step s op := by
    have h0 : runE step init ops = .ok s := h
    unfold run
    rw [runE_append, h0]
    simp only [runE]
    cases step s op <;> rfl
  have hg : ∀ r : Except Fault Sub, (∃ s', guardAlive s r = .ok s') ↔ ¬ Destroyed ops ∧ ∃ s', r = .ok s' := by
    intro r
    rw [← hh.alive]
    constructor
    · rintro ⟨s', hs'⟩
      obtain ⟨h1, h2⟩ := guardAlive_ok hs'
      exact ⟨h1, s', h2⟩
    · rintro ⟨h1, s', h2⟩
      exact ⟨s', by unfold guardAlive; rw [if_pos h1, h2]⟩
  have hst : ∀ r : Result, (∃ s', stateOf r = .ok s') ↔ ∃ p, r = .ok p := by
    intro r
    constructor
    · rintro ⟨s', hs'⟩
      obtain ⟨b, hb⟩ := stateOf_ok hs'
      exact ⟨_, hb⟩
    · rintro ⟨⟨a, b⟩, rfl⟩
      exact ⟨a, rfl⟩
  have key : (∃ s', run (ops ++ [op]) = .ok s') ↔ Safe ops s.held op := by
    cases op with
    | raw c ok =>
      rw [e]
      simp only [step, Safe]
      rw [hg, ← hh.released]
      by_cases hr : c.node ∈ s.released
      · simp [hr]
      · simp only [hr, if_false, not_false_eq_true, and_true]
        rw [hst, raw_defined]
        simp [nodeAlive, hr]
    | shared c ok =>
      rw [e]
      simp only [step, Safe]
      rw [hg, ← hh.released]
      by_cases hr : c.node ∈ s.released
      · simp [hr]
      · simp only [hr, if_false, not_false_eq_true, and_true]
        rw [hst, shared_defined]
        simp [nodeAlive, hr]
    | resubscribe ok =>
      by_cases hd : Destroyed ops
      · rw [e]
        simp only [step, Safe]
        rw [hg]
        simp [hd]
      · rw [C49_safe_iff ok h hd]
        exact ⟨fun h => ⟨hd, h⟩, fun h => h.2⟩
    | unsubscribe => rw [e]; simp only [step, Safe]; rw [hg]; simp
    | copy => rw [e]; simp only [step, Safe]; rw [hg]; simp
    | destroy => rw [e]; simp only [step, Safe]; rw [hg]; simp
    | drop id => exact ⟨fun _ => trivial, fun _ => ⟨_, e⟩⟩
    | release n => exact ⟨fun _ => trivial, fun _ => ⟨_, e⟩⟩
    | deliver id m =>
      rw [e]
      simp only [step, Safe, deliver]
      by_cases hd : Destroyed ops
      · have ha : s.alive = false := by
          cases hx : s.alive with
          | false => rfl
          | true => exact absurd hd (hh.alive.1 hx)
        rw [sub_of_destroyed h hd, ha]
        by_cases hm : id ∈ s.held
        · simp [hm, hd]
        · simp [hm]
      · rw [hh.alive.2 hd]
        simp only [hd, false_implies, iff_true, if_true]
        split
        · exact ⟨_, rfl⟩
        · exact ⟨_, rfl⟩
  refine ⟨key, fun hn => ?_⟩
  cases hs : step s op with
  | ok s' => exact absurd (key.1 ⟨s', e.trans hs⟩) hn
  | error f => rw [e, hs, step_ub hs]

/-- Each kind of unsafe call: subscribing with a released node, re-subscribing to one, any call after the destruction, a
delivery after the destruction to a subscription the user still holds. -/
example : run [.release 1, .raw ⟨1, "a", 0, 0⟩ true] = .error .ub ∧
    run [.release 1, .shared ⟨1, "a", 0, 0⟩ true] = .error .ub ∧
    run [.raw ⟨1, "a", 0, 0⟩ true, .release 1, .resubscribe true] = .error .ub ∧
    run [.destroy, .unsubscribe] = .error .ub ∧ run [.destroy, .destroy] = .error .ub ∧ run [.destroy, .copy] = .error .ub ∧
    run [.destroy, .resubscribe true] = .error .ub ∧
    run [.raw ⟨1, "a", 0, 0⟩ true, .copy, .destroy, .deliver 0 5] = .error .ub ∧
    (∃ s, run [.raw ⟨1, "a", 0, 0⟩ true, .copy, .destroy, .drop 0, .deliver 0 5] = .ok s) :=
  ⟨rfl, rfl, rfl, rfl, rfl, rfl, rfl, rfl, ⟨_, rfl⟩⟩

end MF.Subscriber
