import Verif.Proofs.Basic
import Verif.Spec.Subscriber
/-
Lemmas about the model of Subscriber.
-/
namespace MF.Subscriber

theorem callsOf_snoc (ops : List Op) (op : Op) : callsOf (ops ++ [op]) = callsOf ops ++
    match op with | .raw c ok => [⟨c, false, ok⟩] | .shared c ok => [⟨c, true, ok⟩] | _ => [] := by
  unfold callsOf
  rw [List.filterMap_append]
  cases op <;> simp

theorem current_snoc (ops : List Op) (op : Op) : current (ops ++ [op]) =
    match op with
    | .raw c ok => if c.topic ≠ "" ∧ ok = true then some c else none
    | .shared c ok => if c.topic ≠ "" ∧ ok = true then some c else none
    | .resubscribe ok => if ok then remembered ops else none
    | .unsubscribe => none
    | .destroy => none
    | _ => current ops := by
  unfold current
  rw [List.reverse_append]
  cases op <;> simp [currentRev]

/-- The correspondence of the state with the history. -/
structure Hist (ops : List Op) (s : Sub) : Prop where
  alive : s.alive = true ↔ ¬ Destroyed ops
  named : s.alive = true → match lastNamed ops with
    | none => s.topic = ""
    | some c => s.topic = c.cfg.topic ∧ s.topic ≠ "" ∧ s.qos = c.cfg.qos ∧ s.options = c.cfg.options
  node : s.alive = true → (match s.nodeRaw with | some n => some n | none => s.nodeShared) = lastNode ops
  kept : s.alive = true → s.nodeShared = keptNode ops
  newest : ∀ id, s.sub = some id → id + 1 = s.created.length
  sub : s.sub.bind (fun id => s.created[id]?) = current ops
  released : ∀ n, n ∈ s.released ↔ Op.release n ∈ ops
  held : NoCopies ops → s.held = []
  valid : ∀ id ∈ s.held, id < s.created.length

theorem hist_init : Hist [] init := by
  constructor <;> simp [init, Destroyed, lastNamed, callsOf, lastNode, keptNode, current, currentRev]

theorem hist_quiet {ops : List Op} {s s' : Sub} {op : Op} (h : Hist ops s)
    (hop : callsOf (ops ++ [op]) = callsOf ops) (hcur : current (ops ++ [op]) = current ops) (hd : op ≠ .destroy)
    (ha : s'.alive = s.alive) (ht : s'.topic = s.topic) (hq : s'.qos = s.qos) (ho : s'.options = s.options)
    (hr : s'.nodeRaw = s.nodeRaw) (hs : s'.nodeShared = s.nodeShared) (hsub : s'.sub = s.sub) (hc : s'.created = s.created)
    (hrel : ∀ n, n ∈ s'.released ↔ Op.release n ∈ ops ++ [op]) (hheld : NoCopies (ops ++ [op]) → s'.held = [])
    (hval : ∀ id ∈ s'.held, id < s.created.length) :
    Hist (ops ++ [op]) s' := by
  constructor
  · rw [ha, h.alive]
    unfold Destroyed
    simp only [List.mem_append, List.mem_singleton]
    have : ¬ Op.destroy = op := fun h => hd h.symm
    simp [this]
  · rw [ha, ht, hq, ho]
    have : lastNamed (ops ++ [op]) = lastNamed ops := by unfold lastNamed; rw [hop]
    rw [this]; exact h.named
  · rw [ha, hr, hs]
    have : lastNode (ops ++ [op]) = lastNode ops := by unfold lastNode; rw [hop]
    rw [this]; exact h.node
  · rw [ha, hs]
    have : keptNode (ops ++ [op]) = keptNode ops := by unfold keptNode; rw [hop]
    rw [this]; exact h.kept
  · rw [hsub, hc]; exact h.newest
  · rw [hsub, hc, hcur]; exact h.sub
  · exact hrel
  · exact hheld
  · rw [hc]; exact hval

theorem getLast?_filter_snoc {α : Type} (p : α → Bool) (l : List α) (a : α) :
    ((l ++ [a]).filter p).getLast? = if p a then some a else (l.filter p).getLast? := by
  rw [List.filter_append]
  by_cases h : p a = true <;> simp [h]

/-- The effect of the raw overload, when it is defined. -/
structure RawEffect (s : Sub) (c : Cfg) (ok : Bool) (s' : Sub) (ret : Bool) : Prop where
  alive : s'.alive = s.alive
  held : s'.held = s.held
  released : s'.released = s.released
  out : s'.out = s.out
  shared : s'.nodeShared = s.nodeShared
  empty : c.topic = "" → s' = { s with sub := none } ∧ ret = true
  named : c.topic ≠ "" → s'.topic = c.topic ∧ s'.qos = c.qos ∧ s'.options = c.options ∧ ret = ok
  made : c.topic ≠ "" → ok = true → s'.sub = some s.created.length ∧ s'.created = s.created ++ [c] ∧ s'.nodeRaw = some c.node
  failed : c.topic ≠ "" → ok = false → s'.sub = none ∧ s'.created = s.created ∧ s'.nodeRaw = s.nodeRaw

theorem raw_effect {s s' : Sub} {c : Cfg} {ok ret : Bool} (h : subscribeRaw s c ok = .ok (s', ret)) : RawEffect s c ok s' ret := by
  unfold subscribeRaw at h
  by_cases ht : c.topic = ""
  · simp only [ht, ne_eq, not_true_eq_false, if_false, Except.ok.injEq, Prod.mk.injEq] at h
    obtain ⟨rfl, rfl⟩ := h
    constructor <;> simp [unsubscribe, ht]
  · simp only [ne_eq, ht, not_false_eq_true, if_true] at h
    split at h
    · cases h
    · split at h
      · rename_i hok
        simp only [Except.ok.injEq, Prod.mk.injEq] at h
        obtain ⟨rfl, rfl⟩ := h
        constructor <;> simp_all [unsubscribe]
      · rename_i hok
        simp only [Except.ok.injEq, Prod.mk.injEq] at h
        obtain ⟨rfl, rfl⟩ := h
        constructor <;> simp_all [unsubscribe]

theorem raw_defined (s : Sub) (c : Cfg) (ok : Bool) :
    (∃ r, subscribeRaw s c ok = .ok r) ↔ c.topic = "" ∨ nodeAlive s c.node = true := by
  unfold subscribeRaw
  by_cases ht : c.topic = ""
  · simp [ht]
  · simp only [ne_eq, ht, not_false_eq_true, if_true, false_or]
    have e : nodeAlive { unsubscribe s with topic := c.topic, qos := c.qos, options := c.options } c.node = nodeAlive s c.node := rfl
    rw [e]
    by_cases hn : nodeAlive s c.node = true
    · simp only [hn, Bool.not_true, Bool.false_eq_true, if_false, iff_true]
      split
      · exact ⟨_, rfl⟩
      · exact ⟨_, rfl⟩
    · simp [hn]

theorem shared_defined (s : Sub) (c : Cfg) (ok : Bool) :
    (∃ r, subscribeShared s c ok = .ok r) ↔ c.topic = "" ∨ nodeAlive s c.node = true := by
  rw [← raw_defined s c ok]
  unfold subscribeShared
  constructor
  · intro h
    cases hr : subscribeRaw s c ok with
    | error f => rw [hr] at h; simp at h
    | ok r => exact ⟨r, rfl⟩
  · rintro ⟨⟨s1, b⟩, h⟩
    rw [h]
    cases b
    · exact ⟨_, rfl⟩
    · exact ⟨_, rfl⟩

theorem lastNamed_eq (ops : List Op) (op : Op) (cl : Call) (hop : callsOf (ops ++ [op]) = callsOf ops ++ [cl]) :
    lastNamed (ops ++ [op]) = if cl.cfg.topic ≠ "" then some cl else lastNamed ops := by
  unfold lastNamed; rw [hop, getLast?_filter_snoc]; simp

theorem lastNode_eq (ops : List Op) (op : Op) (cl : Call) (hop : callsOf (ops ++ [op]) = callsOf ops ++ [cl]) :
    lastNode (ops ++ [op]) = if setsNode cl then some cl.cfg.node else lastNode ops := by
  unfold lastNode; rw [hop, getLast?_filter_snoc]
  by_cases h : setsNode cl <;> simp [h]

theorem keptNode_eq (ops : List Op) (op : Op) (cl : Call) (hop : callsOf (ops ++ [op]) = callsOf ops ++ [cl]) :
    keptNode (ops ++ [op]) = if setsNode cl ∧ cl.shared = true then some cl.cfg.node else keptNode ops := by
  unfold keptNode; rw [hop, getLast?_filter_snoc]
  by_cases h : setsNode cl ∧ cl.shared = true <;> simp [h]

theorem lookup_last {α : Type} (l : List α) (a : α) : (some l.length).bind (fun id => (l ++ [a])[id]?) = some a := by simp

/-- A `subscribe` call with arguments. -/
theorem hist_call {ops : List Op} {s s' : Sub} {op : Op} (h : Hist ops s) (ha : s.alive = true) (cl : Call)
    (hop : callsOf (ops ++ [op]) = callsOf ops ++ [cl])
    (hcur : current (ops ++ [op]) = if cl.cfg.topic ≠ "" ∧ cl.ok = true then some cl.cfg else none)
    (hd : op ≠ .destroy) (hnr : ∀ n, op ≠ .release n) (hnc : op ≠ .copy) {s1 : Sub} {ret : Bool} (he : RawEffect s cl.cfg cl.ok s1 ret)
    (hs' : s' = if cl.shared = true ∧ ret = true then { s1 with nodeRaw := none, nodeShared := some cl.cfg.node } else s1) :
    Hist (ops ++ [op]) s' := by
  have hal : s'.alive = s.alive := by rw [hs']; split <;> exact he.alive
  have hrel : s'.released = s.released := by rw [hs']; split <;> exact he.released
  have hheld : s'.held = s.held := by rw [hs']; split <;> exact he.held
  have hcr : s'.created = s1.created := by rw [hs']; split <;> rfl
  have hsub : s'.sub = s1.sub := by rw [hs']; split <;> rfl
  have htp : s'.topic = s1.topic ∧ s'.qos = s1.qos ∧ s'.options = s1.options := by rw [hs']; split <;> exact ⟨rfl, rfl, rfl⟩
  have hnode : ∀ n, op = .release n → False := fun n h' => hnr n h'
  have hcreated : s1.created.length ≥ s.created.length := by
    by_cases ht : cl.cfg.topic = ""
    · rw [(he.empty ht).1]; exact Nat.le_refl _
    · cases hok : cl.ok with
      | true => rw [(he.made ht hok).2.1]; simp
      | false => rw [(he.failed ht hok).2.1]; exact Nat.le_refl _
  constructor
  · rw [hal, h.alive]
    unfold Destroyed
    have : ¬ Op.destroy = op := fun h => hd h.symm
    simp [this]
  · intro _
    rw [lastNamed_eq _ _ cl hop, htp.1, htp.2.1, htp.2.2]
    by_cases ht : cl.cfg.topic = ""
    · rw [if_neg (by simp [ht]), (he.empty ht).1]
      exact h.named ha
    · rw [if_pos ht]
      obtain ⟨h1, h2, h3, _⟩ := he.named ht
      exact ⟨h1, by rw [h1]; exact ht, h2, h3⟩
  · intro _
    rw [lastNode_eq _ _ cl hop]
    have hn := h.node ha
    by_cases ht : cl.cfg.topic = ""
    · obtain ⟨h1, h2⟩ := he.empty ht
      cases hsh : cl.shared with
      | true =>
        rw [if_pos (show setsNode cl from Or.inr ⟨ht, hsh⟩), hs', if_pos ⟨hsh, h2⟩]
      | false =>
        rw [if_neg (by rintro (h' | h'); exact h'.1 ht; rw [hsh] at h'; cases h'.2), hs', if_neg (by rw [hsh]; simp), h1]
        exact hn
    · obtain ⟨_, _, _, hret⟩ := he.named ht
      cases hok : cl.ok with
      | true =>
        rw [if_pos (show setsNode cl from Or.inl ⟨ht, hok⟩), hs']
        by_cases hb : cl.shared = true ∧ ret = true
        · rw [if_pos hb]
        · rw [if_neg hb, (he.made ht hok).2.2]
      | false =>
        rw [if_neg (by rintro (h' | h'); rw [hok] at h'; cases h'.2; exact ht h'.1), hs', if_neg (by rw [hret, hok]; simp),
          (he.failed ht hok).2.2, he.shared]
        exact hn
  · intro _
    rw [keptNode_eq _ _ cl hop]
    have hn := h.kept ha
    by_cases hsh : cl.shared = true
    · by_cases hset : setsNode cl
      · have hret : ret = true := by
          rcases hset with ⟨ht, hok⟩ | ⟨ht, _⟩
          · rw [(he.named ht).2.2.2, hok]
          · exact (he.empty ht).2
        rw [if_pos ⟨hset, hsh⟩, hs', if_pos ⟨hsh, hret⟩]
      · rw [if_neg (fun h' => hset h'.1), hs']
        have hret : ret = false := by
          by_cases ht : cl.cfg.topic = ""
          · exact absurd (Or.inr ⟨ht, hsh⟩) hset
          · rw [(he.named ht).2.2.2]
            cases hok : cl.ok with
            | true => exact absurd (Or.inl ⟨ht, hok⟩) hset
            | false => rfl
        rw [if_neg (by rw [hret]; simp), he.shared]
        exact hn
    · rw [if_neg (fun h' => hsh h'.2), hs', if_neg (fun h' => hsh h'.1), he.shared]
      exact hn
  · rw [hsub, hcr]
    intro id hid
    by_cases ht : cl.cfg.topic = ""
    · rw [(he.empty ht).1] at hid; cases hid
    · cases hok : cl.ok with
      | true =>
        rw [(he.made ht hok).1] at hid
        injection hid with hid
        subst hid
        rw [(he.made ht hok).2.1]; simp
      | false => rw [(he.failed ht hok).1] at hid; cases hid
  · rw [hsub, hcr, hcur]
    by_cases ht : cl.cfg.topic = ""
    · rw [(he.empty ht).1, if_neg (by simp [ht])]; rfl
    · cases hok : cl.ok with
      | true => rw [(he.made ht hok).1, (he.made ht hok).2.1, if_pos ⟨ht, rfl⟩, lookup_last]
      | false => rw [(he.failed ht hok).1, if_neg (by simp)]; rfl
  · intro n
    rw [hrel, h.released]
    have : ¬ Op.release n = op := fun h' => hnr n h'.symm
    simp [this]
  · intro hno
    rw [hheld]
    apply h.held
    intro hc
    exact hno (by simp [hc])
  · intro id hid
    rw [hheld] at hid
    rw [hcr]
    have := h.valid id hid
    omega

theorem remembered_some {ops : List Op} {c : Cfg} (h : remembered ops = some c) :
    ∃ cl, lastNamed ops = some cl ∧ lastNode ops = some c.node ∧ c.topic = cl.cfg.topic ∧ c.qos = cl.cfg.qos ∧ c.options = cl.cfg.options := by
  unfold remembered at h
  split at h
  · rename_i cl n h1 h2
    injection h with h
    subst h
    exact ⟨cl, h1, h2, rfl, rfl, rfl⟩
  · cases h

/-- `subscribe()` in terms of the call it amounts to. -/
theorem resubscribe_cases {ops : List Op} {s : Sub} (h : Hist ops s) (ha : s.alive = true) (ok : Bool) :
    (remembered ops = none ∧ resubscribe s ok = .ok (s, true) ∧ s.sub = none) ∨
    ∃ c, remembered ops = some c ∧ c.topic ≠ "" ∧ s.topic = c.topic ∧ s.qos = c.qos ∧ s.options = c.options ∧
      ((s.nodeRaw = some c.node ∧ resubscribe s ok = subscribeRaw s c ok) ∨
       (s.nodeRaw = none ∧ s.nodeShared = some c.node ∧ resubscribe s ok = subscribeShared s c ok)) := by
  have hn := h.named ha
  have hnode := h.node ha
  cases hln : lastNamed ops with
  | none =>
    rw [hln] at hn
    left
    refine ⟨by unfold remembered; rw [hln], by unfold resubscribe; rw [if_neg (by simp [hn])], ?_⟩
    have hcur : current ops = none := by
      have : ∀ l : List Op, lastNamed l = none → current l = none := by
        intro l
        induction l using snoc_induction with
        | h0 => intro _; rfl
        | hs l op ih =>
          intro hl
          rw [current_snoc]
          cases op with
          | raw c ok' =>
            rw [lastNamed_eq l _ ⟨c, false, ok'⟩ (by rw [callsOf_snoc])] at hl
            split at hl
            · cases hl
            · rename_i ht; simp at ht; simp [ht]
          | shared c ok' =>
            rw [lastNamed_eq l _ ⟨c, true, ok'⟩ (by rw [callsOf_snoc])] at hl
            split at hl
            · cases hl
            · rename_i ht; simp at ht; simp [ht]
          | resubscribe ok' =>
            have : lastNamed l = none := by unfold lastNamed at hl ⊢; rw [callsOf_snoc] at hl; simpa using hl
            simp [remembered, this]
          | unsubscribe => rfl
          | destroy => rfl
          | copy => exact ih (by unfold lastNamed at hl ⊢; rw [callsOf_snoc] at hl; simpa using hl)
          | drop id => exact ih (by unfold lastNamed at hl ⊢; rw [callsOf_snoc] at hl; simpa using hl)
          | release n => exact ih (by unfold lastNamed at hl ⊢; rw [callsOf_snoc] at hl; simpa using hl)
          | deliver id m => exact ih (by unfold lastNamed at hl ⊢; rw [callsOf_snoc] at hl; simpa using hl)
      exact this ops hln
    have hs := h.sub
    rw [hcur] at hs
    cases hsub : s.sub with
    | none => rfl
    | some id =>
      have := h.newest id hsub
      rw [hsub] at hs
      simp only [Option.bind_some, List.getElem?_eq_none_iff] at hs
      omega
  | some cl =>
    rw [hln] at hn
    simp only at hn
    obtain ⟨h1, h2, h3, h4⟩ := hn
    cases hnd : lastNode ops with
    | none =>
      rw [hnd] at hnode
      left
      have hr : s.nodeRaw = none := by cases hq : s.nodeRaw with | none => rfl | some n => rw [hq] at hnode; cases hnode
      have hsh : s.nodeShared = none := by rw [hr] at hnode; exact hnode
      refine ⟨by unfold remembered; rw [hln, hnd], ?_, ?_⟩
      · unfold resubscribe
        rw [if_pos h2, hr, hsh]
      · have hcur : current ops = none := by
          have : ∀ l : List Op, lastNode l = none → current l = none := by
            intro l
            induction l using snoc_induction with
            | h0 => intro _; rfl
            | hs l op ih =>
              intro hl
              rw [current_snoc]
              cases op with
              | raw c ok' =>
                rw [lastNode_eq l _ ⟨c, false, ok'⟩ (by rw [callsOf_snoc])] at hl
                split at hl
                · cases hl
                · rename_i hset
                  simp only
                  rw [if_neg (fun h' => hset (Or.inl h'))]
              | shared c ok' =>
                rw [lastNode_eq l _ ⟨c, true, ok'⟩ (by rw [callsOf_snoc])] at hl
                split at hl
                · cases hl
                · rename_i hset
                  simp only
                  rw [if_neg (fun h' => hset (Or.inl h'))]
              | resubscribe ok' =>
                have : lastNode l = none := by unfold lastNode at hl ⊢; rw [callsOf_snoc] at hl; simpa using hl
                simp only [remembered, this]
                split
                · split
                  · rename_i h' ; cases h'
                  · rfl
                · rfl
              | unsubscribe => rfl
              | destroy => rfl
              | copy => exact ih (by unfold lastNode at hl ⊢; rw [callsOf_snoc] at hl; simpa using hl)
              | drop id => exact ih (by unfold lastNode at hl ⊢; rw [callsOf_snoc] at hl; simpa using hl)
              | release n => exact ih (by unfold lastNode at hl ⊢; rw [callsOf_snoc] at hl; simpa using hl)
              | deliver id m => exact ih (by unfold lastNode at hl ⊢; rw [callsOf_snoc] at hl; simpa using hl)
          exact this ops hnd
        have hs := h.sub
        rw [hcur] at hs
        cases hsub : s.sub with
        | none => rfl
        | some id =>
          have := h.newest id hsub
          rw [hsub] at hs
          simp only [Option.bind_some, List.getElem?_eq_none_iff] at hs
          omega
    | some n =>
      rw [hnd] at hnode
      right
      refine ⟨⟨n, cl.cfg.topic, cl.cfg.qos, cl.cfg.options⟩, by unfold remembered; rw [hln, hnd], by rw [← h1]; exact h2, h1, h3, h4, ?_⟩
      cases hr : s.nodeRaw with
      | some n' =>
        rw [hr] at hnode
        simp only [Option.some.injEq] at hnode
        subst hnode
        left
        refine ⟨rfl, ?_⟩
        unfold resubscribe
        rw [if_pos h2, hr, h1, h3, h4]
      | none =>
        rw [hr] at hnode
        simp only at hnode
        right
        refine ⟨rfl, hnode, ?_⟩
        unfold resubscribe
        rw [if_pos h2, hr, hnode, h1, h3, h4]

theorem shared_split {s s' : Sub} {c : Cfg} {ok ret : Bool} (h : subscribeShared s c ok = .ok (s', ret)) :
    ∃ s1, subscribeRaw s c ok = .ok (s1, ret) ∧
      s' = if ret = true then { s1 with nodeRaw := none, nodeShared := some c.node } else s1 := by
  unfold subscribeShared at h
  split at h
  · cases h
  · rename_i s1 hr
    simp only [Except.ok.injEq, Prod.mk.injEq] at h
    obtain ⟨rfl, rfl⟩ := h
    exact ⟨s1, hr, by simp⟩
  · rename_i s1 hr
    simp only [Except.ok.injEq, Prod.mk.injEq] at h
    obtain ⟨rfl, rfl⟩ := h
    exact ⟨s1, hr, by simp⟩

theorem guardAlive_ok {s s' : Sub} {r : Except Fault Sub} (h : guardAlive s r = .ok s') : s.alive = true ∧ r = .ok s' := by
  unfold guardAlive at h
  split at h
  · rename_i ha; exact ⟨ha, h⟩
  · cases h

theorem stateOf_ok {r : Result} {s : Sub} (h : stateOf r = .ok s) : ∃ b, r = .ok (s, b) := by
  unfold stateOf at h
  split at h
  · cases h
  · rename_i s1 b
    injection h with h
    subst h
    exact ⟨b, rfl⟩

theorem hist_resubscribe {ops : List Op} {s s' : Sub} {ok ret : Bool} (h : Hist ops s) (ha : s.alive = true)
    (hs : resubscribe s ok = .ok (s', ret)) : Hist (ops ++ [.resubscribe ok]) s' := by
  have hop : callsOf (ops ++ [.resubscribe ok]) = callsOf ops := by rw [callsOf_snoc]; simp
  have hcur : current (ops ++ [.resubscribe ok]) = if ok then remembered ops else none := by rw [current_snoc]
  rcases resubscribe_cases h ha ok with ⟨h1, h2, h3⟩ | ⟨c, h1, h2, h3, h4, h5, hcase⟩
  · rw [h2] at hs
    simp only [Except.ok.injEq, Prod.mk.injEq] at hs
    obtain ⟨rfl, _⟩ := hs
    refine hist_quiet h hop ?_ (by simp) rfl rfl rfl rfl rfl rfl rfl rfl ?_ ?_ h.valid
    · rw [hcur, h1]
      have := h.sub
      rw [h3] at this
      rw [← this]
      cases ok <;> rfl
    · intro n; rw [h.released]; simp
    · intro hno; apply h.held; intro hc; exact hno (by simp [hc])
  · -- the effect is that of the remembered call
    obtain ⟨s1, he, hs1⟩ : ∃ s1, RawEffect s c ok s1 ret ∧ ((s.nodeRaw = some c.node ∧ s' = s1) ∨ (s.nodeRaw = none ∧ s.nodeShared = some c.node ∧
        s' = if ret = true then { s1 with nodeRaw := none, nodeShared := some c.node } else s1)) := by
      rcases hcase with ⟨hr, hq⟩ | ⟨hr, hsh, hq⟩
      · rw [hq] at hs; exact ⟨s', raw_effect hs, Or.inl ⟨hr, rfl⟩⟩
      · rw [hq] at hs
        obtain ⟨s1, h6, h7⟩ := shared_split hs
        exact ⟨s1, raw_effect h6, Or.inr ⟨hr, hsh, h7⟩⟩
    obtain ⟨e1, e2, e3, e4⟩ := he.named h2
    have hfld : s'.alive = s.alive ∧ s'.held = s.held ∧ s'.released = s.released ∧ s'.topic = s.topic ∧ s'.qos = s.qos ∧
        s'.options = s.options ∧ s'.sub = s1.sub ∧ s'.created = s1.created ∧ s'.nodeShared = s.nodeShared ∧
        (match s'.nodeRaw with | some n => some n | none => s'.nodeShared) = (match s.nodeRaw with | some n => some n | none => s.nodeShared) := by
      rcases hs1 with ⟨hr, rfl⟩ | ⟨hr, hsh, hq⟩
      · refine ⟨he.alive, he.held, he.released, e1.trans h3.symm, e2.trans h4.symm, e3.trans h5.symm, rfl, rfl, he.shared, ?_⟩
        rw [hr, he.shared]
        cases hok : ok with
        | true => rw [(he.made h2 hok).2.2]
        | false => rw [(he.failed h2 hok).2.2, hr]
      · rw [hq]
        split
        · exact ⟨he.alive, he.held, he.released, e1.trans h3.symm, e2.trans h4.symm, e3.trans h5.symm, rfl, rfl, hsh.symm, by rw [hr, hsh]⟩
        · rename_i hret
          refine ⟨he.alive, he.held, he.released, e1.trans h3.symm, e2.trans h4.symm, e3.trans h5.symm, rfl, rfl, he.shared, ?_⟩
          have hok : ok = false := by rw [e4] at hret; simpa using hret
          rw [(he.failed h2 hok).2.2, he.shared]
    obtain ⟨f1, f2, f3, f4, f5, f6, f7, f8, f9, f10⟩ := hfld
    constructor
    · rw [f1, h.alive]; unfold Destroyed; simp
    · rw [f1, f4, f5, f6]
      have : lastNamed (ops ++ [.resubscribe ok]) = lastNamed ops := by unfold lastNamed; rw [hop]
      rw [this]; exact h.named
    · rw [f1, f10]
      have : lastNode (ops ++ [.resubscribe ok]) = lastNode ops := by unfold lastNode; rw [hop]
      rw [this]; exact h.node
    · rw [f1, f9]
      have : keptNode (ops ++ [.resubscribe ok]) = keptNode ops := by unfold keptNode; rw [hop]
      rw [this]; exact h.kept
    · rw [f7, f8]
      intro id hid
      cases hok : ok with
      | true =>
        rw [(he.made h2 hok).1] at hid
        injection hid with hid
        subst hid
        rw [(he.made h2 hok).2.1]; simp
      | false => rw [(he.failed h2 hok).1] at hid; cases hid
    · rw [f7, f8, hcur, h1]
      cases hok : ok with
      | true => rw [(he.made h2 hok).1, (he.made h2 hok).2.1, lookup_last]; rfl
      | false => rw [(he.failed h2 hok).1]; rfl
    · intro n; rw [f3, h.released]; simp
    · intro hno; rw [f2]; apply h.held; intro hc; exact hno (by simp [hc])
    · intro id hid
      rw [f2] at hid
      have := h.valid id hid
      rw [f8]
      cases hok : ok with
      | true => rw [(he.made h2 hok).2.1]; simp; omega
      | false => rw [(he.failed h2 hok).2.1]; exact this

theorem hist_run {ops : List Op} {s : Sub} (h : run ops = .ok s) : Hist ops s := by
  refine runE_induction (P := fun ops (s : Sub) => Hist ops s) hist_init ?_ ops s h
  intro ops s op s' _ hh hs
  have hnc : ∀ {ops : List Op} {op : Op}, NoCopies (ops ++ [op]) → NoCopies ops := by
    intro ops op hno hc; exact hno (by simp [hc])
  cases op with
  | raw c ok =>
    obtain ⟨ha, hr⟩ := guardAlive_ok hs
    split at hr
    · cases hr
    · obtain ⟨b, hb⟩ := stateOf_ok hr
      exact hist_call hh ha ⟨c, false, ok⟩ (by rw [callsOf_snoc]) (by rw [current_snoc]) (by simp) (by simp) (by simp)
        (raw_effect hb) (by simp)
  | shared c ok =>
    obtain ⟨ha, hr⟩ := guardAlive_ok hs
    split at hr
    · cases hr
    · obtain ⟨b, hb⟩ := stateOf_ok hr
      obtain ⟨s1, h6, h7⟩ := shared_split hb
      exact hist_call hh ha ⟨c, true, ok⟩ (by rw [callsOf_snoc]) (by rw [current_snoc]) (by simp) (by simp) (by simp)
        (raw_effect h6) (by simpa using h7)
  | resubscribe ok =>
    obtain ⟨ha, hr⟩ := guardAlive_ok hs
    obtain ⟨b, hb⟩ := stateOf_ok hr
    exact hist_resubscribe hh ha hb
  | unsubscribe =>
    obtain ⟨ha, hr⟩ := guardAlive_ok hs
    simp only [Except.ok.injEq] at hr
    subst hr
    have hop : callsOf (ops ++ [.unsubscribe]) = callsOf ops := by rw [callsOf_snoc]; simp
    constructor
    · show s.alive = true ↔ _
      rw [hh.alive]; unfold Destroyed; simp
    · have : lastNamed (ops ++ [.unsubscribe]) = lastNamed ops := by unfold lastNamed; rw [hop]
      rw [this]; exact hh.named
    · have : lastNode (ops ++ [.unsubscribe]) = lastNode ops := by unfold lastNode; rw [hop]
      rw [this]; exact hh.node
    · have : keptNode (ops ++ [.unsubscribe]) = keptNode ops := by unfold keptNode; rw [hop]
      rw [this]; exact hh.kept
    · intro id hid; cases hid
    · rw [current_snoc]; rfl
    · intro n; show n ∈ s.released ↔ _; rw [hh.released]; simp
    · intro hno; exact hh.held (hnc hno)
    · exact hh.valid
  | copy =>
    obtain ⟨ha, hr⟩ := guardAlive_ok hs
    simp only [Except.ok.injEq] at hr
    subst hr
    have hop : callsOf (ops ++ [.copy]) = callsOf ops := by rw [callsOf_snoc]; simp
    have hno : ¬ NoCopies (ops ++ [.copy]) := by unfold NoCopies; simp
    cases hsub : s.sub with
    | none =>
      exact hist_quiet hh hop (by rw [current_snoc]) (by simp) rfl rfl rfl rfl rfl rfl rfl rfl
        (by intro n; rw [hh.released]; simp) (fun h' => absurd h' hno) hh.valid
    | some id =>
      refine hist_quiet hh hop (by rw [current_snoc]) (by simp) rfl rfl rfl rfl rfl rfl hsub.symm rfl
        (by intro n; show n ∈ s.released ↔ _; rw [hh.released]; simp) (fun h' => absurd h' hno) ?_
      intro i hi
      rcases List.mem_cons.1 hi with rfl | hi
      · have := hh.newest _ hsub; omega
      · exact hh.valid i hi
  | drop id =>
    simp only [step, Except.ok.injEq] at hs
    subst hs
    refine hist_quiet hh (by rw [callsOf_snoc]; simp) (by rw [current_snoc]) (by simp) rfl rfl rfl rfl rfl rfl rfl rfl
      (by intro n; show n ∈ s.released ↔ _; rw [hh.released]; simp) ?_ (fun i hi => hh.valid i (List.mem_of_mem_erase hi))
    intro hno
    show s.held.erase id = []
    rw [hh.held (hnc hno)]; rfl
  | release n =>
    simp only [step, Except.ok.injEq] at hs
    subst hs
    refine hist_quiet hh (by rw [callsOf_snoc]; simp) (by rw [current_snoc]) (by simp) rfl rfl rfl rfl rfl rfl rfl rfl
      ?_ (fun hno => hh.held (hnc hno)) hh.valid
    intro k
    show k ∈ n :: s.released ↔ _
    rw [List.mem_cons, hh.released, List.mem_append, List.mem_singleton]
    constructor
    · rintro (rfl | h')
      · exact Or.inr rfl
      · exact Or.inl h'
    · rintro (h' | h')
      · exact Or.inr h'
      · injection h' with h'; exact Or.inl h'
  | deliver id m =>
    simp only [step, deliver] at hs
    split at hs
    · split at hs
      · simp only [Except.ok.injEq] at hs
        subst hs
        exact hist_quiet hh (by rw [callsOf_snoc]; simp) (by rw [current_snoc]) (by simp) rfl rfl rfl rfl rfl rfl rfl rfl
          (by intro n; show n ∈ s.released ↔ _; rw [hh.released]; simp) (fun hno => hh.held (hnc hno)) hh.valid
      · cases hs
    · simp only [Except.ok.injEq] at hs
      subst hs
      exact hist_quiet hh (by rw [callsOf_snoc]; simp) (by rw [current_snoc]) (by simp) rfl rfl rfl rfl rfl rfl rfl rfl
        (by intro n; rw [hh.released]; simp) (fun hno => hh.held (hnc hno)) hh.valid
  | destroy =>
    obtain ⟨ha, hr⟩ := guardAlive_ok hs
    simp only [Except.ok.injEq] at hr
    subst hr
    constructor
    · constructor
      · intro h'; cases h'
      · intro h'; exact absurd (by unfold Destroyed; simp) h'
    · intro h'; cases h'
    · intro h'; cases h'
    · intro h'; cases h'
    · intro id hid; cases hid
    · rw [current_snoc]; rfl
    · intro n; show n ∈ s.released ↔ _; rw [hh.released]; simp
    · intro hno; exact hh.held (hnc hno)
    · exact hh.valid

theorem sub_of_destroyed {l : List Op} {t : Sub} (hl : run l = .ok t) : Destroyed l → t.sub = none := by
  refine runE_induction (P := fun l (t : Sub) => Destroyed l → t.sub = none) (fun hd => by cases hd) ?_ l t hl
  intro l t op t' hrun' ih hstep hd'
  have ht := hist_run (show run l = .ok t from hrun')
  by_cases hop : op = .destroy
  · subst hop
    obtain ⟨_, hr⟩ := guardAlive_ok hstep
    injection hr with hr
    subst hr; rfl
  · have hdl : Destroyed l := by
      unfold Destroyed at hd' ⊢
      rcases List.mem_append.1 hd' with h' | h'
      · exact h'
      · simp at h'; exact absurd h'.symm hop
    have hdead : ¬ t.alive = true := by rw [ht.alive]; exact fun h' => h' hdl
    have hn := ih hdl
    cases op with
    | raw c ok => exact absurd (guardAlive_ok hstep).1 hdead
    | shared c ok => exact absurd (guardAlive_ok hstep).1 hdead
    | resubscribe ok => exact absurd (guardAlive_ok hstep).1 hdead
    | unsubscribe => exact absurd (guardAlive_ok hstep).1 hdead
    | copy => exact absurd (guardAlive_ok hstep).1 hdead
    | drop i => simp only [step, Except.ok.injEq] at hstep; subst hstep; exact hn
    | release i => simp only [step, Except.ok.injEq] at hstep; subst hstep; exact hn
    | deliver i k =>
      simp only [step, deliver, if_neg hdead] at hstep
      split at hstep
      · cases hstep
      · simp only [Except.ok.injEq] at hstep; subst hstep; exact hn
    | destroy => exact absurd rfl hop

/-! ### Faults -/

theorem raw_ub {s : Sub} {c : Cfg} {ok : Bool} {f : Fault} (h : subscribeRaw s c ok = .error f) : f = .ub := by
  unfold subscribeRaw at h
  dsimp only at h
  split at h
  · split at h
    · cases h; rfl
    · split at h <;> cases h
  · cases h

theorem shared_ub {s : Sub} {c : Cfg} {ok : Bool} {f : Fault} (h : subscribeShared s c ok = .error f) : f = .ub := by
  unfold subscribeShared at h
  split at h
  · rename_i g hg; cases h; exact raw_ub hg
  · cases h
  · cases h

theorem stateOf_error {r : Result} {f : Fault} (h : stateOf r = .error f) : r = .error f := by
  cases r with
  | error g => cases h; rfl
  | ok p => cases h

theorem resubscribe_ub {s : Sub} {ok : Bool} {f : Fault} (h : resubscribe s ok = .error f) : f = .ub := by
  unfold resubscribe at h
  split at h
  · split at h
    · exact raw_ub h
    · split at h
      · exact shared_ub h
      · cases h
  · cases h

theorem guardAlive_ub {s : Sub} {r : Except Fault Sub} {f : Fault} (hr : ∀ g, r = .error g → g = .ub)
    (h : guardAlive s r = .error f) : f = .ub := by
  unfold guardAlive at h
  split at h
  · exact hr f h
  · cases h; rfl

/-- Nothing but undefined behaviour goes wrong. -/
theorem step_ub {s : Sub} {op : Op} {f : Fault} (h : step s op = .error f) : f = .ub := by
  cases op with
  | raw c ok =>
    refine guardAlive_ub (fun g hg => ?_) h
    split at hg
    · cases hg; rfl
    · exact raw_ub (stateOf_error hg)
  | shared c ok =>
    refine guardAlive_ub (fun g hg => ?_) h
    split at hg
    · cases hg; rfl
    · exact shared_ub (stateOf_error hg)
  | resubscribe ok => exact guardAlive_ub (fun g hg => resubscribe_ub (stateOf_error hg)) h
  | unsubscribe => exact guardAlive_ub (fun g hg => by cases hg) h
  | copy => exact guardAlive_ub (fun g hg => by cases hg) h
  | drop id => cases h
  | release n => cases h
  | deliver id m =>
    simp only [step, deliver] at h
    split at h
    · split at h
      · cases h
      · cases h; rfl
    · cases h
  | destroy => exact guardAlive_ub (fun g hg => by cases hg) h

/-- A destroyed Subscriber holds no node. -/
theorem dead_keeps_none {ops : List Op} {s : Sub} (h : run ops = .ok s) : s.alive = false → s.nodeShared = none := by
  refine runE_induction (P := fun _ (s : Sub) => s.alive = false → s.nodeShared = none) (fun _ => rfl) ?_ ops s h
  intro ops s op s' hrun ih hs
  have hdead : ∀ r, guardAlive s r = .ok s' → Hist ops s → s'.alive = s.alive → s'.alive = false → s'.nodeShared = none := by
    intro r hr _ h1 h2
    have := (guardAlive_ok hr).1
    rw [h1, this] at h2; cases h2
  have hh : Hist ops s := hist_run hrun
  have hh' : Hist (ops ++ [op]) s' := hist_run (by unfold run; rw [runE_append, show runE step init ops = .ok s from hrun]; simp only [runE]; rw [hs])
  have hal : op ≠ .destroy → s'.alive = s.alive := by
    intro hne
    have h1 := hh.alive
    have h2 := hh'.alive
    have : Destroyed (ops ++ [op]) ↔ Destroyed ops := by
      unfold Destroyed
      rw [List.mem_append, List.mem_singleton]
      constructor
      · rintro (h | h)
        · exact h
        · exact absurd h.symm hne
      · exact Or.inl
    rw [this, ← h1] at h2
    cases hx : s.alive <;> cases hy : s'.alive <;> simp_all
  cases op with
  | drop id => simp only [step] at hs; cases hs; exact ih
  | release n => simp only [step] at hs; cases hs; exact ih
  | deliver id m =>
    simp only [step, deliver] at hs
    split at hs
    · split at hs
      · cases hs; exact ih
      · cases hs
    · cases hs; exact ih
  | destroy =>
    have := (guardAlive_ok hs).2
    cases this
    intro _; rfl
  | raw c ok => exact hdead _ hs hh (hal (by simp))
  | shared c ok => exact hdead _ hs hh (hal (by simp))
  | resubscribe ok => exact hdead _ hs hh (hal (by simp))
  | unsubscribe => exact hdead _ hs hh (hal (by simp))
  | copy => exact hdead _ hs hh (hal (by simp))

end MF.Subscriber
