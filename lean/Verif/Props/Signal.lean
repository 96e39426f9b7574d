import Verif.Proofs.Signal
/-
Properties C08 to C11: callback registration, isolation of callbacks, MessageEvent.
-/
namespace MF.Signal

open MF.Event

variable {α β : Type}

/-- C08: an output invokes exactly the callbacks that are registered and not disconnected, each once (`ks` is strictly
increasing), in the order of registration. -/
theorem C08_output_calls_connected (ops : List (Op β)) (b : β) :
    ∃ ks : List Nat, ks.Pairwise (· < ·) ∧ (∀ k, k ∈ ks ↔ Connected ops k) ∧
      (run (ops ++ [.signal b])).calls = (run ops).calls ++ ks.map (fun k => (k, b)) := by
  obtain ⟨_, h2, h3⟩ := run_registry ops
  exact ⟨(run ops).callbacks, h2, h3, by rw [run_snoc]; rfl⟩

/-- C08: only outputs invoke callbacks. -/
theorem C08_no_other_calls (ops : List (Op β)) (op : Op β) (h : ∀ b, op ≠ .signal b) :
    (run (ops ++ [op])).calls = (run ops).calls := by
  rw [run_snoc]
  cases op with
  | register => rfl
  | disconnect c => cases c <;> rfl
  | signal b => exact absurd rfl (h b)

/-- C08: disconnecting removes exactly the callback of that connection, also if repeated; a default constructed connection
does nothing. -/
theorem C08_disconnect_connected (ops : List (Op β)) (c : Connection) (k : Nat) :
    Connected (ops ++ [.disconnect c]) k ↔ Connected ops k ∧ c ≠ some k := by
  rw [connected_snoc]
  constructor
  · rintro (⟨h1, h2⟩ | ⟨h, _⟩)
    · exact ⟨h1, fun hc => h2 k (by rw [hc]) rfl⟩
    · cases h
  · rintro ⟨h1, h2⟩
    refine Or.inl ⟨h1, ?_⟩
    intro c' hc hck
    injection hc with hc
    exact h2 (by rw [hc, hck])

/-- C08: if the next output would invoke the callbacks `ks`, then after disconnecting it invokes the same ones, in the same
order, without the one of that connection; with a default constructed connection it invokes them all. -/
theorem C08_disconnect (ops : List (Op β)) (c : Connection) (b : β) :
    ∃ ks : List Nat, (run (ops ++ [.signal b])).calls = (run ops).calls ++ ks.map (fun k => (k, b)) ∧
      (run (ops ++ [.disconnect c, .signal b])).calls =
        (run ops).calls ++ (ks.filter (fun k => decide (c ≠ some k))).map (fun k => (k, b)) := by
  refine ⟨(run ops).callbacks, by rw [run_snoc]; rfl, ?_⟩
  rw [show ops ++ [Op.disconnect c, .signal b] = (ops ++ [.disconnect c]) ++ [.signal b] by simp, run_snoc, run_snoc]
  cases c with
  | none =>
    have : (run ops).callbacks.filter (fun k => decide ((none : Connection) ≠ some k)) = (run ops).callbacks :=
      List.filter_eq_self.2 (fun k _ => by simp)
    rw [this]; rfl
  | some k =>
    have hn : (run ops).callbacks.Nodup := (run_registry ops).2.1.imp (fun h => by omega)
    show (run ops).calls ++ ((run ops).callbacks.erase k).map _ = _
    rw [hn.erase_eq_filter]
    congr 2
    apply List.filter_congr
    intro x _
    by_cases hx : x = k
    · simp [hx]
    · have h1 : (x != k) = true := bne_iff_ne.2 hx
      have h2 : decide ((some k : Connection) ≠ some x) = true := decide_eq_true (fun h => hx (Option.some.inj h).symm)
      rw [h1, h2]

/-- C08: the state after disconnecting twice is the state after disconnecting once. -/
theorem C08_disconnect_idempotent (ops : List (Op β)) (c : Connection) :
    run (ops ++ [.disconnect c, .disconnect c]) = run (ops ++ [.disconnect c]) := by
  have h1 : ops ++ [Op.disconnect c, Op.disconnect c] = (ops ++ [.disconnect c]) ++ [.disconnect c] := by simp
  rw [h1, run_snoc]
  cases c with
  | none => rfl
  | some k =>
    show removeCallback (run (ops ++ [.disconnect (some k)])) k = _
    have hnot : k ∉ (run (ops ++ [Op.disconnect (some k)])).callbacks := by
      rw [(run_registry _).2.2 k, C08_disconnect_connected]
      exact fun h => h.2 rfl
    unfold removeCallback
    rw [List.erase_of_not_mem hnot]

example : (run ([.register, .register, .signal 1, .register, .disconnect (some 0), .signal 2, .disconnect (some 0),
    .disconnect none, .signal 3] : List (Op Nat))).calls = [(0, 1), (1, 1), (1, 2), (2, 2), (1, 3), (2, 3)] := by decide

/-- C09: when a filter with more than one callback (or an event that requires copying) outputs a message, every callback
sees the original content; the message objects that existed before are unchanged, also after arbitrary modifications
(`adv`) through every mutable parameter handed out so far; and the objects handed out for modification are new and all
different. -/
theorem C09_isolation (h : Heap α) (e : Event) (hc : content h e ≠ none) (hf : e.factory = true)
    (cbs : List (Kind × (Nat → α → α))) (hn : cbs.length > 1 ∨ e.needCopy = true) :
    ∃ p, call1 h e cbs = .ok p ∧
      p.seen = List.replicate cbs.length [content h e] ∧
      (∀ a, a < h.length → p.heap[a]? = h[a]?) ∧
      (∀ a ∈ p.handed, h.length ≤ a) ∧ p.handed.Nodup := by
  unfold call1
  rw [runHelpers_eq]
  have hflag : (decide (cbs.length > 1) || e.needCopy) = true := by
    rcases hn with hn | hn
    · simp [hn]
    · simp [hn]
  rw [hflag]
  obtain ⟨p, h1, h2, h3⟩ := runHelpers_iso (h0 := h) (force := decide (cbs.length > 1)) (es := [ofConstFlag e true])
    (by intro e' he'; simp at he'; subst he'; exact hc) (cbs.map (fun c => ([c.1], c.2)))
    { heap := h, handed := [], seen := [] }
    (by
      intro c hcm
      obtain ⟨c', _, rfl⟩ := List.mem_map.1 hcm
      refine ⟨rfl, ?_⟩
      intro x hx _
      simp at hx
      subst hx
      exact ⟨rfl, hf⟩)
    (iso_init h)
  refine ⟨p, h1, ?_, fun a ha => h3.same a ha, fun a ha => (h3.fresh a ha).1, h3.nodup⟩
  rw [h2]; simp [content, ofConstFlag]

/-- C09: with a single callback and an event that does not require copying no copy is made; a mutable parameter is the
original message itself. -/
theorem C09_no_copy (h : Heap α) (e : Event) (hc : content h e ≠ none) (hn : e.needCopy = false) (k : Kind)
    (adv : Nat → α → α) :
    ∃ p, call1 h e [(k, adv)] = .ok p ∧ p.seen = [[content h e]] ∧ p.heap.length = h.length ∧
      p.handed = if k.mutable then e.msg.toList else [] := by
  obtain ⟨v, hcv⟩ := Option.ne_none_iff_exists'.1 hc
  obtain ⟨a, ha, hav⟩ := Option.bind_eq_some_iff.1 hcv
  have hs : Signal.content h e = some v := hcv
  unfold call1
  simp only [runHelpers, callHelper1, List.length_cons, List.length_nil, hn]
  cases k <;>
    simp [getParameter, getConst, getMut, ofConst, ofConstFlag, ha, hav, addHanded, tamper, Kind.mutable, hs]

/-- Three callbacks, two of them modifying; everybody sees 7 and the original stays 7. -/
example : ∃ p, call1 [7] (ofParts (some 0) ⟨0, .ros⟩ false true)
    [(.mutPtr, fun _ v => v + 1), (.constRef, fun _ v => v + 10), (.mutEvent, fun _ v => v + 100)] = .ok p ∧
    p.seen = [[some 7], [some 7], [some 7]] ∧ p.heap = [7, 118, 107] ∧ p.handed = [1, 2] :=
  ⟨_, rfl, by decide, by decide, by decide⟩

/-- C10 (partial: all events require copying, as every event made from a message pointer does; otherwise it is false, see
`C10_violated`): isolation for the callbacks of a Synchronizer. -/
theorem C10_isolation_partial (h : Heap α) (es : List Event)
    (hes : ∀ e ∈ es, content h e ≠ none ∧ e.factory = true ∧ e.needCopy = true)
    (cbs : List (List Kind × (Nat → α → α))) (hl : ∀ c ∈ cbs, c.1.length = es.length) :
    ∃ p, call9 h es cbs = .ok p ∧
      p.seen = List.replicate cbs.length (es.map (content h)) ∧
      (∀ a, a < h.length → p.heap[a]? = h[a]?) ∧
      (∀ a ∈ p.handed, h.length ≤ a) ∧ p.handed.Nodup := by
  obtain ⟨p, h1, h2, h3⟩ := runHelpers_iso (h0 := h) (force := decide (cbs.length > 1)) (es := es)
    (fun e he => (hes e he).1) cbs { heap := h, handed := [], seen := [] }
    (by
      intro c hcm
      refine ⟨hl c hcm, ?_⟩
      intro x hx _
      have := hes x.2 (List.of_mem_zip hx).2
      exact ⟨this.2.2, this.2.1⟩)
    (iso_init h)
  exact ⟨p, h1, by rw [h2]; rfl, fun a ha => h3.same a ha, fun a ha => (h3.fresh a ha).1, h3.nodup⟩

/-- C10: isolation also holds, whatever the events, if no callback takes a mutable parameter. -/
theorem C10_isolation_const_partial (h : Heap α) (es : List Event) (hes : ∀ e ∈ es, content h e ≠ none)
    (cbs : List (List Kind × (Nat → α → α))) (hl : ∀ c ∈ cbs, c.1.length = es.length)
    (hk : ∀ c ∈ cbs, ∀ k ∈ c.1, k.mutable = false) :
    ∃ p, call9 h es cbs = .ok p ∧ p.seen = List.replicate cbs.length (es.map (content h)) ∧
      ∀ a, a < h.length → p.heap[a]? = h[a]? := by
  obtain ⟨p, h1, h2, h3⟩ := runHelpers_iso (h0 := h) (force := decide (cbs.length > 1)) (es := es) hes cbs
    { heap := h, handed := [], seen := [] }
    (by
      intro c hcm
      refine ⟨hl c hcm, ?_⟩
      intro x hx hm
      have := hk c hcm x.1 (List.of_mem_zip hx).1
      rw [this] at hm; cases hm)
    (iso_init h)
  exact ⟨p, h1, by rw [h2]; rfl, fun a ha => h3.same a ha⟩

example : ∃ p, call9 [7, 8] [ofMessage (some 0) ⟨0, .ros⟩, ofMessage (some 1) ⟨0, .ros⟩]
    [([.mutPtr, .constPtr], fun _ v => v + 1), ([.mutEvent, .mutPtr], fun _ v => v + 10)] = .ok p ∧
    p.seen = [[some 7, some 8], [some 7, some 8]] ∧ p.handed = [2, 3, 4] := ⟨_, rfl, by decide, by decide⟩

/-- C10 is false for events that do not require copying: with two callbacks taking mutable messages, the second one sees
the modification made by the first, and the message of the publisher is changed. -/
theorem C10_violated : ∃ (h : Heap Nat) (es : List Event) (cbs : List (List Kind × (Nat → Nat → Nat))) (p : Progress Nat),
    cbs.length > 1 ∧ (∀ e ∈ es, content h e ≠ none ∧ e.factory = true) ∧ call9 h es cbs = .ok p ∧
    h = [7] ∧ p.seen = [[some 7], [some 8]] ∧ p.heap = [9] :=
  ⟨[7], [ofParts (some 0) ⟨0, .ros⟩ false true], [([.mutPtr], fun _ v => v + 1), ([.mutPtr], fun _ v => v + 1)],
    _, by decide, by decide, rfl, rfl, by decide, by decide⟩

/-! ### MessageEvent -/

/-- C11: a mutable event that requires copying returns, on every call, the same new object, whose first content is that of
the original; no object that existed before is ever modified, whatever is written through the result; const access to the
event still gives the original message. -/
theorem C11_private_copy (h : Heap α) (e : Event) (hc : content h e ≠ none) (hn : e.needCopy = true)
    (hcopy : e.copy = none) (hf : e.factory = true) (uses : List (Use α)) :
    ∃ s, runE use ⟨h, e, []⟩ uses = .ok s ∧ (∀ p ∈ s.got, p = some h.length) ∧
      (∀ a, a < h.length → s.heap[a]? = h[a]?) ∧
      s.heap.length ≤ h.length + 1 ∧ getConst s.event = e.msg ∧
      (∀ s1, runE use ⟨h, e, []⟩ [.get] = .ok s1 → s1.heap[h.length]? = content h e) := by
  obtain ⟨v, hcv⟩ := Option.ne_none_iff_exists'.1 hc
  obtain ⟨a, ha, hav⟩ := Option.bind_eq_some_iff.1 hcv
  have hfirst := getMut_copy ha hav hn hcopy hf
  have key := runE_ok (step := use (α := α))
    (I := fun s => (s.event = e ∧ s.heap = h ∧ s.got = []) ∨
      (s.event = { e with copy := some h.length } ∧ s.heap.length = h.length + 1 ∧ (∀ a, a < h.length → s.heap[a]? = h[a]?) ∧
        s.got ≠ [] ∧ ∀ p ∈ s.got, p = some h.length)) ?_ uses ⟨h, e, []⟩ (Or.inl ⟨rfl, rfl, rfl⟩)
  · obtain ⟨s, h1, h2⟩ := key
    refine ⟨s, h1, ?_, ?_, ?_, ?_, ?_⟩
    · rcases h2 with ⟨_, _, h3⟩ | ⟨_, _, _, _, h3⟩
      · rw [h3]; intro p hp; cases hp
      · exact h3
    · rcases h2 with ⟨_, h3, _⟩ | ⟨_, _, h3, _, _⟩
      · rw [h3]; intro a _; rfl
      · exact h3
    · rcases h2 with ⟨_, h3, _⟩ | ⟨_, h3, _, _, _⟩
      · rw [h3]; omega
      · omega
    · rcases h2 with ⟨h3, _⟩ | ⟨h3, _⟩ <;> rw [h3] <;> rfl
    · intro s1 hs1
      simp only [runE, use, hfirst, Except.ok.injEq] at hs1
      subst hs1
      rw [show content h e = some v from hcv]
      simp
  · intro s u hs
    cases u with
    | get =>
      rcases hs with ⟨h1, h2, h3⟩ | ⟨h1, h2, h3, h4, h5⟩
      · refine ⟨⟨h ++ [v], { e with copy := some h.length }, s.got ++ [some h.length]⟩,
          by unfold use; simp only [h1, h2, hfirst], Or.inr ⟨rfl, by simp, ?_, by simp, ?_⟩⟩
        · intro x hx; exact List.getElem?_append_left hx
        · intro p hp; rw [h3] at hp; simpa using hp
      · have hg : getMut s.heap s.event = .ok (s.heap, s.event, some h.length) := by
          unfold getMut; rw [h1]; simp [hn]
        refine ⟨⟨s.heap, s.event, s.got ++ [some h.length]⟩, by unfold use; simp only [hg], Or.inr ⟨h1, h2, h3, by simp, ?_⟩⟩
        intro p hp
        rcases List.mem_append.1 hp with hp | hp
        · exact h5 p hp
        · simpa using hp
    | write f =>
      rcases hs with ⟨h1, h2, h3⟩ | ⟨h1, h2, h3, h4, h5⟩
      · refine ⟨s, by unfold use; simp [h3], Or.inl ⟨h1, h2, h3⟩⟩
      · have hl : s.got.getLast? = some (some h.length) := by
          rw [List.getLast?_eq_some_getLast h4, h5 _ (List.getLast_mem h4)]
        refine ⟨{ s with heap := s.heap.modify h.length f }, by unfold use; simp only [hl], Or.inr ⟨h1, by simpa using h2, ?_, h4, h5⟩⟩
        intro x hx
        rw [List.getElem?_modify, h3 x hx]
        have : h.length ≠ x := by omega
        simp [this]

/-- C11: a mutable event that does not require copying returns the original itself and creates nothing. -/
theorem C11_no_copy (h : Heap α) (e : Event) (hn : e.needCopy = false) : getMut h e = .ok (h, e, e.msg) := by
  unfold getMut; simp [hn]

/-- C11: an event copied from a mutable event (constructor or assignment) refers to the private copy of the latter, and a
mutable access to it makes a second copy, so it never modifies the original or the first copy. -/
theorem C11_copy_of_mutable (h : Heap α) (e : Event) (hc : content h e ≠ none) (hn : e.needCopy = true)
    (hcopy : e.copy = none) (hf : e.factory = true) :
    ∃ h1 e1 e2 h2 e3 p, ofMut h e = .ok (h1, e1, e2) ∧ getConst e1 = e.msg ∧ getConst e2 = some h.length ∧
      getMut h1 e2 = .ok (h2, e3, some p) ∧ p ≠ h.length ∧ some p ≠ e.msg ∧
      h2[h.length]? = content h e ∧ h2[p]? = content h e := by
  obtain ⟨v, hcv⟩ := Option.ne_none_iff_exists'.1 hc
  obtain ⟨a, ha, hav⟩ := Option.bind_eq_some_iff.1 hcv
  have halt : a < h.length := by
    rcases List.getElem?_eq_some_iff.1 hav with ⟨h, _⟩; exact h
  have g1 := getMut_copy ha hav hn hcopy hf
  have g2 := getMut_copy (h := h ++ [v]) (e := { e with msg := some h.length, copy := none }) (a := h.length) (v := v) rfl
    (by simp) hn rfl hf
  refine ⟨h ++ [v], { e with copy := some h.length }, { e with msg := some h.length, copy := none }, _, _, _, ?_, rfl, rfl,
    g2, ?_, ?_, ?_, ?_⟩
  · unfold ofMut; rw [g1]
  · simp
  · rw [ha]; simp; omega
  · rw [show content h e = some v from hcv]; simp
  · rw [show content h e = some v from hcv]; simp

/-- C11: two mutable events made from the same const event have different private copies. -/
theorem C11_copies_are_private (h : Heap α) (e : Event) (hc : content h e ≠ none) (hn : e.needCopy = true)
    (hf : e.factory = true) :
    ∃ h1 e1 p1 h2 e2 p2, getMut h (ofConst e) = .ok (h1, e1, some p1) ∧ getMut h1 (ofConst e) = .ok (h2, e2, some p2) ∧
      p1 ≠ p2 ∧ some p1 ≠ e.msg ∧ some p2 ≠ e.msg ∧ h2[p1]? = content h e ∧ h2[p2]? = content h e := by
  obtain ⟨v, hcv⟩ := Option.ne_none_iff_exists'.1 hc
  obtain ⟨a, ha, hav⟩ := Option.bind_eq_some_iff.1 hcv
  have halt : a < h.length := by
    rcases List.getElem?_eq_some_iff.1 hav with ⟨h, _⟩; exact h
  have g1 := getMut_copy (e := ofConst e) ha hav hn rfl hf
  have g2 := getMut_copy (h := h ++ [v]) (e := ofConst e) (v := v) ha (by rw [List.getElem?_append_left halt]; exact hav) hn rfl hf
  refine ⟨_, _, _, _, _, _, g1, g2, ?_, ?_, ?_, ?_, ?_⟩
  · simp
  · rw [ha]; simp; omega
  · rw [ha]; simp; omega
  · rw [show content h e = some v from hcv]; simp
  · rw [show content h e = some v from hcv]; simp

/-- C11: for receipt times of one clock source, `==` compares message identity, receipt time and copy flag. -/
theorem C11_equality (x y : Event) (hs : x.receipt.source = y.receipt.source) :
    eq x y = .ok (decide (key x = key y)) ∧ ne x y = .ok (decide (key x ≠ key y)) := by
  have h : eq x y = .ok (decide (key x = key y)) := by
    unfold eq Time.eq key
    by_cases h1 : x.msg = y.msg
    · by_cases h2 : x.receipt.ns = y.receipt.ns
      · simp [h1, h2, hs]
      · simp [h1, h2, hs]
    · simp [h1]
  refine ⟨h, ?_⟩
  unfold ne; rw [h]; simp

/-- C11: for events whose receipt times have one clock source, `operator<` is a strict total order consistent with `==`:
irreflexive, transitive, and of two events that are not equal exactly one is smaller. -/
theorem C11_strict_total_order (x y z : Event) (hxy : x.receipt.source = y.receipt.source)
    (hyz : y.receipt.source = z.receipt.source) :
    ¬ Before x x ∧ (Before x y → Before y z → Before x z) ∧ (Before x y → ¬ Before y x) ∧
    (Before x y ∨ Before y x ∨ eq x y = .ok true) ∧ (Before x y → eq x y = .ok false) := by
  have e1 := before_iff x y hxy
  have e2 := before_iff y z hyz
  have e3 := before_iff x z (hxy.trans hyz)
  have e4 := before_iff y x hxy.symm
  have e5 := before_iff x x rfl
  have e6 := (C11_equality x y hxy).1
  have irr := ptrLt_irrefl
  refine ⟨?_, ?_, ?_, ?_, ?_⟩
  · rw [e5]
    rintro (h | ⟨_, h | ⟨_, h1, h2⟩⟩)
    · rw [irr] at h; cases h
    · omega
    · rw [h1] at h2; cases h2
  · rw [e1, e2, e3]
    rintro (h | ⟨h, h'⟩) (g | ⟨g, g'⟩)
    · exact Or.inl (ptrLt_trans h g)
    · left; rw [← g]; exact h
    · left; rw [h]; exact g
    · right
      refine ⟨h.trans g, ?_⟩
      rcases h' with h' | ⟨h1, h2, h3⟩ <;> rcases g' with g' | ⟨g1, g2, g3⟩
      · left; omega
      · left; omega
      · left; omega
      · rw [h3] at g2; cases g2
  · rw [e1, e4]
    rintro (h | ⟨h, h'⟩) (g | ⟨g, g'⟩)
    · have := ptrLt_trans h g; rw [irr] at this; cases this
    · rw [g, irr] at h; cases h
    · rw [h, irr] at g; cases g
    · rcases h' with h' | ⟨h1, h2, h3⟩ <;> rcases g' with g' | ⟨g1, g2, g3⟩
      · omega
      · omega
      · omega
      · rw [h3] at g2; cases g2
  · rw [e1, e4, e6]
    by_cases h : x.msg = y.msg
    · by_cases h2 : x.receipt.ns = y.receipt.ns
      · cases hx : x.needCopy <;> cases hy : y.needCopy
        · right; right; simp [key, h, h2, hx, hy]
        · left; right; exact ⟨h, Or.inr ⟨h2, rfl, rfl⟩⟩
        · right; left; right; exact ⟨h.symm, Or.inr ⟨h2.symm, rfl, rfl⟩⟩
        · right; right; simp [key, h, h2, hx, hy]
      · rcases Int.lt_or_gt_of_ne h2 with h3 | h3
        · left; right; exact ⟨h, Or.inl h3⟩
        · right; left; right; exact ⟨h.symm, Or.inl h3⟩
    · rcases ptrLt_total h with h1 | h1
      · exact Or.inl (Or.inl h1)
      · exact Or.inr (Or.inl (Or.inl h1))
  · intro hb
    rw [e6]
    have hb := e1.1 hb
    simp only [Except.ok.injEq, decide_eq_false_iff_not, key, Prod.mk.injEq, not_and]
    intro h1 h2 h3
    rcases hb with h | ⟨_, h | ⟨_, h4, h5⟩⟩
    · rw [h1, irr] at h; cases h
    · omega
    · rw [h4, h5] at h3; cases h3

/-- C11: comparing events with the same message and receipt times of different clock sources throws. -/
theorem C11_different_sources_throw (x y : Event) (hm : x.msg = y.msg) (hs : x.receipt.source ≠ y.receipt.source) :
    eq x y = .error .threw ∧ lt x y = .error .threw := by
  unfold eq lt Time.eq
  simp [hm, hs]

example : eq (ofMessage (some 0) ⟨3, .ros⟩) (ofMessage (some 0) ⟨3, .system⟩) = .error .threw := rfl

example : Before (ofParts (some 0) ⟨3, .ros⟩ false true) (ofMessage (some 0) ⟨3, .ros⟩) ∧
    Before (ofMessage (some 0) ⟨3, .ros⟩) (ofMessage (some 1) ⟨2, .ros⟩) := ⟨rfl, rfl⟩

example : ∃ s, runE (use (α := Nat)) ⟨[5], ofMessage (some 0) ⟨3, .ros⟩, []⟩ [.get, .write (· + 1), .get, .write (· + 1)] = .ok s ∧
    s.got = [some 1, some 1] ∧ s.heap = [5, 7] := ⟨_, rfl, by decide, by decide⟩

end MF.Signal
