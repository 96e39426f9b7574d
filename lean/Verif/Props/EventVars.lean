import Verif.Proofs.EventVars
/-
Properties of programs over several MessageEvent variables.
-/
namespace MF.EventVars

open MF.Event

variable {α : Type}

/-- **C75**.  In a program that never asks for events without copying, no message object that existed before is ever modified:
not by copying or assigning events, not by any write through the pointers `getMessage` returns. -/
theorem C75_messages_never_modified (isMut : Nat → Bool) (h : Heap α) (ops : List (Op α)) (hc : Careful ops) (s : State α)
    (hr : runE (step isMut) (init h) ops = .ok s) (a : Nat) (ha : a < h.length) : s.heap[a]? = h[a]? :=
  (inv_run ops (inv_init h) hc hr).same a ha

/-- **C75**.  No mutable message is reachable through two events: a pointer returned by `getMessage` on variable `k` was never
returned by another variable, and is none of the messages that existed before. -/
theorem C75_mutable_messages_private (isMut : Nat → Bool) (h : Heap α) (ops : List (Op α)) (k : Nat) (hc : Careful ops)
    (s s' : State α) (hk : isMut k = true) (hr : runE (step isMut) (init h) ops = .ok s) (hg : step isMut s (.get k) = .ok s') :
    ∃ p, s'.got = s.got ++ [(k, some p)] ∧ h.length ≤ p ∧ ∀ j, (j, some p) ∈ s.got → j = k := by
  have hi := inv_run ops (inv_init h) hc hr
  obtain ⟨c, h1, h2, _, h3⟩ := get_step hi hk hg
  refine ⟨c, h1, ?_, ?_⟩
  · rcases h3 with ⟨h3, _⟩ | ⟨_, rfl, _⟩
    · exact (hi.copies k c h3).1
    · exact hi.len
  · intro j hj
    rcases h3 with ⟨h3, _⟩ | ⟨_, rfl, _⟩
    · exact hi.own j k c hj h3
    · obtain ⟨a, h4, _, h5⟩ := hi.got j _ hj
      cases h4
      omega

/-- **C75**.  As long as nothing is assigned to an event, `getMessage` returns the same pointer. -/
theorem C75_same_pointer (isMut : Nat → Bool) (h : Heap α) (pre mid : List (Op α)) (k : Nat) (hk : isMut k = true)
    (hc : Careful (pre ++ mid)) (hm : ∀ op ∈ mid, target op ≠ some k) (s1 s2 s3 s4 : State α)
    (h1 : runE (step isMut) (init h) pre = .ok s1) (h2 : step isMut s1 (.get k) = .ok s2)
    (h3 : runE (step isMut) s2 mid = .ok s3) (h4 : step isMut s3 (.get k) = .ok s4) :
    ∃ p, s2.got = s1.got ++ [(k, some p)] ∧ s4.got = s3.got ++ [(k, some p)] ∧ s4.heap = s3.heap := by
  have hi1 := inv_run pre (inv_init h) (fun o ho => hc o (by simp [ho])) h1
  have hi2 : Inv h s2 := inv_step hi1 (fun _ _ _ _ hx => by cases hx) (fun _ _ hx => by cases hx) (step_shape h2)
  obtain ⟨c, g1, g2, _⟩ := get_step hi1 hk h2
  have hcm : Careful mid := fun o ho => hc o (by simp [ho])
  have hi3 := inv_run mid hi2 hcm h3
  have g3 := stays_run mid hi2 hcm hm g2 h3
  obtain ⟨d, g4, _, _, g5⟩ := get_step hi3 hk h4
  rcases g5 with ⟨g5, g6⟩ | ⟨g5, _⟩
  · rw [g3] at g5
    cases g5
    exact ⟨c, g1, g4, g6⟩
  · rw [g3] at g5; cases g5

/-- **C75**.  After something was assigned to an event, `getMessage` returns an object that was never handed out before the
assignment; also after a self-assignment. -/
theorem C75_new_pointer (isMut : Nat → Bool) (h : Heap α) (pre mid : List (Op α)) (op : Op α) (k : Nat) (hk : isMut k = true)
    (hc : Careful (pre ++ op :: mid)) (ht : target op = some k) (s1 s2 s3 s4 : State α)
    (h1 : runE (step isMut) (init h) pre = .ok s1) (h2 : step isMut s1 op = .ok s2)
    (h3 : runE (step isMut) s2 mid = .ok s3) (h4 : step isMut s3 (.get k) = .ok s4) :
    ∃ p, s4.got = s3.got ++ [(k, some p)] ∧ ∀ j, (j, some p) ∉ s1.got := by
  have hi1 := inv_run pre (inv_init h) (fun o ho => hc o (by simp [ho])) h1
  have hop := hc op (by simp)
  have hi2 : Inv h s2 := inv_step hi1 hop.1 hop.2 (step_shape h2)
  have hcm : Careful mid := fun o ho => hc o (by simp [ho])
  have hi3 := inv_run mid hi2 hcm h3
  have hy : Young s1.heap.length k s2 := by
    refine ⟨len_step hi1 (step_shape h2), ?_⟩
    rw [written ht (step_shape h2)]
    intro c hc
    cases hc
  have hy3 := young_run mid hi2 hcm hy h3
  obtain ⟨d, g4, _, _, g5⟩ := get_step hi3 hk h4
  refine ⟨d, g4, fun j hj => ?_⟩
  obtain ⟨a, g6, _, g7⟩ := hi1.got j _ hj
  cases g6
  rcases g5 with ⟨g5, _⟩ | ⟨_, rfl, _⟩
  · have := hy3.2 d g5; omega
  · have := hy3.1; omega

/-- **C75**.  The object handed out has the content the message of the event has when it is asked for the first time. -/
theorem C75_content (isMut : Nat → Bool) (h : Heap α) (pre mid : List (Op α)) (op : Op α) (k : Nat) (hk : isMut k = true)
    (hc : Careful (pre ++ op :: mid)) (ht : target op = some k) (hm : ∀ o ∈ mid, ¬ Uses k o) (s1 s2 s3 s4 : State α)
    (h1 : runE (step isMut) (init h) pre = .ok s1) (h2 : step isMut s1 op = .ok s2)
    (h3 : runE (step isMut) s2 mid = .ok s3) (h4 : step isMut s3 (.get k) = .ok s4) :
    ∃ p, s4.got = s3.got ++ [(k, some p)] ∧ s4.heap[p]? = (getConst (s3.ev k)).bind (fun a => s3.heap[a]?) := by
  have hi1 := inv_run pre (inv_init h) (fun o ho => hc o (by simp [ho])) h1
  have hop := hc op (by simp)
  have hi2 : Inv h s2 := inv_step hi1 hop.1 hop.2 (step_shape h2)
  have hcm : Careful mid := fun o ho => hc o (by simp [ho])
  have hi3 := inv_run mid hi2 hcm h3
  have hn := unused_run mid hi2 hcm hm (written ht (step_shape h2)) h3
  obtain ⟨d, g4, _, _, g5⟩ := get_step hi3 hk h4
  refine ⟨d, g4, ?_⟩
  rcases g5 with ⟨g5, _⟩ | ⟨_, _, g6⟩
  · rw [hn] at g5; cases g5
  · exact g6

/-- **C75**.  The message, the receipt time and the copy flag of an event change only by assignment to it, in any program. -/
theorem C75_event_unchanged (isMut : Nat → Bool) (ops : List (Op α)) (k : Nat) (hm : ∀ op ∈ ops, target op ≠ some k)
    (s s' : State α) (hr : runE (step isMut) s ops = .ok s') :
    getConst (s'.ev k) = getConst (s.ev k) ∧ (s'.ev k).receipt = (s.ev k).receipt ∧ (s'.ev k).needCopy = (s.ev k).needCopy :=
  refers_run ops hm hr

/-- **C75**.  Copying a const event gives an event with the same message, receipt time and flag, or the flag asked for. -/
theorem C75_copy_of_const (isMut : Nat → Bool) (s : State α) (k j : Nat) (hj : isMut j = false) :
    (∃ s', step isMut s (.assign k j) = .ok s' ∧ s'.heap = s.heap ∧ getConst (s'.ev k) = getConst (s.ev j) ∧
      (s'.ev k).receipt = (s.ev j).receipt ∧ (s'.ev k).needCopy = (s.ev j).needCopy) ∧
    (k ≠ j → ∀ c, ∃ s', step isMut s (.withFlag k j c) = .ok s' ∧ s'.heap = s.heap ∧ getConst (s'.ev k) = getConst (s.ev j) ∧
      (s'.ev k).receipt = (s.ev j).receipt ∧ (s'.ev k).needCopy = c) := by
  refine ⟨⟨put s k (ofConst (s.ev j)), by simp only [step, assign, hj, Bool.false_eq_true, ↓reduceIte]; rfl, rfl, ?_⟩,
    fun hk c => ⟨put s k (ofConstFlag (s.ev j) c), by simp only [step, withFlag, hj, hk, Bool.false_eq_true, ↓reduceIte]; rfl, rfl, ?_⟩⟩
  · rw [show (put s k (ofConst (s.ev j))).ev k = _ from setEv_same _ _ _]
    exact ⟨rfl, rfl, rfl⟩
  · rw [show (put s k (ofConstFlag (s.ev j) c)).ev k = _ from setEv_same _ _ _]
    exact ⟨rfl, rfl, rfl⟩

/-- **C75**.  Copying a non-const event `j` gives an event whose message is the private object of `j`: the object
`getMessage` on `j` returns.  So, unlike the messages of all other events, it changes when that object is written to. -/
theorem C75_copy_of_mutable_shares (isMut : Nat → Bool) (h : Heap α) (ops : List (Op α)) (hc : Careful ops) (k j : Nat)
    (hkj : k ≠ j) (hj : isMut j = true) (s s1 s2 : State α) (hr : runE (step isMut) (init h) ops = .ok s)
    (h1 : step isMut s (.assign k j) = .ok s1) (h2 : step isMut s1 (.get j) = .ok s2) :
    ∃ p, s2.got = s.got ++ [(j, some p)] ∧ getConst (s2.ev k) = some p := by
  have hi := inv_run ops (inv_init h) hc hr
  have hi1 : Inv h s1 := inv_step hi (fun _ _ _ _ hx => by cases hx) (fun _ _ hx => by cases hx) (step_shape h1)
  simp only [step, assign, ofMut, hj, ↓reduceIte] at h1
  cases hg : getMut s.heap (s.ev j) with
  | error f => simp [hg] at h1
  | ok r =>
    obtain ⟨h', e', p⟩ := r
    simp only [hg, Except.ok.injEq] at h1
    subst h1
    obtain ⟨c, g1, g2, _, g3⟩ := get_step hi1 hj h2
    have hcopy : e'.copy = p ∧ p ≠ none := by
      rcases getMut_cases hg (hi.need j) with ⟨c, h1, rfl, rfl, rfl⟩ | ⟨a, v, h1, h2, h3, rfl, rfl, rfl⟩
      · exact ⟨h1, by simp⟩
      · exact ⟨rfl, by simp⟩
    have e1 : setEv (setEv s.ev j e') k { e' with msg := p, copy := none } j = e' := by
      rw [setEv_ne _ _ (Ne.symm hkj), setEv_same]
    have hpc : p = some c := by
      dsimp only at g3
      rw [e1] at g3
      rcases g3 with ⟨g3, _⟩ | ⟨g3, _⟩
      · rw [hcopy.1] at g3; exact g3
      · rw [hcopy.1] at g3; exact absurd g3 hcopy.2
    refine ⟨c, g1, ?_⟩
    have := (refers_step (k := k) (by simp [target]) (step_shape h2)).1
    rw [show getConst (s2.ev k) = (s2.ev k).msg from rfl, this]
    dsimp only
    rw [setEv_same, ← hpc]

/-- **C75**.  A program that gives the constructors existing messages and a creator and reads only variables it has defined
never fails, whatever the flags, copies, assignments and writes. -/
theorem C75_no_fault (isMut : Nat → Bool) (h : Heap α) (ops : List (Op α)) (hw : WellUsed h.length ops) :
    ∃ s, runE (step isMut) (init h) ops = .ok s :=
  let ⟨s, hs, _⟩ := wellUsed_run h ops hw
  ⟨s, hs⟩

/-- **C75**.  `getMessage` on a default constructed non-const event fails an assertion, and so does copying it; on an event
made from a null pointer they are accesses through null. -/
theorem C75_faults (isMut : Nat → Bool) (s : State α) (k j : Nat) (hj : isMut j = true) (r : Time) :
    (s.ev j = Event.default → step isMut s (.get j) = .error .assertFailed ∧ step isMut s (.assign k j) = .error .assertFailed) ∧
    (s.ev j = ofMessage none r → step isMut s (.get j) = .error .ub ∧ step isMut s (.assign k j) = .error .ub) := by
  refine ⟨fun h => ?_, fun h => ?_⟩ <;>
    simp [step, assign, ofMut, getMut, hj, h, Event.default, ofMessage]

/-- **C75**.  Writing through a null pointer, and constructing an event from itself, are undefined. -/
theorem C75_undefined (isMut : Nat → Bool) (s : State α) (k i : Nat) (c : Bool) (f : α → α) :
    (s.got[i]? = some (k, none) → step isMut s (.write i f) = .error .ub) ∧ step isMut s (.withFlag k k c) = .error .ub := by
  refine ⟨fun h => ?_, ?_⟩
  · simp only [step, h]
  · simp [step, withFlag]

/-- A null pointer is obtained, for example, from an event made of a null message without copying. -/
example : ∃ s, runE (step (fun _ => true)) (init [7] : State Nat) [.parts 0 none ⟨0, .ros⟩ false true, .get 0] = .ok s ∧
    s.got = [(0, none)] := ⟨_, rfl, rfl⟩

/-- **C75**.  A default constructed event has no message and receipt time 0 of the system clock, and copies its message. -/
theorem C75_default (isMut : Nat → Bool) (s : State α) (k : Nat) :
    ∃ s', step isMut s (.default k) = .ok s' ∧ s'.heap = s.heap ∧ getConst (s'.ev k) = none ∧
      (s'.ev k).receipt = ⟨0, .system⟩ ∧ (s'.ev k).needCopy = true ∧ ∀ j, j ≠ k → s'.ev j = s.ev j := by
  refine ⟨_, rfl, rfl, ?_⟩
  dsimp only
  rw [setEv_same]
  exact ⟨rfl, rfl, rfl, fun j hj => setEv_ne _ _ hj⟩

/-- A program that meets the hypotheses: variable 0 const, 1 and 2 not; 2 is a copy of 1. -/
def sampleProgram : List (Op Nat) :=
  [.message 0 (some 0) ⟨5, .ros⟩, .assign 1 0, .get 1, .write 0 (· + 1), .assign 2 1, .get 2, .write 1 (· + 10), .assign 1 1, .get 1]

def sampleMut : Nat → Bool := fun k => k != 0

example : Careful sampleProgram ∧ WellUsed 1 sampleProgram ∧ ∃ s, runE (step sampleMut) (init [7]) sampleProgram = .ok s ∧
    s.got = [(1, some 1), (2, some 2), (1, some 3)] ∧ s.heap = [7, 8, 18, 8] ∧ getConst (s.ev 2) = some 1 := by
  refine ⟨?_, ?_, _, rfl, by decide, by decide, by decide⟩
  · intro op hop
    simp only [sampleProgram, List.mem_cons, List.not_mem_nil, or_false] at hop
    rcases hop with rfl | rfl | rfl | rfl | rfl | rfl | rfl | rfl | rfl <;>
      exact ⟨(fun _ _ _ _ h => by cases h), (fun _ _ h => by cases h)⟩
  · have d0 : ∀ (l : List (Op Nat)) op k, target op = some k → (∀ x, op ≠ .default x) → Defined (l ++ [op]) k :=
      fun l op k h1 h2 => (defined_snoc l op k).mpr (Or.inl ⟨h1, h2⟩)
    have d1 : ∀ (l : List (Op Nat)) op k, target op ≠ some k → Defined l k → Defined (l ++ [op]) k :=
      fun l op k h1 h2 => (defined_snoc l op k).mpr (Or.inr ⟨h1, h2⟩)
    have h0 : Defined ([] ++ [.message 0 (some 0) ⟨5, .ros⟩] : List (Op Nat)) 0 := d0 _ _ _ rfl (fun x h => by cases h)
    have h1 : Defined ([] ++ [.message 0 (some 0) ⟨5, .ros⟩] ++ [.assign 1 0] : List (Op Nat)) 1 := d0 _ _ _ rfl (fun x h => by cases h)
    have h2 := d1 _ (.write 0 (· + 1)) 1 (by simp [target]) (d1 _ (.get 1) 1 (by simp [target]) h1)
    have h3 := d0 ([] ++ [.message 0 (some 0) ⟨5, .ros⟩] ++ [.assign 1 0] ++ [.get 1] ++ [.write 0 (· + 1)]) (.assign 2 1) 2 rfl (fun x h => by cases h)
    have h4 := d1 _ (.write 1 (· + 10)) 1 (by simp [target]) (d1 _ (.get 2) 1 (by simp [target]) (d1 _ (.assign 2 1) 1 (by simp [target]) h2))
    have h5 := d0 ([] ++ [.message 0 (some 0) ⟨5, .ros⟩] ++ [.assign 1 0] ++ [.get 1] ++ [.write 0 (· + 1)] ++ [.assign 2 1] ++ [.get 2] ++
      [.write 1 (· + 10)]) (.assign 1 1) 1 rfl (fun x h => by cases h)
    have w1 := wellUsed_snoc (op := .message 0 (some 0) ⟨5, .ros⟩) (wellUsed_nil (α := Nat) 1) ⟨0, rfl, by decide⟩
    have w2 := wellUsed_snoc (op := .get 1) (wellUsed_snoc (op := .assign 1 0) w1 h0) h1
    have w3 := wellUsed_snoc (op := .assign 2 1) (wellUsed_snoc (op := .write 0 (· + 1)) w2 trivial) h2
    have w4 := wellUsed_snoc (op := .write 1 (· + 10)) (wellUsed_snoc (op := .get 2) w3 h3) trivial
    exact wellUsed_snoc (op := .get 1) (wellUsed_snoc (op := .assign 1 1) w4 h4) h5

end MF.EventVars
