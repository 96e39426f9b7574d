import Verif.Proofs.Sequencer
/-
Properties C44 to C47: TimeSequencer.

A history is a list of calls: a message arrives (`add`; its stamp has a clock source) or the timer fires (`tick now`, where
`now k` is the k-th reading of the system clock during that tick; readings are arbitrary).  Exceptions thrown by `add` are
swallowed by the caller.  `added ops` are the messages whose stamp is system time.
-/
namespace MF.Sequencer

/-- C44: output is in temporal order, for every history. -/
theorem C44_output_sorted (delay : Int) (queueSize : Nat) (ops : List Op) : TimeSorted (run delay queueSize ops).out :=
  (run_inv delay queueSize ops).out

/-- C44: a message older than the newest message output is thrown away without any other effect. -/
theorem C44_late_message_ignored (delay : Int) (queueSize : Nat) (ops : List Op) (m : Msg)
    (hs : m.source = Source.system) (hlate : ∃ x ∈ (run delay queueSize ops).out, m.ev.stamp < x.stamp) :
    add (run delay queueSize ops) m = .ok (run delay queueSize ops) := by
  obtain ⟨x, hx, hlt⟩ := hlate
  have hi := run_inv delay queueSize ops
  have := hi.outLe x hx
  rcases add_eq (run delay queueSize ops) m with ⟨h, _⟩ | ⟨_, _, h⟩ | ⟨_, h, _⟩
  · exact absurd hs h
  · exact h
  · omega

/-- C44: nothing is invented or duplicated, and messages with equal stamps stay in arrival order: for each stamp, the
messages output and queued with that stamp are a subsequence of those that arrived with it. -/
theorem C44_content (delay : Int) (queueSize : Nat) (ops : List Op) (t : Int) :
    (((run delay queueSize ops).out ++ (run delay queueSize ops).messages).filter (fun x => decide (x.stamp = t))).Sublist
      ((added ops).filter (fun x => decide (x.stamp = t))) := run_content delay queueSize ops t

/-- C44: without a queue limit, a message that is not older than the last output when it arrives (nor older than time 0) is
never lost: at any later time it has been output or is queued. -/
theorem C44_nothing_lost (delay : Int) (pre post : List Op) (m : Msg) (hs : m.source = Source.system)
    (hfresh : lastOutput (run delay 0 pre) ≤ m.ev.stamp) :
    m.ev ∈ (run delay 0 (pre ++ .add m :: post)).out ++ (run delay 0 (pre ++ .add m :: post)).messages := by
  have h1 : pre ++ Op.add m :: post = (pre ++ [.add m]) ++ post := by simp
  rw [h1]
  induction post using snoc_induction with
  | h0 =>
    rw [List.append_nil, run_snoc]
    have hi := run_inv delay 0 pre
    rcases add_eq (run delay 0 pre) m with ⟨h, _⟩ | ⟨_, h, _⟩ | ⟨_, _, h⟩
    · exact absurd hs h
    · rw [hi.last] at h; omega
    · simp only [step, h]
      unfold queued
      simp only [(run_config delay 0 pre).2]
      rw [if_neg (by simp)]
      exact List.mem_append_right _ ((insertEv_mem _ _ _).2 (Or.inl rfl))
  | hs post op ih =>
    rw [← List.append_assoc, run_snoc]
    exact step_keeps (run_config delay 0 _).2 op (ih (by simp))

/-- Messages arriving out of order, two ticks, a late message and two messages with the same stamp. -/
def sample : List Op :=
  [.add ⟨⟨1, 20⟩, .system⟩, .add ⟨⟨2, 10⟩, .system⟩, .add ⟨⟨3, 20⟩, .system⟩, .add ⟨⟨4, 15⟩, .ros⟩, .tick (fun _ => 17),
   .add ⟨⟨5, 9⟩, .system⟩, .add ⟨⟨6, 30⟩, .system⟩, .tick (fun k => 25 + k)]

example : (run 5 0 sample).out = [⟨2, 10⟩, ⟨1, 20⟩, ⟨3, 20⟩] ∧ (run 5 0 sample).messages = [⟨6, 30⟩] := by decide

example : ∃ x ∈ (run 5 0 (sample.take 5)).out, (9 : Int) < x.stamp := ⟨⟨2, 10⟩, by decide, by decide⟩

/-- C45: in every tick the j-th message output was at least `delay` old at the j-th clock reading, and no message that is
`delay` old at the last clock reading is still queued afterwards. -/
theorem C45_delay (delay : Int) (queueSize : Nat) (ops : List Op) (now : Nat → Int) :
    ∃ new, (run delay queueSize (ops ++ [.tick now])).out = (run delay queueSize ops).out ++ new ∧
      (∀ j e, new[j]? = some e → e.stamp + delay ≤ now j) ∧
      (∀ e ∈ (run delay queueSize (ops ++ [.tick now])).messages, now new.length < e.stamp + delay) := by
  rw [run_snoc]
  have hc := run_config delay queueSize ops
  have hi := run_inv delay queueSize ops
  generalize run delay queueSize ops = s at hc hi
  refine ⟨(takeReady s.delay now 0 s.messages s.last).1, rfl, ?_, ?_⟩
  · intro j e he
    have := take_ready s.delay now s.messages 0 s.last j e he
    rw [hc.1, Nat.zero_add] at this
    exact this
  · intro e he
    have he' : e ∈ (takeReady s.delay now 0 s.messages s.last).2.1 := he
    have hi' := (dispatch_inv hi now).sorted
    have hsorted : TimeSorted (takeReady s.delay now 0 s.messages s.last).2.1 := hi'
    obtain ⟨x, l, hx⟩ := List.exists_cons_of_ne_nil (List.ne_nil_of_mem he')
    have h1 := take_rest s.delay now s.messages 0 s.last x l hx
    rw [Nat.zero_add, hc.1] at h1
    rw [hx] at he' hsorted
    rw [← hc.1] at h1 ⊢
    rcases List.mem_cons.1 he' with h | h
    · rw [h]; exact h1
    · have := (List.pairwise_cons.1 hsorted).1 e h
      omega

/-- C45: outside ticks nothing is output. -/
theorem C45_no_output_on_add (delay : Int) (queueSize : Nat) (ops : List Op) (m : Msg) :
    (run delay queueSize (ops ++ [.add m])).out = (run delay queueSize ops).out := by
  rw [run_snoc]
  rcases step_cases (run delay queueSize ops) (.add m) with ⟨h, _⟩ | ⟨m', _, _, _, h⟩ | ⟨now, h0, _⟩
  · rw [h]
  · rw [h]; rfl
  · cases h0

/-- C45: if the clock reads `c` throughout a tick, exactly the queued messages with `stamp + delay ≤ c` are output. -/
theorem C45_exact (delay : Int) (queueSize : Nat) (ops : List Op) (c : Int) :
    let s := run delay queueSize ops
    let s' := run delay queueSize (ops ++ [.tick (fun _ => c)])
    s'.out = s.out ++ s.messages.filter (fun e => decide (e.stamp + delay ≤ c)) ∧
    s'.messages = s.messages.filter (fun e => decide (¬ e.stamp + delay ≤ c)) := by
  intro s s'
  obtain ⟨new, h1, h2, h3⟩ := C45_delay delay queueSize ops (fun _ => c)
  have h4 := dispatch_content s (fun _ => c)
  have h5 : s' = dispatch s (fun _ => c) := run_snoc delay queueSize ops _
  have h6 : s.messages = new ++ s'.messages := by
    rw [← h5] at h4
    rw [show s'.out = s.out ++ new from h1, List.append_assoc] at h4
    exact (List.append_cancel_left h4).symm
  have ha : ∀ e ∈ new, e.stamp + delay ≤ c := by
    intro e he
    obtain ⟨j, hj⟩ := List.mem_iff_getElem?.1 he
    exact h2 j e hj
  have hb : ∀ e ∈ s'.messages, ¬ e.stamp + delay ≤ c := by
    intro e he
    have : c < e.stamp + delay := h3 e he
    omega
  rw [h6, List.filter_append, List.filter_append]
  have f1 : new.filter (fun e => decide (e.stamp + delay ≤ c)) = new :=
    List.filter_eq_self.2 (fun e he => by simpa using ha e he)
  have f2 : s'.messages.filter (fun e => decide (e.stamp + delay ≤ c)) = [] :=
    List.filter_eq_nil_iff.2 (fun e he => by simpa using hb e he)
  have f3 : new.filter (fun e => decide (¬ e.stamp + delay ≤ c)) = [] :=
    List.filter_eq_nil_iff.2 (fun e he => by simpa using ha e he)
  have f4 : s'.messages.filter (fun e => decide (¬ e.stamp + delay ≤ c)) = s'.messages :=
    List.filter_eq_self.2 (fun e he => by simpa using hb e he)
  rw [f1, f2, f3, f4]
  exact ⟨by simpa using h1, rfl⟩

example : (run 5 0 (sample.take 4)).messages = [⟨2, 10⟩, ⟨1, 20⟩, ⟨3, 20⟩] ∧
    (run 5 0 (sample.take 5)).messages = [⟨1, 20⟩, ⟨3, 20⟩] := by decide

/-- C46: at most `queueSize` messages are held. -/
theorem C46_bound (delay : Int) (queueSize : Nat) (hq : queueSize ≠ 0) (ops : List Op) :
    (run delay queueSize ops).messages.length ≤ queueSize := by
  have := (run_inv delay queueSize ops).bound
  rw [(run_config delay queueSize ops).2] at this
  exact this hq

/-- C46: as long as the queue is not full (or unlimited), a message that is not late is queued and nothing is dropped. -/
theorem C46_no_drop_before_full (delay : Int) (queueSize : Nat) (ops : List Op) (m : Msg)
    (hs : m.source = Source.system) (hfresh : lastOutput (run delay queueSize ops) ≤ m.ev.stamp)
    (hroom : queueSize = 0 ∨ (run delay queueSize ops).messages.length < queueSize) :
    (run delay queueSize (ops ++ [.add m])).messages.Perm (m.ev :: (run delay queueSize ops).messages) := by
  rw [run_snoc]
  have hc := run_config delay queueSize ops
  have hi := run_inv delay queueSize ops
  generalize run delay queueSize ops = s at hc hi hfresh hroom
  rcases add_eq s m with ⟨h, _⟩ | ⟨_, h, _⟩ | ⟨_, _, h⟩
  · exact absurd hs h
  · rw [hi.last] at h; omega
  · simp only [step, h]
    have hl := insertEv_length m.ev s.messages
    have hm : (queued s m.ev).messages = insertEv m.ev s.messages := by
      unfold queued
      simp only
      rw [if_neg (by rw [hc.2]; omega)]
    rw [hm]
    exact (perm_of_at (fun t => at_insert t m.ev s.messages hi.sorted)).trans List.perm_append_comm

example : (run 0 2 [.add ⟨⟨1, 1⟩, .system⟩]).messages.length < 2 := by decide

/-- C46: what really happens when a message arrives at a full queue: all messages, including the new one, that have the
oldest stamp are dropped. -/
theorem C46_overflow (delay : Int) (queueSize : Nat) (hq : queueSize ≠ 0) (ops : List Op) (m : Msg)
    (hs : m.source = Source.system) (hfresh : lastOutput (run delay queueSize ops) ≤ m.ev.stamp)
    (hfull : (run delay queueSize ops).messages.length = queueSize) :
    ∃ oldest ∈ m.ev :: (run delay queueSize ops).messages,
      (∀ x ∈ m.ev :: (run delay queueSize ops).messages, oldest.stamp ≤ x.stamp) ∧
      (run delay queueSize (ops ++ [.add m])).messages.Perm
        ((m.ev :: (run delay queueSize ops).messages).filter (fun x => decide (x.stamp ≠ oldest.stamp))) := by
  rw [run_snoc]
  have hc := run_config delay queueSize ops
  have hi := run_inv delay queueSize ops
  generalize run delay queueSize ops = s at hc hi hfresh hfull
  rcases add_eq s m with ⟨h, _⟩ | ⟨_, h, _⟩ | ⟨_, _, h⟩
  · exact absurd hs h
  · rw [hi.last] at h; omega
  · simp only [step, h]
    have hl := insertEv_length m.ev s.messages
    have hm : (queued s m.ev).messages = eraseKeyOfFirst (insertEv m.ev s.messages) := by
      unfold queued
      simp only
      rw [if_pos ⟨by rw [hc.2]; exact hq, by omega⟩]
    have hperm : (insertEv m.ev s.messages).Perm (m.ev :: s.messages) := by
      have := perm_of_at (fun t => at_insert t m.ev s.messages hi.sorted)
      exact this.trans List.perm_append_comm
    have hsorted := insertEv_sorted m.ev s.messages hi.sorted
    rw [hm]
    cases hx : insertEv m.ev s.messages with
    | nil => rw [hx] at hl; simp at hl
    | cons x l =>
      rw [hx] at hperm hsorted
      refine ⟨x, hperm.mem_iff.1 (by simp), ?_, ?_⟩
      · intro y hy
        rcases List.mem_cons.1 (hperm.mem_iff.2 hy) with h | h
        · rw [h]; exact Int.le_refl _
        · exact (List.pairwise_cons.1 hsorted).1 y h
      · show ((x :: l).filter (fun y => decide (y.stamp ≠ x.stamp))).Perm _
        exact hperm.filter _

/-- C46 (partial: the stamps of the queued messages and the new one are different; otherwise it is false, see
`C46_equal_stamps_dropped_together`): a message arriving at a full queue drops exactly one message, the oldest. -/
theorem C46_drops_oldest_partial (delay : Int) (queueSize : Nat) (hq : queueSize ≠ 0) (ops : List Op) (m : Msg)
    (hs : m.source = Source.system) (hfresh : lastOutput (run delay queueSize ops) ≤ m.ev.stamp)
    (hfull : (run delay queueSize ops).messages.length = queueSize)
    (hdiff : (m.ev :: (run delay queueSize ops).messages).Pairwise (fun a b => a.stamp ≠ b.stamp)) :
    ∃ oldest ∈ m.ev :: (run delay queueSize ops).messages,
      (∀ x ∈ m.ev :: (run delay queueSize ops).messages, oldest.stamp ≤ x.stamp) ∧
      (oldest :: (run delay queueSize (ops ++ [.add m])).messages).Perm (m.ev :: (run delay queueSize ops).messages) := by
  obtain ⟨o, h1, h2, h3⟩ := C46_overflow delay queueSize hq ops m hs hfresh hfull
  refine ⟨o, h1, h2, (h3.cons o).trans ?_⟩
  generalize m.ev :: (run delay queueSize ops).messages = l at h1 hdiff
  clear h2 h3
  induction l with
  | nil => cases h1
  | cons y l ih =>
    obtain ⟨g1, g2⟩ := List.pairwise_cons.1 hdiff
    rcases List.mem_cons.1 h1 with h | h
    · subst h
      rw [List.filter_cons_of_neg (by simp)]
      rw [List.filter_eq_self.2]
      intro x hx
      have := g1 x hx
      simp; exact fun h => this h.symm
    · rw [List.filter_cons_of_pos (by have := g1 o h; simpa using this)]
      exact (List.Perm.swap _ _ _).trans ((ih h g2).cons y)

/-- C46 is false for equal stamps: two messages arrive at stamp 1, a third one overflows the queue of size 2, and both older
messages are dropped. -/
theorem C46_equal_stamps_dropped_together :
    (run 0 2 [.add ⟨⟨1, 1⟩, .system⟩, .add ⟨⟨2, 1⟩, .system⟩]).messages = [⟨1, 1⟩, ⟨2, 1⟩] ∧
    (run 0 2 [.add ⟨⟨1, 1⟩, .system⟩, .add ⟨⟨2, 1⟩, .system⟩, .add ⟨⟨3, 2⟩, .system⟩]).messages = [⟨3, 2⟩] := by decide

example : (run 0 2 [.add ⟨⟨1, 1⟩, .system⟩, .add ⟨⟨2, 3⟩, .system⟩, .add ⟨⟨3, 2⟩, .system⟩]).messages = [⟨3, 2⟩, ⟨2, 3⟩] := by
  decide

/-- C47 is false: adding a message with a standard header (stamp of source `ros`) throws in every reachable state. -/
theorem C47_header_message_throws (delay : Int) (queueSize : Nat) (ops : List Op) (e : Ev) :
    add (run delay queueSize ops) ⟨e, .ros⟩ = .error .threw := by
  rcases add_eq (run delay queueSize ops) ⟨e, .ros⟩ with ⟨_, h⟩ | ⟨h, _⟩ | ⟨h, _⟩
  · exact h
  · cases h
  · cases h

/-- C47: a sequencer that only receives messages with standard headers never outputs anything. -/
theorem C47_header_messages_never_output (delay : Int) (queueSize : Nat) (ops : List Op)
    (h : ∀ m, Op.add m ∈ ops → m.source = Source.ros) :
    (run delay queueSize ops).out = [] ∧ (run delay queueSize ops).messages = [] := by
  have hno : added ops = [] := by
    unfold added
    rw [List.filterMap_eq_nil_iff]
    intro op hop
    cases op with
    | tick now => rfl
    | add m => simp [h m hop]
  have key : ∀ x, x ∉ (run delay queueSize ops).out ++ (run delay queueSize ops).messages := by
    intro x hx
    have h1 := C44_content delay queueSize ops x.stamp
    rw [hno] at h1
    have h2 : x ∈ ([] : List Ev) := h1.subset (List.mem_filter.2 ⟨hx, by simp⟩)
    cases h2
  have := List.append_eq_nil_iff.1 (List.eq_nil_iff_forall_not_mem.2 key)
  exact this

/-- C47 (partial: stamps that are system time, as in the package's own tests): no exception is thrown. -/
theorem C47_system_time_partial (delay : Int) (queueSize : Nat) (ops : List Op) (e : Ev) :
    ∃ s, add (run delay queueSize ops) ⟨e, .system⟩ = .ok s := by
  rcases add_eq (run delay queueSize ops) ⟨e, .system⟩ with ⟨h, _⟩ | ⟨_, _, h⟩ | ⟨_, _, h⟩
  · exact absurd rfl h
  · exact ⟨_, h⟩
  · exact ⟨_, h⟩

example : (run 0 0 [.add ⟨⟨1, 1⟩, .ros⟩, .tick (fun _ => 100), .add ⟨⟨2, 1⟩, .system⟩, .tick (fun _ => 200)]).out =
    [⟨2, 1⟩] := by decide

end MF.Sequencer
