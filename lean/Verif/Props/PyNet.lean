import Verif.Proofs.PyNetAlone
/-
Property C93: pipelines of Python filters used by several threads: who can block, and what an exception leaves behind.
-/
namespace MF.PyNet

/-- **C93** (the only cause of blocking).  No message comes back to a synchronizer from its own callbacks.  Then, whatever the threads
deliver, whichever callbacks raise, and however the threads are scheduled: a thread that is not done can go on, or waits in the end for a
thread that can go on, or in the end for a synchronizer whose `add` was left by an exception. -/
theorem C93_cause_of_blocking (net : Net) (hnf : NoFeedback net) (k : Nat) (deliveries : Nat → List (List Call))
    (hk : ∀ t, k ≤ t → deliveries t = []) (acts : Nat → List Act) (ends : Nat → List End)
    (hruns : ∀ t, Runs net (deliveries t) (acts t) (ends t)) (schedule : List Nat) (t : Nat)
    (hn : ¬ Done (exec (start acts) schedule) t) :
    ∃ u, DependsOn (exec (start acts) schedule) t u ∧
      (Enabled (exec (start acts) schedule) u ∨
        ∃ f, WaitsFor (exec (start acts) schedule) u f ∧ (exec (start acts) schedule).lock f = .abandoned) := by
  obtain ⟨rank, hrank⟩ := hnf
  have hinv := inv_exec (inv_start (below rank) acts (fun t => runs_track (fun _ _ _ h => does_ordered hrank h) (hruns t))) schedule
  have hidle : ∀ t, k ≤ t → (start acts).todo t = [] := by
    intro t ht
    have h := hruns t
    rw [hk t ht] at h
    exact runs_nil h
  exact cause hinv (idle_exec hidle schedule) t hn

/-- **C93** (partial: without exceptions everything gets done).  If all deliveries return, then after any beginning, if every thread is scheduled
again and again, all threads are done; as many rounds as there are lock operations left are enough. -/
theorem C93_all_return_partial (net : Net) (hnf : NoFeedback net) (k : Nat) (deliveries : Nat → List (List Call))
    (hk : ∀ t, k ≤ t → deliveries t = []) (acts : Nat → List Act) (ends : Nat → List End)
    (hruns : ∀ t, Runs net (deliveries t) (acts t) (ends t)) (hret : ∀ t, ∀ e ∈ ends t, e = .returned) (schedule : List Nat)
    (rounds : List (List Nat)) (hr : ∀ l ∈ rounds, ∀ t, t < k → t ∈ l) (hw : work k (exec (start acts) schedule) ≤ rounds.length) :
    ∀ t, Done (exec (start acts) (schedule ++ rounds.flatten)) t := by
  obtain ⟨rank, hrank⟩ := hnf
  have hinv := inv_exec (inv_start (below rank) acts (fun t => runs_track (fun _ _ _ h => does_ordered hrank h) (hruns t))) schedule
  have hidle : ∀ t, k ≤ t → (start acts).todo t = [] := by
    intro t ht
    have h := hruns t
    rw [hk t ht] at h
    exact runs_nil h
  have hno : ∀ t f, Act.abandon f ∉ (start acts).todo t := fun t f => runs_returned (hruns t) (hret t) f
  rw [exec_append]
  refine rounds_finish rounds hr hinv (idle_exec hidle schedule) (no_abandon_exec (by simp [start]) hno schedule) ?_ hw
  intro u f hm
  obtain ⟨p, hp⟩ := exec_suffix (start acts) schedule u
  exact hno u f (hp ▸ List.mem_append_right _ hm)

/-- **C93** (what a delivery leaves behind).  All locks are free, and a thread makes its next calls without being interrupted.  It gets to
the end of them; the locks that are not free afterwards are exactly those of the synchronizers in the traceback of the exception, and
these are abandoned.  In particular an exception in the callback of one synchronizer also disables every synchronizer from whose
callbacks the message came. -/
theorem C93_exception_disables_traceback (net : Net) (hnf : NoFeedback net) (cs : List Call) (as : List Act) (e : End)
    (h : Does net cs as e) (s : State) (hfree : ∀ f, s.lock f = .free) (t : Nat) (rest : List Act) (ht : s.todo t = as ++ rest) :
    (exec s (List.replicate as.length t)).todo t = rest ∧
    (∀ u, u ≠ t → (exec s (List.replicate as.length t)).todo u = s.todo u) ∧
    ∀ f, (exec s (List.replicate as.length t)).lock f = if f ∈ e.traceback then .abandoned else .free := by
  obtain ⟨rank, hrank⟩ := hnf
  rw [does_alone hrank h t s rest ht (fun x => Or.inl (hfree x))]
  refine ⟨by simp, fun u hu => by simp [hu], fun f => ?_⟩
  simp only [hfree]

/-- **C93** (forever).  Once the `add` of a synchronizer was left by an exception, its lock stays taken, and a thread that delivers a message
to it never gets past this delivery, whatever the other threads do; only an ApproximateTimeSynchronizer lets messages pass that it
ignores.  (Feedback or not.) -/
theorem C93_disabled_forever (net : Net) (deliveries : Nat → List (List Call)) (acts : Nat → List Act) (ends : Nat → List End)
    (hruns : ∀ t, Runs net (deliveries t) (acts t) (ends t)) (before after : List Nat) (f : Nat)
    (hf : (exec (start acts) before).lock f = .abandoned) :
    (exec (start acts) (before ++ after)).lock f = .abandoned ∧
    ∀ t cs as e rest, net.kind f ≠ .plain → Does net (.deliver f :: cs) as e → (exec (start acts) before).todo t = as ++ rest →
      (net.kind f = .approximate ∧ Does net cs as e) ∨ (exec (start acts) (before ++ after)).todo t = as ++ rest := by
  have hinv := inv_exec (inv_start (fun _ _ => true) acts
    (fun t => runs_track (fun _ _ _ h => does_bracketed h []) (hruns t))) before
  obtain ⟨h1, h2⟩ := abandoned_exec hinv hf after
  rw [exec_append]
  refine ⟨h1, ?_⟩
  intro t cs as e rest hk hd ht
  have fin : (∃ r, as = .acquire f :: r) → (exec (exec (start acts) before) after).todo t = as ++ rest := by
    rintro ⟨r, rfl⟩
    rw [h2 t ⟨r ++ rest, by rw [ht]; rfl⟩, ht]
  cases hd with
  | plain hk' => exact absurd hk' hk
  | ignored hk' h' => exact Or.inl ⟨hk', h'⟩
  | sync => exact Or.inr (fin ⟨_, rfl⟩)
  | syncRaised => exact Or.inr (fin ⟨_, rfl⟩)
  | ownRaise => exact Or.inr (fin ⟨_, rfl⟩)

/-- **C93** (feedback blocks at once).  A TimeSynchronizer one of whose callbacks delivers a message to it: the thread that comes there
never comes back, whatever the other threads do. -/
theorem C93_feedback_blocks (net : Net) (f : Nat) (hk : net.kind f = .exact) (cbs : List (List Call))
    (hcb : ∀ cb ∈ cbs, cb ∈ net.callbacks f) (hfb : Call.deliver f ∈ cbs.flatten) (as : List Act)
    (has : Does net cbs.flatten as .returned) (cs : List Call) (as' : List Act) (e : End) (has' : Does net cs as' e)
    (deliveries : Nat → List (List Call)) (acts : Nat → List Act) (ends : Nat → List End)
    (hruns : ∀ t, Runs net (deliveries t) (acts t) (ends t)) (before after : List Nat) (t : Nat) (rest : List Act)
    (ht : (exec (start acts) before).todo t = .acquire f :: (as ++ .release f :: as') ++ rest)
    (hfree : (exec (start acts) before).lock f = .free) :
    Does net (.deliver f :: cs) (.acquire f :: (as ++ .release f :: as')) e ∧
    ¬ Done (exec (start acts) (before ++ t :: after)) t ∧ (exec (start acts) (before ++ t :: after)).lock f = .held t := by
  have hinv := inv_exec (inv_start (fun _ _ => true) acts
    (fun t => runs_track (fun _ _ _ h => does_bracketed h []) (hruns t))) before
  refine ⟨.sync (by rw [hk]; simp) hcb has has', ?_⟩
  obtain ⟨p, q, hpq, hnp⟩ := first_acquire (deliver_acquires has rfl hk hfb)
  obtain ⟨h1, h2⟩ := no_release_before (does_bracketed has []) (by simp) hpq hnp
  have hsl : SelfLock t f (step (exec (start acts) before) t) := by
    refine ⟨p, q ++ .release f :: (as' ++ rest), ?_, h1, h2, ?_⟩
    · unfold step
      rw [ht]
      simp [hfree, hpq]
    · unfold step
      rw [ht]
      simp [hfree]
  have hend := selfLock_exec (inv_step hinv t) hsl after
  rw [exec_append]
  obtain ⟨mid, post, hm, _, _, hl⟩ := hend
  refine ⟨?_, hl⟩
  intro hd
  have : (exec (step (exec (start acts) before) t) after).todo t = [] := hd
  rw [this] at hm
  simp at hm

/-! ### Examples -/

/-- Subscribers 0 and 1 feed the TimeSynchronizer 2, whose callback feeds the ApproximateTimeSynchronizer 3 (together with subscriber 4);
a callback of 3 may raise. -/
def cascade : Net :=
  { kind := fun f => match f with | 2 => .exact | 3 => .approximate | _ => .plain
    callbacks := fun f => match f with
      | 0 => [[.deliver 2]]
      | 1 => [[.deliver 2]]
      | 2 => [[.other, .deliver 3]]
      | 3 => [[.other], [.raise]]
      | 4 => [[.deliver 3]]
      | _ => [] }

theorem cascade_noFeedback : NoFeedback cascade := by
  refine ⟨fun f => if f = 3 then 10 else f, ?_⟩
  intro f cb hcb g hg
  match f with
  | 0 => simp [cascade] at hcb; subst hcb; simp at hg; subst hg; decide
  | 1 => simp [cascade] at hcb; subst hcb; simp at hg; subst hg; decide
  | 2 => simp [cascade] at hcb; subst hcb; simp at hg; subst hg; decide
  | 3 => simp [cascade] at hcb; rcases hcb with rfl | rfl <;> simp at hg
  | 4 => simp [cascade] at hcb; subst hcb; simp at hg; subst hg; decide
  | n + 5 => simp [cascade] at hcb

/-- A message of subscriber 0 completes a set of 2 and then a set of 3, and the second callback of 3 raises. -/
theorem cascade_raises : Does cascade [.deliver 0] [.acquire 2, .acquire 3, .abandon 3, .abandon 2] (.raised [2, 3]) := by
  have h3 : Does cascade [.deliver 3] (.acquire 3 :: ([] ++ [.abandon 3])) (.raised (3 :: [])) :=
    .syncRaised (cbs := [[.other], [.raise]]) (by simp [cascade]) (by simp [cascade]) (.other .raise)
  have h2 : Does cascade [.deliver 2] (.acquire 2 :: ((.acquire 3 :: ([] ++ [.abandon 3])) ++ [.abandon 2])) (.raised (2 :: [3])) :=
    .syncRaised (cbs := [[.other, .deliver 3]]) (by simp [cascade]) (by simp [cascade]) (.other h3)
  exact .plain (f := 0) (cbs := [[.deliver 2]]) rfl (by simp [cascade]) h2

/-- The same without exception. -/
theorem cascade_returns : Does cascade [.deliver 0] [.acquire 2, .acquire 3, .release 3, .release 2] .returned := by
  have h3 : Does cascade [.deliver 3] (.acquire 3 :: ([] ++ .release 3 :: [])) .returned :=
    .sync (cbs := [[.other]]) (by simp [cascade]) (by simp [cascade]) (.other .nil) .nil
  have h2 : Does cascade [.deliver 2] (.acquire 2 :: ((.acquire 3 :: ([] ++ .release 3 :: [])) ++ .release 2 :: [])) .returned :=
    .sync (cbs := [[.other, .deliver 3]]) (by simp [cascade]) (by simp [cascade]) (.other h3) .nil
  exact .plain (f := 0) (cbs := [[.deliver 2]]) rfl (by simp [cascade]) h2

/-- A message of subscriber 1 that completes nothing; one of subscriber 4 that is ignored. -/
theorem cascade_short : Does cascade [.deliver 1] [.acquire 2, .release 2] .returned ∧ Does cascade [.deliver 4] [] .returned :=
  ⟨.plain (f := 1) (cbs := [[.deliver 2]]) rfl (by simp [cascade])
      (.sync (cbs := []) (as := []) (as' := []) (by simp [cascade]) (by simp) .nil .nil),
    .plain (f := 4) (cbs := [[.deliver 3]]) rfl (by simp [cascade]) (.ignored (f := 3) rfl .nil)⟩

/-- Thread 0 delivers to subscriber 0, thread 1 to subscriber 1. -/
def cascadeActs (boom : Bool) : Nat → List Act
  | 0 => if boom then [.acquire 2, .acquire 3, .abandon 3, .abandon 2] else [.acquire 2, .acquire 3, .release 3, .release 2]
  | 1 => [.acquire 2, .release 2]
  | _ => []

theorem cascade_runs (boom : Bool) (t : Nat) : Runs cascade (match t with | 0 => [[.deliver 0]] | 1 => [[.deliver 1]] | _ => [])
    (cascadeActs boom t) (match t with | 0 => [if boom then .raised [2, 3] else .returned] | 1 => [.returned] | _ => []) := by
  match t with
  | 0 =>
    cases boom with
    | false => exact .cons (as' := []) cascade_returns .nil
    | true => exact .cons (as' := []) cascade_raises .nil
  | 1 => exact .cons (as' := []) cascade_short.1 .nil
  | t + 2 => exact .nil

/-- The hypotheses of the theorems are met: with the exception, thread 1 blocks although it only uses the synchronizer 2; without it both
threads finish. -/
example : NoFeedback cascade ∧ (∀ boom t, Runs cascade (match t with | 0 => [[.deliver 0]] | 1 => [[.deliver 1]] | _ => [])
      (cascadeActs boom t) (match t with | 0 => [if boom then .raised [2, 3] else .returned] | 1 => [.returned] | _ => [])) ∧
    WaitsFor (exec (start (cascadeActs true)) [0, 0, 1, 0, 0, 1]) 1 2 ∧
    (exec (start (cascadeActs true)) [0, 0, 1, 0, 0, 1]).lock 2 = .abandoned ∧
    Done (exec (start (cascadeActs false)) [0, 0, 1, 0, 0, 1, 1]) 1 :=
  ⟨cascade_noFeedback, cascade_runs, ⟨⟨_, rfl⟩, by decide⟩, by decide, rfl⟩

/-- **C93** (disagreement).  An exception in the second of two synchronizers disables the first one too: the next message for the first
one, from another thread, waits forever. -/
theorem C93_exception_spreads_upstream :
    NoFeedback cascade ∧ Does cascade [.deliver 0] (cascadeActs true 0) (.raised [2, 3]) ∧
    Does cascade [.deliver 1] (cascadeActs true 1) .returned ∧
    ∀ after, ¬ Done (exec (start (cascadeActs true)) ([0, 0, 0, 0] ++ after)) 1 := by
  refine ⟨cascade_noFeedback, cascade_raises, cascade_short.1, fun after hd => ?_⟩
  have h := (C93_disabled_forever cascade _ (cascadeActs true) _ (cascade_runs true) [0, 0, 0, 0] after 2 (by decide)).2 1 []
    [.acquire 2, .release 2] .returned [] (by simp [cascade])
    (.sync (cbs := []) (as := []) (as' := []) (by simp [cascade]) (by simp) .nil .nil) (by decide)
  have hd' : (exec (start (cascadeActs true)) ([0, 0, 0, 0] ++ after)).todo 1 = [] := hd
  rcases h with ⟨h, _⟩ | h
  · simp [cascade] at h
  · rw [hd'] at h; simp at h

/-- Two TimeSynchronizers whose callbacks feed each other. -/
def crossFed : Net :=
  { kind := fun _ => .exact, callbacks := fun f => match f with | 0 => [[.deliver 1]] | 1 => [[.deliver 0]] | _ => [] }

/-- A message for each, in two threads, both of which complete a set. -/
def crossFedActs : Nat → List Act
  | 0 => [.acquire 0, .acquire 1, .release 1, .release 0]
  | 1 => [.acquire 1, .acquire 0, .release 0, .release 1]
  | _ => []

/-- **C93** (disagreement).  Two synchronizers that feed each other: each message alone is handled, and two messages at the same time
block both threads forever, without any exception. -/
theorem C93_mutual_feedback_deadlock :
    Does crossFed [.deliver 0] (crossFedActs 0) .returned ∧ Does crossFed [.deliver 1] (crossFedActs 1) .returned ∧
    Done (exec (start crossFedActs) [0, 0, 0, 0]) 0 ∧ Done (exec (start crossFedActs) [1, 1, 1, 1]) 1 ∧
    ∀ after, ¬ Done (exec (start crossFedActs) ([0, 1] ++ after)) 0 ∧ ¬ Done (exec (start crossFedActs) ([0, 1] ++ after)) 1 := by
  have hin : ∀ f, Does crossFed [.deliver f] (.acquire f :: ([] ++ .release f :: [])) .returned :=
    fun f => .sync (cbs := []) (by simp [crossFed]) (by simp) .nil .nil
  refine ⟨?_, ?_, rfl, rfl, ?_⟩
  · exact .sync (f := 0) (cbs := [[.deliver 1]]) (cs := []) (as' := []) (by simp [crossFed]) (by simp [crossFed]) (hin 1) .nil
  · exact .sync (f := 1) (cbs := [[.deliver 0]]) (cs := []) (as' := []) (by simp [crossFed]) (by simp [crossFed]) (hin 0) .nil
  · intro after
    have hstuck : ∀ l, exec (exec (start crossFedActs) [0, 1]) l = exec (start crossFedActs) [0, 1] := by
      intro l
      induction l with
      | nil => rfl
      | cons t l ih =>
        have e : step (exec (start crossFedActs) [0, 1]) t = exec (start crossFedActs) [0, 1] := by
          match t with
          | 0 => rfl
          | 1 => rfl
          | t + 2 => rfl
        show exec (step (exec (start crossFedActs) [0, 1]) t) l = _
        rw [e]; exact ih
    rw [exec_append, hstuck]
    refine ⟨fun h => ?_, fun h => ?_⟩
    · have : (exec (start crossFedActs) [0, 1]).todo 0 = [] := h
      cases this
    · have : (exec (start crossFedActs) [0, 1]).todo 1 = [] := h
      cases this

/-- A callback that feeds its own synchronizer; the hypotheses of `C93_feedback_blocks` are met. -/
example : let net : Net := { kind := fun _ => .exact, callbacks := fun _ => [[.deliver 0]] }
    Call.deliver 0 ∈ [[Call.deliver 0]].flatten ∧ Does net [[Call.deliver 0]].flatten [.acquire 0, .release 0] .returned ∧
    Runs net [[.deliver 0]] [.acquire 0, .acquire 0, .release 0, .release 0] [.returned] := by
  intro net
  have h : Does net [.deliver 0] (.acquire 0 :: ([] ++ .release 0 :: [])) .returned := .sync (cbs := []) (by simp [net]) (by simp) .nil .nil
  refine ⟨by simp, h, ?_⟩
  have h2 : Does net [.deliver 0] (.acquire 0 :: ([.acquire 0, .release 0] ++ .release 0 :: [])) .returned :=
    .sync (cbs := [[.deliver 0]]) (by simp [net]) (by simp [net]) h .nil
  exact .cons (as' := []) h2 .nil

end MF.PyNet
