import Verif.Proofs.Deadlock
/-
Property C52: deadlocks.
-/
namespace MF.Lock

/-- **C52**.  If callbacks only call filters further downstream, then whatever the threads do (deliver messages, run timers, register and
disconnect callbacks, query caches), however often each filter outputs, whichever callbacks are connected at each moment, and however
the threads are scheduled: unless everything is done, some thread can go on. -/
theorem C52_no_deadlock (net : Net) (hac : Acyclic net) (k : Nat) (calls : Nat → List Call) (hk : ∀ t, k ≤ t → calls t = [])
    (acts : Nat → List Act) (hdoes : ∀ t, Does net (calls t) (acts t)) (schedule : List Nat) :
    Finished (exec (start acts) schedule) ∨ ∃ t, Enabled (exec (start acts) schedule) t := by
  obtain ⟨rank, hrank⟩ := hac
  have hinv := inv_exec (inv_start (mutexRank rank) acts
    (fun t => does_ordered hrank (hdoes t) [] (fun x hx => by cases hx))) schedule
  have hidle : ∀ t, k ≤ t → (start acts).todo t = [] := by
    intro t ht
    have h := hdoes t
    rw [hk t ht] at h
    exact does_nil h
  by_cases hf : Finished (exec (start acts) schedule)
  · exact Or.inl hf
  · exact Or.inr (progress hinv (idle_exec hidle schedule) hf)

/-- **C52** (all calls return).  After any beginning, if every thread is scheduled again and again, everything gets done: as many rounds as
there are lock operations are enough. -/
theorem C52_all_calls_return (net : Net) (hac : Acyclic net) (k : Nat) (calls : Nat → List Call) (hk : ∀ t, k ≤ t → calls t = [])
    (acts : Nat → List Act) (hdoes : ∀ t, Does net (calls t) (acts t)) (schedule : List Nat) (rounds : List (List Nat))
    (hr : ∀ l ∈ rounds, ∀ t, t < k → t ∈ l) (hn : work k (exec (start acts) schedule) ≤ rounds.length) :
    Finished (exec (start acts) (schedule ++ rounds.flatten)) := by
  obtain ⟨rank, hrank⟩ := hac
  have hinv := inv_exec (inv_start (mutexRank rank) acts
    (fun t => does_ordered hrank (hdoes t) [] (fun x hx => by cases hx))) schedule
  have hidle : ∀ t, k ≤ t → (start acts).todo t = [] := by
    intro t ht
    have h := hdoes t
    rw [hk t ht] at h
    exact does_nil h
  rw [exec_append]
  exact rounds_finish rounds hr hinv (idle_exec hidle schedule) hn

/-- Two subscribers (0, 1) feed a synchronizer (2), which feeds a cache (3) and a user callback that changes the connections of the
cache; subscriber 1 also feeds a sequencer (4), which feeds an aligner (5). -/
def sample : Net :=
  { kind := fun f => match f with | 2 => .policy | 3 => .cache | 4 => .sequencer | 5 => .aligner | _ => .forward
    callbacks := fun f _ => match f with
      | 0 => [[.deliver 2]]
      | 1 => [[.deliver 2], [.deliver 4]]
      | 2 => [[.deliver 3], [.connect 3 0]]
      | 4 => [[.deliver 5]]
      | _ => [] }

theorem sample_acyclic : Acyclic sample := by
  refine ⟨id, ?_⟩
  intro f k cb hcb c hc
  match f with
  | 0 => simp [sample] at hcb; subst hcb; simp at hc; subst hc; simp [Call.target]
  | 1 =>
    simp [sample] at hcb
    rcases hcb with rfl | rfl <;> (simp at hc; subst hc; simp [Call.target])
  | 2 =>
    simp [sample] at hcb
    rcases hcb with rfl | rfl <;> (simp at hc; subst hc; simp [Call.target])
  | 3 => simp [sample] at hcb
  | 4 => simp [sample] at hcb; subst hcb; simp at hc; subst hc; simp [Call.target]
  | n + 5 => simp [sample] at hcb

/-- A message of subscriber 0 that makes the synchronizer output to the cache and to the user callback. -/
theorem sample_does : Does sample [.deliver 0]
    [.acquire (.sig 0 0), .acquire (.own 2), .acquire (.sig 2 0), .acquire (.own 3), .release (.own 3), .acquire (.sig 3 0),
     .release (.sig 3 0), .acquire (.sig 3 0), .release (.sig 3 0), .release (.sig 2 0), .release (.own 2), .release (.sig 0 0)] := by
  have h1 : Does sample [.deliver 3, .connect 3 0] _ :=
    .cache rfl (.output (cbs := []) (fun _ h => by cases h) .nil (.connect .nil))
  have h2 : Does sample [.output 2 0] _ := .output (cbs := [[.deliver 3], [.connect 3 0]]) (fun _ h => by simpa [sample] using h) h1 .nil
  have h3 : Does sample [.deliver 2] _ := .policy (ks := [0]) rfl h2 .nil
  have h4 : Does sample [.output 0 0] _ := .output (cbs := [[.deliver 2]]) (fun _ h => by simpa [sample] using h) h3 .nil
  exact .forward rfl h4

/-- Two threads do this at once; the second waits for the first. -/
example : Acyclic sample ∧ (∀ t, 2 ≤ t → (fun t => if t < 2 then [Call.deliver 0] else []) t = []) ∧
    (Waiting (exec (start (fun t => if t < 2 then [.acquire (.sig 0 0), .release (.sig 0 0)] else [])) [0, 1]) 1) := by
  refine ⟨sample_acyclic, ?_, .sig 0 0, [.release (.sig 0 0)], rfl, by decide⟩
  intro t ht
  simp only
  rw [if_neg (by omega)]

/-! ### Callbacks that call upstream -/

/-- **C52**: a callback that (in whatever way) leads to registering or disconnecting a callback of the very output from which it is called
never returns: for any other threads, in every schedule. -/
theorem C52_reconnecting_in_callback (net : Net) (f k : Nat) (cbs : List (List Call)) (hcb : ∀ cb ∈ cbs, cb ∈ net.callbacks f k)
    (hre : Call.connect f k ∈ cbs.flatten) (as : List Act) (has : Does net cbs.flatten as) (cs : List Call) (as' : List Act)
    (has' : Does net cs as') (t : Nat) (acts : Nat → List Act) (ht : acts t = .acquire (.sig f k) :: (as ++ .release (.sig f k) :: as')) :
    Does net (.output f k :: cs) (acts t) ∧ ∀ schedule, (exec (start acts) schedule).todo t ≠ [] := by
  refine ⟨ht ▸ .output hcb has has', fun schedule => ?_⟩
  exact selfLock_unfinished (selfLock_exec
    (selfLock_of_does has (connect_acquires has hre) (.release (.sig f k) :: as') t (start acts) ht) schedule)

/-- **C52**: a callback of a synchronizer that delivers a message to the same synchronizer never returns. -/
theorem C52_feeding_back (net : Net) (f k : Nat) (hf : net.kind f = .policy) (cbs : List (List Call))
    (hcb : ∀ cb ∈ cbs, cb ∈ net.callbacks f k) (hre : Call.deliver f ∈ cbs.flatten) (as : List Act)
    (has : Does net cbs.flatten as) (ks : List Nat) (as2 : List Act) (has2 : Does net (ks.map (.output f)) as2) (cs : List Call)
    (as' : List Act) (has' : Does net cs as') (t : Nat) (acts : Nat → List Act)
    (ht : acts t = .acquire (.own f) :: ((.acquire (.sig f k) :: (as ++ .release (.sig f k) :: as2)) ++ .release (.own f) :: as')) :
    Does net (.deliver f :: cs) (acts t) ∧ ∀ schedule, (exec (start acts) schedule).todo t ≠ [] := by
  have hout : Does net ((k :: ks).map (.output f)) (.acquire (.sig f k) :: (as ++ .release (.sig f k) :: as2)) := .output hcb has has2
  refine ⟨ht ▸ .policy hf hout has', fun schedule => ?_⟩
  have hmem : Act.acquire (.own f) ∈ (.acquire (.sig f k) :: (as ++ .release (.sig f k) :: as2) : List Act) := by
    have := deliver_acquires has hre (by rw [hf]; simp) (by rw [hf]; simp)
    simp [this]
  exact selfLock_unfinished (selfLock_exec (selfLock_of_does hout hmem (.release (.own f) :: as') t (start acts) ht) schedule)

/-- A subscriber whose callback disconnects itself; a synchronizer whose callback feeds it. -/
def upstream : Net :=
  { kind := fun f => match f with | 1 => .policy | _ => .forward
    callbacks := fun f _ => match f with | 0 => [[.connect 0 0]] | 1 => [[.deliver 1]] | _ => [] }

example : ¬ Acyclic upstream ∧ Does upstream [.deliver 0]
      [.acquire (.sig 0 0), .acquire (.sig 0 0), .release (.sig 0 0), .release (.sig 0 0)] ∧
    Does upstream [.deliver 1]
      [.acquire (.own 1), .acquire (.sig 1 0), .acquire (.own 1), .release (.own 1), .release (.sig 1 0), .release (.own 1)] := by
  refine ⟨?_, ?_, ?_⟩
  · rintro ⟨rank, h⟩
    have := h 0 0 [.connect 0 0] (by simp [upstream]) (.connect 0 0) (by simp)
    simp [Call.target] at this
  · have h1 : Does upstream [.output 0 0] _ :=
      .output (cbs := [[.connect 0 0]]) (fun _ h => by simpa [upstream] using h) (.connect .nil) .nil
    exact .forward rfl h1
  · have h0 : Does upstream [.deliver 1] _ := .policy (ks := []) rfl .nil .nil
    have h1 : Does upstream [.output 1 0] _ := .output (cbs := [[.deliver 1]]) (fun _ h => by simpa [upstream] using h) h0 .nil
    exact .policy (ks := [0]) rfl h1 .nil

/-- Two filters; a callback of each changes the connections of the other. -/
def crossed : Net :=
  { kind := fun _ => .forward
    callbacks := fun f _ => match f with | 0 => [[.connect 1 0]] | 1 => [[.connect 0 0]] | _ => [] }

/-- What two threads do that deliver a message to filter 0 and to filter 1 of `crossed`. -/
def crossedActs : Nat → List Act
  | 0 => [.acquire (.sig 0 0), .acquire (.sig 1 0), .release (.sig 1 0), .release (.sig 0 0)]
  | 1 => [.acquire (.sig 1 0), .acquire (.sig 0 0), .release (.sig 0 0), .release (.sig 1 0)]
  | _ => []

/-- **C52**: without the ordering, two threads can block each other forever, although each alone would finish. -/
theorem C52_crossed_callbacks_deadlock :
    Does crossed [.deliver 0] (crossedActs 0) ∧ Does crossed [.deliver 1] (crossedActs 1) ∧
    (exec (start crossedActs) [0, 0, 0, 0]).todo 0 = [] ∧ (exec (start crossedActs) [1, 1, 1, 1]).todo 1 = [] ∧
    ∀ schedule, (exec (start crossedActs) ([0, 1] ++ schedule)).todo 0 ≠ [] ∧
      (exec (start crossedActs) ([0, 1] ++ schedule)).todo 1 ≠ [] := by
  refine ⟨?_, ?_, rfl, rfl, ?_⟩
  · have h1 : Does crossed [.output 0 0] _ :=
      .output (cbs := [[.connect 1 0]]) (fun _ h => by simpa [crossed] using h) (.connect .nil) .nil
    exact .forward rfl h1
  · have h1 : Does crossed [.output 1 0] _ :=
      .output (cbs := [[.connect 0 0]]) (fun _ h => by simpa [crossed] using h) (.connect .nil) .nil
    exact .forward rfl h1
  · intro schedule
    rw [exec_append, stuck_exec]
    · exact ⟨by decide, by decide⟩
    · intro t he
      match t with
      | 0 => exact he.2 ⟨.sig 1 0, _, rfl, by decide⟩
      | 1 => exact he.2 ⟨.sig 0 0, _, rfl, by decide⟩
      | t + 2 => exact he.1 rfl

/-- **C52**, which mutexes a delivery takes.  A policy outputs while it holds its own mutex; a cache releases its own mutex before
it outputs; a sequencer and an aligner only store the message under theirs; the others take none of their own. -/
theorem C52_deliver_locks (net : Net) (f : Nat) (cs : List Call) (as : List Act) :
    Does net (.deliver f :: cs) as ↔
      match net.kind f with
      | .relay => ∃ cbs : List (List Call), (∀ cb ∈ cbs, cb ∈ net.callbacks f 0) ∧ Does net (cbs.flatten ++ cs) as
      | .forward => Does net (.output f 0 :: cs) as
      | .cache => ∃ as', as = .acquire (.own f) :: .release (.own f) :: as' ∧ Does net (.output f 0 :: cs) as'
      | .sequencer => ∃ as', as = .acquire (.own f) :: .release (.own f) :: as' ∧ Does net cs as'
      | .aligner => ∃ as', as = .acquire (.own f) :: .release (.own f) :: as' ∧ Does net cs as'
      | .policy => ∃ (ks : List Nat) (out as' : List Act), as = .acquire (.own f) :: (out ++ .release (.own f) :: as') ∧
          Does net (ks.map (.output f)) out ∧ Does net cs as' := by
  constructor
  · intro h
    cases h with
    | relay hk hcb h => rw [hk]; exact ⟨_, hcb, h⟩
    | forward hk h => rw [hk]; exact h
    | cache hk h => rw [hk]; exact ⟨_, rfl, h⟩
    | sequencerAdd hk h => rw [hk]; exact ⟨_, rfl, h⟩
    | alignerAdd hk h => rw [hk]; exact ⟨_, rfl, h⟩
    | policy hk h h' => rw [hk]; exact ⟨_, _, _, rfl, h, h'⟩
  · intro h
    cases hk : net.kind f with
    | relay => rw [hk] at h; obtain ⟨cbs, h1, h2⟩ := h; exact .relay hk h1 h2
    | forward => rw [hk] at h; exact .forward hk h
    | cache => rw [hk] at h; obtain ⟨as', rfl, h2⟩ := h; exact .cache hk h2
    | sequencer => rw [hk] at h; obtain ⟨as', rfl, h2⟩ := h; exact .sequencerAdd hk h2
    | aligner => rw [hk] at h; obtain ⟨as', rfl, h2⟩ := h; exact .alignerAdd hk h2
    | policy => rw [hk] at h; obtain ⟨ks, out, as', rfl, h2, h3⟩ := h; exact .policy hk h2 h3

/-- **C52**, which mutexes a timer takes.  A sequencer releases its own mutex before it outputs (on its only signal); an aligner
outputs, on any of its signals, while it holds its own. -/
theorem C52_timer_locks (net : Net) (f : Nat) (cs : List Call) (as : List Act) :
    Does net (.timer f :: cs) as ↔
      match net.kind f with
      | .sequencer => ∃ count as', as = .acquire (.own f) :: .release (.own f) :: as' ∧
          Does net (List.replicate count (.output f 0) ++ cs) as'
      | .aligner => ∃ (ks : List Nat) (out as' : List Act), as = .acquire (.own f) :: (out ++ .release (.own f) :: as') ∧
          Does net (ks.map (.output f)) out ∧ Does net cs as'
      | _ => False := by
  constructor
  · intro h
    cases h with
    | sequencerTimer hk h => rw [hk]; exact ⟨_, _, rfl, h⟩
    | alignerTimer hk h h' => rw [hk]; exact ⟨_, _, _, rfl, h, h'⟩
  · intro h
    cases hk : net.kind f with
    | sequencer => rw [hk] at h; obtain ⟨count, as', rfl, h2⟩ := h; exact .sequencerTimer hk h2
    | aligner => rw [hk] at h; obtain ⟨ks, out, as', rfl, h2, h3⟩ := h; exact .alignerTimer hk h2 h3
    | relay => rw [hk] at h; exact h.elim
    | forward => rw [hk] at h; exact h.elim
    | cache => rw [hk] at h; exact h.elim
    | policy => rw [hk] at h; exact h.elim

/-- A timer function of a sequencer (0) and of an aligner (1), each of which outputs one message to a cache (2). -/
def timed : Net :=
  { kind := fun f => if f = 0 then .sequencer else if f = 1 then .aligner else .cache,
    callbacks := fun f _ => if f < 2 then [[.deliver 2]] else [] }

example : Does timed [.timer 0] [.acquire (.own 0), .release (.own 0), .acquire (.sig 0 0), .acquire (.own 2), .release (.own 2),
      .acquire (.sig 2 0), .release (.sig 2 0), .release (.sig 0 0)] ∧
    Does timed [.timer 1] [.acquire (.own 1), .acquire (.sig 1 1), .acquire (.own 2), .release (.own 2), .acquire (.sig 2 0),
      .release (.sig 2 0), .release (.sig 1 1), .release (.own 1)] := by
  have hout : Does timed [.deliver 2] [.acquire (.own 2), .release (.own 2), .acquire (.sig 2 0), .release (.sig 2 0)] :=
    .cache rfl (.output (cbs := []) (by simp) .nil .nil)
  refine ⟨.sequencerTimer (count := 1) rfl ?_, ?_⟩
  · exact .output (cbs := [[.deliver 2]]) (by simp [timed]) hout .nil
  · have h1 : Does timed ([1].map (.output 1)) (.acquire (.sig 1 1) :: ([.acquire (.own 2), .release (.own 2), .acquire (.sig 2 0),
        .release (.sig 2 0)] ++ .release (.sig 1 1) :: [])) :=
      .output (cbs := [[.deliver 2]]) (by simp [timed]) hout .nil
    exact .alignerTimer (f := 1) (ks := [1]) rfl h1 .nil

end MF.Lock
