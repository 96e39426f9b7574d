import Verif.Props.PyConstruct
import Verif.Proofs.PyConc
/-
C73, continued: exactly which messages that arrive during the construction of an ApproximateTimeSynchronizer disable it.
-/
namespace MF.Py

variable {n : Nat}

/-- The first searched queue is that of the first other input. -/
theorem searched_head (qs : Fin n → Dict Ev) (i : Fin n) :
    (n = 1 ∧ (List.ofFn qs).take i ++ (List.ofFn qs).drop (i + 1) = []) ∨
    ∃ j : Fin n, j ≠ i ∧ (∀ j', j' ≠ i → j ≤ j') ∧ ∃ l, (List.ofFn qs).take i ++ (List.ofFn qs).drop (i + 1) = qs j :: l := by
  obtain ⟨i, hi⟩ := i
  cases i with
  | zero =>
    by_cases hn : n = 1
    · subst hn
      exact Or.inl ⟨rfl, by simp⟩
    · have h1 : 1 < n := by omega
      refine Or.inr ⟨⟨1, h1⟩, by simp [Fin.ext_iff], ?_, ?_⟩
      · intro j' hj'
        have : j'.val ≠ 0 := fun e => hj' (Fin.ext e)
        show 1 ≤ j'.val
        omega
      · rw [List.take_zero, List.nil_append, List.drop_eq_getElem_cons (by simpa using h1)]
        exact ⟨(List.ofFn qs).drop 2, by simp⟩
  | succ i =>
    have h0 : 0 < n := by omega
    refine Or.inr ⟨⟨0, h0⟩, by simp [Fin.ext_iff], fun j' _ => Nat.zero_le j'.val, ?_⟩
    obtain ⟨n, rfl⟩ : ∃ m, n = m + 1 := ⟨n - 1, by omega⟩
    rw [List.ofFn_succ, List.take_succ_cons]
    exact ⟨_, rfl⟩

theorem approxLoop_size (boom : Nat → Bool) (slop : Int) (i : Fin n) (stamp : Int) (vs : List (List Int)) (s : State n) :
    (approxLoop boom slop i stamp vs s).1.queueSize = s.queueSize := by
  induction vs with
  | nil => rfl
  | cons v vs ih =>
    unfold approxLoop
    dsimp only
    split
    · split
      · split <;> rfl
      · exact ih
    · exact ih

theorem approxAdd_size {boom : Nat → Bool} {slop : Int} {allow : Bool} {s : State n} {i : Fin n} {m : Msg} {r : State n × Bool}
    (h : approxAdd boom slop allow s i m = .ok r) : r.1.queueSize = s.queueSize := by
  unfold approxAdd at h
  dsimp only at h
  split at h
  · cases h; rfl
  · split at h
    · cases h
    · split at h
      · cases h
      · cases h; rfl
      · split at h
        · cases h; rfl
        · cases h
          exact approxLoop_size _ _ _ _ _ _

theorem approxBuild_size {boom : Nat → Bool} {slop : Int} {allow : Bool} {b b' : Build n} {op : BOp n}
    (h : approxBuild boom slop allow b op = .ok b') : b'.s.queueSize = b.s.queueSize := by
  cases op with
  | ctor => cases h; rfl
  | deliver i m =>
    unfold approxBuild at h
    dsimp only at h
    repeat' split at h
    all_goals first
      | (cases h; done)
      | (cases h; rfl)
      | skip
    cases ha : approxAdd boom slop allow b.s i m with
    | error f => rw [ha] at h; cases h
    | ok r => rw [ha] at h; cases h; exact approxAdd_size ha

/-- **C73** (disagreement: exactly which messages do harm).  The constructor has executed everything up to the lock and not yet the
slop, the lock is free, and a message with a header arrives for input `i`: the call raises AttributeError and leaves the lock taken
exactly if there is no other input or the first of the other inputs has a message waiting. -/
theorem C73_window_exact (boom : Nat → Bool) (slop q : Int) (hq : 0 ≤ q) (allow : Bool) (ops : List (BOp n)) (b : Build n)
    (h : runE (approxBuild boom slop allow) (buildStart n q) ops = .ok b) (hk : b.stage = n + 2) (hl : b.s.locked = false)
    (i : Fin n) (m : Msg) (hh : m.header = true) :
    ∃ b', approxBuild boom slop allow b (.deliver i m) = .ok b' ∧
      (b'.s.locked = true ↔ n = 1 ∨ ∃ j : Fin n, j ≠ i ∧ (∀ j', j' ≠ i → j ≤ j') ∧ held b.s j ≠ []) ∧
      (b'.raised = b.raised ++ [(i, m)] ↔ b'.s.locked = true) := by
  have hqs : b.s.queueSize = q := runE_inv (I := fun b : Build n => b.s.queueSize = q)
    (fun b op b' hI hs => by rw [approxBuild_size hs]; exact hI) ops _ _ rfl h
  have hi := i.isLt
  obtain ⟨o, ho⟩ := evict_ok b.s.queueSize (((b.s.queues i).set m.ev.stamp m.ev).length + 1)
    ((b.s.queues i).set m.ev.stamp m.ev) (Nat.lt_succ_self _)
  have hsome : ∃ d', o = some d' := by
    cases o with
    | some d' => exact ⟨d', rfl⟩
    | none =>
      exfalso
      rw [hqs] at ho
      exact evict_not_none hq _ _ ho
  obtain ⟨d', rfl⟩ := hsome
  unfold approxBuild
  dsimp only
  rw [if_neg (by omega), if_neg (by simp [hh]), if_neg (by omega), if_pos (by omega), if_neg (by simp [hl])]
  simp only [ho]
  rcases searched_head (upd b.s.queues i d') i with ⟨hn, hse⟩ | ⟨j, hj, hmin, l, hse⟩
  · rw [hse]
    exact ⟨_, rfl, ⟨fun _ => Or.inl hn, fun _ => rfl⟩, ⟨fun _ => rfl, fun _ => rfl⟩⟩
  · rw [hse, upd_ne _ _ hj]
    have hn1 : n ≠ 1 := by
      intro e
      subst e
      exact hj (Subsingleton.elim _ _)
    cases he : b.s.queues j with
    | nil =>
      refine ⟨_, rfl, ⟨fun hx => ?_, ?_⟩, ⟨fun hx => ?_, fun hx => ?_⟩⟩
      · simp [hl] at hx
      · rintro (e | ⟨j', hj', hmin', hne⟩)
        · exact absurd e hn1
        · exfalso
          have : j' = j := by
            have a1 := hmin j' hj'
            have a2 := hmin' j hj
            omega
          subst this
          apply hne
          unfold held
          rw [he]
          rfl
      · exact absurd hx (by simp)
      · simp [hl] at hx
    | cons x xs =>
      refine ⟨_, rfl, ⟨fun _ => Or.inr ⟨j, hj, hmin, ?_⟩, fun _ => rfl⟩, ⟨fun _ => rfl, fun _ => rfl⟩⟩
      unfold held
      rw [he]
      simp

/-- **C73** (disagreement).  Once the lock has been left taken, every delivery of a message with a header blocks its thread forever,
also after the constructor has come to its end. -/
theorem C73_leaked_lock_blocks (boom : Nat → Bool) (slop : Int) (allow : Bool) (b : Build n) (hk : n + 2 ≤ b.stage)
    (hl : b.s.locked = true) (more : Nat) (i : Fin n) (m : Msg) (hh : m.header = true) :
    runE (approxBuild boom slop allow) b (List.replicate more .ctor ++ [.deliver i m]) = .error .hang := by
  induction more generalizing b with
  | zero =>
    have hi := i.isLt
    simp only [List.replicate_zero, List.nil_append, runE]
    have : approxBuild boom slop allow b (.deliver i m) = .error .hang := by
      unfold approxBuild
      dsimp only
      rw [if_neg (by omega), if_neg (by simp [hh]), if_neg (by omega)]
      by_cases h3 : b.stage < n + 3
      · rw [if_pos h3, if_pos hl]
      · rw [if_neg h3]
        unfold approxAdd
        rw [if_neg (by simp [hh]), if_pos hl]
        rfl
    rw [this]
  | succ more ih =>
    simp only [List.replicate_succ, List.cons_append, runE, approxBuild]
    exact ih { b with stage := b.stage + 1 } (by dsimp only; omega) hl

/-- Both inputs connected, the lock created, one message of the first input waiting: the next message of the second input leaves the
lock taken. -/
example : ∃ b b', runE (approxBuild noRaise 5 false) (buildStart 2 5)
      [.ctor, .ctor, .ctor, .ctor, .deliver 0 ⟨⟨0, 10⟩, true⟩] = .ok b ∧ b.stage = 2 + 2 ∧ b.s.locked = false ∧
    held b.s 0 = [⟨0, 10⟩] ∧ approxBuild noRaise 5 false b (.deliver 1 ⟨⟨1, 10⟩, true⟩) = .ok b' ∧ b'.s.locked = true :=
  ⟨_, _, rfl, rfl, rfl, rfl, rfl, rfl⟩

end MF.Py
