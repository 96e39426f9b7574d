import Verif.Proofs.CacheConc
/-
C54: the Cache under concurrent `add` calls.
-/
namespace MF.Cache

/-- C54: in every schedule the content of the cache is that of a cache to which one thread adds the messages in the order in
which they were inserted; this order contains the messages of each thread, so far, in the order of the thread's calls. -/
theorem C54_content_linearizable (n : Nat) (progs : Nat → List Ev) (schedule : List Nat) (c : Conc)
    (h : cexec n progs schedule = .ok c) :
    (∃ s, run (construct n) (c.inserted.map (fun p => Op.add p.2)) = .ok s ∧ s.items = c.cache.items) ∧
    ∀ t, byThread t c.inserted ++ (c.threads t).todo = progs t := by
  have hi := cinv_exec h
  obtain ⟨s, h1, h2, _⟩ := hi.cache
  exact ⟨⟨s, h1, h2⟩, hi.prog⟩

/-- C54: a cache of positive size never fails in any schedule. -/
theorem C54_no_fault (n : Nat) (hn : 0 < n) (progs : Nat → List Ev) (schedule : List Nat) :
    ∃ c, cexec n progs schedule = .ok c := by
  induction schedule using snoc_induction with
  | h0 => exact ⟨_, rfl⟩
  | hs schedule t ih =>
    obtain ⟨c, hc⟩ := ih
    have hi := cinv_exec hc
    rw [cexec_snoc hc]
    unfold cstep
    split
    · exact ⟨_, rfl⟩
    · split
      · exact ⟨_, rfl⟩
      · rename_i e rest _
        obtain ⟨s, h1, h2, h3⟩ := hi.cache
        have hs := run_inv' (inv_construct hn) h1
        obtain ⟨⟨k, hk, hk'⟩, _⟩ := hs
        have : insertLocked c.cache e = .ok { c.cache with items := insertBack e (c.cache.items.drop (c.cache.items.length + 1 - k)).reverse [] } := by
          unfold insertLocked
          rw [← h3, hk']
          simp only [popLoop_eq k hk]
          rw [← h3, hk']
        rw [this]
        exact ⟨_, rfl⟩

/-- C54: no message is passed on before it has been inserted, nor more often than it was inserted. -/
theorem C54_cached_before_passed_on (n : Nat) (progs : Nat → List Ev) (schedule : List Nat) (c : Conc)
    (h : cexec n progs schedule = .ok c) (e : Ev) : c.cache.out.count e ≤ (c.inserted.map (·.2)).count e := by
  have hi := cinv_exec h
  rw [hi.log]
  exact count_le_of_byThread (fun t => ⟨_, hi.passed t⟩) e

/-- C54: when all threads have finished, every message of every thread has been inserted exactly once and passed on exactly
once, and each thread has passed on its messages in the order of its calls. -/
theorem C54_exactly_once (n W : Nat) (progs : Nat → List Ev) (hW : ∀ t, W ≤ t → progs t = []) (schedule : List Nat) (c : Conc)
    (h : cexec n progs schedule = .ok c) (hf : Finished c) :
    c.cache.out.Perm (allMessages W progs) ∧ (c.inserted.map (·.2)).Perm (allMessages W progs) ∧
    c.cache.out = c.passedOn.map (·.2) ∧ ∀ t, byThread t c.passedOn = progs t := by
  have hi := cinv_exec h
  have h1 : ∀ t, byThread t c.inserted = progs t := by
    intro t
    have := hi.prog t
    rwa [(hf t).1, List.append_nil] at this
  have h2 : ∀ t, byThread t c.passedOn = progs t := by
    intro t
    have := hi.passed t
    rw [(hf t).2] at this
    simpa [h1 t] using this
  obtain ⟨m1, m2⟩ := mem_thread hW hi
  refine ⟨?_, ?_, hi.log, h2⟩
  · rw [hi.log]
    refine (perm_byThread W _ m2).trans ?_
    unfold allMessages
    rw [show (fun t => byThread t c.passedOn) = progs from funext h2]
  · refine (perm_byThread W _ m1).trans ?_
    unfold allMessages
    rw [show (fun t => byThread t c.inserted) = progs from funext h1]

/-- C54: as long as some thread has not finished, it can make a step: the cache never makes a thread wait forever. -/
theorem C54_progress (n : Nat) (hn : 0 < n) (progs : Nat → List Ev) :
    ∀ (schedule : List Nat) (c : Conc), cexec n progs schedule = .ok c → ∀ t,
      ∃ k c', cexec n progs (schedule ++ List.replicate k t) = .ok c' ∧ (c'.threads t).todo = [] ∧
        (c'.threads t).pending = none := by
  intro schedule c hc t
  have key : ∀ (m : Nat) (schedule : List Nat) (c : Conc), cexec n progs schedule = .ok c →
      2 * (c.threads t).todo.length + (c.threads t).pending.toList.length = m →
      ∃ k c', cexec n progs (schedule ++ List.replicate k t) = .ok c' ∧ (c'.threads t).todo = [] ∧
        (c'.threads t).pending = none := by
    intro m
    induction m using Nat.strongRecOn with
    | ind m ih =>
      intro schedule c hc hm
      obtain ⟨c1, hc1⟩ := C54_no_fault n hn progs (schedule ++ [t])
      have hstep : cstep c t = .ok c1 := by
        rwa [cexec_snoc hc] at hc1
      have again : 2 * (c1.threads t).todo.length + (c1.threads t).pending.toList.length < m → _ := fun hlt =>
        ih _ hlt (schedule ++ [t]) c1 hc1 rfl
      have finish : 2 * (c1.threads t).todo.length + (c1.threads t).pending.toList.length < m →
          ∃ k c', cexec n progs (schedule ++ List.replicate k t) = .ok c' ∧ (c'.threads t).todo = [] ∧
            (c'.threads t).pending = none := by
        intro hlt
        obtain ⟨k, c', h1, h2⟩ := again hlt
        refine ⟨k + 1, c', ?_, h2⟩
        rw [List.append_assoc] at h1
        rw [List.replicate_succ]
        exact h1
      unfold cstep at hstep
      split at hstep
      · rename_i e he
        cases hstep
        refine finish ?_
        simp only [setAdder_same]
        rw [he] at hm
        simp at hm ⊢
        omega
      · rename_i he
        split at hstep
        · rename_i ht
          refine ⟨0, c, ?_, ht, he⟩
          simpa using hc
        · rename_i e rest ht
          split at hstep
          · cases hstep
          · cases hstep
            refine finish ?_
            simp only [setAdder_same]
            rw [he, ht] at hm
            simp at hm ⊢
            omega
  exact key _ schedule c hc rfl

/-- Two threads, one message each (stamps 1 and 2). -/
def twoAdders : Nat → List Ev := fun t => if t = 0 then [⟨0, 1⟩] else if t = 1 then [⟨1, 2⟩] else []

/-- C54: the order in which messages are passed on may differ from the order in which they were inserted, and is then not the
temporal order although the messages were inserted in temporal order. -/
theorem C54_order_may_differ :
    ∃ c, cexec 5 twoAdders [0, 1, 1, 0] = .ok c ∧ Finished c ∧ c.inserted.map (·.2) = [⟨0, 1⟩, ⟨1, 2⟩] ∧
      c.cache.out = [⟨1, 2⟩, ⟨0, 1⟩] ∧ c.cache.items = [⟨0, 1⟩, ⟨1, 2⟩] := by
  refine ⟨_, rfl, ?_, rfl, rfl, rfl⟩
  intro t
  by_cases h0 : t = 0
  · subst h0; exact ⟨rfl, rfl⟩
  · by_cases h1 : t = 1
    · subst h1; exact ⟨rfl, rfl⟩
    · simp [setAdder, h0, h1, cstart, twoAdders]

/-- Non-vacuity of `C54_exactly_once`: these programs satisfy its hypotheses with two threads. -/
example : ∀ t, 2 ≤ t → twoAdders t = [] := by
  intro t ht
  have h0 : t ≠ 0 := by omega
  have h1 : t ≠ 1 := by omega
  simp [twoAdders, h0, h1]

end MF.Cache
