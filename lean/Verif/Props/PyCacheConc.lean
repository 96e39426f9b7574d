import Verif.Proofs.PyCacheConc
/-
Properties of the Python Cache with several threads.
-/
namespace MF.PyCache

variable {W : Nat}

/-- **C71**.  No schedule makes `add` raise an IndexError. -/
theorem C71_no_fault (W : Nat) (k : Int) (progs : Fin W → List (Msg × PTime)) (schedule : List (Fin W)) :
    ∃ c, cexec W k progs schedule = .ok c := by
  obtain ⟨c, _, _, h, _⟩ := cinv_exec W k progs schedule
  exact ⟨c, h⟩

theorem cinv_of {k : Int} {progs : Fin W → List (Msg × PTime)} {schedule : List (Fin W)} {c : Conc W}
    (h : cexec W k progs schedule = .ok c) : ∃ d d', CInv k progs c d d' := by
  obtain ⟨c', d, d', h1, h2⟩ := cinv_exec W k progs schedule
  rw [h] at h1
  cases h1
  exact ⟨d, d', h2⟩

/-- **C71**.  Whenever no thread is inside `add`: as many times as messages are held, at most `cache_size`, and both lists hold
the ones appended last to them, in the order in which they were appended. -/
theorem C71_held_when_idle (k : Int) (progs : Fin W → List (Msg × PTime)) (schedule : List (Fin W)) (c : Conc W)
    (h : cexec W k progs schedule = .ok c) (hi : Idle c) :
    c.cache.times.length = c.cache.msgs.length ∧ c.cache.msgs.length ≤ k.toNat ∧
    c.cache.msgs = c.inserted.drop (c.inserted.length - c.cache.msgs.length) ∧
    c.cache.times = c.insertedTimes.drop (c.insertedTimes.length - c.cache.times.length) := by
  obtain ⟨d, d', hinv⟩ := cinv_of h
  have h1 : tot (fun u => isTimed (c.threads u)) = 0 := tot_zero isTimed _ (fun u => by simp [isTimed, hi u])
  have h2 : tot (fun u => isAppended (c.threads u)) = 0 := tot_zero isAppended _ (fun u => by simp [isAppended, hi u])
  have h3 : tot (fun u => isFull (c.threads u)) = 0 := tot_zero isFull _ (fun u => by simp [isFull, hi u])
  have h4 : tot (fun u => isHalf (c.threads u)) = 0 := tot_zero isHalf _ (fun u => by simp [isHalf, hi u])
  have e1 := hinv.lens
  have e2 := hinv.bound
  rw [h1, h4] at e1
  rw [h2, h3] at e2
  refine ⟨e1, by omega, ?_, ?_⟩
  · have := hinv.held
    have hl : c.cache.msgs.length = c.inserted.length - d := by rw [this, List.length_drop]
    have := hinv.heldLen
    have : c.inserted.length - c.cache.msgs.length = d := by omega
    rw [this]; exact hinv.held
  · have := hinv.heldTimes
    have hl : c.cache.times.length = c.insertedTimes.length - d' := by rw [this, List.length_drop]
    have := hinv.heldTimesLen
    have : c.insertedTimes.length - c.cache.times.length = d' := by omega
    rw [this]; exact hinv.heldTimes

/-- **C71**.  How many messages can be evicted too many: whenever no thread is inside `add`, either nothing was ever evicted or
at least `cache_size + 1 - W` messages are held, where `W` is the number of threads. -/
theorem C71_eviction_bound (k : Int) (progs : Fin W → List (Msg × PTime)) (schedule : List (Fin W)) (c : Conc W)
    (h : cexec W k progs schedule = .ok c) (hi : Idle c) :
    c.cache.msgs = c.inserted ∨ k + 1 - W ≤ c.cache.msgs.length := by
  obtain ⟨d, d', hinv⟩ := cinv_of h
  rcases hinv.floor with ⟨h1, _⟩ | h1
  · left; rw [hinv.held, h1]; rfl
  · right; omega

/-- **C71**.  When all threads have finished, every thread has passed on each of its messages exactly once, in the order of its
calls; nothing else was passed on. -/
theorem C71_passed_on (k : Int) (progs : Fin W → List (Msg × PTime)) (schedule : List (Fin W)) (c : Conc W)
    (h : cexec W k progs schedule = .ok c) (hf : Finished c) :
    c.cache.out = c.passedOn.map (·.2) ∧ ∀ t, byThread t c.passedOn = (progs t).map (·.1) := by
  obtain ⟨d, d', hinv⟩ := cinv_of h
  refine ⟨hinv.log, fun t => ?_⟩
  have := hinv.prog t
  rw [(hf t).2] at this
  simpa [current, (hf t).1] using this

/-- **C71** (partial: calls of `add` that do not overlap).  A thread that makes all steps of one call without interruption
changes the cache as the sequential `add` does (line 141-150). -/
theorem C71_uninterrupted_partial (c : Conc W) (t : Fin W) (m : Msg) (ts : PTime) (rest : List (Msg × PTime))
    (hpc : c.threads t = ⟨(m, ts) :: rest, .idle⟩) :
    ∃ j c', runE cstep c (List.replicate j t) = .ok c' ∧ c'.cache = store c.cache m ts ∧ c'.threads t = ⟨rest, .idle⟩ ∧
      ∀ u, u ≠ t → c'.threads u = c.threads u := by
  have hupd : ∀ (f : Fin W → Thr) (a b : Thr), upd (upd f t a) t b = upd f t b := by
    intro f a b
    funext u
    by_cases hu : u = t
    · subst hu; rw [upd_same, upd_same]
    · rw [upd_ne _ _ hu, upd_ne _ _ hu, upd_ne _ _ hu]
  by_cases hfull : ((c.cache.msgs.length : Int) + 1 > c.cache.cacheSize)
  · refine ⟨6, ?_⟩
    have he1 : (c.cache.msgs ++ [m]).isEmpty = false := by simp
    have he2 : (c.cache.times ++ [ts]).isEmpty = false := by simp
    have h1 : ((c.cache.msgs ++ [m]).length : Int) > c.cache.cacheSize := by simpa using hfull
    simp only [List.replicate, runE, cstep, hpc, upd_same, h1, ↓reduceIte, he1, he2, Bool.false_eq_true, hupd]
    refine ⟨_, rfl, ?_, ?_, ?_⟩
    · simp only [store, h1, ↓reduceIte]
    · exact upd_same _ _ _
    · intro u hu
      exact upd_ne _ _ hu
  · refine ⟨4, ?_⟩
    have h1 : ¬ (((c.cache.msgs ++ [m]).length : Int) > c.cache.cacheSize) := by simpa using hfull
    simp only [List.replicate, runE, cstep, hpc, upd_same, h1, ↓reduceIte, hupd]
    refine ⟨_, rfl, ?_, ?_, ?_⟩
    · simp only [store, h1, ↓reduceIte]
    · exact upd_same _ _ _
    · intro u hu
      exact upd_ne _ _ hu

example : ∃ c, cexec 2 5 (fun t => if t = 0 then [(⟨0, none⟩, ⟨.ros, 1⟩)] else []) [] = .ok c ∧
    c.threads 0 = ⟨[(⟨0, none⟩, ⟨.ros, 1⟩)], .idle⟩ := ⟨_, rfl, rfl⟩

/-- Two threads, each about to add one message. -/
def twoAdders : Fin 2 → List (Msg × PTime) := fun t =>
  if t = 0 then [(⟨0, some ⟨.ros, 10⟩⟩, ⟨.ros, 10⟩)] else [(⟨1, some ⟨.ros, 20⟩⟩, ⟨.ros, 20⟩)]

/-- **C71** (disagreement).  Two overlapping calls of `add` can give each message the time of the other, for as long as they stay
in the cache: no thread is inside `add`, and asked for a message at or after time 15 the cache returns the one stamped 10. -/
theorem C71_pairing_violated : ∃ c, cexec 2 5 twoAdders [0, 1, 1, 0, 0, 0, 1, 1] = .ok c ∧ Finished c ∧
    getElemAfterTime c.cache ⟨.ros, 15⟩ = .ok (some ⟨0, some ⟨.ros, 10⟩⟩) ∧
    getElemBeforeTime c.cache ⟨.ros, 15⟩ = .ok (some ⟨1, some ⟨.ros, 20⟩⟩) := by
  refine ⟨_, rfl, ?_, rfl, rfl⟩
  intro t
  match t with
  | 0 => exact ⟨rfl, rfl⟩
  | 1 => exact ⟨rfl, rfl⟩

/-- **C71** (disagreement).  Two overlapping calls of `add` can empty a cache of size 1: neither of the two messages is held. -/
theorem C71_over_eviction_violated : ∃ c, cexec 2 1 twoAdders [0, 0, 1, 1, 0, 1, 0, 1, 0, 1, 0, 1] = .ok c ∧ Finished c ∧
    c.cache.msgs = [] ∧ c.cache.out.length = 2 := by
  refine ⟨_, rfl, ?_, rfl, rfl⟩
  intro t
  match t with
  | 0 => exact ⟨rfl, rfl⟩
  | 1 => exact ⟨rfl, rfl⟩

end MF.PyCache
