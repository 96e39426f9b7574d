import Verif.Spec.PyCacheConc
import Verif.Proofs.PyCache
import Verif.Proofs.Basic
namespace MF.PyCache

variable {W : Nat}

/-- Sum over the threads. -/
def tot (f : Fin W → Nat) : Nat := ((List.finRange W).map f).sum

theorem sum_upd {α : Type} (g : α → Nat) (th : Fin W → α) (t : Fin W) (a : α) :
    ∀ l : List (Fin W), l.Nodup → t ∈ l →
      (l.map (fun u => g (upd th t a u))).sum + g (th t) = (l.map (fun u => g (th u))).sum + g a := by
  intro l
  induction l with
  | nil => intro _ h; cases h
  | cons x l ih =>
    intro hn ht
    rw [List.nodup_cons] at hn
    simp only [List.map_cons, List.sum_cons]
    by_cases hx : x = t
    · subst hx
      have : l.map (fun u => g (upd th x a u)) = l.map (fun u => g (th u)) :=
        List.map_congr_left (fun u hu => by
          rw [upd_ne]
          rintro rfl
          exact hn.1 hu)
      rw [this, upd_same]
      omega
    · have h1 : t ∈ l := by
        rcases List.mem_cons.mp ht with h | h
        · exact absurd h.symm hx
        · exact h
      have := ih hn.2 h1
      rw [upd_ne _ _ hx]
      omega

theorem tot_upd {α : Type} (g : α → Nat) (th : Fin W → α) (t : Fin W) (a : α) :
    tot (fun u => g (upd th t a u)) + g (th t) = tot (fun u => g (th u)) + g a :=
  sum_upd g th t a _ (List.nodup_finRange W) (List.mem_finRange t)

theorem tot_ge {α : Type} (g : α → Nat) (th : Fin W → α) (t : Fin W) : g (th t) ≤ tot (fun u => g (th u)) := by
  unfold tot
  have : ∀ l : List (Fin W), t ∈ l → g (th t) ≤ (l.map (fun u => g (th u))).sum := by
    intro l
    induction l with
    | nil => intro h; cases h
    | cons x l ih =>
      intro h
      simp only [List.map_cons, List.sum_cons]
      rcases List.mem_cons.mp h with rfl | h
      · omega
      · have := ih h; omega
  exact this _ (List.mem_finRange t)

theorem tot_le {α : Type} (g : α → Nat) (hg : ∀ a, g a ≤ 1) (th : Fin W → α) : tot (fun u => g (th u)) ≤ W := by
  unfold tot
  have : ∀ l : List (Fin W), (l.map (fun u => g (th u))).sum ≤ l.length := by
    intro l
    induction l with
    | nil => simp
    | cons x l ih =>
      simp only [List.map_cons, List.sum_cons, List.length_cons]
      have := hg (th x)
      omega
  have := this (List.finRange W)
  simpa using this

theorem tot_zero {α : Type} (g : α → Nat) (th : Fin W → α) (h : ∀ u, g (th u) = 0) : tot (fun u => g (th u)) = 0 := by
  unfold tot
  induction List.finRange W with
  | nil => rfl
  | cons x l ih => rw [List.map_cons, List.sum_cons, h, ih]

def isTimed (a : Thr) : Nat := match a.pc with | .timed _ => 1 | _ => 0
def isAppended (a : Thr) : Nat := match a.pc with | .appended _ => 1 | _ => 0
def isFull (a : Thr) : Nat := match a.pc with | .full _ => 1 | _ => 0
def isHalf (a : Thr) : Nat := match a.pc with | .halfDeleted _ => 1 | _ => 0

/-- The message a thread is busy with. -/
def current (a : Thr) : List Msg :=
  match a.pc with
  | .idle => []
  | .timed m | .appended m | .full m | .halfDeleted m | .signal m => [m]

structure CInv (k : Int) (progs : Fin W → List (Msg × PTime)) (c : Conc W) (d d' : Nat) : Prop where
  size : c.cache.cacheSize = k
  lens : c.cache.times.length =
    c.cache.msgs.length + tot (fun u => isTimed (c.threads u)) + tot (fun u => isHalf (c.threads u))
  own : tot (fun u => isAppended (c.threads u)) + tot (fun u => isFull (c.threads u)) ≤ c.cache.msgs.length
  bound : (c.cache.msgs.length : Int) ≤
    (k.toNat : Int) + tot (fun u => isAppended (c.threads u)) + tot (fun u => isFull (c.threads u))
  floor : (d = 0 ∧ tot (fun u => isFull (c.threads u)) = 0) ∨
    (k + 1 - W + tot (fun u => isFull (c.threads u)) ≤ c.cache.msgs.length)
  held : c.cache.msgs = c.inserted.drop d
  heldLen : d ≤ c.inserted.length
  heldTimes : c.cache.times = c.insertedTimes.drop d'
  heldTimesLen : d' ≤ c.insertedTimes.length
  ins : c.insertedTimes.length = c.inserted.length + tot (fun u => isTimed (c.threads u))
  log : c.cache.out = c.passedOn.map (·.2)
  prog : ∀ t, byThread t c.passedOn ++ current (c.threads t) ++ ((c.threads t).todo.map (·.1)) = (progs t).map (·.1)

theorem byThread_snoc (t u : Fin W) (log : List (Fin W × Msg)) (m : Msg) :
    byThread t (log ++ [(u, m)]) = byThread t log ++ (if u = t then [m] else []) := by
  unfold byThread
  rw [List.filter_append, List.map_append]
  congr 1
  by_cases h : u = t <;> simp [h]

theorem cinv_start (W : Nat) (k : Int) (progs : Fin W → List (Msg × PTime)) : CInv k progs (cstart W k progs) 0 0 := by
  have h1 : tot (fun u => isTimed ((cstart W k progs).threads u)) = 0 := tot_zero isTimed _ (fun u => rfl)
  have h2 : tot (fun u => isAppended ((cstart W k progs).threads u)) = 0 := tot_zero isAppended _ (fun u => rfl)
  have h3 : tot (fun u => isFull ((cstart W k progs).threads u)) = 0 := tot_zero isFull _ (fun u => rfl)
  have h4 : tot (fun u => isHalf ((cstart W k progs).threads u)) = 0 := tot_zero isHalf _ (fun u => rfl)
  refine ⟨rfl, ?_, ?_, ?_, Or.inl ⟨rfl, h3⟩, rfl, by simp, rfl, by simp, ?_, rfl, fun t => ?_⟩
  · rw [h1, h4]; rfl
  · rw [h2, h3]; exact Nat.le_refl _
  · rw [h2, h3]; simp [cstart, construct]; omega
  · rw [h1]; rfl
  · simp [cstart, byThread, current]

theorem cinv_step {k : Int} {progs : Fin W → List (Msg × PTime)} {c : Conc W} {d d' : Nat} (h : CInv k progs c d d') (t : Fin W) :
    ∃ c' d1 d2, cstep c t = .ok c' ∧ CInv k progs c' d1 d2 := by
  obtain ⟨hsize, hlens, hown, hbound, hfloor, hheld, hheldLen, hheldTimes, hheldTimesLen, hins, hlog, hprog⟩ := h
  have hp := hprog t
  have hprog' : ∀ (a : Thr) (po : List (Fin W × Msg)), (∀ u, u ≠ t → byThread u po = byThread u c.passedOn) →
      byThread t po ++ current a ++ (a.todo.map (·.1)) = (progs t).map (·.1) →
      ∀ u, byThread u po ++ current (upd c.threads t a u) ++ ((upd c.threads t a u).todo.map (·.1)) = (progs u).map (·.1) := by
    intro a po h1 h2 u
    by_cases hu : u = t
    · subst hu; rw [upd_same]; exact h2
    · rw [upd_ne _ _ hu, h1 u hu]; exact hprog u
  have u1 := fun a => tot_upd isTimed c.threads t a
  have u2 := fun a => tot_upd isAppended c.threads t a
  have u3 := fun a => tot_upd isFull c.threads t a
  have u4 := fun a => tot_upd isHalf c.threads t a
  have g3 := tot_ge isFull c.threads t
  have g4 := tot_ge isHalf c.threads t
  have l3 := fun a => tot_le isFull (fun a => by unfold isFull; split <;> omega) (upd c.threads t a)
  unfold cstep
  dsimp only
  cases hpc : (c.threads t).pc with
  | idle =>
    have a1 : isTimed (c.threads t) = 0 := by simp [isTimed, hpc]
    have a2 : isAppended (c.threads t) = 0 := by simp [isAppended, hpc]
    have a3 : isFull (c.threads t) = 0 := by simp [isFull, hpc]
    have a4 : isHalf (c.threads t) = 0 := by simp [isHalf, hpc]
    simp only
    cases htodo : (c.threads t).todo with
    | nil => exact ⟨c, d, d', rfl, ⟨hsize, hlens, hown, hbound, hfloor, hheld, hheldLen, hheldTimes, hheldTimesLen, hins, hlog, hprog⟩⟩
    | cons x rest =>
      obtain ⟨m, ts⟩ := x
      have v1 := u1 ⟨rest, .timed m⟩; have v2 := u2 ⟨rest, .timed m⟩; have v3 := u3 ⟨rest, .timed m⟩; have v4 := u4 ⟨rest, .timed m⟩
      have b1 : isTimed ⟨rest, .timed m⟩ = 1 := rfl
      have b2 : isAppended ⟨rest, .timed m⟩ = 0 := rfl
      have b3 : isFull ⟨rest, .timed m⟩ = 0 := rfl
      have b4 : isHalf ⟨rest, .timed m⟩ = 0 := rfl
      refine ⟨_, d, d', rfl, ⟨hsize, ?_, ?_, ?_, ?_, hheld, hheldLen, ?_, ?_, ?_, hlog, ?_⟩⟩
      · simp only [List.length_append, List.length_singleton]; omega
      · simp only; omega
      · simp only; omega
      · simp only
        rcases hfloor with ⟨h1, h2⟩ | h1
        · left; exact ⟨h1, by omega⟩
        · right; omega
      · simp only; rw [hheldTimes, List.drop_append_of_le_length hheldTimesLen]
      · simp only [List.length_append]; omega
      · simp only [List.length_append, List.length_singleton]; omega
      · refine hprog' _ _ (fun _ _ => rfl) ?_
        simpa [current, hpc, htodo] using hp
  | timed m =>
    have a1 : isTimed (c.threads t) = 1 := by simp [isTimed, hpc]
    have a2 : isAppended (c.threads t) = 0 := by simp [isAppended, hpc]
    have a3 : isFull (c.threads t) = 0 := by simp [isFull, hpc]
    have a4 : isHalf (c.threads t) = 0 := by simp [isHalf, hpc]
    have v1 := u1 ⟨(c.threads t).todo, .appended m⟩; have v2 := u2 ⟨(c.threads t).todo, .appended m⟩
    have v3 := u3 ⟨(c.threads t).todo, .appended m⟩; have v4 := u4 ⟨(c.threads t).todo, .appended m⟩
    have b1 : isTimed ⟨(c.threads t).todo, .appended m⟩ = 0 := rfl
    have b2 : isAppended ⟨(c.threads t).todo, .appended m⟩ = 1 := rfl
    have b3 : isFull ⟨(c.threads t).todo, .appended m⟩ = 0 := rfl
    have b4 : isHalf ⟨(c.threads t).todo, .appended m⟩ = 0 := rfl
    refine ⟨_, d, d', rfl, ⟨hsize, ?_, ?_, ?_, ?_, ?_, ?_, hheldTimes, hheldTimesLen, ?_, hlog, ?_⟩⟩
    · simp only [List.length_append, List.length_singleton]; omega
    · simp only [List.length_append, List.length_singleton]; omega
    · simp only [List.length_append, List.length_singleton]; omega
    · simp only [List.length_append, List.length_singleton]
      rcases hfloor with ⟨h1, h2⟩ | h1
      · left; exact ⟨h1, by omega⟩
      · right; omega
    · simp only; rw [hheld, List.drop_append_of_le_length hheldLen]
    · simp only [List.length_append]; omega
    · simp only [List.length_append, List.length_singleton]; omega
    · refine hprog' _ _ (fun _ _ => rfl) ?_
      simpa [current, hpc] using hp
  | appended m =>
    have a1 : isTimed (c.threads t) = 0 := by simp [isTimed, hpc]
    have a2 : isAppended (c.threads t) = 1 := by simp [isAppended, hpc]
    have a3 : isFull (c.threads t) = 0 := by simp [isFull, hpc]
    have a4 : isHalf (c.threads t) = 0 := by simp [isHalf, hpc]
    simp only
    by_cases hlen : (c.cache.msgs.length : Int) > c.cache.cacheSize
    · rw [if_pos hlen]
      have v1 := u1 ⟨(c.threads t).todo, .full m⟩; have v2 := u2 ⟨(c.threads t).todo, .full m⟩
      have v3 := u3 ⟨(c.threads t).todo, .full m⟩; have v4 := u4 ⟨(c.threads t).todo, .full m⟩
      have b1 : isTimed ⟨(c.threads t).todo, .full m⟩ = 0 := rfl
      have b2 : isAppended ⟨(c.threads t).todo, .full m⟩ = 0 := rfl
      have b3 : isFull ⟨(c.threads t).todo, .full m⟩ = 1 := rfl
      have b4 : isHalf ⟨(c.threads t).todo, .full m⟩ = 0 := rfl
      have l3' := l3 ⟨(c.threads t).todo, .full m⟩
      refine ⟨_, d, d', rfl, ⟨hsize, ?_, ?_, ?_, ?_, hheld, hheldLen, hheldTimes, hheldTimesLen, ?_, hlog, ?_⟩⟩
      · simp only; omega
      · simp only; omega
      · simp only; omega
      · simp only
        right
        rw [hsize] at hlen
        omega
      · simp only; omega
      · refine hprog' _ _ (fun _ _ => rfl) ?_
        simpa [current, hpc] using hp
    · rw [if_neg hlen]
      have v1 := u1 ⟨(c.threads t).todo, .signal m⟩; have v2 := u2 ⟨(c.threads t).todo, .signal m⟩
      have v3 := u3 ⟨(c.threads t).todo, .signal m⟩; have v4 := u4 ⟨(c.threads t).todo, .signal m⟩
      have b1 : isTimed ⟨(c.threads t).todo, .signal m⟩ = 0 := rfl
      have b2 : isAppended ⟨(c.threads t).todo, .signal m⟩ = 0 := rfl
      have b3 : isFull ⟨(c.threads t).todo, .signal m⟩ = 0 := rfl
      have b4 : isHalf ⟨(c.threads t).todo, .signal m⟩ = 0 := rfl
      refine ⟨_, d, d', rfl, ⟨hsize, ?_, ?_, ?_, ?_, hheld, hheldLen, hheldTimes, hheldTimesLen, ?_, hlog, ?_⟩⟩
      · simp only; omega
      · simp only; omega
      · simp only; rw [hsize] at hlen; omega
      · simp only
        rcases hfloor with ⟨h1, h2⟩ | h1
        · left; exact ⟨h1, by omega⟩
        · right; omega
      · simp only; omega
      · refine hprog' _ _ (fun _ _ => rfl) ?_
        simpa [current, hpc] using hp
  | full m =>
    have a1 : isTimed (c.threads t) = 0 := by simp [isTimed, hpc]
    have a2 : isAppended (c.threads t) = 0 := by simp [isAppended, hpc]
    have a3 : isFull (c.threads t) = 1 := by simp [isFull, hpc]
    have a4 : isHalf (c.threads t) = 0 := by simp [isHalf, hpc]
    have hne : c.cache.msgs ≠ [] := by
      intro h0
      rw [h0] at hown
      simp at hown
      omega
    have hlt : d < c.inserted.length := by
      have := List.length_pos_iff.mpr hne
      rw [hheld, List.length_drop] at this
      omega
    simp only
    rw [if_neg (by simpa using hne)]
    have v1 := u1 ⟨(c.threads t).todo, .halfDeleted m⟩; have v2 := u2 ⟨(c.threads t).todo, .halfDeleted m⟩
    have v3 := u3 ⟨(c.threads t).todo, .halfDeleted m⟩; have v4 := u4 ⟨(c.threads t).todo, .halfDeleted m⟩
    have b1 : isTimed ⟨(c.threads t).todo, .halfDeleted m⟩ = 0 := rfl
    have b2 : isAppended ⟨(c.threads t).todo, .halfDeleted m⟩ = 0 := rfl
    have b3 : isFull ⟨(c.threads t).todo, .halfDeleted m⟩ = 0 := rfl
    have b4 : isHalf ⟨(c.threads t).todo, .halfDeleted m⟩ = 1 := rfl
    have hpos := List.length_pos_iff.mpr hne
    refine ⟨_, d + 1, d', rfl, ⟨hsize, ?_, ?_, ?_, ?_, ?_, ?_, hheldTimes, hheldTimesLen, ?_, hlog, ?_⟩⟩
    · simp only [List.length_tail]; omega
    · simp only [List.length_tail]; omega
    · simp only [List.length_tail]; omega
    · simp only [List.length_tail]
      rcases hfloor with ⟨h1, h2⟩ | h1
      · omega
      · right; omega
    · simp only; rw [hheld, List.tail_drop]
    · simp only; omega
    · simp only; omega
    · refine hprog' _ _ (fun _ _ => rfl) ?_
      simpa [current, hpc] using hp
  | halfDeleted m =>
    have a1 : isTimed (c.threads t) = 0 := by simp [isTimed, hpc]
    have a2 : isAppended (c.threads t) = 0 := by simp [isAppended, hpc]
    have a3 : isFull (c.threads t) = 0 := by simp [isFull, hpc]
    have a4 : isHalf (c.threads t) = 1 := by simp [isHalf, hpc]
    have hne : c.cache.times ≠ [] := by
      intro h0
      rw [h0] at hlens
      simp at hlens
      omega
    have hlt : d' < c.insertedTimes.length := by
      have := List.length_pos_iff.mpr hne
      rw [hheldTimes, List.length_drop] at this
      omega
    simp only
    rw [if_neg (by simpa using hne)]
    have v1 := u1 ⟨(c.threads t).todo, .signal m⟩; have v2 := u2 ⟨(c.threads t).todo, .signal m⟩
    have v3 := u3 ⟨(c.threads t).todo, .signal m⟩; have v4 := u4 ⟨(c.threads t).todo, .signal m⟩
    have b1 : isTimed ⟨(c.threads t).todo, .signal m⟩ = 0 := rfl
    have b2 : isAppended ⟨(c.threads t).todo, .signal m⟩ = 0 := rfl
    have b3 : isFull ⟨(c.threads t).todo, .signal m⟩ = 0 := rfl
    have b4 : isHalf ⟨(c.threads t).todo, .signal m⟩ = 0 := rfl
    have hpos := List.length_pos_iff.mpr hne
    refine ⟨_, d, d' + 1, rfl, ⟨hsize, ?_, ?_, ?_, ?_, hheld, hheldLen, ?_, ?_, ?_, hlog, ?_⟩⟩
    · simp only [List.length_tail]; omega
    · simp only; omega
    · simp only; omega
    · simp only
      rcases hfloor with ⟨h1, h2⟩ | h1
      · left; exact ⟨h1, by omega⟩
      · right; omega
    · simp only; rw [hheldTimes, List.tail_drop]
    · simp only; omega
    · simp only; omega
    · refine hprog' _ _ (fun _ _ => rfl) ?_
      simpa [current, hpc] using hp
  | signal m =>
    have a1 : isTimed (c.threads t) = 0 := by simp [isTimed, hpc]
    have a2 : isAppended (c.threads t) = 0 := by simp [isAppended, hpc]
    have a3 : isFull (c.threads t) = 0 := by simp [isFull, hpc]
    have a4 : isHalf (c.threads t) = 0 := by simp [isHalf, hpc]
    have v1 := u1 ⟨(c.threads t).todo, .idle⟩; have v2 := u2 ⟨(c.threads t).todo, .idle⟩
    have v3 := u3 ⟨(c.threads t).todo, .idle⟩; have v4 := u4 ⟨(c.threads t).todo, .idle⟩
    have b1 : isTimed ⟨(c.threads t).todo, .idle⟩ = 0 := rfl
    have b2 : isAppended ⟨(c.threads t).todo, .idle⟩ = 0 := rfl
    have b3 : isFull ⟨(c.threads t).todo, .idle⟩ = 0 := rfl
    have b4 : isHalf ⟨(c.threads t).todo, .idle⟩ = 0 := rfl
    refine ⟨_, d, d', rfl, ⟨hsize, ?_, ?_, ?_, ?_, hheld, hheldLen, hheldTimes, hheldTimesLen, ?_, ?_, ?_⟩⟩
    · simp only; omega
    · simp only; omega
    · simp only; omega
    · simp only
      rcases hfloor with ⟨h1, h2⟩ | h1
      · left; exact ⟨h1, by omega⟩
      · right; omega
    · simp only; omega
    · simp [hlog]
    · refine hprog' _ _ (fun u hu => ?_) ?_
      · rw [byThread_snoc, if_neg (fun h => hu h.symm)]; simp
      · rw [byThread_snoc, if_pos rfl]
        simpa [current, hpc] using hp

theorem cinv_exec (W : Nat) (k : Int) (progs : Fin W → List (Msg × PTime)) (schedule : List (Fin W)) :
    ∃ c d d', cexec W k progs schedule = .ok c ∧ CInv k progs c d d' := by
  induction schedule using snoc_induction with
  | h0 => exact ⟨_, 0, 0, rfl, cinv_start W k progs⟩
  | hs sch t ih =>
    obtain ⟨c, d, d', h1, h2⟩ := ih
    obtain ⟨c', d1, d2, h3, h4⟩ := cinv_step h2 t
    refine ⟨c', d1, d2, ?_, h4⟩
    unfold cexec at *
    rw [runE_append, h1]
    simp only [runE, h3]

end MF.PyCache
