import Verif.Proofs.Aligner2
/-
Proofs for C117: how long an InputAligner holds a message.
-/
namespace MF.Aligner

variable {n : Nat}

/-! ### Accepted messages stay until they are output -/

/-- The message is queued for input `i` or has been output by it. -/
def Kept (i : Fin n) (x : Ev) (s : State n) : Prop := x ∈ (s.queues i).items ∨ (i, x) ∈ s.out

theorem kept_of {i : Fin n} {x : Ev} {s s' : State n} (h : Kept i x s) (ho : s'.out = s.out)
    (hq : (s'.queues i).items = (s.queues i).items) : Kept i x s' := by
  unfold Kept at *
  rw [ho, hq]; exact h

theorem iter_kept {i : Fin n} {x : Ev} {s s' : State n} {b : Bool} (h : Iter s s' b) (hk : Kept i x s) : Kept i x s' := by
  cases h with
  | send k e l h hmin =>
    rcases hk with hk | hk
    · by_cases hik : i = k
      · subst hik
        rw [h] at hk
        rcases List.mem_cons.1 hk with hk | hk
        · right; show (i, x) ∈ s.out ++ [(i, e)]
          rw [hk]; simp
        · left
          show x ∈ (upd (stamped s).queues i _ i).items
          rw [upd_same]; exact hk
      · left
        show x ∈ (upd (stamped s).queues k _ i).items
        rw [upd_ne _ _ hik, stamped_items]; exact hk
    · right
      exact List.mem_append_left _ hk
  | timeout k h hmin ht => exact kept_of hk rfl (timedOut_items s k i)
  | stop k h hmin ht => exact kept_of hk rfl (stamped_items s i)
  | empty h => exact kept_of hk rfl (stamped_items s i)

theorem step_kept {i : Fin n} {x : Ev} {fuel : Nat} {s s' : State n} {op : Op n} (h : step fuel s op = .ok s')
    (hk : Kept i x s) : Kept i x s' := by
  cases op with
  | add j e =>
    cases h
    rcases add_eq s j e with ⟨_, h2⟩ | ⟨_, h2⟩ <;> rw [h2]
    · exact kept_of hk rfl (refused_items s j i)
    · rcases hk with hk | hk
      · left
        by_cases hij : i = j
        · subst hij; rw [queued_items_same, insertEv_mem]; exact Or.inr hk
        · rw [queued_ne s j e hij]; exact hk
      · right; exact hk
  | setPeriod j d => cases h; exact kept_of hk rfl (period_items s j i d)
  | dispatch => exact dispatch_ind (fun _ _ _ a b => iter_kept a b) h hk

theorem runE_kept {i : Fin n} {x : Ev} {fuel : Nat} (ops : List (Op n)) : ∀ {s s' : State n},
    runE (step fuel) s ops = .ok s' → Kept i x s → Kept i x s' := by
  induction ops using snoc_induction with
  | h0 => intro s s' h hk; cases h; exact hk
  | hs ops op ih =>
    intro s s' h hk
    obtain ⟨s1, h1, h2⟩ := runE_snoc_ok h
    exact step_kept h2 (ih h1 hk)

/-! ### Dispatching again -/

theorem first_twice (q : Queue) : q.firstTimeStamp.1.firstTimeStamp = (q.firstTimeStamp.1, q.firstTimeStamp.2) := by
  cases hq : q.items with
  | nil =>
    have h := first_nil hq
    rw [h]
    exact Prod.ext h rfl
  | cons e l => simp [Queue.firstTimeStamp, hq]

theorem stamped_twice (s : State n) : stamped (stamped s) = stamped s := by
  unfold stamped
  simp only [first_twice]

theorem dispatchFirst_stamped (s : State n) : dispatchFirst (stamped s) = dispatchFirst s := by
  unfold dispatchFirst
  rw [stamped_twice]
  have : (fun i => ((stamped s).queues i).firstTimeStamp.2) = fun i => (s.queues i).firstTimeStamp.2 := by
    funext i
    show (s.queues i).firstTimeStamp.1.firstTimeStamp.2 = _
    rw [first_twice]
  simp only [this]

theorem dispatchFirst_stop {s s' : State n} (h : dispatchFirst s = .ok (s', false)) : s' = stamped s := by
  obtain ⟨s1, b, h1, h2⟩ := dispatchFirst_spec s
  rw [h] at h1
  injection h1 with h1
  injection h1 with h1 hb
  subst h1
  generalize hg : b = b' at h2
  cases h2 with
  | send => rw [← hb] at hg; cases hg
  | timeout => rw [← hb] at hg; cases hg
  | stop => rfl
  | empty => rfl

theorem loop_settled (fuel : Nat) : ∀ {s s' : State n}, dispatchLoop fuel s = .ok s' → dispatchFirst s' = .ok (s', false) := by
  induction fuel with
  | zero => intro s s' h; cases h
  | succ fuel ih =>
    intro s s' h
    unfold dispatchLoop at h
    obtain ⟨s1, b, h1, h2⟩ := dispatchFirst_spec s
    rw [h1] at h
    cases b with
    | true => exact ih h
    | false =>
      injection h with h
      subst h
      have := dispatchFirst_stop h1
      rw [this, dispatchFirst_stamped, h1, this]

theorem dispatch_settled {fuel fuel' : Nat} {s s' : State n} (h : dispatch fuel s = .ok s') (hf : 0 < fuel') :
    dispatch fuel' s' = .ok s' := by
  unfold dispatch at h ⊢
  obtain ⟨f, rfl⟩ : ∃ f, fuel' = f + 1 := ⟨fuel' - 1, by omega⟩
  by_cases ha : inputsAvailable s = true
  · rw [if_pos ha] at h
    split
    · unfold dispatchLoop
      rw [loop_settled fuel h]
    · rfl
  · rw [if_neg ha] at h
    injection h with h
    subst h
    rw [if_neg ha]

/-! ### Spaced queues -/

theorem spaced_of_perm {d : Int} {a b : List Ev} (hp : a.Perm b) (hb : b.Pairwise (fun x y => x.stamp + d ≤ y.stamp ∨ y.stamp + d ≤ x.stamp))
    (hd : 0 < d) (hs : TimeSorted a) : Spaced d a := by
  have ha : a.Pairwise (fun x y => x.stamp + d ≤ y.stamp ∨ y.stamp + d ≤ x.stamp) :=
    (hp.pairwise_iff (by intro x y h; exact h.symm)).2 hb
  unfold Spaced
  refine List.Pairwise.imp ?_ (List.pairwise_and_iff.2 ⟨ha, hs⟩)
  intro x y ⟨h1, h2⟩
  omega

theorem spaced_span {d : Int} : ∀ (l : List Ev) (e : Ev), Spaced d (e :: l) →
    ∃ x ∈ e :: l, e.stamp + l.length * d ≤ x.stamp := by
  intro l
  induction l with
  | nil => intro e _; exact ⟨e, by simp, by simp⟩
  | cons y l ih =>
    intro e h
    unfold Spaced at h
    have h2 := List.pairwise_cons.1 h
    obtain ⟨x, hx, hle⟩ := ih y h2.2
    refine ⟨x, List.mem_cons_of_mem _ hx, ?_⟩
    have := h2.1 y (by simp)
    rw [List.length_cons]
    push_cast
    rw [Int.add_mul]
    omega

end MF.Aligner
