import Verif.Spec.Deadlock
/-
Threads that take mutexes in increasing order of rank cannot deadlock; the lock operations of an acyclic network are ordered.
-/
namespace MF.Lock

/-- Follow the lock operations of one thread that holds `held` (latest first): every mutex taken must have a higher rank than all
held, mutexes are released in reverse order. -/
def track (r : Mutex → Nat) : List Mutex → List Act → Option (List Mutex)
  | held, [] => some held
  | held, .acquire m :: as => if ∀ x ∈ held, r x < r m then track r (m :: held) as else none
  | [], .release _ :: _ => none
  | m' :: held, .release m :: as => if m = m' then track r held as else none

theorem track_append {r : Mutex → Nat} {held held' : List Mutex} {as bs : List Act} (h : track r held as = some held') :
    track r held (as ++ bs) = track r held' bs := by
  induction as generalizing held with
  | nil => cases h; rfl
  | cons a as ih =>
    cases a with
    | acquire m =>
      simp only [track, List.cons_append] at h ⊢
      split at h
      · rename_i hc; rw [if_pos hc]; exact ih h
      · cases h
    | release m =>
      cases held with
      | nil => cases h
      | cons m' held =>
        simp only [track, List.cons_append] at h ⊢
        split at h
        · rename_i hc; rw [if_pos hc]; exact ih h
        · cases h

theorem track_pair {r : Mutex → Nat} {held : List Mutex} {m : Mutex} {as : List Act} (hm : ∀ x ∈ held, r x < r m) :
    track r held (.acquire m :: .release m :: as) = track r held as := by
  simp only [track]
  rw [if_pos hm]
  simp

theorem track_around {r : Mutex → Nat} {held : List Mutex} {m : Mutex} {as as' : List Act} (hm : ∀ x ∈ held, r x < r m)
    (h : track r (m :: held) as = some (m :: held)) :
    track r held (.acquire m :: (as ++ .release m :: as')) = track r held as' := by
  simp only [track]
  rw [if_pos hm, track_append h]
  simp [track]

/-! ### The machine -/

/-- What is known about a thread and the mutexes it holds. -/
structure ThreadInv (r : Mutex → Nat) (s : State) (t : Nat) (held : List Mutex) : Prop where
  future : track r held (s.todo t) = some []
  holds : ∀ m, m ∈ held ↔ s.holder m = some t
  sorted : held.Pairwise (fun a b => r b < r a)

def Inv (r : Mutex → Nat) (s : State) : Prop := ∀ t, ∃ held, ThreadInv r s t held

theorem inv_start (r : Mutex → Nat) (progs : Nat → List Act) (h : ∀ t, track r [] (progs t) = some []) : Inv r (start progs) :=
  fun t => ⟨[], h t, fun m => by simp [start], List.Pairwise.nil⟩

theorem inv_step {r : Mutex → Nat} {s : State} (h : Inv r s) (t : Nat) : Inv r (step s t) := by
  obtain ⟨held, ht⟩ := h t
  unfold step
  cases htodo : s.todo t with
  | nil => exact h
  | cons a rest =>
    have hf := ht.future
    rw [htodo] at hf
    cases a with
    | acquire m =>
      simp only
      by_cases hm : s.holder m = none
      · rw [if_pos hm]
        simp only [track] at hf
        split at hf
        · rename_i hr
          intro u
          by_cases hu : u = t
          · subst hu
            refine ⟨m :: held, ?_, ?_, List.pairwise_cons.2 ⟨hr, ht.sorted⟩⟩
            · simp only [if_true]; exact hf
            · intro x
              simp only [List.mem_cons]
              by_cases hx : x = m
              · simp [hx]
              · simp [hx, ht.holds x]
          · obtain ⟨hd, hi⟩ := h u
            refine ⟨hd, ?_, ?_, hi.sorted⟩
            · simp only [if_neg hu]; exact hi.future
            · intro x
              by_cases hx : x = m
              · subst hx
                simp only [if_true, Option.some.injEq]
                rw [hi.holds x, hm]
                constructor
                · intro e; cases e
                · intro e; exact absurd e.symm hu
              · simp only [if_neg hx]; exact hi.holds x
        · cases hf
      · rw [if_neg hm]; exact h
    | release m =>
      simp only
      cases hd : held with
      | nil => rw [hd] at hf; cases hf
      | cons m' hd' =>
        rw [hd] at hf
        simp only [track] at hf
        split at hf
        · rename_i hmm
          subst hmm
          have hso := ht.sorted
          rw [hd, List.pairwise_cons] at hso
          have hown : s.holder m = some t := (ht.holds m).1 (by rw [hd]; exact List.mem_cons_self)
          intro u
          by_cases hu : u = t
          · subst hu
            refine ⟨hd', ?_, ?_, hso.2⟩
            · simp only [if_true]; exact hf
            · intro x
              by_cases hx : x = m
              · subst hx
                simp only [hown, and_self, if_true]
                constructor
                · intro hmem; exact absurd (hso.1 x hmem) (by omega)
                · intro e; cases e
              · have := ht.holds x
                rw [hd, List.mem_cons] at this
                simp only [hx, false_or] at this
                simp only [hx, false_and, if_false]; exact this
          · obtain ⟨hd2, hi⟩ := h u
            refine ⟨hd2, ?_, ?_, hi.sorted⟩
            · simp only [if_neg hu]; exact hi.future
            · intro x
              by_cases hx : x = m
              · subst hx
                simp only [hown, and_self, if_true]
                rw [hi.holds x, hown]
                constructor
                · intro e; cases e; exact absurd rfl hu
                · intro e; cases e
              · simp only [hx, false_and, if_false]; exact hi.holds x
        · cases hf

theorem inv_exec {r : Mutex → Nat} {s : State} (h : Inv r s) (schedule : List Nat) : Inv r (exec s schedule) := by
  induction schedule generalizing s with
  | nil => exact h
  | cons t l ih => exact ih (inv_step h t)

/-- Threads from `k` on do nothing. -/
theorem idle_step {k : Nat} {s : State} (h : ∀ t, k ≤ t → s.todo t = []) (t : Nat) : ∀ u, k ≤ u → (step s t).todo u = [] := by
  intro u hu
  unfold step
  cases htodo : s.todo t with
  | nil => exact h u hu
  | cons a rest =>
    have hne : u ≠ t := by intro e; subst e; rw [h u hu] at htodo; cases htodo
    cases a with
    | acquire m =>
      simp only
      split
      · simp only [if_neg hne]; exact h u hu
      · exact h u hu
    | release m => simp only [if_neg hne]; exact h u hu

theorem idle_exec {k : Nat} {s : State} (h : ∀ t, k ≤ t → s.todo t = []) (schedule : List Nat) :
    ∀ u, k ≤ u → (exec s schedule).todo u = [] := by
  induction schedule generalizing s with
  | nil => exact h
  | cons t l ih => exact ih (idle_step h t)

theorem bound_list (r : Mutex → Nat) (l : List Act) : ∃ R, ∀ m, .acquire m ∈ l → r m ≤ R := by
  induction l with
  | nil => exact ⟨0, fun m h => by cases h⟩
  | cons a l ih =>
    obtain ⟨R, hR⟩ := ih
    cases a with
    | acquire m =>
      refine ⟨R + r m, fun x hx => ?_⟩
      rcases List.mem_cons.1 hx with hx | hx
      · cases hx; omega
      · have := hR x hx; omega
    | release m =>
      refine ⟨R, fun x hx => ?_⟩
      rcases List.mem_cons.1 hx with hx | hx
      · cases hx
      · exact hR x hx

theorem bound_threads (r : Mutex → Nat) (s : State) (k : Nat) : ∃ R, ∀ t, t < k → ∀ m, .acquire m ∈ s.todo t → r m ≤ R := by
  induction k with
  | zero => exact ⟨0, fun t ht => by omega⟩
  | succ k ih =>
    obtain ⟨R, hR⟩ := ih
    obtain ⟨R', hR'⟩ := bound_list r (s.todo k)
    refine ⟨R + R', fun t ht m hm => ?_⟩
    by_cases htk : t = k
    · subst htk; have := hR' m hm; omega
    · have := hR t (by omega) m hm; omega

/-- Whoever waits, waits in the end for a thread that can go on. -/
theorem enabled_of_waiting {r : Mutex → Nat} {s : State} (h : Inv r s) {k : Nat} (hk : ∀ t, k ≤ t → s.todo t = []) {R : Nat}
    (hR : ∀ t, t < k → ∀ m, .acquire m ∈ s.todo t → r m ≤ R) (N : Nat) :
    ∀ t m rest, s.todo t = .acquire m :: rest → R < r m + N → ∃ u, Enabled s u := by
  induction N with
  | zero =>
    intro t m rest ht hlt
    have htk : t < k := by
      apply Classical.byContradiction
      intro hn
      rw [hk t (by omega)] at ht; cases ht
    have := hR t htk m (by rw [ht]; exact List.mem_cons_self)
    omega
  | succ N ih =>
    intro t m rest ht hlt
    cases hm : s.holder m with
    | none => exact ⟨t, by rw [ht]; simp, fun ⟨m', rest', e, hh⟩ => by rw [ht] at e; cases e; exact hh hm⟩
    | some u =>
      obtain ⟨held, hi⟩ := h u
      have hmem := (hi.holds m).2 hm
      have hf := hi.future
      cases hu : s.todo u with
      | nil => rw [hu] at hf; simp only [track, Option.some.injEq] at hf; rw [hf] at hmem; cases hmem
      | cons a rest' =>
        cases a with
        | release x => exact ⟨u, by rw [hu]; simp, fun ⟨m', rest'', e, _⟩ => by rw [hu] at e; cases e⟩
        | acquire x =>
          rw [hu] at hf
          simp only [track] at hf
          split at hf
          · rename_i hr
            have := hr m hmem
            exact ih u x rest' hu (by omega)
          · cases hf

theorem progress {r : Mutex → Nat} {s : State} (h : Inv r s) {k : Nat} (hk : ∀ t, k ≤ t → s.todo t = []) (hn : ¬ Finished s) :
    ∃ t, Enabled s t := by
  have : ∃ t, s.todo t ≠ [] := by
    apply Classical.byContradiction
    intro hc
    exact hn (fun t => by
      apply Classical.byContradiction
      intro e
      exact hc ⟨t, e⟩)
  obtain ⟨t, ht⟩ := this
  obtain ⟨R, hR⟩ := bound_threads r s k
  cases htodo : s.todo t with
  | nil => exact absurd htodo ht
  | cons a rest =>
    cases a with
    | release m => exact ⟨t, ht, fun ⟨m', rest', e, _⟩ => by rw [htodo] at e; cases e⟩
    | acquire m => exact enabled_of_waiting h hk hR (R + 1) t m rest htodo (by omega)

/-! ### Fair schedules -/

theorem sum_range_lt (k : Nat) (f g : Nat → Nat) (t : Nat) (ht : t < k) (h : ∀ u, u ≠ t → f u = g u) (hlt : f t < g t) :
    ((List.range k).map f).sum < ((List.range k).map g).sum := by
  induction k with
  | zero => omega
  | succ k ih =>
    rw [List.range_succ, List.map_append, List.map_append, List.sum_append, List.sum_append]
    simp only [List.map_cons, List.map_nil, List.sum_cons, List.sum_nil]
    by_cases htk : t = k
    · subst htk
      have : (List.range t).map f = (List.range t).map g := by
        apply List.map_congr_left
        intro u hu
        rw [List.mem_range] at hu
        exact h u (by omega)
      rw [this]; omega
    · have := ih (by omega)
      rw [h k (fun e => htk e.symm)]; omega

/-- A step changes nothing or does one lock operation. -/
theorem step_work (k : Nat) (s : State) (hk : ∀ t, k ≤ t → s.todo t = []) (t : Nat) :
    step s t = s ∨ work k (step s t) < work k s := by
  unfold step
  cases htodo : s.todo t with
  | nil => exact Or.inl rfl
  | cons a rest =>
    have htk : t < k := by
      apply Classical.byContradiction
      intro hn
      rw [hk t (by omega)] at htodo; cases htodo
    cases a with
    | acquire m =>
      simp only
      split
      · right
        refine sum_range_lt k _ _ t htk ?_ ?_
        · intro u hu; simp only [if_neg hu]
        · simp [htodo]
      · exact Or.inl rfl
    | release m =>
      right
      refine sum_range_lt k _ _ t htk ?_ ?_
      · intro u hu; simp only [if_neg hu]
      · simp [htodo]

theorem enabled_work (k : Nat) (s : State) (hk : ∀ t, k ≤ t → s.todo t = []) (t : Nat) (he : Enabled s t) :
    work k (step s t) < work k s := by
  rcases step_work k s hk t with h | h
  · exfalso
    obtain ⟨h1, h2⟩ := he
    unfold step at h
    cases htodo : s.todo t with
    | nil => exact h1 htodo
    | cons a rest =>
      rw [htodo] at h
      have hlen : ∀ s' : State, s' = s → s'.todo t = rest → False := by
        intro s' e e2
        rw [e, htodo] at e2
        have := congrArg List.length e2
        simp at this
      cases a with
      | acquire m =>
        simp only at h
        by_cases hm : s.holder m = none
        · rw [if_pos hm] at h; exact hlen _ h (by simp)
        · exact h2 ⟨m, rest, htodo, hm⟩
      | release m => exact hlen _ h (by simp)
  · exact h

theorem exec_work_le (k : Nat) (s : State) (hk : ∀ t, k ≤ t → s.todo t = []) (l : List Nat) :
    exec s l = s ∨ work k (exec s l) < work k s := by
  induction l generalizing s with
  | nil => exact Or.inl rfl
  | cons t l ih =>
    have e : exec s (t :: l) = exec (step s t) l := rfl
    rw [e]
    rcases step_work k s hk t with h1 | h1
    · rw [h1]; exact ih s hk
    · right
      rcases ih (step s t) (idle_step hk t) with h2 | h2
      · rw [h2]; exact h1
      · omega

theorem exec_append (s : State) (l m : List Nat) : exec s (l ++ m) = exec (exec s l) m := List.foldl_append

/-- One round in which every thread is scheduled makes progress. -/
theorem round_work {r : Mutex → Nat} {s : State} (h : Inv r s) {k : Nat} (hk : ∀ t, k ≤ t → s.todo t = []) (hn : ¬ Finished s)
    (round : List Nat) (hr : ∀ t, t < k → t ∈ round) : work k (exec s round) < work k s := by
  obtain ⟨t, ht⟩ := progress h hk hn
  have htk : t < k := by
    apply Classical.byContradiction
    intro hc
    exact ht.1 (hk t (by omega))
  obtain ⟨pre, post, rfl⟩ := List.append_of_mem (hr t htk)
  rw [exec_append]
  have e : exec (exec s pre) (t :: post) = exec (step (exec s pre) t) post := rfl
  rw [e]
  have hk1 := idle_exec hk pre
  have h2 := exec_work_le k (step (exec s pre) t) (idle_step hk1 t) post
  rcases exec_work_le k s hk pre with h1 | h1
  · rw [h1] at h2 ⊢
    have h3 := enabled_work k s hk t ht
    rcases h2 with h2 | h2
    · rw [h2]; exact h3
    · omega
  · have h3 : work k (step (exec s pre) t) ≤ work k (exec s pre) := by
      rcases step_work k (exec s pre) hk1 t with h | h
      · rw [h]; exact Nat.le_refl _
      · omega
    rcases h2 with h2 | h2
    · rw [h2]; omega
    · omega

theorem finished_exec {s : State} (h : Finished s) (l : List Nat) : Finished (exec s l) := by
  induction l generalizing s with
  | nil => exact h
  | cons t l ih =>
    have e : step s t = s := by unfold step; rw [h t]
    have : exec s (t :: l) = exec (step s t) l := rfl
    rw [this, e]; exact ih h

theorem rounds_finish {r : Mutex → Nat} {k : Nat} (rounds : List (List Nat)) (hr : ∀ l ∈ rounds, ∀ t, t < k → t ∈ l) :
    ∀ {s : State}, Inv r s → (∀ t, k ≤ t → s.todo t = []) → work k s ≤ rounds.length → Finished (exec s rounds.flatten) := by
  induction rounds with
  | nil =>
    intro s h hk hw t
    apply Classical.byContradiction
    intro hne
    have htk : t < k := by
      apply Classical.byContradiction
      intro hc
      exact hne (hk t (by omega))
    have h0 : work k s = 0 := by simpa using hw
    have : work k { s with todo := fun u => if u = t then [] else s.todo u } < work k s := by
      refine sum_range_lt k _ _ t htk ?_ ?_
      · intro u hu; simp only [if_neg hu]
      · simp only [if_true, List.length_nil]
        exact List.length_pos_iff.2 hne
    omega
  | cons l rounds ih =>
    intro s h hk hw
    rw [List.flatten_cons, exec_append]
    by_cases hf : Finished s
    · exact finished_exec (finished_exec hf l) _
    · have := round_work h hk hf l (hr l List.mem_cons_self)
      refine ih (fun l' hl' => hr l' (List.mem_cons_of_mem _ hl')) (inv_exec h l) (idle_exec hk l) ?_
      simp only [List.length_cons] at hw
      omega

/-! ### Acyclic networks -/

/-- Ranks of the mutexes from ranks of the filters. -/
def mutexRank (rank : Nat → Nat) : Mutex → Nat
  | .own f => 2 * rank f
  | .sig f _ => 2 * rank f + 1

/-- The lowest rank of a mutex that a call takes. -/
def entry (rank : Nat → Nat) : Call → Nat
  | .deliver f => 2 * rank f
  | .timer f => 2 * rank f
  | .connect f _ => 2 * rank f + 1
  | .query f => 2 * rank f
  | .output f _ => 2 * rank f + 1

theorem entry_ge (rank : Nat → Nat) (c : Call) : 2 * rank c.target ≤ entry rank c := by
  cases c <;> simp [entry, Call.target]

theorem does_ordered {net : Net} {rank : Nat → Nat}
    (hrank : ∀ f k, ∀ cb ∈ net.callbacks f k, ∀ c ∈ cb, rank f < rank c.target) {cs : List Call} {as : List Act}
    (h : Does net cs as) : ∀ held, (∀ x ∈ held, ∀ c ∈ cs, mutexRank rank x < entry rank c) →
      track (mutexRank rank) held as = some held := by
  have hflat : ∀ f k (cbs : List (List Call)), (∀ cb ∈ cbs, cb ∈ net.callbacks f k) → ∀ c ∈ cbs.flatten,
      2 * rank f + 2 ≤ entry rank c := by
    intro f k cbs hcb c hc
    obtain ⟨cb, h1, h2⟩ := List.mem_flatten.1 hc
    have := hrank f k cb (hcb cb h1) c h2
    have := entry_ge rank c
    omega
  induction h with
  | nil => intro held _; rfl
  | @connect f k cs as _ ih =>
    intro held hh
    rw [track_pair (fun x hx => hh x hx _ List.mem_cons_self)]
    exact ih held (fun x hx c hc => hh x hx c (List.mem_cons_of_mem _ hc))
  | @query f cs as _ ih =>
    intro held hh
    rw [track_pair (fun x hx => hh x hx _ List.mem_cons_self)]
    exact ih held (fun x hx c hc => hh x hx c (List.mem_cons_of_mem _ hc))
  | @output f k cbs as cs as' hcb _ _ ih ih' =>
    intro held hh
    have hm : ∀ x ∈ held, mutexRank rank x < mutexRank rank (.sig f k) := fun x hx => hh x hx _ List.mem_cons_self
    rw [track_around hm]
    · exact ih' held (fun x hx c hc => hh x hx c (List.mem_cons_of_mem _ hc))
    · apply ih
      intro x hx c hc
      have h2 := hflat f k cbs hcb c hc
      rcases List.mem_cons.1 hx with hx | hx
      · subst hx; simp only [mutexRank]; omega
      · have := hm x hx; simp only [mutexRank] at this ⊢; omega
  | @relay f cbs cs as hk hcb _ ih =>
    intro held hh
    apply ih
    intro x hx c hc
    rcases List.mem_append.1 hc with hc | hc
    · have h2 := hflat f 0 cbs hcb c hc
      have h1 := hh x hx _ List.mem_cons_self
      simp only [entry] at h1
      omega
    · exact hh x hx c (List.mem_cons_of_mem _ hc)
  | @forward f cs as hk _ ih =>
    intro held hh
    apply ih
    intro x hx c hc
    rcases List.mem_cons.1 hc with hc | hc
    · subst hc
      have h1 := hh x hx _ List.mem_cons_self
      simp only [entry] at h1 ⊢
      omega
    · exact hh x hx c (List.mem_cons_of_mem _ hc)
  | @cache f cs as hk _ ih =>
    intro held hh
    rw [track_pair (fun x hx => hh x hx _ List.mem_cons_self)]
    apply ih
    intro x hx c hc
    rcases List.mem_cons.1 hc with hc | hc
    · subst hc
      have h1 := hh x hx _ List.mem_cons_self
      simp only [entry] at h1 ⊢
      omega
    · exact hh x hx c (List.mem_cons_of_mem _ hc)
  | @sequencerAdd f cs as hk _ ih =>
    intro held hh
    rw [track_pair (fun x hx => hh x hx _ List.mem_cons_self)]
    exact ih held (fun x hx c hc => hh x hx c (List.mem_cons_of_mem _ hc))
  | @alignerAdd f cs as hk _ ih =>
    intro held hh
    rw [track_pair (fun x hx => hh x hx _ List.mem_cons_self)]
    exact ih held (fun x hx c hc => hh x hx c (List.mem_cons_of_mem _ hc))
  | @sequencerTimer f count cs as hk _ ih =>
    intro held hh
    rw [track_pair (fun x hx => hh x hx _ List.mem_cons_self)]
    apply ih
    intro x hx c hc
    rcases List.mem_append.1 hc with hc | hc
    · have := List.eq_of_mem_replicate hc
      subst this
      have h1 := hh x hx _ List.mem_cons_self
      simp only [entry] at h1 ⊢
      omega
    · exact hh x hx c (List.mem_cons_of_mem _ hc)
  | @alignerTimer f ks as cs as' hk _ _ ih ih' =>
    intro held hh
    have hm : ∀ x ∈ held, mutexRank rank x < mutexRank rank (.own f) := fun x hx => hh x hx _ List.mem_cons_self
    rw [track_around hm]
    · exact ih' held (fun x hx c hc => hh x hx c (List.mem_cons_of_mem _ hc))
    · apply ih
      intro x hx c hc
      obtain ⟨k, _, rfl⟩ := List.mem_map.1 hc
      rcases List.mem_cons.1 hx with hx | hx
      · subst hx; simp only [mutexRank, entry]; omega
      · have := hm x hx; simp only [mutexRank, entry] at this ⊢; omega
  | @policy f ks as cs as' hk _ _ ih ih' =>
    intro held hh
    have hm : ∀ x ∈ held, mutexRank rank x < mutexRank rank (.own f) := fun x hx => hh x hx _ List.mem_cons_self
    rw [track_around hm]
    · exact ih' held (fun x hx c hc => hh x hx c (List.mem_cons_of_mem _ hc))
    · apply ih
      intro x hx c hc
      obtain ⟨k, _, rfl⟩ := List.mem_map.1 hc
      rcases List.mem_cons.1 hx with hx | hx
      · subst hx; simp only [mutexRank, entry]; omega
      · have := hm x hx; simp only [mutexRank, entry] at this ⊢; omega

/-! ### Waiting for oneself -/

/-- A thread that will want a mutex it (by then) holds: before or after it has taken it. -/
def SelfLock (t : Nat) (m : Mutex) (s : State) : Prop :=
  (∃ pre mid post, s.todo t = pre ++ .acquire m :: (mid ++ .acquire m :: post) ∧ .release m ∉ mid) ∨
  (∃ mid post, s.todo t = mid ++ .acquire m :: post ∧ .release m ∉ mid ∧ s.holder m = some t)

theorem selfLock_step {t : Nat} {m : Mutex} {s : State} (h : SelfLock t m s) (u : Nat) : SelfLock t m (step s u) := by
  unfold step
  cases hu : s.todo u with
  | nil => exact h
  | cons a rest =>
    by_cases hut : u = t
    · subst hut
      rcases h with ⟨pre, mid, post, e, hno⟩ | ⟨mid, post, e, hno, hown⟩
      · rw [hu] at e
        cases pre with
        | nil =>
          simp only [List.nil_append, List.cons.injEq] at e
          obtain ⟨rfl, rfl⟩ := e
          simp only
          by_cases hm : s.holder m = none
          · rw [if_pos hm]
            exact Or.inr ⟨mid, post, by simp, hno, by simp⟩
          · rw [if_neg hm]; exact Or.inl ⟨[], mid, post, hu, hno⟩
        | cons p pre =>
          simp only [List.cons_append, List.cons.injEq] at e
          obtain ⟨rfl, rfl⟩ := e
          cases a with
          | acquire x =>
            simp only
            by_cases hm : s.holder x = none
            · rw [if_pos hm]; exact Or.inl ⟨pre, mid, post, by simp, hno⟩
            · rw [if_neg hm]; exact Or.inl ⟨.acquire x :: pre, mid, post, by simp [hu], hno⟩
          | release x => exact Or.inl ⟨pre, mid, post, by simp, hno⟩
      · rw [hu] at e
        cases mid with
        | nil =>
          simp only [List.nil_append, List.cons.injEq] at e
          obtain ⟨rfl, rfl⟩ := e
          simp only
          rw [if_neg (by rw [hown]; simp)]
          exact Or.inr ⟨[], _, hu, hno, hown⟩
        | cons p mid =>
          simp only [List.cons_append, List.cons.injEq] at e
          obtain ⟨rfl, rfl⟩ := e
          have hno' : Act.release m ∉ mid := fun hh => hno (List.mem_cons_of_mem _ hh)
          cases a with
          | acquire x =>
            simp only
            by_cases hm : s.holder x = none
            · rw [if_pos hm]
              refine Or.inr ⟨mid, post, by simp, hno', ?_⟩
              have : m ≠ x := by intro e; subst e; rw [hown] at hm; cases hm
              simp only [if_neg this]; exact hown
            · rw [if_neg hm]; exact Or.inr ⟨.acquire x :: mid, post, by simp [hu], hno, hown⟩
          | release x =>
            refine Or.inr ⟨mid, post, by simp, hno', ?_⟩
            have : m ≠ x := by intro e; subst e; exact hno List.mem_cons_self
            simp only [this, false_and, if_false]; exact hown
    · have htu : t ≠ u := fun e => hut e.symm
      cases a with
      | acquire x =>
        simp only
        by_cases hm : s.holder x = none
        · rw [if_pos hm]
          rcases h with ⟨pre, mid, post, e, hno⟩ | ⟨mid, post, e, hno, hown⟩
          · exact Or.inl ⟨pre, mid, post, by simp only [if_neg htu]; exact e, hno⟩
          · refine Or.inr ⟨mid, post, by simp only [if_neg htu]; exact e, hno, ?_⟩
            have : m ≠ x := by intro e; subst e; rw [hown] at hm; cases hm
            simp only [if_neg this]; exact hown
        · rw [if_neg hm]; exact h
      | release x =>
        rcases h with ⟨pre, mid, post, e, hno⟩ | ⟨mid, post, e, hno, hown⟩
        · exact Or.inl ⟨pre, mid, post, by simp only [if_neg htu]; exact e, hno⟩
        · refine Or.inr ⟨mid, post, by simp only [if_neg htu]; exact e, hno, ?_⟩
          have : ¬ (m = x ∧ s.holder x = some u) := by
            rintro ⟨rfl, h2⟩
            rw [hown] at h2; cases h2; exact htu rfl
          simp only [if_neg this]; exact hown

theorem selfLock_exec {t : Nat} {m : Mutex} {s : State} (h : SelfLock t m s) (l : List Nat) : SelfLock t m (exec s l) := by
  induction l generalizing s with
  | nil => exact h
  | cons u l ih => exact ih (selfLock_step h u)

theorem selfLock_unfinished {t : Nat} {m : Mutex} {s : State} (h : SelfLock t m s) : s.todo t ≠ [] := by
  rcases h with ⟨pre, mid, post, e, _⟩ | ⟨mid, post, e, _⟩ <;> rw [e] <;> simp

/-- In the operations of calls, a release comes after an acquisition. -/
theorem does_bracketed {net : Net} {cs : List Call} {as : List Act} (h : Does net cs as) (m : Mutex) :
    ∀ p q, as = p ++ .release m :: q → .acquire m ∈ p := by
  have happ : ∀ {as bs : List Act}, (∀ p q, as = p ++ .release m :: q → .acquire m ∈ p) →
      (∀ p q, bs = p ++ .release m :: q → .acquire m ∈ p) → ∀ p q, as ++ bs = p ++ .release m :: q → .acquire m ∈ p := by
    intro as bs ha hb p q e
    rcases List.append_eq_append_iff.1 e with ⟨x, h1, h2⟩ | ⟨x, h1, h2⟩
    · rw [h1]; exact List.mem_append_right _ (hb x q h2)
    · cases x with
      | nil => simp at h1 h2; rw [← h1]; have := hb [] q (by simpa using h2.symm); cases this
      | cons y x =>
        simp only [List.cons_append, List.cons.injEq] at h2
        obtain ⟨rfl, h2⟩ := h2
        exact ha p x h1
  have hpair : ∀ x, ∀ p q, [Act.acquire x, .release x] = p ++ .release m :: q → .acquire m ∈ p := by
    intro x p q e
    match p with
    | [] => simp at e
    | [a] => simp at e; obtain ⟨rfl, rfl, _⟩ := e; simp
    | [a, b] => simp at e
    | a :: b :: c :: p => simp at e
  have haround : ∀ x (as : List Act), (∀ p q, as = p ++ .release m :: q → .acquire m ∈ p) →
      ∀ p q, .acquire x :: (as ++ [.release x]) = p ++ .release m :: q → .acquire m ∈ p := by
    intro x as ha p q e
    cases p with
    | nil => simp at e
    | cons a p =>
      simp only [List.cons_append, List.cons.injEq] at e
      obtain ⟨rfl, e⟩ := e
      rcases List.append_eq_append_iff.1 e with ⟨y, h1, h2⟩ | ⟨y, h1, h2⟩
      · match y with
        | [] => simp at h2; obtain ⟨rfl, _⟩ := h2; simp
        | [z] => simp at h2
        | z :: w :: y => simp at h2
      · cases y with
        | nil => simp at h2; obtain ⟨rfl, _⟩ := h2; simp
        | cons z y =>
          simp only [List.cons_append, List.cons.injEq] at h2
          obtain ⟨rfl, h2⟩ := h2
          exact List.mem_cons_of_mem _ (ha p y h1)
  induction h with
  | nil => intro p q e; simp at e
  | connect _ ih => exact happ (hpair _) ih
  | query _ ih => exact happ (hpair _) ih
  | @output f k cbs as cs as' hcb _ _ ih ih' =>
    have := happ (haround (.sig f k) as ih) ih'
    simpa using this
  | relay _ _ _ ih => exact ih
  | forward _ _ ih => exact ih
  | cache _ _ ih => exact happ (hpair _) ih
  | sequencerAdd _ _ ih => exact happ (hpair _) ih
  | alignerAdd _ _ ih => exact happ (hpair _) ih
  | sequencerTimer _ _ ih => exact happ (hpair _) ih
  | @alignerTimer f ks as cs as' hk _ _ ih ih' =>
    have := happ (haround (.own f) as ih) ih'
    simpa using this
  | @policy f ks as cs as' hk _ _ ih ih' =>
    have := happ (haround (.own f) as ih) ih'
    simpa using this

/-- The first acquisition of a mutex. -/
theorem first_acquire {m : Mutex} : ∀ {as : List Act}, .acquire m ∈ as → ∃ p q, as = p ++ .acquire m :: q ∧ .acquire m ∉ p
  | [], h => by cases h
  | a :: as, h => by
    by_cases ha : a = .acquire m
    · exact ⟨[], as, by simp [ha], by simp⟩
    · have : Act.acquire m ∈ as := by
        rcases List.mem_cons.1 h with h | h
        · exact absurd h.symm ha
        · exact h
      obtain ⟨p, q, e, hn⟩ := first_acquire this
      refine ⟨a :: p, q, by rw [e]; rfl, ?_⟩
      intro hc
      rcases List.mem_cons.1 hc with hc | hc
      · exact ha hc.symm
      · exact hn hc

theorem selfLock_of_does {net : Net} {cs : List Call} {as : List Act} (h : Does net cs as) {m : Mutex} (hm : .acquire m ∈ as)
    (rest : List Act) (t : Nat) (s : State) (ht : s.todo t = .acquire m :: (as ++ rest)) : SelfLock t m s := by
  obtain ⟨p, q, e, hn⟩ := first_acquire hm
  refine Or.inl ⟨[], p, q ++ rest, by rw [ht, e]; simp, ?_⟩
  intro hr
  obtain ⟨x, y, hxy⟩ := List.append_of_mem hr
  have := does_bracketed h m x (y ++ .acquire m :: q) (by rw [e, hxy]; simp)
  exact hn (by rw [hxy]; exact List.mem_append_left _ this)

/-- Registering or disconnecting takes the mutex of the signal. -/
theorem connect_acquires {net : Net} {cs : List Call} {as : List Act} (h : Does net cs as) {f k : Nat} (hc : .connect f k ∈ cs) :
    .acquire (.sig f k) ∈ as := by
  induction h with
  | nil => cases hc
  | connect _ ih =>
    rcases List.mem_cons.1 hc with hc | hc
    · cases hc; simp
    · simp [ih hc]
  | query _ ih =>
    rcases List.mem_cons.1 hc with hc | hc
    · cases hc
    · simp [ih hc]
  | output _ _ _ _ ih =>
    rcases List.mem_cons.1 hc with hc | hc
    · cases hc
    · simp [ih hc]
  | relay _ _ _ ih =>
    rcases List.mem_cons.1 hc with hc | hc
    · cases hc
    · exact ih (List.mem_append_right _ hc)
  | forward _ _ ih =>
    rcases List.mem_cons.1 hc with hc | hc
    · cases hc
    · exact ih (List.mem_cons_of_mem _ hc)
  | cache _ _ ih =>
    rcases List.mem_cons.1 hc with hc | hc
    · cases hc
    · simp [ih (List.mem_cons_of_mem _ hc)]
  | sequencerAdd _ _ ih =>
    rcases List.mem_cons.1 hc with hc | hc
    · cases hc
    · simp [ih hc]
  | alignerAdd _ _ ih =>
    rcases List.mem_cons.1 hc with hc | hc
    · cases hc
    · simp [ih hc]
  | sequencerTimer _ _ ih =>
    rcases List.mem_cons.1 hc with hc | hc
    · cases hc
    · simp [ih (List.mem_append_right _ hc)]
  | alignerTimer _ _ _ _ ih =>
    rcases List.mem_cons.1 hc with hc | hc
    · cases hc
    · simp [ih hc]
  | policy _ _ _ _ ih =>
    rcases List.mem_cons.1 hc with hc | hc
    · cases hc
    · simp [ih hc]

/-- Delivering to a filter with a mutex of its own takes that mutex. -/
theorem deliver_acquires {net : Net} {cs : List Call} {as : List Act} (h : Does net cs as) {f : Nat} (hc : .deliver f ∈ cs)
    (hr : net.kind f ≠ .relay) (hf : net.kind f ≠ .forward) : .acquire (.own f) ∈ as := by
  induction h with
  | nil => cases hc
  | connect _ ih =>
    rcases List.mem_cons.1 hc with hc | hc
    · cases hc
    · simp [ih hc]
  | query _ ih =>
    rcases List.mem_cons.1 hc with hc | hc
    · cases hc
    · simp [ih hc]
  | output _ _ _ _ ih =>
    rcases List.mem_cons.1 hc with hc | hc
    · cases hc
    · simp [ih hc]
  | relay hk _ _ ih =>
    rcases List.mem_cons.1 hc with hc | hc
    · cases hc; exact absurd hk hr
    · exact ih (List.mem_append_right _ hc)
  | forward hk _ ih =>
    rcases List.mem_cons.1 hc with hc | hc
    · cases hc; exact absurd hk hf
    · exact ih (List.mem_cons_of_mem _ hc)
  | cache _ _ ih =>
    rcases List.mem_cons.1 hc with hc | hc
    · cases hc; simp
    · simp [ih (List.mem_cons_of_mem _ hc)]
  | sequencerAdd _ _ ih =>
    rcases List.mem_cons.1 hc with hc | hc
    · cases hc; simp
    · simp [ih hc]
  | alignerAdd _ _ ih =>
    rcases List.mem_cons.1 hc with hc | hc
    · cases hc; simp
    · simp [ih hc]
  | sequencerTimer _ _ ih =>
    rcases List.mem_cons.1 hc with hc | hc
    · cases hc
    · simp [ih (List.mem_append_right _ hc)]
  | alignerTimer _ _ _ _ ih =>
    rcases List.mem_cons.1 hc with hc | hc
    · cases hc
    · simp [ih hc]
  | policy _ _ _ _ ih =>
    rcases List.mem_cons.1 hc with hc | hc
    · cases hc; simp
    · simp [ih hc]

theorem stuck_exec {s : State} (h : ∀ t, ¬ Enabled s t) (l : List Nat) : exec s l = s := by
  induction l with
  | nil => rfl
  | cons t l ih =>
    have : step s t = s := by
      unfold step
      cases htodo : s.todo t with
      | nil => rfl
      | cons a rest =>
        have hw : Waiting s t := by
          apply Classical.byContradiction
          intro hn
          exact h t ⟨by rw [htodo]; simp, hn⟩
        obtain ⟨m, rest', e, hm⟩ := hw
        rw [htodo] at e
        cases e
        simp only
        rw [if_neg hm]
    have e : exec s (t :: l) = exec (step s t) l := rfl
    rw [e, this, ih]

theorem does_nil {net : Net} {as : List Act} (h : Does net [] as) : as = [] := by cases h; rfl

end MF.Lock
