import Verif.Proofs.PyNet
/-
Lemmas for C93: a thread that is not interrupted, and threads that wait forever.
-/
namespace MF.PyNet

theorem exec_replicate_add (s : State) (t a b : Nat) :
    exec s (List.replicate (a + b) t) = exec (exec s (List.replicate a t)) (List.replicate b t) := by
  rw [← List.replicate_append_replicate, exec_append]

theorem exec_one (s : State) (t : Nat) : exec s (List.replicate 1 t) = step s t := rfl

theorem state_ext {a b : State} (h1 : a.lock = b.lock) (h2 : a.todo = b.todo) : a = b := by
  cases a; cases b; cases h1; cases h2; rfl

/-- What calls do when nobody interferes. -/
theorem does_alone {net : Net} {rank : Nat → Nat}
    (hrank : ∀ f, ∀ cb ∈ net.callbacks f, ∀ g, Call.deliver g ∈ cb → rank f ≤ rank g ∧ (net.kind f ≠ .plain → rank f < rank g))
    {cs : List Call} {as : List Act} {e : End} (h : Does net cs as e) (t : Nat) :
    ∀ (s : State) (rest : List Act), s.todo t = as ++ rest →
      (∀ x, s.lock x = .free ∨ ∀ g, Call.deliver g ∈ cs → rank x < rank g) →
      exec s (List.replicate as.length t) =
        { lock := fun x => if x ∈ e.traceback then .abandoned else s.lock x, todo := fun u => if u = t then rest else s.todo u } := by
  have hin : ∀ {f : Nat} {cbs : List (List Call)} {s : State} {cs : List Call} {rest : List Act}, net.kind f ≠ .plain →
      (∀ cb ∈ cbs, cb ∈ net.callbacks f) → (∀ x, s.lock x = .free ∨ ∀ g, Call.deliver g ∈ Call.deliver f :: cs → rank x < rank g) →
      ∀ x, (if x = f then Lk.held t else s.lock x) = .free ∨ ∀ g, Call.deliver g ∈ cbs.flatten → rank x < rank g := by
    intro f cbs s cs rest hk hcb hfree x
    by_cases hx : x = f
    · right
      intro g hg
      obtain ⟨cb, h1, h2⟩ := List.mem_flatten.1 hg
      rw [hx]
      exact (hrank f cb (hcb cb h1) g h2).2 hk
    · rcases hfree x with h0 | h0
      · left; rw [if_neg hx]; exact h0
      · right
        intro g hg
        obtain ⟨cb, h1, h2⟩ := List.mem_flatten.1 hg
        have := (hrank f cb (hcb cb h1) g h2).1
        have := h0 f List.mem_cons_self
        omega
  have hself : ∀ {f : Nat} {s : State} {cs : List Call},
      (∀ x, s.lock x = .free ∨ ∀ g, Call.deliver g ∈ Call.deliver f :: cs → rank x < rank g) → s.lock f = .free := by
    intro f s cs hfree
    rcases hfree f with h0 | h0
    · exact h0
    · have := h0 f List.mem_cons_self; omega
  have hacq : ∀ {s : State} {f : Nat} {r : List Act}, s.todo t = .acquire f :: r → s.lock f = .free →
      step s t = { lock := fun x => if x = f then .held t else s.lock x, todo := fun u => if u = t then r else s.todo u } := by
    intro s f r h1 h2
    unfold step
    rw [h1]
    simp only
    rw [if_pos h2]
  induction h with
  | nil =>
    intro s rest ht hfree
    refine state_ext (by simp [exec, End.traceback]) ?_
    funext u
    by_cases hu : u = t
    · subst hu; simpa [exec] using ht
    · simp [exec, hu]
  | raise =>
    intro s rest ht hfree
    refine state_ext (by simp [exec, End.traceback]) ?_
    funext u
    by_cases hu : u = t
    · subst hu; simpa [exec] using ht
    · simp [exec, hu]
  | other _ ih =>
    intro s rest ht hfree
    exact ih s rest ht (fun x => (hfree x).imp id (fun h g hg => h g (List.mem_cons_of_mem _ hg)))
  | @plain f cbs cs as e hk hcb _ ih =>
    intro s rest ht hfree
    refine ih s rest ht (fun x => (hfree x).imp id (fun h g hg => ?_))
    rcases List.mem_append.1 hg with hg | hg
    · obtain ⟨cb, h1, h2⟩ := List.mem_flatten.1 hg
      have := (hrank f cb (hcb cb h1) g h2).1
      have := h f List.mem_cons_self
      omega
    · exact h g (List.mem_cons_of_mem _ hg)
  | ignored _ _ ih =>
    intro s rest ht hfree
    exact ih s rest ht (fun x => (hfree x).imp id (fun h g hg => h g (List.mem_cons_of_mem _ hg)))
  | @sync f cbs as cs as' e hk hcb _ _ ih ih' =>
    intro s rest ht hfree
    have hff := hself hfree
    have hlen : (Act.acquire f :: (as ++ .release f :: as')).length = 1 + (as.length + (1 + as'.length)) := by
      simp; omega
    rw [hlen, exec_replicate_add, exec_one, hacq (r := as ++ .release f :: (as' ++ rest)) (by rw [ht]; simp) hff,
      exec_replicate_add, ih _ (.release f :: (as' ++ rest)) (by simp) (hin (rest := rest) hk hcb hfree), exec_replicate_add, exec_one]
    have hrel : step (State.mk (fun x => if x ∈ End.returned.traceback then Lk.abandoned else if x = f then .held t else s.lock x)
        (fun u => if u = t then .release f :: (as' ++ rest) else if u = t then as ++ .release f :: (as' ++ rest) else s.todo u)) t =
        { lock := s.lock, todo := fun u => if u = t then as' ++ rest else s.todo u } := by
      unfold step
      simp only [if_true]
      refine state_ext ?_ ?_
      · funext x
        by_cases hx : x = f
        · simp [hx, hff]
        · simp [hx, End.traceback]
      · funext u
        by_cases hu : u = t <;> simp [hu]
    rw [hrel, ih' (State.mk s.lock (fun u => if u = t then as' ++ rest else s.todo u)) rest (by simp) (fun x => (hfree x).imp id (fun h g hg => h g (List.mem_cons_of_mem _ hg)))]
    refine state_ext rfl ?_
    funext u
    by_cases hu : u = t <;> simp [hu]
  | @syncRaised f cbs as cs tb hk hcb _ ih =>
    intro s rest ht hfree
    have hff := hself hfree
    have hlen : (Act.acquire f :: (as ++ [.abandon f])).length = 1 + (as.length + 1) := by simp; omega
    rw [hlen, exec_replicate_add, exec_one, hacq (r := as ++ .abandon f :: rest) (by rw [ht]; simp) hff,
      exec_replicate_add, ih _ (.abandon f :: rest) (by simp) (hin (rest := rest) hk hcb hfree), exec_one]
    unfold step
    simp only [if_true]
    refine state_ext ?_ ?_
    · funext x
      by_cases hx : x = f
      · simp [hx, End.traceback]
      · simp [hx, End.traceback]
    · funext u
      by_cases hu : u = t <;> simp [hu]
  | @ownRaise f cs hk =>
    intro s rest ht hfree
    have hff := hself hfree
    have hlen : [Act.acquire f, .abandon f].length = 1 + 1 := rfl
    rw [hlen, exec_replicate_add, exec_one, exec_one, hacq (r := .abandon f :: rest) (by rw [ht]; simp) hff]
    unfold step
    simp only [if_true]
    refine state_ext ?_ ?_
    · funext x
      by_cases hx : x = f
      · simp [hx, End.traceback]
      · simp [hx, End.traceback]
    · funext u
      by_cases hu : u = t <;> simp [hu]

/-! ### Waiting forever -/

/-- A thread that waits for an abandoned lock stays where it is; the lock stays abandoned. -/
theorem abandoned_step {r : Nat → Nat → Bool} {s : State} (h : Inv r s) {f : Nat} (hf : s.lock f = .abandoned) (t : Nat) :
    (step s t).lock f = .abandoned ∧ ∀ u, (∃ rest, s.todo u = .acquire f :: rest) → (step s t).todo u = s.todo u := by
  obtain ⟨held, ht⟩ := h t
  have hfut := ht.future
  have hpop : ∀ m, m ∈ held → m ≠ f := by
    intro m hm e
    have := (ht.holds m).1 hm
    rw [e, hf] at this; cases this
  unfold step
  cases htodo : s.todo t with
  | nil => exact ⟨hf, fun _ _ => rfl⟩
  | cons a rest =>
    rw [htodo] at hfut
    have hother : (∀ r', a :: rest ≠ .acquire f :: r') → ∀ u, (∃ r', s.todo u = .acquire f :: r') →
        (if u = t then rest else s.todo u) = s.todo u := by
      rintro hne u ⟨r', hu⟩
      by_cases hut : u = t
      · subst hut; rw [htodo] at hu; exact absurd hu (hne r')
      · rw [if_neg hut]
    cases a with
    | acquire m =>
      simp only
      by_cases hm : s.lock m = .free
      · rw [if_pos hm]
        have hmf : f ≠ m := by intro e; subst e; rw [hf] at hm; cases hm
        refine ⟨by simp [hmf, hf], hother ?_⟩
        intro r' e
        cases e
        exact hmf rfl
      · rw [if_neg hm]; exact ⟨hf, fun _ _ => rfl⟩
    | release m =>
      cases hd : held with
      | nil => rw [hd] at hfut; cases hfut
      | cons x hd' =>
        rw [hd] at hfut
        simp only [track] at hfut
        split at hfut
        · rename_i hmx
          have hmf : f ≠ m := by
            intro e
            exact hpop m (by rw [hd, hmx]; exact List.mem_cons_self) e.symm
          exact ⟨by simp [hmf, hf], hother (by simp)⟩
        · cases hfut
    | abandon m =>
      refine ⟨?_, hother (by simp)⟩
      simp only
      split
      · rfl
      · exact hf

theorem abandoned_exec {r : Nat → Nat → Bool} {s : State} (h : Inv r s) {f : Nat} (hf : s.lock f = .abandoned) (l : List Nat) :
    (exec s l).lock f = .abandoned ∧ ∀ u, (∃ rest, s.todo u = .acquire f :: rest) → (exec s l).todo u = s.todo u := by
  induction l generalizing s with
  | nil => exact ⟨hf, fun _ _ => rfl⟩
  | cons t l ih =>
    have h1 := abandoned_step h hf t
    have h2 := ih (inv_step h t) h1.1
    refine ⟨h2.1, fun u hu => ?_⟩
    have e := h1.2 u hu
    exact (h2.2 u (e ▸ hu)).trans e

/-- A thread that holds the lock and will ask for it again before giving it back. -/
def SelfLock (t f : Nat) (s : State) : Prop :=
  ∃ mid post, s.todo t = mid ++ .acquire f :: post ∧ .release f ∉ mid ∧ .abandon f ∉ mid ∧ s.lock f = .held t

theorem selfLock_step {r : Nat → Nat → Bool} {s : State} (hi : Inv r s) {t f : Nat} (h : SelfLock t f s) (u : Nat) :
    SelfLock t f (step s u) := by
  obtain ⟨mid, post, e, h1, h2, hl⟩ := h
  obtain ⟨held, hu⟩ := hi u
  have hfut := hu.future
  unfold step
  cases htodo : s.todo u with
  | nil => exact ⟨mid, post, e, h1, h2, hl⟩
  | cons a rest =>
    rw [htodo] at hfut
    by_cases hut : u = t
    · subst hut
      rw [htodo] at e
      cases mid with
      | nil =>
        simp only [List.nil_append, List.cons.injEq] at e
        obtain ⟨rfl, rfl⟩ := e
        simp only
        rw [if_neg (by rw [hl]; simp)]
        exact ⟨[], rest, htodo, by simp, by simp, hl⟩
      | cons p mid =>
        simp only [List.cons_append, List.cons.injEq] at e
        obtain ⟨rfl, rfl⟩ := e
        have h1' : Act.release f ∉ mid := fun h => h1 (List.mem_cons_of_mem _ h)
        have h2' : Act.abandon f ∉ mid := fun h => h2 (List.mem_cons_of_mem _ h)
        cases a with
        | acquire m =>
          simp only
          by_cases hm : s.lock m = .free
          · rw [if_pos hm]
            have hmf : f ≠ m := by intro e; subst e; rw [hl] at hm; cases hm
            exact ⟨mid, post, by simp, h1', h2', by simp [hmf, hl]⟩
          · rw [if_neg hm]; exact ⟨.acquire m :: mid, post, htodo, h1, h2, hl⟩
        | release m =>
          have hmf : f ≠ m := by intro e; subst e; exact h1 List.mem_cons_self
          exact ⟨mid, post, by simp, h1', h2', by simp [hmf, hl]⟩
        | abandon m =>
          have hmf : f ≠ m := by intro e; subst e; exact h2 List.mem_cons_self
          exact ⟨mid, post, by simp, h1', h2', by simp [hmf, hl]⟩
    · have htu : t ≠ u := fun e => hut e.symm
      have hpop : ∀ m, m ∈ held → f ≠ m := by
        intro m hm e
        have := (hu.holds m).1 hm
        rw [← e, hl] at this; cases this; exact hut rfl
      cases a with
      | acquire m =>
        simp only
        by_cases hm : s.lock m = .free
        · rw [if_pos hm]
          have hmf : f ≠ m := by intro e; subst e; rw [hl] at hm; cases hm
          exact ⟨mid, post, by simp [htu, e], h1, h2, by simp [hmf, hl]⟩
        · rw [if_neg hm]; exact ⟨mid, post, e, h1, h2, hl⟩
      | release m =>
        cases hd : held with
        | nil => rw [hd] at hfut; cases hfut
        | cons x hd' =>
          rw [hd] at hfut
          simp only [track] at hfut
          split at hfut
          · rename_i hmx
            have hmf := hpop m (by rw [hd, hmx]; exact List.mem_cons_self)
            exact ⟨mid, post, by simp [htu, e], h1, h2, by simp [hmf, hl]⟩
          · cases hfut
      | abandon m =>
        cases hd : held with
        | nil => rw [hd] at hfut; cases hfut
        | cons x hd' =>
          rw [hd] at hfut
          simp only [track] at hfut
          split at hfut
          · rename_i hmx
            have hmf := hpop m (by rw [hd, hmx]; exact List.mem_cons_self)
            exact ⟨mid, post, by simp [htu, e], h1, h2, by simp [hmf, hl]⟩
          · cases hfut

theorem selfLock_exec {r : Nat → Nat → Bool} {s : State} (hi : Inv r s) {t f : Nat} (h : SelfLock t f s) (l : List Nat) :
    SelfLock t f (exec s l) := by
  induction l generalizing s with
  | nil => exact h
  | cons u l ih => exact ih (inv_step hi u) (selfLock_step hi h u)

/-- A delivery to a TimeSynchronizer that is made takes its lock. -/
theorem deliver_acquires {net : Net} {cs : List Call} {as : List Act} {e : End} (h : Does net cs as e) (he : e = .returned) {f : Nat}
    (hk : net.kind f = .exact) (hf : Call.deliver f ∈ cs) : .acquire f ∈ as := by
  induction h with
  | nil => cases hf
  | raise => cases he
  | other _ ih => exact ih he (by simpa using hf)
  | plain hk' _ _ ih =>
    refine ih he (List.mem_append_right _ ?_)
    rcases List.mem_cons.1 hf with hf | hf
    · cases hf; rw [hk] at hk'; cases hk'
    · exact hf
  | ignored hk' _ ih =>
    refine ih he ?_
    rcases List.mem_cons.1 hf with hf | hf
    · cases hf; rw [hk] at hk'; cases hk'
    · exact hf
  | sync _ _ _ _ _ ih' =>
    rcases List.mem_cons.1 hf with hf | hf
    · cases hf; exact List.mem_cons_self
    · simp [ih' he hf]
  | syncRaised => cases he
  | ownRaise => cases he

/-- Before the first `acquire f` of bracketed operations there is no release of `f`. -/
theorem no_release_before {f : Nat} : ∀ {as : List Act} {held : List Nat}, track (fun _ _ => true) held as = some held → f ∉ held →
    ∀ {p q : List Act}, as = p ++ .acquire f :: q → .acquire f ∉ p → .release f ∉ p ∧ .abandon f ∉ p := by
  have gen : ∀ (p : List Act) (held held' : List Nat) (q : List Act), track (fun _ _ => true) held (p ++ q) = some held' →
      f ∉ held → Act.acquire f ∉ p → .release f ∉ p ∧ .abandon f ∉ p := by
    intro p
    induction p with
    | nil => intro held held' q _ _ _; simp
    | cons a p ih =>
      intro held held' q h hf ha
      have ha' : Act.acquire f ∉ p := fun h => ha (List.mem_cons_of_mem _ h)
      cases a with
      | acquire m =>
        have hmf : f ≠ m := by intro e; subst e; exact ha List.mem_cons_self
        simp only [List.cons_append, track] at h
        split at h
        · have := ih (m :: held) held' q h (by simp [hmf, hf]) ha'
          simp [this.1, this.2]
        · cases h
      | release m =>
        cases held with
        | nil => cases h
        | cons x held =>
          simp only [List.cons_append, track] at h
          split at h
          · rename_i hmx
            subst hmx
            have hmf : f ≠ m := fun e => hf (e ▸ List.mem_cons_self)
            have := ih held held' q h (fun hh => hf (List.mem_cons_of_mem _ hh)) ha'
            simp [this.1, this.2, hmf]
          · cases h
      | abandon m =>
        cases held with
        | nil => cases h
        | cons x held =>
          simp only [List.cons_append, track] at h
          split at h
          · rename_i hmx
            subst hmx
            have hmf : f ≠ m := fun e => hf (e ▸ List.mem_cons_self)
            have := ih held held' q h (fun hh => hf (List.mem_cons_of_mem _ hh)) ha'
            simp [this.1, this.2, hmf]
          · cases h
  intro as held h hf p q e ha
  exact gen p held held (.acquire f :: q) (e ▸ h) hf ha

theorem first_acquire {f : Nat} : ∀ {as : List Act}, .acquire f ∈ as → ∃ p q, as = p ++ .acquire f :: q ∧ .acquire f ∉ p
  | [], h => by cases h
  | a :: as, h => by
    by_cases ha : a = .acquire f
    · exact ⟨[], as, by simp [ha], by simp⟩
    · have : Act.acquire f ∈ as := by
        rcases List.mem_cons.1 h with h | h
        · exact absurd h.symm ha
        · exact h
      obtain ⟨p, q, e, hn⟩ := first_acquire this
      refine ⟨a :: p, q, by rw [e]; rfl, ?_⟩
      intro hc
      rcases List.mem_cons.1 hc with hc | hc
      · exact ha hc.symm
      · exact hn hc

end MF.PyNet
