import Verif.Spec.PyNet
import Verif.Proofs.Deadlock
/-
Lemmas for C93.  `track` follows one thread; `Inv` says that the locks held by a thread are those that it has still to give back.
-/
namespace MF.PyNet

/-- Follow the operations of one thread that holds `held` (latest first): `r x f` must hold for every lock `x` held when `f` is
taken; locks are given back or abandoned in reverse order. -/
def track (r : Nat → Nat → Bool) : List Nat → List Act → Option (List Nat)
  | held, [] => some held
  | held, .acquire f :: as => if held.all (fun x => r x f) then track r (f :: held) as else none
  | [], .release _ :: _ => none
  | m :: held, .release f :: as => if f = m then track r held as else none
  | [], .abandon _ :: _ => none
  | m :: held, .abandon f :: as => if f = m then track r held as else none

theorem track_append {r : Nat → Nat → Bool} {held held' : List Nat} {as bs : List Act} (h : track r held as = some held') :
    track r held (as ++ bs) = track r held' bs := by
  induction as generalizing held with
  | nil => cases h; rfl
  | cons a as ih =>
    cases a with
    | acquire m =>
      simp only [track, List.cons_append] at h ⊢
      split at h
      · rename_i hc; rw [if_pos hc]; exact ih h
      · cases h
    | release m =>
      cases held with
      | nil => cases h
      | cons m' held =>
        simp only [track, List.cons_append] at h ⊢
        split at h
        · rename_i hc; rw [if_pos hc]; exact ih h
        · cases h
    | abandon m =>
      cases held with
      | nil => cases h
      | cons m' held =>
        simp only [track, List.cons_append] at h ⊢
        split at h
        · rename_i hc; rw [if_pos hc]; exact ih h
        · cases h

/-- What is known about a thread and the locks it holds. -/
structure ThreadInv (r : Nat → Nat → Bool) (s : State) (t : Nat) (held : List Nat) : Prop where
  future : track r held (s.todo t) = some []
  holds : ∀ f, f ∈ held ↔ s.lock f = .held t
  nodup : held.Nodup

def Inv (r : Nat → Nat → Bool) (s : State) : Prop := ∀ t, ∃ held, ThreadInv r s t held

theorem inv_start (r : Nat → Nat → Bool) (progs : Nat → List Act) (h : ∀ t, track r [] (progs t) = some []) : Inv r (start progs) :=
  fun t => ⟨[], h t, fun m => by simp [start], List.Pairwise.nil⟩

/-- A thread gives back or abandons the lock it took last. -/
theorem inv_pop {r : Nat → Nat → Bool} {s : State} (h : Inv r s) {t f : Nat} {held : List Nat} {rest : List Act}
    (ht : ThreadInv r s t held) {v : Lk} (hv : ∀ u, v ≠ .held u) {hd' : List Nat} (hd : held = f :: hd')
    (hf : track r hd' rest = some []) :
    Inv r { lock := fun x => if x = f then v else s.lock x, todo := fun u => if u = t then rest else s.todo u } := by
  have hno := ht.nodup
  rw [hd, List.nodup_cons] at hno
  have hown : s.lock f = .held t := (ht.holds f).1 (by rw [hd]; exact List.mem_cons_self)
  intro u
  by_cases hu : u = t
  · subst hu
    refine ⟨hd', by simpa using hf, ?_, hno.2⟩
    intro x
    by_cases hx : x = f
    · subst hx
      simp only [if_true]
      exact ⟨fun hm => absurd hm hno.1, fun e => absurd e (hv u)⟩
    · have := ht.holds x
      rw [hd, List.mem_cons] at this
      simp only [hx, false_or] at this
      simp only [hx, if_false]; exact this
  · obtain ⟨hd2, hi⟩ := h u
    refine ⟨hd2, by simpa [hu] using hi.future, ?_, hi.nodup⟩
    intro x
    by_cases hx : x = f
    · subst hx
      simp only [if_true]
      rw [hi.holds x, hown]
      constructor
      · intro e; cases e; exact absurd rfl hu
      · intro e; exact absurd e (hv u)
    · simp only [hx, if_false]; exact hi.holds x

theorem inv_step {r : Nat → Nat → Bool} {s : State} (h : Inv r s) (t : Nat) : Inv r (step s t) := by
  obtain ⟨held, ht⟩ := h t
  unfold step
  cases htodo : s.todo t with
  | nil => exact h
  | cons a rest =>
    have hf := ht.future
    rw [htodo] at hf
    cases a with
    | acquire f =>
      simp only
      by_cases hm : s.lock f = .free
      · rw [if_pos hm]
        simp only [track] at hf
        split at hf
        · intro u
          by_cases hu : u = t
          · subst hu
            refine ⟨f :: held, by simpa using hf, ?_, List.nodup_cons.2 ⟨?_, ht.nodup⟩⟩
            · intro x
              simp only [List.mem_cons]
              by_cases hx : x = f
              · simp [hx]
              · simp [hx, ht.holds x]
            · intro hc
              have := (ht.holds f).1 hc
              rw [hm] at this; cases this
          · obtain ⟨hd, hi⟩ := h u
            refine ⟨hd, by simpa [hu] using hi.future, ?_, hi.nodup⟩
            intro x
            by_cases hx : x = f
            · subst hx
              simp only [if_true]
              rw [hi.holds x, hm]
              constructor
              · intro e; cases e
              · intro e; cases e; exact absurd rfl hu
            · simp only [if_neg hx]; exact hi.holds x
        · cases hf
      · rw [if_neg hm]; exact h
    | release f =>
      simp only
      cases hd : held with
      | nil => rw [hd] at hf; cases hf
      | cons m hd' =>
        rw [hd] at hf
        simp only [track] at hf
        split at hf
        · rename_i hmm
          subst hmm
          exact inv_pop h ht (by simp) hd hf
        · cases hf
    | abandon f =>
      simp only
      cases hd : held with
      | nil => rw [hd] at hf; cases hf
      | cons m hd' =>
        rw [hd] at hf
        simp only [track] at hf
        split at hf
        · rename_i hmm
          subst hmm
          exact inv_pop h ht (by simp) hd hf
        · cases hf

theorem inv_exec {r : Nat → Nat → Bool} {s : State} (h : Inv r s) (schedule : List Nat) : Inv r (exec s schedule) := by
  induction schedule generalizing s with
  | nil => exact h
  | cons t l ih => exact ih (inv_step h t)

theorem exec_append (s : State) (l m : List Nat) : exec s (l ++ m) = exec (exec s l) m := List.foldl_append

/-- What is executed is taken from the front. -/
theorem step_suffix (s : State) (t u : Nat) : ∃ p, s.todo u = p ++ (step s t).todo u := by
  unfold step
  cases htodo : s.todo t with
  | nil => exact ⟨[], rfl⟩
  | cons a rest =>
    have key : ∃ p, s.todo u = p ++ (if u = t then rest else s.todo u) := by
      by_cases hu : u = t
      · subst hu; exact ⟨[a], by simp [htodo]⟩
      · exact ⟨[], by simp [hu]⟩
    cases a with
    | acquire f =>
      simp only
      split
      · exact key
      · exact ⟨[], rfl⟩
    | release f => exact key
    | abandon f => exact key

theorem exec_suffix (s : State) (l : List Nat) (u : Nat) : ∃ p, s.todo u = p ++ (exec s l).todo u := by
  induction l generalizing s with
  | nil => exact ⟨[], rfl⟩
  | cons t l ih =>
    obtain ⟨p, hp⟩ := step_suffix s t u
    obtain ⟨q, hq⟩ := ih (step s t)
    exact ⟨p ++ q, by rw [hp, hq, List.append_assoc]; rfl⟩

/-! ### What calls do -/

/-- The lock operations of calls are bracketed, and in order of rank if there is no feedback. -/
theorem does_track {net : Net} {r : Nat → Nat → Bool} {ok : Nat → Call → Prop}
    (hr : ∀ x f, ok x (.deliver f) → net.kind f ≠ .plain → r x f = true)
    (hcall : ∀ f cb, cb ∈ net.callbacks f → ∀ c ∈ cb, (∀ x, ok x (.deliver f) → ok x c) ∧ (net.kind f ≠ .plain → ok f c))
    {cs : List Call} {as : List Act} {e : End} (h : Does net cs as e) :
    ∀ held, (∀ x ∈ held, ∀ c ∈ cs, ok x c) → track r held as = some held := by
  have hin : ∀ {f : Nat} {cbs : List (List Call)} {held : List Nat} {cs : List Call}, net.kind f ≠ .plain →
      (∀ cb ∈ cbs, cb ∈ net.callbacks f) → (∀ x ∈ held, ∀ c ∈ Call.deliver f :: cs, ok x c) →
      ∀ x ∈ f :: held, ∀ c ∈ cbs.flatten, ok x c := by
    intro f cbs held cs hk hcb hh x hx c hc
    obtain ⟨cb, h1, h2⟩ := List.mem_flatten.1 hc
    have := hcall f cb (hcb cb h1) c h2
    rcases List.mem_cons.1 hx with rfl | hx
    · exact this.2 hk
    · exact this.1 x (hh x hx _ List.mem_cons_self)
  have hall : ∀ {f : Nat} {held : List Nat} {cs : List Call}, net.kind f ≠ .plain →
      (∀ x ∈ held, ∀ c ∈ Call.deliver f :: cs, ok x c) → (held.all (fun x => r x f)) = true := by
    intro f held cs hk hh
    exact List.all_eq_true.2 (fun x hx => hr x f (hh x hx _ List.mem_cons_self) hk)
  induction h with
  | nil => intro held _; rfl
  | raise => intro held _; rfl
  | other _ ih => intro held hh; exact ih held (fun x hx c hc => hh x hx c (List.mem_cons_of_mem _ hc))
  | @plain f cbs cs as e hk hcb _ ih =>
    intro held hh
    apply ih
    intro x hx c hc
    rcases List.mem_append.1 hc with hc | hc
    · obtain ⟨cb, h1, h2⟩ := List.mem_flatten.1 hc
      exact (hcall f cb (hcb cb h1) c h2).1 x (hh x hx _ List.mem_cons_self)
    · exact hh x hx c (List.mem_cons_of_mem _ hc)
  | ignored _ _ ih => intro held hh; exact ih held (fun x hx c hc => hh x hx c (List.mem_cons_of_mem _ hc))
  | @sync f cbs as cs as' e hk hcb _ _ ih ih' =>
    intro held hh
    simp only [track]
    rw [if_pos (hall hk hh), track_append (ih (f :: held) (hin hk hcb hh))]
    simp only [track, if_true]
    exact ih' held (fun x hx c hc => hh x hx c (List.mem_cons_of_mem _ hc))
  | @syncRaised f cbs as cs tb hk hcb _ ih =>
    intro held hh
    simp only [track]
    rw [if_pos (hall hk hh), track_append (ih (f :: held) (hin hk hcb hh))]
    simp [track]
  | @ownRaise f cs hk =>
    intro held hh
    simp only [track]
    rw [if_pos (hall hk hh)]
    simp

/-- The order given by ranks. -/
def below (rank : Nat → Nat) (x f : Nat) : Bool := decide (rank x < rank f)

theorem does_ordered {net : Net} {rank : Nat → Nat}
    (hrank : ∀ f, ∀ cb ∈ net.callbacks f, ∀ g, Call.deliver g ∈ cb → rank f ≤ rank g ∧ (net.kind f ≠ .plain → rank f < rank g))
    {cs : List Call} {as : List Act} {e : End} (h : Does net cs as e) : track (below rank) [] as = some [] := by
  refine does_track (ok := fun x c => ∀ f, c = .deliver f → rank x < rank f) ?_ ?_ h [] (by simp)
  · intro x f h1 _
    simp [below, h1 f rfl]
  · intro f cb hcb c hc
    refine ⟨fun x hx g hg => ?_, fun hk g hg => ?_⟩
    · have h1 := (hrank f cb hcb g (hg ▸ hc)).1
      have := hx f rfl
      omega
    · exact (hrank f cb hcb g (hg ▸ hc)).2 hk

theorem does_bracketed {net : Net} {cs : List Call} {as : List Act} {e : End} (h : Does net cs as e) (held : List Nat) :
    track (fun _ _ => true) held as = some held :=
  does_track (ok := fun _ _ => True) (by simp) (by simp) h held (by simp)

theorem runs_track {net : Net} {r : Nat → Nat → Bool} (hd : ∀ cs as e, Does net cs as e → track r [] as = some [])
    {ps : List (List Call)} {as : List Act} {es : List End} (h : Runs net ps as es) : track r [] as = some [] := by
  induction h with
  | nil => rfl
  | cons h _ ih => rw [track_append (hd _ _ _ h)]; exact ih

theorem runs_nil {net : Net} {as : List Act} {es : List End} (h : Runs net [] as es) : as = [] := by
  cases h
  rfl

/-! ### Progress -/

theorem bound_list (r : Nat → Nat) (l : List Act) : ∃ R, ∀ m, .acquire m ∈ l → r m ≤ R := by
  induction l with
  | nil => exact ⟨0, fun m h => by cases h⟩
  | cons a l ih =>
    obtain ⟨R, hR⟩ := ih
    cases a with
    | acquire m =>
      refine ⟨R + r m, fun x hx => ?_⟩
      rcases List.mem_cons.1 hx with hx | hx
      · cases hx; omega
      · have := hR x hx; omega
    | release m =>
      refine ⟨R, fun x hx => ?_⟩
      rcases List.mem_cons.1 hx with hx | hx
      · cases hx
      · exact hR x hx
    | abandon m =>
      refine ⟨R, fun x hx => ?_⟩
      rcases List.mem_cons.1 hx with hx | hx
      · cases hx
      · exact hR x hx

theorem bound_threads (r : Nat → Nat) (s : State) (k : Nat) : ∃ R, ∀ t, t < k → ∀ m, .acquire m ∈ s.todo t → r m ≤ R := by
  induction k with
  | zero => exact ⟨0, fun t ht => by omega⟩
  | succ k ih =>
    obtain ⟨R, hR⟩ := ih
    obtain ⟨R', hR'⟩ := bound_list r (s.todo k)
    refine ⟨R + R', fun t ht m hm => ?_⟩
    by_cases htk : t = k
    · subst htk; have := hR' m hm; omega
    · have := hR t (by omega) m hm; omega

theorem idle_exec {k : Nat} {s : State} (h : ∀ t, k ≤ t → s.todo t = []) (schedule : List Nat) :
    ∀ u, k ≤ u → (exec s schedule).todo u = [] := by
  intro u hu
  obtain ⟨p, hp⟩ := exec_suffix s schedule u
  rw [h u hu] at hp
  exact (List.append_eq_nil_iff.1 hp.symm).2

theorem not_waits {s : State} {t : Nat} {a : Act} {rest : List Act} (h : s.todo t = a :: rest) (ha : ∀ f, a ≠ .acquire f) :
    Enabled s t := by
  refine ⟨by simp [Done, h], ?_⟩
  rintro f ⟨⟨r, e⟩, _⟩
  rw [h] at e
  cases e
  exact ha f rfl

/-- Whoever waits, waits in the end for a thread that can go on or for a lock that was abandoned. -/
theorem cause_of_waiting {rank : Nat → Nat} {s : State} (h : Inv (below rank) s) {k : Nat} (hk : ∀ t, k ≤ t → s.todo t = [])
    {R : Nat} (hR : ∀ t, t < k → ∀ m, .acquire m ∈ s.todo t → rank m ≤ R) (N : Nat) :
    ∀ t m rest, s.todo t = .acquire m :: rest → R < rank m + N →
      ∃ u, DependsOn s t u ∧ (Enabled s u ∨ ∃ f, WaitsFor s u f ∧ s.lock f = .abandoned) := by
  induction N with
  | zero =>
    intro t m rest ht hlt
    have htk : t < k := by
      apply Classical.byContradiction
      intro hn
      rw [hk t (by omega)] at ht; cases ht
    have := hR t htk m (by rw [ht]; exact List.mem_cons_self)
    omega
  | succ N ih =>
    intro t m rest ht hlt
    cases hm : s.lock m with
    | free =>
      refine ⟨t, .self t, Or.inl ⟨by simp [Done, ht], ?_⟩⟩
      rintro f ⟨⟨r, e⟩, hh⟩
      rw [ht] at e; cases e; exact hh hm
    | abandoned => exact ⟨t, .self t, Or.inr ⟨m, ⟨⟨rest, ht⟩, by rw [hm]; simp⟩, hm⟩⟩
    | held u =>
      have hw : WaitsFor s t m := ⟨⟨rest, ht⟩, by rw [hm]; simp⟩
      obtain ⟨held, hi⟩ := h u
      have hmem := (hi.holds m).2 hm
      have hf := hi.future
      cases hu : s.todo u with
      | nil => rw [hu] at hf; simp only [track, Option.some.injEq] at hf; rw [hf] at hmem; cases hmem
      | cons a rest' =>
        cases a with
        | release x => exact ⟨u, .wait hw hm (.self u), Or.inl (not_waits hu (by simp))⟩
        | abandon x => exact ⟨u, .wait hw hm (.self u), Or.inl (not_waits hu (by simp))⟩
        | acquire x =>
          rw [hu] at hf
          simp only [track] at hf
          split at hf
          · rename_i hr
            have := List.all_eq_true.1 hr m hmem
            simp only [below, decide_eq_true_eq] at this
            obtain ⟨v, hv, hc⟩ := ih u x rest' hu (by omega)
            exact ⟨v, .wait hw hm hv, hc⟩
          · cases hf

theorem cause {rank : Nat → Nat} {s : State} (h : Inv (below rank) s) {k : Nat} (hk : ∀ t, k ≤ t → s.todo t = []) (t : Nat)
    (hn : ¬ Done s t) : ∃ u, DependsOn s t u ∧ (Enabled s u ∨ ∃ f, WaitsFor s u f ∧ s.lock f = .abandoned) := by
  obtain ⟨R, hR⟩ := bound_threads rank s k
  cases htodo : s.todo t with
  | nil => exact absurd htodo hn
  | cons a rest =>
    cases a with
    | release m => exact ⟨t, .self t, Or.inl (not_waits htodo (by simp))⟩
    | abandon m => exact ⟨t, .self t, Or.inl (not_waits htodo (by simp))⟩
    | acquire m => exact cause_of_waiting h hk hR (R + 1) t m rest htodo (by omega)

/-! ### Fair schedules -/

theorem step_work (k : Nat) (s : State) (hk : ∀ t, k ≤ t → s.todo t = []) (t : Nat) :
    step s t = s ∨ work k (step s t) < work k s := by
  unfold step
  cases htodo : s.todo t with
  | nil => exact Or.inl rfl
  | cons a rest =>
    have htk : t < k := by
      apply Classical.byContradiction
      intro hn
      rw [hk t (by omega)] at htodo; cases htodo
    have key : ∀ l, work k { lock := l, todo := fun u => if u = t then rest else s.todo u } < work k s := by
      intro l
      refine MF.Lock.sum_range_lt k _ _ t htk ?_ ?_
      · intro u hu; simp only [if_neg hu]
      · simp [htodo]
    cases a with
    | acquire m =>
      simp only
      split
      · exact Or.inr (key _)
      · exact Or.inl rfl
    | release m => exact Or.inr (key _)
    | abandon m => exact Or.inr (key _)

theorem enabled_work (k : Nat) (s : State) (hk : ∀ t, k ≤ t → s.todo t = []) (t : Nat) (he : Enabled s t) :
    work k (step s t) < work k s := by
  rcases step_work k s hk t with h | h
  · exfalso
    obtain ⟨h1, h2⟩ := he
    unfold step at h
    cases htodo : s.todo t with
    | nil => exact h1 htodo
    | cons a rest =>
      rw [htodo] at h
      have hlen : ∀ s' : State, s' = s → s'.todo t = rest → False := by
        intro s' e e2
        rw [e, htodo] at e2
        have := congrArg List.length e2
        simp at this
      cases a with
      | acquire m =>
        simp only at h
        by_cases hm : s.lock m = .free
        · rw [if_pos hm] at h; exact hlen _ h (by simp)
        · exact h2 m ⟨⟨rest, htodo⟩, hm⟩
      | release m => exact hlen _ h (by simp)
      | abandon m => exact hlen _ h (by simp)
  · exact h

theorem exec_work_le (k : Nat) (s : State) (hk : ∀ t, k ≤ t → s.todo t = []) (l : List Nat) :
    exec s l = s ∨ work k (exec s l) < work k s := by
  induction l generalizing s with
  | nil => exact Or.inl rfl
  | cons t l ih =>
    have e : exec s (t :: l) = exec (step s t) l := rfl
    rw [e]
    rcases step_work k s hk t with h1 | h1
    · rw [h1]; exact ih s hk
    · right
      rcases ih (step s t) (idle_exec hk [t]) with h2 | h2
      · rw [h2]; exact h1
      · omega

/-- No lock is abandoned if nobody will. -/
theorem no_abandon_exec {s : State} (hl : ∀ f, s.lock f ≠ .abandoned) (ht : ∀ t f, .abandon f ∉ s.todo t) (l : List Nat) :
    ∀ f, (exec s l).lock f ≠ .abandoned := by
  induction l generalizing s with
  | nil => exact hl
  | cons t l ih =>
    refine ih (s := step s t) ?_ ?_
    · intro f
      unfold step
      cases htodo : s.todo t with
      | nil => exact hl f
      | cons a rest =>
        cases a with
        | acquire m =>
          simp only
          split
          · simp only
            split
            · simp
            · exact hl f
          · exact hl f
        | release m =>
          simp only
          split
          · simp
          · exact hl f
        | abandon m => exact absurd (htodo ▸ List.mem_cons_self) (ht t m)
    · intro u f hm
      obtain ⟨p, hp⟩ := step_suffix s t u
      exact ht u f (hp ▸ List.mem_append_right _ hm)

theorem rounds_finish {rank : Nat → Nat} {k : Nat} (rounds : List (List Nat)) (hr : ∀ l ∈ rounds, ∀ t, t < k → t ∈ l) :
    ∀ {s : State}, Inv (below rank) s → (∀ t, k ≤ t → s.todo t = []) → (∀ f, s.lock f ≠ .abandoned) →
      (∀ t f, .abandon f ∉ s.todo t) → work k s ≤ rounds.length → ∀ t, Done (exec s rounds.flatten) t := by
  induction rounds with
  | nil =>
    intro s h hk _ _ hw t
    apply Classical.byContradiction
    intro hne
    have htk : t < k := by
      apply Classical.byContradiction
      intro hc
      exact hne (hk t (by omega))
    have h0 : work k s = 0 := by simpa using hw
    have : work k { s with todo := fun u => if u = t then [] else s.todo u } < work k s := by
      refine MF.Lock.sum_range_lt k _ _ t htk ?_ ?_
      · intro u hu; simp only [if_neg hu]
      · simp only [if_true, List.length_nil]
        exact List.length_pos_iff.2 hne
    omega
  | cons l rounds ih =>
    intro s h hk hl ht hw
    rw [List.flatten_cons, exec_append]
    have hdone : work k (exec s l) ≤ rounds.length := by
      simp only [List.length_cons] at hw
      by_cases hz : work k s = 0
      · rcases exec_work_le k s hk l with e | e
        · rw [e]; omega
        · omega
      · have hnd : ∃ t, ¬ Done s t := by
          apply Classical.byContradiction
          intro hc
          apply hz
          have : ∀ t, s.todo t = [] := fun t => Classical.byContradiction (fun e => hc ⟨t, e⟩)
          simp only [work, this, List.length_nil]
          rw [List.map_const']
          simp
        obtain ⟨t, hnt⟩ := hnd
        obtain ⟨u, _, hu⟩ := cause h hk t hnt
        rcases hu with hu | ⟨f, _, hf⟩
        · have huk : u < k := by
            apply Classical.byContradiction
            intro hc
            exact hu.1 (hk u (by omega))
          obtain ⟨pre, post, rfl⟩ := List.append_of_mem (hr l List.mem_cons_self u huk)
          have hlt : work k (exec s (pre ++ u :: post)) < work k s := by
            rw [exec_append]
            have e : exec (exec s pre) (u :: post) = exec (step (exec s pre) u) post := rfl
            rw [e]
            have hk1 := idle_exec hk pre
            have h2 := exec_work_le k (step (exec s pre) u) (idle_exec hk1 [u]) post
            rcases exec_work_le k s hk pre with h1 | h1
            · rw [h1] at h2 ⊢
              have h3 := enabled_work k s hk u hu
              rcases h2 with h2 | h2
              · rw [h2]; exact h3
              · omega
            · have h3 : work k (step (exec s pre) u) ≤ work k (exec s pre) := by
                rcases step_work k (exec s pre) hk1 u with h | h
                · rw [h]; exact Nat.le_refl _
                · omega
              rcases h2 with h2 | h2
              · rw [h2]; omega
              · omega
          omega
        · exact absurd hf (hl f)
    refine ih (fun l' hl' => hr l' (List.mem_cons_of_mem _ hl')) (inv_exec h l) (idle_exec hk l) (no_abandon_exec hl ht l) ?_ hdone
    intro u f hm
    obtain ⟨p, hp⟩ := exec_suffix s l u
    exact ht u f (hp ▸ List.mem_append_right _ hm)

/-- Calls that return abandon nothing. -/
theorem does_returned {net : Net} {cs : List Call} {as : List Act} {e : End} (h : Does net cs as e) (he : e = .returned) (f : Nat) :
    .abandon f ∉ as := by
  induction h with
  | nil => simp
  | raise => cases he
  | other _ ih => exact ih he
  | plain _ _ _ ih => exact ih he
  | ignored _ _ ih => exact ih he
  | sync _ _ _ _ ih ih' => simp [ih rfl, ih' he]
  | syncRaised => cases he
  | ownRaise => cases he

theorem runs_returned {net : Net} {ps : List (List Call)} {as : List Act} {es : List End} (h : Runs net ps as es)
    (he : ∀ e ∈ es, e = .returned) (f : Nat) : .abandon f ∉ as := by
  induction h with
  | nil => simp
  | cons h _ ih =>
    rw [List.mem_append, not_or]
    exact ⟨does_returned h (he _ List.mem_cons_self) f, ih (fun e h => he e (List.mem_cons_of_mem _ h))⟩

end MF.PyNet
