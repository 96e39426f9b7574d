import Verif.Spec.Mutex
import Verif.Proofs.Basic
/-
Lemmas for the concurrency properties.
-/
namespace MF.Mutex

variable {σ Op L : Type}

@[simp] theorem setThread_same (f : Nat → Thread Op L) (t : Nat) (x : Thread Op L) : setThread f t x t = x := by
  simp [setThread]

theorem setThread_ne (f : Nat → Thread Op L) {t u : Nat} (x : Thread Op L) (h : u ≠ t) : setThread f t x u = f u := by
  simp [setThread, h]

theorem callsOf_snoc (t u : Nat) (op : Op) (o : List (Nat × Op)) :
    callsOf t (o ++ [(u, op)]) = callsOf t o ++ (if u = t then [op] else []) := by
  unfold callsOf
  by_cases h : u = t <;> simp [h]

theorem sequentially_snoc {seq : σ → Op → Except Fault σ} {s s1 : σ} {o : List (Nat × Op)} (h : sequentially seq s o = .ok s1)
    (t : Nat) (op : Op) : sequentially seq s (o ++ [(t, op)]) = seq s1 op := by
  unfold sequentially at h ⊢
  rw [List.map_append, runE_append, h]
  simp only [List.map_cons, List.map_nil, runE]
  cases seq s1 op <;> rfl

/-- Where the execution stands with respect to the sequential one. -/
inductive At (impl : Impl σ Op L) (seq : σ → Op → Except Fault σ) (s0 : σ) (c : Config σ Op L) : Prop where
  | free (ho : c.owner = none) (hq : Quiet c) (hs : sequentially seq s0 c.order = .ok c.shared)
  | held (t : Nat) (ho : c.owner = some t) (o : List (Nat × Op)) (op : Op) (s1 : σ) (l : L) (hor : c.order = o ++ [(t, op)])
      (hin : (c.threads t).inside = some (true, l)) (hq : ∀ u, u ≠ t → (c.threads u).inside = none)
      (hs : sequentially seq s0 o = .ok s1) (hr : ∀ r, Runs impl l c.shared r → Runs impl (impl.enter op) s1 r)

structure LinInv (impl : Impl σ Op L) (seq : σ → Op → Except Fault σ) (s0 : σ) (progs : Nat → List Op) (c : Config σ Op L) :
    Prop where
  programs : ∀ t, callsOf t c.order ++ (c.threads t).todo = progs t
  stand : At impl seq s0 c

theorem linInv_start (impl : Impl σ Op L) (seq : σ → Op → Except Fault σ) (s0 : σ) (progs : Nat → List Op) :
    LinInv impl seq s0 progs (start s0 progs) :=
  ⟨fun _ => rfl, .free rfl (fun _ => rfl) rfl⟩

/-- One step, if all calls take the mutex. -/
theorem linInv_step {impl : Impl σ Op L} {seq : σ → Op → Except Fault σ} {locked : Op → Bool} {s0 : σ}
    {progs : Nat → List Op} (himpl : Implements impl seq) (hl : ∀ t, ∀ op ∈ progs t, locked op = true) {c : Config σ Op L}
    (h : LinInv impl seq s0 progs c) (t : Nat) :
    (∃ c', step impl locked c t = .ok c' ∧ LinInv impl seq s0 progs c') ∨
    (∃ f, step impl locked c t = .error f ∧ sequentially seq s0 c.order = .error f) := by
  unfold step
  cases hin : (c.threads t).inside with
  | some hl' =>
    obtain ⟨b, l⟩ := hl'
    simp only
    cases h.stand with
    | free ho hq hs => have := hq t; rw [hin] at this; cases this
    | held u ho o op s1 l1 hor hin' hq hs hr =>
      have hu : u = t := by
        apply Classical.byContradiction
        intro hne
        have := hq t (fun e => hne e.symm)
        rw [hin] at this; cases this
      subst hu
      rw [hin] at hin'
      cases hin'
      cases hm : impl.micro l c.shared with
      | error f =>
        right
        refine ⟨f, rfl, ?_⟩
        rw [hor, sequentially_snoc hs]
        exact himpl op s1 _ (hr _ (.fault hm))
      | ok sl =>
        obtain ⟨s', ol⟩ := sl
        left
        cases ol with
        | some l' =>
          refine ⟨_, rfl, ?_, ?_⟩
          · intro v
            by_cases hv : v = u
            · subst hv; simp only [setThread_same]; exact h.programs v
            · simp only [setThread_ne _ _ hv]; exact h.programs v
          · refine .held u ho o op s1 l' hor (by simp) ?_ hs ?_
            · intro v hv; simp only [setThread_ne _ _ hv]; exact hq v hv
            · intro r hr'; exact hr r (.more hm hr')
        | none =>
          refine ⟨_, rfl, ?_, ?_⟩
          · intro v
            by_cases hv : v = u
            · subst hv; simp only [setThread_same]; exact h.programs v
            · simp only [setThread_ne _ _ hv]; exact h.programs v
          · refine .free (by simp) ?_ ?_
            · intro v
              by_cases hv : v = u
              · subst hv; simp
              · simp only [setThread_ne _ _ hv]; exact hq v hv
            · simp only
              rw [hor, sequentially_snoc hs]
              exact himpl op s1 _ (hr _ (.last hm))
  | none =>
    left
    simp only
    cases htodo : (c.threads t).todo with
    | nil => exact ⟨c, rfl, h⟩
    | cons op rest =>
      simp only
      have hlock : locked op = true := by
        apply hl t op
        rw [← h.programs t, htodo]; simp
      rw [if_pos hlock]
      cases h.stand with
      | held u ho o op' s1 l1 hor hin' hq hs hr =>
        rw [if_neg (by rw [ho]; simp)]
        exact ⟨c, rfl, h⟩
      | free ho hq hs =>
        rw [if_pos ho]
        refine ⟨_, rfl, ?_, ?_⟩
        · intro v
          simp only [callsOf_snoc]
          by_cases hv : v = t
          · subst hv
            rw [if_pos rfl, setThread_same]
            simp only
            rw [List.append_assoc, List.singleton_append, ← htodo]
            exact h.programs v
          · rw [if_neg (fun e => hv e.symm), setThread_ne _ _ hv, List.append_nil]
            exact h.programs v
        · refine .held t rfl c.order op c.shared (impl.enter op) rfl (by simp) ?_ hs (fun r hr => hr)
          intro v hv; simp only [setThread_ne _ _ hv]; exact hq v

theorem exec_lin {impl : Impl σ Op L} {seq : σ → Op → Except Fault σ} {locked : Op → Bool} {s0 : σ}
    {progs : Nat → List Op} (himpl : Implements impl seq) (hl : ∀ t, ∀ op ∈ progs t, locked op = true) (schedule : List Nat) :
    (∃ c, exec impl locked s0 progs schedule = .ok c ∧ LinInv impl seq s0 progs c) ∨
    (∃ f o, exec impl locked s0 progs schedule = .error f ∧ sequentially seq s0 o = .error f ∧
      ∀ t, ∃ rest, callsOf t o ++ rest = progs t) := by
  unfold exec
  induction schedule using snoc_induction with
  | h0 => exact Or.inl ⟨_, rfl, linInv_start impl seq s0 progs⟩
  | hs l t ih =>
    rw [runE_append]
    rcases ih with ⟨c, h1, h2⟩ | ⟨f, o, h1, h2, h3⟩
    · rw [h1]
      simp only [runE]
      rcases linInv_step himpl hl h2 t with ⟨c', h3, h4⟩ | ⟨f, h3, h4⟩
      · left; rw [h3]; exact ⟨c', rfl, h4⟩
      · right; rw [h3]; exact ⟨f, c.order, rfl, h4, fun v => ⟨_, h2.programs v⟩⟩
    · right; rw [h1]; exact ⟨f, o, rfl, h2, h3⟩

theorem atomic_implements (seq : σ → Op → Except Fault σ) : Implements (atomic seq) seq := by
  intro op s r h
  cases h with
  | fault h =>
    simp only [atomic] at h
    cases hs : seq s op with
    | error f => rw [hs] at h; cases h; rfl
    | ok s' => rw [hs] at h; cases h
  | last h =>
    simp only [atomic] at h
    cases hs : seq s op with
    | error f => rw [hs] at h; cases h
    | ok s' => rw [hs] at h; cases h; rfl
  | more h hr =>
    simp only [atomic] at h
    cases hs : seq s op with
    | error f => rw [hs] at h; cases h
    | ok s' => rw [hs] at h; cases h

theorem exec_owner {impl : Impl σ Op L} {locked : Op → Bool} {progs : Nat → List Op} {s0 : σ} {schedule : List Nat}
    {c : Config σ Op L} (h : exec impl locked s0 progs schedule = .ok c) :
    ∀ t l, (c.threads t).inside = some (true, l) → c.owner = some t := by
  refine runE_induction (P := fun _ (c : Config σ Op L) => ∀ t l, (c.threads t).inside = some (true, l) → c.owner = some t)
    (step := step impl locked) (s0 := start s0 progs) ?_ ?_ schedule c h
  · intro t l ht; cases ht
  · intro _ c t c' _ ih hs u l hu
    unfold step at hs
    cases hin : (c.threads t).inside with
    | some bl =>
      obtain ⟨b, l0⟩ := bl
      rw [hin] at hs
      simp only at hs
      cases hm : impl.micro l0 c.shared with
      | error f => rw [hm] at hs; cases hs
      | ok sl =>
        obtain ⟨s', ol⟩ := sl
        rw [hm] at hs
        cases ol with
        | some l' =>
          cases hs
          by_cases hut : u = t
          · subst hut
            simp only [setThread_same, Option.some.injEq, Prod.mk.injEq] at hu
            exact ih u l0 (by rw [hin, hu.1])
          · simp only [setThread_ne _ _ hut] at hu; exact ih u l hu
        | none =>
          cases hs
          by_cases hut : u = t
          · subst hut; simp only [setThread_same] at hu; cases hu
          · simp only [setThread_ne _ _ hut] at hu
            have hown := ih u l hu
            cases b with
            | false => exact hown
            | true => have := ih t l0 hin; rw [hown] at this; cases this; exact absurd rfl hut
    | none =>
      rw [hin] at hs
      simp only at hs
      cases htodo : (c.threads t).todo with
      | nil => rw [htodo] at hs; cases hs; exact ih u l hu
      | cons op rest =>
        rw [htodo] at hs
        simp only at hs
        split at hs
        · split at hs
          · rename_i ho
            cases hs
            by_cases hut : u = t
            · rw [hut]
            · simp only [setThread_ne _ _ hut] at hu
              have := ih u l hu
              rw [ho] at this; cases this
          · cases hs; exact ih u l hu
        · cases hs
          by_cases hut : u = t
          · subst hut; simp at hu
          · simp only [setThread_ne _ _ hut] at hu; exact ih u l hu

/-! ### Data races -/

theorem HB.lt {tr : List Event} {i j : Nat} (h : HB tr i j) : i < j := by
  induction h with
  | po _ _ h _ => exact h
  | sync _ _ h => exact h
  | trans _ _ h1 h2 => omega

theorem getElem?_snoc {α : Type} {l : List α} {a b : α} {i : Nat} (h : (l ++ [a])[i]? = some b) :
    (l[i]? = some b) ∨ (i = l.length ∧ a = b) := by
  by_cases hi : i < l.length
  · left; rw [List.getElem?_append_left hi] at h; exact h
  · right
    rw [List.getElem?_append_right (by omega)] at h
    by_cases h0 : i - l.length = 0
    · rw [h0] at h; simp at h; exact ⟨by omega, h⟩
    · rw [List.getElem?_eq_none (by simp; omega)] at h; cases h

theorem getElem?_mono {α : Type} {l m : List α} {b : α} {i : Nat} (h : l[i]? = some b) : (l ++ m)[i]? = some b := by
  have : i < l.length := by
    apply Classical.byContradiction
    intro hn
    rw [List.getElem?_eq_none (by omega)] at h; cases h
  rw [List.getElem?_append_left this]; exact h

theorem HB.mono {tr : List Event} {i j : Nat} (m : List Event) (h : HB tr i j) : HB (tr ++ m) i j := by
  induction h with
  | po h1 h2 h3 h4 => exact .po (getElem?_mono h1) (getElem?_mono h2) h3 h4
  | sync h1 h2 h3 => exact .sync (getElem?_mono h1) (getElem?_mono h2) h3
  | trans _ _ h1 h2 => exact .trans h1 h2

/-- Every access is followed by a release of its thread, unless that thread owns the mutex; the owner has acquired the mutex
after the releases of the other threads. -/
structure RaceInv (c : Config σ Op L) : Prop where
  noRace : ¬ Race c.trace
  free : c.owner = none → ∀ (i t : Nat), c.trace[i]? = some (Event.access t) →
    ∃ k : Nat, i < k ∧ c.trace[k]? = some (Event.release t)
  held : ∀ u, c.owner = some u → ∀ (i t : Nat), c.trace[i]? = some (Event.access t) → t ≠ u →
    ∃ k m : Nat, i < k ∧ k < m ∧ c.trace[k]? = some (Event.release t) ∧ c.trace[m]? = some (Event.acquire u)
  inside : ∀ t h l, (c.threads t).inside = some (h, l) → h = true ∧ c.owner = some t

theorem lt_of_getElem? {α : Type} {l : List α} {a : α} {i : Nat} (h : l[i]? = some a) : i < l.length := by
  apply Classical.byContradiction
  intro hn
  rw [List.getElem?_eq_none (by omega)] at h; cases h

theorem race_snoc {tr : List Event} {e : Event} (h : ¬ Race tr)
    (he : ∀ u, e = .access u → ∀ i t, t ≠ u → tr[i]? = some (.access t) → HB (tr ++ [e]) i tr.length) : ¬ Race (tr ++ [e]) := by
  rintro ⟨i, j, t, u, hlt, hne, hi, hj, hno⟩
  rcases getElem?_snoc hj with hj | ⟨hj, he'⟩
  · rcases getElem?_snoc hi with hi | ⟨hi, _⟩
    · exact h ⟨i, j, t, u, hlt, hne, hi, hj, fun hb => hno (hb.mono _)⟩
    · have : j < tr.length := by
        apply Classical.byContradiction
        intro hn
        rw [List.getElem?_eq_none (by omega)] at hj; cases hj
      omega
  · rcases getElem?_snoc hi with hi | ⟨hi, _⟩
    · subst hj; exact hno (he u he' i t hne hi)
    · omega

theorem raceInv_step {impl : Impl σ Op L} {locked : Op → Bool} {c c' : Config σ Op L} {t : Nat}
    (hl : ∀ t, ∀ op ∈ (c.threads t).todo, locked op = true) (h : RaceInv c) (hs : step impl locked c t = .ok c') :
    RaceInv c' ∧ ∀ u, ∀ op ∈ (c'.threads u).todo, locked op = true := by
  unfold step at hs
  cases hin : (c.threads t).inside with
  | some bl =>
    obtain ⟨b, l⟩ := bl
    rw [hin] at hs
    simp only at hs
    obtain ⟨hb, hown⟩ := h.inside t b l hin
    subst hb
    -- the access of the owner
    have hacc : ¬ Race (c.trace ++ [.access t]) := by
      refine race_snoc h.noRace ?_
      intro u hu i v hv hi
      cases hu
      obtain ⟨k, m, hik, hkm, hk, hm⟩ := h.held t hown i v hi hv
      exact .trans (.trans (.po (getElem?_mono hi) (getElem?_mono hk) hik rfl) (.sync (getElem?_mono hk) (getElem?_mono hm) hkm))
        (.po (b := .access t) (getElem?_mono hm) (by simp) (lt_of_getElem? hm) rfl)
    have htodo : ∀ (x : Option (Bool × L)) u, ∀ op ∈ (setThread c.threads t { c.threads t with inside := x } u).todo,
        locked op = true := by
      intro x u op hop
      by_cases hu : u = t
      · subst hu; rw [setThread_same] at hop; exact hl u op hop
      · rw [setThread_ne _ _ hu] at hop; exact hl u op hop
    cases hm : impl.micro l c.shared with
    | error f => rw [hm] at hs; cases hs
    | ok sl =>
      obtain ⟨s', ol⟩ := sl
      rw [hm] at hs
      cases ol with
      | some l' =>
        cases hs
        refine ⟨⟨hacc, ?_, ?_, ?_⟩, htodo _⟩
        · intro ho; simp only at ho; rw [hown] at ho; cases ho
        · intro u ho i v hi hv
          simp only at ho
          rw [hown] at ho
          cases ho
          rcases getElem?_snoc hi with hi | ⟨_, hi⟩
          · obtain ⟨k, m, hik, hkm, hk, hm⟩ := h.held t hown i v hi hv
            exact ⟨k, m, hik, hkm, getElem?_mono hk, getElem?_mono hm⟩
          · cases hi; exact absurd rfl hv
        · intro u b l1 hu
          by_cases hut : u = t
          · subst hut
            simp only [setThread_same, Option.some.injEq, Prod.mk.injEq] at hu
            exact ⟨hu.1.symm, hown⟩
          · simp only [setThread_ne _ _ hut] at hu
            exact h.inside u b l1 hu
      | none =>
        simp only [if_true] at hs
        cases hs
        refine ⟨⟨race_snoc hacc (fun u hu => by cases hu), ?_, ?_, ?_⟩, htodo _⟩
        · intro _ i v hi
          simp only at hi ⊢
          rcases getElem?_snoc hi with hi | ⟨_, hi⟩
          · rcases getElem?_snoc hi with hi | ⟨hi, hv⟩
            · by_cases hv : v = t
              · subst hv
                refine ⟨(c.trace ++ [Event.access v]).length, ?_, by simp⟩
                have := lt_of_getElem? hi
                have hlen : (c.trace ++ [Event.access v]).length = c.trace.length + 1 := List.length_append
                omega
              · obtain ⟨k, m, hik, hkm, hk, hm⟩ := h.held t hown i v hi hv
                exact ⟨k, hik, getElem?_mono (getElem?_mono hk)⟩
            · cases hv
              exact ⟨(c.trace ++ [Event.access t]).length, by rw [List.length_append]; simp; omega, by simp⟩
          · cases hi
        · intro u ho; cases ho
        · intro u b l1 hu
          by_cases hut : u = t
          · subst hut; simp only [setThread_same] at hu; cases hu
          · simp only [setThread_ne _ _ hut] at hu
            have := (h.inside u b l1 hu).2
            rw [hown] at this; cases this; exact absurd rfl hut
  | none =>
    rw [hin] at hs
    simp only at hs
    cases htodo : (c.threads t).todo with
    | nil => rw [htodo] at hs; cases hs; exact ⟨h, hl⟩
    | cons op rest =>
      rw [htodo] at hs
      simp only at hs
      have hlock : locked op = true := hl t op (by rw [htodo]; simp)
      rw [if_pos hlock] at hs
      split at hs
      · rename_i ho
        cases hs
        refine ⟨⟨race_snoc h.noRace (fun u hu => by cases hu), ?_, ?_, ?_⟩, ?_⟩
        · intro ho'; cases ho'
        · intro u hu i v hi hv
          cases hu
          simp only at hi ⊢
          rcases getElem?_snoc hi with hi | ⟨_, hi⟩
          · obtain ⟨k, hik, hk⟩ := h.free ho i v hi
            exact ⟨k, c.trace.length, hik, lt_of_getElem? hk, getElem?_mono hk, by simp⟩
          · cases hi
        · intro u b l1 hu
          by_cases hut : u = t
          · subst hut
            simp only [setThread_same, Option.some.injEq, Prod.mk.injEq] at hu
            exact ⟨hu.1.symm, rfl⟩
          · simp only [setThread_ne _ _ hut] at hu
            have := (h.inside u b l1 hu).2
            rw [ho] at this; cases this
        · intro u op' hop
          by_cases hu : u = t
          · subst hu
            simp only [setThread_same] at hop
            exact hl u op' (by rw [htodo]; exact List.mem_cons_of_mem _ hop)
          · simp only [setThread_ne _ _ hu] at hop; exact hl u op' hop
      · cases hs; exact ⟨h, hl⟩

theorem exec_raceInv {impl : Impl σ Op L} {locked : Op → Bool} {s0 : σ} {progs : Nat → List Op}
    (hl : ∀ t, ∀ op ∈ progs t, locked op = true) {schedule : List Nat} {c : Config σ Op L}
    (h : exec impl locked s0 progs schedule = .ok c) : RaceInv c := by
  have key := runE_induction (P := fun _ (c : Config σ Op L) => RaceInv c ∧ ∀ u, ∀ op ∈ (c.threads u).todo, locked op = true)
    (step := step impl locked) (s0 := start s0 progs) ⟨⟨?_, ?_, ?_, ?_⟩, hl⟩ ?_ schedule c h
  · exact key.1
  · rintro ⟨i, j, t, u, _, _, hi, _⟩
    have := lt_of_getElem? hi
    simp [start] at this
  · intro _ i t hi
    have := lt_of_getElem? hi
    simp [start] at this
  · intro u hu; cases hu
  · intro t b l hu; cases hu
  · intro ops c t c' _ hc hs
    exact raceInv_step hc.2 hc.1 hs

/-- The first event of a thread, if it is not an acquisition, has nothing before it. -/
theorem not_HB_first {tr : List Event} {j : Nat} {e : Event} (hj : tr[j]? = some e) (hacq : ∀ t, e ≠ .acquire t)
    (hfirst : ∀ i x, i < j → tr[i]? = some x → x.thread ≠ e.thread) (i : Nat) : ¬ HB tr i j := by
  intro h
  have key : ∀ {i k : Nat}, HB tr i k → k = j → False := by
    intro i k hb
    induction hb with
    | po h1 h2 h3 h4 =>
      intro hk; subst hk
      rw [hj] at h2; cases h2
      exact hfirst _ _ h3 h1 h4
    | sync h1 h2 h3 =>
      intro hk; subst hk
      rw [hj] at h2; cases h2
      exact hacq _ rfl
    | trans _ _ _ ih2 => exact ih2
  exact key h rfl

/-- One thread makes the first two steps of its first call. -/
theorem first_access (impl : Impl σ Op L) {locked : Op → Bool} {progs : Nat → List Op} (s0 : σ) (t u : Nat) (htu : t ≠ u)
    (op' : Op) (rest' : List Op) (ht : progs t = op' :: rest') (s1 : σ) (o1 : Option L)
    (h1 : impl.micro (impl.enter op') s0 = .ok (s1, o1)) :
    ∃ c : Config σ Op L, exec impl locked s0 progs [t, t] = .ok c ∧ c.shared = s1 ∧
      c.threads u = { todo := progs u, inside := none } ∧ (∃ i : Nat, c.trace[i]? = some (Event.access t)) ∧
      ∀ x ∈ c.trace, x.thread = t := by
  have hut : u ≠ t := fun e => htu e.symm
  unfold exec
  cases hlk : locked op' <;> cases o1 <;>
    simp [runE, step, start, ht, hlk, h1, setThread_ne _ _ hut, Event.thread]
  · exact ⟨0, rfl⟩
  · exact ⟨0, rfl⟩
  · exact ⟨1, rfl⟩
  · exact ⟨1, rfl⟩

/-- A thread makes the first two steps of a call without mutex. -/
theorem then_unlocked (impl : Impl σ Op L) {locked : Op → Bool} (c : Config σ Op L) (u : Nat) (op : Op) (rest : List Op)
    (hu : c.threads u = { todo := op :: rest, inside := none }) (hlock : locked op = false) (s2 : σ) (o2 : Option L)
    (h2 : impl.micro (impl.enter op) c.shared = .ok (s2, o2)) :
    ∃ c' : Config σ Op L, runE (step impl locked) c [u, u] = .ok c' ∧ c'.trace = c.trace ++ [.access u] := by
  cases o2 <;> simp [runE, step, hu, hlock, h2]

end MF.Mutex
