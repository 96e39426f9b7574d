import Verif.Spec.PyConc
import Verif.Proofs.Basic
/-
Helper lemmas for threads that use one Python SimpleFilter.
-/
namespace MF.PyFilter

variable {C M : Type}

theorem texec_snoc (cbs : List C) (progs : Nat → List (TOp C M)) (sch : List Nat) (t : Nat) :
    texec cbs progs (sch ++ [t]) = tstep (texec cbs progs sch) t := by
  simp [texec, List.foldl_append]

theorem setThr_same (f : Nat → Thr C M) (t : Nat) (x : Thr C M) : setThr f t x t = x := by simp [setThr]

theorem setThr_ne (f : Nat → Thr C M) {t u : Nat} (x : Thr C M) (h : u ≠ t) : setThr f t x u = f u := by simp [setThr, h]

/-- The ways a thread can step. -/
inductive TStep (c : Conc C M) (t : Nat) : Conc C M → Prop where
  | stop (h1 : (c.threads t).pc = .idle) (h2 : (c.threads t).todo = []) : TStep c t c
  | beginRegister (cb rest) (h1 : (c.threads t).pc = .idle) (h2 : (c.threads t).todo = .register cb :: rest) :
      TStep c t { c with threads := setThr c.threads t ⟨rest, .registering cb c.callbacks.length⟩ }
  | beginSignal (msg rest) (h1 : (c.threads t).pc = .idle) (h2 : (c.threads t).todo = .signal msg :: rest) :
      TStep c t { c with threads := setThr c.threads t ⟨rest, .looping msg c.callbacks.length 0⟩ }
  | register (cb conn) (h1 : (c.threads t).pc = .registering cb conn) :
      TStep c t { c with callbacks := put c.callbacks conn cb, threads := setThr c.threads t ⟨(c.threads t).todo, .idle⟩,
                         ids := c.ids ++ [(t, cb, conn)] }
  | raise (msg size pos) (h1 : (c.threads t).pc = .looping msg size pos) (h2 : c.callbacks.length ≠ size) :
      TStep c t { c with threads := setThr c.threads t ⟨(c.threads t).todo, .idle⟩, raised := c.raised ++ [(t, msg)] }
  | done (msg size pos) (h1 : (c.threads t).pc = .looping msg size pos) (h2 : c.callbacks.length = size)
      (h3 : c.callbacks.length ≤ pos) :
      TStep c t { c with threads := setThr c.threads t ⟨(c.threads t).todo, .idle⟩, returned := c.returned ++ [(t, msg)] }
  | call (msg size pos cb) (h1 : (c.threads t).pc = .looping msg size pos) (h2 : c.callbacks.length = size)
      (h3 : c.callbacks[pos]? = some cb) :
      TStep c t { c with threads := setThr c.threads t ⟨(c.threads t).todo, .looping msg size (pos + 1)⟩,
                         calls := c.calls ++ [(t, cb, msg)] }

theorem tstep_cases (c : Conc C M) (t : Nat) : TStep c t (tstep c t) := by
  unfold tstep
  dsimp only
  cases hpc : (c.threads t).pc with
  | idle =>
    cases htd : (c.threads t).todo with
    | nil => exact .stop hpc htd
    | cons op rest =>
      cases op with
      | register cb => exact .beginRegister cb rest hpc htd
      | signal msg => exact .beginSignal msg rest hpc htd
  | registering cb conn => exact .register cb conn hpc
  | looping msg size pos =>
    dsimp only
    by_cases hs : c.callbacks.length = size
    · rw [if_neg (by simp [hs])]
      cases hc : c.callbacks[pos]? with
      | none => exact .done msg size pos hpc hs (List.getElem?_eq_none_iff.mp hc)
      | some cb => exact .call msg size pos cb hpc hs hc
    · rw [if_pos hs]
      exact .raise msg size pos hpc hs

/-- A thread's own view changes only when it steps. -/
theorem tstep_other {c c' : Conc C M} {t u : Nat} (h : TStep c t c') (hu : u ≠ t) :
    c'.threads u = c.threads u ∧ calledBy c' u = calledBy c u := by
  cases h with
  | stop => exact ⟨rfl, rfl⟩
  | beginRegister => exact ⟨setThr_ne _ _ hu, rfl⟩
  | beginSignal => exact ⟨setThr_ne _ _ hu, rfl⟩
  | register => exact ⟨setThr_ne _ _ hu, rfl⟩
  | raise => exact ⟨setThr_ne _ _ hu, rfl⟩
  | done => exact ⟨setThr_ne _ _ hu, rfl⟩
  | call msg size pos cb =>
    refine ⟨setThr_ne _ _ hu, ?_⟩
    unfold calledBy
    simp [List.filter_append, Ne.symm hu]

theorem length_put (l : List C) (conn : Nat) (cb : C) : l.length ≤ (put l conn cb).length := by
  unfold put
  split <;> simp

/-! ### Nobody registers -/

/-- What thread `t` has still to call if the callbacks stay as they are. -/
def remaining (cbs : List C) (th : Thr C M) : List (C × M) :=
  (match th.pc with
    | .looping msg _ pos => (cbs.drop pos).map (fun cb => (cb, msg))
    | _ => []) ++ (outputs th.todo).flatMap (fun msg => cbs.map (fun cb => (cb, msg)))

structure Fixed (cbs : List C) (progs : Nat → List (TOp C M)) (c : Conc C M) : Prop where
  same : c.callbacks = cbs
  noReg : ∀ t, registers (c.threads t).todo = []
  pc : ∀ t, (c.threads t).pc = .idle ∨ ∃ msg pos, (c.threads t).pc = .looping msg cbs.length pos
  raised : c.raised = []
  prog : ∀ t, calledBy c t ++ remaining cbs (c.threads t) = (outputs (progs t)).flatMap (fun msg => cbs.map (fun cb => (cb, msg)))

theorem fixed_init (cbs : List C) (progs : Nat → List (TOp C M)) (h : ∀ t, registers (progs t) = []) :
    Fixed cbs progs (tstart cbs progs) :=
  ⟨rfl, h, fun _ => Or.inl rfl, rfl, fun _ => rfl⟩

theorem fixed_step {cbs : List C} {progs : Nat → List (TOp C M)} {c : Conc C M} (hc : Fixed cbs progs c) (t : Nat) :
    Fixed cbs progs (tstep c t) := by
  have hst := tstep_cases c t
  generalize tstep c t = c' at hst
  have hother := fun u (hu : u ≠ t) => tstep_other hst hu
  have lift : ∀ {P : Nat → Prop}, P t → (∀ u, u ≠ t → P u) → ∀ u, P u := by
    intro P h1 h2 u
    by_cases hu : u = t
    · subst hu; exact h1
    · exact h2 u hu
  have hprog := hc.prog t
  have hpct := hc.pc t
  have hnr := hc.noReg t
  have h2 : ∀ u, u ≠ t → registers (c'.threads u).todo = [] := fun u hu => by rw [(hother u hu).1]; exact hc.noReg u
  have h3 : ∀ u, u ≠ t → ((c'.threads u).pc = .idle ∨ ∃ msg pos, (c'.threads u).pc = .looping msg cbs.length pos) :=
    fun u hu => by rw [(hother u hu).1]; exact hc.pc u
  have h4 : ∀ u, u ≠ t → calledBy c' u ++ remaining cbs (c'.threads u) =
      (outputs (progs u)).flatMap (fun msg => cbs.map (fun cb => (cb, msg))) :=
    fun u hu => by rw [(hother u hu).1, (hother u hu).2]; exact hc.prog u
  cases hst with
  | stop => exact hc
  | beginRegister cb rest e1 e2 => rw [e2] at hnr; cases hnr
  | beginSignal msg rest e1 e2 =>
    rw [e2] at hnr
    refine ⟨hc.same, lift (by simpa [setThr, registers] using hnr) h2,
      lift (Or.inr ⟨msg, 0, by simp [setThr, hc.same]⟩) h3, hc.raised, lift ?_ h4⟩
    rw [← hprog]
    simp [setThr, remaining, e1, e2, outputs, calledBy]
  | register cb conn e1 =>
    rcases hpct with h | ⟨_, _, h⟩ <;> rw [e1] at h <;> cases h
  | raise msg size pos e1 e2 =>
    rcases hpct with h | ⟨_, _, h⟩
    · rw [e1] at h; cases h
    · rw [e1] at h; cases h; exact absurd (by rw [hc.same]) e2
  | done msg size pos e1 e2 e3 =>
    refine ⟨hc.same, lift (by simpa [setThr] using hnr) h2, lift (Or.inl (by simp [setThr])) h3, hc.raised, lift ?_ h4⟩
    rw [← hprog]
    rw [hc.same] at e3
    simp [setThr, remaining, e1, calledBy, List.drop_eq_nil_of_le e3]
  | call msg size pos cb e1 e2 e3 =>
    refine ⟨hc.same, lift (by simpa [setThr] using hnr) h2,
      lift (Or.inr ⟨msg, pos + 1, by simp [setThr, ← e2, hc.same]⟩) h3, hc.raised, lift ?_ h4⟩
    rw [← hprog]
    rw [hc.same] at e3
    obtain ⟨hlt, hcb⟩ := List.getElem?_eq_some_iff.mp e3
    simp [setThr, remaining, e1, calledBy, List.drop_eq_getElem_cons hlt, hcb, List.filter_append]

theorem texec_fixed (cbs : List C) (progs : Nat → List (TOp C M)) (h : ∀ t, registers (progs t) = []) (sch : List Nat) :
    Fixed cbs progs (texec cbs progs sch) := by
  induction sch using snoc_induction with
  | h0 => exact fixed_init cbs progs h
  | hs sch t ih => rw [texec_snoc]; exact fixed_step ih t

/-! ### One thread registers -/

/-- What the registering thread has begun or not yet begun to register. -/
def pending (th : Thr C M) : List C :=
  (match th.pc with | .registering cb _ => [cb] | _ => []) ++ registers th.todo

structure OneReg (cbs : List C) (progs : Nat → List (TOp C M)) (r : Nat) (c : Conc C M) : Prop where
  noReg : ∀ t, t ≠ r → pending (c.threads t) = []
  conn : ∀ cb k, (c.threads r).pc = .registering cb k → k = c.callbacks.length
  list : c.callbacks ++ pending (c.threads r) = cbs ++ registers (progs r)
  ids : c.ids.map (fun x => x.2.2) = (List.range (c.callbacks.length - cbs.length)).map (cbs.length + ·)
  le : cbs.length ≤ c.callbacks.length

theorem pending_looping {th : Thr C M} {msg : M} {size pos : Nat} (h : th.pc = .looping msg size pos) :
    pending th = registers th.todo := by simp [pending, h]

theorem onereg_step {cbs : List C} {progs : Nat → List (TOp C M)} {r : Nat} {c : Conc C M} (hc : OneReg cbs progs r c) (t : Nat) :
    OneReg cbs progs r (tstep c t) ∧ c.callbacks <+: (tstep c t).callbacks := by
  have hst := tstep_cases c t
  generalize tstep c t = c' at hst
  have hother := fun u (hu : u ≠ t) => (tstep_other hst hu).1
  have lift : ∀ {P : Nat → Prop}, P t → (∀ u, u ≠ t → P u) → ∀ u, P u := by
    intro P h1 h2 u
    by_cases hu : u = t
    · subst hu; exact h1
    · exact h2 u hu
  -- steps that change neither the dict nor what is pending
  have quiet : c'.callbacks = c.callbacks → c'.ids = c.ids → pending (c'.threads t) = pending (c.threads t) →
      (∀ cb k, (c'.threads t).pc = .registering cb k → t = r → k = c.callbacks.length) →
      OneReg cbs progs r c' ∧ c.callbacks <+: c'.callbacks := by
    intro e1 e2 e3 e4
    refine ⟨⟨?_, ?_, ?_, ?_, ?_⟩, e1 ▸ List.prefix_refl _⟩
    · exact lift (fun h => by rw [e3]; exact hc.noReg t h) (fun u hu h => by rw [hother u hu]; exact hc.noReg u h)
    · intro cb k hk
      rw [e1]
      by_cases hr : r = t
      · subst hr; exact e4 cb k hk rfl
      · rw [hother r hr] at hk; exact hc.conn cb k hk
    · rw [e1]
      by_cases hr : r = t
      · subst hr; rw [e3]; exact hc.list
      · rw [hother r hr]; exact hc.list
    · rw [e1, e2]; exact hc.ids
    · rw [e1]; exact hc.le
  cases hst with
  | stop h1 h2 => exact quiet rfl rfl rfl (fun cb k h => by rw [h1] at h; cases h)
  | beginRegister cb rest e1 e2 =>
    refine quiet rfl rfl ?_ ?_
    · simp [setThr, pending, e1, e2, registers]
    · intro cb' k hk _
      simp [setThr] at hk
      exact hk.2.symm
  | beginSignal msg rest e1 e2 =>
    refine quiet rfl rfl ?_ ?_
    · simp [setThr, pending, e1, e2, registers]
    · intro cb' k hk _
      simp [setThr] at hk
  | register cb conn e1 =>
    have hr : t = r := by
      apply Classical.byContradiction
      intro hne
      have := hc.noReg t hne
      simp [pending, e1] at this
    subst hr
    have hconn := hc.conn cb conn e1
    have hput : put c.callbacks conn cb = c.callbacks ++ [cb] := by
      unfold put
      rw [if_neg (by omega)]
    refine ⟨⟨?_, ?_, ?_, ?_, ?_⟩, ?_⟩
    · intro u hu
      dsimp only
      rw [setThr_ne _ _ hu]
      exact hc.noReg u hu
    · intro cb' k hk
      simp [setThr] at hk
    · dsimp only
      have := hc.list
      simp only [pending, e1] at this
      rw [hput, setThr_same]
      simp [pending, ← this]
    · dsimp only
      have hle := hc.le
      rw [hput, List.map_append, hc.ids, List.length_append]
      have : c.callbacks.length + [cb].length - cbs.length = (c.callbacks.length - cbs.length) + 1 := by
        simp only [List.length_cons, List.length_nil]; omega
      rw [this, List.range_succ, List.map_append]
      congr 1
      simp only [List.map_cons, List.map_nil]
      congr 1
      omega
    · dsimp only
      rw [hput, List.length_append]
      have := hc.le
      omega
    · dsimp only
      rw [hput]
      exact List.prefix_append _ _
  | raise msg size pos e1 e2 =>
    refine quiet rfl rfl ?_ ?_
    · simp [setThr, pending, e1]
    · intro cb' k hk _
      simp [setThr] at hk
  | done msg size pos e1 e2 e3 =>
    refine quiet rfl rfl ?_ ?_
    · simp [setThr, pending, e1]
    · intro cb' k hk _
      simp [setThr] at hk
  | call msg size pos cb e1 e2 e3 =>
    refine quiet rfl rfl ?_ ?_
    · simp [setThr, pending, e1]
    · intro cb' k hk _
      simp [setThr] at hk

theorem texec_onereg (cbs : List C) (progs : Nat → List (TOp C M)) (r : Nat) (h : ∀ t, t ≠ r → registers (progs t) = [])
    (sch : List Nat) : OneReg cbs progs r (texec cbs progs sch) := by
  induction sch using snoc_induction with
  | h0 =>
    refine ⟨fun t ht => ?_, fun cb k hk => ?_, ?_, ?_, Nat.le_refl _⟩
    · simpa [texec, tstart, pending] using h t ht
    · cases hk
    · simp [texec, tstart, pending]
    · simp [texec, tstart]
  | hs sch t ih => rw [texec_snoc]; exact (onereg_step ih t).1

/-! ### One output -/

/-- While the output that began in `c0` is running, its iterator remembers the size the dict had. -/
theorem signalling (c0 : Conc C M) (t : Nat) (msg : M) (rest : List (TOp C M)) (h0 : AboutToSignal c0 t msg rest) :
    ∀ (sch : List Nat), ∃ pre, pre ++ ((sch.foldl tstep (tstep c0 t)).threads t).todo = rest ∧
      (pre = [] → ((sch.foldl tstep (tstep c0 t)).threads t).pc = .idle ∨
        ∃ pos, ((sch.foldl tstep (tstep c0 t)).threads t).pc = .looping msg c0.callbacks.length pos) := by
  intro sch
  induction sch using snoc_induction with
  | h0 =>
    obtain ⟨h1, h2⟩ := h0
    have : tstep c0 t = { c0 with threads := setThr c0.threads t ⟨rest, .looping msg c0.callbacks.length 0⟩ } := by
      unfold tstep
      simp only [h1, h2]
    refine ⟨[], ?_, fun _ => Or.inr ⟨0, ?_⟩⟩
    · simp [this, setThr]
    · simp [this, setThr]
  | hs sch u ih =>
    rw [List.foldl_append]
    generalize sch.foldl tstep (tstep c0 t) = c at ih ⊢
    obtain ⟨pre, e1, e2⟩ := ih
    simp only [List.foldl_cons, List.foldl_nil]
    have hst := tstep_cases c u
    generalize tstep c u = c' at hst ⊢
    by_cases hu : t = u
    · subst hu
      cases hst with
      | stop => exact ⟨pre, e1, e2⟩
      | beginRegister cb rest' h1 h2 =>
        refine ⟨pre ++ [.register cb], ?_, fun h => absurd h (by simp)⟩
        rw [← e1, h2]; simp [setThr]
      | beginSignal m' rest' h1 h2 =>
        refine ⟨pre ++ [.signal m'], ?_, fun h => absurd h (by simp)⟩
        rw [← e1, h2]; simp [setThr]
      | register cb conn h1 =>
        refine ⟨pre, by simpa [setThr] using e1, fun _ => Or.inl (by simp [setThr])⟩
      | raise m' size pos h1 h2 =>
        refine ⟨pre, by simpa [setThr] using e1, fun _ => Or.inl (by simp [setThr])⟩
      | done m' size pos h1 h2 h3 =>
        refine ⟨pre, by simpa [setThr] using e1, fun _ => Or.inl (by simp [setThr])⟩
      | call m' size pos cb h1 h2 h3 =>
        refine ⟨pre, by simpa [setThr] using e1, fun h => Or.inr ⟨pos + 1, ?_⟩⟩
        rcases e2 h with h' | ⟨pos', h'⟩
        · rw [h1] at h'; cases h'
        · rw [h1] at h'; cases h'; simp [setThr]
    · obtain ⟨h, _⟩ := tstep_other hst hu
      refine ⟨pre, by rw [h]; exact e1, fun h' => ?_⟩
      rw [h]; exact e2 h'

/-- While it is running and nothing is replaced, it has called the first callbacks. -/
theorem signalling_calls (cbs : List C) (progs : Nat → List (TOp C M)) (r : Nat) (c0 : Conc C M) (hc0 : OneReg cbs progs r c0)
    (t : Nat) (msg : M) (rest : List (TOp C M)) (h0 : AboutToSignal c0 t msg rest) :
    ∀ (sch : List Nat), OneReg cbs progs r (sch.foldl tstep (tstep c0 t)) ∧
      c0.callbacks <+: (sch.foldl tstep (tstep c0 t)).callbacks ∧
      (∀ pos, ((sch.foldl tstep (tstep c0 t)).threads t).todo = rest →
        ((sch.foldl tstep (tstep c0 t)).threads t).pc = .looping msg c0.callbacks.length pos →
        calledBy (sch.foldl tstep (tstep c0 t)) t = calledBy c0 t ++ (c0.callbacks.take pos).map (fun cb => (cb, msg))) := by
  intro sch
  induction sch using snoc_induction with
  | h0 =>
    obtain ⟨h1, h2⟩ := h0
    have : tstep c0 t = { c0 with threads := setThr c0.threads t ⟨rest, .looping msg c0.callbacks.length 0⟩ } := by
      unfold tstep
      simp only [h1, h2]
    refine ⟨(onereg_step hc0 t).1, (onereg_step hc0 t).2, ?_⟩
    intro pos _ hpc
    simp only [List.foldl_nil, this, setThr_same] at hpc ⊢
    cases hpc
    simp [calledBy]
  | hs sch u ih =>
    obtain ⟨pre, e1, e2⟩ := signalling c0 t msg rest h0 sch
    rw [List.foldl_append]
    generalize sch.foldl tstep (tstep c0 t) = c at ih e1 e2 ⊢
    obtain ⟨i1, i2, i3⟩ := ih
    simp only [List.foldl_cons, List.foldl_nil]
    refine ⟨(onereg_step i1 u).1, i2.trans (onereg_step i1 u).2, ?_⟩
    have hst := tstep_cases c u
    generalize tstep c u = c' at hst ⊢
    intro pos htd hpc
    by_cases hu : t = u
    · subst hu
      cases hst with
      | stop h1 h2 => rw [h1] at hpc; cases hpc
      | beginRegister cb rest' h1 h2 => simp [setThr] at hpc
      | beginSignal m' rest' h1 h2 =>
        exfalso
        rw [h2] at e1
        simp only [setThr_same] at htd
        rw [← htd] at e1
        have := congrArg List.length e1
        simp at this
        omega
      | register cb conn h1 => simp [setThr] at hpc
      | raise m' size pos' h1 h2 => simp [setThr] at hpc
      | done m' size pos' h1 h2 h3 => simp [setThr] at hpc
      | call m' size pos' cb h1 h2 h3 =>
        simp only [setThr_same] at hpc htd
        cases hpc
        have hcall := i3 pos' htd h1
        have hsame : c.callbacks = c0.callbacks := (i2.eq_of_length h2.symm).symm
        rw [hsame] at h3
        obtain ⟨hlt, hcb⟩ := List.getElem?_eq_some_iff.mp h3
        have : calledBy { c with threads := setThr c.threads t ⟨(c.threads t).todo, .looping msg c0.callbacks.length (pos' + 1)⟩,
                                 calls := c.calls ++ [(t, cb, msg)] } t = calledBy c t ++ [(cb, msg)] := by
          simp [calledBy, List.filter_append]
        rw [this, hcall, List.take_succ_eq_append_getElem hlt, hcb]
        simp
    · obtain ⟨h, h'⟩ := tstep_other hst hu
      rw [h'] 
      rw [h] at htd hpc
      exact i3 pos htd hpc

end MF.PyFilter
