import Verif.Proofs.Basic
import Verif.Spec.Network
/-
Lemmas about the model of connected filters.
-/
namespace MF.Network

@[simp] theorem setObj_same (n : Net) (x : Nat) (o : Obj) : (setObj n x o).objs x = o := by simp [setObj]

theorem setObj_ne (n : Net) {x y : Nat} (o : Obj) (h : y ≠ x) : (setObj n x o).objs y = n.objs y := by simp [setObj, h]

/-- Number of callbacks of `f` bound to input `i` of `x`. -/
def count (n : Net) (f x i : Nat) : Nat := (n.objs f).callbacks.countP (fun r => decide (r.sink = x ∧ r.slot = i))

/-! ### disconnectSlots -/

/-- The network after the connections `c i`, `i ∈ l`, were disconnected. -/
def dropped (c : Nat → Option (Nat × Nat)) (l : List Nat) (n : Net) : Net :=
  { n with objs := fun y => { n.objs y with
      callbacks := (n.objs y).callbacks.filter (fun r => !(l.any (fun i => decide (c i = some (y, r.id))))) } }

theorem dropped_nil (c : Nat → Option (Nat × Nat)) (n : Net) : dropped c [] n = n := by
  unfold dropped
  have h : ∀ l : List Reg, l.filter (fun _ => true) = l := fun l => List.filter_eq_self.2 (by simp)
  simp [h]

theorem disconnect_dropped (c : Nat → Option (Nat × Nat)) (n : Net) (i : Nat) (l : List Nat) (n' : Net)
    (h : disconnect n (c i) = .ok n') :
    dropped c l n' = dropped c (i :: l) n ∧ (∀ y, (n'.objs y).alive = (n.objs y).alive) ∧
      ∀ f k, c i = some (f, k) → (n.objs f).alive = true := by
  unfold disconnect at h
  cases hc : c i with
  | none =>
    rw [hc] at h
    simp only [Except.ok.injEq] at h
    subst h
    refine ⟨?_, fun _ => rfl, by intro f k hfk; cases hfk⟩
    unfold dropped
    simp [hc]
  | some p =>
    obtain ⟨f, k⟩ := p
    rw [hc] at h
    simp only at h
    split at h
    · rename_i ha
      simp only [Except.ok.injEq] at h
      subst h
      refine ⟨?_, ?_, ?_⟩
      · unfold dropped setObj
        congr 1
        funext y
        by_cases hy : y = f
        · subst hy
          simp only [if_true, List.filter_filter]
          congr 1
          apply List.filter_congr
          intro r _
          rw [List.any_cons, hc]
          by_cases hr : r.id = k
          · subst hr; simp
          · have : ¬ k = r.id := fun h => hr h.symm
            simp [hr, this]
        · simp only [if_neg hy]
          congr 1
          apply List.filter_congr
          intro r _
          rw [List.any_cons, hc]
          have : ¬ f = y := fun h => hy h.symm
          simp [this]
      · intro y
        by_cases hy : y = f
        · subst hy; simp
        · rw [setObj_ne _ _ hy]
      · intro f' k' h'
        injection h' with h'
        injection h' with h1 h2
        subst h1
        exact ha
    · cases h

theorem disc_list (c : Nat → Option (Nat × Nat)) : ∀ (l : List Nat) (n n' : Net),
    runE (fun m i => disconnect m (c i)) n l = .ok n' →
    n' = dropped c l n ∧ ∀ i ∈ l, ∀ f k, c i = some (f, k) → (n.objs f).alive = true := by
  intro l
  induction l with
  | nil =>
    intro n n' h
    simp only [runE, Except.ok.injEq] at h
    subst h
    exact ⟨(dropped_nil c n).symm, fun i hi => by cases hi⟩
  | cons i l ih =>
    intro n n' h
    simp only [runE] at h
    cases hd : disconnect n (c i) with
    | error f => rw [hd] at h; cases h
    | ok n1 =>
      rw [hd] at h
      obtain ⟨h1, h2⟩ := ih n1 n' h
      obtain ⟨h3, h4, h5⟩ := disconnect_dropped c n i l n1 hd
      refine ⟨by rw [h1, h3], ?_⟩
      intro j hj f k hc
      rcases List.mem_cons.1 hj with rfl | hj
      · exact h5 f k hc
      · rw [← h4]; exact h2 j hj f k hc

theorem disc_list_ok (c : Nat → Option (Nat × Nat)) : ∀ (l : List Nat) (n : Net),
    (∀ i ∈ l, ∀ f k, c i = some (f, k) → (n.objs f).alive = true) →
    ∃ n', runE (fun m i => disconnect m (c i)) n l = .ok n' := by
  intro l
  induction l with
  | nil => intro n _; exact ⟨n, rfl⟩
  | cons i l ih =>
    intro n h
    have hd : ∃ n1, disconnect n (c i) = .ok n1 := by
      unfold disconnect
      cases hc : c i with
      | none => exact ⟨n, rfl⟩
      | some p =>
        obtain ⟨f, k⟩ := p
        have := h i (by simp) f k hc
        simp [this]
    obtain ⟨n1, hn1⟩ := hd
    obtain ⟨_, h4, _⟩ := disconnect_dropped c n i l n1 hn1
    obtain ⟨n', hn'⟩ := ih n1 (fun j hj f k hc => by rw [h4]; exact h j (by simp [hj]) f k hc)
    exact ⟨n', by simp only [runE, hn1]; exact hn'⟩

theorem mem_dropped {c : Nat → Option (Nat × Nat)} {l : List Nat} {n : Net} {f : Nat} {r : Reg} :
    r ∈ ((dropped c l n).objs f).callbacks ↔ r ∈ (n.objs f).callbacks ∧ ∀ i ∈ l, c i ≠ some (f, r.id) := by
  unfold dropped
  simp only [List.mem_filter, Bool.not_eq_true', List.any_eq_false, decide_eq_true_eq]

/-! ### Invariant of the connections -/

structure Inv (n : Net) : Prop where
  ids : ∀ f, ∀ r ∈ (n.objs f).callbacks, r.id < n.next
  nodup : ∀ f, ((n.objs f).callbacks.map (·.id)).Nodup
  conn : ∀ x i f k, (n.objs x).conns i = some (f, k) → k < n.next ∧ i < (n.objs x).kind.slots ∧ x < n.size ∧ f < n.size ∧
    ∀ r ∈ (n.objs f).callbacks, r.id = k → r.sink = x ∧ r.slot = i
  bounds : ∀ f, ∀ r ∈ (n.objs f).callbacks, f < n.size ∧ r.sink < n.size ∧ r.slot < (n.objs r.sink).kind.slots
  recon : ∀ f, ∀ r ∈ (n.objs f).callbacks, (n.objs r.sink).kind.disconnectsOnConnect = true →
    (n.objs r.sink).conns r.slot = some (f, r.id)
  present : ∀ x i f k, (n.objs x).kind.disconnectsOnConnect = false → (n.objs x).alive = true →
    (n.objs x).conns i = some (f, k) → (n.objs f).alive = true → ∃ r ∈ (n.objs f).callbacks, r.id = k
  dead : ∀ x, (n.objs x).alive = true → x < n.size

theorem inv_init : Inv init := by
  constructor <;> intros <;> simp_all [init, noObj]

theorem inv_create {n : Net} (hi : Inv n) (k : Kind) : Inv (create n k) := by
  have hnew : (create n k).objs n.size = { kind := k, alive := true, callbacks := [], conns := fun _ => none } := by
    unfold create; exact setObj_same _ _ _
  have hold : ∀ y, y ≠ n.size → (create n k).objs y = n.objs y := by
    intro y hy; unfold create; exact setObj_ne _ _ hy
  have hcb : ∀ f r, r ∈ ((create n k).objs f).callbacks → f ≠ n.size ∧ r ∈ (n.objs f).callbacks := by
    intro f r hr
    by_cases hf : f = n.size
    · subst hf; rw [hnew] at hr; cases hr
    · rw [hold f hf] at hr; exact ⟨hf, hr⟩
  have hcn : ∀ x i p, ((create n k).objs x).conns i = some p → x ≠ n.size ∧ (n.objs x).conns i = some p := by
    intro x i p hp
    by_cases hx : x = n.size
    · subst hx; rw [hnew] at hp; cases hp
    · rw [hold x hx] at hp; exact ⟨hx, hp⟩
  have hsz : (create n k).size = n.size + 1 := rfl
  have hnx : (create n k).next = n.next := rfl
  constructor
  · intro f r hr; rw [hnx]; exact hi.ids f r (hcb f r hr).2
  · intro f
    by_cases hf : f = n.size
    · subst hf; rw [hnew]; simp
    · rw [hold f hf]; exact hi.nodup f
  · intro x i f kk h
    obtain ⟨hx, h'⟩ := hcn x i _ h
    obtain ⟨h1, h2, h3, h4, h5⟩ := hi.conn x i f kk h'
    refine ⟨h1, by rw [hold x hx]; exact h2, by omega, by omega, ?_⟩
    intro r hr
    exact h5 r (hcb f r hr).2
  · intro f r hr
    obtain ⟨h1, h2, h3⟩ := hi.bounds f r (hcb f r hr).2
    refine ⟨by omega, by omega, ?_⟩
    rw [hold _ (by omega)]; exact h3
  · intro f r hr hk
    have hr' := (hcb f r hr).2
    have := (hi.bounds f r hr').2.1
    rw [hold _ (by omega)] at hk ⊢
    exact hi.recon f r hr' hk
  · intro x i f kk h1 h2 h3 h4
    obtain ⟨hx, h3'⟩ := hcn x i _ h3
    have := (hi.conn x i f kk h3').2.2.2.1
    rw [hold x hx] at h1 h2
    rw [hold f (by omega)] at h4 ⊢
    exact hi.present x i f kk h1 h2 h3' h4
  · intro x hx
    by_cases h : x = n.size
    · omega
    · rw [hold x h] at hx; have := hi.dead x hx; omega

/-- Disconnecting the inputs of a filter that disconnects on `connectInput`, or is being destroyed, keeps the invariant. -/
theorem inv_dropped {n : Net} (hi : Inv n) {x : Nat} (l : List Nat)
    (hk : (n.objs x).kind.disconnectsOnConnect = true ∨ (n.objs x).alive = false) :
    Inv (dropped (n.objs x).conns l n) := by
  have hmem : ∀ f r, r ∈ ((dropped (n.objs x).conns l n).objs f).callbacks → r ∈ (n.objs f).callbacks := by
    intro f r hr; exact (mem_dropped.1 hr).1
  constructor
  · intro f r hr; exact hi.ids f r (hmem f r hr)
  · intro f
    exact ((List.filter_sublist).map _).nodup (hi.nodup f)
  · intro y i f k h
    obtain ⟨h1, h2, h3, h4, h5⟩ := hi.conn y i f k h
    exact ⟨h1, h2, h3, h4, fun r hr => h5 r (hmem f r hr)⟩
  · intro f r hr; exact hi.bounds f r (hmem f r hr)
  · intro f r hr; exact hi.recon f r (hmem f r hr)
  · intro y i f k h1 h2 h3 h4
    obtain ⟨r, hr, hrk⟩ := hi.present y i f k h1 h2 h3 h4
    refine ⟨r, mem_dropped.2 ⟨hr, ?_⟩, hrk⟩
    intro j _ hc
    have e1 := ((hi.conn y i f k h3).2.2.2.2 r hr hrk).1
    have e2 := ((hi.conn x j f r.id hc).2.2.2.2 r hr rfl).1
    rw [e1] at e2
    subst e2
    have h1' : (n.objs y).kind.disconnectsOnConnect = false := h1
    have h2' : (n.objs y).alive = true := h2
    rcases hk with hk | hk
    · rw [hk] at h1'; cases h1'
    · rw [hk] at h2'; cases h2'
  · intro y hy; exact hi.dead y hy

/-- Disconnecting the inputs of a filter that disconnects on `connectInput` removes exactly the callbacks bound to it. -/
theorem mem_dropped_recon {n : Net} (hi : Inv n) {x : Nat} (hk : (n.objs x).kind.disconnectsOnConnect = true) (f : Nat) (r : Reg) :
    (r ∈ (n.objs f).callbacks ∧ ∀ i ∈ List.range (n.objs x).kind.slots, (n.objs x).conns i ≠ some (f, r.id)) ↔
      r ∈ (n.objs f).callbacks ∧ r.sink ≠ x := by
  constructor
  · rintro ⟨h1, h2⟩
    refine ⟨h1, ?_⟩
    intro hs
    have h3 := hi.recon f r h1 (by rw [hs]; exact hk)
    have h4 := (hi.bounds f r h1).2.2
    rw [hs] at h3 h4
    exact h2 r.slot (List.mem_range.2 h4) h3
  · rintro ⟨h1, h2⟩
    refine ⟨h1, ?_⟩
    intro i _ hc
    exact h2 ((hi.conn x i f r.id hc).2.2.2.2 r h1 rfl).1

theorem count_dropped_recon {n : Net} (hi : Inv n) {x : Nat} (hk : (n.objs x).kind.disconnectsOnConnect = true) (f y j : Nat) :
    count (dropped (n.objs x).conns (List.range (n.objs x).kind.slots) n) f y j = if y = x then 0 else count n f y j := by
  unfold count dropped
  simp only [List.countP_filter]
  split
  · rename_i hy
    subst hy
    rw [List.countP_eq_zero]
    intro r hr hp
    simp only [Bool.and_eq_true, decide_eq_true_eq, Bool.not_eq_true', List.any_eq_false] at hp
    exact ((mem_dropped_recon hi hk f r).1 ⟨hr, fun i hi' => hp.2 i hi'⟩).2 hp.1.1
  · rename_i hy
    apply List.countP_congr
    intro r hr
    simp only [Bool.and_eq_true, decide_eq_true_eq, Bool.not_eq_true', List.any_eq_false]
    constructor
    · exact fun h => h.1
    · intro h
      exact ⟨h, ((mem_dropped_recon hi hk f r).2 ⟨hr, by rw [h.1]; exact hy⟩).2⟩

/-! ### register -/

structure Registered (n : Net) (x f i : Nat) (n' : Net) : Prop where
  aliveF : (n.objs f).alive = true
  size : n'.size = n.size
  next : n'.next = n.next + 1
  log : n'.log = n.log
  kind : ∀ y, (n'.objs y).kind = (n.objs y).kind
  alive : ∀ y, (n'.objs y).alive = (n.objs y).alive
  callbacks : ∀ y, (n'.objs y).callbacks = if y = f then (n.objs y).callbacks ++ [⟨n.next, x, i⟩] else (n.objs y).callbacks
  conns : ∀ y j, (n'.objs y).conns j = if y = x ∧ j = i then some (f, n.next) else (n.objs y).conns j

theorem register_ok {n n' : Net} {x f i : Nat} (h : register n x f i = .ok n') : Registered n x f i n' := by
  unfold register at h
  split at h
  · rename_i ha
    simp only [Except.ok.injEq] at h
    subst h
    constructor
    · exact ha
    · rfl
    · rfl
    · rfl
    · intro y
      by_cases hy : y = x <;> by_cases hf : y = f <;> simp [setObj, hy, hf] <;> (try split) <;> simp_all
    · intro y
      by_cases hy : y = x <;> by_cases hf : y = f <;> simp [setObj, hy, hf] <;> (try split) <;> simp_all
    · intro y
      by_cases hy : y = x <;> by_cases hf : y = f <;> simp [setObj, hy, hf] <;> (try split) <;> simp_all
    · intro y j
      by_cases hy : y = x <;> by_cases hf : y = f <;> simp [setObj, hy, hf] <;> (try split) <;> simp_all
  · cases h

theorem register_succeeds {n : Net} {x f i : Nat} (h : (n.objs f).alive = true) : ∃ n', register n x f i = .ok n' := by
  unfold register; rw [if_pos h]; exact ⟨_, rfl⟩

theorem inv_register {n n' : Net} {x f i : Nat} (hi : Inv n) (hr : Registered n x f i n') (hx : x < n.size)
    (hslot : i < (n.objs x).kind.slots)
    (hfree : (n.objs x).kind.disconnectsOnConnect = true → ∀ g, ∀ r ∈ (n.objs g).callbacks, ¬ (r.sink = x ∧ r.slot = i)) :
    Inv n' := by
  have hf := hi.dead f hr.aliveF
  have hcb : ∀ g r, r ∈ (n'.objs g).callbacks ↔ r ∈ (n.objs g).callbacks ∨ (g = f ∧ r = ⟨n.next, x, i⟩) := by
    intro g r
    rw [hr.callbacks]
    split <;> simp_all
  constructor
  · intro g r h
    rw [hr.next]
    rcases (hcb g r).1 h with h | ⟨_, rfl⟩
    · have := hi.ids g r h; omega
    · simp
  · intro g
    rw [hr.callbacks]
    split
    · rw [List.map_append, List.nodup_append]
      refine ⟨hi.nodup g, by simp, ?_⟩
      intro a ha b hb
      obtain ⟨r, hr1, rfl⟩ := List.mem_map.1 ha
      simp at hb
      have := hi.ids g r hr1
      omega
    · exact hi.nodup g
  · intro y j g k h
    rw [hr.kind, hr.next, hr.size]
    rw [hr.conns] at h
    split at h
    · rename_i hyj
      obtain ⟨rfl, rfl⟩ := hyj
      injection h with h
      injection h with h1 h2
      subst h1 h2
      refine ⟨by omega, hslot, hx, hf, ?_⟩
      intro r hrm hrk
      rcases (hcb f r).1 hrm with hrm | ⟨_, rfl⟩
      · have := hi.ids f r hrm; omega
      · exact ⟨rfl, rfl⟩
    · obtain ⟨h1, h2, h3, h4, h5⟩ := hi.conn y j g k h
      refine ⟨by omega, h2, h3, h4, ?_⟩
      intro r hrm hrk
      rcases (hcb g r).1 hrm with hrm | ⟨_, rfl⟩
      · exact h5 r hrm hrk
      · simp only at hrk; omega
  · intro g r h
    rw [hr.size, hr.kind]
    rcases (hcb g r).1 h with h | ⟨rfl, rfl⟩
    · exact hi.bounds g r h
    · exact ⟨hf, hx, hslot⟩
  · intro g r h hk
    rw [hr.kind] at hk
    rw [hr.conns]
    rcases (hcb g r).1 h with h | ⟨rfl, rfl⟩
    · by_cases hs : r.sink = x ∧ r.slot = i
      · exact absurd hs (hfree (by rw [← hs.1]; exact hk) g r h)
      · rw [if_neg hs]; exact hi.recon g r h hk
    · simp
  · intro y j g k h1 h2 h3 h4
    rw [hr.kind] at h1
    rw [hr.alive] at h2 h4
    rw [hr.conns] at h3
    split at h3
    · injection h3 with h3
      injection h3 with h5 h6
      subst h5 h6
      exact ⟨_, (hcb f _).2 (Or.inr ⟨rfl, rfl⟩), rfl⟩
    · obtain ⟨r, hr1, hr2⟩ := hi.present y j g k h1 h2 h3 h4
      exact ⟨r, (hcb g r).2 (Or.inl hr1), hr2⟩
  · intro y hy
    rw [hr.alive] at hy
    rw [hr.size]
    exact hi.dead y hy

theorem count_register {n n' : Net} {x f i : Nat} (hr : Registered n x f i n') (g y j : Nat) :
    count n' g y j = count n g y j + if g = f ∧ y = x ∧ j = i then 1 else 0 := by
  unfold count
  rw [hr.callbacks]
  by_cases hg : g = f
  · subst hg
    rw [if_pos rfl, List.countP_append]
    by_cases h : x = y ∧ i = j
    · obtain ⟨rfl, rfl⟩ := h; simp
    · have : ¬ (y = x ∧ j = i) := fun h' => h ⟨h'.1.symm, h'.2.symm⟩
      simp [h, this]
  · simp [hg]

/-! ### Connecting several inputs -/

/-- The effect of registering the sources `srcs` for the inputs `k`, `k+1`, ... of `x`. -/
structure Wired (n : Net) (x : Nat) (srcs : List Nat) (k : Nat) (n' : Net) : Prop where
  inv : Inv n'
  size : n'.size = n.size
  log : n'.log = n.log
  kind : ∀ y, (n'.objs y).kind = (n.objs y).kind
  alive : ∀ y, (n'.objs y).alive = (n.objs y).alive
  sources : ∀ f ∈ srcs, (n.objs f).alive = true
  count : ∀ g y j, count n' g y j = count n g y j + if y = x ∧ k ≤ j ∧ srcs[j - k]? = some g then 1 else 0
  conns : ∀ y j, ((n'.objs y).conns j).map (·.1) =
    if y = x ∧ k ≤ j ∧ j - k < srcs.length then srcs[j - k]? else ((n.objs y).conns j).map (·.1)

theorem wire (x : Nat) : ∀ (srcs : List Nat) (k : Nat) (n n' : Net), Inv n → x < n.size →
    k + srcs.length ≤ (n.objs x).kind.slots →
    ((n.objs x).kind.disconnectsOnConnect = true → ∀ g, ∀ r ∈ (n.objs g).callbacks, r.sink = x → r.slot < k) →
    runE (fun m (p : Nat × Nat) => register m x p.1 p.2) n (srcs.zipIdx k) = .ok n' → Wired n x srcs k n' := by
  intro srcs
  induction srcs with
  | nil =>
    intro k n n' hi hx hl hfree h
    simp only [List.zipIdx_nil, runE, Except.ok.injEq] at h
    subst h
    exact ⟨hi, rfl, rfl, fun _ => rfl, fun _ => rfl, by simp, by simp, by simp⟩
  | cons f srcs ih =>
    intro k n n' hi hx hl hfree h
    rw [List.zipIdx_cons] at h
    simp only [runE] at h
    cases hreg : register n x f k with
    | error e => rw [hreg] at h; cases h
    | ok n1 =>
      rw [hreg] at h
      have hr := register_ok hreg
      simp only [List.length_cons] at hl
      have hi1 : Inv n1 := inv_register hi hr hx (by omega) (by
        intro hk g r hrm hs
        have := hfree hk g r hrm hs.1
        omega)
      have w := ih (k + 1) n1 n' hi1 (by rw [hr.size]; exact hx) (by rw [hr.kind]; omega) (by
        intro hk g r hrm hs
        rw [hr.kind] at hk
        rw [hr.callbacks] at hrm
        split at hrm
        · rcases List.mem_append.1 hrm with hrm | hrm
          · have := hfree hk g r hrm hs; omega
          · simp at hrm; subst hrm; simp
        · have := hfree hk g r hrm hs; omega) h
      refine ⟨w.inv, w.size.trans hr.size, w.log.trans hr.log, fun y => (w.kind y).trans (hr.kind y),
        fun y => (w.alive y).trans (hr.alive y), ?_, ?_, ?_⟩
      · intro g hg
        rcases List.mem_cons.1 hg with rfl | hg
        · exact hr.aliveF
        · rw [← hr.alive]; exact w.sources g hg
      · intro g y j
        rw [w.count, count_register hr]
        by_cases hy : y = x
        · subst hy
          by_cases hj : j = k
          · subst hj
            by_cases hg : g = f
            · subst hg; simp; omega
            · have : ¬ f = g := fun h => hg h.symm
              simp [hg, this]; omega
          · by_cases hk : k ≤ j
            · have hk' : k + 1 ≤ j := by omega
              have hsub : j - k = (j - (k + 1)) + 1 := by omega
              simp [hj, hk, hk', hsub]
            · have hk' : ¬ k + 1 ≤ j := by omega
              simp [hj, hk, hk']
        · simp [hy]
      · intro y j
        rw [w.conns, hr.conns]
        by_cases hy : y = x
        · subst hy
          by_cases hj : j = k
          · subst hj
            have h1 : ¬ (j + 1 ≤ j) := by omega
            simp [h1]
          · by_cases hk : k ≤ j
            · have hk' : k + 1 ≤ j := by omega
              have hsub : j - k = (j - (k + 1)) + 1 := by omega
              simp [hj, hk, hk', hsub]
            · have hk' : ¬ k + 1 ≤ j := by omega
              simp [hj, hk, hk']
        · simp [hy]

theorem wire_ok (x : Nat) : ∀ (srcs : List Nat) (k : Nat) (n : Net), (∀ f ∈ srcs, (n.objs f).alive = true) →
    ∃ n', runE (fun m (p : Nat × Nat) => register m x p.1 p.2) n (srcs.zipIdx k) = .ok n' := by
  intro srcs
  induction srcs with
  | nil => intro k n _; exact ⟨n, rfl⟩
  | cons f srcs ih =>
    intro k n h
    obtain ⟨n1, hn1⟩ := register_succeeds (x := x) (i := k) (h f (by simp))
    have hr := register_ok hn1
    obtain ⟨n', hn'⟩ := ih (k + 1) n1 (fun g hg => by rw [hr.alive]; exact h g (by simp [hg]))
    exact ⟨n', by rw [List.zipIdx_cons]; simp only [runE, hn1]; exact hn'⟩

/-! ### Destruction -/

def setDead (n : Net) (x : Nat) : Net := setObj n x { n.objs x with alive := false }

def clear (n : Net) (x : Nat) : Net := setObj n x { n.objs x with callbacks := [] }

theorem setDead_obj (n : Net) (x y : Nat) : (setDead n x).objs y = { n.objs y with alive := if y = x then false else (n.objs y).alive } := by
  unfold setDead
  by_cases h : y = x
  · subst h; simp
  · rw [setObj_ne _ _ h]; simp [h]

theorem clear_obj (n : Net) (x y : Nat) : (clear n x).objs y = { n.objs y with callbacks := if y = x then [] else (n.objs y).callbacks } := by
  unfold clear
  by_cases h : y = x
  · subst h; simp
  · rw [setObj_ne _ _ h]; simp [h]

theorem inv_setDead {n : Net} (hi : Inv n) (x : Nat) : Inv (setDead n x) := by
  have hs : (setDead n x).size = n.size := rfl
  have hn : (setDead n x).next = n.next := rfl
  constructor
  · intro f r; rw [setDead_obj, hn]; exact hi.ids f r
  · intro f; rw [setDead_obj]; exact hi.nodup f
  · intro y i f k; simp only [setDead_obj, hs, hn]; exact hi.conn y i f k
  · intro f r; simp only [setDead_obj, hs]; exact hi.bounds f r
  · intro f r; simp only [setDead_obj]; exact hi.recon f r
  · intro y i f k
    simp only [setDead_obj]
    intro h1 h2 h3 h4
    split at h2
    · cases h2
    · split at h4
      · cases h4
      · exact hi.present y i f k h1 h2 h3 h4
  · intro y
    simp only [setDead_obj]
    intro h
    split at h
    · cases h
    · exact hi.dead y h

theorem inv_clear {n : Net} (hi : Inv n) {x : Nat} (hd : (n.objs x).alive = false) : Inv (clear n x) := by
  have hs : (clear n x).size = n.size := rfl
  have hn : (clear n x).next = n.next := rfl
  have hmem : ∀ f r, r ∈ ((clear n x).objs f).callbacks → r ∈ (n.objs f).callbacks := by
    intro f r hr
    rw [clear_obj] at hr
    simp only at hr
    split at hr
    · cases hr
    · exact hr
  constructor
  · intro f r hr; exact hi.ids f r (hmem f r hr)
  · intro f
    rw [clear_obj]
    simp only
    split
    · simp
    · exact hi.nodup f
  · intro y i f k h
    have h' : (n.objs y).conns i = some (f, k) := by rw [clear_obj] at h; exact h
    obtain ⟨h1, h2, h3, h4, h5⟩ := hi.conn y i f k h'
    exact ⟨h1, by rw [clear_obj]; exact h2, h3, h4, fun r hr => h5 r (hmem f r hr)⟩
  · intro f r hr
    obtain ⟨h1, h2, h3⟩ := hi.bounds f r (hmem f r hr)
    exact ⟨h1, h2, by rw [clear_obj]; exact h3⟩
  · intro f r hr
    have := hi.recon f r (hmem f r hr)
    rw [clear_obj]; exact this
  · intro y i f k
    simp only [clear_obj]
    intro h1 h2 h3 h4
    obtain ⟨r, hr, hrk⟩ := hi.present y i f k h1 h2 h3 h4
    refine ⟨r, ?_, hrk⟩
    rw [if_neg (by rintro rfl; rw [hd] at h4; cases h4)]
    exact hr
  · intro y
    simp only [clear_obj]
    exact hi.dead y

theorem net_ext {m n : Net} (h1 : ∀ y, m.objs y = n.objs y) (h2 : m.size = n.size) (h3 : m.next = n.next) (h4 : m.log = n.log) :
    m = n := by
  cases m; cases n
  simp only [Net.mk.injEq]
  exact ⟨funext h1, h2, h3, h4⟩

theorem kill_eq (c : Nat → Option (Nat × Nat)) (l : List Nat) (n : Net) (x : Nat) :
    setObj (dropped c l n) x { (dropped c l n).objs x with alive := false, callbacks := [] } = clear (dropped c l (setDead n x)) x := by
  have : ∀ y, (setObj (dropped c l n) x { (dropped c l n).objs x with alive := false, callbacks := [] }).objs y =
      (clear (dropped c l (setDead n x)) x).objs y := by
    intro y
    rw [clear_obj]
    by_cases h : y = x
    · subst h; rw [setObj_same]; simp [dropped, setDead_obj]
    · rw [setObj_ne _ _ h]; simp [dropped, setDead_obj, h]
  exact net_ext this rfl rfl rfl

/-- The effect of the destructor of `x`. -/
structure Killed (n : Net) (x : Nat) (n' : Net) : Prop where
  inv : Inv n'
  aliveX : (n.objs x).alive = true
  size : n'.size = n.size
  log : n'.log = n.log
  kind : ∀ y, (n'.objs y).kind = (n.objs y).kind
  alive : ∀ y, (n'.objs y).alive = if y = x then false else (n.objs y).alive
  conns : ∀ y, (n'.objs y).conns = (n.objs y).conns
  safe : (n.objs x).kind.disconnectsOnDestroy = true →
    ∀ i < (n.objs x).kind.slots, ∀ f k, (n.objs x).conns i = some (f, k) → (n.objs f).alive = true
  callbacks : ∀ f, f ≠ x → (n'.objs f).callbacks = if (n.objs x).kind.disconnectsOnDestroy then
      ((dropped (n.objs x).conns (List.range (n.objs x).kind.slots) n).objs f).callbacks else (n.objs f).callbacks

theorem destroy_ok {n n' : Net} {x : Nat} (hi : Inv n) (h : destroy n x = .ok n') : Killed n x n' := by
  unfold destroy at h
  split at h
  · cases h
  · rename_i ha
    have ha : (n.objs x).alive = true := by simpa using ha
    by_cases hk : (n.objs x).kind.disconnectsOnDestroy = true
    · rw [if_pos hk] at h
      cases hd : disconnectSlots n x with
      | error e => rw [hd] at h; cases h
      | ok n1 =>
        rw [hd] at h
        simp only [Except.ok.injEq] at h
        obtain ⟨h1, h2⟩ := disc_list _ _ _ _ hd
        subst h1
        rw [kill_eq] at h
        subst h
        refine ⟨?_, ha, rfl, rfl, ?_, ?_, ?_, ?_, ?_⟩
        · apply inv_clear
          · have hc : (n.objs x).conns = ((setDead n x).objs x).conns := by rw [setDead_obj]
            rw [hc]
            apply inv_dropped (inv_setDead hi x)
            right
            rw [setDead_obj]; simp
          · show ((setDead n x).objs x).alive = false
            rw [setDead_obj]; simp
        · intro y; rw [clear_obj]; simp [dropped, setDead_obj]
        · intro y; rw [clear_obj]; simp [dropped, setDead_obj]
        · intro y; rw [clear_obj]; simp [dropped, setDead_obj]
        · intro _ i hi' f k hc
          exact h2 i (List.mem_range.2 hi') f k hc
        · intro f hf
          rw [if_pos hk, clear_obj]
          simp [hf, dropped, setDead_obj]
    · rw [if_neg hk] at h
      simp only [Except.ok.injEq] at h
      have e : n' = clear (setDead n x) x := by
        have := kill_eq (fun _ => none) [] n x
        rw [dropped_nil, dropped_nil] at this
        rw [← h, this]
      subst e
      refine ⟨?_, ha, rfl, rfl, ?_, ?_, ?_, fun h => absurd h hk, ?_⟩
      · exact inv_clear (inv_setDead hi x) (by rw [setDead_obj]; simp)
      · intro y; rw [clear_obj]; simp [setDead_obj]
      · intro y; rw [clear_obj]; simp [setDead_obj]
      · intro y; rw [clear_obj]; simp [setDead_obj]
      · intro f hf
        rw [if_neg hk, clear_obj]
        simp [hf, setDead_obj]

theorem destroy_succeeds {n : Net} {x : Nat} (ha : (n.objs x).alive = true)
    (h : (n.objs x).kind.disconnectsOnDestroy = true →
      ∀ i < (n.objs x).kind.slots, ∀ f k, (n.objs x).conns i = some (f, k) → (n.objs f).alive = true) :
    ∃ n', destroy n x = .ok n' := by
  unfold destroy
  simp only [ha, Bool.not_true, Bool.false_eq_true, if_false]
  by_cases hk : (n.objs x).kind.disconnectsOnDestroy = true
  · rw [if_pos hk]
    obtain ⟨n1, h1⟩ := disc_list_ok (n.objs x).conns (List.range (n.objs x).kind.slots) n
      (fun i hi f k hc => h hk i (List.mem_range.1 hi) f k hc)
    unfold disconnectSlots
    rw [h1]
    exact ⟨_, rfl⟩
  · rw [if_neg hk]; exact ⟨_, rfl⟩

/-! ### connectInput -/

/-- The effect of `connectInput`. -/
structure Connected (n : Net) (x : Nat) (srcs : List Nat) (n' : Net) : Prop where
  inv : Inv n'
  aliveX : (n.objs x).alive = true
  length : srcs.length ≤ (n.objs x).kind.slots
  sources : ∀ f ∈ srcs, (n.objs f).alive = true
  size : n'.size = n.size
  log : n'.log = n.log
  kind : ∀ y, (n'.objs y).kind = (n.objs y).kind
  alive : ∀ y, (n'.objs y).alive = (n.objs y).alive
  conns : ∀ y j, ((n'.objs y).conns j).map (·.1) =
    if y = x ∧ j < srcs.length then srcs[j]? else ((n.objs y).conns j).map (·.1)
  safe : (n.objs x).kind.disconnectsOnConnect = true →
    ∀ i < (n.objs x).kind.slots, ∀ f k, (n.objs x).conns i = some (f, k) → (n.objs f).alive = true
  count : ∀ g y j, count n' g y j =
    (if y = x ∧ (n.objs x).kind.disconnectsOnConnect = true then 0 else count n g y j) +
      if y = x ∧ srcs[j]? = some g then 1 else 0

theorem connect_ok {n n' : Net} {x : Nat} {srcs : List Nat} (hi : Inv n) (h : connectInput n x srcs = .ok n') :
    Connected n x srcs n' := by
  unfold connectInput at h
  split at h
  · cases h
  · rename_i ha
    have ha : (n.objs x).alive = true := by simpa using ha
    split at h
    · cases h
    · rename_i hl
      have hx := hi.dead x ha
      by_cases hk : (n.objs x).kind.disconnectsOnConnect = true
      · rw [if_pos hk] at h
        cases hd : disconnectSlots n x with
        | error e => rw [hd] at h; cases h
        | ok n1 =>
          rw [hd] at h
          simp only at h
          obtain ⟨h1, h2⟩ := disc_list _ _ _ _ hd
          subst h1
          have w := wire x srcs 0 _ n' (inv_dropped hi _ (Or.inl hk)) hx (by simpa [dropped] using hl) (by
            intro _ g r hr hs
            have := (mem_dropped_recon hi hk g r).1 (mem_dropped.1 hr)
            exact absurd hs this.2) h
          refine ⟨w.inv, ha, by omega, w.sources, w.size, w.log, w.kind, w.alive, ?_, ?_, ?_⟩
          · intro y j
            rw [w.conns]
            simp [dropped]
          · intro _ i hi' f k hc
            exact h2 i (List.mem_range.2 hi') f k hc
          · intro g y j
            rw [w.count, count_dropped_recon hi hk]
            simp [hk]
      · rw [if_neg hk] at h
        simp only at h
        have w := wire x srcs 0 _ n' hi hx (by simpa using hl) (fun h' => absurd h' hk) h
        refine ⟨w.inv, ha, by omega, w.sources, w.size, w.log, w.kind, w.alive, ?_, fun h' => absurd h' hk, ?_⟩
        · intro y j
          rw [w.conns]
          simp
        · intro g y j
          rw [w.count]
          simp [hk]

theorem connect_succeeds {n : Net} {x : Nat} {srcs : List Nat} (ha : (n.objs x).alive = true)
    (hl : srcs.length ≤ (n.objs x).kind.slots) (hs : ∀ f ∈ srcs, (n.objs f).alive = true)
    (h : (n.objs x).kind.disconnectsOnConnect = true →
      ∀ i < (n.objs x).kind.slots, ∀ f k, (n.objs x).conns i = some (f, k) → (n.objs f).alive = true) :
    ∃ n', connectInput n x srcs = .ok n' := by
  unfold connectInput
  have hl' : ¬ srcs.length > (n.objs x).kind.slots := by omega
  simp only [ha, Bool.not_true, Bool.false_eq_true, if_false, hl']
  by_cases hk : (n.objs x).kind.disconnectsOnConnect = true
  · rw [if_pos hk]
    obtain ⟨n1, h1⟩ := disc_list_ok (n.objs x).conns (List.range (n.objs x).kind.slots) n
      (fun i hi f k hc => h hk i (List.mem_range.1 hi) f k hc)
    unfold disconnectSlots
    obtain ⟨e, _⟩ := disc_list _ _ _ _ h1
    rw [h1]
    simp only
    apply wire_ok
    intro f hf
    rw [e]
    exact hs f hf
  · rw [if_neg hk]
    exact wire_ok x srcs 0 n hs

/-! ### History -/

theorem created_snoc (ops : List Op) (op : Op) : created (ops ++ [op]) =
    created ops ++ match op with | .create k => [k] | _ => [] := by
  unfold created
  rw [List.filterMap_append]
  cases op <;> simp

theorem kindOf_create (ops : List Op) (k : Kind) (x : Nat) : kindOf (ops ++ [.create k]) x =
    if x = (created ops).length then some k else kindOf ops x := by
  unfold kindOf
  rw [created_snoc]
  simp only
  split
  · rename_i h; subst h; simp
  · rename_i h
    rw [List.getElem?_append]
    split
    · rfl
    · rw [List.getElem?_eq_none (by simp only [List.length_cons, List.length_nil]; omega), List.getElem?_eq_none (by omega)]

theorem connects_snoc (ops : List Op) (op : Op) (x : Nat) : connects (ops ++ [op]) x =
    connects ops x ++ match op with | .connect y srcs => if y = x then [srcs] else [] | _ => [] := by
  unfold connects
  rw [List.filterMap_append]
  cases op with
  | connect y srcs => by_cases h : y = x <;> simp [h]
  | _ => simp

theorem connects_append (ops rest : List Op) (x : Nat) : connects (ops ++ rest) x = connects ops x ++ connects rest x := by
  unfold connects
  rw [List.filterMap_append]

theorem destroyed_snoc (ops : List Op) (op : Op) (x : Nat) : Destroyed (ops ++ [op]) x ↔ Destroyed ops x ∨ op = .destroy x := by
  unfold Destroyed
  simp [eq_comm]

theorem currentSource_connect (ops : List Op) (y : Nat) (srcs : List Nat) (x i : Nat) :
    currentSource (ops ++ [.connect y srcs]) x i = if y = x then srcs[i]? else currentSource ops x i := by
  unfold currentSource
  rw [connects_snoc]
  by_cases h : y = x <;> simp [h]

theorem lastSource_connect (ops : List Op) (y : Nat) (srcs : List Nat) (x i : Nat) :
    lastSource (ops ++ [.connect y srcs]) x i = if x = y ∧ i < srcs.length then srcs[i]? else lastSource ops x i := by
  unfold lastSource
  rw [connects_snoc]
  by_cases h : y = x
  · subst h
    by_cases h2 : i < srcs.length
    · simp [h2]
    · simp [h2]
  · have : ¬ x = y := fun h' => h h'.symm
    simp [h, this]

theorem timesConnected_connect (ops : List Op) (y : Nat) (srcs : List Nat) (x i f : Nat) :
    timesConnected (ops ++ [.connect y srcs]) x i f = timesConnected ops x i f + if x = y ∧ srcs[i]? = some f then 1 else 0 := by
  unfold timesConnected
  rw [connects_snoc, List.countP_append]
  by_cases h : y = x
  · subst h
    by_cases h2 : srcs[i]? = some f <;> simp [h2]
  · have : ¬ x = y := fun h' => h h'.symm
    simp [h, this]

theorem countP_filter_ne (p : Reg → Bool) : ∀ (l : List Reg) (r : Reg), (l.map (·.id)).Nodup → r ∈ l →
    (l.filter (fun r' => decide (r'.id ≠ r.id))).countP p + (if p r then 1 else 0) = l.countP p := by
  intro l
  induction l with
  | nil => intro r _ h; cases h
  | cons a l ih =>
    intro r hn hr
    rw [List.map_cons, List.nodup_cons] at hn
    rcases List.mem_cons.1 hr with rfl | hr
    · have : l.filter (fun r' => decide (r'.id ≠ r.id)) = l := by
        rw [List.filter_eq_self]
        intro b hb
        have : b.id ≠ r.id := by intro h; exact hn.1 (List.mem_map.2 ⟨b, hb, h⟩)
        simpa using this
      rw [List.filter_cons, if_neg (by simp), this, List.countP_cons]
    · have hne : a.id ≠ r.id := by intro h; exact hn.1 (List.mem_map.2 ⟨r, hr, h.symm⟩)
      rw [List.filter_cons, if_pos (by simpa using hne), List.countP_cons, List.countP_cons, ← ih r hn.2 hr]
      omega

theorem cache_of {k : Kind} (h : ¬ k.disconnectsOnConnect = true) : k = .cache := by
  cases k <;> simp [Kind.disconnectsOnConnect] at h ⊢

theorem subs_recon {ops : List Op} {x : Nat} {k : Kind} (hk : kindOf ops x = some k) (hr : k.disconnectsOnConnect = true) (f i : Nat) :
    (currentSource ops x i = some f ∧ ¬ (Destroyed ops x ∧ k.disconnectsOnDestroy = true) → subscriptions ops f x i = 1) ∧
    (¬ (currentSource ops x i = some f ∧ ¬ (Destroyed ops x ∧ k.disconnectsOnDestroy = true)) → subscriptions ops f x i = 0) := by
  unfold subscriptions
  rw [hk]
  cases k <;> simp_all [Kind.disconnectsOnConnect, Kind.disconnectsOnDestroy]

/-- The correspondence of the state of the network with the history. -/
structure Hist (ops : List Op) (n : Net) : Prop where
  inv : Inv n
  size : (created ops).length = n.size
  kind : ∀ x, x < n.size → kindOf ops x = some (n.objs x).kind
  alive : ∀ x, (n.objs x).alive = true ↔ x < n.size ∧ ¬ Destroyed ops x
  none : ∀ x, n.size ≤ x → connects ops x = [] ∧ ¬ Destroyed ops x
  srcs : ∀ x, ∀ srcs ∈ connects ops x, srcs.length ≤ (n.objs x).kind.slots ∧ ∀ f ∈ srcs, f < n.size
  last : ∀ x i, ((n.objs x).conns i).map (·.1) = lastSource ops x i
  cnt : ∀ f x i, (n.objs f).alive = true → count n f x i = subscriptions ops f x i

theorem kindOf_none {ops : List Op} {n : Net} (h : Hist ops n) {x : Nat} (hx : n.size ≤ x) : kindOf ops x = Option.none := by
  unfold kindOf
  exact List.getElem?_eq_none (by rw [h.size]; exact hx)

theorem hist_init : Hist [] init := by
  constructor
  · exact inv_init
  · rfl
  · intro x hx; exact absurd hx (Nat.not_lt_zero x)
  · intro x; simp [init, noObj]
  · intro x _; exact ⟨rfl, by simp [Destroyed]⟩
  · intro x s hs; cases hs
  · intro x i; rfl
  · intro f x i h; simp [init, noObj] at h

theorem subs_congr {ops ops' : List Op} {f x i : Nat} (h1 : kindOf ops' x = kindOf ops x) (h2 : connects ops' x = connects ops x)
    (h3 : Destroyed ops' x ↔ Destroyed ops x) : subscriptions ops' f x i = subscriptions ops f x i := by
  unfold subscriptions timesConnected lastSource currentSource
  rw [h1, h2]
  have e : Destroyed ops' x = Destroyed ops x := propext h3
  rw [e]

theorem hist_output {ops : List Op} {n n' : Net} {f m : Nat} (h : Hist ops n) (ho : output n f m = .ok n') :
    Hist (ops ++ [.output f m]) n' ∧ n'.log = n.log ++ (n.objs f).callbacks.map (fun r => (r.sink, r.slot, m)) ∧
      (n.objs f).alive = true := by
  unfold output at ho
  split at ho
  · cases ho
  · rename_i ha
    split at ho
    · simp only [Except.ok.injEq] at ho
      subst ho
      refine ⟨?_, rfl, by simpa using ha⟩
      have hc : ∀ x, connects (ops ++ [.output f m]) x = connects ops x := by intro x; rw [connects_snoc]; simp
      have hd : ∀ x, Destroyed (ops ++ [.output f m]) x ↔ Destroyed ops x := by intro x; rw [destroyed_snoc]; simp
      have hcr : created (ops ++ [.output f m]) = created ops := by rw [created_snoc]; simp
      have hk : ∀ x, kindOf (ops ++ [.output f m]) x = kindOf ops x := by intro x; unfold kindOf; rw [hcr]
      constructor
      · exact ⟨h.inv.ids, h.inv.nodup, h.inv.conn, h.inv.bounds, h.inv.recon, h.inv.present, h.inv.dead⟩
      · rw [hcr]; exact h.size
      · intro x hx; rw [hk]; exact h.kind x hx
      · intro x; rw [hd]; exact h.alive x
      · intro x hx; rw [hc, hd]; exact h.none x hx
      · intro x; rw [hc]; exact h.srcs x
      · intro x i; unfold lastSource; rw [hc]; exact h.last x i
      · intro g x i hg
        rw [subs_congr (hk x) (hc x) (hd x)]; exact h.cnt g x i hg
    · cases ho

theorem hist_create {ops : List Op} {n : Net} (h : Hist ops n) (k : Kind) : Hist (ops ++ [.create k]) (create n k) := by
  have hnew : (create n k).objs n.size = { kind := k, alive := true, callbacks := [], conns := fun _ => Option.none } := by
    unfold create; exact setObj_same _ _ _
  have hold : ∀ y, y ≠ n.size → (create n k).objs y = n.objs y := by
    intro y hy; unfold create; exact setObj_ne _ _ hy
  have hsz : (create n k).size = n.size + 1 := rfl
  have hc : ∀ x, connects (ops ++ [.create k]) x = connects ops x := by intro x; rw [connects_snoc]; simp
  have hd : ∀ x, Destroyed (ops ++ [.create k]) x ↔ Destroyed ops x := by intro x; rw [destroyed_snoc]; simp
  have hk : ∀ x, x ≠ n.size → kindOf (ops ++ [.create k]) x = kindOf ops x := by
    intro x hx; rw [kindOf_create, h.size, if_neg hx]
  constructor
  · exact inv_create h.inv k
  · rw [created_snoc, hsz, ← h.size]; simp
  · intro x hx
    by_cases hxs : x = n.size
    · subst hxs; rw [hnew, kindOf_create, h.size, if_pos rfl]
    · rw [hk x hxs, hold x hxs]; exact h.kind x (by omega)
  · intro x
    rw [hd]
    by_cases hxs : x = n.size
    · subst hxs
      rw [hnew]
      have := (h.none n.size (Nat.le_refl _)).2
      simp [this, hsz]
    · rw [hold x hxs, h.alive x, hsz]
      constructor
      · rintro ⟨h1, h2⟩; exact ⟨by omega, h2⟩
      · rintro ⟨h1, h2⟩; exact ⟨by omega, h2⟩
  · intro x hx; rw [hc, hd]; exact h.none x (by omega)
  · intro x srcs hs
    rw [hc] at hs
    by_cases hxs : x = n.size
    · subst hxs
      rw [(h.none n.size (Nat.le_refl _)).1] at hs; cases hs
    · rw [hold x hxs]
      obtain ⟨h1, h2⟩ := h.srcs x srcs hs
      exact ⟨h1, fun f hf => by have := h2 f hf; omega⟩
  · intro x i
    have : lastSource (ops ++ [.create k]) x i = lastSource ops x i := by unfold lastSource; rw [hc]
    rw [this]
    by_cases hxs : x = n.size
    · subst hxs
      rw [hnew]
      unfold lastSource
      rw [(h.none n.size (Nat.le_refl _)).1]
      rfl
    · rw [hold x hxs]; exact h.last x i
  · intro f x i hf
    have h0 : x = n.size → subscriptions (ops ++ [.create k]) f x i = 0 := by
      intro hx
      subst hx
      have hcn := (h.none n.size (Nat.le_refl _)).1
      unfold subscriptions timesConnected lastSource currentSource
      rw [hc, hcn, kindOf_create, h.size, if_pos rfl]
      cases k <;> simp
    by_cases hfs : f = n.size
    · subst hfs
      have e : count (create n k) n.size x i = 0 := by unfold count; rw [hnew]; simp
      rw [e]
      by_cases hx : x = n.size
      · rw [h0 hx]
      · -- nobody is connected to an object that did not exist
        rw [subs_congr (hk x hx) (hc x) (hd x)]
        have hns : ∀ srcs ∈ connects ops x, srcs[i]? ≠ some n.size := by
          intro srcs hs heq
          have := (h.srcs x srcs hs).2 n.size (List.mem_of_getElem? heq)
          omega
        have h1 : currentSource ops x i ≠ some n.size := by
          unfold currentSource
          intro heq
          rw [Option.bind_eq_some_iff] at heq
          obtain ⟨srcs, h1, h2⟩ := heq
          exact hns srcs (List.mem_of_getLast? h1) h2
        have h2 : timesConnected ops x i n.size = 0 := by
          unfold timesConnected
          rw [List.countP_eq_zero]
          intro srcs hs
          simpa using hns srcs hs
        unfold subscriptions
        split
        · rfl
        · rw [h2]; simp
        · rw [if_neg (fun h' => h1 h'.1)]
    · rw [hold f hfs] at hf
      have e : count (create n k) f x i = count n f x i := by unfold count; rw [hold f hfs]
      rw [e]
      by_cases hx : x = n.size
      · rw [h0 hx]
        unfold count
        rw [List.countP_eq_zero]
        intro r hr hp
        have := (h.inv.bounds f r hr).2.1
        simp only [decide_eq_true_eq] at hp
        omega
      · rw [subs_congr (hk x hx) (hc x) (hd x)]
        exact h.cnt f x i hf

theorem hist_connect {ops : List Op} {n n' : Net} {x : Nat} {srcs : List Nat} (h : Hist ops n)
    (ho : connectInput n x srcs = .ok n') : Hist (ops ++ [.connect x srcs]) n' := by
  have w := connect_ok h.inv ho
  have hx := h.inv.dead x w.aliveX
  have hxd : ¬ Destroyed ops x := ((h.alive x).1 w.aliveX).2
  have hd : ∀ y, Destroyed (ops ++ [.connect x srcs]) y ↔ Destroyed ops y := by intro y; rw [destroyed_snoc]; simp
  have hcr : created (ops ++ [.connect x srcs]) = created ops := by rw [created_snoc]; simp
  have hk : ∀ y, kindOf (ops ++ [.connect x srcs]) y = kindOf ops y := by intro y; unfold kindOf; rw [hcr]
  have hc : ∀ y, y ≠ x → connects (ops ++ [.connect x srcs]) y = connects ops y := by
    intro y hy
    rw [connects_snoc]
    have : ¬ x = y := fun h => hy h.symm
    simp [this]
  have hcx : connects (ops ++ [.connect x srcs]) x = connects ops x ++ [srcs] := by rw [connects_snoc]; simp
  constructor
  · exact w.inv
  · rw [hcr, w.size]; exact h.size
  · intro y hy; rw [hk, w.kind]; exact h.kind y (by rw [← w.size]; exact hy)
  · intro y; rw [hd, w.alive, w.size]; exact h.alive y
  · intro y hy
    rw [w.size] at hy
    rw [hc y (by omega), hd]; exact h.none y hy
  · intro y s hs
    rw [w.kind, w.size]
    by_cases hyx : y = x
    · subst hyx
      rw [hcx] at hs
      rcases List.mem_append.1 hs with hs | hs
      · exact h.srcs y s hs
      · simp at hs; subst hs
        exact ⟨w.length, fun f hf => h.inv.dead f (w.sources f hf)⟩
    · rw [hc y hyx] at hs; exact h.srcs y s hs
  · intro y i
    rw [w.conns, lastSource_connect, h.last]
  · intro f y i hf
    rw [w.alive] at hf
    rw [w.count, h.cnt f y i hf]
    by_cases hyx : y = x
    · subst hyx
      have hkx := h.kind y hx
      by_cases hr : (n.objs y).kind.disconnectsOnConnect = true
      · obtain ⟨h1, h2⟩ := subs_recon (ops := ops ++ [.connect y srcs]) (by rw [hk]; exact hkx) hr f i
        rw [currentSource_connect, if_pos rfl, hd] at h1 h2
        by_cases hs : srcs[i]? = some f
        · rw [h1 ⟨hs, fun h => hxd h.1⟩]; simp [hr, hs]
        · rw [h2 (fun h => hs h.1)]; simp [hr, hs]
      · have hcache := cache_of hr
        have e1 : kindOf (ops ++ [.connect y srcs]) y = some .cache := by rw [hk, hkx, hcache]
        have e2 : kindOf ops y = some .cache := by rw [hkx, hcache]
        unfold subscriptions
        rw [e1, e2]
        simp only [hd, hxd, false_and, if_false, Nat.sub_zero, timesConnected_connect]
        simp [hr]
    · rw [subs_congr (hk y) (hc y hyx) (hd y)]
      simp [hyx]

theorem hist_destroy {ops : List Op} {n n' : Net} {x : Nat} (h : Hist ops n) (ho : destroy n x = .ok n') :
    Hist (ops ++ [.destroy x]) n' := by
  have w := destroy_ok h.inv ho
  have hx := h.inv.dead x w.aliveX
  have hxd : ¬ Destroyed ops x := ((h.alive x).1 w.aliveX).2
  have hd : ∀ y, Destroyed (ops ++ [.destroy x]) y ↔ Destroyed ops y ∨ y = x := by
    intro y; rw [destroyed_snoc]
    constructor
    · rintro (h | h)
      · exact Or.inl h
      · injection h with h; exact Or.inr h.symm
    · rintro (h | rfl)
      · exact Or.inl h
      · exact Or.inr rfl
  have hcr : created (ops ++ [.destroy x]) = created ops := by rw [created_snoc]; simp
  have hk : ∀ y, kindOf (ops ++ [.destroy x]) y = kindOf ops y := by intro y; unfold kindOf; rw [hcr]
  have hc : ∀ y, connects (ops ++ [.destroy x]) y = connects ops y := by intro y; rw [connects_snoc]; simp
  have hcs : ∀ y i, currentSource (ops ++ [.destroy x]) y i = currentSource ops y i := by
    intro y i; unfold currentSource; rw [hc]
  have hls : ∀ y i, lastSource (ops ++ [.destroy x]) y i = lastSource ops y i := by
    intro y i; unfold lastSource; rw [hc]
  have htc : ∀ y i f, timesConnected (ops ++ [.destroy x]) y i f = timesConnected ops y i f := by
    intro y i f; unfold timesConnected; rw [hc]
  constructor
  · exact w.inv
  · rw [hcr, w.size]; exact h.size
  · intro y hy; rw [hk, w.kind]; exact h.kind y (by rw [← w.size]; exact hy)
  · intro y
    rw [hd, w.alive, w.size]
    by_cases hyx : y = x
    · simp [hyx]
    · simp only [hyx, if_false, or_false]; exact h.alive y
  · intro y hy
    rw [w.size] at hy
    rw [hc, hd]
    refine ⟨(h.none y hy).1, ?_⟩
    rintro (h' | h')
    · exact (h.none y hy).2 h'
    · omega
  · intro y s hs
    rw [hc] at hs
    rw [w.kind, w.size]; exact h.srcs y s hs
  · intro y i
    rw [w.conns, hls]; exact h.last y i
  · intro f y i hf
    rw [w.alive] at hf
    split at hf
    · cases hf
    · rename_i hfx
      have hother : y ≠ x → subscriptions (ops ++ [.destroy x]) f y i = subscriptions ops f y i := by
        intro hyx
        exact subs_congr (hk y) (hc y) (by rw [hd]; simp [hyx])
      have hkx := h.kind x hx
      have hcount : ∀ m : Net, (m.objs f).callbacks = (n'.objs f).callbacks → count n' f y i = count m f y i := by
        intro m hm; unfold count; rw [hm]
      by_cases hdd : (n.objs x).kind.disconnectsOnDestroy = true
      · have hcb := w.callbacks f hfx
        rw [if_pos hdd] at hcb
        by_cases hr : (n.objs x).kind.disconnectsOnConnect = true
        · rw [hcount _ hcb.symm, count_dropped_recon h.inv hr]
          by_cases hyx : y = x
          · subst hyx
            obtain ⟨_, h2⟩ := subs_recon (ops := ops ++ [.destroy y]) (by rw [hk]; exact hkx) hr f i
            rw [h2 (fun h' => h'.2 ⟨(hd y).2 (Or.inr rfl), hdd⟩), if_pos rfl]
          · rw [if_neg hyx, hother hyx]; exact h.cnt f y i hf
        · have hcache := cache_of hr
          have hslots : (n.objs x).kind.slots = 1 := by rw [hcache]; rfl
          have hcall : (n'.objs f).callbacks = (n.objs f).callbacks.filter (fun r => decide ((n.objs x).conns 0 ≠ some (f, r.id))) := by
            rw [hcb, hslots]
            unfold dropped
            apply List.filter_congr
            intro r _
            simp [List.range_succ]
          have hlast := h.last x 0
          -- what the filter removes
          have key : count n' f y i + (if y = x ∧ i = 0 ∧ lastSource ops x 0 = some f then 1 else 0) = count n f y i := by
            unfold count
            rw [hcall]
            cases hcn : (n.objs x).conns 0 with
            | none =>
              rw [hcn] at hlast
              rw [← hlast]
              have : ∀ l : List Reg, l.filter (fun _ => true) = l := fun l => List.filter_eq_self.2 (by simp)
              simp [this]
            | some p =>
              obtain ⟨g, k⟩ := p
              rw [hcn] at hlast
              simp only [Option.map_some] at hlast
              rw [← hlast]
              by_cases hg : g = f
              · subst hg
                have hga := w.safe hdd 0 (by omega) g k hcn
                obtain ⟨r, hr1, hr2⟩ := h.inv.present x 0 g k (by simpa using hr) w.aliveX hcn hga
                obtain ⟨hs1, hs2⟩ := (h.inv.conn x 0 g k hcn).2.2.2.2 r hr1 hr2
                have := countP_filter_ne (fun r => decide (r.sink = y ∧ r.slot = i)) _ r (h.inv.nodup g) hr1
                rw [hr2] at this
                rw [← this]
                have hfil : (n.objs g).callbacks.filter (fun r => decide (some (g, k) ≠ some (g, r.id))) =
                    (n.objs g).callbacks.filter (fun r' => decide (r'.id ≠ k)) := by
                  apply List.filter_congr
                  intro r' _
                  simp [eq_comm]
                rw [hfil]
                congr 1
                simp only [hs1, hs2, decide_eq_true_eq]
                by_cases hyx : x = y ∧ 0 = i
                · obtain ⟨rfl, rfl⟩ := hyx; simp
                · have : ¬ (y = x ∧ i = 0) := fun h' => hyx ⟨h'.1.symm, h'.2.symm⟩
                  rw [if_neg hyx, if_neg (by rintro ⟨a, b, _⟩; exact this ⟨a, b⟩)]
              · have hfil : (n.objs f).callbacks.filter (fun r => decide (some (g, k) ≠ some (f, r.id))) = (n.objs f).callbacks := by
                  rw [List.filter_eq_self]
                  intro r _
                  simp [hg]
                rw [hfil, if_neg]
                · rfl
                · rintro ⟨_, _, h'⟩; injection h' with h'; exact hg h'
          by_cases hyx : y = x
          · subst hyx
            have e1 : kindOf (ops ++ [.destroy y]) y = some .cache := by rw [hk, hkx, hcache]
            have e2 : kindOf ops y = some .cache := by rw [hkx, hcache]
            have hcn := h.cnt f y i hf
            rw [hcn] at key
            have hd' : Destroyed (ops ++ [.destroy y]) y := (hd y).2 (Or.inr rfl)
            have h0 : i ≠ 0 → lastSource ops y i ≠ some f := by
              intro hi0 hl
              rw [← h.last] at hl
              cases hcc : (n.objs y).conns i with
              | none => rw [hcc] at hl; cases hl
              | some p =>
                obtain ⟨g, k⟩ := p
                have := (h.inv.conn y i g k hcc).2.1
                omega
            unfold subscriptions at key ⊢
            rw [e1]
            rw [e2] at key
            simp only [hxd, false_and, if_false, Nat.sub_zero] at key
            simp only [hd', true_and, htc, hls]
            rw [← key]
            by_cases hi0 : i = 0
            · subst hi0; simp
            · simp [hi0, h0 hi0]
          · rw [hother hyx, ← h.cnt f y i hf, ← key]; simp [hyx]
      · have hcb := w.callbacks f hfx
        rw [if_neg hdd] at hcb
        rw [hcount n hcb.symm, h.cnt f y i hf]
        by_cases hyx : y = x
        · subst hyx
          have hr : (n.objs y).kind.disconnectsOnConnect = true := by
            cases hkk : (n.objs y).kind <;> rw [hkk] at hdd <;> simp_all [Kind.disconnectsOnConnect, Kind.disconnectsOnDestroy]
          obtain ⟨a1, a2⟩ := subs_recon hkx hr f i
          obtain ⟨b1, b2⟩ := subs_recon (ops := ops ++ [.destroy y]) (by rw [hk]; exact hkx) hr f i
          rw [hcs] at b1 b2
          by_cases hs : currentSource ops y i = some f
          · rw [a1 ⟨hs, fun h' => hdd h'.2⟩, b1 ⟨hs, fun h' => hdd h'.2⟩]
          · rw [a2 (fun h' => hs h'.1), b2 (fun h' => hs h'.1)]
        · rw [hother hyx]

theorem hist_run {ops : List Op} {n : Net} (h : run ops = .ok n) : Hist ops n := by
  refine runE_induction (P := fun ops (n : Net) => Hist ops n) hist_init ?_ ops n h
  intro ops s op s' _ hh hs
  cases op with
  | create k =>
    simp only [step, Except.ok.injEq] at hs
    subst hs
    exact hist_create hh k
  | connect x srcs => exact hist_connect hh hs
  | destroy x => exact hist_destroy hh hs
  | output f m => exact (hist_output hh hs).1

theorem alive_iff {ops : List Op} {n : Net} (h : Hist ops n) (x : Nat) : (n.objs x).alive = true ↔ Alive ops x := by
  rw [h.alive]
  unfold Alive
  constructor
  · rintro ⟨h1, h2⟩; exact ⟨by rw [h.kind x h1]; simp, h2⟩
  · rintro ⟨h1, h2⟩
    refine ⟨?_, h2⟩
    apply Classical.byContradiction
    intro h3
    exact h1 (kindOf_none h (by omega))

theorem log_of_output {ops : List Op} {n n' : Net} {f m : Nat} (h : Hist ops n) (ho : output n f m = .ok n') (x i : Nat) :
    calls n n' x i m = subscriptions ops f x i := by
  obtain ⟨_, h2, h3⟩ := hist_output h ho
  unfold calls
  rw [h2, List.drop_left, List.countP_map, ← h.cnt f x i h3]
  unfold count
  apply List.countP_congr
  intro r _
  simp

theorem output_iff {ops : List Op} {n : Net} (h : Hist ops n) {f : Nat} (ha : Alive ops f) (m : Nat) :
    (∃ n', output n f m = .ok n') ↔ ∀ x i, Destroyed ops x → subscriptions ops f x i = 0 := by
  have ha' := (alive_iff h f).2 ha
  unfold output
  simp only [ha', Bool.not_true, Bool.false_eq_true, if_false]
  constructor
  · intro hex x i hd
    split at hex
    · rename_i hall
      rw [← h.cnt f x i ha']
      unfold count
      rw [List.countP_eq_zero]
      intro r hr hp
      simp only [decide_eq_true_eq] at hp
      have := List.all_eq_true.1 hall r hr
      rw [hp.1] at this
      exact ((h.alive x).1 this).2 hd
    · obtain ⟨_, h'⟩ := hex; cases h'
  · intro hz
    rw [if_pos]
    · exact ⟨_, rfl⟩
    · rw [List.all_eq_true]
      intro r hr
      apply (h.alive _).2
      refine ⟨(h.inv.bounds f r hr).2.1, ?_⟩
      intro hd
      have := hz r.sink r.slot hd
      rw [← h.cnt f _ _ ha'] at this
      unfold count at this
      rw [List.countP_eq_zero] at this
      exact this r hr (by simp)

theorem conn_alive_iff {ops : List Op} {n : Net} (h : Hist ops n) (x : Nat) :
    (∀ i < (n.objs x).kind.slots, ∀ f k, (n.objs x).conns i = some (f, k) → (n.objs f).alive = true) ↔
      ∀ i f, lastSource ops x i = some f → ¬ Destroyed ops f := by
  constructor
  · intro hs i f hl
    rw [← h.last] at hl
    cases hc : (n.objs x).conns i with
    | none => rw [hc] at hl; cases hl
    | some p =>
      obtain ⟨g, k⟩ := p
      rw [hc] at hl
      simp only [Option.map_some, Option.some.injEq] at hl
      subst hl
      exact ((h.alive g).1 (hs i (h.inv.conn x i g k hc).2.1 g k hc)).2
  · intro hs i _ f k hc
    rw [h.alive]
    refine ⟨(h.inv.conn x i f k hc).2.2.2.1, hs i f ?_⟩
    rw [← h.last, hc]; rfl

/-! ### Every fault is undefined behaviour -/

theorem runE_ub {S O : Type} {step : S → O → Except Fault S} (h : ∀ s o f, step s o = .error f → f = .ub) :
    ∀ (l : List O) (s : S) (f : Fault), runE step s l = .error f → f = .ub := by
  intro l
  induction l with
  | nil => intro s f h; cases h
  | cons o l ih =>
    intro s f hf
    simp only [runE] at hf
    cases h1 : step s o with
    | error g =>
      rw [h1] at hf
      cases hf
      exact h s o _ h1
    | ok s' => rw [h1] at hf; exact ih s' f hf

theorem disconnectSlots_ub {n : Net} {x : Nat} {f : Fault} (h : disconnectSlots n x = .error f) : f = .ub := by
  refine runE_ub (fun m i g hg => ?_) _ _ _ h
  cases hc : (n.objs x).conns i with
  | none => rw [hc] at hg; cases hg
  | some p =>
    rw [hc] at hg
    simp only [disconnect] at hg
    cases ha : (m.objs p.1).alive with
    | true => simp [ha] at hg
    | false =>
      simp only [ha, Bool.false_eq_true, ↓reduceIte, Except.error.injEq] at hg
      exact hg.symm

theorem step_ub {n : Net} {op : Op} {f : Fault} (h : step n op = .error f) : f = .ub := by
  cases op with
  | create k => cases h
  | connect x srcs =>
    simp only [step, connectInput] at h
    cases ha : (n.objs x).alive with
    | false =>
      simp only [ha, Bool.not_false, ↓reduceIte, Except.error.injEq] at h
      exact h.symm
    | true =>
      simp only [ha, Bool.not_true, Bool.false_eq_true, ↓reduceIte] at h
      by_cases hl : srcs.length > (n.objs x).kind.slots
      · simp only [hl, ↓reduceIte, Except.error.injEq] at h
        exact h.symm
      · simp only [hl, ↓reduceIte] at h
        have hreg : ∀ n1 g, runE (fun m (p : Nat × Nat) => register m x p.1 p.2) n1 srcs.zipIdx = .error g → g = .ub := by
          intro n1 g hg
          refine runE_ub (fun m p f hf => ?_) _ _ _ hg
          simp only [register] at hf
          cases hp : (m.objs p.1).alive with
          | true => simp [hp] at hf
          | false =>
            simp only [hp, Bool.false_eq_true, ↓reduceIte, Except.error.injEq] at hf
            exact hf.symm
        cases hd : (n.objs x).kind.disconnectsOnConnect with
        | false =>
          simp only [hd, Bool.false_eq_true, ↓reduceIte] at h
          exact hreg _ _ h
        | true =>
          simp only [hd, ↓reduceIte] at h
          cases h1 : disconnectSlots n x with
          | error g =>
            simp only [h1, Except.error.injEq] at h
            rw [← h]; exact disconnectSlots_ub h1
          | ok n1 =>
            simp only [h1] at h
            exact hreg _ _ h
  | destroy x =>
    simp only [step, Network.destroy] at h
    cases ha : (n.objs x).alive with
    | false =>
      simp only [ha, Bool.not_false, ↓reduceIte, Except.error.injEq] at h
      exact h.symm
    | true =>
      simp only [ha, Bool.not_true, Bool.false_eq_true, ↓reduceIte] at h
      cases hd : (n.objs x).kind.disconnectsOnDestroy with
      | false => simp [hd] at h
      | true =>
        simp only [hd, ↓reduceIte] at h
        cases h1 : disconnectSlots n x with
        | error g =>
          simp only [h1, Except.error.injEq] at h
          rw [← h]; exact disconnectSlots_ub h1
        | ok n1 => simp [h1] at h
  | output g m =>
    simp only [step, Network.output] at h
    cases ha : (n.objs g).alive with
    | false =>
      simp only [ha, Bool.not_false, ↓reduceIte, Except.error.injEq] at h
      exact h.symm
    | true =>
      simp only [ha, Bool.not_true, Bool.false_eq_true, ↓reduceIte] at h
      cases hall : (n.objs g).callbacks.all (fun r => (n.objs r.sink).alive) with
      | true => simp [hall] at h
      | false =>
        simp only [hall, Bool.false_eq_true, ↓reduceIte, Except.error.injEq] at h
        exact h.symm

end MF.Network
