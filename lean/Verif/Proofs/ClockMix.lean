import Verif.Spec.ClockMix
import Verif.Proofs.Cache
import Verif.Proofs.Basic
/-
Helper lemmas: caches whose messages have stamps of different clock types.
-/
namespace MF.ClockMix

/-! ### Cache: add -/

theorem insertBack_same (src : Nat → Source) (e : Ev) (rev passed : List Ev) (h : ∀ x ∈ rev, src x.id = src e.id) :
    insertBack src e rev passed = some (Cache.insertBack e rev passed) := by
  induction rev generalizing passed with
  | nil => rfl
  | cons x rev ih =>
    have hx := h x (by simp)
    have ih' := ih (x :: passed) (fun y hy => h y (by simp [hy]))
    unfold insertBack Cache.insertBack
    by_cases hgt : x.stamp > e.stamp
    · simp [hx, hgt, ih']
    · simp [hx, hgt]

theorem insertBack_other (src : Nat → Source) (e : Ev) (rev passed : List Ev) (hne : rev ≠ [])
    (h : ∀ x ∈ rev, src x.id ≠ src e.id) : insertBack src e rev passed = none := by
  cases rev with
  | nil => exact absurd rfl hne
  | cons x rev => simp [insertBack, h x (by simp)]

/-- What `add` does to a cache whose messages have one clock type. -/
theorem cacheAdd_cases (src : Nat → Source) (s : Cache.State) (n : Nat) (hn : 0 < n) (hsz : s.size = some n)
    (h1 : OneClock src s.items) (e : Ev) :
    ((∀ x ∈ s.items.drop (s.items.length + 1 - n), src x.id = src e.id) ∧
      ∃ s', Cache.add s e = .ok s' ∧ cacheAdd src s e = .ok (s', false)) ∨
    ((∃ x ∈ s.items.drop (s.items.length + 1 - n), src x.id ≠ src e.id) ∧
      cacheAdd src s e = .ok ({ s with items := s.items.drop (s.items.length + 1 - n) }, true)) := by
  have hmem : ∀ x ∈ s.items.drop (s.items.length + 1 - n), x ∈ s.items := fun x hx => List.mem_of_mem_drop hx
  by_cases hall : ∀ x ∈ s.items.drop (s.items.length + 1 - n), src x.id = src e.id
  · left
    refine ⟨hall, ?_⟩
    have := insertBack_same src e (s.items.drop (s.items.length + 1 - n)).reverse [] (fun x hx => hall x (by simpa using hx))
    simp [cacheAdd, Cache.add, Cache.insertLocked, hsz, Cache.popLoop_eq n hn, this, Cache.forward]
  · right
    have hex : ∃ x ∈ s.items.drop (s.items.length + 1 - n), src x.id ≠ src e.id := by
      simpa [Classical.not_forall] using hall
    refine ⟨hex, ?_⟩
    obtain ⟨x, hx, hxe⟩ := hex
    have hother := insertBack_other src e (s.items.drop (s.items.length + 1 - n)).reverse []
      (by intro h0; rw [List.reverse_eq_nil_iff] at h0; rw [h0] at hx; cases hx)
      (fun y hy => by
        have hy' : y ∈ s.items.drop (s.items.length + 1 - n) := by simpa using hy
        rw [h1 y (hmem y hy') x (hmem x hx)]; exact hxe)
    simp [cacheAdd, hsz, Cache.popLoop_eq n hn, hother]

/-- The invariant of reachable caches. -/
structure CacheInv (src : Nat → Source) (s : Cache.State) : Prop where
  base : Cache.Inv s
  clock : OneClock src s.items

theorem oneClock_sub {src : Nat → Source} {l m : List Ev} (h : OneClock src l) (hm : ∀ x ∈ m, x ∈ l) : OneClock src m :=
  fun x hx y hy => h x (hm x hx) y (hm y hy)

theorem cacheAdd_inv {src : Nat → Source} {s s' : Cache.State} {b : Bool} (hs : CacheInv src s) {e : Ev}
    (h : cacheAdd src s e = .ok (s', b)) : CacheInv src s' := by
  obtain ⟨n, hn, hsz⟩ := hs.base.init
  rcases cacheAdd_cases src s n hn hsz hs.clock e with ⟨hall, s1, h1, h2⟩ | ⟨hex, h2⟩
  · rw [h2] at h; cases h
    obtain ⟨a, bb, i1, i2, i3, i4⟩ := Cache.add_spec s n hn hsz hs.base.sorted e
    rw [h1] at i2; cases i2
    refine ⟨⟨⟨n, hn, hsz⟩, Cache.sorted_insert (i1 ▸ hs.base.sorted.sublist (List.drop_sublist _ _)) i3 i4⟩, ?_⟩
    rw [i1] at hall
    have key : ∀ x ∈ a ++ e :: bb, src x.id = src e.id := by
      intro x hx
      rcases List.mem_append.1 hx with hx | hx
      · exact hall x (by simp [hx])
      · rcases List.mem_cons.1 hx with rfl | hx
        · rfl
        · exact hall x (by simp [hx])
    intro x hx y hy
    rw [key x hx, key y hy]
  · rw [h2] at h; cases h
    exact ⟨⟨⟨n, hn, hsz⟩, hs.base.sorted.sublist (List.drop_sublist _ _)⟩,
      oneClock_sub hs.clock (fun x hx => List.mem_of_mem_drop hx)⟩

theorem cacheStep_ok {src : Nat → Source} (s : Cache.State) (op : Cache.Op) (hs : CacheInv src s) :
    ∃ s', cacheStep src s op = .ok s' ∧ CacheInv src s' := by
  cases op with
  | add e =>
    obtain ⟨n, hn, hsz⟩ := hs.base.init
    rcases cacheAdd_cases src s n hn hsz hs.clock e with ⟨_, s1, _, h2⟩ | ⟨_, h2⟩
    · exact ⟨s1, by simp [cacheStep, h2, Except.map], cacheAdd_inv hs h2⟩
    · exact ⟨_, by simp [cacheStep, h2, Except.map], cacheAdd_inv hs h2⟩
  | setSize m =>
    obtain ⟨s', h1, h2⟩ := Cache.step_inv hs.base (.setSize m)
    cases h1
    refine ⟨_, rfl, h2, ?_⟩
    unfold Cache.setCacheSize
    split
    · exact hs.clock
    · exact hs.clock

theorem cacheInv_construct {src : Nat → Source} {n : Nat} (hn : 0 < n) : CacheInv src (Cache.construct n) :=
  ⟨Cache.inv_construct hn, by
    have : (Cache.construct n).items = [] := by unfold Cache.construct Cache.setCacheSize; split <;> rfl
    rw [this]; intro x hx; cases hx⟩

theorem cacheRun_inv {src : Nat → Source} {n : Nat} (hn : 0 < n) (ops : List Cache.Op) :
    ∃ s, cacheRun src n ops = .ok s ∧ CacheInv src s :=
  runE_ok cacheStep_ok ops _ (cacheInv_construct hn)

theorem cacheRun_inv' {src : Nat → Source} {n : Nat} (hn : 0 < n) {ops : List Cache.Op} {s : Cache.State}
    (h : cacheRun src n ops = .ok s) : CacheInv src s := by
  obtain ⟨s', h1, h2⟩ := cacheRun_inv (src := src) hn ops
  rw [h] at h1; cases h1; exact h2

/-- With one clock type nothing throws and everything is as in `Model/Cache`. -/
theorem cacheRun_same (src : Nat → Source) (c : Source) (ops : List Cache.Op) :
    ∀ s : Cache.State, Cache.Inv s → (∀ x ∈ s.items, src x.id = c) → (∀ x ∈ Cache.added ops, src x.id = c) →
      runE (cacheStep src) s ops = Cache.run s ops := by
  induction ops with
  | nil => intro s _ _ _; rfl
  | cons op ops ih =>
    intro s hs hc ho
    obtain ⟨n, hn, hsz⟩ := hs.init
    cases op with
    | add e =>
      have he : src e.id = c := ho e (by simp [Cache.added])
      have hclock : OneClock src s.items := fun x hx y hy => by rw [hc x hx, hc y hy]
      rcases cacheAdd_cases src s n hn hsz hclock e with ⟨_, s1, h1, h2⟩ | ⟨⟨x, hx, hxe⟩, _⟩
      · have hinv := cacheAdd_inv ⟨hs, hclock⟩ h2
        have hmem : ∀ x ∈ s1.items, src x.id = c := by
          obtain ⟨a, b, i1, i2, _, _⟩ := Cache.add_spec s n hn hsz hs.sorted e
          rw [h1] at i2; cases i2
          intro x hx
          have hsub : ∀ y ∈ a ++ b, src y.id = c := fun y hy => hc y (List.mem_of_mem_drop (i1 ▸ hy))
          rcases List.mem_append.1 hx with hx | hx
          · exact hsub x (by simp [hx])
          · rcases List.mem_cons.1 hx with rfl | hx
            · exact he
            · exact hsub x (by simp [hx])
        have := ih s1 hinv.base hmem (fun x hx => ho x (by simp [Cache.added, hx]))
        simp only [runE, cacheStep, h2, Except.map, Cache.run, Cache.step, h1]
        exact this
      · exact absurd (by rw [hc x (List.mem_of_mem_drop hx), he]) hxe
    | setSize m =>
      obtain ⟨s', h1, h2⟩ := Cache.step_inv hs (.setSize m)
      cases h1
      have := ih _ h2 (by
        unfold Cache.setCacheSize
        split
        · exact hc
        · exact hc) (fun x hx => ho x (by simpa [Cache.added] using hx))
      simp only [runE, cacheStep, Cache.run, Cache.step]
      exact this

/-- A cache with room left whose messages have another clock type is not changed by any number of messages. -/
theorem cacheRun_stuck (src : Nat → Source) (n : Nat) (hn : 0 < n) (s : Cache.State) (hsz : s.size = some n) (hlen : s.items.length < n)
    (h1 : OneClock src s.items) (hne : ∃ x, x ∈ s.items) (es : List Ev) (hes : ∀ e ∈ es, ∀ x ∈ s.items, src x.id ≠ src e.id) :
    runE (cacheStep src) s (es.map .add) = .ok s := by
  induction es with
  | nil => rfl
  | cons e es ih =>
    obtain ⟨x, hx⟩ := hne
    have hd : s.items.drop (s.items.length + 1 - n) = s.items := by
      have : s.items.length + 1 - n = 0 := by omega
      rw [this, List.drop_zero]
    rcases cacheAdd_cases src s n hn hsz h1 e with ⟨hall, _⟩ | ⟨_, h2⟩
    · rw [hd] at hall
      exact absurd (hall x hx) (hes e (by simp) x hx)
    · rw [hd] at h2
      simp only [List.map_cons, runE, cacheStep, h2, Except.map]
      exact ih (fun y hy => hes y (by simp [hy]))

/-! ### Cache: queries -/

theorem scanUp_same (src : Nat → Source) (t : Time) (p : Ev → Bool) (l : List Ev) (h : ∀ x ∈ l, src x.id = t.source) :
    ∀ k i, scanUp src t p l k i = some (Cache.scanUp p l k i) := by
  intro k
  induction k with
  | zero => intro i; rfl
  | succ k ih =>
    intro i
    unfold scanUp Cache.scanUp
    cases hx : l[i]? with
    | none => rfl
    | some x =>
      have := h x (List.mem_of_getElem? hx)
      dsimp only
      rw [if_neg (by simp [this]), ih (i + 1)]
      split <;> rfl

theorem scanUp_other (src : Nat → Source) (t : Time) (p : Ev → Bool) (l : List Ev) (h : ∀ x ∈ l, src x.id ≠ t.source) :
    ∀ k i, scanUp src t p l k i = if 0 < k ∧ i < l.length then none else some i := by
  intro k i
  cases k with
  | zero => simp [scanUp]
  | succ k =>
    unfold scanUp
    cases hx : l[i]? with
    | none =>
      have : ¬ i < l.length := by
        intro hlt; rw [List.getElem?_eq_getElem hlt] at hx; cases hx
      simp [this]
    | some x =>
      have hlt : i < l.length := by
        obtain ⟨h', _⟩ := List.getElem?_eq_some_iff.1 hx; exact h'
      simp [h x (List.mem_of_getElem? hx), hlt]

theorem beforeLoop_same (src : Nat → Source) (t : Time) (l : List Ev) (h : ∀ x ∈ l, src x.id = t.source) :
    ∀ k i elem, beforeLoop src t l k i elem = some (Cache.beforeLoop t.ns l k i elem) := by
  intro k
  induction k with
  | zero => intro i elem; rfl
  | succ k ih =>
    intro i elem
    unfold beforeLoop Cache.beforeLoop
    cases hx : l[i]? with
    | none => rfl
    | some x =>
      have := h x (List.mem_of_getElem? hx)
      dsimp only
      rw [if_neg (by simp [this]), ih (i + 1)]
      split <;> rfl

theorem afterLoop_same (src : Nat → Source) (t : Time) (l : List Ev) (h : ∀ x ∈ l, src x.id = t.source) :
    ∀ i elem, afterLoop src t l i elem = some (Cache.afterLoop t.ns l i elem) := by
  intro i
  induction i with
  | zero => intro elem; rfl
  | succ i ih =>
    intro elem
    unfold afterLoop Cache.afterLoop
    cases hx : l[i]? with
    | none => rfl
    | some x =>
      have := h x (List.mem_of_getElem? hx)
      dsimp only
      rw [if_neg (by simp [this]), ih]
      split <;> rfl

theorem scanDown_same (src : Nat → Source) (t : Time) (l : List Ev) (h : ∀ x ∈ l, src x.id = t.source) :
    ∀ i, scanDown src t l i = some (Cache.scanDown (fun x => decide (x.stamp > t.ns)) l i) := by
  intro i
  induction i with
  | zero => rfl
  | succ i ih =>
    unfold scanDown Cache.scanDown
    cases hx : l[i + 1]? with
    | none => rfl
    | some x =>
      have := h x (List.mem_of_getElem? hx)
      dsimp only
      rw [if_neg (by simp [this]), ih]
      by_cases hgt : x.stamp > t.ns
      · simp [hgt]
      · simp [hgt]

theorem scanUpTo_same (src : Nat → Source) (t : Time) (l : List Ev) (h : ∀ x ∈ l, src x.id = t.source) :
    ∀ k i, scanUpTo src t l k i = some (Cache.scanUpTo (fun x => decide (x.stamp < t.ns)) l k i) := by
  intro k
  induction k with
  | zero => intro i; rfl
  | succ k ih =>
    intro i
    unfold scanUpTo Cache.scanUpTo
    by_cases hi : i < l.length - 1
    · rw [if_pos hi, if_pos hi]
      cases hx : l[i]? with
      | none => rfl
      | some x =>
        have := h x (List.mem_of_getElem? hx)
        dsimp only
        rw [if_neg (by simp [this]), ih]
        by_cases hgt : x.stamp < t.ns
        · simp [hgt]
        · simp [hgt]
    · rw [if_neg hi, if_neg hi]

theorem takeWhile_lt (p : Ev → Bool) (l : List Ev) : (l.takeWhile p).length < l.length ↔ ∃ x ∈ l, p x = false := by
  induction l with
  | nil => simp
  | cons y l ih =>
    cases hp : p y with
    | false => simp [hp]
    | true => simp [hp, ih]

theorem scanUp_le (p : Ev → Bool) (l : List Ev) (k i : Nat) : i ≤ Cache.scanUp p l k i := by
  induction k generalizing i with
  | zero => exact Nat.le_refl _
  | succ k ih =>
    unfold Cache.scanUp
    split
    · split
      · exact Nat.le_trans (Nat.le_succ i) (ih (i + 1))
      · exact Nat.le_refl _
    · exact Nat.le_refl _

theorem getInterval_cases (src : Nat → Source) (s : Cache.State) (c : Source) (hc : ∀ x ∈ s.items, src x.id = c) (start end_ : Time) :
    (getInterval src s start end_ = none ↔
      s.items ≠ [] ∧ (start.source ≠ c ∨ (end_.source ≠ c ∧ ∃ x ∈ s.items, start.ns ≤ x.stamp))) ∧
    (∀ l, getInterval src s start end_ = some l → l = Cache.getInterval s start.ns end_.ns) := by
  by_cases hnil : s.items = []
  · simp [getInterval, Cache.getInterval, hnil, scanUp]
  have hlen : 0 < s.items.length := List.length_pos_iff.2 hnil
  by_cases hs : start.source = c
  · have h1 := scanUp_same src start (fun x => decide (x.stamp < start.ns)) s.items (fun x hx => by rw [hc x hx, hs])
      s.items.length 0
    by_cases he : end_.source = c
    · have h2 := scanUp_same src end_ (fun x => decide (x.stamp ≤ end_.ns)) s.items (fun x hx => by rw [hc x hx, he])
        s.items.length (Cache.scanUp (fun x => decide (x.stamp < start.ns)) s.items s.items.length 0)
      unfold getInterval
      rw [h1]; dsimp only
      rw [h2]
      simp [hs, he, Cache.getInterval]
    · have h2 := scanUp_other src end_ (fun x => decide (x.stamp ≤ end_.ns)) s.items
        (fun x hx => by rw [hc x hx]; exact fun h => he h.symm)
        s.items.length (Cache.scanUp (fun x => decide (x.stamp < start.ns)) s.items s.items.length 0)
      have hlt : Cache.scanUp (fun x => decide (x.stamp < start.ns)) s.items s.items.length 0 < s.items.length ↔
          ∃ x ∈ s.items, start.ns ≤ x.stamp := by
        rw [Cache.scanUp_eq _ _ _ _ (by omega), List.drop_zero, Nat.zero_add, takeWhile_lt]
        constructor
        · rintro ⟨x, hx, h⟩; exact ⟨x, hx, by simpa using h⟩
        · rintro ⟨x, hx, h⟩; exact ⟨x, hx, by simpa using h⟩
      unfold getInterval
      rw [h1]; dsimp only
      rw [h2]
      by_cases hm : ∃ x ∈ s.items, start.ns ≤ x.stamp
      · rw [if_pos ⟨hlen, hlt.2 hm⟩]
        exact ⟨⟨fun _ => ⟨hnil, Or.inr ⟨he, hm⟩⟩, fun _ => rfl⟩, fun l hl => by cases hl⟩
      · rw [if_neg (fun h => hm (hlt.1 h.2))]
        refine ⟨⟨fun h => (by cases h), fun h => ?_⟩, ?_⟩
        · rcases h.2 with h | h
          · exact absurd hs h
          · exact absurd h.2 hm
        · intro l hl
          have hge : s.items.length ≤ Cache.scanUp (fun x => decide (x.stamp < start.ns)) s.items s.items.length 0 :=
            Nat.le_of_not_lt (fun h => hm (hlt.1 h))
          cases hl
          unfold Cache.getInterval
          dsimp only
          rw [List.drop_eq_nil_of_le hge, List.take_nil, List.take_nil]
  · have h1 := scanUp_other src start (fun x => decide (x.stamp < start.ns)) s.items
      (fun x hx => by rw [hc x hx]; exact fun h => hs h.symm) s.items.length 0
    rw [if_pos ⟨hlen, hlen⟩] at h1
    unfold getInterval
    rw [h1]
    exact ⟨⟨fun _ => ⟨hnil, Or.inl hs⟩, fun _ => rfl⟩, fun l hl => by cases hl⟩

theorem getElemBeforeTime_cases (src : Nat → Source) (s : Cache.State) (c : Source) (hc : ∀ x ∈ s.items, src x.id = c) (t : Time) :
    (getElemBeforeTime src s t = none ↔ s.items ≠ [] ∧ t.source ≠ c) ∧
    (∀ r, getElemBeforeTime src s t = some r → r = Cache.getElemBeforeTime s t.ns) := by
  by_cases ht : t.source = c
  · have h := beforeLoop_same src t s.items (fun x hx => by rw [hc x hx, ht]) s.items.length 0 none
    unfold getElemBeforeTime Cache.getElemBeforeTime
    rw [h]
    cases Cache.beforeLoop t.ns s.items s.items.length 0 none with
    | none => simp [ht]
    | some i => simp [ht]
  · cases hi : s.items with
    | nil => simp [getElemBeforeTime, Cache.getElemBeforeTime, hi, beforeLoop, Cache.beforeLoop]
    | cons x l =>
      have : src x.id ≠ t.source := by rw [hc x (by simp [hi])]; exact fun h => ht h.symm
      simp [getElemBeforeTime, hi, beforeLoop, this, ht]

theorem getElemAfterTime_cases (src : Nat → Source) (s : Cache.State) (c : Source) (hc : ∀ x ∈ s.items, src x.id = c) (t : Time) :
    (getElemAfterTime src s t = none ↔ s.items ≠ [] ∧ t.source ≠ c) ∧
    (∀ r, getElemAfterTime src s t = some r → r = Cache.getElemAfterTime s t.ns) := by
  by_cases ht : t.source = c
  · have h := afterLoop_same src t s.items (fun x hx => by rw [hc x hx, ht]) s.items.length none
    unfold getElemAfterTime Cache.getElemAfterTime
    rw [h]
    cases Cache.afterLoop t.ns s.items s.items.length none with
    | none => simp [ht]
    | some i => simp [ht]
  · rcases List.eq_nil_or_concat s.items with hi | ⟨l, x, hi⟩
    · simp [getElemAfterTime, Cache.getElemAfterTime, hi, afterLoop, Cache.afterLoop]
    · rw [List.concat_eq_append] at hi
      have : src x.id ≠ t.source := by rw [hc x (by simp [hi])]; exact fun h => ht h.symm
      simp [getElemAfterTime, hi, afterLoop, this, ht]

theorem getSurroundingInterval_cases (src : Nat → Source) (s : Cache.State) (c : Source) (hc : ∀ x ∈ s.items, src x.id = c)
    (start end_ : Time) :
    (getSurroundingInterval src s start end_ = none ↔
      2 ≤ s.items.length ∧ (start.source ≠ c ∨ (end_.source ≠ c ∧ ∃ x, s.items.getLast? = some x ∧ start.ns < x.stamp))) ∧
    (∀ l, getSurroundingInterval src s start end_ = some l → l = Cache.getSurroundingInterval s start.ns end_.ns) := by
  by_cases h0 : s.items.length = 0
  · simp only [getSurroundingInterval, Cache.getSurroundingInterval, h0, if_true]
    exact ⟨⟨fun h => (by cases h), fun h => absurd h.1 (by omega)⟩, fun l hl => by cases hl; rfl⟩
  obtain ⟨k, hk⟩ : ∃ k, s.items.length = k + 1 := ⟨s.items.length - 1, by omega⟩
  have hlast : s.items.getLast? = s.items[k]? := by rw [List.getLast?_eq_getElem?, hk]; rfl
  by_cases hs : start.source = c
  · have h1 := scanDown_same src start s.items (fun x hx => by rw [hc x hx, hs]) (s.items.length - 1)
    by_cases he : end_.source = c
    · have h2 := scanUpTo_same src end_ s.items (fun x hx => by rw [hc x hx, he]) s.items.length
        (Cache.scanDown (fun x => decide (x.stamp > start.ns)) s.items (s.items.length - 1))
      unfold getSurroundingInterval Cache.getSurroundingInterval
      rw [if_neg h0, if_neg h0, h1]; dsimp only
      rw [h2]
      refine ⟨⟨fun h => (by cases h), fun h => ?_⟩, fun l hl => by cases hl; rfl⟩
      rcases h.2 with h | h
      · exact absurd hs h
      · exact absurd he h.1
    · -- the comparison with `end_` is made iff the walk down stopped before the last message
      have hup : ∀ i, scanUpTo src end_ s.items s.items.length i = if i < s.items.length - 1 then none else some i := by
        intro i
        rw [hk]
        unfold scanUpTo
        by_cases hi : i < s.items.length - 1
        · rw [if_pos hi, if_pos (by rw [hk] at hi; exact hi)]
          have hlt : i < s.items.length := by omega
          rw [List.getElem?_eq_getElem hlt]
          dsimp only
          rw [if_pos]
          rw [hc _ (List.getElem_mem hlt)]
          exact fun h => he h.symm
        · rw [if_neg hi, if_neg (by rw [hk] at hi; exact hi)]
      have hdown : Cache.scanDown (fun x => decide (x.stamp > start.ns)) s.items (s.items.length - 1) < s.items.length - 1 ↔
          2 ≤ s.items.length ∧ ∃ x, s.items.getLast? = some x ∧ start.ns < x.stamp := by
        rw [hlast]
        have hklt : k < s.items.length := by omega
        rw [List.getElem?_eq_getElem hklt]
        rw [hk, Nat.add_sub_cancel]
        cases k with
        | zero => simp [Cache.scanDown]
        | succ k =>
          unfold Cache.scanDown
          rw [List.getElem?_eq_getElem hklt]
          dsimp only
          by_cases hgt : start.ns < s.items[k + 1].stamp
          · have := Cache.scanDown_le (fun x => decide (x.stamp > start.ns)) s.items k
            rw [if_pos (by simpa using hgt)]
            exact ⟨fun _ => ⟨by omega, _, rfl, hgt⟩, fun _ => by omega⟩
          · simp [hgt]
      unfold getSurroundingInterval Cache.getSurroundingInterval
      rw [if_neg h0, if_neg h0, h1]; dsimp only
      rw [hup]
      by_cases hm : Cache.scanDown (fun x => decide (x.stamp > start.ns)) s.items (s.items.length - 1) < s.items.length - 1
      · rw [if_pos hm]
        obtain ⟨h2, h3⟩ := hdown.1 hm
        exact ⟨⟨fun _ => ⟨h2, Or.inr ⟨he, h3⟩⟩, fun _ => rfl⟩, fun l hl => by cases hl⟩
      · rw [if_neg hm]
        refine ⟨⟨fun h => (by cases h), fun h => ?_⟩, ?_⟩
        · rcases h.2 with h' | h'
          · exact absurd hs h'
          · exact absurd (hdown.2 ⟨h.1, h'.2⟩) hm
        · intro l hl
          cases hl
          congr 2
          rw [hk]
          unfold Cache.scanUpTo
          rw [if_neg (by rw [hk] at hm ⊢; exact hm)]
  · unfold getSurroundingInterval Cache.getSurroundingInterval
    rw [if_neg h0, if_neg h0, hk, Nat.add_sub_cancel]
    cases k with
    | zero =>
      have hz : ∀ t : Time, scanUpTo src t s.items (0 + 1) 0 = some 0 := by
        intro t; unfold scanUpTo; rw [if_neg (by rw [hk]; omega)]
      have hz' : Cache.scanUpTo (fun x => decide (x.stamp < end_.ns)) s.items (0 + 1) 0 = 0 := by
        unfold Cache.scanUpTo; rw [if_neg (by rw [hk]; omega)]
      simp only [scanDown, Cache.scanDown, hz, hz']
      exact ⟨⟨fun h => (by cases h), fun h => absurd h.1 (by omega)⟩, fun l hl => by cases hl; rfl⟩
    | succ k =>
      have hklt : k + 1 < s.items.length := by omega
      have h1 : scanDown src start s.items (k + 1) = none := by
        unfold scanDown
        rw [List.getElem?_eq_getElem hklt]
        dsimp only
        rw [if_pos]
        rw [hc _ (List.getElem_mem hklt)]
        exact fun h => hs h.symm
      rw [h1]
      exact ⟨⟨fun _ => ⟨by omega, Or.inl hs⟩, fun _ => rfl⟩, fun l hl => by cases hl⟩

end MF.ClockMix
