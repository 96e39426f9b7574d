import Verif.Proofs.Shift
import Verif.Spec.Shift
import Verif.Proofs.Epsilon
/-
Lemmas for property C121: ExactTime, ApproximateEpsilonTime and Cache.
-/
namespace MF.ExactTime

variable {n : Nat} {g : Ev → Ev} {φ : Int → Int}

/-- A stored tuple with its messages replaced. -/
def mapEntry (g : Ev → Ev) (φ : Int → Int) (p : Int × Tuple n) : Int × Tuple n := (φ p.1, fun i => (p.2 i).map g)

/-- The state after the same calls with the messages replaced.  `last` is not compared: it is written before it is read. -/
structure Moved (g : Ev → Ev) (φ : Int → Int) (s s' : State n) : Prop where
  queueSize : s'.queueSize = s.queueSize
  tuples : s'.tuples = s.tuples.map (mapEntry g φ)
  log : s'.log = s.log.map (mapAction g)

theorem mono_eq (hφ : ∀ x y, x < y → φ x < φ y) (x y : Int) : φ x = φ y ↔ x = y := by
  constructor
  · intro h
    rcases Int.lt_trichotomy x y with h1 | h1 | h1
    · have := hφ _ _ h1; omega
    · exact h1
    · have := hφ _ _ h1; omega
  · intro h; rw [h]

theorem mono_lt (hφ : ∀ x y, x < y → φ x < φ y) (x y : Int) : φ x < φ y ↔ x < y := by
  constructor
  · intro h
    rcases Int.lt_trichotomy x y with h1 | h1 | h1
    · exact h1
    · rw [h1] at h; omega
    · have := hφ _ _ h1; omega
  · exact hφ x y

theorem mono_le (hφ : ∀ x y, x < y → φ x < φ y) (x y : Int) : φ x ≤ φ y ↔ x ≤ y := by
  have := mono_lt hφ y x
  omega

theorem tupleAt_map (hφ : ∀ x y, x < y → φ x < φ y) (k : Int) : ∀ (m : List (Int × Tuple n)),
    tupleAt (φ k) (m.map (mapEntry g φ)) = fun i => (tupleAt k m i).map g := by
  intro m
  induction m with
  | nil => rfl
  | cons p m ih =>
    simp only [List.map_cons, mapEntry, tupleAt, mono_eq hφ]
    split
    · rfl
    · exact ih

theorem store_map (hφ : ∀ x y, x < y → φ x < φ y) (k : Int) (t : Tuple n) : ∀ (m : List (Int × Tuple n)),
    store (φ k) (fun i => (t i).map g) (m.map (mapEntry g φ)) = (store k t m).map (mapEntry g φ) := by
  intro m
  induction m with
  | nil => rfl
  | cons p m ih =>
    have ih' := ih
    simp only [List.map_cons, store]
    simp only [mapEntry, mono_eq hφ, mono_lt hφ]
    split
    · rw [List.map_cons]; exact congrArg _ ih'
    · split <;> rfl

theorem moved_dropRange {s s' : State n} (h : Moved g φ s s') (d k : List (Int × Tuple n)) :
    Moved g φ (dropRange s d k) (dropRange s' (d.map (mapEntry g φ)) (k.map (mapEntry g φ))) := by
  refine ⟨h.queueSize, rfl, ?_⟩
  simp only [dropRange, h.log, List.map_append, List.map_map]
  rfl

theorem moved_exceeding {s s' : State n} (h : Moved g φ s s') : Moved g φ (dropExceeding s) (dropExceeding s') := by
  unfold dropExceeding
  rw [h.queueSize, h.tuples, List.length_map, ← List.map_take, ← List.map_drop]
  split
  · exact moved_dropRange h _ _
  · exact h

theorem moved_clear (hφ : ∀ x y, x < y → φ x < φ y) {s s' : State n} (h : Moved g φ s s') (hl : s'.last = φ s.last) :
    Moved g φ (clearOldTuples s) (clearOldTuples s') := by
  unfold clearOldTuples
  rw [h.tuples, hl, List.takeWhile_map, List.dropWhile_map]
  have e : ((fun p : Int × Tuple n => decide (p.1 ≤ φ s.last)) ∘ mapEntry g φ) = (fun p => decide (p.1 ≤ s.last)) := by
    funext p
    simp only [Function.comp, mapEntry, mono_le hφ]
  rw [e]
  exact moved_dropRange h _ _

theorem isFull_map (t : Tuple n) : isFull (fun i => (t i).map g) = isFull t := by
  unfold isFull
  simp

theorem moved_check [NeZero n] (hφ : ∀ x y, x < y → φ x < φ y) (hg : ∀ e, (g e).stamp = φ e.stamp) {s s' : State n}
    (h : Moved g φ s s') (t : Tuple n) : RelE (Moved g φ) (checkTuple s t) (checkTuple s' (fun i => (t i).map g)) := by
  unfold checkTuple
  rw [isFull_map]
  split
  · dsimp only
    cases ht : t 0 with
    | none => exact rfl
    | some e0 =>
      have hm : Moved g φ
          { s with log := s.log ++ [.out t], last := e0.stamp, tuples := s.tuples.filter (fun p => decide (p.1 ≠ e0.stamp)) }
          { s' with log := s'.log ++ [.out (fun i => (t i).map g)], last := (g e0).stamp,
                    tuples := s'.tuples.filter (fun p => decide (p.1 ≠ (g e0).stamp)) } := by
        refine ⟨h.queueSize, ?_, ?_⟩
        · simp only [h.tuples, List.filter_map]
          congr 2
          funext p
          simp only [Function.comp, mapEntry, hg, Ne, mono_eq hφ]
        · simp only [h.log, List.map_append]
          rfl
      exact moved_exceeding (moved_clear hφ hm (hg e0))
  · exact moved_exceeding h

theorem moved_add [NeZero n] (hφ : ∀ x y, x < y → φ x < φ y) (hg : ∀ e, (g e).stamp = φ e.stamp) {s s' : State n}
    (h : Moved g φ s s') (i : Fin n) (e : Ev) : RelE (Moved g φ) (add s i e) (add s' i (g e)) := by
  unfold add
  have e1 : tupleAt (g e).stamp s'.tuples = fun j => (tupleAt e.stamp s.tuples j).map g := by
    rw [hg, h.tuples, tupleAt_map hφ]
  have e2 : upd (fun j => (tupleAt e.stamp s.tuples j).map g) i (some (g e)) =
      fun j => (upd (tupleAt e.stamp s.tuples) i (some e) j).map g := by
    rw [map_upd_fun (Option.map g)]; rfl
  dsimp only
  rw [e1, e2]
  have hm : Moved g φ
      { s with tuples := store e.stamp (upd (tupleAt e.stamp s.tuples) i (some e)) s.tuples,
               log := s.log ++ (tupleAt e.stamp s.tuples i).toList.map (.replaced i) }
      { s' with tuples := store (g e).stamp (fun j => (upd (tupleAt e.stamp s.tuples) i (some e) j).map g) s'.tuples,
                log := s'.log ++ ((tupleAt e.stamp s.tuples i).map g).toList.map (.replaced i) } := by
    refine ⟨h.queueSize, ?_, ?_⟩
    · simp only [h.tuples, hg]
      rw [store_map hφ]
    · simp only [h.log, List.map_append]
      cases tupleAt e.stamp s.tuples i <;> rfl
  exact moved_check hφ hg hm _

end MF.ExactTime

namespace MF.Epsilon

variable {n : Nat} {g : Ev → Ev} {c : Int}

/-- The state after the same calls with the messages replaced by `g` and all stamps moved by `c`. -/
structure Moved (g : Ev → Ev) (c : Int) (s s' : State n) : Prop where
  queueSize : s'.queueSize = s.queueSize
  epsilon : s'.epsilon = s.epsilon
  num : s'.num = s.num
  events : s'.events = fun i => (s.events i).map g
  out : s'.out = s.out.map (fun t i => (t i).map g)
  count : s.num = nonEmpty s.events
  small : ∀ i, ∀ e ∈ s.events i, e.stamp < maxTime ∧ e.stamp + c < maxTime

theorem getOlder_map (hg : ∀ e, (g e).stamp = e.stamp + c) (v : Fin n → List Ev)
    (hs : ∀ i, ∀ e ∈ v i, e.stamp < maxTime ∧ e.stamp + c < maxTime) (i0 : Fin n) (hne : v i0 ≠ []) :
    getOlder (fun i => (v i).map g) = ((getOlder v).1 + c, (getOlder v).2) := by
  have key : ∀ (l : List (Fin n)) (a a' : Int × Option (Fin n)),
      ((a = (maxTime, none) ∧ a' = (maxTime, none)) ∨ a' = (a.1 + c, a.2)) →
      (l.foldl (olderBetween v) a = (maxTime, none) ∧ l.foldl (olderBetween (fun i => (v i).map g)) a' = (maxTime, none)) ∨
        l.foldl (olderBetween (fun i => (v i).map g)) a' = ((l.foldl (olderBetween v) a).1 + c, (l.foldl (olderBetween v) a).2) := by
    intro l
    induction l with
    | nil => intro a a' h; exact h
    | cons i l ih =>
      intro a a' h
      simp only [List.foldl_cons]
      apply ih
      unfold olderBetween
      dsimp only
      cases hv : v i with
      | nil => exact h
      | cons e rest =>
        have hse := hs i e (by rw [hv]; simp)
        simp only [List.map_cons, hg]
        rcases h with ⟨rfl, rfl⟩ | rfl
        · rw [if_pos (by show maxTime > _; omega), if_pos (by show maxTime > _; omega)]
          exact .inr rfl
        · dsimp only
          by_cases h1 : a.1 > e.stamp
          · rw [if_pos h1, if_pos (by omega)]; exact .inr rfl
          · rw [if_neg h1, if_neg (by omega)]; exact .inr rfl
  rcases key (List.finRange n) (maxTime, none) (maxTime, none) (.inl ⟨rfl, rfl⟩) with ⟨h, _⟩ | h
  · obtain ⟨e, tl, hv⟩ := List.exists_cons_of_ne_nil hne
    have h1 := (getOlder_spec v).2.1 i0 e tl hv
    have h2 : getOlder v = (maxTime, none) := h
    rw [h2] at h1
    have h3 := (hs i0 e (by rw [hv]; simp)).1
    dsimp only at h1
    omega
  · exact h

theorem checkAll_map (hg : ∀ e, (g e).stamp = e.stamp + c) (v : Fin n → List Ev) (eps : Int) (o : Int × Option (Fin n)) :
    checkAll (fun i => (v i).map g) eps (o.1 + c, o.2) = checkAll v eps o := by
  unfold checkAll
  congr 1
  funext i
  unfold withinEpsilon
  dsimp only
  split
  · rfl
  · cases v i with
    | nil => rfl
    | cons e rest =>
      simp only [List.map_cons, hg]
      have : (o.1 + c + eps ≥ e.stamp + c) = (o.1 + eps ≥ e.stamp) := by
        apply propext; omega
      simp only [this]

theorem moved_eraseFront {s s' : State n} (h : Moved g c s s') (i : Fin n) : Moved g c (eraseFront s i) (eraseFront s' i) := by
  have hd : s'.events i = (s.events i).map g := congrFun h.events i
  obtain ⟨_, _, _, h4, h5⟩ := eraseFront_spec s i
  have hcount := h5 h.count
  have hsmall : ∀ j, ∀ e ∈ (eraseFront s i).events j, e.stamp < maxTime ∧ e.stamp + c < maxTime := by
    intro j e he
    rw [h4] at he
    by_cases hji : j = i
    · subst hji
      rw [upd_same] at he
      exact h.small j e (List.mem_of_mem_tail he)
    · rw [upd_ne _ _ hji] at he
      exact h.small j e he
  unfold eraseFront at hcount hsmall ⊢
  rw [hd]
  cases hs : s.events i with
  | nil => exact h
  | cons e rest =>
    rw [hs] at hcount hsmall
    simp only [List.map_cons, List.isEmpty_map, h.num]
    exact {
      queueSize := h.queueSize, epsilon := h.epsilon, num := rfl, out := h.out
      events := by simp only [h.events, map_upd_fun (List.map g)]
      count := hcount
      small := hsmall }

theorem moved_fronts {s s' : State n} (h : Moved g c s s') : Moved g c (eraseFronts s) (eraseFronts s') := by
  unfold eraseFronts
  generalize List.finRange n = l
  induction l generalizing s s' with
  | nil => exact h
  | cons i l ih => exact ih (moved_eraseFront h i)

theorem moved_onSync (hg : ∀ e, (g e).stamp = e.stamp + c) (ts : Int) {s s' : State n} (h : Moved g c s s') (i : Fin n) :
    Moved g c (eraseIfOnSync ts s i) (eraseIfOnSync (ts + c) s' i) := by
  have hd : s'.events i = (s.events i).map g := congrFun h.events i
  have he := moved_eraseFront h i
  unfold eraseIfOnSync
  rw [hd]
  cases s.events i with
  | nil => exact h
  | cons e rest =>
    simp only [List.map_cons, hg, h.epsilon]
    by_cases h1 : ts + s.epsilon < e.stamp
    · rw [if_pos h1, if_pos (by omega)]; exact h
    · rw [if_neg h1, if_neg (by omega)]; exact he

theorem moved_old (hg : ∀ e, (g e).stamp = e.stamp + c) (ts : Int) {s s' : State n} (h : Moved g c s s') :
    Moved g c (eraseOld ts s) (eraseOld (ts + c) s') := by
  unfold eraseOld
  generalize List.finRange n = l
  induction l generalizing s s' with
  | nil => exact h
  | cons i l ih => exact ih (moved_onSync hg ts h i)

theorem moved_signal {s s' : State n} (h : Moved g c s s') : RelE (Moved g c) (signal s) (signal s') := by
  unfold signal
  have e : (List.finRange n).all (fun i => !(s'.events i).isEmpty) = (List.finRange n).all (fun i => !(s.events i).isEmpty) := by
    rw [h.events]; simp only [List.isEmpty_map]
  rw [e]
  split
  · exact { h with
      out := by simp only [h.out, h.events, List.map_append, List.map_cons, List.map_nil, List.head?_map] }
  · exact rfl

theorem moved_process [NeZero n] (hg : ∀ e, (g e).stamp = e.stamp + c) : ∀ (fuel : Nat) (s s' : State n), Moved g c s s' →
    RelE (Moved g c) (process fuel s) (process fuel s') := by
  intro fuel
  induction fuel with
  | zero =>
    intro s s' h
    unfold process
    rw [h.num]
    split
    · exact rfl
    · exact h
  | succ fuel ih =>
    intro s s' h
    unfold process
    rw [h.num]
    split
    · rename_i hn
      have hne : s.events 0 ≠ [] := by
        apply (nonEmpty_eq_iff s.events).1
        have := h.count
        omega
      have ho : getOlder s'.events = ((getOlder s.events).1 + c, (getOlder s.events).2) := by
        rw [h.events]
        exact getOlder_map hg s.events h.small 0 hne
      have hc : checkAll s'.events s'.epsilon (getOlder s'.events) = checkAll s.events s.epsilon (getOlder s.events) := by
        rw [ho, h.events, h.epsilon, checkAll_map hg]
      dsimp only
      rw [hc]
      split
      · have hsig := moved_signal h
        cases h1 : signal s with
        | error f => rw [h1] at hsig; rw [relE_error hsig]; exact rfl
        | ok a =>
          rw [h1] at hsig
          obtain ⟨a', h2, h3⟩ := relE_ok hsig
          rw [h2]
          exact ih _ _ (moved_fronts h3)
      · rw [ho]
        exact ih _ _ (moved_old hg _ h)
    · exact h

theorem moved_add [NeZero n] (hg : ∀ e, (g e).stamp = e.stamp + c) (fuel : Nat) {s s' : State n} (h : Moved g c s s')
    (i : Fin n) (e : Ev) (he : e.stamp < maxTime ∧ e.stamp + c < maxTime) :
    RelE (Moved g c) (add fuel s i e) (add fuel s' i (g e)) := by
  have hd : s'.events i = (s.events i).map g := congrFun h.events i
  have hnum : (if (s'.events i).length = 0 then s'.num + 1 else s'.num) =
      (if (s.events i).length = 0 then s.num + 1 else s.num) := by
    rw [hd, List.length_map, h.num]
  have hm : Moved g c
      { s with num := if (s.events i).length = 0 then s.num + 1 else s.num, events := upd s.events i (s.events i ++ [e]) }
      { s' with num := if (s'.events i).length = 0 then s'.num + 1 else s'.num,
                events := upd s'.events i (s'.events i ++ [g e]) } := {
    queueSize := h.queueSize, epsilon := h.epsilon, num := hnum, out := h.out
    events := by
      rw [hd]
      simp only [h.events, map_upd_fun (List.map g), List.map_append, List.map_cons, List.map_nil]
    count := by
      have := nonEmpty_upd s.events i (s.events i ++ [e])
      dsimp only
      rw [this, h.count]
      cases s.events i <;> simp
    small := by
      intro j x hx
      dsimp only at hx
      by_cases hji : j = i
      · subst hji
        rw [upd_same] at hx
        rcases List.mem_append.1 hx with hx | hx
        · exact h.small j x hx
        · rw [List.mem_singleton.1 hx]; exact he
      · rw [upd_ne _ _ hji] at hx
        exact h.small j x hx }
  unfold add
  dsimp only
  have hl : (upd s'.events i (s'.events i ++ [g e]) i).length = (upd s.events i (s.events i ++ [e]) i).length := by
    simp only [upd_same, hd, List.length_append, List.length_map, List.length_cons, List.length_nil]
  by_cases h1 : (if (s.events i).length = 0 then s.num + 1 else s.num) = (n : Int)
  · rw [if_pos h1, if_pos (hnum.trans h1)]
    exact moved_process hg _ _ _ hm
  · have h1' : ¬(if (s'.events i).length = 0 then s'.num + 1 else s'.num) = (n : Int) := by rw [hnum]; exact h1
    rw [if_neg h1, if_neg h1']
    by_cases h2 : (upd s.events i (s.events i ++ [e]) i).length > s.queueSize
    · have h2' : (upd s'.events i (s'.events i ++ [g e]) i).length > s'.queueSize := by rw [hl, h.queueSize]; exact h2
      rw [if_pos h2, if_pos h2']
      exact moved_eraseFront hm i
    · have h2' : ¬(upd s'.events i (s'.events i ++ [g e]) i).length > s'.queueSize := by rw [hl, h.queueSize]; exact h2
      rw [if_neg h2, if_neg h2']
      exact hm

end MF.Epsilon

namespace MF.Cache

open MF.ExactTime (mono_lt mono_le)

variable {g : Ev → Ev} {φ : Int → Int}

/-- A cache with its messages replaced. -/
def mapState (g : Ev → Ev) (s : State) : State := { size := s.size, items := s.items.map g, out := s.out.map g }

theorem popLoop_map (g : Ev → Ev) (n : Nat) : ∀ (l : List Ev), popLoop n (l.map g) = (popLoop n l).map (List.map g) := by
  intro l
  induction l with
  | nil => simp only [List.map_nil, popLoop]; split <;> rfl
  | cons e l ih =>
    simp only [List.map_cons, popLoop, List.length_cons, List.length_map]
    split
    · exact ih
    · rfl

theorem insertBack_map (hφ : ∀ x y, x < y → φ x < φ y) (hg : ∀ e, (g e).stamp = φ e.stamp) (e : Ev) :
    ∀ (rev passed : List Ev), insertBack (g e) (rev.map g) (passed.map g) = (insertBack e rev passed).map g := by
  intro rev
  induction rev with
  | nil => intro passed; rfl
  | cons x rev ih =>
    intro passed
    simp only [List.map_cons, insertBack, hg, GT.gt, mono_lt hφ]
    split
    · exact ih (x :: passed)
    · simp [List.map_reverse]

theorem step_map (hφ : ∀ x y, x < y → φ x < φ y) (hg : ∀ e, (g e).stamp = φ e.stamp) (s : State) (op : Op) :
    step (mapState g s) (mapOp g op) = (step s op).map (mapState g) := by
  cases op with
  | setSize n =>
    simp only [mapOp, step, setCacheSize, mapState]
    split <;> rfl
  | add e =>
    simp only [mapOp, step, add, insertLocked, mapState, popLoop_map]
    cases s.size with
    | none => rfl
    | some n =>
      dsimp only
      cases popLoop n s.items with
      | error f => rfl
      | ok kept =>
        have := insertBack_map hφ hg e kept.reverse []
        rw [List.map_reverse] at this
        simp only [Except.map, forward, List.map_append, List.map_cons, List.map_nil, mapState]
        rw [← this]
        rfl

theorem run_map (hφ : ∀ x y, x < y → φ x < φ y) (hg : ∀ e, (g e).stamp = φ e.stamp) : ∀ (ops : List Op) (s : State),
    run (mapState g s) (ops.map (mapOp g)) = (run s ops).map (mapState g) := by
  intro ops
  induction ops with
  | nil => intro s; rfl
  | cons op ops ih =>
    intro s
    simp only [List.map_cons, run, step_map hφ hg]
    cases step s op with
    | error f => rfl
    | ok s1 => exact ih s1

theorem scanUp_map {p p' : Ev → Bool} (hp : ∀ x, p' (g x) = p x) (l : List Ev) : ∀ (k i : Nat),
    scanUp p' (l.map g) k i = scanUp p l k i := by
  intro k
  induction k with
  | zero => intro i; rfl
  | succ k ih =>
    intro i
    simp only [scanUp, List.getElem?_map]
    cases l[i]? with
    | none => rfl
    | some x => simp only [Option.map_some, hp, ih]

theorem scanDown_map {p p' : Ev → Bool} (hp : ∀ x, p' (g x) = p x) (l : List Ev) : ∀ (i : Nat),
    scanDown p' (l.map g) i = scanDown p l i := by
  intro i
  induction i with
  | zero => rfl
  | succ i ih =>
    simp only [scanDown, List.getElem?_map]
    cases l[i + 1]? with
    | none => rfl
    | some x => simp only [Option.map_some, hp, ih]

theorem scanUpTo_map {p p' : Ev → Bool} (hp : ∀ x, p' (g x) = p x) (l : List Ev) : ∀ (k i : Nat),
    scanUpTo p' (l.map g) k i = scanUpTo p l k i := by
  intro k
  induction k with
  | zero => intro i; rfl
  | succ k ih =>
    intro i
    simp only [scanUpTo, List.getElem?_map, List.length_map]
    split
    · cases l[i]? with
      | none => rfl
      | some x => simp only [Option.map_some, hp, ih]
    · rfl

theorem beforeLoop_map (hφ : ∀ x y, x < y → φ x < φ y) (hg : ∀ e, (g e).stamp = φ e.stamp) (t : Int) (l : List Ev) :
    ∀ (k i : Nat) (o : Option Nat), beforeLoop (φ t) (l.map g) k i o = beforeLoop t l k i o := by
  intro k
  induction k with
  | zero => intro i o; rfl
  | succ k ih =>
    intro i o
    simp only [beforeLoop, List.getElem?_map]
    cases l[i]? with
    | none => rfl
    | some x => simp only [Option.map_some, hg, mono_lt hφ, ih]

theorem afterLoop_map (hφ : ∀ x y, x < y → φ x < φ y) (hg : ∀ e, (g e).stamp = φ e.stamp) (t : Int) (l : List Ev) :
    ∀ (k : Nat) (o : Option Nat), afterLoop (φ t) (l.map g) k o = afterLoop t l k o := by
  intro k
  induction k with
  | zero => intro o; rfl
  | succ k ih =>
    intro o
    simp only [afterLoop, List.getElem?_map]
    cases l[k]? with
    | none => rfl
    | some x => simp only [Option.map_some, hg, GT.gt, mono_lt hφ, ih]

theorem interval_map (hφ : ∀ x y, x < y → φ x < φ y) (hg : ∀ e, (g e).stamp = φ e.stamp) (s : State) (a b : Int) :
    getInterval (mapState g s) (φ a) (φ b) = (getInterval s a b).map g := by
  have h1 : ∀ x, decide ((g x).stamp < φ a) = decide (x.stamp < a) := fun x => by simp only [hg, mono_lt hφ]
  have h2 : ∀ x, decide ((g x).stamp ≤ φ b) = decide (x.stamp ≤ b) := fun x => by simp only [hg, mono_le hφ]
  simp only [getInterval, mapState, List.length_map, List.map_take, List.map_drop]
  rw [scanUp_map (p := fun x => decide (x.stamp < a)) (p' := fun x => decide (x.stamp < φ a)) h1,
    scanUp_map (p := fun x => decide (x.stamp ≤ b)) (p' := fun x => decide (x.stamp ≤ φ b)) h2]

theorem surrounding_map (hφ : ∀ x y, x < y → φ x < φ y) (hg : ∀ e, (g e).stamp = φ e.stamp) (s : State) (a b : Int) :
    getSurroundingInterval (mapState g s) (φ a) (φ b) = (getSurroundingInterval s a b).map g := by
  have h1 : ∀ x, decide ((g x).stamp > φ a) = decide (x.stamp > a) := fun x => by simp only [hg, GT.gt, mono_lt hφ]
  have h2 : ∀ x, decide ((g x).stamp < φ b) = decide (x.stamp < b) := fun x => by simp only [hg, mono_lt hφ]
  simp only [getSurroundingInterval, mapState, List.length_map]
  split
  · rfl
  · rw [scanDown_map (p := fun x => decide (x.stamp > a)) h1, scanUpTo_map (p := fun x => decide (x.stamp < b)) h2]
    simp only [List.map_take, List.map_drop]

theorem before_map (hφ : ∀ x y, x < y → φ x < φ y) (hg : ∀ e, (g e).stamp = φ e.stamp) (s : State) (t : Int) :
    getElemBeforeTime (mapState g s) (φ t) = (getElemBeforeTime s t).map g := by
  simp only [getElemBeforeTime, mapState, List.length_map, beforeLoop_map hφ hg, List.getElem?_map]
  split <;> rfl

theorem after_map (hφ : ∀ x y, x < y → φ x < φ y) (hg : ∀ e, (g e).stamp = φ e.stamp) (s : State) (t : Int) :
    getElemAfterTime (mapState g s) (φ t) = (getElemAfterTime s t).map g := by
  simp only [getElemAfterTime, mapState, List.length_map, afterLoop_map hφ hg, List.getElem?_map]
  split <;> rfl

end MF.Cache
