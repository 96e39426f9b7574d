import Verif.Model.Locks
import Verif.Proofs.Mutex
import Verif.Spec.Sync
/-
`ExactTime::add`, statement by statement, has the effect of `ExactTime.add`; messages of one thread per input.
-/
namespace MF.Mutex

variable {σ Op L : Type}

/-- To show that a body has an effect it is enough to say, for every point of the body, what the rest of it does. -/
theorem implements_of_rest {impl : Impl σ Op L} {seq : σ → Op → Except Fault σ} (rest : L → σ → Except Fault σ)
    (henter : ∀ op s, seq s op = rest (impl.enter op) s)
    (hstep : ∀ l s, rest l s = match impl.micro l s with
      | .error f => .error f
      | .ok (s', none) => .ok s'
      | .ok (s', some l') => rest l' s') : Implements impl seq := by
  intro op s r h
  rw [henter]
  generalize impl.enter op = l at h
  induction h with
  | fault h => rw [hstep, h]
  | last h => rw [hstep, h]
  | more h _ ih => rw [hstep, h]; exact ih

/-- If the messages of input `i` all come from the thread `feeder i`, the stream of an input is determined by the program of
its thread. -/
theorem stream_callsOf {n : Nat} (feeder : Fin n → Nat) (order : List (Nat × (Fin n × Ev)))
    (h : ∀ x ∈ order, x.1 = feeder x.2.1) (i : Fin n) :
    stream (order.map (·.2)) i = stream (callsOf (feeder i) order) i := by
  unfold stream callsOf
  induction order with
  | nil => rfl
  | cons x order ih =>
    have ih := ih (fun y hy => h y (List.mem_cons_of_mem _ hy))
    have hx := h x List.mem_cons_self
    by_cases hi : x.2.1 = i
    · have : x.1 = feeder i := by rw [hx, hi]
      simp [hi, this] at ih ⊢
      exact ih
    · by_cases ht : x.1 = feeder i
      · simp [hi, ht] at ih ⊢
        exact ih
      · simp [hi, ht] at ih ⊢
        exact ih

theorem mem_callsOf {order : List (Nat × Op)} {x : Nat × Op} (h : x ∈ order) : x.2 ∈ callsOf x.1 order := by
  unfold callsOf
  exact List.mem_map.2 ⟨x, List.mem_filter.2 ⟨h, by simp⟩, rfl⟩

end MF.Mutex

namespace MF.ExactTime
open MF.Mutex

variable {n : Nat}

theorem store_store (k : Int) (t t' : Tuple n) : ∀ m, store k t' (store k t m) = store k t' m
  | [] => by simp [store]
  | (k', x) :: m => by
    by_cases h1 : k' < k
    · simp [store, h1, store_store k t t' m]
    · by_cases h2 : k' = k
      · simp [store, h2]
      · simp [store, h1, h2]

theorem tupleAt_store (k : Int) (t : Tuple n) : ∀ m, tupleAt k (store k t m) = t
  | [] => by simp [store, tupleAt]
  | (k', x) :: m => by
    unfold store
    by_cases h1 : k' < k
    · rw [if_pos h1]; unfold tupleAt; rw [if_neg (by omega)]; exact tupleAt_store k t m
    · rw [if_neg h1]
      by_cases h2 : k' = k
      · rw [if_pos h2]; simp [tupleAt]
      · rw [if_neg h2]; simp [tupleAt]

/-- What remains to be done at each point of `add`. -/
def rest [NeZero n] : Point n → State n → Except Fault (State n)
  | .find i e, s => add s i e
  | .assign i e, s => add s i e
  | .check t, s => checkTuple s t
  | .remember t, s =>
    match t 0 with
    | none => .error .ub
    | some e0 =>
      .ok (dropExceeding (clearOldTuples { s with last := e0.stamp, tuples := s.tuples.filter (fun p => decide (p.1 ≠ e0.stamp)) }))
  | .erase, s => .ok (dropExceeding (clearOldTuples { s with tuples := s.tuples.filter (fun p => decide (p.1 ≠ s.last)) }))
  | .clear, s => .ok (dropExceeding (clearOldTuples s))
  | .overflow, s => .ok (dropExceeding s)
  | .drop todo keep next, s =>
    if next then .ok (dropExceeding { s with tuples := keep, log := s.log ++ todo.map .drop })
    else .ok { s with tuples := keep, log := s.log ++ todo.map .drop }

theorem body_implements [NeZero n] : Implements (body (n := n)) (fun s op => add s op.1 op.2) := by
  refine implements_of_rest rest (fun op s => rfl) ?_
  intro l s
  cases l with
  | find i e =>
    simp only [body, statement, rest, add, tupleAt_store, store_store]
  | assign i e => rfl
  | check t =>
    simp only [body, statement, rest, checkTuple]
    by_cases h : isFull t = true
    · rw [if_pos h, if_pos h]; all_goals rfl
    · rw [if_neg h, if_neg h]
  | remember t =>
    simp only [body, statement, rest]
    cases t 0 <;> rfl
  | erase => rfl
  | clear => simp [body, statement, rest, clearOldTuples, dropRange, Function.comp_def]
  | overflow =>
    simp only [body, statement, rest, dropExceeding]
    by_cases h : s.queueSize > 0 ∧ s.tuples.length > s.queueSize
    · rw [if_pos h, if_pos h]; simp [dropRange, Function.comp_def]
    · rw [if_neg h, if_neg h]
  | drop todo keep next =>
    cases todo with
    | cons t todo => simp [body, statement, rest]
    | nil => cases next <;> simp [body, statement, rest]

/-- A bound of the number of statements still to execute. -/
def cost : Point n → State n → Nat
  | .find _ _, s => 11 + s.tuples.length
  | .assign _ _, s => 9 + s.tuples.length
  | .check _, s => 7 + s.tuples.length
  | .remember _, s => 6 + s.tuples.length
  | .erase, s => 5 + s.tuples.length
  | .clear, s => 4 + s.tuples.length
  | .drop todo keep true, _ => 3 + todo.length + keep.length
  | .overflow, s => 2 + s.tuples.length
  | .drop todo _ false, _ => 1 + todo.length

theorem length_store (k : Int) (t : Tuple n) : ∀ m, (store k t m).length ≤ m.length + 1
  | [] => by simp [store]
  | (k', x) :: m => by
    unfold store
    have := length_store k t m
    by_cases h1 : k' < k
    · rw [if_pos h1]; simp only [List.length_cons]; omega
    · rw [if_neg h1]
      by_cases h2 : k' = k
      · rw [if_pos h2]; simp
      · rw [if_neg h2]; simp

theorem cost_decreases [NeZero n] (l l' : Point n) (s s' : State n) (h : statement l s = .ok (s', some l')) :
    cost l' s' < cost l s := by
  cases l with
  | find i e =>
    simp only [statement, Except.ok.injEq, Prod.mk.injEq, Option.some.injEq] at h
    obtain ⟨rfl, rfl⟩ := h
    have := length_store e.stamp (tupleAt e.stamp s.tuples) s.tuples
    simp only [cost]; omega
  | assign i e =>
    simp only [statement, Except.ok.injEq, Prod.mk.injEq, Option.some.injEq] at h
    obtain ⟨rfl, rfl⟩ := h
    have := length_store e.stamp (upd (tupleAt e.stamp s.tuples) i (some e)) s.tuples
    simp only [cost]; omega
  | check t =>
    simp only [statement] at h
    by_cases hf : isFull t = true
    · rw [if_pos hf] at h; cases h; simp [cost]
    · rw [if_neg hf] at h; cases h; simp only [cost]; omega
  | remember t =>
    simp only [statement] at h
    cases ht : t 0 with
    | none => rw [ht] at h; cases h
    | some e => rw [ht] at h; cases h; simp [cost]
  | erase =>
    cases h
    have := List.length_filter_le (fun p => decide (p.1 ≠ s.last)) s.tuples
    simp only [cost]; omega
  | clear =>
    cases h
    have := congrArg List.length (List.takeWhile_append_dropWhile (p := fun p => decide (p.1 ≤ s.last)) (l := s.tuples))
    simp only [cost, List.length_map, List.length_append] at this ⊢; omega
  | overflow =>
    simp only [statement] at h
    by_cases hf : s.queueSize > 0 ∧ s.tuples.length > s.queueSize
    · rw [if_pos hf] at h; cases h; simp only [cost, List.length_map, List.length_take]; omega
    · rw [if_neg hf] at h; cases h
  | drop todo keep next =>
    cases todo with
    | cons t todo => cases h; cases next <;> simp [cost]
    | nil =>
      simp only [statement] at h
      cases next <;> cases h
      simp only [cost, List.length_nil]; omega

theorem body_terminates [NeZero n] (l : Point n) (s : State n) : ∃ r, Runs body l s r := by
  generalize hk : cost l s = k
  induction k using Nat.strongRecOn generalizing l s with
  | ind k ih =>
    cases hm : statement l s with
    | error f => exact ⟨_, .fault hm⟩
    | ok p =>
      obtain ⟨s', ol⟩ := p
      cases ol with
      | none => exact ⟨_, .last hm⟩
      | some l' =>
        obtain ⟨r, hr⟩ := ih (cost l' s') (hk ▸ cost_decreases l l' s s' hm) l' s' rfl
        exact ⟨r, .more hm hr⟩

end MF.ExactTime

namespace MF.Mutex

variable {Op : Type}

/-- The number of calls of the threads `0, …, k - 1`. -/
def totalCalls (k : Nat) (progs : Nat → List Op) : Nat := ((List.range k).map (fun t => (progs t).length)).sum

theorem sum_count (k t : Nat) (f : Nat → Nat) (ht : t < k) :
    ((List.range k).map (fun u => (if t = u then 1 else 0) + f u)).sum = 1 + ((List.range k).map f).sum := by
  induction k with
  | zero => omega
  | succ k ih =>
    rw [List.range_succ, List.map_append, List.map_append, List.sum_append, List.sum_append]
    simp only [List.map_cons, List.map_nil, List.sum_cons, List.sum_nil]
    by_cases h : t = k
    · subst h
      rw [if_pos rfl]
      have : (List.range t).map (fun u => (if t = u then 1 else 0) + f u) = (List.range t).map f := by
        apply List.map_congr_left
        intro u hu
        rw [List.mem_range] at hu
        rw [if_neg (by omega)]; omega
      rw [this]; omega
    · rw [if_neg h, ih (by omega)]; omega

theorem length_order (k : Nat) (order : List (Nat × Op)) (h : ∀ x ∈ order, x.1 < k) :
    order.length = ((List.range k).map (fun t => (callsOf t order).length)).sum := by
  induction order with
  | nil =>
    have : ∀ l : List Nat, (l.map (fun t => (callsOf t ([] : List (Nat × Op))).length)).sum = 0 := by
      intro l
      induction l with
      | nil => rfl
      | cons a l ih => rw [List.map_cons, List.sum_cons, ih]; rfl
    rw [this]; rfl
  | cons x order ih =>
    have hx := h x List.mem_cons_self
    have e : (fun t => (callsOf t (x :: order)).length) = (fun t => (if x.1 = t then 1 else 0) + (callsOf t order).length) := by
      funext t
      unfold callsOf
      by_cases ht : x.1 = t <;> simp [ht]
      omega
    rw [e, sum_count k x.1 _ hx, ← ih (fun y hy => h y (List.mem_cons_of_mem _ hy))]
    simp; omega

/-- An order of calls that are prefixes of the programs of `k` threads. -/
theorem length_order_le {k : Nat} {progs : Nat → List Op} (hk : ∀ t, k ≤ t → progs t = []) {order : List (Nat × Op)}
    (h : ∀ t, ∃ rest, callsOf t order ++ rest = progs t) : order.length ≤ totalCalls k progs := by
  rw [length_order k order]
  · unfold totalCalls
    have : ∀ l : List Nat, (l.map (fun t => (callsOf t order).length)).sum ≤ (l.map (fun t => (progs t).length)).sum := by
      intro l
      induction l with
      | nil => exact Nat.le_refl _
      | cons a l ih =>
        obtain ⟨rest, hr⟩ := h a
        have := congrArg List.length hr
        rw [List.length_append] at this
        simp only [List.map_cons, List.sum_cons]; omega
    exact this _
  · intro x hx
    apply Classical.byContradiction
    intro hn
    obtain ⟨rest, hr⟩ := h x.1
    rw [hk x.1 (by omega)] at hr
    have := mem_callsOf hx
    rw [(List.append_eq_nil_iff.1 hr).1] at this
    cases this

theorem runE_map {S A B : Type} (step : S → B → Except Fault S) (f : A → B) (s : S) (l : List A) :
    runE step s (l.map f) = runE (fun s a => step s (f a)) s l := by
  induction l generalizing s with
  | nil => rfl
  | cons a l ih =>
    simp only [List.map_cons, runE]
    cases step s (f a) with
    | error f => rfl
    | ok s' => exact ih s'

end MF.Mutex
