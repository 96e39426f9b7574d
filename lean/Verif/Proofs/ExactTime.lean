import Verif.Spec.ExactTime
import Verif.Proofs.Basic
/-
Helper lemmas about the ExactTime model.
-/
namespace MF.ExactTime

variable {n : Nat}

theorem isFull_iff (t : Tuple n) : isFull t = true ↔ Complete t := by
  unfold isFull Complete
  rw [List.all_eq_true]
  constructor
  · intro h i
    have := h i (List.mem_finRange i)
    rwa [Option.isSome_iff_exists] at this
  · intro h i _
    rw [Option.isSome_iff_exists]; exact h i

/-- The map seen around key `k`: what is below, what is stored, what is above. -/
theorem map_split (k : Int) (m : List (Int × Tuple n)) (hm : m.Pairwise (fun p q => p.1 < q.1)) :
    ∃ (a : List (Int × Tuple n)) (o : Option (Tuple n)) (b : List (Int × Tuple n)),
      m = a ++ (o.toList.map (fun t => (k, t)) ++ b) ∧ (∀ p ∈ a, p.1 < k) ∧ (∀ p ∈ b, k < p.1) ∧
      tupleAt k m = o.getD (emptyTuple n) ∧ ∀ t, store k t m = a ++ (k, t) :: b := by
  induction m with
  | nil => exact ⟨[], none, [], by simp, by simp, by simp, by simp [tupleAt], by simp [store]⟩
  | cons p m ih =>
    obtain ⟨k', t'⟩ := p
    have hm' := List.pairwise_cons.1 hm
    by_cases h1 : k' < k
    · obtain ⟨a, o, b, i1, i2, i3, i4, i5⟩ := ih hm'.2
      refine ⟨(k', t') :: a, o, b, by rw [i1]; simp, ?_, i3, ?_, ?_⟩
      · intro p hp
        rcases List.mem_cons.1 hp with rfl | hp
        · exact h1
        · exact i2 p hp
      · have : k' ≠ k := by omega
        simp [tupleAt, this, i4]
      · intro t; simp [store, h1, i5]
    · by_cases h2 : k' = k
      · subst h2
        exact ⟨[], some t', m, by simp, by simp, fun p hp => hm'.1 p hp, by simp [tupleAt], by simp [store]⟩
      · refine ⟨[], none, (k', t') :: m, by simp, by simp, ?_, ?_, ?_⟩
        · intro p hp
          rcases List.mem_cons.1 hp with rfl | hp
          · simp only; omega
          · have := hm'.1 p hp
            simp only at this; omega
        · have key : ∀ l : List (Int × Tuple n), (∀ p ∈ l, p.1 ≠ k) → tupleAt k l = emptyTuple n := by
            intro l
            induction l with
            | nil => intro _; rfl
            | cons p l ihl =>
              intro hl
              obtain ⟨kp, tp⟩ := p
              simp only [tupleAt]
              rw [if_neg (hl (kp, tp) (by simp))]
              exact ihl (fun q hq => hl q (by simp [hq]))
          apply key
          intro p hp
          rcases List.mem_cons.1 hp with rfl | hp
          · exact h2
          · have := hm'.1 p hp
            simp only at this; omega
        · intro t; simp [store, h1, h2]

/-- Invariant of reachable states. -/
structure Inv (s : State n) : Prop where
  keys : s.tuples.Pairwise (fun p q => p.1 < q.1)
  stamps : ∀ p ∈ s.tuples, HasStamp p.2 p.1
  nonempty : ∀ p ∈ s.tuples, ∃ i e, p.2 i = some e
  incomplete : ∀ p ∈ s.tuples, ¬ Complete p.2
  bound : 0 < s.queueSize → s.tuples.length ≤ s.queueSize

theorem inv_construct (q : Nat) : Inv (construct n q) := by
  constructor <;> simp [construct]

/-- How many sets the overflow rule drops. -/
def excess (q len : Nat) : Nat := if q > 0 then len - q else 0

theorem dropExceeding_eq (s : State n) :
    dropExceeding s = dropRange s (s.tuples.take (excess s.queueSize s.tuples.length))
      (s.tuples.drop (excess s.queueSize s.tuples.length)) := by
  unfold dropExceeding excess
  by_cases h : s.queueSize > 0
  · by_cases h2 : s.tuples.length > s.queueSize
    · simp [h, h2]
    · have : s.tuples.length - s.queueSize = 0 := by omega
      simp [h2, this, dropRange]
  · simp [h, dropRange]

/-- Effect of one `add`, in terms of the part of the map below / at / above the stamp. -/
structure AddSpec (s s' : State n) (i : Fin n) (e : Ev) (a : List (Int × Tuple n)) (o : Option (Tuple n))
    (b : List (Int × Tuple n)) (t : Tuple n) : Prop where
  split : s.tuples = a ++ (o.toList.map (fun t => (e.stamp, t)) ++ b)
  below : ∀ p ∈ a, p.1 < e.stamp
  above : ∀ p ∈ b, e.stamp < p.1
  tuple : t = upd (o.getD (emptyTuple n)) i (some e)
  stamp : HasStamp t e.stamp
  qsize : s'.queueSize = s.queueSize
  full : Complete t → s'.tuples = b ∧ s'.last = e.stamp ∧
    s'.log = s.log ++ ((((o.getD (emptyTuple n)) i).toList.map (Action.replaced i)) ++
      (Action.out t :: a.map (fun p => Action.drop p.2)))
  part : ¬ Complete t → s'.last = s.last ∧
    s'.tuples = (a ++ (e.stamp, t) :: b).drop (excess s.queueSize (a ++ (e.stamp, t) :: b).length) ∧
    s'.log = s.log ++ ((((o.getD (emptyTuple n)) i).toList.map (Action.replaced i)) ++
      ((a ++ (e.stamp, t) :: b).take (excess s.queueSize (a ++ (e.stamp, t) :: b).length)).map
        (fun p => Action.drop p.2))

theorem takeWhile_below (k : Int) (a b : List (Int × Tuple n)) (ha : ∀ p ∈ a, p.1 < k) (hb : ∀ p ∈ b, k < p.1) :
    (a ++ b).takeWhile (fun p => decide (p.1 ≤ k)) = a ∧ (a ++ b).dropWhile (fun p => decide (p.1 ≤ k)) = b := by
  induction a with
  | nil =>
    cases b with
    | nil => simp
    | cons q b =>
      have := hb q (by simp)
      simp [List.takeWhile_cons, List.dropWhile_cons]
      omega
  | cons p a ih =>
    have h1 := ha p (by simp)
    have h2 := ih (fun q hq => ha q (by simp [hq]))
    have h3 : p.1 ≤ k := by omega
    simp [h3, h2]

theorem add_spec [NeZero n] (s : State n) (hs : Inv s) (i : Fin n) (e : Ev) :
    ∃ s' a o b t, add s i e = .ok s' ∧ AddSpec s s' i e a o b t := by
  obtain ⟨a, o, b, h1, h2, h3, h4, h5⟩ := map_split e.stamp s.tuples hs.keys
  have hstamp : HasStamp (upd (o.getD (emptyTuple n)) i (some e)) e.stamp := by
    intro j x hx
    by_cases hj : j = i
    · subst hj; rw [upd_same] at hx; cases hx; rfl
    · rw [upd_ne _ _ hj] at hx
      cases ho : o with
      | none => rw [ho] at hx; simp [emptyTuple] at hx
      | some t0 =>
        rw [ho] at hx
        exact hs.stamps (e.stamp, t0) (by rw [h1, ho]; simp) j x hx
  by_cases hfull : Complete (upd (o.getD (emptyTuple n)) i (some e))
  · have hfull' := (isFull_iff _).2 hfull
    obtain ⟨e0, he0⟩ := hfull 0
    have hst0 : e0.stamp = e.stamp := hstamp 0 e0 he0
    have hfilter : (a ++ (e.stamp, upd (o.getD (emptyTuple n)) i (some e)) :: b).filter
        (fun p => decide (p.1 ≠ e.stamp)) = a ++ b := by
      rw [List.filter_append, List.filter_cons_of_neg (by simp)]
      congr 1
      · rw [List.filter_eq_self]; intro p hp; have := h2 p hp; simp; omega
      · rw [List.filter_eq_self]; intro p hp; have := h3 p hp; simp; omega
    obtain ⟨tw, dw⟩ := takeWhile_below e.stamp a b h2 h3
    have hlen : 0 < s.queueSize → b.length ≤ s.queueSize := by
      intro hq
      have := hs.bound hq
      rw [h1] at this
      simp at this
      omega
    have hex : excess s.queueSize b.length = 0 := by
      unfold excess; split
      · have := hlen (by omega); omega
      · rfl
    refine ⟨State.mk s.queueSize b e.stamp (s.log ++ ((((o.getD (emptyTuple n)) i).toList.map (Action.replaced i)) ++
      (Action.out (upd (o.getD (emptyTuple n)) i (some e)) :: a.map (fun p => Action.drop p.2)))),
      a, o, b, upd (o.getD (emptyTuple n)) i (some e), ?_, ?_⟩
    · simp only [add, h4, h5, checkTuple, hfull', if_true, he0, hst0, hfilter, clearOldTuples, tw, dw,
        dropExceeding_eq, dropRange, hex, List.take_zero, List.drop_zero]
      simp
    · exact ⟨h1, h2, h3, rfl, hstamp, rfl, fun _ => ⟨rfl, rfl, rfl⟩, fun h => absurd hfull h⟩
  · have hfull' : isFull (upd (o.getD (emptyTuple n)) i (some e)) ≠ true := fun h => hfull ((isFull_iff _).1 h)
    refine ⟨State.mk s.queueSize _ s.last (s.log ++ ((((o.getD (emptyTuple n)) i).toList.map (Action.replaced i)) ++ _)),
      a, o, b, upd (o.getD (emptyTuple n)) i (some e), ?_, h1, h2, h3, rfl, hstamp, rfl,
      fun h => absurd h hfull, fun _ => ⟨rfl, rfl, rfl⟩⟩
    simp only [add, h4, h5, checkTuple, hfull', dropExceeding_eq, dropRange]
    simp

/-- `AddSpec` for an `add` that is known to have succeeded. -/
theorem add_spec' [NeZero n] {s s' : State n} (hs : Inv s) {i : Fin n} {e : Ev} (h : add s i e = .ok s') :
    ∃ a o b t, AddSpec s s' i e a o b t := by
  obtain ⟨s2, a, o, b, t, h1, h2⟩ := add_spec s hs i e
  rw [h] at h1; cases h1
  exact ⟨a, o, b, t, h2⟩

theorem AddSpec.sorted {s s' : State n} {i : Fin n} {e : Ev} {a o b t} (h : AddSpec s s' i e a o b t) (hs : Inv s) :
    (a ++ (e.stamp, t) :: b).Pairwise (fun p q => p.1 < q.1) := by
  have hk := hs.keys
  rw [h.split] at hk
  rw [List.pairwise_append] at hk
  have hb := (List.pairwise_append.1 hk.2.1).2.1
  rw [List.pairwise_append]
  refine ⟨hk.1, List.pairwise_cons.2 ⟨h.above, hb⟩, ?_⟩
  intro p hp q hq
  rcases List.mem_cons.1 hq with rfl | hq
  · exact h.below p hp
  · exact hk.2.2 p hp q (List.mem_append.2 (Or.inr hq))

theorem AddSpec.mem_old {s s' : State n} {i : Fin n} {e : Ev} {a o b t} (h : AddSpec s s' i e a o b t) :
    (∀ p ∈ a, p ∈ s.tuples) ∧ (∀ p ∈ b, p ∈ s.tuples) ∧ (∀ t0, o = some t0 → (e.stamp, t0) ∈ s.tuples) := by
  rw [h.split]
  refine ⟨fun p hp => by simp [hp], fun p hp => by simp [hp], fun t0 h0 => by simp [h0]⟩

theorem AddSpec.slot {s s' : State n} {i : Fin n} {e : Ev} {a o b t} (h : AddSpec s s' i e a o b t) :
    t i = some e := by rw [h.tuple]; simp

theorem add_inv [NeZero n] {s s' : State n} (hs : Inv s) {i : Fin n} {e : Ev} (h : add s i e = .ok s') : Inv s' := by
  obtain ⟨a, o, b, t, sp⟩ := add_spec' hs h
  obtain ⟨ma, mb, mo⟩ := sp.mem_old
  have hsorted := sp.sorted hs
  by_cases hc : Complete t
  · obtain ⟨h1, h2, h3⟩ := sp.full hc
    refine ⟨?_, ?_, ?_, ?_, ?_⟩
    · rw [h1]; exact (List.pairwise_cons.1 (List.pairwise_append.1 hsorted).2.1).2
    · rw [h1]; exact fun p hp => hs.stamps p (mb p hp)
    · rw [h1]; exact fun p hp => hs.nonempty p (mb p hp)
    · rw [h1]; exact fun p hp => hs.incomplete p (mb p hp)
    · rw [h1, sp.qsize]; intro hq
      have := hs.bound hq
      rw [sp.split] at this
      simp at this; omega
  · obtain ⟨h1, h2, h3⟩ := sp.part hc
    have hmem : ∀ p ∈ s'.tuples, p ∈ s.tuples ∨ p = (e.stamp, t) := by
      intro p hp
      rw [h2] at hp
      have := List.mem_of_mem_drop hp
      rcases List.mem_append.1 this with hp | hp
      · exact Or.inl (ma p hp)
      · rcases List.mem_cons.1 hp with hp | hp
        · exact Or.inr hp
        · exact Or.inl (mb p hp)
    refine ⟨?_, ?_, ?_, ?_, ?_⟩
    · rw [h2]; exact hsorted.sublist (List.drop_sublist _ _)
    · intro p hp
      rcases hmem p hp with hp | rfl
      · exact hs.stamps p hp
      · exact sp.stamp
    · intro p hp
      rcases hmem p hp with hp | rfl
      · exact hs.nonempty p hp
      · exact ⟨i, e, sp.slot⟩
    · intro p hp
      rcases hmem p hp with hp | rfl
      · exact hs.incomplete p hp
      · exact hc
    · intro hq
      rw [sp.qsize] at hq
      rw [h2, List.length_drop, sp.qsize]
      unfold excess
      rw [if_pos hq]; omega

theorem run_ok [NeZero n] {s : State n} (hs : Inv s) (ops : List (Fin n × Ev)) : ∃ s', run s ops = .ok s' ∧ Inv s' := by
  apply runE_ok (I := Inv) _ ops s hs
  intro s op hs
  obtain ⟨s', a, o, b, t, h1, h2⟩ := add_spec s hs op.1 op.2
  exact ⟨s', h1, add_inv hs h1⟩

theorem run_inv [NeZero n] {s s' : State n} (hs : Inv s) {ops : List (Fin n × Ev)} (h : run s ops = .ok s') : Inv s' := by
  obtain ⟨s2, h1, h2⟩ := run_ok hs ops
  rw [h] at h1; cases h1; exact h2

/-! ### Logs -/

theorem outs_append (l m : List (Action n)) : outs (l ++ m) = outs l ++ outs m := by
  induction l with
  | nil => rfl
  | cons x l ih => cases x <;> simp [outs, ih]

theorem drops_append (l m : List (Action n)) : drops (l ++ m) = drops l ++ drops m := by
  induction l with
  | nil => rfl
  | cons x l ih => cases x <;> simp [drops, ih]

theorem replacedOn_append (i : Fin n) (l m : List (Action n)) :
    replacedOn i (l ++ m) = replacedOn i l ++ replacedOn i m := by
  induction l with
  | nil => rfl
  | cons x l ih =>
    cases x with
    | replaced j e => simp only [List.cons_append, replacedOn]; split <;> simp [ih]
    | _ => simp [replacedOn, ih]

@[simp] theorem outs_dropmap (l : List (Int × Tuple n)) : outs (l.map (fun p => Action.drop p.2)) = [] := by
  induction l with
  | nil => rfl
  | cons x l ih => simpa [outs] using ih

@[simp] theorem drops_dropmap (l : List (Int × Tuple n)) :
    drops (l.map (fun p => Action.drop p.2)) = l.map (·.2) := by
  induction l with
  | nil => rfl
  | cons x l ih => simpa [drops] using ih

@[simp] theorem replacedOn_dropmap (i : Fin n) (l : List (Int × Tuple n)) :
    replacedOn i (l.map (fun p => Action.drop p.2)) = [] := by
  induction l with
  | nil => rfl
  | cons x l ih => simpa [replacedOn] using ih

@[simp] theorem outs_repl (i : Fin n) (o : Option Ev) : outs (o.toList.map (Action.replaced i)) = [] := by
  cases o <;> rfl

@[simp] theorem drops_repl (i : Fin n) (o : Option Ev) : drops (o.toList.map (Action.replaced i)) = [] := by
  cases o <;> rfl

theorem replacedOn_repl (i j : Fin n) (o : Option Ev) :
    replacedOn j (o.toList.map (Action.replaced i)) = if i = j then o.toList else [] := by
  cases o <;> simp [replacedOn]

/-- The log entries of one `add`. -/
theorem AddSpec.log_outs {s s' : State n} {i : Fin n} {e : Ev} {a o b t} (h : AddSpec s s' i e a o b t) :
    (Complete t → outs s'.log = outs s.log ++ [t] ∧ drops s'.log = drops s.log ++ a.map (·.2)) ∧
    (¬ Complete t → outs s'.log = outs s.log ∧ drops s'.log = drops s.log ++
      ((a ++ (e.stamp, t) :: b).take (excess s.queueSize (a ++ (e.stamp, t) :: b).length)).map (·.2)) ∧
    (∀ j, replacedOn j s'.log = replacedOn j s.log ++ if i = j then ((o.getD (emptyTuple n)) i).toList else []) := by
  refine ⟨?_, ?_, ?_⟩
  · intro hc
    rw [(h.full hc).2.2]
    simp [outs_append, drops_append, outs, drops]
  · intro hc
    rw [(h.part hc).2.2]
    simp only [outs_append, drops_append, outs_repl, drops_repl, outs_dropmap, drops_dropmap, List.append_nil,
      List.nil_append, and_self]
  · intro j
    by_cases hc : Complete t
    · rw [(h.full hc).2.2]
      simp only [replacedOn_append, replacedOn_repl, replacedOn, replacedOn_dropmap, List.append_nil]
    · rw [(h.part hc).2.2]
      simp only [replacedOn_append, replacedOn_repl, replacedOn_dropmap, List.append_nil]

end MF.ExactTime
