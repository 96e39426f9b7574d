import Verif.Proofs.ShiftMore
import Verif.Model.PySync
/-
Lemmas for property C121: the Python synchronizers.
-/
namespace MF.Py

open MF.ExactTime (mono_lt mono_le mono_eq)

variable {n : Nat} {g : Ev → Ev} {φ : Int → Int}

/-- A queue with its messages replaced. -/
def mapDict (g : Ev → Ev) (φ : Int → Int) (d : Dict Ev) : Dict Ev := d.map (fun p => (φ p.1, g p.2))

/-- A synchronizer with its messages replaced. -/
def mapState (g : Ev → Ev) (φ : Int → Int) (s : State n) : State n :=
  { queueSize := s.queueSize, queues := fun j => mapDict g φ (s.queues j), locked := s.locked,
    out := s.out.map (fun t j => g (t j)) }

theorem keys_map (d : Dict Ev) : (mapDict g φ d).keys = d.keys.map φ := by
  simp [mapDict, Dict.keys]

theorem mem_keys_map (hφ : ∀ x y, x < y → φ x < φ y) (k : Int) (d : Dict Ev) : φ k ∈ (mapDict g φ d).keys ↔ k ∈ d.keys := by
  rw [keys_map, List.mem_map]
  constructor
  · rintro ⟨a, ha, h⟩
    rw [(mono_eq hφ a k).1 h] at ha
    exact ha
  · intro h; exact ⟨k, h, rfl⟩

theorem get_map (hφ : ∀ x y, x < y → φ x < φ y) (k : Int) (d : Dict Ev) :
    (mapDict g φ d).get (φ k) = (d.get k).map g := by
  unfold Dict.get mapDict
  rw [List.find?_map]
  have e : ((fun p : Int × Ev => decide (p.1 = φ k)) ∘ fun p : Int × Ev => (φ p.1, g p.2)) = fun p => decide (p.1 = k) := by
    funext p
    simp only [Function.comp, mono_eq hφ]
  rw [e]
  cases d.find? (fun p => decide (p.1 = k)) <;> rfl

theorem set_map (hφ : ∀ x y, x < y → φ x < φ y) (k : Int) (v : Ev) (d : Dict Ev) :
    (mapDict g φ d).set (φ k) (g v) = mapDict g φ (d.set k v) := by
  unfold Dict.set
  by_cases h : k ∈ d.keys
  · rw [if_pos h, if_pos ((mem_keys_map hφ k d).2 h)]
    unfold mapDict
    rw [List.map_map, List.map_map]
    apply List.map_congr_left
    intro p _
    simp only [Function.comp, mono_eq hφ]
    split <;> rfl
  · rw [if_neg h, if_neg (fun h1 => h ((mem_keys_map hφ k d).1 h1))]
    simp [mapDict]

theorem del_map (hφ : ∀ x y, x < y → φ x < φ y) (k : Int) (d : Dict Ev) :
    (mapDict g φ d).del (φ k) = mapDict g φ (d.del k) := by
  unfold Dict.del mapDict
  rw [List.filter_map]
  congr 2
  funext p
  simp only [Function.comp, Ne, mono_eq hφ]

theorem min_map (hφ : ∀ x y, x < y → φ x < φ y) (a b : Int) : min (φ a) (φ b) = φ (min a b) := by
  have := mono_le hφ a b
  by_cases h : a ≤ b
  · have h1 := this.2 h
    rw [Int.min_eq_left h, Int.min_eq_left h1]
  · have h1 : ¬ φ a ≤ φ b := fun h2 => h (this.1 h2)
    rw [Int.min_eq_right (by omega), Int.min_eq_right (by omega)]

theorem foldl_min_map (hφ : ∀ x y, x < y → φ x < φ y) : ∀ (l : List Int) (a : Int),
    (l.map φ).foldl min (φ a) = φ (l.foldl min a) := by
  intro l
  induction l with
  | nil => intro a; rfl
  | cons b l ih =>
    intro a
    simp only [List.map_cons, List.foldl_cons, min_map hφ, ih]

theorem minKey_map (hφ : ∀ x y, x < y → φ x < φ y) (d : Dict Ev) : (mapDict g φ d).minKey = d.minKey.map φ := by
  unfold Dict.minKey
  rw [keys_map]
  cases d.keys with
  | nil => rfl
  | cons k ks => simp only [List.map_cons, foldl_min_map hφ]; rfl

theorem evict_map (hφ : ∀ x y, x < y → φ x < φ y) (size : Int) : ∀ (fuel : Nat) (d : Dict Ev),
    evict size fuel (mapDict g φ d) = (evict size fuel d).map (Option.map (mapDict g φ)) := by
  intro fuel
  induction fuel with
  | zero => intro d; rfl
  | succ fuel ih =>
    intro d
    have hl : (mapDict g φ d).length = d.length := by simp [mapDict]
    unfold evict
    rw [hl, minKey_map hφ]
    split
    · cases d.minKey with
      | none => rfl
      | some k => simp only [Option.map_some, del_map hφ, ih]
    · rfl

theorem inter_map (hφ : ∀ x y, x < y → φ x < φ y) (a b : List Int) : inter (a.map φ) (b.map φ) = (inter a b).map φ := by
  unfold inter
  rw [List.filter_map]
  congr 2
  funext k
  simp only [Function.comp]
  congr 1
  apply propext
  rw [List.mem_map]
  constructor
  · rintro ⟨x, hx, h⟩
    rw [(mono_eq hφ x k).1 h] at hx
    exact hx
  · intro h; exact ⟨k, h, rfl⟩

theorem common_map (hφ : ∀ x y, x < y → φ x < φ y) (q : Fin n → Dict Ev) :
    common (fun j => mapDict g φ (q j)) = (common q).map φ := by
  have h1 : List.ofFn (fun j => (mapDict g φ (q j)).keys) = (List.ofFn (fun j => (q j).keys)).map (List.map φ) := by
    rw [List.map_ofFn]
    congr 1
    funext j
    exact keys_map _
  unfold common
  rw [h1]
  cases List.ofFn (fun j => (q j).keys) with
  | nil => rfl
  | cons k ks =>
    simp only [List.map_cons]
    induction ks generalizing k with
    | nil => rfl
    | cons x ks ih => simp only [List.map_cons, List.foldl_cons, inter_map hφ, ih]

theorem insertBy_map {α β : Type} {le : α → α → Bool} {le' : β → β → Bool} (f : α → β) (h : ∀ a b, le' (f a) (f b) = le a b) (a : α) :
    ∀ (l : List α), insertBy le' (f a) (l.map f) = (insertBy le a l).map f := by
  intro l
  induction l with
  | nil => rfl
  | cons b l ih =>
    simp only [List.map_cons, insertBy, h]
    split
    · rfl
    · rw [ih]; rfl

theorem sorted_map {α β : Type} {le : α → α → Bool} {le' : β → β → Bool} (f : α → β) (h : ∀ a b, le' (f a) (f b) = le a b) :
    ∀ (l : List α), sorted le' (l.map f) = (sorted le l).map f := by
  intro l
  induction l with
  | nil => rfl
  | cons a l ih => simp only [List.map_cons, sorted, ih, insertBy_map f h]

theorem allSome_map (g : Ev → Ev) (f : Fin n → Option Ev) :
    allSome (fun j => (f j).map g) = (allSome f).map (fun t j => g (t j)) := by
  unfold allSome
  by_cases h : ∀ j, (f j).isSome
  · have h' : ∀ j, ((f j).map g).isSome := fun j => by rw [Option.isSome_map]; exact h j
    rw [dif_pos h, dif_pos h']
    simp only [Option.map_some, Option.some.injEq]
    funext j
    rw [Option.get_map]
  · have h' : ¬ ∀ j, ((f j).map g).isSome := by
      intro h1
      apply h
      intro j
      have := h1 j
      rw [Option.isSome_map] at this
      exact this
    rw [dif_neg h, dif_neg h']
    rfl

theorem tsLoop_map (hφ : ∀ x y, x < y → φ x < φ y) (boom : Nat → Bool) : ∀ (ts : List Int) (s : State n),
    tsLoop boom (ts.map φ) (mapState g φ s) = (mapState g φ (tsLoop boom ts s).1, (tsLoop boom ts s).2) := by
  intro ts
  induction ts with
  | nil => intro s; rfl
  | cons t ts ih =>
    intro s
    have e : (fun j => ((mapState g φ s).queues j).get (φ t)) = fun j => ((s.queues j).get t).map g := by
      funext j
      exact get_map hφ t _
    simp only [List.map_cons, tsLoop, e, allSome_map]
    cases allSome (fun j => (s.queues j).get t) with
    | none => rfl
    | some msgs =>
      have el : (mapState g φ s).out.length = s.out.length := by simp [mapState]
      simp only [Option.map_some, el]
      split
      · simp [mapState]
      · rw [← ih]
        congr 1
        simp only [mapState, List.map_append, List.map_cons, List.map_nil, del_map hφ]

theorem tsAdd_map (hφ : ∀ x y, x < y → φ x < φ y) (hg : ∀ e, (g e).stamp = φ e.stamp) (boom : Nat → Bool) (s : State n)
    (i : Fin n) (m : Msg) :
    tsAdd boom (mapState g φ s) i (mapMsg g m) = (tsAdd boom s i m).map (fun r => (mapState g φ r.1, r.2)) := by
  unfold tsAdd
  have e1 : (mapState g φ s).locked = s.locked := rfl
  have e2 : (mapMsg g m).header = m.header := rfl
  have e3 : ((mapState g φ s).queues i).set (mapMsg g m).ev.stamp (mapMsg g m).ev =
      mapDict g φ ((s.queues i).set m.ev.stamp m.ev) := by
    show (mapDict g φ (s.queues i)).set (g m.ev).stamp (g m.ev) = _
    rw [hg, set_map hφ]
  have e4 : ∀ d : Dict Ev, (mapDict g φ d).length = d.length := fun d => by simp [mapDict]
  have e5 : (mapState g φ s).queueSize = s.queueSize := rfl
  rw [e1, e2]
  split
  · rfl
  split
  · rfl
  dsimp only
  rw [e3, e4, evict_map hφ, e5]
  cases evict s.queueSize (((s.queues i).set m.ev.stamp m.ev).length + 1) ((s.queues i).set m.ev.stamp m.ev) with
  | error f => rfl
  | ok r =>
    cases r with
    | none =>
      simp only [Except.map, Option.map_none]
      congr 2
      simp only [mapState, map_upd_fun (mapDict g φ)]
      rfl
    | some d' =>
      have e6 : (⟨s.queueSize, fun j => mapDict g φ (upd s.queues i d' j), s.locked, (mapState g φ s).out⟩ : State n) = mapState g φ { s with queues := upd s.queues i d' } := rfl
      have e7 : (fun j => mapDict g φ (upd s.queues i d' j)) = (mapState g φ { s with queues := upd s.queues i d' }).queues := rfl
      have e8 : upd (mapState g φ s).queues i (mapDict g φ d') = fun j => mapDict g φ (upd s.queues i d' j) := by
        rw [map_upd_fun (mapDict g φ)]
        rfl
      simp only [Except.map, Option.map_some]
      rw [e8, e6, e7]
      have ec : sorted (fun a b => decide (a ≤ b)) (common (mapState g φ { s with queues := upd s.queues i d' }).queues) =
          (sorted (fun a b => decide (a ≤ b)) (common ({ s with queues := upd s.queues i d' } : State n).queues)).map φ := by
        rw [← sorted_map (le := fun a b => decide (a ≤ b)) (le' := fun a b => decide (a ≤ b)) φ (fun a b => by simp only [mono_le hφ])]
        congr 1
        exact common_map hφ _
      rw [ec, tsLoop_map hφ]
      rfl

theorem topicStamps_map {c : Int} (slop stamp : Int) (d : Dict Ev) :
    topicStamps slop (stamp + c) (mapDict g (· + c) d) = (topicStamps slop stamp d).map (fun p => (p.1 + c, p.2)) := by
  unfold topicStamps
  rw [keys_map, List.filterMap_map, List.map_filterMap]
  congr 1
  funext k
  simp only [Function.comp]
  have e : k + c - (stamp + c) = k - stamp := by omega
  rw [e]
  split <;> rfl

theorem nearStamps_map {c : Int} (slop stamp : Int) : ∀ (ds : List (Dict Ev)),
    nearStamps slop (stamp + c) (ds.map (mapDict g (· + c))) = (nearStamps slop stamp ds).map (List.map (List.map (· + c))) := by
  intro ds
  induction ds with
  | nil => rfl
  | cons d ds ih =>
    simp only [List.map_cons, nearStamps, topicStamps_map, List.isEmpty_map, ih]
    split
    · rfl
    · cases nearStamps slop stamp ds with
      | none => rfl
      | some r =>
        simp only [Option.map_some, List.map_cons]
        rw [sorted_map (le := fun a b => decide (a.2 ≤ b.2)) (fun p : Int × Int => (p.1 + c, p.2)) (fun a b => rfl)]
        simp only [List.map_map]
        rfl

theorem product_map (f : Int → Int) : ∀ (ls : List (List Int)), product (ls.map (List.map f)) = (product ls).map (List.map f) := by
  intro ls
  induction ls with
  | nil => rfl
  | cons l ls ih =>
    simp only [List.map_cons, product, ih, List.flatMap_map, List.map_flatMap, List.map_map]
    rfl

theorem spread_map {c : Int} (l : List Int) : spread (l.map (· + c)) = spread l := by
  cases l with
  | nil => rfl
  | cons x l =>
    simp only [List.map_cons, spread]
    have hmax : ∀ (l : List Int) (x : Int), (l.map (· + c)).foldl max (x + c) = l.foldl max x + c := by
      intro l
      induction l with
      | nil => intro x; rfl
      | cons y l ih =>
        intro x
        simp only [List.map_cons, List.foldl_cons]
        rw [show max (x + c) (y + c) = max x y + c by omega, ih]
    have hmin : ∀ (l : List Int) (x : Int), (l.map (· + c)).foldl min (x + c) = l.foldl min x + c := by
      intro l
      induction l with
      | nil => intro x; rfl
      | cons y l ih =>
        intro x
        simp only [List.map_cons, List.foldl_cons]
        rw [show min (x + c) (y + c) = min x y + c by omega, ih]
    rw [hmax, hmin]
    omega

theorem plus_mono (c : Int) : ∀ x y : Int, x < y → (fun z => z + c) x < (fun z => z + c) y := by
  intro x y h; dsimp only; omega

theorem insertIdx_map (f : Int → Int) (a : Int) : ∀ (l : List Int) (k : Nat),
    (l.map f).insertIdx k (f a) = (l.insertIdx k a).map f := by
  intro l
  induction l with
  | nil =>
    intro k
    cases k with
    | zero => rfl
    | succ k => rfl
  | cons x l ih =>
    intro k
    cases k with
    | zero => rfl
    | succ k => simp only [List.map_cons, List.insertIdx_succ_cons, ih]

theorem approxLoop_map {c : Int} (boom : Nat → Bool) (slop : Int) (i : Fin n) (stamp : Int) :
    ∀ (vs : List (List Int)) (s : State n),
    approxLoop boom slop i (stamp + c) (vs.map (List.map (· + c))) (mapState g (· + c) s) =
      (mapState g (· + c) (approxLoop boom slop i stamp vs s).1, (approxLoop boom slop i stamp vs s).2) := by
  intro vs
  induction vs with
  | nil => intro s; rfl
  | cons v vs ih =>
    intro s
    have ei : (v.map (· + c)).insertIdx i (stamp + c) = (v.insertIdx i stamp).map (· + c) := by
      exact insertIdx_map (· + c) stamp v i.1
    have e : (fun j : Fin n => (((v.map (· + c)).insertIdx i (stamp + c))[j.1]?).bind
          (fun t => ((mapState g (· + c) s).queues j).get t)) =
        fun j => ((((v.insertIdx i stamp))[j.1]?).bind (fun t => (s.queues j).get t)).map g := by
      funext j
      rw [ei, List.getElem?_map]
      cases (v.insertIdx i stamp)[j.1]? with
      | none => rfl
      | some t => exact get_map (plus_mono c) t _
    have el : (mapState g (· + c) s).out.length = s.out.length := by simp [mapState]
    simp only [List.map_cons, approxLoop, e, allSome_map]
    cases hm : allSome (fun j : Fin n => (((v.insertIdx i stamp))[j.1]?).bind (fun t => (s.queues j).get t)) with
    | none => exact ih s
    | some msgs =>
      simp only [Option.map_some, ei, spread_map, el]
      split
      · split
        · simp [mapState]
        · congr 1
          simp only [mapState, List.map_append, List.map_cons, List.map_nil]
          congr 1
          funext j
          have hj : ((v.insertIdx i stamp)[j.1]?).isSome := by
            unfold allSome at hm
            split at hm
            · rename_i h
              have := h j
              dsimp only at this
              cases hv : (v.insertIdx i stamp)[j.1]? with
              | none => rw [hv] at this; cases this
              | some t => rfl
            · cases hm
          obtain ⟨t, ht⟩ := Option.isSome_iff_exists.1 hj
          rw [List.getElem?_map, ht]
          exact del_map (plus_mono c) t _
      · exact ih s

theorem approxAdd_map {c : Int} (hg : ∀ e, (g e).stamp = e.stamp + c) (boom : Nat → Bool) (slop : Int) (allow : Bool)
    (s : State n) (i : Fin n) (m : Msg) :
    approxAdd boom slop allow (mapState g (· + c) s) i (mapMsg g m) =
      (approxAdd boom slop allow s i m).map (fun r => (mapState g (· + c) r.1, r.2)) := by
  unfold approxAdd
  have e1 : (mapState g (· + c) s).locked = s.locked := rfl
  have e2 : (mapMsg g m).header = m.header := rfl
  have e3 : ((mapState g (· + c) s).queues i).set (mapMsg g m).ev.stamp (mapMsg g m).ev =
      mapDict g (· + c) ((s.queues i).set m.ev.stamp m.ev) := by
    show (mapDict g (· + c) (s.queues i)).set (g m.ev).stamp (g m.ev) = _
    rw [hg]
    exact set_map (plus_mono c) _ _ _
  have e4 : ∀ d : Dict Ev, (mapDict g (· + c) d).length = d.length := fun d => by simp [mapDict]
  have e5 : (mapState g (· + c) s).queueSize = s.queueSize := rfl
  rw [e1, e2]
  split
  · rfl
  split
  · rfl
  dsimp only
  rw [e3, e4, evict_map (plus_mono c), e5]
  cases evict s.queueSize (((s.queues i).set m.ev.stamp m.ev).length + 1) ((s.queues i).set m.ev.stamp m.ev) with
  | error f => rfl
  | ok r =>
    cases r with
    | none =>
      simp only [Except.map, Option.map_none]
      congr 2
      simp only [mapState, map_upd_fun (mapDict g (· + c))]
      rfl
    | some d' =>
      have e6 : (⟨s.queueSize, fun j => mapDict g (· + c) (upd s.queues i d' j), s.locked, (mapState g (· + c) s).out⟩ : State n) = mapState g (· + c) { s with queues := upd s.queues i d' } := rfl
      have e7 : (fun j => mapDict g (· + c) (upd s.queues i d' j)) =
        (mapState g (· + c) { s with queues := upd s.queues i d' }).queues := rfl
      have e8 : upd (mapState g (· + c) s).queues i (mapDict g (· + c) d') = fun j => mapDict g (· + c) (upd s.queues i d' j) := by
        rw [map_upd_fun (mapDict g (· + c))]
        rfl
      simp only [Except.map, Option.map_some]
      rw [e8, e6, e7]
      have eq : List.ofFn (mapState g (· + c) { s with queues := upd s.queues i d' }).queues =
          (List.ofFn ({ s with queues := upd s.queues i d' } : State n).queues).map (mapDict g (· + c)) := by
        rw [List.map_ofFn]
        rfl
      have es : (mapMsg g m).ev.stamp = m.ev.stamp + c := hg m.ev
      rw [eq, ← List.map_take, ← List.map_drop, ← List.map_append, es, nearStamps_map]
      cases nearStamps slop m.ev.stamp
        ((List.ofFn ({ s with queues := upd s.queues i d' } : State n).queues).take i ++
          (List.ofFn ({ s with queues := upd s.queues i d' } : State n).queues).drop (i + 1)) with
      | none => rfl
      | some stamps =>
        simp only [Option.map_some]
        rw [product_map, approxLoop_map]
        rfl

theorem tsRun_map (hφ : ∀ x y, x < y → φ x < φ y) (hg : ∀ e, (g e).stamp = φ e.stamp) (boom : Nat → Bool) :
    ∀ (ops : List (Fin n × Msg)) (s : State n),
    tsRun boom (mapState g φ s) (ops.map (fun op => (op.1, mapMsg g op.2))) = (tsRun boom s ops).map (mapState g φ) := by
  intro ops
  induction ops with
  | nil => intro s; rfl
  | cons op ops ih =>
    intro s
    unfold tsRun at ih ⊢
    simp only [List.map_cons, runE, tsAdd_map hφ hg]
    cases tsAdd boom s op.1 op.2 with
    | error f => rfl
    | ok r => exact ih r.1

theorem approxRun_map {c : Int} (hg : ∀ e, (g e).stamp = e.stamp + c) (boom : Nat → Bool) (slop : Int) (allow : Bool) :
    ∀ (ops : List (Fin n × Msg)) (s : State n),
    approxRun boom slop allow (mapState g (· + c) s) (ops.map (fun op => (op.1, mapMsg g op.2))) =
      (approxRun boom slop allow s ops).map (mapState g (· + c)) := by
  intro ops
  induction ops with
  | nil => intro s; rfl
  | cons op ops ih =>
    intro s
    unfold approxRun at ih ⊢
    simp only [List.map_cons, runE, approxAdd_map hg]
    cases approxAdd boom slop allow s op.1 op.2 with
    | error f => rfl
    | ok r => exact ih r.1

end MF.Py
