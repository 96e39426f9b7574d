import Verif.Proofs.PyReconnect
import Verif.Proofs.PyCache
namespace MF.Py

variable {n : Nat}

theorem ts_construct {boom : Nat → Bool} :
    ∀ (ops : List (BOp n)) (b : Build n),
      (runE (tsBuild boom) b ops).map (fun r => (r.s, r.raised)) =
        (tsRun boom b.s (arriving (fun _ => n + 2) b.stage ops)).map
          (fun s => (s, b.raised ++ tooEarly (fun _ => n + 2) b.stage ops)) := by
  intro ops
  induction ops with
  | nil => intro b; simp [runE, tsRun, arriving, tooEarly, Except.map]
  | cons op ops ih =>
    intro b
    cases op with
    | ctor =>
      simp only [runE, tsBuild, arriving, tooEarly]
      exact ih { b with stage := b.stage + 1 }
    | deliver i m =>
      have hi := i.2
      simp only [runE, tsBuild, arriving, tooEarly]
      by_cases h1 : b.stage ≤ i.1
      · rw [if_pos h1, if_neg (by omega), if_neg (by omega)]
        exact ih b
      · rw [if_neg h1]
        by_cases h2 : b.stage < n + 2
        · rw [if_pos h2, if_neg (by omega : ¬ n + 2 ≤ b.stage), if_pos ⟨by omega, h2⟩]
          simp only
          rw [ih { b with raised := b.raised ++ [(i, m)] }]
          simp
        · rw [if_neg h2, if_pos (by omega : n + 2 ≤ b.stage), if_neg (fun h => h2 h.2)]
          simp only [tsRun, runE]
          cases hs : tsAdd boom b.s i m with
          | error f => rfl
          | ok x =>
            simp only [Except.map]
            have := ih { b with s := x.1 }
            simp only [tsRun, Except.map] at this
            exact this

theorem approx_construct {boom : Nat → Bool} {slop : Int} {allow : Bool} :
    ∀ (ops : List (BOp n)) (b : Build n), (∀ x ∈ during (n + 2) b.stage ops, x.2.header = false) →
      (runE (approxBuild boom slop allow) b ops).map (fun r => (r.s, r.raised)) =
        (approxRun boom slop allow b.s (arriving (fun m => if m.header then n + 3 else n + 4) b.stage ops)).map
          (fun s => (s, b.raised ++ tooEarly (fun m => if m.header then n + 3 else n + 4) b.stage ops)) := by
  intro ops
  induction ops with
  | nil => intro b _; simp [runE, approxRun, arriving, tooEarly, Except.map]
  | cons op ops ih =>
    intro b hw
    cases op with
    | ctor =>
      simp only [runE, approxBuild, arriving, tooEarly]
      exact ih { b with stage := b.stage + 1 } hw
    | deliver i m =>
      have hi := i.2
      have hw' : ∀ x ∈ during (n + 2) b.stage ops, x.2.header = false := by
        intro x hx
        refine hw x ?_
        simp only [during]
        split
        · exact List.mem_cons_of_mem _ hx
        · exact hx
      have hm : b.stage = n + 2 → m.header = false := by
        intro h
        refine hw (i, m) ?_
        simp [during, h]
      simp only [runE, approxBuild, arriving, tooEarly]
      have hneed : (if m.header = true then n + 3 else n + 4) = if m.header then n + 3 else n + 4 := rfl
      by_cases h1 : b.stage ≤ i.1
      · have : b.stage < (if m.header = true then n + 3 else n + 4) := by split <;> omega
        rw [if_pos h1, if_neg (by omega), if_neg (by omega)]
        exact ih b hw'
      · rw [if_neg h1]
        by_cases h2 : b.stage < (if m.header = true then n + 3 else n + 4)
        · rw [if_neg (by omega : ¬ (if m.header = true then n + 3 else n + 4) ≤ b.stage),
            if_pos (⟨by omega, h2⟩ : i.1 < b.stage ∧ b.stage < (if m.header = true then n + 3 else n + 4))]
          have hraise : ∀ (P : Except Fault (Build n)),
              (if (!m.header && decide (b.stage < n + 4)) = true then .ok { b with raised := b.raised ++ [(i, m)] }
                else if b.stage < n + 2 then .ok { b with raised := b.raised ++ [(i, m)] } else P) =
              Except.ok { b with raised := b.raised ++ [(i, m)] } := by
            intro P
            rcases Bool.eq_false_or_eq_true m.header with hh | hh
            · rw [if_pos hh] at h2
              have : b.stage ≠ n + 2 := fun e => by rw [hm e] at hh; cases hh
              simp only [hh, Bool.not_true, Bool.false_and, Bool.false_eq_true, if_false]
              rw [if_pos (by omega)]
            · rw [if_neg (by simp [hh])] at h2
              simp [hh, h2]
          rw [hraise]
          simp only
          rw [ih { b with raised := b.raised ++ [(i, m)] } hw']
          simp
        · rw [if_pos (by omega : (if m.header = true then n + 3 else n + 4) ≤ b.stage),
            if_neg (fun h => h2 h.2 : ¬ (i.1 < b.stage ∧ b.stage < (if m.header = true then n + 3 else n + 4)))]
          have hge : n + 3 ≤ b.stage := by
            by_cases hh : m.header = true
            · rw [if_pos hh] at h2; omega
            · rw [if_neg hh] at h2; omega
          have h3 : ¬ ((!m.header && decide (b.stage < n + 4)) = true) := by
            intro h
            simp only [Bool.and_eq_true, Bool.not_eq_true', decide_eq_true_eq] at h
            rw [if_neg (by simp [h.1])] at h2
            exact h2 h.2
          rw [if_neg h3, if_neg (by omega), if_neg (by omega)]
          simp only [approxRun, runE]
          cases hs : approxAdd boom slop allow b.s i m with
          | error f => rfl
          | ok x =>
            simp only [Except.map]
            have := ih { b with s := x.1 } hw'
            simp only [approxRun, Except.map] at this
            exact this

/-! ### Behaviour does not depend on earlier output -/

/-- The state with earlier output `o`. -/
def withOut (o : List (Fin n → Ev)) (s : State n) : State n := { s with out := o ++ s.out }

theorem tsLoop_withOut (boom : Nat → Bool) (o : List (Fin n → Ev)) : ∀ (ts : List Int) (s : State n),
    tsLoop boom ts (withOut o s) =
      (withOut o (tsLoop (fun k => boom (o.length + k)) ts s).1, (tsLoop (fun k => boom (o.length + k)) ts s).2) := by
  intro ts
  induction ts with
  | nil => intro s; rfl
  | cons t ts ih =>
    intro s
    simp only [tsLoop, withOut, List.length_append]
    cases h : allSome (fun j => (s.queues j).get t) with
    | none => rfl
    | some msgs =>
      simp only
      split
      · simp
      · have := ih { s with out := s.out ++ [msgs], queues := fun j => (s.queues j).del t }
        simp only [withOut, ← List.append_assoc] at this
        exact this

theorem tsAdd_withOut (boom : Nat → Bool) (o : List (Fin n → Ev)) (s : State n) (i : Fin n) (m : Msg) :
    tsAdd boom (withOut o s) i m =
      (tsAdd (fun k => boom (o.length + k)) s i m).map (fun r => (withOut o r.1, r.2)) := by
  unfold tsAdd
  dsimp only [withOut]
  by_cases h1 : s.locked = true
  · simp only [h1, ↓reduceIte]; rfl
  · have hl : s.locked = false := by simpa using h1
    simp only [h1, ↓reduceIte, Bool.false_eq_true]
    by_cases h2 : (!m.header) = true
    · simp only [h2, ↓reduceIte]; rfl
    · simp only [h2, ↓reduceIte, Bool.false_eq_true]
      cases evict s.queueSize (((s.queues i).set m.ev.stamp m.ev).length + 1) ((s.queues i).set m.ev.stamp m.ev) with
      | error f => rfl
      | ok d =>
        cases d with
        | none => rfl
        | some d' =>
          have := tsLoop_withOut boom o (sorted (fun a b => decide (a ≤ b)) (common (upd s.queues i d')))
            { s with queues := upd s.queues i d' }
          simp only [withOut] at this
          simp only [*, Bool.not_eq_true] at this
          simp only [this, Except.map, withOut]

theorem approxLoop_withOut (boom : Nat → Bool) (o : List (Fin n → Ev)) (slop : Int) (i : Fin n) (st : Int) :
    ∀ (vs : List (List Int)) (s : State n),
    approxLoop boom slop i st vs (withOut o s) =
      (withOut o (approxLoop (fun k => boom (o.length + k)) slop i st vs s).1,
        (approxLoop (fun k => boom (o.length + k)) slop i st vs s).2) := by
  intro vs
  induction vs with
  | nil => intro s; rfl
  | cons v vs ih =>
    intro s
    have := ih s
    simp only [approxLoop, withOut, List.length_append] at this ⊢
    split
    · by_cases h1 : spread (v.insertIdx i.1 st) < slop
      · by_cases hb : boom (o.length + s.out.length) = true <;> simp [h1, hb]
      · simp only [h1, ↓reduceIte]; exact this
    · exact this

theorem approxAdd_withOut (boom : Nat → Bool) (o : List (Fin n → Ev)) (slop : Int) (allow : Bool) (s : State n) (i : Fin n)
    (m : Msg) : approxAdd boom slop allow (withOut o s) i m =
      (approxAdd (fun k => boom (o.length + k)) slop allow s i m).map (fun r => (withOut o r.1, r.2)) := by
  unfold approxAdd
  dsimp only [withOut]
  by_cases h1 : (!m.header && !allow) = true
  · simp only [h1, ↓reduceIte]; rfl
  · simp only [h1, ↓reduceIte, Bool.false_eq_true]
    by_cases h2 : s.locked = true
    · simp only [h2, ↓reduceIte]; rfl
    · simp only [h2, ↓reduceIte, Bool.false_eq_true]
      cases evict s.queueSize (((s.queues i).set m.ev.stamp m.ev).length + 1) ((s.queues i).set m.ev.stamp m.ev) with
      | error f => rfl
      | ok d =>
        cases d with
        | none => rfl
        | some d' =>
          simp only
          cases nearStamps slop m.ev.stamp ((List.ofFn (upd s.queues i d')).take i ++
              (List.ofFn (upd s.queues i d')).drop (i + 1)) with
          | none => rfl
          | some stamps =>
            have := approxLoop_withOut boom o slop i m.ev.stamp (product stamps) { s with queues := upd s.queues i d' }
            simp only [withOut] at this
            simp only [h2, Bool.not_eq_true] at this
            simp only [this, Except.map, withOut]

theorem onlyCurrent_fresh (g : Nat) (ops : List (ROp n)) (h : ∀ op ∈ ops, op ≠ .reconnect) :
    ∀ op ∈ onlyCurrent g ops, ∃ g' i m, op = .deliver g' i m ∧ g ≤ g' := by
  induction ops with
  | nil => intro op hop; simp [onlyCurrent] at hop
  | cons a ops ih =>
    have ih := ih (fun op hop => h op (List.mem_cons_of_mem _ hop))
    cases a with
    | reconnect => exact absurd rfl (h _ (by simp))
    | deliver g' i m =>
      intro op hop
      simp only [onlyCurrent] at hop
      split at hop
      · exact ih op hop
      · rcases List.mem_cons.mp hop with h1 | h1
        · exact ⟨g', i, m, h1, by omega⟩
        · exact ih op h1

theorem ts_after_reconnect (boom : Nat → Bool) (o : List (Fin n → Ev)) : ∀ (ops : List (ROp n)) (r : RState n) (s : State n),
    (∀ op ∈ ops, op ≠ .reconnect) → r.s = withOut o s →
    (runE (tsRStep boom) r (onlyCurrent r.gen ops)).map (·.s) =
      (tsRun (fun k => boom (o.length + k)) s (messagesOf r.gen ops)).map (withOut o) := by
  intro ops
  induction ops with
  | nil => intro r s _ h; simp [onlyCurrent, messagesOf, runE, tsRun, Except.map, h]
  | cons a ops ih =>
    intro r s hn h
    have hn' : ∀ op ∈ ops, op ≠ ROp.reconnect := fun op hop => hn op (List.mem_cons_of_mem _ hop)
    cases a with
    | reconnect => exact absurd rfl (hn _ (by simp))
    | deliver g i m =>
      simp only [onlyCurrent, messagesOf]
      by_cases hg : g < r.gen
      · rw [if_pos hg, if_neg (by omega)]
        exact ih r s hn' h
      · rw [if_neg hg]
        by_cases he : g = r.gen
        · rw [if_pos he]
          simp only [runE, tsRStep, tsRun, if_pos he, h, tsAdd_withOut]
          cases tsAdd (fun k => boom (o.length + k)) s i m with
          | error f => rfl
          | ok x => exact ih { r with s := withOut o x.1 } x.1 hn' rfl
        · rw [if_neg he]
          simp only [runE, tsRStep, if_neg he, if_neg hg]
          exact ih r s hn' h

theorem approx_after_reconnect (boom : Nat → Bool) (slop : Int) (allow : Bool) (o : List (Fin n → Ev)) :
    ∀ (ops : List (ROp n)) (r : RState n) (s : State n),
    (∀ op ∈ ops, op ≠ .reconnect) → r.s = withOut o s →
    (runE (approxRStep boom slop allow) r (onlyCurrent r.gen ops)).map (·.s) =
      (approxRun (fun k => boom (o.length + k)) slop allow s (messagesOf r.gen ops)).map (withOut o) := by
  intro ops
  induction ops with
  | nil => intro r s _ h; simp [onlyCurrent, messagesOf, runE, approxRun, Except.map, h]
  | cons a ops ih =>
    intro r s hn h
    have hn' : ∀ op ∈ ops, op ≠ ROp.reconnect := fun op hop => hn op (List.mem_cons_of_mem _ hop)
    cases a with
    | reconnect => exact absurd rfl (hn _ (by simp))
    | deliver g i m =>
      simp only [onlyCurrent, messagesOf]
      by_cases hg : g < r.gen
      · rw [if_pos hg, if_neg (by omega)]
        exact ih r s hn' h
      · rw [if_neg hg]
        by_cases he : g = r.gen
        · rw [if_pos he]
          simp only [runE, approxRStep, approxRun, if_pos he, h, approxAdd_withOut]
          cases approxAdd (fun k => boom (o.length + k)) slop allow s i m with
          | error f => rfl
          | ok x => exact ih { r with s := withOut o x.1 } x.1 hn' rfl
        · rw [if_neg he]
          simp only [runE, approxRStep, if_neg he, if_neg hg]
          exact ih r s hn' h

/-- The first of the queues other than `i`. -/
theorem others_head {n : Nat} {α : Type} (f : Fin n → α) (i : Fin n) :
    ((List.ofFn f).take i ++ (List.ofFn f).drop (i + 1)).head? = (firstOther i).map f := by
  unfold firstOther
  by_cases h0 : i.1 = 0
  · rw [h0]
    rw [List.take_zero, List.nil_append, List.head?_drop, List.getElem?_ofFn]
    by_cases h1 : 0 + 1 < n
    · rw [dif_pos h1]
      have : (List.finRange n).find? (fun j => j ≠ i) = some ⟨1, h1⟩ := by
        rw [List.find?_eq_some_iff_getElem]
        refine ⟨by simp [Fin.ext_iff, h0], 1, by simpa using h1, by simp, ?_⟩
        intro j hj
        simp [Fin.ext_iff, h0]; omega
      rw [this]; rfl
    · rw [dif_neg h1]
      have : (List.finRange n).find? (fun j => j ≠ i) = none := by
        rw [List.find?_eq_none]
        intro x _
        have := x.2
        simp [Fin.ext_iff]; omega
      rw [this]; rfl
  · have hi := i.2
    have hpos : 0 < n := by omega
    have hne : (List.ofFn f).take i ≠ [] := by
      intro h
      have := congrArg List.length h
      simp at this; omega
    rw [List.head?_append, List.head?_take, if_neg h0, List.head?_eq_getElem?, List.getElem?_ofFn, dif_pos hpos]
    have : (List.finRange n).find? (fun j => j ≠ i) = some ⟨0, hpos⟩ := by
      rw [List.find?_eq_some_iff_getElem]
      refine ⟨by simp [Fin.ext_iff]; omega, 0, by simpa using hpos, by simp, ?_⟩
      intro j hj; omega
    rw [this]; rfl

end MF.Py

namespace MF.PyCache

theorem cache_construct : ∀ (ops : List BOp) (b : Build), (ops.foldl build b).s =
    run b.s (arriving (fun m => if m.stamp = none then 5 else 4) b.stage ops) := by
  intro ops
  induction ops with
  | nil => intro b; rfl
  | cons op ops ih =>
    intro b
    simp only [List.foldl_cons]
    rw [ih]
    cases op with
    | ctor => rfl
    | deliver m now =>
      simp only [build, arriving]
      by_cases h1 : b.stage < 1
      · have : b.stage < (if m.stamp = none then 5 else 4) := by split <;> omega
        rw [if_pos h1, if_neg (by omega)]
      · rw [if_neg h1]
        by_cases h2 : m.stamp = none
        · by_cases h3 : b.stage < 5
          · rw [if_pos ⟨h2, h3⟩, if_neg (by rw [if_pos h2]; omega)]
          · rw [if_neg (fun h => h3 h.2), if_neg (by omega), if_pos (by rw [if_pos h2]; omega)]
            rfl
        · rw [if_neg (fun h => h2 h.1)]
          by_cases h3 : b.stage < 4
          · rw [if_pos h3, if_neg (by rw [if_neg h2]; omega)]
          · rw [if_neg h3, if_pos (by rw [if_neg h2]; omega)]
            rfl

end MF.PyCache
