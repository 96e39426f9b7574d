import Verif.Model.PyConc
import Verif.Proofs.PyDict
import Verif.Proofs.Locks
/-
Helper lemmas: the statement-level bodies of the Python synchronizers have the effect of `tsAdd` and `approxAdd`.
-/
namespace MF.Py
open MF.Mutex

variable {n : Nat}

theorem length_del_lt {d : Dict Ev} {k : Int} (hk : k ∈ d.keys) : (d.del k).length < d.length := by
  rw [mem_keys] at hk
  obtain ⟨v, hv⟩ := hk
  unfold Dict.del
  have : (d.filter (fun p => decide (p.1 ≠ k))).length ≤ d.length := List.length_filter_le _ _
  rcases Nat.lt_or_eq_of_le this with h | h
  · exact h
  · exfalso
    have := List.length_filter_eq_length_iff.mp h _ hv
    simp at this

theorem evict_fuel (size : Int) : ∀ (f f' : Nat) (d : Dict Ev), d.length < f → d.length < f' → evict size f d = evict size f' d := by
  intro f
  induction f with
  | zero => intro f' d h; omega
  | succ f ih =>
    intro f' d h h'
    cases f' with
    | zero => omega
    | succ f' =>
      unfold evict
      by_cases hs : (d.length : Int) > size
      · rw [if_pos hs, if_pos hs]
        cases hm : d.minKey with
        | none => rfl
        | some k =>
          have := length_del_lt (minKey_some hm).1
          exact ih f' _ (by omega) (by omega)
      · rw [if_neg hs, if_neg hs]

theorem evict_ok (size : Int) : ∀ (f : Nat) (d : Dict Ev), d.length < f → ∃ o, evict size f d = .ok o := by
  intro f
  induction f with
  | zero => intro d h; omega
  | succ f ih =>
    intro d h
    unfold evict
    by_cases hs : (d.length : Int) > size
    · rw [if_pos hs]
      cases hm : d.minKey with
      | none => exact ⟨_, rfl⟩
      | some k =>
        have := length_del_lt (minKey_some hm).1
        exact ih _ (by omega)
    · rw [if_neg hs]; exact ⟨_, rfl⟩

theorem evict_not_none {size : Int} (hs : 0 ≤ size) : ∀ (f : Nat) (d : Dict Ev), evict size f d ≠ .ok none := by
  intro f
  induction f with
  | zero => intro d h; cases h
  | succ f ih =>
    intro d h
    unfold evict at h
    by_cases hlen : (d.length : Int) > size
    · rw [if_pos hlen] at h
      cases hm : d.minKey with
      | none =>
        rw [minKey_none.mp hm] at hlen
        simp at hlen
        omega
      | some k => rw [hm] at h; exact ih _ h
    · rw [if_neg hlen] at h; cases h

/-- A call fails only if it finds the lock taken, and then it blocks. -/
theorem tsAdd_error {boom : Nat → Bool} {s : State n} {i : Fin n} {m : Msg} {f : Fault} (h : tsAdd boom s i m = .error f) :
    s.locked = true ∧ f = .hang := by
  unfold tsAdd at h
  by_cases hl : s.locked
  · rw [if_pos hl] at h; cases h; exact ⟨hl, rfl⟩
  · rw [if_neg hl] at h
    by_cases hh : (!m.header) = true
    · rw [if_pos hh] at h; cases h
    · rw [if_neg hh] at h
      obtain ⟨o, ho⟩ := evict_ok s.queueSize (((s.queues i).set m.ev.stamp m.ev).length + 1)
        ((s.queues i).set m.ev.stamp m.ev) (Nat.lt_succ_self _)
      dsimp only at h
      rw [ho] at h
      cases o <;> cases h

/-- The lock is left taken exactly by a call that raises. -/
theorem tsAdd_locked {boom : Nat → Bool} {s : State n} {i : Fin n} {m : Msg} {s' : State n} {r : Bool}
    (h : tsAdd boom s i m = .ok (s', r)) : s'.locked = r := by
  unfold tsAdd at h
  by_cases hl : s.locked
  · rw [if_pos hl] at h; cases h
  · rw [if_neg hl] at h
    by_cases hh : (!m.header) = true
    · rw [if_pos hh] at h; cases h; rfl
    · rw [if_neg hh] at h
      dsimp only at h
      cases he : evict s.queueSize (((s.queues i).set m.ev.stamp m.ev).length + 1) ((s.queues i).set m.ev.stamp m.ev) with
      | error f => rw [he] at h; cases h
      | ok o => rw [he] at h; cases o <;> (cases h; rfl)

theorem upd_upd {α : Type} (f : Fin n → α) (i : Fin n) (a b : α) : upd (upd f i a) i b = upd f i b := by
  funext j
  unfold upd
  split <;> rfl

theorem upd_self {α : Type} (f : Fin n → α) (i : Fin n) : upd f i (f i) = f := by
  funext j
  unfold upd
  split
  · next h => rw [h]
  · rfl

/-- The end of a call: the lock stays taken iff there was an exception. -/
def finish (r : State n × Bool) : Except Fault (State n) := .ok { r.1 with locked := r.2 }

/-- What remains of a TimeSynchronizer call from the eviction on. -/
def fromEvict (boom : Nat → Bool) (i : Fin n) (s : State n) : Except Fault (State n) :=
  match evict s.queueSize ((s.queues i).length + 1) (s.queues i) with
  | .error f => .error f
  | .ok none => .ok { s with queues := upd s.queues i [], locked := true }
  | .ok (some d') =>
    finish (tsLoop boom (sorted (fun a b => decide (a ≤ b)) (common (upd s.queues i d'))) { s with queues := upd s.queues i d' })

/-- What remains of a TimeSynchronizer call. -/
def tsRest (boom : Nat → Bool) : Point n → State n → Except Fault (State n)
  | .enter i m, s => (tsAdd boom s i m).map (·.1)
  | .insert i e, s => fromEvict boom i { s with queues := upd s.queues i ((s.queues i).set e.stamp e) }
  | .evict i, s => fromEvict boom i s
  | .collect, s => finish (tsLoop boom (sorted (fun a b => decide (a ≤ b)) (common s.queues)) s)
  | .output ts, s => finish (tsLoop boom ts s)
  | .delete t ts, s => finish (tsLoop boom ts { s with queues := fun j => (s.queues j).del t })

theorem tsBody_implements (boom : Nat → Bool) :
    Implements (tsBody (n := n) boom) (fun s op => (tsAdd boom s op.1 op.2).map (·.1)) := by
  apply implements_of_rest (tsRest boom)
  · intro op s; rfl
  · intro l s
    cases l with
    | enter i m =>
      simp only [tsBody, tsRest, statement, tsAdd]
      by_cases hl : s.locked
      · simp [hl, Except.map]
      · by_cases hh : m.header
        · simp only [hl, hh, Bool.false_eq_true, if_false, Bool.not_true, tsRest]
          unfold fromEvict
          dsimp only
          simp only [upd_same, upd_upd]
          cases evict s.queueSize (((s.queues i).set m.ev.stamp m.ev).length + 1) ((s.queues i).set m.ev.stamp m.ev) with
          | error f => rfl
          | ok o => cases o <;> rfl
        · simp [hl, hh, Except.map]
    | insert i e => rfl
    | evict i =>
      simp only [tsBody, tsRest, statement]
      unfold fromEvict
      by_cases hs : ((s.queues i).length : Int) > s.queueSize
      · rw [if_pos hs]
        cases hm : (s.queues i).minKey with
        | none =>
          dsimp only
          unfold evict
          rw [if_pos hs, hm]
          dsimp only
          rw [show upd s.queues i [] = s.queues by
            have h0 := minKey_none.mp hm
            conv => rhs; rw [← upd_self s.queues i, h0]]
        | some k =>
          dsimp only [tsRest, fromEvict]
          have hlt := length_del_lt (minKey_some hm).1
          rw [show evict s.queueSize ((s.queues i).length + 1) (s.queues i) =
              evict s.queueSize ((s.queues i).length) ((s.queues i).del k) by
            rw [evict, if_pos hs, hm]]
          simp only [upd_same, upd_upd]
          rw [evict_fuel s.queueSize (s.queues i).length (((s.queues i).del k).length + 1) _ hlt (by omega)]
      · rw [if_neg hs]
        dsimp only [tsRest]
        unfold evict
        rw [if_neg hs]
        dsimp only
        rw [upd_self]
    | collect => rfl
    | output ts =>
      cases ts with
      | nil => rfl
      | cons t ts =>
        simp only [tsBody, tsRest, statement, tsLoop]
        cases allSome (fun j => (s.queues j).get t) with
        | none => rfl
        | some msgs =>
          dsimp only
          by_cases hb : boom s.out.length
          · simp [hb, finish]
          · simp [hb, tsRest]
    | delete t ts => rfl

theorem tsBody_terminates (boom : Nat → Bool) (op : Fin n × Msg) (s : State n) :
    ∃ r, Runs (tsBody boom) ((tsBody boom).enter op) s r := by
  have hout : ∀ (ts : List Int) (s : State n), ∃ r, Runs (tsBody boom) (.output ts) s r := by
    intro ts
    induction ts with
    | nil => intro s; exact ⟨_, .last rfl⟩
    | cons t ts ih =>
      intro s
      cases ha : allSome (fun j => (s.queues j).get t) with
      | none => exact ⟨_, .last (by simp only [tsBody, statement, ha]; rfl)⟩
      | some msgs =>
        cases hb : boom s.out.length with
        | true => exact ⟨_, .last (by simp only [tsBody, statement, ha, hb]; rfl)⟩
        | false =>
          obtain ⟨r, hr⟩ := ih { s with out := s.out ++ [msgs], queues := fun j => (s.queues j).del t }
          exact ⟨r, .more (s' := { s with out := s.out ++ [msgs] }) (l' := .delete t ts)
            (by simp only [tsBody, statement, ha, hb]; rfl) (.more rfl hr)⟩
  have hev : ∀ (k : Nat) (i : Fin n) (s : State n), (s.queues i).length ≤ k → ∃ r, Runs (tsBody boom) (.evict i) s r := by
    intro k
    induction k with
    | zero =>
      intro i s hk
      by_cases hs : ((s.queues i).length : Int) > s.queueSize
      · have h0 : s.queues i = [] := List.length_eq_zero_iff.mp (by omega)
        exact ⟨_, .last (by simp only [tsBody, statement]; rw [if_pos hs, minKey_none.mpr h0])⟩
      · obtain ⟨r, hr⟩ := hout (sorted (fun a b => decide (a ≤ b)) (common s.queues)) s
        exact ⟨r, .more (s' := s) (l' := .collect) (by simp only [tsBody, statement]; rw [if_neg hs]) (.more rfl hr)⟩
    | succ k ih =>
      intro i s hk
      by_cases hs : ((s.queues i).length : Int) > s.queueSize
      · cases hm : (s.queues i).minKey with
        | none => exact ⟨_, .last (by simp only [tsBody, statement]; rw [if_pos hs, hm])⟩
        | some key =>
          have hlt := length_del_lt (minKey_some hm).1
          obtain ⟨r, hr⟩ := ih i { s with queues := upd s.queues i ((s.queues i).del key) } (by simp only [upd_same]; omega)
          exact ⟨r, .more (by simp only [tsBody, statement]; rw [if_pos hs, hm]) hr⟩
      · obtain ⟨r, hr⟩ := hout (sorted (fun a b => decide (a ≤ b)) (common s.queues)) s
        exact ⟨r, .more (s' := s) (l' := .collect) (by simp only [tsBody, statement]; rw [if_neg hs]) (.more rfl hr)⟩
  cases hl : s.locked with
  | true => exact ⟨_, .fault (f := .hang) (by simp only [tsBody, statement, hl]; rfl)⟩
  | false =>
    cases hh : op.2.header with
    | false => exact ⟨_, .last (s' := { s with locked := true }) (by simp only [tsBody, statement, hl, hh]; rfl)⟩
    | true =>
      obtain ⟨r, hr⟩ := hev _ op.1 { s with queues := upd s.queues op.1 ((s.queues op.1).set op.2.ev.stamp op.2.ev) }
        (Nat.le_refl _)
      exact ⟨r, .more (s' := s) (l' := .insert op.1 op.2.ev) (by simp only [tsBody, statement, hl, hh]; rfl) (.more rfl hr)⟩

/-- What remains of an ApproximateTimeSynchronizer call from the search on. -/
def fromSearch (boom : Nat → Bool) (slop : Int) (i : Fin n) (e : Ev) (k : Nat) (found : List (List Int)) (s : State n) :
    Except Fault (State n) :=
  match nearStamps slop e.stamp ((searched s.queues i).drop k) with
  | none => .ok s
  | some r => finish (approxLoop boom slop i e.stamp (product (found ++ r)) s)

/-- What remains of an ApproximateTimeSynchronizer call from the eviction on. -/
def fromEvictA (boom : Nat → Bool) (slop : Int) (i : Fin n) (e : Ev) (s : State n) : Except Fault (State n) :=
  match evict s.queueSize ((s.queues i).length + 1) (s.queues i) with
  | .error f => .error f
  | .ok none => .ok { s with queues := upd s.queues i [], locked := true }
  | .ok (some d') => fromSearch boom slop i e 0 [] { s with queues := upd s.queues i d' }

/-- What remains of an ApproximateTimeSynchronizer call. -/
def approxRest (boom : Nat → Bool) (slop : Int) (allow : Bool) : APoint n → State n → Except Fault (State n)
  | .enter i m, s => (approxAdd boom slop allow s i m).map (·.1)
  | .insert i e, s => fromEvictA boom slop i e { s with queues := upd s.queues i ((s.queues i).set e.stamp e) }
  | .evict i e, s => fromEvictA boom slop i e s
  | .search i e k found, s => fromSearch boom slop i e k found s
  | .combine i e vs, s => finish (approxLoop boom slop i e.stamp vs s)
  | .delete vv, s => .ok { s with queues := fun j => (s.queues j).del (vv[j.1]?.getD 0), locked := false }

theorem approxBody_implements (boom : Nat → Bool) (slop : Int) (allow : Bool) :
    Implements (approxBody (n := n) boom slop allow) (fun s op => (approxAdd boom slop allow s op.1 op.2).map (·.1)) := by
  apply implements_of_rest (approxRest boom slop allow)
  · intro op s; rfl
  · intro l s
    cases l with
    | enter i m =>
      simp only [approxBody, approxRest, approxStatement, approxAdd]
      by_cases hh : (!m.header && !allow) = true
      · rw [if_pos hh, if_pos hh]; rfl
      · rw [if_neg hh, if_neg hh]
        by_cases hl : s.locked
        · simp [hl, Except.map]
        · simp only [hl, Bool.false_eq_true, if_false, approxRest]
          unfold fromEvictA
          dsimp only
          simp only [upd_same, upd_upd]
          cases evict s.queueSize (((s.queues i).set m.ev.stamp m.ev).length + 1) ((s.queues i).set m.ev.stamp m.ev) with
          | error f => rfl
          | ok o =>
            cases o with
            | none => rfl
            | some d' =>
              dsimp only
              unfold fromSearch searched
              rw [List.drop_zero]
              dsimp only
              cases nearStamps slop m.ev.stamp
                ((List.ofFn (upd s.queues i d')).take i ++ (List.ofFn (upd s.queues i d')).drop (i + 1)) with
              | none => rfl
              | some r => rfl
    | insert i e => rfl
    | evict i e =>
      simp only [approxBody, approxRest, approxStatement]
      unfold fromEvictA
      by_cases hs : ((s.queues i).length : Int) > s.queueSize
      · rw [if_pos hs]
        cases hm : (s.queues i).minKey with
        | none =>
          dsimp only
          unfold evict
          rw [if_pos hs, hm]
          dsimp only
          rw [show upd s.queues i [] = s.queues by
            have h0 := minKey_none.mp hm
            conv => rhs; rw [← upd_self s.queues i, h0]]
        | some k =>
          dsimp only [approxRest, fromEvictA]
          have hlt := length_del_lt (minKey_some hm).1
          rw [show evict s.queueSize ((s.queues i).length + 1) (s.queues i) =
              evict s.queueSize ((s.queues i).length) ((s.queues i).del k) by
            rw [evict, if_pos hs, hm]]
          simp only [upd_same, upd_upd]
          rw [evict_fuel s.queueSize (s.queues i).length (((s.queues i).del k).length + 1) _ hlt (by omega)]
      · rw [if_neg hs]
        dsimp only [approxRest]
        unfold evict
        rw [if_neg hs]
        dsimp only
        rw [upd_self]
    | search i e k found =>
      simp only [approxBody, approxRest, approxStatement]
      unfold fromSearch
      cases hk : (searched s.queues i)[k]? with
      | none =>
        have := List.getElem?_eq_none_iff.mp hk
        rw [List.drop_eq_nil_of_le this]
        simp [nearStamps, approxRest]
      | some d =>
        obtain ⟨hlt, hd⟩ := List.getElem?_eq_some_iff.mp hk
        rw [List.drop_eq_getElem_cons hlt, hd]
        rw [nearStamps]
        by_cases he : (topicStamps slop e.stamp d).isEmpty
        · simp [he]
        · simp only [he, Bool.false_eq_true, if_false, approxRest, fromSearch]
          cases nearStamps slop e.stamp (List.drop (k + 1) (searched s.queues i)) with
          | none => rfl
          | some r => simp
    | combine i e vs =>
      cases vs with
      | nil => rfl
      | cons v vs =>
        simp only [approxBody, approxRest, approxStatement, approxLoop]
        cases allSome (fun j => ((v.insertIdx i e.stamp)[j.1]?).bind (fun t => (s.queues j).get t)) with
        | none => rfl
        | some msgs =>
          dsimp only
          by_cases hsp : spread (v.insertIdx i e.stamp) < slop
          · by_cases hb : boom s.out.length
            · simp [hb, hsp, finish]
            · simp [hb, hsp, finish, approxRest]
          · simp [hsp, approxRest]
    | delete vv => rfl

theorem approxBody_terminates (boom : Nat → Bool) (slop : Int) (allow : Bool) (op : Fin n × Msg) (s : State n) :
    ∃ r, Runs (approxBody boom slop allow) ((approxBody boom slop allow).enter op) s r := by
  have hcomb : ∀ (i : Fin n) (e : Ev) (vs : List (List Int)) (s : State n), ∃ r, Runs (approxBody boom slop allow) (.combine i e vs) s r := by
    intro i e vs
    induction vs with
    | nil => intro s; exact ⟨_, .last rfl⟩
    | cons v vs ih =>
      intro s
      cases ha : allSome (fun j => ((v.insertIdx i e.stamp)[j.1]?).bind (fun t => (s.queues j).get t)) with
      | none =>
        obtain ⟨r, hr⟩ := ih s
        exact ⟨r, .more (by simp only [approxBody, approxStatement, ha]) hr⟩
      | some msgs =>
        by_cases hsp : spread (v.insertIdx i e.stamp) < slop
        · by_cases hb : boom s.out.length
          · exact ⟨_, .last (by simp only [approxBody, approxStatement, ha, hb, hsp, if_true]; rfl)⟩
          · exact ⟨_, .more (s' := { s with out := s.out ++ [msgs] }) (l' := .delete (v.insertIdx i e.stamp))
              (by simp only [approxBody, approxStatement, ha, hb, hsp, if_true]; rfl) (.last rfl)⟩
        · obtain ⟨r, hr⟩ := ih s
          exact ⟨r, .more (by simp only [approxBody, approxStatement, ha, hsp, if_false]) hr⟩
  have hsearch : ∀ (m k : Nat) (i : Fin n) (e : Ev) (found : List (List Int)) (s : State n), (searched s.queues i).length - k ≤ m →
      ∃ r, Runs (approxBody boom slop allow) (.search i e k found) s r := by
    intro m
    induction m with
    | zero =>
      intro k i e found s hk
      obtain ⟨r, hr⟩ := hcomb i e (product found) s
      exact ⟨r, .more (by
        simp only [approxBody, approxStatement]
        rw [List.getElem?_eq_none_iff.mpr (by omega)]) hr⟩
    | succ m ih =>
      intro k i e found s hk
      cases hd : (searched s.queues i)[k]? with
      | none =>
        obtain ⟨r, hr⟩ := hcomb i e (product found) s
        exact ⟨r, .more (by simp only [approxBody, approxStatement, hd]) hr⟩
      | some d =>
        by_cases he : (topicStamps slop e.stamp d).isEmpty
        · exact ⟨_, .last (by simp only [approxBody, approxStatement, hd, he, if_true]; rfl)⟩
        · obtain ⟨r, hr⟩ := ih (k + 1) i e
            (found ++ [(sorted (fun a b => decide (a.2 ≤ b.2)) (topicStamps slop e.stamp d)).map (·.1)]) s (by omega)
          exact ⟨r, .more (by simp only [approxBody, approxStatement, hd, he]; rfl) hr⟩
  have hev : ∀ (k : Nat) (i : Fin n) (e : Ev) (s : State n), (s.queues i).length ≤ k →
      ∃ r, Runs (approxBody boom slop allow) (.evict i e) s r := by
    intro k
    induction k with
    | zero =>
      intro i e s hk
      by_cases hs : ((s.queues i).length : Int) > s.queueSize
      · have h0 : s.queues i = [] := List.length_eq_zero_iff.mp (by omega)
        exact ⟨_, .last (by simp only [approxBody, approxStatement]; rw [if_pos hs, minKey_none.mpr h0])⟩
      · obtain ⟨r, hr⟩ := hsearch _ 0 i e [] s (Nat.le_refl _)
        exact ⟨r, .more (s' := s) (by simp only [approxBody, approxStatement]; rw [if_neg hs]) hr⟩
    | succ k ih =>
      intro i e s hk
      by_cases hs : ((s.queues i).length : Int) > s.queueSize
      · cases hm : (s.queues i).minKey with
        | none => exact ⟨_, .last (by simp only [approxBody, approxStatement]; rw [if_pos hs, hm])⟩
        | some key =>
          have hlt := length_del_lt (minKey_some hm).1
          obtain ⟨r, hr⟩ := ih i e { s with queues := upd s.queues i ((s.queues i).del key) } (by simp only [upd_same]; omega)
          exact ⟨r, .more (by simp only [approxBody, approxStatement]; rw [if_pos hs, hm]) hr⟩
      · obtain ⟨r, hr⟩ := hsearch _ 0 i e [] s (Nat.le_refl _)
        exact ⟨r, .more (s' := s) (by simp only [approxBody, approxStatement]; rw [if_neg hs]) hr⟩
  by_cases hh : (!op.2.header && !allow) = true
  · exact ⟨_, .last (s' := s) (by simp only [approxBody, approxStatement]; rw [if_pos hh])⟩
  · cases hl : s.locked with
    | true => exact ⟨_, .fault (f := .hang) (by simp only [approxBody, approxStatement]; rw [if_neg hh, if_pos hl])⟩
    | false =>
      obtain ⟨r, hr⟩ := hev _ op.1 op.2.ev { s with queues := upd s.queues op.1 ((s.queues op.1).set op.2.ev.stamp op.2.ev) }
        (Nat.le_refl _)
      exact ⟨r, .more (s' := s) (l' := .insert op.1 op.2.ev)
        (by simp only [approxBody, approxStatement]; rw [if_neg hh, if_neg (by simp [hl])]) (.more rfl hr)⟩

end MF.Py
