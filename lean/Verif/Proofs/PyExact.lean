import Verif.Proofs.PyDict
import Verif.Spec.Sync
/-
The Python TimeSynchronizer: what one call does, and the invariant.
-/
namespace MF.Py

variable {n : Nat}

structure Inv (s : State n) : Prop where
  ok : ∀ j, DOk (s.queues j)
  quiet : s.locked = false → ∀ k, ¬ ∀ j, k ∈ (s.queues j).keys
  bound : s.queueSize < 0 ∨ ∀ j, ((s.queues j).length : Int) ≤ s.queueSize

theorem nodup_all_eq {l : List Int} (h : l.Nodup) {a : Int} (ha : ∀ x ∈ l, x = a) : l = [] ∨ l = [a] := by
  match l with
  | [] => exact Or.inl rfl
  | [x] => right; rw [ha x (by simp)]
  | x :: y :: l =>
    have h1 := ha x (by simp)
    have h2 := ha y (by simp)
    subst h1; subst h2
    simp at h

theorem tsAdd_spec [NeZero n] (boom : Nat → Bool) (s : State n) (hinv : Inv s) (hq : 0 ≤ s.queueSize) (hl : s.locked = false)
    (i : Fin n) (e : Ev) :
    ∃ d', Evicted s.queueSize ((s.queues i).set e.stamp e) d' ∧
      (((¬ ∀ j, e.stamp ∈ (upd s.queues i d' j).keys) ∧
        tsAdd boom s i ⟨e, true⟩ = .ok ({ s with queues := upd s.queues i d' }, false)) ∨
      (∃ msgs, (∀ j, (upd s.queues i d' j).get e.stamp = some (msgs j)) ∧
        tsAdd boom s i ⟨e, true⟩ = .ok (if boom s.out.length
          then ({ s with queues := upd s.queues i d', out := s.out ++ [msgs], locked := true }, true)
          else ({ s with queues := fun j => (upd s.queues i d' j).del e.stamp, out := s.out ++ [msgs] }, false)))) := by
  have hset := (hinv.ok i).set e
  obtain ⟨d', hev, hE⟩ := evict_spec hq (((s.queues i).set e.stamp e).length + 1) _ hset.nodup (by omega)
  refine ⟨d', hE, ?_⟩
  have hok : ∀ j, DOk (upd s.queues i d' j) := by
    intro j
    by_cases hj : j = i
    · subst hj; rw [upd_same]; exact hset.sublist hE.sub
    · rw [upd_ne _ _ hj]; exact hinv.ok j
  have hcom : ∀ k ∈ common (upd s.queues i d'), k = e.stamp := by
    intro k hk
    rw [mem_common] at hk
    apply Classical.byContradiction
    intro hne
    apply hinv.quiet hl k
    intro j
    have := hk j
    by_cases hj : j = i
    · subst hj
      rw [upd_same] at this
      rcases mem_keys_set.mp ((hE.sub.map _).subset this) with h | h
      · exact absurd h hne
      · exact h
    · rwa [upd_ne _ _ hj] at this
  have hstep : tsAdd boom s i ⟨e, true⟩ =
      .ok ({ (tsLoop boom (sorted (fun a b => decide (a ≤ b)) (common (upd s.queues i d'))) { s with queues := upd s.queues i d' }).1 with
        locked := (tsLoop boom (sorted (fun a b => decide (a ≤ b)) (common (upd s.queues i d'))) { s with queues := upd s.queues i d' }).2 },
        (tsLoop boom (sorted (fun a b => decide (a ≤ b)) (common (upd s.queues i d'))) { s with queues := upd s.queues i d' }).2) := by
    unfold tsAdd
    simp only [hl, Bool.false_eq_true, ↓reduceIte, Bool.not_true]
    rw [hev]
  rcases nodup_all_eq (nodup_common (fun j => (hok j).nodup)) hcom with h0 | h1
  · left
    refine ⟨?_, ?_⟩
    · intro hall
      have := mem_common.mpr hall
      rw [h0] at this
      cases this
    · rw [hstep, h0]
      simp [sorted, tsLoop, ← hl]
  · right
    have hmem : e.stamp ∈ common (upd s.queues i d') := by rw [h1]; simp
    rw [mem_common] at hmem
    have hs : ∀ j, ((upd s.queues i d' j).get e.stamp).isSome := fun j => get_isSome.mpr (hmem j)
    refine ⟨fun j => ((upd s.queues i d' j).get e.stamp).get (hs j), fun j => by simp, ?_⟩
    rw [hstep, h1]
    have hall : allSome (fun j => (upd s.queues i d' j).get e.stamp) =
        some (fun j => ((upd s.queues i d' j).get e.stamp).get (hs j)) := by
      rw [allSome_some]; intro j; simp
    simp only [sorted, insertBy, tsLoop, hall]
    cases hb : boom s.out.length <;> simp [hl]

theorem Inv.construct [NeZero n] (q : Int) : Inv (construct n q) := by
  refine ⟨fun _ => DOk.nil, fun _ k h => ?_, ?_⟩
  · have := h ⟨0, Nat.pos_of_ne_zero (NeZero.ne n)⟩
    simp [Py.construct, Dict.keys] at this
  · by_cases h : q < 0
    · exact Or.inl h
    · right; intro j; simp [Py.construct]; omega

theorem Evicted.length_le {size : Int} {d d' : Dict Ev} (h : Evicted size d d') : (d'.length : Int) ≤ size := by
  have := h.len
  split at this <;> omega

/-- The cases of a call that returns or raises. -/
theorem tsAdd_cases [NeZero n] (boom : Nat → Bool) (s : State n) (hinv : Inv s) (i : Fin n) (m : Msg) (s' : State n) (r : Bool)
    (h : tsAdd boom s i m = .ok (s', r)) :
    s.locked = false ∧
    ((m.header = false ∧ s' = { s with locked := true } ∧ r = true) ∨
     (m.header = true ∧ s.queueSize < 0 ∧ s' = { s with queues := upd s.queues i [], locked := true } ∧ r = true) ∨
     (m.header = true ∧ 0 ≤ s.queueSize ∧ ∃ d', Evicted s.queueSize ((s.queues i).set m.ev.stamp m.ev) d' ∧
      (((¬ ∀ j, m.ev.stamp ∈ (upd s.queues i d' j).keys) ∧ s' = { s with queues := upd s.queues i d' } ∧ r = false) ∨
       (∃ msgs, (∀ j, (upd s.queues i d' j).get m.ev.stamp = some (msgs j)) ∧
        ((boom s.out.length = true ∧ r = true ∧
          s' = { s with queues := upd s.queues i d', out := s.out ++ [msgs], locked := true }) ∨
         (boom s.out.length = false ∧ r = false ∧
          s' = { s with queues := fun j => (upd s.queues i d' j).del m.ev.stamp, out := s.out ++ [msgs] })))))) := by
  obtain ⟨e, hd⟩ := m
  rcases Bool.eq_false_or_eq_true s.locked with hl | hl
  · simp [tsAdd, hl] at h
  · refine ⟨hl, ?_⟩
    cases hd with
    | false =>
      left
      unfold tsAdd at h
      rw [hl] at h
      simp only [Bool.false_eq_true, ↓reduceIte, Bool.not_false] at h
      have h := Except.ok.inj h
      exact ⟨rfl, (congrArg Prod.fst h).symm, (congrArg Prod.snd h).symm⟩
    | true =>
      right
      by_cases hq : s.queueSize < 0
      · left
        have hset := (hinv.ok i).set e
        have hev := evict_negative hq (((s.queues i).set e.stamp e).length + 1) _ hset.nodup (by omega)
        unfold tsAdd at h
        rw [hl] at h
        simp only [Bool.false_eq_true, ↓reduceIte, Bool.not_true, hev] at h
        have h := Except.ok.inj h
        exact ⟨rfl, hq, (congrArg Prod.fst h).symm, (congrArg Prod.snd h).symm⟩
      · right
        refine ⟨rfl, by omega, ?_⟩
        obtain ⟨d', hE, hc | ⟨msgs, h1, h2⟩⟩ := tsAdd_spec boom s hinv (by omega) hl i e
        · refine ⟨d', hE, Or.inl ⟨hc.1, ?_⟩⟩
          rw [hc.2] at h
          have h := Except.ok.inj h
          exact ⟨(congrArg Prod.fst h).symm, (congrArg Prod.snd h).symm⟩
        · refine ⟨d', hE, Or.inr ⟨msgs, h1, ?_⟩⟩
          rw [h2] at h
          have h := Except.ok.inj h
          cases hb : boom s.out.length with
          | true =>
            rw [hb] at h
            exact Or.inl ⟨rfl, (congrArg Prod.snd h).symm, (congrArg Prod.fst h).symm⟩
          | false =>
            rw [hb] at h
            exact Or.inr ⟨rfl, (congrArg Prod.snd h).symm, (congrArg Prod.fst h).symm⟩

theorem upd_DOk {s : State n} (hinv : ∀ j, DOk (s.queues j)) {i : Fin n} {d' : Dict Ev} (h : DOk d') (j : Fin n) :
    DOk (upd s.queues i d' j) := by
  by_cases hj : j = i
  · subst hj; rwa [upd_same]
  · rw [upd_ne _ _ hj]; exact hinv j

theorem Evicted.dok {size : Int} {d d' : Dict Ev} {e : Ev} (hd : DOk d) (h : Evicted size (d.set e.stamp e) d') : DOk d' :=
  (hd.set e).sublist h.sub

theorem upd_bound {s : State n} {i : Fin n} {d' : Dict Ev} (hb : s.queueSize < 0 ∨ ∀ j, ((s.queues j).length : Int) ≤ s.queueSize)
    (hq : 0 ≤ s.queueSize) (h : (d'.length : Int) ≤ s.queueSize) (j : Fin n) : ((upd s.queues i d' j).length : Int) ≤ s.queueSize := by
  by_cases hj : j = i
  · subst hj; rwa [upd_same]
  · rw [upd_ne _ _ hj]
    rcases hb with hb | hb
    · omega
    · exact hb j

theorem tsAdd_inv [NeZero n] (boom : Nat → Bool) (s : State n) (hinv : Inv s) (i : Fin n) (m : Msg) (s' : State n) (r : Bool)
    (h : tsAdd boom s i m = .ok (s', r)) : Inv s' ∧ s'.queueSize = s.queueSize ∧ s'.locked = r := by
  obtain ⟨hl, ⟨_, rfl, rfl⟩ | ⟨_, hq, rfl, rfl⟩ | ⟨_, hq, d', hE, ⟨hc, rfl, rfl⟩ | ⟨msgs, hg, ⟨_, rfl, rfl⟩ | ⟨_, rfl, rfl⟩⟩⟩⟩ :=
    tsAdd_cases boom s hinv i m s' r h
  · exact ⟨⟨hinv.ok, fun h => Bool.noConfusion h, hinv.bound⟩, rfl, rfl⟩
  · exact ⟨⟨upd_DOk hinv.ok DOk.nil, fun h => Bool.noConfusion h, Or.inl hq⟩, rfl, rfl⟩
  · refine ⟨⟨upd_DOk hinv.ok (hE.dok (hinv.ok i)), fun _ k hk => ?_, Or.inr (upd_bound hinv.bound hq hE.length_le)⟩, rfl, hl⟩
    by_cases hk' : k = m.ev.stamp
    · subst hk'; exact hc hk
    · apply hinv.quiet hl k
      intro j
      have := hk j
      by_cases hj : j = i
      · subst hj
        simp only [upd_same] at this
        rcases mem_keys_set.mp ((hE.sub.map _).subset this) with h | h
        · exact absurd h hk'
        · exact h
      · simpa only [upd_ne _ _ hj] using this
  · exact ⟨⟨upd_DOk hinv.ok (hE.dok (hinv.ok i)), fun h => Bool.noConfusion h, Or.inr (upd_bound hinv.bound hq hE.length_le)⟩, rfl, rfl⟩
  · refine ⟨⟨fun j => (upd_DOk hinv.ok (hE.dok (hinv.ok i)) j).sublist (del_sublist _ _), fun _ k hk => ?_, Or.inr ?_⟩, rfl, hl⟩
    · have hk1 := fun j => mem_keys_del.mp (hk j)
      have hne := (hk1 i).2
      apply hinv.quiet hl k
      intro j
      have := (hk1 j).1
      by_cases hj : j = i
      · subst hj
        simp only [upd_same] at this
        rcases mem_keys_set.mp ((hE.sub.map _).subset this) with h | h
        · exact absurd h hne
        · exact h
      · simpa only [upd_ne _ _ hj] using this
    · intro j
      have h1 := upd_bound hinv.bound hq hE.length_le (i := i) j
      have h2 := (del_sublist (upd s.queues i d' j) m.ev.stamp).length_le
      simp only at h1 ⊢
      omega

theorem map_ok {α β : Type} {f : α → β} {x : Except Fault α} {b : β} (h : x.map f = .ok b) : ∃ a, x = .ok a ∧ f a = b := by
  cases x with
  | error e => cases h
  | ok a => exact ⟨a, rfl, Except.ok.inj h⟩

/-- Induction over the calls of a TimeSynchronizer. -/
theorem tsRun_induction [NeZero n] {boom : Nat → Bool} {q : Int} {P : List (Fin n × Msg) → State n → Prop}
    (h0 : P [] (construct n q))
    (hs : ∀ ops s i m s' r, tsRun boom (construct n q) ops = .ok s → Inv s → s.queueSize = q → P ops s →
      tsAdd boom s i m = .ok (s', r) → P (ops ++ [(i, m)]) s')
    (ops : List (Fin n × Msg)) (s : State n) (h : tsRun boom (construct n q) ops = .ok s) :
    P ops s ∧ Inv s ∧ s.queueSize = q := by
  induction ops using snoc_induction generalizing s with
  | h0 => cases h; exact ⟨h0, Inv.construct q, rfl⟩
  | hs ops op ih =>
    obtain ⟨s1, h1, h2⟩ := runE_snoc_ok h
    obtain ⟨hP, hI, hq⟩ := ih s1 h1
    obtain ⟨⟨s2, r⟩, h3, h4⟩ := map_ok h2
    cases h4
    obtain ⟨k1, k2, _⟩ := tsAdd_inv boom s1 hI op.1 op.2 s2 r h3
    exact ⟨hs ops s1 op.1 op.2 s2 r h1 hI hq hP h3, k1, k2.trans hq⟩

end MF.Py

namespace MF.Py

variable {n : Nat}

/-- The messages in a dict. -/
def vals (d : Dict Ev) : List Ev := d.map (·.2)

theorem count_set (d : Dict Ev) (hd : d.keys.Nodup) (k : Int) (v e : Ev) :
    (vals (d.set k v)).count e ≤ (vals d).count e + (if v = e then 1 else 0) := by
  unfold Dict.set
  split
  · rename_i hk
    clear hk
    unfold vals
    induction d with
    | nil => simp
    | cons p d ih =>
      obtain ⟨a, b⟩ := p
      simp only [Dict.keys, List.map_cons, List.nodup_cons] at hd
      by_cases h : a = k
      · subst h
        have : d.map (fun p => if p.1 = a then (a, v) else p) = d := by
          conv => rhs; rw [← List.map_id d]
          apply List.map_congr_left
          intro p hp
          rw [if_neg]
          · rfl
          · rintro rfl
            exact hd.1 (List.mem_map.mpr ⟨p, hp, rfl⟩)
        simp only [List.map_cons, ↓reduceIte, this]
        rw [List.count_cons, List.count_cons]
        by_cases hv : v = e <;> by_cases hb : b = e <;> simp [hv, hb]
      · simp only [List.map_cons, if_neg h]
        have := ih hd.2
        rw [List.count_cons, List.count_cons]
        omega
  · unfold vals
    rw [List.map_append, List.count_append]
    simp only [List.map_cons, List.map_nil, List.count_singleton]
    by_cases hv : v = e <;> simp [hv]

theorem count_del (d : Dict Ev) (k : Int) (v e : Ev) (hv : (k, v) ∈ d) :
    (vals (d.del k)).count e + (if v = e then 1 else 0) ≤ (vals d).count e := by
  unfold vals Dict.del
  induction d with
  | nil => cases hv
  | cons p d ih =>
    obtain ⟨a, b⟩ := p
    by_cases h : a = k
    · subst h
      rw [List.filter_cons_of_neg (by simp)]
      simp only [List.map_cons, List.count_cons]
      rcases List.mem_cons.mp hv with h1 | h1
      · cases h1
        have h2 := ((List.filter_sublist (p := fun p : Int × Ev => decide (p.1 ≠ a)) (l := d)).map (·.2)).count_le e
        by_cases hv : v = e
        · simp only [hv, ↓reduceIte, beq_self_eq_true]; omega
        · simp only [hv, ↓reduceIte]; omega
      · have := ih h1
        omega
    · rw [List.filter_cons_of_pos (by simp [h])]
      have hv' : (k, v) ∈ d := by
        rcases List.mem_cons.mp hv with h1 | h1
        · cases h1; exact absurd rfl h
        · exact h1
      have := ih hv'
      simp only [List.map_cons, List.count_cons]
      omega

theorem count_sub {d d' : Dict Ev} (h : d'.Sublist d) (e : Ev) : (vals d').count e ≤ (vals d).count e :=
  (h.map _).count_le e

theorem count_get {d : Dict Ev} {k : Int} {v : Ev} (h : (k, v) ∈ d) : v ∈ vals d := List.mem_map.mpr ⟨(k, v), h, rfl⟩

/-- Where the messages of the queues and of the output come from. -/
theorem ts_from [NeZero n] {boom : Nat → Bool} {q : Int} (ops : List (Fin n × Msg)) (s : State n)
    (h : tsRun boom (construct n q) ops = .ok s) :
    (∀ j, ∀ p ∈ s.queues j, (j, (⟨p.2, true⟩ : Msg)) ∈ ops) ∧
    (∀ t ∈ s.out, (∀ i, (i, (⟨t i, true⟩ : Msg)) ∈ ops) ∧ ∀ i j, (t i).stamp = (t j).stamp) := by
  refine (tsRun_induction (P := fun ops s => (∀ j, ∀ p ∈ s.queues j, (j, (⟨p.2, true⟩ : Msg)) ∈ ops) ∧
    (∀ t ∈ s.out, (∀ i, (i, (⟨t i, true⟩ : Msg)) ∈ ops) ∧ ∀ i j, (t i).stamp = (t j).stamp)) ?_ ?_ ops s h).1
  · exact ⟨fun j p hp => by simp [construct] at hp, fun t ht => by simp [construct] at ht⟩
  · rintro ops s i m s' r - hinv - ⟨hP, hO⟩ hadd
    have up : ∀ j, ∀ p ∈ s.queues j, (j, (⟨p.2, true⟩ : Msg)) ∈ ops ++ [(i, m)] :=
      fun j p hp => List.mem_append_left _ (hP j p hp)
    have upO : ∀ t ∈ s.out, (∀ i', (i', (⟨t i', true⟩ : Msg)) ∈ ops ++ [(i, m)]) ∧ ∀ i j, (t i).stamp = (t j).stamp :=
      fun t ht => ⟨fun j => List.mem_append_left _ ((hO t ht).1 j), (hO t ht).2⟩
    obtain ⟨hl, ⟨_, rfl, rfl⟩ | ⟨_, hq, rfl, rfl⟩ | ⟨hh, hq, d', hE, hc⟩⟩ := tsAdd_cases boom s hinv i m s' r hadd
    · exact ⟨up, upO⟩
    · refine ⟨fun j p hp => ?_, upO⟩
      by_cases hj : j = i
      · subst hj; simp only [upd_same] at hp; cases hp
      · simp only [upd_ne _ _ hj] at hp; exact up j p hp
    · have hm : m = ⟨m.ev, true⟩ := by cases m; simp_all
      have updq : ∀ j, ∀ p ∈ upd s.queues i d' j, (j, (⟨p.2, true⟩ : Msg)) ∈ ops ++ [(i, m)] := by
        intro j p hp
        by_cases hj : j = i
        · subst hj
          rw [upd_same] at hp
          rcases mem_set.mp (hE.sub.subset hp) with rfl | hp
          · simp [← hm]
          · exact up j p hp.1
        · rw [upd_ne _ _ hj] at hp; exact up j p hp
      have dok := fun j => upd_DOk hinv.ok (hE.dok (hinv.ok i)) (i := i) j
      rcases hc with ⟨hc, rfl, rfl⟩ | ⟨msgs, hg, hc⟩
      · exact ⟨updq, upO⟩
      · have hmem := fun j => (get_some (dok j).nodup).mp (hg j)
        have hset : (∀ i', (i', (⟨msgs i', true⟩ : Msg)) ∈ ops ++ [(i, m)]) ∧ ∀ i j, (msgs i).stamp = (msgs j).stamp :=
          ⟨fun j => updq j _ (hmem j), fun a b => by
            have h1 := (dok a).stamp _ (hmem a)
            have h2 := (dok b).stamp _ (hmem b)
            simp only at h1 h2
            rw [h1, h2]⟩
        have outq : ∀ t ∈ s.out ++ [msgs], (∀ i', (i', (⟨t i', true⟩ : Msg)) ∈ ops ++ [(i, m)]) ∧
            ∀ i j, (t i).stamp = (t j).stamp := by
          intro t ht
          rcases List.mem_append.mp ht with ht | ht
          · exact upO t ht
          · simp only [List.mem_singleton] at ht; subst ht; exact hset
        rcases hc with ⟨_, rfl, rfl⟩ | ⟨_, rfl, rfl⟩
        · exact ⟨updq, outq⟩
        · exact ⟨fun j p hp => updq j p (mem_del.mp hp).1, outq⟩

/-- No message is output more often than it was received. -/
theorem ts_count [NeZero n] {boom : Nat → Bool} {q : Int} (ops : List (Fin n × Msg)) (s : State n)
    (h : tsRun boom (construct n q) ops = .ok s) (j : Fin n) (e : Ev) :
    ((s.out.map (· j)).count e ≤ ops.count (j, ⟨e, true⟩)) ∧
    (s.locked = false → (s.out.map (· j)).count e + (vals (s.queues j)).count e ≤ ops.count (j, ⟨e, true⟩)) := by
  refine (tsRun_induction (P := fun ops s => ((s.out.map (· j)).count e ≤ ops.count (j, ⟨e, true⟩)) ∧
    (s.locked = false → (s.out.map (· j)).count e + (vals (s.queues j)).count e ≤ ops.count (j, ⟨e, true⟩))) ?_ ?_ ops s h).1
  · simp [construct, vals]
  · rintro ops s i m s' r - hinv - ⟨hP, hO⟩ hadd
    have hcnt : (ops ++ [(i, m)]).count (j, ⟨e, true⟩) =
        ops.count (j, (⟨e, true⟩ : Msg)) + (if (i, m) = (j, (⟨e, true⟩ : Msg)) then 1 else 0) := by
      rw [List.count_append, List.count_singleton]
      by_cases hx : (i, m) = (j, (⟨e, true⟩ : Msg)) <;> simp [hx]
    obtain ⟨hl, ⟨_, rfl, rfl⟩ | ⟨_, hq, rfl, rfl⟩ | ⟨hh, hq, d', hE, hc⟩⟩ := tsAdd_cases boom s hinv i m s' r hadd
    · exact ⟨by rw [hcnt]; simp only; omega, fun h => Bool.noConfusion h⟩
    · exact ⟨by rw [hcnt]; simp only; omega, fun h => Bool.noConfusion h⟩
    · have hm : m = ⟨m.ev, true⟩ := by cases m; simp_all
      have hO := hO hl
      have hupd : (vals (upd s.queues i d' j)).count e ≤
          (vals (s.queues j)).count e + (if (i, m) = (j, (⟨e, true⟩ : Msg)) then 1 else 0) := by
        by_cases hj : j = i
        · subst hj
          rw [upd_same]
          have h1 := count_sub hE.sub e
          have h2 := count_set (s.queues j) (hinv.ok j).nodup m.ev.stamp m.ev e
          have h3 : (if m.ev = e then 1 else 0) = (if (j, m) = (j, (⟨e, true⟩ : Msg)) then 1 else 0) := by
            by_cases hme : m.ev = e
            · rw [if_pos hme, if_pos (by rw [hm, hme])]
            · rw [if_neg hme, if_neg]
              intro hx
              apply hme
              cases hx
              rfl
          rw [h3] at h2
          omega
        · rw [upd_ne _ _ hj]; omega
      have dok := fun j => upd_DOk hinv.ok (hE.dok (hinv.ok i)) (i := i) j
      rcases hc with ⟨hc, rfl, rfl⟩ | ⟨msgs, hg, hc⟩
      · rw [hcnt]
        exact ⟨by simp only; omega, fun _ => by simp only; omega⟩
      · have hmem := (get_some (dok j).nodup).mp (hg j)
        have hdel := count_del _ _ _ e hmem
        have hout : ((s.out ++ [msgs]).map (· j)).count e = (s.out.map (· j)).count e + (if msgs j = e then 1 else 0) := by
          rw [List.map_append, List.count_append]
          simp only [List.map_cons, List.map_nil, List.count_singleton]
          by_cases hx : msgs j = e <;> simp [hx]
        rw [hcnt]
        rcases hc with ⟨_, rfl, rfl⟩ | ⟨_, rfl, rfl⟩
        · exact ⟨by simp only [hout]; omega, fun h => Bool.noConfusion h⟩
        · exact ⟨by simp only [hout]; omega, fun _ => by simp only [hout]; omega⟩

end MF.Py
