import Verif.Proofs.Basic
import Verif.Spec.Latest
/-
Lemmas about the model of LatestTime.
-/
namespace MF.Latest

open MF.Event (Time)
open Arith

variable {D : Type} [Arith D] {n : Nat}

/-! ### compute_hz -/

theorem pass_again {r r' : Rate D} {now : Time} (h : r.pass now = .again r') :
    ∃ d, timeSub now r.prev = .ok d ∧ le (seconds d : D) zero = false ∧ r' = { r with doHzInit := true, doErrorInit := true } := by
  unfold Rate.pass at h
  cases ht : timeSub now r.prev with
  | error f => rw [ht] at h; cases h
  | ok d =>
    rw [ht] at h
    refine ⟨d, rfl, ?_⟩
    simp only at h
    cases hl : le (seconds d : D) zero with
    | true => rw [if_pos hl] at h; cases h
    | false =>
      rw [if_neg (by rw [hl]; exact Bool.false_ne_true)] at h
      refine ⟨rfl, ?_⟩
      split at h
      · cases h
      · split at h
        · cases h
        · split at h
          · injection h with h; exact h.symm
          · cases h

/-- What `compute_hz` returns. -/
theorem computeHz_ok (r : Rate D) (now : Time) :
    ∃ b r', r.computeHz fuel now = .ok (b, r') ∧ (b = false → r' = r) ∧
      (b = true → r'.prev = now ∧ r'.config = r.config ∧ r'.doHzInit = false) ∧
      (b = true ↔ ∃ d, timeSub now r.prev = .ok d ∧ le (seconds d : D) zero = false) := by
  have key : ∀ (r : Rate D) (b : Bool) (r' : Rate D), r.pass now = .done b r' →
      (b = false → r' = r) ∧ (b = true → r'.config = r.config ∧ r'.doHzInit = false) ∧
      (b = true ↔ ∃ d, timeSub now r.prev = .ok d ∧ le (seconds d : D) zero = false) := by
    intro r b r' h
    unfold Rate.pass at h
    cases ht : timeSub now r.prev with
    | error f =>
      rw [ht] at h
      injection h with h1 h2
      subst h1 h2
      simp
    | ok d =>
      rw [ht] at h
      simp only at h
      cases hl : le (seconds d : D) zero with
      | true =>
        rw [if_pos hl] at h
        injection h with h1 h2
        subst h1 h2
        simp [hl]
      | false =>
        rw [if_neg (by rw [hl]; exact Bool.false_ne_true)] at h
        split at h
        · injection h with h1 h2; subst h1 h2; simp [hl]
        · rename_i hd
          have hd' : r.doHzInit = false := by simpa using hd
          split at h
          · injection h with h1 h2; subst h1 h2; simp [hl, hd']
          · split at h
            · cases h
            · injection h with h1 h2; subst h1 h2; simp [hl, hd']
  cases hp : r.pass now with
  | done b r' =>
    obtain ⟨h1, h2, h3⟩ := key r b r' hp
    cases b with
    | false => exact ⟨false, r', by unfold fuel Rate.computeHz; simp only [hp], h1, by simp, h3⟩
    | true =>
      refine ⟨true, { r' with prev := now }, by unfold fuel Rate.computeHz; simp only [hp], by simp, ?_, h3⟩
      intro _
      exact ⟨rfl, h2 rfl⟩
  | again r' =>
    obtain ⟨d, h1, h2, h3⟩ := pass_again hp
    have h4 : r'.pass now = .done true { r' with hz := div one (seconds d), doHzInit := false } := by
      subst h3
      unfold Rate.pass
      simp only [h1, h2]
      simp
    refine ⟨true, { r' with hz := div one (seconds d), doHzInit := false, prev := now }, ?_, by simp, ?_, ?_⟩
    · unfold fuel Rate.computeHz
      simp only [hp]
      unfold Rate.computeHz
      simp only [h4]
    · intro _; subst h3; exact ⟨rfl, rfl, rfl⟩
    · exact ⟨fun _ => ⟨d, h1, h2⟩, fun _ => rfl⟩

theorem update_eq {r r' : Rate D} {now : Time} {b : Bool} (h : r.computeHz fuel now = .ok (b, r')) :
    r.update now = r' := by
  unfold Rate.update; rw [h]

/-! ### Sorting -/

/-- The order of `sort_indices`. -/
def Ahead (v : List (Rate D)) (i j : Nat) : Prop :=
  ∀ a b, v[i]? = some a → v[j]? = some b → gt a.hz b.hz = true ∨ (gt b.hz a.hz = false ∧ i < j)

theorem mem_insertIdx {f : Nat → Nat → Bool} {a x : Nat} {l : List Nat} : x ∈ insertIdx f a l ↔ x = a ∨ x ∈ l := by
  induction l with
  | nil => simp [insertIdx]
  | cons b l ih =>
    unfold insertIdx
    split
    · simp only [List.mem_cons, ih]
      constructor
      · rintro (h | h | h)
        · exact Or.inr (Or.inl h)
        · exact Or.inl h
        · exact Or.inr (Or.inr h)
      · rintro (h | h | h)
        · exact Or.inr (Or.inl h)
        · exact Or.inl h
        · exact Or.inr (Or.inr h)
    · simp

/-- The comparison used by `sort_indices`. -/
def cmp (v : List (Rate D)) (i j : Nat) : Bool :=
  match v[i]?, v[j]? with
  | some a, some b => gt a.hz b.hz
  | _, _ => false

theorem cmp_some {v : List (Rate D)} {i j : Nat} {a b : Rate D} (h1 : v[i]? = some a) (h2 : v[j]? = some b) :
    cmp v i j = gt a.hz b.hz := by unfold cmp; rw [h1, h2]

theorem insertIdx_sorted [Lawful D] {v : List (Rate D)} {a : Nat} (ha : a < v.length) {l : List Nat}
    (hl : ∀ x ∈ l, a < x ∧ x < v.length) (h : l.Pairwise (Ahead v)) : (insertIdx (cmp v) a l).Pairwise (Ahead v) := by
  obtain ⟨ra, hra⟩ : ∃ ra, v[a]? = some ra := ⟨v[a], List.getElem?_eq_getElem ha⟩
  induction l with
  | nil => simp [insertIdx]
  | cons b l ih =>
    obtain ⟨hab, hb⟩ := hl b (by simp)
    obtain ⟨rb, hrb⟩ : ∃ rb, v[b]? = some rb := ⟨v[b], List.getElem?_eq_getElem hb⟩
    rw [List.pairwise_cons] at h
    unfold insertIdx
    rw [cmp_some hrb hra]
    cases hg : gt rb.hz ra.hz with
    | true =>
      simp only [if_true]
      rw [List.pairwise_cons]
      refine ⟨?_, ih (fun x hx => hl x (by simp [hx])) h.2⟩
      intro x hx
      rcases mem_insertIdx.1 hx with rfl | hx
      · intro r1 r2 h1 h2
        rw [hrb] at h1; rw [hra] at h2
        injection h1 with h1; injection h2 with h2
        subst h1 h2
        exact Or.inl hg
      · exact h.1 x hx
    | false =>
      simp only [Bool.false_eq_true, if_false]
      rw [List.pairwise_cons]
      refine ⟨?_, List.pairwise_cons.2 h⟩
      intro x hx r1 r2 h1 h2
      rw [hra] at h1
      injection h1 with h1
      subst h1
      refine (Bool.eq_false_or_eq_true (gt ra.hz r2.hz)).elim Or.inl (fun _ => Or.inr ⟨?_, (hl x hx).1⟩)
      rcases List.mem_cons.1 hx with rfl | hx
      · rw [hrb] at h2; injection h2 with h2; subst h2; exact hg
      · have hbx := h.1 x hx rb r2 hrb h2
        cases hgx : gt r2.hz ra.hz with
        | false => rfl
        | true =>
          rcases Lawful.gt_negtrans r2.hz rb.hz ra.hz hgx with h3 | h3
          · rcases hbx with h4 | ⟨h4, _⟩
            · have := Lawful.gt_trans _ _ _ h3 h4
              rw [Lawful.gt_irrefl] at this; cases this
            · rw [h4] at h3; cases h3
          · rw [hg] at h3; cases h3

theorem sort_range [Lawful D] (v : List (Rate D)) (l : List Nat) (hp : l.Pairwise (· < ·)) (hl : ∀ x ∈ l, x < v.length) :
    (l.foldr (insertIdx (cmp v)) []).Pairwise (Ahead v) ∧ ∀ x, x ∈ l.foldr (insertIdx (cmp v)) [] ↔ x ∈ l := by
  induction l with
  | nil => simp
  | cons a l ih =>
    rw [List.pairwise_cons] at hp
    obtain ⟨h1, h2⟩ := ih hp.2 (fun x hx => hl x (by simp [hx]))
    refine ⟨?_, ?_⟩
    · show (insertIdx (cmp v) a (l.foldr (insertIdx (cmp v)) [])).Pairwise (Ahead v)
      refine insertIdx_sorted (hl a (by simp)) ?_ h1
      intro x hx
      have hx' := (h2 x).1 hx
      exact ⟨hp.1 x hx', hl x (by simp [hx'])⟩
    · intro x
      show x ∈ insertIdx (cmp v) a (l.foldr (insertIdx (cmp v)) []) ↔ _
      rw [mem_insertIdx, h2, List.mem_cons]

theorem strictWeak_lawful [Lawful D] (l : List D) : strictWeak gt l = true := by
  unfold strictWeak
  simp only [List.all_eq_true, Bool.and_eq_true, Bool.or_eq_true, Bool.not_eq_true', Bool.and_eq_false_iff]
  intro a _
  refine ⟨Lawful.gt_irrefl a, ?_⟩
  intro b _ c _
  refine ⟨?_, ?_⟩
  · cases h1 : gt a b with
    | false => exact Or.inl (Or.inl rfl)
    | true =>
      cases h2 : gt b c with
      | false => exact Or.inl (Or.inr rfl)
      | true => exact Or.inr (Lawful.gt_trans _ _ _ h1 h2)
  · cases h1 : gt a c with
    | false => exact Or.inl (Or.inl rfl)
    | true =>
      rcases Lawful.gt_negtrans a b c h1 with h | h
      · exact Or.inl (Or.inr h)
      · exact Or.inr h

theorem sortIndices_ok [Lawful D] (v : List (Rate D)) :
    ∃ l, sortIndices v = .ok l ∧ l.Pairwise (Ahead v) ∧ ∀ x, x ∈ l ↔ x < v.length := by
  obtain ⟨h1, h2⟩ := sort_range v (List.range v.length) List.pairwise_lt_range (fun x hx => List.mem_range.1 hx)
  refine ⟨_, ?_, h1, fun x => by rw [h2, List.mem_range]⟩
  unfold sortIndices
  rw [if_pos (strictWeak_lawful _)]
  rfl

/-! ### find_pivot -/

open Classical in
theorem pivotLoop_ok [Lawful D] {v : List (Rate D)} {now : Time} (hs : ∀ r ∈ v, r.prev.source = now.source) (l : List Nat)
    (hl : ∀ x ∈ l, x < v.length) :
    pivotLoop v now l = .ok (l.find? (fun p => decide (∃ r, v[p]? = some r ∧ Eligible r now))) := by
  induction l with
  | nil => rfl
  | cons p l ih =>
    have ih := ih (fun x hx => hl x (by simp [hx]))
    obtain ⟨r, hr⟩ : ∃ r, v[p]? = some r := ⟨v[p]'(hl p (by simp)), List.getElem?_eq_getElem _⟩
    have hsrc : r.prev.source = now.source := hs r (List.mem_of_getElem? hr)
    have hel : (∃ r', v[p]? = some r' ∧ Eligible r' now) ↔ Eligible r now := by
      rw [hr]
      constructor
      · rintro ⟨r', h1, h2⟩; injection h1 with h1; subst h1; exact h2
      · intro h; exact ⟨r, rfl, h⟩
    unfold pivotLoop
    rw [hr]
    simp only [timeSub, hsrc, ne_eq, not_true_eq_false, if_false, Lawful.eq_seconds, List.find?_cons, ← hr, hel]
    by_cases h0 : now.ns - r.prev.ns = 0
    · simp only [h0, decide_true, if_true]
      have hlate : ¬ Late r now := fun h => h.1 (by omega)
      by_cases hz : gt r.hz zero = true
      · have : Eligible r now := ⟨hz, hlate⟩
        simp [hz, this]
      · have : ¬ Eligible r now := fun h => hz h.1
        simp [hz, this, ih]
    · simp only [h0, decide_false, Bool.false_eq_true, if_false]
      by_cases hc : (!r.doErrorInit && gt (sub r.hz (div one (seconds (now.ns - r.prev.ns)))) (mul r.config.marginFactor r.error)) = true
      · have hlate : Late r now := by
          rw [Bool.and_eq_true] at hc
          exact ⟨by omega, by simpa using hc.1, hc.2⟩
        have : ¬ Eligible r now := fun h => h.2 hlate
        simp only [hc, if_true, this, decide_false]
        exact ih
      · have hlate : ¬ Late r now := by
          intro h
          apply hc
          rw [h.2.1, h.2.2]; rfl
        rw [if_neg hc]
        by_cases hz : gt r.hz zero = true
        · have : Eligible r now := ⟨hz, hlate⟩
          simp [hz, this]
        · have : ¬ Eligible r now := fun h => hz h.1
          simp [hz, this, ih]

theorem findPivot_ok [Lawful D] {v : List (Rate D)} {now : Time} (hs : ∀ r ∈ v, r.prev.source = now.source) :
    ∃ p, findPivot v now = .ok p ∧ ∀ i, p = some i ↔ IsPivot v now i := by
  classical
  obtain ⟨l, h1, h2, h3⟩ := sortIndices_ok v
  refine ⟨_, by unfold findPivot; rw [h1]; exact pivotLoop_ok hs l (fun x hx => (h3 x).1 hx), ?_⟩
  intro i
  rw [List.find?_eq_some_iff_append]
  constructor
  · rintro ⟨he, as, bs, hl, has⟩
    obtain ⟨r, hr, her⟩ := of_decide_eq_true he
    refine ⟨r, hr, her, ?_⟩
    intro q r' hq hr' her'
    have hql : q ∈ l := (h3 q).2 (by
      rcases List.getElem?_eq_some_iff.1 hr' with ⟨h, _⟩; exact h)
    rw [hl] at hql h2
    rcases List.mem_append.1 hql with hqa | hqb
    · have := has q hqa
      simp at this
      exact absurd her' (this r' hr')
    · rcases List.mem_cons.1 hqb with rfl | hqb
      · exact absurd rfl hq
      · have := (List.pairwise_cons.1 (List.pairwise_append.1 h2).2.1).1 q hqb
        exact this r r' hr hr'
  · rintro ⟨r, hr, her, hmax⟩
    refine ⟨decide_eq_true ⟨r, hr, her⟩, ?_⟩
    have hil : i ∈ l := (h3 i).2 (by
      rcases List.getElem?_eq_some_iff.1 hr with ⟨h, _⟩; exact h)
    obtain ⟨as, bs, hl⟩ := List.append_of_mem hil
    refine ⟨as, bs, hl, ?_⟩
    intro a ha
    simp only [Bool.not_eq_true', decide_eq_false_iff_not]
    rintro ⟨ra, hra, hea⟩
    rw [hl] at h2
    have h4 := (List.pairwise_append.1 h2).2.2 a ha i (by simp) ra r hra hr
    by_cases hai : a = i
    · subst hai
      rw [hr] at hra
      injection hra with hra; subst hra
      rcases h4 with h4 | ⟨_, h4⟩
      · rw [Lawful.gt_irrefl] at h4; cases h4
      · omega
    · rcases hmax a ra hai hra hea with h5 | ⟨h5, h6⟩
      · rcases h4 with h4 | ⟨h4, _⟩
        · have := Lawful.gt_trans _ _ _ h4 h5; rw [Lawful.gt_irrefl] at this; cases this
        · rw [h4] at h5; cases h5
      · rcases h4 with h4 | ⟨h4, h7⟩
        · rw [h5] at h4; cases h4
        · omega

/-! ### add -/

theorem full_some {t : Fin n → Option Ev} {u : Fin n → Ev} : full t = some u ↔ ∀ i, t i = some (u i) := by
  unfold full
  split
  · rename_i h
    constructor
    · intro hu; injection hu with hu; subst hu; intro i; simp
    · intro hu; congr 1; funext i; simp [hu i]
  · rename_i h
    constructor
    · intro hu; cases hu
    · intro hu; exact absurd (fun i => by rw [hu i]; rfl) h

theorem full_none {t : Fin n → Option Ev} : full t = none ↔ ¬ ∀ i, (t i).isSome := by
  unfold full
  split
  · rename_i h; simp [h]
  · rename_i h; simp [h]

/-- The three ways in which `add` returns. -/
theorem add_cases {dflt : Config D} {s s' : State n D} {i : Fin n} {e : Ev} {now : Time} (h : add dflt s i e now = .ok s') :
    (s.events i = none ∧ s' = { initializeRate dflt s i now with events := upd s.events i (some e) }) ∨
    (∃ e0 r b r', s.events i = some e0 ∧ s.rates[i.val]? = some r ∧ r.computeHz fuel now = .ok (b, r') ∧
      s'.events = upd s.events i (some e) ∧ s'.rates = s.rates.set i r' ∧ s'.configs = s.configs ∧
      ((b = false ∧ s'.out = s.out) ∨
       (b = true ∧ ∃ p, findPivot s'.rates now = .ok p ∧
         ((∃ t, p = some i.val ∧ full s'.events = some t ∧ s'.out = s.out ++ [t]) ∨
          (¬ (p = some i.val ∧ ∃ t, full s'.events = some t) ∧ s'.out = s.out))))) := by
  unfold add at h
  cases he : s.events i with
  | none =>
    rw [he] at h
    simp only [Except.ok.injEq] at h
    exact Or.inl ⟨rfl, h.symm⟩
  | some e0 =>
    rw [he] at h
    right
    cases hr : s.rates[i.val]? with
    | none => rw [hr] at h; cases h
    | some r =>
      rw [hr] at h
      obtain ⟨b, r', h1, _⟩ := computeHz_ok r now
      simp only [h1] at h
      refine ⟨e0, r, b, r', rfl, rfl, h1, ?_⟩
      cases b with
      | false =>
        simp only [Except.ok.injEq] at h
        subst h
        exact ⟨rfl, rfl, rfl, Or.inl ⟨rfl, rfl⟩⟩
      | true =>
        simp only at h
        cases hf : findPivot (s.rates.set i r') now with
        | error f => rw [hf] at h; cases h
        | ok p =>
          rw [hf] at h
          simp only at h
          by_cases hp : p = some i.val
          · rw [if_pos hp] at h
            cases hu : full (upd s.events i (some e)) with
            | none =>
              rw [hu] at h
              simp only [Except.ok.injEq] at h
              subst h
              refine ⟨rfl, rfl, rfl, Or.inr ⟨rfl, p, hf, Or.inr ⟨?_, rfl⟩⟩⟩
              rintro ⟨_, t, ht⟩
              rw [hu] at ht; cases ht
            | some t =>
              rw [hu] at h
              simp only [Except.ok.injEq] at h
              subst h
              exact ⟨rfl, rfl, rfl, Or.inr ⟨rfl, p, hf, Or.inl ⟨t, hp, hu, rfl⟩⟩⟩
          · rw [if_neg hp] at h
            simp only [Except.ok.injEq] at h
            subst h
            exact ⟨rfl, rfl, rfl, Or.inr ⟨rfl, p, hf, Or.inr ⟨fun h => hp h.1, rfl⟩⟩⟩

theorem add_events {dflt : Config D} {s s' : State n D} {i : Fin n} {e : Ev} {now : Time} (h : add dflt s i e now = .ok s') :
    s'.events = upd s.events i (some e) ∧ s'.configs = s.configs := by
  rcases add_cases h with ⟨_, rfl⟩ | ⟨_, _, _, _, _, _, _, h1, _, h2, _⟩
  · exact ⟨rfl, rfl⟩
  · exact ⟨h1, h2⟩

/-! ### Histories -/

theorem deliveries_snoc (ops : List (Op n)) (op : Op n) (i : Fin n) :
    deliveries (ops ++ [op]) i = if op.input = i then deliveries ops i ++ [op] else deliveries ops i := by
  unfold deliveries
  rw [List.filter_append]
  by_cases h : op.input = i <;> simp [h]

theorem lastMsg_snoc (ops : List (Op n)) (op : Op n) (i : Fin n) :
    lastMsg (ops ++ [op]) i = if op.input = i then some op.msg else lastMsg ops i := by
  unfold lastMsg
  rw [deliveries_snoc]
  by_cases h : op.input = i <;> simp [h]

theorem firstArrivals_snoc (ops : List (Op n)) (op : Op n) :
    firstArrivals (ops ++ [op]) = if op.input ∈ firstArrivals ops then firstArrivals ops else firstArrivals ops ++ [op.input] := by
  unfold firstArrivals
  rw [List.foldl_append]; rfl

theorem mem_firstArrivals (ops : List (Op n)) (i : Fin n) : i ∈ firstArrivals ops ↔ deliveries ops i ≠ [] := by
  induction ops using snoc_induction with
  | h0 => simp [firstArrivals, deliveries]
  | hs ops op ih =>
    rw [firstArrivals_snoc, deliveries_snoc]
    by_cases h1 : op.input ∈ firstArrivals ops
    · rw [if_pos h1]
      by_cases h2 : op.input = i
      · subst h2
        simp [h1]
      · rw [if_neg h2, ih]
    · rw [if_neg h1]
      by_cases h2 : op.input = i
      · subst h2; simp
      · rw [if_neg h2, ← ih]
        simp [Ne.symm h2]

theorem firstArrivals_nodup (ops : List (Op n)) : (firstArrivals ops).Nodup := by
  induction ops using snoc_induction with
  | h0 => simp [firstArrivals]
  | hs ops op ih =>
    rw [firstArrivals_snoc]
    split
    · exact ih
    · rename_i h
      rw [List.nodup_append]
      refine ⟨ih, by simp, ?_⟩
      intro a ha b hb
      simp at hb
      subst hb
      exact fun hab => h (hab ▸ ha)

theorem run_events {dflt : Config D} {configs : List (Config D)} (ops : List (Op n)) (s : State n D)
    (h : run dflt (initial n configs) ops = .ok s) : (∀ i, s.events i = lastMsg ops i) ∧ s.configs = configs := by
  revert s
  unfold run
  refine runE_induction (P := fun ops (s : State n D) => (∀ i, s.events i = lastMsg ops i) ∧ s.configs = configs) ?_ ?_ ops
  · exact ⟨fun _ => rfl, rfl⟩
  · intro ops s op s' _ ih hstep
    obtain ⟨h1, h2⟩ := add_events hstep
    refine ⟨?_, by rw [h2, ih.2]⟩
    intro i
    rw [h1, lastMsg_snoc]
    by_cases h : op.input = i
    · rw [h]; simp
    · rw [upd_ne _ _ (Ne.symm h), if_neg h, ih.1]

theorem lastMsg_none (ops : List (Op n)) (i : Fin n) : lastMsg ops i = none ↔ deliveries ops i = [] := by
  unfold lastMsg
  simp

theorem head_snoc {ops : List (Op n)} {j : Fin n} (op : Op n) (h : deliveries ops j ≠ []) :
    (deliveries (ops ++ [op]) j).head? = (deliveries ops j).head? := by
  rw [deliveries_snoc]
  split
  · cases hd : deliveries ops j with
    | nil => exact absurd hd h
    | cons a l => rfl
  · rfl

theorem tail_snoc {ops : List (Op n)} {op : Op n} (h : deliveries ops op.input ≠ []) :
    (deliveries (ops ++ [op]) op.input).tail = (deliveries ops op.input).tail ++ [op] := by
  rw [deliveries_snoc, if_pos rfl]
  cases hd : deliveries ops op.input with
  | nil => exact absurd hd h
  | cons a l => rfl

theorem run_rates {dflt : Config D} {configs : List (Config D)} (ops : List (Op n)) (s : State n D)
    (h : run dflt (initial n configs) ops = .ok s) :
    s.rates.length = (firstArrivals ops).length ∧
    (∀ k : Fin n, (firstArrivals ops).length ≤ k.val → (deliveries ops k).tail = []) ∧
    ∀ (k j : Fin n), (firstArrivals ops)[k.val]? = some j → s.rates[k.val]? = estimate dflt configs ops j k := by
  revert s
  unfold run
  refine runE_induction (P := fun ops (s : State n D) => s.rates.length = (firstArrivals ops).length ∧
    (∀ k : Fin n, (firstArrivals ops).length ≤ k.val → (deliveries ops k).tail = []) ∧
    ∀ (k j : Fin n), (firstArrivals ops)[k.val]? = some j → s.rates[k.val]? = estimate dflt configs ops j k) ?_ ?_ ops
  · refine ⟨rfl, fun _ _ => rfl, ?_⟩
    intro k j hk
    simp [firstArrivals] at hk
  · intro ops s op s' hrun ih hstep
    obtain ⟨ih1, ih2, ih3⟩ := ih
    obtain ⟨hev, hcf⟩ := run_events ops s hrun
    rcases add_cases hstep with ⟨h1, h2⟩ | ⟨e0, r, b, r', h1, h2, h3, h4, h5, h6, h7⟩
    · rw [hev, lastMsg_none] at h1
      have hnot : op.input ∉ firstArrivals ops := by rw [mem_firstArrivals]; exact fun h => h h1
      have htail : ∀ k, (deliveries (ops ++ [op]) k).tail = (deliveries ops k).tail := by
        intro k
        rw [deliveries_snoc]
        split
        · rename_i h; subst h; rw [h1]; rfl
        · rfl
      rw [firstArrivals_snoc, if_neg hnot]
      subst h2
      refine ⟨by simp [initializeRate, ih1], ?_, ?_⟩
      · intro k hk
        rw [htail]
        apply ih2
        simp at hk; omega
      · intro k j hk
        show (s.rates ++ [Rate.start op.now (configFor dflt s.configs op.input)])[k.val]? = _
        unfold estimate
        rw [htail]
        by_cases hlt : k.val < (firstArrivals ops).length
        · rw [List.getElem?_append_left hlt] at hk
          rw [List.getElem?_append_left (by omega), ih3 k j hk]
          unfold estimate
          rw [head_snoc]
          rw [← mem_firstArrivals]
          exact List.mem_of_getElem? hk
        · have hkl : k.val = (firstArrivals ops).length := by
            rcases List.getElem?_eq_some_iff.1 hk with ⟨h, _⟩
            simp at h; omega
          rw [hkl] at hk
          simp at hk
          subst hk
          rw [hkl, ← ih1, ih2 k (by omega), deliveries_snoc, if_pos rfl, h1, hcf]
          simp
    · have hne : deliveries ops op.input ≠ [] := by
        rw [Ne, ← lastMsg_none, ← hev, h1]; simp
      have hmem : op.input ∈ firstArrivals ops := by rw [mem_firstArrivals]; exact hne
      have hlt : op.input.val < s.rates.length := by
        rcases List.getElem?_eq_some_iff.1 h2 with ⟨h, _⟩; exact h
      rw [firstArrivals_snoc, if_pos hmem]
      refine ⟨by rw [h5]; simp [ih1], ?_, ?_⟩
      · intro k hk
        rw [deliveries_snoc, if_neg]
        · exact ih2 k hk
        · rintro rfl; omega
      · intro k j hk
        have hj : deliveries ops j ≠ [] := by
          rw [← mem_firstArrivals]; exact List.mem_of_getElem? hk
        have hold := ih3 k j hk
        rw [h5]
        unfold estimate at hold ⊢
        rw [head_snoc op hj]
        by_cases hki : op.input = k
        · subst hki
          rw [tail_snoc hne, List.getElem?_set_self hlt]
          rw [h2] at hold
          cases hh : (deliveries ops j).head? with
          | none => rw [hh] at hold; cases hold
          | some first =>
            rw [hh] at hold
            simp only [Option.map_some, Option.some.injEq] at hold
            simp only [Option.map_some, List.map_append, List.map_cons, List.map_nil, List.foldl_append, List.foldl_cons,
              List.foldl_nil, Option.some.injEq]
            rw [← hold, update_eq h3]
        · rw [deliveries_snoc, if_neg hki, List.getElem?_set_ne (fun h => hki (Fin.ext h))]
          exact hold

/-- All estimates use one clock source. -/
theorem run_sources {dflt : Config D} {configs : List (Config D)} {src : Source} (ops : List (Op n)) (s : State n D)
    (h : run dflt (initial n configs) ops = .ok s) (hc : OneClock src ops) : ∀ r ∈ s.rates, r.prev.source = src := by
  revert s
  unfold run
  intro s h
  refine runE_induction (P := fun ops (s : State n D) => OneClock src ops → ∀ r ∈ s.rates, r.prev.source = src) ?_ ?_
    ops s h hc
  · intro _ r hr; cases hr
  · intro ops s op s' _ ih hstep hc r hr
    have ih := ih (fun o ho => hc o (by simp [ho]))
    have hnow := hc op (by simp)
    rcases add_cases hstep with ⟨_, h2⟩ | ⟨e0, r0, b, r', h1, h2, h3, h4, h5, h6, h7⟩
    · subst h2
      rcases List.mem_append.1 hr with hr | hr
      · exact ih r hr
      · simp at hr; subst hr; exact hnow
    · rw [h5] at hr
      rcases List.mem_or_eq_of_mem_set hr with hr | hr
      · exact ih r hr
      · subst hr
        obtain ⟨b', r'', g1, g2, g3, _⟩ := computeHz_ok r0 op.now
        rw [h3] at g1
        injection g1 with g1
        injection g1 with g1 g1'
        subst g1 g1'
        cases b with
        | false => rw [g2 rfl]; exact ih r0 (List.mem_of_getElem? h2)
        | true => rw [(g3 rfl).1]; exact hnow

theorem outOfBounds_snoc (ops : List (Op n)) (op : Op n) :
    OutOfBounds (ops ++ [op]) ↔
      OutOfBounds ops ∨ (deliveries ops op.input ≠ [] ∧ (firstArrivals ops).length ≤ op.input.val) := by
  constructor
  · rintro ⟨pre, o, post, h1, h2, h3⟩
    rcases List.eq_nil_or_concat post with rfl | ⟨post', last, rfl⟩
    · obtain ⟨h4, h5⟩ := List.append_inj' h1 rfl
      injection h5 with h5
      subst h4 h5
      exact Or.inr ⟨h2, h3⟩
    · left
      have : ops ++ [op] = (pre ++ o :: post') ++ [last] := by rw [h1]; simp
      obtain ⟨h4, _⟩ := List.append_inj' this rfl
      exact ⟨pre, o, post', h4, h2, h3⟩
  · rintro (⟨pre, o, post, h1, h2, h3⟩ | ⟨h1, h2⟩)
    · exact ⟨pre, o, post ++ [op], by rw [h1]; simp, h2, h3⟩
    · exact ⟨ops, op, [], rfl, h1, h2⟩

theorem run_fault [Lawful D] {dflt : Config D} {configs : List (Config D)} {src : Source} (ops : List (Op n))
    (hc : OneClock src ops) :
    (OutOfBounds ops → run dflt (initial n configs) ops = .error .ub) ∧
    (¬ OutOfBounds ops → ∃ s, run dflt (initial n configs) ops = .ok s) := by
  induction ops using snoc_induction with
  | h0 =>
    refine ⟨?_, fun _ => ⟨_, rfl⟩⟩
    rintro ⟨pre, o, post, h, _⟩
    simp at h
  | hs ops op ih =>
    obtain ⟨ih1, ih2⟩ := ih (fun o ho => hc o (by simp [ho]))
    have hsplit : run dflt (initial n configs) (ops ++ [op]) =
        match run dflt (initial n configs) ops with
        | .error f => .error f
        | .ok s => add dflt s op.input op.msg op.now := by
      unfold run
      rw [runE_append]
      cases runE (fun s (op : Op n) => add dflt s op.input op.msg op.now) (initial n configs) ops with
      | error f => rfl
      | ok s =>
        simp only [runE]
        cases add dflt s op.input op.msg op.now <;> rfl
    rw [outOfBounds_snoc, hsplit]
    by_cases hob : OutOfBounds ops
    · rw [ih1 hob]
      exact ⟨fun _ => rfl, fun h => absurd (Or.inl hob) h⟩
    · obtain ⟨s, hs⟩ := ih2 hob
      rw [hs]
      obtain ⟨hev, _⟩ := run_events ops s hs
      obtain ⟨hlen, _, _⟩ := run_rates ops s hs
      have hsrc := run_sources ops s hs (src := src) (fun o ho => hc o (by simp [ho]))
      simp only [hob, false_or]
      unfold add
      cases he : s.events op.input with
      | none =>
        rw [hev, lastMsg_none] at he
        exact ⟨fun h => absurd he h.1, fun _ => ⟨_, rfl⟩⟩
      | some e0 =>
        have hne : deliveries ops op.input ≠ [] := by
          rw [Ne, ← lastMsg_none, ← hev, he]; simp
        cases hr : s.rates[op.input.val]? with
        | none =>
          have := List.getElem?_eq_none_iff.1 hr
          exact ⟨fun _ => rfl, fun h => absurd ⟨hne, by omega⟩ h⟩
        | some r =>
          have hlt : op.input.val < s.rates.length := by
            rcases List.getElem?_eq_some_iff.1 hr with ⟨h, _⟩; exact h
          refine ⟨fun h => absurd h.2 (by omega), fun _ => ?_⟩
          obtain ⟨b, r', g1, g2, g3, _⟩ := computeHz_ok r op.now
          simp only [g1]
          cases b with
          | false => exact ⟨_, rfl⟩
          | true =>
            have hs' : ∀ x ∈ s.rates.set op.input r', x.prev.source = op.now.source := by
              intro x hx
              rw [hc op (by simp)]
              rcases List.mem_or_eq_of_mem_set hx with hx | hx
              · exact hsrc x hx
              · subst hx; rw [(g3 rfl).1]; exact hc op (by simp)
            obtain ⟨p, hp, _⟩ := findPivot_ok hs'
            simp only [hp]
            split <;> exact ⟨_, rfl⟩

/-! ### Arrivals in order -/

theorem arrivals_prefix (l : List (Op n)) : ∀ xs : List (Fin n),
    xs <+: l.foldl (fun l op => if op.input ∈ l then l else l ++ [op.input]) xs := by
  induction l with
  | nil => intro xs; exact List.prefix_rfl
  | cons o l ih =>
    intro xs
    have h : xs <+: (if o.input ∈ xs then xs else xs ++ [o.input]) := by
      split
      · exact List.prefix_rfl
      · exact List.prefix_append _ _
    exact h.trans (ih _)

theorem firstArrivals_prefix (pre post : List (Op n)) : firstArrivals pre <+: firstArrivals (pre ++ post) := by
  unfold firstArrivals
  rw [List.foldl_append]
  exact arrivals_prefix _ _

theorem inOrder_get {ops : List (Op n)} (ho : InOrder ops) {i : Fin n} (h : i.val < (firstArrivals ops).length) :
    (firstArrivals ops)[i.val]? = some i := by
  unfold InOrder at ho
  rw [ho, List.getElem?_take, if_pos h]
  simp

theorem inOrder_mem {ops : List (Op n)} (ho : InOrder ops) (i : Fin n) :
    i ∈ firstArrivals ops ↔ i.val < (firstArrivals ops).length := by
  constructor
  · intro h
    obtain ⟨k, hk, hk2⟩ := List.mem_iff_getElem.1 h
    have hkn : k < n := by
      have := (firstArrivals_nodup ops).length_le_of_subset (l₂ := List.finRange n) (fun x _ => List.mem_finRange x)
      simp at this; omega
    have h2 := inOrder_get ho (i := ⟨k, hkn⟩) hk
    rw [List.getElem?_eq_getElem hk, hk2] at h2
    injection h2 with h2
    rw [h2]; exact hk
  · intro h
    exact List.mem_of_getElem? (inOrder_get ho h)

theorem inOrder_pre {pre post : List (Op n)} (ho : InOrder (pre ++ post)) : InOrder pre := by
  have hp := firstArrivals_prefix pre post
  have h1 := List.prefix_iff_eq_take.1 hp
  unfold InOrder at *
  rw [ho, List.take_take, Nat.min_eq_left hp.length_le] at h1
  exact h1

theorem inOrder_init {ops : List (Op n)} {op : Op n} (ho : InOrder (ops ++ [op])) : InOrder ops := inOrder_pre ho

theorem inOrder_safe {ops : List (Op n)} (ho : InOrder ops) : ¬ OutOfBounds ops := by
  rintro ⟨pre, op, post, h1, h2, h3⟩
  rw [h1] at ho
  have := (inOrder_mem (inOrder_pre ho) op.input).1 ((mem_firstArrivals _ _).2 h2)
  omega

theorem update_prev [Lawful D] (r : Rate D) (now : Time) (hs : r.prev.source = now.source) :
    now.ns ≤ (r.update now).prev.ns ∧ (r.update now).prev.source = now.source := by
  obtain ⟨b, r', g1, g2, g3, g4⟩ := computeHz_ok r now
  rw [update_eq g1]
  cases b with
  | true => rw [(g3 rfl).1]; exact ⟨Int.le_refl _, rfl⟩
  | false =>
    rw [g2 rfl]
    refine ⟨?_, hs⟩
    apply Decidable.byContradiction
    intro hlt
    have := g4.2 ⟨now.ns - r.prev.ns, by simp [timeSub, hs], by rw [Lawful.le_seconds]; simp; omega⟩
    cases this

/-! ### Exact arithmetic -/

theorem rat_nonpos (d : Int) : ((d : Rat) / 1000000000 ≤ 0) ↔ d ≤ 0 := by
  have h1 := @Rat.intCast_le_intCast d 0
  have h2 : ((0 : Int) : Rat) = 0 := rfl
  rw [h2] at h1
  rw [← h1]
  grind

theorem rat_zero (d : Int) : ((d : Rat) / 1000000000 = 0) ↔ d = 0 := by
  have h1 := @Rat.intCast_inj d 0
  have h2 : ((0 : Int) : Rat) = 0 := rfl
  rw [h2] at h1
  rw [← h1]
  grind

instance : Lawful Rat where
  gt_irrefl a := by simp [gt, Rat.lt_irrefl]
  gt_trans a b c h1 h2 := by simp only [gt, decide_eq_true_eq] at *; grind
  gt_negtrans a b c h := by simp only [gt, decide_eq_true_eq] at *; grind
  le_seconds d := by
    have := rat_nonpos d
    simp only [le, seconds, zero, this]
  eq_seconds d := by
    have := rat_zero d
    simp only [eq, seconds, zero, this]

instance : Lawful Fixed where
  gt_irrefl a := by simp [gt]
  gt_trans a b c h1 h2 := by simp only [gt, decide_eq_true_eq] at *; omega
  gt_negtrans a b c h := by simp only [gt, decide_eq_true_eq] at *; omega
  le_seconds d := rfl
  eq_seconds d := by simp only [eq, seconds, zero]

/-! ### Periodic inputs -/

theorem rat_pos {p : Int} (hp : 0 < p) : (0 : Rat) < (p : Rat) := Rat.intCast_pos.2 hp

theorem gt_recip {p q : Int} (hp : 0 < p) (hq : 0 < q) :
    gt (1000000000 / (p : Rat)) (1000000000 / (q : Rat)) = decide (p < q) := by
  have h1 := rat_pos hp
  have h2 := rat_pos hq
  have h3 := @Rat.intCast_lt_intCast p q
  simp only [gt]
  congr 1
  apply propext
  have h4 : 1000000000 / (p : Rat) * p = 1000000000 := Rat.div_mul_cancel (by grind)
  have h5 : (0 : Rat) < 1000000000 / (p : Rat) := by
    rw [Rat.lt_div_iff h1]; grind
  rw [← h3, Rat.div_lt_iff h2]
  generalize 1000000000 / (p : Rat) = x at h4 h5 ⊢
  rw [← h4, Rat.mul_lt_mul_left h5]

/-- The estimate of a periodic input after at least two messages, the last one at `t`. -/
structure Good (p : Int) (r : Rate Rat) (t : Time) : Prop where
  prev : r.prev = t
  hz : r.hz = 1000000000 / (p : Rat)
  error : r.error = 0
  init : r.doHzInit = false

theorem period_recip {p d : Int} (hd : d = p) : (div one (seconds d : Rat) : Rat) = 1000000000 / (p : Rat) := by
  subst hd
  simp only [div, one, seconds]
  grind

theorem good_first {p : Int} (hp : 0 < p) {t0 t1 : Time} (c : Config Rat) (hs : t0.source = t1.source)
    (ht : t1.ns = t0.ns + p) : Good p ((Rate.start t0 c).update t1) t1 := by
  have h1 : timeSub t1 t0 = .ok p := by simp [timeSub, hs]; omega
  have h2 : le (seconds p : Rat) zero = false := by rw [Lawful.le_seconds]; simp; omega
  unfold Rate.update fuel Rate.computeHz Rate.pass Rate.start
  simp only [h1, h2, period_recip rfl]
  exact ⟨rfl, rfl, rfl, rfl⟩

theorem good_next {p : Int} (hp : 0 < p) {r : Rate Rat} {t t1 : Time} (hg : Good p r t) (hs : t.source = t1.source)
    (ht : t1.ns = t.ns + p) : Good p (r.update t1) t1 ∧ (r.update t1).doErrorInit = false := by
  have h1 : timeSub t1 r.prev = .ok p := by rw [hg.prev]; simp [timeSub, hs]; omega
  have h2 : le (seconds p : Rat) zero = false := by rw [Lawful.le_seconds]; simp; omega
  have h3 : (fabs (sub r.hz (1000000000 / (p : Rat)) : Rat) : Rat) = 0 := by
    rw [hg.hz]; simp only [fabs, sub]; grind
  have hp' := rat_pos hp
  have h4 : (Arith.add (div r.config.rateAlpha (seconds p)) (mul (sub one r.config.rateAlpha) r.hz) : Rat) = 1000000000 / (p : Rat) := by
    rw [hg.hz]; simp only [Arith.add, div, mul, sub, one, seconds]
    grind
  have h5 : gt (0 : Rat) (mul r.config.marginFactor r.error) = false := by
    rw [hg.error]; simp only [gt, mul]; grind
  have h6 : (Arith.add (mul r.config.errorAlpha 0) (mul (sub one r.config.errorAlpha) r.error) : Rat) = 0 := by
    rw [hg.error]; simp only [Arith.add, mul]; grind
  unfold Rate.update fuel Rate.computeHz Rate.pass
  simp only [h1, h2, period_recip rfl, hg.init, h3, h4, h5, h6, Bool.false_eq_true, if_false]
  cases he : r.doErrorInit with
  | true => exact ⟨⟨rfl, rfl, rfl, rfl⟩, rfl⟩
  | false => exact ⟨⟨rfl, rfl, rfl, rfl⟩, rfl⟩

theorem good_fold {p : Int} (hp : 0 < p) {src : Source} : ∀ (ts : List Time) (r : Rate Rat) (t : Time), Good p r t →
    t.source = src → (∀ x ∈ ts, x.source = src) → Periodic p (t :: ts) →
    Good p (ts.foldl Rate.update r) ((t :: ts).getLast (by simp)) := by
  intro ts
  induction ts with
  | nil => intro r t h _ _ _; exact h
  | cons x ts ih =>
    intro r t h hs hx hper
    have hx1 := hx x (by simp)
    exact ih _ x (good_next hp h (by rw [hs, hx1]) hper.1).1 hx1 (fun y hy => hx y (by simp [hy])) hper.2

theorem periodic_append {p : Int} : ∀ (l m : List Time), Periodic p (l ++ m) → Periodic p l := by
  intro l
  induction l with
  | nil => intro m _; trivial
  | cons a l ih =>
    intro m h
    cases l with
    | nil => trivial
    | cons b l => exact ⟨h.1, ih m h.2⟩

theorem periodic_last {p : Int} {t : Time} : ∀ (l : List Time) (h : l ≠ []), Periodic p (l ++ [t]) →
    t.ns = (l.getLast h).ns + p := by
  intro l
  induction l with
  | nil => intro h; exact absurd rfl h
  | cons a l ih =>
    intro _ hper
    cases l with
    | nil => exact hper.1
    | cons b l => exact ih (by simp) hper.2

/-- The estimate kept for a periodic input. -/
theorem periodic_estimate {p : Int} (hp : 0 < p) {src : Source} {dflt : Config Rat} {configs : List (Config Rat)}
    {ops : List (Op n)} {i : Fin n} {r : Rate Rat} (hr : estimate dflt configs ops i i = some r)
    (hper : Periodic p ((deliveries ops i).map (·.now))) (hc : ∀ o ∈ deliveries ops i, o.now.source = src) :
    ∃ last, (deliveries ops i).getLast? = some last ∧ r.prev = last.now ∧
      ((∃ c, (deliveries ops i).length = 1 ∧ r = Rate.start last.now c) ∨
       (2 ≤ (deliveries ops i).length ∧ Good p r last.now)) := by
  unfold estimate at hr
  cases hd : deliveries ops i with
  | nil => rw [hd] at hr; cases hr
  | cons a l =>
    rw [hd] at hr hper hc
    simp only [List.head?_cons, Option.map_some, List.tail_cons, Option.some.injEq] at hr
    cases l with
    | nil =>
      simp only [List.map_nil, List.foldl_nil] at hr
      subst hr
      exact ⟨a, rfl, rfl, Or.inl ⟨_, rfl, rfl⟩⟩
    | cons b l =>
      simp only [List.map_cons, List.foldl_cons] at hr hper
      have h1 := good_first hp (configFor dflt configs i) ((hc a (by simp)).trans (hc b (by simp)).symm) hper.1
      have h2 := good_fold hp (l.map (·.now)) _ b.now h1 (hc b (by simp)) (by
        intro x hx
        obtain ⟨o, ho, rfl⟩ := List.mem_map.1 hx
        exact hc o (by simp [ho])) hper.2
      rw [hr] at h2
      have h3 : (b.now :: l.map (·.now)).getLast (by simp) = ((b :: l).getLast (by simp)).now := by
        have : b.now :: l.map (·.now) = (b :: l).map (·.now) := rfl
        simp only [this, List.getLast_map]
      rw [h3] at h2
      refine ⟨(b :: l).getLast (by simp), ?_, h2.prev, Or.inr ⟨by simp, h2⟩⟩
      rw [List.getLast?_eq_some_getLast (by simp)]
      simp

theorem periodic_rate {p : Int} (hp : 0 < p) {src : Source} {dflt : Config Rat} {configs : List (Config Rat)}
    {ops : List (Op n)} {i : Fin n} {r : Rate Rat} {now : Time} (hr : estimate dflt configs ops i i = some r)
    (hper : Periodic p ((deliveries ops i).map (·.now))) (hc : ∀ o ∈ ops, o.now.source = src)
    (hpun : ∀ last, (deliveries ops i).getLast? = some last → last.now.ns ≤ now.ns ∧ now.ns ≤ last.now.ns + p) :
    (Eligible r now ↔ 2 ≤ (deliveries ops i).length) ∧ (2 ≤ (deliveries ops i).length → r.hz = 1000000000 / (p : Rat)) := by
  obtain ⟨last, h1, h2, h3⟩ := periodic_estimate hp hr hper (fun o ho => hc o (List.mem_filter.1 ho).1)
  rcases h3 with ⟨c, h4, h5⟩ | ⟨h4, h5⟩
  · refine ⟨⟨?_, fun h => by omega⟩, fun h => by omega⟩
    rintro ⟨hz, _⟩
    rw [h5] at hz
    simp only [Rate.start, Lawful.gt_irrefl] at hz
    cases hz
  · refine ⟨⟨fun _ => h4, fun _ => ⟨?_, ?_⟩⟩, fun _ => h5.hz⟩
    · rw [h5.hz]
      simp only [gt, zero, decide_eq_true_eq]
      rw [Rat.lt_div_iff (rat_pos hp)]
      grind
    · rintro ⟨hne, _, hlate⟩
      obtain ⟨g1, g2⟩ := hpun last h1
      rw [h5.hz, h5.error, h2] at hlate
      rw [h2] at hne
      have hd : 0 < now.ns - last.now.ns := by omega
      have hle : now.ns - last.now.ns ≤ p := by omega
      generalize now.ns - last.now.ns = d at hd hle hlate
      rw [period_recip rfl] at hlate
      have hgt := gt_recip hp hd
      have : ¬ p < d := by omega
      simp only [this, decide_false] at hgt
      simp only [gt, sub, mul, decide_eq_true_eq, decide_eq_false_iff_not] at hlate hgt
      generalize 1000000000 / (p : Rat) = x at hlate hgt
      generalize 1000000000 / (d : Rat) = y at hlate hgt
      grind

theorem periodic_prev {p : Int} (hp : 0 < p) {src : Source} {dflt : Config Rat} {configs : List (Config Rat)}
    {ops : List (Op n)} {i : Fin n} {r : Rate Rat} {now : Time} (hr : estimate dflt configs ops i i = some r)
    (hper : Periodic p ((deliveries ops i).map (·.now) ++ [now])) (hc : ∀ o ∈ deliveries ops i, o.now.source = src)
    (_ : now.source = src) : r.prev.ns < now.ns := by
  obtain ⟨last, h1, h2, _⟩ := periodic_estimate hp hr (periodic_append _ _ hper) hc
  have hne : deliveries ops i ≠ [] := by rintro h; rw [h] at h1; cases h1
  have h3 := periodic_last ((deliveries ops i).map (·.now)) (by simpa using hne) hper
  rw [List.getLast_map] at h3
  rw [List.getLast?_eq_some_getLast hne] at h1
  injection h1 with h1
  rw [h1] at h3
  rw [h2]
  omega

theorem update_config (r : Rate D) (now : Time) : (r.update now).config = r.config := by
  obtain ⟨b, r', g1, g2, g3, _⟩ := computeHz_ok r now
  rw [update_eq g1]
  cases b with
  | false => rw [g2 rfl]
  | true => exact (g3 rfl).2.1

theorem fold_config (ts : List Time) : ∀ r : Rate D, (ts.foldl Rate.update r).config = r.config := by
  induction ts with
  | nil => intro r; rfl
  | cons t ts ih => intro r; exact (ih _).trans (update_config r t)

/-! ### Bounded rates -/

/-- The estimate lies within the bounds. -/
structure Within (lo hi : Rat) (r : Rate Rat) (t : Time) : Prop where
  prev : r.prev = t
  init : r.doHzInit = false
  lower : lo ≤ r.hz
  upper : r.hz ≤ hi
  error0 : 0 ≤ r.error
  error1 : r.error ≤ hi - lo

theorem rat_mix {a x y lo hi : Rat} (h0 : 0 ≤ a) (h1 : a ≤ 1) (hx : lo ≤ x) (hx' : x ≤ hi) (hy : lo ≤ y) (hy' : y ≤ hi) :
    lo ≤ a * x + (1 - a) * y ∧ a * x + (1 - a) * y ≤ hi := by
  have h2 : (0 : Rat) ≤ 1 - a := by grind
  have e1 := Rat.mul_le_mul_of_nonneg_left hx h0
  have e2 := Rat.mul_le_mul_of_nonneg_left hx' h0
  have e3 := Rat.mul_le_mul_of_nonneg_left hy h2
  have e4 := Rat.mul_le_mul_of_nonneg_left hy' h2
  constructor <;> grind

theorem within_next {lo hi : Rat} {r : Rate Rat} {t0 t1 : Time} (h0 : 0 ≤ r.config.rateAlpha) (h1 : r.config.rateAlpha ≤ 1)
    (e0 : 0 ≤ r.config.errorAlpha) (e1 : r.config.errorAlpha ≤ 1) (hs : t0.source = t1.source)
    (hr : (r.doHzInit = true ∧ r.prev = t0 ∧ r.error = 0) ∨ Within lo hi r t0) (hlt : t0.ns < t1.ns)
    (hlo : lo ≤ 1000000000 / ((t1.ns - t0.ns : Int) : Rat)) (hhi : 1000000000 / ((t1.ns - t0.ns : Int) : Rat) ≤ hi) :
    Within lo hi (r.update t1) t1 := by
  have hd : 0 < t1.ns - t0.ns := by omega
  have hprev : r.prev = t0 := by
    rcases hr with h | h
    · exact h.2.1
    · exact h.prev
  have g1 : timeSub t1 r.prev = .ok (t1.ns - t0.ns) := by rw [hprev]; simp [timeSub, hs]
  have hmix : (Arith.add (div r.config.rateAlpha (seconds (t1.ns - t0.ns))) (mul (sub one r.config.rateAlpha) r.hz) : Rat) =
      r.config.rateAlpha * (1000000000 / ((t1.ns - t0.ns : Int) : Rat)) + (1 - r.config.rateAlpha) * r.hz := by
    have := rat_pos hd
    simp only [Arith.add, div, mul, sub, one, seconds]
    grind
  have hrec := period_recip (d := t1.ns - t0.ns) rfl
  generalize t1.ns - t0.ns = d at hlo hhi hd g1 hmix hrec
  generalize hx : (1000000000 / (d : Rat) : Rat) = x at hlo hhi hmix hrec
  have g2 : le (seconds d : Rat) zero = false := by rw [Lawful.le_seconds]; simp; omega
  have hdiff : ∀ y : Rat, lo ≤ y → y ≤ hi → (0 : Rat) ≤ fabs (sub y x) ∧ (fabs (sub y x) : Rat) ≤ hi - lo := by
    intro y h1 h2
    simp only [fabs, sub]
    split <;> constructor <;> grind
  rcases hr with ⟨i1, _, i3⟩ | hw
  · unfold Rate.update fuel Rate.computeHz Rate.pass
    simp only [g1, g2, hrec, i1, if_true, Bool.false_eq_true, if_false]
    refine ⟨rfl, rfl, hlo, hhi, ?_, ?_⟩
    · rw [i3]; exact Rat.le_refl
    · rw [i3]; grind
  · obtain ⟨f1, f2⟩ := hdiff r.hz hw.lower hw.upper
    obtain ⟨m1, m2⟩ := rat_mix h0 h1 hlo hhi hw.lower hw.upper
    unfold Rate.update fuel Rate.computeHz Rate.pass
    simp only [g1, g2, hrec, hw.init, Bool.false_eq_true, if_false]
    cases he : r.doErrorInit with
    | true =>
      simp only [if_true]
      refine ⟨rfl, rfl, ?_, ?_, f1, f2⟩
      · rw [hmix]; exact m1
      · rw [hmix]; exact m2
    | false =>
      simp only [Bool.false_eq_true, if_false]
      cases hgt : gt (fabs (sub r.hz x) : Rat) (mul r.config.marginFactor r.error) with
      | true =>
        simp only [if_true]
        unfold Rate.computeHz Rate.pass
        simp only [g1, g2, hrec, if_true, Bool.false_eq_true, if_false]
        exact ⟨rfl, rfl, hlo, hhi, hw.error0, hw.error1⟩
      | false =>
        simp only [Bool.false_eq_true, if_false]
        have hmix2 : (Arith.add (mul r.config.errorAlpha (fabs (sub r.hz x))) (mul (sub one r.config.errorAlpha) r.error) : Rat) =
            r.config.errorAlpha * fabs (sub r.hz x) + (1 - r.config.errorAlpha) * r.error := rfl
        obtain ⟨n1, n2⟩ := rat_mix e0 e1 f1 f2 hw.error0 hw.error1
        refine ⟨rfl, rfl, ?_, ?_, ?_, ?_⟩
        · rw [hmix]; exact m1
        · rw [hmix]; exact m2
        · rw [hmix2]; exact n1
        · rw [hmix2]; exact n2

theorem within_fold {lo hi : Rat} {src : Source} : ∀ (ts : List Time) (r : Rate Rat) (t : Time), 0 ≤ r.config.rateAlpha →
    r.config.rateAlpha ≤ 1 → 0 ≤ r.config.errorAlpha → r.config.errorAlpha ≤ 1 →
    ((r.doHzInit = true ∧ r.prev = t ∧ r.error = 0) ∨ Within lo hi r t) →
    t.source = src → (∀ x ∈ ts, x.source = src) → RatesWithin lo hi (t :: ts) → ts ≠ [] →
    Within lo hi (ts.foldl Rate.update r) ((t :: ts).getLast (by simp)) := by
  intro ts
  induction ts with
  | nil => intro r t _ _ _ _ _ _ _ _ h; exact absurd rfl h
  | cons x ts ih =>
    intro r t h0 h1 e0 e1 hr hs hx hper _
    have hx1 := hx x (by simp)
    have hw := within_next h0 h1 e0 e1 (by rw [hs, hx1]) hr hper.1 hper.2.1 hper.2.2.1
    cases ts with
    | nil => exact hw
    | cons y ts =>
      refine ih (r.update x) x ?_ ?_ ?_ ?_ (Or.inr hw) hx1 (fun z hz => hx z (by simp [hz])) hper.2.2.2 (by simp) <;>
        rw [update_config] <;> assumption

end MF.Latest
