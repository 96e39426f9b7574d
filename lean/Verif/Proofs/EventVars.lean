import Verif.Spec.EventVars
import Verif.Proofs.Basic
/-
Lemmas about programs over event variables.
-/
namespace MF.EventVars

open MF.Event

variable {α : Type}

theorem setEv_same (ev : Nat → Event) (k : Nat) (e : Event) : setEv ev k e k = e := by simp [setEv]

theorem setEv_ne (ev : Nat → Event) {k x : Nat} (e : Event) (h : x ≠ k) : setEv ev k e x = ev x := by simp [setEv, h]

/-- `getMessage` on variable `j`. -/
def touch (s : State α) (j : Nat) : Except Fault (State α × Option Nat) :=
  match getMut s.heap (s.ev j) with
  | .error f => .error f
  | .ok (h, e, p) => .ok ({ s with heap := h, ev := setEv s.ev j e }, p)

/-- The variable `k` gets the value `e`. -/
def put (s : State α) (k : Nat) (e : Event) : State α := { s with ev := setEv s.ev k e }

theorem getMut_fields {h h' : Heap α} {e e' : Event} {p : Option Nat} (hg : getMut h e = .ok (h', e', p)) :
    e'.msg = e.msg ∧ e'.receipt = e.receipt ∧ e'.needCopy = e.needCopy ∧ e'.factory = e.factory ∧ h.length ≤ h'.length ∧
    (∀ a, a < h.length → h'[a]? = h[a]?) := by
  unfold getMut at hg
  cases h1 : e.needCopy with
  | false =>
    simp only [h1, Bool.not_false, ↓reduceIte, Except.ok.injEq, Prod.mk.injEq] at hg
    obtain ⟨rfl, rfl, _⟩ := hg
    exact ⟨rfl, rfl, h1, rfl, Nat.le_refl _, fun _ _ => rfl⟩
  | true =>
    simp only [h1, Bool.not_true, Bool.false_eq_true, ↓reduceIte] at hg
    cases h2 : e.copy with
    | some c =>
      simp only [h2, Except.ok.injEq, Prod.mk.injEq] at hg
      obtain ⟨rfl, rfl, _⟩ := hg
      exact ⟨rfl, rfl, h1, rfl, Nat.le_refl _, fun _ _ => rfl⟩
    | none =>
      simp only [h2] at hg
      cases h3 : e.factory with
      | false => simp [h3] at hg
      | true =>
        simp only [h3, Bool.not_true, Bool.false_eq_true, ↓reduceIte] at hg
        cases h4 : e.msg with
        | none => simp [h4] at hg
        | some a =>
          simp only [h4] at hg
          cases h5 : h[a]? with
          | none => simp [h5] at hg
          | some v =>
            simp only [h5, Except.ok.injEq, Prod.mk.injEq] at hg
            obtain ⟨rfl, rfl, _⟩ := hg
            exact ⟨rfl, rfl, rfl, rfl, by simp, fun x hx => List.getElem?_append_left hx⟩

theorem getMut_cases {h h' : Heap α} {e e' : Event} {p : Option Nat} (hg : getMut h e = .ok (h', e', p))
    (hn : e.needCopy = true) :
    (∃ c, e.copy = some c ∧ h' = h ∧ e' = e ∧ p = some c) ∨
    (∃ a v, e.copy = none ∧ e.msg = some a ∧ h[a]? = some v ∧ h' = h ++ [v] ∧ e' = { e with copy := some h.length } ∧
      p = some h.length) := by
  unfold getMut at hg
  simp only [hn, Bool.not_true, Bool.false_eq_true, ↓reduceIte] at hg
  cases h2 : e.copy with
  | some c =>
    simp only [h2, Except.ok.injEq, Prod.mk.injEq] at hg
    obtain ⟨rfl, rfl, rfl⟩ := hg
    exact Or.inl ⟨c, rfl, rfl, rfl, rfl⟩
  | none =>
    simp only [h2] at hg
    cases h3 : e.factory with
    | false => simp [h3] at hg
    | true =>
      simp only [h3, Bool.not_true, Bool.false_eq_true, ↓reduceIte] at hg
      cases h4 : e.msg with
      | none => simp [h4] at hg
      | some a =>
        simp only [h4] at hg
        cases h5 : h[a]? with
        | none => simp [h5] at hg
        | some v =>
          simp only [h5, Except.ok.injEq, Prod.mk.injEq] at hg
          obtain ⟨rfl, rfl, rfl⟩ := hg
          exact Or.inr ⟨a, v, rfl, rfl, h5, rfl, by rw [hn], rfl⟩

/-- Every statement is made of touching, putting an event without private copy, recording a pointer, and writing. -/
inductive Shape (isMut : Nat → Bool) (s : State α) : Op α → State α → Prop where
  | put (op : Op α) (k : Nat) (e : Event) (ht : target op = some k) (hc : e.copy = none)
      (hn : (∀ k m r f, op ≠ .parts k m r false f) → (∀ k j, op ≠ .withFlag k j false) →
        (∀ x, (s.ev x).needCopy = true) → e.needCopy = true) : Shape isMut s op (put s k e)
  | touchPut (op : Op α) (k j : Nat) (s1 : State α) (p : Option Nat) (e : Event) (ht : target op = some k)
      (hop : op = .assign k j ∨ ∃ c, op = .withFlag k j c)
      (h1 : touch s j = .ok (s1, p)) (hm : e.msg = p) (hc : e.copy = none)
      (hn : (∀ k m r f, op ≠ .parts k m r false f) → (∀ k j, op ≠ .withFlag k j false) →
        (∀ x, (s.ev x).needCopy = true) → e.needCopy = true) : Shape isMut s op (put s1 k e)
  | get (k : Nat) (s1 : State α) (p : Option Nat) (hm : isMut k = true) (h1 : touch s k = .ok (s1, p)) :
      Shape isMut s (.get k) { s1 with got := s1.got ++ [(k, p)] }
  | skip (op : Op α) (ht : target op = none) : Shape isMut s op s
  | write (i : Nat) (f : α → α) (k a : Nat) (hg : s.got[i]? = some (k, some a)) :
      Shape isMut s (.write i f) { s with heap := s.heap.modify a f }

theorem step_shape {isMut : Nat → Bool} {s s' : State α} {op : Op α} (h : step isMut s op = .ok s') :
    Shape isMut s op s' := by
  cases op with
  | default k =>
    cases Except.ok.inj h
    exact .put _ k _ rfl rfl (fun _ _ _ => rfl)
  | message k m r =>
    cases Except.ok.inj h
    exact .put _ k _ rfl rfl (fun _ _ _ => rfl)
  | parts k m r c f =>
    cases Except.ok.inj h
    refine .put _ k _ rfl rfl (fun h1 _ _ => ?_)
    cases c with
    | true => rfl
    | false => exact absurd rfl (h1 k m r f)
  | assign k j =>
    simp only [step, assign] at h
    cases hj : isMut j with
    | false =>
      simp only [hj, Bool.false_eq_true, ↓reduceIte, Except.ok.injEq] at h
      subst h
      exact .put _ k _ rfl rfl (fun _ _ hx => hx j)
    | true =>
      simp only [hj, ↓reduceIte, ofMut] at h
      cases hg : getMut s.heap (s.ev j) with
      | error f => simp [hg] at h
      | ok r =>
        obtain ⟨h', e', p⟩ := r
        simp only [hg, Except.ok.injEq] at h
        subst h
        refine .touchPut _ k j { s with heap := h', ev := setEv s.ev j e' } p { e' with msg := p, copy := none } rfl (Or.inl rfl) ?_ rfl rfl
          (fun _ _ hx => ?_)
        · unfold touch; rw [hg]
        · show e'.needCopy = true
          rw [(getMut_fields hg).2.2.1]; exact hx j
  | withFlag k j c =>
    simp only [step, withFlag] at h
    by_cases hkj : k = j
    · simp [hkj] at h
    simp only [hkj, ↓reduceIte] at h
    have hc : (∀ k' j', (Op.withFlag k j c : Op α) ≠ .withFlag k' j' false) → c = true := by
      intro hx
      cases c with
      | true => rfl
      | false => exact absurd rfl (hx k j)
    cases hj : isMut j with
    | false =>
      simp only [hj, Bool.false_eq_true, ↓reduceIte, Except.ok.injEq] at h
      subst h
      exact .put _ k (ofConstFlag (s.ev j) c) rfl rfl (fun _ h2 _ => hc h2)
    | true =>
      simp only [hj, ↓reduceIte, assign, ofMut] at h
      cases hg : getMut s.heap (s.ev j) with
      | error f => simp [hg] at h
      | ok r =>
        obtain ⟨h', e', p⟩ := r
        simp only [hg, Except.ok.injEq] at h
        subst h
        have e1 : (State.mk h' (setEv (setEv (setEv s.ev j e') k { e' with msg := p, copy := none }) k
            ({ (setEv (setEv s.ev j e') k { e' with msg := p, copy := none } k) with needCopy := c })) s.got : State α) =
            put { s with heap := h', ev := setEv s.ev j e' } k { e' with msg := p, copy := none, needCopy := c } := by
          unfold put
          congr 1
          funext x
          by_cases hx : x = k <;> simp [setEv, hx]
        rw [e1]
        refine .touchPut _ k j { s with heap := h', ev := setEv s.ev j e' } p _ rfl (Or.inr ⟨c, rfl⟩) ?_ rfl rfl (fun _ h2 _ => hc h2)
        unfold touch; rw [hg]
  | get k =>
    simp only [step] at h
    cases hk : isMut k with
    | false =>
      simp only [hk, Bool.false_eq_true, ↓reduceIte, Except.ok.injEq] at h
      subst h
      exact .skip _ rfl
    | true =>
      simp only [hk, ↓reduceIte] at h
      cases hg : getMut s.heap (s.ev k) with
      | error f => simp [hg] at h
      | ok r =>
        obtain ⟨h', e', p⟩ := r
        simp only [hg, Except.ok.injEq] at h
        subst h
        exact .get k { s with heap := h', ev := setEv s.ev k e' } p hk (by unfold touch; rw [hg])
  | write i f =>
    simp only [step] at h
    cases hg : s.got[i]? with
    | none =>
      simp only [hg, Except.ok.injEq] at h
      subst h
      exact .skip _ rfl
    | some x =>
      obtain ⟨k, p⟩ := x
      cases p with
      | none => simp [hg] at h
      | some a =>
        simp only [hg, Except.ok.injEq] at h
        subst h
        exact .write i f k a hg

/-- What holds in careful programs. -/
structure Inv (h0 : Heap α) (s : State α) : Prop where
  same : ∀ a, a < h0.length → s.heap[a]? = h0[a]?
  len : h0.length ≤ s.heap.length
  need : ∀ k, (s.ev k).needCopy = true
  copies : ∀ k c, (s.ev k).copy = some c → h0.length ≤ c ∧ c < s.heap.length
  dist : ∀ k j c, (s.ev k).copy = some c → (s.ev j).copy = some c → k = j
  got : ∀ k p, (k, p) ∈ s.got → ∃ a, p = some a ∧ h0.length ≤ a ∧ a < s.heap.length
  own : ∀ k j c, (k, some c) ∈ s.got → (s.ev j).copy = some c → k = j

theorem inv_init (h : Heap α) : Inv h (init h) :=
  ⟨fun _ _ => rfl, Nat.le_refl _, fun _ => rfl, fun _ _ h => (Option.some_ne_none _ h.symm).elim,
    fun _ _ _ h => (Option.some_ne_none _ h.symm).elim, fun _ _ h => (List.not_mem_nil h).elim, fun _ _ _ h => (List.not_mem_nil h).elim⟩

theorem inv_put {h0 : Heap α} {s : State α} (h : Inv h0 s) (k : Nat) {e : Event} (hc : e.copy = none) (hn : e.needCopy = true) :
    Inv h0 (put s k e) := by
  have hcopy : ∀ x c, ((put s k e).ev x).copy = some c → (s.ev x).copy = some c := by
    intro x c hx
    by_cases hk : x = k
    · rw [hk] at hx
      rw [show (put s k e).ev k = e from setEv_same _ _ _, hc] at hx
      cases hx
    · rwa [show (put s k e).ev x = s.ev x from setEv_ne _ _ hk] at hx
  refine ⟨h.same, h.len, fun x => ?_, fun x c hx => h.copies x c (hcopy x c hx),
    fun x y c hx hy => h.dist x y c (hcopy x c hx) (hcopy y c hy), h.got, fun x y c hx hy => h.own x y c hx (hcopy y c hy)⟩
  by_cases hk : x = k
  · rw [hk, show (put s k e).ev k = e from setEv_same _ _ _]; exact hn
  · rw [show (put s k e).ev x = s.ev x from setEv_ne _ _ hk]; exact h.need x

/-- The outcome of touching in a careful program. -/
theorem touch_cases {s s1 : State α} {j : Nat} {p : Option Nat} (hn : (s.ev j).needCopy = true) (h : touch s j = .ok (s1, p)) :
    (∃ c, (s.ev j).copy = some c ∧ p = some c ∧ s1 = s) ∨
    (∃ a v, (s.ev j).copy = none ∧ (s.ev j).msg = some a ∧ s.heap[a]? = some v ∧ p = some s.heap.length ∧
      s1 = { s with heap := s.heap ++ [v], ev := setEv s.ev j { s.ev j with copy := some s.heap.length } }) := by
  unfold touch at h
  cases hg : getMut s.heap (s.ev j) with
  | error f => rw [hg] at h; cases h
  | ok r =>
    obtain ⟨h', e', q⟩ := r
    simp only [hg, Except.ok.injEq, Prod.mk.injEq] at h
    obtain ⟨rfl, rfl⟩ := h
    rcases getMut_cases hg hn with ⟨c, h1, rfl, rfl, rfl⟩ | ⟨a, v, h1, h2, h3, rfl, rfl, rfl⟩
    · refine Or.inl ⟨c, h1, rfl, ?_⟩
      have : setEv s.ev j (s.ev j) = s.ev := by
        funext x
        by_cases hx : x = j <;> simp [setEv, hx]
      rw [this]
    · exact Or.inr ⟨a, v, h1, h2, h3, rfl, rfl⟩

theorem inv_touch {h0 : Heap α} {s s1 : State α} {j : Nat} {p : Option Nat} (h : Inv h0 s) (ht : touch s j = .ok (s1, p)) :
    Inv h0 s1 ∧ (s1.ev j).copy = p ∧ p ≠ none ∧ s1.got = s.got ∧ s.heap.length ≤ s1.heap.length ∧ (∀ x, x ≠ j → s1.ev x = s.ev x) := by
  rcases touch_cases (h.need j) ht with ⟨c, h1, rfl, rfl⟩ | ⟨a, v, h1, h2, h3, rfl, rfl⟩
  · exact ⟨h, h1, Option.some_ne_none c, rfl, Nat.le_refl _, fun _ _ => rfl⟩
  · have hsame : ∀ x, x ≠ j → setEv s.ev j { s.ev j with copy := some s.heap.length } x = s.ev x := fun x hx => setEv_ne _ _ hx
    have hj : setEv s.ev j { s.ev j with copy := some s.heap.length } j = { s.ev j with copy := some s.heap.length } := setEv_same _ _ _
    refine ⟨⟨?_, ?_, ?_, ?_, ?_, ?_, ?_⟩, ?_, by simp, rfl, by simp, hsame⟩
    · intro x hx
      show (s.heap ++ [v])[x]? = _
      rw [List.getElem?_append_left (Nat.lt_of_lt_of_le hx h.len)]
      exact h.same x hx
    · show _ ≤ (s.heap ++ [v]).length
      have := h.len
      simp; omega
    · intro k
      show (setEv s.ev j _ k).needCopy = true
      by_cases hk : k = j
      · rw [hk, hj]; exact h.need j
      · rw [hsame k hk]; exact h.need k
    · intro k c hc
      show _ ∧ c < (s.heap ++ [v]).length
      have hc : (setEv s.ev j { s.ev j with copy := some s.heap.length } k).copy = some c := hc
      by_cases hk : k = j
      · rw [hk, hj] at hc
        cases hc
        exact ⟨h.len, by simp⟩
      · rw [hsame k hk] at hc
        have := h.copies k c hc
        refine ⟨this.1, ?_⟩
        simp; omega
    · intro k k' c hc hc'
      have hc : (setEv s.ev j { s.ev j with copy := some s.heap.length } k).copy = some c := hc
      have hc' : (setEv s.ev j { s.ev j with copy := some s.heap.length } k').copy = some c := hc'
      by_cases hk : k = j
      · by_cases hk' : k' = j
        · rw [hk, hk']
        · rw [hk, hj] at hc
          rw [hsame k' hk'] at hc'
          cases hc
          have := (h.copies k' _ hc').2
          omega
      · rw [hsame k hk] at hc
        by_cases hk' : k' = j
        · rw [hk', hj] at hc'
          cases hc'
          have := (h.copies k _ hc).2
          omega
        · rw [hsame k' hk'] at hc'
          exact h.dist k k' c hc hc'
    · intro k q hq
      obtain ⟨x, h4, h5, h6⟩ := h.got k q hq
      refine ⟨x, h4, h5, ?_⟩
      show x < (s.heap ++ [v]).length
      simp; omega
    · intro k k' c hc hc'
      have hc' : (setEv s.ev j { s.ev j with copy := some s.heap.length } k').copy = some c := hc'
      by_cases hk' : k' = j
      · rw [hk', hj] at hc'
        cases hc'
        obtain ⟨x, h4, _, h6⟩ := h.got k _ hc
        cases h4
        omega
      · rw [hsame k' hk'] at hc'
        exact h.own k k' c hc hc'
    · show (setEv s.ev j { s.ev j with copy := some s.heap.length } j).copy = _
      rw [hj]

theorem inv_record {h0 : Heap α} {s : State α} (h : Inv h0 s) (k : Nat) (c : Nat) (hc : (s.ev k).copy = some c) :
    Inv h0 { s with got := s.got ++ [(k, some c)] } := by
  refine ⟨h.same, h.len, h.need, h.copies, h.dist, ?_, ?_⟩
  · intro k' p hp
    rcases List.mem_append.mp hp with hp | hp
    · exact h.got k' p hp
    · simp only [List.mem_singleton, Prod.mk.injEq] at hp
      obtain ⟨_, rfl⟩ := hp
      exact ⟨c, rfl, h.copies k c hc⟩
  · intro k' j d hd hj
    rcases List.mem_append.mp hd with hd | hd
    · exact h.own k' j d hd hj
    · simp only [List.mem_singleton, Prod.mk.injEq, Option.some.injEq] at hd
      obtain ⟨rfl, rfl⟩ := hd
      exact h.dist _ _ d hc hj

theorem inv_step {isMut : Nat → Bool} {h0 : Heap α} {s s' : State α} {op : Op α} (h : Inv h0 s)
    (h1 : ∀ k m r f, op ≠ .parts k m r false f) (h2 : ∀ k j, op ≠ .withFlag k j false) (hs : Shape isMut s op s') : Inv h0 s' := by
  cases hs with
  | put _ k e ht hc hn => exact inv_put h k hc (hn h1 h2 h.need)
  | touchPut _ k j s1 p e ht hop ht1 hm hc hn => exact inv_put (inv_touch h ht1).1 k hc (hn h1 h2 h.need)
  | get k s1 p hm ht =>
    obtain ⟨h3, h4, h5, _⟩ := inv_touch h ht
    obtain ⟨c, rfl⟩ := Option.ne_none_iff_exists'.mp h5
    exact inv_record h3 k c h4
  | skip _ ht => exact h
  | write i f k a hg =>
    obtain ⟨b, h4, h5, _⟩ := h.got k _ (List.mem_of_getElem? hg)
    cases h4
    refine ⟨?_, ?_, h.need, ?_, h.dist, ?_, h.own⟩
    · intro x hx
      show (s.heap.modify a f)[x]? = _
      rw [List.getElem?_modify, h.same x hx]
      have : a ≠ x := by omega
      simp [this]
    · show _ ≤ (s.heap.modify a f).length
      rw [List.length_modify]; exact h.len
    · intro x c hx
      show _ ∧ c < (s.heap.modify a f).length
      rw [List.length_modify]; exact h.copies x c hx
    · intro x p hp
      show ∃ y, _ ∧ _ ∧ y < (s.heap.modify a f).length
      rw [List.length_modify]; exact h.got x p hp

theorem careful_snoc {ops : List (Op α)} {op : Op α} (h : Careful (ops ++ [op])) :
    Careful ops ∧ (∀ k m r f, op ≠ .parts k m r false f) ∧ (∀ k j, op ≠ .withFlag k j false) :=
  ⟨fun o ho => h o (by simp [ho]), h op (by simp)⟩

theorem inv_run {isMut : Nat → Bool} {h0 : Heap α} : ∀ (ops : List (Op α)) {s s' : State α}, Inv h0 s → Careful ops →
    runE (step isMut) s ops = .ok s' → Inv h0 s' := by
  intro ops
  induction ops with
  | nil =>
    intro s s' h _ hr
    cases Except.ok.inj hr
    exact h
  | cons op ops ih =>
    intro s s' h hc hr
    simp only [runE] at hr
    cases h1 : step isMut s op with
    | error f => rw [h1] at hr; cases hr
    | ok s1 =>
      rw [h1] at hr
      exact ih (inv_step h (hc op (by simp)).1 (hc op (by simp)).2 (step_shape h1)) (fun o ho => hc o (by simp [ho])) hr

/-- The private copy of a variable stays while nothing is assigned to the variable. -/
theorem stays_step {isMut : Nat → Bool} {h0 : Heap α} {s s' : State α} {op : Op α} {k c : Nat} (h : Inv h0 s)
    (ht : target op ≠ some k) (hc : (s.ev k).copy = some c) (hs : Shape isMut s op s') : (s'.ev k).copy = some c := by
  have htouch : ∀ {j s1 p}, touch s j = .ok (s1, p) → (s1.ev k).copy = some c := by
    intro j s1 p h1
    by_cases hj : j = k
    · subst hj
      rcases touch_cases (h.need j) h1 with ⟨c', h2, _, rfl⟩ | ⟨a, v, h2, _⟩
      · exact hc
      · rw [hc] at h2; cases h2
    · rw [(inv_touch h h1).2.2.2.2.2 k (Ne.symm hj)]; exact hc
  cases hs with
  | put _ k' e ht' hc' hn =>
    have : k ≠ k' := by intro e; rw [e] at ht; exact ht ht'
    rw [show (put s k' e).ev k = s.ev k from setEv_ne _ _ this]; exact hc
  | touchPut _ k' j s1 p e ht' hop h1 hm hc' hn =>
    have : k ≠ k' := by intro e; rw [e] at ht; exact ht ht'
    rw [show (put s1 k' e).ev k = s1.ev k from setEv_ne _ _ this]; exact htouch h1
  | get k' s1 p hm h1 =>
    show (s1.ev k).copy = some c
    exact htouch h1
  | skip _ ht => exact hc
  | write i f k a hg => exact hc

theorem stays_run {isMut : Nat → Bool} {h0 : Heap α} {k c : Nat} : ∀ (ops : List (Op α)) {s s' : State α}, Inv h0 s → Careful ops →
    (∀ op ∈ ops, target op ≠ some k) → (s.ev k).copy = some c → runE (step isMut) s ops = .ok s' → (s'.ev k).copy = some c := by
  intro ops
  induction ops with
  | nil =>
    intro s s' h _ _ hk hr
    cases Except.ok.inj hr
    exact hk
  | cons op ops ih =>
    intro s s' h hc ht hk hr
    simp only [runE] at hr
    cases h1 : step isMut s op with
    | error f => rw [h1] at hr; cases hr
    | ok s1 =>
      rw [h1] at hr
      exact ih (inv_step h (hc op (by simp)).1 (hc op (by simp)).2 (step_shape h1)) (fun o ho => hc o (by simp [ho]))
        (fun o ho => ht o (by simp [ho])) (stays_step h (ht op (by simp)) hk (step_shape h1)) hr

/-- The private copy of `k`, if there is one, was created when there were at least `L` objects. -/
def Young (L k : Nat) (s : State α) : Prop := L ≤ s.heap.length ∧ ∀ c, (s.ev k).copy = some c → L ≤ c

theorem young_step {isMut : Nat → Bool} {h0 : Heap α} {s s' : State α} {op : Op α} {k L : Nat} (h : Inv h0 s)
    (hy : Young L k s) (hs : Shape isMut s op s') : Young L k s' := by
  have htouch : ∀ {j s1 p}, touch s j = .ok (s1, p) → Young L k s1 := by
    intro j s1 p h1
    refine ⟨Nat.le_trans hy.1 (inv_touch h h1).2.2.2.2.1, ?_⟩
    by_cases hj : j = k
    · subst hj
      rcases touch_cases (h.need j) h1 with ⟨c', h2, _, rfl⟩ | ⟨a, v, h2, _, _, _, rfl⟩
      · exact hy.2
      · intro c hc
        rw [show ({ s with heap := s.heap ++ [v], ev := setEv s.ev j { s.ev j with copy := some s.heap.length } } : State α).ev j =
          { s.ev j with copy := some s.heap.length } from setEv_same _ _ _] at hc
        cases hc
        exact hy.1
    · rw [(inv_touch h h1).2.2.2.2.2 k (Ne.symm hj)]; exact hy.2
  have hput : ∀ {s1 : State α} (k' : Nat) {e : Event}, e.copy = none → Young L k s1 → Young L k (put s1 k' e) := by
    intro s1 k' e he hy1
    refine ⟨hy1.1, fun c hc => ?_⟩
    by_cases hk : k = k'
    · rw [hk, show (put s1 k' e).ev k' = e from setEv_same _ _ _, he] at hc
      cases hc
    · rw [show (put s1 k' e).ev k = s1.ev k from setEv_ne _ _ hk] at hc
      exact hy1.2 c hc
  cases hs with
  | put _ k' e ht' hc' hn => exact hput k' hc' hy
  | touchPut _ k' j s1 p e ht' hop h1 hm hc' hn => exact hput k' hc' (htouch h1)
  | get k' s1 p hm h1 => exact ⟨(htouch h1).1, (htouch h1).2⟩
  | skip _ ht => exact hy
  | write i f k' a hg =>
    refine ⟨?_, hy.2⟩
    show L ≤ (s.heap.modify a f).length
    rw [List.length_modify]; exact hy.1

theorem young_run {isMut : Nat → Bool} {h0 : Heap α} {k L : Nat} : ∀ (ops : List (Op α)) {s s' : State α}, Inv h0 s → Careful ops →
    Young L k s → runE (step isMut) s ops = .ok s' → Young L k s' := by
  intro ops
  induction ops with
  | nil =>
    intro s s' h _ hk hr
    cases Except.ok.inj hr
    exact hk
  | cons op ops ih =>
    intro s s' h hc hk hr
    simp only [runE] at hr
    cases h1 : step isMut s op with
    | error f => rw [h1] at hr; cases hr
    | ok s1 =>
      rw [h1] at hr
      exact ih (inv_step h (hc op (by simp)).1 (hc op (by simp)).2 (step_shape h1)) (fun o ho => hc o (by simp [ho]))
        (young_step h hk (step_shape h1)) hr

/-- After a statement that writes `k` there is no private copy in `k`. -/
theorem written {isMut : Nat → Bool} {s s' : State α} {op : Op α} {k : Nat} (ht : target op = some k) (hs : Shape isMut s op s') :
    (s'.ev k).copy = none := by
  cases hs with
  | put _ k' e ht' hc' hn =>
    rw [ht] at ht'; cases ht'
    rw [show (put s k e).ev k = e from setEv_same _ _ _]; exact hc'
  | touchPut _ k' j s1 p e ht' hop h1 hm hc' hn =>
    rw [ht] at ht'; cases ht'
    rw [show (put s1 k e).ev k = e from setEv_same _ _ _]; exact hc'
  | get k' s1 p hm h1 => cases ht
  | skip _ ht' => rw [ht] at ht'; cases ht'
  | write i f k' a hg => cases ht

theorem unused_step {isMut : Nat → Bool} {h0 : Heap α} {s s' : State α} {op : Op α} {k : Nat} (h : Inv h0 s)
    (hu : ¬ Uses k op) (hc : (s.ev k).copy = none) (hs : Shape isMut s op s') : (s'.ev k).copy = none := by
  cases hs with
  | put _ k' e ht' hc' hn =>
    by_cases hk : k = k'
    · rw [hk, show (put s k' e).ev k' = e from setEv_same _ _ _]; exact hc'
    · rw [show (put s k' e).ev k = s.ev k from setEv_ne _ _ hk]; exact hc
  | touchPut _ k' j s1 p e ht' hop h1 hm hc' hn =>
    by_cases hk : k = k'
    · rw [hk, show (put s1 k' e).ev k' = e from setEv_same _ _ _]; exact hc'
    · rw [show (put s1 k' e).ev k = s1.ev k from setEv_ne _ _ hk]
      have hj : k ≠ j := by
        rintro rfl
        rcases hop with rfl | ⟨c, rfl⟩
        · exact hu (Or.inr (Or.inl ⟨_, rfl⟩))
        · exact hu (Or.inr (Or.inr ⟨_, _, rfl⟩))
      rw [(inv_touch h h1).2.2.2.2.2 k hj]; exact hc
  | get k' s1 p hm h1 =>
    have hj : k ≠ k' := by rintro rfl; exact hu (Or.inl rfl)
    show (s1.ev k).copy = none
    rw [(inv_touch h h1).2.2.2.2.2 k hj]; exact hc
  | skip _ ht => exact hc
  | write i f k a hg => exact hc

theorem unused_run {isMut : Nat → Bool} {h0 : Heap α} {k : Nat} : ∀ (ops : List (Op α)) {s s' : State α}, Inv h0 s → Careful ops →
    (∀ op ∈ ops, ¬ Uses k op) → (s.ev k).copy = none → runE (step isMut) s ops = .ok s' → (s'.ev k).copy = none := by
  intro ops
  induction ops with
  | nil =>
    intro s s' h _ _ hk hr
    cases Except.ok.inj hr
    exact hk
  | cons op ops ih =>
    intro s s' h hc ht hk hr
    simp only [runE] at hr
    cases h1 : step isMut s op with
    | error f => rw [h1] at hr; cases hr
    | ok s1 =>
      rw [h1] at hr
      exact ih (inv_step h (hc op (by simp)).1 (hc op (by simp)).2 (step_shape h1)) (fun o ho => hc o (by simp [ho]))
        (fun o ho => ht o (by simp [ho])) (unused_step h (ht op (by simp)) hk (step_shape h1)) hr

/-- `getMessage` on a non-const variable, in a careful program. -/
theorem get_step {isMut : Nat → Bool} {h0 : Heap α} {s s' : State α} {k : Nat} (h : Inv h0 s) (hk : isMut k = true)
    (hs : step isMut s (.get k) = .ok s') :
    ∃ c, s'.got = s.got ++ [(k, some c)] ∧ (s'.ev k).copy = some c ∧ (s'.ev k).msg = (s.ev k).msg ∧
      ((s.ev k).copy = some c ∧ s'.heap = s.heap ∨
       (s.ev k).copy = none ∧ c = s.heap.length ∧ s'.heap[c]? = (s.ev k).msg.bind (fun a => s.heap[a]?)) := by
  simp only [step, hk, ↓reduceIte] at hs
  cases hg : getMut s.heap (s.ev k) with
  | error f => simp [hg] at hs
  | ok r =>
    obtain ⟨h', e', p⟩ := r
    simp only [hg, Except.ok.injEq] at hs
    subst hs
    rcases getMut_cases hg (h.need k) with ⟨c, h1, rfl, rfl, rfl⟩ | ⟨a, v, h1, h2, h3, rfl, rfl, rfl⟩
    · refine ⟨c, rfl, ?_, ?_, Or.inl ⟨h1, rfl⟩⟩ <;> dsimp only <;> rw [setEv_same]
      exact h1
    · refine ⟨_, rfl, ?_, ?_, Or.inr ⟨h1, rfl, ?_⟩⟩ <;> dsimp only
      · rw [setEv_same]
      · rw [setEv_same]
      · rw [h2]; simp [h3]

theorem len_step {isMut : Nat → Bool} {h0 : Heap α} {s s' : State α} {op : Op α} (h : Inv h0 s) (hs : Shape isMut s op s') :
    s.heap.length ≤ s'.heap.length := by
  cases hs with
  | put _ k' e ht' hc' hn => exact Nat.le_refl _
  | touchPut _ k' j s1 p e ht' hop h1 hm hc' hn => exact (inv_touch h h1).2.2.2.2.1
  | get k' s1 p hm h1 => exact (inv_touch h h1).2.2.2.2.1
  | skip _ ht => exact Nat.le_refl _
  | write i f k a hg =>
    show _ ≤ (s.heap.modify a f).length
    rw [List.length_modify]; exact Nat.le_refl _

/-- What an event refers to stays while nothing is assigned to it. -/
theorem refers_step {isMut : Nat → Bool} {s s' : State α} {op : Op α} {k : Nat} (ht : target op ≠ some k)
    (hs : Shape isMut s op s') : (s'.ev k).msg = (s.ev k).msg ∧ (s'.ev k).receipt = (s.ev k).receipt ∧
      (s'.ev k).needCopy = (s.ev k).needCopy := by
  have htouch : ∀ {j s1 p}, touch s j = .ok (s1, p) → (s1.ev k).msg = (s.ev k).msg ∧ (s1.ev k).receipt = (s.ev k).receipt ∧
      (s1.ev k).needCopy = (s.ev k).needCopy := by
    intro j s1 p h1
    unfold touch at h1
    cases hg : getMut s.heap (s.ev j) with
    | error f => rw [hg] at h1; cases h1
    | ok r =>
      obtain ⟨h', e', q⟩ := r
      simp only [hg, Except.ok.injEq, Prod.mk.injEq] at h1
      obtain ⟨rfl, rfl⟩ := h1
      dsimp only
      by_cases hj : k = j
      · subst hj
        rw [setEv_same]
        have := getMut_fields hg
        exact ⟨this.1, this.2.1, this.2.2.1⟩
      · rw [setEv_ne _ _ hj]; exact ⟨rfl, rfl, rfl⟩
  cases hs with
  | put _ k' e ht' hc' hn =>
    have : k ≠ k' := by intro e; rw [e] at ht; exact ht ht'
    rw [show (put s k' e).ev k = s.ev k from setEv_ne _ _ this]; exact ⟨rfl, rfl, rfl⟩
  | touchPut _ k' j s1 p e ht' hop h1 hm hc' hn =>
    have : k ≠ k' := by intro e; rw [e] at ht; exact ht ht'
    rw [show (put s1 k' e).ev k = s1.ev k from setEv_ne _ _ this]; exact htouch h1
  | get k' s1 p hm h1 =>
    show (s1.ev k).msg = _ ∧ (s1.ev k).receipt = _ ∧ (s1.ev k).needCopy = _
    exact htouch h1
  | skip _ ht => exact ⟨rfl, rfl, rfl⟩
  | write i f k a hg => exact ⟨rfl, rfl, rfl⟩

theorem refers_run {isMut : Nat → Bool} {k : Nat} : ∀ (ops : List (Op α)) {s s' : State α}, (∀ op ∈ ops, target op ≠ some k) →
    runE (step isMut) s ops = .ok s' → (s'.ev k).msg = (s.ev k).msg ∧ (s'.ev k).receipt = (s.ev k).receipt ∧
      (s'.ev k).needCopy = (s.ev k).needCopy := by
  intro ops
  induction ops with
  | nil =>
    intro s s' _ hr
    cases Except.ok.inj hr
    exact ⟨rfl, rfl, rfl⟩
  | cons op ops ih =>
    intro s s' ht hr
    simp only [runE] at hr
    cases h1 : step isMut s op with
    | error f => rw [h1] at hr; cases hr
    | ok s1 =>
      rw [h1] at hr
      have h2 := refers_step (ht op (by simp)) (step_shape h1)
      have h3 := ih (fun o ho => ht o (by simp [ho])) hr
      exact ⟨h3.1.trans h2.1, h3.2.1.trans h2.2.1, h3.2.2.trans h2.2.2⟩

/-! ### Programs that use only what they have defined -/

theorem defined_snoc (ops : List (Op α)) (op : Op α) (k : Nat) :
    Defined (ops ++ [op]) k ↔ (target op = some k ∧ ∀ x, op ≠ .default x) ∨ (target op ≠ some k ∧ Defined ops k) := by
  constructor
  · rintro ⟨a, o, b, h1, h2, h3, h4⟩
    rcases List.eq_nil_or_concat b with rfl | ⟨b', o', rfl⟩
    · obtain ⟨_, h5⟩ := List.append_inj' h1 rfl
      simp only [List.cons.injEq, and_true] at h5
      subst h5
      exact Or.inl ⟨h2, h3⟩
    · rw [List.concat_eq_append] at h1 h4
      have h5 : ops ++ [op] = (a ++ o :: b') ++ [o'] := by rw [h1]; simp
      obtain ⟨h6, h7⟩ := List.append_inj' h5 rfl
      simp only [List.cons.injEq, and_true] at h7
      subst h7
      exact Or.inr ⟨h4 op (by simp), a, o, b', h6, h2, h3, fun x hx => h4 x (by simp [hx])⟩
  · rintro (⟨h1, h2⟩ | ⟨h1, a, o, b, h2, h3, h4, h5⟩)
    · exact ⟨ops, op, [], rfl, h1, h2, fun x hx => (List.not_mem_nil hx).elim⟩
    · refine ⟨a, o, b ++ [op], by rw [h2]; simp, h3, h4, ?_⟩
      intro x hx
      rcases List.mem_append.mp hx with hx | hx
      · exact h5 x hx
      · rw [List.mem_singleton.mp hx]; exact h1

theorem wellUsed_nil (size : Nat) : WellUsed size ([] : List (Op α)) := by
  intro pre op post h
  simp at h

theorem wellUsed_snoc {size : Nat} {ops : List (Op α)} {op : Op α} (h : WellUsed size ops) (ho : OpOk size ops op) :
    WellUsed size (ops ++ [op]) := by
  intro a o b hab
  rcases List.eq_nil_or_concat b with rfl | ⟨b', o', rfl⟩
  · obtain ⟨h1, h2⟩ := List.append_inj' hab rfl
    simp only [List.cons.injEq, and_true] at h2
    subst h1 h2
    exact ho
  · rw [List.concat_eq_append] at hab
    have h5 : ops ++ [op] = (a ++ o :: b') ++ [o'] := by rw [hab]; simp
    exact h a o b' (List.append_inj' h5 rfl).1

/-- What holds in programs that use only what they have defined. -/
structure WInv (size : Nat) (pre : List (Op α)) (s : State α) : Prop where
  len : size ≤ s.heap.length
  ok : ∀ k, Defined pre k → (s.ev k).factory = true ∧ ∃ a, (s.ev k).msg = some a ∧ a < s.heap.length
  copies : ∀ k c, (s.ev k).copy = some c → c < s.heap.length
  got : ∀ k p, (k, p) ∈ s.got → p ≠ none

theorem getMut_good {h : Heap α} {e : Event} {a : Nat} (hf : e.factory = true) (hm : e.msg = some a) (ha : a < h.length)
    (hc : ∀ c, e.copy = some c → c < h.length) :
    ∃ h' e' b, getMut h e = .ok (h', e', some b) ∧ e'.factory = true ∧ e'.msg = some a ∧ h.length ≤ h'.length ∧ b < h'.length ∧
      ∀ c, e'.copy = some c → c < h'.length := by
  unfold getMut
  cases h1 : e.needCopy with
  | false => exact ⟨h, e, a, by simp [hm], hf, hm, Nat.le_refl _, ha, hc⟩
  | true =>
    cases h2 : e.copy with
    | some c => exact ⟨h, e, c, by simp, hf, hm, Nat.le_refl _, hc c h2, hc⟩
    | none =>
      refine ⟨h ++ [h[a]], { e with copy := some h.length }, h.length, by simp [h1, hf, hm, ha], hf, hm, by simp, by simp, ?_⟩
      intro c hc
      cases hc
      simp

theorem winv_put {size : Nat} {pre : List (Op α)} {op : Op α} {s : State α} {k : Nat} {e : Event} (ht : target op = some k)
    (h : WInv size pre s) (hc : e.copy = none)
    (he : (∀ x, op ≠ .default x) → e.factory = true ∧ ∃ a, e.msg = some a ∧ a < s.heap.length) :
    WInv size (pre ++ [op]) (put s k e) := by
  refine ⟨h.len, fun x hx => ?_, fun x c hx => ?_, h.got⟩
  · rcases (defined_snoc _ _ _).mp hx with ⟨h1, h2⟩ | ⟨h1, h2⟩
    · rw [ht] at h1; cases h1
      rw [show (put s k e).ev k = e from setEv_same _ _ _]
      exact he h2
    · have : x ≠ k := by rintro rfl; exact h1 ht
      rw [show (put s k e).ev x = s.ev x from setEv_ne _ _ this]
      exact h.ok x h2
  · by_cases hk : x = k
    · rw [hk, show (put s k e).ev k = e from setEv_same _ _ _, hc] at hx; cases hx
    · rw [show (put s k e).ev x = s.ev x from setEv_ne _ _ hk] at hx
      exact h.copies x c hx

/-- Touching a defined variable succeeds. -/
theorem winv_touch {size : Nat} {pre : List (Op α)} {s : State α} {j : Nat} (h : WInv size pre s) (hj : Defined pre j) :
    ∃ h' e' b, getMut s.heap (s.ev j) = .ok (h', e', some b) ∧ e'.factory = true ∧ b < h'.length ∧
      WInv size pre { s with heap := h', ev := setEv s.ev j e' } := by
  obtain ⟨hf, a, hm, ha⟩ := h.ok j hj
  obtain ⟨h', e', b, h1, h2, h3, h4, h5, h6⟩ := getMut_good hf hm ha (h.copies j)
  refine ⟨h', e', b, h1, h2, h5, Nat.le_trans h.len h4, fun x hx => ?_, fun x c hx => ?_, h.got⟩
  · by_cases hk : x = j
    · subst hk
      show (setEv s.ev x e' x).factory = true ∧ ∃ a, (setEv s.ev x e' x).msg = some a ∧ a < h'.length
      rw [setEv_same]
      exact ⟨h2, a, h3, Nat.lt_of_lt_of_le ha h4⟩
    · obtain ⟨h7, y, h8, h9⟩ := h.ok x hx
      show (setEv s.ev j e' x).factory = true ∧ ∃ a, (setEv s.ev j e' x).msg = some a ∧ a < h'.length
      rw [setEv_ne _ _ hk]
      exact ⟨h7, y, h8, Nat.lt_of_lt_of_le h9 h4⟩
  · have hx : (setEv s.ev j e' x).copy = some c := hx
    show c < h'.length
    by_cases hk : x = j
    · rw [hk, setEv_same] at hx; exact h6 c hx
    · rw [setEv_ne _ _ hk] at hx
      exact Nat.lt_of_lt_of_le (h.copies x c hx) h4

theorem winv_same {size : Nat} {pre : List (Op α)} {op : Op α} {s : State α} (ht : target op = none) (h : WInv size pre s) :
    WInv size (pre ++ [op]) s := by
  refine ⟨h.len, fun x hx => ?_, h.copies, h.got⟩
  rcases (defined_snoc _ _ _).mp hx with ⟨h1, _⟩ | ⟨_, h2⟩
  · rw [ht] at h1; cases h1
  · exact h.ok x h2

theorem wellUsed_run {isMut : Nat → Bool} (h : Heap α) : ∀ (ops : List (Op α)), WellUsed h.length ops →
    ∃ s, runE (step isMut) (init h) ops = .ok s ∧ WInv h.length ops s := by
  intro ops
  induction ops using snoc_induction with
  | h0 =>
    refine fun _ => ⟨init h, rfl, Nat.le_refl _, ?_, fun _ _ h => (Option.some_ne_none _ h.symm).elim, fun _ _ h => (List.not_mem_nil h).elim⟩
    rintro k ⟨a, o, b, h1, _⟩
    simp at h1
  | hs pre op ih =>
    intro hw
    obtain ⟨s, h1, h2⟩ := ih (fun a o b hab => hw a o (b ++ [op]) (by rw [hab]; simp))
    have hop := hw pre op [] rfl
    have key : ∃ s', step isMut s op = .ok s' ∧ WInv h.length (pre ++ [op]) s' := by
      cases op with
      | default k => exact ⟨_, rfl, winv_put rfl h2 rfl (fun hx => absurd rfl (hx k))⟩
      | message k m r =>
        obtain ⟨a, hm, ha⟩ := hop
        refine ⟨_, rfl, winv_put (e := ofMessage m r) rfl h2 rfl (fun _ => ⟨rfl, a, hm, Nat.lt_of_lt_of_le ha h2.len⟩)⟩
      | parts k m r c f =>
        obtain ⟨hf, a, hm, ha⟩ := hop
        refine ⟨_, rfl, winv_put (e := ofParts m r c f) rfl h2 rfl (fun _ => ⟨hf, a, hm, Nat.lt_of_lt_of_le ha h2.len⟩)⟩
      | assign k j =>
        have hop : Defined pre j := hop
        cases hj : isMut j with
        | false =>
          refine ⟨_, by simp only [step, assign, hj, Bool.false_eq_true, ↓reduceIte]; rfl, winv_put (e := ofConst (s.ev j)) rfl h2 rfl (fun _ => h2.ok j hop)⟩
        | true =>
          obtain ⟨h', e', b, h3, h4, h5, h6⟩ := winv_touch h2 hop
          refine ⟨_, by simp only [step, assign, ofMut, hj, h3, ↓reduceIte]; rfl, ?_⟩
          exact winv_put (e := { e' with msg := some b, copy := none }) rfl h6 rfl (fun _ => ⟨h4, b, rfl, h5⟩)
      | withFlag k j c =>
        have hop : k ≠ j ∧ Defined pre j := hop
        cases hj : isMut j with
        | false =>
          refine ⟨_, by simp only [step, withFlag, hj, hop.1, Bool.false_eq_true, ↓reduceIte]; rfl,
            winv_put (e := ofConstFlag (s.ev j) c) rfl h2 rfl (fun _ => h2.ok j hop.2)⟩
        | true =>
          obtain ⟨h', e', b, h3, h4, h5, h6⟩ := winv_touch h2 hop.2
          refine ⟨_, by simp only [step, withFlag, assign, ofMut, hj, h3, hop.1, ↓reduceIte]; rfl, ?_⟩
          have := winv_put (op := .withFlag k j c) (k := k) (e := { e' with msg := some b, copy := none, needCopy := c }) rfl h6 rfl (fun _ => ⟨h4, b, rfl, h5⟩)
          have e1 : setEv (setEv (setEv s.ev j e') k { e' with msg := some b, copy := none }) k
              ({ (setEv (setEv s.ev j e') k { e' with msg := some b, copy := none } k) with needCopy := c }) =
              setEv (setEv s.ev j e') k { e' with msg := some b, copy := none, needCopy := c } := by
            funext x
            by_cases hx : x = k <;> simp [setEv, hx]
          rw [e1]
          exact this
      | get k =>
        have hop : Defined pre k := hop
        cases hk : isMut k with
        | false => exact ⟨s, by simp only [step, hk, Bool.false_eq_true, ↓reduceIte], winv_same rfl h2⟩
        | true =>
          obtain ⟨h', e', b, h3, h4, h5, h6⟩ := winv_touch h2 hop
          refine ⟨_, by simp only [step, hk, h3, ↓reduceIte]; rfl, ?_⟩
          have h7 := winv_same (op := .get k) rfl h6
          refine ⟨h7.len, h7.ok, h7.copies, ?_⟩
          intro x p hp
          rcases List.mem_append.mp hp with hp | hp
          · exact h2.got x p hp
          · simp only [List.mem_singleton, Prod.mk.injEq] at hp
            rw [hp.2]; exact Option.some_ne_none _
      | write i f =>
        cases hg : s.got[i]? with
        | none => exact ⟨s, by simp only [step, hg], winv_same rfl h2⟩
        | some x =>
          obtain ⟨k, p⟩ := x
          cases p with
          | none => exact absurd rfl (h2.got k none (List.mem_of_getElem? hg))
          | some a =>
            refine ⟨_, by simp only [step, hg]; rfl, ?_⟩
            have h7 := winv_same (op := .write i f) rfl h2
            refine ⟨?_, ?_, ?_, h7.got⟩ <;> dsimp only <;> rw [List.length_modify]
            · exact h7.len
            · exact h7.ok
            · exact h7.copies
    obtain ⟨s', h3, h4⟩ := key
    refine ⟨s', ?_, h4⟩
    rw [runE_append, h1]
    simp only [runE, h3]

end MF.EventVars
