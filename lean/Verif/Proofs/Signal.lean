import Verif.Spec.Signal
import Verif.Proofs.Basic
/-
Helper lemmas about events and signals.
-/
namespace MF.Signal

open MF.Event

/-! ### Registration -/

variable {β : Type}

theorem registrations_snoc (ops : List (Op β)) (op : Op β) :
    registrations (ops ++ [op]) = registrations ops + match op with | .register => 1 | _ => 0 := by
  unfold registrations
  rw [List.countP_append]
  cases op <;> simp

theorem connected_lt {ops : List (Op β)} {k : Nat} (h : Connected ops k) : k < registrations ops := by
  obtain ⟨pre, post, rfl, h1, _⟩ := h
  unfold registrations at *
  rw [List.countP_append, List.countP_cons]
  simp
  omega

theorem split_snoc {α : Type} {l pre post : List α} {x y : α} (h : l ++ [x] = pre ++ y :: post) :
    (post = [] ∧ x = y ∧ l = pre) ∨ ∃ post', post = post' ++ [x] ∧ l = pre ++ y :: post' := by
  rcases List.eq_nil_or_concat post with hp | ⟨p', z, hp⟩
  · left
    subst hp
    obtain ⟨h1, h2⟩ := List.append_inj' h rfl
    exact ⟨rfl, by simpa using h2, h1⟩
  · right
    subst hp
    have h' : l ++ [x] = (pre ++ y :: p') ++ [z] := by simpa using h
    obtain ⟨h1, h2⟩ := List.append_inj' h' rfl
    have : x = z := by simpa using h2
    exact ⟨p', by rw [this]; simp, h1⟩

theorem connected_snoc (ops : List (Op β)) (op : Op β) (k : Nat) :
    Connected (ops ++ [op]) k ↔
      (Connected ops k ∧ ∀ c, op = .disconnect (some c) → c ≠ k) ∨ (op = .register ∧ k = registrations ops) := by
  constructor
  · rintro ⟨pre, post, h, h1, h2⟩
    rcases split_snoc h with ⟨_, h4, h5⟩ | ⟨post', h4, h5⟩
    · right; rw [h5]; exact ⟨h4, h1.symm⟩
    · left
      subst h4
      refine ⟨⟨pre, post', h5, h1, fun hc => h2 (List.mem_append_left _ hc)⟩, ?_⟩
      intro c hc hck
      apply h2
      rw [← hck, ← hc]; simp
  · rintro (⟨⟨pre, post, h, h1, h2⟩, h3⟩ | ⟨rfl, rfl⟩)
    · refine ⟨pre, post ++ [op], by rw [h]; simp, h1, ?_⟩
      intro hc
      rcases List.mem_append.1 hc with hc | hc
      · exact h2 hc
      · rw [List.mem_singleton] at hc
        exact h3 k hc.symm rfl
    · exact ⟨ops, [], rfl, rfl, by simp⟩

theorem run_snoc (ops : List (Op β)) (op : Op β) : run (ops ++ [op]) = step (run ops) op := by
  unfold run; rw [List.foldl_append]; rfl

theorem run_registry (ops : List (Op β)) : (run ops).next = registrations ops ∧
    (run ops).callbacks.Pairwise (· < ·) ∧ ∀ k, k ∈ (run ops).callbacks ↔ Connected ops k := by
  induction ops using snoc_induction with
  | h0 =>
    refine ⟨rfl, List.Pairwise.nil, ?_⟩
    intro k
    constructor
    · intro h; cases h
    · intro h; have := connected_lt h; simp [registrations] at this
  | hs ops op ih =>
    obtain ⟨h1, h2, h3⟩ := ih
    rw [run_snoc, registrations_snoc]
    cases op with
    | register =>
      refine ⟨by show (run ops).next + 1 = _; rw [h1], ?_, ?_⟩
      · show ((run ops).callbacks ++ [(run ops).next]).Pairwise _
        refine List.pairwise_append.2 ⟨h2, List.pairwise_singleton _ _, ?_⟩
        intro a ha b hb
        rw [List.mem_singleton] at hb
        rw [hb, h1]
        exact connected_lt ((h3 a).1 ha)
      · intro k
        rw [connected_snoc]
        show k ∈ (run ops).callbacks ++ [(run ops).next] ↔ _
        rw [List.mem_append, List.mem_singleton, h3, h1]
        constructor
        · rintro (h | h)
          · exact Or.inl ⟨h, fun c hc => by cases hc⟩
          · exact Or.inr ⟨rfl, h⟩
        · rintro (⟨h, _⟩ | ⟨_, h⟩)
          · exact Or.inl h
          · exact Or.inr h
    | disconnect c =>
      cases c with
      | none =>
        refine ⟨h1, h2, ?_⟩
        intro k
        rw [connected_snoc]
        show k ∈ (run ops).callbacks ↔ _
        rw [h3]
        constructor
        · intro h; exact Or.inl ⟨h, fun c hc => by cases hc⟩
        · rintro (⟨h, _⟩ | ⟨h, _⟩)
          · exact h
          · cases h
      | some j =>
        refine ⟨h1, ?_, ?_⟩
        · exact h2.sublist List.erase_sublist
        · intro k
          rw [connected_snoc]
          show k ∈ (run ops).callbacks.erase j ↔ _
          have hnd : (run ops).callbacks.Nodup := h2.imp (fun h => Nat.ne_of_lt h)
          rw [hnd.mem_erase_iff, h3]
          constructor
          · rintro ⟨ha, hb⟩
            exact Or.inl ⟨hb, fun c hc => by cases hc; exact fun h => ha h.symm⟩
          · rintro (⟨ha, hb⟩ | ⟨h, _⟩)
            · exact ⟨fun h => hb j rfl h.symm, ha⟩
            · cases h
    | signal b =>
      refine ⟨h1, h2, ?_⟩
      intro k
      rw [connected_snoc]
      show k ∈ (run ops).callbacks ↔ _
      rw [h3]
      constructor
      · intro h; exact Or.inl ⟨h, fun c hc => by cases hc⟩
      · rintro (⟨h, _⟩ | ⟨h, _⟩)
        · exact h
        · cases h

/-! ### Isolation -/

variable {α : Type}

theorem getMut_copy {h : Heap α} {e : Event} {a : Nat} {v : α} (hm : e.msg = some a) (hv : h[a]? = some v)
    (hn : e.needCopy = true) (hc : e.copy = none) (hf : e.factory = true) :
    getMut h e = .ok (h ++ [v], { e with copy := some h.length }, some h.length) := by
  unfold getMut
  simp [hn, hc, hf, hm, hv]

theorem getParameter_ok {h : Heap α} {k : Kind} {e : Event} {a : Nat} {v : α} (hm : e.msg = some a) (hv : h[a]? = some v)
    (hk : k.mutable = true → e.needCopy = true ∧ e.factory = true) :
    ∃ h' w, getParameter h k e = .ok (h', w) ∧ w.val = some v ∧
      ((w.canWrite = false ∧ h' = h) ∨ (w.canWrite = true ∧ w.addr = some h.length ∧ h' = h ++ [v])) := by
  have hmut : k.mutable = true → getMut h (ofConst e) = .ok (h ++ [v], { ofConst e with copy := some h.length }, some h.length) :=
    fun hkm => getMut_copy (e := ofConst e) (by exact hm) hv (hk hkm).1 rfl (hk hkm).2
  cases k with
  | byValue => exact ⟨h, ⟨some v, none, false⟩, by simp [getParameter, getConst, hm, hv], rfl, Or.inl ⟨rfl, rfl⟩⟩
  | constRef => exact ⟨h, ⟨some v, some a, false⟩, by simp [getParameter, getConst, hm, hv], rfl, Or.inl ⟨rfl, rfl⟩⟩
  | constPtr => exact ⟨h, _, rfl, by simp [getConst, hm, hv], Or.inl ⟨rfl, rfl⟩⟩
  | constEvent => exact ⟨h, _, rfl, by simp [getConst, hm, hv], Or.inl ⟨rfl, rfl⟩⟩
  | mutPtr =>
    have hg := hmut rfl
    exact ⟨h ++ [v], ⟨some v, some h.length, true⟩, by simp [getParameter, hg], rfl, Or.inr ⟨rfl, rfl, rfl⟩⟩
  | mutEvent =>
    have hg := hmut rfl
    exact ⟨h ++ [v], ⟨some v, some h.length, true⟩, by simp [getParameter, hg], rfl, Or.inr ⟨rfl, rfl, rfl⟩⟩

/-- The heap still holds the original messages and the addresses handed out are new and different. -/
structure Iso (h0 : Heap α) (h : Heap α) (handed : List Nat) : Prop where
  le : h0.length ≤ h.length
  same : ∀ x < h0.length, h[x]? = h0[x]?
  fresh : ∀ x ∈ handed, h0.length ≤ x ∧ x < h.length
  nodup : handed.Nodup

theorem iso_alloc {h0 h : Heap α} {handed : List Nat} (hi : Iso h0 h handed) (v : α) :
    Iso h0 (h ++ [v]) (handed ++ [h.length]) := by
  refine ⟨by have := hi.le; simp; omega, ?_, ?_, ?_⟩
  · intro x hx
    rw [List.getElem?_append_left (by have := hi.le; omega)]
    exact hi.same x hx
  · intro x hx
    rcases List.mem_append.1 hx with hx | hx
    · have := hi.fresh x hx; simp; omega
    · rw [List.mem_singleton] at hx; rw [hx]; have := hi.le; simp; omega
  · rw [List.nodup_append]
    refine ⟨hi.nodup, by simp, ?_⟩
    intro a ha b hb
    rw [List.mem_singleton] at hb
    have := (hi.fresh a ha).2
    omega

theorem iso_tamper {h0 h : Heap α} {handed : List Nat} (hi : Iso h0 h handed) (adv : Nat → α → α) :
    Iso h0 (tamper adv handed h) handed := by
  refine ⟨by unfold tamper; simp; exact hi.le, ?_, ?_, hi.nodup⟩
  · intro x hx
    unfold tamper
    rw [List.getElem?_mapIdx]
    have hnot : x ∉ handed := fun hc => by have := (hi.fresh x hc).1; omega
    simp only [if_neg hnot]
    rw [hi.same x hx]
    cases h0[x]? <;> rfl
  · intro x hx; unfold tamper; simp; exact hi.fresh x hx

theorem getParameters_ok {h0 : Heap α} (es : List Event) : ∀ (ks : List Kind) (h : Heap α) (handed : List Nat),
    (∀ e ∈ es, content h0 e ≠ none) → ks.length = es.length →
    (∀ x ∈ ks.zip es, x.1.mutable = true → x.2.needCopy = true ∧ x.2.factory = true) → Iso h0 h handed →
    ∃ h' vs, getParameters (ks.zip es) h = .ok (h', vs) ∧ vs.map (·.val) = es.map (content h0) ∧
      Iso h0 h' (vs.foldl addHanded handed) := by
  induction es with
  | nil =>
    intro ks h handed hv hl hm hi
    have : ks = [] := List.length_eq_zero_iff.1 hl
    subst this
    exact ⟨h, [], rfl, rfl, hi⟩
  | cons e es ih =>
    intro ks h handed hv hl hm hi
    cases ks with
    | nil => simp at hl
    | cons k ks =>
      have hc := hv e (by simp)
      obtain ⟨v, hcv⟩ := Option.ne_none_iff_exists'.1 hc
      obtain ⟨a, ha, hav⟩ := Option.bind_eq_some_iff.1 hcv
      have halt : a < h0.length := by
        rcases List.getElem?_eq_some_iff.1 hav with ⟨h, _⟩; exact h
      obtain ⟨h1, w, g1, g2, g3⟩ := getParameter_ok (h := h) (k := k) (v := v) ha (by rw [hi.same a halt]; exact hav)
        (hm (k, e) (by simp))
      have hi1 : Iso h0 h1 (addHanded handed w) := by
        rcases g3 with ⟨g4, g5⟩ | ⟨g4, g5, g6⟩
        · unfold addHanded; rw [g4, g5]; exact hi
        · unfold addHanded; rw [g4, g5, g6]; exact iso_alloc hi v
      obtain ⟨h2, ws, k1, k2, k3⟩ := ih ks h1 (addHanded handed w) (fun x hx => hv x (by simp [hx])) (by simpa using hl)
        (fun x hx => hm x (by simp [hx])) hi1
      refine ⟨h2, w :: ws, ?_, by simp [g2, k2, hcv], k3⟩
      simp only [List.zip_cons_cons, getParameters, g1, k1]

/-- The progress after one callback was called with parameters `vs`. -/
def after (adv : Nat → α → α) (p : Progress α) (h : Heap α) (vs : List (View α)) : Progress α :=
  { heap := tamper adv (vs.foldl addHanded p.handed) h, handed := vs.foldl addHanded p.handed,
    seen := p.seen ++ [vs.map (·.val)] }

theorem runHelpers_iso {h0 : Heap α} {force : Bool} {es : List Event} (hv : ∀ e ∈ es, content h0 e ≠ none)
    (cbs : List (List Kind × (Nat → α → α))) : ∀ (p : Progress α),
    (∀ c ∈ cbs, c.1.length = es.length ∧
      ∀ x ∈ c.1.zip es, x.1.mutable = true → x.2.needCopy = true ∧ x.2.factory = true) →
    Iso h0 p.heap p.handed →
    ∃ p', runHelpers (callHelper9 force es) cbs p = .ok p' ∧
      p'.seen = p.seen ++ List.replicate cbs.length (es.map (content h0)) ∧ Iso h0 p'.heap p'.handed := by
  induction cbs with
  | nil => intro p _ hi; exact ⟨p, rfl, by simp, hi⟩
  | cons c cbs ih =>
    intro p hc hi
    obtain ⟨ks, adv⟩ := c
    obtain ⟨hl, hm⟩ := hc (ks, adv) (by simp)
    obtain ⟨h', vs, g1, g2, g3⟩ := getParameters_ok es ks p.heap p.handed hv hl hm hi
    have hstep : callHelper9 force es adv p ks = .ok (after adv p h' vs) := by
      unfold callHelper9; rw [g1]; rfl
    obtain ⟨p', k1, k2, k3⟩ := ih (after adv p h' vs) (fun c hcm => hc c (by simp [hcm])) (iso_tamper g3 adv)
    refine ⟨p', ?_, ?_, k3⟩
    · simp only [runHelpers, hstep, k1]
    · rw [k2, List.length_cons, List.replicate_succ]; simp [after, g2]

theorem iso_init (h : Heap α) : Iso h h [] := ⟨Nat.le_refl _, fun _ _ => rfl, by simp, by simp⟩

theorem helper1_eq (force : Bool) (e : Event) (adv : Nat → α → α) (p : Progress α) (k : Kind) :
    callHelper1 force e adv p k = callHelper9 force [ofConstFlag e (force || e.needCopy)] adv p [k] := by
  unfold callHelper1 callHelper9
  simp only [List.zip_cons_cons, List.zip_nil_right, getParameters]
  cases getParameter p.heap k (ofConstFlag e (force || e.needCopy)) with
  | error f => rfl
  | ok r => obtain ⟨h, v⟩ := r; rfl

theorem runHelpers_eq (force : Bool) (e : Event) (cbs : List (Kind × (Nat → α → α))) : ∀ p : Progress α,
    runHelpers (callHelper1 force e) cbs p =
      runHelpers (callHelper9 force [ofConstFlag e (force || e.needCopy)]) (cbs.map (fun c => ([c.1], c.2))) p := by
  induction cbs with
  | nil => intro p; rfl
  | cons c cbs ih =>
    intro p
    obtain ⟨k, adv⟩ := c
    simp only [runHelpers, List.map_cons]
    rw [helper1_eq]
    cases callHelper9 force [ofConstFlag e (force || e.needCopy)] adv p [k] with
    | error f => rfl
    | ok p' => exact ih p'

theorem before_iff (x y : Event) (hs : x.receipt.source = y.receipt.source) :
    Before x y ↔ ptrLt x.msg y.msg = true ∨ (x.msg = y.msg ∧ (x.receipt.ns < y.receipt.ns ∨
      (x.receipt.ns = y.receipt.ns ∧ x.needCopy = false ∧ y.needCopy = true))) := by
  unfold Before lt Time.eq Time.lt
  by_cases h1 : x.msg = y.msg
  · by_cases h2 : x.receipt.ns = y.receipt.ns
    · simp [h1, h2, hs, ptrLt_irrefl']
    · simp [h1, h2, hs, ptrLt_irrefl']
  · simp [h1]
where
  ptrLt_irrefl' (a : Option Nat) : ptrLt a a = false := by cases a <;> simp [ptrLt]

theorem ptrLt_irrefl (a : Option Nat) : ptrLt a a = false := by cases a <;> simp [ptrLt]

theorem ptrLt_trans {a b c : Option Nat} (h1 : ptrLt a b = true) (h2 : ptrLt b c = true) : ptrLt a c = true := by
  cases a <;> cases b <;> cases c <;> simp_all [ptrLt]
  omega

theorem ptrLt_total {a b : Option Nat} (h : a ≠ b) : ptrLt a b = true ∨ ptrLt b a = true := by
  cases a <;> cases b <;> simp_all [ptrLt]
  omega

end MF.Signal
