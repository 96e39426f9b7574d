import Verif.Spec.NullSlots
import Verif.Proofs.Signal
namespace MF.NullSlots

open MF.Event MF.Signal

variable {α : Type}

theorem Good.mono {h h' : Heap α} {e : Event} (hg : Good h e) (hl : h.length ≤ h'.length) : Good h' e := by
  obtain ⟨a, h1, h2, h3⟩ := hg
  exact ⟨a, h1, by omega, h3⟩

theorem getParameter_good {h : Heap α} {k : Kind} {e : Event} (hg : Good h e) :
    ∃ h' w, getParameter h k e = .ok (h', w) ∧ h.length ≤ h'.length := by
  obtain ⟨a, h1, h2, h3⟩ := hg
  have hv : h[a]? = some h[a] := List.getElem?_eq_getElem h2
  cases k <;> simp only [getParameter, getConst, h1, hv]
  case mutPtr | mutEvent =>
    cases hn : e.needCopy <;> simp [getMut, ofConst, hn, h3, h1, hv]
  all_goals exact ⟨_, _, rfl, Nat.le_refl _⟩

theorem getParameter_default {h : Heap α} (k : Kind) :
    getParameter h k Event.default =
      if Kind.nullable k then .ok (h, { val := none, addr := none, canWrite := false })
      else if k.mutable then .error .assertFailed else .error .ub := by
  cases k <;> simp [getParameter, getConst, Event.default, Kind.nullable, Kind.mutable, getMut, ofConst]

/-- What `getParameters` does depends on the first null slot that is taken by a kind that cannot represent it. -/
theorem getParameters_slots : ∀ (l : List (Kind × Event)) (h : Heap α), (∀ x ∈ l, Good h x.2 ∨ x.2 = Event.default) →
    (∃ h' vs, getParameters l h = .ok (h', vs) ∧ h.length ≤ h'.length ∧
      ∀ x ∈ l, x.2 = Event.default → Kind.nullable x.1 = true) ∨
    ∃ pre x post, l = pre ++ x :: post ∧ x.2 = Event.default ∧ Kind.nullable x.1 = false ∧
      (∀ y ∈ pre, y.2 = Event.default → Kind.nullable y.1 = true) ∧
      getParameters l h = .error (if x.1.mutable then .assertFailed else .ub) := by
  intro l
  induction l with
  | nil => intro h _; exact Or.inl ⟨h, [], rfl, Nat.le_refl _, by simp⟩
  | cons x l ih =>
    intro h hx
    obtain ⟨k, e⟩ := x
    have hrec : ∀ h1 w, getParameter h k e = .ok (h1, w) → h.length ≤ h1.length →
        (e = Event.default → Kind.nullable k = true) →
        (∃ h' vs, getParameters ((k, e) :: l) h = .ok (h', vs) ∧ h.length ≤ h'.length ∧
          ∀ x ∈ (k, e) :: l, x.2 = Event.default → Kind.nullable x.1 = true) ∨
        ∃ pre x post, (k, e) :: l = pre ++ x :: post ∧ x.2 = Event.default ∧ Kind.nullable x.1 = false ∧
          (∀ y ∈ pre, y.2 = Event.default → Kind.nullable y.1 = true) ∧
          getParameters ((k, e) :: l) h = .error (if x.1.mutable then .assertFailed else .ub) := by
      intro h1 w hw hl hk
      rcases ih h1 (fun x hx' => (hx x (List.mem_cons_of_mem _ hx')).imp (fun g => g.mono hl) id) with
        ⟨h', vs, e1, e2, e3⟩ | ⟨pre, x, post, e1, e2, e3, e4, e5⟩
      · left
        refine ⟨h', w :: vs, by simp only [getParameters, hw, e1], by omega, ?_⟩
        intro x hx' hd
        rcases List.mem_cons.mp hx' with rfl | hx'
        · exact hk hd
        · exact e3 x hx' hd
      · right
        refine ⟨(k, e) :: pre, x, post, by rw [e1]; rfl, e2, e3, ?_, by simp only [getParameters, hw, e5]⟩
        intro y hy hd
        rcases List.mem_cons.mp hy with rfl | hy
        · exact hk hd
        · exact e4 y hy hd
    rcases hx (k, e) (by simp) with hg | hd
    · obtain ⟨h1, w, hw, hl⟩ := getParameter_good (k := k) hg
      refine hrec h1 w hw hl (fun hd => ?_)
      obtain ⟨a, h2, _⟩ := hg
      have hd : e = Event.default := hd
      simp only [hd, Event.default] at h2
      cases h2
    · have hd : e = Event.default := hd
      subst hd
      cases hk : Kind.nullable k with
      | true =>
        exact hrec h _ (by rw [getParameter_default, hk]; rfl) (Nat.le_refl _) (fun _ => hk)
      | false =>
        right
        refine ⟨[], (k, Event.default), l, rfl, rfl, hk, by simp, ?_⟩
        simp only [getParameters, getParameter_default, hk]
        cases k.mutable <;> simp

theorem tamper_length (adv : Nat → α → α) (handed : List Nat) (h : Heap α) : (tamper adv handed h).length = h.length := by
  simp [tamper]

/-- Whether a list of parameter kinds accepts the events: missing messages only where they can be represented. -/
def Accepts (ks : List Kind) (es : List Event) : Prop := ∀ x ∈ ks.zip es, x.2 = Event.default → Kind.nullable x.1 = true

theorem runHelpers_slots {force : Bool} {es : List Event} : ∀ (cbs : List (List Kind × (Nat → α → α))) (p : Progress α),
    (∀ e ∈ es, Good p.heap e ∨ e = Event.default) →
    (∃ p', runHelpers (callHelper9 force es) cbs p = .ok p' ∧ ∀ c ∈ cbs, Accepts c.1 es) ∨
    ∃ pre c post, cbs = pre ++ c :: post ∧ (∀ b ∈ pre, Accepts b.1 es) ∧ ∃ pr x po, c.1.zip es = pr ++ x :: po ∧
      x.2 = Event.default ∧ Kind.nullable x.1 = false ∧ (∀ y ∈ pr, y.2 = Event.default → Kind.nullable y.1 = true) ∧
      runHelpers (callHelper9 force es) cbs p = .error (if x.1.mutable then .assertFailed else .ub) := by
  intro cbs
  induction cbs with
  | nil => intro p _; exact Or.inl ⟨p, rfl, by simp⟩
  | cons c cbs ih =>
    intro p hes
    obtain ⟨ks, adv⟩ := c
    rcases getParameters_slots (ks.zip es) p.heap (fun x hx => hes x.2 (List.of_mem_zip hx).2) with
      ⟨h', vs, e1, e2, e3⟩ | ⟨pr, x, po, e1, e2, e3, e4, e5⟩
    · have hh : callHelper9 force es adv p ks = .ok ⟨tamper adv (vs.foldl addHanded p.handed) h',
          vs.foldl addHanded p.handed, p.seen ++ [vs.map (·.val)]⟩ := by
        simp only [callHelper9, e1]
      rcases ih ⟨tamper adv (vs.foldl addHanded p.handed) h', vs.foldl addHanded p.handed, p.seen ++ [vs.map (·.val)]⟩
          (fun e he => (hes e he).imp (fun g => g.mono (by simp only [tamper_length]; exact e2)) id) with
        ⟨p', f1, f2⟩ | ⟨pre, c, post, f1, f2, f3⟩
      · left
        refine ⟨p', by simp only [runHelpers, hh]; exact f1, ?_⟩
        intro c hc
        rcases List.mem_cons.mp hc with rfl | hc
        · exact e3
        · exact f2 c hc
      · right
        obtain ⟨pr, x, po, g1, g2, g3, g4, g5⟩ := f3
        refine ⟨(ks, adv) :: pre, c, post, by rw [f1]; rfl, ?_, pr, x, po, g1, g2, g3, g4, by simp only [runHelpers, hh]; exact g5⟩
        intro b hb
        rcases List.mem_cons.mp hb with rfl | hb
        · exact e3
        · exact f2 b hb
    · right
      refine ⟨[], (ks, adv), cbs, rfl, by simp, pr, x, po, e1, e2, e3, e4, ?_⟩
      simp only [runHelpers, callHelper9, e5]

/-- Callbacks given by the kind of each parameter. -/
theorem zip_slots {n : Nat} {mk : Ev → Event} {t : ExactTime.Tuple n} (ks : Fin n → Kind) :
    (List.ofFn ks).zip (slotEvents mk t) = (List.finRange n).map (fun i => (ks i, slotEvent mk (t i))) := by
  unfold slotEvents
  apply List.ext_getElem
  · simp
  · intro i h1 h2
    simp

end MF.NullSlots
