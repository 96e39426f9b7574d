import Verif.Proofs.NullSlots
import Verif.Props.ExactTime
/-
Properties of the callbacks of ExactTime, with the types of their parameters.
-/
namespace MF.NullSlots

open MF.Event MF.ExactTime

variable {α : Type} {n : Nat}

/-- **C74**.  The exact condition under which calling the callbacks with a set is safe: every callback takes the missing messages
of the set as const pointer or const event. -/
theorem C74_safe_iff (h : Heap α) (mk : Ev → Event) (t : Tuple n) (ht : ∀ i e, t i = some e → Good h (mk e))
    (cbs : List ((Fin n → Kind) × (Nat → α → α))) :
    (∃ p, callSlots h mk t (callbacks cbs) = .ok p) ↔ ∀ c ∈ cbs, ∀ i, t i = none → Kind.nullable (c.1 i) = true := by
  have hes : ∀ e ∈ slotEvents mk t, Good h e ∨ e = Event.default := by
    intro e he
    obtain ⟨i, _, rfl⟩ := List.mem_map.mp he
    cases hi : t i with
    | none => exact Or.inr rfl
    | some x => exact Or.inl (ht i x hi)
  have hacc : ∀ ks : Fin n → Kind, Accepts (List.ofFn ks) (slotEvents mk t) ↔ ∀ i, t i = none → Kind.nullable (ks i) = true := by
    intro ks
    unfold Accepts
    rw [zip_slots]
    constructor
    · intro h1 i hi
      exact h1 (ks i, slotEvent mk (t i)) (List.mem_map.mpr ⟨i, List.mem_finRange i, rfl⟩) (by rw [hi]; rfl)
    · intro h1 x hx hd
      obtain ⟨i, _, rfl⟩ := List.mem_map.mp hx
      refine h1 i ?_
      cases hi : t i with
      | none => rfl
      | some e =>
        obtain ⟨a, h2, _⟩ := ht i e hi
        simp only [hi, slotEvent] at hd
        have : (ofConst (mk e)).msg = none := by rw [hd]; rfl
        simp only [ofConst, h2] at this
        cases this
  rcases runHelpers_slots (force := decide ((callbacks cbs).length > 1)) (callbacks cbs)
      ⟨h, [], []⟩ hes with ⟨p, h1, h2⟩ | ⟨pre, c, post, h1, _, pr, x, po, h3, h4, h5, _, h6⟩
  · refine ⟨fun _ c hc => ?_, fun _ => ⟨p, h1⟩⟩
    exact (hacc c.1).mp (h2 _ (List.mem_map.mpr ⟨c, hc, rfl⟩))
  · constructor
    · rintro ⟨p, hp⟩
      unfold callSlots Signal.call9 at hp
      rw [h6] at hp
      cases hp
    · intro hall
      have hc : c ∈ callbacks cbs := by rw [h1]; simp
      obtain ⟨c', hc', rfl⟩ := List.mem_map.mp hc
      have := (hacc c'.1).mpr (hall c' hc') x (by rw [h3]; simp) h4
      rw [h5] at this
      cases this

/-- **C74**.  Output callbacks may take their messages as they like: no set output by ExactTime, in any history, has a missing
message. -/
theorem C74_output_callbacks_safe [NeZero n] (q : Nat) (ops : List (Fin n × Ev)) (s : State n)
    (hrun : run (construct n q) ops = .ok s) (t : Tuple n) (ht : t ∈ outs s.log) (h : Heap α) (mk : Ev → Event)
    (hmk : ∀ op ∈ ops, Good h (mk op.2)) (cbs : List ((Fin n → Kind) × (Nat → α → α))) :
    ∃ p, callSlots h mk t (callbacks cbs) = .ok p := by
  obtain ⟨T, hT⟩ := C15_outputs_complete_equal_stamps q ops s hrun t ht
  rw [C74_safe_iff h mk t]
  · intro c _ i hi
    obtain ⟨e, he, _⟩ := hT i
    rw [he] at hi; cases hi
  · intro i e he
    obtain ⟨e', he', hmem, _⟩ := hT i
    rw [he] at he'
    cases he'
    exact hmk _ hmem

/-- **C74**.  Drop callbacks that take every message as const pointer or const event are always safe. -/
theorem C74_nullable_drop_callbacks_safe [NeZero n] (q : Nat) (ops : List (Fin n × Ev)) (s : State n)
    (hrun : run (construct n q) ops = .ok s) (t : Tuple n) (ht : t ∈ drops s.log) (h : Heap α) (mk : Ev → Event)
    (hmk : ∀ op ∈ ops, Good h (mk op.2)) (cbs : List ((Fin n → Kind) × (Nat → α → α)))
    (hk : ∀ c ∈ cbs, ∀ i, Kind.nullable (c.1 i) = true) : ∃ p, callSlots h mk t (callbacks cbs) = .ok p := by
  obtain ⟨_, _, T, hT⟩ := C18_dropped_sets_incomplete q ops s hrun t ht
  rw [C74_safe_iff h mk t (fun i e he => hmk _ (hT i e he).1)]
  intro c hc i _
  exact hk c hc i

/-- **C74** (disagreement with "drop callbacks may take their messages as they like").  Every set given to the drop callbacks, in
every history, has a missing message.  So a drop callback that takes all its messages by value, by reference or by non-const
pointer fails on every dropped set: by an access through a null pointer if it takes them by value or reference, by a failing
assertion if it takes them as non-const pointers or events. -/
theorem C74_drop_callbacks_fault [NeZero n] (q : Nat) (ops : List (Fin n × Ev)) (s : State n)
    (hrun : run (construct n q) ops = .ok s) (t : Tuple n) (ht : t ∈ drops s.log) (h : Heap α) (mk : Ev → Event)
    (hmk : ∀ op ∈ ops, Good h (mk op.2)) (ks : Fin n → Kind) (adv : Nat → α → α) :
    ((∀ i, ks i = .byValue ∨ ks i = .constRef) → callSlots h mk t (callbacks [(ks, adv)]) = .error .ub) ∧
    ((∀ i, ks i = .mutPtr ∨ ks i = .mutEvent) → callSlots h mk t (callbacks [(ks, adv)]) = .error .assertFailed) := by
  obtain ⟨⟨i0, hi0⟩, _, T, hT⟩ := C18_dropped_sets_incomplete q ops s hrun t ht
  have hes : ∀ e ∈ slotEvents mk t, Good h e ∨ e = Event.default := by
    intro e he
    obtain ⟨i, _, rfl⟩ := List.mem_map.mp he
    cases hi : t i with
    | none => exact Or.inr rfl
    | some x => exact Or.inl (hmk _ (hT i x hi).1)
  have key : (∀ i, Kind.nullable (ks i) = false) → ∃ i, callSlots h mk t (callbacks [(ks, adv)]) =
      .error (if (ks i).mutable then .assertFailed else .ub) := by
    intro hk
    rcases runHelpers_slots (force := decide ((callbacks [(ks, adv)]).length > 1)) (callbacks [(ks, adv)])
        ⟨h, [], []⟩ hes with ⟨p, h1, h2⟩ | ⟨pre, c, post, h1, _, pr, x, po, h3, h4, h5, _, h6⟩
    · have : callSlots h mk t (callbacks [(ks, adv)]) = .ok p := h1
      have := (C74_safe_iff h mk t (fun i e he => hmk _ (hT i e he).1) [(ks, adv)]).mp ⟨p, this⟩ (ks, adv) (by simp) i0 hi0
      rw [hk i0] at this; cases this
    · have hc : c ∈ callbacks [(ks, adv)] := by rw [h1]; simp
      simp only [callbacks, List.map_cons, List.map_nil, List.mem_singleton] at hc
      subst hc
      have hx : x ∈ (List.ofFn ks).zip (slotEvents mk t) := by rw [h3]; simp
      rw [zip_slots] at hx
      obtain ⟨i, _, rfl⟩ := List.mem_map.mp hx
      exact ⟨i, h6⟩
  refine ⟨fun hk => ?_, fun hk => ?_⟩
  · obtain ⟨i, hi⟩ := key (fun i => by rcases hk i with h | h <;> rw [h] <;> rfl)
    rw [hi]
    rcases hk i with h | h <;> rw [h] <;> rfl
  · obtain ⟨i, hi⟩ := key (fun i => by rcases hk i with h | h <;> rw [h] <;> rfl)
    rw [hi]
    rcases hk i with h | h <;> rw [h] <;> rfl

/-- One dropped set: the message of input 0 with stamp 1, nothing on input 1. -/
example : ∃ s t, run (construct 2 0) sampleOps = .ok s ∧ t ∈ drops s.log ∧
    (let mk : Ev → Event := fun e => ofMessage (some e.id) ⟨0, .ros⟩
     let h : Heap Nat := [10, 11, 12, 13, 14, 15, 16, 17]
     (∀ op ∈ sampleOps, Good h (mk op.2)) ∧
     (∃ p, callSlots h mk t (callbacks [((fun _ => .constPtr : Fin 2 → Kind), fun _ v => v)]) = .ok p ∧ p.seen = [[some 10, none]]) ∧
     callSlots h mk t (callbacks [((fun _ => .constRef : Fin 2 → Kind), fun _ v => v)]) = .error .ub ∧
     callSlots h mk t (callbacks [((fun _ => .mutPtr : Fin 2 → Kind), fun _ v => v)]) = .error .assertFailed) := by
  refine ⟨_, _, rfl, List.mem_cons_self, ?_, ⟨_, rfl, by decide⟩, by rfl, by rfl⟩
  intro op hop
  have : op.2.id < 8 := by revert op; decide
  exact ⟨op.2.id, rfl, this, rfl⟩

end MF.NullSlots
