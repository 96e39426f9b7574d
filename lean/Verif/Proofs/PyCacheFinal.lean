import Verif.Proofs.PyCache
namespace MF.PyCache

theorem usable_append (al : Bool) (ops more : List (Msg × Int)) : usable al (ops ++ more) = usable al ops ++ usable al more := by
  simp [usable]

theorem lastest_some {k : Int} {al : Bool} {ops : List (Msg × Int)} {t : PTime}
    (h : getLastestTime (run (construct k al) ops) = some t) : ∃ x, x ∈ usable al ops ∧ (usable al ops).getLast? = some x ∧ x.2 = t ∧
      0 < k.toNat := by
  unfold getLastestTime at h
  rw [(holds k al ops).times, List.getLast?_map] at h
  unfold lastN at h
  rw [List.getLast?_drop] at h
  split at h
  · simp at h
  · rename_i hk
    cases hl : (usable al ops).getLast? with
    | none => rw [hl] at h; simp at h
    | some x =>
      rw [hl] at h
      simp only [Option.map_some, Option.some.injEq] at h
      have : usable al ops ≠ [] := by intro h0; rw [h0] at hl; simp at hl
      exact ⟨x, List.mem_of_getLast? hl, rfl, h, by have := List.length_pos_iff.2 this; omega⟩

/-- What is added later is not older than the newest time. -/
theorem later_ge {l m : List (Msg × PTime)} (ho : InOrder (l ++ m)) {x : Msg × PTime} (hx : x ∈ l) : ∀ y ∈ m, x.2.ns ≤ y.2.ns :=
  fun y hy => (List.pairwise_append.1 ho).2.2 x hx y hy

/-- What was removed is not newer than the oldest time. -/
theorem removed_le {l : List (Msg × PTime)} (ho : InOrder l) (d : Nat) {z : Msg × PTime} (hz : (l.drop d).head? = some z) :
    ∀ x ∈ l.take d, x.2.ns ≤ z.2.ns := by
  intro x hx
  have h := ho
  unfold InOrder at h
  rw [← List.take_append_drop d l, List.pairwise_append] at h
  exact h.2.2 x hx z (List.mem_of_head? hz)

theorem oldest_some {k : Int} {al : Bool} {ops : List (Msg × Int)} {t : PTime}
    (h : getOldestTime (run (construct k al) ops) = some t) :
    ∃ z, ((usable al ops).drop ((usable al ops).length - k.toNat)).head? = some z ∧ z.2 = t := by
  unfold getOldestTime at h
  rw [(holds k al ops).times, List.head?_map] at h
  unfold lastN at h
  cases hl : ((usable al ops).drop ((usable al ops).length - k.toNat)).head? with
  | none => rw [hl] at h; simp at h
  | some z => rw [hl] at h; exact ⟨z, rfl, by simpa using h⟩

/-- The messages removed before are among those removed later. -/
theorem removed_mono {l m : List (Msg × PTime)} (q : Nat) {x : Msg × PTime} (hx : x ∈ l.take (l.length - q)) :
    x ∈ (l ++ m).take ((l ++ m).length - q) := by
  rw [List.length_append, List.take_append]
  have h : l.take (l.length - q) <+: l.take (l.length + m.length - q) := by
    rw [show l.length - q = min (l.length - q) (l.length + m.length - q) by omega, ← List.take_take]
    exact List.take_prefix _ _
  exact List.mem_append_left _ (h.subset hx)

theorem filter_drop {p : Msg × PTime → Bool} {l : List (Msg × PTime)} {d : Nat} (h : ∀ x ∈ l.take d, p x = false) :
    (l.drop d).filter p = l.filter p := by
  have h0 : (l.take d).filter p = [] := List.filter_eq_nil_iff.2 (fun x hx => by simp [h x hx])
  have : l.filter p = (l.take d ++ l.drop d).filter p := by rw [List.take_append_drop]
  rw [this, List.filter_append, h0, List.nil_append]

theorem find_drop {p : Msg × PTime → Bool} {l : List (Msg × PTime)} {d : Nat} (h : ∀ x ∈ l.take d, p x = false) :
    (l.drop d).find? p = l.find? p := by
  rw [← List.head?_filter, ← List.head?_filter, filter_drop h]

theorem last_drop {p : Msg × PTime → Bool} {l : List (Msg × PTime)} {d : Nat} (h : (∃ x ∈ l.drop d, p x = true) ∨ d = 0) :
    ((l.drop d).filter p).getLast? = (l.filter p).getLast? := by
  rcases h with ⟨x, hx, hp⟩ | h
  · have e : l.filter p = (l.take d).filter p ++ (l.drop d).filter p := by rw [← List.filter_append, List.take_append_drop]
    have hne : (l.drop d).filter p ≠ [] := List.ne_nil_of_mem (List.mem_filter.2 ⟨hx, hp⟩)
    rw [e, List.getLast?_append, List.getLast?_eq_some_getLast hne]
    rfl
  · subst h; rfl

end MF.PyCache
