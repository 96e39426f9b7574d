import Verif.Spec.PyCache
import Verif.Proofs.Basic
namespace MF.PyCache

theorem run_snoc (s : State) (ops : List (Msg × Int)) (o : Msg × Int) : run s (ops ++ [o]) = add (run s ops) o.1 o.2 := by
  simp [run]

theorem usable_snoc (a : Bool) (ops : List (Msg × Int)) (o : Msg × Int) :
    usable a (ops ++ [o]) = usable a ops ++ usable a [o] := by simp [usable]

theorem lastN_snoc {α : Type} (k : Int) (l : List α) (x : α) :
    lastN k (l ++ [x]) = if ((lastN k l).length : Int) + 1 > k then (lastN k l ++ [x]).tail else lastN k l ++ [x] := by
  unfold lastN
  simp only [List.length_append, List.length_singleton, List.length_drop]
  by_cases h : ((l.length - (l.length - k.toNat) : Nat) : Int) + 1 > k
  · rw [if_pos h]
    have : l.length + 1 - k.toNat = (l.length - k.toNat) + 1 := by omega
    rw [this, ← List.tail_drop, List.drop_append_of_le_length (by omega)]
  · rw [if_neg h]
    have h1 : l.length + 1 - k.toNat = 0 := by omega
    have h2 : l.length - k.toNat = 0 := by omega
    rw [h1, h2]; rfl

structure Holds (k : Int) (al : Bool) (ops : List (Msg × Int)) (s : State) : Prop where
  size : s.cacheSize = k
  allow : s.allowHeaderless = al
  msgs : s.msgs = (lastN k (usable al ops)).map (·.1)
  times : s.times = (lastN k (usable al ops)).map (·.2)
  out : s.out = (usable al ops).map (·.1)

theorem Holds.store {k : Int} {al : Bool} {ops : List (Msg × Int)} {s : State} (h : Holds k al ops s) (o : Msg × Int) (t : PTime)
    (hu : usable al [o] = [(o.1, t)]) : Holds k al (ops ++ [o]) (store s o.1 t) := by
  have hl : (s.msgs.length : Int) = (lastN k (usable al ops)).length := by rw [h.msgs]; simp
  unfold PyCache.store
  simp only [List.length_append, List.length_singleton]
  have hx := lastN_snoc k (usable al ops) (o.1, t)
  by_cases hc : ((lastN k (usable al ops)).length : Int) + 1 > k
  · rw [if_pos hc] at hx
    rw [if_pos (by rw [h.size]; omega)]
    refine ⟨h.size, h.allow, ?_, ?_, ?_⟩
    · rw [usable_snoc, hu, hx, List.map_tail]; simp [h.msgs]
    · rw [usable_snoc, hu, hx, List.map_tail]; simp [h.times]
    · rw [usable_snoc, hu]; simp [h.out]
  · rw [if_neg hc] at hx
    rw [if_neg (by rw [h.size]; omega)]
    refine ⟨h.size, h.allow, ?_, ?_, ?_⟩
    · rw [usable_snoc, hu, hx]; simp [h.msgs]
    · rw [usable_snoc, hu, hx]; simp [h.times]
    · rw [usable_snoc, hu]; simp [h.out]

theorem holds (k : Int) (al : Bool) (ops : List (Msg × Int)) : Holds k al ops (run (construct k al) ops) := by
  induction ops using snoc_induction with
  | h0 => exact ⟨rfl, rfl, by simp [usable, lastN, run, construct], by simp [usable, lastN, run, construct], rfl⟩
  | hs ops o ih =>
    rw [run_snoc]
    unfold add
    cases hst : o.1.stamp with
    | some t => exact ih.store o t (by simp [usable, hst])
    | none =>
      simp only
      by_cases ha : al = true
      · rw [if_pos (by rw [ih.allow]; exact ha)]
        exact ih.store o _ (by simp [usable, hst, ha])
      · have ha : al = false := by simpa using ha
        rw [if_neg (by rw [ih.allow, ha]; simp)]
        have : usable al (ops ++ [o]) = usable al ops := by
          rw [usable_snoc]; simp [usable, hst, ha]
        exact ⟨ih.size, ih.allow, by rw [this]; exact ih.msgs, by rw [this]; exact ih.times, by rw [this]; exact ih.out⟩

theorem zip_map {α β : Type} (l : List (α × β)) : (l.map (·.1)).zip (l.map (·.2)) = l := by
  induction l with
  | nil => rfl
  | cons x l ih => simp [ih]

theorem holds_zip (k : Int) (al : Bool) (ops : List (Msg × Int)) :
    (run (construct k al) ops).msgs.zip (run (construct k al) ops).times = lastN k (usable al ops) := by
  rw [(holds k al ops).msgs, (holds k al ops).times, zip_map]

theorem comprehension_ok {p : PTime → Except Fault Bool} {q : PTime → Bool} {l : List (Msg × PTime)}
    (h : ∀ x ∈ l, p x.2 = .ok (q x.2)) : comprehension p l = .ok ((l.filter (fun x => q x.2)).map (·.1)) := by
  induction l with
  | nil => rfl
  | cons x l ih =>
    have ih := ih (fun y hy => h y (List.mem_cons_of_mem _ hy))
    unfold comprehension
    rw [h x (by simp), ih]
    simp only [List.filter_cons]
    cases hq : q x.2 <;> simp

theorem comprehension_threw {p : PTime → Except Fault Bool} {l : List (Msg × PTime)}
    (hp : ∀ x ∈ l, p x.2 = .error .threw ∨ ∃ b, p x.2 = .ok b) (h : ∃ x ∈ l, p x.2 = .error .threw) :
    comprehension p l = .error .threw := by
  induction l with
  | nil => obtain ⟨x, hx, _⟩ := h; cases hx
  | cons x l ih =>
    unfold comprehension
    rcases hp x (by simp) with h1 | ⟨b, h1⟩
    · rw [h1]
    · rw [h1]
      obtain ⟨y, hy, hy2⟩ := h
      rcases List.mem_cons.mp hy with rfl | hy
      · rw [h1] at hy2; cases hy2
      · rw [ih (fun z hz => hp z (List.mem_cons_of_mem _ hz)) ⟨y, hy, hy2⟩]

end MF.PyCache
