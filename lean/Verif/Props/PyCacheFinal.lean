import Verif.Proofs.PyCacheFinal
import Verif.Props.PyCache
/-
When an answer of the Python Cache is final.
-/
namespace MF.PyCache

/-- **C127** (interval).  The messages arrive in time order, with stamps of one clock type.  Once a message newer than `b` is
cached, `getInterval(a, b)` returns all messages ever added with a time in the interval, also those that will be added later, and
returns the same whenever it is asked again, as long as the oldest cached time is before `a` (or the cache has never been
full). -/
theorem C127_interval (k : Int) (al : Bool) (ops more : List (Msg × Int)) (c : Source) (hc : OneClock c (usable al (ops ++ more)))
    (ho : InOrder (usable al (ops ++ more))) (a b T : Int) (hab : a ≤ b) (hb : b < T)
    (hT : getLastestTime (run (construct k al) ops) = some ⟨c, T⟩)
    (hold : (∃ o, getOldestTime (run (construct k al) (ops ++ more)) = some ⟨c, o⟩ ∧ o < a) ∨
      ((usable al (ops ++ more)).length : Int) ≤ k) :
    getInterval (run (construct k al) ops) ⟨c, a⟩ ⟨c, b⟩ =
      .ok (((usable al (ops ++ more)).filter (fun x => decide (a ≤ x.2.ns ∧ x.2.ns ≤ b))).map (·.1)) ∧
    getInterval (run (construct k al) (ops ++ more)) ⟨c, a⟩ ⟨c, b⟩ = getInterval (run (construct k al) ops) ⟨c, a⟩ ⟨c, b⟩ := by
  have hc1 : OneClock c (lastN k (usable al ops)) :=
    fun x hx => hc x (by rw [usable_append]; exact List.mem_append_left _ (List.mem_of_mem_drop hx))
  have hc2 : OneClock c (lastN k (usable al (ops ++ more))) := fun x hx => hc x (List.mem_of_mem_drop hx)
  obtain ⟨x, hx, _, hxT, _⟩ := lastest_some hT
  rw [C70_getInterval k al ops c hc1 a b hab, C70_getInterval k al (ops ++ more) c hc2 a b hab]
  have hgone : ∀ y ∈ (usable al (ops ++ more)).take ((usable al (ops ++ more)).length - k.toNat), y.2.ns < a := by
    intro y hy
    rcases hold with ⟨o, h1, h2⟩ | h
    · obtain ⟨z, hz, hzo⟩ := oldest_some h1
      have := removed_le ho _ hz y hy
      rw [hzo] at this
      exact Int.lt_of_le_of_lt this h2
    · rw [show (usable al (ops ++ more)).length - k.toNat = 0 by omega] at hy; simp at hy
  have e2 : (lastN k (usable al (ops ++ more))).filter (fun x => decide (a ≤ x.2.ns ∧ x.2.ns ≤ b)) =
      (usable al (ops ++ more)).filter (fun x => decide (a ≤ x.2.ns ∧ x.2.ns ≤ b)) :=
    filter_drop (fun y hy => by have := hgone y hy; simp; omega)
  have e1 : (lastN k (usable al ops)).filter (fun x => decide (a ≤ x.2.ns ∧ x.2.ns ≤ b)) =
      (usable al (ops ++ more)).filter (fun x => decide (a ≤ x.2.ns ∧ x.2.ns ≤ b)) := by
    rw [usable_append] at *
    rw [List.filter_append]
    have hl : (usable al more).filter (fun x => decide (a ≤ x.2.ns ∧ x.2.ns ≤ b)) = [] :=
      List.filter_eq_nil_iff.2 (fun y hy => by
        have := later_ge ho hx y hy
        rw [hxT] at this
        simp only [] at this
        simp; omega)
    rw [hl, List.append_nil]
    exact filter_drop (fun y hy => by have := hgone y (removed_mono _ hy); simp; omega)
  rw [e1, e2]
  exact ⟨rfl, rfl⟩

/-- Non-vacuity of `C127_interval`, with a cache that has removed a message. -/
example :
    let ops := [at' 0 10, at' 1 20, at' 2 30]
    let more := [at' 3 30, at' 4 40]
    OneClock .ros (usable false (ops ++ more)) ∧ InOrder (usable false (ops ++ more)) ∧
    getLastestTime (run (construct 4 false) ops) = some ⟨.ros, 30⟩ ∧
    getOldestTime (run (construct 4 false) (ops ++ more)) = some ⟨.ros, 20⟩ ∧
    (getInterval (run (construct 4 false) ops) ⟨.ros, 21⟩ ⟨.ros, 29⟩).toOption = some [] ∧
    (getInterval (run (construct 5 false) ops) ⟨.ros, 5⟩ ⟨.ros, 29⟩).toOption.map (·.map (·.id)) = some [0, 1] := by
  refine ⟨?_, ?_, by decide, by decide, by decide, by decide⟩
  · intro x hx; revert x; decide
  · unfold InOrder; decide

/-- **C127** (after).  Once `getElemAfterTime(t)` has given a message, this is the first of all messages ever added with a time
not before `t`, and it stays the answer as long as the oldest cached time is before `t` (or the cache has never been full). -/
theorem C127_after (k : Int) (al : Bool) (ops more : List (Msg × Int)) (c : Source) (hc : OneClock c (usable al (ops ++ more)))
    (ho : InOrder (usable al (ops ++ more))) (t : Int) (m : Msg)
    (hm : getElemAfterTime (run (construct k al) ops) ⟨c, t⟩ = .ok (some m))
    (hold : (∃ o, getOldestTime (run (construct k al) (ops ++ more)) = some ⟨c, o⟩ ∧ o < t) ∨
      ((usable al (ops ++ more)).length : Int) ≤ k) :
    ((usable al (ops ++ more)).find? (fun x => decide (t ≤ x.2.ns))).map (·.1) = some m ∧
    getElemAfterTime (run (construct k al) (ops ++ more)) ⟨c, t⟩ = .ok (some m) := by
  have hc1 : OneClock c (lastN k (usable al ops)) :=
    fun x hx => hc x (by rw [usable_append]; exact List.mem_append_left _ (List.mem_of_mem_drop hx))
  have hc2 : OneClock c (lastN k (usable al (ops ++ more))) := fun x hx => hc x (List.mem_of_mem_drop hx)
  rw [C70_getElemAfterTime_first_arrived k al ops c hc1 t] at hm
  rw [C70_getElemAfterTime_first_arrived k al (ops ++ more) c hc2 t]
  have hgone : ∀ y ∈ (usable al (ops ++ more)).take ((usable al (ops ++ more)).length - k.toNat), y.2.ns < t := by
    intro y hy
    rcases hold with ⟨o, h1, h2⟩ | h
    · obtain ⟨z, hz, hzo⟩ := oldest_some h1
      have := removed_le ho _ hz y hy
      rw [hzo] at this
      exact Int.lt_of_le_of_lt this h2
    · rw [show (usable al (ops ++ more)).length - k.toNat = 0 by omega] at hy; simp at hy
  have e2 : (lastN k (usable al (ops ++ more))).find? (fun x => decide (t ≤ x.2.ns)) =
      (usable al (ops ++ more)).find? (fun x => decide (t ≤ x.2.ns)) :=
    find_drop (fun y hy => by have := hgone y hy; simp; omega)
  have e1 : (lastN k (usable al ops)).find? (fun x => decide (t ≤ x.2.ns)) =
      (usable al ops).find? (fun x => decide (t ≤ x.2.ns)) :=
    find_drop (fun y hy => by
      rw [usable_append] at hgone
      have := hgone y (removed_mono _ hy); simp; omega)
  rw [e1, Except.ok.injEq] at hm
  have e3 : (usable al (ops ++ more)).find? (fun x => decide (t ≤ x.2.ns)) =
      (usable al ops).find? (fun x => decide (t ≤ x.2.ns)) := by
    rw [usable_append, List.find?_append]
    cases hf : (usable al ops).find? (fun x => decide (t ≤ x.2.ns)) with
    | none => rw [hf] at hm; simp at hm
    | some x => rfl
  rw [e2, e3, hm]
  exact ⟨rfl, rfl⟩

/-- **C127** (before).  Once a message newer than `t` is cached, `getElemBeforeTime(t)` is the last of all messages ever added
with a time not after `t`, also of those that will be added later, and stays the answer as long as the oldest cached time is not
after `t` (or the cache has never been full). -/
theorem C127_before (k : Int) (al : Bool) (ops more : List (Msg × Int)) (c : Source) (hc : OneClock c (usable al (ops ++ more)))
    (ho : InOrder (usable al (ops ++ more))) (t T : Int) (ht : t < T)
    (hT : getLastestTime (run (construct k al) ops) = some ⟨c, T⟩)
    (hold : (∃ o, getOldestTime (run (construct k al) (ops ++ more)) = some ⟨c, o⟩ ∧ o ≤ t) ∨
      ((usable al (ops ++ more)).length : Int) ≤ k) :
    getElemBeforeTime (run (construct k al) ops) ⟨c, t⟩ =
      .ok (((usable al (ops ++ more)).filter (fun x => decide (x.2.ns ≤ t))).getLast?.map (·.1)) ∧
    getElemBeforeTime (run (construct k al) (ops ++ more)) ⟨c, t⟩ = getElemBeforeTime (run (construct k al) ops) ⟨c, t⟩ := by
  have hc1 : OneClock c (lastN k (usable al ops)) :=
    fun x hx => hc x (by rw [usable_append]; exact List.mem_append_left _ (List.mem_of_mem_drop hx))
  have hc2 : OneClock c (lastN k (usable al (ops ++ more))) := fun x hx => hc x (List.mem_of_mem_drop hx)
  obtain ⟨x, hx, hxl, hxT, hk⟩ := lastest_some hT
  rw [C70_getElemBeforeTime_last_arrived k al ops c hc1 t, C70_getElemBeforeTime_last_arrived k al (ops ++ more) c hc2 t,
    ← List.getLast?_filter, ← List.getLast?_filter]
  have hl : (usable al more).filter (fun x => decide (x.2.ns ≤ t)) = [] :=
    List.filter_eq_nil_iff.2 (fun y hy => by
      rw [usable_append] at ho
      have := later_ge ho hx y hy
      rw [hxT] at this
      simp only [] at this
      simp; omega)
  have e3 : (usable al (ops ++ more)).filter (fun x => decide (x.2.ns ≤ t)) =
      (usable al ops).filter (fun x => decide (x.2.ns ≤ t)) := by
    rw [usable_append, List.filter_append, hl, List.append_nil]
  have e2 : ((lastN k (usable al (ops ++ more))).filter (fun x => decide (x.2.ns ≤ t))).getLast? =
      ((usable al (ops ++ more)).filter (fun x => decide (x.2.ns ≤ t))).getLast? := by
    refine last_drop ?_
    rcases hold with ⟨o, h1, h2⟩ | h
    · obtain ⟨z, hz, hzo⟩ := oldest_some h1
      exact Or.inl ⟨z, List.mem_of_head? hz, by simp [hzo, h2]⟩
    · exact Or.inr (by omega)
  have e1 : ((lastN k (usable al ops)).filter (fun x => decide (x.2.ns ≤ t))).getLast? =
      ((usable al ops).filter (fun x => decide (x.2.ns ≤ t))).getLast? := by
    refine last_drop ?_
    rcases hold with ⟨o, h1, h2⟩ | h
    · obtain ⟨z, hz, hzo⟩ := oldest_some h1
      by_cases hd : (usable al ops).length - k.toNat = 0
      · exact Or.inr hd
      · left
        have hlt : (usable al ops).length - k.toNat < (usable al ops).length := by omega
        have hzle : ((usable al ops)[(usable al ops).length - k.toNat]).2.ns ≤ z.2.ns := by
          rw [usable_append] at hz ho
          have hget : (usable al ops)[(usable al ops).length - k.toNat] ∈
              (usable al ops ++ usable al more).take ((usable al ops ++ usable al more).length - k.toNat + 1) := by
            rw [List.mem_take_iff_getElem]
            refine ⟨(usable al ops).length - k.toNat, by simp; omega, ?_⟩
            rw [List.getElem_append_left]
          rw [List.take_add_one, List.mem_append] at hget
          rcases hget with hg | hg
          · exact removed_le ho _ hz _ hg
          · rw [List.head?_drop] at hz
            rw [hz] at hg
            simp only [Option.toList_some, List.mem_singleton] at hg
            rw [hg]; exact Int.le_refl _
        refine ⟨_, List.mem_drop_iff_getElem.2 ⟨0, by omega, rfl⟩, ?_⟩
        simp only [Nat.zero_add, Nat.add_zero] at *
        rw [hzo] at hzle
        simp only [] at hzle
        simp only [decide_eq_true_eq]
        omega
    · refine Or.inr ?_
      rw [usable_append, List.length_append] at h
      omega
  rw [e1, e2, e3]
  exact ⟨rfl, rfl⟩

/-- **C127** (order).  Out of time order an answer may change although a newer message is cached. -/
theorem C127_order_needed :
    getLastestTime (run (construct 5 false) [at' 0 10, at' 1 30]) = some ⟨.ros, 30⟩ ∧
    (getInterval (run (construct 5 false) [at' 0 10, at' 1 30]) ⟨.ros, 15⟩ ⟨.ros, 25⟩).toOption = some [] ∧
    (getInterval (run (construct 5 false) [at' 0 10, at' 1 30, at' 2 20]) ⟨.ros, 15⟩ ⟨.ros, 25⟩).toOption.map (·.map (·.id)) =
      some [2] := by decide

/-- **C127** (newer).  In time order, an interval that ends at the newest time and the message before it are not final. -/
theorem C127_newer_needed :
    getLastestTime (run (construct 5 false) [at' 0 10, at' 1 30]) = some ⟨.ros, 30⟩ ∧
    (getInterval (run (construct 5 false) [at' 0 10, at' 1 30]) ⟨.ros, 15⟩ ⟨.ros, 30⟩).toOption.map (·.map (·.id)) = some [1] ∧
    (getInterval (run (construct 5 false) [at' 0 10, at' 1 30, at' 2 30]) ⟨.ros, 15⟩ ⟨.ros, 30⟩).toOption.map (·.map (·.id)) =
      some [1, 2] ∧
    (getElemBeforeTime (run (construct 5 false) [at' 0 10, at' 1 30]) ⟨.ros, 30⟩).toOption.map (·.map (·.id)) = some (some 1) ∧
    (getElemBeforeTime (run (construct 5 false) [at' 0 10, at' 1 30, at' 2 30]) ⟨.ros, 30⟩).toOption.map (·.map (·.id)) =
      some (some 2) := by decide

/-- **C127** (oldest).  A cache whose oldest time is that of the beginning of the interval, or the time asked for, may have lost
messages: asked again, it answers differently. -/
theorem C127_oldest_needed :
    getOldestTime (run (construct 2 false) [at' 0 10, at' 1 10, at' 2 30]) = some ⟨.ros, 10⟩ ∧
    (getInterval (run (construct 3 false) [at' 0 10, at' 1 10, at' 2 30]) ⟨.ros, 10⟩ ⟨.ros, 20⟩).toOption.map (·.map (·.id)) =
      some [0, 1] ∧
    (getInterval (run (construct 3 false) [at' 0 10, at' 1 10, at' 2 30, at' 3 40]) ⟨.ros, 10⟩ ⟨.ros, 20⟩).toOption.map
      (·.map (·.id)) = some [1] ∧
    (getElemAfterTime (run (construct 3 false) [at' 0 10, at' 1 10, at' 2 30]) ⟨.ros, 10⟩).toOption.map (·.map (·.id)) =
      some (some 0) ∧
    (getElemAfterTime (run (construct 3 false) [at' 0 10, at' 1 10, at' 2 30, at' 3 40]) ⟨.ros, 10⟩).toOption.map (·.map (·.id)) =
      some (some 1) ∧
    getOldestTime (run (construct 3 false) [at' 0 10, at' 1 10, at' 2 30, at' 3 40]) = some ⟨.ros, 10⟩ := by decide

/-- Non-vacuity of `C127_after` and `C127_before`. -/
example :
    let ops := [at' 0 10, at' 1 20, at' 2 30]
    let more := [at' 3 30, at' 4 40]
    getElemAfterTime (run (construct 4 false) ops) ⟨.ros, 25⟩ = .ok (some (at' 2 30).1) ∧
    getElemAfterTime (run (construct 4 false) (ops ++ more)) ⟨.ros, 25⟩ = .ok (some (at' 2 30).1) ∧
    getElemBeforeTime (run (construct 4 false) ops) ⟨.ros, 20⟩ = .ok (some (at' 1 20).1) ∧
    getElemBeforeTime (run (construct 4 false) (ops ++ more)) ⟨.ros, 20⟩ = .ok (some (at' 1 20).1) ∧
    getOldestTime (run (construct 4 false) (ops ++ more)) = some ⟨.ros, 20⟩ := ⟨rfl, rfl, rfl, rfl, rfl⟩

end MF.PyCache
