import Verif.Spec.CacheAgree
import Verif.Props.Cache
import Verif.Props.PyCache
import Verif.Props.LargerQueue
/-
C130: the C++ and the Python Cache answer alike.
-/
namespace MF.PyCache

theorem usable_stamped (c : Source) (al : Bool) : ∀ (es : List Ev) (ops : List (Msg × Int)), ops.map (·.1) = es.map (stamped c) →
    usable al ops = es.map (fun e => (stamped c e, ⟨c, e.stamp⟩)) := by
  intro es
  induction es with
  | nil => intro ops h; rw [List.map_nil, List.map_eq_nil_iff] at h; rw [h]; rfl
  | cons e es ih =>
    intro ops h
    cases ops with
    | nil => cases h
    | cons o ops =>
      rw [List.map_cons, List.map_cons, List.cons.injEq] at h
      rw [List.map_cons, ← ih ops h.2]
      unfold usable
      rw [List.filterMap_cons, h.1]
      rfl

theorem added_adds (es : List Ev) : Cache.added (es.map .add) = es := by
  induction es with
  | nil => rfl
  | cons e es ih => simpa [Cache.added] using ih

theorem getLast_filter_le {l : List Ev} (t : Int) :
    l.filter (fun x => decide (x.stamp ≤ t)) = l.filter (fun x => decide (x.stamp < t + 1)) := by
  refine List.filter_congr (fun x _ => ?_)
  rw [decide_eq_decide]; omega

/-- **C130**.  Let the same messages reach a C++ Cache and a Python Cache of the same size in time order, all stamps being of one clock type.
Then both hold the same messages and pass on the same messages, `getInterval` gives the same, and so do the times of the newest and the oldest
message unless the caches are empty.  The message after (before) a time in Python is the message after (before) the previous (next) nanosecond
in C++, since Python includes the time itself. -/
theorem C130_agree (n : Nat) (hn : 0 < n) (c : Source) (al : Bool) (es : List Ev) (hes : TimeSorted es) (ops : List (Msg × Int))
    (hops : ops.map (·.1) = es.map (stamped c)) :
    ∃ s, Cache.run (Cache.construct n) (es.map .add) = .ok s ∧
      (run (construct n al) ops).msgs = s.items.map (stamped c) ∧
      (run (construct n al) ops).out = s.out.map (stamped c) ∧
      (∀ a b, a ≤ b → getInterval (run (construct n al) ops) ⟨c, a⟩ ⟨c, b⟩ = .ok ((Cache.getInterval s a b).map (stamped c))) ∧
      (∀ t, getElemAfterTime (run (construct n al) ops) ⟨c, t⟩ = .ok ((Cache.getElemAfterTime s (t - 1)).map (stamped c))) ∧
      (∀ t, getElemBeforeTime (run (construct n al) ops) ⟨c, t⟩ = .ok ((Cache.getElemBeforeTime s (t + 1)).map (stamped c))) ∧
      (s.items ≠ [] → getLastestTime (run (construct n al) ops) = some ⟨c, Cache.getLatestTime s⟩ ∧
        getOldestTime (run (construct n al) ops) = some ⟨c, Cache.getOldestTime s⟩) := by
  obtain ⟨s, _, h, _⟩ := Cache.adds_sublist n n hn (Nat.le_refl n) es
  have hu := usable_stamped c al es ops hops
  have hitems := Cache.C03_most_recent_partial n hn es hes s h
  have hsorted : TimeSorted s.items := by rw [hitems]; exact hes.sublist (List.drop_sublist _ _)
  have hl : lastN (n : Int) (usable al ops) = s.items.map (fun e => (stamped c e, ⟨c, e.stamp⟩)) := by
    unfold lastN
    rw [hu, hitems, List.map_drop, List.length_map]
    rfl
  have hc : OneClock c (lastN (n : Int) (usable al ops)) := by
    rw [hl]
    intro x hx
    obtain ⟨e, _, rfl⟩ := List.mem_map.1 hx
    rfl
  obtain ⟨h1, h2, h3⟩ := C70_last_messages (n : Int) al ops
  refine ⟨s, h, ?_, ?_, fun a b hab => ?_, fun t => ?_, fun t => ?_, fun hne => ⟨?_, ?_⟩⟩
  · rw [h1, hl, List.map_map]; rfl
  · rw [h3, hu, Cache.C07_forwards_everything n hn _ s h, added_adds, List.map_map]; rfl
  · rw [C70_getInterval (n : Int) al ops c hc a b hab, hl, Cache.C04_getInterval n hn _ s h, List.filter_map, List.map_map]
    rfl
  · rw [C70_getElemAfterTime_first_arrived (n : Int) al ops c hc t, hl, Cache.getElemAfterTime_eq s hsorted, List.find?_map,
      List.head?_filter, Option.map_map]
    have : (fun x : Ev => decide (t - 1 < x.stamp)) = fun x => decide (t ≤ x.stamp) := by
      funext x; rw [decide_eq_decide]; omega
    rw [this]; rfl
  · rw [C70_getElemBeforeTime_last_arrived (n : Int) al ops c hc t, hl, Cache.getElemBeforeTime_eq,
      Cache.sorted_takeWhile_eq_filter _ hsorted, ← List.map_reverse, List.find?_map, ← getLast_filter_le, List.getLast?_filter, Option.map_map]
    rfl
  · unfold getLastestTime Cache.getLatestTime
    rw [h2, hl, List.map_map, List.getLast?_map]
    cases hg : s.items.getLast? with
    | none => exact absurd (List.getLast?_eq_none_iff.1 hg) hne
    | some e => rfl
  · unfold getOldestTime Cache.getOldestTime
    rw [h2, hl, List.map_map, List.head?_map]
    cases hg : s.items.head? with
    | none => exact absurd (List.head?_eq_none_iff.1 hg) hne
    | some e => rfl

/-- Four messages, two of them with the same stamp, in caches of three. -/
def agreeEvs : List Ev := [⟨0, 10⟩, ⟨1, 20⟩, ⟨2, 20⟩, ⟨3, 30⟩]

example : TimeSorted agreeEvs ∧ (agreeEvs.map (fun e => (stamped .ros e, e.stamp + 7))).map (·.1) = agreeEvs.map (stamped .ros) ∧
    (∃ s, Cache.run (Cache.construct 3) (agreeEvs.map .add) = .ok s ∧ s.items = [⟨1, 20⟩, ⟨2, 20⟩, ⟨3, 30⟩] ∧
      Cache.getElemAfterTime s 19 = some ⟨1, 20⟩ ∧ Cache.getElemBeforeTime s 21 = some ⟨2, 20⟩) ∧
    getElemAfterTime (run (construct 3 false) (agreeEvs.map (fun e => (stamped .ros e, e.stamp + 7)))) ⟨.ros, 20⟩ = .ok (some (stamped .ros ⟨1, 20⟩)) ∧
    getElemBeforeTime (run (construct 3 false) (agreeEvs.map (fun e => (stamped .ros e, e.stamp + 7)))) ⟨.ros, 20⟩ = .ok (some (stamped .ros ⟨2, 20⟩)) := by
  refine ⟨by unfold TimeSorted; decide, by decide, ⟨_, rfl, by decide, by decide, by decide⟩, rfl, rfl⟩

/-- **C130** (the same time gives different neighbours).  A message at the time asked for is the answer in Python, but not in C++. -/
theorem C130_neighbours_differ :
    (∃ s, Cache.run (Cache.construct 3) (agreeEvs.map .add) = .ok s ∧ Cache.getElemAfterTime s 20 = some ⟨3, 30⟩ ∧
      Cache.getElemBeforeTime s 20 = none) ∧
    getElemAfterTime (run (construct 3 false) (agreeEvs.map (fun e => (stamped .ros e, 0)))) ⟨.ros, 20⟩ = .ok (some (stamped .ros ⟨1, 20⟩)) ∧
    getElemBeforeTime (run (construct 3 false) (agreeEvs.map (fun e => (stamped .ros e, 0)))) ⟨.ros, 20⟩ = .ok (some (stamped .ros ⟨2, 20⟩)) :=
  ⟨⟨_, rfl, by decide, by decide⟩, rfl, rfl⟩

/-- **C130** (empty caches).  The C++ Cache reports time 0, the Python Cache no time. -/
theorem C130_empty_differ (n : Nat) (al : Bool) : Cache.getLatestTime (Cache.construct n) = 0 ∧ Cache.getOldestTime (Cache.construct n) = 0 ∧
    getLastestTime (construct n al) = none ∧ getOldestTime (construct n al) = none := by
  have h : (Cache.construct n).items = [] := by
    unfold Cache.construct Cache.setCacheSize
    split <;> rfl
  exact ⟨by simp [Cache.getLatestTime, h], by simp [Cache.getOldestTime, h], rfl, rfl⟩

/-- **C130** (an interval that ends before it starts).  Empty in C++, an assertion in Python. -/
theorem C130_reversed_differ (n : Nat) (hn : 0 < n) (ops : List Cache.Op) (s : Cache.State) (h : Cache.run (Cache.construct n) ops = .ok s)
    (p : State) (c : Source) (a b : Int) (hab : b < a) : Cache.getInterval s a b = [] ∧ getInterval p ⟨c, a⟩ ⟨c, b⟩ = .error .assertFailed := by
  refine ⟨?_, C70_getInterval_reversed p c a b hab⟩
  rw [Cache.C04_getInterval n hn ops s h, List.filter_eq_nil_iff]
  intro x _
  simp; omega

/-- **C130** (out of order).  With messages that are not in time order the two hold different messages. -/
theorem C130_order_needed :
    (∃ s, Cache.run (Cache.construct 2) ([⟨0, 20⟩, ⟨1, 30⟩, ⟨2, 10⟩, ⟨3, 5⟩].map .add) = .ok s ∧ s.items = [⟨3, 5⟩, ⟨1, 30⟩]) ∧
    (run (construct 2 false) ([⟨0, 20⟩, ⟨1, 30⟩, ⟨2, 10⟩, ⟨3, 5⟩].map (fun e => (stamped .ros e, 0)))).msgs =
      [stamped .ros ⟨2, 10⟩, stamped .ros ⟨3, 5⟩] := ⟨⟨_, rfl, by decide⟩, rfl⟩

end MF.PyCache
