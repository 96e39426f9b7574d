import Verif.Props.ExactTime
import Verif.Props.PySync
/-
Property C126: inputs that repeat stamps.
-/
namespace MF.ExactTime

variable {n : Nat}

/-- The history of an input 0 that sends every message twice, and of an input 1 that sends the second one twice. -/
def repeatOps : List (Fin 2 × Ev) :=
  [(0, ⟨0, 100⟩), (0, ⟨1, 100⟩), (1, ⟨2, 100⟩), (0, ⟨3, 200⟩), (1, ⟨4, 200⟩), (0, ⟨5, 200⟩), (1, ⟨6, 200⟩), (1, ⟨7, 300⟩), (0, ⟨8, 400⟩)]

/-- **C126** (at least once).  Let every input deliver in time order, possibly with repeated stamps.  Then an ExactTime synchronizer with an
unlimited queue has output a set with the stamp `T` if and only if every input has delivered a message with it. -/
theorem C126_common_stamps [NeZero n] (ops : List (Fin n × Ev)) (s : State n) (h : run (construct n 0) ops = .ok s)
    (hsort : ∀ i, TimeSorted (stream ops i)) (T : Int) :
    (∃ t ∈ outs s.log, ∀ i, (t i).map (·.stamp) = some T) ↔ ∀ i, ∃ e ∈ stream ops i, e.stamp = T := by
  constructor
  · rintro ⟨t, ht, hT⟩ i
    obtain ⟨_, _, hall⟩ := (provenance 0 ops s h).2.1 t ht
    obtain ⟨e, he, hm⟩ := hall i
    have := hT i
    rw [he] at this
    exact ⟨e, hm, by simpa using this⟩
  · have key : ∀ ops s, run (construct n 0) ops = .ok s → (∀ i, TimeSorted (stream ops i)) →
        (∀ i, ∀ e ∈ stream ops i, (∀ t ∈ outs s.log, ∀ x, t i = some x → x.stamp < e.stamp) →
          ∃ p ∈ s.tuples, p.1 = e.stamp ∧ ∃ x, p.2 i = some x) ∧
        (∀ T, (∀ i, ∃ e ∈ stream ops i, e.stamp = T) → ∃ t ∈ outs s.log, HasStamp t T) := by
      apply runE_induction
      · intro _
        constructor
        · intro i e he; simp [stream] at he
        · intro T hT; obtain ⟨e, he, _⟩ := hT 0; simp [stream] at he
      · intro ops s op s' hr ih hs hsort
        obtain ⟨k, e⟩ := op
        have hinv : Inv s := run_inv (inv_construct 0) hr
        have hq : s.queueSize = 0 := run_queueSize 0 ops s hr
        simp only at hs
        obtain ⟨a, o, b, t, sp⟩ := add_spec' hinv hs
        obtain ⟨lf, lp, _⟩ := sp.log_outs
        obtain ⟨ih1, ih2⟩ := ih (fun i => (hsort i).sublist (by rw [stream_append]; exact List.sublist_append_left _ _))
        have hprov := (provenance 0 ops s hr).2.1
        have hlast : ∀ x ∈ stream ops k, x.stamp ≤ e.stamp := by
          intro x hx
          have hord := hsort k
          unfold TimeSorted at hord
          rw [stream_snoc_same, List.pairwise_append] at hord
          exact hord.2.2 x hx e (by simp)
        have hpairs : ∀ p ∈ s.tuples, p.1 = e.stamp → o = some p.2 := by
          intro p hp hpe
          rw [sp.split] at hp
          rcases List.mem_append.1 hp with hp | hp
          · have := sp.below p hp; omega
          · rcases List.mem_append.1 hp with hp | hp
            · cases ho : o with
              | none => rw [ho] at hp; simp at hp
              | some t0 => rw [ho] at hp; simp at hp; rw [hp]
            · have := sp.above p hp; omega
        -- a slot that was filled stays filled
        have hkeep : ∀ p ∈ s.tuples, p.1 = e.stamp → ∀ j, (∃ x, p.2 j = some x) → ∃ x, t j = some x := by
          intro p hp hpe j hx
          by_cases hj : j = k
          · subst hj; exact ⟨e, sp.slot⟩
          · rw [sp.tuple, upd_ne _ _ hj, hpairs p hp hpe]; exact hx
        have hmono : ∀ u ∈ outs s.log, u ∈ outs s'.log := by
          intro u hu
          by_cases hc : Complete t
          · rw [(lf hc).1]; simp [hu]
          · rw [(lp hc).1]; exact hu
        constructor
        · intro i x hx hnew
          by_cases hc : Complete t
          · -- only newer messages are left
            have hxk : e.stamp < x.stamp := by
              rw [(lf hc).1] at hnew
              obtain ⟨y, hy⟩ := hc i
              have h1 := hnew t (by simp) y hy
              have h2 := sp.stamp i y hy
              omega
            have hx' : x ∈ stream ops i := by
              rw [mem_stream] at hx ⊢
              rcases List.mem_append.1 hx with hx | hx
              · exact hx
              · have := (Prod.mk.inj (List.mem_singleton.1 hx)).2
                subst this; omega
            obtain ⟨p, hp, hp1, hp2⟩ := ih1 i x hx' (fun u hu y hy => hnew u (hmono u hu) y hy)
            refine ⟨p, ?_, hp1, hp2⟩
            rw [(sp.full hc).1]
            rw [sp.split] at hp
            rcases List.mem_append.1 hp with hp | hp
            · have := sp.below p hp; omega
            · rcases List.mem_append.1 hp with hp | hp
              · obtain ⟨t0, _, rfl⟩ := List.mem_map.1 hp
                dsimp only at hp1; omega
              · exact hp
          · have st : s'.tuples = a ++ (e.stamp, t) :: b := by
              rw [(sp.part hc).2.1, hq]; simp [excess]
            rw [st]
            rw [mem_stream] at hx
            have old : ∀ p ∈ s.tuples, p.1 = x.stamp → (∃ y, p.2 i = some y) →
                ∃ p ∈ a ++ (e.stamp, t) :: b, p.1 = x.stamp ∧ ∃ y, p.2 i = some y := by
              intro p hp hp1 hp2
              by_cases hxe : x.stamp = e.stamp
              · exact ⟨(e.stamp, t), by simp, hxe.symm, hkeep p hp (by omega) i hp2⟩
              · refine ⟨p, ?_, hp1, hp2⟩
                rw [sp.split] at hp
                rcases List.mem_append.1 hp with hp | hp
                · simp [hp]
                · rcases List.mem_append.1 hp with hp | hp
                  · obtain ⟨t0, _, rfl⟩ := List.mem_map.1 hp
                    exact absurd hp1.symm hxe
                  · simp [hp]
            rcases List.mem_append.1 hx with hx | hx
            · obtain ⟨p, hp, hp1, hp2⟩ := ih1 i x (mem_stream.2 hx) (fun u hu y hy => hnew u (hmono u hu) y hy)
              exact old p hp hp1 hp2
            · obtain ⟨rfl, rfl⟩ := Prod.mk.inj (List.mem_singleton.1 hx)
              exact ⟨(x.stamp, t), by simp, rfl, x, sp.slot⟩
        · intro T hT
          by_cases hT' : ∀ i, ∃ x ∈ stream ops i, x.stamp = T
          · obtain ⟨u, hu, hu'⟩ := ih2 T hT'
            exact ⟨u, hmono u hu, hu'⟩
          · -- the new message is the first of input `k` with this stamp
            have key : ∀ i, (∃ x ∈ stream ops i, x.stamp = T) ∨ (i = k ∧ e.stamp = T) := by
              intro i
              obtain ⟨x, hx, hxT⟩ := hT i
              rw [mem_stream] at hx
              rcases List.mem_append.1 hx with hx | hx
              · exact .inl ⟨x, mem_stream.2 hx, hxT⟩
              · obtain ⟨rfl, rfl⟩ := Prod.mk.inj (List.mem_singleton.1 hx)
                exact .inr ⟨rfl, hxT⟩
            rw [Classical.not_forall] at hT'
            obtain ⟨j, hj⟩ := hT'
            obtain ⟨rfl, rfl⟩ := (key j).resolve_left hj
            have hlt : ∀ x ∈ stream ops j, x.stamp < e.stamp := by
              intro x hx
              have h1 := hlast x hx
              have h2 : x.stamp ≠ e.stamp := fun h => hj ⟨x, hx, h⟩
              omega
            have hout_lt : ∀ u ∈ outs s.log, ∀ i x, u i = some x → x.stamp < e.stamp := by
              intro u hu i x hx
              obtain ⟨T, hT, hall⟩ := hprov u hu
              obtain ⟨z, hz, hzs⟩ := hall j
              have := hlt z hzs
              have h1 := hT j z hz
              have h2 := hT i x hx
              omega
            have hc : Complete t := by
              intro i
              by_cases hi : i = j
              · subst hi; exact ⟨e, sp.slot⟩
              · obtain ⟨x, hx, hxe⟩ := (key i).resolve_right (fun h => hi h.1)
                obtain ⟨p, hp, hp1, hp2⟩ := ih1 i x hx (fun u hu y hy => by
                  have := hout_lt u hu i y hy; omega)
                exact hkeep p hp (by omega) i hp2
            rw [(lf hc).1]
            exact ⟨t, by simp, sp.stamp⟩
    intro hT
    obtain ⟨t, ht, hst⟩ := (key ops s h hsort).2 T hT
    refine ⟨t, ht, fun i => ?_⟩
    obtain ⟨_, _, hall⟩ := (provenance 0 ops s h).2.1 t ht
    obtain ⟨e, he, _⟩ := hall i
    rw [he, Option.map_some, hst i e he]

example : (∀ i, TimeSorted (stream repeatOps i)) ∧ ¬ (∀ i, StrictlyTimeSorted (stream repeatOps i)) ∧
    (run (construct 2 0) repeatOps).toOption.map (fun s => (outs s.log).map List.ofFn) =
      some [[some ⟨1, 100⟩, some ⟨2, 100⟩], [some ⟨3, 200⟩, some ⟨4, 200⟩], [some ⟨5, 200⟩, some ⟨6, 200⟩]] :=
  ⟨by unfold TimeSorted; decide, by unfold StrictlyTimeSorted; decide, by decide⟩

/-- **C126** (order needed).  Out of order, a stamp that all inputs deliver may never be output. -/
theorem C126_order_needed : ∃ ops : List (Fin 2 × Ev), (∀ i, ∃ e ∈ stream ops i, e.stamp = 1) ∧
    (run (construct 2 0) ops).toOption.map (fun s => (outs s.log).map List.ofFn) = some [[some ⟨1, 2⟩, some ⟨2, 2⟩]] :=
  ⟨[(0, ⟨0, 1⟩), (0, ⟨1, 2⟩), (1, ⟨2, 2⟩), (1, ⟨3, 1⟩)], by decide, by decide⟩

/-- A list in which no element occurs more often than in another one has no more elements of any kind. -/
private theorem filter_le (p : Ev → Bool) : ∀ (A B : List Ev), (∀ e, A.count e ≤ B.count e) → (A.filter p).length ≤ (B.filter p).length := by
  intro A
  induction A with
  | nil => intro B _; simp
  | cons a A ih =>
    intro B h
    have ha : a ∈ B := List.count_pos_iff.1 (by have := h a; rw [List.count_cons_self] at this; omega)
    obtain ⟨b, c, rfl⟩ := List.append_of_mem ha
    have := ih (b ++ c) (fun e => by
      have := h e
      simp only [List.count_append, List.count_cons] at this ⊢
      omega)
    rw [List.filter_append, List.length_append] at this ⊢
    rw [List.filter_cons, List.filter_cons]
    split <;> (try simp only [List.length_cons]) <;> omega

/-- **C126** (not more often than on any input).  Whatever the history and the queue size, the sets with the stamp `T` are not more than the
messages with it on any one of the inputs. -/
theorem C126_at_most [NeZero n] (q : Nat) (ops : List (Fin n × Ev)) (s : State n) (h : run (construct n q) ops = .ok s) (T : Int)
    (i : Fin n) : ((outs s.log).filter (fun t => decide (∀ i, (t i).map (·.stamp) = some T))).length ≤
      ((stream ops i).filter (fun e => decide (e.stamp = T))).length := by
  refine Nat.le_trans ?_ (filter_le (fun e => decide (e.stamp = T)) ((outs s.log).filterMap (· i)) (stream ops i) (fun e => ?_))
  · generalize outs s.log = l
    induction l with
    | nil => simp
    | cons t l ih =>
      rw [List.filter_cons, List.filterMap_cons]
      split
      · rename_i hT
        have := of_decide_eq_true hT i
        cases ht : t i with
        | none => rw [ht] at this; simp at this
        | some x =>
          rw [ht] at this
          simp only [Option.map_some, Option.some.injEq] at this
          simp only [List.filter_cons, this, decide_true, if_true, List.length_cons]
          omega
      · cases ht : t i with
        | none => exact ih
        | some x =>
          simp only [List.filter_cons]
          split <;> (try simp only [List.length_cons]) <;> omega
  · have hc := C16_conservation q ops s h i e
    have : ((outs s.log).filterMap (· i)).count e = occurrences i e (outs s.log) := by
      generalize outs s.log = l
      unfold occurrences
      induction l with
      | nil => rfl
      | cons t l ih =>
        rw [List.filterMap_cons]
        cases ht : t i with
        | none => simpa [ht] using ih
        | some x => simp [ht, List.count_cons, ih, List.countP_cons]
    omega

/-- In the sample history both inputs deliver the stamp 200 twice, and two sets have it; one set has the stamp 100, which input 0 delivers
twice and input 1 once. -/
example : (run (construct 2 0) repeatOps).toOption.map (fun s =>
      (((outs s.log).filter (fun t => decide (∀ i, (t i).map (·.stamp) = some 200))).length,
       ((outs s.log).filter (fun t => decide (∀ i, (t i).map (·.stamp) = some 100))).length)) = some (2, 1) := by decide

/-- **C126** (exactly once).  If every input delivers in time order, every input delivers the stamp `T`, and one of them only once, then with
an unlimited queue exactly one set with this stamp is output, however often the others repeat it. -/
theorem C126_exactly_once [NeZero n] (ops : List (Fin n × Ev)) (s : State n) (h : run (construct n 0) ops = .ok s)
    (hsort : ∀ i, TimeSorted (stream ops i)) (T : Int) (hT : ∀ i, ∃ e ∈ stream ops i, e.stamp = T) (k : Fin n)
    (hk : ((stream ops k).filter (fun e => decide (e.stamp = T))).length = 1) :
    ((outs s.log).filter (fun t => decide (∀ i, (t i).map (·.stamp) = some T))).length = 1 := by
  have h1 := C126_at_most 0 ops s h T k
  obtain ⟨t, ht, hst⟩ := (C126_common_stamps ops s h hsort T).2 hT
  have h2 : 0 < ((outs s.log).filter (fun t => decide (∀ i, (t i).map (·.stamp) = some T))).length :=
    List.length_pos_of_mem (List.mem_filter.2 ⟨ht, decide_eq_true hst⟩)
  omega

example : (∀ i, ∃ e ∈ stream repeatOps i, e.stamp = 100) ∧
    ((stream repeatOps 1).filter (fun e => decide (e.stamp = 100))).length = 1 ∧
    ((stream repeatOps 0).filter (fun e => decide (e.stamp = 100))).length = 2 := by decide

end MF.ExactTime

namespace MF.Py

variable {n : Nat}

/-- **C126** (Python TimeSynchronizer).  If the queues have room for all messages, a set with the stamp `T` has been output if and only if
every input has delivered a message with it, in whatever order and however often. -/
theorem C126_python_common_stamps [NeZero n] (q : Int) (ops : List (Fin n × Ev)) (hq : ∀ i, ((stream ops i).length : Int) ≤ q) :
    ∃ s, tsRun noRaise (construct n q) (withHeaders ops) = .ok s ∧
      ∀ T, (∃ t ∈ s.out, ∀ i, (t i).stamp = T) ↔ ∀ i, ∃ e ∈ stream ops i, e.stamp = T := by
  have key : ∃ s, tsRun noRaise (construct n q) (withHeaders ops) = .ok s ∧ s.locked = false ∧ s.queueSize = q ∧ Inv s ∧
      (∀ j, (s.queues j).length ≤ (stream ops j).length) ∧
      ∀ j, ∀ x ∈ stream ops j, x.stamp ∈ (s.queues j).keys ∨ ∃ t ∈ s.out, ∀ i, (t i).stamp = x.stamp := by
    induction ops using snoc_induction with
    | h0 => exact ⟨construct n q, rfl, rfl, rfl, Inv.construct q, fun j => by simp [construct], fun j x hx => by simp [stream] at hx⟩
    | hs ops op ih =>
      obtain ⟨i, e⟩ := op
      obtain ⟨s, hrun, hl, hqs, hinv, hlen, hM⟩ := ih (fun j => by
        have := hq j; rw [stream_append, List.length_append] at this; omega)
      have hstepRun : ∀ s' r, tsAdd noRaise s i ⟨e, true⟩ = .ok (s', r) →
          tsRun noRaise (construct n q) (withHeaders (ops ++ [(i, e)])) = .ok s' := by
        intro s' r h
        unfold tsRun withHeaders at *
        rw [List.map_append, runE_append, hrun]
        simp only [List.map_cons, List.map_nil, runE, h]
        rfl
      have hqi := hq i
      rw [stream_snoc_same, List.length_append, List.length_singleton] at hqi
      obtain ⟨d', hE, hcase⟩ := tsAdd_spec noRaise s hinv (by omega) hl i e
      have hset : ((s.queues i).set e.stamp e).length ≤ (stream ops i).length + 1 := by
        have := hlen i
        rw [length_set]; split <;> omega
      have hd' : d' = (s.queues i).set e.stamp e := by
        apply hE.eq_of_fits
        rw [hqs]; omega
      subst hd'
      have hkeys : ∀ j k, k ∈ (upd s.queues i ((s.queues i).set e.stamp e) j).keys ↔
          k ∈ (s.queues j).keys ∨ (j = i ∧ k = e.stamp) := by
        intro j k
        by_cases hj : j = i
        · subst hj; rw [upd_same, mem_keys_set]; simp [or_comm]
        · rw [upd_ne _ _ hj]; simp [hj]
      have hlen' : ∀ j, (upd s.queues i ((s.queues i).set e.stamp e) j).length ≤ (stream (ops ++ [(i, e)]) j).length := by
        intro j
        by_cases hj : j = i
        · subst hj; rw [upd_same, stream_snoc_same, List.length_append, List.length_singleton]; exact hset
        · rw [upd_ne _ _ hj, stream_snoc_ne _ _ (Ne.symm hj)]; exact hlen j
      have hM' : ∀ j, ∀ x ∈ stream (ops ++ [(i, e)]) j, x.stamp ∈ (upd s.queues i ((s.queues i).set e.stamp e) j).keys ∨
          ∃ t ∈ s.out, ∀ i, (t i).stamp = x.stamp := by
        intro j x hx
        rw [mem_stream] at hx
        rw [hkeys]
        rcases List.mem_append.1 hx with hx | hx
        · rcases hM j x (mem_stream.2 hx) with h | h
          · exact .inl (.inl h)
          · exact .inr h
        · obtain ⟨rfl, rfl⟩ := Prod.mk.inj (List.mem_singleton.1 hx)
          exact .inl (.inr ⟨rfl, rfl⟩)
      rcases hcase with ⟨_, hstep⟩ | ⟨msgs, hg, hstep⟩
      · exact ⟨_, hstepRun _ _ hstep, hl, hqs, (tsAdd_inv _ _ hinv _ _ _ _ hstep).1, hlen', hM'⟩
      · simp only [noRaise, Bool.false_eq_true, ↓reduceIte] at hstep
        have dok := fun j => upd_DOk hinv.ok ((hinv.ok i).set e) (i := i) j
        have hms : ∀ j, (msgs j).stamp = e.stamp := fun j => (dok j).stamp _ ((get_some (dok j).nodup).mp (hg j))
        refine ⟨_, hstepRun _ _ hstep, hl, hqs, (tsAdd_inv _ _ hinv _ _ _ _ hstep).1,
          fun j => Nat.le_trans (del_sublist _ _).length_le (hlen' j), fun j x hx => ?_⟩
        by_cases hxe : x.stamp = e.stamp
        · exact .inr ⟨msgs, by simp, fun k => by rw [hms k, hxe]⟩
        · rcases hM' j x hx with h | ⟨t, ht, h⟩
          · exact .inl (mem_keys_del.2 ⟨h, hxe⟩)
          · exact .inr ⟨t, by simp [ht], h⟩
  obtain ⟨s, h1, hl, _, hinv, _, hM⟩ := key
  refine ⟨s, h1, fun T => ⟨?_, fun hT => ?_⟩⟩
  · rintro ⟨t, ht, hst⟩ i
    have := (C63_complete_sets noRaise q _ s h1 t ht).1 i
    unfold withHeaders at this
    obtain ⟨o, ho, heq⟩ := List.mem_map.1 this
    refine ⟨t i, mem_stream.2 ?_, hst i⟩
    simp only [Prod.mk.injEq, Msg.mk.injEq] at heq
    rw [← heq.2.1, ← heq.1]
    exact ho
  · apply Classical.byContradiction
    intro hno
    refine hinv.quiet hl T (fun j => ?_)
    obtain ⟨x, hx, rfl⟩ := hT j
    exact (hM j x hx).resolve_right hno

example : (∀ i, ((stream ExactTime.repeatOps i).length : Int) ≤ 5) ∧
    (tsRun noRaise (construct 2 5) (withHeaders ExactTime.repeatOps)).toOption.map (fun s => s.out.map List.ofFn) =
      some [[⟨1, 100⟩, ⟨2, 100⟩], [⟨3, 200⟩, ⟨4, 200⟩], [⟨5, 200⟩, ⟨6, 200⟩]] := by decide

end MF.Py
