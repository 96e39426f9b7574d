import Verif.Spec.TimerCalls
import Verif.Proofs.LargerSequencer
/-
Helper lemmas for C131: a TimeSequencer with more and one with fewer timer calls or a larger delay.
-/
namespace MF.Sequencer

theorem insert_after (e : Ev) {a b : List Ev} (h : ∀ x ∈ a, x.stamp ≤ e.stamp) : insertEv e (a ++ b) = a ++ insertEv e b := by
  induction a with
  | nil => rfl
  | cons y a ih =>
    rw [List.cons_append, insertEv, if_neg (by have := h y (by simp); omega), ih (fun x hx => h x (by simp [hx]))]
    rfl

theorem insert_mono (e : Ev) {a b : List Ev} (h : a.Sublist b) (ha : TimeSorted a) (hb : TimeSorted b) :
    (insertEv e a).Sublist (insertEv e b) := by
  obtain ⟨a1, a2, h1, h2, h3, h4⟩ := insertEv_spec e a ha
  obtain ⟨b1, b2, g1, g2, g3, g4⟩ := insertEv_spec e b hb
  have key : ∀ c d : List Ev, (∀ x ∈ c, x.stamp ≤ e.stamp) → (∀ x ∈ d, e.stamp < x.stamp) →
      (c ++ d).filter (fun x => decide (x.stamp ≤ e.stamp)) = c ∧ (c ++ d).filter (fun x => decide (e.stamp < x.stamp)) = d := by
    intro c d hc hd
    rw [List.filter_append, List.filter_append, List.filter_eq_self.2 (fun x hx => by simpa using hc x hx),
      List.filter_eq_nil_iff.2 (fun x hx => by have := hd x hx; simp; omega),
      List.filter_eq_nil_iff.2 (fun x hx => by have := hc x hx; simp; omega),
      List.filter_eq_self.2 (fun x hx => by simpa using hd x hx)]
    simp
  rw [h2, g2]
  rw [h1, g1] at h
  have f1 := h.filter (fun x => decide (x.stamp ≤ e.stamp))
  have f2 := h.filter (fun x => decide (e.stamp < x.stamp))
  rw [(key a1 a2 h3 h4).1, (key b1 b2 g3 g4).1] at f1
  rw [(key a1 a2 h3 h4).2, (key b1 b2 g3 g4).2] at f2
  exact f1.append (f2.cons_cons e)

theorem insert_sublist_right (e : Ev) (l : List Ev) : l.Sublist (insertEv e l) := by
  induction l with
  | nil => exact List.nil_sublist _
  | cons y l ih =>
    rw [insertEv]
    split
    · exact List.sublist_cons_self _ _
    · exact ih.cons_cons y

theorem content_sorted {s : State} (h : Inv s) : TimeSorted (s.out ++ s.messages) := by
  unfold TimeSorted
  rw [List.pairwise_append]
  exact ⟨h.out, h.sorted, fun x hx y hy => by have := h.outLe x hx; have := h.fresh y hy; omega⟩

/-- How a sequencer with more timer calls (`s`) and one with fewer of them or a larger delay (`l`) are related. -/
structure Fewer (s l : State) : Prop where
  delay : s.delay ≤ l.delay
  qs : s.queueSize = 0
  ql : l.queueSize = 0
  is : Inv s
  il : Inv l
  last : l.last ≤ s.last
  sub : (s.out ++ s.messages).Sublist (l.out ++ l.messages)
  rejected : ∀ x ∈ l.messages, x ∈ s.messages ∨ x.stamp ≤ s.last

theorem dispatch_last_mono {s : State} (hi : Inv s) (now : Nat → Int) : s.last ≤ (dispatch s now).last := by
  show s.last ≤ (takeReady s.delay now 0 s.messages s.last).2.2
  rw [take_last]
  split
  · rename_i x hx
    refine hi.fresh x ?_
    rw [take_split s.delay now s.messages 0 s.last]
    exact List.mem_append_left _ (List.mem_of_getLast? hx)
  · exact Int.le_refl _

theorem dispatch_mem {s : State} (now : Nat → Int) {x : Ev} (hx : x ∈ s.messages) (hi : Inv s) :
    x ∈ (dispatch s now).messages ∨ x.stamp ≤ (dispatch s now).last := by
  have h1 := dispatch_content s now
  have h2 : x ∈ (dispatch s now).out ++ (dispatch s now).messages := by rw [h1]; exact List.mem_append_right _ hx
  rcases List.mem_append.1 h2 with h3 | h3
  · exact Or.inr ((dispatch_inv hi now).outLe x h3)
  · exact Or.inl h3

theorem fewer_skip {s l : State} (h : Fewer s l) (now : Nat → Int) : Fewer (dispatch s now) l := by
  refine ⟨h.delay, h.qs, h.ql, dispatch_inv h.is now, h.il, Int.le_trans h.last (dispatch_last_mono h.is now), ?_, fun x hx => ?_⟩
  · rw [dispatch_content]; exact h.sub
  · rcases h.rejected x hx with h1 | h1
    · exact dispatch_mem now h1 h.is
    · exact Or.inr (Int.le_trans h1 (dispatch_last_mono h.is now))

theorem fewer_tick {s l : State} (h : Fewer s l) {now : Nat → Int} (hn : ∀ k, now k = now 0) : Fewer (dispatch s now) (dispatch l now) := by
  have h0 := fewer_skip h now
  refine ⟨h.delay, h.qs, h.ql, h0.is, dispatch_inv h.il now, ?_, ?_, fun x hx => ?_⟩
  · show (takeReady l.delay now 0 l.messages l.last).2.2 ≤ _
    rw [take_last]
    split
    · rename_i x hx
      have hx := List.mem_of_getLast? hx
      have hc := take_eq (d := l.delay) (last := l.last) hn h.il.sorted
      rw [hc.1, List.mem_filter, decide_eq_true_eq] at hx
      rcases h0.rejected x hx.1 with h1 | h1
      · have hc' := take_eq (d := s.delay) (last := s.last) hn h.is.sorted
        have h1 : x ∈ (takeReady s.delay now 0 s.messages s.last).2.1 := h1
        rw [hc'.2, List.mem_filter, decide_eq_true_eq] at h1
        have := h.delay
        omega
      · exact h1
    · exact h0.last
  · rw [dispatch_content l]; exact h0.sub
  · refine h0.rejected x ?_
    rw [take_split l.delay now l.messages 0 l.last]
    exact List.mem_append_right _ hx

theorem queued_unlimited {s : State} (hq : s.queueSize = 0) (e : Ev) : (queued s e).messages = insertEv e s.messages := by
  unfold queued
  simp only
  rw [if_neg (by simp [hq])]

theorem queued_content {s : State} (hq : s.queueSize = 0) (hi : Inv s) {e : Ev} (he : s.last ≤ e.stamp) :
    (queued s e).out ++ (queued s e).messages = insertEv e (s.out ++ s.messages) := by
  rw [queued_unlimited hq, insert_after e (fun x hx => by have := hi.outLe x hx; omega)]
  rfl

theorem fewer_add {s l : State} (h : Fewer s l) (m : Msg) : Fewer (step s (.add m)) (step l (.add m)) := by
  by_cases hsys : m.source = Source.system
  · have hs : ∀ s : State, step s (.add m) = if m.ev.stamp < s.last then s else queued s m.ev := by
      intro s
      rcases add_eq s m with ⟨g1, _⟩ | ⟨_, g2, g3⟩ | ⟨_, g2, g3⟩
      · exact absurd hsys g1
      · simp only [step, g3, if_pos g2]
      · simp only [step, g3, if_neg (show ¬ m.ev.stamp < s.last by omega)]
    have := h.last
    rw [hs, hs]
    by_cases g1 : m.ev.stamp < l.last
    · rw [if_pos g1, if_pos (by omega)]; exact h
    · rw [if_neg g1]
      have hl := queued_content h.ql h.il (e := m.ev) (by omega)
      by_cases g2 : m.ev.stamp < s.last
      · rw [if_pos g2]
        refine ⟨h.delay, h.qs, h.ql, h.is, queued_inv h.il (by omega), h.last, ?_, fun x hx => ?_⟩
        · rw [hl]; exact h.sub.trans (insert_sublist_right _ _)
        · rw [queued_unlimited h.ql, insertEv_mem] at hx
          rcases hx with rfl | hx
          · exact Or.inr (Int.le_of_lt g2)
          · exact h.rejected x hx
      · rw [if_neg g2]
        refine ⟨h.delay, h.qs, h.ql, queued_inv h.is (by omega), queued_inv h.il (by omega), h.last, ?_, fun x hx => ?_⟩
        · rw [hl, queued_content h.qs h.is (by omega)]
          exact insert_mono _ h.sub (content_sorted h.is) (content_sorted h.il)
        · rw [queued_unlimited h.ql, insertEv_mem] at hx
          rw [queued_unlimited h.qs, insertEv_mem]
          rcases hx with rfl | hx
          · exact Or.inl (Or.inl rfl)
          · rcases h.rejected x hx with h1 | h1
            · exact Or.inl (Or.inr h1)
            · exact Or.inr h1
  · have hs : ∀ s : State, step s (.add m) = s := by
      intro s
      rcases add_eq s m with ⟨_, g2⟩ | ⟨g1, _⟩ | ⟨g1, _⟩
      · simp only [step, g2]
      · exact absurd g1 hsys
      · exact absurd g1 hsys
    rw [hs, hs]; exact h

theorem fewer_run {ops ops' : List Op} (ht : Thinned ops ops') : ∀ s l, Steady ops → Fewer s l → Fewer (ops.foldl step s) (ops'.foldl step l) := by
  induction ht with
  | nil => exact fun _ _ _ h => h
  | keep op _ ih =>
    intro s l hst h
    refine ih _ _ (fun now hn => hst now (List.mem_cons_of_mem _ hn)) ?_
    cases op with
    | add m => exact fewer_add h m
    | tick now => exact fewer_tick h (hst now (by simp))
  | skip now _ ih =>
    intro s l hst h
    exact ih _ _ (fun now hn => hst now (List.mem_cons_of_mem _ hn)) (fewer_skip h now)

theorem run_fewer {d d' : Int} (hd : d ≤ d') {ops ops' : List Op} (ht : Thinned ops ops') (hst : Steady ops) :
    Fewer (run d 0 ops) (run d' 0 ops') :=
  fewer_run ht _ _ hst ⟨hd, rfl, rfl, construct_inv d 0, construct_inv d' 0, Int.le_refl _, List.Sublist.refl _, fun x hx => by simp [construct] at hx⟩

theorem messages_added (d : Int) (q : Nat) (ops : List Op) {x : Ev} (hx : x ∈ (run d q ops).messages) : x ∈ added ops := by
  have h := run_content d q ops x.stamp
  have : x ∈ at' x.stamp ((run d q ops).out ++ (run d q ops).messages) := by
    unfold at'
    rw [List.mem_filter]
    exact ⟨List.mem_append_right _ hx, by simp⟩
  have h2 := h.subset this
  unfold at' at h2
  exact (List.mem_filter.1 h2).1

end MF.Sequencer
