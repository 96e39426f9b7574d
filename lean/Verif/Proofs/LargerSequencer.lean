import Verif.Proofs.SequencerRoom
/-
Helper lemmas for C129: two TimeSequencers with queues of different size.
-/
namespace MF.Sequencer

theorem strict_insert {e : Ev} {l : List Ev} (hl : StrictlyTimeSorted l) (he : ∀ x ∈ l, x.stamp ≠ e.stamp) :
    StrictlyTimeSorted (insertEv e l) := by
  obtain ⟨a, b, h1, h2, h3, h4⟩ := insertEv_spec e l (hl.imp (fun h => Int.le_of_lt h))
  unfold StrictlyTimeSorted at *
  rw [h2]
  rw [h1, List.pairwise_append] at hl
  rw [List.pairwise_append, List.pairwise_cons]
  refine ⟨hl.1, ⟨h4, hl.2.1⟩, fun x hx y hy => ?_⟩
  rcases List.mem_cons.1 hy with rfl | hy
  · have h5 := he x (by rw [h1]; simp [hx])
    have h6 := h3 x hx
    omega
  · exact hl.2.2 x hx y hy

theorem erase_strict {l : List Ev} (hl : StrictlyTimeSorted l) : eraseKeyOfFirst l = l.tail := by
  cases l with
  | nil => rfl
  | cons x l =>
    show (x :: l).filter (fun y => decide (y.stamp ≠ x.stamp)) = l
    rw [List.filter_cons_of_neg (by simp), List.filter_eq_self]
    intro y hy
    have := (List.pairwise_cons.1 hl).1 y hy
    simp; omega

theorem insert_split (e : Ev) {p s : List Ev} (h : StrictlyTimeSorted (p ++ s)) :
    (insertEv e (p ++ s) = insertEv e p ++ s ∧ ∀ x ∈ s, e.stamp < x.stamp) ∨ insertEv e (p ++ s) = p ++ insertEv e s := by
  induction p with
  | nil => exact Or.inr rfl
  | cons y p ih =>
    obtain ⟨h1, h2⟩ := List.pairwise_cons.1 h
    rw [List.cons_append, insertEv]
    by_cases hy : e.stamp < y.stamp
    · left
      rw [if_pos hy, insertEv, if_pos hy]
      refine ⟨rfl, fun x hx => ?_⟩
      have := h1 x (List.mem_append_right _ hx)
      omega
    · rw [if_neg hy, insertEv, if_neg hy]
      rcases ih h2 with ⟨h3, h4⟩ | h3
      · left; exact ⟨by rw [h3]; rfl, h4⟩
      · right; rw [h3]; rfl

theorem insert_front (e : Ev) {s : List Ev} (h : ∀ x ∈ s, e.stamp < x.stamp) : insertEv e s = e :: s := by
  cases s with
  | nil => rfl
  | cons x s => rw [insertEv, if_pos (h x (by simp))]

/-- How the states of a sequencer with queue size `q` and of one with a larger queue are related. -/
structure Larger (q : Nat) (s l : State) : Prop where
  out : s.out.Sublist l.out
  last : s.last ≤ l.last
  same : (l.messages = s.messages ∧ l.last = s.last) ∨ (s.messages.length = q ∧ s.messages <:+ l.messages)

theorem queued_full {s : State} {q : Nat} (hq : s.queueSize = q) (hq0 : 0 < q) {e : Ev}
    (hd : StrictlyTimeSorted (insertEv e s.messages)) (hl : s.messages.length = q) :
    (queued s e).messages = (insertEv e s.messages).tail := by
  unfold queued
  simp only
  rw [if_pos ⟨by omega, by rw [insertEv_length]; omega⟩, erase_strict hd]

theorem queued_larger {s l : State} {q q' : Nat} (hs : s.queueSize = q) (hl : l.queueSize = q') (hq : 0 < q) (hle : q' = 0 ∨ q ≤ q')
    (hb : s.messages.length ≤ q) (h : Larger q s l) {e : Ev} (hd : StrictlyTimeSorted l.messages) (he : ∀ x ∈ l.messages, x.stamp ≠ e.stamp) :
    Larger q (queued s e) (queued l e) := by
  have hM := strict_insert hd he
  rcases h.same with ⟨h1, h2⟩ | ⟨h1, p, h2⟩
  · refine ⟨h.out, h.last, ?_⟩
    rw [h1] at hM
    by_cases hf : s.messages.length = q
    · rw [queued_full hs hq hM hf]
      have hlen := insertEv_length e s.messages
      by_cases hq' : q' ≠ 0 ∧ (insertEv e s.messages).length > q'
      · left
        refine ⟨?_, h2⟩
        unfold queued
        simp only
        rw [hl, h1, if_pos hq', erase_strict hM]
      · right
        refine ⟨by rw [List.length_tail]; omega, ?_⟩
        unfold queued
        simp only
        rw [hl, h1, if_neg hq']
        exact List.tail_suffix _
    · left
      refine ⟨?_, h2⟩
      unfold queued
      simp only
      rw [hl, hs, h1, if_neg (by rw [insertEv_length]; omega), if_neg (by rw [insertEv_length]; omega)]
  · have hM' : StrictlyTimeSorted (insertEv e s.messages) := by
      refine strict_insert ?_ (fun x hx => he x (by rw [← h2]; simp [hx]))
      rw [← h2] at hd
      exact (List.pairwise_append.1 hd).2.1
    refine ⟨h.out, h.last, Or.inr ?_⟩
    rw [queued_full hs hq hM' h1]
    refine ⟨by rw [List.length_tail, insertEv_length]; omega, ?_⟩
    have key : ∃ y p', insertEv e l.messages = y :: p' ++ (insertEv e s.messages).tail := by
      rw [← h2] at hd ⊢
      rcases insert_split e hd with ⟨h3, h4⟩ | h3
      · rw [h3, insert_front e h4, List.tail_cons]
        cases hp : insertEv e p with
        | nil => have := insertEv_length e p; rw [hp] at this; simp at this
        | cons y p' => exact ⟨y, p', rfl⟩
      · rw [h3]
        cases hp : insertEv e s.messages with
        | nil => have := insertEv_length e s.messages; rw [hp] at this; simp at this
        | cons y p' =>
          cases p with
          | nil => exact ⟨y, [], rfl⟩
          | cons z p => exact ⟨z, p ++ [y], by simp⟩
    obtain ⟨y, p', h3⟩ := key
    unfold queued
    simp only
    split
    · rw [erase_strict hM, h3]
      exact ⟨p', rfl⟩
    · rw [h3]
      exact ⟨y :: p', rfl⟩

theorem take_eq {d c : Int} {now : Nat → Int} (hn : ∀ k, now k = c) {l : List Ev} {last : Int} (hl : TimeSorted l) :
    (takeReady d now 0 l last).1 = l.filter (fun x => decide (x.stamp + d ≤ c)) ∧
      (takeReady d now 0 l last).2.1 = l.filter (fun x => decide (c < x.stamp + d)) := by
  have h1 := take_split d now l 0 last
  obtain ⟨h2, h3⟩ := take_const d c now hn l 0 last hl
  generalize takeReady d now 0 l last = r at h1 h2 h3
  rw [h1, List.filter_append, List.filter_append, List.filter_eq_self.2 (fun x hx => by simpa using h2 x hx),
    List.filter_eq_nil_iff.2 (fun x hx => by have := h3 x hx; simp; omega),
    List.filter_eq_nil_iff.2 (fun x hx => by have := h2 x hx; simp; omega),
    List.filter_eq_self.2 (fun x hx => by simpa using h3 x hx)]
  simp

theorem dispatch_larger {s l : State} {q : Nat} (hsd : s.delay = l.delay) (h : Larger q s l) (his : Inv s) (hil : Inv l)
    {now : Nat → Int} (hn : ∀ k, now k = now 0) : Larger q (dispatch s now) (dispatch l now) := by
  have hs := take_eq (d := s.delay) (last := s.last) hn his.sorted
  have hl := take_eq (d := l.delay) (last := l.last) hn hil.sorted
  have hsl := take_last s.delay now s.messages 0 s.last
  have hll := take_last l.delay now l.messages 0 l.last
  rcases h.same with ⟨h1, h2⟩ | ⟨h1, p, h2⟩
  · have e : takeReady l.delay now 0 l.messages l.last = takeReady s.delay now 0 s.messages s.last := by rw [hsd, h1, h2]
    unfold dispatch
    rw [e]
    exact ⟨h.out.append_right _, Int.le_refl _, Or.inl ⟨rfl, rfl⟩⟩
  · rw [← h2, List.filter_append, List.filter_append, ← hsd] at hl
    rw [hsd] at hl
    by_cases hr : s.messages.filter (fun x => decide (x.stamp + s.delay ≤ now 0)) = []
    · have hrest : s.messages.filter (fun x => decide (now 0 < x.stamp + s.delay)) = s.messages := by
        rw [List.filter_eq_self]
        intro x hx
        have := List.filter_eq_nil_iff.1 hr x hx
        simp at this ⊢; omega
      rw [hs.1, hr] at hsl
      have hlast : l.last ≤ (dispatch l now).last := by
        show l.last ≤ (takeReady l.delay now 0 l.messages l.last).2.2
        rw [hll]
        split
        · rename_i x hx
          have h3 := List.mem_of_getLast? hx
          refine hil.fresh x ?_
          rw [take_split l.delay now l.messages 0 l.last]
          exact List.mem_append_left _ h3
        · exact Int.le_refl _
      refine ⟨?_, ?_, Or.inr ⟨?_, ?_⟩⟩
      · show (s.out ++ (takeReady s.delay now 0 s.messages s.last).1).Sublist (l.out ++ _)
        rw [hs.1, hr, List.append_nil]
        exact h.out.trans (List.sublist_append_left _ _)
      · refine Int.le_trans ?_ hlast
        show (takeReady s.delay now 0 s.messages s.last).2.2 ≤ _
        rw [hsl]
        exact h.last
      · show ((takeReady s.delay now 0 s.messages s.last).2.1).length = q
        rw [hs.2, hrest]; exact h1
      · show (takeReady s.delay now 0 s.messages s.last).2.1 <:+ (takeReady l.delay now 0 l.messages l.last).2.1
        rw [hs.2, hrest, ← h2, hl.2, ← hsd, hrest]
        exact List.suffix_append _ _
    · have hsorted := hil.sorted
      unfold TimeSorted at hsorted
      rw [← h2, List.pairwise_append] at hsorted
      obtain ⟨x, hx⟩ := List.exists_mem_of_ne_nil _ hr
      rw [List.mem_filter, decide_eq_true_eq] at hx
      have hp1 : p.filter (fun x => decide (now 0 < x.stamp + s.delay)) = [] := by
        rw [List.filter_eq_nil_iff]
        intro y hy
        have := hsorted.2.2 y hy x hx.1
        have := hx.2
        simp; omega
      have hm : (takeReady l.delay now 0 l.messages l.last).2.1 = (takeReady s.delay now 0 s.messages s.last).2.1 := by
        rw [hs.2, ← h2, hl.2, ← hsd, hp1, List.nil_append]
      have hlast : (takeReady l.delay now 0 l.messages l.last).2.2 = (takeReady s.delay now 0 s.messages s.last).2.2 := by
        rw [hll, hsl, hs.1]
        rw [← h2, hl.1, ← hsd, List.getLast?_append]
        cases hg : (s.messages.filter (fun x => decide (x.stamp + s.delay ≤ now 0))).getLast? with
        | none => exact absurd (List.getLast?_eq_none_iff.1 hg) hr
        | some y => rfl
      refine ⟨?_, Int.le_of_eq hlast.symm, Or.inl ⟨hm, hlast⟩⟩
      show (s.out ++ (takeReady s.delay now 0 s.messages s.last).1).Sublist (l.out ++ (takeReady l.delay now 0 l.messages l.last).1)
      rw [hs.1, ← h2, hl.1, ← hsd]
      exact h.out.append (List.sublist_append_right _ _)

theorem run_larger (d : Int) (q q' : Nat) (hq : 0 < q) (hle : q' = 0 ∨ q ≤ q') (ops : List Op) :
    Steady ops → ((added ops).map (·.stamp)).Nodup → Larger q (run d q ops) (run d q' ops) ∧
      StrictlyTimeSorted (run d q' ops).messages ∧ ∀ x ∈ (run d q' ops).messages, x ∈ added ops := by
  induction ops using snoc_induction with
  | h0 => exact fun _ _ => ⟨⟨List.Sublist.refl _, Int.le_refl _, Or.inl ⟨rfl, rfl⟩⟩, List.Pairwise.nil, fun x hx => by simp [run, construct] at hx⟩
  | hs ops op ih =>
    intro hst hnd
    rw [added_snoc, List.map_append] at hnd
    obtain ⟨h1, h2, h3⟩ := ih (fun now hn => hst now (List.mem_append_left _ hn)) (List.nodup_append.1 hnd).1
    rw [run_snoc, run_snoc]
    have cs := run_config d q ops
    have cl := run_config d q' ops
    have is := run_inv d q ops
    have il := run_inv d q' ops
    have hsub : ∀ x ∈ added ops, x ∈ added (ops ++ [op]) := fun x hx => by rw [added_snoc]; exact List.mem_append_left _ hx
    cases op with
    | tick now =>
      have hn : ∀ k, now k = now 0 := hst now (by simp)
      refine ⟨dispatch_larger (by rw [cs.1, cl.1]) h1 is il hn, ?_, fun x hx => ?_⟩
      · have := take_split (run d q' ops).delay now (run d q' ops).messages 0 (run d q' ops).last
        rw [this] at h2
        exact (List.pairwise_append.1 h2).2.1
      · refine hsub x (h3 x ?_)
        rw [take_split (run d q' ops).delay now (run d q' ops).messages 0 (run d q' ops).last]
        exact List.mem_append_right _ hx
    | add m =>
      by_cases hsys : m.source = Source.system
      · have hadd : added [Op.add m] = [m.ev] := by simp [added, hsys]
        have he : ∀ x ∈ (run d q' ops).messages, x.stamp ≠ m.ev.stamp := by
          intro x hx
          rw [hadd] at hnd
          exact (List.nodup_append.1 hnd).2.2 _ (List.mem_map.2 ⟨x, h3 x hx, rfl⟩) _ (by simp)
        have hs : ∀ s : State, step s (.add m) = if m.ev.stamp < s.last then s else queued s m.ev := by
          intro s
          rcases add_eq s m with ⟨g1, _⟩ | ⟨_, g2, g3⟩ | ⟨_, g2, g3⟩
          · exact absurd hsys g1
          · simp only [step, g3, if_pos g2]
          · simp only [step, g3, if_neg (show ¬ m.ev.stamp < s.last by omega)]
        have hL : StrictlyTimeSorted (step (run d q' ops) (.add m)).messages ∧
            ∀ x ∈ (step (run d q' ops) (.add m)).messages, x ∈ added (ops ++ [.add m]) := by
          rw [hs]
          split
          · exact ⟨h2, fun x hx => hsub x (h3 x hx)⟩
          · have hq : (queued (run d q' ops) m.ev).messages.Sublist (insertEv m.ev (run d q' ops).messages) := by
              unfold queued; simp only; split
              · exact erase_sublist _
              · exact List.Sublist.refl _
            refine ⟨List.Pairwise.sublist hq (strict_insert h2 he), fun x hx => ?_⟩
            rcases (insertEv_mem _ _ _).1 (hq.subset hx) with rfl | hx
            · rw [added_snoc, hadd]; simp
            · exact hsub x (h3 x hx)
        refine ⟨?_, hL⟩
        rw [hs, hs]
        by_cases g1 : m.ev.stamp < (run d q ops).last
        · have := h1.last
          rw [if_pos g1, if_pos (by omega)]
          exact h1
        · rw [if_neg g1]
          by_cases g2 : m.ev.stamp < (run d q' ops).last
          · rw [if_pos g2]
            rcases h1.same with ⟨_, h5⟩ | ⟨h4, h5⟩
            · omega
            · have hlt : ∀ x ∈ (run d q ops).messages, m.ev.stamp < x.stamp := fun x hx => by
                have := il.fresh x (h5.subset hx)
                omega
              have hM := strict_insert (e := m.ev) (h2.sublist h5.sublist) (fun x hx => by have := hlt x hx; omega)
              have hm := queued_full cs.2 hq hM h4
              rw [insert_front _ hlt, List.tail_cons] at hm
              exact ⟨h1.out, h1.last, Or.inr (by rw [hm]; exact ⟨h4, h5⟩)⟩
          · rw [if_neg g2]
            exact queued_larger cs.2 cl.2 hq hle (by have := is.bound (by rw [cs.2]; omega); rw [cs.2] at this; exact this) h1 h2 he
      · have hs : ∀ s : State, step s (.add m) = s := by
          intro s
          rcases add_eq s m with ⟨_, g2⟩ | ⟨g1, _⟩ | ⟨g1, _⟩
          · simp only [step, g2]
          · exact absurd g1 hsys
          · exact absurd g1 hsys
        rw [hs, hs]
        exact ⟨h1, h2, fun x hx => hsub x (h3 x hx)⟩

end MF.Sequencer
