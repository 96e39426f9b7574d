import Verif.Spec.SequencerConc
import Verif.Proofs.Sequencer
/-
Lemmas for the concurrent TimeSequencer.
-/
namespace MF.Sequencer

theorem crun_snoc (d : Int) (q : Nat) (acts : List Act) (a : Act) : crun d q (acts ++ [a]) = cstep (crun d q acts) a := by
  unfold crun; rw [List.foldl_append]; rfl

theorem setAt_same (f : Nat → List Ev) (w : Nat) (l : List Ev) : setAt f w l w = l := by simp [setAt]

theorem setAt_ne (f : Nat → List Ev) {w v : Nat} (h : v ≠ w) (l : List Ev) : setAt f w l v = f v := by simp [setAt, h]

theorem addCalls_snoc (acts : List Act) (a : Act) : addCalls (acts ++ [a]) = addCalls acts ++ addCalls [a] := by
  simp [addCalls]

theorem addsOf_snoc (ops : List Op) (o : Op) : addsOf (ops ++ [o]) = addsOf ops ++ addsOf [o] := by
  simp [addsOf]

/-- Replacing the list of one thread below `W`. -/
theorem flatMap_setAt (f : Nat → List Ev) (w : Nat) (l : List Ev) : ∀ W, w < W →
    ((List.range W).flatMap (setAt f w l)).Perm (l ++ (List.range W).flatMap (setAt f w [])) := by
  intro W
  induction W with
  | zero => intro h; omega
  | succ W ih =>
    intro h
    rw [List.range_succ, List.flatMap_append, List.flatMap_append]
    simp only [List.flatMap_cons, List.flatMap_nil, List.append_nil]
    by_cases hw : w < W
    · rw [setAt_ne f (by omega), setAt_ne f (by omega), ← List.append_assoc]
      exact (ih hw).append_right _
    · have hW : W = w := by omega
      subst hW
      rw [setAt_same, setAt_same, List.append_nil]
      have : (List.range W).flatMap (setAt f W l) = (List.range W).flatMap (setAt f W []) := by
        have h2 : ∀ (L : List Nat), (∀ x ∈ L, x ≠ W) → L.flatMap (setAt f W l) = L.flatMap (setAt f W []) := by
          intro L
          induction L with
          | nil => intro _; rfl
          | cons x L ihL =>
            intro hx
            rw [List.flatMap_cons, List.flatMap_cons, ihL (fun y hy => hx y (by simp [hy])),
              setAt_ne f (hx x (by simp)), setAt_ne f (hx x (by simp))]
        exact h2 _ (fun x hx => by rw [List.mem_range] at hx; omega)
      rw [this]
      exact List.perm_append_comm

theorem setAt_self (f : Nat → List Ev) (w : Nat) : setAt f w (f w) = f := by
  funext v; unfold setAt; split
  · rename_i h; rw [h]
  · rfl

/-- What every schedule has in common with a history of a sequencer used by one thread. -/
structure Sim (W : Nat) (acts : List Act) (c : Conc) (ops : List Op) (s : State) : Prop where
  adds : addsOf ops = addCalls acts
  ticks : ∀ now, Op.tick now ∈ ops → ∃ w, Act.take w now ∈ acts
  messages : c.base.messages = s.messages
  last : c.base.last = s.last
  delay : c.base.delay = s.delay
  size : c.base.queueSize = s.queueSize
  content : (c.base.out ++ inFlight W c).Perm s.out
  flight : ∀ w, (c.flight w).Sublist s.out

theorem queued_out (s : State) (e : Ev) : (queued s e).out = s.out := rfl

theorem step_add_congr {a b : State} (hm : a.messages = b.messages) (hl : a.last = b.last) (hq : a.queueSize = b.queueSize)
    (m : Msg) :
    (step a (.add m)).messages = (step b (.add m)).messages ∧ (step a (.add m)).last = (step b (.add m)).last := by
  unfold step
  rcases add_eq a m with ⟨h1, h2⟩ | ⟨h1, h1', h2⟩ | ⟨h1, h1', h2⟩ <;>
    rcases add_eq b m with ⟨g1, g2⟩ | ⟨g1, g1', g2⟩ | ⟨g1, g1', g2⟩ <;> simp only [h2, g2]
  all_goals first
    | exact absurd g1 h1
    | exact absurd h1 g1
    | exact ⟨hm, hl⟩
    | (exfalso; omega)
    | (unfold queued; rw [hm, hq]; exact ⟨rfl, hl⟩)

theorem step_add_out (s : State) (m : Msg) :
    (step s (.add m)).out = s.out ∧ (step s (.add m)).delay = s.delay ∧ (step s (.add m)).queueSize = s.queueSize := by
  rcases step_cases s (.add m) with ⟨h, _⟩ | ⟨m', _, _, _, h⟩ | ⟨now, h0, _⟩
  · rw [h]; exact ⟨rfl, rfl, rfl⟩
  · rw [h]; exact ⟨rfl, rfl, rfl⟩
  · cases h0

theorem sim_exists (d : Int) (q W : Nat) (acts : List Act) (hW : TimersBelow W acts) :
    ∃ ops, Sim W acts (crun d q acts) ops (run d q ops) := by
  induction acts using snoc_induction with
  | h0 =>
    refine ⟨[], rfl, by simp, rfl, rfl, rfl, rfl, ?_, fun w => List.nil_sublist _⟩
    have : inFlight W (crun d q []) = [] := by
      unfold inFlight
      rw [List.flatMap_eq_nil_iff]; intro x _; rfl
    rw [this]; exact List.Perm.refl _
  | hs acts a ih =>
    obtain ⟨ops, h⟩ := ih (fun x hx => hW x (by simp [hx]))
    have ha := hW a (by simp)
    rw [crun_snoc]
    generalize crun d q acts = c at h
    cases a with
    | add m =>
      refine ⟨ops ++ [.add m], ?_⟩
      rw [run_snoc]
      obtain ⟨h1, h2⟩ := step_add_congr h.messages h.last h.size m
      obtain ⟨g1, g2, g3⟩ := step_add_out c.base m
      obtain ⟨k1, k2, k3⟩ := step_add_out (run d q ops) m
      refine ⟨?_, ?_, h1, h2, ?_, ?_, ?_, ?_⟩
      · rw [addsOf_snoc, addCalls_snoc, h.adds]; rfl
      · intro now hn
        simp only [List.mem_append, List.mem_singleton, reduceCtorEq, or_false] at hn
        obtain ⟨w, hw⟩ := h.ticks now hn
        exact ⟨w, by simp [hw]⟩
      · show (step c.base (.add m)).delay = _
        rw [g2, k2, h.delay]
      · show (step c.base (.add m)).queueSize = _
        rw [g3, k3, h.size]
      · show ((step c.base (.add m)).out ++ inFlight W c).Perm _
        rw [g1, k1]; exact h.content
      · intro w; rw [k1]; exact h.flight w
    | take w now =>
      have hw : w < W := ha
      cases hf : c.flight w with
      | cons x l =>
        refine ⟨ops, ?_⟩
        have hc : cstep c (.take w now) = c := by simp [cstep, hf]
        rw [hc]
        refine ⟨?_, ?_, h.messages, h.last, h.delay, h.size, h.content, h.flight⟩
        · rw [addCalls_snoc, h.adds]; simp [addCalls]
        · intro now' hn
          obtain ⟨v, hv⟩ := h.ticks now' hn
          exact ⟨v, by simp [hv]⟩
      | nil =>
        refine ⟨ops ++ [.tick now], ?_⟩
        rw [run_snoc]
        have hc : cstep c (.take w now) =
            { base := { c.base with messages := (takeReady c.base.delay now 0 c.base.messages c.base.last).2.1,
                                    last := (takeReady c.base.delay now 0 c.base.messages c.base.last).2.2 },
              flight := setAt c.flight w (takeReady c.base.delay now 0 c.base.messages c.base.last).1 } := by
          simp [cstep, hf]
        rw [hc]
        refine ⟨?_, ?_, ?_, ?_, h.delay, h.size, ?_, ?_⟩
        · rw [addCalls_snoc, addsOf_snoc, h.adds]; rfl
        · intro now' hn
          rw [List.mem_append, List.mem_singleton] at hn
          rcases hn with hn | hn
          · obtain ⟨v, hv⟩ := h.ticks now' hn
            exact ⟨v, by simp [hv]⟩
          · cases hn; exact ⟨w, by simp⟩
        · show _ = (dispatch (run d q ops) now).messages
          unfold dispatch
          rw [h.delay, h.messages, h.last]
        · show _ = (dispatch (run d q ops) now).last
          unfold dispatch
          rw [h.delay, h.messages, h.last]
        · show (c.base.out ++ (List.range W).flatMap (setAt c.flight w _)).Perm (dispatch (run d q ops) now).out
          have h1 := flatMap_setAt c.flight w (takeReady c.base.delay now 0 c.base.messages c.base.last).1 W hw
          have h2 : setAt c.flight w [] = c.flight := by rw [← hf]; exact setAt_self _ _
          rw [h2] at h1
          have h3 : (dispatch (run d q ops) now).out =
              (run d q ops).out ++ (takeReady c.base.delay now 0 c.base.messages c.base.last).1 := by
            unfold dispatch
            rw [h.delay, h.messages, h.last]
          rw [h3]
          refine (h1.append_left _).trans ?_
          rw [← List.append_assoc]
          refine (List.perm_append_comm.append_right _).trans ?_
          rw [List.append_assoc]
          exact List.perm_append_comm.trans (h.content.append_right _)
        · intro v
          show (setAt c.flight w _ v).Sublist (dispatch (run d q ops) now).out
          have h3 : (dispatch (run d q ops) now).out =
              (run d q ops).out ++ (takeReady c.base.delay now 0 c.base.messages c.base.last).1 := by
            unfold dispatch
            rw [h.delay, h.messages, h.last]
          rw [h3]
          by_cases hv : v = w
          · subst hv; rw [setAt_same]; exact List.sublist_append_right _ _
          · rw [setAt_ne _ hv]; exact (h.flight v).trans (List.sublist_append_left _ _)
    | deliver w =>
      have hw : w < W := ha
      refine ⟨ops, ?_⟩
      have hadds : addsOf ops = addCalls (acts ++ [Act.deliver w]) := by
        rw [addCalls_snoc, h.adds]; simp [addCalls]
      have hticks : ∀ now, Op.tick now ∈ ops → ∃ v, Act.take v now ∈ acts ++ [Act.deliver w] := by
        intro now' hn
        obtain ⟨v, hv⟩ := h.ticks now' hn
        exact ⟨v, by simp [hv]⟩
      cases hf : c.flight w with
      | nil =>
        have hc : cstep c (.deliver w) = c := by simp [cstep, hf]
        rw [hc]
        exact ⟨hadds, hticks, h.messages, h.last, h.delay, h.size, h.content, h.flight⟩
      | cons e l =>
        have hc : cstep c (.deliver w) =
            { base := { c.base with out := c.base.out ++ [e] }, flight := setAt c.flight w l } := by
          simp [cstep, hf]
        rw [hc]
        refine ⟨hadds, hticks, h.messages, h.last, h.delay, h.size, ?_, ?_⟩
        · refine List.Perm.trans ?_ h.content
          show (c.base.out ++ [e] ++ (List.range W).flatMap (setAt c.flight w l)).Perm (c.base.out ++ (List.range W).flatMap c.flight)
          rw [List.append_assoc]
          refine List.Perm.append_left _ ?_
          have h1 := flatMap_setAt c.flight w l W hw
          have h2 := flatMap_setAt c.flight w (e :: l) W hw
          have h4 : setAt c.flight w (e :: l) = c.flight := by rw [← hf]; exact setAt_self _ _
          rw [h4] at h2
          exact (h1.cons e).trans h2.symm
        · intro v
          show (setAt c.flight w l v).Sublist _
          by_cases hv : v = w
          · subst hv; rw [setAt_same]
            have := h.flight v
            rw [hf] at this
            exact (List.sublist_cons_self e l).trans this
          · rw [setAt_ne _ hv]; exact h.flight v

/-- With one timer thread, what has been output followed by what is in flight is what a sequencer used by one thread outputs. -/
theorem single_exists (d : Int) (q w : Nat) (acts : List Act) (hw : OnlyTimer w acts) :
    ∃ ops, addsOf ops = addCalls acts ∧ (∀ now, Op.tick now ∈ ops → Act.take w now ∈ acts) ∧
      (crun d q acts).base.messages = (run d q ops).messages ∧ (crun d q acts).base.last = (run d q ops).last ∧
      (crun d q acts).base.out ++ (crun d q acts).flight w = (run d q ops).out ∧
      (crun d q acts).base.delay = d ∧ (crun d q acts).base.queueSize = q := by
  induction acts using snoc_induction with
  | h0 => exact ⟨[], rfl, by simp, rfl, rfl, rfl, rfl, rfl⟩
  | hs acts a ih =>
    obtain ⟨ops, h1, h2, h3, h4, h5, h6, h7⟩ := ih (fun x hx => hw x (by simp [hx]))
    have ha := hw a (by simp)
    have hcfg := run_config d q ops
    rw [crun_snoc]
    generalize crun d q acts = c at h3 h4 h5 h6 h7
    cases a with
    | add m =>
      refine ⟨ops ++ [.add m], ?_⟩
      rw [run_snoc]
      obtain ⟨g1, g2⟩ := step_add_congr h3 h4 (h7.trans hcfg.2.symm) m
      obtain ⟨k1, k2, k3⟩ := step_add_out c.base m
      obtain ⟨l1, l2, l3⟩ := step_add_out (run d q ops) m
      refine ⟨?_, ?_, g1, g2, ?_, k2.trans h6, k3.trans h7⟩
      · rw [addsOf_snoc, addCalls_snoc, h1]; rfl
      · intro now hn
        simp only [List.mem_append, List.mem_singleton, reduceCtorEq, or_false] at hn
        simp [h2 now hn]
      · show (step c.base (.add m)).out ++ c.flight w = _
        rw [k1, l1]; exact h5
    | take v now =>
      have hv : v = w := ha
      subst hv
      cases hf : c.flight v with
      | cons x l =>
        have hc : cstep c (.take v now) = c := by simp [cstep, hf]
        rw [hc]
        refine ⟨ops, ?_, ?_, h3, h4, h5, h6, h7⟩
        · rw [addCalls_snoc, h1]; simp [addCalls]
        · intro now' hn; simp [h2 now' hn]
      | nil =>
        refine ⟨ops ++ [.tick now], ?_⟩
        rw [run_snoc]
        have hc : cstep c (.take v now) =
            { base := { c.base with messages := (takeReady c.base.delay now 0 c.base.messages c.base.last).2.1,
                                    last := (takeReady c.base.delay now 0 c.base.messages c.base.last).2.2 },
              flight := setAt c.flight v (takeReady c.base.delay now 0 c.base.messages c.base.last).1 } := by
          simp [cstep, hf]
        rw [hc]
        refine ⟨?_, ?_, ?_, ?_, ?_, h6, h7⟩
        · rw [addCalls_snoc, addsOf_snoc, h1]; rfl
        · intro now' hn
          rw [List.mem_append, List.mem_singleton] at hn
          rcases hn with hn | hn
          · simp [h2 now' hn]
          · cases hn; simp
        · show _ = (dispatch (run d q ops) now).messages
          unfold dispatch
          rw [h6, h3, h4, hcfg.1]
        · show _ = (dispatch (run d q ops) now).last
          unfold dispatch
          rw [h6, h3, h4, hcfg.1]
        · show c.base.out ++ setAt c.flight v _ v = (dispatch (run d q ops) now).out
          unfold dispatch
          rw [setAt_same, h6, h3, h4, hcfg.1]
          rw [hf, List.append_nil] at h5
          rw [h5]
    | deliver v =>
      have hv : v = w := ha
      subst hv
      refine ⟨ops, ?_⟩
      have hadds : addsOf ops = addCalls (acts ++ [Act.deliver v]) := by
        rw [addCalls_snoc, h1]; simp [addCalls]
      have hticks : ∀ now, Op.tick now ∈ ops → Act.take v now ∈ acts ++ [Act.deliver v] := by
        intro now' hn; simp [h2 now' hn]
      cases hf : c.flight v with
      | nil =>
        have hc : cstep c (.deliver v) = c := by simp [cstep, hf]
        rw [hc]
        exact ⟨hadds, hticks, h3, h4, h5, h6, h7⟩
      | cons e l =>
        have hc : cstep c (.deliver v) =
            { base := { c.base with out := c.base.out ++ [e] }, flight := setAt c.flight v l } := by
          simp [cstep, hf]
        rw [hc]
        refine ⟨hadds, hticks, h3, h4, ?_, h6, h7⟩
        show c.base.out ++ [e] ++ setAt c.flight v l v = _
        rw [setAt_same, ← h5, hf, List.append_assoc]; rfl

/-- Every message output by a sequencer used by one thread waited for its delay. -/
theorem out_waited (d : Int) (q : Nat) (ops : List Op) (e : Ev) (he : e ∈ (run d q ops).out) :
    ∃ now k, Op.tick now ∈ ops ∧ e.stamp + d ≤ now k := by
  induction ops using snoc_induction with
  | h0 => simp [run, construct] at he
  | hs ops op ih =>
    rw [run_snoc] at he
    rcases step_cases (run d q ops) op with ⟨h, _⟩ | ⟨m, _, _, _, h⟩ | ⟨now, hop, h⟩ <;> rw [h] at he
    · obtain ⟨now, k, h1, h2⟩ := ih he
      exact ⟨now, k, by simp [h1], h2⟩
    · obtain ⟨now, k, h1, h2⟩ := ih he
      exact ⟨now, k, by simp [h1], h2⟩
    · have h3 : e ∈ (run d q ops).out ++ (takeReady (run d q ops).delay now 0 (run d q ops).messages (run d q ops).last).1 := he
      rw [List.mem_append] at h3
      rcases h3 with h3 | h3
      · obtain ⟨now, k, h1, h2⟩ := ih h3
        exact ⟨now, k, by simp [h1], h2⟩
      · obtain ⟨j, hj⟩ := List.getElem?_of_mem h3
        have := take_ready _ _ _ _ _ _ _ hj
        rw [(run_config d q ops).1] at this
        exact ⟨now, 0 + j, by simp [hop], this⟩

theorem added_addsOf (ops : List Op) : added (addsOf ops) = added ops := by
  induction ops with
  | nil => rfl
  | cons o ops ih =>
    cases o with
    | add m => 
      have h1 : addsOf (Op.add m :: ops) = Op.add m :: addsOf ops := rfl
      rw [h1]; unfold added at *; rw [List.filterMap_cons, List.filterMap_cons, ih]
    | tick now =>
      have h1 : addsOf (Op.tick now :: ops) = addsOf ops := rfl
      rw [h1]; unfold added at *; rw [List.filterMap_cons, ih]

end MF.Sequencer
