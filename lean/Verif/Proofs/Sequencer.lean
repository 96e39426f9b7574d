import Verif.Spec.Sequencer
import Verif.Proofs.Multiset
/-
Helper lemmas about the TimeSequencer model.
-/
namespace MF.Sequencer

theorem take_split (d : Int) (now : Nat → Int) : ∀ (l : List Ev) (k : Nat) (last : Int),
    l = (takeReady d now k l last).1 ++ (takeReady d now k l last).2.1 := by
  intro l
  induction l with
  | nil => intro k last; rfl
  | cons e l ih =>
    intro k last
    unfold takeReady
    split
    · simp only [List.cons_append]; rw [← ih]
    · rfl

theorem take_ready (d : Int) (now : Nat → Int) : ∀ (l : List Ev) (k : Nat) (last : Int) (j : Nat) (e : Ev),
    (takeReady d now k l last).1[j]? = some e → e.stamp + d ≤ now (k + j) := by
  intro l
  induction l with
  | nil => intro k last j e h; simp [takeReady] at h
  | cons x l ih =>
    intro k last j e h
    unfold takeReady at h
    split at h
    · rename_i hx
      cases j with
      | zero => simp at h; subst h; exact hx
      | succ j =>
        simp at h
        have := ih (k+1) x.stamp j e h
        rw [show k + (j + 1) = k + 1 + j by omega]; exact this
    · simp at h

theorem take_rest (d : Int) (now : Nat → Int) : ∀ (l : List Ev) (k : Nat) (last : Int) (e : Ev) (tl : List Ev),
    (takeReady d now k l last).2.1 = e :: tl → now (k + (takeReady d now k l last).1.length) < e.stamp + d := by
  intro l
  induction l with
  | nil => intro k last e tl h; simp [takeReady] at h
  | cons x l ih =>
    intro k last e tl h
    unfold takeReady at h ⊢
    split
    · rename_i hx
      rw [if_pos hx] at h
      simp only [List.length_cons] at h ⊢
      have := ih (k+1) x.stamp e tl h
      rw [show k + ((takeReady d now (k + 1) l x.stamp).1.length + 1) = k + 1 + (takeReady d now (k + 1) l x.stamp).1.length by omega]
      exact this
    · rename_i hx
      rw [if_neg hx] at h
      simp at h
      obtain ⟨rfl, _⟩ := h
      simp only [List.length_nil, Nat.add_zero]
      omega

theorem take_last (d : Int) (now : Nat → Int) : ∀ (l : List Ev) (k : Nat) (last : Int),
    (takeReady d now k l last).2.2 = match (takeReady d now k l last).1.getLast? with | some e => e.stamp | none => last := by
  intro l
  induction l with
  | nil => intro k last; rfl
  | cons x l ih =>
    intro k last
    unfold takeReady
    split
    · simp only
      rw [ih (k+1) x.stamp, List.getLast?_cons]
      cases (takeReady d now (k + 1) l x.stamp).1.getLast? <;> rfl
    · rfl

theorem erase_sublist (l : List Ev) : (eraseKeyOfFirst l).Sublist l := by
  cases l with
  | nil => exact List.Sublist.refl _
  | cons x l => exact List.filter_sublist

theorem erase_length (x : Ev) (l : List Ev) : (eraseKeyOfFirst (x :: l)).length ≤ l.length := by
  show ((x :: l).filter (fun y => decide (y.stamp ≠ x.stamp))).length ≤ _
  rw [List.filter_cons_of_neg (by simp)]
  exact List.length_filter_le _ _

/-- The state after a message was put into the queue. -/
def queued (s : State) (e : Ev) : State :=
  { s with messages := if s.queueSize ≠ 0 ∧ (insertEv e s.messages).length > s.queueSize
                       then eraseKeyOfFirst (insertEv e s.messages) else insertEv e s.messages }

theorem add_eq (s : State) (m : Msg) :
    (m.source ≠ Source.system ∧ add s m = .error .threw) ∨
    (m.source = Source.system ∧ m.ev.stamp < s.last ∧ add s m = .ok s) ∨
    (m.source = Source.system ∧ s.last ≤ m.ev.stamp ∧ add s m = .ok (queued s m.ev)) := by
  unfold add
  by_cases h1 : m.source = Source.system
  · right
    rw [if_neg (by simpa using h1)]
    by_cases h2 : m.ev.stamp < s.last
    · left; rw [if_pos h2]; exact ⟨h1, h2, rfl⟩
    · right; rw [if_neg h2]; exact ⟨h1, by omega, rfl⟩
  · left; rw [if_pos (by exact h1)]; exact ⟨h1, rfl⟩

/-- Every call leaves the state, queues a message or dispatches. -/
theorem step_cases (s : State) (op : Op) :
    (step s op = s ∧ ∀ m, op = .add m → m.source = Source.system → m.ev.stamp < s.last) ∨
    (∃ m, op = .add m ∧ m.source = Source.system ∧ s.last ≤ m.ev.stamp ∧ step s op = queued s m.ev) ∨
    (∃ now, op = .tick now ∧ step s op = dispatch s now) := by
  cases op with
  | tick now => right; right; exact ⟨now, rfl, rfl⟩
  | add m =>
    rcases add_eq s m with ⟨h1, h2⟩ | ⟨h1, h2, h3⟩ | ⟨h1, h2, h3⟩
    · left
      refine ⟨by simp only [step, h2], ?_⟩
      intro m' hm hs
      cases hm
      exact absurd hs h1
    · left
      refine ⟨by simp only [step, h3], ?_⟩
      intro m' hm _
      cases hm
      exact h2
    · right; left
      exact ⟨m, rfl, h1, h2, by simp only [step, h3]⟩

structure Inv (s : State) : Prop where
  sorted : TimeSorted s.messages
  fresh : ∀ x ∈ s.messages, s.last ≤ x.stamp
  out : TimeSorted s.out
  outLe : ∀ x ∈ s.out, x.stamp ≤ s.last
  last : s.last = lastOutput s
  bound : s.queueSize ≠ 0 → s.messages.length ≤ s.queueSize

theorem queued_inv {s : State} (hi : Inv s) {e : Ev} (he : s.last ≤ e.stamp) : Inv (queued s e) := by
  have hsub : (queued s e).messages.Sublist (insertEv e s.messages) := by
    unfold queued; simp only; split
    · exact erase_sublist _
    · exact List.Sublist.refl _
  refine ⟨(insertEv_sorted e _ hi.sorted).sublist hsub, ?_, hi.out, hi.outLe, hi.last, ?_⟩
  · intro x hx
    have := hsub.subset hx
    rw [insertEv_mem] at this
    rcases this with h | h
    · rw [h]; exact he
    · exact hi.fresh x h
  · intro hq
    show (queued s e).messages.length ≤ s.queueSize
    have hb := hi.bound hq
    have hl := insertEv_length e s.messages
    unfold queued; simp only
    split
    · cases hm : insertEv e s.messages with
      | nil => rw [hm] at hl; simp at hl
      | cons x l =>
        have := erase_length x l
        rw [hm] at hl; simp at hl
        omega
    · rename_i hc
      have hc' : ¬ (insertEv e s.messages).length > s.queueSize := fun h => hc ⟨hq, h⟩
      omega

theorem dispatch_inv {s : State} (hi : Inv s) (now : Nat → Int) : Inv (dispatch s now) := by
  have hsplit := take_split s.delay now s.messages 0 s.last
  have hlast := take_last s.delay now s.messages 0 s.last
  unfold dispatch
  generalize takeReady s.delay now 0 s.messages s.last = r at hsplit hlast
  obtain ⟨a, b, c⟩ := r
  simp only at hsplit hlast ⊢
  have hs := hi.sorted
  rw [hsplit] at hs
  obtain ⟨h1, h2, h3⟩ := List.pairwise_append.1 hs
  have hla : ∀ x ∈ a, x.stamp ≤ c := by
    intro x hx
    obtain ⟨l, y, rfl⟩ : ∃ l y, a = l ++ [y] := ⟨_, _, (List.dropLast_concat_getLast (List.ne_nil_of_mem hx)).symm⟩
    simp at hlast
    subst hlast
    rcases List.mem_append.1 hx with hx | hx
    · exact (List.pairwise_append.1 h1).2.2 x hx y (by simp)
    · rw [List.mem_singleton] at hx; rw [hx]; exact Int.le_refl _
  have hlc : s.last ≤ c := by
    cases hg : a.getLast? with
    | none => rw [hg] at hlast; simp at hlast; omega
    | some y =>
      rw [hg] at hlast; simp at hlast
      rw [hlast]
      exact hi.fresh y (by rw [hsplit]; exact List.mem_append_left _ (List.mem_of_getLast? hg))
  refine ⟨h2, ?_, ?_, ?_, ?_, ?_⟩
  · intro x hx
    cases hg : a.getLast? with
    | none =>
      rw [hg] at hlast; simp at hlast
      rw [hlast]
      exact hi.fresh x (by rw [hsplit]; exact List.mem_append_right _ hx)
    | some y =>
      rw [hg] at hlast; simp at hlast
      rw [hlast]
      exact h3 y (List.mem_of_getLast? hg) x hx
  · refine List.pairwise_append.2 ⟨hi.out, h1, ?_⟩
    intro x hx y hy
    have := hi.outLe x hx
    have := hi.fresh y (by rw [hsplit]; exact List.mem_append_left _ hy)
    omega
  · intro x hx
    rcases List.mem_append.1 hx with hx | hx
    · have := hi.outLe x hx; simp only; omega
    · exact hla x hx
  · unfold lastOutput
    simp only
    rw [List.getLast?_append]
    cases hg : a.getLast? with
    | none =>
      rw [hg] at hlast; simp at hlast
      rw [hlast]; simpa [lastOutput] using hi.last
    | some y => rw [hg] at hlast; simpa using hlast
  · intro hq
    have := hi.bound hq
    rw [hsplit] at this
    simp at this
    show b.length ≤ s.queueSize
    omega

theorem step_inv {s : State} (hi : Inv s) (op : Op) : Inv (step s op) := by
  rcases step_cases s op with ⟨h, _⟩ | ⟨m, _, _, h1, h⟩ | ⟨now, _, h⟩ <;> rw [h]
  · exact hi
  · exact queued_inv hi h1
  · exact dispatch_inv hi now

theorem construct_inv (d : Int) (q : Nat) : Inv (construct d q) :=
  ⟨List.Pairwise.nil, by intro x hx; simp [construct] at hx, List.Pairwise.nil, by intro x hx; simp [construct] at hx, rfl,
    by intro _; simp [construct]⟩

theorem run_snoc (d : Int) (q : Nat) (ops : List Op) (op : Op) : run d q (ops ++ [op]) = step (run d q ops) op := by
  unfold run; rw [List.foldl_append]; rfl

theorem run_induction {d : Int} {q : Nat} {P : List Op → State → Prop} (h0 : P [] (construct d q))
    (hs : ∀ ops op, P ops (run d q ops) → P (ops ++ [op]) (step (run d q ops) op)) : ∀ ops, P ops (run d q ops) := by
  intro ops
  induction ops using snoc_induction with
  | h0 => exact h0
  | hs ops op ih => rw [run_snoc]; exact hs ops op ih

theorem run_inv (d : Int) (q : Nat) (ops : List Op) : Inv (run d q ops) :=
  run_induction (P := fun _ s => Inv s) (construct_inv d q) (fun _ op ih => step_inv ih op) ops

theorem step_config (s : State) (op : Op) : (step s op).delay = s.delay ∧ (step s op).queueSize = s.queueSize := by
  rcases step_cases s op with ⟨h, _⟩ | ⟨m, _, _, h1, h⟩ | ⟨now, _, h⟩ <;> rw [h] <;> exact ⟨rfl, rfl⟩

theorem run_config (d : Int) (q : Nat) (ops : List Op) : (run d q ops).delay = d ∧ (run d q ops).queueSize = q := by
  refine run_induction (P := fun _ s => s.delay = d ∧ s.queueSize = q) ⟨rfl, rfl⟩ ?_ ops
  intro ops op ih
  obtain ⟨h1, h2⟩ := step_config (run d q ops) op
  exact ⟨h1.trans ih.1, h2.trans ih.2⟩

theorem added_snoc (ops : List Op) (op : Op) : added (ops ++ [op]) = added ops ++ added [op] := by simp [added]

theorem dispatch_content (s : State) (now : Nat → Int) :
    (dispatch s now).out ++ (dispatch s now).messages = s.out ++ s.messages := by
  have hsplit := take_split s.delay now s.messages 0 s.last
  unfold dispatch
  simp only
  rw [List.append_assoc, ← hsplit]

theorem run_content (d : Int) (q : Nat) (ops : List Op) (t : Int) :
    (at' t ((run d q ops).out ++ (run d q ops).messages)).Sublist (at' t (added ops)) := by
  refine run_induction (P := fun ops s => Inv s → (at' t (s.out ++ s.messages)).Sublist (at' t (added ops))) ?_ ?_ ops (run_inv d q ops)
  · intro _; exact List.Sublist.refl _
  · intro ops op ih _
    have hi := run_inv d q ops
    have ih := ih hi
    rw [added_snoc, at_append t (added ops)]
    rcases step_cases (run d q ops) op with ⟨h, _⟩ | ⟨m, h0, hsys, h1, h⟩ | ⟨now, h0, h⟩ <;> rw [h]
    · exact ih.trans (List.sublist_append_left _ _)
    · have hsub : (queued (run d q ops) m.ev).messages.Sublist (insertEv m.ev (run d q ops).messages) := by
        unfold queued; simp only; split
        · exact erase_sublist _
        · exact List.Sublist.refl _
      have h2 : added [op] = [m.ev] := by rw [h0]; simp [added, hsys]
      rw [h2]
      show (at' t ((run d q ops).out ++ _)).Sublist _
      have h3 : (at' t ((run d q ops).out ++ (queued (run d q ops) m.ev).messages)).Sublist
          (at' t ((run d q ops).out ++ insertEv m.ev (run d q ops).messages)) :=
        List.Sublist.filter _ (hsub.append_left _)
      refine h3.trans ?_
      rw [at_append, at_insert t _ _ hi.sorted, at_append, ← List.append_assoc, ← at_append]
      exact ih.append_right _
    · rw [dispatch_content, h0]
      simpa [added, at'] using ih

/-- Without a queue limit nothing that was in stays out. -/
theorem step_keeps {s : State} (hq : s.queueSize = 0) (op : Op) {x : Ev} (hx : x ∈ s.out ++ s.messages) :
    x ∈ (step s op).out ++ (step s op).messages := by
  rcases step_cases s op with ⟨h, _⟩ | ⟨m, _, _, h1, h⟩ | ⟨now, _, h⟩ <;> rw [h]
  · exact hx
  · show x ∈ s.out ++ (queued s m.ev).messages
    unfold queued
    simp only [hq]
    rw [if_neg (by simp)]
    rcases List.mem_append.1 hx with hx | hx
    · exact List.mem_append_left _ hx
    · exact List.mem_append_right _ ((insertEv_mem _ _ _).2 (Or.inr hx))
  · rw [dispatch_content]; exact hx

end MF.Sequencer
