import Verif.Proofs.ExactTime
/-
Helper lemmas for C88: an ExactTime policy whose inputs restart with earlier stamps.
-/
namespace MF.ExactTime

variable {n : Nat}

theorem split_parts {k : Int} {m a b : List (Int × Tuple n)} {o : Option (Tuple n)}
    (h : m = a ++ (o.toList.map (fun t => (k, t)) ++ b)) (ha : ∀ p ∈ a, p.1 < k) (hb : ∀ p ∈ b, k < p.1) :
    a = m.filter (fun p => decide (p.1 < k)) ∧ b = m.filter (fun p => decide (k < p.1)) ∧
    o.toList.map (fun t => (k, t)) = m.filter (fun p => decide (p.1 = k)) := by
  have f1 : ∀ (l : List (Int × Tuple n)) (p : Int × Tuple n → Bool), (∀ x ∈ l, p x = true) → l.filter p = l :=
    fun l p hp => List.filter_eq_self.2 hp
  have f2 : ∀ (l : List (Int × Tuple n)) (p : Int × Tuple n → Bool), (∀ x ∈ l, p x = false) → l.filter p = [] :=
    fun l p hp => List.filter_eq_nil_iff.2 (fun x hx => by rw [hp x hx]; simp)
  have ho : ∀ x ∈ o.toList.map (fun t => (k, t)), x.1 = k := by
    intro x hx
    obtain ⟨t, _, rfl⟩ := List.mem_map.1 hx
    rfl
  subst h
  refine ⟨?_, ?_, ?_⟩
  · rw [List.filter_append, List.filter_append, f1 a _ (fun x hx => by have := ha x hx; simpa using this),
      f2 (o.toList.map _) _ (fun x hx => by have := ho x hx; simp; omega),
      f2 b _ (fun x hx => by have := hb x hx; simp; omega)]
    simp
  · rw [List.filter_append, List.filter_append, f2 a _ (fun x hx => by have := ha x hx; simp; omega),
      f2 (o.toList.map _) _ (fun x hx => by have := ho x hx; simp; omega),
      f1 b _ (fun x hx => by have := hb x hx; simpa using this)]
    simp
  · rw [List.filter_append, List.filter_append, f2 a _ (fun x hx => by have := ha x hx; simp; omega),
      f1 (o.toList.map _) _ (fun x hx => by have := ho x hx; simpa using this),
      f2 b _ (fun x hx => by have := hb x hx; simp; omega)]
    simp

/-- The sets at the end of the map are above the stamp: the split is that of the map without them. -/
theorem split_extend {k : Int} {m st a b a' b' : List (Int × Tuple n)} {o o' : Option (Tuple n)}
    (h : m = a ++ (o.toList.map (fun t => (k, t)) ++ b)) (ha : ∀ p ∈ a, p.1 < k) (hb : ∀ p ∈ b, k < p.1)
    (h' : m ++ st = a' ++ (o'.toList.map (fun t => (k, t)) ++ b')) (ha' : ∀ p ∈ a', p.1 < k) (hb' : ∀ p ∈ b', k < p.1)
    (hst : ∀ p ∈ st, k < p.1) : a' = a ∧ o' = o ∧ b' = b ++ st := by
  obtain ⟨h1, h2, h3⟩ := split_parts h ha hb
  obtain ⟨g1, g2, g3⟩ := split_parts h' ha' hb'
  have e1 : st.filter (fun p => decide (p.1 < k)) = [] :=
    List.filter_eq_nil_iff.2 (fun x hx => by have := hst x hx; simp; omega)
  have e2 : st.filter (fun p => decide (k < p.1)) = st :=
    List.filter_eq_self.2 (fun x hx => by have := hst x hx; simpa using this)
  have e3 : st.filter (fun p => decide (p.1 = k)) = [] :=
    List.filter_eq_nil_iff.2 (fun x hx => by have := hst x hx; simp; omega)
  rw [List.filter_append] at g1 g2 g3
  refine ⟨by rw [g1, h1, e1, List.append_nil], ?_, by rw [g2, h2, e2]⟩
  rw [e3, List.append_nil, ← h3] at g3
  cases o with
  | none =>
    cases o' with
    | none => rfl
    | some x => simp at g3
  | some y =>
    cases o' with
    | none => simp at g3
    | some x => simp at g3; rw [g3]

/-- The state `s` is the state `f` with the sets `st` waiting behind, and with that much more room. -/
structure Behind (st : List (Int × Tuple n)) (log : List (Action n)) (f s : State n) : Prop where
  tuples : s.tuples = f.tuples ++ st
  log : s.log = log ++ f.log
  room : (s.queueSize = 0 ∧ f.queueSize = 0) ∨ (0 < f.queueSize ∧ s.queueSize = f.queueSize + st.length)

theorem add_behind [NeZero n] {st : List (Int × Tuple n)} {log : List (Action n)} {f s f' s' : State n} (hs : Inv s) (hf : Inv f)
    (h : Behind st log f s) {i : Fin n} {e : Ev} (hst : ∀ p ∈ st, e.stamp < p.1) (hs' : add s i e = .ok s')
    (hf' : add f i e = .ok f') : Behind st log f' s' := by
  obtain ⟨a, o, b, t, sp⟩ := add_spec' hf hf'
  obtain ⟨a', o', b', t', sp'⟩ := add_spec' hs hs'
  have hsplit := sp'.split
  rw [h.tuples] at hsplit
  obtain ⟨ea, eo, eb⟩ := split_extend sp.split sp.below sp.above hsplit sp'.below sp'.above hst
  subst ea
  subst eo
  have et : t' = t := by rw [sp.tuple, sp'.tuple]
  subst et
  have hroom : (s'.queueSize = 0 ∧ f'.queueSize = 0) ∨ (0 < f'.queueSize ∧ s'.queueSize = f'.queueSize + st.length) := by
    rw [sp.qsize, sp'.qsize]; exact h.room
  by_cases hc : Complete t'
  · obtain ⟨h1, _, h2⟩ := sp.full hc
    obtain ⟨g1, _, g2⟩ := sp'.full hc
    exact ⟨by rw [g1, h1, eb], by rw [g2, h2, h.log, List.append_assoc], hroom⟩
  · obtain ⟨_, h1, h2⟩ := sp.part hc
    obtain ⟨_, g1, g2⟩ := sp'.part hc
    have hlist : a' ++ (e.stamp, t') :: b' = (a' ++ (e.stamp, t') :: b) ++ st := by rw [eb]; simp
    have hex : excess s.queueSize (a' ++ (e.stamp, t') :: b').length = excess f.queueSize (a' ++ (e.stamp, t') :: b).length := by
      rw [hlist, List.length_append]
      unfold excess
      rcases h.room with ⟨r1, r2⟩ | ⟨r1, r2⟩
      · rw [r1, r2]; rfl
      · rw [if_pos (by omega), if_pos (by omega)]; omega
    have hle : excess f.queueSize (a' ++ (e.stamp, t') :: b).length ≤ (a' ++ (e.stamp, t') :: b).length := by
      unfold excess; split <;> omega
    rw [hex, hlist] at g1 g2
    refine ⟨?_, ?_, hroom⟩
    · rw [g1, h1, List.drop_append_of_le_length hle]
    · rw [g2, h2, h.log, List.append_assoc, List.take_append_of_le_length hle]

theorem run_behind [NeZero n] {st : List (Int × Tuple n)} {log : List (Action n)} : ∀ (ops : List (Fin n × Ev)) (f s : State n),
    Inv s → Inv f → Behind st log f s → (∀ op ∈ ops, ∀ p ∈ st, op.2.stamp < p.1) →
    ∃ f' s', run f ops = .ok f' ∧ run s ops = .ok s' ∧ Behind st log f' s' := by
  intro ops
  induction ops with
  | nil => intro f s _ _ h _; exact ⟨f, s, rfl, rfl, h⟩
  | cons op ops ih =>
    intro f s hs hf h hst
    obtain ⟨f1, _, _, _, _, hf1, _⟩ := add_spec f hf op.1 op.2
    obtain ⟨s1, _, _, _, _, hs1, _⟩ := add_spec s hs op.1 op.2
    obtain ⟨f', s', g1, g2, g3⟩ := ih f1 s1 (add_inv hs hs1) (add_inv hf hf1)
      (add_behind hs hf h (fun p hp => hst op (by simp) p hp) hs1 hf1) (fun o ho => hst o (by simp [ho]))
    refine ⟨f', s', ?_, ?_, g3⟩
    · unfold run at g1 ⊢; simp only [runE, hf1]; exact g1
    · unfold run at g2 ⊢; simp only [runE, hs1]; exact g2

/-- A set with only the message `e` of input `i`. -/
theorem single_incomplete (hn : 2 ≤ n) (i : Fin n) (e : Ev) : ¬ Complete (upd (emptyTuple n) i (some e)) := by
  intro h
  have : ∃ j : Fin n, j ≠ i := by
    by_cases h0 : i.val = 0
    · exact ⟨⟨1, by omega⟩, fun hj => by rw [← hj] at h0; simp at h0⟩
    · exact ⟨⟨0, by omega⟩, fun hj => h0 (by rw [← hj])⟩
  obtain ⟨j, hj⟩ := this
  obtain ⟨x, hx⟩ := h j
  rw [upd_ne _ _ hj] at hx
  cases hx

theorem add_blocked [NeZero n] (hn : 2 ≤ n) {s : State n} (hs : Inv s) (hq : 0 < s.queueSize) (hfull : s.tuples.length = s.queueSize)
    {i : Fin n} {e : Ev} (hst : ∀ p ∈ s.tuples, e.stamp < p.1) :
    ∃ s', add s i e = .ok s' ∧ s'.tuples = s.tuples ∧ s'.queueSize = s.queueSize ∧
      s'.log = s.log ++ [.drop (upd (emptyTuple n) i (some e))] := by
  obtain ⟨s', a, o, b, t, h1, sp⟩ := add_spec s hs i e
  have h0 : ([] : List (Int × Tuple n)) = [] ++ ((none : Option (Tuple n)).toList.map (fun t => (e.stamp, t)) ++ []) := rfl
  have hsplit : [] ++ s.tuples = a ++ (o.toList.map (fun t => (e.stamp, t)) ++ b) := sp.split
  obtain ⟨ea, eo, eb⟩ := split_extend h0 (by simp) (by simp) hsplit sp.below sp.above hst
  subst ea
  subst eo
  have et := sp.tuple
  have hc : ¬ Complete t := by rw [et]; exact single_incomplete hn i e
  obtain ⟨_, g1, g2⟩ := sp.part hc
  rw [List.nil_append] at eb
  rw [List.nil_append, eb] at g1 g2
  have hex : excess s.queueSize ((e.stamp, t) :: s.tuples).length = 1 := by
    unfold excess
    rw [if_pos (by omega), List.length_cons, hfull]; omega
  rw [hex] at g1 g2
  refine ⟨s', h1, g1, sp.qsize, ?_⟩
  rw [g2, et]
  rfl

theorem run_blocked [NeZero n] (hn : 2 ≤ n) : ∀ (ops : List (Fin n × Ev)) (s : State n), Inv s → 0 < s.queueSize →
    s.tuples.length = s.queueSize → (∀ op ∈ ops, ∀ p ∈ s.tuples, op.2.stamp < p.1) →
    ∃ s', run s ops = .ok s' ∧ s'.tuples = s.tuples ∧
      s'.log = s.log ++ ops.map (fun op => .drop (upd (emptyTuple n) op.1 (some op.2))) := by
  intro ops
  induction ops with
  | nil => intro s _ _ _ _; exact ⟨s, rfl, rfl, by simp⟩
  | cons op ops ih =>
    intro s hs hq hfull hst
    obtain ⟨s1, h1, h2, h3, h4⟩ := add_blocked hn hs hq hfull (i := op.1) (e := op.2) (fun p hp => hst op (by simp) p hp)
    obtain ⟨s', g1, g2, g3⟩ := ih s1 (add_inv hs h1) (by omega) (by rw [h2, h3]; exact hfull)
      (fun o ho p hp => hst o (by simp [ho]) p (by rw [← h2]; exact hp))
    refine ⟨s', ?_, by rw [g2, h2], by rw [g3, h4]; simp⟩
    unfold run at g1 ⊢; simp only [runE, h1]; exact g1

theorem run_qsize [NeZero n] {q : Nat} : ∀ (ops : List (Fin n × Ev)) (s : State n), run (construct n q) ops = .ok s → s.queueSize = q := by
  apply runE_induction
  · rfl
  · intro ops s op s' hr ih hs
    have hinv : Inv s := run_inv (inv_construct q) hr
    obtain ⟨a, o, b, t, sp⟩ := add_spec' hinv hs
    rw [sp.qsize, ih]

end MF.ExactTime
