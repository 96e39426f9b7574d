import Verif.Proofs.ExactTime
import Verif.Proofs.RoundsApprox
/-
Helper lemmas about ExactTime on inputs that send in rounds.
-/
namespace MF.ExactTime

variable {n : Nat}

/-- The set of round `r` as far as it was received. -/
def tup (L : Fin n → List Ev) (r : Nat) : Tuple n := fun i => (L i)[r]?

/-- The entries of rounds `a` to `b - 1`. -/
def ent (τ : Nat → Int) (L : Fin n → List Ev) (a b : Nat) : List (Int × Tuple n) :=
  (List.range' a (b - a)).map (fun r => (τ r, tup L r))

theorem ent_split (τ : Nat → Int) (L : Fin n → List Ev) {a r b : Nat} (h1 : a ≤ r) (h2 : r ≤ b) :
    ent τ L a b = ent τ L a r ++ ent τ L r b := by
  unfold ent
  rw [← List.map_append]
  congr 1
  have : List.range' r (b - r) = List.range' (a + 1 * (r - a)) (b - r) := by congr 1; omega
  rw [this, List.range'_append]
  congr 1; omega

theorem ent_nil (τ : Nat → Int) (L : Fin n → List Ev) (a : Nat) : ent τ L a a = [] := by simp [ent]

theorem ent_cons (τ : Nat → Int) (L : Fin n → List Ev) {r b : Nat} (h : r < b) :
    ent τ L r b = (τ r, tup L r) :: ent τ L (r + 1) b := by
  unfold ent
  obtain ⟨c, hc⟩ : ∃ c, b - r = c + 1 := ⟨b - r - 1, by omega⟩
  rw [hc, List.range'_succ, List.map_cons]
  congr 3; omega

theorem mem_ent {τ : Nat → Int} {L : Fin n → List Ev} {a b : Nat} {p : Int × Tuple n} (h : p ∈ ent τ L a b) :
    ∃ r, a ≤ r ∧ r < b ∧ p = (τ r, tup L r) := by
  unfold ent at h
  rw [List.mem_map] at h
  obtain ⟨r, hr, rfl⟩ := h
  rw [List.mem_range'_1] at hr
  exact ⟨r, hr.1, by omega, rfl⟩

theorem ent_congr {τ : Nat → Int} {L L' : Fin n → List Ev} {a b : Nat} (h : ∀ r, a ≤ r → r < b → tup L r = tup L' r) :
    ent τ L a b = ent τ L' a b := by
  unfold ent
  apply List.map_congr_left
  intro r hr
  rw [List.mem_range'_1] at hr
  rw [h r hr.1 (by omega)]

theorem ent_length (τ : Nat → Int) (L : Fin n → List Ev) (a b : Nat) : (ent τ L a b).length = b - a := by simp [ent]

theorem split_unique {k : Int} {a a' m m' b b' : List (Int × Tuple n)} (h : a ++ (m ++ b) = a' ++ (m' ++ b'))
    (ha : ∀ p ∈ a, p.1 < k) (hm : ∀ p ∈ m, p.1 = k) (hb : ∀ p ∈ b, k < p.1)
    (ha' : ∀ p ∈ a', p.1 < k) (hm' : ∀ p ∈ m', p.1 = k) (hb' : ∀ p ∈ b', k < p.1) : a = a' ∧ m = m' ∧ b = b' := by
  have key : ∀ {a m b : List (Int × Tuple n)}, (∀ p ∈ a, p.1 < k) → (∀ p ∈ m, p.1 = k) → (∀ p ∈ b, k < p.1) →
      (a ++ (m ++ b)).filter (fun p => decide (p.1 < k)) = a ∧ (a ++ (m ++ b)).filter (fun p => decide (p.1 = k)) = m ∧
      (a ++ (m ++ b)).filter (fun p => decide (k < p.1)) = b := by
    intro a m b ha hm hb
    have all : ∀ (l : List (Int × Tuple n)) (q : Int × Tuple n → Bool), (∀ p ∈ l, q p = true) → l.filter q = l :=
      fun l q h => List.filter_eq_self.2 h
    have non : ∀ (l : List (Int × Tuple n)) (q : Int × Tuple n → Bool), (∀ p ∈ l, q p = false) → l.filter q = [] :=
      fun l q h => List.filter_eq_nil_iff.2 (fun p hp => by rw [h p hp]; simp)
    refine ⟨?_, ?_, ?_⟩
    · rw [List.filter_append, List.filter_append, all a _ (fun p hp => decide_eq_true (ha p hp)),
        non m _ (fun p hp => decide_eq_false (by have := hm p hp; omega)),
        non b _ (fun p hp => decide_eq_false (by have := hb p hp; omega))]
      simp
    · rw [List.filter_append, List.filter_append, all m _ (fun p hp => decide_eq_true (hm p hp)),
        non a _ (fun p hp => decide_eq_false (by have := ha p hp; omega)),
        non b _ (fun p hp => decide_eq_false (by have := hb p hp; omega))]
      simp
    · rw [List.filter_append, List.filter_append, all b _ (fun p hp => decide_eq_true (hb p hp)),
        non m _ (fun p hp => decide_eq_false (by have := hm p hp; omega)),
        non a _ (fun p hp => decide_eq_false (by have := ha p hp; omega))]
      simp
  obtain ⟨h1, h2, h3⟩ := key ha hm hb
  obtain ⟨g1, g2, g3⟩ := key ha' hm' hb'
  rw [h] at h1 h2 h3
  exact ⟨h1.symm.trans g1, h2.symm.trans g2, h3.symm.trans g3⟩

/-- `k` rounds were output, messages of rounds before `M` were received, nothing was dropped. -/
structure Rounded (R : Nat → Fin n → Ev) (τ : Nat → Int) (L : Fin n → List Ev) (k M : Nat) (s : State n) : Prop where
  tuples : s.tuples = ent τ L k M
  lo : ∀ i, k ≤ (L i).length
  least : ∃ i, (L i).length = k
  hi : ∀ i, (L i).length ≤ M
  most : ∃ i, (L i).length = M
  outs : outs s.log = roundSets R k
  drops : drops s.log = []

theorem tup_push {L : Fin n → List Ev} {i : Fin n} {e : Ev} {r : Nat} (h : r ≠ (L i).length) :
    tup L r = tup (upd L i (L i ++ [e])) r := by
  funext j
  unfold tup
  by_cases hj : j = i
  · subst hj
    rw [upd_same]
    rcases Nat.lt_or_gt_of_ne h with h | h
    · rw [List.getElem?_append_left h]
    · rw [List.getElem?_eq_none (by omega), List.getElem?_eq_none (by simp; omega)]
  · rw [upd_ne _ _ hj]

theorem add_rounded [NeZero n] {R : Nat → Fin n → Ev} {τ : Nat → Int} (hτ : ∀ r i, (R r i).stamp = τ r)
    (hmono : ∀ r r', r < r' → τ r < τ r') {L : Fin n → List Ev} {i : Fin n} {e : Ev} {k M : Nat} {s s' : State n}
    (hinv : Inv s) (hadd : add s i e = .ok s') (hL : ∀ j r x, (L j)[r]? = some x → x = R r j)
    (he : e = R (L i).length i) (h : Rounded R τ L k M s)
    (hfit : s.queueSize = 0 ∨ ∀ i' j, (upd L i (L i ++ [e]) i').length ≤ (upd L i (L i ++ [e]) j).length + s.queueSize) :
    ∃ k' M', Rounded R τ (upd L i (L i ++ [e])) k' M' s' := by
  obtain ⟨a, o, b, t, sp⟩ := add_spec' hinv hadd
  generalize hr : (L i).length = r at *
  generalize hL' : upd L i (L i ++ [e]) = L' at *
  have hst : e.stamp = τ r := by rw [he]; exact hτ r i
  have hlen : ∀ j, (L' j).length = if j = i then r + 1 else (L j).length := by
    intro j
    rw [← hL']
    by_cases hj : j = i
    · subst hj; rw [if_pos rfl, upd_same, List.length_append, hr]; rfl
    · rw [if_neg hj, upd_ne _ _ hj]
  have hkr : k ≤ r := by have := h.lo i; omega
  have hrM : r ≤ M := by have := h.hi i; omega
  -- the three parts
  have hparts : a = ent τ L k r ∧ (o.getD (emptyTuple n)) = tup L r ∧ b = ent τ L (r + 1) M := by
    have hbelow : ∀ p ∈ ent τ L k r, p.1 < e.stamp := by
      intro p hp
      obtain ⟨r', h1, h2, rfl⟩ := mem_ent hp
      rw [hst]; exact hmono _ _ h2
    have habove : ∀ p ∈ ent τ L (r + 1) M, e.stamp < p.1 := by
      intro p hp
      obtain ⟨r', h1, h2, rfl⟩ := mem_ent hp
      rw [hst]; exact hmono _ _ (by omega)
    have hmid : ∀ p ∈ o.toList.map (fun t => (e.stamp, t)), p.1 = e.stamp := by
      intro p hp
      rw [List.mem_map] at hp
      obtain ⟨x, _, rfl⟩ := hp
      rfl
    have hs := sp.split
    rw [h.tuples, ent_split τ L hkr hrM] at hs
    by_cases hlt : r < M
    · rw [ent_cons τ L hlt] at hs
      obtain ⟨h1, h2, h3⟩ := split_unique (m := [(τ r, tup L r)]) hs hbelow (by simp [hst]) habove sp.below hmid sp.above
      refine ⟨h1.symm, ?_, h3.symm⟩
      cases o with
      | none => simp at h2
      | some x => simp at h2; simp [h2.2]
    · have hrM' : r = M := by omega
      subst hrM'
      rw [ent_nil] at hs
      obtain ⟨h1, h2, h3⟩ := split_unique (m := []) (b := []) hs hbelow (by simp) (by simp) sp.below hmid sp.above
      refine ⟨h1.symm, ?_, ?_⟩
      · cases o with
        | none =>
          funext j
          show none = (L j)[r]?
          rw [List.getElem?_eq_none (h.hi j)]
        | some x => simp at h2
      · rw [← h3, ent]; simp
  obtain ⟨ha, ho, hb⟩ := hparts
  have ht : t = tup L' r := by
    rw [sp.tuple, ho]
    funext j
    by_cases hj : j = i
    · subst hj
      rw [upd_same, ← hL']
      unfold tup
      rw [upd_same, List.getElem?_append_right (by omega), hr]
      simp
    · rw [upd_ne _ _ hj, ← hL']
      unfold tup
      rw [upd_ne _ _ hj]
  have hcongr : ∀ r', r' ≠ r → tup L r' = tup L' r' := by
    intro r' hr'
    rw [← hL']; exact tup_push (by omega)
  have ha' : a = ent τ L' k r := by rw [ha]; exact ent_congr (fun r' _ h2 => hcongr r' (by omega))
  have hb' : b = ent τ L' (r + 1) M := by rw [hb]; exact ent_congr (fun r' h1 _ => hcongr r' (by omega))
  by_cases hc : Complete t
  · -- everything before was complete, so `r = k`
    have hall : ∀ j, j ≠ i → r < (L j).length := by
      intro j hj
      obtain ⟨x, hx⟩ := hc j
      rw [ht, ← hL'] at hx
      unfold tup at hx
      rw [upd_ne _ _ hj] at hx
      apply Classical.byContradiction
      intro hn
      rw [List.getElem?_eq_none (by omega)] at hx; cases hx
    have hrk : r = k := by
      obtain ⟨j, hj⟩ := h.least
      by_cases hji : j = i
      · subst hji; omega
      · have := hall j hji; omega
    subst hrk
    obtain ⟨h1, _, h3⟩ := sp.full hc
    obtain ⟨h4, _, _⟩ := sp.log_outs
    obtain ⟨h5, h6⟩ := h4 hc
    refine ⟨r + 1, if r < M then M else r + 1, ?_, ?_, ⟨i, by rw [hlen, if_pos rfl]⟩, ?_, ?_, ?_, ?_⟩
    · rw [h1, hb']
      by_cases hlt : r < M
      · rw [if_pos hlt]
      · rw [if_neg hlt, ent_nil, ent]
        have : M - (r + 1) = 0 := by omega
        rw [this]; rfl
    · intro j
      rw [hlen]
      by_cases hj : j = i
      · rw [if_pos hj]; omega
      · rw [if_neg hj]; exact hall j hj
    · intro j
      rw [hlen]
      have := h.hi j
      by_cases hj : j = i
      · rw [if_pos hj]; split <;> omega
      · rw [if_neg hj]; split <;> omega
    · by_cases hlt : r < M
      · obtain ⟨j, hj⟩ := h.most
        have hji : j ≠ i := by intro hji; subst hji; omega
        exact ⟨j, by rw [hlen, if_neg hji, if_pos hlt, hj]⟩
      · exact ⟨i, by rw [hlen, if_pos rfl, if_neg hlt]⟩
    · rw [h5, h.outs, roundSets_succ]
      congr 2
      funext j
      obtain ⟨x, hx⟩ := hc j
      rw [hx]
      by_cases hj : j = i
      · subst hj; rw [sp.slot] at hx; rw [← Option.some.inj hx, he]
      · rw [ht, ← hL'] at hx
        unfold tup at hx
        rw [upd_ne _ _ hj] at hx
        rw [hL j r x hx]
    · rw [h6, h.drops, ha, ent_nil]; rfl
  · have hstay : ∃ j, (L' j).length = k := by
      obtain ⟨j, hj⟩ := h.least
      by_cases hji : j = i
      · subst hji
        -- another input lacks this round too
        apply Classical.byContradiction
        intro hno
        apply hc
        intro j'
        by_cases hj' : j' = j
        · subst hj'; exact ⟨e, sp.slot⟩
        · have h1 : (L j').length ≠ k := by
            intro h1; exact hno ⟨j', by rw [hlen, if_neg hj', h1]⟩
          have h2 := h.lo j'
          rw [ht, ← hL']
          unfold tup
          rw [upd_ne _ _ hj']
          exact ⟨_, List.getElem?_eq_getElem (by omega)⟩
      · exact ⟨j, by rw [hlen, if_neg hji, hj]⟩
    have hMax : ∃ M', (∀ j, (L' j).length ≤ M') ∧ (∃ j, (L' j).length = M') ∧ r + 1 ≤ M' ∧ M ≤ M' ∧ (M < M' → M = r) ∧
        (M < M' → M' = r + 1) := by
      by_cases hlt : r < M
      · refine ⟨M, ?_, ?_, by omega, by omega, by omega, by omega⟩
        · intro j; rw [hlen]; have := h.hi j; by_cases hj : j = i
          · rw [if_pos hj]; omega
          · rw [if_neg hj]; exact this
        · obtain ⟨j, hj⟩ := h.most
          have hji : j ≠ i := by intro hji; subst hji; omega
          exact ⟨j, by rw [hlen, if_neg hji, hj]⟩
      · refine ⟨r + 1, ?_, ⟨i, by rw [hlen, if_pos rfl]⟩, by omega, by omega, by omega, by omega⟩
        intro j; rw [hlen]; have := h.hi j; by_cases hj : j = i
        · rw [if_pos hj]; omega
        · rw [if_neg hj]; omega
    obtain ⟨M', g1, g2, g3, g4, g5, g6⟩ := hMax
    have hnew : a ++ (e.stamp, t) :: b = ent τ L' k M' := by
      rw [ha', hst, ht, ent_split τ L' hkr (by omega : r ≤ M'), ent_cons τ L' (by omega : r < M')]
      congr 2
      rw [hb']
      by_cases hMM : M < M'
      · have h1 := g5 hMM
        have h2 := g6 hMM
        unfold ent
        have e1 : M - (r + 1) = 0 := by omega
        have e2 : M' - (r + 1) = 0 := by omega
        rw [e1, e2]
      · have : M = M' := by omega
        rw [this]
    have hex : excess s.queueSize (ent τ L' k M').length = 0 := by
      unfold excess
      by_cases hq : s.queueSize > 0
      · rw [if_pos hq, ent_length]
        rcases hfit with hfit | hfit
        · omega
        · obtain ⟨j1, hj1⟩ := g2
          obtain ⟨j2, hj2⟩ := hstay
          have := hfit j1 j2
          omega
      · rw [if_neg hq]
    obtain ⟨h1, h2, h3⟩ := sp.part hc
    obtain ⟨_, h4, _⟩ := sp.log_outs
    obtain ⟨h5, h6⟩ := h4 hc
    rw [hnew, hex] at h2 h6
    refine ⟨k, M', by rw [h2]; rfl, ?_, hstay, g1, g2, by rw [h5, h.outs], by rw [h6, h.drops]; rfl⟩
    intro j
    rw [hlen]
    have := h.lo j
    by_cases hj : j = i
    · rw [if_pos hj]; omega
    · rw [if_neg hj]; exact this

theorem rounds_queueSize [NeZero n] {q : Nat} : ∀ (ops : List (Fin n × Ev)) (s : State n),
    run (construct n q) ops = .ok s → s.queueSize = q := by
  apply runE_induction
  · rfl
  · intro ops s op s' hr ih hs
    obtain ⟨a, o, b, t, sp⟩ := add_spec' (run_inv (inv_construct q) hr) hs
    rw [sp.qsize, ih]

theorem run_rounded [NeZero n] {q lag : Nat} {R : Nat → Fin n → Ev} {τ : Nat → Int} (hτ : ∀ r i, (R r i).stamp = τ r)
    (hmono : ∀ r r', r < r' → τ r < τ r') (hq : q = 0 ∨ lag ≤ q) :
    ∀ (ops : List (Fin n × Ev)) (s : State n), run (construct n q) ops = .ok s → Delivers R ops → LagAtMost lag ops →
    ∃ k M, Rounded R τ (stream ops) k M s := by
  apply runE_induction
  · intro _ _
    exact ⟨0, 0, by simp [construct, ent], fun _ => Nat.zero_le _, ⟨0, rfl⟩, fun _ => Nat.le_refl _, ⟨0, rfl⟩, rfl, rfl⟩
  · intro ops s op s' hr ih hs hd hl
    obtain ⟨i, e⟩ := op
    simp only at hs
    obtain ⟨k, M, h⟩ := ih hd.init hl.init
    have hqs := rounds_queueSize ops s hr
    have hst : stream (ops ++ [(i, e)]) = upd (stream ops) i (stream ops i ++ [e]) := by
      funext j
      by_cases hj : j = i
      · subst hj; rw [stream_snoc_same, upd_same]
      · rw [stream_snoc_ne _ _ (Ne.symm hj), upd_ne _ _ hj]
    rw [hst]
    refine add_rounded hτ hmono (run_inv (inv_construct q) hr) hs (fun j r x hx => hd.init.get hx) ?_ h ?_
    · refine hd.get ?_
      rw [stream_snoc_same, List.getElem?_append_right (Nat.le_refl _)]
      simp
    · rw [hqs]
      rcases hq with hq | hq
      · exact Or.inl hq
      · right
        intro i' j
        have := hl _ (List.prefix_refl _) i' j
        rw [hst] at this
        omega

end MF.ExactTime
