import Verif.Proofs.Pipeline
import Verif.Props.SequencerRoom
import Verif.Props.Cache
/-
Proofs for C118: queries of a cache about the past.
-/
namespace MF.Pipeline

/-- The messages with a stamp in `[a, b]`. -/
abbrev inside (a b : Int) (l : List Ev) : List Ev := l.filter (fun x => decide (a ≤ x.stamp ∧ x.stamp ≤ b))

theorem inside_append (a b : Int) (l m : List Ev) : inside a b (l ++ m) = inside a b l ++ inside a b m := List.filter_append ..

theorem inside_nil_of {a b : Int} {l : List Ev} (h : ∀ x ∈ l, x.stamp < a ∨ b < x.stamp) : inside a b l = [] := by
  unfold inside
  rw [List.filter_eq_nil_iff]
  intro x hx
  have := h x hx
  simp only [decide_eq_true_eq]
  omega

theorem cut_old {N : Nat} (hN : 0 < N) {l : List Ev} (hl : TimeSorted l) {c : Cache.State} (hc : c.items = l.drop (l.length - N)) {a : Int}
    (hold : Cache.getOldestTime c < a ∨ l.length ≤ N) : ∀ x ∈ l.take (l.length - N), x.stamp < a := by
  intro x hx
  rcases hold with hold | hold
  · have hpos : l.length - N < l.length := by
      have : 0 < (l.take (l.length - N)).length := List.length_pos_of_mem hx
      rw [List.length_take] at this
      omega
    have hh : c.items.head? = some l[l.length - N] := by
      rw [hc, List.head?_drop, List.getElem?_eq_getElem hpos]
    have hmem : l[l.length - N] ∈ l.drop (l.length - N) := by
      rw [← hc]; exact List.mem_of_mem_head? hh
    unfold Cache.getOldestTime at hold
    rw [hh] at hold
    have hs : TimeSorted (l.take (l.length - N) ++ l.drop (l.length - N)) := by rw [List.take_append_drop]; exact hl
    have := (List.pairwise_append.1 hs).2.2 x hx _ hmem
    simp only at hold
    omega
  · rw [show l.length - N = 0 by omega] at hx
    simp at hx

theorem interval_whole {N : Nat} {l : List Ev} (hl : TimeSorted l) {c : Cache.State} (hc : c.items = l.drop (l.length - N))
    {a : Int} (hcut : ∀ x ∈ l.take (l.length - N), x.stamp < a) (b : Int) : Cache.getInterval c a b = inside a b l := by
  rw [Cache.getInterval_eq c (by rw [hc]; exact hl.sublist (List.drop_sublist _ _)), hc]
  conv => rhs; rw [← List.take_append_drop (l.length - N) l]
  rw [inside_append, inside_nil_of (fun x hx => Or.inl (hcut x hx)), List.nil_append]

theorem latest_last {N : Nat} (hN : 0 < N) {l : List Ev} {c : Cache.State} (hc : c.items = l.drop (l.length - N)) (hne : l ≠ []) :
    ∃ p e, l = p ++ [e] ∧ Cache.getLatestTime c = e.stamp := by
  obtain ⟨p, e, rfl⟩ : ∃ p e, l = p ++ [e] := ⟨_, _, (List.dropLast_concat_getLast hne).symm⟩
  refine ⟨p, e, rfl, ?_⟩
  unfold Cache.getLatestTime
  rw [hc, List.drop_append_of_le_length (by simp; omega)]
  simp

/-- The core: two times at which the cache is looked at. -/
theorem final_core {N : Nat} (hN : 0 < N) {l m : List Ev} (hl : TimeSorted (l ++ m)) {c c' : Cache.State}
    (hc : c.items = l.drop (l.length - N)) (hc' : c'.items = (l ++ m).drop ((l ++ m).length - N)) {a b : Int}
    (hb : ∀ x ∈ m, b < x.stamp) (hold : Cache.getOldestTime c' < a ∨ (l ++ m).length ≤ N) :
    Cache.getInterval c a b = inside a b (l ++ m) ∧ Cache.getInterval c' a b = inside a b (l ++ m) := by
  have hcut := cut_old hN hl hc' hold
  have hl1 : TimeSorted l := (List.pairwise_append.1 hl).1
  refine ⟨?_, interval_whole hl hc' hcut b⟩
  rw [interval_whole hl1 hc ?_ b, inside_append, inside_nil_of (l := m) (fun x hx => Or.inr (hb x hx)), List.append_nil]
  intro x hx
  apply hcut
  have e : l.take (l.length - N) = (l ++ m).take (l.length - N) := (List.take_append_of_le_length (by omega)).symm
  rw [e] at hx
  exact (List.take_prefix_take_left (show l.length - N ≤ (l ++ m).length - N by simp; omega)).subset hx

theorem same_inside {l l' : List Ev} (h : Sequencer.SameMessages l l') (a b : Int) :
    Sequencer.SameMessages (inside a b l) (inside a b l') := by
  intro t
  unfold inside
  rw [List.filter_filter, List.filter_filter]
  by_cases ht : a ≤ t ∧ t ≤ b
  · have e : ∀ l : List Ev, l.filter (fun x => decide (x.stamp = t) && decide (a ≤ x.stamp ∧ x.stamp ≤ b)) =
        l.filter (fun x => decide (x.stamp = t)) := by
      intro l
      apply List.filter_congr
      intro x _
      by_cases hx : x.stamp = t
      · simp [hx, ht]
      · simp [hx]
    rw [e, e]; exact h t
  · have e : ∀ l : List Ev, l.filter (fun x => decide (x.stamp = t) && decide (a ≤ x.stamp ∧ x.stamp ≤ b)) = [] := by
      intro l
      rw [List.filter_eq_nil_iff]
      intro x _
      simp only [Bool.and_eq_true, decide_eq_true_eq]
      intro hc
      exact ht (hc.1 ▸ hc.2)
    rw [e, e]

theorem caches_streams {n : Nat} (sizes : Fin n → Nat) (out : List (Fin n × Ev)) : ∀ c : Fin n → Cache.State,
    runE (fun c m => match Cache.add (c m.1) m.2 with | .error f => .error f | .ok c' => .ok (upd c m.1 c'))
      (fun i => Cache.construct (sizes i)) out = .ok c →
    ∀ i, runE Cache.add (Cache.construct (sizes i)) (stream out i) = .ok (c i) := by
  induction out using snoc_induction with
  | h0 => intro c h i; cases h; rfl
  | hs out m ih =>
    intro c h i
    obtain ⟨c0, h0, h1⟩ := runE_snoc_ok h
    obtain ⟨j, e⟩ := m
    have hi := ih c0 h0 i
    simp only at h1
    cases ha : Cache.add (c0 j) e with
    | error f => rw [ha] at h1; cases h1
    | ok c' =>
      rw [ha] at h1
      injection h1 with h1
      subst h1
      by_cases hji : j = i
      · subst hji
        rw [stream_snoc_same, upd_same, runE_append, hi]
        simp [runE, ha]
      · rw [stream_snoc_ne _ _ hji, upd_ne _ _ (fun h => hji h.symm)]
        exact hi

theorem caches_run {n : Nat} (sizes : Fin n → Nat) (hN : ∀ i, 0 < sizes i) (out : List (Fin n × Ev))
    (hs : ∀ i, TimeSorted (stream out i)) : ∃ c : Fin n → Cache.State,
    runE (fun c m => match Cache.add (c m.1) m.2 with | .error f => .error f | .ok c' => .ok (upd c m.1 c'))
      (fun i => Cache.construct (sizes i)) out = .ok c := by
  induction out using snoc_induction with
  | h0 => exact ⟨_, rfl⟩
  | hs out m ih =>
    obtain ⟨j, e⟩ := m
    have hs0 : ∀ i, TimeSorted (stream out i) := by
      intro i
      have := hs i
      by_cases hji : j = i
      · subst hji; rw [stream_snoc_same] at this; exact (List.pairwise_append.1 this).1
      · rw [stream_snoc_ne _ _ hji] at this; exact this
    obtain ⟨c, hc⟩ := ih hs0
    have h1 := caches_streams sizes out c hc j
    obtain ⟨c', h2, _⟩ := cache_sorted (sizes j) (hN j) _ (hs j)
    rw [stream_snoc_same, runE_append, h1] at h2
    refine ⟨upd c j c', ?_⟩
    rw [runE_append, hc]
    simp only [runE] at h2 ⊢
    cases ha : Cache.add (c j) e with
    | error f => rw [ha] at h2; cases h2
    | ok c2 => rw [ha] at h2; cases h2; rfl

theorem alignerCaches_ok {n : Nat} {fuel : Nat} {timeout : Int} {sizes : Fin n → Nat}
    {ops : List (Aligner.Op n)} {s : Aligner.State n} {c : Fin n → Cache.State} :
    alignerCaches fuel timeout sizes ops = .ok (s, c) ↔
      Aligner.run fuel timeout ops = .ok s ∧
      runE (fun c m => match Cache.add (c m.1) m.2 with | .error f => .error f | .ok c' => .ok (upd c m.1 c'))
        (fun i => Cache.construct (sizes i)) s.out = .ok c := by
  constructor
  · intro h
    have := run_factor aligner_grow ops (s, c) h
    exact ⟨this.2.1, this.2.2⟩
  · rintro ⟨h1, h2⟩
    exact run_exists aligner_grow ops s c h1 h2

theorem inside_at (a b t : Int) (l : List Ev) : (inside a b l).filter (fun x => decide (x.stamp = t)) =
    inside a b (l.filter (fun x => decide (x.stamp = t))) := by
  unfold inside
  rw [List.filter_filter, List.filter_filter]
  exact List.filter_congr (fun x _ => Bool.and_comm _ _)

theorem runE_grow {σ ω ο : Type} {up : σ → ω → Except Fault σ} {log : σ → List ο}
    (hg : ∀ s op s', up s op = .ok s' → log s <+: log s') (ops : List ω) : ∀ {s s' : σ}, runE up s ops = .ok s' → log s <+: log s' := by
  induction ops using snoc_induction with
  | h0 => intro s s' h; cases h; exact List.prefix_rfl
  | hs ops op ih =>
    intro s s' h
    obtain ⟨s1, h1, h2⟩ := runE_snoc_ok h
    exact (ih h1).trans (hg _ _ _ h2)

theorem seq_run_grow (delay : Int) (q : Nat) (a b : List Sequencer.Op) :
    (Sequencer.run delay q a).out <+: (Sequencer.run delay q (a ++ b)).out := by
  unfold Sequencer.run
  rw [List.foldl_append]
  generalize a.foldl Sequencer.step _ = s
  induction b generalizing s with
  | nil => exact List.prefix_rfl
  | cons op b ih => exact (seq_grow s op).trans (ih _)

theorem seq_added_append (a b : List Sequencer.Op) : Sequencer.added (a ++ b) = Sequencer.added a ++ Sequencer.added b := by
  simp [Sequencer.added]

theorem steady_prefix {a b : List Sequencer.Op} (h : Sequencer.Steady (a ++ b)) : Sequencer.Steady a :=
  fun now hn => h now (List.mem_append_left _ hn)

theorem punctual_prefix {d : Int} {a b : List Sequencer.Op} (h : Punctual d (a ++ b)) : Punctual d a := by
  intro pre m post hx
  exact h pre m (post ++ b) (by rw [hx]; simp)

theorem room_prefix {d : Int} {q : Nat} {a b : List Sequencer.Op} (h : Sequencer.Room d q (a ++ b)) : Sequencer.Room d q a := by
  rcases h with h | h
  · exact Or.inl h
  · exact Or.inr (fun pre hp => h pre (hp.trans (List.prefix_append _ _)))

theorem punctual_later {d c : Int} {ops more : List Sequencer.Op} (h : Punctual d (ops ++ [.tick (fun _ => c)] ++ more))
    (y : Ev) (hy : y ∈ Sequencer.added more) : c < y.stamp + d := by
  unfold Sequencer.added at hy
  obtain ⟨op, hop, he⟩ := List.mem_filterMap.1 hy
  cases op with
  | tick now => simp at he
  | add m =>
    obtain ⟨u, v, rfl⟩ := List.append_of_mem hop
    have := (h (ops ++ [.tick (fun _ => c)] ++ u) m v (by simp)).2.2 (fun _ => c) (by simp) 0
    simp only at he
    split at he
    · cases he; exact this
    · cases he

/-! ### The neighbours of a time -/

theorem oldest_split {N : Nat} {l m : List Ev} {c' : Cache.State}
    (hc' : c'.items = (l ++ m).drop ((l ++ m).length - N)) {t : Int} (hne : l ++ m ≠ []) (hN : 0 < N)
    (hs : TimeSorted (l ++ m)) : ∃ p o q, l ++ m = p ++ o :: q ∧ p.length = (l ++ m).length - N ∧ Cache.getOldestTime c' = o.stamp ∧
      (∀ x ∈ p, x.stamp ≤ o.stamp) ∧ (o.stamp < t ∨ t ≤ o.stamp) := by
  have hpos : (l ++ m).length - N < (l ++ m).length := by
    have := List.length_pos_iff.2 hne
    omega
  have hd : (l ++ m).drop ((l ++ m).length - N) = (l ++ m)[(l ++ m).length - N] :: (l ++ m).drop ((l ++ m).length - N + 1) :=
    List.drop_eq_getElem_cons hpos
  refine ⟨(l ++ m).take ((l ++ m).length - N), (l ++ m)[(l ++ m).length - N], (l ++ m).drop ((l ++ m).length - N + 1), ?_, ?_, ?_, ?_, ?_⟩
  · rw [← hd, List.take_append_drop]
  · rw [List.length_take]; omega
  · unfold Cache.getOldestTime
    rw [hc', hd]
    rfl
  · intro x hx
    have h2 := hs
    rw [← List.take_append_drop ((l ++ m).length - N) (l ++ m)] at h2
    exact (List.pairwise_append.1 h2).2.2 x hx _ (by rw [hd]; exact List.mem_cons_self)
  · omega

theorem after_core {N : Nat} (hN : 0 < N) {l m : List Ev} (hs : TimeSorted (l ++ m)) {c c' : Cache.State}
    (hc : c.items = l.drop (l.length - N)) (hc' : c'.items = (l ++ m).drop ((l ++ m).length - N)) {t : Int}
    (hl : ∃ x ∈ l, t < x.stamp) (hold : Cache.getOldestTime c' ≤ t ∨ (l ++ m).length ≤ N) :
    Cache.getElemAfterTime c t = (l ++ m).find? (fun x => decide (t < x.stamp)) ∧
    Cache.getElemAfterTime c' t = (l ++ m).find? (fun x => decide (t < x.stamp)) := by
  have hs1 := (List.pairwise_append.1 hs).1
  have hcut : ∀ x ∈ (l ++ m).take ((l ++ m).length - N), x.stamp ≤ t := by
    intro x hx
    have := cut_old hN hs hc' (a := t + 1) (hold.imp (fun h => by omega) id) x hx
    omega
  have hcut1 : ∀ x ∈ l.take (l.length - N), x.stamp ≤ t := by
    intro x hx
    apply hcut
    have e : l.take (l.length - N) = (l ++ m).take (l.length - N) := (List.take_append_of_le_length (by omega)).symm
    rw [e] at hx
    exact (List.take_prefix_take_left (show l.length - N ≤ (l ++ m).length - N by simp; omega)).subset hx
  have whole : ∀ (k : List Ev) (d : Cache.State), TimeSorted k → d.items = k.drop (k.length - N) →
      (∀ x ∈ k.take (k.length - N), x.stamp ≤ t) → Cache.getElemAfterTime d t = k.find? (fun x => decide (t < x.stamp)) := by
    intro k d hk hd hx
    rw [Cache.getElemAfterTime_eq d (by rw [hd]; exact hk.sublist (List.drop_sublist _ _)), hd, List.head?_filter]
    conv => rhs; rw [← List.take_append_drop (k.length - N) k]
    have hnone : (k.take (k.length - N)).find? (fun x => decide (t < x.stamp)) = none := by
      rw [List.find?_eq_none]
      intro x hm
      have := hx x hm
      simp only [decide_eq_true_eq]
      omega
    rw [List.find?_append, hnone, Option.none_or]
  refine ⟨?_, whole _ _ hs hc' hcut⟩
  rw [whole _ _ hs1 hc hcut1, List.find?_append]
  obtain ⟨x, hx, hxt⟩ := hl
  cases hf : l.find? (fun x => decide (t < x.stamp)) with
  | none =>
    have := List.find?_eq_none.1 hf x hx
    simp [hxt] at this
  | some y => rfl

theorem before_core {N : Nat} (hN : 0 < N) {l m : List Ev} (hs : TimeSorted (l ++ m)) {c c' : Cache.State}
    (hc : c.items = l.drop (l.length - N)) (hc' : c'.items = (l ++ m).drop ((l ++ m).length - N)) {t : Int}
    (hm : ∀ x ∈ m, t ≤ x.stamp) (hne : l ++ m ≠ []) (hold : Cache.getOldestTime c' < t ∨ (l ++ m).length ≤ N) :
    Cache.getElemBeforeTime c t = ((l ++ m).filter (fun x => decide (x.stamp < t))).getLast? ∧
    Cache.getElemBeforeTime c' t = ((l ++ m).filter (fun x => decide (x.stamp < t))).getLast? := by
  have hs1 := (List.pairwise_append.1 hs).1
  have fm : m.filter (fun x => decide (x.stamp < t)) = [] := by
    rw [List.filter_eq_nil_iff]
    intro x hx
    have := hm x hx
    simp only [decide_eq_true_eq]
    omega
  have eq : ∀ d : Cache.State, TimeSorted d.items →
      Cache.getElemBeforeTime d t = (d.items.filter (fun x => decide (x.stamp < t))).getLast? := by
    intro d hd
    rw [Cache.getElemBeforeTime_eq, Cache.sorted_takeWhile_eq_filter _ hd]
  have whole : ∀ k u : List Ev, (∃ x ∈ u, x.stamp < t) →
      (u.filter (fun x => decide (x.stamp < t))).getLast? = ((k ++ u).filter (fun x => decide (x.stamp < t))).getLast? := by
    intro k u ⟨x, hx, hxt⟩
    rw [List.filter_append, List.getLast?_append]
    cases hg : (u.filter (fun x => decide (x.stamp < t))).getLast? with
    | none =>
      rw [List.getLast?_eq_none_iff, List.filter_eq_nil_iff] at hg
      exact absurd (decide_eq_true hxt) (hg x hx)
    | some y => rfl
  rw [eq c (by rw [hc]; exact hs1.sublist (List.drop_sublist _ _)), eq c' (by rw [hc']; exact hs.sublist (List.drop_sublist _ _))]
  by_cases hfull : (l ++ m).length ≤ N
  · rw [hc, hc', show (l ++ m).length - N = 0 by omega, show l.length - N = 0 by rw [List.length_append] at hfull; omega,
      List.drop_zero, List.drop_zero, List.filter_append, fm, List.append_nil]
    exact ⟨rfl, rfl⟩
  · have hold : Cache.getOldestTime c' < t := hold.resolve_right hfull
    obtain ⟨p, o, q, h1, h2, h3, _, _⟩ := oldest_split (t := t) hc' hne hN hs
    have ho : o.stamp < t := by rw [← h3]; exact hold
    have hplen : p.length < l.length := by
      apply Classical.byContradiction
      intro hc
      have : o ∈ m := by
        have e : (l ++ m).drop p.length = o :: q := by rw [h1]; simp
        rw [List.drop_append, List.drop_eq_nil_of_le (by omega), List.nil_append] at e
        exact (List.drop_sublist (p.length - l.length) m).subset (by rw [e]; simp)
      have := hm o this
      omega
    have hol : o ∈ l.drop p.length := by
      have e : (l ++ m).drop p.length = o :: q := by rw [h1]; simp
      rw [List.drop_append_of_le_length (by omega)] at e
      cases hd : l.drop p.length with
      | nil =>
        have := congrArg List.length hd
        rw [List.length_drop] at this
        simp at this
        omega
      | cons y r => rw [hd] at e; injection e with e1 _; rw [e1]; simp
    constructor
    · have hsub : l.drop p.length <:+ l.drop (l.length - N) := by
        have hle : l.length - N ≤ p.length := by rw [h2, List.length_append]; omega
        rw [show p.length = (l.length - N) + (p.length - (l.length - N)) by omega, ← List.drop_drop]
        exact List.drop_suffix _ _
      rw [hc, whole (l.take (l.length - N)) _ ⟨o, hsub.subset hol, ho⟩, List.take_append_drop, List.filter_append, fm, List.append_nil]
    · rw [hc', whole ((l ++ m).take ((l ++ m).length - N)) _ ⟨o, ?_, ho⟩, List.take_append_drop]
      rw [← h2, h1]
      simp

end MF.Pipeline
