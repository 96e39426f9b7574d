import Verif.Spec.ExactRoom
import Verif.Proofs.PyExact2
/-
What the bounded queues of the Python TimeSynchronizer retain.
-/
namespace MF.Py

variable {n : Nat}

/-- What input `j` holds of a stamp that some input has not reached yet. -/
def Keeps (q : Int) (ops : List (Fin n × Ev)) (s : State n) : Prop :=
  ∀ j T, (∃ x ∈ stream ops j, x.stamp = T) → (∃ l, ∀ x ∈ stream ops l, x.stamp < T) →
    (T ∈ (s.queues j).keys ↔ (newerOn ops j T : Int) < q)

theorem mem_stream_snoc {ops : List (Fin n × Ev)} {k i : Fin n} {e x : Ev} :
    x ∈ stream (ops ++ [(k, e)]) i ↔ x ∈ stream ops i ∨ (i = k ∧ x = e) := by
  rw [mem_stream, mem_stream]
  simp

theorem newerOn_snoc_ne {ops : List (Fin n × Ev)} {k j : Fin n} {e : Ev} {T : Int} (h : j ≠ k) :
    newerOn (ops ++ [(k, e)]) j T = newerOn ops j T := by
  unfold newerOn
  rw [stream_snoc_ne _ _ (Ne.symm h)]

theorem newerOn_snoc_same {ops : List (Fin n × Ev)} {k : Fin n} {e : Ev} {T : Int} :
    newerOn (ops ++ [(k, e)]) k T = newerOn ops k T + if T < e.stamp then 1 else 0 := by
  unfold newerOn
  rw [stream_snoc_same, List.filter_append, List.length_append]
  by_cases h : T < e.stamp <;> simp [h]

theorem stamps_nodup {l : List Ev} (h : StrictlyTimeSorted l) : (l.map (·.stamp)).Nodup := by
  unfold List.Nodup
  rw [List.pairwise_map]
  exact h.imp (fun h => by omega)

/-- The newer stamps of an input, as a list. -/
theorem newer_list {ops : List (Fin n × Ev)} {j : Fin n} (h : StrictlyTimeSorted (stream ops j)) (T : Int) :
    ∃ l : List Int, l.Nodup ∧ l.length = newerOn ops j T ∧ ∀ y, y ∈ l ↔ T < y ∧ ∃ x ∈ stream ops j, x.stamp = y := by
  refine ⟨((stream ops j).filter (fun x => decide (T < x.stamp))).map (·.stamp), ?_, by simp [newerOn], ?_⟩
  · exact stamps_nodup (h.sublist List.filter_sublist)
  · intro y
    simp only [List.mem_map, List.mem_filter, decide_eq_true_eq]
    constructor
    · rintro ⟨x, ⟨h1, h2⟩, rfl⟩; exact ⟨h2, x, h1, rfl⟩
    · rintro ⟨h1, x, h2, rfl⟩; exact ⟨x, ⟨h2, h1⟩, rfl⟩

theorem newerOn_lt {ops : List (Fin n × Ev)} {j : Fin n} (h : StrictlyTimeSorted (stream ops j)) {T y : Int} (hT : T < y)
    (hy : ∃ x ∈ stream ops j, x.stamp = y) : newerOn ops j y < newerOn ops j T := by
  obtain ⟨l, h1, h2, h3⟩ := newer_list h T
  obtain ⟨m, h4, h5, h6⟩ := newer_list h y
  have hnd : (y :: m).Nodup := by
    rw [List.nodup_cons]
    refine ⟨fun hm => ?_, h4⟩
    have := ((h6 y).1 hm).1; omega
  have := nodup_subset_length hnd (l' := l) (by
    intro z hz
    rcases List.mem_cons.1 hz with rfl | hz
    · exact (h3 _).2 ⟨hT, hy⟩
    · obtain ⟨h7, h8⟩ := (h6 z).1 hz
      exact (h3 z).2 ⟨by omega, h8⟩)
  simp only [List.length_cons] at this
  omega

structure Room (q : Int) (ops : List (Fin n × Ev)) (s : State n) : Prop where
  keeps : Keeps q ops s
  vals : ∀ j, ∀ p ∈ s.queues j, p.2 ∈ stream ops j

theorem evicted_keeps {q : Int} {ops : List (Fin n × Ev)} {s : State n} (hinv : Inv s) (hqs : s.queueSize = q) (hq : 0 ≤ q)
    (hR : Room q ops s) {i : Fin n} {e : Ev} {d' : Dict Ev} (hE : Evicted s.queueSize ((s.queues i).set e.stamp e) d')
    (hsort : StrictlyTimeSorted (stream ops i)) (hlast : ∀ x ∈ stream ops i, x.stamp < e.stamp) {T : Int}
    (hd : ∃ x ∈ stream (ops ++ [(i, e)]) i, x.stamp = T) (ho : ∃ l, ∀ x ∈ stream (ops ++ [(i, e)]) l, x.stamp < T) :
    T ∈ d'.keys ↔ (newerOn (ops ++ [(i, e)]) i T : Int) < q := by
  have hdok := (hinv.ok i).set e
  have hdok' := hE.dok (hinv.ok i)
  have hsubk : ∀ k ∈ d'.keys, k = e.stamp ∨ k ∈ (s.queues i).keys :=
    fun k hk => mem_keys_set.1 ((hE.sub.map _).subset hk)
  have hold : ∀ k ∈ (s.queues i).keys, ∃ x ∈ stream ops i, x.stamp = k := by
    intro k hk
    obtain ⟨v, hv⟩ := mem_keys.1 hk
    exact ⟨v, hR.vals i _ hv, (hinv.ok i).stamp _ hv⟩
  have hle : ∀ k ∈ d'.keys, k ≤ e.stamp := by
    intro k hk
    rcases hsubk k hk with rfl | hk
    · omega
    · obtain ⟨x, hx, rfl⟩ := hold k hk
      have := hlast x hx; omega
  have hlen := hE.len
  rw [hqs] at hlen
  have hset : e.stamp ∈ ((s.queues i).set e.stamp e).keys := mem_keys_set.2 (Or.inl rfl)
  have hpos : 0 < ((s.queues i).set e.stamp e).length := by
    have := List.length_pos_of_mem hset
    simpa [Dict.keys] using this
  rw [newerOn_snoc_same]
  by_cases hTe : T = e.stamp
  · subst hTe
    have h0 : newerOn ops i e.stamp = 0 := by
      unfold newerOn
      rw [List.length_eq_zero_iff, List.filter_eq_nil_iff]
      intro x hx
      have := hlast x hx
      simp; omega
    rw [h0, if_neg (by omega)]
    constructor
    · intro h
      have h1 := hE.length_le
      rw [hqs] at h1
      have h2 : 0 < d'.length := by
        have := List.length_pos_of_mem h
        simpa [Dict.keys] using this
      omega
    · intro h
      apply Classical.byContradiction
      intro hn
      have h1 := hE.older e.stamp hset hn
      have h2 : d'.length = 0 := by
        cases hd' : d' with
        | nil => rfl
        | cons p d2 =>
          have hp : p.1 ∈ d'.keys := by rw [hd']; simp [Dict.keys]
          have := h1 p.1 hp
          have := hle p.1 hp
          omega
      rw [h2] at hlen
      split at hlen <;> omega
  · obtain ⟨x, hx, hxT⟩ := hd
    have hx' : x ∈ stream ops i := by
      rcases mem_stream_snoc.1 hx with h | ⟨_, h⟩
      · exact h
      · rw [h] at hxT; exact absurd hxT.symm hTe
    have hTlt : T < e.stamp := by have := hlast x hx'; omega
    obtain ⟨l, hl⟩ := ho
    have hl' : ∀ x ∈ stream ops l, x.stamp < T := fun x hx => hl x (mem_stream_snoc.2 (Or.inl hx))
    have hk := hR.keeps i T ⟨x, hx', hxT⟩ ⟨l, hl'⟩
    rw [if_pos hTlt]
    constructor
    · intro h
      have hTk : T ∈ (s.queues i).keys := by
        rcases hsubk T h with h | h
        · exact absurd h hTe
        · exact h
      have hlt := hk.1 hTk
      apply Classical.byContradiction
      intro hge
      -- everything newer is there
      obtain ⟨m, h1, h2, h3⟩ := newer_list hsort T
      have hnd : (T :: e.stamp :: m).Nodup := by
        rw [List.nodup_cons, List.nodup_cons]
        refine ⟨fun hm => ?_, fun hm => ?_, h1⟩
        · rcases List.mem_cons.1 hm with hm | hm
          · exact hTe hm
          · have := ((h3 T).1 hm).1; omega
        · obtain ⟨_, y, hy, hye⟩ := (h3 e.stamp).1 hm
          have := hlast y hy; omega
      have hup : ∀ y, y ∈ ((s.queues i).set e.stamp e).keys → T < y → y ∈ d'.keys := by
        intro y hy hTy
        apply Classical.byContradiction
        intro hn
        have := hE.older y hy hn T h; omega
      have := nodup_subset_length hnd (l' := d'.keys) (by
        intro y hy
        rcases List.mem_cons.1 hy with rfl | hy
        · exact h
        · rcases List.mem_cons.1 hy with rfl | hy
          · exact hup _ hset hTlt
          · obtain ⟨h4, h5⟩ := (h3 y).1 hy
            refine hup y (mem_keys_set.2 (Or.inr ?_)) h4
            refine (hR.keeps i y h5 ⟨l, fun z hz => by have := hl' z hz; omega⟩).2 ?_
            have := newerOn_lt hsort h4 h5
            omega)
      have hb := hE.length_le
      rw [hqs] at hb
      simp only [List.length_cons, h2, Dict.keys, List.length_map] at this
      omega
    · intro h
      have hTk : T ∈ (s.queues i).keys := hk.2 (by omega)
      apply Classical.byContradiction
      intro hn
      have h1 := hE.older T (mem_keys_set.2 (Or.inr hTk)) hn
      have hgone : d'.length = q := by
        split at hlen
        · have : d' = (s.queues i).set e.stamp e := hE.sub.eq_of_length (by omega)
          rw [this] at hn
          exact absurd (mem_keys_set.2 (Or.inr hTk)) hn
        · exact hlen
      obtain ⟨m, h2, h3, h4⟩ := newer_list hsort T
      have := nodup_subset_length hdok'.nodup (l' := e.stamp :: m) (by
        intro y hy
        have hTy := h1 y hy
        rcases hsubk y hy with rfl | hy'
        · simp
        · exact List.mem_cons_of_mem _ ((h4 y).2 ⟨hTy, hold y hy'⟩))
      simp only [List.length_cons, h3, Dict.keys, List.length_map] at this
      omega

/-- One call. -/
theorem room_step [NeZero n] {q : Int} {ops : List (Fin n × Ev)} {s : State n} (hinv : Inv s) (hqs : s.queueSize = q)
    (hl : s.locked = false) (hq : 0 ≤ q) (hR : Room q ops s) (hsort : ∀ j, StrictlyTimeSorted (stream ops j)) (i : Fin n)
    (e : Ev) (hlast : ∀ x ∈ stream ops i, x.stamp < e.stamp) :
    ∃ s', tsAdd noRaise s i ⟨e, true⟩ = .ok (s', false) ∧ Room q (ops ++ [(i, e)]) s' ∧
      ((s'.out = s.out ∧ ¬ ((∀ j, j ≠ i → ∃ x ∈ stream ops j, x.stamp = e.stamp) ∧ ∀ j, (newerOn ops j e.stamp : Int) < q)) ∨
       ∃ t, s'.out = s.out ++ [t] ∧ Completes ops i e (fun j => some (t j)) ∧ ∀ j, (newerOn ops j e.stamp : Int) < q) := by
  obtain ⟨d', hE, hcase⟩ := tsAdd_spec noRaise s hinv (by omega) hl i e
  have hdok' := hE.dok (hinv.ok i)
  have dok := fun j => upd_DOk hinv.ok hdok' (i := i) j
  have hvals : ∀ j, ∀ p ∈ upd s.queues i d' j, p.2 ∈ stream (ops ++ [(i, e)]) j := by
    intro j p hp
    rw [mem_stream_snoc]
    by_cases hj : j = i
    · subst hj
      rw [upd_same] at hp
      rcases mem_set.mp (hE.sub.subset hp) with rfl | hp
      · exact Or.inr ⟨rfl, rfl⟩
      · exact Or.inl (hR.vals j p hp.1)
    · rw [upd_ne _ _ hj] at hp; exact Or.inl (hR.vals j p hp)
  -- before anything is output
  have hkeep : ∀ j T, (∃ x ∈ stream (ops ++ [(i, e)]) j, x.stamp = T) →
      (∃ l, ∀ x ∈ stream (ops ++ [(i, e)]) l, x.stamp < T) →
      (T ∈ (upd s.queues i d' j).keys ↔ (newerOn (ops ++ [(i, e)]) j T : Int) < q) := by
    intro j T hd ho
    by_cases hj : j = i
    · subst hj
      rw [upd_same]
      exact evicted_keeps hinv hqs hq hR hE (hsort j) hlast hd ho
    · rw [upd_ne _ _ hj, newerOn_snoc_ne hj]
      apply hR.keeps
      · obtain ⟨x, hx, hxT⟩ := hd
        rcases mem_stream_snoc.1 hx with h | ⟨h, _⟩
        · exact ⟨x, h, hxT⟩
        · exact absurd h hj
      · obtain ⟨l, h⟩ := ho
        exact ⟨l, fun x hx => h x (mem_stream_snoc.2 (Or.inl hx))⟩
  -- the message itself survives if there is any room
  have hself : e.stamp ∈ d'.keys ↔ 0 < q := by
    have h0 : newerOn ops i e.stamp = 0 := by
      unfold newerOn
      rw [List.length_eq_zero_iff, List.filter_eq_nil_iff]
      intro x hx
      have := hlast x hx
      simp; omega
    have hlen := hE.len
    rw [hqs] at hlen
    have hset : e.stamp ∈ ((s.queues i).set e.stamp e).keys := mem_keys_set.2 (Or.inl rfl)
    have hpos : 0 < ((s.queues i).set e.stamp e).length := by
      have := List.length_pos_of_mem hset
      simpa [Dict.keys] using this
    constructor
    · intro h
      have h1 := hE.length_le
      rw [hqs] at h1
      have h2 : 0 < d'.length := by
        have := List.length_pos_of_mem h
        simpa [Dict.keys] using this
      omega
    · intro h
      apply Classical.byContradiction
      intro hn
      have h1 := hE.older e.stamp hset hn
      have h2 : d'.length = 0 := by
        cases hd' : d' with
        | nil => rfl
        | cons p d2 =>
          have hp : p.1 ∈ d'.keys := by rw [hd']; simp [Dict.keys]
          have h3 := h1 p.1 hp
          rcases mem_keys_set.1 ((hE.sub.map _).subset hp) with h4 | h4
          · omega
          · obtain ⟨v, hv⟩ := mem_keys.1 h4
            have h5 := hlast v (hR.vals i _ hv)
            have h6 := (hinv.ok i).stamp _ hv
            simp only at h6
            omega
      rw [h2] at hlen
      split at hlen <;> omega
  -- the stamp is in all queues exactly if the set is complete and there was room
  have hall : (∀ j, e.stamp ∈ (upd s.queues i d' j).keys) ↔
      ((∀ j, j ≠ i → ∃ x ∈ stream ops j, x.stamp = e.stamp) ∧ ∀ j, (newerOn ops j e.stamp : Int) < q) := by
    have h0 : newerOn ops i e.stamp = 0 := by
      unfold newerOn
      rw [List.length_eq_zero_iff, List.filter_eq_nil_iff]
      intro x hx
      have := hlast x hx
      simp; omega
    have hopen : ∃ l, ∀ x ∈ stream ops l, x.stamp < e.stamp := ⟨i, hlast⟩
    constructor
    · intro h
      have h1 : ∀ j, j ≠ i → ∃ x ∈ stream ops j, x.stamp = e.stamp := by
        intro j hj
        have := h j
        rw [upd_ne _ _ hj] at this
        obtain ⟨v, hv⟩ := mem_keys.1 this
        exact ⟨v, hR.vals j _ hv, (hinv.ok j).stamp _ hv⟩
      refine ⟨h1, fun j => ?_⟩
      by_cases hj : j = i
      · subst hj
        have := h j
        rw [upd_same, hself] at this
        rw [h0]; exact this
      · have := h j
        rw [upd_ne _ _ hj] at this
        exact (hR.keeps j e.stamp (h1 j hj) hopen).1 this
    · rintro ⟨h1, h2⟩ j
      by_cases hj : j = i
      · subst hj
        rw [upd_same, hself]
        have := h2 j
        rw [h0] at this; exact this
      · rw [upd_ne _ _ hj]
        exact (hR.keeps j e.stamp (h1 j hj) hopen).2 (h2 j)
  rcases hcase with ⟨hnc, hstep⟩ | ⟨msgs, hg, hstep⟩
  · exact ⟨_, hstep, ⟨hkeep, hvals⟩, Or.inl ⟨rfl, fun h => hnc (hall.2 h)⟩⟩
  · simp only [noRaise, Bool.false_eq_true, ↓reduceIte] at hstep
    have hmem := fun j => (get_some (dok j).nodup).mp (hg j)
    have hin : ∀ j, e.stamp ∈ (upd s.queues i d' j).keys := fun j => mem_keys.mpr ⟨_, hmem j⟩
    have hms : ∀ j, (msgs j).stamp = e.stamp := fun j => (dok j).stamp _ (hmem j)
    have hmv : ∀ j, msgs j ∈ stream (ops ++ [(i, e)]) j := fun j => hvals j _ (hmem j)
    refine ⟨_, hstep, ⟨?_, ?_⟩, Or.inr ⟨msgs, rfl, ⟨?_, ?_⟩, (hall.1 hin).2⟩⟩
    · intro j T hd ho
      have hTne : T ≠ e.stamp := by
        obtain ⟨l, h⟩ := ho
        have := h _ (hmv l)
        have := hms l
        omega
      rw [mem_keys_del, hkeep j T hd ho]
      simp [hTne]
    · intro j p hp
      exact hvals j p ((del_sublist _ _).subset hp)
    · have hi := hmem i
      rw [upd_same] at hi
      rcases mem_set.mp (hE.sub.subset hi) with h | h
      · simp only [Prod.mk.injEq, true_and] at h
        simp only [h]
      · exact absurd rfl h.2
    · intro j hj
      have := hmv j
      rcases mem_stream_snoc.1 this with h | ⟨h, _⟩
      · exact ⟨msgs j, h, hms j, rfl⟩
      · exact absurd h hj

/-- All calls return, and the output is as the arrivals say. -/
theorem room_run [NeZero n] (q : Int) (hq : 0 ≤ q) (ops : List (Fin n × Ev)) (hsort : ∀ j, StrictlyTimeSorted (stream ops j)) :
    ∃ s, tsRun noRaise (construct n q) (withHeaders ops) = .ok s ∧ s.locked = false ∧ s.queueSize = q ∧ Inv s ∧ Room q ops s ∧
      (∀ t, t ∈ s.out ↔ ∃ pre i e post, ops = pre ++ (i, e) :: post ∧ Completes pre i e (fun j => some (t j)) ∧
        ∀ j, (newerOn pre j e.stamp : Int) < q) ∧
      (s.out.map stampOf).Pairwise (· < ·) ∧ ∀ t ∈ s.out, ∀ j, ∃ x ∈ stream ops j, x.stamp = stampOf t := by
  induction ops using snoc_induction with
  | h0 =>
    refine ⟨construct n q, rfl, rfl, rfl, Inv.construct q, ⟨?_, ?_⟩, ?_, ?_, ?_⟩
    · rintro j T ⟨x, hx, _⟩; simp [stream_nil] at hx
    · intro j p hp; simp [construct] at hp
    · intro t
      constructor
      · intro h; simp [construct] at h
      · rintro ⟨pre, i, e, post, h, _⟩; simp at h
    · simp [construct]
    · intro t ht; simp [construct] at ht
  | hs ops op ih =>
    obtain ⟨i, e⟩ := op
    have hsort' : ∀ j, StrictlyTimeSorted (stream ops j) := by
      intro j; have := hsort j; unfold StrictlyTimeSorted at this ⊢
      rw [stream_append] at this; exact (List.pairwise_append.1 this).1
    have hlast : ∀ x ∈ stream ops i, x.stamp < e.stamp := by
      intro x hx
      have hord := hsort i
      unfold StrictlyTimeSorted at hord
      rw [stream_snoc_same, List.pairwise_append] at hord
      exact hord.2.2 x hx e (by simp)
    obtain ⟨s, hrun, hl, hqs, hinv, hR, hout, hsorted, hprov⟩ := ih hsort'
    obtain ⟨s', hstep, hR', hcase⟩ := room_step hinv hqs hl hq hR hsort' i e hlast
    obtain ⟨hinv', hqs', hl'⟩ := tsAdd_inv _ _ hinv _ _ _ _ hstep
    have hrun' : tsRun noRaise (construct n q) (withHeaders (ops ++ [(i, e)])) = .ok s' := by
      unfold tsRun withHeaders at *
      rw [List.map_append, runE_append, hrun]
      simp only [List.map_cons, List.map_nil, runE, hstep]
      rfl
    have hsplit : ∀ t : Fin n → Ev, (∃ pre i' e' post, ops ++ [(i, e)] = pre ++ (i', e') :: post ∧
        Completes pre i' e' (fun j => some (t j)) ∧ ∀ j, (newerOn pre j e'.stamp : Int) < q) ↔
        (∃ pre i' e' post, ops = pre ++ (i', e') :: post ∧ Completes pre i' e' (fun j => some (t j)) ∧
          ∀ j, (newerOn pre j e'.stamp : Int) < q) ∨
        (Completes ops i e (fun j => some (t j)) ∧ ∀ j, (newerOn ops j e.stamp : Int) < q) := by
      intro t
      constructor
      · rintro ⟨pre, i', x, post, h1, h2, h3⟩
        rcases List.eq_nil_or_concat post with rfl | ⟨post', b, rfl⟩
        · obtain ⟨h4, h5⟩ := List.append_inj' h1 rfl
          simp only [List.cons.injEq, Prod.mk.injEq, and_true] at h5
          obtain ⟨rfl, rfl⟩ := h5
          rw [h4]
          exact Or.inr ⟨h2, h3⟩
        · left
          rw [List.concat_eq_append, ← List.cons_append, ← List.append_assoc] at h1
          obtain ⟨h4, _⟩ := List.append_inj' h1 rfl
          exact ⟨pre, i', x, post', h4, h2, h3⟩
      · rintro (⟨pre, i', x, post, h1, h2, h3⟩ | ⟨h2, h3⟩)
        · exact ⟨pre, i', x, post ++ [(i, e)], by rw [h1]; simp, h2, h3⟩
        · exact ⟨ops, i, e, [], rfl, h2, h3⟩
    have hmono : ∀ j x, x ∈ stream ops j → x ∈ stream (ops ++ [(i, e)]) j := fun j x h => mem_stream_snoc.2 (Or.inl h)
    refine ⟨s', hrun', hl', by rw [hqs', hqs], hinv', hR', ?_, ?_, ?_⟩
    · intro t
      rw [hsplit, ← hout]
      rcases hcase with ⟨h1, h2⟩ | ⟨u, h1, h2, h3⟩
      · rw [h1]
        constructor
        · exact Or.inl
        · rintro (h | ⟨h, h'⟩)
          · exact h
          · exact absurd ⟨fun j hj => by obtain ⟨x, hx, hxe, _⟩ := h.2 j hj; exact ⟨x, hx, hxe⟩, h'⟩ h2
      · rw [h1, List.mem_append, List.mem_singleton]
        constructor
        · rintro (h | rfl)
          · exact Or.inl h
          · exact Or.inr ⟨h2, h3⟩
        · rintro (h | ⟨h, _⟩)
          · exact Or.inl h
          · right
            funext j
            by_cases hj : j = i
            · subst hj
              have h4 := h.1
              have h5 := h2.1
              simp only [Option.some.injEq] at h4 h5
              rw [h4, h5]
            · obtain ⟨x, hx, hxe, hxt⟩ := h.2 j hj
              obtain ⟨y, hy, hye, hyu⟩ := h2.2 j hj
              simp only [Option.some.injEq] at hxt hyu
              rw [hxt, hyu]
              exact stamp_inj (stamps_nodup (hsort' j)) hx hy (by omega)
    · rcases hcase with ⟨h1, _⟩ | ⟨u, h1, h2, _⟩
      · rw [h1]; exact hsorted
      · rw [h1, List.map_append, List.pairwise_append]
        refine ⟨hsorted, by simp, ?_⟩
        intro a ha b hb
        obtain ⟨t, ht, rfl⟩ := List.mem_map.1 ha
        simp only [List.map_cons, List.map_nil, List.mem_singleton] at hb
        subst hb
        obtain ⟨x, hx, hxt⟩ := hprov t ht i
        have := hlast x hx
        have hu : stampOf u = e.stamp := by
          unfold stampOf
          by_cases hj : (⟨0, Nat.pos_of_ne_zero (NeZero.ne n)⟩ : Fin n) = i
          · have := h2.1
            simp only [Option.some.injEq] at this
            rw [hj, this]
          · obtain ⟨y, _, hye, hyu⟩ := h2.2 _ hj
            simp only [Option.some.injEq] at hyu
            rw [hyu, hye]
        omega
    · intro t ht j
      rcases hcase with ⟨h1, _⟩ | ⟨u, h1, h2, _⟩
      · rw [h1] at ht
        obtain ⟨x, hx, hxt⟩ := hprov t ht j
        exact ⟨x, hmono j x hx, hxt⟩
      · rw [h1, List.mem_append, List.mem_singleton] at ht
        rcases ht with ht | rfl
        · obtain ⟨x, hx, hxt⟩ := hprov t ht j
          exact ⟨x, hmono j x hx, hxt⟩
        · have hu : ∀ l, (t l).stamp = e.stamp ∧ t l ∈ stream (ops ++ [(i, e)]) l := by
            intro l
            by_cases hl : l = i
            · have := h2.1
              simp only [Option.some.injEq] at this
              subst hl
              rw [this]
              exact ⟨rfl, mem_stream_snoc.2 (Or.inr ⟨rfl, rfl⟩)⟩
            · obtain ⟨y, hy, hye, hyu⟩ := h2.2 l hl
              simp only [Option.some.injEq] at hyu
              rw [hyu]
              exact ⟨hye, hmono l y hy⟩
          exact ⟨t j, (hu j).2, by rw [(hu j).1]; exact (hu _).1.symm⟩

end MF.Py
