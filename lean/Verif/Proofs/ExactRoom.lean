import Verif.Spec.ExactRoom
import Verif.Props.ExactTime
import Verif.Proofs.PyExact2
/-
What a bounded queue of the ExactTime policy retains.
-/
namespace MF.ExactTime

variable {n : Nat}

theorem fewNewer_mono {q : Nat} {ops ops' : List (Fin n × Ev)} {T T' : Int} (h : FewNewer q ops T)
    (hs : ∀ op ∈ ops', op ∈ ops) (hT : T ≤ T') : FewNewer q ops' T' := by
  intro l hl hx
  refine h l hl (fun x hxl => ?_)
  obtain ⟨h1, op, h2, h3⟩ := hx x hxl
  exact ⟨by omega, op, hs op h2, h3⟩

/-- Among at least `q` numbers there are `q` that have fewer than `q` of the others above them. -/
theorem newest (q : Nat) : ∀ (k : Nat) (l : List Int), l.length = q + k → l.Nodup →
    ∃ m : List Int, m.Nodup ∧ m.length = q ∧ (∀ y ∈ m, y ∈ l) ∧
      ∀ y ∈ m, ∀ z : List Int, z.Nodup → (∀ x ∈ z, y < x ∧ x ∈ l) → z.length < q := by
  intro k
  induction k with
  | zero =>
    intro l hl hn
    refine ⟨l, hn, by omega, fun y hy => hy, ?_⟩
    intro y hy z hz hx
    have : (y :: z).Nodup := by
      rw [List.nodup_cons]
      refine ⟨fun h => ?_, hz⟩
      have := (hx y h).1; omega
    have := Py.nodup_subset_length this (l' := l) (by
      intro x hx'
      rcases List.mem_cons.1 hx' with rfl | hx'
      · exact hy
      · exact (hx x hx').2)
    simp only [List.length_cons] at this
    omega
  | succ k ih =>
    intro l hl hn
    have hmin : ∃ z ∈ l, ∀ x ∈ l, z ≤ x := by
      have : ∀ l : List Int, l ≠ [] → ∃ z ∈ l, ∀ x ∈ l, z ≤ x := by
        intro l
        induction l with
        | nil => intro h; exact absurd rfl h
        | cons a l ihl =>
          intro _
          by_cases hl0 : l = []
          · subst hl0; exact ⟨a, by simp, by simp⟩
          · obtain ⟨z, hz, hzm⟩ := ihl hl0
            by_cases haz : a ≤ z
            · refine ⟨a, by simp, fun x hx => ?_⟩
              rcases List.mem_cons.1 hx with rfl | hx
              · omega
              · have := hzm x hx; omega
            · refine ⟨z, by simp [hz], fun x hx => ?_⟩
              rcases List.mem_cons.1 hx with rfl | hx
              · omega
              · exact hzm x hx
      apply this
      intro h; subst h; simp at hl
    obtain ⟨z, hz, hzm⟩ := hmin
    obtain ⟨m, h1, h2, h3, h4⟩ := ih (l.erase z) (by rw [List.length_erase_of_mem hz]; omega) (hn.erase z)
    refine ⟨m, h1, h2, fun y hy => List.mem_of_mem_erase (h3 y hy), ?_⟩
    intro y hy w hw hx
    refine h4 y hy w hw (fun x hxw => ?_)
    obtain ⟨h5, h6⟩ := hx x hxw
    refine ⟨h5, ?_⟩
    rw [List.mem_erase_of_ne]
    · exact h6
    · rintro rfl
      have := hzm y (List.mem_of_mem_erase (h3 y hy)); omega

/-- If `q` or more newer stamps have been delivered, there are `q` of them that have fewer than `q` above. -/
theorem newest_stamps {q : Nat} {ops : List (Fin n × Ev)} {T : Int} (h : ¬ FewNewer q ops T) :
    ∃ m : List Int, m.Nodup ∧ m.length = q ∧ ∀ y ∈ m, (T < y ∧ ∃ op ∈ ops, op.2.stamp = y) ∧ FewNewer q ops y := by
  -- the distinct newer stamps
  have hall : ∀ ops : List (Fin n × Ev), ∃ d : List Int, d.Nodup ∧ ∀ x, x ∈ d ↔ (T < x ∧ ∃ op ∈ ops, op.2.stamp = x) := by
    intro ops
    induction ops with
    | nil => exact ⟨[], by simp, by simp⟩
    | cons op ops ih =>
      obtain ⟨d, h1, h2⟩ := ih
      by_cases hc : T < op.2.stamp ∧ op.2.stamp ∉ d
      · refine ⟨op.2.stamp :: d, List.nodup_cons.2 ⟨hc.2, h1⟩, fun x => ?_⟩
        rw [List.mem_cons, h2]
        constructor
        · rintro (rfl | ⟨h3, o, h4, h5⟩)
          · exact ⟨hc.1, op, by simp, rfl⟩
          · exact ⟨h3, o, by simp [h4], h5⟩
        · rintro ⟨h3, o, h4, h5⟩
          rcases List.mem_cons.1 h4 with rfl | h4
          · exact Or.inl h5.symm
          · exact Or.inr ⟨h3, o, h4, h5⟩
      · refine ⟨d, h1, fun x => ?_⟩
        rw [h2]
        constructor
        · rintro ⟨h3, o, h4, h5⟩; exact ⟨h3, o, by simp [h4], h5⟩
        · rintro ⟨h3, o, h4, h5⟩
          rcases List.mem_cons.1 h4 with rfl | h4
          · have : o.2.stamp ∈ d := Classical.byContradiction fun hn => hc ⟨by omega, hn⟩
            rw [h5, h2] at this; exact this
          · exact ⟨h3, o, h4, h5⟩
  obtain ⟨d, hd, hdm⟩ := hall ops
  have hlen : q ≤ d.length := by
    apply Classical.byContradiction
    intro hlt
    apply h
    intro l hl hx
    have := Py.nodup_subset_length hl (l' := d) (fun x hxl => (hdm x).2 (hx x hxl))
    omega
  obtain ⟨m, h1, h2, h3, h4⟩ := newest q (d.length - q) d (by omega) hd
  refine ⟨m, h1, h2, fun y hy => ⟨(hdm y).1 (h3 y hy), ?_⟩⟩
  intro z hz hx
  refine h4 y hy z hz (fun x hxz => ?_)
  obtain ⟨h5, h6⟩ := hx x hxz
  refine ⟨h5, (hdm x).2 ⟨?_, h6⟩⟩
  have := ((hdm y).1 (h3 y hy)).1
  omega

/-- A set with stamp `T` may still become complete: some input has delivered its message, some input has not yet
reached `T`. -/
def Open (ops : List (Fin n × Ev)) (T : Int) : Prop :=
  (∃ i, ∃ e ∈ stream ops i, e.stamp = T) ∧ ∃ j, ∀ e ∈ stream ops j, e.stamp < T

/-- What the queue retains of the sets that may still become complete. -/
def Retains (q : Nat) (ops : List (Fin n × Ev)) (s : State n) : Prop :=
  ∀ T, Open ops T →
    (FewNewer q ops T → ∃ p ∈ s.tuples, p.1 = T ∧ ∀ i e, e ∈ stream ops i → e.stamp = T → p.2 i = some e) ∧
    (¬ FewNewer q ops T → ∀ p ∈ s.tuples, p.1 ≠ T)

theorem keys_nodup {m : List (Int × Tuple n)} (h : m.Pairwise (fun p q => p.1 < q.1)) : (m.map (·.1)).Nodup := by
  unfold List.Nodup
  rw [List.pairwise_map]
  exact h.imp (fun h => by omega)

theorem mem_stream_snoc {ops : List (Fin n × Ev)} {k i : Fin n} {e x : Ev} :
    x ∈ stream (ops ++ [(k, e)]) i ↔ x ∈ stream ops i ∨ (i = k ∧ x = e) := by
  rw [mem_stream, mem_stream]
  simp

theorem retains_step [NeZero n] {q : Nat} (hq : 0 < q) {ops : List (Fin n × Ev)} {s s' : State n} {k : Fin n} {e : Ev}
    (hr : run (construct n q) ops = .ok s) (ih : Retains q ops s) (hs : add s k e = .ok s')
    (hlast : ∀ x ∈ stream ops k, x.stamp < e.stamp) : Retains q (ops ++ [(k, e)]) s' := by
  have hinv : Inv s := run_inv (inv_construct q) hr
  have hinv' : Inv s' := add_inv hinv hs
  have hqs : s.queueSize = q := run_queueSize q ops s hr
  obtain ⟨a, o, b, t, sp⟩ := add_spec' hinv hs
  have hqs' : s'.queueSize = q := by rw [sp.qsize, hqs]
  have hprov := (provenance q ops s hr).1
  obtain ⟨ma, mb, mo⟩ := sp.mem_old
  have hsub : ∀ op ∈ ops, op ∈ ops ++ [(k, e)] := fun op h => by simp [h]
  -- the map after line 99
  have hsorted := sp.sorted hinv
  -- keys are delivered stamps
  have hkeys : ∀ p ∈ a ++ (e.stamp, t) :: b, ∃ op ∈ ops ++ [(k, e)], op.2.stamp = p.1 := by
    intro p hp
    have hold : p ∈ s.tuples → ∃ op ∈ ops ++ [(k, e)], op.2.stamp = p.1 := by
      intro hp
      obtain ⟨i, x, hx⟩ := hinv.nonempty p hp
      exact ⟨(i, x), hsub _ (mem_stream.1 (hprov p hp i x hx)), hinv.stamps p hp i x hx⟩
    rcases List.mem_append.1 hp with hp | hp
    · exact hold (ma p hp)
    · rcases List.mem_cons.1 hp with rfl | hp
      · exact ⟨(k, e), by simp, rfl⟩
      · exact hold (mb p hp)
  -- what was in the map still is, unless it is the tuple under the stamp
  have hkeep : ∀ p ∈ s.tuples, p.1 ≠ e.stamp → p ∈ a ++ (e.stamp, t) :: b := by
    intro p hp hne
    rw [sp.split] at hp
    rcases List.mem_append.1 hp with hp | hp
    · simp [hp]
    · rcases List.mem_append.1 hp with hp | hp
      · cases ho : o with
        | none => rw [ho] at hp; simp at hp
        | some t0 => rw [ho] at hp; simp at hp; rw [hp] at hne; simp at hne
      · simp [hp]
  have hstored : ∀ p ∈ s.tuples, p.1 = e.stamp → o = some p.2 := by
    intro p hp hpe
    rw [sp.split] at hp
    rcases List.mem_append.1 hp with hp | hp
    · have := sp.below p hp; omega
    · rcases List.mem_append.1 hp with hp | hp
      · cases ho : o with
        | none => rw [ho] at hp; simp at hp
        | some t0 => rw [ho] at hp; simp at hp; rw [hp]
      · have := sp.above p hp; omega
  -- a set that is open now and was delivered before was open before
  have hopen : ∀ T, Open (ops ++ [(k, e)]) T → (∃ i, ∃ x ∈ stream ops i, x.stamp = T) → Open ops T := by
    rintro T ⟨_, j, hj⟩ h
    exact ⟨h, j, fun x hx => hj x (mem_stream_snoc.2 (Or.inl hx))⟩
  -- a completed stamp is older than everything open
  have hcomp : Complete t → ∀ T, Open (ops ++ [(k, e)]) T → e.stamp < T := by
    rintro hc T ⟨_, j, hj⟩
    obtain ⟨x, hx⟩ := hc j
    have hxs : x.stamp = e.stamp := sp.stamp j x hx
    have hxm : x ∈ stream (ops ++ [(k, e)]) j := by
      rw [sp.tuple] at hx
      by_cases hjk : j = k
      · subst hjk; rw [upd_same] at hx; cases hx; rw [stream_snoc_same]; simp
      · rw [upd_ne _ _ hjk] at hx
        cases ho : o with
        | none => rw [ho] at hx; simp [emptyTuple] at hx
        | some t0 => rw [ho] at hx; exact mem_stream_snoc.2 (Or.inl (hprov _ (mo t0 ho) j x hx))
    have := hj x hxm; omega
  -- what is newer than something retained is retained
  have hup : ∀ p ∈ s'.tuples, ∀ p' ∈ a ++ (e.stamp, t) :: b, p.1 < p'.1 → p' ∈ s'.tuples := by
    intro p hp p' hp' hlt
    by_cases hc : Complete t
    · obtain ⟨st, _, _⟩ := sp.full hc
      rw [st] at hp ⊢
      have h1 := sp.above p hp
      rcases List.mem_append.1 hp' with hp' | hp'
      · have := sp.below p' hp'; omega
      · rcases List.mem_cons.1 hp' with rfl | hp'
        · simp only at hlt; omega
        · exact hp'
    · obtain ⟨_, st, _⟩ := sp.part hc
      rw [st] at hp ⊢
      generalize excess s.queueSize (a ++ (e.stamp, t) :: b).length = x at hp ⊢
      rw [← List.take_append_drop x (a ++ (e.stamp, t) :: b)] at hp' hsorted
      rcases List.mem_append.1 hp' with hp' | hp'
      · have := (List.pairwise_append.1 hsorted).2.2 p' hp' p hp; omega
      · exact hp'
  intro T hT
  -- the tuple of an open set with few newer stamps is complete before the overflow rule
  have hhave : ∀ T, Open (ops ++ [(k, e)]) T → FewNewer q (ops ++ [(k, e)]) T →
      ∃ p ∈ a ++ (e.stamp, t) :: b, p.1 = T ∧ ∀ i x, x ∈ stream (ops ++ [(k, e)]) i → x.stamp = T → p.2 i = some x := by
    intro T hT hf
    have hf' : FewNewer q ops T := fewNewer_mono hf hsub (Int.le_refl _)
    by_cases hTe : T = e.stamp
    · subst hTe
      refine ⟨(e.stamp, t), by simp, rfl, ?_⟩
      intro i x hx hxe
      simp only
      rw [sp.tuple]
      rcases mem_stream_snoc.1 hx with hx' | ⟨rfl, rfl⟩
      · have hik : i ≠ k := by
          rintro rfl
          have := hlast x hx'; omega
        rw [upd_ne _ _ hik]
        obtain ⟨p, hp, hpT, hps⟩ := (ih e.stamp (hopen _ hT ⟨i, x, hx', hxe⟩)).1 hf'
        rw [hstored p hp hpT]
        exact hps i x hx' hxe
      · rw [upd_same]
    · have hdel : ∃ i, ∃ x ∈ stream ops i, x.stamp = T := by
        obtain ⟨⟨i, x, hx, hxT⟩, _⟩ := hT
        rcases mem_stream_snoc.1 hx with hx | ⟨rfl, rfl⟩
        · exact ⟨i, x, hx, hxT⟩
        · exact absurd hxT.symm hTe
      obtain ⟨p, hp, hpT, hps⟩ := (ih T (hopen _ hT hdel)).1 hf'
      refine ⟨p, hkeep p hp (by omega), hpT, ?_⟩
      intro i x hx hxT
      rcases mem_stream_snoc.1 hx with hx | ⟨rfl, rfl⟩
      · exact hps i x hx hxT
      · exact absurd hxT.symm hTe
  constructor
  · intro hf
    obtain ⟨p, hp, hpT, hps⟩ := hhave T hT hf
    refine ⟨p, ?_, hpT, hps⟩
    by_cases hc : Complete t
    · obtain ⟨st, _, _⟩ := sp.full hc
      have := hcomp hc T hT
      rw [st]
      rcases List.mem_append.1 hp with hp | hp
      · have := sp.below p hp; omega
      · rcases List.mem_cons.1 hp with rfl | hp
        · simp only at hpT; omega
        · exact hp
    · obtain ⟨_, st, _⟩ := sp.part hc
      have hb' := hinv'.bound (by rw [hqs']; exact hq)
      rw [hqs'] at hb'
      -- if it is dropped, all that remain are newer, and there are `q` of them
      apply Classical.byContradiction
      intro hnot
      rw [st] at hnot hb'
      have hex : (a ++ (e.stamp, t) :: b).length - q ≤ excess s.queueSize (a ++ (e.stamp, t) :: b).length ∧
          excess s.queueSize (a ++ (e.stamp, t) :: b).length ≤ (a ++ (e.stamp, t) :: b).length - q := by
        unfold excess; rw [hqs, if_pos hq]; omega
      generalize excess s.queueSize (a ++ (e.stamp, t) :: b).length = x at hnot hb' hex
      have hp0 := hp
      rw [← List.take_append_drop x (a ++ (e.stamp, t) :: b)] at hp hsorted
      obtain ⟨_, hs2, hs3⟩ := List.pairwise_append.1 hsorted
      rcases List.mem_append.1 hp with hp | hp
      · have hx0 : 0 < x := by
          have := List.length_pos_of_mem hp
          rw [List.length_take] at this; omega
        have hlen : ((a ++ (e.stamp, t) :: b).drop x).length = q := by
          rw [List.length_drop]; omega
        have := hf (((a ++ (e.stamp, t) :: b).drop x).map (·.1)) (keys_nodup hs2) (by
          intro y hy
          obtain ⟨p', hp', rfl⟩ := List.mem_map.1 hy
          refine ⟨?_, hkeys p' (List.mem_of_mem_drop hp')⟩
          have := hs3 p hp p' hp'; omega)
        rw [List.length_map, hlen] at this
        omega
      · exact hnot hp
  · intro hf p hp hpT
    obtain ⟨m, hm1, hm2, hm3⟩ := newest_stamps hf
    have hin : ∀ y ∈ m, y ∈ s'.tuples.map (·.1) := by
      intro y hy
      obtain ⟨⟨h1, op, h2, h3⟩, h4⟩ := hm3 y hy
      have hyo : Open (ops ++ [(k, e)]) y := by
        refine ⟨⟨op.1, op.2, mem_stream.2 h2, h3⟩, ?_⟩
        obtain ⟨_, j, hj⟩ := hT
        exact ⟨j, fun x hx => by have := hj x hx; omega⟩
      obtain ⟨p', hp', hpy, _⟩ := hhave y hyo h4
      exact List.mem_map.2 ⟨p', hup p hp p' hp' (by omega), hpy⟩
    have hnd : (T :: m).Nodup := by
      rw [List.nodup_cons]
      refine ⟨fun h => ?_, hm1⟩
      have := (hm3 T h).1.1; omega
    have := Py.nodup_subset_length hnd (l' := s'.tuples.map (·.1)) (by
      intro y hy
      rcases List.mem_cons.1 hy with rfl | hy
      · exact List.mem_map.2 ⟨p, hp, hpT⟩
      · exact hin y hy)
    have hb' := hinv'.bound (by rw [hqs']; exact hq)
    rw [List.length_map, List.length_cons, hm2] at this
    omega

theorem retains [NeZero n] {q : Nat} (hq : 0 < q) : ∀ (ops : List (Fin n × Ev)) (s : State n),
    run (construct n q) ops = .ok s → (∀ i, StrictlyTimeSorted (stream ops i)) → Retains q ops s := by
  apply runE_induction
  · rintro _ T ⟨⟨i, e, he, _⟩, _⟩
    simp [stream] at he
  · intro ops s op s' hr ih hs hsort
    obtain ⟨k, e⟩ := op
    have hsort' : ∀ i, StrictlyTimeSorted (stream ops i) := by
      intro i; have := hsort i; unfold StrictlyTimeSorted at this ⊢
      rw [stream_append] at this; exact (List.pairwise_append.1 this).1
    refine retains_step hq hr (ih hsort') hs ?_
    intro x hx
    have hord := hsort k
    unfold StrictlyTimeSorted at hord
    rw [stream_snoc_same, List.pairwise_append] at hord
    exact hord.2.2 x hx e (by simp)

end MF.ExactTime
