import Verif.Proofs.PyApproxRoom
import Verif.Proofs.Rates
import Verif.Spec.PyReach
/-
The Python ApproximateTimeSynchronizer: what its queues lose does not matter if they reach far enough back.
-/
namespace MF.Py

variable {n : Nat}

/-- A stamp of input `j` that a message still to come is within the slop of. -/
def useful (slop : Int) (post : List (Fin n × Ev)) (j : Fin n) (x : Int) : Bool :=
  post.any (fun o => decide (o.1 ≠ j) && (decide (x - o.2.stamp < slop) && decide (o.2.stamp - x < slop)))

theorem useful_iff {slop : Int} {post : List (Fin n × Ev)} {j : Fin n} {x : Int} :
    useful slop post j x = true ↔ ∃ o ∈ post, o.1 ≠ j ∧ x - o.2.stamp < slop ∧ o.2.stamp - x < slop := by
  simp [useful]

theorem newerOn_append (ops more : List (Fin n × Ev)) (j : Fin n) (x : Int) : newerOn ops j x ≤ newerOn (ops ++ more) j x := by
  unfold newerOn
  rw [stream_append, List.filter_append, List.length_append]
  omega

/-- Eviction removes no stamp that is used later. -/
theorem evict_useful {q : Int} {q0 : Nat} (hqq : q = q0) {slop : Int} {pre post : List (Fin n × Ev)} {i : Fin n} {d d' : Dict Ev}
    (hd : DOk d) (hfrom : ∀ p ∈ d, p.2 ∈ stream pre i) (hE : Evicted q d d') (hr : Reach q0 slop (pre ++ post)) :
    d'.filter (fun x => useful slop post i x.1) = d.filter (fun x => useful slop post i x.1) := by
  have hmem : ∀ p ∈ d, useful slop post i p.1 = true → p ∈ d' := by
    intro p hp ha
    have hk : p.1 ∈ d'.keys := by
      apply Classical.byContradiction
      intro hn
      obtain ⟨⟨k, y⟩, ho, hki, hy1, hy2⟩ := useful_iff.1 ha
      obtain ⟨post1, post2, rfl⟩ := List.append_of_mem ho
      have hps := hd.stamp p hp
      have hnew := (hr (pre ++ post1) k y post2 (by simp)).2 i (Ne.symm hki) p.2
        (by rw [stream_append]; exact List.mem_append_left _ (hfrom p hp)) (by simp only at hy1; omega) (by simp only at hy2; omega)
      have hnew := Nat.lt_of_le_of_lt (newerOn_append pre post1 i p.2.stamp) hnew
      have holder := hE.older p.1 (mem_keys.2 ⟨p.2, hp⟩) hn
      have hnd : d'.keys.Nodup := hd.nodup.sublist (hE.sub.map _)
      have hle := nodup_subset_length hnd (l' := ((stream pre i).filter (fun x => decide (p.2.stamp < x.stamp))).map (·.stamp)) (by
        intro x hx
        obtain ⟨v, hv⟩ := mem_keys.1 hx
        have hvd := hE.sub.subset hv
        have := holder x hx
        have hs := hd.stamp _ hvd
        refine List.mem_map.2 ⟨v, List.mem_filter.2 ⟨hfrom _ hvd, ?_⟩, hs⟩
        simp only at hs
        rw [decide_eq_true_eq]
        omega)
      rw [List.length_map] at hle
      unfold newerOn at hnew
      have hl := hE.len
      have hkl : d'.keys.length = d'.length := by simp [Dict.keys]
      split at hl
      · have := List.Sublist.eq_of_length hE.sub (by omega)
        rw [this] at hn
        exact hn (mem_keys.2 ⟨p.2, hp⟩)
      · omega
    obtain ⟨v, hv⟩ := mem_keys.1 hk
    have h1 := (get_some hd.nodup).2 (hE.sub.subset hv)
    have h2 := (get_some hd.nodup).2 (show (p.1, p.2) ∈ d from hp)
    rw [h1] at h2
    cases h2
    exact hv
  have hnd : d.Nodup := List.Pairwise.of_map (·.1) (fun a b h e => h (by rw [e])) hd.nodup
  refine (hE.sub.filter _).eq_of_length_le ?_
  refine (hnd.sublist List.filter_sublist).length_le_of_subset ?_
  intro p hp
  obtain ⟨h1, h2⟩ := List.mem_filter.1 hp
  exact List.mem_filter.2 ⟨hmem p h1 h2, h2⟩

/-- The message that arrives is not evicted. -/
theorem evict_gets_new {q : Int} {q0 : Nat} (hqq : q = q0) {pre : List (Fin n × Ev)} {i : Fin n} {e : Ev} {d0 d' : Dict Ev}
    (hd : DOk d0) (hfrom : ∀ p ∈ d0, (i, p.2) ∈ pre) (hE : Evicted q (d0.set e.stamp e) d') (hr : newerOn pre i e.stamp < q0) :
    d'.get e.stamp = some e := by
  have hset := hd.set e
  have hk : e.stamp ∈ d'.keys := by
    apply Classical.byContradiction
    intro hn
    have hk0 : e.stamp ∈ Dict.keys (d0.set e.stamp e) := mem_keys_set.2 (Or.inl rfl)
    have holder := hE.older e.stamp hk0 hn
    have hnd : d'.keys.Nodup := hset.nodup.sublist (hE.sub.map _)
    have hle := nodup_subset_length hnd (l' := ((stream pre i).filter (fun x => decide (e.stamp < x.stamp))).map (·.stamp)) (by
      intro x hx
      obtain ⟨v, hv⟩ := mem_keys.1 hx
      have hvd := hE.sub.subset hv
      have := holder x hx
      have hs := hset.stamp _ hvd
      simp only at hs
      refine List.mem_map.2 ⟨v, List.mem_filter.2 ⟨?_, ?_⟩, hs⟩
      · rcases mem_set.1 hvd with h | h
        · cases h; omega
        · exact mem_stream.2 (hfrom _ h.1)
      · rw [decide_eq_true_eq]; omega)
    rw [List.length_map] at hle
    unfold newerOn at hr
    have hl := hE.len
    have hkl : d'.keys.length = d'.length := by simp [Dict.keys]
    split at hl
    · have := List.Sublist.eq_of_length hE.sub (by omega)
      rw [this] at hn
      exact hn hk0
    · omega
  obtain ⟨v, hv⟩ := mem_keys.1 hk
  have h1 : ((e.stamp, e) : Int × Ev) ∈ d0.set e.stamp e := mem_set.2 (Or.inl rfl)
  have h2 := (get_some hset.nodup).2 h1
  have h3 := (get_some hset.nodup).2 (hE.sub.subset hv)
  rw [h2] at h3
  cases h3
  exact (get_some (hset.sublist hE.sub).nodup).2 hv

/-- What two synchronizers with different queue sizes have in common before the calls `post`. -/
structure Alike (slop : Int) (post : List (Fin n × Ev)) (s s' : State n) : Prop where
  out : s.out = s'.out
  locked : s.locked = s'.locked
  queues : Agree (useful slop post) s.queues s'.queues

/-- One call. -/
theorem approxAdd_alike [NeZero n] {boom : Nat → Bool} {slop : Int} {q q' : Nat} {allow : Bool}
    (ops : List (Fin n × Msg)) (i : Fin n) (m : Msg) (post : List (Fin n × Ev)) (s s' : State n)
    (h : approxRun boom slop allow (construct n q) ops = .ok s) (h' : approxRun boom slop allow (construct n q') ops = .ok s')
    (hr : Reach q slop (accepted allow (ops ++ [(i, m)]) ++ post)) (hr' : Reach q' slop (accepted allow (ops ++ [(i, m)]) ++ post))
    (hlike : Alike slop (accepted allow [(i, m)] ++ post) s s') :
    (approxAdd boom slop allow s i m = .error .hang ∧ approxAdd boom slop allow s' i m = .error .hang) ∨
    ∃ t t' r r', approxAdd boom slop allow s i m = .ok (t, r) ∧ approxAdd boom slop allow s' i m = .ok (t', r') ∧
      Alike slop post t t' := by
  obtain ⟨_, hI, hsq⟩ := approxRun_induction (P := fun _ _ => True) trivial (fun _ _ _ _ _ _ _ _ _ _ _ => trivial) ops s h
  obtain ⟨_, hI', hsq'⟩ := approxRun_induction (P := fun _ _ => True) trivial (fun _ _ _ _ _ _ _ _ _ _ _ => trivial) ops s' h'
  have hfrom := (approx_from ops s h).1
  have hfrom' := (approx_from ops s' h').1
  by_cases hm : (m.header || allow) = true
  · have hacc1 : accepted allow [(i, m)] = [(i, m.ev)] := by unfold accepted; simp [hm]
    rw [hacc1] at hlike
    cases hl : s.locked with
    | true =>
      left
      have hl' : s'.locked = true := by rw [← hlike.locked, hl]
      have hc : (!m.header && !allow) = false := by revert hm; cases m.header <;> cases allow <;> simp
      unfold approxAdd
      rw [hc, hl, hl']
      exact ⟨rfl, rfl⟩
    | false =>
      right
      have hl' : s'.locked = false := by rw [← hlike.locked, hl]
      have hacc : accepted allow (ops ++ [(i, m)]) = accepted allow ops ++ [(i, m.ev)] := by rw [accepted_snoc, if_pos hm]
      rw [hacc] at hr hr'
      have hnow := (hr (accepted allow ops) i m.ev post (by simp)).1
      have hnow' := (hr' (accepted allow ops) i m.ev post (by simp)).1
      obtain ⟨d, hE, he⟩ := approxAdd_eq boom slop allow s hI.ok (by omega) hl i m hm
      obtain ⟨d', hE', he'⟩ := approxAdd_eq boom slop allow s' hI'.ok (by omega) hl' i m hm
      rw [hsq] at hE
      rw [hsq'] at hE'
      have hsetfrom : ∀ (s : State n), (∀ j, ∀ p ∈ s.queues j, (j, p.2) ∈ accepted allow ops) →
          ∀ p ∈ (s.queues i).set m.ev.stamp m.ev, p.2 ∈ stream (accepted allow ops ++ [(i, m.ev)]) i := by
        intro s hf p hp
        rw [mem_stream]
        rcases mem_set.1 hp with rfl | hp
        · simp
        · exact List.mem_append_left _ (hf i p hp.1)
      have hown : ∀ x, useful slop ((i, m.ev) :: post) i x = useful slop post i x := by
        intro x; simp [useful]
      have hkeep := evict_useful (q := q) rfl ((hI.ok i).set m.ev) (hsetfrom s hfrom) hE hr
      have hkeep' := evict_useful (q := q') rfl ((hI'.ok i).set m.ev) (hsetfrom s' hfrom') hE' hr'
      have hag2 : Agree (useful slop ((i, m.ev) :: post)) (upd s.queues i d) (upd s'.queues i d') := by
        intro j
        by_cases hj : j = i
        · subst hj
          have := agree_set hlike.queues j m.ev.stamp m.ev
          simp only [List.singleton_append, hown] at this ⊢
          rw [upd_same, upd_same, hkeep, hkeep']
          exact this
        · rw [upd_ne _ _ hj, upd_ne _ _ hj]
          exact hlike.queues j
      have hA : ∀ f : Fin n → Int, f i = m.ev.stamp → (∀ a b, f a - f b < slop) → ∀ j, j ≠ i →
          useful slop ((i, m.ev) :: post) j (f j) = true := by
        intro f hfi hsp j hj
        refine useful_iff.2 ⟨(i, m.ev), List.mem_cons_self, Ne.symm hj, ?_, ?_⟩
        · have := hsp j i; simp only; omega
        · have := hsp i j; simp only; omega
      obtain ⟨r1, r2, r3⟩ := search_same (boom := boom) (slop := slop) (st := m.ev.stamp) (i := i)
        { s with queues := upd s.queues i d } { s' with queues := upd s'.queues i d' } hlike.out hA hag2
        (by
          simp only [upd_same]
          rw [evict_gets_new (q := q) rfl (hI.ok i) (hfrom i) hE hnow, evict_gets_new (q := q') rfl (hI'.ok i) (hfrom' i) hE' hnow']) _ _ rfl rfl
      refine ⟨_, _, _, _, he, he', r2, r1, r3.mono (fun j x hx => ?_)⟩
      obtain ⟨o, h1, h2⟩ := useful_iff.1 hx
      exact useful_iff.2 ⟨o, List.mem_cons_of_mem _ h1, h2⟩
  · right
    have hacc1 : accepted allow [(i, m)] = [] := by unfold accepted; simp [hm]
    rw [hacc1] at hlike
    have hc : (!m.header && !allow) = true := by revert hm; cases m.header <;> cases allow <;> simp
    refine ⟨s, s', false, false, ?_, ?_, hlike⟩ <;> unfold approxAdd <;> rw [if_pos hc]

theorem approxRun_alike [NeZero n] {boom : Nat → Bool} {slop : Int} {q q' : Nat} {allow : Bool}
    (ops : List (Fin n × Msg)) : ∀ (post : List (Fin n × Ev)), Reach q slop (accepted allow ops ++ post) →
      Reach q' slop (accepted allow ops ++ post) →
    (approxRun boom slop allow (construct n q) ops = .error .hang ∧ approxRun boom slop allow (construct n q') ops = .error .hang) ∨
    ∃ t t', approxRun boom slop allow (construct n q) ops = .ok t ∧ approxRun boom slop allow (construct n q') ops = .ok t' ∧
      Alike slop post t t' := by
  induction ops using snoc_induction with
  | h0 => intro _ _ _; exact Or.inr ⟨_, _, rfl, rfl, rfl, rfl, fun _ => rfl⟩
  | hs ops op ih =>
    obtain ⟨i, m⟩ := op
    intro post hr hr'
    have happ := accepted_append allow ops [(i, m)]
    have hrun : ∀ q : Int, approxRun boom slop allow (construct n q) (ops ++ [(i, m)]) =
        match approxRun boom slop allow (construct n q) ops with
        | .error f => .error f
        | .ok s => (approxAdd boom slop allow s i m).map (·.1) := by
      intro q
      unfold approxRun
      rw [runE_append]
      cases runE (fun s (op : Fin n × Msg) => (approxAdd boom slop allow s op.1 op.2).map (·.1)) (construct n q) ops with
      | error f => rfl
      | ok s =>
        simp only [runE]
        cases approxAdd boom slop allow s i m <;> rfl
    rw [hrun, hrun]
    rcases ih (accepted allow [(i, m)] ++ post) (by rw [← List.append_assoc, ← happ]; exact hr)
      (by rw [← List.append_assoc, ← happ]; exact hr') with ⟨h1, h2⟩ | ⟨s, s', h1, h2, h3⟩
    · left; rw [h1, h2]; exact ⟨rfl, rfl⟩
    · rw [h1, h2]
      rcases approxAdd_alike ops i m post s s' h1 h2 hr hr' h3 with ⟨k1, k2⟩ | ⟨t, t', r, r', k1, k2, k3⟩
      · left; simp only [k1, k2]; exact ⟨rfl, rfl⟩
      · right; exact ⟨t, t', by simp only [k1]; rfl, by simp only [k2]; rfl, k3⟩

/-- A queue that can hold everything reaches far enough back. -/
theorem reach_large {slop : Int} (ops : List (Fin n × Ev)) : Reach (ops.length + 1) slop ops := by
  have key : ∀ (pre post : List (Fin n × Ev)) j x, newerOn pre j x < (pre ++ post).length + 1 := by
    intro pre post j x
    unfold newerOn
    have h1 := List.length_filter_le (fun y : Ev => decide (x < y.stamp)) (stream pre j)
    have h2 := stream_le pre j
    rw [List.length_append]
    omega
  rintro pre i e post rfl
  exact ⟨key _ _ _ _, fun j _ x _ _ _ => key _ _ _ _⟩

theorem Reach.mono {q q' : Nat} (hq : q ≤ q') {slop : Int} {ops : List (Fin n × Ev)} (h : Reach q slop ops) : Reach q' slop ops :=
  fun pre i e post heq => ⟨Nat.lt_of_lt_of_le (h pre i e post heq).1 hq,
    fun j hj x hx h1 h2 => Nat.lt_of_lt_of_le ((h pre i e post heq).2 j hj x hx h1 h2) hq⟩

/-- The condition of C101 is stronger. -/
theorem reach_of_ahead {q : Nat} (hq : 0 < q) {slop : Int} {ops : List (Fin n × Ev)} (hs : ∀ i, TimeSorted (stream ops i))
    (ha : Epsilon.AheadAtMost q (slop - 1) ops) : Reach q slop ops := by
  rintro pre i e post rfl
  have hsi := hs i
  unfold TimeSorted at hsi
  rw [stream_append, List.pairwise_append] at hsi
  have hle : ∀ y ∈ stream pre i, y.stamp ≤ e.stamp := fun y hy => hsi.2.2 y hy e (mem_stream.2 (by simp))
  constructor
  · unfold newerOn
    rw [List.filter_eq_nil_iff.2]
    · exact hq
    · intro y hy h
      have := hle y hy
      rw [decide_eq_true_eq] at h
      omega
  · intro j hji x hx h1 h2
    have hk := ha (pre.length + 1) j i hji
    rw [List.take_append, List.take_of_length_le (Nat.le_succ _), show pre.length + 1 - pre.length = 1 by omega] at hk
    simp only [List.take_succ_cons, List.take_zero] at hk
    have hstr : stream (pre ++ [(i, e)]) j = stream pre j := by
      rw [stream_append]; simp [stream, Ne.symm hji]
    refine Nat.lt_of_lt_of_le ?_ hk
    unfold Epsilon.notBehind newerOn
    rw [hstr]
    have hall : ∀ y : Ev, x.stamp ≤ y.stamp → (stream (pre ++ [(i, e)]) i).all (fun z => decide (z.stamp - (slop - 1) ≤ y.stamp)) = true := by
      intro y hy
      rw [List.all_eq_true]
      intro z hz
      rw [stream_append] at hz
      have : z.stamp ≤ e.stamp := by
        rcases List.mem_append.1 hz with hz | hz
        · exact hle z hz
        · have : z = e := by simpa [stream] using hz
          rw [this]; exact Int.le_refl _
      rw [decide_eq_true_eq]
      omega
    obtain ⟨a, b, hab⟩ := List.append_of_mem hx
    rw [hab, List.filter_append, List.filter_append, List.length_append, List.length_append, List.filter_cons_of_pos
      (p := fun y : Ev => (stream (pre ++ [(i, e)]) i).all (fun z => decide (z.stamp - (slop - 1) ≤ y.stamp))) (hall x (Int.le_refl _)),
      List.filter_cons_of_neg (by simp)]
    have hsub : ∀ l : List Ev, (l.filter (fun y => decide (x.stamp < y.stamp))).length ≤
        (l.filter (fun y => (stream (pre ++ [(i, e)]) i).all (fun z => decide (z.stamp - (slop - 1) ≤ y.stamp)))).length := by
      intro l
      rw [← List.countP_eq_length_filter, ← List.countP_eq_length_filter]
      apply List.countP_mono_left
      intro y _ hy
      rw [decide_eq_true_eq] at hy
      exact hall y (by omega)
    have := hsub a
    have := hsub b
    rw [List.length_cons]
    omega

/-- Inputs with known rates and delays. -/
theorem reach_of_rates {R : Nat → Fin n → Ev} {arr : Nat → Fin n → Int} {ops : List (Fin n × Ev)} {p D slop : Int} {q : Nat}
    (hp : 0 < p) (hq0 : 0 < q) (hpace : Paced R p) (hdelay : Delayed R arr D) (hdel : Delivers R ops) (hb : ByArrival arr ops)
    (hq : D + (slop - 1) < q * p) : Reach q slop ops := by
  rintro pre i e post rfl
  have hpre : pre ++ [(i, e)] <+: pre ++ (i, e) :: post := ⟨post, by simp⟩
  have hpre0 : pre <+: pre ++ (i, e) :: post := ⟨(i, e) :: post, rfl⟩
  have hdel' := hdel.prefix hpre0
  constructor
  · unfold newerOn
    rw [List.filter_eq_nil_iff.2]
    · exact hq0
    · intro y hy h
      have := hpace.strict hp hdel i
      unfold StrictlyTimeSorted at this
      rw [stream_append, List.pairwise_append] at this
      have := this.2.2 y hy e (mem_stream.2 (by simp))
      rw [decide_eq_true_eq] at h
      omega
  · intro j _ x hx h1 h2
    have he : e = R (stream pre i).length i := by
      apply (hdel.prefix hpre).get
      rw [stream_append, List.getElem?_append_right (Nat.le_refl _)]
      simp [stream]
    have h3 := hdelay.1 (stream pre i).length i
    rw [← he] at h3
    obtain ⟨m, rfl⟩ : ∃ m, q = m + 1 := ⟨q - 1, by omega⟩
    suffices h : newerOn pre j x.stamp ≤ m by omega
    unfold newerOn
    have hcast : ((m + 1 : Nat) : Int) * p = (m : Int) * p + p := by rw [Int.natCast_add, Int.add_mul]; simp
    refine spaced_count_le hp (lo := x.stamp + p) (hi := e.stamp + D)
      ((hpace.stream_spaced hp hdel' j).sublist List.filter_sublist) ?_ (by omega)
    intro y hy
    obtain ⟨hyp, hnew⟩ := List.mem_filter.1 hy
    rw [decide_eq_true_eq] at hnew
    obtain ⟨a, ha, rfl⟩ := hdel'.mem hx
    obtain ⟨k, hk, rfl⟩ := hdel'.mem hyp
    have hak : a < k := by
      apply Classical.byContradiction
      intro hc
      rcases Nat.lt_or_ge k a with h | h
      · have := hpace.lt hp j h; omega
      · obtain rfl : k = a := by omega
        omega
    constructor
    · have h4 := hpace a j
      rcases Nat.lt_or_ge (a + 1) k with h | h
      · have := hpace.lt hp j h; omega
      · obtain rfl : k = a + 1 := by omega
        exact h4
    · have h4 := arrived_first hdelay.2 pre (hb.prefix hpre0) j k hk i
      have h5 := hdelay.1 k j
      omega

end MF.Py
