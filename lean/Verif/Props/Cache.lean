import Verif.Proofs.Cache
/-
Properties C01-C07 of the cache.
-/
namespace MF.Cache

/-- A sample history used by the non-vacuity examples: out of order and equal stamps, overflow, resizing. -/
def sampleOps : List Op :=
  [.add ⟨0, 50⟩, .add ⟨1, 20⟩, .add ⟨2, 50⟩, .setSize 0, .add ⟨3, 30⟩, .add ⟨4, 20⟩, .setSize 2, .add ⟨5, 40⟩]

/-- **C01** (no fault).  A cache built with a positive size accepts every history of calls: no undefined behaviour. -/
theorem C01_never_faults (n : Nat) (hn : 0 < n) (ops : List Op) : ∃ s, run (construct n) ops = .ok s := by
  obtain ⟨s, h, _⟩ := run_inv (inv_construct hn) ops
  exact ⟨s, h⟩

/-- **C01**.  After any history the cached messages are in time order, and the cached messages carrying any one
stamp are the most recently added ones with that stamp, in the order they were added. -/
theorem C01_cache_sorted_stable (n : Nat) (hn : 0 < n) (ops : List Op) (s : State)
    (h : run (construct n) ops = .ok s) :
    TimeSorted s.items ∧
    ∀ t : Int, s.items.filter (fun x => decide (x.stamp = t)) <:+ (added ops).filter (fun x => decide (x.stamp = t)) := by
  refine ⟨(run_inv' (inv_construct hn) h).sorted, ?_⟩
  intro t
  have hn0 : n ≠ 0 := by omega
  revert h
  revert ops s
  apply run_induction
  · simp [construct, setCacheSize, hn0, added]
  · intro ops s op s' hr ih hs
    rw [added_append, List.filter_append]
    cases op with
    | setSize m =>
      rw [(reach_setSize hs).1]
      simpa [added] using ih
    | add e =>
      obtain ⟨a, b, h1, h2, _, h4, h5⟩ := reach_add hn hr hs
      rw [h2]
      have hsuf : (a ++ b).filter (fun x => decide (x.stamp = t)) <:+
          s.items.filter (fun x => decide (x.stamp = t)) := by
        rw [← h1]; exact (List.drop_suffix _ _).filter _
      have hsuf' := hsuf.trans ih
      simp only [added]
      by_cases het : e.stamp = t
      · have hb : b.filter (fun x => decide (x.stamp = t)) = [] := by
          rw [List.filter_eq_nil_iff]
          intro x hx
          have := h5 x hx
          simp; omega
        rw [List.filter_append, hb, List.append_nil] at hsuf'
        rw [List.filter_append, List.filter_cons_of_pos (by simpa using het), hb]
        rw [List.filter_cons_of_pos (by simpa using het)]
        obtain ⟨z, hz⟩ := hsuf'
        exact ⟨z, by rw [← hz]; simp⟩
      · rw [List.filter_append, List.filter_cons_of_neg (by simpa using het)]
        rw [List.filter_append] at hsuf'
        rw [List.filter_cons_of_neg (by simpa using het)]
        simpa using hsuf'

example : ∃ s, run (construct 3) sampleOps = .ok s ∧ s.items = [⟨5, 40⟩, ⟨2, 50⟩] :=
  ⟨_, rfl, by decide⟩

/-- **C02**.  `add e` on a cache with any history evicts a prefix (the oldest stamps, and among those of equal
stamp the first added), only as many as needed to make room, keeps everything else, and stores `e`;
afterwards the configured size is respected. -/
theorem C02_add_evicts_oldest (n : Nat) (hn : 0 < n) (ops : List Op) (s s' : State) (e : Ev)
    (h : run (construct n) ops = .ok s) (h' : run (construct n) (ops ++ [.add e]) = .ok s') :
    s'.items.length ≤ configuredSize n ops ∧ e ∈ s'.items ∧
    ∃ evicted kept, s.items = evicted ++ kept ∧
      s'.items.Perm (e :: kept) ∧
      (∀ x ∈ evicted, ∀ y ∈ kept, x.stamp ≤ y.stamp) ∧
      (evicted ≠ [] → s'.items.length = configuredSize n ops) := by
  rw [run_append, h] at h'
  simp only [run] at h'
  cases h2 : step s (.add e) with
  | error f => rw [h2] at h'; cases h'
  | ok s2 =>
    rw [h2] at h'
    simp only [Except.ok.injEq] at h'
    subst h'
    obtain ⟨a, b, h3, h4, _, _, _⟩ := reach_add hn h h2
    have hpos := (run_size hn ops s h).1
    have hlen : a.length + b.length = s.items.length - (s.items.length + 1 - configuredSize n ops) := by
      rw [← List.length_append, ← h3, List.length_drop]
    have hsorted := (run_inv' (inv_construct hn) h).sorted
    have hsplit := List.take_append_drop (s.items.length + 1 - configuredSize n ops) s.items
    refine ⟨?_, ?_, s.items.take (s.items.length + 1 - configuredSize n ops), a ++ b, ?_, ?_, ?_, ?_⟩
    · rw [h4]; simp; omega
    · rw [h4]; simp
    · rw [← h3, hsplit]
    · rw [h4]; exact List.perm_middle
    · rw [← hsplit, h3] at hsorted
      exact (List.pairwise_append.1 hsorted).2.2
    · intro hne
      rw [h4]
      have : 0 < s.items.length + 1 - configuredSize n ops := by
        rcases Nat.eq_zero_or_pos (s.items.length + 1 - configuredSize n ops) with h0 | h0
        · rw [h0] at hne; simp at hne
        · exact h0
      simp; omega

example : ∃ s s', run (construct 3) sampleOps = .ok s ∧ run (construct 3) (sampleOps ++ [.add ⟨6, 10⟩]) = .ok s' ∧
    s.items = [⟨5, 40⟩, ⟨2, 50⟩] ∧ s'.items = [⟨6, 10⟩, ⟨2, 50⟩] ∧ configuredSize 3 sampleOps = 2 :=
  ⟨_, _, rfl, rfl, by decide, by decide, by decide⟩

/-- **C02** (resizing).  `setCacheSize` by itself evicts and forwards nothing; a smaller size takes effect at the
next `add`. -/
theorem C02_resize_keeps (n : Nat) (hn : 0 < n) (ops : List Op) (m : Nat) (s s' : State)
    (h : run (construct n) ops = .ok s) (h' : run (construct n) (ops ++ [.setSize m]) = .ok s') :
    s'.items = s.items ∧ s'.out = s.out ∧
    s'.size = some (if m = 0 then configuredSize n ops else m) := by
  have hsz := (run_size hn _ _ h').2
  rw [configuredSize_append] at hsz
  rw [run_append, h] at h'
  simp only [run] at h'
  cases h2 : step s (.setSize m) with
  | error f => rw [h2] at h'; cases h'
  | ok s2 =>
    rw [h2] at h'
    simp only [Except.ok.injEq] at h'
    subst h'
    exact ⟨(reach_setSize h2).1, (reach_setSize h2).2, hsz⟩

/-- **C02** (error branch).  `Cache(0)` leaves the size unset and the first `add` reads an indeterminate value. -/
theorem C02_size_zero_is_undefined (e : Ev) : run (construct 0) [.add e] = .error .ub := rfl

/-- **C03** as documented is false for out-of-order input: neither the last two messages added (ids 2, 3) nor the
two newest by stamp (ids 0, 1) are what a cache of size 2 holds. -/
theorem C03_most_recent_fails_out_of_order :
    ∃ s, run (construct 2) [.add ⟨0, 5⟩, .add ⟨1, 6⟩, .add ⟨2, 3⟩, .add ⟨3, 4⟩] = .ok s ∧
      s.items.map (·.id) = [3, 1] := ⟨_, rfl, by decide⟩

/-- **C03** (partial: input in time order, fixed size).  The cache holds exactly the last `n` messages added,
in order.  Missing from the full statement: out-of-order input, where the claim is false. -/
theorem C03_most_recent_partial (n : Nat) (hn : 0 < n) (l : List Ev) (hl : TimeSorted l) (s : State)
    (h : run (construct n) (l.map .add) = .ok s) : s.items = l.drop (l.length - n) := by
  have hcfg : ∀ l : List Ev, configuredSize n (l.map .add) = n := by
    intro l; induction l with
    | nil => rfl
    | cons x l ih => simpa [configuredSize] using ih
  have hn0 : n ≠ 0 := by omega
  revert s
  induction hk : l.length generalizing l with
  | zero =>
    intro s h
    have : l = [] := List.eq_nil_of_length_eq_zero hk
    subst this
    simp only [List.map_nil, run, Except.ok.injEq] at h
    subst h
    simp [construct, setCacheSize, hn0]
  | succ k ih =>
    intro s' h
    rcases List.eq_nil_or_concat l with h0 | ⟨l', e, hc⟩
    · subst h0; simp at hk
    rw [List.concat_eq_append] at hc
    subst hc
    have hlk : l'.length = k := by simpa using hk
    rw [List.map_append, run_append] at h
    obtain ⟨s, hs⟩ := C01_never_faults n hn (l'.map .add)
    rw [hs] at h
    simp only [List.map_cons, List.map_nil, run] at h
    cases h2 : step s (.add e) with
    | error f => rw [h2] at h; cases h
    | ok s2 =>
      rw [h2] at h
      simp only [Except.ok.injEq] at h
      subst h
      unfold TimeSorted at hl
      rw [List.pairwise_append] at hl
      have hitems := ih l' hl.1 hlk s hs
      obtain ⟨a, b, h3, h4, _, h6, h7⟩ := reach_add hn hs h2
      rw [hcfg] at h3
      have hb : b = [] := by
        rcases b with _ | ⟨y, b⟩
        · rfl
        exfalso
        have hy : y ∈ s.items := List.mem_of_mem_drop (h3 ▸ (by simp : y ∈ a ++ y :: b))
        rw [hitems] at hy
        have h8 := hl.2.2 y (List.mem_of_mem_drop hy) e (by simp)
        have h9 := h7 y (by simp)
        omega
      subst hb
      rw [List.append_nil] at h3
      rw [h4, ← h3, hitems, List.drop_drop, List.length_drop]
      rw [List.drop_append_of_le_length (by omega)]
      congr 2
      omega

example : TimeSorted [⟨0, 1⟩, ⟨1, 1⟩, ⟨2, 5⟩] ∧
    ∃ s, run (construct 2) ([⟨0, 1⟩, ⟨1, 1⟩, ⟨2, 5⟩].map .add) = .ok s ∧ s.items = [⟨1, 1⟩, ⟨2, 5⟩] :=
  ⟨by simp [TimeSorted], _, rfl, by decide⟩

/-- **C03** (what survives for arbitrary arrival order).  If the configured size was never below two, the newest
stamp ever added is still in the cache. -/
theorem C03_newest_stamp_kept (n : Nat) (hn : 2 ≤ n) (ops : List Op) (hops : ∀ m, Op.setSize m ∈ ops → m = 0 ∨ 2 ≤ m)
    (s : State) (h : run (construct n) ops = .ok s) (hne : added ops ≠ []) :
    ∃ e ∈ s.items, ∀ x ∈ added ops, x.stamp ≤ e.stamp := by
  have hpos : 0 < n := by omega
  have key : ∀ ops s, run (construct n) ops = .ok s → (∀ m, Op.setSize m ∈ ops → m = 0 ∨ 2 ≤ m) →
      2 ≤ configuredSize n ops ∧
      (added ops ≠ [] → ∃ p e, s.items = p ++ [e] ∧ ∀ x ∈ added ops, x.stamp ≤ e.stamp) := by
    apply run_induction
    · intro _; exact ⟨hn, by simp [added]⟩
    · intro ops s op s' hr ih hs hm
      obtain ⟨ih1, ih2⟩ := ih (fun m hmm => hm m (by simp [hmm]))
      rw [configuredSize_append, added_append]
      cases op with
      | setSize m =>
        rw [(reach_setSize hs).1]
        refine ⟨?_, by simpa [added] using ih2⟩
        simp only [configuredSize]
        rcases hm m (by simp) with h0 | h0
        · simp [h0, ih1]
        · split <;> omega
      | add e =>
        refine ⟨ih1, fun _ => ?_⟩
        obtain ⟨a, b, h1, h2, _, h4, h5⟩ := reach_add hpos hr hs
        rw [h2]
        rcases List.eq_nil_or_concat b with hb | ⟨b', z, hb⟩
        · subst hb
          refine ⟨a, e, rfl, ?_⟩
          intro x hx
          rcases List.mem_append.1 hx with hx | hx
          · obtain ⟨p, l, hl1, hl2⟩ := ih2 (by intro h0; rw [h0] at hx; simp at hx)
            have := hl2 x hx
            have hla : l ∈ a := by
              rw [List.append_nil] at h1
              rw [← h1, hl1, List.drop_append_of_le_length (by simp; omega)]
              simp
            have := h4 l hla
            omega
          · simp [added] at hx; subst hx; omega
        · rw [List.concat_eq_append] at hb
          subst hb
          refine ⟨a ++ e :: b', z, by simp, ?_⟩
          have hze := h5 z (by simp)
          intro x hx
          rcases List.mem_append.1 hx with hx | hx
          · obtain ⟨p, l, hl1, hl2⟩ := ih2 (by intro h0; rw [h0] at hx; simp at hx)
            have := hl2 x hx
            have hzl : z = l := by
              rw [hl1, List.drop_append_of_le_length (by simp; omega), ← List.append_assoc] at h1
              have := List.append_inj_right' h1 rfl
              simpa using this.symm
            subst hzl; omega
          · simp [added] at hx; subst hx; omega
  obtain ⟨p, e, h1, h2⟩ := (key ops s h hops).2 hne
  exact ⟨e, by rw [h1]; simp, h2⟩

example : added sampleOps ≠ [] ∧ (∀ m, Op.setSize m ∈ sampleOps → m = 0 ∨ 2 ≤ m) := by
  refine ⟨by decide, ?_⟩
  intro m hm
  simp [sampleOps] at hm
  omega

/-- **C04**.  `getInterval` returns exactly the cached messages of the closed interval, in cache order. -/
theorem C04_getInterval (n : Nat) (hn : 0 < n) (ops : List Op) (s : State)
    (h : run (construct n) ops = .ok s) (start end_ : Int) :
    getInterval s start end_ = s.items.filter (fun x => decide (start ≤ x.stamp ∧ x.stamp ≤ end_)) :=
  getInterval_eq s (run_inv' (inv_construct hn) h).sorted start end_

example : ∃ s, run (construct 5) sampleOps.dropLast.dropLast = .ok s ∧
    (getInterval s 20 30).map (·.id) = [1, 4, 3] ∧ getInterval s 45 30 = [] := ⟨_, rfl, by decide, by decide⟩

/-- **C05** (before).  `getElemBeforeTime t` is null iff no cached message is strictly before `t`; otherwise it is a
cached message strictly before `t` and no cached message strictly before `t` is newer. -/
theorem C05_getElemBeforeTime (n : Nat) (hn : 0 < n) (ops : List Op) (s : State)
    (h : run (construct n) ops = .ok s) (t : Int) :
    (getElemBeforeTime s t = none ↔ ∀ x ∈ s.items, ¬ x.stamp < t) ∧
    ∀ e, getElemBeforeTime s t = some e →
      e ∈ s.items ∧ e.stamp < t ∧ ∀ x ∈ s.items, x.stamp < t → x.stamp ≤ e.stamp := by
  have hs := (run_inv' (inv_construct hn) h).sorted
  rw [getElemBeforeTime_eq, sorted_takeWhile_eq_filter _ hs]
  constructor
  · rw [List.getLast?_eq_none_iff, List.filter_eq_nil_iff]
    simp
  · intro e he
    have hf : TimeSorted (s.items.filter (fun x => decide (x.stamp < t))) := hs.sublist List.filter_sublist
    rw [List.getLast?_eq_some_iff] at he
    obtain ⟨ys, hys⟩ := he
    have hmem : e ∈ s.items.filter (fun x => decide (x.stamp < t)) := by rw [hys]; simp
    have hmem' := List.mem_filter.1 hmem
    refine ⟨hmem'.1, by simpa using hmem'.2, ?_⟩
    intro x hx hxt
    have hxm : x ∈ s.items.filter (fun x => decide (x.stamp < t)) := List.mem_filter.2 ⟨hx, by simpa using hxt⟩
    rw [hys] at hxm hf
    rcases List.mem_append.1 hxm with hxm | hxm
    · exact (List.pairwise_append.1 hf).2.2 x hxm e (by simp)
    · simp at hxm; subst hxm; omega

/-- **C05** (after).  Likewise for the oldest message strictly after `t`. -/
theorem C05_getElemAfterTime (n : Nat) (hn : 0 < n) (ops : List Op) (s : State)
    (h : run (construct n) ops = .ok s) (t : Int) :
    (getElemAfterTime s t = none ↔ ∀ x ∈ s.items, ¬ t < x.stamp) ∧
    ∀ e, getElemAfterTime s t = some e →
      e ∈ s.items ∧ t < e.stamp ∧ ∀ x ∈ s.items, t < x.stamp → e.stamp ≤ x.stamp := by
  have hs := (run_inv' (inv_construct hn) h).sorted
  rw [getElemAfterTime_eq s hs]
  constructor
  · rw [List.head?_eq_none_iff, List.filter_eq_nil_iff]
    simp
  · intro e he
    have hf : TimeSorted (s.items.filter (fun x => decide (t < x.stamp))) := hs.sublist List.filter_sublist
    rw [List.head?_eq_some_iff] at he
    obtain ⟨ys, hys⟩ := he
    have hmem : e ∈ s.items.filter (fun x => decide (t < x.stamp)) := by rw [hys]; simp
    have hmem' := List.mem_filter.1 hmem
    refine ⟨hmem'.1, by simpa using hmem'.2, ?_⟩
    intro x hx hxt
    have hxm : x ∈ s.items.filter (fun x => decide (t < x.stamp)) := List.mem_filter.2 ⟨hx, by simpa using hxt⟩
    rw [hys] at hxm hf
    rcases List.mem_cons.1 hxm with hxm | hxm
    · subst hxm; omega
    · exact (List.pairwise_cons.1 hf).1 x hxm

example : ∃ s, run (construct 5) sampleOps.dropLast.dropLast = .ok s ∧
    getElemBeforeTime s 50 = some ⟨3, 30⟩ ∧ getElemAfterTime s 30 = some ⟨0, 50⟩ ∧
    getElemBeforeTime s 20 = none ∧ getElemAfterTime s 50 = none :=
  ⟨_, rfl, by decide, by decide, by decide, by decide⟩

/-- **C06**.  `getSurroundingInterval` on a non-empty cache is a non-empty contiguous run `first .. last`; `first`
is the newest message at or before `start` (or the oldest cached one if there is none); `last` is the first message
from there on at or after `end` (or the newest cached one). -/
theorem C06_getSurroundingInterval (s : State) (start end_ : Int) (hne : s.items ≠ []) :
    ∃ pre r post first last, getSurroundingInterval s start end_ = r ∧ s.items = pre ++ r ++ post ∧
      r.head? = some first ∧ r.getLast? = some last ∧
      (first.stamp ≤ start ∨ pre = []) ∧ (∀ x ∈ r.tail ++ post, start < x.stamp) ∧
      (end_ ≤ last.stamp ∨ post = []) ∧ (∀ x ∈ r.dropLast, x.stamp < end_) := by
  have hlen : 0 < s.items.length := List.length_pos_iff.2 hne
  unfold getSurroundingInterval
  rw [if_neg (by omega)]
  simp only
  generalize hl : s.items = l at *
  obtain ⟨i, hi⟩ : ∃ i, scanDown (fun x => decide (x.stamp > start)) l (l.length - 1) = i := ⟨_, rfl⟩
  rw [hi]
  have hile : i ≤ l.length - 1 := hi ▸ scanDown_le _ _ _
  obtain ⟨j, hj⟩ : ∃ j, scanUpTo (fun x => decide (x.stamp < end_)) l l.length i = j := ⟨_, rfl⟩
  rw [hj]
  obtain ⟨d1, d2⟩ := scanDown_spec _ l (l.length - 1) (by omega) i hi
  obtain ⟨u0, u1, u2, u3⟩ := scanUpTo_spec _ l l.length i (by omega) (by omega) j hj
  have hrlen : ((l.drop i).take (j - i + 1)).length = j - i + 1 := by
    rw [List.length_take, List.length_drop]; omega
  have hget : ∀ k (hk : k < j - i + 1), ((l.drop i).take (j - i + 1))[k]? = some (l[i + k]'(by omega)) := by
    intro k hk
    rw [List.getElem?_take_of_lt hk, List.getElem?_drop, List.getElem?_eq_getElem]
  refine ⟨l.take i, (l.drop i).take (j - i + 1), (l.drop i).drop (j - i + 1), l[i], l[j], rfl, ?_, ?_, ?_, ?_, ?_, ?_, ?_⟩
  · rw [List.append_assoc, List.take_append_drop, List.take_append_drop]
  · rw [List.head?_eq_getElem?, hget 0 (by omega)]; simp
  · rw [List.getLast?_eq_getElem?, hrlen, hget _ (by omega)]
    have : i + (j - i + 1 - 1) = j := by omega
    simp only [this]
  · rcases d2 with d2 | d2
    · right; simp [d2]
    · left; have := d2 (by omega); simpa using this
  · intro x hx
    have hx' : x ∈ l.drop (i + 1) := by
      rw [← List.drop_one, ← List.drop_append_of_le_length (by omega), List.take_append_drop, List.drop_drop] at hx
      exact hx
    obtain ⟨k, hk, hkx⟩ := List.getElem_of_mem hx'
    rw [List.length_drop] at hk
    rw [List.getElem_drop] at hkx
    have := d1 (i + 1 + k) (by omega) (by omega) (by omega)
    rw [hkx] at this
    simpa using this
  · rcases u3 with u3 | u3
    · right; rw [List.drop_drop]; apply List.drop_eq_nil_of_le; omega
    · left; have := u3 u1; simp at this; exact this
  · intro x hx
    rw [List.dropLast_eq_take, hrlen, List.take_take] at hx
    obtain ⟨k, hk, hkx⟩ := List.getElem_of_mem hx
    rw [List.length_take, List.length_drop] at hk
    rw [List.getElem_take, List.getElem_drop] at hkx
    have := u2 (i + k) (by omega) (by omega) (by omega)
    rw [hkx] at this
    simpa using this

/-- **C06** (empty cache). -/
theorem C06_getSurroundingInterval_empty (s : State) (start end_ : Int) (hs : s.items = []) :
    getSurroundingInterval s start end_ = [] := by
  simp [getSurroundingInterval, hs]

example : ∃ s, run (construct 5) sampleOps.dropLast.dropLast = .ok s ∧ s.items ≠ [] ∧
    (getSurroundingInterval s 25 40).map (·.id) = [4, 3, 0] := ⟨_, rfl, by decide, by decide⟩

/-- **C07** (pass-through).  Every added message is forwarded exactly once, in call order. -/
theorem C07_forwards_everything (n : Nat) (hn : 0 < n) (ops : List Op) (s : State)
    (h : run (construct n) ops = .ok s) : s.out = added ops := by
  have hn0 : n ≠ 0 := by omega
  revert h
  revert ops s
  apply run_induction
  · simp [construct, setCacheSize, hn0, added]
  · intro ops s op s' hr ih hs
    rw [added_append]
    cases op with
    | setSize m => rw [(reach_setSize hs).2, ih]; simp [added]
    | add e =>
      obtain ⟨_, _, _, _, h5, _⟩ := reach_add hn hr hs
      rw [h5, ih]; rfl

/-- **C07** (extreme times).  On a non-empty cache the reported times are attained and bound all cached stamps;
on an empty cache both are the zero time. -/
theorem C07_extreme_times (n : Nat) (hn : 0 < n) (ops : List Op) (s : State)
    (h : run (construct n) ops = .ok s) :
    (s.items = [] → getOldestTime s = 0 ∧ getLatestTime s = 0) ∧
    (s.items ≠ [] → (∃ x ∈ s.items, x.stamp = getOldestTime s) ∧ (∃ x ∈ s.items, x.stamp = getLatestTime s)) ∧
    (∀ x ∈ s.items, getOldestTime s ≤ x.stamp ∧ x.stamp ≤ getLatestTime s) := by
  have hs := (run_inv' (inv_construct hn) h).sorted
  unfold getOldestTime getLatestTime
  refine ⟨fun h0 => by simp [h0], fun hne => ?_, ?_⟩
  · obtain ⟨x, xs, hx⟩ := List.exists_cons_of_ne_nil hne
    rcases List.eq_nil_or_concat s.items with h0 | ⟨p, z, hz⟩
    · exact absurd h0 hne
    rw [List.concat_eq_append] at hz
    constructor
    · exact ⟨x, by rw [hx]; simp, by rw [hx]; rfl⟩
    · exact ⟨z, by rw [hz]; simp, by rw [hz]; simp⟩
  · intro x hx
    constructor
    · cases hh : s.items with
      | nil => rw [hh] at hx; simp at hx
      | cons y ys =>
        rw [hh] at hx hs
        rcases List.mem_cons.1 hx with rfl | hx
        · simp
        · exact (List.pairwise_cons.1 hs).1 x hx
    · rcases List.eq_nil_or_concat s.items with h0 | ⟨p, z, hz⟩
      · rw [h0] at hx; simp at hx
      rw [List.concat_eq_append] at hz
      rw [hz] at hx hs ⊢
      simp only [List.getLast?_append, List.getLast?_singleton, Option.some_or]
      rcases List.mem_append.1 hx with hx | hx
      · exact (List.pairwise_append.1 hs).2.2 x hx z (by simp)
      · simp at hx; subst hx; omega

example : ∃ s, run (construct 3) sampleOps = .ok s ∧ s.out.map (·.id) = [0, 1, 2, 3, 4, 5] ∧
    getOldestTime s = 40 ∧ getLatestTime s = 50 := ⟨_, rfl, by decide, by decide, by decide⟩

end MF.Cache
