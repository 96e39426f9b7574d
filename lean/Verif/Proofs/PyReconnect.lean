import Verif.Spec.PyConstruct
import Verif.Proofs.PyStep
namespace MF.Py

variable {n : Nat}

structure RInv (q : Int) (r : RState n) : Prop where
  inv : Inv r.s
  size : r.s.queueSize = q
  old : ∀ g i, DOk (r.old g i)

structure RInvA (slop q : Int) (r : RState n) : Prop where
  inv : InvA slop r.s
  size : r.s.queueSize = q
  old : ∀ g i, DOk (r.old g i)

theorem setOld_ok {r : RState n} (h : ∀ g i, DOk (r.old g i)) (g : Nat) (i : Fin n) {d : Dict Ev} (hd : DOk d) :
    ∀ g' j, DOk (setOld r g i d g' j) := by
  intro g' j
  unfold setOld
  split
  · by_cases hj : j = i
    · subst hj; rwa [upd_same]
    · rw [upd_ne _ _ hj]; exact h g j
  · exact h g' j

theorem common_nil [NeZero n] {s : State n} (hinv : Inv s) (hl : s.locked = false) : common s.queues = [] := by
  match hc : common s.queues with
  | [] => rfl
  | k :: l =>
    exact absurd (mem_common.mp (by rw [hc]; simp)) (hinv.quiet hl k)

theorem tsAddOld_eq [NeZero n] {boom : Nat → Bool} {q : Int} (hq : 0 ≤ q) {r : RState n} (h : RInv q r) (g : Nat) (i : Fin n)
    {m : Msg} (hm : m.header = true) {r' : RState n} (hs : tsAddOld boom r g i m = .ok r') :
    r'.s = r.s ∧ r'.gen = r.gen ∧ RInv q r' := by
  unfold tsAddOld at hs
  rcases Bool.eq_false_or_eq_true r.s.locked with hl | hl
  · rw [if_pos hl] at hs; cases hs
  · rw [if_neg (by simp [hl]), if_neg (by simp [hm])] at hs
    simp only at hs
    have hset := (h.old g i).set m.ev
    obtain ⟨d', hev, hE⟩ := evict_spec (by rw [h.size]; exact hq : 0 ≤ r.s.queueSize)
      (((r.old g i).set m.ev.stamp m.ev).length + 1) _ hset.nodup (by omega)
    rw [hev] at hs
    simp only [common_nil h.inv hl, sorted, tsLoop] at hs
    cases hs
    have he : ({ r.s with locked := false } : State n) = r.s := by
      cases hrs : r.s
      rw [hrs] at hl
      simp only at hl
      rw [hl]
    refine ⟨he, rfl, ⟨?_, ?_, ?_⟩⟩
    · simp only; rw [he]; exact h.inv
    · exact h.size
    · exact setOld_ok h.old g i (hset.sublist hE.sub)

theorem reconnect_inv [NeZero n] {q : Int} {r : RState n} (h : RInv q r) : RInv q (reconnect r) := by
  refine ⟨⟨fun _ => DOk.nil, fun _ k hk => ?_, ?_⟩, h.size, ?_⟩
  · have := hk ⟨0, Nat.pos_of_ne_zero (NeZero.ne n)⟩
    simp [reconnect, Dict.keys] at this
  · by_cases hq : q < 0
    · left; show r.s.queueSize < 0; rw [h.size]; exact hq
    · right; intro j; show ((0 : Nat) : Int) ≤ r.s.queueSize; rw [h.size]; omega
  · intro g i
    unfold reconnect
    simp only
    split
    · exact h.inv.ok i
    · exact h.old g i

theorem ts_reconnect [NeZero n] {boom : Nat → Bool} {q : Int} (hq : 0 ≤ q) :
    ∀ (ops : List (ROp n)) (r r1 rf : RState n), RInv q r → r1.s = r.s → r1.gen = r.gen →
      (∀ m ∈ fromReplaced r.gen ops, m.header = true) → runE (tsRStep boom) r ops = .ok rf →
      ∃ rf', runE (tsRStep boom) r1 (onlyCurrent r.gen ops) = .ok rf' ∧ rf'.s = rf.s ∧ rf'.gen = rf.gen := by
  intro ops
  induction ops with
  | nil =>
    intro r r1 rf _ h1 h2 _ h
    simp only [runE] at h
    cases h
    exact ⟨r1, rfl, h1, h2⟩
  | cons op ops ih =>
    intro r r1 rf hinv h1 h2 hh h
    simp only [runE] at h
    cases op with
    | reconnect =>
      simp only [tsRStep] at h
      simp only [onlyCurrent, runE, tsRStep]
      exact ih (reconnect r) (reconnect r1) rf (reconnect_inv hinv) (by simp [reconnect, h1]) (by simp [reconnect, h2]) hh h
    | deliver g i m =>
      simp only [tsRStep] at h
      simp only [onlyCurrent]
      by_cases hg : g < r.gen
      · rw [if_pos hg]
        rw [if_neg (by omega), if_pos hg] at h
        simp only [fromReplaced, if_pos hg] at hh
        cases hs : tsAddOld boom r g i m with
        | error f => rw [hs] at h; cases h
        | ok r' =>
          rw [hs] at h
          obtain ⟨e1, e2, e3⟩ := tsAddOld_eq hq hinv g i (hh m (by simp)) hs
          have := ih r' r1 rf e3 (by rw [e1]; exact h1) (by rw [e2]; exact h2)
            (fun m' hm' => hh m' (by rw [e2] at hm'; simp [hm'])) h
          rw [e2] at this
          exact this
      · rw [if_neg hg]
        simp only [fromReplaced, if_neg hg] at hh
        simp only [runE, tsRStep, h1, h2]
        by_cases hge : g = r.gen
        · rw [if_pos hge] at h ⊢
          cases hs : tsAdd boom r.s i m with
          | error f => rw [hs] at h; cases h
          | ok x =>
            rw [hs] at h
            obtain ⟨k1, k2, _⟩ := tsAdd_inv boom r.s hinv.inv i m x.1 x.2 hs
            simp only [Except.map] at h ⊢
            have := ih { r with s := x.1 } { r with s := x.1, old := r1.old } rf ⟨k1, k2.trans hinv.size, hinv.old⟩ rfl rfl hh h
            exact this
        · rw [if_neg hge, if_neg hg] at h ⊢
          exact ih r r1 rf hinv h1 h2 hh h

theorem approxAddOld_eq [NeZero n] {boom : Nat → Bool} {slop q : Int} {allow : Bool} (hq : 0 ≤ q) {r : RState n}
    (h : RInvA slop q r) (g : Nat) (i : Fin n) {m : Msg} {r' : RState n} (hs : approxAddOld boom slop allow r g i m = .ok r') :
    r'.s = r.s ∧ r'.gen = r.gen ∧ RInvA slop q r' := by
  unfold approxAddOld at hs
  split at hs
  · cases hs; exact ⟨rfl, rfl, h⟩
  · rcases Bool.eq_false_or_eq_true r.s.locked with hl | hl
    · rw [if_pos hl] at hs; cases hs
    · rw [if_neg (by simp [hl])] at hs
      simp only at hs
      have hset := (h.old g i).set m.ev
      obtain ⟨d', hev, hE⟩ := evict_spec (by rw [h.size]; exact hq : 0 ≤ r.s.queueSize)
        (((r.old g i).set m.ev.stamp m.ev).length + 1) _ hset.nodup (by omega)
      rw [hev] at hs
      simp only at hs
      cases hn : nearStamps slop m.ev.stamp ((List.ofFn r.s.queues).take i ++ (List.ofFn r.s.queues).drop (i + 1)) with
      | none =>
        rw [hn] at hs
        cases hs
        exact ⟨rfl, rfl, h.inv, h.size, setOld_ok h.old g i (hset.sublist hE.sub)⟩
      | some stamps =>
        rw [hn] at hs
        have hst := nearStamps_some hn
        subst hst
        simp only at hs
        have he : ({ r.s with locked := false } : State n) = r.s := by
          cases hrs : r.s
          rw [hrs] at hl
          simp only at hl
          rw [hl]
        rcases approxLoop_spec (boom := boom) (slop := slop) (i := i) (st := m.ev.stamp)
            (product (((List.ofFn r.s.queues).take i ++ (List.ofFn r.s.queues).drop (i + 1)).map (nearOf slop m.ev.stamp)))
            r.s with ⟨h1, h2⟩ | ⟨pre, v, post, msgs, h1, _, h3, _⟩
        · rw [h2] at hs
          cases hs
          refine ⟨he, rfl, ?_, h.size, setOld_ok h.old g i (hset.sublist hE.sub)⟩
          simp only
          rw [he]; exact h.inv
        · exfalso
          have hv : v ∈ product (((List.ofFn r.s.queues).take i ++
              (List.ofFn r.s.queues).drop (i + 1)).map (nearOf slop m.ev.stamp)) := by rw [h1]; simp
          have hlen : v.length = n - 1 := by rw [(mem_product.mp hv).1, List.length_map, others_length]
          exact h.inv.quiet hl _ ((good_iff hlen).mp h3)

theorem reconnect_invA [NeZero n] {slop q : Int} {r : RState n} (h : RInvA slop q r) : RInvA slop q (reconnect r) := by
  refine ⟨⟨fun _ => DOk.nil, fun _ f hf => ?_, ?_⟩, h.size, ?_⟩
  · have := hf.1 ⟨0, Nat.pos_of_ne_zero (NeZero.ne n)⟩
    simp [reconnect, Dict.keys] at this
  · by_cases hq : q < 0
    · left; show r.s.queueSize < 0; rw [h.size]; exact hq
    · right; intro j; show ((0 : Nat) : Int) ≤ r.s.queueSize; rw [h.size]; omega
  · intro g i
    unfold reconnect
    simp only
    split
    · exact h.inv.ok i
    · exact h.old g i

theorem approx_reconnect [NeZero n] {boom : Nat → Bool} {slop q : Int} {allow : Bool} (hq : 0 ≤ q) :
    ∀ (ops : List (ROp n)) (r r1 rf : RState n), RInvA slop q r → r1.s = r.s → r1.gen = r.gen →
      runE (approxRStep boom slop allow) r ops = .ok rf →
      ∃ rf', runE (approxRStep boom slop allow) r1 (onlyCurrent r.gen ops) = .ok rf' ∧ rf'.s = rf.s ∧ rf'.gen = rf.gen := by
  intro ops
  induction ops with
  | nil =>
    intro r r1 rf _ h1 h2 h
    simp only [runE] at h
    cases h
    exact ⟨r1, rfl, h1, h2⟩
  | cons op ops ih =>
    intro r r1 rf hinv h1 h2 h
    simp only [runE] at h
    cases op with
    | reconnect =>
      simp only [approxRStep] at h
      simp only [onlyCurrent, runE, approxRStep]
      exact ih (reconnect r) (reconnect r1) rf (reconnect_invA hinv) (by simp [reconnect, h1]) (by simp [reconnect, h2]) h
    | deliver g i m =>
      simp only [approxRStep] at h
      simp only [onlyCurrent]
      by_cases hg : g < r.gen
      · rw [if_pos hg]
        rw [if_neg (by omega), if_pos hg] at h
        cases hs : approxAddOld boom slop allow r g i m with
        | error f => rw [hs] at h; cases h
        | ok r' =>
          rw [hs] at h
          obtain ⟨e1, e2, e3⟩ := approxAddOld_eq hq hinv g i hs
          have := ih r' r1 rf e3 (by rw [e1]; exact h1) (by rw [e2]; exact h2) h
          rw [e2] at this
          exact this
      · rw [if_neg hg]
        simp only [runE, approxRStep, h1, h2]
        by_cases hge : g = r.gen
        · rw [if_pos hge] at h ⊢
          cases hs : approxAdd boom slop allow r.s i m with
          | error f => rw [hs] at h; cases h
          | ok x =>
            rw [hs] at h
            obtain ⟨k1, k2, _⟩ := approxAdd_inv boom slop allow r.s hinv.inv i m x.1 x.2 hs
            simp only [Except.map] at h ⊢
            exact ih { r with s := x.1 } { r with s := x.1, old := r1.old } rf ⟨k1, k2.trans hinv.size, hinv.old⟩ rfl rfl h
        · rw [if_neg hge, if_neg hg] at h ⊢
          exact ih r r1 rf hinv h1 h2 h

theorem tsAddOld_inv [NeZero n] {boom : Nat → Bool} {q : Int} {r : RState n} (h : RInv q r) (g : Nat) (i : Fin n)
    {m : Msg} {r' : RState n} (hs : tsAddOld boom r g i m = .ok r') : RInv q r' := by
  unfold tsAddOld at hs
  rcases Bool.eq_false_or_eq_true r.s.locked with hl | hl
  · rw [if_pos hl] at hs; cases hs
  · rw [if_neg (by simp [hl])] at hs
    have hlock : ∀ b, Inv { r.s with locked := b } := fun b =>
      ⟨h.inv.ok, fun _ => h.inv.quiet hl, h.inv.bound⟩
    by_cases hm : (!m.header) = true
    · rw [if_pos hm] at hs
      cases hs
      exact ⟨hlock true, h.size, h.old⟩
    · rw [if_neg hm] at hs
      simp only at hs
      have hset := (h.old g i).set m.ev
      cases hev : evict r.s.queueSize (((r.old g i).set m.ev.stamp m.ev).length + 1) ((r.old g i).set m.ev.stamp m.ev) with
      | error f => rw [hev] at hs; cases hs
      | ok d =>
        rw [hev] at hs
        cases d with
        | none =>
          cases hs
          exact ⟨hlock true, h.size, setOld_ok h.old g i DOk.nil⟩
        | some d' =>
          simp only [common_nil h.inv hl, sorted, tsLoop] at hs
          cases hs
          by_cases hq : 0 ≤ r.s.queueSize
          · obtain ⟨d'', hev2, hE⟩ := evict_spec hq (((r.old g i).set m.ev.stamp m.ev).length + 1) _ hset.nodup (by omega)
            rw [hev] at hev2
            cases hev2
            exact ⟨hlock false, h.size, setOld_ok h.old g i (hset.sublist hE.sub)⟩
          · exfalso
            have := evict_negative (by omega : r.s.queueSize < 0) (((r.old g i).set m.ev.stamp m.ev).length + 1) _ hset.nodup
              (by omega)
            rw [hev] at this
            cases this

theorem tsRStep_inv [NeZero n] {boom : Nat → Bool} {q : Int} {r : RState n} (h : RInv q r) {op : ROp n} {r' : RState n}
    (hs : tsRStep boom r op = .ok r') : RInv q r' := by
  cases op with
  | reconnect => cases hs; exact reconnect_inv h
  | deliver g i m =>
    simp only [tsRStep] at hs
    split at hs
    · cases hx : tsAdd boom r.s i m with
      | error f => rw [hx] at hs; cases hs
      | ok x =>
        rw [hx] at hs
        obtain ⟨k1, k2, _⟩ := tsAdd_inv boom r.s h.inv i m x.1 x.2 hx
        cases hs
        exact ⟨k1, k2.trans h.size, h.old⟩
    · split at hs
      · exact tsAddOld_inv h g i hs
      · cases hs; exact h

theorem approxRStep_inv [NeZero n] {boom : Nat → Bool} {slop q : Int} {allow : Bool} (hq : 0 ≤ q) {r : RState n}
    (h : RInvA slop q r) {op : ROp n} {r' : RState n} (hs : approxRStep boom slop allow r op = .ok r') : RInvA slop q r' := by
  cases op with
  | reconnect => cases hs; exact reconnect_invA h
  | deliver g i m =>
    simp only [approxRStep] at hs
    split at hs
    · cases hx : approxAdd boom slop allow r.s i m with
      | error f => rw [hx] at hs; cases hs
      | ok x =>
        rw [hx] at hs
        obtain ⟨k1, k2, _⟩ := approxAdd_inv boom slop allow r.s h.inv i m x.1 x.2 hx
        cases hs
        exact ⟨k1, k2.trans h.size, h.old⟩
    · split at hs
      · exact (approxAddOld_eq hq h g i hs).2.2
      · cases hs; exact h

end MF.Py
