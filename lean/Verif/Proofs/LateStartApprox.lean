import Verif.Proofs.LateStart
import Verif.Proofs.Recover
/-
Helper lemmas for ApproximateTime with an input that has not delivered anything yet.
-/
namespace MF.Approx

open MF.Epsilon (nonEmpty nonEmpty_eq_iff)

variable {n : Nat}

/-! ### The warning flags have no influence -/

/-- The same policy with other warning flags. -/
def setW (w : Fin n → Bool) (s : State n) : State n := { s with warned := w }

theorem foldlM_setW (f : State n → Fin n → Except Fault (State n)) (w : Fin n → Bool)
    (hf : ∀ s i, f (setW w s) i = (f s i).map (setW w)) (l : List (Fin n)) (s : State n) :
    l.foldlM f (setW w s) = (l.foldlM f s).map (setW w) := by
  induction l generalizing s with
  | nil => rfl
  | cons a l ih =>
    simp only [List.foldlM_cons]
    rw [hf]
    cases h : f s a with
    | error x => rfl
    | ok t => exact ih t

theorem countNonEmpty_setW (w : Fin n → Bool) (s : State n) (i : Fin n) : countNonEmpty (setW w s) i = setW w (countNonEmpty s i) := by
  unfold countNonEmpty setW
  dsimp only
  split <;> rfl

theorem recoverAndDelete_setW (w : Fin n → Bool) (s : State n) (i : Fin n) :
    recoverAndDelete (setW w s) i = (recoverAndDelete s i).map (setW w) := by
  unfold recoverAndDelete
  show (match (moveBack (s.past i).length (s.past i) (s.deques i)).2 with
    | [] => _
    | _ :: rest => _) = _
  dsimp only
  cases (moveBack (s.past i).length (s.past i) (s.deques i)).2 with
  | nil => rfl
  | cons x rest =>
    dsimp only [Except.map]
    rw [← countNonEmpty_setW]; rfl

theorem publishCandidate_setW (w : Fin n → Bool) (s : State n) : publishCandidate (setW w s) = (publishCandidate s).map (setW w) :=
  foldlM_setW _ w (recoverAndDelete_setW w) _ { s with out := s.out ++ [s.cand], cand := fun _ => none, pivot := none, num := 0 }

theorem recoverN_setW (moves : Fin n → Nat) (w : Fin n → Bool) (s : State n) (i : Fin n) :
    recoverN moves (setW w s) i = (recoverN moves s i).map (setW w) := by
  unfold recoverN
  show (if moves i ≤ (s.past i).length then _ else _) = _
  split
  · dsimp only [Except.map]
    rw [← countNonEmpty_setW]; rfl
  · rfl

theorem front_setW (w : Fin n → Bool) (s : State n) (i : Fin n) :
    dequeDeleteFront (setW w s) i = (dequeDeleteFront s i).map (setW w) ∧
    dequeMoveFrontToPast (setW w s) i = (dequeMoveFrontToPast s i).map (setW w) := by
  unfold dequeDeleteFront dequeMoveFrontToPast
  constructor
  all_goals
    show (match s.deques i with
      | [] => _
      | e :: rest => _) = _
    cases s.deques i <;> rfl

theorem makeCandidate_setW (w : Fin n → Bool) (s : State n) : makeCandidate (setW w s) = (makeCandidate s).map (setW w) := by
  unfold makeCandidate
  show (if (List.finRange n).all (fun i => !(s.deques i).isEmpty) = true then _ else _) = _
  split <;> rfl

theorem boundary_setW [NeZero n] (w : Fin n → Bool) (s : State n) (b : Bool) :
    getVirtualCandidateBoundary (setW w s) b = getVirtualCandidateBoundary s b := rfl

theorem virtualSearch_setW [NeZero n] (w : Fin n → Bool) (fuel : Nat) (before : Int) (moves : Fin n → Nat) (s : State n) :
    virtualSearch fuel before moves (setW w s) = (virtualSearch fuel before moves s).map (setW w) := by
  induction fuel generalizing moves s with
  | zero => rfl
  | succ fuel ih =>
    unfold virtualSearch
    rw [boundary_setW, boundary_setW]
    cases getVirtualCandidateBoundary s true with
    | error f => rfl
    | ok r =>
      dsimp only
      cases getVirtualCandidateBoundary s false with
      | error f => rfl
      | ok r' =>
        dsimp only
        rw [publishCandidate_setW, (front_setW w s r'.1).2]
        have hr : recoverAllN moves { setW w s with num := 0 } = (recoverAllN moves { s with num := 0 }).map (setW w) :=
          foldlM_setW _ w (recoverN_setW moves w) _ { s with num := 0 }
        rw [hr]
        show (if s.cfg.scale (r.2 - s.candEnd) ≥ s.pivotTime - s.candStart then _
          else if s.cfg.scale (r.2 - s.candEnd) < r'.2 - s.candStart then _
          else if some r'.1 = s.pivot then _
          else if ¬ r'.2 < s.pivotTime then _ else _) = _
        split
        · rfl
        split
        · cases recoverAllN moves { s with num := 0 } with
          | error f => rfl
          | ok t =>
            show (if before = t.num then _ else _) = _
            dsimp only
            split <;> rfl
        split
        · rfl
        split
        · rfl
        cases dequeMoveFrontToPast s r'.1 with
        | error f => rfl
        | ok t => exact ih _ t

theorem examine_setW (w : Fin n → Bool) (s : State n) (ei : Fin n) (et : Int) (si : Fin n) (st : Int) :
    examine (setW w s) ei et si st = (examine s ei et si st).map (fun r => (r.1, setW w r.2)) := by
  have hm : ∀ (t : State n) (b : Bool), (dequeMoveFrontToPast (setW w t) si).map (fun s => (b, s)) =
      ((dequeMoveFrontToPast t si).map (fun s => (b, s))).map (fun r => (r.1, setW w r.2)) := by
    intro t b; rw [(front_setW w t si).2]; cases dequeMoveFrontToPast t si <;> rfl
  have hd : ∀ (t : State n) (b : Bool), (dequeDeleteFront (setW w t) si).map (fun s => (b, s)) =
      ((dequeDeleteFront t si).map (fun s => (b, s))).map (fun r => (r.1, setW w r.2)) := by
    intro t b; rw [(front_setW w t si).1]; cases dequeDeleteFront t si <;> rfl
  unfold examine
  rw [makeCandidate_setW, hm, hd]
  show (match s.pivot with
    | none => if et - st > s.cfg.maxInterval then _ else if s.hasDropped ei = true then _ else _
    | some _ => if s.cfg.scale (et - s.candEnd) ≥ st - s.candStart then _ else _) = _
  cases s.pivot with
  | none =>
    dsimp only
    split
    · rfl
    split
    · rfl
    cases makeCandidate s with
    | error f => rfl
    | ok t => exact hm { t with candStart := st, candEnd := et, pivot := some ei, pivotTime := et } true
  | some p =>
    dsimp only
    split
    · rfl
    cases makeCandidate s with
    | error f => rfl
    | ok t => exact hm { t with candStart := st, candEnd := et } true

theorem conclude_setW [NeZero n] (w : Fin n → Bool) (fuel : Nat) (s : State n) (et : Int) (si : Fin n) :
    conclude fuel (setW w s) et si = (conclude fuel s et si).map (setW w) := by
  unfold conclude
  rw [publishCandidate_setW]
  show (if s.pivot = none then _ else if some si = s.pivot then _
    else if s.cfg.scale (et - s.candEnd) ≥ s.pivotTime - s.candStart then _
    else if s.num < n then virtualSearch fuel s.num (fun _ => 0) (setW w s) else _) = _
  rw [virtualSearch_setW]
  split
  · rfl
  split
  · rfl
  split
  · rfl
  split
  · rfl
  · rfl

theorem iteration_setW [NeZero n] (w : Fin n → Bool) (fuel : Nat) (s : State n) :
    iteration fuel (setW w s) = (iteration fuel s).map (setW w) := by
  unfold iteration
  show (match getCandidateBoundary s.deques true with
    | .error f => .error f
    | .ok (endIndex, endTime) => _ : Except Fault (State n)) = _
  cases getCandidateBoundary s.deques true with
  | error f => rfl
  | ok r =>
    dsimp only
    show (match getCandidateBoundary s.deques false with
      | .error f => .error f
      | .ok (startIndex, startTime) => _ : Except Fault (State n)) = _
    cases getCandidateBoundary s.deques false with
    | error f => rfl
    | ok r' =>
      dsimp only
      have hx := examine_setW w { s with hasDropped := fun i => if i ≠ r.1 then false else s.hasDropped i } r.1 r.2 r'.1 r'.2
      have hx' : examine { setW w s with hasDropped := fun i => if i ≠ r.1 then false else (setW w s).hasDropped i } r.1 r.2 r'.1 r'.2 =
        _ := hx
      rw [hx']
      cases examine { s with hasDropped := fun i => if i ≠ r.1 then false else s.hasDropped i } r.1 r.2 r'.1 r'.2 with
      | error f => rfl
      | ok t =>
        obtain ⟨b, t⟩ := t
        cases b
        · rfl
        · exact conclude_setW w fuel t r.2 r'.1

theorem process_setW [NeZero n] (w : Fin n → Bool) (fuel : Nat) (s : State n) :
    process fuel (setW w s) = (process fuel s).map (setW w) := by
  induction fuel generalizing s with
  | zero =>
    unfold process
    show (if s.num = n then _ else _) = _
    split <;> rfl
  | succ fuel ih =>
    unfold process
    rw [iteration_setW]
    show (if s.num = n then _ else _) = _
    split
    · cases iteration fuel s with
      | error f => rfl
      | ok t => exact ih t
    · rfl

/-- Equal up to the warning flags. -/
def UpToW (s t : State n) : Prop := ∃ w, t = setW w s

theorem addPush_upToW [NeZero n] (fuel : Nat) {s t s' : State n} (h : UpToW s t) (i : Fin n) (e : Ev)
    (hs : addPush fuel s i e = .ok s') : ∃ t', addPush fuel t i e = .ok t' ∧ UpToW s' t' := by
  obtain ⟨w, rfl⟩ := h
  unfold addPush at hs ⊢
  dsimp only at hs ⊢
  change ∃ t', (if (upd s.deques i (s.deques i ++ [e]) i).length = 1 then _ else _) = _ ∧ _
  split at hs
  · rename_i hl
    rw [if_pos hl]
    change ∃ t', (if s.num + 1 = (n : Int) then _ else _) = _ ∧ _
    split at hs
    · rename_i hn
      rw [if_pos hn]
      refine ⟨setW w s', ?_, w, rfl⟩
      have := process_setW w fuel { s with deques := upd s.deques i (s.deques i ++ [e]), num := s.num + 1 }
      rw [hs] at this
      exact this
    · rename_i hn
      rw [if_neg hn]
      cases hs
      exact ⟨_, rfl, w, rfl⟩
  · rename_i hl
    rw [if_neg hl]
    obtain ⟨w1, h1⟩ : ∃ w1, s' = setW w1 { s with deques := upd s.deques i (s.deques i ++ [e]) } := by
      unfold checkInterMessageBound at hs
      simp only [upd_same, List.getLast?_concat] at hs
      split at hs
      · cases hs; exact ⟨s.warned, rfl⟩
      · split at hs
        · cases hs; exact ⟨s.warned, rfl⟩
        · split at hs
          · cases hs; exact ⟨_, rfl⟩
          · split at hs
            · cases hs; exact ⟨_, rfl⟩
            · cases hs; exact ⟨s.warned, rfl⟩
    obtain ⟨w2, h2⟩ : ∃ w2, checkInterMessageBound { setW w s with deques := upd s.deques i (s.deques i ++ [e]) } i =
        .ok (setW w2 { s with deques := upd s.deques i (s.deques i ++ [e]) }) := by
      unfold checkInterMessageBound
      simp only [upd_same, List.getLast?_concat]
      split
      · exact ⟨w, rfl⟩
      · split
        · exact ⟨w, rfl⟩
        · split
          · exact ⟨_, rfl⟩
          · split
            · exact ⟨_, rfl⟩
            · exact ⟨w, rfl⟩
    exact ⟨_, h2, w2, by rw [h1]; rfl⟩

theorem addLimit_upToW [NeZero n] (fuel : Nat) {s t s' : State n} (h : UpToW s t) (i : Fin n)
    (hs : addLimit fuel s i = .ok s') : ∃ t', addLimit fuel t i = .ok t' ∧ UpToW s' t' := by
  obtain ⟨w, rfl⟩ := h
  have hr : recoverAll { setW w s with num := 0 } = setW w (recoverAll { s with num := 0 }) := by
    rw [recoverAll_eq, recoverAll_eq]; rfl
  refine ⟨setW w s', ?_, w, rfl⟩
  unfold addLimit at hs ⊢
  dsimp only at hs ⊢
  rw [hr]
  change (if (s.deques i).length + (s.past i).length > s.cfg.queueSize then _ else _) = _
  split at hs
  · rename_i hl
    rw [if_pos hl]
    generalize recoverAll { s with num := 0 } = r at hs
    change (match r.deques i with
      | [] => _
      | _ :: rest => _) = _
    cases hd : r.deques i with
    | nil => rw [hd] at hs; cases hs
    | cons x rest =>
      rw [hd] at hs
      dsimp only at hs ⊢
      change (if r.pivot = none then _ else _) = _
      split at hs
      · rename_i hp
        rw [if_pos hp]; cases hs; rfl
      · rename_i hp
        rw [if_neg hp]
        have := process_setW w fuel { r with deques := upd r.deques i rest, hasDropped := upd r.hasDropped i true,
                                             cand := fun _ => none, pivot := none }
        rw [hs] at this
        exact this
  · rename_i hl
    rw [if_neg hl]; cases hs; rfl

theorem runE_upToW [NeZero n] (fuel : Nat) (ops : List (Fin n × Ev)) {s t s' : State n} (h : UpToW s t)
    (hs : runE (step fuel) s (ops.map (fun op => .add op.1 op.2)) = .ok s') :
    ∃ t', runE (step fuel) t (ops.map (fun op => .add op.1 op.2)) = .ok t' ∧ UpToW s' t' := by
  induction ops generalizing s t with
  | nil => cases hs; exact ⟨t, rfl, h⟩
  | cons op ops ih =>
    simp only [List.map_cons, runE, step] at hs ⊢
    cases ha : add fuel s op.1 op.2 with
    | error f => rw [ha] at hs; cases hs
    | ok s2 =>
      rw [ha] at hs
      unfold add at ha
      cases hb : addPush fuel s op.1 op.2 with
      | error f => rw [hb] at ha; cases ha
      | ok s1 =>
        rw [hb] at ha
        obtain ⟨t1, g1, g2⟩ := addPush_upToW fuel h op.1 op.2 hb
        obtain ⟨t2, g3, g4⟩ := addLimit_upToW fuel g2 op.1 ha
        have : add fuel t op.1 op.2 = .ok t2 := by unfold add; rw [g1]; exact g3
        rw [this]
        exact ih g4 hs

theorem checkBound_ok (s : State n) (i : Fin n) (h : s.deques i ≠ []) :
    ∃ w, checkInterMessageBound s i = .ok (setW w s) := by
  unfold checkInterMessageBound
  cases hl : (s.deques i).getLast? with
  | none => rw [List.getLast?_eq_none_iff] at hl; exact absurd hl h
  | some msg =>
    dsimp only
    split
    · exact ⟨s.warned, rfl⟩
    · split
      · exact ⟨s.warned, rfl⟩
      · split
        · exact ⟨_, rfl⟩
        · split
          · exact ⟨_, rfl⟩
          · exact ⟨s.warned, rfl⟩

/-! ### An input that has not delivered anything -/

/-- The state while input `j` is silent, up to the warning flags. -/
def waitState (s : State n) (ops : List (Fin n × Ev)) : State n :=
  { s with deques := fun i => lastN s.cfg.queueSize (s.deques i ++ stream ops i),
           num := nonEmpty (fun i => lastN s.cfg.queueSize (s.deques i ++ stream ops i)),
           hasDropped := fun i => s.hasDropped i || decide (s.cfg.queueSize < (s.deques i ++ stream ops i).length) }

theorem calm_of_empty {s : State n} (hi : Inv s) {j : Fin n} (hj : view s j = []) : s.pivot = none ∧ ∀ i, s.past i = [] := by
  cases hp : s.pivot with
  | none => exact ⟨rfl, hi.loop.noPivot hp⟩
  | some p =>
    obtain ⟨c, hc, _⟩ := hi.loop.pivoted p hp
    obtain ⟨tl, htl⟩ := hc.head j
    rw [hj] at htl; cases htl

theorem state_ext {s t : State n} (h1 : s.cfg = t.cfg) (h2 : s.deques = t.deques) (h3 : s.num = t.num) (h4 : s.past = t.past)
    (h5 : s.cand = t.cand) (h6 : s.candStart = t.candStart) (h7 : s.candEnd = t.candEnd) (h8 : s.pivotTime = t.pivotTime)
    (h9 : s.pivot = t.pivot) (h10 : s.hasDropped = t.hasDropped) (h11 : s.out = t.out) : s = setW s.warned t := by
  cases s; cases t; simp_all [setW]

theorem run_late [NeZero n] (fuel : Nat) {s0 : State n} (hi : Inv s0) {j : Fin n} (hj0 : view s0 j = []) (ops : List (Fin n × Ev))
    (h : Silent j ops) :
    ∃ w, runE (step fuel) s0 (ops.map (fun op => .add op.1 op.2)) = .ok (setW w (waitState s0 ops)) := by
  obtain ⟨hpiv, hpast⟩ := calm_of_empty hi hj0
  have hjq : s0.deques j = [] := by unfold view at hj0; exact (List.append_eq_nil_iff.1 hj0).2
  induction ops using snoc_induction with
  | h0 =>
    refine ⟨s0.warned, ?_⟩
    show Except.ok s0 = _
    congr 1
    have hb : ∀ i, (s0.deques i).length ≤ s0.cfg.queueSize := fun i => by
      have := hi.bound i
      unfold view at this
      rw [List.length_append] at this; omega
    have e1 : s0.deques = (waitState s0 []).deques := by
      funext i
      show _ = lastN _ (s0.deques i ++ [])
      rw [List.append_nil]; unfold lastN
      rw [Nat.sub_eq_zero_of_le (hb i)]; rfl
    refine state_ext rfl e1 ?_ rfl rfl rfl rfl rfl rfl ?_ rfl
    · rw [hi.loop.num, e1]; rfl
    · funext i
      show _ = (s0.hasDropped i || decide (s0.cfg.queueSize < (s0.deques i ++ []).length))
      rw [List.append_nil, decide_eq_false (by have := hb i; omega), Bool.or_false]
  | hs ops op ih =>
    obtain ⟨i, e⟩ := op
    obtain ⟨w, hr⟩ := ih h.left
    have hij : i ≠ j := h.last
    have hadd : ∃ s', add fuel (setW w (waitState s0 ops)) i e = .ok s' ∧ ∃ w, s' = setW w (waitState s0 (ops ++ [(i, e)])) := by
      -- the first half only appends the message
      have hjd : upd (waitState s0 ops).deques i ((waitState s0 ops).deques i ++ [e]) j = [] := by
        rw [upd_ne _ _ (Ne.symm hij)]
        show lastN _ (s0.deques j ++ stream ops j) = []
        rw [h.left.stream, hjq]; simp [lastN]
      have hlt : (nonEmpty (upd (waitState s0 ops).deques i ((waitState s0 ops).deques i ++ [e])) : Int) ≠ n := by
        intro h0
        exact (nonEmpty_eq_iff _).1 (by exact_mod_cast h0) j hjd
      have hnum := push_num (s := waitState s0 ops) rfl i e
      obtain ⟨w1, h1⟩ : ∃ w1, addPush fuel (setW w (waitState s0 ops)) i e =
          .ok (setW w1 { waitState s0 ops with
            deques := upd (waitState s0 ops).deques i ((waitState s0 ops).deques i ++ [e]),
            num := nonEmpty (upd (waitState s0 ops).deques i ((waitState s0 ops).deques i ++ [e])) }) := by
        rw [hnum] at hlt ⊢
        unfold addPush
        change ∃ w1, (if (upd (waitState s0 ops).deques i ((waitState s0 ops).deques i ++ [e]) i).length = 1 then
          (if (waitState s0 ops).num + 1 = (n : Int) then _ else _) else _) = _
        rw [upd_same]
        cases hd : (waitState s0 ops).deques i with
        | nil =>
          rw [hd] at hlt
          rw [if_pos (by simp), if_neg (by simpa using hlt)]
          refine ⟨w, ?_⟩
          show Except.ok { setW w (waitState s0 ops) with
            deques := upd (waitState s0 ops).deques i ((waitState s0 ops).deques i ++ [e]), num := (waitState s0 ops).num + 1 } = _
          rw [hd]; rfl
        | cons x tl =>
          rw [if_neg (by simp)]
          obtain ⟨w2, h2⟩ := checkBound_ok ({ setW w (waitState s0 ops) with
            deques := upd (waitState s0 ops).deques i ((waitState s0 ops).deques i ++ [e]) } : State n) i (by
              dsimp only; rw [upd_same]; simp)
          refine ⟨w2, ?_⟩
          refine h2.trans ?_
          rw [hd]
          simp [setW]
      unfold add
      rw [h1]
      dsimp only
      -- the second half drops the oldest message if there are too many
      have hd : ∀ l, l = lastN s0.cfg.queueSize (s0.deques i ++ stream ops i ++ [e]) →
          upd (waitState s0 ops).deques i l = (waitState s0 (ops ++ [(i, e)])).deques := by
        rintro l rfl
        funext k
        by_cases hk : k = i
        · subst hk; rw [upd_same]; show _ = lastN _ (s0.deques _ ++ stream _ _); rw [stream_snoc_same, List.append_assoc]
        · rw [upd_ne _ _ hk]
          show lastN _ (s0.deques k ++ stream ops k) = lastN _ (s0.deques k ++ stream _ k)
          rw [stream_snoc_ne _ _ (Ne.symm hk)]
      have hf : ∀ b, b = (s0.hasDropped i || decide (s0.cfg.queueSize < (s0.deques i ++ stream ops i).length + 1)) →
          upd (waitState s0 ops).hasDropped i b = (waitState s0 (ops ++ [(i, e)])).hasDropped := by
        rintro b rfl
        funext k
        by_cases hk : k = i
        · subst hk; rw [upd_same]; show _ = (s0.hasDropped _ || decide (_ < (s0.deques _ ++ stream _ _).length)); rw [stream_snoc_same]; simp [Nat.add_assoc]
        · rw [upd_ne _ _ hk]
          show (_ || decide (_ < (s0.deques k ++ stream ops k).length)) = (_ || decide (_ < (s0.deques k ++ stream _ k).length))
          rw [stream_snoc_ne _ _ (Ne.symm hk)]
      have hsn := lastN_snoc s0.cfg.queueSize (s0.deques i ++ stream ops i) e
      rw [lastN_length] at hsn
      have hview : view (setW w1 { waitState s0 ops with
            deques := upd (waitState s0 ops).deques i ((waitState s0 ops).deques i ++ [e]),
            num := nonEmpty (upd (waitState s0 ops).deques i ((waitState s0 ops).deques i ++ [e])) }) =
          upd (waitState s0 ops).deques i ((waitState s0 ops).deques i ++ [e]) := by
        funext k
        show s0.past k ++ _ = _
        rw [hpast k]; rfl
      have hlen : ((waitState s0 ops).deques i ++ [e]).length = min (s0.deques i ++ stream ops i).length s0.cfg.queueSize + 1 := by
        rw [List.length_append]; show (lastN _ (s0.deques i ++ stream ops i)).length + 1 = _; rw [lastN_length]
      rcases addLimit_spec fuel (s := setW w1 { waitState s0 ops with
            deques := upd (waitState s0 ops).deques i ((waitState s0 ops).deques i ++ [e]),
            num := nonEmpty (upd (waitState s0 ops).deques i ((waitState s0 ops).deques i ++ [e])) })
          ⟨rfl, fun _ => hpast, fun p hp => by have hp : s0.pivot = some p := hp; rw [hpiv] at hp; cases hp⟩ hi.qpos i ⟨j, hjd⟩ with ⟨g1, g2⟩ | ⟨g1, _, g2, _⟩ | ⟨_, g2, _⟩
      · refine ⟨_, g2, w1, ?_⟩
        rw [hview, upd_same, hlen] at g1
        have g1 : min (s0.deques i ++ stream ops i).length s0.cfg.queueSize + 1 ≤ s0.cfg.queueSize := g1
        rw [if_pos g1] at hsn
        have e1 := hd ((waitState s0 ops).deques i ++ [e]) hsn.symm
        have e2 : (waitState s0 ops).hasDropped = (waitState s0 (ops ++ [(i, e)])).hasDropped := by
          rw [← hf _ rfl]
          funext k
          by_cases hk : k = i
          · subst hk; rw [upd_same]
            show (s0.hasDropped k || decide (_ < (s0.deques k ++ stream ops k).length)) = _
            have h3 : (s0.deques k ++ stream ops k).length < s0.cfg.queueSize := by omega
            rw [decide_eq_false (by omega), decide_eq_false (by omega)]
          · rw [upd_ne _ _ hk]
        refine state_ext rfl e1 ?_ rfl rfl rfl rfl rfl rfl e2 rfl
        show (nonEmpty _ : Int) = (nonEmpty (waitState s0 (ops ++ [(i, e)])).deques : Int)
        rw [e1]
      · refine ⟨_, g2, w1, ?_⟩
        rw [hview, upd_same, hlen] at g1
        have g1 : s0.cfg.queueSize < min (s0.deques i ++ stream ops i).length s0.cfg.queueSize + 1 := g1
        rw [if_neg (by omega)] at hsn
        have e1 := hd ((waitState s0 ops).deques i ++ [e]).tail hsn.symm
        have e2 := hf true (by rw [decide_eq_true (by omega), Bool.or_true])
        have e3 : upd (upd (waitState s0 ops).deques i ((waitState s0 ops).deques i ++ [e])) i
            (upd (waitState s0 ops).deques i ((waitState s0 ops).deques i ++ [e]) i).tail = (waitState s0 (ops ++ [(i, e)])).deques := by
          rw [← e1, upd_same]
          funext k
          by_cases hk : k = i
          · subst hk; rw [upd_same, upd_same]
          · rw [upd_ne _ _ hk, upd_ne _ _ hk, upd_ne _ _ hk]
        refine state_ext rfl ?_ ?_ (funext fun k => (hpast k).symm) (if_pos hpiv) rfl rfl rfl hpiv.symm e2 rfl
        · unfold dropped; rw [hview]; exact e3
        · unfold dropped; rw [hview]
          show (nonEmpty _ : Int) = (nonEmpty (waitState s0 (ops ++ [(i, e)])).deques : Int)
          rw [e3]
      · exact absurd hpiv g2
    obtain ⟨s', h1, w', rfl⟩ := hadd
    refine ⟨w', ?_⟩
    rw [List.map_append, runE_append_ok _ _ _ _ _ hr]
    simp only [List.map_cons, List.map_nil, runE, step, h1]

end MF.Approx
