import Verif.Proofs.Approx8
import Verif.Spec.Overflow
/-
Helper lemmas about the ApproximateTime model, part 9: the queue size matters only to an `add` that finds its queue too long.
-/
namespace MF.Approx
open MF.ApproxSpec (sets)
open MF.Epsilon (nonEmpty nonEmpty_eq_iff nonEmpty_upd nonEmpty_le total)

variable {n : Nat}

/-- The same state with another queue size. -/
def setQ (q : Nat) (s : State n) : State n := { s with cfg := { s.cfg with queueSize := q } }

theorem foldlM_setQ {A : Type} (q : Nat) (f : State n → A → Except Fault (State n))
    (hf : ∀ s a, f (setQ q s) a = (f s a).map (setQ q)) (l : List A) (s : State n) :
    l.foldlM f (setQ q s) = (l.foldlM f s).map (setQ q) := by
  induction l generalizing s with
  | nil => rfl
  | cons a l ih =>
    rw [List.foldlM_cons, List.foldlM_cons, hf]
    cases f s a with
    | error e => rfl
    | ok s' => exact ih s'

theorem map_ite {α β : Type} (c : Prop) [Decidable c] (f : α → β) (x y : Except Fault α) :
    (if c then x else y).map f = if c then x.map f else y.map f := by
  split <;> rfl

theorem check_setQ (q : Nat) (s : State n) (i : Fin n) :
    checkInterMessageBound (setQ q s) i = (checkInterMessageBound s i).map (setQ q) := by
  unfold checkInterMessageBound
  rw [map_ite]
  show (if s.warned i then _ else _) = _
  by_cases h : s.warned i
  · rw [if_pos h, if_pos h]; rfl
  · rw [if_neg h, if_neg h]
    show (match (s.deques i).getLast? with | none => _ | some msg => _) = _
    cases (s.deques i).getLast? with
    | none => rfl
    | some msg =>
      dsimp only
      show (match (if (s.deques i).length = 1 then (s.past i).getLast? else (s.deques i)[(s.deques i).length - 2]?) with
        | none => _ | some prev => _) = _
      cases (if (s.deques i).length = 1 then (s.past i).getLast? else (s.deques i)[(s.deques i).length - 2]?) with
      | none => rfl
      | some prev =>
        dsimp only
        rw [map_ite, map_ite]
        rfl

theorem delete_setQ (q : Nat) (s : State n) (i : Fin n) :
    dequeDeleteFront (setQ q s) i = (dequeDeleteFront s i).map (setQ q) := by
  unfold dequeDeleteFront
  cases h : s.deques i with
  | nil => simp only [setQ, h]; rfl
  | cons e r => simp only [setQ, h]; rfl

theorem move_setQ (q : Nat) (s : State n) (i : Fin n) :
    dequeMoveFrontToPast (setQ q s) i = (dequeMoveFrontToPast s i).map (setQ q) := by
  unfold dequeMoveFrontToPast
  cases h : s.deques i with
  | nil => simp only [setQ, h]; rfl
  | cons e r => simp only [setQ, h]; rfl

theorem make_setQ (q : Nat) (s : State n) : makeCandidate (setQ q s) = (makeCandidate s).map (setQ q) := by
  unfold makeCandidate
  rw [map_ite]
  rfl

theorem count_setQ (q : Nat) (s : State n) (i : Fin n) : countNonEmpty (setQ q s) i = setQ q (countNonEmpty s i) := by
  unfold countNonEmpty
  rw [apply_ite (setQ q)]
  rfl

theorem recoverN_setQ (q : Nat) (moves : Fin n → Nat) (s : State n) (i : Fin n) :
    recoverN moves (setQ q s) i = (recoverN moves s i).map (setQ q) := by
  unfold recoverN
  by_cases h : moves i ≤ (s.past i).length
  · rw [if_pos h, if_pos (show moves i ≤ ((setQ q s).past i).length from h)]
    exact congrArg Except.ok (count_setQ q { s with past := upd s.past i (moveBack (moves i) (s.past i) (s.deques i)).1,
                                                    deques := upd s.deques i (moveBack (moves i) (s.past i) (s.deques i)).2 } i)
  · rw [if_neg h, if_neg (show ¬ moves i ≤ ((setQ q s).past i).length from h)]
    rfl

theorem recoverAndDelete_setQ (q : Nat) (s : State n) (i : Fin n) :
    recoverAndDelete (setQ q s) i = (recoverAndDelete s i).map (setQ q) := by
  unfold recoverAndDelete
  have h : moveBack ((setQ q s).past i).length ((setQ q s).past i) ((setQ q s).deques i) =
    moveBack (s.past i).length (s.past i) (s.deques i) := rfl
  rw [h]
  generalize moveBack (s.past i).length (s.past i) (s.deques i) = r
  obtain ⟨v, d⟩ := r
  cases d with
  | nil => rfl
  | cons e rest => exact congrArg Except.ok (count_setQ q { s with past := upd s.past i v, deques := upd s.deques i rest } i)

theorem recoverAll_setQ (q : Nat) (s : State n) : recoverAll (setQ q s) = setQ q (recoverAll s) := by
  unfold recoverAll
  generalize List.finRange n = l
  induction l generalizing s with
  | nil => rfl
  | cons a l ih =>
    rw [List.foldl_cons, List.foldl_cons]
    have : recover (setQ q s) a = setQ q (recover s a) := 
      count_setQ q { s with past := upd s.past a (moveBack (s.past a).length (s.past a) (s.deques a)).1,
                            deques := upd s.deques a (moveBack (s.past a).length (s.past a) (s.deques a)).2 } a
    rw [this]
    exact ih _

theorem publish_setQ (q : Nat) (s : State n) : publishCandidate (setQ q s) = (publishCandidate s).map (setQ q) := by
  unfold publishCandidate
  exact foldlM_setQ q recoverAndDelete (recoverAndDelete_setQ q) _
    { s with out := s.out ++ [s.cand], cand := fun _ => none, pivot := none, num := 0 }

theorem virtualTimes_setQ (q : Nat) (s : State n) : getVirtualTimes (setQ q s) = getVirtualTimes s := by
  rfl

theorem virtualSearch_setQ [NeZero n] (q : Nat) (fuel : Nat) : ∀ (before : Int) (moves : Fin n → Nat) (s : State n),
    virtualSearch fuel before moves (setQ q s) = (virtualSearch fuel before moves s).map (setQ q) := by
  induction fuel with
  | zero => intro before moves s; rfl
  | succ fuel ih =>
    intro before moves s
    unfold virtualSearch
    have hb : ∀ b, getVirtualCandidateBoundary (setQ q s) b = getVirtualCandidateBoundary s b := by
      intro b; unfold getVirtualCandidateBoundary; rw [virtualTimes_setQ]
    rw [hb, hb]
    cases getVirtualCandidateBoundary s true with
    | error f => rfl
    | ok a =>
      cases getVirtualCandidateBoundary s false with
      | error f => rfl
      | ok b =>
        obtain ⟨_, endTime⟩ := a
        obtain ⟨startIndex, startTime⟩ := b
        dsimp only
        have e1 : (setQ q s).cfg.scale = s.cfg.scale := rfl
        have e2 : (setQ q s).candEnd = s.candEnd := rfl
        have e3 : (setQ q s).candStart = s.candStart := rfl
        have e4 : (setQ q s).pivotTime = s.pivotTime := rfl
        have e5 : (setQ q s).pivot = s.pivot := rfl
        rw [e1, e2, e3, e4, e5]
        split
        · exact publish_setQ q s
        · split
          · have : recoverAllN moves (setQ q { s with num := 0 }) = (recoverAllN moves { s with num := 0 }).map (setQ q) :=
              foldlM_setQ q (recoverN moves) (recoverN_setQ q moves) _ { s with num := 0 }
            show (match recoverAllN moves (setQ q { s with num := 0 }) with | .error f => _ | .ok s' => _) = _
            rw [this]
            cases recoverAllN moves { s with num := 0 } with
            | error f => rfl
            | ok s' =>
              show (if before = s'.num then _ else _) = _
              dsimp only
              split <;> rfl
          · split
            · rfl
            · split
              · rfl
              · rw [move_setQ]
                cases dequeMoveFrontToPast s startIndex with
                | error f => rfl
                | ok s' => exact ih _ _ s'

theorem map_map_ok {α β γ : Type} (r : Except Fault α) (f : α → β) (g : β → γ) : (r.map f).map g = r.map (fun x => g (f x)) := by
  cases r <;> rfl

theorem examine_setQ (q : Nat) (s : State n) (ei : Fin n) (et : Int) (si : Fin n) (stt : Int) :
    examine (setQ q s) ei et si stt = (examine s ei et si stt).map (fun r => (r.1, setQ q r.2)) := by
  unfold examine
  have e5 : (setQ q s).pivot = s.pivot := rfl
  rw [e5]
  cases s.pivot with
  | none =>
    dsimp only
    have e1 : (setQ q s).cfg.maxInterval = s.cfg.maxInterval := rfl
    have e2 : (setQ q s).hasDropped = s.hasDropped := rfl
    rw [e1, e2]
    split
    · rw [delete_setQ, map_map_ok, map_map_ok]
    · split
      · rw [delete_setQ, map_map_ok, map_map_ok]
      · rw [make_setQ]
        cases makeCandidate s with
        | error f => rfl
        | ok s1 =>
          show (dequeMoveFrontToPast (setQ q { s1 with candStart := stt, candEnd := et, pivot := some ei, pivotTime := et }) si).map _ = _
          rw [move_setQ, map_map_ok, map_map_ok]
  | some p =>
    dsimp only
    have e1 : (setQ q s).cfg.scale = s.cfg.scale := rfl
    have e2 : (setQ q s).candEnd = s.candEnd := rfl
    have e3 : (setQ q s).candStart = s.candStart := rfl
    rw [e1, e2, e3]
    split
    · rw [move_setQ, map_map_ok, map_map_ok]
    · rw [make_setQ]
      cases makeCandidate s with
      | error f => rfl
      | ok s1 =>
        show (dequeMoveFrontToPast (setQ q { s1 with candStart := stt, candEnd := et }) si).map _ = _
        rw [move_setQ, map_map_ok, map_map_ok]

theorem conclude_setQ [NeZero n] (q : Nat) (fuel : Nat) (s : State n) (et : Int) (si : Fin n) :
    conclude fuel (setQ q s) et si = (conclude fuel s et si).map (setQ q) := by
  unfold conclude
  have e1 : (setQ q s).cfg.scale = s.cfg.scale := rfl
  have e2 : (setQ q s).candEnd = s.candEnd := rfl
  have e3 : (setQ q s).candStart = s.candStart := rfl
  have e4 : (setQ q s).pivotTime = s.pivotTime := rfl
  have e5 : (setQ q s).pivot = s.pivot := rfl
  have e6 : (setQ q s).num = s.num := rfl
  rw [e1, e2, e3, e4, e5, e6]
  split
  · rfl
  · split
    · exact publish_setQ q s
    · split
      · exact publish_setQ q s
      · split
        · exact virtualSearch_setQ q fuel _ _ s
        · rfl

theorem iteration_setQ [NeZero n] (q : Nat) (fuel : Nat) (s : State n) :
    iteration fuel (setQ q s) = (iteration fuel s).map (setQ q) := by
  unfold iteration
  have e1 : (setQ q s).deques = s.deques := rfl
  rw [e1]
  cases getCandidateBoundary s.deques true with
  | error f => rfl
  | ok a =>
    cases getCandidateBoundary s.deques false with
    | error f => rfl
    | ok b =>
      obtain ⟨ei, et⟩ := a
      obtain ⟨si, stt⟩ := b
      dsimp only
      have := examine_setQ q { s with hasDropped := fun i => if i ≠ ei then false else s.hasDropped i } ei et si stt
      show (match examine (setQ q { s with hasDropped := fun i => if i ≠ ei then false else s.hasDropped i }) ei et si stt with
        | .error f => _ | .ok (false, s1) => _ | .ok (true, s1) => _) = _
      rw [this]
      cases examine { s with hasDropped := fun i => if i ≠ ei then false else s.hasDropped i } ei et si stt with
      | error f => rfl
      | ok r =>
        obtain ⟨b, s1⟩ := r
        cases b with
        | false => rfl
        | true => exact conclude_setQ q fuel s1 et si

theorem process_setQ [NeZero n] (q : Nat) (fuel : Nat) : ∀ s : State n, process fuel (setQ q s) = (process fuel s).map (setQ q) := by
  induction fuel with
  | zero =>
    intro s
    unfold process
    have e6 : (setQ q s).num = s.num := rfl
    rw [e6]
    split <;> rfl
  | succ fuel ih =>
    intro s
    unfold process
    have e6 : (setQ q s).num = s.num := rfl
    rw [e6]
    split
    · rw [iteration_setQ]
      cases iteration fuel s with
      | error f => rfl
      | ok s' => exact ih s'
    · rfl

theorem addPush_setQ [NeZero n] (q : Nat) (fuel : Nat) (s : State n) (i : Fin n) (e : Ev) :
    addPush fuel (setQ q s) i e = (addPush fuel s i e).map (setQ q) := by
  unfold addPush
  dsimp only
  have e1 : (setQ q s).deques = s.deques := rfl
  have e2 : (setQ q s).num = s.num := rfl
  rw [e1, e2]
  split
  · split
    · exact process_setQ q fuel { s with deques := upd s.deques i (s.deques i ++ [e]), num := s.num + 1 }
    · rfl
  · exact check_setQ q { s with deques := upd s.deques i (s.deques i ++ [e]) } i

theorem run_snoc_ok [NeZero n] {fuel : Nat} {cfg : Cfg n} {ops : List (Fin n × Ev)} {op : Fin n × Ev} {s' : State n}
    (h : run fuel cfg (ops ++ [op]) = .ok s') : ∃ s, run fuel cfg ops = .ok s ∧ add fuel s op.1 op.2 = .ok s' := by
  obtain ⟨hq, h⟩ := runOps_ok h
  rw [List.map_append] at h
  obtain ⟨s, h1, h2⟩ := runE_snoc_ok h
  refine ⟨s, ?_, h2⟩
  show runOps fuel cfg _ = _
  unfold runOps
  rw [construct_eq cfg hq]
  exact h1

theorem run_snoc_of [NeZero n] {fuel : Nat} {cfg : Cfg n} {ops : List (Fin n × Ev)} {op : Fin n × Ev} {s s' : State n}
    (h : run fuel cfg ops = .ok s) (ha : add fuel s op.1 op.2 = .ok s') : run fuel cfg (ops ++ [op]) = .ok s' := by
  obtain ⟨hq, h⟩ := runOps_ok h
  show runOps fuel cfg _ = _
  unfold runOps
  rw [construct_eq cfg hq]
  show runE (step fuel) (init cfg) _ = _
  rw [List.map_append, runE_append, h]
  show runE (step fuel) s [.add op.1 op.2] = _
  simp only [runE, step, ha]

theorem addLimit_fits [NeZero n] (fuel : Nat) (s : State n) (i : Fin n)
    (h : (s.past i).length + (s.deques i).length ≤ s.cfg.queueSize) : addLimit fuel s i = .ok s := by
  unfold addLimit
  rw [if_neg (by omega)]

/-- If the queues would hold at most `q` messages anyway, a policy with `queue_size = q` goes through the same states. -/
theorem run_fits [NeZero n] {fuel : Nat} {cfg : Cfg n} {big : Nat} : ∀ (ops : List (Fin n × Ev)) (s : State n),
    ops.length < big →
    (∀ k s, run fuel { cfg with queueSize := big } (ops.take k) = .ok s →
      ∀ i, (s.past i).length + (s.deques i).length ≤ cfg.queueSize) →
    run fuel cfg ops = .ok s → run fuel { cfg with queueSize := big } ops = .ok (setQ big s) := by
  intro ops
  induction ops using snoc_induction with
  | h0 =>
    intro s hb _ h
    obtain ⟨hq, h⟩ := runOps_ok h
    cases h
    show runOps fuel _ [] = _
    unfold runOps
    rw [construct_eq _ (show 0 < big by exact Nat.lt_of_le_of_lt (Nat.zero_le _) hb)]
    rfl
  | hs ops op ih =>
    intro s' hb hfit h
    rw [List.length_append, List.length_singleton] at hb
    obtain ⟨s, h1, h2⟩ := run_snoc_ok h
    have h3 := ih s (by omega) (by
      intro k t ht
      by_cases hk : k ≤ ops.length
      · refine hfit k t ?_
        rw [List.take_append_of_le_length hk]
        exact ht
      · refine hfit ops.length t ?_
        rw [List.take_append_of_le_length (Nat.le_refl _), List.take_length]
        rw [List.take_of_length_le (by omega)] at ht
        exact ht) h1
    unfold add at h2
    cases hp : addPush fuel s op.1 op.2 with
    | error f => rw [hp] at h2; cases h2
    | ok s1 =>
      rw [hp] at h2
      dsimp only at h2
      have hpb : addPush fuel (setQ big s) op.1 op.2 = .ok (setQ big s1) := by rw [addPush_setQ, hp]; rfl
      obtain ⟨hib, hcb, hhb⟩ := run_facts h3
      -- the unlimited policy has room
      have hroom : ((setQ big s1).past op.1).length + ((setQ big s1).deques op.1).length ≤ big := by
        obtain ⟨s0, hpu, hor, _⟩ := addPush_spec fuel hib op.1 op.2
        rcases hor with ⟨s2, g1, g2⟩ | g1
        · rw [hpb] at g1
          cases g1
          obtain ⟨_, hlen⟩ := psteps_cfg_len (hpu.inv hib.loop) g2
          have hv := hlen op.1
          rw [hpu.view_same, List.length_append, List.length_singleton] at hv
          obtain ⟨c, hc, _⟩ := hhb op.1
          have h5 : (stream ops op.1).length ≤ ops.length := by
            unfold stream
            rw [List.length_map]
            exact List.length_filter_le _ _
          rw [hc, List.length_append] at h5
          unfold view at hv h5
          simp only [List.length_append] at hv h5
          omega
        · rw [hpb] at g1; cases g1
      have haddb : add fuel (setQ big s) op.1 op.2 = .ok (setQ big s1) := by
        unfold add
        rw [hpb]
        exact addLimit_fits fuel (setQ big s1) op.1 hroom
      have h4 := run_snoc_of h3 haddb
      have h5 := hfit (ops.length + 1) (setQ big s1) (by
        rw [List.take_of_length_le (by simp)]
        exact h4) op.1
      have hcs : s1.cfg.queueSize = cfg.queueSize := by
        obtain ⟨hi, hc, _⟩ := run_facts h1
        obtain ⟨s0, hpu, hor, _⟩ := addPush_spec fuel hi op.1 op.2
        rcases hor with ⟨s2, g1, g2⟩ | g1
        · rw [hp] at g1
          cases g1
          rw [(psteps_cfg_len (hpu.inv hi.loop) g2).1, hpu.cfg, hc]
        · rw [hp] at g1; cases g1
      rw [addLimit_fits fuel s1 op.1 (by rw [hcs]; exact h5)] at h2
      cases h2
      exact h4

theorem noOverflow_run [NeZero n] {fuel : Nat} {cfg : Cfg n} {ops : List (Fin n × Ev)} {s : State n}
    (h : run fuel cfg ops = .ok s) (hf : NoOverflow fuel cfg ops) :
    run fuel { cfg with queueSize := ops.length + 1 } ops = .ok (setQ (ops.length + 1) s) :=
  run_fits ops s (by omega) hf h

/-- In particular, queues with room for all messages of their input do not overflow. -/
theorem noOverflow_of_short [NeZero n] {fuel : Nat} {cfg : Cfg n} {ops : List (Fin n × Ev)}
    (hq : ∀ i, (stream ops i).length ≤ cfg.queueSize) : NoOverflow fuel cfg ops := by
  intro k s h i
  obtain ⟨_, _, hh⟩ := run_facts h
  obtain ⟨c, hc, _⟩ := hh i
  have h1 : (stream (ops.take k) i).length ≤ (stream ops i).length := by
    conv => rhs; rw [← List.take_append_drop k ops]
    rw [stream_append, List.length_append]
    omega
  have h2 := hq i
  rw [hc, List.length_append] at h1
  unfold view at h1
  simp only [List.length_append] at h1
  omega

/-- To check it for a given history, only the prefixes need to be run. -/
theorem noOverflow_of_check [NeZero n] {fuel : Nat} {cfg : Cfg n} {ops : List (Fin n × Ev)}
    (h : ∀ k, k ≤ ops.length → (run fuel { cfg with queueSize := ops.length + 1 } (ops.take k)).toOption.all
      (fun s => decide (∀ i, (s.past i).length + (s.deques i).length ≤ cfg.queueSize)) = true) : NoOverflow fuel cfg ops := by
  have key : ∀ k, k ≤ ops.length → ∀ s, run fuel { cfg with queueSize := ops.length + 1 } (ops.take k) = .ok s →
      ∀ i, (s.past i).length + (s.deques i).length ≤ cfg.queueSize := by
    intro k hk s hs
    have := h k hk
    rw [hs] at this
    simpa [Except.toOption] using this
  intro k s hs
  by_cases hk : k ≤ ops.length
  · exact key k hk s hs
  · refine key ops.length (Nat.le_refl _) s ?_
    rw [List.take_length]
    rw [List.take_of_length_le (by omega)] at hs
    exact hs

/-- Without overflow, the output so far followed by what the canonical search still finds is the canonical sequence. -/
theorem run_canonical_fits [NeZero n] {fuel : Nat} {cfg : Cfg n} (closed : Bool)
    (hmono : ∀ x y, x ≤ y → cfg.scale x ≤ cfg.scale y) (hlow : ∀ i, 0 ≤ cfg.lower i)
    (ops : List (Fin n × Ev)) (s : State n) (h : run fuel cfg ops = .ok s) (hf : NoOverflow fuel cfg ops) :
    ∀ fut : Fin n → List Ev, (∀ i, Apart (cfg.lower i) (stream ops i ++ fut i)) →
      lift (sets closed cfg.scale cfg.maxInterval (fun i => stream ops i ++ fut i)) <+: (s.out ++ lift (rest closed s fut)) ∧
      (closed = true → lift (sets closed cfg.scale cfg.maxInterval (fun i => stream ops i ++ fut i)) =
        s.out ++ lift (rest closed s fut)) := by
  have h1 := noOverflow_run h hf
  exact (run_canonical (cfg := { cfg with queueSize := ops.length + 1 }) closed hmono hlow ops _ h1 (by
    intro i
    have : (stream ops i).length ≤ ops.length := by unfold stream; rw [List.length_map]; exact List.length_filter_le _ _
    show _ ≤ ops.length + 1
    omega)).2

end MF.Approx
