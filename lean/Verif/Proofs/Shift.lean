import Verif.Spec.Shift
import Verif.Proofs.Basic
/-
Lemmas for property C121: only the differences between stamps matter.  ApproximateTime.
-/
namespace MF

/-- Two calls end alike: with the same fault, or with related results. -/
def RelE {α : Type} (R : α → α → Prop) : Except Fault α → Except Fault α → Prop
  | .ok a, .ok b => R a b
  | .error f, .error f' => f = f'
  | _, _ => False

theorem relE_ok {α : Type} {R : α → α → Prop} {a : α} {y : Except Fault α} (h : RelE R (.ok a) y) : ∃ b, y = .ok b ∧ R a b := by
  cases y with
  | error f => cases h
  | ok b => exact ⟨b, rfl, h⟩

theorem relE_error {α : Type} {R : α → α → Prop} {f : Fault} {y : Except Fault α} (h : RelE R (.error f) y) : y = .error f := by
  cases y with
  | error f' => cases h; rfl
  | ok b => cases h

theorem relE_foldlM {α ι : Type} {R : α → α → Prop} {f f' : α → ι → Except Fault α} : ∀ (l : List ι) (a a' : α),
    (∀ a a' i, R a a' → RelE R (f a i) (f' a' i)) → R a a' → RelE R (l.foldlM f a) (l.foldlM f' a') := by
  intro l
  induction l with
  | nil => intro a a' _ h; exact h
  | cons i l ih =>
    intro a a' hf h
    simp only [List.foldlM_cons]
    have h1 := hf a a' i h
    cases h2 : f a i with
    | error e =>
      rw [h2] at h1
      rw [relE_error h1]
      exact rfl
    | ok b =>
      rw [h2] at h1
      obtain ⟨b', h3, h4⟩ := relE_ok h1
      rw [h3]
      exact ih b b' hf h4

theorem relE_runE {α O : Type} {R : α → α → Prop} {f f' : α → O → Except Fault α} {P : O → O → Prop}
    (hf : ∀ a a' o o', R a a' → P o o' → RelE R (f a o) (f' a' o')) (g : O → O) : ∀ (l : List O), (∀ o ∈ l, P o (g o)) →
    ∀ (a a' : α), R a a' → RelE R (runE f a l) (runE f' a' (l.map g)) := by
  intro l
  induction l with
  | nil => intro _ a a' h; exact h
  | cons o l ih =>
    intro hp a a' h
    simp only [List.map_cons, runE]
    have h1 := hf a a' o (g o) h (hp o (by simp))
    cases h2 : f a o with
    | error e =>
      rw [h2] at h1
      rw [relE_error h1]
      exact rfl
    | ok b =>
      rw [h2] at h1
      obtain ⟨b', h3, h4⟩ := relE_ok h1
      rw [h3]
      exact ih (fun o ho => hp o (by simp [ho])) b b' h4

theorem map_upd_fun {n : Nat} {α β : Type} (h : α → β) (f : Fin n → α) (i : Fin n) (a : α) :
    (fun j => h (upd f i a j)) = upd (fun j => h (f j)) i (h a) := by
  funext j
  unfold upd
  split <;> rfl

end MF

namespace MF.Approx

variable {n : Nat} {g : Ev → Ev} {c : Int}

/-- The state after the same calls with the messages replaced by `g` and all stamps moved by `c`. -/
structure Moved (g : Ev → Ev) (c : Int) (s s' : State n) : Prop where
  cfg : s'.cfg = s.cfg
  deques : s'.deques = fun i => (s.deques i).map g
  num : s'.num = s.num
  past : s'.past = fun i => (s.past i).map g
  cand : s'.cand = fun i => (s.cand i).map g
  pivot : s'.pivot = s.pivot
  times : s.pivot ≠ none → s'.candStart = s.candStart + c ∧ s'.candEnd = s.candEnd + c ∧ s'.pivotTime = s.pivotTime + c
  hasDropped : s'.hasDropped = s.hasDropped
  warned : s'.warned = s.warned
  out : s'.out = s.out.map (fun t i => (t i).map g)

theorem moved_check (hg : ∀ e, (g e).stamp = e.stamp + c) {s s' : State n} (h : Moved g c s s') (i : Fin n) :
    RelE (Moved g c) (checkInterMessageBound s i) (checkInterMessageBound s' i) := by
  have hd : s'.deques i = (s.deques i).map g := congrFun h.deques i
  have hp : s'.past i = (s.past i).map g := congrFun h.past i
  unfold checkInterMessageBound
  rw [h.warned]
  by_cases hw : s.warned i = true
  · rw [if_pos hw, if_pos hw]; exact h
  rw [if_neg hw, if_neg hw]
  rw [hd, hp, List.getLast?_map, List.length_map, List.getLast?_map, List.getElem?_map]
  cases hl : (s.deques i).getLast? with
  | none => exact rfl
  | some msg =>
    simp only [Option.map_some]
    have e : (if (s.deques i).length = 1 then Option.map g (s.past i).getLast?
        else Option.map g (s.deques i)[(s.deques i).length - 2]?) =
        Option.map g (if (s.deques i).length = 1 then (s.past i).getLast? else (s.deques i)[(s.deques i).length - 2]?) := by
      split <;> rfl
    rw [e]
    cases hpv : (if (s.deques i).length = 1 then (s.past i).getLast? else (s.deques i)[(s.deques i).length - 2]?) with
    | none => simp only [Option.map_none]; exact h
    | some prev =>
      simp only [Option.map_some, hg, h.cfg]
      have e1 : (msg.stamp + c < prev.stamp + c) = (msg.stamp < prev.stamp) := by simp
      have e2 : msg.stamp + c - (prev.stamp + c) = msg.stamp - prev.stamp := by omega
      simp only [e1, e2]
      have hm : Moved g c { s with warned := upd s.warned i true } { s' with warned := upd s'.warned i true } :=
        { h with warned := by simp only [h.warned] }
      rw [h.warned, h.cfg] at hm
      split
      · exact hm
      · split
        · exact hm
        · exact h

theorem moved_deleteFront {s s' : State n} (h : Moved g c s s') (i : Fin n) :
    RelE (Moved g c) (dequeDeleteFront s i) (dequeDeleteFront s' i) := by
  have hd : s'.deques i = (s.deques i).map g := congrFun h.deques i
  unfold dequeDeleteFront
  rw [hd]
  cases hl : s.deques i with
  | nil => exact rfl
  | cons e rest =>
    simp only [List.map_cons, List.isEmpty_map, h.num]
    exact { h with
      num := rfl
      deques := by simp only [h.deques, map_upd_fun (List.map g)] }

theorem moved_toPast {s s' : State n} (h : Moved g c s s') (i : Fin n) :
    RelE (Moved g c) (dequeMoveFrontToPast s i) (dequeMoveFrontToPast s' i) := by
  have hd : s'.deques i = (s.deques i).map g := congrFun h.deques i
  have hp : s'.past i = (s.past i).map g := congrFun h.past i
  unfold dequeMoveFrontToPast
  rw [hd]
  cases hl : s.deques i with
  | nil => exact rfl
  | cons e rest =>
    simp only [List.map_cons, List.isEmpty_map, h.num, hp]
    exact { h with
      num := rfl
      past := by simp only [h.past, map_upd_fun (List.map g), List.map_append, List.map_cons, List.map_nil]
      deques := by simp only [h.deques, map_upd_fun (List.map g)] }

theorem moved_makeCandidate {s s' : State n} (h : Moved g c s s') : RelE (Moved g c) (makeCandidate s) (makeCandidate s') := by
  unfold makeCandidate
  have e : (List.finRange n).all (fun i => !(s'.deques i).isEmpty) = (List.finRange n).all (fun i => !(s.deques i).isEmpty) := by
    rw [h.deques]; simp only [List.isEmpty_map]
  rw [e]
  split
  · exact { h with
      cand := by simp only [h.deques, List.head?_map]
      past := by simp }
  · exact rfl

theorem moveBack_map (g : Ev → Ev) : ∀ (k : Nat) (v q : List Ev),
    moveBack k (v.map g) (q.map g) = ((moveBack k v q).1.map g, (moveBack k v q).2.map g) := by
  intro k
  induction k with
  | zero => intro v q; rfl
  | succ k ih =>
    intro v q
    simp only [moveBack, List.getLast?_map]
    cases v.getLast? with
    | none => rfl
    | some e =>
      simp only [Option.map_some]
      rw [← List.map_dropLast, ← List.map_cons, ih]

theorem moved_count {s s' : State n} (h : Moved g c s s') (i : Fin n) : Moved g c (countNonEmpty s i) (countNonEmpty s' i) := by
  have hd : s'.deques i = (s.deques i).map g := congrFun h.deques i
  unfold countNonEmpty
  rw [hd, List.isEmpty_map]
  split
  · exact h
  · exact { h with num := by simp only [h.num] }

/-- Both queues of an input are replaced. -/
theorem moved_queues {s s' : State n} (h : Moved g c s s') (i : Fin n) (v q : List Ev) :
    Moved g c { s with past := upd s.past i v, deques := upd s.deques i q }
      { s' with past := upd s'.past i (v.map g), deques := upd s'.deques i (q.map g) } :=
  { h with
    past := by simp only [h.past, map_upd_fun (List.map g)]
    deques := by simp only [h.deques, map_upd_fun (List.map g)] }

theorem moved_recoverN (moves : Fin n → Nat) {s s' : State n} (h : Moved g c s s') (i : Fin n) :
    RelE (Moved g c) (recoverN moves s i) (recoverN moves s' i) := by
  have hd : s'.deques i = (s.deques i).map g := congrFun h.deques i
  have hp : s'.past i = (s.past i).map g := congrFun h.past i
  unfold recoverN
  rw [hp, hd, List.length_map, moveBack_map]
  split
  · exact moved_count (moved_queues h i _ _) i
  · exact rfl

theorem moved_recover {s s' : State n} (h : Moved g c s s') (i : Fin n) : Moved g c (recover s i) (recover s' i) := by
  have hd : s'.deques i = (s.deques i).map g := congrFun h.deques i
  have hp : s'.past i = (s.past i).map g := congrFun h.past i
  unfold recover
  rw [hp, hd, List.length_map, moveBack_map]
  exact moved_count (moved_queues h i _ _) i

theorem moved_recoverAll {s s' : State n} (h : Moved g c s s') : Moved g c (recoverAll s) (recoverAll s') := by
  unfold recoverAll
  generalize List.finRange n = l
  induction l generalizing s s' with
  | nil => exact h
  | cons i l ih => exact ih (moved_recover h i)

theorem moved_recoverAndDelete {s s' : State n} (h : Moved g c s s') (i : Fin n) :
    RelE (Moved g c) (recoverAndDelete s i) (recoverAndDelete s' i) := by
  have hd : s'.deques i = (s.deques i).map g := congrFun h.deques i
  have hp : s'.past i = (s.past i).map g := congrFun h.past i
  unfold recoverAndDelete
  rw [hp, hd, List.length_map, moveBack_map]
  dsimp only
  cases (moveBack (s.past i).length (s.past i) (s.deques i)).2 with
  | nil => exact rfl
  | cons e rest =>
    simp only [List.map_cons]
    exact moved_count (moved_queues h i _ _) i

theorem moved_publish {s s' : State n} (h : Moved g c s s') : RelE (Moved g c) (publishCandidate s) (publishCandidate s') := by
  unfold publishCandidate
  apply relE_foldlM
  · intro a a' i ha
    exact moved_recoverAndDelete ha i
  · exact { h with
      out := by simp only [h.out, h.cand, List.map_append, List.map_cons, List.map_nil]
      cand := by simp
      pivot := rfl
      num := rfl
      times := fun hne => absurd rfl hne }

theorem boundary_map (hg : ∀ e, (g e).stamp = e.stamp + c) (d : Fin n → List Ev) (isEnd : Bool) :
    getCandidateBoundary (fun i => (d i).map g) isEnd = (getCandidateBoundary d isEnd).map (fun r => (r.1, r.2 + c)) := by
  have key : ∀ (l : List (Fin n)) (acc : Option (Fin n × Int)),
      l.foldlM (checkBoundary (fun i => (d i).map g) isEnd) (acc.map (fun r => (r.1, r.2 + c))) =
        (l.foldlM (checkBoundary d isEnd) acc).map (fun a => a.map (fun r => (r.1, r.2 + c))) := by
    intro l
    induction l with
    | nil => intro acc; rfl
    | cons i l ih =>
      intro acc
      simp only [List.foldlM_cons]
      have hs : checkBoundary (fun i => (d i).map g) isEnd (acc.map (fun r => (r.1, r.2 + c))) i =
          (checkBoundary d isEnd acc i).map (fun a => a.map (fun r => (r.1, r.2 + c))) := by
        unfold checkBoundary
        dsimp only
        cases d i with
        | nil => rfl
        | cons e rest =>
          simp only [List.map_cons, hg]
          split
          · rfl
          · cases acc with
            | none => rfl
            | some a =>
              simp only [Option.map_some]
              have e1 : (e.stamp + c < a.2 + c) = (e.stamp < a.2) := by simp
              simp only [e1]
              split <;> rfl
      rw [hs]
      cases checkBoundary d isEnd acc i with
      | error f => rfl
      | ok a => exact ih a
  unfold getCandidateBoundary
  have := key (List.finRange n) none
  simp only [Option.map_none] at this
  rw [this]
  cases (List.finRange n).foldlM (checkBoundary d isEnd) none with
  | error f => rfl
  | ok a => cases a <;> rfl

theorem virtualTime_map (hg : ∀ e, (g e).stamp = e.stamp + c) {s s' : State n} (h : Moved g c s s') (i : Fin n) :
    getVirtualTime s' i = (getVirtualTime s i).map (· + c) := by
  have hd : s'.deques i = (s.deques i).map g := congrFun h.deques i
  have hp : s'.past i = (s.past i).map g := congrFun h.past i
  unfold getVirtualTime
  rw [h.pivot]
  by_cases hpv : s.pivot = none
  · rw [if_pos hpv, if_pos hpv]; rfl
  rw [if_neg hpv, if_neg hpv, hd, hp, h.cfg]
  obtain ⟨_, _, ht⟩ := h.times hpv
  cases s.deques i with
  | cons e rest => simp only [List.map_cons, hg]; rfl
  | nil =>
    simp only [List.map_nil, List.getLast?_map]
    cases (s.past i).getLast? with
    | none => rfl
    | some last =>
      simp only [Option.map_some, hg, ht]
      have e1 : last.stamp + c + s.cfg.lower i = last.stamp + s.cfg.lower i + c := by omega
      have e2 : (last.stamp + s.cfg.lower i + c > s.pivotTime + c) = (last.stamp + s.cfg.lower i > s.pivotTime) := by simp
      simp only [e1, e2]
      split <;> rfl

theorem virtualBoundary_map [NeZero n] (hg : ∀ e, (g e).stamp = e.stamp + c) {s s' : State n} (h : Moved g c s s')
    (isEnd : Bool) :
    getVirtualCandidateBoundary s' isEnd = (getVirtualCandidateBoundary s isEnd).map (fun r => (r.1, r.2 + c)) := by
  have hvt : ∀ (l : List (Fin n)) (t t' : Fin n → Int) (done : List (Fin n)), (∀ j ∈ done, t' j = t j + c) →
      (∃ f, l.foldlM (virtualTimesStep s) t = .error f ∧ l.foldlM (virtualTimesStep s') t' = .error f) ∨
      ∃ u u', l.foldlM (virtualTimesStep s) t = .ok u ∧ l.foldlM (virtualTimesStep s') t' = .ok u' ∧
        ∀ j, j ∈ done ∨ j ∈ l → u' j = u j + c := by
    intro l
    induction l with
    | nil =>
      intro t t' done hd
      exact .inr ⟨t, t', rfl, rfl, fun j hj => hd j (by simpa using hj)⟩
    | cons i l ih =>
      intro t t' done hd
      simp only [List.foldlM_cons]
      have h1 : virtualTimesStep s' t' i = (getVirtualTime s i).map (fun x => upd t' i (x + c)) := by
        unfold virtualTimesStep
        rw [virtualTime_map hg h]
        cases getVirtualTime s i <;> rfl
      have h2 : virtualTimesStep s t i = (getVirtualTime s i).map (fun x => upd t i x) := by
        unfold virtualTimesStep
        cases getVirtualTime s i <;> rfl
      rw [h1, h2]
      cases getVirtualTime s i with
      | error f => exact .inl ⟨f, rfl, rfl⟩
      | ok x =>
        rcases ih (upd t i x) (upd t' i (x + c)) (i :: done) (by
          intro j hj
          by_cases hji : j = i
          · subst hji; rw [upd_same, upd_same]
          · rw [upd_ne _ _ hji, upd_ne _ _ hji]
            exact hd j ((List.mem_cons.1 hj).resolve_left hji)) with ⟨f, a, b⟩ | ⟨u, u', a, b, hu⟩
        · exact .inl ⟨f, a, b⟩
        · refine .inr ⟨u, u', a, b, fun j hj => hu j ?_⟩
          rcases hj with hj | hj
          · exact .inl (by simp [hj])
          · rcases List.mem_cons.1 hj with rfl | hj
            · exact .inl (by simp)
            · exact .inr hj
  unfold getVirtualCandidateBoundary getVirtualTimes
  rcases hvt (List.finRange n) (fun _ => 0) (fun _ => 0) [] (by simp) with ⟨f, a, b⟩ | ⟨u, u', a, b, hu⟩
  · rw [a, b]; rfl
  rw [a, b]
  have hu : u' = fun j => u j + c := funext (fun j => hu j (.inr (List.mem_finRange j)))
  subst hu
  have key : ∀ (l : List (Fin n)) (acc : Fin n × Int),
      l.foldl (virtualBoundaryStep (fun j => u j + c) isEnd) (acc.1, acc.2 + c) =
        ((l.foldl (virtualBoundaryStep u isEnd) acc).1, (l.foldl (virtualBoundaryStep u isEnd) acc).2 + c) := by
    intro l
    induction l with
    | nil => intro acc; rfl
    | cons i l ih =>
      intro acc
      simp only [List.foldl_cons]
      have hs : virtualBoundaryStep (fun j => u j + c) isEnd (acc.1, acc.2 + c) i =
          ((virtualBoundaryStep u isEnd acc i).1, (virtualBoundaryStep u isEnd acc i).2 + c) := by
        unfold virtualBoundaryStep
        have e1 : (u i + c < acc.2 + c) = (u i < acc.2) := by simp
        simp only [e1]
        split <;> rfl
      rw [hs]
      exact ih _
  have := key (List.finRange n) (0, u 0)
  show Except.ok _ = Except.ok _
  rw [this]

theorem moved_search [NeZero n] (hg : ∀ e, (g e).stamp = e.stamp + c) : ∀ (fuel : Nat) (before : Int) (moves : Fin n → Nat)
    (s s' : State n), Moved g c s s' → RelE (Moved g c) (virtualSearch fuel before moves s) (virtualSearch fuel before moves s') := by
  intro fuel
  induction fuel with
  | zero => intro before moves s s' _; exact rfl
  | succ fuel ih =>
    intro before moves s s' h
    unfold virtualSearch
    rw [virtualBoundary_map hg h true, virtualBoundary_map hg h false]
    cases h1 : getVirtualCandidateBoundary s true with
    | error f => exact rfl
    | ok r1 =>
      cases h2 : getVirtualCandidateBoundary s false with
      | error f => exact rfl
      | ok r2 =>
        obtain ⟨i1, endTime⟩ := r1
        obtain ⟨startIndex, startTime⟩ := r2
        have hpv : s.pivot ≠ none := by
          intro hp
          unfold getVirtualCandidateBoundary getVirtualTimes at h1
          have : List.finRange n ≠ [] := by
            intro e
            have := List.mem_finRange (0 : Fin n)
            rw [e] at this
            cases this
          obtain ⟨a, l, hl⟩ := List.exists_cons_of_ne_nil this
          rw [hl, List.foldlM_cons] at h1
          have hv : virtualTimesStep s (fun _ => 0) a = .error .assertFailed := by
            simp only [virtualTimesStep, getVirtualTime, hp, if_true]
          rw [hv] at h1
          cases h1
        obtain ⟨t1, t2, t3⟩ := h.times hpv
        simp only [Except.map, h.cfg, t1, t2, t3, h.pivot]
        have e1 : endTime + c - (s.candEnd + c) = endTime - s.candEnd := by omega
        have e2 : s.pivotTime + c - (s.candStart + c) = s.pivotTime - s.candStart := by omega
        have e3 : startTime + c - (s.candStart + c) = startTime - s.candStart := by omega
        have e4 : (startTime + c < s.pivotTime + c) = (startTime < s.pivotTime) := by simp
        simp only [e1, e2, e3, e4]
        split
        · exact moved_publish h
        split
        · have hr : RelE (Moved g c) (recoverAllN moves { s with num := 0 }) (recoverAllN moves { s' with num := 0 }) := by
            unfold recoverAllN
            apply relE_foldlM
            · intro a a' i ha; exact moved_recoverN moves ha i
            · exact { h with num := rfl }
          simp only [h.cfg, t1, t2, t3, h.pivot] at hr
          cases h3 : recoverAllN moves { s with num := 0 } with
          | error f => rw [h3] at hr; rw [relE_error hr]; exact rfl
          | ok a =>
            rw [h3] at hr
            obtain ⟨a', h4, h5⟩ := relE_ok hr
            rw [h4]
            dsimp only
            rw [h5.num]
            split
            · exact h5
            · exact rfl
        split
        · exact rfl
        split
        · exact rfl
        have hm := moved_toPast h startIndex
        cases h3 : dequeMoveFrontToPast s startIndex with
        | error f => rw [h3] at hm; rw [relE_error hm]; exact rfl
        | ok a =>
          rw [h3] at hm
          obtain ⟨a', h4, h5⟩ := relE_ok hm
          rw [h4]
          exact ih _ _ a a' h5

/-- The relation for the results of `examine`. -/
def Moved2 (g : Ev → Ev) (c : Int) (a a' : Bool × State n) : Prop := a'.1 = a.1 ∧ Moved g c a.2 a'.2

theorem relE_tag {b : Bool} {x y : Except Fault (State n)} (h : RelE (Moved g c) x y) :
    RelE (Moved2 g c) (x.map (fun s => (b, s))) (y.map (fun s => (b, s))) := by
  cases x with
  | error f => rw [relE_error h]; exact rfl
  | ok a =>
    obtain ⟨a', h1, h2⟩ := relE_ok h
    rw [h1]
    exact ⟨rfl, h2⟩

theorem moved_examine {s s' : State n} (h : Moved g c s s') (endIndex : Fin n) (endTime : Int) (startIndex : Fin n)
    (startTime : Int) :
    RelE (Moved2 g c) (examine s endIndex endTime startIndex startTime)
      (examine s' endIndex (endTime + c) startIndex (startTime + c)) := by
  unfold examine
  rw [h.pivot]
  have hc := moved_makeCandidate h
  cases hp : s.pivot with
  | none =>
    dsimp only
    rw [h.cfg, h.hasDropped]
    have e1 : endTime + c - (startTime + c) = endTime - startTime := by omega
    rw [e1]
    split
    · exact relE_tag (moved_deleteFront h startIndex)
    split
    · exact relE_tag (moved_deleteFront h startIndex)
    cases h1 : makeCandidate s with
    | error f => rw [h1] at hc; rw [relE_error hc]; exact rfl
    | ok a =>
      rw [h1] at hc
      obtain ⟨a', h2, h3⟩ := relE_ok hc
      rw [h2]
      have hm : Moved g c { a with candStart := startTime, candEnd := endTime, pivotTime := endTime, pivot := some endIndex }
          { a' with candStart := startTime + c, candEnd := endTime + c, pivotTime := endTime + c, pivot := some endIndex } :=
        { h3 with pivot := rfl, times := fun _ => ⟨rfl, rfl, rfl⟩ }
      exact relE_tag (moved_toPast hm startIndex)
  | some p =>
    obtain ⟨t1, t2, t3⟩ := h.times (by rw [hp]; simp)
    dsimp only
    rw [h.cfg, t1, t2]
    have e1 : endTime + c - (s.candEnd + c) = endTime - s.candEnd := by omega
    have e3 : startTime + c - (s.candStart + c) = startTime - s.candStart := by omega
    rw [e1, e3]
    split
    · exact relE_tag (moved_toPast h startIndex)
    cases h1 : makeCandidate s with
    | error f => rw [h1] at hc; rw [relE_error hc]; exact rfl
    | ok a =>
      rw [h1] at hc
      obtain ⟨a', h2, h3⟩ := relE_ok hc
      rw [h2]
      have hm : Moved g c { a with candStart := startTime, candEnd := endTime }
          { a' with candStart := startTime + c, candEnd := endTime + c } :=
        { h3 with times := fun hne => ⟨rfl, rfl, (h3.times hne).2.2⟩ }
      exact relE_tag (moved_toPast hm startIndex)

theorem moved_conclude [NeZero n] (hg : ∀ e, (g e).stamp = e.stamp + c) (fuel : Nat) {s s' : State n} (h : Moved g c s s')
    (endTime : Int) (startIndex : Fin n) :
    RelE (Moved g c) (conclude fuel s endTime startIndex) (conclude fuel s' (endTime + c) startIndex) := by
  unfold conclude
  rw [h.pivot]
  by_cases hp : s.pivot = none
  · rw [if_pos hp, if_pos hp]; exact rfl
  rw [if_neg hp, if_neg hp]
  obtain ⟨t1, t2, t3⟩ := h.times hp
  rw [h.cfg, t1, t2, t3, h.num]
  have e1 : endTime + c - (s.candEnd + c) = endTime - s.candEnd := by omega
  have e2 : s.pivotTime + c - (s.candStart + c) = s.pivotTime - s.candStart := by omega
  rw [e1, e2]
  split
  · exact moved_publish h
  split
  · exact moved_publish h
  split
  · exact moved_search hg _ _ _ _ _ h
  · exact h

theorem moved_iteration [NeZero n] (hg : ∀ e, (g e).stamp = e.stamp + c) (fuel : Nat) {s s' : State n} (h : Moved g c s s') :
    RelE (Moved g c) (iteration fuel s) (iteration fuel s') := by
  have hb : ∀ b, getCandidateBoundary s'.deques b = (getCandidateBoundary s.deques b).map (fun r => (r.1, r.2 + c)) := by
    intro b
    rw [h.deques, boundary_map hg]
  unfold iteration
  rw [hb, hb]
  cases getCandidateBoundary s.deques true with
  | error f => exact rfl
  | ok r1 =>
    cases getCandidateBoundary s.deques false with
    | error f => exact rfl
    | ok r2 =>
      obtain ⟨endIndex, endTime⟩ := r1
      obtain ⟨startIndex, startTime⟩ := r2
      simp only [Except.map]
      have hm : Moved g c { s with hasDropped := fun i => if i ≠ endIndex then false else s.hasDropped i }
          { s' with hasDropped := fun i => if i ≠ endIndex then false else s'.hasDropped i } :=
        { h with hasDropped := by simp only [h.hasDropped] }
      have he := moved_examine hm endIndex endTime startIndex startTime
      cases h1 : examine { s with hasDropped := fun i => if i ≠ endIndex then false else s.hasDropped i }
        endIndex endTime startIndex startTime with
      | error f => rw [h1] at he; rw [relE_error he]; exact rfl
      | ok a =>
        rw [h1] at he
        obtain ⟨⟨b', a2'⟩, h2, h3, h4⟩ := relE_ok he
        obtain ⟨b, a2⟩ := a
        dsimp only at h3 h4
        subst h3
        rw [h2]
        cases b' with
        | false => exact h4
        | true => exact moved_conclude hg fuel h4 endTime startIndex

theorem moved_process [NeZero n] (hg : ∀ e, (g e).stamp = e.stamp + c) : ∀ (fuel : Nat) (s s' : State n), Moved g c s s' →
    RelE (Moved g c) (process fuel s) (process fuel s') := by
  intro fuel
  induction fuel with
  | zero =>
    intro s s' h
    unfold process
    rw [h.num]
    split
    · exact rfl
    · exact h
  | succ fuel ih =>
    intro s s' h
    unfold process
    rw [h.num]
    split
    · have hi := moved_iteration hg fuel h
      cases h1 : iteration fuel s with
      | error f => rw [h1] at hi; rw [relE_error hi]; exact rfl
      | ok a =>
        rw [h1] at hi
        obtain ⟨a', h2, h3⟩ := relE_ok hi
        rw [h2]
        exact ih a a' h3
    · exact h

theorem moved_addPush [NeZero n] (hg : ∀ e, (g e).stamp = e.stamp + c) (fuel : Nat) {s s' : State n} (h : Moved g c s s')
    (i : Fin n) (e : Ev) : RelE (Moved g c) (addPush fuel s i e) (addPush fuel s' i (g e)) := by
  have hd : s'.deques i = (s.deques i).map g := congrFun h.deques i
  have hm : Moved g c { s with deques := upd s.deques i (s.deques i ++ [e]) }
      { s' with deques := upd s'.deques i (s'.deques i ++ [g e]) } :=
    { h with deques := by rw [hd]; simp only [h.deques, map_upd_fun (List.map g), List.map_append, List.map_cons, List.map_nil] }
  have hl : (upd s'.deques i (s'.deques i ++ [g e]) i).length = (upd s.deques i (s.deques i ++ [e]) i).length := by
    simp only [upd_same, hd, List.length_append, List.length_map, List.length_cons, List.length_nil]
  have hm2 : Moved g c { s with deques := upd s.deques i (s.deques i ++ [e]), num := s.num + 1 }
      { s' with deques := upd s'.deques i (s'.deques i ++ [g e]), num := s'.num + 1 } := { hm with num := by simp only [h.num] }
  unfold addPush
  dsimp only
  by_cases h1 : (upd s.deques i (s.deques i ++ [e]) i).length = 1
  · rw [if_pos h1, if_pos (hl.trans h1)]
    by_cases h2 : s.num + 1 = (n : Int)
    · rw [if_pos h2, if_pos (by rw [h.num]; exact h2)]
      exact moved_process hg _ _ _ hm2
    · rw [if_neg h2, if_neg (by rw [h.num]; exact h2)]
      exact hm2
  · rw [if_neg h1, if_neg (by rw [hl]; exact h1)]
    exact moved_check hg hm i

theorem moved_addLimit [NeZero n] (hg : ∀ e, (g e).stamp = e.stamp + c) (fuel : Nat) {s s' : State n} (h : Moved g c s s')
    (i : Fin n) : RelE (Moved g c) (addLimit fuel s i) (addLimit fuel s' i) := by
  have hd : s'.deques i = (s.deques i).map g := congrFun h.deques i
  have hp : s'.past i = (s.past i).map g := congrFun h.past i
  have hr : Moved g c (recoverAll { s with num := 0 }) (recoverAll { s' with num := 0 }) :=
    moved_recoverAll { h with num := rfl }
  have hc : (s'.deques i).length + (s'.past i).length > s'.cfg.queueSize ↔
      (s.deques i).length + (s.past i).length > s.cfg.queueSize := by
    rw [hd, hp, h.cfg, List.length_map, List.length_map]
  unfold addLimit
  generalize recoverAll { s with num := 0 } = t at hr
  generalize recoverAll { s' with num := 0 } = t' at hr
  by_cases h1 : (s.deques i).length + (s.past i).length > s.cfg.queueSize
  · rw [if_pos h1, if_pos (hc.2 h1)]
    have hd : t'.deques i = (t.deques i).map g := congrFun hr.deques i
    dsimp only
    rw [hd]
    cases ht : t.deques i with
    | nil => exact rfl
    | cons x rest =>
      simp only [List.map_cons]
      have hm : Moved g c { t with deques := upd t.deques i rest, hasDropped := upd t.hasDropped i true }
          { t' with deques := upd t'.deques i (rest.map g), hasDropped := upd t'.hasDropped i true } :=
        { hr with
          deques := by simp only [hr.deques, map_upd_fun (List.map g)]
          hasDropped := by simp only [hr.hasDropped] }
      by_cases h2 : t.pivot = none
      · rw [if_pos h2, if_pos (by rw [hr.pivot]; exact h2)]
        exact hm
      · rw [if_neg h2, if_neg (by rw [hr.pivot]; exact h2)]
        apply moved_process hg
        exact { hm with pivot := rfl, cand := by simp, times := fun hne => absurd rfl hne }
  · rw [if_neg h1, if_neg (fun h2 => h1 (hc.1 h2))]
    exact h

theorem moved_add [NeZero n] (hg : ∀ e, (g e).stamp = e.stamp + c) (fuel : Nat) {s s' : State n} (h : Moved g c s s')
    (i : Fin n) (e : Ev) : RelE (Moved g c) (add fuel s i e) (add fuel s' i (g e)) := by
  unfold add
  have h1 := moved_addPush hg fuel h i e
  cases h2 : addPush fuel s i e with
  | error f => rw [h2] at h1; rw [relE_error h1]; exact rfl
  | ok a =>
    rw [h2] at h1
    obtain ⟨a', h3, h4⟩ := relE_ok h1
    rw [h3]
    exact moved_addLimit hg fuel h4 i

theorem moved_step [NeZero n] (hg : ∀ e, (g e).stamp = e.stamp + c) (fuel : Nat) {s s' : State n} (h : Moved g c s s')
    (op : Op n) : RelE (Moved g c) (step fuel s op) (step fuel s' (mapOp g op)) := by
  cases op with
  | add i e => exact moved_add hg fuel h i e
  | setAgePenalty nonneg scale =>
    simp only [step, mapOp]
    split
    · exact { h with cfg := by simp only [h.cfg] }
    · exact rfl
  | setInterMessageLowerBound i d =>
    simp only [step, mapOp]
    split
    · exact { h with cfg := by simp only [h.cfg] }
    · exact rfl
  | setMaxIntervalDuration d =>
    simp only [step, mapOp]
    split
    · exact { h with cfg := by simp only [h.cfg] }
    · exact rfl

theorem moved_run [NeZero n] (hg : ∀ e, (g e).stamp = e.stamp + c) (fuel : Nat) (cfg : Cfg n) (ops : List (Op n)) :
    RelE (Moved g c) (runOps fuel cfg ops) (runOps fuel cfg (ops.map (mapOp g))) := by
  unfold runOps
  cases h1 : construct n cfg with
  | error f => exact rfl
  | ok s =>
    dsimp only
    apply relE_runE (P := fun o o' => o' = mapOp g o)
    · intro a a' o o' h ho
      subst ho
      exact moved_step hg fuel h o
    · intro o _; rfl
    · unfold construct at h1
      split at h1
      · cases h1
        exact { cfg := rfl, deques := rfl, num := rfl, past := rfl, cand := rfl, pivot := rfl,
                times := fun hne => absurd rfl hne, hasDropped := rfl, warned := rfl, out := rfl }
      · cases h1

end MF.Approx
