import Verif.Proofs.LateStart
import Verif.Proofs.RoundsPy
/-
Helper lemmas for the Python synchronizers with an input that has not delivered anything yet.
-/
namespace MF.Py

variable {n : Nat}

theorem asDict_min {x : Ev} {l : List Ev} (h : StrictlyTimeSorted (x :: l)) : Dict.minKey (asDict (x :: l)) = some x.stamp := by
  cases hm : Dict.minKey (asDict (x :: l)) with
  | none => rw [minKey_none] at hm; simp [asDict] at hm
  | some k =>
    obtain ⟨h1, h2⟩ := minKey_some hm
    have h3 := h2 x.stamp (by simp [asDict, Dict.keys])
    have h4 : x.stamp ≤ k := by
      simp only [Dict.keys, asDict, List.map_map, List.mem_map, Function.comp] at h1
      obtain ⟨y, hy, rfl⟩ := h1
      rcases List.mem_cons.1 hy with rfl | hy
      · exact Int.le_refl _
      · have := (List.pairwise_cons.1 h).1 y hy; omega
    congr 1; omega

theorem asDict_del {x : Ev} {l : List Ev} (h : StrictlyTimeSorted (x :: l)) : Dict.del (asDict (x :: l)) x.stamp = asDict l := by
  unfold Dict.del asDict
  rw [List.map_cons, List.filter_cons, if_neg (by simp), List.filter_eq_self]
  intro p hp
  obtain ⟨y, hy, rfl⟩ := List.mem_map.1 hp
  have := (List.pairwise_cons.1 h).1 y hy
  simp; omega

theorem evict_sorted (q : Nat) (fuel : Nat) (l : List Ev) (h : StrictlyTimeSorted l) (hf : l.length < fuel) :
    evict (q : Int) fuel (asDict l) = .ok (some (asDict (lastN q l))) := by
  induction fuel generalizing l with
  | zero => omega
  | succ fuel ih =>
    unfold evict
    have hlen : (asDict l).length = l.length := by simp [asDict]
    rw [hlen]
    split
    · rename_i hc
      cases l with
      | nil => simp at hc; omega
      | cons x l =>
        rw [asDict_min h]
        dsimp only
        rw [asDict_del h, ih l (List.pairwise_cons.1 h).2 (by simp only [List.length_cons] at hf; omega)]
        unfold lastN
        simp only [List.length_cons] at hc ⊢
        rw [show l.length + 1 - q = (l.length - q) + 1 by omega]; rfl
    · rename_i hc
      unfold lastN
      rw [show l.length - q = 0 by omega]; rfl

theorem asDict_set {l : List Ev} {e : Ev} (h : StrictlyTimeSorted (l ++ [e])) : Dict.set (asDict l) e.stamp e = asDict (l ++ [e]) := by
  unfold Dict.set
  rw [if_neg]
  · simp [asDict]
  · intro hm
    simp only [Dict.keys, asDict, List.map_map, List.mem_map, Function.comp] at hm
    obtain ⟨y, hy, hye⟩ := hm
    have := (List.pairwise_append.1 h).2.2 y hy e (by simp)
    omega

theorem lastN_sorted {q : Nat} {l : List Ev} {e : Ev} (h : StrictlyTimeSorted (l ++ [e])) : StrictlyTimeSorted (lastN q l ++ [e]) :=
  List.Pairwise.sublist (List.Sublist.append_right (List.drop_sublist _ _) _) h

theorem lastN_again (q : Nat) (l : List Ev) (e : Ev) : lastN q (lastN q l ++ [e]) = lastN q (l ++ [e]) := by
  rw [lastN_snoc, lastN_lastN (Nat.le_refl q), ← lastN_snoc]

/-- Evicting from the queue that received a message. -/
theorem evict_late (q : Nat) {l : List Ev} {e : Ev} (h : StrictlyTimeSorted (l ++ [e])) :
    evict (q : Int) ((Dict.set (asDict (lastN q l)) e.stamp e).length + 1) (Dict.set (asDict (lastN q l)) e.stamp e) =
      .ok (some (asDict (lastN q (l ++ [e])))) := by
  rw [asDict_set (lastN_sorted h), evict_sorted q _ _ (lastN_sorted h) (by simp [asDict]), lastN_again]

theorem common_empty [NeZero n] {Q : Fin n → Dict Ev} {j : Fin n} (h : Q j = []) : common Q = [] := by
  rw [List.eq_nil_iff_forall_not_mem]
  intro k hk
  rw [mem_common] at hk
  have := hk j
  rw [h] at this
  cases this

theorem near_empty {slop st : Int} {ds : List (Dict Ev)} (h : [] ∈ ds) : nearStamps slop st ds = none := by
  induction ds with
  | nil => cases h
  | cons d ds ih =>
    unfold nearStamps
    dsimp only
    split
    · rfl
    · rename_i hne
      rcases List.mem_cons.1 h with h | h
      · subst h; simp [topicStamps, Dict.keys] at hne
      · rw [ih h]

theorem mem_others {Q : Fin n → Dict Ev} {i j : Fin n} (h : j ≠ i) :
    Q j ∈ (List.ofFn Q).take i ++ (List.ofFn Q).drop (i + 1) := by
  rw [List.mem_append]
  by_cases hlt : j.1 < i.1
  · left
    rw [List.mem_take_iff_getElem]
    exact ⟨j.1, by simp; omega, by simp⟩
  · right
    have : i.1 < j.1 := by
      have : j.1 ≠ i.1 := fun h0 => h (Fin.ext h0)
      omega
    rw [List.mem_drop_iff_getElem]
    exact ⟨j.1 - (i.1 + 1), by simp; omega, by simp; congr 1; apply Fin.ext; simp; omega⟩

/-- The state while an input is silent. -/
def waiting (q : Nat) (ops : List (Fin n × Ev)) : State n :=
  { construct n q with queues := fun i => asDict (lastN q (stream ops i)) }

theorem waiting_snoc (q : Nat) (ops : List (Fin n × Ev)) (i : Fin n) (e : Ev) :
    ({ waiting q ops with queues := upd (waiting q ops).queues i (asDict (lastN q (stream ops i ++ [e]))) } : State n) =
      waiting q (ops ++ [(i, e)]) := by
  have : upd (waiting q ops).queues i (asDict (lastN q (stream ops i ++ [e]))) = (waiting q (ops ++ [(i, e)])).queues := by
    funext k
    by_cases hk : k = i
    · subst hk; rw [upd_same]; show _ = asDict (lastN q (stream _ _)); rw [stream_snoc_same]
    · rw [upd_ne _ _ hk]; show asDict (lastN q (stream ops k)) = asDict (lastN q (stream _ k)); rw [stream_snoc_ne _ _ (Ne.symm hk)]
  rw [this]; rfl

theorem waiting_silent (q : Nat) {j : Fin n} {ops : List (Fin n × Ev)} (h : Silent j ops) : (waiting q ops).queues j = [] := by
  show asDict (lastN q (stream ops j)) = []
  rw [h.stream]; simp [lastN, asDict]

theorem late_induct {R : List (Fin n × Msg) → Except Fault (State n)} (q : Nat) {j : Fin n}
    (h0 : R [] = .ok (construct n q))
    (hs : ∀ ops i e, Silent j (ops ++ [(i, e)]) → StrictlyTimeSorted (stream ops i ++ [e]) → R (withHeaders ops) = .ok (waiting q ops) →
      R (withHeaders ops ++ [(i, ⟨e, true⟩)]) = .ok (waiting q (ops ++ [(i, e)])))
    (ops : List (Fin n × Ev)) (h : Silent j ops) (hst : ∀ i, StrictlyTimeSorted (stream ops i)) :
    R (withHeaders ops) = .ok (waiting q ops) := by
  induction ops using snoc_induction with
  | h0 =>
    rw [show withHeaders ([] : List (Fin n × Ev)) = [] from rfl, h0]
    have : (fun i : Fin n => asDict (lastN q (stream ([] : List (Fin n × Ev)) i))) = fun _ => [] := by
      funext i; simp [stream, lastN, asDict]
    unfold waiting
    rw [this]; rfl
  | hs ops op ih =>
    obtain ⟨i, e⟩ := op
    have h1 : ∀ k, StrictlyTimeSorted (stream ops k) := by
      intro k
      have := hst k
      by_cases hk : k = i
      · subst hk; rw [stream_snoc_same] at this; exact (List.pairwise_append.1 this).1
      · rwa [stream_snoc_ne _ _ (Ne.symm hk)] at this
    have h2 := hst i
    rw [stream_snoc_same] at h2
    have := hs ops i e h h2 (ih h.left h1)
    rw [show withHeaders (ops ++ [(i, e)]) = withHeaders ops ++ [(i, ⟨e, true⟩)] by simp [withHeaders]]
    exact this

theorem ts_late [NeZero n] (boom : Nat → Bool) (q : Nat) {j : Fin n} (ops : List (Fin n × Ev)) (h : Silent j ops)
    (hst : ∀ i, StrictlyTimeSorted (stream ops i)) :
    tsRun boom (construct n q) (withHeaders ops) = .ok (waiting q ops) := by
  refine late_induct (R := tsRun boom (construct n q)) q rfl (fun ops i e hsil hse hr => ?_) ops h hst
  rw [tsRun, runE_append_ok _ _ _ _ _ hr]
  have hadd : tsAdd boom (waiting q ops) i ⟨e, true⟩ = .ok (waiting q (ops ++ [(i, e)]), false) := by
    unfold tsAdd
    rw [if_neg (by simp [waiting, construct])]
    dsimp only
    rw [if_neg (by simp)]
    have hev := evict_late q hse
    change (match evict (q : Int) ((Dict.set (asDict (lastN q (stream ops i))) e.stamp e).length + 1)
      (Dict.set (asDict (lastN q (stream ops i))) e.stamp e) with
      | .error f => .error f
      | .ok none => _
      | .ok (some d') => _ : Except Fault (State n × Bool)) = _
    rw [hev]
    dsimp only
    have e1 : upd (waiting q ops).queues i (asDict (lastN q (stream ops i ++ [e]))) = (waiting q (ops ++ [(i, e)])).queues := by
      rw [← waiting_snoc]
    rw [waiting_snoc, e1, common_empty (waiting_silent q hsil)]
    rfl
  simp only [runE, hadd, Except.map]

theorem approx_late [NeZero n] (boom : Nat → Bool) (slop : Int) (allow : Bool) (q : Nat) {j : Fin n} (ops : List (Fin n × Ev))
    (h : Silent j ops) (hst : ∀ i, StrictlyTimeSorted (stream ops i)) :
    approxRun boom slop allow (construct n q) (withHeaders ops) = .ok (waiting q ops) := by
  refine late_induct (R := approxRun boom slop allow (construct n q)) q rfl (fun ops i e hsil hse hr => ?_) ops h hst
  rw [approxRun, runE_append_ok _ _ _ _ _ hr]
  have hadd : approxAdd boom slop allow (waiting q ops) i ⟨e, true⟩ = .ok (waiting q (ops ++ [(i, e)]), false) := by
    unfold approxAdd
    rw [if_neg (by simp), if_neg (by simp [waiting, construct])]
    dsimp only
    have hev := evict_late q hse
    change (match evict (q : Int) ((Dict.set (asDict (lastN q (stream ops i))) e.stamp e).length + 1)
      (Dict.set (asDict (lastN q (stream ops i))) e.stamp e) with
      | .error f => .error f
      | .ok none => _
      | .ok (some d') => _ : Except Fault (State n × Bool)) = _
    rw [hev]
    dsimp only
    rw [waiting_snoc]
    have hnear : nearStamps slop e.stamp ((List.ofFn (waiting q (ops ++ [(i, e)])).queues).take i ++
        (List.ofFn (waiting q (ops ++ [(i, e)])).queues).drop (i + 1)) = none := by
      apply near_empty
      have := mem_others (Q := (waiting q (ops ++ [(i, e)])).queues) (Ne.symm hsil.last)
      rwa [waiting_silent q hsil] at this
    have e1 : upd (waiting q ops).queues i (asDict (lastN q (stream ops i ++ [e]))) = (waiting q (ops ++ [(i, e)])).queues := by
      rw [← waiting_snoc]
    rw [e1, hnear]
  simp only [runE, hadd, Except.map]

end MF.Py
