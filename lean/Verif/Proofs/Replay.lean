import Verif.Spec.Replay
import Verif.Proofs.FanOut
import Verif.Spec.Rounds
/-
Helper lemmas about giving the sets output by one synchronizer to another one.
-/
namespace MF

variable {n : Nat}

/-- Induction over the deliveries: `P` holds when a set is complete, `Q` while it is not. -/
theorem Replay.induct [NeZero n] {S : Type} {run : List (Fin n × Ev) → S → Prop} {P : List (Fin n → Ev) → S → Prop}
    {Q : List (Fin n → Ev) → (Fin n → Ev) → List (Fin n) → S → Prop} (G : (Fin n → Ev) → Prop) (h0 : ∀ s, run [] s → P [] s)
    (hstart : ∀ sets t s, P sets s → Q sets t [] s)
    (hstep : ∀ ops sets t l i s', G t → i ∉ l → run (ops ++ [(i, t i)]) s' → (∀ s, run ops s → Q sets t l s) →
      if ∀ j, j ∈ l ++ [i] then P (sets ++ [t]) s' else Q sets t (l ++ [i]) s')
    {sets : List (Fin n → Ev)} {ops : List (Fin n × Ev)} (h : Replay sets ops) (hG : ∀ t ∈ sets, G t) : ∀ s, run ops s → P sets s := by
  induction h with
  | nil => exact h0
  | @next sets ops _ t order once all ih =>
    have ih := ih (fun u hu => hG u (by simp [hu]))
    have ht : G t := hG t (by simp)
    have key : ∀ l : List (Fin n), l.Nodup → ∀ s, run (ops ++ l.map (fun i => (i, t i))) s →
        if ∀ j, j ∈ l then P (sets ++ [t]) s else Q sets t l s := by
      intro l
      induction l using snoc_induction with
      | h0 =>
        intro _ s hs
        rw [if_neg (fun h => by cases h ⟨0, Nat.pos_of_ne_zero (NeZero.ne n)⟩)]
        exact hstart _ _ _ (ih s (by simpa using hs))
      | hs l i ihl =>
        intro hnd s hs
        rw [List.nodup_append] at hnd
        have hi : i ∉ l := fun h => hnd.2.2 i h i (by simp) rfl
        rw [List.map_append, ← List.append_assoc] at hs
        refine hstep _ sets t l i s ht hi hs (fun s1 h1 => ?_)
        have := ihl hnd.1 s1 h1
        rwa [if_neg (fun h => hi (h i))] at this
    intro s hs
    have := key order once s hs
    rwa [if_pos all] at this

theorem Replay.mem {sets : List (Fin n → Ev)} {ops : List (Fin n × Ev)} (h : Replay sets ops) :
    ∀ o ∈ ops, ∃ t ∈ sets, o.2 = t o.1 := by
  induction h with
  | nil => intro o ho; cases ho
  | next _ t order _ _ ih =>
    intro o ho
    rcases List.mem_append.1 ho with ho | ho
    · obtain ⟨u, hu, h1⟩ := ih o ho
      exact ⟨u, by simp [hu], h1⟩
    · obtain ⟨i, _, rfl⟩ := List.mem_map.1 ho
      exact ⟨t, by simp, rfl⟩

/-- What waits on the inputs while only those in `l` have received their message of the set `t`. -/
def partly (l : List (Fin n)) (t : Fin n → Ev) : Fin n → List Ev := fun j => if j ∈ l then [t j] else []

theorem partly_nil (t : Fin n → Ev) : partly [] t = fun _ => [] := by funext j; simp [partly]

theorem partly_push {l : List (Fin n)} {i : Fin n} (hi : i ∉ l) (t : Fin n → Ev) :
    upd (partly l t) i (partly l t i ++ [t i]) = partly (l ++ [i]) t := by
  funext j
  by_cases hj : j = i
  · subst hj; rw [upd_same]; simp [partly, hi]
  · rw [upd_ne _ _ hj]; simp [partly, hj]

theorem partly_all {l : List (Fin n)} (h : ∀ j, j ∈ l) (t : Fin n → Ev) : partly l t = fun j => [t j] := by
  funext j; simp [partly, h j]

theorem partly_ne {l : List (Fin n)} {t : Fin n → Ev} : (∀ j, partly l t j ≠ []) ↔ ∀ j, j ∈ l := by
  constructor
  · intro h j
    apply Classical.byContradiction
    intro hj
    exact h j (by simp [partly, hj])
  · intro h j; rw [partly_all h]; simp

theorem stream_order (t : Fin n → Ev) (i : Fin n) : ∀ (order : List (Fin n)), order.Nodup →
    stream (order.map (fun j => (j, t j))) i = if i ∈ order then [t i] else [] := by
  intro order
  induction order with
  | nil => intro _; rfl
  | cons j order ih =>
    intro h
    rw [List.nodup_cons] at h
    have := ih h.2
    unfold stream at this ⊢
    by_cases hj : j = i
    · subst hj
      rw [if_neg h.1] at this
      simp [this]
    · have hij : i ≠ j := fun h => hj h.symm
      simp [hj, this, hij]

theorem Replay.stream {sets : List (Fin n → Ev)} {ops : List (Fin n × Ev)} (h : Replay sets ops) (i : Fin n) :
    MF.stream ops i = sets.map (· i) := by
  induction h with
  | nil => rfl
  | next _ t order once all ih =>
    rw [stream_append, ih, stream_order t i order once, if_pos (all i)]
    simp

theorem prefix_append_cases {α : Type} {p a b : List α} (h : p <+: a ++ b) : p <+: a ∨ ∃ c, c <+: b ∧ p = a ++ c := by
  rcases List.prefix_or_prefix_of_prefix h (List.prefix_append a b) with h1 | ⟨c, rfl⟩
  · exact .inl h1
  · exact .inr ⟨c, (List.prefix_append_right_inj a).1 h, rfl⟩

theorem Replay.lag {sets : List (Fin n → Ev)} {ops : List (Fin n × Ev)} (h : Replay sets ops) : LagAtMost 1 ops := by
  induction h with
  | nil =>
    intro pre hp i j
    rw [List.prefix_nil.1 hp]
    exact Nat.le_succ _
  | @next sets ops h t order once all ih =>
    intro pre hp i j
    rcases prefix_append_cases hp with hp | ⟨c, ⟨d, hc⟩, rfl⟩
    · exact ih pre hp i j
    · have hce : c = (order.take c.length).map (fun i => (i, t i)) := by
        rw [List.map_take, ← hc, List.take_left]
      have hnd : (order.take c.length).Nodup := once.sublist (List.take_sublist _ _)
      rw [stream_append, stream_append, hce, stream_order t i _ hnd, stream_order t j _ hnd, h.stream, h.stream]
      simp only [List.length_append, List.length_map]
      split <;> split <;> simp <;> omega

/-- The sets, followed by others that are far away. -/
def Replay.extend (sets : List (Fin n → Ev)) (B w : Int) : Nat → Fin n → Ev :=
  fun k i => if h : k < sets.length then sets[k] i else ⟨0, B + (w + 1) * (k + 1)⟩

theorem Replay.extend_lt {sets : List (Fin n → Ev)} (B w : Int) {k : Nat} (h : k < sets.length) :
    Replay.extend sets B w k = sets[k] := by
  funext i
  unfold Replay.extend
  rw [dif_pos h]

theorem Replay.bound : ∀ (sets : List (Fin n → Ev)), ∃ B : Int, ∀ t ∈ sets, ∀ i, (t i).stamp ≤ B := by
  have one : ∀ (t : Fin n → Ev) (l : List (Fin n)), ∃ B : Int, ∀ i ∈ l, (t i).stamp ≤ B := by
    intro t l
    induction l with
    | nil => exact ⟨0, by simp⟩
    | cons a l ih =>
      obtain ⟨B, hB⟩ := ih
      refine ⟨max B (t a).stamp, ?_⟩
      intro i hi
      rcases List.mem_cons.1 hi with rfl | hi
      · omega
      · have := hB i hi; omega
  intro sets
  induction sets with
  | nil => exact ⟨0, by simp⟩
  | cons t sets ih =>
    obtain ⟨B, hB⟩ := ih
    obtain ⟨C, hC⟩ := one t (List.finRange n)
    refine ⟨max B C, ?_⟩
    intro u hu i
    rcases List.mem_cons.1 hu with rfl | hu
    · have := hC i (List.mem_finRange i); omega
    · have := hB u hu i; omega

theorem Replay.extend_tight {sets : List (Fin n → Ev)} {B w : Int} (hw : 0 ≤ w)
    (h : ∀ t ∈ sets, ∀ i j, (t i).stamp - (t j).stamp ≤ w) : Tight (Replay.extend sets B w) w := by
  intro k i j
  unfold Replay.extend
  split
  · exact h _ (List.getElem_mem _) j i
  · omega

theorem Replay.extend_separate {sets : List (Fin n → Ev)} {B w : Int} (hw : 0 ≤ w)
    (h : sets.Pairwise (fun t u => ∀ i j, (t i).stamp < (u j).stamp ∧ w ≤ (u j).stamp - (t i).stamp))
    (hB : ∀ t ∈ sets, ∀ i, (t i).stamp ≤ B) : Separate (Replay.extend sets B w) w := by
  intro k i j
  unfold Replay.extend
  by_cases h1 : k + 1 < sets.length
  · rw [dif_pos h1, dif_pos (by omega)]
    exact List.pairwise_iff_getElem.1 h k (k + 1) (by omega) h1 (by omega) i j
  · rw [dif_neg h1]
    have hm : (w + 1) * ((((k + 1 : Nat) : Int)) + 1) = (w + 1) * ((k : Int) + 1) + (w + 1) := by
      rw [show (((k + 1 : Nat) : Int)) + 1 = ((k : Int) + 1) + 1 by omega, Int.mul_add (w + 1) ((k : Int) + 1) 1]
      omega
    have hp : 0 ≤ (w + 1) * ((k : Int) + 1) := Int.mul_nonneg (by omega) (by omega)
    dsimp only
    rw [hm]
    split
    · have := hB _ (List.getElem_mem (by assumption)) i
      omega
    · dsimp only
      omega

theorem Replay.delivers {sets : List (Fin n → Ev)} {ops : List (Fin n × Ev)} (h : Replay sets ops) (B w : Int) :
    Delivers (Replay.extend sets B w) ops := by
  intro i
  rw [h.stream]
  apply List.ext_getElem
  · simp
  · intro k h1 h2
    simp only [List.length_map] at h1
    rw [List.getElem_map, List.getElem_map, List.getElem_range, Replay.extend_lt B w h1]

theorem Replay.roundSets_extend {sets : List (Fin n → Ev)} (B w : Int) {k : Nat} (hk : k ≤ sets.length) :
    roundSets (Replay.extend sets B w) k = (sets.take k).map full := by
  apply List.ext_getElem
  · simp [roundSets]; omega
  · intro m h1 h2
    simp only [List.length_map, List.length_take] at h2
    have : m < sets.length := by omega
    simp only [roundSets, List.getElem_map, List.getElem_range, List.getElem_take, Replay.extend_lt B w this]
    rfl

end MF

namespace MF.ExactTime

variable {n : Nat}

/-- What is stored while the inputs in `l` have received their message. -/
def Partly (sets : List (Fin n → Ev)) (t : Fin n → Ev) (l : List (Fin n)) (s : State n) : Prop :=
  s.log = sets.map (fun t => .out (full t)) ∧
    ∀ T : Int, (∀ i, (t i).stamp = T) → s.tuples = if l = [] then [] else [(T, fun j => if j ∈ l then some (t j) else none)]

theorem run_replay [NeZero n] {q : Nat} {sets : List (Fin n → Ev)} {ops : List (Fin n × Ev)} (h : Replay sets ops)
    (hG : ∀ t ∈ sets, ∃ T : Int, ∀ i, (t i).stamp = T) : ∀ s,
    run (construct n q) ops = .ok s → s.log = sets.map (fun t => .out (full t)) ∧ s.tuples = [] := by
  refine Replay.induct (run := fun ops s => run (construct n q) ops = .ok s)
    (P := fun sets s => s.log = sets.map (fun t => .out (full t)) ∧ s.tuples = []) (Q := Partly)
    (fun t => ∃ T : Int, ∀ i, (t i).stamp = T) ?_ ?_ ?_ h hG
  · intro s hs
    simp only [run, runE, Except.ok.injEq] at hs
    subst hs
    exact ⟨rfl, rfl⟩
  · intro sets t s hs
    exact ⟨hs.1, fun T _ => by rw [if_pos rfl]; exact hs.2⟩
  · intro ops sets t l i s' hG hi hs' hQ
    obtain ⟨T, hT⟩ := hG
    obtain ⟨s, hs, hadd⟩ := runE_snoc_ok hs'
    obtain ⟨hlog, htup⟩ := hQ s hs
    have htup := htup T hT
    have ht : tupleAt T s.tuples = fun j => if j ∈ l then some (t j) else none := by
      rw [htup]
      split
      · rename_i h0; subst h0; funext j; simp [tupleAt, emptyTuple]
      · simp [tupleAt]
    have hti : tupleAt T s.tuples i = none := by rw [ht]; simp [hi]
    have hu : upd (tupleAt T s.tuples) i (some (t i)) = fun j => if j ∈ l ++ [i] then some (t j) else none := by
      rw [ht]
      funext j
      by_cases hj : j = i
      · subst hj; rw [upd_same]; simp
      · rw [upd_ne _ _ hj]; simp [hj]
    have hst : store T (fun j => if j ∈ l ++ [i] then some (t j) else none) s.tuples =
        [(T, fun j => if j ∈ l ++ [i] then some (t j) else none)] := by
      rw [htup]
      split
      · rfl
      · simp [store]
    dsimp only at hadd
    unfold add at hadd
    simp only [hT, hu, hst, hti, Option.toList_none, List.map_nil, List.append_nil] at hadd
    unfold checkTuple at hadd
    by_cases hall : ∀ j, j ∈ l ++ [i]
    · rw [if_pos hall]
      have hfull : (fun j => if j ∈ l ++ [i] then some (t j) else none) = full t := by
        funext j; rw [if_pos (hall j)]; rfl
      rw [hfull] at hadd
      rw [if_pos ((isFull_some _).2 (fun j => rfl))] at hadd
      have h0 : full t 0 = some (t 0) := rfl
      rw [h0] at hadd
      simp only [hT] at hadd
      have hnil : List.filter (fun p : Int × Tuple n => decide (p.1 ≠ T)) [(T, full t)] = [] := by simp
      rw [hnil] at hadd
      simp only [clearOldTuples, dropExceeding, dropRange, List.takeWhile_nil, List.dropWhile_nil, List.map_nil, List.append_nil,
        List.length_nil] at hadd
      rw [if_neg (by omega)] at hadd
      cases hadd
      refine ⟨?_, rfl⟩
      show s.log ++ [.out (full t)] = _
      rw [hlog]; simp
    · rw [if_neg hall]
      rw [if_neg] at hadd
      · unfold dropExceeding at hadd
        dsimp only [List.length_singleton] at hadd
        rw [if_neg (by omega)] at hadd
        cases hadd
        refine ⟨hlog, fun T' hT' => ?_⟩
        have : T' = T := by rw [← hT' i, hT i]
        subst this
        rw [if_neg (by simp)]
      · intro hf
        apply hall
        intro j
        have := (isFull_some _).1 hf j
        apply Classical.byContradiction
        intro hj
        rw [if_neg hj] at this
        cases this

end MF.ExactTime

namespace MF.Epsilon

variable {n : Nat}

/-- An iteration outputs the first messages if they are within epsilon. -/
theorem fire_replayed {eps : Int} (heps : 0 ≤ eps) {t : Fin n → Ev} (ht : ∀ i j, (t i).stamp - (t j).stamp ≤ eps)
    (h64 : ∀ i, (t i).stamp ≤ maxTime) : fire eps (fun j => [t j]) = ([full t], fun _ => []) := by
  unfold fire
  rw [if_pos]
  · rfl
  unfold checkAll
  rw [List.all_eq_true]
  intro i _
  unfold withinEpsilon
  split
  · rfl
  · simp only [decide_eq_true_eq]
    rcases (getOlder_spec (fun j => [t j])).2.2 with h | ⟨j, x, tl', hvj, h⟩
    · rw [h]; have := h64 i; dsimp only; omega
    · rw [h]
      cases hvj
      have := ht i j
      dsimp only
      omega

theorem run_replay [NeZero n] {fuel q : Nat} {eps : Int} (heps : 0 ≤ eps) (hq : 1 ≤ q) {sets : List (Fin n → Ev)}
    {ops : List (Fin n × Ev)} (h : Replay sets ops)
    (hG : ∀ t ∈ sets, (∀ i j, (t i).stamp - (t j).stamp ≤ eps) ∧ ∀ i, (t i).stamp ≤ maxTime) :
    ∀ s, run fuel (construct n q eps) ops = .ok s → s.out = sets.map full ∧ s.events = fun _ => [] := by
  refine Replay.induct (n := n) (run := fun ops s => run fuel (construct n q eps) ops = .ok s)
    (P := fun sets s => s.out = sets.map full ∧ s.events = fun _ => [])
    (Q := fun sets t l s => s.out = sets.map full ∧ s.events = partly l t)
    (fun t => (∀ i j, (t i).stamp - (t j).stamp ≤ eps) ∧ ∀ i, (t i).stamp ≤ maxTime) ?_ ?_ ?_ h hG
  · intro s hs
    simp only [run, runE, Except.ok.injEq] at hs
    subst hs
    exact ⟨rfl, rfl⟩
  · intro sets t s hs
    rw [partly_nil]; exact hs
  · intro ops sets t l i s' hG hi hs' hQ
    obtain ⟨s, hs, hadd⟩ := runE_snoc_ok hs'
    obtain ⟨hout, hev⟩ := hQ s hs
    obtain ⟨hinv, he, hqs⟩ := run_inv hs
    obtain ⟨hinv', _, _, hcase⟩ := add_ok hinv hadd
    dsimp only at hcase
    have hpush := partly_push hi t
    rw [← hev] at hpush
    cases hcase with
    | processed o hall hsteps ho =>
      rw [hpush] at hall hsteps
      have hall' := partly_ne.1 hall
      rw [if_pos hall']
      rw [he] at hsteps
      obtain ⟨o', ho', hrest⟩ := steps_head hsteps hall hinv'.someEmpty
      rw [partly_all hall', fire_replayed heps hG.1 hG.2] at hrest ho'
      dsimp only at hrest ho'
      obtain ⟨h1, h2⟩ := steps_nil hrest ⟨i, rfl⟩
      rw [ho', h1] at ho
      refine ⟨?_, h2⟩
      rw [ho, hout]
      simp
    | queued hnot _ hev' ho =>
      rw [hpush] at hev' hnot
      rw [if_neg]
      · exact ⟨by rw [ho, hout], hev'⟩
      · intro hall
        obtain ⟨j, hj⟩ := hnot
        rw [partly_all hall] at hj; cases hj
    | overflow _ hlen _ _ =>
      exfalso
      rw [hqs, hev] at hlen
      simp [partly, hi] at hlen
      omega

end MF.Epsilon

namespace MF.Py

variable {n : Nat}

theorem asDict_partly {l : List (Fin n)} {i : Fin n} (hi : i ∉ l) {t : Fin n → Ev} {q : Int} (hq : 1 ≤ q) {Q : Fin n → Dict Ev}
    (hQ : Q = fun j => asDict (partly l t j)) {d' : Dict Ev} (hE : Evicted q ((Q i).set (t i).stamp (t i)) d') :
    upd Q i d' = fun j => asDict (partly (l ++ [i]) t j) := by
  have h1 : (Q i).set (t i).stamp (t i) = [((t i).stamp, t i)] := by
    rw [hQ]; simp [partly, hi, asDict, Dict.set, Dict.keys]
  have h2 : d' = [((t i).stamp, t i)] := by
    rw [← h1]
    exact hE.eq_of_fits (by rw [h1]; simp; omega)
  funext j
  by_cases hj : j = i
  · subst hj; rw [upd_same, h2]; simp [partly, asDict]
  · rw [upd_ne _ _ hj, hQ]; simp [partly, hj]

theorem keys_partly {l : List (Fin n)} {t : Fin n → Ev} {k : Int} {j : Fin n} :
    k ∈ Dict.keys (asDict (partly l t j)) ↔ j ∈ l ∧ k = (t j).stamp := by
  by_cases hj : j ∈ l <;> simp [partly, hj, asDict, Dict.keys]

theorem get_partly {l : List (Fin n)} {t : Fin n → Ev} {x : Ev} {j : Fin n}
    (h : Dict.get (asDict (partly l t j)) (t j).stamp = some x) : x = t j := by
  by_cases hj : j ∈ l
  · simp [partly, hj, asDict, Dict.get] at h; exact h.symm
  · simp [partly, hj, asDict, Dict.get] at h

theorem del_partly (l : List (Fin n)) (t : Fin n → Ev) (j : Fin n) : Dict.del (asDict (partly l t j)) (t j).stamp = [] := by
  by_cases hj : j ∈ l <;> simp [partly, hj, asDict, Dict.del]

theorem ts_replay [NeZero n] {q : Int} (hq : 1 ≤ q) {sets : List (Fin n → Ev)} {ops : List (Fin n × Ev)} (h : Replay sets ops)
    (hG : ∀ t ∈ sets, ∀ i j, (t i).stamp = (t j).stamp) : ∀ s,
    tsRun noRaise (construct n q) (withHeaders ops) = .ok s → s.out = sets ∧ s.queues = fun _ => [] := by
  refine Replay.induct (run := fun ops s => tsRun noRaise (construct n q) (withHeaders ops) = .ok s)
    (P := fun sets s => s.out = sets ∧ s.queues = fun _ => [])
    (Q := fun sets t l s => s.out = sets ∧ s.queues = fun j => asDict (partly l t j))
    (fun t => ∀ i j, (t i).stamp = (t j).stamp) ?_ ?_ ?_ h hG
  · intro s hs
    cases hs
    exact ⟨rfl, rfl⟩
  · intro sets t s hs
    rw [partly_nil]; exact hs
  · intro ops sets t l i s' hG hi hs' hQ
    rw [withHeaders_append] at hs'
    obtain ⟨s, hs, hadd⟩ := runE_snoc_ok hs'
    obtain ⟨hout, hqs⟩ := hQ s hs
    obtain ⟨_, hinv, hsize⟩ := tsRun_induction (P := fun _ _ => True) trivial (fun _ _ _ _ _ _ _ _ _ _ _ => trivial) _ s hs
    cases ha : tsAdd noRaise s i ⟨t i, true⟩ with
    | error f => simp only [ha] at hadd; cases hadd
    | ok r =>
      obtain ⟨s2, b⟩ := r
      simp only [ha] at hadd
      cases hadd
      obtain ⟨_, ⟨h1, _, _⟩ | ⟨_, hqn, _, _⟩ | ⟨_, hq0, d', hE, ⟨hn, rfl, rfl⟩ | ⟨ms, hget, ⟨hb, _, _⟩ | ⟨_, rfl, rfl⟩⟩⟩⟩ :=
        tsAdd_cases noRaise s hinv i ⟨t i, true⟩ s2 b ha
      · cases h1
      · omega
      · rw [hsize] at hE
        have hu := asDict_partly hi hq hqs hE
        dsimp only at hn
        rw [hu] at hn
        rw [if_neg]
        · exact ⟨hout, hu⟩
        · intro hall; exact hn (fun j => keys_partly.2 ⟨hall j, hG i j⟩)
      · cases hb
      · rw [hsize] at hE
        have hu := asDict_partly hi hq hqs hE
        dsimp only at hget
        rw [hu] at hget
        have hall : ∀ j, j ∈ l ++ [i] := by
          intro j
          apply Classical.byContradiction
          intro hj
          have := hget j
          simp only [partly, if_neg hj] at this
          cases this
        rw [if_pos hall]
        refine ⟨?_, ?_⟩
        · show s.out ++ [ms] = _
          have : ms = t := by
            funext j
            have := hget j
            rw [hG i j] at this
            exact get_partly this
          rw [this, hout]
        · funext j
          show (upd s.queues i d' j).del (t i).stamp = []
          rw [hu, hG i j]; exact del_partly _ t j

theorem approx_replay [NeZero n] {slop q : Int} {allow : Bool} (hq : 1 ≤ q) {sets : List (Fin n → Ev)}
    {ops : List (Fin n × Ev)} (h : Replay sets ops) (hG : ∀ t ∈ sets, ∀ i j, (t i).stamp - (t j).stamp < slop) :
    ∀ s, approxRun noRaise slop allow (construct n q) (withHeaders ops) = .ok s → s.out = sets ∧ s.queues = fun _ => [] := by
  refine Replay.induct (run := fun ops s => approxRun noRaise slop allow (construct n q) (withHeaders ops) = .ok s)
    (P := fun sets s => s.out = sets ∧ s.queues = fun _ => [])
    (Q := fun sets t l s => s.out = sets ∧ s.queues = fun j => asDict (partly l t j))
    (fun t => ∀ i j, (t i).stamp - (t j).stamp < slop) ?_ ?_ ?_ h hG
  · intro s hs
    cases hs
    exact ⟨rfl, rfl⟩
  · intro sets t s hs
    rw [partly_nil]; exact hs
  · intro ops sets t l i s' hG hi hs' hQ
    rw [withHeaders_append] at hs'
    obtain ⟨s, hs, hadd⟩ := runE_snoc_ok hs'
    obtain ⟨hout, hqs⟩ := hQ s hs
    obtain ⟨_, hinv, hsize⟩ := approxRun_induction (P := fun _ _ => True) trivial (fun _ _ _ _ _ _ _ _ _ _ _ => trivial) _ s hs
    cases ha : approxAdd noRaise slop allow s i ⟨t i, true⟩ with
    | error f => simp only [ha] at hadd; cases hadd
    | ok r =>
      obtain ⟨s2, b⟩ := r
      simp only [ha] at hadd
      cases hadd
      obtain ⟨h1, _, _, _⟩ | ⟨_, hlk, ⟨hqn, _, _⟩ | ⟨hq0, d', hE, ⟨hn, rfl, rfl⟩ | ⟨f, ms, hf, hm, hget, _, ⟨hb, _, _⟩ | ⟨_, rfl, rfl⟩⟩⟩⟩ :=
        approxAdd_cases noRaise slop allow s hinv.ok i ⟨t i, true⟩ s2 b ha
      · cases h1
      · omega
      · rw [hsize] at hE
        have hu := asDict_partly hi hq hqs hE
        dsimp only at hn
        rw [hu] at hn
        rw [if_neg]
        · exact ⟨hout, hu⟩
        · intro hall
          exact hn ⟨fun j => (t j).stamp, rfl, fun j => keys_partly.2 ⟨hall j, rfl⟩, fun a b => hG a b⟩
      · cases hb
      · rw [hsize] at hE
        have hu := asDict_partly hi hq hqs hE
        rw [hu] at hget hm
        have hall : ∀ j, j ∈ l ++ [i] ∧ f j = (t j).stamp := fun j => keys_partly.1 (hm.1 j)
        rw [if_pos (fun j => (hall j).1)]
        refine ⟨?_, ?_⟩
        · show s.out ++ [ms] = _
          have : ms = t := by
            funext j
            have := hget j
            rw [(hall j).2] at this
            exact get_partly this
          rw [this, hout]
        · funext j
          show (upd s.queues i d' j).del (f j) = []
          rw [hu, (hall j).2]; exact del_partly _ t j

end MF.Py
