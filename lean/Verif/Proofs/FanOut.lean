import Verif.Spec.FanOut
import Verif.Proofs.Headerless
import Verif.Proofs.RoundsPy
import Verif.Props.Latest
/-
Helper lemmas about one source that is connected to every input of a synchronizer.
-/
namespace MF

variable {n : Nat}

/-- Induction over the deliveries: `P` holds when every input has received the last message, `Q` while some have not. -/
theorem FanOut.induct [NeZero n] {S : Type} {run : List (Fin n × Ev) → S → Prop} {P : List Ev → S → Prop}
    {Q : List Ev → Ev → List (Fin n) → S → Prop} (h0 : ∀ s, run [] s → P [] s) (hstart : ∀ msgs m s, P msgs s → Q msgs m [] s)
    (hstep : ∀ ops msgs m l i s', i ∉ l → run (ops ++ [(i, m)]) s' → (∀ s, run ops s → Q msgs m l s) →
      if ∀ j, j ∈ l ++ [i] then P (msgs ++ [m]) s' else Q msgs m (l ++ [i]) s')
    {msgs : List Ev} {ops : List (Fin n × Ev)} (h : FanOut msgs ops) : ∀ s, run ops s → P msgs s := by
  induction h with
  | nil => exact h0
  | @next msgs ops _ m order once all ih =>
    have key : ∀ l : List (Fin n), l.Nodup → ∀ s, run (ops ++ l.map (fun i => (i, m))) s →
        if ∀ j, j ∈ l then P (msgs ++ [m]) s else Q msgs m l s := by
      intro l
      induction l using snoc_induction with
      | h0 =>
        intro _ s hs
        rw [if_neg (fun h => by cases h ⟨0, Nat.pos_of_ne_zero (NeZero.ne n)⟩)]
        exact hstart _ _ _ (ih s (by simpa using hs))
      | hs l i ihl =>
        intro hnd s hs
        rw [List.nodup_append] at hnd
        have hi : i ∉ l := fun h => hnd.2.2 i h i (by simp) rfl
        rw [List.map_append, ← List.append_assoc] at hs
        refine hstep _ msgs m l i s hi hs (fun s1 h1 => ?_)
        have := ihl hnd.1 s1 h1
        rwa [if_neg (fun h => hi (h i))] at this
    intro s hs
    have := key order once s hs
    rwa [if_pos all] at this

/-- What waits on the inputs while only those in `l` have received `m`. -/
def waits (l : List (Fin n)) (m : Ev) : Fin n → List Ev := fun j => if j ∈ l then [m] else []

theorem waits_nil (m : Ev) : waits (n := n) [] m = fun _ => [] := by funext j; simp [waits]

theorem waits_push {l : List (Fin n)} {i : Fin n} (hi : i ∉ l) (m : Ev) :
    upd (waits l m) i (waits l m i ++ [m]) = waits (l ++ [i]) m := by
  funext j
  by_cases hj : j = i
  · subst hj; rw [upd_same]; simp [waits, hi]
  · rw [upd_ne _ _ hj]; simp [waits, hj]

theorem waits_all {l : List (Fin n)} (h : ∀ j, j ∈ l) (m : Ev) : waits l m = fun _ => [m] := by
  funext j; simp [waits, h j]

theorem waits_ne {l : List (Fin n)} {m : Ev} : (∀ j, waits l m j ≠ []) ↔ ∀ j, j ∈ l := by
  constructor
  · intro h j
    apply Classical.byContradiction
    intro hj
    exact h j (by simp [waits, hj])
  · intro h j; rw [waits_all h]; simp

theorem waits_same (l : List (Fin n)) (m : Ev) : Headerless.Same m.stamp (waits l m) := by
  intro i e he
  by_cases hi : i ∈ l
  · simp [waits, hi] at he; rw [he]
  · simp [waits, hi] at he

end MF

namespace MF.ExactTime

variable {n : Nat}

/-- What is stored while the inputs in `l` have received `m`. -/
def Part (msgs : List Ev) (m : Ev) (l : List (Fin n)) (s : State n) : Prop :=
  s.log = msgs.map (fun m => .out (same m)) ∧
    s.tuples = if l = [] then [] else [(m.stamp, fun j => if j ∈ l then some m else none)]

theorem run_fan [NeZero n] {q : Nat} {msgs : List Ev} {ops : List (Fin n × Ev)} (h : FanOut msgs ops) : ∀ s,
    run (construct n q) ops = .ok s → s.log = msgs.map (fun m => .out (same m)) ∧ s.tuples = [] := by
  refine FanOut.induct (run := fun ops s => run (construct n q) ops = .ok s) (P := fun msgs s => s.log = msgs.map (fun m => .out (same m)) ∧ s.tuples = []) (Q := Part) ?_ ?_ ?_ h
  · intro s hs
    simp only [run, runE, Except.ok.injEq] at hs
    subst hs
    exact ⟨rfl, rfl⟩
  · intro msgs m s hs
    exact ⟨hs.1, by rw [if_pos rfl]; exact hs.2⟩
  · intro ops msgs m l i s' hi hs' hQ
    obtain ⟨s, hs, hadd⟩ := runE_snoc_ok hs'
    obtain ⟨hlog, htup⟩ := hQ s hs
    have ht : tupleAt m.stamp s.tuples = fun j => if j ∈ l then some m else none := by
      rw [htup]
      split
      · rename_i h0; subst h0; funext j; simp [tupleAt, emptyTuple]
      · simp [tupleAt]
    have hti : tupleAt m.stamp s.tuples i = none := by rw [ht]; simp [hi]
    have hu : upd (tupleAt m.stamp s.tuples) i (some m) = fun j => if j ∈ l ++ [i] then some m else none := by
      rw [ht]
      funext j
      by_cases hj : j = i
      · subst hj; rw [upd_same]; simp
      · rw [upd_ne _ _ hj]; simp [hj]
    have hst : store m.stamp (fun j => if j ∈ l ++ [i] then some m else none) s.tuples =
        [(m.stamp, fun j => if j ∈ l ++ [i] then some m else none)] := by
      rw [htup]
      split
      · rfl
      · simp [store]
    dsimp only at hadd
    unfold add at hadd
    simp only [hu, hst, hti, Option.toList_none, List.map_nil, List.append_nil] at hadd
    unfold checkTuple at hadd
    by_cases hall : ∀ j, j ∈ l ++ [i]
    · rw [if_pos hall]
      have hfull : (fun j => if j ∈ l ++ [i] then some m else none) = same (n := n) m := by
        funext j; rw [if_pos (hall j)]; rfl
      rw [hfull] at hadd
      rw [if_pos ((isFull_some _).2 (fun j => rfl))] at hadd
      have h0 : same (n := n) m 0 = some m := rfl
      rw [h0] at hadd
      simp only at hadd
      have hnil : List.filter (fun p : Int × Tuple n => decide (p.1 ≠ m.stamp)) [(m.stamp, same m)] = [] := by simp
      rw [hnil] at hadd
      simp only [clearOldTuples, dropExceeding, dropRange, List.takeWhile_nil, List.dropWhile_nil, List.map_nil, List.append_nil,
        List.length_nil] at hadd
      rw [if_neg (by omega)] at hadd
      cases hadd
      refine ⟨?_, rfl⟩
      show s.log ++ [.out (same m)] = _
      rw [hlog]; simp
    · rw [if_neg hall]
      rw [if_neg] at hadd
      · unfold dropExceeding at hadd
        dsimp only [List.length_singleton] at hadd
        rw [if_neg (by omega)] at hadd
        cases hadd
        exact ⟨hlog, by rw [if_neg (by simp)]⟩
      · intro hf
        apply hall
        intro j
        have := (isFull_some _).1 hf j
        apply Classical.byContradiction
        intro hj
        rw [if_neg hj] at this
        cases this

end MF.ExactTime

namespace MF.Epsilon

variable {n : Nat}

theorem steps_nil {eps : Int} {v w : Fin n → List Ev} {o} (h : Steps eps v o w) (hv : ∃ i, v i = []) : o = [] ∧ w = v := by
  cases h with
  | refl => exact ⟨rfl, rfl⟩
  | head hne _ => obtain ⟨i, hi⟩ := hv; exact absurd hi (hne i)

theorem steps_head {eps : Int} {v w : Fin n → List Ev} {o} (h : Steps eps v o w) (hv : ∀ i, v i ≠ []) (hw : ∃ i, w i = []) :
    ∃ o', o = (fire eps v).1 ++ o' ∧ Steps eps (fire eps v).2 o' w := by
  cases h with
  | refl => obtain ⟨i, hi⟩ := hw; exact absurd hi (hv i)
  | head _ hrest => exact ⟨_, rfl, hrest⟩

theorem run_fan [NeZero n] {fuel q : Nat} {eps : Int} (heps : 0 ≤ eps) (hq : 1 ≤ q) {msgs : List Ev} {ops : List (Fin n × Ev)}
    (h : FanOut msgs ops) : ∀ s, run fuel (construct n q eps) ops = .ok s → (∀ o ∈ ops, o.2.stamp < maxTime) →
    s.out = msgs.map same ∧ s.events = fun _ => [] := by
  intro s hs hmax
  have key := FanOut.induct (n := n) (run := fun ops s => run fuel (construct n q eps) ops = .ok s ∧ ∀ o ∈ ops, o.2.stamp < maxTime)
    (P := fun msgs s => s.out = msgs.map same ∧ s.events = fun _ => [])
    (Q := fun msgs m l s => s.out = msgs.map same ∧ s.events = waits l m) ?_ ?_ ?_ h
  · exact key s ⟨hs, hmax⟩
  · rintro s ⟨hs, _⟩
    simp only [run, runE, Except.ok.injEq] at hs
    subst hs
    exact ⟨rfl, rfl⟩
  · intro msgs m s hs
    rw [waits_nil]; exact hs
  · rintro ops msgs m l i s' hi ⟨hs', hmax⟩ hQ
    obtain ⟨s, hs, hadd⟩ := runE_snoc_ok hs'
    obtain ⟨hout, hev⟩ := hQ s ⟨hs, fun o ho => hmax o (by simp [ho])⟩
    obtain ⟨hinv, he, hqs⟩ := run_inv hs
    obtain ⟨hinv', _, _, hcase⟩ := add_ok hinv hadd
    dsimp only at hcase
    have hpush := waits_push hi m
    rw [← hev] at hpush
    cases hcase with
    | processed o hall hsteps ho =>
      rw [hpush] at hall hsteps
      have hall' := waits_ne.1 hall
      rw [if_pos hall']
      rw [he] at hsteps
      obtain ⟨o', ho', hrest⟩ := steps_head hsteps hall hinv'.someEmpty
      rw [fire_same heps (hmax (i, m) (by simp)) hall (waits_same _ m)] at hrest ho'
      dsimp only at hrest ho'
      obtain ⟨h1, h2⟩ := steps_nil hrest ⟨i, by rw [waits_all hall']; rfl⟩
      rw [ho', h1] at ho
      refine ⟨?_, ?_⟩
      · rw [ho, hout, waits_all hall']
        simp only [List.map_append]; rfl
      · rw [h2, waits_all hall']; rfl
    | queued hnot _ hev' ho =>
      rw [hpush] at hev' hnot
      rw [if_neg]
      · exact ⟨by rw [ho, hout], hev'⟩
      · intro hall
        obtain ⟨j, hj⟩ := hnot
        rw [waits_all hall] at hj; cases hj
    | overflow _ hlen _ _ =>
      exfalso
      rw [hqs, hev] at hlen
      simp [waits, hi] at hlen
      omega

end MF.Epsilon

namespace MF.Approx

variable {n : Nat}

theorem run_fan [NeZero n] {fuel : Nat} {cfg : Cfg n} (hM : 0 ≤ cfg.maxInterval) (hf : 0 ≤ cfg.scale 0) {msgs : List Ev}
    {ops : List (Fin n × Ev)} (h : FanOut msgs ops) : ∀ s, run fuel cfg ops = .ok s →
    s.out = msgs.map same ∧ Calm s ∧ s.deques = fun _ => [] := by
  refine FanOut.induct (run := fun ops s => run fuel cfg ops = .ok s) (P := fun msgs s => s.out = msgs.map same ∧ Calm s ∧ s.deques = fun _ => [])
    (Q := fun msgs m l s => s.out = msgs.map same ∧ Calm s ∧ s.deques = waits l m) ?_ ?_ ?_ h
  · intro s hs
    have h := (runOps_ok hs).2
    simp only [List.map_nil, runE, Except.ok.injEq] at h
    rw [← h]
    exact ⟨rfl, ⟨rfl, fun _ => rfl, fun _ => rfl⟩, rfl⟩
  · intro msgs m s hs
    rw [waits_nil]; exact hs
  · intro ops msgs m l i s' hi hs' hQ
    obtain ⟨s, hs, hadd⟩ := run_snoc_ok hs'
    obtain ⟨hinv, hcfg, _⟩ := run_facts hs
    obtain ⟨hout, hc, hd⟩ := hQ s hs
    obtain ⟨s1, p, hpush, hsteps, _, hcase⟩ := add_halves hinv hadd
    dsimp only at hpush hcase
    have hc1 : Calm s1 :=
      ⟨by rw [hpush.pivot]; exact hc.pivot, by rw [hpush.past]; exact hc.past, by rw [hpush.hasDropped]; exact hc.dropped⟩
    have hd1 : s1.deques = waits (l ++ [i]) m := by rw [hpush.deques, hd, waits_push hi]
    have hres : if ∀ j, j ∈ l ++ [i] then p.out = (msgs ++ [m]).map same ∧ Calm p ∧ p.deques = fun _ => []
        else p.out = msgs.map same ∧ Calm p ∧ p.deques = waits (l ++ [i]) m := by
      cases hsteps with
      | done hemp =>
        rw [if_neg]
        · exact ⟨by rw [hpush.out, hout], hc1, hd1⟩
        · intro hall
          obtain ⟨j, hj⟩ := hemp
          rw [hd1, waits_all hall] at hj; cases hj
      | step hne h1 hrest =>
        have hall : ∀ j, j ∈ l ++ [i] := by rw [hd1] at hne; exact waits_ne.1 hne
        rw [if_pos hall]
        obtain ⟨g1, g2, g3, g4⟩ := pstep_same (T := m.stamp) (by rw [hpush.cfg, hcfg]; exact hM) (by rw [hpush.cfg, hcfg]; exact hf) hne
          (by rw [hd1]; exact waits_same _ m) hc1 h1
        cases hrest with
        | done _ =>
          refine ⟨?_, g1, ?_⟩
          · rw [g4, hpush.out, hout, hd1, waits_all hall]
            simp only [List.map_append]; rfl
          · rw [g3, hd1, waits_all hall]; rfl
        | step hne2 _ _ => exact absurd (show _ = [] by rw [g3, hd1, waits_all hall]; rfl) (hne2 i)
    rcases hcase with ⟨_, rfl⟩ | ⟨hlen, _⟩
    · exact hres
    · exfalso
      have hpos := hinv.qpos
      have : (view p i).length ≤ 1 := by
        unfold view
        by_cases hall : ∀ j, j ∈ l ++ [i]
        · rw [if_pos hall] at hres
          rw [hres.2.1.past, hres.2.2]; simp
        · rw [if_neg hall] at hres
          rw [hres.2.1.past, hres.2.2]; simp [waits]
      omega

end MF.Approx

namespace MF.Py

variable {n : Nat}

theorem withHeaders_append (a b : List (Fin n × Ev)) : withHeaders (a ++ b) = withHeaders a ++ withHeaders b := by
  simp [withHeaders]

theorem asDict_waits {l : List (Fin n)} {i : Fin n} (hi : i ∉ l) {m : Ev} {q : Int} (hq : 1 ≤ q) {Q : Fin n → Dict Ev}
    (hQ : Q = fun j => asDict (waits l m j)) {d' : Dict Ev} (hE : Evicted q ((Q i).set m.stamp m) d') :
    upd Q i d' = fun j => asDict (waits (l ++ [i]) m j) := by
  have h1 : (Q i).set m.stamp m = [(m.stamp, m)] := by
    rw [hQ]; simp [waits, hi, asDict, Dict.set, Dict.keys]
  have h2 : d' = [(m.stamp, m)] := by
    rw [← h1]
    exact hE.eq_of_fits (by rw [h1]; simp; omega)
  funext j
  by_cases hj : j = i
  · subst hj; rw [upd_same, h2]; simp [waits, asDict]
  · rw [upd_ne _ _ hj, hQ]; simp [waits, hj]

theorem keys_waits {l : List (Fin n)} {m : Ev} {k : Int} {j : Fin n} :
    k ∈ Dict.keys (asDict (waits l m j)) ↔ j ∈ l ∧ k = m.stamp := by
  by_cases hj : j ∈ l <;> simp [waits, hj, asDict, Dict.keys]

theorem get_waits {l : List (Fin n)} {m x : Ev} {j : Fin n} (h : Dict.get (asDict (waits l m j)) m.stamp = some x) : x = m := by
  by_cases hj : j ∈ l
  · simp [waits, hj, asDict, Dict.get] at h; exact h.symm
  · simp [waits, hj, asDict, Dict.get] at h

theorem del_waits (l : List (Fin n)) (m : Ev) (j : Fin n) : Dict.del (asDict (waits l m j)) m.stamp = [] := by
  by_cases hj : j ∈ l <;> simp [waits, hj, asDict, Dict.del]

theorem ts_fan [NeZero n] {q : Int} (hq : 1 ≤ q) {msgs : List Ev} {ops : List (Fin n × Ev)} (h : FanOut msgs ops) : ∀ s,
    tsRun noRaise (construct n q) (withHeaders ops) = .ok s →
    s.out = msgs.map (fun m _ => m) ∧ s.queues = fun _ => [] := by
  refine FanOut.induct (run := fun ops s => tsRun noRaise (construct n q) (withHeaders ops) = .ok s)
    (P := fun msgs s => s.out = msgs.map (fun m _ => m) ∧ s.queues = fun _ => [])
    (Q := fun msgs m l s => s.out = msgs.map (fun m _ => m) ∧ s.queues = fun j => asDict (waits l m j)) ?_ ?_ ?_ h
  · intro s hs
    cases hs
    exact ⟨rfl, rfl⟩
  · intro msgs m s hs
    rw [waits_nil]; exact hs
  · intro ops msgs m l i s' hi hs' hQ
    rw [withHeaders_append] at hs'
    obtain ⟨s, hs, hadd⟩ := runE_snoc_ok hs'
    obtain ⟨hout, hqs⟩ := hQ s hs
    obtain ⟨_, hinv, hsize⟩ := tsRun_induction (P := fun _ _ => True) trivial (fun _ _ _ _ _ _ _ _ _ _ _ => trivial) _ s hs
    cases ha : tsAdd noRaise s i ⟨m, true⟩ with
    | error f => simp only [ha] at hadd; cases hadd
    | ok r =>
      obtain ⟨s2, b⟩ := r
      simp only [ha] at hadd
      cases hadd
      obtain ⟨_, ⟨h1, _, _⟩ | ⟨_, hqn, _, _⟩ | ⟨_, hq0, d', hE, ⟨hn, rfl, rfl⟩ | ⟨ms, hget, ⟨hb, _, _⟩ | ⟨_, rfl, rfl⟩⟩⟩⟩ :=
        tsAdd_cases noRaise s hinv i ⟨m, true⟩ s2 b ha
      · cases h1
      · omega
      · rw [hsize] at hE
        have hu := asDict_waits hi hq hqs hE
        dsimp only at hn
        rw [hu] at hn
        rw [if_neg]
        · exact ⟨hout, hu⟩
        · intro hall; exact hn (fun j => keys_waits.2 ⟨hall j, rfl⟩)
      · cases hb
      · rw [hsize] at hE
        have hu := asDict_waits hi hq hqs hE
        dsimp only at hget
        rw [hu] at hget
        have hall : ∀ j, j ∈ l ++ [i] := by
          intro j
          apply Classical.byContradiction
          intro hj
          have := hget j
          simp only [waits, if_neg hj] at this
          cases this
        rw [if_pos hall]
        refine ⟨?_, ?_⟩
        · show s.out ++ [ms] = _
          have : ms = fun _ => m := by funext j; exact get_waits (hget j)
          rw [this, hout]; simp
        · funext j
          show (upd s.queues i d' j).del m.stamp = []
          rw [hu]; exact del_waits _ m j

theorem approx_fan [NeZero n] {slop q : Int} {allow : Bool} (hslop : 0 < slop) (hq : 1 ≤ q) {msgs : List Ev}
    {ops : List (Fin n × Ev)} (h : FanOut msgs ops) : ∀ s, approxRun noRaise slop allow (construct n q) (withHeaders ops) = .ok s →
    s.out = msgs.map (fun m _ => m) ∧ s.queues = fun _ => [] := by
  refine FanOut.induct (run := fun ops s => approxRun noRaise slop allow (construct n q) (withHeaders ops) = .ok s)
    (P := fun msgs s => s.out = msgs.map (fun m _ => m) ∧ s.queues = fun _ => [])
    (Q := fun msgs m l s => s.out = msgs.map (fun m _ => m) ∧ s.queues = fun j => asDict (waits l m j)) ?_ ?_ ?_ h
  · intro s hs
    cases hs
    exact ⟨rfl, rfl⟩
  · intro msgs m s hs
    rw [waits_nil]; exact hs
  · intro ops msgs m l i s' hi hs' hQ
    rw [withHeaders_append] at hs'
    obtain ⟨s, hs, hadd⟩ := runE_snoc_ok hs'
    obtain ⟨hout, hqs⟩ := hQ s hs
    obtain ⟨_, hinv, hsize⟩ := approxRun_induction (P := fun _ _ => True) trivial (fun _ _ _ _ _ _ _ _ _ _ _ => trivial) _ s hs
    cases ha : approxAdd noRaise slop allow s i ⟨m, true⟩ with
    | error f => simp only [ha] at hadd; cases hadd
    | ok r =>
      obtain ⟨s2, b⟩ := r
      simp only [ha] at hadd
      cases hadd
      obtain ⟨h1, _, _, _⟩ | ⟨_, hlk, ⟨hqn, _, _⟩ | ⟨hq0, d', hE, ⟨hn, rfl, rfl⟩ | ⟨f, ms, hf, hm, hget, _, ⟨hb, _, _⟩ | ⟨_, rfl, rfl⟩⟩⟩⟩ :=
        approxAdd_cases noRaise slop allow s hinv.ok i ⟨m, true⟩ s2 b ha
      · cases h1
      · omega
      · rw [hsize] at hE
        have hu := asDict_waits hi hq hqs hE
        dsimp only at hn
        rw [hu] at hn
        rw [if_neg]
        · exact ⟨hout, hu⟩
        · intro hall
          exact hn ⟨fun _ => m.stamp, rfl, fun j => keys_waits.2 ⟨hall j, rfl⟩, fun a b => by dsimp only; omega⟩
      · cases hb
      · rw [hsize] at hE
        have hu := asDict_waits hi hq hqs hE
        rw [hu] at hget hm
        have hall : ∀ j, j ∈ l ++ [i] ∧ f j = m.stamp := fun j => keys_waits.1 (hm.1 j)
        rw [if_pos (fun j => (hall j).1)]
        refine ⟨?_, ?_⟩
        · show s.out ++ [ms] = _
          have : ms = fun _ => m := by
            funext j
            have := hget j
            rw [(hall j).2] at this
            exact get_waits this
          rw [this, hout]; simp
        · funext j
          show (upd s.queues i d' j).del (f j) = []
          rw [hu, (hall j).2]; exact del_waits _ m j

end MF.Py

namespace MF.Latest

open MF.Event (Time)

variable {n : Nat}

/-- The first `K` rounds and the first `r` deliveries of the next one. -/
def upTo (src : Source) (M : Nat → Ev) (t0 p : Int) (off : Fin n → Int) (K r : Nat) : List (Op n) :=
  rounds src M t0 p off K ++ (round src M t0 p off K).take r

variable {src : Source} {M : Nat → Ev} {t0 p : Int} {off : Fin n → Int}

/-- The delivery of message `k` to input `i`. -/
def dlv (src : Source) (M : Nat → Ev) (t0 p : Int) (off : Fin n → Int) (k : Nat) (i : Fin n) : Op n :=
  ⟨i, M k, ⟨t0 + k * p + off i, src⟩⟩

theorem upTo_zero (K : Nat) : upTo src M t0 p off K 0 = rounds src M t0 p off K := by simp [upTo]

theorem upTo_full (K : Nat) : upTo src M t0 p off K n = rounds src M t0 p off (K + 1) := by
  unfold upTo
  rw [List.take_of_length_le (by simp [round])]
  simp [rounds, List.range_succ]

theorem upTo_succ (K : Nat) {r : Nat} (hr : r < n) :
    upTo src M t0 p off K (r + 1) = upTo src M t0 p off K r ++ [dlv src M t0 p off K ⟨r, hr⟩] := by
  unfold upTo
  rw [List.append_assoc, ← List.take_append_getElem (l := round src M t0 p off K) (i := r) (by simpa [round] using hr)]
  simp [round, dlv]

/-- Induction over the deliveries. -/
theorem upTo_ind {P : Nat → Nat → Prop} (h0 : P 0 0) (hr : ∀ K r, r < n → P K r → P K (r + 1)) (hn : ∀ K, P K n → P (K + 1) 0) :
    ∀ K r, r ≤ n → P K r := by
  have row : ∀ K, P K 0 → ∀ r, r ≤ n → P K r := by
    intro K hK r
    induction r with
    | zero => intro _; exact hK
    | succ r ih => intro h; exact hr K r (by omega) (ih (by omega))
  intro K
  induction K with
  | zero => exact row 0 h0
  | succ K ih => exact row _ (hn K (ih n (Nat.le_refl _)))

theorem upTo_deliveries : ∀ K r, r ≤ n → ∀ j : Fin n, deliveries (upTo src M t0 p off K r) j =
    (List.range (if j.val < r then K + 1 else K)).map (fun k => dlv src M t0 p off k j) := by
  apply upTo_ind
  · intro j; simp [upTo, rounds, deliveries]
  · intro K r hr ih j
    rw [upTo_succ K hr, deliveries_snoc, ih j]
    by_cases hj : j.val = r
    · have : (dlv src M t0 p off K ⟨r, hr⟩).input = j := Fin.ext hj.symm
      rw [if_pos this, if_neg (by omega), if_pos (by omega), List.range_succ, List.map_append]
      have hj' : (⟨r, hr⟩ : Fin n) = j := this
      rw [hj']; rfl
    · rw [if_neg (fun h => hj (congrArg Fin.val h).symm)]
      by_cases hlt : j.val < r
      · rw [if_pos hlt, if_pos (by omega)]
      · rw [if_neg hlt, if_neg (by omega)]
  · intro K ih j
    rw [upTo_zero, ← upTo_full, ih j, if_pos j.isLt, if_neg (by omega)]

theorem upTo_firstArrivals : ∀ K r, r ≤ n → firstArrivals (upTo src M t0 p off K r) =
    (List.finRange n).take (if K = 0 then r else n) := by
  apply upTo_ind
  · simp [upTo, rounds, firstArrivals]
  · intro K r hr ih
    rw [upTo_succ K hr, firstArrivals_snoc, ih]
    by_cases hK : K = 0
    · rw [if_pos hK, if_pos hK, if_neg]
      · rw [← List.take_append_getElem (l := List.finRange n) (i := r) (by simpa using hr)]
        congr 1
        simp [dlv]
      · intro hm
        obtain ⟨k, hk, hget⟩ := List.mem_take_iff_getElem.1 hm
        simp [dlv] at hget
        omega
    · rw [if_neg hK, if_neg hK, if_pos]
      rw [List.take_of_length_le (by simp)]
      exact List.mem_finRange _
  · intro K ih
    rw [upTo_zero, ← upTo_full, ih]
    simp

theorem upTo_inOrder (K r : Nat) (hr : r ≤ n) : InOrder (upTo src M t0 p off K r) := by
  unfold InOrder
  rw [upTo_firstArrivals K r hr, List.length_take, List.length_finRange]
  congr 1
  split <;> omega

theorem periodic_range (c : Nat) : ∀ a : Nat, Periodic p ((List.range' a c).map (fun k : Nat => (⟨t0 + (k : Int) * p, src⟩ : Time))) := by
  induction c with
  | zero => intro a; exact trivial
  | succ c ih =>
    intro a
    cases c with
    | zero => exact trivial
    | succ c =>
      have := ih (a + 1)
      refine ⟨?_, this⟩
      show t0 + ((a + 1 : Nat) : Int) * p = t0 + (a : Int) * p + p
      rw [Int.natCast_add, Int.add_mul]
      simp [Int.add_assoc]

/-- One message of the source with the one before it. -/
def stale [NeZero n] (M : Nat → Ev) (k : Nat) : Fin n → Ev := fun i => if i = 0 then M (k + 1) else M k

theorem run_fan [NeZero n] (hp : 0 < p) (hoff : ∀ i j : Fin n, i ≤ j → off i ≤ off j ∧ off j ≤ off i + p) (dflt : Config Rat)
    (configs : List (Config Rat)) : ∀ K r, r ≤ n → ∃ s, run dflt (initial n configs) (upTo src M t0 p off K r) = .ok s ∧
      s.out = (List.range (if r = 0 then K - 1 else K)).map (stale M) := by
  have hclock : ∀ K r, OneClock src (upTo src M t0 p off K r) := by
    intro K r op hop
    unfold upTo at hop
    rcases List.mem_append.1 hop with h | h
    · obtain ⟨k, _, hk⟩ := List.mem_flatMap.1 h
      obtain ⟨i, _, rfl⟩ := List.mem_map.1 hk
      rfl
    · obtain ⟨i, _, rfl⟩ := List.mem_map.1 (List.mem_of_mem_take h)
      rfl
  apply upTo_ind
  · exact ⟨_, rfl, rfl⟩
  · intro K r hr ⟨s, hs, hout⟩
    have hsucc := upTo_succ (src := src) (M := M) (t0 := t0) (p := p) (off := off) K hr
    have hdel := upTo_deliveries (src := src) (M := M) (t0 := t0) (p := p) (off := off) K (r + 1) hr
    obtain ⟨s1, s', h1, h2, h3⟩ := C57_periodic (fun _ => p) (fun _ => hp) dflt configs src (upTo src M t0 p off K r)
      (dlv src M t0 p off K ⟨r, hr⟩) (by rw [← hsucc]; exact hclock _ _) (by rw [← hsucc]; exact upTo_inOrder _ _ hr)
      (by
        intro i
        rw [← hsucc, hdel i, List.map_map, List.range_eq_range']
        have := periodic_range (p := p) (src := src) (t0 := t0 + off i) (if i.val < r + 1 then K + 1 else K) 0
        have heq : ((fun x => x.now) ∘ fun k => dlv src M t0 p off k i) = fun k : Nat => (⟨t0 + off i + (k : Int) * p, src⟩ : Time) := by
          funext k
          simp only [Function.comp, dlv]
          congr 1
          omega
        rw [heq]; exact this)
      (by
        intro i last hlast
        rw [← hsucc, hdel i] at hlast
        have hnow : (dlv src M t0 p off K ⟨r, hr⟩).now.ns = t0 + K * p + off ⟨r, hr⟩ := rfl
        by_cases hi : i.val < r + 1
        · rw [if_pos hi, List.range_succ, List.map_append] at hlast
          simp at hlast
          subst hlast
          have h4 := hoff i ⟨r, hr⟩ (by show i.val ≤ r; omega)
          have : (dlv src M t0 p off K i).now.ns = t0 + K * p + off i := rfl
          omega
        · rw [if_neg hi] at hlast
          cases K with
          | zero => simp at hlast
          | succ K =>
            rw [List.range_succ, List.map_append] at hlast
            simp at hlast
            subst hlast
            have h4 := hoff ⟨r, hr⟩ i (by show r ≤ i.val; omega)
            have h5 : (dlv src M t0 p off K i).now.ns = t0 + K * p + off i := rfl
            have h6 : ((K + 1 : Nat) : Int) * p = K * p + p := by rw [Int.natCast_add, Int.add_mul]; simp
            rw [h6] at hnow
            omega)
    rw [hs] at h1
    cases h1
    refine ⟨s', by rw [hsucc]; exact h2, ?_⟩
    rw [← hsucc] at h3
    rw [if_neg (by omega)]
    by_cases hpub : 1 ≤ K ∧ r = 0
    · obtain ⟨hK, rfl⟩ := hpub
      have hne : s'.out ≠ s.out := by
        refine h3.2 ⟨fun i => ?_, ?_, ?_⟩
        · rw [hdel i]
          intro h
          have := congrArg List.length h
          simp at this
          split at this <;> omega
        · rw [hdel]
          have : (dlv src M t0 p off K ⟨0, hr⟩).input.val < 0 + 1 := by show 0 < 1; omega
          rw [if_pos this]; simp; omega
        · intro j hj _
          refine Or.inr ⟨rfl, ?_⟩
          show (⟨0, hr⟩ : Fin n).val < j.val
          have : j.val ≠ 0 := fun h => hj (Fin.ext h)
          show 0 < j.val
          omega
      rcases C35_latest dflt configs _ _ s s' hs h2 with h | ⟨t, ht, hlast⟩
      · exact absurd h hne
      · rw [ht, hout, if_pos rfl]
        have hK1 : K = (K - 1) + 1 := by omega
        have : t = stale M (K - 1) := by
          funext i
          have h5 := hlast i
          rw [← hsucc] at h5
          unfold lastMsg at h5
          rw [hdel i] at h5
          unfold stale
          by_cases hi : i = 0
          · subst hi
            rw [if_pos (by simp), List.range_succ, List.map_append] at h5
            simp at h5
            rw [if_pos rfl, ← hK1, ← h5]; rfl
          · have hi' : ¬ i.val < 0 + 1 := by
              intro h
              apply hi
              apply Fin.ext
              have : i.val = 0 := by omega
              simpa using this
            rw [if_neg hi', hK1, List.range_succ, List.map_append] at h5
            simp at h5
            rw [if_neg hi, ← h5]; rfl
        rw [this]
        conv => rhs; rw [hK1, List.range_succ, List.map_append]
        rfl
    · have heq : s'.out = s.out := by
        apply Classical.byContradiction
        intro hne
        obtain ⟨_, g2, g3⟩ := h3.1 hne
        have hlen : (deliveries (upTo src M t0 p off K (r + 1)) (dlv src M t0 p off K ⟨r, hr⟩).input).length = K + 1 := by
          rw [hdel]
          have : (dlv src M t0 p off K ⟨r, hr⟩).input.val < r + 1 := by show r < r + 1; omega
          rw [if_pos this]; simp
        rw [hlen] at g2
        have hr0 : r ≠ 0 := fun h => hpub ⟨by omega, h⟩
        have hn0 : 0 < n := by omega
        rcases g3 ⟨0, hn0⟩ (fun h => hr0 (congrArg Fin.val h).symm) (by
          rw [hdel, if_pos (by show 0 < r + 1; omega)]; simp; omega) with h | ⟨_, h⟩
        · omega
        · have : r < 0 := h
          omega
      rw [heq, hout]
      by_cases hr0 : r = 0
      · have : K = 0 := by
          apply Classical.byContradiction
          intro h; exact hpub ⟨by omega, hr0⟩
        subst this; simp
      · rw [if_neg hr0]
  · intro K ⟨s, hs, hout⟩
    refine ⟨s, ?_, ?_⟩
    · rw [upTo_zero, ← upTo_full]; exact hs
    · rw [hout, if_neg (NeZero.ne n)]; simp

end MF.Latest
