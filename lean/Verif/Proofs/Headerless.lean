import Verif.Spec.Headerless
import Verif.Proofs.Recover
import Verif.Props.Epsilon
import Verif.Props.ExactTime
/-
Helper lemmas about messages that all have the same stamp.
-/
namespace MF.Headerless

variable {n : Nat}

/-- What waits is what follows the messages used. -/
structure Paired (S w : Fin n → List Ev) (out : List (Fin n → Option Ev)) : Prop where
  rest : ∀ i, w i = (S i).drop out.length
  most : ∀ i, out.length ≤ (S i).length
  sets : ∀ k (h : k < out.length) i, out[k] i = (S i)[k]?

theorem Paired.push {S w : Fin n → List Ev} {out} (h : Paired S w out) (i : Fin n) (e : Ev) :
    Paired (upd S i (S i ++ [e])) (upd w i (w i ++ [e])) out := by
  have hm := h.most
  refine ⟨fun j => ?_, fun j => ?_, fun k hk j => ?_⟩
  · by_cases hj : j = i
    · subst hj; rw [upd_same, upd_same, h.rest j, List.drop_append_of_le_length (hm j)]
    · rw [upd_ne _ _ hj, upd_ne _ _ hj]; exact h.rest j
  · by_cases hj : j = i
    · subst hj; rw [upd_same]; have := hm j; simp; omega
    · rw [upd_ne _ _ hj]; exact hm j
  · rw [h.sets k hk j]
    by_cases hj : j = i
    · subst hj; rw [upd_same, List.getElem?_append_left (by have := hm j; omega)]
    · rw [upd_ne _ _ hj]

theorem Paired.output {S w : Fin n → List Ev} {out} (h : Paired S w out) (hw : ∀ i, w i ≠ []) :
    Paired S (fun i => (w i).tail) (out ++ [fun i => (w i).head?]) := by
  have hlt : ∀ i, out.length < (S i).length := by
    intro i
    have h1 := hw i
    rw [h.rest i] at h1
    apply Classical.byContradiction
    intro h2
    exact h1 (List.drop_eq_nil_of_le (by omega))
  refine ⟨fun i => ?_, fun i => ?_, fun k hk i => ?_⟩
  · rw [h.rest i]; simp
  · have := hlt i; simp; omega
  · rw [List.getElem_append]
    split
    · rename_i h1; exact h.sets k h1 i
    · rename_i h1
      simp at hk
      have : k = out.length := by omega
      subst this
      simp only [List.getElem_singleton]
      rw [h.rest i, List.head?_drop]

theorem Paired.oneByOne {S w : Fin n → List Ev} {out} (h : Paired S w out) (he : ∃ i, w i = []) : OneByOne S out := by
  refine ⟨h.sets, h.most, ?_⟩
  obtain ⟨i, hi⟩ := he
  refine ⟨i, ?_⟩
  rw [h.rest i] at hi
  have := List.drop_eq_nil_iff.1 hi
  have := h.most i
  omega

/-- All stamps are `T`. -/
def Same (T : Int) (w : Fin n → List Ev) : Prop := ∀ i, ∀ e ∈ w i, e.stamp = T

theorem Same.drop {T : Int} {S w : Fin n → List Ev} {out} (h : Same T S) (hp : Paired S w out) : Same T w := by
  intro i e he
  rw [hp.rest i] at he
  exact h i e (List.drop_subset _ _ he)

theorem same_stream {T : Int} {ops : List (Fin n × Ev)} (h : ∀ op ∈ ops, op.2.stamp = T) : Same T (stream ops) :=
  fun _ _ he => h _ (mem_stream.1 he)

theorem InStepUpTo.prefix {q : Nat} {ops : List (Fin n × Ev)} {op} (h : InStepUpTo q (ops ++ [op])) : InStepUpTo q ops :=
  fun pre hp => h pre (hp.trans (List.prefix_append _ _))

/-- The room needed by what waits. -/
theorem Paired.short {q : Nat} {ops : List (Fin n × Ev)} {w : Fin n → List Ev} {out} (h : Paired (stream ops) w out)
    (hq : InStepUpTo q ops) (he : ∃ i, w i = []) (i : Fin n) : (w i).length ≤ q := by
  obtain ⟨j, hj⟩ := he
  have h1 := hq ops (List.prefix_refl _) i j
  rw [h.rest j] at hj
  have h2 := List.drop_eq_nil_iff.1 hj
  rw [h.rest i, List.length_drop]
  omega

end MF.Headerless

namespace MF.Epsilon
open MF.Headerless (Paired Same InStepUpTo)

variable {n : Nat}

/-- With equal stamps every iteration outputs a set. -/
theorem fire_same {eps T : Int} (heps : 0 ≤ eps) (hT : T < maxTime) {v : Fin n → List Ev} (hv : ∀ i, v i ≠ []) (hs : Same T v) :
    fire eps v = ([fun i => (v i).head?], fun i => (v i).tail) := by
  unfold fire
  rw [if_pos]
  unfold checkAll
  rw [List.all_eq_true]
  intro i _
  unfold withinEpsilon
  split
  · rfl
  · cases hvi : v i with
    | nil => exact absurd hvi (hv i)
    | cons e tl =>
      have he : e.stamp = T := hs i e (by rw [hvi]; simp)
      simp only [decide_eq_true_eq]
      rcases (getOlder_spec v).2.2 with h | ⟨j, x, tl', hvj, h⟩
      · rw [h]; dsimp only; omega
      · rw [h]
        have hx : x.stamp = T := hs j x (by rw [hvj]; simp)
        dsimp only
        omega

theorem steps_same {eps T : Int} (heps : 0 ≤ eps) (hT : T < maxTime) {S v w : Fin n → List Ev} {o out}
    (h : Steps eps v o w) (hS : Same T S) (hp : Paired S v out) : Paired S w (out ++ o) := by
  induction h generalizing out with
  | refl v => simpa using hp
  | head hv _ ih =>
    have hf := fire_same heps hT hv (hS.drop hp)
    rw [hf] at ih ⊢
    rw [← List.append_assoc]
    exact ih (hp.output hv)

theorem run_same [NeZero n] {fuel q : Nat} {eps T : Int} (heps : 0 ≤ eps) (hT : T < maxTime) : ∀ (ops : List (Fin n × Ev)) (s : State n),
    run fuel (construct n q eps) ops = .ok s → (∀ op ∈ ops, op.2.stamp = T) → InStepUpTo q ops →
    Paired (stream ops) s.events s.out := by
  apply runE_induction
  · intro _ _
    exact ⟨fun i => by simp [stream, construct], fun i => Nat.zero_le _, fun k hk => absurd hk (by simp [construct])⟩
  · intro ops s op s' hr ih hs hall hq
    obtain ⟨i, e⟩ := op
    obtain ⟨hinv, he, hqs⟩ := run_inv hr
    have hp := (ih (fun o ho => hall o (by simp [ho])) hq.prefix).push i e
    rw [← Approx.stream_snoc] at hp
    have hS := Headerless.same_stream hall
    obtain ⟨_, _, _, hadd⟩ := add_ok hinv hs
    cases hadd with
    | processed o _ hsteps hout =>
      rw [hout]
      rw [he] at hsteps
      exact steps_same heps hT hsteps hS hp
    | queued _ _ hev hout => rw [hev, hout]; exact hp
    | overflow hnot hlen _ _ =>
      exfalso
      have h1 := hp.short hq hnot i
      rw [upd_same, List.length_append, List.length_singleton] at h1
      have hlen : s.queueSize < (s.events i).length + 1 := hlen
      omega

end MF.Epsilon

namespace MF.Approx
open MF.Headerless (Paired Same InStepUpTo)

variable {n : Nat}

theorem st_same {T : Int} {v : Fin n → List Ev} (hv : ∀ i, v i ≠ []) (hs : Same T v) (i : Fin n) : st v i = T := by
  cases hvi : v i with
  | nil => exact absurd hvi (hv i)
  | cons e tl => rw [st_cons hvi]; exact hs i e (by rw [hvi]; simp)

/-- Nothing is kept back and nothing has been lost. -/
structure Calm (s : State n) : Prop where
  pivot : s.pivot = none
  past : ∀ i, s.past i = []
  dropped : ∀ i, s.hasDropped i = false

/-- With equal stamps every iteration outputs a set. -/
theorem pstep_same {T : Int} {s s' : State n} (hM : 0 ≤ s.cfg.maxInterval) (hf : 0 ≤ s.cfg.scale 0) (hne : ∀ i, s.deques i ≠ [])
    (hs : Same T s.deques) (hc : Calm s) (h : PStep s s') :
    Calm s' ∧ s'.cfg = s.cfg ∧ s'.deques = (fun i => (s.deques i).tail) ∧ s'.out = s.out ++ [fun i => (s.deques i).head?] := by
  have hst := st_same hne hs
  have hfresh : ∀ {m e p s1}, Examined s m e p s1 → s1 = fresh s m e := by
    intro m e p s1 hx
    cases hx with
    | fresh _ _ _ _ hs => exact hs
    | kept h1 => rw [hc.pivot] at h1; cases h1
    | better h1 => rw [hc.pivot] at h1; cases h1
  cases h with
  | delete m e hm he hp hc' hs' =>
    exfalso
    rcases hc' with hc' | hc'
    · rw [hst, hst] at hc'; omega
    · rw [hc.dropped] at hc'; cases hc'
  | go m e p hm he hx ha hpm hage =>
    exfalso
    have := hfresh hx
    subst this
    have h1 : (fresh s m e).cfg.scale (st s.deques e - st s.deques e) < st s.deques e - st s.deques m := hage
    rw [hst, hst, Int.sub_self] at h1
    have h2 : s.cfg.scale 0 < 0 := h1
    omega
  | publish m e p s1 hm he hx ha hw hs' =>
    have := hfresh hx
    subst this
    subst hs'
    have hview : ∀ i, view (fresh s m e) i = s.deques i := by
      intro i
      unfold fresh
      rw [view_moved]
      rfl
    refine ⟨⟨rfl, fun _ => rfl, fun i => ?_⟩, rfl, ?_, ?_⟩
    · show (if i ≠ e then false else s.hasDropped i) = false
      rw [hc.dropped]; simp
    · funext i
      show (view (fresh s m e) i).tail = _
      rw [hview]
    · rfl

theorem psteps_same {T : Int} {S : Fin n → List Ev} (hS : Same T S) {s s' : State n} (h : PSteps s s') (hM : 0 ≤ s.cfg.maxInterval)
    (hf : 0 ≤ s.cfg.scale 0) (hc : Calm s) (hp : Paired S s.deques s.out) : Calm s' ∧ Paired S s'.deques s'.out := by
  induction h with
  | done _ => exact ⟨hc, hp⟩
  | step hne h1 _ ih =>
    obtain ⟨g1, g2, g3, g4⟩ := pstep_same hM hf hne (hS.drop hp) hc h1
    refine ih (by rw [g2]; exact hM) (by rw [g2]; exact hf) g1 ?_
    rw [g3, g4]
    exact hp.output hne

theorem run_same [NeZero n] {fuel : Nat} {cfg : Cfg n} {T : Int} (hM : 0 ≤ cfg.maxInterval) (hf : 0 ≤ cfg.scale 0)
    (ops : List (Fin n × Ev)) : ∀ s, run fuel cfg ops = .ok s → (∀ op ∈ ops, op.2.stamp = T) → InStepUpTo cfg.queueSize ops →
    Calm s ∧ Paired (stream ops) s.deques s.out := by
  induction ops using snoc_induction with
  | h0 =>
    intro s h _ _
    have h := (runOps_ok h).2
    simp only [List.map_nil, runE, Except.ok.injEq] at h
    rw [← h]
    exact ⟨⟨rfl, fun _ => rfl, fun _ => rfl⟩, fun i => by simp [stream, init], fun i => Nat.zero_le _, fun k hk => absurd hk (by simp [init])⟩
  | hs ops op ih =>
    intro s' h hall hq
    obtain ⟨i, e⟩ := op
    obtain ⟨s, h1, h2⟩ := run_snoc_ok h
    obtain ⟨hinv, hcfg, _⟩ := run_facts h1
    obtain ⟨hc, hp⟩ := ih s h1 (fun o ho => hall o (by simp [ho])) hq.prefix
    have hp := hp.push i e
    rw [← stream_snoc] at hp
    obtain ⟨s1, p, hpush, hsteps, _, hcase⟩ := add_halves hinv h2
    dsimp only at hpush hcase
    have hc1 : Calm s1 := ⟨by rw [hpush.pivot]; exact hc.pivot, by rw [hpush.past]; exact hc.past, by rw [hpush.hasDropped]; exact hc.dropped⟩
    have hp1 : Paired (stream (ops ++ [(i, e)])) s1.deques s1.out := by rw [hpush.deques, hpush.out]; exact hp
    have hM1 : 0 ≤ s1.cfg.maxInterval := by rw [hpush.cfg, hcfg]; exact hM
    have hf1 : 0 ≤ s1.cfg.scale 0 := by rw [hpush.cfg, hcfg]; exact hf
    obtain ⟨hc2, hp2⟩ := psteps_same (Headerless.same_stream hall) hsteps hM1 hf1 hc1 hp1
    rcases hcase with ⟨_, rfl⟩ | ⟨hlen, _⟩
    · exact ⟨hc2, hp2⟩
    · exfalso
      have hl1 := hpush.inv hinv.loop
      obtain ⟨_, hemp⟩ := psteps_inv hl1 hsteps
      have := hp2.short hq hemp i
      unfold view at hlen
      rw [hc2.past i, List.nil_append, hcfg] at hlen
      omega

end MF.Approx

namespace MF.ExactTime
open MF.Headerless (collect)

variable {n : Nat}

/-- What is stored while all stamps are `T`. -/
def Holds (T : Int) (s : State n) (held : Fin n → Option Ev) : Prop :=
  (s.tuples = [] ∧ held = emptyTuple n) ∨ s.tuples = [(T, held)]

theorem isFull_some (t : Tuple n) : isFull t = true ↔ ∀ j, (t j).isSome := by
  unfold isFull
  rw [List.all_eq_true]
  exact ⟨fun h j => h j (List.mem_finRange j), fun h j _ => h j⟩

theorem add_same [NeZero n] {T : Int} {s s' : State n} {held : Fin n → Option Ev} (hh : Holds T s held) {i : Fin n} {e : Ev}
    (he : e.stamp = T) (hk : ∀ j x, held j = some x → x.stamp = T) (h : add s i e = .ok s') :
    (∀ j x, upd held i (some e) j = some x → x.stamp = T) ∧
    if ∀ j, (upd held i (some e) j).isSome then outs s'.log = outs s.log ++ [upd held i (some e)] ∧ Holds T s' (emptyTuple n)
    else outs s'.log = outs s.log ∧ Holds T s' (upd held i (some e)) := by
  have hk' : ∀ j x, upd held i (some e) j = some x → x.stamp = T := by
    intro j x hx
    by_cases hj : j = i
    · subst hj; rw [upd_same] at hx; cases hx; exact he
    · rw [upd_ne _ _ hj] at hx; exact hk j x hx
  refine ⟨hk', ?_⟩
  have ht : tupleAt e.stamp s.tuples = held := by
    rcases hh with ⟨h1, h2⟩ | h1
    · rw [h1, h2]; rfl
    · rw [h1, he]; simp [tupleAt]
  have hst : store e.stamp (upd held i (some e)) s.tuples = [(T, upd held i (some e))] := by
    rcases hh with ⟨h1, h2⟩ | h1
    · rw [h1, he]; rfl
    · rw [h1, he]; simp [store]
  have hghost : ∀ l : List Ev, outs (l.map (Action.replaced (n := n) i)) = [] := by
    intro l; induction l with
    | nil => rfl
    | cons x l ih => simpa [outs] using ih
  unfold add at h
  simp only [ht, hst] at h
  unfold checkTuple at h
  by_cases hfull : ∀ j, (upd held i (some e) j).isSome
  · rw [if_pos hfull]
    rw [if_pos ((isFull_some _).2 hfull)] at h
    cases h0 : upd held i (some e) 0 with
    | none => have := hfull 0; rw [h0] at this; cases this
    | some e0 =>
      rw [h0] at h
      have h00 := hk' 0 e0 h0
      simp only [h00] at h
      have hnil : List.filter (fun p : Int × Tuple n => decide (p.1 ≠ T)) [(T, upd held i (some e))] = [] := by simp
      rw [hnil] at h
      simp only [clearOldTuples, dropExceeding, dropRange, List.takeWhile_nil, List.dropWhile_nil, List.map_nil, List.append_nil,
        List.length_nil] at h
      rw [if_neg (by omega)] at h
      cases h
      refine ⟨?_, Or.inl ⟨rfl, rfl⟩⟩
      dsimp only
      rw [outs_append, outs_append, hghost, List.append_nil]
      rfl
  · rw [if_neg hfull]
    rw [if_neg (fun h => hfull ((isFull_some _).1 h))] at h
    unfold dropExceeding at h
    dsimp only [List.length_singleton] at h
    rw [if_neg (by omega)] at h
    cases h
    refine ⟨?_, Or.inr rfl⟩
    dsimp only
    rw [outs_append, hghost, List.append_nil]

theorem run_same [NeZero n] {T : Int} : ∀ (ops : List (Fin n × Ev)) (s s' : State n) (held : Fin n → Option Ev),
    Holds T s held → (∀ j x, held j = some x → x.stamp = T) → (∀ op ∈ ops, op.2.stamp = T) → run s ops = .ok s' →
    outs s'.log = outs s.log ++ collect held ops := by
  intro ops
  induction ops with
  | nil => intro s s' held _ _ _ h; simp only [run, runE, Except.ok.injEq] at h; subst h; simp [collect]
  | cons op ops ih =>
    intro s s' held hh hk hall h
    unfold run at h
    simp only [runE] at h
    cases ha : add s op.1 op.2 with
    | error f => rw [ha] at h; cases h
    | ok s1 =>
      rw [ha] at h
      obtain ⟨h1, h2⟩ := add_same hh (hall op (by simp)) hk ha
      simp only [collect]
      by_cases hfull : ∀ j, (upd held op.1 (some op.2) j).isSome
      · rw [if_pos hfull] at h2 ⊢
        have := ih s1 s' _ h2.2 (fun j x hx => by cases hx) (fun o ho => hall o (by simp [ho])) h
        rw [this, h2.1, List.append_assoc]
        rfl
      · rw [if_neg hfull] at h2 ⊢
        have := ih s1 s' _ h2.2 h1 (fun o ho => hall o (by simp [ho])) h
        rw [this, h2.1]

end MF.ExactTime
