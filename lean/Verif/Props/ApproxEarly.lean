import Verif.Proofs.Approx11
import Verif.Spec.ApproxEarly
/-
When ApproximateTime outputs a set: C89.
-/
namespace MF.Approx
open MF.ApproxSpec (Spaced Determined sets)

variable {n : Nat}

/-- **C89** (never too early).  Let no queue overflow.  Every set that was output is determined by the messages received
so far and the configured minimum distances. -/
theorem C89_output_is_determined [NeZero n] (fuel : Nat) (cfg : Cfg n)
    (hmono : ∀ x y, x ≤ y → cfg.scale x ≤ cfg.scale y) (hlow : ∀ i, 0 ≤ cfg.lower i)
    (ops : List (Fin n × Ev)) (s : State n) (h : run fuel cfg ops = .ok s) (hq : NoOverflow fuel cfg ops)
    (k : Nat) (C : Fin n → Ev) (hout : s.out[k]? = some (fun i => some (C i))) :
    Determined cfg.scale cfg.maxInterval cfg.lower (stream ops) k C := by
  intro later hsp
  have hcan := (run_canonical_fits true hmono hlow ops s h hq later hsp).2 rfl
  rw [← lift_get, hcan]
  have hk : k < s.out.length := by
    apply Classical.byContradiction
    intro hk
    rw [List.getElem?_eq_none (by omega)] at hout; cases hout
  rw [List.getElem?_append_left hk]
  exact hout

/-- **C89** (two inputs: exactly on time).  Let no queue overflow, let the messages received respect the configured minimum
distances and let `1 + age_penalty = num / den`.  A synchronizer with two inputs has output `C` as its `k`-th set if and
only if the messages received so far and the minimum distances determine it: no set is output later than it could be. -/
theorem C89_two_inputs_exact (fuel : Nat) (cfg : Cfg 2) (num den : Int) (hden : 0 < den) (hnum : 0 ≤ num)
    (hscale : cfg.scale = fun x => (x * num).tdiv den) (hlow : ∀ i, 0 ≤ cfg.lower i)
    (ops : List (Fin 2 × Ev)) (s : State 2) (h : run fuel cfg ops = .ok s) (hq : NoOverflow fuel cfg ops)
    (hsp : ∀ i, Spaced (cfg.lower i) (stream ops i)) (k : Nat) (C : Fin 2 → Ev) :
    s.out[k]? = some (fun i => some (C i)) ↔ Determined cfg.scale cfg.maxInterval cfg.lower (stream ops) k C := by
  have hmono : ∀ x y, x ≤ y → cfg.scale x ≤ cfg.scale y := by rw [hscale]; exact tdiv_mono hnum hden
  exact ⟨C89_output_is_determined fuel cfg hmono hlow ops s h hq k C,
    wait_exact hden hnum hscale hlow ops s h hq hsp ((run_one ops s h).2 rfl) k C⟩

/-- Two inputs; on the second, messages are at least 50 apart. -/
def earlyCfg : Cfg 2 :=
  { queueSize := 10, maxInterval := 1000000, scale := fun x => (x * 11).tdiv 10, lower := fun i => if i = 0 then 0 else 50 }

def earlyOps : List (Fin 2 × Ev) := [(0, ⟨0, 100⟩), (1, ⟨1, 90⟩)]

/-- The set (100, 90) is output at once: the next message on the second input is at 140 or later. -/
example : (∃ s, run 100 earlyCfg earlyOps = .ok s ∧ s.out.map List.ofFn = [[some ⟨0, 100⟩, some ⟨1, 90⟩]]) ∧
    NoOverflow 100 earlyCfg earlyOps ∧ (∀ i, 0 ≤ earlyCfg.lower i) ∧ ∀ i, Spaced (earlyCfg.lower i) (stream earlyOps i) :=
  ⟨⟨_, rfl, by decide⟩, noOverflow_of_check (by decide), by decide, by unfold Spaced; decide⟩

/-- Without the minimum distance it is not output yet, and indeed a message at 100 on the second input would be in a better
set. -/
example : (∃ s, run 100 { earlyCfg with lower := fun _ => 0 } earlyOps = .ok s ∧ s.out = []) ∧
    ¬ Determined earlyCfg.scale earlyCfg.maxInterval (fun _ => 0) (stream earlyOps) 0 (fun i => if i = 0 then ⟨0, 100⟩ else ⟨1, 90⟩) := by
  refine ⟨⟨_, rfl, rfl⟩, ?_⟩
  intro h
  have := h (fun i => if i = 0 then [] else [⟨2, 100⟩]) (by unfold Spaced; decide)
  have h1 := congrArg (Option.map (fun t => t 1)) this
  revert h1
  decide

/-- **C89** (any number of inputs, at the moments that matter).  The same after a message on an input of which no message
was left to look at. -/
theorem C89_exact_partial [NeZero n] (fuel : Nat) (cfg : Cfg n) (num den : Int) (hden : 0 < den) (hnum : 0 ≤ num)
    (hscale : cfg.scale = fun x => (x * num).tdiv den) (hlow : ∀ i, 0 ≤ cfg.lower i)
    (ops : List (Fin n × Ev)) (i : Fin n) (e : Ev) (s0 s : State n) (h0 : run fuel cfg ops = .ok s0)
    (hi : s0.deques i = []) (h : run fuel cfg (ops ++ [(i, e)]) = .ok s) (hq : NoOverflow fuel cfg (ops ++ [(i, e)]))
    (hsp : ∀ j, Spaced (cfg.lower j) (stream (ops ++ [(i, e)]) j)) (k : Nat) (C : Fin n → Ev) :
    s.out[k]? = some (fun i => some (C i)) ↔
      Determined cfg.scale cfg.maxInterval cfg.lower (stream (ops ++ [(i, e)])) k C := by
  have hmono : ∀ x y, x ≤ y → cfg.scale x ≤ cfg.scale y := by rw [hscale]; exact tdiv_mono hnum hden
  obtain ⟨s1, g1, g2⟩ := run_snoc_ok h
  rw [h0] at g1; cases g1
  exact ⟨C89_output_is_determined fuel cfg hmono hlow _ s h hq k C,
    wait_exact hden hnum hscale hlow _ s h hq hsp ((add_waits fuel (run_facts h0).1 (run_one ops s0 h0).1 i e g2).2 (Or.inl hi)) k C⟩

/-- **C89** (any number of inputs: how long a set can be withheld).  Once a set is determined, there is an input such that
any next message on it brings the set out, if it was not output already. -/
theorem C89_next_arrival_partial [NeZero n] (fuel : Nat) (cfg : Cfg n) (num den : Int) (hden : 0 < den) (hnum : 0 ≤ num)
    (hscale : cfg.scale = fun x => (x * num).tdiv den) (hlow : ∀ i, 0 ≤ cfg.lower i)
    (ops : List (Fin n × Ev)) (s0 : State n) (h0 : run fuel cfg ops = .ok s0)
    (k : Nat) (C : Fin n → Ev) (hdet : Determined cfg.scale cfg.maxInterval cfg.lower (stream ops) k C) :
    ∃ i, ∀ e s, run fuel cfg (ops ++ [(i, e)]) = .ok s → NoOverflow fuel cfg (ops ++ [(i, e)]) →
      (∀ j, Spaced (cfg.lower j) (stream (ops ++ [(i, e)]) j)) → s.out[k]? = some (fun i => some (C i)) := by
  obtain ⟨i, hi⟩ := (run_facts h0).1.someEmpty
  refine ⟨i, ?_⟩
  intro e s h hq hsp
  refine (C89_exact_partial fuel cfg num den hden hnum hscale hlow ops i e s0 s h0 hi h hq hsp k C).2 ?_
  intro later hl
  have h1 : (fun j => stream (ops ++ [(i, e)]) j ++ later j) = fun j => stream ops j ++ (stream [(i, e)] j ++ later j) := by
    funext j; rw [stream_append, List.append_assoc]
  rw [h1]
  refine hdet (fun j => stream [(i, e)] j ++ later j) ?_
  intro j
  have := hl j
  rw [stream_append, List.append_assoc] at this
  exact this

/-- A three-input synchronizer with the default age penalty and no minimum distances. -/
def withheldCfg : Cfg 3 :=
  { queueSize := 10, maxInterval := 1000000, scale := fun x => (x * 11).tdiv 10, lower := fun _ => 0 }

/-- 100, 90 and 90 arrive on the inputs, then 200 on the last. -/
def withheldOps : List (Fin 3 × Ev) := [(0, ⟨0, 100⟩), (1, ⟨1, 90⟩), (2, ⟨2, 90⟩), (2, ⟨3, 200⟩)]

def withheldSet : Fin 3 → Ev := fun i => if i = 0 then ⟨0, 100⟩ else if i = 1 then ⟨1, 90⟩ else ⟨2, 90⟩

theorem withheld_state : ∃ s, run 100 withheldCfg withheldOps = .ok s ∧ s.out = [] ∧ s.pivot = some 0 ∧
    List.ofFn s.deques = [[⟨0, 100⟩], [], [⟨2, 90⟩, ⟨3, 200⟩]] ∧ candOf s = withheldSet ∧ s.cfg = withheldCfg := by
  refine ⟨_, rfl, rfl, rfl, by decide, ?_, rfl⟩
  funext i
  revert i
  decide

theorem withheld_noOverflow : NoOverflow 100 withheldCfg withheldOps := noOverflow_of_check (by decide)

/-- **C89 fails** with three inputs: the received messages determine the set (100, 90, 90), but it is not output.  (The
queues are looked at only when a message arrives on an exhausted input; here that is the second one, and 200 came on the
third.) -/
theorem C89_may_be_withheld :
    ∃ s, run 100 withheldCfg withheldOps = .ok s ∧ s.out = [] ∧ NoOverflow 100 withheldCfg withheldOps ∧
      (∀ i, Spaced (withheldCfg.lower i) (stream withheldOps i)) ∧
      Determined withheldCfg.scale withheldCfg.maxInterval withheldCfg.lower (stream withheldOps) 0 withheldSet := by
  obtain ⟨s, h, hout, hpv, hd, hc, hcfg⟩ := withheld_state
  refine ⟨s, h, hout, withheld_noOverflow, by unfold Spaced; decide, ?_⟩
  have hd0 : s.deques 0 = [⟨0, 100⟩] := by have := congrArg (fun l => l[0]?) hd; simpa [List.getElem?_ofFn] using this
  have hd1 : s.deques 1 = [] := by have := congrArg (fun l => l[1]?) hd; simpa [List.getElem?_ofFn] using this
  have hd2 : s.deques 2 = [⟨2, 90⟩, ⟨3, 200⟩] := by have := congrArg (fun l => l[2]?) hd; simpa [List.getElem?_ofFn] using this
  intro later hsp
  have hmono : ∀ x y, x ≤ y → withheldCfg.scale x ≤ withheldCfg.scale y := tdiv_mono (by decide) (by decide)
  have hcan := (run_canonical_fits true hmono (by decide) withheldOps s h withheld_noOverflow later hsp).2 rfl
  rw [← lift_get, hcan, hout, List.nil_append, lift_get]
  unfold rest
  rw [hpv, hc, hcfg]
  simp only
  have hsrch := ApproxSpec.search_unbeatable (closed := true) (f := withheldCfg.scale) (p := (0 : Fin 3)) (best := withheldSet)
    (after := afterCand s later) (P := 100) (full s later)
    ⟨⟨0, 100⟩, later 0, by unfold full; rw [hd0]; rfl, rfl⟩ (by
      intro T hT hT0 hb
      have hs : ApproxSpec.startOf withheldSet = 90 := by decide
      have he : ApproxSpec.endOf withheldSet = 100 := by decide
      unfold ApproxSpec.better at hb
      rw [hs, he] at hb
      have h1 : (100 : Int) ≤ ApproxSpec.endOf T := by rw [← hT0]; exact ApproxSpec.le_endOf T 0
      have h2 : ApproxSpec.startOf T ≤ 100 := by rw [← hT0]; exact ApproxSpec.startOf_le T 0
      have h3 := hT 2
      unfold full at h3
      rw [hd2] at h3
      have hsp2 := hsp 2
      have hst : stream withheldOps 2 = [⟨2, 90⟩, ⟨3, 200⟩] := by decide
      rw [hst] at hsp2
      have hge : T 2 = ⟨2, 90⟩ ∨ 200 ≤ (T 2).stamp := by
        simp only [List.cons_append, List.nil_append, List.mem_cons] at h3
        rcases h3 with h3 | h3 | h3
        · exact Or.inl h3
        · right; rw [h3]; decide
        · right
          unfold Spaced at hsp2
          simp only [List.cons_append, List.nil_append, List.pairwise_cons] at hsp2
          have := hsp2.2.1 (T 2) h3
          have hl : withheldCfg.lower 2 = 0 := rfl
          rw [hl] at this
          simpa using this
      rcases hge with h4 | h4
      · have h5 := ApproxSpec.startOf_le T 2
        rw [h4] at h5
        have h6 := hmono 0 (ApproxSpec.endOf T - 100) (by omega)
        have h7 : withheldCfg.scale 0 = 0 := rfl
        simp only at h5
        omega
      · have h5 := ApproxSpec.le_endOf T 2
        have h6 := hmono 100 (ApproxSpec.endOf T - 100) (by omega)
        have h7 : withheldCfg.scale 100 = 110 := rfl
        omega)
  rcases hsrch with h1 | ⟨h1, _⟩
  · rw [h1]; rfl
  · cases h1

/-- The next message on the second input brings it out, whatever its stamp (here 95). -/
example : ∃ s, run 100 withheldCfg (withheldOps ++ [(1, ⟨4, 95⟩)]) = .ok s ∧
    s.out.map List.ofFn = [[some ⟨0, 100⟩, some ⟨1, 90⟩, some ⟨2, 90⟩]] := ⟨_, rfl, by decide⟩

/-- Larger minimum distances, if the inputs respect them, never delay the output of a two-input synchronizer. -/
theorem C89_larger_bounds_only_help (fuel fuel' : Nat) (cfg : Cfg 2) (lower' : Fin 2 → Int) (num den : Int) (hden : 0 < den)
    (hnum : 0 ≤ num) (hscale : cfg.scale = fun x => (x * num).tdiv den) (hlow : ∀ i, 0 ≤ cfg.lower i)
    (hle : ∀ i, cfg.lower i ≤ lower' i) (ops : List (Fin 2 × Ev)) (s s' : State 2)
    (h : run fuel cfg ops = .ok s) (hq : NoOverflow fuel cfg ops)
    (h' : run fuel' { cfg with lower := lower' } ops = .ok s') (hq' : NoOverflow fuel' { cfg with lower := lower' } ops)
    (hsp : ∀ i, Spaced (lower' i) (stream ops i)) : s.out <+: s'.out := by
  have hmono : ∀ x y, x ≤ y → cfg.scale x ≤ cfg.scale y := by rw [hscale]; exact tdiv_mono hnum hden
  have hweak : ∀ i (l : List Ev), Spaced (lower' i) l → Spaced (cfg.lower i) l := by
    intro i l hl
    unfold Spaced at hl ⊢
    exact hl.imp (by intro a b hab; have := hle i; omega)
  have hfull := fun k C (hk : s.out[k]? = some (fun i => some (C i))) =>
    (C89_two_inputs_exact fuel' { cfg with lower := lower' } num den hden hnum hscale
      (fun i => Int.le_trans (hlow i) (hle i)) ops s' h' hq' hsp k C).2 (by
      intro later hl
      exact C89_output_is_determined fuel cfg hmono hlow ops s h hq k C hk later (fun i => hweak i _ (hl i)))
  -- every output set has all its slots filled
  have hcan := (run_canonical_fits true hmono hlow ops s h hq (fun _ => [])
    (by intro i; rw [List.append_nil]; exact hweak i _ (hsp i))).2 rfl
  have hsome : ∀ (k : Nat) t, s.out[k]? = some t → ∃ C : Fin 2 → Ev, t = fun i => some (C i) := by
    intro k t hk
    have hlt : k < s.out.length := by
      apply Classical.byContradiction
      intro hn; rw [List.getElem?_eq_none (by omega)] at hk; cases hk
    have : (lift (sets true cfg.scale cfg.maxInterval (fun i => stream ops i ++ [])))[k]? = some t := by
      rw [hcan, List.getElem?_append_left hlt]; exact hk
    unfold lift at this
    rw [List.getElem?_map] at this
    cases hg : (sets true cfg.scale cfg.maxInterval (fun i => stream ops i ++ []))[k]? with
    | none => rw [hg] at this; cases this
    | some C => rw [hg] at this; cases this; exact ⟨C, rfl⟩
  rw [List.prefix_iff_getElem?]
  intro k hk
  obtain ⟨C, hC⟩ := hsome k _ (List.getElem?_eq_getElem hk)
  rw [hC]
  exact hfull k C (by rw [List.getElem?_eq_getElem hk, hC])

end MF.Approx
