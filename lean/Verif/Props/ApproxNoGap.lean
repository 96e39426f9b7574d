import Verif.Props.AgePenalty
/-
C133: a set of ApproximateTime passes over no message in its time span.
-/
namespace MF.Approx

variable {n : Nat}

open MF.ApproxSpec (Spaced startOf endOf)

/-- **C133**.  Let the messages of each input be strictly increasing and respect the lower bounds, now and in any future `fut`, and let no queue
overflow.  Each output set takes from every input the first message from the time of its oldest message on that is newer than the sets before it: a
message `x` of input `i` (received or still to come) that is not older than the whole set and yet older than the message of input `i` in the set is
not newer than the message of input `i` in some set before. -/
theorem C133_no_gap [NeZero n] (fuel : Nat) (cfg : Cfg n) (num den : Int) (hden : 0 < den) (hnum : den ≤ num)
    (hscale : cfg.scale = fun x => (x * num).tdiv den) (hlow : ∀ i, 0 ≤ cfg.lower i) (ops : List (Fin n × Ev)) (s : State n)
    (h : run fuel cfg ops = .ok s) (hq : NoOverflow fuel cfg ops) (fut : Fin n → List Ev)
    (hs : ∀ i, StrictlyTimeSorted (stream ops i ++ fut i)) (hsp : ∀ i, Spaced (cfg.lower i) (stream ops i ++ fut i))
    (pre post : List (Fin n → Ev)) (C : Fin n → Ev) (hout : s.out = (pre ++ C :: post).map (fun t i => some (t i)))
    (i j : Fin n) (x : Ev) (hx : x ∈ stream ops i ++ fut i) (hj : (C j).stamp ≤ x.stamp) (hlt : x.stamp < (C i).stamp) :
    ∃ S ∈ pre, x.stamp ≤ (S i).stamp := by
  have h1 := C109_every_set fuel cfg num den hden hnum hscale hlow ops s h hq fut hs hsp pre post C hout
  apply Classical.byContradiction
  intro hno
  have hmem : x ∈ (stream ops i ++ fut i).filter (fun x => pre.all (fun S => decide ((S i).stamp < x.stamp))) := by
    refine List.mem_filter.2 ⟨hx, List.all_eq_true.2 fun S hS => decide_eq_true ?_⟩
    apply Classical.byContradiction
    intro hc
    exact hno ⟨S, hS, by omega⟩
  have := ApproxSpec.best_first hden (by omega) h1 i j x hmem hj
  omega

/-- **C133** (the first set).  The first set has on every input the first message from the time of its oldest message on. -/
theorem C133_first_set [NeZero n] (fuel : Nat) (cfg : Cfg n) (num den : Int) (hden : 0 < den) (hnum : den ≤ num)
    (hscale : cfg.scale = fun x => (x * num).tdiv den) (hlow : ∀ i, 0 ≤ cfg.lower i) (ops : List (Fin n × Ev)) (s : State n)
    (h : run fuel cfg ops = .ok s) (hq : NoOverflow fuel cfg ops) (fut : Fin n → List Ev)
    (hs : ∀ i, StrictlyTimeSorted (stream ops i ++ fut i)) (hsp : ∀ i, Spaced (cfg.lower i) (stream ops i ++ fut i))
    (post : List (Fin n → Ev)) (C : Fin n → Ev) (hout : s.out = (C :: post).map (fun t i => some (t i))) (i : Fin n) :
    ((stream ops i ++ fut i).find? (fun x => decide (∃ j, (C j).stamp ≤ x.stamp))) = some (C i) := by
  have h1 := C109_every_set fuel cfg num den hden hnum hscale hlow ops s h hq fut hs hsp [] post C hout
  have hCi : C i ∈ stream ops i ++ fut i := (List.mem_filter.1 (h1.1.1.1 i)).1
  obtain ⟨a, b, hab⟩ := List.append_of_mem hCi
  rw [hab]
  have ha : ∀ x ∈ a, decide (∃ j, (C j).stamp ≤ x.stamp) = false := by
    intro x hx
    apply decide_eq_false
    intro ⟨j, hj⟩
    have hsi := hs i
    rw [hab] at hsi
    have hlt : x.stamp < (C i).stamp := (List.pairwise_append.1 hsi).2.2 x hx (C i) (by simp)
    obtain ⟨S, hS, _⟩ := C133_no_gap fuel cfg num den hden hnum hscale hlow ops s h hq fut hs hsp [] post C hout i j x (by rw [hab]; simp [hx]) hj hlt
    cases hS
  rw [List.find?_append, List.find?_eq_none.2 (fun x hx => by rw [ha x hx]; exact Bool.noConfusion)]
  rw [List.find?_cons_of_pos (by exact decide_eq_true ⟨i, Int.le_refl _⟩)]
  rfl

/-- The hypotheses hold for the sample history; its first set is 103-100: both are the first messages from 100 on. -/
example : (0 : Int) < 10 ∧ (10 : Int) ≤ 11 ∧ sampleCfg.scale = (fun x => (x * 11).tdiv 10) ∧ NoOverflow 100 sampleCfg sampleOps ∧
    (∀ i, StrictlyTimeSorted (stream sampleOps i ++ [⟨7, 200⟩])) ∧
    ∃ s, run 100 sampleCfg sampleOps = .ok s ∧
      s.out.map List.ofFn = [[some ⟨2, 103⟩, some ⟨1, 100⟩], [some ⟨3, 140⟩, some ⟨4, 141⟩]] := by
  refine ⟨by decide, by decide, rfl, noOverflow_of_short (by decide), ?_, _, rfl, by decide⟩
  intro i; unfold StrictlyTimeSorted; revert i; decide

/-- **C133** (the sets before matter).  The second set is 11-15 although the second input has a message at 12: that one was used by the first set. -/
theorem C133_used_before : ∃ s, run 100 (⟨10, 50, fun x => (x * 11).tdiv 10, fun _ => 0⟩ : Cfg 2)
      [(0, ⟨0, 10⟩), (1, ⟨1, 0⟩), (0, ⟨2, 11⟩), (1, ⟨3, 12⟩), (1, ⟨4, 15⟩), (0, ⟨5, 100⟩), (1, ⟨6, 200⟩)] = .ok s ∧
    s.out.map List.ofFn = [[some ⟨0, 10⟩, some ⟨3, 12⟩], [some ⟨2, 11⟩, some ⟨4, 15⟩]] := ⟨_, rfl, by decide⟩

end MF.Approx
