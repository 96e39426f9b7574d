import Verif.Proofs.ApproxChoice
import Verif.Props.ApproxEarly
import Verif.Props.ApproxMaximal
/-
C109: what an ApproximateTime synchronizer outputs, without reference to how it searches.
-/
namespace MF.ApproxSpec

variable {n : Nat}

/-- **C109** (there is one choice).  On strictly increasing streams the description determines the sequence of sets. -/
theorem C109_unique [NeZero n] {M num den : Int} {d : Fin n → List Ev} (hs : ∀ i, StrictlyTimeSorted (d i)) {l l' : List (Fin n → Ev)}
    (h : Chosen M num den d l) (h' : Chosen M num den d l') : l = l' := by
  induction h generalizing l' with
  | done h =>
    cases h' with
    | done _ => rfl
    | set hb _ => exact absurd ⟨_, hb.1.1⟩ h
  | set hb _ ih =>
    cases h' with
    | done h => exact absurd ⟨_, hb.1.1⟩ h
    | set hb' h' =>
      have := best_unique hs hb hb'
      subst this
      rw [ih (newerThan_strict hs) h']

/-- **C109** (there is a choice).  With an age penalty of at least 0 strictly increasing streams always have such a sequence. -/
theorem C109_exists [NeZero n] (M num den : Int) (hden : 0 < den) (hnum : den ≤ num) (d : Fin n → List Ev)
    (hs : ∀ i, StrictlyTimeSorted (d i)) : ∃ l, Chosen M num den d l :=
  ⟨_, sets_chosen (tdiv_exact (by omega) hden) hden hnum d hs⟩

/-- **C109** (contiguous without a limit).  If the maximum interval excludes nothing, a set is contiguous if it takes the first
message of some stream. -/
theorem C109_contiguous_unlimited [NeZero n] {M : Int} {d : Fin n → List Ev} (hs : ∀ i, StrictlyTimeSorted (d i))
    (hM : ∀ i j, ∀ x ∈ d i, ∀ y ∈ d j, x.stamp - y.stamp ≤ M) (T : Fin n → Ev) :
    Contiguous M d T ↔ (∀ i, T i ∈ d i) ∧ ∃ i, (d i).head? = some (T i) := by
  constructor
  · rintro ⟨⟨h1, _⟩, h2⟩
    refine ⟨h1, ?_⟩
    apply Classical.byContradiction
    intro h3
    have hne : ∀ i, d i ≠ [] := by intro i h0; have := h1 i; rw [h0] at this; simp at this
    have hcons := fronts_ne (fronts_some hne)
    refine h2 ⟨fun i => (d i).headD default, ⟨fun i => ?_, fun i j => hM i j _ ?_ _ ?_⟩, fun i => ?_⟩
    · rw [hcons i]; simp
    · rw [hcons i]; simp
    · rw [hcons j]; simp
    · have h4 := h1 i
      have h5 := hs i
      have h6 : ¬ (d i).head? = some (T i) := fun h => h3 ⟨i, h⟩
      cases hd : d i with
      | nil => exact absurd hd (hne i)
      | cons x tl =>
        rw [hd] at h4 h5 h6
        rcases List.mem_cons.1 h4 with h | h
        · exact absurd (by rw [h]; rfl) h6
        · show ((d i).headD default).stamp < _
          rw [hd]
          exact (List.pairwise_cons.1 h5).1 _ h
  · rintro ⟨h1, i, h2⟩
    refine ⟨⟨h1, fun i j => hM i j _ (h1 i) _ (h1 j)⟩, ?_⟩
    rintro ⟨U, hU, hlt⟩
    have h3 := hU.1 i
    have h4 := hlt i
    cases hd : d i with
    | nil => rw [hd] at h2; cases h2
    | cons x tl =>
      have h5 := hs i
      rw [hd] at h2 h3 h5
      simp only [List.head?_cons, Option.some.injEq] at h2
      rcases List.mem_cons.1 h3 with h | h
      · rw [h, h2] at h4; omega
      · have := (List.pairwise_cons.1 h5).1 _ h
        rw [h2] at this; omega

theorem chosen_split [NeZero n] {M num den : Int} : ∀ (pre : List (Fin n → Ev)) (d : Fin n → List Ev) (C : Fin n → Ev)
    (post : List (Fin n → Ev)), Chosen M num den d (pre ++ C :: post) →
    Best M num den (fun i => (d i).filter (fun x => pre.all (fun S => decide ((S i).stamp < x.stamp)))) C := by
  intro pre
  induction pre with
  | nil =>
    intro d C post h
    cases h with
    | set hb _ =>
      have e : (fun i => (d i).filter (fun x => ([] : List (Fin n → Ev)).all (fun S => decide ((S i).stamp < x.stamp)))) = d := by
        funext i; simp
      rw [e]; exact hb
  | cons S pre ih =>
    intro d C post h
    cases h with
    | set _ h =>
      have := ih _ C post h
      unfold newerThan at this
      simp only [List.filter_filter] at this
      simp only [List.all_cons]
      have e : (fun i => (d i).filter (fun x => decide ((S i).stamp < x.stamp) && pre.all (fun S => decide ((S i).stamp < x.stamp)))) =
          fun i => (d i).filter (fun x => pre.all (fun S => decide ((S i).stamp < x.stamp)) && decide ((S i).stamp < x.stamp)) := by
        funext i; congr 1; funext x; rw [Bool.and_comm]
      rw [e]; exact this

end MF.ApproxSpec

namespace MF.Approx
open MF.ApproxSpec (Spaced cost Possible Contiguous Best Chosen newerThan)

variable {n : Nat}

/-- **C109** (the output).  Let the inputs be strictly increasing and respect the lower bounds, now and in any future `fut`, and let no
queue overflow.  Then what has been output is the beginning of the sequence of best contiguous sets, whatever the future is. -/
theorem C109_output [NeZero n] (fuel : Nat) (cfg : Cfg n) (num den : Int) (hden : 0 < den) (hnum : den ≤ num)
    (hscale : cfg.scale = fun x => (x * num).tdiv den) (hlow : ∀ i, 0 ≤ cfg.lower i) (ops : List (Fin n × Ev)) (s : State n)
    (h : run fuel cfg ops = .ok s) (hq : NoOverflow fuel cfg ops) (fut : Fin n → List Ev)
    (hs : ∀ i, StrictlyTimeSorted (stream ops i ++ fut i)) (hsp : ∀ i, Spaced (cfg.lower i) (stream ops i ++ fut i))
    (l : List (Fin n → Ev)) (hl : Chosen cfg.maxInterval num den (fun i => stream ops i ++ fut i) l) :
    s.out <+: l.map (fun t i => some (t i)) := by
  have h1 := ApproxSpec.sets_chosen (f := cfg.scale) (M := cfg.maxInterval) (by rw [hscale]; exact ApproxSpec.tdiv_exact (by omega) hden)
    hden hnum _ hs
  rw [ApproxSpec.C109_unique hs hl h1]
  exact C33_prefix_of_canonical fuel cfg (by rw [hscale]; exact tdiv_mono (by omega) hden) hlow ops s h hq fut hsp

/-- **C109** (every set).  Each output set is the best contiguous one of all messages, received or still to come, that are newer than the
sets before it: it is possible, no possible set fits between it and the sets before, it has the least cost
`(1 + age_penalty) * latest - earliest` of all such sets and, where another one has the same cost, the older messages. -/
theorem C109_every_set [NeZero n] (fuel : Nat) (cfg : Cfg n) (num den : Int) (hden : 0 < den) (hnum : den ≤ num)
    (hscale : cfg.scale = fun x => (x * num).tdiv den) (hlow : ∀ i, 0 ≤ cfg.lower i) (ops : List (Fin n × Ev)) (s : State n)
    (h : run fuel cfg ops = .ok s) (hq : NoOverflow fuel cfg ops) (fut : Fin n → List Ev)
    (hs : ∀ i, StrictlyTimeSorted (stream ops i ++ fut i)) (hsp : ∀ i, Spaced (cfg.lower i) (stream ops i ++ fut i))
    (pre post : List (Fin n → Ev)) (C : Fin n → Ev) (hout : s.out = (pre ++ C :: post).map (fun t i => some (t i))) :
    Best cfg.maxInterval num den
      (fun i => (stream ops i ++ fut i).filter (fun x => pre.all (fun S => decide ((S i).stamp < x.stamp)))) C := by
  obtain ⟨l, hl⟩ := ApproxSpec.C109_exists cfg.maxInterval num den hden hnum _ hs
  have h1 := C109_output fuel cfg num den hden hnum hscale hlow ops s h hq fut hs hsp l hl
  obtain ⟨post', hp⟩ : ∃ post', l = pre ++ C :: post' := by
    obtain ⟨r, hr⟩ := h1
    rw [hout] at hr
    have hinj : ∀ a b : Fin n → Ev, (fun i => some (a i)) = (fun i => some (b i)) → a = b :=
      fun a b h => funext fun i => Option.some.inj (congrFun h i)
    have h2 : (pre ++ C :: post) = l.take (pre ++ C :: post).length := by
      apply (List.map_inj_right (f := fun (t : Fin n → Ev) (i : Fin n) => some (t i)) (fun a b h => hinj a b h)).1
      rw [List.map_take, ← hr, List.take_left' (by simp)]
    refine ⟨post ++ l.drop (pre ++ C :: post).length, ?_⟩
    conv => lhs; rw [← List.take_append_drop (pre ++ C :: post).length l, ← h2]
    simp
  rw [hp] at hl
  exact ApproxSpec.chosen_split pre _ C post' hl

/-- **C109** (when).  With two inputs and positive lower bounds a set is output exactly when it is certain: when it is the `k`-th set of
the sequence of best contiguous sets for every future that respects the lower bounds. -/
theorem C109_when (fuel : Nat) (cfg : Cfg 2) (num den : Int) (hden : 0 < den) (hnum : den ≤ num)
    (hscale : cfg.scale = fun x => (x * num).tdiv den) (hlow : ∀ i, 0 < cfg.lower i) (ops : List (Fin 2 × Ev)) (s : State 2)
    (h : run fuel cfg ops = .ok s) (hq : NoOverflow fuel cfg ops) (hsp : ∀ i, Spaced (cfg.lower i) (stream ops i)) (k : Nat)
    (C : Fin 2 → Ev) :
    s.out[k]? = some (fun i => some (C i)) ↔
      ∀ fut : Fin 2 → List Ev, (∀ i, Spaced (cfg.lower i) (stream ops i ++ fut i)) →
        ∀ l, Chosen cfg.maxInterval num den (fun i => stream ops i ++ fut i) l → l[k]? = some C := by
  rw [C89_two_inputs_exact fuel cfg num den hden (by omega) hscale (fun i => by have := hlow i; omega) ops s h hq hsp k C]
  have hch := fun (fut : Fin 2 → List Ev) (hf : ∀ i, Spaced (cfg.lower i) (stream ops i ++ fut i)) =>
    ApproxSpec.sets_chosen (f := cfg.scale) (M := cfg.maxInterval) (num := num) (den := den)
      (by rw [hscale]; exact ApproxSpec.tdiv_exact (by omega) hden) hden hnum (fun i => stream ops i ++ fut i)
      (fun i => (hf i).imp (fun h => by have := hlow i; omega))
  constructor
  · intro hd fut hf l hl
    have hs : ∀ i, StrictlyTimeSorted (stream ops i ++ fut i) := fun i => (hf i).imp (fun h => by have := hlow i; omega)
    rw [ApproxSpec.C109_unique hs hl (hch fut hf)]
    exact hd fut hf
  · intro hd fut hf
    exact hd fut hf _ (hch fut hf)

/-- The hypotheses hold for the sample history, with one more message on each input to come; two sets are output. -/
example : (0 : Int) < 10 ∧ (10 : Int) ≤ 11 ∧ sampleCfg.scale = (fun x => (x * 11).tdiv 10) ∧ NoOverflow 100 sampleCfg sampleOps ∧
    (∀ i, StrictlyTimeSorted (stream sampleOps i ++ [⟨7, 200⟩])) ∧
    ∃ s, run 100 sampleCfg sampleOps = .ok s ∧
      s.out.map List.ofFn = [[some ⟨2, 103⟩, some ⟨1, 100⟩], [some ⟨3, 140⟩, some ⟨4, 141⟩]] := by
  refine ⟨by decide, by decide, rfl, noOverflow_of_short (by decide), ?_, _, rfl, by decide⟩
  intro i; unfold StrictlyTimeSorted; revert i; decide

/-- **C109** (cost, not agreement, decides).  Two sets that share a message can both be contiguous: the one of least cost is output.  Here
with an age penalty of 0.1 the set of the messages at 103 and 100 is chosen, not the one of the messages at 90 and 100. -/
theorem C109_two_contiguous : ∃ s, run 100 { sampleCfg with maxInterval := 1000 } sampleOps = .ok s ∧
    Contiguous 1000 (stream sampleOps) (fun i => if i = 0 then ⟨0, 90⟩ else ⟨1, 100⟩) ∧
    Contiguous 1000 (stream sampleOps) (fun i => if i = 0 then ⟨2, 103⟩ else ⟨1, 100⟩) ∧
    s.out.head?.map List.ofFn = some [some ⟨2, 103⟩, some ⟨1, 100⟩] := by
  refine ⟨_, rfl, ?_, ?_, by decide⟩
  all_goals
    rw [ApproxSpec.C109_contiguous_unlimited (fun i => by unfold StrictlyTimeSorted; revert i; decide) (by decide)]
    exact ⟨by decide, 1, by decide⟩

/-- **C109** (equal cost: the older set).  Without an age penalty the sets of the messages at 10 and 0, and at 10 and 20, have the same
cost; the older one is output. -/
theorem C109_tie : ∃ s, run 100 (⟨10, 1000, fun x => (x * 1).tdiv 1, fun _ => 0⟩ : Cfg 2)
      [(0, ⟨0, 10⟩), (1, ⟨1, 0⟩), (1, ⟨2, 20⟩), (0, ⟨3, 50⟩)] = .ok s ∧
    s.out.map List.ofFn = [[some ⟨0, 10⟩, some ⟨1, 0⟩]] ∧
    cost 1 1 (fun i : Fin 2 => if i = 0 then ⟨0, 10⟩ else ⟨1, 0⟩) = cost 1 1 (fun i : Fin 2 => if i = 0 then ⟨0, 10⟩ else ⟨2, 20⟩) :=
  ⟨_, rfl, by decide, by decide⟩

/-- **C109** (the room is needed).  With queues of one message the set of the two messages at 100 is lost: what is output is not
contiguous. -/
theorem C109_room_needed : ∃ s, run 100 { sampleCfg with queueSize := 1, maxInterval := 1000 }
      [(0, ⟨0, 100⟩), (0, ⟨1, 200⟩), (1, ⟨2, 100⟩), (1, ⟨3, 200⟩)] = .ok s ∧
    s.out.map List.ofFn = [[some ⟨1, 200⟩, some ⟨3, 200⟩]] ∧
    ¬ Contiguous 1000 (stream [(0, ⟨0, 100⟩), (0, ⟨1, 200⟩), (1, ⟨2, 100⟩), (1, ⟨3, 200⟩)])
      (fun i : Fin 2 => if i = 0 then ⟨1, 200⟩ else ⟨3, 200⟩) := by
  refine ⟨_, rfl, by decide, ?_⟩
  rw [ApproxSpec.C109_contiguous_unlimited (fun i => by unfold StrictlyTimeSorted; revert i; decide) (by decide)]
  rintro ⟨_, i, hi⟩
  revert hi
  revert i
  decide

end MF.Approx
