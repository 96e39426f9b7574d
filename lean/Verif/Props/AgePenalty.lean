import Verif.Props.ApproxChoice
import Verif.Props.ApproxLive
import Verif.Proofs.AgePenalty
/-
C132: what a larger age penalty of an ApproximateTime synchronizer changes.
-/
namespace MF.Approx

variable {n : Nat}

open MF.ApproxSpec (Spaced startOf endOf Possible Contiguous)

/-- **C132**.  Let two ApproximateTime synchronizers with different age penalties (`num / den - 1` and `num' / den - 1`, the latter being larger)
receive the same messages.  Let the messages of each input be strictly increasing and respect the lower bounds, and let no queue overflow.  As long as
both have output the same sets, the next set with the larger age penalty is at least as old as the next one with the smaller age penalty, on every
input, but spans at least as much time. -/
theorem C132_age_penalty [NeZero n] (fuel : Nat) (cfg : Cfg n) (num num' den : Int) (hden : 0 < den) (hnum : den ≤ num) (hlt : num < num')
    (hscale : cfg.scale = fun x => (x * num).tdiv den) (hlow : ∀ i, 0 ≤ cfg.lower i) (ops : List (Fin n × Ev)) (s s' : State n)
    (h : run fuel cfg ops = .ok s) (h' : run fuel { cfg with scale := fun x => (x * num').tdiv den } ops = .ok s')
    (hq : NoOverflow fuel cfg ops) (hq' : NoOverflow fuel { cfg with scale := fun x => (x * num').tdiv den } ops)
    (hs : ∀ i, StrictlyTimeSorted (stream ops i)) (hsp : ∀ i, Spaced (cfg.lower i) (stream ops i))
    (pre post post' : List (Fin n → Ev)) (C C' : Fin n → Ev) (hout : s.out = (pre ++ C :: post).map (fun t i => some (t i)))
    (hout' : s'.out = (pre ++ C' :: post').map (fun t i => some (t i))) :
    (∀ i, (C' i).stamp ≤ (C i).stamp) ∧ endOf C - startOf C ≤ endOf C' - startOf C' := by
  have h1 := C109_every_set fuel cfg num den hden hnum hscale hlow ops s h hq (fun _ => []) (by simpa using hs) (by simpa using hsp) pre post C hout
  have h2 := C109_every_set fuel { cfg with scale := fun x => (x * num').tdiv den } num' den hden (by omega) rfl hlow ops s' h' hq' (fun _ => [])
    (by simpa using hs) (by simpa using hsp) pre post' C' hout'
  exact ⟨ApproxSpec.best_age_penalty_each hden hnum hlt h1 h2, (ApproxSpec.best_age_penalty hden hnum hlt h1 h2).2.2⟩

/-- The hypotheses hold for the sample history with the age penalties 0.1 and 5. -/
example : sampleCfg.scale = (fun x => (x * 11).tdiv 10) ∧ NoOverflow 100 sampleCfg sampleOps ∧
    NoOverflow 100 { sampleCfg with scale := fun x => (x * 60).tdiv 10 } sampleOps ∧ (∀ i, StrictlyTimeSorted (stream sampleOps i)) ∧
    (∀ i, Spaced (sampleCfg.lower i) (stream sampleOps i)) := by
  refine ⟨rfl, noOverflow_of_short (by decide), noOverflow_of_short (by decide), fun i => ?_, fun i => ?_⟩
  · unfold StrictlyTimeSorted; revert i; decide
  · unfold Spaced; revert i; decide

/-- **C132** (the penalty matters).  With an age penalty of 0.1 the first set of the sample history is 103-100, with an age penalty of 5 it is
90-100: strictly older and strictly wider. -/
theorem C132_older_and_wider : (∃ s, run 100 sampleCfg sampleOps = .ok s ∧
      s.out.map List.ofFn = [[some ⟨2, 103⟩, some ⟨1, 100⟩], [some ⟨3, 140⟩, some ⟨4, 141⟩]]) ∧
    ∃ s', run 100 { sampleCfg with scale := fun x => (x * 60).tdiv 10 } sampleOps = .ok s' ∧
      s'.out.map List.ofFn = [[some ⟨0, 90⟩, some ⟨1, 100⟩], [some ⟨3, 140⟩, some ⟨4, 141⟩]] :=
  ⟨⟨_, rfl, by decide⟩, _, rfl, by decide⟩

/-- **C132** (place by place).  Under the same conditions, also when the sets before are different ones: the `k`-th set with the larger age penalty
is at least as old as the `k`-th set with the smaller one, on every input.  The maximum interval may be larger at the same time. -/
theorem C132_older [NeZero n] (fuel : Nat) (cfg : Cfg n) (num num' den : Int) (hden : 0 < den) (hnum : den ≤ num) (hle : num ≤ num')
    (M' : Int) (hM : cfg.maxInterval ≤ M')
    (hscale : cfg.scale = fun x => (x * num).tdiv den) (hlow : ∀ i, 0 ≤ cfg.lower i) (ops : List (Fin n × Ev)) (s s' : State n)
    (h : run fuel cfg ops = .ok s) (h' : run fuel { cfg with maxInterval := M', scale := fun x => (x * num').tdiv den } ops = .ok s')
    (hq : NoOverflow fuel cfg ops) (hq' : NoOverflow fuel { cfg with maxInterval := M', scale := fun x => (x * num').tdiv den } ops)
    (hs : ∀ i, StrictlyTimeSorted (stream ops i)) (hsp : ∀ i, Spaced (cfg.lower i) (stream ops i))
    (k : Nat) (C C' : Fin n → Ev) (hC : s.out[k]? = some (fun i => some (C i))) (hC' : s'.out[k]? = some (fun i => some (C' i))) :
    ∀ i, (C' i).stamp ≤ (C i).stamp := by
  obtain ⟨l, hl⟩ := ApproxSpec.C109_exists cfg.maxInterval num den hden hnum (fun i => stream ops i ++ []) (by simpa using hs)
  obtain ⟨l', hl'⟩ := ApproxSpec.C109_exists M' num' den hden (by omega) (fun i => stream ops i ++ []) (by simpa using hs)
  have h1 := C109_output fuel cfg num den hden hnum hscale hlow ops s h hq (fun _ => []) (by simpa using hs) (by simpa using hsp) l hl
  have h2 := C109_output fuel { cfg with maxInterval := M', scale := fun x => (x * num').tdiv den } num' den hden (by omega) rfl hlow ops s' h' hq' (fun _ => [])
    (by simpa using hs) (by simpa using hsp) l' hl'
  have g1 := getElem?_of_lifted h1 hC
  have g2 := getElem?_of_lifted h2 hC'
  obtain ⟨B, hB, hBC⟩ := ApproxSpec.chosen_later hM hden hnum hle (fun _ _ hx => hx) (fun _ _ _ hx _ _ => hx) hl hl' k C g1
  rw [g2] at hB
  rw [Option.some.inj hB]
  exact hBC

/-- **C132** (never fewer sets).  While every input keeps delivering (C94), a larger age penalty does not mean fewer sets: after at most four more
windows, the synchronizer with the larger age penalty has output more sets than the one with the smaller age penalty had before them.
The maximum interval may be larger at the same time. -/
theorem C132_never_fewer [NeZero n] (fuel : Nat) (cfg : Cfg n) (num num' den : Int) (hden : 0 < den) (hnum : den ≤ num) (hle : num ≤ num')
    (M' : Int) (hM : cfg.maxInterval ≤ M')
    (hscale : cfg.scale = fun x => (x * num).tdiv den) (hlow : ∀ i, 0 ≤ cfg.lower i)
    (m : Nat) (hm : 5 * m ≤ cfg.queueSize) (ws : List (List (Fin n × Ev))) (w1 w2 w3 w4 : List (Fin n × Ev))
    (hS : Sustained cfg.maxInterval m (ws ++ [w1, w2, w3, w4]))
    (hsp : ∀ i, Spaced (cfg.lower i) (stream (ws ++ [w1, w2, w3, w4]).flatten i))
    (hs : ∀ i, StrictlyTimeSorted (stream (ws ++ [w1, w2, w3, w4]).flatten i)) (s s' : State n) (h : run fuel cfg ws.flatten = .ok s)
    (h' : run fuel { cfg with maxInterval := M', scale := fun x => (x * num').tdiv den } (ws ++ [w1, w2, w3, w4]).flatten = .ok s') :
    s.out.length < s'.out.length := by
  have hst : ∀ i, stream (ws ++ [w1, w2, w3, w4]).flatten i = stream ws.flatten i ++ stream [w1, w2, w3, w4].flatten i := by
    intro i; rw [List.flatten_append, stream_append]
  have hS0 : Sustained cfg.maxInterval m ws := fun a w b he => hS a w (b ++ [w1, w2, w3, w4]) (by rw [he]; simp)
  have hq := C94_no_overflow fuel cfg num den hden (by omega) hscale hlow m ws hS0
    (fun i => by have := hsp i; rw [hst] at this; exact (List.pairwise_append.1 this).1) hm
  have hS' : Sustained M' m (ws ++ [w1, w2, w3, w4]) := fun a w b he =>
    ⟨(hS a w b he).1.imp fun T hT => ⟨hT.1, hT.2.1, fun i j => Int.le_trans (hT.2.2 i j) hM⟩, (hS a w b he).2⟩
  have hq' := C94_no_overflow fuel { cfg with maxInterval := M', scale := fun x => (x * num').tdiv den } num' den hden (by omega) rfl hlow m _ hS' hsp hm
  obtain ⟨l, hl⟩ := ApproxSpec.C109_exists cfg.maxInterval num den hden hnum _ hs
  obtain ⟨l', hl'⟩ := ApproxSpec.C109_exists M' num' den hden (by omega) _ hs
  have h1 := C109_output fuel cfg num den hden hnum hscale hlow _ s h hq (stream [w1, w2, w3, w4].flatten)
    (fun i => by rw [← hst]; exact hs i) (fun i => by rw [← hst]; exact hsp i) l (by simpa only [← hst] using hl)
  have h2 := C109_output fuel { cfg with maxInterval := M', scale := fun x => (x * num').tdiv den } num' den hden (by omega) rfl hlow _ s' h' hq' (fun _ => [])
    (by simpa using hs) (by simpa using hsp) l' (by simpa using hl')
  obtain ⟨t, ht, hnew⟩ := C94_recent fuel { cfg with maxInterval := M', scale := fun x => (x * num').tdiv den } num' den hden (by omega) rfl hlow m hm ws w1 w2 w3 w4
    hS' hsp s' h'
  obtain ⟨k, hk⟩ := List.getElem?_of_mem ht
  have hk' := getElem?_of_lifted h2 hk
  have hlen : k < s'.out.length := (List.getElem?_eq_some_iff.1 hk).1
  apply Classical.byContradiction
  intro hc
  have hks : k < s.out.length := by omega
  have hmem : s.out[k] ∈ s.out := List.getElem_mem hks
  obtain ⟨A, hA⟩ := Classical.axiomOfChoice (C27_complete_sets fuel cfg _ s h _ hmem)
  have hlift : s.out[k]? = some (fun i => some (A i)) := by
    rw [List.getElem?_eq_getElem hks]
    congr 1
    funext i; exact (hA i).1
  have g1 := getElem?_of_lifted h1 hlift
  obtain ⟨B, hB, hBC⟩ := ApproxSpec.chosen_later hM hden hnum hle (fun _ _ hx => hx) (fun _ _ _ hx _ _ => hx) hl hl' k _ g1
  rw [hk'] at hB
  have h3 := hBC 0
  rw [← Option.some.inj hB] at h3
  have h4 := (hA 0).2
  simp only [List.mem_map] at h4
  obtain ⟨o, ho, he⟩ := h4
  have h5 := hnew o ho 0
  simp only [Op.add.injEq] at he
  obtain ⟨h6, h7⟩ := he
  rw [h7] at h5
  exact absurd h3 (Int.not_le.2 h5)

/-- The hypotheses hold for the six windows of C94. -/
example : Sustained liveCfg.maxInterval 2 liveWindows ∧ liveWindows = liveWindows.take 2 ++ liveWindows.drop 2 ∧ 5 * 2 ≤ liveCfg.queueSize ∧
    (∀ i, StrictlyTimeSorted (stream liveWindows.flatten i)) ∧ (∃ s, run 1000 liveCfg (liveWindows.take 2).flatten = .ok s ∧ s.out.length = 2) ∧
    ∃ s', run 1000 { liveCfg with scale := fun x => (x * 60).tdiv 10 } liveWindows.flatten = .ok s' ∧ s'.out.length = 6 := by
  refine ⟨sustained_of_check (fun k i => if i = 0 then ⟨3 * k + 2, 100 * k + 20⟩ else ⟨3 * k, 100 * k⟩) (by decide), by decide, by decide,
    fun i => ?_, ⟨_, rfl, by decide⟩, _, rfl, by decide⟩
  unfold StrictlyTimeSorted; revert i; decide

/-- **C132** (it can mean more).  With an age penalty of 0.2 the only set of these messages is 8-10; with 0.5 the sets are 8-5 and 9-10. -/
theorem C132_more_sets : ∃ ops : List (Fin 2 × Ev), (∀ i, StrictlyTimeSorted (stream ops i)) ∧
    (∃ s, run 100 ⟨10, 8, fun x => (x * 12).tdiv 10, fun _ => 0⟩ ops = .ok s ∧
      s.out.map List.ofFn = [[some ⟨4, 8⟩, some ⟨3, 10⟩]]) ∧
    ∃ s', run 100 ⟨10, 8, fun x => (x * 15).tdiv 10, fun _ => 0⟩ ops = .ok s' ∧
      s'.out.map List.ofFn = [[some ⟨4, 8⟩, some ⟨2, 5⟩], [some ⟨5, 9⟩, some ⟨3, 10⟩]] := by
  refine ⟨[(1, ⟨0, 2⟩), (1, ⟨1, 4⟩), (1, ⟨2, 5⟩), (1, ⟨3, 10⟩), (0, ⟨4, 8⟩), (0, ⟨5, 9⟩), (0, ⟨6, 30⟩), (1, ⟨7, 50⟩)], fun i => ?_, ⟨_, rfl, by decide⟩, _, rfl, by decide⟩
  unfold StrictlyTimeSorted; revert i; decide

/-- **C128** (ApproximateTime, place by place).  However close the messages of an input are (strictly increasing, lower bounds respected, no queue
overflowing): the `k`-th set with a larger maximum interval is at least as old as the `k`-th set with the smaller one, on every input. -/
theorem C128_approximate_older [NeZero n] (fuel : Nat) (cfg : Cfg n) (num den : Int) (hden : 0 < den) (hnum : den ≤ num)
    (M' : Int) (hM : cfg.maxInterval ≤ M')
    (hscale : cfg.scale = fun x => (x * num).tdiv den) (hlow : ∀ i, 0 ≤ cfg.lower i) (ops : List (Fin n × Ev)) (s s' : State n)
    (h : run fuel cfg ops = .ok s) (h' : run fuel { cfg with maxInterval := M' } ops = .ok s')
    (hq : NoOverflow fuel cfg ops) (hq' : NoOverflow fuel { cfg with maxInterval := M' } ops)
    (hs : ∀ i, StrictlyTimeSorted (stream ops i)) (hsp : ∀ i, Spaced (cfg.lower i) (stream ops i))
    (k : Nat) (C C' : Fin n → Ev) (hC : s.out[k]? = some (fun i => some (C i))) (hC' : s'.out[k]? = some (fun i => some (C' i))) :
    ∀ i, (C' i).stamp ≤ (C i).stamp := by
  refine C132_older fuel cfg num num den hden hnum (Int.le_refl _) M' hM hscale hlow ops s s' h ?_ hq ?_ hs hsp k C C' hC hC'
  · rw [← hscale]; exact h'
  · rw [← hscale]; exact hq'

/-- **C128** (ApproximateTime, never fewer sets).  While every input keeps delivering (C94), a larger maximum interval does not mean fewer sets:
after at most four more windows, the synchronizer with the larger one has output more sets than the other one had before them. -/
theorem C128_approximate_never_fewer [NeZero n] (fuel : Nat) (cfg : Cfg n) (num den : Int) (hden : 0 < den) (hnum : den ≤ num)
    (M' : Int) (hM : cfg.maxInterval ≤ M') (hscale : cfg.scale = fun x => (x * num).tdiv den) (hlow : ∀ i, 0 ≤ cfg.lower i)
    (m : Nat) (hm : 5 * m ≤ cfg.queueSize) (ws : List (List (Fin n × Ev))) (w1 w2 w3 w4 : List (Fin n × Ev))
    (hS : Sustained cfg.maxInterval m (ws ++ [w1, w2, w3, w4]))
    (hsp : ∀ i, Spaced (cfg.lower i) (stream (ws ++ [w1, w2, w3, w4]).flatten i))
    (hs : ∀ i, StrictlyTimeSorted (stream (ws ++ [w1, w2, w3, w4]).flatten i)) (s s' : State n) (h : run fuel cfg ws.flatten = .ok s)
    (h' : run fuel { cfg with maxInterval := M' } (ws ++ [w1, w2, w3, w4]).flatten = .ok s') :
    s.out.length < s'.out.length := by
  refine C132_never_fewer fuel cfg num num den hden hnum (Int.le_refl _) M' hM hscale hlow m hm ws w1 w2 w3 w4 hS hsp hs s s' h ?_
  rw [← hscale]; exact h'

/-- The six windows of C94 with the maximum intervals 20 and 60. -/
example : liveCfg.maxInterval ≤ 60 ∧ (∃ s, run 1000 liveCfg (liveWindows.take 2).flatten = .ok s ∧ s.out.length = 2) ∧
    ∃ s', run 1000 { liveCfg with maxInterval := 60 } liveWindows.flatten = .ok s' ∧ 2 < s'.out.length := by
  refine ⟨by decide, ⟨_, rfl, by decide⟩, _, rfl, by decide⟩

/-- **C132** (no age penalty).  Without age penalty each set spans the least time of all contiguous sets (those with no possible set before
them) of the messages, received or still to come, that are newer than the sets before it. -/
theorem C132_no_penalty [NeZero n] (fuel : Nat) (cfg : Cfg n) (hscale : cfg.scale = fun x => x) (hlow : ∀ i, 0 ≤ cfg.lower i)
    (ops : List (Fin n × Ev)) (s : State n) (h : run fuel cfg ops = .ok s) (hq : NoOverflow fuel cfg ops) (fut : Fin n → List Ev)
    (hs : ∀ i, StrictlyTimeSorted (stream ops i ++ fut i)) (hsp : ∀ i, Spaced (cfg.lower i) (stream ops i ++ fut i))
    (pre post : List (Fin n → Ev)) (C : Fin n → Ev) (hout : s.out = (pre ++ C :: post).map (fun t i => some (t i))) (T : Fin n → Ev)
    (hT : Contiguous cfg.maxInterval (fun i => (stream ops i ++ fut i).filter (fun x => pre.all (fun S => decide ((S i).stamp < x.stamp)))) T) :
    endOf C - startOf C ≤ endOf T - startOf T :=
  ApproxSpec.best_no_penalty (den := 1) (by decide) (C109_every_set fuel cfg 1 1 (by decide) (by decide)
    (by rw [hscale]; funext x; simp) hlow ops s h hq fut hs hsp pre post C hout) T hT

/-- **C132** (a large age penalty).  With an age penalty above the maximum interval (in nanoseconds) each set is one that is complete first: no
possible set of the messages, received or still to come, that are newer than the sets before it ends earlier. -/
theorem C132_large_penalty [NeZero n] (fuel : Nat) (cfg : Cfg n) (num den : Int) (hden : 0 < den) (hnum : den ≤ num)
    (hlarge : den * (cfg.maxInterval + 1) < num)
    (hscale : cfg.scale = fun x => (x * num).tdiv den) (hlow : ∀ i, 0 ≤ cfg.lower i) (ops : List (Fin n × Ev)) (s : State n)
    (h : run fuel cfg ops = .ok s) (hq : NoOverflow fuel cfg ops) (fut : Fin n → List Ev)
    (hs : ∀ i, StrictlyTimeSorted (stream ops i ++ fut i)) (hsp : ∀ i, Spaced (cfg.lower i) (stream ops i ++ fut i))
    (pre post : List (Fin n → Ev)) (C : Fin n → Ev) (hout : s.out = (pre ++ C :: post).map (fun t i => some (t i))) (T : Fin n → Ev)
    (hT : Possible cfg.maxInterval (fun i => (stream ops i ++ fut i).filter (fun x => pre.all (fun S => decide ((S i).stamp < x.stamp)))) T) :
    endOf C ≤ endOf T :=
  ApproxSpec.best_large_penalty hden hlarge (C109_every_set fuel cfg num den hden hnum hscale hlow ops s h hq fut hs hsp pre post C hout) T hT

/-- The sample history without age penalty and with an age penalty of 59 for a maximum interval of 50. -/
example : (1 : Int) * (sampleCfg.maxInterval + 1) < 60 ∧ (∀ i, StrictlyTimeSorted (stream sampleOps i ++ [⟨7, 200⟩])) ∧
    (∃ s, run 100 { sampleCfg with scale := fun x => x } sampleOps = .ok s ∧
      s.out.map List.ofFn = [[some ⟨2, 103⟩, some ⟨1, 100⟩], [some ⟨3, 140⟩, some ⟨4, 141⟩]]) ∧
    ∃ s', run 100 { sampleCfg with scale := fun x => (x * 60).tdiv 1 } sampleOps = .ok s' ∧
      s'.out.map List.ofFn = [[some ⟨0, 90⟩, some ⟨1, 100⟩], [some ⟨3, 140⟩, some ⟨4, 141⟩]] := by
  refine ⟨by decide, ?_, ⟨_, rfl, by decide⟩, _, rfl, by decide⟩
  intro i; unfold StrictlyTimeSorted; revert i; decide

end MF.Approx
