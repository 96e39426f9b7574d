import Verif.Props.AgePenalty
/-
C134: an ApproximateTime synchronizer that starts earlier.
-/
namespace MF.Approx

variable {n : Nat}

open MF.ApproxSpec (Spaced startOf endOf)

theorem mem_of_later {extra l : List Ev} (hs : StrictlyTimeSorted (extra ++ l)) {x y : Ev} (hx : x ∈ extra ++ l) (hy : y ∈ l)
    (hxy : y.stamp ≤ x.stamp) : x ∈ l := by
  rcases List.mem_append.1 hx with hx | hx
  · have h1 : x.stamp < y.stamp := (List.pairwise_append.1 hs).2.2 x hx y hy
    omega
  · exact hx

/-- **C134**.  Let one ApproximateTime synchronizer receive, on every input, what another one receives and possibly some messages before that (it was
started earlier), in any interleaving.  Let the messages of each input be strictly increasing and respect the lower bounds, and let no queue overflow.
Then the `k`-th set of the one that was started earlier is at least as old as the `k`-th set of the other one, on every input. -/
theorem C134_older [NeZero n] (fuel : Nat) (cfg : Cfg n) (num den : Int) (hden : 0 < den) (hnum : den ≤ num)
    (hscale : cfg.scale = fun x => (x * num).tdiv den) (hlow : ∀ i, 0 ≤ cfg.lower i) (ops ops' : List (Fin n × Ev)) (s s' : State n)
    (hearly : ∀ i, ∃ extra, stream ops' i = extra ++ stream ops i)
    (h : run fuel cfg ops = .ok s) (h' : run fuel cfg ops' = .ok s') (hq : NoOverflow fuel cfg ops) (hq' : NoOverflow fuel cfg ops')
    (hs : ∀ i, StrictlyTimeSorted (stream ops' i)) (hsp : ∀ i, Spaced (cfg.lower i) (stream ops' i))
    (k : Nat) (C C' : Fin n → Ev) (hC : s.out[k]? = some (fun i => some (C i))) (hC' : s'.out[k]? = some (fun i => some (C' i))) :
    ∀ i, (C' i).stamp ≤ (C i).stamp := by
  have hs0 : ∀ i, StrictlyTimeSorted (stream ops i) := by
    intro i
    obtain ⟨extra, he⟩ := hearly i
    have := hs i
    rw [he] at this
    exact (List.pairwise_append.1 this).2.1
  have hsp0 : ∀ i, Spaced (cfg.lower i) (stream ops i) := by
    intro i
    obtain ⟨extra, he⟩ := hearly i
    have := hsp i
    rw [he] at this
    exact (List.pairwise_append.1 this).2.1
  obtain ⟨l, hl⟩ := ApproxSpec.C109_exists cfg.maxInterval num den hden hnum (fun i => stream ops i ++ []) (by simpa using hs0)
  obtain ⟨l', hl'⟩ := ApproxSpec.C109_exists cfg.maxInterval num den hden hnum (fun i => stream ops' i ++ []) (by simpa using hs)
  have h1 := C109_output fuel cfg num den hden hnum hscale hlow ops s h hq (fun _ => []) (by simpa using hs0) (by simpa using hsp0) l hl
  have h2 := C109_output fuel cfg num den hden hnum hscale hlow ops' s' h' hq' (fun _ => []) (by simpa using hs) (by simpa using hsp) l' hl'
  have g1 := getElem?_of_lifted h1 hC
  have g2 := getElem?_of_lifted h2 hC'
  simp only [List.append_nil] at hl hl'
  obtain ⟨B, hB, hBC⟩ := ApproxSpec.chosen_later (Int.le_refl _) hden hnum (Int.le_refl _)
    (fun i x hx => by obtain ⟨extra, he⟩ := hearly i; rw [he]; exact List.mem_append_right _ hx)
    (fun i x y hx hy hxy => by
      obtain ⟨extra, he⟩ := hearly i
      have hsi := hs i
      rw [he] at hx hsi
      exact mem_of_later hsi hx hy hxy) hl hl' k C g1
  rw [g2] at hB
  rw [Option.some.inj hB]
  exact hBC

/-- The sample history without its first message: the first set is the same as with it, 103-100. -/
example : (∀ i, ∃ extra, stream sampleOps i = extra ++ stream (sampleOps.drop 1) i) ∧ NoOverflow 100 sampleCfg sampleOps ∧
    NoOverflow 100 sampleCfg (sampleOps.drop 1) ∧ (∀ i, StrictlyTimeSorted (stream sampleOps i)) ∧
    ∃ s, run 100 sampleCfg (sampleOps.drop 1) = .ok s ∧
      s.out.map List.ofFn = [[some ⟨2, 103⟩, some ⟨1, 100⟩], [some ⟨3, 140⟩, some ⟨4, 141⟩]] := by
  refine ⟨fun i => ⟨stream (sampleOps.take 1) i, by revert i; decide⟩, noOverflow_of_short (by decide), noOverflow_of_short (by decide),
    fun i => ?_, _, rfl, by decide⟩
  unfold StrictlyTimeSorted; revert i; decide

/-- **C134** (never fewer sets).  While every input keeps delivering (C94), starting earlier, by the windows `w0`, does not mean fewer sets: after at
most four more windows, the synchronizer that was started earlier has output more sets than the other one had before them. -/
theorem C134_never_fewer [NeZero n] (fuel : Nat) (cfg : Cfg n) (num den : Int) (hden : 0 < den) (hnum : den ≤ num)
    (hscale : cfg.scale = fun x => (x * num).tdiv den) (hlow : ∀ i, 0 ≤ cfg.lower i)
    (m : Nat) (hm : 5 * m ≤ cfg.queueSize) (w0 ws : List (List (Fin n × Ev))) (w1 w2 w3 w4 : List (Fin n × Ev))
    (hS : Sustained cfg.maxInterval m (w0 ++ ws ++ [w1, w2, w3, w4]))
    (hsp : ∀ i, Spaced (cfg.lower i) (stream (w0 ++ ws ++ [w1, w2, w3, w4]).flatten i))
    (hs : ∀ i, StrictlyTimeSorted (stream (w0 ++ ws ++ [w1, w2, w3, w4]).flatten i)) (s s' : State n) (h : run fuel cfg ws.flatten = .ok s)
    (h' : run fuel cfg (w0 ++ ws ++ [w1, w2, w3, w4]).flatten = .ok s') :
    s.out.length < s'.out.length := by
  have hst : ∀ i, stream (w0 ++ ws ++ [w1, w2, w3, w4]).flatten i =
      stream w0.flatten i ++ (stream ws.flatten i ++ stream [w1, w2, w3, w4].flatten i) := by
    intro i; rw [List.append_assoc, List.flatten_append, List.flatten_append, stream_append, stream_append]
  have hsp1 : ∀ i, Spaced (cfg.lower i) (stream ws.flatten i ++ stream [w1, w2, w3, w4].flatten i) := by
    intro i; have := hsp i; rw [hst] at this; exact (List.pairwise_append.1 this).2.1
  have hs1 : ∀ i, StrictlyTimeSorted (stream ws.flatten i ++ stream [w1, w2, w3, w4].flatten i) := by
    intro i; have := hs i; rw [hst] at this; exact (List.pairwise_append.1 this).2.1
  have hS0 : Sustained cfg.maxInterval m ws := by
    intro a w b he
    have h1 := hS (w0 ++ a) w (b ++ [w1, w2, w3, w4]) (by rw [he]; simp)
    exact ⟨h1.1.imp fun T hT => ⟨hT.1, fun i o ho => hT.2.1 i o (by rw [List.flatten_append]; exact List.mem_append_right _ ho), hT.2.2⟩, h1.2⟩
  have hq := C94_no_overflow fuel cfg num den hden (by omega) hscale hlow m ws hS0 (fun i => (List.pairwise_append.1 (hsp1 i)).1) hm
  have hq' := C94_no_overflow fuel cfg num den hden (by omega) hscale hlow m _ hS hsp hm
  obtain ⟨l, hl⟩ := ApproxSpec.C109_exists cfg.maxInterval num den hden hnum _ hs1
  obtain ⟨l', hl'⟩ := ApproxSpec.C109_exists cfg.maxInterval num den hden hnum _ hs
  have h1 := C109_output fuel cfg num den hden hnum hscale hlow _ s h hq (stream [w1, w2, w3, w4].flatten) hs1 hsp1 l hl
  have h2 := C109_output fuel cfg num den hden hnum hscale hlow _ s' h' hq' (fun _ => []) (by simpa using hs) (by simpa using hsp) l'
    (by simpa using hl')
  obtain ⟨t, ht, hnew⟩ := C94_recent fuel cfg num den hden (by omega) hscale hlow m hm (w0 ++ ws) w1 w2 w3 w4 hS hsp s' h'
  obtain ⟨k, hk⟩ := List.getElem?_of_mem ht
  have hk' := getElem?_of_lifted h2 hk
  have hlen : k < s'.out.length := (List.getElem?_eq_some_iff.1 hk).1
  apply Classical.byContradiction
  intro hc
  have hks : k < s.out.length := by omega
  have hmem : s.out[k] ∈ s.out := List.getElem_mem hks
  obtain ⟨A, hA⟩ := Classical.axiomOfChoice (C27_complete_sets fuel cfg _ s h _ hmem)
  have hlift : s.out[k]? = some (fun i => some (A i)) := by
    rw [List.getElem?_eq_getElem hks]
    congr 1
    funext i; exact (hA i).1
  have g1 := getElem?_of_lifted h1 hlift
  obtain ⟨B, hB, hBC⟩ := ApproxSpec.chosen_later (Int.le_refl _) hden hnum (Int.le_refl _)
    (fun i x hx => by rw [hst]; exact List.mem_append_right _ hx)
    (fun i x y hx hy hxy => by
      have hsi := hs i
      rw [hst] at hx hsi
      exact mem_of_later hsi hx hy hxy) hl hl' k _ g1
  rw [hk'] at hB
  have h3 := hBC 0
  rw [← Option.some.inj hB] at h3
  have h4 := (hA 0).2
  simp only [List.mem_map] at h4
  obtain ⟨o, ho, he⟩ := h4
  have h5 := hnew o (by rw [List.flatten_append]; exact List.mem_append_right _ ho) 0
  simp only [Op.add.injEq] at he
  obtain ⟨h6, h7⟩ := he
  rw [h7] at h5
  exact absurd h3 (Int.not_le.2 h5)

/-- The hypotheses hold for the six windows of C94, the first of which the other synchronizer does not receive. -/
example : Sustained liveCfg.maxInterval 2 liveWindows ∧ liveWindows = liveWindows.take 1 ++ (liveWindows.drop 1).take 1 ++ liveWindows.drop 2 ∧
    5 * 2 ≤ liveCfg.queueSize ∧ (∀ i, StrictlyTimeSorted (stream liveWindows.flatten i)) ∧
    (∃ s, run 1000 liveCfg ((liveWindows.drop 1).take 1).flatten = .ok s ∧ s.out.length = 1) ∧
    ∃ s', run 1000 liveCfg liveWindows.flatten = .ok s' ∧ s'.out.length = 6 := by
  refine ⟨sustained_of_check (fun k i => if i = 0 then ⟨3 * k + 2, 100 * k + 20⟩ else ⟨3 * k, 100 * k⟩) (by decide), by decide, by decide,
    fun i => ?_, ⟨_, rfl, by decide⟩, _, rfl, by decide⟩
  unfold StrictlyTimeSorted; revert i; decide

/-- **C134** (additional messages at the beginning only).  Of three inputs, an additional message later on can mean fewer sets: without the message at
12 the sets are 7-7-11 and 15-13-17, with it 12-13-11 only. -/
theorem C134_later_message_fewer : ∃ ops : List (Fin 3 × Ev), (∀ i, StrictlyTimeSorted (stream ops i)) ∧ (0, ⟨1, 12⟩) ∈ ops ∧
    (∃ s, run 200 ⟨10, 8, fun x => (x * 15).tdiv 10, fun _ => 0⟩ (ops.filter (fun o => decide (o.2.id ≠ 1))) = .ok s ∧
      s.out.map List.ofFn = [[some ⟨0, 7⟩, some ⟨3, 7⟩, some ⟨5, 11⟩], [some ⟨2, 15⟩, some ⟨4, 13⟩, some ⟨6, 17⟩]]) ∧
    ∃ s', run 200 ⟨10, 8, fun x => (x * 15).tdiv 10, fun _ => 0⟩ ops = .ok s' ∧
      s'.out.map List.ofFn = [[some ⟨1, 12⟩, some ⟨4, 13⟩, some ⟨5, 11⟩]] := by
  refine ⟨[(0, ⟨0, 7⟩), (0, ⟨1, 12⟩), (0, ⟨2, 15⟩), (1, ⟨3, 7⟩), (1, ⟨4, 13⟩), (2, ⟨5, 11⟩), (2, ⟨6, 17⟩), (0, ⟨7, 100⟩), (1, ⟨8, 150⟩), (2, ⟨9, 200⟩)],
    fun i => ?_, by decide, ⟨_, rfl, by decide⟩, _, rfl, by decide⟩
  unfold StrictlyTimeSorted; revert i; decide

end MF.Approx
