import Verif.Props.Approx
import Verif.Proofs.ApproxLive
/-
Property C94: as long as every input keeps delivering, ApproximateTime keeps producing sets.
-/
namespace MF.Approx
open MF.ApproxSpec (Spaced sets)

variable {n : Nat}

/-- **C94**.  Let no queue overflow.  Whatever happened before (`pre`), two successive windows in each of which every input
delivers a message newer than everything before the window, these messages being within the maximum interval, bring at
least one more output set. -/
theorem C94_progress [NeZero n] (fuel : Nat) (cfg : Cfg n) (num den : Int) (hden : 0 < den) (hnum : 0 ≤ num)
    (hscale : cfg.scale = fun x => (x * num).tdiv den) (hlow : ∀ i, 0 ≤ cfg.lower i)
    (pre w1 w2 : List (Fin n × Ev)) (s s' : State n) (h : run fuel cfg pre = .ok s)
    (h' : run fuel cfg (pre ++ w1 ++ w2) = .ok s') (hq : NoOverflow fuel cfg (pre ++ w1 ++ w2))
    (hsp : ∀ i, Spaced (cfg.lower i) (stream (pre ++ w1 ++ w2) i))
    (h1 : Refreshed cfg.maxInterval pre w1) (h2 : Refreshed cfg.maxInterval (pre ++ w1) w2) : s.out.length < s'.out.length := by
  have hmono : ∀ x y, x ≤ y → cfg.scale x ≤ cfg.scale y := by rw [hscale]; exact tdiv_mono hnum hden
  have hne1 := h1.ne_nil
  obtain ⟨b, hb, ob, hob, hob'⟩ := exists_newest (pre ++ w1) (by simp [hne1])
  have hfull : stream (pre ++ w1 ++ w2) = fun i => stream pre i ++ stream (w1 ++ w2) i := by
    funext i; rw [List.append_assoc, stream_append]
  have hpre := C33_prefix_of_canonical fuel cfg hmono hlow pre s h
    (noOverflow_prefix (w := w1 ++ w2) (by rw [← List.append_assoc]; exact hq)) (stream (w1 ++ w2)) (by
      intro i; rw [← stream_append, ← List.append_assoc]; exact hsp i)
  have hdet := (C34_determined_sets_are_output fuel cfg hmono hlow _ s' h' hq hsp).1
  rw [← hfull] at hpre
  obtain ⟨L, hL, hLo⟩ : ∃ L, L <+: sets true cfg.scale cfg.maxInterval (stream (pre ++ w1 ++ w2)) ∧
      s.out = L.map (fun t i => some (t i)) := by
    refine ⟨(sets true cfg.scale cfg.maxInterval (stream (pre ++ w1 ++ w2))).take s.out.length, List.take_prefix _ _, ?_⟩
    rw [List.map_take]
    exact List.prefix_iff_eq_take.1 hpre
  have hold : ∀ t ∈ L, ∀ i, t i ∈ stream pre i := by
    intro t ht i
    obtain ⟨_, _, hh⟩ := run_facts h
    obtain ⟨c, hc, hsub⟩ := hh i
    have : some (t i) ∈ c.map some := hsub.subset (by
      rw [hLo]; simp only [List.map_map]; exact List.mem_map.2 ⟨t, ht, rfl⟩)
    rw [hc]
    exact List.mem_append_left _ (by simpa using this)
  obtain ⟨T1, t1, t1', t1''⟩ := h1
  obtain ⟨T2, t2, t2', _⟩ := h2
  have hz : ∀ i, ∃ z ∈ stream (pre ++ w1 ++ w2) i, b < z.stamp := by
    intro i
    have g1 := t2' i ob hob
    exact ⟨T2 i, mem_stream.2 (by simp [t2 i]), by omega⟩
  have key : ∃ a, (∀ t ∈ L, ∀ i, (t i).stamp ≤ a) ∧ ∀ i, a < (T1 i).stamp := by
    by_cases hp : pre = []
    · have hLn : L = [] := by
        cases L with
        | nil => rfl
        | cons t L =>
          have := hold t (by simp) 0
          rw [hp] at this
          simp [stream] at this
      obtain ⟨i0, hi0⟩ := ApproxSpec.exists_min (fun i => (T1 i).stamp)
      refine ⟨(T1 i0).stamp - 1, by rw [hLn]; exact fun t ht => (List.not_mem_nil ht).elim, fun i => ?_⟩
      have := hi0 i; omega
    · obtain ⟨a, ha, oa, hoa, hoa'⟩ := exists_newest pre hp
      refine ⟨a, fun t ht i => ha _ (mem_stream.1 (hold t ht i)), fun i => ?_⟩
      have := t1' i oa hoa; omega
  obtain ⟨a, g1, g2⟩ := key
  have := ApproxSpec.sets_more (by rw [hscale]; exact ApproxSpec.tdiv_exact hnum hden) hnum hden t1'' g2
    (fun i => hb (i, T1 i) (by simp [t1 i])) L _ (sortedOf hlow hsp) hL g1 (fun i => mem_stream.2 (by simp [t1 i])) hz
  have hlen := hdet.length_le
  rw [List.length_map] at hlen
  rw [hLo, List.length_map]
  omega

/-- **C94**.  Let every input keep delivering: in every window at most `m` messages, one of them newer than everything
before the window and these within the maximum interval.  With room for `5 * m` messages per input no queue ever overflows, however long the history. -/
theorem C94_no_overflow [NeZero n] (fuel : Nat) (cfg : Cfg n) (num den : Int) (hden : 0 < den) (hnum : 0 ≤ num)
    (hscale : cfg.scale = fun x => (x * num).tdiv den) (hlow : ∀ i, 0 ≤ cfg.lower i)
    (m : Nat) (ws : List (List (Fin n × Ev))) (hS : Sustained cfg.maxInterval m ws) (hsp : ∀ i, Spaced (cfg.lower i) (stream ws.flatten i))
    (hm : 5 * m ≤ cfg.queueSize) : NoOverflow fuel cfg ws.flatten := by
  intro k s hs i
  obtain ⟨pre, part, h1, h2⟩ := flatten_take ws k
  have hroom : NoOverflow fuel { cfg with queueSize := ws.flatten.length + 1 } (pre.flatten ++ part) := by
    apply noOverflow_of_short
    intro i
    have := stream_length_le (pre.flatten ++ part) i
    rw [← h1, List.length_take] at this
    rw [← h1]
    show _ ≤ ws.flatten.length + 1
    omega
  have hpref : pre.flatten ++ part <+: ws.flatten := by rw [← h1]; exact List.take_prefix _ _
  rw [h1] at hs
  have hS' : Sustained cfg.maxInterval m pre ∧ ∀ i, (stream part i).length ≤ m := by
    rcases h2 with ⟨h2, h3⟩ | ⟨w, post, h2, h3⟩
    · exact ⟨by rw [h2]; exact hS, by intro i; rw [h3]; simp [stream]⟩
    · rw [h2] at hS
      exact ⟨hS.left, fun i => Nat.le_trans (stream_prefix_le h3 i) (hS.mem (by simp) i)⟩
  have := held_sustained (cfg := { cfg with queueSize := ws.flatten.length + 1 }) hden hnum hscale hlow hS'.1 hS'.2 hs hroom (by
      intro j
      obtain ⟨c, hc⟩ := hpref
      have := hsp j
      rw [← hc, stream_append] at this
      exact (List.pairwise_append.1 this).1) i
  omega

/-- **C94**.  Such a policy outputs at least one set for every two windows, for ever: after `2 * k` windows at least `k`
sets have been output. -/
theorem C94_sustained [NeZero n] (fuel : Nat) (cfg : Cfg n) (num den : Int) (hden : 0 < den) (hnum : 0 ≤ num)
    (hscale : cfg.scale = fun x => (x * num).tdiv den) (hlow : ∀ i, 0 ≤ cfg.lower i)
    (m : Nat) (hm : 5 * m ≤ cfg.queueSize) (k : Nat) (ws : List (List (Fin n × Ev))) (hS : Sustained cfg.maxInterval m ws)
    (hsp : ∀ i, Spaced (cfg.lower i) (stream ws.flatten i))
    (hk : 2 * k ≤ ws.length) (s : State n) (h : run fuel cfg ws.flatten = .ok s) : k ≤ s.out.length := by
  induction k generalizing ws s with
  | zero => exact Nat.zero_le _
  | succ k ih =>
    have hd : (ws.drop (ws.length - 2)).length = 2 := by rw [List.length_drop]; omega
    have hsplit := List.take_append_drop (ws.length - 2) ws
    obtain ⟨b, w1, w2, hb⟩ : ∃ b w1 w2, ws = b ++ [w1, w2] := by
      match hx : ws.drop (ws.length - 2), hd with
      | [w1, w2], _ => exact ⟨_, w1, w2, by rw [← hx, hsplit]⟩
    subst hb
    have hf : (b ++ [w1, w2]).flatten = b.flatten ++ w1 ++ w2 := by simp
    have hno := C94_no_overflow fuel cfg num den hden hnum hscale hlow m _ hS hsp hm
    have g1 := hS b w1 [w2] rfl
    have g2 := hS (b ++ [w1]) w2 [] (by simp)
    have e2 : (b ++ [w1]).flatten = b.flatten ++ w1 := by simp
    rw [e2] at g2
    rw [hf] at h hno hsp
    obtain ⟨s0, h0⟩ : ∃ s0, run fuel cfg b.flatten = .ok s0 := by
      rw [List.append_assoc] at h
      exact run_append_left h
    have := ih b hS.left (by
        intro j
        have := hsp j
        rw [List.append_assoc, stream_append] at this
        exact (List.pairwise_append.1 this).1)
      (by simp only [List.length_append, List.length_cons, List.length_nil] at hk; omega) s0 h0
    have := C94_progress fuel cfg num den hden hnum hscale hlow b.flatten w1 w2 s0 s h0 h hno hsp g1.1 g2.1
    omega

/-- **C94**.  The output stays recent: after four windows, there is an output set all of whose messages are newer than
everything that was delivered before the four windows. -/
theorem C94_recent [NeZero n] (fuel : Nat) (cfg : Cfg n) (num den : Int) (hden : 0 < den) (hnum : 0 ≤ num)
    (hscale : cfg.scale = fun x => (x * num).tdiv den) (hlow : ∀ i, 0 ≤ cfg.lower i)
    (m : Nat) (hm : 5 * m ≤ cfg.queueSize) (ws : List (List (Fin n × Ev))) (w1 w2 w3 w4 : List (Fin n × Ev))
    (hS : Sustained cfg.maxInterval m (ws ++ [w1, w2, w3, w4]))
    (hsp : ∀ i, Spaced (cfg.lower i) (stream (ws ++ [w1, w2, w3, w4]).flatten i))
    (s : State n) (h : run fuel cfg (ws ++ [w1, w2, w3, w4]).flatten = .ok s) :
    ∃ t : Fin n → Ev, (fun i => some (t i)) ∈ s.out ∧ ∀ o ∈ ws.flatten, ∀ i, o.2.stamp < (t i).stamp := by
  have hno := C94_no_overflow fuel cfg num den hden hnum hscale hlow m _ hS hsp hm
  by_cases hw : ws.flatten = []
  · have hk := C94_sustained fuel cfg num den hden hnum hscale hlow m hm 1 _ hS hsp (by
      simp only [List.length_append, List.length_cons, List.length_nil]; omega) s h
    obtain ⟨c, hc⟩ : ∃ c, c ∈ s.out := by
      cases ho : s.out with
      | nil => rw [ho] at hk; simp at hk
      | cons c l => exact ⟨c, by simp⟩
    have hcomp := C27_complete_sets fuel cfg _ s h c hc
    refine ⟨fun i => Classical.choose (hcomp i), ?_, by rw [hw]; intro o ho; cases ho⟩
    have : (fun i => some (Classical.choose (hcomp i))) = c := by
      funext i; exact (Classical.choose_spec (hcomp i)).1.symm
    rw [this]; exact hc
  · have g1 := hS ws w1 [w2, w3, w4] rfl
    have g2 := hS (ws ++ [w1]) w2 [w3, w4] (by simp)
    have g3 := hS (ws ++ [w1, w2]) w3 [w4] (by simp)
    have g4 := hS (ws ++ [w1, w2, w3]) w4 [] (by simp)
    have e2 : (ws ++ [w1]).flatten = ws.flatten ++ w1 := by simp
    have e3 : (ws ++ [w1, w2]).flatten = ws.flatten ++ w1 ++ w2 := by simp
    have e4 : (ws ++ [w1, w2, w3]).flatten = ws.flatten ++ w1 ++ w2 ++ w3 := by simp
    have e5 : (ws ++ [w1, w2, w3, w4]).flatten = ws.flatten ++ w1 ++ w2 ++ w3 ++ w4 ++ [] := by simp
    rw [e2] at g2
    rw [e3] at g3
    rw [e4] at g4
    rw [e5] at h hno hsp
    exact recent_set hden hnum hscale hlow h hno hsp hw g1.1 g2.1 g3.1 g4.1

/-- Six windows of two inputs; the second input sends twice per window, the first always sends last. -/
def liveWindows : List (List (Fin 2 × Ev)) :=
  [[(1, ⟨0, 0⟩), (1, ⟨1, 50⟩), (0, ⟨2, 20⟩)], [(1, ⟨3, 100⟩), (1, ⟨4, 150⟩), (0, ⟨5, 120⟩)],
   [(1, ⟨6, 200⟩), (1, ⟨7, 250⟩), (0, ⟨8, 220⟩)], [(1, ⟨9, 300⟩), (1, ⟨10, 350⟩), (0, ⟨11, 320⟩)],
   [(1, ⟨12, 400⟩), (1, ⟨13, 450⟩), (0, ⟨14, 420⟩)], [(1, ⟨15, 500⟩), (1, ⟨16, 550⟩), (0, ⟨17, 520⟩)]]

/-- Queue size 10 and maximum interval 20. -/
def liveCfg : Cfg 2 := { sampleCfg with maxInterval := 20 }

example : Sustained liveCfg.maxInterval 2 liveWindows ∧ 5 * 2 ≤ liveCfg.queueSize ∧
    (∀ i, Spaced (liveCfg.lower i) (stream liveWindows.flatten i)) := by
  refine ⟨sustained_of_check (fun k i => if i = 0 then ⟨3 * k + 2, 100 * k + 20⟩ else ⟨3 * k, 100 * k⟩) (by decide), by decide,
    by unfold Spaced; decide⟩

example : ∃ s, run 1000 liveCfg liveWindows.flatten = .ok s ∧ s.out.map List.ofFn =
    [[some ⟨2, 20⟩, some ⟨0, 0⟩], [some ⟨5, 120⟩, some ⟨3, 100⟩], [some ⟨8, 220⟩, some ⟨6, 200⟩],
     [some ⟨11, 320⟩, some ⟨9, 300⟩], [some ⟨14, 420⟩, some ⟨12, 400⟩], [some ⟨17, 520⟩, some ⟨15, 500⟩]] :=
  ⟨_, rfl, by decide⟩

/-- The `r`-th window of two inputs that always send 50 apart. -/
def apartWindow (r : Nat) : List (Fin 2 × Ev) := [(0, ⟨2 * r, 100 * r⟩), (1, ⟨2 * r + 1, 100 * r + 50⟩)]

/-- C94, the messages must be within the maximum interval: two inputs that keep delivering but always 50 apart produce nothing,
for ever, if the maximum interval is less than 50. -/
theorem C94_interval_needed (fuel : Nat) (cfg : Cfg 2) (num den : Int) (hden : 0 < den) (hnum : den ≤ num)
    (hscale : cfg.scale = fun x => (x * num).tdiv den) (hmax : cfg.maxInterval < 50) (N : Nat) :
    Sustained 50 1 ((List.range N).map apartWindow) ∧
    ∀ s, run fuel cfg ((List.range N).map apartWindow).flatten = .ok s → s.out = [] := by
  have hmem : ∀ i e, (i, e) ∈ ((List.range N).map apartWindow).flatten →
      ∃ r : Nat, e.stamp = if i = 0 then 100 * (r : Int) else 100 * r + 50 := by
    intro i e h
    obtain ⟨w, hw, h⟩ := List.mem_flatten.1 h
    obtain ⟨r, _, rfl⟩ := List.mem_map.1 hw
    refine ⟨r, ?_⟩
    simp only [apartWindow, List.mem_cons, Prod.mk.injEq, List.not_mem_nil, or_false] at h
    rcases h with ⟨rfl, rfl⟩ | ⟨rfl, rfl⟩ <;> simp
  refine ⟨?_, ?_⟩
  · apply sustained_of_check (fun k i => if i = 0 then ⟨2 * k, 100 * k⟩ else ⟨2 * k + 1, 100 * k + 50⟩)
    intro k hk i
    rw [List.length_map, List.length_range] at hk
    have e1 : ((List.range N).map apartWindow).getD k [] = apartWindow k := by simp [List.getD_eq_getElem?_getD, hk]
    rw [e1, ← List.map_take, List.take_range]
    have hold : ∀ x ∈ ((List.range (min k N)).map apartWindow).flatten, x.2.stamp < 100 * (k : Int) := by
      intro x hx
      obtain ⟨w, hw, h⟩ := List.mem_flatten.1 hx
      obtain ⟨r, hr, rfl⟩ := List.mem_map.1 hw
      rw [List.mem_range] at hr
      simp only [apartWindow, List.mem_cons, List.not_mem_nil, or_false] at h
      rcases h with rfl | rfl <;> simp only <;> omega
    refine ⟨?_, ?_, ?_, by unfold apartWindow; revert i; simp [stream, Fin.forall_fin_two]⟩
    · revert i; simp [apartWindow, Fin.forall_fin_two]
    · intro x hx
      have := hold x hx
      split <;> simp only <;> omega
    · intro j
      split <;> split <;> simp only <;> omega
  · intro s h
    cases ho : s.out with
    | nil => rfl
    | cons t l =>
      exfalso
      have ht : t ∈ s.out := by rw [ho]; simp
      have hspan := C31_max_interval fuel cfg num den hden hnum hscale _ s h t ht
      have hget : ∀ i, ∃ e, t i = some e ∧ (i, e) ∈ ((List.range N).map apartWindow).flatten := by
        intro i
        obtain ⟨e, h1, h2⟩ := C27_complete_sets fuel cfg _ s h t ht i
        obtain ⟨a, ha, hae⟩ := List.mem_map.1 h2
        cases hae
        exact ⟨_, h1, ha⟩
      obtain ⟨x, hx, hx'⟩ := hget 0
      obtain ⟨y, hy, hy'⟩ := hget 1
      obtain ⟨a, ha⟩ := hmem _ _ hx'
      obtain ⟨b, hb⟩ := hmem _ _ hy'
      have h1 := hspan 0 1 x y hx hy
      have h2 := hspan 1 0 y x hy hx
      simp at ha hb
      omega

example : ∃ s, run 1000 { sampleCfg with maxInterval := 49 } ((List.range 4).map apartWindow).flatten = .ok s ∧ s.out = [] :=
  ⟨_, rfl, rfl⟩

/-- With a maximum interval of 50 the same inputs are put together. -/
example : ∃ s, run 1000 { sampleCfg with maxInterval := 50 } ((List.range 3).map apartWindow).flatten = .ok s ∧
    s.out.length = 2 := ⟨_, rfl, by decide⟩

/-- C94, every input must keep delivering: while one input has delivered nothing, nothing is output. -/
theorem C94_silent_input [NeZero n] (fuel : Nat) (cfg : Cfg n) (ops : List (Fin n × Ev)) (s : State n)
    (h : run fuel cfg ops = .ok s) (i : Fin n) (hi : stream ops i = []) : s.out = [] := by
  cases ho : s.out with
  | nil => rfl
  | cons t l =>
    obtain ⟨e, _, h2⟩ := C27_complete_sets fuel cfg _ s h t (by rw [ho]; simp) i
    obtain ⟨a, ha, hae⟩ := List.mem_map.1 h2
    cases hae
    have : a.2 ∈ stream ops a.1 := mem_stream.2 ha
    rw [hi] at this
    cases this

/-- C94, the queues must have room: here every window brings a newer message on both inputs and at most three on any, but
with room for two per input a queue overflows. -/
theorem C94_room_needed :
    Sustained 20 3 [[((1 : Fin 2), ⟨0, 0⟩), (1, ⟨1, 10⟩), (1, ⟨2, 20⟩), (0, ⟨3, 5⟩)], [(1, ⟨4, 30⟩), (1, ⟨5, 40⟩), (1, ⟨6, 50⟩), (0, ⟨7, 35⟩)]] ∧
    ¬ NoOverflow 100 { liveCfg with queueSize := 2 }
      [((1 : Fin 2), ⟨0, 0⟩), (1, ⟨1, 10⟩), (1, ⟨2, 20⟩), (0, ⟨3, 5⟩), (1, ⟨4, 30⟩), (1, ⟨5, 40⟩), (1, ⟨6, 50⟩), (0, ⟨7, 35⟩)] := by
  refine ⟨sustained_of_check (fun k i => if k = 0 then (if i = 0 then ⟨3, 5⟩ else ⟨1, 10⟩) else
    if i = 0 then ⟨7, 35⟩ else ⟨4, 30⟩) (by decide), ?_⟩
  intro h
  have := h 3 _ rfl 1
  revert this
  decide

end MF.Approx
