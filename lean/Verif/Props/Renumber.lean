import Verif.Spec.Renumber
import Verif.Proofs.Renumber
import Verif.Props.ApproxChoice
import Verif.Props.ExactTime
import Verif.Props.Epsilon
/-
Property C122: which input has which number does not matter to ExactTime, ApproximateEpsilonTime, the Python TimeSynchronizer and,
within its contract, ApproximateTime.
-/
namespace MF

variable {n : Nat}

/-- **C122** (ExactTime): with the inputs numbered differently the same sets are output and dropped and the same messages
replaced, in the same order, whatever the stamps and the queue size. -/
theorem C122_exact [NeZero n] (σ τ : Fin n → Fin n) (hr : Renumbering σ τ) (queueSize : Nat) (ops : List (Fin n × Ev)) :
    (ExactTime.run (ExactTime.construct n queueSize) (renumber σ ops)).map (·.log) =
      (ExactTime.run (ExactTime.construct n queueSize) ops).map (fun s => s.log.map (ExactTime.renumberAction σ τ)) := by
  have h : RelE (ExactTime.Renumbered σ τ) (ExactTime.run (ExactTime.construct n queueSize) ops)
      (ExactTime.run (ExactTime.construct n queueSize) (renumber σ ops)) := by
    unfold ExactTime.run renumber
    apply relE_runE (P := fun o o' => o' = (σ o.1, o.2))
    · intro a a' o o' h ho
      subst ho
      exact ExactTime.renumbered_add hr h o.1 o.2
    · intro o _; rfl
    · refine ⟨rfl, rfl, rfl, ?_⟩
      intro p hp; cases hp
  cases h1 : ExactTime.run (ExactTime.construct n queueSize) ops with
  | error f => rw [h1] at h; rw [relE_error h]; rfl
  | ok s =>
    rw [h1] at h
    obtain ⟨s', h2, h3⟩ := relE_ok h
    rw [h2]
    show Except.ok _ = Except.ok _
    dsimp only
    rw [h3.log]

/-- **C122** (ApproximateEpsilonTime): with the inputs numbered differently the same sets are output in the same order, whatever
the stamps and the queue size. -/
theorem C122_epsilon [NeZero n] (σ τ : Fin n → Fin n) (hr : Renumbering σ τ) (fuel queueSize : Nat) (epsilon : Int)
    (heps : 0 ≤ epsilon) (ops : List (Fin n × Ev)) :
    (Epsilon.run fuel (Epsilon.construct n queueSize epsilon) (renumber σ ops)).map (·.out) =
      (Epsilon.run fuel (Epsilon.construct n queueSize epsilon) ops).map (fun s => s.out.map (renumberSet τ)) := by
  have h : RelE (Epsilon.Renumbered τ) (Epsilon.run fuel (Epsilon.construct n queueSize epsilon) ops)
      (Epsilon.run fuel (Epsilon.construct n queueSize epsilon) (renumber σ ops)) := by
    unfold Epsilon.run renumber
    apply relE_runE (P := fun o o' => o' = (σ o.1, o.2))
    · intro a a' o o' h ho
      subst ho
      exact Epsilon.renumbered_add hr fuel h o.1 o.2
    · intro o _; rfl
    · refine ⟨rfl, rfl, heps, rfl, rfl, ?_, ?_⟩ <;> simp [Epsilon.construct, Epsilon.nonEmpty]
  cases h1 : Epsilon.run fuel (Epsilon.construct n queueSize epsilon) ops with
  | error f => rw [h1] at h; rw [relE_error h]; rfl
  | ok s =>
    rw [h1] at h
    obtain ⟨s', h2, h3⟩ := relE_ok h
    rw [h2]
    show Except.ok _ = Except.ok _
    dsimp only
    rw [h3.out]

/-- **C122** (Python TimeSynchronizer): with the inputs numbered differently the same sets are passed to the callback in the same
order, whatever the stamps and the queue size and whichever callbacks raise. -/
theorem C122_python_time [NeZero n] (σ τ : Fin n → Fin n) (hr : Renumbering σ τ) (boom : Nat → Bool) (queueSize : Int)
    (ops : List (Fin n × Py.Msg)) :
    (Py.tsRun boom (Py.construct n queueSize) (renumber σ ops)).map (fun s => (s.out, s.locked)) =
      (Py.tsRun boom (Py.construct n queueSize) ops).map (fun s => (s.out.map (renumberSet τ), s.locked)) := by
  have h : RelE (fun s s' => Py.Renumbered τ s s' ∧ Py.Inv s) (Py.tsRun boom (Py.construct n queueSize) ops)
      (Py.tsRun boom (Py.construct n queueSize) (renumber σ ops)) := by
    unfold Py.tsRun renumber
    apply relE_runE (P := fun o o' => o' = (σ o.1, o.2))
    · intro a a' o o' h ho
      subst ho
      have h1 := Py.renumbered_tsAdd hr boom h.1 h.2 o.1 o.2
      cases h2 : Py.tsAdd boom a o.1 o.2 with
      | error f =>
        rw [h2] at h1
        dsimp only
        rw [relE_error h1]
        exact rfl
      | ok r =>
        rw [h2] at h1
        obtain ⟨r', h3, h4⟩ := relE_ok h1
        dsimp only
        rw [h3]
        exact ⟨h4.1, (Py.tsAdd_inv boom a h.2 o.1 o.2 r.1 r.2 h2).1⟩
    · intro o _; rfl
    · exact ⟨⟨rfl, rfl, rfl, rfl⟩, Py.Inv.construct queueSize⟩
  cases h1 : Py.tsRun boom (Py.construct n queueSize) ops with
  | error f => rw [h1] at h; rw [relE_error h]; rfl
  | ok s =>
    rw [h1] at h
    obtain ⟨s', h2, h3, _⟩ := relE_ok h
    rw [h2]
    show Except.ok _ = Except.ok _
    dsimp only
    rw [h3.out, h3.locked]

/-- **C122** (ApproximateTime), for messages in order, inter message bounds that hold and queues that do not overflow: with the
inputs numbered differently the same sets are chosen; one of the two may only be ahead of the other. -/
theorem C122_approximate [NeZero n] (σ τ : Fin n → Fin n) (hr : Renumbering σ τ) (fuel : Nat) (cfg : Approx.Cfg n) (num den : Int)
    (hden : 0 < den) (hnum : den ≤ num) (hscale : cfg.scale = fun x => (x * num).tdiv den) (hlow : ∀ i, 0 ≤ cfg.lower i)
    (ops : List (Fin n × Ev)) (hs : ∀ i, StrictlyTimeSorted (stream ops i))
    (hsp : ∀ i, ApproxSpec.Spaced (cfg.lower i) (stream ops i)) (hq : Approx.NoOverflow fuel cfg ops)
    (hq' : Approx.NoOverflow fuel { cfg with lower := renumberSet τ cfg.lower } (renumber σ ops)) (s s' : Approx.State n)
    (h : Approx.run fuel cfg ops = .ok s)
    (h' : Approx.run fuel { cfg with lower := renumberSet τ cfg.lower } (renumber σ ops) = .ok s') :
    s'.out <+: s.out.map (renumberSet τ) ∨ s.out.map (renumberSet τ) <+: s'.out := by
  obtain ⟨l, hl⟩ := ApproxSpec.C109_exists cfg.maxInterval num den hden hnum (stream ops) hs
  have h1 := Approx.C109_output fuel cfg num den hden hnum hscale hlow ops s h hq (fun _ => []) (by simpa using hs)
    (by simpa using hsp) l (by simpa using hl)
  have hl' := ApproxSpec.chosen_renumber hr hl
  have hst := stream_renumber hr ops
  have h2 := Approx.C109_output fuel { cfg with lower := renumberSet τ cfg.lower } num den hden hnum hscale (fun i => hlow _)
    (renumber σ ops) s' h' hq' (fun _ => []) (by rw [hst]; simpa using fun i => show StrictlyTimeSorted (renumberSet τ (stream ops) i) from hs (τ i))
    (by rw [hst]; simpa using fun i => show ApproxSpec.Spaced (renumberSet τ cfg.lower i) (renumberSet τ (stream ops) i) from hsp (τ i))
    (l.map (renumberSet τ)) (by rw [hst]; simpa using hl')
  have h3 := h1.map (renumberSet τ)
  rw [List.map_map] at h2 h3
  exact List.prefix_or_prefix_of_prefix h2 h3

/-- One direction of `C122_approximate_two`, for any two runs on the same streams under different numbers. -/
theorem Approx.two_transfer (σ τ : Fin 2 → Fin 2) (hr : Renumbering σ τ) (fuel : Nat) (cfg cfg' : Approx.Cfg 2) (num den : Int)
    (hden : 0 < den) (hnum : den ≤ num) (hscale : cfg.scale = fun x => (x * num).tdiv den)
    (hscale' : cfg'.scale = fun x => (x * num).tdiv den) (hM : cfg'.maxInterval = cfg.maxInterval)
    (hlow : ∀ i, 0 < cfg.lower i) (hlow' : cfg'.lower = renumberSet τ cfg.lower) (ops ops' : List (Fin 2 × Ev))
    (hst : stream ops' = renumberSet τ (stream ops)) (hsp : ∀ i, ApproxSpec.Spaced (cfg.lower i) (stream ops i))
    (hq : Approx.NoOverflow fuel cfg ops) (hq' : Approx.NoOverflow fuel cfg' ops') (s s' : Approx.State 2)
    (h : Approx.run fuel cfg ops = .ok s) (h' : Approx.run fuel cfg' ops' = .ok s') (k : Nat) (t : Fin 2 → Option Ev)
    (ht : s.out[k]? = some t) : s'.out[k]? = some (renumberSet τ t) := by
  have hs : ∀ i, StrictlyTimeSorted (stream ops i) := fun i => (hsp i).imp (fun h => by have := hlow i; omega)
  obtain ⟨l, hl⟩ := ApproxSpec.C109_exists cfg.maxInterval num den hden hnum (stream ops) hs
  have h1 := Approx.C109_output fuel cfg num den hden hnum hscale (fun i => by have := hlow i; omega) ops s h hq (fun _ => [])
    (by simpa using hs) (by simpa using hsp) l (by simpa using hl)
  obtain ⟨rest, h1⟩ := h1
  have h2 : (l.map (fun t i => some (t i)))[k]? = some t := by
    rw [← h1, List.getElem?_append_left (List.getElem?_eq_some_iff.1 ht).1]
    exact ht
  rw [List.getElem?_map] at h2
  obtain ⟨C, _, rfl⟩ := Option.map_eq_some_iff.1 h2
  rw [Approx.C109_when fuel cfg num den hden hnum hscale hlow ops s h hq hsp k C] at ht
  have hsp' : ∀ i, ApproxSpec.Spaced (cfg'.lower i) (stream ops' i) := by
    intro i
    rw [hlow', hst]
    exact hsp (τ i)
  refine (Approx.C109_when fuel cfg' num den hden hnum hscale' (fun i => by rw [hlow']; exact hlow _) ops' s' h' hq' hsp' k
    (renumberSet τ C)).2 ?_
  intro fut hf l' hl'
  have hr' : Renumbering τ σ := ⟨hr.forth, hr.back⟩
  have hl2 := ApproxSpec.chosen_renumber hr' hl'
  have e : renumberSet σ (fun i => stream ops' i ++ fut i) = fun i => stream ops i ++ renumberSet σ fut i := by
    funext i
    rw [hst]
    unfold renumberSet
    dsimp only
    rw [hr.back]
  rw [e, hM] at hl2
  have := ht (renumberSet σ fut) (fun i => by
    have := hf (σ i)
    rw [hst, hlow'] at this
    unfold renumberSet at this ⊢
    rwa [hr.back] at this) _ hl2
  rw [List.getElem?_map] at this
  obtain ⟨D, h3, h4⟩ := Option.map_eq_some_iff.1 this
  rw [h3, ← h4, ApproxSpec.renumber_forth hr]

/-- **C122** (ApproximateTime with two inputs and positive inter message bounds): exchanging the inputs exchanges the messages of
each set and nothing else: the same sets are output by the same time. -/
theorem C122_approximate_two (σ τ : Fin 2 → Fin 2) (hr : Renumbering σ τ) (fuel : Nat) (cfg : Approx.Cfg 2) (num den : Int)
    (hden : 0 < den) (hnum : den ≤ num) (hscale : cfg.scale = fun x => (x * num).tdiv den) (hlow : ∀ i, 0 < cfg.lower i)
    (ops : List (Fin 2 × Ev)) (hsp : ∀ i, ApproxSpec.Spaced (cfg.lower i) (stream ops i)) (hq : Approx.NoOverflow fuel cfg ops)
    (hq' : Approx.NoOverflow fuel { cfg with lower := renumberSet τ cfg.lower } (renumber σ ops)) (s s' : Approx.State 2)
    (h : Approx.run fuel cfg ops = .ok s)
    (h' : Approx.run fuel { cfg with lower := renumberSet τ cfg.lower } (renumber σ ops) = .ok s') :
    s'.out = s.out.map (renumberSet τ) := by
  have hr' : Renumbering τ σ := ⟨hr.forth, hr.back⟩
  have hst := stream_renumber hr ops
  have f := Approx.two_transfer σ τ hr fuel cfg { cfg with lower := renumberSet τ cfg.lower } num den hden hnum hscale hscale rfl
    hlow rfl ops (renumber σ ops) hst hsp hq hq' s s' h h'
  have b := Approx.two_transfer τ σ hr' fuel { cfg with lower := renumberSet τ cfg.lower } cfg num den hden hnum hscale hscale rfl
    (fun i => hlow _) (ApproxSpec.renumber_forth hr' cfg.lower).symm (renumber σ ops) ops
    (by rw [hst]; exact (ApproxSpec.renumber_forth hr' (stream ops)).symm)
    (fun i => by rw [hst]; exact hsp (τ i)) hq' hq s' s h' h
  apply List.ext_getElem?
  intro k
  rw [List.getElem?_map]
  cases h1 : s.out[k]? with
  | some t => exact f k t h1
  | none =>
    cases h2 : s'.out[k]? with
    | none => rfl
    | some t =>
      have := b k t h2
      rw [h1] at this
      cases this

/-- The exchange of the first and the last of three inputs. -/
def flip3 : Fin 3 → Fin 3 := fun i => if i = 0 then 2 else if i = 2 then 0 else 1

theorem flip3_renumbering : Renumbering flip3 flip3 := ⟨by decide, by decide⟩

/-- **C122**: with three inputs one of the two can really be ahead: the same messages, in order and spaced as promised, give one
set with one numbering and none, yet, with the other. -/
theorem C122_approximate_ahead :
    ((Approx.run 200 ⟨20, 100, fun x => (x * 11).tdiv 10, fun _ => 1⟩
      [((2 : Fin 3), ⟨0, 2⟩), (0, ⟨1, 3⟩), (2, ⟨2, 3⟩), (1, ⟨3, 5⟩), (0, ⟨4, 7⟩), (0, ⟨5, 13⟩)]).map (fun s => s.out.length)).toOption = some 1 ∧
    ((Approx.run 200 ⟨20, 100, fun x => (x * 11).tdiv 10, fun _ => 1⟩
      (renumber flip3 [((2 : Fin 3), ⟨0, 2⟩), (0, ⟨1, 3⟩), (2, ⟨2, 3⟩), (1, ⟨3, 5⟩), (0, ⟨4, 7⟩), (0, ⟨5, 13⟩)])).map
        (fun s => s.out.length)).toOption = some 0 := by
  constructor <;> decide

/-- **C122**: the Python ApproximateTimeSynchronizer is not like this: it takes the first combination that fits,
where the nearest message of the input with the smallest number is kept longest, so that exchanging inputs changes which messages
are matched. -/
theorem C122_python_approximate_depends :
    ((Py.approxRun (fun _ => false) 5 false (Py.construct 3 5)
      [(2, ⟨⟨0, 3⟩, true⟩), (1, ⟨⟨1, 3⟩, true⟩), (2, ⟨⟨2, 8⟩, true⟩), (1, ⟨⟨3, 9⟩, true⟩), (0, ⟨⟨4, 6⟩, true⟩)]).map
        (fun s => s.out.map (fun t => (t 0, t 1, t 2)))).toOption = some [(⟨4, 6⟩, ⟨1, 3⟩, ⟨0, 3⟩)] ∧
    ((Py.approxRun (fun _ => false) 5 false (Py.construct 3 5)
      (renumber flip3 [(2, ⟨⟨0, 3⟩, true⟩), (1, ⟨⟨1, 3⟩, true⟩), (2, ⟨⟨2, 8⟩, true⟩), (1, ⟨⟨3, 9⟩, true⟩), (0, ⟨⟨4, 6⟩, true⟩)])).map
        (fun s => s.out.map (fun t => (t 2, t 1, t 0)))).toOption = some [(⟨4, 6⟩, ⟨3, 9⟩, ⟨2, 8⟩)] := by
  constructor <;> decide

/-! The hypotheses can be met, and the runs compared output something. -/

example : Renumbering (fun i : Fin 2 => if i = 0 then 1 else 0) (fun i => if i = 0 then 1 else 0) := ⟨by decide, by decide⟩

example : ((ExactTime.run (ExactTime.construct 2 5) ExactTime.sampleOps).map (fun s => s.log.length)).toOption = some 3 := by decide

example : ((Epsilon.run 10 (Epsilon.construct 2 5 10) (renumber (fun i => if i = 0 then 1 else 0) Epsilon.sampleOps)).map
    (fun s => s.out.length)).toOption = some 2 := by decide

example : ((Py.tsRun (fun _ => false) (Py.construct 3 5)
    (renumber flip3 [(0, ⟨⟨0, 4⟩, true⟩), (1, ⟨⟨1, 4⟩, true⟩), (2, ⟨⟨2, 4⟩, true⟩)])).map
      (fun s => s.out.map (fun t => (t 0, t 1, t 2)))).toOption = some [(⟨2, 4⟩, ⟨1, 4⟩, ⟨0, 4⟩)] := by decide

/-- The hypotheses of both theorems about ApproximateTime hold for the sample history with bounds of 3; two sets are output. -/
example : (∀ i, ApproxSpec.Spaced 3 (stream Approx.sampleOps i)) ∧
    Approx.NoOverflow 100 { Approx.sampleCfg with lower := fun _ => 3 } Approx.sampleOps ∧
    Approx.NoOverflow 100 { Approx.sampleCfg with lower := renumberSet (fun i : Fin 2 => if i = 0 then 1 else 0) (fun _ => 3) }
      (renumber (fun i => if i = 0 then 1 else 0) Approx.sampleOps) ∧
    (∃ s, Approx.run 100 { Approx.sampleCfg with lower := fun _ => 3 } Approx.sampleOps = .ok s ∧ s.out.length = 2) ∧
    (∃ s', Approx.run 100 { Approx.sampleCfg with lower := renumberSet (fun i : Fin 2 => if i = 0 then 1 else 0) (fun _ => 3) }
      (renumber (fun i => if i = 0 then 1 else 0) Approx.sampleOps) = .ok s' ∧ s'.out.length = 2) := by
  refine ⟨?_, ?_, ?_, ⟨_, rfl, by decide⟩, ⟨_, rfl, by decide⟩⟩
  · unfold ApproxSpec.Spaced; decide
  · exact Approx.noOverflow_of_short (by decide)
  · exact Approx.noOverflow_of_short (by decide)

end MF
