import Verif.Proofs.Approx10
import Verif.Proofs.ApproxMaximal
import Verif.Props.Approx
/-
C98: ApproximateTime passes over no possible set without a reason.
-/
namespace MF.Approx

variable {n : Nat}

/-- The messages of output sets are older than all messages of their input that are still held. -/
theorem out_before_held {L : Fin n → List Ev} {s : State n} (hh : Hist L s) (hs : ∀ i, StrictlyTimeSorted (L i))
    {S : Fin n → Option Ev} (hS : S ∈ s.out) (i : Fin n) :
    ∃ a, S i = some a ∧ a ∈ L i ∧ ∀ x ∈ view s i, a.stamp < x.stamp := by
  obtain ⟨c, hc, hsub⟩ := hh i
  have : S i ∈ c.map some := hsub.subset (List.mem_map.2 ⟨S, hS, rfl⟩)
  obtain ⟨a, ha, he⟩ := List.mem_map.1 this
  have hsi := hs i
  rw [hc] at hsi
  exact ⟨a, he.symm, by rw [hc]; simp [ha], fun x hx => (List.pairwise_append.1 hsi).2.2 a ha x hx⟩

/-- **C98** (sets do not conflict).  With strictly increasing inputs each output set is newer on every input than the sets
before it. -/
theorem C98_sets_follow [NeZero n] (fuel : Nat) (cfg : Cfg n) (ops : List (Fin n × Ev)) (s : State n)
    (h : run fuel cfg ops = .ok s) (hs : ∀ i, StrictlyTimeSorted (stream ops i)) :
    s.out.Pairwise (fun S S' => ∀ i, ∃ a b, S i = some a ∧ S' i = some b ∧ a.stamp < b.stamp) := by
  have hh := (run_facts h).2.2
  have key : ∀ i, s.out.Pairwise (fun S S' => ∃ a b, S i = some a ∧ S' i = some b ∧ a.stamp < b.stamp) := by
    intro i
    obtain ⟨c, hc, hsub⟩ := hh i
    have h1 : StrictlyTimeSorted c := by have := hs i; rw [hc] at this; exact (List.pairwise_append.1 this).1
    have h2 : (c.map some).Pairwise (fun x y => ∃ a b, x = some a ∧ y = some b ∧ a.stamp < b.stamp) :=
      List.pairwise_map.2 (h1.imp (fun h => ⟨_, _, rfl, rfl, h⟩))
    exact List.pairwise_map.1 (h2.sublist hsub)
  rw [List.pairwise_iff_getElem]
  intro a b ha hb hab i
  exact (List.pairwise_iff_getElem.1 (key i)) a b ha hb hab

/-- **C98** (maximality).  Let the inputs be strictly increasing and let no queue overflow.  Let `T` be any choice of one
message of every input that spans at most the maximum interval.  If an output set has a later message than `T` on some
input, then `T` shares a message with an output set or crosses one: no set could be added to the output up to its last
set.  Nothing is assumed about the age penalty or the lower bounds between messages. -/
theorem C98_maximal [NeZero n] (fuel : Nat) (cfg : Cfg n) (ops : List (Fin n × Ev)) (s : State n)
    (h : run fuel cfg ops = .ok s) (hq : NoOverflow fuel cfg ops) (hs : ∀ i, StrictlyTimeSorted (stream ops i))
    (T : Fin n → Ev) (hT : ∀ i, (i, T i) ∈ ops) (hsp : ∀ i j, (T i).stamp - (T j).stamp ≤ cfg.maxInterval)
    (S : Fin n → Option Ev) (hS : S ∈ s.out) (i : Fin n) (a : Ev) (ha : S i = some a) (hlate : (T i).stamp < a.stamp) :
    ∃ S' ∈ s.out, Conflict S' T := by
  have hh := (run_facts h).2.2
  rcases run_settled_fits h hq hs T (fun i => mem_stream.2 (hT i)) hsp with h1 | ⟨p, c, hc, _, h1⟩ | h1
  · obtain ⟨a', ha', _, hlt⟩ := out_before_held hh hs hS i
    rw [ha] at ha'
    cases ha'
    have := hlt (T i) (by simpa using h1 i)
    omega
  · obtain ⟨b, hb, _, hlt⟩ := out_before_held hh hs hS p
    obtain ⟨tl, htl⟩ := hc.head p
    have h2 := hlt (c p) (by rw [htl]; simp)
    refine ⟨S, hS, Or.inr ⟨p, i, b, a, hb, ha, ?_, hlate⟩⟩
    rcases h1 with h1 | ⟨h1, _⟩
    · rw [← h1]; exact h2
    · omega
  · exact h1

/-- **C98** (what has no conflict yet).  A set `T` within the maximum interval that conflicts with no output set is newer
than the output on every input, and either all its messages are still held, or it will conflict with a set as soon as
another one is output. -/
theorem C98_undecided [NeZero n] (fuel : Nat) (cfg : Cfg n) (ops : List (Fin n × Ev)) (s : State n)
    (h : run fuel cfg ops = .ok s) (hq : NoOverflow fuel cfg ops) (hs : ∀ i, StrictlyTimeSorted (stream ops i))
    (T : Fin n → Ev) (hT : ∀ i, (i, T i) ∈ ops) (hsp : ∀ i j, (T i).stamp - (T j).stamp ≤ cfg.maxInterval)
    (hno : ∀ S ∈ s.out, ¬ Conflict S T) :
    (∀ S ∈ s.out, ∀ i a, S i = some a → a.stamp < (T i).stamp) ∧
    ((∀ i, T i ∈ s.past i ++ s.deques i) ∨
      ∀ more s', run fuel cfg (ops ++ more) = .ok s' → NoOverflow fuel cfg (ops ++ more) →
        (∀ i, StrictlyTimeSorted (stream (ops ++ more) i)) → s.out.length < s'.out.length →
        ∃ S ∈ s'.out, Conflict S T) := by
  have hh := (run_facts h).2.2
  have hmax := C98_maximal fuel cfg ops s h hq hs T hT hsp
  constructor
  · intro S hS i a ha
    apply Classical.byContradiction
    intro hlt
    obtain ⟨a', ha', hmem, _⟩ := out_before_held hh hs hS i
    rw [ha] at ha'; cases ha'
    have hTi : T i ∈ stream ops i := mem_stream.2 (hT i)
    by_cases he : a = T i
    · exact hno S hS (Or.inl ⟨i, by rw [ha, he]⟩)
    · have hne : a.stamp ≠ (T i).stamp := by
        intro heq
        have hsi := hs i
        obtain ⟨k, hk, hka⟩ := List.getElem_of_mem hmem
        obtain ⟨l, hl, hla⟩ := List.getElem_of_mem hTi
        have hget := List.pairwise_iff_getElem.1 hsi
        rcases Nat.lt_trichotomy k l with hkl | hkl | hkl
        · have := hget k l hk hl hkl; rw [hka, hla] at this; omega
        · subst hkl; rw [hka] at hla; exact he hla
        · have := hget l k hl hk hkl; rw [hka, hla] at this; omega
      obtain ⟨S', hS', hc⟩ := hmax S hS i a ha (by omega)
      exact hno S' hS' hc
  · by_cases hall : ∀ i, T i ∈ s.past i ++ s.deques i
    · exact Or.inl hall
    · right
      intro more s' h' hq' hs' hlen
      obtain ⟨j, hj⟩ := Classical.not_forall.1 hall
      obtain ⟨c, hc, _⟩ := hh j
      have hTc : T j ∈ c := by
        have : T j ∈ stream ops j := mem_stream.2 (hT j)
        rw [hc] at this
        rcases List.mem_append.1 this with h | h
        · exact h
        · exact absurd h hj
      obtain ⟨_, hsince⟩ := run_since h more s' h'
      obtain ⟨c', hc', hsub⟩ := hsince j
      have hS : s'.out[s.out.length] ∈ s'.out.drop s.out.length := by
        rw [List.mem_iff_getElem]
        exact ⟨0, by rw [List.length_drop]; omega, by simp⟩
      have hmem : s'.out[s.out.length] j ∈ c'.map some := hsub.subset (List.mem_map.2 ⟨_, hS, rfl⟩)
      obtain ⟨a, ha, hea⟩ := List.mem_map.1 hmem
      have hc' : view s j ++ stream more j = c' ++ view s' j := hc'
      have hsj := hs' j
      rw [stream_append, hc, List.append_assoc, hc'] at hsj
      have hlt : (T j).stamp < a.stamp := (List.pairwise_append.1 hsj).2.2 _ hTc _ (by simp [ha])
      exact C98_maximal fuel cfg (ops ++ more) s' h' hq' hs' T (fun i => by simp [hT i]) hsp _ (List.mem_of_mem_drop hS) j a
        hea.symm hlt

/-- In the sample history the set of the messages at 90 and 100 is possible and is not output: it shares the message at 100
with the first output set. -/
example : ∃ s, run 100 sampleCfg sampleOps = .ok s ∧ (∀ i, StrictlyTimeSorted (stream sampleOps i)) ∧
    ((⟨2, 103⟩ : Ev).stamp - (⟨4, 141⟩ : Ev).stamp ≤ sampleCfg.maxInterval) ∧ NoOverflow 100 sampleCfg sampleOps ∧
    ∃ S ∈ s.out, Conflict S (fun i => if i = 0 then ⟨0, 90⟩ else ⟨1, 100⟩) := by
  refine ⟨_, rfl, ?_, by decide, noOverflow_of_short (by decide), _, List.mem_cons_self, Or.inl ⟨1, by decide⟩⟩
  intro i; unfold StrictlyTimeSorted; revert i; decide

/-- A set can be excluded only because it crosses an output set: here the set of the messages at 130 and 160 would be
possible, none of its messages is output by the set of the messages at 140 and 141, which it crosses. -/
theorem C98_crossing : ∃ s, run 100 sampleCfg [(0, ⟨0, 130⟩), (1, ⟨1, 141⟩), (0, ⟨2, 140⟩), (1, ⟨3, 160⟩), (0, ⟨4, 190⟩)] = .ok s ∧
    s.out.map List.ofFn = [[some ⟨2, 140⟩, some ⟨1, 141⟩]] ∧ (⟨3, 160⟩ : Ev).stamp - (⟨0, 130⟩ : Ev).stamp ≤ sampleCfg.maxInterval ∧
    ∃ S ∈ s.out, Conflict S (fun i => if i = 0 then ⟨0, 130⟩ else ⟨3, 160⟩) :=
  ⟨_, rfl, by decide, by decide, _, List.mem_cons_self, Or.inr ⟨1, 0, ⟨1, 141⟩, ⟨2, 140⟩, by decide, by decide, by decide, by decide⟩⟩

/-- **C98** (the room is needed).  With queues of one message the set of the two messages at 100 is lost, and no output set
conflicts with it. -/
theorem C98_room_needed : ∃ s, run 100 { sampleCfg with queueSize := 1 }
      [(0, ⟨0, 100⟩), (0, ⟨1, 200⟩), (1, ⟨2, 100⟩), (1, ⟨3, 200⟩)] = .ok s ∧
    s.out.map List.ofFn = [[some ⟨1, 200⟩, some ⟨3, 200⟩]] ∧
    ∀ S ∈ s.out, ∀ i a, S i = some a → 100 < a.stamp :=
  ⟨_, rfl, by decide, by decide⟩

end MF.Approx
