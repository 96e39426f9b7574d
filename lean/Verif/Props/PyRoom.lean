import Verif.Proofs.PyRoom
import Verif.Props.ExactRoom
/-
C96: exactly which sets the bounded queues of the Python TimeSynchronizer lose, and how this compares to C++.
-/
namespace MF.Py

variable {n : Nat}

/-- **C96**.  With strictly increasing inputs and a queue size `q ≥ 0` every call returns, the sets come out in
increasing stamp order, and a set is output if and only if, when its last message arrived, each input had delivered
fewer than `q` messages newer than it. -/
theorem C96_bounded_outputs [NeZero n] (q : Int) (hq : 0 ≤ q) (ops : List (Fin n × Ev))
    (hinc : ∀ i, StrictlyTimeSorted (stream ops i)) :
    ∃ s, tsRun noRaise (construct n q) (withHeaders ops) = .ok s ∧ s.locked = false ∧
      (s.out.map stampOf).Pairwise (· < ·) ∧
      ∀ t, t ∈ s.out ↔ ∃ pre i e post, ops = pre ++ (i, e) :: post ∧ Completes pre i e (fun j => some (t j)) ∧
        ∀ j, (newerOn pre j e.stamp : Int) < q := by
  obtain ⟨s, h1, h2, _, _, _, h3, h4, _⟩ := room_run q hq ops hinc
  exact ⟨s, h1, h2, h4, h3⟩

/-- **C96** (a larger queue never loses more). -/
theorem C96_larger_queue [NeZero n] (q q' : Int) (hq : 0 ≤ q) (hle : q ≤ q') (ops : List (Fin n × Ev)) (s s' : State n)
    (h : tsRun noRaise (construct n q) (withHeaders ops) = .ok s)
    (h' : tsRun noRaise (construct n q') (withHeaders ops) = .ok s')
    (hinc : ∀ i, StrictlyTimeSorted (stream ops i)) : List.Sublist s.out s'.out := by
  obtain ⟨r, h1, _, h2, h3⟩ := C96_bounded_outputs q hq ops hinc
  obtain ⟨r', h1', _, h2', h3'⟩ := C96_bounded_outputs q' (by omega) ops hinc
  rw [h] at h1; cases h1
  rw [h'] at h1'; cases h1'
  refine pairwise_sublist (R := fun a b : Fin n → Ev => stampOf a < stampOf b) (fun a b h1 h2 => by omega)
    (List.pairwise_map.1 h2) (List.pairwise_map.1 h2') ?_
  intro t ht
  rw [h3] at ht
  rw [h3']
  obtain ⟨pre, i, e, post, a, b, c⟩ := ht
  exact ⟨pre, i, e, post, a, b, fun j => by have := c j; omega⟩

/-- The last message of a set. -/
private theorem completes_of_exact [NeZero n] (t : Fin n → Ev) : ∀ ops : List (Fin n × Ev),
    ExactSet ops t → ∃ pre i e post, ops = pre ++ (i, e) :: post ∧ Completes pre i e (fun j => some (t j)) := by
  intro ops
  induction ops using snoc_induction with
  | h0 => intro h; have := h.1 ⟨0, Nat.pos_of_ne_zero (NeZero.ne n)⟩; simp [stream] at this
  | hs ops op ih =>
    intro h
    obtain ⟨k, e⟩ := op
    by_cases hall : ∀ i, t i ∈ stream ops i
    · obtain ⟨pre, i, x, post, h1, h2⟩ := ih ⟨hall, h.2⟩
      exact ⟨pre, i, x, post ++ [(k, e)], by rw [h1]; simp, h2⟩
    · have hother : ∀ j, j ≠ k → t j ∈ stream ops j := by
        intro j hj
        rcases mem_stream_snoc.1 (h.1 j) with h | ⟨hjk, _⟩
        · exact h
        · exact absurd hjk hj
      rcases mem_stream_snoc.1 (h.1 k) with hk | ⟨_, hk⟩
      · refine absurd (fun i => ?_) hall
        by_cases hi : i = k
        · subst hi; exact hk
        · exact hother i hi
      · exact ⟨ops, k, e, [], rfl, by simp only [hk], fun j hj => ⟨t j, hother j hj, by rw [← hk]; exact h.2 j k, rfl⟩⟩

/-- **C96** (enough room).  If no input has delivered `q` or more messages newer than a set when the last message of the
set arrives, then every set of messages with the same stamp is output.  (`C65_finds_all_sets` needs room for all the
messages ever delivered.) -/
theorem C96_enough_room [NeZero n] (q : Int) (hq : 0 ≤ q) (ops : List (Fin n × Ev))
    (hinc : ∀ i, StrictlyTimeSorted (stream ops i))
    (hroom : ∀ pre i e post, ops = pre ++ (i, e) :: post →
      (∀ j, j ≠ i → ∃ x ∈ stream pre j, x.stamp = e.stamp) → ∀ j, (newerOn pre j e.stamp : Int) < q) :
    ∃ s, tsRun noRaise (construct n q) (withHeaders ops) = .ok s ∧ (∀ t, t ∈ s.out ↔ ExactSet ops t) ∧
      (s.out.map stampOf).Pairwise (· < ·) := by
  obtain ⟨s, h1, _, h2, h3⟩ := C96_bounded_outputs q hq ops hinc
  refine ⟨s, h1, fun t => ?_, h2⟩
  rw [h3]
  constructor
  · rintro ⟨pre, i, e, post, rfl, ⟨a, b⟩, _⟩
    simp only [Option.some.injEq] at a
    have hst : ∀ j, (t j).stamp = e.stamp := by
      intro j
      by_cases hj : j = i
      · subst hj; rw [a]
      · obtain ⟨x, _, hxe, hxt⟩ := b j hj
        simp only [Option.some.injEq] at hxt
        rw [hxt, hxe]
    refine ⟨fun j => ?_, fun j l => by rw [hst j, hst l]⟩
    by_cases hj : j = i
    · subst hj; rw [a]; exact mem_stream.2 (by simp)
    · obtain ⟨x, hx, _, hxt⟩ := b j hj
      simp only [Option.some.injEq] at hxt
      rw [hxt, stream_append]
      exact List.mem_append.2 (Or.inl hx)
  · intro h
    obtain ⟨pre, i, e, post, a, b⟩ := completes_of_exact t ops h
    exact ⟨pre, i, e, post, a, b, hroom pre i e post a (fun j hj => by
      obtain ⟨x, hx, hxe, _⟩ := b.2 j hj; exact ⟨x, hx, hxe⟩)⟩

/-- **C96** (compared to C++).  On the same strictly increasing inputs and with the same queue size the Python
TimeSynchronizer outputs every set that the C++ one outputs. -/
theorem C96_python_loses_no_more [NeZero n] (q : Nat) (hq : 0 < q) (ops : List (Fin n × Ev)) (s : State n)
    (c : ExactTime.State n) (h : tsRun noRaise (construct n q) (withHeaders ops) = .ok s)
    (hc : ExactTime.run (ExactTime.construct n q) ops = .ok c) (hinc : ∀ i, StrictlyTimeSorted (stream ops i)) :
    ∀ u ∈ ExactTime.outs c.log, ∃ t ∈ s.out, u = fun j => some (t j) := by
  intro u hu
  obtain ⟨r, h1, _, h2, h3⟩ := C96_bounded_outputs (q : Int) (by omega) ops hinc
  rw [h] at h1; cases h1
  rw [ExactTime.C95_bounded_outputs q hq ops c hc hinc] at hu
  obtain ⟨pre, i, e, post, rfl, hcp, hf⟩ := hu
  have hcomp : ∀ j, (u j).isSome := by
    intro j
    by_cases hj : j = i
    · subst hj; rw [hcp.1]; rfl
    · obtain ⟨x, _, _, hx⟩ := hcp.2 j hj; rw [hx]; rfl
  have hu : u = fun j => some ((u j).get (hcomp j)) := by funext j; simp
  refine ⟨fun j => (u j).get (hcomp j), ?_, hu⟩
  rw [h3]
  refine ⟨pre, i, e, post, rfl, ?_, ?_⟩
  · rw [← hu]; exact hcp
  · intro j
    have hsj : StrictlyTimeSorted (stream pre j) := by
      have := hinc j
      unfold StrictlyTimeSorted at this ⊢
      rw [stream_append] at this; exact (List.pairwise_append.1 this).1
    obtain ⟨l, h4, h5, h6⟩ := newer_list hsj e.stamp
    have := hf l h4 (fun x hx => by
      obtain ⟨h7, y, hy, hyx⟩ := (h6 x).1 hx
      exact ⟨h7, (j, y), mem_stream.1 hy, hyx⟩)
    omega

/-- **C96** (compared to C++, two inputs).  With two inputs the two synchronizers output the same sets. -/
theorem C96_two_inputs_agree (q : Nat) (hq : 0 < q) (ops : List (Fin 2 × Ev)) (s : State 2) (c : ExactTime.State 2)
    (h : tsRun noRaise (construct 2 q) (withHeaders ops) = .ok s)
    (hc : ExactTime.run (ExactTime.construct 2 q) ops = .ok c) (hinc : ∀ i, StrictlyTimeSorted (stream ops i)) :
    ∀ t : Fin 2 → Ev, t ∈ s.out ↔ (fun j => some (t j)) ∈ ExactTime.outs c.log := by
  intro t
  constructor
  · intro ht
    obtain ⟨r, h1, _, h2, h3⟩ := C96_bounded_outputs (q : Int) (by omega) ops hinc
    rw [h] at h1; cases h1
    rw [h3] at ht
    rw [ExactTime.C95_bounded_outputs q hq ops c hc hinc]
    obtain ⟨pre, i, e, post, rfl, hcp, hf⟩ := ht
    refine ⟨pre, i, e, post, rfl, hcp, ?_⟩
    -- what is newer comes from the other input
    have hlast : ∀ x ∈ stream pre i, x.stamp < e.stamp := by
      intro x hx
      have hord := hinc i
      unfold StrictlyTimeSorted at hord
      rw [stream_append, List.pairwise_append] at hord
      exact hord.2.2 x hx e (by simp [stream])
    intro l hl hx
    have hother : ∃ j : Fin 2, j ≠ i := by
      by_cases hi : i = 0
      · exact ⟨1, by rw [hi]; decide⟩
      · exact ⟨0, fun h => hi h.symm⟩
    obtain ⟨j, hj⟩ := hother
    have hsj : StrictlyTimeSorted (stream pre j) := by
      have := hinc j
      unfold StrictlyTimeSorted at this ⊢
      rw [stream_append] at this; exact (List.pairwise_append.1 this).1
    obtain ⟨m, h4, h5, h6⟩ := newer_list hsj e.stamp
    have := nodup_subset_length hl (l' := m) (by
      intro x hxl
      obtain ⟨h7, ⟨k, y⟩, hy, hyx⟩ := hx x hxl
      simp only at hyx
      refine (h6 x).2 ⟨h7, y, ?_, hyx⟩
      by_cases hk : k = i
      · subst hk
        have := hlast y (mem_stream.2 hy); omega
      · have : k = j := by omega
        subst this; exact mem_stream.2 hy)
    have := hf j
    omega
  · intro hu
    obtain ⟨t', ht', he⟩ := C96_python_loses_no_more q hq ops s c h hc hinc _ hu
    have : t = t' := by
      funext j
      have := congrFun he j
      simpa using this
    rw [this]; exact ht'

/-- Inputs 0 and 1 deliver different stamps after stamp 1; input 2 lags. -/
def threeOps : List (Fin 3 × Ev) :=
  [(0, ⟨0, 1⟩), (1, ⟨1, 1⟩), (0, ⟨2, 2⟩), (1, ⟨3, 3⟩), (2, ⟨4, 1⟩)]

/-- **C96** (compared to C++, three inputs).  With three inputs the C++ synchronizer may lose a set that the Python one
outputs. -/
theorem C96_three_inputs_differ : (∀ i, StrictlyTimeSorted (stream threeOps i)) ∧
    (∃ s, tsRun noRaise (construct 3 2) (withHeaders threeOps) = .ok s ∧ s.out.map stampOf = [1]) ∧
    ∃ c, ExactTime.run (ExactTime.construct 3 2) threeOps = .ok c ∧ (ExactTime.outs c.log).length = 0 := by
  refine ⟨?_, ⟨_, rfl, by decide⟩, _, rfl, by decide⟩
  intro i; unfold StrictlyTimeSorted; revert i; decide

/-- The set with stamp 1 is lost with queue size 2, not with queue size 3. -/
example : (∀ i, StrictlyTimeSorted (stream ExactTime.laggingOps i)) ∧
    (∃ s, tsRun noRaise (construct 2 2) (withHeaders ExactTime.laggingOps) = .ok s ∧ s.out.map stampOf = [2, 3]) ∧
    (∃ s, tsRun noRaise (construct 2 3) (withHeaders ExactTime.laggingOps) = .ok s ∧ s.out.map stampOf = [1, 2, 3]) ∧
    newerOn (ExactTime.laggingOps.take 3) 0 1 = 2 := by
  refine ⟨?_, ⟨_, rfl, by decide⟩, ⟨_, rfl, by decide⟩, by decide⟩
  intro i; unfold StrictlyTimeSorted; revert i; decide

/-- **C96** needs inputs in stamp order: here input 0 has delivered two messages newer than stamp 2 when the last message
with this stamp arrives out of order, and with queue size 2 the set is output all the same: the newer set had left the
queue. -/
theorem C96_order_needed : let ops : List (Fin 2 × Ev) := [(0, ⟨0, 2⟩), (0, ⟨1, 3⟩), (1, ⟨2, 3⟩), (0, ⟨3, 4⟩), (1, ⟨4, 2⟩)]
    newerOn (ops.take 4) 0 2 = 2 ∧
    ∃ s : State 2, tsRun noRaise (construct 2 2) (withHeaders ops) = .ok s ∧ s.out.map stampOf = [3, 2] :=
  ⟨by decide, _, rfl, by decide⟩

end MF.Py
