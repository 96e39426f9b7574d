import Verif.Proofs.Epsilon
import Verif.Proofs.EpsilonFits
/-
Properties C21-C26 of the ApproximateEpsilonTime policy.
-/
namespace MF.Epsilon

variable {n : Nat}

/-- Sample history on two inputs with epsilon 10: (100, 105) matches, 120 is too old for 140. -/
def sampleOps : List (Fin 2 × Ev) :=
  [(0, ⟨0, 100⟩), (0, ⟨1, 120⟩), (1, ⟨2, 105⟩), (1, ⟨3, 140⟩), (0, ⟨4, 145⟩), (0, ⟨5, 150⟩)]

/-- The only way in which a call can fail to return normally is by not returning (see C24). -/
theorem C21_no_other_fault [NeZero n] (fuel q : Nat) (eps : Int) (ops : List (Fin n × Ev)) (f : Fault)
    (h : run fuel (construct n q eps) ops = .error f) : f = .hang := by
  have key : ∀ (ops : List (Fin n × Ev)) (s : State n), Inv s →
      runE (fun s op => add fuel s op.1 op.2) s ops = .error f → f = .hang := by
    intro ops
    induction ops with
    | nil => intro s _ h; cases h
    | cons op ops ih =>
      intro s hs h
      simp only [runE] at h
      cases h1 : add fuel s op.1 op.2 with
      | ok s' => rw [h1] at h; exact ih s' (add_ok hs h1).1 h
      | error f' =>
        rw [h1] at h; cases h
        rcases add_shape fuel s hs op.1 op.2 with ⟨s1, g1, _, _, _, _, _, g7⟩ | ⟨s2, g1, _⟩
        · rw [g7] at h1; exact process_fault fuel s1 f g1 h1
        · rw [g1] at h1; cases h1
  exact key ops _ (inv_construct q eps) h

/-- **C21**.  Every output set has, for every input, a message added on that input, and the stamps of any two of
them differ by at most epsilon. -/
theorem C21_sets_within_epsilon [NeZero n] (fuel q : Nat) (eps : Int) (ops : List (Fin n × Ev)) (s : State n)
    (h : run fuel (construct n q eps) ops = .ok s) :
    ∀ t ∈ s.out, (∀ i, ∃ e, t i = some e ∧ (i, e) ∈ ops) ∧
      ∀ i j x y, i ≠ j → t i = some x → t j = some y → x.stamp - y.stamp ≤ eps := by
  intro t ht
  have hbase : (∀ i, ∃ e, t i = some e) ∧
      ∀ i j x y, i ≠ j → t i = some x → t j = some y → x.stamp ≤ y.stamp + eps := by
    have key : ∀ ops s, run fuel (construct n q eps) ops = .ok s → ∀ t ∈ s.out, (∀ i, ∃ e, t i = some e) ∧
        ∀ i j x y, i ≠ j → t i = some x → t j = some y → x.stamp ≤ y.stamp + eps := by
      apply runE_induction
      · intro t ht; simp [construct] at ht
      · intro ops s op s' hr ih hs t ht
        obtain ⟨hinv, heps, _⟩ := run_inv hr
        obtain ⟨_, _, _, sp⟩ := add_ok hinv hs
        cases sp with
        | processed o hall hsteps hout =>
          rw [hout] at ht
          rcases List.mem_append.1 ht with ht | ht
          · exact ih t ht
          · rw [heps] at hsteps; exact steps_output hsteps t ht
        | queued _ _ _ hout => rw [hout] at ht; exact ih t ht
        | overflow _ _ _ hout => rw [hout] at ht; exact ih t ht
    exact key ops s h t ht
  refine ⟨fun i => ?_, fun i j x y hij hx hy => by have := hbase.2 i j x y hij hx hy; omega⟩
  obtain ⟨e, he⟩ := hbase.1 i
  refine ⟨e, he, ?_⟩
  obtain ⟨c, hc, hsub⟩ := run_history ops s h i
  have : some e ∈ c.map some := hsub.subset (List.mem_map.2 ⟨t, ht, he⟩)
  simp at this
  apply mem_stream.1
  rw [hc]; simp [this]

example : ∃ s, run 10 (construct 2 5 10) sampleOps = .ok s ∧
    s.out.map List.ofFn = [[some ⟨0, 100⟩, some ⟨2, 105⟩], [some ⟨4, 145⟩, some ⟨3, 140⟩]] ∧
    List.ofFn s.events = [[⟨5, 150⟩], []] := ⟨_, rfl, by decide, by decide⟩

/-- **C22**.  Per input, the messages used by successive output sets form a subsequence of what was added there and
is no longer buffered: arrival order is kept and no delivered message is used twice. -/
theorem C22_each_message_once_in_order [NeZero n] (fuel q : Nat) (eps : Int) (ops : List (Fin n × Ev)) (s : State n)
    (h : run fuel (construct n q eps) ops = .ok s) (i : Fin n) :
    ∃ consumed, stream ops i = consumed ++ s.events i ∧ List.Sublist (s.out.map (· i)) (consumed.map some) :=
  run_history ops s h i

/-- **C22** (corollary).  If the messages added on an input are distinct, no message occurs in two output sets. -/
theorem C22_no_message_in_two_sets [NeZero n] (fuel q : Nat) (eps : Int) (ops : List (Fin n × Ev)) (s : State n)
    (h : run fuel (construct n q eps) ops = .ok s) (i : Fin n) (hd : (stream ops i).Nodup) :
    (s.out.map (· i)).Nodup := by
  obtain ⟨c, hc, hsub⟩ := run_history ops s h i
  have : (c.map some).Nodup := by
    rw [hc] at hd
    have := (List.nodup_append.1 hd).1
    unfold List.Nodup at *
    rw [List.pairwise_map]
    exact this.imp (fun h h' => h (Option.some.inj h'))
  exact hsub.nodup this

example : (stream sampleOps 0).Nodup ∧ (stream sampleOps 1).Nodup := by decide

/-- **C23**.  After every call each input buffers at most `queue_size` messages and at least one input buffers none. -/
theorem C23_bounded [NeZero n] (fuel q : Nat) (eps : Int) (ops : List (Fin n × Ev)) (s : State n)
    (h : run fuel (construct n q eps) ops = .ok s) :
    (∀ i, (s.events i).length ≤ q) ∧ ∃ i, s.events i = [] := by
  obtain ⟨hinv, _, hq⟩ := run_inv h
  exact ⟨fun i => hq ▸ hinv.bound i, hinv.someEmpty⟩

example : ∃ s, run 10 (construct 2 2 10) [(0, ⟨0, 1⟩), (0, ⟨1, 2⟩), (0, ⟨2, 3⟩)] = .ok s ∧
    List.ofFn s.events = [[⟨1, 2⟩, ⟨2, 3⟩], []] := ⟨_, rfl, by decide⟩

/-- **C24** (termination).  For a non-negative epsilon every history of calls returns: as many loop iterations as
messages were ever added are enough for each call.  (Stamps are 64-bit, hence at most `maxTime`.) -/
theorem C24_terminates_partial [NeZero n] (q : Nat) (eps : Int) (heps : 0 ≤ eps) (ops : List (Fin n × Ev))
    (hmax : ∀ op ∈ ops, op.2.stamp ≤ maxTime) (fuel : Nat) (hfuel : ops.length ≤ fuel) :
    ∃ s, run fuel (construct n q eps) ops = .ok s := by
  revert hmax hfuel
  induction ops using snoc_induction with
  | h0 => intro _ _; exact ⟨_, rfl⟩
  | hs ops op ih =>
    intro hmax hfuel
    simp at hfuel
    obtain ⟨s, hs⟩ := ih (fun o ho => hmax o (by simp [ho])) (by omega)
    obtain ⟨i, e⟩ := op
    obtain ⟨hinv, he, _⟩ := run_inv hs
    have hstep : ∃ s', add fuel s i e = .ok s' := by
      rcases add_shape fuel s hinv i e with ⟨s1, h1, h2, h3, h4, h5, h6, h7⟩ | ⟨s2, h1, _⟩
      · rw [h7]
        have hsuf : ∀ j, ∃ c, stream (ops ++ [(i, e)]) j = c ++ s1.events j := by
          intro j
          obtain ⟨c, hc, _⟩ := run_history ops s hs j
          refine ⟨c, ?_⟩
          rw [h5]
          by_cases hj : j = i
          · subst hj; rw [stream_snoc_same, upd_same, hc, List.append_assoc]
          · rw [stream_snoc_ne _ _ (Ne.symm hj), upd_ne _ _ hj, hc]
        apply process_terminates fuel s1 h1 (by rw [h3, he]; exact heps)
        · intro j x hx
          obtain ⟨c, hc⟩ := hsuf j
          have : x ∈ stream (ops ++ [(i, e)]) j := by rw [hc]; simp [hx]
          exact hmax (j, x) (mem_stream.1 this)
        · have : total s1.events ≤ total (stream (ops ++ [(i, e)])) := by
            apply total_le
            intro j
            obtain ⟨c, hc⟩ := hsuf j
            rw [hc]; simp
          rw [total_stream] at this
          simp at this
          omega
      · exact ⟨s2, h1⟩
    obtain ⟨s', hs'⟩ := hstep
    refine ⟨s', ?_⟩
    unfold run at hs ⊢
    rw [runE_append, hs]
    simp [runE, hs']

example : (∀ op ∈ sampleOps, op.2.stamp ≤ maxTime) ∧ sampleOps.length ≤ 10 := by decide

/-- **C24** (failure).  For a negative epsilon and at least two inputs, once every input has received a message the
synchronizer is stuck in `add` for ever, whatever the stamps, the order and the (non-zero) queue size. -/
theorem C24_negative_epsilon_hangs [NeZero n] (hn : 2 ≤ n) (q : Nat) (hq : 0 < q) (eps : Int) (heps : eps < 0)
    (ops : List (Fin n × Ev)) (hall : ∀ i, stream ops i ≠ []) (fuel : Nat) :
    run fuel (construct n q eps) ops = .error .hang := by
  have key : ∀ ops : List (Fin n × Ev), run fuel (construct n q eps) ops = .error .hang ∨
      ∃ s, run fuel (construct n q eps) ops = .ok s ∧ (∀ i, stream ops i ≠ [] → s.events i ≠ []) := by
    intro ops
    induction ops using snoc_induction with
    | h0 => right; exact ⟨_, rfl, fun i h => absurd rfl h⟩
    | hs ops op ih =>
      rcases ih with ih | ⟨s, hs, ih⟩
      · left
        unfold run at ih ⊢
        rw [runE_append, ih]
      · obtain ⟨i, e⟩ := op
        obtain ⟨hinv, he, hqs⟩ := run_inv hs
        rcases add_shape fuel s hinv i e with ⟨s1, h1, h2, h3, h4, h5, h6, h7⟩ | ⟨s2, h1, h2, h3, h4, hnot, h5⟩
        · left
          have := process_negative hn fuel s1 h1 (by rw [h3, he]; exact heps) h6
          unfold run at hs ⊢
          rw [runE_append, hs]
          simp [runE, h7, this]
        · right
          refine ⟨s2, ?_, ?_⟩
          · unfold run at hs ⊢
            rw [runE_append, hs]
            simp [runE, h1]
          · intro j hj
            cases h5 with
            | processed o hall' _ _ => obtain ⟨k, hk⟩ := hnot; exact absurd hk (hall' k)
            | queued _ _ hev _ =>
              rw [hev]
              by_cases hji : j = i
              · subst hji; rw [upd_same]; simp
              · rw [upd_ne _ _ hji]
                rw [stream_snoc_ne _ _ (Ne.symm hji)] at hj
                exact ih j hj
            | overflow _ hlen hev _ =>
              rw [hev]
              by_cases hji : j = i
              · subst hji
                rw [upd_same]
                intro h0
                have hl : (s.events j ++ [e]).tail.length = 0 := by rw [h0]; rfl
                simp at hl
                rw [hl] at hlen
                simp at hlen
                omega
              · rw [upd_ne _ _ hji]
                rw [stream_snoc_ne _ _ (Ne.symm hji)] at hj
                exact ih j hj
  rcases key ops with h | ⟨s, hs, h⟩
  · exact h
  · exfalso
    obtain ⟨i, hi⟩ := (run_inv hs).1.someEmpty
    exact h i (hall i) hi

example : (∀ i, stream sampleOps i ≠ []) ∧ run 1000 (construct 2 5 (-1)) sampleOps = .error .hang := by
  have h : ∀ i, stream sampleOps i ≠ [] := by decide
  exact ⟨h, C24_negative_epsilon_hangs (by omega) 5 (by omega) (-1) (by omega) sampleOps h 1000⟩

/-- **C25**.  If no queue overflows, the output sequence and the remaining buffers depend
only on what each input delivered, not on the interleaving. -/
theorem C25_interleaving_independent [NeZero n] (fuel fuel' q q' : Nat) (eps : Int) (ops ops' : List (Fin n × Ev))
    (s s' : State n) (h : run fuel (construct n q eps) ops = .ok s) (h' : run fuel' (construct n q' eps) ops' = .ok s')
    (hq : NoOverflow fuel q eps ops) (hq' : NoOverflow fuel' q' eps ops') (hsame : SameStreams ops ops') :
    s.out = s'.out ∧ s.events = s'.events := by
  have h1 := run_canonical_fits ops s h hq
  have h2 := run_canonical_fits ops' s' h' hq'
  have : stream ops = stream ops' := funext hsame
  rw [this] at h1
  exact steps_det h1 h2 (run_inv h).1.someEmpty (run_inv h').1.someEmpty

def sampleOps' : List (Fin 2 × Ev) :=
  [(1, ⟨2, 105⟩), (1, ⟨3, 140⟩), (0, ⟨0, 100⟩), (0, ⟨1, 120⟩), (0, ⟨4, 145⟩), (0, ⟨5, 150⟩)]

example : SameStreams sampleOps sampleOps' ∧ (∀ i, (stream sampleOps i).length ≤ 5) ∧
    ∃ s', run 10 (construct 2 5 10) sampleOps' = .ok s' ∧ s'.out.length = 2 := by
  refine ⟨?_, by decide, _, rfl, by decide⟩
  unfold SameStreams; decide

/-- The history has four messages on the first input, but queues of two places do not overflow. -/
example : NoOverflow 10 2 10 sampleOps := noOverflow_of_check (by decide)

/-- **C26** is false in general: with three inputs and epsilon 10 the set (9, 8, 18) lies within epsilon, no set is
output, and nothing of it can be output any more, because 8 was discarded together with the too old 0. -/
theorem C26_misses_matching_set :
    ∃ s : State 3, run 10 (construct 3 10 10) [(0, ⟨0, 0⟩), (1, ⟨1, 8⟩), (2, ⟨2, 18⟩), (0, ⟨3, 9⟩)] = .ok s ∧
      s.out.map List.ofFn = [] ∧ List.ofFn s.events = [[⟨3, 9⟩], [], [⟨2, 18⟩]] := ⟨_, rfl, by decide, by decide⟩

/-- **C26** (partial).  Let every input be in time order and no queue overflow.  A set of added messages, one per
input and within epsilon, always has a member in some output set, provided there are exactly two inputs, or epsilon
is zero, or the messages of the set carry identical stamps.  Missing from the full statement: three or more inputs with
epsilon > 0 and different stamps, for which it is false (`C26_misses_matching_set`). -/
theorem C26_finds_matches_partial [NeZero n] (fuel q : Nat) (eps : Int) (heps : 0 ≤ eps) (ops : List (Fin n × Ev))
    (s : State n) (h : run fuel (construct n q eps) ops = .ok s) (hmax : ∀ op ∈ ops, op.2.stamp ≤ maxTime)
    (hq : NoOverflow fuel q eps ops) (hsorted : ∀ i, TimeSorted (stream ops i))
    (T : Fin n → Ev) (hT : ∀ i, (i, T i) ∈ ops) (hspan : ∀ i j, (T i).stamp - (T j).stamp ≤ eps)
    (hcase : n = 2 ∨ eps = 0 ∨ ∀ i j, (T i).stamp = (T j).stamp) :
    ∃ t ∈ s.out, ∃ i, t i = some (T i) := by
  refine steps_match heps (run_canonical_fits ops s h hq) (run_inv h).1.someEmpty T
    (fun i j => by have := hspan i j; omega) hcase hsorted (fun i => mem_stream.2 (hT i)) ?_
  intro i e he
  exact hmax (i, e) (mem_stream.1 he)

/-- The hypotheses hold for the set (100, 105) of the sample history. -/
example : (∀ i, TimeSorted (stream sampleOps i)) ∧ (∀ i, (stream sampleOps i).length ≤ 5) ∧
    ((0 : Fin 2), (⟨0, 100⟩ : Ev)) ∈ sampleOps ∧ ((1 : Fin 2), (⟨2, 105⟩ : Ev)) ∈ sampleOps := by
  refine ⟨?_, by decide, by decide, by decide⟩
  intro i; unfold TimeSorted; revert i; decide

end MF.Epsilon
