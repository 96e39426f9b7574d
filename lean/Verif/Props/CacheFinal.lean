import Verif.Proofs.CacheFinal
import Verif.Props.Pipeline
import Verif.Props.AlignerDelay
/-
Property C118: when the answer of a cache about a past interval is final.
-/
namespace MF.Pipeline

open Sequencer (Steady Room SameMessages)
open Aligner (getQueueStatus adds)

/-- **C118** (Cache).  Messages added in time order: what `getInterval(a, b)` returns once a message newer than `b` is cached is
every message with a stamp in `[a, b]` that is ever added, and it stays so as long as the cache reaches back beyond `a` (or has
never been full). -/
theorem C118_cache_in_order (N : Nat) (hN : 0 < N) (l m : List Ev) (hs : TimeSorted (l ++ m)) (c c' : Cache.State)
    (h : runE Cache.add (Cache.construct N) l = .ok c) (h' : runE Cache.add (Cache.construct N) (l ++ m) = .ok c')
    (hne : l ≠ []) (a b : Int) (hb : b < Cache.getLatestTime c)
    (hold : Cache.getOldestTime c' < a ∨ (l ++ m).length ≤ N) :
    Cache.getInterval c a b = (l ++ m).filter (fun x => decide (a ≤ x.stamp ∧ x.stamp ≤ b)) ∧
    Cache.getInterval c' a b = Cache.getInterval c a b := by
  have hs1 := (List.pairwise_append.1 hs).1
  obtain ⟨d, e1, _, e2, _⟩ := cache_sorted N hN l hs1
  rw [h] at e1; cases e1
  obtain ⟨d', e1, _, e3, _⟩ := cache_sorted N hN (l ++ m) hs
  rw [h'] at e1; cases e1
  obtain ⟨p, e, rfl, hl⟩ := latest_last hN e2 hne
  obtain ⟨g1, g2⟩ := final_core (b := b) hN hs e2 e3 (fun x hx => by
    have := (List.pairwise_append.1 hs).2.2 e (by simp) x hx
    omega) hold
  exact ⟨g1, g2.trans g1.symm⟩

/-- Four messages, then two more; a cache of size 5. -/
example : ∃ c c', runE Cache.add (Cache.construct 5) [⟨1, 10⟩, ⟨2, 20⟩, ⟨3, 20⟩, ⟨4, 30⟩] = .ok c ∧
    runE Cache.add (Cache.construct 5) ([⟨1, 10⟩, ⟨2, 20⟩, ⟨3, 20⟩, ⟨4, 30⟩] ++ [⟨5, 40⟩, ⟨6, 50⟩]) = .ok c' ∧
    (29 : Int) < Cache.getLatestTime c ∧ Cache.getOldestTime c' = 20 ∧
    Cache.getInterval c 21 29 = [] ∧ Cache.getInterval c' 21 29 = [] ∧
    TimeSorted [⟨1, 10⟩, ⟨2, 20⟩, ⟨3, 20⟩, ⟨4, 30⟩, ⟨5, 40⟩, ⟨6, 50⟩] :=
  ⟨_, _, rfl, rfl, by decide, by decide, by decide, by decide, by unfold TimeSorted; decide⟩

example : ∃ c c', runE Cache.add (Cache.construct 6) [⟨1, 10⟩, ⟨2, 20⟩, ⟨3, 20⟩, ⟨4, 30⟩] = .ok c ∧
    runE Cache.add (Cache.construct 6) ([⟨1, 10⟩, ⟨2, 20⟩, ⟨3, 20⟩, ⟨4, 30⟩] ++ [⟨5, 40⟩, ⟨6, 50⟩]) = .ok c' ∧
    (Cache.getInterval c' 15 25).map (·.id) = [2, 3] ∧ Cache.getInterval c 15 25 = Cache.getInterval c' 15 25 :=
  ⟨_, _, rfl, rfl, by decide, by decide⟩

/-- **C118**.  The order is needed: a late message changes the answer about an interval before the newest message. -/
theorem C118_order_needed : ∃ c c', runE Cache.add (Cache.construct 5) [⟨1, 10⟩, ⟨2, 30⟩] = .ok c ∧
    runE Cache.add (Cache.construct 5) ([⟨1, 10⟩, ⟨2, 30⟩] ++ [⟨3, 20⟩]) = .ok c' ∧ (25 : Int) < Cache.getLatestTime c ∧
    Cache.getInterval c 15 25 = [] ∧ Cache.getInterval c' 15 25 = [⟨3, 20⟩] := ⟨_, _, rfl, rfl, by decide, by decide, by decide⟩

/-- **C118**.  An interval that ends at the newest stamp is not final: another message with that stamp may follow. -/
theorem C118_strict_needed : ∃ c c', runE Cache.add (Cache.construct 5) [⟨1, 10⟩, ⟨2, 30⟩] = .ok c ∧
    runE Cache.add (Cache.construct 5) ([⟨1, 10⟩, ⟨2, 30⟩] ++ [⟨3, 30⟩]) = .ok c' ∧ Cache.getLatestTime c = 30 ∧
    Cache.getInterval c 15 30 = [⟨2, 30⟩] ∧ Cache.getInterval c' 15 30 = [⟨2, 30⟩, ⟨3, 30⟩] :=
  ⟨_, _, rfl, rfl, by decide, by decide, by decide⟩

/-- **C118**.  A cache whose oldest stamp equals the beginning of the interval may have lost messages of the interval. -/
theorem C118_oldest_needed : ∃ c c', runE Cache.add (Cache.construct 2) [⟨1, 10⟩, ⟨2, 10⟩] = .ok c ∧
    runE Cache.add (Cache.construct 2) ([⟨1, 10⟩, ⟨2, 10⟩] ++ [⟨3, 30⟩]) = .ok c' ∧ Cache.getOldestTime c' = 10 ∧
    Cache.getInterval c 10 20 = [⟨1, 10⟩, ⟨2, 10⟩] ∧ Cache.getInterval c' 10 20 = [⟨2, 10⟩] :=
  ⟨_, _, rfl, rfl, by decide, by decide, by decide⟩

/-- **C118** (neighbours, Cache).  Messages added in time order: once a message newer than `t` is cached, `getElemAfterTime(t)` is
the first message ever added with a stamp after `t`, and stays so as long as the oldest cached stamp is not after `t`;
`getElemBeforeTime(t)` is the last message ever added with a stamp before `t`, and stays so as long as the oldest cached stamp
is before `t` (or the cache has never been full).  So an interpolation between the two is final. -/
theorem C118_neighbours_in_order (N : Nat) (hN : 0 < N) (l m : List Ev) (hs : TimeSorted (l ++ m)) (c c' : Cache.State)
    (h : runE Cache.add (Cache.construct N) l = .ok c) (h' : runE Cache.add (Cache.construct N) (l ++ m) = .ok c')
    (hne : l ≠ []) (t : Int) (ht : t < Cache.getLatestTime c) :
    (Cache.getOldestTime c' ≤ t ∨ (l ++ m).length ≤ N →
      Cache.getElemAfterTime c t = (l ++ m).find? (fun x => decide (t < x.stamp)) ∧
      Cache.getElemAfterTime c' t = Cache.getElemAfterTime c t) ∧
    (Cache.getOldestTime c' < t ∨ (l ++ m).length ≤ N →
      Cache.getElemBeforeTime c t = ((l ++ m).filter (fun x => decide (x.stamp < t))).getLast? ∧
      Cache.getElemBeforeTime c' t = Cache.getElemBeforeTime c t) := by
  have hs1 := (List.pairwise_append.1 hs).1
  obtain ⟨d, e1, _, e2, _⟩ := cache_sorted N hN l hs1
  rw [h] at e1; cases e1
  obtain ⟨d', e1, _, e3, _⟩ := cache_sorted N hN (l ++ m) hs
  rw [h'] at e1; cases e1
  obtain ⟨p, e, rfl, hl⟩ := latest_last hN e2 hne
  constructor
  · intro hold
    obtain ⟨g1, g2⟩ := after_core hN hs e2 e3 ⟨e, by simp, by omega⟩ hold
    exact ⟨g1, g2.trans g1.symm⟩
  · intro hold
    obtain ⟨g1, g2⟩ := before_core (t := t) hN hs e2 e3 (fun x hx => by
      have := (List.pairwise_append.1 hs).2.2 e (by simp) x hx
      omega) (by simp) hold
    exact ⟨g1, g2.trans g1.symm⟩

example : ∃ c c', runE Cache.add (Cache.construct 3) [⟨1, 10⟩, ⟨2, 20⟩, ⟨3, 30⟩] = .ok c ∧
    runE Cache.add (Cache.construct 3) ([⟨1, 10⟩, ⟨2, 20⟩, ⟨3, 30⟩] ++ [⟨4, 40⟩]) = .ok c' ∧ (25 : Int) < Cache.getLatestTime c ∧
    Cache.getOldestTime c' = 20 ∧ Cache.getElemBeforeTime c' 25 = some ⟨2, 20⟩ ∧ Cache.getElemAfterTime c' 25 = some ⟨3, 30⟩ :=
  ⟨_, _, rfl, rfl, by decide, by decide, by decide, by decide⟩

/-- **C118** (behind a TimeSequencer).  Let every message arrive before its delay has passed, in any order.  When the timer
fires at `c`, then for `b + delay ≤ c` the interval query returns exactly the messages with a stamp in `[a, b]` that are ever
received, also those received later, in time order, and gives the same answer at every later time, as long as the cache
reaches back beyond `a`. -/
theorem C118_behind_sequencer (delay : Int) (q N : Nat) (hN : 0 < N) (ops more : List Sequencer.Op) (c : Int)
    (hs : Steady (ops ++ [.tick (fun _ => c)] ++ more)) (hp : Punctual delay (ops ++ [.tick (fun _ => c)] ++ more))
    (hr : Room delay q (ops ++ [.tick (fun _ => c)] ++ more)) (a b : Int) (hb : b + delay ≤ c) :
    ∃ s ca s' ca', sequencerCache delay q N (ops ++ [.tick (fun _ => c)]) = .ok (s, ca) ∧
      sequencerCache delay q N (ops ++ [.tick (fun _ => c)] ++ more) = .ok (s', ca') ∧
      (Cache.getOldestTime ca' < a ∨ s'.out.length ≤ N →
        TimeSorted (Cache.getInterval ca a b) ∧
        SameMessages (Cache.getInterval ca a b)
          ((Sequencer.added (ops ++ [.tick (fun _ => c)] ++ more)).filter (fun x => decide (a ≤ x.stamp ∧ x.stamp ≤ b))) ∧
        Cache.getInterval ca' a b = Cache.getInterval ca a b) := by
  obtain ⟨s, ca, h1, h2, h3, _⟩ := C80_cache_holds_most_recent delay q N hN (ops ++ [.tick (fun _ => c)])
  obtain ⟨s', ca', h1', h2', h3', _⟩ := C80_cache_holds_most_recent delay q N hN (ops ++ [.tick (fun _ => c)] ++ more)
  refine ⟨s, ca, s', ca', h1, h1', fun hold => ?_⟩
  obtain ⟨m, hm⟩ : s.out <+: s'.out := by rw [h2, h2']; exact seq_run_grow _ _ _ _
  obtain ⟨g1, g2, _⟩ := Sequencer.C103_output delay q _ hs hp hr
  rw [← h2'] at g1 g2
  have hall : ∀ t, t ≤ b → s'.out.filter (fun x => decide (x.stamp = t)) =
      (Sequencer.added (ops ++ [.tick (fun _ => c)] ++ more)).filter (fun x => decide (x.stamp = t)) := by
    intro t ht
    rw [g2 t, List.filter_filter]
    apply List.filter_congr
    intro x _
    by_cases hx : x.stamp = t
    · have : Sequencer.due delay (ops ++ [.tick (fun _ => c)] ++ more) x = true := by
        unfold Sequencer.due
        rw [List.any_eq_true]
        exact ⟨.tick (fun _ => c), by simp, by simp; omega⟩
      simp only [this, Bool.and_true]
    · simp [hx]
  have hlate : ∀ x ∈ m, b < x.stamp := by
    obtain ⟨f1, f2, _⟩ := Sequencer.C103_output delay q (ops ++ [.tick (fun _ => c)]) (steady_prefix hs) (punctual_prefix hp)
      (room_prefix hr)
    rw [← h2] at f2
    intro x hx
    apply Classical.byContradiction
    intro hc
    have e1 := hall x.stamp (by omega)
    have e2 := f2 x.stamp
    have e3 : (Sequencer.added more).filter (fun y => decide (y.stamp = x.stamp)) = [] := by
      rw [List.filter_eq_nil_iff]
      intro y hy
      have := punctual_later hp y hy
      simp only [decide_eq_true_eq]
      omega
    have e4 : ((Sequencer.added (ops ++ [.tick (fun _ => c)])).filter (Sequencer.due delay (ops ++ [.tick (fun _ => c)]))).filter
        (fun y => decide (y.stamp = x.stamp)) =
        (Sequencer.added (ops ++ [.tick (fun _ => c)])).filter (fun y => decide (y.stamp = x.stamp)) := by
      rw [List.filter_filter]
      apply List.filter_congr
      intro y _
      by_cases hy : y.stamp = x.stamp
      · have : Sequencer.due delay (ops ++ [.tick (fun _ => c)]) y = true := by
          unfold Sequencer.due
          rw [List.any_eq_true]
          exact ⟨.tick (fun _ => c), by simp, by simp; omega⟩
        simp only [this, Bool.and_true]
      · simp [hy]
    rw [e4] at e2
    rw [← hm, List.filter_append, e2, seq_added_append _ more, List.filter_append, e3, List.append_nil] at e1
    have e5 : m.filter (fun y => decide (y.stamp = x.stamp)) = [] := List.append_right_eq_self.1 e1
    rw [List.filter_eq_nil_iff] at e5
    exact e5 x hx (by simp)
  rw [← hm] at g1 h3'
  obtain ⟨k1, k2⟩ := final_core (a := a) (b := b) hN g1 h3 h3' hlate (by rw [hm]; exact hold)
  refine ⟨?_, ?_, k2.trans k1.symm⟩
  · rw [k1]; exact g1.sublist List.filter_sublist
  · rw [k1, hm]
    intro t
    by_cases ht : t ≤ b
    · rw [inside_at, hall t ht]
      exact (inside_at a b t _).symm
    · unfold inside
      rw [List.filter_filter, List.filter_filter, List.filter_eq_nil_iff.2, List.filter_eq_nil_iff.2]
      all_goals
        intro x _
        simp only [Bool.and_eq_true, decide_eq_true_eq]
        omega

/-- Messages out of order, the timer firing at 18, and two more messages; delay 10, a cache of size 3. -/
def finalOps : List Sequencer.Op := [.add ⟨⟨1, 5⟩, .system⟩, .add ⟨⟨2, 3⟩, .system⟩, .add ⟨⟨3, 12⟩, .system⟩]
def finalMore : List Sequencer.Op := [.add ⟨⟨4, 9⟩, .system⟩, .tick (fun _ => 21)]

example : Steady (finalOps ++ [.tick (fun _ => 18)] ++ finalMore) ∧ Punctual 10 (finalOps ++ [.tick (fun _ => 18)] ++ finalMore) ∧
    Room 10 3 (finalOps ++ [.tick (fun _ => 18)] ++ finalMore) ∧
    (sequencerCache 10 3 3 (finalOps ++ [.tick (fun _ => 18)])).map (fun p => Cache.getInterval p.2 4 8) = .ok [⟨1, 5⟩] ∧
    (sequencerCache 10 3 3 (finalOps ++ [.tick (fun _ => 18)] ++ finalMore)).map
      (fun p => (Cache.getOldestTime p.2, Cache.getInterval p.2 4 8, Cache.getInterval p.2 4 9)) = .ok (3, [⟨1, 5⟩], [⟨1, 5⟩, ⟨4, 9⟩]) := by
  have hs : Steady (finalOps ++ [.tick (fun _ => 18)] ++ finalMore) := by
    intro now hn k
    simp [finalOps, finalMore] at hn
    rcases hn with rfl | rfl <;> rfl
  exact ⟨hs, Sequencer.punctual_of_check hs (by decide), Sequencer.room_of_check (by decide), rfl, rfl⟩

/-- **C118** (behind an InputAligner).  A pipeline of an `InputAligner` with a cache on every output returns whenever the
aligner alone does. -/
theorem C118_aligner_returns {n : Nat} (fuel : Nat) (timeout : Int) (sizes : Fin n → Nat) (hN : ∀ i, 0 < sizes i)
    (ops : List (Aligner.Op n)) (s : Aligner.State n) :
    Aligner.run fuel timeout ops = .ok s ↔ ∃ c, alignerCaches fuel timeout sizes ops = .ok (s, c) := by
  constructor
  · intro h
    obtain ⟨c, hc⟩ := caches_run sizes hN s.out (fun i => stream_sorted (Aligner.C39_global_order fuel timeout ops s h) i)
    exact ⟨c, alignerCaches_ok.2 ⟨h, hc⟩⟩
  · rintro ⟨c, h⟩; exact (alignerCaches_ok.1 h).1

/-- **C118** (behind an InputAligner).  Once any output of the aligner has delivered a message newer than `b`, the answers of
all the caches about `[a, b]` are final: they contain every message that their output ever delivers with a stamp in the
interval, as long as the cache reaches back beyond `a`.  The inputs may arrive in any order. -/
theorem C118_behind_aligner {n : Nat} (fuel : Nat) (timeout : Int) (sizes : Fin n → Nat) (hN : ∀ i, 0 < sizes i)
    (ops more : List (Aligner.Op n)) (s s' : Aligner.State n) (c c' : Fin n → Cache.State)
    (h : alignerCaches fuel timeout sizes ops = .ok (s, c)) (h' : alignerCaches fuel timeout sizes (ops ++ more) = .ok (s', c'))
    (a b : Int) (hb : ∃ m ∈ s.out, b < m.2.stamp) (i : Fin n)
    (hold : Cache.getOldestTime (c' i) < a ∨ (stream s'.out i).length ≤ sizes i) :
    Cache.getInterval (c i) a b = (stream s'.out i).filter (fun x => decide (a ≤ x.stamp ∧ x.stamp ≤ b)) ∧
    Cache.getInterval (c' i) a b = Cache.getInterval (c i) a b := by
  obtain ⟨h1, h2⟩ := alignerCaches_ok.1 h
  obtain ⟨h1', h2'⟩ := alignerCaches_ok.1 h'
  have hg := Aligner.C39_global_order fuel timeout _ s' h1'
  obtain ⟨w, hw⟩ : s.out <+: s'.out := by
    obtain ⟨s0, g0, g1⟩ := Aligner.run_split h1'
    rw [h1] at g0; cases g0
    exact runE_grow (fun _ _ _ hh => Aligner.out_grows hh) more g1
  have hsi : TimeSorted (stream s'.out i) := stream_sorted hg i
  have e := caches_streams sizes _ _ h2 i
  have e' := caches_streams sizes _ _ h2' i
  have hst : stream s'.out i = stream s.out i ++ stream w i := by rw [← hw]; simp [stream]
  rw [hst] at e' hsi
  obtain ⟨_, k1, _, k2, _⟩ := cache_sorted (sizes i) (hN i) _ (List.pairwise_append.1 hsi).1
  rw [e] at k1; cases k1
  obtain ⟨_, k1, _, k3, _⟩ := cache_sorted (sizes i) (hN i) _ hsi
  rw [e'] at k1; cases k1
  have hlate : ∀ x ∈ stream w i, b < x.stamp := by
    intro x hx
    obtain ⟨m, hm, hbm⟩ := hb
    rw [← hw, List.map_append] at hg
    have := (List.pairwise_append.1 hg).2.2 m.2 (List.mem_map_of_mem hm) x (List.mem_map.2 ⟨_, mem_stream.1 hx, rfl⟩)
    omega
  obtain ⟨g1, g2⟩ := final_core (a := a) (b := b) (hN i) hsi k2 k3 hlate (by rw [← hst]; exact hold)
  rw [hst]
  exact ⟨g1, g2.trans g1.symm⟩

/-- **C118** (neighbours, behind an InputAligner).  Once any output of the aligner has delivered a message not older than `t`,
`getElemBeforeTime(t)` of every cache is final: the last message its output ever delivers before `t`; and
`getElemAfterTime(t)` is final as soon as it is not null, on the same conditions on the oldest cached stamp. -/
theorem C118_neighbours_behind_aligner {n : Nat} (fuel : Nat) (timeout : Int) (sizes : Fin n → Nat) (hN : ∀ i, 0 < sizes i)
    (ops more : List (Aligner.Op n)) (s s' : Aligner.State n) (c c' : Fin n → Cache.State)
    (h : alignerCaches fuel timeout sizes ops = .ok (s, c)) (h' : alignerCaches fuel timeout sizes (ops ++ more) = .ok (s', c'))
    (t : Int) (i : Fin n) (hne : stream s'.out i ≠ []) :
    ((∃ m ∈ s.out, t ≤ m.2.stamp) → Cache.getOldestTime (c' i) < t ∨ (stream s'.out i).length ≤ sizes i →
      Cache.getElemBeforeTime (c i) t = ((stream s'.out i).filter (fun x => decide (x.stamp < t))).getLast? ∧
      Cache.getElemBeforeTime (c' i) t = Cache.getElemBeforeTime (c i) t) ∧
    (Cache.getElemAfterTime (c i) t ≠ none → Cache.getOldestTime (c' i) ≤ t ∨ (stream s'.out i).length ≤ sizes i →
      Cache.getElemAfterTime (c i) t = (stream s'.out i).find? (fun x => decide (t < x.stamp)) ∧
      Cache.getElemAfterTime (c' i) t = Cache.getElemAfterTime (c i) t) := by
  obtain ⟨h1, h2⟩ := alignerCaches_ok.1 h
  obtain ⟨h1', h2'⟩ := alignerCaches_ok.1 h'
  have hg := Aligner.C39_global_order fuel timeout _ s' h1'
  obtain ⟨w, hw⟩ : s.out <+: s'.out := by
    obtain ⟨s0, g0, g1⟩ := Aligner.run_split h1'
    rw [h1] at g0; cases g0
    exact runE_grow (fun _ _ _ hh => Aligner.out_grows hh) more g1
  have hsi : TimeSorted (stream s'.out i) := stream_sorted hg i
  have e := caches_streams sizes _ _ h2 i
  have e' := caches_streams sizes _ _ h2' i
  have hst : stream s'.out i = stream s.out i ++ stream w i := by rw [← hw]; simp [stream]
  rw [hst] at e' hsi hne ⊢
  obtain ⟨_, k1, _, k2, _⟩ := cache_sorted (sizes i) (hN i) _ (List.pairwise_append.1 hsi).1
  rw [e] at k1; cases k1
  obtain ⟨_, k1, _, k3, _⟩ := cache_sorted (sizes i) (hN i) _ hsi
  rw [e'] at k1; cases k1
  constructor
  · rintro ⟨m, hm, hbm⟩ hold
    obtain ⟨g1, g2⟩ := before_core (t := t) (hN i) hsi k2 k3 (fun x hx => by
      rw [← hw, List.map_append] at hg
      have := (List.pairwise_append.1 hg).2.2 m.2 (List.mem_map_of_mem hm) x (List.mem_map.2 ⟨_, mem_stream.1 hx, rfl⟩)
      omega) hne hold
    exact ⟨g1, g2.trans g1.symm⟩
  · intro hsome hold
    have hex : ∃ x ∈ stream s.out i, t < x.stamp := by
      rw [Cache.getElemAfterTime_eq _ (by rw [k2]; exact (List.pairwise_append.1 hsi).1.sublist (List.drop_sublist _ _)), k2] at hsome
      obtain ⟨x, hx⟩ := Option.ne_none_iff_exists'.1 hsome
      have hx := List.mem_filter.1 (List.mem_of_mem_head? hx)
      exact ⟨x, (List.drop_sublist _ _).subset hx.1, by simpa using hx.2⟩
    obtain ⟨g1, g2⟩ := after_core (hN i) hsi k2 k3 hex hold
    exact ⟨g1, g2.trans g1.symm⟩

/-- **C118** (behind an InputAligner, end to end).  After `dispatchMessages`, if a message at least the timeout newer than `b`
has been added to any input and input `i` has had no message dropped, the cache of output `i` returns for `[a, b]` exactly the
messages added to that input with stamps in the interval, in time order. -/
theorem C118_aligner_end_to_end {n : Nat} (fuel : Nat) (timeout : Int) (sizes : Fin n → Nat) (hN : ∀ i, 0 < sizes i)
    (ops : List (Aligner.Op n)) (s : Aligner.State n) (c : Fin n → Cache.State)
    (h : alignerCaches fuel timeout sizes (ops ++ [.dispatch]) = .ok (s, c))
    (hst : ∀ m ∈ adds ops, m.2.stamp < Aligner.maxTime) (a b : Int) (hb : ∃ m ∈ adds ops, b + timeout ≤ m.2.stamp) (i : Fin n)
    (hdrop : (getQueueStatus s i).dropped = 0)
    (hold : Cache.getOldestTime (c i) < a ∨ (stream (adds ops) i).length ≤ sizes i) :
    TimeSorted (Cache.getInterval (c i) a b) ∧
    SameMessages (Cache.getInterval (c i) a b)
      ((stream (adds ops) i).filter (fun x => decide (a ≤ x.stamp ∧ x.stamp ≤ b))) := by
  obtain ⟨h1, h2⟩ := alignerCaches_ok.1 h
  have hg := Aligner.C39_global_order fuel timeout _ s h1
  have hsi : TimeSorted (stream s.out i) := stream_sorted hg i
  have e := caches_streams sizes _ _ h2 i
  obtain ⟨_, k1, _, k2, _⟩ := cache_sorted (sizes i) (hN i) _ hsi
  rw [e] at k1; cases k1
  obtain ⟨acc, a1, a2, a3, a4, a5⟩ := Aligner.C40_content fuel timeout _ s h1 i
  rw [Aligner.adds_snoc_dispatch] at a1 a2
  have hacc : acc = stream (adds ops) i := a1.eq_of_length (by omega)
  subst hacc
  have hlen : (stream s.out i).length ≤ (stream (adds ops) i).length := by
    have := a3.length_eq
    rw [List.length_append] at this
    omega
  have hcut := cut_old (a := a) (hN i) hsi k2 (hold.imp id (fun hh => by omega))
  have heq := interval_whole hsi k2 hcut b
  have hq : inside a b (s.queues i).items = [] := by
    apply inside_nil_of
    intro x hx
    obtain ⟨m, hm, hbm⟩ := hb
    have := Aligner.C117_held_less_than_timeout fuel timeout ops s h1 hst i x hx m hm
    right; omega
  rw [heq]
  refine ⟨hsi.sublist List.filter_sublist, ?_⟩
  have := same_inside (l := stream s.out i ++ (s.queues i).items) (l' := stream (adds ops) i) a5 a b
  rw [inside_append, hq, List.append_nil] at this
  exact this

/-- Two inputs out of order, caches of size 3, timeout 100: input 1 has delivered 25, so the answers about `[10, 20]` are final. -/
def finalAligned : List (Aligner.Op 2) := [.add 0 ⟨1, 20⟩, .add 0 ⟨2, 10⟩, .add 1 ⟨3, 25⟩, .add 0 ⟨4, 30⟩, .dispatch]

example : ∃ s c s' c', alignerCaches 30 100 (fun _ => 3) finalAligned = .ok (s, c) ∧
    alignerCaches 30 100 (fun _ => 3) (finalAligned ++ [.add 0 ⟨5, 15⟩, .add 1 ⟨6, 130⟩, .dispatch]) = .ok (s', c') ∧
    (∃ m ∈ s.out, (20 : Int) < m.2.stamp) ∧ (stream s'.out 0).length ≤ 3 ∧
    Cache.getInterval (c 0) 10 20 = [⟨2, 10⟩, ⟨1, 20⟩] ∧ Cache.getInterval (c' 0) 10 20 = [⟨2, 10⟩, ⟨1, 20⟩] ∧
    (getQueueStatus s' 1).dropped = 0 ∧ (∃ m ∈ adds (finalAligned ++ [.add 0 ⟨5, 15⟩, .add 1 ⟨6, 130⟩]), (25 : Int) + 100 ≤ m.2.stamp) ∧
    Cache.getInterval (c' 1) 20 25 = [⟨3, 25⟩] ∧ Cache.getElemBeforeTime (c 0) 20 = some ⟨2, 10⟩ ∧ Cache.getElemAfterTime (c 1) 20 = some ⟨3, 25⟩ :=
  ⟨_, _, _, _, rfl, rfl, by decide, by decide, by decide, by decide, by decide, by decide, by decide, by decide, by decide⟩

end MF.Pipeline
