import Verif.Proofs.Warnings2
import Verif.Props.Approx
/-
Property C91: the warnings of ApproximateTime.
-/
namespace MF.Approx

variable {n m : Nat}

/-- Configuration used in the examples: as `sampleCfg`, with the lower bound 10 for both inputs. -/
def boundedCfg : Cfg 2 := ⟨10, 50, fun x => (x * 11).tdiv 10, fun _ => 10⟩

/-- **C91** (no false alarm).  If the synchronizer has noticed something about an input, then a message of this input was indeed
older than the one before it, or closer to it than the lower bound. -/
theorem C91_no_false_alarm [NeZero n] (fuel : Nat) (cfg : Cfg n) (ops : List (Fin n × Ev)) (s : State n)
    (h : run fuel cfg ops = .ok s) (i : Fin n) (hw : s.warned i = true) :
    ∃ a b, Follows (stream ops i) a b ∧ Violates (cfg.lower i) a b :=
  warned_sound ops s h i hw

example : (run 100 boundedCfg [(0, ⟨0, 100⟩), (0, ⟨1, 109⟩)]).toOption.map (fun s => (s.warned 0, s.warned 1)) =
    some (true, false) := by decide

/-- **C91** (when it is noticed).  A message that is older than the one before it or too close to it is noticed exactly if the one
before it still waits in its queue (has neither been used nor set aside for the current candidate).  What was noticed is never
forgotten, and a message of one input changes nothing for the others. -/
theorem C91_noticed_iff [NeZero n] (fuel : Nat) (cfg : Cfg n) (ops : List (Fin n × Ev)) (s s' : State n) (i : Fin n) (e : Ev)
    (h : run fuel cfg ops = .ok s) (hadd : add fuel s i e = .ok s') (j : Fin n) :
    s'.warned j = true ↔ s.warned j = true ∨
      (j = i ∧ s.deques i ≠ [] ∧ ∃ x, (stream ops i).getLast? = some x ∧ Violates (cfg.lower i) x e) :=
  warned_iff h hadd j

/-- **C91** (nothing missed while waiting).  As long as some input has not sent anything, the synchronizer has noticed something
about an input exactly if a message of it was older than the one before it or too close to it, whatever the queue size. -/
theorem C91_complete_while_waiting_partial [NeZero n] (fuel : Nat) (cfg : Cfg n) (ops : List (Fin n × Ev)) (s : State n)
    (h : run fuel cfg ops = .ok s) (j : Fin n) (hj : stream ops j = []) (i : Fin n) :
    s.warned i = true ↔ ∃ a b, Follows (stream ops i) a b ∧ Violates (cfg.lower i) a b :=
  ⟨warned_sound ops s h i, fun ⟨a, b, h1, h2⟩ => warned_complete ops s h j hj i a b h1 h2⟩

example : ∃ s, run 100 { boundedCfg with queueSize := 1 } [(0, ⟨0, 100⟩), (0, ⟨1, 120⟩), (0, ⟨2, 129⟩)] = .ok s ∧
    stream [((0 : Fin 2), (⟨0, 100⟩ : Ev)), (0, ⟨1, 120⟩), (0, ⟨2, 129⟩)] 1 = [] := by
  obtain ⟨s, hs⟩ := C28_terminates 100 { boundedCfg with queueSize := 1 } (by decide) [(0, ⟨0, 100⟩), (0, ⟨1, 120⟩), (0, ⟨2, 129⟩)]
    (by decide)
  exact ⟨s, hs, by decide⟩

/-- Otherwise it can be missed.  (i) The message before was used in a set: 50 after 100 is not noticed.  (ii) The message before was
set aside for the current candidate, where the synchronizer still has it: 102 after 100 is not noticed although the lower bound
is 3. -/
theorem C91_may_be_missed :
    (∃ ops : List (Fin 2 × Ev), Follows (stream ops 0) ⟨0, 100⟩ ⟨2, 50⟩ ∧
      (run 100 boundedCfg ops).toOption.map (fun s => (s.warned 0, s.out.length)) = some (false, 1)) ∧
    (∃ ops : List (Fin 2 × Ev), Follows (stream (ops ++ [(0, ⟨2, 102⟩)]) 0) ⟨0, 100⟩ ⟨2, 102⟩ ∧
      (run 100 { boundedCfg with lower := fun _ => 3 } ops).toOption.map (fun s => (s.past 0, s.out.length)) =
        some ([⟨0, 100⟩], 0) ∧
      (run 100 { boundedCfg with lower := fun _ => 3 } (ops ++ [(0, ⟨2, 102⟩)])).toOption.map (fun s => s.warned 0) =
        some false) := by
  refine ⟨⟨[(0, ⟨0, 100⟩), (1, ⟨1, 100⟩), (0, ⟨2, 50⟩)], ⟨[], [], by decide⟩, by decide⟩,
    ⟨[(0, ⟨0, 100⟩), (1, ⟨1, 104⟩)], ⟨[], [], by decide⟩, by decide, by decide⟩⟩

/-- **C91** (what is printed).  Take a process with any number of synchronizers of one type, each with its own configuration, and
any history.  Every line printed tells the truth about the synchronizer that printed it: the two times in it are the distance of
two successive messages and the lower bound set for the input.  The same text is printed at most once per process.  A
synchronizer prints at most one line about an input.  And there is a line about an input, by some synchronizer, exactly if some
synchronizer has noticed something about it. -/
theorem C91_printed [NeZero n] (fuel : Nat) (cfg : Fin m → Cfg n) (s0 : Fin m → State n)
    (h0 : ∀ k, construct n (cfg k) = .ok (s0 k)) (ops : List (Fin m × Fin n × Ev)) (p : Proc n m)
    (h : procRun fuel (procInit s0) ops = .ok p) :
    (∀ k w, (k, w) ∈ p.lines → w.True (cfg k).lower (stream (opsOf k ops))) ∧
    (p.lines.map (fun l => l.2.text)).Nodup ∧
    (∀ k w w', (k, w) ∈ p.lines → (k, w') ∈ p.lines → w.input = w'.input → w = w') ∧
    ∀ i, (∃ k w, (k, w) ∈ p.lines ∧ w.input = i) ↔ ∃ k, (p.syncs k).warned i = true := by
  have hi := procRun_inv h0 ops p h
  refine ⟨hi.sound, hi.once, hi.one, fun i => ⟨?_, ?_⟩⟩
  · rintro ⟨k, w, h1, rfl⟩; exact ⟨k, hi.warned k w h1⟩
  · rintro ⟨k, h1⟩; exact hi.said k i h1

/-- Every synchronizer of the process behaves as if it were alone. -/
theorem C91_printing_changes_nothing [NeZero n] (fuel : Nat) (cfg : Fin m → Cfg n) (s0 : Fin m → State n)
    (h0 : ∀ k, construct n (cfg k) = .ok (s0 k)) (ops : List (Fin m × Fin n × Ev)) (p : Proc n m)
    (h : procRun fuel (procInit s0) ops = .ok p) (k : Fin m) : run fuel (cfg k) (opsOf k ops) = .ok (p.syncs k) :=
  (procRun_inv h0 ops p h).runs k

/-- Two synchronizers of one type; input 0 of both sends messages too close to each other. -/
def twoSyncOps : List (Fin 2 × Fin 2 × Ev) :=
  [(0, 0, ⟨0, 100⟩), (1, 0, ⟨1, 200⟩), (0, 0, ⟨2, 109⟩), (1, 0, ⟨3, 203⟩)]

/-- Hence the log says nothing about the input of a second synchronizer of the same type if the first has printed the same text:
here both notice that messages on input 0 are too close, but only the distance 9 at the first one is printed, not the distance 3
at the second one. -/
theorem C91_second_synchronizer_silent :
    construct 2 boundedCfg = .ok (init boundedCfg) ∧
    (procRun 100 (procInit (fun _ : Fin 2 => init boundedCfg)) twoSyncOps).toOption.map
      (fun p => (p.lines, (p.syncs 0).warned 0, (p.syncs 1).warned 0)) =
    some ([(0, .tooClose 0 9 10)], true, true) := by
  refine ⟨rfl, by decide⟩

end MF.Approx
