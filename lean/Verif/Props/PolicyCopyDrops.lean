import Verif.Props.PolicyCopy
import Verif.Proofs.LateStartExact
/-
C38 continued: the drop callbacks of a Synchronizer with the ExactTime policy are given every dropped set.
-/
namespace MF.Copy

variable {n : Nat}

theorem dropped_eq (l : List (ExactTime.Action n)) : dropped l = ExactTime.drops l := by
  induction l with
  | nil => rfl
  | cons a l ih => cases a <;> simp only [dropped, ExactTime.drops, ih]

theorem drops_append (l l' : List (ExactTime.Action n)) : ExactTime.drops (l ++ l') = ExactTime.drops l ++ ExactTime.drops l' := by
  induction l with
  | nil => rfl
  | cons a l ih => cases a <;> simp only [List.cons_append, ExactTime.drops, ih]

/-- `add` only appends to the log. -/
theorem add_log_grows [NeZero n] {s s' : ExactTime.State n} {i : Fin n} {e : Ev} (h : ExactTime.add s i e = .ok s') : ∃ L, s'.log = s.log ++ L := by
  have h1 := ExactTime.add_log { s with log := [] } s.log i e
  simp only [List.append_nil] at h1
  have h2 : ExactTime.add s i e = _ := h1
  rw [h] at h2
  cases h3 : ExactTime.add { s with log := [] } i e with
  | error f => rw [h3] at h2; cases h2
  | ok t =>
    rw [h3] at h2
    simp only [Except.map, Except.ok.injEq] at h2
    exact ⟨t.log, by rw [h2]⟩

theorem run_registers [NeZero n] (cs : List Nat) : ∀ (o : Obj (Exact n)),
    runE (call ExactOp.isAdd Exact.step) o (cs.map .registerDropCallback) =
      .ok { o with core := { o.core with dropCallbacks := o.core.dropCallbacks ++ cs } } := by
  induction cs with
  | nil => intro o; simp [runE]
  | cons c cs ih =>
    intro o
    have h1 : call ExactOp.isAdd Exact.step o (.registerDropCallback c) =
        .ok { o with core := { o.core with dropCallbacks := o.core.dropCallbacks ++ [c] } } := by
      unfold call
      rw [if_neg (fun h => Bool.noConfusion h.1)]
      rfl
    simp only [List.map_cons, runE, h1]
    rw [ih]
    simp

theorem run_adds [NeZero n] (ops : List (Fin n × Ev)) : ∀ (o o' : Obj (Exact n)),
    runE (call ExactOp.isAdd Exact.step) o (ops.map (fun a => .add a.1 a.2)) = .ok o' →
    ExactTime.run o.core.core ops = .ok o'.core.core ∧ ∃ L, o'.core.core.log = o.core.core.log ++ L ∧
      o'.core.calls = o.core.calls ++ (ExactTime.drops L).flatMap (fun t => o.core.dropCallbacks.map (fun c => (c, t))) := by
  induction ops with
  | nil =>
    intro o o' h
    simp only [List.map_nil, runE, Except.ok.injEq] at h
    subst h
    exact ⟨rfl, [], by simp, by simp [ExactTime.drops]⟩
  | cons a ops ih =>
    intro o o' h
    simp only [List.map_cons, runE] at h
    cases hc : call ExactOp.isAdd Exact.step o (.add a.1 a.2) with
    | error f => rw [hc] at h; cases h
    | ok o1 =>
      rw [hc] at h
      obtain ⟨h1, L, h2, h3⟩ := ih o1 o' h
      obtain ⟨_, h4, _⟩ := call_ok hc
      simp only [Exact.step] at h4
      cases ha : ExactTime.add o.core.core a.1 a.2 with
      | error f => rw [ha] at h4; cases h4
      | ok c =>
        rw [ha] at h4
        simp only [Except.ok.injEq] at h4
        obtain ⟨L1, hL1⟩ := add_log_grows ha
        rw [← h4] at h1 h2 h3
        simp only [] at h1 h2 h3
        refine ⟨?_, L1 ++ L, by rw [h2, hL1, List.append_assoc], ?_⟩
        · unfold ExactTime.run at h1 ⊢
          simp only [runE, ha]
          exact h1
        · rw [h3, dropped_eq, hL1, List.drop_left, drops_append, List.flatMap_append, List.append_assoc]

/-- **C38** for ExactTime: every drop callback registered on the synchronizer before the first message is given every set that the synchronizer
drops, in order, once. -/
theorem C38_exact_every_drop [NeZero n] (queueSize : Nat) (setup : List (ExactOp n)) (p o : Obj (Exact n))
    (hp : StandAlone ExactOp.isAdd Exact.step (Exact.construct n queueSize) setup p) (sync : Nat) (cs : List Nat) (ops : List (Fin n × Ev))
    (ho : runE (call ExactOp.isAdd Exact.step) (synchronizer Exact.copy p sync)
      (cs.map .registerDropCallback ++ ops.map (fun a => .add a.1 a.2)) = .ok o) :
    ∃ s, ExactTime.run (ExactTime.construct n queueSize) ops = .ok s ∧
      o.core.calls = (ExactTime.drops s.log).flatMap (fun t => cs.map (fun c => (c, t))) := by
  rw [C38_exact_forgets_drop_callbacks queueSize setup p hp sync, runE_append, run_registers] at ho
  obtain ⟨h1, L, h2, h3⟩ := run_adds ops _ o ho
  refine ⟨o.core.core, h1, ?_⟩
  have hL : o.core.core.log = L := h2
  rw [hL, h3]
  rfl

/-- Three sets are dropped, and both callbacks are given each of them. -/
example : dropCalls (runE (call ExactOp.isAdd Exact.step) (synchronizer Exact.copy ⟨none, Exact.construct 2 3⟩ 0)
    ([7, 8].map .registerDropCallback ++ [((0 : Fin 2), (⟨0, 10⟩ : Ev)), (0, ⟨1, 20⟩), (0, ⟨2, 30⟩), (0, ⟨3, 40⟩), (1, ⟨4, 40⟩)].map
      (fun a => .add a.1 a.2))) = some [7, 8, 7, 8, 7, 8] := by decide

end MF.Copy
