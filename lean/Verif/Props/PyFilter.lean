import Verif.Spec.PyFilter
import Verif.Proofs.Basic
/-
Properties of the Python SimpleFilter.
-/
namespace MF.PyFilter

variable {C A M : Type}

theorem signalLoop_quiet {beh : C → M → A → Effect C A} (hq : Quiet beh) (msg : M) :
    ∀ (l : List (C × A)) (s : State C A M), signalLoop beh msg l s =
      ({ s with calls := s.calls ++ l.map (fun r => (r.1, msg, r.2)) }, false) := by
  intro l
  induction l with
  | nil => intro s; simp [signalLoop]
  | cons x l ih =>
    intro s
    unfold signalLoop
    simp only [hq x.1 msg x.2, List.foldl_nil, Bool.false_eq_true, ↓reduceIte, ne_eq, not_true_eq_false]
    rw [ih]
    simp

/-- **C72**.  With callbacks that neither raise nor register on the filter that calls them: every output is given to every
callback registered before, once per registration, in the order of registration, with the arguments given then; `registerCallback`
returns 0, 1, 2, ... -/
theorem C72_each_callback_once (beh : C → M → A → Effect C A) (hq : Quiet beh) (ops : List (Op C A M)) :
    (run beh (construct C A M) ops).calls = expected [] ops ∧
    (run beh (construct C A M) ops).ids = List.range (registrations ops).length := by
  have key : ∀ (ops : List (Op C A M)) (s : State C A M),
      (run beh s ops).calls = s.calls ++ expected s.callbacks ops ∧
      (s.ids = List.range s.callbacks.length →
        (run beh s ops).ids = List.range (s.callbacks.length + (registrations ops).length)) := by
    intro ops
    induction ops with
    | nil => intro s; exact ⟨by simp [run, expected], fun h => by simpa [run, registrations] using h⟩
    | cons op ops ih =>
      intro s
      cases op with
      | register cb args =>
        obtain ⟨h1, h2⟩ := ih (register s cb args)
        refine ⟨h1, fun h => ?_⟩
        have := h2 (by simp [register, h, List.range_succ])
        simp only [register, List.length_append, List.length_singleton] at this
        simp only [registrations, List.length_cons]
        rw [Nat.add_comm (registrations ops).length, ← Nat.add_assoc]
        exact this
      | signal msg =>
        have hs : step beh s (.signal msg) = { s with calls := s.calls ++ s.callbacks.map (fun r => (r.1, msg, r.2)) } := by
          show (signalLoop beh msg s.callbacks s).1 = _
          rw [signalLoop_quiet hq]
        obtain ⟨h1, h2⟩ := ih (step beh s (.signal msg))
        have hr : run beh s (.signal msg :: ops) = run beh (step beh s (.signal msg)) ops := rfl
        rw [hr]
        rw [hs] at h1 h2 ⊢
        refine ⟨?_, fun h => h2 h⟩
        rw [h1]
        simp [expected, List.append_assoc]
  obtain ⟨h1, h2⟩ := key ops (construct C A M)
  refine ⟨by simpa [construct] using h1, ?_⟩
  have := h2 rfl
  simpa [construct] using this

example : let beh : Nat → Nat → Nat → Effect Nat Nat := fun _ _ _ => ⟨[], false⟩
    (run beh (construct Nat Nat Nat) [.register 7 0, .signal 1, .register 7 1, .register 8 2, .signal 2]).calls =
      [(7, 1, 0), (7, 2, 0), (7, 2, 1), (8, 2, 2)] := rfl

/-- **C72** (disagreement with "every callback gets every message").  If a callback raises, those registered after it do not get
the message: the calls made are those up to and including the first that raises; the exception reaches the caller, and the
filter works on as before. -/
theorem C72_raising_callback (beh : C → M → A → Effect C A) (hreg : ∀ cb msg args, (beh cb msg args).registers = [])
    (s : State C A M) (msg : M) (before after : List (C × A)) (r : C × A) (hs : s.callbacks = before ++ r :: after)
    (hb : ∀ x ∈ before, (beh x.1 msg x.2).raises = false) (hr : (beh r.1 msg r.2).raises = true) :
    signal beh s msg = ({ s with calls := s.calls ++ (before ++ [r]).map (fun r => (r.1, msg, r.2)) }, true) := by
  have key : ∀ (before : List (C × A)) (s : State C A M), (∀ x ∈ before, (beh x.1 msg x.2).raises = false) →
      signalLoop beh msg (before ++ r :: after) s =
        ({ s with calls := s.calls ++ (before ++ [r]).map (fun r => (r.1, msg, r.2)) }, true) := by
    intro before
    induction before with
    | nil => intro s _; simp [signalLoop, hreg, hr]
    | cons x l ih =>
      intro s hb
      rw [List.cons_append]
      unfold signalLoop
      simp only [hreg, List.foldl_nil, hb x (by simp), Bool.false_eq_true, ↓reduceIte, ne_eq, not_true_eq_false]
      rw [ih _ (fun y hy => hb y (List.mem_cons_of_mem _ hy))]
      simp
  have := key before s hb
  rw [← hs] at this
  exact this

theorem foldl_register (l : List (C × A)) (s : State C A M) :
    (l.foldl (fun s r => register s r.1 r.2) s).callbacks = s.callbacks ++ l ∧
    (l.foldl (fun s r => register s r.1 r.2) s).calls = s.calls := by
  induction l generalizing s with
  | nil => simp
  | cons x l ih =>
    obtain ⟨h1, h2⟩ := ih (register s x.1 x.2)
    exact ⟨by rw [List.foldl_cons, h1]; simp [register], by rw [List.foldl_cons, h2]; rfl⟩

/-- **C72** (disagreement).  A callback that registers another callback on the filter that is calling it makes `signalMessage`
raise, even if it is the last one; the callbacks after it do not get the message.  The new callback is registered nevertheless. -/
theorem C72_registering_inside_callback (beh : C → M → A → Effect C A) (s : State C A M) (msg : M) (before after : List (C × A))
    (r : C × A) (hs : s.callbacks = before ++ r :: after) (hb : ∀ x ∈ before, beh x.1 msg x.2 = ⟨[], false⟩)
    (new : C × A) (hr : (beh r.1 msg r.2).registers = [new]) :
    (signal beh s msg).2 = true ∧ (signal beh s msg).1.callbacks = s.callbacks ++ [new] ∧
    (signal beh s msg).1.calls = s.calls ++ (before ++ [r]).map (fun r => (r.1, msg, r.2)) := by
  unfold signal
  have key : ∀ (before : List (C × A)) (s : State C A M), (∀ x ∈ before, beh x.1 msg x.2 = ⟨[], false⟩) →
      (signalLoop beh msg (before ++ r :: after) s).2 = true ∧
      (signalLoop beh msg (before ++ r :: after) s).1.callbacks = s.callbacks ++ [new] ∧
      (signalLoop beh msg (before ++ r :: after) s).1.calls = s.calls ++ (before ++ [r]).map (fun r => (r.1, msg, r.2)) := by
    intro before
    induction before with
    | nil =>
      intro s _
      simp only [List.nil_append]
      unfold signalLoop
      simp only [hr, List.foldl_cons, List.foldl_nil]
      cases (beh r.1 msg r.2).raises <;> simp [register]
    | cons x l ih =>
      intro s hb
      rw [List.cons_append]
      unfold signalLoop
      simp only [hb x (by simp), List.foldl_nil, Bool.false_eq_true, ↓reduceIte, ne_eq, not_true_eq_false]
      obtain ⟨h1, h2, h3⟩ := ih { s with calls := s.calls ++ [(x.1, msg, x.2)] } (fun y hy => hb y (List.mem_cons_of_mem _ hy))
      refine ⟨h1, h2, ?_⟩
      rw [h3]; simp
  rw [hs]
  have := key before s hb
  rw [hs] at this
  exact this

example : let beh : Nat → Nat → Nat → Effect Nat Nat := fun cb _ _ => if cb = 1 then ⟨[(9, 9)], false⟩ else ⟨[], false⟩
    let s := run beh (construct Nat Nat Nat) [.register 0 0, .register 1 0, .register 2 0]
    (signal beh s 5).2 = true ∧ (signal beh s 5).1.calls = [(0, 5, 0), (1, 5, 0)] := ⟨rfl, rfl⟩

end MF.PyFilter
