import Verif.Proofs.Basic
import Verif.Spec.Lifetime
namespace MF.Life

@[simp] theorem set_same {α : Type} (f : Nat → α) (i : Nat) (x : α) : set f i x i = x := by simp [set]
theorem set_ne {α : Type} (f : Nat → α) {i j : Nat} (x : α) (h : j ≠ i) : set f i x j = f j := by simp [set, h]

/-- The object may be called: it is ready, or (`E`) calling it too early is accepted. -/
def Up (E : Prop) (s : Stage) : Prop := s = .ready ∨ (E ∧ s = .built)

/-- The owner's program, followed on its own, is safe. -/
def Ok (E : Prop) : Stage → (Nat → List Helper) → Bool → Option Nat → List Act → Prop
  | _, r, _, held, [] => held = none ∧ ∀ f, r f = []
  | s, r, b, held, .build :: p => s = .raw ∧ b = false ∧ (∀ f, r f = []) ∧ Ok E .built r b held p
  | s, r, b, held, .init :: p => s = .built ∧ Ok E .ready r b held p
  | s, r, b, held, .lock f :: p => held = none ∧ Ok E s r b (some f) p
  | s, r, b, held, .unlock f :: p => held = some f ∧ Ok E s r b none p
  | s, r, b, held, .insert f h :: p => held = some f ∧ Up E s ∧ Ok E s (set r f (r f ++ [h])) b held p
  | s, r, b, held, .erase f h :: p =>
    held = some f ∧ Ok E s (set r f ((r f).filter (fun x => decide (x ≠ h)))) b held p
  | s, r, _, held, .startTimer :: p => s = .ready ∧ Ok E s r true held p
  | s, r, _, held, .cancelTimer :: p => Ok E s r false held p
  | _, r, _, held, .free :: p => (∀ f, r f = []) ∧ Ok E .dead r false held p

def PcOk (c : Config) (t : Nat) : Pc → Prop
  | .idle => True
  | .signal f todo => c.owner f = some (.thread t) ∧ ∀ h ∈ todo, h ∈ c.regs f
  | .inside f h todo => c.owner f = some (.thread t) ∧ (h ∈ c.regs f ∧ c.stage = .ready) ∧ ∀ h ∈ todo, h ∈ c.regs f
  | .fetched | .timer => c.stage = .ready

def AtSource : Pc → Nat → Prop
  | .signal g _, f => g = f
  | .inside g _ _, f => g = f
  | _, _ => False

structure Inv (E : Prop) (c : Config) : Prop where
  main : ∃ held, Ok E c.stage c.regs c.timerOn held c.prog ∧ ∀ f, c.owner f = some .main ↔ held = some f
  live : ∀ f, c.regs f ≠ [] → Up E c.stage
  timer : c.timerOn = true → c.stage = .ready
  pcs : ∀ t, PcOk c t (c.threads t)
  holder : ∀ f t, c.owner f = some (.thread t) → AtSource (c.threads t) f

variable {E : Prop}

theorem inv_start (prog : List Act) (h : Ok E .raw (fun _ => []) false none prog) : Inv E (start prog) := by
  refine ⟨⟨none, h, ?_⟩, ?_, ?_, ?_, ?_⟩ <;> simp [start, PcOk]

theorem ne_nil_of_mem {h : Helper} {l : List Helper} (m : h ∈ l) : l ≠ [] := by
  intro e; rw [e] at m; cases m

theorem inv_main (c : Config) (hc : Inv E c)
    (hq : ∀ p, c.prog = .free :: p → ∀ t, ¬ InTimer (c.threads t)) : Inv E (mainStep c) := by
  obtain ⟨⟨held, hok, hown⟩, hl, ht, hp, hh⟩ := hc
  obtain ⟨owner, regs, threads, prog, stage, timerOn⟩ := c
  dsimp only at *
  cases prog with
  | nil => exact ⟨⟨held, hok, hown⟩, hl, ht, hp, hh⟩
  | cons a p =>
    cases a with
    | build =>
      obtain ⟨h1, h2, h3, h4⟩ := hok
      refine ⟨⟨held, h4, hown⟩, fun f h => absurd (h3 f) h, fun h => ?_, fun t => ?_, hh⟩
      · simp [mainStep, h2] at h
      · have := hp t
        revert this
        dsimp only [mainStep]
        cases threads t <;> dsimp only [PcOk] <;> (try exact id) <;> (rw [h1]; intro h) <;> first | exact nomatch h.2.1.2 | exact nomatch h
    | init =>
      obtain ⟨h1, h2⟩ := hok
      refine ⟨⟨held, h2, hown⟩, fun f h => Or.inl rfl, fun h => rfl, fun t => ?_, hh⟩
      have := hp t
      revert this
      dsimp only [mainStep]
      cases threads t <;> dsimp only [PcOk] <;> (try exact id) <;> (try (intro _; trivial))
      exact fun ⟨a, b, d⟩ => ⟨a, ⟨b.1, rfl⟩, d⟩
    | lock f =>
      obtain ⟨h1, h2⟩ := hok
      dsimp only [mainStep]
      by_cases hf : owner f = none
      · rw [if_pos hf]
        refine ⟨⟨some f, h2, fun g => ?_⟩, hl, ht, fun t => ?_, fun g t => ?_⟩
        · dsimp only
          by_cases hg : g = f
          · subst hg; simp
          · rw [set_ne _ _ hg, hown g, h1]; simp [Ne.symm hg]
        · have := hp t
          revert this
          dsimp only
          have key : ∀ g, owner g = some (.thread t) → set owner f (some Who.main) g = some (.thread t) := by
            intro g hg
            rw [set_ne]
            · exact hg
            · intro e; rw [e, hf] at hg; cases hg
          cases threads t <;> dsimp only [PcOk] <;> (try exact id)
          · exact fun ⟨a, b⟩ => ⟨key _ a, b⟩
          · exact fun ⟨a, b⟩ => ⟨key _ a, b⟩
        · dsimp only
          by_cases hg : g = f
          · subst hg; simp
          · rw [set_ne _ _ hg]; exact hh g t
      · rw [if_neg hf]; exact ⟨⟨held, ⟨h1, h2⟩, hown⟩, hl, ht, hp, hh⟩
    | unlock f =>
      obtain ⟨h1, h2⟩ := hok
      have hf : owner f = some .main := (hown f).2 h1
      dsimp only [mainStep]
      refine ⟨⟨none, h2, fun g => ?_⟩, hl, ht, fun t => ?_, fun g t => ?_⟩
      · dsimp only
        by_cases hg : g = f
        · subst hg; simp
        · rw [set_ne _ _ hg, hown g, h1]; simp [Ne.symm hg]
      · have := hp t
        revert this
        dsimp only
        have key : ∀ g, owner g = some (.thread t) → set owner f none g = some (.thread t) := by
          intro g hg
          rw [set_ne]
          · exact hg
          · intro e; rw [e, hf] at hg; cases hg
        cases threads t <;> dsimp only [PcOk] <;> (try exact id)
        · exact fun ⟨a, b⟩ => ⟨key _ a, b⟩
        · exact fun ⟨a, b⟩ => ⟨key _ a, b⟩
      · dsimp only
        by_cases hg : g = f
        · subst hg; simp
        · rw [set_ne _ _ hg]; exact hh g t
    | insert f h =>
      obtain ⟨h1, h2, h3⟩ := hok
      dsimp only [mainStep]
      refine ⟨⟨held, h3, hown⟩, fun g _ => h2, ht, fun t => ?_, hh⟩
      have := hp t
      revert this
      dsimp only
      have key : ∀ g x, x ∈ regs g → x ∈ set regs f (regs f ++ [h]) g := by
        intro g x hx
        by_cases hg : g = f
        · subst hg; simp [hx]
        · rwa [set_ne _ _ hg]
      cases threads t <;> dsimp only [PcOk] <;> (try exact id)
      · exact fun ⟨a, b⟩ => ⟨a, fun x hx => key _ x (b x hx)⟩
      · exact fun ⟨a, b, d⟩ => ⟨a, ⟨key _ _ b.1, b.2⟩, fun x hx => key _ x (d x hx)⟩
    | erase f h =>
      obtain ⟨h1, h2⟩ := hok
      have hf : owner f = some .main := (hown f).2 h1
      dsimp only [mainStep]
      refine ⟨⟨held, h2, hown⟩, fun g hg => ?_, ht, fun t => ?_, hh⟩
      · dsimp only at hg ⊢
        by_cases e : g = f
        · subst e
          rw [set_same] at hg
          refine hl g (fun e => hg ?_)
          rw [e]; rfl
        · rw [set_ne _ _ e] at hg; exact hl g hg
      · have := hp t
        revert this
        dsimp only
        have key : ∀ g, owner g = some (.thread t) →
            set regs f ((regs f).filter (fun x => decide (x ≠ h))) g = regs g := by
          intro g hg
          rw [set_ne]
          intro e; rw [e, hf] at hg; cases hg
        cases threads t <;> dsimp only [PcOk] <;> (try exact id)
        · exact fun ⟨a, b⟩ => ⟨a, by rw [key _ a]; exact b⟩
        · exact fun ⟨a, b⟩ => ⟨a, by rw [key _ a]; exact b⟩
    | startTimer =>
      obtain ⟨h1, h2⟩ := hok
      dsimp only [mainStep]
      refine ⟨⟨held, h2, hown⟩, hl, fun _ => h1, fun t => ?_, hh⟩
      have := hp t
      revert this
      dsimp only
      cases threads t <;> exact id
    | cancelTimer =>
      dsimp only [mainStep]
      refine ⟨⟨held, hok, hown⟩, hl, fun h => (by cases h), fun t => ?_, hh⟩
      have := hp t
      revert this
      dsimp only
      cases threads t <;> exact id
    | free =>
      obtain ⟨h1, h2⟩ := hok
      dsimp only [mainStep]
      refine ⟨⟨held, h2, hown⟩, fun f h => absurd (h1 f) h, fun h => (by cases h), fun t => ?_, hh⟩
      have h3 := hq p rfl t
      have := hp t
      revert this h3
      dsimp only
      cases threads t <;> dsimp only [PcOk, InTimer] <;> (try exact fun _ => id) <;> (try (intro h; exact absurd trivial h))
      exact fun _ h => absurd (h1 _) (ne_nil_of_mem h.2.1.1)

theorem pcok_congr {c c' : Config} {t : Nat} {p : Pc} (h : PcOk c t p)
    (h1 : ∀ f, c.owner f = some (.thread t) → c'.owner f = some (.thread t)) (h2 : c'.regs = c.regs)
    (h3 : c'.stage = c.stage) : PcOk c' t p := by
  cases p with
  | idle => trivial
  | signal f todo => exact ⟨h1 _ h.1, by rw [h2]; exact h.2⟩
  | inside f x todo => exact ⟨h1 _ h.1, by rw [h2, h3]; exact h.2⟩
  | fetched => exact h3.trans h
  | timer => exact h3.trans h

theorem touch_ready {s : Stage} (h : s = .ready) : touch s = .ok () := by subst h; rfl

theorem inv_setPc (c : Config) (hc : Inv E c) (t : Nat) (p : Pc) (hp : PcOk c t p)
    (hs : ∀ f, AtSource (c.threads t) f → AtSource p f) : Inv E (setPc c t p) := by
  obtain ⟨hm, hl, ht, hpc, hh⟩ := hc
  refine ⟨hm, hl, ht, fun u => ?_, fun f u hu => ?_⟩
  · by_cases e : u = t
    · subst e
      have : (setPc c u p).threads u = p := by simp [setPc]
      rw [this]
      exact pcok_congr hp (fun _ h => h) rfl rfl
    · have : (setPc c t p).threads u = c.threads u := by simp [setPc, set_ne _ _ e]
      rw [this]
      exact pcok_congr (hpc u) (fun _ h => h) rfl rfl
  · have h := hh f u hu
    by_cases e : u = t
    · subst e
      have : (setPc c u p).threads u = p := by simp [setPc]
      rw [this]
      exact hs f h
    · have : (setPc c t p).threads u = c.threads u := by simp [setPc, set_ne _ _ e]
      rw [this]
      exact h

theorem inv_go (c : Config) (hc : Inv E c) (t : Nat) :
    (∃ c', goStep c t = .ok c' ∧ Inv E c' ∧ c'.prog = c.prog) ∨ (E ∧ goStep c t = .error .assertFailed) := by
  have hp := hc.pcs t
  unfold goStep
  cases e : c.threads t with
  | idle => exact Or.inl ⟨c, rfl, hc, rfl⟩
  | signal f todo =>
    rw [e] at hp
    cases todo with
    | nil =>
      refine Or.inl ⟨_, rfl, ?_, rfl⟩
      obtain ⟨⟨held, hok, hown⟩, hl, ht, hpc, hh⟩ := hc
      refine ⟨⟨held, hok, fun g => ?_⟩, hl, ht, fun u => ?_, fun g u hu => ?_⟩
      · dsimp only [setPc]
        by_cases hg : g = f
        · subst hg
          have := hown g
          rw [hp.1] at this
          simp only [set_same]
          rw [← this]; simp
        · rw [set_ne _ _ hg]; exact hown g
      · by_cases eu : u = t
        · subst eu; simp [setPc, PcOk]
        · have h : (set c.threads t Pc.idle) u = c.threads u := set_ne _ _ eu
          dsimp only [setPc]
          rw [h]
          refine pcok_congr (hpc u) (fun g hg => ?_) rfl rfl
          dsimp only
          rw [set_ne]
          · exact hg
          · intro eg; rw [eg, hp.1] at hg; cases hg; exact eu rfl
      · dsimp only [setPc] at hu ⊢
        by_cases hg : g = f
        · subst hg; simp at hu
        · rw [set_ne _ _ hg] at hu
          have h := hh g u hu
          by_cases eu : u = t
          · subst eu; rw [e] at h; exact absurd h.symm hg
          · rw [set_ne _ _ eu]; exact h
    | cons h rest =>
      rcases hc.live f (ne_nil_of_mem (hp.2 h List.mem_cons_self)) with hr | ⟨he, hr⟩
      case inr => exact Or.inr ⟨he, by dsimp only; rw [hr]; rfl⟩
      dsimp only
      rw [touch_ready hr]
      refine Or.inl ⟨_, rfl, inv_setPc c hc t _ ⟨hp.1, ⟨hp.2 h List.mem_cons_self, hr⟩, fun x hx => hp.2 x (List.mem_cons_of_mem _ hx)⟩ ?_, rfl⟩
      intro g hg; rw [e] at hg; exact hg
  | inside f h rest =>
    rw [e] at hp
    dsimp only
    rw [touch_ready hp.2.1.2]
    refine Or.inl ⟨_, rfl, inv_setPc c hc t _ ⟨hp.1, hp.2.2⟩ ?_, rfl⟩
    intro g hg; rw [e] at hg; exact hg
  | fetched =>
    rw [e] at hp
    dsimp only
    rw [touch_ready hp]
    refine Or.inl ⟨_, rfl, inv_setPc c hc t _ hp ?_, rfl⟩
    intro g hg; rw [e] at hg; exact hg
  | timer =>
    rw [e] at hp
    dsimp only
    rw [touch_ready hp]
    refine Or.inl ⟨_, rfl, inv_setPc c hc t _ trivial ?_, rfl⟩
    intro g hg; rw [e] at hg; exact hg

theorem inv_step (c : Config) (hc : Inv E c) (m : Move)
    (hq : ∀ p, m = .main → c.prog = .free :: p → ∀ t, ¬ InTimer (c.threads t)) :
    (∃ c', step c m = .ok c' ∧ Inv E c') ∨ (E ∧ step c m = .error .assertFailed) := by
  cases m with
  | main => exact Or.inl ⟨_, rfl, inv_main c hc (fun p h => hq p rfl h)⟩
  | go t =>
    rcases inv_go c hc t with ⟨c', h1, h2, _⟩ | h
    · exact Or.inl ⟨c', h1, h2⟩
    · exact Or.inr h
  | takeTimer t =>
    refine Or.inl ⟨_, rfl, ?_⟩
    split
    · next h =>
      refine inv_setPc c hc t _ (hc.timer h.2) ?_
      intro g hg; rw [h.1] at hg; exact hg
    · exact hc
  | deliver t f =>
    refine Or.inl ⟨_, rfl, ?_⟩
    split
    · next h =>
      obtain ⟨⟨held, hok, hown⟩, hl, ht, hpc, hh⟩ := hc
      have key : ∀ g u, c.owner g = some (.thread u) → set c.owner f (some (Who.thread t)) g = some (.thread u) := by
        intro g u hg
        rw [set_ne]
        · exact hg
        · intro e; rw [e, h.2] at hg; cases hg
      refine ⟨⟨held, hok, fun g => ?_⟩, hl, ht, fun u => ?_, fun g u hu => ?_⟩
      · dsimp only [setPc]
        by_cases hg : g = f
        · subst hg
          have := hown g
          rw [h.2] at this
          simp only [set_same]
          rw [← this]; simp
        · rw [set_ne _ _ hg]; exact hown g
      · by_cases eu : u = t
        · subst eu
          dsimp only [setPc]
          rw [set_same]
          exact ⟨by simp, fun x hx => hx⟩
        · dsimp only [setPc]
          rw [set_ne _ _ eu]
          exact pcok_congr (hpc u) (fun g hg => key g u hg) rfl rfl
      · dsimp only [setPc] at hu ⊢
        by_cases hg : g = f
        · subst hg
          rw [set_same] at hu
          cases hu
          rw [set_same]; rfl
        · rw [set_ne _ _ hg] at hu
          have h' := hh g u hu
          by_cases eu : u = t
          · subst eu; rw [h.1] at h'; exact absurd h' id
          · rw [set_ne _ _ eu]; exact h'
    · exact hc

theorem inv_exec (prog : List Act) (hok : Ok E .raw (fun _ => []) false none prog) (schedule : List Move)
    (hq : TimerQuiet prog schedule) :
    (∃ c, exec prog schedule = .ok c ∧ Inv E c) ∨ (E ∧ exec prog schedule = .error .assertFailed) := by
  induction schedule using snoc_induction with
  | h0 => exact Or.inl ⟨_, rfl, inv_start prog hok⟩
  | hs l m ih =>
    rcases ih (fun l1 r c p e => hq l1 (r ++ [m]) c p (by rw [e]; simp)) with ⟨c, hc, hi⟩ | ⟨he, hf⟩
    · have h := inv_step c hi m (fun p em hp => by
        subst em
        exact hq l [] c p (by simp) hc hp)
      unfold exec at hc ⊢
      rw [runE_append, hc]
      rcases h with ⟨c', h1, h2⟩ | ⟨he, hf⟩
      · exact Or.inl ⟨c', by simp [runE, h1], h2⟩
      · exact Or.inr ⟨he, by simp [runE, hf]⟩
    · unfold exec at hf ⊢
      rw [runE_append, hf]
      exact Or.inr ⟨he, rfl⟩

/-! The programs of the classes. -/

/-- Registered callbacks are among the connections held. -/
def Cover (r : Nat → List Helper) (conns : List (Nat × Helper)) : Prop := ∀ f h, h ∈ r f → (f, h) ∈ conns

theorem ok_disconnect (s : Stage) (b : Bool) (q : List Act) (conns rest : List (Nat × Helper)) (r : Nat → List Helper)
    (hc : Cover r (conns ++ rest)) (hq : ∀ r', Cover r' rest → Ok E s r' b none q) :
    Ok E s r b none (conns.flatMap disconnect ++ q) := by
  induction conns generalizing r with
  | nil => exact hq r hc
  | cons a l ih =>
    obtain ⟨f, h⟩ := a
    refine ⟨rfl, rfl, rfl, ih _ ?_⟩
    intro g x hx
    by_cases e : g = f
    · subst e
      rw [set_same] at hx
      obtain ⟨hx1, hx2⟩ := List.mem_filter.1 hx
      have := hc g x hx1
      rcases List.mem_cons.1 this with e2 | e2
      · exfalso
        injection e2 with _ e3
        simp [e3] at hx2
      · exact e2
    · rw [set_ne _ _ e] at hx
      have := hc g x hx
      rcases List.mem_cons.1 this with e2 | e2
      · exfalso
        injection e2 with e3 _
        exact e e3
      · exact e2

theorem ok_register (s : Stage) (hs : Up E s) (b : Bool) (q : List Act) (new : List (Nat × Helper)) (conns : List (Nat × Helper)) (r : Nat → List Helper)
    (hc : Cover r conns) (hq : ∀ r', Cover r' (conns ++ new) → Ok E s r' b none q) :
    Ok E s r b none (new.flatMap (fun p => register p.1 p.2) ++ q) := by
  induction new generalizing r conns with
  | nil => exact hq r (by simpa using hc)
  | cons a l ih =>
    obtain ⟨f, h⟩ := a
    refine ⟨rfl, rfl, hs, rfl, ih (conns ++ [(f, h)]) _ ?_ ?_⟩
    · intro g x hx
      by_cases e : g = f
      · subst e
        rw [set_same] at hx
        rcases List.mem_append.1 hx with h1 | h1
        · exact List.mem_append.2 (Or.inl (hc g x h1))
        · rw [List.mem_singleton.1 h1]; simp
      · rw [set_ne _ _ e] at hx
        exact List.mem_append.2 (Or.inl (hc g x hx))
    · intro r' h'
      exact hq r' (by simpa using h')

theorem ok_connectInput (s : Stage) (hs : Up E s) (k : Kind) (b : Bool) (q : List Act) (call : Nat) (conns : List (Nat × Helper)) (srcs : List Nat)
    (r : Nat → List Helper) (hk : k.disconnectsOnConnect = true ∨ conns = []) (hc : Cover r conns)
    (hq : ∀ r', Cover r' (conns' call conns srcs) → Ok E s r' b none q) :
    Ok E s r b none (connectInput k call conns srcs ++ q) := by
  have key : ∀ r, Cover r [] →
      Ok E s r b none (srcs.zipIdx.flatMap (fun p => register p.1 ⟨call, p.2⟩) ++ q) := by
    intro r hr
    have := ok_register s hs b q (srcs.zipIdx.map (fun p => (p.1, (⟨call, p.2⟩ : Helper)))) [] r hr (fun r' h' => by
      refine hq r' (fun f h hm => ?_)
      exact List.mem_append.2 (Or.inl (by simpa using h' f h hm)))
    rw [List.flatMap_map] at this
    exact this
  unfold connectInput
  rw [List.append_assoc]
  rcases hk with hk | hk
  · rw [if_pos hk]
    exact ok_disconnect _ _ _ conns [] r (by simpa using hc) key
  · subst hk
    have : (if k.disconnectsOnConnect = true then List.flatMap disconnect ([] : List (Nat × Helper)) else []) = [] := by
      split <;> rfl
    rw [this]
    exact key r hc

theorem ok_destroy (k : Kind) (b : Bool) (conns : List (Nat × Helper)) (r : Nat → List Helper)
    (hk : k.disconnectsOnDestroy = true) (hc : Cover r conns) : Ok E .ready r b none (destroy k conns) := by
  unfold destroy
  rw [if_pos hk]
  have nil : ∀ r : Nat → List Helper, Cover r [] → ∀ f, r f = [] := by
    intro r hr f
    cases e : r f with
    | nil => rfl
    | cons a l => exact absurd (hr f a (by rw [e]; exact List.mem_cons_self)) (by simp)
  have key : ∀ b, Ok E .ready r b none (conns.flatMap disconnect ++ [.free]) := fun b =>
    ok_disconnect _ _ _ conns [] r (by simpa using hc) (fun r' h' => ⟨nil r' h', rfl, nil r' h'⟩)
  split
  · rw [List.append_assoc]; exact key false
  · exact key b

theorem ok_lifeFrom (k : Kind) (b : Bool) (call : Nat) (conns : List (Nat × Helper)) (later : List (List Nat))
    (r : Nat → List Helper) (hk : k.disconnectsOnConnect = true ∨ later = []) (hd : k.disconnectsOnDestroy = true)
    (hc : Cover r conns) : Ok E .ready r b none (lifeFrom k call conns later) := by
  induction later generalizing call conns r with
  | nil => exact ok_destroy k b conns r hd hc
  | cons srcs rest ih =>
    have hk' : k.disconnectsOnConnect = true := by
      rcases hk with h | h
      · exact h
      · cases h
    exact ok_connectInput _ (Or.inl rfl) k b _ call conns srcs r (Or.inl hk') hc (fun r' h' => ih _ _ r' (Or.inl hk') h')

theorem cover_nil : Cover (fun _ => []) [] := fun _ _ h => (by cases h)

theorem ok_life (k : Kind) (srcs : List Nat) (later : List (List Nat)) (hd : Detaches k later)
    (hs : k = .synchronizer → srcs = [] ∨ E) : Ok E .raw (fun _ => []) false none (life k srcs later) := by
  unfold life construct
  rcases hd with h | h | h | ⟨b, h⟩ | ⟨h, h'⟩
  · subst h
    rcases hs rfl with h | h
    · rw [h]
      refine ⟨rfl, rfl, fun _ => rfl, ?_⟩
      refine ⟨rfl, ?_⟩
      exact ok_lifeFrom _ _ _ _ _ _ (Or.inl rfl) rfl cover_nil
    · simp only [List.append_assoc, List.nil_append, List.cons_append]
      refine ⟨rfl, rfl, fun _ => rfl, ?_⟩
      refine ok_connectInput _ (Or.inr ⟨h, rfl⟩) _ _ _ _ _ _ _ (Or.inr rfl) cover_nil (fun r' h' => ?_)
      exact ⟨rfl, ok_lifeFrom _ _ _ _ _ _ (Or.inl rfl) rfl h'⟩
  · subst h
    refine ⟨rfl, rfl, fun _ => rfl, rfl, ?_⟩
    exact ok_connectInput _ (Or.inl rfl) _ _ _ _ _ _ _ (Or.inr rfl) cover_nil (fun r' h' => ok_lifeFrom _ _ _ _ _ _ (Or.inl rfl) rfl h')
  · subst h
    refine ⟨rfl, rfl, fun _ => rfl, rfl, rfl, ?_⟩
    exact ok_connectInput _ (Or.inl rfl) _ _ _ _ _ _ _ (Or.inr rfl) cover_nil (fun r' h' => ok_lifeFrom _ _ _ _ _ _ (Or.inl rfl) rfl h')
  · subst h
    simp only [List.append_assoc, List.nil_append, List.cons_append]
    refine ⟨rfl, rfl, fun _ => rfl, rfl, ?_⟩
    refine ok_connectInput _ (Or.inl rfl) _ _ _ _ _ _ _ (Or.inr rfl) cover_nil (fun r' h' => ?_)
    cases b with
    | true => exact ⟨rfl, ok_lifeFrom _ _ _ _ _ _ (Or.inl rfl) rfl h'⟩
    | false => exact ok_lifeFrom _ _ _ _ _ _ (Or.inl rfl) rfl h'
  · subst h
    refine ⟨rfl, rfl, fun _ => rfl, rfl, ?_⟩
    exact ok_connectInput _ (Or.inl rfl) _ _ _ _ _ _ _ (Or.inr rfl) cover_nil (fun r' h2 => ok_lifeFrom _ _ _ _ _ _ (Or.inr h') rfl h2)

/-! Classes without timer. -/

theorem no_timer_step (c : Config) (m : Move) (c' : Config) (h : step c m = .ok c')
    (h1 : Act.startTimer ∉ c.prog) (h2 : c.timerOn = false) (h3 : ∀ t, ¬ InTimer (c.threads t)) :
    Act.startTimer ∉ c'.prog ∧ c'.timerOn = false ∧ ∀ t, ¬ InTimer (c'.threads t) := by
  have sp : ∀ t p, ¬ InTimer p → ∀ u, ¬ InTimer (set c.threads t p u) := by
    intro t p hp u
    by_cases e : u = t
    · subst e; rw [set_same]; exact hp
    · rw [set_ne _ _ e]; exact h3 u
  cases m with
  | main =>
    injection h with h
    subst h
    obtain ⟨owner, regs, threads, prog, stage, timerOn⟩ := c
    dsimp only at *
    cases prog with
    | nil => exact ⟨h1, h2, h3⟩
    | cons a p =>
      have hp : Act.startTimer ∉ p := fun e => h1 (List.mem_cons_of_mem _ e)
      cases a with
      | lock f =>
        dsimp only [mainStep]
        split
        · exact ⟨hp, h2, h3⟩
        · exact ⟨h1, h2, h3⟩
      | startTimer => exact absurd List.mem_cons_self h1
      | cancelTimer => exact ⟨hp, rfl, h3⟩
      | free => exact ⟨hp, rfl, h3⟩
      | _ => exact ⟨hp, h2, h3⟩
  | deliver t f =>
    injection h with h
    subst h
    split
    · exact ⟨h1, h2, sp t _ (by simp [InTimer])⟩
    · exact ⟨h1, h2, h3⟩
  | takeTimer t =>
    injection h with h
    subst h
    rw [h2]
    simp only [Bool.false_eq_true, and_false, if_false]
    exact ⟨h1, h2, h3⟩
  | go t =>
    dsimp only [step] at h
    unfold goStep at h
    have ht := h3 t
    have key : ∀ {p : Pc}, ((touch c.stage).map fun _ => setPc c t p) = .ok c' → ¬ InTimer p →
        Act.startTimer ∉ c'.prog ∧ c'.timerOn = false ∧ ∀ t, ¬ InTimer (c'.threads t) := by
      intro p h hp
      cases e : touch c.stage with
      | error f => rw [e] at h; cases h
      | ok u =>
        rw [e] at h
        injection h with h
        subst h
        exact ⟨h1, h2, sp t p hp⟩
    cases e : c.threads t with
    | idle => rw [e] at h; injection h with h; subst h; exact ⟨h1, h2, h3⟩
    | signal f todo =>
      rw [e] at h
      cases todo with
      | nil => injection h with h; subst h; exact ⟨h1, h2, sp t _ (by simp [InTimer])⟩
      | cons x r => exact key h (by simp [InTimer])
    | inside f x r => rw [e] at h; exact key h (by simp [InTimer])
    | fetched => rw [e] at ht; exact absurd trivial ht
    | timer => rw [e] at ht; exact absurd trivial ht

theorem no_timer_exec (prog : List Act) (h : Act.startTimer ∉ prog) (l : List Move) (c : Config)
    (hc : exec prog l = .ok c) : ∀ t, ¬ InTimer (c.threads t) := by
  have := runE_inv (step := step)
    (I := fun c : Config => Act.startTimer ∉ c.prog ∧ c.timerOn = false ∧ ∀ t, ¬ InTimer (c.threads t))
    (fun c m c' hi hs => no_timer_step c m c' hs hi.1 hi.2.1 hi.2.2) l _ c
    ⟨h, rfl, fun t => by simp [start, InTimer]⟩ hc
  exact this.2.2

theorem quiet_of_no_timer (prog : List Act) (h : Act.startTimer ∉ prog) (l : List Move) : TimerQuiet prog l := by
  intro l1 r c p _ hc _
  exact no_timer_exec prog h l1 c hc

theorem no_start_disconnect (conns : List (Nat × Helper)) : Act.startTimer ∉ conns.flatMap disconnect := by
  intro h
  obtain ⟨a, _, h⟩ := List.mem_flatMap.1 h
  simp [disconnect] at h

theorem no_start_connect (k : Kind) (call : Nat) (conns : List (Nat × Helper)) (srcs : List Nat) :
    Act.startTimer ∉ connectInput k call conns srcs := by
  intro h
  rcases List.mem_append.1 h with h | h
  · split at h
    · exact no_start_disconnect _ h
    · cases h
  · obtain ⟨a, _, h⟩ := List.mem_flatMap.1 h
    simp [register] at h

theorem no_start_lifeFrom (k : Kind) (call : Nat) (conns : List (Nat × Helper)) (later : List (List Nat)) :
    Act.startTimer ∉ lifeFrom k call conns later := by
  induction later generalizing call conns with
  | nil =>
    unfold lifeFrom destroy
    intro h
    rcases List.mem_append.1 h with h | h
    · rcases List.mem_append.1 h with h | h
      · split at h <;> simp at h
      · split at h
        · exact no_start_disconnect _ h
        · cases h
    · simp at h
  | cons srcs rest ih =>
    intro h
    rcases List.mem_append.1 h with h | h
    · exact no_start_connect _ _ _ _ h
    · exact ih _ _ h

theorem no_start_life (k : Kind) (srcs : List Nat) (later : List (List Nat)) (h : ¬ HasTimer k) :
    Act.startTimer ∉ life k srcs later := by
  intro hm
  rcases List.mem_append.1 hm with hm | hm
  · have hc := no_start_connect k 0 [] srcs
    cases k with
    | sequencer => exact h (Or.inl rfl)
    | aligner b =>
      cases b with
      | true => exact h (Or.inr rfl)
      | false => simp [construct, hc] at hm
    | _ => simp [construct, hc] at hm
  · exact no_start_lifeFrom _ _ _ _ hm

/-! The owner's program can always be completed. -/

def work : Pc → Nat
  | .signal _ l => 2 * l.length + 1
  | .inside _ _ l => 2 * l.length + 2
  | _ => 0

theorem release (n : Nat) : ∀ (c : Config) (t f : Nat), Inv False c → c.owner f = some (.thread t) →
    (work (c.threads t)) ≤ n →
    ∃ l c', runE step c l = .ok c' ∧ Inv False c' ∧ c'.prog = c.prog ∧ c'.owner f = none := by
  induction n with
  | zero =>
    intro c t f hc ho hn
    have := hc.holder f t ho
    cases e : c.threads t <;> rw [e] at this hn <;> (try exact absurd this id) <;> (dsimp only [work] at hn; omega)
  | succ n ih =>
    intro c t f hc ho hn
    have hs := hc.holder f t ho
    rcases inv_go c hc t with ⟨c', h1, h2, h3⟩ | h
    case inr => exact absurd h.1 id
    have fin : c'.owner f = some (.thread t) →
        (work (c'.threads t)) ≤ n →
        ∃ l c', runE step c l = .ok c' ∧ Inv False c' ∧ c'.prog = c.prog ∧ c'.owner f = none := by
      intro a b
      obtain ⟨l, c2, g1, g2, g3, g4⟩ := ih c' t f h2 a b
      exact ⟨.go t :: l, c2, by simp only [runE, step, h1]; exact g1, g2, g3.trans h3, g4⟩
    have h1' := h1
    unfold goStep at h1
    have key : ∀ {p : Pc}, ((touch c.stage).map fun _ => setPc c t p) = .ok c' → c' = setPc c t p := by
      intro p h
      cases e : touch c.stage with
      | error f => rw [e] at h; cases h
      | ok u => rw [e] at h; injection h with h; exact h.symm
    cases e : c.threads t with
    | idle => rw [e] at hs; exact absurd hs id
    | fetched => rw [e] at hs; exact absurd hs id
    | timer => rw [e] at hs; exact absurd hs id
    | signal g todo =>
      rw [e] at hs hn h1
      have hs : g = f := hs
      subst hs
      cases todo with
      | nil =>
        refine ⟨[.go t], c', by simp only [runE, step, h1'], h2, h3, ?_⟩
        injection h1 with h1
        subst h1
        simp
      | cons x r =>
        have := key h1
        subst this
        refine fin ho ?_
        simp only [setPc, set_same, work]
        simp only [work, List.length_cons] at hn
        omega
    | inside g x r =>
      rw [e] at hs hn h1
      have := key h1
      subst this
      refine fin ho ?_
      simp only [setPc, set_same, work]
      dsimp only [work] at hn
      omega

theorem complete (z : List Act) : ∀ (c : Config), Inv False c → c.prog = z ++ [.free] → Act.free ∉ z →
    ∃ l c', runE step c l = .ok c' ∧ Inv False c' ∧ c'.prog = [.free] := by
  induction z with
  | nil => intro c hc hp _; exact ⟨[], c, rfl, hc, hp⟩
  | cons a z ih =>
    intro c hc hp hz
    have ha : a ≠ .free := fun e => hz (by rw [e]; exact List.mem_cons_self)
    have hz' : Act.free ∉ z := fun e => hz (List.mem_cons_of_mem _ e)
    have one : ∀ c1 : Config, Inv False c1 → c1.prog = a :: z ++ [.free] → (mainStep c1).prog = z ++ [.free] →
        ∃ l c', runE step c1 l = .ok c' ∧ Inv False c' ∧ c'.prog = [.free] := by
      intro c1 h1 h2 h3
      obtain ⟨l, c', g1, g2, g3⟩ := ih (mainStep c1) (inv_main c1 h1 (fun p' h => by
        rw [h2] at h
        injection h with h _
        exact absurd h ha)) h3 hz'
      exact ⟨.main :: l, c', by simp only [runE, step]; exact g1, g2, g3⟩
    have simple : (∀ f, a ≠ .lock f) → (mainStep c).prog = z ++ [.free] := by
      intro hl
      unfold mainStep
      rw [hp]
      cases a <;> first | rfl | exact absurd rfl (hl _)
    by_cases hl : ∃ f, a = .lock f
    · obtain ⟨f, hf⟩ := hl
      subst hf
      have go : ∀ c1 : Config, c1.prog = .lock f :: z ++ [.free] → c1.owner f = none →
          (mainStep c1).prog = z ++ [.free] := by
        intro c1 h1 h2
        unfold mainStep
        rw [h1]
        simp [h2]
      cases ho : c.owner f with
      | none => exact one c hc hp (go c hp ho)
      | some w =>
        cases w with
        | main =>
          obtain ⟨held, hok, hown⟩ := hc.main
          rw [hp] at hok
          have := (hown f).1 ho
          rw [hok.1] at this
          cases this
        | thread t =>
          obtain ⟨l, c1, g1, g2, g3, g4⟩ := release _ c t f hc ho (Nat.le_refl _)
          obtain ⟨l2, c', k1, k2, k3⟩ := one c1 g2 (g3.trans hp) (go c1 (g3.trans hp) g4)
          exact ⟨l ++ l2, c', by rw [runE_append, g1]; exact k1, k2, k3⟩
    · exact one c hc hp (simple (fun f e => hl ⟨f, e⟩))

/-- Steps of other threads leave the program and the object's stage alone. -/
theorem step_other (c : Config) (m : Move) (c' : Config) (hm : m ≠ .main) (h : step c m = .ok c') :
    c'.prog = c.prog ∧ c'.stage = c.stage := by
  cases m with
  | main => exact absurd rfl hm
  | deliver t f => injection h with h; subst h; split <;> exact ⟨rfl, rfl⟩
  | takeTimer t => injection h with h; subst h; split <;> exact ⟨rfl, rfl⟩
  | go t =>
    dsimp only [step] at h
    unfold goStep at h
    have key : ∀ {p : Pc}, ((touch c.stage).map fun _ => setPc c t p) = .ok c' →
        c'.prog = c.prog ∧ c'.stage = c.stage := by
      intro p h
      cases e : touch c.stage with
      | error f => rw [e] at h; cases h
      | ok u => rw [e] at h; injection h with h; subst h; exact ⟨rfl, rfl⟩
    cases e : c.threads t with
    | idle => rw [e] at h; injection h with h; subst h; exact ⟨rfl, rfl⟩
    | signal f todo =>
      rw [e] at h
      cases todo with
      | nil => injection h with h; subst h; exact ⟨rfl, rfl⟩
      | cons x r => exact key h
    | inside f x r => rw [e] at h; exact key h
    | fetched => rw [e] at h; exact key h
    | timer => rw [e] at h; exact key h

/-- Steps not made by thread `t` do not change where it is, unless it is idle. -/
theorem step_elsewhere (c : Config) (m : Move) (c' : Config) (t : Nat) (hm : m ≠ .go t) (ht : c.threads t ≠ .idle)
    (h : step c m = .ok c') : c'.threads t = c.threads t := by
  cases m with
  | main =>
    injection h with h
    subst h
    unfold mainStep
    split <;> (try rfl)
    split <;> rfl
  | deliver u f =>
    injection h with h
    subst h
    split
    · next h => exact set_ne _ _ (fun e => ht (by rw [e]; exact h.1))
    · rfl
  | takeTimer u =>
    injection h with h
    subst h
    split
    · next h => exact set_ne _ _ (fun e => ht (by rw [e]; exact h.1))
    · rfl
  | go u =>
    have hu : t ≠ u := fun e => hm (by rw [e])
    dsimp only [step] at h
    unfold goStep at h
    have key : ∀ {p : Pc}, ((touch c.stage).map fun _ => setPc c u p) = .ok c' → c'.threads t = c.threads t := by
      intro p h
      cases e : touch c.stage with
      | error f => rw [e] at h; cases h
      | ok _ => rw [e] at h; injection h with h; subst h; exact set_ne _ _ hu
    cases e : c.threads u with
    | idle => rw [e] at h; injection h with h; subst h; rfl
    | signal f todo =>
      rw [e] at h
      cases todo with
      | nil => injection h with h; subst h; exact set_ne _ _ hu
      | cons x r => exact key h
    | inside f x r => rw [e] at h; exact key h
    | fetched => rw [e] at h; exact key h
    | timer => rw [e] at h; exact key h

/-- What is left of the program: nothing, and the object is dead, or something that ends with its destruction. -/
theorem prog_shape (z0 : List Act) (h0 : Act.free ∉ z0) (l : List Move) (c : Config)
    (hc : exec (z0 ++ [.free]) l = .ok c) :
    (c.prog = [] ∧ c.stage = .dead) ∨ ∃ z, c.prog = z ++ [.free] ∧ Act.free ∉ z := by
  refine runE_inv (step := step)
    (I := fun c : Config => (c.prog = [] ∧ c.stage = .dead) ∨ ∃ z, c.prog = z ++ [.free] ∧ Act.free ∉ z)
    (fun c m c' hi hs => ?_) l _ c (Or.inr ⟨z0, rfl, h0⟩) hc
  by_cases hm : m = .main
  · subst hm
    injection hs with hs
    subst hs
    rcases hi with ⟨h1, h2⟩ | ⟨z, h1, h2⟩
    · have : mainStep c = c := by unfold mainStep; rw [h1]
      rw [this]; exact Or.inl ⟨h1, h2⟩
    · cases z with
      | nil => left; unfold mainStep; rw [h1]; exact ⟨rfl, rfl⟩
      | cons a z =>
        have hz : Act.free ∉ z := fun e => h2 (List.mem_cons_of_mem _ e)
        right
        cases a with
        | free => exact absurd List.mem_cons_self h2
        | lock f =>
          by_cases ho : c.owner f = none
          · exact ⟨z, by unfold mainStep; rw [h1]; simp [ho], hz⟩
          · have : mainStep c = c := by unfold mainStep; rw [h1]; simp [ho]
            rw [this]; exact ⟨_, h1, h2⟩
        | _ => exact ⟨z, by unfold mainStep; rw [h1]; rfl, hz⟩
  · obtain ⟨e1, e2⟩ := step_other c m c' hm hs
    rw [e1, e2]; exact hi

theorem no_free_disconnect (conns : List (Nat × Helper)) : Act.free ∉ conns.flatMap disconnect := by
  intro h
  obtain ⟨a, _, h⟩ := List.mem_flatMap.1 h
  simp [disconnect] at h

theorem no_free_connect (k : Kind) (call : Nat) (conns : List (Nat × Helper)) (srcs : List Nat) :
    Act.free ∉ connectInput k call conns srcs := by
  intro h
  rcases List.mem_append.1 h with h | h
  · split at h
    · exact no_free_disconnect _ h
    · cases h
  · obtain ⟨a, _, h⟩ := List.mem_flatMap.1 h
    simp [register] at h

theorem lifeFrom_free (k : Kind) (call : Nat) (conns : List (Nat × Helper)) (later : List (List Nat)) :
    ∃ l, lifeFrom k call conns later = l ++ [.free] ∧ Act.free ∉ l := by
  induction later generalizing call conns with
  | nil =>
    refine ⟨_, rfl, fun h => ?_⟩
    rcases List.mem_append.1 h with h | h
    · split at h <;> simp at h
    · split at h
      · exact no_free_disconnect _ h
      · cases h
  | cons srcs rest ih =>
    obtain ⟨l, h1, h2⟩ := ih (call + 1) (conns' call conns srcs)
    refine ⟨connectInput k call conns srcs ++ l, by simp [lifeFrom, h1], fun h => ?_⟩
    rcases List.mem_append.1 h with h | h
    · exact no_free_connect _ _ _ _ h
    · exact h2 h

theorem life_free (k : Kind) (srcs : List Nat) (later : List (List Nat)) :
    ∃ l, life k srcs later = l ++ [.free] ∧ Act.free ∉ l := by
  obtain ⟨l, h1, h2⟩ := lifeFrom_free k 1 (conns' 0 [] srcs) later
  refine ⟨construct k srcs ++ l, by simp [life, h1], fun h => ?_⟩
  rcases List.mem_append.1 h with h | h
  · have hc := no_free_connect k 0 [] srcs
    cases k with
    | aligner b => cases b <;> simp [construct, hc] at h
    | _ => simp [construct, hc] at h
  · exact h2 h

end MF.Life
