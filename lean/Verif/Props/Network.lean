import Verif.Proofs.Network
/-
Properties of connecting and destroying filters (C13, C14, C50, C59).
-/
namespace MF.Network

/-! ## C13 -/

/-- C13.  After any history of connecting, reconnecting, destroying and outputting, a message of filter `f` is delivered to
input `i` of a filter other than a Cache exactly once if `f` is the source its last `connectInput` gave for the input, and
not at all otherwise. -/
theorem C13_reconnect_replaces_partial {ops : List Op} {x f i m : Nat} {k : Kind} {s s' : Net} (hk : kindOf ops x = some k)
    (hc : k ≠ .cache) (ha : Alive ops x) (h : run ops = .ok s) (h' : run (ops ++ [.output f m]) = .ok s') :
    calls s s' x i m = if currentSource ops x i = some f then 1 else 0 := by
  have hh := hist_run h
  obtain ⟨s1, h1, h2⟩ := runE_snoc_ok h'
  have : s1 = s := by have := h1.symm.trans h; injection this
  subst this
  rw [log_of_output hh h2]
  have hr : k.disconnectsOnConnect = true := by cases k <;> simp_all [Kind.disconnectsOnConnect]
  obtain ⟨a, b⟩ := subs_recon hk hr f i
  split
  · rename_i hs; exact a ⟨hs, fun h => ha.2 h.1⟩
  · rename_i hs; exact b (fun h => hs h.1)

/-- Non-vacuity: a TimeSequencer connected to 0, then to 1; both output. -/
example : logOf [.create .source, .create .source, .create .sequencer, .connect 2 [0], .output 0 7, .connect 2 [1], .output 0 8,
    .output 1 9] = some [(2, 0, 7), (2, 0, 9)] := rfl

/-- What a Cache does instead: it receives the message once per `connectInput` that named the source, whatever was connected
since. -/
theorem C13_cache {ops : List Op} {x f i m : Nat} {s s' : Net} (hk : kindOf ops x = some .cache)
    (ha : Alive ops x) (h : run ops = .ok s) (h' : run (ops ++ [.output f m]) = .ok s') :
    calls s s' x i m = timesConnected ops x i f := by
  have hh := hist_run h
  obtain ⟨s1, h1, h2⟩ := runE_snoc_ok h'
  have : s1 = s := by have := h1.symm.trans h; injection this
  subst this
  rw [log_of_output hh h2]
  unfold subscriptions
  rw [hk]
  simp [ha.2]

/-- C13 fails for Cache: a Cache connected to 0 and then to 1 still receives the messages of 0, and one connected twice to
the same filter receives its messages twice. -/
theorem C13_cache_violated :
    logOf [.create .source, .create .source, .create .cache, .connect 2 [0], .connect 2 [1], .output 0 7] = some [(2, 0, 7)] ∧
    logOf [.create .source, .create .cache, .connect 1 [0], .connect 1 [0], .output 0 7] = some [(1, 0, 7), (1, 0, 7)] :=
  ⟨rfl, rfl⟩

/-! ## C14 -/

/-- C14, exactly.  An output of an existing filter calls into no destroyed object if and only if no destroyed object is left
dangling at it: a PassThrough or a Chain that was connected to it when it was destroyed, or a Cache connected to it by a
`connectInput` other than its last one. -/
theorem C14_output_safe_iff {ops : List Op} {f m : Nat} {s : Net} (h : run ops = .ok s) (ha : Alive ops f) :
    (∃ s', run (ops ++ [.output f m]) = .ok s') ↔ ∀ x, ¬ Dangling ops f x := by
  have hh := hist_run h
  have e : ∀ s', run (ops ++ [.output f m]) = .ok s' ↔ output s f m = .ok s' := by
    intro s'
    unfold run
    rw [runE_append]
    have h0 : runE step init ops = .ok s := h
    rw [h0]
    simp only [runE, step]
    cases output s f m <;> simp
  simp only [e]
  rw [output_iff hh ha m]
  constructor
  · rintro hz x ⟨hd, hcase⟩
    rcases hcase with ⟨hk, i, hs⟩ | ⟨hk, i, ht⟩
    · have := hz x i hd
      rcases hk with hk | hk
      · have h2 := (subs_recon hk rfl f i).1 ⟨hs, fun h => by cases h.2⟩
        omega
      · have h2 := (subs_recon hk rfl f i).1 ⟨hs, fun h => by cases h.2⟩
        omega
    · have := hz x i hd
      unfold subscriptions at this
      rw [hk] at this
      simp only [hd, true_and] at this
      omega
  · intro hnd x i hd
    have hx := hnd x
    apply Classical.byContradiction
    intro hne
    apply hx
    refine ⟨hd, ?_⟩
    cases hk : kindOf ops x with
    | none => exfalso; apply hne; unfold subscriptions; rw [hk]
    | some k =>
      by_cases hc : k.disconnectsOnConnect = true
      · left
        obtain ⟨_, b⟩ := subs_recon hk hc f i
        have hs : currentSource ops x i = some f ∧ ¬ (Destroyed ops x ∧ k.disconnectsOnDestroy = true) := by
          apply Classical.byContradiction
          intro h'; exact hne (b h')
        refine ⟨?_, i, hs.1⟩
        have hnd' : ¬ k.disconnectsOnDestroy = true := fun h' => hs.2 ⟨hd, h'⟩
        cases k <;> simp_all [Kind.disconnectsOnDestroy]
      · right
        have := cache_of hc
        subst this
        refine ⟨rfl, i, ?_⟩
        unfold subscriptions at hne
        rw [hk] at hne
        simp only [hd, true_and] at hne
        omega

/-- For TimeSequencer, Synchronizer and InputAligner, and for a Cache connected at most once: whatever happened before
and after, a destroyed object is not dangling anywhere. -/
theorem not_dangling {ops : List Op} {x f : Nat} {k : Kind} (hk : kindOf ops x = some k)
    (hkind : k = .sequencer ∨ (∃ n, k = .synchronizer n) ∨ (∃ n, k = .aligner n) ∨ (k = .cache ∧ (connects ops x).length ≤ 1)) :
    ¬ Dangling ops f x := by
  rintro ⟨_, hcase⟩
  rw [hk] at hcase
  rcases hcase with ⟨hp, _⟩ | ⟨hp, i, ht⟩
  · rcases hkind with rfl | ⟨n, rfl⟩ | ⟨n, rfl⟩ | ⟨rfl, _⟩ <;> simp at hp
  · rcases hkind with rfl | ⟨n, rfl⟩ | ⟨n, rfl⟩ | ⟨_, hl⟩
    · simp at hp
    · simp at hp
    · simp at hp
    · unfold timesConnected lastSource at ht
      match hcs : connects ops x, hl with
      | [], _ => rw [hcs] at ht; simp at ht
      | [srcs], _ =>
        rw [hcs] at ht
        by_cases h1 : srcs[i]? = some f
        · have hi : i < srcs.length := by
            rw [List.getElem?_eq_some_iff] at h1; exact h1.1
          simp [h1, hi] at ht
        · simp [h1] at ht

/-- C14.  If no PassThrough and no Chain was destroyed, and no Cache that had been connected more than once, then no output of
an existing filter ever calls into a destroyed object, and the outputs reach only existing objects. -/
theorem C14_safe_partial {ops : List Op} {s : Net} (h : run ops = .ok s)
    (hok : ∀ x, Destroyed ops x → kindOf ops x ≠ some .passThrough ∧ kindOf ops x ≠ some .chain ∧
      (kindOf ops x = some .cache → (connects ops x).length ≤ 1)) (f m : Nat) (ha : Alive ops f) :
    ∃ s', run (ops ++ [.output f m]) = .ok s' ∧ ∀ x i, Destroyed ops x → calls s s' x i m = 0 := by
  have hnd : ∀ x, ¬ Dangling ops f x := by
    intro x hx
    obtain ⟨h1, h2, h3⟩ := hok x hx.1
    obtain ⟨hd, hcase⟩ := hx
    rcases hcase with ⟨hp, _⟩ | ⟨hp, hq⟩
    · rcases hp with hp | hp
      · exact h1 hp
      · exact h2 hp
    · exact not_dangling (f := f) hp (Or.inr (Or.inr (Or.inr ⟨rfl, h3 hp⟩))) ⟨hd, Or.inr ⟨hp, hq⟩⟩
  obtain ⟨s', hs'⟩ := (C14_output_safe_iff (m := m) h ha).2 hnd
  refine ⟨s', hs', ?_⟩
  intro x i hd
  obtain ⟨s1, h1, h2⟩ := runE_snoc_ok hs'
  have : s1 = s := by have := h1.symm.trans h; injection this
  subst this
  rw [log_of_output (hist_run h) h2]
  exact (output_iff (hist_run h) ha m).1 ⟨s', h2⟩ x i hd

/-- Non-vacuity: a Synchronizer, an InputAligner, a TimeSequencer and a Cache are destroyed before their source outputs. -/
example : logOf [.create .source, .create (.synchronizer 2), .create (.aligner 3), .create .sequencer, .create .cache,
    .connect 1 [0, 0], .connect 2 [0, 0, 0], .connect 3 [0], .connect 4 [0], .output 0 5, .destroy 1, .destroy 2, .destroy 3,
    .destroy 4, .output 0 6] =
    some [(1, 0, 5), (1, 1, 5), (2, 0, 5), (2, 1, 5), (2, 2, 5), (3, 0, 5), (4, 0, 5)] := rfl

/-- C14 fails for PassThrough, for Chain and for a reconnected Cache: the source calls into the destroyed object. -/
theorem C14_violated :
    run [.create .source, .create .passThrough, .connect 1 [0], .destroy 1, .output 0 7] = .error .ub ∧
    run [.create .source, .create .chain, .connect 1 [0], .destroy 1, .output 0 7] = .error .ub ∧
    run [.create .source, .create .source, .create .cache, .connect 2 [0], .connect 2 [1], .destroy 2, .output 0 7] = .error .ub :=
  ⟨rfl, rfl, rfl⟩

/-! ## C50 -/

/-- C50.  After `connectInput(srcs...)` on an existing Synchronizer, a message of filter `f` is added to input `i` exactly once
if `f` is the `i`-th of the filters, and not at all otherwise, whatever was connected before; also when the same filter is
given for several inputs, and when the new call gives fewer filters than the one before. -/
theorem C50_routing {ops rest : List Op} {x f i m n : Nat} {srcs : List Nat} {s s' : Net}
    (hk : kindOf ops x = some (.synchronizer n))
    (hrest : ∀ op ∈ rest, (∀ ss, op ≠ .connect x ss) ∧ op ≠ .destroy x)
    (h : run (ops ++ [.connect x srcs] ++ rest) = .ok s)
    (h' : run (ops ++ [.connect x srcs] ++ rest ++ [.output f m]) = .ok s') :
    calls s s' x i m = if srcs[i]? = some f then 1 else 0 := by
  obtain ⟨s1, h1, _⟩ : ∃ s1, run (ops ++ [.connect x srcs]) = .ok s1 ∧ runE step s1 rest = .ok s := by
    unfold run at h ⊢
    rw [runE_append] at h
    cases hr : runE step init (ops ++ [.connect x srcs]) with
    | error e => rw [hr] at h; cases h
    | ok s1 => rw [hr] at h; exact ⟨s1, rfl, h⟩
  obtain ⟨s0, h0, hcon⟩ := runE_snoc_ok h1
  have hh0 := hist_run h0
  have ha0 : Alive ops x := (alive_iff hh0 x).1 (connect_ok hh0.inv hcon).aliveX
  have hkind : kindOf (ops ++ [.connect x srcs] ++ rest) x = some (.synchronizer n) := by
    unfold kindOf created at hk ⊢
    simp only [List.filterMap_append, List.filterMap_cons, List.filterMap_nil, List.append_nil]
    rw [List.getElem?_append_left]
    · exact hk
    · rw [List.getElem?_eq_some_iff] at hk; exact hk.1
  have hcs : currentSource (ops ++ [.connect x srcs] ++ rest) x i = srcs[i]? := by
    have : connects (ops ++ [.connect x srcs] ++ rest) x = connects ops x ++ [srcs] := by
      have e : connects rest x = [] := by
        unfold connects
        rw [List.filterMap_eq_nil_iff]
        intro op hop
        cases op with
        | connect y ss =>
          by_cases hy : y = x
          · subst hy; exact absurd rfl ((hrest _ hop).1 ss)
          · simp [hy]
        | _ => rfl
      rw [connects_append, e, connects_snoc]
      simp
    unfold currentSource
    rw [this]
    simp
  have halive : Alive (ops ++ [.connect x srcs] ++ rest) x := by
    refine ⟨by rw [hkind]; simp, ?_⟩
    unfold Destroyed
    intro hd
    rcases List.mem_append.1 hd with hd | hd
    · rcases List.mem_append.1 hd with hd | hd
      · exact ha0.2 hd
      · simp at hd
    · exact (hrest _ hd).2 rfl
  rw [C13_reconnect_replaces_partial hkind (by simp) halive h h', hcs]

/-- C50, destruction: a destroyed Synchronizer is never called again. -/
theorem C50_destroyed {ops : List Op} {x f m n : Nat} {s s' : Net} (hk : kindOf ops x = some (.synchronizer n))
    (hd : Destroyed ops x) (h : run ops = .ok s) (h' : run (ops ++ [.output f m]) = .ok s') (i : Nat) :
    calls s s' x i m = 0 := by
  obtain ⟨s1, h1, h2⟩ := runE_snoc_ok h'
  have : s1 = s := by have := h1.symm.trans h; injection this
  subst this
  rw [log_of_output (hist_run h) h2]
  exact (subs_recon hk rfl f i).2 (fun h' => h'.2 ⟨hd, rfl⟩)

/-- Non-vacuity: three inputs from two filters, then reconnected with fewer filters. -/
example : logOf [.create .source, .create .source, .create (.synchronizer 3), .connect 2 [0, 1, 0], .output 0 5, .connect 2 [1, 0],
    .output 0 6, .output 1 7] = some [(2, 0, 5), (2, 2, 5), (2, 1, 6), (2, 0, 7)] := rfl

/-! ## C59 -/

/-- C59.  Destroying an existing filter is safe exactly if it is a PassThrough or Chain, or every filter that was the last one
given for any of its inputs still exists.  In particular a source must be destroyed after the filters fed by it. -/
theorem C59_destroy_safe_iff {ops : List Op} {x : Nat} {s : Net} (h : run ops = .ok s) (ha : Alive ops x) :
    (∃ s', run (ops ++ [.destroy x]) = .ok s') ↔
      kindOf ops x = some .passThrough ∨ kindOf ops x = some .chain ∨ ∀ i f, lastSource ops x i = some f → Alive ops f := by
  have hh := hist_run h
  have ha' := (alive_iff hh x).2 ha
  have hx := hh.inv.dead x ha'
  have e : ∀ s', run (ops ++ [.destroy x]) = .ok s' ↔ destroy s x = .ok s' := by
    intro s'
    unfold run
    rw [runE_append]
    have h0 : runE step init ops = .ok s := h
    rw [h0]
    simp only [runE, step]
    cases destroy s x <;> simp
  have hal : (∀ i f, lastSource ops x i = some f → Alive ops f) ↔ ∀ i f, lastSource ops x i = some f → ¬ Destroyed ops f := by
    constructor
    · intro h' i f hl; exact (h' i f hl).2
    · intro h' i f hl
      refine ⟨?_, h' i f hl⟩
      rw [← hh.last] at hl
      cases hc : (s.objs x).conns i with
      | none => rw [hc] at hl; cases hl
      | some p =>
        obtain ⟨g, k⟩ := p
        rw [hc] at hl
        simp only [Option.map_some, Option.some.injEq] at hl
        subst hl
        rw [hh.kind g (hh.inv.conn x i g k hc).2.2.2.1]
        simp
  rw [hal, ← conn_alive_iff hh x, hh.kind x hx]
  simp only [e]
  constructor
  · rintro ⟨s', hs'⟩
    have w := destroy_ok hh.inv hs'
    by_cases hd : (s.objs x).kind.disconnectsOnDestroy = true
    · exact Or.inr (Or.inr (w.safe hd))
    · cases hkk : (s.objs x).kind <;> rw [hkk] at hd <;> simp_all [Kind.disconnectsOnDestroy]
  · intro hcase
    apply destroy_succeeds ha'
    intro hd
    rcases hcase with hk | hk | hk
    · injection hk with hk; rw [hk] at hd; cases hd
    · injection hk with hk; rw [hk] at hd; cases hd
    · exact hk

/-- C59.  `connectInput` on an existing filter is safe exactly if the new sources exist, fit the inputs, and (except for a
Cache, which does not disconnect) every filter that was the last one given for any of its inputs still exists. -/
theorem C59_connect_safe_iff {ops : List Op} {x : Nat} {srcs : List Nat} {s : Net} {k : Kind} (h : run ops = .ok s)
    (ha : Alive ops x) (hk : kindOf ops x = some k) :
    (∃ s', run (ops ++ [.connect x srcs]) = .ok s') ↔
      srcs.length ≤ inputsOf k ∧ (∀ f ∈ srcs, Alive ops f) ∧ (k ≠ .cache → ∀ i f, lastSource ops x i = some f → ¬ Destroyed ops f) := by
  have hslots : inputsOf k = k.slots := by cases k <;> rfl
  rw [hslots]
  have hh := hist_run h
  have ha' := (alive_iff hh x).2 ha
  have hx := hh.inv.dead x ha'
  have e : ∀ s', run (ops ++ [.connect x srcs]) = .ok s' ↔ connectInput s x srcs = .ok s' := by
    intro s'
    unfold run
    rw [runE_append]
    have h0 : runE step init ops = .ok s := h
    rw [h0]
    simp only [runE, step]
    cases connectInput s x srcs <;> simp
  have hkk : k = (s.objs x).kind := by
    have := hh.kind x hx
    rw [hk] at this
    injection this
  have hrc : k ≠ .cache ↔ (s.objs x).kind.disconnectsOnConnect = true := by
    rw [← hkk]; cases k <;> simp [Kind.disconnectsOnConnect]
  simp only [e]
  rw [hrc, ← conn_alive_iff hh x]
  constructor
  · rintro ⟨s', hs'⟩
    have w := connect_ok hh.inv hs'
    exact ⟨by rw [hkk]; exact w.length, fun f hf => (alive_iff hh f).1 (w.sources f hf), w.safe⟩
  · rintro ⟨h1, h2, h3⟩
    exact connect_succeeds ha' (by rw [← hkk]; exact h1) (fun f hf => (alive_iff hh f).2 (h2 f hf)) h3

/-- Non-vacuity, and what goes wrong: destroying the source before the Synchronizer, or reconnecting a Synchronizer with
fewer inputs and destroying the filter that is no longer used. -/
theorem C59_source_destroyed_first :
    run [.create .source, .create .cache, .connect 1 [0], .destroy 0, .destroy 1] = .error .ub ∧
    (∃ s, run [.create .source, .create .cache, .connect 1 [0], .destroy 1, .destroy 0] = .ok s) ∧
    run [.create .source, .create .source, .create (.synchronizer 2), .connect 2 [0, 1], .connect 2 [0], .destroy 1,
      .destroy 2] = .error .ub ∧
    run [.create .source, .create .source, .create .passThrough, .connect 2 [0], .destroy 0, .connect 2 [1]] = .error .ub :=
  ⟨rfl, ⟨_, rfl⟩, rfl, rfl⟩

/-- C59, C14.  One more call after a history without a fault: it succeeds exactly if it is safe, and is undefined behaviour
otherwise. -/
theorem C59_step_safe_iff {ops : List Op} {s : Net} (h : run ops = .ok s) (op : Op) :
    ((∃ s', run (ops ++ [op]) = .ok s') ↔ Safe ops op) ∧ (¬ Safe ops op → run (ops ++ [op]) = .error .ub) := by
  have hh := hist_run h
  have e : run (ops ++ [op]) = step s op := by
    unfold run
    rw [runE_append]
    have h0 : runE step init ops = .ok s := h
    rw [h0]
    simp only [runE]
    cases step s op <;> rfl
  have hub : ∀ f, step s op = .error f → f = .ub := fun f hf => step_ub hf
  have key : (∃ s', run (ops ++ [op]) = .ok s') ↔ Safe ops op := by
    cases op with
    | create k => exact ⟨fun _ => trivial, fun _ => ⟨_, e⟩⟩
    | connect x srcs =>
      by_cases ha : Alive ops x
      · cases hk : kindOf ops x with
        | none => exact absurd hk ha.1
        | some k =>
          rw [C59_connect_safe_iff h ha hk]
          simp only [Safe, hk, Option.some.injEq, ne_eq, forall_eq']
          exact ⟨fun h => ⟨ha, h⟩, fun h => h.2⟩
      · constructor
        · rintro ⟨s', hs'⟩
          rw [e] at hs'
          exact absurd ((alive_iff hh x).1 (connect_ok hh.inv hs').aliveX) ha
        · exact fun h => absurd h.1 ha
    | destroy x =>
      by_cases ha : Alive ops x
      · rw [C59_destroy_safe_iff h ha]
        exact ⟨fun h => ⟨ha, h⟩, fun h => h.2⟩
      · constructor
        · rintro ⟨s', hs'⟩
          rw [e] at hs'
          refine absurd ((alive_iff hh x).1 ?_) ha
          simp only [step, Network.destroy] at hs'
          cases hx : (s.objs x).alive with
          | true => rfl
          | false => simp [hx] at hs'
        · exact fun h => absurd h.1 ha
    | output f m =>
      by_cases ha : Alive ops f
      · rw [C14_output_safe_iff h ha]
        exact ⟨fun h => ⟨ha, h⟩, fun h => h.2⟩
      · constructor
        · rintro ⟨s', hs'⟩
          rw [e] at hs'
          refine absurd ((alive_iff hh f).1 ?_) ha
          simp only [step, Network.output] at hs'
          cases hx : (s.objs f).alive with
          | true => rfl
          | false => simp [hx] at hs'
        · exact fun h => absurd h.1 ha
  refine ⟨key, fun hn => ?_⟩
  cases hs : step s op with
  | ok s' => exact absurd (key.1 ⟨s', e.trans hs⟩) hn
  | error f => rw [e, hs, hub f hs]

/-- C59, C14.  A whole history of creating, connecting, destroying and outputting runs without a fault exactly if every call in
it is safe after the calls before it; otherwise it ends in undefined behaviour. -/
theorem C59_history_safe_iff (ops : List Op) :
    ((∃ s, run ops = .ok s) ↔ ∀ pre op post, ops = pre ++ op :: post → Safe pre op) ∧
    ((¬ ∃ s, run ops = .ok s) → run ops = .error .ub) := by
  induction ops using snoc_induction with
  | h0 =>
    refine ⟨⟨fun _ pre op post h => ?_, fun _ => ⟨_, rfl⟩⟩, fun h => absurd ⟨_, rfl⟩ h⟩
    simp at h
  | hs ops op ih =>
    have hsnoc : (∀ pre o post, ops ++ [op] = pre ++ o :: post → Safe pre o) ↔
        (∀ pre o post, ops = pre ++ o :: post → Safe pre o) ∧ Safe ops op := by
      constructor
      · intro h
        exact ⟨fun pre o post ho => h pre o (post ++ [op]) (by rw [ho]; simp), h ops op [] rfl⟩
      · rintro ⟨h1, h2⟩ pre o post ho
        rcases List.eq_nil_or_concat post with rfl | ⟨post', o', rfl⟩
        · obtain ⟨h3, h4⟩ := List.append_inj' ho rfl
          simp only [List.cons.injEq, and_true] at h4
          subst h3 h4
          exact h2
        · rw [List.concat_eq_append] at ho
          have h5 : ops ++ [op] = (pre ++ o :: post') ++ [o'] := by rw [ho]; simp
          exact h1 pre o post' (List.append_inj' h5 rfl).1
    cases hr : run ops with
    | ok s =>
      obtain ⟨h1, h2⟩ := C59_step_safe_iff hr op
      rw [hsnoc]
      have h3 := ih.1.1 ⟨s, hr⟩
      refine ⟨h1.trans ⟨fun h => ⟨h3, h⟩, fun h => h.2⟩, fun h => h2 (fun hs => h (h1.2 hs))⟩
    | error f =>
      have h1 : ¬ ∃ s, run ops = .ok s := by rintro ⟨s, hs⟩; rw [hr] at hs; cases hs
      have h2 := ih.2 h1
      have h3 : run (ops ++ [op]) = .error .ub := by
        unfold run at h2 ⊢
        rw [runE_append, h2]
      refine ⟨⟨?_, fun h => absurd (ih.1.2 (hsnoc.1 h).1) h1⟩, fun _ => h3⟩
      rintro ⟨s, hs⟩
      rw [h3] at hs
      cases hs

/-- Each kind of unsafe call: connecting to a destroyed source, connecting a destroyed filter, too many sources, destroying twice,
output of a destroyed filter. -/
example : run [.create .source, .create .cache, .destroy 0, .connect 1 [0]] = .error .ub ∧
    run [.create .source, .create .cache, .destroy 1, .connect 1 [0]] = .error .ub ∧
    run [.create .source, .create .cache, .connect 1 [0, 0]] = .error .ub ∧
    run [.create .source, .destroy 0, .destroy 0] = .error .ub ∧
    run [.create .source, .destroy 0, .output 0 1] = .error .ub := ⟨rfl, rfl, rfl, rfl, rfl⟩

end MF.Network
