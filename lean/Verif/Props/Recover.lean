import Verif.Proofs.Recover
/-
C111: ApproximateTime after messages were lost because a queue was full.
-/
namespace MF.ApproxSpec

variable {n : Nat}

/-- **C111** (what is passed over).  If anything is passed over at all, then because of an input `e` that has lost a message: its
own messages are all kept, and only first messages of other inputs are passed over that are not newer than its oldest one. -/
theorem C111_skips_only_older [NeZero n] (hn : 2 ≤ n) (F : Fin n → Bool) (d : Fin n → List Ev) : resume F d = d ∨
    ∃ e h tl, F e = true ∧ d e = h :: tl ∧ resume F d e = d e ∧
      ∀ j, ∃ sk, d j = sk ++ resume F d j ∧ ∀ x ∈ sk, x.stamp < h.stamp ∨ (x.stamp = h.stamp ∧ j < e) :=
  resume_skips hn d F

/-- **C111** (when nothing is passed over).  Nothing is passed over if the newest of the first messages is on an input that has
lost nothing. -/
theorem C111_skips_nothing [NeZero n] (F : Fin n → Bool) (d : Fin n → List Ev) (t : Fin n → Ev) (hd : ∀ i, (d i).head? = some (t i))
    (i : Fin n) (hF : F i = false) (hnew : ∀ j, (t j).stamp ≤ (t i).stamp) (hlast : ∀ j, i < j → (t j).stamp < (t i).stamp) :
    resume F d = d := by
  have hf : fronts d = some t := by
    rw [fronts_some (by intro i h0; have := hd i; rw [h0] at this; cases this)]
    congr 1
    funext i
    have := hd i
    cases hdi : d i with
    | nil => rw [hdi] at this; cases this
    | cons x tl => rw [hdi] at this; simpa using this
  have hi : newest t = i := by
    obtain ⟨h1, h2⟩ := newest_spec t
    apply Classical.byContradiction
    intro hne
    rcases Nat.lt_or_gt_of_ne (fun h => hne (Fin.ext h)) with h | h
    · have := h2 i h; have := hnew (newest t); omega
    · have := hlast (newest t) h; have := h1 i; omega
  rw [resume_some hf, hi, hF]
  rfl

end MF.ApproxSpec

namespace MF.Approx
open MF.ApproxSpec (sets resume Spaced)

variable {n : Nat}

/-- **C111** (going on after a loss).  Let message `e` on input `i` make the queue of `i` overflow: with room for one more message
the synchronizer would be in state `t`.  From then on, until the next loss, the sets output are the canonical ones of the
messages held then, without the oldest of input `i`, followed by the later messages, after what is passed over because of the
inputs that have lost messages. -/
theorem C111_goes_on [NeZero n] (fuel : Nat) (cfg : Cfg n)
    (hmono : ∀ x y, x ≤ y → cfg.scale x ≤ cfg.scale y) (hlow : ∀ i, 0 ≤ cfg.lower i)
    (pre : List (Fin n × Ev)) (u : State n) (hu : run fuel cfg pre = .ok u)
    (i : Fin n) (e : Ev) (t : State n) (ht : add fuel (roomier u) i e = .ok t) (hlose : cfg.queueSize < (held t i).length)
    (w : List (Fin n × Ev)) (s : State n) (hs : run fuel cfg (pre ++ [(i, e)] ++ w) = .ok s)
    (hno : LosesNothing fuel cfg (pre ++ [(i, e)]) w)
    (hsp : ∀ j, Spaced (cfg.lower j) (stream (pre ++ [(i, e)] ++ w) j)) :
    ∃ new, s.out = t.out ++ new ∧
      (sets false cfg.scale cfg.maxInterval (resume (upd t.hasDropped i true)
        (fun j => upd (held t) i (held t i).tail j ++ stream w j))).map (fun T j => some (T j)) <+: new ∧
      ∀ fut : Fin n → List Ev, (∀ j, Spaced (cfg.lower j) (stream (pre ++ [(i, e)] ++ w) j ++ fut j)) →
        new <+: (sets true cfg.scale cfg.maxInterval (resume (upd t.hasDropped i true)
          (fun j => upd (held t) i (held t i).tail j ++ (stream w j ++ fut j)))).map (fun T j => some (T j)) := by
  have hc : t.cfg.scale = cfg.scale ∧ t.cfg.maxInterval = cfg.maxInterval := by
    obtain ⟨hi, hcfg, _⟩ := run_facts hu
    obtain ⟨s1, p, hp, hst, rfl⟩ := add_roomier hi ht
    have : p.cfg = cfg := by rw [(psteps_cfg_len (hp.inv hi.loop) hst).1, hp.cfg, hcfg]
    exact ⟨by show p.cfg.scale = _; rw [this], by show p.cfg.maxInterval = _; rw [this]⟩
  have hgo := fun closed => goes_run (closed := closed) hmono hlow hu ht hlose w s hs hno
  have h1 := (hgo true (fun _ => []) (by intro j; rw [List.append_nil]; exact hsp j)).2 rfl
  have h2 := (hgo false (fun _ => []) (by intro j; rw [List.append_nil]; exact hsp j)).1
  rw [frest_nil (run_facts hs).1.someEmpty] at h2
  have h3 : t.out <+: s.out := by
    refine (List.prefix_append _ _).trans (h2.trans ?_)
    show s.out ++ [] <+: _
    rw [List.append_nil]
    exact List.prefix_refl _
  obtain ⟨new, hnew⟩ := h3
  refine ⟨new, hnew.symm, ?_, ?_⟩
  · show lift _ <+: new
    have : s.out ++ lift ([] : List (Fin n → Ev)) = t.out ++ new := by rw [← hnew]; simp [lift]
    rw [this, List.prefix_append_right_inj, hc.1, hc.2] at h2
    unfold remaining at h2
    simpa using h2
  · intro fut hf
    show new <+: lift _
    have h4 := (hgo true fut hf).2 rfl
    rw [← hnew, List.append_assoc] at h4
    have h5 := List.append_cancel_left h4
    rw [hc.1, hc.2] at h5
    unfold remaining at h5
    rw [h5]
    exact List.prefix_append _ _

/-- **C111** (up to the next loss).  The same holds of the sets output by the message that causes the next loss, before it causes
the loss. -/
theorem C111_until_next_loss [NeZero n] (fuel : Nat) (cfg : Cfg n)
    (hmono : ∀ x y, x ≤ y → cfg.scale x ≤ cfg.scale y) (hlow : ∀ i, 0 ≤ cfg.lower i)
    (pre : List (Fin n × Ev)) (u : State n) (hu : run fuel cfg pre = .ok u)
    (i : Fin n) (e : Ev) (t : State n) (ht : add fuel (roomier u) i e = .ok t) (hlose : cfg.queueSize < (held t i).length)
    (w : List (Fin n × Ev)) (v : State n) (hv : run fuel cfg (pre ++ [(i, e)] ++ w) = .ok v)
    (hno : LosesNothing fuel cfg (pre ++ [(i, e)]) w) (i' : Fin n) (e' : Ev) (t' : State n)
    (ht' : add fuel (roomier v) i' e' = .ok t') (fut : Fin n → List Ev)
    (hsp : ∀ j, Spaced (cfg.lower j) (stream (pre ++ [(i, e)] ++ w ++ [(i', e')]) j ++ fut j)) :
    ∃ new, t'.out = t.out ++ new ∧
      new <+: (sets true cfg.scale cfg.maxInterval (resume (upd t.hasDropped i true)
          (fun j => upd (held t) i (held t i).tail j ++ (stream (w ++ [(i', e')]) j ++ fut j)))).map (fun T j => some (T j)) := by
  have hc : t.cfg.scale = cfg.scale ∧ t.cfg.maxInterval = cfg.maxInterval := by
    obtain ⟨hi, hcfg, _⟩ := run_facts hu
    obtain ⟨s1, p, hp, hst, rfl⟩ := add_roomier hi ht
    have : p.cfg = cfg := by rw [(psteps_cfg_len (hp.inv hi.loop) hst).1, hp.cfg, hcfg]
    exact ⟨by show p.cfg.scale = _; rw [this], by show p.cfg.maxInterval = _; rw [this]⟩
  have hgo := fun closed => goes_run (closed := closed) hmono hlow hu ht hlose w v hv hno
  obtain ⟨s1, p, hp, hst, rfl⟩ := add_roomier (run_facts hv).1 ht'
  have h1 := fun closed => goes_push (closed := closed) hmono hlow hv (hgo closed) hp hst
  have h2 := (h1 false (fun _ => []) (by
    intro j
    rw [List.append_nil]
    exact (List.pairwise_append.1 (hsp j)).1)).1
  rw [frest_nil (psteps_inv (hp.inv (run_facts hv).1.loop) hst).2] at h2
  have h3 : t.out <+: p.out := by
    refine (List.prefix_append _ _).trans (h2.trans ?_)
    show p.out ++ [] <+: _
    rw [List.append_nil]
    exact List.prefix_refl _
  obtain ⟨new, hnew⟩ := h3
  refine ⟨new, hnew.symm, ?_⟩
  have h4 := (h1 true fut hsp).2 rfl
  rw [← hnew, List.append_assoc] at h4
  have h5 := List.append_cancel_left h4
  rw [hc.1, hc.2] at h5
  unfold remaining at h5
  show new <+: lift _
  rw [h5]
  exact List.prefix_append _ _

/-- **C111** (only what was held).  If the messages that come after the loss are newer than all those held then, only messages held at
the loss are passed over. -/
theorem C111_ordered [NeZero n] (hn : 2 ≤ n) (fuel : Nat) (cfg : Cfg n)
    (pre : List (Fin n × Ev)) (u : State n) (hu : run fuel cfg pre = .ok u)
    (i : Fin n) (e : Ev) (t : State n) (ht : add fuel (roomier u) i e = .ok t) (hlose : cfg.queueSize < (held t i).length)
    (later : Fin n → List Ev) (hnew : ∀ j k, ∀ x ∈ held t j, ∀ y ∈ later k, x.stamp < y.stamp) (j : Fin n) :
    resume (upd t.hasDropped i true) (fun j => upd (held t) i (held t i).tail j ++ later j) j =
      resume (upd t.hasDropped i true) (upd (held t) i (held t i).tail) j ++ later j := by
  obtain ⟨hi, hcfg, _⟩ := run_facts hu
  obtain ⟨s1, p, hp, hst, rfl⟩ := add_roomier hi ht
  have hf : FlagInv p := psteps_flag hn (hp.inv hi.loop) hst (pushed_flag hp (run_flag hn _ _ hu))
  have hq := hi.qpos
  rw [hcfg] at hq
  have hfd := dropped_flag (i := i) hf (by
    have : (held (roomier p) i).length = (view p i).length := rfl
    omega)
  exact congrFun (ApproxSpec.resume_later hn (upd (held (roomier p)) i (held (roomier p) i).tail)
    (upd (roomier p).hasDropped i true) (fun k hk => hfd k hk) (by
    intro a b x hx
    refine hnew a b x ?_
    by_cases ha : a = i
    · subst ha; rw [upd_same] at hx; exact List.mem_of_mem_tail hx
    · rw [upd_ne _ _ ha] at hx; exact hx)) j

/-- **C111** (starvation).  Two inputs, any queue size, the second input `queue_size` messages ahead and its messages no older than
those of the first that arrive after them: nothing is ever output, although the second input holds, whenever a message of the
first arrives, the message `B (m + 1)` that may have the very same stamp. -/
theorem C111_starvation (fuel : Nat) (cfg : Cfg 2) (A B : Nat → Ev) (hAB : ∀ m, (A m).stamp ≤ (B (m + 1)).stamp) (k : Nat) :
    (∀ s, run fuel cfg (ahead cfg.queueSize A B k) = .ok s → s.out = []) ∧
    (∀ s, run fuel cfg (ahead cfg.queueSize A B k ++ [(1, B (cfg.queueSize + k))]) = .ok s → held s 1 = (List.range' (k + 1) cfg.queueSize).map B) := by
  have main : ∀ k s, run fuel cfg (ahead cfg.queueSize A B k) = .ok s →
      s.deques 0 = [] ∧ s.deques 1 = (List.range' k cfg.queueSize).map B ∧ s.pivot = none ∧ s.out = [] ∧
      ∀ s', add fuel s 1 (B (cfg.queueSize + k)) = .ok s' → Starved s' ((List.range' (k + 1) cfg.queueSize).map B) := by
    have hsec : ∀ k s, run fuel cfg (ahead cfg.queueSize A B k) = .ok s → s.deques 0 = [] →
        s.deques 1 = (List.range' k cfg.queueSize).map B → s.pivot = none → s.out = [] →
        ∀ s', add fuel s 1 (B (cfg.queueSize + k)) = .ok s' → Starved s' ((List.range' (k + 1) cfg.queueSize).map B) := by
      intro k s h g1 g2 g3 g4 s' hs'
      obtain ⟨hi, hcfg, _⟩ := run_facts h
      obtain ⟨q, hq⟩ : ∃ q, cfg.queueSize = q + 1 := ⟨cfg.queueSize - 1, by have := hi.qpos; rw [hcfg] at this; omega⟩
      rw [hq, List.range'_succ, List.map_cons] at g2
      have := starve_second (B (cfg.queueSize + k)) hi g1 g2 g3 g4 (by rw [hcfg, hq]; simp) hs'
      have e1 : List.map B (List.range' (k + 1) q) ++ [B (cfg.queueSize + k)] = (List.range' (k + 1) cfg.queueSize).map B := by
        rw [hq, List.range'_concat, List.map_append]
        simp
        congr 1
        omega
      rw [e1] at this
      exact this
    intro k
    induction k with
    | zero =>
      intro s h
      obtain ⟨g1, g2, g3, g4⟩ := starve_fill B cfg.queueSize s (Nat.le_refl _) h
      rw [List.range_eq_range'] at g2
      exact ⟨g1, g2, g3, g4, hsec 0 s h g1 g2 g3 g4⟩
    | succ k ih =>
      intro s h
      have h0 := h
      unfold ahead at h
      rw [show ahead cfg.queueSize A B k ++ [(1, B (cfg.queueSize + k)), (0, A k)] =
        (ahead cfg.queueSize A B k ++ [(1, B (cfg.queueSize + k))]) ++ [(0, A k)] by simp] at h
      obtain ⟨s2, h2, hadd2⟩ := run_snoc_ok h
      obtain ⟨s1, h1, hadd1⟩ := run_snoc_ok h2
      obtain ⟨_, _, _, _, g⟩ := ih s1 h1
      have hst := g s2 hadd1
      obtain ⟨hi, hcfg, _⟩ := run_facts h2
      obtain ⟨q, hq⟩ : ∃ q, cfg.queueSize = q + 1 := ⟨cfg.queueSize - 1, by have := hi.qpos; rw [hcfg] at this; omega⟩
      rw [hq, List.range'_succ, List.map_cons] at hst
      have hst' := starve_first hi hst (hAB k) hadd2
      rw [← List.map_cons, ← List.range'_succ, ← hq] at hst'
      exact ⟨hst'.first, hst'.second, hst'.noPivot, hst'.out, hsec (k + 1) s h0 hst'.first hst'.second hst'.noPivot hst'.out⟩
  refine ⟨fun s h => (main k s h).2.2.2.1, fun s h => ?_⟩
  obtain ⟨s1, h1, hadd⟩ := run_snoc_ok h
  obtain ⟨_, _, _, _, g⟩ := main k s1 h1
  have := g s hadd
  unfold held
  rw [(run_facts h).1.loop.noPivot this.noPivot, this.second]
  rfl

/-! ### The hypotheses can be met -/

def recCfg (q : Nat) : Cfg 2 := ⟨q, 1000, fun x => (x * 11).tdiv 10, fun _ => 0⟩

/-- Simultaneous stamps, the second input one message ahead: with `queue_size` 1 nothing is output, as proved for every number of
rounds; with `queue_size` 2 every round is; and if the roles of the inputs are exchanged, `queue_size` 1 is enough. -/
example : (∀ m, ((fun m : Nat => (⟨m, 100 * (m + 1)⟩ : Ev)) m).stamp ≤ ((fun m : Nat => (⟨m + 100, 100 * m⟩ : Ev)) (m + 1)).stamp) ∧
    (run 200 (recCfg 1) (ahead 1 (fun m => ⟨m, 100 * (m + 1)⟩) (fun m => ⟨m + 100, 100 * m⟩) 4)).toOption.map (·.out.length) = some 0 ∧
    (run 200 (recCfg 2) (ahead 1 (fun m => ⟨m, 100 * (m + 1)⟩) (fun m => ⟨m + 100, 100 * m⟩) 4)).toOption.map (·.out.map List.ofFn) =
      some [[some ⟨0, 100⟩, some ⟨101, 100⟩], [some ⟨1, 200⟩, some ⟨102, 200⟩], [some ⟨2, 300⟩, some ⟨103, 300⟩],
        [some ⟨3, 400⟩, some ⟨104, 400⟩]] ∧
    (run 200 (recCfg 1) ((ahead 1 (fun m => ⟨m, 100 * (m + 1)⟩) (fun m => ⟨m + 100, 100 * m⟩) 4).map (fun op => (1 - op.1, op.2)))).toOption.map
      (·.out.length) = some 4 := by
  refine ⟨fun m => ?_, by decide +kernel, by decide +kernel, by decide +kernel⟩
  show (100 * ((m : Int) + 1)) ≤ 100 * ((m + 1 : Nat) : Int)
  omega

def recPre : List (Fin 2 × Ev) := [(1, ⟨0, 0⟩), (1, ⟨1, 100⟩)]

def recLater : List (Fin 2 × Ev) := [(0, ⟨3, 90⟩), (0, ⟨4, 150⟩), (1, ⟨5, 310⟩), (0, ⟨6, 300⟩)]

/-- The third message of the second input overflows its queue of two.  The message of stamp 90 is then passed over although it
lies next to that of stamp 100; the two sets after it are output. -/
example : ∃ u t s, run 200 (recCfg 2) recPre = .ok u ∧ add 200 (roomier u) 1 ⟨2, 200⟩ = .ok t ∧ (recCfg 2).queueSize < (held t 1).length ∧
    run 200 (recCfg 2) (recPre ++ [(1, ⟨2, 200⟩)] ++ recLater) = .ok s ∧
    LosesNothing 200 (recCfg 2) (recPre ++ [(1, ⟨2, 200⟩)]) recLater ∧
    (∀ j, Spaced ((recCfg 2).lower j) (stream (recPre ++ [(1, ⟨2, 200⟩)] ++ recLater) j)) ∧
    List.ofFn (resume (upd t.hasDropped 1 true) (fun j => upd (held t) 1 (held t 1).tail j ++ stream recLater j)) =
      [[⟨4, 150⟩, ⟨6, 300⟩], [⟨1, 100⟩, ⟨2, 200⟩, ⟨5, 310⟩]] ∧
    s.out.map List.ofFn = [[some ⟨4, 150⟩, some ⟨1, 100⟩], [some ⟨6, 300⟩, some ⟨5, 310⟩]] := by
  refine ⟨_, _, _, rfl, rfl, by decide +kernel, rfl, losesNothing_of_check (by decide +kernel), ?_, by decide +kernel, by decide +kernel⟩
  unfold Spaced
  decide +kernel

/-- Two losses in a row, the second after a set was output. -/
example : ∃ u t v t', run 200 (recCfg 2) recPre = .ok u ∧ add 200 (roomier u) 1 ⟨2, 200⟩ = .ok t ∧
    run 200 (recCfg 2) (recPre ++ [(1, ⟨2, 200⟩)] ++ [(0, ⟨4, 150⟩), (1, ⟨5, 310⟩)]) = .ok v ∧
    add 200 (roomier v) 1 ⟨6, 320⟩ = .ok t' ∧ (recCfg 2).queueSize < (held t' 1).length ∧ t'.out.length = 1 := by
  exact ⟨_, _, _, _, rfl, rfl, rfl, rfl, by decide +kernel, by decide +kernel⟩

/-- What comes after the loss is newer than what is held. -/
example : ∃ u t, run 200 (recCfg 2) recPre = .ok u ∧ add 200 (roomier u) 1 ⟨2, 200⟩ = .ok t ∧
    (∀ j k, ∀ x ∈ held t j, ∀ y ∈ stream [((0 : Fin 2), (⟨4, 250⟩ : Ev)), (1, ⟨5, 310⟩)] k, x.stamp < y.stamp) ∧
    resume (upd t.hasDropped 1 true) (upd (held t) 1 (held t 1).tail) 1 = [⟨1, 100⟩, ⟨2, 200⟩] := by
  exact ⟨_, _, rfl, rfl, by decide +kernel, by decide +kernel⟩

end MF.Approx
