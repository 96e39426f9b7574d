import Verif.Proofs.Headerless
import Verif.Proofs.HeaderlessAligner
import Verif.Props.Cache
import Verif.Props.Sequencer
import Verif.Props.Latest
/-
C113: messages without a header.
-/
namespace MF.Traits

/-- **C113** (the stamp).  Every message of a type without a header counts as sent at time 0, in ROS time. -/
theorem C113_stamp (m : Msg) (h : hasHeader m = false) : timeStamp m = { ns := 0, source := .ros } := by
  unfold hasHeader at h
  unfold timeStamp
  cases hm : m.header with
  | none => rfl
  | some h' => rw [hm] at h; cases h

example : timeStamp ⟨3, none⟩ = ⟨0, .ros⟩ ∧ timeStamp ⟨3, some ⟨7, "map"⟩⟩ = ⟨7, .ros⟩ := by decide

theorem stamp_of_deliveries {n : Nat} {msgs : List (Fin n × Msg)} (h : Headerless.NoHeaders msgs) :
    ∀ op ∈ deliveries msgs, op.2.stamp = 0 := by
  intro op hop
  obtain ⟨o, ho, rfl⟩ := List.mem_map.1 hop
  show (timeStamp o.2).ns = 0
  rw [C113_stamp _ (h o ho)]

/-- Two inputs without headers: two messages on the first, one on the second, one on the first, two on the second. -/
def plain : List (Fin 2 × Msg) :=
  [(0, ⟨1, none⟩), (0, ⟨2, none⟩), (1, ⟨3, none⟩), (0, ⟨4, none⟩), (1, ⟨5, none⟩), (1, ⟨6, none⟩)]

theorem plain_noHeaders : Headerless.NoHeaders plain := by unfold Headerless.NoHeaders; decide

/-- One input without headers, one with. -/
def half : List (Fin 2 × Msg) := [(0, ⟨1, none⟩), (1, ⟨2, some ⟨1000, "map"⟩⟩), (0, ⟨3, none⟩), (1, ⟨4, some ⟨2000, "map"⟩⟩)]

end MF.Traits

namespace MF.ExactTime
open MF.Traits (deliveries)
open MF.Headerless (NoHeaders collect)

variable {n : Nat}

/-- **C113** (ExactTime).  If no message has a header, a set is output whenever every input has delivered since the set before; it
holds the newest message of each input.  The queue size makes no difference. -/
theorem C113_exact [NeZero n] (q : Nat) (msgs : List (Fin n × Traits.Msg)) (hno : NoHeaders msgs) (s : State n)
    (h : run (construct n q) (deliveries msgs) = .ok s) : outs s.log = collect (fun _ => none) (deliveries msgs) := by
  have := run_same (T := 0) (deliveries msgs) (construct n q) s (fun _ => none) (Or.inl ⟨rfl, rfl⟩) (fun j x hx => by cases hx)
    (Traits.stamp_of_deliveries hno) h
  exact this

example : NoHeaders Traits.plain ∧ ∃ s, run (construct 2 1) (deliveries Traits.plain) = .ok s ∧
    (outs s.log).map (fun t => List.ofFn (fun i => (t i).map (·.id))) = [[some 2, some 3], [some 4, some 5]] :=
  ⟨Traits.plain_noHeaders, _, rfl, by decide⟩

/-- **C113** (ExactTime, mixed).  If one input has no header and the stamps on another are never 0, nothing is ever output. -/
theorem C113_exact_mixed [NeZero n] (q : Nat) (msgs : List (Fin n × Traits.Msg)) (i j : Fin n)
    (hi : ∀ m, (i, m) ∈ msgs → Traits.hasHeader m = false) (hj : ∀ m, (j, m) ∈ msgs → (Traits.timeStamp m).ns ≠ 0) (s : State n)
    (h : run (construct n q) (deliveries msgs) = .ok s) : outs s.log = [] := by
  rw [List.eq_nil_iff_forall_not_mem]
  intro t ht
  obtain ⟨T, hT⟩ := C15_outputs_complete_equal_stamps q _ s h t ht
  obtain ⟨x, _, hx, hxT⟩ := hT i
  obtain ⟨y, _, hy, hyT⟩ := hT j
  obtain ⟨o, ho, hox⟩ := List.mem_map.1 hx
  obtain ⟨o', ho', hoy⟩ := List.mem_map.1 hy
  cases hox
  cases hoy
  have h1 : (Traits.timeStamp o.2).ns = 0 := by rw [Traits.C113_stamp _ (hi o.2 ho)]
  exact hj o'.2 ho' (show (Traits.event o'.2).stamp = 0 by rw [hyT, ← hxT]; exact h1)

example : ∃ s, run (construct 2 5) (deliveries Traits.half) = .ok s ∧ (∀ m, (0, m) ∈ Traits.half → Traits.hasHeader m = false) ∧
    (∀ m, (1, m) ∈ Traits.half → (Traits.timeStamp m).ns ≠ 0) ∧ s.tuples.length = 3 := by
  refine ⟨_, rfl, ?_, ?_, by decide⟩
  · intro m hm; simp [Traits.half] at hm; rcases hm with rfl | rfl <;> rfl
  · intro m hm; simp [Traits.half] at hm; rcases hm with rfl | rfl <;> decide

end MF.ExactTime

namespace MF.Epsilon
open MF.Traits (deliveries)
open MF.Headerless (NoHeaders OneByOne InStepUpTo)

variable {n : Nat}

/-- **C113** (ApproximateEpsilonTime).  If no message has a header and no input is ever more than the queue size ahead of another,
the inputs are put together message by message, and nothing is kept back. -/
theorem C113_epsilon [NeZero n] (fuel q : Nat) (eps : Int) (heps : 0 ≤ eps) (msgs : List (Fin n × Traits.Msg)) (hno : NoHeaders msgs)
    (hq : InStepUpTo q (deliveries msgs)) (s : State n) (h : run fuel (construct n q eps) (deliveries msgs) = .ok s) :
    OneByOne (stream (deliveries msgs)) s.out :=
  (run_same heps (show (0 : Int) < maxTime by decide) _ s h (Traits.stamp_of_deliveries hno) hq).oneByOne (run_inv h).1.someEmpty

theorem plain_inStep : InStepUpTo 2 (deliveries Traits.plain) := by
  intro pre hp i j
  have h1 : ∀ k ∈ List.range 7, ∀ i j : Fin 2, (stream ((deliveries Traits.plain).take k) i).length ≤
      (stream ((deliveries Traits.plain).take k) j).length + 2 := by decide
  have h2 := List.prefix_iff_eq_take.1 hp
  have h3 := hp.length_le
  rw [h2]
  exact h1 _ (List.mem_range.2 (by have : (deliveries Traits.plain).length = 6 := rfl; omega)) i j

example : InStepUpTo 2 (deliveries Traits.plain) ∧ ∃ s, run 20 (construct 2 2 0) (deliveries Traits.plain) = .ok s ∧
    s.out.map (fun t => List.ofFn (fun i => (t i).map (·.id))) = [[some 1, some 3], [some 2, some 5], [some 4, some 6]] :=
  ⟨plain_inStep, _, rfl, by decide⟩

/-- **C113** (ApproximateEpsilonTime, mixed).  If one input has no header and all stamps on another are further than epsilon from 0,
nothing is ever output. -/
theorem C113_epsilon_mixed [NeZero n] (fuel q : Nat) (eps : Int) (msgs : List (Fin n × Traits.Msg)) (i j : Fin n) (hij : i ≠ j)
    (hi : ∀ m, (i, m) ∈ msgs → Traits.hasHeader m = false) (hj : ∀ m, (j, m) ∈ msgs → eps < (Traits.timeStamp m).ns) (s : State n)
    (h : run fuel (construct n q eps) (deliveries msgs) = .ok s) : s.out = [] := by
  rw [List.eq_nil_iff_forall_not_mem]
  intro t ht
  obtain ⟨h1, h2⟩ := C21_sets_within_epsilon fuel q eps _ s h t ht
  obtain ⟨x, hx, hxm⟩ := h1 i
  obtain ⟨y, hy, hym⟩ := h1 j
  have h3 := h2 j i y x (Ne.symm hij) hy hx
  obtain ⟨o, ho, hox⟩ := List.mem_map.1 hxm
  obtain ⟨o', ho', hoy⟩ := List.mem_map.1 hym
  cases hox
  cases hoy
  have h4 : (Traits.timeStamp o.2).ns = 0 := by rw [Traits.C113_stamp _ (hi o.2 ho)]
  have h5 := hj o'.2 ho'
  have h3 : (Traits.timeStamp o'.2).ns - (Traits.timeStamp o.2).ns ≤ eps := h3
  omega

example : ∃ s, run 20 (construct 2 5 999) (deliveries Traits.half) = .ok s ∧ (∀ m, (0, m) ∈ Traits.half → Traits.hasHeader m = false) ∧
    (∀ m, (1, m) ∈ Traits.half → 999 < (Traits.timeStamp m).ns) := by
  refine ⟨_, rfl, ?_, ?_⟩
  · intro m hm; simp [Traits.half] at hm; rcases hm with rfl | rfl <;> rfl
  · intro m hm; simp [Traits.half] at hm; rcases hm with rfl | rfl <;> decide

end MF.Epsilon

namespace MF.Approx
open MF.Traits (deliveries)
open MF.Headerless (NoHeaders OneByOne InStepUpTo)

variable {n : Nat}

/-- **C113** (ApproximateTime).  The same, whatever the lower bounds and the maximum interval, for every age penalty of at least 0. -/
theorem C113_approximate [NeZero n] (fuel : Nat) (cfg : Cfg n) (hM : 0 ≤ cfg.maxInterval) (hf : ∀ x, 0 ≤ x → x ≤ cfg.scale x)
    (msgs : List (Fin n × Traits.Msg)) (hno : NoHeaders msgs) (hq : InStepUpTo cfg.queueSize (deliveries msgs)) (s : State n)
    (h : run fuel cfg (deliveries msgs) = .ok s) : OneByOne (stream (deliveries msgs)) s.out :=
  (run_same hM (hf 0 (Int.le_refl 0)) _ s h (Traits.stamp_of_deliveries hno) hq).2.oneByOne (run_facts h).1.someEmpty

example : ∃ s, run 50 { queueSize := 2, scale := fun x => x + x / 10, lower := fun _ => 5, maxInterval := 0 } (deliveries Traits.plain)
      = .ok s ∧
    s.out.map (fun t => List.ofFn (fun i => (t i).map (·.id))) = [[some 1, some 3], [some 2, some 5], [some 4, some 6]] :=
  ⟨_, rfl, by decide⟩

end MF.Approx

namespace MF.Cache

/-- **C113** (Cache).  A cache of messages without a header holds the last ones in the order of their arrival; an interval that contains
the time 0 gives all of them, any other none. -/
theorem C113_cache (n : Nat) (hn : 0 < n) (msgs : List Traits.Msg) (hno : ∀ m ∈ msgs, Traits.hasHeader m = false) (s : State)
    (h : run (construct n) (msgs.map (fun m => .add (Traits.event m))) = .ok s) :
    s.items = (msgs.drop (msgs.length - n)).map Traits.event ∧
    ∀ a b, getInterval s a b = if a ≤ 0 ∧ 0 ≤ b then s.items else [] := by
  have hz : ∀ e ∈ msgs.map Traits.event, e.stamp = 0 := by
    intro e he
    obtain ⟨m, hm, rfl⟩ := List.mem_map.1 he
    show (Traits.timeStamp m).ns = 0
    rw [Traits.C113_stamp m (hno m hm)]
  have hmap : msgs.map (fun m => Op.add (Traits.event m)) = (msgs.map Traits.event).map .add := by simp
  rw [hmap] at h
  have h1 := C03_most_recent_partial n hn (msgs.map Traits.event)
    (List.pairwise_of_forall_mem_list (fun a ha b hb => by rw [hz a ha, hz b hb]; exact Int.le_refl _)) s h
  have h2 : s.items = (msgs.drop (msgs.length - n)).map Traits.event := by rw [h1]; simp
  refine ⟨h2, fun a b => ?_⟩
  rw [C04_getInterval n hn _ s h a b]
  have hz' : ∀ e ∈ s.items, e.stamp = 0 := fun e he => hz e (by rw [h1] at he; exact List.drop_subset _ _ he)
  by_cases hab : a ≤ 0 ∧ 0 ≤ b
  · rw [if_pos hab, List.filter_eq_self]
    intro e he
    rw [hz' e he]; exact decide_eq_true hab
  · rw [if_neg hab, List.filter_eq_nil_iff]
    intro e he
    rw [hz' e he]; simpa using hab

example : ∃ s, run (construct 2) ([⟨7, none⟩, ⟨5, none⟩, ⟨6, none⟩].map (fun m => .add (Traits.event m))) = .ok s ∧
    (getInterval s 0 3).map (·.id) = [5, 6] := ⟨_, rfl, by decide⟩

end MF.Cache

namespace MF.Sequencer

/-- **C113** (TimeSequencer).  Every `add` of a message without a header throws, and a sequencer that receives nothing else never
outputs anything. -/
theorem C113_sequencer (delay : Int) (queueSize : Nat) (ops : List Op) (m : Traits.Msg) :
    add (run delay queueSize ops) (Traits.sequenced m) = .error .threw ∧
    ((∀ x, Op.add x ∈ ops → ∃ m, Traits.hasHeader m = false ∧ x = Traits.sequenced m) → (run delay queueSize ops).out = []) := by
  have hsrc : ∀ m, (Traits.sequenced m).source = .ros := by
    intro m
    unfold Traits.sequenced Traits.timeStamp
    cases m.header <;> rfl
  constructor
  · have := C47_header_message_throws delay queueSize ops (Traits.event m)
    rw [← hsrc m] at this
    exact this
  · intro hops
    refine (C47_header_messages_never_output delay queueSize ops (fun x hx => ?_)).1
    obtain ⟨m, _, rfl⟩ := hops x hx
    exact hsrc m

example : (run 5 0 [.add (Traits.sequenced ⟨1, none⟩), .tick (fun _ => 1000)]).out = [] ∧
    (run 5 0 [.add ⟨⟨1, 0⟩, .system⟩, .tick (fun _ => 1000)]).out = [⟨1, 0⟩] := by decide

end MF.Sequencer

namespace MF.Aligner

variable {n : Nat}

theorem run_still {timeout : Int} (ht : 0 < timeout) {per : Fin n → Int} (hp : ∀ i, 0 ≤ per i) {fuel : Nat} : ∀ (ops : List (Op n))
    (s s' : State n) (L : Fin n → List Ev), (∀ op ∈ ops, HeaderlessOp op) → Still timeout per L s →
    runE (step fuel) s ops = .ok s' → Still timeout per (fun i => L i ++ stream (adds ops) i) s' ∧
      (per = (fun _ => 0) → Descending s → Descending s') := by
  intro ops
  induction ops with
  | nil =>
    intro s s' L _ hs h
    simp only [runE, Except.ok.injEq] at h
    subst h
    exact ⟨by simpa [adds, stream] using hs, fun _ h => h⟩
  | cons op ops ih =>
    intro s s' L hall hs h
    simp only [runE] at h
    have hop := hall op (by simp)
    have hall' : ∀ op ∈ ops, HeaderlessOp op := fun o ho => hall o (by simp [ho])
    cases op with
    | add i e =>
      simp only [step] at h
      have he := OfNoHeader.stamp hop
      obtain ⟨h1, h2⟩ := ih _ s' _ hall' (add_still (i := i) hs he) h
      have hL : (fun j => upd L i (L i ++ [e]) j ++ stream (adds ops) j) = fun j => L j ++ stream (adds (.add i e :: ops)) j := by
        funext j
        have : adds (Op.add i e :: ops) = (i, e) :: adds ops := rfl
        rw [this, stream_cons]
        by_cases hj : j = i
        · subst hj; simp
        · rw [upd_ne _ _ hj, if_neg (Ne.symm hj)]; simp
      rw [hL] at h1
      refine ⟨h1, fun hper hd => h2 hper ?_⟩
      rcases add_eq s i e with ⟨g1, _⟩ | ⟨_, g2⟩
      · rw [hs.lastOut] at g1; omega
      rw [g2]
      refine ⟨hd.order, fun m hm => ?_⟩
      have := hd.active m hm
      by_cases hj : m.1 = i
      · show Queue.active (upd _ i _ m.1) = true
        rw [hj, upd_same]; rw [hj] at this; exact this
      · rw [queued_ne s i e hj]; exact this
    | setPeriod i d => exact absurd hop (by simp [HeaderlessOp])
    | dispatch =>
      cases hd : dispatch fuel s with
      | error f => simp only [step, hd] at h; cases h
      | ok s1 =>
        simp only [step, hd] at h
        obtain ⟨h1, h2⟩ := ih s1 s' _ hall' (dispatch_still ht hp hd hs) h
        refine ⟨h1, fun hper hdesc => h2 hper ?_⟩
        subst hper
        exact dispatch_descending ht hd hs hdesc

theorem construct_still (timeout : Int) : Still timeout (fun _ => 0) (fun _ => []) (construct n timeout) :=
  ⟨rfl, rfl, rfl, fun i e he => by simp [construct, Queue.init] at he, fun _ => rfl,
    fun i ha => by simp [construct, Queue.init] at ha, fun i => by simp [construct, stream, Queue.init], fun _ => rfl⟩

/-- **C113** (InputAligner starves).  Without periods set and with a positive timeout: once a message of some input without a header has
been output, no message of an input after it is output any more, however many arrive; all of them stay in the aligner. -/
theorem C113_aligner_starves (fuel : Nat) (timeout : Int) (ht : 0 < timeout) (ops : List (Op n)) (hops : ∀ op ∈ ops, HeaderlessOp op)
    (s : State n) (h : run fuel timeout ops = .ok s) :
    s.out.Pairwise (fun a b => b.1 ≤ a.1) ∧ ∀ i, stream s.out i ++ (s.queues i).items = stream (adds ops) i := by
  obtain ⟨h1, h2⟩ := run_still ht (per := fun _ => 0) (fun _ => Int.le_refl _) ops _ s _ hops (construct_still timeout) h
  exact ⟨(h2 rfl ⟨List.Pairwise.nil, fun m hm => by simp [construct] at hm⟩).order, fun i => by simpa using h1.all i⟩

example : ∃ s, run 50 1000 ([.add 1 ⟨1, 0⟩, .dispatch, .add 0 ⟨2, 0⟩, .dispatch, .add 1 ⟨3, 0⟩, .dispatch, .add 0 ⟨4, 0⟩, .add 1 ⟨5, 0⟩, .dispatch] :
      List (Op 2)) = .ok s ∧ s.out.map (·.2.id) = [1, 2, 4] ∧ (s.queues 1).items.map (·.id) = [3, 5] := ⟨_, rfl, by decide, by decide⟩

example : OfNoHeader ⟨4, 0⟩ := ⟨⟨4, none⟩, rfl, rfl⟩

/-- **C113** (InputAligner with periods).  With a positive period for every input, every dispatch outputs all messages that have arrived;
each input's messages come out in the order of their arrival. -/
theorem C113_aligner_passes (fuel : Nat) (timeout : Int) (ht : 0 < timeout) (per : Fin n → Int) (hp : ∀ i, 0 < per i) (ops : List (Op n))
    (hops : ∀ op ∈ ops, HeaderlessOp op) (s : State n)
    (h : run fuel timeout ((List.finRange n).map (fun i => Op.setPeriod i (per i)) ++ ops ++ [.dispatch]) = .ok s) (i : Fin n) :
    stream s.out i = stream (adds ops) i ∧ getQueueStatus s i = ⟨(s.queues i).active, 0, (s.queues i).processed, 0⟩ := by
  have hp' : ∀ i, 0 ≤ per i := fun i => by have := hp i; omega
  obtain ⟨s1, h1, h2⟩ := runE_snoc_ok h
  rw [runE_append] at h1
  have hset : ∀ (l : List (Fin n)) (s0 : State n) (p0 : Fin n → Int), Still timeout p0 (fun _ => []) s0 → (∀ i, (s0.queues i).active = false) →
      ∃ s', runE (step fuel) s0 (l.map (fun i => Op.setPeriod i (per i))) = .ok s' ∧ (∀ i, (s'.queues i).active = false) ∧
        Still timeout (fun i => if i ∈ l then per i else p0 i) (fun _ => []) s' := by
    intro l
    induction l with
    | nil => intro s0 p0 hs ha; exact ⟨s0, rfl, ha, by simpa using hs⟩
    | cons a l ih =>
      intro s0 p0 hs ha
      have ha' : ∀ i, ((setInputPeriod s0 a (per a)).queues i).active = false := by
        intro i
        unfold setInputPeriod
        by_cases hi : i = a
        · subst hi; simp only [upd_same]; exact ha i
        · simp only [upd_ne _ _ hi]; exact ha i
      have hs' : Still timeout (upd p0 a (per a)) (fun _ => []) (setInputPeriod s0 a (per a)) := by
        refine ⟨hs.timeout, hs.lastIn, hs.lastOut, fun i => ?_, fun i => ?_, fun i hi => ?_, fun i => ?_, fun i => ?_⟩
        · rw [period_items]; exact hs.zero i
        · by_cases hi : i = a
          · subst hi; simp [setInputPeriod]
          · simp only [setInputPeriod, upd_ne _ _ hi]; exact hs.period i
        · rw [ha' i] at hi; cases hi
        · rw [period_items]; exact hs.all i
        · by_cases hi : i = a
          · subst hi; simp only [setInputPeriod, upd_same]; exact hs.dropped i
          · simp only [setInputPeriod, upd_ne _ _ hi]; exact hs.dropped i
      obtain ⟨s', g1, g2, g3⟩ := ih _ _ hs' ha'
      refine ⟨s', g1, g2, ?_⟩
      have : (fun i => if i ∈ l then per i else upd p0 a (per a) i) = fun i => if i ∈ a :: l then per i else p0 i := by
        funext i
        by_cases hi : i ∈ l
        · simp [hi]
        · by_cases hia : i = a
          · subst hia; simp [hi]
          · simp [hi, hia, upd_ne _ _ hia]
      rw [this] at g3
      exact g3
  obtain ⟨s0, g1, _, g3⟩ := hset (List.finRange n) _ _ (construct_still timeout) (fun _ => rfl)
  rw [g1] at h1
  have hper : (fun i => if i ∈ List.finRange n then per i else 0) = per := by funext i; simp
  rw [hper] at g3
  have h3 := (run_still ht hp' ops s0 s1 _ hops g3 h1).1
  have h2 : dispatch fuel s1 = .ok s := h2
  have h4 := dispatch_still ht hp' h2 h3
  have h5 := dispatch_empties ht hp h2 h3 i
  have h6 := h4.all i
  rw [h5] at h6
  refine ⟨by simpa using h6, ?_⟩
  unfold getQueueStatus
  rw [h5, h4.dropped i]
  rfl

example : ∃ s, run 50 1000 ((List.finRange 2).map (fun i => Op.setPeriod i 1) ++ [.add 1 ⟨1, 0⟩, .dispatch, .add 0 ⟨2, 0⟩, .dispatch, .add 1 ⟨3, 0⟩]
      ++ [.dispatch] : List (Op 2)) = .ok s ∧ s.out.map (·.2.id) = [1, 2, 3] := ⟨_, rfl, by decide⟩

end MF.Aligner

namespace MF.Latest

variable {n : Nat} {D : Type} [Arith D]

/-- **C113** (LatestTime).  LatestTime never looks at the messages: with other messages in their place, whatever their stamps, it does
the same with them. -/
theorem C113_latest (g : Ev → Ev) (dflt : Config D) (configs : List (Config D)) (ops : List (Op n)) :
    run dflt (setRateConfigPerMessage (construct n D) configs) (ops.map (fun o => { o with msg := g o.msg })) =
      (run dflt (setRateConfigPerMessage (construct n D) configs) ops).map (relabel g) :=
  run_relabel g dflt ops (setRateConfigPerMessage (construct n D) configs)

end MF.Latest
