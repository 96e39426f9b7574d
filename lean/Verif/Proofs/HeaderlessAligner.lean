import Verif.Spec.Headerless
import Verif.Proofs.AlignerMerge
/-
Helper lemmas about an InputAligner whose messages all have the stamp 0, and about LatestTime with other messages.
-/
namespace MF.Aligner

variable {n : Nat}

theorem OfNoHeader.stamp {e : Ev} (h : OfNoHeader e) : e.stamp = 0 := by
  obtain ⟨m, h1, rfl⟩ := h
  unfold Traits.hasHeader at h1
  unfold Traits.event Traits.timeStamp
  cases hm : m.header with
  | none => rfl
  | some h => rw [hm] at h1; cases h1

/-- Everything is at time 0. -/
structure Still (timeout : Int) (per : Fin n → Int) (L : Fin n → List Ev) (s : State n) : Prop where
  timeout : s.timeout = timeout
  lastIn : s.lastIn = 0
  lastOut : s.lastOut = 0
  zero : ∀ i, ∀ e ∈ (s.queues i).items, e.stamp = 0
  period : ∀ i, (s.queues i).period = per i
  next : ∀ i, (s.queues i).active = true → (s.queues i).next = per i
  all : ∀ i, stream s.out i ++ (s.queues i).items = L i
  dropped : ∀ i, (s.queues i).dropped = 0

theorem Still.ts_ge {timeout : Int} {per : Fin n → Int} {L : Fin n → List Ev} {s : State n} (h : Still timeout per L s)
    (hp : ∀ i, 0 ≤ per i) (i : Fin n) : 0 ≤ ts s i := by
  cases hq : (s.queues i).items with
  | cons e l => rw [ts_cons hq, h.zero i e (by rw [hq]; simp)]; exact Int.le_refl _
  | nil =>
    rw [ts_nil hq]
    split
    · rename_i ha; rw [h.next i ha]; exact hp i
    · decide

theorem Still.ts_empty {timeout : Int} {per : Fin n → Int} {L : Fin n → List Ev} {s : State n} (h : Still timeout per L s)
    (hp : ∀ i, 0 < per i) {i : Fin n} (hq : (s.queues i).items = []) : 0 < ts s i := by
  rw [ts_nil hq]
  split
  · rename_i ha; rw [h.next i ha]; exact hp i
  · decide

theorem Still.stamped {timeout : Int} {per : Fin n → Int} {L : Fin n → List Ev} {s : State n} (h : Still timeout per L s) :
    Still timeout per L (stamped s) := by
  refine ⟨h.timeout, h.lastIn, h.lastOut, fun i => ?_, fun i => ?_, fun i => ?_, fun i => ?_, fun i => ?_⟩
  · rw [stamped_items]; exact h.zero i
  · exact (first_counts _).2.2.trans (h.period i)
  · show (s.queues i).firstTimeStamp.1.active = true → (s.queues i).firstTimeStamp.1.next = per i
    cases hq : (s.queues i).items with
    | nil => rw [first_nil hq]; exact h.next i
    | cons e l =>
      rw [first_cons hq]
      intro _
      show e.stamp + (s.queues i).period = per i
      rw [h.zero i e (by rw [hq]; simp), h.period i]; omega
  · rw [stamped_items]; exact h.all i
  · exact (first_counts _).2.1.trans (h.dropped i)

theorem turn_still {timeout : Int} (ht : 0 < timeout) {per : Fin n → Int} (hp : ∀ i, 0 ≤ per i) {L : Fin n → List Ev} {s s' : State n}
    {b : Bool} (h : Turn s s' b) (hs : Still timeout per L s) : Still timeout per L s' := by
  cases h with
  | send i e l h hmin =>
    have h1 := hs.stamped
    have he : e.stamp = 0 := hs.zero i e (by rw [h]; simp)
    refine ⟨h1.timeout, h1.lastIn, he, fun j => ?_, fun j => ?_, fun j => ?_, fun j => ?_, fun j => ?_⟩
    · intro x hx
      obtain ⟨q, hq, _⟩ := sent_items s i e l h j
      exact hs.zero j x (by rw [hq]; simp [hx])
    all_goals by_cases hj : j = i
    · subst hj; simp only [sent, upd_same]; exact h1.period j
    · simp only [sent, upd_ne _ _ hj]; exact h1.period j
    · subst hj; simp only [sent, upd_same]; exact h1.next j
    · simp only [sent, upd_ne _ _ hj]; exact h1.next j
    · subst hj
      have := hs.all j
      rw [h] at this
      show stream (s.out ++ [(j, e)]) j ++ _ = _
      rw [stream_snoc, if_pos rfl]
      simp only [sent, upd_same]
      rw [List.append_assoc]; exact this
    · have := h1.all j
      show stream (s.out ++ [(i, e)]) j ++ _ = _
      rw [stream_snoc, if_neg (Ne.symm hj), List.append_nil]
      simp only [sent, upd_ne _ _ hj]
      exact this
    · subst hj; simp only [sent, upd_same]; exact h1.dropped j
    · simp only [sent, upd_ne _ _ hj]; exact h1.dropped j
  | timeout i h hmin hto =>
    exfalso
    have := hs.ts_ge hp i
    rw [hs.lastIn, hs.timeout] at hto
    omega
  | stop i h hmin hto => exact hs.stamped
  | empty h => exact hs.stamped

/-- The outputs come from ever lower inputs, and an input that has had an output stays active. -/
structure Descending (s : State n) : Prop where
  order : s.out.Pairwise (fun a b => b.1 ≤ a.1)
  active : ∀ m ∈ s.out, (s.queues m.1).active = true

theorem first_active {q : Queue} (h : q.active = true) : q.firstTimeStamp.1.active = true := by
  cases hq : q.items with
  | nil => rw [first_nil hq]; exact h
  | cons e l => rw [first_cons hq]

theorem turn_descending {timeout : Int} (ht : 0 < timeout) {L : Fin n → List Ev} {s s' : State n} {b : Bool} (h : Turn s s' b)
    (hs : Still timeout (fun _ => 0) L s) (hd : Descending s) : Descending s' := by
  have hst : ∀ m ∈ s.out, ((stamped s).queues m.1).active = true := fun m hm => first_active (hd.active m hm)
  cases h with
  | send i e l h hmin =>
    have he : e.stamp = 0 := hs.zero i e (by rw [h]; simp)
    refine ⟨?_, ?_⟩
    · show (s.out ++ [(i, e)]).Pairwise _
      rw [List.pairwise_append]
      refine ⟨hd.order, List.pairwise_singleton _ _, fun a ha b hb => ?_⟩
      rw [List.mem_singleton] at hb
      subst hb
      have h1 : ts s a.1 = 0 := by
        cases hq : (s.queues a.1).items with
        | nil => rw [ts_nil hq, if_pos (hd.active a ha)]; exact hs.next _ (hd.active a ha)
        | cons x l' => rw [ts_cons hq]; exact hs.zero _ x (by rw [hq]; simp)
      have := hmin a.1
      rcases this with h2 | h2
      · omega
      · exact h2.2
    · intro m hm
      have hm : m ∈ s.out ++ [(i, e)] := hm
      have hact : ((stamped s).queues i).active = true := by
        show (s.queues i).firstTimeStamp.1.active = true
        rw [first_cons h]
      by_cases hmi : m.1 = i
      · show Queue.active (upd _ i _ m.1) = true
        rw [hmi, upd_same]; exact hact
      · show Queue.active (upd _ i _ m.1) = true
        rw [upd_ne _ _ hmi]
        rcases List.mem_append.1 hm with hm | hm
        · exact hst m hm
        · rw [List.mem_singleton] at hm; rw [hm] at hmi; exact absurd rfl hmi
  | timeout i h hmin hto =>
    exfalso
    have := hs.ts_ge (fun _ => Int.le_refl _) i
    rw [hs.lastIn, hs.timeout] at hto
    omega
  | stop i h hmin hto => exact ⟨hd.order, hst⟩
  | empty h => exact ⟨hd.order, hst⟩

theorem insertEv_zero {e : Ev} : ∀ {l : List Ev}, e.stamp = 0 → (∀ x ∈ l, x.stamp = 0) → insertEv e l = l ++ [e]
  | [], _, _ => rfl
  | x :: l, he, hl => by
    have hx := hl x (by simp)
    unfold insertEv
    rw [if_neg (by omega), insertEv_zero he (fun y hy => hl y (by simp [hy]))]
    rfl

theorem add_still {timeout : Int} {per : Fin n → Int} {L : Fin n → List Ev} {s : State n} {i : Fin n} {e : Ev}
    (hs : Still timeout per L s) (he : e.stamp = 0) :
    Still timeout per (upd L i (L i ++ [e])) (add s i e) := by
  rcases add_eq s i e with ⟨h1, _⟩ | ⟨_, h2⟩
  · rw [hs.lastOut] at h1; omega
  rw [h2]
  have hins := insertEv_zero he (hs.zero i)
  refine ⟨hs.timeout, ?_, hs.lastOut, fun j => ?_, fun j => ?_, fun j => ?_, fun j => ?_, fun j => ?_⟩
  · show (if e.stamp > s.lastIn then e.stamp else s.lastIn) = 0
    rw [hs.lastIn, he]; rfl
  all_goals by_cases hj : j = i
  · subst hj
    rw [queued_items_same, hins]
    intro x hx
    rcases List.mem_append.1 hx with hx | hx
    · exact hs.zero j x hx
    · rw [List.mem_singleton] at hx; rw [hx]; exact he
  · rw [queued_ne s i e hj]; exact hs.zero j
  · subst hj; simp only [queued, upd_same]; exact hs.period j
  · rw [queued_ne s i e hj]; exact hs.period j
  · subst hj; simp only [queued, upd_same]; exact hs.next j
  · rw [queued_ne s i e hj]; exact hs.next j
  · subst hj
    rw [queued_items_same, hins, upd_same, ← List.append_assoc]
    show stream s.out j ++ (s.queues j).items ++ [e] = _
    rw [hs.all j]
  · rw [queued_ne s i e hj, upd_ne _ _ hj]; exact hs.all j
  · subst hj; simp only [queued, upd_same]; exact hs.dropped j
  · rw [queued_ne s i e hj]; exact hs.dropped j

theorem dispatch_still {timeout : Int} (ht : 0 < timeout) {per : Fin n → Int} (hp : ∀ i, 0 ≤ per i) {L : Fin n → List Ev}
    {fuel : Nat} {s s' : State n} (h : dispatch fuel s = .ok s') (hs : Still timeout per L s) : Still timeout per L s' := by
  rcases dispatch_turns (P := Still timeout per L) (fun _ _ _ a b => turn_still ht hp a b) h hs with ⟨_, rfl⟩ | ⟨s1, h1, h2⟩
  · exact hs
  · exact turn_still ht hp h2 h1

/-- With positive periods nothing is left. -/
theorem dispatch_empties {timeout : Int} (ht : 0 < timeout) {per : Fin n → Int} (hp : ∀ i, 0 < per i) {L : Fin n → List Ev}
    {fuel : Nat} {s s' : State n} (h : dispatch fuel s = .ok s') (hs : Still timeout per L s) (i : Fin n) :
    (s'.queues i).items = [] := by
  have hp' : ∀ i, 0 ≤ per i := fun i => by have := hp i; omega
  rcases dispatch_turns (P := Still timeout per L) (fun _ _ _ a b => turn_still ht hp' a b) h hs with ⟨h1, rfl⟩ | ⟨s1, h1, h2⟩
  · exact h1 i
  · generalize hb : false = b at h2
    cases h2 with
    | send => cases hb
    | timeout => cases hb
    | stop j hq hmin hto =>
      rw [stamped_items]
      have h3 := h1.ts_empty hp hq
      cases hi : (s1.queues i).items with
      | nil => rfl
      | cons e l =>
        exfalso
        have h4 := hmin i
        rw [ts_cons hi, h1.zero i e (by rw [hi]; simp)] at h4
        omega
    | empty h0 => exact absurd i.isLt (by omega)

theorem dispatch_descending {timeout : Int} (ht : 0 < timeout) {L : Fin n → List Ev} {fuel : Nat} {s s' : State n}
    (h : dispatch fuel s = .ok s') (hs : Still timeout (fun _ => 0) L s) (hd : Descending s) : Descending s' := by
  have hp : ∀ _ : Fin n, (0 : Int) ≤ 0 := fun _ => Int.le_refl _
  rcases dispatch_turns (P := fun s => Still timeout (fun _ => 0) L s ∧ Descending s)
    (fun _ _ _ a b => ⟨turn_still ht hp a b.1, turn_descending ht a b.1 b.2⟩) h ⟨hs, hd⟩ with ⟨_, rfl⟩ | ⟨s1, h1, h2⟩
  · exact hd
  · exact turn_descending ht h2 h1.1 h1.2

end MF.Aligner

namespace MF.Latest

variable {n : Nat} {D : Type} [Arith D]

theorem upd_relabel (g : Ev → Ev) (t : Fin n → Option Ev) (i : Fin n) (e : Ev) :
    upd (fun j => (t j).map g) i (some (g e)) = fun j => (upd t i (some e) j).map g := by
  funext j
  by_cases hj : j = i
  · subst hj; simp
  · simp [upd_ne _ _ hj]

theorem full_relabel (g : Ev → Ev) (t : Fin n → Option Ev) :
    full (fun j => (t j).map g) = (full t).map (fun u j => g (u j)) := by
  unfold full
  by_cases h : ∀ i, (t i).isSome
  · have h' : ∀ i, ((t i).map g).isSome := fun i => by rw [Option.isSome_map]; exact h i
    rw [dif_pos h, dif_pos h']
    simp
  · have h' : ¬ ∀ i, ((t i).map g).isSome := fun h' => h (fun i => by have := h' i; rwa [Option.isSome_map] at this)
    rw [dif_neg h, dif_neg h']
    rfl

theorem add_relabel (g : Ev → Ev) (dflt : Config D) (s : State n D) (i : Fin n) (e : Ev) (now : Event.Time) :
    add dflt (relabel g s) i (g e) now = (add dflt s i e now).map (relabel g) := by
  unfold add
  have hev : (relabel g s).events i = (s.events i).map g := rfl
  have hr : (relabel g s).rates = s.rates := rfl
  rw [hev, hr]
  cases hs : s.events i with
  | none =>
    simp only [Option.map_none, Except.map]
    unfold initializeRate relabel
    simp only [upd_relabel]
  | some x =>
    simp only [Option.map_some]
    have hu : upd (relabel g s).events i (some (g e)) = fun j => (upd s.events i (some e) j).map g := upd_relabel g s.events i e
    rw [hu]
    cases hrate : s.rates[i.val]? with
    | none => rfl
    | some r =>
      dsimp only
      cases hc : r.computeHz fuel now with
      | error f => rfl
      | ok p =>
        obtain ⟨b, r'⟩ := p
        cases b with
        | false => rfl
        | true =>
          dsimp only
          cases hp : findPivot (s.rates.set i r') now with
          | error f => rfl
          | ok pivot =>
            dsimp only
            rw [full_relabel]
            by_cases hpi : pivot = some i.val
            · rw [if_pos hpi, if_pos hpi]
              cases full (upd s.events i (some e)) with
              | none => rfl
              | some t => simp [Except.map, relabel]
            · rw [if_neg hpi, if_neg hpi]
              rfl

theorem run_relabel (g : Ev → Ev) (dflt : Config D) (ops : List (Op n)) : ∀ s : State n D,
    run dflt (relabel g s) (ops.map (fun o => { o with msg := g o.msg })) = (run dflt s ops).map (relabel g) := by
  induction ops with
  | nil => intro s; rfl
  | cons op ops ih =>
    intro s
    have h1 := add_relabel g dflt s op.input op.msg op.now
    unfold run at ih ⊢
    simp only [List.map_cons, runE]
    rw [h1]
    cases add dflt s op.input op.msg op.now with
    | error f => rfl
    | ok s' => exact ih s'

end MF.Latest
