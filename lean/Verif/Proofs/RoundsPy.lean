import Verif.Proofs.PyApprox3
import Verif.Proofs.PyExact2
import Verif.Proofs.RoundsApprox
import Verif.Spec.Python
/-
Helper lemmas about the Python synchronizers on inputs that send in rounds.
-/
namespace MF

variable {n : Nat}

theorem Separate.later {R : Nat → Fin n → Ev} {gap : Int} (h : Separate R gap) {a b : Nat} (hab : a < b) (i j : Fin n) :
    (R a i).stamp < (R b j).stamp ∧ gap ≤ (R b j).stamp - (R a i).stamp := by
  obtain ⟨c, rfl⟩ : ∃ c, b = a + 1 + c := ⟨b - a - 1, by omega⟩
  induction c generalizing j with
  | zero => exact h a i j
  | succ c ih =>
    have h1 := ih i (by omega)
    have h2 := h (a + 1 + c) i j
    rw [show a + 1 + (c + 1) = a + 1 + c + 1 from rfl]
    omega

end MF

namespace MF.Py

variable {n : Nat}

/-- The dict holding the messages of a list, in this order. -/
def asDict (l : List Ev) : Dict Ev := l.map (fun e => (e.stamp, e))

/-- `k` rounds were output and the rest of what was received is queued. -/
structure Rounded (R : Nat → Fin n → Ev) (L : Fin n → List Ev) (k : Nat) (s : State n) : Prop where
  queues : ∀ j, s.queues j = asDict ((L j).drop k)
  lo : ∀ j, k ≤ (L j).length
  least : ∃ j, (L j).length = k
  out : s.out = (List.range k).map R

/-- `L` consists of messages of the rounds. -/
def Sends (R : Nat → Fin n → Ev) (L : Fin n → List Ev) : Prop := ∀ i k e, (L i)[k]? = some e → e = R k i

theorem mem_asDict {R : Nat → Fin n → Ev} {L : Fin n → List Ev} (hL : Sends R L) {j : Fin n} {k : Nat} {p : Int × Ev} :
    p ∈ asDict ((L j).drop k) ↔ ∃ r, k ≤ r ∧ r < (L j).length ∧ p = ((R r j).stamp, R r j) := by
  unfold asDict
  rw [List.mem_map]
  constructor
  · rintro ⟨e, he, rfl⟩
    obtain ⟨t, ht⟩ := List.mem_iff_getElem?.1 he
    rw [List.getElem?_drop] at ht
    have hlt : k + t < (L j).length := (List.getElem?_eq_some_iff.1 ht).1
    rw [hL j _ e ht]
    exact ⟨k + t, by omega, hlt, rfl⟩
  · rintro ⟨r, h1, h2, rfl⟩
    refine ⟨R r j, ?_, rfl⟩
    refine List.mem_iff_getElem?.2 ⟨r - k, ?_⟩
    rw [List.getElem?_drop, show k + (r - k) = r by omega, List.getElem?_eq_getElem h2]
    congr 1
    exact hL j r _ (List.getElem?_eq_getElem h2)

theorem step_rounded {R : Nat → Fin n → Ev} (hmono : ∀ {a b : Nat}, a < b → ∀ i, (R a i).stamp < (R b i).stamp)
    {L L' : Fin n → List Ev} {i : Fin n} {e : Ev} (hL' : L' = upd L i (L i ++ [e])) (hS : Sends R L') {k : Nat} {s s' : State n}
    (h : Rounded R L k s)
    (hcase : ((¬ ∀ j, (L i).length < (L' j).length) ∧ (∀ j, s'.queues j = asDict ((L' j).drop k)) ∧ s'.out = s.out) ∨
      ((∀ j, (L i).length < (L' j).length) ∧
        (∀ j, s'.queues j = (asDict ((L' j).drop k)).del (R (L i).length j).stamp) ∧ s'.out = s.out ++ [R (L i).length])) :
    ∃ k', Rounded R L' k' s' := by
  have hlen : ∀ j, (L' j).length = if j = i then (L i).length + 1 else (L j).length := by
    intro j
    rw [hL']
    by_cases hj : j = i
    · subst hj; rw [if_pos rfl, upd_same, List.length_append]; rfl
    · rw [if_neg hj, upd_ne _ _ hj]
  have hlo : ∀ j, k ≤ (L' j).length := by
    intro j
    rw [hlen]
    have h1 := h.lo j
    by_cases hj : j = i
    · subst hj; rw [if_pos rfl]; omega
    · rw [if_neg hj]; exact h1
  rcases hcase with ⟨hno, hq, ho⟩ | ⟨hall, hq, ho⟩
  · refine ⟨k, hq, hlo, ?_, by rw [ho, h.out]⟩
    obtain ⟨j, hj⟩ := h.least
    by_cases hji : j = i
    · subst hji
      obtain ⟨j', hj'⟩ := Classical.not_forall.1 hno
      exact ⟨j', by have := hlo j'; omega⟩
    · exact ⟨j, by rw [hlen, if_neg hji, hj]⟩
  · have hr : (L i).length = k := by
      obtain ⟨j, hj⟩ := h.least
      have h1 := hall j
      rw [hlen] at h1
      by_cases hji : j = i
      · subst hji; exact hj
      · rw [if_neg hji] at h1
        have := h.lo i
        omega
    rw [hr] at hall hq ho
    refine ⟨k + 1, ?_, fun j => hall j, ⟨i, by rw [hlen, if_pos rfl, hr]⟩, ?_⟩
    · intro j
      rw [hq j]
      have hget : (L' j)[k]? = some ((L' j)[k]'(hall j)) := List.getElem?_eq_getElem (hall j)
      have hdrop : (L' j).drop k = R k j :: (L' j).drop (k + 1) := by
        rw [List.drop_eq_getElem_cons (hall j)]
        congr 1
        exact hS j k _ hget
      rw [hdrop]
      show (((R k j).stamp, R k j) :: asDict ((L' j).drop (k + 1))).filter _ = _
      rw [List.filter_cons_of_neg (by simp)]
      apply List.filter_eq_self.2
      intro p hp
      obtain ⟨r, h1, h2, rfl⟩ := (mem_asDict hS).1 hp
      have := hmono (show k < r by omega) j
      simp only [decide_eq_true_eq]
      omega
    · rw [ho, h.out, List.range_succ, List.map_append]
      rfl

/-- What the queue of the new message looks like when it fits. -/
theorem set_fits {R : Nat → Fin n → Ev} (hmono : ∀ {a b : Nat}, a < b → ∀ i, (R a i).stamp < (R b i).stamp)
    {L L' : Fin n → List Ev} {i : Fin n} {e : Ev} (hL' : L' = upd L i (L i ++ [e])) (hS : Sends R L) (he : e = R (L i).length i)
    {k : Nat} {s : State n} (h : Rounded R L k s) {q : Int} (hq : ((L' i).length : Int) ≤ k + q) {d' : Dict Ev}
    (hE : Evicted q ((s.queues i).set e.stamp e) d') : upd s.queues i d' = fun j => asDict ((L' j).drop k) := by
  have hset : (s.queues i).set e.stamp e = asDict ((L' i).drop k) := by
    rw [h.queues i, hL', upd_same, List.drop_append_of_le_length (h.lo i)]
    unfold Dict.set
    rw [if_neg]
    · simp [asDict]
    · intro hk
      obtain ⟨v, hv⟩ := mem_keys.1 hk
      obtain ⟨r, h1, h2, h3⟩ := (mem_asDict hS).1 hv
      have h4 := hmono h2 i
      have h5 : e.stamp = (R r i).stamp := congrArg Prod.fst h3
      rw [he] at h5
      omega
  have hd : d' = asDict ((L' i).drop k) := by
    rw [← hset]
    refine hE.eq_of_fits ?_
    rw [hset]
    unfold asDict
    rw [List.length_map, List.length_drop]
    have := h.lo i
    have h2 : (L' i).length = (L i).length + 1 := by rw [hL', upd_same, List.length_append]; rfl
    omega
  funext j
  by_cases hj : j = i
  · subst hj; rw [upd_same, hd]
  · rw [upd_ne _ _ hj, h.queues j, hL', upd_ne _ _ hj]

/-- The new message fits into its queue. -/
theorem fits {lag : Nat} {q : Int} (hq : (lag : Int) ≤ q) (hq1 : 1 ≤ q) {L L' : Fin n → List Ev} {i : Fin n} {e : Ev}
    (hL' : L' = upd L i (L i ++ [e])) {k : Nat} (hleast : ∃ j, (L j).length = k)
    (hlag : ∀ j, (L' i).length ≤ (L' j).length + lag) : ((L' i).length : Int) ≤ k + q := by
  obtain ⟨j, hj⟩ := hleast
  have h1 := hlag j
  have h2 : (L' i).length = (L i).length + 1 := by rw [hL', upd_same, List.length_append]; rfl
  by_cases hji : j = i
  · subst hji; omega
  · have h3 : (L' j).length = (L j).length := by rw [hL', upd_ne _ _ hji]
    omega

theorem withHeaders_snoc {ops : List (Fin n × Msg)} {i : Fin n} {m : Msg} {evs : List (Fin n × Ev)}
    (h : ops ++ [(i, m)] = withHeaders evs) : ∃ evs' e, evs = evs' ++ [(i, e)] ∧ m = ⟨e, true⟩ ∧ ops = withHeaders evs' := by
  unfold withHeaders at h
  have hne : evs ≠ [] := by intro h0; subst h0; simp at h
  obtain ⟨evs', ⟨i', e⟩, rfl⟩ : ∃ evs' x, evs = evs' ++ [x] := ⟨evs.dropLast, evs.getLast hne, (List.dropLast_concat_getLast hne).symm⟩
  rw [List.map_append] at h
  obtain ⟨h1, h2⟩ := List.append_inj' h rfl
  simp only [List.map_cons, List.map_nil, List.cons.injEq, Prod.mk.injEq, and_true] at h2
  obtain ⟨rfl, rfl⟩ := h2
  exact ⟨evs', e, rfl, rfl, h1⟩

theorem stream_snoc (ops : List (Fin n × Ev)) (i : Fin n) (e : Ev) :
    stream (ops ++ [(i, e)]) = upd (stream ops) i (stream ops i ++ [e]) := by
  funext j
  by_cases hj : j = i
  · subst hj; rw [stream_snoc_same, upd_same]
  · rw [stream_snoc_ne _ _ (Ne.symm hj), upd_ne _ _ hj]

theorem approx_rounded [NeZero n] {slop q w : Int} {lag : Nat} {allow : Bool} {R : Nat → Fin n → Ev} (ht : Tight R w) (hw : w < slop)
    (hg : Separate R slop) (hq : (lag : Int) ≤ q) (hq1 : 1 ≤ q) (ops : List (Fin n × Msg)) (s : State n)
    (h : approxRun noRaise slop allow (construct n q) ops = .ok s) :
    ∀ evs, ops = withHeaders evs → Delivers R evs → LagAtMost lag evs → ∃ k, Rounded R (stream evs) k s := by
  have hmono : ∀ {a b : Nat}, a < b → ∀ i, (R a i).stamp < (R b i).stamp := fun hab i => (hg.later hab i i).1
  refine (approxRun_induction (P := fun ops s => ∀ evs, ops = withHeaders evs → Delivers R evs → LagAtMost lag evs →
    ∃ k, Rounded R (stream evs) k s) ?_ ?_ ops s h).1
  · intro evs he _ _
    have : evs = [] := by cases evs with
      | nil => rfl
      | cons a l => simp [withHeaders] at he
    subst this
    exact ⟨0, fun j => rfl, fun j => Nat.zero_le _, ⟨⟨0, Nat.pos_of_ne_zero (NeZero.ne n)⟩, rfl⟩, rfl⟩
  · intro ops s i m s' r hr hinv hqs ih hs evs he hd hl
    obtain ⟨evs', e, rfl, rfl, rfl⟩ := withHeaders_snoc he
    obtain ⟨k, hk⟩ := ih evs' rfl hd.init hl.init
    have hst := stream_snoc evs' i e
    have hS' : Sends R (stream (evs' ++ [(i, e)])) := fun j k x hx => hd.get hx
    have hS : Sends R (stream evs') := fun j k x hx => hd.init.get hx
    have hei : e = R (stream evs' i).length i := by
      refine hd.get ?_
      rw [stream_snoc_same, List.getElem?_append_right (Nat.le_refl _)]; simp
    have hfits := fits hq hq1 hst hk.least (fun j => hl _ (List.prefix_refl _) i j)
    have hli : (stream (evs' ++ [(i, e)]) i).length = (stream evs' i).length + 1 := by
      rw [stream_snoc_same, List.length_append]; rfl
    obtain ⟨h1, _, _, _⟩ | ⟨_, hlk, ⟨hqn, _, _⟩ | ⟨hq0, d', hE, ⟨hn, rfl, rfl⟩ | ⟨f, msgs, hf, hm, hget, _, ⟨hb, _, _⟩ | ⟨_, rfl, rfl⟩⟩⟩⟩ :=
      approxAdd_cases noRaise slop allow s hinv.ok i ⟨e, true⟩ s' r hs
    · cases h1
    · omega
    · rw [hqs] at hE
      have hQ := set_fits hmono hst hS hei hk hfits hE
      refine step_rounded hmono hst hS' hk (Or.inl ⟨?_, fun j => congrFun hQ j, rfl⟩)
      intro hall
      apply hn
      refine ⟨fun j => (R (stream evs' i).length j).stamp, (congrArg Ev.stamp hei).symm, ?_, ?_⟩
      · intro j
        rw [hQ]
        refine mem_keys.2 ⟨R (stream evs' i).length j, (mem_asDict hS').2 ⟨_, hk.lo i, hall j, rfl⟩⟩
      · intro a b
        have := ht (stream evs' i).length b a
        show (R (stream evs' i).length a).stamp - (R (stream evs' i).length b).stamp < slop
        omega
    · cases hb
    · rw [hqs] at hE
      have hQ := set_fits hmono hst hS hei hk hfits hE
      rw [hQ] at hm hget
      -- all messages of the match are of the same round
      have hround : ∀ j, ∃ r, k ≤ r ∧ r < (stream (evs' ++ [(i, e)]) j).length ∧ f j = (R r j).stamp := by
        intro j
        obtain ⟨v, hv⟩ := mem_keys.1 (hm.1 j)
        obtain ⟨r, h1, h2, h3⟩ := (mem_asDict hS').1 hv
        exact ⟨r, h1, h2, congrArg Prod.fst h3⟩
      have hsame : ∀ j, (stream evs' i).length < (stream (evs' ++ [(i, e)]) j).length ∧ f j = (R (stream evs' i).length j).stamp := by
        intro j
        obtain ⟨r, h1, h2, h3⟩ := hround j
        have hfi : f i = (R (stream evs' i).length i).stamp := by rw [hf, ← hei]
        have hr : r = (stream evs' i).length := by
          rcases Nat.lt_trichotomy r (stream evs' i).length with h4 | h4 | h4
          · have h5 := (hg.later h4 j i).2
            have h6 := hm.2 i j
            omega
          · exact h4
          · have h5 := (hg.later h4 i j).2
            have h6 := hm.2 j i
            omega
        rw [← hr]; exact ⟨h2, h3⟩
      refine step_rounded hmono hst hS' hk (Or.inr ⟨fun j => (hsame j).1, ?_, ?_⟩)
      · intro j
        show (upd s.queues i d' j).del (f j) = _
        rw [congrFun hQ j, (hsame j).2]
      · show s.out ++ [msgs] = _
        congr 2
        funext j
        have h1 := hget j
        have hnd : (asDict ((stream (evs' ++ [(i, e)]) j).drop k)).keys.Nodup := by
          rw [← congrFun hQ j]
          exact (upd_DOk hinv.ok (hE.dok (hinv.ok i)) j).nodup
        rw [get_some hnd] at h1
        obtain ⟨r, h2, h3, h4⟩ := (mem_asDict hS').1 h1
        have h5 : f j = (R r j).stamp := congrArg Prod.fst h4
        have h6 : msgs j = R r j := congrArg Prod.snd h4
        rw [(hsame j).2] at h5
        have hr : r = (stream evs' i).length := by
          rcases Nat.lt_trichotomy r (stream evs' i).length with h7 | h7 | h7
          · have := hmono h7 j; omega
          · exact h7
          · have := hmono h7 j; omega
        rw [h6, hr]

theorem ts_rounded [NeZero n] {q : Int} {lag : Nat} {R : Nat → Fin n → Ev} (ht : Tight R 0)
    (hg : Separate R 0) (hq : (lag : Int) ≤ q) (hq1 : 1 ≤ q) (ops : List (Fin n × Msg)) (s : State n)
    (h : tsRun noRaise (construct n q) ops = .ok s) :
    ∀ evs, ops = withHeaders evs → Delivers R evs → LagAtMost lag evs → ∃ k, Rounded R (stream evs) k s := by
  have hmono : ∀ {a b : Nat}, a < b → ∀ i, (R a i).stamp < (R b i).stamp := fun hab i => (hg.later hab i i).1
  have heq : ∀ k i j, (R k i).stamp = (R k j).stamp := by
    intro k i j; have := ht k i j; have := ht k j i; omega
  refine (tsRun_induction (P := fun ops s => ∀ evs, ops = withHeaders evs → Delivers R evs → LagAtMost lag evs →
    ∃ k, Rounded R (stream evs) k s) ?_ ?_ ops s h).1
  · intro evs he _ _
    have : evs = [] := by cases evs with
      | nil => rfl
      | cons a l => simp [withHeaders] at he
    subst this
    exact ⟨0, fun j => rfl, fun j => Nat.zero_le _, ⟨⟨0, Nat.pos_of_ne_zero (NeZero.ne n)⟩, rfl⟩, rfl⟩
  · intro ops s i m s' r hr hinv hqs ih hs evs he hd hl
    obtain ⟨evs', e, rfl, rfl, rfl⟩ := withHeaders_snoc he
    obtain ⟨k, hk⟩ := ih evs' rfl hd.init hl.init
    have hst := stream_snoc evs' i e
    have hS' : Sends R (stream (evs' ++ [(i, e)])) := fun j k x hx => hd.get hx
    have hS : Sends R (stream evs') := fun j k x hx => hd.init.get hx
    have hei : e = R (stream evs' i).length i := by
      refine hd.get ?_
      rw [stream_snoc_same, List.getElem?_append_right (Nat.le_refl _)]; simp
    have hes : ∀ j, e.stamp = (R (stream evs' i).length j).stamp := by
      intro j
      have h1 : e.stamp = (R (stream evs' i).length i).stamp := congrArg Ev.stamp hei
      rw [h1]; exact heq _ _ _
    have hfits := fits hq hq1 hst hk.least (fun j => hl _ (List.prefix_refl _) i j)
    have hsame : ∀ {j r}, e.stamp = (R r j).stamp → r = (stream evs' i).length := by
      intro j r h1
      rw [hes j] at h1
      rcases Nat.lt_trichotomy r (stream evs' i).length with h7 | h7 | h7
      · have := hmono h7 j; omega
      · exact h7
      · have := hmono h7 j; omega
    obtain ⟨_, ⟨h1, _, _⟩ | ⟨_, hqn, _, _⟩ | ⟨_, hq0, d', hE, ⟨hn, rfl, rfl⟩ | ⟨msgs, hget, ⟨hb, _, _⟩ | ⟨_, rfl, rfl⟩⟩⟩⟩ :=
      tsAdd_cases noRaise s hinv i ⟨e, true⟩ s' r hs
    · cases h1
    · omega
    · rw [hqs] at hE
      have hQ := set_fits hmono hst hS hei hk hfits hE
      refine step_rounded hmono hst hS' hk (Or.inl ⟨?_, fun j => congrFun hQ j, rfl⟩)
      intro hall
      apply hn
      intro j
      rw [hQ]
      refine mem_keys.2 ⟨R (stream evs' i).length j, (mem_asDict hS').2 ⟨_, hk.lo i, hall j, ?_⟩⟩
      show (e.stamp, _) = _
      rw [hes j]
    · cases hb
    · rw [hqs] at hE
      have hQ := set_fits hmono hst hS hei hk hfits hE
      have hmsg : ∀ j, msgs j = R (stream evs' i).length j ∧ (stream evs' i).length < (stream (evs' ++ [(i, e)]) j).length := by
        intro j
        have h1 := hget j
        rw [hQ] at h1
        have hnd : (asDict ((stream (evs' ++ [(i, e)]) j).drop k)).keys.Nodup := by
          rw [← congrFun hQ j]
          exact (upd_DOk hinv.ok (hE.dok (hinv.ok i)) j).nodup
        rw [get_some hnd] at h1
        obtain ⟨r, h2, h3, h4⟩ := (mem_asDict hS').1 h1
        have h5 := hsame (congrArg Prod.fst h4)
        have h6 : msgs j = R r j := congrArg Prod.snd h4
        rw [h6, ← h5]; exact ⟨rfl, h3⟩
      refine step_rounded hmono hst hS' hk (Or.inr ⟨fun j => (hmsg j).2, ?_, ?_⟩)
      · intro j
        show (upd s.queues i d' j).del e.stamp = _
        rw [congrFun hQ j, hes j]
      · show s.out ++ [msgs] = _
        congr 2
        funext j
        exact (hmsg j).1

end MF.Py
