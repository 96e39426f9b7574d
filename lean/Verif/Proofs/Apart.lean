import Verif.Spec.Apart
import Verif.Proofs.EpsilonReach
/-
Helper lemmas for C108: inputs whose stamps are far apart, and the ApproximateEpsilonTime synchronizer on them.
-/
namespace MF

variable {n : Nat}

theorem FarApart.eq {g : Int} {l : List Ev} (h : FarApart g l) {x y : Ev} (hx : x ∈ l) (hy : y ∈ l) (h1 : x.stamp ≤ y.stamp + g)
    (h2 : y.stamp ≤ x.stamp + g) : x = y := by
  unfold FarApart at h
  induction l with
  | nil => cases hx
  | cons a l ih =>
    obtain ⟨ha, hl⟩ := List.pairwise_cons.1 h
    rcases List.mem_cons.1 hx with h3 | h3
    · rcases List.mem_cons.1 hy with h4 | h4
      · rw [h3, h4]
      · have := ha y h4
        rw [h3] at h1 h2
        omega
    · rcases List.mem_cons.1 hy with h4 | h4
      · have := ha x h3
        rw [h4] at h1 h2
        omega
      · exact ih hl h3 h4

theorem FarApart.mono {g g' : Int} {l : List Ev} (h : FarApart g l) (hg : g' ≤ g) : FarApart g' l := by
  unfold FarApart at *
  exact h.imp (fun h => by omega)

theorem FarApart.strict {g : Int} {l : List Ev} (hg : 0 ≤ g) (h : FarApart g l) (hs : TimeSorted l) : StrictlyTimeSorted l := by
  unfold FarApart TimeSorted StrictlyTimeSorted at *
  exact (List.pairwise_and_iff.2 ⟨h, hs⟩).imp (fun ⟨h, h'⟩ => by omega)

/-- Two sets within `w` that share a message are the same. -/
theorem matches_unique {w : Int} {L : Fin n → List Ev} (ha : ∀ i, FarApart (2 * w) (L i)) {S T : Fin n → Ev} (hS : ∀ i, S i ∈ L i)
    (hT : ∀ i, T i ∈ L i) (hS' : ∀ i j, (S i).stamp - (S j).stamp ≤ w) (hT' : ∀ i j, (T i).stamp - (T j).stamp ≤ w) {i : Fin n}
    (hi : S i = T i) : S = T := by
  funext j
  have h1 := hS' i j
  have h2 := hS' j i
  have h3 := hT' i j
  have h4 := hT' j i
  rw [hi] at h1 h2
  exact (ha j).eq (hS j) (hT j) (by omega) (by omega)

end MF

namespace MF.Epsilon

variable {n : Nat}

/-- `T i` is held if it has been delivered (`D i`); otherwise what is held is older. -/
def Awaited (D : Fin n → Prop) (v : Fin n → List Ev) (T : Fin n → Ev) : Prop :=
  ∀ i, (D i ∧ T i ∈ v i) ∨ (¬ D i ∧ ∀ x ∈ v i, x.stamp < (T i).stamp)

theorem fire_apart {eps : Int} {L : Fin n → List Ev} (ha : ∀ i, FarApart (2 * eps) (L i)) {v : Fin n → List Ev}
    (hv : ∀ i, v i ≠ []) (hsub : ∀ i, ∀ x ∈ v i, x ∈ L i) (hsort : ∀ i, TimeSorted (v i))
    (hmax : ∀ i, ∀ e ∈ v i, e.stamp ≤ maxTime) {T : Fin n → Ev} {D : Fin n → Prop} (hT : ∀ i, T i ∈ L i)
    (hspan : ∀ i j, (T i).stamp - (T j).stamp ≤ eps) (hw : Awaited D v T) :
    (fun i => some (T i)) ∈ (fire eps v).1 ∨ Awaited D (fire eps v).2 T := by
  have hle : ∀ l e tl, v l = e :: tl → e.stamp ≤ (T l).stamp := by
    intro l e tl hl
    rcases hw l with ⟨_, h⟩ | ⟨_, h⟩
    · have hs := hsort l
      rw [hl] at h hs
      rcases List.mem_cons.1 h with h | h
      · rw [h]; omega
      · exact (List.pairwise_cons.1 hs).1 _ h
    · have := h e (by rw [hl]; simp); omega
  apply Classical.byContradiction
  intro hno
  simp only [not_or] at hno
  obtain ⟨hno1, hno2⟩ := hno
  unfold Awaited at hno2
  obtain ⟨i, hi⟩ := Classical.not_forall.1 hno2
  have hsubi := (fire_sorted eps v hv hsort i).2
  obtain ⟨hTi, hi1⟩ : T i ∈ v i ∧ T i ∉ (fire eps v).2 i := by
    rcases hw i with ⟨h0, h⟩ | ⟨h0, h⟩
    · exact ⟨h, fun h1 => hi (Or.inl ⟨h0, h1⟩)⟩
    · exact absurd (Or.inr ⟨h0, fun x hx => h x (hsubi x hx)⟩) hi
  obtain ⟨e, tl, he, hcase⟩ := fire_input eps v hv i
  rcases hcase with ⟨hc, ho, hf⟩ | ⟨hc, ho, ⟨hle', hf⟩ | ⟨_, hf⟩⟩
  · -- the fronts are output
    have hTe : T i = e := by
      rw [hf] at hi1
      rw [he] at hTi
      rcases List.mem_cons.1 hTi with h | h
      · exact h
      · exact absurd h hi1
    have hout := fire_output eps v hv
    rw [ho] at hout hno1
    obtain ⟨_, h2⟩ := hout (fun i => (v i).head?) (List.mem_singleton.2 rfl)
    apply hno1
    rw [List.mem_singleton]
    funext k
    obtain ⟨f, tf, hfk⟩ := List.exists_cons_of_ne_nil (hv k)
    show some (T k) = (v k).head?
    rw [hfk, List.head?_cons, Option.some.injEq]
    by_cases hik : i = k
    · subst hik; rw [he] at hfk; cases hfk; exact hTe
    · have h3 := h2 i k e f hik (by show (v i).head? = _; rw [he]; rfl) (by show (v k).head? = _; rw [hfk]; rfl)
      have h4 := h2 k i f e (Ne.symm hik) (by show (v k).head? = _; rw [hfk]; rfl) (by show (v i).head? = _; rw [he]; rfl)
      have h5 := hspan i k
      have h6 := hspan k i
      rw [hTe] at h5 h6
      exact (ha k).eq (hT k) (hsub k f (by rw [hfk]; simp)) (by omega) (by omega)
  · -- the front of input `i` is discarded
    have hTe : T i = e := by
      rw [hf] at hi1
      rw [he] at hTi
      rcases List.mem_cons.1 hTi with h | h
      · exact h
      · exact absurd h hi1
    obtain ⟨_, ho2, ho3⟩ := getOlder_spec v
    have hmin := ho2 i e tl he
    obtain ⟨k, hk⟩ : ∃ k, withinEpsilon v eps (getOlder v) k = false := by
      unfold checkAll at hc
      rw [List.all_eq_false] at hc
      obtain ⟨k, _, hk⟩ := hc
      exact ⟨k, by simpa using hk⟩
    obtain ⟨f, tf, hfk⟩ := List.exists_cons_of_ne_nil (hv k)
    have hlate : (getOlder v).1 + eps < f.stamp := by
      unfold withinEpsilon at hk
      rw [hfk] at hk
      by_cases hidx : some k = (getOlder v).2
      · rw [if_pos hidx] at hk; cases hk
      · rw [if_neg hidx] at hk; simp at hk; omega
    have hfT := hle k f tf hfk
    rcases ho3 with ho3 | ⟨o, g, tg, hg, ho3⟩
    · have := hmax k f (by rw [hfk]; simp)
      rw [ho3] at hlate
      simp only at hlate
      omega
    · rw [ho3] at hlate hmin hle'
      simp only at hlate hmin hle'
      have h1 := hle o g tg hg
      have h2 := hspan o i
      have h3 := hspan k o
      rw [hTe] at h2
      have h4 : g = T o := (ha o).eq (hsub o g (by rw [hg]; simp)) (hT o) (by omega) (by omega)
      rw [h4] at hlate
      omega
  · rw [hf] at hi1; exact hi1 hTi

theorem steps_apart {eps : Int} (heps : 0 ≤ eps) {L : Fin n → List Ev} (ha : ∀ i, FarApart (2 * eps) (L i)) {T : Fin n → Ev}
    {D : Fin n → Prop} (hT : ∀ i, T i ∈ L i) (hspan : ∀ i j, (T i).stamp - (T j).stamp ≤ eps) {v w : Fin n → List Ev} {o} (h : Steps eps v o w) :
    (∀ i, ∀ x ∈ v i, x ∈ L i) → (∀ i, TimeSorted (v i)) → (∀ i, ∀ e ∈ v i, e.stamp ≤ maxTime) → Awaited D v T →
    (fun i => some (T i)) ∈ o ∨ Awaited D w T := by
  induction h with
  | refl v => intro _ _ _ h; exact Or.inr h
  | @head v o w hv _ ih =>
    intro hsub hsort hmax hw
    have hin := fun i => fire_sorted eps v hv hsort i
    rcases fire_apart ha hv hsub hsort hmax hT hspan hw with h | h
    · exact Or.inl (List.mem_append_left _ h)
    · rcases ih (fun i x hx => hsub i x ((hin i).2 x hx)) (fun i => (hin i).1) (fun i x hx => hmax i x ((hin i).2 x hx)) h with h | h
      · exact Or.inl (List.mem_append_right _ h)
      · exact Or.inr h

/-- A set within epsilon is output, or what was delivered of it is held. -/
theorem run_apart [NeZero n] {fuel q : Nat} {eps : Int} (heps : 0 ≤ eps) (hq : 0 < q) {all : List (Fin n × Ev)}
    (ha : ∀ i, FarApart (2 * eps) (stream all i)) (hsort : ∀ i, TimeSorted (stream all i)) (hmax : ∀ op ∈ all, op.2.stamp ≤ maxTime)
    (hrec : Recent q eps all) {T : Fin n → Ev} (hT : Matches eps all T) :
    ∀ (ops : List (Fin n × Ev)) (s : State n), run fuel (construct n q eps) ops = .ok s → ∀ post, all = ops ++ post →
    (fun i => some (T i)) ∈ s.out ∨ ∀ i, (i, T i) ∈ ops → T i ∈ s.events i := by
  apply runE_induction
  · intro _ _; right; intro i h; cases h
  · intro ops s op s' hr ih hs post hall
    obtain ⟨j, e⟩ := op
    simp only at hs
    obtain ⟨hinv, hse, hsq⟩ := run_inv hr
    have hsq : s.queueSize = q := hsq
    have hse : s.epsilon = eps := hse
    have hall' : all = ops ++ (j, e) :: post := by rw [hall]; simp
    obtain ⟨hinv', _, _, sp⟩ := add_ok hinv hs
    have hstrict := fun i => (ha i).strict (by omega) (hsort i)
    have hTm := fun i => mem_stream.2 (hT.1 i)
    have hev : ∀ i, ∀ x ∈ upd s.events j (s.events j ++ [e]) i, x ∈ stream all i := by
      intro i x hx
      obtain ⟨c, hc, _⟩ := run_history ops s hr i
      rw [hall', stream_append, hc]
      by_cases hij : i = j
      · subst hij
        rw [upd_same] at hx
        simp only [List.mem_append, List.mem_singleton] at hx ⊢
        rcases hx with hx | rfl
        · exact Or.inl (Or.inr hx)
        · exact Or.inr (mem_stream.2 (by simp))
      · rw [upd_ne _ _ hij] at hx
        simp only [List.mem_append]
        exact Or.inl (Or.inr hx)
    have hpush : (∀ i, (i, T i) ∈ ops → T i ∈ s.events i) → ∀ i, (i, T i) ∈ ops ++ [(j, e)] →
        T i ∈ upd s.events j (s.events j ++ [e]) i := by
      intro hk i hi
      rcases List.mem_append.1 hi with hi' | hi
      · by_cases hij : i = j
        · subst hij; rw [upd_same]; exact List.mem_append_left _ (hk i hi')
        · rw [upd_ne _ _ hij]; exact hk i hi'
      · simp only [List.mem_singleton, Prod.mk.injEq] at hi
        obtain ⟨rfl, h2⟩ := hi
        rw [upd_same, h2]; simp
    rcases ih _ hall' with h | hk
    · left
      cases sp with
      | processed o _ _ hout => rw [hout]; exact List.mem_append_left _ h
      | queued _ _ _ hout => rw [hout]; exact h
      | overflow _ _ _ hout => rw [hout]; exact h
    · have hk' := hpush hk
      -- what comes later is later
      have hlater : ∀ i, (i, T i) ∉ ops ++ [(j, e)] → ∀ x ∈ upd s.events j (s.events j ++ [e]) i, x.stamp < (T i).stamp := by
        intro i hi x hx
        have h1 := hTm i
        rw [hall, stream_append, List.mem_append] at h1
        have h2 := hstrict i
        unfold StrictlyTimeSorted at h2
        rw [hall, stream_append] at h2
        rcases h1 with h1 | h1
        · exact absurd (mem_stream.1 h1) hi
        · refine (List.pairwise_append.1 h2).2.2 x ?_ _ h1
          obtain ⟨c, hc, _⟩ := run_history ops s hr i
          by_cases hij : i = j
          · subst hij
            rw [upd_same] at hx
            rw [stream_snoc_same, hc]
            simp only [List.mem_append, List.mem_singleton] at hx ⊢
            rcases hx with hx | rfl
            · exact Or.inl (Or.inr hx)
            · exact Or.inr rfl
          · rw [upd_ne _ _ hij] at hx
            rw [stream_snoc_ne _ _ (Ne.symm hij), hc]
            exact List.mem_append_right _ hx
      have hlater' : ∀ i, (i, T i) ∉ ops ++ [(j, e)] → ¬ (T i ∈ upd s.events j (s.events j ++ [e]) i) := by
        intro i hi h
        have := hlater i hi _ h
        omega
      cases sp with
      | processed o hne hsteps hout =>
        rw [hse] at hsteps
        have hsort' : ∀ i, TimeSorted (upd s.events j (s.events j ++ [e]) i) := by
          intro i
          have h2 := hsort i
          unfold TimeSorted at h2 ⊢
          rw [hall, stream_append] at h2
          have h2 := (List.pairwise_append.1 h2).1
          obtain ⟨c, hc, _⟩ := run_history ops s hr i
          by_cases hij : i = j
          · subst hij
            rw [upd_same]
            rw [stream_snoc_same, hc, List.append_assoc] at h2
            exact (List.pairwise_append.1 h2).2.1
          · rw [upd_ne _ _ hij]
            rw [stream_snoc_ne _ _ (Ne.symm hij), hc] at h2
            exact (List.pairwise_append.1 h2).2.1
        rcases steps_apart heps ha hTm hT.2 hsteps hev hsort' (fun i x hx => hmax (i, x) (mem_stream.1 (hev i x hx)))
          (fun i => by
            by_cases hi : (i, T i) ∈ ops ++ [(j, e)]
            · exact Or.inl ⟨hi, hk' i hi⟩
            · exact Or.inr ⟨hi, hlater i hi⟩) (D := fun i => (i, T i) ∈ ops ++ [(j, e)]) with h | h
        · left; rw [hout]; exact List.mem_append_right _ h
        · right
          intro i hi
          rcases h i with ⟨_, h⟩ | ⟨h, _⟩
          · exact h
          · exact absurd hi h
      | queued hnot hlen hev' hout =>
        right; rw [hev']; exact hk'
      | overflow hnot hlen hev' hout =>
        right
        intro i hi
        rw [hev']
        by_cases hij : i = j
        · subst hij
          rw [upd_same]
          have h1 := hk' i hi
          rw [upd_same] at h1
          cases hl : s.events i with
          | nil => rw [hl, hsq] at hlen; simp at hlen; omega
          | cons x xs =>
            rw [hl] at h1 hlen
            rw [List.cons_append] at h1 ⊢
            rw [List.tail_cons]
            rcases List.mem_cons.1 h1 with h1 | h1
            · exfalso
              -- the oldest message is lost, but it is needed later
              obtain ⟨k, hk0⟩ := hnot
              have hkn : (k, T k) ∉ ops ++ [(i, e)] := by
                intro h
                have := hk' k h
                rw [hk0] at this; cases this
              have hki : k ≠ i := by
                rintro rfl
                exact hkn hi
              have h2 := hT.1 k
              rw [hall, List.mem_append] at h2
              rcases h2 with h2 | h2
              · exact hkn h2
              · obtain ⟨p1, p2, hp⟩ := List.append_of_mem h2
                obtain ⟨c, hc, _⟩ := run_history ops s hr i
                have h3 := hT.2 i k
                have h4 := hT.2 k i
                have := hrec (ops ++ [(i, e)] ++ p1) k (T k) p2 (by rw [hall, hp]; simp) i (Ne.symm hki) c (T i)
                  (xs ++ [e] ++ stream p1 i) (by
                    rw [stream_append, stream_snoc_same, hc, hl, h1]; simp) (by omega) (by omega)
                simp only [List.length_append, List.length_cons, List.length_nil] at this hlen
                rw [hsq] at hlen
                omega
            · exact h1
        · rw [upd_ne _ _ hij]
          have := hk' i hi
          rwa [upd_ne _ _ hij] at this

end MF.Epsilon
