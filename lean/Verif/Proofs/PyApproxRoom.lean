import Verif.Spec.EpsilonRoom
import Verif.Proofs.PyApprox3
import Verif.Proofs.PyExact2
/-
The Python ApproximateTimeSynchronizer: what its queues lose does not matter if the inputs stay close enough.
-/
namespace MF.Py

variable {n : Nat}

section Lists

theorem insertBy_filter {α : Type} {le : α → α → Bool} (trans : ∀ a b c, le a b = true → le b c = true → le a c = true)
    (p : α → Bool) (a : α) {l : List α} (h : l.Pairwise (fun a b => le a b = true)) :
    (insertBy le a l).filter p = if p a then insertBy le a (l.filter p) else l.filter p := by
  induction l with
  | nil => cases hp : p a <;> simp [insertBy, hp]
  | cons b l ih =>
    have hb := List.pairwise_cons.1 h
    unfold insertBy
    by_cases hab : le a b = true
    · rw [if_pos hab]
      by_cases hp : p a = true
      · rw [if_pos hp, List.filter_cons_of_pos hp]
        have hall : ∀ x ∈ (b :: l).filter p, le a x = true := by
          intro x hx
          rcases List.mem_cons.1 (List.mem_filter.1 hx).1 with rfl | hx
          · exact hab
          · exact trans _ _ _ hab (hb.1 x hx)
        cases hf : (b :: l).filter p with
        | nil => rfl
        | cons c m =>
          rw [hf] at hall
          show a :: c :: m = if le a c then a :: c :: m else c :: insertBy le a m
          rw [if_pos (hall c (by simp))]
      · rw [if_neg hp, List.filter_cons_of_neg hp]
    · rw [if_neg hab]
      by_cases hpb : p b = true
      · rw [List.filter_cons_of_pos hpb, List.filter_cons_of_pos hpb, ih hb.2]
        by_cases hp : p a = true
        · rw [if_pos hp, if_pos hp]
          show b :: insertBy le a (l.filter p) = if le a b then a :: b :: l.filter p else b :: insertBy le a (l.filter p)
          rw [if_neg hab]
        · rw [if_neg hp, if_neg hp]
      · rw [List.filter_cons_of_neg hpb, List.filter_cons_of_neg hpb, ih hb.2]
        split
        · cases l.filter p <;> rfl
        · rfl

theorem sorted_filter {α : Type} {le : α → α → Bool} (trans : ∀ a b c, le a b = true → le b c = true → le a c = true)
    (total : ∀ a b, (le a b || le b a) = true) (p : α → Bool) (l : List α) :
    sorted le (l.filter p) = (sorted le l).filter p := by
  induction l with
  | nil => rfl
  | cons a l ih =>
    show _ = (insertBy le a (sorted le l)).filter p
    rw [insertBy_filter trans p a (pairwise_sorted trans total l), ← ih]
    by_cases hp : p a = true
    · rw [if_pos hp, List.filter_cons_of_pos hp]; rfl
    · rw [if_neg hp, List.filter_cons_of_neg hp]

theorem topicStamps_filter (slop st : Int) (p : Int → Bool) (d : Dict Ev) :
    topicStamps slop st (d.filter (fun x => p x.1)) = (topicStamps slop st d).filter (fun x => p x.1) := by
  unfold topicStamps Dict.keys
  induction d with
  | nil => rfl
  | cons a d ih =>
    by_cases hp : p a.1 = true
    · rw [List.filter_cons_of_pos (by simpa using hp), List.map_cons, List.filterMap_cons, List.map_cons, List.filterMap_cons]
      by_cases hd : ((a.1 - st).natAbs : Int) > slop
      · simp only [hd, ↓reduceIte]; exact ih
      · simp only [hd, ↓reduceIte]
        rw [List.filter_cons_of_pos (by simpa using hp), ih]
    · rw [List.filter_cons_of_neg (by simpa using hp), List.map_cons, List.filterMap_cons]
      by_cases hd : ((a.1 - st).natAbs : Int) > slop
      · simp only [hd, ↓reduceIte]; exact ih
      · simp only [hd, ↓reduceIte]
        rw [List.filter_cons_of_neg (by simpa using hp), ih]

theorem nearOf_filter (slop st : Int) (p : Int → Bool) (d : Dict Ev) :
    nearOf slop st (d.filter (fun x => p x.1)) = (nearOf slop st d).filter p := by
  unfold nearOf
  rw [topicStamps_filter, sorted_filter, List.filter_map]
  · rfl
  · intro a b c h1 h2; simp only [decide_eq_true_eq] at *; omega
  · intro a b; simp only [Bool.or_eq_true, decide_eq_true_eq]; omega

/-- Every element of the second list satisfies the predicate at its place. -/
def allP : List (Int → Bool) → List Int → Bool
  | p :: ps, x :: v => p x && allP ps v
  | _, _ => true

theorem product_filter : ∀ (ps : List (Int → Bool)) (ls : List (List Int)), ps.length = ls.length →
    (product ls).filter (allP ps) = product (List.zipWith (fun p l => l.filter p) ps ls) := by
  intro ps
  induction ps with
  | nil =>
    intro ls h
    cases ls with
    | nil => rfl
    | cons _ _ => simp at h
  | cons p ps ih =>
    intro ls h
    cases ls with
    | nil => simp at h
    | cons l ls =>
      have ih := ih ls (by simpa using h)
      show ((l.flatMap (fun x => (product ls).map (fun v => x :: v))).filter (allP (p :: ps))) =
        (l.filter p).flatMap (fun x => (product (List.zipWith (fun p l => l.filter p) ps ls)).map (fun v => x :: v))
      rw [← ih]
      clear h
      induction l with
      | nil => rfl
      | cons a l ihl =>
        rw [List.flatMap_cons, List.filter_append, ihl, List.filter_map]
        by_cases hp : p a = true
        · rw [List.filter_cons_of_pos hp, List.flatMap_cons]
          congr 2
          apply List.filter_congr
          intro v _
          show (p a && allP ps v) = allP ps v
          rw [hp, Bool.true_and]
        · rw [List.filter_cons_of_neg hp]
          have : (product ls).filter (allP (p :: ps) ∘ fun v => a :: v) = [] := by
            rw [List.filter_eq_nil_iff]
            intro v _
            show ¬ (p a && allP ps v) = true
            simp [hp]
          rw [this]; rfl

/-- The first element of a kind in two lists that agree on a larger kind. -/
theorem first_same {α : Type} {G : α → Prop} {p : α → Bool} (hG : ∀ a, G a → p a = true) {pre post pre' post' : List α} {a b : α}
    (h : (pre ++ a :: post).filter p = (pre' ++ b :: post').filter p) (ha : G a) (hb : G b) (h1 : ∀ x ∈ pre, ¬ G x)
    (h2 : ∀ x ∈ pre', ¬ G x) : a = b := by
  have key : ∀ (l l' m m' : List α), l ++ a :: m = l' ++ b :: m' → (∀ x ∈ l, ¬ G x) → (∀ x ∈ l', ¬ G x) → a = b := by
    intro l
    induction l with
    | nil =>
      intro l' m m' he h1 h2
      cases l' with
      | nil => simp only [List.nil_append, List.cons.injEq] at he; exact he.1
      | cons x l' =>
        simp only [List.nil_append, List.cons_append, List.cons.injEq] at he
        exact absurd (he.1 ▸ ha) (h2 x (by simp))
    | cons y l ih =>
      intro l' m m' he h1 h2
      cases l' with
      | nil =>
        simp only [List.nil_append, List.cons_append, List.cons.injEq] at he
        exact absurd (he.1 ▸ hb) (h1 y (by simp))
      | cons x l' =>
        simp only [List.cons_append, List.cons.injEq] at he
        exact ih l' m m' he.2 (fun x hx => h1 x (by simp [hx])) (fun x hx => h2 x (by simp [hx]))
  rw [List.filter_append, List.filter_append, List.filter_cons_of_pos (hG a ha), List.filter_cons_of_pos (hG b hb)] at h
  exact key _ _ _ _ h (fun x hx => h1 x (List.mem_filter.1 hx).1) (fun x hx => h2 x (List.mem_filter.1 hx).1)

theorem zip_others {α β γ : Type} (f : α → β → γ) (a : Fin n → α) (b : Fin n → β) (i : Nat) :
    List.zipWith f ((List.ofFn a).take i ++ (List.ofFn a).drop (i + 1)) ((List.ofFn b).take i ++ (List.ofFn b).drop (i + 1)) =
      (List.ofFn (fun j => f (a j) (b j))).take i ++ (List.ofFn (fun j => f (a j) (b j))).drop (i + 1) := by
  have h : List.ofFn (fun j => f (a j) (b j)) = List.zipWith f (List.ofFn a) (List.ofFn b) := by
    apply List.ext_getElem?
    intro k
    simp only [List.getElem?_zipWith, List.getElem?_ofFn]
    by_cases hk : k < n <;> simp [hk]
  rw [h, List.zipWith_append (by simp), List.take_zipWith, List.drop_zipWith]

end Lists

theorem others_mem {α : Type} (a : Fin n → α) (i : Fin n) {k : Nat} {p : α}
    (h : ((List.ofFn a).take i ++ (List.ofFn a).drop (i + 1))[k]? = some p) : ∃ j, j ≠ i ∧ pos i j = k ∧ a j = p := by
  have hlen : ((List.ofFn a).take i).length = i := by simp
  by_cases hk : k < i
  · rw [List.getElem?_append_left (by omega), List.getElem?_take_of_lt hk, List.getElem?_ofFn, dif_pos (by omega)] at h
    cases h
    refine ⟨⟨k, by omega⟩, ?_, ?_, rfl⟩
    · intro he; rw [← he] at hk; exact Nat.lt_irrefl _ hk
    · unfold pos; rw [if_pos hk]
  · rw [List.getElem?_append_right (by omega), hlen, List.getElem?_drop, List.getElem?_ofFn] at h
    by_cases hk' : i + 1 + (k - i) < n
    · rw [dif_pos hk'] at h
      cases h
      refine ⟨⟨i + 1 + (k - i), hk'⟩, ?_, ?_, rfl⟩
      · intro he
        have := congrArg Fin.val he
        simp only at this
        omega
      · unfold pos
        simp only
        rw [if_neg (by omega)]
        omega
    · rw [dif_neg hk'] at h; cases h

theorem allP_of {ps : List (Int → Bool)} {v : List Int} (h : ∀ (k : Nat) p x, ps[k]? = some p → v[k]? = some x → p x = true) :
    allP ps v = true := by
  induction ps generalizing v with
  | nil => rfl
  | cons p ps ih =>
    cases v with
    | nil => rfl
    | cons x v =>
      show (p x && allP ps v) = true
      rw [h 0 p x rfl rfl, Bool.true_and]
      exact ih (fun k p x h1 h2 => h (k + 1) p x h1 h2)

theorem get_filter {d : Dict Ev} {p : Int → Bool} {k : Int} (hp : p k = true) :
    Dict.get (d.filter (fun x => p x.1)) k = d.get k := by
  unfold Dict.get
  congr 1
  induction d with
  | nil => rfl
  | cons a d ih =>
    by_cases ha : a.1 = k
    · rw [List.filter_cons_of_pos (by rw [ha]; exact hp), List.find?_cons_of_pos (by simpa using ha),
        List.find?_cons_of_pos (by simpa using ha)]
    · rw [List.find?_cons_of_neg (by simpa using ha)]
      by_cases hpa : p a.1 = true
      · rw [List.filter_cons_of_pos (by simpa using hpa), List.find?_cons_of_neg (by simpa using ha), ih]
      · rw [List.filter_cons_of_neg (by simpa using hpa), ih]

/-- The queues agree on the stamps that can still be used. -/
def Agree (A : Fin n → Int → Bool) (q q' : Fin n → Dict Ev) : Prop :=
  ∀ j, (q j).filter (fun x => A j x.1) = (q' j).filter (fun x => A j x.1)

theorem Agree.get {A : Fin n → Int → Bool} {q q' : Fin n → Dict Ev} (h : Agree A q q') {j : Fin n} {k : Int} (hk : A j k = true) :
    (q j).get k = (q' j).get k := by
  rw [← get_filter (d := q j) (p := A j) hk, ← get_filter (d := q' j) (p := A j) hk, h j]

theorem Agree.mono {A B : Fin n → Int → Bool} {q q' : Fin n → Dict Ev} (h : Agree A q q')
    (hB : ∀ j x, B j x = true → A j x = true) : Agree B q q' := by
  intro j
  have e : ∀ d : Dict Ev, d.filter (fun x => B j x.1) = (d.filter (fun x => A j x.1)).filter (fun x => B j x.1) := by
    intro d
    rw [List.filter_filter]
    apply List.filter_congr
    intro x _
    cases hb : B j x.1 with
    | false => simp
    | true => simp [hB j x.1 hb]
  exact (e _).trans ((congrArg _ (h j)).trans (e _).symm)

theorem Agree.del {A : Fin n → Int → Bool} {q q' : Fin n → Dict Ev} (h : Agree A q q') (f : Fin n → Int) :
    Agree A (fun j => (q j).del (f j)) (fun j => (q' j).del (f j)) := by
  intro j
  unfold Dict.del
  simp only [List.filter_filter]
  have e : ∀ d : Dict Ev, d.filter (fun x => A j x.1 && decide (x.1 ≠ f j)) =
      (d.filter (fun x => A j x.1)).filter (fun x => decide (x.1 ≠ f j)) := by
    intro d
    rw [List.filter_filter]
    apply List.filter_congr
    intro x _
    exact Bool.and_comm _ _
  rw [e, e, h j]

/-- The searches of two synchronizers whose queues agree give the same result. -/
theorem search_same [NeZero n] {boom : Nat → Bool} {slop st : Int} {i : Fin n} {A : Fin n → Int → Bool} (s s' : State n)
    (hout : s.out = s'.out) (hA : ∀ f : Fin n → Int, f i = st → (∀ a b, f a - f b < slop) → ∀ j, j ≠ i → A j (f j) = true)
    (hag : Agree A s.queues s'.queues) (hi : (s.queues i).get st = (s'.queues i).get st)
    (l l' : List (List Int)) (hl : l = product (((List.ofFn s.queues).take i ++ (List.ofFn s.queues).drop (i + 1)).map (nearOf slop st)))
    (hl' : l' = product (((List.ofFn s'.queues).take i ++ (List.ofFn s'.queues).drop (i + 1)).map (nearOf slop st))) :
    (approxLoop boom slop i st l s).2 = (approxLoop boom slop i st l' s').2 ∧
    (approxLoop boom slop i st l s).1.out = (approxLoop boom slop i st l' s').1.out ∧
    Agree A (approxLoop boom slop i st l s).1.queues (approxLoop boom slop i st l' s').1.queues := by
  let ps : List (Int → Bool) := (List.ofFn A).take i ++ (List.ofFn A).drop (i + 1)
  have hps : ps.length = n - 1 := by
    have := i.2
    simp only [ps, List.length_append, List.length_take, List.length_drop, List.length_ofFn]
    omega
  have hfl : ∀ q : Fin n → Dict Ev, (product (((List.ofFn q).take i ++ (List.ofFn q).drop (i + 1)).map (nearOf slop st))).filter (allP ps) =
      product ((List.ofFn (fun j => nearOf slop st ((q j).filter (fun x => A j x.1)))).take i ++
        (List.ofFn (fun j => nearOf slop st ((q j).filter (fun x => A j x.1)))).drop (i + 1)) := by
    intro q
    rw [product_filter _ _ (by rw [hps, List.length_map, others_length])]
    have e : ((List.ofFn q).take i ++ (List.ofFn q).drop (i + 1)).map (nearOf slop st) =
        (List.ofFn (fun j => nearOf slop st (q j))).take i ++ (List.ofFn (fun j => nearOf slop st (q j))).drop (i + 1) := by
      rw [List.map_append, List.map_take, List.map_drop, List.map_ofFn]
      rfl
    rw [e, zip_others]
    simp only [nearOf_filter]
  have hsame : l.filter (allP ps) = l'.filter (allP ps) := by
    rw [hl, hl', hfl, hfl]
    have : (fun j => nearOf slop st ((s.queues j).filter (fun x => A j x.1))) =
        fun j => nearOf slop st ((s'.queues j).filter (fun x => A j x.1)) := by
      funext j; rw [hag j]
    rw [this]
  have hlen : ∀ (q : Fin n → Dict Ev), ∀ v ∈ product (((List.ofFn q).take i ++ (List.ofFn q).drop (i + 1)).map (nearOf slop st)),
      v.length = n - 1 := by
    intro q v hv
    rw [(mem_product.mp hv).1, List.length_map, others_length]
  have hlen1 : ∀ v ∈ l, v.length = n - 1 := by rw [hl]; exact hlen s.queues
  have hlen2 : ∀ v ∈ l', v.length = n - 1 := by rw [hl']; exact hlen s'.queues
  -- the values of an acceptable combination
  have hget : ∀ v : List Int, (∀ a b, combo v i st a - combo v i st b < slop) → ∀ j,
      (s.queues j).get (combo v i st j) = (s'.queues j).get (combo v i st j) := by
    intro v hsp j
    by_cases hj : j = i
    · subst hj; rw [combo_self]; exact hi
    · exact hag.get (hA _ (combo_self v i st) hsp j hj)
  have hgood : ∀ v : List Int, v.length = n - 1 → (Good slop s.queues i st v ↔ Good slop s'.queues i st v) := by
    intro v hv
    rw [good_iff hv, good_iff hv]
    constructor
    · rintro ⟨h1, h2⟩
      exact ⟨fun j => by rw [← get_isSome, ← hget v h2 j, get_isSome]; exact h1 j, h2⟩
    · rintro ⟨h1, h2⟩
      exact ⟨fun j => by rw [← get_isSome, hget v h2 j, get_isSome]; exact h1 j, h2⟩
  have hGA : ∀ v, (Good slop s.queues i st v ∧ v.length = n - 1) → allP ps v = true := by
    rintro v ⟨hg, hv⟩
    have hm := (good_iff hv).1 hg
    apply allP_of
    intro k p x hp hx
    obtain ⟨j, hj, hpos, rfl⟩ := others_mem A i hp
    have := hA _ (combo_self v i st) hm.2 j hj
    rw [combo, if_neg hj, hpos, hx] at this
    exact this
  rcases approxLoop_spec (boom := boom) (slop := slop) (i := i) (st := st) l s with ⟨h1, h2⟩ | ⟨pre, v, post, msgs, h1, h2, h3, h4, h5⟩
  · rcases approxLoop_spec (boom := boom) (slop := slop) (i := i) (st := st) l' s' with ⟨k1, k2⟩ | ⟨pre', v', post', msgs', k1, k2, k3, k4, k5⟩
    · rw [h2, k2]; exact ⟨rfl, hout, hag⟩
    · exfalso
      have hv' : v' ∈ l' := by rw [k1]; simp
      have hg := (hgood v' (hlen2 v' hv')).2 k3
      have hmem : v' ∈ l'.filter (allP ps) := List.mem_filter.2 ⟨hv', hGA v' ⟨hg, hlen2 v' hv'⟩⟩
      rw [← hsame] at hmem
      exact h1 v' (List.mem_filter.1 hmem).1 hg
  · have hv : v ∈ l := by rw [h1]; simp
    rcases approxLoop_spec (boom := boom) (slop := slop) (i := i) (st := st) l' s' with ⟨k1, k2⟩ | ⟨pre', v', post', msgs', k1, k2, k3, k4, k5⟩
    · exfalso
      have hmem : v ∈ l.filter (allP ps) := List.mem_filter.2 ⟨hv, hGA v ⟨h3, hlen1 v hv⟩⟩
      rw [hsame] at hmem
      exact k1 v (List.mem_filter.1 hmem).1 ((hgood v (hlen1 v hv)).1 h3)
    · have hv' : v' ∈ l' := by rw [k1]; simp
      have hvv : v = v' := by
        have hs2 := hsame
        rw [h1, k1] at hs2
        refine first_same (G := fun v => Good slop s.queues i st v ∧ v.length = n - 1) hGA hs2 ⟨h3, hlen1 v hv⟩
          ⟨(hgood v' (hlen2 v' hv')).2 k3, hlen2 v' hv'⟩ (fun x hx hg => h2 x hx hg.1) (fun x hx hg => ?_)
        exact k2 x hx ((hgood x hg.2).1 hg.1)
      subst hvv
      have hm := (good_iff (hlen1 v hv)).1 h3
      have hmsgs : msgs = msgs' := by
        rw [insert_eq_ofFn v i st (hlen1 v hv)] at h4 k4
        have e : (fun j : Fin n => ((List.ofFn (combo v i st))[j.1]?).bind (fun t => (s.queues j).get t)) =
            fun j : Fin n => ((List.ofFn (combo v i st))[j.1]?).bind (fun t => (s'.queues j).get t) := by
          funext j
          simp only [List.getElem?_ofFn, j.2, ↓reduceDIte, Option.bind_some, Fin.eta]
          exact hget v hm.2 j
        rw [e, k4] at h4
        exact (Option.some.inj h4).symm
      subst hmsgs
      rw [h5, k5, hout]
      by_cases hb : boom s'.out.length = true
      · rw [if_pos hb, if_pos hb]; exact ⟨rfl, rfl, hag⟩
      · rw [if_neg hb, if_neg hb]
        exact ⟨rfl, rfl, hag.del _⟩

/-- A stamp of input `j` that a message still to come can be put together with: some other input is not past it yet. -/
def alive (slop : Int) (ops : List (Fin n × Ev)) (j : Fin n) (x : Int) : Bool :=
  (List.finRange n).any (fun k => decide (k ≠ j) && (stream ops k).all (fun y => decide (y.stamp < x + slop)))

theorem alive_iff {slop : Int} {ops : List (Fin n × Ev)} {j : Fin n} {x : Int} :
    alive slop ops j x = true ↔ ∃ k, k ≠ j ∧ ∀ y ∈ stream ops k, y.stamp < x + slop := by
  simp [alive]

theorem alive_prefix {slop : Int} {ops more : List (Fin n × Ev)} {j : Fin n} {x : Int} (h : alive slop (ops ++ more) j x = true) :
    alive slop ops j x = true := by
  obtain ⟨k, h1, h2⟩ := alive_iff.1 h
  exact alive_iff.2 ⟨k, h1, fun y hy => h2 y (by rw [stream_append]; exact List.mem_append_left _ hy)⟩

/-- Eviction removes no stamp that can still be used. -/
theorem evict_keeps {q : Int} {slop : Int} {ops : List (Fin n × Ev)} {i : Fin n} {d d' : Dict Ev} (hd : DOk d)
    (hfrom : ∀ p ∈ d, p.2 ∈ stream ops i) (hE : Evicted q d d')
    (hroom : ∀ j, j ≠ i → ((Epsilon.notBehind (slop - 1) ops i j).length : Int) ≤ q) :
    d'.filter (fun x => alive slop ops i x.1) = d.filter (fun x => alive slop ops i x.1) := by
  have hmem : ∀ p ∈ d, alive slop ops i p.1 = true → p ∈ d' := by
    intro p hp ha
    have hk : p.1 ∈ d'.keys := by
      apply Classical.byContradiction
      intro hn
      obtain ⟨k, hki, hy⟩ := alive_iff.1 ha
      have holder := hE.older p.1 (mem_keys.2 ⟨p.2, hp⟩) hn
      have hnd : (p.1 :: d'.keys).Nodup := List.nodup_cons.2 ⟨hn, hd.nodup.sublist (hE.sub.map _)⟩
      have hle := nodup_subset_length hnd (l' := (Epsilon.notBehind (slop - 1) ops i k).map (·.stamp)) (by
        have key : ∀ p' ∈ d, p.1 ≤ p'.1 → p'.1 ∈ (Epsilon.notBehind (slop - 1) ops i k).map (·.stamp) := by
          intro p' hp' hle
          refine List.mem_map.2 ⟨p'.2, ?_, hd.stamp p' hp'⟩
          unfold Epsilon.notBehind
          rw [List.mem_filter, List.all_eq_true]
          refine ⟨hfrom p' hp', fun y hyk => ?_⟩
          have := hy y hyk
          have := hd.stamp p' hp'
          rw [decide_eq_true_eq]
          omega
        intro x hx
        rcases List.mem_cons.1 hx with rfl | hx
        · exact key p hp (Int.le_refl _)
        · obtain ⟨v, hv⟩ := mem_keys.1 hx
          have := holder x hx
          exact key (x, v) (hE.sub.subset hv) (by simp only; omega))
      rw [List.length_cons, List.length_map] at hle
      have hr := hroom k hki
      have hl := hE.len
      have hkl : d'.keys.length = d'.length := by simp [Dict.keys]
      split at hl
      · -- nothing is evicted
        have := List.Sublist.eq_of_length hE.sub (by omega)
        rw [this] at hn
        exact hn (mem_keys.2 ⟨p.2, hp⟩)
      · omega
    obtain ⟨v, hv⟩ := mem_keys.1 hk
    have h1 := (get_some hd.nodup).2 (hE.sub.subset hv)
    have h2 := (get_some hd.nodup).2 (show (p.1, p.2) ∈ d from hp)
    rw [h1] at h2
    cases h2
    exact hv
  have hnd : d.Nodup := List.Pairwise.of_map (·.1) (fun a b h e => h (by rw [e])) hd.nodup
  refine (hE.sub.filter _).eq_of_length_le ?_
  refine (hnd.sublist List.filter_sublist).length_le_of_subset ?_
  intro p hp
  obtain ⟨h1, h2⟩ := List.mem_filter.1 hp
  exact List.mem_filter.2 ⟨hmem p h1 h2, h2⟩

/-- The newest stamp is not evicted. -/
theorem evict_newest {q : Int} (hq : 1 ≤ q) {d d' : Dict Ev} (hE : Evicted q d d') {k : Int} (hk : k ∈ d.keys)
    (hmax : ∀ x ∈ d.keys, x ≤ k) : k ∈ d'.keys := by
  apply Classical.byContradiction
  intro hn
  have hl := hE.len
  split at hl
  · have := List.Sublist.eq_of_length hE.sub (by omega)
    rw [this] at hn
    exact hn hk
  · cases hd : d' with
    | nil => rw [hd] at hl; simp at hl; omega
    | cons p l =>
      have hp : p.1 ∈ d'.keys := mem_keys.2 ⟨p.2, by rw [hd]; simp⟩
      have h1 := hE.older k hk hn p.1 hp
      have h2 := hmax p.1 ((hE.sub.map _).subset hp)
      omega

theorem product_nil {ls : List (List Int)} (h : [] ∈ ls) : product ls = [] := by
  cases hp : product ls with
  | nil => rfl
  | cons v _ =>
    have hv : v ∈ product ls := by rw [hp]; simp
    obtain ⟨k, hk⟩ := List.mem_iff_getElem?.1 h
    have hl := (mem_product.mp hv).1
    have hkl : k < v.length := by rw [hl]; exact (List.getElem?_eq_some_iff.mp hk).1
    obtain ⟨l, h1, h2⟩ := (mem_product.mp hv).2 k v[k] (List.getElem?_eq_getElem hkl)
    rw [hk] at h1
    cases h1
    cases h2

theorem approxAdd_eq [NeZero n] (boom : Nat → Bool) (slop : Int) (allow : Bool) (s : State n) (hok : ∀ j, DOk (s.queues j))
    (hq : 0 ≤ s.queueSize) (hl : s.locked = false) (i : Fin n) (m : Msg) (hm : (m.header || allow) = true) :
    ∃ d', Evicted s.queueSize ((s.queues i).set m.ev.stamp m.ev) d' ∧
      approxAdd boom slop allow s i m =
        .ok ({ (approxLoop boom slop i m.ev.stamp (product (((List.ofFn (upd s.queues i d')).take i ++
          (List.ofFn (upd s.queues i d')).drop (i + 1)).map (nearOf slop m.ev.stamp))) { s with queues := upd s.queues i d' }).1 with
          locked := (approxLoop boom slop i m.ev.stamp (product (((List.ofFn (upd s.queues i d')).take i ++
          (List.ofFn (upd s.queues i d')).drop (i + 1)).map (nearOf slop m.ev.stamp))) { s with queues := upd s.queues i d' }).2 },
          (approxLoop boom slop i m.ev.stamp (product (((List.ofFn (upd s.queues i d')).take i ++
          (List.ofFn (upd s.queues i d')).drop (i + 1)).map (nearOf slop m.ev.stamp))) { s with queues := upd s.queues i d' }).2) := by
  have hset := (hok i).set m.ev
  obtain ⟨d', hev, hE⟩ := evict_spec hq (((s.queues i).set m.ev.stamp m.ev).length + 1) _ hset.nodup (by omega)
  refine ⟨d', hE, ?_⟩
  unfold approxAdd
  rw [if_neg (by revert hm; cases m.header <;> cases allow <;> simp), if_neg (by simp [hl])]
  dsimp only
  rw [hev]
  dsimp only
  cases hn : nearStamps slop m.ev.stamp
      ((List.ofFn (upd s.queues i d')).take i ++ (List.ofFn (upd s.queues i d')).drop (i + 1)) with
  | none =>
    obtain ⟨d, hd, hfar⟩ := nearStamps_none hn
    have hnil : nearOf slop m.ev.stamp d = [] := by
      rw [List.eq_nil_iff_forall_not_mem]
      intro x hx
      rw [mem_nearOf] at hx
      exact hfar x hx.1 hx.2
    rw [product_nil (List.mem_map.2 ⟨d, hd, hnil⟩)]
    simp only [approxLoop]
    rw [← hl]
  | some stamps =>
    rw [nearStamps_some hn]

/-- What two synchronizers with different queue sizes have in common. -/
structure Like (slop : Int) (ops : List (Fin n × Ev)) (s s' : State n) : Prop where
  out : s.out = s'.out
  locked : s.locked = s'.locked
  queues : Agree (alive slop ops) s.queues s'.queues

theorem agree_set {A : Fin n → Int → Bool} {q q' : Fin n → Dict Ev} (h : Agree A q q') (i : Fin n) (k : Int) (v : Ev) :
    ((q i).set k v).filter (fun x => A i x.1) = ((q' i).set k v).filter (fun x => A i x.1) := by
  have key : ∀ d : Dict Ev, (d.set k v).filter (fun x => A i x.1) =
      if A i k then Dict.set (d.filter (fun x => A i x.1)) k v else d.filter (fun x => A i x.1) := by
    intro d
    have hmap : ∀ l : Dict Ev, (l.map (fun p => if p.1 = k then (k, v) else p)).filter (fun x => A i x.1) =
        (l.filter (fun x => A i x.1)).map (fun p => if p.1 = k then (k, v) else p) := by
      intro l
      rw [List.filter_map]
      congr 1
      apply List.filter_congr
      intro x _
      by_cases hx : x.1 = k <;> simp [hx]
    by_cases hA : A i k = true
    · rw [if_pos hA]
      have hk : k ∈ d.keys ↔ k ∈ Dict.keys (d.filter (fun x => A i x.1)) := by
        rw [mem_keys, mem_keys]
        simp [hA]
      unfold Dict.set
      by_cases hkd : k ∈ d.keys
      · rw [if_pos hkd, if_pos (hk.1 hkd), hmap]
      · rw [if_neg hkd, if_neg (fun h => hkd (hk.2 h)), List.filter_append, List.filter_cons_of_pos (p := fun x : Int × Ev => A i x.1) hA]
        rfl
    · rw [if_neg hA]
      unfold Dict.set
      by_cases hkd : k ∈ d.keys
      · rw [if_pos hkd, hmap]
        conv => rhs; rw [← List.map_id (d.filter (fun x => A i x.1))]
        apply List.map_congr_left
        intro x hx
        have := (List.mem_filter.1 hx).2
        rw [if_neg]
        · rfl
        · intro he; rw [he] at this; exact hA this
      · rw [if_neg hkd, List.filter_append, List.filter_cons_of_neg (p := fun x : Int × Ev => A i x.1) hA]
        simp
  rw [key, key, h i]

theorem accepted_append (allow : Bool) (ops more : List (Fin n × Msg)) :
    accepted allow (ops ++ more) = accepted allow ops ++ accepted allow more := by
  unfold accepted
  rw [List.filter_append, List.map_append]

/-- One call. -/
theorem approxAdd_like [NeZero n] {boom : Nat → Bool} {slop q q' : Int} {allow : Bool} (hq : 1 ≤ q) (hq' : 1 ≤ q')
    (ops : List (Fin n × Msg)) (i : Fin n) (m : Msg) (s s' : State n)
    (h : approxRun boom slop allow (construct n q) ops = .ok s) (h' : approxRun boom slop allow (construct n q') ops = .ok s')
    (hts : ∀ j, TimeSorted (stream (accepted allow (ops ++ [(i, m)])) j))
    (hroom : ∀ a b, a ≠ b → ((Epsilon.notBehind (slop - 1) (accepted allow (ops ++ [(i, m)])) a b).length : Int) ≤ q)
    (hroom' : ∀ a b, a ≠ b → ((Epsilon.notBehind (slop - 1) (accepted allow (ops ++ [(i, m)])) a b).length : Int) ≤ q')
    (hlike : Like slop (accepted allow ops) s s') :
    (approxAdd boom slop allow s i m = .error .hang ∧ approxAdd boom slop allow s' i m = .error .hang) ∨
    ∃ t t' r r', approxAdd boom slop allow s i m = .ok (t, r) ∧ approxAdd boom slop allow s' i m = .ok (t', r') ∧
      Like slop (accepted allow (ops ++ [(i, m)])) t t' := by
  obtain ⟨_, hI, hsq⟩ := approxRun_induction (P := fun _ _ => True) trivial (fun _ _ _ _ _ _ _ _ _ _ _ => trivial) ops s h
  obtain ⟨_, hI', hsq'⟩ := approxRun_induction (P := fun _ _ => True) trivial (fun _ _ _ _ _ _ _ _ _ _ _ => trivial) ops s' h'
  have hfrom := (approx_from ops s h).1
  have hfrom' := (approx_from ops s' h').1
  by_cases hm : (m.header || allow) = true
  · cases hl : s.locked with
    | true =>
      left
      have hl' : s'.locked = true := by rw [← hlike.locked, hl]
      have hc : (!m.header && !allow) = false := by revert hm; cases m.header <;> cases allow <;> simp
      unfold approxAdd
      rw [hc, hl, hl']
      exact ⟨rfl, rfl⟩
    | false =>
      right
      have hl' : s'.locked = false := by rw [← hlike.locked, hl]
      have hacc : accepted allow (ops ++ [(i, m)]) = accepted allow ops ++ [(i, m.ev)] := by rw [accepted_snoc, if_pos hm]
      rw [hacc] at hts hroom hroom' ⊢
      obtain ⟨d, hE, he⟩ := approxAdd_eq boom slop allow s hI.ok (by omega) hl i m hm
      obtain ⟨d', hE', he'⟩ := approxAdd_eq boom slop allow s' hI'.ok (by omega) hl' i m hm
      rw [hsq] at hE
      rw [hsq'] at hE'
      have hag := hlike.queues.mono (B := alive slop (accepted allow ops ++ [(i, m.ev)])) (fun j x hx => alive_prefix hx)
      have hsetfrom : ∀ (s : State n), (∀ j, ∀ p ∈ s.queues j, (j, p.2) ∈ accepted allow ops) →
          ∀ p ∈ (s.queues i).set m.ev.stamp m.ev, p.2 ∈ stream (accepted allow ops ++ [(i, m.ev)]) i := by
        intro s hf p hp
        rw [mem_stream]
        rcases mem_set.1 hp with rfl | hp
        · simp
        · exact List.mem_append_left _ (hf i p hp.1)
      have hmax : ∀ (s : State n), (∀ j, DOk (s.queues j)) → (∀ j, ∀ p ∈ s.queues j, (j, p.2) ∈ accepted allow ops) →
          ∀ x ∈ Dict.keys ((s.queues i).set m.ev.stamp m.ev), x ≤ m.ev.stamp := by
        intro s hok hf x hx
        rcases mem_keys_set.1 hx with rfl | hx
        · exact Int.le_refl _
        · obtain ⟨v, hv⟩ := mem_keys.1 hx
          have h1 := hf i _ hv
          have h2 := (hok i).stamp _ hv
          have h3 := hts i
          rw [stream_append] at h3
          have h4 := (List.pairwise_append.1 h3).2.2 v (mem_stream.2 h1) m.ev (by simp [stream])
          simp only at h2
          omega
      have hkeep := evict_keeps (slop := slop) ((hI.ok i).set m.ev) (hsetfrom s hfrom) hE (fun j hj => hroom i j (Ne.symm hj))
      have hkeep' := evict_keeps (slop := slop) ((hI'.ok i).set m.ev) (hsetfrom s' hfrom') hE' (fun j hj => hroom' i j (Ne.symm hj))
      have hnew : ∀ {q : Int} (s : State n) (d : Dict Ev), 1 ≤ q → (∀ j, DOk (s.queues j)) →
          (∀ j, ∀ p ∈ s.queues j, (j, p.2) ∈ accepted allow ops) → Evicted q ((s.queues i).set m.ev.stamp m.ev) d →
          d.get m.ev.stamp = some m.ev := by
        intro q s d hq hok hf hE
        have hk := evict_newest hq hE (mem_keys_set.2 (Or.inl rfl)) (hmax s hok hf)
        obtain ⟨v, hv⟩ := mem_keys.1 hk
        have hset := (hok i).set m.ev
        have h1 : ((m.ev.stamp, m.ev) : Int × Ev) ∈ (s.queues i).set m.ev.stamp m.ev := mem_set.2 (Or.inl rfl)
        have h2 := (get_some hset.nodup).2 h1
        have h3 := (get_some hset.nodup).2 (hE.sub.subset hv)
        rw [h2] at h3
        cases h3
        exact (get_some (hset.sublist hE.sub).nodup).2 hv
      have hag2 : Agree (alive slop (accepted allow ops ++ [(i, m.ev)])) (upd s.queues i d) (upd s'.queues i d') := by
        intro j
        by_cases hj : j = i
        · subst hj
          rw [upd_same, upd_same, hkeep, hkeep']
          exact agree_set hag j _ _
        · rw [upd_ne _ _ hj, upd_ne _ _ hj]
          exact hag j
      have hA : ∀ f : Fin n → Int, f i = m.ev.stamp → (∀ a b, f a - f b < slop) → ∀ j, j ≠ i →
          alive slop (accepted allow ops ++ [(i, m.ev)]) j (f j) = true := by
        intro f hfi hsp j hj
        refine alive_iff.2 ⟨i, Ne.symm hj, fun y hy => ?_⟩
        have h3 := hts i
        rw [stream_append] at h3 hy
        have h5 : y.stamp ≤ m.ev.stamp := by
          rcases List.mem_append.1 hy with hy | hy
          · exact (List.pairwise_append.1 h3).2.2 y hy m.ev (by simp [stream])
          · have : y = m.ev := by simpa [stream] using hy
            rw [this]; exact Int.le_refl _
        have := hsp i j
        omega
      obtain ⟨r1, r2, r3⟩ := search_same (boom := boom) (slop := slop) (st := m.ev.stamp) (i := i)
        { s with queues := upd s.queues i d } { s' with queues := upd s'.queues i d' } hlike.out hA hag2
        (by simp only [upd_same]; rw [hnew s d hq hI.ok hfrom hE, hnew s' d' hq' hI'.ok hfrom' hE']) _ _ rfl rfl
      exact ⟨_, _, _, _, he, he', r2, r1, r3⟩
  · right
    have hacc : accepted allow (ops ++ [(i, m)]) = accepted allow ops := by rw [accepted_snoc, if_neg hm]; simp
    have hc : (!m.header && !allow) = true := by revert hm; cases m.header <;> cases allow <;> simp
    refine ⟨s, s', false, false, ?_, ?_, by rw [hacc]; exact hlike⟩ <;> unfold approxAdd <;> rw [if_pos hc]

theorem approxRun_like [NeZero n] {boom : Nat → Bool} {slop q q' : Int} {allow : Bool} (hq : 1 ≤ q) (hq' : 1 ≤ q')
    (ops : List (Fin n × Msg)) (hts : ∀ j, TimeSorted (stream (accepted allow ops) j))
    (hroom : ∀ k a b, a ≠ b → ((Epsilon.notBehind (slop - 1) ((accepted allow ops).take k) a b).length : Int) ≤ q)
    (hroom' : ∀ k a b, a ≠ b → ((Epsilon.notBehind (slop - 1) ((accepted allow ops).take k) a b).length : Int) ≤ q') :
    (approxRun boom slop allow (construct n q) ops = .error .hang ∧ approxRun boom slop allow (construct n q') ops = .error .hang) ∨
    ∃ t t', approxRun boom slop allow (construct n q) ops = .ok t ∧ approxRun boom slop allow (construct n q') ops = .ok t' ∧
      Like slop (accepted allow ops) t t' := by
  induction ops using snoc_induction with
  | h0 => exact Or.inr ⟨_, _, rfl, rfl, rfl, rfl, fun _ => rfl⟩
  | hs ops op ih =>
    obtain ⟨i, m⟩ := op
    have happ := accepted_append allow ops [(i, m)]
    have hts0 : ∀ j, TimeSorted (stream (accepted allow ops) j) := by
      intro j
      have := hts j
      rw [happ, stream_append] at this
      exact (List.pairwise_append.1 this).1
    have hpre : ∀ {q : Int}, (∀ k a b, a ≠ b →
        ((Epsilon.notBehind (slop - 1) ((accepted allow (ops ++ [(i, m)])).take k) a b).length : Int) ≤ q) →
        ∀ k a b, a ≠ b → ((Epsilon.notBehind (slop - 1) ((accepted allow ops).take k) a b).length : Int) ≤ q := by
      intro q hr k a b hab
      have := hr (min k (accepted allow ops).length) a b hab
      rw [happ, List.take_append_of_le_length (Nat.min_le_right _ _), List.take_eq_take_min] at this
      rw [List.take_eq_take_min]
      simpa using this
    have hrun : ∀ q : Int, approxRun boom slop allow (construct n q) (ops ++ [(i, m)]) =
        match approxRun boom slop allow (construct n q) ops with
        | .error f => .error f
        | .ok s => (approxAdd boom slop allow s i m).map (·.1) := by
      intro q
      unfold approxRun
      rw [runE_append]
      cases runE (fun s (op : Fin n × Msg) => (approxAdd boom slop allow s op.1 op.2).map (·.1)) (construct n q) ops with
      | error f => rfl
      | ok s =>
        simp only [runE]
        cases approxAdd boom slop allow s i m <;> rfl
    rw [hrun, hrun]
    rcases ih hts0 (hpre hroom) (hpre hroom') with ⟨h1, h2⟩ | ⟨s, s', h1, h2, h3⟩
    · left; rw [h1, h2]; exact ⟨rfl, rfl⟩
    · rw [h1, h2]
      have hfull : ∀ {q : Int}, (∀ k a b, a ≠ b →
          ((Epsilon.notBehind (slop - 1) ((accepted allow (ops ++ [(i, m)])).take k) a b).length : Int) ≤ q) →
          ∀ a b, a ≠ b → ((Epsilon.notBehind (slop - 1) (accepted allow (ops ++ [(i, m)])) a b).length : Int) ≤ q := by
        intro q hr a b hab
        have := hr (accepted allow (ops ++ [(i, m)])).length a b hab
        rwa [List.take_length] at this
      rcases approxAdd_like hq hq' ops i m s s' h1 h2 hts (hfull hroom) (hfull hroom') h3 with ⟨k1, k2⟩ | ⟨t, t', r, r', k1, k2, k3⟩
      · left; simp only [k1, k2]; exact ⟨rfl, rfl⟩
      · right; exact ⟨t, t', by simp only [k1]; rfl, by simp only [k2]; rfl, k3⟩

end MF.Py

namespace MF.Py

variable {n : Nat}

theorem stream_le (ops : List (Fin n × Ev)) (i : Fin n) : (stream ops i).length ≤ ops.length := by
  unfold stream
  rw [List.length_map]
  exact List.length_filter_le _ _

/-- With queues that never overflow every message is in an output set or still held. -/
theorem approx_kept [NeZero n] {slop q : Int} {allow : Bool} (ops : List (Fin n × Msg)) (s : State n)
    (h : approxRun noRaise slop allow (construct n q) ops = .ok s)
    (hq : ∀ j, ((stream (accepted allow ops) j).length : Int) ≤ q) (hd : ∀ j, DistinctStamps (stream (accepted allow ops) j)) :
    s.locked = false ∧ ∀ j, ∀ e ∈ stream (accepted allow ops) j, (∃ t ∈ s.out, t j = e) ∨ (e.stamp, e) ∈ s.queues j := by
  refine (approxRun_induction (boom := noRaise) (slop := slop) (q := q) (allow := allow) (P := fun ops s =>
    (∀ j, ((stream (accepted allow ops) j).length : Int) ≤ q) → (∀ j, DistinctStamps (stream (accepted allow ops) j)) →
    s.locked = false ∧ ∀ j, ∀ e ∈ stream (accepted allow ops) j, (∃ t ∈ s.out, t j = e) ∨ (e.stamp, e) ∈ s.queues j)
    ?_ ?_ ops s h).1 hq hd
  · intro _ _
    exact ⟨rfl, fun j e he => by simp [accepted, stream] at he⟩
  · intro ops s i m s' r hrun hinv hqs ih hadd hq hd
    have hfrom := (approx_from ops s hrun).1
    have happ := accepted_append allow ops [(i, m)]
    have hq0 : ∀ j, ((stream (accepted allow ops) j).length : Int) ≤ q := by
      intro j
      have := hq j
      rw [happ, stream_append, List.length_append] at this
      omega
    have hd0 : ∀ j, DistinctStamps (stream (accepted allow ops) j) := by
      intro j
      have := hd j
      unfold DistinctStamps at this ⊢
      rw [happ, stream_append, List.map_append] at this
      exact (List.nodup_append.1 this).1
    obtain ⟨hl, hkeep⟩ := ih hq0 hd0
    obtain ⟨h1, h2, rfl, rfl⟩ | ⟨hh, _, ⟨hq1, _, _⟩ | ⟨hq1, d', hE, hc⟩⟩ := approxAdd_cases noRaise slop allow s hinv.ok i m s' r hadd
    · have : accepted allow (ops ++ [(i, m)]) = accepted allow ops := by rw [accepted_snoc, if_neg (by simp [h1, h2])]; simp
      rw [this]
      exact ⟨hl, hkeep⟩
    · have := hq i
      omega
    · have hacc : accepted allow (ops ++ [(i, m)]) = accepted allow ops ++ [(i, m.ev)] := by rw [accepted_snoc, if_pos hh]
      rw [hacc] at hq hd ⊢
      -- nothing is evicted
      have hset := (hinv.ok i).set m.ev
      have hall : d' = (s.queues i).set m.ev.stamp m.ev := by
        have hle := nodup_subset_length hset.nodup (l' := (stream (accepted allow ops ++ [(i, m.ev)]) i).map (·.stamp)) (by
          intro x hx
          obtain ⟨v, hv⟩ := mem_keys.1 hx
          refine List.mem_map.2 ⟨v, ?_, hset.stamp _ hv⟩
          rw [mem_stream]
          rcases mem_set.1 hv with h | h
          · cases h; simp
          · exact List.mem_append_left _ (hfrom i _ h.1))
        have hkl : (Dict.keys ((s.queues i).set m.ev.stamp m.ev)).length = ((s.queues i).set m.ev.stamp m.ev).length := by
          simp [Dict.keys]
        rw [hkl, List.length_map] at hle
        have := hq i
        have hlen := hE.len
        rw [if_pos (by omega)] at hlen
        exact hE.sub.eq_of_length (by omega)
      subst hall
      -- what is kept before the search
      have hpre : ∀ j, ∀ e ∈ stream (accepted allow ops ++ [(i, m.ev)]) j, (∃ t ∈ s.out, t j = e) ∨
          (e.stamp, e) ∈ upd s.queues i ((s.queues i).set m.ev.stamp m.ev) j := by
        intro j e he
        rw [stream_append] at he
        by_cases hj : j = i
        · subst hj
          rw [upd_same]
          rcases List.mem_append.1 he with he | he
          · rcases hkeep j e he with h | h
            · exact Or.inl h
            · right
              refine mem_set.2 (Or.inr ⟨h, ?_⟩)
              intro heq
              have := hd j
              unfold DistinctStamps at this
              rw [stream_append, List.map_append, List.nodup_append] at this
              exact this.2.2 e.stamp (List.mem_map.2 ⟨e, he, rfl⟩) m.ev.stamp (by simp [stream]) heq
          · have : e = m.ev := by simpa [stream] using he
            subst this
            exact Or.inr (mem_set.2 (Or.inl rfl))
        · rw [upd_ne _ _ hj]
          rcases List.mem_append.1 he with he | he
          · exact hkeep j e he
          · simp [stream, Ne.symm hj] at he
      have dok := fun j => upd_DOk hinv.ok hset (i := i) j
      rcases hc with ⟨_, rfl, rfl⟩ | ⟨f, msgs, hf, hm, hg, _, ⟨hb, _, _⟩ | ⟨_, rfl, rfl⟩⟩
      · exact ⟨hl, hpre⟩
      · cases hb
      · refine ⟨hl, fun j e he => ?_⟩
        rcases hpre j e he with ⟨t, ht, hte⟩ | h
        · exact Or.inl ⟨t, List.mem_append_left _ ht, hte⟩
        · by_cases hx : e.stamp = f j
          · left
            refine ⟨msgs, by simp, ?_⟩
            have h1 := (get_some (dok j).nodup).2 h
            rw [hx, hg j] at h1
            exact Option.some.inj h1
          · exact Or.inr (mem_del.2 ⟨h, hx⟩)

end MF.Py
