import Verif.Proofs.PyApprox3
import Verif.Proofs.PyExact2
/-
Which messages a call of `add` adds and removes.
-/
namespace MF.Py

variable {n : Nat}

theorem mem_vals {d : Dict Ev} (h : DOk d) {x : Ev} : x ∈ vals d ↔ (x.stamp, x) ∈ d := by
  unfold vals
  simp only [List.mem_map]
  constructor
  · rintro ⟨p, hp, rfl⟩
    rw [h.stamp p hp]
    exact hp
  · intro hx; exact ⟨_, hx, rfl⟩

theorem val_unique {d : Dict Ev} (h : d.keys.Nodup) {k : Int} {a b : Ev} (ha : (k, a) ∈ d) (hb : (k, b) ∈ d) : a = b := by
  have h1 := (get_some h).mpr ha
  have h2 := (get_some h).mpr hb
  rw [h1] at h2
  exact Option.some.inj h2

/-- What inserting a message with eviction does to the messages held. -/
theorem insert_account {s : State n} {q : Int} (hok : ∀ j, DOk (s.queues j)) (hb : ∀ j, ((s.queues j).length : Int) ≤ q)
    {i : Fin n} {e : Ev} {d' : Dict Ev} (hE : Evicted q ((s.queues i).set e.stamp e) d') :
    (∀ j x, x ∈ vals (upd s.queues i d' j) → x ∈ held s j ∨ (j = i ∧ x = e)) ∧
    (∀ j x, (x ∈ held s j ∨ (j = i ∧ x = e)) → x ∉ vals (upd s.queues i d' j) →
      (j = i ∧ x ≠ e ∧ x.stamp = e.stamp) ∨
      (j = i ∧ (∀ y ∈ vals (upd s.queues i d' i), x.stamp < y.stamp) ∧ ((held s i).length : Int) = q)) := by
  have hset := (hok i).set e
  have hd' := hset.sublist hE.sub
  constructor
  · intro j x hx
    by_cases hj : j = i
    · subst hj
      rw [upd_same] at hx
      obtain ⟨p, hp, rfl⟩ := List.mem_map.mp hx
      rcases mem_set.mp (hE.sub.subset hp) with rfl | hp
      · exact Or.inr ⟨rfl, rfl⟩
      · exact Or.inl (List.mem_map.mpr ⟨p, hp.1, rfl⟩)
    · rw [upd_ne _ _ hj] at hx
      exact Or.inl hx
  · intro j x hx hnx
    by_cases hj : j = i
    · subst hj
      rw [upd_same] at hnx ⊢
      by_cases hin : (x.stamp, x) ∈ (s.queues j).set e.stamp e
      · right
        refine ⟨rfl, ?_, ?_⟩
        · intro y hy
          have hk : x.stamp ∉ d'.keys := by
            intro hk
            obtain ⟨v, hv⟩ := mem_keys.mp hk
            have := val_unique hset.nodup hin (hE.sub.subset hv)
            subst this
            exact hnx (List.mem_map.mpr ⟨_, hv, rfl⟩)
          obtain ⟨p, hp, rfl⟩ := List.mem_map.mp hy
          rw [hd'.stamp p hp]
          exact hE.older x.stamp (mem_keys.mpr ⟨_, hin⟩) hk p.1 (mem_keys.mpr ⟨_, hp⟩)
        · have hlen := hE.len
          have hne : ¬ ((((s.queues j).set e.stamp e).length : Int) ≤ q) := by
            intro hle
            have := hE.eq_of_fits hle
            subst this
            exact hnx (List.mem_map.mpr ⟨_, hin, rfl⟩)
          have hl := length_set (s.queues j) e.stamp e
          have := hb j
          simp only [held, List.length_map]
          split at hl <;> omega
      · left
        rcases hx with hx | ⟨_, rfl⟩
        · have hx' := (mem_vals (hok j)).mp hx
          have hst : x.stamp = e.stamp := by
            apply Classical.byContradiction
            intro hne
            exact hin (mem_set.mpr (Or.inr ⟨hx', hne⟩))
          refine ⟨rfl, ?_, hst⟩
          rintro rfl
          exact hin (mem_set.mpr (Or.inl rfl))
        · exact absurd (mem_set.mpr (Or.inl rfl)) hin
    · rw [upd_ne _ _ hj] at hnx
      rcases hx with hx | ⟨hx, _⟩
      · exact absurd hx hnx
      · exact absurd hx hj

/-- The same with one message taken out of each queue. -/
theorem output_account {s : State n} {q : Int} (hok : ∀ j, DOk (s.queues j)) (hb : ∀ j, ((s.queues j).length : Int) ≤ q)
    {i : Fin n} {e : Ev} {d' : Dict Ev} (hE : Evicted q ((s.queues i).set e.stamp e) d') {f : Fin n → Int} {msgs : Fin n → Ev}
    (hg : ∀ j, (upd s.queues i d' j).get (f j) = some (msgs j)) :
    (∀ j x, x ∈ vals ((upd s.queues i d' j).del (f j)) → x ∈ held s j ∨ (j = i ∧ x = e)) ∧
    (∀ j x, (x ∈ held s j ∨ (j = i ∧ x = e)) → x ∉ vals ((upd s.queues i d' j).del (f j)) →
      x = msgs j ∨ (j = i ∧ x ≠ e ∧ x.stamp = e.stamp) ∨
      (j = i ∧ (∀ y ∈ vals ((upd s.queues i d' i).del (f i)), x.stamp < y.stamp) ∧ ((held s i).length : Int) = q)) ∧
    (∀ j, msgs j ∉ vals ((upd s.queues i d' j).del (f j))) := by
  obtain ⟨h1, h2⟩ := insert_account hok hb hE
  have dok := fun j => upd_DOk hok (hE.dok (hok i)) (i := i) j
  have hsub : ∀ j, ∀ x ∈ vals ((upd s.queues i d' j).del (f j)), x ∈ vals (upd s.queues i d' j) :=
    fun j x hx => ((del_sublist _ _).map _).subset hx
  have hmem := fun j => (get_some (dok j).nodup).mp (hg j)
  refine ⟨fun j x hx => h1 j x (hsub j x hx), ?_, ?_⟩
  · intro j x hx hnx
    by_cases hin : x ∈ vals (upd s.queues i d' j)
    · left
      have hx1 := (mem_vals (dok j)).mp hin
      have : x.stamp = f j := by
        apply Classical.byContradiction
        intro hne
        exact hnx (List.mem_map.mpr ⟨_, mem_del.mpr ⟨hx1, hne⟩, rfl⟩)
      rw [this] at hx1
      exact val_unique (dok j).nodup hx1 (hmem j)
    · right
      rcases h2 j x hx hin with h | ⟨h3, h4, h5⟩
      · exact Or.inl h
      · exact Or.inr ⟨h3, fun y hy => h4 y (hsub i y hy), h5⟩
  · intro j hj
    obtain ⟨p, hp, hpe⟩ := List.mem_map.mp hj
    obtain ⟨hp1, hp2⟩ := mem_del.mp hp
    apply hp2
    have := (dok j).stamp p hp1
    rw [← this, hpe]
    exact (dok j).stamp _ (hmem j)

end MF.Py
