import Verif.SimData.SortLemmas

/-! Helper lemmas: every call preserves the invariant, and has the effect of an abstract map update. -/

namespace Verif.SimData

variable {R : Type}

/-- A call is valid if it creates particles of a proper (non-negative) type only. -/
def Op.Valid : Op R → Prop
  | .addFull _ _ t => 0 ≤ t
  | _ => True

theorem liveCount_zero (mem : ℕ → Slot R) : liveCount mem 0 = 0 := by
  have := liveCount_le mem 0; omega

theorem init_inv (c : Cfg R) : Inv (init c) := by
  refine ⟨⟨?_, ?_, ?_, ?_, ?_, ?_, ?_⟩, ?_, ?_⟩ <;> simp [init, liveCount_zero]

/-- Appending a live slot with the next global id. -/
theorem append_inv {s : Store R} (h : Inv s) (v : Slot R) (ht : 0 ≤ v.type) (hg : v.gid = s.next)
    (cap' : ℕ) (hcap : s.size < cap') (nx : ℤ) (hnx : s.next < nx) :
    Inv { s with
      mem := Function.update s.mem s.size v, cap := cap'
      idMap := mapEmplace s.idMap s.next s.size
      next := nx, number := s.number + 1, size := s.size + 1 } := by
  have hnone : s.idMap s.next = none := by
    cases e : s.idMap s.next with
    | none => rfl
    | some i =>
      have := (h.map _ _).1 e
      have := h.gidr i this.1
      omega
  have hmem : ∀ i, i < s.size → Function.update s.mem s.size v i = s.mem i := fun i hi =>
    Function.update_of_ne (by omega) _ _
  refine ⟨⟨?_, ?_, ?_, ?_, ?_, h.dpos, ?_⟩, h.rlSorted, ?_⟩
  · exact hcap
  · simp only
    rw [liveCount_succ, Function.update_self, if_pos ht,
      liveCount_congr (mem' := s.mem) (fun i hi => by rw [hmem i hi]), h.num]
    push_cast; rfl
  · intro g i
    simp only
    unfold mapEmplace
    rw [hnone]
    simp only
    by_cases hg' : g = s.next
    · subst hg'
      rw [Function.update_self]
      constructor
      · intro hi; cases hi; exact ⟨by omega, by simpa using ht, by simpa using hg⟩
      · rintro ⟨h1, h2, h3⟩
        rcases Nat.lt_succ_iff_lt_or_eq.1 h1 with h' | h'
        · rw [hmem i h'] at h3
          have := h.gidr i h'; omega
        · rw [h']
    · rw [Function.update_of_ne hg', h.map]
      constructor
      · rintro ⟨h1, h2, h3⟩; rw [hmem i h1]; exact ⟨by omega, h2, h3⟩
      · rintro ⟨h1, h2, h3⟩
        rcases Nat.lt_succ_iff_lt_or_eq.1 h1 with h' | h'
        · rw [hmem i h'] at h2 h3; exact ⟨h', h2, h3⟩
        · subst h'; rw [Function.update_self] at h3; exact absurd (h3.symm.trans hg) hg'
  · intro i hi
    simp only at hi ⊢
    rcases Nat.lt_succ_iff_lt_or_eq.1 hi with h' | h'
    · rw [hmem i h']; have := h.gidr i h'; omega
    · subst h'; rw [Function.update_self, hg]; exact ⟨h.npos, hnx⟩
  · intro i j hi hj
    simp only at hi hj ⊢
    rcases Nat.lt_succ_iff_lt_or_eq.1 hi with h' | h' <;>
      rcases Nat.lt_succ_iff_lt_or_eq.1 hj with h'' | h''
    · rw [hmem i h', hmem j h'']; exact h.inj i j h' h''
    · subst h''; rw [hmem i h', Function.update_self, hg]; intro e
      have := h.gidr i h'; omega
    · subst h'; rw [hmem j h'', Function.update_self, hg]; intro e
      have := h.gidr j h''; omega
    · omega
  · simp only; have := h.npos; omega
  · intro i
    simp only
    rw [h.rlMem]
    constructor
    · rintro ⟨h1, h2⟩; rw [hmem i h1]; exact ⟨by omega, h2⟩
    · rintro ⟨h1, h2⟩
      rcases Nat.lt_succ_iff_lt_or_eq.1 h1 with h' | h'
      · rw [hmem i h'] at h2; exact ⟨h', h2⟩
      · subst h'; rw [Function.update_self] at h2; omega

theorem cap_inv {s : Store R} (h : Inv s) {cap' : ℕ} (hc : s.size ≤ cap') : Inv { s with cap := cap' } :=
  ⟨⟨hc, h.num, h.map, h.gidr, h.inj, h.dpos, h.npos⟩, h.rlSorted, h.rlMem⟩

theorem addOne_inv {c : Cfg R} {s t : Store R} (h : Inv s) (ht : addOne c true s = some t) : Inv t := by
  unfold addOne at ht
  split at ht
  · rename_i hlt
    simp only [Option.some.injEq] at ht
    subst ht
    exact append_inv h _ (by simp) (by simp) s.cap hlt (s.next + s.dGid) (by have := h.dpos; omega)
  · simp at ht

theorem addLoop_inv {c : Cfg R} : ∀ {n : ℕ} {s t : Store R}, Inv s → addLoop c true n s = some t → Inv t := by
  intro n
  induction n with
  | zero => intro s t h ht; simp [addLoop] at ht; subst ht; exact h
  | succ n ih =>
    intro s t h ht
    simp only [addLoop] at ht
    obtain ⟨u, h1, h2⟩ := Option.bind_eq_some_iff.1 ht
    exact ih (addOne_inv h h1) h2

theorem growBulk_ge (cap size num : ℕ) : cap ≤ growBulk cap size num := by
  unfold growBulk; split <;> omega

theorem growFull_gt {cap size : ℕ} (h : size ≤ cap) : size < growFull cap size := by
  unfold growFull; split <;> omega

theorem addBulk_inv {c : Cfg R} {n : ℤ} {s t : Store R} (h : Inv s) (ht : addBulk c n true s = some t) :
    Inv t := by
  unfold addBulk at ht
  split at ht
  · cases ht; exact h
  · exact addLoop_inv (cap_inv h (le_trans h.size_le (growBulk_ge _ _ _))) ht

theorem addFull_inv {c : Cfg R} {x : List ℚ} {r : R} {ty : ℤ} {s t : Store R} (h : Inv s) (hty : 0 ≤ ty)
    (ht : addFull c x r ty s = some t) : Inv t := by
  unfold addFull at ht
  simp only at ht
  split at ht
  · rename_i hlt
    simp only [Option.some.injEq] at ht
    subst ht
    exact append_inv h _ hty rfl _ hlt _ (by have := h.dpos; omega)
  · simp at ht

theorem setInsert_mem (i : ℕ) : ∀ (l : List ℕ) (j : ℕ), j ∈ setInsert i l ↔ j = i ∨ j ∈ l := by
  intro l
  induction l with
  | nil => intro j; simp [setInsert]
  | cons k l ih =>
    intro j
    unfold setInsert
    split
    · simp
    · split
      · rename_i e; subst e; simp
      · simp only [List.mem_cons, ih]; tauto

theorem setInsert_sorted (i : ℕ) : ∀ (l : List ℕ), l.Pairwise (· < ·) → (setInsert i l).Pairwise (· < ·) := by
  intro l
  induction l with
  | nil => intro _; simp [setInsert]
  | cons k l ih =>
    intro h
    obtain ⟨h1, h2⟩ := List.pairwise_cons.1 h
    unfold setInsert
    split
    · rename_i hik
      refine List.pairwise_cons.2 ⟨fun j hj => ?_, h⟩
      rcases List.mem_cons.1 hj with e | e
      · subst e; exact hik
      · exact lt_trans hik (h1 j e)
    · split
      · exact h
      · refine List.pairwise_cons.2 ⟨fun j hj => ?_, ih h2⟩
        rcases (setInsert_mem i l j).1 hj with e | e
        · subst e; omega
        · exact h1 j e

theorem mark_inv {i : ℤ} {s t : Store R} (h : Inv s) (ht : mark i s = some t) : Inv t := by
  unfold mark at ht
  split at ht
  · simp only at ht
    split at ht
    · cases ht; exact h
    · rename_i hb hl
      push Not at hl
      generalize i.toNat = k at *
      simp only [Option.some.injEq] at ht
      subst ht
      have hne : ∀ j, j ≠ k → Function.update s.mem k
          { s.mem k with type := -1, x := (s.mem k).x.set 0 (-1000000) } j = s.mem j :=
        fun j hj => Function.update_of_ne hj _ _
      have hgid : ∀ j, (Function.update s.mem k
          { s.mem k with type := -1, x := (s.mem k).x.set 0 (-1000000) } j).gid = (s.mem j).gid := by
        intro j
        by_cases e : j = k
        · subst e; simp
        · rw [hne j e]
      refine ⟨⟨h.size_le, ?_, ?_, ?_, ?_, h.dpos, h.npos⟩, setInsert_sorted _ _ h.rlSorted, ?_⟩
      · have := liveCount_update_dead (mem := s.mem) (v := { s.mem k with type := -1, x := (s.mem k).x.set 0 (-1000000) })
          hl.2 hl.1 (by simp)
        have h2 := h.num
        rw [← this] at h2
        simp only
        rw [h2]; push_cast; ring
      · intro g j
        simp only
        rw [hgid]
        by_cases e : j = k
        · subst e
          simp only [Function.update_self]
          constructor
          · intro hj
            by_cases hg : g = (s.mem j).gid
            · subst hg; simp at hj
            · rw [Function.update_of_ne hg] at hj
              exact absurd ((h.map _ _).1 hj).2.2.symm hg
          · rintro ⟨_, h2, _⟩; omega
        · rw [hne j e]
          by_cases hg : g = (s.mem k).gid
          · subst hg
            simp only [Function.update_self, reduceCtorEq, false_iff, not_and]
            intro hj _ hgg
            exact e (h.inj _ _ hj hl.2 hgg)
          · rw [Function.update_of_ne hg, h.map]
      · intro j hj; simp only at hj ⊢; rw [hgid]; exact h.gidr j hj
      · intro j l hj hl'; simp only at hj hl' ⊢; rw [hgid, hgid]; exact h.inj j l hj hl'
      · intro j
        simp only
        rw [setInsert_mem, h.rlMem]
        by_cases e : j = k
        · subst e; simp [hl.2]
        · rw [hne j e]; simp [e]
  · simp at ht

theorem write_inv {i : ℕ} {x : List ℚ} {r : R} {s t : Store R} (h : Inv s) (ht : write i x r s = some t) :
    Inv t := by
  unfold write at ht
  split at ht
  · simp only [Option.some.injEq] at ht
    subst ht
    have ht : ∀ j, (Function.update s.mem i { s.mem i with x := x, rest := r } j).type = (s.mem j).type := by
      intro j
      by_cases e : j = i
      · subst e; simp
      · rw [Function.update_of_ne e]
    have hg : ∀ j, (Function.update s.mem i { s.mem i with x := x, rest := r } j).gid = (s.mem j).gid := by
      intro j
      by_cases e : j = i
      · subst e; simp
      · rw [Function.update_of_ne e]
    refine ⟨⟨h.size_le, ?_, ?_, ?_, ?_, h.dpos, h.npos⟩, h.rlSorted, ?_⟩
    · simp only
      rw [liveCount_congr (mem' := s.mem) (fun j _ => by rw [ht])]; exact h.num
    · intro g j; simp only [ht, hg]; exact h.map g j
    · intro j hj; simp only [hg]; exact h.gidr j hj
    · intro j k; simp only [hg]; exact h.inj j k
    · intro j; simp only [ht]; exact h.rlMem j
  · simp at ht

/-- Sorting: swaps on the compacted store. -/
theorem sortX_spec {c : Cfg R} {s : Store R} (h : Inv s) (hok : s.removeList = [] ∨ 0 < s.number) :
    ∃ u t, removal s = some u ∧ Inv u ∧ u.size = s.number.toNat ∧ (∀ i < u.size, 0 ≤ (u.mem i).type) ∧
      Swaps 0 u.size u t ∧ sortX c s = some { t with needsRemake := true } ∧
      (0 < c.dims → ∀ k l, k ≤ l → l < u.size → (t.mem k).comp 0 ≤ (t.mem l).comp 0) := by
  obtain ⟨t0, u, h1, h2, hm, hi, hc, hs, hn, hx, hd, hr, hlv, -, -⟩ := removal_spec h hok
  have hu := removal_inv h h1
  have hle : s.number.toNat ≤ s.size := by
    have := liveCount_le s.mem s.size; have := h.num; omega
  have hcs := hu.size_le
  obtain ⟨t, q1, q2, q3⟩ := quickSort_spec c.dims 0 _ u 0 (u.size - 1) (le_refl _) (fun _ => by omega)
  refine ⟨u, t, h1, hu, hs, ?_, ?_, ?_, ?_⟩
  · intro i hi'; rw [hm]; exact (hlv i (by omega)).2 (by omega)
  · by_cases h0 : u.size = 0
    · have : quickSort c.dims 0 u 0 (u.size - 1) = some u := by
        unfold quickSort; rw [if_neg (by omega)]
      rw [this] at q1; cases q1; exact .refl _
    · exact q2.mono (le_refl _) (by omega)
  · unfold sortX; rw [h1]; simp [q1]
  · intro hd' k l hkl hl
    exact q3 hd' k l (by omega) hkl (by omega)

theorem sortAll_spec {c : Cfg R} {s : Store R} (h : Inv s) (hok : s.removeList = [] ∨ 0 < s.number) :
    ∃ u t, removal s = some u ∧ Inv u ∧ u.size = s.number.toNat ∧ (∀ i < u.size, 0 ≤ (u.mem i).type) ∧
      Swaps 0 u.size u t ∧ sortAll c s = some { t with needsRemake := true } := by
  obtain ⟨u, t, h1, h2, h3, h4, h5, h6, -⟩ := sortX_spec (c := c) h hok
  have hq : quickSort c.dims 0 u 0 (u.size - 1) = some t ∨ True := Or.inr trivial
  unfold sortX at h6
  rw [h1] at h6
  simp only [Option.bind_some] at h6
  obtain ⟨t', e1, e2⟩ := Option.map_eq_some_iff.1 h6
  have hsw : Swaps 0 u.size u t' := by
    obtain ⟨t2, q1, q2, -⟩ := quickSort_spec c.dims 0 _ u 0 (u.size - 1) (le_refl _)
      (fun _ => by have := h2.size_le; omega)
    rw [e1] at q1; cases q1
    by_cases h0 : u.size = 0
    · have : quickSort c.dims 0 u 0 (u.size - 1) = some u := by
        unfold quickSort; rw [if_neg (by omega)]
      rw [this] at e1; cases e1; exact .refl _
    · exact q2.mono (le_refl _) (by omega)
  have hf := hsw.fields
  have hnum : u.number = u.size := by
    rw [h2.num, liveCount_full h4]
  obtain ⟨t3, r1, r2⟩ := (recursion_spec c.dims (c.dims - 1)).1 t' 0 (t'.size - 1)
    (by have := h2.size_le; omega) (by omega) (le_refl _)
  refine ⟨u, t3, h1, h2, h3, h4, hsw.trans (r2.mono (le_refl _) (by omega)), ?_⟩
  unfold sortAll
  rw [h1]
  simp [e1, r1]

theorem flag_inv {s : Store R} (h : Inv s) (b : Bool) : Inv { s with needsRemake := b } :=
  ⟨⟨h.size_le, h.num, h.map, h.gidr, h.inj, h.dpos, h.npos⟩, h.rlSorted, h.rlMem⟩

/-- Swapping live particles of a compacted store keeps the invariant. -/
theorem swaps_inv {u t : Store R} (h : Inv u) (hl : ∀ i < u.size, 0 ≤ (u.mem i).type)
    (hs : Swaps 0 u.size u t) : Inv t := by
  have hf := hs.fields
  refine ⟨hs.core (le_refl _) h.toCore, ?_, ?_⟩
  · rw [hf.2.2.2.1]; exact h.rlSorted
  · intro i
    rw [hf.2.2.2.1, h.rlMem, hf.2.1]
    have ht := hs.forall (P := fun v => 0 ≤ v.type) (fun k _ hk => hl k hk)
    constructor
    · rintro ⟨h1, h2⟩; have := hl i h1; omega
    · rintro ⟨h1, h2⟩; have := ht i (by omega) h1; omega

/-- A call on a store with everything marked that would compact is undefined. -/
theorem removal_none {s : Store R} (h : Inv s) (h1 : s.removeList ≠ []) (h2 : s.number = 0) :
    removal s = none := by
  cases e : removal s with
  | none => rfl
  | some u =>
    unfold removal at e
    rw [if_neg (by simpa using h1)] at e
    cases hl : s.removeList with
    | nil => exact absurd hl h1
    | cons id l =>
      have : scanLive s.mem s.size = none := by
        rw [scanLive_none]
        apply liveCount_eq_zero.1
        have := h.num; omega
      rw [hl] at e
      simp [removalLoop, this] at e

theorem num_nonneg {s : Store R} (h : Inv s) : 0 ≤ s.number := by have := h.num; omega

theorem removal_isSome_ok {s : Store R} (h : Inv s) {u : Store R} (hu : removal s = some u) :
    s.removeList = [] ∨ 0 < s.number := by
  by_contra hh
  push Not at hh
  have := removal_none h hh.1 (by have := num_nonneg h; omega)
  rw [this] at hu; cases hu

theorem sortX_inv {c : Cfg R} {s t : Store R} (h : Inv s) (ht : sortX c s = some t) : Inv t := by
  have hok : s.removeList = [] ∨ 0 < s.number := by
    unfold sortX at ht
    obtain ⟨u, h1, _⟩ := Option.bind_eq_some_iff.1 ht
    exact removal_isSome_ok h h1
  obtain ⟨u, t', _, h2, _, h4, h5, h6, _⟩ := sortX_spec (c := c) h hok
  rw [h6] at ht; cases ht
  exact flag_inv (swaps_inv h2 h4 h5) true

theorem sortAll_inv {c : Cfg R} {s t : Store R} (h : Inv s) (ht : sortAll c s = some t) : Inv t := by
  have hok : s.removeList = [] ∨ 0 < s.number := by
    unfold sortAll at ht
    obtain ⟨u, h1, _⟩ := Option.bind_eq_some_iff.1 ht
    exact removal_isSome_ok h h1
  obtain ⟨u, t', _, h2, _, h4, h5, h6⟩ := sortAll_spec (c := c) h hok
  rw [h6] at ht; cases ht
  exact flag_inv (swaps_inv h2 h4 h5) true

theorem step_inv {c : Cfg R} {s t : Store R} {op : Op R} (h : Inv s) (hv : op.Valid)
    (ht : step c s op = some t) : Inv t := by
  cases op with
  | addBulk n => exact addBulk_inv h ht
  | addFull x r ty => exact addFull_inv (c := c) h hv ht
  | mark i => exact mark_inv h ht
  | removal => exact removal_inv h ht
  | sortAll => exact sortAll_inv h ht
  | sortX => exact sortX_inv h ht
  | write i x r => exact write_inv h ht
  | clearFlag => simp only [step, Option.some.injEq] at ht; subst ht; exact flag_inv h false

theorem run_inv {c : Cfg R} : ∀ {ops : List (Op R)} {s t : Store R}, Inv s → (∀ op ∈ ops, op.Valid) →
    run c s ops = some t → Inv t := by
  intro ops
  induction ops with
  | nil => intro s t h _ ht; simp [run] at ht; subst ht; exact h
  | cons op ops ih =>
    intro s t h hv ht
    simp only [run] at ht
    obtain ⟨u, h1, h2⟩ := Option.bind_eq_some_iff.1 ht
    exact ih (step_inv h (hv op (by simp)) h1) (fun o ho => hv o (by simp [ho])) h2

end Verif.SimData
