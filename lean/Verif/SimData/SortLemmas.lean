import Verif.SimData.Lemmas
import Mathlib.Tactic.Ring

/-! Helper lemmas: correctness of the in-place quick sort of the particle store. -/

namespace Verif.SimData

variable {R : Type}

theorem scanUp_spec (mem : ℕ → Slot R) (cap dim : ℕ) (pivot : ℚ) (i : ℕ)
    (h : ∃ k, i ≤ k ∧ k < cap ∧ pivot ≤ (mem k).comp dim) :
    ∃ r, scanUp mem cap dim pivot i = some r ∧ i ≤ r ∧ r < cap ∧ pivot ≤ (mem r).comp dim ∧
      (∀ k, i ≤ k → k < r → (mem k).comp dim < pivot) := by
  obtain ⟨k, hik, hkc, hk⟩ := h
  induction hn : k - i generalizing i with
  | zero =>
    have : i = k := by omega
    subst this
    unfold scanUp
    rw [dif_pos hkc, if_neg (not_lt.2 hk)]
    exact ⟨i, rfl, le_refl _, hkc, hk, fun k h1 h2 => by omega⟩
  | succ n ih =>
    unfold scanUp
    rw [dif_pos (by omega)]
    by_cases hlt : (mem i).comp dim < pivot
    · rw [if_pos hlt]
      obtain ⟨r, h1, h2, h3, h4, h5⟩ := ih (i + 1) (by omega) (by omega)
      refine ⟨r, h1, by omega, h3, h4, fun k hk1 hk2 => ?_⟩
      rcases Nat.eq_or_lt_of_le hk1 with e | e
      · subst e; exact hlt
      · exact h5 k e hk2
    · rw [if_neg hlt]
      exact ⟨i, rfl, le_refl _, by omega, not_lt.1 hlt, fun k h1 h2 => by omega⟩

theorem scanDown_spec (mem : ℕ → Slot R) (dim : ℕ) (pivot : ℚ) (j : ℕ)
    (h : ∃ k, k < j ∧ (mem k).comp dim ≤ pivot) :
    ∃ r, scanDown mem dim pivot j = some r ∧ r < j ∧ (mem r).comp dim ≤ pivot ∧
      (∀ k, r < k → k < j → pivot < (mem k).comp dim) := by
  induction j with
  | zero => obtain ⟨k, hk, _⟩ := h; omega
  | succ j ih =>
    unfold scanDown
    by_cases hlt : pivot < (mem j).comp dim
    · rw [if_pos hlt]
      obtain ⟨k, hk, hkp⟩ := h
      have : k ≠ j := by rintro rfl; exact absurd hkp (not_le.2 hlt)
      obtain ⟨r, h1, h2, h3, h4⟩ := ih ⟨k, by omega, hkp⟩
      refine ⟨r, h1, by omega, h3, fun k hk1 hk2 => ?_⟩
      rcases Nat.lt_succ_iff_lt_or_eq.1 hk2 with e | e
      · exact h4 k hk1 e
      · subst e; exact hlt
    · rw [if_neg hlt]
      exact ⟨j, rfl, by omega, not_lt.1 hlt, fun k h1 h2 => by omega⟩

theorem scanDown_ge {mem : ℕ → Slot R} {dim : ℕ} {pivot : ℚ} {j r lo : ℕ}
    (h : scanDown mem dim pivot j = some r) (hk : ∃ k, lo ≤ k ∧ k < j ∧ (mem k).comp dim ≤ pivot) :
    lo ≤ r := by
  obtain ⟨k, hlo, hkj, hkp⟩ := hk
  obtain ⟨r', h1, h2, h3, h4⟩ := scanDown_spec mem dim pivot j ⟨k, hkj, hkp⟩
  rw [h] at h1; cases h1
  by_contra hh
  have := h4 k (by omega) hkj
  exact absurd hkp (not_le.2 this)

/-- The loop of the partition. -/
theorem partLoop_spec (dim : ℕ) (pivot : ℚ) (lo hi : ℕ) : ∀ (j : ℕ) (s : Store R) (i : ℕ),
    hi < s.cap → lo ≤ i → i ≤ j → j ≤ hi + 1 →
    (∀ k, lo ≤ k → k < i → (s.mem k).comp dim ≤ pivot) →
    (∀ k, j ≤ k → k ≤ hi → pivot ≤ (s.mem k).comp dim) →
    (∃ k, i ≤ k ∧ k ≤ hi ∧ pivot ≤ (s.mem k).comp dim ∧ (j = hi + 1 → k < hi)) →
    (∃ k, lo ≤ k ∧ k < j ∧ (s.mem k).comp dim ≤ pivot) →
    ∃ t p, partLoop dim pivot s i j = some (t, p) ∧ Swaps lo (hi + 1) s t ∧ lo ≤ p ∧ p < hi ∧
      (∀ k, lo ≤ k → k ≤ p → (t.mem k).comp dim ≤ pivot) ∧
      (∀ k, p < k → k ≤ hi → pivot ≤ (t.mem k).comp dim) := by
  intro j
  induction j using Nat.strong_induction_on with
  | _ j ih =>
    intro s i hcap hlo hij hj hleft hright hup hdown
    obtain ⟨ku, hku1, hku2, hku3, hku4⟩ := hup
    obtain ⟨i', hi1, hi2, hi3, hi4, hi5⟩ := scanUp_spec s.mem s.cap dim pivot i ⟨ku, hku1, by omega, hku3⟩
    have hi'ku : i' ≤ ku := by
      by_contra hh
      have := hi5 ku hku1 (by omega)
      exact absurd hku3 (not_le.2 this)
    obtain ⟨kd, hkd1, hkd2, hkd3⟩ := hdown
    obtain ⟨j', hj1, hj2, hj3, hj4⟩ := scanDown_spec s.mem dim pivot j ⟨kd, hkd2, hkd3⟩
    have hj'lo : lo ≤ j' := scanDown_ge hj1 ⟨kd, hkd1, hkd2, hkd3⟩
    unfold partLoop
    rw [hi1]
    simp only
    split
    · rename_i e; rw [hj1] at e; cases e
    · rename_i jj e
      rw [hj1] at e; cases e
      by_cases hle : j' ≤ i'
      · rw [if_pos hle]
        refine ⟨s, j', rfl, .refl _, hj'lo, ?_, ?_, ?_⟩
        · by_cases hjj : j = hi + 1
          · have := hku4 hjj; omega
          · omega
        · intro k hk1 hk2
          rcases Nat.eq_or_lt_of_le hk2 with e | e
          · subst e; exact hj3
          · by_cases hki : k < i
            · exact hleft k hk1 hki
            · exact le_of_lt (hi5 k (by omega) (by omega))
        · intro k hk1 hk2
          by_cases hkj : j ≤ k
          · exact hright k hkj hk2
          · exact le_of_lt (hj4 k hk1 (by omega))
      · rw [if_neg hle]
        have hmem : ∀ k, (swap s i' j').mem k = s.mem (Equiv.swap i' j' k) := fun k => by
          simp [swap, swapMem_apply]
        have hne : ∀ k, k ≠ i' → k ≠ j' → (swap s i' j').mem k = s.mem k := fun k h1 h2 => by
          rw [hmem, Equiv.swap_apply_of_ne_of_ne h1 h2]
        have hmi : (swap s i' j').mem i' = s.mem j' := by rw [hmem]; simp
        have hmj : (swap s i' j').mem j' = s.mem i' := by rw [hmem]; simp
        obtain ⟨t, p, h1, h2, h3, h4, h5, h6⟩ := ih j' hj2 (swap s i' j') (i' + 1) hcap (by omega)
          (by omega) (by omega)
          (by
            intro k hk1 hk2
            by_cases e : k = i'
            · subst e; rw [hmi]; exact hj3
            · rw [hne k e (by omega)]
              by_cases hki : k < i
              · exact hleft k hk1 hki
              · exact le_of_lt (hi5 k (by omega) (by omega)))
          (by
            intro k hk1 hk2
            by_cases e : k = j'
            · subst e; rw [hmj]; exact hi4
            · rw [hne k (by omega) e]
              by_cases hkj : j ≤ k
              · exact hright k hkj hk2
              · exact le_of_lt (hj4 k (by omega) (by omega)))
          ⟨j', by omega, by omega, by rw [hmj]; exact hi4, by omega⟩
          ⟨i', by omega, by omega, by rw [hmi]; exact hj3⟩
        exact ⟨t, p, h1, (Swaps.step (.refl s) ⟨by omega, by omega⟩ ⟨by omega, by omega⟩).trans h2,
          h3, h4, h5, h6⟩

theorem median3_le_max (a b c : ℚ) : median3 a b c ≤ max a b := by
  unfold median3
  apply max_le
  · exact le_trans (min_le_left _ _) (le_max_left _ _)
  · exact min_le_left _ _

theorem min_le_median3 (a b c : ℚ) : min a b ≤ median3 a b c := le_max_left _ _

theorem partition_spec (dim : ℕ) (s : Store R) (lo hi : ℕ) (hlt : lo < hi) (hcap : hi < s.cap) :
    ∃ t p pivot, partition dim s lo hi = some (t, p) ∧ Swaps lo (hi + 1) s t ∧ lo ≤ p ∧ p < hi ∧
      (∀ k, lo ≤ k → k ≤ p → (t.mem k).comp dim ≤ pivot) ∧
      (∀ k, p < k → k ≤ hi → pivot ≤ (t.mem k).comp dim) := by
  unfold partition
  simp only
  have hmid1 : lo ≤ (lo + hi) / 2 := by omega
  have hmid2 : (lo + hi) / 2 < hi := by omega
  obtain ⟨t, p, h⟩ := partLoop_spec dim
    (median3 ((s.mem lo).comp dim) ((s.mem ((lo + hi) / 2)).comp dim) ((s.mem hi).comp dim))
    lo hi (hi + 1) s lo hcap (le_refl _) (by omega) (le_refl _)
    (fun k h1 h2 => by omega) (fun k h1 h2 => by omega)
    (by
      have := median3_le_max ((s.mem lo).comp dim) ((s.mem ((lo + hi) / 2)).comp dim) ((s.mem hi).comp dim)
      rcases le_max_iff.1 this with h' | h'
      · exact ⟨lo, le_refl _, by omega, h', fun _ => hlt⟩
      · exact ⟨(lo + hi) / 2, hmid1, by omega, h', fun _ => hmid2⟩)
    (by
      have := min_le_median3 ((s.mem lo).comp dim) ((s.mem ((lo + hi) / 2)).comp dim) ((s.mem hi).comp dim)
      rcases min_le_iff.1 this with h' | h'
      · exact ⟨lo, le_refl _, by omega, h'⟩
      · exact ⟨(lo + hi) / 2, hmid1, by omega, h'⟩)
  exact ⟨t, p, _, h⟩

/-- Quick sort never fails, only swaps inside of the range, and sorts the range. -/
theorem quickSort_spec (dims dim : ℕ) : ∀ (n : ℕ) (s : Store R) (lo hi : ℕ), hi - lo ≤ n →
    (lo < hi → hi < s.cap) →
    ∃ t, quickSort dims dim s lo hi = some t ∧ Swaps lo (hi + 1) s t ∧
      (dim < dims → ∀ k l, lo ≤ k → k ≤ l → l ≤ hi → (t.mem k).comp dim ≤ (t.mem l).comp dim) := by
  intro n
  induction n with
  | zero =>
    intro s lo hi hn hcap
    unfold quickSort
    rw [if_neg (by omega)]
    refine ⟨s, rfl, .refl _, fun _ k l h1 h2 h3 => ?_⟩
    have : k = l := by omega
    subst this; exact le_refl _
  | succ n ih =>
    intro s lo hi hn hcap
    unfold quickSort
    by_cases hc : lo < hi ∧ dim < dims
    · rw [if_pos hc]
      obtain ⟨t, p, pivot, h1, h2, h3, h4, h5, h6⟩ := partition_spec dim s lo hi hc.1 (hcap hc.1)
      have hf := h2.fields
      rw [h1]
      simp only
      rw [dif_pos ⟨h3, h4⟩]
      obtain ⟨t1, a1, a2, a3⟩ := ih t lo p (by omega) (fun _ => by have := hcap hc.1; omega)
      have hf1 := a2.fields
      obtain ⟨t2, b1, b2, b3⟩ := ih t1 (p + 1) hi (by omega) (fun _ => by have := hcap hc.1; omega)
      rw [a1]
      refine ⟨t2, by simpa using b1, ?_, ?_⟩
      · exact h2.trans ((a2.mono (le_refl _) (by omega)).trans (b2.mono (by omega) (le_refl _)))
      · intro hd k l hk hkl hl
        have left : ∀ k, lo ≤ k → k ≤ p → (t2.mem k).comp dim ≤ pivot := by
          intro k hk1 hk2
          rw [b2.mem_outside (by omega)]
          exact a2.forall (P := fun x => x.comp dim ≤ pivot) (fun k h1 h2 => h5 k h1 (by omega)) k hk1 (by omega)
        have right : ∀ k, p < k → k ≤ hi → pivot ≤ (t2.mem k).comp dim := by
          intro k hk1 hk2
          refine b2.forall (P := fun x => pivot ≤ x.comp dim) (fun k h1 h2 => ?_) k hk1 (by omega)
          rw [a2.mem_outside (by omega)]
          exact h6 k (by omega) (by omega)
        by_cases hlp : l ≤ p
        · rw [b2.mem_outside (by omega), b2.mem_outside (k := l) (by omega)]
          exact a3 hd k l hk hkl hlp
        · by_cases hkp : k ≤ p
          · exact le_trans (left k hk hkp) (right l (by omega) hl)
          · exact b3 hd k l (by omega) hkl hl
    · rw [if_neg hc]
      refine ⟨s, rfl, .refl _, fun hd k l h1 h2 h3 => ?_⟩
      have : k = l := by
        by_contra; exact hc ⟨by omega, hd⟩
      subst this; exact le_refl _

/-- The additional sorting passes never fail and only swap particles. -/
theorem recursion_spec (dims : ℕ) : ∀ (fuel : ℕ),
    (∀ (s : Store R) (lo hi : ℕ), s.size ≤ s.cap → s.number.toNat = s.size → hi ≤ s.size - 1 →
      ∃ t, recursionHelp dims fuel lo hi s = some t ∧ Swaps 0 s.size s t) ∧
    (∀ (n : ℕ) (s : Store R) (ds i : ℕ), s.size ≤ s.cap → s.number.toNat = s.size → 0 < ds →
      (i + n) * ds ≤ s.size - 1 →
      ∃ t, recursionBins dims fuel ds n i s = some t ∧ Swaps 0 s.size s t) := by
  intro fuel
  induction fuel with
  | zero =>
    have hh : ∀ (s : Store R) (lo hi : ℕ), s.size ≤ s.cap → s.number.toNat = s.size → hi ≤ s.size - 1 →
      ∃ t, recursionHelp dims 0 lo hi s = some t ∧ Swaps 0 s.size s t := by
      intro s lo hi _ _ _
      exact ⟨s, by unfold recursionHelp; rfl, .refl _⟩
    refine ⟨hh, ?_⟩
    intro n
    induction n with
    | zero => intro s ds i _ _ _ _; exact ⟨s, by unfold recursionBins; rfl, .refl _⟩
    | succ n ihn =>
      intro s ds i hcap hnum hds hle
      have hb1 : (i + 1) * ds ≤ s.size - 1 :=
        le_trans (Nat.mul_le_mul_right ds (by omega)) hle
      have hexp : (i + 1) * ds = i * ds + ds := by ring
      unfold recursionBins
      obtain ⟨t1, a1, a2, -⟩ := quickSort_spec dims (dims - (0 + 1)) _ s (i * ds) ((i + 1) * ds) (le_refl _)
        (fun _ => by omega)
      have f1 := a2.fields
      obtain ⟨t2, b1, b2⟩ := hh t1 (i * ds) ((i + 1) * ds) (by omega) (by omega) (by omega)
      have f2 := b2.fields
      obtain ⟨t3, c1, c2⟩ := ihn t2 ds (i + 1) (by omega) (by omega) hds
        (by rw [show i + 1 + n = i + (n + 1) by omega]; omega)
      refine ⟨t3, by rw [a1]; simp only [Option.bind_some]; rw [b1]; simpa using c1, ?_⟩
      refine (a2.mono (by omega) (by omega)).trans (Swaps.trans (t := t2) ?_ ?_)
      · exact b2.mono (by omega) (by omega)
      · exact c2.mono (by omega) (by omega)
  | succ fuel ih =>
    obtain ⟨ihh, ihb⟩ := ih
    have hh : ∀ (s : Store R) (lo hi : ℕ), s.size ≤ s.cap → s.number.toNat = s.size → hi ≤ s.size - 1 →
      ∃ t, recursionHelp dims (fuel + 1) lo hi s = some t ∧ Swaps 0 s.size s t := by
      intro s lo hi hcap hnum hhi
      unfold recursionHelp
      simp only
      by_cases hds : minParticles < (hi - lo) / sortBins
      · rw [if_pos hds]
        have h5 : sortBins * ((hi - lo) / sortBins) ≤ hi - lo := Nat.mul_div_le _ _
        have h0 : 0 < (hi - lo) / sortBins := by omega
        have hs0 : 0 < s.size := by
          by_contra hz
          have : hi - lo = 0 := by omega
          rw [this] at h0; simp [sortBins] at h0
        obtain ⟨t1, a1, a2⟩ := ihb sortBins s ((hi - lo) / sortBins) 0 hcap hnum h0 (by rw [Nat.zero_add]; omega)
        have f1 := a2.fields
        obtain ⟨t2, b1, b2, -⟩ := quickSort_spec dims (dims - (fuel + 1)) _ t1
          (sortBins * ((hi - lo) / sortBins)) (t1.number.toNat - 1) (le_refl _) (fun _ => by rw [f1.2.2.1]; omega)
        have f2 := b2.fields
        obtain ⟨t3, c1, c2⟩ := ihh t2 (sortBins * ((hi - lo) / sortBins)) (t2.number.toNat - 1) (by omega)
          (by rw [f2.2.2.1, f1.2.2.1]; omega) (by rw [f2.2.2.1, f1.2.2.1]; omega)
        refine ⟨t3, by rw [a1]; simp only [Option.bind_some]; rw [b1]; simpa using c1, ?_⟩
        refine a2.trans (Swaps.trans (b2.mono (by omega) ?_) (c2.mono (by omega) (by omega)))
        rw [f1.2.2.1]; omega
      · rw [if_neg hds]; exact ⟨s, rfl, .refl _⟩
    refine ⟨hh, ?_⟩
    intro n
    induction n with
    | zero => intro s ds i _ _ _ _; exact ⟨s, by unfold recursionBins; rfl, .refl _⟩
    | succ n ihn =>
      intro s ds i hcap hnum hds hle
      have hb1 : (i + 1) * ds ≤ s.size - 1 :=
        le_trans (Nat.mul_le_mul_right ds (by omega)) hle
      have hexp : (i + 1) * ds = i * ds + ds := by ring
      unfold recursionBins
      obtain ⟨t1, a1, a2, -⟩ := quickSort_spec dims (dims - (fuel + 1 + 1)) _ s (i * ds) ((i + 1) * ds) (le_refl _)
        (fun _ => by omega)
      have f1 := a2.fields
      obtain ⟨t2, b1, b2⟩ := hh t1 (i * ds) ((i + 1) * ds) (by omega) (by omega) (by omega)
      have f2 := b2.fields
      obtain ⟨t3, c1, c2⟩ := ihn t2 ds (i + 1) (by omega) (by omega) hds
        (by rw [show i + 1 + n = i + (n + 1) by omega]; omega)
      refine ⟨t3, by rw [a1]; simp only [Option.bind_some]; rw [b1]; simpa using c1, ?_⟩
      refine (a2.mono (by omega) (by omega)).trans (Swaps.trans (t := t2) ?_ ?_)
      · exact b2.mono (by omega) (by omega)
      · exact c2.mono (by omega) (by omega)

end Verif.SimData
