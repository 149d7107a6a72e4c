import Verif.SimData.Props

/-!
# More of the particle store: reservation, renumbering, removal of bad particles

Source: `GFlowSim/src/base/simdata.cpp:88-96`, `:158-179`, `:380-394`; `base/particle-data.hpp:73-100`; `base/creator.cpp:131-162`; `other/group.cpp:238-240`.
-/

namespace Verif.SimData

variable {R : Type}

/-! ## Model -/

/-- `SimData::reserve`, with `DataLayout::reserve`, `clear_all` and `resize` (`base/particle-data.hpp:73-109`). The arrays are freed without resetting the capacity, so
the new capacity is the sum; the entries below the old capacity are left uninitialised (`junk`). The comparison `capacity() < num` is one of unsigned numbers, so that it is
true for negative `num`, for which `DataLayout::reserve` then does nothing. Id map, removal list and id counter are not touched. `base/simdata.cpp:88-96`. -/
def reserve (c : Cfg R) (junk : ℕ → Slot R) (num : ℤ) (s : Store R) : Store R :=
  if 0 < s.number ∨ num < 0 ∨ (s.cap : ℤ) < num then
    if 0 < num then
      { s with
        mem := fun i : ℕ => if i < s.cap then junk i else resetSlot c
        cap := s.cap + num.toNat
        number := 0
        size := 0 }
    else { s with number := 0, size := 0 }
  else s

/-- `SimData::shift_global_ids`. `base/simdata.cpp:380-394`. -/
def shiftIds (k : ℤ) (s : Store R) : Store R :=
  { s with
    mem := fun i : ℕ => if i < s.size ∧ 0 ≤ (s.mem i).gid then { s.mem i with gid := (s.mem i).gid + k } else s.mem i
    idMap := fun g => s.idMap (g - k) }

/-- `Creator::correct_global_ids` on the processor `rank`: `sizes` are the numbers of particles of all processors. `base/creator.cpp:131-162`. -/
def correctIds (sizes : List ℕ) (rank : ℕ) (s : Store R) : Store R :=
  let t := if 0 < rank then shiftIds (sizes.take rank).sum s else s
  { t with next := sizes.sum + 1 + rank, dGid := sizes.length }

/-- `Group::shift_global_ids`, called for the groups of bonded forces and modifiers. `other/group.cpp:238-240`, `base/creator.cpp:149-151`. -/
def correctGroup (sizes : List ℕ) (rank : ℕ) (ids : List ℤ) : List ℤ := if 0 < rank then ids.map (· + (sizes.take rank).sum) else ids

/-- The loop of `removeBadParticles`; `bad` says that a component of the position or velocity is not a number. The flag is `removed_some`. `base/simdata.cpp:158-171`. -/
def markBad (bad : List ℚ → R → Bool) : ℕ → Store R → Option (Store R × Bool)
  | 0, s => some (s, false)
  | n + 1, s => (markBad bad n s).bind fun (t, f) =>
    if bad (t.mem n).x (t.mem n).rest then (mark n t).map fun u => (u, true) else some (t, f)

/-- `SimData::removeBadParticles(true)`. `base/simdata.cpp:158-179`. -/
def removeBad (bad : List ℚ → R → Bool) (s : Store R) : Option (Store R × Bool) :=
  (markBad bad s.size s).bind fun (t, f) =>
    if f then (removal t).map fun u => ({ u with needsRemake := true }, true) else some (t, false)

/-! ## Reservation -/

/-- C97: reserving space in a store without entries keeps it consistent and provides the space: the next `num` particles are added without moving the arrays.
Missing: stores with particles, see `C97_negation_stale_ids` and `C97_negation_removal`. -/
theorem C97_reserve_partial (c : Cfg R) (ops : List (Op R)) (hv : ∀ op ∈ ops, op.Valid) (s : Store R) (h : run c (init c) ops = some s) (hs : s.size = 0)
    (junk : ℕ → Slot R) (num : ℕ) :
    let t := reserve c junk num s
    (∀ g, getLocalID t g = none) ∧ t.size = 0 ∧ t.number = 0 ∧ num ≤ t.cap ∧
      ∀ ps : List (List ℚ × R × ℤ), (∀ p ∈ ps, 0 ≤ p.2.2) → ps.length ≤ num →
        ∃ u, run c t (ps.map fun p => .addFull p.1 p.2.1 p.2.2) = some u ∧ u.cap = t.cap ∧ u.size = ps.length := by
  have hi := run_inv (init_inv c) hv h
  intro t
  have hnum : s.number = 0 := by have := hi.num; rw [hs, liveCount_zero] at this; simpa using this
  have hmap : ∀ g, s.idMap g = none := by
    intro g
    match hg : s.idMap g with
    | none => rfl
    | some i => have := (hi.map g i).mp hg; omega
  have ht : t.idMap = s.idMap ∧ t.size = 0 ∧ t.number = 0 ∧ num ≤ t.cap := by
    show (reserve c junk num s).idMap = _ ∧ (reserve c junk num s).size = 0 ∧ (reserve c junk num s).number = 0 ∧ num ≤ (reserve c junk num s).cap
    unfold reserve
    split
    · split
      · exact ⟨rfl, rfl, rfl, by simp⟩
      · exact ⟨rfl, rfl, rfl, by simp; omega⟩
    · exact ⟨rfl, hs, hnum, by omega⟩
  refine ⟨fun g => by unfold getLocalID; rw [ht.1]; exact hmap g, ht.2.1, ht.2.2.1, ht.2.2.2, ?_⟩
  have key : ∀ (ps : List (List ℚ × R × ℤ)) (u : Store R), u.size + ps.length ≤ u.cap →
      ∃ w, run c u (ps.map fun p => .addFull p.1 p.2.1 p.2.2) = some w ∧ w.cap = u.cap ∧ w.size = u.size + ps.length := by
    intro ps
    induction ps with
    | nil => intro u _; exact ⟨u, rfl, rfl, rfl⟩
    | cons p ps ih =>
      intro u hu
      rw [List.length_cons] at hu
      have hg : growFull u.cap u.size = u.cap := by unfold growFull; rw [if_neg (by omega)]
      obtain ⟨w, h1, h2, h3⟩ := ih
        { u with
          cap := u.cap
          mem := Function.update u.mem u.size { resetSlot c with x := p.1, rest := p.2.1, type := p.2.2, gid := u.next }
          idMap := mapEmplace u.idMap u.next u.size
          next := u.next + 1 + u.dGid
          number := u.number + 1
          size := u.size + 1 } (by simp only; omega)
      refine ⟨w, ?_, h2, by rw [h3, List.length_cons]; simp only; omega⟩
      simp only [List.map_cons, run, step, addFull, hg]
      rw [if_pos (by omega : u.size < u.cap)]
      exact h1
  intro ps _ hps
  obtain ⟨u, h1, h2, h3⟩ := key ps t (by rw [ht.2.1]; omega)
  exact ⟨u, h1, h2, by rw [h3, ht.2.1]; omega⟩

/-- A store whose particles were all removed again has no entries. -/
example : (run demoCfg (init demoCfg) []).map Store.size = some 0 := rfl

/-- C97 is false for every store with particles: after `reserve` there are none, but the look-up of each old id still yields an index. -/
theorem C97_negation_stale_ids (c : Cfg R) (ops : List (Op R)) (hv : ∀ op ∈ ops, op.Valid) (s : Store R) (h : run c (init c) ops = some s) (g : ℤ) (r : Rec R)
    (hg : Holds s g r) (junk : ℕ → Slot R) (num : ℤ) :
    let t := reserve c junk num s
    t.size = 0 ∧ (∀ g' r', ¬ Holds t g' r') ∧ ∃ i, getLocalID t g = some i := by
  have hi := run_inv (init_inv c) hv h
  obtain ⟨i, h1, h2, h3, _⟩ := hg
  have hpos : 0 < s.number := by
    rw [hi.num]
    have : liveCount s.mem s.size ≠ 0 := fun hz => by have := liveCount_eq_zero.mp hz i h1; omega
    omega
  intro t
  have ht : t.size = 0 ∧ t.idMap = s.idMap := by
    show (reserve c junk num s).size = 0 ∧ (reserve c junk num s).idMap = s.idMap
    unfold reserve
    rw [if_pos (Or.inl hpos)]
    split <;> exact ⟨rfl, rfl⟩
  refine ⟨ht.1, ?_, i, ?_⟩
  · rintro g' r' ⟨k, hk, _⟩
    rw [ht.1] at hk
    omega
  · unfold getLocalID
    rw [ht.2]
    exact (hi.map g i).mpr ⟨h1, h2, h3⟩

/-- C97 is false for every store with a pending removal, if `reserve` takes effect: the next compaction reads outside the arrays. -/
theorem C97_negation_removal (c : Cfg R) (s : Store R) (junk : ℕ → Slot R) (num : ℤ) (hl : s.removeList ≠ []) (he : 0 < s.number ∨ (s.cap : ℤ) < num) :
    removal (reserve c junk num s) = none := by
  have ht : (reserve c junk num s).size = 0 ∧ (reserve c junk num s).removeList = s.removeList := by
    unfold reserve
    rw [if_pos (by tauto)]
    split <;> exact ⟨rfl, rfl⟩
  unfold removal
  rw [ht.1, ht.2, if_neg (by simpa using hl)]
  match hr : s.removeList with
  | [] => exact absurd hr hl
  | id :: l => simp [removalLoop, scanLive]

/-- Such stores are reached: two particles, one of them removed. -/
example : ∃ s, run demoCfg (init demoCfg) [.addFull [1, 1] 0 0, .addFull [2, 2] 0 0, .mark 0] = some s ∧ s.removeList ≠ [] ∧ 0 < s.number :=
  ⟨_, rfl, by decide, by decide⟩

/-! ## Renumbering -/

theorem correctIds_eq (sizes : List ℕ) (rank : ℕ) {s : Store R} (h : Inv s) :
    (correctIds sizes rank s).size = s.size ∧
    (∀ g, (correctIds sizes rank s).idMap g = s.idMap (g - (if 0 < rank then ((sizes.take rank).sum : ℤ) else 0))) ∧
    (∀ i, i < s.size → (correctIds sizes rank s).mem i = { s.mem i with gid := (s.mem i).gid + (if 0 < rank then ((sizes.take rank).sum : ℤ) else 0) }) := by
  unfold correctIds
  by_cases hr : 0 < rank
  · simp only [if_pos hr]
    refine ⟨rfl, fun g => rfl, fun i hi => ?_⟩
    simp only [shiftIds]
    rw [if_pos ⟨hi, (h.gidr i hi).1⟩]
  · simp only [if_neg hr]
    exact ⟨trivial, fun g => by simp, fun i hi => by simp⟩

/-- C98: the renumbering at the end of the setup adds the same number (that of the particles of the processors before) to the id of every particle, changes nothing else, and keeps
look-ups exact; the groups of bonded forces and modifiers keep referring to the same particles. -/
theorem C98_renumbering (c : Cfg R) (ops : List (Op R)) (hv : ∀ op ∈ ops, op.Valid) (s : Store R) (h : run c (init c) ops = some s) (sizes : List ℕ) (rank : ℕ) :
    (∀ g r, Holds (correctIds sizes rank s) (g + (if 0 < rank then ((sizes.take rank).sum : ℤ) else 0)) r ↔ Holds s g r) ∧
    (∀ g i, getLocalID (correctIds sizes rank s) g = some i ↔ ∃ r, Holds (correctIds sizes rank s) g r ∧ i < (correctIds sizes rank s).size ∧ 0 ≤ ((correctIds sizes rank s).mem i).type ∧
      ((correctIds sizes rank s).mem i).gid = g) ∧
    (∀ ids : List ℤ, (correctGroup sizes rank ids).length = ids.length ∧ ∀ k, ∀ h1 : k < ids.length, ∀ h2 : k < (correctGroup sizes rank ids).length, ∀ r,
      Holds (correctIds sizes rank s) (correctGroup sizes rank ids)[k] r ↔ Holds s ids[k] r) := by
  have hi := run_inv (init_inv c) hv h
  obtain ⟨e1, e2, e3⟩ := correctIds_eq sizes rank hi
  have hH : ∀ g r, Holds (correctIds sizes rank s) (g + (if 0 < rank then ((sizes.take rank).sum : ℤ) else 0)) r ↔ Holds s g r := by
    intro g r
    constructor
    · rintro ⟨i, h1, h2, h3, h4⟩
      rw [e1] at h1
      rw [e3 i h1] at h2 h3 h4
      exact ⟨i, h1, h2, by simpa using h3, h4⟩
    · rintro ⟨i, h1, h2, h3, h4⟩
      refine ⟨i, by rw [e1]; exact h1, ?_, ?_, ?_⟩
      · rw [e3 i h1]; exact h2
      · rw [e3 i h1]; simpa using h3
      · rw [e3 i h1]; exact h4
  refine ⟨hH, ?_, ?_⟩
  · intro g i
    unfold getLocalID
    rw [e2, hi.map, e1]
    constructor
    · rintro ⟨h1, h2, h3⟩
      refine ⟨_, ⟨i, by rw [e1]; exact h1, ?_, ?_, rfl⟩, h1, ?_, ?_⟩
      · rw [e3 i h1]; exact h2
      · rw [e3 i h1]; simp only; omega
      · rw [e3 i h1]; exact h2
      · rw [e3 i h1]; simp only; omega
    · rintro ⟨_, _, h1, h2, h3⟩
      rw [e3 i h1] at h2 h3
      simp only at h2 h3
      exact ⟨h1, h2, by omega⟩
  · intro ids
    by_cases hr : 0 < rank
    · simp only [if_pos hr] at hH
      simp only [correctGroup, if_pos hr]
      refine ⟨by simp, fun k h1 h2 r => ?_⟩
      rw [List.getElem_map]
      exact hH _ _
    · simp only [if_neg hr, add_zero] at hH
      simp only [correctGroup, if_neg hr]
      exact ⟨trivial, fun k h1 h2 r => hH _ _⟩

example : ((run demoCfg (init demoCfg) [.addFull [1, 1] 0 0, .addFull [2, 2] 0 0]).map fun s =>
    ((getLocalID (correctIds [5, 2] 1 s) 7), ((correctIds [5, 2] 1 s).mem 1).gid, (correctIds [5, 2] 1 s).next)) = some (some 1, 7, 9) := by rfl

/-! ## Bad particles -/

theorem mark_slot {s : Store R} (h : Inv s) {i : ℕ} (hi : i < s.size) : ∃ t, mark i s = some t ∧ Inv t ∧ t.size = s.size ∧ (∀ k, k ≠ i → t.mem k = s.mem k) ∧ (t.mem i).type < 0 := by
  have hcap : i < s.cap := lt_of_lt_of_le hi h.size_le
  by_cases hd : (s.mem i).type < 0
  · have ht : mark (i : ℤ) s = some s := by
      unfold mark
      rw [if_pos ⟨by omega, by exact_mod_cast hcap⟩]
      simp only [Int.toNat_natCast]
      rw [if_pos (Or.inl hd)]
    exact ⟨s, ht, h, rfl, fun _ _ => rfl, hd⟩
  · obtain ⟨t, ht, hm, hs⟩ : ∃ t, mark (i : ℤ) s = some t ∧ t.mem = Function.update s.mem i { s.mem i with type := -1, x := (s.mem i).x.set 0 (-1000000) } ∧ t.size = s.size := by
      unfold mark
      rw [if_pos ⟨by omega, by exact_mod_cast hcap⟩]
      simp only [Int.toNat_natCast]
      rw [if_neg (by omega : ¬ ((s.mem i).type < 0 ∨ s.size ≤ i))]
      exact ⟨_, rfl, rfl, rfl⟩
    refine ⟨t, ht, mark_inv h ht, hs, fun k hk => by rw [hm, Function.update_of_ne hk], by rw [hm, Function.update_self]; simp⟩

theorem markBad_spec (bad : List ℚ → R → Bool) {s : Store R} (h : Inv s) : ∀ n : ℕ, n ≤ s.size →
    ∃ t f, markBad bad n s = some (t, f) ∧ Inv t ∧ t.size = s.size ∧ (f = true ↔ ∃ i < n, bad (s.mem i).x (s.mem i).rest = true) ∧
      (∀ i, i < n → bad (s.mem i).x (s.mem i).rest = true → (t.mem i).type < 0) ∧
      (∀ i, (n ≤ i ∨ bad (s.mem i).x (s.mem i).rest = false) → t.mem i = s.mem i) ∧ (f = false → t = s) := by
  intro n
  induction n with
  | zero => intro _; exact ⟨s, false, rfl, h, rfl, by simp, by simp, fun _ _ => rfl, fun _ => rfl⟩
  | succ n ih =>
    intro hn
    obtain ⟨t, f, h1, h2, h3, h4, h5, h6, h7⟩ := ih (by omega)
    have hmem : t.mem n = s.mem n := h6 n (Or.inl le_rfl)
    simp only [markBad, h1, Option.bind_some, hmem]
    cases hb : bad (s.mem n).x (s.mem n).rest with
    | true =>
      obtain ⟨u, u1, u2, u3, u4, u5⟩ := mark_slot h2 (i := n) (by omega)
      refine ⟨u, true, by simp [u1], u2, u3.trans h3, by simp only [true_iff]; exact ⟨n, by omega, hb⟩, ?_, ?_, by simp⟩
      · intro i hi hbi
        by_cases hin : i = n
        · subst hin; exact u5
        · rw [u4 i hin]; exact h5 i (by omega) hbi
      · intro i hi
        have hin : i ≠ n := by
          rintro rfl
          rcases hi with hi | hi
          · omega
          · rw [hb] at hi; cases hi
        rw [u4 i hin]
        exact h6 i (hi.imp (by omega) id)
    | false =>
      refine ⟨t, f, by simp, h2, h3, ?_, ?_, ?_, h7⟩
      · rw [h4]
        constructor
        · rintro ⟨i, hi, hbi⟩; exact ⟨i, by omega, hbi⟩
        · rintro ⟨i, hi, hbi⟩
          refine ⟨i, ?_, hbi⟩
          rcases Nat.lt_or_ge i n with h | h
          · exact h
          · obtain rfl : i = n := by omega
            rw [hb] at hbi; cases hbi
      · intro i hi hbi
        have : i ≠ n := by rintro rfl; rw [hb] at hbi; cases hbi
        exact h5 i (by omega) hbi
      · intro i hi
        by_cases hin : i = n
        · subst hin; exact hmem
        · exact h6 i (by rcases hi with hi | hi <;> [left; right] <;> [omega; exact hi])

/-- C99: unless no good particle is left, the removal of bad particles is defined and removes exactly the bad ones; it says whether a slot was bad, and then asks for new
neighbour lists. If no slot is bad nothing changes.
Missing: the case that no good particle is left (`C99_negation_all_bad`). -/
theorem C99_bad_particles_partial (c : Cfg R) (ops : List (Op R)) (hv : ∀ op ∈ ops, op.Valid) (s : Store R) (h : run c (init c) ops = some s) (bad : List ℚ → R → Bool)
    (hgood : (∃ g r, Holds s g r ∧ bad r.x r.rest = false) ∨ ∀ i < s.size, bad (s.mem i).x (s.mem i).rest = false) :
    ∃ t f, removeBad bad s = some (t, f) ∧ (∀ g r, Holds t g r ↔ Holds s g r ∧ bad r.x r.rest = false) ∧
      (f = true ↔ ∃ i < s.size, bad (s.mem i).x (s.mem i).rest = true) ∧ (f = true → t.needsRemake = true) ∧ (f = false → t = s) ∧
      (∀ g i, getLocalID t g = some i ↔ i < t.size ∧ 0 ≤ (t.mem i).type ∧ (t.mem i).gid = g) := by
  have hi := run_inv (init_inv c) hv h
  obtain ⟨t, f, h1, h2, h3, h4, h5, h6, h7⟩ := markBad_spec bad hi s.size le_rfl
  have hold : ∀ g r, Holds t g r ↔ Holds s g r ∧ bad r.x r.rest = false := by
    intro g r
    constructor
    · rintro ⟨i, a1, a2, a3, a4⟩
      rw [h3] at a1
      have hb : bad (s.mem i).x (s.mem i).rest = false := by
        cases hb : bad (s.mem i).x (s.mem i).rest with
        | false => rfl
        | true => have := h5 i a1 hb; omega
      rw [h6 i (Or.inr hb)] at a2 a3 a4
      exact ⟨⟨i, a1, a2, a3, a4⟩, by rw [← a4]; exact hb⟩
    · rintro ⟨⟨i, a1, a2, a3, a4⟩, hb⟩
      have hb' : bad (s.mem i).x (s.mem i).rest = false := by rw [← a4] at hb; exact hb
      exact ⟨i, by rw [h3]; exact a1, by rw [h6 i (Or.inr hb')]; exact a2, by rw [h6 i (Or.inr hb')]; exact a3, by rw [h6 i (Or.inr hb')]; exact a4⟩
  unfold removeBad
  simp only [h1, Option.bind_some]
  cases f with
  | false =>
    exact ⟨t, false, by simp, hold, by simpa using h4, by simp, fun _ => h7 rfl, h2.map⟩
  | true =>
    simp only [if_true]
    obtain ⟨i, hi1, hi2⟩ := h4.mp rfl
    have hpos : 0 < t.number := by
      rcases hgood with ⟨g, r, hg, hb⟩ | hall
      · obtain ⟨k, a1, a2, _, _⟩ := (hold g r).mpr ⟨hg, hb⟩
        rw [h2.num]
        have : liveCount t.mem t.size ≠ 0 := fun hz => by have := liveCount_eq_zero.mp hz k a1; omega
        omega
      · rw [hall i hi1] at hi2; cases hi2
    obtain ⟨_, u, u1, _⟩ := removal_spec h2 (Or.inr hpos)
    have hu := removal_inv h2 u1
    refine ⟨{ u with needsRemake := true }, true, by simp [u1], fun g r => ?_, by simpa using h4, fun _ => rfl, by simp, hu.map⟩
    rw [holds_flag, holds_removal h2 u1]
    exact hold g r

/-- C99 is false when no good particle is left: the compaction reads outside the arrays. -/
theorem C99_negation_all_bad (c : Cfg R) (ops : List (Op R)) (hv : ∀ op ∈ ops, op.Valid) (s : Store R) (h : run c (init c) ops = some s) (bad : List ℚ → R → Bool)
    (hbad : ∃ i < s.size, bad (s.mem i).x (s.mem i).rest = true) (hall : ∀ g r, Holds s g r → bad r.x r.rest = true) : removeBad bad s = none := by
  have hi := run_inv (init_inv c) hv h
  obtain ⟨t, f, h1, h2, h3, h4, h5, h6, h7⟩ := markBad_spec bad hi s.size le_rfl
  unfold removeBad
  simp only [h1, Option.bind_some, h4.mpr hbad, if_true]
  obtain ⟨i, hi1, hi2⟩ := hbad
  rw [removal_none h2]
  · rfl
  · intro hl
    have := (h2.rlMem i).mpr ⟨by omega, h5 i hi1 hi2⟩
    rw [hl] at this
    simp at this
  · rw [h2.num]
    have : liveCount t.mem t.size = 0 := by
      rw [liveCount_eq_zero]
      intro k hk
      by_contra hc
      push Not at hc
      rw [h3] at hk
      cases hb : bad (s.mem k).x (s.mem k).rest with
      | true => have := h5 k hk hb; omega
      | false =>
        rw [h6 k (Or.inr hb)] at hc
        have := hall _ _ ⟨k, hk, hc, rfl, rfl⟩
        simp only [Slot.toRec] at this
        rw [this] at hb
        cases hb
    exact_mod_cast this

/-- Three particles of which the second is bad. -/
example : ((run demoCfg (init demoCfg) [.addFull [1, 1] 0 0, .addFull [2, 2] 5 0, .addFull [3, 3] 0 0]).bind fun s =>
    (removeBad (fun _ r => r == 5) s).map fun (t, f) => (t.size, (t.mem 0).gid, (t.mem 1).gid, f)) = some (2, 0, 4, true) := by rfl

end Verif.SimData
