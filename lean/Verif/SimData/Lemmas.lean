import Verif.SimData.Model
import Mathlib.Data.Finset.Card
import Mathlib.Data.List.Range
import Mathlib.Data.List.Perm.Basic
import Mathlib.Data.Finset.Range
import Mathlib.Logic.Equiv.Basic
import Mathlib.Algebra.Group.End
import Mathlib.Data.List.Nodup
import Mathlib.Tactic.Linarith

/-! Helper lemmas for the particle store: invariant, swaps, compaction. -/

namespace Verif.SimData

variable {R : Type}

/-- A slot that holds a particle. -/
def live (s : Store R) (i : ℕ) : Prop := i < s.size ∧ 0 ≤ (s.mem i).type

/-- Number of live slots below `n`. -/
def liveCount (mem : ℕ → Slot R) (n : ℕ) : ℕ :=
  ((Finset.range n).filter (fun i => 0 ≤ (mem i).type)).card

/-- The part of the invariant that does not mention the removal list. -/
structure Core (s : Store R) : Prop where
  size_le : s.size ≤ s.cap
  num : s.number = (liveCount s.mem s.size : ℕ)
  map : ∀ g i, s.idMap g = some i ↔ i < s.size ∧ 0 ≤ (s.mem i).type ∧ (s.mem i).gid = g
  gidr : ∀ i, i < s.size → 0 ≤ (s.mem i).gid ∧ (s.mem i).gid < s.next
  inj : ∀ i j, i < s.size → j < s.size → (s.mem i).gid = (s.mem j).gid → i = j
  dpos : 0 < s.dGid
  npos : 0 ≤ s.next

/-- The full invariant. -/
structure Inv (s : Store R) : Prop extends Core s where
  rlSorted : s.removeList.Pairwise (· < ·)
  rlMem : ∀ i, i ∈ s.removeList ↔ i < s.size ∧ (s.mem i).type < 0

theorem liveCount_succ (mem : ℕ → Slot R) (n : ℕ) :
    liveCount mem (n + 1) = liveCount mem n + if 0 ≤ (mem n).type then 1 else 0 := by
  unfold liveCount
  rw [Finset.range_add_one, Finset.filter_insert]
  split
  · rw [Finset.card_insert_of_notMem] <;> simp
  · simp

theorem liveCount_le (mem : ℕ → Slot R) (n : ℕ) : liveCount mem n ≤ n := by
  induction n with
  | zero => simp [liveCount]
  | succ n ih => rw [liveCount_succ]; split <;> omega

theorem liveCount_congr {mem mem' : ℕ → Slot R} {n : ℕ}
    (h : ∀ i < n, (0 ≤ (mem i).type ↔ 0 ≤ (mem' i).type)) : liveCount mem n = liveCount mem' n := by
  unfold liveCount
  congr 1
  apply Finset.filter_congr
  intro i hi
  exact h i (Finset.mem_range.1 hi)

theorem liveCount_eq_zero {mem : ℕ → Slot R} {n : ℕ} :
    liveCount mem n = 0 ↔ ∀ i < n, (mem i).type < 0 := by
  unfold liveCount
  rw [Finset.card_eq_zero, Finset.filter_eq_empty_iff]
  simp

theorem liveCount_full {mem : ℕ → Slot R} {n : ℕ} (h : ∀ i < n, 0 ≤ (mem i).type) :
    liveCount mem n = n := by
  unfold liveCount
  rw [Finset.filter_true_of_mem]
  · simp
  · intro i hi; exact h i (Finset.mem_range.1 hi)

/-- Marking one live slot lowers the count by one. -/
theorem liveCount_update_dead {mem : ℕ → Slot R} {n i : ℕ} {v : Slot R} (hi : i < n)
    (hl : 0 ≤ (mem i).type) (hv : v.type < 0) :
    liveCount (Function.update mem i v) n + 1 = liveCount mem n := by
  induction n with
  | zero => omega
  | succ n ih =>
    rw [liveCount_succ, liveCount_succ]
    rcases Nat.lt_succ_iff_lt_or_eq.1 hi with h | h
    · have := ih h
      rw [Function.update_of_ne (by omega)]
      omega
    · subst h
      rw [Function.update_self, if_neg (by omega), if_pos hl]
      rw [liveCount_congr (mem' := mem)]
      intro j hj
      rw [Function.update_of_ne (by omega)]

/-! ### Swaps -/

theorem swapMem_apply (mem : ℕ → Slot R) (a b k : ℕ) :
    swapMem mem a b k = mem (Equiv.swap a b k) := by
  unfold swapMem
  by_cases hb : k = b
  · subst hb; simp
  · rw [Function.update_of_ne hb]
    by_cases ha : k = a
    · subst ha; simp
    · rw [Function.update_of_ne ha, Equiv.swap_apply_of_ne_of_ne ha hb]

theorem swap_lt {a b n k : ℕ} (ha : a < n) (hb : b < n) : Equiv.swap a b k < n ↔ k < n := by
  by_cases h1 : k = a
  · subst h1; simp [ha, hb]
  · by_cases h2 : k = b
    · subst h2; simp [ha, hb]
    · rw [Equiv.swap_apply_of_ne_of_ne h1 h2]

theorem liveCount_swap {mem : ℕ → Slot R} {a b n : ℕ} (ha : a < n) (hb : b < n) :
    liveCount (swapMem mem a b) n = liveCount mem n := by
  unfold liveCount
  apply Finset.card_bij (fun i _ => Equiv.swap a b i)
  · intro i hi
    simp only [Finset.mem_filter, Finset.mem_range, swapMem_apply] at hi ⊢
    exact ⟨(swap_lt ha hb).2 hi.1, hi.2⟩
  · intro i _ j _ h; exact (Equiv.swap a b).injective h
  · intro i hi
    simp only [Finset.mem_filter, Finset.mem_range] at hi
    refine ⟨Equiv.swap a b i, ?_, by simp⟩
    simp only [Finset.mem_filter, Finset.mem_range, swapMem_apply, Equiv.swap_apply_self]
    exact ⟨(swap_lt ha hb).2 hi.1, hi.2⟩

theorem swapMem_self (mem : ℕ → Slot R) (a : ℕ) : swapMem mem a a = mem := by
  funext k; rw [swapMem_apply]; simp

theorem swap_core {s : Store R} {a b : ℕ} (h : Core s) (ha : a < s.size) (hb : b < s.size) :
    Core (swap s a b) := by
  refine ⟨h.size_le, ?_, ?_, ?_, ?_, h.dpos, h.npos⟩
  · simp only [swap]; rw [liveCount_swap ha hb]; exact h.num
  · intro g i
    simp only [swap]
    have hga := h.gidr a ha
    have hgb := h.gidr b hb
    by_cases hab : a = b
    · subst hab
      rw [swapMem_self]
      have : swapMap s.idMap (s.mem a).gid (s.mem a).gid a a = s.idMap := by
        unfold swapMap
        by_cases hs : 0 ≤ (s.mem a).gid ∧ (s.idMap (s.mem a).gid).isSome
        · simp only [if_pos hs]
          obtain ⟨i, hi⟩ := Option.isSome_iff_exists.1 hs.2
          have hi' := (h.map _ _).1 hi
          have := h.inj _ _ hi'.1 ha hi'.2.2
          subst this
          funext g
          by_cases hg : g = (s.mem i).gid
          · subst hg; simp [hi]
          · simp [Function.update_of_ne hg]
        · simp only [if_neg hs]
      rw [this]
      exact h.map g i
    · rw [swapMem_apply]
      have key : swapMap s.idMap (s.mem a).gid (s.mem b).gid a b g
          = (s.idMap g).map (Equiv.swap a b) := by
        have hne : (s.mem a).gid ≠ (s.mem b).gid := fun e => hab (h.inj a b ha hb e)
        have mapA : ∀ k, s.idMap (s.mem a).gid = some k → k = a := fun k hk =>
          h.inj _ _ ((h.map _ _).1 hk).1 ha ((h.map _ _).1 hk).2.2
        have mapB : ∀ k, s.idMap (s.mem b).gid = some k → k = b := fun k hk =>
          h.inj _ _ ((h.map _ _).1 hk).1 hb ((h.map _ _).1 hk).2.2
        unfold swapMap
        by_cases hgA : g = (s.mem a).gid
        · subst hgA
          cases e : s.idMap (s.mem a).gid with
          | none =>
            simp only [Option.isSome_none, Bool.false_eq_true, and_false, if_false]
            split
            · rw [Function.update_of_ne hne]; simp [e]
            · simp [e]
          | some k =>
            have := mapA k e; subst this
            simp only [Option.isSome_some, hga.1, and_self, if_true]
            split
            · rw [Function.update_of_ne hne]; simp
            · simp
        · by_cases hgB : g = (s.mem b).gid
          · subst hgB
            cases e : s.idMap (s.mem b).gid with
            | none =>
              simp only [Option.isSome_none, Bool.false_eq_true, and_false, if_false]
              split
              · rw [Function.update_of_ne hgA]; simp [e]
              · simp [e]
            | some k =>
              have := mapB k e; subst this
              simp [hgb.1]
          · have e2 : s.idMap g = (s.idMap g).map (Equiv.swap a b) := by
              cases e : s.idMap g with
              | none => rfl
              | some k =>
                have hk := (h.map _ _).1 e
                have h1 : k ≠ a := fun hh => hgA (by rw [← hk.2.2, hh])
                have h2 : k ≠ b := fun hh => hgB (by rw [← hk.2.2, hh])
                simp [Equiv.swap_apply_of_ne_of_ne h1 h2]
            split <;> split <;>
              (try simp only [Function.update_of_ne hgA, Function.update_of_ne hgB]) <;> exact e2
      rw [key]
      constructor
      · intro he
        obtain ⟨k, hk, hki⟩ := Option.map_eq_some_iff.1 he
        have := (h.map _ _).1 hk
        subst hki
        simp only [Equiv.swap_apply_self]
        exact ⟨(swap_lt ha hb).2 this.1, this.2⟩
      · rintro ⟨h1, h2, h3⟩
        rw [(h.map g (Equiv.swap a b i)).2 ⟨(swap_lt ha hb).2 h1, h2, h3⟩]
        simp
  · intro i hi
    simp only [swap, swapMem_apply]
    exact h.gidr _ ((swap_lt ha hb).2 hi)
  · intro i j hi hj hg
    simp only [swap, swapMem_apply] at hg hi hj
    exact (Equiv.swap a b).injective (h.inj _ _ ((swap_lt ha hb).2 hi) ((swap_lt ha hb).2 hj) hg)

/-- `t` arises from `s` by finitely many swaps of indices in `[lo, hi)`. -/
inductive Swaps (lo hi : ℕ) : Store R → Store R → Prop
  | refl (s) : Swaps lo hi s s
  | step {s t : Store R} {a b : ℕ} (h : Swaps lo hi s t) (ha : lo ≤ a ∧ a < hi) (hb : lo ≤ b ∧ b < hi) :
      Swaps lo hi s (swap t a b)

theorem Swaps.trans {lo hi : ℕ} {s t u : Store R} (h1 : Swaps lo hi s t) (h2 : Swaps lo hi t u) :
    Swaps lo hi s u := by
  induction h2 with
  | refl => exact h1
  | step _ ha hb ih => exact ih.step ha hb

theorem Swaps.mono {lo hi lo' hi' : ℕ} {s t : Store R} (h : Swaps lo hi s t) (hl : lo' ≤ lo)
    (hh : hi ≤ hi') : Swaps lo' hi' s t := by
  induction h with
  | refl => exact .refl _
  | step _ ha hb ih => exact ih.step (by omega) (by omega)

theorem Swaps.fields {lo hi : ℕ} {s t : Store R} (h : Swaps lo hi s t) :
    t.cap = s.cap ∧ t.size = s.size ∧ t.number = s.number ∧ t.removeList = s.removeList ∧
    t.next = s.next ∧ t.dGid = s.dGid := by
  induction h with
  | refl => simp
  | step _ _ _ ih => simpa [swap] using ih

theorem Swaps.core {lo hi : ℕ} {s t : Store R} (h : Swaps lo hi s t) (hh : hi ≤ s.size) (hc : Core s) :
    Core t := by
  induction h with
  | refl => exact hc
  | step hs ha hb ih =>
    have := hs.fields
    exact swap_core ih (by omega) (by omega)

/-- The memory after swaps is the old memory composed with a permutation of `[lo, hi)`. -/
theorem Swaps.perm {lo hi : ℕ} {s t : Store R} (h : Swaps lo hi s t) :
    ∃ σ : Equiv.Perm ℕ, (∀ k, (lo ≤ σ k ∧ σ k < hi) ↔ (lo ≤ k ∧ k < hi)) ∧
      (∀ k, ¬ (lo ≤ k ∧ k < hi) → σ k = k) ∧ (∀ k, t.mem k = s.mem (σ k)) := by
  induction h with
  | refl => exact ⟨1, by simp, by simp, by simp⟩
  | step hs ha hb ih =>
    rename_i t a b
    obtain ⟨σ, h1, h2, h3⟩ := ih
    have hsw : ∀ k, (lo ≤ Equiv.swap a b k ∧ Equiv.swap a b k < hi) ↔ (lo ≤ k ∧ k < hi) := by
      intro k
      by_cases e1 : k = a
      · subst e1; simp [ha, hb]
      · by_cases e2 : k = b
        · subst e2; simp [ha, hb]
        · rw [Equiv.swap_apply_of_ne_of_ne e1 e2]
    refine ⟨σ * Equiv.swap a b, ?_, ?_, ?_⟩
    · intro k; rw [Equiv.Perm.mul_apply, h1, hsw]
    · intro k hk
      have e1 : k ≠ a := by rintro rfl; exact hk ha
      have e2 : k ≠ b := by rintro rfl; exact hk hb
      rw [Equiv.Perm.mul_apply, Equiv.swap_apply_of_ne_of_ne e1 e2, h2 k hk]
    · intro k; simp only [swap, swapMem_apply, Equiv.Perm.mul_apply, h3]

theorem Swaps.mem_outside {lo hi : ℕ} {s t : Store R} (h : Swaps lo hi s t) {k : ℕ}
    (hk : ¬ (lo ≤ k ∧ k < hi)) : t.mem k = s.mem k := by
  obtain ⟨σ, _, h2, h3⟩ := h.perm
  rw [h3, h2 k hk]

theorem Swaps.forall {lo hi : ℕ} {s t : Store R} (h : Swaps lo hi s t) {P : Slot R → Prop}
    (hP : ∀ k, lo ≤ k → k < hi → P (s.mem k)) : ∀ k, lo ≤ k → k < hi → P (t.mem k) := by
  obtain ⟨σ, h1, _, h3⟩ := h.perm
  intro k hl hh
  rw [h3]
  have := (h1 k).2 ⟨hl, hh⟩
  exact hP _ this.1 this.2

/-- All records of the slots below `n`. -/
def recs (mem : ℕ → Slot R) (n : ℕ) : List (Slot R) := (List.range n).map mem

theorem Swaps.recs_perm {lo hi n : ℕ} {s t : Store R} (h : Swaps lo hi s t) (hn : hi ≤ n) :
    (recs t.mem n).Perm (recs s.mem n) := by
  obtain ⟨σ, h1, h2, h3⟩ := h.perm
  have hσ : ∀ k, σ k < n ↔ k < n := by
    intro k
    by_cases hk : lo ≤ k ∧ k < hi
    · have := (h1 k).2 hk; omega
    · rw [h2 k hk]
  have : recs t.mem n = ((List.range n).map σ).map s.mem := by
    simp only [recs, List.map_map]
    apply List.map_congr_left
    intro k _; simp [h3]
  rw [this]
  apply List.Perm.map
  rw [List.perm_ext_iff_of_nodup (List.nodup_range.map σ.injective) List.nodup_range]
  intro k
  simp only [List.mem_map, List.mem_range]
  constructor
  · rintro ⟨j, hj, rfl⟩; exact (hσ j).2 hj
  · intro hk; exact ⟨σ.symm k, by rw [← hσ]; simpa using hk, by simp⟩

/-! ### Compaction -/

theorem scanLive_some {mem : ℕ → Slot R} : ∀ {c k}, scanLive mem c = some k →
    k < c ∧ 0 ≤ (mem k).type ∧ ∀ j, k < j → j < c → (mem j).type < 0 := by
  intro c
  induction c with
  | zero => intro k h; simp [scanLive] at h
  | succ c ih =>
    intro k h
    unfold scanLive at h
    split at h
    · obtain ⟨h1, h2, h3⟩ := ih h
      refine ⟨by omega, h2, fun j hj hjc => ?_⟩
      rcases Nat.lt_succ_iff_lt_or_eq.1 hjc with h' | h'
      · exact h3 j hj h'
      · subst h'; assumption
    · simp at h; subst h
      exact ⟨by omega, by omega, fun j hj hjc => by omega⟩

theorem scanLive_none {mem : ℕ → Slot R} {c : ℕ} :
    scanLive mem c = none ↔ ∀ j < c, (mem j).type < 0 := by
  induction c with
  | zero => simp [scanLive]
  | succ c ih =>
    unfold scanLive
    split
    · rw [ih]
      constructor
      · intro h j hj
        rcases Nat.lt_succ_iff_lt_or_eq.1 hj with h' | h'
        · exact h j h'
        · subst h'; assumption
      · intro h j hj; exact h j (by omega)
    · simp only [reduceCtorEq, false_iff, not_forall]
      exact ⟨c, by omega, by omega⟩

/-- The loop of the compaction: with the live particles that are left. Slots at or above `cb` are dead,
the dead slots below `cb` are exactly the members of the remaining list below `cb`. -/
theorem removalLoop_spec : ∀ (l : List ℕ) (cb : ℕ) (s : Store R),
    l.Pairwise (· < ·) → cb ≤ s.size →
    (∀ j, cb ≤ j → j < s.size → (s.mem j).type < 0) →
    (∀ j, j < cb → ((s.mem j).type < 0 ↔ j ∈ l)) →
    (∃ j, j < cb ∧ 0 ≤ (s.mem j).type) →
    ∃ t n, removalLoop l cb s = some (t, n) ∧ Swaps 0 s.size s t ∧
      (∃ m, ∀ j, j < s.size → (0 ≤ (t.mem j).type ↔ j < m)) ∧
      (n = 0 → t = s) ∧ (t.needsRemake = (s.needsRemake || decide (0 < n))) := by
  intro l
  induction l with
  | nil =>
    intro cb s _ hcb hdead hiff _
    refine ⟨s, 0, rfl, .refl _, ⟨cb, fun j hj => ?_⟩, by simp, by simp⟩
    by_cases h : j < cb
    · have := hiff j h; simp at this; simp [h, this]
    · have := hdead j (by omega) hj; simp [h, this]
  | cons id l ih =>
    intro cb s hp hcb hdead hiff hex
    obtain ⟨hid, hp'⟩ := List.pairwise_cons.1 hp
    unfold removalLoop
    cases e : scanLive s.mem cb with
    | none =>
      obtain ⟨j, hj, hl⟩ := hex
      have := scanLive_none.1 e j hj; omega
    | some c =>
      obtain ⟨hc, hlive, hbetween⟩ := scanLive_some e
      simp only
      by_cases hlt : id < c
      · rw [if_pos hlt]
        have hidead : (s.mem id).type < 0 := (hiff id (by omega)).2 (by simp)
        have hmem : ∀ k, (swap s c id).mem k = s.mem (Equiv.swap c id k) := fun k => by
          simp [swap, swapMem_apply]
        have hsz : (swap s c id).size = s.size := rfl
        obtain ⟨t, n, h1, h2, h3, h4, h5⟩ := ih c (swap s c id) hp' (by rw [hsz]; omega)
          (by
            intro j hj hjs
            rw [hmem]
            by_cases hjc : j = c
            · subst hjc; simpa using hidead
            · rw [Equiv.swap_apply_of_ne_of_ne hjc (by omega)]
              by_cases hh : j < cb
              · exact hbetween j (by omega) hh
              · exact hdead j (by omega) hjs)
          (by
            intro j hj
            rw [hmem]
            by_cases hji : j = id
            · subst hji
              simp only [Equiv.swap_apply_right]
              constructor
              · intro h; omega
              · intro h; exact absurd (hid _ h) (lt_irrefl _)
            · rw [Equiv.swap_apply_of_ne_of_ne (by omega) hji]
              rw [hiff j (by omega)]; simp [hji])
          ⟨id, hlt, by rw [hmem]; simpa using hlive⟩
        refine ⟨t, n + 1, by rw [h1]; rfl, ?_, ?_, by omega, ?_⟩
        · exact (Swaps.step (.refl s) ⟨by omega, by omega⟩ ⟨by omega, by omega⟩).trans h2
        · exact h3
        · rw [h5]; simp [swap]
      · rw [if_neg hlt]
        refine ⟨s, 0, rfl, .refl _, ⟨c + 1, fun j hj => ?_⟩, by simp, by simp⟩
        by_cases h1 : j < cb
        · rcases Nat.lt_trichotomy j c with h | h | h
          · have := hiff j h1
            have hnot : j ∉ id :: l := by
              intro hm
              rcases List.mem_cons.1 hm with h' | h'
              · omega
              · have := hid _ h'; omega
            have : ¬ (s.mem j).type < 0 := fun hh => hnot (this.1 hh)
            constructor <;> intro <;> omega
          · subst h; simp [hlive]
          · have := hbetween j h h1
            constructor <;> intro <;> omega
        · have := hdead j (by omega) hj
          constructor <;> intro <;> omega

theorem liveCount_prefix {mem : ℕ → Slot R} {n m : ℕ}
    (h : ∀ j, j < n → (0 ≤ (mem j).type ↔ j < m)) : liveCount mem n = min n m := by
  induction n with
  | zero => simp [liveCount]
  | succ n ih =>
    rw [liveCount_succ, ih (fun j hj => h j (by omega))]
    have := h n (by omega)
    by_cases hm : n < m
    · rw [if_pos (this.2 hm)]; omega
    · rw [if_neg (fun hh => hm (this.1 hh))]; omega

/-- What `doParticleRemoval` does on a store with at least one live particle, or nothing to remove. -/
theorem removal_spec {s : Store R} (h : Inv s) (hok : s.removeList = [] ∨ 0 < s.number) :
    ∃ t u, removal s = some u ∧ Swaps 0 s.size s t ∧ u.mem = t.mem ∧ u.idMap = t.idMap ∧
      u.cap = s.cap ∧ u.size = s.number.toNat ∧ u.number = s.number ∧ u.next = s.next ∧
      u.dGid = s.dGid ∧ u.removeList = [] ∧
      (∀ j, j < s.size → (0 ≤ (t.mem j).type ↔ j < s.number.toNat)) ∧
      (u.needsRemake = false → t = s) ∧ (s.needsRemake = true → u.needsRemake = true) := by
  unfold removal
  cases hl : s.removeList with
  | nil =>
    rw [if_pos (by simp)]
    have hall : ∀ i < s.size, 0 ≤ (s.mem i).type := by
      intro i hi
      by_contra hh
      have := (h.rlMem i).2 ⟨hi, by omega⟩
      rw [hl] at this; simp at this
    have hnum : s.number = s.size := by rw [h.num, liveCount_full hall]
    refine ⟨s, s, rfl, .refl _, rfl, rfl, rfl, by omega, rfl, rfl, rfl, hl, ?_, by simp, by simp⟩
    intro j hj
    have := hall j hj
    constructor <;> intro <;> omega
  | cons id l =>
    have hpos : 0 < s.number := by rcases hok with h' | h'; (rw [hl] at h'; simp at h'); exact h'
    have hex : ∃ j, j < s.size ∧ 0 ≤ (s.mem j).type := by
      by_contra hh
      push Not at hh
      have := liveCount_eq_zero.2 hh
      have := h.num; omega
    obtain ⟨t, n, h1, h2, ⟨m, h3⟩, h4, h5⟩ := removalLoop_spec (id :: l) s.size s (hl ▸ h.rlSorted) (le_refl _)
      (fun j hj hj' => by omega)
      (fun j hj => by rw [← hl, h.rlMem]; simp [hj]) hex
    have hf := h2.fields
    have hcnt : liveCount t.mem s.size = liveCount s.mem s.size := by
      have := (h2.core (le_refl _) h.toCore).num
      have h0 := h.num
      rw [hf.2.2.1, hf.2.1] at this
      omega
    have hmin := liveCount_prefix h3
    have hnum := h.num
    refine ⟨t, { t with size := t.number.toNat, removeList := [],
                        needsRemake := t.needsRemake || decide (0 < n) },
      by rw [if_neg (by simp), h1]; rfl, h2, rfl, rfl, hf.1, ?_, hf.2.2.1, hf.2.2.2.2.1, hf.2.2.2.2.2, rfl, ?_, ?_, ?_⟩
    · simp [hf.2.2.1]
    · intro j hj
      rw [h3 j hj]
      constructor <;> intro <;> omega
    · intro hr
      simp only [Bool.or_eq_false_iff, decide_eq_false_iff_not] at hr
      exact h4 (by omega)
    · intro hr
      simp [h5, hr]

theorem removal_inv {s u : Store R} (h : Inv s) (hu : removal s = some u) : Inv u := by
  by_cases hok : s.removeList = [] ∨ 0 < s.number
  · obtain ⟨t, u', h1, h2, hm, hi, hc, hs, hn, hx, hd, hr, hlv, -, -⟩ := removal_spec h hok
    rw [h1] at hu; cases hu
    have hf := h2.fields
    have ht := h2.core (le_refl _) h.toCore
    have hle : s.number.toNat ≤ s.size := by
      have := liveCount_le s.mem s.size; have := h.num; omega
    refine ⟨⟨?_, ?_, ?_, ?_, ?_, ?_, ?_⟩, ?_, ?_⟩
    · have := h.size_le; omega
    · rw [hn, hs, hm, liveCount_full]
      · have := h.num; omega
      · intro j hj; exact (hlv j (by omega)).2 hj
    · intro g i
      rw [hi, ht.map, hm, hs, hf.2.1]
      constructor
      · rintro ⟨h1, h2, h3⟩; exact ⟨(hlv i h1).1 h2, h2, h3⟩
      · rintro ⟨h1, h2, h3⟩; exact ⟨by omega, h2, h3⟩
    · intro i hi'
      rw [hm, hx, ← hf.2.2.2.2.1]; exact ht.gidr i (by omega)
    · intro i j hi' hj'
      rw [hm]; exact ht.inj i j (by omega) (by omega)
    · rw [hd]; exact h.dpos
    · rw [hx]; exact h.npos
    · rw [hr]; simp
    · intro i
      rw [hr, hm]
      simp only [List.not_mem_nil, false_iff, not_and, not_lt]
      intro hi'
      exact (hlv i (by omega)).2 (by omega)
  · push Not at hok
    have : removal s = none := by
      unfold removal
      cases hl : s.removeList with
      | nil => exact absurd hl hok.1
      | cons id l =>
        have : scanLive s.mem s.size = none := by
          rw [scanLive_none]
          apply liveCount_eq_zero.1
          have := h.num; omega
        simp [removalLoop, this]
    rw [this] at hu; simp at hu

end Verif.SimData
