import Verif.SimData.Steps
import Verif.SimData.Spec

/-! Helper lemmas: the store refines the abstract map. -/

namespace Verif.SimData

variable {R : Type}

theorem Holds.unique {s : Store R} (h : Inv s) {g : ℤ} {r r' : Rec R} (h1 : Holds s g r) (h2 : Holds s g r') :
    r = r' := by
  obtain ⟨i, a1, a2, a3, a4⟩ := h1
  obtain ⟨j, b1, b2, b3, b4⟩ := h2
  have := h.inj i j a1 b1 (a3.trans b3.symm)
  subst this
  exact a4.symm.trans b4

theorem holds_swaps {s t : Store R} (h : Swaps 0 s.size s t) (g : ℤ) (r : Rec R) :
    Holds t g r ↔ Holds s g r := by
  obtain ⟨σ, h1, h2, h3⟩ := h.perm
  have hf := h.fields
  unfold Holds
  rw [hf.2.1]
  constructor
  · rintro ⟨i, a1, a2, a3, a4⟩
    rw [h3] at a2 a3 a4
    exact ⟨σ i, ((h1 i).2 ⟨by omega, a1⟩).2, a2, a3, a4⟩
  · rintro ⟨i, a1, a2, a3, a4⟩
    refine ⟨σ.symm i, ?_, ?_, ?_, ?_⟩
    · have := (h1 (σ.symm i)).1 (by simpa using a1); exact this.2
    all_goals rw [h3]; simpa

theorem holds_removal {s u : Store R} (h : Inv s) (hu : removal s = some u) (g : ℤ) (r : Rec R) :
    Holds u g r ↔ Holds s g r := by
  obtain ⟨t, u', h1, h2, hm, hi, hc, hs, hn, hx, hd, hr, hlv, -, -⟩ :=
    removal_spec h (removal_isSome_ok h hu)
  rw [h1] at hu; cases hu
  have hf := h2.fields
  have hle : s.number.toNat ≤ s.size := by
    have := liveCount_le s.mem s.size; have := h.num; omega
  rw [← holds_swaps h2]
  unfold Holds
  rw [hm, hs, hf.2.1]
  constructor
  · rintro ⟨i, a1, a2, a3⟩; exact ⟨i, by omega, a2, a3⟩
  · rintro ⟨i, a1, a2, a3⟩; exact ⟨i, (hlv i a1).1 a2, a2, a3⟩

theorem holds_flag {s : Store R} {b : Bool} {g : ℤ} {r : Rec R} :
    Holds { s with needsRemake := b } g r ↔ Holds s g r := Iff.rfl

theorem holds_sortX {c : Cfg R} {s t : Store R} (h : Inv s) (ht : sortX c s = some t) (g : ℤ) (r : Rec R) :
    Holds t g r ↔ Holds s g r := by
  have hok : s.removeList = [] ∨ 0 < s.number := by
    unfold sortX at ht
    obtain ⟨u, h1, _⟩ := Option.bind_eq_some_iff.1 ht
    exact removal_isSome_ok h h1
  obtain ⟨u, t', h1, h2, _, h4, h5, h6, _⟩ := sortX_spec (c := c) h hok
  rw [h6] at ht; cases ht
  rw [holds_flag, holds_swaps h5, holds_removal h h1]

theorem holds_sortAll {c : Cfg R} {s t : Store R} (h : Inv s) (ht : sortAll c s = some t) (g : ℤ)
    (r : Rec R) : Holds t g r ↔ Holds s g r := by
  have hok : s.removeList = [] ∨ 0 < s.number := by
    unfold sortAll at ht
    obtain ⟨u, h1, _⟩ := Option.bind_eq_some_iff.1 ht
    exact removal_isSome_ok h h1
  obtain ⟨u, t', h1, h2, _, h4, h5, h6⟩ := sortAll_spec (c := c) h hok
  rw [h6] at ht; cases ht
  rw [holds_flag, holds_swaps h5, holds_removal h h1]

/-- A store represents an abstract map. -/
def Represents (s : Store R) (m : Abs R) : Prop := ∀ g r, m g = some r ↔ Holds s g r

theorem rep_append {s : Store R} {m : Abs R} (hr : Represents s m) (h : Inv s) (v : Slot R)
    (ht : 0 ≤ v.type) (hg : v.gid = s.next) (t : Store R) (hmem : t.mem = Function.update s.mem s.size v)
    (hsz : t.size = s.size + 1) : Represents t ((Ev.insert s.next v.toRec).apply m) := by
  intro g r
  simp only [Ev.apply]
  have hne : ∀ i, i < s.size → t.mem i = s.mem i := fun i hi => by
    rw [hmem, Function.update_of_ne (by omega)]
  have hself : t.mem s.size = v := by rw [hmem, Function.update_self]
  unfold Holds
  rw [hsz]
  split
  · rename_i e
    subst e
    constructor
    · intro e; cases e
      exact ⟨s.size, by omega, by rw [hself]; exact ht, by rw [hself]; exact hg, by rw [hself]⟩
    · rintro ⟨i, a1, a2, a3, a4⟩
      rcases Nat.lt_succ_iff_lt_or_eq.1 a1 with h' | h'
      · rw [hne i h'] at a3; have := h.gidr i h'; omega
      · subst h'; rw [hself] at a4; rw [a4]
  · rename_i hgn
    rw [hr g r]
    constructor
    · rintro ⟨i, a1, a2, a3, a4⟩
      exact ⟨i, by omega, by rw [hne i a1]; exact a2, by rw [hne i a1]; exact a3, by rw [hne i a1]; exact a4⟩
    · rintro ⟨i, a1, a2, a3, a4⟩
      rcases Nat.lt_succ_iff_lt_or_eq.1 a1 with h' | h'
      · rw [hne i h'] at a2 a3 a4; exact ⟨i, h', a2, a3, a4⟩
      · subst h'; rw [hself] at a3; exact absurd (a3.symm.trans hg) hgn

theorem range_succ_shift (n : ℕ) (f : ℕ → Ev R) :
    (List.range (n + 1)).map f = f 0 :: (List.range n).map (fun k => f (k + 1)) := by
  rw [List.range_succ_eq_map]; simp [Function.comp_def]

theorem rep_addLoop {c : Cfg R} : ∀ {n : ℕ} {s t : Store R} {m : Abs R}, Inv s → Represents s m →
    addLoop c true n s = some t →
    Represents t (((List.range n).map fun k : ℕ => (Ev.insert (s.next + (k : ℤ) * s.dGid)
      { x := List.replicate c.dims 0, rest := c.reset, type := 0 } : Ev R)).foldl Ev.apply m) := by
  intro n
  induction n with
  | zero => intro s t m h hr ht; simp [addLoop] at ht; subst ht; simpa using hr
  | succ n ih =>
    intro s t m h hr ht
    simp only [addLoop] at ht
    obtain ⟨u, h1, h2⟩ := Option.bind_eq_some_iff.1 ht
    have hu := addOne_inv h h1
    have hd : u.next = s.next + s.dGid ∧ u.dGid = s.dGid ∧
        Represents u ((Ev.insert s.next { x := List.replicate c.dims 0, rest := c.reset, type := 0 }).apply m) := by
      unfold addOne at h1
      split at h1
      · simp only [Option.some.injEq] at h1
        subst h1
        refine ⟨rfl, rfl, ?_⟩
        exact rep_append hr h { resetSlot c with type := 0, gid := s.next } (by simp) rfl _ rfl rfl
      · simp at h1
    rw [range_succ_shift]
    simp only [List.foldl_cons]
    have := ih hu hd.2.2 h2
    convert this using 3
    · simp
    · simp only [hd.1, hd.2.1]
      funext k
      push_cast
      congr 1
      ring

theorem rep_step {c : Cfg R} {s t : Store R} {op : Op R} {m : Abs R} (h : Inv s) (hv : op.Valid)
    (hr : Represents s m) (ht : step c s op = some t) :
    Represents t ((events c s op).foldl Ev.apply m) := by
  cases op with
  | addBulk n =>
    simp only [step, addBulk] at ht
    split at ht
    · rename_i hn
      cases ht
      have : n.toNat = 0 := by omega
      simp only [events, this]; simpa using hr
    · exact rep_addLoop (s := { s with cap := growBulk s.cap s.size n.toNat })
        (cap_inv h (le_trans h.size_le (growBulk_ge _ _ _))) hr ht
  | addFull x r ty =>
    simp only [step, addFull] at ht
    split at ht
    · simp only [Option.some.injEq] at ht
      subst ht
      exact rep_append hr h { resetSlot c with x := x, rest := r, type := ty, gid := s.next } hv rfl _ rfl rfl
    · simp at ht
  | mark i =>
    simp only [step, mark] at ht
    split at ht
    · simp only [events]
      split at ht
      · rename_i hc
        cases ht
        rw [if_pos hc]; simpa using hr
      · rename_i hc
        rw [if_neg hc]
        push Not at hc
        generalize i.toNat = k at *
        simp only [Option.some.injEq] at ht
        subst ht
        simp only [List.foldl_cons, List.foldl_nil]
        intro g r
        simp only [Ev.apply, Holds]
        split
        · rename_i e
          subst e
          simp only [reduceCtorEq, false_iff]
          rintro ⟨j, a1, a2, a3, -⟩
          by_cases e : j = k
          · subst e; simp at a2
          · rw [Function.update_of_ne e] at a3
            exact e (h.inj _ _ a1 hc.2 a3)
        · rename_i hg
          rw [hr g r]
          constructor
          · rintro ⟨j, a1, a2, a3, a4⟩
            have e : j ≠ k := by rintro rfl; exact hg a3.symm
            refine ⟨j, a1, ?_⟩
            rw [Function.update_of_ne e]; exact ⟨a2, a3, a4⟩
          · rintro ⟨j, a1, a2, a3, a4⟩
            by_cases e : j = k
            · subst e; simp at a2
            · rw [Function.update_of_ne e] at a2 a3 a4; exact ⟨j, a1, a2, a3, a4⟩
    · simp at ht
  | removal =>
    intro g r; rw [holds_removal h ht]; exact hr g r
  | sortAll =>
    intro g r; rw [holds_sortAll h ht]; exact hr g r
  | sortX =>
    intro g r; rw [holds_sortX h ht]; exact hr g r
  | write i x rr =>
    simp only [step, write] at ht
    split at ht
    · rename_i hi
      simp only [Option.some.injEq] at ht
      subst ht
      simp only [events]
      have hne : ∀ j, j ≠ i → Function.update s.mem i { s.mem i with x := x, rest := rr } j = s.mem j :=
        fun j hj => Function.update_of_ne hj _ _
      split
      · rename_i hdead
        intro g r
        simp only [List.foldl_nil]
        rw [hr g r]
        unfold Holds
        constructor
        · rintro ⟨j, a1, a2, a3, a4⟩
          have e : j ≠ i := by rintro rfl; omega
          refine ⟨j, a1, ?_⟩
          simp only [hne j e]; exact ⟨a2, a3, a4⟩
        · rintro ⟨j, a1, a2, a3, a4⟩
          have e : j ≠ i := by rintro rfl; simp at a2; omega
          simp only [hne j e] at a2 a3 a4; exact ⟨j, a1, a2, a3, a4⟩
      · rename_i hlive
        simp only [List.foldl_cons, List.foldl_nil]
        intro g r
        simp only [Ev.apply]
        split
        · rename_i e
          subst e
          have hm : m (s.mem i).gid = some (s.mem i).toRec :=
            (hr _ _).2 ⟨i, hi.1, by omega, rfl, rfl⟩
          rw [hm]
          simp only [Option.map_some, Option.some.injEq]
          constructor
          · intro e; subst e
            exact ⟨i, hi.1, by simp; omega, by simp, by simp [Slot.toRec]⟩
          · rintro ⟨j, a1, a2, a3, a4⟩
            have e : j = i := by
              by_contra e
              simp only [hne j e] at a3
              exact e (h.inj _ _ a1 hi.1 a3)
            subst e
            simp only [Function.update_self] at a4
            rw [← a4]; rfl
        · rename_i hg
          rw [hr g r]
          unfold Holds
          constructor
          · rintro ⟨j, a1, a2, a3, a4⟩
            have e : j ≠ i := by rintro rfl; exact hg a3.symm
            refine ⟨j, a1, ?_⟩
            simp only [hne j e]; exact ⟨a2, a3, a4⟩
          · rintro ⟨j, a1, a2, a3, a4⟩
            have e : j ≠ i := by rintro rfl; simp at a3; exact hg a3.symm
            simp only [hne j e] at a2 a3 a4; exact ⟨j, a1, a2, a3, a4⟩
    · simp at ht
  | clearFlag =>
    simp only [step, Option.some.injEq] at ht; subst ht; exact hr

theorem rep_run {c : Cfg R} : ∀ {ops : List (Op R)} {s t : Store R} {m : Abs R}, Inv s →
    (∀ op ∈ ops, op.Valid) → Represents s m → run c s ops = some t →
    Represents t ((trace c s ops).foldl Ev.apply m) := by
  intro ops
  induction ops with
  | nil => intro s t m h _ hr ht; simp [run] at ht; subst ht; simpa [trace] using hr
  | cons op ops ih =>
    intro s t m h hv hr ht
    simp only [run] at ht
    obtain ⟨u, h1, h2⟩ := Option.bind_eq_some_iff.1 ht
    simp only [trace, h1, List.foldl_append]
    exact ih (step_inv h (hv op (by simp)) h1) (fun o ho => hv o (by simp [ho]))
      (rep_step h (hv op (by simp)) hr h1) h2

end Verif.SimData
