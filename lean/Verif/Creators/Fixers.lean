import Verif.SimData.Props

/-!
# Initial velocities: particle fixers

Sources: `GFlowSim/src/base/creator.cpp`, `creators/fillareacreator.cpp`, `creators/particlefixer.hpp`, `creators/fileparsecreator.cpp`.

When a particle is created in a fill area its velocity is stored, together with its global id, in a list of fixers.
After the relaxation (which moves, removes and reorders particles and changes their velocities) the velocities are assigned.

Modelled on top of the particle store (`Verif/SimData/Model.lean`).  The type `V` stands for velocity vectors, `setV` for
`copyVec(fix.velocity, simData->V(id))` on the columns of a particle.
-/

namespace Verif.Fixers

open Verif.SimData

variable {R V : Type}

/-- A particle that a fill area is about to create: position, the remaining columns, type, and the chosen velocity.
`creators/fillareacreator.cpp:249-263`, `:291-306`. -/
structure New (R V : Type) where
  x : List ℚ
  rest : R
  type : ℤ
  v : V

/-- The creation loop: take the next global id, add the particle, push a fixer with that id. `creators/fillareacreator.cpp:263-270`, `:298-307`. -/
def createAll (c : Cfg R) : List (New R V) → Store R → List (ℤ × V) → Option (Store R × List (ℤ × V))
  | [], s, fx => some (s, fx)
  | p :: l, s, fx => (addFull c p.x p.rest p.type s).bind fun t => createAll c l t (fx ++ [(s.next, p.v)])

/-- The body of the loop of `fix_particle_velocities`. `base/creator.cpp:168-175`. -/
def fixOne (setV : V → R → R) (fix : ℤ × V) (s : Store R) : Option (Store R) :=
  match getLocalID s fix.1 with
  | none => some s
  | some id => if id < s.size then write id (s.mem id).x (setV fix.2 (s.mem id).rest) s else some s

/-- `Creator::fix_particle_velocities`. `base/creator.cpp:167-176`. -/
def fixAll (setV : V → R → R) : List (ℤ × V) → Store R → Option (Store R)
  | [], s => some s
  | fix :: l, s => (fixOne setV fix s).bind (fixAll setV l)

/-! ## Proofs -/

theorem write_holds {i : ℕ} {x : List ℚ} {r : R} {s t : Store R} (h : Inv s) (ht : write i x r s = some t) (hl : 0 ≤ (s.mem i).type) (g : ℤ) (q : Rec R) :
    Holds t g q ↔ ∃ q0, Holds s g q0 ∧ q = if g = (s.mem i).gid then { q0 with x := x, rest := r } else q0 := by
  unfold write at ht
  split at ht
  case isFalse => simp at ht
  case isTrue hc =>
  cases ht
  constructor
  · rintro ⟨k, h1, h2, h3, h4⟩
    simp only at h1 h2 h3 h4
    by_cases hk : k = i
    · subst hk
      simp only [Function.update_self] at h2 h3 h4
      exact ⟨(s.mem k).toRec, ⟨k, h1, h2, h3, rfl⟩, by rw [if_pos h3.symm, ← h4]; rfl⟩
    · rw [Function.update_of_ne hk] at h2 h3 h4
      refine ⟨q, ⟨k, h1, h2, h3, h4⟩, ?_⟩
      rw [if_neg]
      intro hg
      exact hk (h.inj k i h1 hc.1 (h3.trans hg))
  · rintro ⟨q0, ⟨k, h1, h2, h3, h4⟩, hq⟩
    by_cases hk : k = i
    · subst hk
      refine ⟨k, h1, ?_, ?_, ?_⟩
      · simpa using h2
      · simpa using h3
      · rw [hq, if_pos h3.symm, ← h4]
        simp [Slot.toRec]
    · refine ⟨k, h1, ?_, ?_, ?_⟩
      · simpa [Function.update_of_ne hk] using h2
      · simpa [Function.update_of_ne hk] using h3
      · rw [hq, if_neg (fun hg => hk (h.inj k i h1 hc.1 (h3.trans hg)))]
        simpa [Function.update_of_ne hk] using h4

theorem fixOne_spec (setV : V → R → R) (fix : ℤ × V) {s : Store R} (h : Inv s) :
    ∃ t, fixOne setV fix s = some t ∧ Inv t ∧
      ∀ g q, Holds t g q ↔ ∃ q0, Holds s g q0 ∧ q = if g = fix.1 then { q0 with rest := setV fix.2 q0.rest } else q0 := by
  unfold fixOne getLocalID
  match hm : s.idMap fix.1 with
  | none =>
    refine ⟨s, rfl, h, fun g q => ?_⟩
    have hno : ∀ q0, ¬ Holds s fix.1 q0 := by
      rintro q0 ⟨k, h1, h2, h3, _⟩
      have := (h.map fix.1 k).mpr ⟨h1, h2, h3⟩
      rw [hm] at this
      cases this
    constructor
    · intro hq
      exact ⟨q, hq, by rw [if_neg]; rintro rfl; exact hno q hq⟩
    · rintro ⟨q0, h0, hq⟩
      rw [if_neg] at hq
      · exact hq ▸ h0
      · rintro rfl; exact hno q0 h0
  | some i =>
    obtain ⟨h1, h2, h3⟩ := (h.map fix.1 i).mp hm
    simp only [h1, if_true]
    have hs : ∃ t, write i (s.mem i).x (setV fix.2 (s.mem i).rest) s = some t := by
      unfold write
      rw [if_pos ⟨h1, lt_of_lt_of_le h1 h.size_le⟩]
      exact ⟨_, rfl⟩
    obtain ⟨t, ht⟩ := hs
    refine ⟨t, ht, write_inv h ht, fun g q => ?_⟩
    rw [write_holds h ht h2, h3]
    constructor
    · rintro ⟨q0, h0, hq⟩
      refine ⟨q0, h0, ?_⟩
      rw [hq]
      by_cases hg : g = fix.1
      · rw [if_pos hg, if_pos hg]
        have : q0 = (s.mem i).toRec := Holds.unique h h0 ⟨i, h1, h2, h3.trans hg.symm, rfl⟩
        rw [this]; rfl
      · rw [if_neg hg, if_neg hg]
    · rintro ⟨q0, h0, hq⟩
      refine ⟨q0, h0, ?_⟩
      rw [hq]
      by_cases hg : g = fix.1
      · rw [if_pos hg, if_pos hg]
        have : q0 = (s.mem i).toRec := Holds.unique h h0 ⟨i, h1, h2, h3.trans hg.symm, rfl⟩
        rw [this]; rfl
      · rw [if_neg hg, if_neg hg]

theorem fixAll_spec (setV : V → R → R) : ∀ (fx : List (ℤ × V)) {s : Store R}, Inv s → (fx.map Prod.fst).Nodup →
    ∃ t, fixAll setV fx s = some t ∧ Inv t ∧
      (∀ p ∈ fx, ∀ q, Holds t p.1 q ↔ ∃ q0, Holds s p.1 q0 ∧ q = { q0 with rest := setV p.2 q0.rest }) ∧
      (∀ g, g ∉ fx.map Prod.fst → ∀ q, Holds t g q ↔ Holds s g q) := by
  intro fx
  induction fx with
  | nil => intro s h _; exact ⟨s, rfl, h, by simp, by simp⟩
  | cons p fx ih =>
    intro s h hn
    rw [List.map_cons, List.nodup_cons] at hn
    obtain ⟨t, h1, h2, h3⟩ := fixOne_spec setV p h
    obtain ⟨u, k1, k2, k3, k4⟩ := ih h2 hn.2
    refine ⟨u, by simp [fixAll, h1, k1], k2, ?_, ?_⟩
    · intro p' hp' q
      rcases List.mem_cons.mp hp' with rfl | hp'
      · rw [k4 _ hn.1, h3]
        simp
      · have hne : p'.1 ≠ p.1 := by
          intro he
          exact hn.1 (he ▸ List.mem_map_of_mem hp')
        rw [k3 p' hp']
        constructor
        · rintro ⟨q0, a, b⟩
          obtain ⟨q1, a1, b1⟩ := (h3 _ _).mp a
          rw [if_neg hne] at b1
          exact ⟨q1, a1, b1 ▸ b⟩
        · rintro ⟨q0, a, b⟩
          exact ⟨q0, (h3 _ _).mpr ⟨q0, a, by rw [if_neg hne]⟩, b⟩
    · intro g hg q
      rw [List.map_cons, List.mem_cons, not_or] at hg
      rw [k4 g hg.2, h3]
      constructor
      · rintro ⟨q0, a, b⟩
        rw [if_neg hg.1] at b
        exact b ▸ a
      · intro a
        exact ⟨q, a, by rw [if_neg hg.1]⟩

theorem addFull_holds {c : Cfg R} {x : List ℚ} {r : R} {ty : ℤ} {s t : Store R} (h : Inv s) (hty : 0 ≤ ty) (ht : addFull c x r ty s = some t) (g : ℤ) (q : Rec R) :
    Holds t g q ↔ (Holds s g q ∨ (g = s.next ∧ q = { x := x, rest := r, type := ty })) := by
  unfold addFull at ht
  simp only at ht
  split at ht
  case isFalse => simp at ht
  case isTrue hc =>
  cases ht
  constructor
  · rintro ⟨k, h1, h2, h3, h4⟩
    simp only at h1 h2 h3 h4
    by_cases hk : k = s.size
    · subst hk
      simp only [Function.update_self] at h2 h3 h4
      exact Or.inr ⟨h3.symm, h4.symm⟩
    · rw [Function.update_of_ne hk] at h2 h3 h4
      exact Or.inl ⟨k, by omega, h2, h3, h4⟩
  · rintro (⟨k, h1, h2, h3, h4⟩ | ⟨rfl, rfl⟩)
    · have hk : k ≠ s.size := by omega
      refine ⟨k, by simp; omega, ?_, ?_, ?_⟩
      · simpa [Function.update_of_ne hk] using h2
      · simpa [Function.update_of_ne hk] using h3
      · simpa [Function.update_of_ne hk] using h4
    · refine ⟨s.size, by simp, ?_, ?_, ?_⟩
      · simpa using hty
      · simp
      · simp [Slot.toRec]

theorem addFull_next {c : Cfg R} {x : List ℚ} {r : R} {ty : ℤ} {s t : Store R} (ht : addFull c x r ty s = some t) : t.next = s.next + 1 + s.dGid ∧ t.dGid = s.dGid := by
  unfold addFull at ht
  simp only at ht
  split at ht
  · cases ht; exact ⟨rfl, rfl⟩
  · cases ht

theorem addFull_some {c : Cfg R} {x : List ℚ} {r : R} {ty : ℤ} {s : Store R} (h : Inv s) : ∃ t, addFull c x r ty s = some t := by
  unfold addFull
  simp only
  rw [if_pos (growFull_gt h.size_le)]
  exact ⟨_, rfl⟩

/-- The record of a new particle. -/
def New.toRec (p : New R V) : Rec R := { x := p.x, rest := p.rest, type := p.type }

theorem createAll_spec (c : Cfg R) : ∀ (l : List (New R V)) {s : Store R} (fx : List (ℤ × V)), Inv s → (∀ p ∈ l, 0 ≤ p.type) →
    ∃ t, ∃ ids : List ℤ, createAll c l s fx = some (t, fx ++ ids.zip (l.map New.v)) ∧ Inv t ∧ ids.length = l.length ∧ ids.Nodup ∧ (∀ g ∈ ids, s.next ≤ g) ∧ s.next ≤ t.next ∧
      (∀ g q, Holds t g q ↔ (Holds s g q ∨ ∃ k, ∃ h1 : k < ids.length, ∃ h2 : k < l.length, g = ids[k] ∧ q = (l[k]).toRec)) := by
  intro l
  induction l with
  | nil => intro s fx h _; exact ⟨s, [], by simp [createAll], h, rfl, List.nodup_nil, by simp, le_rfl, by simp⟩
  | cons p l ih =>
    intro s fx h hty
    obtain ⟨t, ht⟩ := addFull_some (c := c) (x := p.x) (r := p.rest) (ty := p.type) h
    have hit := addFull_inv h (hty p (by simp)) ht
    obtain ⟨hn, _⟩ := addFull_next ht
    have hlt : s.next < t.next := by have := h.dpos; omega
    obtain ⟨u, ids, k1, k2, k3, k4, k5, k6, k7⟩ := ih (fx ++ [(s.next, p.v)]) hit fun q hq => hty q (by simp [hq])
    refine ⟨u, s.next :: ids, ?_, k2, by simp [k3], ?_, ?_, le_trans hlt.le k6, ?_⟩
    · simp [createAll, ht, k1]
    · rw [List.nodup_cons]
      exact ⟨fun hm => absurd (k5 _ hm) (by omega), k4⟩
    · intro g hg
      rcases List.mem_cons.mp hg with rfl | hg
      · exact le_rfl
      · exact le_trans hlt.le (k5 g hg)
    · intro g q
      rw [k7, addFull_holds h (hty p (by simp)) ht]
      constructor
      · rintro ((h1 | ⟨h1, h2⟩) | ⟨k, a, b, h1, h2⟩)
        · exact Or.inl h1
        · exact Or.inr ⟨0, by simp, by simp, by simpa using h1, by simpa [New.toRec] using h2⟩
        · exact Or.inr ⟨k + 1, by simpa using a, by simpa using b, by simpa using h1, by simpa [New.toRec] using h2⟩
      · rintro (h1 | ⟨k, a, b, h1, h2⟩)
        · exact Or.inl (Or.inl h1)
        · cases k with
          | zero => exact Or.inl (Or.inr ⟨by simpa using h1, by simpa [New.toRec] using h2⟩)
          | succ k => exact Or.inr ⟨k, by simpa using a, by simpa using b, by simpa using h1, by simpa [New.toRec] using h2⟩

/-! ## Theorems -/

/-- C94: take a store reached by any history, and let a fill area create any particles in it. Each of them gets an id that no particle had. Whatever the
relaxation and the other parts of the setup do afterwards (any history of moves, removals, sorts, further creations that are defined), the assignment of the
velocities is defined; every particle of the area that still exists then has the velocity chosen for it and is otherwise as the relaxation left it; all other
particles are unchanged, and none appears or disappears. -/
theorem C94_velocities (c : Cfg R) (setV : V → R → R) (ops : List (Op R)) (hv : ∀ op ∈ ops, op.Valid) (s0 : Store R) (h0 : run c (init c) ops = some s0)
    (l : List (New R V)) (hl : ∀ p ∈ l, 0 ≤ p.type) :
    ∃ s1 fixers, ∃ ids : List ℤ, createAll c l s0 [] = some (s1, fixers) ∧ ids.length = l.length ∧ ids.Nodup ∧
      (∀ g ∈ ids, ∀ q, ¬ Holds s0 g q) ∧
      (∀ k, ∀ h1 : k < ids.length, ∀ h2 : k < l.length, Holds s1 ids[k] { x := (l[k]).x, rest := (l[k]).rest, type := (l[k]).type }) ∧
      ∀ ops' : List (Op R), (∀ op ∈ ops', op.Valid) → ∀ s2, run c s1 ops' = some s2 →
        ∃ s3, fixAll setV fixers s2 = some s3 ∧
          (∀ k, ∀ h1 : k < ids.length, ∀ h2 : k < l.length, ∀ q,
            Holds s3 ids[k] q ↔ ∃ q0, Holds s2 ids[k] q0 ∧ q = { x := q0.x, rest := setV (l[k]).v q0.rest, type := q0.type }) ∧
          (∀ g, g ∉ ids → ∀ q, Holds s3 g q ↔ Holds s2 g q) := by
  have hi0 := run_inv (init_inv c) hv h0
  obtain ⟨s1, ids, k1, k2, k3, k4, k5, _, k7⟩ := createAll_spec c l [] hi0 hl
  refine ⟨s1, ids.zip (l.map New.v), ids, by simpa using k1, k3, k4, ?_, ?_, ?_⟩
  · rintro g hg q ⟨i, h1, _, h3, _⟩
    have := (hi0.gidr i h1).2
    have := k5 g hg
    omega
  · intro k h1 h2
    exact (k7 _ _).mpr (Or.inr ⟨k, h1, h2, rfl, rfl⟩)
  · intro ops' hv' s2 hs2
    have hi2 := run_inv k2 hv' hs2
    have hfst : (ids.zip (l.map New.v)).map Prod.fst = ids := List.map_fst_zip (by simp [k3])
    obtain ⟨s3, m1, _, m3, m4⟩ := fixAll_spec setV (ids.zip (l.map New.v)) hi2 (by rw [hfst]; exact k4)
    refine ⟨s3, m1, ?_, ?_⟩
    · intro k h1 h2 q
      have hmem : (ids[k], (l[k]).v) ∈ ids.zip (l.map New.v) := by
        rw [List.mem_iff_getElem]
        exact ⟨k, by simp; omega, by simp⟩
      exact m3 _ hmem q
    · intro g hg q
      exact m4 g (by rw [hfst]; exact hg) q

/-- A history: one particle exists, two are created in an area, then the first and the second are removed and the arrays are compacted. The last
one survives at another place, and gets its velocity. -/
example : ((run demoCfg (init demoCfg) [.addFull [5, 5] 9 0]).bind fun s0 =>
    (createAll demoCfg [⟨[1, 1], 7, 0, 100⟩, ⟨[2, 2], 8, 1, 200⟩] s0 ([] : List (ℤ × ℕ))).bind fun (s1, fx) =>
      (run demoCfg s1 [.mark 0, .mark 1, .write 2 [3, 3] 4, .removal]).bind fun s2 =>
        (fixAll (fun v (_ : ℕ) => v) fx s2).map fun s3 => (fx, s3.size, (s3.mem 0).rest, (s3.mem 0).x)) = some ([(2, 100), (4, 200)], 1, 200, [3, 3]) := by rfl

end Verif.Fixers
