import Mathlib.Data.List.Nodup

/-!
# Registration of components (C23)

Models `GFlow::addInteraction`, `addBonded`, `addBody` (`gflow.cpp:465-478`), `addIntegrator` (`gflow.cpp:480-483`),
`addModifier` (`gflow.cpp:689-696`), and `contains` (`utility/utility.hpp:173-175`). A `shared_ptr` is `none` (null) or
the number of the object it points to.
-/

namespace Verif.Registry

/-- `addInteraction` / `addBonded` / `addBody`, `gflow.cpp:465-478` (the three have the same body). -/
def addOnce (reg : List ℕ) : Option ℕ → List ℕ
  | none => reg
  | some p => if reg.contains p then reg else reg ++ [p]

/-- `addIntegrator` (`gflow.cpp:480-483`) / `addModifier` (`gflow.cpp:689-691`): no check for duplicates. -/
def addAlways (reg : List ℕ) : Option ℕ → List ℕ
  | none => reg
  | some p => reg ++ [p]

/-- A history of calls on an initially empty registry. -/
def register (calls : List (Option ℕ)) : List ℕ := calls.foldl addOnce []

theorem foldl_addOnce : ∀ (calls : List (Option ℕ)) (reg : List ℕ), reg.Nodup →
    (calls.foldl addOnce reg).Nodup ∧ (∃ new, calls.foldl addOnce reg = reg ++ new) ∧
    ∀ p, p ∈ calls.foldl addOnce reg ↔ p ∈ reg ∨ some p ∈ calls := by
  intro calls
  induction calls with
  | nil => intro reg h; exact ⟨h, ⟨[], by simp⟩, by simp⟩
  | cons c calls ih =>
    intro reg h
    rw [List.foldl_cons]
    cases c with
    | none =>
      obtain ⟨h1, h2, h3⟩ := ih reg h
      exact ⟨h1, h2, fun p => by rw [show addOnce reg none = reg from rfl, h3]; simp⟩
    | some q =>
      by_cases hq : q ∈ reg
      · have e : addOnce reg (some q) = reg := by simp [addOnce, hq]
        rw [e]
        obtain ⟨h1, h2, h3⟩ := ih reg h
        refine ⟨h1, h2, fun p => ?_⟩
        rw [h3]; simp only [List.mem_cons, Option.some.injEq]
        constructor
        · rintro (h | h) <;> simp [h]
        · rintro (h | rfl | h)
          · exact Or.inl h
          · exact Or.inl hq
          · exact Or.inr h
      · have e : addOnce reg (some q) = reg ++ [q] := by simp [addOnce, hq]
        rw [e]
        obtain ⟨h1, ⟨new, h2⟩, h3⟩ := ih (reg ++ [q]) (by
          rw [List.nodup_append]; simp [h]; intro a ha hqa; exact hq (hqa ▸ ha))
        refine ⟨h1, ⟨q :: new, by rw [h2]; simp⟩, fun p => ?_⟩
        rw [h3]; simp only [List.mem_append, List.mem_cons, List.not_mem_nil, or_false, Option.some.injEq, or_assoc]

/-- **C23.** After any sequence of calls every non-null object that was passed is registered exactly once, nothing
else is registered, and later calls only append: the registration order is the order of first calls. -/
theorem C23_registered_once (calls more : List (Option ℕ)) :
    (register calls).Nodup ∧ (∀ p, p ∈ register calls ↔ some p ∈ calls) ∧
    (∃ new, register (calls ++ more) = register calls ++ new ∧ ∀ p ∈ new, some p ∉ calls ∧ some p ∈ more) := by
  obtain ⟨h1, _, h3⟩ := foldl_addOnce calls [] List.nodup_nil
  refine ⟨h1, fun p => by unfold register; rw [h3]; simp, ?_⟩
  obtain ⟨g1, ⟨new, g2⟩, g3⟩ := foldl_addOnce more (register calls) h1
  refine ⟨new, by unfold register; rw [List.foldl_append]; exact g2, fun p hp => ?_⟩
  rw [g2, List.nodup_append] at g1
  have hnot : p ∉ register calls := fun h => g1.2.2 p h p hp rfl
  have hmem : p ∈ more.foldl addOnce (register calls) := by rw [g2]; exact List.mem_append_right _ hp
  rw [g3] at hmem
  refine ⟨fun h => hnot ?_, hmem.resolve_left hnot⟩
  unfold register; rw [h3]; exact Or.inr h

example : register [some 3, none, some 1, some 3, some 2, some 1] = [3, 1, 2] := by decide

/-- **C23, limit.** Integrators and modifiers are not checked: added twice they are called twice per step. -/
theorem C23_negation_integrators (p : ℕ) : [some p, some p].foldl addAlways [] = [p, p] := rfl

end Verif.Registry
