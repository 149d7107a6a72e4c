import Verif.SimData.Model

/-!
# Specification of the particle store: a finite map from global ids to particle records

Written independently of the implementation's bookkeeping (no counters, no slots, no id map).
-/

namespace Verif.SimData

variable {R : Type}

/-- What a client knows of a particle besides its global id. -/
structure Rec (R : Type) where
  x : List ℚ
  rest : R
  type : ℤ

/-- The abstract store: which ids are alive, with which record. -/
abbrev Abs (R : Type) := ℤ → Option (Rec R)

/-- Abstract events. -/
inductive Ev (R : Type) where
  | insert (g : ℤ) (r : Rec R)
  | delete (g : ℤ)
  | update (g : ℤ) (x : List ℚ) (rest : R)

/-- Effect of an event on the abstract store. -/
def Ev.apply (m : Abs R) : Ev R → Abs R
  | .insert g r => fun g' => if g' = g then some r else m g'
  | .delete g => fun g' => if g' = g then none else m g'
  | .update g x rest => fun g' => if g' = g then (m g').map (fun r => { r with x := x, rest := rest }) else m g'

/-- The record stored in a slot. -/
def Slot.toRec (v : Slot R) : Rec R := { x := v.x, rest := v.rest, type := v.type }

/-- Particle `g` is in the store with record `r`: some slot below `size` holds it, with a type `≥ 0`. -/
def Holds (s : Store R) (g : ℤ) (r : Rec R) : Prop :=
  ∃ i, i < s.size ∧ 0 ≤ (s.mem i).type ∧ (s.mem i).gid = g ∧ (s.mem i).toRec = r

/-- The abstract events a call stands for. Slots are how clients name particles, so they are resolved
against the current store. Compaction and sorting are invisible. -/
def events (c : Cfg R) (s : Store R) : Op R → List (Ev R)
  | .addBulk n => (List.range n.toNat).map fun k : ℕ =>
      .insert (s.next + (k : ℤ) * s.dGid) { x := List.replicate c.dims 0, rest := c.reset, type := 0 }
  | .addFull x r t => [.insert s.next { x := x, rest := r, type := t }]
  | .mark i => if (s.mem i.toNat).type < 0 ∨ s.size ≤ i.toNat then [] else [.delete (s.mem i.toNat).gid]
  | .write i x r => if (s.mem i).type < 0 then [] else [.update (s.mem i).gid x r]
  | .removal => []
  | .sortAll => []
  | .sortX => []
  | .clearFlag => []

/-- All the abstract events of a history. -/
def trace (c : Cfg R) : Store R → List (Op R) → List (Ev R)
  | _, [] => []
  | s, op :: ops =>
    events c s op ++ match step c s op with
      | some t => trace c t ops
      | none => []

end Verif.SimData
