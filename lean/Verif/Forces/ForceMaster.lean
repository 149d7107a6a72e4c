import Verif.GFlow.Registry
import Mathlib.Algebra.Order.Field.Basic
import Mathlib.Algebra.Order.Ring.Rat
import Mathlib.Tactic.Linarith
import Mathlib.Tactic.NormNum

/-!
# The interaction table (C31, C32, C66, C67)

Models `ForceMaster` (`base/forcemaster.cpp`) and the copy of its table in the interaction handler
(`base/interactionhandler.cpp:407-423,461-466`). An interaction object is a number; its cutoff (`getCutoff`) is given by
a function that does not change during a history. Reading or writing outside of a vector is undefined (`none`).
-/

set_option linter.unusedSectionVars false

namespace Verif.ForceMaster
open Verif.Registry

variable {K : Type*} [Field K] [LinearOrder K] [IsStrictOrderedRing K]

/-- `grid`. -/
abbrev Table := List (List (Option ℕ))

/-- The members of `ForceMaster` that concern the table, `base/forcemaster.hpp:86-120`. -/
structure FM (K : Type*) where
  /-- `ntypes` -/
  ntypes : ℕ
  /-- `grid` -/
  grid : Table
  /-- `doesInteract` -/
  does : List Bool
  /-- `max_cutoffs` -/
  maxC : List K
  /-- `interactions` -/
  inter : List ℕ
  /-- `any_interactions` -/
  any : Bool

/-- A vector index given as a C++ `int`: negative values are outside. -/
def natIdx (i : ℤ) : Option ℕ := if 0 ≤ i then some i.toNat else none

/-- The assignment `grid[a][b] = it`. -/
def set2 (g : Table) (a b : ℕ) (it : Option ℕ) : Option Table :=
  match g[a]? with
  | none => none
  | some row => if b < row.length then some (g.set a (row.set b it)) else none

/-- The read `grid[a][b]`. -/
def get2 (g : Table) (a b : ℕ) : Option (Option ℕ) := g[a]?.bind (·[b]?)

/-- `if (max_cutoffs[a]<cutoff) max_cutoffs[a] = cutoff`, `base/forcemaster.cpp:152-153`. -/
def raise (m : List K) (a : ℕ) (c : K) : Option (List K) :=
  match m[a]? with
  | none => none
  | some v => some (if v < c then m.set a c else m)

/-- `setNTypes`, `base/forcemaster.cpp:126-137`. -/
def setNTypes (s : FM K) (n : ℕ) : FM K :=
  { s with ntypes := n, grid := List.replicate n (List.replicate n none), does := List.replicate n false,
           maxC := List.replicate n 1 }

/-- The constructor `ForceMaster(gflow)`, `base/forcemaster.cpp:10-13`. -/
def fresh : FM K := setNTypes ⟨0, [], [], [], [], false⟩ 1

/-- `setInteraction(type1, type2, it, reflexive)`, `base/forcemaster.cpp:139-155`; the registration in `gflow` is that
of `Registry`. -/
def setInteraction (cut : ℕ → K) (s : FM K) (a b : ℤ) (it : Option ℕ) (reflexive : Bool) : Option (FM K) :=
  (natIdx a).bind fun a => (natIdx b).bind fun b =>
  (set2 s.grid a b it).bind fun g =>
  (if reflexive then set2 g b a it else some g).bind fun g =>
  match it with
  | none => some { s with grid := g }
  | some p =>
    (raise s.maxC a (cut p)).bind fun m => (raise m b (cut p)).bind fun m =>
    some { s with grid := g, inter := addOnce s.inter (some p), maxC := m }

/-- The pairs of the loops of `setInteraction(it)`, `base/forcemaster.cpp:158-159`. -/
def upper (n : ℕ) : List (ℕ × ℕ) := (List.range n).flatMap fun i => (List.range' i (n - i)).map fun j => (i, j)

/-- `setInteraction(it)`, `base/forcemaster.cpp:157-161`. -/
def setAll (cut : ℕ → K) (s : FM K) (it : Option ℕ) : Option (FM K) :=
  (upper s.ntypes).foldlM (fun s p => setInteraction cut s p.1 p.2 it true) s

/-- All pairs, the loops of `base/forcemaster.cpp:176-177`. -/
def square (n : ℕ) : List (ℕ × ℕ) := (List.range n).flatMap fun i => (List.range n).map fun j => (i, j)

/-- The body of the loops of `initialize_does_interact`, `base/forcemaster.cpp:178-184`. -/
def doesStep (g : Table) (s : List Bool × Bool) (p : ℕ × ℕ) : List Bool × Bool :=
  match get2 g p.1 p.2 with
  | some (some _) => ((s.1.set p.1 true).set p.2 true, true)
  | _ => s

/-- `initialize_does_interact`, `base/forcemaster.cpp:171-186`. -/
def initDoes (s : FM K) : FM K :=
  let r := (square s.ntypes).foldl (doesStep s.grid) (List.replicate s.does.length false, s.any)
  { s with does := r.1, any := r.2 }

/-- `getInteraction`, `base/forcemaster.cpp:61-64`; the outer option is definedness. -/
def getInteraction (s : FM K) (a b : ℤ) : Option (Option ℕ) :=
  if (s.ntypes : ℤ) ≤ a ∨ (s.ntypes : ℤ) ≤ b ∨ a < 0 ∨ b < 0 then some none
  else get2 s.grid a.toNat b.toNat

/-- What a query with an error path does: it returns, throws `ParticleTypeError`, or is undefined. -/
inductive Outcome (α : Type) where
  | val (v : α)
  | throws
  | undef
  deriving DecidableEq

/-- `typeInteracts`, `base/forcemaster.cpp:102-110`. -/
def typeInteracts (s : FM K) (t : ℤ) : Outcome Bool :=
  if t = -1 then .val false
  else if t < 0 ∨ (s.ntypes : ℤ) ≤ t then .throws
  else match s.does[t.toNat]? with
    | some b => .val b
    | none => .undef

/-- `typesInteract`, `base/forcemaster.cpp:112-120` (the last comparison is `ntypes<type2`). -/
def typesInteract (s : FM K) (a b : ℤ) : Outcome Bool :=
  if a = -1 ∨ b = -1 then .val false
  else if a < 0 ∨ (s.ntypes : ℤ) ≤ a ∨ b < 0 ∨ (s.ntypes : ℤ) < b then .throws
  else match get2 s.grid a.toNat b.toNat with
    | some it => .val it.isSome
    | none => .undef

/-- `getMaxCutoff(type)`, `base/forcemaster.cpp:78-80`. -/
def getMaxCutoff (s : FM K) (t : ℕ) : Option K := s.maxC[t]?

/-! ## Histories and specification -/

/-- The calls that change the table. -/
inductive Call where
  | setNTypes (n : ℕ)
  | set (a b : ℤ) (it : Option ℕ) (reflexive : Bool)
  | setAll (it : Option ℕ)
  | init

/-- One call. -/
def step (cut : ℕ → K) (s : FM K) : Call → Option (FM K)
  | .setNTypes n => some (setNTypes s n)
  | .set a b it r => setInteraction cut s a b it r
  | .setAll it => setAll cut s it
  | .init => some (initDoes s)

/-- A history of calls on a new object; the most recent call comes first. -/
def run (cut : ℕ → K) : List Call → Option (FM K)
  | [] => some fresh
  | c :: h => (run cut h).bind fun s => step cut s c

/-- Spec: the number of types after a history. -/
def typesOf : List Call → ℕ
  | [] => 1
  | .setNTypes n :: _ => n
  | _ :: h => typesOf h

/-- Spec: the interaction last set for the ordered pair `(a, b)` since the types were last declared. -/
def lastSet : List Call → ℤ → ℤ → Option ℕ
  | [], _, _ => none
  | .setNTypes _ :: _, _, _ => none
  | .set a' b' it r :: h, a, b =>
    if (a = a' ∧ b = b') ∨ (r = true ∧ a = b' ∧ b = a') then it else lastSet h a b
  | .setAll it :: _, _, _ => it
  | .init :: h, a, b => lastSet h a b

/-- Spec: every call names types that exist at that time. -/
def InRange : List Call → Prop
  | [] => True
  | .set a b _ _ :: h => (0 ≤ a ∧ a < typesOf h ∧ 0 ≤ b ∧ b < typesOf h) ∧ InRange h
  | _ :: h => InRange h

/-- Spec: all calls are reflexive (the default). -/
def AllReflexive : List Call → Prop
  | [] => True
  | .set _ _ _ r :: h => r = true ∧ AllReflexive h
  | _ :: h => AllReflexive h

/-- Spec: some interaction has been set for an ordered pair that contains `t`, since the types were last declared. -/
def everSet : List Call → ℤ → ℕ → Prop
  | [], _, _ => False
  | .setNTypes _ :: _, _, _ => False
  | .set a b it _ :: h, t, p => (it = some p ∧ (t = a ∨ t = b)) ∨ everSet h t p
  | .setAll it :: h, t, p => it = some p ∨ everSet h t p
  | .init :: h, t, p => everSet h t p

/-! ## The table -/

/-- Well-formed states. -/
structure WF (s : FM K) : Prop where
  rows : s.grid.length = s.ntypes
  cols : ∀ row ∈ s.grid, row.length = s.ntypes
  does : s.does.length = s.ntypes
  maxC : s.maxC.length = s.ntypes

theorem get2_some {s : FM K} (h : WF s) {a b : ℕ} (ha : a < s.ntypes) (hb : b < s.ntypes) :
    ∃ v, get2 s.grid a b = some v := by
  unfold get2
  have ha' : a < s.grid.length := by rw [h.rows]; exact ha
  rw [List.getElem?_eq_getElem ha']
  have hc : s.grid[a].length = s.ntypes := h.cols _ (List.getElem_mem ha')
  simp only [Option.bind_some]
  exact ⟨_, List.getElem?_eq_getElem (by rw [hc]; exact hb)⟩

theorem set2_some {n : ℕ} {g : Table} (h1 : g.length = n) (h2 : ∀ row ∈ g, row.length = n) {a b : ℕ} (ha : a < n)
    (hb : b < n) (it : Option ℕ) :
    ∃ g', set2 g a b it = some g' ∧ g'.length = n ∧ (∀ row ∈ g', row.length = n) ∧
      ∀ x y, get2 g' x y = if x = a ∧ y = b then some it else get2 g x y := by
  have ha' : a < g.length := by omega
  have hr : (g[a]'ha').length = n := h2 _ (List.getElem_mem ha')
  refine ⟨g.set a ((g[a]'ha').set b it), ?_, by simpa using h1, ?_, ?_⟩
  · unfold set2
    rw [List.getElem?_eq_getElem ha']
    simp only [hr, if_pos hb]
  · intro row hrow
    rcases List.mem_or_eq_of_mem_set hrow with h | h
    · exact h2 _ h
    · rw [h, List.length_set, hr]
  · intro x y
    unfold get2
    rw [List.getElem?_set]
    by_cases hx : a = x
    · subst hx
      rw [if_pos rfl, if_pos ha', Option.bind_some, List.getElem?_eq_getElem ha', Option.bind_some]
      by_cases hy : b = y
      · subst hy
        rw [List.getElem?_set_self (by omega), if_pos ⟨rfl, rfl⟩]
      · rw [List.getElem?_set_ne hy, if_neg (fun h => hy h.2.symm)]
    · rw [if_neg hx, if_neg (fun h => hx h.1.symm)]

theorem raise_some {m : List K} {a : ℕ} (ha : a < m.length) (c : K) :
    ∃ m', raise m a c = some m' ∧ m'.length = m.length ∧
      ∀ x, m'[x]? = if x = a then (m[x]?).map (max · c) else m[x]? := by
  unfold raise
  rw [List.getElem?_eq_getElem ha]
  refine ⟨_, rfl, by split_ifs <;> simp, ?_⟩
  intro x
  by_cases hx : x = a
  · subst hx
    rw [if_pos rfl, List.getElem?_eq_getElem ha, Option.map_some]
    split_ifs with h
    · rw [List.getElem?_set_self ha, max_eq_right h.le]
    · rw [List.getElem?_eq_getElem ha, max_eq_left (not_lt.mp h)]
  · rw [if_neg hx]
    split_ifs with h
    · rw [List.getElem?_set_ne (fun e => hx e.symm)]
    · rfl

theorem setInteraction_spec (cut : ℕ → K) {s : FM K} (hs : WF s) {a b : ℕ} (ha : a < s.ntypes) (hb : b < s.ntypes)
    (it : Option ℕ) (r : Bool) :
    ∃ s', setInteraction cut s a b it r = some s' ∧ WF s' ∧ s'.ntypes = s.ntypes ∧ s'.does = s.does ∧
      s'.any = s.any ∧ s'.inter = addOnce s.inter it ∧
      (∀ x y, get2 s'.grid x y = if (x = a ∧ y = b) ∨ (r = true ∧ x = b ∧ y = a) then some it else get2 s.grid x y) ∧
      (∀ x, s'.maxC[x]? = match it with
        | none => s.maxC[x]?
        | some p => if x = a ∨ x = b then (s.maxC[x]?).map (max · (cut p)) else s.maxC[x]?) := by
  have hna : natIdx (a : ℤ) = some a := by simp [natIdx]
  have hnb : natIdx (b : ℤ) = some b := by simp [natIdx]
  obtain ⟨g1, e1, l1, c1, v1⟩ := set2_some hs.rows hs.cols ha hb it
  obtain ⟨g2, e2, l2, c2, v2⟩ : ∃ g2, (if r = true then set2 g1 b a it else some g1) = some g2 ∧
      g2.length = s.ntypes ∧ (∀ row ∈ g2, row.length = s.ntypes) ∧
      ∀ x y, get2 g2 x y = if (x = a ∧ y = b) ∨ (r = true ∧ x = b ∧ y = a) then some it else get2 s.grid x y := by
    cases r with
    | false =>
      refine ⟨g1, by simp, l1, c1, ?_⟩
      intro x y; rw [v1]; simp
    | true =>
      obtain ⟨g2, e2, l2, c2, v2⟩ := set2_some l1 c1 hb ha it
      refine ⟨g2, by simpa using e2, l2, c2, ?_⟩
      intro x y
      rw [v2, v1]
      by_cases h1 : x = a ∧ y = b
      · rw [if_pos h1]; simp [h1]
      · by_cases h2 : x = b ∧ y = a
        · simp [h2]
        · rw [if_neg h1, if_neg h2, if_neg (by tauto)]
  cases it with
  | none =>
    refine ⟨{ s with grid := g2 }, ?_, ⟨l2, c2, hs.does, hs.maxC⟩, rfl, rfl, rfl, rfl, v2, fun x => rfl⟩
    unfold setInteraction
    simp only [hna, hnb, Option.bind_some, e1, e2]
  | some p =>
    obtain ⟨m1, f1, k1, w1⟩ := raise_some (m := s.maxC) (a := a) (by rw [hs.maxC]; exact ha) (cut p)
    obtain ⟨m2, f2, k2, w2⟩ := raise_some (m := m1) (a := b) (by rw [k1, hs.maxC]; exact hb) (cut p)
    refine ⟨{ s with grid := g2, inter := addOnce s.inter (some p), maxC := m2 }, ?_,
      ⟨l2, c2, hs.does, by simp only [k2, k1, hs.maxC]⟩, rfl, rfl, rfl, rfl, v2, ?_⟩
    · unfold setInteraction
      simp only [hna, hnb, Option.bind_some, e1, e2, f1, f2]
    · intro x
      simp only [w2, w1]
      by_cases hxa : x = a <;> by_cases hxb : x = b
      · rw [if_pos hxb, if_pos hxa, if_pos (Or.inl hxa), Option.map_map]
        congr 1
        funext v
        simp
      · rw [if_neg hxb, if_pos hxa, if_pos (Or.inl hxa)]
      · rw [if_pos hxb, if_neg hxa, if_pos (Or.inr hxb)]
      · rw [if_neg hxb, if_neg hxa, if_neg (by tauto)]

theorem setNTypes_wf (s : FM K) (n : ℕ) : WF (setNTypes s n) := by
  refine ⟨by simp [setNTypes], ?_, by simp [setNTypes], by simp [setNTypes]⟩
  intro row hrow
  simp only [setNTypes, List.mem_replicate] at hrow
  simp [setNTypes, hrow.2]

theorem setNTypes_get2 (s : FM K) (n : ℕ) {a b : ℕ} (ha : a < n) (hb : b < n) :
    get2 (setNTypes s n).grid a b = some none := by
  unfold get2 setNTypes
  simp [ha, hb]

theorem mem_upper {n : ℕ} {p : ℕ × ℕ} : p ∈ upper n ↔ p.1 ≤ p.2 ∧ p.2 < n := by
  obtain ⟨i, j⟩ := p
  simp only [upper, List.mem_flatMap, List.mem_range, List.mem_map, List.mem_range'_1, Prod.mk.injEq]
  constructor
  · rintro ⟨k, hk, l, hl, rfl, rfl⟩; omega
  · rintro ⟨h1, h2⟩; exact ⟨i, by omega, j, by omega, rfl, rfl⟩

theorem setAll_aux (cut : ℕ → K) (it : Option ℕ) (n : ℕ) (l : List (ℕ × ℕ)) (hl : ∀ p ∈ l, p.1 < n ∧ p.2 < n)
    (s : FM K) (hs : WF s) (hn : s.ntypes = n) :
    ∃ s', l.foldlM (fun s p => setInteraction cut s (p.1 : ℕ) (p.2 : ℕ) it true) s = some s' ∧ WF s' ∧
      s'.ntypes = n ∧ s'.does = s.does ∧ s'.any = s.any ∧
      (s'.inter = if l = [] then s.inter else addOnce s.inter it) ∧
      (∀ x y, get2 s'.grid x y = if (x, y) ∈ l ∨ (y, x) ∈ l then some it else get2 s.grid x y) ∧
      (∀ x, s'.maxC[x]? = match it with
        | none => s.maxC[x]?
        | some p => if (∃ q ∈ l, x = q.1 ∨ x = q.2) then (s.maxC[x]?).map (max · (cut p)) else s.maxC[x]?) := by
  induction l generalizing s with
  | nil =>
    refine ⟨s, rfl, hs, hn, rfl, rfl, rfl, by simp, ?_⟩
    intro x; cases it <;> simp
  | cons p l ih =>
    obtain ⟨h1, h2⟩ := hl p (by simp)
    obtain ⟨s1, e1, w1, n1, d1, a1, i1, g1, m1⟩ := setInteraction_spec cut hs (hn ▸ h1) (hn ▸ h2) it true
    obtain ⟨s2, e2, w2, n2, d2, a2, i2, g2, m2⟩ := ih (fun q hq => hl q (List.mem_cons_of_mem _ hq)) s1 w1 (n1.trans hn)
    refine ⟨s2, ?_, w2, n2, d2.trans d1, a2.trans a1, ?_, ?_, ?_⟩
    · rw [List.foldlM_cons, e1]; exact e2
    · rw [i2, i1]
      rw [if_neg (List.cons_ne_nil p l)]
      by_cases hl' : l = []
      · rw [if_pos hl']
      · rw [if_neg hl']
        cases it with
        | none => rfl
        | some q =>
          have h6 : q ∈ addOnce s.inter (some q) := by
            unfold addOnce
            by_cases h : s.inter.contains q = true
            · simp only [if_pos h]; simpa using h
            · simp only [if_neg h]; simp
          generalize addOnce s.inter (some q) = reg at h6
          simp [addOnce, h6]
    · intro x y
      rw [g2, g1]
      obtain ⟨pa, pb⟩ := p
      simp only [true_and, List.mem_cons, Prod.mk.injEq]
      by_cases h3 : (x, y) ∈ l ∨ (y, x) ∈ l
      · rw [if_pos h3, if_pos (by tauto)]
      · rw [if_neg h3]
        by_cases h4 : (x = pa ∧ y = pb) ∨ (x = pb ∧ y = pa)
        · rw [if_pos h4, if_pos (by tauto)]
        · rw [if_neg h4, if_neg (by tauto)]
    · intro x
      rw [m2]
      cases it with
      | none => exact m1 x
      | some q =>
        simp only at m1 ⊢
        rw [m1]
        simp only [List.mem_cons, exists_eq_or_imp]
        by_cases h3 : ∃ q ∈ l, x = q.1 ∨ x = q.2 <;> by_cases h4 : x = p.1 ∨ x = p.2
        · rw [if_pos h3, if_pos h4, if_pos (Or.inl h4), Option.map_map]
          congr 1; funext v; simp
        · rw [if_pos h3, if_neg h4, if_pos (Or.inr h3)]
        · rw [if_neg h3, if_pos h4, if_pos (Or.inl h4)]
        · rw [if_neg h3, if_neg h4, if_neg (not_or.mpr ⟨h4, h3⟩)]

/-! ### `initialize_does_interact` -/

theorem doesStep_length (g : Table) (s : List Bool × Bool) (p : ℕ × ℕ) : (doesStep g s p).1.length = s.1.length := by
  unfold doesStep; split <;> simp

/-- A non-null entry. -/
def Hit (g : Table) (a b : ℕ) : Prop := ∃ p, get2 g a b = some (some p)

theorem doesStep_get (g : Table) (s : List Bool × Bool) (p : ℕ × ℕ) {t : ℕ} (ht : t < s.1.length) :
    (doesStep g s p).1[t]? = some true ↔ s.1[t]? = some true ∨ ((t = p.1 ∨ t = p.2) ∧ Hit g p.1 p.2) := by
  unfold doesStep Hit
  split
  · rename_i q hq
    simp only [hq, Option.some.injEq, exists_eq', and_true]
    by_cases h2 : p.2 = t
    · subst h2
      rw [List.getElem?_set_self (by simpa using ht)]; simp
    · rw [List.getElem?_set_ne h2]
      by_cases h1 : p.1 = t
      · subst h1
        rw [List.getElem?_set_self ht]; simp
      · rw [List.getElem?_set_ne h1]
        constructor
        · exact Or.inl
        · rintro (h | h | h)
          · exact h
          · exact absurd h.symm h1
          · exact absurd h.symm h2
  · rename_i hno
    constructor
    · exact Or.inl
    · rintro (h | ⟨_, q, hq⟩)
      · exact h
      · exact absurd hq (hno q)

theorem foldl_does (g : Table) (l : List (ℕ × ℕ)) (s : List Bool × Bool) :
    (l.foldl (doesStep g) s).1.length = s.1.length ∧
    (∀ t, t < s.1.length → ((l.foldl (doesStep g) s).1[t]? = some true ↔
      s.1[t]? = some true ∨ ∃ p ∈ l, (t = p.1 ∨ t = p.2) ∧ Hit g p.1 p.2)) ∧
    ((l.foldl (doesStep g) s).2 = true ↔ s.2 = true ∨ ∃ p ∈ l, Hit g p.1 p.2) := by
  induction l generalizing s with
  | nil => simp
  | cons p l ih =>
    obtain ⟨h1, h2, h3⟩ := ih (doesStep g s p)
    rw [List.foldl_cons]
    have hlen := doesStep_length g s p
    refine ⟨h1.trans hlen, ?_, ?_⟩
    · intro t ht
      rw [h2 t (by omega), doesStep_get g s p ht]
      simp only [List.mem_cons, exists_eq_or_imp]
      exact or_assoc
    · rw [h3]
      simp only [List.mem_cons, exists_eq_or_imp]
      have : (doesStep g s p).2 = true ↔ s.2 = true ∨ Hit g p.1 p.2 := by
        unfold doesStep Hit
        split
        · rename_i q hq; simp [hq]
        · rename_i hno
          constructor
          · exact Or.inl
          · rintro (h | ⟨q, hq⟩)
            · exact h
            · exact absurd hq (hno q)
      rw [this]; exact or_assoc

theorem mem_square {n : ℕ} {p : ℕ × ℕ} : p ∈ square n ↔ p.1 < n ∧ p.2 < n := by
  obtain ⟨i, j⟩ := p
  simp only [square, List.mem_flatMap, List.mem_range, List.mem_map, Prod.mk.injEq]
  constructor
  · rintro ⟨k, hk, l, hl, rfl, rfl⟩; exact ⟨hk, hl⟩
  · rintro ⟨h1, h2⟩; exact ⟨i, h1, j, h2, rfl, rfl⟩

/-! ## The main induction -/

/-- What holds of the state after a history. -/
structure Good (cut : ℕ → K) (h : List Call) (s : FM K) : Prop where
  wf : WF s
  nt : s.ntypes = typesOf h
  table : ∀ a b : ℕ, a < s.ntypes → b < s.ntypes → get2 s.grid a b = some (lastSet h a b)
  nodup : s.inter.Nodup
  mem : ∀ a b : ℕ, a < s.ntypes → b < s.ntypes → ∀ p, lastSet h a b = some p → p ∈ s.inter
  bound : ∀ (t : ℕ) (v : K), s.maxC[t]? = some v → 1 ≤ v ∧ (∀ p, everSet h t p → cut p ≤ v) ∧
    (v = 1 ∨ ∃ p, everSet h t p ∧ cut p = v)

theorem lastSet_everSet {h : List Call} {a b : ℤ} {p : ℕ} (hl : lastSet h a b = some p) :
    everSet h a p ∧ everSet h b p := by
  induction h with
  | nil => simp [lastSet] at hl
  | cons c h ih =>
    cases c with
    | setNTypes n => simp [lastSet] at hl
    | set a' b' it r =>
      simp only [lastSet] at hl
      simp only [everSet]
      split_ifs at hl with hc
      · rcases hc with ⟨rfl, rfl⟩ | ⟨_, rfl, rfl⟩ <;> simp [hl]
      · exact ⟨Or.inr (ih hl).1, Or.inr (ih hl).2⟩
    | setAll it => simp only [lastSet] at hl; simp [everSet, hl]
    | init => exact ih hl

theorem mem_addOnce {reg : List ℕ} {it : Option ℕ} {p : ℕ} : p ∈ addOnce reg it ↔ p ∈ reg ∨ it = some p := by
  cases it with
  | none => simp [addOnce]
  | some q =>
    simp only [addOnce]
    by_cases h : reg.contains q = true
    · rw [if_pos h]
      have : q ∈ reg := by simpa using h
      constructor
      · exact Or.inl
      · rintro (h | h)
        · exact h
        · cases h; exact this
    · rw [if_neg h]; simp [eq_comm]

theorem nodup_addOnce {reg : List ℕ} (h : reg.Nodup) (it : Option ℕ) : (addOnce reg it).Nodup := by
  cases it with
  | none => exact h
  | some q =>
    simp only [addOnce]
    by_cases hq : reg.contains q = true
    · rw [if_pos hq]; exact h
    · rw [if_neg hq]
      have : q ∉ reg := by simpa using hq
      rw [List.nodup_append]
      refine ⟨h, by simp, ?_⟩
      intro x hx y hy
      simp only [List.mem_singleton] at hy
      subst hy
      intro e; subst e; exact this hx

theorem bound_step {cut : ℕ → K} {v w c : K} {P Q : ℕ → Prop} {p : ℕ} (hc : c = cut p) (hw : w = max v c)
    (h1 : 1 ≤ v) (h2 : ∀ p, P p → cut p ≤ v) (h3 : v = 1 ∨ ∃ p, P p ∧ cut p = v) (hQ : ∀ q, Q q ↔ q = p ∨ P q) :
    1 ≤ w ∧ (∀ q, Q q → cut q ≤ w) ∧ (w = 1 ∨ ∃ q, Q q ∧ cut q = w) := by
  subst hc hw
  refine ⟨le_trans h1 (le_max_left _ _), ?_, ?_⟩
  · intro q hq
    rcases (hQ q).mp hq with rfl | h
    · exact le_max_right _ _
    · exact le_trans (h2 q h) (le_max_left _ _)
  · rcases max_choice v (cut p) with h | h
    · rw [h]
      rcases h3 with h3 | ⟨q, hq, he⟩
      · exact Or.inl h3
      · exact Or.inr ⟨q, (hQ q).mpr (Or.inr hq), he⟩
    · rw [h]; exact Or.inr ⟨p, (hQ p).mpr (Or.inl rfl), rfl⟩

theorem fresh_good (cut : ℕ → K) : Good cut [] (fresh : FM K) := by
  refine ⟨setNTypes_wf _ _, rfl, ?_, by simp [fresh, setNTypes], by simp [lastSet], ?_⟩
  · intro a b ha hb; exact setNTypes_get2 _ _ ha hb
  · intro t v hv
    simp only [fresh, setNTypes, List.getElem?_replicate] at hv
    split_ifs at hv with h
    cases hv
    exact ⟨le_rfl, by simp [everSet], Or.inl rfl⟩

theorem run_good (cut : ℕ → K) (h : List Call) (hr : InRange h) : ∃ s, run cut h = some s ∧ Good cut h s := by
  induction h with
  | nil => exact ⟨fresh, rfl, fresh_good cut⟩
  | cons c h ih =>
    cases c with
    | setNTypes n =>
      obtain ⟨s, e, G⟩ := ih hr
      refine ⟨setNTypes s n, by rw [run, e]; rfl, setNTypes_wf _ _, rfl, ?_, G.nodup, by simp [lastSet], ?_⟩
      · intro a b ha hb; exact setNTypes_get2 _ _ ha hb
      · intro t v hv
        simp only [setNTypes, List.getElem?_replicate] at hv
        split_ifs at hv with h
        cases hv
        exact ⟨le_rfl, by simp [everSet], Or.inl rfl⟩
    | set a b it r =>
      obtain ⟨⟨h1, h2, h3, h4⟩, hr⟩ := hr
      obtain ⟨s, e, G⟩ := ih hr
      obtain ⟨a, rfl⟩ := Int.eq_ofNat_of_zero_le h1
      obtain ⟨b, rfl⟩ := Int.eq_ofNat_of_zero_le h3
      have ha : a < s.ntypes := by rw [G.nt]; exact_mod_cast h2
      have hb : b < s.ntypes := by rw [G.nt]; exact_mod_cast h4
      obtain ⟨s1, e1, w1, n1, d1, a1, i1, g1, m1⟩ := setInteraction_spec cut G.wf ha hb it r
      refine ⟨s1, by rw [run, e]; exact e1, w1, n1.trans G.nt, ?_, by rw [i1]; exact nodup_addOnce G.nodup it, ?_, ?_⟩
      · intro x y hx hy
        rw [n1] at hx hy
        rw [g1, G.table x y hx hy]
        simp only [lastSet, Nat.cast_inj]
        split_ifs <;> rfl
      · intro x y hx hy p hp
        rw [n1] at hx hy
        rw [i1, mem_addOnce]
        simp only [lastSet] at hp
        split_ifs at hp with hc
        · exact Or.inr hp
        · exact Or.inl (G.mem x y hx hy p hp)
      · intro t v hv
        rw [m1] at hv
        cases it with
        | none =>
          simp only [everSet, reduceCtorEq, false_and, false_or]
          exact G.bound t v hv
        | some q =>
          simp only at hv
          by_cases hc : t = a ∨ t = b
          · rw [if_pos hc] at hv
            obtain ⟨u, hu, rfl⟩ := Option.map_eq_some_iff.mp hv
            obtain ⟨b1, b2, b3⟩ := G.bound t u hu
            refine bound_step rfl rfl b1 b2 b3 ?_
            intro p
            simp only [everSet, Option.some.injEq, Nat.cast_inj, hc, and_true]
            rw [eq_comm]
          · rw [if_neg hc] at hv
            simp only [everSet, Nat.cast_inj, hc, and_false, false_or]
            exact G.bound t v hv
    | setAll it =>
      obtain ⟨s, e, G⟩ := ih hr
      obtain ⟨s1, e1, w1, n1, d1, a1, i1, g1, m1⟩ := setAll_aux cut it s.ntypes (upper s.ntypes)
        (fun p hp => by rw [mem_upper] at hp; omega) s G.wf rfl
      have hall : ∀ x y, x < s.ntypes → y < s.ntypes → (x, y) ∈ upper s.ntypes ∨ (y, x) ∈ upper s.ntypes := by
        intro x y hx hy
        simp only [mem_upper]; omega
      refine ⟨s1, by rw [run, e]; exact e1, w1, n1.trans G.nt, ?_, ?_, ?_, ?_⟩
      · intro x y hx hy
        rw [n1] at hx hy
        rw [g1, if_pos (hall x y hx hy)]; rfl
      · rw [i1]; split_ifs
        · exact G.nodup
        · exact nodup_addOnce G.nodup it
      · intro x y hx hy p hp
        rw [n1] at hx hy
        simp only [lastSet] at hp
        rw [i1, if_neg, mem_addOnce]
        · exact Or.inr hp
        · intro h0
          have := hall x y hx hy
          simp [h0] at this
      · intro t v hv
        rw [m1] at hv
        cases it with
        | none =>
          simp only [everSet, reduceCtorEq, false_or]
          exact G.bound t v hv
        | some q =>
          simp only at hv
          have ht : t < s.ntypes := by
            rw [← G.wf.maxC]
            by_contra hcon
            rw [List.getElem?_eq_none (not_lt.mp hcon)] at hv
            simp at hv
          rw [if_pos ⟨(t, t), by rw [mem_upper]; exact ⟨le_rfl, ht⟩, Or.inl rfl⟩] at hv
          obtain ⟨u, hu, rfl⟩ := Option.map_eq_some_iff.mp hv
          obtain ⟨b1, b2, b3⟩ := G.bound t u hu
          refine bound_step rfl rfl b1 b2 b3 ?_
          intro p
          simp only [everSet, Option.some.injEq, eq_comm]
    | init =>
      obtain ⟨s, e, G⟩ := ih hr
      refine ⟨initDoes s, by rw [run, e]; rfl, ?_, G.nt, G.table, G.nodup, G.mem, G.bound⟩
      obtain ⟨h1, _, _⟩ := foldl_does s.grid (square s.ntypes) (List.replicate s.does.length false, s.any)
      exact ⟨G.wf.rows, G.wf.cols, by simp only [initDoes, h1, List.length_replicate]; exact G.wf.does, G.wf.maxC⟩

theorem lastSet_symm {h : List Call} (hr : AllReflexive h) (a b : ℤ) : lastSet h a b = lastSet h b a := by
  induction h with
  | nil => rfl
  | cons c h ih =>
    cases c with
    | setNTypes n => rfl
    | set a' b' it r =>
      obtain ⟨rfl, hr⟩ := hr
      simp only [lastSet, true_and]
      rw [ih hr]
      by_cases hc : (a = a' ∧ b = b') ∨ (a = b' ∧ b = a')
      · rw [if_pos hc, if_pos (by tauto)]
      · rw [if_neg hc, if_neg (by tauto)]
    | setAll it => rfl
    | init => exact ih hr

/-! ## Properties -/

/-- **C31.** After every history of calls that name existing types, the object is in a defined state and, for all
integers `a` and `b`, `getInteraction(a,b)` is defined and is the interaction last set for `(a, b)`, and null when none
was set or when `a` or `b` is not a type. If all calls were reflexive (the default) the answer does not depend on the
order of the two types. The list of interactions contains every interaction in the table and no object twice. -/
theorem C31_table (cut : ℕ → K) (h : List Call) (hr : InRange h) :
    ∃ s, run cut h = some s ∧ s.ntypes = typesOf h ∧
      (∀ a b : ℤ, getInteraction s a b =
        some (if 0 ≤ a ∧ a < typesOf h ∧ 0 ≤ b ∧ b < typesOf h then lastSet h a b else none)) ∧
      (AllReflexive h → ∀ a b : ℤ, getInteraction s a b = getInteraction s b a) ∧
      s.inter.Nodup ∧ (∀ a b : ℤ, ∀ p, getInteraction s a b = some (some p) → p ∈ s.inter) := by
  obtain ⟨s, e, G⟩ := run_good cut h hr
  have key : ∀ a b : ℤ, getInteraction s a b =
      some (if 0 ≤ a ∧ a < typesOf h ∧ 0 ≤ b ∧ b < typesOf h then lastSet h a b else none) := by
    intro a b
    unfold getInteraction
    rw [G.nt]
    by_cases hc : 0 ≤ a ∧ a < typesOf h ∧ 0 ≤ b ∧ b < typesOf h
    · rw [if_pos hc, if_neg (by omega)]
      rw [G.table a.toNat b.toNat (by rw [G.nt]; omega) (by rw [G.nt]; omega)]
      rw [Int.toNat_of_nonneg hc.1, Int.toNat_of_nonneg hc.2.2.1]
    · rw [if_neg hc, if_pos (by omega)]
  refine ⟨s, e, G.nt, key, ?_, G.nodup, ?_⟩
  · intro hrefl a b
    rw [key, key, lastSet_symm hrefl a b]
    by_cases hc : 0 ≤ a ∧ a < typesOf h ∧ 0 ≤ b ∧ b < typesOf h
    · rw [if_pos hc, if_pos (by tauto)]
    · rw [if_neg hc, if_neg (by tauto)]
  · intro a b p hp
    rw [key] at hp
    split_ifs at hp with hc
    swap
    · cases hp
    have hp' : lastSet h a b = some p := by simpa using hp
    obtain ⟨a, rfl⟩ := Int.eq_ofNat_of_zero_le hc.1
    obtain ⟨b, rfl⟩ := Int.eq_ofNat_of_zero_le hc.2.2.1
    exact G.mem a b (by rw [G.nt]; omega) (by rw [G.nt]; omega) p hp'

/-- `setInteraction` has no range check: with a type that does not exist it writes outside of the table. -/
theorem C31_out_of_range_undefined (cut : ℕ → K) (s : FM K) (hs : WF s) (a b : ℤ) (it : Option ℕ) (r : Bool)
    (hout : ¬ (0 ≤ a ∧ a < s.ntypes ∧ 0 ≤ b ∧ b < s.ntypes)) : setInteraction cut s a b it r = none := by
  unfold setInteraction natIdx
  by_cases ha : 0 ≤ a
  · by_cases hb : 0 ≤ b
    · have : set2 s.grid a.toNat b.toNat it = none := by
        unfold set2
        by_cases ha2 : a.toNat < s.grid.length
        · rw [List.getElem?_eq_getElem ha2]
          have hc : s.grid[a.toNat].length = s.ntypes := hs.cols _ (List.getElem_mem ha2)
          simp only
          rw [if_neg]
          rw [hc]; rw [hs.rows] at ha2; omega
        · rw [List.getElem?_eq_none (not_lt.mp ha2)]
      simp only [if_pos ha, if_pos hb, Option.bind_some, this, Option.bind_none]
    · simp only [if_pos ha, if_neg hb, Option.bind_some, Option.bind_none]
  · simp only [if_neg ha, Option.bind_none]

/-- **C32, `typeInteracts`.** After every history of calls that ends with an initialization (as at the start of each
run), `typeInteracts(t)` throws for integers that are not types, except that it is false for -1, and otherwise is true
exactly when there is an interaction between `t` and some type, in one of the orders. -/
theorem C32_type_interacts (cut : ℕ → K) (h : List Call) (hr : InRange h) :
    ∃ s, run cut (.init :: h) = some s ∧ ∀ t : ℤ, typeInteracts s t =
      if t = -1 then .val false
      else if t < 0 ∨ typesOf h ≤ t then .throws
      else .val (decide (∃ u : Fin (typesOf h), lastSet h t u ≠ none ∨ lastSet h u t ≠ none)) := by
  obtain ⟨s, e, G⟩ := run_good cut h hr
  refine ⟨initDoes s, by rw [run, e]; rfl, ?_⟩
  intro t
  unfold typeInteracts
  have hnt : (initDoes s).ntypes = typesOf h := G.nt
  rw [hnt]
  by_cases h1 : t = -1
  · rw [if_pos h1, if_pos h1]
  rw [if_neg h1, if_neg h1]
  by_cases h2 : t < 0 ∨ (typesOf h : ℤ) ≤ t
  · rw [if_pos h2, if_pos h2]
  rw [if_neg h2, if_neg h2]
  push Not at h2
  obtain ⟨t, rfl⟩ := Int.eq_ofNat_of_zero_le h2.1
  have ht : t < typesOf h := by exact_mod_cast h2.2
  obtain ⟨f1, f2, _⟩ := foldl_does s.grid (square s.ntypes) (List.replicate s.does.length false, s.any)
  have hd : (initDoes s).does.length = typesOf h := by
    simp only [initDoes, f1, List.length_replicate]; rw [G.wf.does, G.nt]
  have hlt : t < (initDoes s).does.length := by omega
  rw [Int.toNat_natCast, List.getElem?_eq_getElem hlt]
  simp only [Outcome.val.injEq]
  rw [Bool.eq_iff_iff, decide_eq_true_iff]
  have f2' := f2 t (by simp only [List.length_replicate, G.wf.does, G.nt]; exact ht)
  have hg : (initDoes s).does[t]? = some true ↔ (initDoes s).does[t] = true := by
    rw [List.getElem?_eq_getElem hlt]; simp
  rw [← hg]
  unfold initDoes
  simp only
  rw [f2']
  have hhit : ∀ a b : ℕ, a < s.ntypes → b < s.ntypes → (Hit s.grid a b ↔ lastSet h a b ≠ none) := by
    intro a b ha hb
    unfold Hit
    rw [G.table a b ha hb, Option.ne_none_iff_exists']
    simp
  constructor
  · rintro (hbad | ⟨p, hp, ht', hh⟩)
    · simp [List.getElem?_replicate] at hbad
    · rw [mem_square] at hp
      rw [hhit _ _ hp.1 hp.2] at hh
      rcases ht' with rfl | rfl
      · exact ⟨⟨p.2, by rw [← G.nt]; exact hp.2⟩, Or.inl hh⟩
      · exact ⟨⟨p.1, by rw [← G.nt]; exact hp.1⟩, Or.inr hh⟩
  · rintro ⟨u, hu⟩
    have hun : (u : ℕ) < s.ntypes := by rw [G.nt]; exact u.2
    have htn : t < s.ntypes := by rw [G.nt]; exact ht
    right
    rcases hu with hu | hu
    · exact ⟨(t, u), by rw [mem_square]; exact ⟨htn, hun⟩, Or.inl rfl, (hhit t u htn hun).mpr hu⟩
    · exact ⟨(u, t), by rw [mem_square]; exact ⟨hun, htn⟩, Or.inr rfl, (hhit u t hun htn).mpr hu⟩

/-- **C32, maximal cutoffs.** After every history, for every type `t` the value of `getMaxCutoff(t)` is at least 1 and at
least the cutoff of every interaction in row or column `t` of the table, and it is 1 or the cutoff of an interaction
that was set for `t` since the types were declared (it is never lowered when an interaction is replaced). -/
theorem C32_max_cutoff (cut : ℕ → K) (h : List Call) (hr : InRange h) :
    ∃ s, run cut h = some s ∧ ∀ t : ℕ, t < typesOf h → ∃ v, getMaxCutoff s t = some v ∧ 1 ≤ v ∧
      (∀ u : ℤ, ∀ p, lastSet h t u = some p ∨ lastSet h u t = some p → cut p ≤ v) ∧
      (v = 1 ∨ ∃ p, everSet h t p ∧ cut p = v) := by
  obtain ⟨s, e, G⟩ := run_good cut h hr
  refine ⟨s, e, ?_⟩
  intro t ht
  have hlt : t < s.maxC.length := by rw [G.wf.maxC, G.nt]; exact ht
  obtain ⟨b1, b2, b3⟩ := G.bound t _ (List.getElem?_eq_getElem hlt)
  refine ⟨_, List.getElem?_eq_getElem hlt, b1, ?_, b3⟩
  rintro u p (hp | hp)
  · exact b2 p (lastSet_everSet hp).1
  · exact b2 p (lastSet_everSet hp).2

/-- **C32, `typesInteract` (partial).** After every history, for all `a` and `b` with `b` different from the number of
types: the answer is false if one of them is -1, an exception if one of them is not a type, and otherwise whether the
table has an interaction for `(a, b)`.
Missing: `b` equal to the number of types, see `C32_negation_bounds`. -/
theorem C32_types_interact_partial (cut : ℕ → K) (h : List Call) (hr : InRange h) :
    ∃ s, run cut h = some s ∧ ∀ a b : ℤ, b ≠ typesOf h → typesInteract s a b =
      if a = -1 ∨ b = -1 then .val false
      else if a < 0 ∨ typesOf h ≤ a ∨ b < 0 ∨ typesOf h ≤ b then .throws
      else .val (lastSet h a b).isSome := by
  obtain ⟨s, e, G⟩ := run_good cut h hr
  refine ⟨s, e, ?_⟩
  intro a b hb
  unfold typesInteract
  rw [G.nt]
  by_cases h1 : a = -1 ∨ b = -1
  · rw [if_pos h1, if_pos h1]
  rw [if_neg h1, if_neg h1]
  by_cases h2 : a < 0 ∨ (typesOf h : ℤ) ≤ a ∨ b < 0 ∨ (typesOf h : ℤ) ≤ b
  · rw [if_pos h2, if_pos (by omega)]
  rw [if_neg h2, if_neg (by omega)]
  push Not at h2
  rw [G.table a.toNat b.toNat (by rw [G.nt]; omega) (by rw [G.nt]; omega)]
  rw [Int.toNat_of_nonneg h2.1, Int.toNat_of_nonneg h2.2.2.1]

/-- **C32 is false of the code (bounds).** After every history, for every existing type `a`, the call
`typesInteract(a, ntypes)` reads past the end of a row instead of throwing. -/
theorem C32_negation_bounds (cut : ℕ → K) (h : List Call) (hr : InRange h) :
    ∃ s, run cut h = some s ∧ ∀ a : ℤ, 0 ≤ a → a < typesOf h → typesInteract s a (typesOf h) = .undef := by
  obtain ⟨s, e, G⟩ := run_good cut h hr
  refine ⟨s, e, ?_⟩
  intro a ha hlt
  unfold typesInteract
  rw [G.nt, if_neg (by omega), if_neg (by omega)]
  have : get2 s.grid a.toNat (Int.toNat (typesOf h)) = none := by
    unfold get2
    have ha2 : a.toNat < s.grid.length := by rw [G.wf.rows, G.nt]; omega
    rw [List.getElem?_eq_getElem ha2]
    have hc : s.grid[a.toNat].length = s.ntypes := G.wf.cols _ (List.getElem_mem ha2)
    simp only [Option.bind_some]
    apply List.getElem?_eq_none
    rw [hc, G.nt]; simp
  rw [this]

/-- A history that meets the hypotheses: three types, a replaced interaction, a null one. -/
def exHist : List Call :=
  [.init, .set 0 1 none true, .set 2 1 (some 8) true, .set 1 1 (some 7) true, .setAll (some 5), .setNTypes 3]

example : InRange exHist ∧ AllReflexive exHist ∧ typesOf exHist = 3 ∧ lastSet exHist 1 2 = some 8 ∧
    lastSet exHist 1 0 = none ∧ lastSet exHist 0 2 = some 5 := by
  refine ⟨?_, ?_, rfl, by decide, by decide, by decide⟩
  · simp [exHist, InRange, typesOf]
  · simp [exHist, AllReflexive]

/-! ## Routing of pairs -/

/-- The tables of the handler, `base/interactionhandler.hpp` (`interaction_grid`, `cutoff_grid`). -/
structure HGrid (K : Type*) where
  inter : Table
  cutoff : List (List K)

/-- `set_up_grids`, `base/interactionhandler.cpp:407-423`, with forces in use. -/
def setUpGrids (cut : ℕ → K) (s : FM K) : HGrid K :=
  { inter := s.grid
    cutoff := s.grid.map fun row => row.map fun it => match it with
      | some p => cut p
      | none => 0 }

/-- `pair_interaction`, `base/interactionhandler.cpp:461-466`: `types` are the types of the particles, `lists p` is what
has been passed to `addPair` of interaction `p`. -/
def pairInteraction (hg : HGrid K) (types : ℕ → ℤ) (lists : ℕ → List (ℕ × ℕ × ℕ)) (v : ℕ × ℕ × ℕ) :
    Option (ℕ → List (ℕ × ℕ × ℕ)) := do
  let a ← natIdx (types v.1)
  let b ← natIdx (types v.2.1)
  let e ← get2 hg.inter a b
  match e with
  | none => some lists
  | some p => some (Function.update lists p (lists p ++ [v]))

/-- **C66.** Let the handler have been set up after a history of table calls. For every sequence of calls of
`pair_interaction` for particles whose types exist, every interaction object receives, in order, precisely those pairs
for whose ordered pair of types it is the entry of the table; pairs without an interaction are dropped.
Missing: tables changed after the handler was set up, see `C66_negation_stale`. -/
theorem C66_routing_partial (cut : ℕ → K) (h : List Call) (hr : InRange h) (types : ℕ → ℤ) (vs : List (ℕ × ℕ × ℕ))
    (hv : ∀ v ∈ vs, (0 ≤ types v.1 ∧ types v.1 < typesOf h) ∧ 0 ≤ types v.2.1 ∧ types v.2.1 < typesOf h) :
    ∃ s, run cut h = some s ∧ ∃ lists, vs.foldlM (pairInteraction (setUpGrids cut s) types) (fun _ => []) = some lists ∧
      ∀ p, lists p = vs.filter fun v => decide (lastSet h (types v.1) (types v.2.1) = some p) := by
  obtain ⟨s, e, G⟩ := run_good cut h hr
  refine ⟨s, e, ?_⟩
  have gen : ∀ (vs : List (ℕ × ℕ × ℕ)), (∀ v ∈ vs, (0 ≤ types v.1 ∧ types v.1 < typesOf h) ∧ 0 ≤ types v.2.1 ∧
      types v.2.1 < typesOf h) → ∀ l0 : ℕ → List (ℕ × ℕ × ℕ), ∃ lists,
      vs.foldlM (pairInteraction (setUpGrids cut s) types) l0 = some lists ∧
      ∀ p, lists p = l0 p ++ vs.filter fun v => decide (lastSet h (types v.1) (types v.2.1) = some p) := by
    intro vs
    induction vs with
    | nil => intro _ l0; exact ⟨l0, rfl, by simp⟩
    | cons v vs ih =>
      intro hv l0
      obtain ⟨⟨h1, h2⟩, h3, h4⟩ := hv v (by simp)
      have he : get2 (setUpGrids cut s).inter (types v.1).toNat (types v.2.1).toNat =
          some (lastSet h (types v.1) (types v.2.1)) := by
        have := G.table (types v.1).toNat (types v.2.1).toNat (by rw [G.nt]; omega) (by rw [G.nt]; omega)
        rw [Int.toNat_of_nonneg h1, Int.toNat_of_nonneg h3] at this
        exact this
      have hstep : pairInteraction (setUpGrids cut s) types l0 v =
          some (match lastSet h (types v.1) (types v.2.1) with
            | none => l0
            | some p => Function.update l0 p (l0 p ++ [v])) := by
        unfold pairInteraction
        simp only [natIdx, if_pos h1, if_pos h3, bind, Option.bind_some, he]
        cases lastSet h (types v.1) (types v.2.1) <;> rfl
      obtain ⟨lists, e1, e2⟩ := ih (fun w hw => hv w (List.mem_cons_of_mem _ hw))
        (match lastSet h (types v.1) (types v.2.1) with
            | none => l0
            | some p => Function.update l0 p (l0 p ++ [v]))
      refine ⟨lists, by rw [List.foldlM_cons, hstep]; exact e1, ?_⟩
      intro p
      rw [e2 p, List.filter_cons]
      cases hl : lastSet h (types v.1) (types v.2.1) with
      | none => simp
      | some q =>
        by_cases hq : q = p
        · subst hq; simp
        · simp only [Option.some.injEq, hq, decide_false, Bool.false_eq_true, if_false]
          rw [Function.update_of_ne (fun e => hq e.symm)]
  obtain ⟨lists, e1, e2⟩ := gen vs hv (fun _ => [])
  exact ⟨lists, e1, fun p => by rw [e2]; simp⟩

/-- **C66, cutoffs.** The cutoff table of the handler holds the cutoff of the interaction, and 0 where there is none. -/
theorem C66_cutoffs (cut : ℕ → K) (h : List Call) (hr : InRange h) :
    ∃ s, run cut h = some s ∧ ∀ a b : ℕ, a < typesOf h → b < typesOf h →
      ((setUpGrids cut s).cutoff[a]?.bind (·[b]?)) =
        some (match lastSet h a b with | some p => cut p | none => 0) := by
  obtain ⟨s, e, G⟩ := run_good cut h hr
  refine ⟨s, e, ?_⟩
  intro a b ha hb
  have ht := G.table a b (by rw [G.nt]; exact ha) (by rw [G.nt]; exact hb)
  unfold get2 at ht
  obtain ⟨row, hrow, hcell⟩ := Option.bind_eq_some_iff.mp ht
  simp only [setUpGrids, List.getElem?_map, hrow, Option.map_some, Option.bind_some, hcell]

/-- The table of the handler is a copy: an interaction set after the set-up is not seen by it. -/
theorem C66_negation_stale : ∃ (h : List Call) (s s' : FM ℚ), run (fun _ => (1 : ℚ)) h = some s ∧
    run (fun _ => (1 : ℚ)) (.set 0 0 (some 3) true :: h) = some s' ∧ getInteraction s' 0 0 = some (some 3) ∧
    ∃ lists, pairInteraction (setUpGrids (fun _ => (1 : ℚ)) s) (fun _ => 0) (fun _ => []) (0, 1, 0) = some lists ∧
      lists 3 = [] := by
  refine ⟨[], fresh, { (fresh : FM ℚ) with grid := [[some 3]], inter := [3] }, rfl, ?_, rfl, _, rfl, rfl⟩
  simp [run, step, setInteraction, natIdx, fresh, setNTypes, set2, raise, addOnce]

example : ∀ v ∈ [((0 : ℕ), (1 : ℕ), (0 : ℕ)), (1, 2, 1)], (0 ≤ ((fun _ => 2) : ℕ → ℤ) v.1 ∧
    ((fun _ => 2) : ℕ → ℤ) v.1 < typesOf exHist) := by
  intro v _
  exact ⟨by norm_num, by norm_num [exHist, typesOf]⟩

/-! ## The time step that forces suggest -/

/-- The loop over the particles of `compute_timescale`, `base/forcemaster.cpp:192-194`. -/
def maxIm : List K → K → K
  | [], m => m
  | x :: l, m => maxIm l (if x > m then x else m)

/-- The loop over the suggestions of `compute_timescale`, `base/forcemaster.cpp:203-208`. -/
def bestScale : List K → K → K
  | [], t => t
  | s :: l, t => bestScale l (if 0 < s ∧ (s < t ∨ t = -1) then s else t)

/-- `compute_timescale`, `base/forcemaster.cpp:188-209`: `old` is the previous value of `time_scale`, `sugg mass` the
suggestions of the interactions. -/
def computeTimescale (old : K) (ims : List K) (sugg : K → List K) : K :=
  if maxIm ims 0 = 0 then old else bestScale (sugg (1 / maxIm ims 0)) (-1)

/-- `pre_integrate`, `base/forcemaster.cpp:32-36`: returns the new `time_scale` and the new maximal time step. -/
def preIntegrate (factor old maxDT : K) (ims : List K) (sugg : K → List K) : K × K :=
  let ts := computeTimescale old ims sugg
  (ts, if 0 < ts * factor ∧ ts * factor < maxDT then ts * factor else maxDT)

theorem bestScale_spec (l : List K) (t : K) (ht : t = -1 ∨ 0 < t) :
    (bestScale l t = -1 ∨ 0 < bestScale l t) ∧ (0 < t → bestScale l t ≤ t ∧ 0 < bestScale l t) ∧
    (∀ s ∈ l, 0 < s → 0 < bestScale l t ∧ bestScale l t ≤ s) ∧
    (bestScale l t = t ∨ bestScale l t ∈ l) := by
  induction l generalizing t with
  | nil => exact ⟨ht, fun h => ⟨le_rfl, h⟩, by simp, Or.inl rfl⟩
  | cons s l ih =>
    simp only [bestScale]
    have ht' : (if 0 < s ∧ (s < t ∨ t = -1) then s else t) = -1 ∨ 0 < (if 0 < s ∧ (s < t ∨ t = -1) then s else t) := by
      split_ifs with h
      · exact Or.inr h.1
      · exact ht
    obtain ⟨h1, h2, h3, h4⟩ := ih _ ht'
    refine ⟨h1, ?_, ?_, ?_⟩
    · intro h0
      split_ifs with hc
      · rw [if_pos hc] at h2
        have := h2 hc.1
        rcases hc.2 with h | h
        · exact ⟨this.1.trans h.le, this.2⟩
        · linarith
      · rw [if_neg hc] at h2; exact h2 h0
    · intro q hq hq0
      rcases List.mem_cons.mp hq with rfl | hq
      · by_cases hc : 0 < q ∧ (q < t ∨ t = -1)
        · simp only [if_pos hc] at h2 ⊢
          exact ⟨(h2 hq0).2, (h2 hq0).1⟩
        · simp only [if_neg hc] at h2 ⊢
          have hnt : ¬ t = -1 := fun h => hc ⟨hq0, Or.inr h⟩
          have htp : 0 < t := ht.resolve_left hnt
          have : t ≤ q := by
            by_contra hlt
            exact hc ⟨hq0, Or.inl (not_le.mp hlt)⟩
          exact ⟨(h2 htp).2, (h2 htp).1.trans this⟩
      · exact h3 q hq hq0
    · split_ifs with hc
      · rw [if_pos hc] at h4
        rcases h4 with h4 | h4
        · right; rw [h4]; simp
        · right; exact List.mem_cons_of_mem _ h4
      · rw [if_neg hc] at h4
        rcases h4 with h4 | h4
        · left; exact h4
        · right; exact List.mem_cons_of_mem _ h4

theorem maxIm_spec (l : List K) (m : K) :
    m ≤ maxIm l m ∧ (∀ x ∈ l, x ≤ maxIm l m) ∧ (maxIm l m = m ∨ maxIm l m ∈ l) := by
  induction l generalizing m with
  | nil => simp [maxIm]
  | cons x l ih =>
    simp only [maxIm]
    obtain ⟨h1, h2, h3⟩ := ih (if x > m then x else m)
    refine ⟨?_, ?_, ?_⟩
    · refine le_trans ?_ h1; split_ifs with h
      · exact h.le
      · exact le_rfl
    · intro q hq
      rcases List.mem_cons.mp hq with rfl | hq
      · refine le_trans ?_ h1; split_ifs with h
        · exact le_rfl
        · exact not_lt.mp h
      · exact h2 q hq
    · split_ifs with h
      · rw [if_pos h] at h3
        rcases h3 with h3 | h3
        · right; rw [h3]; simp
        · right; exact List.mem_cons_of_mem _ h3
      · rw [if_neg h] at h3
        rcases h3 with h3 | h3
        · left; exact h3
        · right; exact List.mem_cons_of_mem _ h3

/-- **C67.** At the start of a run the maximal time step never grows and stays positive. If some particle is movable
then, with `m` the mass of the lightest particle (the reciprocal of the largest inverse mass), it is at most the factor
times each positive suggestion of an interaction for mass `m`; it is either unchanged or exactly the factor times one of
these suggestions. -/
theorem C67_max_step (factor old maxDT : K) (hf : 0 < factor) (hdt : 0 < maxDT) (ims : List K) (sugg : K → List K)
    (im : K) (him : im ∈ ims) (hpos : 0 < im) (hmax : ∀ x ∈ ims, x ≤ im) :
    let r := (preIntegrate factor old maxDT ims sugg).2
    0 < r ∧ r ≤ maxDT ∧ (∀ s ∈ sugg (1 / im), 0 < s → r ≤ factor * s) ∧
      (r = maxDT ∨ ∃ s ∈ sugg (1 / im), 0 < s ∧ r = factor * s) := by
  obtain ⟨m1, m2, m3⟩ := maxIm_spec ims 0
  have hm : maxIm ims 0 = im := by
    apply le_antisymm
    · rcases m3 with h | h
      · exact absurd (m2 im him) (by rw [h]; exact not_le.mpr hpos)
      · exact hmax _ h
    · exact m2 im him
  have hts : computeTimescale old ims sugg = bestScale (sugg (1 / im)) (-1) := by
    unfold computeTimescale
    rw [hm, if_neg hpos.ne']
  obtain ⟨h1, _, h3, h4⟩ := bestScale_spec (sugg (1 / im)) (-1 : K) (Or.inl rfl)
  intro r
  have hr : r = if 0 < bestScale (sugg (1 / im)) (-1) * factor ∧ bestScale (sugg (1 / im)) (-1) * factor < maxDT
      then bestScale (sugg (1 / im)) (-1) * factor else maxDT := by
    change (preIntegrate factor old maxDT ims sugg).2 = _
    unfold preIntegrate
    rw [hts]
  set b := bestScale (sugg (1 / im)) (-1 : K)
  split_ifs at hr with hc
  · refine ⟨hr ▸ hc.1, hr ▸ hc.2.le, ?_, Or.inr ?_⟩
    · intro s hs hs0
      rw [hr, mul_comm]
      exact mul_le_mul_of_nonneg_left (h3 s hs hs0).2 hf.le
    · have hb : 0 < b := pos_of_mul_pos_left hc.1 hf.le
      rcases h4 with h4 | h4
      · exact absurd h4 (by intro h; rw [h] at hb; linarith)
      · exact ⟨b, h4, hb, by rw [hr, mul_comm]⟩
  · refine ⟨hr ▸ hdt, hr.le, ?_, Or.inl hr⟩
    intro s hs hs0
    obtain ⟨hb, hbs⟩ := h3 s hs hs0
    rw [hr]
    by_contra hlt
    push Not at hlt
    apply hc
    constructor
    · positivity
    · calc b * factor ≤ s * factor := mul_le_mul_of_nonneg_right hbs hf.le
        _ = factor * s := mul_comm _ _
        _ < maxDT := hlt

example : (preIntegrate (1/50 : ℚ) (-1) 1 [0, 2, 1/2] (fun m => [4 * m, -1, 3 * m])).2 = 3/100 := by decide +kernel

/-- When no particle is movable the time scale of an earlier run is kept: `compute_timescale` returns before it resets
it, and the maximal time step is lowered to a suggestion for masses that do not exist any more. -/
theorem C67_stale_scale : (preIntegrate (1/50 : ℚ) 3 1 [0, 0] (fun m => [4 * m])).2 = 3/50 := by decide +kernel

end Verif.ForceMaster
