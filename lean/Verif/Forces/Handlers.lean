import Mathlib.Data.List.Flatten
import Mathlib.Tactic.Linarith

/-!
# The containers of neighbour pairs (C33)

Models the three pair containers of `interactions/generic-handlers.hpp` and the base class
`base/interaction.cpp:37-50`: `VerletList` (compressed: heads, offsets, neighbours), `VerletListVecPairs` (flat vector),
`VerletListPairs` (vector of pairs), and `VerletListVector`. Each object holds three lists (plain, wrapped, ghost).
Particle ids are natural numbers; reading outside of a vector is undefined (`none`).
-/

namespace Verif.Handlers

/-- A call that fills a container. -/
structure Add where
  id1 : ℕ
  id2 : ℕ
  list : ℕ

/-- Spec: the pairs added to a list, in order. -/
def added (l : ℕ) (adds : List Add) : List (ℕ × ℕ) :=
  (adds.filter fun a => decide (a.list = l)).map fun a => (a.id1, a.id2)

/-! ## `VerletList` -/

/-- One of the three lists of `VerletList`: `verlet[n]`, `head_list[n]`, `first_neighbor[n]`, `last_head[n]` (`none` is
-1), `interactions/generic-handlers.hpp:157-170`. -/
structure Lane where
  verlet : List ℕ
  heads : List ℕ
  first : List ℕ
  lastHead : Option ℕ

/-- `VerletList`; the lists by number, and `pairs`. -/
structure VL where
  lane : ℕ → Lane
  pairs : ℕ

/-- `addPair` on its list, `interactions/generic-handlers.hpp:22-28`. -/
def Lane.add (s : Lane) (id1 id2 : ℕ) : Lane :=
  let s := if s.lastHead ≠ some id1 then
      { s with first := s.first ++ [s.verlet.length], heads := s.heads ++ [id1], lastHead := some id1 }
    else s
  { s with verlet := s.verlet ++ [id2] }

/-- `addPair`, `interactions/generic-handlers.hpp:22-31`. -/
def VL.add (s : VL) (a : Add) : VL :=
  { lane := Function.update s.lane a.list ((s.lane a.list).add a.id1 a.id2), pairs := s.pairs + 1 }

/-- `close`, `interactions/generic-handlers.hpp:33-40`. -/
def VL.close (s : VL) : VL :=
  { s with lane := fun n =>
      { s.lane n with first := (s.lane n).first ++ [(s.lane n).verlet.length], lastHead := none } }

/-- `clear`, `interactions/generic-handlers.hpp:43-58`. -/
def VL.clear (_ : VL) : VL := { lane := fun _ => ⟨[], [], [], none⟩, pairs := 0 }

/-- The inner loop of `dolist`, `interactions/generic-handlers.hpp:138-140`: the neighbours `verlet[j]`, `n` of them. -/
def slice (v : List ℕ) (h : ℕ) : ℕ → ℕ → Option (List (ℕ × ℕ))
  | _, 0 => some []
  | j, n + 1 => v[j]?.bind fun x => (slice v h (j + 1) n).map ((h, x) :: ·)

/-- The outer loop of `dolist`, `interactions/generic-handlers.hpp:134-138`. -/
def outer (s : Lane) : List ℕ → ℕ → Option (List (ℕ × ℕ))
  | [], _ => some []
  | h :: hs, i =>
    s.first[i]?.bind fun a => s.first[i + 1]?.bind fun b =>
      (slice s.verlet h a (b - a)).bind fun p => (outer s hs (i + 1)).map (p ++ ·)

/-- The pairs for which `dolist` calls the kernel, `interactions/generic-handlers.hpp:97-155`, in order. -/
def VL.dolist (s : VL) (l : ℕ) : Option (List (ℕ × ℕ)) :=
  if (s.lane l).verlet.isEmpty then some [] else outer (s.lane l) (s.lane l).heads 0

/-! ## The other containers -/

/-- `verlet[n]` of the base class. -/
abbrev VP := ℕ → List ℕ

/-- `Interaction::addPair`, `base/interaction.cpp:37-40`. -/
def VP.add (s : VP) (a : Add) : VP := Function.update s a.list (s a.list ++ [a.id1, a.id2])

/-- `Interaction::clear`, `base/interaction.cpp:42-46`. -/
def VP.clear (_ : VP) : VP := fun _ => []

/-- `Interaction::size`, `base/interaction.cpp:48-50`. -/
def VP.size (s : VP) : ℕ := ((s 0).length + (s 1).length + (s 2).length) / 2

/-- The loop of `VerletListVecPairs::dolist`, `interactions/generic-handlers.hpp:243-245`. -/
def VP.loop : List ℕ → Option (List (ℕ × ℕ))
  | [] => some []
  | [_] => none
  | a :: b :: rest => (VP.loop rest).map ((a, b) :: ·)

/-- `verlet_pairs[n]` of `VerletListPairs`, `interactions/generic-handlers.hpp:370`. -/
abbrev PP := ℕ → List (ℕ × ℕ)

/-- `VerletListPairs::addPair`, `interactions/generic-handlers.hpp:274-276`. -/
def PP.add (s : PP) (a : Add) : PP := Function.update s a.list (s a.list ++ [(a.id1, a.id2)])

/-- `VerletListPairs::clear`, `interactions/generic-handlers.hpp:279-283`. -/
def PP.clear (_ : PP) : PP := fun _ => []

/-- `VerletListPairs::size`, `interactions/generic-handlers.hpp:286-288`. -/
def PP.size (s : PP) : ℕ := (s 0).length + (s 1).length + (s 2).length

/-- `neighbor_list` of `VerletListVector`, `interactions/generic-handlers.hpp:489`: empty vectors, never resized. -/
abbrev VV := ℕ → List (List ℕ)

/-- `VerletListVector::addPair`, `interactions/generic-handlers.hpp:382-385`. -/
def VV.add (s : VV) (a : Add) : Option VV :=
  let h := if a.id1 < a.id2 then a.id1 else a.id2
  let x := if a.id1 < a.id2 then a.id2 else a.id1
  (s a.list)[h]?.map fun row => Function.update s a.list ((s a.list).set h (row ++ [x]))

/-! ## `VerletList`: correctness -/

/-- The groups of consecutive pairs with the same first particle. -/
abbrev Groups := List (ℕ × List ℕ)

/-- All neighbours. -/
def flat (g : Groups) : List ℕ := g.flatMap Prod.snd

/-- All pairs. -/
def pairsOf (g : Groups) : List (ℕ × ℕ) := g.flatMap fun p => p.2.map fun x => (p.1, x)

/-- Offsets of the first `n` groups. -/
def offs (g : Groups) (n : ℕ) : List ℕ := (List.range n).map fun i => (flat (g.take i)).length

/-- The lane represents the groups. -/
structure Rep (s : Lane) (g : Groups) : Prop where
  verlet : s.verlet = flat g
  heads : s.heads = g.map Prod.fst
  first : s.first = offs g g.length
  last : s.lastHead = g.getLast?.map Prod.fst

theorem flat_append (g g' : Groups) : flat (g ++ g') = flat g ++ flat g' := by simp [flat]

theorem pairsOf_append (g g' : Groups) : pairsOf (g ++ g') = pairsOf g ++ pairsOf g' := by simp [pairsOf]

theorem offs_append (g g' : Groups) {n : ℕ} (h : n ≤ g.length) : offs (g ++ g') n = offs g n := by
  unfold offs
  apply List.map_congr_left
  intro i hi
  rw [List.mem_range] at hi
  rw [List.take_append_of_le_length (by omega)]

theorem offs_succ (g : Groups) (n : ℕ) : offs g (n + 1) = offs g n ++ [(flat (g.take n)).length] := by
  unfold offs
  rw [List.range_succ, List.map_append]; rfl

theorem rep_add {s : Lane} {g : Groups} (h : Rep s g) (id1 id2 : ℕ) :
    ∃ g', Rep (s.add id1 id2) g' ∧ pairsOf g' = pairsOf g ++ [(id1, id2)] := by
  by_cases hl : s.lastHead = some id1
  · -- the last group grows
    rw [h.last] at hl
    obtain ⟨p, hp, hp1⟩ := Option.map_eq_some_iff.mp hl
    obtain ⟨g0, rfl⟩ : ∃ g0, g = g0 ++ [p] := by
      rcases List.eq_nil_or_concat g with rfl | ⟨g0, q, rfl⟩
      · simp at hp
      · simp at hp; subst hp; exact ⟨g0, by simp⟩
    refine ⟨g0 ++ [(p.1, p.2 ++ [id2])], ⟨?_, ?_, ?_, ?_⟩, ?_⟩
    · unfold Lane.add
      rw [if_neg (by rw [h.last]; simpa using hl)]
      simp only [h.verlet, flat_append]; simp [flat]
    · unfold Lane.add
      rw [if_neg (by rw [h.last]; simpa using hl)]
      simp only [h.heads]; simp
    · unfold Lane.add
      rw [if_neg (by rw [h.last]; simpa using hl)]
      simp only [h.first, List.length_append, List.length_cons, List.length_nil]
      rw [offs_succ, offs_succ, offs_append _ _ le_rfl, offs_append _ _ le_rfl]
      simp
    · unfold Lane.add
      rw [if_neg (by rw [h.last]; simpa using hl)]
      simp only [h.last]; simp
    · rw [pairsOf_append, pairsOf_append]
      simp [pairsOf, hp1]
  · refine ⟨g ++ [(id1, [id2])], ⟨?_, ?_, ?_, ?_⟩, ?_⟩
    · unfold Lane.add
      rw [if_pos hl]
      simp only [h.verlet, flat_append]; simp [flat]
    · unfold Lane.add
      rw [if_pos hl]
      simp only [h.heads]; simp
    · unfold Lane.add
      rw [if_pos hl]
      simp only [h.first, h.verlet, List.length_append, List.length_cons, List.length_nil]
      rw [offs_succ, offs_append _ _ le_rfl]
      simp
    · unfold Lane.add
      rw [if_pos hl]
      simp
    · rw [pairsOf_append]; simp [pairsOf]

theorem slice_spec (h : ℕ) (A seg B : List ℕ) :
    slice (A ++ seg ++ B) h A.length seg.length = some (seg.map fun x => (h, x)) := by
  induction seg generalizing A with
  | nil => rfl
  | cons x seg ih =>
    simp only [List.length_cons, slice]
    have h1 : (A ++ x :: seg ++ B)[A.length]? = some x := by simp
    rw [h1, Option.bind_some]
    have h2 := ih (A ++ [x])
    simp only [List.append_assoc, List.cons_append, List.nil_append, List.length_append, List.length_cons,
      List.length_nil, Nat.zero_add] at h2 ⊢
    rw [h2]; simp

theorem offs_get (g : Groups) {n i : ℕ} (h : i < n) : (offs g n)[i]? = some (flat (g.take i)).length := by
  unfold offs
  rw [List.getElem?_map, List.getElem?_range h]; rfl

theorem outer_spec (s : Lane) (g : Groups) (hv : s.verlet = flat g) (hf : s.first = offs g (g.length + 1))
    (pre suf : Groups) (hg : g = pre ++ suf) :
    outer s (suf.map Prod.fst) pre.length = some (pairsOf suf) := by
  induction suf generalizing pre with
  | nil => rfl
  | cons p suf ih =>
    have hlen : g.length = pre.length + suf.length + 1 := by rw [hg]; simp; omega
    simp only [List.map_cons, outer]
    rw [hf, offs_get g (by omega), offs_get g (by omega), Option.bind_some, Option.bind_some]
    have t1 : g.take pre.length = pre := by rw [hg]; simp
    have t2 : g.take (pre.length + 1) = pre ++ [p] := by
      rw [hg, show pre.length + 1 = pre.length + 1 from rfl, List.take_length_add_append]; simp
    rw [t1, t2, flat_append]
    have e1 : (flat pre ++ flat [p]).length - (flat pre).length = p.2.length := by simp [flat]
    rw [e1]
    have e2 : s.verlet = flat pre ++ p.2 ++ flat suf := by
      rw [hv, hg, flat_append]; simp [flat]
    rw [e2, slice_spec, Option.bind_some]
    have := ih (pre ++ [p]) (by rw [hg]; simp)
    simp only [List.length_append, List.length_cons, List.length_nil, Nat.zero_add] at this
    rw [this]
    simp [pairsOf]

theorem adds_rep (adds : List Add) (s : VL) (g : ℕ → Groups) (h : ∀ l, Rep (s.lane l) (g l)) :
    ∃ g' : ℕ → Groups, (∀ l, Rep ((adds.foldl VL.add s).lane l) (g' l)) ∧
      (∀ l, pairsOf (g' l) = pairsOf (g l) ++ added l adds) ∧
      (adds.foldl VL.add s).pairs = s.pairs + adds.length := by
  induction adds generalizing s g with
  | nil => exact ⟨g, h, by simp [added], rfl⟩
  | cons a adds ih =>
    obtain ⟨gl, hr, hp⟩ := rep_add (h a.list) a.id1 a.id2
    have hstep : ∀ l, Rep ((s.add a).lane l) (Function.update g a.list gl l) := by
      intro l
      unfold VL.add
      by_cases hl : l = a.list
      · subst hl; simpa using hr
      · simp only [Function.update_of_ne hl]; exact h l
    obtain ⟨g', h1, h2, h3⟩ := ih (s.add a) (Function.update g a.list gl) hstep
    refine ⟨g', h1, ?_, ?_⟩
    · intro l
      rw [h2 l]
      unfold added
      by_cases hl : a.list = l
      · subst hl
        simp [hp]
      · rw [Function.update_of_ne (fun e => hl e.symm), List.filter_cons_of_neg (by simpa using hl)]
    · rw [List.foldl_cons, h3]
      simp only [VL.add, List.length_cons]; omega

/-- **C33, `VerletList`.** From every state of the container, after `clear`, any sequence of `addPair` calls and one or
more calls of `close` (which is how the interaction handler uses it), running over list `l` is defined and calls the
kernel for precisely the pairs added to `l`, in the order in which they were added; `size()` is the number of calls.
Missing: the container `VerletListVector`, see `C33_negation_vector`. -/
theorem C33_verlet_list_partial (s0 : VL) (adds : List Add) (k : ℕ) :
    let s := VL.close^[k + 1] (adds.foldl VL.add s0.clear)
    (∀ l, s.dolist l = some (added l adds)) ∧ s.pairs = adds.length := by
  have hempty : ∀ l, Rep ((s0.clear).lane l) [] := fun l => ⟨rfl, rfl, rfl, rfl⟩
  obtain ⟨g, h1, h2, h3⟩ := adds_rep adds s0.clear (fun _ => []) hempty
  intro s
  have hiter : ∀ k (t : VL), (∀ l, ((VL.close^[k] t).lane l).verlet = (t.lane l).verlet ∧
      ((VL.close^[k] t).lane l).heads = (t.lane l).heads ∧
      ((VL.close^[k] t).lane l).first = (t.lane l).first ++ List.replicate k (t.lane l).verlet.length) ∧
      (VL.close^[k] t).pairs = t.pairs := by
    intro k
    induction k with
    | zero => intro t; simp
    | succ k ih =>
      intro t
      rw [Function.iterate_succ_apply']
      obtain ⟨i1, i2⟩ := ih t
      refine ⟨?_, i2⟩
      intro l
      obtain ⟨j1, j2, j3⟩ := i1 l
      refine ⟨j1, j2, ?_⟩
      simp only [VL.close, j3, j1, List.replicate_succ', List.append_assoc]
  obtain ⟨i1, i2⟩ := hiter (k + 1) (adds.foldl VL.add s0.clear)
  refine ⟨?_, ?_⟩
  · intro l
    obtain ⟨j1, j2, j3⟩ := i1 l
    have hp : pairsOf (g l) = added l adds := by rw [h2 l]; simp [pairsOf]
    unfold VL.dolist
    rw [← hp]
    -- the first `length+1` offsets decide
    have hout : ∀ (t : Lane) (f : List ℕ) (v : List ℕ), t.verlet = v →
        t.first = offs (g l) ((g l).length + 1) ++ f → v = flat (g l) →
        ∀ (pre suf : Groups), g l = pre ++ suf →
        outer t (suf.map Prod.fst) pre.length = some (pairsOf suf) := by
      intro t f v hv hf hvv pre suf hg
      have key := outer_spec ⟨v, t.heads, offs (g l) ((g l).length + 1), t.lastHead⟩ (g l) hvv rfl pre suf hg
      rw [← key]
      have hlen : (g l).length = pre.length + suf.length := by rw [hg]; simp
      clear key hg
      induction suf generalizing pre with
      | nil => rfl
      | cons p suf ih =>
        simp only [List.map_cons, outer]
        have hol : (offs (g l) ((g l).length + 1)).length = (g l).length + 1 := by simp [offs]
        simp only [List.length_cons] at hlen
        rw [hf, hv, List.getElem?_append_left (by omega), List.getElem?_append_left (by omega)]
        have := ih (pre ++ [p]) (by simp; omega)
        simp only [List.length_append, List.length_cons, List.length_nil, Nat.zero_add] at this
        rw [this]
    by_cases hem : (s.lane l).verlet.isEmpty = true
    · rw [if_pos hem]
      have h0 : flat (g l) = [] := by
        have : (s.lane l).verlet = [] := by simpa using hem
        rw [← (h1 l).verlet, ← j1]; exact this
      congr 1
      symm
      rw [List.eq_nil_iff_forall_not_mem]
      intro q hq
      simp only [pairsOf, List.mem_flatMap, List.mem_map] at hq
      obtain ⟨p, hp, x, hx, _⟩ := hq
      have : x ∈ flat (g l) := by simp only [flat, List.mem_flatMap]; exact ⟨p, hp, hx⟩
      rw [h0] at this; simp at this
    · rw [if_neg hem]
      have := hout (s.lane l) (List.replicate k (flat (g l)).length) (flat (g l)) (j1.trans (h1 l).verlet) (by
        rw [j3, (h1 l).first, (h1 l).verlet, offs_succ, List.take_length, List.replicate_succ]
        simp) rfl [] (g l) rfl
      rw [j2, (h1 l).heads]
      exact this
  · rw [i2, h3]; simp [VL.clear]

/-- **C33, `VerletListVecPairs`.** The same for the flat vector, which needs no `close`. -/
theorem C33_vec_pairs (s0 : VP) (adds : List Add) (hl : ∀ a ∈ adds, a.list < 3) :
    let s := adds.foldl VP.add s0.clear
    (∀ l, VP.loop (s l) = some (added l adds)) ∧ s.size = adds.length := by
  have loop_append : ∀ (v : List ℕ) (ps : List (ℕ × ℕ)) (a b : ℕ), VP.loop v = some ps →
      VP.loop (v ++ [a, b]) = some (ps ++ [(a, b)]) := by
    intro v
    induction v using VP.loop.induct with
    | case1 => intro ps a b h; simp [VP.loop] at h; subst h; rfl
    | case2 x => intro ps a b h; simp [VP.loop] at h
    | case3 x y rest ih =>
      intro ps a b h
      simp only [VP.loop] at h
      obtain ⟨qs, hq, rfl⟩ := Option.map_eq_some_iff.mp h
      have := ih qs a b hq
      simp only [List.cons_append, VP.loop, this, Option.map_some]
  have gen : ∀ (adds : List Add), (∀ a ∈ adds, a.list < 3) → ∀ (s : VP) (ps : ℕ → List (ℕ × ℕ)),
      (∀ l, VP.loop (s l) = some (ps l)) →
      (∀ l, VP.loop ((adds.foldl VP.add s) l) = some (ps l ++ added l adds)) ∧
      ((adds.foldl VP.add s) 0).length + ((adds.foldl VP.add s) 1).length + ((adds.foldl VP.add s) 2).length =
        (s 0).length + (s 1).length + (s 2).length + 2 * adds.length := by
    intro adds
    induction adds with
    | nil => intro _ s ps h; exact ⟨by simpa [added] using h, by simp⟩
    | cons a adds ih =>
      intro hl s ps h
      have ha := hl a (by simp)
      obtain ⟨h1, h2⟩ := ih (fun b hb => hl b (List.mem_cons_of_mem _ hb)) (VP.add s a)
        (Function.update ps a.list (ps a.list ++ [(a.id1, a.id2)])) (by
          intro l
          unfold VP.add
          by_cases hl : l = a.list
          · subst hl; simpa using loop_append _ _ _ _ (h a.list)
          · rw [Function.update_of_ne hl, Function.update_of_ne hl]; exact h l)
      rw [List.foldl_cons]
      refine ⟨?_, ?_⟩
      · intro l
        rw [h1 l]
        unfold added
        by_cases hl : a.list = l
        · subst hl; simp
        · rw [Function.update_of_ne (fun e => hl e.symm), List.filter_cons_of_neg (by simpa using hl)]
      · rw [h2]
        unfold VP.add
        have : a.list = 0 ∨ a.list = 1 ∨ a.list = 2 := by omega
        rcases this with e | e | e <;> rw [e] <;> simp <;> omega
  intro s
  obtain ⟨h1, h2⟩ := gen adds hl s0.clear (fun _ => []) (fun l => rfl)
  refine ⟨fun l => by simpa using h1 l, ?_⟩
  unfold VP.size
  change ((List.foldl VP.add s0.clear adds 0).length + _ + _) / 2 = _
  rw [h2]
  simp [VP.clear]

/-- **C33, `VerletListPairs`.** The same for the vector of pairs. -/
theorem C33_pairs (s0 : PP) (adds : List Add) (hl : ∀ a ∈ adds, a.list < 3) :
    let s := adds.foldl PP.add s0.clear
    (∀ l, s l = added l adds) ∧ s.size = adds.length := by
  have gen : ∀ (adds : List Add), (∀ a ∈ adds, a.list < 3) → ∀ (s : PP),
      (∀ l, (adds.foldl PP.add s) l = s l ++ added l adds) ∧
      ((adds.foldl PP.add s) 0).length + ((adds.foldl PP.add s) 1).length + ((adds.foldl PP.add s) 2).length =
        (s 0).length + (s 1).length + (s 2).length + adds.length := by
    intro adds
    induction adds with
    | nil => intro _ s; exact ⟨by simp [added], by simp⟩
    | cons a adds ih =>
      intro hl s
      have ha := hl a (by simp)
      obtain ⟨h1, h2⟩ := ih (fun b hb => hl b (List.mem_cons_of_mem _ hb)) (PP.add s a)
      rw [List.foldl_cons]
      refine ⟨?_, ?_⟩
      · intro l
        rw [h1 l]
        unfold added PP.add
        by_cases hl : a.list = l
        · subst hl; simp
        · rw [Function.update_of_ne (fun e => hl e.symm), List.filter_cons_of_neg (by simpa using hl)]
      · rw [h2]
        unfold PP.add
        have : a.list = 0 ∨ a.list = 1 ∨ a.list = 2 := by omega
        rcases this with e | e | e <;> rw [e] <;> simp <;> omega
  intro s
  obtain ⟨h1, h2⟩ := gen adds hl s0.clear
  refine ⟨fun l => by simpa [PP.clear] using h1 l, ?_⟩
  unfold PP.size
  change (List.foldl PP.add s0.clear adds 0).length + _ + _ = _
  rw [h2]
  simp [PP.clear]

/-- Six calls on two lists with a repeated first particle: the compressed form has three groups. -/
example : (VL.close ([⟨0, 1, 0⟩, ⟨0, 2, 0⟩, ⟨5, 6, 1⟩, ⟨3, 4, 0⟩, ⟨0, 7, 0⟩].foldl VL.add
      (VL.clear ⟨fun _ => ⟨[9], [9], [9], none⟩, 4⟩))).dolist 0 = some [(0, 1), (0, 2), (3, 4), (0, 7)] ∧
    ((VL.close ([⟨0, 1, 0⟩, ⟨0, 2, 0⟩, ⟨5, 6, 1⟩, ⟨3, 4, 0⟩, ⟨0, 7, 0⟩].foldl VL.add
      (VL.clear ⟨fun _ => ⟨[9], [9], [9], none⟩, 4⟩))).lane 0).heads = [0, 3, 0] := by
  constructor <;> rfl

/-- Without `close` the last group has no end: running over the list reads past the offsets. -/
theorem C33_close_needed (s0 : VL) (a : Add) : (VL.add s0.clear a).dolist a.list = none := by
  simp [VL.dolist, VL.add, VL.clear, Lane.add, outer]

/-- A pair added after `close` and before `clear` is attributed to the wrong particle: the container then holds an
offset that no head belongs to. -/
theorem C33_no_add_after_close :
    (VL.close ([⟨3, 4, 0⟩].foldl VL.add (VL.close ([⟨0, 1, 0⟩].foldl VL.add
      (VL.clear ⟨fun _ => ⟨[], [], [], none⟩, 0⟩))))).dolist 0 = some [(0, 1)] := by rfl

/-- **C33 is false of `VerletListVector`**: its vectors are never resized, so that every call of `addPair` on a new
object writes outside of them. -/
theorem C33_negation_vector (a : Add) : VV.add (fun _ => []) a = none := by
  simp [VV.add]

end Verif.Handlers
