import Verif.Visual.Palette
import Mathlib.Analysis.SpecialFunctions.Log.Basic
import Mathlib.Analysis.SpecialFunctions.Trigonometric.Basic
import Mathlib.Tactic.LinearCombination

/-!
# Colours and discs of visualised particles (C138, C139)

Models the colour bank, the scale factors, `determine_color` and the discs of `createImage` and `projectImage` of `visualization/visualization.cpp`, and `colorAngle` of
`visualization/palette.hpp`. Colours of the bank are represented by their place in the bank; the random colours are not modelled.
-/

namespace Verif.Colours

open Verif.Palette

/-! ## The colour bank -/

/-- `setColorBankSize`, `visualization/visualization.cpp:53-59`: the new size. -/
def setBank (size : ℕ) (cbs : ℤ) : ℕ := if cbs ≠ size ∧ cbs > 0 then cbs.toNat else size

/-- The size after `load_and_create` has read the number of types, `visualization/visualization.cpp:39-42`; the comparison is unsigned, so that a negative number counts as large. -/
def loadBank (size : ℕ) (option : ℕ) (ntypes : ℤ) : ℕ :=
  let s1 := if option = 0 ∧ ((size : ℤ) < ntypes ∨ ntypes < 0) then setBank size ntypes else size
  if option = 6 then setBank s1 64 else s1

/-- What changes the size of the bank. -/
inductive BankAct where
  | set (cbs : ℤ)
  | load (option : ℕ) (ntypes : ℤ)

/-- The size after a sequence of actions, from the 75 colours of the constructor, `visualization/visualization.cpp:9-12`. -/
def bank (acts : List BankAct) : ℕ :=
  acts.foldl (fun n a => match a with
    | .set c => setBank n c
    | .load o t => loadBank n o t) 75

/-- `getColor`, `visualization/visualization.cpp:353-355`: the place in the bank; the `int` is converted to an unsigned 64 bit number. -/
def getColor (size : ℕ) (c : ℤ) : Option ℕ := if size = 0 then none else some ((c % 2 ^ 64).toNat % size)

/-! ## Scale factors and colours -/

section Field

variable {K : Type} [Field K] [LinearOrder K] [IsStrictOrderedRing K] [FloorRing K]

/-- A colour: components, or a place in the bank. -/
inductive Col where
  | rgb (r g b : ℤ)
  | bank (i : ℕ)
  deriving DecidableEq

/-- `findScalarScaleFactors`, `visualization/visualization.cpp:308-322`, over the values of the column: least and greatest. -/
def scales (first : K) (vals : List K) : K × K :=
  vals.foldl (fun a x => if x < a.1 then (x, a.2) else if x > a.2 then (a.1, x) else a) (first, first)

/-- `s_scale_average`, `visualization/visualization.cpp:315, 319, 321` (and likewise each component of `v_scale_average`, 300-305): the factor is a quotient of integers. -/
def average (dataWidth : ℕ) (vals : List K) : K := vals.sum * ((dataWidth / (dataWidth * vals.length) : ℕ) : K)

/-- `findVectorScaleFactors`, `visualization/visualization.cpp:299-304`: the greatest magnitude. -/
def vscale (mags : List K) : K := mags.foldl (fun a x => if x > a then x else a) 0

/-- `determine_color` for scalars, function 0, `visualization/visualization.cpp:545-549`; `none` is a division by zero. -/
def scalarColour (mn mx x : K) : Option Col :=
  if mx - mn = 0 then none else
    let value := (x - mn) / (mx - mn)
    some (.rgb ⌊255 * value⌋ 0 ⌈200 * (1 - value)⌉)

/-- `determine_color` for scalars, function 2 (stripes), `visualization/visualization.cpp:555-561`. -/
def stripeColour (size : ℕ) (mn mx x : K) : Option Col :=
  if mx - mn = 0 then none else
    let select := trunc ((x - mn) / (mx - mn) * size)
    let select := if select < 0 then 0 else if (size : ℤ) ≤ select then (size : ℤ) - 1 else select
    (getColor size select).map .bank

/-- `determine_color` for vectors, function 0, `visualization/visualization.cpp:523-528`. -/
def vectorColour (vmax mag : K) : Option Col :=
  if vmax = 0 then none else
    let value := mag / vmax
    some (.rgb ⌊255 * value⌋ 0 (trunc (200 * (1 - value))))

/-- The shade of a pixel in the disc of a particle, `visualization/visualization.cpp:188-199`: `none` if the pixel is not coloured, otherwise the factor (of 255). -/
def shade (xf yf : K) : Option ℤ :=
  let s := 255 * (1 - 1 / 2 * (xf ^ 2 + yf ^ 2))
  if s < 0 then none else some ⌊s⌋

/-- The resolution of an image, `visualization/visualization.cpp:154-157`. -/
def resolution (res : ℤ) (wx wy : K) : ℤ × ℤ :=
  if wx > wy then (res, trunc (wy / wx * res)) else if wy > wx then (trunc (wx / wy * res), res) else (res, res)

/-! ## C138: the bank -/

theorem setBank_pos (n : ℕ) (c : ℤ) (h : 0 < n) : 0 < setBank n c := by
  unfold setBank
  split <;> omega

theorem loadBank_pos (n : ℕ) (o : ℕ) (t : ℤ) (h : 0 < n) : 0 < loadBank n o t := by
  unfold loadBank
  simp only []
  split
  · apply setBank_pos
    split
    · exact setBank_pos _ _ h
    · exact h
  · split
    · exact setBank_pos _ _ h
    · exact h

theorem bank_pos (acts : List BankAct) : 0 < bank acts := by
  unfold bank
  generalize hn : (75 : ℕ) = n
  have h : 0 < n := by omega
  clear hn
  induction acts generalizing n with
  | nil => exact h
  | cons a l ih =>
    rw [List.foldl_cons]
    apply ih
    cases a with
    | set c => exact setBank_pos _ _ h
    | load o t => exact loadBank_pos _ _ _ h

/-- C138: whatever sizes were asked for and data loaded, every number selects a colour in the bank, and numbers below the size
select the colour at their own place. -/
theorem C138_bank (acts : List BankAct) :
    (∀ c : ℤ, ∃ i, getColor (bank acts) c = some i ∧ i < bank acts) ∧
    (∀ c : ℤ, 0 ≤ c → c < bank acts → (bank acts : ℤ) ≤ 2 ^ 31 → getColor (bank acts) c = some c.toNat) := by
  have h := bank_pos acts
  refine ⟨fun c => ⟨(c % 2 ^ 64).toNat % bank acts, ?_, Nat.mod_lt _ h⟩, fun c h0 h1 h2 => ?_⟩
  · unfold getColor
    rw [if_neg (by omega)]
  · unfold getColor
    rw [if_neg (by omega), Int.emod_eq_of_lt h0 (by omega), Nat.mod_eq_of_lt (by omega)]

/-- C138: after data with `ntypes` types are loaded to be coloured by type, the bank has a colour of its own for each type. -/
theorem C138_types (acts : List BankAct) (ntypes : ℤ) : ntypes ≤ bank (acts ++ [.load 0 ntypes]) := by
  unfold bank
  rw [List.foldl_append, List.foldl_cons, List.foldl_nil]
  simp only []
  generalize List.foldl _ 75 acts = n
  unfold loadBank
  simp only [Nat.reduceEqDiff, OfNat.zero_ne_ofNat, if_false, true_and]
  split
  · unfold setBank
    split <;> omega
  · omega

/-- C138: hence two different types have different places in the bank. -/
theorem C138_types_differ (acts : List BankAct) (ntypes a b : ℤ) (ha : 0 ≤ a ∧ a < ntypes) (hb : 0 ≤ b ∧ b < ntypes)
    (hs : (bank (acts ++ [.load 0 ntypes]) : ℤ) ≤ 2 ^ 31) (e : getColor (bank (acts ++ [.load 0 ntypes])) a = getColor (bank (acts ++ [.load 0 ntypes])) b) : a = b := by
  have h := C138_types acts ntypes
  have e1 := (C138_bank (acts ++ [BankAct.load 0 ntypes])).2 a ha.1 (by omega) hs
  have e2 := (C138_bank (acts ++ [BankAct.load 0 ntypes])).2 b hb.1 (by omega) hs
  rw [e1, e2] at e
  have := Option.some.inj e
  omega

/-- C138, the hypotheses are met: 100 types with the bank of the constructor. -/
example : bank [.load 0 100] = 100 ∧ getColor (bank [.load 0 100]) 99 = some 99 ∧ getColor (bank [.load 1 100]) 99 = some 24 := by decide

/-- C138 is false of processors: data coloured by processor use 64 colours, whatever the number of processors, so that processors 0 and 64 have the same. -/
theorem C138_negation_processors (acts : List BankAct) (t : ℤ) :
    getColor (bank (acts ++ [.load 6 t])) 0 = getColor (bank (acts ++ [.load 6 t])) 64 := by
  have e : bank (acts ++ [.load 6 t]) = 64 := by
    unfold bank
    rw [List.foldl_append, List.foldl_cons, List.foldl_nil]
    simp only []
    generalize List.foldl _ 75 acts = n
    unfold loadBank setBank
    simp only [OfNat.ofNat_ne_zero, false_and, if_false, if_true]
    split <;> omega
  rw [e]
  decide

/-! ## C138: scales -/

theorem scales_fold (vals : List K) : ∀ a : K × K, a.1 ≤ a.2 →
    let r := vals.foldl (fun a x => if x < a.1 then (x, a.2) else if x > a.2 then (a.1, x) else a) a
    (r.1 ≤ a.1 ∧ a.2 ≤ r.2 ∧ ∀ x ∈ vals, r.1 ≤ x ∧ x ≤ r.2) ∧ (r.1 = a.1 ∨ r.1 ∈ vals) ∧ (r.2 = a.2 ∨ r.2 ∈ vals) := by
  induction vals with
  | nil => intro a _; simp
  | cons y l ih =>
    intro a ha
    rw [List.foldl_cons]
    by_cases h1 : y < a.1
    · rw [if_pos h1]
      obtain ⟨⟨p, q, s⟩, t, u⟩ := ih (y, a.2) (h1.le.trans ha)
      simp only [] at p q s t u ⊢
      refine ⟨⟨p.trans h1.le, q, fun x hx => ?_⟩, ?_, ?_⟩
      · rcases List.mem_cons.mp hx with rfl | hx
        · exact ⟨p, (h1.le.trans ha).trans q⟩
        · exact s x hx
      · rcases t with t | t
        · exact Or.inr (by rw [t]; simp)
        · exact Or.inr (List.mem_cons_of_mem _ t)
      · rcases u with u | u
        · exact Or.inl u
        · exact Or.inr (List.mem_cons_of_mem _ u)
    · rw [if_neg h1]
      by_cases h2 : y > a.2
      · rw [if_pos h2]
        obtain ⟨⟨p, q, s⟩, t, u⟩ := ih (a.1, y) (ha.trans h2.le)
        simp only [] at p q s t u ⊢
        refine ⟨⟨p, h2.le.trans q, fun x hx => ?_⟩, ?_, ?_⟩
        · rcases List.mem_cons.mp hx with rfl | hx
          · exact ⟨p.trans (not_lt.mp h1), q⟩
          · exact s x hx
        · rcases t with t | t
          · exact Or.inl t
          · exact Or.inr (List.mem_cons_of_mem _ t)
        · rcases u with u | u
          · exact Or.inr (by rw [u]; simp)
          · exact Or.inr (List.mem_cons_of_mem _ u)
      · rw [if_neg h2]
        obtain ⟨⟨p, q, s⟩, t, u⟩ := ih a ha
        refine ⟨⟨p, q, fun x hx => ?_⟩, ?_, ?_⟩
        · rcases List.mem_cons.mp hx with rfl | hx
          · exact ⟨p.trans (not_lt.mp h1), (not_lt.mp h2).trans q⟩
          · exact s x hx
        · rcases t with t | t
          · exact Or.inl t
          · exact Or.inr (List.mem_cons_of_mem _ t)
        · rcases u with u | u
          · exact Or.inl u
          · exact Or.inr (List.mem_cons_of_mem _ u)

/-- C138: the scales of a frame are the least and the greatest value of its particles. -/
theorem C138_scales (first : K) (rest : List K) :
    let r := scales first (first :: rest)
    (∀ x ∈ first :: rest, r.1 ≤ x ∧ x ≤ r.2) ∧ r.1 ∈ first :: rest ∧ r.2 ∈ first :: rest := by
  obtain ⟨⟨_, _, s⟩, t, u⟩ := scales_fold (first :: rest) (first, first) le_rfl
  refine ⟨s, ?_, ?_⟩
  · rcases t with t | t
    · exact t ▸ List.mem_cons_self
    · exact t
  · rcases u with u | u
    · exact u ▸ List.mem_cons_self
    · exact u

theorem vscale_fold (l : List K) : ∀ a : K, a ≤ l.foldl (fun a x => if x > a then x else a) a ∧ (∀ x ∈ l, x ≤ l.foldl (fun a x => if x > a then x else a) a) ∧
    (l.foldl (fun a x => if x > a then x else a) a = a ∨ l.foldl (fun a x => if x > a then x else a) a ∈ l) := by
  induction l with
  | nil => intro a; simp
  | cons y l ih =>
    intro a
    rw [List.foldl_cons]
    have hy : y ≤ (if y > a then y else a) := by split <;> order
    have ha : a ≤ (if y > a then y else a) := by split <;> order
    obtain ⟨p, q, r⟩ := ih (if y > a then y else a)
    refine ⟨ha.trans p, fun x hx => ?_, ?_⟩
    · rcases List.mem_cons.mp hx with rfl | hx
      · exact hy.trans p
      · exact q x hx
    · rcases r with r | r
      · rw [r]
        by_cases h : y > a
        · rw [if_pos h]
          exact Or.inr List.mem_cons_self
        · rw [if_neg h]
          exact Or.inl rfl
      · exact Or.inr (List.mem_cons_of_mem _ r)

/-- C138: the scale of vectors is the greatest magnitude of the frame (0 if there are no particles). -/
theorem C138_vscale (mags : List K) (h : ∀ x ∈ mags, 0 ≤ x) : (∀ x ∈ mags, x ≤ vscale mags) ∧ 0 ≤ vscale mags ∧ (mags ≠ [] → vscale mags ∈ mags) := by
  obtain ⟨p, q, r⟩ := vscale_fold mags 0
  refine ⟨q, p, fun hne => ?_⟩
  rcases r with r | r
  · cases mags with
    | nil => exact absurd rfl hne
    | cons y l =>
      have h1 := h y (by simp)
      have h2 := q y (by simp)
      have : vscale (y :: l) = y := le_antisymm (by unfold vscale; rw [r]; exact h1) h2
      rw [this]
      simp
  · exact r

/-- C138 is false of the averages: the factor is a quotient of integers, which is 0 for two or more particles, so that the average is 0 whatever the data (and directions are not
relative to the mean velocity). -/
theorem C138_negation_average (dataWidth : ℕ) (vals : List K) (hw : 0 < dataWidth) (h : 2 ≤ vals.length) : average dataWidth vals = 0 := by
  unfold average
  rw [Nat.div_eq_of_lt (by nlinarith)]
  simp

/-- The witness differs from the mean: two particles of value 1. -/
example : average 5 [(1 : ℚ), 1] = 0 ∧ [(1 : ℚ), 1].sum / 2 = 1 := by decide +kernel

/-! ## C138: colours -/

/-- C138 (partial): if the values of a frame are not all equal, each particle has a colour with components from 0 to 255, the least value is blue (0, 0, 200), the greatest red (255, 0, 0),
and a greater value is at least as red and at most as blue. Missing: frames in which all values are equal, see `C138_negation_equal`. -/
theorem C138_scalar_partial (first : K) (rest : List K) (hne : ∃ x ∈ rest, x ≠ first) :
    let mn := (scales first (first :: rest)).1
    let mx := (scales first (first :: rest)).2
    mn < mx ∧ scalarColour mn mx mn = some (.rgb 0 0 200) ∧ scalarColour mn mx mx = some (.rgb 255 0 0) ∧
    (∀ x ∈ first :: rest, ∃ r b, scalarColour mn mx x = some (.rgb r 0 b) ∧ (0 ≤ r ∧ r ≤ 255) ∧ (0 ≤ b ∧ b ≤ 200)) ∧
    ∀ x y r b r' b', x ≤ y → scalarColour mn mx x = some (.rgb r 0 b) → scalarColour mn mx y = some (.rgb r' 0 b') → r ≤ r' ∧ b' ≤ b := by
  intro mn mx
  obtain ⟨hb, _, _⟩ := C138_scales first rest
  obtain ⟨z, hz, hzne⟩ := hne
  have hz' := hb z (List.mem_cons_of_mem _ hz)
  have hf := hb first List.mem_cons_self
  have lt : mn < mx := by
    rcases lt_or_eq_of_le (hf.1.trans hf.2) with h | h
    · exact h
    · exact absurd (le_antisymm (by have := hz'.2; have := hf.1; order) (by have := hz'.1; have := hf.2; order)) hzne
  have hpos : 0 < mx - mn := sub_pos.mpr lt
  have hn : mx - mn ≠ 0 := hpos.ne'
  refine ⟨lt, ?_, ?_, ?_, ?_⟩
  · unfold scalarColour
    rw [if_neg hn, sub_self, zero_div]
    norm_num
  · unfold scalarColour
    rw [if_neg hn, div_self hn]
    norm_num
  · intro x hx
    obtain ⟨h1, h2⟩ := hb x hx
    have v0 : 0 ≤ (x - mn) / (mx - mn) := div_nonneg (sub_nonneg.mpr h1) hpos.le
    have v1 : (x - mn) / (mx - mn) ≤ 1 := (div_le_one hpos).mpr (sub_le_sub_right h2 _)
    refine ⟨_, _, if_neg hn, ⟨Int.floor_nonneg.mpr (by linarith), ?_⟩, Int.ceil_nonneg (by linarith), ?_⟩
    · have : (⌊255 * ((x - mn) / (mx - mn))⌋ : K) ≤ (255 : ℤ) := (Int.floor_le _).trans (by push_cast; linarith)
      exact_mod_cast this
    · apply Int.ceil_le.mpr
      push_cast
      linarith
  · intro x y r b r' b' hxy e1 e2
    unfold scalarColour at e1 e2
    rw [if_neg hn] at e1 e2
    simp only [Option.some.injEq, Col.rgb.injEq, true_and] at e1 e2
    rw [← e1.1, ← e1.2, ← e2.1, ← e2.2]
    have m : (x - mn) / (mx - mn) ≤ (y - mn) / (mx - mn) := (div_le_div_iff_of_pos_right hpos).mpr (sub_le_sub_right hxy _)
    exact ⟨Int.floor_le_floor (by linarith), Int.ceil_le_ceil (by linarith)⟩

/-- C138, the hypotheses are met. -/
example : scales (2 : ℚ) [2, 1, 4, 3] = (1, 4) ∧ scalarColour (1 : ℚ) 4 2 = some (.rgb 85 0 134) := by decide +kernel

/-- C138 is false of a frame of equal values (for instance of one particle): the colour of every particle is a quotient by zero. -/
theorem C138_negation_equal (x : K) (n : ℕ) : scalarColour (scales x (List.replicate (n + 1) x)).1 (scales x (List.replicate (n + 1) x)).2 x = none := by
  have e : scales x (List.replicate (n + 1) x) = (x, x) := by
    unfold scales
    induction n with
    | zero => simp
    | succ n ih =>
      rw [List.replicate_succ, List.foldl_cons, if_neg (lt_irrefl _), if_neg (lt_irrefl _)]
      exact ih
  rw [e]
  unfold scalarColour
  rw [if_pos (sub_self _)]

/-- C138 (partial): if some particle moves, each particle is coloured by its speed, with components from 0 to 255, particles at rest blue, the fastest red. Missing: no particle moves, see
`C138_negation_rest`. -/
theorem C138_vector_partial (mags : List K) (h : ∀ x ∈ mags, 0 ≤ x) (hm : ∃ x ∈ mags, x ≠ 0) :
    vectorColour (vscale mags) 0 = some (.rgb 0 0 200) ∧ vectorColour (vscale mags) (vscale mags) = some (.rgb 255 0 0) ∧
    (∀ x ∈ mags, ∃ r b, vectorColour (vscale mags) x = some (.rgb r 0 b) ∧ (0 ≤ r ∧ r ≤ 255) ∧ (0 ≤ b ∧ b ≤ 200)) := by
  obtain ⟨q, p, _⟩ := C138_vscale mags h
  obtain ⟨z, hz, hz0⟩ := hm
  have pos : 0 < vscale mags := lt_of_lt_of_le (lt_of_le_of_ne (h z hz) (Ne.symm hz0)) (q z hz)
  have hn := pos.ne'
  refine ⟨?_, ?_, ?_⟩
  · unfold vectorColour trunc
    rw [if_neg hn, zero_div]
    norm_num
  · unfold vectorColour trunc
    rw [if_neg hn, div_self hn]
    norm_num
  · intro x hx
    have v0 : 0 ≤ x / vscale mags := div_nonneg (h x hx) pos.le
    have v1 : x / vscale mags ≤ 1 := (div_le_one pos).mpr (q x hx)
    have b0 : (0 : K) ≤ 200 * (1 - x / vscale mags) := by linarith
    refine ⟨_, _, if_neg hn, ⟨Int.floor_nonneg.mpr (by linarith), ?_⟩, ?_, ?_⟩
    · have : (⌊255 * (x / vscale mags)⌋ : K) ≤ (255 : ℤ) := (Int.floor_le _).trans (by push_cast; linarith)
      exact_mod_cast this
    · rw [trunc_nonneg _ b0]
      exact Int.floor_nonneg.mpr b0
    · rw [trunc_nonneg _ b0]
      have : (⌊200 * (1 - x / vscale mags)⌋ : K) ≤ (200 : ℤ) := (Int.floor_le _).trans (by push_cast; linarith)
      exact_mod_cast this

/-- C138, the hypotheses are met. -/
example : vscale [(0 : ℚ), 3, 4] = 4 ∧ vectorColour (4 : ℚ) 3 = some (.rgb 191 0 50) := by decide +kernel

/-- C138 is false of particles at rest: the kinetic image of a system in which nothing moves divides by zero. -/
theorem C138_negation_rest (n : ℕ) : vectorColour (vscale (List.replicate n (0 : K))) 0 = none := by
  have e : vscale (List.replicate n (0 : K)) = 0 := by
    unfold vscale
    induction n with
    | zero => rfl
    | succ n ih =>
      rw [List.replicate_succ, List.foldl_cons, if_neg (lt_irrefl _)]
      exact ih
  rw [e]
  unfold vectorColour
  rw [if_pos rfl]

/-- C138: stripes divide the interval of the scales into as many equal parts as there are colours, each with a colour of its own; values outside have the colour of the nearest part. -/
theorem C138_stripes (size : ℕ) (mn mx x : K) (hs : 0 < size) (hb : (size : ℤ) ≤ 2 ^ 31) (h : mn < mx) :
    ∃ i : ℕ, stripeColour size mn mx x = some (.bank i) ∧ i < size ∧
      (mn ≤ x → x < mx → mn + (mx - mn) * i / size ≤ x ∧ x < mn + (mx - mn) * (i + 1) / size) ∧ (x ≤ mn → i = 0) ∧ (mx ≤ x → i = size - 1) := by
  have hpos : 0 < mx - mn := sub_pos.mpr h
  have sp : (0 : K) < size := by exact_mod_cast hs
  unfold stripeColour
  rw [if_neg hpos.ne']
  simp only []
  set v := (x - mn) / (mx - mn) * size with hv
  have xe : x = mn + (mx - mn) * v / size := by
    rw [hv]
    field_simp
    ring
  have fin : ∀ j : ℤ, 0 ≤ j → j < size → (getColor size j).map Col.bank = some (.bank j.toNat) := by
    intro j h0 h1
    unfold getColor
    rw [if_neg (by omega), Int.emod_eq_of_lt h0 (by omega), Nat.mod_eq_of_lt (by omega)]
    rfl
  by_cases c1 : trunc v < 0
  · rw [if_pos c1]
    have vneg : v < 0 := by
      by_contra hc
      rw [trunc_nonneg _ (not_lt.mp hc)] at c1
      have := Int.floor_nonneg.mpr (not_lt.mp hc)
      omega
    have xlt : x < mn := by
      rw [xe]
      have : (mx - mn) * v / size < 0 := div_neg_of_neg_of_pos (mul_neg_of_pos_of_neg hpos vneg) sp
      linarith
    exact ⟨0, fin 0 le_rfl (by omega), hs, fun hx => absurd hx (not_le.mpr xlt), fun _ => rfl, fun hx => absurd (h.trans_le hx) (not_lt.mpr xlt.le)⟩
  · rw [if_neg c1]
    by_cases c2 : (size : ℤ) ≤ trunc v
    · rw [if_pos c2]
      have v0 : 0 ≤ v := by
        by_contra hc
        have : trunc v ≤ 0 := by
          unfold trunc
          rw [if_neg (by order)]
          apply Int.ceil_le.mpr
          push_cast
          exact (not_le.mp hc).le
        omega
      rw [trunc_nonneg _ v0] at c2
      have vs : (size : K) ≤ v := by
        have := Int.le_floor.mp c2
        exact_mod_cast this
      have xge : mx ≤ x := by
        rw [xe]
        have : (mx - mn) ≤ (mx - mn) * v / size := by
          rw [le_div_iff₀ sp]
          nlinarith
        linarith
      refine ⟨size - 1, ?_, by omega, fun _ hx => absurd hx (not_lt.mpr xge), fun hx => absurd (h.trans_le (xge.trans hx)) (lt_irrefl _), fun _ => rfl⟩
      rw [fin _ (by omega) (by omega)]
      congr 2
      omega
    · rw [if_neg c2]
      refine ⟨(trunc v).toNat, fin _ (by omega) (by omega), by omega, ?_, ?_, ?_⟩
      · intro hx hx2
        have v0 : 0 ≤ v := by
          rw [hv]
          exact mul_nonneg (div_nonneg (sub_nonneg.mpr hx) hpos.le) sp.le
        have t := trunc_nonneg v v0
        have tn : 0 ≤ ⌊v⌋ := Int.floor_nonneg.mpr v0
        have ce : (((trunc v).toNat : ℕ) : K) = (⌊v⌋ : K) := by
          rw [t]
          have : ((⌊v⌋.toNat : ℕ) : ℤ) = ⌊v⌋ := Int.toNat_of_nonneg tn
          exact_mod_cast congrArg (Int.cast (R := K)) this
        rw [ce]
        have f1 := Int.floor_le v
        have f2 := Int.lt_floor_add_one v
        constructor
        · rw [xe]
          have : (mx - mn) * ⌊v⌋ / size ≤ (mx - mn) * v / size := div_le_div_of_nonneg_right (mul_le_mul_of_nonneg_left f1 hpos.le) sp.le
          linarith
        · nth_rewrite 1 [xe]
          have : (mx - mn) * v / size < (mx - mn) * (⌊v⌋ + 1) / size := (div_lt_div_iff_of_pos_right sp).mpr (mul_lt_mul_of_pos_left f2 hpos)
          linarith
      · intro hx
        have v0 : v ≤ 0 := by
          rw [hv]
          exact mul_nonpos_of_nonpos_of_nonneg (div_nonpos_of_nonpos_of_nonneg (sub_nonpos.mpr hx) hpos.le) sp.le
        have : trunc v ≤ 0 := by
          unfold trunc
          split
          · exact_mod_cast (Int.floor_le v).trans v0
          · apply Int.ceil_le.mpr
            push_cast
            exact v0
        omega
      · intro hx
        exfalso
        apply c2
        have vs : (size : K) ≤ v := by
          rw [hv]
          have : 1 ≤ (x - mn) / (mx - mn) := (one_le_div hpos).mpr (sub_le_sub_right hx _)
          nlinarith
        rw [trunc_nonneg _ (sp.le.trans vs)]
        apply Int.le_floor.mpr
        exact_mod_cast vs

/-- C138, the hypotheses are met. -/
example : stripeColour 4 (0 : ℚ) 8 5 = some (.bank 2) ∧ stripeColour 4 (0 : ℚ) 8 (-3) = some (.bank 0) ∧ stripeColour 4 (0 : ℚ) 8 8 = some (.bank 3) := by decide +kernel

/-! ## C139: discs -/

/-- C139: all pixels of the disc of a particle (in units of the radius) are coloured, with at least half of the brightness, fully in the centre, and not brighter away from it. -/
theorem C139_shade (xf yf : K) (h : xf ^ 2 + yf ^ 2 ≤ 1) :
    (∃ s, shade xf yf = some s ∧ 127 ≤ s ∧ s ≤ 255) ∧ shade (0 : K) 0 = some 255 ∧
    ∀ x y s t, xf ^ 2 + yf ^ 2 ≤ x ^ 2 + y ^ 2 → shade xf yf = some s → shade x y = some t → t ≤ s := by
  refine ⟨?_, ?_, ?_⟩
  · refine ⟨⌊255 * (1 - 1 / 2 * (xf ^ 2 + yf ^ 2))⌋, ?_, ?_, ?_⟩
    · unfold shade
      simp only []
      rw [if_neg (not_lt.mpr (by linarith))]
    · apply Int.le_floor.mpr
      push_cast
      linarith
    · have : (⌊255 * (1 - 1 / 2 * (xf ^ 2 + yf ^ 2))⌋ : K) ≤ (255 : ℤ) := (Int.floor_le _).trans (by push_cast; nlinarith [sq_nonneg xf, sq_nonneg yf])
      exact_mod_cast this
  · unfold shade
    norm_num
  · intro x y s t hxy e1 e2
    unfold shade at e1 e2
    simp only [] at e1 e2
    split at e1
    · simp at e1
    · split at e2
      · simp at e2
      · rw [← Option.some.inj e1, ← Option.some.inj e2]
        exact Int.floor_le_floor (by linarith)

/-- C139 (partial): the image has the resolution asked for along the wider side, and the proportions of the bounds up to less than one pixel. Missing: that there is a pixel in the
narrower direction, see `C139_negation_narrow`. -/
theorem C139_resolution_partial (res : ℤ) (wx wy : K) (hr : 0 ≤ res) (hx : 0 < wx) (hy : 0 < wy) :
    (wy ≤ wx → (resolution res wx wy).1 = res ∧ (wy / wx * res - 1 < (resolution res wx wy).2 ∧ ((resolution res wx wy).2 : K) ≤ wy / wx * res)) ∧
    (wx ≤ wy → (resolution res wx wy).2 = res ∧ (wx / wy * res - 1 < (resolution res wx wy).1 ∧ ((resolution res wx wy).1 : K) ≤ wx / wy * res)) := by
  have rr : (0 : K) ≤ res := by exact_mod_cast hr
  unfold resolution
  rcases lt_trichotomy wx wy with h | h | h
  · rw [if_neg (not_lt.mpr h.le), if_pos h]
    refine ⟨fun hc => absurd h (not_lt.mpr hc), fun _ => ⟨rfl, ?_⟩⟩
    rw [trunc_nonneg _ (by positivity)]
    exact ⟨Int.sub_one_lt_floor _, Int.floor_le _⟩
  · subst h
    rw [if_neg (lt_irrefl _), if_neg (lt_irrefl _), div_self hx.ne', one_mul]
    exact ⟨fun _ => ⟨rfl, by simp, le_rfl⟩, fun _ => ⟨rfl, by simp, le_rfl⟩⟩
  · rw [if_pos h]
    refine ⟨fun _ => ⟨rfl, ?_⟩, fun hc => absurd h (not_lt.mpr hc)⟩
    rw [trunc_nonneg _ (by positivity)]
    exact ⟨Int.sub_one_lt_floor _, Int.floor_le _⟩

/-- C139, the hypotheses are met. -/
example : resolution 1536 (4 : ℚ) 1 = (1536, 384) := by decide +kernel

/-- C139 is false of narrow bounds: at the default resolution, bounds 2000 times as wide as high have an image without rows. -/
theorem C139_negation_narrow : resolution 1536 (2000 : ℚ) 1 = (1536, 0) := by decide +kernel

end Field

/-! ## Real numbers -/

/-- `determine_color` for scalars, function 1 (logarithmic), `visualization/visualization.cpp:550-554`: the value. -/
noncomputable def logValue (mx x : ℝ) : ℝ := Real.log (1 + 100 * x / mx) / Real.log 101

/-- C138: on the logarithmic scale 0 has value 0, the greatest value 1, and greater values greater values. -/
theorem C138_log (mx : ℝ) (h : 0 < mx) : logValue mx 0 = 0 ∧ logValue mx mx = 1 ∧ ∀ x y, 0 ≤ x → x < y → logValue mx x < logValue mx y := by
  have l : 0 < Real.log 101 := Real.log_pos (by norm_num)
  refine ⟨?_, ?_, ?_⟩
  · unfold logValue
    simp
  · unfold logValue
    rw [mul_div_assoc, div_self h.ne', show (1 : ℝ) + 100 * 1 = 101 by norm_num, div_self l.ne']
  · intro x y hx hxy
    unfold logValue
    apply (div_lt_div_iff_of_pos_right l).mpr
    apply Real.log_lt_log
    · have : 0 ≤ 100 * x / mx := by positivity
      linarith
    · have : 100 * x / mx < 100 * y / mx := (div_lt_div_iff_of_pos_right h).mpr (by linarith)
      linarith

/-- `colorAngle`, `visualization/palette.hpp:134-146`: the components before they are converted to integers. -/
noncomputable def angleColour (c s : ℝ) : ℝ × ℝ × ℝ :=
  (255 * (3 / 2) * (1 / 3 + 2 / 5 * Real.sqrt (2 / 3) * c), 255 * (3 / 2) * (1 / 3 + -(1 / 5) * Real.sqrt (2 / 3) * c + 1 / 5 * Real.sqrt 2 * s),
    255 * (3 / 2) * (1 / 3 + 1 / 5 * Real.sqrt (2 / 3) * c + -(1 / 5) * Real.sqrt 2 * s))

theorem combo (a b c s : ℝ) (h : c ^ 2 + s ^ 2 = 1) : (a * c + b * s) ^ 2 ≤ a ^ 2 + b ^ 2 := by
  have : a ^ 2 + b ^ 2 - (a * c + b * s) ^ 2 = (a * s - b * c) ^ 2 := by
    linear_combination (-(a ^ 2 + b ^ 2)) * h
  nlinarith [sq_nonneg (a * s - b * c)]

theorem combo_bound (a b c s : ℝ) (h : c ^ 2 + s ^ 2 = 1) (hab : a ^ 2 + b ^ 2 < 1 / 9) : -(1 / 3) < a * c + b * s ∧ a * c + b * s < 1 / 3 := by
  have := combo a b c s h
  constructor <;> nlinarith

/-- C138: the colour of a direction has components strictly between 0 and 255, and different directions have different colours (before rounding). -/
theorem C138_angle (t u : ℝ) :
    (0 < (angleColour (Real.cos t) (Real.sin t)).1 ∧ (angleColour (Real.cos t) (Real.sin t)).1 < 255) ∧
    (0 < (angleColour (Real.cos t) (Real.sin t)).2.1 ∧ (angleColour (Real.cos t) (Real.sin t)).2.1 < 255) ∧
    (0 < (angleColour (Real.cos t) (Real.sin t)).2.2 ∧ (angleColour (Real.cos t) (Real.sin t)).2.2 < 255) ∧
    (angleColour (Real.cos t) (Real.sin t) = angleColour (Real.cos u) (Real.sin u) → Real.cos t = Real.cos u ∧ Real.sin t = Real.sin u) := by
  have s2 : Real.sqrt (2 / 3) ^ 2 = 2 / 3 := Real.sq_sqrt (by norm_num)
  have s3 : Real.sqrt 2 ^ 2 = 2 := Real.sq_sqrt (by norm_num)
  have p2 : 0 < Real.sqrt (2 / 3) := Real.sqrt_pos.mpr (by norm_num)
  have p3 : 0 < Real.sqrt 2 := Real.sqrt_pos.mpr (by norm_num)
  have h := Real.cos_sq_add_sin_sq t
  have b1 := combo_bound (2 / 5 * Real.sqrt (2 / 3)) 0 _ _ h (by rw [mul_pow, s2]; norm_num)
  have b2 := combo_bound (-(1 / 5) * Real.sqrt (2 / 3)) (1 / 5 * Real.sqrt 2) _ _ h (by rw [mul_pow, mul_pow, s2, s3]; norm_num)
  have b3 := combo_bound (1 / 5 * Real.sqrt (2 / 3)) (-(1 / 5) * Real.sqrt 2) _ _ h (by rw [mul_pow, mul_pow, s2, s3]; norm_num)
  unfold angleColour
  refine ⟨⟨by simp only []; linarith [b1.1], by simp only []; linarith [b1.2]⟩, ⟨by simp only []; linarith [b2.1], by simp only []; linarith [b2.2]⟩,
    ⟨by simp only []; linarith [b3.1], by simp only []; linarith [b3.2]⟩, ?_⟩
  intro e
  simp only [Prod.mk.injEq] at e
  obtain ⟨e1, e2, _⟩ := e
  have c : Real.cos t = Real.cos u := by
    have : Real.sqrt (2 / 3) * (Real.cos t - Real.cos u) = 0 := by linear_combination (5 / 2) / (255 * (3 / 2)) * e1
    rcases mul_eq_zero.mp this with h0 | h0
    · exact absurd h0 p2.ne'
    · linarith
  refine ⟨c, ?_⟩
  rw [c] at e2
  have : Real.sqrt 2 * (Real.sin t - Real.sin u) = 0 := by linear_combination 5 / (255 * (3 / 2)) * e2
  rcases mul_eq_zero.mp this with h0 | h0
  · exact absurd h0 p3.ne'
  · linarith

/-- The disc drawn by `projectImage`, `visualization/visualization.cpp:233-238, 258`: centre relative to the lower left corner and radius, or nothing. -/
noncomputable def projectDisc (left bott mult : ℝ) (pos : List ℝ) (sigma : ℝ) : Option (ℝ × ℝ × ℝ) :=
  let d2 := ((pos.drop 2).map fun x => x ^ 2).sum
  if d2 ≥ sigma ^ 2 then none else some (pos.getD 0 0 - left, pos.getD 1 0 - bott, Real.sqrt (1 - d2 / sigma ^ 2) * mult * sigma)

/-- C139: the projection of a ball onto the plane through the origin is nothing if the plane does not cut the ball, and otherwise the disc in which it cuts the ball. -/
theorem C139_projection (left bott : ℝ) (pos : List ℝ) (sigma : ℝ) (hs : 0 < sigma) :
    (projectDisc left bott 1 pos sigma = none ↔ ¬ ∃ x y : ℝ, (x - pos.getD 0 0) ^ 2 + (y - pos.getD 1 0) ^ 2 + ((pos.drop 2).map fun z => (0 - z) ^ 2).sum < sigma ^ 2) ∧
    ∀ cx cy r, projectDisc left bott 1 pos sigma = some (cx, cy, r) → 0 < r ∧
      ∀ x y : ℝ, (x - pos.getD 0 0) ^ 2 + (y - pos.getD 1 0) ^ 2 + ((pos.drop 2).map fun z => (0 - z) ^ 2).sum ≤ sigma ^ 2 ↔
        ((x - left) - cx) ^ 2 + ((y - bott) - cy) ^ 2 ≤ r ^ 2 := by
  have e : (fun z : ℝ => (0 - z) ^ 2) = fun z => z ^ 2 := by
    funext z
    ring
  rw [e]
  unfold projectDisc
  simp only []
  set d2 := ((pos.drop 2).map fun x => x ^ 2).sum with hd
  have sp : 0 < sigma ^ 2 := by positivity
  constructor
  · constructor
    · intro hn
      split at hn
      · rename_i h
        rintro ⟨x, y, hxy⟩
        nlinarith [sq_nonneg (x - pos.getD 0 0), sq_nonneg (y - pos.getD 1 0)]
      · simp at hn
    · intro hn
      rw [if_pos]
      by_contra hc
      exact hn ⟨pos.getD 0 0, pos.getD 1 0, by rw [sub_self, sub_self]; push Not at hc; nlinarith⟩
  · intro cx cy r hr
    split at hr
    · simp at hr
    · rename_i h
      push Not at h
      simp only [Option.some.injEq, Prod.mk.injEq, mul_one] at hr
      obtain ⟨rfl, rfl, rfl⟩ := hr
      have q : 0 < 1 - d2 / sigma ^ 2 := by
        rw [sub_pos, div_lt_one sp]
        exact h
      refine ⟨mul_pos (Real.sqrt_pos.mpr q) hs, fun x y => ?_⟩
      rw [mul_pow, Real.sq_sqrt q.le, sub_mul, div_mul_cancel₀ _ sp.ne', one_mul]
      constructor
      · intro hh; nlinarith
      · intro hh; nlinarith

/-- C139, the hypotheses are met: a ball of radius 5 at height 3 is cut in a disc of radius 4. -/
example : projectDisc 0 0 1 [1, 2, 3] 5 = some (1, 2, 4) := by
  unfold projectDisc
  norm_num
  rw [show (16 : ℝ) = 4 ^ 2 by norm_num, show (25 : ℝ) = 5 ^ 2 by norm_num, Real.sqrt_sq (by norm_num), Real.sqrt_sq (by norm_num)]
  norm_num

end Verif.Colours
