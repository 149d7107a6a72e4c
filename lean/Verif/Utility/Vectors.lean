import Mathlib.Analysis.SpecialFunctions.Pow.Real
import Mathlib.Algebra.BigOperators.Group.Finset.Basic
import Mathlib.Tactic.Ring
import Mathlib.Tactic.Linarith
import Mathlib.Tactic.FieldSimp
import Mathlib.Tactic.Positivity

/-!
# C172: vector operations are right for every dimension and for arguments that are the same vector

Models `utility/generic-dimension.hpp` (templates that call themselves with one dimension less, from the last component to the first) and `utility/vectormath.hpp` (loops from the first component to the last). Vectors are pointers into one memory, so that
arguments can be the same vector, or overlap. Exact arithmetic.
-/

namespace Verif.Vectors

/-- Memory: real numbers at addresses. -/
abbrev Mem := ℕ → ℝ

/-- An assignment. -/
def put (m : Mem) (a : ℕ) (v : ℝ) : Mem := Function.update m a v

/-- The templates of `utility/generic-dimension.hpp`, for example `63-71`: component `d-1`, then the same for `d-1` dimensions. (The code stops at dimension 1; dimension 0 is not instantiated.) -/
def eachDown (w : ℕ → Mem → Mem) : ℕ → Mem → Mem
  | 0, m => m
  | n + 1, m => eachDown w n (w n m)

/-- The loops `for (int d=0; d<dimensions; ++d)` of `utility/vectormath.hpp`, for example `93-95`. -/
def eachUp (w : ℕ → Mem → Mem) : ℕ → Mem → Mem
  | 0, m => m
  | n + 1, m => w n (eachUp w n m)

/-! ## Templates -/

/-- `add_vec<d>(x, y, z)`, `utility/generic-dimension.hpp:62-100`. -/
def add_vec (d x y z : ℕ) : Mem → Mem := eachDown (fun k m => put m (z + k) (m (x + k) + m (y + k))) d

/-- `subtract_vec<d>(x, y, z)`, `utility/generic-dimension.hpp:104-122`. -/
def subtract_vec (d x y z : ℕ) : Mem → Mem := eachDown (fun k m => put m (z + k) (m (x + k) - m (y + k))) d

/-- `negate_vec<d>(x)`, `utility/generic-dimension.hpp:126-133`. -/
def negate_vec (d x : ℕ) : Mem → Mem := eachDown (fun k m => put m (x + k) (-m (x + k))) d

/-- `scalar_mult_eq_vec<d>(x, c)`, `utility/generic-dimension.hpp:136-154`. -/
def scalar_mult_eq_vec (d x : ℕ) (c : ℝ) : Mem → Mem := eachDown (fun k m => put m (x + k) (m (x + k) * c)) d

/-- `sum_eq_vec<d>(x, y)`, `utility/generic-dimension.hpp:167-185`. -/
def sum_eq_vec (d x y : ℕ) : Mem → Mem := eachDown (fun k m => put m (x + k) (m (x + k) + m (y + k))) d

/-- `subtract_eq_vec<d>(x, y)`, `utility/generic-dimension.hpp:189-207`. -/
def subtract_eq_vec (d x y : ℕ) : Mem → Mem := eachDown (fun k m => put m (x + k) (m (x + k) - m (y + k))) d

/-- `sum_eq_vec_scaled<d>(x, y, c)`, `utility/generic-dimension.hpp:211-229`. -/
def sum_eq_vec_scaled (d x y : ℕ) (c : ℝ) : Mem → Mem := eachDown (fun k m => put m (x + k) (m (x + k) + c * m (y + k))) d

/-- `copy_vec<d>(src, dst)`, `utility/generic-dimension.hpp:234-268`. -/
def copy_vec (d src dst : ℕ) : Mem → Mem := eachDown (fun k m => put m (dst + k) (m (src + k))) d

/-- `set1_vec<d>(x, v)`, `utility/generic-dimension.hpp:272-308`. -/
def set1_vec (d x : ℕ) (v : ℝ) : Mem → Mem := eachDown (fun k m => put m (x + k) v) d

/-- `dot_vec<d>(x, y)`, `utility/generic-dimension.hpp:34-58`. -/
def dot_vec : ℕ → ℕ → ℕ → Mem → ℝ
  | 0, _, _, _ => 0
  | n + 1, x, y, m => m (x + n) * m (y + n) + dot_vec n x y m

/-- One component of `harmonic_correction` and of `getDisplacement`, `utility/generic-dimension.hpp:26-27`, `utility/vectormath.hpp:14-15`. -/
noncomputable def fold1 (W r : ℝ) : ℝ := if W - |r| < |r| then (if 0 < r then -(W - |r|) else W - |r|) else r

/-- `harmonic_correction<d>(bcs, r, widths)`, `utility/generic-dimension.hpp:12-32`; `bc k`: dimension `k` wraps. -/
noncomputable def harmonic_correction (bc : ℕ → Bool) (W : ℕ → ℝ) (d r : ℕ) : Mem → Mem := eachDown (fun k m => put m (r + k) (if bc k then fold1 (W k) (m (r + k)) else m (r + k))) d

/-- `normalize_vec<d>(x)`, `utility/generic-dimension.hpp:158-163`. -/
noncomputable def normalize_vec (d x : ℕ) (m : Mem) : Bool × Mem :=
  if dot_vec d x x m = 0 then (false, m) else (true, scalar_mult_eq_vec d x (1 / Real.sqrt (dot_vec d x x m)) m)

/-- `product<d>(array)`, `utility/generic-dimension.hpp:331-337`. Simplified: no overflow of `int`. -/
def product (a : ℕ → ℤ) : ℕ → ℤ
  | 0 => 1
  | 1 => a 0
  | n + 2 => a (n + 1) * product a (n + 1)

/-- `power<d>(x)`, `utility/generic-dimension.hpp:404-409`. Simplified: no overflow of `int`. -/
def power (x : ℤ) : ℕ → ℤ
  | 0 => 1
  | 1 => x
  | n + 2 => x * power x (n + 1)

/-! ## Loops -/

/-- `addVec(x, y, z, d)`, `utility/vectormath.hpp:93-95`. -/
def addVec (d x y z : ℕ) : Mem → Mem := eachUp (fun k m => put m (z + k) (m (x + k) + m (y + k))) d

/-- `subtractVec(x, y, z, d)`, `utility/vectormath.hpp:97-99`. -/
def subtractVec (d x y z : ℕ) : Mem → Mem := eachUp (fun k m => put m (z + k) (m (x + k) - m (y + k))) d

/-- `hadamardVec(x, y, z, d)`, `utility/vectormath.hpp:33-35`. -/
def hadamardVec (d x y z : ℕ) : Mem → Mem := eachUp (fun k m => put m (z + k) (m (x + k) * m (y + k))) d

/-- `scalarMultVec(c, x, z, d)`, `utility/vectormath.hpp:102-104`. -/
def scalarMultVec (d : ℕ) (c : ℝ) (x z : ℕ) : Mem → Mem := eachUp (fun k m => put m (z + k) (c * m (x + k))) d

/-- `plusEqVec(z, x, d)`, `utility/vectormath.hpp:111-113`. -/
def plusEqVec (d z x : ℕ) : Mem → Mem := eachUp (fun k m => put m (z + k) (m (z + k) + m (x + k))) d

/-- `plusEqVecScaled(z, x, s, d)`, `utility/vectormath.hpp:115-117`. -/
def plusEqVecScaled (d z x : ℕ) (c : ℝ) : Mem → Mem := eachUp (fun k m => put m (z + k) (m (z + k) + c * m (x + k))) d

/-- `minusEqVec(z, x, d)`, `utility/vectormath.hpp:119-121`. -/
def minusEqVec (d z x : ℕ) : Mem → Mem := eachUp (fun k m => put m (z + k) (m (z + k) - m (x + k))) d

/-- `minusEqVecScaled(z, x, s, d)`, `utility/vectormath.hpp:123-125`. -/
def minusEqVecScaled (d z x : ℕ) (c : ℝ) : Mem → Mem := eachUp (fun k m => put m (z + k) (m (z + k) - c * m (x + k))) d

/-- `copyVec(x, target, d)`, `utility/vectormath.hpp:127-129`. Simplified: `std::copy` is a loop; of arguments where the target begins inside the source it is undefined, and no theorem is about these. -/
def copyVec (d x z : ℕ) : Mem → Mem := eachUp (fun k m => put m (z + k) (m (x + k))) d

/-- `zeroVec(x, d)` and `setVec(x, v, d)`, `utility/vectormath.hpp:81-87`. -/
def setVec (d x : ℕ) (v : ℝ) : Mem → Mem := eachUp (fun k m => put m (x + k) v) d

/-- `negateVec(x, d)`, `utility/vectormath.hpp:139-141`. -/
def negateVec (d x : ℕ) : Mem → Mem := eachUp (fun k m => put m (x + k) (-m (x + k))) d

/-- `swapVec(x, y, d)`, `utility/vectormath.hpp:89-91`. -/
def swapVec (d x y : ℕ) : Mem → Mem := eachUp (fun k m => put (put m (x + k) (m (y + k))) (y + k) (m (x + k))) d

/-- The loops of `dotVec(x, y, d)`, `utility/vectormath.hpp:20-31`; `sqr(x, d)` is this with `x` twice (`61-73`). -/
def dotVec : ℕ → ℕ → ℕ → Mem → ℝ
  | 0, _, _, _ => 0
  | n + 1, x, y, m => dotVec n x y m + m (x + n) * m (y + n)

/-- `getDistanceSqrNoWrap(x, y, d)`, `utility/vectormath.hpp:75-79`. -/
def distSqr : ℕ → ℕ → ℕ → Mem → ℝ
  | 0, _, _, _ => 0
  | n + 1, x, y, m => distSqr n x y m + (m (x + n) - m (y + n)) * (m (x + n) - m (y + n))

/-- `getDisplacement(x, y, dis, …)`, `utility/vectormath.hpp:10-18`. -/
noncomputable def getDisplacement (bc : ℕ → Bool) (W : ℕ → ℝ) (d x y z : ℕ) : Mem → Mem :=
  eachUp (fun k m => put m (z + k) (if bc k then fold1 (W k) (m (x + k) - m (y + k)) else m (x + k) - m (y + k))) d

/-- `normalizeVec(x, d)`, `utility/vectormath.hpp:150-155`. -/
noncomputable def normalizeVec (d x : ℕ) (m : Mem) : Mem :=
  scalarMultVec d (if 0 < dotVec d x x m then 1 / Real.sqrt (dotVec d x x m) else 0) x x m

/-- `normalVec(x, norm, d)`, `utility/vectormath.hpp:143-148`. -/
noncomputable def normalVec (d x z : ℕ) (m : Mem) : Mem :=
  scalarMultVec d (if 0 < dotVec d x x m then 1 / Real.sqrt (dotVec d x x m) else 0) x z m

/-- `magnitudeVec(x, d)`, `utility/vectormath.hpp:135-137`. -/
noncomputable def magnitudeVec (d x : ℕ) (m : Mem) : ℝ := Real.sqrt (dotVec d x x m)

/-- `crossVec(x, y, z)`, `utility/vectormath.hpp:38-42`: three assignments, one after another. -/
def crossVec (x y z : ℕ) (m : Mem) : Mem :=
  let m1 := put m z (m (x + 1) * m (y + 2) - m (y + 1) * m (x + 2))
  let m2 := put m1 (z + 1) (-m1 x * m1 (y + 2) + m1 y * m1 (x + 2))
  put m2 (z + 2) (m2 x * m2 (y + 1) - m2 y * m2 (x + 1))

/-- `crossVec2(x, y)`, `utility/vectormath.hpp:45-47`. -/
def crossVec2 (x y : ℕ) (m : Mem) : ℝ := m x * m (y + 1) - m (x + 1) * m y

/-- `tripleProduct2(x, y, z, out)`, `utility/vectormath.hpp:50-54`. -/
def tripleProduct2 (x y z out : ℕ) (m : Mem) : Mem :=
  let yz := m y * m (z + 1) - m (y + 1) * m z
  let m1 := put m out (m (x + 1) * yz)
  put m1 (out + 1) (-m1 x * yz)

/-! ## Specification -/

/-- Spec: vectors at `x` and `z` are the same or do not overlap. -/
def Apart (d x z : ℕ) : Prop := x = z ∨ x + d ≤ z ∨ z + d ≤ x

/-- Spec: the vector at `z` has become `g`, and nothing else has changed. -/
def Becomes (d z : ℕ) (m m' : Mem) (g : ℕ → ℝ) : Prop := (∀ k < d, m' (z + k) = g k) ∧ ∀ a, (a < z ∨ z + d ≤ a) → m' a = m a

/-- Spec: the dot product. -/
def inner (d x y : ℕ) (m : Mem) : ℝ := ∑ k ∈ Finset.range d, m (x + k) * m (y + k)

/-! ## Proofs -/

theorem put_same (m : Mem) (a : ℕ) (v : ℝ) : put m a v a = v := Function.update_self ..

theorem put_other (m : Mem) {a b : ℕ} (v : ℝ) (h : b ≠ a) : put m a v b = m b := Function.update_of_ne h ..

/-- Values that do not depend on the other components that are written. -/
def Free (d z : ℕ) (φ : ℕ → Mem → ℝ) : Prop := ∀ k < d, ∀ m m' : Mem, (∀ a, (∀ j < d, j ≠ k → a ≠ z + j) → m a = m' a) → φ k m = φ k m'

theorem down_becomes {d z : ℕ} {φ : ℕ → Mem → ℝ} (hφ : Free d z φ) (m : Mem) : Becomes d z m (eachDown (fun k m => put m (z + k) (φ k m)) d m) fun k => φ k m := by
  have key : ∀ n ≤ d, ∀ m' : Mem, (∀ a, (∀ j < d, n ≤ j → a ≠ z + j) → m' a = m a) →
      (∀ k < n, eachDown (fun k m => put m (z + k) (φ k m)) n m' (z + k) = φ k m) ∧ ∀ a, (∀ j < n, a ≠ z + j) → eachDown (fun k m => put m (z + k) (φ k m)) n m' a = m' a := by
    intro n
    induction n with
    | zero => intro _ m' _; exact ⟨fun k hk => absurd hk (Nat.not_lt_zero k), fun a _ => rfl⟩
    | succ n ih =>
      intro hn m' hm'
      have hv : φ n m' = φ n m := by
        refine hφ n (by omega) _ _ fun a ha => hm' a fun j hj hj' => ?_
        exact ha j hj (by omega)
      obtain ⟨i1, i2⟩ := ih (by omega) (put m' (z + n) (φ n m')) (fun a ha => by
        by_cases e : a = z + n
        · exact absurd e (ha n (by omega) le_rfl)
        · rw [put_other _ _ e]
          exact hm' a fun j hj hj' => ha j hj (by omega))
      refine ⟨fun k hk => ?_, fun a ha => ?_⟩
      · simp only [eachDown]
        rcases Nat.lt_succ_iff_lt_or_eq.mp hk with h | rfl
        · exact i1 k h
        · rw [i2 _ (fun j hj => by omega), put_same, hv]
      · simp only [eachDown]
        rw [i2 a fun j hj => ha j (by omega), put_other _ _ (ha n (by omega))]
  obtain ⟨k1, k2⟩ := key d le_rfl m fun a _ => rfl
  exact ⟨k1, fun a ha => k2 a fun j hj => by omega⟩

theorem up_becomes {d z : ℕ} {φ : ℕ → Mem → ℝ} (hφ : Free d z φ) (m : Mem) : Becomes d z m (eachUp (fun k m => put m (z + k) (φ k m)) d m) fun k => φ k m := by
  have key : ∀ n ≤ d, (∀ k < n, eachUp (fun k m => put m (z + k) (φ k m)) n m (z + k) = φ k m) ∧ ∀ a, (∀ j < n, a ≠ z + j) → eachUp (fun k m => put m (z + k) (φ k m)) n m a = m a := by
    intro n
    induction n with
    | zero => intro _; exact ⟨fun k hk => absurd hk (Nat.not_lt_zero k), fun a _ => rfl⟩
    | succ n ih =>
      intro hn
      obtain ⟨i1, i2⟩ := ih (by omega)
      have hv : φ n (eachUp (fun k m => put m (z + k) (φ k m)) n m) = φ n m :=
        hφ n (by omega) _ _ fun a ha => i2 a fun j hj => ha j (by omega) (by omega)
      refine ⟨fun k hk => ?_, fun a ha => ?_⟩
      · simp only [eachUp]
        rcases Nat.lt_succ_iff_lt_or_eq.mp hk with h | rfl
        · rw [put_other _ _ (by omega)]; exact i1 k h
        · rw [put_same, hv]
      · simp only [eachUp]
        rw [put_other _ _ (ha n (by omega))]
        exact i2 a fun j hj => ha j (by omega)
  obtain ⟨k1, k2⟩ := key d le_rfl
  exact ⟨k1, fun a ha => k2 a fun j hj => by omega⟩

/-- Components of vectors that are apart from the one written. -/
theorem free_of {d z : ℕ} (ψ : ℕ → ℝ → ℝ → ℝ → ℝ) {x y : ℕ} (hx : Apart d x z) (hy : Apart d y z) : Free d z fun k m => ψ k (m (x + k)) (m (y + k)) (m (z + k)) := by
  intro k hk m m' h
  have r : ∀ p, Apart d p z → m (p + k) = m' (p + k) := by
    intro p hp
    refine h _ fun j hj hjk => ?_
    unfold Apart at hp
    omega
  simp only
  rw [r x hx, r y hy, r z (Or.inl rfl)]

theorem apart_self (d x : ℕ) : Apart d x x := Or.inl rfl

/-! ## Property theorems -/

/-- **C172, templates.** For every dimension and all vectors that are the same as the result or do not overlap it, the templates compute their component-wise operations and change nothing else. -/
theorem C172_templates (d x y z : ℕ) (c : ℝ) (m : Mem) (hx : Apart d x z) (hy : Apart d y z) :
    Becomes d z m (add_vec d x y z m) (fun k => m (x + k) + m (y + k)) ∧ Becomes d z m (subtract_vec d x y z m) (fun k => m (x + k) - m (y + k)) ∧
    Becomes d z m (negate_vec d z m) (fun k => -m (z + k)) ∧ Becomes d z m (scalar_mult_eq_vec d z c m) (fun k => m (z + k) * c) ∧
    Becomes d z m (sum_eq_vec d z x m) (fun k => m (z + k) + m (x + k)) ∧ Becomes d z m (subtract_eq_vec d z x m) (fun k => m (z + k) - m (x + k)) ∧
    Becomes d z m (sum_eq_vec_scaled d z x c m) (fun k => m (z + k) + c * m (x + k)) ∧ Becomes d z m (copy_vec d x z m) (fun k => m (x + k)) ∧
    Becomes d z m (set1_vec d z c m) (fun _ => c) :=
  ⟨down_becomes (free_of (fun _ a b _ => a + b) hx hy) m, down_becomes (free_of (fun _ a b _ => a - b) hx hy) m, down_becomes (free_of (fun _ _ _ e => -e) hx hy) m,
    down_becomes (free_of (fun _ _ _ e => e * c) hx hy) m, down_becomes (free_of (fun _ a _ e => e + a) hx hy) m, down_becomes (free_of (fun _ a _ e => e - a) hx hy) m,
    down_becomes (free_of (fun _ a _ e => e + c * a) hx hy) m, down_becomes (free_of (fun _ a _ _ => a) hx hy) m, down_becomes (free_of (fun _ _ _ _ => c) hx hy) m⟩

/-- **C172, loops.** The same for the functions with loops. -/
theorem C172_loops (d x y z : ℕ) (c : ℝ) (m : Mem) (hx : Apart d x z) (hy : Apart d y z) :
    Becomes d z m (addVec d x y z m) (fun k => m (x + k) + m (y + k)) ∧ Becomes d z m (subtractVec d x y z m) (fun k => m (x + k) - m (y + k)) ∧
    Becomes d z m (hadamardVec d x y z m) (fun k => m (x + k) * m (y + k)) ∧ Becomes d z m (negateVec d z m) (fun k => -m (z + k)) ∧
    Becomes d z m (scalarMultVec d c x z m) (fun k => c * m (x + k)) ∧
    Becomes d z m (plusEqVec d z x m) (fun k => m (z + k) + m (x + k)) ∧ Becomes d z m (minusEqVec d z x m) (fun k => m (z + k) - m (x + k)) ∧
    Becomes d z m (plusEqVecScaled d z x c m) (fun k => m (z + k) + c * m (x + k)) ∧ Becomes d z m (minusEqVecScaled d z x c m) (fun k => m (z + k) - c * m (x + k)) ∧
    Becomes d z m (copyVec d x z m) (fun k => m (x + k)) ∧ Becomes d z m (setVec d z c m) (fun _ => c) :=
  ⟨up_becomes (free_of (fun _ a b _ => a + b) hx hy) m, up_becomes (free_of (fun _ a b _ => a - b) hx hy) m, up_becomes (free_of (fun _ a b _ => a * b) hx hy) m,
    up_becomes (free_of (fun _ _ _ e => -e) hx hy) m, up_becomes (free_of (fun _ a _ _ => c * a) hx hy) m, up_becomes (free_of (fun _ a _ e => e + a) hx hy) m,
    up_becomes (free_of (fun _ a _ e => e - a) hx hy) m, up_becomes (free_of (fun _ a _ e => e + c * a) hx hy) m, up_becomes (free_of (fun _ a _ e => e - c * a) hx hy) m,
    up_becomes (free_of (fun _ a _ _ => a) hx hy) m, up_becomes (free_of (fun _ _ _ _ => c) hx hy) m⟩

/-- **C172, numbers.** Dot products, squared lengths and distances, products and powers, for every dimension and also for overlapping vectors. -/
theorem C172_numbers (d x y : ℕ) (m : Mem) (a : ℕ → ℤ) (b : ℤ) :
    dot_vec d x y m = inner d x y m ∧ dotVec d x y m = inner d x y m ∧ distSqr d x y m = ∑ k ∈ Finset.range d, (m (x + k) - m (y + k)) ^ 2 ∧
    product a d = ∏ k ∈ Finset.range d, a k ∧ power b d = b ^ d := by
  unfold inner
  refine ⟨?_, ?_, ?_, ?_, ?_⟩
  · induction d with
    | zero => rfl
    | succ n ih => rw [dot_vec, ih, Finset.sum_range_succ]; ring
  · induction d with
    | zero => rfl
    | succ n ih => rw [dotVec, ih, Finset.sum_range_succ]
  · induction d with
    | zero => rfl
    | succ n ih => rw [distSqr, ih, Finset.sum_range_succ]; ring
  · induction d with
    | zero => rfl
    | succ n ih =>
      cases n with
      | zero => simp [product]
      | succ n => rw [product, ih, Finset.prod_range_succ _ (n + 1)]; ring
  · induction d with
    | zero => simp [power]
    | succ n ih =>
      cases n with
      | zero => simp [power]
      | succ n => rw [power, ih]; ring

theorem inner_self_nonneg (d x : ℕ) (m : Mem) : 0 ≤ inner d x x m := Finset.sum_nonneg fun _ _ => mul_self_nonneg _

theorem inner_self_zero {d x : ℕ} {m : Mem} (h : inner d x x m = 0) : ∀ k < d, m (x + k) = 0 := by
  intro k hk
  have := (Finset.sum_eq_zero_iff_of_nonneg (fun _ _ => mul_self_nonneg _)).mp h k (Finset.mem_range.mpr hk)
  exact mul_self_eq_zero.mp this

theorem inner_scaled {d x : ℕ} {m m' : Mem} {c : ℝ} (h : ∀ k < d, m' (x + k) = c * m (x + k)) : inner d x x m' = c ^ 2 * inner d x x m := by
  unfold inner
  rw [Finset.mul_sum]
  refine Finset.sum_congr rfl fun k hk => ?_
  rw [h k (Finset.mem_range.mp hk)]; ring

/-- **C172, unit vectors.** `normalize_vec` and `normalizeVec` turn a vector that is not zero into the vector of length 1 of the same direction; a zero vector stays zero, and `normalize_vec` reports it. -/
theorem C172_unit (d x : ℕ) (m : Mem) :
    ((∀ k < d, m (x + k) = 0) → (normalize_vec d x m = (false, m) ∧ Becomes d x m (normalizeVec d x m) fun _ => 0)) ∧
    ((∃ k < d, m (x + k) ≠ 0) → ∃ c > 0, (normalize_vec d x m).1 = true ∧ Becomes d x m (normalize_vec d x m).2 (fun k => c * m (x + k)) ∧ inner d x x (normalize_vec d x m).2 = 1 ∧
      Becomes d x m (normalizeVec d x m) (fun k => c * m (x + k)) ∧ inner d x x (normalizeVec d x m) = 1) := by
  obtain ⟨e1, e2, _⟩ := C172_numbers d x x m (fun _ => 0) 0
  constructor
  · intro h0
    have hz : inner d x x m = 0 := Finset.sum_eq_zero fun k hk => by rw [h0 k (Finset.mem_range.mp hk), mul_zero]
    refine ⟨by rw [normalize_vec, e1, if_pos hz], ?_⟩
    have := (C172_loops d x x x 0 m (apart_self _ _) (apart_self _ _)).2.2.2.2.1
    rw [normalizeVec, e2, hz, if_neg (lt_irrefl _)]
    refine ⟨fun k hk => ?_, this.2⟩
    rw [this.1 k hk]
    exact zero_mul _
  · rintro ⟨k0, hk0, hne⟩
    have hp : 0 < inner d x x m := lt_of_le_of_ne (inner_self_nonneg d x m) fun h => hne (inner_self_zero h.symm k0 hk0)
    have hc : 0 < 1 / Real.sqrt (inner d x x m) := by positivity
    have hone : (1 / Real.sqrt (inner d x x m)) ^ 2 * inner d x x m = 1 := by
      rw [div_pow, one_pow, Real.sq_sqrt hp.le]; field_simp
    have t1 := (C172_templates d x x x (1 / Real.sqrt (inner d x x m)) m (apart_self _ _) (apart_self _ _)).2.2.2.1
    have t2 := (C172_loops d x x x (1 / Real.sqrt (inner d x x m)) m (apart_self _ _) (apart_self _ _)).2.2.2.2.1
    have n1 : normalize_vec d x m = (true, scalar_mult_eq_vec d x (1 / Real.sqrt (inner d x x m)) m) := by rw [normalize_vec, e1, if_neg hp.ne']
    have n2 : normalizeVec d x m = scalarMultVec d (1 / Real.sqrt (inner d x x m)) x x m := by rw [normalizeVec, e2, if_pos hp]
    have t1' : Becomes d x m (scalar_mult_eq_vec d x (1 / Real.sqrt (inner d x x m)) m) fun k => 1 / Real.sqrt (inner d x x m) * m (x + k) :=
      ⟨fun k hk => (t1.1 k hk).trans (mul_comm _ _), t1.2⟩
    rw [n1, n2]
    exact ⟨_, hc, rfl, t1', by rw [inner_scaled t1'.1, hone], t2, by rw [inner_scaled t2.1, hone]⟩

/-- **C172, lengths and directions.** `magnitudeVec` is the length, and `normalVec` writes the vector divided by it to a vector that is the same or does not overlap, or zero for a zero vector. -/
theorem C172_normal (d x z : ℕ) (m : Mem) (hx : Apart d x z) :
    magnitudeVec d x m = Real.sqrt (∑ k ∈ Finset.range d, m (x + k) ^ 2) ∧ Becomes d z m (normalVec d x z m) (fun k => m (x + k) / Real.sqrt (∑ k ∈ Finset.range d, m (x + k) ^ 2)) := by
  have e := (C172_numbers d x x m (fun _ => 0) 0).2.1
  have hq : inner d x x m = ∑ k ∈ Finset.range d, m (x + k) ^ 2 := Finset.sum_congr rfl fun k _ => (sq _).symm
  refine ⟨by rw [magnitudeVec, e, hq], ?_⟩
  rw [normalVec, e, ← hq]
  have t := (C172_loops d x x z (if 0 < inner d x x m then 1 / Real.sqrt (inner d x x m) else 0) m hx hx).2.2.2.2.1
  refine ⟨fun k hk => (t.1 k hk).trans ?_, t.2⟩
  by_cases h : 0 < inner d x x m
  · simp only [if_pos h]; ring
  · have h0 : inner d x x m = 0 := le_antisymm (not_lt.mp h) (inner_self_nonneg d x m)
    simp only [if_neg h, inner_self_zero h0 k hk, zero_mul, zero_div]

/-- **C172, exchange.** `swapVec` exchanges two vectors that do not overlap and changes nothing else; with the same vector twice it changes nothing. -/
theorem C172_swap (d x y : ℕ) (m : Mem) :
    ((x + d ≤ y ∨ y + d ≤ x) → (∀ k < d, swapVec d x y m (x + k) = m (y + k) ∧ swapVec d x y m (y + k) = m (x + k)) ∧
      ∀ a, (a < x ∨ x + d ≤ a) → (a < y ∨ y + d ≤ a) → swapVec d x y m a = m a) ∧ swapVec d x x m = m := by
  constructor
  · intro hd
    have key : ∀ n ≤ d, (∀ k < n, swapVec n x y m (x + k) = m (y + k) ∧ swapVec n x y m (y + k) = m (x + k)) ∧ ∀ a, (∀ k < n, a ≠ x + k ∧ a ≠ y + k) → swapVec n x y m a = m a := by
      intro n
      induction n with
      | zero => intro _; exact ⟨fun k hk => absurd hk (Nat.not_lt_zero k), fun a _ => rfl⟩
      | succ n ih =>
        intro hn
        obtain ⟨i1, i2⟩ := ih (by omega)
        have ax : swapVec n x y m (x + n) = m (x + n) := i2 _ fun k hk => by omega
        have ay : swapVec n x y m (y + n) = m (y + n) := i2 _ fun k hk => by omega
        have hs : swapVec (n + 1) x y m = put (put (swapVec n x y m) (x + n) (swapVec n x y m (y + n))) (y + n) (swapVec n x y m (x + n)) := rfl
        rw [hs, ax, ay]
        refine ⟨fun k hk => ?_, fun a ha => ?_⟩
        · rcases Nat.lt_succ_iff_lt_or_eq.mp hk with h | rfl
          · rw [put_other _ _ (by omega), put_other _ _ (by omega), put_other _ _ (by omega), put_other _ _ (by omega)]
            exact i1 k h
          · rw [put_other _ _ (by omega), put_same, put_same]
            exact ⟨rfl, rfl⟩
        · have := ha n (by omega)
          rw [put_other _ _ this.2, put_other _ _ this.1]
          exact i2 a fun k hk => ha k (by omega)
    obtain ⟨k1, k2⟩ := key d le_rfl
    exact ⟨k1, fun a h1 h2 => k2 a fun k hk => by omega⟩
  · induction d with
    | zero => rfl
    | succ n ih =>
      have hs : swapVec (n + 1) x x m = put (put (swapVec n x x m) (x + n) (swapVec n x x m (x + n))) (x + n) (swapVec n x x m (x + n)) := rfl
      rw [hs, ih]
      funext a
      by_cases h : a = x + n
      · rw [h, put_same]
      · rw [put_other _ _ h, put_other _ _ h]

theorem fold1_spec {W r : ℝ} (hr : |r| < W) : |fold1 W r| ≤ W / 2 ∧ ∃ z : ℤ, fold1 W r = r + z * W := by
  unfold fold1
  have hb := abs_lt.mp hr
  by_cases h : W - |r| < |r|
  · rw [if_pos h]
    by_cases h0 : 0 < r
    · rw [if_pos h0, abs_of_pos h0] at *
      refine ⟨?_, -1, by push_cast; ring⟩
      rw [abs_neg, abs_of_pos (by linarith [hb.2])]
      linarith
    · rw [if_neg h0]
      rw [abs_of_nonpos (not_lt.mp h0)] at *
      refine ⟨?_, 1, by push_cast; ring⟩
      rw [abs_of_pos (by linarith [hb.1])]
      linarith
  · rw [if_neg h]
    exact ⟨by linarith, 0, by simp⟩

/-- **C172, displacements.** `getDisplacement`, and `subtract_vec` followed by `harmonic_correction`, give the same vector: the difference of positions, and in wrapping dimensions the image of it that is at most half a width long, for positions less than a width
apart. -/
theorem C172_displacement (bc : ℕ → Bool) (W : ℕ → ℝ) (d x y z : ℕ) (m : Mem) (hx : Apart d x z) (hy : Apart d y z) :
    ∃ g, Becomes d z m (getDisplacement bc W d x y z m) g ∧ Becomes d z m (harmonic_correction bc W d z (subtract_vec d x y z m)) g ∧
      ∀ k < d, (bc k = false → g k = m (x + k) - m (y + k)) ∧
        (bc k = true → |m (x + k) - m (y + k)| < W k → |g k| ≤ W k / 2 ∧ ∃ n : ℤ, g k = m (x + k) - m (y + k) + n * W k) := by
  have s1 := (C172_templates d x y z 0 m hx hy).2.1
  have s2 := down_becomes (free_of (fun k _ _ e => if bc k then fold1 (W k) e else e) hx hy) (subtract_vec d x y z m)
  refine ⟨_, up_becomes (free_of (fun k a b _ => if bc k then fold1 (W k) (a - b) else a - b) hx hy) m, ⟨fun k hk => ?_, fun a ha => ?_⟩, fun k hk => ⟨fun hb => ?_, fun hb hw => ?_⟩⟩
  · have := s2.1 k hk
    simp only [s1.1 k hk] at this
    exact this
  · exact (s2.2 a ha).trans (s1.2 a ha)
  · simp [hb]
  · simp only [hb, if_true]
    exact fold1_spec hw

/-- **C172, cross products.** With a result that does not overlap the arguments, `crossVec` is the right-handed cross product, orthogonal to both, and nothing else changes; `tripleProduct2` is `x × (y × z)`. -/
theorem C172_cross (x y z out : ℕ) (m : Mem) (hx : x + 3 ≤ out ∨ out + 3 ≤ x) (hy : y + 3 ≤ out ∨ out + 3 ≤ y) :
    Becomes 3 out m (crossVec x y out m) (fun k => if k = 0 then m (x + 1) * m (y + 2) - m (x + 2) * m (y + 1) else if k = 1 then m (x + 2) * m y - m x * m (y + 2) else m x * m (y + 1) - m (x + 1) * m y) ∧
    inner 3 x out (crossVec x y out m) = 0 ∧ inner 3 y out (crossVec x y out m) = 0 ∧
    Becomes 2 out m (tripleProduct2 x y z out m) (fun k => m (y + k) * inner 2 x z m - m (z + k) * inner 2 x y m) := by
  have hb : Becomes 3 out m (crossVec x y out m) (fun k => if k = 0 then m (x + 1) * m (y + 2) - m (x + 2) * m (y + 1) else if k = 1 then m (x + 2) * m y - m x * m (y + 2) else m x * m (y + 1) - m (x + 1) * m y) := by
    refine ⟨fun k hk => ?_, fun a ha => ?_⟩
    · unfold crossVec
      simp only
      have hk' : k = 0 ∨ k = 1 ∨ k = 2 := by omega
      rcases hk' with rfl | rfl | rfl
      · rw [put_other _ _ (by omega), put_other _ _ (by omega)]
        simp only [Nat.add_zero, put_same, if_true]
        ring
      · rw [put_other _ _ (by omega), put_same, put_other _ _ (by omega), put_other _ _ (by omega), put_other _ _ (by omega), put_other _ _ (by omega)]
        norm_num
        ring
      · rw [put_same, put_other _ _ (by omega), put_other _ _ (by omega), put_other _ _ (by omega), put_other _ _ (by omega), put_other _ _ (by omega), put_other _ _ (by omega), put_other _ _ (by omega), put_other _ _ (by omega)]
        norm_num
        ring
    · unfold crossVec
      rw [put_other _ _ (by omega), put_other _ _ (by omega), put_other _ _ (by omega)]
  have o0 := hb.1 0 (by norm_num)
  have o1 := hb.1 1 (by norm_num)
  have o2 := hb.1 2 (by norm_num)
  simp only [if_true, Nat.one_ne_zero, if_false, OfNat.ofNat_ne_zero, OfNat.ofNat_ne_one, Nat.add_zero] at o0 o1 o2
  refine ⟨hb, ?_, ?_, ?_⟩
  · simp only [inner, Finset.sum_range_succ, Finset.sum_range_zero, Nat.add_zero]
    rw [o0, o1, o2, hb.2 x (by omega), hb.2 (x + 1) (by omega), hb.2 (x + 2) (by omega)]
    ring
  · simp only [inner, Finset.sum_range_succ, Finset.sum_range_zero, Nat.add_zero]
    rw [o0, o1, o2, hb.2 y (by omega), hb.2 (y + 1) (by omega), hb.2 (y + 2) (by omega)]
    ring
  · refine ⟨fun k hk => ?_, fun a ha => ?_⟩
    · unfold tripleProduct2
      simp only [inner, Finset.sum_range_succ, Finset.sum_range_zero, Nat.add_zero]
      have hk' : k = 0 ∨ k = 1 := by omega
      rcases hk' with rfl | rfl
      · rw [put_other _ _ (by omega)]
        simp only [Nat.add_zero, put_same]
        ring
      · rw [put_same, put_other _ _ (by omega)]; ring
    · unfold tripleProduct2
      rw [put_other _ _ (by omega), put_other _ _ (by omega)]

theorem down_above (φ : ℕ → Mem → ℝ) (z n : ℕ) (m : Mem) {a : ℕ} (ha : z + n ≤ a) : eachDown (fun k m => put m (z + k) (φ k m)) n m a = m a := by
  induction n generalizing m with
  | zero => rfl
  | succ n ih => rw [eachDown, ih _ (by omega), put_other _ _ (by omega)]

theorem up_above (φ : ℕ → Mem → ℝ) (z n e : ℕ) (m : Mem) {a : ℕ} (ha : a < z + n) : eachUp (fun k m => put m (z + k) (φ k m)) (n + e) m a = eachUp (fun k m => put m (z + k) (φ k m)) n m a := by
  induction e with
  | zero => rfl
  | succ e ih => rw [← Nat.add_assoc, eachUp, put_other _ _ (by omega), ih]

/-- **C172, planar cross product.** `crossVec2` squared and the dot product squared add up to the product of the squared lengths; it changes sign when the vectors are exchanged, and is positive for a turn to the left. -/
theorem C172_planar (x y : ℕ) (m : Mem) :
    crossVec2 x y m ^ 2 + inner 2 x y m ^ 2 = inner 2 x x m * inner 2 y y m ∧ crossVec2 y x m = -crossVec2 x y m ∧ (m x = 1 → m (x + 1) = 0 → crossVec2 x y m = m (y + 1)) := by
  simp only [crossVec2, inner, Finset.sum_range_succ, Finset.sum_range_zero, Nat.add_zero]
  refine ⟨by ring, by ring, fun h1 h2 => ?_⟩
  rw [h1, h2]; ring

/-- **C172, negation: overlapping vectors.** In every dimension above 1 copying to the address below, by templates, and adding to the address above, by loops, writes a component before it is read, and `crossVec` is wrong when the result is its first argument. -/
theorem C172_negation_overlap (d : ℕ) (hd : 2 ≤ d) : (∃ m : Mem, copy_vec d 1 0 m (d - 2) ≠ m (d - 1)) ∧ (∃ m : Mem, plusEqVec d 1 0 m 2 ≠ m 2 + m 1) ∧
    ∃ m : Mem, crossVec 0 3 0 m 1 ≠ m 2 * m 3 - m 0 * m 5 := by
  obtain ⟨n, rfl⟩ := Nat.exists_eq_add_of_le hd
  refine ⟨⟨fun a => a, ?_⟩, ⟨fun _ => 1, ?_⟩, fun a => if a = 0 ∨ a = 5 then 1 else 0, ?_⟩
  · have e : copy_vec (2 + n) 1 0 (fun a => (a : ℝ)) n = n + 2 := by
      unfold copy_vec
      rw [show 2 + n = n + 1 + 1 from by omega, eachDown, eachDown, down_above _ 0 n _ (by omega)]
      simp only [put, Nat.zero_add, Function.update_self]
      rw [show 1 + n = n + 1 from by omega, Function.update_self]
      push_cast; ring
    rw [show 2 + n - 2 = n from by omega, e, show 2 + n - 1 = n + 1 from by omega]
    push_cast
    intro h; linarith
  · have e : plusEqVec (2 + n) 1 0 (fun _ => (1 : ℝ)) 2 = 3 := by
      unfold plusEqVec
      rw [up_above _ 1 2 n _ (by omega)]
      simp [eachUp, put]
      norm_num
    rw [e]; norm_num
  · simp [crossVec, put, Function.update]

/-- The hypotheses are met: two vectors of three components and a third for the result, or the first also for the result. -/
example : Apart 3 0 6 ∧ Apart 3 3 6 ∧ Apart 3 0 0 ∧ Apart 3 3 0 := by unfold Apart; omega

/-- A sum in place: `(1,2,3) + (4,5,6)` into the first vector. -/
example : ∀ k < 3, add_vec 3 0 3 0 (fun a => (a : ℝ) + 1) k = (k : ℝ) + 1 + (k + 4) := by
  intro k hk
  have := (C172_templates 3 0 3 0 0 (fun a => (a : ℝ) + 1) (Or.inl rfl) (Or.inr (Or.inr le_rfl))).1.1 k hk
  rw [Nat.zero_add] at this
  rw [this]; push_cast; ring

/-- A displacement of 0.75 widths becomes one of a quarter the other way. -/
example : fold1 4 3 = -1 ∧ fold1 4 (-3) = 1 ∧ fold1 4 1 = 1 := by
  refine ⟨?_, ?_, ?_⟩ <;> norm_num [fold1]

end Verif.Vectors
