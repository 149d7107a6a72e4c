import Mathlib.Data.Fintype.Pi
import Mathlib.Data.Fintype.BigOperators
import Mathlib.Data.Int.Interval
import Mathlib.Data.List.Pairwise
import Mathlib.Analysis.Real.Sqrt
import Mathlib.Tactic.Linarith
import Mathlib.Tactic.Ring
import Mathlib.Tactic.FieldSimp
import Mathlib.Tactic.Positivity

/-!
# Loops and vector functions for any number of dimensions (C101, C102)

Models `utility/generic-dimension.hpp`. `helper n` is the template instance `for_loop_helper<n+1>` (instances for zero dimensions do not exist).
The body of a loop is an arbitrary change of a state; simplification: it does not write into the index array it is given. Integers do not
overflow, numbers are exact.
-/

namespace Verif.ForLoop

/-- An array of indices or limits. -/
abbrev Idx := ℕ → ℤ

variable {S : Type}

/-- `for (v = lo; ...; ++v)` with the remaining number of values; the loop ends early when the condition `c` fails. -/
def cfor (c : S → Bool) (f : ℤ → S → S) : ℕ → ℤ → S → S
  | 0, _, s => s
  | n + 1, v, s => if c s then cfor c f n (v + 1) (f v s) else s

/-- The number of values `v` with `lo <= v < hi`. -/
def span (lo hi : ℤ) : ℕ := (hi - lo).toNat

/-- `for_loop_helper<n+1>`, `utility/generic-dimension.hpp:360-370`. -/
def helper (body : Idx → S → S) (lower upper : Idx) : ℕ → Idx × S → Idx × S
  | 0, p => cfor (fun _ => true) (fun v q => (Function.update q.1 0 v, body (Function.update q.1 0 v) q.2)) (span (lower 0) (upper 0)) (lower 0) p
  | n + 1, p =>
      cfor (fun _ => true) (fun v q => helper body lower upper n (Function.update q.1 (n + 1) v, q.2)) (span (lower (n + 1)) (upper (n + 1)))
        (lower (n + 1)) p

/-- `for_loop_helper_max<n+1>`, `utility/generic-dimension.hpp:372-382`; the state carries `counts`. -/
def helperMax (body : Idx → ℕ → S → S) (lower upper : Idx) (mx : ℤ) : ℕ → Idx × S × ℕ → Idx × S × ℕ
  | 0, p =>
      cfor (fun q => decide ((q.2.2 : ℤ) < mx))
        (fun v q => (Function.update q.1 0 v, body (Function.update q.1 0 v) q.2.2 q.2.1, q.2.2 + 1)) (span (lower 0) (upper 0)) (lower 0) p
  | n + 1, p =>
      cfor (fun q => decide ((q.2.2 : ℤ) < mx)) (fun v q => helperMax body lower upper mx n (Function.update q.1 (n + 1) v, q.2))
        (span (lower (n + 1)) (upper (n + 1))) (lower (n + 1)) p

/-- The first `n+1` entries of an array. -/
def firsts (n : ℕ) (i : Idx) : Fin (n + 1) → ℤ := fun k => i k

/-- `for_loop<n+1>`, `utility/generic-dimension.hpp:386-391`. -/
def forLoop (n : ℕ) (body : (Fin (n + 1) → ℤ) → S → S) (lower upper : Idx) (s : S) : S :=
  (helper (fun i => body (firsts n i)) lower upper n (lower, s)).2

/-- `for_loop<n+1>` with a maximum, `utility/generic-dimension.hpp:394-400`. -/
def forLoopMax (n : ℕ) (body : (Fin (n + 1) → ℤ) → ℕ → S → S) (lower upper : Idx) (mx : ℤ) (s : S) : S :=
  (helperMax (fun i => body (firsts n i)) lower upper mx n (lower, s, 0)).2.1

/-! ## Specification -/

/-- `a` comes before `b` when the first coordinate varies fastest: they differ, and in the last coordinate where they do `a` is smaller. -/
def Before {n : ℕ} (a b : Fin n → ℤ) : Prop := ∃ k, a k < b k ∧ ∀ m, k < m → a m = b m

/-! ## Proofs -/

/-- The indices of the loop, in order. -/
def enum (lower upper : Idx) : ℕ → Idx → List Idx
  | 0, i => (List.range (span (lower 0) (upper 0))).map fun k : ℕ => Function.update i 0 (lower 0 + (k : ℤ))
  | n + 1, i => (List.range (span (lower (n + 1)) (upper (n + 1)))).flatMap fun k : ℕ =>
      enum lower upper n (Function.update i (n + 1) (lower (n + 1) + (k : ℤ)))

theorem enum_congr (lower upper : Idx) (n : ℕ) (i j : Idx) (h : ∀ k, n < k → i k = j k) : enum lower upper n i = enum lower upper n j := by
  induction n generalizing i j with
  | zero =>
    simp only [enum]
    refine List.map_congr_left fun k _ => ?_
    funext m
    by_cases hm : m = 0
    · subst hm; simp
    · simp only [Function.update_of_ne hm]; exact h m (by omega)
  | succ n ih =>
    simp only [enum]
    congr 1
    funext k
    refine ih _ _ fun m hm => ?_
    by_cases h1 : m = n + 1
    · subst h1; simp
    · simp only [Function.update_of_ne h1]; exact h m (by omega)

theorem cfor_true (f : ℤ → S → S) (n : ℕ) (v : ℤ) (s : S) :
    cfor (fun _ => true) f n v s = ((List.range n).map fun k : ℕ => v + (k : ℤ)).foldl (fun s k => f k s) s := by
  induction n generalizing v s with
  | zero => rfl
  | succ n ih =>
    rw [List.range_succ_eq_map]
    simp only [cfor, if_true, ih, List.map_cons, List.map_map, List.foldl_cons, Nat.cast_zero, add_zero]
    congr 1
    refine List.map_congr_left fun k _ => ?_
    simp only [Function.comp_apply]
    push_cast; ring

theorem helper_eq (body : Idx → S → S) (lower upper : Idx) (n : ℕ) (p : Idx × S) :
    (helper body lower upper n p).2 = (enum lower upper n p.1).foldl (fun s i => body i s) p.2 ∧
      ∀ k, n < k → (helper body lower upper n p).1 k = p.1 k := by
  induction n generalizing p with
  | zero =>
    simp only [helper, enum, cfor_true]
    generalize span (lower 0) (upper 0) = w
    generalize hl : (List.range w) = l
    clear hl
    induction l generalizing p with
    | nil => exact ⟨rfl, fun _ _ => rfl⟩
    | cons a l ih =>
      obtain ⟨h1, h2⟩ := ih (Function.update p.1 0 (lower 0 + (a : ℤ)), body (Function.update p.1 0 (lower 0 + (a : ℤ))) p.2)
      refine ⟨?_, fun k hk => ?_⟩
      · simp only [List.map_cons, List.foldl_cons]
        rw [h1]
        simp only
        congr 1
        refine List.map_congr_left fun k _ => ?_
        funext m
        by_cases hm : m = 0
        · subst hm; simp
        · simp [Function.update_of_ne hm]
      · simp only [List.map_cons, List.foldl_cons]
        rw [h2 k hk]
        simp only
        rw [Function.update_of_ne (by omega)]
  | succ n ih =>
    simp only [helper, enum, cfor_true]
    generalize span (lower (n + 1)) (upper (n + 1)) = w
    generalize hl : (List.range w) = l
    clear hl
    induction l generalizing p with
    | nil => exact ⟨rfl, fun _ _ => rfl⟩
    | cons a l ih2 =>
      obtain ⟨g1, g2⟩ := ih (Function.update p.1 (n + 1) (lower (n + 1) + (a : ℤ)), p.2)
      obtain ⟨h1, h2⟩ := ih2 (helper body lower upper n (Function.update p.1 (n + 1) (lower (n + 1) + (a : ℤ)), p.2))
      simp only [List.map_cons, List.foldl_cons, List.flatMap_cons, List.foldl_append]
      refine ⟨?_, fun k hk => ?_⟩
      · rw [h1, g1]
        simp only
        congr 1
        congr 1
        funext k
        refine enum_congr _ _ _ _ _ fun m hm => ?_
        by_cases h3 : m = n + 1
        · subst h3; simp
        · simp only [Function.update_of_ne h3]
          rw [g2 m hm]
          simp only [Function.update_of_ne h3]
      · rw [h2 k hk, g2 k (by omega)]
        simp only
        rw [Function.update_of_ne (by omega)]

theorem mem_enum (lower upper : Idx) (n : ℕ) (i j : Idx) :
    j ∈ enum lower upper n i ↔ (∀ k, k ≤ n → lower k ≤ j k ∧ j k < upper k) ∧ ∀ k, n < k → j k = i k := by
  induction n generalizing i with
  | zero =>
    simp only [enum, List.mem_map, List.mem_range, span]
    constructor
    · rintro ⟨k, hk, rfl⟩
      refine ⟨fun m hm => ?_, fun m hm => ?_⟩
      · have : m = 0 := by omega
        subst this
        simp only [Function.update_self]
        omega
      · rw [Function.update_of_ne (by omega)]
    · rintro ⟨h1, h2⟩
      have h0 := h1 0 le_rfl
      refine ⟨(j 0 - lower 0).toNat, by omega, ?_⟩
      funext m
      by_cases hm : m = 0
      · subst hm; simp only [Function.update_self]; omega
      · rw [Function.update_of_ne hm, h2 m (by omega)]
  | succ n ih =>
    simp only [enum, List.mem_flatMap, List.mem_range, span, ih]
    constructor
    · rintro ⟨k, hk, h1, h2⟩
      refine ⟨fun m hm => ?_, fun m hm => ?_⟩
      · by_cases h3 : m = n + 1
        · subst h3
          rw [h2 _ (by omega)]
          simp only [Function.update_self]
          omega
        · exact h1 m (by omega)
      · rw [h2 m (by omega), Function.update_of_ne (by omega)]
    · rintro ⟨h1, h2⟩
      have h0 := h1 (n + 1) le_rfl
      refine ⟨(j (n + 1) - lower (n + 1)).toNat, by omega, fun m hm => h1 m (by omega), fun m hm => ?_⟩
      by_cases h3 : m = n + 1
      · subst h3; simp only [Function.update_self]; omega
      · rw [Function.update_of_ne h3, h2 m (by omega)]

theorem enum_pairwise (lower upper : Idx) (n : ℕ) (i : Idx) :
    (enum lower upper n i).Pairwise fun a b => ∃ k, k ≤ n ∧ a k < b k ∧ ∀ m, k < m → a m = b m := by
  induction n generalizing i with
  | zero =>
    simp only [enum]
    rw [List.pairwise_map]
    refine List.pairwise_lt_range.imp fun {a b} hab => ⟨0, le_rfl, by simp; omega, fun m hm => ?_⟩
    rw [Function.update_of_ne (by omega), Function.update_of_ne (by omega)]
  | succ n ih =>
    simp only [enum]
    rw [List.pairwise_flatMap]
    refine ⟨fun a _ => (ih _).imp fun {a b} ⟨k, h1, h2, h3⟩ => ⟨k, by omega, h2, h3⟩, ?_⟩
    refine List.pairwise_lt_range.imp fun {a b} hab x hx y hy => ?_
    rw [mem_enum] at hx hy
    refine ⟨n + 1, le_rfl, ?_, fun m hm => ?_⟩
    · rw [hx.2 _ (by omega), hy.2 _ (by omega)]; simp; omega
    · rw [hx.2 _ (by omega), hy.2 _ (by omega), Function.update_of_ne (by omega), Function.update_of_ne (by omega)]

theorem zipIdx_append' {α : Type} (l l' : List α) (k : ℕ) : (l ++ l').zipIdx k = l.zipIdx k ++ l'.zipIdx (k + l.length) := List.zipIdx_append

/-- The effect of a loop with a maximum: the first bodies, numbered. -/
def maxFold (body : Idx → ℕ → S → S) (l : List Idx) (p : S × ℕ) (N : ℕ) : S × ℕ :=
  (((l.take (N - p.2)).zipIdx p.2).foldl (fun s q => body q.1 q.2 s) p.1, p.2 + min l.length (N - p.2))

theorem maxFold_append (body : Idx → ℕ → S → S) (l l' : List Idx) (p : S × ℕ) (N : ℕ) :
    maxFold body (l ++ l') p N = maxFold body l' (maxFold body l p N) N := by
  obtain ⟨s, c⟩ := p
  simp only [maxFold, List.take_append, zipIdx_append', List.foldl_append, List.length_append, List.length_take]
  rw [show N - c - l.length = N - (c + min l.length (N - c)) by omega]
  rw [min_comm (N - c) l.length]
  refine Prod.ext rfl ?_
  simp only
  omega

theorem maxFold_stop (body : Idx → ℕ → S → S) (l : List Idx) (p : S × ℕ) (N : ℕ) (h : N ≤ p.2) : maxFold body l p N = p := by
  simp [maxFold, show N - p.2 = 0 by omega]

theorem cforMax (body : Idx → ℕ → S → S) (mx : ℤ) (E : Idx → ℤ → List Idx) (n : ℕ) (f : ℤ → Idx × S × ℕ → Idx × S × ℕ)
    (hE : ∀ i j v, (∀ k, n < k → i k = j k) → E i v = E j v)
    (hf : ∀ v q, (f v q).2 = maxFold body (E q.1 v) q.2 mx.toNat ∧ ∀ k, n < k → (f v q).1 k = q.1 k)
    (w : ℕ) (v : ℤ) (q : Idx × S × ℕ) :
    (cfor (fun q => decide ((q.2.2 : ℤ) < mx)) f w v q).2 =
        maxFold body ((List.range w).flatMap fun k : ℕ => E q.1 (v + (k : ℤ))) q.2 mx.toNat ∧
      ∀ k, n < k → (cfor (fun q => decide ((q.2.2 : ℤ) < mx)) f w v q).1 k = q.1 k := by
  induction w generalizing v q with
  | zero => exact ⟨by simp [cfor, maxFold], fun _ _ => rfl⟩
  | succ w ih =>
    simp only [cfor]
    by_cases hc : ((q.2.2 : ℤ) < mx)
    · rw [if_pos (by simpa using hc)]
      obtain ⟨h1, h2⟩ := ih (v + 1) (f v q)
      obtain ⟨g1, g2⟩ := hf v q
      refine ⟨?_, fun k hk => by rw [h2 k hk, g2 k hk]⟩
      rw [h1, g1, List.range_succ_eq_map, List.flatMap_cons, maxFold_append, List.flatMap_map]
      simp only [Nat.cast_zero, add_zero]
      congr 1
      congr 1
      funext k
      rw [hE _ q.1 _ fun k hk => g2 k hk]
      congr 1
      push_cast; ring
    · rw [if_neg (by simpa using hc)]
      exact ⟨(maxFold_stop _ _ _ _ (by omega)).symm, fun _ _ => rfl⟩

theorem helperMax_eq (body : Idx → ℕ → S → S) (lower upper : Idx) (mx : ℤ) (n : ℕ) (p : Idx × S × ℕ) :
    (helperMax body lower upper mx n p).2 = maxFold body (enum lower upper n p.1) p.2 mx.toNat ∧
      ∀ k, n < k → (helperMax body lower upper mx n p).1 k = p.1 k := by
  induction n generalizing p with
  | zero =>
    simp only [helperMax]
    -- the innermost loop: exactly one body for each value, guarded by the condition
    generalize hv : lower 0 = v
    have key : ∀ (w : ℕ) (v : ℤ) (p : Idx × S × ℕ),
        (cfor (fun q : Idx × S × ℕ => decide ((q.2.2 : ℤ) < mx))
          (fun v q => (Function.update q.1 0 v, body (Function.update q.1 0 v) q.2.2 q.2.1, q.2.2 + 1)) w v p).2 =
          maxFold body ((List.range w).map fun k : ℕ => Function.update p.1 0 (v + (k : ℤ))) p.2 mx.toNat ∧
        ∀ k, 0 < k → (cfor (fun q : Idx × S × ℕ => decide ((q.2.2 : ℤ) < mx))
          (fun v q => (Function.update q.1 0 v, body (Function.update q.1 0 v) q.2.2 q.2.1, q.2.2 + 1)) w v p).1 k = p.1 k := by
      intro w
      induction w with
      | zero => intro v p; exact ⟨by simp [cfor, maxFold], fun _ _ => rfl⟩
      | succ w ih =>
        intro v p
        simp only [cfor]
        by_cases hc : ((p.2.2 : ℤ) < mx)
        · rw [if_pos (by simpa using hc)]
          obtain ⟨h1, h2⟩ := ih (v + 1) (Function.update p.1 0 v, body (Function.update p.1 0 v) p.2.2 p.2.1, p.2.2 + 1)
          refine ⟨?_, fun k hk => by rw [h2 k hk]; simp only; rw [Function.update_of_ne (by omega)]⟩
          rw [h1, List.range_succ_eq_map, List.map_cons, List.map_map]
          rw [← List.singleton_append, maxFold_append]
          have e1 : maxFold body [Function.update p.1 0 (v + ((0 : ℕ) : ℤ))] p.2 mx.toNat =
              (body (Function.update p.1 0 v) p.2.2 p.2.1, p.2.2 + 1) := by
            have : mx.toNat - p.2.2 = (mx.toNat - p.2.2 - 1) + 1 := by omega
            simp only [maxFold]
            rw [this]
            simp
          rw [e1]
          congr 1
          refine List.map_congr_left fun k _ => ?_
          simp only [Function.comp_apply]
          funext m
          by_cases hm : m = 0
          · subst hm; simp only [Function.update_self]; push_cast; ring
          · simp [Function.update_of_ne hm]
        · rw [if_neg (by simpa using hc)]
          exact ⟨(maxFold_stop _ _ _ _ (by omega)).symm, fun _ _ => rfl⟩
    have := key (span v (upper 0)) v p
    simp only [enum, hv]
    exact this
  | succ n ih =>
    simp only [helperMax, enum]
    refine cforMax body mx (fun i v => enum lower upper n (Function.update i (n + 1) v)) (n + 1) _ ?_ ?_ _ _ p
    · intro i j v hij
      refine enum_congr _ _ _ _ _ fun m hm => ?_
      by_cases h3 : m = n + 1
      · subst h3; simp
      · simp only [Function.update_of_ne h3]; exact hij m (by omega)
    · intro v q
      obtain ⟨h1, h2⟩ := ih (Function.update q.1 (n + 1) v, q.2)
      refine ⟨h1, fun k hk => ?_⟩
      rw [h2 k (by omega)]
      simp only
      rw [Function.update_of_ne (by omega)]

/-! ## Theorems -/

/-- C101. A loop over a box of any number of dimensions executes its body for every index of the box exactly once, the first coordinate
varying fastest, and for nothing else; the version with a maximum executes exactly the first `max` of these bodies (none for a negative
maximum), numbered from zero. The number of indices is the product of the widths. -/
theorem C101_for_loop (n : ℕ) (lower upper : Idx) :
    ∃ L : List (Fin (n + 1) → ℤ),
      L.Nodup ∧ (∀ i, i ∈ L ↔ ∀ k : Fin (n + 1), lower k ≤ i k ∧ i k < upper k) ∧ L.Pairwise Before ∧
      L.length = ∏ k : Fin (n + 1), (upper k - lower k).toNat ∧
      (∀ (S : Type) (body : (Fin (n + 1) → ℤ) → S → S) (s : S), forLoop n body lower upper s = L.foldl (fun s i => body i s) s) ∧
      (∀ (S : Type) (body : (Fin (n + 1) → ℤ) → ℕ → S → S) (mx : ℤ) (s : S),
        forLoopMax n body lower upper mx s = ((L.take mx.toNat).zipIdx).foldl (fun s q => body q.1 q.2 s) s) := by
  have hpw : ((enum lower upper n lower).map (firsts n)).Pairwise Before := by
    rw [List.pairwise_map]
    refine (enum_pairwise lower upper n lower).imp fun {a b} ⟨k, h1, h2, h3⟩ => ?_
    exact ⟨⟨k, by omega⟩, h2, fun m hm => h3 m (by simpa [Fin.lt_def] using hm)⟩
  have hnd : ((enum lower upper n lower).map (firsts n)).Nodup := by
    refine hpw.imp fun {a b} ⟨k, h1, _⟩ hab => ?_
    rw [hab] at h1; exact lt_irrefl _ h1
  have hmem : ∀ i, i ∈ (enum lower upper n lower).map (firsts n) ↔ ∀ k : Fin (n + 1), lower k ≤ i k ∧ i k < upper k := by
    intro i
    simp only [List.mem_map, mem_enum]
    constructor
    · rintro ⟨j, ⟨h1, h2⟩, rfl⟩ k
      exact h1 k (by omega)
    · intro h
      refine ⟨fun k => if hk : k ≤ n then i ⟨k, by omega⟩ else lower k, ⟨fun k hk => ?_, fun k hk => ?_⟩, ?_⟩
      · simp only [dif_pos hk]; exact h ⟨k, by omega⟩
      · simp only [dif_neg (show ¬ k ≤ n by omega)]
      · funext k
        simp only [firsts, dif_pos (show (k : ℕ) ≤ n by omega)]
  refine ⟨_, hnd, hmem, hpw, ?_, ?_, ?_⟩
  · rw [← List.toFinset_card_of_nodup hnd]
    have : ((enum lower upper n lower).map (firsts n)).toFinset = Fintype.piFinset fun k : Fin (n + 1) => Finset.Ico (lower k) (upper k) := by
      ext i
      rw [List.mem_toFinset, hmem, Fintype.mem_piFinset]
      simp
    rw [this, Fintype.card_piFinset]
    simp
  · intro S body s
    simp only [forLoop]
    rw [(helper_eq _ lower upper n (lower, s)).1, List.foldl_map]
  · intro S body mx s
    simp only [forLoopMax]
    rw [(helperMax_eq _ lower upper mx n (lower, s, 0)).1]
    simp only [maxFold, Nat.sub_zero]
    rw [← List.map_take]
    rw [List.zipIdx_map, List.foldl_map]
    rfl

/-- In two dimensions the indices from `-1` to `1`: the first four are a half of the neighbours. -/
example : forLoopMax 1 (fun i _ s => s ++ [[i 0, i 1]]) (fun _ => -1) (fun _ => 2) 4 [] = [[-1, -1], [0, -1], [1, -1], [-1, 0]] := by decide

/-- An empty box: nothing is executed. -/
example : forLoop 1 (fun _ s => s + 1) (fun _ => 0) (fun k => if k = 0 then 3 else 0) 0 = 0 := by decide

/-! ## Vector templates -/

/-- Memory of several arrays; templates take pointers to arrays, which can be the same. -/
abbrev Arrays := ℕ → ℕ → ℝ

/-- The recursive templates that write one entry after the other, from the last to the first: `z[d-1] = f(x[d-1], y[d-1])`, then the instance
for `d-1`: `add_vec`, `subtract_vec`, `negate_vec`, `scalar_mult_eq_vec`, `sum_eq_vec`, `subtract_eq_vec`, `sum_eq_vec_scaled`, `copy_vec`,
`set1_vec`, `hadamard_equals_vec`, `utility/generic-dimension.hpp:64-157`, `170-313`, `340-355`. -/
def template (f : ℝ → ℝ → ℝ) (x y z : ℕ) : ℕ → Arrays → Arrays
  | 0, m => m
  | d + 1, m => template f x y z d (Function.update m z (Function.update (m z) d (f (m x d) (m y d))))

/-- `dot_vec`, `utility/generic-dimension.hpp:36-60`. -/
def dotVec (x y : ℕ) (m : Arrays) : ℕ → ℝ
  | 0 => 0
  | 1 => m x 0 * m y 0
  | d + 2 => m x (d + 1) * m y (d + 1) + dotVec x y m (d + 1)

open Classical in
/-- `normalize_vec`, `utility/generic-dimension.hpp:161-166`. -/
noncomputable def normalizeVec (x : ℕ) (d : ℕ) (m : Arrays) : Bool × Arrays :=
  if dotVec x x m d = 0 then (false, m)
  else (true, template (fun a _ => a * (1 / Real.sqrt (dotVec x x m d))) x x x d m)

theorem template_apply (f : ℝ → ℝ → ℝ) (x y z : ℕ) (d : ℕ) (m : Arrays) (a k : ℕ) :
    template f x y z d m a k = if a = z ∧ k < d then f (m x k) (m y k) else m a k := by
  induction d generalizing m with
  | zero => simp [template]
  | succ d ih =>
    simp only [template]
    rw [ih]
    have hu : ∀ b j, j ≠ d → Function.update m z (Function.update (m z) d (f (m x d) (m y d))) b j = m b j := by
      intro b j hj
      by_cases hb : b = z
      · subst hb; simp [Function.update_of_ne hj]
      · simp [Function.update_of_ne hb]
    by_cases hk : a = z ∧ k < d
    · rw [if_pos hk, if_pos ⟨hk.1, by omega⟩, hu _ _ (by omega), hu _ _ (by omega)]
    · rw [if_neg hk]
      by_cases ha : a = z
      · have hk' : ¬ k < d := fun h => hk ⟨ha, h⟩
        by_cases hkd : k = d
        · subst hkd; rw [if_pos ⟨ha, by omega⟩]; subst ha; simp
        · rw [hu _ _ hkd, if_neg (by omega)]
      · rw [if_neg (fun h => ha h.1)]
        simp [Function.update_of_ne ha]

theorem dotVec_sum (x y : ℕ) (m : Arrays) (d : ℕ) : dotVec x y m d = ∑ k ∈ Finset.range d, m x k * m y k := by
  match d with
  | 0 => simp [dotVec]
  | 1 => simp [dotVec]
  | d + 2 => rw [Finset.sum_range_succ, dotVec, dotVec_sum x y m (d + 1), add_comm]

/-- C102. The vector templates work on all components independently, in every number of dimensions, and also when the result is written over an
operand: entry `k < d` of the result is the operation on entries `k` of the operands as they were before the call; nothing else changes. The
dot product is the sum of the products. Normalisation fails exactly for the zero vector, which it leaves alone, and otherwise yields a vector
of length one that is a positive multiple of the given one. -/
theorem C102_vector_templates (d : ℕ) (m : Arrays) :
    (∀ f x y z, (∀ k, k < d → template f x y z d m z k = f (m x k) (m y k)) ∧
      (∀ k, d ≤ k → template f x y z d m z k = m z k) ∧ ∀ a, a ≠ z → template f x y z d m a = m a) ∧
    (∀ x y, dotVec x y m d = ∑ k ∈ Finset.range d, m x k * m y k) ∧
    (∀ x, ((normalizeVec x d m).1 = false ↔ ∀ k, k < d → m x k = 0) ∧
      ((normalizeVec x d m).1 = false → (normalizeVec x d m).2 = m) ∧
      ((normalizeVec x d m).1 = true → ∃ c : ℝ, 0 < c ∧ (∀ k, k < d → (normalizeVec x d m).2 x k = c * m x k) ∧
        ∑ k ∈ Finset.range d, (normalizeVec x d m).2 x k ^ 2 = 1)) := by
  refine ⟨fun f x y z => ⟨fun k hk => ?_, fun k hk => ?_, fun a ha => ?_⟩, fun x y => dotVec_sum x y m d, fun x => ?_⟩
  · rw [template_apply, if_pos ⟨rfl, hk⟩]
  · rw [template_apply, if_neg (by omega)]
  · funext k; rw [template_apply, if_neg (fun h => ha h.1)]
  · have h0 : dotVec x x m d = 0 ↔ ∀ k, k < d → m x k = 0 := by
      rw [dotVec_sum, Finset.sum_eq_zero_iff_of_nonneg (fun k _ => mul_self_nonneg _)]
      simp
    have hnn : 0 ≤ dotVec x x m d := by rw [dotVec_sum]; exact Finset.sum_nonneg fun k _ => mul_self_nonneg _
    by_cases h : dotVec x x m d = 0
    · refine ⟨?_, ?_, ?_⟩
      · simp only [normalizeVec, if_pos h, true_iff]; exact h0.mp h
      · intro _; simp [normalizeVec, if_pos h]
      · intro hf; simp [normalizeVec, if_pos h] at hf
    · have hpos : 0 < dotVec x x m d := lt_of_le_of_ne hnn (Ne.symm h)
      have hs : 0 < Real.sqrt (dotVec x x m d) := Real.sqrt_pos.mpr hpos
      refine ⟨?_, ?_, ?_⟩
      · simp only [normalizeVec, if_neg h, Bool.true_eq_false, false_iff]; exact fun hh => h (h0.mpr hh)
      · intro hf; simp [normalizeVec, if_neg h] at hf
      · intro _
        have e : ∀ k, k < d → (normalizeVec x d m).2 x k = (1 / Real.sqrt (dotVec x x m d)) * m x k := by
          intro k hk
          simp only [normalizeVec, if_neg h]
          rw [template_apply, if_pos ⟨rfl, hk⟩, mul_comm]
        refine ⟨1 / Real.sqrt (dotVec x x m d), by positivity, e, ?_⟩
        have : ∀ k ∈ Finset.range d, (normalizeVec x d m).2 x k ^ 2 = (1 / dotVec x x m d) * (m x k * m x k) := by
          intro k hk
          rw [e k (Finset.mem_range.mp hk), mul_pow, div_pow, Real.sq_sqrt hnn]
          ring
        rw [Finset.sum_congr rfl this, ← Finset.mul_sum, ← dotVec_sum, one_div, inv_mul_cancel₀ h]

/-- A vector of length five is normalised, in place. -/
example : (normalizeVec 0 2 (fun _ k => if k = 0 then 3 else 4)).1 = true := by
  simp only [normalizeVec, dotVec]
  norm_num

end Verif.ForLoop
