import Verif.Domain.Within

/-!
# Large particles in the pair traversal (C28)

Particles whose reach `sigma` exceeds `max_small_sigma` search a window of cells themselves (`domains/domain.cpp:155-196`). Here:
systems with any mixture of small and large particles.
-/

set_option linter.unusedSectionVars false

namespace Verif.Cells
open Verif.Grid Verif.Stencil

section field
variable {K : Type*} [Field K] [LinearOrder K] [IsStrictOrderedRing K] [FloorRing K]

/-- Spec: the system is one that the domain can hold; particles may be of any size. -/
structure Sys.Built (S : Sys K) : Prop where
  valid : ∀ a ∈ S.g, a.Valid
  skin_nonneg : 0 ≤ S.skin
  pos : ∀ i, S.Live i → PosOK S.g (S.x i)
  rd_nonneg : ∀ i, S.Live i → 0 ≤ S.rd i
  cut_nonneg : ∀ i j, S.Live i → S.Live j → 0 ≤ S.cut (S.type i) (S.type j)
  cut_symm : ∀ i j, S.Live i → S.Live j → S.cut (S.type i) (S.type j) = S.cut (S.type j) (S.type i)
  cut_max : ∀ i j, S.Live i → S.Live j → S.cut (S.type i) (S.type j) ≤ S.maxCut (S.type i)

/-- Spec: the range that the search of a large particle `i` uses for `j`. -/
def Sys.largeRange (S : Sys K) (i j : ℕ) : K := (S.sigma i + S.rd j) * S.cut (S.type i) (S.type j) + S.skin

/-- Spec: the dimension wraps, or has at least `2*(ceil((2 sigma + skin)/w)+1)` cells. -/
def EnoughLarge (r : K) (a : DAx K) : Prop := a.per = true ∨ 2 * (⌈r / a.w⌉.toNat + 1) ≤ a.n

theorem large_fits (S : Sys K) (i : ℕ) : Fits S.g (S.largeSearch i) := by
  unfold Fits Sys.largeSearch
  rw [List.forall₂_map_left_iff, List.forall₂_same]
  intro a _
  exact min_le_right _ _

theorem large_mem {S : Sys K} {i : ℕ} {v : Visit} (h : v ∈ S.large i) :
    v.id1 = i ∧ S.Live v.id2 ∧ v.id2 ≠ i ∧ S.rd v.id2 ≤ S.sigma i ∧
      ((v.list = 0 ∧ distSq (S.x i) (S.x v.id2) < S.largeRange i v.id2 ^ 2) ∨
        (v.list = 1 ∧ S.largeRange i v.id2 ^ 2 ≤ distSq (S.x i) (S.x v.id2) ∧ maxReasonable S.g < distSq (S.x i) (S.x v.id2))) := by
  unfold Sys.large at h
  rw [List.mem_flatMap] at h
  obtain ⟨c, _, h⟩ := h
  rw [List.mem_flatMap] at h
  obtain ⟨j, hj, h⟩ := h
  rw [mem_cell] at hj
  split_ifs at h with h1 h2 h3
  · simp at h
  · rw [List.mem_singleton] at h
    subst h
    push Not at h1
    exact ⟨rfl, hj.1, fun e => h1.1 e.symm, h1.2, Or.inl ⟨rfl, h2⟩⟩
  · rw [List.mem_singleton] at h
    subst h
    push Not at h1
    exact ⟨rfl, hj.1, fun e => h1.1 e.symm, h1.2, Or.inr ⟨rfl, not_lt.mp h2, h3⟩⟩
  · simp at h

/-- The body's calls for `j` in the search of a large particle. -/
def Sys.largeOne (S : Sys K) (i j : ℕ) : List Visit :=
  if i = j ∨ S.rd j > S.sigma i then []
  else if distSq (S.x i) (S.x j) < ((S.sigma i + S.rd j) * S.cut (S.type i) (S.type j) + S.skin) ^ 2 then [⟨i, j, 0⟩]
  else if maxReasonable S.g < distSq (S.x i) (S.x j) then [⟨i, j, 1⟩]
  else []

theorem large_eq (S : Sys K) (i : ℕ) :
    S.large i = (window S.g (S.largeSearch i) (rawTuple S.g (S.x i))).flatMap fun c => (S.cell c).flatMap (S.largeOne i) := rfl

theorem largeOne_mem {S : Sys K} {i j : ℕ} {v : Visit} (h : v ∈ S.largeOne i j) : v.id1 = i ∧ v.id2 = j := by
  unfold Sys.largeOne at h
  split_ifs at h <;> simp at h <;> subst h <;> exact ⟨rfl, rfl⟩

theorem largeOne_length (S : Sys K) (i j : ℕ) : (S.largeOne i j).length ≤ 1 := by
  unfold Sys.largeOne
  split_ifs <;> simp

theorem filter_cell_large (S : Sys K) (i j : ℕ) (c : ℤ) :
    ((S.cell c).flatMap (S.largeOne i)).filter (isOrd i j) = if j ∈ S.cell c then S.largeOne i j else [] := by
  have hnd : (S.cell c).Nodup := (cell_sorted S c).imp ne_of_lt
  generalize S.cell c = l at hnd
  induction l with
  | nil => simp
  | cons k l ih =>
    rw [List.nodup_cons] at hnd
    rw [List.flatMap_cons, List.filter_append, ih hnd.2]
    by_cases hk : k = j
    · subst hk
      rw [if_neg hnd.1, if_pos (by simp), List.append_nil, List.filter_eq_self]
      intro v hv
      obtain ⟨a, b⟩ := largeOne_mem hv
      simp [isOrd, a, b]
    · have : (S.largeOne i k).filter (isOrd i j) = [] := by
        rw [List.filter_eq_nil_iff]
        intro v hv
        obtain ⟨a, b⟩ := largeOne_mem hv
        simp only [isOrd, a, b, decide_eq_true_eq, true_and]
        exact hk
      rw [this, List.nil_append]
      simp only [List.mem_cons, Ne.symm hk, false_or]

/-- What the search of `i` does with `j`: one call at most, and one if the cell of `j` is in the window. -/
theorem filter_large (S : Sys K) (hv : ∀ a ∈ S.g, a.Valid) {i j : ℕ} (hx : InBounds S.g (S.x i)) (hj : S.Live j) :
    (S.large i).filter (isOrd i j) =
      if S.cellOf j ∈ window S.g (S.largeSearch i) (rawTuple S.g (S.x i)) then S.largeOne i j else [] := by
  have hnd := window_nodup (large_fits S i) (rawTuple_inG hv hx).1
  rw [large_eq]
  generalize window S.g (S.largeSearch i) (rawTuple S.g (S.x i)) = l at hnd
  induction l with
  | nil => simp
  | cons c l ih =>
    rw [List.nodup_cons] at hnd
    rw [List.flatMap_cons, List.filter_append, ih hnd.2, filter_cell_large]
    by_cases hc : c = S.cellOf j
    · subst hc
      rw [if_pos (mem_cell.mpr ⟨hj, rfl⟩), if_neg hnd.1, if_pos (by simp), List.append_nil]
    · rw [if_neg (fun h => hc (mem_cell.mp h).2.symm), List.nil_append]
      simp only [List.mem_cons, Ne.symm hc, false_or]

/-- One particle's turn in the loop over a cell. -/
def Sys.turn (S : Sys K) (c i : ℕ) (rest : List ℕ) : List Visit :=
  if S.type i < 0 then []
  else if S.sigma i ≤ S.mss then
    rest.flatMap (S.inCell i) ++ (S.adj c).flatMap fun d => (S.cell d).flatMap (S.inAdjacent i)
  else S.large i

theorem turn_mem {S : Sys K} {c i : ℕ} {rest : List ℕ} {v : Visit} (h : v ∈ S.turn c i rest) :
    v.id1 = i ∧ (S.sigma i ≤ S.mss → S.sigma v.id2 ≤ S.mss) := by
  unfold Sys.turn at h
  split_ifs at h with h1 h2
  · simp at h
  · rw [List.mem_append] at h
    rcases h with h | h
    · rw [List.mem_flatMap] at h
      obtain ⟨j, _, h⟩ := h
      obtain ⟨a, b⟩ := inCell_mem h
      unfold Sys.inCell at h
      split_ifs at h with h3 h4
      · simp at h
      · push Not at h3
        exact ⟨a, fun _ => by rw [b]; exact h3.2⟩
      · simp at h
    · rw [List.mem_flatMap] at h
      obtain ⟨d, _, h⟩ := h
      rw [List.mem_flatMap] at h
      obtain ⟨j, _, h⟩ := h
      obtain ⟨a, b⟩ := inAdjacent_mem h
      unfold Sys.inAdjacent at h
      split_ifs at h with h3 h4
      · simp at h
      all_goals
        first
        | (push Not at h3
           exact ⟨a, fun _ => by rw [b]; exact h3.2⟩)
        | simp at h
  · exact ⟨(large_mem h).1, fun h3 => absurd h3 h2⟩

theorem filter_cellLoop_large {S : Sys K} {i j : ℕ} (hi : S.Live i) (hl : S.mss < S.sigma i) (c : ℕ) (l : List ℕ)
    (hnd : l.Nodup) :
    (S.cellLoop c l).filter (isOrd i j) = if i ∈ l then (S.large i).filter (isOrd i j) else [] := by
  induction l with
  | nil => simp [Sys.cellLoop]
  | cons k l ih =>
    rw [List.nodup_cons] at hnd
    have e : S.cellLoop c (k :: l) = S.turn c k l ++ S.cellLoop c l := rfl
    rw [e, List.filter_append, ih hnd.2]
    by_cases hk : k = i
    · subst hk
      rw [if_neg hnd.1, if_pos (by simp), List.append_nil]
      unfold Sys.turn
      rw [if_neg (not_lt.mpr hi.2.1), if_neg (not_le.mpr hl)]
    · have : (S.turn c k l).filter (isOrd i j) = [] := by
        rw [List.filter_eq_nil_iff]
        intro v hv
        simp only [isOrd, (turn_mem hv).1, decide_eq_true_eq]
        exact fun h => hk h.1
      rw [this, List.nil_append]
      simp only [List.mem_cons, Ne.symm hk, false_or]

/-- The cell of a live particle exists. -/
theorem cell_exists {S : Sys K} (hS : S.Built) {i : ℕ} (hi : S.Live i) : ∃ ci : ℕ, S.cellOf i = ci ∧ ci < S.dims.prod := by
  have hdims : (S.g.map DAx.axis).map Axis.dim = S.g.map DAx.n := by rw [List.map_map]; rfl
  have key : ∀ (g : List (DAx K)), (∀ a ∈ g, a.Valid) → ∀ x : List K, PosOK g x →
      ∃ t : List ℕ, cellTuple (g.map DAx.axis) x = t.map (↑) ∧ InGrid (g.map DAx.n) t := by
    intro g
    induction g with
    | nil =>
      intro _ x hx
      cases x with
      | nil => exact ⟨[], rfl, List.Forall₂.nil⟩
      | cons _ _ => exact hx.elim
    | cons a g ih =>
      intro hv x hx
      cases x with
      | nil => exact hx.elim
      | cons x xs =>
        obtain ⟨t, h1, h2⟩ := ih (fun b hb => hv b (List.mem_cons_of_mem _ hb)) xs hx.2
        obtain ⟨j, hj, hbj⟩ := cellCoord_belongs (hv a (by simp)).axis x
        refine ⟨j :: t, ?_, List.Forall₂.cons ?_ h2⟩
        · simp only [List.map_cons, cellTuple, hj, h1]
        · have := hbj.2.1
          simp only [DAx.axis] at this
          omega
  obtain ⟨t, h1, h2⟩ := key S.g hS.valid (S.x i) (hS.pos i hi)
  obtain ⟨j, e, hj, _⟩ := (C24_addresses_inverse (S.g.map DAx.n)).2 t h2
  exact ⟨j, by rw [Sys.cellOf, cellIndex, hdims, h1, e], hj⟩

theorem filter_traverse_large {S : Sys K} (hS : S.Built) {i j : ℕ} (hi : S.Live i) (hl : S.mss < S.sigma i) :
    S.traverse.filter (isOrd i j) = (S.large i).filter (isOrd i j) := by
  obtain ⟨ci, h1, h2⟩ := cell_exists hS hi
  have hf : ∀ c : ℕ, (S.cellLoop c (S.cell c)).filter (isOrd i j) = if c = ci then (S.large i).filter (isOrd i j) else [] := by
    intro c
    rw [filter_cellLoop_large hi hl c _ ((cell_sorted S c).imp ne_of_lt)]
    have : i ∈ S.cell c ↔ c = ci := by
      rw [mem_cell, h1]
      constructor
      · rintro ⟨-, h⟩; exact_mod_cast h.symm
      · rintro rfl; exact ⟨hi, rfl⟩
    simp only [this]
  unfold Sys.traverse
  rw [flatMap_range_single h2 (fun d hd => by rw [hf, if_neg hd]), hf, if_pos rfl]

/-- A pair in reach only across the boundary is farther apart than half a box width without wrapping. -/
theorem far_of_wrap {g : List (DAx K)} (hv : ∀ a ∈ g, a.Valid) {c : K} (h0 : 0 ≤ c)
    (hhalf : ∀ a ∈ g, a.per = true → c ≤ 1/2 * (a.hi - a.lo))
    {m : List ℤ} (hm : Shift g m) {x y : List K} (hx : PosOK g x) (hy : PosOK g y)
    (h : imageSq g m x y < c ^ 2) (hne : ∃ k ∈ m, k ≠ 0) :
    ∃ a ∈ g, a.per = true ∧ (1/2 * (a.hi - a.lo)) ^ 2 < distSq x y := by
  induction g generalizing m x y with
  | nil => cases hm; simp at hne
  | cons a g ih =>
    cases hm with
    | @cons k _ m _ hk hm =>
      match x, y with
      | [], _ => simp [PosOK] at hx
      | _ :: _, [] => simp [PosOK] at hy
      | x :: xs, y :: ys =>
        simp only [PosOK] at hx hy
        simp only [imageSq] at h
        have hn := imageSq_nonneg g m xs ys
        have hd := distSq_nonneg xs ys
        by_cases hk0 : k = 0
        · have hne' : ∃ k ∈ m, k ≠ 0 := by
            obtain ⟨l, hl, hl0⟩ := hne
            rcases List.mem_cons.mp hl with rfl | hl
            · exact absurd hk0 hl0
            · exact ⟨l, hl, hl0⟩
          have hsq : 0 ≤ (x - y + k * (a.hi - a.lo)) ^ 2 := sq_nonneg _
          obtain ⟨b, hb, e1, e2⟩ := ih (fun b hb => hv b (List.mem_cons_of_mem _ hb))
            (fun b hb => hhalf b (List.mem_cons_of_mem _ hb)) hm hx.2 hy.2 (by linarith) hne'
          refine ⟨b, List.mem_cons_of_mem _ hb, e1, ?_⟩
          simp only [distSq]
          have : 0 ≤ (x - y) ^ 2 := sq_nonneg _
          linarith
        · have hper : a.per = true := by
            by_contra hp
            exact hk0 (hk (by simpa using hp))
          have hva := hv a (by simp)
          have hab : |x - y + k * (a.hi - a.lo)| < c := abs_lt_of_sq_add_lt h0 hn h
          have hL : 0 < a.hi - a.lo := sub_pos.mpr hva.lohi
          have hc := hhalf a (by simp) hper
          have hbig : 1/2 * (a.hi - a.lo) < |x - y| := by
            have hk1 : (1 : K) ≤ |(k : K)| := by
              have : (1 : ℤ) ≤ |k| := Int.one_le_abs hk0
              exact_mod_cast this
            have h2 := abs_sub (x - y + k * (a.hi - a.lo)) (x - y)
            rw [show x - y + k * (a.hi - a.lo) - (x - y) = k * (a.hi - a.lo) by ring, abs_mul, abs_of_pos hL] at h2
            nlinarith
          refine ⟨a, by simp, hper, ?_⟩
          simp only [distSq]
          have : (1/2 * (a.hi - a.lo)) ^ 2 < (x - y) ^ 2 := by
            rw [← sq_abs (x - y)]
            exact pow_lt_pow_left₀ hbig (by positivity) (by norm_num)
          linarith

/-- One dimension: the even window contains every cell within the sweep. -/
theorem win1_cover_even {n s : ℕ} {per : Bool} (h : per = true ∨ 2 * (s + 1) ≤ n) {a b : ℤ}
    (ha : 0 ≤ a ∧ a < n) (hb : 0 ≤ b ∧ b < n) (hN : Near1 ⟨n, s, per⟩ a b) :
    ∃ t, InWin1 (min (2 * (s + 1)) n) t ∧ correct1 n per (t + a) = some b := by
  by_cases hs : 2 * (s + 1) ≤ n
  · rw [min_eq_left hs]
    obtain ⟨t, ht, hc⟩ := (near1_iff (x := ⟨n, s, per⟩) (fun _ => by simp only; omega) ha hb).mp hN
    simp only at ht hc
    rw [abs_le] at ht
    refine ⟨t, ⟨by omega, by omega⟩, by rw [add_comm]; exact hc⟩
  · have hper : per = true := h.resolve_right hs
    rw [min_eq_right (by omega)]
    subst hper
    by_cases h1 : b - a < -(((n + 1) / 2 : ℕ) : ℤ)
    · refine ⟨b - a + n, ⟨by omega, by omega⟩, ?_⟩
      simp only [correct1, if_true]
      rw [if_pos (by omega)]; congr 1; omega
    · by_cases h2 : b - a < n - (((n + 1) / 2 : ℕ) : ℤ)
      · refine ⟨b - a, ⟨by omega, h2⟩, ?_⟩
        simp only [correct1]
        rw [if_neg (by omega), if_neg (by omega)]; congr 1; omega
      · refine ⟨b - a - n, ⟨by omega, by omega⟩, ?_⟩
        simp only [correct1, if_true]
        rw [if_neg (by omega), if_pos (by omega)]; congr 1; omega

theorem win_cover_even {g : List (DAx K)} (hv : ∀ a ∈ g, a.Valid) {r : K} (hr : 0 ≤ r) (he : ∀ a ∈ g, EnoughLarge r a)
    {x y : List K} (hx : InBounds g x) (hy : PosOK g y) {m : List ℤ} (hm : Shift g m)
    (h : imageSq g m x y < r ^ 2) :
    ∃ t, InWin (g.map fun a => min (2 * (⌈r / a.w⌉.toNat + 1)) a.n) t ∧
      Step (axes g) t (rawTuple g x) (cellTuple (g.map DAx.axis) y) := by
  induction g generalizing x y m with
  | nil =>
    cases x with
    | nil => cases y with
      | nil => exact ⟨[], List.Forall₂.nil, trivial⟩
      | cons _ _ => exact hy.elim
    | cons _ _ => exact hx.elim
  | cons a g ih =>
    cases hm with
    | @cons k _ m _ hk hm =>
      match x, y with
      | [], _ => exact hx.elim
      | _ :: _, [] => exact hy.elim
      | x :: xs, y :: ys =>
        have hva := hv a (by simp)
        simp only [imageSq] at h
        have hn := imageSq_nonneg g m xs ys
        have hsq : 0 ≤ (x - y + k * (a.hi - a.lo)) ^ 2 := sq_nonneg _
        obtain ⟨t, h1, h2⟩ := ih (fun b hb => hv b (List.mem_cons_of_mem _ hb))
          (fun b hb => he b (List.mem_cons_of_mem _ hb)) hx.2 hy.2 hm (by linarith)
        have hN := near_of_close hva hk (fun _ => hx.1) hy.1 (abs_lt_of_sq_add_lt hr hn h)
        obtain ⟨e1, e2, e3⟩ := raw_eq hva hx.1
        obtain ⟨j, hj, hbj⟩ := cellCoord_belongs hva.axis y
        have hjn : (0 : ℤ) ≤ cellCoord a.axis y ∧ cellCoord a.axis y < a.n := by
          have := hbj.2.1
          simp only [DAx.axis] at this
          rw [hj]
          constructor <;> omega
        have hE : a.per = true ∨ 2 * (sweepOf r a.w + 1) ≤ a.n := he a (by simp)
        obtain ⟨t0, ht0, hc0⟩ := win1_cover_even hE ⟨e2, e3⟩ hjn hN
        refine ⟨t0 :: t, List.Forall₂.cons ht0 h1, ?_, h2⟩
        rw [e1]; exact hc0

/-- The cell of `j` is in the window of `i` if an image of `j` is closer than `2 sigma + skin`. -/
theorem in_window {S : Sys K} (hS : S.Built) {i j : ℕ} (hj : S.Live j) (hx : InBounds S.g (S.x i))
    (h0 : 0 ≤ 2 * S.sigma i + S.skin) (he : ∀ a ∈ S.g, EnoughLarge (2 * S.sigma i + S.skin) a) {m : List ℤ} (hm : Shift S.g m)
    (h : imageSq S.g m (S.x i) (S.x j) < (2 * S.sigma i + S.skin) ^ 2) :
    S.cellOf j ∈ window S.g (S.largeSearch i) (rawTuple S.g (S.x i)) := by
  obtain ⟨hin, _⟩ := rawTuple_inG hS.valid hx
  have hfit := large_fits S i
  have hdims : (S.g.map DAx.axis).map Axis.dim = S.g.map DAx.n := by rw [List.map_map]; rfl
  obtain ⟨t, ht, hs⟩ := win_cover_even hS.valid h0 he hx (hS.pos j hj) hm h
  have hvalid := win_valid hfit hin ht hs
  obtain ⟨b, hb, hbg⟩ := hvalid.exists_nat
  rw [axes_n] at hbg
  rw [Sys.cellOf, cellIndex, hdims, hb]
  exact (mem_window hfit hin hbg).mpr ⟨t, ht, by rw [← hb]; exact hs⟩

/-- The other particle of a pair does not visit it: it is small, or it reaches less far than the radius of `i`. -/
theorem other_side {S : Sys K} {i j : ℕ} (hj : S.Live j) (hl : S.mss < S.sigma i)
    (ho : S.sigma j ≤ S.mss ∨ S.sigma j < S.rd i) : S.traverse.filter (isOrd j i) = [] := by
  rw [List.filter_eq_nil_iff]
  intro v hv
  simp only [isOrd, decide_eq_true_eq]
  rintro ⟨e1, e2⟩
  have key : ∀ c : ℕ, ∀ l : List ℕ, v ∈ S.cellLoop c l → ∃ k rest, v ∈ S.turn c k rest := by
    intro c l
    induction l with
    | nil => intro h; simp [Sys.cellLoop] at h
    | cons k l ih =>
      intro h
      have e : S.cellLoop c (k :: l) = S.turn c k l ++ S.cellLoop c l := rfl
      rw [e, List.mem_append] at h
      rcases h with h | h
      · exact ⟨k, l, h⟩
      · exact ih h
  unfold Sys.traverse at hv
  rw [List.mem_flatMap] at hv
  obtain ⟨c, _, hv⟩ := hv
  obtain ⟨k, rest, hv⟩ := key c _ hv
  obtain ⟨h1, h2⟩ := turn_mem hv
  have hk : k = j := by rw [← h1, e1]
  subst hk
  by_cases hs : S.sigma k ≤ S.mss
  · have := h2 hs
    rw [e2] at this
    linarith
  · rcases ho with ho | ho
    · exact hs ho
    · unfold Sys.turn at hv
      rw [if_neg (not_lt.mpr hj.2.1), if_neg hs] at hv
      have := (large_mem hv).2.2.2.1
      rw [e2] at this
      linarith

/-- **C28 (partial), large particles: nothing is listed twice.** Let `i` be a live particle whose reach exceeds the limit for
small ones, inside the bounds. Each other live particle `j` that is small, or reaches less far than the radius of `i`, is
visited together with `i` at most once. A visited `j` is not larger than the reach of `i`, and the visit is plain if `j` is
within the range that the search uses, and wrapped if it is beyond that range and farther away than half a box width.
Missing: pairs of large particles that reach each other (visited twice, `C28_negation_large`). -/
theorem C28_large_once_partial (S : Sys K) (hS : S.Built) (i : ℕ) (hi : S.Live i) (hl : S.mss < S.sigma i)
    (hx : InBounds S.g (S.x i)) :
    (∀ j, S.Live j → j ≠ i → (S.sigma j ≤ S.mss ∨ S.sigma j < S.rd i) → S.traverse.countP (IsPair i j) ≤ 1) ∧
    (∀ v ∈ S.traverse, v.id1 = i → S.Live v.id2 ∧ v.id2 ≠ i ∧ S.rd v.id2 ≤ S.sigma i ∧
      ((v.list = 0 ∧ distSq (S.x i) (S.x v.id2) < S.largeRange i v.id2 ^ 2) ∨
        (v.list = 1 ∧ S.largeRange i v.id2 ^ 2 ≤ distSq (S.x i) (S.x v.id2) ∧
          maxReasonable S.g < distSq (S.x i) (S.x v.id2)))) := by
  constructor
  · intro j hj hij ho
    rw [isPair_count (Ne.symm hij), filter_traverse_large hS hi hl, other_side hj hl ho, filter_large S hS.valid hx hj]
    have := largeOne_length S i j
    split_ifs <;> simpa using this
  · intro v hv e
    have hv' : v ∈ S.traverse.filter (isOrd i v.id2) := by
      rw [List.mem_filter]
      exact ⟨hv, by simp [isOrd, e]⟩
    rw [filter_traverse_large hS hi hl, List.mem_filter] at hv'
    exact (large_mem hv'.1).2

/-- **C28 (partial), large particles: no interacting pair is missed.** Let `i` be a live large particle inside the bounds and
`j` another live particle of at most its reach. If each dimension wraps or has enough cells, and the search range is at most
half of each wrapping width, then: if some image of `j` is closer to `i` than their interaction range plus skin, `i` visits
`j` exactly once, as a plain pair if it is `j` itself and as a wrapped one otherwise; and if `j` is small, or reaches less far
than the radius of `i`, this is the only visit of the pair.
Missing: windows that are too small (non-wrapping dimensions with few cells), and pairs of large particles that reach each
other, which are visited from both sides (`C28_negation_large`). -/
theorem C28_large_no_pair_missed_partial (S : Sys K) (hS : S.Built) (i j : ℕ) (hi : S.Live i) (hj : S.Live j) (hij : i ≠ j)
    (hl : S.mss < S.sigma i) (hx : InBounds S.g (S.x i)) (hle : S.sigma j ≤ S.sigma i) (hrd : S.rd j ≤ S.sigma i)
    (hri : S.rd i ≤ S.sigma i) (he : ∀ a ∈ S.g, EnoughLarge (2 * S.sigma i + S.skin) a)
    (hhalf : ∀ a ∈ S.g, a.per = true → S.largeRange i j ≤ 1/2 * (a.hi - a.lo))
    (m : List ℤ) (hm : Shift S.g m) (hr : imageSq S.g m (S.x i) (S.x j) < S.range i j ^ 2) :
    S.traverse.filter (fun v => decide (v.id1 = i ∧ v.id2 = j)) = [⟨i, j, if (∀ k ∈ m, k = 0) then 0 else 1⟩] ∧
    ((S.sigma j ≤ S.mss ∨ S.sigma j < S.rd i) → S.traverse.countP (IsPair i j) = 1) := by
  have c0 := hS.cut_nonneg i j hi hj
  have ri0 := hS.rd_nonneg i hi
  have rj0 := hS.rd_nonneg j hj
  have s0 := hS.skin_nonneg
  have hrange0 : 0 ≤ S.range i j := by unfold Sys.range; positivity
  have h1 : S.rd i * S.cut (S.type i) (S.type j) ≤ S.sigma i :=
    mul_le_mul_of_nonneg_left (hS.cut_max i j hi hj) ri0
  have h2 : S.rd j * S.cut (S.type i) (S.type j) ≤ S.sigma j := by
    rw [hS.cut_symm i j hi hj]
    exact mul_le_mul_of_nonneg_left (hS.cut_max j i hj hi) rj0
  have hreach : S.range i j ≤ 2 * S.sigma i + S.skin := by unfold Sys.range; nlinarith
  have hlr : S.range i j ≤ S.largeRange i j := by
    unfold Sys.range Sys.largeRange
    have := mul_le_mul_of_nonneg_right hri c0
    nlinarith
  have hin := in_window hS hj hx (le_trans hrange0 hreach) he hm
    (lt_of_lt_of_le hr (pow_le_pow_left₀ hrange0 hreach 2))
  have hone : S.largeOne i j = [⟨i, j, if (∀ k ∈ m, k = 0) then 0 else 1⟩] := by
    unfold Sys.largeOne
    rw [if_neg (by push Not; exact ⟨hij, hrd⟩), show (S.sigma i + S.rd j) * S.cut (S.type i) (S.type j) + S.skin = S.largeRange i j from rfl]
    by_cases hm0 : ∀ k ∈ m, k = 0
    · rw [imageSq_zero hm0 (List.Forall₂.length_eq hm) (hS.pos i hi) (hS.pos j hj)] at hr
      rw [if_pos (lt_of_lt_of_le hr (pow_le_pow_left₀ hrange0 hlr 2)), if_pos hm0]
    · rw [if_neg hm0]
      push Not at hm0
      obtain ⟨a, ha, hp, hfar⟩ := far_of_wrap hS.valid (le_trans hrange0 hlr) hhalf hm (hS.pos i hi) (hS.pos j hj)
        (lt_of_lt_of_le hr (pow_le_pow_left₀ hrange0 hlr 2)) hm0
      have hh := hhalf a ha hp
      have := pow_le_pow_left₀ (le_trans hrange0 hlr) hh 2
      rw [if_neg (not_lt.mpr (le_trans this hfar.le)), if_pos (lt_of_le_of_lt (maxReasonable_le ha) hfar)]
  have hmain : S.traverse.filter (isOrd i j) = [⟨i, j, if (∀ k ∈ m, k = 0) then 0 else 1⟩] := by
    rw [filter_traverse_large hS hi hl, filter_large S hS.valid hx hj, if_pos hin, hone]
  refine ⟨hmain, fun ho => ?_⟩
  rw [isPair_count hij, hmain, other_side hj hl ho]
  simp

end field

/-! ## Example -/

/-- A large particle (radius 2) and three small ones in a wrapping box of twenty cells. -/
def sysLarge : Sys ℚ :=
  { g := [⟨0, 20, 20, 1, true⟩], number := 4,
    x := fun i => if i = 0 then [1] else if i = 1 then [3] else if i = 2 then [19] else [10],
    rd := fun i => if i = 0 then 2 else 1/2, type := fun _ => 0, interacts := fun _ => true, cut := fun _ _ => 1,
    maxCut := fun _ => 1, mss := 1/2, skin := 0 }

/-- The hypotheses are met, with a plain and a wrapped neighbour of the large particle. -/
example : sysLarge.Built ∧ sysLarge.mss < sysLarge.sigma 0 ∧ InBounds sysLarge.g (sysLarge.x 0) ∧ sysLarge.sigma 1 ≤ sysLarge.mss ∧
    (∀ a ∈ sysLarge.g, EnoughLarge (2 * sysLarge.sigma 0 + sysLarge.skin) a) ∧
    (∀ a ∈ sysLarge.g, a.per = true → sysLarge.largeRange 0 1 ≤ 1/2 * (a.hi - a.lo)) ∧
    imageSq sysLarge.g [0] (sysLarge.x 0) (sysLarge.x 1) < sysLarge.range 0 1 ^ 2 ∧
    imageSq sysLarge.g [1] (sysLarge.x 0) (sysLarge.x 2) < sysLarge.range 0 2 ^ 2 ∧
    sysLarge.traverse.filter (fun v => decide (v.id1 = 0)) = [⟨0, 2, 1⟩, ⟨0, 1, 0⟩] := by
  refine ⟨⟨?_, le_refl _, ?_, ?_, fun _ _ _ _ => by norm_num [sysLarge], fun _ _ _ _ => rfl, fun _ _ _ _ => le_refl _⟩,
    by norm_num [sysLarge, Sys.sigma], by norm_num [sysLarge, InBounds], by norm_num [sysLarge, Sys.sigma], ?_, ?_,
    by norm_num [sysLarge, imageSq, Sys.range], by norm_num [sysLarge, imageSq, Sys.range], by decide +kernel⟩
  · intro a ha
    simp only [sysLarge, List.mem_cons, List.not_mem_nil, or_false] at ha
    subst ha
    exact ⟨by norm_num, by norm_num, by norm_num, by norm_num⟩
  · intro i _
    simp only [sysLarge]
    split_ifs <;> norm_num [PosOK]
  · intro i _
    simp only [sysLarge]
    split_ifs <;> norm_num
  · intro a ha
    simp only [sysLarge, List.mem_cons, List.not_mem_nil, or_false] at ha
    subst ha
    exact Or.inl rfl
  · intro a ha
    simp only [sysLarge, List.mem_cons, List.not_mem_nil, or_false] at ha
    subst ha
    intro _
    norm_num [sysLarge, Sys.largeRange, Sys.sigma]

end Verif.Cells
