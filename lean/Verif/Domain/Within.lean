import Verif.Domain.CellsProps

/-!
# Range queries (C30)

`getAllWithin` (`domains/domain.cpp:27-76`): what it returns when the search window is wide enough, and a
counterexample when it is not.
-/

set_option linter.unusedSectionVars false

namespace Verif.Cells
open Verif.Grid Verif.Stencil

theorem nodup_filterMap_on {α β : Type*} {f : α → Option β} {l : List α} (hl : l.Nodup)
    (h : ∀ a ∈ l, ∀ a' ∈ l, ∀ b, f a = some b → f a' = some b → a = a') : (l.filterMap f).Nodup := by
  induction l with
  | nil => simp
  | cons a l ih =>
    obtain ⟨h1, h2⟩ := List.nodup_cons.mp hl
    have ih' := ih h2 (fun x hx y hy => h x (List.mem_cons_of_mem _ hx) y (List.mem_cons_of_mem _ hy))
    rw [List.filterMap_cons]
    split
    · exact ih'
    · next b hb =>
      refine List.nodup_cons.mpr ⟨fun hm => ?_, ih'⟩
      obtain ⟨a', ha', hb'⟩ := List.mem_filterMap.mp hm
      exact h1 (h a (by simp) a' (List.mem_cons_of_mem _ ha') b hb hb' ▸ ha')

/-- The offsets of a window of `sd` cells. -/
def InWin1 (sd : ℕ) (t : ℤ) : Prop := -(((sd + 1) / 2 : ℕ) : ℤ) ≤ t ∧ t < sd - (((sd + 1) / 2 : ℕ) : ℤ)

/-- The offset tuples of a window. -/
def InWin (search : List ℕ) (t : List ℤ) : Prop := List.Forall₂ (fun t sd => InWin1 sd t) t search

theorem subCenter_inWin {search is : List ℕ} (h : InGrid search is) :
    InWin search (subCenter is (search.map fun s => (s + 1) / 2)) := by
  induction h with
  | nil => exact List.Forall₂.nil
  | @cons i sd _ _ hi _ ih =>
    refine List.Forall₂.cons ?_ ih
    unfold InWin1
    dsimp only
    constructor <;> omega

theorem exists_inWin {search : List ℕ} {t : List ℤ} (h : InWin search t) :
    ∃ is, InGrid search is ∧ subCenter is (search.map fun s => (s + 1) / 2) = t := by
  induction h with
  | nil => exact ⟨[], List.Forall₂.nil, rfl⟩
  | @cons x sd _ search hx _ ih =>
    obtain ⟨is, h1, h2⟩ := ih
    obtain ⟨a, b⟩ := hx
    refine ⟨(x + ((sd + 1) / 2 : ℕ)).toNat :: is, List.Forall₂.cons (by omega) h1, ?_⟩
    rw [List.map_cons, subCenter_cons, h2]
    congr 1
    omega

theorem subCenter_inj {cs is js : List ℕ} (hi : is.length = cs.length) (hj : js.length = cs.length)
    (h : subCenter is cs = subCenter js cs) : is = js := by
  induction cs generalizing is js with
  | nil =>
    have h1 : is = [] := List.length_eq_zero_iff.mp (by simpa using hi)
    have h2 : js = [] := List.length_eq_zero_iff.mp (by simpa using hj)
    rw [h1, h2]
  | cons c cs ih =>
    match is, js with
    | [], _ => simp at hi
    | _ :: _, [] => simp at hj
    | i :: is, j :: js =>
      rw [subCenter_cons, subCenter_cons, List.cons.injEq] at h
      rw [ih (by simpa using hi) (by simpa using hj) h.2]
      congr 1
      omega

section field
variable {K : Type*} [Field K] [LinearOrder K] [IsStrictOrderedRing K] [FloorRing K]

/-- The dimensions as seen by `correct_index`. -/
def axes (g : List (DAx K)) : List Ax := g.map fun a => ⟨a.n, 0, a.per⟩

/-- The window does not exceed the grid. -/
def Fits (g : List (DAx K)) (search : List ℕ) : Prop :=
  List.Forall₂ (fun sd (a : DAx K) => sd ≤ a.n) search g

theorem axes_n (g : List (DAx K)) : (axes g).map Ax.n = g.map DAx.n := by
  unfold axes; rw [List.map_map]; rfl

theorem axes_length (g : List (DAx K)) : (axes g).length = g.length := by simp [axes]

theorem win1_valid {n sd : ℕ} {per : Bool} (hsd : sd ≤ n) {a t b : ℤ} (ha : 0 ≤ a ∧ a < n) (ht : InWin1 sd t)
    (h : correct1 n per (t + a) = some b) : 0 ≤ b ∧ b < n := by
  obtain ⟨t1, t2⟩ := ht
  unfold correct1 at h
  split_ifs at h <;> simp only [Option.some.injEq] at h <;> omega

theorem win1_unique {n sd : ℕ} {per : Bool} (hsd : sd ≤ n) {a t u b : ℤ} (ht : InWin1 sd t) (hu : InWin1 sd u)
    (h : correct1 n per (t + a) = some b) (h' : correct1 n per (u + a) = some b) : t = u := by
  obtain ⟨t1, t2⟩ := ht
  obtain ⟨u1, u2⟩ := hu
  unfold correct1 at h h'
  split_ifs at h h' <;> simp only [Option.some.injEq] at h h' <;> omega

theorem win_valid {g : List (DAx K)} {search : List ℕ} (hf : Fits g search) {a t b : List ℤ}
    (ha : InG (axes g) a) (ht : InWin search t) (h : Step (axes g) t a b) : InG (axes g) b := by
  induction hf generalizing a t b with
  | nil =>
    cases ha; cases ht
    cases b with
    | nil => exact List.Forall₂.nil
    | cons _ _ => simp [axes, Step] at h
  | @cons sd x search g hsd _ ih =>
    cases ht with
    | @cons t0 _ t _ ht0 ht =>
      cases ha with
      | @cons a0 _ a _ ha0 ha =>
        cases b with
        | nil => simp [axes, Step] at h
        | cons b bs =>
          simp only [axes, List.map_cons, Step] at h
          exact List.Forall₂.cons (win1_valid hsd ha0 ht0 h.1) (ih ha ht h.2)

theorem win_unique {g : List (DAx K)} {search : List ℕ} (hf : Fits g search) {a t u b : List ℤ}
    (ht : InWin search t) (hu : InWin search u) (h : Step (axes g) t a b) (h' : Step (axes g) u a b) : t = u := by
  induction hf generalizing a t u b with
  | nil => cases ht; cases hu; rfl
  | @cons sd x search g hsd _ ih =>
    cases ht with
    | @cons t0 _ t _ ht0 ht =>
      cases hu with
      | @cons u0 _ u _ hu0 hu =>
        cases a with
        | nil => simp [axes, Step] at h
        | cons a as =>
          cases b with
          | nil => simp [axes, Step] at h
          | cons b bs =>
            simp only [axes, List.map_cons, Step] at h h'
            rw [win1_unique hsd ht0 hu0 h.1 h'.1, ih ht hu h.2 h'.2]

theorem InWin.length {search : List ℕ} {t : List ℤ} (h : InWin search t) : t.length = search.length :=
  List.Forall₂.length_eq h

/-- The cells visited by the window search. -/
theorem mem_window {g : List (DAx K)} {search : List ℕ} (hf : Fits g search) {a : List ℤ}
    (ha : InG (axes g) a) {b : List ℕ} (hb : InGrid (g.map DAx.n) b) :
    tupleToLinear (g.map DAx.n) (b.map (↑)) ∈ window g search a ↔
      ∃ t, InWin search t ∧ Step (axes g) t a (b.map (↑)) := by
  have hla : a.length = (axes g).length := List.Forall₂.length_eq ha
  have hlf : search.length = g.length := List.Forall₂.length_eq hf
  unfold window
  rw [List.mem_filterMap]
  constructor
  · rintro ⟨j, hj, h⟩
    rw [List.mem_range] at hj
    have hw := subCenter_inWin (getAddressCM_inGrid search j hj)
    rw [Option.map_eq_some_iff] at h
    obtain ⟨c, h1, h2⟩ := h
    have h1' : Step (axes g) _ a c := (correctIndex_add (by rw [hw.length, hlf, axes_length]) hla).mp h1
    obtain ⟨d, rfl, hd⟩ := (win_valid hf ha hw h1').exists_nat
    rw [axes_n] at hd
    have := tupleToLinear_inj hd hb h2
    subst this
    exact ⟨_, hw, h1'⟩
  · rintro ⟨t, ht, hs⟩
    obtain ⟨is, h1, rfl⟩ := exists_inWin ht
    obtain ⟨j, _, hj, e⟩ := (C24_addresses_inverse search).2 is h1
    refine ⟨j, List.mem_range.mpr hj, ?_⟩
    rw [e, Option.map_eq_some_iff]
    exact ⟨_, (correctIndex_add (by rw [ht.length, hlf, axes_length]) hla).mpr hs, rfl⟩

theorem window_nodup {g : List (DAx K)} {search : List ℕ} (hf : Fits g search) {a : List ℤ}
    (ha : InG (axes g) a) : (window g search a).Nodup := by
  have hla : a.length = (axes g).length := List.Forall₂.length_eq ha
  have hlf : search.length = g.length := List.Forall₂.length_eq hf
  unfold window
  refine nodup_filterMap_on List.nodup_range ?_
  intro i hi j hj l h h'
  rw [List.mem_range] at hi hj
  have wi := subCenter_inWin (getAddressCM_inGrid search i hi)
  have wj := subCenter_inWin (getAddressCM_inGrid search j hj)
  rw [Option.map_eq_some_iff] at h h'
  obtain ⟨c, h1, h2⟩ := h
  obtain ⟨d, h3, h4⟩ := h'
  have s1 : Step (axes g) _ a c := (correctIndex_add (by rw [wi.length, hlf, axes_length]) hla).mp h1
  have s2 : Step (axes g) _ a d := (correctIndex_add (by rw [wj.length, hlf, axes_length]) hla).mp h3
  obtain ⟨c', rfl, hc⟩ := (win_valid hf ha wi s1).exists_nat
  obtain ⟨d', rfl, hd⟩ := (win_valid hf ha wj s2).exists_nat
  rw [axes_n] at hc hd
  have := tupleToLinear_inj hc hd (by rw [h2, h4])
  subst this
  have e := win_unique hf wi wj s1 s2
  have e2 : getAddressCM search i = getAddressCM search j :=
    subCenter_inj (by simp [getAddressCM_length]) (by simp [getAddressCM_length]) e
  have e3 := tupleToLinear_getAddressCM search i hi
  have e4 := tupleToLinear_getAddressCM search j hj
  rw [e2, e4] at e3
  exact_mod_cast e3.symm

/-! ## The specification -/

/-- Spec: the query position is inside the bounds. -/
def InBounds : List (DAx K) → List K → Prop
  | [], [] => True
  | a :: g, x :: xs => (a.lo ≤ x ∧ x < a.hi) ∧ InBounds g xs
  | _, _ => False

/-- Spec: `y` or one of its images is closer than `r` to `x`. -/
def CloserThan (g : List (DAx K)) (r : K) (x y : List K) : Prop := ∃ m, Shift g m ∧ imageSq g m x y < r ^ 2

/-- The window is wide enough in this dimension: the dimension wraps, or the grid has at least `2*ceil(r/w)+3` cells. -/
def Enough (r : K) (a : DAx K) : Prop := a.per = true ∨ 2 * (1 + ⌈r * (1 / a.w)⌉.toNat) + 1 ≤ a.n

theorem InBounds.posOK {g : List (DAx K)} {x : List K} (h : InBounds g x) : PosOK g x := by
  induction g generalizing x with
  | nil => cases x with
    | nil => trivial
    | cons _ _ => exact h.elim
  | cons a g ih => cases x with
    | nil => exact h.elim
    | cons x xs => exact ⟨fun _ => h.1, ih h.2⟩

/-- The displacement computed by `getDisplacement` is that of the nearest image. -/
theorem disp1_min {a : DAx K} (ha : a.Valid) {x y : K} (hx : a.per = true → a.lo ≤ x ∧ x < a.hi)
    (hy : a.per = true → a.lo ≤ y ∧ y < a.hi) :
    (∃ m : ℤ, (a.per = false → m = 0) ∧ disp1 a x y = x - y + m * (a.hi - a.lo)) ∧
    ∀ m : ℤ, (a.per = false → m = 0) → (disp1 a x y) ^ 2 ≤ (x - y + m * (a.hi - a.lo)) ^ 2 := by
  unfold disp1
  by_cases hp : a.per = true
  · have h1 := hx hp
    have h2 := hy hp
    have hL : 0 < a.hi - a.lo := sub_pos.mpr ha.lohi
    have hlt : |x - y| < a.hi - a.lo := by rw [abs_lt]; constructor <;> linarith [h1.1, h1.2, h2.1, h2.2]
    simp only [hp, if_true]
    generalize hd : x - y = d at *
    generalize hLL : a.hi - a.lo = L at *
    have mono : ∀ e : K, |e| ≤ L / 2 → (∃ k : ℤ, e = d + k * L) → ∀ m : ℤ, e ^ 2 ≤ (d + m * L) ^ 2 := by
      rintro e he ⟨k, hk⟩ m
      rw [show d + m * L = e + ((m - k : ℤ) : K) * L by rw [hk]; push_cast; ring]
      generalize m - k = q
      rcases eq_or_ne q 0 with rfl | hq
      · simp
      · have hq1 : (1 : K) ≤ |(q : K)| := by
          have : (1 : ℤ) ≤ |q| := Int.one_le_abs hq
          exact_mod_cast this
        apply sq_le_sq.mpr
        have h3 : |(q : K) * L| ≤ |e + q * L| + |e| := by
          have := abs_sub (e + q * L) e
          rwa [show e + (q : K) * L - e = q * L by ring] at this
        rw [abs_mul, abs_of_pos hL] at h3
        nlinarith
    split_ifs with c1 c2
    · rw [abs_of_pos c2] at c1 hlt ⊢
      refine ⟨⟨-1, by simp, by push_cast; ring⟩, fun m _ => mono _ ?_ ⟨-1, by push_cast; ring⟩ m⟩
      rw [abs_le]; constructor <;> linarith
    · have c2' : d ≤ 0 := not_lt.mp c2
      rw [abs_of_nonpos c2'] at c1 hlt ⊢
      refine ⟨⟨1, by simp, by push_cast; ring⟩, fun m _ => mono _ ?_ ⟨1, by push_cast; ring⟩ m⟩
      rw [abs_le]; constructor <;> linarith
    · refine ⟨⟨0, by simp, by simp⟩, fun m _ => mono _ ?_ ⟨0, by simp⟩ m⟩
      linarith
  · have hp' : a.per = false := by simpa using hp
    simp only [hp', Bool.false_eq_true, if_false]
    exact ⟨⟨0, by simp, by simp⟩, fun m hm => by rw [hm trivial]; simp⟩

theorem dispSq_spec {g : List (DAx K)} (hv : ∀ a ∈ g, a.Valid) {x y : List K} (hx : PosOK g x) (hy : PosOK g y) :
    (∃ m, Shift g m ∧ dispSq g x y = imageSq g m x y) ∧ ∀ m, Shift g m → dispSq g x y ≤ imageSq g m x y := by
  induction g generalizing x y with
  | nil =>
    refine ⟨⟨[], List.Forall₂.nil, ?_⟩, fun m _ => ?_⟩
    · simp [dispSq, imageSq]
    · simp [dispSq, imageSq]
  | cons a g ih =>
    match x, y with
    | [], _ => simp [PosOK] at hx
    | _ :: _, [] => simp [PosOK] at hy
    | x :: xs, y :: ys =>
      obtain ⟨⟨m, hm, e⟩, hmin⟩ := ih (fun b hb => hv b (List.mem_cons_of_mem _ hb)) hx.2 hy.2
      obtain ⟨⟨k, hk, e'⟩, hmin'⟩ := disp1_min (hv a (by simp)) hx.1 hy.1
      refine ⟨⟨k :: m, List.Forall₂.cons hk hm, ?_⟩, fun m' hm' => ?_⟩
      · simp only [dispSq, imageSq, e, e']
      · cases hm' with
        | @cons k' _ m' _ hk' hm' =>
          simp only [dispSq, imageSq]
          exact add_le_add (hmin' k' hk') (hmin m' hm')

theorem closer_iff {g : List (DAx K)} (hv : ∀ a ∈ g, a.Valid) {x y : List K} (hx : PosOK g x) (hy : PosOK g y) (r : K) :
    CloserThan g r x y ↔ dispSq g x y < r ^ 2 := by
  obtain ⟨⟨m, hm, e⟩, hmin⟩ := dispSq_spec hv hx hy
  constructor
  · rintro ⟨m', hm', h⟩
    exact lt_of_le_of_lt (hmin m' hm') h
  · intro h
    exact ⟨m, hm, by rw [← e]; exact h⟩

/-- In range, the raw cell coordinate is the clamped one. -/
theorem raw_eq {a : DAx K} (ha : a.Valid) {x : K} (h : a.lo ≤ x ∧ x < a.hi) :
    trunc ((x - a.lo) * (1 / a.w)) = cellCoord a.axis x ∧
      0 ≤ cellCoord a.axis x ∧ cellCoord a.axis x < a.n := by
  have hw := ha.wpos
  have h0 : 0 ≤ (x - a.lo) / a.w := div_nonneg (by linarith [h.1]) hw.le
  have f0 : 0 ≤ ⌊(x - a.lo) / a.w⌋ := Int.floor_nonneg.mpr h0
  have f1 : ⌊(x - a.lo) / a.w⌋ < a.n := by
    rw [Int.floor_lt, div_lt_iff₀ hw]
    have := ha.tiles
    push_cast
    linarith [h.2]
  rw [mul_one_div, trunc_nonneg h0, cellCoord_eq ha.axis]
  simp only [DAx.axis, Nat.cast_zero, add_zero, sub_zero]
  omega

theorem rawTuple_inG {g : List (DAx K)} (hv : ∀ a ∈ g, a.Valid) {x : List K} (h : InBounds g x) :
    InG (axes g) (rawTuple g x) ∧ rawTuple g x = cellTuple (g.map DAx.axis) x := by
  induction g generalizing x with
  | nil =>
    cases x with
    | nil => exact ⟨List.Forall₂.nil, rfl⟩
    | cons _ _ => exact h.elim
  | cons a g ih =>
    cases x with
    | nil => exact h.elim
    | cons x xs =>
      obtain ⟨h1, h2⟩ := ih (fun b hb => hv b (List.mem_cons_of_mem _ hb)) h.2
      obtain ⟨e1, e2, e3⟩ := raw_eq (hv a (by simp)) h.1
      constructor
      · exact List.Forall₂.cons (by rw [e1]; exact ⟨e2, e3⟩) h1
      · simp only [rawTuple, List.map_cons, cellTuple, e1, h2]

/-- One dimension: the window contains every cell in which a close particle can be. -/
theorem win1_cover {n s : ℕ} {per : Bool} (h : per = true ∨ 2 * (1 + s) + 1 ≤ n) {a b : ℤ}
    (ha : 0 ≤ a ∧ a < n) (hb : 0 ≤ b ∧ b < n) (hN : Near1 ⟨n, s, per⟩ a b) :
    ∃ t, InWin1 (min (2 * (1 + s) + 1) n) t ∧ correct1 n per (t + a) = some b := by
  by_cases hs : 2 * (1 + s) + 1 ≤ n
  · rw [min_eq_left hs]
    obtain ⟨t, ht, hc⟩ := (near1_iff (x := ⟨n, s, per⟩) (fun _ => by simp only; omega) ha hb).mp hN
    simp only at ht hc
    rw [abs_le] at ht
    refine ⟨t, ⟨by omega, by omega⟩, by rw [add_comm]; exact hc⟩
  · have hper : per = true := h.resolve_right hs
    rw [min_eq_right (by omega)]
    subst hper
    by_cases h1 : b - a < -(((n + 1) / 2 : ℕ) : ℤ)
    · refine ⟨b - a + n, ⟨by omega, by omega⟩, ?_⟩
      simp only [correct1, if_true]
      rw [if_pos (by omega)]; congr 1; omega
    · by_cases h2 : b - a < n - (((n + 1) / 2 : ℕ) : ℤ)
      · refine ⟨b - a, ⟨by omega, h2⟩, ?_⟩
        simp only [correct1]
        rw [if_neg (by omega), if_neg (by omega)]; congr 1; omega
      · refine ⟨b - a - n, ⟨by omega, by omega⟩, ?_⟩
        simp only [correct1, if_true]
        rw [if_neg (by omega), if_pos (by omega)]; congr 1; omega

/-- `⌈r*(1/w)⌉` is the sweep that belongs to the query radius. -/
theorem sweep_eq (r w : K) : ⌈r * (1 / w)⌉.toNat = sweepOf r w := by rw [mul_one_div]; rfl

theorem win_cover {g : List (DAx K)} (hv : ∀ a ∈ g, a.Valid) {r : K} (hr : 0 ≤ r) (he : ∀ a ∈ g, Enough r a)
    {x y : List K} (hx : InBounds g x) (hy : PosOK g y) {m : List ℤ} (hm : Shift g m)
    (h : imageSq g m x y < r ^ 2) :
    ∃ t, InWin (g.map fun a => min (2 * (1 + ⌈r * (1 / a.w)⌉.toNat) + 1) a.n) t ∧
      Step (axes g) t (rawTuple g x) (cellTuple (g.map DAx.axis) y) := by
  induction g generalizing x y m with
  | nil =>
    cases x with
    | nil => cases y with
      | nil => exact ⟨[], List.Forall₂.nil, trivial⟩
      | cons _ _ => exact hy.elim
    | cons _ _ => exact hx.elim
  | cons a g ih =>
    cases hm with
    | @cons k _ m _ hk hm =>
      match x, y with
      | [], _ => exact hx.elim
      | _ :: _, [] => exact hy.elim
      | x :: xs, y :: ys =>
        have hva := hv a (by simp)
        simp only [imageSq] at h
        have hn := imageSq_nonneg g m xs ys
        have hsq : 0 ≤ (x - y + k * (a.hi - a.lo)) ^ 2 := sq_nonneg _
        obtain ⟨t, h1, h2⟩ := ih (fun b hb => hv b (List.mem_cons_of_mem _ hb))
          (fun b hb => he b (List.mem_cons_of_mem _ hb)) hx.2 hy.2 hm (by linarith)
        have hN := near_of_close hva hk (fun _ => hx.1) hy.1 (abs_lt_of_sq_add_lt hr hn h)
        obtain ⟨e1, e2, e3⟩ := raw_eq hva hx.1
        obtain ⟨j, hj, hbj⟩ := cellCoord_belongs hva.axis y
        have hjn : (0 : ℤ) ≤ cellCoord a.axis y ∧ cellCoord a.axis y < a.n := by
          have := hbj.2.1
          simp only [DAx.axis] at this
          rw [hj]
          constructor <;> omega
        have hE := he a (by simp)
        unfold Enough at hE
        simp only [sweep_eq] at hE ⊢
        obtain ⟨t0, ht0, hc0⟩ := win1_cover hE ⟨e2, e3⟩ hjn hN
        refine ⟨t0 :: t, List.Forall₂.cons ht0 ?_, ?_, h2⟩
        · simp only [sweep_eq] at h1; exact h1
        · rw [e1]; exact hc0

/-- **C30 (partial).** In every system built by the domain with positions inside the wrapping dimensions, for every
query position inside the bounds and every radius `r`: if every dimension wraps or has at least `2*ceil(r/w)+3` cells,
then `getAllWithin` returns, each exactly once, precisely the live particles (of interacting types) other than the
excluded one that are closer than `r`, images included.
Missing: dimensions that do not wrap and have fewer cells; there neighbours are missed (`C30_negation`). -/
theorem C30_all_within_partial (S : Sys K) (hv : ∀ a ∈ S.g, a.Valid) (hpos : ∀ j, S.Live j → PosOK S.g (S.x j))
    (X : List K) (hX : InBounds S.g X) (excl : Option ℕ) (r : K) (hr : 0 ≤ r) (he : ∀ a ∈ S.g, Enough r a) :
    (S.allWithin X excl r).Nodup ∧
    ∀ j, j ∈ S.allWithin X excl r ↔ S.Live j ∧ some j ≠ excl ∧ CloserThan S.g r X (S.x j) := by
  obtain ⟨hin, _⟩ := rawTuple_inG hv hX
  have hfit : Fits S.g (S.withinSearch r) := by
    unfold Fits Sys.withinSearch
    rw [List.forall₂_map_left_iff, List.forall₂_same]
    intro a _
    exact min_le_right _ _
  constructor
  · unfold Sys.allWithin
    rw [List.nodup_flatMap]
    constructor
    · intro c _
      exact ((cell_sorted S c).imp ne_of_lt).filter _
    · refine (window_nodup hfit hin).imp ?_
      intro c d hcd i hi hi'
      rw [List.mem_filter, mem_cell] at hi hi'
      exact hcd (by rw [← hi.1.2, ← hi'.1.2])
  · intro j
    unfold Sys.allWithin
    simp only [List.mem_flatMap, List.mem_filter, Bool.and_eq_true, decide_eq_true_eq, mem_cell]
    constructor
    · rintro ⟨c, _, ⟨hj, _⟩, h1, h2⟩
      exact ⟨hj, h1, (closer_iff hv hX.posOK (hpos j hj) r).mpr h2⟩
    · rintro ⟨hj, h1, h2⟩
      refine ⟨S.cellOf j, ?_, ⟨hj, rfl⟩, h1, (closer_iff hv hX.posOK (hpos j hj) r).mp h2⟩
      obtain ⟨m, hm, h⟩ := h2
      have hdims : (S.g.map DAx.axis).map Axis.dim = S.g.map DAx.n := by rw [List.map_map]; rfl
      obtain ⟨t, ht, hs⟩ := win_cover hv hr he hX (hpos j hj) hm h
      have hvalid := win_valid hfit hin ht hs
      obtain ⟨b, hb, hbg⟩ := hvalid.exists_nat
      rw [axes_n] at hbg
      rw [Sys.cellOf, cellIndex, hdims, hb]
      exact (mem_window hfit hin hbg).mpr ⟨t, ht, by rw [← hb]; exact hs⟩

end field

/-! ## Witnesses -/

/-- Two particles in a closed (not wrapping) box of side 4 with four cells, at 0.9 and 2.1. -/
def sysWithin (n : ℕ) (hi : ℚ) (per : Bool) : Sys ℚ :=
  { g := [⟨0, hi, n, 1, per⟩], number := 2, x := fun i => if i = 0 then [9/10] else [21/10], rd := fun _ => 1/2,
    type := fun _ => 0, interacts := fun _ => true, cut := fun _ _ => 1, maxCut := fun _ => 1, mss := 1/2, skin := 0 }

/-- The hypotheses of `C30_all_within_partial` are met by a system of ten cells, where the neighbour is found. -/
example : (∀ a ∈ (sysWithin 10 10 false).g, a.Valid ∧ Enough (3/2) a) ∧ InBounds (sysWithin 10 10 false).g [9/10] ∧
    (sysWithin 10 10 false).allWithin [9/10] (some 0) (3/2) = [1] := by
  refine ⟨?_, ?_, by decide +kernel⟩
  · intro a ha
    simp only [sysWithin, List.mem_cons, List.not_mem_nil, or_false] at ha
    subst ha
    refine ⟨⟨by norm_num, by norm_num, by norm_num, by norm_num⟩, Or.inr ?_⟩
    have : ⌈(3/2 : ℚ) * (1 / 1)⌉ = 2 := by rw [Int.ceil_eq_iff]; norm_num
    rw [this]
    decide
  · simp [sysWithin, InBounds]; norm_num

/-- **C30 is false of the code** on a box with four cells that does not wrap: the particle at 2.1 is within 1.5 of the
one at 0.9, and is not found. -/
theorem C30_negation :
    CloserThan (sysWithin 4 4 false).g (3/2) [9/10] ((sysWithin 4 4 false).x 1) ∧ (sysWithin 4 4 false).Live 1 ∧
    (sysWithin 4 4 false).allWithin [9/10] (some 0) (3/2) = [] := by
  refine ⟨⟨[0], ?_, ?_⟩, ⟨by decide, by decide, rfl⟩, by decide +kernel⟩
  · exact List.Forall₂.cons (by simp) List.Forall₂.nil
  · simp [sysWithin, imageSq]; norm_num

end Verif.Cells
