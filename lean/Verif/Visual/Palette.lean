import Mathlib.Algebra.Order.Floor.Ring
import Mathlib.Algebra.Order.Field.Basic
import Mathlib.Data.Rat.Floor
import Mathlib.Data.Set.Card
import Mathlib.Data.Rat.Defs
import Mathlib.Algebra.Order.Ring.Rat
import Mathlib.Tactic.Linarith
import Mathlib.Tactic.Ring
import Mathlib.Tactic.FieldSimp
import Mathlib.Tactic.Positivity

/-!
# Drawing on palettes (C131-C134)

Models `visualization/palette.cpp`: the image with depths, palettes that own a part of an image, discs, and the counting of references. Colours are elements of any
type, coordinates of an ordered field with floor. Access outside of an array and use of freed memory is `none`; the exception `BadPalette` is `none` in
functions that make palettes. A colour function is `K → K → Option C`: it returns no colour if it sets its flag to false (every colour function of the program
sets the flag or leaves it true). Not modelled: the bitmap file.
-/

namespace Verif.Palette

variable {C : Type} {K : Type} [Field K] [LinearOrder K] [IsStrictOrderedRing K] [FloorRing K]

/-- `Image`, `visualization/palette.hpp:94-117`: for each index the colour and depth, if it is set. -/
structure Image (C K : Type) where
  w : ℤ
  h : ℤ
  px : ℤ → Option (C × K)

/-- The constructor `Image(w, h)`, `visualization/palette.cpp:15-28`. -/
def Image.new (w h : ℤ) : Image C K := ⟨w, h, fun _ => none⟩

/-- The blend function: the closest colour, `visualization/palette.cpp:24-27`. -/
def blend (old new : C × K) : C × K := (if old.2 > new.2 then new.1 else old.1, if old.2 > new.2 then new.2 else old.2)

/-- The branches of `Image::set`, `visualization/palette.cpp:37-43`: the entry of a pixel after drawing on it. -/
def mix (o : Option (C × K)) (new : C × K) : Option (C × K) :=
  match o with
  | none => some new
  | some old => some (blend old new)

/-- `Image::set`, `visualization/palette.cpp:36-44`. -/
def Image.set (im : Image C K) (x y : ℤ) (c : C) (d : K) : Option (Image C K) :=
  if 0 ≤ x + im.w * y ∧ x + im.w * y < im.w * im.h then
    some { im with px := Function.update im.px (x + im.w * y) (mix (im.px (x + im.w * y)) (c, d)) }
  else none

/-- `Image::setBMP`, `visualization/palette.cpp:53-59`: the colour of a pixel of the bitmap. -/
def Image.bmp (im : Image C K) (bg : C) (x y : ℤ) : C := ((im.px (x + im.w * y)).map Prod.fst).getD bg

/-- `Palette`, `visualization/palette.hpp:270-300`: the owned pixels `l ≤ x < r`, `b ≤ y < t` (in rows from the top), the size of the image (`bounds[1]`,
`bounds[3]`; the other two are 0), the size in space, if it was set. -/
structure Pal (K : Type) where
  l : ℤ
  r : ℤ
  b : ℤ
  t : ℤ
  W : ℤ
  H : ℤ
  space : Option (K × K)

/-- The constructor, `visualization/palette.cpp:64-83`. -/
def Pal.new (w h : ℤ) : Option (Pal K) := if w ≤ 0 ∨ h ≤ 0 then none else some ⟨0, w, 0, h, w, h, some (1, h / w)⟩

/-- `getWidth`, `visualization/palette.cpp:349-351`. -/
def Pal.wd (p : Pal K) : ℤ := p.r - p.l

/-- `getHeight`, `visualization/palette.cpp:353-355`. -/
def Pal.ht (p : Pal K) : ℤ := p.t - p.b

/-- `setSpaceBounds`, `visualization/palette.cpp:361-364`. -/
def Pal.setSpace (p : Pal K) (w h : K) : Pal K := { p with space := some (w, h) }

/-- `getSubPalette` by pixels and the private constructor, `visualization/palette.cpp:183-193, 366-383`: the size in space is not set. -/
def Pal.sub (p : Pal K) (mx Mx my My : ℤ) : Option (Pal K) :=
  if Mx < mx ∨ My < my then none
  else
    let mx' := if mx < 0 then 0 else if mx ≥ p.wd then p.wd else mx
    let my' := if my < 0 then 0 else if my > p.ht then p.ht else my
    if p.l + Mx ≤ p.l + mx' ∨ p.b + My ≤ p.b + my' then none
    else some ⟨p.l + mx', p.l + Mx, p.b + my', p.b + My, p.W, p.H, none⟩

/-- Conversion of a floating point number to `int`. -/
def trunc (x : K) : ℤ := if 0 ≤ x then ⌊x⌋ else ⌈x⌉

/-- `getSubPalette` by factors, `visualization/palette.cpp:195-202`. -/
def Pal.subF (p : Pal K) (mx Mx my My : K) : Option (Pal K) :=
  p.sub (trunc (mx * p.wd)) (trunc (Mx * p.wd)) (trunc (my * p.ht)) (trunc (My * p.ht))

/-- `getSubPaletteCentered`, `visualization/palette.cpp:204-208`. -/
def Pal.centered (p : Pal K) (f : K) : Option (Pal K) :=
  if f ≥ 1 / 2 then none
  else p.sub (trunc (p.wd * f)) (p.wd - trunc (p.wd * f)) (trunc (p.wd * f)) (p.ht - trunc (p.wd * f))

/-- `getMaxCenteredSubPalette`, `visualization/palette.cpp:210-227`: the native ratio is a quotient of integers. -/
def Pal.maxCentered (p : Pal K) (rx ry : K) : Option (Pal K) :=
  if rx ≤ 0 ∨ ry ≤ 0 then none
  else if ((p.wd.tdiv p.ht : ℤ) : K) < rx / ry then
    let gap := (p.ht - trunc ((p.wd : K) / (rx / ry))).tdiv 2
    p.sub 0 p.wd gap (p.ht - gap)
  else
    let gap := (p.wd - trunc (rx / ry * p.ht)).tdiv 2
    p.sub gap (p.wd - gap) 0 p.ht

/-- One call of `setPixel`: column and row of the palette (rows from below), colour and depth. -/
structure Dot (C K : Type) where
  x : ℤ
  y : ℤ
  c : C
  d : K

/-- `setPixel`, `visualization/palette.cpp:446-454`. -/
def Pal.setPixel (p : Pal K) (o : Dot C K) (im : Image C K) : Option (Image C K) :=
  if o.x + p.l < 0 ∨ p.W ≤ o.x + p.l ∨ p.t - o.y - 1 < 0 ∨ p.H ≤ p.t - o.y - 1 then some im
  else im.set (o.x + p.l) (p.t - o.y - 1) o.c o.d

/-- `coverPalette`, `visualization/palette.cpp:336-341`: the calls of `setPixel`. -/
def Pal.cover (p : Pal K) (c : C) (depth : K) : List (Dot C K) :=
  (List.range p.ht.toNat).flatMap fun y : ℕ => (List.range p.wd.toNat).map fun x : ℕ => ⟨(x : ℤ), (y : ℤ), c, depth⟩

/-- `pixelPositionX`, `visualization/palette.cpp:420-423, 434-436`: `n` is the number of pixels of the palette, `len` its length in space. -/
def pixelPosition (n : ℤ) (len : K) (x : ℤ) : K := (x : K) / ((n + 1 : ℤ) : K) * len

/-- The wrapping of one coordinate, `visualization/palette.cpp:262-263`. -/
def wrap1 (w a : ℤ) : ℤ :=
  let a := if a ≥ w then a - w else a
  if a < 0 then a + w else a

/-- The pairs `(dx, dy)` of the two loops, `visualization/palette.cpp:246-247`. -/
def offsets (dpx dpy : ℤ) : List (ℤ × ℤ) :=
  (List.range (2 * dpy + 1).toNat).flatMap fun j : ℕ => (List.range (2 * dpx + 1).toNat).map fun i : ℕ => (-dpx + (i : ℤ), -dpy + (j : ℤ))

/-- `drawCircle`, `visualization/palette.cpp:229-273`: the calls of `setPixel`; `none` if the size in space was not set. -/
def Pal.circle (p : Pal K) (x y r : K) (colorF : K → K → Option C) (wrap : Bool) (depth : K) : Option (List (Dot C K)) :=
  p.space.map fun s =>
    let cx := (p.wd : K) / s.1
    let cy := (p.ht : K) / s.2
    let dpx := ⌈r * cx⌉
    let dpy := ⌈r * cy⌉
    (offsets dpx dpy).filterMap fun o =>
      if ((o.1 : K) * (1 / cx)) ^ 2 + ((o.2 : K) * (1 / cy)) ^ 2 ≤ r ^ 2 then
        let a := trunc (x * cx) + o.1
        let b := trunc (y * cy) + o.2
        let col := if min dpx dpy < 3 then colorF 0 0
          else colorF ((pixelPosition p.wd s.1 a - x) / r) ((pixelPosition p.ht s.2 b - y) / r)
        if 0 ≤ a ∧ a < p.wd ∧ 0 ≤ b ∧ b < p.ht then col.map fun c => ⟨a, b, c, depth⟩
        else if wrap then col.map fun c => ⟨wrap1 p.wd a, wrap1 p.ht b, c, 0⟩
        else none
      else none

/-- Calls of `setPixel` of several palettes of one image, in order. -/
def draw (l : List (Pal K × Dot C K)) (im : Image C K) : Option (Image C K) := l.foldlM (fun im o => o.1.setPixel o.2 im) im

/-! ## Specification -/

/-- The palette is a part of the image. -/
def Pal.Of (p : Pal K) (im : Image C K) : Prop := p.W = im.w ∧ p.H = im.h

/-- The pixel of the image (column and row from the top) at position `(x, y)` of the palette, where rows are counted from below. -/
def Pal.at (p : Pal K) (x y : ℤ) : ℤ × ℤ := (x + p.l, p.t - 1 - y)

/-- What is to be seen if these colours with depths are drawn at one pixel, in this order: the closest, and the first of them. -/
def Seen (l : List (C × K)) (o : Option (C × K)) : Prop :=
  (l = [] ∧ o = none) ∨ ∃ k, ∃ h : k < l.length, o = some l[k] ∧ (∀ j (hj : j < l.length), j < k → l[k].2 < l[j].2) ∧
    ∀ j (hj : j < l.length), k ≤ j → l[k].2 ≤ l[j].2

/-- The colours drawn at one pixel of the image. -/
def hits (X Y : ℤ) (l : List (Pal K × Dot C K)) : List (C × K) :=
  l.filterMap fun o => if o.1.at o.2.x o.2.y = (X, Y) then some (o.2.c, o.2.d) else none

/-- A palette is part of another one. -/
def Pal.Inside (q p : Pal K) : Prop := p.l ≤ q.l ∧ q.l < q.r ∧ q.r ≤ p.r ∧ p.b ≤ q.b ∧ q.b < q.t ∧ q.t ≤ p.t ∧ q.W = p.W ∧ q.H = p.H

/-- The pixel of the image is one that the palette owns. -/
def Pal.Owns (p : Pal K) (X Y : ℤ) : Prop := p.l ≤ X ∧ X < p.r ∧ p.b ≤ Y ∧ Y < p.t

/-- The palette lies in its image. -/
def Pal.Ok (p : Pal K) : Prop := 0 ≤ p.l ∧ p.l < p.r ∧ p.r ≤ p.W ∧ 0 ≤ p.b ∧ p.b < p.t ∧ p.t ≤ p.H

/-! ## Lemmas -/

theorem index_inj (w X Y X' Y' : ℤ) (h1 : 0 ≤ X) (h2 : X < w) (h3 : 0 ≤ X') (h4 : X' < w) (h : X + w * Y = X' + w * Y') : X = X' ∧ Y = Y' := by
  have hw : 0 < w := by omega
  have e1 : (X + w * Y) / w = Y := by rw [Int.add_mul_ediv_left _ _ hw.ne', Int.ediv_eq_zero_of_lt h1 h2, zero_add]
  have e2 : (X' + w * Y') / w = Y' := by rw [Int.add_mul_ediv_left _ _ hw.ne', Int.ediv_eq_zero_of_lt h3 h4, zero_add]
  have e3 : Y = Y' := by rw [← e1, h, e2]
  subst e3
  exact ⟨by omega, rfl⟩

theorem index_range (w h X Y : ℤ) (h1 : 0 ≤ X) (h2 : X < w) (h3 : 0 ≤ Y) (h4 : Y < h) : 0 ≤ X + w * Y ∧ X + w * Y < w * h := by
  have hw : 0 < w := by omega
  constructor
  · positivity
  · have : w * (Y + 1) ≤ w * h := Int.mul_le_mul_of_nonneg_left (by omega) hw.le
    rw [mul_add, mul_one] at this
    omega

theorem seen_snoc (l : List (C × K)) (o : Option (C × K)) (a : C × K) (h : Seen l o) :
    Seen (l ++ [a]) (mix o a) := by
  rcases h with ⟨rfl, rfl⟩ | ⟨k, hk, rfl, h1, h2⟩
  · refine Or.inr ⟨0, by simp, by simp [mix], by simp, ?_⟩
    intro j hj _
    have : j = 0 := by simpa using hj
    subst this
    exact le_refl _
  · right
    simp only [mix]
    by_cases hd : l[k].2 > a.2
    · refine ⟨l.length, by simp, by simp [blend, hd], ?_, ?_⟩
      · intro j hj hjl
        rw [List.getElem_append_left hjl, List.getElem_append_right (le_refl _)]
        simp only [Nat.sub_self, List.getElem_singleton]
        rcases Nat.lt_or_ge j k with h | h
        · exact lt_trans hd (h1 j hjl h)
        · exact lt_of_lt_of_le hd (h2 j hjl h)
      · intro j hj hjl
        have : j = l.length := by
          simp at hj
          omega
        subst this
        exact le_refl _
    · refine ⟨k, by simp; omega, by rw [List.getElem_append_left hk]; simp [blend, hd], ?_, ?_⟩
      · intro j hj hjl
        rw [List.getElem_append_left hk, List.getElem_append_left (by omega)]
        exact h1 j _ hjl
      · intro j hj hjl
        rw [List.getElem_append_left hk]
        rcases Nat.lt_or_ge j l.length with h | h
        · rw [List.getElem_append_left h]
          exact h2 j h hjl
        · rw [List.getElem_append_right h]
          simp only [List.getElem_singleton]
          exact not_lt.mp hd

theorem setPixel_spec (p : Pal K) (o : Dot C K) (im : Image C K) (hp : p.Of im) : ∃ im', p.setPixel o im = some im' ∧ im'.w = im.w ∧ im'.h = im.h ∧
    ∀ X Y, 0 ≤ X → X < im.w → 0 ≤ Y → Y < im.h → im'.px (X + im.w * Y) =
      if p.at o.x o.y = (X, Y) then mix (im.px (X + im.w * Y)) (o.c, o.d)
      else im.px (X + im.w * Y) := by
  unfold Pal.setPixel
  obtain ⟨hw, hh⟩ := hp
  by_cases h : o.x + p.l < 0 ∨ p.W ≤ o.x + p.l ∨ p.t - o.y - 1 < 0 ∨ p.H ≤ p.t - o.y - 1
  · rw [if_pos h]
    refine ⟨im, rfl, rfl, rfl, fun X Y h1 h2 h3 h4 => ?_⟩
    rw [if_neg]
    unfold Pal.at
    rw [Prod.mk.injEq]
    omega
  · rw [if_neg h]
    push Not at h
    obtain ⟨a1, a2, a3, a4⟩ := h
    unfold Image.set
    rw [if_pos (index_range _ _ _ _ a1 (by omega) a3 (by omega))]
    refine ⟨_, rfl, rfl, rfl, fun X Y h1 h2 h3 h4 => ?_⟩
    simp only
    by_cases e : p.at o.x o.y = (X, Y)
    · rw [if_pos e]
      unfold Pal.at at e
      rw [Prod.mk.injEq] at e
      have e1 : o.x + p.l = X := e.1
      have e2 : p.t - o.y - 1 = Y := by omega
      rw [e1, e2, Function.update_self]
    · rw [if_neg e, Function.update_of_ne]
      intro e'
      apply e
      obtain ⟨b1, b2⟩ := index_inj _ _ _ _ _ h1 h2 a1 (by omega) e'
      unfold Pal.at
      rw [Prod.mk.injEq]
      omega

theorem draw_go (l : List (Pal K × Dot C K)) (im : Image C K) (hl : ∀ o ∈ l, o.1.Of im) (before : ℤ → ℤ → List (C × K))
    (hb : ∀ X Y, 0 ≤ X → X < im.w → 0 ≤ Y → Y < im.h → Seen (before X Y) (im.px (X + im.w * Y))) :
    ∃ im', draw l im = some im' ∧ im'.w = im.w ∧ im'.h = im.h ∧
      ∀ X Y, 0 ≤ X → X < im.w → 0 ≤ Y → Y < im.h → Seen (before X Y ++ hits X Y l) (im'.px (X + im.w * Y)) := by
  induction l generalizing im before with
  | nil => exact ⟨im, rfl, rfl, rfl, by simpa [hits] using hb⟩
  | cons o l ih =>
    obtain ⟨im1, e1, ew, eh, e2⟩ := setPixel_spec o.1 o.2 im (hl o (by simp))
    obtain ⟨im', e3, ew', eh', e4⟩ := ih im1 (fun q hq => by
      have := hl q (by simp [hq])
      exact ⟨this.1.trans ew.symm, this.2.trans eh.symm⟩) (fun X Y => before X Y ++ hits X Y [o]) (by
        intro X Y h1 h2 h3 h4
        rw [ew] at h2 ⊢
        rw [eh] at h4
        rw [e2 X Y h1 h2 h3 h4]
        have hs := hb X Y h1 h2 h3 h4
        by_cases e : o.1.at o.2.x o.2.y = (X, Y)
        · rw [if_pos e]
          simpa [hits, e] using seen_snoc _ _ (o.2.c, o.2.d) hs
        · rw [if_neg e]
          simpa [hits, e] using hs)
    refine ⟨im', ?_, ew'.trans ew, eh'.trans eh, ?_⟩
    · unfold draw at e3 ⊢
      rw [List.foldlM_cons, e1]
      exact e3
    · intro X Y h1 h2 h3 h4
      have := e4 X Y h1 (by omega) h3 (by omega)
      rw [ew] at this
      have eq : hits X Y (o :: l) = hits X Y [o] ++ hits X Y l := by
        unfold hits
        rw [← List.filterMap_append]
        rfl
      rw [eq, ← List.append_assoc]
      exact this

theorem mem_offsets (dpx dpy a b : ℤ) : (a, b) ∈ offsets dpx dpy ↔ -dpx ≤ a ∧ a ≤ dpx ∧ -dpy ≤ b ∧ b ≤ dpy := by
  unfold offsets
  simp only [List.mem_flatMap, List.mem_range, List.mem_map, Prod.mk.injEq]
  constructor
  · rintro ⟨j, hj, i, hi', rfl, rfl⟩
    omega
  · rintro ⟨h1, h2, h3, h4⟩
    exact ⟨(b + dpy).toNat, by omega, (a + dpx).toNat, by omega, by omega, by omega⟩

theorem trunc_nonneg (x : K) (h : 0 ≤ x) : trunc x = ⌊x⌋ := if_pos h

theorem le_of_disc (u r c v : K) (n : ℤ) (hr : 0 ≤ r) (hc : 0 < c) (e : u = (n : K) * (1 / c)) (h : u ^ 2 + v ^ 2 ≤ r ^ 2) :
    -⌈r * c⌉ ≤ n ∧ n ≤ ⌈r * c⌉ := by
  have hu : u ^ 2 ≤ r ^ 2 := by nlinarith [sq_nonneg v]
  have h2 := abs_le.mp (abs_le_of_sq_le_sq hu hr)
  have e3 : (n : K) = u * c := by
    rw [e]
    field_simp
  have h4 : (n : K) ≤ r * c := by
    rw [e3]
    exact mul_le_mul_of_nonneg_right h2.2 hc.le
  have h5 : -(r * c) ≤ (n : K) := by
    rw [e3, ← neg_mul]
    exact mul_le_mul_of_nonneg_right h2.1 hc.le
  have h6 := Int.le_ceil (r * c)
  constructor
  · have : ((-⌈r * c⌉ : ℤ) : K) ≤ (n : K) := by
      push_cast
      linarith
    exact_mod_cast this
  · have : (n : K) ≤ ((⌈r * c⌉ : ℤ) : K) := by linarith
    exact_mod_cast this

/-! ## C131: pixels -/

/-- C131: whatever is drawn on palettes of one image, in whatever place, no access is outside of the arrays, and each pixel shows the closest colour drawn on it,
the first one if several are as close. -/
theorem C131_pixels (w h : ℤ) (l : List (Pal K × Dot C K)) (hl : ∀ o ∈ l, o.1.W = w ∧ o.1.H = h) :
    ∃ im, draw l (Image.new w h) = some im ∧ im.w = w ∧ im.h = h ∧
      ∀ X Y, 0 ≤ X → X < w → 0 ≤ Y → Y < h → Seen (hits X Y l) (im.px (X + w * Y)) := by
  obtain ⟨im, e, ew, eh, hs⟩ := draw_go l (Image.new w h) hl (fun _ _ => []) fun X Y _ _ _ _ => Or.inl ⟨rfl, rfl⟩
  exact ⟨im, e, ew, eh, by simpa [Image.new] using hs⟩

/-- C131: what is seen is determined by the list. -/
theorem C131_unique (l : List (C × K)) (o o' : Option (C × K)) (h : Seen l o) (h' : Seen l o') : o = o' := by
  rcases h with ⟨rfl, rfl⟩ | ⟨k, hk, rfl, h1, h2⟩
  · rcases h' with ⟨_, rfl⟩ | ⟨k', hk', _⟩
    · rfl
    · simp at hk'
  · rcases h' with ⟨rfl, _⟩ | ⟨k', hk', rfl, h1', h2'⟩
    · simp at hk
    · have : k = k' := by
        rcases Nat.lt_trichotomy k k' with hh | hh | hh
        · exact absurd (h1' k hk hh) (not_lt.mpr (h2 k' hk' hh.le))
        · exact hh
        · exact absurd (h1 k' hk' hh) (not_lt.mpr (h2' k hk hh.le))
      subst this
      rfl

/-- C131: a pixel on which nothing is drawn has the background colour in the bitmap; one on which something is drawn has that colour. -/
theorem C131_bitmap (w h : ℤ) (l : List (Pal K × Dot C K)) (hl : ∀ o ∈ l, o.1.W = w ∧ o.1.H = h) (im : Image C K) (hd : draw l (Image.new w h) = some im)
    (bg : C) (X Y : ℤ) (h1 : 0 ≤ X) (h2 : X < w) (h3 : 0 ≤ Y) (h4 : Y < h) :
    (hits X Y l = [] → im.bmp bg X Y = bg) ∧ (hits X Y l ≠ [] → ∃ d, (im.bmp bg X Y, d) ∈ hits X Y l ∧ ∀ a ∈ hits X Y l, d ≤ a.2) := by
  obtain ⟨im', e, ew, eh, hs⟩ := C131_pixels w h l hl
  rw [hd, Option.some.injEq] at e
  subst e
  have hs := hs X Y h1 h2 h3 h4
  unfold Image.bmp
  rw [ew]
  rcases hs with ⟨e1, e2⟩ | ⟨k, hk, e2, a1, a2⟩
  · exact ⟨fun _ => by rw [e2]; rfl, fun hh => absurd e1 hh⟩
  · refine ⟨fun hh => by rw [hh] at hk; simp at hk, fun _ => ⟨(hits X Y l)[k].2, ?_, ?_⟩⟩
    · rw [e2]
      exact List.getElem_mem hk
    · intro a ha
      obtain ⟨j, hj, rfl⟩ := List.mem_iff_getElem.mp ha
      rcases Nat.lt_or_ge j k with hh | hh
      · exact (a1 j hj hh).le
      · exact a2 j hj hh

/-- C131: covering a palette colours each pixel it owns, and no other. -/
theorem C131_cover (p : Pal K) (c : C) (depth : K) (X Y : ℤ) :
    (p.Owns X Y → hits X Y ((p.cover c depth).map fun o => (p, o)) = [(c, depth)]) ∧
    (¬ p.Owns X Y → hits X Y ((p.cover c depth).map fun o => (p, o)) = []) := by
  have key : ∀ (n m : ℕ) (x0 y0 : ℤ), ((List.range n).flatMap fun y : ℕ => (List.range m).map fun x : ℕ => (⟨x, y, c, depth⟩ : Dot C K)).filterMap
      (fun o => if o.x = x0 ∧ o.y = y0 then some (o.c, o.d) else none) = if 0 ≤ x0 ∧ x0 < m ∧ 0 ≤ y0 ∧ y0 < n then [(c, depth)] else [] := by
    intro n m x0 y0
    have row : ∀ (y : ℕ) (m : ℕ), ((List.range m).map fun x : ℕ => (⟨x, y, c, depth⟩ : Dot C K)).filterMap
        (fun o => if o.x = x0 ∧ o.y = y0 then some (o.c, o.d) else none) = if 0 ≤ x0 ∧ x0 < m ∧ (y : ℤ) = y0 then [(c, depth)] else [] := by
      intro y m
      induction m with
      | zero =>
        rw [if_neg (by omega)]
        simp
      | succ m ih =>
        rw [List.range_succ, List.map_append, List.filterMap_append, ih]
        by_cases h1 : (m : ℤ) = x0 ∧ (y : ℤ) = y0
        · rw [if_neg (by omega), if_pos (by omega)]
          simp [h1]
        · have : (List.map (fun x : ℕ => (⟨x, y, c, depth⟩ : Dot C K)) [m]).filterMap
              (fun o => if o.x = x0 ∧ o.y = y0 then some (o.c, o.d) else none) = [] := by
            simp only [List.map_cons, List.map_nil, List.filterMap_cons, List.filterMap_nil]
            rw [if_neg h1]
          rw [this, List.append_nil]
          by_cases h2 : 0 ≤ x0 ∧ x0 < m ∧ (y : ℤ) = y0
          · rw [if_pos h2, if_pos (by omega)]
          · rw [if_neg h2, if_neg (by omega)]
    induction n with
    | zero =>
      rw [if_neg (by omega)]
      simp
    | succ n ih =>
      rw [List.range_succ, List.flatMap_append, List.filterMap_append, ih]
      simp only [List.flatMap_cons, List.flatMap_nil, List.append_nil]
      rw [row]
      by_cases h1 : 0 ≤ x0 ∧ x0 < m ∧ 0 ≤ y0 ∧ y0 < n
      · rw [if_pos h1, if_neg (by omega), if_pos (by omega), List.append_nil]
      · rw [if_neg h1, List.nil_append]
        by_cases h2 : 0 ≤ x0 ∧ x0 < m ∧ (n : ℤ) = y0
        · rw [if_pos h2, if_pos (by omega)]
        · rw [if_neg h2, if_neg (by omega)]
  have e : hits X Y ((p.cover c depth).map fun o => (p, o)) =
      if 0 ≤ X - p.l ∧ X - p.l < p.wd.toNat ∧ 0 ≤ p.t - 1 - Y ∧ p.t - 1 - Y < p.ht.toNat then [(c, depth)] else [] := by
    rw [← key]
    unfold hits Pal.cover
    rw [List.filterMap_map]
    apply List.filterMap_congr
    intro o _
    simp only [Function.comp, Pal.at, Prod.mk.injEq]
    by_cases h : o.x + p.l = X ∧ p.t - 1 - o.y = Y
    · rw [if_pos h, if_pos (by omega)]
    · rw [if_neg h, if_neg (by omega)]
  rw [e]
  unfold Pal.Owns Pal.wd Pal.ht
  constructor
  · intro h
    rw [if_pos (by omega)]
  · intro h
    rw [if_neg (by omega)]

/-- C131: a second cover at the same depth is not seen: the frame of a picture is covered in black with depth 1000, its inner part in white with the same depth
(`visualization/visualization.cpp:157-159`); the inner part stays black. -/
theorem C131_second_cover :
    ((Pal.new 4 4 : Option (Pal ℚ)).bind fun p => (p.centered (1/4)).bind fun q =>
      draw (((p.cover "black" 1000).map fun o => (p, o)) ++ (q.cover "white" 1000).map fun o => (q, o)) (Image.new 4 4)).map
        (fun im => (im.bmp "none" 0 0, im.bmp "none" 1 1)) = some ("black", "black") := by
  decide +kernel

/-! ## C132: discs -/

/-- C132: without wrapping, the pixels drawn are those of the palette whose distance in space from the pixel of the centre is at most the radius, and that the
colour function colours. -/
theorem C132_disc (p : Pal K) (bw bh x y r : K) (hs : p.space = some (bw, bh)) (hw : 0 < p.wd) (hh : 0 < p.ht) (hbw : 0 < bw) (hbh : 0 < bh) (hr : 0 ≤ r)
    (c : C) (depth : K) : ∃ l, p.circle x y r (fun _ _ => some c) false depth = some l ∧
      ∀ o, o ∈ l ↔ o.c = c ∧ o.d = depth ∧ 0 ≤ o.x ∧ o.x < p.wd ∧ 0 ≤ o.y ∧ o.y < p.ht ∧
        (((o.x : K) - trunc (x * (p.wd / bw))) * (bw / p.wd)) ^ 2 + (((o.y : K) - trunc (y * (p.ht / bh))) * (bh / p.ht)) ^ 2 ≤ r ^ 2 := by
  have cw : (0 : K) < (p.wd : K) := by exact_mod_cast hw
  have ch : (0 : K) < (p.ht : K) := by exact_mod_cast hh
  unfold Pal.circle
  rw [hs, Option.map_some]
  refine ⟨_, rfl, fun o => ?_⟩
  simp only [one_div_div, List.mem_filterMap, Prod.exists, mem_offsets]
  constructor
  · rintro ⟨a, b, h1, h2⟩
    split at h2
    · split at h2
      · rename_i hin
        simp only [ite_self, Option.map_some, Option.some.injEq] at h2
        subst h2
        refine ⟨rfl, rfl, hin.1, hin.2.1, hin.2.2.1, hin.2.2.2, ?_⟩
        · push_cast
          rw [add_sub_cancel_left, add_sub_cancel_left]
          assumption
      · simp at h2
    · simp at h2
  · rintro ⟨rfl, rfl, h1, h2, h3, h4, h5⟩
    refine ⟨o.x - trunc (x * (p.wd / bw)), o.y - trunc (y * (p.ht / bh)), ?_, ?_⟩
    · have d1 := le_of_disc _ r ((p.wd : K) / bw) _ (o.x - trunc (x * (p.wd / bw))) hr (by positivity) (by push_cast; rw [one_div_div]) h5
      rw [add_comm] at h5
      have d2 := le_of_disc _ r ((p.ht : K) / bh) _ (o.y - trunc (y * (p.ht / bh))) hr (by positivity) (by push_cast; rw [one_div_div]) h5
      exact ⟨d1.1, d1.2, d2.1, d2.2⟩
    · rw [if_pos (by push_cast; exact h5), if_pos (by omega)]
      simp only [ite_self, Option.map_some, Option.some.injEq]
      cases o
      simp

/-- **C132**, colours. Without wrapping, each pixel of a disc has the colour that the function of colours gives at its place relative to the centre in units of the radius (of a disc of fewer than
three pixels: at the centre), and the depth of the disc. -/
theorem C132_colour (p : Pal K) (bw bh x y r : K) (hs : p.space = some (bw, bh)) (f : K → K → Option C) (depth : K) (l : List (Dot C K)) (h : p.circle x y r f false depth = some l) :
    ∀ o ∈ l, o.d = depth ∧ some o.c = if min ⌈r * (p.wd / bw)⌉ ⌈r * (p.ht / bh)⌉ < 3 then f 0 0
      else f (((o.x : K) / (p.wd + 1) * bw - x) / r) (((o.y : K) / (p.ht + 1) * bh - y) / r) := by
  intro o ho
  unfold Pal.circle at h
  rw [hs, Option.map_some] at h
  rw [← Option.some.inj h] at ho
  simp only [List.mem_filterMap] at ho
  obtain ⟨a, _, h2⟩ := ho
  split at h2
  · split at h2
    · obtain ⟨c, hc, rfl⟩ := Option.map_eq_some_iff.mp h2
      refine ⟨rfl, ?_⟩
      rw [← hc]
      unfold pixelPosition
      push_cast
      rfl
    · simp at h2
  · simp at h2

/-- C132: a centre in the palette is in the pixel from which the distances are taken. -/
theorem C132_centre (n : ℤ) (len x : K) (hn : 0 < n) (hl : 0 < len) (h0 : 0 ≤ x) (h1 : x < len) :
    0 ≤ trunc (x * (n / len)) ∧ trunc (x * (n / len)) < n ∧
      (trunc (x * (n / len)) : K) * (len / n) ≤ x ∧ x < ((trunc (x * (n / len)) : K) + 1) * (len / n) := by
  have cn : (0 : K) < (n : K) := by exact_mod_cast hn
  have hx : 0 ≤ x * ((n : K) / len) := by positivity
  rw [trunc_nonneg _ hx]
  have f1 := Int.floor_le (x * ((n : K) / len))
  have f2 := Int.lt_floor_add_one (x * ((n : K) / len))
  refine ⟨Int.floor_nonneg.mpr hx, ?_, ?_, ?_⟩
  · rw [Int.floor_lt]
    calc x * ((n : K) / len) < len * (n / len) := mul_lt_mul_of_pos_right h1 (by positivity)
      _ = n := by field_simp
  · calc (⌊x * ((n : K) / len)⌋ : K) * (len / n) ≤ x * (n / len) * (len / n) := mul_le_mul_of_nonneg_right f1 (by positivity)
      _ = x := by field_simp
  · calc x = x * ((n : K) / len) * (len / n) := by field_simp
      _ < _ := mul_lt_mul_of_pos_right f2 (by positivity)

theorem wrap1_cases (w a : ℤ) (h1 : -w ≤ a) (h2 : a < 2 * w) : 0 ≤ wrap1 w a ∧ wrap1 w a < w ∧ ∃ m : ℤ, a = wrap1 w a + m * w := by
  unfold wrap1
  simp only
  split
  · rw [if_neg (by omega)]
    exact ⟨by omega, by omega, 1, by ring⟩
  · split
    · exact ⟨by omega, by omega, -1, by ring⟩
    · exact ⟨by omega, by omega, 0, by ring⟩

/-- C132 (partial): with wrapping, a disc with its centre in the palette and a radius of at most its width and its height colours exactly the pixels of the palette
of which some periodic image is in the disc. Missing: larger radii, see `C132_negation_large`. -/
theorem C132_wrapped_partial (p : Pal K) (bw bh x y r : K) (hs : p.space = some (bw, bh)) (hw : 0 < p.wd) (hh : 0 < p.ht) (hbw : 0 < bw) (hbh : 0 < bh)
    (hr : 0 ≤ r) (hx : 0 ≤ x ∧ x < bw) (hy : 0 ≤ y ∧ y < bh) (rw' : r ≤ bw) (rh : r ≤ bh) (c : C) (depth : K) :
    ∃ l, p.circle x y r (fun _ _ => some c) true depth = some l ∧ (∀ o ∈ l, o.c = c ∧ (o.d = depth ∨ o.d = 0)) ∧
      ∀ a b : ℤ, (∃ o ∈ l, o.x = a ∧ o.y = b) ↔ 0 ≤ a ∧ a < p.wd ∧ 0 ≤ b ∧ b < p.ht ∧ ∃ m n : ℤ,
        (((a : K) + m * p.wd - trunc (x * (p.wd / bw))) * (bw / p.wd)) ^ 2 +
          (((b : K) + n * p.ht - trunc (y * (p.ht / bh))) * (bh / p.ht)) ^ 2 ≤ r ^ 2 := by
  have cw : (0 : K) < (p.wd : K) := by exact_mod_cast hw
  have ch : (0 : K) < (p.ht : K) := by exact_mod_cast hh
  obtain ⟨px0, px1, _, _⟩ := C132_centre p.wd bw x hw hbw hx.1 hx.2
  obtain ⟨py0, py1, _, _⟩ := C132_centre p.ht bh y hh hbh hy.1 hy.2
  have dx : ⌈r * ((p.wd : K) / bw)⌉ ≤ p.wd := by
    rw [Int.ceil_le]
    calc r * ((p.wd : K) / bw) ≤ bw * (p.wd / bw) := mul_le_mul_of_nonneg_right rw' (by positivity)
      _ = p.wd := by field_simp
  have dy : ⌈r * ((p.ht : K) / bh)⌉ ≤ p.ht := by
    rw [Int.ceil_le]
    calc r * ((p.ht : K) / bh) ≤ bh * (p.ht / bh) := mul_le_mul_of_nonneg_right rh (by positivity)
      _ = p.ht := by field_simp
  unfold Pal.circle
  rw [hs, Option.map_some]
  refine ⟨_, rfl, ?_, ?_⟩
  · intro o ho
    simp only [List.mem_filterMap, Prod.exists] at ho
    obtain ⟨a, b, _, h2⟩ := ho
    split at h2
    · split at h2
      · simp only [ite_self, Option.map_some, Option.some.injEq] at h2
        subst h2
        exact ⟨rfl, Or.inl rfl⟩
      · simp only [ite_self, Option.map_some, Option.some.injEq, if_true] at h2
        subst h2
        exact ⟨rfl, Or.inr rfl⟩
    · simp at h2
  · intro a b
    simp only [one_div_div, List.mem_filterMap, Prod.exists, mem_offsets]
    constructor
    · rintro ⟨o, ⟨u, v, h1, h2⟩, rfl, rfl⟩
      split at h2
      · rename_i hd
        obtain ⟨a1, a2, m, em⟩ := wrap1_cases p.wd (trunc (x * (p.wd / bw)) + u) (by omega) (by omega)
        obtain ⟨b1, b2, n, en⟩ := wrap1_cases p.ht (trunc (y * (p.ht / bh)) + v) (by omega) (by omega)
        split at h2
        · rename_i hin
          simp only [ite_self, Option.map_some, Option.some.injEq] at h2
          subst h2
          refine ⟨hin.1, hin.2.1, hin.2.2.1, hin.2.2.2, 0, 0, ?_⟩
          push_cast
          rw [zero_mul, zero_mul, add_zero, add_zero, add_sub_cancel_left, add_sub_cancel_left]
          exact hd
        · simp only [ite_self, Option.map_some, Option.some.injEq, if_true] at h2
          subst h2
          refine ⟨a1, a2, b1, b2, m, n, ?_⟩
          have em' : (trunc (x * (p.wd / bw)) : K) + u = (wrap1 p.wd (trunc (x * (p.wd / bw)) + u) : K) + m * p.wd := by exact_mod_cast em
          have en' : (trunc (y * (p.ht / bh)) : K) + v = (wrap1 p.ht (trunc (y * (p.ht / bh)) + v) : K) + n * p.ht := by exact_mod_cast en
          simp only
          rw [← em', ← en', add_sub_cancel_left, add_sub_cancel_left]
          exact hd
      · simp at h2
    · rintro ⟨a1, a2, b1, b2, m, n, hd⟩
      have d1 := le_of_disc _ r ((p.wd : K) / bw) _ (a + m * p.wd - trunc (x * (p.wd / bw))) hr (by positivity) (by push_cast; rw [one_div_div]) hd
      have hd' := hd
      rw [add_comm] at hd'
      have d2 := le_of_disc _ r ((p.ht : K) / bh) _ (b + n * p.ht - trunc (y * (p.ht / bh))) hr (by positivity) (by push_cast; rw [one_div_div]) hd'
      have em : trunc (x * (p.wd / bw)) + (a + m * p.wd - trunc (x * (p.wd / bw))) = a + m * p.wd := by ring
      have en : trunc (y * (p.ht / bh)) + (b + n * p.ht - trunc (y * (p.ht / bh))) = b + n * p.ht := by ring
      by_cases hin : 0 ≤ a + m * p.wd ∧ a + m * p.wd < p.wd ∧ 0 ≤ b + n * p.ht ∧ b + n * p.ht < p.ht
      · have hm : m = 0 := by
          by_contra hne
          rcases lt_or_gt_of_ne hne with h | h
          · have : m * p.wd ≤ -1 * p.wd := Int.mul_le_mul_of_nonneg_right (by omega) hw.le
            omega
          · have : 1 * p.wd ≤ m * p.wd := Int.mul_le_mul_of_nonneg_right (by omega) hw.le
            omega
        have hn : n = 0 := by
          by_contra hne
          rcases lt_or_gt_of_ne hne with h | h
          · have : n * p.ht ≤ -1 * p.ht := Int.mul_le_mul_of_nonneg_right (by omega) hh.le
            omega
          · have : 1 * p.ht ≤ n * p.ht := Int.mul_le_mul_of_nonneg_right (by omega) hh.le
            omega
        refine ⟨⟨a, b, c, depth⟩, ⟨a + m * p.wd - trunc (x * (p.wd / bw)), b + n * p.ht - trunc (y * (p.ht / bh)), ⟨d1.1, d1.2, d2.1, d2.2⟩, ?_⟩, rfl, rfl⟩
        rw [if_pos (by push_cast; exact hd), em, en, if_pos hin, hm, hn]
        simp
      · have uniq : ∀ (w a m : ℤ), 0 ≤ a → a < w → -w ≤ a + m * w → a + m * w < 2 * w → wrap1 w (a + m * w) = a := by
          intro w a m h1 h2 h3 h4
          have hm : m = -1 ∨ m = 0 ∨ m = 1 := by
            have hw0 : 0 < w := by omega
            have u1 : m < 2 := by
              by_contra hne
              have : 2 * w ≤ m * w := Int.mul_le_mul_of_nonneg_right (by omega) hw0.le
              omega
            have u2 : -2 < m := by
              by_contra hne
              have : m * w ≤ -2 * w := Int.mul_le_mul_of_nonneg_right (by omega) hw0.le
              omega
            omega
          unfold wrap1
          rcases hm with rfl | rfl | rfl <;> simp only <;> split <;> split <;> omega
        refine ⟨⟨a, b, c, 0⟩, ⟨a + m * p.wd - trunc (x * (p.wd / bw)), b + n * p.ht - trunc (y * (p.ht / bh)), ⟨d1.1, d1.2, d2.1, d2.2⟩, ?_⟩, rfl, rfl⟩
        rw [if_pos (by push_cast; exact hd), em, en, if_neg hin, uniq _ _ _ a1 a2 (by omega) (by omega), uniq _ _ _ b1 b2 (by omega) (by omega)]
        simp

/-- C132 is false of large discs with wrapping: coordinates are shifted by one width only, so that dots are outside of the palette; on a part of an image they
colour pixels the palette does not own. -/
theorem C132_negation_large :
    ((Pal.new 4 1 : Option (Pal ℚ)).bind fun p => (p.sub 0 1 0 1).bind fun q => ((q.setSpace 1 1).circle 0 0 3 (fun _ _ => some "red") true 0).bind fun l =>
      draw (l.map fun o => (q.setSpace 1 1, o)) (Image.new 4 1)).map (fun im => (im.bmp "none" 0 0, im.bmp "none" 1 0, im.bmp "none" 2 0)) =
      some ("red", "red", "red") := by
  decide +kernel

/-- C132 is false on a part of an image, if its size in space is not set again: it is used without a value. -/
theorem C132_negation_space (p q : Pal K) (mx Mx my My : ℤ) (h : p.sub mx Mx my My = some q) (x y r : K) (f : K → K → Option C) (wrap : Bool) (depth : K) :
    q.circle x y r f wrap depth = none := by
  have hs : q.space = none := by
    unfold Pal.sub at h
    split at h
    · simp at h
    · simp only [Option.ite_none_left_eq_some, Option.some.injEq] at h
      rw [← h.2]
  unfold Pal.circle
  rw [hs]
  rfl

/-! ## C133: parts of a palette -/

theorem sub_ok (p : Pal K) (mx Mx my My : ℤ) (h1 : 0 ≤ mx) (h2 : mx < Mx) (h3 : Mx ≤ p.wd) (h4 : 0 ≤ my) (h5 : my < My) (h6 : My ≤ p.ht) :
    p.sub mx Mx my My = some ⟨p.l + mx, p.l + Mx, p.b + my, p.b + My, p.W, p.H, none⟩ := by
  unfold Pal.sub
  rw [if_neg (by omega), if_neg (by omega), if_neg (by omega), if_neg (by omega), if_neg (by omega), if_neg (by omega)]

theorem inside_mk (p : Pal K) (a c b d : ℤ) (h1 : 0 ≤ a) (h2 : a < c) (h3 : c ≤ p.wd) (h4 : 0 ≤ b) (h5 : b < d) (h6 : d ≤ p.ht) :
    Pal.Inside ⟨p.l + a, p.l + c, p.b + b, p.b + d, p.W, p.H, none⟩ p := by
  unfold Pal.wd at h3
  unfold Pal.ht at h6
  refine ⟨?_, ?_, ?_, ?_, ?_, ?_, rfl, rfl⟩ <;> simp only <;> omega

/-- C133 (partial): a part of a palette with limits in it has the size asked for, lies in the palette, and its pixels are pixels of the palette, with columns
counted from the left limit; rows are those below the lower limit from the top. Missing: limits outside, see `C133_negation_outside`; that rows are counted as in
drawing, see `C133_negation_rows`. -/
theorem C133_part_partial (p : Pal K) (mx Mx my My : ℤ) (h1 : 0 ≤ mx) (h2 : mx < Mx) (h3 : Mx ≤ p.wd) (h4 : 0 ≤ my) (h5 : my < My) (h6 : My ≤ p.ht) :
    ∃ q, p.sub mx Mx my My = some q ∧ q.wd = Mx - mx ∧ q.ht = My - my ∧ q.Inside p ∧ ∀ x y, q.at x y = p.at (x + mx) (y + (p.ht - My)) := by
  refine ⟨_, sub_ok p mx Mx my My h1 h2 h3 h4 h5 h6, ?_, ?_, ?_, ?_⟩
  · simp only [Pal.wd]
    omega
  · simp only [Pal.ht]
    omega
  · exact inside_mk p _ _ _ _ (by omega) (by omega) (by omega) (by omega) (by omega) (by omega)
  · intro x y
    unfold Pal.at Pal.ht
    rw [Prod.mk.injEq]
    constructor <;> simp only <;> omega

/-- C133: being a part is transitive, and a part of a palette that lies in its image lies in it. -/
theorem C133_nested (p q s : Pal K) (h1 : q.Inside p) (h2 : s.Inside q) : s.Inside p := by
  unfold Pal.Inside at *
  omega

/-- C133: a part of a palette that lies in its image lies in it. -/
theorem C133_in_image (p q : Pal K) (h1 : q.Inside p) (h2 : p.Ok) : q.Ok := by
  unfold Pal.Inside at h1
  unfold Pal.Ok at *
  omega

/-- C133: what is drawn at positions of a palette colours only pixels that it owns, and different positions are different pixels. -/
theorem C133_owned (p : Pal K) (x y x' y' : ℤ) : ((0 ≤ x ∧ x < p.wd ∧ 0 ≤ y ∧ y < p.ht) ↔ p.Owns (p.at x y).1 (p.at x y).2) ∧
    (p.at x y = p.at x' y' → x = x' ∧ y = y') := by
  unfold Pal.Owns Pal.at Pal.wd Pal.ht
  simp only [Prod.mk.injEq]
  omega

/-- C133 (partial): the centred part leaves the same margin on all four sides, a fraction of the width, if that is less than half of the height. Missing: larger
fractions, for which an exception is thrown, see `C133_negation_flat`. -/
theorem C133_centred_partial (p : Pal K) (f : K) (hw : 0 < p.wd) (h0 : 0 ≤ f) (h1 : f < 1 / 2) (h2 : 2 * (p.wd * f) < p.ht) :
    ∃ q, p.centered f = some q ∧ q.Inside p ∧ q.l - p.l = ⌊p.wd * f⌋ ∧ p.r - q.r = ⌊p.wd * f⌋ ∧ q.b - p.b = ⌊p.wd * f⌋ ∧ p.t - q.t = ⌊p.wd * f⌋ := by
  have cw : (0 : K) < (p.wd : K) := by exact_mod_cast hw
  have hx : 0 ≤ (p.wd : K) * f := by positivity
  unfold Pal.centered
  rw [if_neg (by simpa using h1), trunc_nonneg _ hx]
  have f0 : 0 ≤ ⌊(p.wd : K) * f⌋ := Int.floor_nonneg.mpr hx
  have f1 := Int.floor_le ((p.wd : K) * f)
  have f2 : 2 * ⌊(p.wd : K) * f⌋ < p.wd := by
    have : (2 : K) * ⌊(p.wd : K) * f⌋ < p.wd := by nlinarith
    exact_mod_cast this
  have f3 : 2 * ⌊(p.wd : K) * f⌋ < p.ht := by
    have : (2 : K) * ⌊(p.wd : K) * f⌋ < p.ht := by linarith
    exact_mod_cast this
  rw [sub_ok p _ _ _ _ f0 (by omega) (by omega) f0 (by omega) (by omega)]
  refine ⟨_, rfl, ?_, ?_, ?_, ?_, ?_⟩
  · exact inside_mk p _ _ _ _ (by omega) (by omega) (by omega) (by omega) (by omega) (by omega)
  · simp
  · simp only [Pal.wd]
    omega
  · simp
  · simp only [Pal.ht]
    omega

/-- C133 (partial): the largest centred part with a given ratio of width to height lies in the palette, uses its whole width or its whole height, has the same margin on
both sides, and its other length is that of the ratio up to one pixel, if the quotient of integers compares with the ratio as the quotient does. Missing: that condition,
see `C133_negation_ratio`. -/
theorem C133_largest_partial (p : Pal K) (rx ry : K) (hw : 0 < p.wd) (hh : 0 < p.ht) (hx : 0 < rx) (hy : 0 < ry)
    (hq : ((p.wd / p.ht : ℤ) : K) < rx / ry ↔ (p.wd : K) / p.ht < rx / ry) (h1 : 1 ≤ (p.wd : K) / (rx / ry)) (h2 : 1 ≤ rx / ry * p.ht) :
    ∃ q, p.maxCentered rx ry = some q ∧ q.Inside p ∧ q.l - p.l = p.r - q.r ∧ q.b - p.b = p.t - q.t ∧
      ((q.wd = p.wd ∧ |(q.ht : K) - p.wd / (rx / ry)| ≤ 1) ∨ (q.ht = p.ht ∧ |(q.wd : K) - rx / ry * p.ht| ≤ 1)) := by
  have cw : (0 : K) < (p.wd : K) := by exact_mod_cast hw
  have ch : (0 : K) < (p.ht : K) := by exact_mod_cast hh
  have rpos : 0 < rx / ry := by positivity
  unfold Pal.maxCentered
  rw [if_neg (by push Not; exact ⟨hx, hy⟩), Int.tdiv_eq_ediv_of_nonneg hw.le]
  have fit : ∀ (n : ℤ) (v : K), 0 < n → 1 ≤ v → v ≤ n → 0 ≤ (n - trunc v).tdiv 2 ∧ (n - trunc v).tdiv 2 < n - (n - trunc v).tdiv 2 ∧
      |((n - (n - trunc v).tdiv 2 - (n - trunc v).tdiv 2 : ℤ) : K) - v| ≤ 1 := by
    intro n v hn hv1 hvn
    rw [trunc_nonneg v (by linarith)]
    have g1 := Int.floor_le v
    have g2 := Int.lt_floor_add_one v
    have g3 : ⌊v⌋ ≤ n := by
      have : (⌊v⌋ : K) ≤ n := by linarith
      exact_mod_cast this
    have g4 : 1 ≤ ⌊v⌋ := Int.le_floor.mpr (by simpa using hv1)
    rw [Int.tdiv_eq_ediv_of_nonneg (by omega)]
    refine ⟨by omega, by omega, ?_⟩
    have g5 : n - (n - ⌊v⌋) / 2 - (n - ⌊v⌋) / 2 = ⌊v⌋ ∨ n - (n - ⌊v⌋) / 2 - (n - ⌊v⌋) / 2 = ⌊v⌋ + 1 := by omega
    rw [abs_le]
    rcases g5 with e | e <;> rw [e] <;> push_cast <;> constructor <;> linarith
  by_cases hc : ((p.wd / p.ht : ℤ) : K) < rx / ry
  · rw [if_pos hc]
    have hr := hq.mp hc
    have hle : (p.wd : K) / (rx / ry) ≤ p.ht := by
      rw [div_le_iff₀ rpos]
      rw [div_lt_iff₀ ch] at hr
      linarith
    obtain ⟨a1, a2, a3⟩ := fit p.ht ((p.wd : K) / (rx / ry)) hh h1 hle
    simp only
    rw [sub_ok p _ _ _ _ (le_refl _) hw (le_refl _) a1 a2 (by omega)]
    refine ⟨_, rfl, ?_, ?_, ?_, Or.inl ⟨?_, ?_⟩⟩
    · exact inside_mk p _ _ _ _ (by omega) (by omega) (by omega) (by omega) (by omega) (by omega)
    · simp only [Pal.wd]
      omega
    · simp only [Pal.ht]
      omega
    · simp only [Pal.wd]
      omega
    · have e : Pal.ht ⟨p.l + 0, p.l + p.wd, p.b + (p.ht - trunc ((p.wd : K) / (rx / ry))).tdiv 2,
          p.b + (p.ht - (p.ht - trunc ((p.wd : K) / (rx / ry))).tdiv 2), p.W, p.H, (none : Option (K × K))⟩ =
          p.ht - (p.ht - trunc ((p.wd : K) / (rx / ry))).tdiv 2 - (p.ht - trunc ((p.wd : K) / (rx / ry))).tdiv 2 := by
        simp only [Pal.ht]
        omega
      rw [e]
      exact a3
  · rw [if_neg hc]
    have hr : rx / ry ≤ (p.wd : K) / p.ht := not_lt.mp fun h => hc (hq.mpr h)
    have hle : rx / ry * (p.ht : K) ≤ p.wd := by
      rw [le_div_iff₀ ch] at hr
      exact hr
    obtain ⟨a1, a2, a3⟩ := fit p.wd (rx / ry * p.ht) hw h2 hle
    simp only
    rw [sub_ok p _ _ _ _ a1 a2 (by omega) (le_refl _) hh (le_refl _)]
    refine ⟨_, rfl, ?_, ?_, ?_, Or.inr ⟨?_, ?_⟩⟩
    · exact inside_mk p _ _ _ _ (by omega) (by omega) (by omega) (by omega) (by omega) (by omega)
    · simp only [Pal.wd]
      omega
    · simp only [Pal.ht]
      omega
    · simp only [Pal.ht]
      omega
    · have e : Pal.wd ⟨p.l + (p.wd - trunc (rx / ry * (p.ht : K))).tdiv 2, p.l + (p.wd - (p.wd - trunc (rx / ry * (p.ht : K))).tdiv 2),
          p.b + 0, p.b + p.ht, p.W, p.H, (none : Option (K × K))⟩ =
          p.wd - (p.wd - trunc (rx / ry * (p.ht : K))).tdiv 2 - (p.wd - trunc (rx / ry * (p.ht : K))).tdiv 2 := by
        simp only [Pal.wd]
        omega
      rw [e]
      exact a3

/-- C133 is false of limits that are too large: only the lower limits are corrected, so that the part is larger than the palette. -/
theorem C133_negation_outside : ((Pal.new 10 10 : Option (Pal ℚ)).bind fun p => p.sub 2 30 (-5) 20).map (fun q => (q.l, q.r, q.b, q.t)) = some (2, 30, 0, 20) := by
  decide +kernel

/-- C133 is false of rows: the part with rows 0 to 1 is the uppermost row of the palette, but row 0 of drawing is the lowest. -/
theorem C133_negation_rows : ((Pal.new 10 10 : Option (Pal ℚ)).bind fun p => (p.sub 0 10 0 1).map fun q => (q.at 0 0, p.at 0 0)) = some ((0, 0), (0, 9)) := by
  decide +kernel

/-- C133 is false of the centred part of a flat palette: the margin is a fraction of the width, also above and below. -/
theorem C133_negation_flat : ((Pal.new 100 10 : Option (Pal ℚ)).bind fun p => p.centered (1/10)).isNone = true := by
  decide +kernel

/-- C133 is false of the largest part: the ratio of the palette is rounded. For a picture of ratio 6/5 with the default resolution (`visualization/visualization.cpp:150-160`)
the part has more rows than the palette. -/
theorem C133_negation_ratio : ((Pal.new 1536 1280 : Option (Pal ℚ)).bind fun p => (p.centered (1/100)).bind fun s => (s.maxCentered 6 5).map fun q =>
    ((s.b, s.t), (q.b, q.t))) = some ((15, 1265), (15, 1267)) := by
  decide +kernel

/-! ## C134: references -/

/-- What can be done with palettes: numbers stand for variables of the program. -/
inductive Act where
  | create (i : ℕ)
  | copy (i j : ℕ)
  | assign (i j : ℕ)
  | destroy (i : ℕ)

/-- The palettes alive and the image each refers to; for each image that was not deleted the number of references; the number of the next image. -/
structure Heap where
  pal : ℕ → Option ℕ
  refs : ℕ → Option ℕ
  next : ℕ

/-- The empty program state. -/
def Heap.empty : Heap := ⟨fun _ => none, fun _ => none, 0⟩

/-- One action: the constructor `visualization/palette.cpp:64-83`; the copy and move constructors and parts, `:85-121, 366-383` (all increase the count); assignment,
`:135-176`; the destructor, `:123-133`. `none`: the variable is in use or not alive (an action the language does not allow), or deleted memory is used. -/
def Heap.act (h : Heap) : Act → Option Heap
  | .create i => if h.pal i = none then some ⟨Function.update h.pal i (some h.next), Function.update h.refs h.next (some 1), h.next + 1⟩ else none
  | .copy i j => if h.pal i = none then (h.pal j).bind fun m => (h.refs m).map fun n =>
      ⟨Function.update h.pal i (some m), Function.update h.refs m (some (n + 1)), h.next⟩ else none
  | .assign i j => (h.pal i).bind fun _ => (h.pal j).bind fun m => (h.refs m).map fun n =>
      ⟨Function.update h.pal i (some m), Function.update h.refs m (some (n + 1)), h.next⟩
  | .destroy i => (h.pal i).bind fun m => (h.refs m).map fun n =>
      ⟨Function.update h.pal i none, Function.update h.refs m (if n = 1 then none else some (n - 1)), h.next⟩

/-- The language allows the action: variables are alive, or not alive, as needed. -/
def Heap.Allowed (h : Heap) : Act → Prop
  | .create i => h.pal i = none
  | .copy i j => h.pal i = none ∧ h.pal j ≠ none
  | .assign i j => h.pal i ≠ none ∧ h.pal j ≠ none
  | .destroy i => h.pal i ≠ none

/-- The states that can be reached with allowed actions. -/
inductive Reach : List Act → Heap → Prop
  | nil : Reach [] Heap.empty
  | snoc (l : List Act) (h h' : Heap) (a : Act) (hr : Reach l h) (ha : h.Allowed a) (e : h.act a = some h') : Reach (l ++ [a]) h'

/-- The palettes that refer to an image. -/
def Heap.users (h : Heap) (m : ℕ) : Set ℕ := {i | h.pal i = some m}

/-- The count is at least the number of palettes (and is it without assignment), images in use are not deleted. -/
structure Inv (exact : Bool) (h : Heap) : Prop where
  fin : ∀ m, (h.users m).Finite
  new : ∀ m, h.next ≤ m → h.refs m = none
  live : ∀ m n, h.refs m = some n → 0 < n ∧ (h.users m).ncard ≤ n ∧ (exact = true → (h.users m).ncard = n)
  dead : ∀ m, h.refs m = none → h.users m = ∅

theorem users_update (h : Heap) (i : ℕ) (v : Option ℕ) (r : ℕ → Option ℕ) (k m : ℕ) :
    Heap.users ⟨Function.update h.pal i v, r, k⟩ m = if v = some m then insert i (h.users m) else h.users m \ {i} := by
  ext j
  unfold Heap.users
  by_cases e : j = i
  · subst e
    by_cases hv : v = some m
    · simp [hv]
    · simp [hv]
  · by_cases hv : v = some m
    · simp [hv, e]
    · simp [hv, e]

theorem inv_step (exact : Bool) (h h' : Heap) (a : Act) (hi : Inv exact h) (ha : h.act a = some h') (hx : exact = true → ∀ i j, a ≠ .assign i j) : Inv exact h' := by
  have take : ∀ (i m n : ℕ), h.refs m = some n → (exact = true → h.pal i = none) →
      Inv exact ⟨Function.update h.pal i (some m), Function.update h.refs m (some (n + 1)), h.next⟩ := by
    intro i m n hr hp
    have hm : m < h.next := by
      by_contra hh
      rw [hi.new m (by omega)] at hr
      simp at hr
    obtain ⟨n0, n1, n2⟩ := hi.live m n hr
    refine ⟨?_, ?_, ?_, ?_⟩
    · intro k
      rw [users_update]
      split
      · exact (hi.fin k).insert i
      · exact (hi.fin k).subset Set.diff_subset
    · intro k hk
      simp only at hk ⊢
      rw [Function.update_of_ne (by omega)]
      exact hi.new k hk
    · intro k c hc
      rw [users_update]
      simp only at hc
      by_cases e : k = m
      · subst e
        rw [Function.update_self, Option.some.injEq] at hc
        rw [if_pos rfl]
        subst hc
        refine ⟨by omega, (Set.ncard_insert_le i _).trans (by omega), fun ex => ?_⟩
        have hn : i ∉ h.users k := by
          intro hh
          have e1 : h.pal i = some k := hh
          rw [hp ex] at e1
          simp at e1
        rw [Set.ncard_insert_of_notMem hn (hi.fin k), n2 ex]
      · rw [Function.update_of_ne e] at hc
        rw [if_neg (by simpa using fun hh : m = k => e hh.symm)]
        obtain ⟨c0, c1, c2⟩ := hi.live k c hc
        refine ⟨c0, (Set.ncard_le_ncard Set.diff_subset (hi.fin k)).trans c1, fun ex => ?_⟩
        have hn : i ∉ h.users k := by
          intro hh
          have e1 : h.pal i = some k := hh
          rw [hp ex] at e1
          simp at e1
        rw [Set.diff_singleton_eq_self hn, c2 ex]
    · intro k hk
      simp only at hk
      by_cases e : k = m
      · subst e
        rw [Function.update_self] at hk
        simp at hk
      · rw [Function.update_of_ne e] at hk
        rw [users_update, if_neg (by simpa using fun hh : m = k => e hh.symm), hi.dead k hk]
        simp
  cases a with
  | create i =>
    simp only [Heap.act] at ha
    split at ha
    · rename_i hp
      simp only [Option.some.injEq] at ha
      subst ha
      have hnext := hi.dead h.next (hi.new h.next (le_refl _))
      refine ⟨?_, ?_, ?_, ?_⟩
      · intro k
        rw [users_update]
        split
        · exact (hi.fin k).insert i
        · exact (hi.fin k).subset Set.diff_subset
      · intro k hk
        simp only at hk ⊢
        rw [Function.update_of_ne (by omega)]
        exact hi.new k (by omega)
      · intro k c hc
        rw [users_update]
        simp only at hc
        by_cases e : k = h.next
        · subst e
          rw [Function.update_self, Option.some.injEq] at hc
          rw [if_pos rfl, hnext]
          subst hc
          simp
        · rw [Function.update_of_ne e] at hc
          rw [if_neg (by simpa using fun hh : h.next = k => e hh.symm)]
          have hn : i ∉ h.users k := by
            intro hh
            have e1 : h.pal i = some k := hh
            rw [hp] at e1
            simp at e1
          rw [Set.diff_singleton_eq_self hn]
          exact hi.live k c hc
      · intro k hk
        simp only at hk
        by_cases e : k = h.next
        · subst e
          rw [Function.update_self] at hk
          simp at hk
        · rw [Function.update_of_ne e] at hk
          rw [users_update, if_neg (by simpa using fun hh : h.next = k => e hh.symm), hi.dead k hk]
          simp
    · simp at ha
  | copy i j =>
    simp only [Heap.act] at ha
    split at ha
    · rename_i hp
      simp only [Option.bind_eq_some_iff, Option.map_eq_some_iff] at ha
      obtain ⟨m, _, n, hr, rfl⟩ := ha
      exact take i m n hr fun _ => hp
    · simp at ha
  | assign i j =>
    simp only [Heap.act, Option.bind_eq_some_iff, Option.map_eq_some_iff] at ha
    obtain ⟨_, _, m, _, n, hr, rfl⟩ := ha
    exact take i m n hr fun ex => absurd rfl (hx ex i j)
  | destroy i =>
    simp only [Heap.act, Option.bind_eq_some_iff, Option.map_eq_some_iff] at ha
    obtain ⟨m, hp, n, hr, rfl⟩ := ha
    obtain ⟨n0, n1, n2⟩ := hi.live m n hr
    have hmem : i ∈ h.users m := hp
    have hcard := Set.ncard_diff_singleton_add_one hmem (hi.fin m)
    have hm : m < h.next := by
      by_contra hh
      rw [hi.new m (by omega)] at hr
      simp at hr
    refine ⟨?_, ?_, ?_, ?_⟩
    · intro k
      rw [users_update, if_neg (by simp)]
      exact (hi.fin k).subset Set.diff_subset
    · intro k hk
      simp only at hk ⊢
      rw [Function.update_of_ne (by omega)]
      exact hi.new k hk
    · intro k c hc
      rw [users_update, if_neg (by simp)]
      simp only at hc
      by_cases e : k = m
      · subst e
        rw [Function.update_self] at hc
        split at hc
        · simp at hc
        · simp only [Option.some.injEq] at hc
          refine ⟨by omega, by omega, fun ex => ?_⟩
          have := n2 ex
          omega
      · rw [Function.update_of_ne e] at hc
        have hn : i ∉ h.users k := by
          intro hh
          have e1 : h.pal i = some k := hh
          rw [hp, Option.some.injEq] at e1
          exact e e1.symm
        rw [Set.diff_singleton_eq_self hn]
        exact hi.live k c hc
    · intro k hk
      rw [users_update, if_neg (by simp)]
      simp only at hk
      by_cases e : k = m
      · subst e
        rw [Function.update_self] at hk
        split at hk
        · have hz : (h.users k \ {i}).ncard = 0 := by omega
          rw [Set.ncard_eq_zero ((hi.fin k).subset Set.diff_subset)] at hz
          exact hz
        · simp at hk
      · rw [Function.update_of_ne e] at hk
        rw [hi.dead k hk]
        simp

theorem reach_inv (exact : Bool) (l : List Act) (h : Heap) (hr : Reach l h) (hx : exact = true → ∀ i j, Act.assign i j ∉ l) : Inv exact h := by
  induction hr with
  | nil =>
    have e : ∀ m, Heap.empty.users m = ∅ := by
      intro m
      ext i
      simp [Heap.users, Heap.empty]
    exact ⟨fun m => by rw [e]; exact Set.finite_empty, fun _ _ => rfl, fun m n hh => by simp [Heap.empty] at hh, fun m _ => e m⟩
  | snoc l h h' a hr _ e ih =>
    refine inv_step exact h h' a (ih fun ex i j hm => hx ex i j (by simp [hm])) e ?_
    intro ex i j ea
    exact hx ex i j (by simp [ea])

/-- C134: in every history of creating, copying, assigning and destroying palettes, no deleted image is used: the image of each palette alive exists, and every
action that the language allows works. -/
theorem C134_no_dangling (l : List Act) (h : Heap) (hr : Reach l h) :
    (∀ i m, h.pal i = some m → ∃ n, h.refs m = some n ∧ 0 < n) ∧ ∀ a, h.Allowed a → ∃ h', h.act a = some h' := by
  have inv := reach_inv false l h hr (by simp)
  have alive : ∀ i m, h.pal i = some m → ∃ n, h.refs m = some n ∧ 0 < n := by
    intro i m hp
    cases e : h.refs m with
    | none =>
      have := inv.dead m e
      have hm : i ∈ h.users m := hp
      rw [this] at hm
      simp at hm
    | some n => exact ⟨n, rfl, (inv.live m n e).1⟩
  refine ⟨alive, fun a ha => ?_⟩
  cases a with
  | create i =>
    refine ⟨_, if_pos ha⟩
  | copy i j =>
    obtain ⟨m, hm⟩ := Option.ne_none_iff_exists'.mp ha.2
    obtain ⟨n, hn, _⟩ := alive j m hm
    simp only [Heap.act]
    rw [if_pos ha.1, hm, Option.bind_some, hn, Option.map_some]
    exact ⟨_, rfl⟩
  | assign i j =>
    obtain ⟨m0, hm0⟩ := Option.ne_none_iff_exists'.mp ha.1
    obtain ⟨m, hm⟩ := Option.ne_none_iff_exists'.mp ha.2
    obtain ⟨n, hn, _⟩ := alive j m hm
    simp only [Heap.act]
    rw [hm0, Option.bind_some, hm, Option.bind_some, hn, Option.map_some]
    exact ⟨_, rfl⟩
  | destroy i =>
    obtain ⟨m, hm⟩ := Option.ne_none_iff_exists'.mp ha
    obtain ⟨n, hn, _⟩ := alive i m hm
    simp only [Heap.act]
    rw [hm, Option.bind_some, hn, Option.map_some]
    exact ⟨_, rfl⟩

/-- C134 (partial): without assignments, an image exists exactly as long as some palette refers to it. Missing: assignments, see `C134_negation_assignment`. -/
theorem C134_no_leak_partial (l : List Act) (h : Heap) (hr : Reach l h) (hl : ∀ i j, Act.assign i j ∉ l) (m : ℕ) :
    h.refs m ≠ none ↔ ∃ i, h.pal i = some m := by
  have inv := reach_inv true l h hr fun _ => hl
  constructor
  · intro hm
    obtain ⟨n, hn⟩ := Option.ne_none_iff_exists'.mp hm
    obtain ⟨n0, _, n2⟩ := inv.live m n hn
    have := n2 rfl
    obtain ⟨i, hi'⟩ := Set.nonempty_of_ncard_ne_zero (s := h.users m) (by omega)
    exact ⟨i, hi'⟩
  · rintro ⟨i, hp⟩ e
    have := inv.dead m e
    have hm : i ∈ h.users m := hp
    rw [this] at hm
    simp at hm

/-- C134 is false of assignments: the image of the palette that is overwritten is never deleted, and a palette that is assigned to itself keeps its image for ever. -/
theorem C134_negation_assignment :
    (([.create 0, .create 1, .assign 0 1, .destroy 0, .destroy 1] : List Act).foldlM Heap.act Heap.empty).map (fun h => (h.pal 0, h.pal 1, h.refs 0, h.refs 1)) =
      some (none, none, some 1, none) ∧
    (([.create 0, .assign 0 0, .destroy 0] : List Act).foldlM Heap.act Heap.empty).map (fun h => (h.pal 0, h.refs 0)) = some (none, some 1) := by
  decide

/-! ## Examples -/

/-- A palette of 8 by 6 pixels with its part of 4 by 3, and a disc of radius 1 in space of size 4 by 3 around (1, 1). -/
example : ((Pal.new 8 6 : Option (Pal ℚ)).bind fun p => (p.sub 2 6 1 4).bind fun q => ((q.setSpace 4 3).circle 1 1 1 (fun _ _ => some ()) false 0)).map
    (fun l => l.map fun o => (o.x, o.y)) = some [(1, 0), (0, 1), (1, 1), (2, 1), (1, 2)] := by decide +kernel

/-- Hypotheses of `C131_pixels` and `C131_bitmap`: two dots of different depth on one pixel. -/
example : (draw [((⟨0, 2, 0, 2, 2, 2, none⟩ : Pal ℚ), (⟨0, 0, "far", 2⟩ : Dot String ℚ)), (⟨0, 2, 0, 2, 2, 2, none⟩, ⟨0, 0, "near", 1⟩),
    (⟨0, 2, 0, 2, 2, 2, none⟩, ⟨5, 0, "outside", 1⟩)] (Image.new 2 2)).map (fun im => (im.bmp "bg" 0 0, im.bmp "bg" 0 1)) = some ("bg", "near") := by decide +kernel

/-- Hypotheses of `C132_wrapped_partial`: a disc over the left edge appears at the right edge. -/
example : ((Pal.new 8 6 : Option (Pal ℚ)).bind fun p => ((p.setSpace 8 6).circle 0 3 1 (fun _ _ => some ()) true 0)).map
    (fun l => l.map fun o => (o.x, o.y)) = some [(0, 2), (7, 3), (0, 3), (1, 3), (0, 4)] := by decide +kernel

/-- Hypotheses of `C133_largest_partial`: a picture of ratio 2 on a palette of 40 by 30 has 40 by 20 pixels. -/
example : let p : Pal ℚ := ⟨0, 40, 0, 30, 40, 30, none⟩
    (((p.wd / p.ht : ℤ) : ℚ) < 2 / 1 ↔ (p.wd : ℚ) / p.ht < 2 / 1) ∧ 1 ≤ (p.wd : ℚ) / (2 / 1) ∧ 1 ≤ (2 : ℚ) / 1 * p.ht ∧
    (p.maxCentered 2 1).map (fun q => (q.wd, q.ht, q.b)) = some (40, 20, 5) := by
  refine ⟨?_, ?_, ?_, ?_⟩ <;> decide +kernel

/-- Hypotheses of `C133_centred_partial`. -/
example : ((⟨0, 40, 0, 30, 40, 30, none⟩ : Pal ℚ).centered (1/10)).map (fun q => (q.l, q.r, q.b, q.t)) = some (4, 36, 4, 26) := by decide +kernel

/-- Hypotheses of `C134_no_leak_partial`: a palette, a part of it, and the destruction of the first one. -/
example : ∃ h, Reach [.create 0, .copy 1 0, .destroy 0] h ∧ h.refs 0 = some 1 ∧ h.pal 1 = some 0 := by
  have h1 := Reach.snoc [] _ _ (.create 0) Reach.nil (by simp [Heap.Allowed, Heap.empty]) rfl
  have h2 := Reach.snoc _ _ _ (.copy 1 0) h1 (by simp [Heap.Allowed, Heap.empty]) rfl
  have h3 := Reach.snoc _ _ _ (.destroy 0) h2 (by simp [Heap.Allowed, Heap.empty]) rfl
  exact ⟨_, h3, rfl, rfl⟩

end Verif.Palette
