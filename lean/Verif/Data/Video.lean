import Verif.Data.Recording

/-!
# How many frames an animation has (C147)

Models the choice of recording rates in `main`, `applications/driver.cpp:370-389`, from the options `-time`, `-startRec`, `-videoLength`, `-fps`, with `DataMaster::setFPS` (`base/datamaster.cpp:295-299`),
`DataObject::setFPS` (`base/dataobject.cpp:29-31`) and the recording of `Recording.lean`.

Simplification: numbers are elements of an ordered field; the infinite delay which a rate of zero gives is `none`.
-/

namespace Verif.Video

open Verif.Recording

variable {K : Type} [Field K] [LinearOrder K] [IsStrictOrderedRing K]

/-- The options: `-time`, `-startRec`, `-videoLength` (default -1), `-fps` (default -1). -/
structure Opts (K : Type) where
  time : K
  startRec : K
  length : K
  fps : K

/-- `videoTime`, `applications/driver.cpp:370`. -/
def Opts.videoTime (o : Opts K) : K := if o.startRec > 0 then o.time - o.startRec else o.time

/-- `videoLength`, `applications/driver.cpp:371`. -/
def Opts.videoLength (o : Opts K) : K := if o.length < 0 then o.videoTime else o.length

/-- `DataObject::setFPS`, `base/dataobject.cpp:29-31`; a rate of 0 gives an infinite delay. -/
def delayFor (fps : K) : Option K := if fps = 0 then none else some (1 / fps)

/-- The delay of the recorder of positions, `applications/driver.cpp:372-389`: 1/20 (`base/dataobject.cpp:6`), then the length of the video, then `-fps`. -/
def Opts.positionDelay (o : Opts K) : Option K :=
  if o.fps > 0 then delayFor o.fps
  else if o.videoTime > 0 then delayFor (20 * o.videoLength / o.videoTime)
  else some (1 / 20)

/-- The delay of other recorders. -/
def Opts.otherDelay (o : Opts K) : Option K := if o.fps > 0 then delayFor o.fps else some (1 / 20)

/-- The times of the frames in a run with steps at the times `ts`; `setStartRecTime`, `applications/driver.cpp:341`. -/
def Opts.frames (o : Opts K) (ts : List K) : List K :=
  match o.positionDelay with
  | none => []
  | some δ => recorded o.startRec true ⟨δ, -10, false⟩ ts

/-- Without `-fps`, the delay is the recorded time divided by 20 times the length of the video. -/
theorem delay_video (o : Opts K) (hf : o.fps ≤ 0) (h0 : 0 ≤ o.startRec) (ht : o.startRec < o.time) (hl : 0 < o.length) :
    o.positionDelay = some ((o.time - o.startRec) / (20 * o.length)) ∧ o.videoTime = o.time - o.startRec := by
  have hv : o.videoTime = o.time - o.startRec := by
    unfold Opts.videoTime
    rcases h0.lt_or_eq with h | h
    · rw [if_pos h]
    · rw [← h]; simp
  have hpos : 0 < o.time - o.startRec := sub_pos.2 ht
  refine ⟨?_, hv⟩
  unfold Opts.positionDelay Opts.videoLength
  rw [if_neg (not_lt.2 hf), hv, if_pos hpos, if_neg (not_lt.2 hl.le), delayFor, if_neg (by positivity), one_div_div]

/-- Half-open intervals of one length which cover an interval: there are enough of them. -/
theorem cover (L d b : K) (hL : 0 < L) (l : List K) (a : K) (hab : a ≤ b) (h : ∀ x, a ≤ x → x ≤ b → ∃ r ∈ l, r + d - L ≤ x ∧ x < r + d) : b - a < l.length * L := by
  induction hn : l.length generalizing l a with
  | zero =>
    obtain ⟨r, hr, _⟩ := h a le_rfl hab
    rw [List.length_eq_zero_iff.1 hn] at hr
    cases hr
  | succ n ih =>
    obtain ⟨r, hr, h1, h2⟩ := h a le_rfl hab
    have hlen : (l.erase r).length = n := by rw [List.length_erase_of_mem hr, hn]; rfl
    have hcast : ((n + 1 : ℕ) : K) * L = n * L + L := by push_cast; ring
    by_cases hb : r + d ≤ b
    · have := ih (l.erase r) (r + d) hb (fun x hx1 hx2 => by
        obtain ⟨q, hq, hq1, hq2⟩ := h x (by linarith) hx2
        refine ⟨q, ?_, hq1, hq2⟩
        refine (List.mem_erase_of_ne ?_).2 hq
        rintro rfl
        linarith) hlen
      rw [hcast]
      linarith
    · have : (0 : K) ≤ n * L := by positivity
      rw [hcast]
      push Not at hb
      linarith

/-- **C147 (at most).** `-animate -videoLength=L` (without `-fps`): up to the end of the run there are at most 20 L + 1 frames, whatever the steps. -/
theorem C147_at_most (o : Opts K) (hf : o.fps ≤ 0) (h0 : 0 ≤ o.startRec) (ht : o.startRec < o.time) (hl : 0 < o.length) (ts : List K) :
    (((o.frames ts).filter fun t => t ≤ o.time).length : K) ≤ 20 * o.length + 1 := by
  have hpos : 0 < o.time - o.startRec := sub_pos.2 ht
  have hd := (delay_video o hf h0 ht hl).1
  have hδ : 0 < (o.time - o.startRec) / (20 * o.length) := by positivity
  unfold Opts.frames
  rw [hd]
  have h1 := C56_rate o.startRec true ⟨(o.time - o.startRec) / (20 * o.length), -10, false⟩ hδ ts o.startRec o.time ht.le
  have h2 : (o.time - o.startRec) / ((o.time - o.startRec) / (20 * o.length)) = 20 * o.length := by field_simp
  rw [h2] at h1
  have h3 : (recorded o.startRec true ⟨(o.time - o.startRec) / (20 * o.length), -10, false⟩ ts).filter (fun t => decide (t ≤ o.time)) =
      (recorded o.startRec true ⟨(o.time - o.startRec) / (20 * o.length), -10, false⟩ ts).filter (fun t => decide (o.startRec ≤ t ∧ t ≤ o.time)) := by
    apply List.filter_congr
    intro t htm
    simp [(C56_after_start _ _ _ _ _ htm).2]
  simp only [h3]
  exact h1

/-- **C147 (partial, at least).** If the steps leave no gap longer than `s` in the recorded time, there are more than (recorded time) / (delay + s) frames, that is, 20 L less what the steps cost.
Missing: videos so short that the delay exceeds the start of the recording by more than 10 (`C147_negation_short`). -/
theorem C147_at_least_partial (o : Opts K) (hf : o.fps ≤ 0) (h0 : 0 ≤ o.startRec) (ht : o.startRec < o.time) (hl : 0 < o.length) (ts : List K) (hs : ts.Pairwise (· ≤ ·)) (s : K) (hs0 : 0 ≤ s)
    (hgap : ∀ x, o.startRec ≤ x → x ≤ o.time → ∃ t ∈ ts, x ≤ t ∧ t ≤ x + s) (hshort : o.time - o.startRec ≤ 20 * o.length * (o.startRec + 10)) :
    o.time - o.startRec < (o.frames ts).length * ((o.time - o.startRec) / (20 * o.length) + s) := by
  have hpos : 0 < o.time - o.startRec := sub_pos.2 ht
  have hd := (delay_video o hf h0 ht hl).1
  have hδ : 0 < (o.time - o.startRec) / (20 * o.length) := by positivity
  have hsh : (o.time - o.startRec) / (20 * o.length) ≤ o.startRec + 10 := by rw [div_le_iff₀ (by positivity)]; linarith
  unfold Opts.frames
  rw [hd]
  refine cover _ ((o.time - o.startRec) / (20 * o.length)) o.time (by linarith) _ o.startRec ht.le fun x hx1 hx2 => ?_
  obtain ⟨t, htm, ht1, ht2⟩ := hgap x hx1 hx2
  obtain ⟨r, hr, hr1, hr2⟩ := C56_no_gap_partial o.startRec ⟨(o.time - o.startRec) / (20 * o.length), -10, false⟩ hδ ts hs t htm (by linarith) (by simp only []; linarith)
  simp only [] at hr2
  exact ⟨r, hr, by linarith, by linarith⟩

/-- Frames are recorded at steps after the start of the recording only. -/
theorem C147_after_start (o : Opts K) (ts : List K) (t : K) (h : t ∈ o.frames ts) : t ∈ ts ∧ o.startRec ≤ t := by
  unfold Opts.frames at h
  split at h
  · cases h
  · exact C56_after_start _ _ _ _ _ h

/-- **C147 (rates).** A positive `-fps` is the rate of all recorders, whatever else is given; without it and without a length, the rate is 20. -/
theorem C147_fps (o : Opts K) (h : 0 < o.fps) : o.positionDelay = some (1 / o.fps) ∧ o.otherDelay = some (1 / o.fps) := by
  unfold Opts.positionDelay Opts.otherDelay delayFor
  rw [if_pos h, if_pos h, if_neg h.ne']
  exact ⟨rfl, rfl⟩

theorem C147_default (o : Opts K) (hf : o.fps ≤ 0) (hl : o.length < 0) : o.positionDelay = some (1 / 20) ∧ o.otherDelay = some (1 / 20) := by
  unfold Opts.positionDelay Opts.otherDelay Opts.videoLength
  rw [if_neg (not_lt.2 hf), if_neg (not_lt.2 hf), if_pos hl]
  by_cases h : o.videoTime > 0
  · rw [if_pos h, mul_div_assoc, div_self h.ne', mul_one, delayFor, if_neg (by norm_num)]
    exact ⟨rfl, rfl⟩
  · rw [if_neg h]; exact ⟨rfl, rfl⟩

/-- A length of 0 records nothing. -/
theorem C147_zero (o : Opts K) (hf : o.fps ≤ 0) (hv : 0 < o.videoTime) (hl : o.length = 0) (ts : List K) : o.frames ts = [] := by
  unfold Opts.frames Opts.positionDelay Opts.videoLength
  rw [if_neg (not_lt.2 hf), if_pos hv, hl]
  simp [delayFor]

/-- **A short video has no frame at all**, not even the first: if the delay is longer than 10 plus the time of the run. -/
theorem C147_negation_short (o : Opts K) (hf : o.fps ≤ 0) (h0 : 0 ≤ o.startRec) (ht : o.startRec < o.time) (hl : 0 < o.length) (ts : List K) (hts : ∀ t ∈ ts, t ≤ o.time)
    (hshort : 20 * o.length * (o.time + 10) < o.time - o.startRec) : o.frames ts = [] := by
  have hd := (delay_video o hf h0 ht hl).1
  unfold Opts.frames
  rw [hd]
  refine C56_negation_slow _ _ _ _ fun t htm => ?_
  simp only []
  rw [lt_div_iff₀ (by positivity)]
  have := hts t htm
  nlinarith

/-! ## Cases that meet the hypotheses -/

/-- `-time=10 -startRec=2 -videoLength=1/5`: 4 frames, with steps of 1. -/
def short : Opts ℚ := ⟨10, 2, 1 / 5, -1⟩

example : short.positionDelay = some 2 := by decide +kernel
example : short.frames [0, 1, 2, 3, 4, 5, 6, 7, 8, 9, 10] = [2, 4, 6, 8, 10] := by decide +kernel
example : short.fps ≤ 0 ∧ 0 ≤ short.startRec ∧ short.startRec < short.time ∧ 0 < short.length ∧ short.time - short.startRec ≤ 20 * short.length * (short.startRec + 10) := by decide +kernel
example : ∀ x : ℚ, short.startRec ≤ x → x ≤ short.time → ∃ t ∈ ([2, 6, 11] : List ℚ), x ≤ t ∧ t ≤ x + 5 := by
  intro x h1 h2
  simp only [short] at h1 h2
  rcases le_or_gt x 2 with h | h
  · exact ⟨2, by simp, h, by linarith⟩
  · rcases le_or_gt x 6 with h' | h'
    · exact ⟨6, by simp, h', by linarith⟩
    · exact ⟨11, by simp, by linarith, by linarith⟩
example : 20 * (1 / 1000 : ℚ) * (10 + 10) < 10 - 2 ∧ (⟨10, 2, 1 / 1000, -1⟩ : Opts ℚ).frames [0, 2, 5, 10] = [] := by decide +kernel

end Verif.Video
