import Verif.Creators.Templates
import Verif.Forces.ForceMaster
import Verif.Forces.PairForces

/-!
# Parameters of interactions in setup files (C168)

Models `ParseConstructor::getInteraction`, `creators/helperclasses/parse-constructor.cpp:237-244`, `InteractionChoice::choose`, `interactions/interaction-choice.cpp:7-75`, the functions `parse_construct` and the defaults
of the pair interactions in `interactions/generic-forces.hpp`. The forces are those of `Verif.PairForces`. `ev` stands for `Eval::evaluate(., variables)`; exact real arithmetic.
-/

namespace Verif.Parameters
open FileParse (Head)
open TreeParser (hd params subs)
open SetupFile (Str Err)
open Verif.PairForces

/-- `parser.firstArg(name, value)`, which leaves the value as it is if there is no such heading or no parameter, e.g. `interactions/generic-forces.hpp:67`. -/
def read (ev : Str → Option ℝ) (h : Head) (name : Str) (default : ℝ) : Except Err ℝ :=
  match Templates.firstArgR ev h name with
  | .error e => .error e
  | .ok none => .ok default
  | .ok (some x) => .ok x

/-- The classes of interactions that can be chosen in a file, `interactions/interaction-choice.hpp:8-19`, without `DemonWall`. -/
inductive Kind where
  | hardSphere | hardSphereDs | lennardJones | coulomb | buckingham | hertz | hooke
  deriving DecidableEq

/-- The headings that a class reads, in this order: `interactions/generic-forces.hpp:61-68,152-161,248-260,337-349,432-446,599-614,773-788`. -/
def headings : Kind → List Str
  | .hardSphere => ["Repulsion".toList]
  | .hardSphereDs => ["Repulsion".toList, "Dissipation".toList]
  | .lennardJones => ["Strength".toList, "Cutoff".toList]
  | .coulomb => ["Strength".toList, "Cutoff".toList]
  | .buckingham => ["Strength".toList, "Cutoff".toList, "Ratio".toList]
  | .hertz => ["Kn".toList, "Kt".toList, "GammaN".toList, "GammaT".toList, "Mu".toList]
  | .hooke => ["Kn".toList, "Kt".toList, "GammaN".toList, "GammaT".toList, "Mu".toList]

/-- Their values before the file is read: `utility/defaultconstants.hpp:42-46`, `interactions/generic-forces.hpp:254,344,353,441,451-454,617-628,791-802`. The value -1 of the cutoff means that the cutoff of the constructor is
kept. -/
noncomputable def defaults : Kind → List ℝ
  | .hardSphere => [50]
  | .hardSphereDs => [50, 1]
  | .lennardJones => [0.01, -1]
  | .coulomb => [0.0025, -1]
  | .buckingham => [0.0025, -1, 1]
  | .hertz => [5000, 5000 * 2 / 7, 1000, 700, 0.5]
  | .hooke => [5000, 5000 * 2 / 7, 1000, 700, 0.5]

/-- The sequence of calls of `firstArg` in `parse_construct`, e.g. `interactions/generic-forces.hpp:784-788`. -/
def readAll (ev : Str → Option ℝ) (h : Head) : List Str → List ℝ → Except Err (List ℝ)
  | n :: ns, x :: xs =>
    match read ev h n x with
    | .error e => .error e
    | .ok y =>
      match readAll ev h ns xs with
      | .error e => .error e
      | .ok r => .ok (y :: r)
  | _, _ => .ok []

/-- An interaction that was made: its force and its cutoff. -/
inductive Made where
  | force (F : Force) (cutoff : ℝ)
  | hooke (H : Hooke)

/-- `setCutoff`, e.g. `interactions/generic-forces.hpp:196,299,387`: `old` is the cutoff of the constructor. -/
noncomputable def newCutoff (old c : ℝ) : ℝ := if c > 0 then c else old

/-- The interaction with the values that were read. Cutoffs of constructors: `interactions/generic-forces.hpp:186,289,377`, `base/interaction.hpp:90`; energy shifts: `interactions/generic-forces.hpp:197-203,300-301,388-389`; the
inner force: `interactions/generic-forces.hpp:457`. -/
noncomputable def build : Kind → List ℝ → Option Made
  | .hardSphere, [k] => some (.force (.hardSphere k) 1)
  | .hardSphereDs, [k, g] => some (.force (.hardSphereDs k g) 1)
  | .lennardJones, [s, c] => some (.force (.lennardJones s (4 * s * ((1 / newCutoff 2.5 c) ^ 12 - (1 / newCutoff 2.5 c) ^ 6))) (newCutoff 2.5 c))
  | .coulomb, [s, c] => some (.force (.coulomb s (newCutoff 3 c) (s / newCutoff 3 c)) (newCutoff 3 c))
  | .buckingham, [s, c, r] => some (.force (.buckingham s r (-1) 0) (newCutoff 3 c))
  | .hertz, [kn, _, gn, _, _] => some (.force (.hertz kn gn) 1)
  | .hooke, [kn, _, gn, gt, mu] => some (.hooke ⟨kn, gn, gt, mu⟩)
  | _, _ => none

/-- `getInteraction` with a class, `creators/helperclasses/parse-constructor.cpp:237-244`. -/
noncomputable def make (ev : Str → Option ℝ) (k : Kind) (h : Head) : Except Err Made :=
  match readAll ev h (headings k) (defaults k) with
  | .error e => .error e
  | .ok l =>
    match build k l with
    | none => .error .undef
    | some m => .ok m

/-- `setRepulsion`, `interactions/generic-forces.hpp:60-62`. -/
noncomputable def setRepulsion (r : ℝ) : ℝ := if 0 ≤ r then r else 0

/-- `suggest_timescale`, `interactions/generic-forces.hpp:56-58,148-150`, `base/interaction.cpp:25-27`; `none` is not a number (the root of a negative number); a force constant of 0 gives infinity, which is also `none` here:
like a number that is not positive neither is ever chosen before a finite one, and infinity sets no limit. -/
noncomputable def Made.timescale (mass : ℝ) : Made → Option ℝ
  | .force (.hardSphere k) _ => if 0 < k then some (2 * Real.pi / Real.sqrt (2 * k / mass)) else none
  | .force (.hardSphereDs k _) _ => if 0 < k then some (2 * Real.pi / Real.sqrt (2 * k / mass)) else none
  | _ => some (-1)

/-- The largest time step after `pre_integrate`, `base/forcemaster.cpp:32-36`, with the interactions that were made. -/
noncomputable def limit (ims : List ℝ) (maxDT : ℝ) (ms : List Made) : ℝ :=
  (ForceMaster.preIntegrate (0.02 : ℝ) (-1) maxDT ims fun m => ms.filterMap (Made.timescale m)).2

/-! ## Specification -/

/-- The heading `name` of the tree says `x`: it is the value of the first parameter of the first heading of this name, or the default if there is no such heading or it has no parameter. -/
def Says (ev : Str → Option ℝ) (h : Head) (name : Str) (default x : ℝ) : Prop :=
  match (subs h).find? (fun c => decide (hd c = name)) with
  | none => x = default
  | some n =>
    match params n with
    | [] => x = default
    | (a, _) :: _ => if a = [] then x = default else ev a = some x

/-! ## Theorems (C168) -/

theorem read_iff (ev : Str → Option ℝ) (h : Head) (name : Str) (default x : ℝ) : read ev h name default = .ok x ↔ Says ev h name default x := by
  unfold read Templates.firstArgR Says
  rw [Templates.first_eq]
  cases (subs h).find? (fun c => decide (hd c = name)) with
  | none => simp [eq_comm]
  | some n =>
    cases hp : params n with
    | nil => simp [hp, TreeParser.firstArg, eq_comm]
    | cons e r =>
      obtain ⟨a, b⟩ := e
      by_cases ha : a = []
      · simp [hp, TreeParser.firstArg, ha, eq_comm]
      · cases hv : ev a with
        | none => simp [hp, TreeParser.firstArg, ha, hv]
        | some y => simp [hp, TreeParser.firstArg, ha, hv]

/-- **C168, values.** An interaction that is made from a tree has the parameters that the headings of the tree say, whatever their order and whatever else there is, and defaults for the others. A cutoff that is not positive
leaves that of the class; the energy shift belongs to the strength and cutoff of the file. -/
theorem C168_values (ev : Str → Option ℝ) (h : Head) :
    (∀ k, Says ev h "Repulsion".toList 50 k → make ev .hardSphere h = .ok (.force (.hardSphere k) 1)) ∧
    (∀ k g, Says ev h "Repulsion".toList 50 k → Says ev h "Dissipation".toList 1 g → make ev .hardSphereDs h = .ok (.force (.hardSphereDs k g) 1)) ∧
    (∀ s c, Says ev h "Strength".toList 0.01 s → Says ev h "Cutoff".toList (-1) c →
      ∃ shift, make ev .lennardJones h = .ok (.force (.lennardJones s shift) (if 0 < c then c else 2.5)) ∧ ∀ R : ℝ, 0 < R → ljPot s shift R ((if 0 < c then c else 2.5) * R) = 0) ∧
    (∀ s c, Says ev h "Strength".toList 0.0025 s → Says ev h "Cutoff".toList (-1) c →
      make ev .coulomb h = .ok (.force (.coulomb s (if 0 < c then c else 3) (s / if 0 < c then c else 3)) (if 0 < c then c else 3))) ∧
    (∀ s c r, Says ev h "Strength".toList 0.0025 s → Says ev h "Cutoff".toList (-1) c → Says ev h "Ratio".toList 1 r →
      make ev .buckingham h = .ok (.force (.buckingham s r (-1) 0) (if 0 < c then c else 3))) ∧
    (∀ kn kt gn gt mu, Says ev h "Kn".toList 5000 kn → Says ev h "Kt".toList (5000 * 2 / 7) kt → Says ev h "GammaN".toList 1000 gn → Says ev h "GammaT".toList 700 gt →
      Says ev h "Mu".toList 0.5 mu → make ev .hertz h = .ok (.force (.hertz kn gn) 1) ∧ make ev .hooke h = .ok (.hooke ⟨kn, gn, gt, mu⟩)) := by
  refine ⟨?_, ?_, ?_, ?_, ?_, ?_⟩
  · intro k h1
    simp only [make, headings, defaults, readAll, (read_iff ..).mpr h1, build]
  · intro k g h1 h2
    simp only [make, headings, defaults, readAll, (read_iff ..).mpr h1, (read_iff ..).mpr h2, build]
  · intro s c h1 h2
    refine ⟨4 * s * ((1 / newCutoff 2.5 c) ^ 12 - (1 / newCutoff 2.5 c) ^ 6), ?_, ?_⟩
    · simp only [make, headings, defaults, readAll, (read_iff ..).mpr h1, (read_iff ..).mpr h2, build]
      rfl
    · intro R hR
      have hc : (0 : ℝ) < newCutoff 2.5 c := by
        unfold newCutoff
        split_ifs with h
        · exact h
        · norm_num
      have e : R * (1 / (newCutoff 2.5 c * R)) = 1 / newCutoff 2.5 c := by
        field_simp
      show ljPot s _ R (newCutoff 2.5 c * R) = 0
      simp only [ljPot, e]
      ring
  · intro s c h1 h2
    simp only [make, headings, defaults, readAll, (read_iff ..).mpr h1, (read_iff ..).mpr h2, build]
    rfl
  · intro s c r h1 h2 h3
    simp only [make, headings, defaults, readAll, (read_iff ..).mpr h1, (read_iff ..).mpr h2, (read_iff ..).mpr h3, build]
    rfl
  · intro kn kt gn gt mu h1 h2 h3 h4 h5
    constructor <;>
    simp only [make, headings, defaults, readAll, (read_iff ..).mpr h1, (read_iff ..).mpr h2, (read_iff ..).mpr h3, (read_iff ..).mpr h4, (read_iff ..).mpr h5, build]

/-- **C168 is false of misspelled headings.** Headings that a class does not know have no effect and are not reported: trees with the same known headings make the same interaction. -/
theorem C168_negation_unknown (ev : Str → Option ℝ) (k : Kind) (h h' : Head)
    (heq : ∀ n ∈ headings k, (subs h).find? (fun c => decide (hd c = n)) = (subs h').find? (fun c => decide (hd c = n))) : make ev k h = make ev k h' := by
  have key : ∀ (ns : List Str) (xs : List ℝ), (∀ n ∈ ns, (subs h).find? (fun c => decide (hd c = n)) = (subs h').find? (fun c => decide (hd c = n))) →
      readAll ev h ns xs = readAll ev h' ns xs := by
    intro ns
    induction ns with
    | nil => intro xs _; rfl
    | cons n ns ih =>
      intro xs hn
      cases xs with
      | nil => rfl
      | cons x xs =>
        have e : read ev h n x = read ev h' n x := by
          unfold read Templates.firstArgR
          rw [Templates.first_eq, Templates.first_eq, hn n (by simp)]
        simp only [readAll, e, ih xs fun m hm => hn m (by simp [hm])]
  unfold make
  rw [key _ _ heq]

/-- `HardSphere { Repulson: 5 }` is the hard sphere force with the default repulsion. -/
example (ev : Str → Option ℝ) (h : Head) (hh : h = .mk [] [] [.mk "Repulson".toList [(['5'], [])] []]) : make ev .hardSphere h = .ok (.force (.hardSphere 50) 1) := by
  subst hh
  refine (C168_values ev _).1 50 ?_
  simp [Says, subs, hd]

/-- `LennardJones { Cutoff: 4  Strength: 2 }`, with the headings in the other order. -/
example : ∃ shift, make (fun t => if t = ['4'] then some 4 else some 2) .lennardJones (.mk [] [] [.mk "Cutoff".toList [(['4'], [])] [], .mk "Strength".toList [(['2'], [])] []]) =
    .ok (.force (.lennardJones 2 shift) 4) := by
  obtain ⟨sh, h1, _⟩ := (C168_values (fun t => if t = ['4'] then some 4 else some 2) (.mk [] [] [.mk "Cutoff".toList [(['4'], [])] [], .mk "Strength".toList [(['2'], [])] []])).2.2.1 2 4
    (by simp [Says, subs, hd, params]) (by simp [Says, subs, hd, params])
  refine ⟨sh, ?_⟩
  simpa using h1

/-- **C168 is false of signs.** A negative repulsion is refused by the setter of the class, which takes 0 instead, but a file sets it: overlapping particles then attract each other, and the more they overlap the lower is
their energy. -/
theorem C168_negation_sign (ev : Str → Option ℝ) (h : Head) (k : ℝ) (hk : k < 0) (hs : Says ev h "Repulsion".toList 50 k) :
    ∃ F, make ev .hardSphere h = .ok (.force F 1) ∧ setRepulsion k = 0 ∧
      ∀ {d : ℕ} (P : Parts d) (i j : ℕ) (n : Fin d → ℝ) (r : ℝ), r < P.rd i + P.rd j → F.mag P i j n r < 0 ∧ ∀ r' < r, F.pot P i j r' < F.pot P i j r := by
  refine ⟨.hardSphere k, (C168_values ev h).1 k hs, by simp [setRepulsion, not_le.mpr hk], ?_⟩
  intro d P i j n r hr
  refine ⟨mul_neg_of_neg_of_pos hk (by linarith), ?_⟩
  intro r' hr'
  have h1 : (r - P.rd i - P.rd j) ^ 2 < (r' - P.rd i - P.rd j) ^ 2 := by nlinarith
  show 1 / 2 * k * (r' - P.rd i - P.rd j) ^ 2 < 1 / 2 * k * (r - P.rd i - P.rd j) ^ 2
  nlinarith

example : Says (fun _ => some (-5)) (.mk [] [] [.mk "Repulsion".toList [(['-', '5'], [])] []]) "Repulsion".toList 50 (-5) := by
  simp [Says, subs, hd, params]

/-- **C168, time steps (partial).** With hard sphere interactions of positive repulsion and a movable particle the time step is at most 1/50 of the period of a contact of two of the lightest particles, for each of the
interactions.
Missing: other interactions, see `C168_negation_timescale`. -/
theorem C168_timescale_partial (ims : List ℝ) (maxDT : ℝ) (ms : List Made) (im : ℝ) (him : im ∈ ims) (hpos : 0 < im) (k : ℝ) (hk : 0 < k)
    (hm : (∃ c, .force (.hardSphere k) c ∈ ms) ∨ ∃ g c, .force (.hardSphereDs k g) c ∈ ms) :
    ∃ mass, 0 < mass ∧ (∀ x ∈ ims, x ≤ 1 / mass) ∧ 1 / mass ∈ ims ∧ limit ims maxDT ms ≤ 0.02 * (2 * Real.pi / Real.sqrt (2 * k / mass)) := by
  have hmax : ∀ (l : List ℝ) (m : ℝ), m ≤ ForceMaster.maxIm l m ∧ (∀ x ∈ l, x ≤ ForceMaster.maxIm l m) ∧ (ForceMaster.maxIm l m = m ∨ ForceMaster.maxIm l m ∈ l) := by
    intro l
    induction l with
    | nil => intro m; simp [ForceMaster.maxIm]
    | cons y l ih =>
      intro m
      obtain ⟨h1, h2, h3⟩ := ih (if y > m then y else m)
      simp only [ForceMaster.maxIm]
      refine ⟨le_trans ?_ h1, ?_, ?_⟩
      · split_ifs with h
        · exact h.le
        · exact le_rfl
      · intro x hx
        rcases List.mem_cons.mp hx with rfl | hx
        · refine le_trans ?_ h1
          split_ifs with h
          · exact le_rfl
          · exact not_lt.mp h
        · exact h2 x hx
      · rcases h3 with h3 | h3
        · rw [h3]
          split_ifs with h
          · exact Or.inr (by simp)
          · exact Or.inl rfl
        · exact Or.inr (by simp [h3])
  obtain ⟨m1, m2, m3⟩ := hmax ims 0
  set M := ForceMaster.maxIm ims 0 with hM
  have hMpos : 0 < M := lt_of_lt_of_le hpos (m2 im him)
  refine ⟨1 / M, by positivity, by simpa using m2, ?_, ?_⟩
  · rcases m3 with h | h
    · exact absurd h hMpos.ne'
    · simpa using h
  · set s := 2 * Real.pi / Real.sqrt (2 * k / (1 / M)) with hs
    have hspos : 0 < s := by
      rw [hs]
      have : 0 < 2 * k / (1 / M) := by positivity
      have := Real.sqrt_pos.mpr this
      have := Real.pi_pos
      positivity
    have hmem : s ∈ ms.filterMap (Made.timescale (1 / M)) := by
      rw [List.mem_filterMap]
      rcases hm with ⟨c, hc⟩ | ⟨g, c, hc⟩
      · exact ⟨_, hc, by simp only [Made.timescale, hk, if_true]; rw [hs]⟩
      · exact ⟨_, hc, by simp only [Made.timescale, hk, if_true]; rw [hs]⟩
    obtain ⟨_, _, b3, _⟩ := ForceMaster.bestScale_spec (ms.filterMap (Made.timescale (1 / M))) (-1 : ℝ) (Or.inl rfl)
    obtain ⟨b1, b2⟩ := b3 s hmem hspos
    unfold limit ForceMaster.preIntegrate ForceMaster.computeTimescale
    rw [← hM, if_neg hMpos.ne']
    simp only
    split_ifs with h
    · nlinarith
    · have : ¬ForceMaster.bestScale (ms.filterMap (Made.timescale (1 / M))) (-1) * 0.02 < maxDT := fun h' => h ⟨by positivity, h'⟩
      nlinarith [not_lt.mp this]

/-- **C168 is false of the time steps of other interactions.** Interactions of any other class, and hard sphere interactions whose repulsion from the file is not positive, never limit the time step. -/
theorem C168_negation_timescale (ims : List ℝ) (maxDT : ℝ) (ms : List Made) (hm : ∀ k, 0 < k → (∀ c, .force (.hardSphere k) c ∉ ms) ∧ ∀ g c, .force (.hardSphereDs k g) c ∉ ms) : limit ims maxDT ms = maxDT := by
  have hall : ∀ mass, ∀ s ∈ ms.filterMap (Made.timescale mass), s = -1 := by
    intro mass s hs
    obtain ⟨m, hmm, hms⟩ := List.mem_filterMap.mp hs
    match m, hmm, hms with
    | .hooke _, _, h => simpa [Made.timescale, eq_comm] using h
    | .force (.hardSphere k) c, hmem, h =>
      by_cases hk : 0 < k
      · exact absurd hmem ((hm k hk).1 c)
      · simp [Made.timescale, hk] at h
    | .force (.hardSphereDs k g) c, hmem, h =>
      by_cases hk : 0 < k
      · exact absurd hmem ((hm k hk).2 g c)
      · simp [Made.timescale, hk] at h
    | .force (.lennardJones _ _) _, _, h => simpa [Made.timescale, eq_comm] using h
    | .force (.coulomb _ _ _) _, _, h => simpa [Made.timescale, eq_comm] using h
    | .force (.buckingham _ _ _ _) _, _, h => simpa [Made.timescale, eq_comm] using h
    | .force (.hertz _ _) _, _, h => simpa [Made.timescale, eq_comm] using h
  have hbest : ∀ l : List ℝ, (∀ s ∈ l, s = -1) → ForceMaster.bestScale l (-1) = -1 := by
    intro l
    induction l with
    | nil => intro _; rfl
    | cons s l ih =>
      intro h
      have hs := h s (by simp)
      subst hs
      simp only [ForceMaster.bestScale]
      rw [if_neg (by norm_num)]
      exact ih fun s hs => h s (by simp [hs])
  have : ForceMaster.computeTimescale (-1 : ℝ) ims (fun m => ms.filterMap (Made.timescale m)) = -1 := by
    unfold ForceMaster.computeTimescale
    split_ifs
    · rfl
    · exact hbest _ (hall _)
  unfold limit ForceMaster.preIntegrate
  simp only [this]
  rw [if_neg (by norm_num)]

/-- Two Hertz interactions, and a hard sphere interaction with repulsion -5: no limit. -/
example (ims : List ℝ) : limit ims 1 [.force (.hertz 5000 1000) 1, .force (.hardSphere (-5)) 1] = 1 := by
  apply C168_negation_timescale
  intro k hk
  constructor
  · intro c hc
    simp only [List.mem_cons, Made.force.injEq, reduceCtorEq, false_and, List.not_mem_nil, or_false, false_or, Force.hardSphere.injEq] at hc
    linarith [hc.1]
  · simp

/-- A movable particle and hard spheres: the hypotheses of `C168_timescale_partial`. -/
example : (2 : ℝ) ∈ [0, (2 : ℝ)] ∧ (0 : ℝ) < 2 ∧ ∃ c, Made.force (.hardSphere 50) c ∈ [Made.force (.hardSphere 50) 1] := ⟨by simp, by norm_num, 1, by simp⟩

end Verif.Parameters
