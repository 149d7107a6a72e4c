import Verif.Creators.Parameters
import Verif.Integrators.StepSize

/-!
# Integrators of setup files (C170)

Models `FileParseCreator::choose_integrator`, `creators/fileparsecreator.cpp:416-459`, with `TreeParser::firstArg` and `convert` for whole numbers and truth values (`utility/treeparser.hpp:253-269,328-335`,
`utility/printingutility.hpp:66-72`). The time steps of the chosen integrator are those of `Verif.StepSize` (C40). `ev` stands for `Eval::evaluate(., variables)`; exact real arithmetic.
-/

namespace Verif.FileIntegrator
open FileParse (Head)
open TreeParser (hd params subs)
open SetupFile (Str Err)
open Templates (Vars lookup digit)
open Parameters (read Says)

/-! ## Model -/

/-- White space, which `stream >> value` skips (`utility/printingutility.hpp:70`). -/
def space (c : Char) : Bool := c = ' ' || c = '\t' || c = '\n' || c = '\r' || c = '\x0b' || c = '\x0c'

/-- The number that decimal digits denote (`utility/printingutility.hpp:70`). -/
def decimal (s : Str) : ℕ := s.foldl (fun n c => 10 * n + (c.toNat - '0'.toNat)) 0

/-- `stream >> value` for a whole number of `w + 1` bits, `utility/printingutility.hpp:66-72`: white space is skipped, then a sign and as many digits as there are; the value is 0 if there are none, and the nearest number of the type if it is too
large. The rest of the text is ignored. -/
def whole (w : ℕ) (s : Str) : ℤ :=
  match s.dropWhile space with
  | '-' :: r => max (-(2 : ℤ) ^ w) (-(decimal (r.takeWhile digit) : ℤ))
  | '+' :: r => min ((2 : ℤ) ^ w - 1) (decimal (r.takeWhile digit))
  | r => min ((2 : ℤ) ^ w - 1) (decimal (r.takeWhile digit))

/-- `stream >> value` for a truth value, `utility/printingutility.hpp:66-72`: a number is read (`std::boolalpha` is not set), 0 is false, others are true. -/
def truth (s : Str) : Bool := whole 63 s ≠ 0

/-- The text that `firstArg(name, value)` converts, `utility/treeparser.hpp:253-269,328-335`: the first parameter of the first heading of this name, or the value of the variable of this name. -/
def textOf (vars : Vars) (h : Head) (name : Str) : Option Str :=
  match Templates.first h name with
  | none => none
  | some n =>
    match params n with
    | [] => none
    | (a, _) :: _ => if a = [] then none else some (lookup vars a)

/-- The classes of integrators, `creators/fileparsecreator.cpp:435-440`. -/
inductive Kind where
  | verlet | overdamped | overdampedLangevin | langevin | noseHoover
  deriving DecidableEq

/-- The choice by name, `creators/fileparsecreator.cpp:434-440`; three classes exist for one to four dimensions (`integrators/velocityverlet.hpp:23-36`, `integrators/overdampedintegrator.hpp:67-80`,
`integrators/nose-hoover-velocityverlet.hpp:35-48`). -/
def kindOf (dims : ℕ) (token : Str) : Option Kind :=
  if token = "VelocityVerlet".toList then (if 1 ≤ dims ∧ dims ≤ 4 then some .verlet else none)
  else if token = "OverdampedIntegrator".toList then (if 1 ≤ dims ∧ dims ≤ 4 then some .overdamped else none)
  else if token = "OverdampedLangevin".toList then some .overdampedLangevin
  else if token = "LangevinIntegrator".toList then some .langevin
  else if token = "NoseHooverVelocityVerlet".toList then (if 1 ≤ dims ∧ dims ≤ 4 then some .noseHoover else none)
  else none

/-- The temperature of the constructors of classes with temperature and viscosity, `integrators/langevinintegrator.cpp:9`, `integrators/overdampedlangevin.cpp:7`. -/
noncomputable def Kind.temperature : Kind → Option ℝ
  | .langevin => some 0.025
  | .overdampedLangevin => some 1
  | _ => none

/-- An integrator that was made: class, temperature and viscosity (if the class has them), and the values for time steps. -/
structure Made where
  kind : Kind
  bath : Option (ℝ × ℝ)
  st : StepSize.St

/-- Temperature and viscosity, `creators/fileparsecreator.cpp:442-451`, `integrators/langevintypeintegrator.cpp:11-19`, `utility/defaultconstants.hpp:76`. -/
noncomputable def bathOf (ev : Str → Option ℝ) (k : Kind) (h : Head) : Except Err (Option (ℝ × ℝ)) :=
  match k.temperature with
  | none => .ok none
  | some t0 =>
    match read ev h "Temperature".toList t0 with
    | .error e => .error e
    | .ok t =>
      match read ev h "Viscosity".toList 1.308e-3 with
      | .error e => .error e
      | .ok v => .ok (some (t, v))

/-- The calls of setters, `creators/fileparsecreator.cpp:454-459`, with the values that `firstArg` gives. -/
def settings (vars : Vars) (h : Head) (mx mn : Option ℝ) : List StepSize.Op :=
  ((textOf vars h "Number".toList).map fun s => .setDelay (whole 31 s)).toList ++ (mx.map .setMax).toList ++ (mn.map .setMin).toList ++
    ((textOf vars h "Adjust".toList).map fun s => .setAdjust (truth s)).toList ++
    ((textOf vars h "UseV".toList).map fun s => .setUseV (truth s)).toList ++
    ((textOf vars h "UseA".toList).map fun s => .setUseA (truth s)).toList

/-- `choose_integrator`, `creators/fileparsecreator.cpp:416-463`. `check` throws nothing, as there are no necessary headings. A value of `MaxDT` or `MinDT` that is not positive changes nothing (lines 455-456, and again in the setters). -/
noncomputable def choose (vars : Vars) (ev : Str → Option ℝ) (dims : ℕ) (h : Head) : Except Err Made :=
  match kindOf dims ((TreeParser.argName (params h) 0).getD []) with
  | none => .error .throws
  | some k =>
    match bathOf ev k h with
    | .error e => .error e
    | .ok b =>
      match Templates.firstArgR ev h "MaxDT".toList with
      | .error e => .error e
      | .ok mx =>
        match Templates.firstArgR ev h "MinDT".toList with
        | .error e => .error e
        | .ok mn => .ok ⟨k, b, (settings vars h mx mn).foldl StepSize.St.step StepSize.St.init⟩

/-- The integrator of a file, `creators/fileparsecreator.cpp:274-280`: `none` is a file without `Integrator`. -/
noncomputable def fileIntegrator (vars : Vars) (ev : Str → Option ℝ) (dims : ℕ) : Option Head → Except Err Made
  | some h => choose vars ev dims h
  | none => if 1 ≤ dims ∧ dims ≤ 4 then .ok ⟨.verlet, none, StepSize.St.init⟩ else .error .throws

/-! ## Specification -/

/-- Spec: the text that a heading gives: the first parameter of the first heading of this name, if it is not empty. -/
def Given (h : Head) (name : Str) : Option Str :=
  (((subs h).find? fun c => decide (hd c = name)).bind fun n => (params n).head?).bind fun p => if p.1 = [] then none else some p.1

/-- Spec: a decimal number as texts write it. -/
def Digits (s : Str) : Prop := s ≠ [] ∧ ∀ c ∈ s, digit c = true

/-- Spec: the names of the classes. -/
def name : Kind → Str
  | .verlet => "VelocityVerlet".toList
  | .overdamped => "OverdampedIntegrator".toList
  | .overdampedLangevin => "OverdampedLangevin".toList
  | .langevin => "LangevinIntegrator".toList
  | .noseHoover => "NoseHooverVelocityVerlet".toList

/-! ## Theorems (C170) -/

theorem textOf_eq (vars : Vars) (h : Head) (n : Str) : textOf vars h n = (Given h n).map (lookup vars) := by
  unfold textOf Given
  rw [Templates.first_eq]
  cases (subs h).find? (fun c => decide (hd c = n)) with
  | none => rfl
  | some m =>
    cases hp : params m with
    | nil => simp [hp]
    | cons e r =>
      obtain ⟨a, b⟩ := e
      by_cases ha : a = [] <;> simp [hp, ha]

theorem firstArgR_iff (ev : Str → Option ℝ) (h : Head) (n : Str) (m : Option ℝ) :
    Templates.firstArgR ev h n = .ok m ↔ (Given h n).map ev = m.map some := by
  unfold Templates.firstArgR Given
  rw [Templates.first_eq]
  cases (subs h).find? (fun c => decide (hd c = n)) with
  | none => cases m <;> simp
  | some k =>
    cases hp : params k with
    | nil => cases m <;> simp [hp, TreeParser.firstArg]
    | cons e r =>
      obtain ⟨a, b⟩ := e
      by_cases ha : a = []
      · cases m <;> simp [hp, TreeParser.firstArg, ha]
      · cases hv : ev a with
        | none => cases m <;> simp [hp, TreeParser.firstArg, ha, hv]
        | some y => cases m <;> simp [hp, TreeParser.firstArg, ha, hv]

theorem name_inj (k k' : Kind) (h : name k = name k') : k = k' := by
  revert h
  cases k <;> cases k' <;> decide +kernel

theorem kindOf_names (dims : ℕ) (t : Str) : kindOf dims t =
    if t = name .verlet then (if 1 ≤ dims ∧ dims ≤ 4 then some .verlet else none)
    else if t = name .overdamped then (if 1 ≤ dims ∧ dims ≤ 4 then some .overdamped else none)
    else if t = name .overdampedLangevin then some .overdampedLangevin
    else if t = name .langevin then some .langevin
    else if t = name .noseHoover then (if 1 ≤ dims ∧ dims ≤ 4 then some .noseHoover else none)
    else none := rfl

theorem kindOf_iff (dims : ℕ) (t : Str) (k : Kind) :
    kindOf dims t = some k ↔ t = name k ∧ (k = .langevin ∨ k = .overdampedLangevin ∨ 1 ≤ dims ∧ dims ≤ 4) := by
  rw [kindOf_names]
  constructor
  · intro h
    by_cases h1 : t = name .verlet
    · rw [if_pos h1] at h
      by_cases hd : 1 ≤ dims ∧ dims ≤ 4
      · rw [if_pos hd, Option.some.injEq] at h; subst h; exact ⟨h1, Or.inr (Or.inr hd)⟩
      · rw [if_neg hd] at h; exact absurd h (by simp)
    rw [if_neg h1] at h
    by_cases h2 : t = name .overdamped
    · rw [if_pos h2] at h
      by_cases hd : 1 ≤ dims ∧ dims ≤ 4
      · rw [if_pos hd, Option.some.injEq] at h; subst h; exact ⟨h2, Or.inr (Or.inr hd)⟩
      · rw [if_neg hd] at h; exact absurd h (by simp)
    rw [if_neg h2] at h
    by_cases h3 : t = name .overdampedLangevin
    · rw [if_pos h3, Option.some.injEq] at h; subst h; exact ⟨h3, Or.inr (Or.inl rfl)⟩
    rw [if_neg h3] at h
    by_cases h4 : t = name .langevin
    · rw [if_pos h4, Option.some.injEq] at h; subst h; exact ⟨h4, Or.inl rfl⟩
    rw [if_neg h4] at h
    by_cases h5 : t = name .noseHoover
    · rw [if_pos h5] at h
      by_cases hd : 1 ≤ dims ∧ dims ≤ 4
      · rw [if_pos hd, Option.some.injEq] at h; subst h; exact ⟨h5, Or.inr (Or.inr hd)⟩
      · rw [if_neg hd] at h; exact absurd h (by simp)
    rw [if_neg h5] at h
    exact absurd h (by simp)
  · rintro ⟨rfl, h⟩
    have ne : ∀ k' : Kind, k ≠ k' → ¬ name k = name k' := fun k' hk hn => hk (name_inj k k' hn)
    cases k with
    | verlet => rw [if_pos rfl, if_pos (by simpa using h)]
    | overdamped => rw [if_neg (ne _ (by decide)), if_pos rfl, if_pos (by simpa using h)]
    | overdampedLangevin => rw [if_neg (ne _ (by decide)), if_neg (ne _ (by decide)), if_pos rfl]
    | langevin => rw [if_neg (ne _ (by decide)), if_neg (ne _ (by decide)), if_neg (ne _ (by decide)), if_pos rfl]
    | noseHoover =>
      rw [if_neg (ne _ (by decide)), if_neg (ne _ (by decide)), if_neg (ne _ (by decide)), if_neg (ne _ (by decide)), if_pos rfl, if_pos (by simpa using h)]

theorem argName_zero (ps : List (Str × Str)) : (TreeParser.argName ps 0).getD [] = (ps.head?.map (·.1)).getD [] := by
  cases ps with
  | nil => simp [TreeParser.argName]
  | cons e r => simp [TreeParser.argName, TreeParser.elem]

section values

variable (s : StepSize.St)

theorem fold_option {α : Type} (o : Option α) (f : α → StepSize.Op) (s : StepSize.St) :
    (o.map f).toList.foldl StepSize.St.step s = (o.map fun a => s.step (f a)).getD s := by
  cases o <;> rfl

theorem settings_fold (vars : Vars) (h : Head) (mx mn : Option ℝ) :
    (settings vars h mx mn).foldl StepSize.St.step StepSize.St.init =
      ⟨.fin (1/10000), ((textOf vars h "Adjust".toList).map truth).getD true,
        (match mn with | none => 1/1000000 | some t => if 0 < t then t else 1/1000000),
        (match mx with | none => 2/1000 | some t => if 0 < t then t else 2/1000), 20,
        ((textOf vars h "Number".toList).map fun s => max 0 (whole 31 s)).getD 10, 0,
        ((textOf vars h "UseV".toList).map truth).getD true, ((textOf vars h "UseA".toList).map truth).getD false, .fin (5/100)⟩ := by
  unfold settings
  simp only [List.foldl_append, fold_option]
  cases textOf vars h "Number".toList <;> cases textOf vars h "Adjust".toList <;> cases textOf vars h "UseV".toList <;> cases textOf vars h "UseA".toList <;>
    (cases mx with
      | none => cases mn with
        | none => rfl
        | some y => by_cases hy : 0 < y <;> simp [StepSize.St.step, StepSize.St.init, hy]
      | some x => cases mn with
        | none => by_cases hx : 0 < x <;> simp [StepSize.St.step, StepSize.St.init, hx]
        | some y => by_cases hx : 0 < x <;> by_cases hy : 0 < y <;> simp [StepSize.St.step, StepSize.St.init, hx, hy])

end values

/-- **C170, values.** The integrator that is made from a tree is of the class that the first parameter names (three of them for one to four dimensions only), with the temperature and viscosity of the headings if the class has
them; limits of the time step are the positive values of the headings and the defaults otherwise; whole numbers and truth values are those that the texts (or the variables they name) are converted to. Nothing else has an effect. -/
theorem C170_values (vars : Vars) (ev : Str → Option ℝ) (dims : ℕ) (h : Head) (M : Made) (hM : choose vars ev dims h = .ok M) :
    (((params h).head?.map (·.1)).getD [] = name M.kind ∧ (M.kind = .langevin ∨ M.kind = .overdampedLangevin ∨ 1 ≤ dims ∧ dims ≤ 4)) ∧
    (match M.bath with
      | none => M.kind = .verlet ∨ M.kind = .overdamped ∨ M.kind = .noseHoover
      | some (t, v) => (M.kind = .langevin ∧ Says ev h "Temperature".toList 0.025 t ∨ M.kind = .overdampedLangevin ∧ Says ev h "Temperature".toList 1 t) ∧
          Says ev h "Viscosity".toList 1.308e-3 v) ∧
    (∃ t, Says ev h "MaxDT".toList 0 t ∧ M.st.maxDt = if 0 < t then t else 2/1000) ∧
    (∃ t, Says ev h "MinDT".toList 0 t ∧ M.st.minDt = if 0 < t then t else 1/1000000) ∧
    M.st.delay = ((Given h "Number".toList).map fun s => max 0 (whole 31 (lookup vars s))).getD 10 ∧
    M.st.adjust = ((Given h "Adjust".toList).map fun s => truth (lookup vars s)).getD true ∧
    M.st.useV = ((Given h "UseV".toList).map fun s => truth (lookup vars s)).getD true ∧
    M.st.useA = ((Given h "UseA".toList).map fun s => truth (lookup vars s)).getD false := by
  have hsay : ∀ (n : Str) (m : Option ℝ), Templates.firstArgR ev h n = .ok m → Says ev h n 0 (m.getD 0) := by
    intro n m hm
    rw [← Parameters.read_iff]
    unfold Parameters.read
    rw [hm]
    cases m <;> rfl
  unfold choose at hM
  cases hk : kindOf dims ((TreeParser.argName (params h) 0).getD []) with
  | none => rw [hk] at hM; simp at hM
  | some k =>
    rw [hk] at hM
    simp only at hM
    cases hb : bathOf ev k h with
    | error e => rw [hb] at hM; simp at hM
    | ok b =>
      rw [hb] at hM
      simp only at hM
      cases hx : Templates.firstArgR ev h "MaxDT".toList with
      | error e => rw [hx] at hM; simp at hM
      | ok mx =>
        rw [hx] at hM
        simp only at hM
        cases hn : Templates.firstArgR ev h "MinDT".toList with
        | error e => rw [hn] at hM; simp at hM
        | ok mn =>
          rw [hn] at hM
          simp only [Except.ok.injEq] at hM
          subst hM
          rw [argName_zero, kindOf_iff] at hk
          simp only [settings_fold, textOf_eq, Option.map_map]
          refine ⟨hk, ?_, ⟨mx.getD 0, hsay _ _ hx, ?_⟩, ⟨mn.getD 0, hsay _ _ hn, ?_⟩, rfl, rfl, rfl, rfl⟩
          · unfold bathOf at hb
            cases k with
            | verlet => simp only [Kind.temperature, Except.ok.injEq] at hb; subst hb; exact Or.inl rfl
            | overdamped => simp only [Kind.temperature, Except.ok.injEq] at hb; subst hb; exact Or.inr (Or.inl rfl)
            | noseHoover => simp only [Kind.temperature, Except.ok.injEq] at hb; subst hb; exact Or.inr (Or.inr rfl)
            | langevin =>
              simp only [Kind.temperature] at hb
              cases ht : read ev h "Temperature".toList 0.025 with
              | error e => rw [ht] at hb; simp at hb
              | ok t =>
                rw [ht] at hb
                simp only at hb
                cases hv : read ev h "Viscosity".toList 1.308e-3 with
                | error e => rw [hv] at hb; simp at hb
                | ok v =>
                  rw [hv] at hb
                  simp only [Except.ok.injEq] at hb
                  subst hb
                  exact ⟨Or.inl ⟨rfl, (Parameters.read_iff ..).mp ht⟩, (Parameters.read_iff ..).mp hv⟩
            | overdampedLangevin =>
              simp only [Kind.temperature] at hb
              cases ht : read ev h "Temperature".toList 1 with
              | error e => rw [ht] at hb; simp at hb
              | ok t =>
                rw [ht] at hb
                simp only at hb
                cases hv : read ev h "Viscosity".toList 1.308e-3 with
                | error e => rw [hv] at hb; simp at hb
                | ok v =>
                  rw [hv] at hb
                  simp only [Except.ok.injEq] at hb
                  subst hb
                  exact ⟨Or.inr ⟨rfl, (Parameters.read_iff ..).mp ht⟩, (Parameters.read_iff ..).mp hv⟩
          · cases mx <;> simp
          · cases mn <;> simp

/-- **C170, refusals.** Unknown names are refused, and a file without `Integrator` gives velocity Verlet with the default values. -/
theorem C170_names (vars : Vars) (ev : Str → Option ℝ) (dims : ℕ) :
    (∀ h, (∀ k, ((params h).head?.map (·.1)).getD [] ≠ name k) → choose vars ev dims h = .error .throws) ∧
    (∀ h k, ((params h).head?.map (·.1)).getD [] = name k → k ≠ .langevin → k ≠ .overdampedLangevin → (dims = 0 ∨ 4 < dims) → choose vars ev dims h = .error .throws) ∧
    (1 ≤ dims → dims ≤ 4 → fileIntegrator vars ev dims none = .ok ⟨.verlet, none, StepSize.St.init⟩) := by
  have none : ∀ h, (∀ k, kindOf dims (((params h).head?.map (·.1)).getD []) ≠ some k) → choose vars ev dims h = .error .throws := by
    intro h hk
    unfold choose
    rw [argName_zero]
    cases hc : kindOf dims (((params h).head?.map (·.1)).getD []) with
    | none => rfl
    | some k => exact absurd hc (hk k)
  refine ⟨fun h hn => none h fun k hk => hn k ((kindOf_iff ..).mp hk).1, fun h k hn h1 h2 hd => none h fun k' hk => ?_, fun h1 h2 => if_pos ⟨h1, h2⟩⟩
  obtain ⟨e, h3⟩ := (kindOf_iff ..).mp hk
  have : k = k' := name_inj _ _ (hn.symm.trans e)
  subst this
  rcases h3 with h3 | h3 | h3
  · exact h1 h3
  · exact h2 h3
  · omega

/-- The headings that are declared, `creators/fileparsecreator.cpp:420-425,446-447`. -/
def declared (k : Kind) : List Str :=
  ["Number".toList, "MaxDT".toList, "MinDT".toList, "Adjust".toList, "UseV".toList, "UseA".toList] ++
    (match k with
      | .langevin | .overdampedLangevin => ["Temperature".toList, "Viscosity".toList]
      | _ => [])

/-- The headings that `check` warns about, `creators/fileparsecreator.cpp:448,453`. -/
def warnings (k : Kind) (h : Head) : List Str := (TreeParser.check (TreeParser.TP.new h) [] (declared k)).unknown

/-- **C170, other headings** (partial). Every heading that the class does not read is named in a warning, and no other. Missing: it is not refused (`C170_negation_other`). -/
theorem C170_warnings_partial (k : Kind) (h : Head) (n : Str) : n ∈ warnings k h ↔ n ∉ declared k ∧ ∃ c ∈ subs h, hd c = n := by
  unfold warnings
  rw [TreeParser.C54_warning h _ TreeParser.Reachable.new [] rfl]
  have e : TreeParser.children h [] = (subs h).zipIdx.map fun c => (hd c.1, [c.2]) := by simp [TreeParser.children, TreeParser.nodeAt]
  rw [e]
  simp only [List.not_mem_nil, not_false_eq_true, true_and, List.mem_map]
  refine and_congr_right fun _ => ⟨?_, ?_⟩
  · rintro ⟨_, ⟨⟨c, i⟩, hc, rfl⟩, rfl⟩
    exact ⟨c, List.fst_mem_of_mem_zipIdx hc, rfl⟩
  · rintro ⟨c, hc, rfl⟩
    obtain ⟨i, hi, rfl⟩ := List.getElem_of_mem hc
    exact ⟨_, ⟨((subs h)[i], i), List.mem_zipIdx_iff_getElem?.mpr (by simp [hi]), rfl⟩, rfl⟩

example : warnings .noseHoover (.mk [] [("NoseHooverVelocityVerlet".toList, [])] [.mk "Temperature".toList [(['1'], [])] []]) = ["Temperature".toList] := by decide +kernel

/-- **C170 is false of other headings.** Trees with the same name and the same headings that the class reads give the same integrator, whatever else they say: a misspelled heading has no effect, and neither has a temperature of the Nosé–Hoover
thermostat, whose temperature cannot be chosen. -/
theorem C170_negation_other (vars : Vars) (ev : Str → Option ℝ) (dims : ℕ) (h h' : Head) (hp : params h = params h')
    (heq : ∀ k, ((params h).head?.map (·.1)).getD [] = name k → ∀ n ∈ declared k, (subs h).find? (fun c => decide (hd c = n)) = (subs h').find? (fun c => decide (hd c = n))) :
    choose vars ev dims h = choose vars ev dims h' := by
  unfold choose
  rw [← hp, argName_zero]
  cases hc : kindOf dims (((params h).head?.map (·.1)).getD []) with
  | none => rfl
  | some k =>
    have hk := heq k ((kindOf_iff ..).mp hc).1
    have e1 : ∀ n ∈ declared k, Templates.firstArgR ev h n = Templates.firstArgR ev h' n := by
      intro n hn
      unfold Templates.firstArgR
      rw [Templates.first_eq, Templates.first_eq, hk n hn]
    have e2 : ∀ n ∈ declared k, textOf vars h n = textOf vars h' n := by
      intro n hn
      unfold textOf
      rw [Templates.first_eq, Templates.first_eq, hk n hn]
    have e3 : ∀ n ∈ declared k, ∀ x, Parameters.read ev h n x = Parameters.read ev h' n x := by
      intro n hn x
      unfold Parameters.read
      rw [e1 n hn]
    have m : ∀ n ∈ ["Number".toList, "MaxDT".toList, "MinDT".toList, "Adjust".toList, "UseV".toList, "UseA".toList], n ∈ declared k := fun n hn => List.mem_append_left _ hn
    have eb : bathOf ev k h = bathOf ev k h' := by
      unfold bathOf
      cases k with
      | verlet => rfl
      | overdamped => rfl
      | noseHoover => rfl
      | langevin => simp only [Kind.temperature, e3 "Temperature".toList (by simp [declared]), e3 "Viscosity".toList (by simp [declared])]
      | overdampedLangevin => simp only [Kind.temperature, e3 "Temperature".toList (by simp [declared]), e3 "Viscosity".toList (by simp [declared])]
    have es : ∀ mx mn, settings vars h mx mn = settings vars h' mx mn := by
      intro mx mn
      unfold settings
      rw [e2 _ (m "Number".toList (by simp)), e2 _ (m "Adjust".toList (by simp)), e2 _ (m "UseV".toList (by simp)), e2 _ (m "UseA".toList (by simp))]
    simp only [eb, es, e1 _ (m "MaxDT".toList (by simp)), e1 _ (m "MinDT".toList (by simp))]

/-! ### Truth values -/

theorem digit_not_space {c : Char} (h : digit c = true) : space c = false ∧ c ≠ '-' ∧ c ≠ '+' := by
  unfold digit at h
  rw [Bool.and_eq_true, decide_eq_true_eq, decide_eq_true_eq] at h
  refine ⟨?_, ?_, ?_⟩
  · unfold space
    simp only [Bool.or_eq_false_iff, decide_eq_false_iff_not]
    refine ⟨⟨⟨⟨⟨?_, ?_⟩, ?_⟩, ?_⟩, ?_⟩, ?_⟩ <;> rintro rfl <;> exact absurd h (by decide)
  · rintro rfl; exact absurd h (by decide)
  · rintro rfl; exact absurd h (by decide)

theorem whole_digits (w : ℕ) (s : Str) (h : Digits s) : whole w s = min ((2 : ℤ) ^ w - 1) (decimal s) := by
  obtain ⟨h0, h1⟩ := h
  cases s with
  | nil => exact absurd rfl h0
  | cons c r =>
    obtain ⟨a1, a2, a3⟩ := digit_not_space (h1 c (by simp))
    unfold whole
    have : (c :: r).dropWhile space = c :: r := by rw [List.dropWhile_cons, a1]; rfl
    have ht : (c :: r).takeWhile digit = c :: r := by
      have := List.takeWhile_append_of_pos (p := digit) (l₁ := c :: r) (l₂ := []) h1
      simpa using this
    rw [this]
    split
    · next e => exact absurd (List.cons.inj e).1 a2
    · next e => exact absurd (List.cons.inj e).1 a3
    · rw [ht]

theorem decimal_zero_iff (s : Str) (h : ∀ c ∈ s, digit c = true) : decimal s = 0 ↔ ∀ c ∈ s, c = '0' := by
  have key : ∀ (s : Str) (n : ℕ), (∀ c ∈ s, digit c = true) →
      (s.foldl (fun n c => 10 * n + (c.toNat - '0'.toNat)) n = 0 ↔ n = 0 ∧ ∀ c ∈ s, c = '0') := by
    intro s
    induction s with
    | nil => intro n _; simp
    | cons c r ih =>
      intro n hc
      rw [List.foldl_cons, ih _ fun c hc' => hc c (by simp [hc'])]
      have h1 := hc c (by simp)
      unfold digit at h1
      rw [Bool.and_eq_true, decide_eq_true_eq, decide_eq_true_eq] at h1
      have h2 : '0'.toNat ≤ c.toNat := h1.1
      have h3 : c.toNat - '0'.toNat = 0 ↔ c = '0' := by
        constructor
        · intro h
          have : c.toNat = '0'.toNat := by omega
          exact Char.toNat_inj.mp this
        · rintro rfl; rfl
      constructor
      · rintro ⟨h4, h5⟩
        have h6 : n = 0 := by omega
        have h7 : c = '0' := h3.mp (by omega)
        exact ⟨h6, by simpa [h7] using h5⟩
      · rintro ⟨rfl, h5⟩
        have h6 := h5 c (by simp)
        exact ⟨by rw [h3.mpr h6], fun c hc' => h5 c (by simp [hc'])⟩
  simpa [decimal] using key s 0 h

theorem decimal_toDigits (n : ℕ) : decimal (Nat.toDigits 10 n) = n := by
  have h : decimal (Nat.toDigits 10 n) = Nat.ofDigitChars 10 (Nat.toDigits 10 n) 0 := by
    rw [Nat.ofDigitChars_eq_foldl]; rfl
  rw [h, Nat.ofDigitChars_ten_toDigits]

theorem toDigits_digits (n : ℕ) : Digits (Nat.toDigits 10 n) := by
  refine ⟨?_, fun c hc => ?_⟩
  · intro h
    have := Nat.length_toDigits_pos (b := 10) (n := n)
    rw [h] at this
    simp at this
  · have := Nat.isDigit_of_mem_toDigits (b := 10) (by norm_num) (by norm_num) hc
    unfold digit
    rw [Char.isDigit] at this
    simpa [Char.le_def] using this

theorem whole_neg (w : ℕ) (s : Str) (h : Digits s) : whole w ('-' :: s) = max (-(2 : ℤ) ^ w) (-(decimal s : ℤ)) := by
  have e : ('-' :: s).dropWhile space = '-' :: s := by
    rw [List.dropWhile_cons, show space '-' = false by decide]; rfl
  have ht : s.takeWhile digit = s := by
    have := List.takeWhile_append_of_pos (p := digit) (l₁ := s) (l₂ := []) h.2
    simpa using this
  unfold whole
  rw [e]
  show max (-(2 : ℤ) ^ w) (-(decimal (s.takeWhile digit) : ℤ)) = _
  rw [ht]

/-- **C170, numbers of steps between adjustments.** `Number: n` with the decimal text of a number `n` that an `int` can hold sets the delay to `n`; a text with a minus sign sets it to 0. Any other text of the same digits with
leading white space, or with something after the digits, does the same. -/
theorem C170_number (vars : Vars) (ev : Str → Option ℝ) (dims : ℕ) (h : Head) (M : Made) (hM : choose vars ev dims h = .ok M) (s : Str) (hg : Given h "Number".toList = some s) (n : ℕ) (hn : n < 2 ^ 31) :
    (lookup vars s = Nat.toDigits 10 n → M.st.delay = n) ∧ (lookup vars s = '-' :: Nat.toDigits 10 n → M.st.delay = 0) ∧
    (∀ (a : Str) (c : Char) (b : Str), (∀ x ∈ a, space x = true) → digit c = false → lookup vars s = a ++ Nat.toDigits 10 n ++ c :: b → M.st.delay = n) := by
  obtain ⟨_, _, _, _, v5, _⟩ := C170_values vars ev dims h M hM
  rw [hg] at v5
  change M.st.delay = max 0 (whole 31 (lookup vars s)) at v5
  have hn' : (n : ℤ) < 2 ^ 31 := by exact_mod_cast hn
  refine ⟨fun hl => ?_, fun hl => ?_, fun a c b ha hc hl => ?_⟩
  · rw [v5, hl, whole_digits 31 _ (toDigits_digits n), decimal_toDigits]
    omega
  · rw [v5, hl, whole_neg 31 _ (toDigits_digits n), decimal_toDigits]
    omega
  · obtain ⟨d0, d1⟩ := toDigits_digits n
    have ht : (Nat.toDigits 10 n ++ c :: b).takeWhile digit = Nat.toDigits 10 n := by
      rw [List.takeWhile_append_of_pos d1, List.takeWhile_cons, hc]
      simp
    have e1 : (a ++ Nat.toDigits 10 n ++ c :: b).dropWhile space = Nat.toDigits 10 n ++ c :: b := by
      rw [List.append_assoc, List.dropWhile_append_of_pos ha]
      cases hq : Nat.toDigits 10 n with
      | nil => exact absurd hq d0
      | cons x r => rw [List.cons_append, List.dropWhile_cons, (digit_not_space (d1 x (by rw [hq]; simp))).1]; rfl
    have e2 : whole 31 (a ++ Nat.toDigits 10 n ++ c :: b) = min ((2 : ℤ) ^ 31 - 1) (n : ℤ) := by
      unfold whole
      rw [e1]
      cases hq : Nat.toDigits 10 n with
      | nil => exact absurd hq d0
      | cons x r =>
        obtain ⟨_, a2, a3⟩ := digit_not_space (d1 x (by rw [hq]; simp))
        split
        · next e => exact absurd (List.cons.inj e).1 a2
        · next e => exact absurd (List.cons.inj e).1 a3
        · rw [← hq, ht, decimal_toDigits]
    rw [v5, hl, e2]
    omega

/-- The texts `12`, `-12` and ` 12;` of the theorem. -/
example : Nat.toDigits 10 12 = ['1', '2'] ∧ lookup [] ['-', '1', '2'] = '-' :: Nat.toDigits 10 12 ∧ lookup [] [' ', '1', '2', ';'] = [' '] ++ Nat.toDigits 10 12 ++ ';' :: [] ∧ space ' ' = true ∧ digit ';' = false := by decide +kernel

/-- **C170, truth values** (partial). A heading that gives a decimal number (or a variable with one) turns a setting on exactly if the number is not 0. Missing: words (`C170_negation_words`). -/
theorem C170_flags_partial (vars : Vars) (ev : Str → Option ℝ) (dims : ℕ) (h : Head) (M : Made) (hM : choose vars ev dims h = .ok M) (s : Str) (hs : Digits (lookup vars s)) :
    (Given h "Adjust".toList = some s → (M.st.adjust = true ↔ ∃ c ∈ lookup vars s, c ≠ '0')) ∧
    (Given h "UseV".toList = some s → (M.st.useV = true ↔ ∃ c ∈ lookup vars s, c ≠ '0')) ∧
    (Given h "UseA".toList = some s → (M.st.useA = true ↔ ∃ c ∈ lookup vars s, c ≠ '0')) ∧
    (Given h "Number".toList = some s → M.st.delay = min (2 ^ 31 - 1) (decimal (lookup vars s) : ℤ)) := by
  have ht : truth (lookup vars s) = true ↔ ∃ c ∈ lookup vars s, c ≠ '0' := by
    unfold truth
    rw [whole_digits 63 _ hs, decide_eq_true_eq]
    have := decimal_zero_iff (lookup vars s) hs.2
    constructor
    · intro h1
      by_contra h2
      push Not at h2
      rw [this.mpr h2] at h1
      exact h1 (by norm_num)
    · rintro ⟨c, hc, h1⟩ h2
      have : decimal (lookup vars s) ≠ 0 := fun e => h1 (this.mp e c hc)
      omega
  obtain ⟨_, _, _, _, v5, v6, v7, v8⟩ := C170_values vars ev dims h M hM
  refine ⟨fun hg => ?_, fun hg => ?_, fun hg => ?_, fun hg => ?_⟩
  · rw [v6, hg]; exact ht
  · rw [v7, hg]; exact ht
  · rw [v8, hg]; exact ht
  · rw [v5, hg]
    show max 0 (whole 31 (lookup vars s)) = _
    rw [whole_digits 31 _ hs]
    have : (0 : ℤ) ≤ (decimal (lookup vars s) : ℤ) := by positivity
    omega

/-- **C170 is false of words.** A text that does not begin with a digit or a sign turns a setting off: `Adjust: true` fixes the time step, and `UseV: true` turns the limit by velocities off, which is on without the heading. -/
theorem C170_negation_words (vars : Vars) (ev : Str → Option ℝ) (dims : ℕ) (h : Head) (M : Made) (hM : choose vars ev dims h = .ok M) (s : Str) (c : Char) (r : Str)
    (hs : lookup vars s = c :: r) (h1 : digit c = false) (h2 : space c = false) (h3 : c ≠ '-') (h4 : c ≠ '+') :
    (Given h "Adjust".toList = some s → M.st.adjust = false) ∧ (Given h "UseV".toList = some s → M.st.useV = false) ∧ (Given h "UseA".toList = some s → M.st.useA = false) := by
  have ht : truth (lookup vars s) = false := by
    unfold truth whole
    rw [hs, List.dropWhile_cons, h2]
    simp only [Bool.false_eq_true, if_false]
    split
    · next e => exact absurd (List.cons.inj e).1 h3
    · next e => exact absurd (List.cons.inj e).1 h4
    · rw [List.takeWhile_cons, h1]; simp [decimal]
  obtain ⟨_, _, _, _, _, v6, v7, v8⟩ := C170_values vars ev dims h M hM
  refine ⟨fun hg => ?_, fun hg => ?_, fun hg => ?_⟩
  · rw [v6, hg]; exact ht
  · rw [v7, hg]; exact ht
  · rw [v8, hg]; exact ht

/-- `Integrator: VelocityVerlet { Adjust: true }` is accepted and turns adjustment off; `Adjust: 1` turns it on. -/
example (ev : Str → Option ℝ) : (∃ M, choose [] ev 2 (.mk [] [("VelocityVerlet".toList, [])] [.mk "Adjust".toList [("true".toList, [])] []]) = .ok M ∧ M.st.adjust = false) ∧
    Digits (lookup [] ['1']) ∧ (∃ M, choose [] ev 2 (.mk [] [("VelocityVerlet".toList, [])] [.mk "Adjust".toList [(['1'], [])] []]) = .ok M ∧ M.st.adjust = true) := by
  have ok : ∀ t : Str, ∃ M, choose [] ev 2 (.mk [] [("VelocityVerlet".toList, [])] [.mk "Adjust".toList [(t, [])] []]) = .ok M := by
    intro t
    have hk : kindOf 2 ((TreeParser.argName (params (.mk [] [("VelocityVerlet".toList, [])] [.mk "Adjust".toList [(t, [])] []])) 0).getD []) = some .verlet := by
      rw [argName_zero]; exact (kindOf_iff ..).mpr ⟨rfl, by simp⟩
    have h1 : ∀ n : Str, n ≠ "Adjust".toList → Templates.firstArgR ev (.mk [] [("VelocityVerlet".toList, [])] [.mk "Adjust".toList [(t, [])] []]) n = .ok none := by
      intro n hn
      rw [firstArgR_iff]
      have : ¬ "Adjust".toList = n := fun e => hn e.symm
      unfold Given
      rw [subs, List.find?_cons_of_neg (by rw [decide_eq_true_eq]; exact this)]
      rfl
    unfold choose
    rw [hk]
    simp only [bathOf, Kind.temperature, h1 "MaxDT".toList (by decide), h1 "MinDT".toList (by decide)]
    exact ⟨_, rfl⟩
  have g : ∀ t : Str, t ≠ [] → Given (.mk [] [("VelocityVerlet".toList, [])] [.mk "Adjust".toList [(t, [])] []]) "Adjust".toList = some t := by
    intro t ht
    unfold Given
    rw [subs, List.find?_cons_of_pos (by simp [hd])]
    simp [params, ht]
  have hd1 : Digits (lookup [] ['1']) := ⟨by decide, by decide⟩
  obtain ⟨M, hM⟩ := ok "true".toList
  obtain ⟨M', hM'⟩ := ok ['1']
  exact ⟨⟨M, hM, (C170_negation_words [] ev 2 _ M hM "true".toList 't' "rue".toList rfl (by decide) (by decide) (by decide) (by decide)).1 (g _ (by decide))⟩, hd1,
    ⟨M', hM', ((C170_flags_partial [] ev 2 _ M' hM' ['1'] hd1).1 (g _ (by decide))).mpr ⟨'1', by decide, by decide⟩⟩⟩

/-! ### Time steps -/

/-- **C170, time steps** (partial). If the smallest time step is not above the largest, then from the start of a run all time steps of the chosen integrator, if it adjusts them, are within the limits of the file. Missing: crossed limits
(`C170_negation_limits`); overdamped integrators, which have their own rule (C40). -/
theorem C170_steps_partial (vars : Vars) (ev : Str → Option ℝ) (dims : ℕ) (h : Head) (M : Made) (hM : choose vars ev dims h = .ok M) (hb : M.st.minDt ≤ M.st.maxDt) (ha : M.st.adjust = true)
    (sgs : List ℝ) (hg : sgs ≠ [] ∧ ∀ r ∈ sgs, 0 < r) (steps : List (Bool × ℝ × ℝ)) (hst : ∀ p ∈ steps, 0 ≤ p.2.1 ∧ (0 ≤ p.2.2 ∨ p.2.2 = -1)) :
    ∃ r, (steps.foldl (fun s p => s.preStep p.1 p.2.1 p.2.2) (M.st.preIntegrate sgs sgs.length)).dt = .fin r ∧ M.st.minDt ≤ r ∧ r ≤ M.st.maxDt := by
  obtain ⟨ops, hops, hsane⟩ : ∃ ops : List StepSize.Op, M.st = StepSize.run ops ∧ ∀ o ∈ ops, o.Sane := by
    unfold choose at hM
    split at hM
    · simp at hM
    · split at hM
      · simp at hM
      · split at hM
        · simp at hM
        · next mx _ =>
          split at hM
          · simp at hM
          · next mn _ =>
            simp only [Except.ok.injEq] at hM
            subst hM
            refine ⟨settings vars h mx mn, rfl, fun o ho => ?_⟩
            unfold settings at ho
            simp only [List.mem_append, Option.mem_toList, Option.map_eq_some_iff] at ho
            rcases ho with ((((ho | ho) | ho) | ho) | ho) | ho <;> obtain ⟨_, _, rfl⟩ := ho <;> trivial
  rw [hops] at hb ha ⊢
  have := StepSize.C40_run_in_bounds ops hsane hb ha sgs hg steps hst
  unfold StepSize.run at this ⊢
  rw [List.foldl_append, List.foldl_cons, List.foldl_map] at this
  exact this

/-- **C170 is false of crossed limits.** A file that lowers the largest time step below the default of the smallest, 10⁻⁶, without lowering that, is accepted, and the run starts with a time step above the limit of the file. -/
theorem C170_negation_limits (vars : Vars) (ev : Str → Option ℝ) (tx : Str) (htx : tx ≠ []) (t : ℝ) (ht : ev tx = some t) (h0 : 0 < t) (h1 : t < 1/1000000) (sgs : List ℝ) :
    ∃ M, choose vars ev 2 (.mk [] [("VelocityVerlet".toList, [])] [.mk "MaxDT".toList [(tx, [])] []]) = .ok M ∧ M.st.maxDt = t ∧ M.st.adjust = true ∧
      ∃ r, (M.st.preIntegrate sgs sgs.length).dt = .fin r ∧ M.st.maxDt < r := by
  set h : Head := .mk [] [("VelocityVerlet".toList, [])] [.mk "MaxDT".toList [(tx, [])] []] with hh
  have hk : kindOf 2 ((TreeParser.argName (params h) 0).getD []) = some .verlet := by
    rw [argName_zero]; exact (kindOf_iff ..).mpr ⟨rfl, by simp⟩
  have gx : Given h "MaxDT".toList = some tx := by
    unfold Given
    rw [hh, subs, List.find?_cons_of_pos (by simp [hd])]
    simp [params, htx]
  have gn : ∀ n : Str, n ≠ "MaxDT".toList → Given h n = none := by
    intro n hn
    have : ¬ "MaxDT".toList = n := fun e => hn e.symm
    unfold Given
    rw [hh, subs, List.find?_cons_of_neg (by rw [decide_eq_true_eq]; exact this)]
    rfl
  have h2 : Templates.firstArgR ev h "MaxDT".toList = .ok (some t) := by rw [firstArgR_iff, gx]; simp [ht]
  have h3 : Templates.firstArgR ev h "MinDT".toList = .ok none := by rw [firstArgR_iff, gn _ (by decide)]; rfl
  refine ⟨⟨.verlet, none, (settings vars h (some t) none).foldl StepSize.St.step StepSize.St.init⟩, ?_, ?_⟩
  · unfold choose
    rw [hk]
    simp only [bathOf, Kind.temperature, h2, h3]
  · rw [settings_fold]
    simp only [textOf_eq, gn "Adjust".toList (by decide), Option.map_none, Option.getD_none, if_pos h0, StepSize.St.preIntegrate, if_true, true_and]
    exact ⟨_, rfl, h1⟩

example : (0 : ℝ) < 1/10000000 ∧ (1/10000000 : ℝ) < 1/1000000 := by norm_num

/-- **C170 is false of values without meaning.** Negative temperatures and viscosities, or a viscosity 0, are accepted as they are; the noise of the integrator is then the root of a negative number or a quotient by 0. -/
theorem C170_negation_bath (vars : Vars) (ev : Str → Option ℝ) (dims : ℕ) (tx vx : Str) (htx : tx ≠ []) (hvx : vx ≠ []) (t v : ℝ) (ht : ev tx = some t) (hv : ev vx = some v) :
    ∃ M, choose vars ev dims (.mk [] [("LangevinIntegrator".toList, [])] [.mk "Temperature".toList [(tx, [])] [], .mk "Viscosity".toList [(vx, [])] []]) = .ok M ∧ M.kind = .langevin ∧ M.bath = some (t, v) := by
  set h : Head := .mk [] [("LangevinIntegrator".toList, [])] [.mk "Temperature".toList [(tx, [])] [], .mk "Viscosity".toList [(vx, [])] []] with hh
  have hk : kindOf dims ((TreeParser.argName (params h) 0).getD []) = some .langevin := by
    rw [argName_zero]; exact (kindOf_iff ..).mpr ⟨rfl, Or.inl rfl⟩
  have gn : ∀ n : Str, n ≠ "Temperature".toList → n ≠ "Viscosity".toList → Given h n = none := by
    intro n hn hn'
    have e1 : ¬ "Temperature".toList = n := fun e => hn e.symm
    have e2 : ¬ "Viscosity".toList = n := fun e => hn' e.symm
    unfold Given
    rw [hh, subs, List.find?_cons_of_neg (by rw [decide_eq_true_eq]; exact e1), List.find?_cons_of_neg (by rw [decide_eq_true_eq]; exact e2)]
    rfl
  have h2 : Templates.firstArgR ev h "MaxDT".toList = .ok none := by rw [firstArgR_iff, gn _ (by decide) (by decide)]; rfl
  have h3 : Templates.firstArgR ev h "MinDT".toList = .ok none := by rw [firstArgR_iff, gn _ (by decide) (by decide)]; rfl
  have r1 : Parameters.read ev h "Temperature".toList 0.025 = .ok t := by
    rw [Parameters.read_iff]
    unfold Says
    rw [hh, subs, List.find?_cons_of_pos (by simp [hd])]
    simp [params, htx, ht]
  have r2 : Parameters.read ev h "Viscosity".toList 1.308e-3 = .ok v := by
    rw [Parameters.read_iff]
    unfold Says
    rw [hh, subs, List.find?_cons_of_neg (by rw [decide_eq_true_eq]; show ¬ "Temperature".toList = "Viscosity".toList; decide), List.find?_cons_of_pos (by simp [hd])]
    simp [params, hvx, hv]
  refine ⟨⟨.langevin, some (t, v), (settings vars h none none).foldl StepSize.St.step StepSize.St.init⟩, ?_, rfl, rfl⟩
  unfold choose
  rw [hk]
  simp only [bathOf, Kind.temperature, r1, r2, h2, h3]

end Verif.FileIntegrator
