import Verif.Creators.SetupFile
import Verif.Creators.Thermal

/-!
# Particle templates of setup files (C166)

Models `creators/helperclasses/parse-constructor.cpp:69-235` (`parse_particle_template`, `getRandomEngine`) with the accessors of `utility/treeparser.cpp`. Trees are those of `Verif.FileParse`. `ev` stands for
`Eval::evaluate(., variables)`, with `none` for an evaluation that is undefined (see `Verif.Eval`); exact real arithmetic.
-/

namespace Verif.Templates
open FileParse (Head)
open TreeParser (hd params subs nodeAt sortOptions)
open SetupFile (Str Err)

/-- The map of variables: names with their texts. -/
abbrev Vars := List (Str × Str)

/-- The node that `headings.find` gives for a parser that is focused on `h`, e.g. `utility/treeparser.cpp:34-38`. -/
def first (h : Head) (name : Str) : Option Head := ((TreeParser.TP.new h).find name).bind fun e => nodeAt h e.2

/-- A text that is the name of a variable is replaced by the text of the variable, `utility/treeparser.cpp:13-17`, `utility/treeparser.hpp:209-213` (with `convert<string>`, the identity,
`utility/printingutility.hpp:74-76`). -/
def lookup (vars : Vars) (s : Str) : Str := ((vars.find? fun v => v.1 = s).map (·.2)).getD s

/-- `arg<RealType>(v, i)` where the caller throws an exception if it returns false, `utility/treeparser.cpp:9-23`. -/
def argR (vars : Vars) (ev : Str → Option ℝ) (ps : List (Str × Str)) (i : ℤ) : Except Err ℝ :=
  match TreeParser.arg vars ev ps i with
  | some (true, some (some x)) => .ok x
  | some (false, _) => .error .throws
  | _ => .error .undef

/-- `val<RealType>(v)` where the caller throws an exception if it returns false, `utility/treeparser.cpp:61-68`. -/
def valR (ev : Str → Option ℝ) (ps : List (Str × Str)) : Except Err ℝ :=
  match TreeParser.val ev ps 0 with
  | some (true, some (some x)) => .ok x
  | some (false, _) => .error .throws
  | _ => .error .undef

/-- `firstArg<RealType>(name, v)`, `utility/treeparser.cpp:33-49`: `none` if it returns false and does not set `v`. -/
def firstArgR (ev : Str → Option ℝ) (h : Head) (name : Str) : Except Err (Option ℝ) :=
  match first h name with
  | none => .ok none
  | some n =>
    match TreeParser.firstArg ev (params n) with
    | (true, some (some x)) => .ok (some x)
    | (false, _) => .ok none
    | _ => .error .undef

/-- The random engines, `utility/randomengines.hpp:19-124`, with their parameters. -/
inductive Engine where
  | det (v : ℝ)
  | uniform (lower upper : ℝ)
  | proportional (lower upper : ℝ) (dims : ℕ)
  | normal (ave var : ℝ)
  | disc (probabilities values : List ℝ)

/-- Two parameters in the body, `creators/helperclasses/parse-constructor.cpp:191-199,203-213,216-223`. -/
def twoArgs (ev : Str → Option ℝ) (h : Head) (n1 n2 : Str) : Except Err (ℝ × ℝ) :=
  if (subs h).length ≠ 2 then .error .throws
  else
    match firstArgR ev h n1 with
    | .error e => .error e
    | .ok none => .error .throws
    | .ok (some a) =>
      match firstArgR ev h n2 with
      | .error e => .error e
      | .ok none => .error .throws
      | .ok (some b) => .ok (a, b)

/-- The loop over the entries of a discrete distribution, `creators/helperclasses/parse-constructor.cpp:165-188`: values and probabilities. Both calls of `arg` have the index 0. -/
def discLoop (vars : Vars) (ev : Str → Option ℝ) (h : Head) : List (Str × List ℕ) → Except Err (List ℝ × List ℝ)
  | [] => .ok ([], [])
  | e :: es =>
    match nodeAt h e.2 with
    | none => .error .undef
    | some n =>
      if hd n ≠ ['P'] then .error .throws
      else if (params n).length ≠ 2 then .error .throws
      else if TreeParser.valName (params n) 0 ≠ some [] ∨ TreeParser.valName (params n) 1 ≠ some [] then .error .throws
      else
        match argR vars ev (params n) 0 with
        | .error x => .error x
        | .ok v =>
          match argR vars ev (params n) 0 with
          | .error x => .error x
          | .ok p =>
            match discLoop vars ev h es with
            | .error x => .error x
            | .ok r => .ok (v :: r.1, p :: r.2)

/-- `isdigit`. -/
def digit (c : Char) : Bool := '0' ≤ c && c ≤ '9'

/-- The engine for a heading with a body, `creators/helperclasses/parse-constructor.cpp:160-229`. -/
noncomputable def engineBody (vars : Vars) (ev : Str → Option ℝ) (d : ℕ) (h : Head) (param : Str) : Except Err (Str × Engine) :=
  if param = ['R', 'a', 'n', 'd', 'o', 'm'] then
    match discLoop vars ev h (sortOptions h (some [])) with
    | .error x => .error x
    | .ok (vs, ps) => .ok ([], .disc ps vs)
  else if param = ['U', 'n', 'i', 'f', 'o', 'r', 'm'] then
    match twoArgs ev h ['M', 'i', 'n'] ['M', 'a', 'x'] with
    | .error x => .error x
    | .ok (a, b) => .ok ([], .uniform a b)
  else if param = ['P', 'r', 'o', 'p', 'o', 'r', 't', 'i', 'o', 'n', 'a', 'l'] then
    match twoArgs ev h ['M', 'i', 'n'] ['M', 'a', 'x'] with
    | .error x => .error x
    | .ok (a, b) => .ok ([], if d = 1 then .uniform a b else .proportional a b d)
  else if param = ['N', 'o', 'r', 'm', 'a', 'l'] then
    match twoArgs ev h ['A', 'v', 'e'] ['V', 'a', 'r'] with
    | .error x => .error x
    | .ok (a, b) => .ok ([], .normal a b)
  else .error .throws

/-- `getRandomEngine`, `creators/helperclasses/parse-constructor.cpp:117-235`: the type string and the engine. -/
noncomputable def engine (vars : Vars) (ev : Str → Option ℝ) (d ntypes : ℕ) (h : Head) : Except Err (Str × Engine) :=
  match params h with
  | [(a, b)] =>
    if b ≠ [] then
      match argR vars ev (params h) 0 with
      | .error x => .error x
      | .ok v => .ok (a, .det v)
    else if (subs h).length = 0 then
      match lookup vars a with
      | [] => .error .throws
      | c :: r =>
        if digit c then
          match argR vars ev (params h) 0 with
          | .error x => .error x
          | .ok v => .ok ([], .det v)
        else if hd h = ['T', 'y', 'p', 'e'] ∧ c :: r = ['E', 'q', 'u', 'i', 'p', 'r', 'o', 'b', 'a', 'b', 'l', 'e'] then
          .ok (c :: r, .disc ((List.range ntypes).map fun _ => 1 / (ntypes : ℝ)) ((List.range ntypes).map fun i : ℕ => (i : ℝ)))
        else .ok (c :: r, .det 0)
    else engineBody vars ev d h a
  | _ => .error .throws

/-- `ParticleTemplate`, `creators/particletemplate.hpp:8-31`, as far as it is set from files. `density` says that `mass_string` is `Density`. -/
structure Template where
  radius : Engine
  radiusTag : Str
  density : Bool
  mass : ℝ
  type : Engine
  typeTag : Str

/-- The mass, `creators/helperclasses/parse-constructor.cpp:91-106`. -/
def massOf (vars : Vars) (ev : Str → Option ℝ) (ps : List (Str × Str)) : Except Err (Bool × ℝ) :=
  if TreeParser.argName ps 0 = some ['D', 'e', 'n', 's', 'i', 't', 'y'] then
    match valR ev ps with
    | .error x => .error x
    | .ok m => .ok (true, m)
  else
    match argR vars ev ps 0 with
    | .error x => .error x
    | .ok m => .ok (false, m)

/-- The heading `Radius` of a template, `creators/helperclasses/parse-constructor.cpp:75-77`. -/
def kRadius : Str := ['R', 'a', 'd', 'i', 'u', 's']
/-- The heading `Mass` of a template, `creators/helperclasses/parse-constructor.cpp:75-77`. -/
def kMass : Str := ['M', 'a', 's', 's']
/-- The heading `Type` of a template, `creators/helperclasses/parse-constructor.cpp:75-77`. -/
def kType : Str := ['T', 'y', 'p', 'e']

/-- The engine of a heading after `focus0`, `creators/helperclasses/parse-constructor.cpp:85-87,109-111`. -/
noncomputable def engineAt (vars : Vars) (ev : Str → Option ℝ) (d ntypes : ℕ) (h : Head) (name : Str) : Except Err (Str × Engine) :=
  match first h name with
  | none => .error .undef
  | some n => engine vars ev d ntypes n

/-- The mass after `focus0`, `creators/helperclasses/parse-constructor.cpp:90-106`. -/
def massAt (vars : Vars) (ev : Str → Option ℝ) (h : Head) : Except Err (Bool × ℝ) :=
  match first h kMass with
  | none => .error .undef
  | some n => massOf vars ev (params n)

/-- `parse_particle_template` up to the insertion, `creators/helperclasses/parse-constructor.cpp:69-111`. -/
noncomputable def parseTemplate (vars : Vars) (ev : Str → Option ℝ) (d ntypes : ℕ) (h : Head) : Except Err Template :=
  if (TreeParser.check (TreeParser.TP.new h) [kRadius, kMass, kType] []).throws then .error .throws
  else
    match engineAt vars ev d ntypes h kRadius with
    | .error x => .error x
    | .ok (rt, r) =>
      match massAt vars ev h with
      | .error x => .error x
      | .ok (dens, m) =>
        match engineAt vars ev d ntypes h kType with
        | .error x => .error x
        | .ok (tt, t) => .ok ⟨r, rt, dens, m, t, tt⟩

/-- The templates by name. -/
abbrev Temps := Str → Option Template

/-- `std::map::insert`. -/
def Temps.insert (ts : Temps) (name : Str) (t : Template) : Temps :=
  match ts name with
  | none => Function.update ts name (some t)
  | some _ => ts

/-- `parse_particle_template`, `creators/helperclasses/parse-constructor.cpp:69-115`: the name is the first parameter of the heading. -/
noncomputable def addTemplate (vars : Vars) (ev : Str → Option ℝ) (d ntypes : ℕ) (ts : Temps) (h : Head) : Except Err Temps :=
  match parseTemplate vars ev d ntypes h with
  | .error x => .error x
  | .ok t =>
    match params h with
    | [] => .error .undef
    | p :: _ => .ok (ts.insert p.1 t)

/-- The loop over the headings `Template`, `creators/fileparsecreator.cpp:344-348`, `creators/fillareacreator.cpp:43-49`. -/
noncomputable def addTemplates (vars : Vars) (ev : Str → Option ℝ) (d ntypes : ℕ) : Temps → List Head → Except Err Temps :=
  SetupFile.each (addTemplate vars ev d ntypes)

/-- What the engine generates, `utility/randomengines.hpp:26-28,47-51,70-73,88-90,103`, from a random choice `u` of the library: a number of the interval or of the normal distribution, or an index. -/
noncomputable def Engine.generate : Engine → ℝ → ℕ → Option ℝ
  | .det v, _, _ => some v
  | .uniform _ _, u, _ => some u
  | .proportional l u _, x, _ => some (Thermal.proportional l u x)
  | .normal _ _, u, _ => some u
  | .disc ps vs, _, i => Thermal.discrete ps vs i

/-! ## Lemmas -/

theorem first_eq (h : Head) (name : Str) : first h name = (subs h).find? fun c => decide (hd c = name) := by
  unfold first
  rw [TreeParser.find_iff h _ TreeParser.Reachable.new.inv [] rfl]
  have e : TreeParser.children h [] = (subs h).zipIdx.map fun c => (hd c.1, [c.2]) := by simp [TreeParser.children, TreeParser.nodeAt]
  rw [e]
  have key : ∀ (l : List Head) (n : ℕ), (∀ i (hi : i < l.length), (subs h)[n + i]? = some l[i]) →
      ((((l.zipIdx n).map fun c => (hd c.1, [c.2])).filter fun x => decide (x.1 = name)).head?).bind (fun e => nodeAt h e.2) =
        l.find? fun c => decide (hd c = name) := by
    intro l
    induction l with
    | nil => intro n _; rfl
    | cons c l ih =>
      intro n hn
      rw [List.zipIdx_cons, List.map_cons, List.filter_cons, List.find?_cons]
      by_cases hc : hd c = name
      · have := hn 0 (by simp)
        simp only [Nat.add_zero, List.getElem_cons_zero] at this
        simp [hc, TreeParser.nodeAt, this]
      · simp only [hc, decide_false, Bool.false_eq_true, if_false]
        apply ih
        intro i hi
        have := hn (i + 1) (by simpa using hi)
        simpa [Nat.add_assoc, Nat.add_comm 1 i] using this
  exact key (subs h) 0 (fun i hi => by simp [hi])

theorem arg_eq (vars : Vars) (ev : Str → Option ℝ) (ps : List (Str × Str)) (i : ℕ) :
    TreeParser.arg vars ev ps i = ps[i]?.map fun e => (true, some (ev (lookup vars e.1))) := by
  unfold TreeParser.arg
  rw [TreeParser.guard_nonneg _ _ (by omega)]
  simp only [TreeParser.elem, Int.natCast_nonneg, Int.toNat_natCast, if_true]
  rfl

theorem argR_cons (vars : Vars) (ev : Str → Option ℝ) (e : Str × Str) (ps : List (Str × Str)) :
    argR vars ev (e :: ps) 0 = match ev (lookup vars e.1) with
      | some x => .ok x
      | none => .error .undef := by
  have := arg_eq vars ev (e :: ps) 0
  unfold argR
  rw [show (0 : ℤ) = ((0 : ℕ) : ℤ) from rfl, this]
  simp only [List.getElem?_cons_zero, Option.map_some]
  cases ev (lookup vars e.1) <;> rfl

theorem argR_ok (vars : Vars) (ev : Str → Option ℝ) (e : Str × Str) (ps : List (Str × Str)) {x : ℝ} (h : ev (lookup vars e.1) = some x) :
    argR vars ev (e :: ps) 0 = .ok x := by
  rw [argR_cons, h]

theorem argR_nil (vars : Vars) (ev : Str → Option ℝ) : argR vars ev [] 0 = .error .undef := by
  have := arg_eq vars ev [] 0
  unfold argR
  rw [show (0 : ℤ) = ((0 : ℕ) : ℤ) from rfl, this]
  rfl

/-! ## Engines (C166) -/

variable (vars : Vars) (ev : Str → Option ℝ) (d ntypes : ℕ)

/-- **C166, numbers (partial).** A radius or type that is given as a number, or as the name of a variable whose text is a number, or as an expression, has the value of that text — if the text begins with a digit.
Missing: texts that do not begin with a digit, see `C166_negation_number`. -/
theorem C166_number_partial (name a : Str) (x : ℝ) (hx : ev (lookup vars a) = some x) (hd : ∃ c r, lookup vars a = c :: r ∧ '0' ≤ c ∧ c ≤ '9') :
    engine vars ev d ntypes (.mk name [(a, [])] []) = .ok ([], .det x) := by
  obtain ⟨c, r, h1, h2, h3⟩ := hd
  have hdg : digit c = true := by simp [digit, h2, h3]
  simp only [engine, params, subs, ne_eq, not_true, if_false, List.length_nil, if_true, h1, hdg, argR_ok vars ev (a, []) [] hx]

/-- **C166 is false of other texts.** Every text that does not begin with a digit (a product that begins with a variable, a negative number, `.5`, a parenthesis) gives the constant 0, whatever its value, without an
error; exceptions are `Type: Equiprobable`. -/
theorem C166_negation_number (name a : Str) (c : Char) (r : Str) (h : lookup vars a = c :: r) (hc : digit c = false)
    (he : ¬(name = kType ∧ c :: r = ['E', 'q', 'u', 'i', 'p', 'r', 'o', 'b', 'a', 'b', 'l', 'e'])) :
    engine vars ev d ntypes (.mk name [(a, [])] []) = .ok (c :: r, .det 0) := by
  have he' : ¬(name = ['T', 'y', 'p', 'e'] ∧ c :: r = ['E', 'q', 'u', 'i', 'p', 'r', 'o', 'b', 'a', 'b', 'l', 'e']) := he
  simp only [engine, params, subs, hd, ne_eq, not_true, if_false, List.length_nil, if_true, h, hc, Bool.false_eq_true]
  exact if_neg he'

/-- A case of it: `Radius: r/2` with a variable `r`. The text has the value `r / 2`, the radius is 0. -/
example (num : Str → ℝ) (hr : num ['r'] = 3) (h2 : num ['2'] = 2) :
    (fun t => Eval.evaluate num t) ['r', '/', '2'] = some (3 / 2) ∧
    engine [(['r'], ['3'])] (fun t => Eval.evaluate num t) 2 1 (.mk kRadius [(['r', '/', '2'], [])] []) = .ok (['r', '/', '2'], .det 0) := by
  refine ⟨?_, C166_negation_number _ _ _ _ _ _ 'r' ['/', '2'] (by decide +kernel) (by decide +kernel) (by decide +kernel)⟩
  have e : Eval.parse .start ['r', '/', '2'] = some (.node ['/'] (.node ['r'] .nil .nil) (.node ['2'] .nil .nil), []) := by decide +kernel
  simp [Eval.evaluate, e, Eval.evalT, hr, h2]

/-- `Radius: r` with the variable `r` meets the hypotheses of `C166_number_partial`. -/
example (num : Str → ℝ) (h3 : num ['3'] = 3) :
    engine [(['r'], ['3'])] (fun t => Eval.evaluate num t) 2 1 (.mk kRadius [(['r'], [])] []) = .ok ([], .det 3) := by
  refine C166_number_partial _ _ _ _ _ _ 3 ?_ ⟨'3', [], by decide +kernel, by decide +kernel, by decide +kernel⟩
  have e0 : lookup [(['r'], ['3'])] ['r'] = ['3'] := by decide +kernel
  have e : Eval.parse .start ['3'] = some (.node ['3'] .nil .nil, []) := by decide +kernel
  rw [e0]
  simp [Eval.evaluate, e, Eval.evalT, h3]

/-- **C166 is false of values after an equals sign.** In `Radius: a=b` the value of `a` is taken, whatever `b` says. -/
theorem C166_negation_assigned (name a : Str) (b : Str) (hb : b ≠ []) (hs : List Head) (x : ℝ) (hx : ev (lookup vars a) = some x) :
    engine vars ev d ntypes (.mk name [(a, b)] hs) = .ok (a, .det x) := by
  simp only [engine, params, if_pos hb, argR_ok vars ev (a, b) [] hx]

example : engine [] (fun t => if t = ['x'] then some 0 else some 5) 2 1 (.mk kRadius [(['x'], ['5'])] []) = .ok (['x'], .det 0) :=
  C166_negation_assigned _ _ _ _ _ _ _ (by decide) _ _ (by simp [lookup])

/-- **C166, types.** `Type: Equiprobable` gives every type the same probability. -/
theorem C166_equiprobable (hv : lookup vars ['E', 'q', 'u', 'i', 'p', 'r', 'o', 'b', 'a', 'b', 'l', 'e'] = ['E', 'q', 'u', 'i', 'p', 'r', 'o', 'b', 'a', 'b', 'l', 'e']) :
    ∃ tag ps vs, engine vars ev d ntypes (.mk kType [(['E', 'q', 'u', 'i', 'p', 'r', 'o', 'b', 'a', 'b', 'l', 'e'], [])] []) = .ok (tag, .disc ps vs) ∧
      ps.length = ntypes ∧ vs.length = ntypes ∧ (∀ i < ntypes, ps[i]? = some (1 / (ntypes : ℝ)) ∧ vs[i]? = some (i : ℝ)) := by
  have hdg : digit 'E' = false := by decide +kernel
  refine ⟨['E', 'q', 'u', 'i', 'p', 'r', 'o', 'b', 'a', 'b', 'l', 'e'], (List.range ntypes).map fun _ => 1 / (ntypes : ℝ), (List.range ntypes).map fun i : ℕ => (i : ℝ), ?_, by simp, by simp, ?_⟩
  · simp only [engine, params, subs, hd, ne_eq, not_true, if_false, List.length_nil, if_true, hv, hdg, Bool.false_eq_true, kType, true_and]
  · intro i hi
    simp [hi]

/-- A heading that gives the value `x`: the first parameter of the first heading of this name. -/
def Gives (h : Head) (name : Str) (x : ℝ) : Prop :=
  ∃ n a b r, (subs h).find? (fun c => decide (hd c = name)) = some n ∧ params n = (a, b) :: r ∧ a ≠ [] ∧ ev a = some x

theorem firstArg_gives {h : Head} {name : Str} {x : ℝ} (hg : Gives ev h name x) : firstArgR ev h name = .ok (some x) := by
  obtain ⟨n, a, b, r, h1, h2, h3, h4⟩ := hg
  unfold firstArgR
  rw [first_eq, h1]
  simp only [h2, TreeParser.firstArg, ne_eq, h3, not_false_eq_true, if_true, h4]

theorem two_gives {h : Head} {n1 n2 : Str} {x y : ℝ} (hl : (subs h).length = 2) (h1 : Gives ev h n1 x) (h2 : Gives ev h n2 y) :
    twoArgs ev h n1 n2 = .ok (x, y) := by
  simp only [twoArgs, hl, ne_eq, not_true, if_false, firstArg_gives ev h1, firstArg_gives ev h2]

/-- **C166, distributions.** `Uniform`, `Proportional` and `Normal` with their two parameters, in any order, give the engine with these parameters. -/
theorem C166_distributions (name : Str) (u v : Head) (x y : ℝ) (n1 n2 : Str)
    (h1 : ∀ p, Gives ev (.mk name p [u, v]) n1 x) (h2 : ∀ p, Gives ev (.mk name p [u, v]) n2 y) :
    (n1 = ['M', 'i', 'n'] → n2 = ['M', 'a', 'x'] → engine vars ev d ntypes (.mk name [(['U', 'n', 'i', 'f', 'o', 'r', 'm'], [])] [u, v]) = .ok ([], .uniform x y)) ∧
    (n1 = ['M', 'i', 'n'] → n2 = ['M', 'a', 'x'] → engine vars ev d ntypes (.mk name [(['P', 'r', 'o', 'p', 'o', 'r', 't', 'i', 'o', 'n', 'a', 'l'], [])] [u, v]) =
      .ok ([], if d = 1 then .uniform x y else .proportional x y d)) ∧
    (n1 = ['A', 'v', 'e'] → n2 = ['V', 'a', 'r'] → engine vars ev d ntypes (.mk name [(['N', 'o', 'r', 'm', 'a', 'l'], [])] [u, v]) = .ok ([], .normal x y)) := by
  have two : ∀ p, twoArgs ev (.mk name p [u, v]) n1 n2 = .ok (x, y) := fun p => two_gives ev rfl (h1 p) (h2 p)
  refine ⟨?_, ?_, ?_⟩ <;> intro e1 e2 <;> subst e1 <;> subst e2 <;>
    simp [engine, params, subs, engineBody, two]

example : engine [] (fun t => if t = ['1'] then some 1 else if t = ['2'] then some 2 else none) 2 1
    (.mk kRadius [(['U', 'n', 'i', 'f', 'o', 'r', 'm'], [])] [.mk ['M', 'a', 'x'] [(['2'], [])] [], .mk ['M', 'i', 'n'] [(['1'], [])] []]) = .ok ([], .uniform 1 2) := by
  refine (C166_distributions _ _ _ _ _ _ _ 1 2 ['M', 'i', 'n'] ['M', 'a', 'x'] (fun p => ?_) (fun p => ?_)).1 rfl rfl
  · exact ⟨.mk ['M', 'i', 'n'] [(['1'], [])] [], ['1'], [], [], by simp [subs, hd], rfl, by decide, by simp⟩
  · exact ⟨.mk ['M', 'a', 'x'] [(['2'], [])] [], ['2'], [], [], by simp [subs, hd], rfl, by decide, by simp⟩

/-- The entries of a discrete distribution. -/
def entries (es : List (Str × Str)) : List Head := es.map fun e => .mk ['P'] [(e.1, []), (e.2, [])] []

theorem sorted_entries (name : Str) (ps : List (Str × Str)) (es : List (Str × Str)) :
    sortOptions (.mk name ps (entries es)) (some []) = (List.range es.length).map fun i => (['P'], [i]) := by
  have h1 : TreeParser.children (.mk name ps (entries es)) [] = (List.range es.length).map fun i => (['P'], [i]) := by
    simp only [TreeParser.children, TreeParser.nodeAt, subs, entries, List.nil_append]
    apply List.ext_getElem
    · simp
    · intro i h1 h2; simp [hd]
  have h2 := (TreeParser.sortOptions_some (.mk name ps (entries es)) [] ['P']).2
  have hperm : (sortOptions (.mk name ps (entries es)) (some [])).Perm (TreeParser.children (.mk name ps (entries es)) []) := by
    have := TreeParser.foldl_perm (TreeParser.children (.mk name ps (entries es)) []) []
    simpa [sortOptions] using this
  rw [List.filter_eq_self.mpr, List.filter_eq_self.mpr, h1] at h2
  · exact h2
  · intro a ha
    rw [h1] at ha
    obtain ⟨i, _, rfl⟩ := List.mem_map.mp ha
    simp
  · intro a ha
    have := hperm.mem_iff.mp ha
    rw [h1] at this
    obtain ⟨i, _, rfl⟩ := List.mem_map.mp this
    simp

theorem discLoop_entries (name : Str) (ps : List (Str × Str)) (es : List (Str × Str)) (f : Str × Str → ℝ) (hf : ∀ e ∈ es, ev (lookup vars e.1) = some (f e)) :
    ∀ k, discLoop vars ev (.mk name ps (entries es)) ((List.range' k (es.length - k)).map fun i => (['P'], [i])) = .ok ((es.drop k).map f, (es.drop k).map f) := by
  intro k
  by_cases hk : k < es.length
  · have ih := discLoop_entries name ps es f hf (k + 1)
    obtain ⟨m, hm⟩ : ∃ m, es.length - k = m + 1 := ⟨es.length - k - 1, by omega⟩
    have hm' : es.length - (k + 1) = m := by omega
    rw [hm'] at ih
    rw [hm, List.range'_succ, List.map_cons, List.drop_eq_getElem_cons hk, List.map_cons]
    have hnode : nodeAt (.mk name ps (entries es)) [k] = some (.mk ['P'] [(es[k].1, []), (es[k].2, [])] []) := by
      simp [TreeParser.nodeAt, subs, entries, hk]
    unfold discLoop
    simp only [hnode]
    have v0 : TreeParser.valName [(es[k].1, []), (es[k].2, [])] 0 = some [] := by
      simp [TreeParser.valName, TreeParser.guard, TreeParser.elem]
    have v1 : TreeParser.valName [(es[k].1, []), (es[k].2, [])] 1 = some [] := by
      simp [TreeParser.valName, TreeParser.guard, TreeParser.elem]
    have a0 := argR_ok vars ev (es[k].1, []) [(es[k].2, [])] (hf es[k] (List.getElem_mem hk))
    simp only [hd, params, v0, v1, a0, ih, ne_eq, not_true, List.length_cons, List.length_nil, or_self, if_false, Nat.reduceAdd]
  · have h0 : es.length - k = 0 := by omega
    rw [h0, List.drop_eq_nil_of_le (by omega)]
    rfl
termination_by k => es.length - k

/-- **C166 is false of discrete distributions.** The probabilities of the file are never read: the values are used as their own probabilities, for every list of entries `P: value, probability`. -/
theorem C166_negation_random (name : Str) (es : List (Str × Str)) (hne : es ≠ []) (f : Str × Str → ℝ) (hf : ∀ e ∈ es, ev (lookup vars e.1) = some (f e)) :
    engine vars ev d ntypes (.mk name [(['R', 'a', 'n', 'd', 'o', 'm'], [])] (entries es)) = .ok ([], .disc (es.map f) (es.map f)) := by
  have h0 : (entries es).length ≠ 0 := by
    simp only [entries, List.length_map, ne_eq, List.length_eq_zero_iff]; exact hne
  have h1 := discLoop_entries vars ev name [(['R', 'a', 'n', 'd', 'o', 'm'], [])] es f hf 0
  rw [Nat.sub_zero, ← List.range_eq_range', List.drop_zero] at h1
  simp only [engine, params, subs, ne_eq, not_true, if_false, if_neg h0, engineBody, if_true, sorted_entries, h1]

/-- Radii 1 and 3 with probabilities 1/2 each: the probabilities are 1 and 3. -/
example : engine [] (fun t => if t = ['1'] then some 1 else if t = ['3'] then some 3 else some (1/2)) 2 1
    (.mk kRadius [(['R', 'a', 'n', 'd', 'o', 'm'], [])] (entries [(['1'], ['h']), (['3'], ['h'])])) = .ok ([], .disc [1, 3] [1, 3]) := by
  have := C166_negation_random [] (fun t => if t = ['1'] then some 1 else if t = ['3'] then some 3 else some (1/2)) 2 1 kRadius [(['1'], ['h']), (['3'], ['h'])] (by simp)
    (fun e => if e.1 = ['1'] then 1 else 3) (by simp [lookup])
  simpa using this

/-! ## Templates (C166) -/

/-- **C166, masses.** `Mass: m` and `Mass: Density=r` give the mass and the density. -/
theorem C166_mass (a b : Str) (x : ℝ) :
    (a ≠ ['D', 'e', 'n', 's', 'i', 't', 'y'] → ev (lookup vars a) = some x → massOf vars ev [(a, b)] = .ok (false, x)) ∧
    (b ≠ [] → ev b = some x → massOf vars ev [(['D', 'e', 'n', 's', 'i', 't', 'y'], b)] = .ok (true, x)) := by
  constructor
  · intro h1 h2
    have : TreeParser.argName [(a, b)] 0 = some a := by simp [TreeParser.argName, TreeParser.elem]
    simp only [massOf, this, Option.some.injEq, h1, if_false, argR_ok vars ev (a, b) [] h2]
  · intro h1 h2
    have e1 : TreeParser.argName [(['D', 'e', 'n', 's', 'i', 't', 'y'], b)] 0 = some ['D', 'e', 'n', 's', 'i', 't', 'y'] := by simp [TreeParser.argName, TreeParser.elem]
    have e2 : TreeParser.val ev [(['D', 'e', 'n', 's', 'i', 't', 'y'], b)] 0 = some (true, some (some x)) := by
      simp [TreeParser.val, TreeParser.guard, TreeParser.elem, h1, h2]
    simp only [massOf, e1, if_true, valR, e2]

theorem check_throws (h : Head) : (TreeParser.check (TreeParser.TP.new h) [kRadius, kMass, kType] []).throws = true ↔
    (subs h).find? (fun c => decide (hd c = kRadius)) = none ∨ (subs h).find? (fun c => decide (hd c = kMass)) = none ∨ (subs h).find? (fun c => decide (hd c = kType)) = none := by
  rw [TreeParser.C54_throws_partial h _ .new [] rfl]
  have e : ∀ n, (∀ e ∈ TreeParser.children h [], e.1 ≠ n) ↔ (subs h).find? (fun c => decide (hd c = n)) = none := by
    intro n
    rw [List.find?_eq_none]
    simp only [TreeParser.children, TreeParser.nodeAt, List.nil_append, List.mem_map, decide_eq_true_eq]
    constructor
    · intro H c hc hn
      obtain ⟨i, hi, rfl⟩ := List.getElem_of_mem hc
      exact H (hd (subs h)[i], [i]) ⟨((subs h)[i], i), by simp [List.mem_zipIdx_iff_getElem?, hi], rfl⟩ hn
    · rintro H e ⟨c, hc, rfl⟩
      exact H c.1 (List.fst_mem_of_mem_zipIdx hc)
  simp only [List.mem_cons, List.not_mem_nil, or_false, exists_eq_or_imp, exists_eq_left, e]

/-- **C166, missing parts.** A template without radius, mass or type is refused. -/
theorem C166_missing (h : Head) (hm : ∃ n ∈ [kRadius, kMass, kType], ∀ c ∈ subs h, hd c ≠ n) : parseTemplate vars ev d ntypes h = .error .throws := by
  have : (TreeParser.check (TreeParser.TP.new h) [kRadius, kMass, kType] []).throws = true := by
    rw [check_throws]
    obtain ⟨n, hn, h1⟩ := hm
    have h2 : (subs h).find? (fun c => decide (hd c = n)) = none := by
      rw [List.find?_eq_none]; intro c hc; simpa using h1 c hc
    simp only [List.mem_cons, List.not_mem_nil, or_false] at hn
    rcases hn with rfl | rfl | rfl
    · exact Or.inl h2
    · exact Or.inr (Or.inl h2)
    · exact Or.inr (Or.inr h2)
  rw [parseTemplate, if_pos this]

/-- **C166, assembling.** A template is what its first headings `Radius`, `Mass` and `Type` say, in whatever order they are, and whatever other headings there are. -/
theorem C166_template (h r m t : Head) (hr : (subs h).find? (fun c => decide (hd c = kRadius)) = some r) (hm : (subs h).find? (fun c => decide (hd c = kMass)) = some m)
    (ht : (subs h).find? (fun c => decide (hd c = kType)) = some t) (rt tt : Str) (re te : Engine) (dens : Bool) (x : ℝ)
    (h1 : engine vars ev d ntypes r = .ok (rt, re)) (h2 : massOf vars ev (params m) = .ok (dens, x)) (h3 : engine vars ev d ntypes t = .ok (tt, te)) :
    parseTemplate vars ev d ntypes h = .ok ⟨re, rt, dens, x, te, tt⟩ := by
  have : ¬(TreeParser.check (TreeParser.TP.new h) [kRadius, kMass, kType] []).throws = true := by
    rw [check_throws, hr, hm, ht]; simp
  rw [parseTemplate, if_neg this]
  simp only [engineAt, massAt, first_eq, hr, hm, ht, h1, h2, h3]

/-- **C166, whole templates (partial).** A template with a radius, a mass or density and a type that are given as texts that begin with a digit makes particles with exactly this radius, type and mass.
Missing: other texts, see `C166_negation_number`; masses that are not positive. -/
theorem C166_particle_partial (h r m t : Head) (hr : (subs h).find? (fun c => decide (hd c = kRadius)) = some r) (hm : (subs h).find? (fun c => decide (hd c = kMass)) = some m)
    (ht : (subs h).find? (fun c => decide (hd c = kType)) = some t) (a b c e : Str) (hrp : r = .mk kRadius [(a, [])] []) (hmp : params m = [(b, e)]) (htp : t = .mk kType [(c, [])] [])
    (R M T : ℝ) (hR : ev (lookup vars a) = some R) (hT : ev (lookup vars c) = some T)
    (hdR : ∃ x s, lookup vars a = x :: s ∧ '0' ≤ x ∧ x ≤ '9') (hdT : ∃ x s, lookup vars c = x :: s ∧ '0' ≤ x ∧ x ≤ '9')
    (hM : b ≠ ['D', 'e', 'n', 's', 'i', 't', 'y'] ∧ ev (lookup vars b) = some M ∨ b = ['D', 'e', 'n', 's', 'i', 't', 'y'] ∧ e ≠ [] ∧ ev e = some M)
    (hpos : 0 < M) (hV : 0 < Regions.sphereVolume R d) :
    ∃ tm, parseTemplate vars ev d ntypes h = .ok tm ∧ (∀ u i, tm.radius.generate u i = some R ∧ tm.type.generate u i = some T) ∧
      Thermal.inverseMass (if tm.density then .density else .mass) R tm.mass d =
        1 / (if b = ['D', 'e', 'n', 's', 'i', 't', 'y'] then Regions.sphereVolume R d * M else M) := by
  subst hrp htp
  have e1 := C166_number_partial vars ev d ntypes kRadius a R hR hdR
  have e3 := C166_number_partial vars ev d ntypes kType c T hT hdT
  rcases hM with ⟨h1, h2⟩ | ⟨rfl, h1, h2⟩
  · refine ⟨_, C166_template vars ev d ntypes h _ m _ hr hm ht _ _ _ _ _ _ e1 (by rw [hmp]; exact (C166_mass vars ev b e M).1 h1 h2) e3, fun _ _ => ⟨rfl, rfl⟩, ?_⟩
    simp only [Bool.false_eq_true, if_false, Thermal.inverseMass, if_pos hpos, if_neg h1]
  · refine ⟨_, C166_template vars ev d ntypes h _ m _ hr hm ht _ _ _ _ _ _ e1 (by rw [hmp]; exact (C166_mass vars ev [] e M).2 h1 h2) e3, fun _ _ => ⟨rfl, rfl⟩, ?_⟩
    simp only [if_true, Thermal.inverseMass, if_pos (mul_pos hV hpos)]

/-- **C166, names.** Over any sequence of templates the first definition of a name counts, and all later ones have no effect. -/
theorem C166_first_definition (ts ts' : Temps) (hs : List Head) (h : addTemplates vars ev d ntypes ts hs = .ok ts') (name : Str) :
    ts' name = match ts name with
      | some t => some t
      | none => (hs.find? fun x => decide ((params x).head?.map Prod.fst = some name)).bind fun x => (parseTemplate vars ev d ntypes x).toOption := by
  induction hs generalizing ts with
  | nil =>
    simp only [addTemplates, SetupFile.each, Except.ok.injEq] at h
    subst h
    cases ts name <;> rfl
  | cons x hs ih =>
    simp only [addTemplates, SetupFile.each] at h
    unfold addTemplate at h
    cases hp : parseTemplate vars ev d ntypes x with
    | error e => simp [hp] at h
    | ok t =>
      cases hq : params x with
      | nil => simp [hp, hq] at h
      | cons p r =>
        simp only [hp, hq] at h
        rw [ih _ h]
        rw [List.find?_cons]
        simp only [hq, List.head?_cons, Option.map_some, Option.some.injEq]
        unfold Temps.insert
        by_cases hn : p.1 = name
        · subst hn
          cases hts : ts p.1 with
          | none => simp [hp, Except.toOption]
          | some t0 => simp [hts]
        · simp only [hn, decide_false]
          cases hts : ts p.1 with
          | none => simp [Function.update_of_ne (Ne.symm hn)]
          | some t0 => simp

/-! ## A concrete template -/

/-- `Template: A { Type: 0  Mass: Density=2  Radius: 1 }`. -/
def exHead (name mass : Str) : Head :=
  .mk ['T'] [(name, [])] [.mk kType [(['0'], [])] [], .mk kMass [(['D', 'e', 'n', 's', 'i', 't', 'y'], mass)] [], .mk kRadius [(['1'], [])] []]

/-- Values of digits. -/
noncomputable def exEv (t : Str) : Option ℝ := if t = ['0'] then some 0 else if t = ['1'] then some 1 else if t = ['2'] then some 2 else none

/-- It meets the hypotheses of `C166_particle_partial` in two dimensions: radius 1, type 0, mass twice the area. -/
example : ∃ tm, parseTemplate [] exEv 2 1 (exHead ['A'] ['2']) = .ok tm ∧ (∀ u i, tm.radius.generate u i = some 1 ∧ tm.type.generate u i = some 0) ∧
      Thermal.inverseMass (if tm.density then .density else .mass) 1 tm.mass 2 = 1 / (Regions.sphereVolume 1 2 * 2) := by
  have hV : 0 < Regions.sphereVolume 1 2 := by
    have := Real.pi_pos
    norm_num [Regions.sphereVolume]
    try positivity
  have := C166_particle_partial [] exEv 2 1 (exHead ['A'] ['2']) (.mk kRadius [(['1'], [])] []) (.mk kMass [(['D', 'e', 'n', 's', 'i', 't', 'y'], ['2'])] []) (.mk kType [(['0'], [])] [])
    (by simp [exHead, subs, hd, kRadius, kMass, kType]) (by simp [exHead, subs, hd, kMass, kType])
    (by simp [exHead, subs, hd, kType]) ['1'] ['D', 'e', 'n', 's', 'i', 't', 'y'] ['0'] ['2'] rfl rfl rfl 1 2 0 (by simp [exEv, lookup]) (by simp [exEv, lookup])
    ⟨'1', [], rfl, by decide, by decide⟩ ⟨'0', [], rfl, by decide, by decide⟩ (Or.inr ⟨rfl, by simp, by simp [exEv]⟩) (by norm_num) hV
  simpa using this

/-- Two definitions of the same name: the first one, with density 2, counts. -/
example : ∃ ts', addTemplates [] exEv 2 1 (fun _ => none) [exHead ['A'] ['2'], exHead ['A'] ['1']] = .ok ts' ∧ ∃ t, ts' ['A'] = some t ∧ t.mass = 2 := by
  have p : ∀ m x, exEv m = some x → m ≠ [] → parseTemplate [] exEv 2 1 (exHead ['A'] m) = .ok ⟨.det 1, [], true, x, .det 0, []⟩ := by
    intro m x hm hne
    refine C166_template [] exEv 2 1 (exHead ['A'] m) (.mk kRadius [(['1'], [])] []) (.mk kMass [(['D', 'e', 'n', 's', 'i', 't', 'y'], m)] []) (.mk kType [(['0'], [])] [])
      (by simp [exHead, subs, hd, kRadius, kMass, kType]) (by simp [exHead, subs, hd, kMass, kType])
      (by simp [exHead, subs, hd, kType]) [] [] (.det 1) (.det 0) true x ?_ ((C166_mass [] exEv [] m x).2 hne hm) ?_
    · exact C166_number_partial [] exEv 2 1 kRadius ['1'] 1 (by simp [exEv, lookup]) ⟨'1', [], rfl, by decide, by decide⟩
    · exact C166_number_partial [] exEv 2 1 kType ['0'] 0 (by simp [exEv, lookup]) ⟨'0', [], rfl, by decide, by decide⟩
  have p2 := p ['2'] 2 (by simp [exEv]) (by simp)
  have p1 := p ['1'] 1 (by simp [exEv]) (by simp)
  have e : ∃ ts', addTemplates [] exEv 2 1 (fun _ => none) [exHead ['A'] ['2'], exHead ['A'] ['1']] = .ok ts' := by
    have q : ∀ m, params (exHead ['A'] m) = [(['A'], [])] := fun _ => rfl
    simp only [addTemplates, SetupFile.each, addTemplate, p2, p1, q]
    exact ⟨_, rfl⟩
  obtain ⟨ts', h⟩ := e
  refine ⟨ts', h, ⟨.det 1, [], true, 2, .det 0, []⟩, (C166_first_definition [] exEv 2 1 _ _ _ h ['A']).trans ?_, ?_⟩
  · simp [exHead, params]
    exact congrArg Except.toOption p2
  · rfl

/-- A template without a mass. -/
example : parseTemplate [] exEv 2 1 (.mk ['T'] [(['A'], [])] [.mk kType [(['0'], [])] [], .mk kRadius [(['1'], [])] []]) = .error .throws :=
  C166_missing _ _ _ _ _ ⟨kMass, by simp, by simp [subs, hd, kType, kMass, kRadius]⟩

end Verif.Templates
