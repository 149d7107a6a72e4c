import Verif.Creators.Fill
import Verif.Creators.Templates

/-!
# Areas of setup files (C167)

Models `ParseConstructor::parse_region`, `creators/helperclasses/parse-constructor.cpp:7-67`, and what `FillAreaCreator::createArea`, `creators/fillareacreator.cpp:9-137,193-222,277-285`, makes of the tree of a
setup file before it draws particles (the loops that draw are those of `Verif.Fill`, C91). Trees and accessors are those of `Verif.FileParse` and `Verif.TreeParser`. `ev` stands for `Eval::evaluate(., variables)`,
`cd` and `ci` for `convert<double>` and `convert<int>`, `utility/printingutility.hpp:66-72`; exact real arithmetic.
-/

namespace Verif.Areas
open FileParse (Head)
open TreeParser (hd params subs nodeAt sortOptions)
open SetupFile (Str Err firstName)
open Templates (Vars Temps lookup first)
open Verif.Bounds Verif.Regions

/-! ## Names of headings and parameters -/

/-- `Full`, `creators/helperclasses/parse-constructor.cpp:13`. -/
def kFull : Str := ['F', 'u', 'l', 'l']
/-- `Sphere`, `creators/helperclasses/parse-constructor.cpp:16`. -/
def kSphere : Str := ['S', 'p', 'h', 'e', 'r', 'e']
/-- `Box`, `creators/helperclasses/parse-constructor.cpp:32`. -/
def kBox : Str := ['B', 'o', 'x']
/-- `Bounds`, `creators/fillareacreator.cpp:22`. -/
def kBounds : Str := ['B', 'o', 'u', 'n', 'd', 's']
/-- `Number`, `creators/fillareacreator.cpp:23`. -/
def kNumber : Str := ['N', 'u', 'm', 'b', 'e', 'r']
/-- `Template`, `creators/fillareacreator.cpp:24`. -/
def kTemplate : Str := ['T', 'e', 'm', 'p', 'l', 'a', 't', 'e']
/-- `Excluded`, `creators/fillareacreator.cpp:26`. -/
def kExcluded : Str := ['E', 'x', 'c', 'l', 'u', 'd', 'e', 'd']
/-- `Velocity`, `creators/fillareacreator.cpp:27`. -/
def kVelocity : Str := ['V', 'e', 'l', 'o', 'c', 'i', 't', 'y']
/-- `Phi`, `creators/fillareacreator.cpp:63`. -/
def kPhi : Str := ['P', 'h', 'i']
/-- `Rho`, `creators/fillareacreator.cpp:68`. -/
def kRho : Str := ['R', 'h', 'o']
/-- `Normal`, `creators/fillareacreator.cpp:111`. -/
def kNormal : Str := ['N', 'o', 'r', 'm', 'a', 'l']
/-- `Temperature`, `creators/fillareacreator.cpp:117`. -/
def kTemperature : Str := ['T', 'e', 'm', 'p', 'e', 'r', 'a', 't', 'u', 'r', 'e']
/-- `Zero`, `creators/fillareacreator.cpp:123`. -/
def kZero : Str := ['Z', 'e', 'r', 'o']

/-! ## Regions -/

/-- The loop over the limits, `creators/helperclasses/parse-constructor.cpp:52-61`. -/
def limits (ev : Str → Option ℝ) : List Head → Except Err (List (ℝ × ℝ))
  | [] => .ok []
  | c :: cs =>
    match params c, subs c with
    | [a, b], [] =>
      match ev a.1, ev b.1 with
      | some x, some y =>
        match limits ev cs with
        | .error e => .error e
        | .ok r => .ok ((x, y) :: r)
      | _, _ => .error .undef
    | _, _ => .error .throws

/-- The loop over the coordinates of a centre, `creators/helperclasses/parse-constructor.cpp:23-24`, and over the arguments of a vector, `utility/treeparser.cpp:171-179`. -/
def vector (ev : Str → Option ℝ) : List (Str × Str) → Except Err (List ℝ)
  | [] => .ok []
  | p :: ps =>
    match ev p.1 with
    | none => .error .undef
    | some x =>
      match vector ev ps with
      | .error e => .error e
      | .ok r => .ok (x :: r)

/-- The centre and the radius of a sphere, `creators/helperclasses/parse-constructor.cpp:17-27`: the first heading is the centre and the second one the radius, whatever their names. -/
def sphereOf (ev : Str → Option ℝ) (d : ℕ) : List Head → Except Err (Region d)
  | [c, r] =>
    if (params c).length ≠ d then .error .throws
    else
      match vector ev (params c) with
      | .error e => .error e
      | .ok x =>
        match params r with
        | [] => .error .undef
        | p :: _ =>
          match ev p.1 with
          | none => .error .undef
          | some y => .ok (.sphere (fun k => x.getD k 0) y)
  | _ => .error .throws

/-- The box with given limits. -/
def boxOf (d : ℕ) (l : List (ℝ × ℝ)) : Box d := ⟨fun k => (l.getD k (0, 0)).1, fun k => (l.getD k (0, 0)).2⟩

/-- `parse_region`, `creators/helperclasses/parse-constructor.cpp:7-67`; `full` are the bounds of the simulation. -/
def regionOf (ev : Str → Option ℝ) (d : ℕ) (full : Box d) (h : Head) : Except Err (Region d) :=
  if subs h = [] ∧ firstName (params h) = kFull then .ok (.rect full)
  else if firstName (params h) = kSphere then sphereOf ev d (subs h)
  else if firstName (params h) = kBox then
    if subs h ≠ [] then .error .throws
    else
      match params h with
      | [p] =>
        match ev p.2 with
        | none => .error .undef
        | some w => .ok (.rect ⟨fun _ => 0, fun _ => w⟩)
      | _ => .error .throws
  else if (subs h).length ≠ d then .error .throws
  else
    match limits ev (subs h) with
    | .error e => .error e
    | .ok l => .ok (.rect (boxOf d l))

/-- The loop over the excluded regions, `creators/fillareacreator.cpp:36-40`. -/
def regionsOf (ev : Str → Option ℝ) (d : ℕ) (full : Box d) : List Head → Except Err (List (Region d))
  | [] => .ok []
  | h :: hs =>
    match regionOf ev d full h with
    | .error e => .error e
    | .ok r =>
      match regionsOf ev d full hs with
      | .error e => .error e
      | .ok rs => .ok (r :: rs)

/-! ## Numbers -/

/-- What is to be filled to, `creators/fillareacreator.cpp:55-57`. -/
inductive Amount where
  | phi (x : ℝ)
  | rho (x : ℝ)
  | count (n : ℤ)

/-- The value of a density, `creators/fillareacreator.cpp:64,69` with `utility/treeparser.hpp:306-313`: 0 if there is none. -/
def densityOf (vars : Vars) (cd : Str → ℝ) : List (Str × Str) → Except Err ℝ
  | [] => .error .undef
  | p :: _ => .ok (if p.2 ≠ [] then cd (lookup vars p.2) else 0)

/-- The first line of the heading `Number`, `creators/fillareacreator.cpp:63-76` with `utility/treeparser.hpp:205-219`. -/
def amountOf (vars : Vars) (cd : Str → ℝ) (ci : Str → ℤ) (ps : List (Str × Str)) : Except Err Amount :=
  if firstName ps = kPhi then
    match densityOf vars cd ps with
    | .error e => .error e
    | .ok x => .ok (.phi x)
  else if firstName ps = kRho then
    match densityOf vars cd ps with
    | .error e => .error e
    | .ok x => .ok (.rho x)
  else
    match ps with
    | [] => .error .undef
    | p :: _ => .ok (.count (ci (lookup vars p.1)))

/-- The values of the body in the order of the loop, `creators/fillareacreator.cpp:92-94` with `arg_cast<double>`, `utility/treeparser.hpp:238-244`. -/
def entryLoop (vars : Vars) (cd : Str → ℝ) (h : Head) : List (Str × List ℕ) → Except Err (List (Str × ℝ))
  | [] => .ok []
  | e :: es =>
    match nodeAt h e.2 with
    | none => .error .undef
    | some n =>
      match params n with
      | [] => .error .undef
      | p :: _ =>
        match entryLoop vars cd h es with
        | .error x => .error x
        | .ok r => .ok ((hd n, cd (lookup vars p.1)) :: r)

/-- `std::map::insert` for entries that come in the order of the names: the first of equal names stays, `creators/fillareacreator.cpp:93`. -/
def mapOf : List (Str × ℝ) → List (Str × ℝ)
  | [] => []
  | e :: es => e :: (mapOf es).filter fun x => x.1 ≠ e.1

/-- `particle_template_numbers`, `creators/fillareacreator.cpp:80-97`. -/
def entriesOf (vars : Vars) (cd : Str → ℝ) (h : Head) : Except Err (List (Str × ℝ)) :=
  match entryLoop vars cd h (sortOptions h (some [])) with
  | .error e => .error e
  | .ok r => .ok (mapOf r)

/-! ## Velocities -/

/-- How velocities are chosen, `creators/fillareacreator.cpp:101-130`. -/
inductive Velocity where
  | normal (kinetic : ℝ)
  | fixed (v : List ℝ)
  | temperature (t : ℝ)

/-- `val(v)` that leaves the default if there is no value, `creators/fillareacreator.cpp:113,118` with `utility/treeparser.cpp:61-68`. -/
def valOr (ev : Str → Option ℝ) (default : ℝ) : List (Str × Str) → Except Err ℝ
  | [] => .error .undef
  | p :: _ =>
    if p.2 ≠ [] then
      match ev p.2 with
      | none => .error .undef
      | some x => .ok x
    else .ok default

/-- The heading `Velocity`, `creators/fillareacreator.cpp:99-134`. -/
noncomputable def velocityOf (ev : Str → Option ℝ) (d : ℕ) : Option Head → Except Err Velocity
  | none => .ok (.temperature 0.00156)
  | some n =>
    if firstName (params n) = [] ∨ firstName (params n) = kNormal then
      match valOr ev 0.00196 (params n) with
      | .error e => .error e
      | .ok x => .ok (.normal x)
    else if firstName (params n) = kTemperature then
      match valOr ev 0.00156 (params n) with
      | .error e => .error e
      | .ok x => .ok (.temperature x)
    else if firstName (params n) = kZero then .ok (.fixed (List.replicate d 0))
    else
      match vector ev (params n) with
      | .error e => .error e
      | .ok v => .ok (.fixed v)

/-- `constant_velocity`, `creators/fillareacreator.cpp:153-156`: `d` entries of the vector are read; `none` if it has less. -/
def constantVelocity (d : ℕ) (v : List ℝ) : Option (List ℝ) := if d ≤ v.length then some (v.take d) else none

/-! ## The area -/

/-- The headings with a name, in the order of the file: the loops `begin(name) … next()`, e.g. `creators/fillareacreator.cpp:36-40,43-49` (`TreeParser.C53` says that they visit exactly these). -/
def named (h : Head) (name : Str) : List Head := (TreeParser.matching h [] name).filterMap (nodeAt h)

/-- What an area says. -/
structure Area (d : ℕ) where
  region : Region d
  excluded : List (Region d)
  temps : Temps
  amount : Amount
  entries : List (Str × ℝ)
  velocity : Velocity

/-- `createArea` up to the check of the area, `creators/fillareacreator.cpp:9-137`. -/
noncomputable def areaOf (vars : Vars) (ev : Str → Option ℝ) (cd : Str → ℝ) (ci : Str → ℤ) (d ntypes : ℕ) (full : Box d) (ts : Temps) (h : Head) : Except Err (Area d) :=
  if (TreeParser.check (TreeParser.TP.new h) [kBounds, kNumber] []).throws then .error .throws
  else
    match first h kBounds, first h kNumber with
    | some hb, some hn =>
      match regionOf ev d full hb with
      | .error e => .error e
      | .ok region =>
        match regionsOf ev d full (named h kExcluded) with
        | .error e => .error e
        | .ok excluded =>
          match Templates.addTemplates vars ev d ntypes ts (named h kTemplate) with
          | .error e => .error e
          | .ok ts' =>
            match amountOf vars cd ci (params hn) with
            | .error e => .error e
            | .ok amount =>
              match entriesOf vars cd hn with
              | .error e => .error e
              | .ok entries =>
                match velocityOf ev d (first h kVelocity) with
                | .error e => .error e
                | .ok velocity =>
                  match amount with
                  | .phi x => .ok ⟨region, excluded, ts', .phi x, entries, velocity⟩
                  | .rho x => if subs hn = [] then .error .throws else .ok ⟨region, excluded, ts', .rho x, entries, velocity⟩
                  | .count n => if n ≤ 0 ∧ subs hn = [] then .error .throws else .ok ⟨region, excluded, ts', .count n, entries, velocity⟩
    | _, _ => .error .undef

/-- The templates of the entries, `creators/fillareacreator.cpp:213-220,279-282`. -/
def resolve (ts : Temps) : List (Str × ℝ) → Except Err (List (Templates.Template × ℝ))
  | [] => .ok []
  | e :: es =>
    match ts e.1 with
    | none => .error .throws
    | some t =>
      match resolve ts es with
      | .error x => .error x
      | .ok r => .ok ((t, e.2) :: r)

open Classical in
/-- `static_cast<int>` of a number, `creators/fillareacreator.cpp:283`: the fraction is dropped (numbers that are out of range are not modelled). -/
noncomputable def trunc (x : ℝ) : ℤ := if 0 ≤ x then ⌊x⌋ else ⌈x⌉

/-- What is filled in: templates with weights up to a density, or templates of the particles. -/
inductive Plan where
  | density (o : Fill.Opt) (target : ℝ) (choices : List (Templates.Template × ℝ))
  | particles (l : List Templates.Template)

/-- The region that this processor fills, `creators/fillareacreator.cpp:193-205`, for a rectangular region that intersects the bounds `own` of the processor. -/
noncomputable def ownRegion {d : ℕ} (own : Box d) : Region d → Region d
  | .rect b => .rect (intersection own b)
  | .sphere c r => .sphere c r

/-- The fill, `creators/fillareacreator.cpp:207-285`, up to the random draws of densities (`Fill.fillDensity`). Without entries the first particle would be made from `particle_templates[0]`, line 252, which
constructs a string from a null pointer. -/
noncomputable def planOf {d : ℕ} (own : Box d) (a : Area d) : Except Err Plan :=
  match resolve a.temps a.entries with
  | .error e => .error e
  | .ok l =>
    match a.amount with
    | .phi x => if l.isEmpty && Fill.keep .phi (ownRegion own a.region).vol x 0 0 then .error .undef else .ok (.density .phi x l)
    | .rho x => if l.isEmpty && Fill.keep .rho (ownRegion own a.region).vol x 0 0 then .error .undef else .ok (.density .rho x l)
    | .count _ => .ok (.particles (Fill.fillNumber (l.map fun e => (e.1, trunc e.2)) 0))

/-- Several areas with one creator, `creators/fileparsecreator.cpp:351-363`: templates stay from area to area. -/
noncomputable def areasOf (vars : Vars) (ev : Str → Option ℝ) (cd : Str → ℝ) (ci : Str → ℤ) (d ntypes : ℕ) (full : Box d) : Temps → List Head → Except Err (List (Area d))
  | _, [] => .ok []
  | ts, h :: hs =>
    match areaOf vars ev cd ci d ntypes full ts h with
    | .error e => .error e
    | .ok a =>
      match areasOf vars ev cd ci d ntypes full a.temps hs with
      | .error e => .error e
      | .ok as => .ok (a :: as)

/-! ## Lemmas -/

theorem named_eq (h : Head) (name : Str) : named h name = (subs h).filter fun c => decide (hd c = name) := by
  unfold named TreeParser.matching
  have e : TreeParser.children h [] = (subs h).zipIdx.map fun c => (hd c.1, [c.2]) := by simp [TreeParser.children, TreeParser.nodeAt]
  rw [e]
  have key : ∀ (l : List Head) (n : ℕ), (∀ i (hi : i < l.length), (subs h)[n + i]? = some l[i]) →
      (((((l.zipIdx n).map fun c => (hd c.1, [c.2])).filter fun x => decide (x.1 = name)).map (·.2)).filterMap (nodeAt h)) = l.filter fun c => decide (hd c = name) := by
    intro l
    induction l with
    | nil => intro n _; rfl
    | cons c l ih =>
      intro n hn
      have ih' := ih (n + 1) (fun i hi => by
        have := hn (i + 1) (by simpa using hi)
        simpa [Nat.add_assoc, Nat.add_comm 1 i] using this)
      rw [List.zipIdx_cons, List.map_cons, List.filter_cons, List.filter_cons]
      by_cases hc : hd c = name
      · have := hn 0 (by simp)
        simp only [Nat.add_zero, List.getElem_cons_zero] at this
        have hnode : nodeAt h [n] = some c := by simp [TreeParser.nodeAt, this]
        simp only [hc, decide_true, if_true, List.map_cons, List.filterMap_cons, hnode]
        rw [ih']
      · simp only [hc, decide_false, Bool.false_eq_true, if_false]
        exact ih'
  exact key (subs h) 0 (fun i hi => by simp [hi])

theorem vector_ok (ev : Str → Option ℝ) (ps : List (Str × Str)) (f : ℕ → ℝ) : ∀ k, (∀ i (hi : i < ps.length), ev ps[i].1 = some (f (k + i))) →
    vector ev ps = .ok ((List.range' k ps.length).map f) := by
  induction ps with
  | nil => intro k _; rfl
  | cons p ps ih =>
    intro k h
    have h0 := h 0 (by simp)
    simp only [List.getElem_cons_zero, Nat.add_zero] at h0
    have ih' := ih (k + 1) (fun i hi => by
      have := h (i + 1) (by simpa using hi)
      simpa [Nat.add_assoc, Nat.add_comm 1 i] using this)
    simp only [vector, h0, ih', List.length_cons, List.range'_succ, List.map_cons]

theorem limits_ok (ev : Str → Option ℝ) (cs : List Head) (lo hi : ℕ → ℝ) : ∀ k,
    (∀ i (hi' : i < cs.length), ∃ n a a' b b', cs[i] = .mk n [(a, a'), (b, b')] [] ∧ ev a = some (lo (k + i)) ∧ ev b = some (hi (k + i))) →
    limits ev cs = .ok ((List.range' k cs.length).map fun i => (lo i, hi i)) := by
  induction cs with
  | nil => intro k _; rfl
  | cons c cs ih =>
    intro k h
    obtain ⟨n, a, a', b, b', h1, h2, h3⟩ := h 0 (by simp)
    simp only [List.getElem_cons_zero, Nat.add_zero] at h1 h2 h3
    subst h1
    have ih' := ih (k + 1) (fun i hi => by
      have := h (i + 1) (by simpa using hi)
      simpa [Nat.add_assoc, Nat.add_comm 1 i] using this)
    simp only [limits, params, subs, h2, h3, ih', List.length_cons, List.range'_succ, List.map_cons]

/-! ## Regions (C167) -/

/-- **C167, regions (partial).** `Full` is the whole simulation; `Box=w` the cube from 0 to `w`; one heading with two limits for each dimension, in the order of the dimensions, is the box with these limits; `Sphere` with a
heading for the centre and a heading for the radius, in this order, is this sphere.
Missing: headings in another order, see `C167_negation_names`; limits that are not in order are accepted. -/
theorem C167_region_partial (ev : Str → Option ℝ) (d : ℕ) (full : Box d) (name : Str) :
    regionOf ev d full (.mk name [(kFull, [])] []) = .ok (.rect full) ∧
    (∀ w x, ev w = some x → regionOf ev d full (.mk name [(kBox, w)] []) = .ok (.rect ⟨fun _ => 0, fun _ => x⟩)) ∧
    (∀ (cs : List Head) (lo hi : Fin d → ℝ) (hl : cs.length = d),
      (∀ k : Fin d, ∃ n a a' b b', cs[k.val] = .mk n [(a, a'), (b, b')] [] ∧ ev a = some (lo k) ∧ ev b = some (hi k)) →
      regionOf ev d full (.mk name [] cs) = .ok (.rect ⟨lo, hi⟩)) ∧
    (∀ (n1 n2 : Str) (ps : List (Str × Str)) (c : Fin d → ℝ) (a b : Str) (r : ℝ) (hl : ps.length = d), (∀ k : Fin d, ev (ps[k.val]).1 = some (c k)) → ev a = some r →
      regionOf ev d full (.mk name [(kSphere, [])] [.mk n1 ps [], .mk n2 [(a, b)] []]) = .ok (.sphere c r)) := by
  refine ⟨?_, ?_, ?_, ?_⟩
  · simp [regionOf, subs, params, firstName]
  · intro w x hx
    simp [regionOf, subs, params, firstName, hx, kBox, kFull, kSphere]
  · intro cs lo hi hl h
    have e := limits_ok ev cs (fun i => if hi' : i < d then lo ⟨i, hi'⟩ else 0) (fun i => if hi' : i < d then hi ⟨i, hi'⟩ else 0) 0 (by
      intro i hi'
      have hid : i < d := by omega
      simpa [hid] using h ⟨i, hid⟩)
    simp only [regionOf, subs, params, firstName, kFull, kSphere, kBox, List.nil_eq, reduceCtorEq, and_false, if_false, hl, ne_eq, not_true, e]
    congr 2
    unfold boxOf
    congr 1 <;> funext k <;> simp [k.isLt]
  · intro n1 n2 ps c a b r hl h hr
    have e := vector_ok ev ps (fun i => if hi' : i < d then c ⟨i, hi'⟩ else 0) 0 (by
      intro i hi'
      have hid : i < d := by omega
      simpa [hid] using h ⟨i, hid⟩)
    have hr' : sphereOf ev d [.mk n1 ps [], .mk n2 [(a, b)] []] = .ok (.sphere c r) := by
      simp only [sphereOf, params, hl, ne_eq, not_true, if_false, e, hr]
      congr 2
      funext k
      simp [k.isLt]
    simp only [regionOf, subs, params, firstName, kFull, kSphere, reduceCtorEq, false_and, if_false, if_true]
    exact hr'

/-- **C167 is false of named parts.** The names of the headings are not looked at: in one dimension two headings with one number each are centre and radius in the order of the file, whatever they are called, and limits are
those of the dimensions in the order of the file. -/
theorem C167_negation_names (ev : Str → Option ℝ) (full : Box 1) (full2 : Box 2) (name n1 n2 a b c e : Str) (x y z w : ℝ) (ha : ev a = some x) (hb : ev b = some y) (hc : ev c = some z) (he : ev e = some w) :
    regionOf ev 1 full (.mk name [(kSphere, [])] [.mk n1 [(a, [])] [], .mk n2 [(b, [])] []]) = .ok (.sphere (fun _ => x) y) ∧
    regionOf ev 2 full2 (.mk name [] [.mk n1 [(a, []), (b, [])] [], .mk n2 [(c, []), (e, [])] []]) = .ok (.rect ⟨![x, z], ![y, w]⟩) := by
  constructor
  · exact (C167_region_partial ev 1 full name).2.2.2 n1 n2 [(a, [])] (fun _ => x) b [] y rfl (by intro k; fin_cases k; exact ha) hb
  · refine (C167_region_partial ev 2 full2 name).2.2.1 _ _ _ rfl ?_
    intro k
    fin_cases k
    · exact ⟨n1, a, [], b, [], rfl, ha, hb⟩
    · exact ⟨n2, c, [], e, [], rfl, hc, he⟩

/-- `Sphere { Radius: 3  Center: 5 }` on a line: centre 3 and radius 5. -/
example (full : Box 1) : regionOf (fun t => if t = ['3'] then some 3 else some 5) 1 full
    (.mk kBounds [(kSphere, [])] [.mk ['R'] [(['3'], [])] [], .mk ['C'] [(['5'], [])] []]) = .ok (.sphere (fun _ => 3) 5) :=
  (C167_negation_names _ full ⟨fun _ => 0, fun _ => 0⟩ _ _ _ ['3'] ['5'] ['3'] ['3'] 3 5 3 3 (by simp) (by simp) (by simp) (by simp)).1

/-! ## Numbers (C167) -/

/-- **C167, missing parts.** An area without bounds or without a number is refused. -/
theorem C167_missing (vars : Vars) (ev : Str → Option ℝ) (cd : Str → ℝ) (ci : Str → ℤ) (d ntypes : ℕ) (full : Box d) (ts : Temps) (h : Head)
    (hm : (∀ c ∈ subs h, hd c ≠ kBounds) ∨ ∀ c ∈ subs h, hd c ≠ kNumber) : areaOf vars ev cd ci d ntypes full ts h = .error .throws := by
  have : (TreeParser.check (TreeParser.TP.new h) [kBounds, kNumber] []).throws = true := by
    rw [TreeParser.C54_throws_partial h _ .new [] rfl]
    have key : ∀ n, (∀ c ∈ subs h, hd c ≠ n) → ∀ e ∈ TreeParser.children h [], e.1 ≠ n := by
      intro n hn e he
      simp only [TreeParser.children, TreeParser.nodeAt, List.nil_append, List.mem_map] at he
      obtain ⟨c, hc, rfl⟩ := he
      exact hn c.1 (List.fst_mem_of_mem_zipIdx hc)
    rcases hm with hm | hm
    · exact ⟨kBounds, by simp, key _ hm⟩
    · exact ⟨kNumber, by simp, key _ hm⟩
  rw [areaOf, if_pos this]

example : ∀ c ∈ subs (.mk ['F'] [] [.mk kBounds [(kFull, [])] []]), hd c ≠ kNumber := by decide

theorem mem_sorted (h : Head) (e : Str × List ℕ) (he : e ∈ sortOptions h (some [])) : ∃ n, nodeAt h e.2 = some n ∧ hd n = e.1 := by
  have hperm := TreeParser.foldl_perm (TreeParser.children h []) []
  have : e ∈ TreeParser.children h [] := by
    have := hperm.mem_iff.mp (by simpa [sortOptions] using he)
    simpa using this
  simp only [TreeParser.children, TreeParser.nodeAt, List.nil_append, List.mem_map] at this
  obtain ⟨c, hc, rfl⟩ := this
  rw [List.mem_zipIdx_iff_getElem?] at hc
  exact ⟨c.1, by simp [TreeParser.nodeAt, hc], rfl⟩

theorem entryLoop_spec (vars : Vars) (cd : Str → ℝ) (h : Head) (l : List (Str × List ℕ)) (hl : ∀ e ∈ l, ∃ n, nodeAt h e.2 = some n ∧ hd n = e.1) (r : List (Str × ℝ))
    (hr : entryLoop vars cd h l = .ok r) :
    r.map Prod.fst = l.map Prod.fst ∧ ∀ name, r.find? (fun e => decide (e.1 = name)) =
      ((l.find? fun e => decide (e.1 = name)).bind fun e => nodeAt h e.2).bind fun n => (params n).head?.map fun p => (name, cd (lookup vars p.1)) := by
  induction l generalizing r with
  | nil =>
    simp only [entryLoop, Except.ok.injEq] at hr
    subst hr
    simp
  | cons e es ih =>
    obtain ⟨n, hn, hname⟩ := hl e (by simp)
    unfold entryLoop at hr
    simp only [hn] at hr
    cases hp : params n with
    | nil => simp [hp] at hr
    | cons p ps =>
      simp only [hp] at hr
      cases he : entryLoop vars cd h es with
      | error x => simp [he] at hr
      | ok r' =>
        simp only [he, Except.ok.injEq] at hr
        subst hr
        obtain ⟨h1, h2⟩ := ih (fun e he => hl e (by simp [he])) r' he
        refine ⟨by simp [h1, hname], fun name => ?_⟩
        rw [List.find?_cons, List.find?_cons]
        by_cases hc : e.1 = name
        · simp [hname, hc, hn, hp]
        · simp only [hname, hc, decide_false]
          exact h2 name

theorem mapOf_find (l : List (Str × ℝ)) (name : Str) : (mapOf l).find? (fun e => decide (e.1 = name)) = l.find? fun e => decide (e.1 = name) := by
  induction l with
  | nil => rfl
  | cons e es ih =>
    rw [mapOf, List.find?_cons, List.find?_cons]
    by_cases hc : e.1 = name
    · simp [hc]
    · simp only [hc, decide_false]
      rw [List.find?_filter, ← ih]
      congr 1
      funext x
      by_cases hx : x.1 = name
      · simp [hx, Ne.symm hc]
      · simp [hx]

theorem mapOf_sub (l : List (Str × ℝ)) : (mapOf l).Sublist l := by
  induction l with
  | nil => exact .slnil
  | cons e es ih => exact (List.filter_sublist.trans ih).cons_cons e

theorem mapOf_nodup (l : List (Str × ℝ)) : ((mapOf l).map Prod.fst).Nodup := by
  induction l with
  | nil => exact List.nodup_nil
  | cons e es ih =>
    rw [mapOf, List.map_cons, List.nodup_cons]
    refine ⟨?_, ?_⟩
    · intro hm
      obtain ⟨x, hx, he⟩ := List.mem_map.mp hm
      have := (List.mem_filter.mp hx).2
      simp [he] at this
    · exact ih.sublist (List.filter_sublist.map Prod.fst)

/-- **C167, the body of `Number`.** The entries are one for each name in the body, in the order of the names, with the value of the first heading of this name. -/
theorem C167_entries (vars : Vars) (cd : Str → ℝ) (h : Head) (es : List (Str × ℝ)) (he : entriesOf vars cd h = .ok es) :
    (es.map Prod.fst).Nodup ∧ (es.map Prod.fst).Pairwise (· ≤ ·) ∧ (∀ name, name ∈ es.map Prod.fst ↔ ∃ c ∈ subs h, hd c = name) ∧
    ∀ name x, (name, x) ∈ es ↔ ∃ n p, (subs h).find? (fun c => decide (hd c = name)) = some n ∧ (params n).head? = some p ∧ x = cd (lookup vars p.1) := by
  unfold entriesOf at he
  cases hr : entryLoop vars cd h (sortOptions h (some [])) with
  | error e => simp [hr] at he
  | ok r =>
    simp only [hr, Except.ok.injEq] at he
    subst he
    obtain ⟨h1, h2⟩ := entryLoop_spec vars cd h _ (fun e he => mem_sorted h e he) r hr
    have hf : ∀ name, (mapOf r).find? (fun e => decide (e.1 = name)) = ((subs h).find? (fun c => decide (hd c = name))).bind fun n => (params n).head?.map fun p => (name, cd (lookup vars p.1)) := by
      intro name
      rw [mapOf_find, h2, ← Templates.first_eq]
      rfl
    have hmem : ∀ name x, (name, x) ∈ mapOf r ↔ (mapOf r).find? (fun e => decide (e.1 = name)) = some (name, x) := by
      intro name x
      constructor
      · intro hx
        have hn := mapOf_nodup r
        cases hfd : (mapOf r).find? (fun e => decide (e.1 = name)) with
        | none =>
          rw [List.find?_eq_none] at hfd
          simpa using hfd _ hx
        | some e =>
          have he1 := List.mem_of_find?_eq_some hfd
          have he2 := List.find?_some hfd
          simp only [decide_eq_true_eq] at he2
          have := List.inj_on_of_nodup_map hn he1 hx he2
          rw [this]
      · exact fun hx => List.mem_of_find?_eq_some hx
    refine ⟨mapOf_nodup r, ?_, ?_, ?_⟩
    · have hs : (r.map Prod.fst).Pairwise (· ≤ ·) := by
        rw [h1, List.pairwise_map]
        exact (TreeParser.sortOptions_some h [] []).1
      exact hs.sublist ((mapOf_sub r).map _)
    · intro name
      have e1 : name ∈ (mapOf r).map Prod.fst ↔ name ∈ r.map Prod.fst := by
        constructor
        · intro hm
          exact ((mapOf_sub r).map _).subset hm
        · intro hm
          obtain ⟨x, hx, rfl⟩ := List.mem_map.mp hm
          have : (r.find? fun e => decide (e.1 = x.1)).isSome := by
            rw [List.find?_isSome]; exact ⟨x, hx, by simp⟩
          rw [← mapOf_find] at this
          obtain ⟨y, hy⟩ := Option.isSome_iff_exists.mp this
          exact List.mem_map.mpr ⟨y, List.mem_of_find?_eq_some hy, by simpa using List.find?_some hy⟩
      rw [e1, h1]
      have hperm := TreeParser.foldl_perm (TreeParser.children h []) []
      have hp : (sortOptions h (some [])).Perm (TreeParser.children h []) := by simpa [sortOptions] using hperm
      rw [(hp.map Prod.fst).mem_iff]
      simp only [TreeParser.children, TreeParser.nodeAt, List.nil_append, List.map_map, List.mem_map, Function.comp]
      constructor
      · rintro ⟨c, hc, rfl⟩
        exact ⟨c.1, List.fst_mem_of_mem_zipIdx hc, rfl⟩
      · rintro ⟨c, hc, rfl⟩
        obtain ⟨i, hi, rfl⟩ := List.getElem_of_mem hc
        exact ⟨((subs h)[i], i), by simp [List.mem_zipIdx_iff_getElem?, hi], rfl⟩
    · intro name x
      rw [hmem, hf]
      constructor
      · intro hx
        obtain ⟨n, hn, hp⟩ := Option.bind_eq_some_iff.mp hx
        obtain ⟨p, hp1, hp2⟩ := Option.map_eq_some_iff.mp hp
        simp only [Prod.mk.injEq, true_and] at hp2
        exact ⟨n, p, hn, hp1, hp2.symm⟩
      · rintro ⟨n, p, hn, hp, rfl⟩
        simp [hn, hp]

/-- The body `{ B: 2  A: 1  B: 3 }`: `A` with 1 and `B` with 2. -/
example : entriesOf [] (fun t => if t = ['1'] then 1 else if t = ['2'] then 2 else 3) (.mk kNumber [(['0'], [])] [.mk ['B'] [(['2'], [])] [], .mk ['A'] [(['1'], [])] [], .mk ['B'] [(['3'], [])] []]) =
    .ok [(['A'], 1), (['B'], 2)] := by
  have e : sortOptions (.mk kNumber [(['0'], [])] [.mk ['B'] [(['2'], [])] [], .mk ['A'] [(['1'], [])] [], .mk ['B'] [(['3'], [])] []]) (some []) =
      [(['A'], [1]), (['B'], [0]), (['B'], [2])] := by decide +kernel
  simp [entriesOf, e, entryLoop, TreeParser.nodeAt, subs, params, hd, mapOf, lookup]

/-- **C167, densities (partial).** `Phi=x` and `Rho=x` fill to the value of `x` if `x` is a number or a variable.
Missing: expressions, which are not evaluated here, see `C167_negation_expression`. -/
theorem C167_density_partial (vars : Vars) (cd : Str → ℝ) (ci : Str → ℤ) (x : Str) (hx : x ≠ []) :
    amountOf vars cd ci [(kPhi, x)] = .ok (.phi (cd (lookup vars x))) ∧ amountOf vars cd ci [(kRho, x)] = .ok (.rho (cd (lookup vars x))) := by
  constructor <;> simp [amountOf, firstName, densityOf, hx, kPhi, kRho]

/-- **C167 is false of expressions.** A density is converted from its text, which reads a number at its beginning; with a converter that gives 0 for texts that begin with a letter, as that of the library does,
`Phi=phi/2` is the density 0, whatever the variable is. -/
theorem C167_negation_expression (vars : Vars) (cd : Str → ℝ) (ci : Str → ℤ) (c : Char) (r : Str) (hc : c.isAlpha) (hcd : ∀ c r, c.isAlpha → cd (c :: r) = 0) (hv : lookup vars (c :: r) = c :: r) :
    amountOf vars cd ci [(kPhi, c :: r)] = .ok (.phi 0) := by
  rw [(C167_density_partial vars cd ci (c :: r) (by simp)).1, hv, hcd c r hc]

example : lookup [(['p'], ['3'])] ['p', '/', '2'] = ['p', '/', '2'] := by decide +kernel

/-- **C167 is false of numbers of templates.** The documented form `Number: { A: 10 … }`, without a parameter in the first line, reads a parameter that does not exist. -/
theorem C167_negation_body_only (vars : Vars) (cd : Str → ℝ) (ci : Str → ℤ) : amountOf vars cd ci [] = .error .undef := by
  simp [amountOf, firstName, kPhi, kRho]

/-- **C167, templates.** Particles are made from the templates the entries name; an entry without a template is refused. -/
theorem C167_templates (ts : Temps) (es : List (Str × ℝ)) :
    (∀ l, resolve ts es = .ok l → l.length = es.length ∧ ∀ i (h1 : i < l.length) (h2 : i < es.length), ts es[i].1 = some l[i].1 ∧ l[i].2 = es[i].2) ∧
    (resolve ts es = .error .throws ↔ ∃ e ∈ es, ts e.1 = none) ∧ resolve ts es ≠ .error .undef := by
  induction es with
  | nil => simp [resolve]
  | cons e es ih =>
    obtain ⟨i1, i2, i3⟩ := ih
    unfold resolve
    cases ht : ts e.1 with
    | none => simp [ht]
    | some t =>
      cases hr : resolve ts es with
      | error x =>
        cases x with
        | undef => exact absurd hr i3
        | throws =>
          rw [hr] at i2
          have := i2.mp rfl
          simp [ht, this]
      | ok r =>
        rw [hr] at i2
        have h2 : ¬∃ e ∈ es, ts e.1 = none := by rw [← i2]; simp
        obtain ⟨j1, j2⟩ := i1 r hr
        refine ⟨?_, ?_, by simp⟩
        · intro l hl
          simp only [Except.ok.injEq] at hl
          subst hl
          refine ⟨by simp [j1], ?_⟩
          intro i h1 h2
          cases i with
          | zero => simp [ht]
          | succ i => simpa using j2 i (by simpa using h1) (by simpa using h2)
        · simp [ht, h2]

/-! ## Whole areas (C167) -/

theorem found_first {h : Head} {name : Str} {n : Head} (hf : (subs h).find? (fun c => decide (hd c = name)) = some n) : first h name = some n := by
  rw [Templates.first_eq, hf]

theorem check_ok {h hb hn : Head} (h1 : (subs h).find? (fun c => decide (hd c = kBounds)) = some hb) (h2 : (subs h).find? (fun c => decide (hd c = kNumber)) = some hn) :
    ¬(TreeParser.check (TreeParser.TP.new h) [kBounds, kNumber] []).throws = true := by
  rw [TreeParser.C54_throws_partial h _ .new [] rfl]
  rintro ⟨n, hn', h3⟩
  have key : ∀ c, (subs h).find? (fun c => decide (hd c = n)) = some c → False := by
    intro c hc
    have hm := List.mem_of_find?_eq_some hc
    obtain ⟨i, hi, rfl⟩ := List.getElem_of_mem hm
    have := List.find?_some hc
    simp only [decide_eq_true_eq] at this
    refine h3 (hd (subs h)[i], [i]) ?_ this
    simp only [TreeParser.children, TreeParser.nodeAt, List.nil_append, List.mem_map]
    exact ⟨((subs h)[i], i), by simp [List.mem_zipIdx_iff_getElem?, hi], rfl⟩
  simp only [List.mem_cons, List.not_mem_nil, or_false] at hn'
  rcases hn' with rfl | rfl
  · exact key _ h1
  · exact key _ h2

section
variable (vars : Vars) (ev : Str → Option ℝ) (cd : Str → ℝ) (ci : Str → ℤ) (d ntypes : ℕ) (full : Box d) (ts : Temps) (h hb hn : Head)

/-- **C167, assembling.** An area with a body under `Number` is what its first headings `Bounds`, `Number` and `Velocity` and all its headings `Excluded` and `Template` say, in any order. -/
theorem C167_area (h1 : (subs h).find? (fun c => decide (hd c = kBounds)) = some hb) (h2 : (subs h).find? (fun c => decide (hd c = kNumber)) = some hn)
    (region : Region d) (excluded : List (Region d)) (ts' : Temps) (amount : Amount) (entries : List (Str × ℝ)) (velocity : Velocity)
    (e1 : regionOf ev d full hb = .ok region) (e2 : regionsOf ev d full ((subs h).filter fun c => decide (hd c = kExcluded)) = .ok excluded)
    (e3 : Templates.addTemplates vars ev d ntypes ts ((subs h).filter fun c => decide (hd c = kTemplate)) = .ok ts') (e4 : amountOf vars cd ci (params hn) = .ok amount)
    (e5 : entriesOf vars cd hn = .ok entries) (e6 : velocityOf ev d ((subs h).find? fun c => decide (hd c = kVelocity)) = .ok velocity) (hbody : subs hn ≠ []) :
    areaOf vars ev cd ci d ntypes full ts h = .ok ⟨region, excluded, ts', amount, entries, velocity⟩ := by
  rw [areaOf, if_neg (check_ok h1 h2)]
  rw [← Templates.first_eq] at e6
  simp only [found_first h1, found_first h2, e1, named_eq, e2, e3, e4, e5, e6]
  cases amount <;> simp [hbody]

/-- What is known of a successful reading of an area. -/
theorem area_inv (a : Area d) (ha : areaOf vars ev cd ci d ntypes full ts h = .ok a) :
    ∃ hb hn, (subs h).find? (fun c => decide (hd c = kBounds)) = some hb ∧ (subs h).find? (fun c => decide (hd c = kNumber)) = some hn ∧
      regionOf ev d full hb = .ok a.region ∧ regionsOf ev d full ((subs h).filter fun c => decide (hd c = kExcluded)) = .ok a.excluded ∧
      Templates.addTemplates vars ev d ntypes ts ((subs h).filter fun c => decide (hd c = kTemplate)) = .ok a.temps ∧ amountOf vars cd ci (params hn) = .ok a.amount ∧
      entriesOf vars cd hn = .ok a.entries ∧ velocityOf ev d ((subs h).find? fun c => decide (hd c = kVelocity)) = .ok a.velocity := by
  unfold areaOf at ha
  split at ha
  · simp at ha
  rw [Templates.first_eq, Templates.first_eq, Templates.first_eq, named_eq, named_eq] at ha
  split at ha
  swap
  · simp at ha
  rename_i hb hn h1 h2
  split at ha
  · simp at ha
  rename_i region e1
  split at ha
  · simp at ha
  rename_i excluded e2
  split at ha
  · simp at ha
  rename_i ts' e3
  split at ha
  · simp at ha
  rename_i amount e4
  split at ha
  · simp at ha
  rename_i entries e5
  split at ha
  · simp at ha
  rename_i velocity e6
  refine ⟨hb, hn, h1, h2, ?_⟩
  cases amount with
  | phi x =>
    simp only [Except.ok.injEq] at ha
    subst ha
    exact ⟨e1, e2, e3, e4, e5, e6⟩
  | rho x =>
    simp only at ha
    split at ha
    · simp at ha
    · simp only [Except.ok.injEq] at ha
      subst ha
      exact ⟨e1, e2, e3, e4, e5, e6⟩
  | count n =>
    simp only at ha
    split at ha
    · simp at ha
    · simp only [Except.ok.injEq] at ha
      subst ha
      exact ⟨e1, e2, e3, e4, e5, e6⟩

/-- **C167 is false of local templates.** A template that an area defines has no effect if there is a global template of this name, or if an area before it defined one: the other definition is used. -/
theorem C167_negation_local (a : Area d) (ha : areaOf vars ev cd ci d ntypes full ts h = .ok a) (name : Str) (t : Templates.Template) (ht : ts name = some t) :
    a.temps name = some t ∧ ∀ (h2 : Head) (b : Area d), areaOf vars ev cd ci d ntypes full a.temps h2 = .ok b → b.temps name = some t := by
  have key : ∀ (ts : Temps) (h : Head) (a : Area d), areaOf vars ev cd ci d ntypes full ts h = .ok a → ts name = some t → a.temps name = some t := by
    intro ts h a ha ht
    obtain ⟨_, _, _, _, _, _, e3, _⟩ := area_inv vars ev cd ci d ntypes full ts h a ha
    have := Templates.C166_first_definition vars ev d ntypes ts a.temps _ e3 name
    rw [ht] at this
    exact this
  exact ⟨key ts h a ha ht, fun h2 b hb => key _ h2 b hb (key ts h a ha ht)⟩

/-- **C167 is false of templates of areas: they leak.** All areas of a file are made with the templates of the areas before them: a template that any area knows is the template of this name in every later area, whatever that
area defines, and the last area may use it. Here `as` are the areas `h :: hs` of the file, in order. -/
theorem C167_negation_leak (hs : List Head) (as : List (Area d)) (has : areasOf vars ev cd ci d ntypes full ts hs = .ok as) :
    as.length = hs.length ∧ ∀ i j (hi : i < as.length) (hj : j < as.length), i < j → ∀ name t, (as[i]).temps name = some t → (as[j]).temps name = some t := by
  have key : ∀ (ts : Temps) (h : Head) (a : Area d) (name : Str) (t : Templates.Template), areaOf vars ev cd ci d ntypes full ts h = .ok a → ts name = some t → a.temps name = some t :=
    fun ts h a name t ha ht => (C167_negation_local vars ev cd ci d ntypes full ts h a ha name t ht).1
  have all : ∀ (hs : List Head) (ts : Temps) (as : List (Area d)), areasOf vars ev cd ci d ntypes full ts hs = .ok as →
      as.length = hs.length ∧ (∀ name t, ts name = some t → ∀ b ∈ as, b.temps name = some t) ∧
      ∀ i j (hi : i < as.length) (hj : j < as.length), i < j → ∀ name t, (as[i]).temps name = some t → (as[j]).temps name = some t := by
    intro hs
    induction hs with
    | nil =>
      intro ts as h
      simp only [areasOf, Except.ok.injEq] at h
      subst h
      exact ⟨rfl, by simp, by intro i j hi; simp at hi⟩
    | cons h hs ih =>
      intro ts as has
      unfold areasOf at has
      cases ha : areaOf vars ev cd ci d ntypes full ts h with
      | error e => rw [ha] at has; simp at has
      | ok a =>
        rw [ha] at has
        simp only at has
        cases hr : areasOf vars ev cd ci d ntypes full a.temps hs with
        | error e => rw [hr] at has; simp at has
        | ok r =>
          rw [hr] at has
          simp only [Except.ok.injEq] at has
          subst has
          obtain ⟨i1, i2, i3⟩ := ih a.temps r hr
          refine ⟨by simp [i1], ?_, ?_⟩
          · intro name t ht b hb
            have h0 := key ts h a name t ha ht
            rcases List.mem_cons.mp hb with rfl | hb
            · exact h0
            · exact i2 name t h0 b hb
          · intro i j hi hj hij name t ht
            obtain ⟨j', rfl⟩ : ∃ j', j = j' + 1 := ⟨j - 1, by omega⟩
            cases i with
            | zero => exact i2 name t ht _ (List.getElem_mem _)
            | succ i => exact i3 i j' (by simpa using hi) (by simpa using hj) (by omega) name t ht
  obtain ⟨a1, _, a3⟩ := all hs ts as has
  exact ⟨a1, a3⟩

/-- **C167, local templates (partial).** A template that an area defines under a new name is the one that is used.
Missing: names that are known already, see `C167_negation_local`. -/
theorem C167_local_partial (a : Area d) (ha : areaOf vars ev cd ci d ntypes full ts h = .ok a) (name : Str) (hnew : ts name = none) (c : Head)
    (hc : ((subs h).filter fun c => decide (hd c = kTemplate)).find? (fun x => decide ((params x).head?.map Prod.fst = some name)) = some c) :
    a.temps name = (Templates.parseTemplate vars ev d ntypes c).toOption := by
  obtain ⟨_, _, _, _, _, _, e3, _⟩ := area_inv vars ev cd ci d ntypes full ts h a ha
  have := Templates.C166_first_definition vars ev d ntypes ts a.temps _ e3 name
  rw [hnew, hc] at this
  exact this

/-- **C167, numbers (partial).** An area with `Number: 0 { A: n }` creates exactly `n` particles from the template `A`, if it exists, and is refused otherwise.
Missing: several templates, see `C167_negation_several`; the form without a parameter, see `C167_negation_body_only`. -/
theorem C167_count_partial (own : Box d) (a : Area d) (ha : areaOf vars ev cd ci d ntypes full ts h = .ok a) (A x x' p p' k : Str) (n : ℕ)
    (hnum : (subs h).find? (fun c => decide (hd c = kNumber)) = some (.mk k [(p, p')] [.mk A [(x, x')] []])) (hp1 : p ≠ kPhi) (hp2 : p ≠ kRho) (hx : cd (lookup vars x) = n) :
    planOf own a = match a.temps A with
      | some t => .ok (.particles (List.replicate n t))
      | none => .error .throws := by
  obtain ⟨hb, hn, h1, h2, e1, e2, e3, e4, e5, e6⟩ := area_inv vars ev cd ci d ntypes full ts h a ha
  rw [hnum] at h2
  obtain rfl := (Option.some.inj h2).symm
  have es : sortOptions (.mk k [(p, p')] [.mk A [(x, x')] []]) (some []) = [(A, [0])] := by
    simp [sortOptions, TreeParser.children, TreeParser.nodeAt, subs, hd, TreeParser.mmInsert]
  have e5' : a.entries = [(A, (n : ℝ))] := by
    simp only [entriesOf, es, entryLoop, TreeParser.nodeAt, subs, params, hd, mapOf, hx, List.getElem?_cons_zero, Option.bind_some, List.filter_nil] at e5
    exact (Except.ok.inj e5).symm
  have e4' : ∃ m, a.amount = .count m := by
    simp only [amountOf, params, firstName, hp1, hp2, if_false] at e4
    exact ⟨_, (Except.ok.inj e4).symm⟩
  obtain ⟨m, hm⟩ := e4'
  unfold planOf
  rw [e5', hm]
  simp only [resolve]
  cases a.temps A with
  | none => rfl
  | some t =>
    have ht : trunc (n : ℝ) = n := by simp [trunc]
    simp only [List.map_cons, List.map_nil, ht, Fill.C91_number_partial, Int.toNat_natCast]

/-- **C167 is false of several templates.** `Number: 0 { A: m  B: n }` creates `m` particles of `A` and only those of `B` by which `n` exceeds `m`. -/
theorem C167_negation_several (own : Box d) (a : Area d) (ka : ℤ) (ham : a.amount = .count ka) (A B : Str) (m n : ℕ) (tA tB : Templates.Template) (hA : a.temps A = some tA) (hB : a.temps B = some tB)
    (he : a.entries = [(A, (m : ℝ)), (B, (n : ℝ))]) : planOf own a = .ok (.particles (List.replicate m tA ++ List.replicate (n - m) tB)) := by
  have ht : ∀ n : ℕ, trunc (n : ℝ) = n := fun n => by simp [trunc]
  unfold planOf
  rw [he, ham]
  simp only [resolve, hA, hB, List.map_cons, List.map_nil, ht, Fill.fillNumber, Fill.numLoop_eq, List.append_nil, sub_zero, Int.toNat_natCast]
  have : ((n : ℤ) - max 0 (m : ℤ)).toNat = n - m := by omega
  rw [this]

/-- **C167 is false of the total.** The number in the first line does not matter if there is a body: any two numbers give the same particles. -/
theorem C167_negation_total (own : Box d) (a b : Area d) (m n : ℤ) (ha : a.amount = .count m) (hb : b.amount = .count n) (ht : a.temps = b.temps) (he : a.entries = b.entries) :
    planOf own a = planOf own b := by
  unfold planOf
  rw [ha, hb, ht, he]

/-- **C167 is false of single numbers.** `Number: n` without a body creates no particles, `Number: Rho=x` without a body is refused, and `Number: Phi=x` without a body, for positive `x` and a region with a volume, makes a
particle from a template that does not exist. -/
theorem C167_negation_single (own : Box d) (p p' k : Str) (hnum : (subs h).find? (fun c => decide (hd c = kNumber)) = some (.mk k [(p, p')] [])) :
    (∀ a, areaOf vars ev cd ci d ntypes full ts h = .ok a → p ≠ kPhi → planOf own a = .ok (.particles [])) ∧
    (p = kRho → ∀ a, areaOf vars ev cd ci d ntypes full ts h ≠ .ok a) ∧
    (∀ a, areaOf vars ev cd ci d ntypes full ts h = .ok a → p = kPhi → p' ≠ [] → 0 < cd (lookup vars p') → 0 < (ownRegion own a.region).vol → planOf own a = .error .undef) := by
  have es : sortOptions (.mk k [(p, p')] []) (some []) = [] := by
    simp [sortOptions, TreeParser.children, TreeParser.nodeAt, subs]
  have hempty : ∀ a, areaOf vars ev cd ci d ntypes full ts h = .ok a → a.entries = [] ∧ amountOf vars cd ci [(p, p')] = .ok a.amount := by
    intro a ha
    obtain ⟨hb, hn, h1, h2, e1, e2, e3, e4, e5, e6⟩ := area_inv vars ev cd ci d ntypes full ts h a ha
    rw [hnum] at h2
    obtain rfl := (Option.some.inj h2).symm
    refine ⟨?_, e4⟩
    simp only [entriesOf, es, entryLoop, mapOf] at e5
    exact (Except.ok.inj e5).symm
  have hrho : p = kRho → ∀ a, areaOf vars ev cd ci d ntypes full ts h ≠ .ok a := by
    rintro rfl a ha
    obtain ⟨hb, hn, h1, h2, e1, e2, e3, e4, e5, e6⟩ := area_inv vars ev cd ci d ntypes full ts h a ha
    rw [hnum] at h2
    obtain rfl := (Option.some.inj h2).symm
    have e6' := e6
    rw [← Templates.first_eq] at e6'
    have e4' : ∃ x, amountOf vars cd ci (params (.mk k [(kRho, p')] [])) = .ok (.rho x) := by
      refine ⟨if p' ≠ [] then cd (lookup vars p') else 0, ?_⟩
      simp [amountOf, params, firstName, kPhi, kRho, densityOf]
    obtain ⟨x, e4'⟩ := e4'
    rw [areaOf, if_neg (check_ok h1 hnum)] at ha
    simp only [found_first h1, found_first hnum, e1, named_eq, e2, e3, e4', e5, e6'] at ha
    rw [if_pos (show subs (.mk k [(kRho, p')] []) = [] from rfl)] at ha
    simp at ha
  refine ⟨?_, hrho, ?_⟩
  · intro a ha hp
    obtain ⟨h1, h2⟩ := hempty a ha
    have hp2 : p ≠ kRho := fun e => hrho e a ha
    simp only [amountOf, firstName, hp, hp2, if_false, Except.ok.injEq] at h2
    unfold planOf
    rw [h1, ← h2]
    simp [resolve, Fill.fillNumber]
  · rintro a ha rfl hp' hx hv
    obtain ⟨h1, h2⟩ := hempty a ha
    rw [(C167_density_partial vars cd ci p' hp').1, Except.ok.injEq] at h2
    unfold planOf
    rw [h1, ← h2]
    have : Fill.keep .phi (ownRegion own a.region).vol (cd (lookup vars p')) 0 0 = true := by
      simp [Fill.keep, hv.ne', hx]
    simp [resolve, this]

end

/-! ## Velocities (C167) -/

/-- **C167, velocities (partial).** Without a heading velocities have the temperature 0.00156; `Temperature=t` gives the temperature `t`, `Normal=e` the kinetic energy `e`, `Zero` no velocity, and a vector with at least one
number for each dimension this velocity.
Missing: `Velocity:` without parameters and vectors that are too short, see `C167_negation_velocity`; a vector whose first number is the text of one of the names. -/
theorem C167_velocity_partial (ev : Str → Option ℝ) (d : ℕ) (name : Str) :
    velocityOf ev d none = .ok (.temperature 0.00156) ∧
    (∀ t x, t ≠ [] → ev t = some x → velocityOf ev d (some (.mk name [(kTemperature, t)] [])) = .ok (.temperature x)) ∧
    (∀ t x, t ≠ [] → ev t = some x → velocityOf ev d (some (.mk name [(kNormal, t)] [])) = .ok (.normal x)) ∧
    (∃ v, velocityOf ev d (some (.mk name [(kZero, [])] [])) = .ok (.fixed v) ∧ constantVelocity d v = some (List.replicate d 0)) ∧
    (∀ (ps : List (Str × Str)) (x : ℕ → ℝ), d ≤ ps.length → (∀ i (hi : i < ps.length), ev (ps[i]).1 = some (x i)) → firstName ps ∉ [[], kNormal, kTemperature, kZero] →
      ∃ v, velocityOf ev d (some (.mk name ps [])) = .ok (.fixed v) ∧ constantVelocity d v = some (List.ofFn fun k : Fin d => x k)) := by
  refine ⟨rfl, ?_, ?_, ?_, ?_⟩
  · intro t x ht hx
    simp [velocityOf, params, firstName, valOr, ht, hx, kTemperature, kNormal]
  · intro t x ht hx
    simp [velocityOf, params, firstName, valOr, ht, hx]
  · exact ⟨List.replicate d 0, by simp [velocityOf, params, firstName, kZero, kNormal, kTemperature], by simp [constantVelocity]⟩
  · intro ps x hl h hf
    simp only [List.mem_cons, List.not_mem_nil, or_false, not_or] at hf
    obtain ⟨f1, f2, f3, f4⟩ := hf
    have e := vector_ok ev ps x 0 (by
      intro i hi'
      simpa using h i hi')
    refine ⟨(List.range' 0 ps.length).map x, ?_, ?_⟩
    · simp only [velocityOf, params, f1, f2, f3, f4, or_self, if_false, e]
    · unfold constantVelocity
      rw [if_pos (by simp [hl])]
      congr 1
      apply List.ext_getElem
      · simp [hl]
      · intro i h1 h2
        have hid : i < d := by simpa using h2
        simp

/-- **C167 is false of other velocities.** `Velocity:` without parameters reads a parameter that does not exist, although the code has a default for it; a vector with less numbers than dimensions is read beyond its end for
every particle. -/
theorem C167_negation_velocity (ev : Str → Option ℝ) (d : ℕ) (name : Str) (hs : List Head) :
    velocityOf ev d (some (.mk name [] hs)) = .error .undef ∧
    ∀ (ps : List (Str × Str)) (x : ℕ → ℝ), ps.length < d → (∀ i (hi : i < ps.length), ev (ps[i]).1 = some (x i)) → firstName ps ∉ [[], kNormal, kTemperature, kZero] →
      ∃ v, velocityOf ev d (some (.mk name ps hs)) = .ok (.fixed v) ∧ constantVelocity d v = none := by
  constructor
  · simp [velocityOf, params, firstName, valOr]
  · intro ps x hl h hf
    simp only [List.mem_cons, List.not_mem_nil, or_false, not_or] at hf
    obtain ⟨f1, f2, f3, f4⟩ := hf
    have e := vector_ok ev ps x 0 (by simpa using h)
    refine ⟨(List.range' 0 ps.length).map x, ?_, ?_⟩
    · simp only [velocityOf, params, f1, f2, f3, f4, or_self, if_false, e]
    · simp only [constantVelocity, List.length_map, List.length_range']
      exact if_neg (by omega)

/-! ## A concrete area -/

/-- `Fill: Area { Number: 0 { A: 2 }  Bounds: Full }`. -/
def exArea : Head := .mk ['F'] [(['A'], [])] [.mk kNumber [(['0'], [])] [.mk ['A'] [(['2'], [])] []], .mk kBounds [(kFull, [])] []]

/-- The conversion of its numbers. -/
noncomputable def exCd (t : Str) : ℝ := if t = ['2'] then 2 else 0

/-- It creates two particles of the template `A`; two such areas are the hypothesis of `C167_negation_leak`. -/
example (full own : Box 2) (t : Templates.Template) : ∃ a, areaOf [] (fun _ => none) exCd (fun _ => 0) 2 1 full (fun n => if n = ['A'] then some t else none) exArea = .ok a ∧
    areasOf [] (fun _ => none) exCd (fun _ => 0) 2 1 full (fun n => if n = ['A'] then some t else none) [exArea, exArea] = .ok [a, a] ∧ planOf own a = .ok (.particles [t, t]) := by
  have es : sortOptions (.mk kNumber [(['0'], [])] [.mk ['A'] [(['2'], [])] []]) (some []) = [(['A'], [0])] := by decide +kernel
  have e := C167_area [] (fun _ => none) exCd (fun _ => 0) 2 1 full (fun n => if n = ['A'] then some t else none) exArea (.mk kBounds [(kFull, [])] [])
    (.mk kNumber [(['0'], [])] [.mk ['A'] [(['2'], [])] []]) (by simp [exArea, subs, hd, kNumber, kBounds]) (by simp [exArea, subs, hd]) (.rect full) [] (fun n => if n = ['A'] then some t else none) (.count 0) [(['A'], 2)] (.temperature 0.00156)
    (C167_region_partial _ _ _ _).1 (by simp [exArea, subs, hd, kNumber, kBounds, kExcluded, regionsOf])
    (by simp [exArea, subs, hd, kNumber, kBounds, kTemplate, Templates.addTemplates, SetupFile.each])
    (by simp [amountOf, params, firstName, kPhi, kRho])
    (by simp [entriesOf, es, entryLoop, TreeParser.nodeAt, subs, params, hd, mapOf, exCd, lookup])
    (by simp [exArea, subs, hd, kNumber, kBounds, kVelocity, velocityOf]) (by simp [subs])
  refine ⟨_, e, by simp [areasOf, e], ?_⟩
  have := C167_count_partial [] (fun _ => none) exCd (fun _ => 0) 2 1 full (fun n => if n = ['A'] then some t else none) exArea own _ e ['A'] ['2'] [] ['0'] [] kNumber 2
    (by simp [exArea, subs, hd]) (by decide) (by decide) (by simp [exCd, lookup])
  simpa using this

/-- An area without a body under `Number`: the hypothesis of `C167_negation_single`. -/
example : (subs (.mk ['F'] [] [.mk kBounds [(kFull, [])] [], .mk kNumber [(kPhi, ['2'])] []])).find? (fun c => decide (hd c = kNumber)) = some (.mk kNumber [(kPhi, ['2'])] []) := by simp [subs, hd, kNumber, kBounds]

/-- A vector that is too short in three dimensions. -/
example : ([(['1'], []), (['2'], [])] : List (Str × Str)).length < 3 ∧ firstName [(['1'], []), (['2'], [])] ∉ [[], kNormal, kTemperature, kZero] := by decide

end Verif.Areas
