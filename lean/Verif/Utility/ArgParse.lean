import Mathlib.Data.List.Basic
import Mathlib.Tactic.Linarith

/-!
# Command line arguments (C59)

Models `utility/ArgParse.hpp`. Texts are lists of characters (without the closing zero byte). The conversion of a text to a
value by `stream >> var` is a parameter: a function of the text and of the value the variable had.
-/

namespace Verif.ArgParse

/-- `ArgParse`, `utility/ArgParse.hpp:127-136`: the tokens with their values, and the flags `checked`. -/
structure Args where
  tlist : List (List Char × List Char)
  checked : List Bool

/-- `ArgParse::parse`, one argument, `utility/ArgParse.hpp:50-69`: token and value; `none`: `IllegalToken` is thrown. -/
def parseArg : List Char → Option (List Char × List Char)
  | '-' :: r => some (r.takeWhile (· ≠ '='), (r.dropWhile (· ≠ '=')).drop 1)
  | _ => none

/-- `ArgParse::parse`, `utility/ArgParse.hpp:48-73`, on the arguments after the name of the program; `none`: an exception. -/
def parse (p : Args) : List (List Char) → Option Args
  | [] => some p
  | a :: as =>
    match parseArg a with
    | none => none
    | some t => parse ⟨p.tlist ++ [t], p.checked ++ [false]⟩ as

/-- The loop in `ArgParse::find`, `utility/ArgParse.hpp:76-88`: the pair, and the flags. -/
def findLoop (token : List Char) (opt : List Char × List Char) :
    List (List Char × List Char) → List Bool → (List Char × List Char) × List Bool
  | [], c => (opt, c)
  | t :: ts, [] => if t.1 = token then findLoop token t ts [] else findLoop token opt ts []
  | t :: ts, b :: c =>
    if t.1 = token then ((findLoop token t ts c).1, true :: (findLoop token t ts c).2)
    else ((findLoop token opt ts c).1, b :: (findLoop token opt ts c).2)

/-- `ArgParse::find`. (`checked.at` does not throw, since there are as many flags as tokens, see `Reachable.length`.) -/
def find (p : Args) (token : List Char) : (List Char × List Char) × Args :=
  ((findLoop token ([], []) p.tlist p.checked).1, ⟨p.tlist, (findLoop token ([], []) p.tlist p.checked).2⟩)

/-- `ArgParse::get`, `utility/ArgParse.hpp:91-103`: the new value of the variable, and the flags. -/
def get {β : Type} (conv : List Char → β → β) (p : Args) (token : List Char) (var : β) : β × Args :=
  let r := find p token
  (if r.1.1 ≠ [] then conv (if r.1.2 = [] then ['1'] else r.1.2) var else var, r.2)

/-- `ArgParse::check`, `utility/ArgParse.hpp:106-110`: whether it throws. -/
def check (p : Args) : Bool := p.checked.any fun b => !b

/-! ## Specification -/

/-- Text of an argument: `-tok` or `-tok=val`. -/
def render (t : List Char × Option (List Char)) : List Char :=
  '-' :: (t.1 ++ match t.2 with
    | none => []
    | some v => '=' :: v)

/-- The value of the last argument with the token. -/
def lastValue (token : List Char) (ts : List (List Char × List Char)) : Option (List Char) :=
  ((ts.filter fun t => t.1 = token).getLast?).map (·.2)

/-- An object after the arguments `ts` were given and the tokens in `qs` were asked for (in any order and any number of times, also between
calls of `set`, which parses more arguments). -/
inductive Reachable : Args → List (List Char × List Char) → List (List Char) → Prop where
  | new : Reachable ⟨[], []⟩ [] []
  | parse (p p' : Args) (ts qs) (as : List (List Char)) (us : List (List Char × List Char)) :
      Reachable p ts qs → as.mapM parseArg = some us → (∀ u ∈ us, u.1 ∉ qs) → parse p as = some p' → Reachable p' (ts ++ us) qs
  | ask (p : Args) (ts qs) (q : List Char) : Reachable p ts qs → Reachable (find p q).2 ts (q :: qs)

/-! ## Lemmas -/

theorem parse_eq (as : List (List Char)) (p : Args) :
    parse p as = (as.mapM parseArg).map fun us => ⟨p.tlist ++ us, p.checked ++ us.map fun _ => false⟩ := by
  induction as generalizing p with
  | nil => simp [parse]
  | cons a as ih =>
    rw [parse, List.mapM_cons]
    cases parseArg a with
    | none => rfl
    | some t =>
      simp only [ih]
      cases as.mapM parseArg with
      | none => rfl
      | some us => simp [List.replicate_succ]

theorem findLoop_eq (token : List Char) (ts : List (List Char × List Char)) (c : List Bool) (opt) (h : c.length = ts.length) :
    (findLoop token opt ts c).1 = ((ts.filter fun t => t.1 = token).getLast?).getD opt ∧
    (findLoop token opt ts c).2 = List.zipWith (fun t b => decide (t.1 = token) || b) ts c := by
  induction ts generalizing c opt with
  | nil =>
    have : c = [] := List.length_eq_zero_iff.mp (by simpa using h)
    subst this
    simp [findLoop]
  | cons t ts ih =>
    cases c with
    | nil => simp at h
    | cons b c =>
      have h' : c.length = ts.length := by simpa using h
      rw [findLoop]
      by_cases ht : t.1 = token
      · obtain ⟨i1, i2⟩ := ih c t h'
        rw [if_pos ht]
        simp only [i1, i2, List.filter_cons, ht, decide_true, if_true, List.zipWith_cons_cons, Bool.true_or, and_true]
        cases ts.filter fun t => decide (t.1 = token) with
        | nil => rfl
        | cons x l => rw [List.getLast?_cons_cons]; simp [List.getLast?_cons]
      · obtain ⟨i1, i2⟩ := ih c opt h'
        rw [if_neg ht]
        simp only [i1, i2, List.filter_cons, ht, decide_false, Bool.false_eq_true, if_false, List.zipWith_cons_cons, Bool.false_or, and_self]

theorem Reachable.inv {p : Args} {ts qs} (h : Reachable p ts qs) :
    p.tlist = ts ∧ p.checked = ts.map fun t => decide (t.1 ∈ qs) := by
  induction h with
  | new => exact ⟨rfl, rfl⟩
  | parse p p' ts qs as us _ h1 h2 h3 ih =>
    rw [parse_eq, h1] at h3
    cases h3
    refine ⟨by simp [ih.1], ?_⟩
    simp only [ih.2, List.map_append, List.append_cancel_left_eq]
    apply List.map_congr_left
    intro u hu
    simp [h2 u hu]
  | ask p ts qs q _ ih =>
    have hl : p.checked.length = p.tlist.length := by rw [ih.1, ih.2]; simp
    refine ⟨ih.1, ?_⟩
    change (findLoop q ([], []) p.tlist p.checked).2 = _
    rw [(findLoop_eq q _ _ _ hl).2, ih.1, ih.2, List.zipWith_map_right]
    clear ih hl
    induction ts with
    | nil => rfl
    | cons t ts ih => simp [ih, eq_comm]

/-- There are always as many flags as tokens, so that `checked.at(i)` in `find` is in range. -/
theorem Reachable.length {p : Args} {ts qs} (h : Reachable p ts qs) : p.checked.length = p.tlist.length := by
  rw [h.inv.1, h.inv.2]; simp

/-! ## C59 -/

/-- C59: parsing the texts `-tok` and `-tok=val` gives the tokens and values (the empty text if none was given), in order. A token does not
contain `=`; a value may be any text. -/
theorem C59_parse (l : List (List Char × Option (List Char))) (h : ∀ t ∈ l, '=' ∉ t.1) :
    ∃ p, parse ⟨[], []⟩ (l.map render) = some p ∧ p.tlist = l.map fun t => (t.1, t.2.getD []) := by
  have key : ∀ t : List Char × Option (List Char), '=' ∉ t.1 → parseArg (render t) = some (t.1, t.2.getD []) := by
    intro t ht
    obtain ⟨tok, v⟩ := t
    have h1 : ∀ r, (tok ++ r).takeWhile (fun c => decide (c ≠ '=')) = tok ++ r.takeWhile (fun c => decide (c ≠ '=')) := by
      intro r
      rw [List.takeWhile_append_of_pos]
      intro c hc
      simp only [decide_eq_true_eq]
      rintro rfl
      exact ht hc
    have h2 : ∀ r, (tok ++ r).dropWhile (fun c => decide (c ≠ '=')) = r.dropWhile (fun c => decide (c ≠ '=')) := by
      intro r
      rw [List.dropWhile_append_of_pos]
      intro c hc
      simp only [decide_eq_true_eq]
      rintro rfl
      exact ht hc
    rw [render, parseArg, h1, h2]
    cases v <;> simp
  have key2 : (l.map render).mapM parseArg = some (l.map fun t => (t.1, t.2.getD [])) := by
    induction l with
    | nil => rfl
    | cons t l ih =>
      rw [List.map_cons, List.mapM_cons, key t (h t (by simp)), ih (fun t ht => h t (by simp [ht]))]
      rfl
  rw [parse_eq, key2]
  exact ⟨_, rfl, by simp⟩

/-- C59: an argument that does not begin with `-` makes `parse` throw. -/
theorem C59_illegal (as : List (List Char)) (p : Args) : parse p as = none ↔ ∃ a ∈ as, a.head? ≠ some '-' := by
  have key : ∀ a, parseArg a = none ↔ a.head? ≠ some '-' := by
    intro a
    unfold parseArg
    split
    · simp
    · rename_i h
      cases a with
      | nil => simp
      | cons c r =>
        simp only [List.head?_cons, ne_eq, Option.some.injEq, true_iff]
        rintro rfl
        exact h r rfl
  rw [parse_eq, Option.map_eq_none_iff]
  induction as with
  | nil => simp
  | cons a as ih =>
    rw [List.mapM_cons]
    simp only [List.mem_cons, exists_eq_or_imp, ← ih, ← key a]
    cases parseArg a with
    | none => simp
    | some t => cases as.mapM parseArg <;> simp

/-- C59: after any history, `get` of a token that was given sets the variable to what the last value given for the token is converted to, where an
empty value stands for `1`; if the token was not given the variable keeps its value. -/
theorem C59_get {β : Type} (conv : List Char → β → β) (p : Args) (ts qs) (h : Reachable p ts qs) (token : List Char)
    (ht : token ≠ []) (var : β) :
    (get conv p token var).1 =
      match lastValue token ts with
      | none => var
      | some v => conv (if v = [] then ['1'] else v) var := by
  unfold get find lastValue
  simp only
  rw [(findLoop_eq token _ _ ([], []) h.length).1, h.inv.1]
  cases hl : (ts.filter fun t => decide (t.1 = token)).getLast? with
  | none => simp
  | some t =>
    have := List.mem_of_getLast? hl
    have : t.1 = token := by simpa using (List.mem_filter.mp this).2
    simp [this, ht]

/-- C59: after any history, `check` throws exactly when a token was given that was never asked for. -/
theorem C59_check (p : Args) (ts qs) (h : Reachable p ts qs) : check p = true ↔ ∃ t ∈ ts, t.1 ∉ qs := by
  unfold check
  rw [h.inv.2]
  simp

/-- C59: asking counts, however it is done: `get` marks the token as `find` does. -/
theorem C59_get_marks {β : Type} (conv : List Char → β → β) (p : Args) (token : List Char) (var : β) :
    (get conv p token var).2 = (find p token).2 := rfl

/-- C59: the order in which tokens are asked for does not matter for `check`. -/
theorem C59_order (p p' : Args) (ts qs qs') (h : Reachable p ts qs) (h' : Reachable p' ts qs') (e : ∀ q, q ∈ qs ↔ q ∈ qs') :
    check p = check p' := by
  rw [Bool.eq_iff_iff, C59_check p ts qs h, C59_check p' ts qs' h']
  simp [e]

/-- Two arguments with the same token, and one that is not asked for. -/
example : ∃ p, parse ⟨[], []⟩ ["-n=3".toList, "-v".toList, "-n=5=6".toList] = some p ∧
    Reachable (find p ['n']).2 [(['n'], ['3']), (['v'], []), (['n'], ['5', '=', '6'])] [['n']] ∧
    (get (fun v _ => v) p ['n'] []).1 = ['5', '=', '6'] ∧ check (find p ['n']).2 = true ∧
    check (find (find p ['n']).2 ['v']).2 = false := by
  refine ⟨_, rfl, ?_, by decide +kernel, by decide +kernel, by decide +kernel⟩
  exact .ask _ _ _ _ (.parse _ _ [] [] ["-n=3".toList, "-v".toList, "-n=5=6".toList] _ .new rfl (by simp) rfl)

end Verif.ArgParse
