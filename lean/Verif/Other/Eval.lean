import Mathlib.Algebra.Field.Basic
import Mathlib.Algebra.Field.Rat
import Mathlib.Tactic.Ring
import Mathlib.Tactic.NormNum

/-!
# Arithmetic expressions (C50)

Models `other/evaluation.cpp`: the parser of expressions into a tree and the evaluation of the tree. The numbers are elements
of a field `K` (exact arithmetic), and `num` gives the value of a word (`cast`, `other/evaluation.hpp:9-17`: a variable or a
number).
-/

namespace Verif.Eval

/-- `EvaluationNode`, `other/evaluation.hpp:20-50`; `nil` is the null pointer. The parent pointers are represented by the
context in `St`. -/
inductive T where
  | nil
  | node (val : List Char) (l r : T)
deriving DecidableEq

/-- `EvaluationNode::evaluate`, `other/evaluation.cpp:14-24`; `none` is the access through a null pointer. -/
def evalT {K : Type} [Field K] (num : List Char → K) : T → Option K
  | .nil => none
  | .node v .nil _ => some (num v)
  | .node v (.node a b c) r =>
    if v = ['+'] then do return (← evalT num (.node a b c)) + (← evalT num r)
    else if v = ['-'] then do return (← evalT num (.node a b c)) - (← evalT num r)
    else if v = ['*'] then do return (← evalT num (.node a b c)) * (← evalT num r)
    else if v = ['/'] then do return (← evalT num (.node a b c)) / (← evalT num r)
    else some 0

/-- The characters which end a word, `other/evaluation.cpp:69`. -/
def stops (c : Char) : Bool := c == '+' || c == '-' || c == '*' || c == '/' || c == '(' || c == ')'

/-- `Eval::getNext`, `other/evaluation.cpp:61-79`; gives the word and the rest of the text. -/
def getNext : List Char → List Char × List Char
  | [] => ([], [])
  | c :: cs =>
    if c = ' ' then getNext cs
    else if stops c then ([], c :: cs)
    else (c :: (getNext cs).1, (getNext cs).2)

/-- Local variables of `parseStringToEvaluate`, `other/evaluation.cpp:83-87`: `top`, and the operators and left sides of the
nodes from `top` up to `head` (innermost first); all these have `top` in the right subtree, and the parent of `top` is the
first of them. `init`: `extra` has been set. -/
structure St where
  ctx : List (List Char × T)
  top : T
  first : Bool
  opTurn : Bool
  init : Bool

/-- The tree with root `head`. -/
def plug (ctx : List (List Char × T)) (t : T) : T := ctx.foldl (fun t q => .node q.1 q.2 t) t

/-- Initial values, `other/evaluation.cpp:83-87`. -/
def St.start : St := ⟨[], .nil, true, false, false⟩

/-- Use of an operand `extra`, `other/evaluation.cpp:122-132,189`; nothing happens for a null pointer (`other/evaluation.cpp:122`). -/
def operand (s : St) (extra : T) : St :=
  match extra with
  | .nil => ⟨s.ctx, s.top, s.first, !s.opTurn, true⟩
  | extra =>
    match s.top with
    | .nil => ⟨s.ctx, extra, s.first, !s.opTurn, true⟩
    | .node v l _ => ⟨s.ctx, .node v l extra, s.first, !s.opTurn, true⟩

/-- Use of an operator, `other/evaluation.cpp:136-189`; `none`: `extra` was never set, or a null pointer is used. -/
def operator (s : St) (c : Char) : Option St :=
  if s.init = false then none
  else if s.first then
    match s.top with
    | .nil => none
    | t => some ⟨s.ctx, .node [c] t .nil, false, !s.opTurn, true⟩
  else if c = '+' ∨ c = '-' then some ⟨s.ctx, .node [c] s.top .nil, false, !s.opTurn, true⟩
  else
    match s.top with
    | .nil => none
    | .node v l r =>
      if v = ['*'] ∨ v = ['/'] then some ⟨s.ctx, .node [c] s.top .nil, false, !s.opTurn, true⟩
      else if v = ['+'] ∨ v = ['-'] then
        match r with
        | .nil => none
        | r => some ⟨(v, l) :: s.ctx, .node [c] r .nil, false, !s.opTurn, true⟩
      else some ⟨s.ctx, s.top, false, !s.opTurn, true⟩

/-- Skipping spaces, `other/evaluation.cpp:94-97`. -/
def skip (cs : List Char) : List Char := cs.dropWhile (· = ' ')

/-- The loop of `parseStringToEvaluate`, `other/evaluation.cpp:89-192`; the text is the rest from `point` on. Gives `head` and
the rest. The first argument bounds the number of turns, see `turns` and `parse_eq`. -/
def loop : ℕ → St → List Char → Option (T × List Char)
  | 0, _, _ => none
  | _ + 1, s, [] => some (plug s.ctx s.top, [])
  | k + 1, s, c0 :: cs0 =>
    match skip (c0 :: cs0) with
    | [] => loop k (operand s (.node [] .nil .nil)) []
    | c :: cs =>
      if c = '(' then
        match loop k .start cs with
        | none => none
        | some (t, rest) => loop k (operand s t) rest
      else if c = ')' then some (plug s.ctx s.top, cs)
      else if c ≠ '+' ∧ (c ≠ '-' ∨ s.opTurn = false) ∧ c ≠ '*' ∧ c ≠ '/' then
        loop k (operand s (.node (getNext (c :: cs)).1 .nil .nil)) (getNext (c :: cs)).2
      else
        match operator s c with
        | none => none
        | some s => loop k s cs

/-- A bound for the turns that are needed for a text. -/
def turns (s : St) (cs : List Char) : ℕ := 2 * cs.length + (if s.opTurn then 0 else 1)

/-- `parseStringToEvaluate`, `other/evaluation.cpp:81-193`. -/
def parse (s : St) (cs : List Char) : Option (T × List Char) := loop (turns s cs + 1) s cs

/-- `Eval::evaluate`, `other/evaluation.cpp:50-59`. -/
def evaluate {K : Type} [Field K] (num : List Char → K) (text : List Char) : Option K :=
  (parse .start text).bind fun q => evalT num q.1

/-! ## The loop without a bound on the turns -/

theorem getNext_length (cs : List Char) : (getNext cs).2.length ≤ cs.length := by
  induction cs with
  | nil => simp [getNext]
  | cons c cs ih =>
    rw [getNext]
    split
    · exact Nat.le_succ_of_le ih
    · split
      · simp
      · exact Nat.le_succ_of_le ih

theorem skip_length (cs : List Char) : (skip cs).length ≤ cs.length := (List.dropWhile_sublist _).length_le

theorem operand_opTurn (s : St) (t : T) : (operand s t).opTurn = !s.opTurn := by
  unfold operand
  split
  · rfl
  · split <;> rfl

theorem operator_opTurn (s s' : St) (c : Char) (h : operator s c = some s') : s'.opTurn = !s.opTurn := by
  unfold operator at h
  split at h
  · cases h
  · split at h
    · split at h <;> cases h; rfl
    · split at h
      · cases h; rfl
      · split at h
        · cases h
        · split at h
          · cases h; rfl
          · split at h
            · split at h <;> cases h; rfl
            · cases h; rfl

theorem loop_length (k : ℕ) (s : St) (cs : List Char) (q) (h : loop k s cs = some q) : q.2.length ≤ cs.length := by
  induction k generalizing s cs q with
  | zero => simp [loop] at h
  | succ k ih =>
    cases cs with
    | nil => simp [loop] at h; subst h; simp
    | cons c0 cs0 =>
      rw [loop] at h
      have hs := skip_length (c0 :: cs0)
      split at h
      · exact le_trans (ih _ _ _ h) (by simp)
      · rename_i c cs heq
        rw [heq] at hs
        split at h
        · split at h
          · cases h
          · rename_i t rest hl
            have h1 := ih _ _ _ hl
            have h2 := ih _ _ _ h
            simp only [List.length_cons] at *
            omega
        · split at h
          · cases h
            simp only [List.length_cons] at *
            omega
          · split at h
            · have h2 := ih _ _ _ h
              have h3 := getNext_length (c :: cs)
              omega
            · split at h
              · cases h
              · have h2 := ih _ _ _ h
                simp only [List.length_cons] at *
                omega

theorem getNext_advance (c : Char) (cs : List Char) (h : c = ' ' ∨ stops c = false) :
    (getNext (c :: cs)).2.length ≤ cs.length := by
  rw [getNext]
  split
  · exact getNext_length cs
  · split
    · rcases h with h | h <;> simp_all
    · exact getNext_length cs

theorem skip_head (cs : List Char) (c : Char) (r : List Char) (h : skip cs = c :: r) : c ≠ ' ' := by
  have := List.head?_dropWhile_not (fun x : Char => decide (x = ' ')) cs
  unfold skip at h
  rw [h] at this
  simpa using this

/-- With enough turns the bound has no effect. -/
theorem loop_irrel (k k' : ℕ) (s : St) (cs : List Char) (h : turns s cs < k) (h' : turns s cs < k') :
    loop k s cs = loop k' s cs := by
  induction k generalizing k' s cs with
  | zero => omega
  | succ k ih =>
    cases k' with
    | zero => omega
    | succ k' =>
      cases cs with
      | nil => rfl
      | cons c0 cs0 =>
        have hs := skip_length (c0 :: cs0)
        rw [loop, loop]
        split
        · refine ih _ _ _ ?_ ?_ <;>
          · simp only [turns, List.length_cons, List.length_nil] at *
            split <;> omega
        · rename_i c cs heq
          rw [heq] at hs
          have hl : 2 * cs.length + 2 ≤ 2 * (c0 :: cs0).length := by simp only [List.length_cons] at *; omega
          split
          · have e : loop k .start cs = loop k' .start cs := by
              refine ih _ _ _ ?_ ?_ <;>
              · simp only [turns, St.start] at *
                simp only [Bool.false_eq_true, if_false]; split at h <;> omega
            rw [e]
            split
            · rfl
            · rename_i t rest hr
              have := loop_length _ _ _ _ hr
              refine ih _ _ _ ?_ ?_ <;>
              · simp only [turns] at *
                split <;> omega
          · split
            · rfl
            · split
              · rename_i h1 h2 h3
                by_cases hm : c = '-'
                · subst hm
                  have ho : s.opTurn = false := by
                    rcases h3.2.1 with h | h
                    · exact absurd rfl h
                    · exact h
                  have := getNext_length ('-' :: cs)
                  refine ih _ _ _ ?_ ?_ <;>
                  · simp only [turns, operand_opTurn, ho, Bool.not_false, if_true, List.length_cons] at *
                    simp only [Bool.false_eq_true, if_false] at *
                    omega
                · have := getNext_advance c cs (Or.inr (by
                    unfold stops
                    simp [h1, h2, h3.1, h3.2.2.1, h3.2.2.2, hm]))
                  refine ih _ _ _ ?_ ?_ <;>
                  · simp only [turns] at *
                    split <;> omega
              · split
                · rfl
                · rename_i s' hop
                  refine ih _ _ _ ?_ ?_ <;>
                  · simp only [turns] at *
                    split <;> omega

/-- The parser satisfies the equations of the loop in the code: the bound on the turns is never reached. -/
theorem parse_eq (s : St) (cs : List Char) : parse s cs =
    match cs with
    | [] => some (plug s.ctx s.top, [])
    | c0 :: cs0 =>
      match skip (c0 :: cs0) with
      | [] => parse (operand s (.node [] .nil .nil)) []
      | c :: cs =>
        if c = '(' then
          match parse .start cs with
          | none => none
          | some (t, rest) => parse (operand s t) rest
        else if c = ')' then some (plug s.ctx s.top, cs)
        else if c ≠ '+' ∧ (c ≠ '-' ∨ s.opTurn = false) ∧ c ≠ '*' ∧ c ≠ '/' then
          parse (operand s (.node (getNext (c :: cs)).1 .nil .nil)) (getNext (c :: cs)).2
        else
          match operator s c with
          | none => none
          | some s => parse s cs := by
  have big : ∀ (k : ℕ) s cs, turns s cs < k → loop k s cs = parse s cs := fun k s cs h =>
    loop_irrel _ _ _ _ h (by omega)
  cases cs with
  | nil => rfl
  | cons c0 cs0 =>
    rw [← big (turns s (c0 :: cs0) + 4 + 1) s (c0 :: cs0) (by omega), loop]
    have hs := skip_length (c0 :: cs0)
    split
    · rename_i heq
      simp only [heq]
      refine big _ _ _ ?_
      simp only [turns, List.length_cons, List.length_nil]
      split <;> omega
    · rename_i c cs heq
      simp only [heq]
      rw [heq] at hs
      have hl : 2 * cs.length + 2 ≤ 2 * (c0 :: cs0).length := by simp only [List.length_cons] at *; omega
      split
      · rw [big _ St.start cs (by simp only [turns, St.start, Bool.false_eq_true, if_false]; omega)]
        cases hr : parse .start cs with
        | none => rfl
        | some q =>
          obtain ⟨t, rest⟩ := q
          have := loop_length _ _ _ _ hr
          simp only at this
          simp only
          refine big _ _ _ ?_
          simp only [turns]
          split <;> omega
      · split
        · rfl
        · split
          · have := getNext_length (c :: cs)
            simp only [List.length_cons] at this hl hs
            refine big _ _ _ ?_
            simp only [turns, List.length_cons]
            split <;> omega
          · cases operator s c with
            | none => rfl
            | some s' =>
              simp only
              refine big _ _ _ ?_
              simp only [turns]
              split <;> omega

/-! ## Specification: expressions, their text and their value -/

/-- Words: numbers and names of variables. -/
abbrev Word := {w : List Char // w ≠ [] ∧ ∀ c ∈ w, c ≠ ' ' ∧ stops c = false}

mutual
/-- Factors: a word, or an expression in parentheses. The numbers are the numbers of spaces before a symbol. -/
inductive Fac where
  | lit (sp : ℕ) (w : Word)
  | par (sp : ℕ) (e : Sum) (sp' : ℕ)
/-- Products of factors, from the left; `div` for a division. -/
inductive Pro where
  | one (f : Fac)
  | mul (p : Pro) (sp : ℕ) (div : Bool) (f : Fac)
/-- Sums of products, from the left; `sub` for a subtraction. -/
inductive Sum where
  | one (p : Pro)
  | add (e : Sum) (sp : ℕ) (sub : Bool) (p : Pro)
end

/-- A number of spaces. -/
def spaces (k : ℕ) : List Char := List.replicate k ' '

/-- The symbol of a product. -/
def mulSym (div : Bool) : Char := if div then '/' else '*'

/-- The symbol of a sum. -/
def addSym (sub : Bool) : Char := if sub then '-' else '+'

mutual
/-- The text of a factor. -/
def Fac.text : Fac → List Char
  | .lit sp w => spaces sp ++ w.1
  | .par sp e sp' => spaces sp ++ '(' :: (e.text ++ (spaces sp' ++ [')']))
/-- The text of a product. -/
def Pro.text : Pro → List Char
  | .one f => f.text
  | .mul p sp d f => p.text ++ (spaces sp ++ mulSym d :: f.text)
/-- The text of a sum. -/
def Sum.text : Sum → List Char
  | .one p => p.text
  | .add e sp b p => e.text ++ (spaces sp ++ addSym b :: p.text)
end

section
variable {K : Type} [Field K] (num : List Char → K)

mutual
/-- The value of a factor. -/
def Fac.value : Fac → K
  | .lit _ w => num w.1
  | .par _ e _ => e.value
/-- The value of a product, evaluated from the left. -/
def Pro.value : Pro → K
  | .one f => f.value
  | .mul p _ d f => if d then p.value / f.value else p.value * f.value
/-- The value of a sum, evaluated from the left. -/
def Sum.value : Sum → K
  | .one p => p.value
  | .add e _ b p => if b then e.value - p.value else e.value + p.value
end
end

/-! ## The tree which the parser builds -/

/-- A product of a single factor. -/
def Pro.single : Pro → Bool
  | .one _ => true
  | .mul .. => false

mutual
/-- The tree for a factor. -/
def Fac.tree : Fac → T
  | .lit _ w => .node w.1 .nil .nil
  | .par _ e _ => plug e.ctx e.top
/-- The tree for a product. -/
def Pro.tree : Pro → T
  | .one f => f.tree
  | .mul p _ d f => .node [mulSym d] p.tree f.tree
/-- The context after a sum: a product after the first opens a new level. -/
def Sum.ctx : Sum → List (List Char × T)
  | .one _ => []
  | .add e _ b p => if p.single then e.ctx else ([addSym b], e.top) :: e.ctx
/-- The current node after a sum. -/
def Sum.top : Sum → T
  | .one p => p.tree
  | .add e _ b p => if p.single then .node [addSym b] e.top p.tree else p.tree
end

/-- No operator was met. -/
def Sum.first : Sum → Bool
  | .one p => p.single
  | .add .. => false

theorem plug_ne (ctx : List (List Char × T)) (t : T) (h : t ≠ .nil) : plug ctx t ≠ .nil := by
  induction ctx generalizing t with
  | nil => exact h
  | cons q ctx ih => exact ih _ (by simp)

mutual
theorem Fac.tree_ne : ∀ f : Fac, f.tree ≠ .nil
  | .lit _ _ => by simp [Fac.tree]
  | .par _ e _ => by rw [Fac.tree]; exact plug_ne _ _ (Sum.top_ne e)
theorem Pro.tree_ne : ∀ p : Pro, p.tree ≠ .nil
  | .one f => by rw [Pro.tree]; exact Fac.tree_ne f
  | .mul .. => by simp [Pro.tree]
theorem Sum.top_ne : ∀ e : Sum, e.top ≠ .nil
  | .one p => by rw [Sum.top]; exact Pro.tree_ne p
  | .add e _ b p => by
    rw [Sum.top]
    split
    · simp
    · exact Pro.tree_ne p
end

/-- What may follow an operand: nothing, or spaces and an operator or a closing parenthesis. -/
def Follow (rest : List Char) : Prop :=
  rest = [] ∨ ∃ k c r, rest = spaces k ++ c :: r ∧ c ≠ '(' ∧ stops c = true

theorem skip_spaces (k : ℕ) (cs : List Char) : skip (spaces k ++ cs) = skip cs := by
  unfold spaces skip
  induction k with
  | zero => rfl
  | succ k ih => rw [List.replicate_succ, List.cons_append, List.dropWhile_cons]; simpa using ih

theorem stops_ne (c : Char) (h : stops c = true) : c ≠ ' ' := by
  rintro rfl; simp [stops] at h

theorem skip_cons (c : Char) (cs : List Char) (h : c ≠ ' ') : skip (c :: cs) = c :: cs := by
  unfold skip; rw [List.dropWhile_cons]; simp [h]

theorem skip_nil : skip [] = [] := rfl

theorem parse_skip (s : St) (cs : List Char) (h : skip cs ≠ []) : parse s (skip cs) = parse s cs := by
  cases hs : skip cs with
  | nil => exact absurd hs h
  | cons c r =>
    have hc := skip_head cs c r hs
    rw [parse_eq s (c :: r), parse_eq s cs]
    cases cs with
    | nil => simp [skip_nil] at hs
    | cons c0 cs0 =>
      simp only
      rw [skip_cons c r hc, hs]

theorem parse_skip_follow (s : St) (rest : List Char) (h : Follow rest) : parse s (skip rest) = parse s rest := by
  rcases h with rfl | ⟨k, c, r, rfl, -, h⟩
  · rfl
  · refine parse_skip s _ ?_
    rw [skip_spaces, skip_cons _ _ (stops_ne c h)]; simp

theorem getNext_follow (rest : List Char) (h : Follow rest) : getNext rest = ([], skip rest) := by
  rcases h with rfl | ⟨k, c, r, rfl, -, h⟩
  · rfl
  · rw [skip_spaces, skip_cons _ _ (stops_ne c h)]
    unfold spaces
    induction k with
    | zero =>
      show getNext (c :: r) = _
      rw [getNext, if_neg (stops_ne c h), if_pos h]
    | succ k ih => rw [List.replicate_succ, List.cons_append, getNext, if_pos rfl, ih]

theorem getNext_word (w rest : List Char) (hw : ∀ c ∈ w, c ≠ ' ' ∧ stops c = false) (h : Follow rest) :
    getNext (w ++ rest) = (w, skip rest) := by
  induction w with
  | nil => exact getNext_follow rest h
  | cons c w ih =>
    rw [List.cons_append, getNext, if_neg (hw c (by simp)).1, if_neg (by simp [(hw c (by simp)).2]),
      ih (fun c hc => hw c (by simp [hc]))]

theorem stops_eq (c : Char) : stops c = false ↔ c ≠ '+' ∧ c ≠ '-' ∧ c ≠ '*' ∧ c ≠ '/' ∧ c ≠ '(' ∧ c ≠ ')' := by
  unfold stops; simp [and_assoc]

/-- One turn with a symbol after spaces. -/
theorem parse_cons (s : St) (k : ℕ) (c : Char) (cs : List Char) (hc : c ≠ ' ') : parse s (spaces k ++ c :: cs) =
    if c = '(' then
      match parse .start cs with
      | none => none
      | some (t, rest) => parse (operand s t) rest
    else if c = ')' then some (plug s.ctx s.top, cs)
    else if c ≠ '+' ∧ (c ≠ '-' ∨ s.opTurn = false) ∧ c ≠ '*' ∧ c ≠ '/' then
      parse (operand s (.node (getNext (c :: cs)).1 .nil .nil)) (getNext (c :: cs)).2
    else
      match operator s c with
      | none => none
      | some s => parse s cs := by
  have : skip (spaces k ++ c :: cs) = c :: cs := by rw [skip_spaces, skip_cons _ _ hc]
  rw [← parse_skip s (spaces k ++ c :: cs) (by rw [this]; simp), this, parse_eq]
  simp only
  rw [skip_cons _ _ hc]

theorem parse_word (s : St) (k : ℕ) (w : Word) (rest : List Char) (h : Follow rest) :
    parse s (spaces k ++ (w.1 ++ rest)) = parse (operand s (.node w.1 .nil .nil)) rest := by
  obtain ⟨w, hne, hw⟩ := w
  cases w with
  | nil => exact absurd rfl hne
  | cons c w =>
    have hc := hw c (by simp)
    have hs := (stops_eq c).mp hc.2
    have hg := getNext_word (c :: w) rest hw h
    rw [List.cons_append] at hg
    simp only [List.cons_append]
    rw [parse_cons s k c _ hc.1, if_neg hs.2.2.2.2.1, if_neg hs.2.2.2.2.2,
      if_pos ⟨hs.1, Or.inl hs.2.1, hs.2.2.1, hs.2.2.2.1⟩, hg]
    simp only
    exact parse_skip_follow _ rest h

theorem follow_sym (k : ℕ) (c : Char) (r : List Char) (h : c ≠ '(' ∧ stops c = true) : Follow (spaces k ++ c :: r) :=
  Or.inr ⟨k, c, r, rfl, h.1, h.2⟩

theorem mulSym_stops (d : Bool) : mulSym d ≠ '(' ∧ stops (mulSym d) = true := by cases d <;> decide

theorem addSym_stops (b : Bool) : addSym b ≠ '(' ∧ stops (addSym b) = true := by cases b <;> decide

theorem operand_ne (ctx) (v : List Char) (l r : T) (fi i : Bool) (t : T) (ht : t ≠ .nil) :
    operand ⟨ctx, .node v l r, fi, false, i⟩ t = ⟨ctx, .node v l t, fi, true, true⟩ := by
  unfold operand
  split
  · exact absurd rfl ht
  · rfl

theorem operand_start (t : T) (ht : t ≠ .nil) : operand .start t = ⟨[], t, true, true, true⟩ := by
  unfold operand
  split
  · exact absurd rfl ht
  · rfl

theorem parse_op (ctx) (t : T) (fi : Bool) (k : ℕ) (c : Char) (cs : List Char) (hc : c = '+' ∨ c = '-' ∨ c = '*' ∨ c = '/')
    (s' : St) (h : operator ⟨ctx, t, fi, true, true⟩ c = some s') :
    parse ⟨ctx, t, fi, true, true⟩ (spaces k ++ c :: cs) = parse s' cs := by
  rw [parse_cons _ _ _ _ (by rcases hc with rfl | rfl | rfl | rfl <;> decide), if_neg, if_neg, if_neg, h]
  · rcases hc with rfl | rfl | rfl | rfl <;> simp
  · rcases hc with rfl | rfl | rfl | rfl <;> decide
  · rcases hc with rfl | rfl | rfl | rfl <;> decide

theorem mulSym_or (d : Bool) : mulSym d = '+' ∨ mulSym d = '-' ∨ mulSym d = '*' ∨ mulSym d = '/' := by cases d <;> decide
theorem addSym_or (d : Bool) : addSym d = '+' ∨ addSym d = '-' ∨ addSym d = '*' ∨ addSym d = '/' := by cases d <;> decide

/-- An operator in a state where the next level is not opened. -/
theorem operator_same (ctx) (t : T) (fi : Bool) (c : Char) (ht : t ≠ .nil)
    (h : fi = true ∨ c = '+' ∨ c = '-' ∨ ∃ v l r, t = .node v l r ∧ (v = ['*'] ∨ v = ['/'])) :
    operator ⟨ctx, t, fi, true, true⟩ c = some ⟨ctx, .node [c] t .nil, false, false, true⟩ := by
  unfold operator
  simp only [Bool.true_eq_false, if_false]
  cases t with
  | nil => exact absurd rfl ht
  | node v l r =>
    cases fi with
    | true => simp
    | false =>
      simp only [Bool.false_eq_true, if_false]
      by_cases hc : c = '+' ∨ c = '-'
      · rw [if_pos hc]; rfl
      · rw [if_neg hc]
        simp only [Bool.false_eq_true, false_or] at h
        rcases h with h | h | ⟨v', l', r', h1, h2⟩
        · exact absurd (Or.inl h) hc
        · exact absurd (Or.inr h) hc
        · cases h1
          rw [if_pos h2]; rfl

/-- A product after a sum operator opens a new level. -/
theorem operator_open (ctx) (b d : Bool) (l t : T) (ht : t ≠ .nil) :
    operator ⟨ctx, .node [addSym b] l t, false, true, true⟩ (mulSym d) =
      some ⟨([addSym b], l) :: ctx, .node [mulSym d] t .nil, false, false, true⟩ := by
  unfold operator
  simp only [Bool.true_eq_false, Bool.false_eq_true, if_false]
  rw [if_neg (by cases d <;> decide), if_neg (by cases b <;> decide), if_pos (by cases b <;> decide)]
  cases t with
  | nil => exact absurd rfl ht
  | node => rfl

/-- The tree of a product with at least two factors has a product sign at the root. -/
theorem Pro.tree_mul (p : Pro) (h : p.single = false) : ∃ v l r, p.tree = .node v l r ∧ (v = ['*'] ∨ v = ['/']) := by
  cases p with
  | one f => simp [Pro.single] at h
  | mul p sp d f => exact ⟨[mulSym d], p.tree, f.tree, by rw [Pro.tree], by cases d <;> decide⟩

mutual
theorem Fac.parse : ∀ (f : Fac) (s : St) (rest : List Char), Follow rest →
    parse s (f.text ++ rest) = Eval.parse (operand s f.tree) rest
  | .lit sp w, s, rest, h => by
    rw [Fac.text, Fac.tree, List.append_assoc]
    exact parse_word s sp w rest h
  | .par sp e sp', s, rest, h => by
    rw [Fac.text, Fac.tree]
    simp only [List.append_assoc, List.cons_append, List.nil_append]
    rw [parse_cons s sp '(' _ (by decide), if_pos rfl,
      Sum.parse e (spaces sp' ++ ')' :: rest) (follow_sym _ _ _ (by decide)), parse_cons _ _ _ _ (by decide),
      if_neg (by decide), if_pos rfl]
theorem Pro.parse_first : ∀ (p : Pro) (rest : List Char), Follow rest →
    parse .start (p.text ++ rest) = Eval.parse ⟨[], p.tree, p.single, true, true⟩ rest
  | .one f, rest, h => by
    rw [Pro.text, Pro.tree, Fac.parse f _ _ h, operand_start _ (Fac.tree_ne f)]; rfl
  | .mul p sp d f, rest, h => by
    rw [Pro.text, Pro.tree]
    simp only [List.append_assoc, List.cons_append]
    rw [Pro.parse_first p _ (follow_sym _ _ _ (mulSym_stops d)), parse_op _ _ _ _ _ _ (mulSym_or d) _
      (operator_same _ _ _ _ (Pro.tree_ne p) (by
        cases hp : p.single with
        | true => exact Or.inl rfl
        | false => exact Or.inr (Or.inr (Or.inr (Pro.tree_mul p hp))))),
      Fac.parse f _ _ h, operand_ne _ _ _ _ _ _ _ (Fac.tree_ne f)]
    rfl
theorem Pro.parse_next : ∀ (p : Pro) (ctx : List (List Char × T)) (b : Bool) (l : T) (rest : List Char), Follow rest →
    parse ⟨ctx, .node [addSym b] l .nil, false, false, true⟩ (p.text ++ rest) =
      Eval.parse ⟨if p.single then ctx else ([addSym b], l) :: ctx, if p.single then .node [addSym b] l p.tree else p.tree,
        false, true, true⟩ rest
  | .one f, ctx, b, l, rest, h => by
    rw [Pro.text, Pro.tree, Fac.parse f _ _ h, operand_ne _ _ _ _ _ _ _ (Fac.tree_ne f)]
    rfl
  | .mul p sp d f, ctx, b, l, rest, h => by
    rw [Pro.text]
    simp only [List.append_assoc, List.cons_append]
    rw [Pro.parse_next p ctx b l _ (follow_sym _ _ _ (mulSym_stops d))]
    cases hp : p.single with
    | true =>
      simp only [if_true]
      rw [parse_op _ _ _ _ _ _ (mulSym_or d) _ (operator_open _ _ _ _ _ (Pro.tree_ne p)), Fac.parse f _ _ h,
        operand_ne _ _ _ _ _ _ _ (Fac.tree_ne f), Pro.tree]
      rfl
    | false =>
      simp only [Bool.false_eq_true, if_false]
      rw [parse_op _ _ _ _ _ _ (mulSym_or d) _ (operator_same _ _ _ _ (Pro.tree_ne p)
          (Or.inr (Or.inr (Or.inr (Pro.tree_mul p hp))))), Fac.parse f _ _ h,
        operand_ne _ _ _ _ _ _ _ (Fac.tree_ne f), Pro.tree]
      rfl
theorem Sum.parse : ∀ (e : Sum) (rest : List Char), Follow rest →
    parse .start (e.text ++ rest) = Eval.parse ⟨e.ctx, e.top, e.first, true, true⟩ rest
  | .one p, rest, h => by
    rw [Sum.text, Pro.parse_first p rest h, Sum.ctx, Sum.top, Sum.first]
  | .add e sp b p, rest, h => by
    rw [Sum.text]
    simp only [List.append_assoc, List.cons_append]
    rw [Sum.parse e _ (follow_sym _ _ _ (addSym_stops b)), parse_op _ _ _ _ _ _ (addSym_or b) _
      (operator_same _ _ _ _ (Sum.top_ne e) (by cases b <;> simp [addSym])), Pro.parse_next p _ _ _ _ h, Sum.ctx, Sum.top,
      Sum.first]
end

/-! ## C50 -/

/-- The parser consumes the whole text and builds the described tree. -/
theorem parse_text (e : Sum) : parse .start e.text = some (plug e.ctx e.top, []) := by
  have := Sum.parse e [] (Or.inl rfl)
  rw [List.append_nil] at this
  rw [this, parse_eq]

mutual
/-- Expressions for which the parser is right: inside of all parentheses too. -/
def Fac.Safe : Fac → Prop
  | .lit _ _ => True
  | .par _ e _ => e.Safe
/-- See `Fac.Safe`. -/
def Pro.Safe : Pro → Prop
  | .one f => f.Safe
  | .mul p _ _ f => p.Safe ∧ f.Safe
/-- See `Fac.Safe`: only the last term of a sum may be a product which is subtracted. -/
def Sum.Safe : Sum → Prop
  | .one p => p.Safe
  | .add e _ _ p => e.Safe ∧ e.NoSubtractedProduct ∧ p.Safe
/-- No term after the first is a product of several factors with a minus sign. -/
def Sum.NoSubtractedProduct : Sum → Prop
  | .one _ => True
  | .add e _ b p => e.NoSubtractedProduct ∧ (p.single = true ∨ b = false)
end

section
variable {K : Type} [Field K] (num : List Char → K)

theorem evalT_add (b : Bool) (l r : T) (x y : K) (hl : evalT num l = some x) (hr : evalT num r = some y) :
    evalT num (.node [addSym b] l r) = some (if b then x - y else x + y) := by
  cases l with
  | nil => simp [evalT] at hl
  | node a p q =>
    rw [evalT, hl, hr]
    cases b <;> simp [addSym]

theorem evalT_mul (d : Bool) (l r : T) (x y : K) (hl : evalT num l = some x) (hr : evalT num r = some y) :
    evalT num (.node [mulSym d] l r) = some (if d then x / y else x * y) := by
  cases l with
  | nil => simp [evalT] at hl
  | node a p q =>
    rw [evalT, hl, hr]
    cases d <;> simp [mulSym]

/-- Where the parser may go on, the levels which are open only add. -/
def OpenOk (e : Sum) : Prop :=
  ∃ A w : K, (∀ t v, evalT num t = some v → evalT num (plug e.ctx t) = some (A + v)) ∧ evalT num e.top = some w ∧
    e.value num = A + w

mutual
theorem Fac.eval : ∀ f : Fac, f.Safe → evalT num f.tree = some (f.value num)
  | .lit _ w, _ => by rw [Fac.tree, Fac.value, evalT]
  | .par _ e _, h => by
    rw [Fac.tree, Fac.value]
    exact Sum.eval e (by rw [Fac.Safe] at h; exact h)
theorem Pro.eval : ∀ p : Pro, p.Safe → evalT num p.tree = some (p.value num)
  | .one f, h => by rw [Pro.tree, Pro.value]; exact Fac.eval f (by rw [Pro.Safe] at h; exact h)
  | .mul p _ d f, h => by
    rw [Pro.Safe] at h
    rw [Pro.tree, Pro.value, evalT_mul num d _ _ _ _ (Pro.eval p h.1) (Fac.eval f h.2)]
theorem Sum.eval_open : ∀ e : Sum, e.Safe → e.NoSubtractedProduct → OpenOk num e
  | .one p, h, _ => by
    rw [Sum.Safe] at h
    refine ⟨0, p.value num, ?_, ?_, ?_⟩
    · intro t v ht; rw [Sum.ctx]; simpa [plug] using ht
    · rw [Sum.top]; exact Pro.eval p h
    · rw [Sum.value, zero_add]
  | .add e _ b p, h, h' => by
    rw [Sum.Safe] at h
    rw [Sum.NoSubtractedProduct] at h'
    obtain ⟨A, w, hA, hw, hv⟩ := Sum.eval_open e h.1 h.2.1
    cases hp : p.single with
    | true =>
      refine ⟨A, if b then w - p.value num else w + p.value num, ?_, ?_, ?_⟩
      · intro t v ht; rw [Sum.ctx, if_pos hp]; exact hA t v ht
      · rw [Sum.top, if_pos hp]; exact evalT_add num b _ _ _ _ hw (Pro.eval p h.2.2)
      · rw [Sum.value, hv]; split <;> ring
    | false =>
      have hb : b = false := by rcases h'.2 with h | h; · rw [hp] at h; cases h
                                · exact h
      refine ⟨A + w, p.value num, ?_, ?_, ?_⟩
      · intro t v ht
        rw [Sum.ctx, if_neg (by simp [hp])]
        show evalT num (plug e.ctx (.node [addSym b] e.top t)) = _
        rw [hA _ _ (evalT_add num b _ _ _ _ hw ht), hb]
        simp only [Bool.false_eq_true, if_false]
        rw [add_assoc]
      · rw [Sum.top, if_neg (by simp [hp])]; exact Pro.eval p h.2.2
      · rw [Sum.value, hv, hb]; simp
theorem Sum.eval : ∀ e : Sum, e.Safe → evalT num (plug e.ctx e.top) = some (e.value num)
  | .one p, h => by
    rw [Sum.Safe] at h
    rw [Sum.ctx, Sum.top, Sum.value]
    exact Pro.eval p h
  | .add e sp b p, h => by
    rw [Sum.Safe] at h
    obtain ⟨A, w, hA, hw, hv⟩ := Sum.eval_open e h.1 h.2.1
    have key : plug (Sum.add e sp b p).ctx (Sum.add e sp b p).top = plug e.ctx (.node [addSym b] e.top p.tree) := by
      rw [Sum.ctx, Sum.top]
      cases hp : p.single with
      | true => simp
      | false => simp [plug]
    rw [key, hA _ _ (evalT_add num b _ _ _ _ hw (Pro.eval p h.2.2)), Sum.value, hv]
    congr 1
    split <;> ring
end

/-- **C50, partial.** For every expression of words, the four operations and parentheses, with any spaces before each of the
symbols, the result is the usual value, provided that every term of a sum that is a product of several factors and is
subtracted is the last term of that sum.
Missing: other expressions (`C50_negation`), unary minus (`C50_unary_minus`, `C50_negation_unary`) and spaces at the end
(`C50_negation_space`). -/
theorem C50_value_partial (e : Sum) (h : e.Safe) : evaluate num e.text = some (e.value num) := by
  unfold evaluate
  rw [parse_text]
  exact Sum.eval num e h

/-- **C50, defined.** Every expression is parsed to a tree, and the text is used completely. -/
theorem C50_complete (e : Sum) : ∃ t, t ≠ T.nil ∧ parse .start e.text = some (t, []) :=
  ⟨_, plug_ne _ _ (Sum.top_ne e), parse_text e⟩

/-- A word as a term. -/
def term (w : Word) : Pro := .one (.lit 0 w)

/-- The expression `a-b*c+d`. -/
def mixed (a b c d : Word) : Sum := .add (.add (.one (term a)) 0 true (.mul (term b) 0 false (.lit 0 c))) 0 false (term d)

/-- **C50, negation.** `a-b*c+d` evaluates to `a-(b*c+d)`, for all words. -/
theorem C50_negation (a b c d : Word) :
    (mixed a b c d).text = a.1 ++ ('-' :: (b.1 ++ ('*' :: c.1))) ++ ('+' :: d.1) ∧
    evaluate num (mixed a b c d).text = some (num a.1 - (num b.1 * num c.1 + num d.1)) ∧
    (mixed a b c d).value num = num a.1 - num b.1 * num c.1 + num d.1 := by
  refine ⟨?_, ?_, ?_⟩
  · simp [mixed, term, Sum.text, Pro.text, Fac.text, spaces, addSym, mulSym]
  · unfold evaluate
    rw [parse_text]
    simp only [mixed, term, Sum.ctx, Sum.top, Pro.tree, Fac.tree, Pro.single, plug, if_true, Bool.false_eq_true, if_false,
      List.foldl_cons, List.foldl_nil, Option.bind_some]
    have l : ∀ w : List Char, evalT num (.node w .nil .nil) = some (num w) := fun w => by rw [evalT]
    rw [evalT_add num true _ _ _ _ (l a.1) (evalT_add num false _ _ _ _ (evalT_mul num false _ _ _ _ (l b.1) (l c.1)) (l d.1))]
    simp
  · simp [mixed, term, Sum.value, Pro.value, Fac.value]

/-- State after a minus sign in front of an operand, at the start. -/
theorem parse_minus (rest : List Char) :
    parse .start ('-' :: rest) = parse ⟨[], .node ['-'] (.node [] .nil .nil) .nil, false, false, true⟩ rest := by
  have h1 := parse_cons .start 0 '-' rest (by decide)
  rw [if_neg (by decide), if_neg (by decide), if_pos (by simp [St.start])] at h1
  have hg : getNext ('-' :: rest) = ([], '-' :: rest) := by rw [getNext]; simp [stops]
  rw [hg] at h1
  simp only at h1
  show parse .start (spaces 0 ++ '-' :: rest) = _
  rw [h1, operand_start _ (by simp)]
  exact parse_op [] _ true 0 '-' rest (Or.inr (Or.inl rfl)) _ (operator_same _ _ _ _ (by simp) (Or.inl rfl))

/-- **C50, unary minus.** A minus sign in front of a single factor negates it, if the empty word counts as `0`
(`convert<float>("")` is 0, `utility/printingutility.hpp:66-72`). -/
theorem C50_unary_minus (h0 : num [] = 0) (f : Fac) (hf : f.Safe) :
    evaluate num ('-' :: f.text) = some (-(f.value num)) := by
  unfold evaluate
  rw [parse_minus]
  have := Pro.parse_next (.one f) [] true (.node [] .nil .nil) [] (Or.inl rfl)
  rw [List.append_nil, Pro.text] at this
  rw [show (['-'] : List Char) = [addSym true] from rfl, this, parse_eq]
  simp only [Pro.single, if_true, plug, List.foldl_nil, Option.bind_some, Pro.tree]
  rw [evalT_add num true _ _ _ _ (show evalT num (.node [] .nil .nil) = some (num []) by rw [evalT]) (Fac.eval num f hf), h0]
  simp

/-- **C50, negation.** A minus sign after an operator, as in `a*-b`, is not a sign: the result is `a*0-b`. -/
theorem C50_negation_unary (h0 : num [] = 0) (a b : Word) :
    evaluate num (a.1 ++ ('*' :: '-' :: b.1)) = some (-(num b.1)) := by
  unfold evaluate
  have h1 := Pro.parse_first (term a) ('*' :: '-' :: b.1) (follow_sym 0 '*' _ (by decide))
  have e1 : (term a).text = a.1 := by simp [term, Pro.text, Fac.text, spaces]
  rw [e1] at h1
  rw [h1]
  have h2 := parse_op [] (term a).tree (term a).single 0 '*' ('-' :: b.1) (Or.inr (Or.inr (Or.inl rfl))) _
    (operator_same [] (term a).tree _ '*' (Pro.tree_ne _) (Or.inl rfl))
  rw [show spaces 0 ++ '*' :: '-' :: b.1 = '*' :: '-' :: b.1 from rfl] at h2
  rw [h2]
  have h3 := parse_cons ⟨[], .node ['*'] (term a).tree .nil, false, false, true⟩ 0 '-' b.1 (by decide)
  rw [if_neg (by decide), if_neg (by decide), if_pos (by simp)] at h3
  have hg : getNext ('-' :: b.1) = ([], '-' :: b.1) := by rw [getNext]; simp [stops]
  rw [hg, operand_ne _ _ _ _ _ _ _ (by simp), show spaces 0 ++ '-' :: b.1 = '-' :: b.1 from rfl] at h3
  rw [h3]
  simp only
  have h4 := parse_op [] (.node ['*'] (term a).tree (.node [] .nil .nil)) false 0 '-' b.1 (Or.inr (Or.inl rfl)) _
    (operator_same _ _ _ _ (by simp) (Or.inr (Or.inr (Or.inl rfl))))
  rw [show spaces 0 ++ '-' :: b.1 = '-' :: b.1 from rfl] at h4
  rw [h4]
  have h5 := parse_word ⟨[], .node ['-'] (.node ['*'] (term a).tree (.node [] .nil .nil)) .nil, false, false, true⟩ 0 b []
    (Or.inl rfl)
  rw [List.append_nil, show spaces 0 ++ b.1 = b.1 from rfl, operand_ne _ _ _ _ _ _ _ (by simp)] at h5
  rw [h5, parse_eq]
  simp only [plug, List.foldl_nil, Option.bind_some]
  have l : ∀ w : List Char, evalT num (.node w .nil .nil) = some (num w) := fun w => by rw [evalT]
  have := evalT_add num true _ _ _ _ (evalT_mul num false _ _ _ _ (show evalT num (term a).tree = some (num a.1) by
    simp only [term, Pro.tree, Fac.tree]; exact l a.1) (l [])) (l b.1)
  rw [show [addSym true] = ['-'] from rfl, show [mulSym false] = ['*'] from rfl] at this
  rw [this, h0]
  simp

/-- **C50, negation.** A space at the end of `(a+b)` replaces the right operand: the result is `a`. -/
theorem C50_negation_space (h0 : num [] = 0) (a b : Word) :
    evaluate num ('(' :: (a.1 ++ ('+' :: b.1)) ++ [')', ' ']) = some (num a.1) := by
  set e : Sum := .add (.one (term a)) 0 false (term b) with he
  have ht : (Fac.par 0 e 0).text = '(' :: (a.1 ++ ('+' :: b.1)) ++ [')'] := by
    simp [he, term, Fac.text, Sum.text, Pro.text, spaces, addSym]
  unfold evaluate
  have h1 : parse .start ('(' :: (a.1 ++ ('+' :: b.1)) ++ [')', ' ']) = parse (operand .start (plug e.ctx e.top)) [' '] := by
    have hp := parse_cons .start 0 '(' (e.text ++ (')' :: [' '])) (by decide)
    rw [if_pos rfl, Sum.parse e [')', ' '] (follow_sym 0 ')' [' '] (by decide))] at hp
    have hq := parse_cons ⟨e.ctx, e.top, e.first, true, true⟩ 0 ')' [' '] (by decide)
    rw [if_neg (by decide), if_pos rfl] at hq
    rw [show spaces 0 ++ ')' :: [' '] = ')' :: [' '] from rfl] at hq
    rw [hq] at hp
    simp only at hp
    rw [← hp]
    congr 1
  rw [h1]
  have ht2 : plug e.ctx e.top = .node ['+'] (.node a.1 .nil .nil) (.node b.1 .nil .nil) := by
    simp [he, term, Sum.ctx, Sum.top, Pro.single, plug, Pro.tree, Fac.tree, addSym]
  rw [ht2, operand_start _ (by simp), parse_eq]
  have : skip [' '] = [] := by decide
  simp only [this]
  rw [parse_eq]
  simp only [operand, plug, List.foldl_nil, Option.bind_some]
  have l : ∀ w : List Char, evalT num (.node w .nil .nil) = some (num w) := fun w => by rw [evalT]
  have h2 := evalT_add num false _ _ _ _ (l a.1) (l [])
  rw [show [addSym false] = ['+'] from rfl] at h2
  rw [h2, h0]
  simp

/-- **C50, undefined.** An empty text, a text that starts with `+`, and a text that ends with an operator lead to undefined
behaviour. -/
theorem C50_undefined (w : Word) : evaluate num [] = none ∧ evaluate num ('+' :: w.1) = none ∧
    evaluate num (w.1 ++ ['+']) = none := by
  refine ⟨?_, ?_, ?_⟩
  · unfold evaluate; rw [parse_eq]; rfl
  · unfold evaluate
    have h := parse_cons .start 0 '+' w.1 (by decide)
    rw [if_neg (by decide), if_neg (by decide), if_neg (by simp)] at h
    rw [show '+' :: w.1 = spaces 0 ++ '+' :: w.1 from rfl, h]
    rfl
  · unfold evaluate
    have h1 := Pro.parse_first (term w) ['+'] (follow_sym 0 '+' _ (by decide))
    have e1 : (term w).text = w.1 := by simp [term, Pro.text, Fac.text, spaces]
    rw [e1] at h1
    rw [h1]
    have h2 := parse_op [] (term w).tree (term w).single 0 '+' [] (Or.inl rfl) _
      (operator_same [] (term w).tree _ '+' (Pro.tree_ne _) (Or.inl rfl))
    rw [show spaces 0 ++ '+' :: [] = ['+'] from rfl] at h2
    rw [h2, parse_eq]
    simp only [plug, List.foldl_nil, Option.bind_some, term, Pro.tree, Fac.tree]
    rw [evalT]
    simp [evalT]

end

/-- The word with one character `x`. -/
def wx : Word := ⟨['x'], by decide⟩

/-- `( x+x ) *x-x*x` is an expression as required in `C50_value_partial`. -/
example : (Sum.add (.one (.mul (.one (.par 0 (.add (.one (.one (.lit 1 wx))) 0 false (term wx)) 1)) 1 false (.lit 0 wx))) 0 true
    (.mul (term wx) 0 false (.lit 0 wx))).Safe := by
  simp [Sum.Safe, Pro.Safe, Fac.Safe, Sum.NoSubtractedProduct, term]

/-- The expression of `C50_negation` with the values `1`: the code gives `-1` instead of `1`. -/
example : evaluate (K := ℚ) (fun w => if w = [] then 0 else 1) (mixed wx wx wx wx).text = some (-1) ∧
    (mixed wx wx wx wx).value (K := ℚ) (fun w => if w = [] then 0 else 1) = 1 := by
  obtain ⟨-, h1, h2⟩ := C50_negation (K := ℚ) (fun w => if w = [] then 0 else 1) wx wx wx wx
  rw [h1, h2]
  simp [wx]

end Verif.Eval
