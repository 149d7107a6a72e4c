import Mathlib.Data.List.Basic
import Mathlib.Tactic.Linarith

/-!
# Configuration files (C51, C52)

Models `utility/fileparse.cpp`. A stream is the text that was not yet read and the end-of-file flag (which is set by an attempt
to read after the end). The log `message` and the level counter are not modelled; an exception (`UnexpectedToken`) is `none`.
-/

namespace Verif.FileParse

/-- `std::ifstream`: the rest of the text, and whether the end-of-file flag is set. -/
structure Stream where
  rest : List Char
  eof : Bool

/-- `HeadNode` and `ParamNode`, `utility/fileparse.hpp:13-48`, without the parent pointers. A parameter is the pair of `partA`
and `partB`. -/
inductive Head where
  | mk (heading : List Char) (params : List (List Char × List Char)) (subHeads : List Head)

/-- End of line. -/
def newline (c : Char) : Bool := c == '\n' || c == '\r'

/-- `passComment`, `utility/fileparse.cpp:27-67`; `m` is `mline`. -/
def passComment (m : Bool) : List Char → Stream
  | [] => ⟨[], true⟩
  | c :: cs =>
    if m && c == '*' then
      match cs with
      | [] => ⟨[], true⟩
      | d :: ds => if d = '/' then ⟨ds, false⟩ else passComment m ds
    else if newline c then
      if m then passComment m cs else ⟨c :: cs, false⟩
    else passComment m cs

/-- `passSpaces`, `utility/fileparse.cpp:69-86`; gives the returned value and the stream. -/
def passSpaces : List Char → Bool × Stream
  | [] => (true, ⟨[], true⟩)
  | c :: cs =>
    if c = ' ' then passSpaces cs
    else if newline c then (true, ⟨cs, false⟩)
    else (false, ⟨c :: cs, false⟩)

/-- `passWhiteSpaces`, `utility/fileparse.cpp:88-104`, for a stream that is not at the end. -/
def passWhite : List Char → Stream
  | [] => ⟨[], true⟩
  | c :: cs => if c = ' ' ∨ newline c = true then passWhite cs else ⟨c :: cs, false⟩

/-- `checkComment`, `utility/fileparse.cpp:256-265`. -/
def checkComment : List Char → Option Stream
  | [] => some ⟨[], true⟩
  | c :: cs => if c = '/' then some (passComment false cs) else if c = '*' then some (passComment true cs) else none

/-- `getHeading`, `utility/fileparse.cpp:160-183`; gives the heading, whether `{` was found, and the stream. `w` is the flag
`whitespace`. -/
def getHeading (w : Bool) (heading : List Char) : List Char → Option (List Char × Bool × Stream)
  | [] => some (heading, false, ⟨[], true⟩)
  | c :: cs =>
    if c = '{' then some (heading, true, ⟨cs, false⟩)
    else if c = ':' then some (heading, false, ⟨cs, false⟩)
    else if newline c || c == ' ' then getHeading true heading cs
    else if w then none
    else getHeading w (heading ++ [c]) cs

/-- Results of `getParam`: both parts, the flags `more` and `body`, and the stream. -/
structure PR where
  a : List Char
  b : List Char
  more : Bool
  body : Bool
  st : Stream

theorem passComment_length (m : Bool) (cs : List Char) : (passComment m cs).rest.length ≤ cs.length := by
  fun_induction passComment m cs <;> simp_all <;> omega

/-- The loop of `getParam`, `utility/fileparse.cpp:203-244`, on a stream that is not at the end. When the text ends the flag
`more` keeps its value `true`. -/
def getParam (aPart : Bool) (a b : List Char) : List Char → PR
  | [] => ⟨a, b, true, false, ⟨[], true⟩⟩
  | c :: cs =>
    if c = '/' then
      match cs with
      | [] => if aPart then ⟨a ++ [c], b, true, false, ⟨[], true⟩⟩ else ⟨a, b ++ [c], true, false, ⟨[], true⟩⟩
      | d :: ds =>
        if d = '*' ∨ d = '/' then
          if (passComment (d == '*') ds).eof then ⟨a, b, true, false, passComment (d == '*') ds⟩
          else getParam aPart a b (passComment (d == '*') ds).rest
        else if aPart then getParam aPart (a ++ [c]) b (d :: ds)
        else getParam aPart a (b ++ [c]) (d :: ds)
    else if c = '=' then getParam false a b cs
    else if c = ',' then ⟨a, b, true, false, ⟨cs, false⟩⟩
    else if c = '{' then ⟨a, b, false, true, ⟨cs, false⟩⟩
    else if newline c then ⟨a, b, false, false, ⟨cs, false⟩⟩
    else if c = ' ' then getParam aPart a b cs
    else if aPart then getParam aPart (a ++ [c]) b cs
    else getParam aPart a (b ++ [c]) cs
termination_by cs => cs.length
decreasing_by
  all_goals
    simp_wf
    try subst_vars
    try (have := passComment_length (d == '*') ds)
    try simp only [List.length_cons] at *
    try omega

/-- Adding a parameter, `utility/fileparse.cpp:245-253`. -/
def pushParam (r : PR) : List (List Char × List Char) := if r.a ≠ [] ∨ r.b ≠ [] then [(r.a, r.b)] else []

theorem getParam_length (ap : Bool) (a b : List Char) (cs : List Char) :
    (getParam ap a b cs).st.rest.length ≤ cs.length ∧
    ((getParam ap a b cs).st.eof = false → (getParam ap a b cs).st.rest.length < cs.length) := by
  fun_induction getParam ap a b cs
  all_goals grind [passComment_length]

/-- `getParameters`, `utility/fileparse.cpp:185-192`: gives the parameters, whether a body follows, and the stream. At the end
of the text the next call of `getParam` only clears `more` (`utility/fileparse.cpp:196-199`). -/
def getParams (cs : List Char) : List (List Char × List Char) × Bool × Stream :=
  if h : (getParam true [] [] cs).more = true ∧ (getParam true [] [] cs).st.eof = false then
    (pushParam (getParam true [] [] cs) ++ (getParams (getParam true [] [] cs).st.rest).1,
      (getParams (getParam true [] [] cs).st.rest).2)
  else (pushParam (getParam true [] [] cs), (getParam true [] [] cs).body, (getParam true [] [] cs).st)
termination_by cs.length
decreasing_by all_goals exact (getParam_length true [] [] cs).2 h.2

/-- `getHead`, `utility/fileparse.cpp:126-158`, from the heading on; `sub` parses the body. -/
def headOf (sub : Stream → Option (List Head × Stream)) (cs : List Char) : Option (Head × Stream) :=
  match getHeading false [] cs with
  | none => none
  | some (heading, brace, s) =>
    -- `passSpaces` at the end of the text
    let ps := if s.eof then (true, s) else passSpaces s.rest
    let pr := if ps.2.eof = false ∧ ps.1 = false ∧ brace = false then getParams ps.2.rest else ([], brace, ps.2)
    if pr.2.1 = true ∧ pr.2.2.eof = false then
      match sub pr.2.2 with
      | none => none
      | some (subs, s') => some (.mk heading pr.1 subs, s')
    else some (.mk heading pr.1 [], pr.2.2)

/-- `getBody`, `utility/fileparse.cpp:106-124`; the first argument bounds the number of calls, see `body_eq`. -/
def bodyK : ℕ → Stream → Option (List Head × Stream)
  | 0, _ => none
  | k + 1, s =>
    if s.eof then some ([], s)
    else
      let w := passWhite s.rest
      match w.rest with
      | [] => some ([], w)
      | c :: cs =>
        if c = '}' then some ([], ⟨cs, false⟩)
        else if c = '/' then
          match checkComment cs with
          | none => none
          | some s' => bodyK k s'
        else
          match headOf (bodyK k) (c :: cs) with
          | none => none
          | some (h, s') =>
            match bodyK k s' with
            | none => none
            | some (hs, s'') => some (h :: hs, s'')

/-- `getBody`. -/
def body (s : Stream) : Option (List Head × Stream) := bodyK (s.rest.length + 1) s

/-- `parseFile`, `utility/fileparse.cpp:7-25`, for a file that can be opened: the heads in the body of the root. -/
def parseFile (text : List Char) : Option (List Head) := (body ⟨text, false⟩).map (·.1)

/-! ## The recursion without a bound -/

theorem passWhite_length (cs : List Char) : (passWhite cs).rest.length ≤ cs.length := by
  fun_induction passWhite cs <;> simp_all <;> omega

theorem passSpaces_length (cs : List Char) : (passSpaces cs).2.rest.length ≤ cs.length := by
  fun_induction passSpaces cs <;> simp_all <;> omega

theorem checkComment_length (cs : List Char) (s : Stream) (h : checkComment cs = some s) : s.rest.length ≤ cs.length := by
  cases cs with
  | nil => simp [checkComment] at h; subst h; simp
  | cons c cs =>
    rw [checkComment] at h
    split at h
    · cases h; have := passComment_length false cs; simp only [List.length_cons]; omega
    · split at h
      · cases h; have := passComment_length true cs; simp only [List.length_cons]; omega
      · cases h

theorem getHeading_length (w : Bool) (h0 cs : List Char) (q) (h : getHeading w h0 cs = some q) :
    q.2.2.rest.length ≤ cs.length - 1 := by
  fun_induction getHeading w h0 cs <;> grind

theorem getParams_length (cs : List Char) : (getParams cs).2.2.rest.length ≤ cs.length := by
  fun_induction getParams cs with
  | case1 cs h ih => have := (getParam_length true [] [] cs).1; simp only; omega
  | case2 cs h => exact (getParam_length true [] [] cs).1

/-- The stream on which `headOf` calls the body parser is shorter, and the results of `headOf` depend only on these. -/
theorem headOf_length (sub : Stream → Option (List Head × Stream)) (cs : List Char) (q) (hcs : cs ≠ [])
    (hsub : ∀ s q, s.rest.length < cs.length → sub s = some q → q.2.rest.length ≤ s.rest.length)
    (h : headOf sub cs = some q) : q.2.rest.length < cs.length := by
  have hpos : 0 < cs.length := List.length_pos_iff.mpr hcs
  unfold headOf at h
  split at h
  · cases h
  · rename_i heading brace s hg
    have h1 := getHeading_length _ _ _ _ hg
    simp only at h1 h
    set ps := if s.eof then (true, s) else passSpaces s.rest with hps
    have h2 : ps.2.rest.length ≤ s.rest.length := by
      rw [hps]; split
      · exact le_refl _
      · exact passSpaces_length _
    set pr := if ps.2.eof = false ∧ ps.1 = false ∧ brace = false then getParams ps.2.rest else ([], brace, ps.2) with hpr
    have h3 : pr.2.2.rest.length ≤ ps.2.rest.length := by
      rw [hpr]; split
      · exact getParams_length _
      · exact le_refl _
    split at h
    · split at h
      · cases h
      · rename_i subs s' hs
        cases h
        have := hsub _ _ (by omega) hs
        simp only at this ⊢
        omega
    · cases h
      simp only
      omega

theorem headOf_congr (sub sub' : Stream → Option (List Head × Stream)) (cs : List Char) (hcs : cs ≠ [])
    (h : ∀ s, s.rest.length < cs.length → sub s = sub' s) : headOf sub cs = headOf sub' cs := by
  have hpos : 0 < cs.length := List.length_pos_iff.mpr hcs
  unfold headOf
  split
  · rfl
  · rename_i heading brace s hg
    have h1 := getHeading_length _ _ _ _ hg
    simp only at h1
    simp only
    set ps := if s.eof then (true, s) else passSpaces s.rest with hps
    have h2 : ps.2.rest.length ≤ s.rest.length := by
      rw [hps]; split
      · exact le_refl _
      · exact passSpaces_length _
    set pr := if ps.2.eof = false ∧ ps.1 = false ∧ brace = false then getParams ps.2.rest else ([], brace, ps.2) with hpr
    have h3 : pr.2.2.rest.length ≤ ps.2.rest.length := by
      rw [hpr]; split
      · exact getParams_length _
      · exact le_refl _
    rw [h pr.2.2 (by omega)]

theorem bodyK_length (k : ℕ) (s : Stream) (q) (h : bodyK k s = some q) : q.2.rest.length ≤ s.rest.length := by
  induction k generalizing s q with
  | zero => simp [bodyK] at h
  | succ k ih =>
    rw [bodyK] at h
    have hw := passWhite_length s.rest
    split at h
    · cases h; exact le_refl _
    · simp only at h
      split at h
      · cases h; exact hw
      · rename_i c cs hc
        rw [hc, List.length_cons] at hw
        split at h
        · cases h; simp only; omega
        · split at h
          · split at h
            · cases h
            · rename_i s' hs'
              have := checkComment_length _ _ hs'
              have := ih _ _ h
              omega
          · split at h
            · cases h
            · rename_i hd s' hh
              have h1 := headOf_length _ _ _ (by simp) (fun s q _ => ih s q) hh
              simp only [List.length_cons] at h1
              split at h
              · cases h
              · rename_i hs s'' hb
                cases h
                have := ih _ _ hb
                simp only at this ⊢
                omega

theorem bodyK_irrel (k k' : ℕ) (s : Stream) (h : s.rest.length < k) (h' : s.rest.length < k') : bodyK k s = bodyK k' s := by
  induction k generalizing k' s with
  | zero => omega
  | succ k ih =>
    cases k' with
    | zero => omega
    | succ k' =>
      rw [bodyK, bodyK]
      have hw := passWhite_length s.rest
      split
      · rfl
      · simp only
        split
        · rfl
        · rename_i c cs hc
          rw [hc, List.length_cons] at hw
          split
          · rfl
          · split
            · split
              · rfl
              · rename_i s' hs'
                have := checkComment_length _ _ hs'
                exact ih _ _ (by omega) (by omega)
            · have e : headOf (bodyK k) (c :: cs) = headOf (bodyK k') (c :: cs) := by
                refine headOf_congr _ _ _ (by simp) fun s hs => ih _ _ ?_ ?_ <;>
                · simp only [List.length_cons] at hs; omega
              rw [e]
              split
              · rfl
              · rename_i hd s' hh
                have h1 := headOf_length _ _ _ (by simp) (fun s q _ => bodyK_length _ s q) hh
                simp only [List.length_cons] at h1
                rw [ih k' s' (by omega) (by omega)]

/-- The parser satisfies the equations of `getBody` in the code: the bound on the calls is never reached. -/
theorem body_eq (s : Stream) : body s =
    if s.eof then some ([], s)
    else
      match (passWhite s.rest).rest with
      | [] => some ([], passWhite s.rest)
      | c :: cs =>
        if c = '}' then some ([], ⟨cs, false⟩)
        else if c = '/' then
          match checkComment cs with
          | none => none
          | some s' => body s'
        else
          match headOf body (c :: cs) with
          | none => none
          | some (h, s') =>
            match body s' with
            | none => none
            | some (hs, s'') => some (h :: hs, s'') := by
  have big : ∀ k (s : Stream), s.rest.length < k → bodyK k s = body s := fun k s h => bodyK_irrel _ _ _ h (by omega)
  rw [← big (s.rest.length + 1 + 1) s (by omega), bodyK]
  have hw := passWhite_length s.rest
  split
  · rfl
  · simp only
    split
    · rfl
    · rename_i c cs hc
      rw [hc, List.length_cons] at hw
      split
      · rfl
      · split
        · split
          · rfl
          · rename_i s' hs'
            have := checkComment_length _ _ hs'
            exact big _ _ (by omega)
        · rw [headOf_congr (bodyK (s.rest.length + 1)) body (c :: cs) (by simp) (fun s' h => big _ _ (by
            simp only [List.length_cons] at h; omega))]
          split
          · rfl
          · rename_i hd s' hh
            have h1 := headOf_length _ _ _ (by simp) (fun s q _ => bodyK_length _ s q) hh
            simp only [List.length_cons] at h1
            rw [big _ s' (by omega)]

/-! ## Specification: documents -/

/-- Contents of comments `/* ... */` which the parser handles: no `*/` inside, and the characters after a star at an even
place are not `/`, `*` at the end (see `C52_negation_stars`). -/
def blockOk : List Char → Bool
  | [] => true
  | c :: cs =>
    if c = '*' then
      match cs with
      | [] => false
      | d :: ds => d ≠ '/' && blockOk ds
    else blockOk cs

/-- Contents of comments which end with the line. -/
def lineOk (t : List Char) : Prop := ∀ c ∈ t, newline c = false

/-- What may stand between heads. -/
inductive Gap where
  | space
  | newl (cr : Bool)
  | block (t : {t // blockOk t = true})
  | line (t : {t // lineOk t})

/-- Text of the end of a line. -/
def nl (cr : Bool) : Char := if cr then '\r' else '\n'

/-- The text of a gap. -/
def Gap.text : Gap → List Char
  | .space => [' ']
  | .newl cr => [nl cr]
  | .block t => '/' :: '*' :: (t.1 ++ ['*', '/'])
  | .line t => '/' :: '/' :: (t.1 ++ ['\n'])

/-- What may stand in the list of parameters. -/
inductive Junk where
  | space
  | block (t : {t // blockOk t = true})

/-- The text of it. -/
def Junk.text : Junk → List Char
  | .space => [' ']
  | .block t => '/' :: '*' :: (t.1 ++ ['*', '/'])

/-- Texts of parameters: no special characters; a slash is followed by another character, which does not start a comment. -/
def paramOk : List Char → Bool
  | [] => true
  | c :: cs =>
    if c = '/' then
      match cs with
      | [] => false
      | d :: _ => d ≠ '/' && d ≠ '*' && paramOk cs
    else c ≠ '=' && c ≠ ',' && c ≠ '{' && !newline c && c ≠ ' ' && paramOk cs

/-- A parameter `a` or `a = b` with junk around the parts. -/
structure DParam where
  j0 : List Junk
  a : {w // paramOk w = true}
  j1 : List Junk
  val : Option (List Junk × {w // paramOk w = true} × List Junk)
  ok : a.1 ≠ [] ∨ ∃ v, val = some v ∧ v.2.1.1 ≠ []

/-- The text of it. -/
def DParam.text (p : DParam) : List Char :=
  p.j0.flatMap Junk.text ++ (p.a.1 ++ (p.j1.flatMap Junk.text ++
    match p.val with
    | none => []
    | some (j2, b, j3) => '=' :: (j2.flatMap Junk.text ++ (b.1 ++ j3.flatMap Junk.text))))

/-- The parameter it stands for. -/
def DParam.strip (p : DParam) : List Char × List Char :=
  (p.a.1, match p.val with
    | none => []
    | some (_, b, _) => b.1)

/-- Parameters separated by commas. -/
def paramsText : List DParam → List Char
  | [] => []
  | [p] => p.text
  | p :: q :: ps => p.text ++ ',' :: paramsText (q :: ps)

/-- Headings: not empty, no special characters; the first character is not `}` or `/`. -/
def nameOk (n : List Char) : Prop :=
  (∀ c ∈ n, c ≠ '{' ∧ c ≠ ':' ∧ newline c = false ∧ c ≠ ' ') ∧ ∃ c r, n = c :: r ∧ c ≠ '}' ∧ c ≠ '/'

/-- White space between a heading and its `:` or `{`. -/
def wsText (ws : List (Option Bool)) : List Char := ws.map fun
  | none => ' '
  | some cr => nl cr

mutual
/-- A head with the white space and comments in it: with parameters up to the end of the line (possibly after a comment), with
parameters and a body, or with a body only. -/
inductive DHead where
  | plain (name : {n // nameOk n}) (ws : List (Option Bool)) (j : List Junk) (ps : List DParam) (j' : List Junk)
      (comment : Option {t // lineOk t}) (cr : Bool)
  | withBody (name : {n // nameOk n}) (ws : List (Option Bool)) (j : List Junk) (ps : List DParam) (j' : List Junk) (body : DBody)
  | brace (name : {n // nameOk n}) (ws : List (Option Bool)) (body : DBody)
/-- The heads of a body, with gaps. -/
inductive DBody where
  | done (g : List Gap)
  | cons (g : List Gap) (h : DHead) (rest : DBody)
end

/-- The end of the line of a plain head. -/
def endText (comment : Option {t // lineOk t}) (cr : Bool) : List Char :=
  (match comment with
    | none => []
    | some t => '/' :: '/' :: t.1) ++ [nl cr]

mutual
/-- The text of a head. -/
def DHead.text : DHead → List Char
  | .plain n ws j ps j' c cr => n.1 ++ (wsText ws ++ ':' :: (j.flatMap Junk.text ++ (paramsText ps ++ (j'.flatMap Junk.text ++ endText c cr))))
  | .withBody n ws j ps j' b =>
    n.1 ++ (wsText ws ++ ':' :: (j.flatMap Junk.text ++ (paramsText ps ++ (j'.flatMap Junk.text ++ '{' :: (b.text ++ ['}'])))))
  | .brace n ws b => n.1 ++ (wsText ws ++ '{' :: (b.text ++ ['}']))
/-- The text of a body. -/
def DBody.text : DBody → List Char
  | .done g => g.flatMap Gap.text
  | .cons g h rest => g.flatMap Gap.text ++ (h.text ++ rest.text)
end

mutual
/-- The head it stands for. -/
def DHead.strip : DHead → Head
  | .plain n _ _ ps _ _ _ => .mk n.1 (ps.map DParam.strip) []
  | .withBody n _ _ ps _ b => .mk n.1 (ps.map DParam.strip) b.strip
  | .brace n _ b => .mk n.1 [] b.strip
/-- The heads it stands for. -/
def DBody.strip : DBody → List Head
  | .done _ => []
  | .cons _ h rest => h.strip :: rest.strip
end

/-! ## Lemmas -/

theorem passComment_cons (m : Bool) (c : Char) (cs : List Char) : passComment m (c :: cs) =
    if m && c == '*' then
      match cs with
      | [] => ⟨[], true⟩
      | d :: ds => if d = '/' then ⟨ds, false⟩ else passComment m ds
    else if newline c then
      if m then passComment m cs else ⟨c :: cs, false⟩
    else passComment m cs := by
  rw [passComment.eq_def]

theorem getParam_cons (aPart : Bool) (a b : List Char) (c : Char) (cs : List Char) : getParam aPart a b (c :: cs) =
    if c = '/' then
      match cs with
      | [] => if aPart then ⟨a ++ [c], b, true, false, ⟨[], true⟩⟩ else ⟨a, b ++ [c], true, false, ⟨[], true⟩⟩
      | d :: ds =>
        if d = '*' ∨ d = '/' then
          if (passComment (d == '*') ds).eof then ⟨a, b, true, false, passComment (d == '*') ds⟩
          else getParam aPart a b (passComment (d == '*') ds).rest
        else if aPart then getParam aPart (a ++ [c]) b (d :: ds)
        else getParam aPart a (b ++ [c]) (d :: ds)
    else if c = '=' then getParam false a b cs
    else if c = ',' then ⟨a, b, true, false, ⟨cs, false⟩⟩
    else if c = '{' then ⟨a, b, false, true, ⟨cs, false⟩⟩
    else if newline c then ⟨a, b, false, false, ⟨cs, false⟩⟩
    else if c = ' ' then getParam aPart a b cs
    else if aPart then getParam aPart (a ++ [c]) b cs
    else getParam aPart a (b ++ [c]) cs := by
  rw [getParam.eq_def]

theorem paramOk_cons (c : Char) (cs : List Char) : paramOk (c :: cs) =
    if c = '/' then
      match cs with
      | [] => false
      | d :: _ => d ≠ '/' && d ≠ '*' && paramOk cs
    else c ≠ '=' && c ≠ ',' && c ≠ '{' && !newline c && c ≠ ' ' && paramOk cs := by
  rw [paramOk.eq_def]

theorem append_cons (c : Char) (r : List Char) : [c] ++ r = c :: r := rfl

theorem passComment_block (t rest : List Char) (h : blockOk t = true) :
    passComment true (t ++ '*' :: '/' :: rest) = ⟨rest, false⟩ := by
  fun_induction blockOk t with
  | case1 => simp [passComment_cons]
  | case2 => simp at h
  | case3 d ds ih =>
    simp only [Bool.and_eq_true, decide_eq_true_eq] at h
    simp only [List.cons_append]
    rw [passComment_cons]
    simp only [Bool.true_and, beq_self_eq_true, if_true, if_neg h.1]
    exact ih h.2
  | case4 c cs hc ih =>
    rw [List.cons_append, passComment_cons]
    simp only [Bool.true_and, beq_iff_eq, hc, if_false, if_true, ite_self]
    exact ih h

theorem passComment_line (t rest : List Char) (cr : Bool) (h : lineOk t) :
    passComment false (t ++ nl cr :: rest) = ⟨nl cr :: rest, false⟩ := by
  induction t with
  | nil =>
    rw [List.nil_append, passComment_cons]
    have : newline (nl cr) = true := by cases cr <;> decide
    simp [this]
  | cons c t ih =>
    rw [List.cons_append, passComment_cons]
    simp only [Bool.false_and, Bool.false_eq_true, if_false, h c (by simp)]
    exact ih (fun c hc => h c (by simp [hc]))

theorem getParam_space (ap : Bool) (a b rest : List Char) : getParam ap a b (' ' :: rest) = getParam ap a b rest := by
  rw [getParam_cons]
  simp [newline]

theorem getParam_block (ap : Bool) (a b t rest : List Char) (h : blockOk t = true) :
    getParam ap a b ('/' :: '*' :: (t ++ '*' :: '/' :: rest)) = getParam ap a b rest := by
  rw [getParam_cons]
  simp only [if_true, true_or, beq_self_eq_true, passComment_block t rest h, Bool.false_eq_true, if_false]

theorem getParam_junk (ap : Bool) (a b : List Char) (j : List Junk) (rest : List Char) :
    getParam ap a b (j.flatMap Junk.text ++ rest) = getParam ap a b rest := by
  induction j with
  | nil => rfl
  | cons x j ih =>
    rw [List.flatMap_cons, List.append_assoc]
    cases x with
    | space => rw [Junk.text]; rw [append_cons, getParam_space, ih]
    | block t =>
      rw [Junk.text]
      simp only [List.cons_append, List.append_assoc, List.nil_append]
      rw [getParam_block _ _ _ _ _ t.2, ih]

theorem getParam_word (ap : Bool) (a b w rest : List Char) (h : paramOk w = true) :
    getParam ap a b (w ++ rest) = getParam ap (if ap then a ++ w else a) (if ap then b else b ++ w) rest := by
  induction w generalizing a b with
  | nil => simp
  | cons c w ih =>
    rw [paramOk_cons] at h
    by_cases hc : c = '/'
    · subst hc
      rw [if_pos rfl] at h
      cases w with
      | nil => simp at h
      | cons d w =>
        simp only [Bool.and_eq_true, decide_eq_true_eq] at h
        simp only [List.cons_append]
        rw [getParam_cons]
        simp only [if_true]
        rw [if_neg (by rintro (h' | h'); exacts [h.1.2 h', h.1.1 h'])]
        have := fun a b => ih a b h.2
        simp only [List.cons_append] at this
        cases ap with
        | true => simp only [if_true]; rw [this]; simp
        | false => simp only [Bool.false_eq_true, if_false]; rw [this]; simp
    · rw [if_neg hc] at h
      simp only [Bool.and_eq_true, decide_eq_true_eq, Bool.not_eq_true'] at h
      obtain ⟨⟨⟨⟨⟨h1, h2⟩, h3⟩, h4⟩, h5⟩, h6⟩ := h
      rw [List.cons_append, getParam_cons]
      simp only [hc, h1, h2, h3, h4, h5, if_false, Bool.false_eq_true]
      cases ap with
      | true => simp only [if_true]; rw [ih _ _ h6]; simp
      | false => simp only [Bool.false_eq_true, if_false]; rw [ih _ _ h6]; simp

theorem getParam_eq (ap : Bool) (a b rest : List Char) : getParam ap a b ('=' :: rest) = getParam false a b rest := by
  rw [getParam_cons]; simp

/-- A parameter is read. -/
theorem getParam_text (p : DParam) (rest : List Char) :
    ∃ ap, getParam true [] [] (p.text ++ rest) = getParam ap p.strip.1 p.strip.2 rest := by
  unfold DParam.text DParam.strip
  simp only [List.append_assoc]
  rw [getParam_junk, getParam_word _ _ _ _ _ p.a.2, getParam_junk]
  cases hv : p.val with
  | none => exact ⟨true, by simp⟩
  | some v =>
    obtain ⟨j2, b, j3⟩ := v
    refine ⟨false, ?_⟩
    simp only [List.cons_append, List.append_assoc]
    rw [getParam_eq, getParam_junk, getParam_word _ _ _ _ _ b.2, getParam_junk]
    simp

theorem strip_ne (p : DParam) : p.strip.1 ≠ [] ∨ p.strip.2 ≠ [] := by
  unfold DParam.strip
  rcases p.ok with h | ⟨v, h1, h2⟩
  · exact Or.inl h
  · right
    rw [h1]
    exact h2

/-- What ends the parameters: an end of line or an opening brace (`b`). -/
def Stops (e : List Char) (b : Bool) (rest : List Char) : Prop :=
  ∀ ap a a', getParam ap a a' e = ⟨a, a', false, b, ⟨rest, false⟩⟩

theorem stops_end (c : Option {t // lineOk t}) (cr : Bool) (rest : List Char) : Stops (endText c cr ++ rest) false rest := by
  intro ap a a'
  unfold endText
  have hn : getParam ap a a' (nl cr :: rest) = ⟨a, a', false, false, ⟨rest, false⟩⟩ := by
    rw [getParam_cons]
    cases cr <;> simp [nl, newline]
  cases c with
  | none => simpa using hn
  | some t =>
    simp only [List.cons_append, List.append_assoc, List.nil_append]
    rw [getParam_cons]
    have : passComment false (t.1 ++ nl cr :: rest) = ⟨nl cr :: rest, false⟩ := passComment_line _ _ _ t.2
    simp only [if_true, or_true, show ('/' == '*') = false from rfl, this, Bool.false_eq_true, if_false]
    exact hn

theorem stops_brace (rest : List Char) : Stops ('{' :: rest) true rest := by
  intro ap a a'
  rw [getParam_cons]
  simp

theorem stops_junk (j : List Junk) (e rest : List Char) (b : Bool) (h : Stops e b rest) :
    Stops (j.flatMap Junk.text ++ e) b rest := by
  intro ap a a'
  rw [getParam_junk]
  exact h ap a a'

theorem getParams_junk (j : List Junk) (e : List Char) : getParams (j.flatMap Junk.text ++ e) = getParams e := by
  conv_lhs => rw [getParams]
  conv_rhs => rw [getParams]
  simp only [getParam_junk]

theorem getParams_text (ps : List DParam) (e rest : List Char) (b : Bool) (h : Stops e b rest) :
    getParams (paramsText ps ++ e) = (ps.map DParam.strip, b, ⟨rest, false⟩) := by
  induction ps with
  | nil =>
    rw [paramsText, List.nil_append, getParams, h]
    simp [pushParam]
  | cons p ps ih =>
    cases ps with
    | nil =>
      rw [paramsText]
      obtain ⟨ap, hp⟩ := getParam_text p e
      rw [getParams, hp, h]
      have := strip_ne p
      simp [pushParam, this]
    | cons q ps =>
      rw [paramsText, List.append_assoc, List.cons_append]
      obtain ⟨ap, hp⟩ := getParam_text p (',' :: (paramsText (q :: ps) ++ e))
      have hc : getParam ap p.strip.1 p.strip.2 (',' :: (paramsText (q :: ps) ++ e)) =
          ⟨p.strip.1, p.strip.2, true, false, ⟨paramsText (q :: ps) ++ e, false⟩⟩ := by rw [getParam_cons]; simp
      rw [getParams, hp, hc]
      simp only [and_self, dite_true]
      rw [ih]
      have := strip_ne p
      simp [pushParam, this]

/-- After `:` the parameters are read, whatever spaces follow. -/
theorem passSpaces_params (cs : List Char) :
    (if (passSpaces cs).2.eof = false ∧ (passSpaces cs).1 = false then getParams (passSpaces cs).2.rest
      else ([], false, (passSpaces cs).2)) = getParams cs := by
  fun_induction passSpaces cs with
  | case1 => rw [getParams]; simp [getParam, pushParam]
  | case2 cs ih =>
    rw [ih]
    conv_lhs => rw [getParams]
    conv_rhs => rw [getParams]
    simp only [getParam_space]
  | case3 c cs hc hn =>
    have : getParam true [] [] (c :: cs) = ⟨[], [], false, false, ⟨cs, false⟩⟩ := by
      have h : c ≠ '/' ∧ c ≠ '=' ∧ c ≠ ',' ∧ c ≠ '{' := by
        refine ⟨?_, ?_, ?_, ?_⟩ <;> (rintro rfl; revert hn; decide)
      rw [getParam_cons]
      simp [h, hn]
    conv_rhs => rw [getParams, this]
    simp [pushParam]
  | case4 c cs hc hn => simp

theorem getHeading_name (h0 n : List Char) (hn : ∀ c ∈ n, c ≠ '{' ∧ c ≠ ':' ∧ newline c = false ∧ c ≠ ' ') (rest : List Char) :
    getHeading false h0 (n ++ rest) = getHeading false (h0 ++ n) rest := by
  induction n generalizing h0 with
  | nil => simp
  | cons c n ih =>
    obtain ⟨h1, h2, h3, h4⟩ := hn c (by simp)
    rw [List.cons_append, getHeading]
    simp only [h1, h2, h3, h4, if_false, Bool.false_or, beq_iff_eq, Bool.false_eq_true]
    rw [ih _ (fun c hc => hn c (by simp [hc]))]
    simp

theorem getHeading_ws (w : Bool) (h0 : List Char) (ws : List (Option Bool)) (rest : List Char) :
    ∃ w', getHeading w h0 (wsText ws ++ rest) = getHeading w' h0 rest := by
  induction ws generalizing w with
  | nil => exact ⟨w, rfl⟩
  | cons x ws ih =>
    obtain ⟨w', h⟩ := ih true
    refine ⟨w', ?_⟩
    rw [← h]
    unfold wsText
    rw [List.map_cons, List.cons_append, getHeading]
    cases x with
    | none => simp
    | some cr => cases cr <;> simp [nl, newline]

theorem getHeading_full (n : {n // nameOk n}) (ws : List (Option Bool)) (rest : List Char) :
    getHeading false [] (n.1 ++ (wsText ws ++ ':' :: rest)) = some (n.1, false, ⟨rest, false⟩) ∧
    getHeading false [] (n.1 ++ (wsText ws ++ '{' :: rest)) = some (n.1, true, ⟨rest, false⟩) := by
  constructor
  · obtain ⟨w', h⟩ := getHeading_ws false ([] ++ n.1) ws (':' :: rest)
    rw [getHeading_name _ _ n.2.1, h, getHeading]; simp
  · obtain ⟨w', h⟩ := getHeading_ws false ([] ++ n.1) ws ('{' :: rest)
    rw [getHeading_name _ _ n.2.1, h, getHeading]; simp

theorem headOf_colon (sub) (n : {n // nameOk n}) (ws : List (Option Bool)) (cs : List Char) :
    headOf sub (n.1 ++ (wsText ws ++ ':' :: cs)) =
      if (getParams cs).2.1 = true ∧ (getParams cs).2.2.eof = false then
        match sub (getParams cs).2.2 with
        | none => none
        | some (subs, s') => some (.mk n.1 (getParams cs).1 subs, s')
      else some (.mk n.1 (getParams cs).1 [], (getParams cs).2.2) := by
  unfold headOf
  rw [(getHeading_full n ws cs).1]
  simp only [Bool.false_eq_true, if_false, and_true]
  rw [passSpaces_params]

theorem passWhite_passSpaces (cs : List Char) (h : (passSpaces cs).2.eof = false) :
    passWhite (passSpaces cs).2.rest = passWhite cs := by
  fun_induction passSpaces cs with
  | case1 => simp at h
  | case2 cs ih => rw [ih h, passWhite]; simp
  | case3 c cs hc hn => conv_rhs => rw [passWhite]
                        simp [hn]
  | case4 c cs hc hn => rfl

theorem passSpaces_eof (cs : List Char) : (passSpaces cs).2.eof = true → ∀ c ∈ cs, c = ' ' := by
  fun_induction passSpaces cs <;> simp_all <;> assumption

theorem body_passSpaces (cs : List Char) (h : (passSpaces cs).2.eof = false) :
    body (passSpaces cs).2 = body ⟨cs, false⟩ := by
  rw [body_eq, body_eq ⟨cs, false⟩]
  simp only [h, Bool.false_eq_true, if_false, passWhite_passSpaces cs h]

theorem headOf_brace (n : {n // nameOk n}) (ws : List (Option Bool)) (cs : List Char) (hcs : '}' ∈ cs) :
    headOf body (n.1 ++ (wsText ws ++ '{' :: cs)) =
      match body ⟨cs, false⟩ with
      | none => none
      | some (subs, s') => some (.mk n.1 [] subs, s') := by
  have he : (passSpaces cs).2.eof = false := by
    by_contra h
    have := passSpaces_eof cs (by simpa using h) _ hcs
    exact absurd this (by decide)
  unfold headOf
  rw [(getHeading_full n ws cs).2]
  simp only [Bool.false_eq_true, if_false, Bool.true_eq_false, and_false, he, and_self, if_true]
  rw [body_passSpaces cs he]

theorem body_white (c : Char) (cs : List Char) (h : c = ' ' ∨ newline c = true) : body ⟨c :: cs, false⟩ = body ⟨cs, false⟩ := by
  rw [body_eq, body_eq ⟨cs, false⟩]
  simp only [passWhite, if_pos h, Bool.false_eq_true, if_false]

theorem body_gap (g : List Gap) (rest : List Char) : body ⟨g.flatMap Gap.text ++ rest, false⟩ = body ⟨rest, false⟩ := by
  induction g with
  | nil => rfl
  | cons x g ih =>
    rw [List.flatMap_cons, List.append_assoc]
    cases x with
    | space => rw [Gap.text]; rw [append_cons, body_white _ _ (Or.inl rfl), ih]
    | newl cr =>
      rw [Gap.text]
      rw [append_cons, body_white _ _ (Or.inr (by cases cr <;> decide)), ih]
    | block t =>
      rw [Gap.text]
      simp only [List.cons_append, List.append_assoc, List.nil_append]
      rw [body_eq]
      simp only [passWhite, checkComment, show ¬ ('/' = ' ' ∨ newline '/' = true) by decide, show ('/' : Char) ≠ '}' by decide,
        show ('*' : Char) ≠ '/' by decide, if_false, if_true, Bool.false_eq_true]
      rw [passComment_block _ _ t.2, ih]
    | line t =>
      rw [Gap.text]
      simp only [List.cons_append, List.append_assoc, List.nil_append]
      rw [body_eq]
      simp only [passWhite, checkComment, show ¬ ('/' = ' ' ∨ newline '/' = true) by decide, show ('/' : Char) ≠ '}' by decide,
        if_false, if_true, Bool.false_eq_true]
      have := passComment_line t.1 (g.flatMap Gap.text ++ rest) false t.2
      rw [show nl false = '\n' from rfl] at this
      rw [this, body_white _ _ (Or.inr (by decide)), ih]

/-- Where a body ends: at the end of the text or at `}`. -/
inductive Ends : List Char → Stream → Prop where
  | eof : Ends [] ⟨[], true⟩
  | brace (rest : List Char) : Ends ('}' :: rest) ⟨rest, false⟩

theorem body_end (e : List Char) (s : Stream) (h : Ends e s) : body ⟨e, false⟩ = some ([], s) := by
  rw [body_eq]
  cases h with
  | eof => simp [passWhite]
  | brace rest => simp [passWhite, newline]

theorem text_head (n : {n // nameOk n}) (r : List Char) : ∃ c cs, n.1 ++ r = c :: cs ∧ c ≠ '}' ∧ c ≠ '/' ∧
    ¬ (c = ' ' ∨ newline c = true) := by
  obtain ⟨hn, c, cs, h1, h2, h3⟩ := n.2
  have := hn c (by rw [h1]; simp)
  refine ⟨c, cs ++ r, by rw [h1]; rfl, h2, h3, ?_⟩
  rintro (h | h)
  · exact this.2.2.2 h
  · rw [this.2.2.1] at h; cases h

theorem DHead.text_head (h : DHead) (r : List Char) : ∃ c cs, h.text ++ r = c :: cs ∧ c ≠ '}' ∧ c ≠ '/' ∧
    ¬ (c = ' ' ∨ newline c = true) := by
  cases h <;> (rw [DHead.text, List.append_assoc]; exact FileParse.text_head _ _)

mutual
theorem DHead.parse : ∀ (h : DHead) (rest : List Char), headOf body (h.text ++ rest) = some (h.strip, ⟨rest, false⟩)
  | .plain n ws j ps j' c cr, rest => by
    rw [DHead.text, DHead.strip]
    simp only [List.append_assoc, List.cons_append]
    rw [headOf_colon, getParams_junk, getParams_text ps _ rest false (stops_junk _ _ _ _ (stops_end c cr rest))]
    simp
  | .withBody n ws j ps j' b, rest => by
    rw [DHead.text, DHead.strip]
    simp only [List.append_assoc, List.cons_append, List.nil_append]
    rw [headOf_colon, getParams_junk, getParams_text ps _ _ true (stops_junk _ _ _ _ (stops_brace (b.text ++ '}' :: rest)))]
    simp only [and_self, if_true]
    rw [DBody.parse b _ _ (.brace rest)]
  | .brace n ws b, rest => by
    rw [DHead.text, DHead.strip]
    simp only [List.append_assoc, List.cons_append, List.nil_append]
    rw [headOf_brace _ _ _ (by simp), DBody.parse b _ _ (.brace rest)]
theorem DBody.parse : ∀ (b : DBody) (e : List Char) (s : Stream), Ends e s → body ⟨b.text ++ e, false⟩ = some (b.strip, s)
  | .done g, e, s, h => by
    rw [DBody.text, DBody.strip, body_gap, body_end e s h]
  | .cons g hd b, e, s, h => by
    rw [DBody.text, DBody.strip]
    simp only [List.append_assoc]
    rw [body_gap]
    have hp := DHead.parse hd (b.text ++ e)
    obtain ⟨c, cs, h1, h2, h3, h4⟩ := DHead.text_head hd (b.text ++ e)
    rw [h1] at hp ⊢
    rw [body_eq]
    simp only [Bool.false_eq_true, if_false, passWhite, if_neg h4, if_neg h2, if_neg h3]
    rw [hp]
    simp only
    rw [DBody.parse b e s h]
end

/-! ## C51: configuration trees and their text -/

/-- A parameter that can be written: not empty, and no special characters in it. -/
def ValidParam (p : List Char × List Char) : Prop := paramOk p.1 = true ∧ paramOk p.2 = true ∧ (p.1 ≠ [] ∨ p.2 ≠ [])

mutual
/-- A tree that can be written: all headings and parameters are legal. -/
def Head.Valid : Head → Prop
  | .mk n ps subs => nameOk n ∧ (∀ p ∈ ps, ValidParam p) ∧ AllValid subs
/-- All trees of a list can be written. -/
def AllValid : List Head → Prop
  | [] => True
  | h :: hs => h.Valid ∧ AllValid hs
end

/-- Specification: the text of a parameter, `a` or `a=b`. -/
def printParam (p : List Char × List Char) : List Char := p.1 ++ if p.2 = [] then [] else '=' :: p.2

/-- Specification: parameters separated by commas. -/
def printParams : List (List Char × List Char) → List Char
  | [] => []
  | [p] => printParam p
  | p :: q :: ps => printParam p ++ ',' :: printParams (q :: ps)

mutual
/-- Specification: the text of a tree, `heading:a=b,c` with an end of line, or `heading:a=b,c{...}`. -/
def Head.print : Head → List Char
  | .mk n ps [] => n ++ ':' :: (printParams ps ++ ['\n'])
  | .mk n ps (h :: hs) => n ++ ':' :: (printParams ps ++ '{' :: '\n' :: (printAll (h :: hs) ++ ['}', '\n']))
/-- Specification: the text of a list of trees. -/
def printAll : List Head → List Char
  | [] => []
  | h :: hs => h.print ++ printAll hs
end

theorem printParam_doc (p : List Char × List Char) (h : ValidParam p) : ∃ d : DParam, d.text = printParam p ∧ d.strip = p := by
  obtain ⟨a, b⟩ := p
  obtain ⟨h1, h2, h3⟩ := h
  simp only at h1 h2 h3
  by_cases hb : b = []
  · refine ⟨⟨[], ⟨a, h1⟩, [], none, Or.inl (by simpa [hb] using h3)⟩, ?_, ?_⟩
    · simp [DParam.text, printParam, hb]
    · simp [DParam.strip, hb]
  · refine ⟨⟨[], ⟨a, h1⟩, [], some ([], ⟨b, h2⟩, []), Or.inr ⟨_, rfl, hb⟩⟩, ?_, ?_⟩
    · simp [DParam.text, printParam, hb]
    · simp [DParam.strip]

theorem printParams_doc (ps : List (List Char × List Char)) (h : ∀ p ∈ ps, ValidParam p) :
    ∃ ds : List DParam, paramsText ds = printParams ps ∧ ds.map DParam.strip = ps := by
  induction ps with
  | nil => exact ⟨[], rfl, rfl⟩
  | cons p ps ih =>
    obtain ⟨d, hd1, hd2⟩ := printParam_doc p (h p (by simp))
    obtain ⟨ds, h1, h2⟩ := ih (fun q hq => h q (by simp [hq]))
    refine ⟨d :: ds, ?_, by simp [hd2, h2]⟩
    cases ps with
    | nil =>
      rw [List.map_eq_nil_iff] at h2
      subst h2
      exact hd1
    | cons q ps =>
      cases ds with
      | nil => simp at h2
      | cons e ds => rw [paramsText, printParams, hd1, h1]

mutual
theorem Head.doc : ∀ h : Head, h.Valid → ∃ (d : DHead) (g : List Gap), h.print = d.text ++ g.flatMap Gap.text ∧ d.strip = h
  | .mk n ps [], hv => by
    rw [Head.Valid] at hv
    obtain ⟨ds, h1, h2⟩ := printParams_doc ps hv.2.1
    refine ⟨.plain ⟨n, hv.1⟩ [] [] ds [] none false, [], ?_, ?_⟩
    · simp [Head.print, DHead.text, wsText, endText, nl, h1]
    · simp [DHead.strip, h2]
  | .mk n ps (h :: hs), hv => by
    rw [Head.Valid] at hv
    obtain ⟨ds, h1, h2⟩ := printParams_doc ps hv.2.1
    obtain ⟨b, h3, h4⟩ := docAll (h :: hs) hv.2.2 [.newl false]
    refine ⟨.withBody ⟨n, hv.1⟩ [] [] ds [] b, [.newl false], ?_, ?_⟩
    · simp [Head.print, DHead.text, wsText, h1, h3, Gap.text, nl]
    · simp [DHead.strip, h2, h4]
theorem docAll : ∀ hs : List Head, AllValid hs → ∀ g : List Gap, ∃ b : DBody, b.text = g.flatMap Gap.text ++ printAll hs ∧ b.strip = hs
  | [], _, g => ⟨.done g, by simp [DBody.text, printAll], by simp [DBody.strip]⟩
  | h :: hs, hv, g => by
    rw [AllValid] at hv
    obtain ⟨d, g', h1, h2⟩ := Head.doc h hv.1
    obtain ⟨b, h3, h4⟩ := docAll hs hv.2 g'
    exact ⟨.cons g d b, by simp [DBody.text, printAll, h1, h3], by simp [DBody.strip, h2, h4]⟩
end

theorem parse_document (b : DBody) : parseFile b.text = some b.strip := by
  have := DBody.parse b [] _ .eof
  rw [List.append_nil] at this
  rw [parseFile, this]
  rfl

/-- C51: the text of any configuration — any depth, any number of headings and parameters — parses to that configuration. -/
theorem C51_round_trip (hs : List Head) (h : AllValid hs) : parseFile (printAll hs) = some hs := by
  obtain ⟨b, h1, h2⟩ := docAll hs h []
  rw [List.flatMap_nil, List.nil_append] at h1
  rw [← h1, parse_document, h2]

/-- C51: different configurations have different texts. -/
theorem C51_injective (hs hs' : List Head) (h : AllValid hs) (h' : AllValid hs') (e : printAll hs = printAll hs') : hs = hs' := by
  have h1 := C51_round_trip hs h
  rw [e, C51_round_trip hs' h'] at h1
  exact (Option.some.inj h1).symm

/-- Characters which are never special. -/
def plainChars (w : List Char) : Bool :=
  w.all fun c => c ≠ '/' && c ≠ '=' && c ≠ ',' && c ≠ '{' && c ≠ '}' && c ≠ ':' && c ≠ ' ' && !newline c

theorem paramOk_plain (w : List Char) (h : plainChars w = true) : paramOk w = true := by
  induction w with
  | nil => rfl
  | cons c w ih =>
    simp only [plainChars, List.all_cons, Bool.and_eq_true, decide_eq_true_eq, Bool.not_eq_true'] at h
    obtain ⟨⟨⟨⟨⟨⟨⟨⟨h1, h2⟩, h3⟩, h4⟩, h5⟩, h6⟩, h7⟩, h8⟩, h9⟩ := h
    have := ih (by simpa [plainChars] using h9)
    rw [paramOk_cons]
    simp [h1, h2, h3, h4, h7, h8, this]

theorem nameOk_plain (w : List Char) (h : plainChars w = true) (h0 : w ≠ []) : nameOk w := by
  simp only [plainChars, List.all_eq_true, Bool.and_eq_true, decide_eq_true_eq, Bool.not_eq_true'] at h
  refine ⟨fun c hc => ?_, ?_⟩
  · obtain ⟨⟨⟨⟨⟨⟨⟨h1, h2⟩, h3⟩, h4⟩, h5⟩, h6⟩, h7⟩, h8⟩ := h c hc
    exact ⟨h4, h6, h8, h7⟩
  · cases w with
    | nil => exact absurd rfl h0
    | cons c r =>
      obtain ⟨⟨⟨⟨⟨⟨⟨h1, h2⟩, h3⟩, h4⟩, h5⟩, h6⟩, h7⟩, h8⟩ := h c (by simp)
      exact ⟨c, r, rfl, h5, h1⟩

/-- A configuration with nested bodies and parameters with values. -/
def exampleTree : List Head :=
  [.mk "Dimensions".toList [("2".toList, [])] [],
   .mk "Fill-area".toList [("Box".toList, []), ("phi".toList, "0.5".toList)]
     [.mk "Bounds".toList [] [.mk "Min".toList [("-1".toList, []), ("1/2".toList, [])] []],
      .mk "Number".toList [([], "20".toList)] []]]

theorem exampleTree_valid : AllValid exampleTree := by
  simp only [exampleTree, AllValid, Head.Valid, ValidParam]
  refine ⟨⟨nameOk_plain _ (by decide) (by decide), by decide, trivial⟩, ⟨nameOk_plain _ (by decide) (by decide), by decide,
    ⟨nameOk_plain _ (by decide) (by decide), by decide, ⟨nameOk_plain _ (by decide) (by decide), by decide, trivial⟩, trivial⟩,
    ⟨nameOk_plain _ (by decide) (by decide), by decide, trivial⟩, trivial⟩, trivial⟩

example : parseFile (printAll exampleTree) = some exampleTree := C51_round_trip _ exampleTree_valid
example : printAll exampleTree =
    "Dimensions:2\nFill-area:Box,phi=0.5{\nBounds:{\nMin:-1,1/2\n}\nNumber:=20\n}\n".toList := by decide +kernel

/-! ## C52: white space and comments -/

/-- C52 (partial): a document with any spaces, empty lines and comments between the headings, and any spaces and comments
between the parameters, parses to the configuration it stands for. Missing: comments with an unpaired star before the closing
`*/`, comments between a heading and its `:`, a `}` on the line of parameters, and tabs, for which it is false (see the
negations). -/
theorem C52_layout_partial (b : DBody) : parseFile b.text = some b.strip := parse_document b

/-- C52 (partial): documents that stand for the same configuration parse to the same. Missing: as `C52_layout_partial`. -/
theorem C52_same_partial (b b' : DBody) (h : b.strip = b'.strip) : parseFile b.text = parseFile b'.text := by
  rw [parse_document, parse_document, h]

/-- C52: every layout of a configuration parses to the same as its plain text. -/
theorem C52_plain (b : DBody) (h : AllValid b.strip) : parseFile b.text = parseFile (printAll b.strip) := by
  rw [parse_document, C51_round_trip _ h]

theorem lineOk_all (t : List Char) (h : t.all (fun c => !newline c) = true) : lineOk t := by
  intro c hc
  simpa using List.all_eq_true.mp h c hc

/-- A document with comments and spaces. -/
def exampleDoc : DBody :=
  .cons [.line ⟨[' ', 'f'], lineOk_all _ (by rfl)⟩, .space, .block ⟨['*', '*', 'b', '\n', 'c'], by rfl⟩]
    (.plain ⟨['T'], nameOk_plain _ (by rfl) (by simp)⟩ [none, some false] [.space]
      [⟨[.space], ⟨['a'], by rfl⟩, [.space, .block ⟨['x'], by rfl⟩],
        some ([.space], ⟨['1'], by rfl⟩, []), Or.inl (by simp)⟩] [.space] (some ⟨['e'], lineOk_all _ (by rfl)⟩) false)
    (.cons [] (.brace ⟨['S'], nameOk_plain _ (by rfl) (by simp)⟩ [none] (.done [.newl true])) (.done [.newl false]))

example : exampleDoc.text =
    "// f\n /***b\nc*/T \n:  a /*x*/= 1 //e\nS {\r}\n".toList := by
  simp [exampleDoc, DBody.text, DHead.text, Gap.text, wsText, nl, Junk.text, DParam.text, paramsText, endText]
example : parseFile exampleDoc.text = some [.mk ['T'] [(['a'], ['1'])] [], .mk ['S'] [] []] := C52_layout_partial exampleDoc

/-- C52 is false of comments that end with `**/`: the two stars are read as a pair and the slash as text, so the rest of the
file up to the next `*/` is skipped, whatever it is. -/
theorem C52_negation_stars (t rest : List Char) (h : blockOk t = true) :
    parseFile ("/*".toList ++ (t ++ ("**/".toList ++ rest))) = parseFile ("/*".toList ++ rest) := by
  have key : ∀ r, passComment true (t ++ ('*' :: '*' :: '/' :: r)) = passComment true r := by
    intro r
    fun_induction blockOk t with
    | case1 => simp [passComment_cons, newline]
    | case2 => simp at h
    | case3 d ds ih =>
      simp only [Bool.and_eq_true, decide_eq_true_eq] at h
      simp only [List.cons_append]
      rw [passComment_cons]
      simp only [Bool.true_and, beq_self_eq_true, if_true, if_neg h.1]
      exact ih h.2
    | case4 c cs hc ih =>
      rw [List.cons_append, passComment_cons]
      simp only [Bool.true_and, beq_iff_eq, hc, if_false, if_true, ite_self]
      exact ih h
  have e : ∀ r, body ⟨'/' :: '*' :: r, false⟩ = body (passComment true r) := by
    intro r
    rw [body_eq]
    simp [passWhite, newline, checkComment]
  unfold parseFile
  rw [show "/*".toList = ['/', '*'] from rfl, show "**/".toList = ['*', '*', '/'] from rfl]
  simp only [List.cons_append, List.nil_append]
  rw [e, e, key]

/-- Evaluates the parser on a concrete text. -/
macro "eval_parse" : tactic =>
  `(tactic| simp [parseFile, body, bodyK, passWhite, headOf, checkComment, passComment_cons, getHeading, passSpaces, getParams, getParam_cons,
    getParam, passComment, pushParam, newline])

/-- C52 fails for such a comment: a heading after it is lost. -/
theorem C52_negation_stars_witness :
    parseFile "/** doc **/\nA: 1\n".toList = some [] ∧ parseFile "/* doc */\nA: 1\n".toList = some [.mk ['A'] [(['1'], [])] []] := by
  constructor <;> eval_parse

/-- C52 is false of comments between a heading and its colon: with a space before the comment the parser throws, without one
the comment becomes part of the heading. -/
theorem C52_negation_heading :
    parseFile "A /*x*/: 1\n".toList = none ∧ parseFile "A/*x*/: 1\n".toList = some [.mk "A/*x*/".toList [(['1'], [])] []] := by
  constructor <;> eval_parse

/-- C52 is false of a body whose last line of parameters is closed on the same line: the brace becomes part of the parameter and the
headings that follow become part of the body. -/
theorem C52_negation_brace :
    parseFile "S: {A: 1 }\nB: 2\n".toList =
      some [.mk ['S'] [] [.mk ['A'] [("1}".toList, [])] [], .mk ['B'] [(['2'], [])] []]] ∧
    parseFile "S: {A: 1\n}\nB: 2\n".toList = some [.mk ['S'] [] [.mk ['A'] [(['1'], [])] []], .mk ['B'] [(['2'], [])] []] := by
  constructor <;> eval_parse

/-- C52 is false of tabs: they become part of headings and parameters. -/
theorem C52_negation_tab : parseFile "\tA:\t1\n".toList = some [.mk "\tA".toList [("\t1".toList, [])] []] := by eval_parse

/-- The last line of a file needs its end of line only for what follows: without it the parameters are still read. -/
example : parseFile "A: 1".toList = some [.mk ['A'] [(['1'], [])] []] := by eval_parse

end Verif.FileParse
