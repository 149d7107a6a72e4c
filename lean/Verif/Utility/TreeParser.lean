import Verif.Utility.FileParse
import Mathlib.Data.List.Lex
import Mathlib.Data.Char
import Mathlib.Data.List.Sort

/-!
# Reading a configuration tree (C53, C54, C55)

Models `utility/treeparser.cpp` and `.hpp`. A node is the list of positions that leads to it from the node the parser was made
with (`[]` is that node itself); `none` as a node is the null pointer. An access that the language leaves undefined (a null
pointer, an element past the end) is `none` as a result. `std::multimap::find` finds the first of the entries with equal keys, as
in libstdc++ (the standard does not say which).
-/

namespace Verif.TreeParser

open FileParse (Head)

/-- `HeadNode::heading`, `utility/fileparse.hpp:30-48`. -/
def hd : Head → List Char
  | .mk n _ _ => n

/-- `HeadNode::params`, `utility/fileparse.hpp:30-48`. -/
def params : Head → List (List Char × List Char)
  | .mk _ ps _ => ps

/-- `HeadNode::subHeads`, `utility/fileparse.hpp:30-48`. -/
def subs : Head → List Head
  | .mk _ _ hs => hs

/-- Following a pointer to a node. -/
def nodeAt : Head → List ℕ → Option Head
  | h, [] => some h
  | h, i :: p => (subs h)[i]?.bind fun c => nodeAt c p

/-- The sub-headings of a node with their nodes, in the order of the file. -/
def children (root : Head) (p : List ℕ) : List (List Char × List ℕ) :=
  match nodeAt root p with
  | none => []
  | some h => (subs h).zipIdx.map fun c => (hd c.1, p ++ [c.2])

/-- `std::multimap::insert`: after all entries whose keys are not larger. -/
def mmInsert (e : List Char × List ℕ) : List (List Char × List ℕ) → List (List Char × List ℕ)
  | [] => [e]
  | x :: r => if e.1 < x.1 then e :: x :: r else x :: mmInsert e r

/-- `TreeParser`, `utility/treeparser.hpp:170-205` (without the declared headings and the variables). -/
structure TP where
  focus : Option (List ℕ)
  headings : List (List Char × List ℕ)
  list : List (List ℕ)
  mark : Option (List ℕ)
  point : ℤ

/-- `TreeParser::sortOptions`, `utility/treeparser.cpp:276-284`: the new value of `headings`. -/
def sortOptions (root : Head) : Option (List ℕ) → List (List Char × List ℕ)
  | none => []
  | some p => (children root p).foldl (fun m e => mmInsert e m) []

/-- Setting `focus_node` and calling `sortOptions`. -/
def TP.setFocus (root : Head) (t : TP) (f : Option (List ℕ)) : TP := ⟨f, sortOptions root f, t.list, t.mark, t.point⟩

/-- The constructor, `utility/treeparser.cpp:78-84`. -/
def TP.new (root : Head) : TP := ⟨some [], sortOptions root (some []), [], none, -1⟩

/-- `headings.find`. -/
def TP.find (t : TP) (name : List Char) : Option (List Char × List ℕ) := t.headings.find? fun e => e.1 = name

/-- `TreeParser::focus`, `utility/treeparser.cpp:107-117`. -/
def TP.focusOn (root : Head) (t : TP) (name : List Char) : Bool × TP :=
  match t.find name with
  | none => (false, t)
  | some e => (true, t.setFocus root (some e.2))

/-- `TreeParser::focus0`, `utility/treeparser.cpp:119-126`. -/
def TP.focus0 (root : Head) (t : TP) (name : List Char) : Bool × TP := (t.setFocus root (some [])).focusOn root name

/-- `TreeParser::up`, `utility/treeparser.cpp:128-139`. -/
def TP.up (root : Head) (t : TP) : Option (Bool × TP) :=
  match t.focus with
  | none => none
  | some [] => some (false, t)
  | some (i :: p) => some (true, t.setFocus root (some (i :: p).dropLast))

/-- The entries from the first one with the name on, while the name is the same: the loop in `utility/treeparser.cpp:313-316`. -/
def sameName (name : List Char) (l : List (List Char × List ℕ)) : List (List ℕ) :=
  ((l.dropWhile fun e => e.1 ≠ name).takeWhile fun e => e.1 = name).map (·.2)

/-- `TreeParser::begin(name)`, `utility/treeparser.cpp:303-325`. -/
def TP.beginName (root : Head) (t : TP) (name : List Char) : Option (Bool × TP) :=
  if t.point ≠ -1 then some (false, t)
  else
    match t.find name with
    | none => some (false, t)
    | some _ =>
      match t.list ++ sameName name t.headings with
      | [] => none
      | x :: r => some (true, ⟨some x, sortOptions root (some x), x :: r, t.focus, 0⟩)

/-- `TreeParser::begin()`, `utility/treeparser.cpp:327-340`. -/
def TP.beginAll (root : Head) (t : TP) : Option (Bool × TP) :=
  if t.point ≠ -1 then some (false, t)
  else
    match t.list ++ t.headings.map (·.2) with
    | [] => none
    | x :: r => some (true, ⟨some x, sortOptions root (some x), x :: r, t.focus, 0⟩)

/-- `TreeParser::end`, `utility/treeparser.cpp:360-372`. -/
def TP.finish (root : Head) (t : TP) : TP :=
  if t.point ≠ -1 then ⟨t.mark, sortOptions root t.mark, [], none, -1⟩ else t

/-- `TreeParser::next`, `utility/treeparser.cpp:342-358`. -/
def TP.next (root : Head) (t : TP) : Option (Bool × TP) :=
  if (t.list.length : ℤ) ≤ t.point + 1 then some (false, TP.finish root ⟨t.focus, t.headings, t.list, t.mark, t.point + 1⟩)
  else
    match t.list[(t.point + 1).toNat]? with
    | none => none
    | some x => some (true, ⟨some x, sortOptions root (some x), t.list, t.mark, t.point + 1⟩)

/-! ## Specification -/

/-- The sub-headings of node `p` with the name, in the order of the file. -/
def matching (root : Head) (p : List ℕ) (name : List Char) : List (List ℕ) :=
  ((children root p).filter fun e => e.1 = name).map (·.2)

/-- The operations of a parser. -/
inductive Op where
  | focus (n : List Char)
  | focus0 (n : List Char)
  | up
  | beginName (n : List Char)
  | beginAll
  | next
  | finish

/-- One operation: what it returns, and the parser after it; `none`: undefined. -/
def step (root : Head) (t : TP) : Op → Option (Bool × TP)
  | .focus n => some (t.focusOn root n)
  | .focus0 n => some (t.focus0 root n)
  | .up => t.up root
  | .beginName n => t.beginName root n
  | .beginAll => t.beginAll root
  | .next => t.next root
  | .finish => some (true, t.finish root)

/-- Parsers that can occur: any history of operations after the constructor. -/
inductive Reachable (root : Head) : TP → Prop where
  | new : Reachable root (TP.new root)
  | step (t : TP) (o : Op) (b : Bool) (t' : TP) : Reachable root t → step root t o = some (b, t') → Reachable root t'

/-- The loop `do { body } while (parser.next())`; the nodes that were in focus when the body began, and the parser after the
loop. The number bounds the rounds. -/
def loop (root : Head) (body : TP → Option TP) : ℕ → TP → Option (List (Option (List ℕ)) × TP)
  | 0, _ => none
  | k + 1, t =>
    match body t with
    | none => none
    | some t1 =>
      match t1.next root with
      | none => none
      | some (false, t2) => some ([t.focus], t2)
      | some (true, t2) => (loop root body k t2).map fun r => (t.focus :: r.1, r.2)

/-- A loop body that only looks around: it does not begin, continue or end an iteration. -/
def Looks (body : TP → Option TP) : Prop :=
  ∀ t, ∃ t', body t = some t' ∧ t'.list = t.list ∧ t'.mark = t.mark ∧ t'.point = t.point

/-! ## Lemmas -/

/-- Sorted by name. -/
def Sorted (l : List (List Char × List ℕ)) : Prop := l.Pairwise fun a b => a.1 ≤ b.1

theorem mem_mmInsert (e : List Char × List ℕ) (l) (x) : x ∈ mmInsert e l ↔ x = e ∨ x ∈ l := by
  induction l with
  | nil => simp [mmInsert]
  | cons y r ih =>
    rw [mmInsert]
    split
    · simp
    · simp only [List.mem_cons, ih]; tauto

theorem mmInsert_sorted (e : List Char × List ℕ) (l) (h : Sorted l) : Sorted (mmInsert e l) := by
  unfold Sorted at *
  induction l with
  | nil => simp [mmInsert]
  | cons y r ih =>
    rw [mmInsert]
    rw [List.pairwise_cons] at h
    split
    · rename_i hlt
      refine List.Pairwise.cons ?_ (List.Pairwise.cons h.1 h.2)
      intro z hz
      rcases List.mem_cons.mp hz with rfl | hz
      · exact le_of_lt hlt
      · exact le_trans (le_of_lt hlt) (h.1 z hz)
    · rename_i hlt
      refine List.Pairwise.cons ?_ (ih h.2)
      intro z hz
      rcases (mem_mmInsert e r z).mp hz with rfl | hz
      · exact le_of_not_gt hlt
      · exact h.1 z hz

theorem mmInsert_filter (name : List Char) (e : List Char × List ℕ) (l) (h : Sorted l) :
    (mmInsert e l).filter (fun x => x.1 = name) = l.filter (fun x => x.1 = name) ++ [e].filter (fun x => x.1 = name) := by
  unfold Sorted at h
  induction l with
  | nil => simp [mmInsert]
  | cons y r ih =>
    rw [List.pairwise_cons] at h
    rw [mmInsert]
    split
    · rename_i hlt
      by_cases he : e.1 = name
      · have : ∀ z ∈ y :: r, z.1 ≠ name := by
          intro z hz
          rcases List.mem_cons.mp hz with rfl | hz
          · exact fun h' => absurd hlt (by rw [he, h']; exact lt_irrefl _)
          · exact fun h' => absurd (lt_of_lt_of_le hlt (h.1 z hz)) (by rw [he, h']; exact lt_irrefl _)
        have h0 : (y :: r).filter (fun x => decide (x.1 = name)) = [] := by
          rw [List.filter_eq_nil_iff]
          simpa using this
        rw [List.filter_cons, h0]
        simp [he]
      · rw [List.filter_cons]
        simp [he]
    · by_cases hy : y.1 = name
      · simp only [List.filter_cons, hy, decide_true, if_true, ih h.2, List.cons_append]
      · simp only [List.filter_cons, hy, decide_false, Bool.false_eq_true, if_false, ih h.2]

theorem foldl_insert (es l : List (List Char × List ℕ)) (h : Sorted l) (name : List Char) :
    Sorted (es.foldl (fun m e => mmInsert e m) l) ∧
    (es.foldl (fun m e => mmInsert e m) l).filter (fun x => x.1 = name) =
      l.filter (fun x => x.1 = name) ++ es.filter (fun x => x.1 = name) ∧
    ∀ x, x ∈ es.foldl (fun m e => mmInsert e m) l ↔ x ∈ l ∨ x ∈ es := by
  induction es generalizing l with
  | nil => simp [h]
  | cons e es ih =>
    obtain ⟨h1, h2, h3⟩ := ih (mmInsert e l) (mmInsert_sorted e l h)
    refine ⟨h1, ?_, ?_⟩
    · rw [List.foldl_cons, h2, mmInsert_filter name e l h]
      simp [List.filter_cons]
      split <;> simp
    · intro x
      rw [List.foldl_cons, h3, mem_mmInsert, List.mem_cons]
      tauto

theorem mmInsert_perm (e : List Char × List ℕ) (l) : (mmInsert e l).Perm (e :: l) := by
  induction l with
  | nil => exact List.Perm.refl _
  | cons y r ih =>
    rw [mmInsert]
    split
    · exact List.Perm.refl _
    · exact (ih.cons y).trans (List.Perm.swap e y r)

theorem foldl_perm (es l : List (List Char × List ℕ)) : (es.foldl (fun m e => mmInsert e m) l).Perm (l ++ es) := by
  induction es generalizing l with
  | nil => simp
  | cons e es ih =>
    rw [List.foldl_cons]
    refine (ih _).trans ?_
    refine ((mmInsert_perm e l).append_right es).trans ?_
    exact List.perm_middle.symm

theorem sortOptions_some (root : Head) (p : List ℕ) (name : List Char) :
    Sorted (sortOptions root (some p)) ∧
    (sortOptions root (some p)).filter (fun x => x.1 = name) = (children root p).filter (fun x => x.1 = name) := by
  have := foldl_insert (children root p) [] List.Pairwise.nil name
  exact ⟨this.1, by simpa [sortOptions] using this.2.1⟩

/-- In a sorted list the entries with a name are consecutive. -/
theorem sameName_sorted (name : List Char) (l) (h : Sorted l) :
    sameName name l = (l.filter fun e => e.1 = name).map (·.2) := by
  unfold sameName Sorted at *
  congr 1
  induction l with
  | nil => rfl
  | cons y r ih =>
    rw [List.pairwise_cons] at h
    by_cases hy : y.1 = name
    · rw [List.dropWhile_cons, if_neg (by simp [hy]), List.takeWhile_cons, if_pos (by simp [hy]), List.filter_cons,
        if_pos (by simp [hy])]
      congr 1
      -- all that follows has a name that is not smaller
      clear ih
      have hge : ∀ z ∈ r, name ≤ z.1 := fun z hz => hy ▸ h.1 z hz
      have hs := h.2
      clear h hy
      induction r with
      | nil => rfl
      | cons z r ih =>
        rw [List.pairwise_cons] at hs
        by_cases hz : z.1 = name
        · rw [List.takeWhile_cons, if_pos (by simp [hz]), List.filter_cons, if_pos (by simp [hz]),
            ih (fun w hw => hge w (by simp [hw])) hs.2]
        · rw [List.takeWhile_cons, if_neg (by simp [hz]), eq_comm, List.filter_eq_nil_iff]
          intro w hw
          have hlt : name < z.1 := lt_of_le_of_ne (hge z (by simp)) (Ne.symm hz)
          rcases List.mem_cons.mp hw with rfl | hw
          · simpa using hz
          · have := lt_of_lt_of_le hlt (hs.1 w hw)
            simpa using (ne_of_gt this)
    · rw [List.dropWhile_cons, if_pos (by simp [hy]), List.filter_cons, if_neg (by simp [hy])]
      exact ih h.2

/-- What holds of every parser: the headings are those of the node in focus; an iteration is under way or not. -/
structure Inv (root : Head) (t : TP) : Prop where
  headings : t.headings = sortOptions root t.focus
  idle : t.point = -1 → t.list = [] ∧ t.mark = none
  busy : t.point ≠ -1 → 0 ≤ t.point ∧ t.point < t.list.length

theorem find_iff (root : Head) (t : TP) (h : Inv root t) (p : List ℕ) (hp : t.focus = some p) (name : List Char) :
    t.find name = ((children root p).filter fun e => e.1 = name).head? := by
  unfold TP.find
  rw [h.headings, hp]
  rw [← (sortOptions_some root p name).2]
  induction sortOptions root (some p) with
  | nil => rfl
  | cons y r ih =>
    rw [List.find?_cons, List.filter_cons]
    by_cases hy : y.1 = name
    · simp [hy]
    · simpa [hy] using ih

theorem setFocus_inv (root : Head) (t : TP) (h : Inv root t) (f : Option (List ℕ)) : Inv root (t.setFocus root f) :=
  ⟨rfl, h.idle, h.busy⟩

theorem focusOn_inv (root : Head) (t : TP) (h : Inv root t) (n : List Char) : Inv root (t.focusOn root n).2 := by
  unfold TP.focusOn
  split
  · exact h
  · exact setFocus_inv root t h _

theorem finish_inv (root : Head) (t : TP) (h : t.headings = sortOptions root t.focus) (hi : t.point = -1 → t.list = [] ∧ t.mark = none) :
    Inv root (t.finish root) := by
  unfold TP.finish
  split
  · exact ⟨rfl, fun _ => ⟨rfl, rfl⟩, fun h => absurd rfl h⟩
  · rename_i hp
    push Not at hp
    exact ⟨h, hi, fun h' => absurd hp h'⟩

theorem step_inv (root : Head) (t : TP) (h : Inv root t) (o : Op) (b : Bool) (t' : TP) (hs : step root t o = some (b, t')) :
    Inv root t' := by
  cases o with
  | focus n => simp only [step, Option.some.injEq] at hs; have := focusOn_inv root t h n; rw [hs] at this; exact this
  | focus0 n =>
    simp only [step, Option.some.injEq] at hs
    have := focusOn_inv root _ (setFocus_inv root t h (some [])) n
    rw [TP.focus0] at hs
    rw [hs] at this
    exact this
  | up =>
    simp only [step, TP.up] at hs
    split at hs
    · cases hs
    · cases hs; exact h
    · cases hs; exact setFocus_inv root t h _
  | beginName n =>
    simp only [step, TP.beginName] at hs
    split at hs
    · cases hs; exact h
    · split at hs
      · cases hs; exact h
      · split at hs
        · cases hs
        · cases hs
          exact ⟨rfl, fun h => by simp at h, fun _ => ⟨le_refl _, by simp⟩⟩
  | beginAll =>
    simp only [step, TP.beginAll] at hs
    split at hs
    · cases hs; exact h
    · split at hs
      · cases hs
      · cases hs
        exact ⟨rfl, fun h => by simp at h, fun _ => ⟨le_refl _, by simp⟩⟩
  | next =>
    simp only [step, TP.next] at hs
    split at hs
    · cases hs
      refine finish_inv root _ h.headings fun hp => ?_
      simp only at hp
      by_cases hq : t.point = -1
      · exact h.idle hq
      · have := h.busy hq; omega
    · rename_i hl
      split at hs
      · cases hs
      · cases hs
        refine ⟨rfl, fun hp => ?_, fun _ => ?_⟩
        · simp only at hp
          by_cases hq : t.point = -1
          · omega
          · have := h.busy hq; omega
        · simp only
          by_cases hq : t.point = -1
          · omega
          · have := h.busy hq; omega
  | finish =>
    simp only [step, Option.some.injEq, Prod.mk.injEq] at hs
    rw [← hs.2]
    exact finish_inv root t h.headings h.idle

theorem Reachable.inv {root : Head} {t : TP} (h : Reachable root t) : Inv root t := by
  induction h with
  | new => exact ⟨rfl, fun _ => ⟨rfl, rfl⟩, fun h => absurd rfl h⟩
  | step t o b t' _ hs ih => exact step_inv root t ih o b t' hs

/-- The rest of a loop, from the element at position `k` on. -/
theorem loop_rest (root : Head) (body : TP → Option TP) (hb : Looks body) (m : List (List ℕ)) (p : Option (List ℕ)) (n k : ℕ)
    (hk : m.length = k + (n + 1)) (t : TP) (hl : t.list = m) (hm : t.mark = p) (hp : t.point = k) (hf : t.focus = m[k]?) :
    loop root body (n + 1) t = some ((m.drop k).map some, ⟨p, sortOptions root p, [], none, -1⟩) := by
  induction n generalizing k t with
  | zero =>
    obtain ⟨t', h1, h2, h3, h4⟩ := hb t
    have hlt : k < m.length := by omega
    have hd : m.drop k = [m[k]] := by
      rw [List.drop_eq_getElem_cons hlt, List.drop_of_length_le (by omega)]
    rw [loop, h1]
    simp only
    rw [TP.next, if_pos (by rw [h2, hl, h4, hp]; omega)]
    simp only [TP.finish]
    rw [if_pos (by rw [h4, hp]; omega), hf, hd, h3, hm, List.getElem?_eq_getElem hlt]
    rfl
  | succ n ih =>
    obtain ⟨t', h1, h2, h3, h4⟩ := hb t
    have hlt : k < m.length := by omega
    have hlt' : k + 1 < m.length := by omega
    rw [loop, h1]
    simp only
    rw [TP.next, if_neg (by rw [h2, hl, h4, hp]; omega)]
    have he : (t'.point + 1).toNat = k + 1 := by rw [h4, hp]; omega
    rw [he, h2, hl, List.getElem?_eq_getElem hlt']
    simp only
    rw [ih (k + 1) (by omega) _ rfl (by rw [h3, hm]) (by simp [h4, hp]) (by simp [List.getElem?_eq_getElem hlt'])]
    rw [hf, List.drop_eq_getElem_cons hlt, List.getElem?_eq_getElem hlt]
    rfl

theorem tp_eta (root : Head) (t : TP) (h : Inv root t) (hp : t.point = -1) :
    (⟨t.focus, sortOptions root t.focus, [], none, -1⟩ : TP) = t := by
  obtain ⟨h1, h2⟩ := h.idle hp
  obtain ⟨f, hh, l, m, p⟩ := t
  simp only at *
  rw [← h.headings, h1, h2, hp]

/-! ## C53 -/

/-- C53: for every parser that is not iterating, `begin(name)` returns true exactly if there is a sub-heading with the name in the
node in focus, and then a `do … while (next())` loop over it has in focus exactly the sub-headings with that name, in the order of the file,
each once; after the loop the parser is exactly as before. The body of the loop may look around in the tree. -/
theorem C53_visits (root : Head) (t : TP) (h : Reachable root t) (hp : t.point = -1) (p : List ℕ) (hf : t.focus = some p)
    (name : List Char) (hm : matching root p name ≠ []) (body : TP → Option TP) (hb : Looks body) :
    ∃ t0, t.beginName root name = some (true, t0) ∧
      loop root body (matching root p name).length t0 = some ((matching root p name).map some, t) := by
  have hi := h.inv
  have hs : sameName name t.headings = matching root p name := by
    rw [hi.headings, hf, sameName_sorted _ _ (sortOptions_some root p name).1, (sortOptions_some root p name).2, matching]
  obtain ⟨x, r, hx⟩ := List.exists_cons_of_ne_nil hm
  have hfind : ∃ e, t.find name = some e := by
    rw [find_iff root t hi p hf]
    unfold matching at hx
    cases hq : (children root p).filter fun e => e.1 = name with
    | nil => rw [hq] at hx; simp at hx
    | cons a b => exact ⟨a, rfl⟩
  obtain ⟨e, he⟩ := hfind
  refine ⟨⟨some x, sortOptions root (some x), x :: r, t.focus, 0⟩, ?_, ?_⟩
  · rw [TP.beginName, if_neg (by simp [hp]), he]
    simp only [(hi.idle hp).1, List.nil_append, hs, hx]
  · have := loop_rest root body hb (x :: r) t.focus r.length 0 (by simp)
      ⟨some x, sortOptions root (some x), x :: r, t.focus, 0⟩ rfl rfl rfl rfl
    rw [hx, List.length_cons, this, tp_eta root t hi hp]
    simp

/-- C53: if there is no such sub-heading, `begin(name)` returns false and changes nothing. -/
theorem C53_absent (root : Head) (t : TP) (h : Reachable root t) (p : List ℕ) (hf : t.focus = some p)
    (name : List Char) (hm : matching root p name = []) : t.beginName root name = some (false, t) := by
  rw [TP.beginName]
  split
  · rfl
  · rw [find_iff root t h.inv p hf]
    unfold matching at hm
    rw [List.map_eq_nil_iff] at hm
    rw [hm]
    rfl

/-- C53: during an iteration `begin` returns false and changes nothing. -/
theorem C53_nested (root : Head) (t : TP) (hp : t.point ≠ -1) (name : List Char) :
    t.beginName root name = some (false, t) ∧ t.beginAll root = some (false, t) := by
  rw [TP.beginName, TP.beginAll, if_pos hp, if_pos hp]
  exact ⟨rfl, rfl⟩

/-- C53 (partial): `begin()` without a name visits all sub-headings exactly once, those of the same name in the order of the file, and
returns to the place where it began. Missing: headings without sub-headings, see `C53_negation_empty`. -/
theorem C53_visits_all_partial (root : Head) (t : TP) (h : Reachable root t) (hp : t.point = -1) (p : List ℕ) (hf : t.focus = some p)
    (hm : children root p ≠ []) (body : TP → Option TP) (hb : Looks body) :
    ∃ (t0 : TP) (es : List (List Char × List ℕ)), t.beginAll root = some (true, t0) ∧ es.Perm (children root p) ∧
      (∀ name, es.filter (fun e => e.1 = name) = (children root p).filter (fun e => e.1 = name)) ∧
      loop root body (children root p).length t0 = some (es.map (fun e => some e.2), t) := by
  have hi := h.inv
  have hperm : (sortOptions root (some p)).Perm (children root p) := by
    have := foldl_perm (children root p) []
    simpa [sortOptions] using this
  have hlen := hperm.length_eq
  have hne : sortOptions root (some p) ≠ [] := by
    intro h0
    rw [h0] at hlen
    exact hm (List.length_eq_zero_iff.mp (by simpa using hlen.symm))
  obtain ⟨x, r, hx⟩ := List.exists_cons_of_ne_nil hne
  refine ⟨⟨some x.2, sortOptions root (some x.2), x.2 :: r.map (·.2), t.focus, 0⟩, sortOptions root (some p), ?_, hperm,
    fun name => (sortOptions_some root p name).2, ?_⟩
  · rw [TP.beginAll, if_neg (by simp [hp]), (hi.idle hp).1, hi.headings, hf, hx]
    rfl
  · have := loop_rest root body hb (x.2 :: r.map (·.2)) t.focus r.length 0 (by simp)
      ⟨some x.2, sortOptions root (some x.2), x.2 :: r.map (·.2), t.focus, 0⟩ rfl rfl rfl rfl
    rw [← hlen, hx, List.length_cons, this, tp_eta root t hi hp]
    simp

/-- C53 is false of `begin()` for a node without sub-headings: it reads the first element of an empty list (the comment in the
header says that it returns false). -/
theorem C53_negation_empty (root : Head) (t : TP) (h : Reachable root t) (hp : t.point = -1) (p : List ℕ) (hf : t.focus = some p)
    (hm : children root p = []) : t.beginAll root = none := by
  rw [TP.beginAll, if_neg (by simp [hp]), (h.inv.idle hp).1, h.inv.headings, hf, sortOptions, hm]
  rfl

/-- C53 is false of `next()` outside of an iteration: the focus is lost (it becomes the null pointer). -/
theorem C53_negation_next (root : Head) (t : TP) (h : Reachable root t) (hp : t.point = -1) :
    ∃ t', t.next root = some (false, t') ∧ t'.focus = none ∧ t'.up root = none := by
  obtain ⟨h1, h2⟩ := h.inv.idle hp
  refine ⟨⟨none, [], [], none, -1⟩, ?_, rfl, rfl⟩
  rw [TP.next, h1, hp, if_pos (by simp)]
  simp [TP.finish, h2, sortOptions]

/-- C53: `end()` in the middle of an iteration returns to the place where it began, wherever the focus is. -/
theorem C53_end (root : Head) (t : TP) (h : Reachable root t) (hp : t.point = -1) (name : List Char) (t0 t1 : TP)
    (hb : t.beginName root name = some (true, t0)) (h1 : t1.mark = t0.mark) (h2 : t1.point ≠ -1) : t1.finish root = t := by
  rw [TP.finish, if_pos h2, h1]
  have : t0.mark = t.focus := by
    rw [TP.beginName, if_neg (by simp [hp])] at hb
    split at hb
    · cases hb
    · split at hb
      · cases hb
      · cases hb; rfl
  rw [this]
  exact tp_eta root t h.inv hp

/-- C53: `focus(name)` moves to the first sub-heading with the name, and returns false and stays if there is none. -/
theorem C53_focus (root : Head) (t : TP) (h : Reachable root t) (p : List ℕ) (hf : t.focus = some p) (name : List Char) :
    (t.focusOn root name).2.focus = ((matching root p name).head?).or (some p) ∧
    ((t.focusOn root name).1 = true ↔ matching root p name ≠ []) := by
  rw [TP.focusOn, find_iff root t h.inv p hf]
  unfold matching
  cases (children root p).filter fun e => e.1 = name with
  | nil => simp [hf]
  | cons a b => simp [TP.setFocus]

/-- C53: `up()` undoes `focus(name)`. -/
theorem C53_up (root : Head) (t : TP) (h : Reachable root t) (p : List ℕ) (hf : t.focus = some p) (name : List Char)
    (hs : (t.focusOn root name).1 = true) : (t.focusOn root name).2.up root = some (true, t) := by
  have hi := h.inv
  rw [TP.focusOn, find_iff root t hi p hf] at *
  cases hq : (children root p).filter fun e => e.1 = name with
  | nil => rw [hq] at hs; simp at hs
  | cons a b =>
    have ha : a ∈ children root p := List.mem_of_mem_filter (hq ▸ List.mem_cons_self : a ∈ (children root p).filter _)
    have : ∃ i, a.2 = p ++ [i] := by
      unfold children at ha
      split at ha
      · simp at ha
      · obtain ⟨c, _, hc⟩ := List.mem_map.mp ha
        exact ⟨c.2, by rw [← hc]⟩
    obtain ⟨i, hi2⟩ := this
    simp only [List.head?_cons, TP.setFocus, TP.up]
    rw [hi2]
    cases hp : p ++ [i] with
    | nil => simp at hp
    | cons j q =>
      simp only
      rw [← hp, List.dropLast_concat]
      obtain ⟨f, hh, l, m, pt⟩ := t
      have := hi.headings
      simp only at hf this ⊢
      rw [this, hf]

/-- A tree with repeated headings. -/
def exampleRoot : Head :=
  .mk [] [] [.mk ['P'] [(['1'], [])] [], .mk ['A'] [] [], .mk ['P'] [(['2'], ['3'])] [.mk ['Q'] [] []]]

example : matching exampleRoot [] ['P'] = [[0], [2]] := by decide +kernel
example : ∃ t0, (TP.new exampleRoot).beginName exampleRoot ['P'] = some (true, t0) ∧
    loop exampleRoot some 2 t0 = some ([some [0], some [2]], TP.new exampleRoot) :=
  C53_visits exampleRoot _ .new rfl [] rfl ['P'] (by decide +kernel) some (fun t => ⟨t, rfl, rfl, rfl, rfl⟩)
/-- A body which looks into the sub-headings. -/
example : Looks (fun t => some (t.focusOn exampleRoot ['Q']).2) := by
  intro t
  refine ⟨_, rfl, ?_⟩
  unfold TP.focusOn
  split <;> exact ⟨rfl, rfl, rfl⟩
example : children exampleRoot [1] = [] := by decide +kernel

/-! ## C54 -/

/-- The result of `check`: whether it throws, and the headings it warns about. -/
structure Checked where
  throws : Bool
  unknown : List (List Char)

/-- `TreeParser::check`, `utility/treeparser.cpp:246-274`; `nec` and `opt` are the declared headings
(`utility/treeparser.cpp:156-162`). Without the printing. -/
def check (t : TP) (nec opt : List (List Char)) : Checked :=
  ⟨!(nec.filter fun n => (t.find n).isNone).isEmpty,
    (t.headings.filter fun e => !(nec.contains e.1) && !(opt.contains e.1)).map (·.1)⟩

/-- C54 (partial): `check()` throws exactly when a declared necessary heading is missing in the node in focus. Missing: an undeclared heading
does not make it throw, see `C54_negation`. -/
theorem C54_throws_partial (root : Head) (t : TP) (h : Reachable root t) (p : List ℕ) (hf : t.focus = some p)
    (nec opt : List (List Char)) :
    (check t nec opt).throws = true ↔ ∃ n ∈ nec, ∀ e ∈ children root p, e.1 ≠ n := by
  unfold check
  simp only [Bool.not_eq_true', List.isEmpty_eq_false_iff, ne_eq, List.filter_eq_nil_iff, not_forall]
  constructor
  · rintro ⟨n, hn, h2⟩
    refine ⟨n, hn, ?_⟩
    simp only [Option.isNone_iff_eq_none, not_not] at h2
    rw [find_iff root t h.inv p hf, List.head?_eq_none_iff, List.filter_eq_nil_iff] at h2
    simpa using h2
  · rintro ⟨n, hn, h2⟩
    refine ⟨n, hn, ?_⟩
    simp only [Option.isNone_iff_eq_none, not_not]
    rw [find_iff root t h.inv p hf, List.head?_eq_none_iff, List.filter_eq_nil_iff]
    simpa using h2

/-- C54: the warning names exactly the sub-headings that were not declared. -/
theorem C54_warning (root : Head) (t : TP) (h : Reachable root t) (p : List ℕ) (hf : t.focus = some p)
    (nec opt : List (List Char)) (n : List Char) :
    n ∈ (check t nec opt).unknown ↔ n ∉ nec ∧ n ∉ opt ∧ ∃ e ∈ children root p, e.1 = n := by
  have hmem : ∀ x, x ∈ t.headings ↔ x ∈ children root p := by
    intro x
    rw [h.inv.headings, hf]
    have := (foldl_insert (children root p) [] List.Pairwise.nil n).2.2 x
    simpa [sortOptions] using this
  unfold check
  simp only [List.mem_map, List.mem_filter, hmem, Bool.and_eq_true, Bool.not_eq_true', List.contains_eq_mem,
    decide_eq_false_iff_not]
  constructor
  · rintro ⟨e, ⟨h1, h2, h3⟩, rfl⟩
    exact ⟨h2, h3, e, h1, rfl⟩
  · rintro ⟨h2, h3, e, h1, rfl⟩
    exact ⟨e, ⟨h1, h2, h3⟩, rfl⟩

/-- C54 is false of undeclared headings: `check()` never throws because of them, whatever the tree. -/
theorem C54_negation (t : TP) (opt : List (List Char)) : (check t [] opt).throws = false := rfl

/-- A tree with an undeclared heading: it is only warned about. -/
example : (check (TP.new exampleRoot) [['A']] []).throws = false ∧ (check (TP.new exampleRoot) [['A']] []).unknown = [['P'], ['P']] ∧
    (check (TP.new exampleRoot) [['B']] [['P']]).throws = true := by decide +kernel

/-! ## C55 -/

/-- `-1<i || i<params.size()`, e.g. `utility/treeparser.cpp:11`: the second comparison is between unsigned numbers of 64 bits. -/
def guard (i : ℤ) (n : ℕ) : Bool := -1 < i || i % 2 ^ 64 < n

/-- `params[i]`. -/
def elem (ps : List (List Char × List Char)) (i : ℤ) : Option (List Char × List Char) :=
  if 0 ≤ i then ps[i.toNat]? else none

/-- `TreeParser::argName`, `utility/treeparser.cpp:164-169`. -/
def argName (ps : List (List Char × List Char)) (i : ℤ) : Option (List Char) :=
  if -1 < i && i % 2 ^ 64 < ps.length then (elem ps i).map (·.1) else some []

/-- `TreeParser::valName`, `utility/treeparser.cpp:198-201`. -/
def valName (ps : List (List Char × List Char)) (i : ℤ) : Option (List Char) :=
  if guard i ps.length then (elem ps i).map (·.2) else some []

/-- `TreeParser::argvalName`, `utility/treeparser.cpp:235-244`: what it returns and the two strings it sets. -/
def argvalName (ps : List (List Char × List Char)) (i : ℤ) : Option (Bool × List Char × List Char) :=
  if guard i ps.length then (elem ps i).map fun e => (true, e) else some (false, [], [])

/-- `TreeParser::arg`, `utility/treeparser.cpp:9-23`, `utility/treeparser.hpp:213-227`, with `conv` for the conversion to a value. The
value is set only if `true` is returned. -/
def arg {α : Type} (vars : List (List Char × List Char)) (conv : List Char → α) (ps : List (List Char × List Char)) (i : ℤ) :
    Option (Bool × Option α) :=
  if guard i ps.length then
    (elem ps i).map fun e => (true, some (conv (((vars.find? fun v => v.1 = e.1).map (·.2)).getD e.1)))
  else some (false, none)

/-- `TreeParser::val`, `utility/treeparser.cpp:61-68`. -/
def val {α : Type} (conv : List Char → α) (ps : List (List Char × List Char)) (i : ℤ) : Option (Bool × Option α) :=
  if guard i ps.length then
    (elem ps i).map fun e => if e.2 ≠ [] then (true, some (conv e.2)) else (false, none)
  else some (false, none)

/-- `TreeParser::firstArg`, `utility/treeparser.cpp:51-59`. -/
def firstArg {α : Type} (conv : List Char → α) : List (List Char × List Char) → Bool × Option α
  | [] => (false, none)
  | e :: _ => if e.1 ≠ [] then (true, some (conv e.1)) else (false, none)

theorem guard_neg (i : ℤ) (n : ℕ) (hi : i < 0) (h2 : -2 ^ 31 ≤ i) (hn : n < 2 ^ 63) : guard i n = false := by
  unfold guard
  have h1 : i % 2 ^ 64 = i + 2 ^ 64 := by
    rw [← Int.add_emod_right]
    exact Int.emod_eq_of_lt (by omega) (by omega)
  have hn' : (n : ℤ) < 2 ^ 63 := by exact_mod_cast hn
  simp only [Bool.or_eq_false_iff, decide_eq_false_iff_not, not_lt]
  exact ⟨by omega, by rw [h1]; omega⟩

theorem guard_nonneg (i : ℤ) (n : ℕ) (hi : 0 ≤ i) : guard i n = true := by
  unfold guard
  simp only [Bool.or_eq_true, decide_eq_true_eq]
  exact Or.inl (by omega)

/-- C55 (partial): for an index inside the list all accessors give that element. Missing: indices past the end, see `C55_negation`. -/
theorem C55_inside_partial {α : Type} (vars ps : List (List Char × List Char)) (conv : List Char → α) (i : ℕ) (h : i < ps.length)
    (hn : ps.length < 2 ^ 63) :
    argName ps i = some ps[i].1 ∧ valName ps i = some ps[i].2 ∧ argvalName ps i = some (true, ps[i]) ∧
    arg vars conv ps i = some (true, some (conv (((vars.find? fun v => v.1 = ps[i].1).map (·.2)).getD ps[i].1))) ∧
    val conv ps i = some (if ps[i].2 = [] then (false, none) else (true, some (conv ps[i].2))) := by
  have hg := guard_nonneg i ps.length (by omega)
  have he : elem ps i = some ps[i] := by
    rw [elem, if_pos (by omega)]
    simp [List.getElem?_eq_getElem h]
  have hm : ((i : ℤ) % 2 ^ 64) = i := Int.emod_eq_of_lt (by omega) (by
    have : (ps.length : ℤ) < 2 ^ 63 := by exact_mod_cast hn
    omega)
  refine ⟨?_, ?_, ?_, ?_, ?_⟩
  · rw [argName, hm, if_pos (by simp; omega), he]; rfl
  · rw [valName, hg, he]; rfl
  · rw [argvalName, hg, he]; rfl
  · rw [arg, hg, he]; rfl
  · rw [val, hg, he]
    simp only [if_true, Option.map_some, ne_eq, ite_not]

/-- C55: for a negative index nothing is accessed and "no such element" is reported. -/
theorem C55_negative {α : Type} (vars ps : List (List Char × List Char)) (conv : List Char → α) (i : ℤ) (h : i < 0)
    (h2 : -2 ^ 31 ≤ i) (hn : ps.length < 2 ^ 63) :
    argName ps i = some [] ∧ valName ps i = some [] ∧ argvalName ps i = some (false, [], []) ∧
    arg vars conv ps i = some (false, none) ∧ val conv ps i = some (false, none) := by
  have hg := guard_neg i ps.length h h2 hn
  refine ⟨?_, ?_, ?_, ?_, ?_⟩
  · rw [argName, if_neg (by simp; omega)]
  · rw [valName, hg]; rfl
  · rw [argvalName, hg]; rfl
  · rw [arg, hg]; rfl
  · rw [val, hg]; rfl

/-- C55: `argName` is checked for every index. -/
theorem C55_arg_name (ps : List (List Char × List Char)) (i : ℤ) (h2 : -2 ^ 31 ≤ i) (h3 : i < 2 ^ 31) (hn : ps.length < 2 ^ 63) :
    argName ps i = some (((if 0 ≤ i then ps[i.toNat]? else none).map (·.1)).getD []) := by
  by_cases hi : 0 ≤ i
  · have hm : (i % 2 ^ 64) = i := Int.emod_eq_of_lt hi (by omega)
    rw [argName, hm, if_pos hi]
    by_cases hl : i < ps.length
    · rw [if_pos (by simp; omega), elem, if_pos hi, List.getElem?_eq_getElem (by omega)]
      rfl
    · rw [if_neg (by simp; omega), List.getElem?_eq_none (by omega)]
      rfl
  · have := (C55_negative [] ps id i (by omega) h2 hn).1
    rw [this, if_neg hi]
    rfl

/-- C55 is false past the end: for every list and every index that is too large, all other accessors read outside of the list (the
two comparisons in the test are joined with "or"). -/
theorem C55_negation {α : Type} (vars ps : List (List Char × List Char)) (conv : List Char → α) (i : ℕ) (h : ps.length ≤ i) :
    valName ps i = none ∧ argvalName ps i = none ∧ arg vars conv ps i = none ∧ val conv ps i = none := by
  have hg := guard_nonneg i ps.length (by omega)
  have he : elem ps i = none := by
    rw [elem, if_pos (by omega)]
    simpa using h
  rw [valName, argvalName, arg, val, hg, he]
  exact ⟨rfl, rfl, rfl, rfl⟩

/-- C55: `firstArg` never reads outside: it gives the first argument if there is one that is not empty. -/
theorem C55_first {α : Type} (ps : List (List Char × List Char)) (conv : List Char → α) :
    firstArg conv ps = match ps.head? with
      | none => (false, none)
      | some e => if e.1 = [] then (false, none) else (true, some (conv e.1)) := by
  cases ps with
  | nil => rfl
  | cons e r => simp [firstArg]

example : argvalName [(['a'], ['1']), (['b'], [])] 1 = some (true, ['b'], []) ∧
    arg [(['a'], ['7'])] id [(['a'], ['1'])] 0 = some (true, some ['7']) ∧
    valName [(['a'], ['1'])] 1 = none := by decide +kernel

end Verif.TreeParser
