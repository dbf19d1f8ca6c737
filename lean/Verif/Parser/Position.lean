import Verif.Parser.Tokenize
/-!
# Positions in the editor (duchain/editorintegrator.cpp, parser/parsesession.cpp)

The editor addresses text by line and column, the tokens carry offsets.  Modelled here: the line table as
it is when tokenising has finished, `ParseSession::positionAt` and the ranges `EditorIntegrator` computes.
The specification (`cursorOffset`) is how an editor finds the character at a cursor.
-/
namespace KPhp

/-- A cursor: line and column, both from 0 (`KDevelop::CursorInRevision`). -/
structure Cursor where
  line : Nat
  col : Nat
  deriving DecidableEq, Repr

/-- `KDevPG::LocationTable::positionAt`, called by `ParseSession::positionAt`
(parser/parsesession.cpp:134-139).  Part of KDevelop-PG-Qt, not of this repository, and trusted: for a
table that holds the offsets of line breaks in ascending order, the line of offset `o` is the number of
entries before `o` and the column the distance to the character after the last of them. -/
def positionAt (lines : List Nat) (o : Nat) : Cursor :=
  match (lines.filter (· < o)).getLast? with
  | none => ⟨0, o⟩
  | some p => ⟨(lines.filter (· < o)).length, o - p - 1⟩

/-- The line table when tokenising has finished (parser/php.g:1205-1242): as `fill`, but returning
`m_tokenStream->locationTable()`, which the lexer fills (`createNewline`,
parser/phplexer.cpp:1050-1055).  Not modelled: the entry added by the final `yylex()`. -/
def fillTable (u : CharClass) (c : QString) : Nat → LState → Option (List Nat)
  | 0, _ => none
  | n + 1, s =>
    match step u c s with
    | none => none
    | some (s', .eof) => some s'.lines
    | some (s', .tok _ _ _) => fillTable u c n s'

/-- The line table of a text, observed after `n` lexer calls. -/
def lineTable (u : CharClass) (c : QString) (php : Bool) (n : Nat) : Option (List Nat) :=
  fillTable u c n (LState.init php)

/-- `EditorIntegrator::findPosition(token, FrontEdge)` (duchain/editorintegrator.cpp:33-35). -/
def frontEdge (lines : List Nat) (t : PTok) : Cursor := positionAt lines t.first

/-- `EditorIntegrator::findPosition(token, BackEdge)` (duchain/editorintegrator.cpp:29-32). -/
def backEdge (lines : List Nat) (t : PTok) : Cursor := positionAt lines (t.last + 1)

/-- A range of the editor: from the first cursor up to, but not including, the second
(`KDevelop::RangeInRevision`). -/
structure Range where
  start : Cursor
  stop : Cursor
  deriving DecidableEq, Repr

/-- `EditorIntegrator::findRange(qint64 startToken, qint64 endToken)` and, with the tokens of one or two
nodes, `findRange(AstNode*)` and `findRange(AstNode*, AstNode*)` (duchain/editorintegrator.cpp:38-47,
54-57): from the front of one token to the back of another. -/
def findRange (lines : List Nat) (a b : PTok) : Range := ⟨frontEdge lines a, backEdge lines b⟩

/-- `EditorIntegrator::findRange(qint64 token)` (duchain/editorintegrator.cpp:49-52, 59-62). -/
def tokenRange (lines : List Nat) (t : PTok) : Range := ⟨frontEdge lines t, backEdge lines t⟩

/-- `ParseSession::symbol(AstNode*)` (parser/parsesession.cpp:147-152), for a node whose last token is not
before its first. -/
def nodeText (c : QString) (a b : PTok) : QString := slice c a.first (a.first + (b.last - a.first + 1))

/-- `startToken` and `endToken` of a node that ends where it starts, i.e. that matched nothing, when the
next token is number `i` of the stream.  The generated code (trusted, KDevelop-PG-Qt) sets
`startToken = index() - 1` on entry and `endToken = index() - 2` on exit of a rule, `index()` being one
more than the number of the next token. -/
def emptyNode (i : Nat) : Nat × Nat := (i, i - 1)

/-! ## Specification -/

/-- The offset of a cursor in a text, if there is such a line and the line is long enough: walk over the
characters, counting lines; a cursor in line 0 must not step over a line break. -/
def cursorOffset : QString → Nat → Nat → Option Nat
  | _, 0, 0 => some 0
  | [], _, _ => none
  | x :: r, 0, k + 1 => if x = 10 then none else (cursorOffset r 0 k).map (· + 1)
  | x :: r, l + 1, k => (cursorOffset r (if x = 10 then l else l + 1) k).map (· + 1)

/-- The order of cursors: by line, then by column. -/
def Cursor.before (a b : Cursor) : Prop := a.line < b.line ∨ (a.line = b.line ∧ a.col < b.col)

/-- The cursor lies inside of the range. -/
def Range.Contains (r : Range) (p : Cursor) : Prop := ¬ p.before r.start ∧ p.before r.stop

/-- The text an editor shows inside of a range, if both ends of the range exist. -/
def textIn (c : QString) (r : Range) : Option QString :=
  match cursorOffset c r.start.line r.start.col, cursorOffset c r.stop.line r.stop.col with
  | some i, some j => some (slice c i j)
  | _, _ => none

/-! ## The table and the cursor -/

/-- Walking along the text to an offset. -/
def walk : QString → Nat → Cursor
  | _, 0 => ⟨0, 0⟩
  | [], o + 1 => ⟨0, o + 1⟩
  | x :: r, o + 1 =>
    let p := walk r o
    if x = 10 then ⟨p.line + 1, p.col⟩ else if p.line = 0 then ⟨0, p.col + 1⟩ else p

theorem walk_offset : ∀ (c : QString) (o l k : Nat),
    cursorOffset c l k = some o ↔ walk c o = ⟨l, k⟩ ∧ o ≤ c.length
  | [], o, 0, 0 => by
    cases o with
    | zero => simp [cursorOffset, walk]
    | succ o => simp [cursorOffset]
  | [], o, 0, k + 1 => by
    cases o with
    | zero => simp [cursorOffset, walk]
    | succ o => simp [cursorOffset]
  | [], o, l + 1, k => by
    cases o with
    | zero => simp [cursorOffset, walk]
    | succ o => simp [cursorOffset]
  | x :: r, 0, 0, 0 => by simp [cursorOffset, walk]
  | x :: r, o + 1, 0, 0 => by
    simp only [cursorOffset, walk]
    have : ∀ k, (0 : Nat) ≠ k + 1 := by omega
    constructor
    · intro h; simp at h
    · rintro ⟨h, -⟩
      split at h
      · simp at h
      · split at h
        · simp at h
        · rename_i h1
          rw [h] at h1
          simp at h1
  | x :: r, o, 0, k + 1 => by
    simp only [cursorOffset]
    cases o with
    | zero =>
      by_cases hx : x = 10
      · simp [hx, walk]
      · simp [hx, walk]
    | succ o =>
      have ih := walk_offset r o 0 k
      by_cases hx : x = 10
      · simp [hx, walk]
      · simp only [if_neg hx, walk, Option.map_eq_some_iff]
        constructor
        · rintro ⟨y, hy, h⟩
          have : y = o := by omega
          subst this
          have := ih.1 hy
          rw [this.1]
          simp
          exact this.2
        · rintro ⟨h, hl⟩
          refine ⟨o, ih.2 ⟨?_, by simpa using hl⟩, rfl⟩
          split at h
          · rename_i h0
            cases hw : walk r o with
            | mk a b =>
              rw [hw] at h h0
              simp at h h0
              rw [h0, h]
          · rename_i h0
            rw [h] at h0
            simp at h0
  | x :: r, o, l + 1, k => by
    simp only [cursorOffset]
    cases o with
    | zero =>
      simp [walk]
    | succ o =>
      simp only [walk, Option.map_eq_some_iff]
      constructor
      · rintro ⟨y, hy, h⟩
        have : y = o := by omega
        subst this
        have ih := (walk_offset r y _ k).1 hy
        by_cases hx : x = 10
        · rw [if_pos hx] at ih
          rw [if_pos hx, ih.1]
          exact ⟨rfl, by simpa using ih.2⟩
        · rw [if_neg hx] at ih
          rw [if_neg hx, ih.1]
          simp
          exact ih.2
      · rintro ⟨h, hl⟩
        refine ⟨o, (walk_offset r o _ k).2 ⟨?_, by simpa using hl⟩, rfl⟩
        by_cases hx : x = 10
        · rw [if_pos hx] at h ⊢
          cases hw : walk r o with
          | mk a b =>
            rw [hw] at h
            simp at h
            rw [h.1, h.2]
        · rw [if_neg hx] at h ⊢
          split at h
          · simp at h
          · exact h

/-- The position computed from the entries before the offset. -/
def posFrom (ns : List Nat) (o : Nat) : Cursor :=
  match ns.getLast? with
  | none => ⟨0, o⟩
  | some p => ⟨ns.length, o - p - 1⟩

theorem nlsIn_cons (x : QChar) (r : QString) (o : Nat) :
    nlsIn (x :: r) 0 (o + 1) = (if x = 10 then [0] else []) ++ (nlsIn r 0 o).map (· + 1) := by
  unfold nlsIn
  rw [Nat.sub_zero, Nat.sub_zero, List.range'_succ, List.filter_cons]
  have : List.range' (0 + 1) o = (List.range' 0 o).map (· + 1) := by
    have := List.map_add_range' (a := 1) (s := 0) (n := o) (step := 1)
    rw [show (0 + 1 : Nat) = 1 + 0 from rfl, ← this]
    exact List.map_congr_left fun a _ => Nat.add_comm _ _
  rw [this, List.filter_map]
  by_cases hx : x = 10
  · simp [hx, Function.comp_def]
  · simp [hx, Function.comp_def]

theorem posFrom_walk : ∀ (c : QString) (o : Nat), o ≤ c.length → posFrom (nlsIn c 0 o) o = walk c o
  | c, 0, _ => by
    have : nlsIn c 0 0 = [] := by simp [nlsIn]
    rw [this]
    cases c <;> rfl
  | [], o + 1, h => by simp at h
  | x :: r, o + 1, h => by
    have ih := posFrom_walk r o (by simpa using h)
    rw [nlsIn_cons, walk, ← ih]
    unfold posFrom
    cases hn : (nlsIn r 0 o).getLast? with
    | none =>
      have : nlsIn r 0 o = [] := List.getLast?_eq_none_iff.1 hn
      rw [this]
      by_cases hx : x = 10
      · simp [hx]
      · simp [hx]
    | some p =>
      have hne : nlsIn r 0 o ≠ [] := by rintro h; rw [h] at hn; simp at hn
      have hm : ((nlsIn r 0 o).map (· + 1)).getLast? = some (p + 1) := by
        rw [List.getLast?_map, hn]; rfl
      have hlen : 0 < (nlsIn r 0 o).length := List.length_pos_iff.2 hne
      by_cases hx : x = 10
      · simp only [hx, if_pos]
        rw [List.getLast?_append, hm]
        simp
      · simp only [hx, if_neg, not_false_eq_true, List.nil_append]
        rw [hm]
        simp only [List.length_map]
        rw [if_neg (by omega)]
        simp

theorem positionAt_eq (lines : List Nat) (o : Nat) :
    positionAt lines o = posFrom (lines.filter (· < o)) o := rfl

/-- With a table that is right up to an offset, the position computed for the offset is the cursor whose
offset it is. -/
theorem position_correct {c : QString} {lines : List Nat} {o : Nat} (ho : o ≤ c.length)
    (ht : lines.filter (· < o) = nlsIn c 0 o) (p : Cursor) :
    positionAt lines o = p ↔ cursorOffset c p.line p.col = some o := by
  rw [positionAt_eq, ht, posFrom_walk c o ho, walk_offset]
  exact ⟨fun h => ⟨h, ho⟩, fun h => h.1⟩

theorem walk_mono : ∀ (c : QString) (o o' : Nat), o < o' → o' ≤ c.length → (walk c o).before (walk c o')
  | [], o, o', h1, h2 => by simp at h2; omega
  | x :: r, 0, o' + 1, _, h => by
    simp only [walk]
    unfold Cursor.before
    by_cases hx : x = 10
    · simp [hx]
    · simp only [if_neg hx]
      split
      · right; simp
      · left; omega
  | x :: r, o + 1, o' + 1, h1, h2 => by
    have ih := walk_mono r o o' (by omega) (by simpa using h2)
    simp only [walk]
    unfold Cursor.before at *
    by_cases hx : x = 10
    · simp only [if_pos hx]; omega
    · simp only [if_neg hx]
      split <;> split <;> (try simp) <;> omega

theorem before_irrefl {a : Cursor} : ¬ a.before a := by unfold Cursor.before; omega
theorem before_asymm {a b : Cursor} : a.before b → ¬ b.before a := by unfold Cursor.before; omega

/-- The order of the cursors is the order of the offsets. -/
theorem cursor_order {c : QString} {p q : Cursor} {i j : Nat} (hp : cursorOffset c p.line p.col = some i)
    (hq : cursorOffset c q.line q.col = some j) : p.before q ↔ i < j := by
  obtain ⟨hp, hi⟩ := (walk_offset _ _ _ _).1 hp
  obtain ⟨hq, hj⟩ := (walk_offset _ _ _ _).1 hq
  have hp : walk c i = p := hp
  have hq : walk c j = q := hq
  rw [← hp, ← hq]
  rcases Nat.lt_trichotomy i j with h | h | h
  · exact ⟨fun _ => h, fun _ => walk_mono c i j h hj⟩
  · subst h; exact ⟨fun h => absurd h before_irrefl, fun h => by omega⟩
  · exact ⟨fun h' => absurd h' (before_asymm (walk_mono c j i h hi)), fun h' => by omega⟩
end KPhp
