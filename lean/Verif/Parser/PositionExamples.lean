import Verif.Parser.PositionProps
/-!
# Positions in the editor: concrete texts
-/
namespace KPhp
namespace PosDemo

theorem plainBreaks_of {u : CharClass} {c : QString} {php : Bool} {toks : List (Tok × Nat × Nat)} {n : Nat}
    {s s' : LState} (h : runN u c n (LState.init php) = some (toks.map Out.ofTok, s))
    (he : step u c s = some (s', .eof)) (hx : ∀ x ∈ toks, x.1.plainNl = true) : PlainBreaks u c php := by
  rintro toks' ⟨n', s1, s1', h1, h2⟩ x hxm
  obtain ⟨rfl, _⟩ := run_unique h he h1 h2
  have := hx x hxm
  simp [Tok.plainNl] at this
  rintro ⟨h3 | h3 | h3, _⟩
  · rw [this.1.1] at h3; simp at h3
  · exact this.1.2 h3
  · exact this.2 h3.1

/-- `$a =⏎ 12;` -/
def text : QString := q! "$a =" ++ [10] ++ q! " 12;"

def stream : List PTok :=
  [⟨some .VARIABLE, 0, 1, 0, 0⟩, ⟨some .ASSIGN, 3, 3, 0, 0⟩, ⟨some .LNUMBER, 6, 7, 0, 0⟩,
    ⟨some .SEMICOLON, 8, 8, 0, 0⟩, ⟨none, 0, 0, 0, 0⟩]

theorem text_tokenised : Tokenised asciiClass text true stream [4, 9] := ⟨7, by decide +kernel, by decide +kernel⟩

theorem text_plain : PlainBreaks asciiClass text true := by
  have h : ∃ s s', runN asciiClass text 6 (LState.init true) =
      some (([(.VARIABLE, 0, 2), (.WHITESPACE, 2, 3), (.ASSIGN, 3, 4), (.WHITESPACE, 4, 6), (.LNUMBER, 6, 8),
        (.SEMICOLON, 8, 9)] : List (Tok × Nat × Nat)).map Out.ofTok, s) ∧
      step asciiClass text s = some (s', .eof) := ⟨_, _, rfl, rfl⟩
  obtain ⟨s, s', h1, h2⟩ := h
  exact plainBreaks_of h1 h2 (by decide)

/-- The number `12` is reported in line 1 from column 1 to column 3, and the editor shows `12` there. -/
example : tokenRange [4, 9] ⟨some .LNUMBER, 6, 7, 0, 0⟩ = ⟨⟨1, 1⟩, ⟨1, 3⟩⟩ ∧
    textIn text ⟨⟨1, 1⟩, ⟨1, 3⟩⟩ = some (q! "12") := by decide

/-- The hypotheses of the theorems hold for it: a node from `$a` to `12`. -/
example : textIn text (findRange [4, 9] ⟨some .VARIABLE, 0, 1, 0, 0⟩ ⟨some .LNUMBER, 6, 7, 0, 0⟩) =
    some (q! "$a =" ++ [10] ++ q! " 12") :=
  range_text_partial (u := asciiClass) (php := true) asciiClass_lawful text_tokenised text_plain
    (i := 0) (j := 2) (by decide) rfl rfl rfl rfl (by decide) (by decide) (by decide)

/-- **C98 (finding).** `(⏎int)$a`: the line break inside of the cast is not recorded, so the variable,
which the editor shows in line 1 from column 4, is reported in line 0 at column 6, where the editor has
nothing. -/
theorem cast_shifts_finding : ∃ stream ent, Tokenised asciiClass ([40, 10] ++ q! "int)$a") true stream [8] ∧
    stream[1]? = some ent ∧ ent.kind = some .VARIABLE ∧ frontEdge [8] ent = ⟨0, 6⟩ ∧
    cursorOffset ([40, 10] ++ q! "int)$a") 0 6 = none ∧
    cursorOffset ([40, 10] ++ q! "int)$a") 1 4 = some ent.first :=
  ⟨[⟨some .INT_CAST, 0, 5, 0, 0⟩, ⟨some .VARIABLE, 6, 7, 0, 0⟩, ⟨none, 0, 0, 0, 0⟩], ⟨some .VARIABLE, 6, 7, 0, 0⟩,
    ⟨3, by decide +kernel, by decide +kernel⟩, rfl, rfl, by decide, by decide, by decide⟩

/-- **C98 (finding).** `a` outside of PHP code: HTML at the end of the text is reported to end one column
behind the end of the text. -/
theorem html_end_finding : ∃ ent, Tokenised asciiClass (q! "a") false [ent, ⟨none, 0, 0, 0, 0⟩] [2] ∧
    tokenRange [2] ent = ⟨⟨0, 0⟩, ⟨0, 2⟩⟩ ∧ cursorOffset (q! "a") 0 2 = none ∧
    cursorOffset (q! "a") 0 1 = some 1 :=
  ⟨⟨some .INLINE_HTML, 0, 1, 0, 0⟩, ⟨2, by decide +kernel, by decide +kernel⟩, by decide, by decide, by decide⟩

/-- `function f(){⏎ ⏎}` -/
def emptyBody : QString := q! "function f(){" ++ [10, 32, 10] ++ q! "}"

def emptyBodyStream : List PTok :=
  [⟨some .FUNCTION, 0, 7, 0, 0⟩, ⟨some .STRING, 9, 9, 0, 0⟩, ⟨some .LPAREN, 10, 10, 0, 0⟩,
    ⟨some .RPAREN, 11, 11, 0, 0⟩, ⟨some .LBRACE, 12, 12, 0, 0⟩, ⟨some .RBRACE, 16, 16, 0, 0⟩, ⟨none, 0, 0, 0, 0⟩]

/-- **C98 (finding).** The body of `function f(){⏎ ⏎}`, an empty statement list, starts at its closing brace
and ends at its opening brace: the scope made for it (duchain/builders/contextbuilder.cpp:317-319, 350-352) goes
from line 2, column 0 to line 0, column 13 and contains none of the cursors between the braces. -/
theorem empty_body_finding : Tokenised asciiClass emptyBody true emptyBodyStream [13, 15, 17] ∧
    emptyBodyStream[(emptyNode 5).1]? = some ⟨some .RBRACE, 16, 16, 0, 0⟩ ∧
    emptyBodyStream[(emptyNode 5).2]? = some ⟨some .LBRACE, 12, 12, 0, 0⟩ ∧
    findRange [13, 15, 17] ⟨some .RBRACE, 16, 16, 0, 0⟩ ⟨some .LBRACE, 12, 12, 0, 0⟩ = ⟨⟨2, 0⟩, ⟨0, 13⟩⟩ ∧
    ¬ Range.Contains ⟨⟨2, 0⟩, ⟨0, 13⟩⟩ ⟨1, 0⟩ :=
  ⟨⟨9, by decide +kernel, by decide +kernel⟩, rfl, rfl, by decide, by unfold Range.Contains Cursor.before; decide⟩
end PosDemo
end KPhp
