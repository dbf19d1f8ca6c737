import Verif.Lexer.Lexemes
/-!
# The lexical grammar with interpolated strings, heredocs and nowdocs

`Lexemes` describes the elements of plain code.  Here are the strings that contain variables: `"…"` with an
interpolation in it, `` `…` ``, heredocs, and nowdocs.  `Place` says what surrounds a position of the text;
`Element` describes one lexical element at a place by the text alone; `Source` a text as a sequence of
elements.  The lexer reads every text that has such a description as exactly the tokens of its elements.
-/
namespace KPhp.Strings
open KPhp

/-! ## Specification -/

/-- What delimits a string with interpolations: `"`, `` ` ``, or the identifier of a heredoc. -/
inductive Delim where
  | double | back
  | here (id : QString)
  deriving DecidableEq, Repr

/-- A position of the text: outside `<?php … ?>`; in code; in the code of an interpolation (or in a brace in
it), with what it belongs to; in the text of a string, with the code around the string; directly behind a
variable in the text of a string; in a nowdoc. -/
inductive Place where
  | html | code
  | inner (around : Place)
  | text (d : Delim) (around : Place)
  | var (d : Delim) (around : Place)
  | nowdoc (id : QString)
  deriving DecidableEq, Repr

/-- The place of plain code and of the text outside it. -/
def sidePlace : Side → Place
  | .html => .html
  | .code => .code

/-- A place where code is read. -/
def CodePlace (p : Place) : Prop := p = .code ∨ ∃ q, p = .inner q

/-- A place in the text of a string. -/
def InString (d : Delim) (p place : Place) : Prop := place = .text d p ∨ place = .var d p

/-- The string with the delimiter `d` ends here: with its quote, or with its identifier and a line break behind
it, or `;` and a line break. -/
def Ends : Delim → QString → Prop
  | .double, s => chr s 0 = c! '"'
  | .back, s => chr s 0 = c! '`'
  | .here id, s => ∃ r, s = id ++ r ∧ (chr r 0 = 10 ∨ (chr r 0 = c! ';' ∧ chr r 1 = 10))

/-- `$name` begins here. -/
def VarAhead (u : CharClass) (s : QString) : Prop := chr s 0 = c! '$' ∧ nameStart u (chr s 1) = true

/-- `${` begins here. -/
def DollarBrace (s : QString) : Prop := chr s 0 = c! '$' ∧ chr s 1 = c! '{'

/-- What ends a run of plain text: `$name`, `${`, or `{$` before a character of a name. -/
def Interpolates (u : CharClass) (s : QString) : Prop :=
  VarAhead u s ∨ DollarBrace s ∨ (chr s 0 = c! '{' ∧ chr s 1 = c! '$' ∧ identChar u (chr s 2) = true)

/-- In a string that ends with `"`, the text up to the quote contains `$name` or `${` that is not escaped. -/
inductive HasVar (u : CharClass) : QString → Prop
  | here {s : QString} : VarAhead u s ∨ DollarBrace s → HasVar u s
  | char {ch : QChar} {r : QString} : ch ≠ c! '"' → ch ≠ c! '\\' → HasVar u r → HasVar u (ch :: r)
  | pair {ch : QChar} {r : QString} : HasVar u r → HasVar u (c! '\\' :: ch :: r)

/-- `Run u d x rest`: `x` is plain text of a string, up to an interpolation, the end of the string or the end of the
text.  The line break before the identifier that ends a heredoc still belongs to it. -/
inductive Run (u : CharClass) (d : Delim) : QString → QString → Prop
  | stop {rest : QString} : Interpolates u rest → Run u d [] rest
  | quote {rest : QString} : (∀ id, d ≠ .here id) → Ends d rest → Run u d [] rest
  | eof : Run u d [] []
  | lastLine {id rest : QString} : d = .here id → Ends d rest → Run u d [10] rest
  | char {ch : QChar} {x rest : QString} : ch ≠ c! '\\' → ¬ Interpolates u (ch :: x ++ rest) →
      ((∀ id, d ≠ .here id) → ¬ Ends d (ch :: x ++ rest)) →
      (∀ id, d = .here id → ch = 10 → ¬ Ends d (x ++ rest)) → Run u d x rest → Run u d (ch :: x) rest
  | pair {ch : QChar} {x rest : QString} :
      (∀ id, d = .here id → ch = 10 → ¬ Ends d (x ++ rest)) → Run u d x rest → Run u d (c! '\\' :: ch :: x) rest

/-- The text of a nowdoc up to and with the line break before its identifier, or to the end of the text. -/
inductive NowText (id : QString) : QString → QString → Prop
  | last {rest : QString} : Ends (.here id) rest → NowText id [10] rest
  | eof : NowText id [] []
  | char {ch : QChar} {x rest : QString} : (ch = 10 → ¬ Ends (.here id) (x ++ rest)) → NowText id x rest →
      NowText id (ch :: x) rest

/-- The identifier of a heredoc or nowdoc: letters, digits and underscores, the first not a digit. -/
def HereName (u : CharClass) (id : QString) : Prop :=
  id ≠ [] ∧ (∀ ch ∈ id, u.isDigit ch = true ∨ u.isLetter ch = true ∨ ch = c! '_') ∧ u.isDigit (chr id 0) = false

/-- `x` opens a heredoc, or a nowdoc if `nd`: `<<<`, blanks, the identifier — bare or in double quotes, in single quotes
for a nowdoc — and a line break. -/
def HereLine (u : CharClass) (id : QString) (nd : Bool) (x : QString) : Prop :=
  HereName u id ∧ ∃ sp, (∀ ch ∈ sp, ch = c! ' ' ∨ ch = 9) ∧
    ((nd = false ∧ x = q! "<<<" ++ sp ++ id ++ [10]) ∨ (nd = false ∧ x = q! "<<<" ++ sp ++ q! "\"" ++ id ++ q! "\"" ++ [10]) ∨
     (nd = true ∧ x = q! "<<<" ++ sp ++ q! "'" ++ id ++ q! "'" ++ [10]))

/-- The token of a quote. -/
inductive QuoteTok : Delim → QString → Tok → Prop
  | double : QuoteTok .double (q! "\"") .DOUBLE_QUOTE
  | back : QuoteTok .back (q! "`") .BACKTICK

/-- `Element u place x ts rest place'`: at `place`, the text `x ++ rest` begins with the element `x`, which stands for
the tokens `ts` and is followed by text at `place'`. -/
inductive Element (u : CharClass) : Place → QString → List Tok → QString → Place → Prop
  /-- plain code and the text outside it -/
  | plain {m m' : Side} {x rest : QString} {ts : List Tok} : Lexeme u m x ts rest m' →
      Element u (sidePlace m) x ts rest (sidePlace m')
  /-- the code of an interpolation -/
  | inner {p : Place} {x rest : QString} {ts : List Tok} : Lexeme u .code x ts rest .code → chr x 0 ≠ c! '{' →
      chr x 0 ≠ c! '}' → Element u (.inner p) x ts rest (.inner p)
  | enter {p : Place} {rest : QString} : Element u (.inner p) (q! "{") [.LBRACE] rest (.inner (.inner p))
  | leave {p : Place} {rest : QString} : Element u (.inner p) (q! "}") [.RBRACE] rest p
  /-- the beginning and the end of a string -/
  | openDouble {p : Place} {rest : QString} : CodePlace p → HasVar u rest →
      Element u p (q! "\"") [.DOUBLE_QUOTE] rest (.text .double p)
  | openBack {p : Place} {rest : QString} : CodePlace p → Element u p (q! "`") [.BACKTICK] rest (.text .back p)
  | openHere {id x rest : QString} : HereLine u id false x → rest ≠ [] →
      Element u .code x [.START_HEREDOC] rest (.text (.here id) .code)
  | openNow {id x rest : QString} : HereLine u id true x → rest ≠ [] →
      Element u .code x [.START_NOWDOC] rest (.nowdoc id)
  | close {d : Delim} {p place : Place} {x rest : QString} {t : Tok} : InString d p place → QuoteTok d x t →
      Element u place x [t] rest p
  | closeHere {p place : Place} {id rest : QString} : InString (.here id) p place → Ends (.here id) (id ++ rest) →
      Element u place id [.END_HEREDOC] rest p
  | closeNow {id rest : QString} : Ends (.here id) (id ++ rest) → Element u (.nowdoc id) id [.END_NOWDOC] rest .code
  /-- plain text of a string -/
  | run {d : Delim} {p : Place} {x rest : QString} : x ≠ [] → Run u d x rest → ¬ Ends d (x ++ rest) →
      (x ++ rest).take 3 ≠ q! "{${" → Element u (.text d p) x [.ENCAPSED_AND_WHITESPACE] rest (.text d p)
  | runVar {d : Delim} {p : Place} {x rest : QString} : x ≠ [] → Run u d x rest → ¬ Ends d (x ++ rest) →
      chr x 0 ≠ c! '[' → (∀ n r, x ++ rest = q! "->" ++ n :: r → nameStart u n = false) →
      Element u (.var d p) x [.ENCAPSED_AND_WHITESPACE] rest (.text d p)
  | nothing {d : Delim} {p : Place} {rest : QString} : Interpolates u rest → ¬ VarAhead u rest →
      Element u (.var d p) [] [.ENCAPSED_AND_WHITESPACE] rest (.text d p)
  | nowText {id x rest : QString} : x ≠ [] → NowText id x rest → ¬ Ends (.here id) (x ++ rest) →
      Element u (.nowdoc id) x [.STRING] rest (.nowdoc id)
  /-- interpolations -/
  | named {d : Delim} {p place : Place} {w rest : QString} : InString d p place → w ≠ [] →
      (∀ ch ∈ w, identChar u ch = true) → u.isDigit (chr w 0) = false → identChar u (chr rest 0) = false →
      Element u place (q! "$" ++ w) [.VARIABLE] rest (.var d p)
  | index {d : Delim} {p : Place} {ds w rest : QString} : (∀ ch ∈ ds, u.isDigit ch = true) →
      (w ≠ [] → u.isDigit (chr w 0) = false) → c! ']' ∉ w →
      Element u (.var d p) (q! "[" ++ ds ++ w ++ q! "]")
        ([.LBRACKET] ++ (if ds = [] then [] else [.NUM_STRING]) ++ (if w = [] then [] else [.STRING]) ++ [.RBRACKET])
        rest (.text d p)
  | member {d : Delim} {p : Place} {w rest : QString} : w ≠ [] → (∀ ch ∈ w, identChar u ch = true) →
      u.isDigit (chr w 0) = false → identChar u (chr rest 0) = false →
      Element u (.var d p) (q! "->" ++ w) [.OBJECT_OPERATOR, .STRING] rest (.text d p)
  | dollarName {d : Delim} {p : Place} {w rest : QString} : w ≠ [] → (∀ ch ∈ w, identChar u ch = true) →
      u.isDigit (chr w 0) = false → identChar u (chr rest 0) = false →
      Element u (.text d p) (q! "${" ++ w) [.DOLLAR_OPEN_CURLY_BRACES, .STRING_VARNAME] rest (.inner (.text d p))
  | dollarBare {d : Delim} {p : Place} {rest : QString} : nameStart u (chr rest 0) = false →
      Element u (.text d p) (q! "${") [.DOLLAR_OPEN_CURLY_BRACES] rest (.text d p)
  | curly {d : Delim} {p : Place} {rest : QString} : VarAhead u rest ∨ DollarBrace rest →
      Element u (.text d p) (q! "{") [.CURLY_OPEN] rest (.inner (.text d p))

/-- `Source u place text ts`: the text, at `place`, is a sequence of elements that stand for the tokens `ts`. -/
inductive Source (u : CharClass) : Place → QString → List Tok → Prop
  | nil {place : Place} : Source u place [] []
  | cons {place place' : Place} {x rest : QString} {ts ts' : List Tok} : Element u place x ts rest place' →
      Source u place' rest ts' → Source u place (x ++ rest) (ts ++ ts')

/-! ## The branch for strings -/

section
variable {u : CharClass} {c : QString} {b : Nat} {ident : QString}

/-- The modes in a string, directly behind a variable if `v`. -/
def strStack (v : Bool) (m s : St) (r : List St) : List St := if v then .StrVar :: m :: s :: r else m :: s :: r

/-- The string ends at `b`. -/
def Closing (c ident : QString) (m : St) (b : Nat) : Prop :=
  (m = .Str ∧ chr c b = 34) ∨ (m = .Backtick ∧ chr c b = 96) ∨ (m = .Heredoc ∧ HereEndSpec c ident b (b + ident.length))

theorem inMode_eq {v : Bool} {m s x : St} {r : List St} (hx : isStrMode x = true) (hs : s = .Default ∨ s = .StrVarCurly) :
    inMode (strStack v m s r) x = some (m == x) := by
  cases v
  · rcases hs with rfl | rfl <;> revert hx <;> cases x <;> simp [isStrMode, inMode, strStack, orO] <;> cases m <;> rfl
  · revert hx; cases x <;> simp [isStrMode, inMode, strStack, orO] <;> rfl

theorem leave_eq {v : Bool} {m s : St} {r : List St} (hm : isStrMode m = true) :
    leaveStr (strStack v m s r) = some (s :: r) := by
  cases v
  · have : m ≠ .StrVar := by rintro rfl; exact absurd hm (by decide)
    simp [leaveStr, popStrVar, strStack, this, popSt]
  · simp [leaveStr, popStrVar, strStack, popSt]

theorem pop_eq {v : Bool} {m s : St} {r : List St} (hm : isStrMode m = true) :
    popStrVar (strStack v m s r) = some (m :: s :: r) := by
  cases v
  · have : m ≠ .StrVar := by rintro rfl; exact absurd hm (by decide)
    simp [popStrVar, strStack, this]
  · simp [popStrVar, strStack, popSt]

/-- The tests of the string branch for the end of the string. -/
theorem close_tests {v : Bool} {m s : St} {r : List St} (hb : b < c.length) (hs : s = .Default ∨ s = .StrVarCurly)
    (hid : m = .Heredoc → ident ≠ []) :
    (inMode (strStack v m s r) .Str &&? isAt c b (c! '"')) = some (m == .Str && chr c b == 34) ∧
    (inMode (strStack v m s r) .Backtick &&? isAt c b (c! '`')) = some (m == .Backtick && chr c b == 96) ∧
    ∃ y, (inMode (strStack v m s r) .Heredoc &&? hereEnd c ident b) = some y ∧
      (y = true ↔ m = .Heredoc ∧ HereEndSpec c ident b (b + ident.length)) := by
  refine ⟨andO_some (inMode_eq rfl hs) fun _ => isAt_some (by omega), andO_some (inMode_eq rfl hs) fun _ => isAt_some (by omega), ?_⟩
  by_cases hm : m = .Heredoc
  · obtain ⟨x, h1, h2⟩ := hereEnd_eq (c := c) (hid hm) b
    exact ⟨x, by rw [inMode_eq rfl hs, hm, h1]; rfl, by simp [h2, hm]⟩
  · refine ⟨false, ?_, by simp [hm]⟩
    rw [inMode_eq rfl hs]
    have : (m == St.Heredoc) = false := by simp [hm]
    rw [this]; rfl

/-- What the string branch does where no variable begins and the string does not end. -/
def strOther (u : CharClass) (c : QString) (b : Nat) (v : Bool) (below : List St) (m : St) (ident : QString) : Option Res :=
  if (!v && (chr c b == 36 && chr c (b + 1) == 123)) = true then
    some ⟨.DOLLAR_OPEN_CURLY_BRACES, b + 2, if identStart u (chr c (b + 2)) then .StrVarname :: below else below, ident, []⟩
  else if (v && chr c b == 91) = true then some ⟨.LBRACKET, b + 1, .StrVarBracket :: .StrVar :: below, ident, []⟩
  else if (!v && (chr c b == 123 && (chr c (b + 1) == 36 && (identStart u (chr c (b + 2)) || chr c (b + 2) == 123)))) = true then
    some ⟨.CURLY_OPEN, b + 1, .StrVarCurly :: below, ident, []⟩
  else if (v && (chr c b == 45 && (chr c (b + 1) == 62 && identStart u (chr c (b + 2))))) = true then
    some ⟨.OBJECT_OPERATOR, b + 2, .StrVarObjOp :: .StrVar :: below, ident, []⟩
  else (encLoop u c m ident b (c.length - b) b).bind fun e => some ⟨.ENCAPSED_AND_WHITESPACE, e, below, ident, nlsIn c b e⟩

theorem str_open {v : Bool} {m s : St} {r : List St} (hb : b < c.length) (hm : isStrMode m = true)
    (hs : s = .Default ∨ s = .StrVarCurly) (hid : m = .Heredoc → ident ≠ []) (h : ¬ Closing c ident m b) :
    strBranch u c b (strStack v m s r) ident = (processVariable u c b).bind fun w => match w with
      | some e => some ⟨.VARIABLE, e, .StrVar :: m :: s :: r, ident, []⟩
      | none => strOther u c b v (m :: s :: r) m ident := by
  obtain ⟨t1, t2, y, t3, hy⟩ := close_tests (v := v) (r := r) (c := c) (b := b) hb hs hid
  have hsv : m ≠ .StrVar := by rintro rfl; exact absurd hm (by decide)
  unfold strBranch
  simp only [Option.bind_eq_bind]
  have e0 : (strStack v m s r)[0]? = some (if v then .StrVar else m) := by cases v <;> rfl
  rw [e0, Option.bind_some, t1, Option.bind_some, if_neg (by
    intro hh; simp at hh; exact h (Or.inl hh)), t2, Option.bind_some, if_neg (by
    intro hh; simp at hh; exact h (Or.inr (Or.inl hh))), t3, Option.bind_some, if_neg (by
    intro hh; exact h (Or.inr (Or.inr (hy.1 hh))))]
  congr 1
  funext w
  cases w with
  | some e =>
    dsimp only
    cases v <;> simp [strStack, hsv]
  | none =>
    dsimp only
    unfold strOther
    have htop : ((if v then St.StrVar else m) != St.StrVar) = !v := by cases v <;> simp [hsv]
    have htop' : ((if v then St.StrVar else m) == St.StrVar) = v := by cases v <;> simp [hsv]
    rw [htop, htop']
    have a1 : ((some (!v)) &&? isAt c b (c! '$') &&? isAt c (b + 1) (c! '{')) = some (!v && (chr c b == 36 && chr c (b + 1) == 123)) :=
      andO_some rfl fun _ => andO_some (isAt_some (by omega)) fun _ => isAt_some (by omega)
    have a2 : ((some v) &&? isAt c b (c! '[')) = some (v && chr c b == 91) := andO_some rfl fun _ => isAt_some (by omega)
    have a3 : ((some (!v)) &&? curlyOpenAt u c b) =
        some (!v && (chr c b == 123 && (chr c (b + 1) == 36 && (identStart u (chr c (b + 2)) || chr c (b + 2) == 123)))) :=
      andO_some rfl fun _ => andO_some (isAt_some (by omega)) fun _ => andO_some (isAt_some (by omega)) fun hh => by
        have := lt_of_beq hh (by decide)
        exact testAt_some (by omega)
    have a4 : ((some v) &&? arrowAt u c b) =
        some (v && (chr c b == 45 && (chr c (b + 1) == 62 && identStart u (chr c (b + 2))))) :=
      andO_some rfl fun _ => andO_some (isAt_some (by omega)) fun _ => andO_some (isAt_some (by omega)) fun hh => by
        have := lt_of_beq hh (by decide)
        exact testAt_some (by omega)
    rw [a1, Option.bind_some]
    split
    · rename_i hh
      simp at hh
      have hl := lt_of_chr_eq hh.2.2 (by decide)
      rw [testAt_some (by omega), Option.bind_some]
      simp [strStack, hh.1]
    · rw [a2, Option.bind_some]
      split
      · rename_i hh
        simp at hh
        simp [strStack, hh.1]
      · rw [a3, Option.bind_some]
        split
        · rename_i hh
          simp at hh
          simp [strStack, hh.1]
        · rw [a4, Option.bind_some]
          split
          · rename_i hh
            simp at hh
            simp [strStack, hh.1]
          · rw [pop_eq hm]
            simp

theorem str_close {v : Bool} {m s : St} {r : List St} (hb : b < c.length) (hm : isStrMode m = true)
    (hs : s = .Default ∨ s = .StrVarCurly) (hid : m = .Heredoc → ident ≠ []) (h : Closing c ident m b) :
    strBranch u c b (strStack v m s r) ident =
      some (if m = .Str then ⟨.DOUBLE_QUOTE, b + 1, s :: r, ident, []⟩
        else if m = .Backtick then ⟨.BACKTICK, b + 1, s :: r, ident, []⟩
        else ⟨.END_HEREDOC, b + ident.length, s :: r, ident, []⟩) := by
  obtain ⟨t1, t2, y, t3, hy⟩ := close_tests (v := v) (r := r) (c := c) (b := b) hb hs hid
  unfold strBranch
  simp only [Option.bind_eq_bind]
  have e0 : (strStack v m s r)[0]? = some (if v then .StrVar else m) := by cases v <;> rfl
  rw [e0, Option.bind_some, t1, Option.bind_some, leave_eq hm]
  rcases h with ⟨rfl, h⟩ | ⟨rfl, h⟩ | ⟨rfl, h⟩
  · simp [h]
  · rw [if_neg (by simp), t2]; simp [h]
  · rw [if_neg (by simp), t2, Option.bind_some, if_neg (by simp), t3, Option.bind_some, if_pos (hy.2 ⟨rfl, h⟩)]
    simp

/-! ## Plain text -/

theorem esc_char {i : Nat} (h : chr c i ≠ 92) : ¬ Escaped c (i + 1) := by
  unfold Escaped bsBefore; simp [h]

theorem esc_pair {i : Nat} (h : ¬ Escaped c i) (h0 : chr c i = 92) : Escaped c (i + 1) ∧ ¬ Escaped c (i + 2) := by
  unfold Escaped at h
  have h1 : bsBefore c (i + 1) = bsBefore c i + 1 := by simp [bsBefore, h0]
  constructor
  · unfold Escaped; rw [h1]; omega
  · unfold Escaped
    by_cases h2 : chr c (i + 1) = 92
    · have : bsBefore c (i + 2) = bsBefore c (i + 1) + 1 := by
        show (if chr c (i + 1) = 92 then bsBefore c (i + 1) + 1 else 0) = _
        rw [if_pos h2]
      rw [this, h1]; omega
    · have : bsBefore c (i + 2) = 0 := by
        show (if chr c (i + 1) = 92 then bsBefore c (i + 1) + 1 else 0) = _
        rw [if_neg h2]
      rw [this]; omega

/-- The mode of a delimiter. -/
def Delim.mode : Delim → St
  | .double => .Str
  | .back => .Backtick
  | .here _ => .Heredoc

theorem mode_str (d : Delim) : isStrMode d.mode = true := by cases d <;> rfl

/-- What the lexer remembers of a delimiter. -/
def Delim.keeps (d : Delim) (ident : QString) : Prop := ∀ id, d = .here id → ident = id

/-- A delimiter is well formed. -/
def Delim.ok (u : CharClass) (d : Delim) : Prop := ∀ id, d = .here id → HereName u id

theorem ident_ne {d : Delim} (hk : d.keeps ident) (ho : d.ok u) : d.mode = .Heredoc → ident ≠ [] := by
  intro h
  cases d with
  | here id => rw [hk id rfl]; exact (ho id rfl).1
  | double => exact absurd h (by decide)
  | back => exact absurd h (by decide)

theorem ends_here {pre s id : QString} :
    Ends (.here id) s ↔ HereEndSpec (pre ++ s) id pre.length (pre.length + id.length) := by
  constructor
  · rintro ⟨r, rfl, h⟩
    refine ⟨slice_at, rfl, by simp, ?_⟩
    rw [chr_at0, show pre.length + id.length + 1 = pre.length + id.length + 1 from rfl, chr_at]
    exact h
  · rintro ⟨h1, _, h2, h3⟩
    have hs : s.take id.length = id := by
      have : slice (pre ++ s) pre.length (pre.length + id.length) = s.take id.length := by unfold slice; simp
      rw [← this]; exact h1
    obtain ⟨r, hr⟩ : ∃ r, s = id ++ r := ⟨s.drop id.length, by
      have := List.take_append_drop id.length s
      rw [hs] at this; exact this.symm⟩
    refine ⟨r, hr, ?_⟩
    subst hr
    rw [chr_at0, chr_at] at h3
    exact h3

theorem ends_closing {pre s : QString} {d : Delim} (hk : d.keeps ident) :
    Ends d s ↔ Closing (pre ++ s) ident d.mode pre.length := by
  have e0 : chr (pre ++ s) pre.length = chr s 0 := chr_pre pre s 0
  cases d with
  | double => unfold Closing Ends Delim.mode; rw [e0]; simp
  | back => unfold Closing Ends Delim.mode; rw [e0]; simp
  | here id =>
    have : ident = id := hk id rfl
    subst this
    rw [ends_here (pre := pre)]
    unfold Closing Delim.mode; simp

theorem interp_iff {pre s : QString} : Interpolates u s ↔
    ((chr (pre ++ s) pre.length == 36 && chr (pre ++ s) (pre.length + 1) == 123) ||
      ((chr (pre ++ s) pre.length == 123 && (chr (pre ++ s) (pre.length + 1) == 36 && validIdent u (chr (pre ++ s) (pre.length + 2)))) ||
       (chr (pre ++ s) pre.length == 36 && identStart u (chr (pre ++ s) (pre.length + 1))))) = true := by
  rw [show chr (pre ++ s) pre.length = chr s 0 from chr_pre pre s 0, chr_pre, chr_pre]
  unfold Interpolates VarAhead DollarBrace
  simp [validIdent_eq, identStart_eq]
  constructor
  · rintro (h | h | h)
    · exact Or.inr (Or.inr h)
    · exact Or.inl h
    · exact Or.inr (Or.inl h)
  · rintro (h | h | h)
    · exact Or.inr (Or.inl h)
    · exact Or.inr (Or.inr h)
    · exact Or.inl h

/-- One round of the loop over plain text. -/
theorem enc_step {k : Nat} {pre s : QString} {d : Delim} {esc : Bool} (hc : c = pre ++ s) (hs : s ≠ []) (hk : d.keeps ident) (ho : d.ok u)
    (hesc : escaped c pre.length b = some esc) :
    (esc = false → Interpolates u s → encLoop u c d.mode ident b (k + 1) pre.length = some pre.length) ∧
    (esc = false → (∀ id, d ≠ .here id) → Ends d s → encLoop u c d.mode ident b (k + 1) pre.length = some pre.length) ∧
    ((esc = true ∨ ¬ Interpolates u s) → (∀ id, d = .here id → chr s 0 = 10 ∧ Ends d s.tail) → (∃ id, d = .here id) →
      encLoop u c d.mode ident b (k + 1) pre.length = some (pre.length + 1)) ∧
    ((esc = true ∨ ¬ Interpolates u s) → (esc = true ∨ ((∀ id, d ≠ .here id) → ¬ Ends d s)) →
      (∀ id, d = .here id → chr s 0 = 10 → ¬ Ends d s.tail) →
      encLoop u c d.mode ident b (k + 1) pre.length = encLoop u c d.mode ident b k (pre.length + 1)) := by
  have hl : pre.length < c.length := by rw [hc]; have := List.length_pos_iff.2 hs; simp; omega
  have e0 : chr c pre.length = chr s 0 := by rw [hc]; exact chr_pre pre s 0
  have t1 := andO_some (notO_some hesc) fun _ => encBreak_eq (u := u) (c := c) (i := pre.length) hl
  have t2 : ((some (d.mode == .Str)) &&? isAt c pre.length (c! '"') &&? notO (escaped c pre.length b)) =
      some ((d.mode == .Str) && (chr c pre.length == 34 && !esc)) :=
    andO_some rfl fun _ => andO_some (isAt_some (by omega)) fun _ => notO_some hesc
  have t3 : ((some (d.mode == .Backtick)) &&? isAt c pre.length (c! '`') &&? notO (escaped c pre.length b)) =
      some ((d.mode == .Backtick) && (chr c pre.length == 96 && !esc)) :=
    andO_some rfl fun _ => andO_some (isAt_some (by omega)) fun _ => notO_some hesc
  have t4 : ∃ y, ((some (d.mode == .Heredoc)) &&? isAt c pre.length 10 &&? hereEnd c ident (pre.length + 1)) = some y ∧
      (y = true ↔ (∃ id, d = .here id) ∧ chr s 0 = 10 ∧ Ends d s.tail) := by
    cases d with
    | double => exact ⟨false, rfl, by simp⟩
    | back => exact ⟨false, rfl, by simp⟩
    | here id =>
      have hid : ident = id := hk id rfl
      obtain ⟨x, h1, h2⟩ := hereEnd_eq (c := c) (ident := ident) (by rw [hid]; exact (ho id rfl).1) (pre.length + 1)
      refine ⟨chr c pre.length == 10 && x, ?_, ?_⟩
      · exact andO_some (x := true) rfl fun _ => andO_some (isAt_some (c := c) (i := pre.length) (x := 10) (by omega)) fun _ => h1
      rw [e0]
      have : Ends (.here id) s.tail ↔ HereEndSpec c ident (pre.length + 1) (pre.length + 1 + ident.length) := by
        obtain ⟨a, r, rfl⟩ := List.exists_cons_of_ne_nil hs
        rw [hid, ends_here (pre := pre ++ [a])]
        rw [hc]; simp
      simp [h2, this]
  obtain ⟨y, t4, hy⟩ := t4
  have hi := interp_iff (u := u) (pre := pre) (s := s)
  rw [← hc] at hi
  have he : (∀ id, d ≠ .here id) → (Ends d s ↔ ((d.mode == .Str) && (chr c pre.length == 34)) = true ∨ ((d.mode == .Backtick) && (chr c pre.length == 96)) = true) := by
    intro hd
    rw [e0]
    cases d with
    | double => simp [Ends, Delim.mode]
    | back => simp [Ends, Delim.mode]
    | here id => exact absurd rfl (hd id)
  have hstep : ∀ R, encLoop u c d.mode ident b k (pre.length + 1) = R → encLoop u c d.mode ident b (k + 1) pre.length =
      if (!esc && ((chr c pre.length == 36 && chr c (pre.length + 1) == 123) ||
      ((chr c pre.length == 123 && (chr c (pre.length + 1) == 36 && validIdent u (chr c (pre.length + 2)))) ||
       (chr c pre.length == 36 && identStart u (chr c (pre.length + 1)))))) = true then some pre.length
      else if ((d.mode == .Str) && (chr c pre.length == 34 && !esc)) = true then some pre.length
      else if ((d.mode == .Backtick) && (chr c pre.length == 96 && !esc)) = true then some pre.length
      else if y = true then some (pre.length + 1) else R := by
    intro R hR
    unfold encLoop
    rw [if_pos hl]
    simp only [Option.bind_eq_bind]
    rw [t1, Option.bind_some, t2, Option.bind_some, t3, Option.bind_some, t4, Option.bind_some, hR]
  rw [hstep _ rfl]
  refine ⟨fun h1 h2 => ?_, fun h1 h2 h3 => ?_, fun h1 h2 h3 => ?_, fun h1 h2 h3 => ?_⟩
  · rw [if_pos]
    rw [hi.1 h2, h1]; rfl
  · by_cases hb' : Interpolates u s
    · rw [if_pos (by rw [hi.1 hb', h1]; rfl)]
    · rcases (he h2).1 h3 with h | h
      · split
        · rfl
        · rw [if_pos]; simp at h; simp [h.1, h.2, h1]
      · split
        · rfl
        · split
          · rfl
          · rw [if_pos]; simp at h; simp [h.1, h.2, h1]
  · obtain ⟨id, hd⟩ := h3
    have hm : d.mode = .Heredoc := by rw [hd]; rfl
    rw [if_neg, if_neg (by simp [hm]), if_neg (by simp [hm]), if_pos (hy.2 ⟨⟨id, hd⟩, h2 id hd⟩)]
    rcases h1 with h1 | h1
    · rw [h1]; simp
    · intro hh
      rw [Bool.and_eq_true] at hh
      exact h1 (hi.2 hh.2)
  · rw [if_neg, if_neg, if_neg, if_neg]
    · intro hh
      obtain ⟨⟨id, hd⟩, a, b⟩ := hy.1 hh
      exact h3 id hd a b
    · intro hh
      rw [Bool.and_eq_true, Bool.and_eq_true] at hh
      rcases h2 with h2 | h2
      · rw [h2] at hh; simp at hh
      · have hd : ∀ id, d ≠ .here id := by rintro id rfl; simp [Delim.mode] at hh
        exact h2 hd ((he hd).2 (Or.inr (by rw [hh.1, hh.2.1]; rfl)))
    · intro hh
      rw [Bool.and_eq_true, Bool.and_eq_true] at hh
      rcases h2 with h2 | h2
      · rw [h2] at hh; simp at hh
      · have hd : ∀ id, d ≠ .here id := by rintro id rfl; simp [Delim.mode] at hh
        exact h2 hd ((he hd).2 (Or.inl (by rw [hh.1, hh.2.1]; rfl)))
    · rcases h1 with h1 | h1
      · rw [h1]; simp
      · intro hh
        rw [Bool.and_eq_true] at hh
        exact h1 (hi.2 hh.2)

/-- The loop over plain text reads exactly a run. -/
theorem enc_run {d : Delim} {x rest : QString} (h : Run u d x rest) (hk : d.keeps ident) (ho : d.ok u)
    (ha : ∃ j, j < b ∧ chr c j ≠ 92) : ∀ pre, c = pre ++ (x ++ rest) → b ≤ pre.length → ¬ Escaped c pre.length →
    encLoop u c d.mode ident b (c.length - pre.length) pre.length = some (pre.length + x.length) ∧
      ¬ Escaped c (pre.length + x.length) := by
  have hesc : ∀ i, b ≤ i → i ≤ c.length → escaped c i b = some (decide (b < i) && decide (Escaped c i)) := by
    intro i h1 h2
    rw [escaped_eq (by omega) ha, bs_decide]
  have hesc0 : ∀ i, b ≤ i → i ≤ c.length → ¬ Escaped c i → escaped c i b = some false := by
    intro i h1 h2 h3
    rw [hesc i h1 h2]; simp [h3]
  induction h with
  | @stop rest h =>
    intro pre hc hb hn
    have hne : rest ≠ [] := by rintro rfl; rcases h with ⟨h, _⟩ | ⟨h, _⟩ | ⟨h, _⟩ <;> exact absurd h (by decide)
    have hl : pre.length < c.length := by rw [hc]; have := List.length_pos_iff.2 hne; simp; omega
    obtain ⟨k, hkk⟩ : ∃ k, c.length - pre.length = k + 1 := ⟨c.length - pre.length - 1, by omega⟩
    rw [hkk]
    exact ⟨(enc_step (k := k) (by simpa using hc) hne hk ho (hesc0 _ hb (by omega) hn)).1 rfl h, hn⟩
  | @quote rest h1 h2 =>
    intro pre hc hb hn
    have hne : rest ≠ [] := by
      rintro rfl
      cases d with
      | double => exact absurd (show (0 : Nat) = 34 from h2) (by decide)
      | back => exact absurd (show (0 : Nat) = 96 from h2) (by decide)
      | here id => exact absurd rfl (h1 id)
    have hl : pre.length < c.length := by rw [hc]; have := List.length_pos_iff.2 hne; simp; omega
    obtain ⟨k, hkk⟩ : ∃ k, c.length - pre.length = k + 1 := ⟨c.length - pre.length - 1, by omega⟩
    rw [hkk]
    exact ⟨(enc_step (k := k) (by simpa using hc) hne hk ho (hesc0 _ hb (by omega) hn)).2.1 rfl h1 h2, hn⟩
  | eof =>
    intro pre hc hb hn
    have : c.length - pre.length = 0 := by rw [hc]; simp
    rw [this]
    refine ⟨?_, hn⟩
    unfold encLoop
    rw [if_neg (by omega)]; rfl
  | @lastLine id rest h1 h2 =>
    intro pre hc hb hn
    have hl : pre.length < c.length := by rw [hc]; simp
    obtain ⟨k, hkk⟩ : ∃ k, c.length - pre.length = k + 1 := ⟨c.length - pre.length - 1, by omega⟩
    rw [hkk]
    have e0 : chr c pre.length = 10 := by rw [hc]; exact chr_first (x := [10]) (by simp)
    refine ⟨(enc_step (k := k) hc (by simp) hk ho (hesc0 _ hb (by omega) hn)).2.2.1 (Or.inr ?_) (fun _ _ => ⟨rfl, h2⟩) ⟨id, h1⟩,
      esc_char (by rw [e0]; decide)⟩
    rintro (⟨h, _⟩ | ⟨h, _⟩ | ⟨h, _⟩) <;> exact absurd (show (10 : Nat) = _ from h) (by decide)
  | @char ch x rest h1 h2 h3 h4 hr ih =>
    intro pre hc hb hn
    have hl : pre.length < c.length := by rw [hc]; simp
    obtain ⟨k, hkk⟩ : ∃ k, c.length - pre.length = k + 1 := ⟨c.length - pre.length - 1, by omega⟩
    have e0 : chr c pre.length = ch := by rw [hc]; exact chr_first (x := ch :: x) (by simp)
    rw [hkk, (enc_step (k := k) hc (by simp) hk ho (hesc0 _ hb (by omega) hn)).2.2.2 (Or.inr h2) (Or.inr h3) h4]
    have := ih (pre ++ [ch]) (by rw [hc]; simp) (by simp; omega) (by simp; exact esc_char (by rw [e0]; exact h1))
    simp only [List.length_append, List.length_cons, List.length_nil, Nat.zero_add] at this ⊢
    rw [show c.length - (pre.length + 1) = k by omega] at this
    rw [show pre.length + (x.length + 1) = pre.length + 1 + x.length by omega]
    exact this
  | @pair ch x rest h4 hr ih =>
    intro pre hc hb hn
    have hl : pre.length + 1 < c.length := by rw [hc]; simp
    obtain ⟨k, hkk⟩ : ∃ k, c.length - pre.length = k + 1 + 1 := ⟨c.length - pre.length - 2, by omega⟩
    have e0 : chr c pre.length = 92 := by rw [hc]; exact chr_first (x := 92 :: ch :: x) (by simp)
    obtain ⟨p1, p2⟩ := esc_pair hn e0
    rw [hkk, (enc_step (k := k + 1) hc (by simp) hk ho (hesc0 _ hb (by omega) hn)).2.2.2 (Or.inr (by
      rintro (⟨h, _⟩ | ⟨h, _⟩ | ⟨h, _⟩) <;> exact absurd (show (92 : Nat) = _ from h) (by decide))) (Or.inr (by
      intro hd h
      cases d with
      | double => exact absurd (show (92 : Nat) = _ from h) (by decide)
      | back => exact absurd (show (92 : Nat) = _ from h) (by decide)
      | here id => exact hd id rfl)) (fun _ _ h => absurd (show (92 : Nat) = _ from h) (by decide))]
    have hc1 : c = (pre ++ [92]) ++ (ch :: x ++ rest) := by rw [hc]; simp
    have l1 : (pre ++ [92]).length = pre.length + 1 := by simp
    have hee : escaped c (pre ++ [92]).length b = some true := by
      rw [l1, hesc _ (by omega) (by omega)]; simp [p1]; omega
    rw [← l1, (enc_step (k := k) hc1 (by simp) hk ho hee).2.2.2 (Or.inl rfl) (Or.inl rfl) h4]
    have := ih (pre ++ [92, ch]) (by rw [hc]; simp) (by simp; omega) (by simpa using p2)
    simp only [List.length_append, List.length_cons, List.length_nil] at this ⊢
    rw [show c.length - (pre.length + (0 + 1 + 1)) = k by omega] at this
    rw [show pre.length + (x.length + 1 + 1) = pre.length + (0 + 1 + 1) + x.length by omega, show pre.length + 1 + 1 = pre.length + (0 + 1 + 1) by omega]
    exact this

/-! ## The other branches -/

/-- The scan of `"` finds the interpolation. -/
theorem dq_found {s : QString} (h : HasVar u s) {start : Nat} (hs : 0 < start) (ha : chr c (start - 1) ≠ 92) :
    ∀ pre, c = pre ++ s → start ≤ pre.length → ¬ Escaped c pre.length →
    ∃ e, dquoteLoop u c start (c.length - pre.length) pre.length = some (e, true) := by
  have one : ∀ (k : Nat) (pre s : QString), c = pre ++ s → s ≠ [] → start ≤ pre.length →
      ∃ x, (x = true ↔ VarAt u c pre.length) ∧
      dquoteLoop u c start (k + 1) pre.length =
        if (!(chr c pre.length == 34) || decide (Escaped c pre.length)) = true then
          (if x = true then some (pre.length, true) else dquoteLoop u c start k (pre.length + 1))
        else some (pre.length, false) := by
    intro k pre s hc hne hp
    have hl : pre.length < c.length := by rw [hc]; have := List.length_pos_iff.2 hne; simp; omega
    obtain ⟨x, hx1, hx2⟩ := varStartAt_eq (u := u) (c := c) (i := pre.length) hl hp hs ha
    refine ⟨x, hx2, ?_⟩
    generalize hR : dquoteLoop u c start k (pre.length + 1) = R
    unfold dquoteLoop
    simp only [Option.bind_eq_bind]
    have hcnd : (notO (isAt c pre.length (c! '"')) ||? escaped c pre.length start) =
        some (!(chr c pre.length == 34) || decide (Escaped c pre.length)) := by
      refine orO_some (notO_some (isAt_some (by omega))) fun h => ?_
      rw [escaped_eq' (by omega) hp hs ha, bs_decide]
    rw [hcnd, Option.bind_some, hx1, Option.bind_some, hR]
  induction h with
  | @here s h =>
    intro pre hc hp hn
    have hne : s ≠ [] := by rintro rfl; rcases h with ⟨h, _⟩ | ⟨h, _⟩ <;> exact absurd h (by decide)
    have e0 : chr c pre.length = chr s 0 := by rw [hc]; exact chr_pre pre s 0
    have e1 : chr c (pre.length + 1) = chr s 1 := by rw [hc]; exact chr_pre pre s 1
    have h36 : chr s 0 = 36 := by rcases h with ⟨h, _⟩ | ⟨h, _⟩ <;> exact h
    obtain ⟨k, hk⟩ : ∃ k, c.length - pre.length = k + 1 := ⟨c.length - pre.length - 1, by
      have := List.length_pos_iff.2 hne
      have := congrArg List.length hc
      rw [List.length_append] at this; omega⟩
    obtain ⟨x, hx, heq⟩ := one k pre s hc hne hp
    rw [hk, heq]
    refine ⟨pre.length, ?_⟩
    rw [if_pos (by rw [e0, h36]; rfl), if_pos]
    refine hx.2 ⟨by rw [e0]; exact h36, hn, ?_⟩
    rw [e1]
    rcases h with ⟨_, h⟩ | ⟨_, h⟩
    · exact Or.inr h
    · exact Or.inl h
  | @char ch r h1 h2 hr ih =>
    intro pre hc hp hn
    have e0 : chr c pre.length = ch := by rw [hc]; exact chr_pre pre (ch :: r) 0
    obtain ⟨k, hk⟩ : ∃ k, c.length - pre.length = k + 1 := ⟨c.length - pre.length - 1, by
      have := congrArg List.length hc
      rw [List.length_append, List.length_cons] at this; omega⟩
    obtain ⟨x, hx, heq⟩ := one k pre _ hc (by simp) hp
    have hcnd : (!(ch == 34) || decide (Escaped c pre.length)) = true := by
      have : (ch == 34) = false := beq_eq_false_iff_ne.2 h1
      rw [this]; rfl
    rw [hk, heq, e0, if_pos hcnd]
    by_cases hxt : x = true
    · rw [if_pos hxt]; exact ⟨_, rfl⟩
    · rw [if_neg hxt]
      have := ih (pre ++ [ch]) (by rw [hc]; simp) (by simp; omega) (by simp; exact esc_char (by rw [e0]; exact h2))
      simp only [List.length_append, List.length_cons, List.length_nil, Nat.zero_add] at this
      rw [show c.length - (pre.length + 1) = k by omega] at this
      exact this
  | @pair ch r hr ih =>
    intro pre hc hp hn
    have e0 : chr c pre.length = 92 := by rw [hc]; exact chr_pre pre (92 :: ch :: r) 0
    obtain ⟨p1, p2⟩ := esc_pair hn e0
    obtain ⟨k, hk⟩ : ∃ k, c.length - pre.length = k + 1 + 1 := ⟨c.length - pre.length - 2, by
      have := congrArg List.length hc
      rw [List.length_append, List.length_cons, List.length_cons] at this; omega⟩
    obtain ⟨x, hx, heq⟩ := one (k + 1) pre _ hc (by simp) hp
    rw [hk, heq, e0, if_pos (by rfl), if_neg (by rw [hx]; rintro ⟨h, _⟩; rw [e0] at h; exact absurd h (by decide))]
    have l1 : (pre ++ [92]).length = pre.length + 1 := by simp
    obtain ⟨y, hy, heq2⟩ := one k (pre ++ [92]) (ch :: r) (by rw [hc]; simp) (by simp) (by rw [l1]; omega)
    rw [l1] at heq2 hy
    have hcnd : (!(chr c (pre.length + 1) == 34) || decide (Escaped c (pre.length + 1))) = true := by
      rw [decide_eq_true p1, Bool.or_true]
    rw [heq2, if_pos hcnd, if_neg (by
      rw [hy]; rintro ⟨_, h, _⟩; exact h p1)]
    have := ih (pre ++ [92, ch]) (by rw [hc]; simp) (by simp; omega) (by simpa using p2)
    simp only [List.length_append, List.length_cons, List.length_nil] at this
    rw [show c.length - (pre.length + (0 + 1 + 1)) = k by omega] at this
    exact this

/-- The loop over a nowdoc reads exactly its text. -/
theorem now_run {id x rest : QString} (h : NowText id x rest) (hid : id ≠ []) : ∀ pre, c = pre ++ (x ++ rest) →
    nowdocLoop c id (c.length - pre.length) pre.length = some (pre.length + x.length) := by
  have one : ∀ (k : Nat) (pre s : QString) (ch : QChar), c = pre ++ (ch :: s) →
      ∃ x, (x = true ↔ ch = 10 ∧ Ends (.here id) s) ∧
      nowdocLoop c id (k + 1) pre.length =
        if x = true then some (pre.length + 1) else nowdocLoop c id k (pre.length + 1) := by
    intro k pre s ch hc
    have hl : pre.length < c.length := by rw [hc]; simp
    have e0 : chr c pre.length = ch := by rw [hc]; exact chr_pre pre (ch :: s) 0
    obtain ⟨x, h1, h2⟩ := hereEnd_eq (c := c) hid (pre.length + 1)
    refine ⟨chr c pre.length == 10 && x, ?_, ?_⟩
    · have : Ends (.here id) s ↔ HereEndSpec c id (pre.length + 1) (pre.length + 1 + id.length) := by
        rw [ends_here (pre := pre ++ [ch])]
        rw [hc]; simp
      rw [this, e0]; simp [h2]
    · generalize hR : nowdocLoop c id k (pre.length + 1) = R
      unfold nowdocLoop
      rw [if_pos hl]
      simp only [Option.bind_eq_bind]
      rw [andO_some (isAt_some (by omega)) fun _ => h1, Option.bind_some, hR]
  induction h with
  | @last rest h =>
    intro pre hc
    obtain ⟨k, hk⟩ : ∃ k, c.length - pre.length = k + 1 := ⟨c.length - pre.length - 1, by rw [hc]; simp⟩
    obtain ⟨x, hx, heq⟩ := one k pre rest 10 (by rw [hc]; simp)
    rw [hk, heq, if_pos (hx.2 ⟨rfl, h⟩)]; rfl
  | eof =>
    intro pre hc
    have : c.length - pre.length = 0 := by rw [hc]; simp
    rw [this]; unfold nowdocLoop; rw [if_neg (by omega)]; rfl
  | @char ch x rest h1 hr ih =>
    intro pre hc
    obtain ⟨k, hk⟩ : ∃ k, c.length - pre.length = k + 1 := ⟨c.length - pre.length - 1, by rw [hc]; simp⟩
    obtain ⟨y, hy, heq⟩ := one k pre (x ++ rest) ch (by rw [hc]; simp)
    rw [hk, heq, if_neg (by rw [hy]; exact fun ⟨a, b⟩ => h1 a b)]
    have := ih (pre ++ [ch]) (by rw [hc]; simp)
    simp only [List.length_append, List.length_cons, List.length_nil, Nat.zero_add] at this ⊢
    rw [show c.length - (pre.length + 1) = k by omega] at this
    rw [this]; congr 1; omega

/-- Braces and the backtick in code. -/
theorem code_brace (hu : u.Lawful) {top : St} {below : List St} (hb : b < c.length)
    (h : chr c b = 123 ∨ chr c b = 125 ∨ chr c b = 96) :
    codeBranch u c b (top :: below) ident = some
      (if chr c b = 125 then ⟨.RBRACE, b + 1, if top = .StrVarCurly then below else top :: below, ident, []⟩
       else if chr c b = 123 then ⟨.LBRACE, b + 1, if top = .StrVarCurly then .StrVarCurly :: top :: below else top :: below, ident, []⟩
       else ⟨.BACKTICK, b + 1, .Backtick :: top :: below, ident, []⟩) := by
  have hv : processVariable u c b = some none := by
    rcases processVariable_spec hu (c := c) hb with ⟨h, _⟩ | ⟨e, h, h'⟩
    · exact h
    · have := h'.dollar; omega
  unfold codeBranch
  simp only [Option.bind_eq_bind]
  rw [rd_some (by omega), Option.bind_some]
  simp only [List.getElem?_cons_zero, Option.bind_some]
  have harr : (isAt c b (c! '-') &&? isAt c (b + 1) (c! '>')) = some false := by
    rw [isAt_some (by omega)]
    have : (chr c b == 45) = false := by simp; omega
    rw [this]; rfl
  have hs : u.isSpace (chr c b) = false := by
    rw [hu.space_ascii _ (by omega)]
    rcases h with h | h | h <;> rw [h] <;> decide
  have hd : u.isDigit (chr c b) = false := by
    rw [hu.digit_ascii _ (by omega)]
    rcases h with h | h | h <;> rw [h] <;> decide
  rw [if_neg (by rw [hs]; decide), numTest_eq hb, Option.bind_some,
    if_neg (by rw [hd]; simp; omega), hv, Option.bind_some, harr, Option.bind_some]
  rcases h with h | h | h <;> simp [h]

/-- A heredoc or nowdoc line in code. -/
theorem code_here (hu : u.Lawful) {below : List St} {id : QString} {nd : Bool} {e : Nat} (ho : HereOpen u c id nd b e) (he : e < c.length) :
    codeBranch u c b (.Default :: below) ident = some
      ⟨if nd then .START_NOWDOC else .START_HEREDOC, e, (if nd then .Nowdoc else .Heredoc) :: .Default :: below, id, [e - 1]⟩ := by
  obtain ⟨h0, h1, h2, _⟩ := ho.arrows
  have hb2 := lt_of_chr_eq h2 (by decide)
  have hv : processVariable u c b = some none := by
    rcases processVariable_spec hu (c := c) (b := b) (by omega) with ⟨h, _⟩ | ⟨e, h, h'⟩
    · exact h
    · have := h'.dollar; rw [h0] at this; simp at this
  unfold codeBranch
  simp only [Option.bind_eq_bind]
  rw [rd_some (by omega), Option.bind_some]
  simp only [List.getElem?_cons_zero, Option.bind_some]
  rw [if_neg (by rw [h0, hu.space_ascii _ (by omega)]; decide), numTest_eq (by omega), Option.bind_some,
    if_neg (by rw [h0, hu.digit_ascii _ (by omega)]; simp [asciiDigit]), hv, Option.bind_some]
  simp only [h0]
  simp only [Nat.reduceEqDiff, if_false, if_true]
  unfold ltBranch
  simp only [Option.bind_eq_bind]
  rw [rd_some (by omega), Option.bind_some, if_pos h1, rd_some (by omega), Option.bind_some]
  simp only [List.getElem?_cons_zero, Option.bind_some]
  rw [h2]
  have : heredocOpt u c b ident ((60 : Nat) == c! '<' && St.Default != .StrVarCurly) =
      some (id, some (nd, e - 1)) := heredocStart_of_open hu ho he
  rw [this, Option.bind_some]
  have hep : e - 1 + 1 = e := by
    rcases ho.body with ⟨_, _, q, _, _, _, _, _, _, h | h, _⟩ <;> omega
  cases nd
  · simp [hep]
  · simp [hep]

theorem hereOpen_of {pre id x rest : QString} {nd : Bool} (h : HereLine u id nd x) :
    HereOpen u (pre ++ (x ++ rest)) id nd pre.length (pre.length + x.length) := by
  obtain ⟨⟨hne, hid, hd⟩, sp, hsp, h⟩ := h
  have hl := List.length_pos_iff.2 hne
  rcases h with ⟨rfl, rfl⟩ | ⟨rfl, rfl⟩ | ⟨rfl, rfl⟩
  · have e1 : pre ++ (q! "<<<" ++ sp ++ id ++ [10] ++ rest) = (pre ++ q! "<<<") ++ (sp ++ (id ++ ([10] ++ rest))) := by simp
    have e2 : pre ++ (q! "<<<" ++ sp ++ id ++ [10] ++ rest) = (pre ++ q! "<<<" ++ sp) ++ (id ++ ([10] ++ rest)) := by simp
    have l1 : (pre ++ q! "<<<").length = pre.length + 3 := by simp
    have l2 : (pre ++ q! "<<<" ++ sp).length = pre.length + 3 + sp.length := by simp; omega
    refine ⟨by rw [textAt_pre (by decide)]; exact ⟨_, by simp only [List.append_assoc]; rfl⟩, pre.length + 3 + sp.length, pre.length + 3 + sp.length,
      pre.length + 3 + sp.length + id.length, by omega, ?_, by omega, ?_, ?_, ?_, Or.inl ⟨rfl, rfl, by simp; omega⟩, ?_⟩
    · rw [e1, ← l1]; exact allChr_of hsp
    · rw [e2, ← l2]; exact allChr_of hid
    · rw [e2, ← l2, chr_first hne]; exact hd
    · rw [e2, ← l2, slice_at]
    · have l3 : pre.length + (q! "<<<" ++ sp ++ id ++ [10]).length - 1 = (pre ++ q! "<<<" ++ sp).length + id.length := by simp; omega
      rw [l3, e2, chr_at0]
      rfl
  · have e1 : pre ++ (q! "<<<" ++ sp ++ q! "\"" ++ id ++ q! "\"" ++ [10] ++ rest) = (pre ++ q! "<<<") ++ (sp ++ (q! "\"" ++ (id ++ (q! "\"" ++ [10] ++ rest)))) := by simp
    have e2 : pre ++ (q! "<<<" ++ sp ++ q! "\"" ++ id ++ q! "\"" ++ [10] ++ rest) = (pre ++ q! "<<<" ++ sp ++ q! "\"") ++ (id ++ (q! "\"" ++ [10] ++ rest)) := by simp
    have l1 : (pre ++ q! "<<<").length = pre.length + 3 := by simp
    have l2 : (pre ++ q! "<<<" ++ sp ++ q! "\"").length = pre.length + 3 + sp.length + 1 := by simp; omega
    refine ⟨by rw [textAt_pre (by decide)]; exact ⟨_, by simp only [List.append_assoc]; rfl⟩, pre.length + 3 + sp.length, pre.length + 3 + sp.length + 1,
      pre.length + 3 + sp.length + 1 + id.length, by omega, ?_, by omega, ?_, ?_, ?_, Or.inr ⟨rfl, by simp; omega, ?_, ?_⟩, ?_⟩
    · rw [e1, ← l1]; exact allChr_of hsp
    · rw [e2, ← l2]; exact allChr_of hid
    · rw [e2, ← l2, chr_first hne]; exact hd
    · rw [e2, ← l2, slice_at]
    · rw [e1, ← l1, chr_at0]; rfl
    · rw [e2, ← l2, chr_at0]; rfl
    · have l3 : pre.length + (q! "<<<" ++ sp ++ q! "\"" ++ id ++ q! "\"" ++ [10]).length - 1 = (pre ++ q! "<<<" ++ sp ++ q! "\"").length + id.length + 1 := by simp; omega
      rw [l3, e2, chr_at]
      rfl
  · have e1 : pre ++ (q! "<<<" ++ sp ++ q! "'" ++ id ++ q! "'" ++ [10] ++ rest) = (pre ++ q! "<<<") ++ (sp ++ (q! "'" ++ (id ++ (q! "'" ++ [10] ++ rest)))) := by simp
    have e2 : pre ++ (q! "<<<" ++ sp ++ q! "'" ++ id ++ q! "'" ++ [10] ++ rest) = (pre ++ q! "<<<" ++ sp ++ q! "'") ++ (id ++ (q! "'" ++ [10] ++ rest)) := by simp
    have l1 : (pre ++ q! "<<<").length = pre.length + 3 := by simp
    have l2 : (pre ++ q! "<<<" ++ sp ++ q! "'").length = pre.length + 3 + sp.length + 1 := by simp; omega
    refine ⟨by rw [textAt_pre (by decide)]; exact ⟨_, by simp only [List.append_assoc]; rfl⟩, pre.length + 3 + sp.length, pre.length + 3 + sp.length + 1,
      pre.length + 3 + sp.length + 1 + id.length, by omega, ?_, by omega, ?_, ?_, ?_, Or.inr ⟨rfl, by simp; omega, ?_, ?_⟩, ?_⟩
    · rw [e1, ← l1]; exact allChr_of hsp
    · rw [e2, ← l2]; exact allChr_of hid
    · rw [e2, ← l2, chr_first hne]; exact hd
    · rw [e2, ← l2, slice_at]
    · rw [e1, ← l1, chr_at0]; rfl
    · rw [e2, ← l2, chr_at0]; rfl
    · have l3 : pre.length + (q! "<<<" ++ sp ++ q! "'" ++ id ++ q! "'" ++ [10]).length - 1 = (pre ++ q! "<<<" ++ sp ++ q! "'").length + id.length + 1 := by simp; omega
      rw [l3, e2, chr_at]
      rfl

end

/-! ## One element -/

/-- The modes of the lexer at a place. -/
def Place.st : Place → List St
  | .html => [.Html, .Error]
  | .code => codeSt
  | .inner p => .StrVarCurly :: p.st
  | .text d p => d.mode :: p.st
  | .var d p => .StrVar :: d.mode :: p.st
  | .nowdoc _ => .Nowdoc :: codeSt

/-- What the lexer remembers of a place. -/
def Place.keeps (ident : QString) : Place → Prop
  | .html | .code => True
  | .inner p => p.keeps ident
  | .text d p | .var d p => d.keeps ident ∧ p.keeps ident
  | .nowdoc id => ident = id

/-- A place is well formed. -/
def Place.ok (u : CharClass) : Place → Prop
  | .html | .code => True
  | .inner p => p.ok u
  | .text d p | .var d p => CodePlace p ∧ d.ok u ∧ p.ok u
  | .nowdoc id => HereName u id

/-- A place in the text of a string. -/
def Place.inText : Place → Prop
  | .text _ _ | .var _ _ => True
  | _ => False

section
variable {u : CharClass} {c pre x rest : QString} {s : LState}

/-- The position is not escaped, and not only backslashes precede it. -/
def Clean (c : QString) (i : Nat) : Prop := ¬ Escaped c i ∧ ∃ j, j < i ∧ chr c j ≠ 92

theorem clean_of {i : Nat} (h : chr c i ≠ 92) : Clean c (i + 1) := ⟨esc_char h, i, by omega, h⟩

theorem clean_last {y : QString} {ch : QChar} (h : ch ≠ 92) : Clean (pre ++ (y ++ [ch] ++ rest)) (pre.length + (y ++ [ch]).length) := by
  have e : pre ++ (y ++ [ch] ++ rest) = (pre ++ y) ++ ([ch] ++ rest) := by simp
  have l : pre.length + (y ++ [ch]).length = (pre ++ y).length + 1 := by simp; omega
  rw [l, e]
  refine clean_of ?_
  rw [chr_first (by simp)]; exact h

theorem clean_word (hu : u.Lawful) {y w : QString} (hw : w ≠ []) (h : ∀ ch ∈ w, identChar u ch = true) :
    Clean (pre ++ (y ++ w ++ rest)) (pre.length + (y ++ w).length) := by
  obtain ⟨w', ch, rfl⟩ : ∃ w' ch, w = w' ++ [ch] := ⟨w.dropLast, w.getLast hw, (List.dropLast_concat_getLast hw).symm⟩
  have := clean_last (pre := pre) (rest := rest) (y := y ++ w') (ch := ch) (by
    rintro rfl
    have h1 := h 92 (by simp)
    rw [← validIdent_eq, valid_ascii hu (by decide)] at h1
    exact absurd h1 (by decide))
  simpa using this

/-- The lexer stands before `rest`, which is the end of its text, at this place. -/
structure Where (u : CharClass) (c : QString) (s : LState) (place : Place) (rest : QString) : Prop where
  stack : s.stack = place.st
  halt : s.halt = 0
  pos : ∃ pre, c = pre ++ rest ∧ (s.pos = pre.length ∨ (rest = [] ∧ pre.length ≤ s.pos))
  keeps : place.keeps s.ident
  ok : place.ok u
  clean : place.inText → Clean c s.pos

theorem where_next {s' : LState} {place' : Place} (h1 : s'.pos = pre.length + x.length) (h2 : s'.stack = place'.st) (h3 : s'.halt = 0)
    (h4 : place'.keeps s'.ident) (h5 : place'.ok u) (h6 : place'.inText → Clean (pre ++ (x ++ rest)) (pre.length + x.length)) :
    Where u (pre ++ (x ++ rest)) s' place' rest :=
  ⟨h2, h3, ⟨pre ++ x, by simp, by rw [h1, List.length_append]; exact Or.inl rfl⟩, h4, h5, by rw [h1]; exact h6⟩

theorem emit {t : Tok} {e : Nat} {st' : List St} {nls : List Nat} {ts : List Tok}
    (hd : dispatch u c s.pos s.stack s.ident = some ⟨t, e, st', s.ident, nls⟩) (hb : s.pos < c.length) (he : e ≤ c.length)
    (hh : s.halt = 0) (ht : t ≠ .HALT_COMPILER) (htr : t.isTrivia = false)
    (k : ∀ s' : LState, s'.pos = e → s'.stack = st' → s'.halt = 0 → s'.ident = s.ident → Fills u c s' ts) : Fills u c s (t :: ts) :=
  fills_tok (step_dispatch hd hb (by omega) hh ht) htr (k _ rfl rfl rfl rfl)

theorem emit' {t : Tok} {e : Nat} {st' : List St} {id' : QString} {nls : List Nat} {ts : List Tok}
    (hd : dispatch u c s.pos s.stack s.ident = some ⟨t, e, st', id', nls⟩) (hb : s.pos < c.length) (he : e ≤ c.length)
    (hh : s.halt = 0) (ht : t ≠ .HALT_COMPILER) (htr : t.isTrivia = false)
    (k : ∀ s' : LState, s'.pos = e → s'.stack = st' → s'.halt = 0 → s'.ident = id' → Fills u c s' ts) : Fills u c s (t :: ts) :=
  fills_tok (step_dispatch hd hb (by omega) hh ht) htr (k _ rfl rfl rfl rfl)

theorem codePlace_st {p : Place} (h : CodePlace p) : ∃ top below, p.st = top :: below ∧ (top = .Default ∨ top = .StrVarCurly) := by
  rcases h with rfl | ⟨q, rfl⟩
  · exact ⟨_, _, rfl, Or.inl rfl⟩
  · exact ⟨_, _, rfl, Or.inr rfl⟩

theorem side_st (m : Side) : (sidePlace m).st = m.st := by cases m <;> rfl

theorem dispatch_str {v : Bool} {m top : St} {below : List St} {b : Nat} {ident : QString} (hm : isStrMode m = true) :
    dispatch u c b (strStack v m top below) ident = strBranch u c b (strStack v m top below) ident := by
  cases v
  · revert hm; cases m <;> simp [isStrMode] <;> rfl
  · rfl

/-- An identifier of a heredoc begins with a letter or the underscore. -/
theorem here_first (hu : u.Lawful) {id r : QString} (h : HereName u id) {ch : QChar} (hc : ch < 128)
    (hl : (asciiLetter ch || asciiDigit ch || ch == 95) = false) : chr (id ++ r) 0 ≠ ch := by
  rw [chr_left (List.length_pos_iff.2 h.1)]
  rintro rfl
  have := h.2.1 _ (chr_mem (List.length_pos_iff.2 h.1))
  rw [hu.digit_ascii _ hc, hu.letter_ascii _ hc] at this
  revert hl this
  cases asciiLetter (chr id 0) <;> cases asciiDigit (chr id 0) <;> simp

/-- At `$`, `{`, `[` and `-` no string ends. -/
theorem not_ends (hu : u.Lawful) {d : Delim} (ho : d.ok u) {y : QString} {ch : QChar} (h0 : chr y 0 = ch)
    (hch : ch = 36 ∨ ch = 123 ∨ ch = 91 ∨ ch = 45) : ¬ Ends d y := by
  cases d with
  | double => show ¬ chr y 0 = 34; rw [h0]; rcases hch with rfl | rfl | rfl | rfl <;> decide
  | back => show ¬ chr y 0 = 96; rw [h0]; rcases hch with rfl | rfl | rfl | rfl <;> decide
  | here id =>
    rintro ⟨r, rfl, _⟩
    rcases hch with rfl | rfl | rfl | rfl <;> exact here_first hu (ho id rfl) (by decide) (by decide) h0

/-- In the text of a string that does not end here, the lexer tries a variable first. -/
theorem disp_open {d : Delim} {p place : Place} {y : QString} (hw : Where u (pre ++ y) s place y) (hpos : s.pos = pre.length) (hy : y ≠ [])
    (hin : InString d p place) (he : ¬ Ends d y) :
    ∃ v, (place = .text d p ∧ v = false ∨ place = .var d p ∧ v = true) ∧ d.ok u ∧ d.keeps s.ident ∧ CodePlace p ∧ p.ok u ∧ p.keeps s.ident ∧
      dispatch u (pre ++ y) s.pos s.stack s.ident = (processVariable u (pre ++ y) pre.length).bind fun w => match w with
        | some e => some ⟨.VARIABLE, e, .StrVar :: d.mode :: p.st, s.ident, []⟩
        | none => strOther u (pre ++ y) pre.length v (d.mode :: p.st) d.mode s.ident := by
  have hl : pre.length < (pre ++ y).length := by have := List.length_pos_iff.2 hy; simp; omega
  have key : ∀ v : Bool, d.ok u → d.keeps s.ident → CodePlace p → s.stack = (if v then .StrVar :: d.mode :: p.st else d.mode :: p.st) →
      dispatch u (pre ++ y) s.pos s.stack s.ident = (processVariable u (pre ++ y) pre.length).bind fun w => match w with
        | some e => some ⟨.VARIABLE, e, .StrVar :: d.mode :: p.st, s.ident, []⟩
        | none => strOther u (pre ++ y) pre.length v (d.mode :: p.st) d.mode s.ident := by
    intro v ho hk hc hst
    obtain ⟨top, below, h1, h2⟩ := codePlace_st hc
    rw [hst, hpos, h1]
    exact (dispatch_str (v := v) (mode_str d)).trans (str_open hl (mode_str d) h2 (ident_ne hk ho) fun hcl => he ((ends_closing hk).2 hcl))
  rcases hin with rfl | rfl
  · obtain ⟨a, b, c'⟩ := hw.ok
    obtain ⟨e, f⟩ := hw.keeps
    exact ⟨false, Or.inl ⟨rfl, rfl⟩, b, e, a, c', f, key false b e a (by rw [hw.stack]; rfl)⟩
  · obtain ⟨a, b, c'⟩ := hw.ok
    obtain ⟨e, f⟩ := hw.keeps
    exact ⟨true, Or.inr ⟨rfl, rfl⟩, b, e, a, c', f, key true b e a (by rw [hw.stack]; rfl)⟩

/-- At the end of a string. -/
theorem disp_end {d : Delim} {p place : Place} {y : QString} (hw : Where u (pre ++ y) s place y) (hpos : s.pos = pre.length) (hy : y ≠ [])
    (hin : InString d p place) (he : Ends d y) :
    p.ok u ∧ p.keeps s.ident ∧ CodePlace p ∧
      dispatch u (pre ++ y) s.pos s.stack s.ident =
        some (if d.mode = .Str then ⟨.DOUBLE_QUOTE, pre.length + 1, p.st, s.ident, []⟩
        else if d.mode = .Backtick then ⟨.BACKTICK, pre.length + 1, p.st, s.ident, []⟩
        else ⟨.END_HEREDOC, pre.length + s.ident.length, p.st, s.ident, []⟩) := by
  have hl : pre.length < (pre ++ y).length := by have := List.length_pos_iff.2 hy; simp; omega
  have key : ∀ v : Bool, d.ok u → d.keeps s.ident → CodePlace p → s.stack = (if v then .StrVar :: d.mode :: p.st else d.mode :: p.st) →
      dispatch u (pre ++ y) s.pos s.stack s.ident =
        some (if d.mode = .Str then ⟨.DOUBLE_QUOTE, pre.length + 1, p.st, s.ident, []⟩
        else if d.mode = .Backtick then ⟨.BACKTICK, pre.length + 1, p.st, s.ident, []⟩
        else ⟨.END_HEREDOC, pre.length + s.ident.length, p.st, s.ident, []⟩) := by
    intro v ho hk hc hst
    obtain ⟨top, below, h1, h2⟩ := codePlace_st hc
    rw [hst, hpos, h1]
    exact (dispatch_str (v := v) (mode_str d)).trans (str_close hl (mode_str d) h2 (ident_ne hk ho) ((ends_closing hk).1 he))
  rcases hin with rfl | rfl
  · obtain ⟨a, b, c'⟩ := hw.ok
    obtain ⟨e, f⟩ := hw.keeps
    exact ⟨c', f, a, key false b e a (by rw [hw.stack]; rfl)⟩
  · obtain ⟨a, b, c'⟩ := hw.ok
    obtain ⟨e, f⟩ := hw.keeps
    exact ⟨c', f, a, key true b e a (by rw [hw.stack]; rfl)⟩

theorem no_var (hu : u.Lawful) {y : QString} (hy : y ≠ []) (h : ¬ VarAhead u y) : processVariable u (pre ++ y) pre.length = some none := by
  have hl : pre.length < (pre ++ y).length := by have := List.length_pos_iff.2 hy; simp; omega
  rcases processVariable_spec hu (c := pre ++ y) hl with ⟨h1, _⟩ | ⟨e, _, h'⟩
  · exact h1
  · exfalso
    refine h ⟨?_, ?_⟩
    · have := h'.dollar
      rw [show chr (pre ++ y) pre.length = chr y 0 from chr_pre pre y 0] at this; exact this
    · have h1 := h'.noDigit
      have h2 := h'.all (pre.length + 1) (by omega) h'.nonempty
      rw [chr_pre] at h1 h2
      unfold nameStart; rw [h1, h2]; rfl

theorem scan_word {w rest : QString} {f : QChar → Bool} (h : ∀ ch ∈ w, f ch = true) (hr : f (chr rest 0) = false) :
    scan (pre ++ (w ++ rest)).length (fun j => testAt (pre ++ (w ++ rest)) j f) pre.length = some (pre.length + w.length) := by
  obtain ⟨e, s1, s2, s3, _, s4, s5⟩ := scan_chr (c := pre ++ (w ++ rest)) (bound := (pre ++ (w ++ rest)).length) (i := pre.length) f (Nat.le_refl _)
  rw [s1]
  congr 1
  have hall := allChr_of (pre := pre) (rest := rest) h
  rcases Nat.lt_trichotomy e (pre.length + w.length) with hlt | rfl | hgt
  · have h1 := s5 (by simp; omega)
    rw [hall e (by omega) hlt] at h1; exact absurd h1 (by decide)
  · rfl
  · have h1 := s4 (pre.length + w.length) (by omega) hgt
    rw [chr_at0, hr] at h1; exact absurd h1 (by decide)

theorem run_first {d : Delim} (h : Run u d x rest) (hx : x ≠ []) : ¬ Interpolates u (x ++ rest) := by
  cases h with
  | stop => exact absurd rfl hx
  | quote => exact absurd rfl hx
  | eof => exact absurd rfl hx
  | lastLine => rintro (⟨h, _⟩ | ⟨h, _⟩ | ⟨h, _⟩) <;> exact absurd (show (10 : Nat) = _ from h) (by decide)
  | char _ h => exact h
  | pair => rintro (⟨h, _⟩ | ⟨h, _⟩ | ⟨h, _⟩) <;> exact absurd (show (92 : Nat) = _ from h) (by decide)

/-- Plain text is read where nothing else begins. -/
theorem other_enc {y : QString} {v : Bool} {below : List St} {m : St} {ident : QString}
    (h1 : v = false → ¬ DollarBrace y ∧ ¬ (chr y 0 = 123 ∧ chr y 1 = 36 ∧ (nameStart u (chr y 2) = true ∨ chr y 2 = 123)))
    (h2 : v = true → chr y 0 ≠ 91 ∧ ¬ (chr y 0 = 45 ∧ chr y 1 = 62 ∧ nameStart u (chr y 2) = true)) :
    strOther u (pre ++ y) pre.length v below m ident = (encLoop u (pre ++ y) m ident pre.length ((pre ++ y).length - pre.length) pre.length).bind
      fun e => some ⟨.ENCAPSED_AND_WHITESPACE, e, below, ident, nlsIn (pre ++ y) pre.length e⟩ := by
  unfold strOther
  rw [show chr (pre ++ y) pre.length = chr y 0 from chr_pre pre y 0, chr_pre, chr_pre, identStart_eq]
  cases v with
  | false =>
    obtain ⟨a, b⟩ := h1 rfl
    rw [if_neg (by intro hh; simp at hh; exact a hh), if_neg (by simp), if_neg (by intro hh; simp at hh; exact b hh), if_neg (by simp)]
  | true =>
    obtain ⟨a, b⟩ := h2 rfl
    rw [if_neg (by simp), if_neg (by intro hh; simp at hh; exact a hh), if_neg (by simp), if_neg (by intro hh; simp at hh; exact b hh)]

theorem text_ok {d : Delim} {p : Place} (ho : d.ok u) (hk : d.keeps s.ident) (hcp : CodePlace p) (hpo : p.ok u) (hpk : p.keeps s.ident) :
    (Place.text d p).ok u ∧ (Place.text d p).keeps s.ident := ⟨⟨hcp, ho, hpo⟩, hk, hpk⟩

theorem append_ne (h : x ≠ []) : x ++ rest ≠ [] := by simp [h]

theorem take_three {a b d : QChar} {y : QString} (ha : chr y 0 = a) (hb : chr y 1 = b) (hd : chr y 2 = d) (h0 : a ≠ 0 ∧ b ≠ 0 ∧ d ≠ 0) :
    y.take 3 = [a, b, d] := by
  match y, ha, hb, hd with
  | [], ha, _, _ => exact absurd ha.symm h0.1
  | [_], _, hb, _ => exact absurd hb.symm h0.2.1
  | [_, _], _, _, hd => exact absurd hd.symm h0.2.2
  | p :: q :: r :: z, ha, hb, hd => simp [chr] at ha hb hd; simp [ha, hb, hd]

theorem _root_.KPhp.VariableSpec.unique {b e e' : Nat} (h : VariableSpec u c b e) (h' : VariableSpec u c b e') : e = e' := by
  have a := h.nonempty; have a' := h'.nonempty
  have b1 := h.inText; have b' := h'.inText
  rcases Nat.lt_trichotomy e e' with hlt | heq | hlt
  · have := h.maximal (by omega)
    rw [h'.all e (by omega) hlt] at this; exact absurd this (by decide)
  · exact heq
  · have := h'.maximal (by omega)
    rw [h.all e' (by omega) hlt] at this; exact absurd this (by decide)

/-- In the brackets behind a variable. -/
theorem bracket_close {below : List St} {ident : QString} :
    dispatch u (pre ++ (q! "]" ++ rest)) pre.length (.StrVarBracket :: .StrVar :: below) ident =
      some ⟨.RBRACKET, pre.length + 1, below, ident, []⟩ := by
  show bracketBranch u _ pre.length (.StrVarBracket :: .StrVar :: below) ident = _
  unfold bracketBranch
  simp only [Option.bind_eq_bind]
  rw [rd_some (by simp), Option.bind_some, if_pos (show chr (pre ++ (q! "]" ++ rest)) pre.length = 93 from chr_first (x := q! "]") (by simp))]
  rfl

theorem bracket_num (hu : u.Lawful) {ds : QString} {st : List St} {ident : QString} (hne : ds ≠ []) (h : ∀ ch ∈ ds, u.isDigit ch = true)
    (hr : u.isDigit (chr rest 0) = false) :
    dispatch u (pre ++ (ds ++ rest)) pre.length (.StrVarBracket :: st) ident =
      some ⟨.NUM_STRING, pre.length + ds.length, .StrVarBracket :: st, ident, []⟩ := by
  show bracketBranch u _ pre.length (.StrVarBracket :: st) ident = _
  unfold bracketBranch
  simp only [Option.bind_eq_bind]
  have hd : u.isDigit (chr ds 0) = true := h _ (chr_mem (List.length_pos_iff.2 hne))
  rw [rd_some (by simp), Option.bind_some, chr_first hne, if_neg (by
    intro h0; rw [h0, hu.digit_ascii _ (by decide)] at hd; exact absurd hd (by decide)), if_pos hd, scan_word h hr, Option.bind_some]

theorem bracket_word {w : QString} {st : List St} {ident : QString} (hne : w ≠ []) (h : c! ']' ∉ w) (hd : u.isDigit (chr w 0) = false)
    (hr : chr rest 0 = 93) :
    dispatch u (pre ++ (w ++ rest)) pre.length (.StrVarBracket :: st) ident =
      some ⟨.STRING, pre.length + w.length, .StrVarBracket :: st, ident, nlsIn (pre ++ (w ++ rest)) pre.length (pre.length + w.length)⟩ := by
  show bracketBranch u _ pre.length (.StrVarBracket :: st) ident = _
  unfold bracketBranch
  simp only [Option.bind_eq_bind]
  have hs : (fun i => notO (isAt (pre ++ (w ++ rest)) i (c! ']'))) = fun i => testAt (pre ++ (w ++ rest)) i (fun ch => !(ch == 93)) := by
    funext i; unfold notO isAt testAt; cases rd (pre ++ (w ++ rest)) i <;> rfl
  rw [rd_some (by simp), Option.bind_some, chr_first hne, if_neg (by
    intro h0; have := chr_mem (List.length_pos_iff.2 hne); rw [h0] at this; exact h this), if_neg (by rw [hd]; decide), hs,
    scan_word (f := fun ch => !(ch == 93)) (by
      intro ch hc
      have : ch ≠ 93 := by rintro rfl; exact h hc
      simp [this]) (by rw [hr]; rfl), Option.bind_some]

theorem objOp_word {w : QString} {below : List St} {ident : QString} (h : ∀ ch ∈ w, identChar u ch = true)
    (hr : identChar u (chr rest 0) = false) :
    dispatch u (pre ++ (w ++ rest)) pre.length (.StrVarObjOp :: .StrVar :: below) ident =
      some ⟨.STRING, pre.length + w.length, below, ident, []⟩ := by
  show objOpBranch u _ pre.length (.StrVarObjOp :: .StrVar :: below) ident = _
  unfold objOpBranch
  simp only [Option.bind_eq_bind]
  rw [validIdent_eq, scan_word h hr, Option.bind_some]
  rfl

theorem varname_word {w : QString} {below : List St} {ident : QString} (h : ∀ ch ∈ w, identChar u ch = true)
    (hr : identChar u (chr rest 0) = false) :
    dispatch u (pre ++ (w ++ rest)) pre.length (.StrVarname :: below) ident =
      some ⟨.STRING_VARNAME, pre.length + w.length, .StrVarCurly :: below, ident, []⟩ := by
  show varnameBranch u _ pre.length (.StrVarname :: below) ident = _
  unfold varnameBranch
  simp only [Option.bind_eq_bind]
  rw [validIdent_eq, scan_word h hr]
  rfl

/-- What else may begin in a string. -/
theorem other_at {y : QString} {v : Bool} {below : List St} {m : St} {ident : QString} :
    strOther u (pre ++ y) pre.length v below m ident =
      if (!v && (chr y 0 == 36 && chr y 1 == 123)) = true then
        some ⟨.DOLLAR_OPEN_CURLY_BRACES, pre.length + 2, if nameStart u (chr y 2) then .StrVarname :: below else below, ident, []⟩
      else if (v && chr y 0 == 91) = true then some ⟨.LBRACKET, pre.length + 1, .StrVarBracket :: .StrVar :: below, ident, []⟩
      else if (!v && (chr y 0 == 123 && (chr y 1 == 36 && (nameStart u (chr y 2) || chr y 2 == 123)))) = true then
        some ⟨.CURLY_OPEN, pre.length + 1, .StrVarCurly :: below, ident, []⟩
      else if (v && (chr y 0 == 45 && (chr y 1 == 62 && nameStart u (chr y 2)))) = true then
        some ⟨.OBJECT_OPERATOR, pre.length + 2, .StrVarObjOp :: .StrVar :: below, ident, []⟩
      else (encLoop u (pre ++ y) m ident pre.length ((pre ++ y).length - pre.length) pre.length).bind
        fun e => some ⟨.ENCAPSED_AND_WHITESPACE, e, below, ident, nlsIn (pre ++ y) pre.length e⟩ := by
  unfold strOther
  rw [show chr (pre ++ y) pre.length = chr y 0 from chr_pre pre y 0, chr_pre, chr_pre, identStart_eq]

theorem word_first {w : QString} (h1 : w ≠ []) (h2 : ∀ ch ∈ w, identChar u ch = true) (h3 : u.isDigit (chr w 0) = false) :
    nameStart u (chr (w ++ rest) 0) = true := by
  have := List.length_pos_iff.2 h1
  rw [chr_left this]; unfold nameStart; rw [h2 _ (chr_mem this), h3]; rfl

/-- One element: the fill loop adds its tokens and goes on behind it. -/
theorem Element.fills (hu : u.Lawful) {place place' : Place} {ts ts' : List Tok} (h : Element u place x ts rest place')
    (hpos : s.pos = pre.length) (hw : Where u (pre ++ (x ++ rest)) s place (x ++ rest))
    (k : ∀ s', Where u (pre ++ (x ++ rest)) s' place' rest → Fills u (pre ++ (x ++ rest)) s' ts') :
    Fills u (pre ++ (x ++ rest)) s (ts ++ ts') := by
  have hst := hw.stack
  have hh := hw.halt
  have lt : x ≠ [] → s.pos < (pre ++ (x ++ rest)).length := by
    intro h; have := List.length_pos_iff.2 h; rw [hpos]; simp; omega
  have le : pre.length + x.length ≤ (pre ++ (x ++ rest)).length := by simp
  cases h with
  | @plain m m' _ _ _ h =>
    refine h.fills hu hpos (Or.inl ⟨rfl, rfl⟩) (by rw [hst]; exact side_st m) hh fun s' ha _ => k s' ?_
    exact ⟨by rw [ha.stack]; exact (side_st m').symm, ha.halt, ha.pos, by cases m' <;> trivial, by cases m' <;> trivial,
      by cases m' <;> exact False.elim⟩
  | @inner p _ _ _ h h1 h2 =>
    refine h.fills hu hpos (Or.inr ⟨rfl, rfl, ⟨_, rfl⟩, rfl, h1, h2⟩) hst hh fun s' ha hi => k s' ?_
    exact ⟨ha.stack, ha.halt, ha.pos, by rw [hi ⟨_, rfl⟩]; exact hw.keeps, hw.ok, False.elim⟩
  | @enter p _ =>
    have hd : dispatch u (pre ++ (q! "{" ++ rest)) s.pos s.stack s.ident = some ⟨.LBRACE, pre.length + 1, (Place.inner (.inner p)).st, s.ident, []⟩ := by
      rw [hst, hpos]
      refine (dispatch_code ⟨_, _, rfl, Or.inr rfl⟩).trans ?_
      have e0 : chr (pre ++ (q! "{" ++ rest)) pre.length = 123 := chr_first (x := q! "{") (by simp)
      have := code_brace hu (c := pre ++ (q! "{" ++ rest)) (b := pre.length) (ident := s.ident) (top := .StrVarCurly) (below := p.st)
        (by simp) (Or.inl e0)
      rw [e0] at this; exact this
    exact emit hd (lt (by simp)) (by simp) hh (by decide) rfl fun s' a b c' i =>
      k s' (where_next a b c' (by rw [i]; exact hw.keeps) hw.ok False.elim)
  | leave =>
    have hd : dispatch u (pre ++ (q! "}" ++ rest)) s.pos s.stack s.ident = some ⟨.RBRACE, pre.length + 1, place'.st, s.ident, []⟩ := by
      rw [hst, hpos]
      refine (dispatch_code ⟨_, _, rfl, Or.inr rfl⟩).trans ?_
      have e0 : chr (pre ++ (q! "}" ++ rest)) pre.length = 125 := chr_first (x := q! "}") (by simp)
      have := code_brace hu (c := pre ++ (q! "}" ++ rest)) (b := pre.length) (ident := s.ident) (top := .StrVarCurly) (below := place'.st)
        (by simp) (Or.inr (Or.inl e0))
      rw [e0] at this; exact this
    exact emit hd (lt (by simp)) (by simp) hh (by decide) rfl fun s' a b c' i =>
      k s' (where_next a b c' (by rw [i]; exact hw.keeps) hw.ok fun _ => clean_last (y := []) (by decide))
  | openDouble hp hv =>
    obtain ⟨top, below, h1, h2⟩ := codePlace_st hp
    have hd : dispatch u (pre ++ (q! "\"" ++ rest)) s.pos s.stack s.ident =
        some ⟨.DOUBLE_QUOTE, pre.length + 1, (Place.text .double place).st, s.ident, []⟩ := by
      have e0 : chr (pre ++ (q! "\"" ++ rest)) pre.length = 34 := chr_first (x := q! "\"") (by simp)
      have hcode : isCode place.st := by rw [h1]; exact ⟨_, _, rfl, h2⟩
      rw [hst, hpos, dispatch_code hcode, code_quote hu (by simp) hcode (Or.inr (Or.inl e0)), if_neg (by rw [e0]; decide), if_pos e0]
      unfold dquoteBranch
      simp only [Option.bind_eq_bind]
      obtain ⟨e, he⟩ := dq_found hv (c := pre ++ (q! "\"" ++ rest)) (start := pre.length + 1) (by omega)
        (by rw [Nat.add_sub_cancel, e0]; decide) (pre ++ q! "\"") (by simp) (by simp) (by
          simp only [List.length_append, List.length_cons, List.length_nil]; exact esc_char (by rw [e0]; decide))
      rw [show (pre ++ q! "\"").length = pre.length + 1 by simp] at he
      rw [he, Option.bind_some]
      rfl
    exact emit hd (lt (by simp)) (by simp) hh (by decide) rfl fun s' a b c' i =>
      k s' (where_next a b c' ⟨(fun _ h => by cases h), (by rw [i]; exact hw.keeps)⟩ ⟨hp, (fun _ h => by cases h), hw.ok⟩ fun _ => clean_last (y := []) (by decide))
  | openBack hp =>
    obtain ⟨top, below, h1, h2⟩ := codePlace_st hp
    have hd : dispatch u (pre ++ (q! "`" ++ rest)) s.pos s.stack s.ident =
        some ⟨.BACKTICK, pre.length + 1, (Place.text .back place).st, s.ident, []⟩ := by
      have e0 : chr (pre ++ (q! "`" ++ rest)) pre.length = 96 := chr_first (x := q! "`") (by simp)
      have hcode : isCode place.st := by rw [h1]; exact ⟨_, _, rfl, h2⟩
      rw [hst, hpos, dispatch_code hcode]
      show _ = some (Res.mk .BACKTICK (pre.length + 1) (.Backtick :: place.st) s.ident [])
      rw [h1, code_brace hu (by simp) (Or.inr (Or.inr e0)), e0]
      rfl
    exact emit hd (lt (by simp)) (by simp) hh (by decide) rfl fun s' a b c' i =>
      k s' (where_next a b c' ⟨(fun _ h => by cases h), (by rw [i]; exact hw.keeps)⟩ ⟨hp, (fun _ h => by cases h), hw.ok⟩ fun _ => clean_last (y := []) (by decide))
  | @openHere id _ _ h1 h2 =>
    have ho := hereOpen_of (pre := pre) (rest := rest) h1
    have hr := List.length_pos_iff.2 h2
    have hx : x ≠ [] := by obtain ⟨_, sp, _, ⟨_, rfl⟩ | ⟨_, rfl⟩ | ⟨_, rfl⟩⟩ := h1 <;> simp
    have hlast : ∃ y, x = y ++ [10] := by obtain ⟨_, sp, _, ⟨_, rfl⟩ | ⟨_, rfl⟩ | ⟨_, rfl⟩⟩ := h1 <;> exact ⟨_, rfl⟩
    have hd : dispatch u (pre ++ (x ++ rest)) s.pos s.stack s.ident =
        some ⟨.START_HEREDOC, pre.length + x.length, (Place.text (.here id) .code).st, id, [pre.length + x.length - 1]⟩ := by
      rw [hst, hpos]
      refine (dispatch_code isCode_code).trans ?_
      have := code_here hu (ident := s.ident) (below := [.Html, .Error]) ho (by simp; omega)
      exact this
    refine emit' hd (lt hx) le hh (by decide) rfl fun s' a b c' i =>
      k s' (where_next a b c' ⟨(fun _ h => by cases h; exact i), trivial⟩ ⟨Or.inl rfl, (fun _ h => by cases h; exact h1.1), trivial⟩ fun _ => ?_)
    obtain ⟨y, rfl⟩ := hlast
    exact clean_last (by decide)
  | @openNow id _ _ h1 h2 =>
    have ho := hereOpen_of (pre := pre) (rest := rest) h1
    have hr := List.length_pos_iff.2 h2
    have hx : x ≠ [] := by obtain ⟨_, sp, _, ⟨_, rfl⟩ | ⟨_, rfl⟩ | ⟨_, rfl⟩⟩ := h1 <;> simp
    have hd : dispatch u (pre ++ (x ++ rest)) s.pos s.stack s.ident =
        some ⟨.START_NOWDOC, pre.length + x.length, (Place.nowdoc id).st, id, [pre.length + x.length - 1]⟩ := by
      rw [hst, hpos]
      refine (dispatch_code isCode_code).trans ?_
      have := code_here hu (ident := s.ident) (below := [.Html, .Error]) ho (by simp; omega)
      exact this
    exact emit' hd (lt hx) le hh (by decide) rfl fun s' a b c' i =>
      k s' (where_next a b c' i h1.1 False.elim)
  | @close d p _ _ _ t hin hq =>
    have hne : x ≠ [] := by cases hq <;> simp
    obtain ⟨o, ke, hcp, hd⟩ := disp_end hw hpos (by simp [hne]) hin (by cases hq <;> rfl)
    have hd' : dispatch u (pre ++ (x ++ rest)) s.pos s.stack s.ident = some ⟨t, pre.length + x.length, place'.st, s.ident, []⟩ := by
      rw [hd]; cases hq <;> rfl
    exact emit hd' (lt hne) le hh (by cases hq <;> decide) (by cases hq <;> rfl) fun s' a b c' i =>
      k s' (where_next a b c' (by rw [i]; exact ke) o fun hi => by rcases hcp with rfl | ⟨_, rfl⟩ <;> exact hi.elim)
  | @closeHere p _ id _ hin he =>
    have hid : x ≠ [] ∧ s.ident = x := by
      rcases hin with rfl | rfl <;> exact ⟨(hw.ok.2.1 x rfl).1, hw.keeps.1 x rfl⟩
    obtain ⟨o, ke, hcp, hd⟩ := disp_end hw hpos (by simp [hid.1]) hin he
    have hd' : dispatch u (pre ++ (x ++ rest)) s.pos s.stack s.ident = some ⟨.END_HEREDOC, pre.length + x.length, place'.st, s.ident, []⟩ := by
      rw [hd]
      show some (Res.mk _ (pre.length + s.ident.length) _ _ _) = _
      rw [hid.2]
    exact emit hd' (lt hid.1) le hh (by decide) rfl fun s' a b c' i =>
      k s' (where_next a b c' (by rw [i]; exact ke) o fun hi => by rcases hcp with rfl | ⟨_, rfl⟩ <;> exact hi.elim)
  | closeNow he =>
    have hi : s.ident = x := hw.keeps
    have hne : x ≠ [] := (hw.ok : HereName u x).1
    have hd : dispatch u (pre ++ (x ++ rest)) s.pos s.stack s.ident = some ⟨.END_NOWDOC, pre.length + x.length, codeSt, s.ident, []⟩ := by
      rw [hst, hpos]
      show nowdocBranch (pre ++ (x ++ rest)) pre.length (.Nowdoc :: codeSt) s.ident = _
      unfold nowdocBranch
      simp only [Option.bind_eq_bind]
      obtain ⟨y, h1, h2⟩ := hereEnd_eq (c := pre ++ (x ++ rest)) (ident := s.ident) (by rw [hi]; exact hne) pre.length
      rw [h1, Option.bind_some, if_pos (h2.2 (by rw [hi]; exact ends_here.1 he))]
      simp [popSt, hi]
    exact emit hd (lt hne) le hh (by decide) rfl fun s' a b c' i => k s' (where_next a b c' trivial trivial False.elim)
  | @run d p _ _ h1 h2 h3 h4 =>
    obtain ⟨v, hv, ho, hk, hcp, hpo, hpk, hd⟩ := disp_open hw hpos (append_ne h1) (Or.inl rfl) h3
    obtain rfl : v = false := by rcases hv with ⟨h, h'⟩ | ⟨h, h'⟩ <;> first | exact h' | cases h
    obtain ⟨cl1, cl2⟩ := hw.clean trivial
    rw [hpos] at cl1 cl2
    have hint : ¬ VarAhead u (x ++ rest) := fun h => run_first h2 h1 (Or.inl h)
    rw [no_var hu (append_ne h1) hint, Option.bind_some] at hd
    dsimp only at hd
    rw [other_enc (fun _ => ⟨fun h => run_first h2 h1 (Or.inr (Or.inl h)), ?_⟩) (fun h => by cases h)] at hd
    · obtain ⟨r1, r2⟩ := enc_run h2 hk ho cl2 pre rfl (Nat.le_refl _) cl1
      rw [r1, Option.bind_some] at hd
      obtain ⟨o, ke⟩ := text_ok ho hk hcp hpo hpk
      exact emit hd (lt h1) le hh (by decide) rfl fun s' a b c' i => k s' (where_next a b c' (by rw [i]; exact ke) o fun _ =>
        ⟨r2, by obtain ⟨j, j1, j2⟩ := cl2; exact ⟨j, by omega, j2⟩⟩)
    · rintro ⟨a, b, g | g⟩
      · exact run_first h2 h1 (Or.inr (Or.inr ⟨a, b, by unfold nameStart at g; rw [Bool.and_eq_true] at g; exact g.1⟩))
      · exact h4 (take_three a b g (by decide))
  | @runVar d p _ _ h1 h2 h3 h4 h5 =>
    obtain ⟨v, hv, ho, hk, hcp, hpo, hpk, hd⟩ := disp_open hw hpos (append_ne h1) (Or.inr rfl) h3
    obtain rfl : v = true := by rcases hv with ⟨h, h'⟩ | ⟨h, h'⟩ <;> first | exact h' | cases h
    obtain ⟨cl1, cl2⟩ := hw.clean trivial
    rw [hpos] at cl1 cl2
    have hint : ¬ VarAhead u (x ++ rest) := fun h => run_first h2 h1 (Or.inl h)
    rw [no_var hu (append_ne h1) hint, Option.bind_some] at hd
    dsimp only at hd
    rw [other_enc (fun h => by cases h) (fun _ => ⟨by rw [chr_left (List.length_pos_iff.2 h1)]; exact h4, ?_⟩)] at hd
    · obtain ⟨r1, r2⟩ := enc_run h2 hk ho cl2 pre rfl (Nat.le_refl _) cl1
      rw [r1, Option.bind_some] at hd
      obtain ⟨o, ke⟩ := text_ok ho hk hcp hpo hpk
      exact emit hd (lt h1) le hh (by decide) rfl fun s' a b c' i => k s' (where_next a b c' (by rw [i]; exact ke) o fun _ =>
        ⟨r2, by obtain ⟨j, j1, j2⟩ := cl2; exact ⟨j, by omega, j2⟩⟩)
    · rintro ⟨a, b, g⟩
      have h0 : chr (x ++ rest) 2 ≠ 0 := by
        intro h0; rw [h0, ← identStart_eq, start_nul hu] at g; cases g
      have := take_three a b rfl ⟨by decide, by decide, h0⟩
      have hxr := List.take_append_drop 3 (x ++ rest)
      rw [this] at hxr
      have := h5 _ _ hxr.symm
      rw [g] at this; cases this
  | @nothing d p _ h1 h2 =>
    have hne : rest ≠ [] := by rintro rfl; rcases h1 with ⟨h, _⟩ | ⟨h, _⟩ | ⟨h, _⟩ <;> exact absurd h (by decide)
    have h0 : chr rest 0 = 36 ∨ chr rest 0 = 123 := by
      rcases h1 with ⟨h, _⟩ | ⟨h, _⟩ | ⟨h, _⟩
      · exact Or.inl h
      · exact Or.inl h
      · exact Or.inr h
    change Fills u (pre ++ rest) s _
    obtain ⟨v, hv, ho, hk, hcp, hpo, hpk, hd⟩ := disp_open (y := rest) hw hpos (hne) (Or.inr rfl) (not_ends hu (hw.ok.2.1) rfl (by rcases h0 with h | h; exact Or.inl h; exact Or.inr (Or.inl h)))
    obtain rfl : v = true := by rcases hv with ⟨h, h'⟩ | ⟨h, h'⟩ <;> first | exact h' | cases h
    obtain ⟨cl1, cl2⟩ := hw.clean trivial
    rw [hpos] at cl1 cl2
    have hint : ¬ VarAhead u rest := h2
    rw [no_var hu (hne) hint, Option.bind_some] at hd
    dsimp only at hd
    rw [other_enc (fun h => by cases h) (fun _ => ⟨by rcases h0 with h | h <;> rw [h] <;> decide, by rintro ⟨a, _⟩; rcases h0 with h | h <;> rw [h] at a <;> exact absurd a (by decide)⟩)] at hd
    obtain ⟨r1, r2⟩ := enc_run (x := []) (.stop h1) hk ho cl2 pre rfl (Nat.le_refl _) cl1
    have r1' : encLoop u (pre ++ rest) d.mode s.ident pre.length ((pre ++ rest).length - pre.length) pre.length = some pre.length := r1
    rw [r1', Option.bind_some] at hd
    obtain ⟨o, ke⟩ := text_ok ho hk hcp hpo hpk
    refine emit hd (by rw [hpos]; have := List.length_pos_iff.2 hne; simp; omega) le hh (by decide) rfl fun s' a b c' i => k s' (where_next (x := []) a b c' (by rw [i]; exact ke) o fun _ =>
        ⟨r2, by obtain ⟨j, j1, j2⟩ := cl2; exact ⟨j, by omega, j2⟩⟩)
  | @nowText id _ _ h1 h2 h3 =>
    have hi : s.ident = id := hw.keeps
    have hne : id ≠ [] := (hw.ok : HereName u id).1
    have hd : dispatch u (pre ++ (x ++ rest)) s.pos s.stack s.ident = some ⟨.STRING, pre.length + x.length, (Place.nowdoc id).st, s.ident,
        nlsIn (pre ++ (x ++ rest)) pre.length (pre.length + x.length)⟩ := by
      rw [hst, hpos]
      show nowdocBranch (pre ++ (x ++ rest)) pre.length (.Nowdoc :: codeSt) s.ident = _
      unfold nowdocBranch
      simp only [Option.bind_eq_bind]
      obtain ⟨y, g1, g2⟩ := hereEnd_eq (c := pre ++ (x ++ rest)) (ident := s.ident) (by rw [hi]; exact hne) pre.length
      rw [g1, Option.bind_some, if_neg (fun hy => h3 (ends_here.2 (by rw [← hi]; exact g2.1 hy))), hi, now_run h2 hne pre rfl, Option.bind_some]
      rfl
    exact emit hd (lt h1) le hh (by decide) rfl fun s' a b c' i => k s' (where_next a b c' (by rw [i]; exact hi) hw.ok False.elim)
  | @named d p _ w _ hin h1 h2 h3 h4 =>
    have hvs := varSpec_of (pre := pre) (rest := rest) h1 h2 h3 h4
    have ho' : d.ok u := by rcases hin with rfl | rfl <;> exact hw.ok.2.1
    obtain ⟨v, hv, ho, hk, hcp, hpo, hpk, hd⟩ := disp_open hw hpos (by simp) hin (not_ends hu ho' (y := q! "$" ++ w ++ rest) rfl (Or.inl rfl))
    have hpv : processVariable u (pre ++ (q! "$" ++ w ++ rest)) pre.length = some (some (pre.length + (q! "$" ++ w).length)) := by
      rcases processVariable_spec hu (c := pre ++ (q! "$" ++ w ++ rest)) (b := pre.length) (by simp) with ⟨_, g⟩ | ⟨e, g, g'⟩
      · refine absurd ⟨hvs.dollar, ?_⟩ g
        rw [identStart_eq]
        unfold nameStart; rw [hvs.all _ (Nat.le_refl _) hvs.nonempty, hvs.noDigit]; rfl
      · rw [g, g'.unique hvs]
    rw [hpv, Option.bind_some] at hd
    exact emit hd (lt (by simp)) le hh (by decide) rfl fun s' a b c' i => k s' (where_next a b c' ⟨(by rw [i]; exact hk), (by rw [i]; exact hpk)⟩ ⟨hcp, ho, hpo⟩ fun _ =>
      clean_word hu h1 h2)
  | @index d p ds w _ h1 h2 h3 =>
    obtain ⟨v, hv, ho, hk, hcp, hpo, hpk, hd⟩ := disp_open hw hpos (by simp) (Or.inr rfl)
      (not_ends hu hw.ok.2.1 (y := q! "[" ++ ds ++ w ++ q! "]" ++ rest) rfl (Or.inr (Or.inr (Or.inl rfl))))
    obtain rfl : v = true := by rcases hv with ⟨h, h'⟩ | ⟨h, h'⟩ <;> first | exact h' | cases h
    rw [no_var hu (by simp) (by rintro ⟨h, _⟩; exact absurd (show (91 : Nat) = _ from h) (by decide)), Option.bind_some] at hd
    dsimp only at hd
    rw [other_at, if_neg (by simp), if_pos (by simp [chr])] at hd
    obtain ⟨o, ke⟩ := text_ok ho hk hcp hpo hpk
    have fin : ∀ s' : LState, s'.pos = (pre ++ q! "[" ++ ds ++ w).length → s'.stack = .StrVarBracket :: .StrVar :: d.mode :: p.st → s'.halt = 0 →
        s'.ident = s.ident → Fills u (pre ++ (q! "[" ++ ds ++ w ++ q! "]" ++ rest)) s' ([.RBRACKET] ++ ts') := by
      intro s' a b c' i
      have e : pre ++ (q! "[" ++ ds ++ w ++ q! "]" ++ rest) = (pre ++ q! "[" ++ ds ++ w) ++ (q! "]" ++ rest) := by simp
      have hd : dispatch u (pre ++ (q! "[" ++ ds ++ w ++ q! "]" ++ rest)) s'.pos s'.stack s'.ident =
          some ⟨.RBRACKET, (pre ++ q! "[" ++ ds ++ w).length + 1, d.mode :: p.st, s'.ident, []⟩ := by rw [e, a, b]; exact bracket_close
      refine emit hd (by rw [a, e]; simp) (by simp; omega) c' (by decide) rfl fun s2 a2 b2 c2 i2 => k s2 (where_next ?_ b2 c2 (by rw [i2, i]; exact ke) o fun _ =>
        clean_last (by decide))
      rw [a2]; simp; omega
    have mid : ∀ s' : LState, s'.pos = (pre ++ q! "[" ++ ds).length → s'.stack = .StrVarBracket :: .StrVar :: d.mode :: p.st → s'.halt = 0 →
        s'.ident = s.ident → Fills u (pre ++ (q! "[" ++ ds ++ w ++ q! "]" ++ rest)) s' ((if w = [] then [] else [.STRING]) ++ ([.RBRACKET] ++ ts')) := by
      intro s' a b c' i
      by_cases hw0 : w = []
      · rw [if_pos hw0]; exact fin s' (by rw [a, hw0]; simp) b c' i
      · rw [if_neg hw0]
        have e : pre ++ (q! "[" ++ ds ++ w ++ q! "]" ++ rest) = (pre ++ q! "[" ++ ds) ++ (w ++ (q! "]" ++ rest)) := by simp
        have hd : dispatch u (pre ++ (q! "[" ++ ds ++ w ++ q! "]" ++ rest)) s'.pos s'.stack s'.ident =
            some ⟨.STRING, (pre ++ q! "[" ++ ds).length + w.length, .StrVarBracket :: .StrVar :: d.mode :: p.st, s'.ident,
              nlsIn ((pre ++ q! "[" ++ ds) ++ (w ++ (q! "]" ++ rest))) (pre ++ q! "[" ++ ds).length ((pre ++ q! "[" ++ ds).length + w.length)⟩ := by
          rw [e, a, b]; exact bracket_word hw0 h3 (h2 hw0) rfl
        exact emit hd (by rw [a, e]; simp; omega) (by simp; omega) c' (by decide) rfl fun s2 a2 b2 c2 i2 =>
          fin s2 (by rw [a2]; simp; omega) b2 c2 (by rw [i2, i])
    have num : ∀ s' : LState, s'.pos = (pre ++ q! "[").length → s'.stack = .StrVarBracket :: .StrVar :: d.mode :: p.st → s'.halt = 0 →
        s'.ident = s.ident → Fills u (pre ++ (q! "[" ++ ds ++ w ++ q! "]" ++ rest)) s'
          ((if ds = [] then [] else [.NUM_STRING]) ++ ((if w = [] then [] else [.STRING]) ++ ([.RBRACKET] ++ ts'))) := by
      intro s' a b c' i
      by_cases hd0 : ds = []
      · rw [if_pos hd0]; exact mid s' (by rw [a, hd0]; simp) b c' i
      · rw [if_neg hd0]
        have e : pre ++ (q! "[" ++ ds ++ w ++ q! "]" ++ rest) = (pre ++ q! "[") ++ (ds ++ (w ++ (q! "]" ++ rest))) := by simp
        have hr : u.isDigit (chr (w ++ (q! "]" ++ rest)) 0) = false := by
          by_cases hw0 : w = []
          · rw [hw0]; show u.isDigit 93 = false; rw [hu.digit_ascii _ (by decide)]; rfl
          · rw [chr_left (List.length_pos_iff.2 hw0)]; exact h2 hw0
        have hd : dispatch u (pre ++ (q! "[" ++ ds ++ w ++ q! "]" ++ rest)) s'.pos s'.stack s'.ident =
            some ⟨.NUM_STRING, (pre ++ q! "[").length + ds.length, .StrVarBracket :: .StrVar :: d.mode :: p.st, s'.ident, []⟩ := by
          rw [e, a, b]; exact bracket_num hu hd0 h1 hr
        exact emit hd (by rw [a, e]; simp; omega) (by simp; omega) c' (by decide) rfl fun s2 a2 b2 c2 i2 =>
          mid s2 (by rw [a2]; simp; omega) b2 c2 (by rw [i2, i])
    have := emit hd (lt (by simp)) (by simp) hh (by decide) rfl fun s' a b c' i => num s' (by rw [a]; simp) b c' i
    simpa using this
  | @member d p w _ h1 h2 h3 h4 =>
    obtain ⟨v, hv, ho, hk, hcp, hpo, hpk, hd⟩ := disp_open hw hpos (by simp) (Or.inr rfl)
      (not_ends hu hw.ok.2.1 (y := q! "->" ++ w ++ rest) rfl (Or.inr (Or.inr (Or.inr rfl))))
    obtain rfl : v = true := by rcases hv with ⟨h, h'⟩ | ⟨h, h'⟩ <;> first | exact h' | cases h
    rw [no_var hu (by simp) (by rintro ⟨h, _⟩; exact absurd (show (45 : Nat) = _ from h) (by decide)), Option.bind_some] at hd
    dsimp only at hd
    have hf : nameStart u (chr (q! "->" ++ w ++ rest) 2) = true := word_first (rest := rest) h1 h2 h3
    rw [other_at, hf, if_neg (by simp), if_neg (by simp [chr]), if_neg (by simp), if_pos (by simp [chr])] at hd
    obtain ⟨o, ke⟩ := text_ok ho hk hcp hpo hpk
    refine emit hd (lt (by simp)) (by simp) hh (by decide) rfl fun s' a b c' i => ?_
    have e : pre ++ (q! "->" ++ w ++ rest) = (pre ++ q! "->") ++ (w ++ rest) := by simp
    have hw0 := List.length_pos_iff.2 h1
    have hd : dispatch u (pre ++ (q! "->" ++ w ++ rest)) s'.pos s'.stack s'.ident =
        some ⟨.STRING, (pre ++ q! "->").length + w.length, d.mode :: p.st, s'.ident, []⟩ := by
      rw [e, a, b, show pre.length + 2 = (pre ++ q! "->").length by simp]; exact objOp_word h2 h4
    refine emit hd (by rw [a, e]; simp; omega) (by simp; omega) c' (by decide) rfl fun s2 a2 b2 c2 i2 =>
      k s2 (where_next ?_ b2 c2 (by rw [i2, i]; exact ke) o fun _ => clean_word hu h1 h2)
    rw [a2]; simp; omega
  | @dollarName d p w _ h1 h2 h3 h4 =>
    obtain ⟨v, hv, ho, hk, hcp, hpo, hpk, hd⟩ := disp_open hw hpos (by simp) (Or.inl rfl)
      (not_ends hu hw.ok.2.1 (y := q! "${" ++ w ++ rest) rfl (Or.inl rfl))
    obtain rfl : v = false := by rcases hv with ⟨h, h'⟩ | ⟨h, h'⟩ <;> first | exact h' | cases h
    rw [no_var hu (by simp) (by
      rintro ⟨_, h⟩
      have h : nameStart u 123 = true := h
      rw [nameStart_ascii hu (by decide)] at h; exact absurd h (by decide)), Option.bind_some] at hd
    dsimp only at hd
    have hf : nameStart u (chr (q! "${" ++ w ++ rest) 2) = true := word_first (rest := rest) h1 h2 h3
    rw [other_at, hf, if_pos (by simp [chr])] at hd
    obtain ⟨o, ke⟩ := text_ok ho hk hcp hpo hpk
    refine emit hd (lt (by simp)) (by simp) hh (by decide) rfl fun s' a b c' i => ?_
    have e : pre ++ (q! "${" ++ w ++ rest) = (pre ++ q! "${") ++ (w ++ rest) := by simp
    have hw0 := List.length_pos_iff.2 h1
    have hd : dispatch u (pre ++ (q! "${" ++ w ++ rest)) s'.pos s'.stack s'.ident =
        some ⟨.STRING_VARNAME, (pre ++ q! "${").length + w.length, .StrVarCurly :: d.mode :: p.st, s'.ident, []⟩ := by
      rw [e, a, b, show pre.length + 2 = (pre ++ q! "${").length by simp]; exact varname_word h2 h4
    refine emit hd (by rw [a, e]; simp; omega) (by simp; omega) c' (by decide) rfl fun s2 a2 b2 c2 i2 =>
      k s2 (where_next ?_ b2 c2 (by rw [i2, i]; exact ke) o False.elim)
    rw [a2]; simp; omega
  | @dollarBare d p _ h1 =>
    obtain ⟨v, hv, ho, hk, hcp, hpo, hpk, hd⟩ := disp_open hw hpos (by simp) (Or.inl rfl)
      (not_ends hu hw.ok.2.1 (y := q! "${" ++ rest) rfl (Or.inl rfl))
    obtain rfl : v = false := by rcases hv with ⟨h, h'⟩ | ⟨h, h'⟩ <;> first | exact h' | cases h
    rw [no_var hu (by simp) (by
      rintro ⟨_, h⟩
      have h : nameStart u 123 = true := h
      rw [nameStart_ascii hu (by decide)] at h; exact absurd h (by decide)), Option.bind_some] at hd
    dsimp only at hd
    have hf : nameStart u (chr (q! "${" ++ rest) 2) = false := h1
    rw [other_at, hf, if_pos (by simp [chr])] at hd
    obtain ⟨o, ke⟩ := text_ok ho hk hcp hpo hpk
    exact emit hd (lt (by simp)) (by simp) hh (by decide) rfl fun s' a b c' i => k s' (where_next a b c' (by rw [i]; exact ke) o fun _ =>
      clean_last (y := q! "$") (by decide))
  | @curly d p _ h1 =>
    obtain ⟨v, hv, ho, hk, hcp, hpo, hpk, hd⟩ := disp_open hw hpos (by simp) (Or.inl rfl)
      (not_ends hu hw.ok.2.1 (y := q! "{" ++ rest) rfl (Or.inr (Or.inl rfl)))
    obtain rfl : v = false := by rcases hv with ⟨h, h'⟩ | ⟨h, h'⟩ <;> first | exact h' | cases h
    rw [no_var hu (by simp) (by rintro ⟨h, _⟩; exact absurd (show (123 : Nat) = _ from h) (by decide)), Option.bind_some] at hd
    dsimp only at hd
    have e1 : chr (q! "{" ++ rest) 1 = chr rest 0 := rfl
    have e2 : chr (q! "{" ++ rest) 2 = chr rest 1 := rfl
    have hcond : chr rest 0 = 36 ∧ (nameStart u (chr rest 1) || chr rest 1 == 123) = true := by
      rcases h1 with ⟨a, b⟩ | ⟨a, b⟩
      · exact ⟨a, by rw [b]; rfl⟩
      · exact ⟨a, by rw [b]; simp⟩
    rw [other_at, e1, e2, hcond.2, hcond.1, if_neg (by simp [chr]), if_neg (by simp), if_pos (by simp [chr])] at hd
    obtain ⟨o, ke⟩ := text_ok ho hk hcp hpo hpk
    exact emit hd (lt (by simp)) (by simp) hh (by decide) rfl fun s' a b c' i => k s' (where_next a b c' (by rw [i]; exact ke) o False.elim)

theorem Element.ne {place place' : Place} {ts : List Tok} (h : Element u place x ts rest place') (ho : place.ok u) : x ++ rest ≠ [] := by
  cases h with
  | plain h => simp [h.ne]
  | inner h => simp [h.ne]
  | enter => simp
  | leave => simp
  | openDouble => simp
  | openBack => simp
  | openHere _ h => simp [h]
  | openNow _ h => simp [h]
  | close _ h => cases h <;> simp
  | closeHere h =>
    have : x ≠ [] := by rcases h with rfl | rfl <;> exact (ho.2.1 x rfl).1
    simp [this]
  | closeNow =>
    have : x ≠ [] := (ho : HereName u x).1
    simp [this]
  | run h => simp [h]
  | runVar h => simp [h]
  | nothing h => rintro h0; have h0 : rest = [] := h0; subst h0; rcases h with ⟨h, _⟩ | ⟨h, _⟩ | ⟨h, _⟩ <;> exact absurd h (by decide)
  | nowText h => simp [h]
  | named => simp
  | index => simp
  | member => simp
  | dollarName => simp
  | dollarBare => simp
  | curly => simp

/-- The lexer fills the stream with the tokens of any source text ahead. -/
theorem Source.fills (hu : u.Lawful) {place : Place} {text : QString} {ts : List Tok} (h : Source u place text ts) :
    ∀ {c : QString} {s : LState}, Where u c s place text → Fills u c s ts := by
  induction h with
  | nil =>
    intro c s hw
    obtain ⟨pre, h1, h2⟩ := hw.pos
    refine fills_end ?_
    rw [h1]; simp
    rcases h2 with h2 | ⟨_, h2⟩ <;> omega
  | @cons place place' x rest ts ts' hx hr ih =>
    intro c s hw
    obtain ⟨pre, h3, h4⟩ := hw.pos
    have hpos : s.pos = pre.length := by
      rcases h4 with h4 | ⟨h4, _⟩
      · exact h4
      · exact absurd h4 (hx.ne hw.ok)
    subst h3
    exact hx.fills hu hpos hw fun s' ha => ih ha

/-- **C92 (strings with variables).** On a text that is a sequence of lexical elements, with interpolated strings,
heredocs and nowdocs, tokenising ends, and the tokens are exactly those of the elements, followed by the end-of-file
entry. -/
theorem source_tokens (hu : u.Lawful) {m : Side} {text : QString} {ts : List Tok} (h : Source u (sidePlace m) text ts) :
    ∃ n stream, tokenize u text (m == .code) n = some (.done stream) ∧ stream.map (·.kind) = ts.map some ++ [none] := by
  obtain ⟨n, hn⟩ := h.fills hu (c := text) (s := LState.init (m == .code))
    ⟨by cases m <;> rfl, by cases m <;> rfl, ⟨[], rfl, Or.inl (by cases m <;> rfl)⟩, by cases m <;> trivial, by cases m <;> trivial,
      by cases m <;> exact False.elim⟩
  obtain ⟨stream, h1, h2⟩ := hn (0, 0) []
  exact ⟨n, stream, h1, by simpa using h2⟩

end

end KPhp.Strings
