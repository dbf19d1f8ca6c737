/-
Characters and strings of the model.

`QChar` (a UTF-16 code unit) is a natural number and `QString` a list of them.  The Unicode
predicates of Qt used by kdev-php are parameters (`CharClass`); the facts about them the proofs use
are collected in `CharClass.Lawful` (documented behaviour of Qt on ASCII, and disjointness of the
Unicode general categories).
-/
namespace KPhp

/-- A UTF-16 code unit (`QChar`). -/
macro "QChar" : term => `(Nat)
/-- A `QString`: a sequence of UTF-16 code units. -/
macro "QString" : term => `(List Nat)

/-- `q! "abc"` is the `QString` literal with these (ASCII) characters, as explicit numerals. -/
macro "q! " s:str : term => do
  let cs := s.getString.toList.map (fun c => Lean.Syntax.mkNumLit (toString c.toNat))
  let cs : Lean.TSyntaxArray `term := cs.toArray.map (fun x => ⟨x⟩)
  `(([$cs,*] : List Nat))

/-- `c! 'x'` is the code unit of an (ASCII) character, as a numeral. -/
macro "c! " c:char : term => do
  let n : Lean.TSyntax `term := ⟨Lean.Syntax.mkNumLit (toString c.getChar.toNat)⟩
  `(($n : Nat))

/-- The character predicates of Qt used by the code: `QChar::isSpace`, `QChar::isLetter`,
`QChar::isDigit`, `QChar::toLower` and the case folding behind `Qt::CaseInsensitive` comparisons. -/
structure CharClass where
  isSpace : QChar → Bool
  isLetter : QChar → Bool
  isDigit : QChar → Bool
  toLower : QChar → QChar
  fold : QChar → QChar

/-- ASCII white space as classified by `QChar::isSpace`. -/
def asciiSpace (c : QChar) : Bool := c == 32 || (9 ≤ c && c ≤ 13)
/-- ASCII letters. -/
def asciiLetter (c : QChar) : Bool := (65 ≤ c && c ≤ 90) || (97 ≤ c && c ≤ 122)
/-- ASCII digits. -/
def asciiDigit (c : QChar) : Bool := 48 ≤ c && c ≤ 57
/-- ASCII lower-casing. -/
def asciiLower (c : QChar) : QChar := if 65 ≤ c ∧ c ≤ 90 then c + 32 else c

/-- Trusted facts about Qt's character classification. -/
structure CharClass.Lawful (u : CharClass) : Prop where
  space_ascii : ∀ c, c < 128 → u.isSpace c = asciiSpace c
  letter_ascii : ∀ c, c < 128 → u.isLetter c = asciiLetter c
  digit_ascii : ∀ c, c < 128 → u.isDigit c = asciiDigit c
  lower_ascii : ∀ c, c < 128 → u.toLower c = asciiLower c
  fold_ascii : ∀ c, c < 128 → u.fold c = asciiLower c
  /-- the general categories "letter", "number, decimal digit" and white space are disjoint -/
  letter_not_digit : ∀ c, u.isLetter c = true → u.isDigit c = false
  letter_not_space : ∀ c, u.isLetter c = true → u.isSpace c = false
  digit_not_space : ∀ c, u.isDigit c = true → u.isSpace c = false
  /-- lower-casing and folding are idempotent -/
  lower_idem : ∀ c, u.toLower (u.toLower c) = u.toLower c
  fold_idem : ∀ c, u.fold (u.fold c) = u.fold c
  /-- white space has no case -/
  fold_space : ∀ c, u.isSpace c = true → u.fold c = c

/-- The pure ASCII classification: used for concrete examples, and to show that the laws are
satisfiable. -/
def asciiClass : CharClass where
  isSpace := asciiSpace
  isLetter := asciiLetter
  isDigit := asciiDigit
  toLower := asciiLower
  fold := asciiLower

theorem asciiLower_idem (c : QChar) : asciiLower (asciiLower c) = asciiLower c := by
  unfold asciiLower; split <;> (try split) <;> omega

theorem asciiClass_lawful : asciiClass.Lawful where
  space_ascii _ _ := rfl
  letter_ascii _ _ := rfl
  digit_ascii _ _ := rfl
  lower_ascii _ _ := rfl
  fold_ascii _ _ := rfl
  letter_not_digit c h := by
    simp [asciiClass, asciiLetter, asciiDigit] at *; omega
  letter_not_space c h := by
    simp [asciiClass, asciiLetter, asciiSpace] at *; omega
  digit_not_space c h := by
    simp [asciiClass, asciiSpace, asciiDigit] at *; omega
  lower_idem := asciiLower_idem
  fold_idem := asciiLower_idem
  fold_space c h := by
    simp [asciiClass, asciiSpace, asciiLower] at *; omega

/-- `QString::compare(other, Qt::CaseInsensitive) == 0`. -/
def ciEq (u : CharClass) (a b : QString) : Bool := a.map u.fold == b.map u.fold

/-- `QString::toLower` (code unit by code unit; the special multi-character Unicode mappings of Qt
are not modelled). -/
def lowerStr (u : CharClass) (a : QString) : QString := a.map u.toLower

end KPhp
