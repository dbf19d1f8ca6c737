import Verif.Lexer.Elements
import Verif.Parser.Tokenize
/-!
# A lexical grammar of PHP, and the lexer reads it

`Lexeme` describes one lexical element of a text by the text alone: which characters it consists of, what may
follow it, and the tokens it stands for.  `Reading` describes a text as a sequence of such elements.  The
lexer reads every text that has a reading, to the end, as exactly the tokens of the reading.
-/
namespace KPhp

/-! ## Specification -/

/-- `s` occurs nowhere in `t`. -/
def Absent (s t : QString) : Prop := ∀ a z, t ≠ a ++ s ++ z

/-- The inside of a string literal: plain characters, and pairs of a backslash and any character. -/
inductive QuotedText (plain : QChar → Bool) : QString → Prop
  | nil : QuotedText plain []
  | char {ch : QChar} {r : QString} : plain ch = true → ch ≠ c! '\\' → QuotedText plain r → QuotedText plain (ch :: r)
  | pair {ch : QChar} {r : QString} : QuotedText plain r → QuotedText plain (c! '\\' :: ch :: r)

/-- `r` is `s` without the white space at its beginning. -/
def AfterSpace (u : CharClass) (s r : QString) : Prop :=
  ∃ sp, s = sp ++ r ∧ (∀ ch ∈ sp, u.isSpace ch = true) ∧ u.isSpace (chr r 0) = false

/-- `sp` consists of white space. -/
def Blank (u : CharClass) (sp : QString) : Prop := ∀ ch ∈ sp, u.isSpace ch = true

/-- `x` is a cast of kind `t`: a parenthesised word equal, ignoring case, to a cast name, white space allowed around
the word. -/
structure CastText (u : CharClass) (x : QString) (t : Tok) : Prop where
  parts : ∃ sp w sp' name, x = q! "(" ++ sp ++ w ++ sp' ++ q! ")" ∧ Blank u sp ∧ Blank u sp' ∧
    (∀ ch ∈ w, u.isLetter ch = true) ∧ name ∈ castNames t ∧ ciEq u w name = true

/-- The token of the word `w`, which `rest` follows. -/
inductive WordToken (u : CharClass) (w rest : QString) : Tok → Prop
  | keyword {k : QString} {t : Tok} : k ∈ keywordNames t → t ≠ .HALT_COMPILER → ciEq u w k = true →
      WordToken u w rest t
  | name : (∀ k t, k ∈ keywordNames t → ciEq u w k = false) → ciEq u w (q! "static") = false →
      ciEq u w (q! "yield") = false → WordToken u w rest .STRING
  | lateStatic {r : QString} : ciEq u w (q! "static") = true → AfterSpace u rest (q! "::" ++ r) →
      WordToken u w rest .STRING
  | static {r : QString} : ciEq u w (q! "static") = true → AfterSpace u rest r → r.take 2 ≠ q! "::" →
      WordToken u w rest .STATIC
  | yield {r : QString} : ciEq u w (q! "yield") = true → AfterSpace u rest r → 3 ≤ r.length →
      r.take 4 ≠ q! "from" → WordToken u w rest .YIELD

/-- What may not follow an operator directly, beyond what would make it a longer operator. -/
def OpFollow (u : CharClass) (op rest : QString) : Prop :=
  (op = q! "." → u.isDigit (chr rest 0) = false) ∧
  (op = q! "$" → nameStart u (chr rest 0) = false) ∧
  (op = q! "/" → chr rest 0 ≠ c! '/' ∧ chr rest 0 ≠ c! '*') ∧
  (op = q! "<<" → chr rest 0 ≠ c! '<') ∧
  (op = q! "->" → identChar u (chr rest 0) = false) ∧
  (op = q! "(" → ∀ x r t, op ++ rest = x ++ r → ¬ CastText u x t)

/-- `x` consists of ASCII digits. -/
def Digits (x : QString) : Prop := ∀ ch ∈ x, asciiDigit ch = true

/-- An exponent: `e` or `E`, an optional sign, digits. -/
def ExponentText (x : QString) : Prop :=
  ∃ e sg ds, x = [e] ++ sg ++ ds ∧ (e = c! 'e' ∨ e = c! 'E') ∧ (sg = [] ∨ sg = q! "+" ∨ sg = q! "-") ∧ ds ≠ [] ∧ Digits ds

/-- The text begins with an exponent. -/
def ExponentAhead (u : CharClass) (rest : QString) : Prop :=
  u.toLower (chr rest 0) = c! 'e' ∧ (u.isDigit (chr rest 1) = true ∨
    (chr rest 1 = c! '-' ∨ chr rest 1 = c! '+') ∧ u.isDigit (chr rest 2) = true)

/-- A floating point literal which `rest` follows: digits with a point before, among or behind them, or digits and an
exponent, or both. -/
inductive FloatText (u : CharClass) : QString → QString → Prop
  | point {a b rest : QString} : (a ≠ [] ∨ b ≠ []) → Digits a → Digits b → ¬ ExponentAhead u rest → FloatText u (a ++ q! "." ++ b) rest
  | pointExp {a b x rest : QString} : (a ≠ [] ∨ b ≠ []) → Digits a → Digits b → ExponentText x → FloatText u (a ++ q! "." ++ b ++ x) rest
  | exp {a x rest : QString} : a ≠ [] → Digits a → ExponentText x → FloatText u (a ++ x) rest

/-- A hexadecimal digit. -/
def hexDigit (ch : QChar) : Prop := (48 ≤ ch ∧ ch ≤ 57) ∨ (97 ≤ ch ∧ ch ≤ 102) ∨ (65 ≤ ch ∧ ch ≤ 70)

/-- Whether a text position is inside `<?php … ?>`. -/
inductive Side where
  | html | code
  deriving DecidableEq, Repr

/-- `Lexeme u m x ts rest m'`: on side `m`, the text `x ++ rest` begins with the lexical element `x`, which
stands for the tokens `ts` (none for white space and comments) and is followed by text on side `m'`. -/
inductive Lexeme (u : CharClass) : Side → QString → List Tok → QString → Side → Prop
  | space {x rest : QString} : x ≠ [] → Blank u x → u.isSpace (chr rest 0) = false → Lexeme u .code x [] rest .code
  | block {body rest : QString} : Absent (q! "*/") (body ++ q! "*") →
      Lexeme u .code (q! "/*" ++ body ++ q! "*/") [] rest .code
  | line {m body rest : QString} : (m = q! "#" ∨ m = q! "//" ∧ body.head? ≠ some (c! '/')) → 10 ∉ body →
      Absent (q! "?>") body → Lexeme u .code (m ++ body ++ [10]) [] rest .code
  | docLine {body rest : QString} : 10 ∉ body → Absent (q! "?>") body →
      (∀ sp r, rest = sp ++ r → Blank u sp → 10 ∉ sp → r.take 3 ≠ q! "///") →
      Lexeme u .code (q! "///" ++ body ++ [10]) [] rest .code
  | word {w rest : QString} {t : Tok} : w ≠ [] → (∀ ch ∈ w, identChar u ch = true) →
      u.isDigit (chr w 0) = false → u.isSpace (chr w 0) = false → identChar u (chr rest 0) = false →
      WordToken u w rest t → Lexeme u .code w [t] rest .code
  | yieldFrom {w sp rest : QString} : sp ≠ [] → (∀ ch ∈ w, identChar u ch = true) → ciEq u w (q! "yield") = true →
      u.isDigit (chr w 0) = false → u.isSpace (chr w 0) = false → Blank u sp → identChar u (chr sp 0) = false → Lexeme u .code (w ++ sp ++ q! "from") [.YIELD_FROM] rest .code
  | var {w rest : QString} : w ≠ [] → (∀ ch ∈ w, identChar u ch = true) → u.isDigit (chr w 0) = false →
      identChar u (chr rest 0) = false → Lexeme u .code (q! "$" ++ w) [.VARIABLE] rest .code
  | decimal {ds rest : QString} : ds ≠ [] → (∀ ch ∈ ds, asciiDigit ch = true) → u.isDigit (chr rest 0) = false →
      chr rest 0 ≠ c! '.' → u.toLower (chr rest 0) ≠ c! 'e' → u.toLower (chr rest 0) ≠ c! 'x' →
      u.toLower (chr rest 0) ≠ c! 'b' →
      Lexeme u .code ds [if decimalValue ds < 2 ^ 63 then .LNUMBER else .DNUMBER] rest .code
  | float {x rest : QString} : FloatText u x rest → u.isDigit (chr rest 0) = false → Lexeme u .code x [.DNUMBER] rest .code
  | hex {k : QChar} {hs rest : QString} {v : Nat} : (k = c! 'x' ∨ k = c! 'X') → hs ≠ [] → Numeral 16 hs v →
      ¬ (chr hs 0 = c! '0' ∧ (chr hs 1 = c! 'b' ∨ chr hs 1 = c! 'B')) → u.isDigit (chr rest 0) = false →
      (∀ l ∈ q! "abcdef", u.toLower (chr rest 0) ≠ l) →
      Lexeme u .code (q! "0" ++ [k] ++ hs) [if v < 2 ^ 63 then .LNUMBER else .DNUMBER] rest .code
  | bin {k : QChar} {bs rest : QString} : (k = c! 'b' ∨ k = c! 'B') → bs ≠ [] → (∀ ch ∈ bs, ch = c! '0' ∨ ch = c! '1') →
      u.isDigit (chr rest 0) = false → chr rest 0 ≠ c! '.' →
      Lexeme u .code (q! "0" ++ [k] ++ bs) [if decimalValue bs < 2 ^ 63 then .LNUMBER else .DNUMBER] rest .code
  | single {body rest : QString} : QuotedText (fun ch => ch != c! '\'') body →
      Lexeme u .code (q! "'" ++ body ++ q! "'") [.CONSTANT_ENCAPSED_STRING] rest .code
  | double {body rest : QString} : QuotedText (fun ch => ch != c! '"' && ch != c! '$') body →
      Lexeme u .code (q! "\"" ++ body ++ q! "\"") [.CONSTANT_ENCAPSED_STRING] rest .code
  | op {op rest : QString} {t : Tok} : (op, t) ∈ operators → op ≠ q! "`" → op ≠ q! "?>" →
      (∀ p ∈ operators, p.1 <+: op ++ rest → p.1.length ≤ op.length) → OpFollow u op rest →
      Lexeme u .code op [t] rest .code
  | member {w rest : QString} : w ≠ [] → (∀ ch ∈ w, identChar u ch = true) → identChar u (chr rest 0) = false →
      Lexeme u .code (q! "->" ++ w) [.OBJECT_OPERATOR, .STRING] rest .code
  | cast {x rest : QString} {t : Tok} : CastText u x t → Lexeme u .code x [t] rest .code
  | close {rest : QString} : Lexeme u .code (q! "?>") [.CLOSE_TAG] rest .html
  | openPhp {p h p' b : QChar} {rest : QString} : u.toLower p = c! 'p' → u.toLower h = c! 'h' → u.toLower p' = c! 'p' →
      u.isSpace b = true → Lexeme u .html (q! "<?" ++ [p, h, p', b]) [.OPEN_TAG] rest .code
  | openEcho {rest : QString} : Lexeme u .html (q! "<?=") [.OPEN_TAG_WITH_ECHO] rest .code
  | openShort {rest : QString} : chr rest 0 ≠ c! '=' → ¬ ((rest.take 3).map u.toLower = q! "xml") →
      ¬ ((rest.take 3).map u.toLower = q! "php" ∧ u.isSpace (chr rest 3) = true) → Lexeme u .html (q! "<?") [.OPEN_TAG] rest .code
  | xml {w y rest : QString} : w.map u.toLower = q! "xml" → (rest = [] ∨ ∃ r, rest = q! "<?" ++ r) →
      Absent (q! "<?") (w ++ y) → Lexeme u .html (q! "<?" ++ w ++ y) [.INLINE_HTML] rest .html
  | html {x rest : QString} : x ≠ [] → (rest = [] ∨ ∃ r, rest = q! "<?" ++ r) →
      Absent (q! "<?") x → Lexeme u .html x [.INLINE_HTML] rest .html

/-- `Reading u m text ts`: the text, on side `m` at its beginning, is a sequence of lexical elements that
stand for the tokens `ts`. -/
inductive Reading (u : CharClass) : Side → QString → List Tok → Prop
  | nil {m : Side} : Reading u m [] []
  | cons {m m' : Side} {x rest : QString} {ts ts' : List Tok} : Lexeme u m x ts rest m' → Reading u m' rest ts' →
      Reading u m (x ++ rest) (ts ++ ts')

/-! ## From texts to offsets -/

section
variable {u : CharClass} {pre x rest : QString}

theorem chr_pre (pre y : QString) (i : Nat) : chr (pre ++ y) (pre.length + i) = chr y i := by
  unfold chr; simp [List.getD, List.getElem?_append_right]

theorem chr_left {x y : QString} {i : Nat} (h : i < x.length) : chr (x ++ y) i = chr x i := by
  unfold chr; simp [List.getD, List.getElem?_append_left h]

theorem chr_at (i : Nat) : chr (pre ++ (x ++ rest)) (pre.length + x.length + i) = chr rest i := by
  rw [Nat.add_assoc, chr_pre, chr_pre]

theorem chr_at0 : chr (pre ++ (x ++ rest)) (pre.length + x.length) = chr rest 0 := chr_at 0

theorem chr_in {i : Nat} (h : i < x.length) : chr (pre ++ (x ++ rest)) (pre.length + i) = chr x i := by
  rw [chr_pre, chr_left h]

theorem chr_first (hx : x ≠ []) : chr (pre ++ (x ++ rest)) pre.length = chr x 0 :=
  chr_in (i := 0) (List.length_pos_iff.2 hx)

theorem chr_mem {i : Nat} (h : i < x.length) : chr x i ∈ x := by
  unfold chr; simp [List.getD, h]

theorem allChr_of {p : QChar → Prop} (h : ∀ ch ∈ x, p ch) :
    AllChr (pre ++ (x ++ rest)) pre.length (pre.length + x.length) p := by
  intro k h1 h2
  obtain ⟨i, rfl⟩ : ∃ i, k = pre.length + i := ⟨k - pre.length, by omega⟩
  rw [chr_in (by omega)]; exact h _ (chr_mem (by omega))

theorem slice_at : slice (pre ++ (x ++ rest)) pre.length (pre.length + x.length) = x := by
  unfold slice; simp

theorem textAt_iff {c : QString} {s : QString} : ∀ {b : Nat}, b ≤ c.length → (∀ ch ∈ s, ch ≠ 0) →
    (TextAt c b s ↔ s <+: c.drop b) := by
  induction s with
  | nil => intro b _ _; simp [TextAt]
  | cons a s ih =>
    intro b hb h0
    by_cases hl : b < c.length
    · have : c.drop b = chr c b :: c.drop (b + 1) := by
        rw [List.drop_eq_getElem_cons hl]; congr 1; unfold chr; simp [List.getD, hl]
      rw [this, List.cons_prefix_cons, TextAt, ih (by omega) (fun ch h => h0 ch (by simp [h]))]
      exact ⟨fun ⟨h1, h2⟩ => ⟨h1.symm, h2⟩, fun ⟨h1, h2⟩ => ⟨h1.symm, h2⟩⟩
    · have : b = c.length := by omega
      subst this
      constructor
      · intro h; exact absurd h.1 (by rw [chr_length]; exact (h0 a (by simp)).symm)
      · simp

theorem textAt_pre {s : QString} (h0 : ∀ ch ∈ s, ch ≠ 0) : TextAt (pre ++ rest) pre.length s ↔ s <+: rest := by
  rw [textAt_iff (by simp) h0]; simp

end

/-! ## One step of the lexer -/

/-- The modes of the lexer inside `<?php … ?>`, outside strings. -/
def codeSt : List St := [.Default, .Html, .Error]

section
variable {u : CharClass} (hu : u.Lawful) {c : QString} {b : Nat} {ident : QString}

theorem isCode_code : isCode codeSt := ⟨_, _, rfl, Or.inl rfl⟩

theorem sinv_code : SInv u c b codeSt ident where
  wf := Wf.push rfl Wf.base
  doc h := by simp [HasDoc, codeSt] at h
  anchor h := by simp [HasStr, codeSt] at h
  top t r h hw := by
    simp [codeSt] at h; rw [← h.1] at hw; simp [wantsIdent] at hw

/-- The state switch returns this token with this extent, whatever the remembered heredoc identifier. -/
def Disp (u : CharClass) (c : QString) (b : Nat) (st : List St) (t : Tok) (e : Nat) (st' : List St) : Prop :=
  ∀ ident, ∃ id' nls, dispatch u c b st ident = some ⟨t, e, st', id', nls⟩

/-- The state switch returns this token with this extent and keeps the remembered heredoc identifier. -/
def DispKeep (u : CharClass) (c : QString) (b : Nat) (st : List St) (t : Tok) (e : Nat) (st' : List St) : Prop :=
  ∀ ident, ∃ nls, dispatch u c b st ident = some ⟨t, e, st', ident, nls⟩

/-- The tokens after which the lexer leaves the mode of plain code. -/
def modeTok (u : CharClass) (c : QString) (b : Nat) (t : Tok) : Prop :=
  t = .CLOSE_TAG ∨ t = .BACKTICK ∨ t = .DOUBLE_QUOTE ∨ t = .START_HEREDOC ∨ t = .START_NOWDOC ∨
    (t = .OBJECT_OPERATOR ∧ identChar u (chr c (b + 2)) = true)

theorem code_stack (hb : b < c.length) : Yields (fun r => r.stack = codeSt ∨ modeTok u c b r.tok) (codeBranch u c b codeSt ident) := by
  unfold codeBranch
  simp only [Option.bind_eq_bind]
  refine Yields.bind fun ch hch => Yields.bind fun top ht => ?_
  simp [codeSt] at ht; subst ht
  refine Yields.ite (fun _ => ?_) (fun _ => ?_)
  · unfold wsBranch; simp only [Option.bind_eq_bind]; explore; exact Or.inl rfl
  refine Yields.bind fun _ _ => Yields.ite (fun _ => ?_) (fun _ => ?_)
  · unfold numBranch; simp only [Option.bind_eq_bind]; explore <;> exact Or.inl rfl
  refine Yields.bind fun v _ => ?_
  cases v with
  | some e => exact Yields.res (Or.inl rfl)
  | none =>
    simp only
    refine Yields.ite (fun _ => Yields.res (Or.inl rfl)) (fun _ => ?_)
    refine Yields.ite (fun _ => Yields.res (Or.inl rfl)) (fun _ => ?_)
    refine Yields.ite (fun _ => Yields.res (Or.inl rfl)) (fun _ => ?_)
    refine Yields.ite (fun _ => ?_) (fun _ => ?_)
    · unfold parenBranch; simp only [Option.bind_eq_bind]; explore
      · split <;> exact Yields.res (Or.inl rfl)
      · exact Or.inl rfl
    refine Yields.ite (fun _ => ?_) (fun _ => ?_)
    · unfold ltBranch; simp only [Option.bind_eq_bind]; explore
      · split
        · exact Yields.res (Or.inr (by simp [modeTok]))
        · exact Yields.res (Or.inr (by simp [modeTok]))
        · explore <;> exact Or.inl rfl
      all_goals exact Or.inl rfl
    refine Yields.ite (fun _ => ?_) (fun _ => ?_)
    · unfold questionBranch; simp only [Option.bind_eq_bind]; explore
      · exact Or.inr (by simp [modeTok])
      all_goals exact Or.inl rfl
    refine Yields.bind fun a ha => Yields.ite (fun h => ?_) (fun _ => ?_)
    · refine Yields.bind fun m hm => Yields.res ?_
      cases m with
      | false => exact Or.inl rfl
      | true =>
        refine Or.inr (Or.inr (Or.inr (Or.inr (Or.inr (Or.inr ⟨rfl, ?_⟩)))))
        unfold testAt at hm
        rw [Option.map_eq_some_iff] at hm
        obtain ⟨y, hy, hy'⟩ := hm
        by_cases hl : b + 2 ≤ c.length
        · rw [rd_some hl] at hy; cases hy; exact hy'
        · rw [rd_none (by omega)] at hy; cases hy
    refine Yields.ite (fun _ => ?_) (fun _ => ?_)
    · unfold slashBranch; simp only [Option.bind_eq_bind]; explore <;> exact Or.inl rfl
    refine Yields.ite (fun _ => ?_) (fun _ => ?_)
    · unfold hashBranch; simp only [Option.bind_eq_bind]; explore <;> exact Or.inl rfl
    refine Yields.ite (fun _ => ?_) (fun _ => ?_)
    · unfold squoteBranch; simp only [Option.bind_eq_bind]; explore <;> exact Or.inl rfl
    refine Yields.ite (fun _ => ?_) (fun _ => ?_)
    · unfold dquoteBranch; simp only [Option.bind_eq_bind]; explore
      · exact Or.inr (by simp [modeTok])
      all_goals exact Or.inl rfl
    refine Yields.ite (fun _ => Yields.res (Or.inr (by simp [modeTok]))) (fun _ => ?_)
    refine Yields.bind fun o _ => ?_
    split
    · exact Yields.res (Or.inl rfl)
    · refine Yields.ite (fun _ => ?_) (fun _ => Yields.res (Or.inl rfl))
      unfold wordBranch; simp only [Option.bind_eq_bind]; explore
      · exact Or.inl rfl
      · exact Or.inl rfl
      · exact Or.inl rfl
      · split <;> exact Yields.res (Or.inl rfl)

include hu in
/-- Where no `yield` stands, the state switch returns a token that keeps the contract. -/
theorem code_total (hb : b < c.length) (hy : ¬ YieldHazardAt u c b) (ident : QString) :
    ∃ r, codeBranch u c b codeSt ident = some r ∧ Good u c b codeSt ident r :=
  (codeBranch_good hu hb sinv_code isCode_code).resolve_left fun h => hy h.2

theorem no_yield (h : nameStart u (chr c b) = false) : ¬ YieldHazardAt u c b := by
  rintro ⟨e, p, hw, _⟩
  unfold nameStart at h
  rw [hw.all b (Nat.le_refl _) hw.nonempty, hw.noDigit] at h
  exact absurd h (by decide)

include hu in
theorem nameStart_ascii {x : QChar} (hx : x < 128) : nameStart u x = (asciiLetter x || x == 95) := by
  unfold nameStart identChar
  rw [hu.letter_ascii _ hx, hu.digit_ascii _ hx]
  have : decide (x > 127) = false := by simp; omega
  rw [this]
  exact (by decide : ∀ x < 128, ((asciiLetter x || asciiDigit x || x == 95 || false) && !asciiDigit x) = (asciiLetter x || x == 95)) x hx

/-- The token `t` with the extent `e` at `b` in plain code, from what can be said of every result that keeps the contract. -/
theorem disp_of {t : Tok} {e : Nat} (hb : b < c.length)
    (ht : ∀ ident, ∃ r, codeBranch u c b codeSt ident = some r ∧ Good u c b codeSt ident r)
    (h : ∀ ident r, codeBranch u c b codeSt ident = some r → Good u c b codeSt ident r → r.tok = t ∧ r.nxt = e)
    (hm : ¬ modeTok u c b t) : Disp u c b codeSt t e codeSt := by
  intro ident
  obtain ⟨r, hr, hg⟩ := ht ident
  obtain ⟨h1, h2⟩ := h ident r hr hg
  have hs : r.stack = codeSt ∨ modeTok u c b r.tok := code_stack hb r hr
  rw [h1] at hs
  refine ⟨r.ident, r.nls, ?_⟩
  rw [dispatch_code isCode_code, hr]
  have := hs.resolve_right hm
  cases r; simp_all

theorem not_modeTok {t : Tok} (h : t ≠ .CLOSE_TAG ∧ t ≠ .BACKTICK ∧ t ≠ .DOUBLE_QUOTE ∧ t ≠ .START_HEREDOC ∧ t ≠ .START_NOWDOC ∧
    t ≠ .OBJECT_OPERATOR) : ¬ modeTok u c b t := by
  rintro (h' | h' | h' | h' | h' | ⟨h', _⟩) <;> simp_all

theorem code_ws (hb : b < c.length) (hs : u.isSpace (chr c b) = true) :
    codeBranch u c b codeSt ident = wsBranch u c b codeSt ident := by
  unfold codeBranch
  simp only [Option.bind_eq_bind]
  rw [rd_some (by omega), Option.bind_some]
  simp only [codeSt, List.getElem?_cons_zero, Option.bind_some]
  rw [if_pos hs]

theorem WhitespaceSpec.unique {e e' : Nat} (h : WhitespaceSpec u c b e) (h' : WhitespaceSpec u c b e') : e = e' := by
  have a := h.nonempty; have a' := h'.nonempty
  have b1 := h.inText; have b' := h'.inText
  rcases Nat.lt_trichotomy e e' with hlt | heq | hlt
  · have := h.maximal (by omega)
    rw [h'.all e (by omega) hlt] at this; exact absurd this (by decide)
  · exact heq
  · have := h'.maximal (by omega)
    rw [h.all e' (by omega) hlt] at this; exact absurd this (by decide)

theorem disp_ws {e : Nat} (h : WhitespaceSpec u c b e) : Disp u c b codeSt .WHITESPACE e codeSt := by
  have hb : b < c.length := by have := h.nonempty; have := h.inText; omega
  have hs : u.isSpace (chr c b) = true := h.all b (Nat.le_refl _) h.nonempty
  refine disp_of hb (fun id => ?_) (fun id r hr hg => ?_) (not_modeTok (by decide))
  · rw [code_ws hb hs]; exact wsBranch_good hb sinv_code isCode_code hs
  · rw [code_ws hb hs] at hr
    have ht := wsBranch_only _ hr
    have := hg.spec; rw [ht] at this
    exact ⟨ht, WhitespaceSpec.unique this h⟩

theorem BlockCommentSpec.unique {e e' : Nat} (h : BlockCommentSpec c b e) (h' : BlockCommentSpec c b e') : e = e' := by
  have a := h.long; have a' := h'.long
  have hc := h.close; have hc' := h'.close
  rcases Nat.lt_trichotomy e e' with hlt | heq | hlt
  · exact absurd ⟨hc.1, by rw [show e - 2 + 1 = e - 1 by omega]; exact hc.2⟩ (h'.first (e - 2) (by omega) (by omega))
  · exact heq
  · exact absurd ⟨hc'.1, by rw [show e' - 2 + 1 = e' - 1 by omega]; exact hc'.2⟩ (h.first (e' - 2) (by omega) (by omega))

include hu in
theorem slash_total (hb : b < c.length) (h : chr c b = 47 ∨ chr c b = 35) (id : QString) :
    ∃ r, codeBranch u c b codeSt id = some r ∧ Good u c b codeSt id r := by
  refine code_total hu hb (no_yield ?_) id
  rcases h with h | h <;> rw [h, nameStart_ascii hu (by decide)] <;> decide

include hu in
/-- At `//`, `/*` or `#` the token is a comment. -/
theorem comment_kind (hb : b < c.length)
    (h : chr c b = 35 ∨ (chr c b = 47 ∧ (chr c (b + 1) = 47 ∨ chr c (b + 1) = 42))) (id : QString) {r : Res}
    (hr : codeBranch u c b codeSt id = some r) : r.tok = .COMMENT ∨ r.tok = .DOC_COMMENT := by
  rw [code_quote hu hb isCode_code (by omega), if_neg (by omega), if_neg (by omega)] at hr
  rcases h with h | ⟨h, h1⟩
  · rw [if_pos h] at hr
    exact Or.inl (hashBranch_only _ hr)
  · rw [if_neg (by omega)] at hr
    have hl : b + 1 < c.length := by rcases h1 with h1 | h1 <;> exact lt_of_chr_eq h1 (by decide)
    unfold slashBranch at hr
    simp only [Option.bind_eq_bind] at hr
    rw [rd_some (by omega), Option.bind_some, if_neg (by omega)] at hr
    rcases h1 with h1 | h1
    · rw [if_pos h1] at hr
      simp only [Option.bind_eq_some_iff] at hr
      obtain ⟨d, _, _, _, hr⟩ := hr
      simp at hr; rw [← hr]; cases d <;> simp
    · rw [if_neg (by omega), if_pos h1] at hr
      simp only [Option.bind_eq_some_iff] at hr
      obtain ⟨d, _, _, _, hr⟩ := hr
      simp at hr; rw [← hr]; cases d <;> simp

/-- Some trivia token with this extent. -/
def DispTrivia (u : CharClass) (c : QString) (b e : Nat) : Prop :=
  ∀ ident, ∃ t id' nls, t.isTrivia = true ∧ dispatch u c b codeSt ident = some ⟨t, e, codeSt, id', nls⟩

include hu in
theorem disp_comment {e : Nat} (hb : b < c.length)
    (h : chr c b = 35 ∨ (chr c b = 47 ∧ (chr c (b + 1) = 47 ∨ chr c (b + 1) = 42)))
    (he : ∀ t e', (t = .COMMENT ∨ t = .DOC_COMMENT) → TokSpec u c codeSt [] b e' t → e' = e) :
    DispTrivia u c b e := by
  intro ident
  obtain ⟨r, hr, hg⟩ := slash_total hu hb (by omega) ident
  have ht := comment_kind hu hb h ident hr
  have hs : r.stack = codeSt ∨ modeTok u c b r.tok := code_stack hb r hr
  have hs' := hs.resolve_right (by
    refine not_modeTok ?_
    rcases ht with ht | ht <;> rw [ht] <;> decide)
  have hsp : TokSpec u c codeSt [] b r.nxt r.tok := by
    have := hg.spec
    rcases ht with ht | ht <;> rw [ht] at this ⊢ <;> exact this
  refine ⟨r.tok, r.ident, r.nls, ?_, ?_⟩
  · rcases ht with ht | ht <;> rw [ht] <;> rfl
  · rw [dispatch_code isCode_code, hr, ← he _ _ ht hsp]
    cases r; simp_all

include hu in
theorem disp_block {e : Nat} (h : BlockCommentSpec c b e) : DispTrivia u c b e := by
  have hb : b < c.length := lt_of_chr_eq h.open_.1 (by decide)
  have ho := h.open_
  refine disp_comment hu hb (Or.inr ⟨ho.1, Or.inr ho.2⟩) fun t e' ht hs => ?_
  have key : BlockCommentSpec c b e' := by
    have hne : ¬ OpenBlockComment c b := by
      intro hn
      have := h.long
      exact hn.never (e - 2) (by omega) ⟨h.close.1, by rw [show e - 2 + 1 = e - 1 by omega]; exact h.close.2⟩
    rcases ht with rfl | rfl
    · rcases hs with hs | ⟨hs, _⟩ | ⟨hs, _⟩
      · have := hs.open_; omega
      · exact hs
      · exact absurd hs hne
    · rcases hs with hs | ⟨hs, _⟩ | ⟨hs, _⟩
      · have := hs.open_; omega
      · exact hs
      · exact absurd hs hne
  exact key.unique h

include hu in
/-- A one-line comment that ends with the line break at `m`. -/
theorem disp_line {m : Nat} (hm : chr c m = 10) (hbm : b < m)
    (ho : chr c b = 35 ∨ (chr c b = 47 ∧ chr c (b + 1) = 47))
    (h10 : ∀ k, b ≤ k → k < m → chr c k ≠ 10)
    (htag : ∀ k, b ≤ k → k < m → ¬ (chr c k = c! '?' ∧ chr c (k + 1) = c! '>'))
    (hdoc : chr c b = 47 → chr c (b + 2) = 47 → ∀ e, ¬ ContinuesAt u c m e) : DispTrivia u c b (m + 1) := by
  have hml : m < c.length := lt_of_chr_eq hm (by decide)
  refine disp_comment hu (by omega) (by omega) fun t e hk hs => ?_
  have fin : b < e → LineCommentEnd c e → (m + 1 < e → False) → e = m + 1 := by
    intro hbe hend hgt
    by_cases h : m + 1 < e
    · exact absurd h hgt
    · rcases hend with ⟨h1, h2⟩ | ⟨h1, h2, h3⟩ | h1
      · by_cases he : e = m + 1
        · exact he
        · exact absurd h2 (h10 (e - 1) (by omega) (by omega))
      · by_cases he : e = m + 1
        · exact he
        · by_cases hem : e = m
          · subst hem; omega
          · exact absurd ⟨h2, h3⟩ (htag e (by omega) (by omega))
      · omega
  have noBlock : ∀ e, ¬ BlockCommentSpec c b e := by
    intro e h; have := h.open_; omega
  have noOpen : ¬ OpenBlockComment c b := by
    intro h; have := h.open_; omega
  rcases hk with rfl | rfl
  · rcases hs with hs | ⟨hs, _⟩ | ⟨hs, _⟩
    · exact fin hs.nonempty hs.stop fun h => hs.oneLine m (by omega) h hm
    · exact absurd hs (noBlock e)
    · exact absurd hs noOpen
  · rcases hs with hs | ⟨hs, _⟩ | ⟨hs, _⟩
    · exact fin hs.nonempty hs.stop fun h => hdoc hs.open_.1 hs.open_.2.2 e (hs.lines m (by omega) h hm)
    · exact absurd hs (noBlock e)
    · exact absurd hs noOpen

include hu in
theorem disp_var {e : Nat} (h : VariableSpec u c b e) : Disp u c b codeSt .VARIABLE e codeSt := by
  have h1 := h.nonempty
  have h2 := h.inText
  have hd := h.dollar
  have hst : nameStart u (chr c (b + 1)) = true := by
    unfold nameStart; rw [h.all (b + 1) (by omega) (by omega), h.noDigit]; rfl
  intro ident
  refine ⟨ident, [], ?_⟩
  rw [dispatch_code isCode_code]
  unfold codeBranch
  simp only [Option.bind_eq_bind]
  rw [rd_some (by omega), Option.bind_some]
  simp only [codeSt, List.getElem?_cons_zero, Option.bind_some]
  rcases processVariable_spec hu (c := c) (b := b) (by omega) with ⟨_, hno⟩ | ⟨e', hv, h'⟩
  · exact absurd ⟨hd, hst⟩ hno
  · rw [if_neg (by rw [hd, hu.space_ascii _ (by omega)]; decide), numTest_eq (by omega), Option.bind_some,
      if_neg (by rw [hd, hu.digit_ascii _ (by omega)]; simp [asciiDigit]), hv, Option.bind_some]
    have : e' = e := by
      have a := h'.nonempty; have a' := h'.inText
      rcases Nat.lt_trichotomy e e' with hlt | heq | hlt
      · have := h.maximal (by omega)
        rw [h'.all e (by omega) hlt] at this; exact absurd this (by decide)
      · exact heq.symm
      · have := h'.maximal (by omega)
        rw [h.all e' (by omega) hlt] at this; exact absurd this (by decide)
    subst this; rfl

include hu in
theorem disp_word {e : Nat} {t : Tok} (hw : WordSpec u c b e) (hs : u.isSpace (chr c b) = false)
    (h : (∃ k, k ∈ keywordNames t ∧ ciEq u (slice c b e) k = true) ∨
      (t = .STRING ∧ (∀ k kt, k ∈ keywordNames kt → ciEq u (slice c b e) k = false) ∧
        ciEq u (slice c b e) (q! "static") = false ∧ ciEq u (slice c b e) (q! "yield") = false)) :
    Disp u c b codeSt t e codeSt := by
  intro ident
  refine ⟨ident, [], ?_⟩
  rw [dispatch_code isCode_code, code_word hu isCode_code hw hs]
  rcases h with ⟨k, hm, hce⟩ | ⟨rfl, hno, h1, h2⟩
  · rw [keywordNames_iff] at hm
    have hns : ciEq u (slice c b e) (q! "static") = false ∧ ciEq u (slice c b e) (q! "yield") = false := by
      have hno := keywordTable_no_static _ hm
      have hf := fold_ascii_str hu (keywordTable_ascii _ hm)
      have hce' := hce
      rw [ciEq_fold, hf] at hce'
      constructor
      · cases hx : ciEq u (slice c b e) (q! "static")
        · rfl
        · rw [ciEq_fold, fold_ascii_str hu (s := q! "static") (by decide), hce'] at hx
          exact absurd hx hno.1
      · cases hx : ciEq u (slice c b e) (q! "yield")
        · rfl
        · rw [ciEq_fold, fold_ascii_str hu (s := q! "yield") (by decide), hce'] at hx
          exact absurd hx hno.2
    rw [wordBranch_eq hw hns.1 hns.2, lookupCI_of_mem hu keywordTable_ascii keywordTable_inj hm hce]
    rfl
  · rw [wordBranch_eq hw h1 h2]
    have : lookupCI u keywordTable (slice c b e) = none := by
      cases hl : lookupCI u keywordTable (slice c b e) with
      | none => rfl
      | some tk =>
        obtain ⟨nm, hm, hce⟩ := lookupCI_mem hl
        rw [hno nm tk (keywordNames_iff.2 hm)] at hce; exact absurd hce (by decide)
    rw [this]; rfl

/-- `p` is where the white space at `e` ends. -/
structure SpaceTo (u : CharClass) (c : QString) (e p : Nat) : Prop where
  le : e ≤ p
  all : AllChr c e p (fun ch => u.isSpace ch = true)
  stop : u.isSpace (chr c p) = false

theorem SpaceTo.unique {e p p' : Nat} (h : SpaceTo u c e p) (h' : SpaceTo u c e p') : p = p' := by
  have a := h.le; have a' := h'.le
  rcases Nat.lt_trichotomy p p' with hlt | heq | hlt
  · have := h.stop
    rw [h'.all p (by omega) hlt] at this; exact absurd this (by decide)
  · exact heq
  · have := h'.stop
    rw [h.all p' (by omega) hlt] at this; exact absurd this (by decide)

include hu in
theorem lookAhead_eq {e p : Nat} (he : 0 < e) (hl : e ≤ c.length) (h : SpaceTo u c e p) :
    lookAheadWs u c e = some (p - 1) ∧ 0 < p ∧ p ≤ c.length := by
  obtain ⟨pos, p1, p2, p3, p4, p5⟩ := lookAheadWs_spec hu (c := c) (e := e) (by omega) hl
  have : p = pos + 1 := h.unique ⟨p2, p4, p5⟩
  subst this
  exact ⟨p1, by omega, p3⟩

theorem word_scan_eq {e : Nat} (hw : WordSpec u c b e) :
    scan c.length (fun i => testAt c i (validIdent u)) b = some e := by
  have hbe := hw.nonempty
  have hb : b < c.length := by have := hw.inText; omega
  obtain ⟨e', s1, hw'⟩ := word_scan (u := u) hb (by
    rw [identStart_eq]; unfold nameStart; rw [hw.all b (Nat.le_refl _) hbe, hw.noDigit]; rfl)
  rw [hw.unique hw']; exact s1

include hu in
theorem disp_static {e p : Nat} {t : Tok} (hw : WordSpec u c b e) (hs : u.isSpace (chr c b) = false)
    (hst : ciEq u (slice c b e) (q! "static") = true) (hp : SpaceTo u c e p)
    (ht : (t = .STRING ∧ chr c p = 58 ∧ chr c (p + 1) = 58) ∨ (t = .STATIC ∧ ¬ (chr c p = 58 ∧ chr c (p + 1) = 58))) :
    Disp u c b codeSt t e codeSt := by
  have hbe := hw.nonempty
  have hel := hw.inText
  intro ident
  refine ⟨ident, [], ?_⟩
  rw [dispatch_code isCode_code, code_word hu isCode_code hw hs]
  unfold wordBranch
  simp only [Option.bind_eq_bind]
  obtain ⟨h1, h2, h3⟩ := lookAhead_eq hu (by omega) hel hp
  rw [word_scan_eq hw, Option.bind_some, if_pos hst, h1, Option.bind_some]
  have e1 : p - 1 + 1 = p := by omega
  have e2 : p - 1 + 2 = p + 1 := by omega
  have hlate : ((some (decide (p - 1 + 1 < c.length))) &&? isAt c (p - 1 + 1) (c! ':') &&? isAt c (p - 1 + 2) (c! ':')) =
      some (decide (p < c.length) && (chr c p == 58 && chr c (p + 1) == 58)) := by
    rw [e1, e2]
    exact andO_some rfl fun h => andO_some (isAt_some (by omega)) fun h' => isAt_some (by simp at h; omega)
  rw [hlate, Option.bind_some]
  rcases ht with ⟨rfl, h5, h6⟩ | ⟨rfl, hn⟩
  · have := lt_of_chr_eq h5 (by decide)
    simp [h5, h6, this]
  · have : (chr c p == 58 && chr c (p + 1) == 58) = false := by
      cases hx : (chr c p == 58 && chr c (p + 1) == 58)
      · rfl
      · simp at hx; exact absurd hx hn
    rw [this]; simp

include hu in
theorem not_static {x : QString} (h : ciEq u x (q! "yield") = true) : ciEq u x (q! "static") = false := by
  cases hx : ciEq u x (q! "static")
  · rfl
  · rw [ciEq_fold] at hx h
    rw [hx, fold_ascii_str hu (by decide), fold_ascii_str hu (by decide)] at h
    exact absurd h (by decide)

include hu in
theorem disp_yield {e p : Nat} (hw : WordSpec u c b e) (hs : u.isSpace (chr c b) = false)
    (hy : ciEq u (slice c b e) (q! "yield") = true) (hp : SpaceTo u c e p) (hl : p + 3 ≤ c.length) :
    (¬ TextAt c p (q! "from") → Disp u c b codeSt .YIELD e codeSt) ∧
    (TextAt c p (q! "from") → Disp u c b codeSt .YIELD_FROM (p + 4) codeSt) := by
  have hbe := hw.nonempty
  have hel := hw.inText
  obtain ⟨h1, h2, h3⟩ := lookAhead_eq hu (by omega) hel hp
  have key : ∀ ident, dispatch u c b codeSt ident =
      if p - 1 + 4 < c.length ∧ [chr c p, chr c (p + 1), chr c (p + 2), chr c (p + 3)] = q! "from" then
        some ⟨.YIELD_FROM, p - 1 + 5, codeSt, ident, []⟩
      else some ⟨.YIELD, e, codeSt, ident, []⟩ := by
    intro ident
    rw [dispatch_code isCode_code, code_word hu isCode_code hw hs]
    unfold wordBranch
    simp only [Option.bind_eq_bind]
    rw [word_scan_eq hw, Option.bind_some, if_neg (by rw [not_static hu hy]; decide), if_pos hy, h1, Option.bind_some,
      rd_some (by omega), Option.bind_some, rd_some (by omega), Option.bind_some, rd_some (by omega), Option.bind_some,
      rd_some (by omega), Option.bind_some, show p - 1 + 1 = p by omega, show p - 1 + 2 = p + 1 by omega,
      show p - 1 + 3 = p + 2 by omega, show p - 1 + 4 = p + 3 by omega]
  constructor
  · intro hn ident
    refine ⟨ident, [], ?_⟩
    rw [key, if_neg]
    rintro ⟨_, h⟩
    simp at h
    exact hn ⟨h.1, h.2.1, h.2.2.1, h.2.2.2, trivial⟩
  · rintro ⟨a, b', c', d, _⟩ ident
    refine ⟨ident, [], ?_⟩
    have := lt_of_chr_eq d (by decide)
    rw [key, if_pos ⟨by omega, by simp; exact ⟨a, b', c', d⟩⟩, show p - 1 + 5 = p + 4 by omega]

include hu in
theorem disp_decimal {w : Nat} (hw : DecimalSpec u c b w) :
    Disp u c b codeSt (if decimalValue (slice c b w) < 2 ^ 63 then .LNUMBER else .DNUMBER) w codeSt := by
  have hbw := hw.nonempty
  have hwl := hw.inText
  have hb : b < c.length := by omega
  have hdig : asciiDigit (chr c b) = true := hw.all b (Nat.le_refl _) hbw
  have hlt : chr c b < 128 := by unfold asciiDigit at hdig; simp at hdig; omega
  intro ident
  refine ⟨ident, [], ?_⟩
  rw [dispatch_code isCode_code, code_digit hu hb isCode_code (by rw [hu.digit_ascii _ hlt]; exact hdig)]
  have low : ∀ x, x = 120 ∨ x = 98 ∨ x = 101 → u.toLower (chr c (b + 1)) ≠ x := by
    intro x hx
    by_cases h1 : b + 1 = w
    · rw [h1]; rcases hx with rfl | rfl | rfl
      · exact hw.stop.2.2.2.1
      · exact hw.stop.2.2.2.2
      · exact hw.stop.2.2.1
    · have hd1 : asciiDigit (chr c (b + 1)) = true := hw.all _ (by omega) (by omega)
      have hl1 : 48 ≤ chr c (b + 1) ∧ chr c (b + 1) ≤ 57 := by
        unfold asciiDigit at hd1; simpa using hd1
      rw [hu.lower_ascii _ (by omega)]
      unfold asciiLower; rw [if_neg (by omega)]; omega
  unfold numBranch
  have hhex : (isAt c b (c! '0') &&? testAt c (b + 1) (fun x => u.toLower x == c! 'x')) = some false := by
    rw [show (isAt c b (c! '0') &&? testAt c (b + 1) (fun x => u.toLower x == c! 'x')) =
      some (chr c b == 48 && u.toLower (chr c (b + 1)) == 120) from
      andO_some (isAt_some (by omega)) fun _ => testAt_some (by omega)]
    have : (u.toLower (chr c (b + 1)) == 120) = false := by simpa using low 120 (by simp)
    rw [this, Bool.and_false]
  have hbin : (isAt c b (c! '0') &&? testAt c (b + 1) (fun x => u.toLower x == c! 'b')) = some false := by
    rw [show (isAt c b (c! '0') &&? testAt c (b + 1) (fun x => u.toLower x == c! 'b')) =
      some (chr c b == 48 && u.toLower (chr c (b + 1)) == 98) from
      andO_some (isAt_some (by omega)) fun _ => testAt_some (by omega)]
    have : (u.toLower (chr c (b + 1)) == 98) = false := by simpa using low 98 (by simp)
    rw [this, Bool.and_false]
  rw [hhex]
  simp only [Option.bind_eq_bind, Option.bind_some, Bool.false_eq_true, if_false]
  rw [hbin]
  simp only [Option.bind_some, Bool.false_eq_true, if_false]
  rw [numLoop_digits hu (c.length - b) b (by omega) w (by omega) hwl hw.all hw.stop.1 hw.stop.2.1]
  simp only [Option.bind_some]
  have hexp : ((some (!false && !false)) &&? isExponent u c w) = some false := by
    rw [isExponent_eq hu hwl]
    have : (u.toLower (chr c w) == 101) = false := by simpa using hw.stop.2.2.1
    rw [this]; rfl
  rw [hexp]
  simp only [Option.bind_some, Bool.false_eq_true, if_false]
  have hsl : ∀ ch ∈ slice c b w, asciiDigit ch = true := by
    intro ch hch
    obtain ⟨k, hk, rfl⟩ := mem_slice hwl hch
    exact hw.all _ (by omega) (by omega)
  have hlong : toLongOk (slice c b w) 10 = decide (decimalValue (slice c b w) < 2 ^ 63) := by
    have hne : slice c b w ≠ [] := by
      intro h0
      have := slice_length (i := b) hwl
      rw [h0] at this; simp at this; omega
    unfold toLongOk
    split
    · rename_i h0; exact absurd h0 hne
    · rw [digitsVal_decimal 0 hsl]; rfl
  rw [hlong]
  by_cases hv : decimalValue (slice c b w) < 2 ^ 63
  · rw [if_pos hv]; simp only [hv, decide_true, if_true]
  · rw [if_neg hv]; simp only [hv, decide_false, Bool.false_eq_true, if_false]

/-- The digit loop over characters it accepts. -/
theorem numLoop_seg {hex bin hp : Bool} : ∀ (k : Nat) {i e : Nat}, i + k = e → e ≤ c.length →
    (∀ j, i ≤ j → j < e → numChar u hex bin hp (chr c j) = true ∧ chr c j ≠ 46) →
    numLoop u c hex bin (c.length - i) i hp = numLoop u c hex bin (c.length - e) e hp
  | 0, i, e, h, _, _ => by rw [show i = e by omega]
  | k + 1, i, e, h, hl, hall => by
    have h0 := hall i (Nat.le_refl _) (by omega)
    rw [show c.length - i = (c.length - (i + 1)) + 1 by omega]
    conv => lhs; unfold numLoop
    rw [rd_some (by omega), Option.bind_eq_bind, Option.bind_some, if_pos h0.1]
    have : (hp || chr c i == 46) = hp := by simp [h0.2]
    rw [this]
    exact numLoop_seg k (by omega) hl fun j h1 h2 => hall j (by omega) h2

theorem numLoop_point {bin : Bool} {i : Nat} (h : chr c i = 46) :
    numLoop u c false bin (c.length - i) i false = numLoop u c false bin (c.length - (i + 1)) (i + 1) true := by
  have := lt_of_chr_eq h (by decide)
  rw [show c.length - i = (c.length - (i + 1)) + 1 by omega]
  conv => lhs; unfold numLoop
  rw [rd_some (by omega), Option.bind_eq_bind, Option.bind_some, if_pos (by unfold numChar; rw [h]; simp), h]
  rfl

theorem numLoop_stop {hex bin hp : Bool} {e : Nat} (hl : e ≤ c.length) (h : numChar u hex bin hp (chr c e) = false) :
    numLoop u c hex bin (c.length - e) e hp = some (e, hp) := by
  by_cases he : e = c.length
  · rw [he, Nat.sub_self]; rfl
  · rw [show c.length - e = (c.length - (e + 1)) + 1 by omega]
    unfold numLoop
    rw [rd_some (by omega), Option.bind_eq_bind, Option.bind_some, if_neg (by rw [h]; decide)]

theorem scan_to' {bound i r : Nat} {f : QChar → Bool} (hb : bound ≤ c.length) (h1 : i ≤ r) (h3 : r ≤ bound)
    (h2 : ∀ j, i ≤ j → j < r → f (chr c j) = true) (h4 : f (chr c r) = false) :
    scan bound (fun j => testAt c j f) i = some r := by
  obtain ⟨r', s1, s2, s3, _, s4, s5⟩ := scan_chr (c := c) (bound := bound) (i := i) f hb
  rw [s1]
  rcases Nat.lt_trichotomy r r' with h | h | h
  · have := s4 r h1 h; rw [h4] at this; exact absurd this (by decide)
  · rw [h]
  · have := s5 (by omega); rw [h2 r' s2 h] at this; exact absurd this (by decide)

theorem asciiDigit_iff {ch : QChar} : asciiDigit ch = true ↔ 48 ≤ ch ∧ ch ≤ 57 := by unfold asciiDigit; simp

include hu in
theorem isDigit_of {ch : QChar} (h : asciiDigit ch = true) : u.isDigit ch = true := by
  have := asciiDigit_iff.1 h
  rw [hu.digit_ascii _ (by omega)]; exact h

include hu in
theorem code_num (hb : b < c.length) (h : u.isDigit (chr c b) = true ∨ chr c b = 46 ∧ u.isDigit (chr c (b + 1)) = true) :
    codeBranch u c b codeSt ident = numBranch u c b codeSt ident := by
  rcases h with h | ⟨h, h'⟩
  · exact code_digit hu hb isCode_code h
  · unfold codeBranch
    simp only [Option.bind_eq_bind]
    rw [rd_some (by omega), Option.bind_some]
    simp only [codeSt, List.getElem?_cons_zero, Option.bind_some]
    rw [if_neg (by rw [h, hu.space_ascii _ (by decide)]; decide), numTest_eq hb, Option.bind_some,
      if_pos (by rw [h, h']; simp)]

/-- The end of the mantissa of a decimal literal. -/
def MantissaEnd (u : CharClass) (c : QString) (b p : Nat) (hp : Bool) : Prop :=
  p ≤ c.length ∧ (u.isDigit (chr c b) = true ∨ chr c b = 46 ∧ u.isDigit (chr c (b + 1)) = true) ∧ b < p ∧
    numLoop u c false false (c.length - b) b false = numLoop u c false false (c.length - p) p hp ∧
    ¬ (chr c b = 48 ∧ (u.toLower (chr c (b + 1)) = 120 ∨ u.toLower (chr c (b + 1)) = 98))

/-- A literal without a prefix: the branch for numbers. -/
theorem numBranch_plain {p : Nat} {hp : Bool} (h : MantissaEnd u c b p hp) (hs : numChar u false false hp (chr c p) = false) :
    numBranch u c b codeSt ident = (isExponent u c p).bind fun isExp =>
      if isExp then (isAt c (p + 1) (c! '-') ||? isAt c (p + 1) (c! '+')).bind fun sign =>
        (scan c.length (fun i => testAt c i u.isDigit) (if sign then p + 2 else p + 1)).bind fun e' =>
        some ⟨.DNUMBER, e', codeSt, ident, []⟩
      else if hp then some ⟨.DNUMBER, p, codeSt, ident, []⟩
      else if toLongOk (slice c b p) 10 then some ⟨.LNUMBER, p, codeSt, ident, []⟩
      else some ⟨.DNUMBER, p, codeSt, ident, []⟩ := by
  obtain ⟨h1, h2, h3, h4, h5⟩ := h
  unfold numBranch
  simp only [Option.bind_eq_bind]
  rw [show (isAt c b (c! '0') &&? testAt c (b + 1) (fun x => u.toLower x == c! 'x')) =
      some (chr c b == 48 && u.toLower (chr c (b + 1)) == 120) from
      andO_some (isAt_some (by omega)) fun _ => testAt_some (by omega)]
  have e1 : (chr c b == 48 && u.toLower (chr c (b + 1)) == 120) = false := by
    by_cases g : chr c b = 48
    · by_cases g' : u.toLower (chr c (b + 1)) = 120
      · exact absurd ⟨g, Or.inl g'⟩ h5
      · simp [g']
    · simp [g]
  have e2 : (chr c b == 48 && u.toLower (chr c (b + 1)) == 98) = false := by
    by_cases g : chr c b = 48
    · by_cases g' : u.toLower (chr c (b + 1)) = 98
      · exact absurd ⟨g, Or.inr g'⟩ h5
      · simp [g']
    · simp [g]
  rw [e1, Option.bind_some, if_neg (by decide)]
  rw [show (isAt c b (c! '0') &&? testAt c (b + 1) (fun x => u.toLower x == c! 'b')) =
      some (chr c b == 48 && u.toLower (chr c (b + 1)) == 98) from
      andO_some (isAt_some (by omega)) fun _ => testAt_some (by omega)]
  rw [e2, Option.bind_some, if_neg (by decide), h4, numLoop_stop h1 hs, Option.bind_some]
  rfl

include hu in
theorem disp_float {p e : Nat} {hp : Bool} (h : MantissaEnd u c b p hp) (hs : numChar u false false hp (chr c p) = false)
    (hend : (hp = true ∧ e = p ∧ ¬ (u.toLower (chr c p) = 101 ∧ (u.isDigit (chr c (p + 1)) = true ∨
        (chr c (p + 1) = 45 ∨ chr c (p + 1) = 43) ∧ u.isDigit (chr c (p + 2)) = true))) ∨
      (∃ s, (s = p + 1 ∨ (s = p + 2 ∧ (chr c (p + 1) = 45 ∨ chr c (p + 1) = 43))) ∧ s < e ∧ e ≤ c.length ∧
        u.toLower (chr c p) = 101 ∧ AllChr c s e (fun ch => asciiDigit ch = true) ∧ u.isDigit (chr c e) = false)) :
    Disp u c b codeSt .DNUMBER e codeSt := by
  intro ident
  refine ⟨ident, [], ?_⟩
  have hb : b < c.length := by have := h.1; have := h.2.2.1; omega
  rw [dispatch_code isCode_code, code_num hu hb h.2.1, numBranch_plain h hs, isExponent_eq hu h.1, Option.bind_some]
  rcases hend with ⟨rfl, rfl, hn⟩ | ⟨s, h1, h2, h3, h4, h5, h6⟩
  · rw [if_neg, if_pos rfl]
    intro hx
    simp at hx
    exact hn ⟨hx.1, by rcases hx.2 with h | ⟨h, h'⟩; exact Or.inl h; exact Or.inr ⟨h, h'⟩⟩
  · have hds : u.isDigit (chr c s) = true := isDigit_of hu (h5 s (Nat.le_refl _) h2)
    rw [if_pos (by
      rcases h1 with rfl | ⟨rfl, h1⟩
      · rw [h4, hds]; rfl
      · rw [h4, hds]; rcases h1 with h1 | h1 <;> rw [h1] <;> simp)]
    rw [show (isAt c (p + 1) (c! '-') ||? isAt c (p + 1) (c! '+')) = some (chr c (p + 1) == 45 || chr c (p + 1) == 43) from
      orO_some (isAt_some (by omega)) fun _ => isAt_some (by omega), Option.bind_some]
    have hsg : (if (chr c (p + 1) == 45 || chr c (p + 1) == 43) = true then p + 2 else p + 1) = s := by
      rcases h1 with rfl | ⟨rfl, h1⟩
      · have := asciiDigit_iff.1 (h5 _ (Nat.le_refl _) h2)
        rw [if_neg]
        simp; omega
      · rw [if_pos (by simpa using h1)]
    rw [hsg, scan_to' (Nat.le_refl _) (by omega) h3 (fun j a b => isDigit_of hu (h5 j a b)) h6, Option.bind_some]

theorem isDigit_val {ch : QChar} {d : Nat} (h : IsDigit ch d) : digitVal ch = some d := by
  unfold digitVal
  rcases h with ⟨h1, rfl⟩ | ⟨h1, h2, rfl | rfl⟩
  · rw [if_pos (asciiDigit_iff.2 (by omega))]; simp
  · rw [if_neg (fun h => by have := asciiDigit_iff.1 h; omega), if_pos (by omega)]; simp; omega
  · rw [if_neg (fun h => by have := asciiDigit_iff.1 h; omega), if_neg (by omega), if_pos (by omega)]; simp; omega

theorem digitsVal_append {base : Nat} {t : QString} : ∀ {s : QString} {a : Nat},
    digitsVal base (s ++ t) a = (digitsVal base s a).bind (digitsVal base t)
  | [], a => by simp [digitsVal]
  | ch :: r, a => by
    rw [List.cons_append]
    unfold digitsVal
    cases digitVal ch with
    | none => rfl
    | some d =>
      dsimp only
      split
      · exact digitsVal_append
      · rfl

/-- The value of a numeral is the value computed by `QString::toLong`. -/
theorem digitsVal_of_numeral {base : Nat} {s : QString} {v : Nat} (h : Numeral base s v) : digitsVal base s 0 = some v := by
  induction h with
  | nil => rfl
  | snoc h1 h2 h3 ih => rw [digitsVal_append, ih, Option.bind_some]; simp [digitsVal, isDigit_val h2, h3]

theorem numeral_hex {s : QString} {v : Nat} (h : Numeral 16 s v) : ∀ ch ∈ s, hexDigit ch := by
  induction h with
  | nil => simp
  | snoc h1 h2 h3 ih =>
    intro x hx
    rcases List.mem_append.1 hx with hx | hx
    · exact ih x hx
    · rw [List.mem_singleton.1 hx]
      unfold hexDigit
      rcases h2 with h2 | h2 <;> omega

include hu in
theorem numChar_hex {ch : QChar} (bin hp : Bool) (h : hexDigit ch) : numChar u true bin hp ch = true ∧ ch ≠ 46 := by
  refine ⟨?_, by rcases h with h | h | h <;> omega⟩
  unfold numChar
  by_cases hd : asciiDigit ch = true
  · rw [isDigit_of hu hd]; rfl
  · have hl : u.toLower ch = 97 ∨ u.toLower ch = 98 ∨ u.toLower ch = 99 ∨ u.toLower ch = 100 ∨ u.toLower ch = 101 ∨ u.toLower ch = 102 := by
      rcases h with h | h | h
      · exact absurd (asciiDigit_iff.2 h) hd
      · rw [hu.lower_ascii _ (by omega)]; unfold asciiLower; rw [if_neg (by omega)]; omega
      · rw [hu.lower_ascii _ (by omega)]; unfold asciiLower; rw [if_pos (by omega)]; omega
    rcases hl with h | h | h | h | h | h <;> rw [h] <;> simp

theorem toLong_eq {s : QString} {base v : Nat} (hne : s ≠ []) (h : digitsVal base s 0 = some v) : toLongOk s base = decide (v < 2 ^ 63) := by
  unfold toLongOk
  split
  · rename_i h0; exact absurd rfl hne
  · rw [h]

include hu in
theorem disp_hex {e v : Nat} (h0 : chr c b = 48) (h1 : chr c (b + 1) = 120 ∨ chr c (b + 1) = 88) (h2 : b + 2 < e) (h3 : e ≤ c.length)
    (h4 : AllChr c (b + 2) e hexDigit) (h5 : ¬ (chr c (b + 2) = 48 ∧ u.toLower (chr c (b + 3)) = 98))
    (h6 : u.isDigit (chr c e) = false) (h7 : ∀ l ∈ q! "abcdef", u.toLower (chr c e) ≠ l)
    (h8 : digitsVal 16 (slice c (b + 2) e) 0 = some v) :
    Disp u c b codeSt (if v < 2 ^ 63 then .LNUMBER else .DNUMBER) e codeSt := by
  intro ident
  refine ⟨ident, [], ?_⟩
  have hx : u.toLower (chr c (b + 1)) = 120 := by
    rcases h1 with h | h <;> rw [h, hu.lower_ascii _ (by decide)] <;> rfl
  rw [dispatch_code isCode_code, code_num hu (by omega) (Or.inl (by rw [h0]; exact isDigit_of hu (by decide)))]
  unfold numBranch
  simp only [Option.bind_eq_bind]
  rw [show (isAt c b (c! '0') &&? testAt c (b + 1) (fun x => u.toLower x == c! 'x')) =
      some (chr c b == 48 && u.toLower (chr c (b + 1)) == 120) from
      andO_some (isAt_some (by omega)) fun _ => testAt_some (by omega), h0, hx, Option.bind_some, if_pos (by decide)]
  rw [show (isAt c (b + 2) (c! '0') &&? testAt c (b + 2 + 1) (fun x => u.toLower x == c! 'b')) =
      some (chr c (b + 2) == 48 && u.toLower (chr c (b + 3)) == 98) from
      andO_some (isAt_some (by omega)) fun _ => testAt_some (by omega)]
  have e2 : (chr c (b + 2) == 48 && u.toLower (chr c (b + 3)) == 98) = false := by
    by_cases g : chr c (b + 2) = 48
    · by_cases g' : u.toLower (chr c (b + 3)) = 98
      · exact absurd ⟨g, g'⟩ h5
      · simp [g']
    · simp [g]
  have hst : numChar u true false false (chr c e) = false := by
    unfold numChar
    rw [h6]
    have a := h7 97 (by decide); have b := h7 98 (by decide); have d := h7 99 (by decide)
    have f := h7 100 (by decide); have g := h7 101 (by decide); have i := h7 102 (by decide)
    simp [a, b, d, f, g, i]
  rw [e2, Option.bind_some, if_neg (by decide), show ((48 : Nat) == 48 && (120 : Nat) == 120) = true from rfl,
    numLoop_seg (hp := false) (e - (b + 2)) (i := b + 2) (e := e) (by omega) h3 (fun j a b => numChar_hex hu _ _ (h4 j a b)), numLoop_stop h3 hst, Option.bind_some]
  have hne : slice c (b + 2) e ≠ [] := by
    intro hz
    have := slice_length (i := b + 2) h3
    rw [hz] at this; simp at this; omega
  show (if toLongOk (slice c (b + 2) e) 16 = true then some (⟨.LNUMBER, e, codeSt, ident, []⟩ : Res)
    else some ⟨.DNUMBER, e, codeSt, ident, []⟩) = _
  rw [toLong_eq hne h8]
  by_cases hv : v < 2 ^ 63
  · rw [if_pos hv, if_pos (by simpa using hv)]
  · rw [if_neg hv, if_neg (by simpa using hv)]

include hu in
theorem disp_bin {e : Nat} (h0 : chr c b = 48) (h1 : chr c (b + 1) = 98 ∨ chr c (b + 1) = 66) (h2 : b + 2 < e) (h3 : e ≤ c.length)
    (h4 : AllChr c (b + 2) e (fun ch => ch = 48 ∨ ch = 49)) (h6 : u.isDigit (chr c e) = false) (h7 : chr c e ≠ 46) :
    Disp u c b codeSt (if decimalValue (slice c (b + 2) e) < 2 ^ 63 then .LNUMBER else .DNUMBER) e codeSt := by
  intro ident
  refine ⟨ident, [], ?_⟩
  have hx : u.toLower (chr c (b + 1)) = 98 := by
    rcases h1 with h | h <;> rw [h, hu.lower_ascii _ (by decide)] <;> rfl
  rw [dispatch_code isCode_code, code_num hu (by omega) (Or.inl (by rw [h0]; exact isDigit_of hu (by decide)))]
  unfold numBranch
  simp only [Option.bind_eq_bind]
  rw [show (isAt c b (c! '0') &&? testAt c (b + 1) (fun x => u.toLower x == c! 'x')) =
      some (chr c b == 48 && u.toLower (chr c (b + 1)) == 120) from
      andO_some (isAt_some (by omega)) fun _ => testAt_some (by omega), h0, hx, Option.bind_some, if_neg (by decide)]
  rw [show (isAt c b (c! '0') &&? testAt c (b + 1) (fun x => u.toLower x == c! 'b')) =
      some (chr c b == 48 && u.toLower (chr c (b + 1)) == 98) from
      andO_some (isAt_some (by omega)) fun _ => testAt_some (by omega), h0, hx, Option.bind_some, if_pos (by decide)]
  have dig : ∀ j, b + 2 ≤ j → j < e → asciiDigit (chr c j) = true := by
    intro j a b
    rcases h4 j a b with h | h <;> rw [h] <;> decide
  have hst : numChar u false true false (chr c e) = false := by
    have n0 : chr c e ≠ 48 := fun h => by rw [h, isDigit_of hu (by decide)] at h6; cases h6
    have n1 : chr c e ≠ 49 := fun h => by rw [h, isDigit_of hu (by decide)] at h6; cases h6
    unfold numChar
    rw [h6]
    simp [h7, n0, n1]
  rw [show ((48 : Nat) == 48 && (98 : Nat) == 120) = false from rfl, show ((48 : Nat) == 48 && (98 : Nat) == 98) = true from rfl,
    numLoop_seg (hp := false) (e - (b + 2)) (i := b + 2) (e := e) (by omega) h3 (fun j a b => by
      refine ⟨?_, ?_⟩
      · unfold numChar; rw [isDigit_of hu (dig j a b)]; rfl
      · have := asciiDigit_iff.1 (dig j a b); omega), numLoop_stop h3 hst, Option.bind_some]
  have hne : slice c (b + 2) e ≠ [] := by
    intro hz
    have := slice_length (i := b + 2) h3
    rw [hz] at this; simp at this; omega
  have hsl : ∀ ch ∈ slice c (b + 2) e, asciiDigit ch = true := by
    intro ch hch
    obtain ⟨k, hk, rfl⟩ := mem_slice h3 hch
    exact dig _ (by omega) (by omega)
  show (if toLongOk (slice c (b + 2) e) 10 = true then some (⟨.LNUMBER, e, codeSt, ident, []⟩ : Res)
    else some ⟨.DNUMBER, e, codeSt, ident, []⟩) = _
  rw [toLong_eq hne (show digitsVal 10 (slice c (b + 2) e) 0 = some (decimalValue (slice c (b + 2) e)) from digitsVal_decimal 0 hsl)]
  by_cases hv : decimalValue (slice c (b + 2) e) < 2 ^ 63
  · rw [if_pos hv, if_pos (by simpa using hv)]
  · rw [if_neg hv, if_neg (by simpa using hv)]

theorem ClosedLiteral.unique {q : QChar} {e e' : Nat} (h : ClosedLiteral c q b e) (h' : ClosedLiteral c q b e') : e = e' := by
  have a := h.long; have a' := h'.long
  rcases Nat.lt_trichotomy e e' with hlt | heq | hlt
  · exact absurd (h'.first (e - 1) (by omega) (by omega) h.close.1) h.close.2
  · exact heq
  · exact absurd (h.first (e' - 1) (by omega) (by omega) h'.close.1) h'.close.2

include hu in
theorem disp_single {e : Nat} (h : ClosedLiteral c (c! '\'') b e) :
    Disp u c b codeSt .CONSTANT_ENCAPSED_STRING e codeSt := by
  have hl := h.long
  have hi := h.inText
  have ho := h.open_
  refine disp_of (by omega) (fun id => ?_) (fun id r hr hg => ?_) (not_modeTok (by decide))
  · exact code_total hu (by omega) (no_yield (by rw [ho, nameStart_ascii hu (by decide)]; decide)) id
  · rw [code_quote hu (by omega) isCode_code (Or.inl ho), if_pos ho] at hr
    have ht := squoteBranch_only _ hr
    have hs := hg.spec
    rw [ht] at hs
    refine ⟨ht, ?_⟩
    rcases hs with (hs | hs) | ⟨hs, _⟩
    · exact hs.unique h
    · exact absurd (hs.never (e - 1) (by omega) (by omega) h.close.1) h.close.2
    · rcases hs with hs | hs
      · exact absurd hs.open_ (by rw [ho]; decide)
      · exact absurd hs.open_ (by rw [ho]; decide)

/-- The scan of a double-quoted literal does not go beyond its closing quote. -/
theorem dquoteLoop_stop {s m : Nat} (hs : 0 < s) (ha : chr c (s - 1) ≠ 92) (hq : chr c m = 34) (he : ¬ Escaped c m) :
    ∀ (k i : Nat), i + k = c.length → s ≤ i → i ≤ m → ∀ {e fv}, dquoteLoop u c s k i = some (e, fv) → ¬ m < e := by
  intro k
  induction k with
  | zero =>
    intro i h1 h2 h3 e fv h
    simp [dquoteLoop] at h; omega
  | succ k ih =>
    intro i h1 h2 h3 e fv h
    unfold dquoteLoop at h
    simp only [Option.bind_eq_bind] at h
    have hc : (notO (isAt c i (c! '"')) ||? escaped c i s) =
        some (!(chr c i == 34) || decide (Escaped c i)) := by
      refine orO_some (notO_some (isAt_some (by omega))) fun h => ?_
      rw [escaped_eq' (by omega) h2 hs ha, bs_decide]
    rw [hc, Option.bind_some] at h
    split at h
    · rename_i hcond
      have him : i ≠ m := by
        rintro rfl
        simp [hq, he] at hcond
      obtain ⟨x, hx1, hx2⟩ := varStartAt_eq (u := u) (c := c) (i := i) (by omega) h2 hs ha
      rw [hx1, Option.bind_some] at h
      split at h
      · simp at h; omega
      · exact ih (i + 1) (by omega) (by omega) (by omega) h
    · simp at h; omega

include hu in
theorem disp_double {e : Nat} (h : ClosedLiteral c (c! '"') b e) (hv : ∀ k, b < k → k < e → ¬ VarAt u c k) :
    Disp u c b codeSt .CONSTANT_ENCAPSED_STRING e codeSt := by
  have hl := h.long
  have hi := h.inText
  have ho := h.open_
  intro ident
  rw [dispatch_code isCode_code, code_quote hu (by omega) isCode_code (Or.inr (Or.inl ho)), if_neg (by omega), if_pos ho]
  unfold dquoteBranch
  simp only [Option.bind_eq_bind]
  obtain ⟨e', fv, r1, r2, r3, r4, r5⟩ := dquoteLoop_spec (u := u) (c := c) (s := b + 1) (by omega)
    (by simp; omega) (c.length - (b + 1)) (b + 1) (by omega) (by omega)
  rw [r1, Option.bind_some]
  have hle : e' ≤ e - 1 := by
    by_cases hx : e' ≤ e - 1
    · exact hx
    · cases fv with
      | true =>
        -- a variable behind the literal: the loop would have stopped at the quote
        exfalso
        exact dquoteLoop_stop (u := u) (c := c) (s := b + 1) (m := e - 1) (by omega) (by simp; omega) h.close.1 h.close.2
          (c.length - (b + 1)) (b + 1) (by omega) (by omega) (by omega) r1 (by omega)
      | false => exact absurd ((r5 rfl).2.1 (e - 1) (by omega) (by omega) h.close.1) h.close.2
  cases fv with
  | true => exact absurd (r4 rfl).1 (hv e' (by omega) (by omega))
  | false =>
    obtain ⟨q1, q2, q3⟩ := r5 rfl
    obtain ⟨g1, g2⟩ := q3 (by omega)
    have : e' = e - 1 := by
      by_cases hx : e' = e - 1
      · exact hx
      · exact absurd (h.first e' (by omega) (by omega) g1) g2
    subst this
    refine ⟨ident, nlsIn c (b + 1) (e - 1), ?_⟩
    rw [if_neg (by simp), if_neg (by show ¬ (e - 1 = c.length); omega), show e - 1 + 1 = e by omega]

theorem chr_zero_of_ne {x : QChar} {y : QString} : chr (x :: y) 0 = x := rfl

theorem ops_start : ∀ p ∈ operators, p.1 ≠ [] ∧ chr p.1 0 < 128 ∧ asciiSpace (chr p.1 0) = false ∧ asciiDigit (chr p.1 0) = false ∧
    (asciiLetter (chr p.1 0) || chr p.1 0 == 95) = false ∧ chr p.1 0 ≠ 39 ∧ chr p.1 0 ≠ 34 ∧ chr p.1 0 ≠ 35 ∧
    (∀ ch ∈ p.1, ch ≠ 0) := by decide +kernel
theorem ops_dot : ∀ p ∈ operators, chr p.1 0 = 46 → p.1 = q! "." ∨ (1 < p.1.length ∧ chr p.1 1 < 128 ∧ asciiDigit (chr p.1 1) = false) := by
  decide +kernel
theorem ops_dollar : ∀ p ∈ operators, chr p.1 0 = 36 → p.1 = q! "$" := by decide +kernel
theorem ops_slash : ∀ p ∈ operators, chr p.1 0 = 47 → p.1 = q! "/" ∨ (1 < p.1.length ∧ chr p.1 1 ≠ 47 ∧ chr p.1 1 ≠ 42) := by
  decide +kernel
theorem ops_lt : ∀ p ∈ operators, chr p.1 0 = 60 → p.1 = q! "<" ∨ p.1 = q! "<<" ∨ (1 < p.1.length ∧ chr p.1 1 ≠ 60) ∨
    (2 < p.1.length ∧ chr p.1 2 ≠ 60) := by decide +kernel
theorem ops_mode : ∀ p ∈ operators, (p.2 = .CLOSE_TAG → p.1 = q! "?>") ∧ (p.2 = .BACKTICK → p.1 = q! "`") ∧ p.2 ≠ .DOUBLE_QUOTE ∧
    p.2 ≠ .START_HEREDOC ∧ p.2 ≠ .START_NOWDOC ∧ (p.2 = .OBJECT_OPERATOR → p.1 = q! "->") ∧ p.2.isTrivia = false ∧ p.2 ≠ .HALT_COMPILER := by
  decide +kernel
theorem ops_paren : ∀ p ∈ operators, chr p.1 0 = 40 → p.1 = q! "(" := by decide +kernel

theorem castSpec_text {pre rest : QString} {e : Nat} {t : Tok} (h : CastSpec u (pre ++ rest) pre.length e t) :
    ∃ x r, rest = x ++ r ∧ CastText u x t := by
  obtain ⟨p, q, name, hp, hn, hce⟩ := h
  obtain ⟨o1, o2, o3⟩ := hp.order
  have hcl := hp.close
  have hel : e - 1 < (pre ++ rest).length := lt_of_chr_eq hcl (by decide)
  have hdrop : ∀ i j, pre.length ≤ i → i ≤ j → j ≤ (pre ++ rest).length →
      slice (pre ++ rest) i j = slice rest (i - pre.length) (j - pre.length) := by
    intro i j h1 h2 h3
    unfold slice
    rw [show (pre ++ rest).drop i = rest.drop (i - pre.length) by
      rw [List.drop_append, List.drop_eq_nil_of_le h1, List.nil_append], show j - pre.length - (i - pre.length) = j - i by omega]
  have hall : ∀ {i j : Nat} {P : QChar → Prop}, i ≤ j → j ≤ (pre ++ rest).length → AllChr (pre ++ rest) i j P →
      ∀ ch ∈ slice (pre ++ rest) i j, P ch := by
    intro i j P h1 h2 h ch hch
    obtain ⟨k, hk, rfl⟩ := mem_slice h2 hch
    exact h _ (by omega) (by omega)
  refine ⟨slice (pre ++ rest) pre.length e, rest.drop (e - pre.length), ?_, ⟨?_⟩⟩
  · unfold slice; simp
  · refine ⟨slice (pre ++ rest) (pre.length + 1) p, slice (pre ++ rest) p q, slice (pre ++ rest) q (e - 1), name, ?_,
      fun ch hch => hall (by omega) (by omega) hp.ws1 ch hch, fun ch hch => hall (by omega) (by omega) hp.ws2 ch hch,
      fun ch hch => hall (by omega) (by omega) hp.word ch hch, hn, hce⟩
    have h1 : slice (pre ++ rest) pre.length (pre.length + 1) = q! "(" := by rw [slice_chr (by omega), hp.open_]
    have h2 : slice (pre ++ rest) (e - 1) e = q! ")" := by
      have := slice_chr (c := pre ++ rest) (i := e - 1) hel
      rw [show e - 1 + 1 = e by omega] at this
      rw [this, hcl]
    rw [← h1, ← h2, slice_append (by omega) (by omega), slice_append (by omega) (by omega),
      slice_append (by omega) (by omega), slice_append (by omega) (by omega)]

include hu in
theorem disp_op {pre op rest : QString} {t : Tok} (hm : (op, t) ∈ operators) (h96 : op ≠ q! "`") (hct : op ≠ q! "?>")
    (hmax : ∀ p ∈ operators, p.1 <+: op ++ rest → p.1.length ≤ op.length) (hf : OpFollow u op rest) :
    Disp u (pre ++ (op ++ rest)) pre.length codeSt t (pre.length + op.length) codeSt := by
  obtain ⟨hne, s1, s2, s3, s4, s5, s6, s7, s8⟩ := ops_start _ hm
  obtain ⟨f1, f2, f3, f4, f5, f6⟩ := hf
  dsimp only at hne s1 s2 s3 s4 s5 s6 s7 s8
  have hb : pre.length < (pre ++ (op ++ rest)).length := by
    have := List.length_pos_iff.2 hne; simp; omega
  have h0 : chr (pre ++ (op ++ rest)) pre.length = chr op 0 := chr_first hne
  have h1 : ∀ i, i < op.length → chr (pre ++ (op ++ rest)) (pre.length + i) = chr op i := fun i h => chr_in h
  have hend : ∀ i n, op.length = n → chr (pre ++ (op ++ rest)) (pre.length + n + i) = chr rest i := by
    rintro i n rfl; exact chr_at i
  have hno : NoOtherElement u (pre ++ (op ++ rest)) pre.length := by
    refine ⟨?_, ?_, ?_, ?_, ?_, ⟨?_, ?_⟩, ?_, ?_, ?_⟩
    · rw [h0, hu.space_ascii _ s1]; exact s2
    · rw [h0, hu.digit_ascii _ s1]; exact s3
    · rintro ⟨ha, hd⟩
      rw [h0] at ha
      rcases ops_dot _ hm ha with h | ⟨h, h', h''⟩
      · dsimp only at h
        rw [hend 0 1 (by rw [h]; rfl), f1 h] at hd; exact absurd hd (by decide)
      · rw [h1 1 h, hu.digit_ascii _ h', h''] at hd; exact absurd hd (by decide)
    · rw [h0, nameStart_ascii hu s1]; exact s4
    · rintro ⟨ha, hd⟩
      rw [h0] at ha
      have h := ops_dollar _ hm ha
      dsimp only at h
      rw [hend 0 1 (by rw [h]; rfl), f2 h] at hd; exact absurd hd (by decide)
    · rw [h0]; exact s5
    · rw [h0]; exact s6
    · rw [h0]; exact s7
    · rintro ⟨ha, hd, _⟩
      rw [h0] at ha
      rcases ops_slash _ hm ha with h | ⟨h, h', h''⟩
      · dsimp only at h
        rw [hend 0 1 (by rw [h]; rfl)] at hd; exact (f3 h).1 hd
      · rw [h1 1 h] at hd; exact h' hd
    · rintro ⟨ha, hd, _⟩
      rw [h0] at ha
      rcases ops_slash _ hm ha with h | ⟨h, h', h''⟩
      · dsimp only at h
        rw [hend 0 1 (by rw [h]; rfl)] at hd; exact (f3 h).2 hd
      · rw [h1 1 h] at hd; exact h'' hd
  have hlong : LongestOperator (pre ++ (op ++ rest)) pre.length (pre.length + op.length) t := by
    refine ⟨op, hm, (textAt_pre s8).2 (List.prefix_append _ _), rfl, fun p hp ht => hmax p hp ?_⟩
    exact (textAt_pre (ops_start _ hp).2.2.2.2.2.2.2.2).1 ht
  refine disp_of hb (fun id => code_total hu hb (no_yield hno.name) id) (fun id r hr hg => ?_) ?_
  · rcases codeBranch_longest hu hb isCode_code hno r hr with ⟨hc, hp⟩ | ⟨_, hd⟩ | h | ⟨_, _, h⟩
    · exfalso
      have hsp : CastSpec u (pre ++ (op ++ rest)) pre.length r.nxt r.tok := by
        have := hg.spec
        revert this hc
        cases r.tok <;> intro hc <;> simp [Tok.isCast] at hc <;> exact fun h => h
      obtain ⟨x, r', he, hx⟩ := castSpec_text hsp
      rw [h0] at hp
      exact f6 (ops_paren _ hm hp) x r' _ he hx
    · exfalso
      obtain ⟨d0, d1, d2, _⟩ := hd
      rw [h0] at d0
      rcases ops_lt _ hm d0 with h | h | ⟨h, h'⟩ | ⟨h, h'⟩
      · dsimp only at h
        have := hmax (q! "<<", .SL) (by decide) (by
          have e1 := hend 0 1 (by rw [h]; rfl)
          rw [Nat.add_zero, d1] at e1
          cases rest with
          | nil => exact absurd e1 (by decide)
          | cons y r' => rw [chr_zero_of_ne] at e1; rw [h, ← e1]; exact List.prefix_append _ _)
        rw [h] at this; exact absurd this (by decide)
      · dsimp only at h
        have e2 := hend 0 2 (by rw [h]; rfl)
        rw [Nat.add_zero, d2] at e2
        exact f4 h e2.symm
      · rw [h1 1 h] at d1; exact h' d1
      · rw [show pre.length + 1 + 1 = pre.length + 2 from rfl, h1 2 h] at d2; exact h' d2
    · have := longest_unique h hlong
      exact ⟨this.2, this.1⟩
    · exact absurd ((textAt_pre s8).2 (List.prefix_append _ _)) (h (op, t) hm)
  · obtain ⟨m1, m2, m3, m4, m5, m6, _⟩ := ops_mode _ hm
    rintro (h | h | h | h | h | ⟨h, h'⟩)
    · exact hct (m1 h)
    · exact h96 (m2 h)
    · exact m3 h
    · exact m4 h
    · exact m5 h
    · have ho := m6 h
      dsimp only at ho
      rw [← Nat.add_zero (pre.length + 2), hend 0 2 (by rw [ho]; rfl), f5 ho] at h'; exact absurd h' (by decide)

/-- `a` with the modes of plain code says the same as `b` with the modes `st`. -/
def Lift (st : List St) (id : QString) (a b : Option Res) : Prop :=
  ∀ r, a = some r → r.stack = codeSt → b = some ⟨r.tok, r.nxt, st, id, r.nls⟩

section
variable {st : List St} {id : QString}

theorem Lift.bind {α : Type} {x : Option α} {f g : α → Option Res} (h : ∀ y, x = some y → Lift st id (f y) (g y)) :
    Lift st id (x.bind f) (x.bind g) := by
  intro r hr
  cases hx : x with
  | none => rw [hx] at hr; cases hr
  | some y => rw [hx] at hr; exact h y hx r hr

theorem Lift.ite {p : Prop} [Decidable p] {a b a' b' : Option Res} (h1 : p → Lift st id a a') (h2 : ¬ p → Lift st id b b') :
    Lift st id (if p then a else b) (if p then a' else b') := by
  by_cases hp : p
  · rw [if_pos hp, if_pos hp]; exact h1 hp
  · rw [if_neg hp, if_neg hp]; exact h2 hp

theorem Lift.res {t : Tok} {e : Nat} {i : QString} {nls : List Nat} : Lift st id (some ⟨t, e, codeSt, i, nls⟩) (some ⟨t, e, st, id, nls⟩) := by
  intro r hr _; cases hr; rfl

theorem Lift.other {a : Option Res} (x : Option Res) (h : ∀ r, a = some r → r.stack ≠ codeSt) : Lift st id a x :=
  fun r hr hs => absurd hs (h r hr)

theorem Lift.push {t : Tok} {e : Nat} {s : St} {i : QString} {nls : List Nat} (x : Option Res) :
    Lift st id (some ⟨t, e, s :: codeSt, i, nls⟩) x := by
  apply Lift.other
  intro r hr; cases hr; simp [codeSt]

/-- In the code of an interpolation the lexer reads what it reads in plain code, except for braces and what opens or closes a mode. -/
theorem code_lift {below : List St} (h1 : chr c b ≠ 123) (h2 : chr c b ≠ 125) :
    Lift (.StrVarCurly :: below) ident (codeBranch u c b codeSt ident) (codeBranch u c b (.StrVarCurly :: below) ident) := by
  unfold codeBranch
  simp only [Option.bind_eq_bind]
  refine Lift.bind fun ch hch => ?_
  have hch' : chr c b = ch := by
    by_cases hl : b ≤ c.length
    · rw [rd_some hl] at hch; cases hch; rfl
    · rw [rd_none (by omega)] at hch; cases hch
  have e1 : (codeSt[0]?) = some St.Default := rfl
  have e2 : ((St.StrVarCurly :: below)[0]?) = some St.StrVarCurly := rfl
  rw [e1, e2]
  simp only [Option.bind_some]
  refine Lift.ite (fun _ => ?_) (fun _ => ?_)
  · unfold wsBranch; simp only [Option.bind_eq_bind]; exact Lift.bind fun _ _ => Lift.res
  refine Lift.bind fun _ _ => Lift.ite (fun _ => ?_) (fun _ => ?_)
  · unfold numBranch; simp only [Option.bind_eq_bind]
    refine Lift.bind fun _ _ => Lift.bind fun _ _ => Lift.bind fun p _ => ?_
    obtain ⟨e, hp⟩ := p
    dsimp only
    refine Lift.bind fun _ _ => Lift.ite (fun _ => ?_) (fun _ => ?_)
    · exact Lift.bind fun _ _ => Lift.bind fun _ _ => Lift.res
    exact Lift.ite (fun _ => Lift.res) (fun _ => Lift.ite (fun _ => Lift.res) (fun _ => Lift.res))
  refine Lift.bind fun v _ => ?_
  cases v with
  | some e => exact Lift.res
  | none =>
    dsimp only
    refine Lift.ite (fun _ => Lift.res) (fun _ => ?_)
    rw [if_neg (show ¬ ch = 125 by rw [← hch']; exact h2), if_neg (show ¬ ch = 125 by rw [← hch']; exact h2),
      if_neg (show ¬ ch = 123 by rw [← hch']; exact h1), if_neg (show ¬ ch = 123 by rw [← hch']; exact h1)]
    refine Lift.ite (fun _ => ?_) (fun _ => ?_)
    · unfold parenBranch; simp only [Option.bind_eq_bind]
      refine Lift.bind fun _ _ => Lift.bind fun _ _ => Lift.bind fun _ _ => Lift.bind fun _ _ => Lift.ite (fun _ => ?_) (fun _ => Lift.res)
      cases lookupCI u castTable (slice c _ _) <;> exact Lift.res
    refine Lift.ite (fun _ => ?_) (fun _ => ?_)
    · unfold ltBranch; simp only [Option.bind_eq_bind]
      refine Lift.bind fun _ _ => Lift.ite (fun _ => ?_) (fun _ => Lift.ite (fun _ => ?_) (fun _ => Lift.ite (fun _ => Lift.res) (fun _ => Lift.res)))
      · refine Lift.bind fun c2 _ => ?_
        rw [e1, e2]
        simp only [Option.bind_some]
        rw [show heredocOpt u c b ident (c2 == c! '<' && St.StrVarCurly != St.StrVarCurly) = some (ident, none) by
          unfold heredocOpt; simp]
        simp only [Option.bind_some]
        generalize heredocOpt u c b ident _ = o
        cases o with
        | none => intro r hr; cases hr
        | some p =>
          obtain ⟨id1, hd⟩ := p
          simp only [Option.bind_some]
          match hd with
          | some (true, q) => exact Lift.push _
          | some (false, q) => exact Lift.push _
          | none => exact Lift.ite (fun _ => Lift.res) (fun _ => Lift.res)
      · exact Lift.bind fun _ _ => Lift.ite (fun _ => Lift.res) (fun _ => Lift.res)
    refine Lift.ite (fun _ => ?_) (fun _ => ?_)
    · unfold questionBranch; simp only [Option.bind_eq_bind]
      refine Lift.bind fun _ _ => Lift.ite (fun _ => ?_) (fun _ => Lift.ite (fun _ => Lift.res) (fun _ => Lift.res))
      apply Lift.other
      intro r hr
      simp only [codeSt, dropToHtml, Option.bind_some] at hr
      cases hr; simp [codeSt]
    refine Lift.bind fun _ _ => Lift.ite (fun _ => ?_) (fun _ => ?_)
    · refine Lift.bind fun m _ => ?_
      cases m with
      | false => exact Lift.res
      | true => exact Lift.push _
    refine Lift.ite (fun _ => ?_) (fun _ => ?_)
    · unfold slashBranch; simp only [Option.bind_eq_bind]
      refine Lift.bind fun _ _ => Lift.ite (fun _ => Lift.res) (fun _ => Lift.ite (fun _ => ?_) (fun _ => Lift.ite (fun _ => ?_) (fun _ => Lift.res)))
      · exact Lift.bind fun _ _ => Lift.bind fun _ _ => Lift.res
      · exact Lift.bind fun _ _ => Lift.bind fun _ _ => Lift.res
    refine Lift.ite (fun _ => ?_) (fun _ => ?_)
    · unfold hashBranch; simp only [Option.bind_eq_bind]; exact Lift.bind fun _ _ => Lift.res
    refine Lift.ite (fun _ => ?_) (fun _ => ?_)
    · unfold squoteBranch; simp only [Option.bind_eq_bind]; exact Lift.bind fun _ _ => Lift.res
    refine Lift.ite (fun _ => ?_) (fun _ => ?_)
    · unfold dquoteBranch; simp only [Option.bind_eq_bind]
      exact Lift.bind fun _ _ => Lift.ite (fun _ => Lift.push _) (fun _ => Lift.ite (fun _ => Lift.res) (fun _ => Lift.res))
    refine Lift.ite (fun _ => Lift.push _) (fun _ => ?_)
    refine Lift.bind fun o _ => ?_
    match o with
    | some (t, k) => exact Lift.res
    | none =>
      dsimp only
      refine Lift.ite (fun _ => ?_) (fun _ => Lift.res)
      unfold wordBranch; simp only [Option.bind_eq_bind]
      refine Lift.bind fun _ _ => Lift.ite (fun _ => ?_) (fun _ => Lift.ite (fun _ => ?_) (fun _ => ?_))
      · exact Lift.bind fun _ _ => Lift.bind fun _ _ => Lift.res
      · exact Lift.bind fun _ _ => Lift.bind fun _ _ => Lift.bind fun _ _ => Lift.bind fun _ _ => Lift.bind fun _ _ =>
          Lift.ite (fun _ => Lift.res) (fun _ => Lift.res)
      · cases lookupCI u keywordTable (slice c b _) <;> exact Lift.res

end

include hu in
/-- `->` directly before a name: the next token is taken as a name. -/
theorem disp_arrow {st : List St} (hst : isCode st) (h0 : chr c b = 45) (h1 : chr c (b + 1) = 62)
    (h2 : identChar u (chr c (b + 2)) = true) :
    DispKeep u c b st .OBJECT_OPERATOR (b + 2) (.StrVarObjOp :: st) := by
  intro ident
  have hl := lt_of_chr_eq h1 (by decide)
  refine ⟨[], ?_⟩
  rw [dispatch_code hst]
  obtain ⟨top, below, rfl, _⟩ := hst
  unfold codeBranch
  simp only [Option.bind_eq_bind]
  rw [rd_some (by omega), Option.bind_some]
  simp only [List.getElem?_cons_zero, Option.bind_some]
  have hv : processVariable u c b = some none := by
    rcases processVariable_spec hu (c := c) (b := b) (by omega) with ⟨h, _⟩ | ⟨e, h, h'⟩
    · exact h
    · have := h'.dollar; omega
  have harr : (isAt c b (c! '-') &&? isAt c (b + 1) (c! '>')) = some true := by
    rw [show (isAt c b (c! '-') &&? isAt c (b + 1) (c! '>')) = some (chr c b == 45 && chr c (b + 1) == 62) from
      andO_some (isAt_some (by omega)) fun _ => isAt_some (by omega), h0, h1]; rfl
  rw [if_neg (by rw [h0, hu.space_ascii _ (by omega)]; decide), numTest_eq (by omega), Option.bind_some,
    if_neg (by rw [h0, hu.digit_ascii _ (by omega)]; simp [asciiDigit]), hv, Option.bind_some, harr, Option.bind_some,
    testAt_some (by omega), validIdent_eq, h2, Option.bind_some]
  simp [h0]

theorem disp_member {e : Nat} (hbe : b < e) (hel : e ≤ c.length) (hall : AllChr c b e (fun ch => identChar u ch = true))
    (hmax : identChar u (chr c e) = false) {st : List St} (hst : isCode st) : DispKeep u c b (.StrVarObjOp :: st) .STRING e st := by
  intro ident
  refine ⟨[], ?_⟩
  obtain ⟨top, below, rfl, htop⟩ := hst
  show objOpBranch u c b (.StrVarObjOp :: top :: below) ident = _
  unfold objOpBranch
  obtain ⟨e', s1, s2, s3, _, s4, s5⟩ := scan_chr (c := c) (bound := c.length) (i := b) (validIdent u) (Nat.le_refl _)
  have : e' = e := by
    have := s3 (by omega)
    rcases Nat.lt_trichotomy e e' with hlt | heq | hlt
    · have := s4 e (by omega) hlt
      rw [validIdent_eq, hmax] at this; exact absurd this (by decide)
    · exact heq.symm
    · have h1 := s5 (by omega)
      rw [validIdent_eq, hall e' (by omega) hlt] at h1; exact absurd h1 (by decide)
  subst this
  rw [s1]
  have : top ≠ .StrVar := by rcases htop with rfl | rfl <;> decide
  simp [popSt, popStrVar, this]

include hu in
theorem disp_cast {e : Nat} {t : Tok} (h : CastSpec u c b e t) (he : e ≤ c.length) : Disp u c b codeSt t e codeSt := by
  have hcast : ∀ t, (∃ n, n ∈ castNames t) → t.isCast = true := by
    rintro t ⟨n, hn⟩
    exact (by decide : ∀ x ∈ castTable, x.2.isCast = true) _ (castNames_iff.1 hn)
  obtain ⟨p, q, name, hp, hn, hce⟩ := id h
  have ho := hp.open_
  have hord := hp.order
  have hb : b < c.length := by omega
  have hyn : ¬ YieldHazardAt u c b := no_yield (by rw [ho, nameStart_ascii hu (by decide)]; decide)
  refine disp_of hb (fun id => code_total hu hb hyn id) (fun id r hr hg => ?_) (not_modeTok ?_)
  · have hr' := hr
    rw [code_paren hu hb isCode_code ho] at hr'
    have kinds : r.tok = .LPAREN ∨ r.tok.isCast = true := by
      have : Yields (fun r => r.tok = .LPAREN ∨ r.tok.isCast = true) (parenBranch u c b codeSt id) := by
        unfold parenBranch; simp only [Option.bind_eq_bind]; explore
        · split
          · rename_i t ht
            obtain ⟨nm, hm, _⟩ := lookupCI_mem ht
            exact Yields.res (Or.inr ((by decide : ∀ x ∈ castTable, x.2.isCast = true) _ hm))
          · exact Yields.res (Or.inl rfl)
        · exact Or.inl rfl
      exact this _ hr'
    have hs := hg.spec
    rcases kinds with hk | hk
    · rw [hk] at hs; exact absurd h (hs.2.2 e t)
    · have hsp : CastSpec u c b r.nxt r.tok := by
        revert hs; revert hk
        cases r.tok <;> intro hk <;> simp [Tok.isCast] at hk <;> exact fun h => h
      have := hsp.unique hu h
      exact ⟨this.2, this.1⟩
  · have := hcast t ⟨name, hn⟩
    revert this
    cases t <;> simp [Tok.isCast]

include hu in
theorem disp_close (h0 : chr c b = 63) (h1 : chr c (b + 1) = 62) : Disp u c b codeSt .CLOSE_TAG (b + 2) [.Html, .Error] := by
  intro ident
  have hl := lt_of_chr_eq h1 (by decide)
  refine ⟨ident, [], ?_⟩
  rw [dispatch_code isCode_code]
  unfold codeBranch
  simp only [Option.bind_eq_bind]
  rw [rd_some (by omega), Option.bind_some]
  simp only [codeSt, List.getElem?_cons_zero, Option.bind_some]
  have hv : processVariable u c b = some none := by
    rcases processVariable_spec hu (c := c) (b := b) (by omega) with ⟨h, _⟩ | ⟨e, h, h'⟩
    · exact h
    · have := h'.dollar; omega
  rw [if_neg (by rw [h0, hu.space_ascii _ (by omega)]; decide), numTest_eq (by omega), Option.bind_some,
    if_neg (by rw [h0, hu.digit_ascii _ (by omega)]; simp [asciiDigit]), hv, Option.bind_some]
  simp only [h0, Nat.reduceEqDiff, if_false, if_true]
  unfold questionBranch
  simp only [Option.bind_eq_bind]
  rw [rd_some (by omega), Option.bind_some, if_pos h1]
  rfl

include hu in
theorem disp_openPhp (h0 : chr c b = 60) (h1 : chr c (b + 1) = 63) (hp : u.toLower (chr c (b + 2)) = 112)
    (hh : u.toLower (chr c (b + 3)) = 104) (hp' : u.toLower (chr c (b + 4)) = 112) (hs : u.isSpace (chr c (b + 5)) = true)
    (hl : b + 5 < c.length) : Disp u c b [.Html, .Error] .OPEN_TAG (b + 6) codeSt := by
  intro ident
  show ∃ id' nls, htmlBranch u c b [.Html, .Error] ident = _
  unfold htmlBranch
  simp only [Option.bind_eq_bind]
  have ho : isOpenTag u c b = some true := by
    rw [isOpenTag_eq hu (show b < c.length by omega), h0, h1, hp]; rfl
  have hph : isPhpTag u c b = some true := by
    rw [isPhpTag_eq hu (show b + 2 ≤ c.length by omega), hp, hh, hp', hs]; rfl
  have h61 : (chr c (b + 2) == 61) = false := by
    by_cases h : chr c (b + 2) = 61
    · rw [h, hu.lower_ascii _ (by decide)] at hp; exact absurd hp (by decide)
    · simpa using h
  rw [ho, Option.bind_some, if_pos rfl, isAt_some (by omega), h61, Option.bind_some, if_neg (by decide), hph, Option.bind_some,
    if_pos rfl, isAt_some (by omega), Option.bind_some]
  exact ⟨_, _, rfl⟩

include hu in
theorem disp_openEcho (h0 : chr c b = 60) (h1 : chr c (b + 1) = 63) (h2 : chr c (b + 2) = 61) :
    Disp u c b [.Html, .Error] .OPEN_TAG_WITH_ECHO (b + 3) codeSt := by
  have hl := lt_of_chr_eq h2 (by decide)
  intro ident
  show ∃ id' nls, htmlBranch u c b [.Html, .Error] ident = _
  unfold htmlBranch
  simp only [Option.bind_eq_bind]
  have ho : isOpenTag u c b = some true := by
    rw [isOpenTag_eq hu (show b < c.length by omega), h0, h1, h2, hu.lower_ascii _ (by decide)]; rfl
  rw [ho, Option.bind_some, if_pos rfl, isAt_some (by omega), h2, Option.bind_some, if_pos (by decide)]
  exact ⟨_, _, rfl⟩

include hu in
theorem disp_openShort (h0 : chr c b = 60) (h1 : chr c (b + 1) = 63) (h2 : chr c (b + 2) ≠ 61)
    (h3 : ¬ (u.toLower (chr c (b + 2)) = 120 ∧ u.toLower (chr c (b + 3)) = 109 ∧ u.toLower (chr c (b + 4)) = 108))
    (h4 : ¬ (u.toLower (chr c (b + 2)) = 112 ∧ u.toLower (chr c (b + 3)) = 104 ∧ u.toLower (chr c (b + 4)) = 112 ∧
      u.isSpace (chr c (b + 5)) = true)) : Disp u c b [.Html, .Error] .OPEN_TAG (b + 2) codeSt := by
  have hl := lt_of_chr_eq h1 (by decide)
  intro ident
  show ∃ id' nls, htmlBranch u c b [.Html, .Error] ident = _
  unfold htmlBranch
  simp only [Option.bind_eq_bind]
  have ho : isOpenTag u c b = some true := by
    rw [isOpenTag_eq hu (show b < c.length by omega), h0, h1]
    have : (u.toLower (chr c (b + 2)) == 120 && (u.toLower (chr c (b + 3)) == 109 && u.toLower (chr c (b + 4)) == 108)) = false := by
      rw [Bool.eq_false_iff]
      intro h; simp at h; exact h3 h
    rw [this]; rfl
  have hph : isPhpTag u c b = some false := by
    rw [isPhpTag_eq hu (show b + 2 ≤ c.length by omega)]
    congr 1
    rw [Bool.eq_false_iff]
    intro h; simp at h; exact h4 ⟨h.1, h.2.1, h.2.2.1, h.2.2.2⟩
  have h61 : (chr c (b + 2) == 61) = false := by simpa using h2
  rw [ho, Option.bind_some, if_pos rfl, isAt_some (by omega), h61, Option.bind_some, if_neg (by decide), hph, Option.bind_some,
    if_neg (by decide)]
  exact ⟨_, _, rfl⟩

include hu in
theorem disp_html {e : Nat} (hb : b < c.length) (hno : chr c b = 60 → chr c (b + 1) = 63 → XmlAt u c b) (h : InlineHtmlSpec c b e) :
    Disp u c b [.Html, .Error] .INLINE_HTML e [.Html, .Error] := by
  intro ident
  show ∃ id' nls, htmlBranch u c b [.Html, .Error] ident = _
  unfold htmlBranch
  simp only [Option.bind_eq_bind]
  have ho : isOpenTag u c b = some false := by
    rw [isOpenTag_eq hu (show b < c.length by omega)]
    by_cases h : chr c b = 60
    · by_cases h' : chr c (b + 1) = 63
      · obtain ⟨a, b, d⟩ := hno h h'
        rw [a, b, d]; simp
      · simp [h']
    · simp [h]
  rw [ho, Option.bind_some, if_neg (by decide)]
  obtain ⟨r, s1, s2, s3, _, s4, s5⟩ := scan_spec (bound := c.length) (i := b)
    (p := fun i => notO (isAt c (i + 1) (c! '<') &&? isAt c (i + 2) (c! '?')))
    (fun i => !(chr c (i + 1) == 60 && chr c (i + 2) == 63))
    (fun j hj1 hj2 _ => notO_some (andO_some (isAt_some (by omega)) fun h => isAt_some (by
      have := lt_of_beq h (by decide); omega)))
  have hr := s3 (by omega)
  have hne := h.nonempty
  have he : r + 1 = e := by
    rcases Nat.lt_trichotomy (r + 1) e with hlt | heq | hgt
    · exfalso
      have hrl : r < c.length := by
        rcases h.stop with ⟨_, _, h3⟩ | h3 <;> omega
      have := s5 hrl
      simp at this
      exact h.noTag (r + 1) (by omega) hlt this
    · exact heq
    · exfalso
      rcases h.stop with ⟨h1, h2, h3⟩ | h3
      · have := s4 (e - 1) (by omega) (by omega)
        rw [show e - 1 + 1 = e by omega, show e - 1 + 2 = e + 1 by omega, h1, h2] at this
        exact absurd this (by decide)
      · omega
  rw [s1, Option.bind_some, he]
  exact ⟨_, _, rfl⟩

end

/-! ## Every lexeme is read -/

section
variable {u : CharClass} {pre x rest : QString}

theorem absent2 {a b : QChar} {t : QString} (h : Absent [a, b] t) {k : Nat} (hk : k + 1 < t.length)
    (h0 : chr t k = a) (h1 : chr t (k + 1) = b) : False := by
  refine h (t.take k) (t.drop (k + 2)) ?_
  have e0 : t[k]'(by omega) = a := by rw [← h0]; unfold chr; simp [List.getD, show k < t.length by omega]
  have e1 : t[k + 1]'hk = b := by rw [← h1]; unfold chr; simp [List.getD, hk]
  have : t.drop k = a :: b :: t.drop (k + 2) := by
    rw [List.drop_eq_getElem_cons (by omega), List.drop_eq_getElem_cons hk, e0, e1]
  rw [List.append_assoc, List.cons_append, List.cons_append, List.nil_append, ← this, List.take_append_drop]

theorem bsBefore_succ (c : QString) (i : Nat) : bsBefore c (i + 1) = if chr c i = 92 then bsBefore c i + 1 else 0 := rfl

/-- Inside a literal each character that is not plain is escaped, and the end of the literal is not. -/
theorem quoted_escaped {plain : QChar → Bool} (hp : plain 92 = true) {body : QString} (h : QuotedText plain body) :
    ∀ {pre rest : QString}, ¬ Escaped (pre ++ (body ++ rest)) pre.length →
      (∀ k, pre.length ≤ k → k < pre.length + body.length → plain (chr (pre ++ (body ++ rest)) k) = false →
        Escaped (pre ++ (body ++ rest)) k) ∧ ¬ Escaped (pre ++ (body ++ rest)) (pre.length + body.length) := by
  induction h with
  | nil => intro pre rest h; exact ⟨fun k h1 h2 => by simp at h2; omega, h⟩
  | @char ch r h1 h2 _ ih =>
    intro pre rest he
    have c0 : chr (pre ++ (ch :: r ++ rest)) pre.length = ch := chr_first (by simp)
    have := @ih (pre ++ [ch]) rest (by
      have e1 : pre ++ [ch] ++ (r ++ rest) = pre ++ (ch :: r ++ rest) := by simp
      rw [e1]
      unfold Escaped; simp only [List.length_append, List.length_cons, List.length_nil, Nat.zero_add]
      rw [bsBefore_succ, c0, if_neg h2]; decide)
    have e1 : pre ++ [ch] ++ (r ++ rest) = pre ++ (ch :: r ++ rest) := by simp
    rw [e1] at this
    simp only [List.length_append, List.length_cons, List.length_nil, Nat.zero_add] at this ⊢
    refine ⟨fun k k1 k2 k3 => ?_, by rw [← Nat.add_assoc, Nat.add_right_comm]; exact this.2⟩
    by_cases hk : k = pre.length
    · subst hk; rw [c0, h1] at k3; cases k3
    · exact this.1 k (by omega) (by omega) k3
  | @pair ch r _ ih =>
    intro pre rest he
    have c0 : chr (pre ++ (92 :: ch :: r ++ rest)) pre.length = 92 := chr_first (by simp)
    have c1 : chr (pre ++ (92 :: ch :: r ++ rest)) (pre.length + 1) = ch := chr_in (by simp)
    have e1 : pre ++ [92, ch] ++ (r ++ rest) = pre ++ (92 :: ch :: r ++ rest) := by simp
    have esc1 : bsBefore (pre ++ (92 :: ch :: r ++ rest)) (pre.length + 1) =
        bsBefore (pre ++ (92 :: ch :: r ++ rest)) pre.length + 1 := by rw [bsBefore_succ, c0, if_pos rfl]
    have he' : bsBefore (pre ++ (92 :: ch :: r ++ rest)) pre.length % 2 = 0 := by
      unfold Escaped at he
      have := Nat.mod_two_eq_zero_or_one (bsBefore (pre ++ (92 :: ch :: r ++ rest)) pre.length)
      exact this.resolve_right he
    have := @ih (pre ++ [92, ch]) rest (by
      rw [e1]
      unfold Escaped; simp only [List.length_append, List.length_cons, List.length_nil, Nat.zero_add, Nat.reduceAdd]
      show ¬ bsBefore _ (pre.length + 1 + 1) % 2 = 1
      rw [bsBefore_succ, c1, esc1]
      split <;> omega)
    rw [e1] at this
    simp only [List.length_append, List.length_cons, List.length_nil, Nat.zero_add, Nat.reduceAdd] at this ⊢
    refine ⟨fun k k1 k2 k3 => ?_, by rw [show pre.length + (r.length + 1 + 1) = pre.length + 2 + r.length by omega]; exact this.2⟩
    by_cases hk : k = pre.length
    · subst hk; rw [c0, hp] at k3; cases k3
    · by_cases hk1 : k = pre.length + 1
      · subst hk1; unfold Escaped; rw [esc1]; omega
      · exact this.1 k (by omega) (by omega) k3

theorem closed_of_quoted {plain : QChar → Bool} {q : QChar} (hp : plain 92 = true) (hq : plain q = false) (hq' : q ≠ 92)
    {body : QString} (h : QuotedText plain body) :
    ClosedLiteral (pre ++ (q :: body ++ [q] ++ rest)) q pre.length (pre.length + (q :: body ++ [q]).length) ∧
    (∀ k, pre.length < k → k < pre.length + (q :: body ++ [q]).length →
      plain (chr (pre ++ (q :: body ++ [q] ++ rest)) k) = false →
      Escaped (pre ++ (q :: body ++ [q] ++ rest)) k ∨ k + 1 = pre.length + (q :: body ++ [q]).length) := by
  have e1 : pre ++ (q :: body ++ [q] ++ rest) = pre ++ [q] ++ (body ++ (q :: rest)) := by simp
  have c0 : chr (pre ++ (q :: body ++ [q] ++ rest)) pre.length = q := chr_first (by simp)
  have cl : chr (pre ++ (q :: body ++ [q] ++ rest)) (pre.length + 1 + body.length) = q := by
    have := chr_at0 (pre := pre ++ [q]) (x := body) (rest := q :: rest)
    rw [e1]; rw [List.length_append] at this; exact this
  obtain ⟨k1, k2⟩ := @quoted_escaped plain hp body h (pre ++ [q]) (q :: rest) (by
    rw [← e1]; unfold Escaped; simp only [List.length_append, List.length_cons, List.length_nil, Nat.zero_add]
    rw [bsBefore_succ, c0, if_neg hq']; decide)
  rw [← e1] at k1 k2
  simp only [List.length_append, List.length_cons, List.length_nil, Nat.zero_add] at k1 k2 ⊢
  refine ⟨⟨c0, by omega, by simp, ?_, fun k h1 h2 h3 => k1 k (by omega) (by omega) (by rw [h3]; exact hq)⟩, fun k h1 h2 h3 => ?_⟩
  · rw [show pre.length + (body.length + 1 + 1) - 1 = pre.length + 1 + body.length by omega]
    exact ⟨cl, k2⟩
  · by_cases hk : k + 1 = pre.length + (body.length + 1 + 1)
    · exact Or.inr hk
    · exact Or.inl (k1 k (by omega) (by omega) h3)

/-- The modes on each side of the tags. -/
def Side.st : Side → List St
  | .html => [.Html, .Error]
  | .code => codeSt

/-- The lexer stands before `rest`, which is the end of its text, with the modes `st`. -/
structure At (c : QString) (s : LState) (st : List St) (rest : QString) : Prop where
  stack : s.stack = st
  halt : s.halt = 0
  pos : ∃ pre, c = pre ++ rest ∧ (s.pos = pre.length ∨ (rest = [] ∧ pre.length ≤ s.pos))

/-- From this state the fill loop ends, with the tokens `ts` and the end-of-file entry. -/
def Fills (u : CharClass) (c : QString) (s : LState) (ts : List Tok) : Prop :=
  ∃ n, ∀ doc acc, ∃ stream, fill u c n s doc acc = some (.done stream) ∧
    stream.map (·.kind) = acc.map (·.kind) ++ ts.map some ++ [none]

theorem fills_end {c : QString} {s : LState} (h : c.length ≤ s.pos) : Fills u c s [] := by
  refine ⟨1, fun doc acc => ?_⟩
  have : step u c s = some ({ s with lines := s.lines ++ [s.pos] }, .eof) := by unfold step; rw [if_pos h]
  unfold fill; rw [this]
  exact ⟨_, rfl, by simp⟩

theorem fills_tok {c : QString} {s s' : LState} {t : Tok} {b e : Nat} {ts : List Tok} (h : step u c s = some (s', .tok t b e))
    (ht : t.isTrivia = false) (hf : Fills u c s' ts) : Fills u c s (t :: ts) := by
  obtain ⟨n, hn⟩ := hf
  refine ⟨n + 1, fun doc acc => ?_⟩
  obtain ⟨stream, h1, h2⟩ := hn (0, 0) (acc ++ [⟨some t, b, e - 1, doc.1, doc.2⟩])
  refine ⟨stream, ?_, by rw [h2]; simp⟩
  unfold fill; rw [h]; simp only [ht, Bool.false_eq_true, if_false]; exact h1

theorem fills_trivia {c : QString} {s s' : LState} {t : Tok} {b e : Nat} {ts : List Tok} (h : step u c s = some (s', .tok t b e))
    (ht : t.isTrivia = true) (hf : Fills u c s' ts) : Fills u c s ts := by
  obtain ⟨n, hn⟩ := hf
  refine ⟨n + 1, fun doc acc => ?_⟩
  obtain ⟨stream, h1, h2⟩ := hn (if t = .DOC_COMMENT then (b, e - 1) else doc) acc
  refine ⟨stream, ?_, h2⟩
  unfold fill; rw [h]; simp only [ht, if_true]; exact h1

theorem halt_zero {t : Tok} (h : t ≠ .HALT_COMPILER) : haltStep 0 t = 0 := by
  unfold haltStep; simp [h]

theorem step_dispatch {c : QString} {s : LState} {t : Tok} {e : Nat} {st' : List St} {id' : QString} {nls : List Nat}
    (h : dispatch u c s.pos s.stack s.ident = some ⟨t, e, st', id', nls⟩) (hb : s.pos < c.length) (he : e ≤ c.length + 1)
    (hh : s.halt = 0) (ht : t ≠ .HALT_COMPILER) :
    step u c s = some (⟨e, st', id', 0, s.lines ++ nls⟩, .tok t s.pos e) := by
  unfold step
  rw [if_neg (by omega), h]
  simp only [Option.bind_eq_bind, Option.bind_some]
  rw [if_neg (by omega), hh, if_neg (by decide), halt_zero ht]

theorem Disp.fills {c : QString} {s : LState} {t : Tok} {e : Nat} {st st' : List St} {ts : List Tok} (h : Disp u c s.pos st t e st')
    (hst : s.stack = st) (hb : s.pos < c.length) (he : e ≤ c.length + 1) (hh : s.halt = 0) (ht : t ≠ .HALT_COMPILER)
    (htr : t.isTrivia = false)
    (k : ∀ s' : LState, s'.pos = e → s'.stack = st' → s'.halt = 0 → Fills u c s' ts) : Fills u c s (t :: ts) := by
  obtain ⟨id', nls, hd⟩ := h s.ident
  rw [← hst] at hd
  exact fills_tok (step_dispatch hd hb he hh ht) htr (k _ rfl rfl rfl)

theorem DispKeep.fills {c : QString} {s : LState} {t : Tok} {e : Nat} {st st' : List St} {ts : List Tok} (h : DispKeep u c s.pos st t e st')
    (hst : s.stack = st) (hb : s.pos < c.length) (he : e ≤ c.length + 1) (hh : s.halt = 0) (ht : t ≠ .HALT_COMPILER)
    (htr : t.isTrivia = false)
    (k : ∀ s' : LState, s'.pos = e → s'.stack = st' → s'.halt = 0 → s'.ident = s.ident → Fills u c s' ts) : Fills u c s (t :: ts) := by
  obtain ⟨nls, hd⟩ := h s.ident
  rw [← hst] at hd
  exact fills_tok (step_dispatch hd hb he hh ht) htr (k _ rfl rfl rfl rfl)

theorem DispTrivia.fills {c : QString} {s : LState} {e : Nat} {ts : List Tok} (h : DispTrivia u c s.pos e)
    (hst : s.stack = codeSt) (hb : s.pos < c.length) (he : e ≤ c.length + 1) (hh : s.halt = 0)
    (k : ∀ s' : LState, s'.pos = e → s'.stack = codeSt → s'.halt = 0 → Fills u c s' ts) : Fills u c s ts := by
  obtain ⟨t, id', nls, htr, hd⟩ := h s.ident
  rw [← hst] at hd
  exact fills_trivia (step_dispatch hd hb he hh (by rintro rfl; cases htr)) htr (k _ rfl (by exact hst) rfl)


theorem afterSpace_to {c s r : QString} {e : Nat} (h : AfterSpace u s r) (hc : c.drop e = s) (he : e ≤ c.length) :
    ∃ p, SpaceTo u c e p ∧ c.drop p = r ∧ p ≤ c.length := by
  obtain ⟨sp, h1, h2, h3⟩ := h
  have hsplit : c = c.take e ++ (sp ++ r) := by rw [← h1, ← hc, List.take_append_drop]
  have hl : (c.take e).length = e := by simp; omega
  have hlen : c.length = e + sp.length + r.length := by
    have := congrArg List.length hsplit
    rw [List.length_append, List.length_append, hl] at this; omega
  refine ⟨e + sp.length, ⟨by omega, ?_, ?_⟩, ?_, by omega⟩
  · have := allChr_of (pre := c.take e) (rest := r) h2
    rw [← hsplit, hl] at this; exact this
  · have := chr_at0 (pre := c.take e) (x := sp) (rest := r)
    rw [← hsplit, hl] at this; rw [this]; exact h3
  · rw [← List.drop_drop, hc, h1]; simp

theorem take_two {r : QString} {a b : QChar} (ha : a ≠ 0) (hb : b ≠ 0) : r.take 2 = [a, b] ↔ chr r 0 = a ∧ chr r 1 = b := by
  match r with
  | [] => simp [chr]; intro h; exact absurd h.symm ha
  | [x] => simp [chr]; intro _ h; exact absurd h.symm hb
  | x :: y :: z => simp [chr]

theorem chr_drop (c : QString) (p i : Nat) : chr (c.drop p) i = chr c (p + i) := by
  unfold chr; simp [List.getD]

theorem textAt_take {c r s : QString} {p : Nat} (hp : p ≤ c.length) (hr : c.drop p = r) (h0 : ∀ ch ∈ s, ch ≠ 0) :
    TextAt c p s ↔ r.take s.length = s := by
  rw [textAt_iff hp h0, hr, List.prefix_iff_eq_take]
  exact ⟨Eq.symm, Eq.symm⟩

theorem ciEq_ne {w n : QString} (h : ciEq u w n = true) (hn : n ≠ []) : w ≠ [] := by
  rintro rfl
  unfold ciEq at h
  cases n with
  | nil => exact hn rfl
  | cons a r => simp at h

theorem castNames_ne : ∀ x ∈ castTable, x.1 ≠ [] := by decide

theorem castSpec_of {t : Tok} (h : CastText u x t) : CastSpec u (pre ++ (x ++ rest)) pre.length (pre.length + x.length) t := by
  obtain ⟨sp, w, sp', name, rfl, h1, h2, h3, h4, h5⟩ := h.parts
  have hw : w ≠ [] := ciEq_ne h5 (castNames_ne _ (castNames_iff.1 h4))
  have hwl := List.length_pos_iff.2 hw
  have e1 : pre ++ (q! "(" ++ sp ++ w ++ sp' ++ q! ")" ++ rest) = pre ++ q! "(" ++ (sp ++ (w ++ sp' ++ q! ")" ++ rest)) := by simp
  have e2 : pre ++ (q! "(" ++ sp ++ w ++ sp' ++ q! ")" ++ rest) = pre ++ q! "(" ++ sp ++ (w ++ (sp' ++ q! ")" ++ rest)) := by simp
  have e3 : pre ++ (q! "(" ++ sp ++ w ++ sp' ++ q! ")" ++ rest) = pre ++ q! "(" ++ sp ++ w ++ (sp' ++ (q! ")" ++ rest)) := by simp
  have l1 : (pre ++ q! "(").length = pre.length + 1 := by simp
  have l2 : (pre ++ q! "(" ++ sp).length = pre.length + 1 + sp.length := by simp; omega
  have l3 : (pre ++ q! "(" ++ sp ++ w).length = pre.length + 1 + sp.length + w.length := by simp; omega
  have l4 : (q! "(" ++ sp ++ w ++ sp' ++ q! ")").length = 1 + sp.length + w.length + sp'.length + 1 := by simp; omega
  refine ⟨pre.length + 1 + sp.length, pre.length + 1 + sp.length + w.length, name, ⟨?_, ?_, ?_, ?_, ?_, ?_⟩, h4, ?_⟩
  · exact chr_first (x := q! "(" ++ sp ++ w ++ sp' ++ q! ")") (by simp)
  · rw [l4]; omega
  · rw [e1, ← l1]; exact allChr_of h1
  · rw [e2, ← l2]; exact allChr_of h3
  · rw [e3, ← l3, show pre.length + (q! "(" ++ sp ++ w ++ sp' ++ q! ")").length - 1 = (pre ++ q! "(" ++ sp ++ w).length + sp'.length by
      rw [l3, l4]; omega]
    exact allChr_of h2
  · rw [e3, show pre.length + (q! "(" ++ sp ++ w ++ sp' ++ q! ")").length - 1 = (pre ++ q! "(" ++ sp ++ w).length + sp'.length by
      rw [l3, l4]; omega, chr_at0]
    rfl
  · rw [e2, ← l2, slice_at]; exact h5

theorem wordSpec_of (hne : x ≠ []) (h : ∀ ch ∈ x, identChar u ch = true) (hd : u.isDigit (chr x 0) = false)
    (hr : identChar u (chr rest 0) = false) : WordSpec u (pre ++ (x ++ rest)) pre.length (pre.length + x.length) where
  nonempty := by have := List.length_pos_iff.2 hne; omega
  inText := by simp
  all := allChr_of h
  noDigit := by rw [chr_first hne]; exact hd
  maximal _ := by rw [chr_at0]; exact hr

theorem varSpec_of (hne : x ≠ []) (h : ∀ ch ∈ x, identChar u ch = true) (hd : u.isDigit (chr x 0) = false)
    (hr : identChar u (chr rest 0) = false) :
    VariableSpec u (pre ++ (q! "$" ++ x ++ rest)) pre.length (pre.length + (q! "$" ++ x).length) := by
  have hl := List.length_pos_iff.2 hne
  have e1 : pre ++ (q! "$" ++ x ++ rest) = pre ++ q! "$" ++ (x ++ rest) := by simp
  have l1 : (pre ++ q! "$").length = pre.length + 1 := by simp
  have l2 : pre.length + (q! "$" ++ x).length = (pre ++ q! "$").length + x.length := by simp; omega
  refine ⟨chr_first (x := q! "$" ++ x) (by simp), by simp; omega, by simp, ?_, ?_, fun _ => ?_⟩
  · rw [e1, ← l1, l2]; exact allChr_of h
  · rw [e1, ← l1, chr_first hne]; exact hd
  · rw [e1, l2, chr_at0]; exact hr

theorem blockSpec_of {body : QString} (h : Absent (q! "*/") (body ++ q! "*")) :
    BlockCommentSpec (pre ++ (q! "/*" ++ body ++ q! "*/" ++ rest)) pre.length (pre.length + (q! "/*" ++ body ++ q! "*/").length) := by
  have e1 : pre ++ (q! "/*" ++ body ++ q! "*/" ++ rest) = pre ++ q! "/*" ++ ((body ++ q! "*") ++ (q! "/" ++ rest)) := by simp
  have l1 : (pre ++ q! "/*").length = pre.length + 2 := by simp
  have l2 : (q! "/*" ++ body ++ q! "*/").length = body.length + 4 := by simp
  have l3 : (body ++ q! "*").length = body.length + 1 := by simp
  refine ⟨⟨?_, ?_⟩, by rw [l2]; omega, by simp, ⟨?_, ?_⟩, fun k h1 h2 => ?_⟩
  · exact chr_first (x := q! "/*" ++ body ++ q! "*/") (by simp)
  · exact chr_in (x := q! "/*" ++ body ++ q! "*/") (by simp)
  · rw [e1, l2, show pre.length + (body.length + 4) - 2 = (pre ++ q! "/*").length + body.length by rw [l1]; omega,
      chr_in (by rw [l3]; omega)]
    simp [chr]
  · rw [e1, l2, show pre.length + (body.length + 4) - 1 = (pre ++ q! "/*").length + (body ++ q! "*").length by rw [l1, l3]; omega,
      chr_at0]
    rfl
  · rw [l2] at h2
    obtain ⟨i, rfl⟩ : ∃ i, k = (pre ++ q! "/*").length + i := ⟨k - (pre.length + 2), by rw [l1]; omega⟩
    rw [l1] at h2
    rw [e1, chr_in (by rw [l3]; omega), Nat.add_assoc, chr_in (by rw [l3]; omega)]
    rintro ⟨a, b⟩
    exact absent2 h (by rw [l3]; omega) a b

/-- The facts about a one-line comment that the lexer goes by. -/
theorem lineFacts {mk body : QString} (hmk : mk = q! "#" ∨ mk = q! "//" ∨ mk = q! "///") (h10 : 10 ∉ body) (ht : Absent (q! "?>") body) :
    chr (pre ++ (mk ++ body ++ [10] ++ rest)) (pre.length + (mk ++ body).length) = 10 ∧
    (∀ k, pre.length ≤ k → k < pre.length + (mk ++ body).length → chr (pre ++ (mk ++ body ++ [10] ++ rest)) k ≠ 10) ∧
    (∀ k, pre.length ≤ k → k < pre.length + (mk ++ body).length →
      ¬ (chr (pre ++ (mk ++ body ++ [10] ++ rest)) k = c! '?' ∧ chr (pre ++ (mk ++ body ++ [10] ++ rest)) (k + 1) = c! '>')) := by
  have e1 : pre ++ (mk ++ body ++ [10] ++ rest) = pre ++ ((mk ++ body) ++ ([10] ++ rest)) := by simp
  have hm10 : ∀ ch ∈ mk, ch ≠ 10 ∧ ch ≠ 63 := by rcases hmk with rfl | rfl | rfl <;> decide
  have hin : ∀ i, i < (mk ++ body).length → chr (mk ++ body) i ∈ mk ++ body := fun i h => chr_mem h
  have hend : chr (pre ++ ((mk ++ body) ++ ([10] ++ rest))) (pre.length + (mk ++ body).length) = 10 := by rw [chr_at0]; rfl
  rw [e1]
  refine ⟨hend, fun k h1 h2 => ?_, fun k h1 h2 => ?_⟩
  · obtain ⟨i, rfl⟩ : ∃ i, k = pre.length + i := ⟨k - pre.length, by omega⟩
    rw [chr_in (by omega)]
    intro hc
    have := hin i (by omega)
    rw [hc, List.mem_append] at this
    rcases this with h | h
    · exact (hm10 _ h).1 rfl
    · exact h10 h
  · obtain ⟨i, rfl⟩ : ∃ i, k = pre.length + i := ⟨k - pre.length, by omega⟩
    rintro ⟨ha, hb⟩
    rw [chr_in (by omega)] at ha
    by_cases hi : i + 1 < (mk ++ body).length
    · rw [Nat.add_assoc, chr_in (by omega)] at hb
      by_cases him : i < mk.length
      · rw [chr_left him] at ha
        exact (hm10 _ (by rw [← ha]; exact chr_mem him)).2 rfl
      · obtain ⟨j, rfl⟩ : ∃ j, i = mk.length + j := ⟨i - mk.length, by omega⟩
        rw [chr_pre] at ha
        rw [Nat.add_assoc, chr_pre] at hb
        rw [List.length_append] at hi
        exact absent2 ht (by omega) ha hb
    · rw [show pre.length + i + 1 = pre.length + (mk ++ body).length by omega, hend] at hb
      exact absurd hb (by decide)


theorem at_next {s' : LState} {st' : List St} {e : Nat} (h1 : s'.pos = e) (he : e = pre.length + x.length ∨ (rest = [] ∧ pre.length + x.length ≤ e))
    (h2 : s'.stack = st') (h3 : s'.halt = 0) : At (pre ++ (x ++ rest)) s' st' rest :=
  ⟨h2, h3, pre ++ x, by simp, by rw [h1, List.length_append]; exact he⟩

theorem keyword_trivia : ∀ x ∈ keywordTable, x.2.isTrivia = false := by decide

theorem cast_facts : ∀ x ∈ castTable, x.2.isTrivia = false ∧ x.2 ≠ .HALT_COMPILER := by decide

theorem htmlSpec_of (hne : x ≠ []) (hr : rest = [] ∨ ∃ r, rest = q! "<?" ++ r) (ha : ∀ i, 0 < i → i + 1 < x.length → ¬ (chr x i = 60 ∧ chr x (i + 1) = 63)) :
    ∃ e, InlineHtmlSpec (pre ++ (x ++ rest)) pre.length e ∧ e ≤ (pre ++ (x ++ rest)).length + 1 ∧
      (e = pre.length + x.length ∨ (rest = [] ∧ pre.length + x.length ≤ e)) := by
  have hl := List.length_pos_iff.2 hne
  have h63 : chr rest 0 ≠ 63 := by rcases hr with rfl | ⟨r, rfl⟩ <;> simp [chr]
  have key : ∀ i, 0 < i → i < x.length → ¬ (chr (pre ++ (x ++ rest)) (pre.length + i) = 60 ∧ chr (pre ++ (x ++ rest)) (pre.length + i + 1) = 63) := by
    rintro i h0 hi ⟨a, b⟩
    rw [chr_in hi] at a
    by_cases h1 : i + 1 < x.length
    · rw [Nat.add_assoc, chr_in h1] at b
      exact ha i h0 h1 ⟨a, b⟩
    · rw [show pre.length + i + 1 = pre.length + x.length by omega, chr_at0] at b
      exact h63 b
  rcases hr with rfl | ⟨r, rfl⟩
  · refine ⟨(pre ++ (x ++ [])).length + 1, ⟨by simp; omega, fun k h1 h2 => ?_, Or.inr rfl⟩, Nat.le_refl _, Or.inr ⟨rfl, by simp⟩⟩
    by_cases hk : k < pre.length + x.length
    · obtain ⟨i, rfl⟩ : ∃ i, k = pre.length + i := ⟨k - pre.length, by omega⟩
      exact key i (by omega) (by omega)
    · rintro ⟨a, _⟩
      have := lt_of_chr_eq a (by decide)
      simp at this; omega
  · refine ⟨pre.length + x.length, ⟨by omega, fun k h1 h2 => ?_, Or.inl ⟨?_, ?_, ?_⟩⟩, by simp; omega, Or.inl rfl⟩
    · obtain ⟨i, rfl⟩ : ∃ i, k = pre.length + i := ⟨k - pre.length, by omega⟩
      exact key i (by omega) (by omega)
    · rw [chr_at0]; rfl
    · rw [chr_at 1]; rfl
    · simp

theorem lower_take3 (hu : u.Lawful) {r : QString} {a b d : QChar} (h0 : u.toLower (chr r 0) = a) (h1 : u.toLower (chr r 1) = b)
    (h2 : u.toLower (chr r 2) = d) (ha : a ≠ 0) (hb : b ≠ 0) (hd : d ≠ 0) : (r.take 3).map u.toLower = [a, b, d] := by
  have z : u.toLower 0 = 0 := by rw [hu.lower_ascii _ (by decide)]; rfl
  match r with
  | [] => exact absurd (h0.symm.trans z) ha
  | [_] => exact absurd (h1.symm.trans z) hb
  | [_, _] => exact absurd (h2.symm.trans z) hd
  | x :: y :: w :: _ =>
    have e0 : u.toLower x = a := h0
    have e1 : u.toLower y = b := h1
    have e2 : u.toLower w = d := h2
    simp [e0, e1, e2]

theorem digits_seg (hu : u.Lawful) {a t : QString} (h : Digits a) (hp : Bool) :
    numLoop u (pre ++ (a ++ t)) false false ((pre ++ (a ++ t)).length - pre.length) pre.length hp =
      numLoop u (pre ++ (a ++ t)) false false ((pre ++ (a ++ t)).length - (pre.length + a.length)) (pre.length + a.length) hp := by
  refine numLoop_seg a.length rfl (by simp) fun j h1 h2 => ?_
  have := allChr_of (pre := pre) (rest := t) h j h1 h2
  refine ⟨?_, ?_⟩
  · unfold numChar; rw [isDigit_of hu this]; rfl
  · have := asciiDigit_iff.1 this; omega

/-- A mantissa with a point. -/
theorem mantissa_point (hu : u.Lawful) {a b t : QString} (hne : a ≠ [] ∨ b ≠ []) (ha : Digits a) (hb : Digits b) :
    MantissaEnd u (pre ++ (a ++ q! "." ++ b ++ t)) pre.length (pre.length + (a ++ q! "." ++ b).length) true := by
  have hl : (a ++ q! "." ++ b).length = a.length + 1 + b.length := by simp; omega
  have e1 : pre ++ (a ++ q! "." ++ b ++ t) = pre ++ (a ++ (q! "." ++ (b ++ t))) := by simp
  have e2 : pre ++ (a ++ q! "." ++ b ++ t) = pre ++ a ++ q! "." ++ (b ++ t) := by simp
  have l2 : (pre ++ a ++ q! ".").length = pre.length + a.length + 1 := by simp; omega
  have hpt : chr (pre ++ (a ++ q! "." ++ b ++ t)) (pre.length + a.length) = 46 := by rw [e1, chr_at0]; rfl
  have ca : ∀ i, i < a.length → chr (pre ++ (a ++ q! "." ++ b ++ t)) (pre.length + i) = chr a i := fun i hi => by rw [e1, chr_in hi]
  refine ⟨by simp, ?_, by omega, ?_, ?_⟩
  · by_cases h0 : a = []
    · subst h0
      have hbn : b ≠ [] := hne.resolve_left (by simp)
      refine Or.inr ⟨hpt, ?_⟩
      rw [e2, show pre.length + 1 = (pre ++ [] ++ q! ".").length by rw [l2]; rfl, chr_first hbn]
      exact isDigit_of hu (hb _ (chr_mem (List.length_pos_iff.2 hbn)))
    · have h0' := List.length_pos_iff.2 h0
      have := ca 0 h0'
      rw [Nat.add_zero] at this
      rw [this]
      exact Or.inl (isDigit_of hu (ha _ (chr_mem h0')))
  · have s1 := digits_seg (pre := pre) (t := q! "." ++ (b ++ t)) hu ha false
    have s2 := digits_seg (pre := pre ++ a ++ q! ".") (t := t) hu hb true
    rw [← e1] at s1
    rw [← e2, l2] at s2
    rw [s1, numLoop_point hpt, s2, hl, show pre.length + a.length + 1 + b.length = pre.length + (a.length + 1 + b.length) by omega]
  · have low : ∀ ch, (asciiDigit ch = true ∨ ch = 46) → ¬ (u.toLower ch = 120 ∨ u.toLower ch = 98) := by
      intro ch h
      have : ch ≤ 57 := by
        rcases h with h | h
        · exact (asciiDigit_iff.1 h).2
        · omega
      rw [hu.lower_ascii _ (by omega)]
      unfold asciiLower; rw [if_neg (by omega)]; omega
    rintro ⟨h0, h1⟩
    by_cases hz : a = []
    · subst hz
      rw [show pre.length = pre.length + ([] : QString).length by simp, hpt] at h0
      exact absurd h0 (by decide)
    · have hz' := List.length_pos_iff.2 hz
      refine low _ ?_ h1
      by_cases h2 : 1 < a.length
      · rw [ca 1 h2]; exact Or.inl (ha _ (chr_mem h2))
      · rw [show pre.length + 1 = pre.length + a.length by omega, hpt]; exact Or.inr rfl

/-- A mantissa without a point. -/
theorem mantissa_int (hu : u.Lawful) {a t : QString} (hne : a ≠ []) (ha : Digits a)
    (ht : u.toLower (chr t 0) ≠ 120 ∧ u.toLower (chr t 0) ≠ 98) :
    MantissaEnd u (pre ++ (a ++ t)) pre.length (pre.length + a.length) false := by
  have hl := List.length_pos_iff.2 hne
  refine ⟨by simp, Or.inl ?_, by omega, digits_seg hu ha false, ?_⟩
  · rw [chr_first hne]; exact isDigit_of hu (ha _ (chr_mem hl))
  · rintro ⟨_, h1⟩
    by_cases h2 : 1 < a.length
    · rw [chr_in h2] at h1
      have := asciiDigit_iff.1 (ha _ (chr_mem h2))
      rw [hu.lower_ascii _ (by omega)] at h1
      unfold asciiLower at h1; rw [if_neg (by omega)] at h1; omega
    · rw [show pre.length + 1 = pre.length + a.length by omega, chr_at0] at h1
      rcases h1 with h1 | h1
      · exact ht.1 h1
      · exact ht.2 h1

/-- An exponent behind a mantissa. -/
theorem float_exp (hu : u.Lawful) {w x : QString} {hp : Bool} (h : MantissaEnd u (pre ++ (w ++ (x ++ rest))) pre.length (pre.length + w.length) hp)
    (hx : ExponentText x) (hr : u.isDigit (chr rest 0) = false) :
    Disp u (pre ++ (w ++ (x ++ rest))) pre.length codeSt .DNUMBER (pre.length + (w ++ x).length) codeSt := by
  obtain ⟨e, sg, ds, rfl, he, hsg, hne, hds⟩ := hx
  have hl := List.length_pos_iff.2 hne
  have e1 : pre ++ (w ++ ([e] ++ sg ++ ds ++ rest)) = pre ++ w ++ (([e] ++ sg) ++ (ds ++ rest)) := by simp
  have e2 : pre ++ (w ++ ([e] ++ sg ++ ds ++ rest)) = (pre ++ w ++ [e] ++ sg) ++ (ds ++ rest) := by simp
  have l1 : (pre ++ w).length = pre.length + w.length := by simp
  have l2 : (pre ++ w ++ [e] ++ sg).length = pre.length + w.length + 1 + sg.length := by simp; omega
  have hc : chr (pre ++ (w ++ ([e] ++ sg ++ ds ++ rest))) (pre.length + w.length) = e := by
    rw [e1, ← l1, chr_first (by simp)]; rfl
  have he5 : u.isDigit e = false ∧ e ≠ 46 ∧ u.toLower e = 101 := by
    rcases he with rfl | rfl
    · exact ⟨by rw [hu.digit_ascii _ (by decide)]; decide, by decide, by rw [hu.lower_ascii _ (by decide)]; decide⟩
    · exact ⟨by rw [hu.digit_ascii _ (by decide)]; decide, by decide, by rw [hu.lower_ascii _ (by decide)]; decide⟩
  have hall := allChr_of (pre := pre ++ w ++ [e] ++ sg) (rest := rest) hds
  have hend : chr ((pre ++ w ++ [e] ++ sg) ++ (ds ++ rest)) ((pre ++ w ++ [e] ++ sg).length + ds.length) = chr rest 0 := chr_at0
  rw [← e2, l2] at hall hend
  have hlen : pre.length + (w ++ ([e] ++ sg ++ ds)).length = pre.length + w.length + 1 + sg.length + ds.length := by simp; omega
  rw [hlen]
  refine disp_float hu h ?_ (Or.inr ⟨pre.length + w.length + 1 + sg.length, ?_, by omega, by simp; omega, ?_, hall, ?_⟩)
  · rw [hc]; unfold numChar; rw [he5.1]; simp [he5.2.1]
  · rcases hsg with rfl | hsg
    · exact Or.inl rfl
    · have h1 : sg.length = 1 := by rcases hsg with rfl | rfl <;> rfl
      refine Or.inr ⟨by omega, ?_⟩
      rw [e1, ← l1, chr_in (by simp; omega)]
      rcases hsg with rfl | rfl
      · exact Or.inr rfl
      · exact Or.inl rfl
  · rw [hc]; exact he5.2.2
  · rw [hend]; exact hr

theorem FloatText.disp (hu : u.Lawful) (h : FloatText u x rest) (hr : u.isDigit (chr rest 0) = false) :
    Disp u (pre ++ (x ++ rest)) pre.length codeSt .DNUMBER (pre.length + x.length) codeSt := by
  cases h with
  | @point a b _ h1 h2 h3 h4 =>
    refine disp_float hu (mantissa_point hu h1 h2 h3) ?_ (Or.inl ⟨rfl, rfl, ?_⟩)
    · rw [chr_at0]; unfold numChar; rw [hr]; simp
    · rw [chr_at0, chr_at 1, chr_at 2]; exact h4
  | @pointExp a b y _ h1 h2 h3 h4 =>
    have := mantissa_point (pre := pre) (t := y ++ rest) hu h1 h2 h3
    have := float_exp hu this h4 hr
    rw [show pre ++ (a ++ q! "." ++ b ++ (y ++ rest)) = pre ++ (a ++ q! "." ++ b ++ y ++ rest) by simp] at this
    exact this
  | @exp a y _ h1 h2 h4 =>
    have hy : u.toLower (chr (y ++ rest) 0) ≠ 120 ∧ u.toLower (chr (y ++ rest) 0) ≠ 98 := by
      obtain ⟨e, sg, ds, rfl, he, _⟩ := h4
      show u.toLower e ≠ 120 ∧ u.toLower e ≠ 98
      rcases he with rfl | rfl
      · rw [hu.lower_ascii _ (by decide)]; decide
      · rw [hu.lower_ascii _ (by decide)]; decide
    have := mantissa_int (pre := pre) (t := y ++ rest) hu h1 h2 hy
    have := float_exp hu this h4 hr
    rw [show pre ++ (a ++ (y ++ rest)) = pre ++ (a ++ y ++ rest) by simp] at this
    exact this

theorem FloatText.ne (h : FloatText u x rest) : x ≠ [] := by
  cases h with
  | point => simp
  | pointExp => simp
  | exp h => simp [h]

/-- The modes `st` before and `st'` after the lexeme `x` are those of its sides, or it stands in the code of an interpolation. -/
def Stands (m m' : Side) (x : QString) (st st' : List St) : Prop :=
  (st = m.st ∧ st' = m'.st) ∨
    (m = .code ∧ m' = .code ∧ (∃ below, st = .StrVarCurly :: below) ∧ st' = st ∧ chr x 0 ≠ 123 ∧ chr x 0 ≠ 125)

/-- One lexeme: the fill loop adds its tokens and goes on behind it. -/
theorem Lexeme.fills (hu : u.Lawful) {m m' : Side} {ts ts' : List Tok} (h : Lexeme u m x ts rest m') {s : LState} (hpos : s.pos = pre.length)
    {st st' : List St} (hmode : Stands m m' x st st')
    (hst : s.stack = st) (hh : s.halt = 0)
    (k : ∀ s', At (pre ++ (x ++ rest)) s' st' rest → ((∃ below, st = .StrVarCurly :: below) → s'.ident = s.ident) →
      Fills u (pre ++ (x ++ rest)) s' ts') :
    Fills u (pre ++ (x ++ rest)) s (ts ++ ts') := by
  have lt : x ≠ [] → s.pos < (pre ++ (x ++ rest)).length := by
    intro h; have := List.length_pos_iff.2 h; rw [hpos]; simp; omega
  have le : pre.length + x.length ≤ (pre ++ (x ++ rest)).length + 1 := by simp; omega
  have side_ne : ∀ {m : Side}, ¬ ∃ below, m.st = St.StrVarCurly :: below := by
    rintro m ⟨b, hb⟩; cases m <;> simp [Side.st, codeSt] at hb
  have triv : DispTrivia u (pre ++ (x ++ rest)) pre.length (pre.length + x.length) → x ≠ [] → m = .code → m' = .code → ts = [] →
      Fills u (pre ++ (x ++ rest)) s (ts ++ ts') := by
    rintro hd hx rfl rfl rfl
    rw [← hpos] at hd
    rcases hmode with ⟨rfl, rfl⟩ | ⟨-, -, ⟨below, rfl⟩, rfl, hb1, hb2⟩
    · exact hd.fills hst (lt hx) (by rw [hpos]; exact le) hh fun s' a b c' => k s' (at_next a (Or.inl (by rw [hpos])) b c')
        fun h => absurd h side_ne
    · obtain ⟨t, id', nls, htr, hd⟩ := hd s.ident
      rw [dispatch_code isCode_code] at hd
      have hl := code_lift (below := below) (by rw [hpos, chr_first hx]; exact hb1) (by rw [hpos, chr_first hx]; exact hb2) _ hd rfl
      rw [← dispatch_code ⟨_, _, rfl, Or.inr rfl⟩, ← hst] at hl
      exact fills_trivia (step_dispatch hl (lt hx) (by rw [hpos]; exact le) hh (by rintro rfl; cases htr)) htr
        (k _ (at_next rfl (Or.inl (by rw [hpos])) hst rfl) fun _ => rfl)
  have one : ∀ {t : Tok}, Disp u (pre ++ (x ++ rest)) pre.length m.st t (pre.length + x.length) m'.st → x ≠ [] → t ≠ .HALT_COMPILER →
      t.isTrivia = false → ts = [t] → Fills u (pre ++ (x ++ rest)) s (ts ++ ts') := by
    rintro t hd hx h1 h2 rfl
    rw [← hpos] at hd
    rcases hmode with ⟨rfl, rfl⟩ | ⟨rfl, rfl, ⟨below, rfl⟩, rfl, hb1, hb2⟩
    · exact hd.fills hst (lt hx) (by rw [hpos]; exact le) hh h1 h2 fun s' a b c' => k s' (at_next a (Or.inl (by rw [hpos])) b c')
        fun h => absurd h side_ne
    · obtain ⟨id', nls, hd⟩ := hd s.ident
      rw [show Side.code.st = codeSt from rfl, dispatch_code isCode_code] at hd
      have hl := code_lift (below := below) (by rw [hpos, chr_first hx]; exact hb1) (by rw [hpos, chr_first hx]; exact hb2) _ hd rfl
      rw [← dispatch_code ⟨_, _, rfl, Or.inr rfl⟩, ← hst] at hl
      exact fills_tok (step_dispatch hl (lt hx) (by rw [hpos]; exact le) hh h1) h2
        (k _ (at_next rfl (Or.inl (by rw [hpos])) hst rfl) fun _ => rfl)
  cases h with
  | space h1 h2 h3 =>
    refine triv (fun id => ?_) h1 rfl rfl rfl
    obtain ⟨id', nls, hd⟩ := disp_ws (u := u) (c := pre ++ (x ++ rest)) (b := pre.length) (e := pre.length + x.length)
      ⟨by have := List.length_pos_iff.2 h1; omega, by simp, allChr_of h2, fun _ => by rw [chr_at0]; exact h3⟩ id
    exact ⟨_, id', nls, rfl, hd⟩
  | block h1 => exact triv (disp_block hu (blockSpec_of h1)) (by simp) rfl rfl rfl
  | @line mk body _ h1 h2 h3 =>
    have hmk : mk = q! "#" ∨ mk = q! "//" ∨ mk = q! "///" := by
      rcases h1 with h | ⟨h, _⟩
      · exact Or.inl h
      · exact Or.inr (Or.inl h)
    obtain ⟨f1, f2, f3⟩ := lineFacts (pre := pre) (rest := rest) hmk h2 h3
    have hl : 0 < mk.length := by rcases h1 with rfl | ⟨rfl, _⟩ <;> decide
    refine triv ?_ (by simp) rfl rfl rfl
    have := disp_line hu (m := pre.length + (mk ++ body).length) f1 (by simp; omega) ?_ f2 f3 ?_
    · have hlen : pre.length + (mk ++ body ++ [10]).length = pre.length + (mk ++ body).length + 1 := by simp; omega
      rw [hlen]; exact this
    · rcases h1 with rfl | ⟨rfl, _⟩
      · exact Or.inl (chr_first (x := q! "#" ++ body ++ [10]) (by simp))
      · exact Or.inr ⟨chr_first (x := q! "//" ++ body ++ [10]) (by simp), chr_in (x := q! "//" ++ body ++ [10]) (by simp)⟩
    · intro a b
      exfalso
      rcases h1 with rfl | ⟨rfl, h1⟩
      · rw [chr_first (x := q! "#" ++ body ++ [10]) (by simp)] at a
        have : (35 : Nat) = 47 := a
        exact absurd this (by decide)
      · rw [chr_in (x := q! "//" ++ body ++ [10]) (by simp)] at b
        cases body with
        | nil => exact absurd b (by decide)
        | cons y r =>
          have : y = 47 := b
          exact h1 (by rw [this]; rfl)
  | @docLine body _ h2 h3 h4 =>
    obtain ⟨f1, f2, f3⟩ := lineFacts (pre := pre) (rest := rest) (mk := q! "///") (Or.inr (Or.inr rfl)) h2 h3
    refine triv ?_ (by simp) rfl rfl rfl
    have := disp_line hu (m := pre.length + (q! "///" ++ body).length) f1 (by simp) ?_ f2 f3 ?_
    · have hlen : pre.length + (q! "///" ++ body ++ [10]).length = pre.length + (q! "///" ++ body).length + 1 := by simp; omega
      rw [hlen]; exact this
    · exact Or.inr ⟨chr_first (x := q! "///" ++ body ++ [10]) (by simp), chr_in (x := q! "///" ++ body ++ [10]) (by simp)⟩
    · rintro _ _ e ⟨p, p1, _, p2, p3, p4, p5⟩
      have e1 : pre ++ (q! "///" ++ body ++ [10] ++ rest) = (pre ++ (q! "///" ++ body ++ [10])) ++ rest := by simp
      have l1 : (pre ++ (q! "///" ++ body ++ [10])).length = pre.length + (q! "///" ++ body).length + 1 := by simp; omega
      have hpl := lt_of_chr_eq p5 (by decide)
      obtain ⟨i, rfl⟩ : ∃ i, p = (pre ++ (q! "///" ++ body ++ [10])).length + i := ⟨p - (pre.length + (q! "///" ++ body).length + 1), by rw [l1]; omega⟩
      rw [e1] at p2 p3 p4 p5 hpl
      rw [Nat.add_assoc, chr_pre] at p4 p5
      rw [chr_pre] at p3
      replace hpl : i + 2 < rest.length := by
        rw [List.length_append (as := pre ++ (q! "///" ++ body ++ [10])) (bs := rest)] at hpl; omega
      have hall : ∀ ch ∈ rest.take i, u.isSpace ch = true ∧ ch ≠ 10 := by
        intro ch hch
        obtain ⟨j, hj, rfl⟩ := List.getElem_of_mem hch
        have hj' : j < i ∧ j < rest.length := by simp at hj; omega
        have := p2 ((pre ++ (q! "///" ++ body ++ [10])).length + j) (by rw [l1]; omega) (by omega)
        rw [chr_pre] at this
        have hc : chr rest j = (rest.take i)[j] := by unfold chr; simp [List.getD, hj'.2]
        rw [hc] at this; exact this
      refine h4 (rest.take i) (rest.drop i) (by simp) (fun ch hch => (hall ch hch).1) (fun hc => (hall _ hc).2 rfl) ?_
      have t0 : rest[i]'(by omega) = 47 := by rw [← p3]; unfold chr; simp [List.getD, show i < rest.length by omega]
      have t1 : rest[i + 1]'(by omega) = 47 := by rw [← p4]; unfold chr; simp [List.getD, show i + 1 < rest.length by omega]
      have t2 : rest[i + 2]'(by omega) = 47 := by rw [← p5]; unfold chr; simp [List.getD, show i + 2 < rest.length by omega]
      rw [List.drop_eq_getElem_cons (by omega), List.drop_eq_getElem_cons (by omega), List.drop_eq_getElem_cons (by omega), t0, t1, t2]
      rfl
  | @word _ _ t h1 h2 h3 h4 h5 h6 =>
    have hw := wordSpec_of (pre := pre) h1 h2 h3 h5
    have hsp : u.isSpace (chr (pre ++ (x ++ rest)) pre.length) = false := by rw [chr_first h1]; exact h4
    have hdrop : (pre ++ (x ++ rest)).drop (pre.length + x.length) = rest := by simp
    have hle : pre.length + x.length ≤ (pre ++ (x ++ rest)).length := by simp
    cases h6 with
    | @keyword kw _ a b c' =>
      exact one (disp_word hu hw hsp (Or.inl ⟨kw, a, by rw [slice_at]; exact c'⟩)) h1 b (keyword_trivia _ (keywordNames_iff.1 a)) rfl
    | name a b c' =>
      exact one (disp_word hu hw hsp (Or.inr ⟨rfl, by rw [slice_at]; exact ⟨a, b, c'⟩⟩)) h1 (by decide) rfl rfl
    | lateStatic a b =>
      obtain ⟨p, p1, p2, p3⟩ := afterSpace_to b hdrop hle
      refine one (disp_static hu hw hsp (by rw [slice_at]; exact a) p1 (Or.inl ⟨rfl, ?_, ?_⟩)) h1 (by decide) rfl rfl
      · rw [← Nat.add_zero p, ← chr_drop, p2]; rfl
      · rw [← chr_drop, p2]; rfl
    | static a b c' =>
      obtain ⟨p, p1, p2, p3⟩ := afterSpace_to b hdrop hle
      refine one (disp_static hu hw hsp (by rw [slice_at]; exact a) p1 (Or.inr ⟨rfl, ?_⟩)) h1 (by decide) rfl rfl
      rintro ⟨d, e⟩
      refine c' ((take_two (by decide) (by decide)).2 ⟨?_, ?_⟩)
      · rw [← p2, chr_drop]; exact d
      · rw [← p2, chr_drop]; exact e
    | @yield r a b d c' =>
      obtain ⟨p, p1, p2, p3⟩ := afterSpace_to b hdrop hle
      have hpl : p + 3 ≤ (pre ++ (x ++ rest)).length := by
        have := congrArg List.length p2; rw [List.length_drop] at this; omega
      refine one ((disp_yield hu hw hsp (by rw [slice_at]; exact a) p1 hpl).1 ?_) h1 (by decide) rfl rfl
      rw [textAt_take p3 p2 (by decide)]; exact c'
  | @yieldFrom w sp _ h1 h2 h3 h4 h5 h6 h7 =>
    have hne : w ≠ [] := ciEq_ne h3 (by decide)
    have e1 : pre ++ (w ++ sp ++ q! "from" ++ rest) = pre ++ (w ++ (sp ++ (q! "from" ++ rest))) := by simp
    have hsp0 : chr (sp ++ (q! "from" ++ rest)) 0 = chr sp 0 := chr_left (List.length_pos_iff.2 h1)
    have hw : WordSpec u (pre ++ (w ++ sp ++ q! "from" ++ rest)) pre.length (pre.length + w.length) := by
      rw [e1]; exact wordSpec_of hne h2 h4 (by rw [hsp0]; exact h7)
    have hsl : slice (pre ++ (w ++ sp ++ q! "from" ++ rest)) pre.length (pre.length + w.length) = w := by rw [e1, slice_at]
    have hs0 : u.isSpace (chr (pre ++ (w ++ sp ++ q! "from" ++ rest)) pre.length) = false := by rw [e1, chr_first hne]; exact h5
    obtain ⟨p, p1, p2, p3⟩ := afterSpace_to (u := u) (c := pre ++ (w ++ sp ++ q! "from" ++ rest)) (e := pre.length + w.length)
      (s := sp ++ (q! "from" ++ rest)) (r := q! "from" ++ rest) ⟨sp, rfl, h6, by
        show u.isSpace 102 = false
        rw [hu.space_ascii _ (by decide)]; decide⟩ (by rw [e1]; simp) (by simp)
    have hp : p = pre.length + w.length + sp.length := by
      have := congrArg List.length p2
      rw [List.length_drop] at this
      simp at this p3; omega
    have := (disp_yield hu hw hs0 (by rw [hsl]; exact h3) p1 (by rw [hp]; simp; omega)).2 (by
      rw [textAt_take p3 p2 (by decide)]; rfl)
    refine one (t := .YIELD_FROM) ?_ (by simp) (by decide) rfl rfl
    rw [show pre.length + (w ++ sp ++ q! "from").length = p + 4 by rw [hp]; simp; omega]
    exact this
  | var h1 h2 h3 h4 => exact one (disp_var hu (varSpec_of h1 h2 h3 h4)) (by simp) (by decide) rfl rfl
  | decimal h1 h2 h3 h4 h5 h6 h7 =>
    have := disp_decimal hu (c := pre ++ (x ++ rest)) (b := pre.length) (w := pre.length + x.length)
      ⟨by have := List.length_pos_iff.2 h1; omega, by simp, allChr_of h2, by rw [chr_at0]; exact ⟨h3, h4, h5, h6, h7⟩⟩
    rw [slice_at] at this
    refine one this h1 ?_ ?_ rfl
    · split <;> decide
    · split <;> rfl
  | float h1 h2 => exact one (h1.disp hu h2) h1.ne (by decide) rfl rfl
  | @hex kx hs _ v h1 h2 h3 h4 h5 h6 =>
    have hl := List.length_pos_iff.2 h2
    have e1 : pre ++ (q! "0" ++ [kx] ++ hs ++ rest) = (pre ++ q! "0" ++ [kx]) ++ (hs ++ rest) := by simp
    have l1 : (pre ++ q! "0" ++ [kx]).length = pre.length + 2 := by simp
    have hlen : pre.length + (q! "0" ++ [kx] ++ hs).length = pre.length + 2 + hs.length := by simp; omega
    have hhex := numeral_hex h3
    have := disp_hex hu (c := pre ++ (q! "0" ++ [kx] ++ hs ++ rest)) (b := pre.length) (e := pre.length + (q! "0" ++ [kx] ++ hs).length) (v := v)
      (chr_first (x := q! "0" ++ [kx] ++ hs) (by simp)) (by
        rw [chr_in (x := q! "0" ++ [kx] ++ hs) (by simp)]; exact h1) (by omega) (by simp)
      (by rw [hlen, e1, ← l1]; exact allChr_of hhex)
      (by
        rw [e1, ← l1, show pre.length + 3 = (pre ++ q! "0" ++ [kx]).length + 1 by rw [l1], chr_first h2]
        rintro ⟨a, b⟩
        by_cases h1l : 1 < hs.length
        · rw [chr_in h1l] at b
          refine h4 ⟨a, ?_⟩
          have hx := hhex _ (chr_mem h1l)
          generalize chr hs 1 = ch at hx b
          have hlt : ch < 128 := by rcases hx with h | h | h <;> omega
          rw [hu.lower_ascii _ hlt] at b
          unfold asciiLower at b
          show ch = 98 ∨ ch = 66
          split at b <;> omega
        · rw [show (pre ++ q! "0" ++ [kx]).length + 1 = (pre ++ q! "0" ++ [kx]).length + hs.length by omega, chr_at0] at b
          exact h6 98 (by decide) b)
      (by rw [chr_at0]; exact h5) (by rw [chr_at0]; exact h6)
      (by rw [hlen, e1, ← l1, slice_at]; exact digitsVal_of_numeral h3)
    refine one this (by simp) ?_ ?_ rfl
    · split <;> decide
    · split <;> rfl
  | @bin kx bs _ h1 h2 h3 h4 h5 =>
    have hl := List.length_pos_iff.2 h2
    have e1 : pre ++ (q! "0" ++ [kx] ++ bs ++ rest) = (pre ++ q! "0" ++ [kx]) ++ (bs ++ rest) := by simp
    have l1 : (pre ++ q! "0" ++ [kx]).length = pre.length + 2 := by simp
    have hlen : pre.length + (q! "0" ++ [kx] ++ bs).length = pre.length + 2 + bs.length := by simp; omega
    have := disp_bin hu (c := pre ++ (q! "0" ++ [kx] ++ bs ++ rest)) (b := pre.length) (e := pre.length + (q! "0" ++ [kx] ++ bs).length)
      (chr_first (x := q! "0" ++ [kx] ++ bs) (by simp)) (by
        rw [chr_in (x := q! "0" ++ [kx] ++ bs) (by simp)]; exact h1) (by omega) (by simp)
      (by rw [hlen, e1, ← l1]; exact allChr_of h3)
      (by rw [chr_at0]; exact h4) (by rw [chr_at0]; exact h5)
    have hsl : slice (pre ++ (q! "0" ++ [kx] ++ bs ++ rest)) (pre.length + 2) (pre.length + (q! "0" ++ [kx] ++ bs).length) = bs := by
      rw [hlen, e1, ← l1, slice_at]
    rw [hsl] at this
    refine one this (by simp) ?_ ?_ rfl
    · split <;> decide
    · split <;> rfl
  | single h1 =>
    exact one (disp_single hu (closed_of_quoted (plain := fun ch => ch != c! '\'') (by decide) (by decide) (by decide) h1).1) (by simp) (by decide) rfl rfl
  | @double body _ h1 =>
    obtain ⟨a, b⟩ := closed_of_quoted (pre := pre) (rest := rest) (q := c! '"') (by decide) (by decide) (by decide) h1
    refine one (disp_double hu a fun j j1 j2 => ?_) (by simp) (by decide) rfl rfl
    rintro ⟨v1, v2, _⟩
    have v1' : chr (pre ++ (c! '"' :: body ++ [c! '"'] ++ rest)) j = 36 := v1
    rcases b j j1 j2 (by rw [v1']; decide) with h | h
    · exact v2 h
    · have := a.close.1
      rw [← h, Nat.add_sub_cancel, v1'] at this; exact absurd this (by decide)
  | op h1 h2 h3 h4 h5 =>
    have hm := ops_mode _ h1
    exact one (disp_op hu h1 h2 h3 h4 h5) (ops_start _ h1).1 hm.2.2.2.2.2.2.2 hm.2.2.2.2.2.2.1 rfl
  | @member w _ h1 h2 h3 =>
    have hl := List.length_pos_iff.2 h1
    have e1 : pre ++ (q! "->" ++ w ++ rest) = pre ++ q! "->" ++ (w ++ rest) := by simp
    have l1 : (pre ++ q! "->").length = pre.length + 2 := by simp
    have hcode : isCode st := by
      rcases hmode with ⟨rfl, _⟩ | ⟨_, _, ⟨below, rfl⟩, _⟩
      · exact isCode_code
      · exact ⟨_, _, rfl, Or.inr rfl⟩
    have hst' : st' = st := by
      rcases hmode with ⟨rfl, rfl⟩ | ⟨_, _, _, h, _⟩
      · rfl
      · exact h
    subst hst'
    have d1 : DispKeep u (pre ++ (q! "->" ++ w ++ rest)) pre.length st' .OBJECT_OPERATOR (pre.length + 2) (.StrVarObjOp :: st') := by
      refine disp_arrow hu hcode (chr_first (x := q! "->" ++ w) (by simp)) (chr_in (x := q! "->" ++ w) (by simp)) ?_
      rw [e1, ← l1, chr_first h1]; exact h2 _ (chr_mem hl)
    have d2 : DispKeep u (pre ++ (q! "->" ++ w ++ rest)) (pre.length + 2) (.StrVarObjOp :: st') .STRING (pre.length + 2 + w.length) st' := by
      refine disp_member (by omega) (by simp; omega) ?_ ?_ hcode
      · rw [e1, ← l1]; exact allChr_of h2
      · rw [e1, ← l1, chr_at0]; exact h3
    rw [← hpos] at d1 d2
    refine d1.fills hst (lt (by simp)) (by rw [hpos]; simp) hh (by decide) rfl fun s1 a1 b1 c1 i1 => ?_
    rw [← a1] at d2
    exact d2.fills b1 (by rw [a1, hpos]; simp; omega) (by rw [a1, hpos]; simp; omega) c1 (by decide) rfl fun s' a b c' i' =>
      k s' (at_next a (Or.inl (by rw [a1, hpos]; simp; omega)) b c') fun _ => by rw [i', i1]
  | @cast _ _ t h1 =>
    have hc := castSpec_of (pre := pre) (rest := rest) h1
    obtain ⟨p, q, n, hp, hn, _⟩ := id hc
    have := cast_facts _ (castNames_iff.1 hn)
    have hx : x ≠ [] := by
      have := hp.order
      intro h0; rw [h0] at this; simp at this; omega
    exact one (disp_cast hu hc (by simp)) hx this.2 this.1 rfl
  | close => exact one (disp_close hu (chr_first (x := q! "?>") (by simp)) (chr_in (x := q! "?>") (by simp))) (by simp) (by decide) rfl rfl
  | @openPhp p h p' b _ h1 h2 h3 h4 =>
    refine one (t := .OPEN_TAG) (disp_openPhp hu ?_ ?_ ?_ ?_ ?_ ?_ ?_) (by simp) (by decide) rfl rfl
    · exact chr_first (x := q! "<?" ++ [p, h, p', b]) (by simp)
    · exact chr_in (x := q! "<?" ++ [p, h, p', b]) (by simp)
    · rw [chr_in (x := q! "<?" ++ [p, h, p', b]) (by simp)]; exact h1
    · rw [chr_in (x := q! "<?" ++ [p, h, p', b]) (by simp)]; exact h2
    · rw [chr_in (x := q! "<?" ++ [p, h, p', b]) (by simp)]; exact h3
    · rw [chr_in (x := q! "<?" ++ [p, h, p', b]) (by simp)]; exact h4
    · simp
  | openEcho =>
    refine one (t := .OPEN_TAG_WITH_ECHO) (disp_openEcho hu ?_ ?_ ?_) (by simp) (by decide) rfl rfl
    · exact chr_first (x := q! "<?=") (by simp)
    · exact chr_in (x := q! "<?=") (by simp)
    · exact chr_in (x := q! "<?=") (by simp)
  | openShort h1 h2 h3 =>
    have e2 : chr (pre ++ (q! "<?" ++ rest)) (pre.length + 2) = chr rest 0 := chr_at (x := q! "<?") 0
    have e3 : chr (pre ++ (q! "<?" ++ rest)) (pre.length + 3) = chr rest 1 := chr_at (x := q! "<?") 1
    have e4 : chr (pre ++ (q! "<?" ++ rest)) (pre.length + 4) = chr rest 2 := chr_at (x := q! "<?") 2
    have e5 : chr (pre ++ (q! "<?" ++ rest)) (pre.length + 5) = chr rest 3 := chr_at (x := q! "<?") 3
    refine one (t := .OPEN_TAG) (disp_openShort hu ?_ ?_ ?_ ?_ ?_) (by simp) (by decide) rfl rfl
    · exact chr_first (x := q! "<?") (by simp)
    · exact chr_in (x := q! "<?") (by simp)
    · rw [e2]; exact h1
    · rw [e2, e3, e4]
      rintro ⟨a, b, d⟩
      exact h2 (lower_take3 hu a b d (by decide) (by decide) (by decide))
    · rw [e2, e3, e4, e5]
      rintro ⟨a, b, d, f⟩
      exact h3 ⟨lower_take3 hu a b d (by decide) (by decide) (by decide), f⟩
  | @xml w y _ h1 h2 h3 =>
    obtain ⟨w0, w1, w2, rfl⟩ : ∃ w0 w1 w2, w = [w0, w1, w2] := by
      match w, h1 with
      | [a, b, d], _ => exact ⟨a, b, d, rfl⟩
      | [], h => simp at h
      | [_], h => simp at h
      | [_, _], h => simp at h
      | _ :: _ :: _ :: _ :: _, h => simp at h
    simp at h1
    obtain ⟨e, a, b, c'⟩ := htmlSpec_of (pre := pre) (x := q! "<?" ++ [w0, w1, w2] ++ y) (by simp) h2 (by
      rintro i i0 i1 ⟨f, g⟩
      rcases Nat.lt_or_ge i 2 with hi | hi
      · obtain rfl : i = 1 := by omega
        exact absurd (show (63 : Nat) = 60 from f) (by decide)
      · obtain ⟨j, rfl⟩ : ∃ j, i = 2 + j := ⟨i - 2, by omega⟩
        have ej : ∀ j, chr (q! "<?" ++ [w0, w1, w2] ++ y) (2 + j) = chr ([w0, w1, w2] ++ y) j := fun j => by
          rw [List.append_assoc]; exact chr_pre (q! "<?") _ j
        rw [ej] at f
        rw [Nat.add_assoc, ej] at g
        exact absent2 h3 (by simp at i1 ⊢; omega) f g)
    have hd := disp_html hu (by rw [← hpos]; exact lt (by simp)) (fun _ _ => by
      refine ⟨?_, ?_, ?_⟩
      · rw [chr_in (by simp)]; exact h1.1
      · rw [chr_in (by simp)]; exact h1.2.1
      · rw [chr_in (by simp)]; exact h1.2.2) a
    rw [← hpos] at hd
    rcases hmode with ⟨rfl, rfl⟩ | ⟨h, _⟩
    · exact hd.fills hst (lt (by simp)) b hh (by decide) rfl fun s' f g i => k s' (at_next f c' g i) fun h => absurd h side_ne
    · cases h
  | html h1 h2 h3 =>
    obtain ⟨e, a, b, c'⟩ := htmlSpec_of (pre := pre) h1 h2 fun i _ hi h => absent2 h3 hi h.1 h.2
    have hd := disp_html hu (by rw [← hpos]; exact lt h1) (fun f g => by
      exfalso
      rw [chr_first h1] at f
      by_cases hl : 1 < x.length
      · rw [chr_in hl] at g
        exact absent2 h3 hl f g
      · have := List.length_pos_iff.2 h1
        rw [show pre.length + 1 = pre.length + x.length by omega, chr_at0] at g
        rcases h2 with rfl | ⟨r, rfl⟩
        · exact absurd (show (0 : Nat) = 63 from g) (by decide)
        · exact absurd (show (60 : Nat) = 63 from g) (by decide)) a
    rw [← hpos] at hd
    rcases hmode with ⟨rfl, rfl⟩ | ⟨h, _⟩
    · exact hd.fills hst (lt h1) b hh (by decide) rfl fun s' f g i => k s' (at_next f c' g i) fun h => absurd h side_ne
    · cases h

theorem Lexeme.ne {m m' : Side} {ts : List Tok} (h : Lexeme u m x ts rest m') : x ≠ [] := by
  cases h with
  | space h => exact h
  | block => simp
  | line => simp
  | docLine => simp
  | word h => exact h
  | yieldFrom => simp
  | var => simp
  | decimal h => exact h
  | float h => exact h.ne
  | hex => simp
  | bin => simp
  | single => simp
  | double => simp
  | op h => exact (ops_start _ h).1
  | member => simp
  | cast h => obtain ⟨sp, w, sp', name, rfl, _⟩ := h.parts; simp
  | close => simp
  | openPhp => simp
  | openEcho => simp
  | openShort => simp
  | xml => simp
  | html h => exact h

/-- The lexer fills the stream with the tokens of any reading of the text ahead. -/
theorem Reading.fills (hu : u.Lawful) {m : Side} {text : QString} {ts : List Tok} (h : Reading u m text ts) :
    ∀ {c : QString} {s : LState}, At c s m.st text → Fills u c s ts := by
  induction h with
  | nil =>
    intro c s ⟨_, _, pre, h1, h2⟩
    refine fills_end ?_
    rw [h1]; simp
    rcases h2 with h2 | ⟨_, h2⟩ <;> omega
  | @cons m m' x rest ts ts' hx hr ih =>
    intro c s ⟨h1, h2, pre, h3, h4⟩
    have hpos : s.pos = pre.length := by
      rcases h4 with h4 | ⟨h4, h5⟩
      · exact h4
      · exfalso
        have hx0 : x = [] := (List.append_eq_nil_iff.1 h4).1
        subst hx0
        exact hx.ne rfl
    subst h3
    exact hx.fills hu hpos (Or.inl ⟨rfl, rfl⟩) h1 h2 fun s' ha _ => ih ha

/-- **C92 (the lexer reads the lexical grammar).** On a text that is a sequence of lexical elements, tokenising ends,
and the tokens are exactly those of the elements, followed by the end-of-file entry. -/
theorem reading_tokens (hu : u.Lawful) {m : Side} {text : QString} {ts : List Tok} (h : Reading u m text ts) :
    ∃ n stream, tokenize u text (m == .code) n = some (.done stream) ∧ stream.map (·.kind) = ts.map some ++ [none] := by
  obtain ⟨n, hn⟩ := h.fills hu (c := text) (s := LState.init (m == .code)) ⟨by cases m <;> rfl, by cases m <;> rfl, [], rfl, Or.inl (by cases m <;> rfl)⟩
  obtain ⟨stream, h1, h2⟩ := hn (0, 0) []
  exact ⟨n, stream, h1, by simpa using h2⟩

end

end KPhp
