import Verif.Lexer.Lexemes
import Verif.Parser.StmtClosures
/-!
# White space, comments and letter case

What the layout of a PHP text means for the tokens the parser gets and for the tree it builds.
-/
namespace KPhp
open Stmt (S parseFile all)

/-! ## Specification -/

/-- White space and comments. -/
inductive Trivia (u : CharClass) : QString → Prop
  | nil : Trivia u []
  | blank {b : QChar} {g : QString} : u.isSpace b = true → Trivia u g → Trivia u (b :: g)
  | block {body g : QString} : Absent (q! "*/") (body ++ q! "*") → Trivia u g → Trivia u (q! "/*" ++ body ++ q! "*/" ++ g)
  | line {m body g : QString} : (m = q! "#" ∨ m = q! "//" ∧ body.head? ≠ some (c! '/')) → 10 ∉ body →
      Absent (q! "?>") body → Trivia u g → Trivia u (m ++ body ++ [10] ++ g)

/-- `Piece u x ts after`: `x`, when a blank follows, is one lexical element and stands for `ts`.  `after` is the
text behind `x`: only `static`, `yield` and `(` depend on more of it than that it begins with a blank. -/
inductive Piece (u : CharClass) : QString → List Tok → QString → Prop
  | word {w after : QString} {t : Tok} : w ≠ [] → (∀ ch ∈ w, identChar u ch = true) → u.isDigit (chr w 0) = false →
      u.isSpace (chr w 0) = false → WordToken u w after t → Piece u w [t] after
  | yieldFrom {w sp after : QString} : sp ≠ [] → (∀ ch ∈ w, identChar u ch = true) → ciEq u w (q! "yield") = true →
      u.isDigit (chr w 0) = false → u.isSpace (chr w 0) = false → Blank u sp → identChar u (chr sp 0) = false →
      Piece u (w ++ sp ++ q! "from") [.YIELD_FROM] after
  | var {w after : QString} : w ≠ [] → (∀ ch ∈ w, identChar u ch = true) → u.isDigit (chr w 0) = false →
      Piece u (q! "$" ++ w) [.VARIABLE] after
  | decimal {ds after : QString} : ds ≠ [] → (∀ ch ∈ ds, asciiDigit ch = true) →
      Piece u ds [if decimalValue ds < 2 ^ 63 then .LNUMBER else .DNUMBER] after
  | float {x after : QString} : FloatText u x (q! " ") → Piece u x [.DNUMBER] after
  | hex {k : QChar} {hs after : QString} {v : Nat} : (k = c! 'x' ∨ k = c! 'X') → hs ≠ [] → Numeral 16 hs v →
      ¬ (chr hs 0 = c! '0' ∧ (chr hs 1 = c! 'b' ∨ chr hs 1 = c! 'B')) →
      Piece u (q! "0" ++ [k] ++ hs) [if v < 2 ^ 63 then .LNUMBER else .DNUMBER] after
  | bin {k : QChar} {bs after : QString} : (k = c! 'b' ∨ k = c! 'B') → bs ≠ [] → (∀ ch ∈ bs, ch = c! '0' ∨ ch = c! '1') →
      Piece u (q! "0" ++ [k] ++ bs) [if decimalValue bs < 2 ^ 63 then .LNUMBER else .DNUMBER] after
  | single {body after : QString} : QuotedText (fun ch => ch != c! '\'') body →
      Piece u (q! "'" ++ body ++ q! "'") [.CONSTANT_ENCAPSED_STRING] after
  | double {body after : QString} : QuotedText (fun ch => ch != c! '"' && ch != c! '$') body →
      Piece u (q! "\"" ++ body ++ q! "\"") [.CONSTANT_ENCAPSED_STRING] after
  | op {op after : QString} {t : Tok} : (op, t) ∈ operators → op ≠ q! "`" → op ≠ q! "?>" →
      (op = q! "(" → ∀ x r t, op ++ after = x ++ r → ¬ CastText u x t) → Piece u op [t] after
  | member {w after : QString} : w ≠ [] → (∀ ch ∈ w, identChar u ch = true) →
      Piece u (q! "->" ++ w) [.OBJECT_OPERATOR, .STRING] after
  | cast {x after : QString} {t : Tok} : CastText u x t → Piece u x [t] after

/-- `Layout u ps text`: the text consists of the pieces `ps`, each followed by a blank and then any white space and
comments. -/
inductive Layout (u : CharClass) : List (QString × List Tok) → QString → Prop
  | nil {g : QString} : Trivia u g → Layout u [] g
  | cons {x g rest : QString} {ts : List Tok} {b : QChar} {ps : List (QString × List Tok)} : Piece u x ts (b :: g ++ rest) →
      asciiSpace b = true → Trivia u g → Layout u ps rest → Layout u ((x, ts) :: ps) (x ++ (b :: g ++ rest))

/-- The file `text` is read as the tree `s`. -/
def ReadAs (u : CharClass) (text : QString) (s : S) : Prop :=
  ∃ n stream, tokenize u text false n = some (.done stream) ∧ @parseFile all (stream.filterMap (·.kind)) = some s

/-- A PHP file: the open tag in any letter case, a blank, and the text. -/
def phpFile (php : QString) (b : QChar) (text : QString) : QString := q! "<?" ++ php ++ [b] ++ text

/-! ## Tokenising -/

section
variable {u : CharClass}

theorem fill_mono {c : QString} : ∀ {n : Nat} (k : Nat) {s : LState} {doc : Nat × Nat} {acc stream : List PTok},
    fill u c n s doc acc = some (.done stream) → fill u c (n + k) s doc acc = some (.done stream)
  | 0, k, s, doc, acc, stream, h => by simp [fill] at h
  | n + 1, k, s, doc, acc, stream, h => by
    rw [Nat.add_right_comm]
    unfold fill at h ⊢
    cases hs : step u c s with
    | none => rw [hs] at h; simp at h
    | some p =>
      obtain ⟨s', o⟩ := p
      rw [hs] at h
      cases o with
      | eof => exact h
      | tok t b e =>
        simp only at h ⊢
        cases ht : t.isTrivia with
        | true => rw [ht, if_pos rfl] at h; rw [if_pos rfl]; exact fill_mono k h
        | false => rw [ht, if_neg (by decide)] at h; rw [if_neg (by decide)]; exact fill_mono k h

theorem tokenize_one {c : QString} {php : Bool} {n n' : Nat} {st st' : List PTok} (h : tokenize u c php n = some (.done st))
    (h' : tokenize u c php n' = some (.done st')) : st = st' := by
  have a := fill_mono n' h
  have b := fill_mono n h'
  rw [Nat.add_comm] at b
  unfold tokenize at h h'
  rw [a] at b
  simpa using b

/-- **C92 (one reading).** A text has at most one sequence of tokens. -/
theorem reading_unique (hu : u.Lawful) {m : Side} {text : QString} {ts ts' : List Tok} (h : Reading u m text ts)
    (h' : Reading u m text ts') : ts = ts' := by
  obtain ⟨n, st, h1, h2⟩ := reading_tokens hu h
  obtain ⟨n', st', h1', h2'⟩ := reading_tokens hu h'
  rw [tokenize_one h1 h1', h2'] at h2
  have := List.append_cancel_right h2
  exact (List.map_inj_right (by simp)).1 this.symm

/-! ## Layout -/

theorem blank_ascii {b : QChar} (h : asciiSpace b = true) : b < 128 := by
  unfold asciiSpace at h; simp at h; omega

theorem Lexeme.first_space (hu : u.Lawful) {x rest : QString} {ts : List Tok} {m' : Side} (h : Lexeme u .code x ts rest m')
    (hs : u.isSpace (chr x 0) = true) : ts = [] ∧ m' = .code ∧ Blank u x ∧ u.isSpace (chr rest 0) = false := by
  have no : ∀ {y : QString} {a : QChar} {z : QString}, y = a :: z → a < 128 → asciiSpace a = false → u.isSpace (chr y 0) = true → False := by
    rintro y a z rfl h1 h2 h3
    rw [show chr (a :: z) 0 = a from rfl, hu.space_ascii _ h1, h2] at h3; cases h3
  cases h with
  | space h1 h2 h3 => exact ⟨rfl, rfl, h2, h3⟩
  | block => exact (no rfl (by decide) (by decide) hs).elim
  | line h1 =>
    exfalso
    rcases h1 with rfl | ⟨rfl, _⟩
    · exact no rfl (by decide) (by decide) hs
    · exact no rfl (by decide) (by decide) hs
  | docLine => exact (no rfl (by decide) (by decide) hs).elim
  | word h1 h2 h3 h4 => rw [h4] at hs; cases hs
  | @yieldFrom w sp _ h1 h2 h3 h4 h5 =>
    have : w ≠ [] := ciEq_ne h3 (by decide)
    rw [List.append_assoc, chr_left (List.length_pos_iff.2 this), h5] at hs; cases hs
  | var => exact (no rfl (by decide) (by decide) hs).elim
  | decimal h1 h2 =>
    exfalso
    cases x with
    | nil => exact h1 rfl
    | cons a z =>
      have := h2 a (by simp)
      unfold asciiDigit at this
      simp at this
      refine no rfl (by omega) ?_ hs
      unfold asciiSpace; simp; omega
  | float h1 =>
    exfalso
    have dig : ∀ {a : QChar} {z : QString}, asciiDigit a = true → u.isSpace (chr (a :: z) 0) = true → False := by
      intro a z h h'
      have := asciiDigit_iff.1 h
      refine no rfl (by omega) ?_ h'
      unfold asciiSpace; simp; omega
    cases h1 with
    | @point a b _ _ ha =>
      cases a with
      | nil => exact no rfl (by decide) (by decide) hs
      | cons a z => exact dig (ha a (by simp)) hs
    | @pointExp a b _ _ _ ha =>
      cases a with
      | nil => exact no rfl (by decide) (by decide) hs
      | cons a z => exact dig (ha a (by simp)) hs
    | @exp a _ _ h ha =>
      cases a with
      | nil => exact h rfl
      | cons a z => exact dig (ha a (by simp)) hs
  | hex => exact (no rfl (by decide) (by decide) hs).elim
  | bin => exact (no rfl (by decide) (by decide) hs).elim
  | single => exact (no rfl (by decide) (by decide) hs).elim
  | double => exact (no rfl (by decide) (by decide) hs).elim
  | op h1 =>
    obtain ⟨_, s1, s2, _⟩ := ops_start _ h1
    dsimp only at s1 s2
    rw [hu.space_ascii _ s1, s2] at hs; cases hs
  | member => exact (no rfl (by decide) (by decide) hs).elim
  | cast h1 =>
    obtain ⟨sp, w, sp', name, rfl, _⟩ := h1.parts
    exact (no (a := 40) rfl (by decide) (by decide) hs).elim
  | close => exact (no rfl (by decide) (by decide) hs).elim

/-- A blank more at the beginning changes nothing. -/
theorem Reading.blank (hu : u.Lawful) {b : QChar} {text : QString} {ts : List Tok} (hb : u.isSpace b = true)
    (h : Reading u .code text ts) : Reading u .code (b :: text) ts := by
  by_cases hs : u.isSpace (chr text 0) = true
  · cases h with
    | nil => exact absurd hs (by show ¬ u.isSpace 0 = true; rw [space_nul hu]; decide)
    | @cons _ m' x rest ts1 ts2 hx hr =>
      have h0 : chr (x ++ rest) 0 = chr x 0 := chr_left (List.length_pos_iff.2 hx.ne)
      rw [h0] at hs
      obtain ⟨rfl, rfl, h1, h2⟩ := hx.first_space hu hs
      rw [← List.cons_append]
      exact Reading.cons (Lexeme.space (by simp) (by
        intro ch hc
        rcases List.mem_cons.1 hc with rfl | hc
        · exact hb
        · exact h1 _ hc) h2) hr
  · rw [show b :: text = [b] ++ text from rfl, ← List.nil_append ts]
    exact Reading.cons (Lexeme.space (by simp) (by intro ch hc; simp at hc; rw [hc]; exact hb) (by simpa using hs)) h

theorem Reading.trivia (hu : u.Lawful) {g text : QString} {ts : List Tok} (hg : Trivia u g) (h : Reading u .code text ts) :
    Reading u .code (g ++ text) ts := by
  induction hg with
  | nil => exact h
  | blank hb _ ih => exact ih.blank hu hb
  | @block body g h1 _ ih =>
    rw [List.append_assoc _ g text, ← List.nil_append ts]
    exact Reading.cons (Lexeme.block h1) ih
  | @line m body g h1 h2 h3 _ ih =>
    rw [List.append_assoc _ g text, ← List.nil_append ts]
    exact Reading.cons (Lexeme.line h1 h2 h3) ih

theorem ops_noBlank : ∀ p ∈ operators, ∀ ch ∈ p.1, asciiSpace ch = false := by decide +kernel

theorem not_ident_blank (hu : u.Lawful) {b : QChar} (hb : asciiSpace b = true) : identChar u b = false := by
  have h128 := blank_ascii hb
  unfold identChar
  rw [hu.letter_ascii _ h128, hu.digit_ascii _ h128]
  unfold asciiSpace at hb
  simp at hb
  unfold asciiLetter asciiDigit
  simp; omega

/-- A piece is a lexical element whatever follows the blank. -/
theorem Piece.lexeme (hu : u.Lawful) {x after : QString} {ts : List Tok} {b : QChar} (h : Piece u x ts (b :: after))
    (hb : asciiSpace b = true) : Lexeme u .code x ts (b :: after) .code := by
  have h128 := blank_ascii hb
  have c0 : chr (b :: after) 0 = b := rfl
  have hid := not_ident_blank hu hb
  have hb' : b = 32 ∨ (9 ≤ b ∧ b ≤ 13) := by unfold asciiSpace at hb; simpa using hb
  have hd : u.isDigit b = false := by
    rw [hu.digit_ascii _ h128]; unfold asciiDigit; simp; omega
  have hlow : u.toLower b = b := by rw [hu.lower_ascii _ h128]; unfold asciiLower; rw [if_neg (by omega)]
  cases h with
  | word h1 h2 h3 h4 h5 => exact Lexeme.word h1 h2 h3 h4 hid h5
  | yieldFrom h1 h2 h3 h4 h5 h6 h7 => exact Lexeme.yieldFrom h1 h2 h3 h4 h5 h6 h7
  | var h1 h2 h3 => exact Lexeme.var h1 h2 h3 hid
  | decimal h1 h2 =>
    refine Lexeme.decimal h1 h2 hd ?_ ?_ ?_ ?_ <;> rw [c0]
    · omega
    all_goals rw [hlow]; omega
  | float h1 =>
    refine Lexeme.float ?_ hd
    have hn : ¬ ExponentAhead u (b :: after) := by
      rintro ⟨h, _⟩
      rw [c0, hlow] at h
      have : b = 101 := h
      omega
    cases h1 with
    | point h1 h2 h3 h4 => exact FloatText.point h1 h2 h3 hn
    | pointExp h1 h2 h3 h4 => exact FloatText.pointExp h1 h2 h3 h4
    | exp h1 h2 h3 => exact FloatText.exp h1 h2 h3
  | hex h1 h2 h3 h4 =>
    refine Lexeme.hex h1 h2 h3 h4 hd fun l hl => ?_
    rw [c0, hlow]
    simp at hl; omega
  | bin h1 h2 h3 => exact Lexeme.bin h1 h2 h3 hd (by rw [c0]; show b ≠ 46; omega)
  | single h1 => exact Lexeme.single h1
  | double h1 => exact Lexeme.double h1
  | op h1 h2 h3 h4 =>
    refine Lexeme.op h1 h2 h3 (fun p hp hpre => ?_) ⟨fun _ => hd, fun _ => ?_, fun _ => ?_, fun _ => ?_, fun _ => hid, h4⟩
    · by_cases hl : p.1.length ≤ x.length
      · exact hl
      · exfalso
        obtain ⟨z, hz⟩ := hpre
        have hmem : b ∈ p.1 := by
          have h5 : (p.1 ++ z)[x.length]? = some b := by rw [hz]; simp
          rw [List.getElem?_append_left (by omega)] at h5
          exact List.mem_of_getElem? h5
        rw [ops_noBlank p hp b hmem] at hb; cases hb
    · unfold nameStart; rw [c0, hid]; rfl
    · rw [c0]; omega
    · rw [c0]; omega
  | member h1 h2 => exact Lexeme.member h1 h2 hid
  | cast h1 => exact Lexeme.cast h1

theorem Layout.reading (hu : u.Lawful) {ps : List (QString × List Tok)} {text : QString} (h : Layout u ps text) :
    Reading u .code text (ps.flatMap (·.2)) := by
  induction h with
  | nil hg =>
    have := (Reading.nil (u := u) (m := .code)).trivia hu hg
    rwa [List.append_nil] at this
  | @cons x g rest ts b ps h1 h2 h3 _ ih =>
    rw [List.flatMap_cons]
    refine Reading.cons (h1.lexeme hu h2) ?_
    exact (ih.trivia hu h3).blank hu (by rw [hu.space_ascii _ (blank_ascii h2)]; exact h2)

/-- **C92 (layout).** A file whose code is a sequence of pieces with blanks and comments between them: tokenising ends,
and the tokens are those of the open tag and of the pieces; the layout has no part in it. -/
theorem layout_tokens (hu : u.Lawful) {ps : List (QString × List Tok)} {text php : QString} {b : QChar} (h : Layout u ps text)
    (hp : php.map u.toLower = q! "php") (hb : u.isSpace b = true) :
    ∃ n stream, tokenize u (phpFile php b text) false n = some (.done stream) ∧
      stream.map (·.kind) = some .OPEN_TAG :: (ps.flatMap (·.2)).map some ++ [none] := by
  match php, hp with
  | [p, hh, p'], hp =>
    simp at hp
    have := Reading.cons (Lexeme.openPhp (rest := text) hp.1 hp.2.1 hp.2.2 hb) (h.reading hu)
    have h2 := reading_tokens hu this
    rw [show q! "<?" ++ [p, hh, p', b] ++ text = phpFile [p, hh, p'] b text by simp [phpFile]] at h2
    exact h2
  | [], hp => simp at hp
  | [_], hp => simp at hp
  | [_, _], hp => simp at hp
  | _ :: _ :: _ :: _ :: _, hp => simp at hp

/-! ## The tree -/

/-- The tree of a text is unique. -/
theorem readAs_unique {text : QString} {s s' : S} (h : ReadAs u text s) (h' : ReadAs u text s') : s = s' := by
  obtain ⟨n, st, h1, h2⟩ := h
  obtain ⟨n', st', h1', h2'⟩ := h'
  rw [tokenize_one h1 h1', h2'] at h2
  simpa using h2.symm

theorem readAs_iff {text : QString} {ts : List Tok} (h : ∃ n stream, tokenize u text false n = some (.done stream) ∧
    stream.map (·.kind) = ts.map some ++ [none]) (s : S) : ReadAs u text s ↔ @S.Fits all s .file ∧ ts = s.toks := by
  obtain ⟨n, stream, h1, h2⟩ := h
  have h3 : stream.filterMap (·.kind) = ts := by
    have : stream.filterMap (·.kind) = (stream.map (·.kind)).filterMap id := by rw [List.filterMap_map]; rfl
    rw [this, h2, List.filterMap_append, List.filterMap_map]
    have : (fun x => x) ∘ some = (some : Tok → Option Tok) := rfl
    simp
  rw [← Stmt.php_read_iff]
  constructor
  · rintro ⟨n', st', h1', h2'⟩
    rw [tokenize_one h1' h1, h3] at h2'; exact h2'
  · intro h; exact ⟨n, stream, h1, by rw [h3]; exact h⟩

/-- **C92 (what a file means).** A file that is a sequence of lexical elements is read as the tree `s` exactly if `s` is a tree
of the grammar and the tokens of the elements are the tokens of `s`. -/
theorem text_read_iff (hu : u.Lawful) {text : QString} {ts : List Tok} (h : Reading u .html text ts) (s : S) :
    ReadAs u text s ↔ @S.Fits all s .file ∧ ts = s.toks := readAs_iff (reading_tokens hu h) s

/-- **C92 (layout and letter case).** Two files with pieces that stand for the same tokens, in whatever layout, are read as the
same trees. -/
theorem layout_tree (hu : u.Lawful) {ps ps' : List (QString × List Tok)} {text text' php php' : QString} {b b' : QChar}
    (h : Layout u ps text) (h' : Layout u ps' text') (hp : php.map u.toLower = q! "php") (hp' : php'.map u.toLower = q! "php")
    (hb : u.isSpace b = true) (hb' : u.isSpace b' = true) (he : ps.map (·.2) = ps'.map (·.2)) (s : S) :
    ReadAs u (phpFile php b text) s ↔ ReadAs u (phpFile php' b' text') s := by
  have hts : ps.flatMap (·.2) = ps'.flatMap (·.2) := by
    rw [List.flatMap_def, List.flatMap_def, he]
  have a := readAs_iff (ts := .OPEN_TAG :: ps.flatMap (·.2)) (layout_tokens hu h hp hb) s
  have a' := readAs_iff (ts := .OPEN_TAG :: ps'.flatMap (·.2)) (layout_tokens hu h' hp' hb') s
  rw [a, a', hts]

/-- A keyword in any letter case is a piece of the same kind, whatever follows. -/
theorem keyword_piece {w k after : QString} {t : Tok} (hk : k ∈ keywordNames t) (ht : t ≠ .HALT_COMPILER) (hc : ciEq u w k = true)
    (hi : ∀ ch ∈ w, identChar u ch = true) (hd : u.isDigit (chr w 0) = false) (hs : u.isSpace (chr w 0) = false) :
    Piece u w [t] after := by
  have hkne : k ≠ [] := (by decide : ∀ x ∈ keywordTable, x.1 ≠ []) _ (keywordNames_iff.1 hk)
  exact Piece.word (ciEq_ne hc hkne) hi hd hs (WordToken.keyword hk ht hc)

/-! ## Every tree can be written -/

/-- The tokens of string interpolation, of the tags and their outside, and those that stop the lexer: tokens that no piece
stands for. -/
def unspelled : List Tok := [.WHITESPACE, .COMMENT, .DOC_COMMENT, .INLINE_HTML, .OPEN_TAG, .OPEN_TAG_WITH_ECHO, .CLOSE_TAG,
  .START_HEREDOC, .START_NOWDOC, .END_HEREDOC, .END_NOWDOC, .DOUBLE_QUOTE, .BACKTICK, .HALT_COMPILER, .DOLLAR_OPEN_CURLY_BRACES,
  .CURLY_OPEN, .ENCAPSED_AND_WHITESPACE, .NUM_STRING, .STRING_VARNAME, .INVALID]

theorem spell_cases (t : Tok) : t ∈ unspelled ∨ (∃ op, (op, t) ∈ operators ∧ op ≠ q! "`" ∧ op ≠ q! "?>") ∨
    (∃ k, (k, t) ∈ keywordTable ∧ t ≠ .HALT_COMPILER) ∨ (∃ k, (k, t) ∈ castTable) ∨
    t ∈ [Tok.STATIC, .YIELD, .YIELD_FROM, .STRING, .VARIABLE, .LNUMBER, .DNUMBER, .CONSTANT_ENCAPSED_STRING] := by
  have h : (unspelled.contains t || operators.any (fun p => p.2 == t && p.1 != q! "`" && p.1 != q! "?>") ||
      keywordTable.any (fun p => p.2 == t && t != .HALT_COMPILER) || castTable.any (fun p => p.2 == t) ||
      [Tok.STATIC, .YIELD, .YIELD_FROM, .STRING, .VARIABLE, .LNUMBER, .DNUMBER, .CONSTANT_ENCAPSED_STRING].contains t) = true := by
    cases t <;> decide +kernel
  simp only [Bool.or_eq_true, List.any_eq_true, Bool.and_eq_true, beq_iff_eq, bne_iff_ne, List.contains_iff_mem] at h
  rcases h with (((h | ⟨p, h1, ⟨rfl, h2⟩, h3⟩) | ⟨p, h1, rfl, h2⟩) | ⟨p, h1, rfl⟩) | h
  · exact Or.inl h
  · exact Or.inr (Or.inl ⟨p.1, h1, h2, h3⟩)
  · exact Or.inr (Or.inr (Or.inl ⟨p.1, h1, h2⟩))
  · exact Or.inr (Or.inr (Or.inr (Or.inl ⟨p.1, h1⟩)))
  · exact Or.inr (Or.inr (Or.inr (Or.inr h)))

theorem ident_ascii (hu : u.Lawful) {ch : QChar} (h : asciiLetter ch = true ∨ ch = 95) :
    identChar u ch = true ∧ u.isDigit ch = false ∧ u.isSpace ch = false := by
  have h128 : ch < 128 := by
    rcases h with h | h
    · unfold asciiLetter at h; simp at h; omega
    · omega
  refine ⟨?_, ?_, ?_⟩
  · unfold identChar; rw [hu.letter_ascii _ h128]
    rcases h with h | h
    · simp [h]
    · simp [h]
  · rw [hu.digit_ascii _ h128]
    rcases h with h | h
    · unfold asciiLetter at h; unfold asciiDigit; simp at h ⊢; omega
    · subst h; decide
  · rw [hu.space_ascii _ h128]
    rcases h with h | h
    · unfold asciiLetter at h; unfold asciiSpace; simp at h ⊢; omega
    · subst h; decide

theorem ciEq_refl (w : QString) : ciEq u w w = true := by unfold ciEq; simp

theorem word_spelled (hu : u.Lawful) {w after : QString} {t : Tok} (hne : w ≠ []) (h : ∀ ch ∈ w, asciiLetter ch = true ∨ ch = 95)
    (ht : WordToken u w after t) : Piece u w [t] after := by
  have h0 := ident_ascii hu (h _ (chr_mem (List.length_pos_iff.2 hne)))
  exact Piece.word hne (fun ch hc => (ident_ascii hu (h ch hc)).1) h0.2.1 h0.2.2 ht

/-- the separator: a blank, a comment and a blank -/
def sepText : QString := q! "/**/ "

theorem after_sep (hu : u.Lawful) (rest : QString) : AfterSpace u (32 :: sepText ++ rest) (sepText ++ rest) := by
  refine ⟨[32], rfl, ?_, ?_⟩
  · intro ch hc; simp at hc; rw [hc, hu.space_ascii _ (by decide)]; decide
  · show u.isSpace 47 = false
    rw [hu.space_ascii _ (by decide)]; decide

theorem no_cast_sep (hu : u.Lawful) {rest x r : QString} {t : Tok} (h : q! "(" ++ (32 :: sepText ++ rest) = x ++ r) : ¬ CastText u x t := by
  rintro ⟨sp, w, sp', name, rfl, h1, h2, h3, h4, h5⟩
  have hw : w ≠ [] := ciEq_ne h5 (castNames_ne _ (castNames_iff.1 h4))
  have sl : u.isSpace 47 = false := by rw [hu.space_ascii _ (by decide)]; decide
  have ll : u.isLetter 47 = false := by rw [hu.letter_ascii _ (by decide)]; decide
  have lb : u.isLetter 32 = false := by rw [hu.letter_ascii _ (by decide)]; decide
  have e : (32 : Nat) :: 47 :: (q! "**/ " ++ rest) = sp ++ (w ++ (sp' ++ (q! ")" ++ r))) := by
    have := h
    simp only [List.append_assoc] at this
    exact (List.cons.inj this).2
  cases sp with
  | nil =>
    cases w with
    | nil => exact hw rfl
    | cons a w' =>
      have := (List.cons.inj e).1
      have h6 := h3 a (by simp)
      rw [← this, lb] at h6; cases h6
  | cons a sp1 =>
    have e2 := (List.cons.inj e).2
    cases sp1 with
    | nil =>
      cases w with
      | nil => exact hw rfl
      | cons a' w' =>
        have := (List.cons.inj e2).1
        have h6 := h3 a' (by simp)
        rw [← this, ll] at h6; cases h6
    | cons a' sp2 =>
      have := (List.cons.inj e2).1
      have h6 := h1 a' (by simp)
      rw [← this, sl] at h6; cases h6

theorem keyword_chars : ∀ x ∈ keywordTable, x.1 ≠ [] ∧ ∀ ch ∈ x.1, asciiLetter ch = true ∨ ch = 95 := by decide +kernel
theorem cast_chars : ∀ x ∈ castTable, ∀ ch ∈ x.1, asciiLetter ch = true := by decide +kernel

theorem name_a (hu : u.Lawful) (after : QString) : WordToken u (q! "a") after .STRING := by
  have key : ∀ k : QString, (∀ ch ∈ k, ch < 128) → k.map asciiLower ≠ q! "a" → ciEq u (q! "a") k = false := by
    intro k h1 h2
    cases hx : ciEq u (q! "a") k
    · rfl
    · rw [ciEq_fold, fold_ascii_str hu (by decide), fold_ascii_str hu h1] at hx
      exact absurd hx.symm h2
  refine WordToken.name (fun k t hk => ?_) (key _ (by decide) (by decide)) (key _ (by decide) (by decide))
  rw [keywordNames_iff] at hk
  exact key k (keywordTable_ascii _ hk) ((by decide +kernel : ∀ x ∈ keywordTable, x.1.map asciiLower ≠ q! "a") _ hk)

/-- Every other token is written by some piece, which may stand before the separator. -/
theorem spelled (hu : u.Lawful) {t : Tok} (h : t ∉ unspelled) : ∃ x, ∀ rest, Piece u x [t] (32 :: sepText ++ rest) := by
  rcases spell_cases t with h' | ⟨op, h1, h2, h3⟩ | ⟨k, h1, h2⟩ | ⟨k, h1⟩ | h'
  · exact absurd h' h
  · exact ⟨op, fun rest => Piece.op h1 h2 h3 fun ho x r t he => no_cast_sep hu (by rw [← ho]; exact he)⟩
  · obtain ⟨k1, k2⟩ := keyword_chars _ h1
    exact ⟨k, fun rest => word_spelled hu k1 k2 (WordToken.keyword (keywordNames_iff.2 h1) h2 (ciEq_refl k))⟩
  · refine ⟨q! "(" ++ [] ++ k ++ [] ++ q! ")", fun rest => Piece.cast ⟨[], k, [], k, rfl, ?_, ?_, ?_, castNames_iff.2 h1, ciEq_refl k⟩⟩
    · intro ch hc; simp at hc
    · intro ch hc; simp at hc
    · intro ch hc
      have := cast_chars _ h1 ch hc
      have h128 : ch < 128 := by unfold asciiLetter at this; simp at this; omega
      rw [hu.letter_ascii _ h128]; exact this
  · simp only [List.mem_cons, List.not_mem_nil, or_false] at h'
    rcases h' with rfl | rfl | rfl | rfl | rfl | rfl | rfl | rfl
    · exact ⟨q! "static", fun rest => word_spelled hu (by decide) (by decide) (WordToken.static (ciEq_refl _) (after_sep hu rest) (by simp [sepText]))⟩
    · exact ⟨q! "yield", fun rest => word_spelled hu (by decide) (by decide) (WordToken.yield (ciEq_refl _) (after_sep hu rest) (by simp [sepText]) (by simp [sepText]))⟩
    · refine ⟨q! "yield" ++ q! " " ++ q! "from", fun rest => Piece.yieldFrom (by decide) ?_ (ciEq_refl _) ?_ ?_ ?_ (not_ident_blank hu (by decide))⟩
      · exact fun ch hc => (ident_ascii hu ((by decide : ∀ ch ∈ q! "yield", asciiLetter ch = true ∨ ch = 95) ch hc)).1
      · exact (ident_ascii hu (ch := 121) (by decide)).2.1
      · exact (ident_ascii hu (ch := 121) (by decide)).2.2
      · intro ch hc; simp at hc; rw [hc, hu.space_ascii _ (by decide)]; decide
    · exact ⟨q! "a", fun rest => word_spelled hu (by decide) (by decide) (name_a hu _)⟩
    · exact ⟨q! "$" ++ q! "a", fun rest => Piece.var (by decide) (fun ch hc => (ident_ascii hu (by simp at hc; subst hc; decide)).1)
        (ident_ascii hu (ch := 97) (by decide)).2.1⟩
    · exact ⟨q! "1", fun rest => Piece.decimal (ds := q! "1") (by decide) (by decide)⟩
    · exact ⟨q! "9223372036854775808", fun rest => Piece.decimal (ds := q! "9223372036854775808") (by decide) (by decide)⟩
    · exact ⟨q! "'" ++ [] ++ q! "'", fun rest => Piece.single QuotedText.nil⟩

theorem sep_trivia (hu : u.Lawful) : Trivia u sepText := by
  refine Trivia.block (body := []) (g := q! " ") ?_ (Trivia.blank (by rw [hu.space_ascii _ (by decide)]; decide) Trivia.nil)
  intro a z h
  have := congrArg List.length h
  simp at this; omega

theorem spelled_layout (hu : u.Lawful) : ∀ (ts : List Tok), (∀ t ∈ ts, t ∉ unspelled) →
    ∃ ps text, Layout u ps text ∧ ps.flatMap (·.2) = ts
  | [], _ => ⟨[], [], Layout.nil Trivia.nil, rfl⟩
  | t :: ts, h => by
    obtain ⟨ps, text, h1, h2⟩ := spelled_layout hu ts fun t ht => h t (by simp [ht])
    obtain ⟨x, hx⟩ := spelled hu (h t (by simp))
    exact ⟨(x, [t]) :: ps, _, Layout.cons (hx text) (by decide) (sep_trivia hu) h1, by simp [h2]⟩

/-- **C92 (every tree can be written).** Every tree of the grammar that begins with the open tag and otherwise consists of tokens
of plain code is the tree of some file. -/
theorem tree_written (hu : u.Lawful) {s : S} {ts : List Tok} (h : @S.Fits all s .file) (hs : s.toks = .OPEN_TAG :: ts)
    (ht : ∀ t ∈ ts, t ∉ unspelled) : ∃ text, ReadAs u text s := by
  obtain ⟨ps, text, h1, h2⟩ := spelled_layout hu ts ht
  have hlow : (q! "php").map u.toLower = q! "php" := by
    simp only [List.map_cons, List.map_nil]
    rw [hu.lower_ascii _ (by decide), hu.lower_ascii _ (by decide)]; rfl
  refine ⟨phpFile (q! "php") 32 text, (readAs_iff (ts := .OPEN_TAG :: ps.flatMap (·.2))
    (layout_tokens hu h1 hlow (by rw [hu.space_ascii _ (by decide)]; decide)) s).2 ⟨h, ?_⟩⟩
  rw [h2, hs]

end

/-! ## Where layout does matter -/

/-- The tokens of a file (as an observable of `tokenize`). -/
def HasTokens (u : CharClass) (text : QString) (ts : List Tok) : Prop :=
  ∃ n stream, tokenize u text false n = some (.done stream) ∧ stream.map (·.kind) = ts.map some ++ [none]

/-- **C92 (finding).** `$a->list;` is read; with a blank behind `->` it is not: the word is then a keyword. -/
theorem arrow_blank_matters :
    HasTokens asciiClass (q! "<?php $a->list;") [.OPEN_TAG, .VARIABLE, .OBJECT_OPERATOR, .STRING, .SEMICOLON] ∧
    HasTokens asciiClass (q! "<?php $a-> list;") [.OPEN_TAG, .VARIABLE, .OBJECT_OPERATOR, .LIST, .SEMICOLON] ∧
    (∃ s, ReadAs asciiClass (q! "<?php $a->list;") s) ∧ ¬ ∃ s, ReadAs asciiClass (q! "<?php $a-> list;") s := by
  have h1 : HasTokens asciiClass (q! "<?php $a->list;") [.OPEN_TAG, .VARIABLE, .OBJECT_OPERATOR, .STRING, .SEMICOLON] :=
    ⟨8, _, rfl, by decide +kernel⟩
  have h2 : HasTokens asciiClass (q! "<?php $a-> list;") [.OPEN_TAG, .VARIABLE, .OBJECT_OPERATOR, .LIST, .SEMICOLON] :=
    ⟨8, _, rfl, by decide +kernel⟩
  refine ⟨h1, h2, ?_, ?_⟩
  · have hp : (@parseFile all [.OPEN_TAG, .VARIABLE, .OBJECT_OPERATOR, .STRING, .SEMICOLON]).isSome = true := by decide +kernel
    obtain ⟨s, hs⟩ := Option.isSome_iff_exists.1 hp
    exact ⟨s, (readAs_iff h1 s).2 ((Stmt.php_read_iff _ s).1 hs)⟩
  · rintro ⟨s, hs⟩
    have := (Stmt.php_read_iff _ s).2 ((readAs_iff h2 s).1 hs)
    have hp : @parseFile all [.OPEN_TAG, .VARIABLE, .OBJECT_OPERATOR, .LIST, .SEMICOLON] = none := by decide +kernel
    rw [hp] at this; cases this

/-- **C92 (finding).** `static::f();` is read, also with blanks before `::`; with a comment there it is not. -/
theorem static_comment_matters :
    (∃ s, ReadAs asciiClass (q! "<?php static::f();") s) ∧ (∃ s, ReadAs asciiClass (q! "<?php static ::f();") s) ∧
    ¬ ∃ s, ReadAs asciiClass (q! "<?php static/**/::f();") s := by
  have h1 : HasTokens asciiClass (q! "<?php static::f();")
      [.OPEN_TAG, .STRING, .PAAMAYIM_NEKUDOTAYIM, .STRING, .LPAREN, .RPAREN, .SEMICOLON] := ⟨9, _, rfl, by decide +kernel⟩
  have h2 : HasTokens asciiClass (q! "<?php static ::f();")
      [.OPEN_TAG, .STRING, .PAAMAYIM_NEKUDOTAYIM, .STRING, .LPAREN, .RPAREN, .SEMICOLON] := ⟨9, _, rfl, by decide +kernel⟩
  have h3 : HasTokens asciiClass (q! "<?php static/**/::f();")
      [.OPEN_TAG, .STATIC, .PAAMAYIM_NEKUDOTAYIM, .STRING, .LPAREN, .RPAREN, .SEMICOLON] := ⟨9, _, rfl, by decide +kernel⟩
  have hp : (@parseFile all [.OPEN_TAG, .STRING, .PAAMAYIM_NEKUDOTAYIM, .STRING, .LPAREN, .RPAREN, .SEMICOLON]).isSome = true := by
    decide +kernel
  obtain ⟨s, hs⟩ := Option.isSome_iff_exists.1 hp
  refine ⟨⟨s, (readAs_iff h1 s).2 ((Stmt.php_read_iff _ s).1 hs)⟩, ⟨s, (readAs_iff h2 s).2 ((Stmt.php_read_iff _ s).1 hs)⟩, ?_⟩
  rintro ⟨s, hs⟩
  have := (Stmt.php_read_iff _ s).2 ((readAs_iff h3 s).1 hs)
  have hp : @parseFile all [.OPEN_TAG, .STATIC, .PAAMAYIM_NEKUDOTAYIM, .STRING, .LPAREN, .RPAREN, .SEMICOLON] = none := by decide +kernel
  rw [hp] at this; cases this

/-- **C92 (finding).** `from` behind `yield` is not a word of its own (`yield fromage` is `yield from` and the name `age`), and
its letter case matters. -/
theorem yield_from_word :
    HasTokens asciiClass (q! "<?php yield fromage;") [.OPEN_TAG, .YIELD_FROM, .STRING, .SEMICOLON] ∧
    HasTokens asciiClass (q! "<?php yield from $a;") [.OPEN_TAG, .YIELD_FROM, .VARIABLE, .SEMICOLON] ∧
    HasTokens asciiClass (q! "<?php yield FROM $a;") [.OPEN_TAG, .YIELD, .STRING, .VARIABLE, .SEMICOLON] :=
  ⟨⟨8, _, rfl, by decide +kernel⟩, ⟨8, _, rfl, by decide +kernel⟩, ⟨9, _, rfl, by decide +kernel⟩⟩

/-- **C92 (finding).** A binary literal is an integer or a float according to its *decimal* reading: `0b` and twenty ones
(1048575) is a float.  A hexadecimal literal beginning with `0b` is read without these digits: `0x0b` is a float. -/
theorem radix_literals :
    HasTokens asciiClass (q! "<?php 0b11111111111111111111;") [.OPEN_TAG, .DNUMBER, .SEMICOLON] ∧
    HasTokens asciiClass (q! "<?php 0b1111111111111111111;") [.OPEN_TAG, .LNUMBER, .SEMICOLON] ∧
    HasTokens asciiClass (q! "<?php 0x0b;") [.OPEN_TAG, .DNUMBER, .SEMICOLON] ∧
    HasTokens asciiClass (q! "<?php 0x0a;") [.OPEN_TAG, .LNUMBER, .SEMICOLON] :=
  ⟨⟨8, _, rfl, by decide +kernel⟩, ⟨8, _, rfl, by decide +kernel⟩, ⟨8, _, rfl, by decide +kernel⟩, ⟨8, _, rfl, by decide +kernel⟩⟩

/-! ## Concrete layouts -/

/-- `.5 1.5e-3 0xfF 0b01` -/
example : Layout asciiClass [(q! ".5", [.DNUMBER]), (q! "1.5e-3", [.DNUMBER]), (q! "0xfF", [.LNUMBER]), (q! "0b01", [.LNUMBER])]
    (q! ".5 1.5e-3 0xfF 0b01 ") := by
  have no : ¬ ExponentAhead asciiClass (q! " ") := by unfold ExponentAhead; decide
  refine Layout.cons (x := [] ++ q! "." ++ q! "5") (b := 32) (g := []) (rest := q! "1.5e-3 0xfF 0b01 ")
    (Piece.float (FloatText.point (Or.inr (by decide)) (by unfold Digits; decide) (by unfold Digits; decide) no)) (by decide) Trivia.nil ?_
  refine Layout.cons (x := q! "1" ++ q! "." ++ q! "5" ++ q! "e-3") (b := 32) (g := []) (rest := q! "0xfF 0b01 ")
    (Piece.float (FloatText.pointExp (Or.inl (by decide)) (by unfold Digits; decide) (by unfold Digits; decide)
      ⟨c! 'e', q! "-", q! "3", rfl, by decide, by decide, by decide, by unfold Digits; decide⟩)) (by decide) Trivia.nil ?_
  refine Layout.cons (x := q! "0" ++ q! "x" ++ q! "fF") (b := 32) (g := []) (rest := q! "0b01 ")
    (Piece.hex (v := 255) (by decide) (by decide)
      (Numeral.snoc (s := q! "f") (v := 15) (d := 15) (Numeral.snoc (s := []) (v := 0) (d := 15) Numeral.nil (by unfold IsDigit; decide) (by decide))
        (by unfold IsDigit; decide) (by decide)) (by decide)) (by decide) Trivia.nil ?_
  exact Layout.cons (x := q! "0" ++ q! "b" ++ q! "01") (b := 32) (g := []) (rest := [])
    (Piece.bin (by decide) (by decide) (by decide)) (by decide) Trivia.nil (Layout.nil Trivia.nil)

theorem absent_of {s t : QString} (h : ∀ k < t.length + 1, s.isPrefixOf (t.drop k) = false) : Absent s t := by
  rintro a z rfl
  have := h a.length (by simp; omega)
  rw [List.append_assoc, List.drop_left, List.isPrefixOf_iff_prefix.2 (List.prefix_append s z)] at this
  cases this

theorem op_piece {u : CharClass} {op after : QString} (t : Tok) (h1 : (op, t) ∈ operators) (h2 : op ≠ q! "`") (h3 : op ≠ q! "?>")
    (h4 : op ≠ q! "(") : Piece u op [t] after := Piece.op h1 h2 h3 fun h => absurd h h4

/-- `IF ( $a ) { // c⏎ echo 'x' ; }` -/
example : Layout asciiClass [(q! "IF", [.IF]), (q! "(", [.LPAREN]), (q! "$a", [.VARIABLE]), (q! ")", [.RPAREN]), (q! "{", [.LBRACE]),
    (q! "echo", [.ECHO]), (q! "'x'", [.CONSTANT_ENCAPSED_STRING]), (q! ";", [.SEMICOLON]), (q! "}", [.RBRACE])]
    (q! "IF ( $a ) { // c" ++ [10] ++ q! "echo 'x' ; } ") := by
  refine Layout.cons (x := q! "IF") (b := 32) (g := []) (rest := q! "( $a ) { // c" ++ [10] ++ q! "echo 'x' ; } ")
    (keyword_piece (u := asciiClass) (k := q! "if") (t := .IF) (by decide) (by decide) (by decide) (by decide) (by decide) (by decide)) (by decide) Trivia.nil ?_
  refine Layout.cons (x := q! "(") (b := 32) (g := []) (rest := q! "$a ) { // c" ++ [10] ++ q! "echo 'x' ; } ")
    (Piece.op (t := .LPAREN) (by decide) (by decide) (by decide) fun _ x r t h hc => ?_) (by decide) Trivia.nil ?_
  · obtain ⟨sp, w, sp', name, rfl, h1, h2, h3, h4, h5⟩ := hc.parts
    have hw : w ≠ [] := ciEq_ne h5 (castNames_ne _ (castNames_iff.1 h4))
    have e : q! " $a ) { // c" ++ [10] ++ q! "echo 'x' ; } " = sp ++ (w ++ (sp' ++ (q! ")" ++ r))) := by
      simp only [List.append_assoc] at h
      exact (List.cons.inj h).2
    match sp, w, hw, h1, h3, e with
    | [], a :: w', _, _, h3, e =>
      have h6 := h3 a (by simp)
      rw [← (List.cons.inj e).1] at h6; exact absurd h6 (by decide)
    | [_], a :: w', _, _, h3, e =>
      have h6 := h3 a (by simp)
      rw [← (List.cons.inj (List.cons.inj e).2).1] at h6; exact absurd h6 (by decide)
    | _ :: a :: sp2, _, _, h1, _, e =>
      have h6 := h1 a (by simp)
      rw [← (List.cons.inj (List.cons.inj e).2).1] at h6; exact absurd h6 (by decide)
  refine Layout.cons (x := q! "$" ++ q! "a") (b := 32) (g := []) (rest := q! ") { // c" ++ [10] ++ q! "echo 'x' ; } ")
    (Piece.var (u := asciiClass) (by decide) (by decide) (by decide)) (by decide) Trivia.nil ?_
  refine Layout.cons (x := q! ")") (b := 32) (g := []) (rest := q! "{ // c" ++ [10] ++ q! "echo 'x' ; } ")
    (op_piece .RPAREN (by decide) (by decide) (by decide) (by decide)) (by decide) Trivia.nil ?_
  refine Layout.cons (x := q! "{") (b := 32) (g := q! "//" ++ q! " c" ++ [10] ++ []) (rest := q! "echo 'x' ; } ")
    (op_piece .LBRACE (by decide) (by decide) (by decide) (by decide)) (by decide)
    (Trivia.line (Or.inr ⟨rfl, by decide⟩) (by decide) (absent_of (by decide)) Trivia.nil) ?_
  refine Layout.cons (x := q! "echo") (b := 32) (g := []) (rest := q! "'x' ; } ")
    (keyword_piece (u := asciiClass) (k := q! "echo") (t := .ECHO) (by decide) (by decide) (by decide) (by decide) (by decide) (by decide)) (by decide) Trivia.nil ?_
  refine Layout.cons (x := q! "'" ++ q! "x" ++ q! "'") (b := 32) (g := []) (rest := q! "; } ")
    (Piece.single (QuotedText.char (by decide) (by decide) QuotedText.nil)) (by decide) Trivia.nil ?_
  refine Layout.cons (x := q! ";") (b := 32) (g := []) (rest := q! "} ")
    (op_piece .SEMICOLON (by decide) (by decide) (by decide) (by decide)) (by decide) Trivia.nil ?_
  exact Layout.cons (x := q! "}") (b := 32) (g := []) (rest := [])
    (op_piece .RBRACE (by decide) (by decide) (by decide) (by decide)) (by decide) Trivia.nil (Layout.nil Trivia.nil)

/-- `<?xml v?>` is text outside PHP, `<? ` is an open tag. -/
example : Reading asciiClass .html (q! "<?xml v?><? $a") [.INLINE_HTML, .OPEN_TAG, .VARIABLE] := by
  have h1 : Lexeme asciiClass .html (q! "<?" ++ q! "xml" ++ q! " v?>") [.INLINE_HTML] (q! "<? $a") .html :=
    Lexeme.xml (by decide) (Or.inr ⟨_, rfl⟩) (absent_of (by decide))
  have h2 : Lexeme asciiClass .html (q! "<?") [.OPEN_TAG] (q! " $a") .code := Lexeme.openShort (by decide) (by decide) (by decide)
  have h3 : Lexeme asciiClass .code (q! " ") [] (q! "$a") .code := Lexeme.space (by decide) (by unfold Blank; decide) (by decide)
  have h4 : Lexeme asciiClass .code (q! "$" ++ q! "a") [.VARIABLE] [] .code := Lexeme.var (by decide) (by decide) (by decide) (by decide)
  exact Reading.cons h1 (Reading.cons h2 (Reading.cons h3 (Reading.cons h4 Reading.nil)))

/-- A tree as in `tree_written`: `<?php if ($a) echo $a;`. -/
example : ∃ s ts, @S.Fits all s .file ∧ s.toks = .OPEN_TAG :: ts ∧ (∀ t ∈ ts, t ∉ unspelled) ∧ ts.length = 7 := by
  have hp : (@parseFile all [.OPEN_TAG, .IF, .LPAREN, .VARIABLE, .RPAREN, .ECHO, .VARIABLE, .SEMICOLON]).isSome = true := by decide +kernel
  obtain ⟨s, hs⟩ := Option.isSome_iff_exists.1 hp
  obtain ⟨h1, h2⟩ := (Stmt.php_read_iff _ s).1 hs
  exact ⟨s, _, h1, h2.symm, by decide, rfl⟩

end KPhp
