import Verif.Parser.Layout
import Verif.Lexer.Interpolated
/-!
# Files with interpolated strings

What `Strings.Source` says about files: one sequence of tokens, one tree; plain code is a special case; what the
code does at the corners of the string syntax.
-/
namespace KPhp.Strings
open KPhp

section
variable {u : CharClass}

/-- **C92 (one sequence of tokens).** A source text has at most one sequence of tokens. -/
theorem source_unique (hu : u.Lawful) {m : Side} {text : QString} {ts ts' : List Tok} (h : Source u (sidePlace m) text ts)
    (h' : Source u (sidePlace m) text ts') : ts = ts' := by
  obtain ⟨n, st, h1, h2⟩ := source_tokens hu h
  obtain ⟨n', st', h1', h2'⟩ := source_tokens hu h'
  rw [tokenize_one h1 h1', h2'] at h2
  have := List.append_cancel_right h2
  exact (List.map_inj_right (by simp)).1 this.symm

/-- Plain code is source text. -/
theorem source_of_reading {m : Side} {text : QString} {ts : List Tok} (h : Reading u m text ts) : Source u (sidePlace m) text ts := by
  induction h with
  | nil => exact .nil
  | cons hx _ ih => exact .cons (.plain hx) ih

/-- **C92 (what a file with strings means).** A source file is read as the tree `s` exactly if `s` is a tree of the grammar and
the tokens of the elements are the tokens of `s`. -/
theorem source_read_iff (hu : u.Lawful) {text : QString} {ts : List Tok} (h : Source u .html text ts) (s : Stmt.S) :
    ReadAs u text s ↔ @Stmt.S.Fits Stmt.all s .file ∧ ts = s.toks := readAs_iff (source_tokens (m := .html) hu h) s

end

/-! ## The corners -/

def dq (s : QString) : QString := q! "<?php \"" ++ s ++ q! "\";"

/-- **C92 (finding).** `"{$a}"` and `"${a}"` are interpolations, and so is `"{${a}}"`; behind a variable, `"$a{${b}}"` has an
empty text token and `"$a{$b}"` too. -/
theorem curly_corners :
    HasTokens asciiClass (dq (q! "{$a}")) [.OPEN_TAG, .DOUBLE_QUOTE, .CURLY_OPEN, .VARIABLE, .RBRACE, .DOUBLE_QUOTE, .SEMICOLON] ∧
    HasTokens asciiClass (dq (q! "${a}")) [.OPEN_TAG, .DOUBLE_QUOTE, .DOLLAR_OPEN_CURLY_BRACES, .STRING_VARNAME, .RBRACE, .DOUBLE_QUOTE, .SEMICOLON] ∧
    HasTokens asciiClass (dq (q! "{${a}}")) [.OPEN_TAG, .DOUBLE_QUOTE, .CURLY_OPEN, .DOLLAR, .LBRACE, .STRING, .RBRACE, .RBRACE, .DOUBLE_QUOTE, .SEMICOLON] ∧
    HasTokens asciiClass (dq (q! "$a{$b}")) [.OPEN_TAG, .DOUBLE_QUOTE, .VARIABLE, .ENCAPSED_AND_WHITESPACE, .CURLY_OPEN, .VARIABLE, .RBRACE, .DOUBLE_QUOTE, .SEMICOLON] ∧
    HasTokens asciiClass (dq (q! "$a{${b}}")) [.OPEN_TAG, .DOUBLE_QUOTE, .VARIABLE, .ENCAPSED_AND_WHITESPACE, .DOLLAR_OPEN_CURLY_BRACES, .STRING_VARNAME, .RBRACE, .ENCAPSED_AND_WHITESPACE, .DOUBLE_QUOTE, .SEMICOLON] :=
  ⟨⟨20, _, rfl, by decide +kernel⟩, ⟨20, _, rfl, by decide +kernel⟩, ⟨20, _, rfl, by decide +kernel⟩, ⟨20, _, rfl, by decide +kernel⟩,
   ⟨20, _, rfl, by decide +kernel⟩⟩

/-- **C92 (finding).** An index in a string is a number, or any text up to `]`: the variable in `"$a[$i]"` is not a variable for
the parser, and `0x1` is two tokens. -/
theorem index_corners :
    HasTokens asciiClass (dq (q! "$a[7]")) [.OPEN_TAG, .DOUBLE_QUOTE, .VARIABLE, .LBRACKET, .NUM_STRING, .RBRACKET, .DOUBLE_QUOTE, .SEMICOLON] ∧
    HasTokens asciiClass (dq (q! "$a[$i]")) [.OPEN_TAG, .DOUBLE_QUOTE, .VARIABLE, .LBRACKET, .STRING, .RBRACKET, .DOUBLE_QUOTE, .SEMICOLON] ∧
    HasTokens asciiClass (dq (q! "$a[0x1]")) [.OPEN_TAG, .DOUBLE_QUOTE, .VARIABLE, .LBRACKET, .NUM_STRING, .STRING, .RBRACKET, .DOUBLE_QUOTE, .SEMICOLON] ∧
    ¬ ∃ s, ReadAs asciiClass (dq (q! "$a[0x1]")) s := by
  have h : HasTokens asciiClass (dq (q! "$a[0x1]")) [.OPEN_TAG, .DOUBLE_QUOTE, .VARIABLE, .LBRACKET, .NUM_STRING, .STRING, .RBRACKET, .DOUBLE_QUOTE, .SEMICOLON] :=
    ⟨20, _, rfl, by decide +kernel⟩
  refine ⟨⟨20, _, rfl, by decide +kernel⟩, ⟨20, _, rfl, by decide +kernel⟩, h, ?_⟩
  rintro ⟨s, hs⟩
  have := (Stmt.php_read_iff _ s).2 ((readAs_iff h s).1 hs)
  have hp : @Stmt.parseFile Stmt.all [.OPEN_TAG, .DOUBLE_QUOTE, .VARIABLE, .LBRACKET, .NUM_STRING, .STRING, .RBRACKET, .DOUBLE_QUOTE, .SEMICOLON] = none := by
    decide +kernel
  rw [hp] at this; cases this

/-- **C92 (finding).** The identifier of a heredoc ends it in the middle of a line too, directly behind an interpolation: `{$a}E;`
is the end of the heredoc, `{$a} E;` is text of it. -/
theorem heredoc_corner :
    HasTokens asciiClass (q! "<?php <<<E" ++ [10] ++ q! "{$a}E;" ++ [10])
      [.OPEN_TAG, .START_HEREDOC, .CURLY_OPEN, .VARIABLE, .RBRACE, .END_HEREDOC, .SEMICOLON] ∧
    HasTokens asciiClass (q! "<?php <<<E" ++ [10] ++ q! "{$a} E;" ++ [10] ++ q! "E;" ++ [10])
      [.OPEN_TAG, .START_HEREDOC, .CURLY_OPEN, .VARIABLE, .RBRACE, .ENCAPSED_AND_WHITESPACE, .END_HEREDOC, .SEMICOLON] :=
  ⟨⟨20, _, rfl, by decide +kernel⟩, ⟨20, _, rfl, by decide +kernel⟩⟩

/-! ## Concrete sources -/

/-- `;` before anything. -/
theorem semicolon (rest : QString) : Element asciiClass .code (q! ";") [.SEMICOLON] rest .code := by
  refine .plain (m := .code) (m' := .code) (.op (by decide) (by decide) (by decide) ?_ ?_)
  · rintro p hp ⟨r, hr⟩
    have : chr (p.1 ++ r) 0 = 59 := by rw [hr]; rfl
    rcases Nat.lt_or_ge 1 p.1.length with hl | hl
    · rw [chr_left (by omega)] at this
      exact absurd this ((by decide +kernel : ∀ p ∈ operators, 1 < p.1.length → chr p.1 0 ≠ 59) p hp hl)
    · exact hl
  · refine ⟨?_, ?_, ?_, ?_, ?_, ?_⟩ <;> (intro h; exact absurd h (by decide))

/-- `<?php "a $b[0] {$c->d} e";` -/
example : Source asciiClass .html (q! "<?php \"a $b[0] {$c->d} e\";")
    [.OPEN_TAG, .DOUBLE_QUOTE, .ENCAPSED_AND_WHITESPACE, .VARIABLE, .LBRACKET, .NUM_STRING, .RBRACKET, .ENCAPSED_AND_WHITESPACE, .CURLY_OPEN,
     .VARIABLE, .OBJECT_OPERATOR, .STRING, .RBRACE, .ENCAPSED_AND_WHITESPACE, .DOUBLE_QUOTE, .SEMICOLON] := by
  have noInt : ∀ s : QString, chr s 0 ≠ 36 → chr s 0 ≠ 123 → ¬ Interpolates asciiClass s := by
    rintro s h1 h2 (⟨h, _⟩ | ⟨h, _⟩ | ⟨h, _⟩)
    · exact h1 h
    · exact h1 h
    · exact h2 h
  have h1 : Element asciiClass .html (q! "<?" ++ [c! 'p', c! 'h', c! 'p', c! ' ']) [.OPEN_TAG] (q! "\"a $b[0] {$c->d} e\";") .code :=
    .plain (m := .html) (m' := .code) (.openPhp (by decide) (by decide) (by decide) (by decide))
  have h2 : Element asciiClass .code (q! "\"") [.DOUBLE_QUOTE] (q! "a $b[0] {$c->d} e\";") (.text .double .code) :=
    .openDouble (Or.inl rfl) (.char (by decide) (by decide) (.char (by decide) (by decide) (.here (Or.inl ⟨rfl, by decide⟩))))
  have h3 : Element asciiClass (.text .double .code) (q! "a ") [.ENCAPSED_AND_WHITESPACE] (q! "$b[0] {$c->d} e\";") (.text .double .code) := by
    refine .run (by decide) ?_ (by unfold Ends; decide) (by decide)
    refine .char (by decide) (noInt _ (by decide) (by decide)) (fun _ => by unfold Ends; decide) (fun _ h => by cases h) ?_
    refine .char (by decide) (noInt _ (by decide) (by decide)) (fun _ => by unfold Ends; decide) (fun _ h => by cases h) ?_
    exact .stop (Or.inl ⟨rfl, by decide⟩)
  have h4 : Element asciiClass (.text .double .code) (q! "$" ++ q! "b") [.VARIABLE] (q! "[0] {$c->d} e\";") (.var .double .code) :=
    .named (Or.inl rfl) (by decide) (by decide) (by decide) (by decide)
  have h5 : Element asciiClass (.var .double .code) (q! "[" ++ q! "0" ++ [] ++ q! "]") [.LBRACKET, .NUM_STRING, .RBRACKET] (q! " {$c->d} e\";") (.text .double .code) :=
    .index (ds := q! "0") (w := []) (by decide) (fun h => absurd rfl h) (by decide)
  have h6 : Element asciiClass (.text .double .code) (q! " ") [.ENCAPSED_AND_WHITESPACE] (q! "{$c->d} e\";") (.text .double .code) := by
    refine .run (by decide) ?_ (by unfold Ends; decide) (by decide)
    refine .char (by decide) (noInt _ (by decide) (by decide)) (fun _ => by unfold Ends; decide) (fun _ h => by cases h) ?_
    exact .stop (Or.inr (Or.inr ⟨rfl, rfl, by decide⟩))
  have h7 : Element asciiClass (.text .double .code) (q! "{") [.CURLY_OPEN] (q! "$c->d} e\";") (.inner (.text .double .code)) :=
    .curly (Or.inl ⟨rfl, by decide⟩)
  have h8 : Element asciiClass (.inner (.text .double .code)) (q! "$" ++ q! "c") [.VARIABLE] (q! "->d} e\";") (.inner (.text .double .code)) :=
    .inner (.var (by decide) (by decide) (by decide) (by decide)) (by decide) (by decide)
  have h9 : Element asciiClass (.inner (.text .double .code)) (q! "->" ++ q! "d") [.OBJECT_OPERATOR, .STRING] (q! "} e\";") (.inner (.text .double .code)) :=
    .inner (.member (by decide) (by decide) (by decide)) (by decide) (by decide)
  have h10 : Element asciiClass (.inner (.text .double .code)) (q! "}") [.RBRACE] (q! " e\";") (.text .double .code) := .leave
  have h11 : Element asciiClass (.text .double .code) (q! " e") [.ENCAPSED_AND_WHITESPACE] (q! "\";") (.text .double .code) := by
    refine .run (by decide) ?_ (by unfold Ends; decide) (by decide)
    refine .char (by decide) (noInt _ (by decide) (by decide)) (fun _ => by unfold Ends; decide) (fun _ h => by cases h) ?_
    refine .char (by decide) (noInt _ (by decide) (by decide)) (fun _ => by unfold Ends; decide) (fun _ h => by cases h) ?_
    exact .quote (fun _ h => by cases h) rfl
  have h12 : Element asciiClass (.text .double .code) (q! "\"") [.DOUBLE_QUOTE] (q! ";") .code := .close (Or.inl rfl) .double
  exact .cons h1 (.cons h2 (.cons h3 (.cons h4 (.cons h5 (.cons h6 (.cons h7 (.cons h8 (.cons h9 (.cons h10 (.cons h11 (.cons h12
    (.cons (semicolon []) .nil))))))))))))

/-- `<?php <<<E` / `a` / `E;` and `<?php <<<'E'` / `$a` / `E;`: a heredoc and a nowdoc. -/
example : Source asciiClass .html (q! "<?php <<< E" ++ [10] ++ q! "a" ++ [10] ++ q! "E;" ++ [10])
    [.OPEN_TAG, .START_HEREDOC, .ENCAPSED_AND_WHITESPACE, .END_HEREDOC, .SEMICOLON] := by
  have noInt : ∀ s : QString, chr s 0 ≠ 36 → chr s 0 ≠ 123 → ¬ Interpolates asciiClass s := by
    rintro s h1 h2 (⟨h, _⟩ | ⟨h, _⟩ | ⟨h, _⟩)
    · exact h1 h
    · exact h1 h
    · exact h2 h
  have ends : Ends (.here (q! "E")) (q! "E" ++ (q! ";" ++ [10])) := ⟨_, rfl, Or.inr ⟨rfl, rfl⟩⟩
  have noEnd : ∀ s : QString, chr s 0 ≠ 69 → ¬ Ends (.here (q! "E")) s := by
    rintro s h ⟨r, rfl, _⟩; exact h rfl
  have h1 : Element asciiClass .html (q! "<?" ++ [c! 'p', c! 'h', c! 'p', c! ' ']) [.OPEN_TAG] (q! "<<< E" ++ [10] ++ q! "a" ++ [10] ++ q! "E;" ++ [10]) .code :=
    .plain (m := .html) (m' := .code) (.openPhp (by decide) (by decide) (by decide) (by decide))
  have h2 : Element asciiClass .code (q! "<<<" ++ q! " " ++ q! "E" ++ [10]) [.START_HEREDOC] (q! "a" ++ [10] ++ (q! "E;" ++ [10])) (.text (.here (q! "E")) .code) :=
    .openHere ⟨⟨by decide, by decide, by decide⟩, q! " ", by decide, Or.inl ⟨rfl, rfl⟩⟩ (by decide)
  have h3 : Element asciiClass (.text (.here (q! "E")) .code) (q! "a" ++ [10]) [.ENCAPSED_AND_WHITESPACE] (q! "E" ++ (q! ";" ++ [10])) (.text (.here (q! "E")) .code) := by
    refine .run (by decide) ?_ (noEnd _ (by decide)) (by decide)
    refine .char (by decide) (noInt _ (by decide) (by decide)) (fun h => absurd rfl (h _)) (fun _ _ h => absurd h (by decide)) ?_
    exact .lastLine rfl ends
  have h4 : Element asciiClass (.text (.here (q! "E")) .code) (q! "E") [.END_HEREDOC] (q! ";" ++ [10]) .code := .closeHere (Or.inl rfl) ends
  have h5 : Element asciiClass .code [10] [] [] .code :=
    .plain (m := .code) (m' := .code) (.space (by decide) (by unfold Blank; decide) (by decide))
  exact .cons h1 (.cons h2 (.cons h3 (.cons h4 (.cons (semicolon [10]) (.cons h5 .nil)))))

example : Source asciiClass .html (q! "<?php <<<'E'" ++ [10] ++ q! "$a" ++ [10] ++ q! "E;" ++ [10])
    [.OPEN_TAG, .START_NOWDOC, .STRING, .END_NOWDOC, .SEMICOLON] := by
  have ends : Ends (.here (q! "E")) (q! "E" ++ (q! ";" ++ [10])) := ⟨_, rfl, Or.inr ⟨rfl, rfl⟩⟩
  have noEnd : ∀ s : QString, chr s 0 ≠ 69 → ¬ Ends (.here (q! "E")) s := by
    rintro s h ⟨r, rfl, _⟩; exact h rfl
  have h1 : Element asciiClass .html (q! "<?" ++ [c! 'p', c! 'h', c! 'p', c! ' ']) [.OPEN_TAG] (q! "<<<'E'" ++ [10] ++ q! "$a" ++ [10] ++ q! "E;" ++ [10]) .code :=
    .plain (m := .html) (m' := .code) (.openPhp (by decide) (by decide) (by decide) (by decide))
  have h2 : Element asciiClass .code (q! "<<<" ++ [] ++ q! "'" ++ q! "E" ++ q! "'" ++ [10]) [.START_NOWDOC] (q! "$a" ++ [10] ++ (q! "E;" ++ [10])) (.nowdoc (q! "E")) :=
    .openNow ⟨⟨by decide, by decide, by decide⟩, [], (fun _ h => by cases h), Or.inr (Or.inr ⟨rfl, rfl⟩)⟩ (by decide)
  have h3 : Element asciiClass (.nowdoc (q! "E")) (q! "$a" ++ [10]) [.STRING] (q! "E" ++ (q! ";" ++ [10])) (.nowdoc (q! "E")) :=
    .nowText (by decide) (.char (fun h => absurd h (by decide)) (.char (fun h => absurd h (by decide)) (.last ends))) (noEnd _ (by decide))
  have h4 : Element asciiClass (.nowdoc (q! "E")) (q! "E") [.END_NOWDOC] (q! ";" ++ [10]) .code := .closeNow ends
  have h5 : Element asciiClass .code [10] [] [] .code :=
    .plain (m := .code) (m' := .code) (.space (by decide) (by unfold Blank; decide) (by decide))
  exact .cons h1 (.cons h2 (.cons h3 (.cons h4 (.cons (semicolon [10]) (.cons h5 .nil)))))

end KPhp.Strings
