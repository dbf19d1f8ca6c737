import Verif.Parser.StmtMono
import Verif.Parser.StmtProps
/-
# Closures

Models the rules `closure`, `lexicalVarList`, `lexicalVar` (php.g:590-607) and closes the circle: an expression may be a closure,
which contains statements, which contain expressions.

The parser of statements is a function of how closures are read (`Closures`).  `lvl n` reads closures that stand at most `n` deep in
each other; `all` reads any closure, with as much depth as there are tokens.  `all_ok_iff` and `all_read_eq` show that this is the
rule of the code: a closure is what the rule `closure` reads when the closures inside are read in the same way.
-/
namespace KPhp.Stmt
set_option linter.unusedVariables false
set_option linter.unusedSectionVars false
set_option linter.unusedSimpArgs false
open KPhp (Tok)
open KPhp.Grammar (headIn E Closures Fits noClosures)

/-! ## The rule -/

/-- a closure: `function & (params) use (vars): types { body }`; `uses`: which variables are used by reference, and whether a comma
stands behind the last -/
structure Clo where
  ref : Bool
  params : Params
  uses : Option (List Bool × Bool)
  ret : Option (List Hint)
  body : S
deriving DecidableEq, Repr

/-- php.g:606-607 `lexicalVar` -/
def lexVarP : P Bool := post (flag .BIT_AND) .VARIABLE
def lexVarTxt (b : Bool) : List Tok := flagTxt .BIT_AND b ++ [.VARIABLE]
/-- php.g:601-604: an empty list is reported as an error -/
def lexVarsP : P (List Bool × Bool) := sepTrail .COMMA .RPAREN lexVarP
/-- `( USE LPAREN lexicalVars=lexicalVarList RPAREN | 0)` -/
def usesP : P (Option (List Bool × Bool)) := opt [.USE] (pre .USE (pre .LPAREN (post lexVarsP .RPAREN)))
def usesTxt (o : Option (List Bool × Bool)) : List Tok :=
  optTxt (fun x => .USE :: .LPAREN :: (sepTrailTxt .COMMA lexVarTxt x ++ [.RPAREN])) o
def UsesOk (o : Option (List Bool × Bool)) : Prop := ∀ x, o = some x → x.1 ≠ []

theorem lexVar_sound : Sound lexVarP lexVarTxt (fun _ => True) := sound_post (sound_flag _) _
theorem lexVar_compl : Compl lexVarP lexVarTxt (fun _ => True) anyFol :=
  (compl_post (compl_flag .BIT_AND) .VARIABLE (fun b r _ _ => rfl)).weaken (fun _ h => h) (fun _ _ _ _ => trivial)
theorem uses_sound : Sound usesP usesTxt UsesOk :=
  (sound_opt (sound_pre (sound_pre (sound_post (sound_sepTrail lexVar_sound _ _) _) _) _) _).weaken fun o h x hx => (h x hx).1
theorem uses_compl : Compl usesP usesTxt UsesOk (fun _ r => In [.COLON, .LBRACE] r) := by
  have h1 := compl_post (compl_sepTrail lexVar_compl .COMMA .RPAREN (fun _ _ _ => trivial)
    (fun a r _ => by cases a <;> rfl)) .RPAREN (fun x r _ => ⟨fun _ => rfl, fun _ => ⟨rfl, fun _ _ => trivial⟩⟩)
  refine (compl_opt (compl_pre (compl_pre h1 .LPAREN) .USE) [.USE] (fun _ _ => rfl)).weaken ?_ ?_
  · exact fun o h x hx => ⟨h x hx, fun _ _ => trivial⟩
  · intro o r _ hr
    obtain ⟨t, r', rfl, ht⟩ := in_of hr
    simp only [List.contains_eq_mem, decide_eq_true_eq, List.mem_cons, List.not_mem_nil, or_false] at ht
    rcases ht with rfl | rfl <;> exact ⟨fun _ => rfl, fun _ _ => trivial⟩

section
variable [Closures]

/-- php.g:591-593, up to the body -/
def cloHeadP : P (Bool × Params × Option (List Bool × Bool) × Option (List Hint)) :=
  pre .FUNCTION (andThen (flag .BIT_AND) (andThen (pre .LPAREN (post paramsP .RPAREN)) (andThen usesP
    (opt [.COLON] (pre .COLON (hintsP returnWords))))))
/-- php.g:591-595 `closure` -/
def closureP : P Clo := fun ts =>
  mapP (fun x => ⟨x.1.1, x.1.2.1, x.1.2.2.1, x.1.2.2.2, x.2⟩) (andThen cloHeadP (braced (run (2 * ts.length + 2)) .body)) ts

end

/-- the text of a closure -/
def Clo.toks (c : Clo) : List Tok :=
  .FUNCTION :: (flagTxt .BIT_AND c.ref ++ (.LPAREN :: (paramsTxt c.params ++ [.RPAREN]) ++ (usesTxt c.uses ++
    optTxt (fun h => .COLON :: hintsTxt h) c.ret))) ++ .LBRACE :: (c.body.toks ++ [.RBRACE])
/-- which closures there are -/
def Clo.Ok [Closures] (c : Clo) : Prop :=
  ParamsOk c.params ∧ UsesOk c.uses ∧ (∀ h, c.ret = some h → Hints returnWords h) ∧ c.body.Fits .body

section
variable [Closures]

theorem cloHead_sound : Sound cloHeadP (fun x => .FUNCTION :: (flagTxt .BIT_AND x.1 ++ (.LPAREN :: (paramsTxt x.2.1 ++ [.RPAREN]) ++
      (usesTxt x.2.2.1 ++ optTxt (fun h => .COLON :: hintsTxt h) x.2.2.2))))
    (fun x => ParamsOk x.2.1 ∧ UsesOk x.2.2.1 ∧ ∀ h, x.2.2.2 = some h → Hints returnWords h) :=
  (sound_pre (sound_andThen (sound_flag _) (sound_andThen (sound_pre (sound_post params_sound _) _) (sound_andThen uses_sound
    (sound_opt (sound_pre (hints_sound _) _) _)))) _).weaken fun x h => h.2
theorem cloHead_compl : Compl cloHeadP (fun x => .FUNCTION :: (flagTxt .BIT_AND x.1 ++ (.LPAREN :: (paramsTxt x.2.1 ++ [.RPAREN]) ++
      (usesTxt x.2.2.1 ++ optTxt (fun h => .COLON :: hintsTxt h) x.2.2.2))))
    (fun x => ParamsOk x.2.1 ∧ UsesOk x.2.2.1 ∧ ∀ h, x.2.2.2 = some h → Hints returnWords h) (fun _ r => In [.LBRACE] r) := by
  have h1 : Compl (opt [.COLON] (pre .COLON (hintsP returnWords))) (optTxt fun h => .COLON :: hintsTxt h)
      (fun o => ∀ h, o = some h → Hints returnWords h) (fun _ r => In [.LBRACE] r) :=
    (compl_opt (compl_pre (hints_compl words_return) .COLON) [.COLON] (fun _ _ => rfl)).weaken (fun _ h => h) (by
      intro a r _ hr
      obtain ⟨t, r', rfl, ht⟩ := in_of hr
      simp only [List.contains_eq_mem, decide_eq_true_eq, List.mem_cons, List.not_mem_nil, or_false] at ht
      subst ht; exact ⟨fun _ => rfl, fun _ _ => rfl⟩)
  have h2 := compl_andThen uses_compl h1 (fol := fun _ r => In [.LBRACE] r) (by
    intro a b r _ _ hr
    obtain ⟨t, r', rfl, ht⟩ := in_of hr
    simp only [List.contains_eq_mem, decide_eq_true_eq, List.mem_cons, List.not_mem_nil, or_false] at ht
    subst ht
    cases b <;> exact ⟨rfl, rfl⟩)
  have h3 := compl_andThen (compl_pre (compl_post params_compl .RPAREN (fun _ _ _ => rfl)) .LPAREN) h2
    (fol := fun _ r => In [.LBRACE] r) (fun _ _ _ _ _ h => ⟨trivial, h⟩)
  have h4 := compl_andThen (compl_flag .BIT_AND) h3 (fol := fun _ r => In [.LBRACE] r) (fun _ _ _ _ _ h => ⟨fun _ => rfl, h⟩)
  exact (compl_pre h4 .FUNCTION).weaken (fun _ h => ⟨trivial, h⟩) (fun _ _ _ h => h)

theorem closure_sound : Sound closureP Clo.toks Clo.Ok := by
  intro ts c r h
  obtain ⟨⟨a, b⟩, hz, hs⟩ := mapP_inv h
  obtain ⟨r1, h1, h2⟩ := andThen_inv hz
  obtain ⟨rfl, ho⟩ := cloHead_sound _ _ _ h1
  obtain ⟨rfl, hb⟩ := braced_reads (run_reads _) h2
  subst hs
  exact ⟨by simp [Clo.toks], ho.1, ho.2.1, ho.2.2, hb⟩

theorem closure_compl : Compl closureP Clo.toks Clo.Ok anyFol := by
  intro c r h _
  have h1 := cloHead_compl (c.ref, c.params, c.uses, c.ret) (.LBRACE :: (c.body.toks ++ .RBRACE :: r)) ⟨h.1, h.2.1, h.2.2.1⟩ rfl
  have hd := (depth_le c.body _ h.2.2.2).1
  have h2 := body_compl (run_compl (2 * (c.toks ++ r).length + 2)) r h.2.2.2
    (by simp only [Clo.toks, List.length_append, List.length_cons]; omega)
  have he : c.toks ++ r = Tok.FUNCTION :: (flagTxt .BIT_AND c.ref ++ (.LPAREN :: (paramsTxt c.params ++ [.RPAREN]) ++ (usesTxt c.uses ++
    optTxt (fun h => .COLON :: hintsTxt h) c.ret))) ++ (.LBRACE :: (c.body.toks ++ .RBRACE :: r)) := by simp [Clo.toks]
  have h3 := mapP_some (f := fun x : (Bool × Params × Option (List Bool × Bool) × Option (List Hint)) × S =>
    (⟨x.1.1, x.1.2.1, x.1.2.2.1, x.1.2.2.2, x.2⟩ : Clo)) (andThen_some h1 h2)
  rw [← he] at h3
  exact h3
end

/-! ## The circle -/

/-- closures whose closures inside are those of `A` -/
@[instance_reducible] def next (A : Closures) : Closures where
  read ts := (@closureP A ts).map fun x => (x.1.toks, x.2)
  Ok t := ∃ c : Clo, @Clo.Ok A c ∧ t = c.toks
  sound {ts t r} h := by
    rw [Option.map_eq_some_iff] at h
    obtain ⟨⟨c, r'⟩, h1, h2⟩ := h
    cases h2
    obtain ⟨h3, h4⟩ := @closure_sound A _ _ _ h1
    exact ⟨h3, c, h4, rfl⟩
  complete {t} h r := by
    obtain ⟨c, h1, rfl⟩ := h
    rw [@closure_compl A c r h1 trivial]
    rfl
  head {t} h := by
    obtain ⟨c, h1, rfl⟩ := h
    cases hr : c.ref with
    | true => exact .inr (by simp [Clo.toks, hr, flagTxt])
    | false => exact .inl (by simp [Clo.toks, hr, flagTxt])

/-- closures that stand less than `n` deep in each other -/
@[instance_reducible] def lvl : Nat → Closures
  | 0 => noClosures
  | n + 1 => next (lvl n)

theorem next_mono {A B : Closures} {t : List Tok} (hAB : ∀ t' : List Tok, t'.length < t.length → A.Ok t' → B.Ok t')
    (h : (next A).Ok t) : (next B).Ok t := by
  obtain ⟨c, ⟨h1, h2, h3, h4⟩, rfl⟩ := h
  have hK : ∀ t' : List Tok, t'.length ≤ c.toks.length - 1 → A.Ok t' → B.Ok t' := by
    intro t' hl
    refine hAB t' ?_
    have : 0 < c.toks.length := by simp [Clo.toks]
    omega
  refine ⟨c, ⟨params_mono hK h1 ?_, h2, h3, tree_mono hK c.body _ h4 ?_⟩, rfl⟩
  all_goals simp only [Clo.toks, List.length_append, List.length_cons]; omega

theorem lvl_succ (n : Nat) : ∀ t, (lvl n).Ok t → (lvl (n + 1)).Ok t := by
  induction n with
  | zero => intro t h; exact h.elim
  | succ n ih => intro t h; exact next_mono (fun t' _ => ih t') h
theorem lvl_mono {n m : Nat} (h : n ≤ m) {t : List Tok} (ht : (lvl n).Ok t) : (lvl m).Ok t := by
  induction h with
  | refl => exact ht
  | step _ ih => exact lvl_succ _ _ ih
/-- closures do not stand deeper in each other than they have tokens -/
theorem lvl_length (L : Nat) : ∀ (t : List Tok) (n : Nat), t.length ≤ L → (lvl n).Ok t → (lvl t.length).Ok t := by
  induction L with
  | zero =>
    intro t n hl h
    rcases (lvl n).head h with ⟨r, rfl⟩ | ⟨r, rfl⟩ <;> simp at hl
  | succ L ih =>
    intro t n hl h
    cases n with
    | zero => exact h.elim
    | succ n =>
      cases hm : t.length with
      | zero =>
        rcases (lvl (n + 1)).head h with ⟨r, rfl⟩ | ⟨r, rfl⟩ <;> simp at hm
      | succ m => exact next_mono (fun t' hl' h' => lvl_mono (by omega) (ih t' n (by omega) h')) h

/-- all closures -/
instance all : Closures where
  read ts := (lvl ts.length).read ts
  Ok t := ∃ n, (lvl n).Ok t
  sound {ts t r} h := ⟨((lvl _).sound h).1, _, ((lvl _).sound h).2⟩
  complete {t} h r := by
    obtain ⟨n, h⟩ := h
    exact (lvl _).complete (lvl_mono (by simp) (lvl_length _ t n (Nat.le_refl _) h)) r
  head {t} h := by
    obtain ⟨n, h⟩ := h
    exact (lvl n).head h

/-- C68: the texts read as closures are those of the rule `closure`, with closures inside that are read in the same way -/
theorem all_ok_iff (t : List Tok) : Closures.Ok t ↔ ∃ c : Clo, c.Ok ∧ t = c.toks := by
  constructor
  · rintro ⟨n, h⟩
    cases n with
    | zero => exact h.elim
    | succ n => exact next_mono (A := lvl n) (B := all) (fun t' _ h' => ⟨n, h'⟩) h
  · intro h
    refine ⟨t.length + 1, ?_⟩
    refine next_mono (A := all) (B := lvl t.length) ?_ h
    rintro t' hl ⟨n, h'⟩
    exact lvl_mono (Nat.le_of_lt hl) (lvl_length _ t' n (Nat.le_refl _) h')

/-- what is read is determined by what there is -/
theorem read_det {A B : Closures} (h : ∀ t, A.Ok t ↔ B.Ok t) (ts : List Tok) : A.read ts = B.read ts := by
  cases ha : A.read ts with
  | some x =>
    obtain ⟨h1, h2⟩ := A.sound ha
    rw [h1, B.complete ((h _).1 h2)]
  | none =>
    cases hb : B.read ts with
    | none => rfl
    | some x =>
      obtain ⟨h1, h2⟩ := B.sound hb
      rw [h1, A.complete ((h _).2 h2)] at ha
      cases ha

/-- C68: the equation of the code: to read a closure is to call the rule `closure`, which reads closures inside in the same way -/
theorem all_read_eq (ts : List Tok) : Closures.read ts = (closureP ts).map fun x => (x.1.toks, x.2) :=
  read_det (A := all) (B := next all) (fun t => all_ok_iff t) ts

/-! ## Brackets -/

theorem bal_uses {o : Option (List Bool × Bool)} : Bal (usesTxt o) :=
  bal_opt fun x _ => bal_cons rfl (bal_paren (bal_sepTrail rfl fun b _ => bal_append (bal_flag rfl b) (bal_tok rfl)))

theorem bal_clo {A : Closures} (hA : @Nested A) {c : Clo} (h : @Clo.Ok A c) : Bal c.toks :=
  bal_append (bal_cons rfl (bal_append (bal_flag rfl _) (bal_append (bal_paren (bal_params h.1)) (bal_append bal_uses
    (bal_opt fun x hx => bal_cons rfl (bal_hints words_return (h.2.2.1 x hx)))))))
    (bal_brace (bal_tree _ _ (fun w hw => by cases hw) h.2.2.2))

theorem bal_lvl (n : Nat) : @Nested (lvl n) := by
  induction n with
  | zero => exact @Nested.mk (lvl 0) (fun h => h.elim)
  | succ n ih =>
    refine @Nested.mk (lvl (n + 1)) fun h => ?_
    obtain ⟨c, h1, rfl⟩ := h
    exact bal_clo ih h1

instance allNested : Nested where
  ok h := by
    obtain ⟨n, h⟩ := h
    exact (bal_lvl n).ok h

/-! ## The parser of the code

The theorems of the other files hold for every reading of closures; here they are stated for `all`. -/

/-- C68: a file is read as `s` exactly if it is the text of `s` and `s` fits the grammar, closures of any nesting included -/
theorem php_read_iff (ts : List Tok) (s : S) : @parseFile all ts = some s ↔ @S.Fits all s .file ∧ ts = s.toks := file_read_iff ts s
/-- C69: no file has two readings -/
theorem php_one_reading {s s' : S} (h : @S.Fits all s .file) (h' : @S.Fits all s' .file) (he : s.toks = s'.toks) : s = s' :=
  one_reading h h' he
/-- C71: in every accepted file the brackets match -/
theorem php_brackets {ts : List Tok} (h : (@parseFile all ts).isSome = true) : nested [] ts = true := brackets_closed h
/-- C71: a bracket more or less is an error -/
theorem php_bracket_missing {a b : List Tok} {t : Tok} (ht : isBracket t = true) (h : (@parseFile all (a ++ t :: b)).isSome = true) :
    @parseFile all (a ++ b) = none := bracket_missing ht h
/-- C59: an expression is read as `e` exactly if it is the text of `e` and `e` is grouped by the table -/
theorem php_expr_iff (ts : List Tok) (e : E) : (∃ f, @Grammar.parse all ts = .ok e [] f) ↔ @Fits all (.lev 0) e ∧ ts = e.toks :=
  Grammar.parse_iff ts e

/-! ## Words -/

/-- a word of its own for the lexer (C12) -/
def isKeyword (t : Tok) : Bool := t == .STATIC || t == .YIELD || (keywordTable.map (·.2)).contains t

/-- C68: a method may be named like any keyword but `void` and `__halt_compiler` -/
theorem method_names (t : Tok) :
    (parseFile [.CLASS, .STRING, .LBRACE, .FUNCTION, t, .LPAREN, .RPAREN, .SEMICOLON, .RBRACE]).isSome =
      (t == .STRING || isKeyword t && t != .VOID && t != .HALT_COMPILER) := by
  cases t <;> decide +kernel
/-- C68: a class constant too -/
theorem constant_names (t : Tok) :
    (parseFile [.CLASS, .STRING, .LBRACE, .CONST, t, .ASSIGN, .LNUMBER, .SEMICOLON, .RBRACE]).isSome =
      (t == .STRING || isKeyword t && t != .VOID && t != .HALT_COMPILER) := by
  cases t <;> decide +kernel
/-- C68: a function may not -/
theorem function_names (t : Tok) : (parseFile [.FUNCTION, t, .LPAREN, .RPAREN, .LBRACE, .RBRACE]).isSome = (t == .STRING) := by
  cases t <;> decide +kernel
/-- C68: the words for types of parameters, results and properties -/
theorem type_words (t : Tok) :
    (parseFile [.FUNCTION, .STRING, .LPAREN, .STRING, .BIT_OR, t, .VARIABLE, .RPAREN, .LBRACE, .RBRACE]).isSome =
        [Tok.STRING, .ARRAY, .CALLABLE].contains t ∧
    (parseFile [.FUNCTION, .STRING, .LPAREN, .RPAREN, .COLON, t, .LBRACE, .RBRACE]).isSome =
        [Tok.STRING, .ARRAY, .CALLABLE, .VOID].contains t ∧
    (parseFile [.CLASS, .STRING, .LBRACE, .STRING, .BIT_OR, t, .VARIABLE, .SEMICOLON, .RBRACE]).isSome = [Tok.STRING, .ARRAY].contains t := by
  cases t <;> decide +kernel
/-- C68: the words for modifiers -/
theorem modifier_words (t : Tok) :
    (parseFile [.CLASS, .STRING, .LBRACE, .STATIC, t, .FUNCTION, .STRING, .LPAREN, .RPAREN, .SEMICOLON, .RBRACE]).isSome =
        [Tok.STATIC, .ABSTRACT, .FINAL, .PUBLIC, .PROTECTED, .PRIVATE].contains t := by
  cases t <;> decide +kernel

/-! ## Examples -/

/-- `class A extends B { public function f(C $x = 1): D { return $x + 1; } } while ($v) if ($w) break; else continue;` -/
example : (parseFile [.CLASS, .STRING, .EXTENDS, .STRING, .LBRACE, .PUBLIC, .FUNCTION, .STRING, .LPAREN, .STRING, .VARIABLE, .ASSIGN,
    .LNUMBER, .RPAREN, .COLON, .STRING, .LBRACE, .RETURN, .VARIABLE, .PLUS, .LNUMBER, .SEMICOLON, .RBRACE, .RBRACE, .WHILE, .LPAREN,
    .VARIABLE, .RPAREN, .IF, .LPAREN, .VARIABLE, .RPAREN, .BREAK, .SEMICOLON, .ELSE, .CONTINUE, .SEMICOLON]).isSome = true := by
  decide +kernel
/-- `if ($a) if ($b) echo $c; else { }`: the hypotheses of `else_nearest` hold -/
example : parseFile [.IF, .LPAREN, .VARIABLE, .RPAREN, .IF, .LPAREN, .VARIABLE, .RPAREN, .ECHO, .VARIABLE, .SEMICOLON, .ELSE, .LBRACE, .RBRACE]
    = some (one (ifOnly .var (ifElse .var (.line (.echo [.var] .SEMICOLON)) (.block .nil)))) := by decide +kernel
/-- `{ echo 1; } if ($a) ;` may be wrapped -/
example : noNamespace (.cons (.block (one (.line (.echo [.scalar .LNUMBER] .SEMICOLON)))) (one (ifOnly .var (.line (.bare .SEMICOLON))))) = true := by
  decide +kernel
/-- a namespace may not: `{ namespace A; }` -/
example : parseFile [.LBRACE, .NAMESPACE, .STRING, .SEMICOLON, .RBRACE] = none := by decide +kernel
/-- findings: `switch ($x): ?> … endswitch;`, `const A = 1 ?>`, `use A ?>`, `goto a ?>` are errors for this parser, unlike `;` -/
example : parseFile [.SWITCH, .LPAREN, .VARIABLE, .RPAREN, .COLON, .CLOSE_TAG, .ENDSWITCH, .SEMICOLON] = none ∧
    parseFile [.CONST, .STRING, .ASSIGN, .LNUMBER, .CLOSE_TAG] = none ∧
    (parseFile [.CONST, .STRING, .ASSIGN, .LNUMBER, .SEMICOLON]).isSome = true ∧
    parseFile [.USE, .STRING, .CLOSE_TAG] = none ∧ parseFile [.GOTO, .STRING, .CLOSE_TAG] = none ∧
    (parseFile [.GOTO, .STRING, .SEMICOLON]).isSome = true := by decide +kernel
/-- finding: `foreach ($a as [$x]) { }` is an error -/
example : parseFile [.FOREACH, .LPAREN, .VARIABLE, .AS, .LBRACKET, .VARIABLE, .RBRACKET, .RPAREN, .LBRACE, .RBRACE] = none ∧
    (parseFile [.FOREACH, .LPAREN, .VARIABLE, .AS, .VARIABLE, .RPAREN, .LBRACE, .RBRACE]).isSome = true := by decide +kernel
/-- findings: `class A { $a; }` and `try { }` are none -/
example : (parseFile [.CLASS, .STRING, .LBRACE, .VARIABLE, .SEMICOLON, .RBRACE]).isSome = true ∧
    (parseFile [.TRY, .LBRACE, .RBRACE]).isSome = true := by decide +kernel
/-- the condition of `if_notations` is needed: `if ($a): if ($b) ; else: ; endif;` -/
example : parseFile [.IF, .LPAREN, .VARIABLE, .RPAREN, .COLON, .IF, .LPAREN, .VARIABLE, .RPAREN, .SEMICOLON, .ELSE, .COLON, .SEMICOLON,
    .ENDIF, .SEMICOLON] = none := by decide +kernel

/-- `function f() { return [$a[1]]; }`: accepted; without the last bracket not, and with a further one not -/
example : (parseFile [.FUNCTION, .STRING, .LPAREN, .RPAREN, .LBRACE, .RETURN, .LBRACKET, .VARIABLE, .LBRACKET, .LNUMBER, .RBRACKET, .RBRACKET,
    .SEMICOLON, .RBRACE]).isSome = true ∧ isBracket .RBRACKET = true := by decide +kernel

/-- `$f = function & ($x = 1) use (&$y, $z,): A { return function () { }; };`: a closure in a closure -/
example : (parseFile [.VARIABLE, .ASSIGN, .FUNCTION, .BIT_AND, .LPAREN, .VARIABLE, .ASSIGN, .LNUMBER, .RPAREN, .USE, .LPAREN, .BIT_AND, .VARIABLE,
    .COMMA, .VARIABLE, .COMMA, .RPAREN, .COLON, .STRING, .LBRACE, .RETURN, .FUNCTION, .LPAREN, .RPAREN, .LBRACE, .RBRACE, .SEMICOLON, .RBRACE,
    .SEMICOLON]).isSome = true := by decide +kernel
/-- `(function ($x) { echo $x; })(1);` and `function () { };` are statements, `function f() { };` is a function and an empty statement,
an empty `use ()` is an error -/
example : (parseFile [.LPAREN, .FUNCTION, .LPAREN, .VARIABLE, .RPAREN, .LBRACE, .ECHO, .VARIABLE, .SEMICOLON, .RBRACE, .RPAREN, .LPAREN, .LNUMBER,
      .RPAREN, .SEMICOLON]).isSome = true ∧
    (parseFile [.FUNCTION, .LPAREN, .RPAREN, .LBRACE, .RBRACE, .SEMICOLON]) =
      some (one (.line (.expr (.closure [.FUNCTION, .LPAREN, .RPAREN, .LBRACE, .RBRACE]) .SEMICOLON))) ∧
    (parseFile [.FUNCTION, .STRING, .LPAREN, .RPAREN, .LBRACE, .RBRACE, .SEMICOLON]) =
      some (.cons (.func ⟨false, .STRING, ([], false), none⟩ .nil) (one (.line (.bare .SEMICOLON)))) ∧
    parseFile [.FUNCTION, .LPAREN, .RPAREN, .USE, .LPAREN, .RPAREN, .LBRACE, .RBRACE, .SEMICOLON] = none ∧
    parseFile [.FUNCTION, .LPAREN, .RPAREN, .LBRACE, .RBRACE] = none := by decide +kernel
/-- finding: `(function & () { })();` is an error, `(function () { })();` is none -/
example : parseFile [.LPAREN, .FUNCTION, .BIT_AND, .LPAREN, .RPAREN, .LBRACE, .RBRACE, .RPAREN, .LPAREN, .RPAREN, .SEMICOLON] = none ∧
    (parseFile [.LPAREN, .FUNCTION, .LPAREN, .RPAREN, .LBRACE, .RBRACE, .RPAREN, .LPAREN, .RPAREN, .SEMICOLON]).isSome = true := by decide +kernel
/-- `use function A\{B};` and `use A\{const B};` are accepted, `use function A\{const B};` is an error -/
example : (parseFile [.USE, .FUNCTION, .STRING, .BACKSLASH, .LBRACE, .STRING, .RBRACE, .SEMICOLON]).isSome = true ∧
    (parseFile [.USE, .STRING, .BACKSLASH, .LBRACE, .CONST, .STRING, .RBRACE, .SEMICOLON]).isSome = true ∧
    parseFile [.USE, .FUNCTION, .STRING, .BACKSLASH, .LBRACE, .CONST, .STRING, .RBRACE, .SEMICOLON] = none := by decide +kernel

end KPhp.Stmt
