import Verif.Parser.Combinators
/-
# Parts of statements

Models the rules of parser/php.g that statements and declarations are made of and that contain no statements: names, type
hints, parameters, static scalars, the heads of loops, functions and classes, the members of classes, and statements on one line
(php.g:636, 736-780, 895-1068, 1149-1153).
-/
namespace KPhp.Stmt
set_option linter.unusedVariables false
set_option linter.unusedSimpArgs false
open KPhp (Tok)
open KPhp.Grammar (headIn E Fits Closures reservedNonModifiers modifierWords semiReserved)
set_option linter.unusedSectionVars false

variable [Closures]

/-! ## Expressions and variables -/

/-- `parseExpr` (php.g:357); modelled in ExprGrammar.lean -/
def exprP : P E := fun ts =>
  match Grammar.parse ts with
  | .ok e r _ => some (e, r)
  | _ => none

/-- `parseVariable` (php.g:636-637) -/
def varP : P E := fun ts =>
  match Grammar.run (40 * ts.length + 30) .vari ts false with
  | .ok e r _ => some (e, r)
  | _ => none

/-- what may stand behind an expression in a statement -/
def exprEnds : List Tok := [.SEMICOLON, .CLOSE_TAG, .COMMA, .RPAREN, .COLON, .AS, .RBRACE]
/-- what may stand behind a variable in a statement -/
def varEnds : List Tok := [.COMMA, .RPAREN, .AS, .DOUBLE_ARROW, .SEMICOLON, .CLOSE_TAG]

theorem expr_sound : Sound exprP E.toks (Fits (.lev 0)) := by
  intro ts a r h
  simp only [exprP] at h
  split at h
  · rename_i hp
    cases h
    obtain ⟨h1, h2, -⟩ := Grammar.parse_sound hp
    exact ⟨h1, h2⟩
  · cases h

/-- an expression ends in front of these tokens -/
def EStop (r : List Tok) : Prop := Grammar.Stop 0 r ∧ NotIn [.DOUBLE_ARROW] r

theorem exprEnds_stop {r : List Tok} (h : In exprEnds r) : EStop r := by
  obtain ⟨t, r', rfl, h'⟩ := in_of h
  simp only [exprEnds, List.contains_eq_mem, decide_eq_true_eq, List.mem_cons, List.not_mem_nil, or_false] at h'
  refine ⟨Grammar.stop_other ?_ _ _, ?_⟩ <;> (rcases h' with rfl | rfl | rfl | rfl | rfl | rfl | rfl <;> rfl)
theorem varEnds_stop {r : List Tok} (h : In varEnds r) (l : Nat) : Grammar.Stop l r := by
  obtain ⟨t, r', rfl, h'⟩ := in_of h
  simp only [varEnds, List.contains_eq_mem, decide_eq_true_eq, List.mem_cons, List.not_mem_nil, or_false] at h'
  refine Grammar.stop_other ?_ _ _
  rcases h' with rfl | rfl | rfl | rfl | rfl | rfl <;> rfl

theorem expr_compl : Compl exprP E.toks (Fits (.lev 0)) (fun _ r => EStop r) := by
  intro e r h hr
  have h1 := Grammar.parse_ev ((Grammar.fits_comp h).1 r false hr.1 (by intro h; rw [show headIn [.DOUBLE_ARROW] r = false from hr.2] at h; cases h))
  simp only [exprP, h1]

theorem var_sound : Sound varP E.toks (Fits (.path .vari)) := by
  intro ts a r h
  simp only [varP] at h
  split at h
  · rename_i hrun
    cases h
    obtain ⟨h3, h4, -⟩ := Grammar.run_good _ _ _ _ _ _ _ hrun
    exact ⟨h3, h4⟩
  · cases h

theorem var_compl : Compl varP E.toks (Fits (.path .vari)) (fun _ r => Grammar.Stop 20 r) := by
  intro e r h hr
  obtain ⟨N, hN⟩ := Grammar.path_end (Grammar.fits_comp h) hr false
  have hrun := hN (max N (40 * (e.toks ++ r).length + 30)) (by omega)
  have htot : Grammar.run (40 * (e.toks ++ r).length + 30) .vari (e.toks ++ r) false ≠ .fuel :=
    (Grammar.run_fine _ _ _ _ (by simp only [Grammar.need]; omega)).1
  simp only [Grammar.Mode.start] at hrun
  rw [Grammar.run_mono (by omega) htot] at hrun
  simp only [varP, hrun]

/-! ## Names -/

/-- a name: a leading `\`, and its parts (tokens STRING) -/
structure Name where
  global : Bool
  parts : List Tok
deriving DecidableEq, Repr

/-- php.g:1026-1027 -/
def identP : P Tok := oneOf [.STRING]
/-- php.g:1018-1020 (`namespacedIdentifier`) -/
def nameP : P Name := mapP (fun x => ⟨x.1, x.2⟩) (andThen (flag .BACKSLASH) (sep .BACKSLASH identP))

def tokTxt (t : Tok) : List Tok := [t]
def Name.toks (n : Name) : List Tok := flagTxt .BACKSLASH n.global ++ sepTxt .BACKSLASH tokTxt n.parts
def Idents (l : List Tok) : Prop := l ≠ [] ∧ ∀ t ∈ l, t = .STRING
def Name.Ok (n : Name) : Prop := Idents n.parts

theorem ident_sound : Sound identP tokTxt (fun t => t = .STRING) :=
  (sound_oneOf _).weaken fun t h => by simpa using h
theorem ident_compl : Compl identP tokTxt (fun t => t = .STRING) anyFol :=
  (compl_oneOf _).weaken (fun t h => by simpa using h) (fun _ _ _ h => h)
theorem idents_sound (k : Tok) : Sound (sep k identP) (sepTxt k tokTxt) Idents := sound_sep ident_sound k
theorem idents_compl (k : Tok) : Compl (sep k identP) (sepTxt k tokTxt) Idents (fun _ r => NotIn [k] r) :=
  (compl_sep ident_compl k (fun _ _ _ => trivial)).weaken (fun _ h => h) (fun _ _ _ h => ⟨h, fun _ _ => trivial⟩)

theorem idents_head {l : List Tok} (h : Idents l) (k : Tok) : ∃ r, sepTxt k tokTxt l = .STRING :: r := by
  obtain ⟨hn, ha⟩ := h
  cases l with
  | nil => exact absurd rfl hn
  | cons a l =>
    rw [ha a (by simp)]
    cases l with
    | nil => exact ⟨_, rfl⟩
    | cons b l => exact ⟨_, rfl⟩
theorem name_head {n : Name} (h : n.Ok) : In [.BACKSLASH, .STRING] n.toks := by
  obtain ⟨r, hr⟩ := idents_head h .BACKSLASH
  unfold Name.toks flagTxt
  split
  · rfl
  · rw [hr]; rfl

theorem name_sound : Sound nameP Name.toks Name.Ok :=
  sound_map (sound_andThen (sound_flag _) (idents_sound _)) fun a h => ⟨rfl, h.2⟩
theorem name_compl : Compl nameP Name.toks Name.Ok (fun _ r => NotIn [.BACKSLASH] r) := by
  refine compl_map (compl_andThen (compl_flag _) (idents_compl _) (fol := fun _ r => NotIn [.BACKSLASH] r) ?_) ?_
  · intro a b r _ hb hr
    refine ⟨fun _ => ?_, hr⟩
    obtain ⟨r', h⟩ := idents_head hb .BACKSLASH
    rw [h]; rfl
  · rintro ⟨g, p⟩ h
    exact ⟨(g, p), rfl, ⟨trivial, h⟩, rfl, fun _ h => h⟩

/-- names with commas (or `|`) between them -/
def Names (l : List Name) : Prop := l ≠ [] ∧ ∀ n ∈ l, n.Ok
theorem names_sound (k : Tok) : Sound (sep k nameP) (sepTxt k Name.toks) Names := sound_sep name_sound k
theorem names_compl (k : Tok) (hk : k ≠ .BACKSLASH) :
    Compl (sep k nameP) (sepTxt k Name.toks) Names (fun _ r => NotIn [k, .BACKSLASH] r) := by
  refine (compl_sep name_compl k ?_).weaken (fun _ h => h) ?_
  · intro a r _; simpa [NotIn, headIn] using hk
  · intro l r _ h
    exact ⟨h.sub (by intro t; simp +contextual), fun _ _ => h.sub (by intro t; simp +contextual)⟩

/-! ## Type hints -/

inductive HType
  | name (n : Name)
  /-- `array`, `callable`, `void` -/
  | word (k : Tok)
deriving DecidableEq, Repr
structure Hint where
  nullable : Bool
  type : HType
deriving DecidableEq, Repr

/-- php.g:952-979: a name or one of these words -/
def htypeP (words : List Tok) : P HType := fun ts =>
  if headIn words ts then mapP .word (oneOf words) ts else mapP .name nameP ts
/-- php.g:956-979: `parameterTypeHint`, `returnTypeHint`, `propertyTypeHint` -/
def hintP (words : List Tok) : P Hint := mapP (fun x => ⟨x.1, x.2⟩) (andThen (flag .QUESTION) (htypeP words))
/-- php.g:981-997: the union types -/
def hintsP (words : List Tok) : P (List Hint) := sep .BIT_OR (hintP words)

def paramWords : List Tok := [.ARRAY, .CALLABLE]
def returnWords : List Tok := [.ARRAY, .CALLABLE, .VOID]
def propertyWords : List Tok := [.ARRAY]

def HType.toks : HType → List Tok
  | .name n => n.toks
  | .word k => [k]
def Hint.toks (h : Hint) : List Tok := flagTxt .QUESTION h.nullable ++ h.type.toks
def HType.Ok (words : List Tok) : HType → Prop
  | .name n => n.Ok
  | .word k => k ∈ words
/-- types with `|` between them -/
def Hints (words : List Tok) (l : List Hint) : Prop := l ≠ [] ∧ ∀ h ∈ l, h.type.Ok words
def hintsTxt (l : List Hint) : List Tok := sepTxt .BIT_OR Hint.toks l

/-- the words are no names -/
def Words (words : List Tok) : Prop := ∀ t ∈ words, t = .ARRAY ∨ t = .CALLABLE ∨ t = .VOID

theorem htype_sound (words : List Tok) : Sound (htypeP words) HType.toks (HType.Ok words) := by
  intro ts a r h
  simp only [htypeP] at h
  split at h
  · exact sound_map (sound_oneOf words) (f := HType.word) (fun a h => ⟨rfl, by simpa [HType.Ok] using h⟩) ts a r h
  · exact sound_map name_sound (f := HType.name) (fun a h => ⟨rfl, h⟩) ts a r h

theorem htype_compl {words : List Tok} (hw : Words words) :
    Compl (htypeP words) HType.toks (HType.Ok words) (fun _ r => NotIn [.BACKSLASH] r) := by
  intro a r h hr
  cases a with
  | word k =>
    have hc : words.contains k = true := by simpa [HType.Ok] using h
    have hin : headIn words ((HType.word k).toks ++ r) = true := hc
    simp only [htypeP, hin, if_true]
    exact mapP_some (compl_oneOf words k r hc trivial)
  | name n =>
    have hin : headIn words ((HType.name n).toks ++ r) = false := by
      obtain ⟨t, r', he, ht⟩ := in_of (name_head h)
      have he' : (HType.name n).toks ++ r = t :: (r' ++ r) := by rw [HType.toks, he]; rfl
      rw [he', headIn_cons]
      cases hc : words.contains t
      · rfl
      · have := hw t (by simpa using hc)
        rcases this with rfl | rfl | rfl <;> exact absurd ht (by decide)
    simp only [htypeP, hin, Bool.false_eq_true, if_false]
    exact mapP_some (name_compl n r h hr)

theorem htype_head {words : List Tok} {t : HType} (h : t.Ok words) : In ([.BACKSLASH, .STRING] ++ words) t.toks := by
  cases t with
  | word k =>
    have h' : k ∈ words := h
    show ([Tok.BACKSLASH, Tok.STRING] ++ words).contains k = true
    simp [h']
  | name n =>
    obtain ⟨t, r', he, ht⟩ := in_of (name_head (n := n) h)
    show headIn _ n.toks = true
    rw [he, headIn_cons]
    simp only [List.contains_eq_mem, decide_eq_true_eq, List.mem_append] at ht ⊢
    exact .inl ht

theorem hint_sound (words : List Tok) : Sound (hintP words) Hint.toks (fun h => h.type.Ok words) :=
  sound_map (sound_andThen (sound_flag _) (htype_sound words)) fun a h => ⟨rfl, h.2⟩
theorem hint_compl {words : List Tok} (hw : Words words) :
    Compl (hintP words) Hint.toks (fun h => h.type.Ok words) (fun _ r => NotIn [.BACKSLASH] r) := by
  refine compl_map (compl_andThen (compl_flag _) (htype_compl hw) (fol := fun _ r => NotIn [.BACKSLASH] r) ?_) ?_
  · intro a b r _ hb hr
    refine ⟨fun _ => ?_, hr⟩
    obtain ⟨t, r', he, ht⟩ := in_of (htype_head hb)
    rw [he, List.cons_append]
    show [Tok.QUESTION].contains t = false
    cases hc : [Tok.QUESTION].contains t
    · rfl
    · have : t = .QUESTION := by simpa using hc
      subst this
      simp only [List.cons_append, List.nil_append, List.contains_eq_mem, List.mem_cons, decide_eq_true_eq, reduceCtorEq, false_or] at ht
      rcases hw _ ht with h | h | h <;> cases h
  · rintro ⟨g, p⟩ h
    exact ⟨(g, p), rfl, ⟨trivial, h⟩, rfl, fun _ h => h⟩
theorem hints_sound (words : List Tok) : Sound (hintsP words) hintsTxt (Hints words) := sound_sep (hint_sound words) _
theorem hints_compl {words : List Tok} (hw : Words words) :
    Compl (hintsP words) hintsTxt (Hints words) (fun _ r => NotIn [.BIT_OR, .BACKSLASH] r) := by
  refine (compl_sep (hint_compl hw) .BIT_OR (fun _ _ _ => rfl)).weaken (fun _ h => h) ?_
  intro l r _ h
  exact ⟨h.sub (by intro t; simp +contextual), fun _ _ => h.sub (by intro t; simp +contextual)⟩

theorem sepTxt_head {α} {k : Tok} {txt : α → List Tok} {ks : List Tok} {l : List α} (hl : l ≠ []) (h : ∀ a ∈ l, In ks (txt a)) :
    In ks (sepTxt k txt l) := by
  cases l with
  | nil => exact absurd rfl hl
  | cons a l =>
    obtain ⟨t, r, he, ht⟩ := in_of (h a (by simp))
    cases l with
    | nil => rw [sepTxt]; exact h a (by simp)
    | cons b l => rw [sepTxt, he]; exact ht

def hintFirst (words : List Tok) : List Tok := .QUESTION :: .BACKSLASH :: .STRING :: words
theorem hints_head {words : List Tok} {l : List Hint} (h : Hints words l) : In (hintFirst words) (hintsTxt l) := by
  refine sepTxt_head h.1 fun a ha => ?_
  have := h.2 a ha
  unfold Hint.toks flagTxt
  split
  · rfl
  · obtain ⟨t, r', he, ht⟩ := in_of (htype_head this)
    rw [List.nil_append, he]
    show (hintFirst words).contains t = true
    simp only [List.cons_append, List.nil_append, hintFirst, List.contains_eq_mem, List.mem_cons, decide_eq_true_eq] at ht ⊢
    exact .inr ht

/-! ## Lists in parentheses -/

/-- `(#p @ (COMMA [: if (yytoken == close) { break; } :]) | 0)` -/
def listP {α} (close : Tok) (p : P α) : P (List α × Bool) := fun ts =>
  if headIn [close] ts then some (([], false), ts) else sepTrail .COMMA close p ts
def listTxt {α} (txt : α → List Tok) (x : List α × Bool) : List Tok := sepTrailTxt .COMMA txt x
/-- a list, and whether a comma stands at its end -/
def ListOk {α} (ok : α → Prop) (x : List α × Bool) : Prop := (x.1 = [] → x.2 = false) ∧ ∀ a ∈ x.1, ok a

theorem list_sound {α} {p : P α} {txt ok} (h : Sound p txt ok) (close : Tok) : Sound (listP close p) (listTxt txt) (ListOk ok) := by
  intro ts a r ha
  simp only [listP] at ha
  split at ha
  · cases ha; exact ⟨rfl, fun _ => rfl, fun _ h => by cases h⟩
  · obtain ⟨h1, h2, h3⟩ := sound_sepTrail h .COMMA close ts a r ha
    exact ⟨h1, fun h => absurd h h2, h3⟩
theorem list_compl {α} {p : P α} {txt ok fol} (h : Compl p txt ok fol) {close : Tok} (hcl : close ≠ .COMMA)
    (hk : ∀ a r, ok a → fol a (.COMMA :: r)) (hk' : ∀ a r, ok a → fol a (close :: r))
    (hc : ∀ a r, ok a → NotIn [close] (txt a ++ r)) :
    Compl (listP close p) (listTxt txt) (ListOk ok) (fun _ r => In [close] r) := by
  rintro ⟨l, b⟩ r ⟨h1, h2⟩ hr
  obtain ⟨t, r', rfl, ht⟩ := in_of hr
  have ht' : t = close := by simpa using ht
  subst ht'
  cases l with
  | nil =>
    have := h1 rfl
    simp only at this
    subst this
    simp [listP, listTxt, sepTrailTxt, sepTxt, flagTxt, headIn]
  | cons a l =>
    have hn : headIn [t] (listTxt txt (a :: l, b) ++ t :: r') = false := by
      have oa := h2 a (by simp)
      cases l with
      | nil => simp only [listTxt, sepTrailTxt, sepTxt, List.append_assoc]; exact hc a _ oa
      | cons a' l =>
        simp only [listTxt, sepTrailTxt]
        rw [sepTxt_cons .COMMA txt a (List.cons_ne_nil _ _), List.append_assoc, List.append_assoc]
        exact hc a _ oa
    simp only [listP, hn, Bool.false_eq_true, if_false]
    refine compl_sepTrail h .COMMA t hk hc (a :: l, b) _ ⟨List.cons_ne_nil _ _, h2⟩ ⟨fun _ => hr, fun _ => ⟨?_, ?_⟩⟩
    · simp [NotIn, headIn, hcl]
    · intro x hx
      exact hk' x _ (h2 x (List.mem_of_getLast? hx))

/-! ## Parameters -/

/-- a parameter: type, `&`, `...`, default value -/
structure Param where
  hint : Option (List Hint)
  ref : Bool
  variadic : Bool
  value : Option E
deriving DecidableEq, Repr

/-- `(ASSIGN p | 0)` -/
def assignP {α} (p : P α) : P (Option α) := opt [.ASSIGN] (pre .ASSIGN p)
def assignTxt {α} (txt : α → List Tok) (o : Option α) : List Tok := optTxt (fun a => .ASSIGN :: txt a) o
theorem assign_sound {α} {p : P α} {txt ok} (h : Sound p txt ok) :
    Sound (assignP p) (assignTxt txt) (fun o => ∀ a, o = some a → ok a) := sound_opt (sound_pre h _) _
theorem assign_compl {α} {p : P α} {txt ok fol} (h : Compl p txt ok fol) :
    Compl (assignP p) (assignTxt txt) (fun o => ∀ a, o = some a → ok a) (fun o r => NotIn [.ASSIGN] r ∧ ∀ a, o = some a → fol a r) :=
  (compl_opt (compl_pre h .ASSIGN) [.ASSIGN] (fun _ _ => rfl)).weaken (fun _ h => h) (fun _ _ _ h => ⟨fun _ => h.1, h.2⟩)

/-- php.g:948-950 (`parameter`) -/
def paramP : P Param :=
  mapP (fun x => ⟨x.1, x.2.1, x.2.2.1, x.2.2.2⟩)
    (andThen (opt (hintFirst paramWords) (hintsP paramWords)) (andThen (flag .BIT_AND) (andThen (flag .ELLIPSIS)
      (pre .VARIABLE (assignP exprP)))))
/-- php.g:943-946 -/
def paramsP : P (List Param × Bool) := listP .RPAREN paramP

def Param.toks (p : Param) : List Tok :=
  optTxt hintsTxt p.hint ++ (flagTxt .BIT_AND p.ref ++ (flagTxt .ELLIPSIS p.variadic ++ .VARIABLE :: assignTxt E.toks p.value))
def Param.Ok (p : Param) : Prop := (∀ h, p.hint = some h → Hints paramWords h) ∧ ∀ e, p.value = some e → Fits (.lev 0) e
abbrev Params := List Param × Bool
def paramsTxt (x : Params) : List Tok := listTxt Param.toks x
def ParamsOk (x : Params) : Prop := ListOk Param.Ok x

theorem words_param : Words paramWords := by intro t h; simp [paramWords] at h; rcases h with rfl | rfl <;> simp
theorem words_return : Words returnWords := by intro t h; simp [returnWords] at h; rcases h with rfl | rfl | rfl <;> simp
theorem words_property : Words propertyWords := by intro t h; simp [propertyWords] at h; subst h; simp

theorem param_sound : Sound paramP Param.toks Param.Ok :=
  sound_map (sound_andThen (sound_opt (hints_sound _) _) (sound_andThen (sound_flag _) (sound_andThen (sound_flag _)
    (sound_pre (assign_sound expr_sound) _)))) fun a h => ⟨rfl, h.1, h.2.2.2⟩

theorem flag_head {k : Tok} (b : Bool) {ks : List Tok} (h : ks.contains k = true) {r : List Tok} (hr : In ks r) :
    In ks (flagTxt k b ++ r) := by
  unfold flagTxt; split
  · exact h
  · exact hr

theorem param_compl : Compl paramP Param.toks Param.Ok (fun _ r => In [.COMMA, .RPAREN] r) := by
  have hend : ∀ {r}, In [.COMMA, .RPAREN] r → EStop r := fun h => exprEnds_stop (by
    obtain ⟨t, r', rfl, ht⟩ := in_of h
    simp only [List.contains_eq_mem, decide_eq_true_eq, List.mem_cons, List.not_mem_nil, or_false] at ht
    rcases ht with rfl | rfl <;> rfl)
  have h1 : Compl (pre .VARIABLE (assignP exprP)) (fun o => .VARIABLE :: assignTxt E.toks o)
      (fun o => ∀ e, o = some e → Fits (.lev 0) e) (fun _ r => In [.COMMA, .RPAREN] r) :=
    (compl_pre (assign_compl expr_compl) _).weaken (fun _ h => h)
      (fun _ r _ h => ⟨h.notIn (by intro t; simp only [List.contains_eq_mem, decide_eq_true_eq, List.mem_cons, List.not_mem_nil, or_false]; rintro (rfl | rfl) <;> rfl), fun _ _ => hend h⟩)
  have h2 := compl_andThen (compl_flag .ELLIPSIS) h1 (fol := fun _ r => In [.COMMA, .RPAREN] r)
    (fun a b r _ _ hr => ⟨fun _ => rfl, hr⟩)
  have h3 := compl_andThen (compl_flag .BIT_AND) h2 (fol := fun _ r => In [.COMMA, .RPAREN] r)
    (fun a b r _ _ hr => ⟨fun _ => by cases hb : b.1 <;> rfl, hr⟩)
  have h4 := compl_andThen (compl_opt (hints_compl words_param) (hintFirst paramWords) (fun a ha => hints_head ha)) h3
    (fol := fun _ r => In [.COMMA, .RPAREN] r)
    (fun a b r _ _ hr => ⟨⟨fun _ => by cases h1 : b.1 <;> cases h2 : b.2.1 <;> simp only [flagTxt, h1, h2, if_true, if_false, Bool.false_eq_true] <;> rfl,
      fun _ _ => by cases h1 : b.1 <;> cases h2 : b.2.1 <;> simp only [flagTxt, h1, h2, if_true, if_false, Bool.false_eq_true] <;> rfl⟩, hr⟩)
  refine compl_map h4 ?_
  rintro ⟨h, a, v, d⟩ ⟨o1, o2⟩
  exact ⟨(h, a, v, d), rfl, ⟨o1, trivial, trivial, o2⟩, rfl, fun _ h => h⟩

theorem param_head (p : Param) (h : p.Ok) (r : List Tok) : In (.BIT_AND :: .ELLIPSIS :: .VARIABLE :: hintFirst paramWords) (p.toks ++ r) := by
  unfold Param.toks
  cases hh : p.hint with
  | none => cases h1 : p.ref <;> cases h2 : p.variadic <;> rfl
  | some l =>
    obtain ⟨t, r', he, ht⟩ := in_of (hints_head (h.1 l hh))
    rw [optTxt, he]
    simp only [List.cons_append]
    refine in_cons ?_
    simp only [List.contains_eq_mem, decide_eq_true_eq, List.mem_cons] at ht ⊢
    exact .inr (.inr (.inr ht))

theorem params_sound : Sound paramsP paramsTxt ParamsOk := list_sound param_sound _
theorem params_compl : Compl paramsP paramsTxt ParamsOk (fun _ r => In [.RPAREN] r) :=
  list_compl param_compl (by decide) (fun _ _ _ => rfl) (fun _ _ _ => rfl) (fun a r h => (param_head a h r).notIn (by
    intro t ht
    cases hc : [Tok.RPAREN].contains t
    · rfl
    · have : t = .RPAREN := by simpa using hc
      subst this; revert ht; decide))

/-! ## Static scalars -/

/-- commonScalar (php.g:922-934), without strings -/
def plainScalars : List Tok :=
  [.LNUMBER, .DNUMBER, .LINE, .DIR, .FILE, .CLASS_C, .TRAIT_C, .METHOD_C, .FUNC_C, .NAMESPACE_C]

/-- constant expressions, in one type with their lists -/
inductive Sc
  | scalar (k : Tok)
  /-- a string literal and its indices -/
  | str (l : List E)
  | nowdoc
  | const (n : Name) (member : Option Tok)
  | sign (k : Tok) (s : Sc)
  | arr (short : Bool) (items : Sc)
  | pair (k v : Sc)
  | nil
  | last (i : Sc)
  | lastComma (i : Sc)
  | more (i l : Sc)
deriving DecidableEq, Repr

inductive ScJob | sc | item | items (c : Tok) | items1 (c : Tok)
deriving DecidableEq, Repr

/-- php.g:895-900: `constantOrClassConst` -/
def constP : P Sc :=
  mapP (fun x => .const x.1 x.2) (andThen nameP (opt [.PAAMAYIM_NEKUDOTAYIM] (pre .PAAMAYIM_NEKUDOTAYIM (oneOf semiReserved))))

/-- php.g:999-1016 (`staticScalar`, `staticArrayPairValue`); the first argument bounds the nesting. -/
def scRun : Nat → ScJob → P Sc
  | 0, _, _ => none
  | n + 1, .sc, ts =>
    if headIn plainScalars ts then mapP .scalar (oneOf plainScalars) ts
    else if headIn [.CONSTANT_ENCAPSED_STRING] ts then
      mapP .str (pre .CONSTANT_ENCAPSED_STRING (many [.LBRACKET] (pre .LBRACKET (post exprP .RBRACKET)))) ts
    else if headIn [.START_NOWDOC] ts then mapP (fun _ => .nowdoc) (pre .START_NOWDOC (pre .STRING (oneOf [.END_NOWDOC]))) ts
    else if headIn [.PLUS, .MINUS] ts then
      mapP (fun x => .sign x.1 x.2) (andThen (oneOf [.PLUS, .MINUS]) (scRun n .sc)) ts
    else if headIn [.ARRAY] ts then
      mapP (.arr false) (pre .ARRAY (pre .LPAREN (post (scRun n (.items .RPAREN)) .RPAREN))) ts
    else if headIn [.LBRACKET] ts then
      mapP (.arr true) (pre .LBRACKET (post (scRun n (.items .RBRACKET)) .RBRACKET)) ts
    else constP ts
  | n + 1, .item, ts => do
    let (a, ts) ← scRun n .sc ts
    if headIn [.DOUBLE_ARROW] ts then
      let (b, ts) ← scRun n .sc ts.tail
      return (.pair a b, ts)
    else return (a, ts)
  | n + 1, .items c, ts => if headIn [c] ts then some (.nil, ts) else scRun n (.items1 c) ts
  | n + 1, .items1 c, ts => do
    let (a, ts) ← scRun n .item ts
    if headIn [.COMMA] ts then
      if headIn [c] ts.tail then return (.lastComma a, ts.tail)
      else do
        let (l, ts) ← scRun n (.items1 c) ts.tail
        return (.more a l, ts)
    else return (.last a, ts)
def scP : P Sc := fun ts => scRun (5 * ts.length + 5) .sc ts

def idxTxt (e : E) : List Tok := .LBRACKET :: (e.toks ++ [.RBRACKET])
def Sc.toks : Sc → List Tok
  | .scalar k => [k]
  | .str l => .CONSTANT_ENCAPSED_STRING :: manyTxt idxTxt l
  | .nowdoc => [.START_NOWDOC, .STRING, .END_NOWDOC]
  | .const n m => n.toks ++ optTxt (fun k => [.PAAMAYIM_NEKUDOTAYIM, k]) m
  | .sign k s => k :: s.toks
  | .arr true l => .LBRACKET :: l.toks ++ [.RBRACKET]
  | .arr false l => .ARRAY :: .LPAREN :: l.toks ++ [.RPAREN]
  | .pair k v => k.toks ++ .DOUBLE_ARROW :: v.toks
  | .nil => []
  | .last i => i.toks
  | .lastComma i => i.toks ++ [.COMMA]
  | .more i l => i.toks ++ .COMMA :: l.toks

inductive ScCat | sc | item | items | items1
/-- where a tree may stand -/
inductive ScFits : ScCat → Sc → Prop
  | scalar (k) : Grammar.IsScalar k → k ≠ .STRING_VARNAME → ScFits .sc (.scalar k)
  | str (l) : (∀ e ∈ l, Fits (.lev 0) e) → ScFits .sc (.str l)
  | nowdoc : ScFits .sc .nowdoc
  | const (n m) : n.Ok → (∀ k, m = some k → k ∈ Grammar.words) → ScFits .sc (.const n m)
  | plus (s) : ScFits .sc s → ScFits .sc (.sign .PLUS s)
  | minus (s) : ScFits .sc s → ScFits .sc (.sign .MINUS s)
  | arr (short l) : ScFits .items l → ScFits .sc (.arr short l)
  | single (s) : ScFits .sc s → ScFits .item s
  | pair (k v) : ScFits .sc k → ScFits .sc v → ScFits .item (.pair k v)
  | nil : ScFits .items .nil
  | some (l) : ScFits .items1 l → ScFits .items l
  | last (i) : ScFits .item i → ScFits .items1 (.last i)
  | lastComma (i) : ScFits .item i → ScFits .items1 (.lastComma i)
  | more (i l) : ScFits .item i → ScFits .items1 l → ScFits .items1 (.more i l)

def ScJob.cat : ScJob → ScCat
  | .sc => .sc | .item => .item | .items _ => .items | .items1 _ => .items1

theorem plain_iff {k : Tok} : plainScalars.contains k = true ↔ Grammar.IsScalar k ∧ k ≠ .STRING_VARNAME := by
  constructor
  · intro h
    simp only [plainScalars, List.contains_eq_mem, decide_eq_true_eq, List.mem_cons, List.not_mem_nil, or_false] at h
    rcases h with rfl | rfl | rfl | rfl | rfl | rfl | rfl | rfl | rfl | rfl <;> exact ⟨by constructor, by decide⟩
  · rintro ⟨h, h'⟩
    cases h <;> first | rfl | exact absurd rfl h'

theorem idx_sound : Sound (many [.LBRACKET] (pre .LBRACKET (post exprP .RBRACKET))) (manyTxt idxTxt) (fun l => ∀ e ∈ l, Fits (.lev 0) e) :=
  sound_many (sound_pre (sound_post expr_sound _) _) _
theorem idx_compl : Compl (many [.LBRACKET] (pre .LBRACKET (post exprP .RBRACKET))) (manyTxt idxTxt) (fun l => ∀ e ∈ l, Fits (.lev 0) e)
    (fun _ r => NotIn [.LBRACKET] r) :=
  (compl_many (compl_pre (compl_post expr_compl .RBRACKET fun a r _ => ⟨Grammar.stop_other (by decide) _ _, rfl⟩) .LBRACKET) [.LBRACKET]
    (fun _ _ => rfl) (fun _ _ _ _ _ => trivial)).weaken (fun _ h => h) (fun _ _ _ h => ⟨h, fun _ _ => trivial⟩)

theorem const_sound : Sound constP Sc.toks (ScFits .sc) := by
  refine sound_map (sound_andThen name_sound (sound_opt (sound_pre (sound_oneOf _) _) _)) fun a h => ⟨rfl, ?_⟩
  exact .const _ _ h.1 fun k hk => Grammar.words_iff.1 (h.2 k hk)

theorem sc_sound (n : Nat) : ∀ j, Sound (scRun n j) Sc.toks (ScFits j.cat) := by
  induction n with
  | zero => intro j ts a r h; simp [scRun] at h
  | succ n ih =>
    intro j ts a r h
    cases j with
    | sc =>
      simp only [scRun] at h
      split at h
      · exact sound_map (sound_oneOf _) (f := Sc.scalar) (fun a h => ⟨rfl, .scalar _ (plain_iff.1 h).1 (plain_iff.1 h).2⟩) ts a r h
      · split at h
        · exact sound_map (sound_pre idx_sound _) (f := Sc.str) (fun a h => ⟨rfl, .str _ h⟩) ts a r h
        split at h
        · refine sound_map (sound_pre (sound_pre (sound_oneOf _) _) _) (f := fun _ => Sc.nowdoc) (fun a h => ⟨?_, .nowdoc⟩) ts a r h
          rw [show a = .END_NOWDOC by simpa using h]; rfl
        split at h
        · refine sound_map (sound_andThen (sound_oneOf _) (ih .sc)) (fun a h => ⟨rfl, ?_⟩) ts a r h
          have h1 := h.1
          simp only [List.contains_eq_mem, decide_eq_true_eq, List.mem_cons, List.not_mem_nil, or_false] at h1
          rcases h1 with h1 | h1 <;> rw [h1]
          · exact .plus _ h.2
          · exact .minus _ h.2
        · split at h
          · exact sound_map (sound_pre (sound_pre (sound_post (ih (.items .RPAREN)) _) _) _) (f := Sc.arr false)
              (fun a h => ⟨rfl, .arr _ _ h⟩) ts a r h
          · split at h
            · exact sound_map (sound_pre (sound_post (ih (.items .RBRACKET)) _) _) (f := Sc.arr true)
                (fun a h => ⟨rfl, .arr _ _ h⟩) ts a r h
            · exact const_sound ts a r h
    | item =>
      simp only [scRun, Option.bind_eq_bind, Option.bind_eq_some_iff] at h
      obtain ⟨⟨x, r1⟩, h1, h2⟩ := h
      obtain ⟨e, o⟩ := ih .sc _ _ _ h1
      by_cases hh : headIn [.DOUBLE_ARROW] r1 = true
      · simp only [hh, if_true, Option.bind_eq_some_iff, Option.pure_def, Option.some.injEq] at h2
        obtain ⟨⟨y, r2⟩, h3, he⟩ := h2
        cases he
        obtain ⟨r1', rfl⟩ := headIn_one_iff.1 hh
        obtain ⟨e2, o2⟩ := ih .sc _ _ _ h3
        simp only [List.tail_cons] at e2
        exact ⟨by rw [e, e2]; simp [Sc.toks], .pair _ _ o o2⟩
      · simp only [hh, Bool.false_eq_true, if_false, Option.pure_def, Option.some.injEq] at h2
        cases h2
        exact ⟨e, .single _ o⟩
    | items c =>
      simp only [scRun] at h
      split at h
      · cases h; exact ⟨rfl, .nil⟩
      · obtain ⟨e, o⟩ := ih _ _ _ _ h
        exact ⟨e, .some _ o⟩
    | items1 c =>
      simp only [scRun, Option.bind_eq_bind, Option.bind_eq_some_iff] at h
      obtain ⟨⟨x, r1⟩, h1, h2⟩ := h
      obtain ⟨e, o⟩ := ih .item _ _ _ h1
      by_cases hh : headIn [.COMMA] r1 = true
      · obtain ⟨r1', rfl⟩ := headIn_one_iff.1 hh
        simp only [hh, if_true, List.tail_cons] at h2
        by_cases hc : headIn [c] r1' = true
        · simp only [hc, if_true, Option.pure_def, Option.some.injEq] at h2
          cases h2
          exact ⟨by rw [e]; simp [Sc.toks], .lastComma _ o⟩
        · simp only [hc, Bool.false_eq_true, if_false, Option.bind_eq_some_iff, Option.pure_def, Option.some.injEq] at h2
          obtain ⟨⟨y, r2⟩, h3, he⟩ := h2
          cases he
          obtain ⟨e2, o2⟩ := ih _ _ _ _ h3
          exact ⟨by rw [e, e2]; simp [Sc.toks], .more _ _ o o2⟩
      · simp only [hh, Bool.false_eq_true, if_false, Option.pure_def, Option.some.injEq] at h2
        cases h2
        exact ⟨e, .last _ o⟩

/-- what stands in front of static scalars -/
def scFirst : List Tok := [.PLUS, .MINUS, .ARRAY, .LBRACKET, .BACKSLASH, .STRING, .CONSTANT_ENCAPSED_STRING, .START_NOWDOC] ++ plainScalars
theorem sc_head {c : ScCat} {s : Sc} (h : ScFits c s) : c = .items ∨ In scFirst s.toks := by
  have app : ∀ {a b : List Tok}, In scFirst a → In scFirst (a ++ b) := by
    intro a b h
    obtain ⟨t, r, rfl, ht⟩ := in_of h
    exact ht
  induction h with
  | scalar k h h' => right; cases h <;> first | rfl | exact absurd rfl h'
  | str | nowdoc => right; rfl
  | const n m h _ =>
    right
    refine app ?_
    obtain ⟨t, r, he, ht⟩ := in_of (name_head h)
    rw [he]
    simp only [List.contains_eq_mem, decide_eq_true_eq, List.mem_cons, List.not_mem_nil, or_false] at ht
    rcases ht with rfl | rfl <;> rfl
  | plus | minus => right; rfl
  | arr short l _ _ => right; cases short <;> rfl
  | single s _ ih => right; exact ih.resolve_left (by intro h; cases h)
  | pair k v _ _ ih _ => right; exact app (ih.resolve_left (by intro h; cases h))
  | nil => left; rfl
  | some => left; rfl
  | last i _ ih => right; exact ih.resolve_left (by intro h; cases h)
  | lastComma i _ ih => right; exact app (ih.resolve_left (by intro h; cases h))
  | more i l _ _ ih _ => right; exact app (ih.resolve_left (by intro h; cases h))

/-- a token behind a static scalar -/
def ScStop (r : List Tok) : Prop := NotIn [.BACKSLASH, .PAAMAYIM_NEKUDOTAYIM, .LBRACKET] r
/-- what follows the tree, by job -/
def ScJob.fol : ScJob → List Tok → Prop
  | .sc, r => ScStop r
  | .item, r => ScStop r ∧ NotIn [.DOUBLE_ARROW] r
  | .items c, r => In [c] r ∧ (c = .RPAREN ∨ c = .RBRACKET)
  | .items1 c, r => In [c] r ∧ (c = .RPAREN ∨ c = .RBRACKET)
def ScJob.extra : ScJob → Nat
  | .sc => 1 | .item => 2 | .items1 _ => 3 | .items _ => 4

theorem scFirst_not {t : Tok} (h : scFirst.contains t = true) : t ≠ .RPAREN ∧ t ≠ .RBRACKET ∧ t ≠ .DOUBLE_ARROW := by
  refine ⟨?_, ?_, ?_⟩ <;> (rintro rfl; revert h; decide)

theorem const_compl : Compl constP Sc.toks (fun s => ∃ n m, s = .const n m ∧ n.Ok ∧ ∀ k, m = some k → k ∈ Grammar.words)
    (fun _ r => ScStop r) := by
  have h1 : Compl (opt [.PAAMAYIM_NEKUDOTAYIM] (pre .PAAMAYIM_NEKUDOTAYIM (oneOf semiReserved)))
      (optTxt fun k => [.PAAMAYIM_NEKUDOTAYIM, k]) (fun o => ∀ a, o = some a → semiReserved.contains a = true)
      (fun _ r => ScStop r) :=
    (compl_opt (compl_pre (compl_oneOf semiReserved) .PAAMAYIM_NEKUDOTAYIM) [.PAAMAYIM_NEKUDOTAYIM] (fun _ _ => rfl)).weaken
      (fun _ h => h) (fun a r _ h => ⟨fun _ => NotIn.sub h (by intro t; simp +contextual), fun _ _ => trivial⟩)
  refine compl_map (compl_andThen name_compl h1 (fol := fun _ r => ScStop r) ?_) ?_
  · intro a b r _ _ hr
    refine ⟨?_, hr⟩
    cases b with
    | none => exact NotIn.sub hr (by intro t; simp +contextual)
    | some k => rfl
  · rintro b ⟨n, m, rfl, h1, h2⟩
    exact ⟨(n, m), rfl, ⟨h1, fun k hk => Grammar.words_iff.2 (h2 k hk)⟩, rfl, fun _ h => h⟩

theorem sc_compl {c : ScCat} {s : Sc} (h : ScFits c s) :
    ∀ (n : Nat) (j : ScJob) (r : List Tok), j.cat = c → j.fol r → 5 * s.toks.length + j.extra ≤ n →
      scRun n j (s.toks ++ r) = some (s, r) := by
  have stop1 : ∀ (k : Tok) r, k ≠ .BACKSLASH → k ≠ .PAAMAYIM_NEKUDOTAYIM → k ≠ .LBRACKET → ScStop (k :: r) := by
    intro k r h1 h2 h3; simp [ScStop, NotIn, headIn, h1, h2, h3]
  induction h with
  | scalar k hk hk' =>
    intro n j r hj hf hn
    cases j <;> cases hj
    obtain ⟨n, rfl⟩ : ∃ m, n = m + 1 := ⟨n - 1, by simp [ScJob.extra] at hn; omega⟩
    have hc := plain_iff.2 ⟨hk, hk'⟩
    have hin : headIn plainScalars ((Sc.scalar k).toks ++ r) = true := hc
    simp only [scRun, hin, if_true]
    simp only [mapP, Sc.toks, List.singleton_append, oneOf, hc, if_true, Option.map_some]
  | str l hl =>
    intro n j r hj hf hn
    cases j <;> cases hj
    obtain ⟨n, rfl⟩ : ∃ m, n = m + 1 := ⟨n - 1, by simp [ScJob.extra] at hn; omega⟩
    have h1 : headIn plainScalars ((Sc.str l).toks ++ r) = false := by
      show plainScalars.contains Tok.CONSTANT_ENCAPSED_STRING = false; decide
    have h2 : headIn [.CONSTANT_ENCAPSED_STRING] ((Sc.str l).toks ++ r) = true := rfl
    simp only [scRun, h1, h2, Bool.false_eq_true, if_false, if_true]
    exact mapP_some (compl_pre idx_compl .CONSTANT_ENCAPSED_STRING l r hl (NotIn.sub hf (by intro t; simp +contextual)))
  | nowdoc =>
    intro n j r hj hf hn
    cases j <;> cases hj
    obtain ⟨n, rfl⟩ : ∃ m, n = m + 1 := ⟨n - 1, by simp [ScJob.extra] at hn; omega⟩
    have h1 : headIn plainScalars (Sc.nowdoc.toks ++ r) = false := by
      show plainScalars.contains Tok.START_NOWDOC = false; decide
    have h2 : headIn [.CONSTANT_ENCAPSED_STRING] (Sc.nowdoc.toks ++ r) = false := rfl
    have h3 : headIn [.START_NOWDOC] (Sc.nowdoc.toks ++ r) = true := rfl
    simp only [scRun, h1, h2, h3, Bool.false_eq_true, if_false, if_true]
    rfl
  | const nm m h1 h2 =>
    intro n j r hj hf hn
    cases j <;> cases hj
    obtain ⟨n, rfl⟩ : ∃ m, n = m + 1 := ⟨n - 1, by simp [ScJob.extra] at hn; omega⟩
    have key : ∀ ks : List Tok, (∀ t, t = .BACKSLASH ∨ t = .STRING → ks.contains t = false) →
        headIn ks ((Sc.const nm m).toks ++ r) = false := by
      intro ks hks
      obtain ⟨t, r', he, ht⟩ := in_of (name_head h1)
      simp only [List.contains_eq_mem, decide_eq_true_eq, List.mem_cons, List.not_mem_nil, or_false] at ht
      simp only [Sc.toks, he, List.cons_append]
      exact hks t ht
    simp only [scRun, key plainScalars (by rintro t (rfl | rfl) <;> decide),
      key [.CONSTANT_ENCAPSED_STRING] (by rintro t (rfl | rfl) <;> decide), key [.START_NOWDOC] (by rintro t (rfl | rfl) <;> decide), key [.PLUS, .MINUS] (by rintro t (rfl | rfl) <;> decide),
      key [.ARRAY] (by rintro t (rfl | rfl) <;> decide), key [.LBRACKET] (by rintro t (rfl | rfl) <;> decide), Bool.false_eq_true, if_false]
    exact const_compl _ r ⟨nm, m, rfl, h1, h2⟩ hf
  | plus s hs ih =>
    intro n j r hj hf hn
    cases j <;> cases hj
    simp only [Sc.toks, List.length_cons, ScJob.extra] at hn
    obtain ⟨n, rfl⟩ : ∃ m, n = m + 1 := ⟨n - 1, by omega⟩
    have := ih n .sc r rfl hf (by simp only [ScJob.extra]; omega)
    have h1 : headIn plainScalars ((Sc.sign .PLUS s).toks ++ r) = false := by
      show plainScalars.contains Tok.PLUS = false; decide
    have h1a : headIn [.CONSTANT_ENCAPSED_STRING] ((Sc.sign .PLUS s).toks ++ r) = false := rfl
    have h1b : headIn [.START_NOWDOC] ((Sc.sign .PLUS s).toks ++ r) = false := rfl
    have h2 : headIn [.PLUS, .MINUS] ((Sc.sign .PLUS s).toks ++ r) = true := rfl
    simp only [scRun, h1, h1a, h1b, h2, Bool.false_eq_true, if_false, if_true]
    simp [mapP, andThen, oneOf, Sc.toks, this]
  | minus s hs ih =>
    intro n j r hj hf hn
    cases j <;> cases hj
    simp only [Sc.toks, List.length_cons, ScJob.extra] at hn
    obtain ⟨n, rfl⟩ : ∃ m, n = m + 1 := ⟨n - 1, by omega⟩
    have := ih n .sc r rfl hf (by simp only [ScJob.extra]; omega)
    have h1 : headIn plainScalars ((Sc.sign .MINUS s).toks ++ r) = false := by
      show plainScalars.contains Tok.MINUS = false; decide
    have h1a : headIn [.CONSTANT_ENCAPSED_STRING] ((Sc.sign .MINUS s).toks ++ r) = false := rfl
    have h1b : headIn [.START_NOWDOC] ((Sc.sign .MINUS s).toks ++ r) = false := rfl
    have h2 : headIn [.PLUS, .MINUS] ((Sc.sign .MINUS s).toks ++ r) = true := rfl
    simp only [scRun, h1, h1a, h1b, h2, Bool.false_eq_true, if_false, if_true]
    simp [mapP, andThen, oneOf, Sc.toks, this]
  | arr short l hl ih =>
    intro n j r hj hf hn
    cases j <;> cases hj
    obtain ⟨n, rfl⟩ : ∃ m, n = m + 1 := ⟨n - 1, by simp only [ScJob.extra] at hn; omega⟩
    cases short with
    | true =>
      simp only [Sc.toks, List.length_cons, List.length_append, List.length_nil, ScJob.extra] at hn
      have := ih n (.items .RBRACKET) (.RBRACKET :: r) rfl ⟨rfl, .inr rfl⟩ (by simp only [ScJob.extra]; omega)
      have h1 : headIn plainScalars ((Sc.arr true l).toks ++ r) = false := by
        show plainScalars.contains Tok.LBRACKET = false; decide
      have h1a : headIn [.CONSTANT_ENCAPSED_STRING] ((Sc.arr true l).toks ++ r) = false := rfl
      have h1b : headIn [.START_NOWDOC] ((Sc.arr true l).toks ++ r) = false := rfl
      have h2 : headIn [.PLUS, .MINUS] ((Sc.arr true l).toks ++ r) = false := rfl
      have h3 : headIn [.ARRAY] ((Sc.arr true l).toks ++ r) = false := rfl
      have h4 : headIn [.LBRACKET] ((Sc.arr true l).toks ++ r) = true := rfl
      simp only [scRun, h1, h1a, h1b, h2, h3, h4, Bool.false_eq_true, if_false, if_true]
      simp [mapP, pre, post, Sc.toks, skip, this]
    | false =>
      simp only [Sc.toks, List.length_cons, List.length_append, List.length_nil, ScJob.extra] at hn
      have := ih n (.items .RPAREN) (.RPAREN :: r) rfl ⟨rfl, .inl rfl⟩ (by simp only [ScJob.extra]; omega)
      have h1 : headIn plainScalars ((Sc.arr false l).toks ++ r) = false := by
        show plainScalars.contains Tok.ARRAY = false; decide
      have h1a : headIn [.CONSTANT_ENCAPSED_STRING] ((Sc.arr false l).toks ++ r) = false := rfl
      have h1b : headIn [.START_NOWDOC] ((Sc.arr false l).toks ++ r) = false := rfl
      have h2 : headIn [.PLUS, .MINUS] ((Sc.arr false l).toks ++ r) = false := rfl
      have h3 : headIn [.ARRAY] ((Sc.arr false l).toks ++ r) = true := rfl
      simp only [scRun, h1, h1a, h1b, h2, h3, Bool.false_eq_true, if_false, if_true]
      simp [mapP, pre, post, Sc.toks, skip, this]
  | single s hs ih =>
    intro n j r hj hf hn
    cases j <;> cases hj
    simp only [ScJob.extra] at hn
    obtain ⟨n, rfl⟩ : ∃ m, n = m + 1 := ⟨n - 1, by omega⟩
    have := ih n .sc r rfl hf.1 (by simp only [ScJob.extra]; omega)
    simp only [scRun, this, Option.bind_eq_bind, Option.bind_some, show headIn [.DOUBLE_ARROW] r = false from hf.2]
    rfl
  | pair k v hk hv ihk ihv =>
    intro n j r hj hf hn
    cases j <;> cases hj
    simp only [Sc.toks, List.length_cons, List.length_append, ScJob.extra] at hn
    obtain ⟨n, rfl⟩ : ∃ m, n = m + 1 := ⟨n - 1, by omega⟩
    have h1 := ihk n .sc (.DOUBLE_ARROW :: (v.toks ++ r)) rfl (stop1 _ _ (by decide) (by decide) (by decide)) (by simp only [ScJob.extra]; omega)
    have h2 := ihv n .sc r rfl hf.1 (by simp only [ScJob.extra]; omega)
    simp only [Sc.toks, List.append_assoc, List.cons_append, scRun, h1, Option.bind_eq_bind, Option.bind_some, headIn_cons,
      List.contains_cons, beq_self_eq_true, Bool.true_or, if_true, List.tail_cons, h2]
    rfl
  | nil =>
    intro n j r hj hf hn
    cases j <;> cases hj
    simp only [ScJob.extra] at hn
    obtain ⟨n, rfl⟩ : ∃ m, n = m + 1 := ⟨n - 1, by omega⟩
    simp only [Sc.toks, List.nil_append, scRun, show headIn _ r = true from hf.1, if_true]
  | some l hl ih =>
    intro n j r hj hf hn
    cases j with
    | items c =>
      simp only [ScJob.extra] at hn
      obtain ⟨n, rfl⟩ : ∃ m, n = m + 1 := ⟨n - 1, by omega⟩
      have := ih n (.items1 c) r rfl hf (by simp only [ScJob.extra]; omega)
      have hh : headIn [c] (l.toks ++ r) = false := by
        obtain ⟨t, r', he, ht⟩ := in_of ((sc_head hl).resolve_left (by intro h; cases h))
        rw [he, List.cons_append, headIn_cons]
        have hnot := scFirst_not ht
        rcases hf.2 with rfl | rfl <;> simp [hnot]
      simp only [scRun, hh, Bool.false_eq_true, if_false, this]
    | _ => cases hj
  | last i hi ih =>
    intro n j r hj hf hn
    cases j with
    | items1 c =>
      simp only [Sc.toks, ScJob.extra] at hn
      obtain ⟨n, rfl⟩ : ∃ m, n = m + 1 := ⟨n - 1, by omega⟩
      obtain ⟨t, r', rfl, ht⟩ := in_of hf.1
      have ht' : t = c := by simpa using ht
      subst ht'
      have hc := hf.2
      have := ih n .item (t :: r') rfl ⟨by rcases hc with rfl | rfl <;> rfl, by rcases hc with rfl | rfl <;> rfl⟩
        (by simp only [ScJob.extra]; omega)
      have hh : headIn [.COMMA] (t :: r') = false := by rcases hc with rfl | rfl <;> rfl
      simp only [Sc.toks, scRun, this, Option.bind_eq_bind, Option.bind_some, hh]
      rfl
    | _ => cases hj
  | lastComma i hi ih =>
    intro n j r hj hf hn
    cases j with
    | items1 c =>
      simp only [Sc.toks, List.length_append, List.length_cons, List.length_nil, ScJob.extra] at hn
      obtain ⟨n, rfl⟩ : ∃ m, n = m + 1 := ⟨n - 1, by omega⟩
      have := ih n .item (.COMMA :: r) rfl ⟨rfl, rfl⟩ (by simp only [ScJob.extra]; omega)
      simp only [Sc.toks, List.append_assoc, List.singleton_append, scRun, this, Option.bind_eq_bind, Option.bind_some, headIn_cons,
        List.contains_cons, beq_self_eq_true, Bool.true_or, if_true, List.tail_cons, show headIn [c] r = true from hf.1]
      rfl
    | _ => cases hj
  | more i l hi hl ihi ihl =>
    intro n j r hj hf hn
    cases j with
    | items1 c =>
      simp only [Sc.toks, List.length_append, List.length_cons, List.length_nil, ScJob.extra] at hn
      obtain ⟨n, rfl⟩ : ∃ m, n = m + 1 := ⟨n - 1, by omega⟩
      have h1 := ihi n .item (.COMMA :: (l.toks ++ r)) rfl ⟨rfl, rfl⟩ (by simp only [ScJob.extra]; omega)
      have h2 := ihl n (.items1 c) r rfl hf (by simp only [ScJob.extra]; omega)
      have hh : headIn [c] (l.toks ++ r) = false := by
        obtain ⟨t, r', he, ht⟩ := in_of ((sc_head hl).resolve_left (by intro h; cases h))
        rw [he, List.cons_append, headIn_cons]
        have hnot := scFirst_not ht
        rcases hf.2 with rfl | rfl <;> simp [hnot]
      simp only [Sc.toks, List.append_assoc, List.cons_append, scRun, h1, Option.bind_eq_bind, Option.bind_some, headIn_cons,
        List.contains_cons, beq_self_eq_true, Bool.true_or, if_true, List.tail_cons, hh, Bool.false_eq_true, if_false, h2]
      rfl
    | _ => cases hj

theorem scP_sound : Sound scP Sc.toks (ScFits .sc) := fun ts a r h => sc_sound _ .sc ts a r h
theorem scP_compl : Compl scP Sc.toks (ScFits .sc) (fun _ r => ScStop r) := fun s r h hr =>
  sc_compl h _ .sc r rfl hr (by simp only [ScJob.extra, List.length_append]; omega)

/-! ## `use` -/

/-- a name in a group of `use`: `function` or `const`, parts, alias -/
structure Inner where
  kind : Option Tok
  parts : List Tok
  alias : Option Tok
deriving DecidableEq, Repr
/-- what follows the name -/
inductive UseRest
  | none
  | alias
  | group (items : List Inner × Bool)
deriving DecidableEq, Repr
/-- a name, whether `\` stands behind it, and the rest -/
structure UseItem where
  global : Bool
  parts : List Tok
  slash : Bool
  rest : UseRest
deriving DecidableEq, Repr

/-- php.g:736-739, 756-759 -/
def kindP : P (Option Tok) := opt [.FUNCTION, .CONST] (oneOf [.FUNCTION, .CONST])
/-- `(AS aliasIdentifier=identifier | 0)` -/
def aliasP : P (Option Tok) := opt [.AS] (pre .AS identP)
/-- php.g:756-780 (`compoundNamespaceStatement`, `innerUseNamespace`) -/
def innerP : P Inner := mapP (fun x => ⟨x.1, x.2.1, x.2.2⟩) (andThen kindP (andThen (sep .BACKSLASH identP) aliasP))
/-- php.g:744, 749-754 -/
def useRestP : P UseRest := fun ts =>
  if headIn [.AS] ts then mapP (fun _ => .alias) (pre .AS identP) ts
  else if headIn [.LBRACE] ts then mapP .group (pre .LBRACE (post (sepTrail .COMMA .RBRACE innerP) .RBRACE)) ts
  else some (.none, ts)
/-- php.g:742-747, 1022-1024 -/
def useItemP : P UseItem :=
  mapP (fun x => ⟨x.1, x.2.1.1, x.2.1.2, x.2.2⟩)
    (andThen (flag .BACKSLASH) (andThen (sepTrail .BACKSLASH .LBRACE identP) useRestP))

def kindTxt (o : Option Tok) : List Tok := optTxt tokTxt o
def aliasTxt (o : Option Tok) : List Tok := optTxt (fun t => [.AS, t]) o
def Inner.toks (i : Inner) : List Tok := kindTxt i.kind ++ (sepTxt .BACKSLASH tokTxt i.parts ++ aliasTxt i.alias)
def UseRest.toks : UseRest → List Tok
  | .none => []
  | .alias => [.AS, .STRING]
  | .group x => .LBRACE :: (sepTrailTxt .COMMA Inner.toks x ++ [.RBRACE])
def UseItem.toks (u : UseItem) : List Tok :=
  flagTxt .BACKSLASH u.global ++ (sepTrailTxt .BACKSLASH tokTxt (u.parts, u.slash) ++ u.rest.toks)
def KindOk (o : Option Tok) : Prop := ∀ k, o = some k → k = .FUNCTION ∨ k = .CONST
def Inner.Ok (i : Inner) : Prop := KindOk i.kind ∧ Idents i.parts ∧ ∀ t, i.alias = some t → t = .STRING
def UseRest.Ok : UseRest → Prop
  | .none | .alias => True
  | .group x => x.1 ≠ [] ∧ ∀ i ∈ x.1, i.Ok
/-- `\` stands at the end only in front of a group -/
def UseItem.Ok (u : UseItem) : Prop := Idents u.parts ∧ u.rest.Ok ∧ (u.slash = true → ∃ x, u.rest = .group x)

theorem kind_sound : Sound kindP kindTxt KindOk :=
  (sound_opt (sound_oneOf _) _).weaken fun o h k hk => by simpa using h k hk
theorem kind_compl : Compl kindP kindTxt KindOk (fun _ r => NotIn [.FUNCTION, .CONST] r) :=
  (compl_opt (compl_oneOf [.FUNCTION, .CONST]) [.FUNCTION, .CONST] (fun a h => h)).weaken (fun o h k hk => by simpa using h k hk)
    (fun _ _ _ h => ⟨fun _ => h, fun _ _ => trivial⟩)
theorem alias_sound : Sound aliasP aliasTxt (fun o => ∀ t, o = some t → t = .STRING) := sound_opt (sound_pre ident_sound _) _
theorem alias_compl : Compl aliasP aliasTxt (fun o => ∀ t, o = some t → t = .STRING) (fun _ r => NotIn [.AS] r) :=
  (compl_opt (compl_pre ident_compl .AS) [.AS] (fun _ _ => rfl)).weaken (fun _ h => h) (fun _ _ _ h => ⟨fun _ => h, fun _ _ => trivial⟩)
theorem inner_sound : Sound innerP Inner.toks Inner.Ok :=
  sound_map (sound_andThen kind_sound (sound_andThen (idents_sound _) alias_sound)) fun a h => ⟨rfl, h.1, h.2.1, h.2.2⟩
theorem inner_compl : Compl innerP Inner.toks Inner.Ok (fun _ r => NotIn [.AS, .BACKSLASH] r) := by
  have h1 := compl_andThen (idents_compl .BACKSLASH) alias_compl (fol := fun _ r => NotIn [.AS, .BACKSLASH] r) (by
    intro a b r _ _ hr
    refine ⟨?_, hr.sub (by intro t; simp +contextual)⟩
    cases b with
    | none => exact NotIn.sub hr (by intro t; simp +contextual)
    | some k => rfl)
  refine compl_map (compl_andThen kind_compl h1 (fol := fun _ r => NotIn [.AS, .BACKSLASH] r) ?_) ?_
  · rintro a ⟨b, c⟩ r _ ⟨hb, _⟩ hr
    refine ⟨?_, hr⟩
    obtain ⟨r', h⟩ := idents_head hb .BACKSLASH
    simp only [h]; rfl
  · rintro ⟨k, p, a⟩ ⟨h1, h2, h3⟩
    exact ⟨(k, p, a), rfl, ⟨h1, h2, h3⟩, rfl, fun _ h => h⟩
theorem inner_head {i : Inner} (h : i.Ok) (r : List Tok) : In [.FUNCTION, .CONST, .STRING] (i.toks ++ r) := by
  obtain ⟨h1, h2, h3⟩ := h
  unfold Inner.toks
  cases hk : i.kind with
  | none => obtain ⟨r', h⟩ := idents_head h2 .BACKSLASH; simp only [h]; rfl
  | some k => rcases h1 k hk with rfl | rfl <;> rfl

theorem useRest_sound : Sound useRestP UseRest.toks UseRest.Ok := by
  intro ts a r h
  simp only [useRestP] at h
  split at h
  · refine sound_map (sound_pre ident_sound _) (f := fun _ => UseRest.alias) (fun a h => ⟨?_, trivial⟩) ts a r h
    simp only [UseRest.toks, h, tokTxt]
  · split at h
    · exact sound_map (sound_pre (sound_post (sound_sepTrail inner_sound _ _) _) _) (f := UseRest.group) (fun a h => ⟨rfl, h⟩) ts a r h
    · cases h; exact ⟨rfl, trivial⟩
theorem useRest_compl : Compl useRestP UseRest.toks UseRest.Ok (fun _ r => NotIn [.AS, .LBRACE] r) := by
  intro a r h hr
  cases a with
  | none =>
    have h1 : headIn [.AS] r = false := NotIn.sub hr (by intro t; simp +contextual)
    have h2 : headIn [.LBRACE] r = false := NotIn.sub hr (by intro t; simp +contextual)
    simp only [useRestP, UseRest.toks, List.nil_append, h1, h2, Bool.false_eq_true, if_false]
  | alias => rfl
  | group x =>
    have h1 : headIn [.AS] ((UseRest.group x).toks ++ r) = false := rfl
    have h2 : headIn [.LBRACE] ((UseRest.group x).toks ++ r) = true := rfl
    simp only [useRestP, h1, h2, Bool.false_eq_true, if_false, if_true]
    have hc := compl_pre (compl_post (compl_sepTrail inner_compl .COMMA .RBRACE (fun _ _ _ => rfl) (fun a r ha =>
      (inner_head ha r).notIn (by intro t ht; cases hc : [Tok.RBRACE].contains t
                                  · rfl
                                  · have : t = .RBRACE := by simpa using hc
                                    subst this; revert ht; decide))) .RBRACE
      (fun x r hx => ⟨fun _ => rfl, fun _ => ⟨rfl, fun _ _ => rfl⟩⟩)) .LBRACE
    exact mapP_some (hc x r h trivial)

theorem useItem_sound : Sound useItemP UseItem.toks UseItem.Ok := by
  intro ts a r h
  have hs : a.slash = true → ∃ x, a.rest = .group x := by
    simp only [useItemP, mapP, Option.map_eq_some_iff, andThen, Option.bind_eq_bind, Option.bind_eq_some_iff, Option.pure_def,
      Option.some.injEq] at h
    obtain ⟨⟨x, r0⟩, ⟨⟨g, r1⟩, -, ⟨y, r4⟩, ⟨⟨⟨l, b⟩, r2⟩, h2, ⟨u, r3⟩, h3, he⟩, he'⟩, he''⟩ := h
    cases he; cases he'; cases he''
    simp only
    rintro rfl
    have hin := sepTrail_close h2
    obtain ⟨t, r', rfl, ht⟩ := in_of hin
    have ht' : t = .LBRACE := by simpa using ht
    subst ht'
    simp only [useRestP, show headIn [.AS] (Tok.LBRACE :: r') = false from rfl, show headIn [.LBRACE] (Tok.LBRACE :: r') = true from rfl,
      Bool.false_eq_true, if_false, if_true, mapP, Option.map_eq_some_iff] at h3
    obtain ⟨⟨x, _⟩, -, he⟩ := h3
    cases he
    exact ⟨x, rfl⟩
  have := sound_map (sound_andThen (sound_flag .BACKSLASH) (sound_andThen (sound_sepTrail ident_sound .BACKSLASH .LBRACE) useRest_sound))
    (f := fun x => (⟨x.1, x.2.1.1, x.2.1.2, x.2.2⟩ : UseItem)) (txt' := UseItem.toks) (ok' := fun u => Idents u.parts ∧ u.rest.Ok)
    (fun a h => ⟨rfl, h.2.1, h.2.2⟩) ts a r h
  exact ⟨this.1, this.2.1, this.2.2, hs⟩

theorem useItem_compl : Compl useItemP UseItem.toks UseItem.Ok (fun _ r => NotIn [.AS, .LBRACE, .BACKSLASH] r) := by
  have h1 := compl_andThen
    (compl_sepTrail ident_compl .BACKSLASH .LBRACE (fun _ _ _ => trivial) (fun a r ha => by cases ha; rfl))
    useRest_compl (fol := fun x r => (x.1.2 = true → ∃ y, x.2 = .group y) ∧ NotIn [.AS, .LBRACE, .BACKSLASH] r) (by
      rintro ⟨l, b⟩ u r _ _ ⟨hs, hr⟩
      refine ⟨⟨fun hb => ?_, fun _ => ⟨?_, fun _ _ => trivial⟩⟩, hr.sub (by intro t; simp; rintro (h | h) <;> simp [h])⟩
      · obtain ⟨y, rfl⟩ := hs hb; rfl
      · cases u with
        | none => exact NotIn.sub hr (by intro t; simp +contextual)
        | alias => rfl
        | group => rfl)
  have h2 := compl_andThen (compl_flag .BACKSLASH) h1
    (fol := fun x r => (x.2.1.2 = true → ∃ y, x.2.2 = .group y) ∧ NotIn [.AS, .LBRACE, .BACKSLASH] r) (by
      rintro g ⟨⟨l, b⟩, u⟩ r _ ⟨ho, _⟩ hr
      refine ⟨fun _ => ?_, hr⟩
      obtain ⟨r', h⟩ := idents_head (l := l) ho .BACKSLASH
      simp only [sepTrailTxt, h]; rfl)
  refine compl_map h2 ?_
  rintro ⟨g, p, s, u⟩ ⟨h1, h2, h3⟩
  exact ⟨(g, (p, s), u), rfl, ⟨trivial, h1, h2⟩, rfl, fun _ h => ⟨h3, h⟩⟩

end KPhp.Stmt
