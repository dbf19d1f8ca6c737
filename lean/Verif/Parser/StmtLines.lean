import Verif.Parser.StmtParts
/-
# Statements on one line, heads of statements and members of classes

Models the rules of parser/php.g for statements that contain no other statements, and what stands in front of the bodies of
loops, functions and classes (php.g:692-734, 736-740, 782-789, 820-825, 1149-1153).
-/
namespace KPhp.Stmt
set_option linter.unusedVariables false
set_option linter.unusedSimpArgs false
set_option linter.unusedSectionVars false
open KPhp (Tok)
open KPhp.Grammar (headIn E Fits Closures)
variable [Closures]

/-! ## Statements without statements inside -/

/-- php.g:788-789 -/
def semiP : P Tok := oneOf [.SEMICOLON, .CLOSE_TAG]

/-- `(p | 0)` in front of one of these tokens.  The generated code compares with the tokens `p` begins with; where the two
differ, both fail. -/
def untilP {α} (ends : List Tok) (p : P α) : P (Option α) := fun ts =>
  if headIn ends ts then some (none, ts) else (p ts).map fun x => (some x.1, x.2)

/-- variables of `global`: `$v`, `$` and a variable, `${e}` -/
inductive GVar
  | name
  | dollar (v : E)
  | curly (e : E)
deriving DecidableEq, Repr

inductive Line
  /-- `;`, `?>`, `<?`, HTML -/
  | bare (k : Tok)
  | expr (e : E) (t : Tok)
  /-- `break`, `continue`, `return` -/
  | word (k : Tok) (e : Option E) (t : Tok)
  /-- `throw`, `<?=` -/
  | need (k : Tok) (e : E) (t : Tok)
  | echo (es : List E) (t : Tok)
  | unset (vs : List E) (t : Tok)
  | global (vs : List GVar) (t : Tok)
  /-- static variables: their values -/
  | static (vs : List (Option Sc)) (t : Tok)
  /-- constants: their values -/
  | const (vs : List E)
  | use (kind : Option Tok) (items : List UseItem)
  | goto
  | label
deriving DecidableEq, Repr

def bareToks : List Tok := [.SEMICOLON, .CLOSE_TAG, .OPEN_TAG, .INLINE_HTML]
def jumpToks : List Tok := [.BREAK, .CONTINUE, .RETURN]
def needToks : List Tok := [.THROW, .OPEN_TAG_WITH_ECHO]

/-- php.g:713 -/
def unsetP : P Line := mapP (fun x => .unset x.1 x.2) (andThen (pre .UNSET (pre .LPAREN (post (sep .COMMA varP) .RPAREN))) semiP)
/-- php.g:717-719 -/
def jumpP : P Line := mapP (fun x => .word x.1 x.2.1 x.2.2) (andThen (oneOf jumpToks) (andThen (untilP [.SEMICOLON, .CLOSE_TAG] exprP) semiP))
/-- php.g:723, 728 -/
def needP : P Line := mapP (fun x => .need x.1 x.2.1 x.2.2) (andThen (oneOf needToks) (andThen exprP semiP))
/-- php.g:823-825 -/
def gvarP : P GVar := fun ts =>
  if headIn [.VARIABLE] ts then mapP (fun _ => .name) (oneOf [.VARIABLE]) ts
  else pre .DOLLAR (fun ts =>
    if headIn [.LBRACE] ts then mapP .curly (pre .LBRACE (post exprP .RBRACE)) ts else mapP .dollar varP ts) ts
/-- php.g:720 -/
def globalP : P Line := mapP (fun x => .global x.1 x.2) (andThen (pre .GLOBAL (sep .COMMA gvarP)) semiP)
/-- php.g:721, 820-821; 1149-1153: variables with values -/
def varsP : P (List (Option Sc)) := sep .COMMA (pre .VARIABLE (assignP scP))
def staticP : P Line := mapP (fun x => .static x.1 x.2) (andThen (pre .STATIC varsP) semiP)
/-- php.g:722 -/
def echoP : P Line := mapP (fun x => .echo x.1 x.2) (andThen (pre .ECHO (sep .COMMA exprP)) semiP)
/-- php.g:730, 782-783 -/
def constsP : P Line := mapP .const (pre .CONST (post (sep .COMMA (pre .STRING (pre .ASSIGN exprP))) .SEMICOLON))
/-- "Can't use mixed import." (php.g:761-764) -/
def mixed (k : Option Tok) (us : List UseItem) : Bool :=
  k.isSome && us.any fun u => match u.rest with
    | .group x => x.1.any fun i => i.kind.isSome
    | _ => false
/-- php.g:731, 736-740; an import of another kind inside is reported as an error (:761-764; there as soon as it is read) -/
def useP : P Line := fun ts => do
  let ((k, us), r) ← pre .USE (andThen kindP (post (sep .COMMA useItemP) .SEMICOLON)) ts
  if mixed k us then none else some (.use k us, r)
/-- php.g:732 -/
def gotoP : P Line := mapP (fun _ => .goto) (pre .GOTO (pre .STRING (oneOf [.SEMICOLON])))
/-- php.g:733 -/
def labelP : P Line := mapP (fun _ => .label) (pre .STRING (oneOf [.COLON]))
/-- php.g:715 -/
def exprLineP : P Line := mapP (fun x => .expr x.1 x.2) (andThen exprP semiP)

/-- a goto target stands here (php.g:715) -/
def isLabel : List Tok → Bool
  | .STRING :: .COLON :: _ => true
  | _ => false

/-- the alternatives of `statement` (php.g:692-734) that contain no statement, by their first tokens -/
def lineP : P Line := fun ts =>
  if headIn bareToks ts then mapP .bare (oneOf bareToks) ts
  else if headIn [.UNSET] ts then unsetP ts
  else if headIn jumpToks ts then jumpP ts
  else if headIn needToks ts then needP ts
  else if headIn [.GLOBAL] ts then globalP ts
  else if headIn [.STATIC] ts then staticP ts
  else if headIn [.ECHO] ts then echoP ts
  else if headIn [.CONST] ts then constsP ts
  else if headIn [.USE] ts then useP ts
  else if headIn [.GOTO] ts then gotoP ts
  else if isLabel ts then labelP ts
  else exprLineP ts

/-- variables with values -/
def varsTxt (l : List (Option Sc)) : List Tok := sepTxt .COMMA (fun o => .VARIABLE :: assignTxt Sc.toks o) l
def GVar.toks : GVar → List Tok
  | .name => [.VARIABLE]
  | .dollar v => .DOLLAR :: v.toks
  | .curly e => .DOLLAR :: .LBRACE :: (e.toks ++ [.RBRACE])
def Line.toks : Line → List Tok
  | .bare k => [k]
  | .expr e t => e.toks ++ [t]
  | .word k e t => k :: (optTxt E.toks e ++ [t])
  | .need k e t => k :: (e.toks ++ [t])
  | .echo l t => .ECHO :: sepTxt .COMMA E.toks l ++ [t]
  | .unset l t => .UNSET :: .LPAREN :: (sepTxt .COMMA E.toks l ++ [.RPAREN]) ++ [t]
  | .global l t => .GLOBAL :: sepTxt .COMMA GVar.toks l ++ [t]
  | .static l t => .STATIC :: varsTxt l ++ [t]
  | .const l => .CONST :: (sepTxt .COMMA (fun e => .STRING :: .ASSIGN :: E.toks e) l ++ [.SEMICOLON])
  | .use k l => .USE :: (kindTxt k ++ (sepTxt .COMMA UseItem.toks l ++ [.SEMICOLON]))
  | .goto => [.GOTO, .STRING, .SEMICOLON]
  | .label => [.STRING, .COLON]

/-- the end of a statement -/
def Semi (t : Tok) : Prop := t = .SEMICOLON ∨ t = .CLOSE_TAG
def Exprs (l : List E) : Prop := l ≠ [] ∧ ∀ e ∈ l, Fits (.lev 0) e
def VarsOk (l : List (Option Sc)) : Prop := l ≠ [] ∧ ∀ o ∈ l, ∀ s, o = some s → ScFits .sc s
def GVar.Ok : GVar → Prop
  | .name => True
  | .dollar v => Fits (.path .vari) v
  | .curly e => Fits (.lev 0) e
/-- which lines are well-formed -/
def Line.Ok : Line → Prop
  | .bare k => k = .SEMICOLON ∨ k = .CLOSE_TAG ∨ k = .OPEN_TAG ∨ k = .INLINE_HTML
  | .expr e t => Fits (.lev 0) e ∧ Semi t
  | .word k e t => (k = .BREAK ∨ k = .CONTINUE ∨ k = .RETURN) ∧ (∀ x, e = some x → Fits (.lev 0) x) ∧ Semi t
  | .need k e t => (k = .THROW ∨ k = .OPEN_TAG_WITH_ECHO) ∧ Fits (.lev 0) e ∧ Semi t
  | .echo l t => Exprs l ∧ Semi t
  | .unset l t => (l ≠ [] ∧ ∀ e ∈ l, Fits (.path .vari) e) ∧ Semi t
  | .global l t => (l ≠ [] ∧ ∀ v ∈ l, v.Ok) ∧ Semi t
  | .static l t => VarsOk l ∧ Semi t
  | .const l => Exprs l
  | .use k l => KindOk k ∧ l ≠ [] ∧ (∀ u ∈ l, u.Ok) ∧
      ∀ u ∈ l, ∀ x, u.rest = .group x → ∀ i ∈ x.1, k = none ∨ i.kind = none
  | .goto | .label => True

theorem semi_sound : Sound semiP tokTxt Semi := (sound_oneOf _).weaken fun t h => by simpa [Semi] using h
theorem semi_compl : Compl semiP tokTxt Semi anyFol := (compl_oneOf _).weaken (fun t h => by simpa [Semi] using h) (fun _ _ _ h => h)
theorem semi_in {t : Tok} (h : Semi t) (r : List Tok) : In [.SEMICOLON, .CLOSE_TAG] (tokTxt t ++ r) := by
  rcases h with rfl | rfl <;> rfl
theorem semi_expr {t : Tok} (h : Semi t) (r : List Tok) : In exprEnds (tokTxt t ++ r) := by
  rcases h with rfl | rfl <;> rfl

theorem until_sound {α} {p : P α} {txt ok} (h : Sound p txt ok) (ends : List Tok) :
    Sound (untilP ends p) (optTxt txt) (fun o => ∀ a, o = some a → ok a) := by
  intro ts a r ha
  simp only [untilP] at ha
  split at ha
  · cases ha; exact ⟨rfl, fun a ha => by cases ha⟩
  · rw [Option.map_eq_some_iff] at ha
    obtain ⟨⟨x, r'⟩, hp, he⟩ := ha
    cases he
    obtain ⟨h1, h2⟩ := h _ _ _ hp
    exact ⟨h1, fun a ha => by cases ha; exact h2⟩
theorem until_compl {α} {p : P α} {txt ok fol} (h : Compl p txt ok fol) (ends : List Tok) (hn : ∀ a r, ok a → NotIn ends (txt a ++ r)) :
    Compl (untilP ends p) (optTxt txt) (fun o => ∀ a, o = some a → ok a) (fun o r => In ends r ∧ ∀ a, o = some a → fol a r) := by
  intro a r ha hr
  cases a with
  | none => simp only [untilP, optTxt, List.nil_append, show headIn ends r = true from hr.1, if_true]
  | some a =>
    simp only [untilP, optTxt, show headIn ends (txt a ++ r) = false from hn a r (ha a rfl), Bool.false_eq_true, if_false,
      h a r (ha a rfl) (hr.2 a rfl), Option.map_some]

/-- tokens no expression begins with -/
theorem expr_notIn {e : E} (h : Fits (.lev 0) e) (r : List Tok) {ks : List Tok} (hk : ∀ t, Grammar.Start 0 t → ks.contains t = false) :
    NotIn ks (e.toks ++ r) := by
  obtain ⟨-, t, r', he, hs, -⟩ := Grammar.fits_first h
  rw [he]
  exact hk t hs
theorem var_notIn {e : E} (h : Fits (.path .vari) e) (r : List Tok) {ks : List Tok} (hk : ∀ t ∈ Grammar.nameHeads, ks.contains t = false) :
    NotIn ks (e.toks ++ r) := by
  obtain ⟨t, r', he, hs⟩ := Grammar.fits_first h
  rw [he]
  exact hk t hs

theorem exprs_sound : Sound (sep .COMMA exprP) (sepTxt .COMMA E.toks) Exprs := sound_sep expr_sound _
theorem exprs_compl : Compl (sep .COMMA exprP) (sepTxt .COMMA E.toks) Exprs (fun _ r => NotIn [.COMMA] r ∧ In exprEnds r) :=
  (compl_sep expr_compl .COMMA (fun _ r _ => exprEnds_stop (r := .COMMA :: r) rfl)).weaken (fun _ h => h)
    (fun _ _ _ h => ⟨h.1, fun _ _ => exprEnds_stop h.2⟩)
theorem vars_sound : Sound varsP varsTxt VarsOk := sound_sep (sound_pre (assign_sound scP_sound) _) _
theorem vars_compl : Compl varsP varsTxt VarsOk (fun _ r => In [.SEMICOLON, .CLOSE_TAG] r) := by
  refine (compl_sep (compl_pre (assign_compl scP_compl) _) .COMMA (fun _ _ _ => ⟨rfl, fun _ _ => rfl⟩)).weaken (fun _ h => h) ?_
  intro l r _ h
  obtain ⟨t, r', rfl, ht⟩ := in_of h
  simp only [List.contains_eq_mem, decide_eq_true_eq, List.mem_cons, List.not_mem_nil, or_false] at ht
  rcases ht with rfl | rfl <;> exact ⟨rfl, fun _ _ => ⟨rfl, fun _ _ => rfl⟩⟩

theorem bare_sound : Sound (mapP .bare (oneOf bareToks)) Line.toks Line.Ok :=
  sound_map (sound_oneOf _) fun a h => ⟨rfl, by simpa [bareToks, Line.Ok] using h⟩
theorem unset_sound : Sound unsetP Line.toks Line.Ok :=
  sound_map (sound_andThen (sound_pre (sound_pre (sound_post (sound_sep var_sound _) _) _) _) semi_sound)
    fun a h => ⟨rfl, h.1, h.2⟩
theorem jump_sound : Sound jumpP Line.toks Line.Ok :=
  sound_map (sound_andThen (sound_oneOf _) (sound_andThen (until_sound expr_sound _) semi_sound))
    fun a h => ⟨rfl, by simpa [jumpToks] using h.1, h.2.1, h.2.2⟩
theorem need_sound : Sound needP Line.toks Line.Ok :=
  sound_map (sound_andThen (sound_oneOf _) (sound_andThen expr_sound semi_sound))
    fun a h => ⟨rfl, by simpa [needToks] using h.1, h.2.1, h.2.2⟩
theorem gvar_sound : Sound gvarP GVar.toks GVar.Ok := by
  intro ts a r h
  simp only [gvarP] at h
  split at h
  · exact sound_map (f := fun _ => GVar.name) (ok' := GVar.Ok) (sound_oneOf [.VARIABLE]) (fun a h => ⟨by
      have : a = .VARIABLE := by simpa using h
      rw [this]; rfl, trivial⟩) ts a r h
  · have hs := sound_pre (txt := fun g => (GVar.toks g).tail) (ok := fun g => g ≠ .name ∧ g.Ok) ?_ .DOLLAR ts a r h
    · refine ⟨?_, hs.2.2⟩
      cases a with
      | name => exact absurd rfl hs.2.1
      | dollar v => exact hs.1
      | curly e => exact hs.1
    · intro ts a r h
      dsimp only at h
      split at h
      · exact sound_map (f := GVar.curly) (txt' := fun g => (GVar.toks g).tail) (ok' := fun g => g ≠ .name ∧ g.Ok)
          (sound_pre (sound_post expr_sound .RBRACE) .LBRACE) (fun a h => ⟨rfl, ⟨nofun, h⟩⟩) ts a r h
      · exact sound_map (f := GVar.dollar) (txt' := fun g => (GVar.toks g).tail) (ok' := fun g => g ≠ .name ∧ g.Ok)
          var_sound (fun a h => ⟨rfl, ⟨nofun, h⟩⟩) ts a r h
theorem gvar_compl : Compl gvarP GVar.toks GVar.Ok (fun _ r => In [.COMMA, .SEMICOLON, .CLOSE_TAG] r) := by
  intro g r h hr
  cases g with
  | name => rfl
  | dollar v =>
    have hs : Grammar.Stop 20 r := varEnds_stop (by
      obtain ⟨t, r', rfl, ht⟩ := in_of hr
      have : t = .COMMA ∨ t = .SEMICOLON ∨ t = .CLOSE_TAG := by simpa using ht
      rcases this with rfl | rfl | rfl <;> rfl) _
    have h1 := mapP_some (f := GVar.dollar) (var_compl v r h hs)
    have hn : headIn [.LBRACE] (v.toks ++ r) = false := var_notIn h r (by decide)
    have : gvarP (.DOLLAR :: (v.toks ++ r)) = if headIn [.LBRACE] (v.toks ++ r) then mapP .curly (pre .LBRACE (post exprP .RBRACE)) (v.toks ++ r) else mapP .dollar varP (v.toks ++ r) := rfl
    show gvarP (.DOLLAR :: (v.toks ++ r)) = _
    rw [this, hn]
    exact h1
  | curly e =>
    have h1 := mapP_some (f := GVar.curly) (compl_pre (compl_post expr_compl .RBRACE (fun a r _ => exprEnds_stop (r := .RBRACE :: r) rfl)) .LBRACE e r h trivial)
    exact h1
theorem global_sound : Sound globalP Line.toks Line.Ok :=
  sound_map (sound_andThen (sound_pre (sound_sep gvar_sound _) _) semi_sound) fun a h => ⟨rfl, h.1, h.2⟩
theorem static_sound : Sound staticP Line.toks Line.Ok :=
  sound_map (sound_andThen (sound_pre vars_sound _) semi_sound) fun a h => ⟨rfl, h.1, h.2⟩
theorem echo_sound : Sound echoP Line.toks Line.Ok :=
  sound_map (sound_andThen (sound_pre exprs_sound _) semi_sound) fun a h => ⟨rfl, h.1, h.2⟩
theorem consts_sound : Sound constsP Line.toks Line.Ok :=
  sound_map (sound_pre (sound_post (sound_sep (sound_pre (sound_pre expr_sound _) _) _) _) _) fun a h => ⟨rfl, h⟩
theorem mixed_iff (k : Option Tok) (us : List UseItem) :
    mixed k us = false ↔ ∀ u ∈ us, ∀ x, u.rest = .group x → ∀ i ∈ x.1, k = none ∨ i.kind = none := by
  cases k with
  | none => simp [mixed]
  | some k =>
    simp only [mixed, Option.isSome_some, Bool.true_and, List.any_eq_false, reduceCtorEq, false_or]
    constructor
    · intro h u hu x hx i hi
      have := h u hu
      rw [hx] at this
      simp only [List.any_eq_true, not_exists, not_and] at this
      have := this i hi
      cases hk : i.kind with
      | none => rfl
      | some k => rw [hk] at this; exact absurd rfl this
    · intro h u hu hm
      cases hr : u.rest with
      | none => rw [hr] at hm; cases hm
      | alias => rw [hr] at hm; cases hm
      | group x =>
        rw [hr] at hm
        simp only [List.any_eq_true] at hm
        obtain ⟨i, hi, hk⟩ := hm
        rw [h u hu x hr i hi] at hk
        cases hk
theorem use_sound : Sound useP Line.toks Line.Ok := by
  intro ts a r h
  simp only [useP, Option.bind_eq_bind, Option.bind_eq_some_iff] at h
  obtain ⟨⟨⟨k, us⟩, r'⟩, h1, h2⟩ := h
  obtain ⟨h3, h4⟩ := sound_pre (sound_andThen kind_sound (sound_post (sound_sep useItem_sound _) _)) _ _ _ _ h1
  simp only at h2
  split at h2
  · cases h2
  · rename_i hm
    cases h2
    exact ⟨h3, h4.1, h4.2.1, h4.2.2, (mixed_iff k us).1 (by simpa using hm)⟩
theorem goto_sound : Sound gotoP Line.toks Line.Ok :=
  sound_map (sound_pre (sound_pre (sound_oneOf _) _) _) fun a h => ⟨by
    have : a = .SEMICOLON := by simpa using h
    rw [this]; rfl, trivial⟩
theorem label_sound : Sound labelP Line.toks Line.Ok :=
  sound_map (sound_pre (sound_oneOf _) _) fun a h => ⟨by
    have : a = .COLON := by simpa using h
    rw [this]; rfl, trivial⟩
theorem exprLine_sound : Sound exprLineP Line.toks Line.Ok :=
  sound_map (sound_andThen expr_sound semi_sound) fun a h => ⟨rfl, h.1, h.2⟩

theorem line_sound : Sound lineP Line.toks Line.Ok := by
  intro ts a r h
  simp only [lineP] at h
  split at h
  · exact bare_sound ts a r h
  split at h
  · exact unset_sound ts a r h
  split at h
  · exact jump_sound ts a r h
  split at h
  · exact need_sound ts a r h
  split at h
  · exact global_sound ts a r h
  split at h
  · exact static_sound ts a r h
  split at h
  · exact echo_sound ts a r h
  split at h
  · exact consts_sound ts a r h
  split at h
  · exact use_sound ts a r h
  split at h
  · exact goto_sound ts a r h
  split at h
  · exact label_sound ts a r h
  · exact exprLine_sound ts a r h

/-- all tokens that begin other statements -/
def keyToks : List Tok :=
  bareToks ++ [.UNSET] ++ jumpToks ++ needToks ++ [.GLOBAL, .STATIC, .ECHO, .CONST, .USE, .GOTO] ++
  [.LBRACE, .IF, .WHILE, .FOR, .SWITCH, .FOREACH, .DECLARE, .TRY, .DO, .CLASS, .ABSTRACT, .FINAL, .TRAIT, .INTERFACE,
   .HALT_COMPILER, .NAMESPACE, .RBRACE, .ELSE, .ELSEIF, .ENDIF, .ENDFOREACH, .ENDFOR, .ENDWHILE, .ENDSWITCH, .ENDDECLARE, .CASE,
   .DEFAULT, .CATCH, .FINALLY, .RPAREN, .COLON, .AS]
theorem start_notKey {l : Nat} {t : Tok} (h : Grammar.Start l t) : keyToks.contains t = false := by
  rcases h with ⟨_, rfl⟩ | ⟨_, rfl | rfl⟩ | ⟨_, h | rfl | rfl | rfl⟩ | ⟨_, h⟩ | h
  · decide
  · decide
  · decide
  · cases h <;> decide
  · decide
  · decide
  · decide
  · cases h <;> decide
  · exact (by decide : ∀ t ∈ Grammar.primHeads, keyToks.contains t = false) t h
theorem key_sub {ks : List Tok} {t : Tok} (h : keyToks.contains t = false) (hs : ∀ k ∈ ks, keyToks.contains k = true) :
    ks.contains t = false := by
  cases hc : ks.contains t
  · rfl
  · have := hs t (by simpa using hc)
    rw [h] at this; cases this

/-- no expression reads like a goto target -/
theorem expr_notLabel {e : E} (h : Fits (.lev 0) e) {t : Tok} (ht : t ≠ .COLON) (r : List Tok) : isLabel (e.toks ++ t :: r) = false := by
  cases hl : isLabel (e.toks ++ t :: r) with
  | false => rfl
  | true =>
    exfalso
    unfold isLabel at hl
    split at hl
    · rename_i r' he
      obtain ⟨-, t1, r1, hf, -⟩ := Grammar.fits_first h
      rw [hf, List.cons_append] at he
      injection he with e1 e2
      subst e1
      cases r1 with
      | nil => injection e2 with e3 _; exact ht e3
      | cons t2 r2 =>
        injection e2 with e3 _
        subst e3
        have h1 := Grammar.parse_complete h [] (.inl rfl)
        have h2 := Grammar.parse_complete (e := .name false 0) ((Grammar.Fits.normal _ (.const _ (.constName _ _))).to (by omega)) (.COLON :: r2) (.inr ⟨_, _, rfl, .inl rfl⟩)
        rw [List.append_nil, hf] at h1
        rw [show (Grammar.E.name false 0).toks ++ Tok.COLON :: r2 = .STRING :: .COLON :: r2 from rfl, h1] at h2
        injection h2 with _ h4 _
        cases h4
    · cases hl

theorem exprSemi_compl : Compl (andThen exprP semiP) (fun x => x.1.toks ++ tokTxt x.2) (fun x => Fits (.lev 0) x.1 ∧ Semi x.2) anyFol :=
  compl_andThen expr_compl semi_compl fun a b r _ hb _ => ⟨exprEnds_stop (semi_expr hb r), trivial⟩

theorem notSemi_start {t : Tok} (h : Grammar.Start 0 t) : [Tok.SEMICOLON, .CLOSE_TAG].contains t = false :=
  key_sub (start_notKey h) (by decide)

theorem jump_compl : Compl jumpP Line.toks
    (fun l => ∃ k e t, l = .word k e t ∧ jumpToks.contains k = true ∧ (∀ x, e = some x → Fits (.lev 0) x) ∧ Semi t) anyFol := by
  have h1 := compl_andThen (until_compl expr_compl [.SEMICOLON, .CLOSE_TAG] (fun a r h => expr_notIn h r fun t ht => notSemi_start ht))
    semi_compl (fol := anyFol) (fun a b r _ hb _ => ⟨⟨semi_in hb r, fun _ _ => exprEnds_stop (semi_expr hb r)⟩, trivial⟩)
  refine compl_map (compl_andThen (compl_oneOf jumpToks) h1 (fol := anyFol) (fun a b r _ _ _ => ⟨trivial, trivial⟩)) ?_
  rintro b ⟨k, e, t, rfl, h1, h2, h3⟩
  exact ⟨(k, e, t), rfl, ⟨h1, h2, h3⟩, rfl, fun _ h => h⟩
theorem need_compl : Compl needP Line.toks
    (fun l => ∃ k e t, l = .need k e t ∧ needToks.contains k = true ∧ Fits (.lev 0) e ∧ Semi t) anyFol := by
  refine compl_map (compl_andThen (compl_oneOf needToks) exprSemi_compl (fol := anyFol) (fun a b r _ _ _ => ⟨trivial, trivial⟩)) ?_
  rintro b ⟨k, e, t, rfl, h1, h2, h3⟩
  exact ⟨(k, e, t), rfl, ⟨h1, h2, h3⟩, rfl, fun _ h => h⟩
theorem exprLine_compl : Compl exprLineP Line.toks (fun l => ∃ e t, l = .expr e t ∧ Fits (.lev 0) e ∧ Semi t) anyFol := by
  refine compl_map exprSemi_compl ?_
  rintro b ⟨e, t, rfl, h2, h3⟩
  exact ⟨(e, t), rfl, ⟨h2, h3⟩, rfl, fun _ h => h⟩
theorem echo_compl : Compl echoP Line.toks (fun l => ∃ es t, l = .echo es t ∧ Exprs es ∧ Semi t) anyFol := by
  refine compl_map (compl_andThen (compl_pre exprs_compl .ECHO) semi_compl (fol := anyFol)
    (fun a b r _ hb _ => ⟨⟨by rcases hb with rfl | rfl <;> rfl, semi_expr hb r⟩, trivial⟩)) ?_
  rintro b ⟨e, t, rfl, h2, h3⟩
  exact ⟨(e, t), rfl, ⟨h2, h3⟩, rfl, fun _ h => h⟩
theorem unset_compl : Compl unsetP Line.toks (fun l => ∃ es t, l = .unset es t ∧ (es ≠ [] ∧ ∀ e ∈ es, Fits (.path .vari) e) ∧ Semi t) anyFol := by
  have h1 := compl_post (compl_sep var_compl .COMMA (fun _ r _ => varEnds_stop (r := .COMMA :: r) rfl _)) .RPAREN
    (fun a r _ => ⟨rfl, fun _ _ => varEnds_stop (r := .RPAREN :: r) rfl _⟩)
  refine compl_map (compl_andThen (compl_pre (compl_pre h1 .LPAREN) .UNSET) semi_compl (fol := anyFol)
    (fun a b r _ hb _ => ⟨trivial, trivial⟩)) ?_
  rintro b ⟨e, t, rfl, h2, h3⟩
  exact ⟨(e, t), rfl, ⟨h2, h3⟩, rfl, fun _ h => h⟩
theorem global_compl : Compl globalP Line.toks (fun l => ∃ es t, l = .global es t ∧ (es ≠ [] ∧ ∀ e ∈ es, e.Ok) ∧ Semi t) anyFol := by
  have h1 := compl_sep gvar_compl .COMMA (fun _ r _ => rfl)
  refine compl_map (compl_andThen (compl_pre h1 .GLOBAL) semi_compl (fol := anyFol)
    (fun a b r _ hb _ => ⟨⟨by rcases hb with rfl | rfl <;> rfl, fun _ _ => by rcases hb with rfl | rfl <;> rfl⟩, trivial⟩)) ?_
  rintro b ⟨e, t, rfl, h2, h3⟩
  exact ⟨(e, t), rfl, ⟨h2, h3⟩, rfl, fun _ h => h⟩
theorem static_compl : Compl staticP Line.toks (fun l => ∃ es t, l = .static es t ∧ VarsOk es ∧ Semi t) anyFol := by
  refine compl_map (compl_andThen (compl_pre vars_compl .STATIC) semi_compl (fol := anyFol)
    (fun a b r _ hb _ => ⟨semi_in hb r, trivial⟩)) ?_
  rintro b ⟨e, t, rfl, h2, h3⟩
  exact ⟨(e, t), rfl, ⟨h2, h3⟩, rfl, fun _ h => h⟩
theorem consts_compl : Compl constsP Line.toks (fun l => ∃ es, l = .const es ∧ Exprs es) anyFol := by
  have h1 := compl_post (compl_sep (compl_pre (compl_pre expr_compl .ASSIGN) .STRING) .COMMA
    (fun _ r _ => exprEnds_stop (r := .COMMA :: r) rfl)) .SEMICOLON
    (fun a r _ => ⟨rfl, fun _ _ => exprEnds_stop (r := .SEMICOLON :: r) rfl⟩)
  refine compl_map (compl_pre h1 .CONST) ?_
  rintro b ⟨e, rfl, h2⟩
  exact ⟨e, rfl, h2, rfl, fun _ h => h⟩
theorem useItem_head {u : UseItem} (h : u.Ok) : In [.BACKSLASH, .STRING] u.toks := by
  obtain ⟨r, hr⟩ := idents_head h.1 .BACKSLASH
  unfold UseItem.toks flagTxt
  split
  · rfl
  · simp only [sepTrailTxt, hr]; rfl
theorem use_compl : Compl useP Line.toks (fun l => ∃ k us, l = .use k us ∧ (Line.use k us).Ok) anyFol := by
  have h1 := compl_post (compl_sep useItem_compl .COMMA (fun _ r _ => rfl)) .SEMICOLON (fun a r _ => ⟨rfl, fun _ _ => rfl⟩)
  have h2 := compl_pre (compl_andThen kind_compl h1 (fol := anyFol) (fun a b r _ hb _ => ⟨(by
    have := sepTxt_head (k := .COMMA) hb.1 fun u hu => useItem_head (hb.2 u hu)
    obtain ⟨t, r', he, ht⟩ := in_of this
    simp only [he, List.cons_append]
    simp only [List.contains_eq_mem, decide_eq_true_eq, List.mem_cons, List.not_mem_nil, or_false] at ht
    rcases ht with rfl | rfl <;> rfl), trivial⟩)) .USE
  rintro b r ⟨k, us, rfl, h3, h4, h5, h6⟩ -
  have h7 := h2 (k, us) r ⟨h3, h4, h5⟩ trivial
  have h8 := (mixed_iff k us).2 h6
  have he : (Line.use k us).toks ++ r = (Tok.USE :: (kindTxt k ++ (sepTxt .COMMA UseItem.toks us ++ [.SEMICOLON]))) ++ r := rfl
  rw [he]
  simp only [useP, h7, Option.bind_eq_bind, Option.bind_some, h8, Bool.false_eq_true, if_false]

theorem line_compl : Compl lineP Line.toks Line.Ok anyFol := by
  intro l r h _
  cases l with
  | bare k =>
    rcases h with rfl | rfl | rfl | rfl <;> rfl
  | expr e t =>
    obtain ⟨h1, h2⟩ := h
    have hn : ∀ {ks : List Tok}, (∀ k ∈ ks, keyToks.contains k = true) → headIn ks ((Line.expr e t).toks ++ r) = false := by
      intro ks hks
      have := expr_notIn h1 ([t] ++ r) (ks := ks) fun t ht => key_sub (start_notKey ht) hks
      simpa [Line.toks, NotIn] using this
    have hl : isLabel ((Line.expr e t).toks ++ r) = false := by
      simp only [Line.toks, List.append_assoc, List.singleton_append]
      exact expr_notLabel h1 (by rcases h2 with rfl | rfl <;> decide) r
    simp only [lineP, hl, hn (ks := bareToks) (by decide), hn (ks := [.UNSET]) (by decide), hn (ks := jumpToks) (by decide),
      hn (ks := needToks) (by decide), hn (ks := [.GLOBAL]) (by decide), hn (ks := [.STATIC]) (by decide),
      hn (ks := [.ECHO]) (by decide), hn (ks := [.CONST]) (by decide), hn (ks := [.USE]) (by decide),
      hn (ks := [.GOTO]) (by decide), Bool.false_eq_true, if_false]
    exact exprLine_compl _ r ⟨e, t, rfl, h1, h2⟩ trivial
  | word k e t =>
    obtain ⟨h1, h2, h3⟩ := h
    have hk : jumpToks.contains k = true := by rcases h1 with rfl | rfl | rfl <;> rfl
    have : lineP ((Line.word k e t).toks ++ r) = jumpP ((Line.word k e t).toks ++ r) := by
      rcases h1 with rfl | rfl | rfl <;> rfl
    rw [this]
    exact jump_compl _ r ⟨k, e, t, rfl, hk, h2, h3⟩ trivial
  | need k e t =>
    obtain ⟨h1, h2, h3⟩ := h
    have hk : needToks.contains k = true := by rcases h1 with rfl | rfl <;> rfl
    have : lineP ((Line.need k e t).toks ++ r) = needP ((Line.need k e t).toks ++ r) := by
      rcases h1 with rfl | rfl <;> rfl
    rw [this]
    exact need_compl _ r ⟨k, e, t, rfl, hk, h2, h3⟩ trivial
  | echo es t => exact echo_compl _ r ⟨es, t, rfl, h.1, h.2⟩ trivial
  | unset es t => exact unset_compl _ r ⟨es, t, rfl, h.1, h.2⟩ trivial
  | global es t => exact global_compl _ r ⟨es, t, rfl, h.1, h.2⟩ trivial
  | static es t => exact static_compl _ r ⟨es, t, rfl, h.1, h.2⟩ trivial
  | const es => exact consts_compl _ r ⟨es, rfl, h⟩ trivial
  | use k es => exact use_compl _ r ⟨k, es, rfl, h⟩ trivial
  | goto => rfl
  | label => rfl

end KPhp.Stmt
