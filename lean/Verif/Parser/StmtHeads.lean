import Verif.Parser.StmtLines
/-
# Heads of loops, functions and classes; members of classes

Models the rules of parser/php.g for what stands in front of the bodies of loops, functions and classes, and for the members of
classes that have no body (php.g:697-708, 810-828, 938-941, 1056-1098, 1116-1180).
-/
namespace KPhp.Stmt
set_option linter.unusedVariables false
set_option linter.unusedSectionVars false
set_option linter.unusedSimpArgs false
open KPhp (Tok)
open KPhp.Grammar (headIn E Fits Closures reservedNonModifiers modifierWords semiReserved)
variable [Closures]

/-! ## Loops -/

inductive Head
  | while_ (c : E)
  | for_ (a b c : List E)
  /-- `foreach ($src as &$v => &$w)` -/
  | foreach (src : E) (ref : Bool) (v : E) (second : Option (Bool × E))
  /-- `declare(ticks=1)`: the values -/
  | declare (vs : List Sc)
deriving DecidableEq, Repr

/-- an expression in parentheses -/
def parenP : P E := pre .LPAREN (post exprP .RPAREN)
/-- php.g:827-828 (`forExpr`) -/
def forExprP (ends : Tok) : P (List E) := mapP (fun o => o.getD []) (untilP [ends] (sep .COMMA exprP))
/-- php.g:813-814 (`foreachVariable`) -/
def foreachVarP : P (Bool × E) := andThen (flag .BIT_AND) varP
/-- php.g:702-705: first with a variable in front, then with any expression -/
def foreachFirstP : P (E × Bool × E) := fun ts =>
  match andThen (post varP .AS) foreachVarP ts with
  | some x => some x
  | none => mapP (fun x => (x.1, false, x.2)) (andThen (post exprP .AS) varP) ts
def whileHeadP : P Head := mapP .while_ (pre .WHILE parenP)                                                          -- :697
/-- php.g:698-699 -/
def forHeadP : P Head :=
  mapP (fun x => .for_ x.1 x.2.1 x.2.2) (pre .FOR (pre .LPAREN (andThen (post (forExprP .SEMICOLON) .SEMICOLON)
    (andThen (post (forExprP .SEMICOLON) .SEMICOLON) (post (forExprP .RPAREN) .RPAREN)))))
/-- php.g:702-706 -/
def foreachHeadP : P Head :=
  mapP (fun x => .foreach x.1.1 x.1.2.1 x.1.2.2 x.2) (pre .FOREACH (pre .LPAREN (post (andThen foreachFirstP
    (opt [.DOUBLE_ARROW] (pre .DOUBLE_ARROW foreachVarP))) .RPAREN)))
/-- php.g:708, 810-811 -/
def declareHeadP : P Head :=
  mapP .declare (pre .DECLARE (pre .LPAREN (post (sep .COMMA (pre .STRING (pre .ASSIGN scP))) .RPAREN)))
/-- what stands in front of the body of a loop -/
def headP : P Head := fun ts =>
  if headIn [.WHILE] ts then whileHeadP ts
  else if headIn [.FOR] ts then forHeadP ts
  else if headIn [.FOREACH] ts then foreachHeadP ts
  else declareHeadP ts

/-- `:`…: the word behind the statements -/
def Head.endWord : Head → Tok
  | .while_ _ => .ENDWHILE | .for_ _ _ _ => .ENDFOR | .foreach _ _ _ _ => .ENDFOREACH | .declare _ => .ENDDECLARE

def foreachVarTxt (x : Bool × E) : List Tok := flagTxt .BIT_AND x.1 ++ x.2.toks
def parenTxt (c : E) : List Tok := .LPAREN :: (c.toks ++ [.RPAREN])
def Head.toks : Head → List Tok
  | .while_ c => .WHILE :: parenTxt c
  | .for_ a b c => .FOR :: .LPAREN :: (sepTxt .COMMA E.toks a ++ [.SEMICOLON] ++ (sepTxt .COMMA E.toks b ++ [.SEMICOLON] ++
      (sepTxt .COMMA E.toks c ++ [.RPAREN])))
  | .foreach s r v w => .FOREACH :: .LPAREN :: (s.toks ++ .AS :: foreachVarTxt (r, v) ++
      optTxt (fun x => .DOUBLE_ARROW :: foreachVarTxt x) w ++ [.RPAREN])
  | .declare l => .DECLARE :: .LPAREN :: (sepTxt .COMMA (fun s => .STRING :: .ASSIGN :: s.toks) l ++ [.RPAREN])
/-- only variables can be walked over by reference -/
def Head.Ok : Head → Prop
  | .while_ c => Fits (.lev 0) c
  | .for_ a b c => (∀ e ∈ a, Fits (.lev 0) e) ∧ (∀ e ∈ b, Fits (.lev 0) e) ∧ ∀ e ∈ c, Fits (.lev 0) e
  | .foreach s r v w => Fits (.lev 0) s ∧ (r = true → Fits (.path .vari) s) ∧ Fits (.path .vari) v ∧ ∀ x, w = some x → Fits (.path .vari) x.2
  | .declare l => l ≠ [] ∧ ∀ s ∈ l, ScFits .sc s

theorem paren_sound : Sound parenP parenTxt (Fits (.lev 0)) := sound_pre (sound_post expr_sound _) _
theorem paren_compl : Compl parenP parenTxt (Fits (.lev 0)) anyFol :=
  compl_pre (compl_post expr_compl .RPAREN (fun a r _ => exprEnds_stop (r := .RPAREN :: r) rfl)) .LPAREN

theorem forExpr_sound (t : Tok) : Sound (forExprP t) (sepTxt .COMMA E.toks) (fun l => ∀ e ∈ l, Fits (.lev 0) e) := by
  refine sound_map (until_sound exprs_sound _) fun o h => ?_
  cases o with
  | none => exact ⟨rfl, fun _ h => by cases h⟩
  | some l => exact ⟨rfl, (h l rfl).2⟩
theorem forExpr_compl {t : Tok} (ht : t = .SEMICOLON ∨ t = .RPAREN) :
    Compl (forExprP t) (sepTxt .COMMA E.toks) (fun l => ∀ e ∈ l, Fits (.lev 0) e) (fun _ r => In [t] r) := by
  have hk : ∀ k ∈ [t], keyToks.contains k = true := by rcases ht with rfl | rfl <;> decide
  have h1 := until_compl exprs_compl [t] (fun l r h => by
    obtain ⟨hn, ha⟩ := h
    cases l with
    | nil => exact absurd rfl hn
    | cons a l =>
      have oa := ha a (by simp)
      have key : ∀ r, NotIn [t] (a.toks ++ r) := fun r => expr_notIn oa r fun t' ht' => key_sub (start_notKey ht') hk
      cases l with
      | nil => rw [sepTxt]; exact key r
      | cons b l => rw [sepTxt, List.append_assoc]; exact key _)
  refine compl_map h1 ?_
  intro l hl
  cases l with
  | nil => exact ⟨none, rfl, (fun a h => by cases h), rfl, fun r h => ⟨h, fun a h => by cases h⟩⟩
  | cons e l =>
    refine ⟨some (e :: l), rfl, (fun a h => by cases h; exact ⟨List.cons_ne_nil _ _, hl⟩), rfl, fun r h => ⟨h, fun a _ => ?_⟩⟩
    obtain ⟨x, r', rfl, hx⟩ := in_of h
    have hx' : x = t := by simpa using hx
    subst hx'
    rcases ht with rfl | rfl <;> exact ⟨rfl, rfl⟩

theorem foreachVar_sound : Sound foreachVarP foreachVarTxt (fun x => Fits (.path .vari) x.2) :=
  (sound_andThen (sound_flag _) var_sound).weaken fun _ h => h.2
theorem foreachVar_compl : Compl foreachVarP foreachVarTxt (fun x => Fits (.path .vari) x.2) (fun _ r => In varEnds r) := by
  refine (compl_andThen (compl_flag .BIT_AND) var_compl (fol := fun _ r => In varEnds r) ?_).weaken (fun _ h => ⟨trivial, h⟩) (fun _ _ _ h => h)
  intro a b r _ hb hr
  refine ⟨fun _ => var_notIn hb r ?_, varEnds_stop hr _⟩
  decide

theorem foreachFirst_sound : Sound foreachFirstP (fun x => x.1.toks ++ .AS :: foreachVarTxt x.2)
    (fun x => Fits (.lev 0) x.1 ∧ (x.2.1 = true → Fits (.path .vari) x.1) ∧ Fits (.path .vari) x.2.2) := by
  intro ts a r h
  simp only [foreachFirstP] at h
  split at h
  · rename_i x hx
    cases h
    obtain ⟨h1, h2, h3⟩ := sound_andThen (sound_post var_sound .AS) foreachVar_sound ts a r hx
    exact ⟨by rw [h1]; simp, (Grammar.Fits.normal _ (.variable _ h2)).to (by omega), fun _ => h2, h3⟩
  · refine sound_map (sound_andThen (sound_post expr_sound .AS) var_sound) (f := fun x => (x.1, false, x.2))
      (txt' := fun x => x.1.toks ++ .AS :: foreachVarTxt x.2)
      (ok' := fun x => Fits (.lev 0) x.1 ∧ (x.2.1 = true → Fits (.path .vari) x.1) ∧ Fits (.path .vari) x.2.2) ?_ ts a r h
    rintro ⟨e, v⟩ ⟨h1, h2⟩
    exact ⟨by simp [foreachVarTxt, flagTxt], h1, fun h => (by cases h), h2⟩

theorem foreachFirst_compl : Compl foreachFirstP (fun x => x.1.toks ++ .AS :: foreachVarTxt x.2)
    (fun x => Fits (.lev 0) x.1 ∧ (x.2.1 = true → Fits (.path .vari) x.1) ∧ Fits (.path .vari) x.2.2) (fun _ r => In varEnds r) := by
  rintro ⟨s, ref, v⟩ r ⟨h1, h2, h3⟩ hr
  simp only at h1 h2 h3
  have hvar := compl_andThen (compl_post var_compl .AS (fun a r _ => varEnds_stop (r := .AS :: r) rfl _)) foreachVar_compl
    (fol := fun _ r => In varEnds r) (fun a b r _ _ hr => ⟨trivial, hr⟩)
  by_cases hv : Fits (.path .vari) s
  · have := hvar (s, ref, v) r ⟨hv, h3⟩ hr
    simp only [List.append_assoc, List.singleton_append, List.cons_append] at this
    simp only [List.nil_append] at this
    simp only [foreachFirstP, List.append_assoc, List.cons_append, this]
  · have href : ref = false := by
      cases ref with
      | false => rfl
      | true => exact absurd (h2 rfl) hv
    subst href
    have hnone : andThen (post varP .AS) foreachVarP (s.toks ++ .AS :: foreachVarTxt (false, v) ++ r) = none := by
      cases hx : andThen (post varP .AS) foreachVarP (s.toks ++ .AS :: foreachVarTxt (false, v) ++ r) with
      | none => rfl
      | some x =>
        exfalso
        obtain ⟨⟨s', x'⟩, r'⟩ := x
        obtain ⟨e1, o1, o2⟩ := sound_andThen (sound_post var_sound .AS) foreachVar_sound _ _ _ hx
        simp only [List.append_assoc, List.singleton_append, List.cons_append, List.nil_append] at e1
        have c1 := expr_compl s _ h1 (exprEnds_stop (r := .AS :: (foreachVarTxt (false, v) ++ r)) rfl)
        have c2 := expr_compl s' _ ((Grammar.Fits.normal _ (.variable _ o1)).to (by omega)) (exprEnds_stop (r := .AS :: (foreachVarTxt x' ++ r')) rfl)
        rw [e1, c2] at c1
        injection c1 with c1
        injection c1 with c3 _
        subst c3
        exact hv o1
    simp only [foreachFirstP, hnone]
    have h4 := compl_andThen (compl_post expr_compl .AS (fun a r _ => exprEnds_stop (r := .AS :: r) rfl)) var_compl
      (fol := fun _ r => In varEnds r) (fun a b r _ _ hr => ⟨trivial, varEnds_stop hr _⟩) (s, v) r ⟨h1, h3⟩ hr
    have := mapP_some (f := fun x : E × E => (x.1, false, x.2)) h4
    simpa [foreachVarTxt, flagTxt] using this

theorem head_sound : Sound headP Head.toks Head.Ok := by
  have hw : Sound whileHeadP Head.toks Head.Ok := sound_map (sound_pre paren_sound _) fun a h => ⟨rfl, h⟩
  have hf : Sound forHeadP Head.toks Head.Ok :=
    sound_map (sound_pre (sound_pre (sound_andThen (sound_post (forExpr_sound _) _) (sound_andThen (sound_post (forExpr_sound _) _)
      (sound_post (forExpr_sound _) _))) _) _) fun a h => ⟨rfl, h.1, h.2.1, h.2.2⟩
  have he : Sound foreachHeadP Head.toks Head.Ok :=
    sound_map (sound_pre (sound_pre (sound_post (sound_andThen foreachFirst_sound (sound_opt (sound_pre foreachVar_sound _) _)) _) _) _)
      fun a h => ⟨rfl, h.1.1, h.1.2.1, h.1.2.2, h.2⟩
  have hd : Sound declareHeadP Head.toks Head.Ok :=
    sound_map (sound_pre (sound_pre (sound_post (sound_sep (sound_pre (sound_pre scP_sound _) _) _) _) _) _) fun a h => ⟨rfl, h⟩
  intro ts a r h
  simp only [headP] at h
  split at h
  · exact hw ts a r h
  split at h
  · exact hf ts a r h
  split at h
  · exact he ts a r h
  · exact hd ts a r h

theorem head_compl : Compl headP Head.toks Head.Ok anyFol := by
  intro l r h _
  cases l with
  | while_ c =>
    have : whileHeadP ((Head.while_ c).toks ++ r) = some (.while_ c, r) := mapP_some (compl_pre paren_compl .WHILE c r h trivial)
    exact this
  | for_ a b c =>
    have h3 := compl_post (forExpr_compl (.inr rfl)) .RPAREN (fun a r _ => rfl)
    have h2 := compl_post (forExpr_compl (.inl rfl)) .SEMICOLON (fun a r _ => rfl)
    have h1 := compl_andThen h2 (compl_andThen h2 h3 (fol := anyFol) (fun _ _ _ _ _ _ => ⟨trivial, trivial⟩)) (fol := anyFol)
      (fun _ _ _ _ _ _ => ⟨trivial, trivial⟩)
    have : forHeadP ((Head.for_ a b c).toks ++ r) = some (.for_ a b c, r) :=
      mapP_some (compl_pre (compl_pre h1 .LPAREN) .FOR (a, b, c) r ⟨h.1, h.2.1, h.2.2⟩ trivial)
    exact this
  | foreach s ref v w =>
    obtain ⟨o1, o2, o3, o4⟩ := h
    have h1 := compl_andThen foreachFirst_compl
      (compl_opt (compl_pre foreachVar_compl .DOUBLE_ARROW) [.DOUBLE_ARROW] (fun _ _ => rfl)) (fol := fun _ r => In [.RPAREN] r)
      (fun a b r _ _ hr => by
        obtain ⟨t, r', rfl, ht⟩ := in_of hr
        have ht' : t = .RPAREN := by simpa using ht
        subst ht'
        refine ⟨?_, fun _ => rfl, fun _ _ => rfl⟩
        cases b with
        | none => rfl
        | some b => rfl)
    have : foreachHeadP ((Head.foreach s ref v w).toks ++ r) = some (.foreach s ref v w, r) :=
      mapP_some (compl_pre (compl_pre (compl_post h1 .RPAREN (fun _ _ _ => rfl)) .LPAREN) .FOREACH ((s, ref, v), w) r
        ⟨⟨o1, o2, o3⟩, o4⟩ trivial)
    exact this
  | declare l =>
    have h1 := compl_post (compl_sep (compl_pre (compl_pre scP_compl .ASSIGN) .STRING) .COMMA (fun _ _ _ => rfl)) .RPAREN
      (fun a r _ => ⟨rfl, fun _ _ => rfl⟩)
    have : declareHeadP ((Head.declare l).toks ++ r) = some (.declare l, r) :=
      mapP_some (compl_pre (compl_pre h1 .LPAREN) .DECLARE l r h trivial)
    exact this

/-! ## Functions -/

structure FHead where
  ref : Bool
  name : Tok
  params : Params
  ret : Option (List Hint)
deriving DecidableEq, Repr

/-- php.g:938-939, 1119-1120: from `function` up to the body; functions have names, methods may be named like a keyword -/
def fheadP (names : List Tok) : P FHead :=
  mapP (fun x => ⟨x.1, x.2.1, x.2.2.1, x.2.2.2⟩)
    (pre .FUNCTION (andThen (flag .BIT_AND) (andThen (oneOf names) (andThen (pre .LPAREN (post paramsP .RPAREN))
      (opt [.COLON] (pre .COLON (hintsP returnWords)))))))
def FHead.toks (f : FHead) : List Tok :=
  .FUNCTION :: (flagTxt .BIT_AND f.ref ++ ([f.name] ++ ((.LPAREN :: (paramsTxt f.params ++ [.RPAREN])) ++
    optTxt (fun h => .COLON :: hintsTxt h) f.ret)))
def FHead.Ok (names : List Tok) (f : FHead) : Prop :=
  f.name ∈ names ∧ ParamsOk f.params ∧ ∀ h, f.ret = some h → Hints returnWords h

theorem fhead_sound (names : List Tok) : Sound (fheadP names) FHead.toks (FHead.Ok names) :=
  sound_map (sound_pre (sound_andThen (sound_flag _) (sound_andThen (sound_oneOf _) (sound_andThen
    (sound_pre (sound_post params_sound _) _) (sound_opt (sound_pre (hints_sound _) _) _)))) _)
    fun a h => ⟨rfl, by simpa using h.2.1, h.2.2.1, h.2.2.2⟩
theorem fhead_compl {names : List Tok} (hn : Tok.BIT_AND ∉ names) :
    Compl (fheadP names) FHead.toks (FHead.Ok names) (fun _ r => In [.LBRACE, .SEMICOLON] r) := by
  have h1 : Compl (opt [.COLON] (pre .COLON (hintsP returnWords))) (optTxt fun h => .COLON :: hintsTxt h)
      (fun o => ∀ h, o = some h → Hints returnWords h) (fun _ r => In [.LBRACE, .SEMICOLON] r) :=
    (compl_opt (compl_pre (hints_compl words_return) .COLON) [.COLON] (fun _ _ => rfl)).weaken (fun _ h => h) (by
      intro a r _ hr
      obtain ⟨t, r', rfl, ht⟩ := in_of hr
      simp only [List.contains_eq_mem, decide_eq_true_eq, List.mem_cons, List.not_mem_nil, or_false] at ht
      rcases ht with rfl | rfl <;> exact ⟨fun _ => rfl, fun _ _ => rfl⟩)
  have h2 := compl_andThen (compl_pre (compl_post params_compl .RPAREN (fun _ _ _ => rfl)) .LPAREN) h1
    (fol := fun _ r => In [.LBRACE, .SEMICOLON] r) (fun _ _ _ _ _ h => ⟨trivial, h⟩)
  have h3 := compl_andThen (compl_oneOf names) h2 (fol := fun _ r => In [.LBRACE, .SEMICOLON] r) (fun _ _ _ _ _ h => ⟨trivial, h⟩)
  have h4 := compl_andThen (compl_flag .BIT_AND) h3 (fol := fun _ r => In [.LBRACE, .SEMICOLON] r) (by
    rintro a ⟨n, b⟩ r _ ⟨hb, _⟩ h
    refine ⟨fun _ => ?_, h⟩
    show [Tok.BIT_AND].contains n = false
    cases hc : [Tok.BIT_AND].contains n
    · rfl
    · have : n = .BIT_AND := by simpa using hc
      subst this
      exact absurd (by simpa using hb) hn)
  refine compl_map (compl_pre h4 .FUNCTION) ?_
  rintro ⟨a, n, p, ret⟩ ⟨o1, o2, o3⟩
  exact ⟨(a, n, p, ret), rfl, ⟨trivial, by simpa using o1, o2, o3⟩, rfl, fun _ h => h⟩

/-! ## Classes -/

inductive CHead
  | cls (modifier : Option Tok) (ext : Option Name) (impl : Option (List Name))
  | trait
  | interface (ext : Option (List Name))
deriving DecidableEq, Repr

/-- php.g:1088-1098 -/
def clsHeadP : P CHead :=
  mapP (fun x => .cls x.1 x.2.1 x.2.2) (andThen (opt [.ABSTRACT, .FINAL] (oneOf [.ABSTRACT, .FINAL])) (pre .CLASS (pre .STRING
    (andThen (opt [.EXTENDS] (pre .EXTENDS nameP)) (opt [.IMPLEMENTS] (pre .IMPLEMENTS (sep .COMMA nameP)))))))
/-- php.g:1084-1086 -/
def traitHeadP : P CHead := mapP (fun _ => .trait) (pre .TRAIT identP)
/-- php.g:1080-1082 -/
def interfaceHeadP : P CHead := mapP .interface (pre .INTERFACE (pre .STRING (opt [.EXTENDS] (pre .EXTENDS (sep .COMMA nameP)))))
def cheadP : P CHead := fun ts =>
  if headIn [.TRAIT] ts then traitHeadP ts else if headIn [.INTERFACE] ts then interfaceHeadP ts else clsHeadP ts

def CHead.toks : CHead → List Tok
  | .cls m e i => optTxt tokTxt m ++ (.CLASS :: .STRING :: (optTxt (fun n => .EXTENDS :: n.toks) e ++
      optTxt (fun l => .IMPLEMENTS :: sepTxt .COMMA Name.toks l) i))
  | .trait => [.TRAIT, .STRING]
  | .interface e => .INTERFACE :: .STRING :: optTxt (fun l => .EXTENDS :: sepTxt .COMMA Name.toks l) e
def CHead.Ok : CHead → Prop
  | .cls m e i => (∀ k, m = some k → k = .ABSTRACT ∨ k = .FINAL) ∧ (∀ n, e = some n → n.Ok) ∧ ∀ l, i = some l → Names l
  | .trait => True
  | .interface e => ∀ l, e = some l → Names l

theorem chead_sound : Sound cheadP CHead.toks CHead.Ok := by
  have h1 : Sound clsHeadP CHead.toks CHead.Ok :=
    sound_map (sound_andThen (sound_opt (sound_oneOf _) _) (sound_pre (sound_pre (sound_andThen (sound_opt (sound_pre name_sound _) _)
      (sound_opt (sound_pre (names_sound _) _) _)) _) _))
      fun a h => ⟨rfl, fun k hk => by simpa using h.1 k hk, h.2.1, h.2.2⟩
  have h2 : Sound traitHeadP CHead.toks CHead.Ok := sound_map (sound_pre ident_sound _) fun a h => ⟨by rw [h]; rfl, trivial⟩
  have h3 : Sound interfaceHeadP CHead.toks CHead.Ok :=
    sound_map (sound_pre (sound_pre (sound_opt (sound_pre (names_sound _) _) _) _) _) fun a h => ⟨rfl, h⟩
  intro ts a r h
  simp only [cheadP] at h
  split at h
  · exact h2 ts a r h
  split at h
  · exact h3 ts a r h
  · exact h1 ts a r h

theorem chead_compl : Compl cheadP CHead.toks CHead.Ok (fun _ r => In [.LBRACE] r) := by
  have hn (k : Tok) (hk : k = .EXTENDS ∨ k = .IMPLEMENTS) : Compl (opt [k] (pre k (sep .COMMA nameP)))
      (optTxt (fun l => k :: sepTxt .COMMA Name.toks l))
      (fun o => ∀ l, o = some l → Names l) (fun _ r => In [.LBRACE] r) :=
    (compl_opt (compl_pre (names_compl .COMMA (by decide)) k) [k] (fun _ _ => by simp [In, headIn])).weaken (fun _ h => h) (by
      intro a r _ hr
      obtain ⟨t, r', rfl, ht⟩ := in_of hr
      have ht' : t = .LBRACE := by simpa using ht
      subst ht'
      exact ⟨fun _ => by rcases hk with rfl | rfl <;> rfl, fun _ _ => rfl⟩)
  intro c r h hr
  cases c with
  | trait => rfl
  | interface e =>
    have : interfaceHeadP ((CHead.interface e).toks ++ r) = some (.interface e, r) :=
      mapP_some (compl_pre (compl_pre (hn .EXTENDS (.inl rfl)) .STRING) .INTERFACE e r h hr)
    exact this
  | cls m e i =>
    obtain ⟨o1, o2, o3⟩ := h
    have h1 := compl_andThen (compl_opt (compl_pre name_compl .EXTENDS) [.EXTENDS] (fun _ _ => rfl)) (hn .IMPLEMENTS (.inr rfl))
      (fol := fun _ r => In [.LBRACE] r) (fun a b r _ _ hr => by
        obtain ⟨t, r', rfl, ht⟩ := in_of hr
        have ht' : t = .LBRACE := by simpa using ht
        subst ht'
        refine ⟨⟨fun _ => ?_, fun _ _ => ?_⟩, hr⟩ <;> cases b <;> rfl)
    have h2 := compl_andThen (compl_opt (compl_oneOf [.ABSTRACT, .FINAL]) [.ABSTRACT, .FINAL] (fun a h => h))
      (compl_pre (compl_pre h1 .STRING) .CLASS) (fol := fun _ r => In [.LBRACE] r)
      (fun a b r _ _ hr => ⟨⟨fun _ => rfl, fun _ _ => trivial⟩, hr⟩) (m, e, i) r ⟨fun k hk => by simpa using o1 k hk, o2, o3⟩ hr
    have : clsHeadP ((CHead.cls m e i).toks ++ r) = some (.cls m e i, r) := mapP_some h2
    cases m with
    | none => exact this
    | some k => rcases o1 k rfl with rfl | rfl <;> exact this

/-! ## Members of classes -/

/-- what is said about a method of a trait: `as x`, `as public x`, `insteadof A, B` -/
inductive AWhat
  | as1 (t : Tok)
  | as2 (m t : Tok)
  | instead (l : List Name)
deriving DecidableEq, Repr
structure Alias where
  name : Name
  method : Tok
  what : AWhat
deriving DecidableEq, Repr

inductive Member
  | var_ (vs : List (Option Sc))
  | prop (mods : List Tok) (hint : Option (List Hint)) (vs : List (Option Sc))
  | const (mods : List Tok) (cs : List (Tok × E))
  | use (traits : List Name) (imports : Option (List Alias × Bool))
  /-- the head of a method -/
  | func (mods : List Tok) (f : FHead)
deriving DecidableEq, Repr

/-- php.g:1056-1066: names that are no modifiers -/
def nonModifiers : List Tok := .STRING :: reservedNonModifiers
/-- php.g:1134-1138: which alternative follows `as` is decided by the token after the next one -/
def whatP : P AWhat := fun ts =>
  if headIn [.AS] ts then
    if headIn [.SEMICOLON] ts.tail.tail then mapP .as1 (pre .AS (oneOf (modifierWords ++ nonModifiers))) ts
    else mapP (fun x => .as2 x.1 x.2) (pre .AS (andThen (oneOf modifierWords) (oneOf semiReserved))) ts
  else mapP .instead (pre .INSTEADOF (sep .COMMA nameP)) ts
/-- php.g:1131-1143 -/
def aliasStmtP : P Alias :=
  mapP (fun x => ⟨x.1, x.2.1, x.2.2⟩) (andThen (post nameP .PAAMAYIM_NEKUDOTAYIM) (andThen (oneOf semiReserved) whatP))
/-- php.g:1127-1129 -/
def importsP : P (List Alias × Bool) := pre .LBRACE (post (sepTrail .SEMICOLON .RBRACE aliasStmtP) .RBRACE)
/-- `(imports=traitAliasDeclaration | SEMICOLON)` -/
def useEndP : P (Option (List Alias × Bool)) := fun ts =>
  if headIn [.LBRACE] ts then mapP some importsP ts else mapP (fun _ => none) (oneOf [.SEMICOLON]) ts
/-- php.g:1165-1174: `optionalModifiers` -/
def modsP : P (List Tok) := many modifierWords (oneOf modifierWords)

/-- php.g:1116 -/
def varMemberP : P Member := mapP .var_ (pre .VAR (post varsP .SEMICOLON))
/-- php.g:1124 -/
def useMemberP : P Member := mapP (fun x => .use x.1 x.2) (pre .USE (andThen (sep .COMMA nameP) useEndP))
/-- php.g:1117-1123 -/
def modMemberP : P Member := fun ts => do
  let (mods, ts) ← modsP ts
  if headIn [.FUNCTION] ts then mapP (.func mods) (fheadP semiReserved) ts
  else if headIn [.CONST] ts then
    mapP (.const mods) (pre .CONST (post (sep .COMMA (andThen (oneOf semiReserved) (pre .ASSIGN exprP))) .SEMICOLON)) ts
  else mapP (fun x => .prop mods x.1 x.2) (andThen (opt (hintFirst propertyWords) (hintsP propertyWords)) (post varsP .SEMICOLON)) ts
/-- php.g:1116-1125 (`classStatement`), without the body of a method -/
def memberP : P Member := fun ts =>
  if headIn [.VAR] ts then varMemberP ts else if headIn [.USE] ts then useMemberP ts else modMemberP ts

def AWhat.toks : AWhat → List Tok
  | .as1 t => [.AS, t]
  | .as2 m t => [.AS, m, t]
  | .instead l => .INSTEADOF :: sepTxt .COMMA Name.toks l
def Alias.toks (a : Alias) : List Tok := a.name.toks ++ [.PAAMAYIM_NEKUDOTAYIM] ++ ([a.method] ++ a.what.toks)
def useEndTxt : Option (List Alias × Bool) → List Tok
  | none => [.SEMICOLON]
  | some x => .LBRACE :: (sepTrailTxt .SEMICOLON Alias.toks x ++ [.RBRACE])
def Member.toks : Member → List Tok
  | .var_ l => .VAR :: (varsTxt l ++ [.SEMICOLON])
  | .prop m h l => manyTxt tokTxt m ++ (optTxt hintsTxt h ++ (varsTxt l ++ [.SEMICOLON]))
  | .const m l => manyTxt tokTxt m ++ (.CONST :: (sepTxt .COMMA (fun x => [x.1] ++ .ASSIGN :: x.2.toks) l ++ [.SEMICOLON]))
  | .use l x => .USE :: (sepTxt .COMMA Name.toks l ++ useEndTxt x)
  | .func m f => manyTxt tokTxt m ++ f.toks

def AWhat.Ok : AWhat → Prop
  | .as1 t => t ∈ modifierWords ∨ t ∈ nonModifiers
  | .as2 m t => m ∈ modifierWords ∧ t ∈ semiReserved
  | .instead l => Names l
def Alias.Ok (a : Alias) : Prop := a.name.Ok ∧ a.method ∈ semiReserved ∧ a.what.Ok
/-- `as x` needs a semicolon behind it -/
def ImportsOk (x : List Alias × Bool) : Prop :=
  x.1 ≠ [] ∧ (∀ a ∈ x.1, a.Ok) ∧ (x.2 = false → ∀ a, x.1.getLast? = some a → ∀ t, a.what ≠ .as1 t)
def Mods (l : List Tok) : Prop := ∀ m ∈ l, m ∈ modifierWords
def Member.Ok : Member → Prop
  | .var_ l => VarsOk l
  | .prop m h l => Mods m ∧ (∀ x, h = some x → Hints propertyWords x) ∧ VarsOk l
  | .const m l => Mods m ∧ l ≠ [] ∧ ∀ x ∈ l, x.1 ∈ semiReserved ∧ Fits (.lev 0) x.2
  | .use l x => Names l ∧ ∀ i, x = some i → ImportsOk i
  | .func m f => Mods m ∧ f.Ok semiReserved
/-- the head of a method, and no other member -/
def Member.isFunc : Member → Bool
  | .func _ _ => true
  | _ => false

theorem what_sound : Sound whatP AWhat.toks AWhat.Ok := by
  have h1 : Sound (mapP .as1 (pre .AS (oneOf (modifierWords ++ nonModifiers)))) AWhat.toks AWhat.Ok :=
    sound_map (sound_pre (sound_oneOf _) _) fun a h => ⟨rfl, by simpa [AWhat.Ok] using h⟩
  have h2 : Sound (mapP (fun x => .as2 x.1 x.2) (pre .AS (andThen (oneOf modifierWords) (oneOf semiReserved)))) AWhat.toks AWhat.Ok :=
    sound_map (sound_pre (sound_andThen (sound_oneOf _) (sound_oneOf _)) _) fun a h => ⟨rfl, by simpa [AWhat.Ok] using h⟩
  have h3 : Sound (mapP .instead (pre .INSTEADOF (sep .COMMA nameP))) AWhat.toks AWhat.Ok :=
    sound_map (sound_pre (names_sound _) _) fun a h => ⟨rfl, h⟩
  intro ts a r h
  simp only [whatP] at h
  split at h
  · split at h
    · exact h1 ts a r h
    · exact h2 ts a r h
  · exact h3 ts a r h
theorem what_as1 {ts r : List Tok} {t : Tok} (h : whatP ts = some (.as1 t, r)) : In [.SEMICOLON] r := by
  simp only [whatP] at h
  split at h
  · split at h
    · rename_i h1 h2
      obtain ⟨e, _⟩ := sound_map (sound_pre (sound_oneOf (modifierWords ++ nonModifiers)) .AS) (f := AWhat.as1) (txt' := AWhat.toks)
        (ok' := fun _ => True) (fun a h => ⟨rfl, trivial⟩) ts _ r h
      rw [e] at h2
      exact h2
    · simp only [mapP, Option.map_eq_some_iff] at h
      obtain ⟨x, -, he⟩ := h
      cases he
  · simp only [mapP, Option.map_eq_some_iff] at h
    obtain ⟨x, -, he⟩ := h
    cases he

def AWhat.fol : AWhat → List Tok → Prop
  | .as1 _, r => In [.SEMICOLON] r
  | .as2 _ _, _ => True
  | .instead _, r => NotIn [.COMMA, .BACKSLASH] r
theorem what_compl : Compl whatP AWhat.toks AWhat.Ok AWhat.fol := by
  intro w r h hr
  cases w with
  | as1 t =>
    have h1 : headIn [.AS] ((AWhat.as1 t).toks ++ r) = true := rfl
    have h2 : headIn [.SEMICOLON] ((AWhat.as1 t).toks ++ r).tail.tail = true := hr
    have h3 := mapP_some (f := AWhat.as1) (compl_pre (compl_oneOf (modifierWords ++ nonModifiers)) .AS t r (by simpa [AWhat.Ok] using h) trivial)
    simp only [whatP, h1, h2, if_true]
    exact h3
  | as2 m t =>
    obtain ⟨hm, ht⟩ := h
    have h1 : headIn [.AS] ((AWhat.as2 m t).toks ++ r) = true := rfl
    have h2 : headIn [.SEMICOLON] ((AWhat.as2 m t).toks ++ r).tail.tail = false := by
      show [Tok.SEMICOLON].contains t = false
      cases hc : [Tok.SEMICOLON].contains t
      · rfl
      · have : t = .SEMICOLON := by simpa using hc
        subst this
        revert ht; decide
    have h3 := mapP_some (f := fun x : Tok × Tok => AWhat.as2 x.1 x.2)
      (compl_pre (compl_andThen (compl_oneOf modifierWords) (compl_oneOf semiReserved) (fol := anyFol)
        (fun _ _ _ _ _ _ => ⟨trivial, trivial⟩)) .AS (m, t) r ⟨by simpa using hm, by simpa using ht⟩ trivial)
    simp only [whatP, h1, h2, if_true, Bool.false_eq_true, if_false]
    exact h3
  | instead l =>
    have h1 : headIn [.AS] ((AWhat.instead l).toks ++ r) = false := rfl
    simp only [whatP, h1, Bool.false_eq_true, if_false]
    exact mapP_some (compl_pre (names_compl .COMMA (by decide)) .INSTEADOF l r h hr)

theorem aliasStmt_sound : Sound aliasStmtP Alias.toks Alias.Ok :=
  sound_map (sound_andThen (sound_post name_sound _) (sound_andThen (sound_oneOf _) what_sound))
    fun a h => ⟨rfl, h.1, by simpa using h.2.1, h.2.2⟩
theorem aliasStmt_as1 {ts r : List Tok} {a : Alias} {t : Tok} (h : aliasStmtP ts = some (a, r)) (ha : a.what = .as1 t) :
    In [.SEMICOLON] r := by
  simp only [aliasStmtP, mapP, Option.map_eq_some_iff, andThen, Option.bind_eq_bind, Option.bind_eq_some_iff, Option.pure_def,
    Option.some.injEq] at h
  obtain ⟨⟨x, r0⟩, ⟨⟨n, r1⟩, -, ⟨y, r4⟩, ⟨⟨m, r2⟩, -, ⟨w, r3⟩, h3, he⟩, he'⟩, he''⟩ := h
  cases he; cases he'; cases he''
  simp only at ha
  subst ha
  exact what_as1 h3
theorem aliasStmt_compl : Compl aliasStmtP Alias.toks Alias.Ok (fun a r => a.what.fol r) := by
  have h1 := compl_andThen (compl_oneOf semiReserved) what_compl (fol := fun x r => x.2.fol r) (fun _ _ _ _ _ h => ⟨trivial, h⟩)
  have h2 := compl_andThen (compl_post name_compl .PAAMAYIM_NEKUDOTAYIM (fun _ _ _ => rfl)) h1 (fol := fun x r => x.2.2.fol r)
    (fun _ _ _ _ _ h => ⟨trivial, h⟩)
  refine compl_map h2 ?_
  rintro ⟨n, m, w⟩ ⟨o1, o2, o3⟩
  exact ⟨(n, m, w), rfl, ⟨o1, by simpa using o2, o3⟩, rfl, fun _ h => h⟩

theorem imports_sound : Sound importsP (fun x => .LBRACE :: (sepTrailTxt .SEMICOLON Alias.toks x ++ [.RBRACE])) ImportsOk := by
  intro ts x r h
  have h1 := sound_pre (sound_post (sound_sepTrail aliasStmt_sound .SEMICOLON .RBRACE) .RBRACE) .LBRACE ts x r h
  refine ⟨h1.1, h1.2.1, h1.2.2, ?_⟩
  intro hb a ha t hw
  obtain ⟨l, b⟩ := x
  simp only at hb ha
  subst hb
  simp only [importsP, pre, post, Option.bind_eq_bind, Option.bind_eq_some_iff, Option.pure_def, Option.some.injEq] at h
  obtain ⟨r1, -, ⟨y, r2⟩, h2, r3, -, he⟩ := h
  cases he
  obtain ⟨ts', a', hl, hp, hn⟩ := sepTrail_last h2
  rw [ha] at hl
  cases hl
  have := aliasStmt_as1 hp hw
  rw [NotIn, this] at hn
  cases hn
theorem name_notIn {n : Name} (h : n.Ok) (r : List Tok) {ks : List Tok} (hk : ks.contains .BACKSLASH = false) (hk' : ks.contains .STRING = false) :
    NotIn ks (n.toks ++ r) := by
  obtain ⟨t, r', he, ht⟩ := in_of (name_head h)
  rw [he]
  simp only [List.contains_eq_mem, decide_eq_true_eq, List.mem_cons, List.not_mem_nil, or_false] at ht
  rcases ht with rfl | rfl
  · exact hk
  · exact hk'
theorem imports_compl : Compl importsP (fun x => .LBRACE :: (sepTrailTxt .SEMICOLON Alias.toks x ++ [.RBRACE])) ImportsOk anyFol := by
  have h1 := compl_sepTrail aliasStmt_compl .SEMICOLON .RBRACE
    (fun a r ha => by cases hw : a.what <;> first | trivial | rfl)
    (fun a r ha => by
      unfold Alias.toks
      rw [List.append_assoc, List.append_assoc]
      exact name_notIn ha.1 _ rfl rfl)
  have h2 : Compl (sepTrail .SEMICOLON .RBRACE aliasStmtP) (sepTrailTxt .SEMICOLON Alias.toks) ImportsOk (fun _ r => In [.RBRACE] r) :=
    h1.weaken (fun x h => ⟨h.1, h.2.1⟩) (by
      rintro ⟨l, b⟩ r ⟨o1, o2, o3⟩ hr
      obtain ⟨t, r', rfl, ht⟩ := in_of hr
      have ht' : t = .RBRACE := by simpa using ht
      subst ht'
      refine ⟨fun _ => rfl, fun hb => ⟨rfl, fun a ha => ?_⟩⟩
      have := o3 hb a ha
      cases hw : a.what with
      | as1 t => exact absurd hw (this t)
      | as2 => trivial
      | instead => rfl)
  exact compl_pre (compl_post h2 .RBRACE (fun _ _ _ => rfl)) .LBRACE

theorem useEnd_sound : Sound useEndP useEndTxt (fun x => ∀ i, x = some i → ImportsOk i) := by
  intro ts a r h
  simp only [useEndP] at h
  split at h
  · exact sound_map imports_sound (f := some) (txt' := useEndTxt) (ok' := fun x => ∀ i, x = some i → ImportsOk i)
      (fun a h => ⟨rfl, fun i hi => by cases hi; exact h⟩) ts a r h
  · refine sound_map (sound_oneOf _) (f := fun _ => none) (txt' := useEndTxt) (ok' := fun x => ∀ i, x = some i → ImportsOk i)
      (fun a h => ⟨?_, fun i hi => by cases hi⟩) ts a r h
    have : a = .SEMICOLON := by simpa using h
    rw [this]; rfl
theorem useEnd_compl : Compl useEndP useEndTxt (fun x => ∀ i, x = some i → ImportsOk i) anyFol := by
  intro x r h _
  cases x with
  | none => rfl
  | some i =>
    have : mapP some importsP (useEndTxt (some i) ++ r) = some (some i, r) := mapP_some (imports_compl i r (h i rfl) trivial)
    exact this

theorem mods_sound : Sound modsP (manyTxt tokTxt) Mods := (sound_many (sound_oneOf _) _).weaken fun l h m hm => by simpa using h m hm
theorem mods_compl : Compl modsP (manyTxt tokTxt) Mods (fun _ r => NotIn modifierWords r) :=
  (compl_many (compl_oneOf modifierWords) modifierWords (fun a h => h) (fun _ _ _ _ _ => trivial)).weaken
    (fun l h m hm => by simpa using h m hm) (fun _ _ _ h => ⟨h, fun _ _ => trivial⟩)

theorem member_sound : Sound memberP Member.toks Member.Ok := by
  have h1 : Sound varMemberP Member.toks Member.Ok := sound_map (sound_pre (sound_post vars_sound _) _) fun a h => ⟨rfl, h⟩
  have h2 : Sound useMemberP Member.toks Member.Ok :=
    sound_map (sound_pre (sound_andThen (names_sound _) useEnd_sound) _) fun a h => ⟨rfl, h⟩
  intro ts a r h
  simp only [memberP] at h
  split at h
  · exact h1 ts a r h
  split at h
  · exact h2 ts a r h
  simp only [modMemberP, Option.bind_eq_bind, Option.bind_eq_some_iff] at h
  obtain ⟨⟨m, r1⟩, hm, h⟩ := h
  obtain ⟨em, om⟩ := mods_sound _ _ _ hm
  simp only at h
  split at h
  · simp only [mapP, Option.map_eq_some_iff] at h
    obtain ⟨⟨f, r2⟩, hf, he⟩ := h
    cases he
    obtain ⟨e, o⟩ := fhead_sound _ _ _ _ hf
    exact ⟨by simp only [Member.toks, em, e, List.append_assoc], om, o⟩
  split at h
  · simp only [mapP, Option.map_eq_some_iff] at h
    obtain ⟨⟨l, r2⟩, hf, he⟩ := h
    cases he
    obtain ⟨e, o⟩ := sound_pre (sound_post (sound_sep (sound_andThen (sound_oneOf semiReserved) (sound_pre expr_sound .ASSIGN)) .COMMA)
      .SEMICOLON) .CONST _ _ _ hf
    exact ⟨by simp only [Member.toks, em, e, List.append_assoc], om, o.1, fun x hx => ⟨by simpa using (o.2 x hx).1, (o.2 x hx).2⟩⟩
  · simp only [mapP, Option.map_eq_some_iff] at h
    obtain ⟨⟨⟨x, l⟩, r2⟩, hf, he⟩ := h
    cases he
    obtain ⟨e, o⟩ := sound_andThen (sound_opt (hints_sound propertyWords) (hintFirst propertyWords)) (sound_post vars_sound .SEMICOLON) _ _ _ hf
    exact ⟨by simp only [Member.toks, em, e, List.append_assoc], om, o.1, o.2⟩

/-- what may stand behind a member, or a head of a method -/
def Member.fol : Member → List Tok → Prop
  | .func _ _, r => In [.LBRACE, .SEMICOLON] r
  | _, _ => True

theorem vars_head {l : List (Option Sc)} (h : VarsOk l) : ∃ r, varsTxt l = .VARIABLE :: r := by
  cases l with
  | nil => exact absurd rfl h.1
  | cons a l => cases l <;> exact ⟨_, rfl⟩

/-- behind modifiers, the alternatives of a member are told apart by the next token -/
theorem mod_first {m : List Tok} (hm : Mods m) {t : Tok} {r : List Tok} (ht : t ∉ [Tok.VAR, .USE] ++ modifierWords) :
    headIn [.VAR] (manyTxt tokTxt m ++ t :: r) = false ∧ headIn [.USE] (manyTxt tokTxt m ++ t :: r) = false ∧
      modsP (manyTxt tokTxt m ++ t :: r) = some (m, t :: r) := by
  have hn : NotIn modifierWords (t :: r) := by
    show modifierWords.contains t = false
    cases hc : modifierWords.contains t
    · rfl
    · exact absurd (List.mem_append_right _ (by simpa using hc)) ht
  refine ⟨?_, ?_, mods_compl m _ hm hn⟩
  · cases m with
    | nil =>
      show [Tok.VAR].contains t = false
      cases hc : [Tok.VAR].contains t
      · rfl
      · have : t = .VAR := by simpa using hc
        subst this; exact absurd (by simp) ht
    | cons a m =>
      have := hm a (by simp)
      show [Tok.VAR].contains a = false
      cases hc : [Tok.VAR].contains a
      · rfl
      · have h : a = .VAR := by simpa using hc
        subst h; revert this; decide
  · cases m with
    | nil =>
      show [Tok.USE].contains t = false
      cases hc : [Tok.USE].contains t
      · rfl
      · have : t = .USE := by simpa using hc
        subst this; exact absurd (by simp) ht
    | cons a m =>
      have := hm a (by simp)
      show [Tok.USE].contains a = false
      cases hc : [Tok.USE].contains a
      · rfl
      · have h : a = .USE := by simpa using hc
        subst h; revert this; decide

theorem member_compl : Compl memberP Member.toks Member.Ok Member.fol := by
  intro x r h hr
  cases x with
  | var_ l =>
    have : varMemberP ((Member.var_ l).toks ++ r) = some (.var_ l, r) :=
      mapP_some (compl_pre (compl_post vars_compl .SEMICOLON (fun _ _ _ => rfl)) .VAR l r h trivial)
    exact this
  | use l i =>
    have h1 := compl_andThen (names_compl .COMMA (by decide)) useEnd_compl (fol := anyFol) (fun a b r _ _ _ => ⟨by cases b <;> rfl, trivial⟩)
    have : useMemberP ((Member.use l i).toks ++ r) = some (.use l i, r) := mapP_some (compl_pre h1 .USE (l, i) r h trivial)
    exact this
  | func m f =>
    obtain ⟨o1, o2⟩ := h
    obtain ⟨h1, h2, h3⟩ := mod_first (m := m) o1 (t := .FUNCTION) (r := f.toks.tail ++ r) (by decide)
    have he : (Member.func m f).toks ++ r = manyTxt tokTxt m ++ .FUNCTION :: (f.toks.tail ++ r) := by
      simp only [Member.toks, List.append_assoc]; rfl
    have h4 : fheadP semiReserved (.FUNCTION :: (f.toks.tail ++ r)) = some (f, r) := fhead_compl (by decide) f r o2 hr
    rw [he]
    simp only [memberP, h1, h2, Bool.false_eq_true, if_false, modMemberP, h3, Option.bind_eq_bind, Option.bind_some, headIn_cons,
      List.contains_cons, beq_self_eq_true, Bool.true_or, if_true]
    exact mapP_some h4
  | const m l =>
    obtain ⟨o1, o2, o3⟩ := h
    obtain ⟨h1, h2, h3⟩ := mod_first (m := m) o1 (t := .CONST)
      (r := sepTxt .COMMA (fun x => [x.1] ++ .ASSIGN :: x.2.toks) l ++ [.SEMICOLON] ++ r) (by decide)
    have he : (Member.const m l).toks ++ r =
        manyTxt tokTxt m ++ .CONST :: (sepTxt .COMMA (fun x => [x.1] ++ .ASSIGN :: x.2.toks) l ++ [.SEMICOLON] ++ r) := by
      simp only [Member.toks, List.append_assoc, List.cons_append]
    have h4 := compl_pre (compl_post (compl_sep (compl_andThen (compl_oneOf semiReserved) (compl_pre expr_compl .ASSIGN)
      (fol := fun _ r => EStop r) (fun _ _ _ _ _ h => ⟨trivial, h⟩)) .COMMA (fun _ r _ => exprEnds_stop (r := .COMMA :: r) rfl))
      .SEMICOLON (fun _ r _ => ⟨rfl, fun _ _ => exprEnds_stop (r := .SEMICOLON :: r) rfl⟩)) .CONST l r
      ⟨o2, fun x hx => ⟨by simpa using (o3 x hx).1, (o3 x hx).2⟩⟩ trivial
    rw [he]
    simp only [memberP, h1, h2, Bool.false_eq_true, if_false, modMemberP, h3, Option.bind_eq_bind, Option.bind_some,
      show headIn [.FUNCTION] (Tok.CONST :: (sepTxt .COMMA (fun x => [x.1] ++ .ASSIGN :: x.2.toks) l ++ [.SEMICOLON] ++ r)) = false from rfl]
    simp only [headIn_cons, List.contains_cons, beq_self_eq_true, Bool.true_or, if_true]
    exact mapP_some h4
  | prop m hint l =>
    obtain ⟨o1, o2, o3⟩ := h
    obtain ⟨vr, hvr⟩ := vars_head o3
    have h5 := compl_andThen (compl_opt (hints_compl words_property) (hintFirst propertyWords) (fun a ha => hints_head ha))
      (compl_post vars_compl .SEMICOLON (fun _ _ _ => rfl)) (fol := anyFol) (fun a b r _ hb _ => by
        obtain ⟨vr, hvr⟩ := vars_head hb
        refine ⟨⟨fun _ => ?_, fun _ _ => ?_⟩, trivial⟩ <;> rw [hvr] <;> rfl) (hint, l) r ⟨o2, o3⟩ trivial
    have hne : ∃ t r', optTxt hintsTxt hint ++ (varsTxt l ++ [.SEMICOLON]) ++ r = t :: r' ∧ t ∈ Tok.VARIABLE :: hintFirst propertyWords := by
      cases hint with
      | none => exact ⟨.VARIABLE, _, by rw [optTxt, hvr]; rfl, by simp⟩
      | some x =>
        obtain ⟨t, r', he, ht⟩ := in_of (hints_head (o2 x rfl))
        exact ⟨t, _, by rw [optTxt, he]; rfl, List.mem_cons_of_mem _ (by simpa using ht)⟩
    obtain ⟨t, r', he, ht⟩ := hne
    have hnot : t ∉ [Tok.VAR, .USE] ++ modifierWords ∧ [Tok.FUNCTION].contains t = false ∧ [Tok.CONST].contains t = false := by
      simp only [hintFirst, propertyWords, List.mem_cons, List.not_mem_nil, or_false] at ht
      rcases ht with rfl | rfl | rfl | rfl | rfl <;> decide
    obtain ⟨h1, h2, h3⟩ := mod_first (m := m) o1 (t := t) (r := r') hnot.1
    have he' : (Member.prop m hint l).toks ++ r = manyTxt tokTxt m ++ t :: r' := by
      simp only [Member.toks, List.append_assoc] at he ⊢
      rw [he]
    simp only [he] at h5
    rw [he']
    simp only [memberP, h1, h2, Bool.false_eq_true, if_false, modMemberP, h3, Option.bind_eq_bind, Option.bind_some, headIn_cons,
      hnot.2.1, hnot.2.2]
    exact mapP_some h5

end KPhp.Stmt
