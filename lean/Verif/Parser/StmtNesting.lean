import Verif.Parser.StmtProps
/-
# Brackets (C71)

In a file without syntax error every bracket is closed, by the right one; so adding or removing one bracket is always reported.
-/
namespace KPhp.Stmt
set_option linter.unusedVariables false
set_option linter.unusedSectionVars false
open KPhp (Tok)
open KPhp.Grammar (E Fits headIn Closures semiReserved modifierWords reservedNonModifiers)
variable [Closures]

/-! ## Specification -/

/-- opening brackets, and what closes them -/
def closerOf : Tok → Option Tok
  | .LPAREN => some .RPAREN
  | .LBRACKET => some .RBRACKET
  | .LBRACE | .CURLY_OPEN | .DOLLAR_OPEN_CURLY_BRACES => some .RBRACE
  | _ => none
def isCloser : Tok → Bool
  | .RPAREN | .RBRACKET | .RBRACE => true
  | _ => false
/-- a bracket -/
def isBracket (t : Tok) : Bool := (closerOf t).isSome || isCloser t

/-- every bracket of the text is closed by the one that belongs to it, the last opened first; `open_` are the ones that have
to follow -/
def nested : List Tok → List Tok → Bool
  | open_, [] => open_.isEmpty
  | open_, t :: ts =>
    match closerOf t with
    | some c => nested (c :: open_) ts
    | none =>
      if isCloser t then
        match open_ with
        | c :: open_ => c == t && nested open_ ts
        | [] => false
      else nested open_ ts

/-! ## Proofs -/

/-- a text without influence on the brackets around -/
def Bal (ts : List Tok) : Prop := ∀ st r, nested st (ts ++ r) = nested st r

theorem bal_nil : Bal [] := fun _ _ => rfl
theorem bal_append {a b : List Tok} (ha : Bal a) (hb : Bal b) : Bal (a ++ b) := fun st r => by
  rw [List.append_assoc, ha, hb]
theorem bal_tok {t : Tok} (h : isBracket t = false) : Bal [t] := fun st r => by
  simp only [isBracket, Bool.or_eq_false_iff, Option.isSome_eq_false_iff, Option.isNone_iff_eq_none] at h
  simp [nested, h.1, h.2]
theorem bal_cons {t : Tok} {a : List Tok} (h : isBracket t = false) (ha : Bal a) : Bal (t :: a) := bal_append (bal_tok h) ha
theorem bal_wrap {o c : Tok} {a : List Tok} (h : closerOf o = some c) (hc : isCloser c = true) (hn : closerOf c = none) (ha : Bal a) :
    Bal (o :: (a ++ [c])) := fun st r => by
  have : o :: (a ++ [c]) ++ r = o :: (a ++ (c :: r)) := by simp
  rw [this]
  simp only [nested, h]
  rw [ha]
  simp [nested, hn, hc]
theorem bal_paren {a : List Tok} (ha : Bal a) : Bal (.LPAREN :: (a ++ [.RPAREN])) := bal_wrap rfl rfl rfl ha
theorem bal_bracket {a : List Tok} (ha : Bal a) : Bal (.LBRACKET :: (a ++ [.RBRACKET])) := bal_wrap rfl rfl rfl ha
theorem bal_brace {a : List Tok} (ha : Bal a) : Bal (.LBRACE :: (a ++ [.RBRACE])) := bal_wrap rfl rfl rfl ha
/-- braces with more behind them -/
theorem bal_brace' {a b : List Tok} (ha : Bal a) (hb : Bal b) : Bal (.LBRACE :: (a ++ .RBRACE :: b)) := by
  have := bal_append (bal_brace ha) hb
  simpa using this
theorem bal_paren' {a b : List Tok} (ha : Bal a) (hb : Bal b) : Bal (.LPAREN :: (a ++ .RPAREN :: b)) := by
  have := bal_append (bal_paren ha) hb
  simpa using this

theorem bal_flag {k : Tok} (h : isBracket k = false) (b : Bool) : Bal (flagTxt k b) := by
  cases b
  · exact bal_nil
  · exact bal_tok h
theorem bal_opt {α} {txt : α → List Tok} {o : Option α} (h : ∀ a, o = some a → Bal (txt a)) : Bal (optTxt txt o) := by
  cases o with
  | none => exact bal_nil
  | some a => exact h a rfl
theorem bal_sep {α} {k : Tok} (hk : isBracket k = false) {txt : α → List Tok} {l : List α} (h : ∀ a ∈ l, Bal (txt a)) :
    Bal (sepTxt k txt l) := by
  induction l with
  | nil => exact bal_nil
  | cons a l ih =>
    cases l with
    | nil => exact h a (by simp)
    | cons b l => exact bal_append (h a (by simp)) (bal_cons hk (ih fun x hx => h x (List.mem_cons_of_mem _ hx)))
theorem bal_sepTrail {α} {k : Tok} (hk : isBracket k = false) {txt : α → List Tok} {x : List α × Bool} (h : ∀ a ∈ x.1, Bal (txt a)) :
    Bal (sepTrailTxt k txt x) := bal_append (bal_sep hk h) (bal_flag hk _)
theorem bal_many {α} {txt : α → List Tok} {l : List α} (h : ∀ a ∈ l, Bal (txt a)) : Bal (manyTxt txt l) := by
  induction l with
  | nil => exact bal_nil
  | cons a l ih => exact bal_append (h a (by simp)) (ih fun x hx => h x (List.mem_cons_of_mem _ hx))

theorem bal_bracket' {a b : List Tok} (ha : Bal a) (hb : Bal b) : Bal (.LBRACKET :: (a ++ .RBRACKET :: b)) := by
  have := bal_append (bal_bracket ha) hb
  simpa using this
theorem bal_bracket0 {b : List Tok} (hb : Bal b) : Bal (.LBRACKET :: .RBRACKET :: b) := bal_bracket' (a := []) bal_nil hb
theorem bal_paren0 {b : List Tok} (hb : Bal b) : Bal (.LPAREN :: .RPAREN :: b) := bal_paren' (a := []) bal_nil hb
theorem bal_curly {a b : List Tok} (ha : Bal a) (hb : Bal b) : Bal (.CURLY_OPEN :: (a ++ .RBRACE :: b)) := by
  have := bal_append (bal_wrap (o := .CURLY_OPEN) rfl rfl rfl ha) hb
  simpa using this
theorem bal_dollar {a b : List Tok} (ha : Bal a) (hb : Bal b) : Bal (.DOLLAR_OPEN_CURLY_BRACES :: (a ++ .RBRACE :: b)) := by
  have := bal_append (bal_wrap (o := .DOLLAR_OPEN_CURLY_BRACES) rfl rfl rfl ha) hb
  simpa using this

/-! ### Expressions -/

/-- the brackets of closures are closed; `StmtClosures.lean` shows it -/
class Nested : Prop where
  ok {t : List Tok} : Closures.Ok t → Bal t
variable [Nested]

theorem bal_moreNames (n : Nat) : Bal (Grammar.moreNames n) := by
  induction n with
  | zero => exact bal_nil
  | succ n ih => exact bal_cons rfl (bal_cons rfl ih)
theorem bal_nameToks (g : Bool) (n : Nat) : Bal (Grammar.nameToks g n) := by
  unfold Grammar.nameToks
  exact bal_append (by cases g <;> first | exact bal_nil | exact bal_tok rfl) (bal_cons rfl (bal_moreNames n))
theorem bal_replicate (n : Nat) : Bal (List.replicate n .DOLLAR) := by
  induction n with
  | zero => exact bal_nil
  | succ n ih => exact bal_cons rfl ih
theorem bal_word {k : Tok} (h : k ∈ Grammar.words) : isBracket k = false := by
  have hs : Grammar.words.all (fun t => !isBracket t) = true := by decide
  simpa using List.all_eq_true.1 hs k h

macro "bal" : tactic => `(tactic| (
  try simp only [E.toks, List.append_assoc, List.cons_append, List.nil_append, Grammar.closing]
  repeat first
    | assumption
    | exact bal_nil
    | exact bal_nameToks _ _
    | exact bal_replicate _
    | with_reducible apply bal_bracket0
    | with_reducible apply bal_paren0
    | with_reducible apply bal_paren'
    | with_reducible apply bal_bracket'
    | with_reducible apply bal_brace'
    | with_reducible apply bal_curly
    | with_reducible apply bal_dollar
    | with_reducible apply bal_append
    | refine bal_cons rfl ?_
    | refine bal_cons (bal_word (by assumption)) ?_))

theorem bal_expr {c : Grammar.Cat} {e : E} (h : Fits c e) : Bal e.toks := by
  induction h with
  | left k l a b hp _ _ iha ihb => exact bal_append iha (bal_cons (by cases hp <;> rfl) ihb)
  | non k l a b hp _ _ iha ihb => exact bal_append iha (bal_cons (by cases hp <;> rfl) ihb)
  | assign k a b hk _ _ _ iha ihb => exact bal_append iha (bal_cons (by cases hk <;> rfl) ihb)
  | unary k e hk _ ih => exact bal_cons (by cases hk <;> rfl) ih
  | pre k e hk _ ih => exact bal_cons (by cases hk <;> rfl) ih
  | post e k hk _ ih => exact bal_append ih (bal_tok (by cases hk <;> rfl))
  | scalar k hk => exact bal_tok (by cases hk <;> rfl)
  | closure t h => exact Nested.ok h
  | iife t l h _ ih =>
    have := Nested.ok h
    have := bal_append (bal_paren (a := .FUNCTION :: .LPAREN :: t) this) (bal_paren ih)
    simpa [E.toks] using this
  | arr s l _ ih => cases s <;> bal
  | poff k hk => cases hk <;> exact bal_cons rfl (bal_bracket (bal_tok rfl))
  | pvname i _ ih =>
    have := bal_dollar (bal_cons (t := .STRING_VARNAME) rfl (bal_bracket ih)) bal_nil
    simpa [E.toks] using this
  | pvname0 => exact bal_dollar (a := [.STRING_VARNAME, .LBRACKET, .RBRACKET]) (bal_cons rfl (bal_bracket0 bal_nil)) bal_nil
  | _ => bal

/-! ### Parts of statements -/

theorem bal_string {l : List Tok} (h : ∀ t ∈ l, t = .STRING) : Bal (sepTxt .BACKSLASH tokTxt l) :=
  bal_sep rfl fun t ht => by rw [h t ht]; exact bal_tok rfl
theorem bal_name {n : Name} (h : n.Ok) : Bal n.toks := bal_append (bal_flag rfl _) (bal_string h.2)
theorem bal_names {k : Tok} (hk : isBracket k = false) {l : List Name} (h : Names l) : Bal (sepTxt k Name.toks l) :=
  bal_sep hk fun n hn => bal_name (h.2 n hn)
theorem bal_hints {words : List Tok} (hw : Words words) {l : List Hint} (h : Hints words l) : Bal (hintsTxt l) :=
  bal_sep rfl fun x hx => by
    refine bal_append (bal_flag rfl _) ?_
    have := h.2 x hx
    revert this
    cases x.type with
    | word t => intro ht; rcases hw t ht with rfl | rfl | rfl <;> exact bal_tok rfl
    | name n => exact fun ht => bal_name ht
theorem bal_assign {α} {txt : α → List Tok} {o : Option α} (h : ∀ a, o = some a → Bal (txt a)) : Bal (assignTxt txt o) :=
  bal_opt fun a ha => bal_cons rfl (h a ha)
theorem bal_param {p : Param} (h : p.Ok) : Bal p.toks :=
  bal_append (bal_opt fun l hl => bal_hints words_param (h.1 l hl))
    (bal_append (bal_flag rfl _) (bal_append (bal_flag rfl _) (bal_cons rfl (bal_assign fun e he => bal_expr (h.2 e he)))))
theorem bal_params {p : Params} (h : ParamsOk p) : Bal (paramsTxt p) := bal_sepTrail rfl fun a ha => bal_param (h.2 a ha)
theorem bal_reserved {t : Tok} (h : t ∈ semiReserved) : isBracket t = false := by
  have hs : semiReserved.all (fun t => !isBracket t) = true := by decide
  simpa using List.all_eq_true.1 hs t h
theorem bal_modifier {t : Tok} (h : t ∈ modifierWords) : isBracket t = false :=
  bal_reserved (by simp only [semiReserved, List.mem_cons, List.mem_append]; exact .inr (.inr h))
theorem bal_sc {c : ScCat} {s : Sc} (h : ScFits c s) : Bal s.toks := by
  induction h with
  | scalar k hk => exact bal_tok (by cases hk <;> rfl)
  | nowdoc => exact bal_cons rfl (bal_cons rfl (bal_tok rfl))
  | str l h => exact bal_cons rfl (bal_many fun e he => bal_bracket (bal_expr (h e he)))
  | const n m hn hm => exact bal_append (bal_name hn) (bal_opt fun k hk => bal_cons rfl (bal_tok (bal_word (hm k hk))))
  | plus s _ ih => exact bal_cons rfl ih
  | minus s _ ih => exact bal_cons rfl ih
  | arr s l _ ih =>
    cases s
    · exact bal_cons rfl (bal_paren ih)
    · exact bal_bracket ih
  | single s _ ih => exact ih
  | pair k v _ _ ihk ihv => exact bal_append ihk (bal_cons rfl ihv)
  | nil => exact bal_nil
  | some l _ ih => exact ih
  | last i _ ih => exact ih
  | lastComma i _ ih => exact bal_append ih (bal_tok rfl)
  | more i l _ _ ihi ihl => exact bal_append ihi (bal_cons rfl ihl)
theorem bal_kind {o : Option Tok} (h : KindOk o) : Bal (kindTxt o) :=
  bal_opt fun k hk => by rcases h k hk with rfl | rfl <;> exact bal_tok rfl
theorem bal_inner {i : Inner} (h : i.Ok) : Bal i.toks :=
  bal_append (bal_kind h.1) (bal_append (bal_string h.2.1.2) (bal_opt fun t ht => by rw [h.2.2 t ht]; exact bal_cons rfl (bal_tok rfl)))
theorem bal_useItem {u : UseItem} (h : u.Ok) : Bal u.toks := by
  refine bal_append (bal_flag rfl _) (bal_append (bal_append (bal_string h.1.2) (bal_flag rfl _)) ?_)
  have := h.2.1
  revert this
  cases u.rest with
  | none => exact fun _ => bal_nil
  | alias => exact fun _ => bal_cons rfl (bal_tok rfl)
  | group x => exact fun hx => bal_brace (bal_sepTrail rfl fun i hi => bal_inner (hx.2 i hi))

theorem bal_semi {t : Tok} (h : Semi t) : Bal [t] := by rcases h with rfl | rfl <;> exact bal_tok rfl
theorem bal_exprs {l : List E} (h : ∀ e ∈ l, Fits (.lev 0) e) : Bal (sepTxt .COMMA E.toks l) :=
  bal_sep rfl fun e he => bal_expr (h e he)
theorem bal_vars {l : List (Option Sc)} (h : VarsOk l) : Bal (varsTxt l) :=
  bal_sep rfl fun o ho => bal_cons rfl (bal_assign fun s hs => bal_sc (h.2 o ho s hs))
theorem bal_gvar {v : GVar} (h : v.Ok) : Bal v.toks := by
  cases v with
  | name => exact bal_tok rfl
  | dollar v => exact bal_cons rfl (bal_expr h)
  | curly e => exact bal_cons rfl (bal_brace (bal_expr h))
theorem bal_line {l : Line} (h : l.Ok) : Bal l.toks := by
  cases l with
  | bare k => rcases h with rfl | rfl | rfl | rfl <;> exact bal_tok rfl
  | expr e t => exact bal_append (bal_expr h.1) (bal_semi h.2)
  | word k e t =>
    refine bal_cons ?_ (bal_append (bal_opt fun x hx => bal_expr (h.2.1 x hx)) (bal_semi h.2.2))
    rcases h.1 with rfl | rfl | rfl <;> rfl
  | need k e t =>
    refine bal_cons ?_ (bal_append (bal_expr h.2.1) (bal_semi h.2.2))
    rcases h.1 with rfl | rfl <;> rfl
  | echo l t => exact bal_cons rfl (bal_append (bal_exprs h.1.2) (bal_semi h.2))
  | unset l t => exact bal_cons rfl (bal_append (bal_paren (bal_sep rfl fun e he => bal_expr (h.1.2 e he))) (bal_semi h.2))
  | global l t => exact bal_cons rfl (bal_append (bal_sep rfl fun v hv => bal_gvar (h.1.2 v hv)) (bal_semi h.2))
  | static l t => exact bal_cons rfl (bal_append (bal_vars h.1) (bal_semi h.2))
  | const l => exact bal_cons rfl (bal_append (bal_sep rfl fun e he => bal_cons rfl (bal_cons rfl (bal_expr (h.2 e he)))) (bal_tok rfl))
  | use k l => exact bal_cons rfl (bal_append (bal_kind h.1) (bal_append (bal_sep rfl fun u hu => bal_useItem (h.2.2.1 u hu)) (bal_tok rfl)))
  | goto => exact bal_cons rfl (bal_cons rfl (bal_tok rfl))
  | label => exact bal_cons rfl (bal_tok rfl)

theorem bal_parenTxt {e : E} (h : Fits (.lev 0) e) : Bal (parenTxt e) := bal_paren (bal_expr h)
theorem bal_head {h : Head} (hk : h.Ok) : Bal h.toks := by
  cases h with
  | while_ c => exact bal_cons rfl (bal_parenTxt hk)
  | for_ a b c =>
    have h1 := bal_paren (bal_append (bal_append (bal_exprs hk.1) (bal_tok (t := .SEMICOLON) rfl))
      (bal_append (bal_append (bal_exprs hk.2.1) (bal_tok (t := .SEMICOLON) rfl)) (bal_exprs hk.2.2)))
    have := bal_cons (t := .FOR) rfl h1
    simpa [Head.toks] using this
  | foreach s r v w =>
    have h1 := bal_paren (bal_append (bal_append (bal_expr hk.1) (bal_cons (t := .AS) rfl (bal_append (bal_flag (k := .BIT_AND) rfl r) (bal_expr hk.2.2.1))))
      (bal_opt (o := w) (txt := fun x => .DOUBLE_ARROW :: foreachVarTxt x) fun x hx =>
        bal_cons rfl (bal_append (bal_flag rfl _) (bal_expr (hk.2.2.2 x hx)))))
    have := bal_cons (t := .FOREACH) rfl h1
    simpa [Head.toks, foreachVarTxt] using this
  | declare l => exact bal_cons rfl (bal_paren (bal_sep rfl fun s hs => bal_cons rfl (bal_cons rfl (bal_sc (hk.2 s hs)))))
theorem bal_fhead {names : List Tok} (hn : ∀ t ∈ names, isBracket t = false) {f : FHead} (h : f.Ok names) : Bal f.toks :=
  bal_cons rfl (bal_append (bal_flag rfl _) (bal_append (bal_tok (hn _ h.1)) (bal_append (bal_paren (bal_params h.2.1))
    (bal_opt fun l hl => bal_cons rfl (bal_hints words_return (h.2.2 l hl))))))
theorem bal_chead {h : CHead} (hk : h.Ok) : Bal h.toks := by
  cases h with
  | cls m e i =>
    refine bal_append (bal_opt fun k hm => ?_) (bal_cons rfl (bal_cons rfl (bal_append
      (bal_opt fun n hn => bal_cons rfl (bal_name (hk.2.1 n hn))) (bal_opt fun l hl => bal_cons rfl (bal_names rfl (hk.2.2 l hl))))))
    rcases hk.1 k hm with rfl | rfl <;> exact bal_tok rfl
  | trait => exact bal_cons rfl (bal_tok rfl)
  | interface e => exact bal_cons rfl (bal_cons rfl (bal_opt fun l hl => bal_cons rfl (bal_names rfl (hk l hl))))
theorem bal_what {w : AWhat} (h : w.Ok) : Bal w.toks := by
  cases w with
  | as1 t =>
    refine bal_cons rfl (bal_tok ?_)
    rcases h with h | h
    · exact bal_modifier h
    · refine bal_reserved ?_
      simp only [nonModifiers, List.mem_cons] at h
      simp only [semiReserved, List.mem_cons, List.mem_append]
      rcases h with h | h
      · exact .inl h
      · exact .inr (.inl h)
  | as2 m t => exact bal_cons rfl (bal_cons (bal_modifier h.1) (bal_tok (bal_reserved h.2)))
  | instead l => exact bal_cons rfl (bal_names rfl h)
theorem bal_alias {a : Alias} (h : a.Ok) : Bal a.toks :=
  bal_append (bal_append (bal_name h.1) (bal_tok rfl)) (bal_append (bal_tok (bal_reserved h.2.1)) (bal_what h.2.2))
theorem bal_mods {l : List Tok} (h : Mods l) : Bal (manyTxt tokTxt l) := bal_many fun m hm => bal_tok (bal_modifier (h m hm))
theorem bal_member {m : Member} (h : m.Ok) : Bal m.toks := by
  cases m with
  | var_ l => exact bal_cons rfl (bal_append (bal_vars h) (bal_tok rfl))
  | prop m x l =>
    exact bal_append (bal_mods h.1) (bal_append (bal_opt fun y hy => bal_hints words_property (h.2.1 y hy)) (bal_append (bal_vars h.2.2) (bal_tok rfl)))
  | const m l =>
    exact bal_append (bal_mods h.1) (bal_cons rfl (bal_append (bal_sep rfl fun x hx =>
      bal_append (bal_tok (bal_reserved (h.2.2 x hx).1)) (bal_cons rfl (bal_expr (h.2.2 x hx).2))) (bal_tok rfl)))
  | use l x =>
    refine bal_cons rfl (bal_append (bal_names rfl h.1) ?_)
    cases x with
    | none => exact bal_tok rfl
    | some i => exact bal_brace (bal_sepTrail rfl fun a ha => bal_alias ((h.2 i rfl).2.1 a ha))
  | func m f => exact bal_append (bal_mods h.1) (bal_fhead (fun t ht => bal_reserved ht) h.2)

/-! ### Statements -/

theorem bal_endWord (h : Head) : isBracket h.endWord = false := by cases h <;> rfl

theorem bal_tree (s : S) : ∀ c, (∀ w, c = .loopBody w → isBracket w = false) → s.Fits c → Bal s.toks := by
  have nb : ∀ c : Cat, (∀ w, c ≠ .loopBody w) → ∀ w, c = .loopBody w → isBracket w = false := fun c h w hw => absurd hw (h w)
  induction s with
  | line l => exact fun c _ h => bal_line h.2
  | block b ih => exact fun c _ h => bal_brace (ih _ (nb _ (by simp)) h.2)
  | ifs e b ih => exact fun c _ h => bal_cons rfl (bal_append (bal_parenTxt h.2.1) (ih _ (nb _ (by simp)) h.2.2))
  | plain t x ih1 ih2 => exact fun c _ h => bal_append (ih1 _ (nb _ (by simp)) h.2.1) (ih2 _ (nb _ (by simp)) h.2.2.1)
  | altIf b x e ih1 ih2 =>
    exact fun c _ h => bal_cons rfl (bal_append (ih1 _ (nb _ (by simp)) h.2.1) (bal_append (ih2 _ (nb _ (by simp)) h.2.2.1)
      (bal_cons rfl (bal_semi h.2.2.2.2))))
  | loop hd b ih =>
    exact fun c _ h => bal_append (bal_head h.2.1) (ih _ (fun w hw => by cases hw; exact bal_endWord hd) h.2.2)
  | alt b w e ih =>
    exact fun c hc h => bal_cons rfl (bal_append (ih _ (nb _ (by simp)) h.2.1) (bal_cons (hc w h.1) (bal_semi h.2.2)))
  | switch e b ih => exact fun c _ h => bal_cons rfl (bal_append (bal_parenTxt h.2.1) (ih _ (nb _ (by simp)) h.2.2))
  | braces x l ih =>
    intro c _ h
    have := bal_brace (bal_append (bal_flag (k := .SEMICOLON) rfl x) (ih _ (nb _ (by simp)) h.2))
    simpa [S.toks] using this
  | colon x l e ih =>
    exact fun c _ h => bal_cons rfl (bal_append (bal_flag rfl _) (bal_append (ih _ (nb _ (by simp)) h.2.1) (bal_cons rfl (bal_semi h.2.2))))
  | try_ b x ih1 ih2 => exact fun c _ h => bal_cons rfl (bal_brace' (ih1 _ (nb _ (by simp)) h.2.1) (ih2 _ (nb _ (by simp)) h.2.2))
  | do_ s e t ih =>
    exact fun c _ h => bal_cons rfl (bal_append (ih _ (nb _ (by simp)) h.2.1) (bal_cons rfl (bal_append (bal_parenTxt h.2.2.1) (bal_semi h.2.2.2))))
  | func f b ih =>
    exact fun c _ h => bal_append (bal_fhead (fun t ht => by simp at ht; subst ht; rfl) h.2.1) (bal_brace (ih _ (nb _ (by simp)) h.2.2))
  | cls f b ih => exact fun c _ h => bal_append (bal_chead h.2.1) (bal_brace (ih _ (nb _ (by simp)) h.2.2))
  | halt => exact fun c _ h => bal_cons rfl (bal_paren' (a := []) bal_nil (bal_tok rfl))
  | nsLine p => exact fun c _ h => bal_cons rfl (bal_append (bal_string h.2.2) (bal_tok rfl))
  | nsBlock p b ih => exact fun c _ h => bal_cons rfl (bal_append (bal_string h.2.1) (bal_brace (ih _ (nb _ (by simp)) h.2.2)))
  | elif e s x ih1 ih2 =>
    exact fun c _ h => bal_cons rfl (bal_append (bal_parenTxt h.2.1) (bal_append (ih1 _ (nb _ (by simp)) h.2.2.1) (ih2 _ (nb _ (by simp)) h.2.2.2.1)))
  | els s ih => exact fun c _ h => bal_cons rfl (ih _ (nb _ (by simp)) h.2)
  | elifAlt e b x ih1 ih2 =>
    exact fun c _ h => bal_cons rfl (bal_append (bal_parenTxt h.2.1) (bal_cons rfl (bal_append (ih1 _ (nb _ (by simp)) h.2.2.1)
      (ih2 _ (nb _ (by simp)) h.2.2.2.1))))
  | elsAlt s ih => exact fun c _ h => bal_cons rfl (bal_cons rfl (ih _ (nb _ (by simp)) h.2))
  | noElse => exact fun c _ h => bal_nil
  | noCatch => exact fun c _ h => bal_nil
  | nil => exact fun c _ h => bal_nil
  | case_ e t b ih =>
    intro c _ h
    refine bal_append ?_ (bal_cons ?_ (ih _ (nb _ (by simp)) h.2.2.2))
    · cases e with
      | none => exact bal_tok rfl
      | some e => exact bal_cons rfl (bal_expr (h.2.1 e rfl))
    · rcases h.2.2.1 with rfl | rfl <;> rfl
  | catch_ l b x ih1 ih2 =>
    intro c _ h
    have h1 := bal_paren (bal_append (bal_names (k := .BIT_OR) rfl h.2.1) (bal_tok (t := .VARIABLE) rfl))
    have := bal_cons (t := .CATCH) rfl (bal_append h1 (bal_brace' (ih1 _ (nb _ (by simp)) h.2.2.1) (ih2 _ (nb _ (by simp)) h.2.2.2)))
    simpa [S.toks] using this
  | fin b ih => exact fun c _ h => bal_cons rfl (bal_brace (ih _ (nb _ (by simp)) h.2))
  | member m => exact fun c _ h => bal_member h.2.1
  | abstr m => exact fun c _ h => bal_append (bal_member h.2.1) (bal_tok rfl)
  | method m b ih => exact fun c _ h => bal_append (bal_member h.2.1) (bal_brace (ih _ (nb _ (by simp)) h.2.2.2))
  | cons a l ih1 ih2 =>
    rintro c hc ⟨i, hi, ha, hl⟩
    exact bal_append (ih1 _ (nb _ (by cases c <;> cases hi <;> simp)) ha) (ih2 _ hc hl)

/-- C71: in a file without syntax error all brackets are closed, each by the right one -/
theorem brackets_closed {ts : List Tok} (h : (parseFile ts).isSome = true) : nested [] ts = true := by
  obtain ⟨s, hs, rfl⟩ := (file_accepted_iff ts).1 h
  have := bal_tree s .file (fun w hw => by cases hw) hs [] []
  rw [List.append_nil] at this
  rw [this]; rfl

/-! ### Adding and removing brackets -/

/-- how the number of open brackets changes -/
def weight (t : Tok) : Int := if (closerOf t).isSome then 1 else if isCloser t then -1 else 0
def weights (ts : List Tok) : Int := (ts.map weight).sum

theorem nested_weights (ts : List Tok) : ∀ st, nested st ts = true → weights ts + st.length = 0 := by
  induction ts with
  | nil => intro st h; cases st <;> simp_all [nested, weights]
  | cons t ts ih =>
    intro st h
    simp only [weights, List.map_cons, List.sum_cons] at ih ⊢
    simp only [nested] at h
    cases hc : closerOf t with
    | some c =>
      rw [hc] at h
      have := ih _ h
      simp only [List.length_cons] at this
      simp only [weight, hc, Option.isSome_some, if_true]
      omega
    | none =>
      rw [hc] at h
      cases hi : isCloser t with
      | true =>
        simp only [hi, if_true] at h
        cases st with
        | nil => cases h
        | cons c st =>
          simp only [Bool.and_eq_true] at h
          have := ih _ h.2
          simp only [weight, hc, hi, Option.isSome_none, Bool.false_eq_true, if_false, if_true, List.length_cons]
          omega
      | false =>
        simp only [hi, Bool.false_eq_true, if_false] at h
        have := ih _ h
        simp only [weight, hc, hi, Option.isSome_none, Bool.false_eq_true, if_false]
        omega

theorem weight_bracket {t : Tok} (h : isBracket t = true) : weight t ≠ 0 := by
  simp only [isBracket, Bool.or_eq_true] at h
  simp only [weight]
  rcases h with h | h
  · simp [h]
  · simp only [h, if_true]; split <;> simp

/-- C71: there is a syntax error at the latest when a bracket is added to or removed from a file without one: not both texts
are accepted, wherever the bracket stands -/
theorem bracket_missing {a b : List Tok} {t : Tok} (ht : isBracket t = true) (h : (parseFile (a ++ t :: b)).isSome = true) :
    parseFile (a ++ b) = none := by
  cases h' : parseFile (a ++ b) with
  | none => rfl
  | some s =>
    have h1 := nested_weights _ _ (brackets_closed h)
    have h2 := nested_weights _ _ (brackets_closed (ts := a ++ b) (by rw [h']; rfl))
    have := weight_bracket ht
    simp only [weights, List.map_append, List.map_cons, List.sum_append, List.sum_cons, List.length_nil] at h1 h2
    omega

/-- the specification tells the kinds of brackets apart -/
example : nested [] [.LPAREN, .LBRACE, .RPAREN, .RBRACE] = false ∧ nested [] [.LPAREN, .LBRACE, .RBRACE, .RPAREN] = true ∧
    nested [] [.RBRACE, .LBRACE] = false ∧ nested [] [.LBRACE] = false := by decide

end KPhp.Stmt
