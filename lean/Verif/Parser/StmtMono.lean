import Verif.Parser.StmtNesting
/-
# How the grammar depends on what counts as a closure

Closures contain statements and stand in expressions.  To close the circle, `StmtClosures.lean` counts how deep closures stand in
each other.  Here: if all closures up to some length that one notion allows are allowed by another, so are all texts up to this
length.
-/
namespace KPhp.Grammar
set_option linter.unusedVariables false
set_option linter.unusedSimpArgs false

/-- a part of a text is not longer than the text -/
macro "lens" hK:ident : tactic =>
  `(tactic| first | assumption | (simp only [E.toks, List.length_append, List.length_cons, List.length_nil] at $hK:ident ⊢; omega))

theorem Fits.mono {A B : Closures} {K : Nat} (hAB : ∀ t : List Tok, t.length ≤ K → A.Ok t → B.Ok t) {c : Cat} {e : E}
    (h : @Fits A c e) : e.toks.length ≤ K → @Fits B c e := by
  intro hK
  induction h with
  | left k l a b h0 h1 h2 i1 i2 => exact .left _ _ _ _ h0 (i1 (by lens hK)) (i2 (by lens hK))
  | non k l a b h0 h1 h2 i1 i2 => exact .non _ _ _ _ h0 (i1 (by lens hK)) (i2 (by lens hK))
  | inst a c h0 h1 i0 i1 => exact .inst _ _ (i0 (by lens hK)) (i1 (by lens hK))
  | print e h0 i0 => exact .print _ (i0 (by lens hK))
  | assign k a b h0 h1 h2 h3 i1 i3 => exact .assign _ _ _ h0 (i1 (by lens hK)) h2 (i3 (by lens hK))
  | assignVar a v h0 h1 h2 i0 i2 => exact .assignVar _ _ (i0 (by lens hK)) h1 (i2 (by lens hK))
  | assignNew a c h0 h1 h2 i0 i2 => exact .assignNew _ _ (i0 (by lens hK)) h1 (i2 (by lens hK))
  | yield0 => exact .yield0
  | yield e h0 i0 => exact .yield _ (i0 (by lens hK))
  | yieldPair k v h0 h1 h2 i0 i2 => exact .yieldPair _ _ (i0 (by lens hK)) h1 (i2 (by lens hK))
  | yieldFrom e h0 i0 => exact .yieldFrom _ (i0 (by lens hK))
  | cond c a b h0 h1 h2 i0 i1 i2 => exact .cond _ _ _ (i0 (by lens hK)) (i1 (by lens hK)) (i2 (by lens hK))
  | elvis c b h0 h1 i0 i1 => exact .elvis _ _ (i0 (by lens hK)) (i1 (by lens hK))
  | unary k e h0 h1 i1 => exact .unary _ _ h0 (i1 (by lens hK))
  | list l e h0 h1 i0 i1 => exact .list _ _ (i0 (by lens hK)) (i1 (by lens hK))
  | exit0 => exact .exit0
  | exitP => exact .exitP
  | exitE e h0 i0 => exact .exitE _ (i0 (by lens hK))
  | eval e h0 i0 => exact .eval _ (i0 (by lens hK))
  | pre k e h0 h1 i1 => exact .pre _ _ h0 (i1 (by lens hK))
  | post e k h0 h1 i1 => exact .post _ _ h0 (i1 (by lens hK))
  | up l e h0 h1 i1 => exact .up _ _ h0 (i1 (by lens hK))
  | array e h0 i0 => exact .array _ (i0 (by lens hK))
  | normal e h0 i0 => exact .normal _ (i0 (by lens hK))
  | scalar k h0 => exact .scalar _ h0
  | nowdoc => exact .nowdoc
  | heredoc ps h0 i0 => exact .heredoc _ (i0 (by lens hK))
  | backtick ps h0 i0 => exact .backtick _ (i0 (by lens hK))
  | paren e h0 h1 i0 => exact .paren _ (i0 (by lens hK)) h1
  | closure t h0 => exact .closure _ (hAB _ (by lens hK) h0)
  | iife t l h0 h1 i1 => exact .iife _ _ (hAB _ (by lens hK) h0) (i1 (by lens hK))
  | empty e h0 i0 => exact .empty _ (i0 (by lens hK))
  | isset l h0 i0 => exact .isset _ (i0 (by lens hK))
  | clone e h0 i0 => exact .clone _ (i0 (by lens hK))
  | new e h0 i0 => exact .new _ (i0 (by lens hK))
  | const e h0 i0 => exact .const _ (i0 (by lens hK))
  | string e h0 i0 => exact .string _ (i0 (by lens hK))
  | created e h0 i0 => exact .created _ (i0 (by lens hK))
  | «variable» e h0 i0 => exact .«variable» _ (i0 (by lens hK))
  | newBare c h0 i0 => exact .newBare _ (i0 (by lens hK))
  | newArgs c l h0 h1 i0 i1 => exact .newArgs _ _ (i0 (by lens hK)) (i1 (by lens hK))
  | var => exact .var
  | vvar n => exact .vvar _
  | dyn n e h0 i0 => exact .dyn _ _ (i0 (by lens hK))
  | constName g n => exact .constName _ _
  | classConst g n k h0 => exact .classConst _ _ _ h0
  | literal => exact .literal
  | quoted ps h0 i0 => exact .quoted _ (i0 (by lens hK))
  | arr s l h0 i0 => exact .arr _ _ (i0 (by cases s <;> lens hK))
  | parenNew e h0 i0 => exact .parenNew _ (i0 (by lens hK))
  | className g n => exact .className _ _
  | classStatic => exact .classStatic
  | classVar v h0 i0 => exact .classVar _ (i0 (by lens hK))
  | simple v h0 i0 => exact .simple _ (i0 (by lens hK))
  | staticVar g n v h0 i0 => exact .staticVar _ _ _ (i0 (by lens hK))
  | function g n l h0 i0 => exact .function _ _ _ (i0 (by lens hK))
  | method g n k l h0 h1 i1 => exact .method _ _ _ _ h0 (i1 (by lens hK))
  | dynMethod g n e l h0 h1 i0 i1 => exact .dynMethod _ _ _ _ (i0 (by lens hK)) (i1 (by lens hK))
  | index0 m b h0 h1 h2 i0 => exact .index0 _ _ (i0 (by lens hK)) h1 h2
  | index m b i h0 h1 h2 i0 i2 => exact .index _ _ _ (i0 (by lens hK)) h1 (i2 (by lens hK))
  | cindex m b i h0 h1 h2 h3 h4 h5 i0 i5 => exact .cindex _ _ _ (i0 (by lens hK)) h1 h2 h3 h4 (i5 (by lens hK))
  | call m b l h0 h1 h2 h3 h4 i0 i4 => exact .call _ _ _ (i0 (by lens hK)) h1 h2 h3 (i4 (by lens hK))
  | arrow m b p h0 h1 h2 i0 i2 => exact .arrow _ _ _ (i0 (by lens hK)) h1 (i2 (by lens hK))
  | scope b p h0 h1 i0 i1 => exact .scope _ _ (i0 (by lens hK)) (i1 (by lens hK))
  | classScope b v h0 h1 i0 i1 => exact .classScope _ _ (i0 (by lens hK)) (i1 (by lens hK))
  | id => exact .id
  | curly e h0 i0 => exact .curly _ (i0 (by lens hK))
  | nameVar v h0 i0 => exact .nameVar _ (i0 (by lens hK))
  | item a e h0 i0 => exact .item _ _ (i0 (by lens hK))
  | spread e h0 i0 => exact .spread _ (i0 (by lens hK))
  | byRef a v h0 i0 => exact .byRef _ _ (i0 (by lens hK))
  | pair k v h0 h1 h2 i0 i2 => exact .pair _ _ (i0 (by lens hK)) h1 (i2 (by lens hK))
  | pairRef k v h0 h1 h2 i0 i2 => exact .pairRef _ _ (i0 (by lens hK)) h1 (i2 (by lens hK))
  | nil a => exact .nil _
  | some a l h0 i0 => exact .some _ _ (i0 (by lens hK))
  | last a i h0 i0 => exact .last _ _ (i0 (by lens hK))
  | lastComma a i h0 i0 => exact .lastComma _ _ (i0 (by lens hK))
  | more a i l h0 h1 i0 i1 => exact .more _ _ _ (i0 (by lens hK)) (i1 (by lens hK))
  | vlast b e h0 i0 => exact .vlast _ _ (i0 (by lens hK))
  | vmore b e l h0 h1 i0 i1 => exact .vmore _ _ _ (i0 (by lens hK)) (i1 (by lens hK))
  | velem b e h0 i0 => exact .velem _ _ (i0 (by lens hK))
  | vnone => exact .vnone
  | vlists l h0 i0 => exact .vlists _ (i0 (by lens hK))
  | pnil => exact .pnil
  | part p l h0 h1 i0 i1 => exact .part _ _ (i0 (by lens hK)) (i1 (by lens hK))
  | ptext => exact .ptext
  | pvar => exact .pvar
  | pprop => exact .pprop
  | poff k h0 => exact .poff _ h0
  | pvname0 => exact .pvname0
  | pvname i h0 i0 => exact .pvname _ (i0 (by lens hK))
  | pcurly e h0 i0 => exact .pcurly _ (i0 (by lens hK))
  | pdollar e h0 i0 => exact .pdollar _ (i0 (by lens hK))

end KPhp.Grammar

namespace KPhp.Stmt
set_option linter.unusedVariables false
set_option linter.unusedSimpArgs false
open KPhp (Tok)
open KPhp.Grammar (E Closures Fits)

theorem len_sep {α} {k : Tok} {txt : α → List Tok} {l : List α} {a : α} (h : a ∈ l) : (txt a).length ≤ (sepTxt k txt l).length := by
  induction l with
  | nil => cases h
  | cons b l ih =>
    cases l with
    | nil => simp only [List.mem_singleton] at h; subst h; exact Nat.le_refl _
    | cons c l =>
      simp only [sepTxt, List.length_append, List.length_cons]
      rcases List.mem_cons.1 h with rfl | h
      · omega
      · have := ih h; omega
theorem len_many {α} {txt : α → List Tok} {l : List α} {a : α} (h : a ∈ l) : (txt a).length ≤ (manyTxt txt l).length := by
  induction l with
  | nil => cases h
  | cons b l ih =>
    simp only [manyTxt, List.length_append]
    rcases List.mem_cons.1 h with rfl | h
    · omega
    · have := ih h; omega

section
variable {A B : Closures} {K : Nat} (hAB : ∀ t : List Tok, t.length ≤ K → A.Ok t → B.Ok t)
include hAB

theorem sc_mono {c : ScCat} {s : Sc} (h : @ScFits A c s) (hK : s.toks.length ≤ K) : @ScFits B c s := by
  induction h with
  | scalar k h1 h2 => exact .scalar _ h1 h2
  | str l h =>
    refine .str _ fun e he => Fits.mono hAB (h e he) ?_
    have := len_many (txt := idxTxt) he
    simp only [Sc.toks, idxTxt, List.length_append, List.length_cons, List.length_nil] at hK this
    omega
  | nowdoc => exact .nowdoc
  | const n m h1 h2 => exact .const _ _ h1 h2
  | plus s h ih => exact .plus _ (ih (by simp only [Sc.toks, List.length_cons] at hK; omega))
  | minus s h ih => exact .minus _ (ih (by simp only [Sc.toks, List.length_cons] at hK; omega))
  | arr s l h ih =>
    exact .arr _ _ (ih (by cases s <;> simp only [Sc.toks, List.length_cons, List.length_append, List.length_nil] at hK <;> omega))
  | single s h ih => exact .single _ (ih hK)
  | pair k v h1 h2 i1 i2 =>
    simp only [Sc.toks, List.length_append, List.length_cons] at hK
    exact .pair _ _ (i1 (by omega)) (i2 (by omega))
  | nil => exact .nil
  | some l h ih => exact .some _ (ih hK)
  | last i h ih => exact .last _ (ih hK)
  | lastComma i h ih => exact .lastComma _ (ih (by simp only [Sc.toks, List.length_append] at hK; omega))
  | more i l h1 h2 i1 i2 =>
    simp only [Sc.toks, List.length_append, List.length_cons] at hK
    exact .more _ _ (i1 (by omega)) (i2 (by omega))

theorem vars_mono {l : List (Option Sc)} (h : @VarsOk A l) (hK : (varsTxt l).length ≤ K) : @VarsOk B l := by
  refine ⟨h.1, fun o ho s hs => sc_mono hAB (h.2 o ho s hs) ?_⟩
  have := len_sep (k := .COMMA) (txt := fun o => .VARIABLE :: assignTxt Sc.toks o) ho
  subst hs
  simp only [varsTxt, assignTxt, optTxt, List.length_cons] at hK this
  omega

theorem gvar_mono {v : GVar} (h : @GVar.Ok A v) (hK : v.toks.length ≤ K) : @GVar.Ok B v := by
  cases v with
  | name => trivial
  | dollar v => exact Fits.mono hAB h (by simp only [GVar.toks, List.length_cons] at hK; omega)
  | curly v => exact Fits.mono hAB h (by simp only [GVar.toks, List.length_append, List.length_cons] at hK; omega)

theorem exprs_mono {c : Grammar.Cat} {l : List E} (h : ∀ e ∈ l, @Fits A c e) (hK : (sepTxt .COMMA E.toks l).length ≤ K) :
    ∀ e ∈ l, @Fits B c e := fun e he => Fits.mono hAB (h e he) (Nat.le_trans (len_sep he) hK)

theorem line_mono {l : Line} (h : @Line.Ok A l) (hK : l.toks.length ≤ K) : @Line.Ok B l := by
  cases l with
  | bare k => exact h
  | expr e t => exact ⟨Fits.mono hAB h.1 (by simp only [Line.toks, List.length_append] at hK; omega), h.2⟩
  | word k e t =>
    refine ⟨h.1, fun x hx => Fits.mono hAB (h.2.1 x hx) ?_, h.2.2⟩
    subst hx
    simp only [Line.toks, optTxt, List.length_append, List.length_cons] at hK; omega
  | need k e t => exact ⟨h.1, Fits.mono hAB h.2.1 (by simp only [Line.toks, List.length_append, List.length_cons] at hK; omega), h.2.2⟩
  | echo l t =>
    exact ⟨⟨h.1.1, exprs_mono hAB h.1.2 (by simp only [Line.toks, List.length_append, List.length_cons] at hK; omega)⟩, h.2⟩
  | unset l t =>
    exact ⟨⟨h.1.1, exprs_mono hAB h.1.2 (by simp only [Line.toks, List.length_append, List.length_cons] at hK; omega)⟩, h.2⟩
  | global l t =>
    refine ⟨⟨h.1.1, fun v hv => gvar_mono hAB (h.1.2 v hv) ?_⟩, h.2⟩
    have := len_sep (k := .COMMA) (txt := GVar.toks) hv
    simp only [Line.toks, List.length_append, List.length_cons] at hK; omega
  | static l t => exact ⟨vars_mono hAB h.1 (by simp only [Line.toks, List.length_append, List.length_cons] at hK; omega), h.2⟩
  | const l =>
    refine ⟨h.1, fun e he => Fits.mono hAB (h.2 e he) ?_⟩
    have := len_sep (k := .COMMA) (txt := fun e => .STRING :: .ASSIGN :: E.toks e) he
    simp only [Line.toks, List.length_append, List.length_cons] at hK this; omega
  | use k l => exact h
  | goto => trivial
  | label => trivial

theorem head_mono {l : Head} (h : @Head.Ok A l) (hK : l.toks.length ≤ K) : @Head.Ok B l := by
  cases l with
  | while_ c => exact Fits.mono hAB h (by simp only [Head.toks, parenTxt, List.length_append, List.length_cons] at hK; omega)
  | for_ a b c =>
    simp only [Head.toks, List.length_append, List.length_cons] at hK
    exact ⟨exprs_mono hAB h.1 (by omega), exprs_mono hAB h.2.1 (by omega), exprs_mono hAB h.2.2 (by omega)⟩
  | foreach s r v w =>
    simp only [Head.toks, foreachVarTxt, List.length_append, List.length_cons] at hK
    refine ⟨Fits.mono hAB h.1 (by omega), fun hr => Fits.mono hAB (h.2.1 hr) (by omega), Fits.mono hAB h.2.2.1 (by omega), ?_⟩
    intro x hx
    subst hx
    simp only [optTxt, List.length_append, List.length_cons] at hK
    exact Fits.mono hAB (h.2.2.2 x rfl) (by omega)
  | declare l =>
    refine ⟨h.1, fun s hs => sc_mono hAB (h.2 s hs) ?_⟩
    have := len_sep (k := .COMMA) (txt := fun s => .STRING :: .ASSIGN :: Sc.toks s) hs
    simp only [Head.toks, List.length_append, List.length_cons] at hK this; omega

theorem params_mono {p : Params} (h : @ParamsOk A p) (hK : (paramsTxt p).length ≤ K) : @ParamsOk B p := by
  refine ⟨h.1, fun x hx => ⟨(h.2 x hx).1, fun e he => Fits.mono hAB ((h.2 x hx).2 e he) ?_⟩⟩
  have := len_sep (k := .COMMA) (txt := Param.toks) hx
  simp only [Param.toks, assignTxt, he, optTxt, List.length_append, List.length_cons] at this
  simp only [paramsTxt, listTxt, sepTrailTxt, List.length_append] at hK
  omega

theorem fhead_mono {names : List Tok} {f : FHead} (h : @FHead.Ok A names f) (hK : f.toks.length ≤ K) : @FHead.Ok B names f := by
  refine ⟨h.1, params_mono hAB h.2.1 ?_, h.2.2⟩
  simp only [FHead.toks, List.length_append, List.length_cons] at hK; omega

theorem member_mono {m : Member} (h : @Member.Ok A m) (hK : m.toks.length ≤ K) : @Member.Ok B m := by
  cases m with
  | var_ l => exact vars_mono hAB h (by simp only [Member.toks, List.length_append, List.length_cons] at hK; omega)
  | prop m x l => exact ⟨h.1, h.2.1, vars_mono hAB h.2.2 (by simp only [Member.toks, List.length_append, List.length_cons] at hK; omega)⟩
  | const m l =>
    refine ⟨h.1, h.2.1, fun x hx => ⟨(h.2.2 x hx).1, Fits.mono hAB (h.2.2 x hx).2 ?_⟩⟩
    have := len_sep (k := .COMMA) (txt := fun x : Tok × E => [x.1] ++ .ASSIGN :: x.2.toks) hx
    simp only [Member.toks, List.length_append, List.length_cons] at hK this; omega
  | use l x => exact h
  | func m f => exact ⟨h.1, fhead_mono hAB h.2 (by simp only [Member.toks, List.length_append] at hK; omega)⟩

theorem tree_mono (s : S) : ∀ c, @S.Fits A s c → s.toks.length ≤ K → @S.Fits B s c := by
  induction s with
  | line l => intro c h hK; exact ⟨h.1, line_mono hAB h.2 hK⟩
  | block b ih => intro c h hK; exact ⟨h.1, ih _ h.2 (by simp only [S.toks, List.length_append, List.length_cons] at hK; omega)⟩
  | ifs e b ih =>
    intro c h hK
    simp only [S.toks, parenTxt, List.length_append, List.length_cons] at hK
    exact ⟨h.1, Fits.mono hAB h.2.1 (by omega), ih _ h.2.2 (by omega)⟩
  | plain t r i1 i2 =>
    intro c h hK
    simp only [S.toks, List.length_append] at hK
    exact ⟨h.1, i1 _ h.2.1 (by omega), i2 _ h.2.2.1 (by omega), h.2.2.2⟩
  | altIf b r e i1 i2 =>
    intro c h hK
    simp only [S.toks, List.length_append, List.length_cons] at hK
    exact ⟨h.1, i1 _ h.2.1 (by omega), i2 _ h.2.2.1 (by omega), h.2.2.2⟩
  | loop x b ih =>
    intro c h hK
    simp only [S.toks, List.length_append] at hK
    exact ⟨h.1, head_mono hAB h.2.1 (by omega), ih _ h.2.2 (by omega)⟩
  | alt b w e ih =>
    intro c h hK
    simp only [S.toks, List.length_append, List.length_cons] at hK
    exact ⟨h.1, ih _ h.2.1 (by omega), h.2.2⟩
  | switch e b ih =>
    intro c h hK
    simp only [S.toks, parenTxt, List.length_append, List.length_cons] at hK
    exact ⟨h.1, Fits.mono hAB h.2.1 (by omega), ih _ h.2.2 (by omega)⟩
  | braces b l ih =>
    intro c h hK
    simp only [S.toks, List.length_append, List.length_cons] at hK
    exact ⟨h.1, ih _ h.2 (by omega)⟩
  | colon b l e ih =>
    intro c h hK
    simp only [S.toks, List.length_append, List.length_cons] at hK
    exact ⟨h.1, ih _ h.2.1 (by omega), h.2.2⟩
  | try_ b r i1 i2 =>
    intro c h hK
    simp only [S.toks, List.length_append, List.length_cons] at hK
    exact ⟨h.1, i1 _ h.2.1 (by omega), i2 _ h.2.2 (by omega)⟩
  | do_ s e t ih =>
    intro c h hK
    simp only [S.toks, parenTxt, List.length_append, List.length_cons] at hK
    exact ⟨h.1, ih _ h.2.1 (by omega), Fits.mono hAB h.2.2.1 (by omega), h.2.2.2⟩
  | func f b ih =>
    intro c h hK
    simp only [S.toks, List.length_append, List.length_cons] at hK
    exact ⟨h.1, fhead_mono hAB h.2.1 (by omega), ih _ h.2.2 (by omega)⟩
  | cls x l ih =>
    intro c h hK
    simp only [S.toks, List.length_append, List.length_cons] at hK
    exact ⟨h.1, h.2.1, ih _ h.2.2 (by omega)⟩
  | halt => intro c h _; exact h
  | nsLine p => intro c h _; exact h
  | nsBlock p b ih =>
    intro c h hK
    simp only [S.toks, List.length_append, List.length_cons] at hK
    exact ⟨h.1, h.2.1, ih _ h.2.2 (by omega)⟩
  | elif e s r i1 i2 =>
    intro c h hK
    simp only [S.toks, parenTxt, List.length_append, List.length_cons] at hK
    exact ⟨h.1, Fits.mono hAB h.2.1 (by omega), i1 _ h.2.2.1 (by omega), i2 _ h.2.2.2.1 (by omega), h.2.2.2.2⟩
  | els s ih => intro c h hK; exact ⟨h.1, ih _ h.2 (by simp only [S.toks, List.length_cons] at hK; omega)⟩
  | elifAlt e s r i1 i2 =>
    intro c h hK
    simp only [S.toks, parenTxt, List.length_append, List.length_cons] at hK
    exact ⟨h.1, Fits.mono hAB h.2.1 (by omega), i1 _ h.2.2.1 (by omega), i2 _ h.2.2.2.1 (by omega), h.2.2.2.2⟩
  | elsAlt s ih => intro c h hK; exact ⟨h.1, ih _ h.2 (by simp only [S.toks, List.length_cons] at hK; omega)⟩
  | noElse => intro c h _; exact h
  | case_ e t b ih =>
    intro c h hK
    simp only [S.toks, List.length_append, List.length_cons] at hK
    refine ⟨h.1, fun x hx => Fits.mono hAB (h.2.1 x hx) ?_, h.2.2.1, ih _ h.2.2.2 (by omega)⟩
    subst hx
    simp only [caseTxt, List.length_cons] at hK; omega
  | catch_ l b r i1 i2 =>
    intro c h hK
    simp only [S.toks, List.length_append, List.length_cons] at hK
    exact ⟨h.1, h.2.1, i1 _ h.2.2.1 (by omega), i2 _ h.2.2.2 (by omega)⟩
  | fin b ih =>
    intro c h hK
    simp only [S.toks, List.length_append, List.length_cons] at hK
    exact ⟨h.1, ih _ h.2 (by omega)⟩
  | noCatch => intro c h _; exact h
  | member m => intro c h hK; exact ⟨h.1, member_mono hAB h.2.1 hK, h.2.2⟩
  | abstr m =>
    intro c h hK
    simp only [S.toks, List.length_append] at hK
    exact ⟨h.1, member_mono hAB h.2.1 (by omega), h.2.2⟩
  | method m b ih =>
    intro c h hK
    simp only [S.toks, List.length_append, List.length_cons] at hK
    exact ⟨h.1, member_mono hAB h.2.1 (by omega), h.2.2.1, ih _ h.2.2.2 (by omega)⟩
  | nil => intro c h _; exact h
  | cons a l i1 i2 =>
    rintro c ⟨i, hi, ha, hl⟩ hK
    simp only [S.toks, List.length_append] at hK
    exact ⟨i, hi, i1 _ ha (by omega), i2 _ hl (by omega)⟩
end

end KPhp.Stmt
