import Verif.Parser.Outline
/-!
# An outline has the tokens of its file
-/
namespace KPhp.Outline
open KPhp (Tok)
open KPhp.Grammar (E Closures headIn)
open KPhp.Stmt

theorem toks_append (a b : U) : (a ++ b).toks = a.toks ++ b.toks := rfl
theorem toks_T (ts : List Tok) : (T ts).toks = ts := rfl
theorem toks_lost (a : U) : (U.lost a).toks = a.toks := rfl
theorem toks_late (a : U) : (U.late a).toks = a.toks := rfl
theorem toks_ite (c : Bool) (a : U) : (if c = true then U.lost a else a).toks = a.toks := by cases c <;> rfl

theorem toks_optU {α} {f : α → U} {txt : α → List Tok} (h : ∀ a, (f a).toks = txt a) (o : Option α) : (optU f o).toks = optTxt txt o := by
  cases o <;> simp [optU, optTxt, toks_T, h]
theorem toks_sepU {α} {f : α → U} {txt : α → List Tok} (h : ∀ a, (f a).toks = txt a) (k : Tok) (l : List α) : (sepU k f l).toks = sepTxt k txt l := by
  induction l with
  | nil => rfl
  | cons a l ih =>
    cases l with
    | nil => exact h a
    | cons b l => simp only [sepU, sepTxt, toks_append, toks_T, h, ih]; simp

section
variable {clo : List Tok → U} (hc : ∀ t, (clo t).toks = t)
include hc

theorem toks_expr (e : E) : ∀ over, (E.tree clo over e).toks = e.toks := by
  induction e with
  | closure t => exact fun _ => hc t
  | arr s l ih => intro over; cases s <;> simp [E.tree, E.toks, toks_append, toks_T, ih]
  | index b i ihb ihi => intro over; simp only [E.tree, E.toks, toks_append, toks_T, toks_ite, ihb, ihi]; simp
  | _ => intro over; simp [E.tree, E.toks, toks_append, toks_T, *]

theorem toks_idx (l : List E) : (idxTree clo l).toks = manyTxt idxTxt l := by
  induction l with
  | nil => rfl
  | cons e l ih =>
    cases l with
    | nil => simp [idxTree, manyTxt, idxTxt, toks_append, toks_T, toks_expr hc]
    | cons f l => simp only [idxTree, toks_append, toks_T, toks_lost, ih]; simp [manyTxt, idxTxt, toks_expr hc]

theorem toks_sc (s : Sc) : (Sc.tree clo s).toks = s.toks := by
  induction s with
  | arr s l ih => cases s <;> simp [Sc.tree, Sc.toks, toks_append, toks_T, ih]
  | str l => simp [Sc.tree, Sc.toks, toks_append, toks_T, toks_idx hc]
  | _ => simp [Sc.tree, Sc.toks, toks_append, toks_T, *]

theorem toks_param (p : Param) : (Param.tree clo p).toks = p.toks := by
  have h := toks_optU (f := fun e => T [.ASSIGN] ++ ex clo e) (txt := fun e => Tok.ASSIGN :: E.toks e)
    (fun e => by simp [toks_append, toks_T, toks_expr hc])
  simp only [Param.tree, Param.toks, toks_append, toks_T, h, assignTxt]
  simp
theorem toks_params (x : Params) : (paramsTree clo x).toks = paramsTxt x := by
  simp only [paramsTree, paramsTxt, listTxt, sepTrailTxt, toks_append, toks_T, toks_sepU (toks_param hc)]
theorem toks_vars (l : List (Option Sc)) : (varsTree clo l).toks = varsTxt l := by
  refine toks_sepU (fun o => ?_) _ _
  cases o <;> simp [optU, assignTxt, optTxt, toks_append, toks_T, toks_sc hc]
theorem toks_gvar (v : GVar) : (GVar.tree clo v).toks = v.toks := by
  cases v <;> simp [GVar.tree, GVar.toks, toks_append, toks_T, toks_expr hc]
theorem toks_line (l : Line) : (Line.tree clo l).toks = l.toks := by
  have he := toks_optU (fun e => toks_expr hc e false)
  have hs := toks_sepU (fun e => toks_expr hc e false)
  have hg := toks_sepU (toks_gvar hc)
  have hk := toks_sepU (f := fun e => T [.STRING, .ASSIGN] ++ ex clo e) (txt := fun e => .STRING :: .ASSIGN :: E.toks e)
    (fun e => by simp [toks_append, toks_T, toks_expr hc])
  cases l <;> simp [Line.tree, Line.toks, toks_append, toks_T, toks_expr hc, he, hs, hg, hk, toks_vars hc]
theorem toks_paren (e : E) : (parenTree clo e).toks = parenTxt e := by simp [parenTree, parenTxt, toks_append, toks_T, toks_expr hc]
theorem toks_declare (l : List Sc) : (declareTree clo l).toks = sepTxt .COMMA (fun s => .STRING :: .ASSIGN :: s.toks) l := by
  induction l with
  | nil => rfl
  | cons s l ih =>
    cases l with
    | nil => simp [declareTree, sepTxt, toks_append, toks_T, toks_sc hc]
    | cons s' l => simp only [declareTree, toks_append, toks_T, toks_lost, ih]; simp [sepTxt, toks_sc hc]
theorem toks_head (h : Head) : (Head.tree clo h).toks = h.toks := by
  have hs := toks_sepU (fun e => toks_expr hc e false)
  have hw := toks_optU (f := fun x => T (.DOUBLE_ARROW :: flagTxt .BIT_AND x.1) ++ ex clo x.2) (txt := fun x => .DOUBLE_ARROW :: foreachVarTxt x)
    (fun e => by simp [toks_append, toks_T, toks_expr hc, foreachVarTxt])
  cases h <;> simp [Head.tree, Head.toks, toks_append, toks_T, toks_expr hc, hs, hw, toks_paren hc, toks_declare hc, foreachVarTxt]
theorem toks_fparams (f : FHead) : ffront f ++ f.name :: (fparams clo f).toks = f.toks := by
  simp [ffront, fparams, FHead.toks, toks_append, toks_T, toks_params hc]
omit hc in
theorem toks_cls (rest : U) (h : CHead) : (clsTree rest h).toks = h.toks ++ rest.toks := by
  cases h <;> simp [clsTree, CHead.toks, U.toks, wordOf, toks_append]
theorem toks_member (b : Bool) (rest : U) (m : Member) : (Member.tree clo b rest m).toks = m.toks ++ rest.toks := by
  have hk := toks_sepU (f := fun x : Tok × E => T [x.1] ++ (T [.ASSIGN] ++ ex clo x.2)) (txt := fun x => [x.1] ++ .ASSIGN :: x.2.toks)
    (fun e => by simp [toks_append, toks_T, toks_expr hc])
  cases m with
  | func m f =>
    simp only [Member.tree, U.toks, Member.toks, ← toks_fparams hc]
    simp
  | _ => simp [Member.tree, Member.toks, toks_append, toks_T, toks_late, toks_vars hc, hk]

theorem toks_tree (s : S) : (S.tree clo s).toks = s.toks := by
  induction s with
  | loop h b ih => cases h <;> simp [S.tree, S.toks, toks_append, toks_lost, toks_head hc, ih]
  | func f b ih =>
    simp only [S.tree, U.toks, S.toks, ← toks_fparams hc]
    simp [toks_append, toks_T, ih]
  | case_ c t b ih => cases c <;> simp [S.tree, S.toks, caseTree, caseTxt, toks_append, toks_T, toks_expr hc, ih]
  | _ => simp [S.tree, S.toks, toks_append, toks_T, toks_lost, toks_line hc, toks_paren hc, toks_cls, toks_member hc, *]

theorem toks_clo (c : Clo) : (Clo.tree clo c).toks = c.toks := by
  simp [Clo.tree, U.toks, Clo.toks, toks_append, toks_params hc, toks_tree hc]
end

theorem toks_cloTree (n : Nat) : ∀ t, (cloTree n t).toks = t := by
  induction n with
  | zero => exact fun t => rfl
  | succ n ih =>
    intro t
    simp only [cloTree]
    split
    · rename_i c h
      rw [toks_clo ih, (closure_sound _ _ _ h).1, List.append_nil]
    · rfl

/-- The outline of a part of a file has its tokens, in order, and no others. -/
theorem outline_toks (n : Nat) (s : S) : (outline n s).toks = s.toks := toks_tree (toks_cloTree n) s

end KPhp.Outline
