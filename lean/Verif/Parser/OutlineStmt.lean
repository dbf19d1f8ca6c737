import Verif.Parser.OutlineFine
import Verif.Parser.StmtNesting
/-!
# Statements declare the classes their text says (C100)
-/
namespace KPhp.Outline
set_option linter.unusedVariables false
set_option linter.unusedSectionVars false
open KPhp (Tok)
open KPhp.Grammar (E Closures headIn Fits semiReserved modifierWords)
open KPhp.Stmt
open KPhp.Scopes (TypeKind)

variable [Closures]

/-! ### Texts without classes -/

theorem noKind_cons {t : Tok} {a : List Tok} (h : kindOf t = none) (ha : noKind a = true) : noKind (t :: a) = true := by simp [noKind] at *; exact ⟨h, ha⟩
theorem noKind_app {a b : List Tok} (ha : noKind a = true) (hb : noKind b = true) : noKind (a ++ b) = true := by rw [noKind_append, ha, hb]; rfl
theorem noKind_flag {k : Tok} (h : kindOf k = none) (b : Bool) : noKind (flagTxt k b) = true := by
  cases b
  · rfl
  · exact noKind_cons h rfl
theorem noKind_opt {α} {txt : α → List Tok} {o : Option α} (h : ∀ a, o = some a → noKind (txt a) = true) : noKind (optTxt txt o) = true := by
  cases o with
  | none => rfl
  | some a => exact h a rfl
theorem noKind_sep {α} {k : Tok} (hk : kindOf k = none) {txt : α → List Tok} {l : List α} (h : ∀ a ∈ l, noKind (txt a) = true) : noKind (sepTxt k txt l) = true := by
  induction l with
  | nil => rfl
  | cons a l ih =>
    cases l with
    | nil => exact h a (by simp)
    | cons b l => exact noKind_app (h a (by simp)) (noKind_cons hk (ih fun x hx => h x (List.mem_cons_of_mem _ hx)))
theorem noKind_many {α} {txt : α → List Tok} {l : List α} (h : ∀ a ∈ l, noKind (txt a) = true) : noKind (manyTxt txt l) = true := by
  induction l with
  | nil => rfl
  | cons a l ih => exact noKind_app (h a (by simp)) (ih fun x hx => h x (List.mem_cons_of_mem _ hx))
theorem noKind_string {l : List Tok} (h : ∀ t ∈ l, t = .STRING) : noKind (sepTxt .BACKSLASH tokTxt l) = true :=
  noKind_sep rfl fun t ht => by rw [h t ht]; rfl
theorem noKind_names {k : Tok} (hk : kindOf k = none) {l : List Name} (h : Names l) : noKind (sepTxt k Name.toks l) = true :=
  noKind_sep hk fun n hn => noKind_app (noKind_flag rfl _) (noKind_string (h.2 n hn).2)
theorem noKind_aname {n : Name} (h : n.Ok) : noKind n.toks = true := noKind_app (noKind_flag rfl _) (noKind_string h.2)
theorem noKind_hints {words : List Tok} (hw : Words words) {l : List Hint} (h : Hints words l) : noKind (hintsTxt l) = true :=
  noKind_sep rfl fun x hx => by
    refine noKind_app (noKind_flag rfl _) ?_
    have := h.2 x hx
    revert this
    cases x.type with
    | word t => intro ht; rcases hw t ht with rfl | rfl | rfl <;> rfl
    | name n => exact fun ht => noKind_aname ht
theorem kindOf_modifier {t : Tok} (h : t ∈ modifierWords) : kindOf t = none := by
  have hs : modifierWords.all (fun t => (kindOf t).isNone) = true := by decide
  simpa using List.all_eq_true.1 hs t h
theorem noKind_mods {l : List Tok} (h : Mods l) : noKind (manyTxt tokTxt l) = true := noKind_many fun m hm => noKind_cons (kindOf_modifier (h m hm)) rfl
theorem noKind_kind {o : Option Tok} (h : KindOk o) : noKind (kindTxt o) = true :=
  noKind_opt fun k hk => by rcases h k hk with rfl | rfl <;> rfl
theorem noKind_inner {i : Inner} (h : i.Ok) : noKind i.toks = true :=
  noKind_app (noKind_kind h.1) (noKind_app (noKind_string h.2.1.2) (noKind_opt fun t ht => by rw [h.2.2 t ht]; rfl))
theorem noKind_useItem {u : UseItem} (h : u.Ok) : noKind u.toks = true := by
  refine noKind_app (noKind_flag rfl _) (noKind_app (noKind_app (noKind_string h.1.2) (noKind_flag rfl _)) ?_)
  have := h.2.1
  revert this
  cases u.rest with
  | none => exact fun _ => rfl
  | alias => exact fun _ => rfl
  | group x => exact fun hx => noKind_cons rfl (noKind_app (noKind_app (noKind_sep rfl fun i hi => noKind_inner (hx.2 i hi)) (noKind_flag rfl _)) rfl)

/-! ### Parts -/

/-- the classes of `u` are those its text says -/
def Scans (c : Bool) (u : U) : Prop := (∀ o r, c = true ∨ Free r → scan o (u.toks ++ r) = u.types o ++ scan (o + u.toks.length) r) ∧ Shut u
theorem Fine.scans {c b : Bool} {u : U} (h : Fine c b u) : Scans c u := ⟨h.scan, h.shut⟩

theorem scans_txt {c : Bool} {ts : List Tok} (h : noKind ts = true) : Scans c (T ts) := (fine_txt (b := false) h).scans
theorem scans_app {c : Bool} {x y : U} (hx : Scans true x) (hy : Scans c y) : Scans c (x ++ y) := ⟨fun o r h => scan_app hx.1 hy.1 o r (.inl rfl) h, hx.2, hy.2⟩
theorem scans_mid {c : Bool} {x y : U} {t : Tok} {ts : List Tok} (hx : Scans false x) (ht : t ≠ .STRING) (hy : Scans c (T (t :: ts) ++ y)) :
    Scans c (x ++ (T (t :: ts) ++ y)) := ⟨fun o r h => scan_app hx.1 hy.1 o r (.inr (Begins.free ⟨t, ts ++ y.toks, rfl, ht⟩ r)) h, hx.2, hy.2⟩
theorem scans_end {c : Bool} {x : U} {t : Tok} {ts : List Tok} (hx : Scans false x) (ht : t ≠ .STRING) (h : noKind (t :: ts) = true) : Scans c (x ++ T (t :: ts)) :=
  ⟨fun o r hr => scan_app hx.1 (scans_txt (c := c) h).1 o r (.inr (Begins.free ⟨t, ts, rfl, ht⟩ r)) hr, hx.2, trivial⟩
theorem scans_lost {c : Bool} {x : U} (h : Scans c x) : Scans c (.lost x) := h
theorem Scans.weak {c : Bool} {x : U} (h : Scans true x) : Scans c x := ⟨fun o r _ => h.1 o r (.inl rfl), h.2⟩

/-- two texts -/
theorem fine_join {c b : Bool} {x y : List Tok} (h : Fine c b (T x ++ T y)) : Fine c b (T (x ++ y)) := ⟨h.scan, .inr (whole_txt _), trivial⟩

theorem fine_opt {α} {b : Bool} {f : α → U} {o : Option α} (h : ∀ a, o = some a → Fine false b (f a)) : Fine false b (optU f o) := by
  cases o with
  | none => exact fine_txt rfl
  | some a => exact h a rfl
theorem fine_sep {α} {k : Tok} (hk : k ≠ .STRING) (hn : kindOf k = none) {f : α → U} {l : List α} (h : ∀ a ∈ l, Fine false false (f a)) :
    Fine false false (sepU k f l) := by
  induction l with
  | nil => exact fine_txt rfl
  | cons a l ih =>
    cases l with
    | nil => exact h a (by simp)
    | cons b l => exact fine_mid (h a (by simp)) hk (fine_app (fine_txt (noKind_cons hn rfl)) (ih fun x hx => h x (List.mem_cons_of_mem _ hx)))

/-- no classes, unless the text hides something -/
def Dull (u : U) : Prop := hides u.toks = true ∨ Void u
theorem dull_txt (ts : List Tok) : Dull (T ts) := .inr (void_txt _)
theorem dull_app {x y : U} (hx : Dull x) (hy : Dull y) : Dull (x ++ y) := by
  rcases hx with hx | hx
  · exact .inl (hides_left _ _ hx)
  rcases hy with hy | hy
  · exact .inl (hides_right _ _ hy)
  · exact .inr ⟨fun o => by show x.types o ++ y.types _ = []; rw [hx.types, hy.types]; rfl,
      fun w o => by show x.marks w o ++ y.marks w _ = []; rw [hx.marks, hy.marks]; rfl, fun nm o => (hx.code _ _).empty (hy.code _ _)⟩
theorem dull_sep {α} {k : Tok} {f : α → U} {l : List α} (h : ∀ a ∈ l, Dull (f a)) : Dull (sepU k f l) := by
  induction l with
  | nil => exact dull_txt _
  | cons a l ih =>
    cases l with
    | nil => exact h a (by simp)
    | cons b l => exact dull_app (h a (by simp)) (dull_app (dull_txt _) (ih fun x hx => h x (List.mem_cons_of_mem _ hx)))
theorem dull_opt {α} {f : α → U} {o : Option α} (h : ∀ a, o = some a → Dull (f a)) : Dull (optU f o) := by
  cases o with
  | none => exact dull_txt _
  | some a => exact h a rfl
theorem fine_late' {c : Bool} {u : U} (hu : Fine c false u) (h : Dull u) : Fine c false (.late u) := fine_late hu (h.imp (fun h => hides_left _ _ h) id)

section
variable {clo : List Tok → U} (hclo : ∀ t, Closures.Ok t → Fine true false (clo t))
include hclo

theorem fine_ex {c : Grammar.Cat} {e : E} (h : Fits c e) : Fine false false (ex clo e) := by
  have := fine_expr (fun t h => (hclo t h).weak) h false
  exact ⟨fun o r hr => this.scan o r (.inr (by simpa using hr)), this.kept, this.shut⟩

theorem scans_idx {l : List E} (h : ∀ e ∈ l, Fits (.lev 0) e) : Scans true (idxTree clo l) := by
  induction l with
  | nil => exact scans_txt rfl
  | cons e l ih =>
    have h1 : Scans false (ex clo e) := (fine_ex hclo (h e (by simp))).scans
    cases l with
    | nil => exact scans_app (scans_txt rfl) (scans_end h1 (by decide) rfl)
    | cons f l =>
      exact scans_app (scans_txt rfl) (scans_mid (scans_lost h1) (by decide) (scans_app (scans_txt rfl) (ih fun x hx => h x (List.mem_cons_of_mem _ hx))))

theorem fine_sc {c : ScCat} {s : Sc} (h : ScFits c s) : Fine false false (Sc.tree clo s) ∧ Dull (Sc.tree clo s) := by
  induction h with
  | scalar k hk => exact ⟨fine_txt (by cases hk <;> rfl), dull_txt _⟩
  | nowdoc => exact ⟨fine_txt rfl, dull_txt _⟩
  | str l h =>
    have h1 : Scans true (Sc.tree clo (.str l)) := scans_app (scans_txt rfl) (scans_idx hclo h)
    cases l with
    | nil => exact ⟨fine_app (fine_txt rfl) (fine_txt rfl), dull_app (dull_txt _) (dull_txt _)⟩
    | cons e l =>
      have h2 : hides (Sc.tree clo (.str (e :: l))).toks = true := by cases l <;> rfl
      exact ⟨⟨h1.weak.1, .inl (hides_left _ _ h2), h1.2⟩, .inl h2⟩
  | const n m hn hm =>
    refine ⟨?_, dull_txt _⟩
    cases m with
    | none => exact fine_txt (noKind_app (noKind_aname hn) rfl)
    | some k =>
      have := fine_snoc (b := false) (ts := n.toks ++ [.PAAMAYIM_NEKUDOTAYIM]) (t := k) (noKind_app (noKind_aname hn) rfl)
      rw [List.append_assoc] at this
      exact this
  | plus s _ ih => exact ⟨fine_app (fine_txt rfl) ih.1, dull_app (dull_txt _) ih.2⟩
  | minus s _ ih => exact ⟨fine_app (fine_txt rfl) ih.1, dull_app (dull_txt _) ih.2⟩
  | arr s l _ ih =>
    cases s
    · exact ⟨fine_app (fine_txt rfl) (fine_end ih.1 (by decide) rfl), dull_app (dull_txt _) (dull_app ih.2 (dull_txt _))⟩
    · exact ⟨fine_app (fine_txt rfl) (fine_end ih.1 (by decide) rfl), dull_app (dull_txt _) (dull_app ih.2 (dull_txt _))⟩
  | single s _ ih => exact ih
  | pair k v _ _ ihk ihv => exact ⟨fine_mid ihk.1 (by decide) (fine_app (fine_txt rfl) ihv.1), dull_app ihk.2 (dull_app (dull_txt _) ihv.2)⟩
  | nil => exact ⟨fine_txt rfl, dull_txt _⟩
  | some l _ ih => exact ih
  | last i _ ih => exact ih
  | lastComma i _ ih => exact ⟨fine_end ih.1 (by decide) rfl, dull_app ih.2 (dull_txt _)⟩
  | more i l _ _ ihi ihl => exact ⟨fine_mid ihi.1 (by decide) (fine_app (fine_txt rfl) ihl.1), dull_app ihi.2 (dull_app (dull_txt _) ihl.2)⟩

theorem fine_param {p : Param} (h : p.Ok) : Fine false false (Param.tree clo p) := by
  refine fine_app (fine_txt ?_) (fine_opt fun e he => fine_app (fine_txt rfl) (fine_ex hclo (h.2 e he)))
  exact noKind_app (noKind_opt fun l hl => noKind_hints words_param (h.1 l hl)) (noKind_app (noKind_flag rfl _) (noKind_app (noKind_flag rfl _) rfl))
theorem fine_params {p : Params} (h : ParamsOk p) : Fine false false (paramsTree clo p) := by
  refine fine_maybe (fine_sep (by decide) rfl fun a ha => fine_param hclo (h.2 a ha)) (fine_txt (noKind_flag rfl _)) ?_
  cases p.2
  · exact .inl rfl
  · exact .inr ⟨_, _, rfl, by decide⟩
theorem fine_vars {l : List (Option Sc)} (h : VarsOk l) : Fine false false (varsTree clo l) ∧ Dull (varsTree clo l) :=
  ⟨fine_sep (by decide) rfl fun o ho => fine_app (fine_txt rfl) (fine_opt fun s hs => fine_app (fine_txt rfl) (fine_sc hclo (h.2 o ho s hs)).1),
    dull_sep fun o ho => dull_app (dull_txt _) (dull_opt fun s hs => dull_app (dull_txt _) (fine_sc hclo (h.2 o ho s hs)).2)⟩
theorem fine_gvar {v : GVar} (h : v.Ok) : Fine false false (GVar.tree clo v) := by
  cases v with
  | name => exact fine_txt rfl
  | dollar v => exact fine_app (fine_txt rfl) (fine_ex hclo h)
  | curly e => exact fine_app (fine_txt rfl) (fine_end (fine_ex hclo h) (by decide) rfl)
omit hclo in
theorem semi_ne {t : Tok} (h : Semi t) : t ≠ .STRING := by rcases h with rfl | rfl <;> decide
omit hclo in
theorem noKind_semi {t : Tok} (h : Semi t) : noKind [t] = true := by rcases h with rfl | rfl <;> rfl
theorem fine_exprs {l : List E} (h : ∀ e ∈ l, Fits (.lev 0) e) : Fine false false (sepU .COMMA (ex clo) l) :=
  fine_sep (by decide) rfl fun e he => fine_ex hclo (h e he)
theorem fine_line {l : Line} (h : l.Ok) : Fine true false (Line.tree clo l) := by
  cases l with
  | bare k => rcases h with rfl | rfl | rfl | rfl <;> exact fine_txt rfl
  | expr e t => exact fine_end (fine_ex hclo h.1) (semi_ne h.2) (noKind_semi h.2)
  | word k e t =>
    refine fine_app (fine_txt ?_) (fine_end (fine_opt fun x hx => fine_ex hclo (h.2.1 x hx)) (semi_ne h.2.2) (noKind_semi h.2.2))
    rcases h.1 with rfl | rfl | rfl <;> rfl
  | need k e t =>
    refine fine_app (fine_txt ?_) (fine_end (fine_ex hclo h.2.1) (semi_ne h.2.2) (noKind_semi h.2.2))
    rcases h.1 with rfl | rfl <;> rfl
  | echo l t => exact fine_app (fine_txt rfl) (fine_end (fine_exprs hclo h.1.2) (semi_ne h.2) (noKind_semi h.2))
  | unset l t =>
    exact fine_app (fine_txt rfl) (fine_end (fine_sep (by decide) rfl fun e he => fine_ex hclo (h.1.2 e he)) (by decide) (noKind_cons rfl (noKind_semi h.2)))
  | global l t => exact fine_app (fine_txt rfl) (fine_end (fine_sep (by decide) rfl fun v hv => fine_gvar hclo (h.1.2 v hv)) (semi_ne h.2) (noKind_semi h.2))
  | static l t => exact fine_app (fine_txt rfl) (fine_end (fine_vars hclo h.1).1 (semi_ne h.2) (noKind_semi h.2))
  | const l =>
    exact fine_app (fine_txt rfl) (fine_end (fine_sep (by decide) rfl fun e he => fine_app (fine_txt rfl) (fine_ex hclo (h.2 e he))) (by decide) rfl)
  | use k l => exact fine_txt (noKind_cons rfl (noKind_app (noKind_kind h.1) (noKind_app (noKind_sep rfl fun u hu => noKind_useItem (h.2.2.1 u hu)) rfl)))
  | goto => exact fine_txt rfl
  | label => exact fine_txt rfl

theorem fine_paren {e : E} (h : Fits (.lev 0) e) : Fine true false (parenTree clo e) := fine_app (fine_txt rfl) (fine_end (fine_ex hclo h) (by decide) rfl)
theorem scans_declare {l : List Sc} (h : ∀ s ∈ l, ScFits .sc s) : Scans false (declareTree clo l) := by
  induction l with
  | nil => exact scans_txt rfl
  | cons s l ih =>
    have h1 : Scans false (Sc.tree clo s) := (fine_sc hclo (h s (by simp))).1.scans
    cases l with
    | nil => exact scans_app (scans_txt rfl) h1
    | cons s' l =>
      exact scans_app (scans_txt rfl) (scans_mid (scans_lost h1) (by decide) (scans_app (scans_txt rfl) (ih fun x hx => h x (List.mem_cons_of_mem _ hx))))
theorem fine_head {h : Head} (hk : h.Ok) : Fine true false (Head.tree clo h) := by
  cases h with
  | while_ c => exact fine_app (fine_txt rfl) (fine_paren hclo hk)
  | for_ a b c =>
    exact fine_app (fine_txt rfl) (fine_mid (fine_exprs hclo hk.1) (by decide) (fine_app (fine_txt rfl) (fine_mid (fine_exprs hclo hk.2.1) (by decide)
      (fine_app (fine_txt rfl) (fine_end (fine_exprs hclo hk.2.2) (by decide) rfl)))))
  | foreach s r v w =>
    refine fine_app (fine_txt rfl) (fine_mid (fine_ex hclo hk.1) (by decide) (fine_app (fine_txt (noKind_cons rfl (noKind_flag rfl _))) ?_))
    cases w with
    | none => exact fine_then (fine_ex hclo hk.2.2.1) (fine_app (fine_txt rfl) (fine_txt rfl)) ⟨_, _, rfl, by decide⟩
    | some x =>
      refine fine_then (fine_ex hclo hk.2.2.1) (fine_end (fine_app (fine_txt (noKind_cons rfl (noKind_flag rfl _))) (fine_ex hclo (hk.2.2.2 x rfl))) (by decide) rfl) ?_
      exact ⟨_, _, rfl, by decide⟩
  | declare l =>
    have h1 : Scans true (Head.tree clo (.declare l)) := scans_app (scans_txt rfl) (scans_end (ts := []) (scans_declare hclo hk.2) (by decide) rfl)
    exact ⟨h1.1, .inl rfl, h1.2⟩
theorem fine_fparams {names : List Tok} {f : FHead} (h : f.Ok names) : Fine true false (fparams clo f) :=
  fine_app (fine_txt rfl) (fine_end (fine_params hclo h.2.1) (by decide)
    (noKind_cons rfl (noKind_opt fun l hl => noKind_cons rfl (noKind_hints words_return (h.2.2 l hl)))))
omit hclo in
theorem begins_fparams (f : FHead) : Begins (fparams clo f).toks := ⟨_, _, rfl, by decide⟩
omit hclo in
theorem fine_cls {rest : U} (hr : Fine true false rest) (hl : rest.toks.getLast? = some .RBRACE) {h : CHead} (hk : h.Ok) : Fine true false (clsTree rest h) := by
  have hl2 : ∀ ts, (T ts ++ rest).toks.getLast? = some .RBRACE := fun ts => by
    show (ts ++ rest.toks).getLast? = _
    rw [List.getLast?_append, hl]; rfl
  cases h with
  | cls m e i =>
    refine fine_type (fun t ht => ?_) (hl2 _) (fine_app (fine_txt (noKind_app
      (noKind_opt fun n hn => noKind_cons rfl (noKind_aname (hk.2.1 n hn))) (noKind_opt fun l hl => noKind_cons rfl (noKind_names rfl (hk.2.2 l hl))))) hr)
    cases m with
    | none => simp [optTxt] at ht
    | some k => simp [optTxt, tokTxt] at ht; exact hk.1 _ (by rw [ht])
  | trait => exact fine_type (by simp) hl hr
  | interface e => exact fine_type (by simp) (hl2 _) (fine_app (fine_txt (noKind_opt fun l hl => noKind_cons rfl (noKind_names rfl (hk l hl)))) hr)
omit hclo in
theorem fine_what {w : AWhat} (h : w.Ok) : Fine false false (T w.toks) := by
  cases w with
  | as1 t => exact fine_snoc (ts := [.AS]) rfl
  | as2 m t => exact fine_snoc (ts := [.AS, m]) (noKind_cons rfl (noKind_cons (kindOf_modifier h.1) rfl))
  | instead l => exact fine_txt (noKind_cons rfl (noKind_names rfl h))
omit hclo in
theorem begins_what (w : AWhat) : Begins w.toks := by cases w <;> exact ⟨_, _, rfl, by decide⟩
omit hclo in
theorem fine_alias {a : Alias} (h : a.Ok) : Fine false false (T a.toks) := by
  refine fine_join (fine_app (fine_txt (noKind_app (noKind_aname h.1) rfl)) (fine_join (fine_then (fine_snoc (ts := []) rfl) (fine_what h.2.2) ?_)))
  exact begins_what _
omit hclo in
theorem fine_sepT {α} {k : Tok} (hk : k ≠ .STRING) (hn : kindOf k = none) {f : α → List Tok} {l : List α} (h : ∀ a ∈ l, Fine false false (T (f a))) :
    Fine false false (T (sepTxt k f l)) := by
  induction l with
  | nil => exact fine_txt rfl
  | cons a l ih =>
    cases l with
    | nil => exact h a (by simp)
    | cons b l =>
      exact fine_join (fine_then (h a (by simp)) (fine_join (x := [k]) (fine_app (fine_txt (noKind_cons hn rfl)) (ih fun x hx => h x (List.mem_cons_of_mem _ hx))))
        ⟨_, _, rfl, hk⟩)
theorem fine_member {hb : Bool} {rest : U} (hr : Fine true false rest) {m : Member} (h0 : m.isFunc = true → hb = true ∧ (Braced rest ∨ rest = T [.SEMICOLON])) (h : m.Ok) : Fine true false (Member.tree clo hb rest m) := by
  cases m with
  | var_ l =>
    have := fine_vars hclo h
    exact fine_app (fine_app (fine_txt rfl) (fine_end (fine_late' this.1 this.2) (by decide) rfl)) hr
  | prop m x l =>
    have := fine_vars hclo h.2.2
    exact fine_app (fine_app (fine_txt (noKind_app (noKind_mods h.1) (noKind_opt fun y hy => noKind_hints words_property (h.2.1 y hy))))
      (fine_end (fine_late' this.1 this.2) (by decide) rfl)) hr
  | const m l =>
    refine fine_app (fine_app (fine_txt (noKind_app (noKind_mods h.1) rfl)) (fine_end (fine_sep (by decide) rfl fun x hx => ?_) (by decide) rfl)) hr
    exact fine_mid (fine_snoc (ts := []) rfl) (by decide) (fine_app (fine_txt rfl) (fine_ex hclo (h.2.2 x hx).2))
  | use l x =>
    refine fine_app ?_ hr
    refine fine_join (x := [.USE]) (fine_app (fine_txt rfl) (fine_join (fine_app (fine_txt (noKind_names rfl h.1)) ?_)))
    cases x with
    | none => exact fine_txt rfl
    | some i =>
      refine fine_join (x := [.LBRACE]) (fine_app (fine_txt rfl) (fine_join (fine_then ?_ (fine_txt rfl) ⟨_, _, rfl, by decide⟩)))
      refine fine_join (fine_maybe (fine_sepT (by decide) rfl fun a ha => fine_alias ((h.2 i rfl).2.1 a ha)) (fine_txt (noKind_flag rfl _)) ?_)
      cases i.2
      · exact .inl rfl
      · exact .inr ⟨_, _, rfl, by decide⟩
  | func m f =>
    exact (fine_func (noKind_app (noKind_mods h.1) (noKind_cons rfl (noKind_flag rfl _))) (fine_fparams hclo h.2) (begins_fparams f) hr).2 hb (h0 rfl)

theorem fine_brace {x : U} (hx : Fine true false x) : Fine true false (T [.LBRACE] ++ (x ++ T [.RBRACE])) :=
  fine_app (fine_txt rfl) (fine_app hx (fine_txt rfl))

omit hclo in
theorem endWord_ok (h : Head) : h.endWord ≠ .STRING ∧ kindOf h.endWord = none := by cases h <;> exact ⟨(fun e => by cases e), rfl⟩

theorem fine_tree (s : S) : ∀ c, (∀ w, c = .loopBody w → w ≠ .STRING ∧ kindOf w = none) → s.Fits c → Fine true false (S.tree clo s) := by
  have nb : ∀ c : Cat, (∀ w, c ≠ .loopBody w) → ∀ w, c = .loopBody w → w ≠ .STRING ∧ kindOf w = none := fun c h w hw => absurd hw (h w)
  induction s with
  | line l => exact fun c _ h => fine_line hclo h.2
  | block b ih => exact fun c _ h => fine_brace hclo (ih _ (nb _ (by simp)) h.2)
  | ifs e b ih => exact fun c _ h => fine_app (fine_txt rfl) (fine_app (fine_paren hclo h.2.1) (ih _ (nb _ (by simp)) h.2.2))
  | plain t x ih1 ih2 => exact fun c _ h => fine_app (ih1 _ (nb _ (by simp)) h.2.1) (ih2 _ (nb _ (by simp)) h.2.2.1)
  | altIf b x e ih1 ih2 =>
    intro c _ h
    have h1 := ih1 _ (nb _ (by simp)) h.2.1
    have h2 := ih2 _ (nb _ (by simp)) h.2.2.1
    have h3 : Scans true (T [.ENDIF, e]) := scans_txt (noKind_cons rfl (noKind_semi h.2.2.2.2))
    have h4 := scans_app (c := true) (scans_txt (ts := [.COLON]) rfl) (scans_app h1.scans (scans_app (scans_lost h2.scans) h3))
    refine ⟨h4.1, .inl (hides_left _ _ ?_), h4.2⟩
    exact hides_right [.COLON] _ (hides_right _ _ (hides_right _ _ rfl))
  | loop hd b ih =>
    intro c _ h
    have h1 := fine_head hclo h.2.1
    have h2 := ih _ (fun w hw => by cases hw; exact endWord_ok hd) h.2.2
    cases hd with
    | declare l => exact ⟨(scans_app h1.scans (scans_lost h2.scans)).1, .inl rfl, h1.shut, h2.shut⟩
    | while_ _ => exact fine_app h1 h2
    | for_ _ _ _ => exact fine_app h1 h2
    | foreach _ _ _ _ => exact fine_app h1 h2
  | alt b w e ih =>
    exact fun c hc h => fine_app (fine_txt rfl) (fine_app (ih _ (nb _ (by simp)) h.2.1) (fine_txt (noKind_cons (hc w h.1).2 (noKind_semi h.2.2))))
  | switch e b ih => exact fun c _ h => fine_app (fine_txt rfl) (fine_app (fine_paren hclo h.2.1) (ih _ (nb _ (by simp)) h.2.2))
  | braces x l ih => exact fun c _ h => fine_app (fine_txt (noKind_cons rfl (noKind_flag rfl _))) (fine_app (ih _ (nb _ (by simp)) h.2) (fine_txt rfl))
  | colon x l e ih =>
    exact fun c _ h => fine_app (fine_txt (noKind_cons rfl (noKind_flag rfl _))) (fine_app (ih _ (nb _ (by simp)) h.2.1) (fine_txt (noKind_cons rfl (noKind_semi h.2.2))))
  | try_ b x ih1 ih2 =>
    exact fun c _ h => fine_app (fine_txt rfl) (fine_app (ih1 _ (nb _ (by simp)) h.2.1) (fine_app (fine_txt rfl) (ih2 _ (nb _ (by simp)) h.2.2)))
  | do_ s e t ih =>
    exact fun c _ h => fine_app (fine_txt rfl) (fine_app (ih _ (nb _ (by simp)) h.2.1) (fine_app (fine_txt rfl)
      (fine_app (fine_paren hclo h.2.2.1) (fine_txt (noKind_semi h.2.2.2)))))
  | func f b ih =>
    exact fun c _ h => (fine_func (noKind_cons rfl (noKind_flag rfl _)) (fine_fparams hclo h.2.1) (begins_fparams f) (fine_brace hclo (ih _ (nb _ (by simp)) h.2.2))).1 ⟨_, rfl⟩
  | cls f b ih => exact fun c _ h => fine_cls (fine_brace hclo (ih _ (nb _ (by simp)) h.2.2)) (by show (Tok.LBRACE :: (_ ++ [Tok.RBRACE])).getLast? = _; rw [← List.cons_append, List.getLast?_concat]) h.2.1
  | halt => exact fun c _ h => fine_txt rfl
  | nsLine p => exact fun c _ h => fine_txt (noKind_cons rfl (noKind_app (noKind_string h.2.2) rfl))
  | nsBlock p b ih =>
    exact fun c _ h => fine_app (fine_txt (noKind_cons rfl (noKind_app (noKind_string h.2.1) rfl))) (fine_app (ih _ (nb _ (by simp)) h.2.2) (fine_txt rfl))
  | elif e s x ih1 ih2 =>
    exact fun c _ h => fine_app (fine_txt rfl) (fine_app (fine_paren hclo h.2.1) (fine_app (ih1 _ (nb _ (by simp)) h.2.2.1) (ih2 _ (nb _ (by simp)) h.2.2.2.1)))
  | els s ih => exact fun c _ h => fine_app (fine_txt rfl) (ih _ (nb _ (by simp)) h.2)
  | elifAlt e b x ih1 ih2 =>
    exact fun c _ h => fine_app (fine_txt rfl) (fine_app (fine_paren hclo h.2.1) (fine_app (fine_txt rfl) (fine_app (ih1 _ (nb _ (by simp)) h.2.2.1)
      (ih2 _ (nb _ (by simp)) h.2.2.2.1))))
  | elsAlt s ih => exact fun c _ h => fine_app (fine_txt rfl) (ih _ (nb _ (by simp)) h.2)
  | noElse => exact fun c _ h => fine_txt rfl
  | noCatch => exact fun c _ h => fine_txt rfl
  | nil => exact fun c _ h => fine_txt rfl
  | case_ e t b ih =>
    intro c _ h
    have h1 : Fine false false (caseTree clo e) := by
      cases e with
      | none => exact fine_txt rfl
      | some e => exact fine_app (fine_txt rfl) (fine_ex hclo (h.2.1 e rfl))
    have ht : t ≠ .STRING ∧ kindOf t = none := by rcases h.2.2.1 with rfl | rfl <;> exact ⟨by decide, rfl⟩
    exact fine_mid h1 ht.1 (fine_app (fine_txt (noKind_cons ht.2 rfl)) (ih _ (nb _ (by simp)) h.2.2.2))
  | catch_ l b x ih1 ih2 =>
    exact fun c _ h => fine_app (fine_txt (noKind_cons rfl (noKind_cons rfl (noKind_app (noKind_names rfl h.2.1) rfl))))
      (fine_app (ih1 _ (nb _ (by simp)) h.2.2.1) (fine_app (fine_txt rfl) (ih2 _ (nb _ (by simp)) h.2.2.2)))
  | fin b ih => exact fun c _ h => fine_app (fine_txt rfl) (fine_app (ih _ (nb _ (by simp)) h.2) (fine_txt rfl))
  | member m => exact fun c _ h => fine_member hclo (fine_txt rfl) (fun e => by rw [h.2.2] at e; cases e) h.2.1
  | abstr m => exact fun c _ h => fine_member hclo (fine_txt rfl) (fun _ => ⟨rfl, .inr rfl⟩) h.2.1
  | method m b ih => exact fun c _ h => fine_member hclo (fine_brace hclo (ih _ (nb _ (by simp)) h.2.2.2)) (fun _ => ⟨rfl, .inl ⟨_, rfl⟩⟩) h.2.1
  | cons a l ih1 ih2 =>
    rintro c hc ⟨i, hi, ha, hl⟩
    exact fine_app (ih1 _ (nb _ (by cases c <;> cases hi <;> simp)) ha) (ih2 _ hc hl)
end
end KPhp.Outline
