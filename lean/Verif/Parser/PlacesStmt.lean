import Verif.Parser.PlacesFine
import Verif.Parser.OutlineStmt
/-!
# Every statement declares what its text says, where its text says it (C101)
-/
namespace KPhp.Outline
set_option linter.unusedVariables false
set_option linter.unusedSectionVars false
open KPhp (Tok)
open KPhp.Grammar (E Closures headIn Fits semiReserved modifierWords words)
open KPhp.Stmt
open KPhp.Scopes (TypeKind)

variable [Closures]

/-! ### Texts in which nothing is declared -/

theorem plain_cons {t : Tok} {a : List Tok} (h : plain t = true) (ha : Plain a = true) : Plain (t :: a) = true := by simp [Plain] at *; exact ⟨h, ha⟩
theorem plain_app {a b : List Tok} (ha : Plain a = true) (hb : Plain b = true) : Plain (a ++ b) = true := by
  simp only [Plain, List.all_append, Bool.and_eq_true] at *; exact ⟨ha, hb⟩
theorem plain_flag {k : Tok} (h : plain k = true) (b : Bool) : Plain (flagTxt k b) = true := by
  cases b
  · rfl
  · exact plain_cons h rfl
theorem plain_opt {α} {txt : α → List Tok} {o : Option α} (h : ∀ a, o = some a → Plain (txt a) = true) : Plain (optTxt txt o) = true := by
  cases o with
  | none => rfl
  | some a => exact h a rfl
theorem plain_sep {α} {k : Tok} (hk : plain k = true) {txt : α → List Tok} {l : List α} (h : ∀ a ∈ l, Plain (txt a) = true) : Plain (sepTxt k txt l) = true := by
  induction l with
  | nil => rfl
  | cons a l ih =>
    cases l with
    | nil => exact h a (by simp)
    | cons b l => exact plain_app (h a (by simp)) (plain_cons hk (ih fun x hx => h x (List.mem_cons_of_mem _ hx)))
theorem plain_many {α} {txt : α → List Tok} {l : List α} (h : ∀ a ∈ l, Plain (txt a) = true) : Plain (manyTxt txt l) = true := by
  induction l with
  | nil => rfl
  | cons a l ih => exact plain_app (h a (by simp)) (ih fun x hx => h x (List.mem_cons_of_mem _ hx))
theorem plain_string {l : List Tok} (h : ∀ t ∈ l, t = .STRING) : Plain (sepTxt .BACKSLASH tokTxt l) = true :=
  plain_sep rfl fun t ht => by rw [h t ht]; rfl
theorem plain_names {k : Tok} (hk : plain k = true) {l : List Name} (h : Names l) : Plain (sepTxt k Name.toks l) = true :=
  plain_sep hk fun n hn => plain_app (plain_flag rfl _) (plain_string (h.2 n hn).2)
theorem plain_aname {n : Name} (h : n.Ok) : Plain n.toks = true := plain_app (plain_flag rfl _) (plain_string h.2)
theorem plain_hints {words : List Tok} (hw : Words words) {l : List Hint} (h : Hints words l) : Plain (hintsTxt l) = true :=
  plain_sep rfl fun x hx => by
    refine plain_app (plain_flag rfl _) ?_
    have := h.2 x hx
    revert this
    cases x.type with
    | word t => intro ht; rcases hw t ht with rfl | rfl | rfl <;> rfl
    | name n => exact fun ht => plain_aname ht
theorem plain_mods {l : List Tok} (h : Mods l) : Plain (manyTxt tokTxt l) = true := plain_many fun m hm => plain_cons (by
  have hs : modifierWords.all plain = true := by decide
  exact List.all_eq_true.1 hs m (h m hm)) rfl
theorem Plain.calm {l : List Tok} (h : Plain l = true) : Calm l = true :=
  List.all_eq_true.2 fun t ht => by simp [Outline.calm, List.all_eq_true.1 h t ht]

theorem go_pre' {w : List Nat} {a : Lv} {x ts : List Tok} (e : ts = x ++ [.LBRACE]) (h : Calm x = true) : Go w a (inside w a) (T ts) := by subst e; exact go_pre h

/-! ### Words in front of punctuation -/

/-- follows a name that is no name of a class or function -/
def softToks : List Tok := [.ASSIGN, .SEMICOLON, .COMMA, .RBRACE]
/-- … if one of these follows -/
def GoS (w : List Nat) (a b : Lv) (u : U) : Prop :=
  ∀ o r, headIn softToks r = true → run (lv w a) o (u.toks ++ r) = u.marks w o ++ run (lv w b) (o + u.toks.length) r

theorem Go.soft {w : List Nat} {a b : Lv} {x : U} (h : Go w a b x) : GoS w a b x := fun o r _ => h o r
theorem gos_app {w : List Nat} {a b c : Lv} {x y : U} (hx : Go w a b x) (hy : GoS w b c y) : GoS w a c (x ++ y) := fun o r hr => by
  show run _ _ ((x.toks ++ y.toks) ++ r) = (x.marks w o ++ y.marks w _) ++ run _ (o + (x.toks ++ y.toks).length) _
  rw [List.append_assoc, hx, hy _ _ hr, List.append_assoc, List.length_append, Nat.add_assoc]
theorem go_soft {w : List Nat} {a b c : Lv} {x y : U} (hx : GoS w a b x) (hy : Go w b c y) {t : Tok} {l : List Tok} (he : y.toks = t :: l) (ht : t ∈ softToks) : Go w a c (x ++ y) := fun o r => by
  show run _ _ ((x.toks ++ y.toks) ++ r) = (x.marks w o ++ y.marks w _) ++ run _ (o + (x.toks ++ y.toks).length) _
  have hr : headIn softToks (y.toks ++ r) = true := by rw [he]; simpa [headIn] using ht
  rw [List.append_assoc, hx _ _ hr, hy, List.append_assoc, List.length_append, Nat.add_assoc]
theorem gos_soft {w : List Nat} {a b c : Lv} {x y : U} (hx : GoS w a b x) (hy : GoS w b c y) {t : Tok} {l : List Tok} (he : y.toks = t :: l) (ht : t ∈ softToks) : GoS w a c (x ++ y) := fun o r h => by
  show run _ _ ((x.toks ++ y.toks) ++ r) = (x.marks w o ++ y.marks w _) ++ run _ (o + (x.toks ++ y.toks).length) _
  have hr : headIn softToks (y.toks ++ r) = true := by rw [he]; simpa [headIn] using ht
  rw [List.append_assoc, hx _ _ hr, hy _ _ h, List.append_assoc, List.length_append, Nat.add_assoc]
theorem gos_join {w : List Nat} {a b : Lv} {x y : List Tok} (h : GoS w a b (T x ++ T y)) : GoS w a b (T (x ++ y)) := h

theorem fnName_none {o : Nat} {n : Tok} {l : List Tok} (h1 : n ≠ .BIT_AND) (h2 : n ∉ words ∨ headIn [.LPAREN] l = false) : fnName o (n :: l) = none := by
  unfold fnName
  split
  · rename_i e; cases e; exact absurd rfl h1
  · rename_i e; cases e
    rcases h2 with h2 | h2
    · exact if_neg h2
    · cases h2
  · rfl
theorem gos_word {w : List Nat} {d : Bool} {p : Place} {q : List Place} {k : Tok} (hk : wordy k = true) : GoS w (d, p :: q) (d, p :: q) (T [k]) := by
  intro o r hr
  cases r with
  | nil => cases hr
  | cons t r =>
    have ht : t ∈ softToks := by simpa [headIn] using hr
    have hd : ∀ s, declares s o k (t :: r) = none := by
      intro s
      have e1 : fnName (o + 1) (t :: r) = none := fnName_none (by rintro rfl; exact absurd ht (by decide)) (.inl (fun h => by
        have : softToks.all (fun t => !words.elem t) = true := by decide
        have := List.all_eq_true.1 this t ht
        simp at this; exact this h))
      have e2 : headIn [.STRING] (t :: r) = false := by
        have : t ≠ .STRING := by rintro rfl; exact absurd ht (by decide)
        simpa [headIn] using this
      unfold declares
      split
      · rfl
      split
      · rw [e1]; rfl
      · rw [e2]; cases kindOf k <;> rfl
    have h2 : step (lv w (d, p :: q)) o k (t :: r) = lv w (d, p :: q) := by
      have e : stay (lv w (d, p :: q)) o k (t :: r) = lv w (d, p :: q) := by unfold stay; rw [hd]; rfl
      cases k <;> first | exact absurd hk (by decide) | exact e | simp [step, lv]
    show run _ _ (k :: (t :: r)) = _
    have h3 : opensNs (lv w (d, p :: q)) k = false := by simp [opensNs, lv]
    rw [run, hd, h2, h3]; rfl
theorem gos_sep {α} {w : List Nat} {a : Lv} {k : Tok} (hk : k ∈ softToks) (hc : calm k = true) {f : α → List Tok} {l : List α} (h : ∀ x ∈ l, GoS w a a (T (f x))) :
    GoS w a a (T (sepTxt k f l)) := by
  induction l with
  | nil => exact (go_txt rfl).soft
  | cons x l ih =>
    cases l with
    | nil => exact h x (by simp)
    | cons y l =>
      refine gos_join (gos_soft (h x (by simp)) (y := T (k :: sepTxt k f (y :: l))) (gos_join (x := [k]) (gos_app (go_txt ?_) (ih fun x hx => h x (List.mem_cons_of_mem _ hx)))) rfl hk)
      simp [Calm, hc]

/-! ### `use` -/

def useToks : List Tok := [.USE, .FUNCTION, .CONST, .STRING, .BACKSLASH, .AS, .COMMA, .LBRACE, .RBRACE]
/-- the braces of the text close the `n` open ones, and no others -/
def bal : Nat → List Tok → Bool
  | 0, [] => true
  | _ + 1, [] => false
  | n, .LBRACE :: t => bal (n + 1) t
  | n + 1, .RBRACE :: t => bal n t
  | 0, .RBRACE :: _ => false
  | n, _ :: t => bal n t
def Balanced (x : List Tok) : Prop := ∀ n y, bal n (x ++ y) = bal n y
theorem balanced_nil : Balanced [] := fun _ _ => rfl
theorem balanced_app {x y : List Tok} (hx : Balanced x) (hy : Balanced y) : Balanced (x ++ y) := fun n z => by rw [List.append_assoc, hx, hy]
theorem balanced_one {t : Tok} (h1 : t ≠ .LBRACE) (h2 : t ≠ .RBRACE) : Balanced [t] := fun n y => by
  show bal n (t :: y) = _
  cases n <;> cases t <;> first | rfl | exact absurd rfl h1 | exact absurd rfl h2
theorem balanced_brace {x : List Tok} (hx : Balanced x) : Balanced (.LBRACE :: (x ++ [.RBRACE])) := fun n y => by
  have : bal n (.LBRACE :: ((x ++ [.RBRACE]) ++ y)) = bal (n + 1) ((x ++ [.RBRACE]) ++ y) := by cases n <;> rfl
  show bal n (.LBRACE :: ((x ++ [.RBRACE]) ++ y)) = _
  rw [this, List.append_assoc, hx]; rfl
theorem balanced_plain {x : List Tok} (h : Plain x = true) : Balanced x := by
  induction x with
  | nil => exact balanced_nil
  | cons t x ih =>
    simp only [Plain, List.all_cons, Bool.and_eq_true] at h
    exact balanced_app (x := [t]) (balanced_one (by rintro rfl; exact absurd h.1 (by decide)) (by rintro rfl; exact absurd h.1 (by decide))) (ih h.2)
theorem balanced_sep {α} {k : Tok} (hk : plain k = true) {f : α → List Tok} {l : List α} (h : ∀ x ∈ l, Balanced (f x)) : Balanced (sepTxt k f l) := by
  induction l with
  | nil => exact balanced_nil
  | cons x l ih =>
    cases l with
    | nil => exact h x (by simp)
    | cons y l => exact balanced_app (h x (by simp)) (balanced_app (x := [k]) (balanced_plain (plain_cons hk rfl)) (ih fun x hx => h x (List.mem_cons_of_mem _ hx)))

def push (w : List Nat) (a : Lv) : Nat → Lv
  | 0 => a
  | n + 1 => inside w (push w a n)

theorem run_use {w : List Nat} {a : Lv} (ts : List Tok) : (∀ t ∈ ts, t ∈ useToks) → ∀ n o r, bal n ts = true →
    run (lv w (push w a n)) o (ts ++ .SEMICOLON :: r) = run (lv w a) (o + ts.length) (.SEMICOLON :: r) := by
  induction ts with
  | nil =>
    intro _ n o r hb
    cases n with
    | zero => rfl
    | succ n => cases hb
  | cons t ts ih =>
    intro h n o r hb
    have ih := ih (fun x hx => h x (List.mem_cons_of_mem _ hx))
    have ht := h t (by simp)
    have hlen : o + (t :: ts).length = o + 1 + ts.length := by simp only [List.length_cons]; omega
    rw [hlen, List.cons_append]
    simp only [useToks, List.mem_cons, List.not_mem_nil, or_false] at ht
    have hp : ∀ k, plain k = true → bal n (k :: ts) = true → run (lv w (push w a n)) o (k :: (ts ++ .SEMICOLON :: r)) = run (lv w a) (o + 1 + ts.length) (.SEMICOLON :: r) := by
      intro k hk hb
      rw [run_plain hk]
      refine ih n (o + 1) r ?_
      have := balanced_plain (x := [k]) (plain_cons hk rfl) n ts
      exact this.symm.trans hb
    rcases ht with rfl | rfl | rfl | rfl | rfl | rfl | rfl | rfl | rfl
    · exact hp _ rfl hb
    · have hf : fnName (o + 1) (ts ++ .SEMICOLON :: r) = none := by
        cases ts with
        | nil => exact fnName_none (by decide) (.inl (by decide))
        | cons x ts =>
          have hx := h x (by simp)
          refine fnName_none (by rintro rfl; exact absurd hx (by decide)) (.inr ?_)
          cases ts with
          | nil => rfl
          | cons y ts =>
            have hy := h y (by simp)
            have : y ≠ .LPAREN := by rintro rfl; exact absurd hy (by decide)
            simpa [headIn] using this
      rw [run_closure hf]
      refine ih n (o + 1) r ?_
      have := balanced_one (t := .FUNCTION) (by decide) (by decide) n ts
      exact this.symm.trans hb
    · exact hp _ rfl hb
    · exact hp _ rfl hb
    · exact hp _ rfl hb
    · exact hp _ rfl hb
    · exact hp _ rfl hb
    · rw [run_open (.inl rfl)]
      refine ih (n + 1) (o + 1) r ?_
      cases n <;> exact hb
    · cases n with
      | zero => cases hb
      | succ n => exact ih n (o + 1) r hb

theorem go_use {w : List Nat} {a : Lv} {ts : List Tok} (h1 : ∀ t ∈ ts, t ∈ useToks) (h2 : Balanced ts) : Go w a a (T (ts ++ [.SEMICOLON])) := by
  intro o r
  have hb : bal 0 ts = true := by have := h2 0 []; rw [List.append_nil] at this; exact this
  have := run_use (w := w) (a := a) ts h1 0 o r hb
  show run (lv w a) o ((ts ++ [.SEMICOLON]) ++ r) = [] ++ run (lv w a) (o + (ts ++ [Tok.SEMICOLON]).length) r
  rw [List.append_assoc]
  refine this.trans ?_
  rw [run_semi]
  simp only [List.length_append, List.length_cons, List.length_nil, List.nil_append]; rfl

/-- all tokens may be in `use` -/
def InUse (x : List Tok) : Prop := ∀ t ∈ x, t ∈ useToks
theorem inUse_app {x y : List Tok} (hx : InUse x) (hy : InUse y) : InUse (x ++ y) := fun t ht => (List.mem_append.1 ht).elim (hx t) (hy t)
theorem inUse_cons {k : Tok} {y : List Tok} (hx : k ∈ useToks) (hy : InUse y) : InUse (k :: y) := fun t ht => (List.mem_cons.1 ht).elim (fun e => e ▸ hx) (hy t)
theorem inUse_nil : InUse [] := fun t ht => nomatch ht
theorem inUse_flag {k : Tok} (h : k ∈ useToks) (b : Bool) : InUse (flagTxt k b) := by
  cases b
  · exact inUse_nil
  · exact inUse_cons h inUse_nil
theorem inUse_sep {α} {k : Tok} (hk : k ∈ useToks) {f : α → List Tok} {l : List α} (h : ∀ x ∈ l, InUse (f x)) : InUse (sepTxt k f l) := by
  induction l with
  | nil => exact inUse_nil
  | cons x l ih =>
    cases l with
    | nil => exact h x (by simp)
    | cons y l => exact inUse_app (h x (by simp)) (inUse_cons hk (ih fun x hx => h x (List.mem_cons_of_mem _ hx)))
theorem inUse_string {l : List Tok} (h : ∀ t ∈ l, t = .STRING) : InUse (sepTxt .BACKSLASH tokTxt l) :=
  inUse_sep (by decide) fun t ht => by rw [h t ht]; exact inUse_cons (by decide) inUse_nil
theorem use_kind {o : Option Tok} (h : KindOk o) : InUse (kindTxt o) ∧ Balanced (kindTxt o) := by
  cases o with
  | none => exact ⟨inUse_nil, balanced_nil⟩
  | some k => rcases h k rfl with rfl | rfl <;> exact ⟨inUse_cons (by decide) inUse_nil, balanced_one (by decide) (by decide)⟩
theorem use_inner {i : Inner} (h : i.Ok) : InUse i.toks ∧ Balanced i.toks := by
  have hk := use_kind h.1
  have ha : InUse (aliasTxt i.alias) ∧ Balanced (aliasTxt i.alias) := by
    have := h.2.2
    revert this
    cases i.alias with
    | none => exact fun _ => ⟨inUse_nil, balanced_nil⟩
    | some t => intro ht; rw [ht t rfl]; exact ⟨inUse_cons (by decide) (inUse_cons (by decide) inUse_nil), balanced_plain rfl⟩
  exact ⟨inUse_app hk.1 (inUse_app (inUse_string h.2.1.2) ha.1), balanced_app hk.2 (balanced_app (balanced_plain (plain_string h.2.1.2)) ha.2)⟩
theorem use_item {u : UseItem} (h : u.Ok) : InUse u.toks ∧ Balanced u.toks := by
  have hr : InUse u.rest.toks ∧ Balanced u.rest.toks := by
    have := h.2.1
    revert this
    cases u.rest with
    | none => exact fun _ => ⟨inUse_nil, balanced_nil⟩
    | alias => exact fun _ => ⟨inUse_cons (by decide) (inUse_cons (by decide) inUse_nil), balanced_plain rfl⟩
    | group x =>
      intro hx
      refine ⟨inUse_cons (by decide) (inUse_app (inUse_app (inUse_sep (by decide) fun i hi => (use_inner (hx.2 i hi)).1) (inUse_flag (by decide) _)) (inUse_cons (by decide) inUse_nil)), ?_⟩
      exact balanced_brace (balanced_app (balanced_sep rfl fun i hi => (use_inner (hx.2 i hi)).2) (balanced_plain (plain_flag rfl _)))
  exact ⟨inUse_app (inUse_flag (by decide) _) (inUse_app (inUse_app (inUse_string h.1.2) (inUse_flag (by decide) _)) hr.1),
    balanced_app (balanced_plain (plain_flag rfl _)) (balanced_app (balanced_app (balanced_plain (plain_string h.1.2)) (balanced_plain (plain_flag rfl _))) hr.2)⟩
theorem go_useLine {w : List Nat} {a : Lv} {k : Option Tok} {l : List UseItem} (hk : KindOk k) (hl : ∀ u ∈ l, u.Ok) : Go w a a (T (Line.toks (.use k l))) := by
  have h := use_kind hk
  have h1 : InUse (.USE :: (kindTxt k ++ sepTxt .COMMA UseItem.toks l)) := inUse_cons (by decide) (inUse_app h.1 (inUse_sep (by decide) fun u hu => (use_item (hl u hu)).1))
  have h2 : Balanced (.USE :: (kindTxt k ++ sepTxt .COMMA UseItem.toks l)) :=
    balanced_app (x := [.USE]) (balanced_plain rfl) (balanced_app h.2 (balanced_sep rfl fun u hu => (use_item (hl u hu)).2))
  have e : Line.toks (.use k l) = (.USE :: (kindTxt k ++ sepTxt .COMMA UseItem.toks l)) ++ [.SEMICOLON] := by simp [Line.toks]
  rw [e]
  exact go_use h1 h2

/-! ### Parts of statements -/

theorem go_opt {α} {w : List Nat} {a : Lv} {f : α → U} {o : Option α} (h : ∀ x, o = some x → Go w a a (f x)) : Go w a a (optU f o) := by
  cases o with
  | none => exact go_txt rfl
  | some x => exact h x rfl
theorem go_sep {α} {w : List Nat} {a : Lv} {k : Tok} (hk : calm k = true) {f : α → U} {l : List α} (h : ∀ x ∈ l, Go w a a (f x)) : Go w a a (sepU k f l) := by
  induction l with
  | nil => exact go_txt rfl
  | cons x l ih =>
    cases l with
    | nil => exact h x (by simp)
    | cons y l => exact go_app (h x (by simp)) (go_app (go_txt (by simp [Calm, hk])) (ih fun x hx => h x (List.mem_cons_of_mem _ hx)))
theorem go_plain {w : List Nat} {a : Lv} {ts : List Tok} (h : Plain ts = true) : Go w a a (T ts) := go_txt (Plain.calm h)
theorem plain_kind {t : Tok} (h : Semi t) : calm t = true := by rcases h with rfl | rfl <;> rfl
theorem calm_semi {t : Tok} (h : Semi t) : Calm [t] = true := by rcases h with rfl | rfl <;> rfl
theorem words_semi {k : Tok} (h : k ∈ semiReserved) : k ∈ words := by
  have hs : semiReserved.all (fun k => words.elem k) = true := by decide
  simpa using List.all_eq_true.1 hs k h

section
variable {clo : List Tok → U} (hclo : ∀ t, Closures.Ok t → ∀ w a, Go w a a (clo t))
include hclo

theorem go_ex {c : Grammar.Cat} {e : E} (h : Fits c e) {w : List Nat} {a : Lv} : Go w a a (ex clo e) := go_expr hclo h false w a

theorem go_idx {l : List E} (h : ∀ e ∈ l, Fits (.lev 0) e) {w : List Nat} {a : Lv} : Go w a a (idxTree clo l) := by
  induction l with
  | nil => exact go_txt rfl
  | cons e l ih =>
    cases l with
    | nil => exact go_app (go_txt rfl) (go_app (go_ex hclo (h e (by simp))) (go_txt rfl))
    | cons f l => exact go_app (go_txt rfl) (go_app (go_lost (go_ex hclo (h e (by simp)))) (go_app (go_txt rfl) (ih fun x hx => h x (List.mem_cons_of_mem _ hx))))

theorem go_sc {c : ScCat} {s : Sc} (h : ScFits c s) {w : List Nat} {a : Lv} : Go w a a (Sc.tree clo s) := by
  induction h with
  | scalar k hk => exact go_txt (by cases hk <;> rfl)
  | nowdoc => exact go_txt rfl
  | str l h => exact go_app (go_txt rfl) (go_idx hclo h)
  | const n m hn hm =>
    cases m with
    | none => exact go_plain (plain_app (plain_aname hn) rfl)
    | some k => exact go_const (Plain.calm (plain_aname hn)) (wordy_of (hm k rfl))
  | plus s _ ih => exact go_app (go_txt rfl) ih
  | minus s _ ih => exact go_app (go_txt rfl) ih
  | arr s l _ ih => cases s <;> exact go_app (go_txt rfl) (go_app ih (go_txt rfl))
  | single s _ ih => exact ih
  | pair k v _ _ ihk ihv => exact go_app ihk (go_app (go_txt rfl) ihv)
  | nil => exact go_txt rfl
  | some l _ ih => exact ih
  | last i _ ih => exact ih
  | lastComma i _ ih => exact go_app ih (go_txt rfl)
  | more i l _ _ ihi ihl => exact go_app ihi (go_app (go_txt rfl) ihl)

theorem go_param {p : Param} (h : p.Ok) {w : List Nat} {a : Lv} : Go w a a (Param.tree clo p) := by
  refine go_app (go_plain ?_) (go_opt fun e he => go_app (go_txt rfl) (go_ex hclo (h.2 e he)))
  exact plain_app (plain_opt fun l hl => plain_hints words_param (h.1 l hl)) (plain_app (plain_flag rfl _) (plain_app (plain_flag rfl _) rfl))
theorem go_params {p : Params} (h : ParamsOk p) {w : List Nat} {a : Lv} : Go w a a (paramsTree clo p) :=
  go_app (go_sep rfl fun x hx => go_param hclo (h.2 x hx)) (go_plain (plain_flag rfl _))
theorem go_vars {l : List (Option Sc)} (h : VarsOk l) {w : List Nat} {a : Lv} : Go w a a (varsTree clo l) :=
  go_sep rfl fun o ho => go_app (go_txt rfl) (go_opt fun s hs => go_app (go_txt rfl) (go_sc hclo (h.2 o ho s hs)))
theorem go_gvar {v : GVar} (h : v.Ok) {w : List Nat} {a : Lv} : Go w a a (GVar.tree clo v) := by
  cases v with
  | name => exact go_txt rfl
  | dollar v => exact go_app (go_txt rfl) (go_ex hclo h)
  | curly e => exact go_app (x := T [.DOLLAR, .LBRACE]) (go_pre' (x := [.DOLLAR]) rfl rfl) (go_app (go_ex hclo h) go_close)
theorem go_exprs {l : List E} (h : ∀ e ∈ l, Fits (.lev 0) e) {w : List Nat} {a : Lv} : Go w a a (sepU .COMMA (ex clo) l) := go_sep rfl fun e he => go_ex hclo (h e he)
theorem go_line {l : Line} (h : l.Ok) {w : List Nat} {a : Lv} : Go w a a (Line.tree clo l) := by
  cases l with
  | bare k => rcases h with rfl | rfl | rfl | rfl <;> exact go_txt rfl
  | expr e t => exact go_app (go_ex hclo h.1) (go_txt (calm_semi h.2))
  | word k e t =>
    refine go_app (go_txt ?_) (go_app (go_opt fun x hx => go_ex hclo (h.2.1 x hx)) (go_txt (calm_semi h.2.2)))
    rcases h.1 with rfl | rfl | rfl <;> rfl
  | need k e t =>
    refine go_app (go_txt ?_) (go_app (go_ex hclo h.2.1) (go_txt (calm_semi h.2.2)))
    rcases h.1 with rfl | rfl <;> rfl
  | echo l t => exact go_app (go_txt rfl) (go_app (go_exprs hclo h.1.2) (go_txt (calm_semi h.2)))
  | unset l t => exact go_app (go_txt rfl) (go_app (go_sep rfl fun e he => go_ex hclo (h.1.2 e he)) (go_txt (by rcases h.2 with rfl | rfl <;> rfl)))
  | global l t => exact go_app (go_txt rfl) (go_app (go_sep rfl fun v hv => go_gvar hclo (h.1.2 v hv)) (go_txt (calm_semi h.2)))
  | static l t => exact go_app (go_txt rfl) (go_app (go_vars hclo h.1) (go_txt (calm_semi h.2)))
  | const l => exact go_app (go_txt rfl) (go_app (go_sep rfl fun e he => go_app (go_txt rfl) (go_ex hclo (h.2 e he))) (go_txt rfl))
  | use k l => exact go_useLine h.1 h.2.2.1
  | goto => exact go_txt rfl
  | label => exact go_txt rfl

theorem go_paren {e : E} (h : Fits (.lev 0) e) {w : List Nat} {a : Lv} : Go w a a (parenTree clo e) := go_app (go_txt rfl) (go_app (go_ex hclo h) (go_txt rfl))
theorem go_declare {l : List Sc} (h : ∀ s ∈ l, ScFits .sc s) {w : List Nat} {a : Lv} : Go w a a (declareTree clo l) := by
  induction l with
  | nil => exact go_txt rfl
  | cons s l ih =>
    have h1 : Go w a a (Sc.tree clo s) := go_sc hclo (h s (by simp))
    cases l with
    | nil => exact go_app (go_txt rfl) h1
    | cons s' l => exact go_app (go_txt rfl) (go_app (go_lost h1) (go_app (go_txt rfl) (ih fun x hx => h x (List.mem_cons_of_mem _ hx))))
theorem go_head {h : Head} (hk : h.Ok) {w : List Nat} {a : Lv} : Go w a a (Head.tree clo h) := by
  cases h with
  | while_ c => exact go_app (go_txt rfl) (go_paren hclo hk)
  | for_ x y z =>
    exact go_app (go_txt rfl) (go_app (go_exprs hclo hk.1) (go_app (go_txt rfl) (go_app (go_exprs hclo hk.2.1) (go_app (go_txt rfl) (go_app (go_exprs hclo hk.2.2) (go_txt rfl))))))
  | foreach s r v x =>
    exact go_app (go_txt rfl) (go_app (go_ex hclo hk.1) (go_app (go_plain (plain_cons rfl (plain_flag rfl _))) (go_app (go_ex hclo hk.2.2.1)
      (go_app (go_opt fun x hx => go_app (go_plain (plain_cons rfl (plain_flag rfl _))) (go_ex hclo (hk.2.2.2 x hx))) (go_txt rfl)))))
  | declare l => exact go_app (go_txt rfl) (go_app (go_declare hclo hk.2) (go_txt rfl))
theorem go_fparams {names : List Tok} {f : FHead} (h : f.Ok names) {w : List Nat} {a : Lv} : Go w a a (fparams clo f) :=
  go_app (go_txt rfl) (go_app (go_params hclo h.2.1) (go_plain (plain_cons rfl (plain_opt fun l hl => plain_cons rfl (plain_hints words_return (h.2.2 l hl))))))

omit hclo in
theorem go_cls {h : CHead} (hk : h.Ok) {x : U} {w : List Nat} {a : Lv} (hx : ∀ i, Go (i :: w) (true, ⟨w, a.1⟩ :: a.2) (true, ⟨w, a.1⟩ :: a.2) x) :
    Go w a a (clsTree (T [.LBRACE] ++ (x ++ T [.RBRACE])) h) := by
  cases h with
  | cls m e i =>
    refine go_type (Plain.calm (plain_opt fun k hm => ?_)) (plain_app (plain_opt fun n hn => plain_cons rfl (plain_aname (hk.2.1 n hn)))
      (plain_opt fun l hl => plain_cons rfl (plain_names rfl (hk.2.2 l hl)))) hx
    rcases hk.1 k hm with rfl | rfl <;> rfl
  | trait => exact (go_type (front := []) (head := []) (k := .trait) rfl rfl hx).cast rfl fun o => rfl
  | interface e => exact go_type rfl (plain_opt fun l hl => plain_cons rfl (plain_names rfl (hk l hl))) hx

omit hclo in
theorem gos_alias {w : List Nat} {d : Bool} {p : Place} {q : List Place} {x : Alias} (h : x.Ok) : GoS w (d, p :: q) (d, p :: q) (T x.toks) := by
  have h1 : Go w (d, p :: q) (d, p :: q) (T (x.name.toks ++ [.PAAMAYIM_NEKUDOTAYIM, x.method])) := go_const (Plain.calm (plain_aname h.1)) (wordy_of (words_semi h.2.1))
  have h2 : GoS w (d, p :: q) (d, p :: q) (T x.what.toks) := by
    have := h.2.2
    revert this
    cases x.what with
    | as1 t =>
      intro ht
      refine gos_join (x := [.AS]) (gos_app (go_txt rfl) (gos_word ?_))
      have hs : (modifierWords ++ nonModifiers).all wordy = true := by decide
      exact List.all_eq_true.1 hs t (List.mem_append.2 ht)
    | as2 m t =>
      intro ht
      refine gos_join (x := [.AS, m]) (gos_app (go_plain (plain_cons rfl (plain_cons ?_ rfl))) (gos_word (wordy_of (words_semi ht.2))))
      have hs : modifierWords.all plain = true := by decide
      exact List.all_eq_true.1 hs m ht.1
    | instead l => exact fun hl => (go_plain (plain_cons rfl (plain_names rfl hl))).soft
  have e : x.toks = (x.name.toks ++ [.PAAMAYIM_NEKUDOTAYIM, x.method]) ++ x.what.toks := by simp [Alias.toks]
  rw [e]
  exact gos_join (gos_app h1 h2)

theorem go_member {hb : Bool} {rest : U} {w : List Nat} {p : Place} {q : List Place} (hr : Go w (true, p :: q) (true, p :: q) rest) {m : Member} (h : m.Ok) :
    Go w (true, p :: q) (true, p :: q) (Member.tree clo hb rest m) := by
  cases m with
  | var_ l => exact go_app (go_app (go_txt rfl) (go_app (go_late (go_vars hclo h)) (go_txt rfl))) hr
  | prop m x l =>
    exact go_app (go_app (go_plain (plain_app (plain_mods h.1) (plain_opt fun y hy => plain_hints words_property (h.2.1 y hy)))) (go_app (go_late (go_vars hclo h.2.2)) (go_txt rfl))) hr
  | const m l =>
    refine go_app (go_app (go_plain (plain_app (plain_mods h.1) rfl)) (go_app (go_sep rfl fun x hx => ?_) (go_txt rfl))) hr
    exact go_soft (gos_word (wordy_of (words_semi (h.2.2 x hx).1))) (go_app (go_txt rfl) (go_ex hclo (h.2.2 x hx).2)) (t := .ASSIGN) (l := (ex clo x.2).toks) rfl (by decide)
  | use l x =>
    refine go_app ?_ hr
    refine go_join (x := [.USE]) (go_app (go_txt rfl) (go_join (go_app (go_plain (plain_names rfl h.1)) ?_)))
    cases x with
    | none => exact go_txt rfl
    | some i =>
      refine go_join (x := [.LBRACE]) (go_app (go_open (.inl rfl)) (go_join (go_soft (b := inside w (true, p :: q)) ?_ go_close (t := .RBRACE) (l := []) rfl (by decide))))
      have h1 : GoS w (inside w (true, p :: q)) (inside w (true, p :: q)) (T (sepTxt .SEMICOLON Alias.toks i.1)) := gos_sep (by decide) rfl fun a ha => gos_alias ((h.2 i rfl).2.1 a ha)
      show GoS _ _ _ (T (sepTrailTxt .SEMICOLON Alias.toks i))
      unfold sepTrailTxt
      cases i.2
      · show GoS _ _ _ (T (_ ++ []))
        rw [List.append_nil]; exact h1
      · exact gos_join (gos_soft h1 (go_txt rfl).soft (t := .SEMICOLON) (l := []) rfl (by decide))
  | func m f => exact go_meth (Plain.calm (plain_mods h.1)) (words_semi h.2.1) (go_fparams hclo h.2) ⟨_, rfl⟩ hr

/-! ### Statements -/

omit hclo in
/-- where a part may stand -/
def Lev (c : Cat) (a : Lv) : Prop :=
  match c with
  | .member | .members => a.1 = true ∧ ∃ p q, a.2 = p :: q
  | _ => a.1 = false
omit hclo in
theorem Lev.stmt {c : Cat} {a : Lv} (h : Lev c a) (hc : c ≠ .member ∧ c ≠ .members) : a.1 = false := by
  cases c <;> first | exact h | exact absurd rfl hc.1 | exact absurd rfl hc.2
omit hclo in
theorem isStmt_ne {c : Cat} (h : c.isStmt) : c ≠ .member ∧ c ≠ .members := by constructor <;> (rintro rfl; simp [Cat.isStmt] at h)
omit hclo in
theorem isTop_ne {c : Cat} (h : c.isTop) : c ≠ .member ∧ c ≠ .members := by constructor <;> (rintro rfl; simp [Cat.isTop] at h)
omit hclo in
theorem calm_endWord (h : Head) : calm h.endWord = true := by cases h <;> rfl

omit hclo in
/-- a part of a statement -/
def simple : Cat → Bool
  | .outer | .file | .loopBody _ => false
  | _ => true
omit hclo in
structure Good (c : Cat) (s : S) : Prop where
  word : ∀ w, c = .loopBody w → calm w = true
  file : c ≠ .file
  ns : c = .outer → (∀ p, s ≠ .nsLine p) ∧ ∀ p b, s ≠ .nsBlock p b
omit hclo in
theorem good_of {c : Cat} {s : S} (h : simple c = true) : Good c s :=
  by
  refine ⟨fun w e => ?_, fun e => ?_, fun e => ?_⟩ <;> (subst e; exact absurd h (by simp [simple]))

theorem go_tree (s : S) : ∀ c, Good c s → s.Fits c → ∀ w a, Lev c a → Go w a a (S.tree clo s) := by
  have st : ∀ {c : Cat} {a : Lv}, Lev c a → c.isStmt → a.1 = false := fun h hc => h.stmt (isStmt_ne hc)
  have tp : ∀ {c : Cat} {a : Lv}, Lev c a → c.isTop → a.1 = false := fun h hc => h.stmt (isTop_ne hc)
  induction s with
  | line l => exact fun c _ h w a _ => go_line hclo h.2
  | block b ih => exact fun c _ h w a _ => go_in (.inl rfl) (ih _ (good_of rfl) h.2 _ _ rfl)
  | ifs e b ih => exact fun c _ h w a ha => go_app (go_txt rfl) (go_app (go_paren hclo h.2.1) (ih _ (good_of rfl) h.2.2 _ _ (st ha h.1)))
  | plain t x ih1 ih2 =>
    intro c _ h w a ha
    obtain ⟨rfl, h⟩ := h
    exact go_app (ih1 _ (good_of rfl) h.1 _ _ ha) (ih2 _ (good_of rfl) h.2.1 _ _ ha)
  | altIf b x e ih1 ih2 =>
    intro c _ h w a ha
    obtain ⟨rfl, h⟩ := h
    exact go_app (go_txt rfl) (go_app (ih1 _ (good_of rfl) h.1 _ _ ha) (go_app (go_lost (ih2 _ (good_of rfl) h.2.1 _ _ ha)) (go_txt (by rcases h.2.2.2 with rfl | rfl <;> rfl))))
  | loop hd b ih =>
    intro c _ h w a ha
    have h1 : Go w a a (Head.tree clo hd) := go_head hclo h.2.1
    have h2 := ih _ ⟨fun w hw => by cases hw; exact calm_endWord hd, by simp, by simp⟩ h.2.2 w a (show a.1 = false from st ha h.1)
    cases hd with
    | declare l => exact go_app h1 (go_lost h2)
    | while_ _ => exact go_app h1 h2
    | for_ _ _ _ => exact go_app h1 h2
    | foreach _ _ _ _ => exact go_app h1 h2
  | alt b k e ih =>
    intro c hc h w a ha
    have hk := hc.word k h.1
    obtain ⟨rfl, h⟩ := h
    refine go_app (go_txt rfl) (go_app (ih _ (good_of rfl) h.1 _ _ ha) (go_txt ?_))
    simp [Calm, hk, plain_kind h.2]
  | switch e b ih => exact fun c _ h w a ha => go_app (go_txt rfl) (go_app (go_paren hclo h.2.1) (ih _ (good_of rfl) h.2.2 _ _ (st ha h.1)))
  | braces x l ih =>
    intro c _ h w a _
    exact go_app (go_join (x := [.LBRACE]) (go_app (go_open (.inl rfl)) (go_txt (by cases x <;> rfl)))) (go_app (ih _ (good_of rfl) h.2 _ _ rfl) go_close)
  | colon x l e ih =>
    intro c _ h w a ha
    obtain ⟨rfl, h⟩ := h
    exact go_app (go_txt (by cases x <;> rfl)) (go_app (ih _ (good_of rfl) h.1 _ _ ha) (go_txt (by rcases h.2 with rfl | rfl <;> rfl)))
  | try_ b x ih1 ih2 =>
    intro c _ h w a ha
    exact go_app (x := T [.TRY, .LBRACE]) (go_pre' (x := [.TRY]) rfl rfl) (go_app (ih1 _ (good_of rfl) h.2.1 _ _ rfl) (go_app go_close (ih2 _ (good_of rfl) h.2.2 _ _ (st ha h.1))))
  | do_ s e t ih =>
    exact fun c _ h w a ha => go_app (go_txt rfl) (go_app (ih _ (good_of rfl) h.2.1 _ _ (st ha h.1)) (go_app (go_txt rfl)
      (go_app (go_paren hclo h.2.2.1) (go_txt (calm_semi h.2.2.2)))))
  | func f b ih =>
    intro c _ h w a ha
    have hn : f.name = .STRING := by have := h.2.1.1; simpa using this
    have := go_func (b := f.ref) (go_fparams hclo h.2.1) ⟨_, rfl⟩ (go_in (.inl rfl) (ih _ (good_of rfl) h.2.2 w (inside w a) rfl)) (tp ha h.1)
    show Go w a a (.func (ffront f) f.name _ _)
    rw [hn]; exact this
  | cls f b ih => exact fun c _ h w a ha => go_cls h.2.1 fun i => ih _ (good_of rfl) h.2.2 _ _ ⟨rfl, _, _, rfl⟩
  | halt => exact fun c _ h w a _ => go_txt rfl
  | nsLine p => exact fun c hc h => absurd rfl ((hc.ns h.1).1 p)
  | nsBlock p b ih => exact fun c hc h => absurd rfl ((hc.ns h.1).2 p b)
  | elif e s x ih1 ih2 =>
    intro c _ h w a ha
    obtain ⟨rfl, h⟩ := h
    exact go_app (go_txt rfl) (go_app (go_paren hclo h.1) (go_app (ih1 _ (good_of rfl) h.2.1 _ _ ha) (ih2 _ (good_of rfl) h.2.2.1 _ _ ha)))
  | els s ih =>
    intro c _ h w a ha
    obtain ⟨rfl, h⟩ := h
    exact go_app (go_txt rfl) (ih _ (good_of rfl) h _ _ ha)
  | elifAlt e b x ih1 ih2 =>
    intro c _ h w a ha
    obtain ⟨rfl, h⟩ := h
    exact go_app (go_txt rfl) (go_app (go_paren hclo h.1) (go_app (go_txt rfl) (go_app (ih1 _ (good_of rfl) h.2.1 _ _ ha) (ih2 _ (good_of rfl) h.2.2.1 _ _ ha))))
  | elsAlt s ih =>
    intro c _ h w a ha
    obtain ⟨rfl, h⟩ := h
    exact go_app (go_txt rfl) (ih _ (good_of rfl) h _ _ ha)
  | noElse => exact fun c _ h w a _ => go_txt rfl
  | noCatch => exact fun c _ h w a _ => go_txt rfl
  | nil => exact fun c _ h w a _ => go_txt rfl
  | case_ e t b ih =>
    intro c _ h w a ha
    obtain ⟨rfl, h⟩ := h
    have h1 : Go w a a (caseTree clo e) := by
      cases e with
      | none => exact go_txt rfl
      | some e => exact go_app (go_txt rfl) (go_ex hclo (h.1 e rfl))
    exact go_app h1 (go_app (go_txt (by rcases h.2.1 with rfl | rfl <;> rfl)) (ih _ (good_of rfl) h.2.2 _ _ ha))
  | catch_ l b x ih1 ih2 =>
    intro c _ h w a ha
    obtain ⟨rfl, h⟩ := h
    exact go_app (go_pre' (x := .CATCH :: .LPAREN :: (sepTxt .BIT_OR Name.toks l ++ [.VARIABLE, .RPAREN])) (by simp)
      (Plain.calm (plain_cons rfl (plain_cons rfl (plain_app (plain_names rfl h.1) rfl)))))
      (go_app (ih1 _ (good_of rfl) h.2.1 _ _ rfl) (go_app go_close (ih2 _ (good_of rfl) h.2.2 _ _ ha)))
  | fin b ih =>
    intro c _ h w a _
    exact go_app (x := T [.FINALLY, .LBRACE]) (go_pre' (x := [.FINALLY]) rfl rfl) (go_app (ih _ (good_of rfl) h.2 _ _ rfl) go_close)
  | member m =>
    intro c _ h w a ha
    obtain ⟨rfl, h⟩ := h
    obtain ⟨d, k⟩ := a
    obtain ⟨rfl, p, q, rfl⟩ := ha
    exact go_member hclo (go_txt rfl) h.1
  | abstr m =>
    intro c _ h w a ha
    obtain ⟨rfl, h⟩ := h
    obtain ⟨d, k⟩ := a
    obtain ⟨rfl, p, q, rfl⟩ := ha
    exact go_member hclo (go_txt rfl) h.1
  | method m b ih =>
    intro c _ h w a ha
    obtain ⟨rfl, h⟩ := h
    obtain ⟨d, k⟩ := a
    obtain ⟨rfl, p, q, rfl⟩ := ha
    exact go_member hclo (go_in (.inl rfl) (ih _ (good_of rfl) h.2.2 _ _ rfl)) h.1
  | cons x l ih1 ih2 =>
    rintro c hc ⟨i, hi, hx, hl⟩ w a ha
    have hf := hc.file
    cases c <;> cases hi
    · exact go_app (ih1 _ (good_of rfl) hx _ _ ha) (ih2 _ (good_of rfl) hl _ _ ha)
    · exact absurd rfl hf
    · exact go_app (ih1 _ (good_of rfl) hx _ _ ha) (ih2 _ (good_of rfl) hl _ _ ha)
    · exact go_app (ih1 _ (good_of rfl) hx _ _ ha) (ih2 _ (good_of rfl) hl _ _ ha)
end

/-! ### Closures -/

theorem fnName_closure {o : Nat} {b : Bool} {r : List Tok} : fnName o (flagTxt .BIT_AND b ++ .LPAREN :: r) = none := by
  cases b
  · exact fnName_none (by decide) (.inl (by decide))
  · show fnName o (.BIT_AND :: .LPAREN :: r) = none
    unfold fnName
    split
    · rename_i e; cases e; exact if_neg (by decide)
    · rename_i e; cases e; rfl
    · rfl
theorem go_clo {w : List Nat} {a : Lv} {b h : Bool} {p u x : U} (hp : Go w a a p) (hl : ∃ l, p.toks = flagTxt .BIT_AND b ++ .LPAREN :: l) (hu : Go w a a u) (hx : Go w a a x) :
    Go w a a (.clo p h u x) := by
  intro o r
  obtain ⟨l, hl⟩ := hl
  have h1 := (go_app hp (go_app hu hx)) (o + 1) r
  have e : (U.clo p h u x).toks ++ r = .FUNCTION :: ((p ++ (u ++ x)).toks ++ r) := by
    show _ = .FUNCTION :: ((p.toks ++ (u.toks ++ x.toks)) ++ r)
    simp [U.toks]
  have hf : fnName (o + 1) ((p ++ (u ++ x)).toks ++ r) = none := by
    have : (p ++ (u ++ x)).toks ++ r = flagTxt .BIT_AND b ++ .LPAREN :: (l ++ (u.toks ++ x.toks ++ r)) := by
      show (p.toks ++ (u.toks ++ x.toks)) ++ r = _
      rw [hl]; simp
    rw [this]; exact fnName_closure
  rw [e, run_closure hf, h1]
  have q : o + 1 + (p ++ (u ++ x)).toks.length = o + (U.clo p h u x).toks.length := by
    show o + 1 + (p.toks ++ (u.toks ++ x.toks)).length = _
    simp [U.toks]; omega
  rw [q]; rfl

end KPhp.Outline
