import Verif.Parser.StmtComplete
import Verif.Lexer.Model
/-
# Files (C68, C69, C70)

What the parser accepts, and as what.
-/
namespace KPhp.Stmt
set_option linter.unusedVariables false
set_option linter.unusedSectionVars false
set_option linter.unusedSimpArgs false
open KPhp (Tok)
open KPhp.Grammar (headIn E Closures)
variable [Closures]

/-! ## The bound on the depth of the calls suffices -/

def Cat.strict : Cat → Bool
  | .stmt | .top | .outer | .loopBody _ | .case | .member | .switchBody => true
  | _ => false

theorem member_pos {m : Member} (h : m.Ok) : 0 < m.toks.length := by
  cases m with
  | var_ l => simp [Member.toks]
  | use l x => simp [Member.toks]
  | func m f => simp only [Member.toks, FHead.toks, List.length_append, List.length_cons]; omega
  | const m l => simp only [Member.toks, List.length_append, List.length_cons]; omega
  | prop m hint l => simp only [Member.toks, List.length_append, List.length_cons]; omega

theorem depth_le (s : S) : ∀ c, s.Fits c → s.depth ≤ 2 * s.toks.length + 1 ∧ (c.strict = true → s.depth ≤ 2 * s.toks.length) := by
  induction s with
  | line l =>
    intro c h
    obtain ⟨t, r, he, -⟩ := line_first h.2
    simp only [S.depth, S.toks, he, List.length_cons]; omega
  | block b ih =>
    intro c h
    have := ih _ h.2
    simp only [S.depth, S.toks, List.length_append, List.length_cons, List.length_nil]; omega
  | ifs e b ih =>
    intro c h
    have := ih _ h.2.2
    simp only [S.depth, S.toks, parenTxt, List.length_append, List.length_cons, List.length_nil]; omega
  | plain t x ih1 ih2 =>
    intro c h
    have h1 := ih1 _ h.2.1
    have h2 := ih2 _ h.2.2.1
    obtain ⟨tt, r, he, -⟩ := stmt_first h.2.1
    have h3 := h1.2 rfl
    have : 0 < t.toks.length := by rw [he]; simp
    refine ⟨?_, fun hc => by cases h.1; cases hc⟩
    simp only [S.depth, S.toks, List.length_append]; omega
  | altIf b x e ih1 ih2 =>
    intro c h
    have h1 := ih1 _ h.2.1
    have h2 := ih2 _ h.2.2.1
    simp only [S.depth, S.toks, List.length_append, List.length_cons, List.length_nil]; omega
  | loop hd b ih =>
    intro c h
    have h1 := (ih _ h.2.2).2 rfl
    obtain ⟨t, r, he, -⟩ := head_first hd
    simp only [S.depth, S.toks, he, List.length_append, List.length_cons]; omega
  | alt b w e ih =>
    intro c h
    have := ih _ h.2.1
    simp only [S.depth, S.toks, List.length_append, List.length_cons, List.length_nil]; omega
  | switch e b ih =>
    intro c h
    have := ih _ h.2.2
    simp only [S.depth, S.toks, parenTxt, List.length_append, List.length_cons, List.length_nil]; omega
  | braces b l ih =>
    intro c h
    have := ih _ h.2
    simp only [S.depth, S.toks, List.length_append, List.length_cons, List.length_nil]; omega
  | colon b l e ih =>
    intro c h
    have := ih _ h.2.1
    simp only [S.depth, S.toks, List.length_append, List.length_cons, List.length_nil]; omega
  | try_ b x ih1 ih2 =>
    intro c h
    have h1 := ih1 _ h.2.1
    have h2 := ih2 _ h.2.2
    simp only [S.depth, S.toks, List.length_append, List.length_cons, List.length_nil]; omega
  | do_ s e t ih =>
    intro c h
    have := ih _ h.2.1
    simp only [S.depth, S.toks, List.length_append, List.length_cons, List.length_nil]; omega
  | func f b ih =>
    intro c h
    have := ih _ h.2.2
    simp only [S.depth, S.toks, List.length_append, List.length_cons, List.length_nil]; omega
  | cls f b ih =>
    intro c h
    have := ih _ h.2.2
    simp only [S.depth, S.toks, List.length_append, List.length_cons, List.length_nil]; omega
  | halt => intro c h; simp [S.depth, S.toks]
  | nsLine p => intro c h; simp only [S.depth, S.toks, List.length_append, List.length_cons, List.length_nil]; omega
  | nsBlock p b ih =>
    intro c h
    have := ih _ h.2.2
    simp only [S.depth, S.toks, List.length_append, List.length_cons, List.length_nil]; omega
  | elif e s x ih1 ih2 =>
    intro c h
    have h1 := ih1 _ h.2.2.1
    have h2 := ih2 _ h.2.2.2.1
    simp only [S.depth, S.toks, List.length_append, List.length_cons, List.length_nil]; omega
  | els s ih =>
    intro c h
    have := ih _ h.2
    simp only [S.depth, S.toks, List.length_cons]; omega
  | elifAlt e s x ih1 ih2 =>
    intro c h
    have h1 := ih1 _ h.2.2.1
    have h2 := ih2 _ h.2.2.2.1
    simp only [S.depth, S.toks, List.length_append, List.length_cons, List.length_nil]; omega
  | elsAlt s ih =>
    intro c h
    have := ih _ h.2
    simp only [S.depth, S.toks, List.length_cons]; omega
  | noElse => intro c h; exact ⟨by simp [S.depth], fun hc => by rcases h with h | h <;> subst h <;> cases hc⟩
  | noCatch => intro c h; exact ⟨by simp [S.depth], fun hc => by cases h; cases hc⟩
  | nil => intro c h; exact ⟨by simp [S.depth], fun hc => by cases c <;> first | (cases hc; done) | (cases h; done)⟩
  | case_ e t b ih =>
    intro c h
    have := ih _ h.2.2.2
    simp only [S.depth, S.toks, List.length_append, List.length_cons]; omega
  | catch_ l b x ih1 ih2 =>
    intro c h
    have h1 := ih1 _ h.2.2.1
    have h2 := ih2 _ h.2.2.2
    simp only [S.depth, S.toks, List.length_append, List.length_cons, List.length_nil]; omega
  | fin b ih =>
    intro c h
    have := ih _ h.2
    simp only [S.depth, S.toks, List.length_append, List.length_cons, List.length_nil]; omega
  | member m =>
    intro c h
    have := member_pos h.2.1
    simp only [S.depth, S.toks]; omega
  | abstr m =>
    intro c h
    simp only [S.depth, S.toks, List.length_append, List.length_cons, List.length_nil]; omega
  | method m b ih =>
    intro c h
    have := ih _ h.2.2.2
    simp only [S.depth, S.toks, List.length_append, List.length_cons, List.length_nil]; omega
  | cons a l ih1 ih2 =>
    intro c h
    obtain ⟨i, hi, ha, hl⟩ := h
    have hst : i.strict = true := by cases c <;> cases hi <;> rfl
    have h1 := (ih1 _ ha).2 hst
    have h2 := (ih2 _ hl).1
    have hpos : 0 < a.toks.length := by
      have : a.depth ≠ 0 := by cases a <;> simp [S.depth]
      omega
    refine ⟨?_, fun hc => by cases c <;> first | (cases hc; done) | (cases hi; done)⟩
    simp only [S.depth, S.toks, List.length_append]; omega

/-! ## C68: exactly the files of the grammar are accepted -/

/-- C68: a text is read as a file `s` without an error iff `s` is a file of the grammar and this is its text -/
theorem file_read_iff (ts : List Tok) (s : S) : parseFile ts = some s ↔ s.Fits .file ∧ ts = s.toks := by
  constructor
  · intro h
    unfold parseFile at h
    split at h
    · rename_i s' hr
      cases h
      obtain ⟨h1, h2, -⟩ := run_reads _ _ _ _ _ hr
      exact ⟨h2, by simpa using h1⟩
    · cases h
  · rintro ⟨hs, rfl⟩
    have hd := (depth_le s _ hs).1
    have := run_compl (2 * s.toks.length + 2) .file s [] hs (by omega) rfl
    rw [List.append_nil] at this
    simp only [parseFile, this]

/-- C68: a text is accepted iff it is the text of a file of the grammar -/
theorem file_accepted_iff (ts : List Tok) : (parseFile ts).isSome = true ↔ ∃ s : S, s.Fits .file ∧ ts = s.toks := by
  rw [Option.isSome_iff_exists]
  exact ⟨fun ⟨s, h⟩ => ⟨s, (file_read_iff ts s).1 h⟩, fun ⟨s, h⟩ => ⟨s, (file_read_iff ts s).2 h⟩⟩

/-- the bound on the depth of calls is none: with any greater one the result is the same -/
theorem depth_irrelevant {n : Nat} {ts : List Tok} (h : 2 * ts.length + 2 ≤ n) (s : S) :
    run n .file ts = some (s, []) ↔ parseFile ts = some s := by
  rw [file_read_iff]
  constructor
  · intro hr
    obtain ⟨h1, h2, -⟩ := run_reads _ _ _ _ _ hr
    exact ⟨h2, by simpa using h1⟩
  · rintro ⟨hs, rfl⟩
    have hd := (depth_le s _ hs).1
    simpa using run_compl n .file s [] hs (by omega) rfl

/-! ## C69: one reading; an `else` belongs to the nearest `if` -/

/-- C69: no text is the text of two different files -/
theorem one_reading {s s' : S} (h : s.Fits .file) (h' : s'.Fits .file) (he : s.toks = s'.toks) : s = s' := by
  have h1 := (file_read_iff _ _).2 ⟨h, rfl⟩
  have h2 := (file_read_iff _ _).2 ⟨h', rfl⟩
  rw [he, h2] at h1
  exact (Option.some.inj h1).symm

/-- a file of one statement -/
def one (s : S) : S := .cons s .nil
/-- `if (c) t else e`, `if (c) t` -/
def ifElse (c : E) (t e : S) : S := .ifs c (.plain t (.els e))
def ifOnly (c : E) (t : S) : S := .ifs c (.plain t .noElse)

theorem one_fits {s : S} (h : s.Fits .stmt) : (one s).Fits .file := by
  refine ⟨.outer, rfl, ?_, rfl⟩
  cases s with
  | line | block | ifs | loop | switch | try_ | do_ => exact ⟨rfl, h.2⟩
  | nil => cases h
  | cons a l => obtain ⟨i, hi, _⟩ := h; cases hi
  | noElse => rcases h with h | h <;> cases h
  | noCatch => cases h
  | halt => cases h
  | _ => cases h.1

/-- C69: in `if (a) if (b) x else y` the `else` belongs to the second `if`, whatever the conditions and statements are -/
theorem else_nearest (a b : E) (x y : S) (ha : Grammar.Fits (.lev 0) a) (hb : Grammar.Fits (.lev 0) b) (hx : x.Fits .stmt)
    (ho : x.isOpen = false) (hy : y.Fits .stmt) :
    parseFile (.IF :: (parenTxt a ++ .IF :: (parenTxt b ++ (x.toks ++ .ELSE :: y.toks)))) = some (one (ifOnly a (ifElse b x y))) := by
  rw [file_read_iff]
  refine ⟨one_fits ?_, by simp [one, ifOnly, ifElse, S.toks]⟩
  refine ⟨rfl, ha, rfl, ⟨rfl, hb, rfl, hx, ⟨rfl, hy⟩, fun h => ?_⟩, .inl rfl, fun _ => rfl⟩
  rw [ho] at h; cases h

/-- C69: with braces it belongs to the first -/
theorem else_braces (a b : E) (x y : S) (ha : Grammar.Fits (.lev 0) a) (hb : Grammar.Fits (.lev 0) b) (hx : x.Fits .stmt) (hy : y.Fits .stmt) :
    parseFile (.IF :: (parenTxt a ++ .LBRACE :: .IF :: (parenTxt b ++ (x.toks ++ .RBRACE :: .ELSE :: y.toks)))) =
      some (one (ifElse a (.block (one (ifOnly b x))) y)) := by
  rw [file_read_iff]
  refine ⟨one_fits ?_, by simp [one, ifOnly, ifElse, S.toks]⟩
  refine ⟨rfl, ha, rfl, ⟨rfl, .top, rfl, ⟨rfl, hb, rfl, hx, .inl rfl, fun _ => rfl⟩, rfl⟩, ⟨rfl, hy⟩, fun h => by cases h⟩

/-- C69: nowhere in a file that was read an `if` without `else` stands in front of an `elseif` or `else`, however deep in loops: in a
tree of the grammar, what stands between the condition and the `else` ends with no such `if` -/
theorem else_not_stolen {c : E} {t x : S} {k : Cat} (h : (S.ifs c (.plain t x)).Fits k) (hx : x ≠ .noElse) : t.isOpen = false := by
  cases ho : t.isOpen
  · rfl
  · exact absurd (h.2.2.2.2.2 ho) hx

/-- one after the other -/
def S.append : S → S → S
  | .cons a l, m => .cons a (l.append m)
  | _, m => m

theorem append_fits {c : Cat} {s : S} (hi : c.item.isSome = true) (hs : s.Fits c) {s' : S} (h' : s'.Fits c) :
    (s.append s').Fits c ∧ (s.append s').toks = s.toks ++ s'.toks := by
  induction s with
  | nil => exact ⟨h', rfl⟩
  | cons a l _ ih =>
    obtain ⟨i, hi', ha, hl⟩ := hs
    obtain ⟨h1, h2⟩ := ih hl
    exact ⟨⟨i, hi', ha, h1⟩, by simp [S.append, S.toks, h2]⟩
  | noElse => rcases hs with h | h <;> subst h <;> cases hi
  | noCatch => cases hs; cases hi
  | halt => cases c <;> first | (cases hs; done) | (cases hi; done)
  | line | block | ifs | loop | switch | try_ | do_ | func | cls => cases c <;> first | (cases hs.1; done) | (cases hi; done)
  | _ => cases hs.1; cases hi

/-- C70: one file behind another is a file, with the statements of both -/
theorem files_concat {ts ts' : List Tok} {s s' : S} (h : parseFile ts = some s) (h' : parseFile ts' = some s') :
    parseFile (ts ++ ts') = some (s.append s') := by
  obtain ⟨h1, rfl⟩ := (file_read_iff _ _).1 h
  obtain ⟨h2, rfl⟩ := (file_read_iff _ _).1 h'
  obtain ⟨h3, h4⟩ := append_fits (c := .file) rfl h1 h2
  exact (file_read_iff _ _).2 ⟨h3, h4.symm⟩

/-- no namespace declaration in the list -/
def noNamespace : S → Bool
  | .cons (.nsLine _) _ | .cons (.nsBlock _ _) _ => false
  | .cons _ l => noNamespace l
  | _ => true

theorem file_body {s : S} (h : s.Fits .file) (hn : noNamespace s = true) : s.Fits .body := by
  induction s with
  | nil => rfl
  | cons a l _ ih =>
    obtain ⟨i, hi, ha, hl⟩ := h
    cases hi
    have hn' : noNamespace l = true := by cases a <;> first | exact hn | (cases hn; done)
    refine ⟨.top, rfl, ?_, ih hl hn'⟩
    cases a with
    | line | block | ifs | loop | switch | try_ | do_ | func | cls => exact ⟨rfl, ha.2⟩
    | halt => rfl
    | nsLine => cases hn
    | nsBlock => cases hn
    | nil => cases ha
    | cons a l => obtain ⟨i, hi, _⟩ := ha; cases hi
    | noElse => rcases ha with h | h <;> cases h
    | noCatch => cases ha
    | _ => cases ha.1
  | noElse => rcases h with h | h <;> cases h
  | noCatch => cases h
  | halt => cases h
  | _ => cases h.1

/-- C70: statements of a file may be put into braces, into a function, or into a namespace; only namespace declarations may not -/
theorem wrap {ts : List Tok} {s : S} (h : parseFile ts = some s) (hn : noNamespace s = true) :
    parseFile (.LBRACE :: (ts ++ [.RBRACE])) = some (one (.block s)) ∧
    parseFile ([.FUNCTION, .STRING, .LPAREN, .RPAREN, .LBRACE] ++ (ts ++ [.RBRACE])) =
      some (one (.func ⟨false, .STRING, ([], false), none⟩ s)) ∧
    parseFile ([.NAMESPACE, .LBRACE] ++ (ts ++ [.RBRACE])) = some (one (.nsBlock [] s)) := by
  obtain ⟨h1, rfl⟩ := (file_read_iff _ _).1 h
  have hb := file_body h1 hn
  refine ⟨(file_read_iff _ _).2 ⟨one_fits ⟨rfl, hb⟩, by simp [one, S.toks]⟩,
    (file_read_iff _ _).2 ⟨⟨.outer, rfl, ⟨rfl, ?_, hb⟩, rfl⟩, ?_⟩,
    (file_read_iff _ _).2 ⟨⟨.outer, rfl, ⟨rfl, (fun _ h => by cases h), hb⟩, rfl⟩, by simp [one, S.toks, sepTxt]⟩⟩
  · refine ⟨by simp, ⟨fun _ => rfl, fun a h => by cases h⟩, fun h hh => by cases hh⟩
  · simp [one, S.toks, FHead.toks, flagTxt, paramsTxt, listTxt, sepTrailTxt, sepTxt, optTxt]

/-- C70: and what stands in braces in a file can stand there without them -/
theorem unwrap {ts : List Tok} {s : S} (h : parseFile (.LBRACE :: (ts ++ [.RBRACE])) = some (one (.block s))) :
    parseFile ts = some s ∧ noNamespace s = true := by
  obtain ⟨h1, h2⟩ := (file_read_iff _ _).1 h
  obtain ⟨i, hi, ha, -⟩ := h1
  have hb := ha.2
  have key : ∀ s : S, s.Fits .body → s.Fits .file ∧ noNamespace s = true := by
    intro s
    induction s with
    | nil => intro _; exact ⟨rfl, rfl⟩
    | cons a l _ ih =>
      rintro ⟨i, hi, ha, hl⟩
      cases hi
      obtain ⟨h1, h2⟩ := ih hl
      cases a with
      | line | block | ifs | loop | switch | try_ | do_ | func | cls => exact ⟨⟨.outer, rfl, ⟨rfl, ha.2⟩, h1⟩, h2⟩
      | halt => exact ⟨⟨.outer, rfl, rfl, h1⟩, h2⟩
      | nil => cases ha
      | cons a l => obtain ⟨i, hi, _⟩ := ha; cases hi
      | noElse => rcases ha with h | h <;> cases h
      | noCatch => cases ha
      | _ => cases ha.1
    | noElse => intro h; rcases h with h | h <;> cases h
    | noCatch => intro h; cases h
    | halt => intro h; cases h
    | _ => intro h; cases h.1
  obtain ⟨h3, h4⟩ := key s hb
  refine ⟨(file_read_iff _ _).2 ⟨h3, ?_⟩, h4⟩
  simp only [one, S.toks, List.append_nil, List.cons.injEq, true_and] at h2
  exact List.append_cancel_right h2

/-- the word that ends the other notation of a loop -/
inductive Ends : Tok → Tok → Prop
  | «while» : Ends .WHILE .ENDWHILE
  | «for» : Ends .FOR .ENDFOR
  | foreach : Ends .FOREACH .ENDFOREACH
  | declare : Ends .DECLARE .ENDDECLARE

/-- C70: both notations of a loop mean the same: what is accepted as a body in braces is accepted between `:` and the end word -/
theorem loop_notations (h : Head) (b : S) {k w e : Tok} {r : List Tok} (hk : h.toks = k :: r) (hw : Ends k w) (he : Semi e) :
    parseFile (h.toks ++ .LBRACE :: (b.toks ++ [.RBRACE])) = some (one (.loop h (.block b))) ↔
      parseFile (h.toks ++ .COLON :: (b.toks ++ [w, e])) = some (one (.loop h (.alt b w e))) := by
  have : w = h.endWord := by cases h <;> simp only [Head.toks, List.cons.injEq] at hk <;> obtain ⟨rfl, -⟩ := hk <;> cases hw <;> rfl
  subst this
  rw [file_read_iff, file_read_iff]
  constructor
  · rintro ⟨⟨i, hi, ⟨h1, h2, h3⟩, -⟩, -⟩
    exact ⟨one_fits ⟨rfl, h2, rfl, h3.2, he⟩, by simp [one, S.toks]⟩
  · rintro ⟨⟨i, hi, ⟨h1, h2, h3⟩, -⟩, -⟩
    exact ⟨one_fits ⟨rfl, h2, rfl, h3.2.1⟩, by simp [one, S.toks]⟩
/-- C70: and no other word ends it -/
theorem loop_ends (h : Head) (b : S) {k w e : Tok} {r : List Tok} (hk : h.toks = k :: r)
    (hp : parseFile (h.toks ++ .COLON :: (b.toks ++ [w, e])) = some (one (.loop h (.alt b w e)))) : Ends k w := by
  obtain ⟨⟨i, hi, ⟨h1, h2, h3⟩, -⟩, -⟩ := (file_read_iff _ _).1 hp
  have := h3.1
  simp only [Cat.loopBody.injEq] at this
  subst this
  cases h <;> simp only [Head.toks, List.cons.injEq] at hk <;> obtain ⟨rfl, -⟩ := hk <;> constructor

/-- C70: and of an `if` with `else`, unless the first part ends with an `if` without `else` -/
theorem if_notations (c : E) (b y : S) {e : Tok} (he : Semi e) (ho : b.isOpen = false) :
    parseFile (.IF :: (parenTxt c ++ .LBRACE :: (b.toks ++ .RBRACE :: .ELSE :: .LBRACE :: (y.toks ++ [.RBRACE])))) =
        some (one (ifElse c (.block b) (.block y))) ↔
      parseFile (.IF :: (parenTxt c ++ .COLON :: (b.toks ++ .ELSE :: .COLON :: (y.toks ++ [.ENDIF, e])))) =
        some (one (.ifs c (.altIf b (.elsAlt y) e))) := by
  rw [file_read_iff, file_read_iff]
  constructor
  · rintro ⟨⟨i, hi, ⟨h1, h2, h3⟩, -⟩, -⟩
    obtain ⟨-, h4, h5, -⟩ := h3
    exact ⟨one_fits ⟨rfl, h2, rfl, h4.2, ⟨rfl, h5.2.2⟩, (fun h => by rw [ho] at h; cases h), he⟩, by simp [one, S.toks]⟩
  · rintro ⟨⟨i, hi, ⟨h1, h2, h3⟩, -⟩, -⟩
    obtain ⟨-, h4, h5, -, -⟩ := h3
    exact ⟨one_fits ⟨rfl, h2, rfl, ⟨rfl, h4⟩, ⟨rfl, rfl, h5.2⟩, fun h => by cases h⟩, by simp [one, ifElse, S.toks]⟩

end KPhp.Stmt
