import Verif.Parser.StmtClosures
/-!
# Which parts of a file are analysed (C83)

Models the tree the generated parser keeps (parser/php.g:692-886: a part of a rule without a name is read, but not kept) and the walk of `UseBuilder` over it (duchain/builders/usebuilder.cpp:51-198,
353-365, with `ContextBuilder`'s, contextbuilder.cpp:244-330, 366-400).

Trusted: the default visitor of kdevelop-pg-qt visits every part that is kept; the order of visits is not modelled, and neither is that the variables of `foreach` and `unset` are visited twice.
The tree of the file is that of `StmtGrammar.lean`; what is inside of an expression, closures too, is not looked at (C57).
-/
namespace KPhp.Walk
open KPhp (Tok)
open KPhp.Grammar (E)
open KPhp.Stmt

/-! ### The tree that is kept -/

/-- What php.g:694-708 keeps: `newElseifList newElseSingle` behind the body of `if (…):` and `declareStatement` have no names; of `declareItem=declareItem @ COMMA` the last one is kept. -/
def keep : S → S
  | .line l => .line l
  | .block b => .block (keep b)
  | .ifs c b => .ifs c (keep b)
  | .plain t rest => .plain (keep t) (keep rest)
  | .altIf b _ e => .altIf (keep b) .noElse e                                           -- php.g:694
  | .loop (.declare vs) _ => .loop (.declare (vs.drop (vs.length - 1))) .nil            -- php.g:708
  | .loop h b => .loop h (keep b)
  | .alt b w e => .alt (keep b) w e
  | .switch c b => .switch c (keep b)
  | .braces semi l => .braces semi (keep l)
  | .colon semi l e => .colon semi (keep l) e
  | .try_ b rest => .try_ (keep b) (keep rest)
  | .do_ s c e => .do_ (keep s) c e
  | .func f b => .func f (keep b)
  | .cls h l => .cls h (keep l)
  | .halt => .halt
  | .nsLine p => .nsLine p
  | .nsBlock p b => .nsBlock p (keep b)
  | .elif c s rest => .elif c (keep s) (keep rest)
  | .els s => .els (keep s)
  | .elifAlt c b rest => .elifAlt c (keep b) (keep rest)
  | .elsAlt b => .elsAlt (keep b)
  | .noElse => .noElse
  | .case_ c t b => .case_ c t (keep b)
  | .catch_ l b rest => .catch_ l (keep b) (keep rest)
  | .fin b => .fin (keep b)
  | .noCatch => .noCatch
  | .member m => .member m
  | .abstr m => .abstr m
  | .method m b => .method m (keep b)
  | .nil => .nil
  | .cons a l => .cons (keep a) (keep l)

/-! ### The walk -/

/-- What uses are looked for in. -/
inductive Item
  | expr (e : E)
  /-- a static value -/
  | value (s : Sc)
  /-- the head of a function or method: types and default values of its parameters, its return type -/
  | func (f : FHead)
  /-- the head of a class: its bases -/
  | cls (h : CHead)
  /-- the types of a `catch` -/
  | types (l : List Name)
  | global (vs : List GVar)
  | use (kind : Option Tok) (items : List UseItem)
  | traits (l : List Name) (imports : Option (List Alias × Bool))
deriving DecidableEq, Repr

/-- A statement without statements inside.  Static values are visited only in the context of a class (`UseBuilder::visitStaticScalar`, usebuilder.cpp:154-159), where there are no statements. -/
def walkLine : Line → List Item
  | .bare _ => []
  | .expr e _ => [.expr e]
  | .word _ none _ => []
  | .word _ (some e) _ => [.expr e]
  | .need _ e _ => [.expr e]
  | .echo es _ => es.map .expr
  | .unset vs _ => vs.map .expr                                                         -- usebuilder.cpp:165-166
  | .global vs _ => [.global vs]                                                        -- :144-152
  | .static _ _ => []                                                                   -- :156
  | .const vs => vs.map .expr
  | .use k l => [.use k l]                                                              -- :225-264
  | .goto => []
  | .label => []

/-- The head of a loop; the values of `declare` are static values. -/
def walkHead : Head → List Item
  | .while_ c => [.expr c]
  | .for_ a b c => a.map .expr ++ b.map .expr ++ c.map .expr
  | .foreach src _ v none => [.expr src, .expr v]                                       -- usebuilder.cpp:163-175
  | .foreach src _ v (some w) => [.expr src, .expr v, .expr w.2]
  | .declare _ => []

/-- A member of a class, in the context of the class (usebuilder.cpp:77-100). -/
def walkMember : Member → List Item
  | .var_ vs => vs.filterMap (·.map .value)
  | .prop _ _ vs => vs.filterMap (·.map .value)
  | .const _ cs => cs.map fun c => .expr c.2
  | .use l i => [.traits l i]                                                           -- :79-96
  | .func _ f => [.func f]

/-- `UseBuilder` on a kept tree. -/
def walk : S → List Item
  | .line l => walkLine l
  | .block b => walk b
  | .ifs c b => .expr c :: walk b
  | .plain t rest => walk t ++ walk rest
  | .altIf b rest _ => walk b ++ walk rest
  | .loop h b => walkHead h ++ walk b
  | .alt b _ _ => walk b
  | .switch c b => .expr c :: walk b
  | .braces _ l => walk l
  | .colon _ l _ => walk l
  | .try_ b rest => walk b ++ walk rest
  | .do_ s c _ => .expr c :: walk s
  | .func f b => .func f :: walk b
  | .cls h l => .cls h :: walk l
  | .halt => []
  | .nsLine _ => []
  | .nsBlock _ b => walk b
  | .elif c s rest => .expr c :: (walk s ++ walk rest)
  | .els s => walk s
  | .elifAlt c b rest => .expr c :: (walk b ++ walk rest)
  | .elsAlt b => walk b
  | .noElse => []
  | .case_ none _ b => walk b
  | .case_ (some c) _ b => .expr c :: walk b
  | .catch_ l b rest => .types l :: (walk b ++ walk rest)                               -- usebuilder.cpp:182-197
  | .fin b => walk b
  | .noCatch => []
  | .member m => walkMember m
  | .abstr m => walkMember m
  | .method m b => walkMember m ++ walk b
  | .nil => []
  | .cons a l => walk a ++ walk l

/-- What is analysed of a file. -/
def analysed (s : S) : List Item := walk (keep s)

/-! ### Specification -/

/-- Everything written in a statement, in reading order. -/
def lineParts : Line → List Item
  | .expr e _ => [.expr e]
  | .word _ e _ => (e.map .expr).toList
  | .need _ e _ => [.expr e]
  | .echo es _ => es.map .expr
  | .unset vs _ => vs.map .expr
  | .global vs _ => [.global vs]
  | .static vs _ => vs.filterMap (·.map .value)
  | .const vs => vs.map .expr
  | .use k l => [.use k l]
  | .bare _ | .goto | .label => []

def headParts : Head → List Item
  | .while_ c => [.expr c]
  | .for_ a b c => (a ++ b ++ c).map .expr
  | .foreach src _ v w => [.expr src, .expr v] ++ (w.map fun w => .expr w.2).toList
  | .declare vs => vs.map .value

def memberParts : Member → List Item
  | .var_ vs | .prop _ _ vs => vs.filterMap (·.map .value)
  | .const _ cs => cs.map fun c => .expr c.2
  | .use l i => [.traits l i]
  | .func _ f => [.func f]

/-- Everything written in a file, in reading order. -/
def parts : S → List Item
  | .line l => lineParts l
  | .ifs c b | .switch c b => .expr c :: parts b
  | .block b | .alt b _ _ | .braces _ b | .colon _ b _ | .nsBlock _ b | .els b | .elsAlt b | .fin b => parts b
  | .plain a b | .altIf a b _ | .try_ a b | .cons a b => parts a ++ parts b
  | .loop h b => headParts h ++ parts b
  | .do_ s c _ => parts s ++ [.expr c]
  | .func f b => .func f :: parts b
  | .cls h l => .cls h :: parts l
  | .elif c s rest | .elifAlt c s rest => .expr c :: (parts s ++ parts rest)
  | .case_ c _ b => (c.map .expr).toList ++ parts b
  | .catch_ l b rest => .types l :: (parts b ++ parts rest)
  | .member m | .abstr m => memberParts m
  | .method m b => memberParts m ++ parts b
  | .halt | .nsLine _ | .noElse | .noCatch | .nil => []

/-- What is not analysed: the `elseif`s and `else` of an `if (…):`, the statements of a `declare`, the values of static variables and in `declare`. -/
def lost : S → List Item
  | .line (.static vs _) => vs.filterMap (·.map .value)
  | .line _ => []
  | .altIf b rest _ => lost b ++ parts rest
  | .loop (.declare vs) b => vs.map .value ++ parts b
  | .plain a b | .try_ a b | .cons a b => lost a ++ lost b
  | .ifs _ b | .switch _ b | .block b | .alt b _ _ | .braces _ b | .colon _ b _ | .nsBlock _ b | .els b | .elsAlt b | .fin b | .loop _ b | .do_ b _ _ | .func _ b | .cls _ b | .case_ _ _ b | .method _ b => lost b
  | .elif _ s rest | .elifAlt _ s rest | .catch_ _ s rest => lost s ++ lost rest
  | .member _ | .abstr _ | .halt | .nsLine _ | .noElse | .noCatch | .nil => []

/-! ### Theorems -/

theorem walkLine_perm (l : Line) : (walkLine l ++ lost (.line l)).Perm (lineParts l) := by
  cases l with
  | word k e t => cases e <;> simp [walkLine, lost, lineParts]
  | _ => simp [walkLine, lost, lineParts]

theorem walkMember_eq (m : Member) : walkMember m = memberParts m := by cases m <;> rfl

theorem walkHead_eq (h : Head) (hd : ∀ vs, h ≠ .declare vs) : walkHead h = headParts h := by
  cases h with
  | while_ c => rfl
  | for_ a b c => simp [walkHead, headParts]
  | foreach s r v w => cases w <;> rfl
  | declare vs => exact absurd rfl (hd vs)

theorem perm2 {a b c d x y : List Item} (h1 : (a ++ b).Perm x) (h2 : (c ++ d).Perm y) : (a ++ c ++ (b ++ d)).Perm (x ++ y) := by
  have : (a ++ c ++ (b ++ d)).Perm ((a ++ b) ++ (c ++ d)) := by
    simp only [List.append_assoc]
    refine List.Perm.append_left a ?_
    rw [← List.append_assoc, ← List.append_assoc b]
    exact List.Perm.append_right d List.perm_append_comm
  exact this.trans (h1.append h2)

/-- **C83.** What is analysed, together with what is not, is everything that is written: nothing else is lost and nothing counts twice. -/
theorem analysed_lost (s : S) : (analysed s ++ lost s).Perm (parts s) := by
  unfold analysed
  induction s with
  | line l => exact walkLine_perm l
  | loop h b ih =>
    by_cases hd : ∃ vs, h = .declare vs
    · obtain ⟨vs, rfl⟩ := hd
      simp [keep, walk, walkHead, lost, parts, headParts]
    · have hd' : ∀ vs, h ≠ .declare vs := fun vs e => hd ⟨vs, e⟩
      have h1 : keep (.loop h b) = .loop h (keep b) := by cases h <;> first | rfl | exact absurd rfl (hd' _)
      have h2 : lost (.loop h b) = lost b := by cases h <;> first | rfl | exact absurd rfl (hd' _)
      rw [h1, h2, walk, parts, walkHead_eq h hd', List.append_assoc]
      exact List.Perm.append_left _ ih
  | altIf b rest e ih1 ih2 =>
    simp only [keep, walk, lost, parts, List.append_nil]
    rw [← List.append_assoc]
    exact List.Perm.append_right _ ih1
  | plain a b ih1 ih2 => exact perm2 ih1 ih2
  | try_ a b ih1 ih2 => exact perm2 ih1 ih2
  | cons a b ih1 ih2 => exact perm2 ih1 ih2
  | elif c a b ih1 ih2 => exact List.Perm.cons _ (perm2 ih1 ih2)
  | elifAlt c a b ih1 ih2 => exact List.Perm.cons _ (perm2 ih1 ih2)
  | catch_ l a b ih1 ih2 => exact List.Perm.cons _ (perm2 ih1 ih2)
  | do_ s c e ih =>
    simp only [keep, walk, lost, parts]
    exact (List.Perm.cons _ ih).trans (List.perm_append_comm (l₁ := [_]))
  | case_ c t b ih =>
    cases c with
    | none => exact ih
    | some c => exact List.Perm.cons _ ih
  | member m => simp [keep, walk, lost, parts, walkMember_eq]
  | abstr m => simp [keep, walk, lost, parts, walkMember_eq]
  | method m b ih =>
    simp only [keep, walk, lost, parts, walkMember_eq, List.append_assoc]
    exact List.Perm.append_left _ ih
  | ifs c b ih => exact List.Perm.cons _ ih
  | switch c b ih => exact List.Perm.cons _ ih
  | func c b ih => exact List.Perm.cons _ ih
  | cls c b ih => exact List.Perm.cons _ ih
  | block b ih => exact ih
  | alt b w e ih => exact ih
  | braces a b ih => exact ih
  | colon a b c ih => exact ih
  | nsBlock a b ih => exact ih
  | els b ih => exact ih
  | elsAlt b ih => exact ih
  | fin b ih => exact ih
  | halt => exact List.Perm.nil
  | nsLine => exact List.Perm.nil
  | noElse => exact List.Perm.nil
  | noCatch => exact List.Perm.nil
  | nil => exact List.Perm.nil

/-- **C83 (exactly).** Everything that is written is analysed iff nothing is lost. -/
theorem complete_iff (s : S) : (analysed s).Perm (parts s) ↔ lost s = [] := by
  have h := analysed_lost s
  constructor
  · intro hp
    have := h.length_eq
    rw [List.length_append, hp.length_eq] at this
    exact List.length_eq_zero_iff.1 (by omega)
  · intro hl
    rw [hl, List.append_nil] at h
    exact h

/-- A static value. -/
def Item.isValue : Item → Bool
  | .value _ => true
  | _ => false

theorem lost_values (s : S) (h1 : Tok.ENDIF ∉ s.toks) (h2 : Tok.DECLARE ∉ s.toks) : ∀ i ∈ lost s, i.isValue = true := by
  induction s with
  | line l =>
    cases l with
    | static vs t =>
      intro i hi
      obtain ⟨a, -, ha⟩ := List.mem_filterMap.1 hi
      cases a with
      | none => simp at ha
      | some v => simp at ha; subst ha; rfl
    | _ => intro i hi; cases hi
  | altIf b rest e _ _ => simp [S.toks] at h1
  | loop h b ih =>
    cases h with
    | declare vs => simp [S.toks, Head.toks] at h2
    | _ =>
      simp only [S.toks, List.mem_append, not_or] at h1 h2
      exact ih h1.2 h2.2
  | plain a b ih1 ih2 =>
    simp [S.toks, not_or] at h1 h2
    intro i hi
    rcases List.mem_append.1 (show i ∈ lost a ++ lost b from hi) with hi | hi
    · exact ih1 (by simp_all) (by simp_all) i hi
    · exact ih2 (by simp_all) (by simp_all) i hi
  | try_ a b ih1 ih2 =>
    simp [S.toks, not_or] at h1 h2
    intro i hi
    rcases List.mem_append.1 (show i ∈ lost a ++ lost b from hi) with hi | hi
    · exact ih1 (by simp_all) (by simp_all) i hi
    · exact ih2 (by simp_all) (by simp_all) i hi
  | cons a b ih1 ih2 =>
    simp [S.toks, not_or] at h1 h2
    intro i hi
    rcases List.mem_append.1 (show i ∈ lost a ++ lost b from hi) with hi | hi
    · exact ih1 (by simp_all) (by simp_all) i hi
    · exact ih2 (by simp_all) (by simp_all) i hi
  | elif c a b ih1 ih2 =>
    simp [S.toks, not_or] at h1 h2
    intro i hi
    rcases List.mem_append.1 (show i ∈ lost a ++ lost b from hi) with hi | hi
    · exact ih1 (by simp_all) (by simp_all) i hi
    · exact ih2 (by simp_all) (by simp_all) i hi
  | elifAlt c a b ih1 ih2 =>
    simp [S.toks, not_or] at h1 h2
    intro i hi
    rcases List.mem_append.1 (show i ∈ lost a ++ lost b from hi) with hi | hi
    · exact ih1 (by simp_all) (by simp_all) i hi
    · exact ih2 (by simp_all) (by simp_all) i hi
  | catch_ l a b ih1 ih2 =>
    simp [S.toks, not_or] at h1 h2
    intro i hi
    rcases List.mem_append.1 (show i ∈ lost a ++ lost b from hi) with hi | hi
    · exact ih1 (by simp_all) (by simp_all) i hi
    · exact ih2 (by simp_all) (by simp_all) i hi
  | member | abstr | halt | nsLine | noElse | noCatch | nil => intro i hi; cases hi
  | _ =>
    rename_i ih
    simp [S.toks, not_or] at h1 h2
    exact ih (by simp_all) (by simp_all)

/-- **C83.** In a file without `endif` and `declare` only static values are lost. -/
theorem file_lost {ts : List Tok} {s : S} (h : parseFile ts = some s) (h1 : Tok.ENDIF ∉ ts) (h2 : Tok.DECLARE ∉ ts) :
    ∀ i ∈ lost s, i.isValue = true := by
  obtain ⟨-, rfl⟩ := (file_read_iff ts s).1 h
  exact lost_values s h1 h2

theorem lost_none (s : S) (h1 : Tok.ENDIF ∉ s.toks) (h2 : Tok.DECLARE ∉ s.toks) (h3 : Tok.STATIC ∉ s.toks) : lost s = [] := by
  induction s with
  | line l =>
    cases l with
    | static vs t => simp [S.toks, Line.toks] at h3
    | _ => rfl
  | altIf b rest e _ _ => simp [S.toks] at h1
  | loop h b ih =>
    cases h with
    | declare vs => simp [S.toks, Head.toks] at h2
    | _ =>
      simp only [S.toks, List.mem_append, not_or] at h1 h2 h3
      exact ih h1.2 h2.2 h3.2
  | plain a b ih1 ih2 | try_ a b ih1 ih2 | cons a b ih1 ih2 | elif _ a b ih1 ih2 | elifAlt _ a b ih1 ih2 | catch_ _ a b ih1 ih2 =>
    simp [S.toks, not_or] at h1 h2 h3
    have e1 := ih1 (by simp_all) (by simp_all) (by simp_all)
    have e2 := ih2 (by simp_all) (by simp_all) (by simp_all)
    simp [lost, e1, e2]
  | member | abstr | halt | nsLine | noElse | noCatch | nil => rfl
  | _ =>
    rename_i ih
    simp [S.toks, not_or] at h1 h2 h3
    exact ih (by simp_all) (by simp_all) (by simp_all)

/-- **C83.** A file without the words `endif`, `declare` and `static` is analysed completely. -/
theorem file_complete_partial {ts : List Tok} {s : S} (h : parseFile ts = some s) (h1 : Tok.ENDIF ∉ ts) (h2 : Tok.DECLARE ∉ ts)
    (h3 : Tok.STATIC ∉ ts) : (analysed s).Perm (parts s) := by
  obtain ⟨-, rfl⟩ := (file_read_iff ts s).1 h
  exact (complete_iff s).2 (lost_none s h1 h2 h3)

/-- With braces both branches of an `if` are analysed … -/
theorem braces_else (c : E) (b d : S) (hc : Grammar.Fits (.lev 0) c) (hb : b.Fits .body) (hd : d.Fits .body) :
    ∃ s, parseFile (.IF :: (parenTxt c ++ .LBRACE :: (b.toks ++ .RBRACE :: .ELSE :: .LBRACE :: (d.toks ++ [.RBRACE])))) = some s ∧
      analysed s = .expr c :: (analysed b ++ analysed d) := by
  refine ⟨one (ifElse c (.block b) (.block d)), (file_read_iff _ _).2 ⟨one_fits ?_, by simp [one, ifElse, S.toks]⟩, ?_⟩
  · exact ⟨rfl, hc, rfl, ⟨rfl, hb⟩, ⟨rfl, rfl, hd⟩, fun h => by cases h⟩
  · simp [analysed, one, ifElse, keep, walk]

/-- … **finding**: with `if (…):` `… else:` `… endif;` the second is not. -/
theorem colon_else (c : E) (b d : S) (hc : Grammar.Fits (.lev 0) c) (hb : b.Fits .body) (ho : b.isOpen = false) (hd : d.Fits .body) :
    ∃ s, parseFile (.IF :: (parenTxt c ++ .COLON :: (b.toks ++ (.ELSE :: .COLON :: (d.toks ++ [.ENDIF, .SEMICOLON]))))) = some s ∧
      analysed s = .expr c :: analysed b := by
  refine ⟨one (.ifs c (.altIf b (.elsAlt d) .SEMICOLON)), (file_read_iff _ _).2 ⟨one_fits ?_, by simp [one, S.toks]⟩, ?_⟩
  · refine ⟨rfl, hc, rfl, hb, ⟨rfl, hd⟩, fun h => ?_, .inl rfl⟩
    rw [ho] at h; cases h
  · simp [analysed, one, keep, walk]

/-- **Finding.** Nothing inside `declare (…) { … }` is analysed. -/
theorem declare_body (v : Sc) (b : S) (hv : ScFits .sc v) (hb : b.Fits .body) :
    ∃ s, parseFile (.DECLARE :: .LPAREN :: .STRING :: .ASSIGN :: (v.toks ++ .RPAREN :: .LBRACE :: (b.toks ++ [.RBRACE]))) = some s ∧
      analysed s = [] := by
  refine ⟨one (.loop (.declare [v]) (.block b)), (file_read_iff _ _).2 ⟨one_fits ?_, by simp [one, S.toks, Head.toks, sepTxt]⟩, ?_⟩
  · exact ⟨rfl, ⟨by simp, by simpa using hv⟩, rfl, hb⟩
  · rfl

/-- **Finding.** The value of a static variable is not analysed. -/
theorem static_value (v : Sc) (hv : ScFits .sc v) :
    ∃ s, parseFile (.STATIC :: .VARIABLE :: .ASSIGN :: (v.toks ++ [.SEMICOLON])) = some s ∧ parts s = [.value v] ∧ analysed s = [] := by
  refine ⟨one (.line (.static [some v] .SEMICOLON)), (file_read_iff _ _).2 ⟨one_fits ?_, by simp [one, S.toks, Line.toks, varsTxt, sepTxt, assignTxt, optTxt]⟩, rfl, rfl⟩
  exact ⟨rfl, ⟨by simp, by simpa using hv⟩, .inl rfl⟩

/-! ### Concrete cases -/

/-- `if ($a): f(); else: g(); endif;` — the condition and `f()` -/
def exIf : List Tok :=
  [.IF, .LPAREN, .VARIABLE, .RPAREN, .COLON, .STRING, .LPAREN, .RPAREN, .SEMICOLON, .ELSE, .COLON, .STRING, .LPAREN, .RPAREN, .SEMICOLON, .ENDIF, .SEMICOLON]
example : (parseFile exIf).map (fun s => ((analysed s).length, (lost s).length, (parts s).length)) = some (2, 1, 3) := by decide +kernel
/-- `foreach ($a as $k => $v) { echo $k, $v; }` satisfies the hypotheses of `file_complete_partial` -/
def exLoop : List Tok :=
  [.FOREACH, .LPAREN, .VARIABLE, .AS, .VARIABLE, .DOUBLE_ARROW, .VARIABLE, .RPAREN, .LBRACE, .ECHO, .VARIABLE, .COMMA, .VARIABLE, .SEMICOLON, .RBRACE]
example : (parseFile exLoop).isSome = true ∧ Tok.ENDIF ∉ exLoop ∧ Tok.DECLARE ∉ exLoop ∧ Tok.STATIC ∉ exLoop := by decide +kernel
example : (parseFile exLoop).map (fun s => (analysed s).length) = some 5 := by decide +kernel

end KPhp.Walk
