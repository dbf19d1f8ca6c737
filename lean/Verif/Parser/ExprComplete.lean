import Verif.Parser.ExprSound
/-
# The parser of expressions accepts every tree that fits (C59)
-/
namespace KPhp.Grammar
open KPhp (Tok)
set_option linter.unusedSectionVars false
set_option linter.unusedVariables false
set_option linter.unusedSimpArgs false

/-! ## What follows and what comes first -/

/-- a token that continues an operand, and the level of its operator -/
inductive Cont : Tok → Nat → Prop
  | bin (k l a) : Prec k l a → Cont k l
  | inst : Cont .INSTANCEOF 13
  | assign (k) : IsAssign k → Cont k 4
  | cond : Cont .QUESTION 5
  | post (k) : IsIncDec k → Cont k 19
  | index : Cont .LBRACKET 20
  | brace : Cont .LBRACE 20
  | call : Cont .LPAREN 20
  | arrow : Cont .OBJECT_OPERATOR 20
  | scope : Cont .PAAMAYIM_NEKUDOTAYIM 20
  | name : Cont .BACKSLASH 20

theorem cont_unique {k : Tok} {l l' : Nat} (h : Cont k l) (h' : Cont k l') : l = l' := by
  have pa : ∀ {k l a}, Prec k l a → IsAssign k → False := by intro k l a h h'; cases h <;> cases h'
  have pi : ∀ {k l a}, Prec k l a → IsIncDec k → False := by intro k l a h h'; cases h <;> cases h'
  have ai : ∀ {k}, IsAssign k → IsIncDec k → False := by intro k h h'; cases h <;> cases h'
  cases h with
  | bin _ _ a h =>
    cases h' with
    | bin _ _ a' h' => exact (prec_unique h h').1
    | assign _ h' => exact (pa h h').elim
    | post _ h' => exact (pi h h').elim
    | _ => cases h
  | assign _ h =>
    cases h' with
    | bin _ _ a' h' => exact (pa h' h).elim
    | assign _ h' => rfl
    | post _ h' => exact (ai h h').elim
    | _ => cases h
  | post _ h =>
    cases h' with
    | bin _ _ a' h' => exact (pi h' h).elim
    | assign _ h' => exact (ai h' h).elim
    | post _ h' => rfl
    | _ => cases h
  | _ =>
    cases h' with
    | bin _ _ a' h' => cases h'
    | assign _ h' => cases h'
    | post _ h' => cases h'
    | _ => rfl

theorem cont_three {k : Tok} {l : Nat} (h : Cont k l) : l ≠ 3 := by
  cases h with
  | bin _ _ _ h => cases h <;> omega
  | _ => omega
theorem cont_weak {k : Tok} {l : Nat} (h : Cont k l) (hl : l < 4) : printHeads.contains k = false := by
  cases h with
  | bin _ _ _ h => cases h <;> first | decide | omega
  | _ => omega

/-- nothing of this level or stronger follows; where `yield` may stand, no expression follows -/
def Stop (l : Nat) (r : List Tok) : Prop := (∀ k r' m, r = k :: r' → Cont k m → m < l) ∧ (l ≤ 4 → headIn printHeads r = false)

theorem Stop.mono {l l' : Nat} {r : List Tok} (h : Stop l r) (hl : l ≤ l') : Stop l' r :=
  ⟨fun k r' m hr hc => Nat.lt_of_lt_of_le (h.1 k r' m hr hc) hl, fun h' => h.2 (by omega)⟩
theorem Stop.three {r : List Tok} (h : Stop 4 r) : Stop 3 r :=
  ⟨fun k r' m hr hc => by have := h.1 k r' m hr hc; have := cont_three hc; omega, fun h' => h.2 (by omega)⟩
theorem stop_cons {k : Tok} {m l : Nat} (h : Cont k m) (hl : m < l) (r : List Tok) : Stop l (k :: r) := by
  refine ⟨fun k' r' m' hr hc => ?_, fun h' => ?_⟩
  · cases hr
    rw [cont_unique hc h]; exact hl
  · exact cont_weak h (by omega)
theorem stop_nil (l : Nat) : Stop l [] := ⟨(fun k r' m hr => by cases hr), fun _ => rfl⟩

/-- tokens behind which no expression goes on and which begin none -/
def enders : List Tok := [.COLON, .COMMA, .RPAREN, .RBRACKET, .RBRACE, .DOUBLE_ARROW, .SEMICOLON, .CLOSE_TAG, .AS, .OPEN_TAG]
theorem stop_other {k : Tok} (h : enders.contains k = true) (l : Nat) (r : List Tok) : Stop l (k :: r) := by
  simp only [enders, List.contains_eq_mem, List.mem_cons, List.not_mem_nil, or_false, decide_eq_true_eq] at h
  refine ⟨fun k' r' m hr hc => ?_, fun _ => ?_⟩
  · cases hr
    rcases h with rfl | rfl | rfl | rfl | rfl | rfl | rfl | rfl | rfl | rfl <;> (cases hc <;> (rename_i h; cases h))
  · rcases h with rfl | rfl | rfl | rfl | rfl | rfl | rfl | rfl | rfl | rfl <;> rfl

theorem Stop.notIn {l : Nat} {r : List Tok} (h : Stop l r) {ks : List Tok} (hk : ∀ k ∈ ks, ∃ m, l ≤ m ∧ Cont k m) : headIn ks r = false := by
  cases r with
  | nil => rfl
  | cons k r =>
    cases hc : headIn ks (k :: r)
    · rfl
    · simp only [headIn, List.contains_eq_mem, decide_eq_true_eq] at hc
      obtain ⟨m, hm, hc⟩ := hk k hc
      have := h.1 _ _ _ rfl hc
      omega
theorem stop_ops {l : Nat} {k : Tok} {r : List Tok} (h : Stop l (k :: r)) : (opsAt l).contains k = false := by
  cases hc : (opsAt l).contains k
  · rfl
  · rcases opsAt_prec.1 hc with hp | hp <;> exact absurd (h.1 _ _ _ rfl (.bin _ _ _ hp)) (by omega)
theorem stop_incDec {l : Nat} (hl : l ≤ 19) {k : Tok} {r : List Tok} (h : Stop l (k :: r)) : incDec.contains k = false := by
  cases hc : incDec.contains k
  · rfl
  · exact absurd (h.1 _ _ _ rfl (.post _ (incDec_iff.1 hc))) (by omega)
theorem stop_assign {l : Nat} (hl : l ≤ 4) {k : Tok} {r : List Tok} (h : Stop l (k :: r)) : assignOps.contains k = false := by
  cases hc : assignOps.contains k
  · rfl
  · exact absurd (h.1 _ _ _ rfl (.assign _ (assign_iff.1 hc))) (by omega)
theorem stop_ne {l m : Nat} {k0 : Tok} (hk : Cont k0 m) (hl : l ≤ m) {k : Tok} {r : List Tok} (h : Stop l (k :: r)) : k ≠ k0 := by
  rintro rfl
  exact absurd (h.1 _ _ _ rfl hk) (by omega)

/-- the first tokens of operands -/
def Start (l : Nat) (t : Tok) : Prop :=
  (l ≤ 3 ∧ t = .PRINT) ∨ (l ≤ 4 ∧ (t = .YIELD ∨ t = .YIELD_FROM)) ∨ (l ≤ 17 ∧ (IsUnary t ∨ t = .EXIT ∨ t = .EVAL ∨ t = .LIST)) ∨
    (l ≤ 18 ∧ IsIncDec t) ∨ t ∈ primHeads

theorem Start.mono {l l' : Nat} {t : Tok} (h : Start l t) (hl : l' ≤ l) : Start l' t := by
  rcases h with ⟨h1, h2⟩ | ⟨h1, h2⟩ | ⟨h1, h2⟩ | ⟨h1, h2⟩ | h
  · exact .inl ⟨by omega, h2⟩
  · exact .inr (.inl ⟨by omega, h2⟩)
  · exact .inr (.inr (.inl ⟨by omega, h2⟩))
  · exact .inr (.inr (.inr (.inl ⟨by omega, h2⟩)))
  · exact .inr (.inr (.inr (.inr h)))
theorem Start.print {t : Tok} (h : Start 0 t) : printHeads.contains t = true := by
  rcases h with ⟨h1, rfl⟩ | ⟨h1, rfl | rfl⟩ | ⟨h1, h2 | rfl | rfl | rfl⟩ | ⟨h1, h2⟩ | h
  all_goals first | rfl | (cases h2 <;> rfl) | skip
  simp only [printHeads, List.contains_eq_mem, decide_eq_true_eq, List.mem_cons, List.mem_append]
  simp [h]
theorem Start.not {l : Nat} {t : Tok} (h : Start l t) :
    t ∉ [Tok.COLON, .RPAREN, .RBRACKET, .ELLIPSIS, .BIT_AND, .COMMA] ∧ (3 < l → t ≠ .PRINT) ∧ (4 < l → t ≠ .YIELD ∧ t ≠ .YIELD_FROM) ∧
      (17 < l → unaryOps.contains t = false ∧ t ≠ .EXIT ∧ t ≠ .EVAL ∧ t ≠ .LIST) ∧ (18 < l → incDec.contains t = false) := by
  have prim : ∀ t ∈ primHeads, t ∉ [Tok.COLON, .RPAREN, .RBRACKET, .ELLIPSIS, .BIT_AND, .COMMA] ∧ t ≠ .PRINT ∧ (t ≠ .YIELD ∧ t ≠ .YIELD_FROM) ∧
    (unaryOps.contains t = false ∧ t ≠ .EXIT ∧ t ≠ .EVAL ∧ t ≠ .LIST) ∧ incDec.contains t = false := by decide
  rcases h with ⟨h1, rfl⟩ | ⟨h1, rfl | rfl⟩ | ⟨h1, h2 | rfl | rfl | rfl⟩ | ⟨h1, h2⟩ | h
  all_goals first
    | exact ⟨by decide, (by omega), fun _ => by decide, fun _ => by decide, fun _ => by decide⟩
    | exact ⟨by decide, fun _ => by decide, (by omega), fun _ => by decide, fun _ => by decide⟩
    | exact ⟨by decide, fun _ => by decide, fun _ => by decide, (by omega), fun _ => by decide⟩
    | (cases h2 <;> exact ⟨by decide, fun _ => by decide, fun _ => by decide, (by omega), fun _ => by decide⟩)
    | (cases h2 <;> exact ⟨by decide, fun _ => by decide, fun _ => by decide, fun _ => by decide, by omega⟩)
    | skip
  · obtain ⟨a, b, c, d, e⟩ := prim t h
    exact ⟨a, fun _ => b, fun _ => c, fun _ => d, fun _ => e⟩

/-- the first tokens of access paths -/
def modeHeads : Mode → List Tok
  | .vari => nameHeads
  | .inst => [.LPAREN]
  | .cls => .STATIC :: nameHeads
  | .dim => [.STRING, .BACKSLASH]
  | .arr => [.ARRAY, .LBRACKET]
  | .str => [.CONSTANT_ENCAPSED_STRING, .DOUBLE_QUOTE]

/-- how the text of a tree begins -/
def First : Cat → E → Prop
  | .lev l, e => l ≤ 20 ∧ ∃ t r, e.toks = t :: r ∧ Start l t ∧ (t = .STRING_VARNAME → headIn [.LBRACKET] r = false)
  | .norm, e => ∃ t r, e.toks = t :: r ∧ t ∈ primHeads ∧ t ≠ .ARRAY ∧ t ≠ .LBRACKET ∧ (t = .STRING_VARNAME → headIn [.LBRACKET] r = false)
  | .path m, e => ∃ t r, e.toks = t :: r ∧ t ∈ modeHeads m
  | .cvar, e => ∃ t r, e.toks = t :: r ∧ t ∈ [Tok.VARIABLE, .DOLLAR]
  | .newo, e => ∃ r, e.toks = .NEW :: r
  | .item _, e => ∃ t r, e.toks = t :: r ∧ (Start 0 t ∨ t = .ELLIPSIS ∨ t = .BIT_AND)
  | .items1 _, e => ∃ t r, e.toks = t :: r ∧ (Start 0 t ∨ t = .ELLIPSIS ∨ t = .BIT_AND)
  | .part, e => ∃ t r, e.toks = t :: r ∧ t ∈ partHeads
  | .pname, _ | .items _, _ | .vars _, _ | .velem _, _ | .parts, _ => True

section
variable [Closures]

theorem nameToks_head (g : Bool) (n : Nat) : ∃ t r, nameToks g n = t :: r ∧ t ∈ [Tok.STRING, .BACKSLASH] := by
  cases g
  · exact ⟨_, _, rfl, by decide⟩
  · exact ⟨_, _, rfl, by decide⟩

theorem headIn_app {ks r : List Tok} {k : Tok} {r' : List Tok} (h : headIn ks r = false) (hk : k ∉ ks) : headIn ks (r ++ k :: r') = false := by
  cases r with
  | nil => simp [headIn, hk]
  | cons t r => exact h

macro "eqt" : tactic => `(tactic| first | rfl | (simp [E.toks]; rfl) | (simp [E.toks]; exact ⟨rfl, rfl⟩))

theorem fits_first {c : Cat} {e : E} (h : Fits c e) : First c e := by
  have pl : ∀ {k l a}, Prec k l a → l ≤ 20 ∧ k ≠ .LBRACKET := by intro k l a h; cases h <;> exact ⟨by omega, by decide⟩
  have nh : ∀ t ∈ nameHeads, t ∈ primHeads ∧ t ≠ .ARRAY ∧ t ≠ .LBRACKET ∧ t ≠ .STRING_VARNAME := by decide
  have P : ∀ {e : E} {t : Tok} {r : List Tok} , e.toks = t :: r → (t ∈ primHeads ∧ t ≠ .ARRAY ∧ t ≠ .LBRACKET ∧ t ≠ .STRING_VARNAME) → First .norm e :=
    fun h h' => ⟨_, _, h, h'.1, h'.2.1, h'.2.2.1, fun h => absurd h h'.2.2.2⟩
  -- a binary operator behind an operand
  have bin : ∀ {l l' : Nat} {a e : E} {k : Tok} {r : List Tok}, First (.lev l) a → l' ≤ l → e.toks = a.toks ++ k :: r → k ≠ .LBRACKET → First (.lev l') e := by
    intro l l' a e k r ⟨hl, t, r', h1, h2, h3⟩ hl' h hk
    exact ⟨by omega, t, r' ++ k :: r, by rw [h, h1]; rfl, h2.mono hl', fun ht => headIn_app (h3 ht) (by simpa using hk)⟩
  have more : ∀ {m : Mode} {a e : E} {r : List Tok}, First (.path m) a → e.toks = a.toks ++ r → First (.path m) e := by
    intro m a e r ⟨t, r', h1, h2⟩ h
    exact ⟨t, r' ++ r, by rw [h, h1]; rfl, h2⟩
  have key : ∀ {l : Nat} {e : E} {t : Tok} {r : List Tok}, l ≤ 20 → e.toks = t :: r → Start l t → t ≠ .STRING_VARNAME → First (.lev l) e :=
    fun hl h hs hn => ⟨hl, _, _, h, hs, fun h => absurd h hn⟩
  have nam : ∀ {e : E} {g n r}, e.toks = nameToks g n ++ r → ∃ t r, e.toks = t :: r ∧ t ∈ [Tok.STRING, .BACKSLASH] := by
    intro e g n r h
    obtain ⟨t, r', h1, h2⟩ := nameToks_head g n
    exact ⟨t, r' ++ r, by rw [h, h1]; rfl, h2⟩
  have nv : ∀ {e : E}, (∃ t r, e.toks = t :: r ∧ t ∈ [Tok.STRING, .BACKSLASH]) → First (.path .vari) e := by
    rintro e ⟨t, r, h, ht⟩
    exact ⟨t, r, h, (by decide : ∀ t ∈ [Tok.STRING, .BACKSLASH], t ∈ modeHeads .vari) t ht⟩
  have mh : ∀ m, m ≠ .cls → m ≠ .arr → ∀ t ∈ modeHeads m, t ∈ primHeads ∧ t ≠ .ARRAY ∧ t ≠ .LBRACKET ∧ t ≠ .STRING_VARNAME := by
    intro m h1 h2; cases m <;> first | contradiction | decide
  have itm : ∀ {a b : Bool} {e i : E} {r : List Tok}, First (.item a) i → e.toks = i.toks ++ r → First (.items1 b) e := by
    rintro a b e i r ⟨t, r', h1, h2⟩ h
    exact ⟨t, r' ++ r, by rw [h, h1]; rfl, h2⟩
  induction h with
  | left k l a b hp ha hb iha ihb => exact bin iha (Nat.le_refl _) (by eqt) (pl hp).2
  | non k l a b hp ha hb iha ihb => exact bin iha (by omega) (by eqt) (pl hp).2
  | inst a c ha hc iha ihc => exact bin iha (by omega) (by eqt) (by decide)
  | print e he ihe => exact key (by omega) rfl (.inl ⟨by omega, rfl⟩) (by decide)
  | assign k a b hk ha hm hb iha ihb => exact bin iha (by omega) (by eqt) (by cases hk <;> decide)
  | assignVar a b ha hm hb iha ihb => exact bin iha (by omega) (by eqt) (by decide)
  | assignNew a b ha hm hb iha ihb => exact bin iha (by omega) (by eqt) (by decide)
  | yield0 => exact key (by omega) rfl (.inr (.inl ⟨by omega, .inl rfl⟩)) (by decide)
  | yield e he ihe => exact key (by omega) rfl (.inr (.inl ⟨by omega, .inl rfl⟩)) (by decide)
  | yieldPair k v => exact key (by omega) (by eqt) (.inr (.inl ⟨by omega, .inl rfl⟩)) (by decide)
  | yieldFrom e he ihe => exact key (by omega) rfl (.inr (.inl ⟨by omega, .inr rfl⟩)) (by decide)
  | cond c a b hc ha hb ihc iha ihb => exact bin ihc (by omega) (by eqt) (by decide)
  | elvis c b hc hb ihc ihb => exact bin ihc (by omega) (by eqt) (by decide)
  | unary k e hk he ihe => exact key (by omega) rfl (.inr (.inr (.inl ⟨by omega, .inl hk⟩))) (by cases hk <;> decide)
  | list l e hl he _ _ => exact key (by omega) (by eqt) (.inr (.inr (.inl ⟨by omega, by simp⟩))) (by decide)
  | exit0 => exact key (by omega) rfl (.inr (.inr (.inl ⟨by omega, by simp⟩))) (by decide)
  | exitP => exact key (by omega) rfl (.inr (.inr (.inl ⟨by omega, by simp⟩))) (by decide)
  | exitE e he _ => exact key (by omega) (by eqt) (.inr (.inr (.inl ⟨by omega, by simp⟩))) (by decide)
  | eval e he _ => exact key (by omega) (by eqt) (.inr (.inr (.inl ⟨by omega, by simp⟩))) (by decide)
  | pre k e hk he ihe => exact key (by omega) rfl (.inr (.inr (.inr (.inl ⟨by omega, hk⟩)))) (by cases hk <;> decide)
  | post e k hk he ihe => exact bin ihe (Nat.le_refl _) rfl (by cases hk <;> decide)
  | up l e hl he ihe =>
    obtain ⟨_, t, r, h, hs, h'⟩ := ihe
    exact ⟨by omega, t, r, h, hs.mono (by omega), h'⟩
  | array e he ihe =>
    obtain ⟨t, r, h, ht⟩ := ihe
    have := (by decide : ∀ t ∈ modeHeads .arr, t ∈ primHeads ∧ t ≠ .STRING_VARNAME) t ht
    exact key (by omega) h (.inr (.inr (.inr (.inr this.1)))) this.2
  | normal e he ihe =>
    obtain ⟨t, r, h, h1, -, -, h2⟩ := ihe
    exact ⟨by omega, t, r, h, .inr (.inr (.inr (.inr h1))), h2⟩
  | scalar k hk =>
    refine ⟨k, [], rfl, ?_, ?_, ?_, fun _ => rfl⟩ <;> cases hk <;> decide
  | nowdoc => exact P rfl (by decide)
  | heredoc ps => exact P rfl (by decide)
  | backtick ps => exact P rfl (by decide)
  | paren e => exact P rfl (by decide)
  | closure t h =>
    obtain ⟨r, rfl⟩ := closure_head h
    exact P rfl (by decide)
  | iife => exact P rfl (by decide)
  | empty => exact P rfl (by decide)
  | isset => exact P rfl (by decide)
  | clone => exact P rfl (by decide)
  | new e he ihe => obtain ⟨r, h⟩ := ihe; exact P h (by decide)
  | const e he ihe => obtain ⟨t, r, h, ht⟩ := ihe; exact P h (mh _ (by decide) (by decide) t ht)
  | string e he ihe => obtain ⟨t, r, h, ht⟩ := ihe; exact P h (mh _ (by decide) (by decide) t ht)
  | created e he ihe => obtain ⟨t, r, h, ht⟩ := ihe; exact P h (mh _ (by decide) (by decide) t ht)
  | «variable» e he ihe => obtain ⟨t, r, h, ht⟩ := ihe; exact P h (mh _ (by decide) (by decide) t ht)
  | newBare => exact ⟨_, rfl⟩
  | newArgs => exact ⟨_, rfl⟩
  | var => exact ⟨_, _, rfl, by decide⟩
  | vvar n => exact ⟨_, _, rfl, by decide⟩
  | dyn n => exact ⟨.DOLLAR, _, rfl, by decide⟩
  | constName g n => exact nam (r := []) (g := g) (n := n) (by simp [E.toks])
  | classConst g n => exact nam rfl
  | literal => exact ⟨_, _, rfl, by decide⟩
  | quoted => exact ⟨_, _, rfl, by decide⟩
  | arr s l => cases s <;> exact ⟨_, _, rfl, by decide⟩
  | parenNew => exact ⟨_, _, rfl, by decide⟩
  | className g n =>
    obtain ⟨t, r, h, ht⟩ := nameToks_head g n
    exact ⟨t, r, h, (by decide : ∀ t ∈ [Tok.STRING, .BACKSLASH], t ∈ modeHeads .cls) t ht⟩
  | classStatic => exact ⟨_, _, rfl, by decide⟩
  | classVar e he ihe => obtain ⟨t, r, h, ht⟩ := ihe; exact ⟨t, r, h, (by decide : ∀ t ∈ [Tok.VARIABLE, .DOLLAR], t ∈ modeHeads .cls) t ht⟩
  | simple e he ihe => obtain ⟨t, r, h, ht⟩ := ihe; exact ⟨t, r, h, (by decide : ∀ t ∈ [Tok.VARIABLE, .DOLLAR], t ∈ modeHeads .vari) t ht⟩
  | staticVar g n v => exact nv (nam rfl)
  | function g n l => exact nv (nam (by eqt))
  | method g n k l => exact nv (nam (by eqt))
  | dynMethod g n e l => exact nv (nam (by eqt))
  | index0 m b hb hf hm ih => exact more ih rfl
  | index m b i hb hf hi ih _ => exact more ih (by eqt)
  | cindex m b i hb hf hc _ _ hi ih _ => exact more ih (by eqt)
  | call m b l hb hf hc hm hl ih _ => exact more ih (by eqt)
  | arrow m b p hb hm hp ih _ => exact more ih rfl
  | scope b p hb hp ih _ => exact more ih rfl
  | classScope b p hb hp ih _ => exact more ih rfl
  | item a e he ihe => obtain ⟨_, t, r, h, hs, _⟩ := ihe; exact ⟨t, r, h, .inl hs⟩
  | spread e he ihe => exact ⟨_, _, rfl, .inr (.inl rfl)⟩
  | byRef a v => exact ⟨_, _, rfl, .inr (.inr rfl)⟩
  | pair k v hk hy hv ihk ihv =>
    obtain ⟨_, t, r, h, hs, _⟩ := ihk
    exact ⟨t, r ++ .DOUBLE_ARROW :: v.toks, by simp [E.toks, h], .inl hs⟩
  | pairRef k v hk hy hv ihk ihv =>
    obtain ⟨_, t, r, h, hs, _⟩ := ihk
    exact ⟨t, r ++ .DOUBLE_ARROW :: .BIT_AND :: v.toks, by simp [E.toks, h], .inl hs⟩
  | last a i hi ihi => exact itm (r := []) ihi (by simp [E.toks])
  | lastComma a i hi ihi => exact itm ihi rfl
  | more a i l hi hl ihi ihl => exact itm ihi rfl
  | ptext => exact ⟨_, _, rfl, by decide⟩
  | pvar => exact ⟨_, _, rfl, by decide⟩
  | pprop => exact ⟨_, _, rfl, by decide⟩
  | poff => exact ⟨_, _, rfl, by decide⟩
  | pvname0 => exact ⟨_, _, rfl, by decide⟩
  | pvname => exact ⟨_, _, rfl, by decide⟩
  | pcurly => exact ⟨_, _, rfl, by decide⟩
  | pdollar => exact ⟨_, _, rfl, by decide⟩
  | _ => trivial
end

/-- a text that begins with `function` begins with `function (` or `function & (` -/
def Fn (ts : List Tok) : Prop := ts.head? = some .FUNCTION → [Tok.FUNCTION, .LPAREN] <+: ts ∨ [Tok.FUNCTION, .BIT_AND, .LPAREN] <+: ts
theorem Fn.app {ts r ts' : List Tok} (h : Fn ts) (hn : ∃ t r, ts = t :: r) (he : ts' = ts ++ r) : Fn ts' := by
  subst he
  obtain ⟨t, r', rfl⟩ := hn
  intro hh
  exact (h hh).imp (·.trans (List.prefix_append _ _)) (·.trans (List.prefix_append _ _))
theorem Fn.other {ts r : List Tok} {t : Tok} (he : ts = t :: r) (h : t ≠ .FUNCTION) : Fn ts := by
  subst he
  intro hh
  exact absurd (by simpa using hh) h

/-- an expression that begins with `function` begins with a closure -/
theorem fits_fn [Closures] {c : Cat} {e : E} (h : Fits c e) (hc : (∃ l, c = .lev l) ∨ c = .norm) : Fn e.toks := by
  have ne : ∀ {l e}, Fits (.lev l) e → ∃ t r, e.toks = t :: r := by
    intro l e h
    obtain ⟨-, t, r, h, -⟩ := fits_first h
    exact ⟨t, r, h⟩
  have pth : ∀ {m e}, m ≠ .cls → Fits (.path m) e → Fn e.toks := by
    intro m e hm h
    obtain ⟨t, r, he, ht⟩ := fits_first h
    exact .other he (by rintro rfl; revert ht; cases m <;> first | contradiction | decide)
  induction h with
  | left k l a b hp ha hb iha ihb => exact (iha (.inl ⟨_, rfl⟩)).app (ne ha) rfl
  | non k l a b hp ha hb iha ihb => exact (iha (.inl ⟨_, rfl⟩)).app (ne ha) rfl
  | inst a c ha hc iha ihc => exact (iha (.inl ⟨_, rfl⟩)).app (ne ha) rfl
  | assign k a b hk ha hm hb iha ihb => exact (iha (.inl ⟨_, rfl⟩)).app (ne ha) rfl
  | assignVar a b ha hm hb iha ihb => exact (iha (.inl ⟨_, rfl⟩)).app (ne ha) rfl
  | assignNew a b ha hm hb iha ihb => exact (iha (.inl ⟨_, rfl⟩)).app (ne ha) rfl
  | cond c a b h ha hb iha ihb ihc => exact (iha (.inl ⟨_, rfl⟩)).app (ne h) (by simp [E.toks]; rfl)
  | elvis c b h hb iha ihb => exact (iha (.inl ⟨_, rfl⟩)).app (ne h) (by simp [E.toks]; rfl)
  | post e k hk he ihe => exact (ihe (.inl ⟨_, rfl⟩)).app (ne he) rfl
  | up l e hl he ihe => exact ihe (.inl ⟨_, rfl⟩)
  | array e he => exact pth (by decide) he
  | normal e he ihe => exact ihe (.inr rfl)
  | closure t h => exact fun _ => Closures.head h
  | scalar k hk => exact .other (r := []) rfl (by cases hk <;> decide)
  | unary k e hk he ihe => exact .other rfl (by cases hk <;> decide)
  | pre k e hk he ihe => exact .other rfl (by cases hk <;> decide)
  | const e he => exact pth (by decide) he
  | string e he => exact pth (by decide) he
  | created e he => exact pth (by decide) he
  | «variable» e he => exact pth (by decide) he
  | new e he => obtain ⟨r, h⟩ := fits_first he; exact .other h (by decide)
  | _ => first | (exact .other rfl (by decide)) | (rcases hc with ⟨_, h⟩ | h <;> cases h)

/-! ## What is returned when enough calls may be made -/

/-- from some number of calls on, this is the result -/
def Evt (a : Nat → R) (res : R) : Prop := ∃ N, ∀ n, N ≤ n → a n = res

theorem Evt.const {r : R} : Evt (fun _ => r) r := ⟨0, fun _ _ => rfl⟩
theorem Evt.bind {a : Nat → R} {k : Nat → E → List Tok → Bool → R} {e r f res} (h : Evt a (.ok e r f)) (h' : Evt (fun n => k n e r f) res) :
    Evt (fun n => (a n).bind (k n)) res := by
  obtain ⟨N1, h1⟩ := h
  obtain ⟨N2, h2⟩ := h'
  exact ⟨max N1 N2, fun n hn => by dsimp only; rw [h1 n (by omega)]; exact h2 n (by omega)⟩
theorem Evt.bindErr {a : Nat → R} {k : Nat → E → List Tok → Bool → R} (h : Evt a .err) : Evt (fun n => (a n).bind (k n)) .err := by
  obtain ⟨N1, h1⟩ := h
  exact ⟨N1, fun n hn => by dsimp only; rw [h1 n hn]; rfl⟩
theorem Evt.map {a : Nat → R} {g : E → E} {e r f} (h : Evt a (.ok e r f)) : Evt (fun n => (a n).map g) (.ok (g e) r f) :=
  Evt.bind h .const
theorem Evt.setOr {a b : Nat → R} {e r f} (h : Evt a (.ok e r f)) : Evt (fun n => (a n).setVar.orElse (b n)) (.ok e r true) := by
  obtain ⟨N1, h1⟩ := h
  exact ⟨N1, fun n hn => by dsimp only; rw [h1 n hn]; rfl⟩
theorem Evt.orErr {a b : Nat → R} {res} (h : Evt a .err) (h' : Evt b res) : Evt (fun n => (a n).setVar.orElse (b n)) res := by
  obtain ⟨N1, h1⟩ := h
  obtain ⟨N2, h2⟩ := h'
  exact ⟨max N1 N2, fun n hn => by dsimp only; rw [h1 n (by omega)]; exact h2 n (by omega)⟩
theorem Evt.expect {k : Tok} {r} {c : Nat → List Tok → R} {res} (h : Evt (fun n => c n r) res) : Evt (fun n => expect k (k :: r) (c n)) res := by
  simpa [Grammar.expect] using h
theorem Evt.eatYes {k : Tok} {r} {c : Nat → List Tok → R} {d : Nat → R} {res} (h : Evt (fun n => c n r) res) :
    Evt (fun n => eat k (k :: r) (c n) (d n)) res := by
  simpa [eat] using h
theorem Evt.eatNo {k : Tok} {ts} {c : Nat → List Tok → R} {d : Nat → R} {res} (hk : headIn [k] ts = false) (h : Evt d res) :
    Evt (fun n => eat k ts (c n) (d n)) res := by
  cases ts with
  | nil => exact h
  | cons t r =>
    have : t ≠ k := by intro ht; simp [headIn, ht] at hk
    simpa [eat, this] using h
theorem Evt.yes {p : Prop} [Decidable p] {a b : Nat → R} {res} (hp : p) (h : Evt a res) : Evt (fun n => if p then a n else b n) res := by
  simpa [hp] using h
theorem Evt.no {p : Prop} [Decidable p] {a b : Nat → R} {res} (hp : ¬ p) (h : Evt b res) : Evt (fun n => if p then a n else b n) res := by
  simpa [hp] using h

section
variable [Closures]

/-- the job returns this when it may make enough calls -/
abbrev Ev (j : Job) (ts : List Tok) (f : Bool) (res : R) : Prop := Evt (fun n => run n j ts f) res

theorem Evt.step {j ts f res} (h : Evt (fun n => step (run n) j ts f) res) : Ev j ts f res := by
  obtain ⟨N, h⟩ := h
  refine ⟨N + 1, fun n hn => ?_⟩
  cases n with
  | zero => omega
  | succ n => exact h n (by omega)

theorem Ev.unique {j ts f res res'} (h : Ev j ts f res) (h' : Ev j ts f res') : res = res' := by
  obtain ⟨N1, h1⟩ := h
  obtain ⟨N2, h2⟩ := h'
  rw [← h1 (max N1 N2) (by omega), h2 (max N1 N2) (by omega)]

/-! ## Names -/

theorem nameRest_complete (n : Nat) (r : List Tok) (h : headIn [.BACKSLASH] r = false) : nameRest (moreNames n ++ r) = some (n, r) := by
  induction n with
  | zero =>
    show nameRest r = _
    unfold nameRest
    split
    · cases h
    · cases h
    · rfl
  | succ n ih => simp only [moreNames, List.cons_append, nameRest, ih]; rfl
theorem readName_complete (g : Bool) (n : Nat) (r : List Tok) (h : headIn [.BACKSLASH] r = false) :
    readName (nameToks g n ++ r) = some (g, n, r) := by
  cases g
  · show (nameRest (moreNames n ++ r)).map _ = _
    rw [nameRest_complete n r h]; rfl
  · show (nameRest (moreNames n ++ r)).map _ = _
    rw [nameRest_complete n r h]; rfl
theorem readName_none {t : Tok} {r : List Tok} (h : t ≠ .STRING) (h' : t ≠ .BACKSLASH) : readName (t :: r) = none := by
  unfold readName
  split
  · rename_i h1; cases h1; exact absurd rfl h'
  · rename_i h1; cases h1; exact absurd rfl h
  · rfl
theorem dollars_complete (n : Nat) (r : List Tok) (h : headIn [.DOLLAR] r = false) : dollars (List.replicate n .DOLLAR ++ r) = (n, r) := by
  induction n with
  | zero =>
    show dollars r = _
    unfold dollars
    split
    · cases h
    · rfl
  | succ n ih => simp only [List.replicate_succ, List.cons_append, dollars, ih]

theorem Evt.name {g n r} {c : Nat → Bool → Nat → List Tok → R} {d : Nat → R} {res} (hr : headIn [.BACKSLASH] r = false)
    (h : Evt (fun m => c m g n r) res) : Evt (fun m => onName (nameToks g n ++ r) (c m) (d m)) res := by
  simpa [onName, readName_complete g n r hr] using h
theorem Evt.noName {t r} {c : Nat → Bool → Nat → List Tok → R} {d : Nat → R} {res} (h1 : t ≠ .STRING) (h2 : t ≠ .BACKSLASH)
    (h : Evt d res) : Evt (fun m => onName (t :: r) (c m) (d m)) res := by
  simpa [onName, readName_none h1 h2] using h

/-! ## Completeness -/

/-- where an access path is read -/
def Mode.start : Mode → Job
  | .vari => .vari
  | .cls => .cref
  | .arr => .prim
  | .inst | .dim | .str => .norm
/-- what must not follow the first part of an access path -/
def Mode.stops : Mode → List Tok
  | .dim => [.LPAREN, .PAAMAYIM_NEKUDOTAYIM, .BACKSLASH]
  | .cls => [.BACKSLASH]
  | _ => []

/-- no `=>` follows a tree that would take it -/
abbrev NoArrow (e : E) (rest : List Tok) : Prop := headIn [.DOUBLE_ARROW] rest = true → e.endsYield = false

/-- what a tree that fits is read as -/
def Comp : Cat → E → Prop
  | .lev l, e =>
    (∀ rest f, Stop l rest → NoArrow e rest → Ev (.lev l) (e.toks ++ rest) f (.ok e rest (entry l e f))) ∧
    (lk l = .chain ∨ l = 19 → ∀ rest f res, Stop (l + 1) rest → NoArrow e rest → Ev (.loop l e) rest (entry l e f) res →
      Ev (.lev l) (e.toks ++ rest) f res)
  | .norm, e => ∀ rest f, Stop 20 rest → Ev .norm (e.toks ++ rest) f (.ok e rest (e.mark f))
  | .path m, e => ∀ rest f res, headIn m.stops rest = false → Ev (.tail m e) rest (e.raw f) res →
      Ev m.start (e.toks ++ rest) f res
  | .cvar, e => ∀ rest f, Ev .cvar (e.toks ++ rest) f (.ok e rest (e.raw f))
  | .pname, e => ∀ rest f, Ev .pname (e.toks ++ rest) f (.ok e rest (e.raw f))
  | .newo, e => ∀ rest f, Stop 20 rest → Ev .newo (e.toks ++ rest) f (.ok e rest (e.raw f))
  | .item a, e => ∀ t rest f, (t = .COMMA ∨ t = .RPAREN ∨ t = .RBRACKET) → Ev (.item a) (e.toks ++ t :: rest) f (.ok e (t :: rest) (e.ent f))
  | .items a, e => ∀ c rest f, (c = .RPAREN ∨ c = .RBRACKET) → Ev (.items a c) (e.toks ++ c :: rest) f (.ok e (c :: rest) (e.raw f))
  | .items1 a, e => ∀ c rest f, (c = .RPAREN ∨ c = .RBRACKET) → Ev (.items1 a c) (e.toks ++ c :: rest) f (.ok e (c :: rest) (e.raw f))
  | .vars b, e => ∀ rest f, Ev (.vars b) (e.toks ++ .RPAREN :: rest) f (.ok e (.RPAREN :: rest) (e.raw f))
  | .velem b, e => ∀ t rest f, (t = .COMMA ∨ t = .RPAREN) → Ev (.velem b) (e.toks ++ t :: rest) f (.ok e (t :: rest) (e.raw f))
  | .parts, e => ∀ k rest f, (k = .DOUBLE_QUOTE ∨ k = .END_HEREDOC ∨ k = .BACKTICK) →
      Ev .parts (e.toks ++ k :: rest) f (.ok e (k :: rest) (e.raw f))
  | .part, e => ∀ rest f, headIn [.OBJECT_OPERATOR, .LBRACKET] rest = false → Ev .part (e.toks ++ rest) f (.ok e rest (e.raw f))

theorem loop_stop {l : Nat} {e : E} {rest : List Tok} {f : Bool} (hs : Stop l rest) : Ev (.loop l e) rest f (.ok e rest f) := by
  refine .step ?_
  cases rest with
  | nil => exact .const
  | cons k r =>
    show Evt (fun n => if l = 19 then _ else _) _
    by_cases h : l = 19
    · refine .yes h (.no ?_ .const)
      subst h; rw [stop_incDec (by omega) hs]; decide
    · refine .no h (.no ?_ .const)
      rw [stop_ops hs]; decide

/-- at levels with a loop, the second half of `Comp` gives the first -/
theorem comp_loop {l : Nat} {e : E}
    (h : ∀ rest f res, Stop (l + 1) rest → NoArrow e rest → Ev (.loop l e) rest (entry l e f) res → Ev (.lev l) (e.toks ++ rest) f res) :
    Comp (.lev l) e :=
  ⟨fun rest f hs hy => h rest f _ (hs.mono (by omega)) hy (loop_stop hs), fun _ => h⟩

theorem lk_ne {l : Nat} {k : LK} (h : lk l = k) (hk : k ≠ .chain) (h19 : l ≠ 19) : ¬ (lk l = .chain ∨ l = 19) := by
  rintro (h' | h')
  · exact hk (h.symm.trans h')
  · exact h19 h'

theorem comp_non {l : Nat} {e : E} {k : LK} (h : lk l = k) (hk : k ≠ .chain) (h19 : l ≠ 19)
    (hc : ∀ rest f, Stop l rest → NoArrow e rest → Ev (.lev l) (e.toks ++ rest) f (.ok e rest (entry l e f))) : Comp (.lev l) e :=
  ⟨hc, fun h' => absurd h' (lk_ne h hk h19)⟩

theorem stop_tail {m : Mode} {e : E} {rest : List Tok} {f : Bool} (hs : Stop 20 rest) : Ev (.tail m e) rest f (.ok e rest f) := by
  refine .step ?_
  cases rest with
  | nil => exact .const
  | cons k r =>
    have h1 : k ≠ .LBRACKET := stop_ne .index (Nat.le_refl _) hs
    have h2 : k ≠ .LBRACE := stop_ne .brace (Nat.le_refl _) hs
    have h3 : k ≠ .LPAREN := stop_ne .call (Nat.le_refl _) hs
    have h4 : k ≠ .OBJECT_OPERATOR := stop_ne .arrow (Nat.le_refl _) hs
    have h5 : k ≠ .PAAMAYIM_NEKUDOTAYIM := stop_ne .scope (Nat.le_refl _) hs
    refine .no (by simp [h1]) (.no (by simp [h2]) (.no (by simp [h3]) (.no ?_ .const)))
    cases m <;> simp [memberOk, h4, h5]

theorem stop_stops {m : Mode} {rest : List Tok} (hs : Stop 20 rest) : headIn m.stops rest = false := by
  refine hs.notIn fun k hk => ⟨20, Nat.le_refl _, ?_⟩
  cases m <;> simp [Mode.stops] at hk
  · subst hk; exact .name
  · rcases hk with rfl | rfl | rfl
    · exact .call
    · exact .scope
    · exact .name

/-- an access path at the end of an operand -/
theorem path_end {m : Mode} {e : E} (h : Comp (.path m) e) {rest : List Tok} (hs : Stop 20 rest) (f : Bool) :
    Ev m.start (e.toks ++ rest) f (.ok e rest (e.raw f)) :=
  h rest f _ (stop_stops hs) (stop_tail hs)

theorem rparen_stop (l : Nat) (r : List Tok) : Stop l (.RPAREN :: r) := stop_other (by decide) _ _

/-- one step up -/
theorem up_comp {l : Nat} {e : E} (hl : l < 20) (he : Fits (.lev (l + 1)) e) (ihe : Comp (.lev (l + 1)) e) : Comp (.lev l) e := by
  obtain ⟨-, t, r, ht, hst, -⟩ := fits_first he
  have hn := hst.not
  by_cases hk : lk l = .chain ∨ l = 19
  · have h4 : l ≠ 4 := by rintro rfl; rcases hk with h | h <;> cases h
    refine comp_loop fun rest f res hs hy hr => .step ?_
    have : ∀ n, step (run n) (.lev l) (e.toks ++ rest) f =
        (run n (.lev (l + 1)) (e.toks ++ rest) f).bind fun e r f => run n (.loop l e) r f := by
      intro n
      rcases hk with h | rfl
      · simp only [step, levStep, h]
      · rfl
    simp only [this]
    refine .bind (ihe.1 rest f hs hy) ?_
    rw [entry_up h4]; exact hr
  · rcases lk_cases l with ⟨hk', hb⟩ | ⟨hk', hb⟩ | ⟨hk', hb⟩ | ⟨hk', hb⟩ | ⟨hk', hb⟩ | ⟨hk', hb⟩ | ⟨hk', hb⟩ | ⟨hk', hb⟩ | ⟨hk', hb⟩
    · exact absurd (.inl hk') hk
    · refine comp_non hk' (by decide) (by omega) fun rest f hs hy => .step ?_
      simp only [step, levStep, hk']
      refine .bind (ihe.1 rest f (hs.mono (by omega)) hy) ?_
      rw [entry_up (by omega)]
      cases rest with
      | nil => exact .const
      | cons k r' =>
        refine .no (by rw [stop_ops hs]; decide) (.no ?_ .const)
        rintro ⟨rfl, rfl⟩
        exact stop_ne .inst (by omega) hs rfl
    · subst hb
      refine comp_non rfl (by decide) (by omega) fun rest f hs hy => .step ?_
      show Evt (fun n => eat .PRINT _ _ _) _
      refine .eatNo (by rw [ht]; simp [headIn]; exact hn.2.1 (by omega)) ?_
      exact ihe.1 rest f (hs.mono (by omega)) hy
    · subst hb
      refine comp_non rfl (by decide) (by omega) fun rest f hs hy => .step ?_
      show Evt (fun n => eat .YIELD _ _ _) _
      refine .eatNo (by rw [ht]; simp [headIn]; exact (hn.2.2.1 (by omega)).1) ?_
      refine .eatNo (by rw [ht]; simp [headIn]; exact (hn.2.2.1 (by omega)).2) ?_
      refine .bind (ihe.1 rest false (hs.mono (by omega)) hy) ?_
      cases rest with
      | nil => exact .const
      | cons k r' => exact .no (by rw [stop_assign (by omega) hs]; decide) .const
    · subst hb
      refine comp_non rfl (by decide) (by omega) fun rest f hs hy => .step ?_
      refine .bind (ihe.1 rest f (hs.mono (by omega)) hy) ?_
      exact .eatNo (hs.notIn (by simp; exact ⟨5, by omega, .cond⟩)) .const
    · subst hb
      refine comp_non rfl (by decide) (by omega) fun rest f hs hy => .step ?_
      obtain ⟨n1, n2, n3, n4⟩ := hn.2.2.2.1 (by omega)
      show Evt (fun n => unaryStep _ _ _) _
      have := ihe.1 rest f (hs.mono (by omega)) hy
      rw [ht] at this ⊢
      exact .no (by rw [n1]; decide) (.no n4 (.no n2 (.no n3 this)))
    · subst hb
      refine comp_non rfl (by decide) (by omega) fun rest f hs hy => .step ?_
      have n1 := hn.2.2.2.2 (by omega)
      have := ihe.1 rest f (hs.mono (by omega)) hy
      rw [ht] at this ⊢
      exact .no (by rw [n1]; decide) this
    · exact absurd (.inr hb) hk
    · omega

theorem up_all {e : E} (he : Fits (.lev 20) e) (h : Comp (.lev 20) e) : ∀ k ≤ 20, Fits (.lev (20 - k)) e ∧ Comp (.lev (20 - k)) e := by
  intro k
  induction k with
  | zero => intro _; exact ⟨he, h⟩
  | succ k ih =>
    intro hk
    obtain ⟨h1, h2⟩ := ih (by omega)
    have : 20 - k = (20 - (k + 1)) + 1 := by omega
    rw [this] at h1 h2
    exact ⟨.up _ _ (by omega) h1, up_comp (by omega) h1 h2⟩

theorem prim_comp {e : E} (h : ∀ rest f, Stop 20 rest → Ev .prim (e.toks ++ rest) f (.ok e rest (e.mark f))) : Comp (.lev 20) e :=
  comp_non rfl (by decide) (by omega) fun rest f hs _ => .step (h rest f hs)
theorem norm_comp {e : E} (he : Fits .norm e) (h : Comp .norm e) : Comp (.lev 20) e := by
  refine prim_comp fun rest f hs => .step ?_
  obtain ⟨t, r, ht, -, h1, h2, -⟩ := fits_first he
  have := h rest f hs
  rw [ht] at this ⊢
  exact .no h1 (.no h2 this)
theorem new_comp {e : E} (he : Fits .newo e) (h : Comp .newo e) : Comp .norm e := by
  intro rest f hs
  obtain ⟨r, ht⟩ := fits_first he
  have := h rest f hs
  rw [newo_mark he]
  refine .step ?_
  rw [ht] at this ⊢
  exact this
theorem norm_zero {e : E} (he : Fits .norm e) (h : Comp .norm e) : Comp (.lev 0) e :=
  (up_all (.normal _ he) (norm_comp he h) 20 (Nat.le_refl _)).2

/-! ### access paths -/

theorem callOk_of {m : Mode} {b : E} (hf : ¬ Fresh m b) (hc : ¬ Called b) (hm : m = .vari ∨ m = .inst) : callOk m b = true := by
  rcases hm with rfl | rfl <;> simp [callOk, fresh_false.2 hf, called_false.2 hc]
theorem bracesOk_of {m : Mode} {b : E} (hf : ¬ Fresh m b) (hc : ¬ Called b) (h1 : m ≠ .arr) (h2 : m ≠ .str) : bracesOk m b = true := by
  cases m <;> simp [bracesOk, fresh_false.2 hf, called_false.2 hc] <;> contradiction

/-- arguments in parentheses -/
theorem args_ev {l : E} (hl : Comp (.items false) l) {rest f res} {c : Nat → E → List Tok → Bool → R}
    (h : Evt (fun n => c n l rest (l.raw f)) res) :
    Evt (fun n => argsStep (run n) (l.toks ++ .RPAREN :: rest) f (c n)) res :=
  .bind (hl .RPAREN rest f (.inl rfl)) (.expect h)
/-- an expression and a token behind it -/
theorem expr_ev {e : E} {k : Tok} (hk : enders.contains k = true) (hk' : k ≠ .DOUBLE_ARROW) (h : Comp (.lev 0) e) (rest : List Tok) (f : Bool) :
    Ev (.lev 0) (e.toks ++ k :: rest) f (.ok e (k :: rest) (e.mark false)) :=
  h.1 (k :: rest) f (stop_other hk _ _) (by intro h; simp [headIn, hk'] at h)

/-- what follows an access path -/
theorem tail_step {m : Mode} {acc : E} {k : Tok} {r : List Tok} {f : Bool} {res : R}
    (h : Evt (fun n =>
      if k = .LBRACKET ∧ fresh m acc = false then
        eat .RBRACKET r (fun r => if m = .str then .err else run n (.tail m (.index0 acc)) r f)
          ((run n (.lev 0) r f).bind fun i r f => expect .RBRACKET r fun r => run n (.tail m (.index acc i)) r f)
      else if k = .LBRACE ∧ bracesOk m acc = true then
        (run n (.lev 0) r f).bind fun i r f => expect .RBRACE r fun r => run n (.tail m (.cindex acc i)) r f
      else if k = .LPAREN ∧ callOk m acc = true then argsStep (run n) r f fun l r f => run n (.tail m (.call acc l)) r f
      else if memberOk m k acc then
        if m = .cls ∧ k = .PAAMAYIM_NEKUDOTAYIM then (run n .cvar r f).bind fun p r f => run n (.tail m (.prop k acc p)) r f
        else (run n .pname r f).bind fun p r f => run n (.tail m (.prop k acc p)) r f
      else .ok acc (k :: r) f) res) : Ev (.tail m acc) (k :: r) f res := .step h

theorem tail_call {m : Mode} {b l : E} (hl : Comp (.items false) l) (hc : callOk m b = true) {rest f res}
    (h : Ev (.tail m (.call b l)) rest (l.raw f) res) : Ev (.tail m b) (.LPAREN :: (l.toks ++ .RPAREN :: rest)) f res :=
  tail_step (.no (by simp) (.no (by simp) (.yes ⟨rfl, hc⟩ (args_ev hl h))))
theorem tail_brace {m : Mode} {b i : E} (hi : Comp (.lev 0) i) (hc : bracesOk m b = true) {rest f res}
    (h : Ev (.tail m (.cindex b i)) rest (i.mark false) res) : Ev (.tail m b) (.LBRACE :: (i.toks ++ .RBRACE :: rest)) f res :=
  tail_step (.no (by simp) (.yes ⟨rfl, hc⟩ (.bind (expr_ev (by decide) (by decide) hi _ _) (.expect h))))
theorem tail_index {m : Mode} {b i : E} (hfi : Fits (.lev 0) i) (hi : Comp (.lev 0) i) (hf : ¬ Fresh m b) {rest f res}
    (h : Ev (.tail m (.index b i)) rest (i.mark false) res) : Ev (.tail m b) (.LBRACKET :: (i.toks ++ .RBRACKET :: rest)) f res := by
  refine tail_step (.yes ⟨rfl, fresh_false.2 hf⟩ (.eatNo ?_ (.bind (expr_ev (by decide) (by decide) hi _ _) (.expect h))))
  obtain ⟨-, t, r, ht, hst, -⟩ := fits_first hfi
  have := hst.not.1
  rw [ht]; simp at this; simp [headIn, this]
theorem tail_index0 {m : Mode} {b : E} (hf : ¬ Fresh m b) (hm : m ≠ .str) {rest f res}
    (h : Ev (.tail m (.index0 b)) rest f res) : Ev (.tail m b) (.LBRACKET :: .RBRACKET :: rest) f res :=
  tail_step (.yes ⟨rfl, fresh_false.2 hf⟩ (.eatYes (.no hm h)))
theorem tail_arrow {m : Mode} {b p : E} (hm : m = .vari ∨ m = .inst ∨ m = .cls ∧ ¬ Fresh m b) (hp : Comp .pname p) {rest f res}
    (h : Ev (.tail m (.prop .OBJECT_OPERATOR b p)) rest (p.raw f) res) : Ev (.tail m b) (.OBJECT_OPERATOR :: (p.toks ++ rest)) f res := by
  refine tail_step (.no (by simp) (.no (by simp) (.no (by simp) (.yes ?_ (.no (by simp) (.bind (hp _ _) h))))))
  rcases hm with rfl | rfl | ⟨rfl, hf⟩
  · rfl
  · rfl
  · simp [memberOk, fresh_false.2 hf]
theorem tail_scope {b p : E} (hp : Comp .pname p) {rest f res}
    (h : Ev (.tail .vari (.prop .PAAMAYIM_NEKUDOTAYIM b p)) rest (p.raw f) res) :
    Ev (.tail .vari b) (.PAAMAYIM_NEKUDOTAYIM :: (p.toks ++ rest)) f res :=
  tail_step (.no (by simp) (.no (by simp) (.no (by simp) (.yes rfl (.no (by simp) (.bind (hp _ _) h))))))
theorem tail_class {b p : E} (hp : Comp .cvar p) {rest f res}
    (h : Ev (.tail .cls (.prop .PAAMAYIM_NEKUDOTAYIM b p)) rest (p.raw f) res) :
    Ev (.tail .cls b) (.PAAMAYIM_NEKUDOTAYIM :: (p.toks ++ rest)) f res :=
  tail_step (.no (by simp) (.no (by simp) (.no (by simp) (.yes rfl (.yes ⟨rfl, rfl⟩ (.bind (hp _ _) h))))))

/-- an access path goes on -/
theorem path_more {m : Mode} {b e : E} (h : Comp (.path m) b) {k : Tok} {r : List Tok} (ht : e.toks = b.toks ++ k :: r) (hk : m.stops.contains k = false)
    (hs : ∀ rest f res, Ev (.tail m e) rest (e.raw f) res → Ev (.tail m b) (k :: r ++ rest) (b.raw f) res) : Comp (.path m) e := by
  intro rest f res hr hev
  have := h (k :: r ++ rest) f res (by simpa [headIn] using hk) (hs rest f res hev)
  rw [ht]; simpa using this

/-- a name is no variable here -/
theorem vari_const {g n} {rest : List Tok} (f : Bool) (h : headIn [.LPAREN, .PAAMAYIM_NEKUDOTAYIM, .BACKSLASH] rest = false) :
    Ev .vari (nameToks g n ++ rest) f .err := by
  refine .step (.name ?_ ?_)
  · cases rest with
    | nil => rfl
    | cons t r => simp [headIn] at h ⊢; exact h.2.2
  · cases rest with
    | nil => exact .const
    | cons t r =>
      simp [headIn] at h
      exact .no h.1 (.no h.2.1 .const)
theorem vari_class {g n k} {rest : List Tok} (f : Bool) (hk : k ∈ words) (h : headIn [.LPAREN] rest = false) :
    Ev .vari (nameToks g n ++ .PAAMAYIM_NEKUDOTAYIM :: k :: rest) f .err :=
  .step (.name rfl (.yes (words_iff.2 hk) (.no (by rw [h]; decide) .const)))
theorem vari_start {e : E} (h : Fits (.path .vari) e) : ∃ t r, e.toks = t :: r ∧ t ∈ nameHeads := fits_first h

/-- `norm` at a name or variable -/
theorem norm_name {t : Tok} {r : List Tok} {f : Bool} {res : R} (ht : t ∈ nameHeads)
    (h : Evt (fun n => (run n .vari (t :: r) f).setVar.orElse (constStep (run n) (t :: r) f)) res) : Ev .norm (t :: r) f res := by
  refine .step (.no ?_ (.yes ?_ h))
  · have : ∀ t ∈ nameHeads, ¬ scalars.contains t = true := by decide
    exact this t ht
  · simpa using ht

theorem fits_comp {c : Cat} {e : E} (h : Fits c e) : Comp c e := by
  induction h with
  | left k l a b hp ha hb iha ihb =>
    have hl : lk l = .chain := by cases hp <;> rfl
    have h4 : l ≠ 4 := by rintro rfl; cases hl
    have h19 : l ≠ 19 := by rintro rfl; cases hl
    refine comp_loop fun rest f res hs hy hr => ?_
    have := iha.2 (.inl hl) (k :: b.toks ++ rest) f res (stop_cons (.bin _ _ _ hp) (by omega) _)
      (by cases hp <;> (intro h; cases h)) ?_
    · simpa [E.toks] using this
    · refine .step (.no h19 (.yes (opsAt_prec.2 (.inl hp)) (.bind (ihb.1 rest _ hs hy) ?_)))
      rw [← bin_entry hp _ _ _ h4]
      exact hr
  | non k l a b hp ha hb iha ihb =>
    have hb' : l = 12 ∨ l = 13 := by cases hp <;> simp
    have hl : lk l = .non := by rcases hb' with rfl | rfl <;> rfl
    refine comp_non hl (by decide) (by omega) fun rest f hs hy => .step ?_
    simp only [step, levStep, hl]
    have ht : (E.bin k a b).toks ++ rest = a.toks ++ (k :: b.toks ++ rest) := by simp [E.toks]
    rw [ht]
    refine .bind (iha.1 (k :: b.toks ++ rest) f (stop_cons (.bin _ _ _ hp) (by omega) _) (by cases hp <;> (intro h; cases h))) ?_
    have : entry l (.bin k a b) f = entry (l + 1) b (entry (l + 1) a f) := by rw [bin_entry hp _ _ _ (by omega), entry_up (by omega) a f]
    rw [this]
    exact .yes (opsAt_prec.2 (.inr hp)) (.map (ihb.1 rest _ (hs.mono (by omega)) hy))
  | inst a c ha hc iha ihc =>
    refine comp_non rfl (by decide) (by omega) fun rest f hs hy => .step ?_
    have ht : (E.inst a c).toks ++ rest = a.toks ++ (.INSTANCEOF :: c.toks ++ rest) := by simp [E.toks]
    rw [ht]
    refine .bind (iha.1 _ f (stop_cons .inst (by omega) _) (by intro h; cases h)) ?_
    exact .map (path_end ihc (hs.mono (by omega)) _)
  | print e he ihe =>
    refine comp_non rfl (by decide) (by omega) fun rest f hs hy => .step ?_
    exact .map (ihe.1 rest f (hs.mono (by omega)) hy)
  | assign k a b hk ha hm hb iha ihb =>
    refine comp_non rfl (by decide) (by omega) fun rest f hs hy => .step ?_
    have ht : (E.assign k a b).toks ++ rest = a.toks ++ (k :: b.toks ++ rest) := by simp [E.toks]
    obtain ⟨-, t, r, hta, hst, -⟩ := fits_first ha
    obtain ⟨-, t', r', htb, hst', -⟩ := fits_first hb
    have hn := hst.not
    have hn' := hst'.not.1
    rw [ht]
    refine .eatNo (by rw [hta]; simp [headIn]; exact (hn.2.2.1 (by omega)).1) ?_
    refine .eatNo (by rw [hta]; simp [headIn]; exact (hn.2.2.1 (by omega)).2) ?_
    refine .bind (iha.1 _ false (stop_cons (.assign _ hk) (by omega) _) (by cases hk <;> (intro h; cases h))) ?_
    refine .yes (assign_iff.2 hk) (.yes hm (.eatNo ?_ (.map (ihb.1 rest _ hs hy))))
    rw [htb]; simp at hn'; simp [headIn, hn']
  | assignVar a v ha hm hv iha ihv =>
    refine comp_non rfl (by decide) (by omega) fun rest f hs hy => .step ?_
    have ht : (E.assignRef a v).toks ++ rest = a.toks ++ (.ASSIGN :: .BIT_AND :: v.toks ++ rest) := by simp [E.toks]
    obtain ⟨-, t, r, hta, hst, -⟩ := fits_first ha
    have hn := hst.not
    rw [ht]
    refine .eatNo (by rw [hta]; simp [headIn]; exact (hn.2.2.1 (by omega)).1) ?_
    refine .eatNo (by rw [hta]; simp [headIn]; exact (hn.2.2.1 (by omega)).2) ?_
    refine .bind (iha.1 _ false (stop_cons (.assign _ .eq) (by omega) _) (by intro h; cases h)) ?_
    refine .yes hm (.no ?_ (.map (path_end ihv (hs.mono (by omega)) _)))
    obtain ⟨t, r, h1, h2⟩ := fits_first hv
    have : ∀ t ∈ nameHeads, t ≠ .NEW := by decide
    rw [h1]; simp [headIn, this t h2]
  | assignNew a v ha hm hv iha ihv =>
    refine comp_non rfl (by decide) (by omega) fun rest f hs hy => .step ?_
    have ht : (E.assignRef a v).toks ++ rest = a.toks ++ (.ASSIGN :: .BIT_AND :: v.toks ++ rest) := by simp [E.toks]
    obtain ⟨-, t, r, hta, hst, -⟩ := fits_first ha
    have hn := hst.not
    rw [ht]
    refine .eatNo (by rw [hta]; simp [headIn]; exact (hn.2.2.1 (by omega)).1) ?_
    refine .eatNo (by rw [hta]; simp [headIn]; exact (hn.2.2.1 (by omega)).2) ?_
    refine .bind (iha.1 _ false (stop_cons (.assign _ .eq) (by omega) _) (by intro h; cases h)) ?_
    refine .yes hm (.yes ?_ (.map (ihv _ _ (hs.mono (by omega)))))
    obtain ⟨r, h1⟩ := fits_first hv
    rw [h1]; rfl
  | yield0 =>
    refine comp_non rfl (by decide) (by omega) fun rest f hs hy => .step ?_
    exact .no (by show ¬ headIn printHeads rest = true; rw [hs.2 (by omega)]; decide) .const
  | yield e he ihe =>
    refine comp_non rfl (by decide) (by omega) fun rest f hs hy => .step ?_
    obtain ⟨-, t, r, ht, hst, -⟩ := fits_first he
    have hna : headIn [.DOUBLE_ARROW] rest = false := by
      cases h : headIn [.DOUBLE_ARROW] rest
      · rfl
      · cases hy h
    refine .yes ?_ (.bind (ihe.1 rest _ hs.three (by intro h; rw [hna] at h; cases h)) (.eatNo hna .const))
    show headIn printHeads (e.toks ++ rest) = true
    rw [ht]; exact (hst.mono (by omega)).print
  | yieldPair k v hk hy' hv ihk ihv =>
    refine comp_non rfl (by decide) (by omega) fun rest f hs hy => .step ?_
    obtain ⟨-, t, r, ht, hst, -⟩ := fits_first hk
    have htt : (E.yieldPair k v).toks ++ rest = .YIELD :: (k.toks ++ .DOUBLE_ARROW :: (v.toks ++ rest)) := by simp [E.toks]
    rw [htt]
    refine .yes ?_ (.bind (ihk.1 _ _ (stop_other (by decide) _ _) fun _ => hy') (.map (ihv.1 rest _ hs.three hy)))
    rw [ht]; exact (hst.mono (by omega)).print
  | yieldFrom e he ihe =>
    refine comp_non rfl (by decide) (by omega) fun rest f hs hy => .step ?_
    exact .map (ihe.1 rest _ hs.three hy)
  | cond c a b hc ha hb ihc iha ihb =>
    refine comp_non rfl (by decide) (by omega) fun rest f hs hy => .step ?_
    have ht : (E.cond c a b).toks ++ rest = c.toks ++ (.QUESTION :: (a.toks ++ .COLON :: (b.toks ++ rest))) := by simp [E.toks]
    rw [ht]
    refine .bind (ihc.1 _ f (stop_cons .cond (by omega) _) (by intro h; cases h)) ?_
    obtain ⟨-, t, r, hta, hst, -⟩ := fits_first ha
    have hn := hst.not.1
    show Evt (fun n => eat .COLON (a.toks ++ .COLON :: (b.toks ++ rest)) _ _) _
    refine .eatNo (by rw [hta]; simp at hn; simp [headIn, hn]) ?_
    exact .bind (expr_ev (k := .COLON) (by decide) (by decide) iha _ _) (.map (ihb.1 rest _ hs fun _ => strong_noYield hb (by omega)))
  | elvis c b hc hb ihc ihb =>
    refine comp_non rfl (by decide) (by omega) fun rest f hs hy => .step ?_
    have ht : (E.elvis c b).toks ++ rest = c.toks ++ (.QUESTION :: .COLON :: (b.toks ++ rest)) := by simp [E.toks]
    rw [ht]
    refine .bind (ihc.1 _ f (stop_cons .cond (by omega) _) (by intro h; cases h)) ?_
    exact .map (ihb.1 rest _ hs fun _ => strong_noYield hb (by omega))
  | unary k e hk he ihe =>
    refine comp_non rfl (by decide) (by omega) fun rest f hs hy => .step ?_
    exact .yes (unary_iff.2 hk) (.map (ihe.1 rest f hs fun _ => strong_noYield he (by omega)))
  | list l e hl he ihl ihe =>
    refine comp_non rfl (by decide) (by omega) fun rest f hs hy => .step ?_
    have ht : (E.list l e).toks ++ rest = .LIST :: .LPAREN :: (l.toks ++ .RPAREN :: (.ASSIGN :: (e.toks ++ rest))) := by simp [E.toks]
    rw [ht]
    exact .bind (ihl _ _) (.map (ihe.1 rest _ hs fun _ => strong_noYield he (by omega)))
  | exit0 =>
    refine comp_non rfl (by decide) (by omega) fun rest f hs hy => .step ?_
    exact .eatNo (hs.notIn (by simp; exact ⟨20, by omega, .call⟩)) .const
  | exitP =>
    refine comp_non rfl (by decide) (by omega) fun rest f hs hy => .step ?_
    exact .const
  | exitE e he ihe =>
    refine comp_non rfl (by decide) (by omega) fun rest f hs hy => .step ?_
    have ht : (E.exitE e).toks ++ rest = .EXIT :: .LPAREN :: (e.toks ++ .RPAREN :: rest) := by simp [E.toks]
    rw [ht]
    obtain ⟨-, t, r, hta, hst, -⟩ := fits_first he
    have hn := hst.not.1
    refine .eatNo (by rw [hta]; simp at hn; simp [headIn, hn]) ?_
    exact .bind (expr_ev (by decide) (by decide) ihe _ _) .const
  | eval e he ihe =>
    refine comp_non rfl (by decide) (by omega) fun rest f hs hy => .step ?_
    have ht : (E.eval e).toks ++ rest = .EVAL :: .LPAREN :: (e.toks ++ .RPAREN :: rest) := by simp [E.toks]
    rw [ht]
    exact .bind (expr_ev (by decide) (by decide) ihe _ _) .const
  | pre k e hk he ihe =>
    refine comp_non rfl (by decide) (by omega) fun rest f hs hy => .step ?_
    exact .yes (incDec_iff.2 hk) (.map (ihe.1 rest f hs fun _ => strong_noYield he (by omega)))
  | post e k hk he ihe =>
    refine comp_loop fun rest f res hs hy hr => ?_
    have := ihe.2 (.inr rfl) (k :: rest) f res (stop_cons (.post _ hk) (by omega) _) (by cases hk <;> (intro h; cases h)) ?_
    · simpa [E.toks] using this
    · exact .step (.yes (incDec_iff.2 hk) hr)
  | up l e hl he ihe => exact up_comp hl he ihe
  | array e he ihe =>
    refine prim_comp fun rest f hs => ?_
    rw [path_mark he (by simp)]
    exact path_end ihe hs f
  | normal e he ihe => exact norm_comp he ihe
  | scalar k hk =>
    intro rest f hs
    exact .step (.yes (scalar_iff.2 hk) .const)
  | nowdoc =>
    intro rest f hs
    exact .step .const
  | heredoc ps hp ih =>
    intro rest f hs
    have ht : (E.str .START_HEREDOC ps).toks ++ rest = .START_HEREDOC :: (ps.toks ++ .END_HEREDOC :: rest) := by simp [E.toks, closing]
    rw [ht]
    exact .step (.bind (ih _ _ _ (by simp)) .const)
  | backtick ps hp ih =>
    intro rest f hs
    have ht : (E.str .BACKTICK ps).toks ++ rest = .BACKTICK :: (ps.toks ++ .BACKTICK :: rest) := by simp [E.toks, closing]
    rw [ht]
    exact .step (.bind (ih _ _ _ (by simp)) .const)
  | paren e he hn ihe =>
    intro rest f hs
    have ht : (E.paren e).toks ++ rest = .LPAREN :: (e.toks ++ .RPAREN :: rest) := by simp [E.toks]
    have hm : (E.paren e).mark f = e.mark false := by simp [E.mark, E.raw, E.isVar, hn]
    rw [ht, hm]
    refine .step (.bind (expr_ev (k := .RPAREN) (by decide) (by decide) ihe rest f) ?_)
    refine .no (by simp [hn]) ?_
    by_cases hc : e.isPlainClosure = true
    · exact .yes hc (.eatNo (hs.notIn (by simp; exact ⟨20, by omega, .call⟩)) .const)
    · exact .no hc .const
  | closure t h =>
    intro rest f hs
    have hr := Closures.complete h rest
    obtain ⟨r, rfl⟩ := closure_head h
    refine .step ?_
    show Evt (fun n => onClosure (Closures.read (.FUNCTION :: r ++ rest)) _) _
    simp only [onClosure, hr]
    exact .const
  | iife t l h hl ihl =>
    intro rest f hs
    have ht : (E.iife (.closure (.FUNCTION :: .LPAREN :: t)) l).toks ++ rest =
      .LPAREN :: ((E.closure (.FUNCTION :: .LPAREN :: t)).toks ++ .RPAREN :: (.LPAREN :: (l.toks ++ .RPAREN :: rest))) := by simp [E.toks]
    rw [ht]
    have hc : Comp .norm (.closure (.FUNCTION :: .LPAREN :: t)) := by
      intro rest f hs
      have hr := Closures.complete h rest
      refine .step ?_
      show Evt (fun n => onClosure (Closures.read (.FUNCTION :: .LPAREN :: t ++ rest)) _) _
      simp only [onClosure, hr]
      exact .const
    refine .step (.bind (expr_ev (k := .RPAREN) (by decide) (by decide) (norm_zero (.closure _ h) hc) _ f) ?_)
    exact args_ev ihl .const
  | empty e he ihe =>
    intro rest f hs
    have ht : (E.empty e).toks ++ rest = .EMPTY :: .LPAREN :: (e.toks ++ .RPAREN :: rest) := by simp [E.toks]
    rw [ht]
    exact .step (.bind (expr_ev (k := .RPAREN) (by decide) (by decide) ihe rest f) .const)
  | isset l hl ihl =>
    intro rest f hs
    have ht : (E.isset l).toks ++ rest = .ISSET :: .LPAREN :: (l.toks ++ .RPAREN :: rest) := by simp [E.toks]
    rw [ht]
    exact .step (.bind (ihl rest f) .const)
  | clone e he ihe =>
    intro rest f hs
    exact .step (.map (ihe rest f hs))
  | new e he ihe => exact new_comp he ihe
  | const e he ihe =>
    intro rest f hs
    rw [path_mark he (by simp)]
    exact path_end ihe hs f
  | string e he ihe =>
    intro rest f hs
    rw [path_mark he (by simp)]
    exact path_end ihe hs f
  | created e he ihe =>
    intro rest f hs
    rw [path_mark he (by simp)]
    exact path_end ihe hs f
  | «variable» e he ihe =>
    intro rest f hs
    rw [isVar_mark (vari_isVar he)]
    have h := path_end ihe hs f
    obtain ⟨t, r, ht, htn⟩ := fits_first he
    rw [ht] at h ⊢
    exact norm_name htn (.setOr h)
  | newBare c hc ihc =>
    intro rest f hs
    exact .step (.bind (path_end ihc hs f) (.eatNo (hs.notIn (by simp; exact ⟨20, by omega, .call⟩)) .const))
  | newArgs c l hc hl ihc ihl =>
    intro rest f hs
    have ht : (E.newArgs c l).toks ++ rest = .NEW :: (c.toks ++ .LPAREN :: (l.toks ++ .RPAREN :: rest)) := by simp [E.toks]
    rw [ht]
    have h1 : Ev .cref (c.toks ++ .LPAREN :: (l.toks ++ .RPAREN :: rest)) f (.ok c (.LPAREN :: (l.toks ++ .RPAREN :: rest)) (c.raw f)) :=
      ihc _ f _ rfl (tail_step (.no (by simp) (.no (by simp) (.no (by simp [callOk]) (.no (by simp [memberOk]) .const)))))
    exact .step (.bind h1 (args_ev ihl .const))
  | var => intro rest f; exact .step .const
  | vvar n =>
    intro rest f
    have ht : (E.vvar n).toks ++ rest = .DOLLAR :: (List.replicate n .DOLLAR ++ .VARIABLE :: rest) := by simp [E.toks, List.replicate_succ]
    have hd := dollars_complete n (.VARIABLE :: rest) rfl
    rw [ht]
    refine .step ?_
    simp only [step, cvarStep, uncons, hd]
    exact .const
  | dyn n e he ihe =>
    intro rest f
    have ht : (E.dyn n e).toks ++ rest = .DOLLAR :: (List.replicate n .DOLLAR ++ .LBRACE :: (e.toks ++ .RBRACE :: rest)) := by
      simp [E.toks, List.replicate_succ]
    have hd := dollars_complete n (.LBRACE :: (e.toks ++ .RBRACE :: rest)) rfl
    rw [ht]
    refine .step ?_
    show Evt (fun m => uncons (dollars (List.replicate n .DOLLAR ++ .LBRACE :: (e.toks ++ .RBRACE :: rest))).2 _) _
    simp only [hd]
    exact .bind (expr_ev (k := .RBRACE) (by decide) (by decide) ihe rest f) .const
  | constName g n =>
    intro rest f res hs hev
    obtain ⟨t, r, ht, htn⟩ := nameToks_head g n
    have h1 := vari_const (g := g) (n := n) f hs
    have hb : headIn [.BACKSLASH] rest = false ∧ headIn [.PAAMAYIM_NEKUDOTAYIM] rest = false := by
      cases rest with
      | nil => exact ⟨rfl, rfl⟩
      | cons t r => simp [headIn, Mode.stops] at hs ⊢; exact ⟨hs.2.2, hs.2.1⟩
    have h2 : Evt (fun n' => constStep (run n') (nameToks g n ++ rest) f) res := .name hb.1 (.eatNo hb.2 hev)
    show Ev .norm (nameToks g n ++ rest) f res
    rw [ht] at h1 h2 ⊢
    exact norm_name ((by decide : ∀ t ∈ [Tok.STRING, .BACKSLASH], t ∈ nameHeads) t htn) (.orErr h1 h2)
  | classConst g n k hk =>
    intro rest f res hs hev
    obtain ⟨t, r, ht, htn⟩ := nameToks_head g n
    have hb : headIn [.LPAREN] rest = false := by
      cases rest with
      | nil => rfl
      | cons t r => simp [headIn, Mode.stops] at hs ⊢; exact hs.1
    have h1 := vari_class (g := g) (n := n) f hk hb
    have h2 : Evt (fun n' => constStep (run n') (nameToks g n ++ .PAAMAYIM_NEKUDOTAYIM :: k :: rest) f) res :=
      .name rfl (.yes (words_iff.2 hk) hev)
    have he : (E.cconst g n k).toks ++ rest = nameToks g n ++ .PAAMAYIM_NEKUDOTAYIM :: k :: rest := by simp [E.toks]
    rw [he]
    show Ev .norm (nameToks g n ++ .PAAMAYIM_NEKUDOTAYIM :: k :: rest) f res
    rw [ht] at h1 h2 ⊢
    exact norm_name ((by decide : ∀ t ∈ [Tok.STRING, .BACKSLASH], t ∈ nameHeads) t htn) (.orErr h1 h2)
  | literal =>
    intro rest f res hs hev
    exact .step hev
  | quoted ps hp ih =>
    intro rest f res hs hev
    have ht : (E.str .DOUBLE_QUOTE ps).toks ++ rest = .DOUBLE_QUOTE :: (ps.toks ++ .DOUBLE_QUOTE :: rest) := by simp [E.toks, closing]
    rw [ht]
    exact .step (.bind (ih _ _ _ (by simp)) hev)
  | arr s l hl ihl =>
    intro rest f res hs hev
    cases s
    · have ht : (E.arr false l).toks ++ rest = .ARRAY :: .LPAREN :: (l.toks ++ .RPAREN :: rest) := by simp [E.toks]
      rw [ht]
      exact .step (.bind (ihl .RPAREN rest f (by simp)) hev)
    · have ht : (E.arr true l).toks ++ rest = .LBRACKET :: (l.toks ++ .RBRACKET :: rest) := by simp [E.toks]
      rw [ht]
      exact .step (.bind (ihl .RBRACKET rest f (by simp)) hev)
  | parenNew e he ihe =>
    intro rest f res hs hev
    have ht : (E.paren e).toks ++ rest = .LPAREN :: (e.toks ++ .RPAREN :: rest) := by simp [E.toks]
    have hn := newo_isNew he
    rw [ht]
    refine .step (.bind (expr_ev (k := .RPAREN) (by decide) (by decide) (norm_zero (.new _ he) (new_comp he ihe)) rest f) ?_)
    refine .yes hn (.bind (ihe (.RPAREN :: rest) f (rparen_stop _ _)) ?_)
    have hr : (E.paren e).raw f = e.raw f := by simp [E.raw, hn]
    rw [hr] at hev
    exact hev
  | className g n =>
    intro rest f res hs hev
    exact .step (.name hs hev)
  | classStatic =>
    intro rest f res hs hev
    exact .step hev
  | classVar v hv ih =>
    intro rest f res hs hev
    have h := ih rest f
    obtain ⟨t, r, ht, htn⟩ := fits_first hv
    rw [ht] at h ⊢
    have hne : t ≠ .STRING ∧ t ≠ .BACKSLASH ∧ t ≠ .STATIC := (by decide : ∀ t ∈ [Tok.VARIABLE, .DOLLAR], t ≠ .STRING ∧ t ≠ .BACKSLASH ∧ t ≠ .STATIC) t htn
    exact .step (.noName hne.1 hne.2.1 (.eatNo (by simp [headIn, hne.2.2]) (.bind h hev)))
  | simple v hv ih =>
    intro rest f res hs hev
    have h := ih rest f
    obtain ⟨t, r, ht, htn⟩ := fits_first hv
    rw [ht] at h ⊢
    have hne : t ≠ .STRING ∧ t ≠ .BACKSLASH := (by decide : ∀ t ∈ [Tok.VARIABLE, .DOLLAR], t ≠ .STRING ∧ t ≠ .BACKSLASH) t htn
    exact .step (.noName hne.1 hne.2 (.bind h hev))
  | staticVar g n v hv ih =>
    intro rest f res hs hev
    have h := ih rest f
    have he : (E.svar g n v).toks ++ rest = nameToks g n ++ .PAAMAYIM_NEKUDOTAYIM :: (v.toks ++ rest) := by simp [E.toks]
    rw [he]
    obtain ⟨t, r, ht, htn⟩ := fits_first hv
    rw [ht] at h ⊢
    have hne : ¬ semiReserved.contains t = true ∧ t ≠ .LBRACE :=
      (by decide : ∀ t ∈ [Tok.VARIABLE, .DOLLAR], ¬ semiReserved.contains t = true ∧ t ≠ .LBRACE) t htn
    exact .step (.name rfl (.no hne.1 (.no hne.2 (.bind h hev))))
  | function g n l hl ihl =>
    intro rest f res hs hev
    have he : (E.call (.name g n) l).toks ++ rest = nameToks g n ++ .LPAREN :: (l.toks ++ .RPAREN :: rest) := by simp [E.toks]
    rw [he]
    exact .step (.name rfl (tail_call ihl rfl hev))
  | method g n k l hk hl ihl =>
    intro rest f res hs hev
    have he : (E.call (.cconst g n k) l).toks ++ rest = nameToks g n ++ .PAAMAYIM_NEKUDOTAYIM :: k :: .LPAREN :: (l.toks ++ .RPAREN :: rest) := by
      simp [E.toks]
    rw [he]
    exact .step (.name rfl (.yes (words_iff.2 hk) (tail_call ihl rfl hev)))
  | dynMethod g n e l he hl ihe ihl =>
    intro rest f res hs hev
    have ht : (E.call (.sdyn g n e) l).toks ++ rest =
        nameToks g n ++ .PAAMAYIM_NEKUDOTAYIM :: .LBRACE :: (e.toks ++ .RBRACE :: (.LPAREN :: (l.toks ++ .RPAREN :: rest))) := by
      simp [E.toks]
    rw [ht]
    exact .step (.name rfl (.bind (expr_ev (k := .RBRACE) (by decide) (by decide) ihe _ f) (tail_call ihl rfl hev)))
  | index0 m b hb hf hm ih =>
    exact path_more ih rfl (by cases m <;> rfl) fun rest f res h => tail_index0 hf hm h
  | index m b i hb hf hi ih ihi =>
    refine path_more (k := .LBRACKET) (r := i.toks ++ [.RBRACKET]) ih (by simp [E.toks]) (by cases m <;> rfl) fun rest f res h => ?_
    have := tail_index (b := b) (f := b.raw f) hi ihi hf h
    simpa using this
  | cindex m b i hb hf hc h1 h2 hi ih ihi =>
    refine path_more (k := .LBRACE) (r := i.toks ++ [.RBRACE]) ih (by simp [E.toks]) (by cases m <;> rfl) fun rest f res h => ?_
    have := tail_brace (b := b) (f := b.raw f) ihi (bracesOk_of hf hc h1 h2) h
    simpa using this
  | call m b l hb hf hc hm hl ih ihl =>
    refine path_more (k := .LPAREN) (r := l.toks ++ [.RPAREN]) ih (by simp [E.toks]) (by rcases hm with rfl | rfl <;> rfl) fun rest f res h => ?_
    have := tail_call (b := b) (f := b.raw f) ihl (callOk_of hf hc hm) h
    simpa using this
  | arrow m b p hb hm hp ih ihp =>
    exact path_more ih rfl (by cases m <;> rfl) fun rest f res h => tail_arrow hm ihp h
  | scope b p hb hp ih ihp =>
    exact path_more ih rfl rfl fun rest f res h => tail_scope ihp h
  | classScope b p hb hp ih ihp =>
    exact path_more ih rfl rfl fun rest f res h => tail_class ihp h
  | id => intro rest f; exact .step .const
  | curly e he ihe =>
    intro rest f
    have ht : (E.curly e).toks ++ rest = .LBRACE :: (e.toks ++ .RBRACE :: rest) := by simp [E.toks]
    rw [ht]
    exact .step (.bind (expr_ev (k := .RBRACE) (by decide) (by decide) ihe _ f) .const)
  | nameVar v hv ih =>
    intro rest f
    have h := ih rest f
    obtain ⟨t, r, ht, htn⟩ := fits_first hv
    rw [ht] at h ⊢
    have hne : t ≠ .STRING ∧ t ≠ .LBRACE := (by decide : ∀ t ∈ [Tok.VARIABLE, .DOLLAR], t ≠ .STRING ∧ t ≠ .LBRACE) t htn
    exact .step (.no hne.1 (.no hne.2 h))
  | item a e he ihe =>
    intro t rest f ht
    obtain ⟨-, t', r, hte, hst, -⟩ := fits_first he
    have hn := hst.not.1
    simp at hn
    have hnd : t ≠ .DOUBLE_ARROW := by rcases ht with rfl | rfl | rfl <;> decide
    have hen : enders.contains t = true := by rcases ht with rfl | rfl | rfl <;> decide
    have hev := expr_ev hen hnd ihe rest f
    have hm : e.ent f = e.mark false := lev_ent he f
    rw [hm]
    refine .step (.eatNo (by rw [hte]; simp [headIn, hn]) ?_)
    cases a
    · refine .no (by decide) (.eatNo (by rw [hte]; simp [headIn, hn]) hev)
    · exact .yes rfl (.bind hev (.eatNo (by simp [headIn, hnd]) .const))
  | spread e he ihe =>
    intro t rest f ht
    have hnd : t ≠ .DOUBLE_ARROW := by rcases ht with rfl | rfl | rfl <;> decide
    have hen : enders.contains t = true := by rcases ht with rfl | rfl | rfl <;> decide
    exact .step (.map (expr_ev hen hnd ihe rest f))
  | byRef a v hv ih =>
    intro t rest f ht
    have hen : enders.contains t = true := by rcases ht with rfl | rfl | rfl <;> decide
    exact .step (.map (path_end ih (stop_other hen _ _) f))
  | pair k v hk hy hv ihk ihv =>
    intro t rest f ht
    obtain ⟨-, t1, r1, hte1, hst1, -⟩ := fits_first hk
    obtain ⟨-, t2, r2, hte2, hst2, -⟩ := fits_first hv
    have hn1 := hst1.not.1
    have hn2 := hst2.not.1
    simp at hn1 hn2
    have hnd : t ≠ .DOUBLE_ARROW := by rcases ht with rfl | rfl | rfl <;> decide
    have hen : enders.contains t = true := by rcases ht with rfl | rfl | rfl <;> decide
    have htt : (E.pair k v).toks ++ t :: rest = k.toks ++ .DOUBLE_ARROW :: (v.toks ++ t :: rest) := by simp [E.toks]
    have hm : (E.pair k v).ent f = v.mark false := by
      have hi : v.isItem = false := (oper_facts hv).1 (.inr (.inr ⟨_, rfl⟩))
      show E.raw (.pair k v) f = _
      simp only [E.raw, hi]; rfl
    rw [htt, hm]
    refine .step (.eatNo (by rw [hte1]; simp [headIn, hn1]) (.bind (ihk.1 _ f (stop_other (by decide) _ _) fun _ => hy) ?_))
    show Evt (fun n => eat .BIT_AND (v.toks ++ t :: rest) _ _) _
    exact .eatNo (by rw [hte2]; simp [headIn, hn2]) (.map (expr_ev hen hnd ihv rest _))
  | pairRef k v hk hy hv ihk ihv =>
    intro t rest f ht
    obtain ⟨-, t1, r1, hte1, hst1, -⟩ := fits_first hk
    have hn1 := hst1.not.1
    simp at hn1
    have hen : enders.contains t = true := by rcases ht with rfl | rfl | rfl <;> decide
    have htt : (E.pair k (.byRef v)).toks ++ t :: rest = k.toks ++ .DOUBLE_ARROW :: (.BIT_AND :: (v.toks ++ t :: rest)) := by simp [E.toks]
    rw [htt]
    refine .step (.eatNo (by rw [hte1]; simp [headIn, hn1]) (.bind (ihk.1 _ f (stop_other (by decide) _ _) fun _ => hy) ?_))
    exact .map (path_end ihv (stop_other hen _ _) _)
  | nil a =>
    intro c rest f hc
    refine .step (.yes ?_ .const)
    simp [headIn, E.toks]
  | some a l hl ihl =>
    intro c rest f hc
    have h := ihl c rest f hc
    obtain ⟨t, r, ht, hst⟩ := fits_first hl
    refine .step (.no ?_ h)
    rw [ht]
    have : t ≠ c := by
      rintro rfl
      rcases hst with hst | rfl | rfl
      · have := hst.not.1; rcases hc with rfl | rfl <;> simp at this
      · rcases hc with hc | hc <;> cases hc
      · rcases hc with hc | hc <;> cases hc
    simp [headIn, this]
  | last a i hi ihi =>
    intro c rest f hc
    have h := ihi c rest f (.inr hc)
    exact .step (.bind h (.eatNo (by rcases hc with rfl | rfl <;> rfl) .const))
  | lastComma a i hi ihi =>
    intro c rest f hc
    have h := ihi .COMMA (c :: rest) f (.inl rfl)
    have ht : (E.lastComma i).toks ++ c :: rest = i.toks ++ .COMMA :: c :: rest := by simp [E.toks]
    rw [ht]
    refine .step (.bind h (.yes ?_ .const))
    simp [headIn]
  | more a i l hi hl ihi ihl =>
    intro c rest f hc
    have h := ihi .COMMA (l.toks ++ c :: rest) f (.inl rfl)
    have ht : (E.more i l).toks ++ c :: rest = i.toks ++ .COMMA :: (l.toks ++ c :: rest) := by simp [E.toks]
    obtain ⟨t, r, ht', hst⟩ := fits_first hl
    have hne : t ≠ c := by
      rintro rfl
      rcases hst with hst | rfl | rfl
      · have := hst.not.1; rcases hc with rfl | rfl <;> simp at this
      · rcases hc with hc | hc <;> cases hc
      · rcases hc with hc | hc <;> cases hc
    rw [ht]
    refine .step (.bind h (.no ?_ (.map (ihl c rest _ hc))))
    rw [ht']; simp [headIn, hne]
  | vlast b e he ihe =>
    intro rest f
    exact .step (.bind (ihe .RPAREN rest f (.inr rfl)) .const)
  | vmore b e l he hl ihe ihl =>
    intro rest f
    have ht : (E.vmore e l).toks ++ .RPAREN :: rest = e.toks ++ .COMMA :: (l.toks ++ .RPAREN :: rest) := by simp [E.toks]
    rw [ht]
    exact .step (.bind (ihe .COMMA _ f (.inl rfl)) (.map (ihl rest _)))
  | velem b e he ihe =>
    intro t rest f ht
    have hen : enders.contains t = true := by rcases ht with rfl | rfl <;> decide
    refine .step (.yes ?_ (path_end ihe (stop_other hen _ _) f))
    obtain ⟨t', r, ht', htn⟩ := fits_first he
    rw [ht']; simp [headIn]; exact htn
  | vnone =>
    intro t rest f ht
    rcases ht with rfl | rfl <;> exact .step .const
  | vlists l hl ihl =>
    intro t rest f ht
    have htt : (E.lists l).toks ++ t :: rest = .LIST :: .LPAREN :: (l.toks ++ .RPAREN :: t :: rest) := by simp [E.toks]
    rw [htt]
    exact .step (.bind (ihl _ f) .const)
  | pnil =>
    intro k rest f hk
    rcases hk with rfl | rfl | rfl <;> exact .step .const
  | part p l hp hl ihp ihl =>
    intro k rest f hk
    have ht : (E.part p l).toks ++ k :: rest = p.toks ++ (l.toks ++ k :: rest) := by simp [E.toks]
    rw [ht]
    obtain ⟨t, r, htp, htn⟩ := fits_first hp
    have hok : headIn [.OBJECT_OPERATOR, .LBRACKET] (l.toks ++ k :: rest) = false := by
      cases hl with
      | pnil => rcases hk with rfl | rfl | rfl <;> rfl
      | part p' l' hp' hl' =>
        obtain ⟨t', r', htp', htn'⟩ := fits_first hp'
        have := (by decide : ∀ t ∈ partHeads, t ≠ .OBJECT_OPERATOR ∧ t ≠ .LBRACKET) t' htn'
        simp [E.toks, htp', headIn, this]
    refine .step (.yes ?_ (.bind (ihp _ f hok) (.map (ihl k rest _ hk))))
    rw [htp]; simp [headIn]; exact htn
  | ptext => intro rest f hr; exact .step .const
  | pvar =>
    intro rest f hr
    have h1 : headIn [.OBJECT_OPERATOR] rest = false ∧ headIn [.LBRACKET] rest = false := by
      cases rest with
      | nil => exact ⟨rfl, rfl⟩
      | cons t r => simp [headIn] at hr ⊢; exact hr
    exact .step (.eatNo h1.1 (.eatNo h1.2 .const))
  | pprop => intro rest f hr; exact .step .const
  | poff k hk =>
    intro rest f hr
    exact .step (.yes (offset_iff.2 hk) .const)
  | pvname0 => intro rest f hr; exact .step .const
  | pvname i hi ihi =>
    intro rest f hr
    have ht : (E.pvname i).toks ++ rest = .DOLLAR_OPEN_CURLY_BRACES :: .STRING_VARNAME :: .LBRACKET :: (i.toks ++ .RBRACKET :: .RBRACE :: rest) := by
      simp [E.toks]
    rw [ht]
    obtain ⟨-, t, r, hti, hst, -⟩ := fits_first hi
    have hn := hst.not.1
    simp at hn
    refine .step ?_
    show Evt (fun n => eat .RBRACKET (i.toks ++ .RBRACKET :: .RBRACE :: rest) _ _) _
    exact .eatNo (by rw [hti]; simp [headIn, hn]) (.bind (expr_ev (k := .RBRACKET) (by decide) (by decide) ihi _ f) .const)
  | pcurly e he ihe =>
    intro rest f hr
    have ht : (E.pexpr .CURLY_OPEN e).toks ++ rest = .CURLY_OPEN :: (e.toks ++ .RBRACE :: rest) := by simp [E.toks]
    rw [ht]
    exact .step (.bind (expr_ev (k := .RBRACE) (by decide) (by decide) ihe _ f) .const)
  | pdollar e he ihe =>
    intro rest f hr
    have ht : (E.pexpr .DOLLAR_OPEN_CURLY_BRACES e).toks ++ rest = .DOLLAR_OPEN_CURLY_BRACES :: (e.toks ++ .RBRACE :: rest) := by simp [E.toks]
    rw [ht]
    have hx : Evt (fun n => pexprStep (run n) .DOLLAR_OPEN_CURLY_BRACES (e.toks ++ .RBRACE :: rest) f) (.ok (.pexpr .DOLLAR_OPEN_CURLY_BRACES e) rest (e.mark false)) :=
      .bind (expr_ev (k := .RBRACE) (by decide) (by decide) ihe _ f) .const
    obtain ⟨-, t, r, hte, hst, hvn⟩ := fits_first he
    refine .step ?_
    show Evt (fun n => eat .STRING_VARNAME (e.toks ++ .RBRACE :: rest) _ _) _
    by_cases h : t = .STRING_VARNAME
    · subst h
      rw [hte] at hx ⊢
      exact .eatYes (.eatNo (headIn_app (hvn rfl) (by decide)) hx)
    · exact .eatNo (by rw [hte]; simp [headIn, h]) hx

end
end KPhp.Grammar
