import Verif.Lexer.Spec
/-! The contract every lexer branch fulfils (`Good`), and helpers to establish it. -/
namespace KPhp

/-- Tokens whose line breaks the lexer does not record correctly: casts and `yield from` with a line
break between the words, and unterminated double-quoted literals with a line break. -/
def NlExempt (c : QString) (b e : Nat) (t : Tok) : Prop :=
  (t.isCast = true ∨ t = .YIELD_FROM ∨
    (t = .CONSTANT_ENCAPSED_STRING ∧ UnclosedLiteral c (c! '"') b e)) ∧
  ∃ k, b ≤ k ∧ k < e ∧ chr c k = 10

/-- What is put into the line table for a token `t` that covers the offsets from `b` up to `e`: nothing
for casts and `yield from`, the offset before each line break for unterminated double-quoted literals,
otherwise the offset of each line break. -/
structure NlRecorded (c : QString) (b e : Nat) (t : Tok) (nls : List Nat) : Prop where
  lost : t.isCast = true ∨ t = .YIELD_FROM → nls = []
  shifted : t = .CONSTANT_ENCAPSED_STRING → UnclosedLiteral c (c! '"') b e →
    nls = (nlsIn c b e).map (· - 1)
  exact_ : ¬ (t.isCast = true ∨ t = .YIELD_FROM) →
    ¬ (t = .CONSTANT_ENCAPSED_STRING ∧ UnclosedLiteral c (c! '"') b e) → nls = nlsIn c b e

/-- The token kinds whose line breaks are always recorded. -/
def Tok.plainNl (t : Tok) : Bool :=
  !t.isCast && t != .YIELD_FROM && t != .CONSTANT_ENCAPSED_STRING

theorem NlRecorded.of {c : QString} {b e : Nat} {t : Tok} {nls : List Nat}
    (hn : NlRecorded c b e t nls ∨ nls = nlsIn c b e) (hx : t.plainNl = true ∨ NlRecorded c b e t nls) :
    NlRecorded c b e t nls := by
  rcases hx with hx | hx
  · rcases hn with hn | hn
    · exact hn
    · simp [Tok.plainNl] at hx
      exact ⟨fun h => by rcases h with h | h <;> simp_all, fun h => by simp_all, fun _ _ => hn⟩
  · exact hx

theorem NlRecorded.none {c : QString} {b e : Nat} {t : Tok} (h : t.isCast = true ∨ t = .YIELD_FROM) :
    NlRecorded c b e t [] :=
  ⟨fun _ => rfl, fun h1 => by subst h1; rcases h with h | h <;> simp [Tok.isCast] at h, fun h1 => absurd h h1⟩

theorem NlRecorded.lit {c : QString} {b e : Nat} {nls : List Nat} (h : nls = nlsIn c b e)
    (hn : ¬ UnclosedLiteral c (c! '"') b e) : NlRecorded c b e .CONSTANT_ENCAPSED_STRING nls :=
  ⟨fun h => by rcases h with h | h <;> simp [Tok.isCast] at h, fun _ h => absurd h hn, fun _ _ => h⟩

/-- A token without exempt line breaks gets its line breaks recorded. -/
theorem NlRecorded.eq {c : QString} {b e : Nat} {t : Tok} {nls : List Nat}
    (h : NlRecorded c b e t nls) (hx : ¬ NlExempt c b e t) : nls = nlsIn c b e := by
  by_cases h1 : t.isCast = true ∨ t = .YIELD_FROM
  · rw [h.lost h1]
    exact (nlsIn_nil fun k h2 h3 h4 => hx ⟨by rcases h1 with h1 | h1 <;> simp [h1], k, h2, h3, h4⟩).symm
  · by_cases h2 : t = .CONSTANT_ENCAPSED_STRING ∧ UnclosedLiteral c (c! '"') b e
    · rw [h.shifted h2.1 h2.2, nlsIn_nil fun k h3 h4 h5 => hx ⟨Or.inr (Or.inr h2), k, h3, h4, h5⟩]
      rfl
    · exact h.exact_ h1 h2

/-- Contract of a branch started at offset `b < c.length` in modes `stack`. -/
structure Good (u : CharClass) (c : QString) (b : Nat) (stack : List St) (ident : QString)
    (r : Res) : Prop where
  le : b ≤ r.nxt
  bound : (r.nxt ≤ c.length + 1 ∧
      (r.nxt ≤ c.length ∨ r.tok.isTrivia = true ∨ r.tok = .INLINE_HTML)) ∨ (r.nxt = c.length + 2 ∧ r.tok.isTrivia = true ∧ OpenBlockComment c b)
  progress : b < r.nxt ∨
    (r.tok = .ENCAPSED_AND_WHITESPACE ∧ r.nxt = b ∧
      ((stack.head? = some .StrVar ∧ r.stack.head? ≠ some .StrVar) ∨
       (r.stack = stack ∧ r.ident = ident ∧ chr c b = c! '{' ∧ chr c (b + 1) = c! '$' ∧
          u.isDigit (chr c (b + 2)) = true)))
  inv : SInv u c r.nxt r.stack r.ident
  spec : TokSpec u c stack ident b r.nxt r.tok
  kw : isKeywordTok r.tok → WordSpec u c b r.nxt ∧
    ∃ k, k ∈ keywordNames r.tok ∧ ciEq u (slice c b r.nxt) k = true
  nls : NlRecorded c b r.nxt r.tok r.nls
  /-- the remembered identifier survives while a heredoc or nowdoc is open -/
  keep : HasDoc stack → r.ident = ident
  close : r.tok = .CLOSE_TAG → r.stack = [.Html, .Error]
  html : stack.head? = some .Html →
    r.tok = .INLINE_HTML ∨ r.tok = .OPEN_TAG ∨ r.tok = .OPEN_TAG_WITH_ECHO
  pos : 0 < r.nxt

/-- The keyword token kinds, as a decidable test. -/
def Tok.isKeyword (t : Tok) : Bool := keywordTable.any (fun e => e.2 == t)

/-- The names given to the casts by the lexer are the ones of the language. -/
theorem castNames_iff {n : QString} {t : Tok} : n ∈ castNames t ↔ (n, t) ∈ castTable := by
  constructor
  · revert n; cases t <;> decide +kernel
  · have : ∀ x ∈ castTable, x.1 ∈ castNames x.2 := by decide +kernel
    exact this (n, t)

/-- The keywords of the lexer are the ones of the language. -/
theorem keywordNames_iff {n : QString} {t : Tok} : n ∈ keywordNames t ↔ (n, t) ∈ keywordTable := by
  constructor
  · revert n; cases t <;> decide +kernel
  · have : ∀ x ∈ keywordTable, x.1 ∈ keywordNames x.2 := by decide +kernel
    exact this (n, t)

/-- `Lexer::isValidVariableIdentifier` accepts the characters of names. -/
theorem validIdent_eq : validIdent = identChar := rfl
theorem identStart_eq : identStart = nameStart := rfl

theorem digitVal_isDigit {ch : QChar} {d : Nat} (h : digitVal ch = some d) : IsDigit ch d := by
  unfold digitVal asciiDigit at h
  split at h
  · rename_i hd; simp at hd h; left; omega
  · split at h
    · simp at h; right; omega
    · split at h
      · simp at h; right; omega
      · exact absurd h (by simp)

/-- The value computed by `QString::toLong` is the value of the numeral. -/
theorem numeral_of_digitsVal {base : Nat} {s : QString} : ∀ {p : QString} {a v : Nat}, Numeral base p a →
    digitsVal base s a = some v → Numeral base (p ++ s) v := by
  induction s with
  | nil => intro p a v hp h; simp [digitsVal] at h; subst h; simpa using hp
  | cons ch r ih =>
    intro p a v hp h
    unfold digitsVal at h
    split at h
    · rename_i d hd
      split at h
      · rename_i hlt
        have := ih (Numeral.snoc hp (digitVal_isDigit hd) hlt) h
        simpa using this
      · exact absurd h (by simp)
    · exact absurd h (by simp)

theorem isKeywordTok_iff (t : Tok) : isKeywordTok t ↔ t.isKeyword = true := by
  unfold isKeywordTok Tok.isKeyword
  simp only [keywordNames_iff]
  rw [List.any_eq_true]
  constructor
  · rintro ⟨k, hk⟩; exact ⟨(k, t), hk, by simp⟩
  · rintro ⟨⟨k, t'⟩, hk, he⟩
    have : t' = t := by simpa using he
    subst this; exact ⟨k, hk⟩

theorem notKw {t : Tok} (h : t.isKeyword = false) {P : Prop} : isKeywordTok t → P := by
  intro hk; rw [isKeywordTok_iff, h] at hk; exact absurd hk (by decide)

theorem Wf.ne_nil {l : List St} (h : Wf l) : l ≠ [] := by cases h <;> simp

theorem Wf.tail_of_push {t s : St} {r : List St} (h : Wf (t :: s :: r)) (ht : t ≠ .Html) :
    under t s = true ∧ Wf (s :: r) := by
  cases h with
  | base => exact absurd rfl ht
  | push a b => exact ⟨a, b⟩

theorem Wf.cons_inv {t : St} {r : List St} (h : Wf (t :: r)) (ht : t ≠ .Html) :
    ∃ s r', r = s :: r' ∧ under t s = true ∧ Wf (s :: r') := by
  cases h with
  | base => exact absurd rfl ht
  | push a b => exact ⟨_, _, rfl, a, b⟩

theorem Wf.html {r : List St} (h : Wf (.Html :: r)) : r = [.Error] := by
  cases h with
  | base => rfl
  | push a b => simp [under] at a

theorem Wf.default {r : List St} (h : Wf (.Default :: r)) : r = [.Html, .Error] := by
  obtain ⟨s, r', rfl, h1, h2⟩ := h.cons_inv (by decide)
  have : s = .Html := by revert h1; cases s <;> simp [under]
  subst this
  rw [h2.html]

theorem Wf.dropToHtml {l : List St} (h : Wf l) : dropToHtml l = some [.Html, .Error] := by
  induction h with
  | base => rfl
  | @push t s r a b ih =>
    cases t <;> first | (simp [under] at a; done) | simpa [KPhp.dropToHtml] using ih

section
variable {u : CharClass} {c : QString} {b : Nat} {stack : List St} {ident : QString}

theorem SInv.mono {e : Nat} (h : SInv u c b stack ident) (hbe : b ≤ e)
    (ht : ∀ t r, stack = t :: r → wantsIdent t = false) : SInv u c e stack ident where
  wf := h.wf
  doc := h.doc
  anchor hs := by obtain ⟨j, hj, hne⟩ := h.anchor hs; exact ⟨j, by omega, hne⟩
  top t r hs hw := by rw [ht t r hs] at hw; exact absurd hw (by decide)

/-- Code modes. -/
def isCode (stack : List St) : Prop := ∃ t r, stack = t :: r ∧ (t = .Default ∨ t = .StrVarCurly)

theorem isCode.noWant (h : isCode stack) : ∀ t r, stack = t :: r → wantsIdent t = false := by
  obtain ⟨t, r, rfl, h⟩ := h
  intro t' r' he
  cases he
  rcases h with rfl | rfl <;> rfl

theorem isCode.notHtml (h : isCode stack) : stack.head? ≠ some .Html := by
  obtain ⟨t, r, rfl, h⟩ := h
  rcases h with rfl | rfl <;> simp

/-- A token in a code mode that leaves modes and identifier alone. -/
theorem Good.simple {t : Tok} {e : Nat} {nls : List Nat}
    (hi : SInv u c b stack ident) (hc : isCode stack) (h1 : b < e) (h2 : e ≤ c.length + 1)
    (hs : TokSpec u c stack ident b e t)
    (hk : isKeywordTok t → WordSpec u c b e ∧
      ∃ k, k ∈ keywordNames t ∧ ciEq u (slice c b e) k = true)
    (hn : NlRecorded c b e t nls ∨ nls = nlsIn c b e) (hct : t ≠ .CLOSE_TAG)
    (hx : t.plainNl = true ∨ NlRecorded c b e t nls := by exact Or.inl (by decide))
    (hin : e ≤ c.length ∨ t.isTrivia = true ∨ t = .INLINE_HTML := by first | exact Or.inl (by omega) | exact Or.inr (by decide)) :
    Good u c b stack ident ⟨t, e, stack, ident, nls⟩ where
  le := by simp; omega
  bound := Or.inl ⟨h2, hin⟩
  progress := Or.inl h1
  inv := hi.mono (by simp; omega) hc.noWant
  spec := hs
  kw := hk
  nls := NlRecorded.of hn hx
  keep _ := rfl
  close h := absurd h hct
  html h := absurd h hc.notHtml
  pos := by show 0 < e; omega

/-- A non-keyword token that makes progress inside the text. -/
theorem Good.intro {t : Tok} {e : Nat} {st' : List St} {id' : QString} {nls : List Nat}
    (h1 : b < e) (h2 : e ≤ c.length + 1) (hi : SInv u c e st' id')
    (hs : TokSpec u c stack ident b e t) (hk : t.isKeyword = false)
    (hn : NlRecorded c b e t nls ∨ nls = nlsIn c b e) (hkeep : HasDoc stack → id' = ident)
    (hcl : t = .CLOSE_TAG → st' = [.Html, .Error])
    (hhtml : stack.head? = some .Html →
      t = .INLINE_HTML ∨ t = .OPEN_TAG ∨ t = .OPEN_TAG_WITH_ECHO)
    (hx : t.plainNl = true ∨ NlRecorded c b e t nls := by exact Or.inl (by decide))
    (hin : e ≤ c.length ∨ t.isTrivia = true ∨ t = .INLINE_HTML := by first | exact Or.inl (by omega) | exact Or.inr (by decide)) :
    Good u c b stack ident ⟨t, e, st', id', nls⟩ where
  le := by simp; omega
  bound := Or.inl ⟨h2, hin⟩
  progress := Or.inl h1
  inv := hi
  spec := hs
  kw := notKw hk
  nls := NlRecorded.of hn hx
  keep := hkeep
  close := hcl
  html := hhtml
  pos := by show 0 < e; omega

/-- Line breaks inside a short token given by its characters. -/
theorem nlsIn_short {e : Nat} (h : ∀ k, b ≤ k → k < e → chr c k ≠ 10) : ([] : List Nat) = nlsIn c b e :=
  (nlsIn_nil h).symm
end

end KPhp
