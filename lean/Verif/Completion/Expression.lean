import Verif.Completion.Analysis
import Verif.Completion.MethodTokens
/-!
# The expression before the cursor and the enclosing calls (C49, C50)

Models `CodeCompletionContext::evaluateExpression` (completion/context.cpp:781-961) and the chain of parent contexts
(:763-779, :930-960, :700-715).

Simplified: whether the expression could be evaluated (`m_expressionResult.type()`) and whether the class before `::` is
accessible are parameters (`Oracle`), since they depend on the duchain; the theorems hold for all of them.
-/
namespace KPhp.Completion

/-- What the duchain answers. -/
structure Oracle where
  /-- `expressionParser.evaluateType` gives a type -/
  typed : QString → Bool
  /-- the class named before `::` does not make the completion invalid -/
  accessible : QString → Bool

/-- completion/context.cpp:806-810 -/
def stopTokens : List Tok :=
  [.SEMICOLON, .INVALID, .OPEN_TAG, .OPEN_TAG_WITH_ECHO, .LBRACE, .RBRACE, .IF, .WHILE, .FOR, .FOREACH, .SWITCH, .ELSEIF]

/-- a token that ends the search for the start of the expression (completion/context.cpp:814-815) -/
def isStop (isCall : Bool) (k : Tok) : Bool := stopTokens.contains k || (!isCall && k == .COMMA)

/-- completion/context.cpp:814-826: `openLParen` at the end, and the tokens from the stop token on (backwards). -/
def scanStart (isCall : Bool) : Int → List T → Int × List T
  | o, [] => (o, [])
  | o, t :: r =>
    if isStop isCall t.kind then (o, t :: r)
    else if t.kind = .LPAREN then (if o + 1 > 0 then (o + 1, t :: r) else scanStart isCall (o + 1) r)
    else if t.kind = .RPAREN then scanStart isCall (o - 1) r
    else scanStart isCall o r

/-- completion/context.cpp:123-130, any relative position -/
def TA.typeAt (a : TA) : Int → Tok
  | .ofNat 0 => kindAt a.back 0
  | .ofNat (k + 1) => kindAt a.ahead k
  | .negSucc k => kindAt a.back (k + 1)

/-- completion/context.cpp:115-119, with the assertions -/
def TA.moveTo (a : TA) (r : Int) : Option TA :=
  if r ≤ 0 then
    let k := (-r).toNat
    let b := a.back.drop k
    if b.length ≤ 1 then none else some ⟨b, (a.back.take k).reverse ++ a.ahead⟩
  else
    let k := r.toNat
    if k ≤ a.ahead.length ∧ 1 ≤ a.back.length then some ⟨(a.ahead.take k).reverse ++ a.back, a.ahead.drop k⟩ else none

/-- completion/context.cpp:836-848: behind the stop token, without white space and `return` -/
def skipLead (a : TA) (s : Int) : Int :=
  let s1 := if a.typeAt s = .WHITESPACE then s + 1 else s
  if a.typeAt s1 = .RETURN then
    (if a.typeAt (s1 + 1) = .WHITESPACE then s1 + 2 else s1 + 1)
  else s1

/-- completion/context.cpp:788-801: where the search starts, as number of tokens to go back -/
def searchFrom (isCall : Bool) (back : List T) : Option Nat :=
  if isCall then do
    let c ← prependedBy back [.STRING, .NEW] true
    some (c.getD 1)
  else some 0

/-- completion/context.cpp:786-848: `startPos` and `openLParen` -/
def findStart (isCall : Bool) (a : TA) : Option (Int × Int) := do
  let f ← searchFrom isCall a.back
  let (o, rest) := scanStart isCall 0 (a.back.drop f)
  let k := a.back.length - rest.length
  some (if o < 0 then 0 else skipLead a (1 - (k : Int)), o)

/-- completion/context.cpp:894-909: the text of the expression; `none`: a read outside of the stream -/
def expressionText (u : CharClass) (isCall : Bool) (a : TA) (s o : Int) : Option QString :=
  let n := (1 - s).toNat
  if n ≤ a.back.length then
    some (trimmed u (((a.back.take n).reverse.map T.text).flatten) ++ (if isCall then q! ")" else []) ++
      List.replicate o.toNat (c! ')'))
  else none

/-- What one round of `evaluateExpression` leads to. -/
inductive Round
  | invalid
  | done
  /-- a parent context for the call at this parenthesis -/
  | parent (a : TA)

/-- completion/context.cpp:928-960: after the expression has been found at `s` -/
def enclosing (a : TA) (s : Int) : Option Round := do
  let b ← a.moveTo s
  if b.typeAt (-1) = .LPAREN ∨ b.typeAt (-1) = .COMMA then
    let c ← b.moveTo (-1)
    let c' : TA := if c.type = .COMMA then ⟨removeOtherArguments c.back, []⟩ else c
    if c'.type = .INVALID then some .invalid
    else
      let p ← prependedBy c'.back [.STRING] true
      if p.isNone then some .done else some (.parent c')
  else some .done

/-- completion/context.cpp:134-138: the text at a relative position -/
def nameAt (a : TA) (s : Int) : Option QString :=
  if s ≤ 0 then stringBack a.back (-s).toNat else stringBack a.ahead (s.toNat - 1)

/-- completion/context.cpp:850-890 and 891-926, followed by `enclosing`. `isStatic`: `StaticMemberAccess`. -/
def evaluateRound (u : CharClass) (w : Oracle) (isCall isStatic : Bool) (a : TA) : Option Round := do
  let (s, o) ← findStart isCall a
  if o < 0 then some .invalid
  else if isStatic then
    if a.typeAt s ≠ .STRING then some .invalid
    else do
      let n ← nameAt a s
      if !w.accessible (lowerStr u n) then some .invalid else enclosing a s
  else do
    let e ← expressionText u isCall a s o
    if e.isEmpty || !w.typed e then some (if isCall then .done else .invalid)
    else enclosing a s

/-! ## The shape of the streams -/

/-- the tokens up to some position of the tokens of a text, nearest first -/
def OB (back : List T) : Prop :=
  ∃ html rest, back.reverse = html ++ rest ∧ (∀ t ∈ html, t.kind = .INLINE_HTML) ∧
    ∀ t ∈ rest.head?, t.kind = .OPEN_TAG ∨ t.kind = .OPEN_TAG_WITH_ECHO

theorem Opened.ob {toks : List T} (h : Opened toks) : OB toks.reverse := by
  obtain ⟨_, html, rest, h1, h2, h3⟩ := h
  exact ⟨html, rest, by simpa using h1, h2, h3⟩

theorem OB.suffix {a b : List T} (h : OB b) (hs : a <:+ b) : OB a := by
  obtain ⟨p, rfl⟩ := hs
  obtain ⟨html, rest, h1, h2, h3⟩ := h
  rw [List.reverse_append] at h1
  rcases List.append_eq_append_iff.1 h1 with ⟨c, hc1, hc2⟩ | ⟨c, hc1, hc2⟩
  · exact ⟨a.reverse, [], by simp, fun t ht => h2 t (by rw [hc1]; exact List.mem_append_left _ ht), by simp⟩
  · refine ⟨html, c, hc1, h2, ?_⟩
    intro t ht
    cases c with
    | nil => simp at ht
    | cons x c => simp at ht; subst ht; exact h3 x (by rw [hc2]; simp)

/-- an open tag -/
def isOpen (t : T) : Prop := t.kind = .OPEN_TAG ∨ t.kind = .OPEN_TAG_WITH_ECHO

theorem OB.open_before {t : T} {b : List T} (h : OB (t :: b)) (ht : t.kind ∉ firstKinds) : ∃ x ∈ b, isOpen x := by
  obtain ⟨html, rest, h1, h2, h3⟩ := h
  rw [List.reverse_cons] at h1
  cases rest with
  | nil =>
    exfalso
    rw [List.append_nil] at h1
    have := h2 t (by rw [← h1]; simp)
    exact ht (by rw [this]; decide)
  | cons x rest =>
    have hx := h3 x (by simp)
    cases hr : rest.reverse with
    | nil =>
      exfalso
      have : rest = [] := by simpa using hr
      subst this
      have := List.append_inj_right' h1 (by simp)
      simp at this
      subst this
      rcases hx with h | h <;> exact ht (by rw [h]; decide)
    | cons y r =>
      have hrest : rest = r.reverse ++ [y] := by simpa using congrArg List.reverse hr
      rw [hrest] at h1
      have h4 : b.reverse = html ++ x :: r.reverse := by
        have h5 : b.reverse ++ [t] = (html ++ x :: r.reverse) ++ [y] := by rw [h1]; simp
        exact List.append_inj_left' h5 (by simp)
      exact ⟨x, by rw [← List.mem_reverse, h4]; simp, hx⟩

/-! ## Lemmas about the search -/

theorem scanStart_suffix (ic : Bool) (l : List T) : ∀ o, (scanStart ic o l).2 <:+ l := by
  induction l with
  | nil => intro o; exact List.suffix_refl _
  | cons t r ih =>
    intro o
    rw [scanStart]
    split
    · exact List.suffix_refl _
    · split
      · split
        · exact List.suffix_refl _
        · exact (ih _).trans (List.suffix_cons ..)
      · split <;> exact (ih _).trans (List.suffix_cons ..)

theorem scanStart_open (ic : Bool) (l : List T) : ∀ o, (∃ x ∈ l, isOpen x) → ∃ x ∈ (scanStart ic o l).2, isOpen x := by
  induction l with
  | nil => intro o h; obtain ⟨x, hx, _⟩ := h; simp at hx
  | cons t r ih =>
    intro o h
    rw [scanStart]
    split
    · exact h
    · rename_i hs
      have hr : ∃ x ∈ r, isOpen x := by
        obtain ⟨x, hx, ho⟩ := h
        rcases List.mem_cons.1 hx with rfl | hx
        · exfalso
          apply hs
          rcases ho with h | h <;> (rw [h]; cases ic <;> decide)
        · exact ⟨x, hx, ho⟩
      split
      · split
        · exact h
        · exact ih _ hr
      · split <;> exact ih _ hr

theorem scanStart_nonneg (ic : Bool) (l : List T) : ∀ o : Int, o ≤ 0 → (scanStart ic o l).1 ≤ 1 := by
  induction l with
  | nil => intro o h; simp [scanStart]; omega
  | cons t r ih =>
    intro o h
    rw [scanStart]
    split
    · simp; omega
    · split
      · split
        · simp; omega
        · exact ih _ (by omega)
      · split
        · exact ih _ (by omega)
        · exact ih _ h

theorem typeAt_back (a : TA) {k : Nat} : a.typeAt (-(k : Int)) = kindAt a.back k := by
  cases k with
  | zero => rfl
  | succ k => rfl

theorem loop_drop (sk : Bool) (ks : List Tok) : ∀ (before : List T) (pos p : Nat),
    prependedLoop sk ks before pos = some (some p) → ∀ x ∈ before, x.kind ∉ ks → x.kind ≠ .WHITESPACE →
      x ∈ before.drop (p - pos) := by
  induction ks with
  | nil => intro before pos p h x hx _ _; simp [prependedLoop] at h; subst h; simpa using hx
  | cons k ks ih =>
    intro before pos p h x hx hxk hxw
    have hp := loop_pos _ _ _ _ _ h
    cases before with
    | nil => simp at hx
    | cons b bs =>
      simp only [List.mem_cons, not_or] at hxk
      simp only [prependedLoop] at h
      split at h
      · rename_i hw
        simp at hw
        cases bs with
        | nil => simp at h
        | cons b2 bs2 =>
          simp only at h
          split at h
          · rename_i hk2
            have := loop_pos _ _ _ _ _ h
            have hm : x ∈ bs2 := by
              rcases List.mem_cons.1 hx with rfl | hx
              · exact absurd hw.2 hxw
              · rcases List.mem_cons.1 hx with rfl | hx
                · exact absurd (beq_iff_eq.1 hk2) hxk.1
                · exact hx
            have h2 := ih _ _ _ h x hm hxk.2 hxw
            have : p - pos = (p - (pos + 2)) + 2 := by omega
            rw [this]; simpa using h2
          · simp at h
      · split at h
        · rename_i hk2
          have := loop_pos _ _ _ _ _ h
          have hm : x ∈ bs := by
            rcases List.mem_cons.1 hx with rfl | hx
            · exact absurd (beq_iff_eq.1 hk2) hxk.1
            · exact hx
          have h2 := ih _ _ _ h x hm hxk.2 hxw
          have : p - pos = (p - (pos + 1)) + 1 := by omega
          rw [this]; simpa using h2
        · simp at h

/-- Where the search starts there is an open tag before it. -/
theorem searchFrom_ok {ic : Bool} {t : T} {b : List T} (hob : OB (t :: b)) (hf : First (t :: b))
    (hcur : ic = true → t.kind ∉ firstKinds) (hin : ∃ x ∈ t :: b, isOpen x) :
    ∃ f, searchFrom ic (t :: b) = some f ∧ (ic = true → 1 ≤ f) ∧ (ic = false → f = 0) ∧
      ∃ x ∈ (t :: b).drop f, isOpen x := by
  cases ic with
  | false => exact ⟨0, rfl, by simp, by simp, by simpa using hin⟩
  | true =>
    have hc := hcur rfl
    obtain ⟨x, hx, hxo⟩ := hob.open_before hc
    have hs := prependedBy_safe true [.STRING, .NEW] hf (by decide) (Or.inl (by decide))
    cases hp : prependedBy (t :: b) [.STRING, .NEW] true with
    | none => exact absurd hp hs
    | some c =>
      cases c with
      | none => exact ⟨1, by simp [searchFrom, hp], by simp, by simp, x, by simpa using hx, hxo⟩
      | some p =>
        have hpos := prependedBy_pos hp
        refine ⟨p, by simp [searchFrom, hp], fun _ => by omega, by simp, x, ?_, hxo⟩
        unfold prependedBy at hp
        split at hp
        · simp at hp
        · have := loop_drop _ _ _ _ _ hp x (by simpa using hx)
            (by rcases hxo with h | h <;> (rw [h]; decide)) (by rcases hxo with h | h <;> (rw [h]; decide))
          have h1 : p = (p - 1) + 1 := by omega
          rw [h1]; simpa using this

theorem suffix_of_length {α : Type} {a b l : List α} (ha : a <:+ l) (hb : b <:+ l) (h : a.length ≤ b.length) : a <:+ b := by
  rcases List.suffix_or_suffix_of_suffix ha hb with h1 | h1
  · exact h1
  · have := h1.eq_of_length (by have := h1.length_le; omega)
    rw [this]; exact List.suffix_refl _

/-- What the token after the current one has to be for member access: the operator. -/
def AfterOperator (a : TA) : Prop := ∃ t r, a.ahead = t :: r ∧ t.kind ≠ .WHITESPACE ∧ t.kind ≠ .RETURN

theorem skipLead_bounds (a : TA) (ic : Bool) (s : Int) (hs : s ≤ 1) (hic : ic = true → s ≤ 0)
    (hcall : ic = true → a.type = .LPAREN) (hmem : ic = false → AfterOperator a) :
    s ≤ skipLead a s ∧ skipLead a s ≤ 1 ∧ (ic = true → skipLead a s ≤ 0) := by
  have h0 : ic = true → a.typeAt 0 ≠ .WHITESPACE ∧ a.typeAt 0 ≠ .RETURN := by
    intro h
    have : a.typeAt 0 = .LPAREN := hcall h
    rw [this]; decide
  have h1 : ic = false → a.typeAt 1 ≠ .WHITESPACE ∧ a.typeAt 1 ≠ .RETURN := by
    intro h
    obtain ⟨t, r, ha, h1, h2⟩ := hmem h
    have : a.typeAt 1 = t.kind := by show kindAt a.ahead 0 = _; rw [ha]; rfl
    rw [this]; exact ⟨h1, h2⟩
  have key : ∀ s : Int, s ≤ 1 → (ic = true → s ≤ 0) → (a.typeAt s = .WHITESPACE ∨ a.typeAt s = .RETURN) →
      s + 1 ≤ 1 ∧ (ic = true → s + 1 ≤ 0) := by
    intro s h2 h3 h4
    cases ic with
    | true =>
      have := h3 rfl
      have : s ≠ 0 := by rintro rfl; have := h0 rfl; rcases h4 with h | h <;> simp_all
      exact ⟨by omega, fun _ => by omega⟩
    | false =>
      have : s ≠ 1 := by rintro rfl; have := h1 rfl; rcases h4 with h | h <;> simp_all
      exact ⟨by omega, by simp⟩
  unfold skipLead
  simp only
  have step1 : s ≤ (if a.typeAt s = .WHITESPACE then s + 1 else s) ∧
      (if a.typeAt s = .WHITESPACE then s + 1 else s) ≤ 1 ∧
      (ic = true → (if a.typeAt s = .WHITESPACE then s + 1 else s) ≤ 0) := by
    split
    · rename_i h; have := key s hs hic (Or.inl h); exact ⟨by omega, this.1, this.2⟩
    · exact ⟨by omega, hs, hic⟩
  generalize (if a.typeAt s = .WHITESPACE then s + 1 else s) = s1 at step1 ⊢
  obtain ⟨g1, g2, g3⟩ := step1
  split
  · rename_i h
    have h5 := key s1 g2 g3 (Or.inr h)
    split
    · rename_i h6
      have h7 := key (s1 + 1) h5.1 h5.2 (Or.inl h6)
      exact ⟨by omega, by omega, fun h => by have := h7.2 h; omega⟩
    · exact ⟨by omega, h5.1, h5.2⟩
  · exact ⟨g1, g2, g3⟩

theorem findStart_ok {ic : Bool} {a : TA} (hob : OB a.back) (hf : First a.back) (hin : ∃ x ∈ a.back, isOpen x)
    (hcall : ic = true → a.type = .LPAREN) (hmem : ic = false → AfterOperator a) :
    ∃ s o, findStart ic a = some (s, o) ∧ (0 ≤ o → s ≤ 1 ∧ (ic = true → s ≤ 0) ∧
      ∃ rest, rest <:+ a.back ∧ (∃ x ∈ rest, isOpen x) ∧ (rest.length : Int) + 1 ≤ a.back.length + s) := by
  obtain ⟨back, ahead⟩ := a
  cases back with
  | nil => exact absurd rfl hf.1
  | cons t b =>
    obtain ⟨f, hf1, hf2, hf3, hf4⟩ := searchFrom_ok (ic := ic) hob hf
      (fun h => by have : t.kind = .LPAREN := hcall h; rw [this]; decide) hin
    have hsuf := scanStart_suffix ic ((t :: b).drop f) 0
    have hopen := scanStart_open ic ((t :: b).drop f) 0 hf4
    cases hsc : scanStart ic 0 ((t :: b).drop f) with
    | mk o rest =>
      rw [hsc] at hsuf hopen
      simp only at hsuf hopen
      have hrb : rest <:+ t :: b := hsuf.trans (List.drop_suffix ..)
      have hle := hrb.length_le
      have hle2 := hsuf.length_le
      rw [List.length_drop] at hle2
      refine ⟨if o < 0 then 0 else skipLead ⟨t :: b, ahead⟩ (1 - (((t :: b).length - rest.length : Nat) : Int)), o,
        by simp only [findStart, hf1, hsc, Option.bind_eq_bind, Option.bind_some], ?_⟩
      intro ho
      have hk : ic = true → 1 ≤ (t :: b).length - rest.length := by
        intro h
        have h1 := hf2 h
        obtain ⟨x, hx, _⟩ := hopen
        have : 0 < rest.length := List.length_pos_of_mem hx
        omega
      rw [if_neg (by omega)]
      have := skipLead_bounds ⟨t :: b, ahead⟩ ic (1 - (((t :: b).length - rest.length : Nat) : Int)) (by omega)
        (fun h => by have := hk h; omega) hcall hmem
      exact ⟨this.2.1, this.2.2, rest, hrb, hopen, by show (rest.length : Int) + 1 ≤ ((t :: b).length : Nat) + _; omega⟩

theorem enclosing_ok {ic : Bool} {a : TA} {s : Int} (hob : OB a.back) (hf : First a.back) (hs : s ≤ 1)
    (hic : ic = true → s ≤ 0) (hmem : ic = false → AfterOperator a)
    (hrest : ∃ rest, rest <:+ a.back ∧ (∃ x ∈ rest, isOpen x) ∧ (rest.length : Int) + 1 ≤ a.back.length + s) :
    ∃ r, enclosing a s = some r ∧ ∀ p, r = .parent p → p.type = .LPAREN ∧ p.back <:+ a.back ∧
      (ic = true → p.back.length < a.back.length) ∧ ∃ n, prependedBy p.back [.STRING] true = some (some n) := by
  obtain ⟨rest, hr1, ⟨x, hx, hxo⟩, hr3⟩ := hrest
  have hrl : 0 < rest.length := List.length_pos_of_mem hx
  -- the first move
  have hmove : ∃ b, a.moveTo s = some b ∧ ∃ y b', b.back = y :: b' ∧ b' <:+ a.back ∧
      (b'.length : Int) = a.back.length + s - 1 := by
    unfold TA.moveTo
    split
    · rename_i h0
      have hlen : (a.back.drop (-s).toNat).length = a.back.length - (-s).toNat := List.length_drop ..
      have : ¬ (a.back.drop (-s).toNat).length ≤ 1 := by omega
      simp only [if_neg this]
      refine ⟨_, rfl, ?_⟩
      cases hd : a.back.drop (-s).toNat with
      | nil => rw [hd] at hlen; simp at hlen; omega
      | cons y b' =>
        refine ⟨y, b', rfl, ?_, ?_⟩
        · exact (List.suffix_cons y b').trans (hd ▸ List.drop_suffix ..)
        · rw [hd] at hlen; simp only [List.length_cons] at hlen; omega
    · rename_i h0
      have : s = 1 := by omega
      subst this
      have hicf : ic = false := by
        cases ic with
        | false => rfl
        | true => have := hic rfl; omega
      obtain ⟨t, r, ha, _⟩ := hmem hicf
      have hbl : 1 ≤ a.back.length := by have := hr1.length_le; omega
      have hal : (1 : Int).toNat ≤ a.ahead.length ∧ 1 ≤ a.back.length := ⟨by rw [ha]; simp, hbl⟩
      simp only [if_pos hal]
      refine ⟨_, rfl, t, a.back, by rw [ha]; rfl, List.suffix_refl _, by omega⟩
  obtain ⟨b, hb, y, b', hbb, hbs, hbl⟩ := hmove
  have hrb : rest <:+ b' := suffix_of_length hr1 hbs (by omega)
  have hxb : x ∈ b' := hrb.subset hx
  have hobb : OB b' := hob.suffix hbs
  have hfb : First b' := hf.suffix hbs (by intro h; rw [h] at hxb; simp at hxb)
  have hbase : b.typeAt (-1) = kindAt b' 0 := by
    show kindAt b.back 1 = _
    rw [hbb]; rfl
  simp only [enclosing, hb, Option.bind_eq_bind, Option.bind_some]
  by_cases hk : b.typeAt (-1) = .LPAREN ∨ b.typeAt (-1) = .COMMA
  · rw [if_pos hk]
    rw [hbase] at hk
    cases b' with
    | nil => simp at hxb
    | cons t b2 =>
      have htk : t.kind = .LPAREN ∨ t.kind = .COMMA := hk
      have htf : t.kind ∉ firstKinds := by rcases htk with h | h <;> (rw [h]; decide)
      obtain ⟨z, hz, hzo⟩ := hobb.open_before htf
      have hz2 : 0 < b2.length := List.length_pos_of_mem hz
      have hmv : b.moveTo (-1) = some ⟨t :: b2, y :: b.ahead⟩ := by
        have h1 : ¬ ((y :: t :: b2).drop 1).length ≤ 1 := by show ¬ b2.length + 1 ≤ 1; omega
        simp only [TA.moveTo, hbb]
        rw [if_pos (by decide)]
        have h2 : (-(-1 : Int)).toNat = 1 := by decide
        simp only [h2, if_neg h1]
        rfl
      rw [hmv]
      simp only [Option.bind_some]
      have hty : (TA.mk (t :: b2) (y :: b.ahead)).type = t.kind := rfl
      rw [hty]
      generalize hc' : (if t.kind = .COMMA then (⟨removeOtherArguments (t :: b2), []⟩ : TA) else ⟨t :: b2, y :: b.ahead⟩) = c'
      have hc : (c'.type = .LPAREN ∨ c'.type = .INVALID) ∧ c'.back <:+ t :: b2 := by
        subst hc'
        split
        · exact ⟨removeOther_kind _ 0, (enclosing_call_bounds (t :: b2) (by simp)).2⟩
        · rename_i hn
          refine ⟨Or.inl ?_, List.suffix_refl _⟩
          rcases htk with h | h
          · exact h
          · exact absurd h hn
      rcases hc.1 with hl | hi
      · rw [if_neg (by rw [hl]; decide)]
        obtain ⟨cb, ca⟩ := c'
        cases cb with
        | nil => simp [TA.type, kindAt] at hl
        | cons q cb =>
          have hql : q.kind = .LPAREN := hl
          have hfc : First (q :: cb) := hfb.suffix hc.2 (by simp)
          have hsafe := prependedBy_safe true [.STRING] hfc (by decide) (Or.inr (by rw [hql]; decide))
          cases hp : prependedBy (q :: cb) [.STRING] true with
          | none => exact absurd hp hsafe
          | some n =>
            simp only [Option.bind_some]
            cases n with
            | none => exact ⟨.done, by simp, by simp⟩
            | some n =>
              refine ⟨.parent ⟨q :: cb, ca⟩, by simp, ?_⟩
              intro p hp2
              cases hp2
              refine ⟨hql, hc.2.trans hbs, ?_, n, hp⟩
              intro h
              have h1 := hic h
              have h2 := hc.2.length_le
              omega
      · rw [if_pos hi]; exact ⟨.invalid, rfl, by simp⟩
  · rw [if_neg hk]; exact ⟨.done, rfl, by simp⟩

/-- One round stays within the stream, and a parent context stands at an opening parenthesis further back which is
preceded by a name. -/
theorem round_ok (u : CharClass) (w : Oracle) {ic : Bool} (st : Bool) {a : TA} (hob : OB a.back) (hf : First a.back)
    (hin : ∃ x ∈ a.back, isOpen x) (hcall : ic = true → a.type = .LPAREN) (hmem : ic = false → AfterOperator a) :
    ∃ r, evaluateRound u w ic st a = some r ∧ ∀ p, r = .parent p → p.type = .LPAREN ∧ p.back <:+ a.back ∧
      (ic = true → p.back.length < a.back.length) ∧ ∃ n, prependedBy p.back [.STRING] true = some (some n) := by
  obtain ⟨s, o, hfs, hb⟩ := findStart_ok hob hf hin hcall hmem
  simp only [evaluateRound, hfs, Option.bind_eq_bind, Option.bind_some]
  by_cases ho : o < 0
  · rw [if_pos ho]; exact ⟨.invalid, rfl, by simp⟩
  · rw [if_neg ho]
    obtain ⟨hs, hic, hrest⟩ := hb (by omega)
    have henc := enclosing_ok hob hf hs hic hmem hrest
    obtain ⟨rest, hr1, ⟨x, hx, _⟩, hr3⟩ := hrest
    have hrl : 0 < rest.length := List.length_pos_of_mem hx
    split
    · split
      · exact ⟨.invalid, rfl, by simp⟩
      · have : ∃ n, nameAt a s = some n := by
          unfold nameAt
          split
          · have : (-s).toNat < a.back.length := by omega
            exact ⟨_, by simp [stringBack, List.getElem?_eq_getElem this]; rfl⟩
          · have hicf : ic = false := by
              cases ic with
              | false => rfl
              | true => have := hic rfl; omega
            obtain ⟨t, r, ha, _⟩ := hmem hicf
            have h1 : s = 1 := by omega
            subst h1
            exact ⟨t.text, by simp [stringBack, ha]⟩
        obtain ⟨n, hn⟩ := this
        rw [hn]
        simp only [Option.bind_some]
        split
        · exact ⟨.invalid, rfl, by simp⟩
        · exact henc
    · have : (1 - s).toNat ≤ a.back.length := by omega
      obtain ⟨e, he⟩ : ∃ e, expressionText u ic a s o = some e := by
        simp only [expressionText, if_pos this]; exact ⟨_, rfl⟩
      rw [he]
      simp only [Option.bind_some]
      split
      · cases ic
        · exact ⟨.invalid, rfl, by simp⟩
        · exact ⟨.done, rfl, by simp⟩
      · exact henc

/-! ## The chain of contexts -/

/-- completion/context.cpp:781-961 with the constructor for parents (:769-779): the positions of the opening
parentheses of the chain of parent contexts, nearest first, as numbers of tokens up to them. The second argument bounds
the number of contexts; `chain_total` shows that the number of tokens is enough. -/
def chain (u : CharClass) (w : Oracle) : Nat → Bool → Bool → TA → Option (List (List T))
  | 0, _, _, _ => none
  | n + 1, ic, st, a => do
    let r ← evaluateRound u w ic st a
    match r with
    | .parent p => do
      let l ← chain u w n true false p
      some (p.back :: l)
    | _ => some []

/-- The parenthesis at the end of `toks` is preceded by a name. -/
def CallParen (back : List T) : Prop :=
  ∃ p n pre, p.kind = .LPAREN ∧ n.kind = .STRING ∧
    (back = p :: n :: pre ∨ ∃ w, w.kind = .WHITESPACE ∧ back = p :: w :: n :: pre)

theorem callParen_of {back : List T} {n : Nat} (hl : kindAt back 0 = .LPAREN)
    (h : prependedBy back [.STRING] true = some (some n)) : CallParen back := by
  cases back with
  | nil => simp [kindAt] at hl
  | cons p b =>
    have hp : p.kind = .LPAREN := hl
    unfold prependedBy at h
    split at h
    · simp at h
    · simp only [List.tail_cons] at h
      cases b with
      | nil => simp [prependedLoop] at h
      | cons x b =>
        simp only [prependedLoop] at h
        split at h
        · rename_i hw
          simp at hw
          cases b with
          | nil => simp at h
          | cons y b =>
            simp only at h
            split at h
            · rename_i hy
              exact ⟨p, y, b, hp, beq_iff_eq.1 hy, Or.inr ⟨x, hw, rfl⟩⟩
            · simp at h
        · split at h
          · rename_i hx
            exact ⟨p, x, b, hp, beq_iff_eq.1 hx, Or.inl rfl⟩
          · simp at h

/-- each is strictly before the previous one -/
def Descending : Nat → List (List T) → Prop
  | _, [] => True
  | n, x :: l => x.length < n ∧ Descending x.length l

theorem chain_total (u : CharClass) (w : Oracle) : ∀ (n : Nat) (st : Bool) (a : TA), OB a.back → First a.back →
    (∃ x ∈ a.back, isOpen x) → a.type = .LPAREN → a.back.length ≤ n →
    ∃ l, chain u w n true st a = some l ∧ Descending a.back.length l ∧ ∀ b ∈ l, CallParen b ∧ b <:+ a.back := by
  intro n
  induction n with
  | zero => intro st a _ hf _ _ hn; exact absurd (List.length_eq_zero_iff.1 (by omega)) hf.1
  | succ n ih =>
    intro st a hob hf hin ht hn
    obtain ⟨r, hr, hp⟩ := round_ok u w (ic := true) st hob hf hin (fun _ => ht) (by simp)
    simp only [chain, hr, Option.bind_eq_bind, Option.bind_some]
    cases r with
    | invalid => exact ⟨[], rfl, trivial, by simp⟩
    | done => exact ⟨[], rfl, trivial, by simp⟩
    | parent p =>
      obtain ⟨h1, h2, h3, m, h4⟩ := hp p rfl
      have h5 := h3 rfl
      have hpne : p.back ≠ [] := by intro h; simp [TA.type, kindAt, h] at h1
      have hobp := hob.suffix h2
      have hinp : ∃ x ∈ p.back, isOpen x := by
        cases hpb : p.back with
        | nil => exact absurd hpb hpne
        | cons t b =>
          rw [hpb] at hobp
          have htk : t.kind = .LPAREN := by simpa [TA.type, kindAt, hpb] using h1
          obtain ⟨x, hx, ho⟩ := hobp.open_before (by rw [htk]; decide)
          exact ⟨x, by simp [hx], ho⟩
      obtain ⟨l, hl1, hl2, hl3⟩ := ih false p hobp (hf.suffix h2 hpne) hinp h1 (by omega)
      simp only [hl1, Option.bind_some]
      refine ⟨p.back :: l, rfl, ⟨h5, hl2⟩, ?_⟩
      intro b hb
      rcases List.mem_cons.1 hb with rfl | hb
      · exact ⟨callParen_of h1 h4, h2⟩
      · exact ⟨(hl3 b hb).1, (hl3 b hb).2.trans h2⟩

/-- What the analysis leaves behind for calls and member access; `R` are the tokens of the text, the last one first. -/
def Shape (R : List T) (x : Option Analysis) : Prop := ∀ a, x = some a → a.valid = true →
  (a.op = .FunctionCallAccess → kindAt a.back 0 = .LPAREN ∧ a.back <:+ R) ∧
  (a.op = .MemberAccess ∨ a.op = .StaticMemberAccess →
    ∃ t, (t.kind = .OBJECT_OPERATOR ∨ t.kind = .PAAMAYIM_NEKUDOTAYIM) ∧ t :: a.back <:+ R)

theorem Shape.ite {R : List T} {c : Prop} [Decidable c] {x y : Option Analysis} (h1 : c → Shape R x)
    (h2 : ¬ c → Shape R y) : Shape R (if c then x else y) := by
  split
  · exact h1 ‹_›
  · exact h2 ‹_›

/-- neither a call nor member access -/
def Other (o : Operation) : Prop := o ≠ .FunctionCallAccess ∧ o ≠ .MemberAccess ∧ o ≠ .StaticMemberAccess

theorem Shape.other {R : List T} {x : Option Analysis} (h : ∀ a, x = some a → a.valid = true → Other a.op) : Shape R x := by
  intro a ha hv
  obtain ⟨h1, h2, h3⟩ := h a ha hv
  exact ⟨fun h => absurd h h1, fun h => by rcases h with h | h <;> contradiction⟩

theorem Shape.invalid {R : List T} {a : Analysis} (h : a.valid = false) : Shape R (some a) := by
  intro b hb hv
  cases hb
  rw [h] at hv; cases hv

theorem afterExtends_other {u : CharClass} {l : List T} {a : Analysis} (h : afterExtends u l = some a)
    (hv : a.valid = true) : Other a.op := by
  simp only [afterExtends, Option.bind_eq_bind] at h
  obtain ⟨c, _, h⟩ := Option.bind_eq_some_iff.1 h
  split at h
  · obtain ⟨s, _, h⟩ := Option.bind_eq_some_iff.1 h
    cases h; simp [Other]
  · obtain ⟨i, _, h⟩ := Option.bind_eq_some_iff.1 h
    split at h
    · obtain ⟨s, _, h⟩ := Option.bind_eq_some_iff.1 h
      cases h; simp [Other]
    · cases h; cases hv

theorem afterImplements_other {u : CharClass} {l : List T} {a : Analysis} (h : afterImplements u l = some a)
    (hv : a.valid = true) : Other a.op := by
  simp only [afterImplements, Option.bind_eq_bind] at h
  obtain ⟨c, _, h⟩ := Option.bind_eq_some_iff.1 h
  split at h
  · obtain ⟨s, _, h⟩ := Option.bind_eq_some_iff.1 h
    cases h; simp [Other]
  · cases h; cases hv

theorem afterNew_other {l : List T} {a : Analysis} (h : afterNew l = some a) : Other a.op := by
  simp only [afterNew, Option.bind_eq_bind] at h
  obtain ⟨c, _, h⟩ := Option.bind_eq_some_iff.1 h
  cases h
  show Other (if c.isSome then _ else _)
  split <;> simp [Other]

theorem afterLiteral_other {u : CharClass} {l : List T} {a : Analysis} (h : afterLiteral u l = some a)
    (hv : a.valid = true) : Other a.op := by
  simp only [afterLiteral, Option.bind_eq_bind] at h
  obtain ⟨⟨p, f⟩, _, h⟩ := Option.bind_eq_some_iff.1 h
  simp only at h
  generalize hc : includeTokens.contains _ = c at h
  cases c
  · cases h; cases hv
  · cases h; simp [Other]

theorem afterComment_other {w : Bool} {l : List T} {a : Analysis} (h : afterComment w l = some a) : Other a.op := by
  simp only [afterComment, Option.bind_eq_bind] at h
  obtain ⟨s, _, h⟩ := Option.bind_eq_some_iff.1 h
  cases h; simp [Other]

theorem tail_shape {k : Tok} {R back : List T} (hk : kindAt back 0 = k)
    (hk2 : k = .OBJECT_OPERATOR ∨ k = .PAAMAYIM_NEKUDOTAYIM) (hs : back <:+ R) :
    ∃ t : T, (t.kind = .OBJECT_OPERATOR ∨ t.kind = .PAAMAYIM_NEKUDOTAYIM) ∧ t :: back.tail <:+ R := by
  cases back with
  | nil => simp [kindAt] at hk; subst hk; simp at hk2
  | cons t b =>
    have : t.kind = k := hk
    exact ⟨t, by rw [this]; exact hk2, hs⟩

theorem normal_other (c : Bool) : Other (if c then .ClassMemberChoose else .NoMemberAccess) := by
  cases c <;> simp [Other]

theorem analyseToken_shape (u : CharClass) (inClass following wasWs : Bool) (R back : List T) (hs : back <:+ R)
    (hne : back ≠ []) : Shape R (analyseToken u inClass following wasWs back) := by
  unfold analyseToken
  simp only
  refine Shape.ite (fun _ => .other fun a h _ => afterComment_other h) fun _ => ?_
  refine Shape.ite (fun _ => Shape.ite (fun _ => .other fun a h hv => afterExtends_other h hv) fun _ => .invalid rfl) fun _ => ?_
  refine Shape.ite (fun _ => Shape.ite (fun _ => .other fun a h hv => afterImplements_other h hv) fun _ => .invalid rfl) fun _ => ?_
  refine Shape.ite (fun _ => ?_) fun _ => ?_
  · unfold afterComma
    split
    · exact .other fun a h _ => by cases h; simp [Other]
    · intro a h hv
      cases h
      simp only [bne_iff_ne, ne_eq] at hv
      refine ⟨fun _ => ⟨?_, (enclosing_call_bounds back hne).2.trans hs⟩, fun h => by simp at h⟩
      rcases removeOther_kind back.tail 0 with h | h
      · exact h
      · exact absurd h hv
  refine Shape.ite (fun _ => Shape.ite (fun _ => .invalid rfl) fun _ => .other fun a h _ => by cases h; simp [Other]) fun _ => ?_
  refine Shape.ite (fun hk a h _ => ?_) fun _ => ?_
  · cases h
    exact ⟨by simp, fun _ => tail_shape hk (Or.inl rfl) hs⟩
  refine Shape.ite (fun hk a h _ => ?_) fun _ => ?_
  · cases h
    exact ⟨by simp, fun _ => tail_shape hk (Or.inr rfl) hs⟩
  refine Shape.ite (fun hk => ?_) fun _ => ?_
  · unfold afterLParen
    simp only
    split
    · exact .other fun a h _ => by cases h; simp [Other]
    · split
      · exact .other fun a h _ => by cases h; simp [Other]
      · intro a h _
        cases h
        exact ⟨fun _ => ⟨hk, hs⟩, by simp⟩
  refine Shape.ite (fun _ => Shape.ite (fun _ => .other fun a h _ => afterNew_other h) fun _ => .invalid rfl) fun _ => ?_
  refine Shape.ite (fun _ => Shape.ite (fun _ => .other fun a h _ => by cases h; simp [Other]) fun _ => .invalid rfl) fun _ => ?_
  refine Shape.ite (fun _ => .other fun a h hv => afterLiteral_other h hv) fun _ => ?_
  refine Shape.ite (fun _ => .other fun a h _ => by cases h; simp [Other]) fun _ => ?_
  refine Shape.ite (fun _ => .other fun a h _ => by cases h; exact normal_other _) fun _ => ?_
  refine Shape.ite (fun _ => Shape.ite (fun _ => .other fun a h _ => by cases h; exact normal_other _) fun _ => .invalid rfl) fun _ => ?_
  refine Shape.ite (fun _ => .other fun a h _ => ?_) fun _ => .invalid rfl
  cases h
  simp only [afterNamespace]
  split <;> simp [Other]

theorem analyse_shape (u : CharClass) (inClass following openComment : Bool) (toks : List T) :
    Shape toks.reverse (analyse u inClass following openComment toks) := by
  unfold analyse
  split
  · intro a h; cases h
  · rename_i t b hr
    simp only
    refine Shape.ite (fun _ => .invalid rfl) fun _ => ?_
    generalize hb : (if (t.kind == Tok.WHITESPACE) = true then b else t :: b) = back
    have hs : back <:+ toks.reverse := by
      rw [hr]; subst hb
      split
      · exact List.suffix_cons ..
      · exact List.suffix_refl _
    cases hat : analyseToken u inClass following (t.kind == .WHITESPACE) back with
    | none => intro a h; cases h
    | some a =>
      have hsh : back ≠ [] → Shape toks.reverse (some a) := fun hne =>
        hat ▸ analyseToken_shape u inClass following _ _ back hs hne
      have hsh2 : Shape toks.reverse (some a) := by
        by_cases hne : back = []
        · subst hne
          simp [analyseToken, kindAt, normalTokens, modifierTokens] at hat
          subst hat
          exact .invalid rfl
        · exact hsh hne
      simp only
      refine Shape.ite (fun _ => hsh2) fun _ => Shape.ite (fun _ a h => by cases h) fun _ => hsh2

/-- completion/context.cpp:243-779 and 781-961: the parent contexts created for the text before the cursor, as the
tokens up to their parenthesis. `none`: a read or move outside of the token stream. -/
def contexts (u : CharClass) (w : Oracle) (inClass following openComment : Bool) (toks : List T) :
    Option (List (List T)) := do
  let a ← analyse u inClass following openComment toks
  if !a.valid || a.early then some []
  else match a.op with
    | .FunctionCallAccess => do                                                        -- :741-761
      let p ← prependedBy a.back [.STRING] true
      let q ← prependedBy a.back [.VARIABLE] true
      if p.isNone && q.isNone then some []
      else do
        let l ← chain u w toks.length true false ⟨a.back, toks.drop a.back.length⟩
        some (a.back :: l)
    | .MemberAccess => chain u w (toks.length + 1) false false ⟨a.back, toks.drop a.back.length⟩
    | .StaticMemberAccess => chain u w (toks.length + 1) false true ⟨a.back, toks.drop a.back.length⟩
    | _ => some []

theorem drop_of_suffix {toks back : List T} {t : T} (h : t :: back <:+ toks.reverse) :
    ∃ r, toks.drop back.length = t :: r := by
  obtain ⟨p, hp⟩ := h
  have : toks = back.reverse ++ t :: p.reverse := by
    have := congrArg List.reverse hp
    simpa using this.symm
  refine ⟨p.reverse, ?_⟩
  rw [this]
  have : back.length = back.reverse.length := by simp
  rw [this, List.drop_left]

theorem member_chain (u : CharClass) (w : Oracle) (st : Bool) (toks back : List T) (t : T) (h : Opened toks)
    (ht : t.kind = .OBJECT_OPERATOR ∨ t.kind = .PAAMAYIM_NEKUDOTAYIM) (hs : t :: back <:+ toks.reverse) :
    ∃ l, chain u w (toks.length + 1) false st ⟨back, toks.drop back.length⟩ = some l ∧ Descending toks.length l ∧
      ∀ b ∈ l, CallParen b ∧ b <:+ toks.reverse := by
  have htf : t.kind ∉ firstKinds := by rcases ht with h | h <;> (rw [h]; decide)
  have hob1 := h.ob.suffix hs
  have hin := hob1.open_before htf
  have hne : toks.reverse ≠ [] := by simp [h.1]
  have hF : First toks.reverse := ⟨hne, by
    intro t ht
    rw [List.getLast?_reverse] at ht
    exact h.first t ht⟩
  have hbs : back <:+ toks.reverse := (List.suffix_cons ..).trans hs
  have hbne : back ≠ [] := by rintro rfl; obtain ⟨x, hx, _⟩ := hin; simp at hx
  have hf := hF.suffix hbs hbne
  have hob := h.ob.suffix hbs
  obtain ⟨r, hr⟩ := drop_of_suffix hs
  have hlen : back.length < toks.length := by
    have := hs.length_le; simp only [List.length_cons, List.length_reverse] at this; omega
  obtain ⟨x, hx, hp⟩ := round_ok u w (ic := false) (a := ⟨back, toks.drop back.length⟩) st hob hf hin (by simp)
    (fun _ => ⟨t, r, hr, by rcases ht with h | h <;> (rw [h]; decide), by rcases ht with h | h <;> (rw [h]; decide)⟩)
  simp only [chain, hx, Option.bind_eq_bind, Option.bind_some]
  cases x with
  | invalid => exact ⟨[], rfl, trivial, by simp⟩
  | done => exact ⟨[], rfl, trivial, by simp⟩
  | parent p =>
    obtain ⟨h1, h2, _, m, h4⟩ := hp p rfl
    have hpne : p.back ≠ [] := by intro h; simp [TA.type, kindAt, h] at h1
    have hobp := hob.suffix h2
    have hinp : ∃ x ∈ p.back, isOpen x := by
      cases hpb : p.back with
      | nil => exact absurd hpb hpne
      | cons t b =>
        rw [hpb] at hobp
        have htk : t.kind = .LPAREN := by simpa [TA.type, kindAt, hpb] using h1
        obtain ⟨x, hx, ho⟩ := hobp.open_before (by rw [htk]; decide)
        exact ⟨x, by simp [hx], ho⟩
    have h2l := h2.length_le
    obtain ⟨l, hl1, hl2, hl3⟩ := chain_total u w toks.length false p hobp (hf.suffix h2 hpne) hinp h1 (by
      simp only at h2l; omega)
    simp only [hl1, Option.bind_some]
    refine ⟨p.back :: l, rfl, ⟨by simp only at h2l; omega, hl2⟩, ?_⟩
    intro b hb
    rcases List.mem_cons.1 hb with rfl | hb
    · exact ⟨callParen_of h1 h4, h2.trans hbs⟩
    · exact ⟨(hl3 b hb).1, ((hl3 b hb).2.trans h2).trans hbs⟩

/-- **C50 (enclosing calls), C49.** For the tokens of every text the chain of parent contexts is finite and nothing
is read or moved outside of the stream; each parent stands at an opening parenthesis strictly before the previous one;
and, except for the first one which may also be a call of a variable, each is preceded by a name. -/
theorem parent_contexts (u : CharClass) (w : Oracle) (inClass following openComment : Bool) (toks : List T)
    (h : Opened toks) :
    ∃ l, contexts u w inClass following openComment toks = some l ∧ Descending (toks.length + 1) l ∧
      (∀ b ∈ l, b <:+ toks.reverse ∧ kindAt b 0 = .LPAREN) ∧ (∀ b ∈ l.tail, CallParen b) := by
  have hin := analysis_in_bounds u inClass following openComment toks h
  have hshape := analyse_shape u inClass following openComment toks
  have hcp : ∀ b, CallParen b → kindAt b 0 = .LPAREN := by
    rintro b ⟨p, n, pre, hp, _, rfl | ⟨w, _, rfl⟩⟩ <;> exact hp
  have hne : toks.reverse ≠ [] := by simp [h.1]
  have hF : First toks.reverse := ⟨hne, by
    intro t ht
    rw [List.getLast?_reverse] at ht
    exact h.first t ht⟩
  cases ha : analyse u inClass following openComment toks with
  | none => exact absurd ha hin
  | some a =>
    simp only [contexts, ha, Option.bind_eq_bind, Option.bind_some]
    by_cases hv : (!a.valid || a.early) = true
    · rw [if_pos hv]; exact ⟨[], rfl, trivial, by simp, by simp⟩
    · rw [if_neg hv]
      have hvalid : a.valid = true := by
        cases hav : a.valid
        · simp [hav] at hv
        · rfl
      have hsh := hshape a ha hvalid
      have member : ∀ st, (a.op = .MemberAccess ∨ a.op = .StaticMemberAccess) →
          ∃ l, chain u w (toks.length + 1) false st ⟨a.back, toks.drop a.back.length⟩ = some l ∧
            Descending (toks.length + 1) l ∧
            (∀ b ∈ l, b <:+ toks.reverse ∧ kindAt b 0 = .LPAREN) ∧ (∀ b ∈ l.tail, CallParen b) := by
        intro st hop
        obtain ⟨t, ht, hs⟩ := hsh.2 hop
        obtain ⟨l, h1, h2, h3⟩ := member_chain u w st toks a.back t h ht hs
        refine ⟨l, h1, ?_, fun b hb => ⟨(h3 b hb).2, hcp b (h3 b hb).1⟩, fun b hb => (h3 b (List.mem_of_mem_tail hb)).1⟩
        cases l with
        | nil => trivial
        | cons x l => exact ⟨by have := h2.1; omega, h2.2⟩
      have other : ∃ l, some ([] : List (List T)) = some l ∧ Descending (toks.length + 1) l ∧
            (∀ b ∈ l, b <:+ toks.reverse ∧ kindAt b 0 = .LPAREN) ∧ (∀ b ∈ l.tail, CallParen b) :=
        ⟨[], rfl, trivial, by simp, by simp⟩
      cases hop : a.op with
      | MemberAccess => exact member false (Or.inl hop)
      | StaticMemberAccess => exact member true (Or.inr hop)
      | FunctionCallAccess =>
        obtain ⟨hl, hs⟩ := hsh.1 hop
        have hbne : a.back ≠ [] := by intro h; simp [kindAt, h] at hl
        have hf := hF.suffix hs hbne
        have hob := h.ob.suffix hs
        have hlen := hs.length_le
        rw [List.length_reverse] at hlen
        obtain ⟨t, b, hb⟩ : ∃ t b, a.back = t :: b := by
          cases hb : a.back with
          | nil => exact absurd hb hbne
          | cons t b => exact ⟨t, b, rfl⟩
        have htk : t.kind = .LPAREN := by rw [hb] at hl; exact hl
        have htf : t.kind ∉ firstKinds := by rw [htk]; decide
        have hop : ∃ x ∈ a.back, isOpen x := by
          rw [hb] at hob ⊢
          obtain ⟨x, hx, ho⟩ := hob.open_before htf
          exact ⟨x, by simp [hx], ho⟩
        have hp1 : prependedBy a.back [.STRING] true ≠ none := by
          rw [hb] at hf ⊢; exact prependedBy_safe true _ hf (by decide) (Or.inr htf)
        have hp2 : prependedBy a.back [.VARIABLE] true ≠ none := by
          rw [hb] at hf ⊢; exact prependedBy_safe true _ hf (by decide) (Or.inr htf)
        obtain ⟨p, hp⟩ := Option.ne_none_iff_exists'.1 hp1
        obtain ⟨q, hq⟩ := Option.ne_none_iff_exists'.1 hp2
        obtain ⟨l, hl1, hl2, hl3⟩ := chain_total u w toks.length false ⟨a.back, toks.drop a.back.length⟩ hob hf hop hl hlen
        simp only [hp, hq, hl1, Option.bind_some]
        split
        · exact other
        · refine ⟨a.back :: l, rfl, ⟨by omega, hl2⟩, ?_, fun b hb => (hl3 b hb).1⟩
          intro b hb
          rcases List.mem_cons.1 hb with rfl | hb
          · exact ⟨hs, hl⟩
          · exact ⟨(hl3 b hb).2.trans hs, hcp b (hl3 b hb).1⟩
      | _ => exact other

/-- **C49, C50.** The same for the tokens the lexer gives for any non-empty text before the cursor. -/
theorem completion_contexts {u : CharClass} {c : QString} (hu : u.Lawful) (w : Oracle)
    (inClass following openComment : Bool) {toks : List (Tok × Nat × Nat)} (hc : c ≠ []) (h : LexerTokens u c false toks) :
    ∃ l, contexts u w inClass following openComment (withText c toks) = some l ∧
      Descending ((withText c toks).length + 1) l ∧
      (∀ b ∈ l, b <:+ (withText c toks).reverse ∧ kindAt b 0 = .LPAREN) ∧ (∀ b ∈ l.tail, CallParen b) :=
  parent_contexts u w _ _ _ _ (lexer_opened hu hc h)

/-- `<?php f(g($a->` -/
def nestedCalls : List T :=
  [⟨.OPEN_TAG, q! "<?php "⟩, ⟨.STRING, q! "f"⟩, ⟨.LPAREN, q! "("⟩, ⟨.STRING, q! "g"⟩, ⟨.LPAREN, q! "("⟩,
   ⟨.VARIABLE, q! "$a"⟩, ⟨.OBJECT_OPERATOR, q! "->"⟩]

/-- Two parent contexts: the call of `g` and the call of `f`. -/
example : Opened nestedCalls ∧
    contexts asciiClass ⟨fun _ => true, fun _ => true⟩ false false false nestedCalls =
      some [(nestedCalls.take 5).reverse, (nestedCalls.take 3).reverse] :=
  ⟨⟨by decide, [], nestedCalls, rfl, by simp, by decide⟩, by decide +kernel⟩

/-! ## The text of the expression -/

theorem scanStart_balanced (ic : Bool) {mid : List T} (hb : Balanced mid) : ∀ (o : Int) (rest : List T), o ≤ 0 →
    (∀ t ∈ mid, isStop ic t.kind = false) →
    scanStart ic o (mid.reverse ++ rest) = scanStart ic o rest := by
  induction hb with
  | nil => intro o rest _ _; rfl
  | tok t h =>
    intro o rest _ hn
    have := hn t (by simp)
    simp [scanStart, this, h.1, h.2.1]
  | paren l r hl hr hm ih =>
    intro o rest ho hn
    rename_i mid
    have h1 : isStop ic l.kind = false := hn l (by simp)
    have h2 : isStop ic r.kind = false := hn r (by simp)
    have e : (l :: mid ++ [r]).reverse ++ rest = r :: (mid.reverse ++ (l :: rest)) := by simp
    rw [e, scanStart, if_neg (by simp [h2]), if_neg (by rw [hr]; decide), if_pos hr,
      ih (o - 1) (l :: rest) (by omega) (fun t ht => hn t (by simp [ht])), scanStart, if_neg (by simp [h1]), if_pos hl,
      if_neg (by omega)]
    congr 1; omega
  | append ha hb iha ihb =>
    intro o rest ho hn
    rw [List.reverse_append, List.append_assoc, ihb o _ ho (fun t ht => hn t (by simp [ht])),
      iha o _ ho (fun t ht => hn t (by simp [ht]))]

/-- tokens that have no influence on the search -/
def neutral (ic : Bool) (t : T) : Prop := isStop ic t.kind = false ∧ t.kind ≠ .LPAREN ∧ t.kind ≠ .RPAREN

theorem scanStart_neutral (ic : Bool) (l : List T) : ∀ (o : Int) (rest : List T), (∀ t ∈ l, neutral ic t) →
    scanStart ic o (l ++ rest) = scanStart ic o rest := by
  induction l with
  | nil => intro o rest _; rfl
  | cons t l ih =>
    intro o rest h
    obtain ⟨h1, h2, h3⟩ := h t (by simp)
    rw [List.cons_append, scanStart, if_neg (by simp [h1]), if_neg h2, if_neg h3]
    exact ih o rest fun x hx => h x (by simp [hx])

/-- White space and `return` between the start of a statement and an expression. -/
def lead (a : Option QString) (r : Option (QString × Option QString)) : List T :=
  ws a ++ match r with
    | none => []
    | some (x, b) => T.mk .RETURN x :: ws b

theorem ws_mem {o : Option QString} {t : T} (h : t ∈ ws o) : t.kind = .WHITESPACE := by
  cases o with
  | none => simp [ws] at h
  | some x => simp [ws] at h; rw [h]

theorem lead_neutral (ic : Bool) {a : Option QString} {r : Option (QString × Option QString)} {t : T} (h : t ∈ lead a r) :
    neutral ic t := by
  have : t.kind = .WHITESPACE ∨ t.kind = .RETURN := by
    unfold lead at h
    rcases List.mem_append.1 h with h | h
    · exact Or.inl (ws_mem h)
    · cases r with
      | none => simp at h
      | some x =>
        obtain ⟨x, b⟩ := x
        rcases List.mem_cons.1 h with h | h
        · rw [h]; exact Or.inr rfl
        · exact Or.inl (ws_mem h)
  rcases this with h | h <;> (unfold neutral; rw [h]; cases ic <;> decide)

theorem typeAt_mid {a : TA} {q l : List T} {t : T} (h : a.back = (q ++ t :: l).reverse) :
    a.typeAt (-(l.length : Int)) = t.kind := by
  rw [typeAt_back, h]
  have : (q ++ t :: l).reverse = l.reverse ++ t :: q.reverse := by simp
  rw [this]
  unfold kindAt
  rw [List.getElem?_append_right (by simp)]
  simp

theorem skipLead_lead {A : TA} {pre mid : List T} (a : Option QString) (r : Option (QString × Option QString)) (m : T)
    (hm : m.kind ≠ .WHITESPACE ∧ m.kind ≠ .RETURN) (h : A.back = (pre ++ lead a r ++ m :: mid).reverse) :
    skipLead A (1 - (((lead a r).length + (mid.length + 1) : Nat) : Int)) = -(mid.length : Int) := by
  have last : A.typeAt (-(mid.length : Int)) = m.kind := typeAt_mid (q := pre ++ lead a r) (by rw [h])
  unfold skipLead
  cases a with
  | none =>
    cases r with
    | none =>
      simp only [lead, ws, List.append_nil, List.length_nil]
      have e : (1 : Int) - ((0 + (mid.length + 1) : Nat) : Int) = -(mid.length : Int) := by omega
      simp only [e, last, hm.1, hm.2, reduceCtorEq, if_true, if_false]
    | some x =>
      obtain ⟨x, b⟩ := x
      cases b with
      | none =>
        have h1 : A.typeAt (-((m :: mid).length : Int)) = .RETURN := typeAt_mid (q := pre) (t := T.mk .RETURN x) (by rw [h]; simp [lead, ws])
        have e : (1 : Int) - (((lead none (some (x, none))).length + (mid.length + 1) : Nat) : Int) =
            -((m :: mid).length : Int) := by simp [lead, ws]; omega
        have e2 : -((m :: mid).length : Int) + 1 = -(mid.length : Int) := by simp; omega
        simp only [e, h1, e2, last, hm.1, hm.2, reduceCtorEq, if_true, if_false]
      | some b =>
        have h1 : A.typeAt (-((T.mk .WHITESPACE b :: m :: mid).length : Int)) = .RETURN :=
          typeAt_mid (q := pre) (t := T.mk .RETURN x) (by rw [h]; simp [lead, ws])
        have h2 : A.typeAt (-((m :: mid).length : Int)) = .WHITESPACE :=
          typeAt_mid (q := pre ++ [T.mk .RETURN x]) (t := T.mk .WHITESPACE b) (by rw [h]; simp [lead, ws])
        have e : (1 : Int) - (((lead none (some (x, some b))).length + (mid.length + 1) : Nat) : Int) =
            -((T.mk .WHITESPACE b :: m :: mid).length : Int) := by simp [lead, ws]; omega
        have e2 : -((T.mk .WHITESPACE b :: m :: mid).length : Int) + 1 = -((m :: mid).length : Int) := by simp; omega
        have e3 : -((T.mk .WHITESPACE b :: m :: mid).length : Int) + 2 = -(mid.length : Int) := by simp; omega
        simp only [e, h1, e2, h2, e3, hm.1, hm.2, reduceCtorEq, if_true, if_false]
  | some w =>
    cases r with
    | none =>
      have h1 : A.typeAt (-((m :: mid).length : Int)) = .WHITESPACE :=
        typeAt_mid (q := pre) (t := T.mk .WHITESPACE w) (by rw [h]; simp [lead, ws])
      have e : (1 : Int) - (((lead (some w) none).length + (mid.length + 1) : Nat) : Int) =
          -((m :: mid).length : Int) := by simp [lead, ws]; omega
      have e2 : -((m :: mid).length : Int) + 1 = -(mid.length : Int) := by simp; omega
      simp only [e, h1, e2, last, hm.1, hm.2, reduceCtorEq, if_true, if_false]
    | some x =>
      obtain ⟨x, b⟩ := x
      cases b with
      | none =>
        have h0 : A.typeAt (-((T.mk .RETURN x :: m :: mid).length : Int)) = .WHITESPACE :=
          typeAt_mid (q := pre) (t := T.mk .WHITESPACE w) (by rw [h]; simp [lead, ws])
        have h1 : A.typeAt (-((m :: mid).length : Int)) = .RETURN :=
          typeAt_mid (q := pre ++ [T.mk .WHITESPACE w]) (t := T.mk .RETURN x) (by rw [h]; simp [lead, ws])
        have e : (1 : Int) - (((lead (some w) (some (x, none))).length + (mid.length + 1) : Nat) : Int) =
            -((T.mk .RETURN x :: m :: mid).length : Int) := by simp [lead, ws]; omega
        have e1 : -((T.mk .RETURN x :: m :: mid).length : Int) + 1 = -((m :: mid).length : Int) := by simp; omega
        have e2 : -((m :: mid).length : Int) + 1 = -(mid.length : Int) := by simp; omega
        simp only [e, h0, e1, h1, e2, last, hm.1, hm.2, reduceCtorEq, if_true, if_false]
      | some b =>
        have h0 : A.typeAt (-((T.mk .RETURN x :: T.mk .WHITESPACE b :: m :: mid).length : Int)) = .WHITESPACE :=
          typeAt_mid (q := pre) (t := T.mk .WHITESPACE w) (by rw [h]; simp [lead, ws])
        have h1 : A.typeAt (-((T.mk .WHITESPACE b :: m :: mid).length : Int)) = .RETURN :=
          typeAt_mid (q := pre ++ [T.mk .WHITESPACE w]) (t := T.mk .RETURN x) (by rw [h]; simp [lead, ws])
        have h2 : A.typeAt (-((m :: mid).length : Int)) = .WHITESPACE :=
          typeAt_mid (q := pre ++ [T.mk .WHITESPACE w, T.mk .RETURN x]) (t := T.mk .WHITESPACE b) (by rw [h]; simp [lead, ws])
        have e : (1 : Int) - (((lead (some w) (some (x, some b))).length + (mid.length + 1) : Nat) : Int) =
            -((T.mk .RETURN x :: T.mk .WHITESPACE b :: m :: mid).length : Int) := by simp [lead, ws]; omega
        have e1 : -((T.mk .RETURN x :: T.mk .WHITESPACE b :: m :: mid).length : Int) + 1 =
            -((T.mk .WHITESPACE b :: m :: mid).length : Int) := by simp; omega
        have e2 : -((T.mk .WHITESPACE b :: m :: mid).length : Int) + 1 = -((m :: mid).length : Int) := by simp; omega
        have e3 : -((T.mk .WHITESPACE b :: m :: mid).length : Int) + 2 = -(mid.length : Int) := by simp; omega
        simp only [e, h0, e1, h1, e2, h2, e3, hm.1, hm.2, reduceCtorEq, if_true, if_false]

theorem loop_take (sk : Bool) (ks : List Tok) : ∀ (before : List T) (pos p : Nat),
    prependedLoop sk ks before pos = some (some p) →
    ∀ x ∈ before.take (p - pos), x.kind ∈ ks ∨ x.kind = .WHITESPACE := by
  induction ks with
  | nil => intro before pos p h x hx; simp [prependedLoop] at h; subst h; simp at hx
  | cons k ks ih =>
    intro before pos p h x hx
    cases before with
    | nil => simp at hx
    | cons b bs =>
      simp only [prependedLoop] at h
      split at h
      · rename_i hw
        simp at hw
        cases bs with
        | nil => simp at h
        | cons b2 bs2 =>
          simp only at h
          split at h
          · rename_i hk2
            have := loop_pos _ _ _ _ _ h
            have e : p - pos = (p - (pos + 2)) + 2 := by omega
            rw [e] at hx
            simp only [List.take_succ_cons, List.mem_cons] at hx
            rcases hx with rfl | rfl | hx
            · exact Or.inr hw.2
            · exact Or.inl (by simp [beq_iff_eq.1 hk2])
            · rcases ih _ _ _ h x hx with h | h
              · exact Or.inl (by simp [h])
              · exact Or.inr h
          · simp at h
      · split at h
        · rename_i hk2
          have := loop_pos _ _ _ _ _ h
          have e : p - pos = (p - (pos + 1)) + 1 := by omega
          rw [e] at hx
          simp only [List.take_succ_cons, List.mem_cons] at hx
          rcases hx with rfl | hx
          · exact Or.inl (by simp [beq_iff_eq.1 hk2])
          · rcases ih _ _ _ h x hx with h | h
            · exact Or.inl (by simp [h])
            · exact Or.inr h
        · simp at h

/-- Skipping `new Name` makes no difference. -/
theorem searchFrom_same {t : T} {b : List T} {f : Nat} (h : searchFrom true (t :: b) = some f) :
    scanStart true 0 ((t :: b).drop f) = scanStart true 0 b := by
  simp only [searchFrom, if_true, Option.bind_eq_bind] at h
  obtain ⟨c, hc, h⟩ := Option.bind_eq_some_iff.1 h
  cases c with
  | none => simp at h; subst h; rfl
  | some p =>
    simp at h; subst h
    have hp := prependedBy_pos hc
    unfold prependedBy at hc
    split at hc
    · simp at hc
    · have h1 := loop_take _ _ _ _ _ hc
      simp only [List.tail_cons] at h1
      have e : p = (p - 1) + 1 := by omega
      have e2 : b = b.take (p - 1) ++ b.drop (p - 1) := (List.take_append_drop ..).symm
      rw [e, List.drop_succ_cons]
      conv => rhs; rw [e2]
      rw [scanStart_neutral]
      intro x hx
      have : x.kind = .STRING ∨ x.kind = .NEW ∨ x.kind = .WHITESPACE := by
        rcases h1 x hx with h | h
        · simp at h; rcases h with h | h <;> simp [h]
        · exact Or.inr (Or.inr h)
      rcases this with h | h | h <;> (unfold neutral; rw [h]; decide)

/-- Tokens that cannot be part of an expression: ends of statements and blocks, beginnings of PHP code, keywords followed by a
condition; for member access also a comma. -/
def breaks (ic : Bool) : Tok → Bool
  | .SEMICOLON | .LBRACE | .RBRACE => true
  | .OPEN_TAG | .OPEN_TAG_WITH_ECHO => true
  | .IF | .ELSEIF | .WHILE | .FOR | .FOREACH | .SWITCH => true
  | .COMMA => !ic
  | .INVALID => true
  | _ => false

theorem isStop_breaks (ic : Bool) (k : Tok) : isStop ic k = breaks ic k := by cases ic <;> cases k <;> rfl

/-- where the search stops: at such a token, or the parenthesis the expression is in -/
def isStart (ic : Bool) (k : Tok) : Prop := breaks ic k = true ∨ k = .LPAREN

theorem lparen_not_stop (ic : Bool) : isStop ic .LPAREN = false := by cases ic <;> decide

theorem scanStart_stop {ic : Bool} {s : T} {pre : List T} (h : isStart ic s.kind) :
    scanStart ic 0 (s :: pre) = (if s.kind = .LPAREN then 1 else 0, s :: pre) := by
  rw [scanStart]
  rw [isStart, ← isStop_breaks] at h
  rcases h with h | h
  · rw [if_pos h]
    have : s.kind ≠ .LPAREN := by intro h2; rw [h2, lparen_not_stop] at h; cases h
    rw [if_neg this]
  · rw [h, if_neg (by rw [lparen_not_stop]; decide), if_pos rfl]; rfl

/-- **C50 (expression, member access).** Before `->` or `::` the expression is the text behind the last token that
starts a statement, block, condition or (with `stop` an opening parenthesis or a comma outside of parentheses) an
argument, without white space and `return` in front of it. -/
theorem member_expression_partial (u : CharClass) (pre mid : List T) (stop m : T) (a : Option QString)
    (r : Option (QString × Option QString)) (ahead : List T) (hs : isStart false stop.kind) (hb : Balanced (m :: mid))
    (hn : ∀ t ∈ m :: mid, breaks false t.kind = false) (hm : m.kind ≠ .WHITESPACE ∧ m.kind ≠ .RETURN) :
    ∃ s o, findStart false ⟨(pre ++ stop :: lead a r ++ m :: mid).reverse, ahead⟩ = some (s, o) ∧ 0 ≤ o ∧
      s = -(mid.length : Int) ∧
      expressionText u false ⟨(pre ++ stop :: lead a r ++ m :: mid).reverse, ahead⟩ s o =
        some (trimmed u (((m :: mid).map T.text).flatten) ++ (if stop.kind = .LPAREN then q! ")" else [])) := by
  have e : (pre ++ stop :: lead a r ++ m :: mid).reverse =
      (m :: mid).reverse ++ ((lead a r).reverse ++ (stop :: pre.reverse)) := by simp
  have hsc : scanStart false 0 (pre ++ stop :: lead a r ++ m :: mid).reverse =
      (if stop.kind = .LPAREN then 1 else 0, stop :: pre.reverse) := by
    rw [e, scanStart_balanced false hb 0 _ (by omega) (fun t ht => (isStop_breaks _ _).trans (hn t ht)),
      scanStart_neutral false _ 0 _ (fun t ht => lead_neutral false (List.mem_reverse.1 ht)), scanStart_stop hs]
  have ho : ¬ (if stop.kind = .LPAREN then (1 : Int) else 0) < 0 := by split <;> omega
  have hk : (pre ++ stop :: lead a r ++ m :: mid).reverse.length - (stop :: pre.reverse).length =
      (lead a r).length + (mid.length + 1) := by
    rw [e]; simp only [List.length_append, List.length_reverse, List.length_cons]; omega
  refine ⟨-(mid.length : Int), if stop.kind = .LPAREN then 1 else 0, ?_, by omega, rfl, ?_⟩
  · simp only [findStart, searchFrom, Bool.false_eq_true, if_false, Option.bind_eq_bind, Option.bind_some,
      List.drop_zero, hsc, if_neg ho, hk]
    congr 2
    exact skipLead_lead (pre := pre ++ [stop]) a r m hm (by simp)
  · have h1 : (1 - -(mid.length : Int)).toNat = mid.length + 1 := by omega
    have h2 : mid.length + 1 ≤ (pre ++ stop :: lead a r ++ m :: mid).reverse.length := by
      simp only [List.length_reverse, List.length_append, List.length_cons]; omega
    have h3 : (pre ++ stop :: lead a r ++ m :: mid).reverse.take (mid.length + 1) = (m :: mid).reverse := by
      rw [e]
      have : mid.length + 1 = (m :: mid).reverse.length := by simp
      rw [this, List.take_left]
    simp only [expressionText, h1, if_pos h2, h3, List.reverse_reverse]
    by_cases hl : stop.kind = .LPAREN <;> simp [hl]

/-- **C50 (expression, call).** For a call the expression is the text up to the parenthesis, closed again; commas do not
start an expression here. -/
theorem call_expression_partial (u : CharClass) (pre mid : List T) (stop m p : T) (a : Option QString)
    (r : Option (QString × Option QString)) (ahead : List T) (hs : isStart true stop.kind) (hb : Balanced (m :: mid))
    (hn : ∀ t ∈ m :: mid, breaks true t.kind = false) (hm : m.kind ≠ .WHITESPACE ∧ m.kind ≠ .RETURN)
    (hp : prependedBy (pre ++ stop :: lead a r ++ m :: mid ++ [p]).reverse [.STRING, .NEW] true ≠ none) :
    ∃ s o, findStart true ⟨(pre ++ stop :: lead a r ++ m :: mid ++ [p]).reverse, ahead⟩ = some (s, o) ∧ 0 ≤ o ∧
      s = -((mid.length + 1 : Nat) : Int) ∧
      expressionText u true ⟨(pre ++ stop :: lead a r ++ m :: mid ++ [p]).reverse, ahead⟩ s o =
        some (trimmed u (((m :: mid ++ [p]).map T.text).flatten) ++ q! ")" ++
          (if stop.kind = .LPAREN then q! ")" else [])) := by
  have e : (pre ++ stop :: lead a r ++ m :: mid ++ [p]).reverse =
      p :: ((m :: mid).reverse ++ ((lead a r).reverse ++ (stop :: pre.reverse))) := by simp
  obtain ⟨f, hf⟩ : ∃ f, searchFrom true (pre ++ stop :: lead a r ++ m :: mid ++ [p]).reverse = some f := by
    obtain ⟨c, hc⟩ := Option.ne_none_iff_exists'.1 hp
    simp only [searchFrom, if_true, Option.bind_eq_bind, hc, Option.bind_some]
    exact ⟨_, rfl⟩
  have hsc : scanStart true 0 ((pre ++ stop :: lead a r ++ m :: mid ++ [p]).reverse.drop f) =
      (if stop.kind = .LPAREN then 1 else 0, stop :: pre.reverse) := by
    rw [e] at hf ⊢
    rw [searchFrom_same hf, scanStart_balanced true hb 0 _ (by omega) (fun t ht => (isStop_breaks _ _).trans (hn t ht)),
      scanStart_neutral true _ 0 _ (fun t ht => lead_neutral true (List.mem_reverse.1 ht)), scanStart_stop hs]
  have ho : ¬ (if stop.kind = .LPAREN then (1 : Int) else 0) < 0 := by split <;> omega
  have hk : (pre ++ stop :: lead a r ++ m :: mid ++ [p]).reverse.length - (stop :: pre.reverse).length =
      (lead a r).length + ((mid ++ [p]).length + 1) := by
    rw [e]; simp only [List.length_append, List.length_reverse, List.length_cons, List.length_nil]; omega
  refine ⟨-((mid.length + 1 : Nat) : Int), if stop.kind = .LPAREN then 1 else 0, ?_, by omega, rfl, ?_⟩
  · simp only [findStart, hf, Option.bind_eq_bind, Option.bind_some, hsc, if_neg ho, hk]
    congr 2
    have := skipLead_lead (A := ⟨(pre ++ stop :: lead a r ++ m :: mid ++ [p]).reverse, ahead⟩) (pre := pre ++ [stop])
      (mid := mid ++ [p]) a r m hm (by simp)
    rw [this]; simp
  · have h1 : (1 - -((mid.length + 1 : Nat) : Int)).toNat = mid.length + 2 := by omega
    have h2 : mid.length + 2 ≤ (pre ++ stop :: lead a r ++ m :: mid ++ [p]).reverse.length := by
      simp only [List.length_reverse, List.length_append, List.length_cons, List.length_nil]; omega
    have h3 : (pre ++ stop :: lead a r ++ m :: mid ++ [p]).reverse.take (mid.length + 2) = (m :: mid ++ [p]).reverse := by
      have e' : (pre ++ stop :: lead a r ++ m :: mid ++ [p]).reverse =
        (m :: mid ++ [p]).reverse ++ ((lead a r).reverse ++ (stop :: pre.reverse)) := by simp
      rw [e']
      have : mid.length + 2 = (m :: mid ++ [p]).reverse.length := by simp
      rw [this, List.take_left]
    simp only [expressionText, h1, if_pos h2, h3, List.reverse_reverse]
    by_cases hl : stop.kind = .LPAREN <;> simp [hl]

/-- `<?php f($a, $b)` -/
def commaInCall : List T :=
  [⟨.OPEN_TAG, q! "<?php "⟩, ⟨.STRING, q! "f"⟩, ⟨.LPAREN, q! "("⟩, ⟨.VARIABLE, q! "$a"⟩, ⟨.COMMA, q! ","⟩,
   ⟨.WHITESPACE, q! " "⟩, ⟨.VARIABLE, q! "$b"⟩, ⟨.RPAREN, q! ")"⟩]

/-- **Limit of C50.** A comma inside of the parentheses of a call ends the search, so that after `f($a, $b)->` there is no
completion, whatever the function returns. -/
theorem comma_in_call_invalid (u : CharClass) (w : Oracle) :
    evaluateRound u w false false ⟨commaInCall.reverse, [⟨.OBJECT_OPERATOR, q! "->"⟩]⟩ = some .invalid := by
  rfl

/-- `<?php f($a)` with one argument -/
def oneArgument : List T :=
  [⟨.OPEN_TAG, q! "<?php "⟩, ⟨.STRING, q! "f"⟩, ⟨.LPAREN, q! "("⟩, ⟨.VARIABLE, q! "$a"⟩, ⟨.RPAREN, q! ")"⟩]

/-- With one argument there is (the hypotheses of `member_expression_partial` hold). -/
example (u : CharClass) : ∃ s o, findStart false ⟨oneArgument.reverse, [⟨.OBJECT_OPERATOR, q! "->"⟩]⟩ = some (s, o) ∧ 0 ≤ o ∧
    s = -3 ∧ expressionText u false ⟨oneArgument.reverse, [⟨.OBJECT_OPERATOR, q! "->"⟩]⟩ s o =
      some (trimmed u (q! "f($a)") ++ []) := by
  have hb : Balanced oneArgument.tail :=
    .append (.tok ⟨.STRING, q! "f"⟩ (by decide))
      (.paren ⟨.LPAREN, q! "("⟩ ⟨.RPAREN, q! ")"⟩ rfl rfl (.tok ⟨.VARIABLE, q! "$a"⟩ (by decide)))
  exact member_expression_partial u [] oneArgument.tail.tail ⟨.OPEN_TAG, q! "<?php "⟩ ⟨.STRING, q! "f"⟩ none none _ (Or.inl rfl) hb
    (by decide) (by decide)

/-- `f($a, g(`: for the inner call the expression begins with the other arguments of the outer one. -/
def secondArgument : List T :=
  [⟨.OPEN_TAG, q! "<?php "⟩, ⟨.STRING, q! "f"⟩, ⟨.LPAREN, q! "("⟩, ⟨.VARIABLE, q! "$a"⟩, ⟨.COMMA, q! ","⟩,
   ⟨.STRING, q! "g"⟩, ⟨.LPAREN, q! "("⟩]

/-- **Limit of C50.** In `f($a, g(` the expression evaluated for the inner call is `$a,g())` (here before trimming). -/
theorem second_argument_expression (u : CharClass) :
    findStart true ⟨secondArgument.reverse, []⟩ = some (-3, 1) ∧
    expressionText u true ⟨secondArgument.reverse, []⟩ (-3) 1 = some (trimmed u (q! "$a,g(") ++ q! ")" ++ q! ")") := by
  exact ⟨by rfl, by rfl⟩

end KPhp.Completion
