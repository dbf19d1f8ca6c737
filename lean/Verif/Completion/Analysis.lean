import Verif.Completion.TokenAccess
/-!
# Properties of the token analysis for code completion (C48, C49)
-/
namespace KPhp.Completion

/-! ## C49: no access outside the token stream -/

/-- What the lexer guarantees about the tokens of a non-empty text: inline HTML, then an open tag, then the rest. -/
def Opened (toks : List T) : Prop :=
  toks ≠ [] ∧ ∃ html rest, toks = html ++ rest ∧ (∀ t ∈ html, t.kind = .INLINE_HTML) ∧
    ∀ t ∈ rest.head?, t.kind = .OPEN_TAG ∨ t.kind = .OPEN_TAG_WITH_ECHO

/-- the kinds of the first token -/
def firstKinds : List Tok := [.INLINE_HTML, .OPEN_TAG, .OPEN_TAG_WITH_ECHO]

theorem Opened.first {toks : List T} (h : Opened toks) : ∀ t ∈ toks.head?, t.kind ∈ firstKinds := by
  obtain ⟨_, html, rest, rfl, h1, h2⟩ := h
  intro t ht
  cases html with
  | nil =>
    simp only [List.nil_append] at ht
    rcases h2 t ht with h | h <;> simp [firstKinds, h]
  | cons x l =>
    simp at ht; subst ht
    simp [firstKinds, h1 x (by simp)]

/-- the tokens up to some position of an opened stream, nearest first -/
def First (back : List T) : Prop := back ≠ [] ∧ ∀ t ∈ back.getLast?, t.kind ∈ firstKinds

theorem First.cons {t : T} {b : List T} (h : First (t :: b)) (ht : t.kind ∉ firstKinds) : First b := by
  cases b with
  | nil => exact absurd (h.2 t (by simp)) ht
  | cons x l =>
    refine ⟨by simp, ?_⟩
    intro y hy
    exact h.2 y (by simpa using hy)

theorem First.suffix {a b : List T} (h : First b) (hs : a <:+ b) (hne : a ≠ []) : First a := by
  obtain ⟨p, rfl⟩ := hs
  refine ⟨hne, fun t ht => h.2 t ?_⟩
  rw [List.getLast?_append]
  rw [Option.mem_def] at ht
  rw [ht]; rfl

theorem loop_safe (sk : Bool) (ks : List Tok) (hk : ∀ k ∈ ks, k ∉ firstKinds) : ∀ (before : List T) (pos : Nat),
    First before → prependedLoop sk ks before pos ≠ none := by
  induction ks with
  | nil => intro before pos _; simp [prependedLoop]
  | cons k ks ih =>
    intro before pos h
    have ih := ih (fun k hk' => hk k (by simp [hk']))
    have hk0 := hk k (by simp)
    cases before with
    | nil => exact absurd rfl h.1
    | cons b bs =>
      simp only [prependedLoop]
      split
      · rename_i hw
        simp at hw
        have hb : First bs := h.cons (by rw [hw.2]; decide)
        cases bs with
        | nil => exact absurd rfl hb.1
        | cons b2 bs2 =>
          simp only
          split
          · rename_i h2
            exact ih _ _ (hb.cons (by rw [beq_iff_eq.1 h2]; exact hk0))
          · simp
      · split
        · rename_i h2
          exact ih _ _ (h.cons (by rw [beq_iff_eq.1 h2]; exact hk0))
        · simp

theorem loop_pos (sk : Bool) (ks : List Tok) : ∀ (before : List T) (pos p : Nat),
    prependedLoop sk ks before pos = some (some p) → pos + ks.length ≤ p ∧ p ≤ pos + before.length := by
  induction ks with
  | nil => intro before pos p h; simp [prependedLoop] at h; subst h; simp
  | cons k ks ih =>
    intro before pos p h
    cases before with
    | nil => simp [prependedLoop] at h
    | cons b bs =>
      simp only [prependedLoop] at h
      split at h
      · cases bs with
        | nil => simp at h
        | cons b2 bs2 =>
          simp only at h
          split at h
          · have := ih _ _ _ h; simp only [List.length_cons]; omega
          · simp at h
      · split at h
        · have := ih _ _ _ h; simp only [List.length_cons]; omega
        · simp at h

theorem prependedBy_safe {t : T} {b : List T} (sk : Bool) (ks : List Tok) (hf : First (t :: b))
    (hk : ∀ k ∈ ks, k ∉ firstKinds) (hl : 2 ≤ ks.length ∨ t.kind ∉ firstKinds) :
    prependedBy (t :: b) ks sk ≠ none := by
  unfold prependedBy
  split
  · simp
  · rename_i hlen
    cases b with
    | nil =>
      exfalso
      rcases hl with h | h
      · simp at hlen; omega
      · exact h (hf.2 t (by simp))
    | cons x b =>
      refine loop_safe sk ks hk _ _ ⟨by simp, ?_⟩
      intro y hy
      exact hf.2 y (by simpa using hy)

theorem prependedBy_pos {t : T} {b : List T} {sk : Bool} {ks : List Tok} {p : Nat}
    (h : prependedBy (t :: b) ks sk = some (some p)) : 1 + ks.length ≤ p ∧ p ≤ 1 + b.length := by
  unfold prependedBy at h
  split at h
  · simp at h
  · exact loop_pos _ _ _ _ _ h

theorem stringBack_some {t : T} {b : List T} {k : Nat} (h : k ≤ b.length) : ∃ s, stringBack (t :: b) k = some s := by
  unfold stringBack
  have : k < (t :: b).length := by simp; omega
  rw [List.getElem?_eq_getElem this]
  exact ⟨_, rfl⟩

theorem extends_safe (u : CharClass) {t : T} {b : List T} (hf : First (t :: b)) : afterExtends u (t :: b) ≠ none := by
  unfold afterExtends
  have h1 := prependedBy_safe false [.WHITESPACE, .STRING, .WHITESPACE, .CLASS] hf (by decide) (Or.inl (by decide))
  have h2 := prependedBy_safe false [.WHITESPACE, .STRING, .WHITESPACE, .INTERFACE] hf (by decide) (Or.inl (by decide))
  cases hc : prependedBy (t :: b) [.WHITESPACE, .STRING, .WHITESPACE, .CLASS] false with
  | none => exact absurd hc h1
  | some c =>
    cases c with
    | some p =>
      have := prependedBy_pos hc
      obtain ⟨s, hs⟩ := stringBack_some (t := t) (b := b) (k := 2) (by simp at this; omega)
      simp [hs]
    | none =>
      cases hi : prependedBy (t :: b) [.WHITESPACE, .STRING, .WHITESPACE, .INTERFACE] false with
      | none => exact absurd hi h2
      | some c =>
        cases c with
        | some p =>
          have := prependedBy_pos hi
          obtain ⟨s, hs⟩ := stringBack_some (t := t) (b := b) (k := 2) (by simp at this; omega)
          simp [hs]
        | none => simp

theorem implements_safe (u : CharClass) {t : T} {b : List T} (hf : First (t :: b)) : afterImplements u (t :: b) ≠ none := by
  unfold afterImplements
  have h1 := prependedBy_safe false [.WHITESPACE, .STRING, .WHITESPACE, .CLASS] hf (by decide) (Or.inl (by decide))
  cases hc : prependedBy (t :: b) [.WHITESPACE, .STRING, .WHITESPACE, .CLASS] false with
  | none => exact absurd hc h1
  | some c =>
    cases c with
    | some p =>
      have := prependedBy_pos hc
      obtain ⟨s, hs⟩ := stringBack_some (t := t) (b := b) (k := 2) (by simp at this; omega)
      simp [hs]
    | none => simp

theorem new_safe {t : T} {b : List T} (hf : First (t :: b)) : afterNew (t :: b) ≠ none := by
  unfold afterNew
  have h1 := prependedBy_safe false [.WHITESPACE, .THROW] hf (by decide) (Or.inl (by decide))
  cases hc : prependedBy (t :: b) [.WHITESPACE, .THROW] false with
  | none => exact absurd hc h1
  | some c => simp

theorem literal_safe (u : CharClass) {t : T} {b : List T} (hf : First (t :: b)) : afterLiteral u (t :: b) ≠ none := by
  have hd : afterDirname u (t :: b) ≠ none := by
    unfold afterDirname
    have h1 := prependedBy_safe true [.CONCAT, .RPAREN, .FILE, .LPAREN, .STRING] hf (by decide) (Or.inl (by decide))
    have h2 := prependedBy_safe true [.CONCAT, .DIR] hf (by decide) (Or.inl (by decide))
    cases hc : prependedBy (t :: b) [.CONCAT, .RPAREN, .FILE, .LPAREN, .STRING] true with
    | none => exact absurd hc h1
    | some c =>
      cases c with
      | some p =>
        have := prependedBy_pos hc
        obtain ⟨s, hs⟩ := stringBack_some (t := t) (b := b) (k := p - 1) (by simp at this; omega)
        simp [hs]
      | none =>
        cases hi : prependedBy (t :: b) [.CONCAT, .DIR] true with
        | none => exact absurd hi h2
        | some c => cases c <;> simp
  unfold afterLiteral
  cases hc : afterDirname u (t :: b) with
  | none => exact absurd hc hd
  | some x =>
    obtain ⟨p, a⟩ := x
    simp only [Option.bind_eq_bind, Option.bind_some]
    generalize skipWs _ = l
    cases includeTokens.contains (kindAt l 0) <;> simp

/-- A result without a read outside of the stream, which leaves a current token if it is valid. -/
def OkA (x : Option Analysis) : Prop := ∃ a, x = some a ∧ (a.valid = true → a.back ≠ [])

theorem OkA.ite {c : Prop} [Decidable c] {x y : Option Analysis} (h1 : c → OkA x) (h2 : ¬ c → OkA y) :
    OkA (if c then x else y) := by
  by_cases h : c
  · rw [if_pos h]; exact h1 h
  · rw [if_neg h]; exact h2 h

theorem OkA.of {a : Analysis} (h : a.valid = true → a.back ≠ []) : OkA (some a) := ⟨a, rfl, h⟩

theorem OkA.keeps {x : Option Analysis} {l : List T} (h : x ≠ none) (hl : l ≠ [])
    (hk : ∀ a, x = some a → a.back = l) : OkA x := by
  cases x with
  | none => exact absurd rfl h
  | some a => exact ⟨a, rfl, fun _ => by rw [hk a rfl]; exact hl⟩

theorem extends_keeps {u : CharClass} {l : List T} {a : Analysis} (h : afterExtends u l = some a) : a.back = l := by
  unfold afterExtends at h
  simp only [Option.bind_eq_bind, Option.bind_eq_some_iff] at h
  obtain ⟨c, _, h⟩ := h
  split at h
  · obtain ⟨s, _, h⟩ := Option.bind_eq_some_iff.1 h
    injection h with h; subst h; rfl
  · obtain ⟨i, _, h⟩ := Option.bind_eq_some_iff.1 h
    split at h
    · obtain ⟨s, _, h⟩ := Option.bind_eq_some_iff.1 h
      injection h with h; subst h; rfl
    · injection h with h; subst h; rfl

theorem implements_keeps {u : CharClass} {l : List T} {a : Analysis} (h : afterImplements u l = some a) : a.back = l := by
  unfold afterImplements at h
  simp only [Option.bind_eq_bind, Option.bind_eq_some_iff] at h
  obtain ⟨c, _, h⟩ := h
  split at h
  · obtain ⟨s, _, h⟩ := Option.bind_eq_some_iff.1 h
    injection h with h; subst h; rfl
  · injection h with h; subst h; rfl

theorem new_keeps {l : List T} {a : Analysis} (h : afterNew l = some a) : a.back = l := by
  unfold afterNew at h
  simp only [Option.bind_eq_bind, Option.bind_eq_some_iff] at h
  obtain ⟨c, _, h⟩ := h
  injection h with h; subst h; rfl

theorem literal_keeps {u : CharClass} {l : List T} {a : Analysis} (h : afterLiteral u l = some a) : a.back = l := by
  unfold afterLiteral at h
  simp only [Option.bind_eq_bind, Option.bind_eq_some_iff] at h
  obtain ⟨c, _, h⟩ := h
  generalize skipWs _ = m at h
  split at h <;> (injection h with h; subst h; rfl)

theorem comma_ok (u : CharClass) (l : List T) (hl : l ≠ []) : OkA (some (afterComma u l)) := by
  refine OkA.of ?_
  unfold afterComma
  cases interfaceList l.tail [] with
  | some names => exact fun _ => hl
  | none =>
    intro hv he
    simp only at hv he
    rw [he] at hv
    simp [kindAt] at hv

theorem lparen_ok (l : List T) (hl : l ≠ []) : OkA (some (afterLParen l)) := by
  refine OkA.of (fun _ => ?_)
  unfold afterLParen
  by_cases h1 : kindAt (skipWs l.tail) 0 = .CATCH
  · simp only [h1, if_true]; exact hl
  · by_cases h2 : kindAt (skipWs l.tail) 0 = .ARRAY
    · simp only [h2]; exact hl
    · simp only [h1, h2, if_false]; exact hl

theorem analyseToken_ok (u : CharClass) (inClass following wasWs : Bool) {t : T} {b : List T} (hf : First (t :: b)) :
    OkA (analyseToken u inClass following wasWs (t :: b)) := by
  have hkind : kindAt (t :: b) 0 = t.kind := rfl
  have hb : t.kind ∉ firstKinds → b ≠ [] := fun hn => (hf.cons hn).1
  have hcons : t :: b ≠ [] := by simp
  unfold analyseToken
  simp only [hkind]
  refine OkA.ite (fun _ => ?_) (fun _ => OkA.ite (fun _ => OkA.ite (fun _ => ?_) (fun _ => ?_)) (fun _ =>
    OkA.ite (fun _ => OkA.ite (fun _ => ?_) (fun _ => ?_)) (fun _ => OkA.ite (fun _ => ?_) (fun _ =>
    OkA.ite (fun _ => OkA.ite (fun _ => ?_) (fun _ => ?_)) (fun _ => OkA.ite (fun hk => ?_) (fun _ =>
    OkA.ite (fun hk => ?_) (fun _ => OkA.ite (fun _ => ?_) (fun _ => OkA.ite (fun _ => OkA.ite (fun _ => ?_) (fun _ => ?_))
    (fun _ => OkA.ite (fun _ => OkA.ite (fun _ => ?_) (fun _ => ?_)) (fun _ => OkA.ite (fun _ => ?_) (fun _ =>
    OkA.ite (fun _ => ?_) (fun _ => OkA.ite (fun _ => ?_) (fun _ => OkA.ite (fun _ => OkA.ite (fun _ => ?_) (fun _ => ?_))
    (fun _ => OkA.ite (fun _ => ?_) (fun _ => ?_)))))))))))))))
  · exact OkA.of fun _ => hcons
  · exact OkA.keeps (extends_safe u hf) hcons fun a => extends_keeps
  · exact OkA.of fun _ => hcons
  · exact OkA.keeps (implements_safe u hf) hcons fun a => implements_keeps
  · exact OkA.of fun _ => hcons
  · exact comma_ok u _ hcons
  · exact OkA.of fun _ => hcons
  · exact OkA.of fun _ => hcons
  · exact OkA.of fun _ => hb (by rw [hk]; decide)
  · exact OkA.of fun _ => hb (by rw [hk]; decide)
  · exact lparen_ok _ hcons
  · exact OkA.keeps (new_safe hf) hcons fun a => new_keeps
  · exact OkA.of fun _ => hcons
  · exact OkA.of fun _ => hcons
  · exact OkA.of fun _ => hcons
  · exact OkA.keeps (literal_safe u hf) hcons fun a => literal_keeps
  · exact OkA.of fun _ => hcons
  · exact OkA.of fun _ => hcons
  · exact OkA.of fun _ => hcons
  · exact OkA.of fun _ => hcons
  · exact OkA.of fun _ => hcons
  · exact OkA.of fun _ => hcons

/-- **C49 (analysis).** For the tokens of any non-empty text the analysis of the last token never reads outside of the
token stream. -/
theorem analysis_in_bounds (u : CharClass) (inClass following openComment : Bool) (toks : List T) (h : Opened toks) :
    analyse u inClass following openComment toks ≠ none := by
  have hne : toks.reverse ≠ [] := by simp [h.1]
  have hF : First toks.reverse := ⟨hne, by
    intro t ht
    rw [List.getLast?_reverse] at ht
    exact h.first t ht⟩
  unfold analyse
  cases hr : toks.reverse with
  | nil => exact absurd hr hne
  | cons t b =>
    rw [hr] at hF
    simp only
    split
    · simp
    · generalize hb : (if (t.kind == Tok.WHITESPACE) = true then b else t :: b) = back
      have hFb : First back := by
        split at hb
        · rename_i hw
          subst hb
          exact hF.cons (by rw [beq_iff_eq.1 hw]; decide)
        · subst hb; exact hF
      cases back with
      | nil => exact absurd rfl hFb.1
      | cons t' b' =>
        obtain ⟨a, ha, hok⟩ := analyseToken_ok u inClass following (t.kind == Tok.WHITESPACE) hFb
        rw [ha]
        simp only
        split
        · simp
        · rename_i hv
          simp at hv
          have := hok hv.1
          split
          · rename_i he; exact absurd (List.isEmpty_iff.1 he) this
          · simp

/-- the tokens of the lexer with their texts -/
def withText (c : QString) (toks : List (Tok × Nat × Nat)) : List T := toks.map fun x => ⟨x.1, slice c x.2.1 x.2.2⟩

section
variable {u : CharClass} {c : QString}

theorem html_keeps_stack {b : Nat} {stack : List St} {ident : QString} {r : Res}
    (h : htmlBranch u c b stack ident = some r) (ht : r.tok = .INLINE_HTML) : r.stack = stack := by
  unfold htmlBranch at h
  simp only [Option.bind_eq_bind, Option.bind_eq_some_iff] at h
  obtain ⟨o, _, h⟩ := h
  split at h
  · obtain ⟨e, _, h⟩ := Option.bind_eq_some_iff.1 h
    split at h
    · injection h with h; subst h; simp at ht
    · obtain ⟨e, _, h⟩ := Option.bind_eq_some_iff.1 h
      split at h
      · obtain ⟨e, _, h⟩ := Option.bind_eq_some_iff.1 h
        injection h with h; subst h; simp at ht
      · injection h with h; subst h; simp at ht
  · obtain ⟨e, _, h⟩ := Option.bind_eq_some_iff.1 h
    injection h with h; subst h; rfl

theorem step_html {s s' : LState} {o : Out} (hu : u.Lawful) (hi : LInv u c s) (hh : s.stack.head? = some .Html)
    (h : step u c s = some (s', o)) (hp : s.pos < c.length) (h4 : s.halt ≠ 4) :
    ∃ t b e, o = .tok t b e ∧ ((t = .INLINE_HTML ∧ s'.stack.head? = some .Html) ∨ t = .OPEN_TAG ∨ t = .OPEN_TAG_WITH_ECHO) ∧
      s'.halt = haltStep s.halt t := by
  have h0 := h
  obtain ⟨hi', hr⟩ := step_rel hu hi h
  unfold step at h
  rw [if_neg (by omega)] at h
  obtain ⟨r, hd, h⟩ := Option.bind_eq_some_iff.1 h
  have hdd : htmlBranch u c s.pos s.stack s.ident = some r := by
    unfold dispatch at hd
    cases hs : s.stack with
    | nil => rw [hs] at hh; simp at hh
    | cons x l =>
      rw [hs] at hh hd; simp at hh; subst hh
      simpa using hd
  have hg : ∀ r', Good u c s.pos s.stack s.ident r' →
      r'.tok = .INLINE_HTML ∨ r'.tok = .OPEN_TAG ∨ r'.tok = .OPEN_TAG_WITH_ECHO := fun r' hg => hg.html hh
  cases hr with
  | eof hc => omega
  | over r' _ hgood hn _ _ =>
    exfalso
    rcases hgood.bound with hb | ⟨_, hb, _⟩
    · omega
    · rcases hg r' hgood with h' | h' | h' <;> (rw [h'] at hb; simp [Tok.isTrivia] at hb)
  | halted r' _ _ _ hh4 _ => exact absurd hh4 h4
  | tok r' _ hgood hn _ _ _ =>
    have hrr : r.nxt ≤ c.length + 1 := by
      by_cases hc : r.nxt > c.length + 1
      · rw [if_pos hc] at h; simp at h
      · omega
    rw [if_neg (by omega), if_neg h4] at h
    simp only [Option.some.injEq, Prod.mk.injEq, LState.mk.injEq, Out.tok.injEq] at h
    refine ⟨r'.tok, _, _, rfl, ?_, rfl⟩
    rcases hg r' hgood with h' | h' | h'
    · refine Or.inl ⟨h', ?_⟩
      have := html_keeps_stack hdd (h.2.1.trans h')
      show r'.stack.head? = _
      rw [← h.1.2.1, this]; exact hh
    · exact Or.inr (Or.inl h')
    · exact Or.inr (Or.inr h')

theorem html_run (hu : u.Lawful) : ∀ {toks : List (Tok × Nat × Nat)} {n : Nat} {s sf : LState},
    LInv u c s → s.stack.head? = some .Html → s.halt = 0 → runN u c n s = some (toks.map Out.ofTok, sf) →
    ∃ html rest, toks = html ++ rest ∧ (∀ t ∈ html, t.1 = .INLINE_HTML) ∧
      ∀ t ∈ rest.head?, t.1 = .OPEN_TAG ∨ t.1 = .OPEN_TAG_WITH_ECHO
  | toks, 0, s, sf, hi, hh, h4, h => by
    simp [runN] at h
    obtain ⟨h, _⟩ := h
    subst h
    exact ⟨[], [], rfl, by simp, by simp⟩
  | toks, n + 1, s, sf, hi, hh, h4, h => by
    obtain ⟨s1, o, os', h1, h2, he⟩ := runN_succ h
    cases toks with
    | nil => simp at he
    | cons x toks =>
      simp only [List.map_cons, List.cons.injEq] at he
      obtain ⟨hi1, hr⟩ := step_rel hu hi h1
      have hp : s.pos < c.length := by
        by_cases hp : s.pos < c.length
        · exact hp
        · have := hr.of_done (Or.inl (by omega))
          rw [this] at he; simp [Out.ofTok] at he
      obtain ⟨t, b, e, ho, hcase, hh'⟩ := step_html hu hi hh h1 hp (by omega)
      have hx : x.1 = t := by
        rw [ho] at he; simp [Out.ofTok] at he; exact he.1.1
      rcases hcase with ⟨ht, hs1⟩ | ht
      · have hz : s1.halt = 0 := by rw [hh', h4, ht]; rfl
        obtain ⟨html, rest, he2, hh1, hh2⟩ := html_run hu (toks := toks) hi1 hs1 hz (by rw [he.2]; exact h2)
        refine ⟨x :: html, rest, by rw [he2]; rfl, ?_, hh2⟩
        intro y hy
        rcases List.mem_cons.1 hy with rfl | hy
        · rw [hx, ht]
        · exact hh1 y hy
      · refine ⟨[], x :: toks, rfl, by simp, ?_⟩
        intro y hy
        simp at hy; subst hy
        rw [hx]; exact ht

/-- The tokens of a non-empty text start with inline HTML or an open tag. -/
theorem lexer_opened (hu : u.Lawful) {toks : List (Tok × Nat × Nat)} (hc : c ≠ [])
    (h : LexerTokens u c false toks) : Opened (withText c toks) := by
  obtain ⟨n, s, s', h1, h2⟩ := h
  have hi := LInv.init u c false
  have hh : (LState.init false).stack.head? = some .Html := rfl
  have hp : (LState.init false).pos < c.length := by
    have : c.length ≠ 0 := by simpa using hc
    show 0 < c.length; omega
  obtain ⟨html, rest, he, hh1, hh2⟩ := html_run hu hi hh rfl h1
  refine ⟨?_, withText c html, withText c rest, by rw [he]; simp [withText], ?_, ?_⟩
  · intro hnil
    have : toks = [] := by simpa [withText] using hnil
    subst this
    cases n with
    | zero =>
      simp [runN] at h1
      subst h1
      obtain ⟨t, b, e, ho, _⟩ := step_html hu hi hh h2 hp (by simp [LState.init])
      simp at ho
    | succ n =>
      obtain ⟨s1, o, os', h3, h4, he⟩ := runN_succ h1
      simp at he
  · intro t ht
    obtain ⟨x, hx, rfl⟩ := List.mem_map.1 ht
    exact hh1 x hx
  · intro t ht
    cases rest with
    | nil => simp [withText] at ht
    | cons x l =>
      simp [withText] at ht; subst ht
      exact hh2 x (by simp)

/-- **C49.** For every non-empty text before the cursor, analysing its tokens never reads outside of the token
stream. -/
theorem completion_in_bounds (hu : u.Lawful) (inClass following openComment : Bool) {toks : List (Tok × Nat × Nat)}
    (hc : c ≠ []) (h : LexerTokens u c false toks) :
    analyse u inClass following openComment (withText c toks) ≠ none :=
  analysis_in_bounds u _ _ _ _ (lexer_opened hu hc h)

end

/-! ## C48: what is completed after `extends`, `implements` and in lists -/

/-- optional white space -/
def ws : Option QString → List T
  | none => []
  | some s => [⟨.WHITESPACE, s⟩]

/-- An entry `name ,` of a list of names, with optional white space. -/
structure ListEntry where
  before : Option QString
  name : QString
  after : Option QString
  comma : QString

/-- the tokens of an entry -/
def ListEntry.toks (e : ListEntry) : List T :=
  ws e.before ++ [T.mk .STRING e.name] ++ ws e.after ++ [T.mk .COMMA e.comma]

/-- `class X implements` or `interface X extends` -/
structure ListHeader where
  isClass : Bool
  name : QString
  kw1 : QString
  ws1 : QString
  ws2 : QString
  kw2 : QString

/-- the tokens of the header -/
def ListHeader.toks (h : ListHeader) : List T :=
  [⟨if h.isClass then .CLASS else .INTERFACE, h.kw1⟩, ⟨.WHITESPACE, h.ws1⟩, ⟨.STRING, h.name⟩, ⟨.WHITESPACE, h.ws2⟩,
   ⟨if h.isClass then .IMPLEMENTS else .EXTENDS, h.kw2⟩]

theorem skipWs_ws (o : Option QString) (t : T) (l : List T) (ht : t.kind ≠ .WHITESPACE) :
    skipWs ((ws o).reverse ++ t :: l) = t :: l := by
  cases o <;> simp [ws, skipWs, ht]

theorem kindAt_cons (t : T) (l : List T) : kindAt (t :: l) 0 = t.kind := rfl

theorem listHead_header (h : ListHeader) (l : List T) : listHead (h.toks.reverse ++ l) = true := by
  cases hc : h.isClass <;> simp [ListHeader.toks, listHead, startsWith, hc]

theorem interfaceList_spec (h : ListHeader) (pre : List T) : ∀ (es : List ListEntry) (e : ListEntry) (acc : List QString),
    interfaceList (((ws e.before ++ [T.mk .STRING e.name] ++ ws e.after)).reverse ++
      ((es.map ListEntry.toks).flatMap List.reverse ++ (h.toks.reverse ++ pre))) acc =
      some (acc ++ (e :: es).map ListEntry.name ++ [h.name]) := by
  intro es
  induction es with
  | nil =>
    intro e acc
    have e1 : skipWs (((ws e.before ++ [T.mk .STRING e.name] ++ ws e.after)).reverse ++
        ((List.map ListEntry.toks []).flatMap List.reverse ++ (h.toks.reverse ++ pre))) =
        T.mk .STRING e.name :: ((ws e.before).reverse ++ (h.toks.reverse ++ pre)) := by
      simp only [List.reverse_append, List.append_assoc, List.reverse_cons, List.reverse_nil, List.nil_append,
        List.map_nil, List.flatMap_nil]
      exact skipWs_ws _ _ _ (by simp)
    rw [interfaceList]
    split
    · next hn => rw [e1] at hn; simp at hn
    · next s r0 hs =>
      rw [e1] at hs
      injection hs with hs1 hs2
      subst hs1 hs2
      have e2 : skipWs ((ws e.before).reverse ++ (h.toks.reverse ++ pre)) = h.toks.reverse ++ pre := by
        have : h.toks.reverse ++ pre = ⟨if h.isClass then .IMPLEMENTS else .EXTENDS, h.kw2⟩ ::
            ((h.toks.dropLast).reverse ++ pre) := by simp [ListHeader.toks]
        rw [this]
        exact skipWs_ws _ _ _ (by cases h.isClass <;> simp)
      simp only [if_true]
      rw [e2, if_pos (listHead_header h pre)]
      simp [ListHeader.toks]
  | cons e' es ih =>
    intro e acc
    have e1 : skipWs (((ws e.before ++ [T.mk .STRING e.name] ++ ws e.after)).reverse ++
        ((List.map ListEntry.toks (e' :: es)).flatMap List.reverse ++ (h.toks.reverse ++ pre))) =
        T.mk .STRING e.name :: ((ws e.before).reverse ++ (T.mk .COMMA e'.comma ::
          ((ws e'.before ++ [T.mk .STRING e'.name] ++ ws e'.after).reverse ++
            ((es.map ListEntry.toks).flatMap List.reverse ++ (h.toks.reverse ++ pre))))) := by
      simp only [List.reverse_append, List.append_assoc, List.reverse_cons, List.reverse_nil, List.nil_append,
        List.map_cons, List.flatMap_cons, ListEntry.toks, List.cons_append]
      exact skipWs_ws _ _ _ (by simp)
    rw [interfaceList]
    split
    · next hn => rw [e1] at hn; simp at hn
    · next s r0 hs =>
      rw [e1] at hs
      injection hs with hs1 hs2
      subst hs1 hs2
      rw [skipWs_ws _ _ _ (by simp)]
      have : listHead (⟨Tok.COMMA, e'.comma⟩ ::
          ((ws e'.before ++ [T.mk .STRING e'.name] ++ ws e'.after).reverse ++
            ((es.map ListEntry.toks).flatMap List.reverse ++ (h.toks.reverse ++ pre)))) = false := by
        simp [listHead, startsWith]
      simp only [if_true, this, Bool.false_eq_true, if_false, kindAt_cons, List.tail_cons]
      rw [ih]
      simp

theorem flatMap_reverse (es : List ListEntry) :
    (es.flatMap ListEntry.toks).reverse = (es.reverse.map ListEntry.toks).flatMap List.reverse := by
  induction es with
  | nil => rfl
  | cons e es ih => simp [ih]

theorem analyse_ws (u : CharClass) (inClass following : Bool) (toks : List T) (trail : Option QString) (t : T) (b : List T)
    (ht : t.kind ≠ .WHITESPACE) (hr : toks.reverse = t :: b) :
    analyse u inClass following false (toks ++ ws trail) =
      (analyseToken u inClass following trail.isSome (t :: b)).bind fun a =>
        if !a.valid || a.early then some a else if a.back.isEmpty then none else some a := by
  unfold analyse
  cases trail with
  | none =>
    have : (t.kind == Tok.WHITESPACE) = false := by simpa using ht
    simp only [ws, List.append_nil, hr, this, Bool.false_eq_true, if_false, Option.isSome]
    cases analyseToken u inClass following false (t :: b) <;> rfl
  | some s =>
    simp only [ws, List.reverse_append, List.reverse_cons, List.reverse_nil, List.nil_append, List.cons_append, hr,
      beq_self_eq_true, if_true, Bool.false_eq_true, if_false, Option.isSome]
    cases analyseToken u inClass following true (t :: b) <;> rfl

/-- **C48 (lists).** In the list after `class X implements` or `interface X extends`, with any number of names, white
space and anything before it, interfaces are completed, and excluded are exactly the names of the list and `X`. -/
theorem interface_list_completion (u : CharClass) (inClass following : Bool) (pre : List T) (h : ListHeader)
    (es : List ListEntry) (hne : es ≠ []) (trail : Option QString) :
    ∃ a, analyse u inClass following false (pre ++ h.toks ++ es.flatMap ListEntry.toks ++ ws trail) = some a ∧
      a.valid = true ∧ a.op = .InterfaceChoose ∧
      ∀ n, n ∈ a.forbidden ↔ ∃ m, (m = h.name ∨ m ∈ es.map ListEntry.name) ∧ n = lowerStr u m := by
  have hes : es = es.dropLast ++ [es.getLast hne] := (List.dropLast_concat_getLast hne).symm
  generalize hel : es.getLast hne = e at hes
  generalize hei : es.dropLast = es0 at hes
  have hrev : (pre ++ h.toks ++ es.flatMap ListEntry.toks).reverse =
      T.mk .COMMA e.comma :: (((ws e.before ++ [T.mk .STRING e.name] ++ ws e.after)).reverse ++
        ((es0.reverse.map ListEntry.toks).flatMap List.reverse ++ (h.toks.reverse ++ pre.reverse))) := by
    rw [hes, List.reverse_append, List.reverse_append, flatMap_reverse]
    simp [ListEntry.toks]
  rw [analyse_ws u inClass following _ trail _ _ (by simp) hrev]
  have hil := interfaceList_spec h pre.reverse es0.reverse e []
  generalize hB : (((ws e.before ++ [T.mk .STRING e.name] ++ ws e.after)).reverse ++
        ((es0.reverse.map ListEntry.toks).flatMap List.reverse ++ (h.toks.reverse ++ pre.reverse))) = B at hil ⊢
  have hc : analyseToken u inClass following trail.isSome (T.mk .COMMA e.comma :: B) =
      some (Analysis.mk true .InterfaceChoose (T.mk .COMMA e.comma :: B)
        (((e :: es0.reverse).map ListEntry.name ++ [h.name]).map (lowerStr u)) false [] false) := by
    simp only [List.nil_append] at hil
    simp only [analyseToken, kindAt_cons, afterComma, List.tail_cons, hil]
    simp
  rw [hc]
  refine ⟨_, rfl, rfl, rfl, ?_⟩
  intro n
  rw [hes]
  show n ∈ List.map _ _ ↔ _
  rw [List.mem_map]
  constructor
  · rintro ⟨m, hm, rfl⟩
    refine ⟨m, ?_, rfl⟩
    simp only [List.map_cons, List.map_reverse, List.mem_append, List.mem_cons, List.mem_reverse, List.not_mem_nil,
      or_false, List.map_append, List.map_nil] at hm ⊢
    rcases hm with (hm | hm) | hm
    · exact Or.inr (Or.inr hm)
    · exact Or.inr (Or.inl hm)
    · exact Or.inl hm
  · rintro ⟨m, hm, rfl⟩
    refine ⟨m, ?_, rfl⟩
    simp only [List.map_cons, List.map_reverse, List.mem_append, List.mem_cons, List.mem_reverse, List.not_mem_nil,
      or_false, List.map_append, List.map_nil] at hm ⊢
    rcases hm with hm | hm | hm
    · exact Or.inr hm
    · exact Or.inl (Or.inr hm)
    · exact Or.inl (Or.inl hm)

/-- **C48 (first name).** Directly after `class X extends`, `interface X extends` or `class X implements` (and white
space) classes resp. interfaces are completed, and `X` is excluded. -/
theorem first_name_completion (u : CharClass) (inClass following : Bool) (pre : List T) (X kw1 ws1 ws2 kw2 w : QString)
    (isClass : Bool) (kw : Tok) (hkw : kw = .EXTENDS ∨ (kw = .IMPLEMENTS ∧ isClass = true)) :
    ∃ a, analyse u inClass following false (pre ++ [⟨if isClass then .CLASS else .INTERFACE, kw1⟩, ⟨.WHITESPACE, ws1⟩,
        ⟨.STRING, X⟩, ⟨.WHITESPACE, ws2⟩, ⟨kw, kw2⟩] ++ ws (some w)) = some a ∧ a.valid = true ∧
      a.op = (if kw = .EXTENDS ∧ isClass = true then .ClassExtendsChoose else .InterfaceChoose) ∧
      a.forbidden = [lowerStr u X] := by
  have hrev : (pre ++ [(⟨if isClass then .CLASS else .INTERFACE, kw1⟩ : T), ⟨.WHITESPACE, ws1⟩,
        ⟨.STRING, X⟩, ⟨.WHITESPACE, ws2⟩, ⟨kw, kw2⟩]).reverse = ⟨kw, kw2⟩ :: ⟨.WHITESPACE, ws2⟩ :: ⟨.STRING, X⟩ ::
        ⟨.WHITESPACE, ws1⟩ :: ⟨if isClass then .CLASS else .INTERFACE, kw1⟩ :: pre.reverse := by simp
  rw [analyse_ws u inClass following _ (some w) _ _ (by rcases hkw with rfl | ⟨rfl, _⟩ <;> simp) hrev]
  have hlen : ¬ (pre.length + 1 + 1 + 1 + 1 + 1 < 4) := by omega
  rcases hkw with rfl | ⟨rfl, rfl⟩
  · cases isClass <;>
      simp [hlen, analyseToken, kindAt_cons, afterExtends, prependedBy, prependedLoop, stringBack]
  · simp [hlen, analyseToken, kindAt_cons, afterImplements, prependedBy, prependedLoop, stringBack]

/-- A limit: after `class X extends Y implements` nothing is completed. -/
theorem implements_after_extends_invalid (u : CharClass) (inClass following : Bool) (pre : List T)
    (X Y kw1 ws1 ws2 ws3 ws4 kw2 kw3 w : QString) :
    ∃ a, analyse u inClass following false (pre ++ [⟨.CLASS, kw1⟩, ⟨.WHITESPACE, ws1⟩, ⟨.STRING, X⟩, ⟨.WHITESPACE, ws2⟩,
      ⟨.EXTENDS, kw2⟩, ⟨.WHITESPACE, ws3⟩, ⟨.STRING, Y⟩, ⟨.WHITESPACE, ws4⟩, ⟨.IMPLEMENTS, kw3⟩] ++ ws (some w)) = some a ∧
      a.valid = false := by
  have hrev : (pre ++ [(⟨.CLASS, kw1⟩ : T), ⟨.WHITESPACE, ws1⟩, ⟨.STRING, X⟩, ⟨.WHITESPACE, ws2⟩,
      ⟨.EXTENDS, kw2⟩, ⟨.WHITESPACE, ws3⟩, ⟨.STRING, Y⟩, ⟨.WHITESPACE, ws4⟩, ⟨.IMPLEMENTS, kw3⟩]).reverse =
      ⟨.IMPLEMENTS, kw3⟩ :: ⟨.WHITESPACE, ws4⟩ :: ⟨.STRING, Y⟩ :: ⟨.WHITESPACE, ws3⟩ :: ⟨.EXTENDS, kw2⟩ ::
      ⟨.WHITESPACE, ws2⟩ :: ⟨.STRING, X⟩ :: ⟨.WHITESPACE, ws1⟩ :: ⟨.CLASS, kw1⟩ :: pre.reverse := by simp
  rw [analyse_ws u inClass following _ (some w) _ _ (by simp) hrev]
  have hlen : ¬ (pre.length + 1 + 1 + 1 + 1 + 1 + 1 + 1 + 1 + 1 < 4) := by omega
  simp [hlen, analyseToken, kindAt_cons, afterImplements, prependedBy, prependedLoop]

/-- the list walk stays on names, white space and commas -/
theorem interfaceList_only (l : List T) (acc : List QString) (names : List QString) (h : interfaceList l acc = some names) :
    ∃ a b, l = a ++ b ∧ (∀ t ∈ a, t.kind = .STRING ∨ t.kind = .WHITESPACE ∨ t.kind = .COMMA) ∧
      (kindAt b 0 = .EXTENDS ∨ kindAt b 0 = .IMPLEMENTS) := by
  have hskip : ∀ l : List T, ∃ a, l = a ++ skipWs l ∧ ∀ t ∈ a, t.kind = .WHITESPACE := by
    intro l
    cases l with
    | nil => exact ⟨[], rfl, by simp⟩
    | cons t r =>
      by_cases ht : t.kind = .WHITESPACE
      · exact ⟨[t], by simp [skipWs, ht], by simp [ht]⟩
      · exact ⟨[], by simp [skipWs, ht], by simp⟩
  induction hn : l.length using Nat.strongRecOn generalizing l acc with
  | ind n ih =>
    subst hn
    rw [interfaceList] at h
    split at h
    · simp at h
    · next s r0 hs =>
      obtain ⟨a1, ha1, hw1⟩ := hskip l
      obtain ⟨a2, ha2, hw2⟩ := hskip r0
      split at h
      · next hk =>
        have hl : l = a1 ++ (s :: a2) ++ skipWs r0 := by
          rw [ha1, hs]; simp; exact ha2
        have hlen : (skipWs r0).length < l.length := by rw [hl]; simp; omega
        have hpre : ∀ t ∈ a1 ++ s :: a2, t.kind = .STRING ∨ t.kind = .WHITESPACE ∨ t.kind = .COMMA := by
          intro t ht
          simp only [List.mem_append, List.mem_cons] at ht
          rcases ht with ht | rfl | ht
          · exact Or.inr (Or.inl (hw1 t ht))
          · exact Or.inl hk
          · exact Or.inr (Or.inl (hw2 t ht))
        simp only at h
        split at h
        · next hh =>
          refine ⟨a1 ++ s :: a2, skipWs r0, hl, hpre, ?_⟩
          unfold listHead startsWith at hh
          cases hr : skipWs r0 with
          | nil => rw [hr] at hh; simp at hh
          | cons x r => rw [hr] at hh; simp at hh; rcases hh with hh | hh <;> simp [kindAt, hh]
        · split at h
          · next hcomma =>
            cases hr : skipWs r0 with
            | nil => rw [hr] at hcomma; simp [kindAt] at hcomma
            | cons x r =>
              rw [hr] at hcomma h
              have hx : x.kind = .COMMA := hcomma
              obtain ⟨a, b, hab, hka, hkb⟩ := ih r.length (by rw [hl, hr]; simp; omega) r _ h rfl
              refine ⟨a1 ++ s :: a2 ++ x :: a, b, by rw [hl, hr, hab]; simp, ?_, hkb⟩
              intro t ht
              simp only [List.mem_append, List.mem_cons] at ht hpre
              rcases ht with ht | rfl | ht
              · exact hpre t ht
              · exact Or.inr (Or.inr hx)
              · exact hka t ht
          · obtain ⟨a, b, hab, hka, hkb⟩ := ih (skipWs r0).length hlen (skipWs r0) _ h rfl
            refine ⟨a1 ++ s :: a2 ++ a, b, by rw [hl, hab]; simp, ?_, hkb⟩
            intro t ht
            rcases List.mem_append.1 ht with ht | ht
            · exact hpre t ht
            · exact hka t ht
      · simp at h

/-- **C48/C37 (arguments).** After a comma in an argument list (balanced tokens `mid` since the opening parenthesis `p`,
among them no `extends` or `implements`) the completion is for the call of `p`. -/
theorem argument_completion (u : CharClass) (inClass following : Bool) (pre mid : List T) (p comma : T)
    (hp : p.kind = .LPAREN) (hc : comma.kind = .COMMA) (hb : Balanced mid)
    (hm : ∀ t ∈ mid, t.kind ≠ .EXTENDS ∧ t.kind ≠ .IMPLEMENTS) (trail : Option QString) :
    ∃ a, analyse u inClass following false (pre ++ p :: mid ++ [comma] ++ ws trail) = some a ∧ a.valid = true ∧
      a.op = .FunctionCallAccess ∧ a.back = (pre ++ [p]).reverse := by
  have hrev : (pre ++ p :: mid ++ [comma]).reverse = comma :: (mid.reverse ++ p :: pre.reverse) := by simp
  have hcall := enclosing_call pre mid p comma hp hb
  rw [hrev] at hcall
  have hno : interfaceList (mid.reverse ++ p :: pre.reverse) [] = none := by
    cases hi : interfaceList (mid.reverse ++ p :: pre.reverse) [] with
    | none => rfl
    | some names =>
      exfalso
      obtain ⟨a, b, hab, hka, hkb⟩ := interfaceList_only _ _ _ hi
      rcases List.append_eq_append_iff.1 hab with ⟨c', hc1, hc2⟩ | ⟨c', hc1, hc2⟩
      · cases c' with
        | nil =>
          simp at hc2
          rw [← hc2, kindAt_cons, hp] at hkb
          simp at hkb
        | cons x c' =>
          injection hc2 with hx _
          subst hx
          have := hka p (by rw [hc1]; simp)
          rw [hp] at this; simp at this
      · cases c' with
        | nil =>
          simp at hc2
          rw [hc2, kindAt_cons, hp] at hkb
          simp at hkb
        | cons x c' =>
          rw [hc2, List.cons_append, kindAt_cons] at hkb
          have := hm x (by rw [← List.mem_reverse, hc1]; simp)
          rcases hkb with h | h
          · exact this.1 h
          · exact this.2 h
  rw [analyse_ws u inClass following _ trail _ _ (by rw [hc]; simp) hrev]
  have hat : analyseToken u inClass following trail.isSome (comma :: (mid.reverse ++ p :: pre.reverse)) =
      some { valid := true, op := .FunctionCallAccess, back := (pre ++ [p]).reverse } := by
    simp only [analyseToken, kindAt_cons, hc, afterComma, List.tail_cons, hno, hcall]
    simp [kindAt, hp]
  rw [hat]
  exact ⟨{ valid := true, op := .FunctionCallAccess, back := (pre ++ [p]).reverse }, by simp, rfl, rfl, rfl⟩

/-- `f(g(1), A, ` -/
example : (analyse asciiClass false false false
    [⟨.OPEN_TAG, q! "<?php "⟩, ⟨.STRING, q! "f"⟩, ⟨.LPAREN, q! "("⟩, ⟨.STRING, q! "g"⟩, ⟨.LPAREN, q! "("⟩,
     ⟨.LNUMBER, q! "1"⟩, ⟨.RPAREN, q! ")"⟩, ⟨.COMMA, q! ","⟩, ⟨.WHITESPACE, q! " "⟩, ⟨.STRING, q! "A"⟩, ⟨.COMMA, q! ","⟩,
     ⟨.WHITESPACE, q! " "⟩]).map (fun a => (a.op, a.back.length)) = some (.FunctionCallAccess, 3) := by
  decide +kernel

end KPhp.Completion
