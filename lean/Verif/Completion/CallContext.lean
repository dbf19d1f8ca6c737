import Verif.Completion.Expression
import Verif.Completion.Kinds
/-!
# Calls around the cursor and access with `::` (C50, C55)

Consequences of the models in `Expression.lean` for the texts a user writes, and a model of the names before `::`
(completion/context.cpp:850-890).
-/
namespace KPhp.Completion

/-! ## The call of the last parenthesis -/

/-- the text before the cursor: something, `prev`, white space `o`, `(`, white space `trail` -/
def callText (toks : List T) (prev : T) (o : Option QString) (t : T) (trail : Option QString) : List T :=
  toks ++ [prev] ++ ws o ++ [t] ++ ws trail

theorem paren_analysis (u : CharClass) (inClass following : Bool) (toks : List T) (prev : T) (o : Option QString) (t : T)
    (trail : Option QString) (h : t.kind = .LPAREN) (hw : prev.kind ≠ .WHITESPACE) (h1 : prev.kind ≠ .CATCH)
    (h2 : prev.kind ≠ .ARRAY) :
    analyse u inClass following false (callText toks prev o t trail) =
      some { valid := true, op := .FunctionCallAccess, back := t :: (toks ++ [prev] ++ ws o).reverse } := by
  unfold callText
  rw [analyse_last _ _ _ _ _ _ (by rw [h]; simp)]
  have hs : skipWs ((toks ++ [prev] ++ ws o).reverse) = prev :: toks.reverse := by
    rw [List.reverse_append, List.reverse_append]; exact skipWs_ws o prev _ hw
  simp only [analyseToken, kindAt_cons, h]
  have ha : afterLParen (t :: (toks ++ [prev] ++ ws o).reverse) =
      { valid := true, op := .FunctionCallAccess, back := t :: (toks ++ [prev] ++ ws o).reverse } := by
    simp only [afterLParen, List.tail_cons, hs, kindAt_cons, h1, h2, if_false]
  rw [ha]
  simp

theorem prepended_one (t prev : T) (toks : List T) (o : Option QString) (k : Tok) (hw : prev.kind ≠ .WHITESPACE) :
    ∃ r, prependedBy (t :: (toks ++ [prev] ++ ws o).reverse) [k] true = some r ∧ (r.isNone = true ↔ prev.kind ≠ k) := by
  have e : (toks ++ [prev] ++ ws o).reverse = ws o ++ prev :: toks.reverse := by
    simp only [List.reverse_append, ws_reverse]; rfl
  have hl : ¬ (t :: (toks ++ [prev] ++ ws o).reverse).length < [k].length := by simp
  unfold prependedBy
  rw [if_neg hl, List.tail_cons, e]
  have hwb : (prev.kind == Tok.WHITESPACE) = false := by simpa using hw
  cases o with
  | none =>
    by_cases hk : prev.kind = k
    · subst hk; exact ⟨some 2, by simp [ws, prependedLoop, hw], by simp⟩
    · exact ⟨none, by simp [ws, prependedLoop, hwb, hk], by simp [hk]⟩
  | some x =>
    by_cases hk : prev.kind = k
    · exact ⟨some 3, by simp [ws, prependedLoop, hk], by simp [hk]⟩
    · exact ⟨none, by simp [ws, prependedLoop, hk], by simp [hk]⟩

/-- **C50 (the call typed last).** After `name(` and `$variable(`, white space anywhere, the innermost context is the call with
this parenthesis. -/
theorem call_context (u : CharClass) (w : Oracle) (inClass following : Bool) (toks : List T) (prev : T) (o : Option QString)
    (t : T) (trail : Option QString) (h : t.kind = .LPAREN) (hp : prev.kind = .STRING ∨ prev.kind = .VARIABLE)
    (hop : Opened (callText toks prev o t trail)) :
    ∃ l, contexts u w inClass following false (callText toks prev o t trail) =
      some ((toks ++ [prev] ++ ws o ++ [t]).reverse :: l) := by
  have hne : prev.kind ≠ .WHITESPACE ∧ prev.kind ≠ .CATCH ∧ prev.kind ≠ .ARRAY := by
    rcases hp with h | h <;> (rw [h]; decide)
  have ha := paren_analysis u inClass following toks prev o t trail h hne.1 hne.2.1 hne.2.2
  obtain ⟨r1, e1, i1⟩ := prepended_one t prev toks o .STRING hne.1
  obtain ⟨r2, e2, i2⟩ := prepended_one t prev toks o .VARIABLE hne.1
  obtain ⟨l, hl, _⟩ := parent_contexts u w inClass following false _ hop
  have hn : (r1.isNone && r2.isNone) = false := by
    cases hx : (r1.isNone && r2.isNone) with
    | false => rfl
    | true =>
      simp only [Bool.and_eq_true, i1, i2] at hx
      rcases hp with h | h <;> simp [h] at hx
  simp only [contexts, ha, Option.bind_eq_bind, Option.bind_some, e1, e2, hn, Bool.not_true, Bool.or_self,
    Bool.false_eq_true, if_false] at hl ⊢
  cases hc : chain u w (callText toks prev o t trail).length true false
      ⟨t :: (toks ++ [prev] ++ ws o).reverse, (callText toks prev o t trail).drop
        (t :: (toks ++ [prev] ++ ws o).reverse).length⟩ with
  | none => rw [hc] at hl; simp at hl
  | some l' => exact ⟨l', by rw [Option.bind_some]; simp⟩

/-- **C50 (no call).** After `if (`, `while (`, `((` and every other parenthesis that does not follow a name or variable there is
no call context. -/
theorem no_call_context (u : CharClass) (w : Oracle) (inClass following : Bool) (toks : List T) (prev : T) (o : Option QString)
    (t : T) (trail : Option QString) (h : t.kind = .LPAREN) (hw : prev.kind ≠ .WHITESPACE)
    (hp : prev.kind ≠ .STRING ∧ prev.kind ≠ .VARIABLE) :
    contexts u w inClass following false (callText toks prev o t trail) = some [] := by
  by_cases h1 : prev.kind = .CATCH
  · obtain ⟨a, ha, hv, hop⟩ := (after_paren u inClass following toks t trail prev o h hw).is
    rw [if_pos h1] at hop
    have ha' : analyse u inClass following false (callText toks prev o t trail) = some a := ha
    simp only [contexts, ha', Option.bind_eq_bind, Option.bind_some, hop]
    split <;> rfl
  · by_cases h2 : prev.kind = .ARRAY
    · obtain ⟨a, ha, hv, hop⟩ := (after_paren u inClass following toks t trail prev o h hw).is
      rw [if_neg h1, if_pos h2] at hop
      have ha' : analyse u inClass following false (callText toks prev o t trail) = some a := ha
      simp only [contexts, ha', Option.bind_eq_bind, Option.bind_some, hop]
      split <;> rfl
    · have ha := paren_analysis u inClass following toks prev o t trail h hw h1 h2
      obtain ⟨r1, e1, i1⟩ := prepended_one t prev toks o .STRING hw
      obtain ⟨r2, e2, i2⟩ := prepended_one t prev toks o .VARIABLE hw
      have n1 := i1.2 hp.1
      have n2 := i2.2 hp.2
      simp only [contexts, ha, Option.bind_eq_bind, Option.bind_some, e1, e2, n1, n2, Bool.not_true, Bool.or_self,
        Bool.and_self, Bool.false_eq_true, if_false, if_true]

/-- `<?php $f(`: the hypotheses of `call_context` can be met. -/
example : Opened (callText [⟨.OPEN_TAG, q! "<?php "⟩] ⟨.VARIABLE, q! "$f"⟩ none ⟨.LPAREN, q! "("⟩ none) :=
  ⟨by decide, [], _, rfl, by simp, by decide⟩

/-! ## The call around an expression -/

/-- What a context with its expression at the end of `front ++ m :: mid` becomes. -/
theorem enclosing_front {A : TA} {front mid : List T} {m x y : T} (h : A.back = (front ++ [y, x] ++ m :: mid).reverse) :
    enclosing A (-(mid.length : Int)) =
      if x.kind = .LPAREN then
        (prependedBy (front ++ [y, x]).reverse [.STRING] true).bind fun p =>
          some (if p.isNone then .done else .parent ⟨(front ++ [y, x]).reverse, m :: mid ++ A.ahead⟩)
      else if x.kind = .COMMA then
        if kindAt (removeOtherArguments (front ++ [y, x]).reverse) 0 = .INVALID then some .invalid
        else (prependedBy (removeOtherArguments (front ++ [y, x]).reverse) [.STRING] true).bind fun p =>
          some (if p.isNone then .done else .parent ⟨removeOtherArguments (front ++ [y, x]).reverse, []⟩)
      else some .done := by
  have hb : A.back = mid.reverse ++ m :: x :: y :: front.reverse := by rw [h]; simp
  have hd : A.back.drop mid.length = m :: x :: y :: front.reverse := by
    rw [hb]; have : mid.length = mid.reverse.length := by simp
    rw [this, List.drop_left]
  have ht : A.back.take mid.length = mid.reverse := by
    rw [hb]; have : mid.length = mid.reverse.length := by simp
    rw [this, List.take_left]
  have hm1 : A.moveTo (-(mid.length : Int)) = some ⟨m :: x :: y :: front.reverse, mid ++ A.ahead⟩ := by
    unfold TA.moveTo
    have h0 : -(mid.length : Int) ≤ 0 := by omega
    have h1 : (- -(mid.length : Int)).toNat = mid.length := by omega
    simp only [if_pos h0, h1, hd, ht]
    simp
  have hm2 : TA.moveTo ⟨m :: x :: y :: front.reverse, mid ++ A.ahead⟩ (-1) =
      some ⟨x :: y :: front.reverse, m :: (mid ++ A.ahead)⟩ := by
    unfold TA.moveTo
    simp
  have hr : (front ++ [y, x]).reverse = x :: y :: front.reverse := by simp
  have htype : TA.typeAt ⟨m :: x :: y :: front.reverse, mid ++ A.ahead⟩ (-1) = x.kind := rfl
  simp only [enclosing, hm1, Option.bind_eq_bind, Option.bind_some, htype, hm2, hr]
  have hty : TA.type ⟨x :: y :: front.reverse, m :: (mid ++ A.ahead)⟩ = x.kind := rfl
  by_cases h1 : x.kind = .LPAREN
  · simp only [h1, true_or, if_true, hty, reduceCtorEq, if_false, List.cons_append]
    congr 1
    funext p
    cases p <;> rfl
  · by_cases h2 : x.kind = .COMMA
    · simp only [h2, or_true, if_true, hty, reduceCtorEq, if_false]
      show (if kindAt _ 0 = _ then _ else _) = _
      split
      · rfl
      · congr 1
        funext p
        cases p <;> rfl
    · simp [h1, h2]

/-- The call around an expression that stands at the end of `front`: the parenthesis before it or, after a comma, the one
before the other arguments, if a name stands before it. -/
inductive Around : List T → List T → Prop
  | first (g : List T) (n lp : T) (o : Option QString) (hn : n.kind = .STRING) (hl : lp.kind = .LPAREN) :
      Around (g ++ [n] ++ ws o ++ [lp]) (g ++ [n] ++ ws o ++ [lp])
  | later (g args : List T) (n lp c : T) (o : Option QString) (hn : n.kind = .STRING) (hl : lp.kind = .LPAREN)
      (hc : c.kind = .COMMA) (ha : Balanced args) :
      Around (g ++ [n] ++ ws o ++ [lp] ++ args ++ [c]) (g ++ [n] ++ ws o ++ [lp])

theorem around_two {front call : List T} (h : Around front call) : ∃ f y x, front = f ++ [y, x] := by
  have split : ∀ (l : List T) (x : T), l ≠ [] → ∃ f y, l ++ [x] = f ++ [y, x] := by
    intro l x hl
    refine ⟨l.dropLast, l.getLast hl, ?_⟩
    have := List.dropLast_concat_getLast hl
    calc l ++ [x] = (l.dropLast ++ [l.getLast hl]) ++ [x] := by rw [this]
      _ = _ := by simp
  cases h with
  | first g n lp o hn hl =>
    obtain ⟨f, y, e⟩ := split (g ++ [n] ++ ws o) lp (by simp)
    exact ⟨f, y, lp, e⟩
  | later g args n lp c o hn hl hc ha =>
    obtain ⟨f, y, e⟩ := split (g ++ [n] ++ ws o ++ [lp] ++ args) c (by simp)
    exact ⟨f, y, c, e⟩

/-- **C50 (the call around an expression).** An expression that directly follows the parenthesis or a comma of a call is an
argument of this call. -/
theorem argument_parent {A : TA} {front call mid : List T} {m : T} (hr : Around front call)
    (h : A.back = (front ++ m :: mid).reverse) :
    ∃ p, enclosing A (-(mid.length : Int)) = some (.parent p) ∧ p.back = call.reverse := by
  obtain ⟨f, y, x, e⟩ := around_two hr
  rw [e] at h
  rw [enclosing_front h]
  have hpre : ∀ (g : List T) (n lp : T) (o : Option QString), n.kind = .STRING →
      ∃ k, prependedBy (g ++ [n] ++ ws o ++ [lp]).reverse [.STRING] true = some (some k) := by
    intro g n lp o hn
    obtain ⟨r, e1, i⟩ := prepended_one lp n g o .STRING (by rw [hn]; decide)
    have : (g ++ [n] ++ ws o ++ [lp]).reverse = lp :: (g ++ [n] ++ ws o).reverse := by simp
    rw [this, e1]
    cases r with
    | none => exact absurd hn (i.1 rfl)
    | some k => exact ⟨k, rfl⟩
  rw [← e]
  cases hr with
  | first g n lp o hn hl =>
    have hx : x = lp := by
      have e' : (g ++ [n] ++ ws o) ++ [lp] = (f ++ [y]) ++ [x] := by rw [e]; simp
      simpa using (List.append_inj_right' e' (by simp)).symm
    obtain ⟨k, hk⟩ := hpre g n lp o hn
    rw [hx, if_pos hl, hk]
    exact ⟨_, rfl, rfl⟩
  | later g args n lp c o hn hl hc ha =>
    have hx : x = c := by
      have e' : (g ++ [n] ++ ws o ++ [lp] ++ args) ++ [c] = (f ++ [y]) ++ [x] := by rw [e]; simp
      simpa using (List.append_inj_right' e' (by simp)).symm
    have hrem : removeOtherArguments (g ++ [n] ++ ws o ++ [lp] ++ args ++ [c]).reverse =
        (g ++ [n] ++ ws o ++ [lp]).reverse := by
      have : (g ++ [n] ++ ws o ++ [lp] ++ args ++ [c]).reverse =
          c :: (args.reverse ++ (lp :: (g ++ [n] ++ ws o).reverse)) := by simp
      rw [this]
      unfold removeOtherArguments
      rw [List.tail_cons, removeOther_balanced ha]
      simp [removeOther, hl]
    obtain ⟨k, hk⟩ := hpre g n lp o hn
    rw [hx, if_neg (by rw [hc]; decide), if_pos hc, hrem, hk]
    have hki : kindAt (g ++ [n] ++ ws o ++ [lp]).reverse 0 = .LPAREN := by
      have : (g ++ [n] ++ ws o ++ [lp]).reverse = lp :: (g ++ [n] ++ ws o).reverse := by simp
      rw [this]; exact hl
    rw [hki, if_neg (by decide)]
    exact ⟨_, rfl, rfl⟩

/-- **Limit of C50.** If white space stands between the parenthesis (or comma) and the expression, the call around it is not
found. -/
theorem spaced_argument_lost {A : TA} {front mid : List T} {m sp y : T} (hs : sp.kind = .WHITESPACE)
    (h : A.back = (front ++ [y, sp] ++ m :: mid).reverse) :
    enclosing A (-(mid.length : Int)) = some .done := by
  rw [enclosing_front h, if_neg (by rw [hs]; decide), if_neg (by rw [hs]; decide)]

/-- `f($a, $b`, without the space: an argument of `f`. -/
example : Around [⟨.OPEN_TAG, q! "<?php "⟩, ⟨.STRING, q! "f"⟩, ⟨.LPAREN, q! "("⟩, ⟨.VARIABLE, q! "$a"⟩, ⟨.COMMA, q! ","⟩]
    [⟨.OPEN_TAG, q! "<?php "⟩, ⟨.STRING, q! "f"⟩, ⟨.LPAREN, q! "("⟩] :=
  .later [⟨.OPEN_TAG, q! "<?php "⟩] [⟨.VARIABLE, q! "$a"⟩] ⟨.STRING, q! "f"⟩ _ _ none rfl rfl rfl (.tok _ (by decide))

/-- **C50 (member access in an argument).** If the expression before `->` directly follows the parenthesis or a comma of a call
and has a type, the context around it is that call. -/
theorem member_in_argument (u : CharClass) (w : Oracle) (front call mid : List T) (m : T) (ahead : List T)
    (hr : Around front call) (hb : Balanced (m :: mid)) (hn : ∀ t ∈ m :: mid, breaks false t.kind = false)
    (hm : m.kind ≠ .WHITESPACE ∧ m.kind ≠ .RETURN)
    (htext : trimmed u (((m :: mid).map T.text).flatten) ≠ [])
    (htyped : ∀ close, w.typed (trimmed u (((m :: mid).map T.text).flatten) ++ close) = true) :
    ∃ p, evaluateRound u w false false ⟨(front ++ m :: mid).reverse, ahead⟩ = some (.parent p) ∧ p.back = call.reverse := by
  have hstop : ∃ pre stop, front = pre ++ [stop] ∧ isStart false stop.kind := by
    cases hr with
    | first g n lp o hn hl => exact ⟨_, lp, rfl, Or.inr hl⟩
    | later g args n lp c o hn hl hc ha => exact ⟨_, c, rfl, Or.inl (by rw [hc]; rfl)⟩
  obtain ⟨pre, stop, e, hs⟩ := hstop
  obtain ⟨s, o, h1, h2, h3, h4⟩ := member_expression_partial u pre mid stop m none none ahead hs hb hn hm
  have hf : pre ++ stop :: lead none none ++ m :: mid = front ++ m :: mid := by rw [e]; simp [lead, ws]
  rw [hf] at h1 h4
  obtain ⟨p, hp1, hp2⟩ := argument_parent (A := ⟨(front ++ m :: mid).reverse, ahead⟩) hr rfl
  refine ⟨p, ?_, hp2⟩
  have hne : (trimmed u (((m :: mid).map T.text).flatten) ++ (if stop.kind = .LPAREN then q! ")" else [])).isEmpty = false := by
    cases hx : trimmed u (((m :: mid).map T.text).flatten) with
    | nil => exact absurd hx htext
    | cons a b => rfl
  have ho : ¬ o < 0 := by omega
  simp only [evaluateRound, h1, Option.bind_eq_bind, Option.bind_some, if_neg ho, Bool.false_eq_true, if_false, h4, hne,
    htyped, Bool.not_true, Bool.or_self]
  rw [h3]
  exact hp1

/-- **C50 (before `::`).** Only a plain name can stand before `::`; it is looked up without regard to case. -/
theorem static_name (u : CharClass) (w : Oracle) (pre : List T) (stop m : T) (a : Option QString)
    (r : Option (QString × Option QString)) (ahead : List T) (hs : isStart false stop.kind)
    (hb : Balanced [m]) (hn : breaks false m.kind = false) (hm : m.kind ≠ .WHITESPACE ∧ m.kind ≠ .RETURN) :
    let A : TA := ⟨(pre ++ stop :: lead a r ++ [m]).reverse, ahead⟩
    (m.kind ≠ .STRING → evaluateRound u w false true A = some .invalid) ∧
    (m.kind = .STRING → w.accessible (lowerStr u m.text) = false → evaluateRound u w false true A = some .invalid) ∧
    (m.kind = .STRING → w.accessible (lowerStr u m.text) = true → evaluateRound u w false true A = enclosing A 0) := by
  obtain ⟨s, o, h1, h2, h3, h4⟩ := member_expression_partial u pre [] stop m a r ahead hs hb (by simpa using hn) hm
  have h0 : s = 0 := by simpa using h3
  subst h0
  have ho : ¬ o < 0 := by omega
  have ht : TA.typeAt ⟨(pre ++ stop :: lead a r ++ [m]).reverse, ahead⟩ 0 = m.kind := by
    show kindAt _ 0 = _
    have : (pre ++ stop :: lead a r ++ [m]).reverse = m :: (pre ++ stop :: lead a r).reverse := by simp
    rw [this]; rfl
  have hname : nameAt ⟨(pre ++ stop :: lead a r ++ [m]).reverse, ahead⟩ 0 = some m.text := by
    have : (pre ++ stop :: lead a r ++ [m]).reverse = m :: (pre ++ stop :: lead a r).reverse := by simp
    rw [this]; rfl
  refine ⟨?_, ?_, ?_⟩
  · intro hk
    simp only [evaluateRound, h1, Option.bind_eq_bind, Option.bind_some, if_neg ho, if_true, ht, ne_eq, hk, not_false_eq_true]
  · intro hk hacc
    simp only [evaluateRound, h1, Option.bind_eq_bind, Option.bind_some, if_neg ho, if_true, ht, ne_eq, hk,
      not_true_eq_false, if_false, hname, hacc, Bool.not_false]
  · intro hk hacc
    simp only [evaluateRound, h1, Option.bind_eq_bind, Option.bind_some, if_neg ho, if_true, ht, ne_eq, hk,
      not_true_eq_false, if_false, hname, hacc, Bool.not_true, Bool.false_eq_true]

/-! ## The class before `::` -/

/-- A base of a class: its type resolves to this class, if it is a structure type with a class declaration. -/
structure BaseInfo where
  cls : Nat
  isClass : Bool
  abstract : Bool
deriving DecidableEq, Repr

/-- What the duchain says around the cursor. -/
structure Scope where
  /-- the class that owns the parent of the context at the cursor, and its bases in their order -/
  around : Option (Nat × List (Option BaseInfo))
  /-- `findDeclarationImportHelper(context, id, ClassDeclarationType)` -/
  find : QString → Option Nat

/-- What the access leads to: invalid, or the class whose members are offered and whether all of them are (`MemberAccess`). -/
inductive StaticTarget
  | invalid
  | of (c : Option Nat) (all : Bool)
deriving DecidableEq, Repr

/-- completion/context.cpp:857-890; the argument is the lower-case name -/
def staticTarget (sc : Scope) (id : QString) : StaticTarget :=
  if id = q! "self" ∨ id = q! "parent" ∨ id = q! "static" then
    match sc.around with
    | none => .of none false
    | some (c, bases) =>
      if id = q! "parent" then
        match bases.find? (fun b => match b with | some x => x.isClass && !x.abstract | none => false) with
        | some (some x) => .of (some x.cls) true
        | _ => .invalid
      else .of (some c) false
  else .of (sc.find id) false

/-- the oracle of `Expression.lean` for a scope -/
def Scope.oracle (sc : Scope) (typed : QString → Bool) : Oracle := ⟨typed, fun n => staticTarget sc n != .invalid⟩

/-- The base class of a class: the first of its bases that is a concrete class. -/
def ConcreteParent (bases : List (Option BaseInfo)) (p : Nat) : Prop :=
  ∃ before b after, bases = before ++ some b :: after ∧ b.cls = p ∧ b.isClass = true ∧ b.abstract = false ∧
    ∀ x, some x ∈ before → ¬ (x.isClass = true ∧ x.abstract = false)

/-- **C55 (`self`, `static`).** In a method of a class, `self::` and `static::` in any spelling give the static members of this
class. -/
theorem self_access (u : CharClass) (sc : Scope) (c : Nat) (bases : List (Option BaseInfo)) (h : sc.around = some (c, bases))
    (name : QString) (hn : lowerStr u name = q! "self" ∨ lowerStr u name = q! "static") :
    staticTarget sc (lowerStr u name) = .of (some c) false := by
  have hp : lowerStr u name ≠ q! "parent" := by
    rcases hn with h | h <;> (rw [h]; decide)
  unfold staticTarget
  rw [if_pos (by rcases hn with h | h <;> simp [h]), h]
  simp only [if_neg hp]

/-- **C55 (`parent`).** In a method, `parent::` gives all members of the concrete base class; exactly if there is none, nothing is
offered. -/
theorem parent_access (u : CharClass) (sc : Scope) (c : Nat) (bases : List (Option BaseInfo)) (h : sc.around = some (c, bases))
    (name : QString) (hn : lowerStr u name = q! "parent") :
    (∀ p all, staticTarget sc (lowerStr u name) = .of p all ↔ all = true ∧ ∃ q, p = some q ∧ ConcreteParent bases q) ∧
    (staticTarget sc (lowerStr u name) = .invalid ↔ ∀ q, ¬ ConcreteParent bases q) := by
  have he : staticTarget sc (lowerStr u name) =
      match bases.find? (fun b => match b with | some x => x.isClass && !x.abstract | none => false) with
        | some (some x) => .of (some x.cls) true
        | _ => .invalid := by
    unfold staticTarget
    rw [if_pos (by simp [hn]), h]
    simp only [if_pos hn]
  have hfind : ∀ b, bases.find? (fun b => match b with | some x => x.isClass && !x.abstract | none => false) = some b →
      ∃ x, b = some x ∧ ConcreteParent bases x.cls := by
    intro b hb
    rw [List.find?_eq_some_iff_append] at hb
    obtain ⟨h1, as, bs, h2, h3⟩ := hb
    cases b with
    | none => simp at h1
    | some x =>
      simp at h1
      refine ⟨x, rfl, as, x, bs, h2, rfl, h1.1, h1.2, ?_⟩
      intro y hy hc
      have := h3 (some y) hy
      simp [hc.1, hc.2] at this
  have huniq : ∀ p q, ConcreteParent bases p → ConcreteParent bases q → p = q := by
    rintro p q ⟨b1, x1, a1, e1, c1, k1, l1, m1⟩ ⟨b2, x2, a2, e2, c2, k2, l2, m2⟩
    rw [e1] at e2
    rcases List.append_eq_append_iff.1 e2 with ⟨d, hd1, hd2⟩ | ⟨d, hd1, hd2⟩
    · cases d with
      | nil => simp at hd2; rw [← c1, ← c2, hd2.1]
      | cons y d =>
        simp at hd2
        exact absurd ⟨k1, l1⟩ (m2 x1 (by rw [hd1, ← hd2.1]; simp))
    · cases d with
      | nil => simp at hd2; rw [← c1, ← c2, hd2.1]
      | cons y d =>
        simp at hd2
        exact absurd ⟨k2, l2⟩ (m1 x2 (by rw [hd1, ← hd2.1]; simp))
  have hno : bases.find? (fun b => match b with | some x => x.isClass && !x.abstract | none => false) = none →
      ∀ q, ¬ ConcreteParent bases q := by
    rintro hf q ⟨b, x, a, e, _, k, l, _⟩
    rw [List.find?_eq_none] at hf
    have := hf (some x) (by rw [e]; simp)
    simp [k, l] at this
  cases hf : bases.find? (fun b => match b with | some x => x.isClass && !x.abstract | none => false) with
  | none =>
    rw [he, hf]
    exact ⟨fun p all => ⟨fun h => by simp at h, fun ⟨_, q, _, hq⟩ => absurd hq (hno hf q)⟩, fun _ => hno hf, fun _ => rfl⟩
  | some b =>
    obtain ⟨x, rfl, hx⟩ := hfind b hf
    rw [he, hf]
    refine ⟨fun p all => ⟨?_, ?_⟩, ⟨fun h => by simp at h, fun h => absurd hx (h _)⟩⟩
    · intro h
      simp only [StaticTarget.of.injEq] at h
      exact ⟨h.2.symm, x.cls, h.1.symm, hx⟩
    · rintro ⟨rfl, q, rfl, hq⟩
      simp only [StaticTarget.of.injEq, and_true]
      rw [huniq _ _ hx hq]

/-- **C55 (other names).** Every other name before `::` gives the static members of the class found under the lower-case name. -/
theorem named_access (u : CharClass) (sc : Scope) (name : QString) (h1 : lowerStr u name ≠ q! "self")
    (h2 : lowerStr u name ≠ q! "static") (h3 : lowerStr u name ≠ q! "parent") :
    staticTarget sc (lowerStr u name) = .of (sc.find (lowerStr u name)) false := by
  unfold staticTarget
  rw [if_neg (by simp [h1, h2, h3])]

/-- **Limit of C55.** `parent::` offers nothing in a class that extends an abstract class, although calling methods of an abstract
parent is permitted. -/
theorem abstract_parent_invalid (sc : Scope) (c p : Nat) (h : sc.around = some (c, [some ⟨p, true, true⟩])) :
    staticTarget sc (q! "parent") = .invalid := by
  unfold staticTarget
  rw [if_pos (by simp), h]
  rfl

/-- A class with an interface and a concrete base. -/
example : ConcreteParent [some ⟨1, false, false⟩, none, some ⟨2, true, false⟩] 2 :=
  ⟨[some ⟨1, false, false⟩, none], ⟨2, true, false⟩, [], rfl, rfl, rfl, rfl, by simp⟩

end KPhp.Completion
