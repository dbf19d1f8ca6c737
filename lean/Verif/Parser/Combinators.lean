import Verif.Parser.ExprProps
/-
# Parts of the functions KDevPG generates

KDevPG generates one function per rule of parser/php.g; inside of it, every construct of the notation becomes a fixed pattern of
code: a token is compared and consumed, alternatives and loops look at the next token (php.g:294-1180; the patterns themselves are
those of the generator, which is not part of /repo).  `P` is such a function, without its node: it reads a beginning of the tokens
or fails.  `Sound` and `Compl` say together that it reads exactly the texts of some trees.
-/
namespace KPhp.Stmt
open KPhp (Tok)
open KPhp.Grammar (headIn)

/-- a function of the parser: what was read and the tokens left; `none`: a syntax error -/
abbrev P (α : Type) := List Tok → Option (α × List Tok)

/-- what is read is the text of the result -/
def Sound {α} (p : P α) (txt : α → List Tok) (ok : α → Prop) : Prop :=
  ∀ ts a r, p ts = some (a, r) → ts = txt a ++ r ∧ ok a
/-- the text of every tree is read as this tree, if the text behind permits it -/
def Compl {α} (p : P α) (txt : α → List Tok) (ok : α → Prop) (fol : α → List Tok → Prop) : Prop :=
  ∀ a r, ok a → fol a r → p (txt a ++ r) = some (a, r)

/-- anything may follow -/
def anyFol {α} : α → List Tok → Prop := fun _ _ => True
/-- the next token, if any, is none of these -/
def NotIn (ks : List Tok) (r : List Tok) : Prop := headIn ks r = false
/-- the next token is one of these -/
def In (ks : List Tok) (r : List Tok) : Prop := headIn ks r = true

/-! ## Tokens -/

/-- consume a token of this kind -/
def skip (k : Tok) : List Tok → Option (List Tok)
  | t :: r => if t = k then some r else none
  | [] => none

/-- consume one of these tokens -/
def oneOf (ks : List Tok) : P Tok
  | t :: r => if ks.contains t then some (t, r) else none
  | [] => none

/-- `(K | 0)` -/
def flag (k : Tok) : P Bool := fun ts => some (if headIn [k] ts then (true, ts.tail) else (false, ts))

/-- `(p | 0)`: by the tokens `p` begins with -/
def opt {α} (first : List Tok) (p : P α) : P (Option α) := fun ts =>
  if headIn first ts then (p ts).map fun x => (some x.1, x.2) else some (none, ts)

def andThen {α β} (p : P α) (q : P β) : P (α × β) := fun ts => do
  let (a, ts) ← p ts
  let (b, ts) ← q ts
  return ((a, b), ts)

/-- a token and `p` -/
def pre {α} (k : Tok) (p : P α) : P α := fun ts => do
  let ts ← skip k ts
  p ts
/-- `p` and a token -/
def post {α} (p : P α) (k : Tok) : P α := fun ts => do
  let (a, ts) ← p ts
  let ts ← skip k ts
  return (a, ts)

def mapP {α β} (f : α → β) (p : P α) : P β := fun ts => (p ts).map fun x => (f x.1, x.2)

/-- `#p @ k`; the first argument bounds the number of elements -/
def sepN {α} (k : Tok) (p : P α) : Nat → P (List α)
  | 0, _ => none
  | n + 1, ts => do
    let (a, ts) ← p ts
    if headIn [k] ts then do
      let (l, ts) ← sepN k p n ts.tail
      return (a :: l, ts)
    else return ([a], ts)
def sep {α} (k : Tok) (p : P α) : P (List α) := fun ts => sepN k p (ts.length + 1) ts

/-- `#p @ (k [: if (yytoken == close) break; :])`: a separator may stand at the end, in front of `close` -/
def sepTrailN {α} (k close : Tok) (p : P α) : Nat → P (List α × Bool)
  | 0, _ => none
  | n + 1, ts => do
    let (a, ts) ← p ts
    if headIn [k] ts then
      if headIn [close] ts.tail then return (([a], true), ts.tail)
      else do
        let ((l, b), ts) ← sepTrailN k close p n ts.tail
        return ((a :: l, b), ts)
    else return (([a], false), ts)
def sepTrail {α} (k close : Tok) (p : P α) : P (List α × Bool) := fun ts => sepTrailN k close p (ts.length + 1) ts

/-- `p*`: as long as a token stands there that `p` begins with -/
def manyN {α} (first : List Tok) (p : P α) : Nat → P (List α)
  | 0, _ => none
  | n + 1, ts =>
    if headIn first ts then do
      let (a, ts) ← p ts
      let (l, ts) ← manyN first p n ts
      return (a :: l, ts)
    else some ([], ts)
def many {α} (first : List Tok) (p : P α) : P (List α) := fun ts => manyN first p (ts.length + 1) ts

/-! ## Texts -/

def flagTxt (k : Tok) (b : Bool) : List Tok := if b then [k] else []
def optTxt {α} (txt : α → List Tok) : Option α → List Tok
  | none => []
  | some a => txt a
/-- texts with separators between them -/
def sepTxt {α} (k : Tok) (txt : α → List Tok) : List α → List Tok
  | [] => []
  | [a] => txt a
  | a :: b :: l => txt a ++ k :: sepTxt k txt (b :: l)
def sepTrailTxt {α} (k : Tok) (txt : α → List Tok) (x : List α × Bool) : List Tok := sepTxt k txt x.1 ++ flagTxt k x.2
def manyTxt {α} (txt : α → List Tok) : List α → List Tok
  | [] => []
  | a :: l => txt a ++ manyTxt txt l

theorem sepTxt_cons {α} (k : Tok) (txt : α → List Tok) (a : α) {l : List α} (h : l ≠ []) :
    sepTxt k txt (a :: l) = txt a ++ k :: sepTxt k txt l := by
  cases l with
  | nil => exact absurd rfl h
  | cons b l => rfl

/-! ## Look-ahead -/

theorem headIn_cons (ks : List Tok) (t : Tok) (r : List Tok) : headIn ks (t :: r) = ks.contains t := rfl
theorem notIn_cons {ks : List Tok} {t : Tok} {r : List Tok} (h : ks.contains t = false) : NotIn ks (t :: r) := h
theorem notIn_nil (ks : List Tok) : NotIn ks [] := rfl
theorem in_cons {ks : List Tok} {t : Tok} {r : List Tok} (h : ks.contains t = true) : In ks (t :: r) := h
theorem in_of {ks : List Tok} {r : List Tok} (h : In ks r) : ∃ t r', r = t :: r' ∧ ks.contains t = true := by
  cases r with
  | nil => cases h
  | cons t r' => exact ⟨t, r', rfl, h⟩
theorem headIn_one_iff {k : Tok} {ts : List Tok} : headIn [k] ts = true ↔ ∃ r, ts = k :: r := Grammar.headIn_one
theorem NotIn.sub {ks ks' : List Tok} {r : List Tok} (h : NotIn ks r) (hs : ∀ t, ks'.contains t = true → ks.contains t = true) :
    NotIn ks' r := by
  cases r with
  | nil => rfl
  | cons t r =>
    cases hc : ks'.contains t
    · exact hc
    · have := hs t hc; rw [NotIn, headIn_cons, this] at h; cases h
theorem In.notIn {ks ks' : List Tok} {r : List Tok} (h : In ks r) (hs : ∀ t, ks.contains t = true → ks'.contains t = false) :
    NotIn ks' r := by
  obtain ⟨t, r', rfl, h⟩ := in_of h
  exact hs t h

/-! ## Soundness -/

theorem skip_some {k : Tok} {ts r : List Tok} : skip k ts = some r ↔ ts = k :: r := by
  cases ts with
  | nil => simp [skip]
  | cons t ts =>
    simp only [skip]
    split
    · rename_i h; subst h; simp
    · rename_i h; simp [h]
theorem skip_cons (k : Tok) (r : List Tok) : skip k (k :: r) = some r := by simp [skip]

theorem sound_oneOf (ks : List Tok) : Sound (oneOf ks) (fun t => [t]) (fun t => ks.contains t = true) := by
  intro ts a r h
  cases ts with
  | nil => cases h
  | cons t ts =>
    simp only [oneOf] at h
    split at h
    · rename_i hc; cases h; exact ⟨rfl, hc⟩
    · cases h

theorem sound_flag (k : Tok) : Sound (flag k) (flagTxt k) (fun _ => True) := by
  intro ts a r h
  simp only [flag, Option.some.injEq] at h
  split at h
  · rename_i hh
    obtain ⟨r', rfl⟩ := headIn_one_iff.1 hh
    cases h; exact ⟨rfl, trivial⟩
  · cases h; exact ⟨rfl, trivial⟩

theorem sound_opt {α} {p : P α} {txt ok} (h : Sound p txt ok) (first : List Tok) :
    Sound (opt first p) (optTxt txt) (fun o => ∀ a, o = some a → ok a) := by
  intro ts a r ha
  simp only [opt] at ha
  split at ha
  · rw [Option.map_eq_some_iff] at ha
    obtain ⟨⟨x, r'⟩, hp, he⟩ := ha
    cases he
    obtain ⟨h1, h2⟩ := h _ _ _ hp
    exact ⟨h1, fun a ha => by cases ha; exact h2⟩
  · cases ha; exact ⟨rfl, fun a ha => by cases ha⟩

theorem sound_andThen {α β} {p : P α} {q : P β} {tp okp tq okq} (hp : Sound p tp okp) (hq : Sound q tq okq) :
    Sound (andThen p q) (fun x => tp x.1 ++ tq x.2) (fun x => okp x.1 ∧ okq x.2) := by
  intro ts a r h
  simp only [andThen, Option.bind_eq_bind, Option.bind_eq_some_iff, Option.pure_def, Option.some.injEq] at h
  obtain ⟨⟨a1, r1⟩, h1, ⟨b1, r2⟩, h2, he⟩ := h
  cases he
  obtain ⟨e1, o1⟩ := hp _ _ _ h1
  obtain ⟨e2, o2⟩ := hq _ _ _ h2
  exact ⟨by simp only at e2 ⊢; rw [e1, e2, List.append_assoc], o1, o2⟩

theorem sound_pre {α} {p : P α} {txt ok} (h : Sound p txt ok) (k : Tok) : Sound (pre k p) (fun a => k :: txt a) ok := by
  intro ts a r ha
  simp only [pre, Option.bind_eq_bind, Option.bind_eq_some_iff] at ha
  obtain ⟨r1, h1, h2⟩ := ha
  rw [skip_some] at h1
  obtain ⟨e, o⟩ := h _ _ _ h2
  exact ⟨by rw [h1, e]; rfl, o⟩
theorem sound_post {α} {p : P α} {txt ok} (h : Sound p txt ok) (k : Tok) : Sound (post p k) (fun a => txt a ++ [k]) ok := by
  intro ts a r ha
  simp only [post, Option.bind_eq_bind, Option.bind_eq_some_iff, Option.pure_def, Option.some.injEq] at ha
  obtain ⟨⟨a1, r1⟩, h1, r2, h2, he⟩ := ha
  cases he
  rw [skip_some] at h2
  obtain ⟨e, o⟩ := h _ _ _ h1
  exact ⟨by simp only at h2; rw [e, h2]; simp, o⟩

theorem sound_map {α β} {p : P α} {txt ok} (h : Sound p txt ok) {f : α → β} {txt' : β → List Tok} {ok' : β → Prop}
    (hf : ∀ a, ok a → txt' (f a) = txt a ∧ ok' (f a)) : Sound (mapP f p) txt' ok' := by
  intro ts b r hb
  simp only [mapP, Option.map_eq_some_iff] at hb
  obtain ⟨⟨a, r'⟩, hp, he⟩ := hb
  cases he
  obtain ⟨e, o⟩ := h _ _ _ hp
  exact ⟨by rw [e, (hf a o).1], (hf a o).2⟩

theorem sound_sepN {α} {p : P α} {txt ok} (h : Sound p txt ok) (k : Tok) (n : Nat) :
    Sound (sepN k p n) (sepTxt k txt) (fun l => l ≠ [] ∧ ∀ a ∈ l, ok a) := by
  induction n with
  | zero => intro ts a r ha; cases ha
  | succ n ih =>
    intro ts a r ha
    simp only [sepN, Option.bind_eq_bind, Option.bind_eq_some_iff] at ha
    obtain ⟨⟨a1, r1⟩, h1, h2⟩ := ha
    obtain ⟨e, o⟩ := h _ _ _ h1
    simp only at h2
    split at h2
    · rename_i hh
      obtain ⟨r2, rfl⟩ := headIn_one_iff.1 hh
      simp only [List.tail_cons, Option.bind_eq_some_iff, Option.pure_def, Option.some.injEq] at h2
      obtain ⟨⟨l, r3⟩, h3, he⟩ := h2
      cases he
      obtain ⟨e2, hne, o2⟩ := ih _ _ _ h3
      refine ⟨?_, List.cons_ne_nil _ _, ?_⟩
      · rw [sepTxt_cons k txt a1 hne, e, e2]; simp
      · intro x hx
        rcases List.mem_cons.1 hx with rfl | hx
        · exact o
        · exact o2 x hx
    · cases h2
      exact ⟨e, List.cons_ne_nil _ _, by simpa using o⟩
theorem sound_sep {α} {p : P α} {txt ok} (h : Sound p txt ok) (k : Tok) :
    Sound (sep k p) (sepTxt k txt) (fun l => l ≠ [] ∧ ∀ a ∈ l, ok a) := fun ts a r ha => sound_sepN h k _ ts a r ha

theorem sound_sepTrailN {α} {p : P α} {txt ok} (h : Sound p txt ok) (k close : Tok) (n : Nat) :
    Sound (sepTrailN k close p n) (sepTrailTxt k txt) (fun x => x.1 ≠ [] ∧ ∀ a ∈ x.1, ok a) := by
  induction n with
  | zero => intro ts a r ha; cases ha
  | succ n ih =>
    intro ts a r ha
    simp only [sepTrailN, Option.bind_eq_bind, Option.bind_eq_some_iff] at ha
    obtain ⟨⟨a1, r1⟩, h1, h2⟩ := ha
    obtain ⟨e, o⟩ := h _ _ _ h1
    simp only at h2
    split at h2
    · rename_i hh
      obtain ⟨r2, rfl⟩ := headIn_one_iff.1 hh
      simp only [List.tail_cons] at h2
      by_cases hcl : headIn [close] r2 = true
      · simp only [hcl, if_true, Option.pure_def, Option.some.injEq] at h2
        cases h2
        exact ⟨by rw [e]; simp [sepTrailTxt, sepTxt, flagTxt], List.cons_ne_nil _ _, by simpa using o⟩
      · simp only [hcl, Bool.false_eq_true, if_false, Option.bind_eq_some_iff, Option.pure_def, Option.some.injEq] at h2
        obtain ⟨⟨⟨l, b⟩, r3⟩, h3, he⟩ := h2
        cases he
        obtain ⟨e2, hne, o2⟩ := ih _ _ _ h3
        refine ⟨?_, List.cons_ne_nil _ _, ?_⟩
        · simp only [sepTrailTxt] at e2 ⊢
          rw [sepTxt_cons k txt a1 hne, e, e2]; simp
        · intro x hx
          rcases List.mem_cons.1 hx with rfl | hx
          · exact o
          · exact o2 x hx
    · cases h2
      exact ⟨by rw [e]; simp [sepTrailTxt, sepTxt, flagTxt], List.cons_ne_nil _ _, by simpa using o⟩
theorem sound_sepTrail {α} {p : P α} {txt ok} (h : Sound p txt ok) (k close : Tok) :
    Sound (sepTrail k close p) (sepTrailTxt k txt) (fun x => x.1 ≠ [] ∧ ∀ a ∈ x.1, ok a) :=
  fun ts a r ha => sound_sepTrailN h k close _ ts a r ha

theorem sepTrailN_close {α} {p : P α} {k close : Tok} (n : Nat) : ∀ {ts l r}, sepTrailN k close p n ts = some ((l, true), r) → In [close] r := by
  induction n with
  | zero => intro ts l r h; cases h
  | succ n ih =>
    intro ts l r ha
    simp only [sepTrailN, Option.bind_eq_bind, Option.bind_eq_some_iff] at ha
    obtain ⟨⟨a1, r1⟩, h1, h2⟩ := ha
    simp only at h2
    split at h2
    · by_cases hcl : headIn [close] r1.tail = true
      · simp only [hcl, if_true, Option.pure_def, Option.some.injEq] at h2
        cases h2
        exact hcl
      · simp only [hcl, Bool.false_eq_true, if_false, Option.bind_eq_some_iff, Option.pure_def, Option.some.injEq] at h2
        obtain ⟨⟨⟨l, b⟩, r3⟩, h3, he⟩ := h2
        cases he
        exact ih h3
    · cases h2
theorem sepTrail_close {α} {p : P α} {k close : Tok} {ts l r} (h : sepTrail k close p ts = some ((l, true), r)) : In [close] r :=
  sepTrailN_close _ h

theorem sepTrailN_last {α} {p : P α} {k close : Tok} (n : Nat) : ∀ {ts l r}, sepTrailN k close p n ts = some ((l, false), r) →
    ∃ ts' a, l.getLast? = some a ∧ p ts' = some (a, r) ∧ NotIn [k] r := by
  induction n with
  | zero => intro ts l r h; cases h
  | succ n ih =>
    intro ts l r ha
    simp only [sepTrailN, Option.bind_eq_bind, Option.bind_eq_some_iff] at ha
    obtain ⟨⟨a1, r1⟩, h1, h2⟩ := ha
    simp only at h2
    split at h2
    · by_cases hcl : headIn [close] r1.tail = true
      · simp only [hcl, if_true, Option.pure_def, Option.some.injEq] at h2
        cases h2
      · simp only [hcl, Bool.false_eq_true, if_false, Option.bind_eq_some_iff, Option.pure_def, Option.some.injEq] at h2
        obtain ⟨⟨⟨l, b⟩, r3⟩, h3, he⟩ := h2
        cases he
        obtain ⟨ts', a, hl, hp, hn⟩ := ih h3
        refine ⟨ts', a, ?_, hp, hn⟩
        cases l with
        | nil => cases hl
        | cons b l => rw [List.getLast?_cons_cons]; exact hl
    · rename_i hh
      cases h2
      exact ⟨_, a1, rfl, h1, by simpa [NotIn] using hh⟩
theorem sepTrail_last {α} {p : P α} {k close : Tok} {ts l r} (h : sepTrail k close p ts = some ((l, false), r)) :
    ∃ ts' a, l.getLast? = some a ∧ p ts' = some (a, r) ∧ NotIn [k] r := sepTrailN_last _ h

theorem sound_manyN {α} {p : P α} {txt ok} (h : Sound p txt ok) (first : List Tok) (n : Nat) :
    Sound (manyN first p n) (manyTxt txt) (fun l => ∀ a ∈ l, ok a) := by
  induction n with
  | zero => intro ts a r ha; cases ha
  | succ n ih =>
    intro ts a r ha
    simp only [manyN] at ha
    split at ha
    · simp only [Option.bind_eq_bind, Option.bind_eq_some_iff, Option.pure_def, Option.some.injEq] at ha
      obtain ⟨⟨a1, r1⟩, h1, ⟨l, r2⟩, h2, he⟩ := ha
      cases he
      obtain ⟨e, o⟩ := h _ _ _ h1
      obtain ⟨e2, o2⟩ := ih _ _ _ h2
      refine ⟨by simp only at e2; rw [e, e2]; simp [manyTxt], ?_⟩
      intro x hx
      rcases List.mem_cons.1 hx with rfl | hx
      · exact o
      · exact o2 x hx
    · cases ha; exact ⟨rfl, fun a ha => by cases ha⟩
theorem sound_many {α} {p : P α} {txt ok} (h : Sound p txt ok) (first : List Tok) :
    Sound (many first p) (manyTxt txt) (fun l => ∀ a ∈ l, ok a) := fun ts a r ha => sound_manyN h first _ ts a r ha

theorem Sound.weaken {α} {p : P α} {txt ok ok'} (h : Sound p txt ok) (hw : ∀ a, ok a → ok' a) : Sound p txt ok' :=
  fun ts a r ha => ⟨(h ts a r ha).1, hw a (h ts a r ha).2⟩

/-! ## Completeness -/

theorem compl_oneOf (ks : List Tok) : Compl (oneOf ks) (fun t => [t]) (fun t => ks.contains t = true) anyFol := by
  intro a r h _
  simp only [oneOf, List.cons_append, List.nil_append, h, if_true]

theorem compl_flag (k : Tok) : Compl (flag k) (flagTxt k) (fun _ => True) (fun b r => b = false → NotIn [k] r) := by
  intro a r _ h
  cases a with
  | true => simp [flag, flagTxt, headIn]
  | false => simp [flag, flagTxt, show headIn [k] r = false from h rfl]

theorem compl_opt {α} {p : P α} {txt ok fol} (h : Compl p txt ok fol) (first : List Tok) (hf : ∀ a, ok a → In first (txt a)) :
    Compl (opt first p) (optTxt txt) (fun o => ∀ a, o = some a → ok a)
      (fun o r => (o = none → NotIn first r) ∧ ∀ a, o = some a → fol a r) := by
  intro a r ha hr
  cases a with
  | none => simp [opt, optTxt, show headIn first r = false from hr.1 rfl]
  | some a =>
    have hin : headIn first (txt a ++ r) = true := by
      obtain ⟨t, r', he, hc⟩ := in_of (hf a (ha a rfl))
      rw [he]; exact hc
    simp only [opt, optTxt, hin, if_true, h a r (ha a rfl) (hr.2 a rfl), Option.map_some]

theorem compl_andThen {α β} {p : P α} {q : P β} {tp okp fp tq okq fq} (hp : Compl p tp okp fp) (hq : Compl q tq okq fq)
    {fol : α × β → List Tok → Prop}
    (hm : ∀ a b r, okp a → okq b → fol (a, b) r → fp a (tq b ++ r) ∧ fq b r) :
    Compl (andThen p q) (fun x => tp x.1 ++ tq x.2) (fun x => okp x.1 ∧ okq x.2) fol := by
  rintro ⟨a, b⟩ r ⟨oa, ob⟩ hr
  obtain ⟨f1, f2⟩ := hm a b r oa ob hr
  simp only [andThen, List.append_assoc, hp a _ oa f1, hq b r ob f2, Option.bind_eq_bind, Option.bind_some, Option.pure_def]

theorem compl_pre {α} {p : P α} {txt ok fol} (h : Compl p txt ok fol) (k : Tok) : Compl (pre k p) (fun a => k :: txt a) ok fol := by
  intro a r o f
  simp only [pre, List.cons_append, skip_cons, h a r o f, Option.bind_eq_bind, Option.bind_some]
theorem compl_post {α} {p : P α} {txt ok fol} (h : Compl p txt ok fol) (k : Tok) (hk : ∀ a r, ok a → fol a (k :: r)) :
    Compl (post p k) (fun a => txt a ++ [k]) ok anyFol := by
  intro a r o _
  simp only [post, List.append_assoc, List.singleton_append, h a _ o (hk a r o), skip_cons, Option.bind_eq_bind, Option.bind_some,
    Option.pure_def]

theorem compl_map {α β} {p : P α} {txt ok fol} (h : Compl p txt ok fol) {f : α → β} {txt' : β → List Tok} {ok' : β → Prop}
    {fol' : β → List Tok → Prop} (hf : ∀ b, ok' b → ∃ a, f a = b ∧ ok a ∧ txt' b = txt a ∧ ∀ r, fol' b r → fol a r) :
    Compl (mapP f p) txt' ok' fol' := by
  intro b r o hr
  obtain ⟨a, rfl, oa, he, hfol⟩ := hf b o
  simp only [mapP, he, h a r oa (hfol r hr), Option.map_some]

theorem mapP_some {α β} {p : P α} {f : α → β} {ts r : List Tok} {a : α} (h : p ts = some (a, r)) : mapP f p ts = some (f a, r) := by
  simp only [mapP, h, Option.map_some]

theorem sepTxt_length {α} (k : Tok) (txt : α → List Tok) (l : List α) : l.length ≤ (sepTxt k txt l).length + 1 := by
  induction l with
  | nil => simp
  | cons a l ih =>
    cases l with
    | nil => simp
    | cons b l =>
      rw [sepTxt_cons k txt a (List.cons_ne_nil _ _)]
      simp only [List.length_append, List.length_cons] at ih ⊢
      omega

theorem compl_sepN {α} {p : P α} {txt ok fol} (h : Compl p txt ok fol) (k : Tok) (hk : ∀ a r, ok a → fol a (k :: r)) (n : Nat) :
    Compl (sepN k p n) (sepTxt k txt) (fun l => l.length ≤ n ∧ l ≠ [] ∧ ∀ a ∈ l, ok a)
      (fun l r => NotIn [k] r ∧ ∀ a, l.getLast? = some a → fol a r) := by
  induction n with
  | zero => rintro a r ⟨h1, h2, -⟩ -; cases a with
    | nil => exact absurd rfl h2
    | cons a l => simp at h1
  | succ n ih =>
    rintro l r ⟨h1, h2, h3⟩ ⟨hr, hl⟩
    cases l with
    | nil => exact absurd rfl h2
    | cons a l =>
      cases l with
      | nil =>
        simp only [sepN, sepTxt, h a r (h3 a (by simp)) (hl a rfl), Option.bind_eq_bind, Option.bind_some,
          show headIn [k] r = false from hr]
        rfl
      | cons b l =>
        have := ih (b :: l) r ⟨by simp only [List.length_cons] at h1 ⊢; omega, List.cons_ne_nil _ _, fun x hx => h3 x (List.mem_cons_of_mem _ hx)⟩
          ⟨hr, fun x hx => hl x (by rw [List.getLast?_cons_cons]; exact hx)⟩
        rw [sepTxt_cons k txt a (List.cons_ne_nil _ _), List.append_assoc, List.cons_append]
        simp only [sepN, h a _ (h3 a (by simp)) (hk a _ (h3 a (by simp))), Option.bind_eq_bind, Option.bind_some, headIn_cons,
          List.contains_cons, beq_self_eq_true, Bool.true_or, if_true, List.tail_cons, this]
        rfl
theorem compl_sep {α} {p : P α} {txt ok fol} (h : Compl p txt ok fol) (k : Tok) (hk : ∀ a r, ok a → fol a (k :: r)) :
    Compl (sep k p) (sepTxt k txt) (fun l => l ≠ [] ∧ ∀ a ∈ l, ok a)
      (fun l r => NotIn [k] r ∧ ∀ a, l.getLast? = some a → fol a r) := by
  rintro l r ⟨h1, h2⟩ hr
  refine compl_sepN h k hk _ l r ⟨?_, h1, h2⟩ hr
  have := sepTxt_length k txt l
  simp only [List.length_append]; omega

theorem compl_sepTrailN {α} {p : P α} {txt ok fol} (h : Compl p txt ok fol) (k close : Tok) (hk : ∀ a r, ok a → fol a (k :: r))
    (hc : ∀ a r, ok a → NotIn [close] (txt a ++ r)) (n : Nat) :
    Compl (sepTrailN k close p n) (sepTrailTxt k txt) (fun x => x.1.length ≤ n ∧ x.1 ≠ [] ∧ ∀ a ∈ x.1, ok a)
      (fun x r => (x.2 = true → In [close] r) ∧ (x.2 = false → NotIn [k] r ∧ ∀ a, x.1.getLast? = some a → fol a r)) := by
  induction n with
  | zero => rintro ⟨a, b⟩ r ⟨h1, h2, -⟩ -; cases a with
    | nil => exact absurd rfl h2
    | cons a l => simp at h1
  | succ n ih =>
    rintro ⟨l, b⟩ r ⟨h1, h2, h3⟩ ⟨hr1, hr2⟩
    cases l with
    | nil => exact absurd rfl h2
    | cons a l =>
      have oa := h3 a (by simp)
      cases l with
      | nil =>
        cases b with
        | true =>
          simp only [sepTrailN, sepTrailTxt, sepTxt, flagTxt, if_true, List.append_assoc, List.singleton_append,
            h a _ oa (hk a _ oa), Option.bind_eq_bind, Option.bind_some, headIn_cons, List.contains_cons, beq_self_eq_true,
            Bool.true_or, List.tail_cons, show headIn [close] r = true from hr1 rfl]
          rfl
        | false =>
          obtain ⟨hr, hl⟩ := hr2 rfl
          simp only [sepTrailN, sepTrailTxt, sepTxt, flagTxt, Bool.false_eq_true, if_false, List.append_nil, h a r oa (hl a rfl),
            Option.bind_eq_bind, Option.bind_some, show headIn [k] r = false from hr]
          rfl
      | cons a' l =>
        have := ih (a' :: l, b) r
          ⟨by simp only [List.length_cons] at h1 ⊢; omega, List.cons_ne_nil _ _, fun x hx => h3 x (List.mem_cons_of_mem _ hx)⟩
          ⟨hr1, fun hb => ⟨(hr2 hb).1, fun x hx => (hr2 hb).2 x (by rw [List.getLast?_cons_cons]; exact hx)⟩⟩
        have hnc : headIn [close] (sepTrailTxt k txt (a' :: l, b) ++ r) = false := by
          have oa' := h3 a' (by simp)
          cases l with
          | nil => simp only [sepTrailTxt, sepTxt, List.append_assoc]; exact hc a' _ oa'
          | cons a'' l =>
            simp only [sepTrailTxt]
            rw [sepTxt_cons k txt a' (List.cons_ne_nil _ _), List.append_assoc, List.append_assoc]
            exact hc a' _ oa'
        simp only [sepTrailTxt] at this hnc ⊢
        rw [sepTxt_cons k txt a (List.cons_ne_nil _ _), List.append_assoc, List.append_assoc, List.cons_append]
        rw [List.append_assoc] at this hnc
        simp only [sepTrailN, h a _ oa (hk a _ oa), Option.bind_eq_bind, Option.bind_some, headIn_cons,
          List.contains_cons, beq_self_eq_true, Bool.true_or, if_true, List.tail_cons, hnc, Bool.false_eq_true, if_false, this]
        rfl
theorem compl_sepTrail {α} {p : P α} {txt ok fol} (h : Compl p txt ok fol) (k close : Tok) (hk : ∀ a r, ok a → fol a (k :: r))
    (hc : ∀ a r, ok a → NotIn [close] (txt a ++ r)) :
    Compl (sepTrail k close p) (sepTrailTxt k txt) (fun x => x.1 ≠ [] ∧ ∀ a ∈ x.1, ok a)
      (fun x r => (x.2 = true → In [close] r) ∧ (x.2 = false → NotIn [k] r ∧ ∀ a, x.1.getLast? = some a → fol a r)) := by
  rintro x r ⟨h1, h2⟩ hr
  refine compl_sepTrailN h k close hk hc _ x r ⟨?_, h1, h2⟩ hr
  have := sepTxt_length k txt x.1
  simp only [sepTrailTxt, List.length_append]; omega

theorem compl_manyN {α} {p : P α} {txt ok fol} (h : Compl p txt ok fol) (first : List Tok) (hf : ∀ a, ok a → In first (txt a))
    (hk : ∀ a b r, ok a → ok b → fol a (txt b ++ r)) (n : Nat) :
    Compl (manyN first p n) (manyTxt txt) (fun l => l.length < n ∧ ∀ a ∈ l, ok a)
      (fun l r => NotIn first r ∧ ∀ a, l.getLast? = some a → fol a r) := by
  induction n with
  | zero => rintro a r ⟨h1, -⟩ -; omega
  | succ n ih =>
    rintro l r ⟨h1, h3⟩ ⟨hr, hl⟩
    cases l with
    | nil => simp only [manyN, manyTxt, List.nil_append, show headIn first r = false from hr]; rfl
    | cons a l =>
      have oa := h3 a (by simp)
      have := ih l r ⟨by simp only [List.length_cons] at h1; omega, fun x hx => h3 x (List.mem_cons_of_mem _ hx)⟩
        ⟨hr, fun x hx => hl x (by cases l with | nil => cases hx | cons b l => rw [List.getLast?_cons_cons]; exact hx)⟩
      have hin : headIn first (txt a ++ (manyTxt txt l ++ r)) = true := by
        obtain ⟨t, r', he, hc⟩ := in_of (hf a oa)
        rw [he]; exact hc
      have hfol : fol a (manyTxt txt l ++ r) := by
        cases l with
        | nil => exact hl a rfl
        | cons b l => rw [manyTxt, List.append_assoc]; exact hk a b _ oa (h3 b (by simp))
      simp only [manyN, manyTxt, List.append_assoc, hin, if_true, h a _ oa hfol, Option.bind_eq_bind, Option.bind_some, this]
      rfl
theorem manyTxt_length {α} (txt : α → List Tok) {ok : α → Prop} (hn : ∀ a, ok a → txt a ≠ []) (l : List α) (h : ∀ a ∈ l, ok a) :
    l.length ≤ (manyTxt txt l).length := by
  induction l with
  | nil => simp
  | cons a l ih =>
    have h1 := ih fun x hx => h x (List.mem_cons_of_mem _ hx)
    have h2 := List.length_pos_iff.2 (hn a (h a (by simp)))
    simp only [manyTxt, List.length_append, List.length_cons]; omega
theorem compl_many {α} {p : P α} {txt ok fol} (h : Compl p txt ok fol) (first : List Tok) (hf : ∀ a, ok a → In first (txt a))
    (hk : ∀ a b r, ok a → ok b → fol a (txt b ++ r)) :
    Compl (many first p) (manyTxt txt) (fun l => ∀ a ∈ l, ok a)
      (fun l r => NotIn first r ∧ ∀ a, l.getLast? = some a → fol a r) := by
  intro l r h1 hr
  refine compl_manyN h first hf hk _ l r ⟨?_, h1⟩ hr
  have := manyTxt_length txt (ok := ok) (fun a ha he => by have := hf a ha; rw [he] at this; cases this) l h1
  simp only [List.length_append]; omega

theorem Compl.weaken {α} {p : P α} {txt ok fol ok' fol'} (h : Compl p txt ok fol) (ho : ∀ a, ok' a → ok a)
    (hf : ∀ a r, ok' a → fol' a r → fol a r) : Compl p txt ok' fol' := fun a r o f => h a r (ho a o) (hf a r o f)

end KPhp.Stmt
