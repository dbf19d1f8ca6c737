import Verif.Chars
/-!
# The messages of syntax errors (C87)

Models `Parser::expectedSymbol` and `Parser::expectedToken` (parser/php.g:1325-1352), the message of an unexpected token (php.g:315-326) and
`Parser::reportProblem` (php.g:1288-1321).

Trusted, from the documentation and the source of Qt 5: `QString::arg` with one argument replaces all the occurrences of the lowest numbered place marker (`%n` or `%nn`, also `%Ln`; any character with a
`QChar::digitValue` counts as a digit), and leaves the string alone if there is none; with several arguments the place markers of the pattern are
replaced in one pass, so that a marker inside an argument is not touched.
-/
namespace KPhp.Errors

/-! ### `QString::arg` -/

/-- A piece of a pattern: a character, or a place marker with its number and its text. -/
inductive Seg
  | chr (c : QChar)
  | mark (n : Nat) (raw : QString)
deriving DecidableEq, Repr

/-- The number after a `%`: one or two digits.  Returns the number, its text and the rest. -/
def number? (digit : QChar → Option Nat) : QString → Option (Nat × QString × QString)
  | [] => none
  | d :: r =>
    match digit d with
    | none => none
    | some a =>
      match r with
      | [] => some (a, [d], [])
      | e :: r' =>
        match digit e with
        | some b => some (10 * a + b, [d, e], r')
        | none => some (a, [d], e :: r')

/-- What follows a `%` in a place marker: an `L` is allowed before the number. -/
def marker? (digit : QChar → Option Nat) : QString → Option (Nat × QString × QString)
  | 76 :: s => (number? digit s).map fun (n, t, r) => (n, 76 :: t, r)        -- 'L'
  | s => number? digit s

/-- The pieces of a pattern, at most `fuel` of them (`findArgEscapes` of Qt). -/
def pieces (digit : QChar → Option Nat) : Nat → QString → List Seg
  | 0, _ => []
  | _ + 1, [] => []
  | n + 1, c :: s =>
    if c = c! '%' then
      match marker? digit s with
      | some (k, t, r) => .mark k (c :: t) :: pieces digit n r
      | none => .chr c :: pieces digit n s
    else .chr c :: pieces digit n s

/-- The pieces of a pattern; `digit` is `QChar::digitValue`. -/
def segs (digit : QChar → Option Nat) (s : QString) : List Seg := pieces digit s.length s

/-- The lowest number of a place marker. -/
def lowest : List Seg → Option Nat
  | [] => none
  | .chr _ :: l => lowest l
  | .mark n _ :: l => match lowest l with
    | none => some n
    | some m => some (min n m)

/-- The text of the pieces, the markers with number `k` replaced by `t`. -/
def fill (k : Nat) (t : QString) : List Seg → QString
  | [] => []
  | .chr c :: l => c :: fill k t l
  | .mark n raw :: l => (if n = k then t else raw) ++ fill k t l

/-- `QString::arg` with one argument. -/
def arg (digit : QChar → Option Nat) (s t : QString) : QString :=
  match lowest (segs digit s) with
  | none => s
  | some k => fill k t (segs digit s)

/-! ### the messages -/

/-- The decimal text of a number (`QString::arg(int)` writes it in the C locale). -/
def decimal (n : Nat) : QString := (Nat.toDigits 10 n).map Char.toNat

/-- A token as the message shows it: its text, kind, start and end position. -/
structure Tok where
  text : QString
  kind : Nat
  sLine : Nat
  sCol : Nat
  eLine : Nat
  eCol : Nat

/-- `Parser::expectedToken`, parser/php.g:1326-1329. -/
def expectedToken (digit : QChar → Option Nat) (name : QString) : QString :=
  arg digit (q! "Expected token \"%1\"") name

/-- The message of a token that cannot begin a statement, parser/php.g:315-326. -/
def unexpectedToken (digit : QChar → Option Nat) (text : QString) : QString :=
  arg digit (q! "Unexpected token \"%1\".") text

/-- The first step of `Parser::expectedSymbol`: `.arg(name, kind != 0 ? text : "EOF")` on the literal pattern, in one pass (parser/php.g:1344-1347). -/
def symbolFirst (name : QString) (t : Tok) : QString :=
  q! "Expected symbol \"" ++ name ++ q! "\" (current token: \"" ++ (if t.kind ≠ 0 then t.text else q! "EOF")
    ++ q! "\" [%3] at %4:%5 - %6:%7)"

/-- `Parser::expectedSymbol`, parser/php.g:1331-1352. -/
def expectedSymbol (digit : QChar → Option Nat) (name : QString) (t : Tok) : QString :=
  let s := symbolFirst name t
  let s := arg digit s (decimal t.kind)
  let s := arg digit s (decimal t.sLine)
  let s := arg digit s (decimal t.sCol)
  let s := arg digit s (decimal t.eLine)
  arg digit s (decimal t.eCol)

/-! ### reporting -/

/-- `Parser::ProblemType`, parser/php.g:158-163. -/
inductive Kind
  | error | warning | info | todo
deriving DecidableEq, Repr

/-- `IProblem::Severity`, the values the parser uses. -/
inductive Severity
  | error | warning | hint
deriving DecidableEq, Repr

/-- `IProblem::Source`, the values the parser uses. -/
inductive Source
  | parser | toDo
deriving DecidableEq, Repr

/-- A reported problem. -/
structure Problem where
  source : Source
  severity : Severity
  description : QString
  range : (Nat × Nat) × (Nat × Nat)
deriving DecidableEq, Repr

/-- `Parser::reportProblem`, parser/php.g:1288-1321: `index` is the position of the token stream (one past the current token), `offset` is
negative or 0; the list is `m_problems`.  The offset is `-back`.  A negative position (undefined in the code) is not modelled. -/
def report (toks : List Tok) (index : Nat) (back : Nat) (kind : Kind) (message : QString) (ps : List Problem) : List Problem :=
  match toks[index - back]? with
  | none => ps
  | some t =>
    ps ++ [{ source := match kind with
                | .todo => .toDo
                | _ => .parser
             severity := match kind with
                | .error => .error
                | .warning => .warning
                | .info => .hint
                | .todo => .hint
             description := message
             range := ((t.sLine, t.sCol), (t.eLine, t.eCol + 1)) }]

/-! ### Specification -/

/-- What is trusted about `QChar::digitValue`: its values on ASCII. -/
structure Digits (digit : QChar → Option Nat) : Prop where
  digits : ∀ n, n < 10 → digit (48 + n) = some n
  others : ∀ c, c < 48 ∨ (57 < c ∧ c < 128) → digit c = none

/-- The text contains the place marker with number `n`: a `%`, perhaps an `L`, and one digit not followed by a digit, or two digits. -/
inductive HasMarker (digit : QChar → Option Nat) (n : Nat) : QString → Prop
  | one {pre l post : QString} {d : QChar} : l = [] ∨ l = q! "L" → digit d = some n → (∀ c r, post = c :: r → digit c = none) →
      HasMarker digit n (pre ++ c! '%' :: (l ++ d :: post))
  | two {pre l post : QString} {d e : QChar} {a b : Nat} : l = [] ∨ l = q! "L" → digit d = some a → digit e = some b → n = 10 * a + b →
      HasMarker digit n (pre ++ c! '%' :: (l ++ d :: e :: post))

/-- The message as it is meant. -/
def intended (name : QString) (t : Tok) : QString :=
  q! "Expected symbol \"" ++ name ++ q! "\" (current token: \"" ++ t.text ++ q! "\" [" ++ decimal t.kind ++ q! "] at "
    ++ decimal t.sLine ++ q! ":" ++ decimal t.sCol ++ q! " - " ++ decimal t.eLine ++ q! ":" ++ decimal t.eCol ++ q! ")"

/-! ### lemmas on the pieces -/

theorem number?_spec {digit : QChar → Option Nat} {s : QString} {n : Nat} {t r : QString} (h : number? digit s = some (n, t, r)) :
    s = t ++ r ∧ t ≠ [] := by
  cases s with
  | nil => simp [number?] at h
  | cons d s =>
    simp only [number?] at h
    cases hd : digit d with
    | none => simp [hd] at h
    | some a =>
      simp only [hd] at h
      cases s with
      | nil => simp at h; obtain ⟨_, rfl, rfl⟩ := h; simp
      | cons e s =>
        simp only at h
        cases he : digit e with
        | none => simp [he] at h; obtain ⟨_, rfl, rfl⟩ := h; simp
        | some b => simp [he] at h; obtain ⟨_, rfl, rfl⟩ := h; simp

theorem marker?_spec {digit : QChar → Option Nat} {s : QString} {n : Nat} {t r : QString} (h : marker? digit s = some (n, t, r)) :
    s = t ++ r ∧ t ≠ [] := by
  unfold marker? at h
  split at h
  · rename_i s
    cases hs : number? digit s with
    | none => simp [hs] at h
    | some x =>
      obtain ⟨n', t', r'⟩ := x
      simp [hs] at h
      obtain ⟨_, rfl, rfl⟩ := h
      have := number?_spec hs
      simp [← this.1]
  · exact number?_spec h

theorem pieces_fuel {digit : QChar → Option Nat} : ∀ (n m : Nat) (s : QString), s.length ≤ n → s.length ≤ m → pieces digit n s = pieces digit m s := by
  intro n
  induction n with
  | zero =>
    intro m s hn _
    have : s = [] := List.eq_nil_of_length_eq_zero (by omega)
    subst this
    cases m <;> simp [pieces]
  | succ n ih =>
    intro m s hn hm
    cases s with
    | nil => cases m <;> simp [pieces]
    | cons c s =>
      cases m with
      | zero => simp at hm
      | succ m =>
        simp only [List.length_cons] at hn hm
        have hs := ih m s (by omega) (by omega)
        unfold pieces
        split
        · cases hk : marker? digit s with
          | none => simp only [hs]
          | some x =>
            obtain ⟨k, t, r⟩ := x
            have h := (marker?_spec hk).1
            have hl : s.length = t.length + r.length := by rw [h, List.length_append]
            simp only
            rw [ih m r (by omega) (by omega)]
        · rw [hs]

theorem segs_nil (digit : QChar → Option Nat) : segs digit [] = [] := by simp [segs, pieces]

theorem segs_chr {digit : QChar → Option Nat} {c : QChar} (s : QString) (h : c ≠ c! '%') : segs digit (c :: s) = .chr c :: segs digit s := by
  simp [segs, pieces, h]

theorem segs_none {digit : QChar → Option Nat} {s : QString} (h : marker? digit s = none) : segs digit (c! '%' :: s) = .chr (c! '%') :: segs digit s := by
  simp [segs, pieces, h]

theorem segs_mark {digit : QChar → Option Nat} {s t r : QString} {k : Nat} (h : marker? digit s = some (k, t, r)) :
    segs digit (c! '%' :: s) = .mark k (c! '%' :: t) :: segs digit r := by
  have hl : s.length = t.length + r.length := by rw [(marker?_spec h).1, List.length_append]
  simp only [segs, List.length_cons, pieces, if_true, h]
  rw [pieces_fuel s.length r.length r (by omega) (by omega)]

/-- A character that cannot be part of a marker. -/
def Brk (digit : QChar → Option Nat) (c : QChar) : Prop := c ≠ c! '%' ∧ c ≠ c! 'L' ∧ digit c = none

theorem number?_append {digit : QChar → Option Nat} {c : QChar} (hc : Brk digit c) (s r : QString) :
    number? digit (s ++ c :: r) = (number? digit s).map fun (n, t, u) => (n, t, u ++ c :: r) := by
  cases s with
  | nil => simp [number?, hc.2.2]
  | cons d s =>
    cases s with
    | nil =>
      simp only [number?, List.cons_append, List.nil_append]
      cases digit d <;> simp [hc.2.2]
    | cons e s =>
      simp only [number?, List.cons_append]
      cases digit d with
      | none => simp
      | some a => cases digit e <;> simp

theorem marker?_append {digit : QChar → Option Nat} {c : QChar} (hc : Brk digit c) (s r : QString) :
    marker? digit (s ++ c :: r) = (marker? digit s).map fun (n, t, u) => (n, t, u ++ c :: r) := by
  by_cases hL : ∃ s', s = 76 :: s'
  · obtain ⟨s', rfl⟩ := hL
    simp only [List.cons_append, marker?, number?_append hc]
    cases number? digit s' <;> simp
  · have h1 : marker? digit s = number? digit s := by
      unfold marker?
      split
      · rename_i s'; exact absurd ⟨s', rfl⟩ hL
      · rfl
    have h2 : marker? digit (s ++ c :: r) = number? digit (s ++ c :: r) := by
      unfold marker?
      split
      · rename_i s' heq
        cases s with
        | nil => simp at heq; exact absurd heq.1 hc.2.1
        | cons d s => simp at heq; exact absurd ⟨s, by rw [heq.1]⟩ hL
      · rfl
    rw [h1, h2, number?_append hc]

/-- The pieces before and after a character that cannot be part of a marker. -/
theorem segs_brk {digit : QChar → Option Nat} {c : QChar} (hc : Brk digit c) (r : QString) : ∀ (n : Nat) (s : QString), s.length ≤ n →
    segs digit (s ++ c :: r) = segs digit s ++ .chr c :: segs digit r := by
  intro n
  induction n with
  | zero =>
    intro s hs
    have : s = [] := List.eq_nil_of_length_eq_zero (by omega)
    subst this
    simp [segs_chr r hc.1, segs_nil]
  | succ n ih =>
    intro s hs
    cases s with
    | nil => simp [segs_chr r hc.1, segs_nil]
    | cons d s =>
      simp only [List.length_cons] at hs
      rw [List.cons_append]
      by_cases hd : d = c! '%'
      · subst hd
        cases hm : marker? digit s with
        | none =>
          rw [segs_none hm, segs_none (by rw [marker?_append hc, hm]; rfl), ih s (by omega), List.cons_append]
        | some x =>
          obtain ⟨k, t, u⟩ := x
          have hl : s.length = t.length + u.length := by rw [(marker?_spec hm).1, List.length_append]
          rw [segs_mark hm, segs_mark (t := t) (r := u ++ c :: r) (k := k) (by rw [marker?_append hc, hm]; rfl), ih u (by omega), List.cons_append]
      · rw [segs_chr _ hd, segs_chr _ hd, ih s (by omega), List.cons_append]

/-- A text without `%` has no markers, whatever follows. -/
theorem segs_plain {digit : QChar → Option Nat} : ∀ (t r : QString), c! '%' ∉ t → segs digit (t ++ r) = t.map .chr ++ segs digit r
  | [], r, _ => by simp
  | c :: t, r, h => by
    simp only [List.mem_cons, not_or] at h
    rw [List.cons_append, segs_chr _ (Ne.symm h.1), segs_plain t r h.2]
    rfl

/-- The pieces make up the text. -/
theorem fill_id {digit : QChar → Option Nat} : ∀ (n : Nat) (s t : QString) (k : Nat), s.length ≤ n →
    (∀ m raw, Seg.mark m raw ∈ segs digit s → k < m) → fill k t (segs digit s) = s := by
  intro n
  induction n with
  | zero =>
    intro s t k hs _
    have : s = [] := List.eq_nil_of_length_eq_zero (by omega)
    subst this
    simp [segs_nil, fill]
  | succ n ih =>
    intro s t k hs h
    cases s with
    | nil => simp [segs_nil, fill]
    | cons d s =>
      simp only [List.length_cons] at hs
      by_cases hd : d = c! '%'
      · subst hd
        cases hm : marker? digit s with
        | none =>
          rw [segs_none hm] at h ⊢
          rw [fill, ih s t k (by omega) (fun m raw hx => h m raw (List.mem_cons_of_mem _ hx))]
        | some x =>
          obtain ⟨j, t', u⟩ := x
          have he := (marker?_spec hm).1
          have hl : s.length = t'.length + u.length := by rw [he, List.length_append]
          rw [segs_mark hm] at h ⊢
          have hj := h j _ List.mem_cons_self
          rw [fill, if_neg (by omega), ih u t k (by omega) (fun m raw hx => h m raw (List.mem_cons_of_mem _ hx)), he]
          simp
      · rw [segs_chr _ hd] at h ⊢
        rw [fill, ih s t k (by omega) (fun m raw hx => h m raw (List.mem_cons_of_mem _ hx))]

theorem fill_append (k : Nat) (t : QString) : ∀ (l m : List Seg), fill k t (l ++ m) = fill k t l ++ fill k t m
  | [], m => by simp [fill]
  | .chr c :: l, m => by simp [fill, fill_append k t l m]
  | .mark n raw :: l, m => by simp [fill, fill_append k t l m]

theorem lowest_above {k : Nat} : ∀ {l : List Seg}, (∀ m raw, Seg.mark m raw ∈ l → k < m) → ∀ {m}, lowest l = some m → k < m
  | [], _, m, h => by simp [lowest] at h
  | .chr c :: l, hl, m, h => lowest_above (l := l) (fun m raw hx => hl m raw (List.mem_cons_of_mem _ hx)) (by simpa [lowest] using h)
  | .mark n raw :: l, hl, m, h => by
    have hn := hl n raw List.mem_cons_self
    have ih := fun {m} => lowest_above (l := l) (fun m raw hx => hl m raw (List.mem_cons_of_mem _ hx)) (m := m)
    simp only [lowest] at h
    cases hx : lowest l with
    | none => simp [hx] at h; omega
    | some j =>
      have := ih hx
      simp [hx] at h
      omega

theorem lowest_mid {k : Nat} {raw : QString} : ∀ {l r : List Seg}, (∀ m raw, Seg.mark m raw ∈ l → k < m) → (∀ m raw, Seg.mark m raw ∈ r → k < m) →
    lowest (l ++ .mark k raw :: r) = some k
  | [], r, _, hr => by
    simp only [List.nil_append, lowest]
    cases hx : lowest r with
    | none => rfl
    | some j => have := lowest_above hr hx; simp; omega
  | .chr c :: l, r, hl, hr => by
    rw [List.cons_append, lowest]
    exact lowest_mid (fun m raw hx => hl m raw (List.mem_cons_of_mem _ hx)) hr
  | .mark n raw' :: l, r, hl, hr => by
    have hn := hl n raw' List.mem_cons_self
    rw [List.cons_append, lowest, lowest_mid (fun m raw hx => hl m raw (List.mem_cons_of_mem _ hx)) hr]
    simp; omega

/-- All the markers of a text have numbers above `k`. -/
def Above (digit : QChar → Option Nat) (k : Nat) (s : QString) : Prop := ∀ m raw, Seg.mark m raw ∈ segs digit s → k < m

theorem Above.mono {digit : QChar → Option Nat} {j k : Nat} {s : QString} (h : Above digit k s) (hj : j ≤ k) : Above digit j s :=
  fun m raw hm => by have := h m raw hm; omega

theorem Above.plain {digit : QChar → Option Nat} (k : Nat) {s : QString} (h : c! '%' ∉ s) : Above digit k s := by
  intro m raw hm
  have := segs_plain (digit := digit) s [] h
  rw [List.append_nil, segs_nil, List.append_nil] at this
  rw [this] at hm
  simp at hm

theorem Above.plain_append {digit : QChar → Option Nat} {k : Nat} {s r : QString} (h : c! '%' ∉ s) (hr : Above digit k r) : Above digit k (s ++ r) := by
  intro m raw hm
  rw [segs_plain s r h] at hm
  simp only [List.mem_append, List.mem_map] at hm
  rcases hm with ⟨c, _, hc⟩ | hm
  · cases hc
  · exact hr m raw hm

theorem Above.brk {digit : QChar → Option Nat} {k : Nat} {s r : QString} {c : QChar} (hc : Brk digit c) (hs : Above digit k s) (hr : Above digit k r) :
    Above digit k (s ++ c :: r) := by
  intro m raw hm
  rw [segs_brk hc r _ s (Nat.le_refl _)] at hm
  simp only [List.mem_append, List.mem_cons] at hm
  rcases hm with hm | hm | hm
  · exact hs m raw hm
  · cases hm
  · exact hr m raw hm

/-- One step: the lowest marker stands between two characters that cannot be part of a marker. -/
theorem arg_step {digit : QChar → Option Nat} {k : Nat} {s r t : QString} {c e d : QChar} (hc : Brk digit c) (he : Brk digit e) (hd : digit d = some k)
    (hL : d ≠ c! 'L') (hs : Above digit k s) (hr : Above digit k r) :
    arg digit (s ++ c :: c! '%' :: d :: e :: r) t = s ++ c :: (t ++ e :: r) := by
  have hm : marker? digit (d :: e :: r) = some (k, [d], e :: r) := by
    have : marker? digit (d :: e :: r) = number? digit (d :: e :: r) := by
      unfold marker?
      split
      · rename_i heq; simp at heq; exact absurd heq.1 hL
      · rfl
    rw [this]
    simp [number?, hd, he.2.2]
  have hseg : segs digit (s ++ c :: c! '%' :: d :: e :: r) = (segs digit s ++ [.chr c]) ++ .mark k [c! '%', d] :: segs digit (e :: r) := by
    rw [segs_brk hc _ _ s (Nat.le_refl _), segs_mark hm]
    simp
  have hl : ∀ m raw, Seg.mark m raw ∈ segs digit s ++ [.chr c] → k < m := by
    intro m raw hx
    simp only [List.mem_append, List.mem_singleton] at hx
    rcases hx with hx | hx
    · exact hs m raw hx
    · cases hx
  have hr' : ∀ m raw, Seg.mark m raw ∈ segs digit (e :: r) → k < m := by
    intro m raw hx
    rw [segs_chr r he.1] at hx
    simp only [List.mem_cons] at hx
    rcases hx with hx | hx
    · cases hx
    · exact hr m raw hx
  unfold arg
  rw [hseg, lowest_mid hl hr']
  simp only [fill_append, fill, if_true]
  rw [fill_id _ s t k (Nat.le_refl _) hs, fill_id _ (e :: r) t k (Nat.le_refl _) hr']
  simp

/-! ### the properties -/

theorem digitChar_ascii {c : Char} {n : Nat} (h : c ∈ Nat.toDigits 10 n) : c.isDigit = true := Nat.isDigit_of_mem_toDigits (b := 10) (n := n) (by decide) (by decide) h

theorem decimal_plain (n : Nat) : c! '%' ∉ decimal n := by
  intro h
  simp only [decimal, List.mem_map] at h
  obtain ⟨c, hc, he⟩ := h
  have := digitChar_ascii hc
  simp only [Char.isDigit, Bool.and_eq_true, decide_eq_true_eq] at this
  have h1 : (48 : Nat) ≤ c.toNat := this.1
  omega

theorem segs_hasMarker {digit : QChar → Option Nat} : ∀ (n : Nat) (s : QString), s.length ≤ n → ∀ {k raw}, Seg.mark k raw ∈ segs digit s → HasMarker digit k s := by
  have cons : ∀ {k : Nat} (c : QChar) {s : QString}, HasMarker digit k s → HasMarker digit k (c :: s) := by
    intro k c s h
    cases h with
    | @one pre l post d hl hd hp => exact HasMarker.one (pre := c :: pre) hl hd hp
    | @two pre l post d e a b hl hd he hn => exact HasMarker.two (pre := c :: pre) hl hd he hn
  have app : ∀ {k : Nat} (t : QString) {s : QString}, HasMarker digit k s → HasMarker digit k (t ++ s) := by
    intro k t
    induction t with
    | nil => intro s h; exact h
    | cons c t ih => intro s h; exact cons c (ih h)
  have num : ∀ {k : Nat} {l s t r : QString}, l = [] ∨ l = q! "L" → number? digit s = some (k, t, r) → HasMarker digit k (c! '%' :: (l ++ s)) := by
    intro k l s t r hl h
    cases s with
    | nil => simp [number?] at h
    | cons d s =>
      simp only [number?] at h
      cases hd : digit d with
      | none => simp [hd] at h
      | some a =>
        simp only [hd] at h
        cases s with
        | nil =>
          simp at h; obtain ⟨rfl, -, -⟩ := h
          exact HasMarker.one (pre := []) hl hd (by simp)
        | cons e s =>
          simp only at h
          cases he : digit e with
          | none =>
            simp [he] at h; obtain ⟨rfl, -, -⟩ := h
            refine HasMarker.one (pre := []) hl hd ?_
            intro c r hcr
            simp only [List.cons.injEq] at hcr
            rw [← hcr.1]; exact he
          | some b =>
            simp [he] at h; obtain ⟨rfl, -, -⟩ := h
            exact HasMarker.two (pre := []) hl hd he rfl
  have mk : ∀ {k : Nat} {s t r : QString}, marker? digit s = some (k, t, r) → HasMarker digit k (c! '%' :: s) := by
    intro k s t r h
    unfold marker? at h
    split at h
    · rename_i s
      cases hs : number? digit s with
      | none => simp [hs] at h
      | some x =>
        obtain ⟨n', t', r'⟩ := x
        simp [hs] at h
        obtain ⟨rfl, -, -⟩ := h
        exact num (l := q! "L") (Or.inr rfl) hs
    · exact num (l := []) (Or.inl rfl) h
  intro n
  induction n with
  | zero =>
    intro s hs
    have : s = [] := List.eq_nil_of_length_eq_zero (by omega)
    subst this
    intro k raw h
    simp [segs_nil] at h
  | succ n ih =>
    intro s hs k raw h
    cases s with
    | nil => simp [segs_nil] at h
    | cons d s =>
      simp only [List.length_cons] at hs
      by_cases hd : d = c! '%'
      · subst hd
        cases hm : marker? digit s with
        | none =>
          rw [segs_none hm] at h
          simp only [List.mem_cons] at h
          rcases h with h | h
          · cases h
          · exact cons _ (ih s (by omega) h)
        | some x =>
          obtain ⟨j, t', u⟩ := x
          have he := (marker?_spec hm).1
          have hl : s.length = t'.length + u.length := by rw [he, List.length_append]
          rw [segs_mark hm] at h
          simp only [List.mem_cons] at h
          rcases h with h | h
          · cases h; exact mk hm
          · rw [he]
            exact cons _ (app _ (ih u (by omega) h))
      · rw [segs_chr _ hd] at h
        simp only [List.mem_cons] at h
        rcases h with h | h
        · cases h
        · exact cons _ (ih s (by omega) h)

theorem above_of {digit : QChar → Option Nat} {s : QString} (h : ∀ n, n ≤ 7 → ¬ HasMarker digit n s) : Above digit 7 s := by
  intro m raw hm
  have := segs_hasMarker _ s (Nat.le_refl _) hm
  exact Nat.lt_of_not_le fun h7 => h m h7 this

/-- The message of an unexpected token shows the token's text, whatever the text is. -/
theorem unexpected_exact {digit : QChar → Option Nat} (hd : Digits digit) (text : QString) :
    unexpectedToken digit text = q! "Unexpected token \"" ++ text ++ q! "\"." := by
  have hb : Brk digit (c! '"') := ⟨by decide, by decide, hd.others _ (by decide)⟩
  exact arg_step (s := q! "Unexpected token ") (r := q! ".") (d := c! '1') hb hb (hd.digits 1 (by decide)) (by decide)
    (Above.plain _ (by decide)) (Above.plain _ (by decide))

/-- So does the message of an expected token. -/
theorem expectedToken_exact_partial {digit : QChar → Option Nat} (hd : Digits digit) (name : QString) :
    expectedToken digit name = q! "Expected token \"" ++ name ++ q! "\"" := by
  have hb : Brk digit (c! '"') := ⟨by decide, by decide, hd.others _ (by decide)⟩
  exact arg_step (s := q! "Expected token ") (r := []) (d := c! '1') hb hb (hd.digits 1 (by decide)) (by decide)
    (Above.plain _ (by decide)) (Above.plain _ (by decide))

/-- **The message of an expected symbol is as intended if neither the name of the symbol nor the text of the token contains a place marker with a number up to 7.** -/
theorem expectedSymbol_exact {digit : QChar → Option Nat} (hd : Digits digit) (name : QString) (t : Tok) (hk : t.kind ≠ 0)
    (hn : ∀ n, n ≤ 7 → ¬ HasMarker digit n name) (ht : ∀ n, n ≤ 7 → ¬ HasMarker digit n t.text) :
    expectedSymbol digit name t = intended name t := by
  have an := above_of hn
  have at' := above_of ht
  have brk : ∀ c, c < 48 ∨ (57 < c ∧ c < 128) → c ≠ c! '%' → c ≠ c! 'L' → Brk digit c := fun c h1 h2 h3 => ⟨h2, h3, hd.others c h1⟩
  have bq : Brk digit (c! '"') := brk _ (by decide) (by decide) (by decide)
  have bb : Brk digit (c! '[') := brk _ (by decide) (by decide) (by decide)
  have be : Brk digit (c! ']') := brk _ (by decide) (by decide) (by decide)
  have bs : Brk digit (c! ' ') := brk _ (by decide) (by decide) (by decide)
  have bc : Brk digit (c! ':') := brk _ (by decide) (by decide) (by decide)
  have bp : Brk digit (c! ')') := brk _ (by decide) (by decide) (by decide)
  have dig : ∀ k, k < 10 → digit (48 + k) = some k := hd.digits
  -- a marker between two such characters
  have mk : ∀ (j k : Nat) (c : QChar) (r : QString), k < 10 → j < k → Brk digit c → Above digit j r → Above digit j (c! '%' :: (48 + k) :: c :: r) := by
    intro j k c r hk hj hc hr m raw hm
    have h1 : marker? digit ((48 + k) :: c :: r) = some (k, [48 + k], c :: r) := by
      have : marker? digit ((48 + k) :: c :: r) = number? digit ((48 + k) :: c :: r) := by
        unfold marker?
        split
        · rename_i heq; simp only [List.cons.injEq] at heq; omega
        · rfl
      rw [this]
      simp [number?, dig k hk, hc.2.2]
    rw [segs_mark h1, segs_chr _ hc.1] at hm
    simp only [List.mem_cons] at hm
    rcases hm with hm | hm | hm
    · cases hm; exact hj
    · cases hm
    · exact hr m raw hm
  -- what follows each of the markers
  have r7 : ∀ j, Above digit j [] := fun j => Above.plain j (by decide)
  have r6 : ∀ j, j < 7 → Above digit j (q! "%7)") := fun j hj => mk j 7 _ [] (by decide) hj bp (r7 j)
  have r5' : ∀ j, j < 6 → Above digit j (q! "- %6:%7)") := fun j hj =>
    Above.plain_append (s := q! "- ") (by decide) (mk j 6 _ (q! "%7)") (by decide) hj bc (r6 j (by omega)))
  have r4 : ∀ j, j < 5 → Above digit j (q! "%5 - %6:%7)") := fun j hj =>
    mk j 5 _ (q! "- %6:%7)") (by decide) hj bs
      (r5' j (by omega))
  have r3 : ∀ j, j < 4 → Above digit j (q! " at %4:%5 - %6:%7)") := fun j hj =>
    Above.plain_append (s := q! " at ") (by decide) (mk j 4 _ (q! "%5 - %6:%7)") (by decide) hj bc (r4 j (by omega)))
  -- what precedes each of them
  let p3 : QString := (q! "Expected symbol " ++ c! '"' :: (name ++ c! '"' :: (q! " (current token: " ++ c! '"' :: (t.text ++ c! '"' :: q! " "))))
  have a3 : Above digit 7 p3 := by
    refine Above.brk bq (Above.plain _ (by decide)) (Above.brk bq an (Above.brk bq (Above.plain _ (by decide)) (Above.brk bq at' (Above.plain _ (by decide)))))
  let p4 : QString := p3 ++ c! '[' :: (decimal t.kind ++ q! "] at")
  have a4 : Above digit 7 p4 := Above.brk bb a3 (Above.plain_append (decimal_plain _) (Above.plain _ (by decide)))
  let p5 : QString := p4 ++ c! ' ' :: decimal t.sLine
  have a5 : Above digit 7 p5 := Above.brk bs a4 (Above.plain _ (decimal_plain _))
  let p6 : QString := p5 ++ c! ':' :: (decimal t.sCol ++ q! " -")
  have a6 : Above digit 7 p6 := Above.brk bc a5 (Above.plain_append (decimal_plain _) (Above.plain _ (by decide)))
  let p7 : QString := p6 ++ c! ' ' :: decimal t.eLine
  have a7 : Above digit 7 p7 := Above.brk bs a6 (Above.plain _ (decimal_plain _))
  have s0 : symbolFirst name t = p3 ++ c! '[' :: c! '%' :: (48 + 3) :: c! ']' :: q! " at %4:%5 - %6:%7)" := by
    simp [symbolFirst, hk, p3]
  have s1 : arg digit (symbolFirst name t) (decimal t.kind) = p4 ++ c! ' ' :: c! '%' :: (48 + 4) :: c! ':' :: q! "%5 - %6:%7)" := by
    rw [s0, arg_step bb be (dig 3 (by decide)) (by decide) (a3.mono (by decide)) (r3 3 (by decide))]
    simp [p4]
  have s2 : arg digit (p4 ++ c! ' ' :: c! '%' :: (48 + 4) :: c! ':' :: q! "%5 - %6:%7)") (decimal t.sLine)
      = p5 ++ c! ':' :: c! '%' :: (48 + 5) :: c! ' ' :: q! "- %6:%7)" := by
    rw [arg_step bs bc (dig 4 (by decide)) (by decide) (a4.mono (by decide)) (r4 4 (by decide))]
    simp [p5]
  have s3 : arg digit (p5 ++ c! ':' :: c! '%' :: (48 + 5) :: c! ' ' :: q! "- %6:%7)") (decimal t.sCol)
      = p6 ++ c! ' ' :: c! '%' :: (48 + 6) :: c! ':' :: q! "%7)" := by
    rw [arg_step bc bs (dig 5 (by decide)) (by decide) (a5.mono (by decide))
      (r5' 5 (by decide))]
    simp [p6]
  have s4 : arg digit (p6 ++ c! ' ' :: c! '%' :: (48 + 6) :: c! ':' :: q! "%7)") (decimal t.eLine)
      = p7 ++ c! ':' :: c! '%' :: (48 + 7) :: c! ')' :: [] := by
    rw [arg_step bs bc (dig 6 (by decide)) (by decide) (a6.mono (by decide)) (r6 6 (by decide))]
    simp [p7]
  have s5 : arg digit (p7 ++ c! ':' :: c! '%' :: (48 + 7) :: c! ')' :: []) (decimal t.eCol)
      = p7 ++ c! ':' :: (decimal t.eCol ++ c! ')' :: []) :=
    arg_step bc bp (dig 7 (by decide)) (by decide) a7 (r7 7)
  simp only [expectedSymbol, s1, s2, s3, s4, s5]
  simp [intended, p7, p6, p5, p4, p3]

/-- In particular if they contain no `%` at all. -/
theorem expectedSymbol_noPercent {digit : QChar → Option Nat} (hd : Digits digit) (name : QString) (t : Tok) (hk : t.kind ≠ 0)
    (hn : c! '%' ∉ name) (ht : c! '%' ∉ t.text) : expectedSymbol digit name t = intended name t := by
  have no : ∀ {s : QString}, c! '%' ∉ s → ∀ n, n ≤ 7 → ¬ HasMarker digit n s := by
    intro s hs n _ hm
    cases hm with
    | one => simp at hs
    | two => simp at hs
  exact expectedSymbol_exact hd name t hk (no hn) (no ht)

/-- ASCII digits only. -/
def asciiDigitValue (c : QChar) : Option Nat := if 48 ≤ c ∧ c ≤ 57 then some (c - 48) else none

theorem asciiDigitValue_digits : Digits asciiDigitValue where
  digits n hn := by simp [asciiDigitValue]; omega
  others c hc := by simp [asciiDigitValue]; omega

/-- The token `%1` in an encapsed string spoils the message: the text of the token is replaced by its kind, every following number moves one place to the left, and
the last place marker stays. -/
theorem marker_in_text :
    expectedSymbol asciiDigitValue (q! "expr") { text := q! "a%1", kind := 1030, sLine := 2, sCol := 5, eLine := 2, eCol := 7 }
      = q! "Expected symbol \"expr\" (current token: \"a1030\" [2] at 5:2 - 7:%7)" := by decide +kernel

/-- So does `%5`: the text of the token shows a column. -/
theorem marker_in_text' :
    expectedSymbol asciiDigitValue (q! "expr") { text := q! "100%5", kind := 1030, sLine := 2, sCol := 9, eLine := 2, eCol := 7 }
      = q! "Expected symbol \"expr\" (current token: \"1009\" [1030] at 2:9 - 2:7)" := by decide +kernel

/-- The hypotheses of `expectedSymbol_noPercent` hold of an ordinary token. -/
example : expectedSymbol asciiDigitValue (q! "statement") { text := q! "}", kind := 1042, sLine := 11, sCol := 0, eLine := 11, eCol := 0 }
      = q! "Expected symbol \"statement\" (current token: \"}\" [1042] at 11:0 - 11:0)" :=
  (expectedSymbol_noPercent asciiDigitValue_digits _ _ (by decide) (by decide) (by decide)).trans (by decide +kernel)

/-- A higher number or a lone `%` does no harm. -/
example : expectedSymbol asciiDigitValue (q! "expr") { text := q! "%d %8", kind := 1030, sLine := 2, sCol := 5, eLine := 2, eCol := 7 }
      = q! "Expected symbol \"expr\" (current token: \"%d %8\" [1030] at 2:5 - 2:7)" := by decide +kernel

/-! ### where the problem is reported -/

/-- **A problem is reported at the token `back` before the position of the token stream, its range ending one column after the token's last character; nothing is reported
if there is no such token.** -/
theorem report_iff (toks : List Tok) (index back : Nat) (kind : Kind) (msg : QString) (ps : List Problem) (p : Problem) :
    report toks index back kind msg ps = ps ++ [p] ↔
      ∃ t, toks[index - back]? = some t ∧ p.description = msg ∧ p.range = ((t.sLine, t.sCol), (t.eLine, t.eCol + 1)) ∧
        (p.severity = .error ↔ kind = .error) ∧ (p.severity = .warning ↔ kind = .warning) ∧ (p.source = .toDo ↔ kind = .todo) := by
  unfold report
  cases ht : toks[index - back]? with
  | none => simp
  | some t =>
    obtain ⟨src, sev, desc, rng⟩ := p
    cases kind <;> cases src <;> cases sev <;> simp [and_comm]
    all_goals exact ⟨fun ⟨h1, h2⟩ => ⟨h1.symm, h2.symm⟩, fun ⟨h1, h2⟩ => ⟨h1.symm, h2.symm⟩⟩

/-- Nothing is reported exactly if that position is past the last token. -/
theorem report_none (toks : List Tok) (index back : Nat) (kind : Kind) (msg : QString) (ps : List Problem) :
    report toks index back kind msg ps = ps ↔ toks.length ≤ index - back := by
  unfold report
  cases ht : toks[index - back]? with
  | none => simpa using ht
  | some t =>
    have := (List.getElem?_eq_some_iff.mp ht).1
    simp; omega

/-- A missing `;` before the closing brace on line 3: the token before the position is the brace. -/
example : report [⟨q! "$a", 1, 2, 4, 2, 5⟩, ⟨q! "}", 2, 3, 0, 3, 0⟩] 2 1 .error (q! "m") []
    = [⟨.parser, .error, q! "m", ((3, 0), (3, 1))⟩] := by decide

end KPhp.Errors
