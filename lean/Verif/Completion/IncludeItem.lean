import Verif.Chars
/-!
# Choosing a file in an `include` (C76)

Models `IncludeFileItem::execute` (completion/includefileitem.cpp:16-87).

The document is given as the text before the word that is replaced, the word, and the text behind it.  The regular expression

    (?:include|require)(?:_once)?(\s*)(\(?)(\s*)(?:dirname\s*\(\s*__FILE__\s*\)\s*\.\s*)?(["'])

is matched by a function (`matchHere`) that takes each part as long as possible and never goes back; `matchHere_iff` shows that this loses no match of the
expression.  `QRegExp::lastIndexIn` tries the positions from the end of the text.  Trusted platform behaviour: `KTextEditor::Document::replaceText` of a range the end of
which lies behind the end of its line ends there; `\s` is `QChar::isSpace`; letters are compared by folding case.
-/
namespace KPhp.IncludeItem

variable (u : CharClass)

/-- The letters of the pattern at the beginning of the text, in any case: what follows them. -/
def lit : QString → QString → Option QString
  | [], s => some s
  | _ :: _, [] => none
  | p :: ps, c :: s => if u.fold c == p then lit ps s else none

/-- One character of the pattern that is no letter. -/
def eat (p : QChar) : QString → Option QString
  | [] => none
  | c :: s => if c == p then some s else none

/-- `\s*`: what follows. -/
def skip (s : QString) : QString := s.dropWhile u.isSpace

/-- The groups 2 (is there a parenthesis), 3 (the white space behind it) and 4 (the quotation mark). -/
structure Caps where
  paren : Bool
  inner : QString
  quote : QChar
deriving DecidableEq, Repr

/-- `dirname\s*\(\s*__FILE__\s*\)\s*\.\s*`: what follows. -/
def dirPart (s : QString) : Option QString :=
  (lit u (q! "dirname") s).bind fun s =>
  (eat (c! '(') (skip u s)).bind fun s =>
  (lit u (q! "__file__") (skip u s)).bind fun s =>
  (eat (c! ')') (skip u s)).bind fun s =>
  (eat (c! '.') (skip u s)).map (skip u)

/-- The end of the expression: white space, `dirname(__FILE__) .`, the quotation mark. -/
def matchTail (paren : Bool) (s : QString) : Option Caps :=
  let t := skip u s
  match ((dirPart u t).getD t).head? with
  | some q => if q == c! '"' || q == c! '\'' then some ⟨paren, s.takeWhile u.isSpace, q⟩ else none
  | none => none

/-- The regular expression at the beginning of the text (includefileitem.cpp:34). -/
def matchHere (s : QString) : Option Caps :=
  ((lit u (q! "include") s).or (lit u (q! "require") s)).bind fun s =>
  let s := skip u ((lit u (q! "_once") s).getD s)
  match s with
  | c :: s' => if c == c! '(' then matchTail u true s' else matchTail u false s
  | [] => none

/-- `regexp.lastIndexIn(textBefore)` (includefileitem.cpp:36). -/
def lastMatch : QString → Option Caps
  | [] => none
  | c :: s => (lastMatch s).or (matchHere u (c :: s))

/-- The text that is inserted, and `closeChar` (includefileitem.cpp:21-46). -/
def newText (before name : QString) (isDir : Bool) : QString × QChar :=
  let base := if isDir then name ++ q! "/" else name
  match lastMatch u before with
  | some m => (base ++ [m.quote] ++ (if m.paren then m.inner ++ q! ")" else []) ++ q! ";", m.quote)
  | none => (base, 0)

/-- The search for the semicolon behind the quotation mark (includefileitem.cpp:60-68): how many characters it is away, with itself; nothing if there is
something else before it. -/
def semi : QString → Nat → Nat
  | [], _ => 0
  | c :: s, i => if c == c! ';' then i + 1 else if !u.isSpace c && c != c! ')' then 0 else semi s (i + 1)

/-- The loop over the text behind the word (includefileitem.cpp:52-72): how many characters go. -/
def scan (q : QChar) : QString → Nat
  | [] => 0
  | c :: s => if u.isSpace c then 0 else if c == q then 1 + semi u s 0 else 1 + scan q s

/-- The number of characters up to the end of the line. -/
def lineRest (s : QString) : Nat := (s.takeWhile (· != c! '\n')).length

/-- The document afterwards: what stands before the place of the cursor and behind it. -/
structure Doc where
  before : QString
  word : QString
  after : QString
deriving DecidableEq, Repr

/-- `IncludeFileItem::execute` (includefileitem.cpp:16-87): the text of the document. -/
def execute (d : Doc) (name : QString) (isDir : Bool) : QString :=
  d.before ++ (newText u d.before name isDir).1 ++
    d.after.drop (min (scan u (newText u d.before name isDir).2 d.after) (lineRest d.after))

/-- The column of the cursor afterwards if it is set, counted from the beginning of the word (includefileitem.cpp:82-86). -/
def cursor (name : QString) (isDir : Bool) : Option Nat := if isDir then some (name.length + 1) else none

/-! ### Specification -/

/-- White space. -/
def Blank (s : QString) : Prop := ∀ c ∈ s, u.isSpace c = true

/-- The word, in any letter case. -/
def Ci (p w : QString) : Prop := w.map u.fold = p

/-- `dirname(__FILE__) .` with white space anywhere. -/
def Dirname (s : QString) : Prop :=
  ∃ d s1 s2 f s3 s4 s5, s = d ++ s1 ++ q! "(" ++ s2 ++ f ++ s3 ++ q! ")" ++ s4 ++ q! "." ++ s5 ∧ Ci u (q! "dirname") d ∧
    Ci u (q! "__file__") f ∧ Blank u s1 ∧ Blank u s2 ∧ Blank u s3 ∧ Blank u s4 ∧ Blank u s5

/-- `include`, `include_once`, `require` or `require_once` in any letter case, perhaps `(` with white space `inner` behind it, perhaps `dirname(__FILE__) .`, and the quotation
mark that opens the file name. -/
def Opening (o : QString) (paren : Bool) (inner : QString) (q : QChar) : Prop :=
  ∃ kw once s1 par dir, o = kw ++ once ++ s1 ++ par ++ inner ++ dir ++ [q] ∧
    (Ci u (q! "include") kw ∨ Ci u (q! "require") kw) ∧ (once = [] ∨ Ci u (q! "_once") once) ∧ Blank u s1 ∧ Blank u inner ∧
    ((par = [] ∧ paren = false ∧ inner = []) ∨ (par = q! "(" ∧ paren = true)) ∧ (dir = [] ∨ Dirname u dir) ∧ (q = c! '"' ∨ q = c! '\'')

/-- The text the statement ends with. -/
def closing (paren : Bool) (inner : QString) (q : QChar) : QString := [q] ++ (if paren then inner ++ q! ")" else []) ++ q! ";"

/-- A part of a file name: no white space and no quotation mark. -/
def PathText (s : QString) : Prop := ∀ c ∈ s, u.isSpace c = false ∧ c ≠ c! '"' ∧ c ≠ c! '\''

/-! ### The matcher and the expression -/

section
variable {u}

theorem lit_some {p s r : QString} : lit u p s = some r ↔ ∃ w, s = w ++ r ∧ Ci u p w := by
  induction p generalizing s with
  | nil =>
    simp only [lit, Option.some.injEq]
    constructor
    · rintro rfl; exact ⟨[], rfl, rfl⟩
    · rintro ⟨w, rfl, hw⟩
      have : w = [] := by simpa [Ci] using hw
      simp [this]
  | cons p ps ih =>
    cases s with
    | nil =>
      simp only [lit, reduceCtorEq, false_iff]
      rintro ⟨w, h, hw⟩
      rcases w with _ | ⟨x, w⟩
      · simp [Ci] at hw
      · simp at h
    | cons c s =>
      unfold lit
      by_cases hc : u.fold c = p
      · simp only [hc, beq_self_eq_true, if_true, ih]
        constructor
        · rintro ⟨w, rfl, hw⟩
          exact ⟨c :: w, rfl, by simp [Ci] at hw ⊢; exact ⟨hc, hw⟩⟩
        · rintro ⟨w, h, hw⟩
          rcases w with _ | ⟨x, w⟩
          · simp [Ci] at hw
          · simp [Ci] at h hw
            exact ⟨w, h.2, hw.2⟩
      · have : (u.fold c == p) = false := by simpa using hc
        simp only [this, Bool.false_eq_true, if_false, reduceCtorEq, false_iff]
        rintro ⟨w, h, hw⟩
        rcases w with _ | ⟨x, w⟩
        · simp [Ci] at hw
        · simp [Ci] at h hw
          exact hc (h.1 ▸ hw.1)

theorem lit_append {p w : QString} (h : Ci u p w) (r : QString) : lit u p (w ++ r) = some r := lit_some.2 ⟨w, rfl, h⟩

theorem skip_blank {b s : QString} (hb : Blank u b) (hs : ∀ c ∈ s.head?, u.isSpace c = false) : skip u (b ++ s) = s := by
  induction b with
  | nil =>
    cases s with
    | nil => rfl
    | cons c s => simp [skip, hs c (by simp)]
  | cons x b ih =>
    have hx : u.isSpace x = true := hb x (by simp)
    have := ih (fun c hc => hb c (by simp [hc]))
    simp only [skip] at this ⊢
    simp [hx, this]

theorem takeWhile_blank {b s : QString} (hb : Blank u b) (hs : ∀ c ∈ s.head?, u.isSpace c = false) : (b ++ s).takeWhile u.isSpace = b := by
  induction b with
  | nil =>
    cases s with
    | nil => rfl
    | cons c s => simp [hs c (by simp)]
  | cons x b ih =>
    have hx : u.isSpace x = true := hb x (by simp)
    simp [hx, ih (fun c hc => hb c (by simp [hc]))]

theorem skip_split (s : QString) : ∃ b, s = b ++ skip u s ∧ Blank u b ∧ b = s.takeWhile u.isSpace ∧ ∀ c ∈ (skip u s).head?, u.isSpace c = false := by
  refine ⟨s.takeWhile u.isSpace, (List.takeWhile_append_dropWhile).symm, ?_, rfl, ?_⟩
  · intro c hc; exact List.all_eq_true.1 List.all_takeWhile c hc
  · intro c hc
    unfold skip at hc
    have := List.head?_dropWhile_not u.isSpace s
    rw [Option.mem_def.1 hc] at this
    simpa using this

theorem not_space {hu : u.Lawful} {c : QChar} (h : c < 128) (h' : asciiSpace c = false) : u.isSpace c = false := by
  rw [hu.space_ascii c h, h']

theorem fold_not_space (hu : u.Lawful) {c p : QChar} (h : u.fold c = p) (hp : p < 128) (hp' : asciiSpace p = false) : u.isSpace c = false := by
  cases hs : u.isSpace c with
  | false => rfl
  | true =>
    have := hu.fold_space c hs
    rw [h] at this
    subst this
    rw [hu.space_ascii _ hp, hp'] at hs
    cases hs

theorem ci_head (hu : u.Lawful) {p : QChar} {ps w r : QString} (h : Ci u (p :: ps) w) (hp : p < 128) (hp' : asciiSpace p = false) :
    ∀ c ∈ (w ++ r).head?, u.isSpace c = false := by
  rcases w with _ | ⟨x, w⟩
  · simp [Ci] at h
  · simp only [Ci, List.map_cons, List.cons.injEq] at h
    intro c hc
    simp at hc; subst hc
    exact fold_not_space hu h.1 hp hp'

theorem eat_some {p : QChar} {s r : QString} : eat p s = some r ↔ s = [p] ++ r := by
  cases s with
  | nil => simp [eat]
  | cons c s => by_cases h : c = p <;> simp [eat, h]

theorem eat_append (p : QChar) (r : QString) : eat p ([p] ++ r) = some r := eat_some.2 rfl

theorem dirPart_of (hu : u.Lawful) {d r : QString} (hd : Dirname u d) (hr : ∀ c ∈ r.head?, u.isSpace c = false) : dirPart u (d ++ r) = some r := by
  obtain ⟨w, s1, s2, f, s3, s4, s5, rfl, hw, hf, h1, h2, h3, h4, h5⟩ := hd
  unfold dirPart
  have hs : ∀ (c : QChar) (x : QString), c < 128 → asciiSpace c = false → ∀ a ∈ ([c] ++ x).head?, u.isSpace a = false := by
    intro c x hc hc' a ha
    simp at ha; subst ha; rw [hu.space_ascii _ hc, hc']
  simp only [List.append_assoc]
  rw [lit_append hw]
  simp only [Option.bind_some]
  rw [skip_blank h1 (hs 40 _ (by decide) (by decide)), eat_append]
  simp only [Option.bind_some]
  rw [skip_blank h2 (ci_head hu hf (by decide) (by decide)), lit_append hf]
  simp only [Option.bind_some]
  rw [skip_blank h3 (hs 41 _ (by decide) (by decide)), eat_append]
  simp only [Option.bind_some]
  rw [skip_blank h4 (hs 46 _ (by decide) (by decide)), eat_append]
  simp only [Option.map_some]
  rw [skip_blank h5 hr]

theorem of_dirPart {s r : QString} (h : dirPart u s = some r) :
    ∃ d, s = d ++ r ∧ Dirname u d ∧ ∀ c ∈ r.head?, u.isSpace c = false := by
  unfold dirPart at h
  simp only [Option.bind_eq_some_iff, Option.map_eq_some_iff, lit_some, eat_some] at h
  obtain ⟨t1, ⟨d, rfl, hd⟩, t2, e1, t3, ⟨f, e2, hff⟩, t4, e3, t5, e4, rfl⟩ := h
  obtain ⟨b1, g1, hb1, -⟩ := skip_split (u := u) t1
  obtain ⟨b2, g2, hb2, -⟩ := skip_split (u := u) t2
  obtain ⟨b3, g3, hb3, -⟩ := skip_split (u := u) t3
  obtain ⟨b4, g4, hb4, -⟩ := skip_split (u := u) t4
  obtain ⟨b5, g5, hb5, -, hn⟩ := skip_split (u := u) t5
  refine ⟨d ++ b1 ++ q! "(" ++ b2 ++ f ++ b3 ++ q! ")" ++ b4 ++ q! "." ++ b5, ?_, ⟨d, b1, b2, f, b3, b4, b5, rfl, hd, hff, hb1, hb2, hb3, hb4, hb5⟩, hn⟩
  rw [e1] at g1; rw [e2] at g2; rw [e3] at g3; rw [e4] at g4
  rw [g1, g2, g3, g4]
  simp only [List.append_assoc, List.append_cancel_left_eq]
  exact g5

theorem lit_none {p : QChar} {ps s : QString} (h : ∀ c ∈ s.head?, u.fold c ≠ p) : lit u (p :: ps) s = none := by
  cases s with
  | nil => rfl
  | cons c s =>
    have : (u.fold c == p) = false := by simpa using h c (by simp)
    simp [lit, this]

theorem ci_head_fold {p : QChar} {ps w r : QString} (h : Ci u (p :: ps) w) : ∀ c ∈ (w ++ r).head?, u.fold c = p := by
  rcases w with _ | ⟨x, w⟩
  · simp [Ci] at h
  · simp only [Ci, List.map_cons, List.cons.injEq] at h
    intro c hc
    simp at hc; subst hc
    exact h.1

/-- What the end of an opening begins with: `d` or a quotation mark. -/
theorem tail_head (hu : u.Lawful) {dir r : QString} {q : QChar} (hd : dir = [] ∨ Dirname u dir) (hq : q = c! '"' ∨ q = c! '\'') :
    ∀ c ∈ (dir ++ [q] ++ r).head?, u.isSpace c = false ∧ c ≠ c! '(' ∧ (u.fold c = c! 'd' ∨ (c = q ∧ u.fold c = q)) := by
  intro c hc
  rcases hd with rfl | hd
  · simp at hc; subst hc
    rcases hq with rfl | rfl
    · exact ⟨by rw [hu.space_ascii _ (by decide)]; decide, by decide, Or.inr ⟨rfl, by rw [hu.fold_ascii _ (by decide)]; decide⟩⟩
    · exact ⟨by rw [hu.space_ascii _ (by decide)]; decide, by decide, Or.inr ⟨rfl, by rw [hu.fold_ascii _ (by decide)]; decide⟩⟩
  · obtain ⟨w, s1, s2, f, s3, s4, s5, rfl, hw, -⟩ := hd
    simp only [List.append_assoc] at hc
    have h1 := ci_head_fold hw c hc
    refine ⟨fold_not_space hu h1 (by decide) (by decide), ?_, Or.inl h1⟩
    rintro rfl
    rw [hu.fold_ascii _ (by decide)] at h1
    revert h1; decide

theorem matchTail_of (hu : u.Lawful) {inner dir r : QString} {q : QChar} (paren : Bool) (hi : Blank u inner) (hd : dir = [] ∨ Dirname u dir)
    (hq : q = c! '"' ∨ q = c! '\'') : matchTail u paren (inner ++ (dir ++ [q] ++ r)) = some ⟨paren, inner, q⟩ := by
  have hh := tail_head hu (r := r) hd hq
  have hs : ∀ c ∈ (dir ++ [q] ++ r).head?, u.isSpace c = false := fun c hc => (hh c hc).1
  unfold matchTail
  simp only [skip_blank hi hs, takeWhile_blank hi hs]
  have hq' : ∀ c ∈ ([q] ++ r).head?, u.isSpace c = false := by
    intro c hc; exact (tail_head hu (dir := []) (r := r) (Or.inl rfl) hq c hc).1
  have : (dirPart u (dir ++ [q] ++ r)).getD (dir ++ [q] ++ r) = [q] ++ r := by
    rcases hd with rfl | hd
    · have : dirPart u ([q] ++ r) = none := by
        unfold dirPart
        rw [lit_none]
        · rfl
        · intro c hc
          simp at hc; subst hc
          rcases hq with rfl | rfl <;> (rw [hu.fold_ascii _ (by decide)]; decide)
      simp only [List.nil_append, this, Option.getD_none]
    · rw [List.append_assoc, dirPart_of hu hd hq']; rfl
  rw [this]
  rcases hq with rfl | rfl <;> simp

theorem of_matchTail {paren : Bool} {s : QString} {m : Caps} (h : matchTail u paren s = some m) :
    m.paren = paren ∧ (∃ dir r, s = m.inner ++ (dir ++ [m.quote] ++ r) ∧ (dir = [] ∨ Dirname u dir)) ∧ m.inner = s.takeWhile u.isSpace ∧ Blank u m.inner ∧
      (m.quote = c! '"' ∨ m.quote = c! '\'') := by
  unfold matchTail at h
  obtain ⟨b, hb, hbl, hbt, -⟩ := skip_split (u := u) s
  have hd : ∃ dir, skip u s = dir ++ (dirPart u (skip u s)).getD (skip u s) ∧ (dir = [] ∨ Dirname u dir) := by
    cases hdp : dirPart u (skip u s) with
    | none => exact ⟨[], rfl, Or.inl rfl⟩
    | some x =>
      obtain ⟨d, hd, hd', -⟩ := of_dirPart hdp
      exact ⟨d, hd, Or.inr hd'⟩
  obtain ⟨dir, hdir, hdd⟩ := hd
  simp only at h
  cases hx : (dirPart u (skip u s)).getD (skip u s) with
  | nil => simp [hx] at h
  | cons q r =>
    rw [hx] at hdir
    simp only [hx, List.head?_cons] at h
    split at h
    · rename_i hq
      simp only [Option.some.injEq] at h
      subst h
      refine ⟨rfl, ⟨dir, r, ?_, hdd⟩, rfl, ?_, by simpa using hq⟩
      · simp only []
        rw [← hbt]
        simpa [hdir] using hb
      · simp only []; rw [← hbt]; exact hbl
    · cases h

theorem ci_append_inj {p p' w w' r r' : QString} (h : Ci u p w) (h' : Ci u p' w') (hl : p.length = p'.length) (he : w ++ r = w' ++ r') : p = p' := by
  have l1 : w.length = w'.length := by
    have a := congrArg List.length h; have b := congrArg List.length h'
    simp only [List.length_map] at a b
    omega
  have := (List.append_inj he l1).1
  unfold Ci at h h'
  rw [← h, ← h', this]

/-- The matcher finds exactly what the regular expression describes. -/
theorem matchHere_iff (hu : u.Lawful) {s : QString} {p : Bool} {i : QString} {q : QChar} :
    matchHere u s = some ⟨p, i, q⟩ ↔ ∃ o r, s = o ++ r ∧ Opening u o p i q := by
  constructor
  · intro h
    unfold matchHere at h
    simp only [Option.bind_eq_some_iff, Option.or_eq_some_iff] at h
    obtain ⟨t, hk, h⟩ := h
    have hk2 : ∃ kw, s = kw ++ t ∧ (Ci u (q! "include") kw ∨ Ci u (q! "require") kw) := by
      rcases hk with hk | ⟨-, hk⟩
      · obtain ⟨w, e, hw⟩ := lit_some.1 hk; exact ⟨w, e, Or.inl hw⟩
      · obtain ⟨w, e, hw⟩ := lit_some.1 hk; exact ⟨w, e, Or.inr hw⟩
    obtain ⟨kw, rfl, hk2⟩ := hk2
    have ho : ∃ once, t = once ++ (lit u (q! "_once") t).getD t ∧ (once = [] ∨ Ci u (q! "_once") once) := by
      cases hl : lit u (q! "_once") t with
      | none => exact ⟨[], rfl, Or.inl rfl⟩
      | some x => obtain ⟨w, e, hw⟩ := lit_some.1 hl; exact ⟨w, e, Or.inr hw⟩
    obtain ⟨once, ht, ho⟩ := ho
    obtain ⟨s1, hs1, hb1, -, hn⟩ := skip_split (u := u) ((lit u (q! "_once") t).getD t)
    cases hx : skip u ((lit u (q! "_once") t).getD t) with
    | nil => simp [hx] at h
    | cons c y =>
      rw [hx] at hs1 hn
      simp only [hx] at h
      by_cases hc : c = c! '('
      · subst hc
        simp only [beq_self_eq_true, if_true] at h
        obtain ⟨h1, ⟨dir, r, h2, h3⟩, -, h4, h5⟩ := of_matchTail h
        simp only at h1 h2 h4 h5
        subst h1
        refine ⟨kw ++ once ++ s1 ++ q! "(" ++ i ++ dir ++ [q], r, ?_, ⟨kw, once, s1, q! "(", dir, rfl, hk2, ho, hb1, h4, Or.inr ⟨rfl, rfl⟩, h3, h5⟩⟩
        rw [ht, hs1, h2]; simp
      · have hc' : (c == c! '(') = false := by simpa using hc
        simp only [hc', Bool.false_eq_true, if_false] at h
        obtain ⟨h1, ⟨dir, r, h2, h3⟩, h6, h4, h5⟩ := of_matchTail h
        have : i = [] := by
          simp only at h6
          rw [h6]
          have := hn c (by simp)
          simp [this]
        subst this
        simp only at h1 h2 h4 h5
        subst h1
        refine ⟨kw ++ once ++ s1 ++ [] ++ [] ++ dir ++ [q], r, ?_, ⟨kw, once, s1, [], dir, rfl, hk2, ho, hb1, h4, Or.inl ⟨rfl, rfl, rfl⟩, h3, h5⟩⟩
        rw [ht, hs1, h2]; simp
  · rintro ⟨o, r, rfl, kw, once, s1, par, dir, rfl, hk, ho, hb1, hbi, hp, hd, hq⟩
    have e : kw ++ once ++ s1 ++ par ++ i ++ dir ++ [q] ++ r = kw ++ (once ++ (s1 ++ (par ++ (i ++ (dir ++ [q] ++ r))))) := by simp
    rw [e]
    have hk' : (lit u (q! "include") (kw ++ (once ++ (s1 ++ (par ++ (i ++ (dir ++ [q] ++ r))))))).or
        (lit u (q! "require") (kw ++ (once ++ (s1 ++ (par ++ (i ++ (dir ++ [q] ++ r))))))) = some (once ++ (s1 ++ (par ++ (i ++ (dir ++ [q] ++ r))))) := by
      rcases hk with hk | hk
      · rw [lit_append hk]; rfl
      · rw [lit_append hk]
        cases hl : lit u (q! "include") (kw ++ (once ++ (s1 ++ (par ++ (i ++ (dir ++ [q] ++ r)))))) with
        | none => rfl
        | some x =>
          obtain ⟨w, e, hw⟩ := lit_some.1 hl
          exact absurd (ci_append_inj hw hk rfl e.symm) (by decide)
    unfold matchHere
    rw [hk']
    simp only [Option.bind_some]
    have hh := tail_head hu (r := r) hd hq
    have hhead : ∀ c ∈ (par ++ (i ++ (dir ++ [q] ++ r))).head?, u.isSpace c = false ∧ u.fold c ≠ c! '_' := by
      rcases hp with ⟨rfl, -, rfl⟩ | ⟨rfl, -⟩
      · intro c hc
        obtain ⟨a1, a2, a3⟩ := hh c hc
        refine ⟨a1, ?_⟩
        rcases a3 with a3 | ⟨a3, a4⟩
        · rw [a3]; decide
        · rw [a4]; rcases hq with rfl | rfl <;> decide
      · intro c hc
        simp at hc; subst hc
        exact ⟨by rw [hu.space_ascii _ (by decide)]; decide, by rw [hu.fold_ascii _ (by decide)]; decide⟩
    have honce : (lit u (q! "_once") (once ++ (s1 ++ (par ++ (i ++ (dir ++ [q] ++ r)))))).getD (once ++ (s1 ++ (par ++ (i ++ (dir ++ [q] ++ r))))) =
        s1 ++ (par ++ (i ++ (dir ++ [q] ++ r))) := by
      rcases ho with rfl | ho
      · rw [lit_none]
        · rfl
        · intro c hc
          rcases s1 with _ | ⟨x, s1⟩
          · exact (hhead c hc).2
          · simp at hc; subst hc
            intro hf
            have := hb1 x (by simp)
            rw [hu.fold_space _ this] at hf
            subst hf
            rw [hu.space_ascii _ (by decide)] at this
            revert this; decide
      · rw [lit_append ho]; rfl
    rw [honce, skip_blank hb1 (fun c hc => (hhead c hc).1)]
    rcases hp with ⟨rfl, rfl, rfl⟩ | ⟨rfl, rfl⟩
    · simp only [List.nil_append]
      have mt := matchTail_of hu (r := r) false (inner := []) hbi hd hq
      simp only [List.nil_append] at mt
      cases hx : dir ++ [q] ++ r with
      | nil => simp at hx
      | cons c y =>
        have hc := (hh c (by rw [hx]; simp)).2.1
        have hc' : (c == c! '(') = false := by simpa using hc
        rw [hx] at mt
        simp only [hc', Bool.false_eq_true, if_false, mt]
    · simp only [List.cons_append, List.nil_append, beq_self_eq_true, if_true]
      have := matchTail_of hu (r := r) true hbi hd hq
      simpa using this

/-! ### The last match -/

/-- No match begins in `s` if `t` follows. -/
def Clean (u : CharClass) : QString → QString → Prop
  | [], _ => True
  | c :: s, t => matchHere u (c :: s ++ t) = none ∧ Clean u s t

theorem clean_append {t : QString} : ∀ {s1 s2 : QString}, Clean u s1 (s2 ++ t) → Clean u s2 t → Clean u (s1 ++ s2) t
  | [], _, _, h => h
  | c :: s1, s2, ⟨h1, h2⟩, h => ⟨by simpa using h1, clean_append h2 h⟩

theorem lastMatch_clean {t : QString} : ∀ {s : QString}, Clean u s t → lastMatch u (s ++ t) = lastMatch u t
  | [], _ => rfl
  | c :: s, ⟨h1, h2⟩ => by
    have h1' : matchHere u (c :: (s ++ t)) = none := by simpa using h1
    rw [List.cons_append, lastMatch, lastMatch_clean h2, h1']
    simp

theorem lastMatch_pre {s : QString} {m : Caps} (h : lastMatch u s = some m) : ∀ pre, lastMatch u (pre ++ s) = some m
  | [] => h
  | c :: pre => by rw [List.cons_append, lastMatch, lastMatch_pre h pre]; rfl

theorem matchHere_none {s : QString} (h : lit u (q! "inc") s = none) (h' : lit u (q! "req") s = none) : matchHere u s = none := by
  have pre : ∀ (p p' : QString) (s : QString), lit u p s = none → lit u (p ++ p') s = none := by
    intro p p' s
    induction p generalizing s with
    | nil => simp [lit]
    | cons x p ih =>
      cases s with
      | nil => simp [lit]
      | cons c s =>
        simp only [lit, List.cons_append]
        split
        · exact ih s
        · simp
  have a := pre _ (q! "lude") _ h
  have b := pre _ (q! "uire") _ h'
  simp only [List.cons_append, List.nil_append] at a b
  unfold matchHere
  rw [a, b]; rfl

theorem matchHere_none_head {c : QChar} {s : QString} (h1 : u.fold c ≠ c! 'i') (h2 : u.fold c ≠ c! 'r') : matchHere u (c :: s) = none := by
  apply matchHere_none <;> (apply lit_none; simpa)

theorem matchHere_none_i {c d : QChar} {s : QString} (h1 : u.fold c = c! 'i') (h2 : u.fold d ≠ c! 'n') : matchHere u (c :: d :: s) = none := by
  apply matchHere_none
  · have : (u.fold d == c! 'n') = false := by simpa using h2
    simp [lit, h1, this]
  · apply lit_none; simp [h1]

theorem matchHere_none_r {c d : QChar} {s : QString} (h1 : u.fold c = c! 'r') (h2 : u.fold d ≠ c! 'e' ∨ ∀ x ∈ s.head?, u.fold x ≠ c! 'q') :
    matchHere u (c :: d :: s) = none := by
  apply matchHere_none
  · apply lit_none; simp [h1]
  · rcases h2 with h2 | h2
    · have : (u.fold d == c! 'e') = false := by simpa using h2
      simp [lit, h1, this]
    · have := lit_none (u := u) (p := c! 'q') (ps := []) h2
      simp only [lit, h1, beq_self_eq_true, if_true]
      split
      · exact this
      · rfl

theorem clean_blank (hu : u.Lawful) {s t : QString} (h : Blank u s) : Clean u s t := by
  induction s with
  | nil => trivial
  | cons c s ih =>
    refine ⟨?_, ih (fun x hx => h x (by simp [hx]))⟩
    have hc := h c (by simp)
    rw [List.cons_append]
    apply matchHere_none_head
    · intro hf
      have := fold_not_space hu hf (by decide) (by decide)
      rw [hc] at this; cases this
    · intro hf
      have := fold_not_space hu hf (by decide) (by decide)
      rw [hc] at this; cases this

theorem clean_char {c : QChar} {t : QString} (h1 : u.fold c ≠ c! 'i') (h2 : u.fold c ≠ c! 'r') : Clean u [c] t :=
  ⟨matchHere_none_head h1 h2, trivial⟩

/-- Words none of whose letters is `i` or `r`. -/
theorem clean_plain {p w t : QString} (h : Ci u p w) (hp : ∀ c ∈ p, c ≠ c! 'i' ∧ c ≠ c! 'r') : Clean u w t := by
  induction w generalizing p with
  | nil => trivial
  | cons c w ih =>
    rcases p with _ | ⟨x, p⟩
    · simp [Ci] at h
    · simp only [Ci, List.map_cons, List.cons.injEq] at h
      obtain ⟨a, b⟩ := hp x (by simp)
      refine ⟨?_, ih h.2 (fun c hc => hp c (by simp [hc]))⟩
      rw [List.cons_append]
      exact matchHere_none_head (h.1 ▸ a) (h.1 ▸ b)

theorem ci_cons {x : QChar} {p w : QString} (h : Ci u (x :: p) w) : ∃ c w', w = c :: w' ∧ u.fold c = x ∧ Ci u p w' := by
  rcases w with _ | ⟨c, w⟩
  · simp [Ci] at h
  · simp only [Ci, List.map_cons, List.cons.injEq] at h
    exact ⟨c, w, rfl, h.1, h.2⟩

theorem ci_nil {w : QString} (h : Ci u [] w) : w = [] := by simpa [Ci] using h

theorem clean_cons {c : QChar} {s t : QString} (h : matchHere u (c :: (s ++ t)) = none) (h' : Clean u s t) : Clean u (c :: s) t := ⟨h, h'⟩

theorem clean_dirname {w t : QString} (h : Ci u (q! "dirname") w) : Clean u w t := by
  obtain ⟨d, w, rfl, hd, h⟩ := ci_cons h
  obtain ⟨i, w, rfl, hi, h⟩ := ci_cons h
  obtain ⟨r, w, rfl, hr, h⟩ := ci_cons h
  obtain ⟨n, w, rfl, hn, h⟩ := ci_cons h
  refine clean_cons (matchHere_none_head (by simp [hd]) (by simp [hd])) (clean_cons ?_ (clean_cons ?_ (clean_cons ?_ (clean_plain h (by decide)))))
  · exact matchHere_none_i hi (by simp [hr])
  · exact matchHere_none_r hr (Or.inl (by simp [hn]))
  · exact matchHere_none_head (by simp [hn]) (by simp [hn])

theorem clean_file {w t : QString} (h : Ci u (q! "__file__") w) : Clean u w t := by
  obtain ⟨a, w, rfl, ha, h⟩ := ci_cons h
  obtain ⟨b, w, rfl, hb, h⟩ := ci_cons h
  obtain ⟨f, w, rfl, hf, h⟩ := ci_cons h
  obtain ⟨i, w, rfl, hi, h⟩ := ci_cons h
  obtain ⟨l, w, rfl, hl, h⟩ := ci_cons h
  refine clean_cons (matchHere_none_head (by simp [ha]) (by simp [ha])) (clean_cons (matchHere_none_head (by simp [hb]) (by simp [hb]))
    (clean_cons (matchHere_none_head (by simp [hf]) (by simp [hf])) (clean_cons ?_ (clean_cons ?_ (clean_plain h (by decide))))))
  · exact matchHere_none_i hi (by simp [hl])
  · exact matchHere_none_head (by simp [hl]) (by simp [hl])

theorem clean_ascii (hu : u.Lawful) {c : QChar} {t : QString} (h : c < 128) (h' : asciiLower c ≠ c! 'i' ∧ asciiLower c ≠ c! 'r') : Clean u [c] t :=
  clean_char (by rw [hu.fold_ascii c h]; exact h'.1) (by rw [hu.fold_ascii c h]; exact h'.2)

theorem clean_dir (hu : u.Lawful) {d t : QString} (h : Dirname u d) : Clean u d t := by
  obtain ⟨w, s1, s2, f, s3, s4, s5, rfl, hw, hf, h1, h2, h3, h4, h5⟩ := h
  simp only [List.append_assoc]
  refine clean_append (clean_dirname hw) (clean_append (clean_blank hu h1) (clean_append (clean_ascii hu (by decide) (by decide))
    (clean_append (clean_blank hu h2) (clean_append (clean_file hf) (clean_append (clean_blank hu h3) (clean_append (clean_ascii hu (by decide) (by decide))
    (clean_append (clean_blank hu h4) (clean_append (clean_ascii hu (by decide) (by decide)) (clean_blank hu h5)))))))))

/-- Behind its first letter, no match begins in an opening. -/
theorem clean_opening (hu : u.Lawful) {o t : QString} {p : Bool} {i : QString} {q : QChar} (h : Opening u o p i q) :
    ∃ c o', o = c :: o' ∧ Clean u o' t := by
  obtain ⟨kw, once, s1, par, dir, rfl, hk, ho, hb1, hbi, hp, hd, hq⟩ := h
  have hrest : Clean u (once ++ (s1 ++ (par ++ (i ++ (dir ++ [q]))))) t := by
    refine clean_append ?_ (clean_append (clean_blank hu hb1) (clean_append ?_ (clean_append (clean_blank hu hbi) (clean_append ?_ ?_))))
    · rcases ho with rfl | ho
      · trivial
      · exact clean_plain ho (by decide)
    · rcases hp with ⟨rfl, -⟩ | ⟨rfl, -⟩
      · trivial
      · exact clean_ascii hu (by decide) (by decide)
    · rcases hd with rfl | hd
      · trivial
      · exact clean_dir hu hd
    · rcases hq with rfl | rfl <;> exact clean_ascii hu (by decide) (by decide)
  have hhead : ∀ x ∈ (once ++ (s1 ++ (par ++ (i ++ (dir ++ [q])))) ++ t).head?, u.fold x ≠ c! 'q' := by
    intro x hx hf
    simp only [List.append_assoc] at hx
    rcases ho with rfl | ho
    · rcases s1 with _ | ⟨y, s1⟩
      · rcases hp with ⟨rfl, -, rfl⟩ | ⟨rfl, -⟩
        · have hx' : x ∈ (dir ++ [q] ++ t).head? := by simpa using hx
          rcases (tail_head hu hd hq x hx').2.2 with a | ⟨-, a⟩
          · rw [a] at hf; revert hf; decide
          · rw [a] at hf; rcases hq with rfl | rfl <;> (revert hf; decide)
        · simp at hx; subst hx
          rw [hu.fold_ascii _ (by decide)] at hf
          revert hf; decide
      · simp at hx; subst hx
        have := fold_not_space hu hf (by decide) (by decide)
        rw [hb1 y (by simp)] at this; cases this
    · have := ci_head_fold ho x hx
      rw [this] at hf; revert hf; decide
  have e : kw ++ once ++ s1 ++ par ++ i ++ dir ++ [q] = kw ++ (once ++ (s1 ++ (par ++ (i ++ (dir ++ [q]))))) := by simp
  rw [e]
  rcases hk with hk | hk
  · obtain ⟨c, w, rfl, -, h⟩ := ci_cons hk
    exact ⟨c, _, rfl, clean_append (clean_plain h (by decide)) hrest⟩
  · obtain ⟨c, w, rfl, -, h⟩ := ci_cons hk
    obtain ⟨e, w, rfl, he, h⟩ := ci_cons h
    obtain ⟨qq, w, rfl, hqq, h⟩ := ci_cons h
    obtain ⟨uu, w, rfl, huu, h⟩ := ci_cons h
    obtain ⟨i, w, rfl, hi, h⟩ := ci_cons h
    obtain ⟨r, w, rfl, hr, h⟩ := ci_cons h
    obtain ⟨e', w, rfl, he', h⟩ := ci_cons h
    have := ci_nil h; subst this
    refine ⟨c, _, rfl, clean_append ?_ hrest⟩
    refine clean_cons (matchHere_none_head (by simp [he]) (by simp [he])) (clean_cons (matchHere_none_head (by simp [hqq]) (by simp [hqq]))
      (clean_cons (matchHere_none_head (by simp [huu]) (by simp [huu])) (clean_cons ?_ (clean_cons ?_ (clean_cons ?_ trivial)))))
    · exact matchHere_none_i hi (by simp [hr])
    · exact matchHere_none_r hr (Or.inr hhead)
    · exact matchHere_none_head (by simp [he']) (by simp [he'])

/-- Text without quotation marks contains no opening. -/
theorem clean_path (hu : u.Lawful) {s : QString} (h : ∀ c ∈ s, c ≠ c! '"' ∧ c ≠ c! '\'') : Clean u s [] := by
  induction s with
  | nil => trivial
  | cons c s ih =>
    refine ⟨?_, ih (fun x hx => h x (by simp [hx]))⟩
    rw [List.append_nil]
    cases hm : matchHere u (c :: s) with
    | none => rfl
    | some m =>
      obtain ⟨p, i, q⟩ := m
      obtain ⟨o, r, e, kw, once, s1, par, dir, rfl, -, -, -, -, -, -, hq⟩ := (matchHere_iff hu).1 hm
      have := h q (by rw [e]; simp)
      rcases hq with rfl | rfl
      · exact absurd rfl this.1
      · exact absurd rfl this.2

/-- The last match in a text that ends with an opening and a part of a file name. -/
theorem lastMatch_opening (hu : u.Lawful) {pre o path : QString} {p : Bool} {i : QString} {q : QChar} (h : Opening u o p i q)
    (hp : ∀ c ∈ path, c ≠ c! '"' ∧ c ≠ c! '\'') : lastMatch u (pre ++ o ++ path) = some ⟨p, i, q⟩ := by
  rw [List.append_assoc]
  apply lastMatch_pre
  obtain ⟨c, o', rfl, hc⟩ := clean_opening hu (t := path) h
  rw [List.cons_append, lastMatch, lastMatch_clean hc]
  have : lastMatch u path = none := by
    have := lastMatch_clean (clean_path hu hp)
    rw [List.append_nil] at this
    rw [this]; rfl
  rw [this, Option.none_or]
  exact (matchHere_iff hu).2 ⟨c :: o', path, by simp, h⟩

theorem semi_found {mid tail : QString} (h : ∀ c ∈ mid, (u.isSpace c = true ∨ c = c! ')') ∧ c ≠ c! ';') (i : Nat) :
    semi u (mid ++ q! ";" ++ tail) i = i + mid.length + 1 := by
  induction mid generalizing i with
  | nil => simp [semi]
  | cons c mid ih =>
    obtain ⟨h1, h2⟩ := h c (by simp)
    have h2' : (c == c! ';') = false := by simpa using h2
    have h1' : (!u.isSpace c && c != c! ')') = false := by
      rcases h1 with h1 | h1 <;> simp [h1]
    rw [List.cons_append, List.cons_append, semi, h2', h1']
    simp only [Bool.false_eq_true, if_false]
    rw [ih (fun x hx => h x (by simp [hx])), List.length_cons]
    omega

theorem semi_missing {mid : QString} (h : ∀ c ∈ mid, (u.isSpace c = true ∨ c = c! ')') ∧ c ≠ c! ';') {tail : QString}
    (ht : ∀ c ∈ tail.head?, u.isSpace c = false ∧ c ≠ c! ')' ∧ c ≠ c! ';') (i : Nat) : semi u (mid ++ tail) i = 0 := by
  induction mid generalizing i with
  | nil =>
    cases tail with
    | nil => rfl
    | cons c tail =>
      obtain ⟨h1, h2, h3⟩ := ht c (by simp)
      simp [semi, h1, h2, h3]
  | cons c mid ih =>
    obtain ⟨h1, h2⟩ := h c (by simp)
    have h2' : (c == c! ';') = false := by simpa using h2
    have h1' : (!u.isSpace c && c != c! ')') = false := by
      rcases h1 with h1 | h1 <;> simp [h1]
    rw [List.cons_append, semi, h2', h1']
    simp only [Bool.false_eq_true, if_false]
    exact ih (fun x hx => h x (by simp [hx])) _

theorem scan_found {rest tail : QString} {q : QChar} (h : ∀ c ∈ rest, u.isSpace c = false ∧ c ≠ q) (hq : u.isSpace q = false) :
    scan u q (rest ++ [q] ++ tail) = rest.length + 1 + semi u tail 0 := by
  induction rest with
  | nil => simp [scan, hq]
  | cons c rest ih =>
    obtain ⟨h1, h2⟩ := h c (by simp)
    have h2' : (c == q) = false := by simpa using h2
    rw [List.cons_append, List.cons_append, scan, h1, h2']
    simp only [Bool.false_eq_true, if_false]
    rw [ih (fun x hx => h x (by simp [hx])), List.length_cons]
    omega

theorem scan_missing {rest tail : QString} {q : QChar} (h : ∀ c ∈ rest, u.isSpace c = false ∧ c ≠ q) (ht : ∀ c ∈ tail.head?, u.isSpace c = true) :
    scan u q (rest ++ tail) = rest.length := by
  induction rest with
  | nil =>
    cases tail with
    | nil => rfl
    | cons c tail => simp [scan, ht c (by simp)]
  | cons c rest ih =>
    obtain ⟨h1, h2⟩ := h c (by simp)
    have h2' : (c == q) = false := by simpa using h2
    rw [List.cons_append, scan, h1, h2']
    simp only [Bool.false_eq_true, if_false]
    rw [ih (fun x hx => h x (by simp [hx])), List.length_cons]
    omega

theorem lineRest_ge {a b : QString} (h : c! '\n' ∉ a) : a.length ≤ lineRest (a ++ b) := by
  unfold lineRest
  induction a with
  | nil => simp
  | cons c a ih =>
    have hc : (c != c! '\n') = true := by
      simp only [List.mem_cons, not_or] at h
      simpa using (Ne.symm h.1)
    simp only [List.cons_append, List.takeWhile_cons, hc, if_true, List.length_cons]
    have := ih (fun hx => h (by simp [hx]))
    omega

theorem drop_line {a b : QString} {n : Nat} (hn : n = a.length) (h : c! '\n' ∉ a) : (a ++ b).drop (min n (lineRest (a ++ b))) = b := by
  subst hn
  rw [Nat.min_eq_left (lineRest_ge h)]
  simp

theorem no_newline (hu : u.Lawful) {a : QString} (h : ∀ c ∈ a, u.isSpace c = false) : c! '\n' ∉ a := by
  intro hm
  have := h _ hm
  rw [hu.space_ascii _ (by decide)] at this
  revert this; decide

theorem newText_opening (hu : u.Lawful) {pre o path name : QString} {p : Bool} {i : QString} {q : QChar} (isDir : Bool) (h : Opening u o p i q)
    (hp : ∀ c ∈ path, c ≠ c! '"' ∧ c ≠ c! '\'') :
    newText u (pre ++ o ++ path) name isDir = ((if isDir then name ++ q! "/" else name) ++ closing p i q, q) := by
  unfold newText
  rw [lastMatch_opening hu h hp]
  simp [closing]

theorem opening_quote {o : QString} {p : Bool} {i : QString} {q : QChar} (h : Opening u o p i q) : q = c! '"' ∨ q = c! '\'' := by
  obtain ⟨kw, once, s1, par, dir, -, -, -, -, -, -, -, hq⟩ := h; exact hq

theorem opening_inner {o : QString} {p : Bool} {i : QString} {q : QChar} (h : Opening u o p i q) : Blank u i := by
  obtain ⟨kw, once, s1, par, dir, -, -, -, -, hi, -⟩ := h; exact hi

theorem quote_not_space (hu : u.Lawful) {q : QChar} (h : q = c! '"' ∨ q = c! '\'') : u.isSpace q = false := by
  rcases h with rfl | rfl <;> (rw [hu.space_ascii _ (by decide)]; decide)

theorem blank_not_semi (hu : u.Lawful) {c : QChar} (h : u.isSpace c = true) : c ≠ c! ';' := by
  rintro rfl
  rw [hu.space_ascii _ (by decide)] at h
  revert h; decide

/-! ### C76 -/

/-- **C76.**  In a statement that is complete already, up to the `;` on the same line, the rest of the file name, the quotation mark, parentheses and the `;` are replaced: afterwards the text up to the
cursor is followed by the chosen name, the same quotation mark, `)` if there is `(`, and one `;`, and everything else is as before. -/
theorem completes_statement (hu : u.Lawful) (pre o path word rest mid tail name : QString) (isDir p : Bool) (i : QString) (q : QChar) (h : Opening u o p i q)
    (hp : ∀ c ∈ path, c ≠ c! '"' ∧ c ≠ c! '\'') (hr : ∀ c ∈ rest, u.isSpace c = false ∧ c ≠ q)
    (hm : ∀ c ∈ mid, (u.isSpace c = true ∨ c = c! ')') ∧ c ≠ c! '\n') :
    execute u ⟨pre ++ o ++ path, word, rest ++ [q] ++ mid ++ q! ";" ++ tail⟩ name isDir =
      pre ++ o ++ path ++ (if isDir then name ++ q! "/" else name) ++ closing p i q ++ tail := by
  have hm' : ∀ c ∈ mid, (u.isSpace c = true ∨ c = c! ')') ∧ c ≠ c! ';' := by
    intro c hc
    refine ⟨(hm c hc).1, ?_⟩
    rcases (hm c hc).1 with h | rfl
    · exact blank_not_semi hu h
    · decide
  have hq := opening_quote h
  unfold execute
  simp only [newText_opening hu isDir h hp]
  have e : rest ++ [q] ++ mid ++ q! ";" ++ tail = rest ++ [q] ++ (mid ++ q! ";" ++ tail) := by simp
  have e' : rest ++ [q] ++ mid ++ q! ";" ++ tail = (rest ++ [q] ++ mid ++ q! ";") ++ tail := by simp
  have hs : scan u q (rest ++ [q] ++ mid ++ q! ";" ++ tail) = (rest ++ [q] ++ mid ++ q! ";").length := by
    rw [e, scan_found hr (quote_not_space hu hq), semi_found hm']
    simp only [List.length_append, List.length_cons, List.length_nil]; omega
  rw [hs]
  rw [drop_line rfl]
  · simp
  · intro hn
    simp only [List.mem_append, List.mem_cons, List.not_mem_nil, or_false] at hn
    rcases hn with ((hn | hn) | hn) | hn
    · exact no_newline hu (fun c hc => (hr c hc).1) hn
    · rcases hq with rfl | rfl <;> (revert hn; decide)
    · exact (hm _ hn).2 rfl
    · revert hn; decide

/-- **C76.**  If there is no `;` behind the quotation mark yet (but blanks and parentheses at most, up to something else or the end), only the rest of the file name and the quotation mark are replaced. -/
theorem completes_open_statement (hu : u.Lawful) (pre o path word rest mid tail name : QString) (isDir p : Bool) (i : QString) (q : QChar) (h : Opening u o p i q)
    (hp : ∀ c ∈ path, c ≠ c! '"' ∧ c ≠ c! '\'') (hr : ∀ c ∈ rest, u.isSpace c = false ∧ c ≠ q)
    (hm : ∀ c ∈ mid, u.isSpace c = true ∨ c = c! ')') (ht : ∀ c ∈ tail.head?, u.isSpace c = false ∧ c ≠ c! ')' ∧ c ≠ c! ';') :
    execute u ⟨pre ++ o ++ path, word, rest ++ [q] ++ mid ++ tail⟩ name isDir =
      pre ++ o ++ path ++ (if isDir then name ++ q! "/" else name) ++ closing p i q ++ mid ++ tail := by
  have hm' : ∀ c ∈ mid, (u.isSpace c = true ∨ c = c! ')') ∧ c ≠ c! ';' := by
    intro c hc
    refine ⟨hm c hc, ?_⟩
    rcases hm c hc with h | rfl
    · exact blank_not_semi hu h
    · decide
  have hq := opening_quote h
  unfold execute
  simp only [newText_opening hu isDir h hp]
  have e : rest ++ [q] ++ mid ++ tail = rest ++ [q] ++ (mid ++ tail) := by simp
  have hs : scan u q (rest ++ [q] ++ (mid ++ tail)) = (rest ++ [q]).length := by
    rw [scan_found hr (quote_not_space hu hq), semi_missing hm' ht]
    simp only [List.length_append, List.length_cons, List.length_nil]
  rw [e, hs, drop_line rfl]
  · simp
  · intro hn
    simp only [List.mem_append, List.mem_cons, List.not_mem_nil, or_false] at hn
    rcases hn with hn | hn
    · exact no_newline hu (fun c hc => (hr c hc).1) hn
    · rcases hq with rfl | rfl <;> (revert hn; decide)

/-- **C76.**  At the end of a word nothing is replaced: the statement is completed and what follows is kept. -/
theorem completes_at_blank (hu : u.Lawful) (pre o path word after name : QString) (isDir p : Bool) (i : QString) (q : QChar) (h : Opening u o p i q)
    (hp : ∀ c ∈ path, c ≠ c! '"' ∧ c ≠ c! '\'') (ha : ∀ c ∈ after.head?, u.isSpace c = true) :
    execute u ⟨pre ++ o ++ path, word, after⟩ name isDir =
      pre ++ o ++ path ++ (if isDir then name ++ q! "/" else name) ++ closing p i q ++ after := by
  unfold execute
  simp only [newText_opening hu isDir h hp]
  have hs : scan u q after = 0 := by
    have := scan_missing (u := u) (rest := []) (q := q) (by simp) ha
    simpa using this
  rw [hs]; simp

/-- **C76.**  Choosing the same file once more changes nothing. -/
theorem execute_twice (hu : u.Lawful) (pre o path tail name : QString) (isDir p : Bool) (i : QString) (q : QChar) (h : Opening u o p i q)
    (hp : ∀ c ∈ path, c ≠ c! '"' ∧ c ≠ c! '\'') (hi : c! '\n' ∉ i) (word after : QString)
    (h1 : execute u ⟨pre ++ o ++ path, word, after⟩ name isDir = pre ++ o ++ path ++ (if isDir then name ++ q! "/" else name) ++ closing p i q ++ tail) :
    execute u ⟨pre ++ o ++ path, name, (if isDir then q! "/" else []) ++ closing p i q ++ tail⟩ name isDir =
      execute u ⟨pre ++ o ++ path, word, after⟩ name isDir := by
  rw [h1]
  have hq := opening_quote h
  have hib := opening_inner h
  have e : (if isDir then q! "/" else []) ++ closing p i q ++ tail =
      (if isDir then q! "/" else []) ++ [q] ++ (if p then i ++ q! ")" else []) ++ q! ";" ++ tail := by simp [closing]
  rw [e]
  apply completes_statement hu pre o path name _ _ tail name isDir p i q h hp
  · intro c hc
    cases isDir
    · simp at hc
    · simp at hc; subst hc
      refine ⟨by rw [hu.space_ascii _ (by decide)]; decide, ?_⟩
      rcases hq with rfl | rfl <;> decide
  · intro c hc
    cases p
    · simp at hc
    · simp only [if_true, List.mem_append, List.mem_cons, List.not_mem_nil, or_false] at hc
      rcases hc with hc | rfl
      · refine ⟨Or.inl (hib c hc), ?_⟩
        rintro rfl; exact hi hc
      · exact ⟨Or.inr rfl, by decide⟩

/-- **C76.**  Whatever the document is: the text before the word and the lines behind the one of the word are kept, and the chosen name stands where the word was. -/
theorem rest_kept (d : Doc) (name : QString) (isDir : Bool) :
    ∃ suffix k, execute u d name isDir = d.before ++ name ++ suffix ++ d.after.drop k ∧ k ≤ lineRest d.after ∧
      (isDir = true → ∃ s, suffix = q! "/" ++ s) := by
  unfold execute newText
  cases isDir
  · cases lastMatch u d.before with
    | none => exact ⟨[], _, by simp; rfl, Nat.min_le_right _ _, by simp⟩
    | some m => exact ⟨closing m.paren m.inner m.quote, min (scan u m.quote d.after) (lineRest d.after), by simp [closing], Nat.min_le_right _ _, by simp⟩
  · cases lastMatch u d.before with
    | none => exact ⟨q! "/", _, by simp only [if_true, List.append_assoc]; rfl, Nat.min_le_right _ _, fun _ => ⟨[], rfl⟩⟩
    | some m => exact ⟨q! "/" ++ closing m.paren m.inner m.quote, min (scan u m.quote d.after) (lineRest d.after), by simp [closing], Nat.min_le_right _ _, fun _ => ⟨_, rfl⟩⟩

/-- **C76.**  After a directory the cursor stands right behind its `/`; after a file it is not moved. -/
theorem cursor_behind_slash (d : Doc) (name : QString) :
    (∃ k, cursor name true = some k ∧ (execute u d name true).take (d.before.length + k) = d.before ++ name ++ q! "/") ∧ cursor name false = none := by
  refine ⟨⟨name.length + 1, rfl, ?_⟩, rfl⟩
  obtain ⟨suffix, k, h, -, hs⟩ := rest_kept (u := u) d name true
  obtain ⟨s, rfl⟩ := hs rfl
  rw [h]
  have : d.before ++ name ++ (q! "/" ++ s) ++ d.after.drop k = (d.before ++ name ++ q! "/") ++ (s ++ d.after.drop k) := by simp
  rw [this]
  apply List.take_left'
  simp

/-! ### Findings -/

/-- Finding: behind an opening of another form, as `include __DIR__ . '` (where files are offered), nothing is added, and all up to the next white space, with the quotation mark and the `;`, is removed. -/
theorem unknown_opening (hu : u.Lawful) (before word rest tail name : QString) (isDir : Bool) (h : lastMatch u before = none)
    (hr : ∀ c ∈ rest, u.isSpace c = false ∧ c ≠ 0) (ht : ∀ c ∈ tail.head?, u.isSpace c = true) :
    execute u ⟨before, word, rest ++ tail⟩ name isDir = before ++ (if isDir then name ++ q! "/" else name) ++ tail := by
  unfold execute newText
  simp only [h]
  rw [scan_missing hr ht, drop_line rfl (no_newline hu (fun c hc => (hr c hc).1))]

/-- Finding: if the string is not closed in the same word, the rest of that word is removed, whatever it is. -/
theorem unclosed_string (hu : u.Lawful) (pre o path word rest tail name : QString) (isDir p : Bool) (i : QString) (q : QChar) (h : Opening u o p i q)
    (hp : ∀ c ∈ path, c ≠ c! '"' ∧ c ≠ c! '\'') (hr : ∀ c ∈ rest, u.isSpace c = false ∧ c ≠ q) (ht : ∀ c ∈ tail.head?, u.isSpace c = true) :
    execute u ⟨pre ++ o ++ path, word, rest ++ tail⟩ name isDir =
      pre ++ o ++ path ++ (if isDir then name ++ q! "/" else name) ++ closing p i q ++ tail := by
  unfold execute
  simp only [newText_opening hu isDir h hp]
  rw [scan_missing hr ht, drop_line rfl (no_newline hu (fun c hc => (hr c hc).1))]
  simp

end

/-- Finding: `include __DIR__ . '/fo';` becomes `include __DIR__ . '/foo.php`. -/
theorem dir_constant_finding : execute asciiClass ⟨q! "include __DIR__ . '/", q! "fo", q! "';"⟩ (q! "foo.php") false = q! "include __DIR__ . '/foo.php" := by
  decide +kernel

/-- Finding: … and behind another `include` in the file, it gets the quotation mark of that. -/
theorem earlier_include_finding :
    execute asciiClass ⟨q! "include \"a.php\"; include __DIR__ . '/", q! "fo", q! ""⟩ (q! "foo.php") false =
      q! "include \"a.php\"; include __DIR__ . '/foo.php\";" := by
  decide +kernel

/-- Finding: `include('fo')` without `;` becomes `include('foo.php');)`. -/
theorem second_parenthesis_finding : execute asciiClass ⟨q! "include('", q! "fo", q! "')"⟩ (q! "foo.php") false = q! "include('foo.php');)" := by
  decide +kernel

/-! ### Examples -/

example : execute asciiClass ⟨q! "<? Require_Once ( dirname(__FILE__) . '/lib/", q! "fo", q! "obar' ) ; echo 1;"⟩ (q! "foo.php") false =
    q! "<? Require_Once ( dirname(__FILE__) . '/lib/foo.php' ); echo 1;" := by decide +kernel
example : execute asciiClass ⟨q! "include \"", q! "", q! "\";"⟩ (q! "lib") true = q! "include \"lib/\";" := by decide +kernel

example : Opening asciiClass (q! "Require_Once ( dirname(__FILE__) . '") true (q! " ") (c! '\'') :=
  ⟨q! "Require", q! "_Once", q! " ", q! "(", q! "dirname(__FILE__) . ", rfl, Or.inr rfl, Or.inr rfl, by simp [Blank]; decide, by simp [Blank]; decide, Or.inr ⟨rfl, rfl⟩,
    Or.inr ⟨q! "dirname", [], [], q! "__FILE__", [], q! " ", q! " ", rfl, rfl, rfl, by simp [Blank], by simp [Blank], by simp [Blank],
      by simp [Blank]; decide, by simp [Blank]; decide⟩, Or.inr rfl⟩

end KPhp.IncludeItem
