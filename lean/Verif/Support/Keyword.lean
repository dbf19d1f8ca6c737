import Verif.Chars
/-!
# Keyword completion templates (C43)

Models `KeywordItem::execute` (completion/keyworditem.cpp:51-103), `getIndentation` and `indentString`
(completion/helpers.cpp:163-188).

A template is a text with the markers `%INDENT%`, `%CURSOR%`, `%SELECT%` and `%ENDSELECT%`.
-/
namespace KPhp.Keyword

/-- `QString::indexOf(pat)` -/
def indexOf (pat : QString) : QString → Option Nat
  | [] => if pat = [] then some 0 else none
  | x :: s => if pat.isPrefixOf (x :: s) then some 0 else (indexOf pat s).map (· + 1)

/-- `QString::replace(pat, by)`, and `remove(pat)` with `by` empty: the occurrences from left to right -/
def replaceAll (pat new : QString) : QString → QString
  | [] => []
  | x :: s =>
    if pat.isPrefixOf (x :: s) then new ++ replaceAll pat new (s.drop (pat.length - 1))
    else x :: replaceAll pat new s
termination_by s => s.length
decreasing_by all_goals (simp; try omega)

/-- `QString::replace(QChar, QString)` -/
def replaceChar (c : QChar) (new s : QString) : QString := s.flatMap fun x => if x = c then new else [x]

/-- completion/helpers.cpp:182-188 -/
def getIndentation (u : CharClass) (line : QString) : QString := line.takeWhile u.isSpace

/-- completion/helpers.cpp:165-179; `width`: the indentation width if tabs are replaced -/
def indentString : Option Nat → QString
  | some n => List.replicate n 32
  | none => [9]

/-- a marker `%name%` -/
def mark (name : QString) : QString := 37 :: name ++ [37]

def INDENT := q! "INDENT"
def CURSOR := q! "CURSOR"
def SELECT := q! "SELECT"
def ENDSELECT := q! "ENDSELECT"

/-- A position in a document. -/
structure Cursor where
  line : Nat
  column : Nat
deriving DecidableEq, Repr

/-- completion/keyworditem.cpp:55-57: the template with line breaks and indentation -/
def expand (indentation indent template : QString) : QString :=
  replaceAll (mark INDENT) indent (replaceChar 10 (10 :: indentation) template)

/-- completion/keyworditem.cpp:59-75: the text inserted, the offset of the cursor and the end of the selection -/
def place (r : QString) : QString × Option Nat × Option Nat :=
  match indexOf (mark CURSOR) r with
  | some p => (replaceAll (mark CURSOR) [] r, some p, none)
  | none =>
    match indexOf (mark SELECT) r with
    | none => (r, none, none)
    | some p =>
      let r1 := replaceAll (mark SELECT) [] r
      let e := match indexOf (mark ENDSELECT) (r1.drop (p + 1)) with
        | some k => p + 1 + k
        | none => r1.length
      (replaceAll (mark ENDSELECT) [] r1, some p, some e)

/-- `lastIndexOf('\n') + 1` -/
def afterLastBreak (s : QString) : Nat := s.length - (s.reverse.takeWhile (· != 10)).length

/-- completion/keyworditem.cpp:81-85: the new position of the cursor, for the text `before` it -/
def newPos (start : Cursor) (before : QString) : Cursor :=
  ⟨start.line + before.count 10, start.column + before.length - afterLastBreak before⟩

/-- completion/keyworditem.cpp:51-103: the text replacing the word and the position of the cursor if it is moved -/
def execute (u : CharClass) (template line : QString) (width : Option Nat) (start : Cursor) : QString × Option Cursor :=
  let (r, c, _) := place (expand (getIndentation u line) (indentString width) template)
  (r, c.map fun p => newPos start (r.take p))

/-! ## Specification -/

/-- One level of indentation: as many blanks as configured if tabs are replaced, otherwise a tab. -/
def oneLevel (width : Option Nat) : QString :=
  match width with
  | none => q! "\t"
  | some n => List.replicate n (' ' : Char).toNat

theorem indentString_eq (w : Option Nat) : indentString w = oneLevel w := by cases w <;> rfl

/-- A template: plain text, then markers each followed by plain text. -/
structure Template where
  head : QString
  items : List (QString × QString)

/-- its text -/
def Template.text (t : Template) : QString := t.head ++ t.items.flatMap fun i => mark i.1 ++ i.2

/-- no `%` in the text -/
def noPercent (s : QString) : Prop := 37 ∉ s

instance (s : QString) : Decidable (noPercent s) := inferInstanceAs (Decidable (37 ∉ s))

/-- the names of the markers -/
def names : List QString := [INDENT, CURSOR, SELECT, ENDSELECT]

/-- no `%` outside of markers, and no text between two markers that looks like a marker together with their `%` -/
structure Template.Ok (t : Template) : Prop where
  head : noPercent t.head
  plain : ∀ i ∈ t.items, noPercent i.2 ∧ i.2 ∉ names
  known : ∀ i ∈ t.items, i.1 ∈ names

/-- The intended text: plain text with every line break followed by the indentation, and `value` for the markers. -/
def render (indentation : QString) (value : QString → QString) (head : QString) (items : List (QString × QString)) : QString :=
  replaceChar 10 (10 :: indentation) head ++
    items.flatMap fun i => value i.1 ++ replaceChar 10 (10 :: indentation) i.2

/-- where the next character after `text` inserted at `start` stands -/
def advance : Cursor → QString → Cursor
  | p, [] => p
  | p, c :: s => if c = 10 then advance ⟨p.line + 1, 0⟩ s else advance ⟨p.line, p.column + 1⟩ s

/-! ## Lemmas about markers -/

theorem prefix_plain {v : QString} {x : QChar} (s : QString) (hx : x ≠ 37) : (mark v).isPrefixOf (x :: s) = false := by
  cases hb : (mark v).isPrefixOf (x :: s) with
  | false => rfl
  | true =>
    rw [List.isPrefixOf_iff_prefix] at hb
    obtain ⟨t, h⟩ := hb
    simp [mark] at h
    exact absurd h.1.symm hx

theorem replaceAll_plain {v new : QString} {x : QString} (hx : noPercent x) (s : QString) :
    replaceAll (mark v) new (x ++ s) = x ++ replaceAll (mark v) new s := by
  induction x with
  | nil => rfl
  | cons c x ih =>
    have hc : c ≠ 37 := fun h => hx (by simp [h])
    rw [List.cons_append, replaceAll, if_neg (by rw [prefix_plain _ hc]; decide), ih (fun h => hx (by simp [h])),
      List.cons_append]

theorem indexOf_plain {v : QString} {x : QString} (hx : noPercent x) (s : QString) :
    indexOf (mark v) (x ++ s) = (indexOf (mark v) s).map (x.length + ·) := by
  induction x with
  | nil => simp
  | cons c x ih =>
    have hc : c ≠ 37 := fun h => hx (by simp [h])
    rw [List.cons_append, indexOf, if_neg (by rw [prefix_plain _ hc]; decide), ih (fun h => hx (by simp [h]))]
    cases indexOf (mark v) s with
    | none => rfl
    | some k => simp; omega

/-- equal prefixes up to the first `%` -/
theorem split_percent : ∀ {a b : QString} {s t : QString}, noPercent a → noPercent b → a ++ 37 :: s = b ++ 37 :: t → a = b ∧ s = t := by
  intro a
  induction a with
  | nil =>
    intro b s t _ hb h
    cases b with
    | nil => simp at h; exact ⟨rfl, h⟩
    | cons y b => simp at h; exact absurd h.1.symm (fun e => hb (by simp [e]))
  | cons x a ih =>
    intro b s t ha hb h
    cases b with
    | nil => simp at h; exact absurd h.1 (fun e => ha (by simp [e]))
    | cons y b =>
      simp at h
      obtain ⟨h1, h2⟩ := ih (fun e => ha (by simp [e])) (fun e => hb (by simp [e])) h.2
      exact ⟨by rw [h.1, h1], h2⟩

theorem mark_prefix {v w s : QString} (hv : noPercent v) (hw : noPercent w) :
    (mark v).isPrefixOf (mark w ++ s) = true ↔ v = w := by
  rw [List.isPrefixOf_iff_prefix]
  constructor
  · rintro ⟨t, h⟩
    simp only [mark, List.cons_append, List.append_assoc, List.nil_append, List.cons.injEq, true_and] at h
    exact (split_percent hv hw h).1
  · rintro rfl
    exact List.prefix_append _ _

/-- a closing `%` followed by plain text does not begin the marker, unless the text is its name -/
theorem close_prefix {v p r : QString} (hv : noPercent v) (hp : noPercent p) (hr : r = [] ∨ ∃ t, r = 37 :: t) (hne : p ≠ v) :
    (mark v).isPrefixOf (37 :: (p ++ r)) = false := by
  cases hb : (mark v).isPrefixOf (37 :: (p ++ r)) with
  | false => rfl
  | true =>
    exfalso
    rw [List.isPrefixOf_iff_prefix] at hb
    obtain ⟨t, h⟩ := hb
    simp only [mark, List.cons_append, List.append_assoc, List.nil_append, List.cons.injEq, true_and] at h
    rcases hr with rfl | ⟨t', rfl⟩
    · simp at h
      exact hp (by rw [← h]; simp)
    · exact hne (split_percent hp hv h.symm).1

/-- markers with the text after them -/
def tail (items : List (QString × QString)) : QString := items.flatMap fun i => mark i.1 ++ i.2

theorem tail_start (items : List (QString × QString)) : tail items = [] ∨ ∃ t, tail items = 37 :: t := by
  cases items with
  | nil => exact Or.inl rfl
  | cons i l => exact Or.inr ⟨_, by simp [tail, mark]; rfl⟩

theorem replaceAll_tail {v new : QString} (hv : noPercent v) (items : List (QString × QString))
    (hi : ∀ i ∈ items, noPercent i.1 ∧ noPercent i.2 ∧ i.2 ≠ v) :
    replaceAll (mark v) new (tail items) = items.flatMap fun i => (if i.1 = v then new else mark i.1) ++ i.2 := by
  induction items with
  | nil => simp [tail, replaceAll]
  | cons i l ih =>
    obtain ⟨h1, h2, h3⟩ := hi i (by simp)
    have ih := ih fun j hj => hi j (by simp [hj])
    have e : tail (i :: l) = mark i.1 ++ (i.2 ++ tail l) := by simp [tail]
    rw [e, List.flatMap_cons]
    by_cases he : i.1 = v
    · rw [if_pos he, he]
      have hc : ∃ x s, mark v ++ (i.2 ++ tail l) = x :: s ∧ s.drop ((mark v).length - 1) = i.2 ++ tail l := by
        refine ⟨37, v ++ [37] ++ (i.2 ++ tail l), rfl, ?_⟩
        have : (mark v).length - 1 = (v ++ [37]).length := by simp [mark]
        rw [this, List.drop_left]
      obtain ⟨x, s, hxs, hd⟩ := hc
      have hp : (mark v).isPrefixOf (x :: s) = true := by rw [← hxs]; exact (mark_prefix hv hv).2 rfl
      rw [hxs, replaceAll, if_pos hp, hd, replaceAll_plain h2, ih]
      simp
    · rw [if_neg he]
      have hnp : (mark v).isPrefixOf (mark i.1 ++ (i.2 ++ tail l)) = false := by
        cases hb : (mark v).isPrefixOf (mark i.1 ++ (i.2 ++ tail l)) with
        | false => rfl
        | true => exact absurd ((mark_prefix hv h1).1 hb).symm he
      have e2 : mark i.1 ++ (i.2 ++ tail l) = 37 :: (i.1 ++ (37 :: (i.2 ++ tail l))) := by simp [mark]
      rw [e2] at hnp ⊢
      rw [replaceAll, if_neg (by rw [hnp]; decide), replaceAll_plain h1, replaceAll,
        if_neg (by rw [close_prefix hv h2 (tail_start l) h3]; decide), replaceAll_plain h2, ih]
      simp [mark]

/-- the text up to the first marker `v` -/
def upTo (v : QString) : List (QString × QString) → Option QString
  | [] => none
  | i :: l => if i.1 = v then some [] else (upTo v l).map fun s => mark i.1 ++ i.2 ++ s

theorem indexOf_tail {v : QString} (hv : noPercent v) (items : List (QString × QString))
    (hi : ∀ i ∈ items, noPercent i.1 ∧ noPercent i.2 ∧ i.2 ≠ v) :
    indexOf (mark v) (tail items) = (upTo v items).map List.length := by
  induction items with
  | nil => simp [tail, indexOf, upTo, mark]
  | cons i l ih =>
    obtain ⟨h1, h2, h3⟩ := hi i (by simp)
    have ih := ih fun j hj => hi j (by simp [hj])
    have e : tail (i :: l) = mark i.1 ++ (i.2 ++ tail l) := by simp [tail]
    rw [e, upTo]
    by_cases he : i.1 = v
    · rw [if_pos he, he]
      have hp : (mark v).isPrefixOf (mark v ++ (i.2 ++ tail l)) = true := (mark_prefix hv hv).2 rfl
      have e2 : mark v ++ (i.2 ++ tail l) = 37 :: (v ++ (37 :: (i.2 ++ tail l))) := by simp [mark]
      rw [e2] at hp ⊢
      rw [indexOf, if_pos hp]
      rfl
    · rw [if_neg he]
      have hnp : (mark v).isPrefixOf (mark i.1 ++ (i.2 ++ tail l)) = false := by
        cases hb : (mark v).isPrefixOf (mark i.1 ++ (i.2 ++ tail l)) with
        | false => rfl
        | true => exact absurd ((mark_prefix hv h1).1 hb).symm he
      have e2 : mark i.1 ++ (i.2 ++ tail l) = 37 :: (i.1 ++ (37 :: (i.2 ++ tail l))) := by simp [mark]
      rw [e2] at hnp ⊢
      rw [indexOf, if_neg (by rw [hnp]; decide), indexOf_plain h1, indexOf,
        if_neg (by rw [close_prefix hv h2 (tail_start l) h3]; decide), indexOf_plain h2, ih]
      cases upTo v l with
      | none => rfl
      | some s => simp [mark]

/-! ## The stages -/

theorem replaceChar_append (c : QChar) (new a b : QString) :
    replaceChar c new (a ++ b) = replaceChar c new a ++ replaceChar c new b := by simp [replaceChar]

theorem replaceChar_id {c : QChar} {new a : QString} (h : c ∉ a) : replaceChar c new a = a := by
  induction a with
  | nil => rfl
  | cons x a ih =>
    have hx : x ≠ c := fun e => h (by simp [e])
    have := ih fun e => h (by simp [e])
    simp only [replaceChar, List.flatMap_cons, if_neg hx] at this ⊢
    rw [this]; rfl

/-- the plain texts with indentation after line breaks -/
def indented (indentation : QString) (items : List (QString × QString)) : List (QString × QString) :=
  items.map fun i => (i.1, replaceChar 10 (10 :: indentation) i.2)

theorem names_plain : ∀ n ∈ names, 37 ∉ n ∧ 10 ∉ n ∧ 32 ∉ n ∧ 9 ∉ n := by decide

theorem replaceChar_text (ind : QString) (t : Template) (h : ∀ i ∈ t.items, i.1 ∈ names) :
    replaceChar 10 (10 :: ind) t.text = replaceChar 10 (10 :: ind) t.head ++ tail (indented ind t.items) := by
  unfold Template.text
  rw [replaceChar_append]
  congr 1
  generalize t.items = items at h
  induction items with
  | nil => rfl
  | cons i l ih =>
    have hm : 10 ∉ mark i.1 := by
      have := (names_plain i.1 (h i (by simp))).2.1
      simp [mark, this]
    rw [List.flatMap_cons, replaceChar_append, replaceChar_append, replaceChar_id hm, ih fun j hj => h j (by simp [hj])]
    simp [indented, tail]

/-- the indentation markers replaced and the texts around them joined -/
def merge (indent : QString) : QString → List (QString × QString) → QString × List (QString × QString)
  | h, [] => (h, [])
  | h, i :: l =>
    if i.1 = INDENT then merge indent (h ++ indent ++ i.2) l
    else (h, (i.1, (merge indent i.2 l).1) :: (merge indent i.2 l).2)

theorem merge_flat (indent : QString) (f : QString → QString) (items : List (QString × QString)) : ∀ h,
    (merge indent h items).1 ++ (merge indent h items).2.flatMap (fun i => f i.1 ++ i.2) =
      h ++ items.flatMap (fun i => (if i.1 = INDENT then indent else f i.1) ++ i.2) := by
  induction items with
  | nil => intro h; simp [merge]
  | cons i l ih =>
    intro h
    rw [merge]
    by_cases hi : i.1 = INDENT
    · rw [if_pos hi, ih, List.flatMap_cons, if_pos hi]
      simp
    · rw [if_neg hi, List.flatMap_cons, List.flatMap_cons, if_neg hi]
      have := ih i.2
      simp only [List.append_assoc] at this ⊢
      rw [this]

theorem merge_upTo (indent v : QString) (hv : v ≠ INDENT) (A : List (QString × QString)) (p : QString)
    (B : List (QString × QString)) (hA : ∀ i ∈ A, i.1 ≠ v) : ∀ h, ∃ s,
    upTo v (merge indent h (A ++ (v, p) :: B)).2 = some s ∧
    (merge indent h (A ++ (v, p) :: B)).1 ++ s = h ++ A.flatMap (fun i => (if i.1 = INDENT then indent else mark i.1) ++ i.2) := by
  induction A with
  | nil =>
    intro h
    refine ⟨[], ?_, ?_⟩
    · simp [merge, hv, upTo]
    · simp [merge, hv]
  | cons i A ih =>
    intro h
    have hA' : ∀ j ∈ A, j.1 ≠ v := fun j hj => hA j (by simp [hj])
    rw [List.cons_append, merge]
    by_cases hi : i.1 = INDENT
    · rw [if_pos hi]
      obtain ⟨s, h1, h2⟩ := ih hA' (h ++ indent ++ i.2)
      exact ⟨s, h1, by rw [h2, List.flatMap_cons, if_pos hi]; simp⟩
    · rw [if_neg hi]
      obtain ⟨s, h1, h2⟩ := ih hA' i.2
      refine ⟨mark i.1 ++ (merge indent i.2 (A ++ (v, p) :: B)).1 ++ s, ?_, ?_⟩
      · simp only [upTo, if_neg (hA i (by simp)), h1, Option.map_some]
      · rw [List.flatMap_cons, if_neg hi]
        simp only [List.append_assoc] at h2 ⊢
        rw [h2]

theorem merge_none (indent v : QString) (items : List (QString × QString)) (hi : ∀ i ∈ items, i.1 ≠ v) : ∀ h,
    upTo v (merge indent h items).2 = none := by
  induction items with
  | nil => intro h; rfl
  | cons i l ih =>
    intro h
    rw [merge]
    split
    · exact ih (fun j hj => hi j (by simp [hj])) _
    · simp only [upTo, if_neg (hi i (by simp)), ih (fun j hj => hi j (by simp [hj])), Option.map_none]

theorem merge_ok (indent : QString) (hind : noPercent indent) (hne : ∀ n ∈ names, ∀ a b : QString, a ++ indent ++ b ≠ n)
    (items : List (QString × QString)) (hi : ∀ i ∈ items, i.1 ∈ names ∧ noPercent i.2 ∧ i.2 ∉ names) : ∀ h, noPercent h →
    noPercent (merge indent h items).1 ∧ (h ∉ names → (merge indent h items).1 ∉ names) ∧
    ∀ i ∈ (merge indent h items).2, i.1 ∈ names ∧ noPercent i.2 ∧ i.2 ∉ names := by
  induction items with
  | nil => intro h hh; exact ⟨hh, fun e => e, by simp [merge]⟩
  | cons i l ih =>
    intro h hh
    obtain ⟨h1, h2, h3⟩ := hi i (by simp)
    have hl : ∀ j ∈ l, j.1 ∈ names ∧ noPercent j.2 ∧ j.2 ∉ names := fun j hj => hi j (by simp [hj])
    rw [merge]
    by_cases he : i.1 = INDENT
    · rw [if_pos he]
      have hp : noPercent (h ++ indent ++ i.2) := by
        unfold noPercent at *
        simp [hh, hind, h2]
      obtain ⟨g1, g2, g3⟩ := ih hl (h ++ indent ++ i.2) hp
      exact ⟨g1, fun _ => g2 fun hm => hne _ hm h i.2 rfl, g3⟩
    · rw [if_neg he]
      obtain ⟨g1, g2, g3⟩ := ih hl i.2 h2
      refine ⟨hh, fun e => e, ?_⟩
      intro j hj
      rcases List.mem_cons.1 hj with rfl | hj
      · exact ⟨h1, g1, g2 h3⟩
      · exact g3 j hj

/-- an indentation: spaces or tabs, at least one -/
def Indent (s : QString) : Prop := s ≠ [] ∧ ∀ c ∈ s, c = 32 ∨ c = 9

theorem Indent.noPercent {s : QString} (h : Indent s) : noPercent s := by
  intro hm
  rcases h.2 37 hm with h | h <;> omega

theorem Indent.ne {s : QString} (h : Indent s) : ∀ n ∈ names, ∀ a b : QString, a ++ s ++ b ≠ n := by
  intro n hn a b he
  obtain ⟨c, s', rfl⟩ : ∃ c s', s = c :: s' := by
    cases s with
    | nil => exact absurd rfl h.1
    | cons c s' => exact ⟨c, s', rfl⟩
  have hp := names_plain n hn
  have hm : c ∈ n := by rw [← he]; simp
  rcases h.2 c (by simp) with rfl | rfl
  · exact hp.2.2.1 hm
  · exact hp.2.2.2 hm

theorem indentString_indent (w : Option Nat) (h : w ≠ some 0) : Indent (indentString w) := by
  cases w with
  | none => exact ⟨by simp [indentString], by simp [indentString]⟩
  | some n =>
    cases n with
    | zero => exact absurd rfl h
    | succ n => exact ⟨by simp [indentString, List.replicate_succ], by simp [indentString]⟩

theorem mem_takeWhile {α : Type} {p : α → Bool} {x : α} {l : List α} (h : x ∈ l.takeWhile p) : p x = true := by
  induction l with
  | nil => simp at h
  | cons y l ih =>
    by_cases hy : p y
    · simp only [List.takeWhile_cons, hy, if_true, List.mem_cons] at h
      rcases h with rfl | h
      · exact hy
      · exact ih h
    · simp [hy] at h

theorem indented_ok {u : CharClass} (hu : u.Lawful) (line : QString) (t : Template) (ht : t.Ok) :
    noPercent (replaceChar 10 (10 :: getIndentation u line) t.head) ∧
    ∀ i ∈ indented (getIndentation u line) t.items, i.1 ∈ names ∧ noPercent i.2 ∧ i.2 ∉ names := by
  have hind : noPercent (getIndentation u line) := by
    intro hm
    have : u.isSpace 37 = true := by
      have h := mem_takeWhile hm
      exact h
    rw [hu.space_ascii 37 (by decide)] at this
    exact absurd this (by decide)
  have key : ∀ s, noPercent s → noPercent (replaceChar 10 (10 :: getIndentation u line) s) := by
    intro s hs hm
    unfold replaceChar at hm
    obtain ⟨x, hx, hm⟩ := List.mem_flatMap.1 hm
    split at hm
    · rcases List.mem_cons.1 hm with h | h
      · omega
      · exact hind h
    · simp at hm
      exact hs (by rw [hm]; exact hx)
  refine ⟨key _ ht.head, ?_⟩
  intro i hi
  obtain ⟨j, hj, rfl⟩ := List.mem_map.1 hi
  refine ⟨ht.known j hj, key _ (ht.plain j hj).1, ?_⟩
  by_cases h10 : 10 ∈ j.2
  · intro hm
    refine (names_plain _ hm).2.1 ?_
    exact List.mem_flatMap.2 ⟨10, h10, by simp⟩
  · simp only
    rw [replaceChar_id h10]
    exact (ht.plain j hj).2

/-- the value of the markers in the text that is inserted -/
def values (indent : QString) (removed : List QString) (n : QString) : QString :=
  if n = INDENT then indent else if n ∈ removed then [] else mark n

theorem expand_merge {u : CharClass} (line indent : QString) (t : Template) (hu : u.Lawful) (ht : t.Ok) :
    expand (getIndentation u line) indent t.text =
      (merge indent (replaceChar 10 (10 :: getIndentation u line) t.head) (indented (getIndentation u line) t.items)).1 ++
      tail (merge indent (replaceChar 10 (10 :: getIndentation u line) t.head) (indented (getIndentation u line) t.items)).2 := by
  have hok := indented_ok hu line t ht
  unfold expand
  rw [replaceChar_text _ t ht.known, replaceAll_plain hok.1, replaceAll_tail (by decide)]
  · have := merge_flat indent mark (indented (getIndentation u line) t.items)
      (replaceChar 10 (10 :: getIndentation u line) t.head)
    unfold tail
    rw [this]
  · intro i hi
    obtain ⟨h1, h2, h3⟩ := hok.2 i hi
    exact ⟨(names_plain _ h1).1, h2, fun h => h3 (by rw [h]; decide)⟩

theorem place_cursor {u : CharClass} (hu : u.Lawful) (line indent : QString) (hin : Indent indent) (t : Template) (ht : t.Ok)
    (A B : List (QString × QString)) (p : QString) (hitems : t.items = A ++ (CURSOR, p) :: B) (hA : ∀ i ∈ A, i.1 ≠ CURSOR) :
    place (expand (getIndentation u line) indent t.text) =
      (render (getIndentation u line) (values indent [CURSOR]) t.head t.items,
       some (render (getIndentation u line) (values indent [CURSOR]) t.head A).length, none) := by
  have hok := indented_ok hu line t ht
  have hm := merge_ok indent hin.noPercent hin.ne _ hok.2 _ hok.1
  rw [expand_merge line indent t hu ht]
  generalize hI : getIndentation u line = ind at *
  have hcond : ∀ i ∈ (merge indent (replaceChar 10 (10 :: ind) t.head) (indented ind t.items)).2,
      noPercent i.1 ∧ noPercent i.2 ∧ i.2 ≠ CURSOR := by
    intro i hi
    obtain ⟨h1, h2, h3⟩ := hm.2.2 i hi
    exact ⟨(names_plain _ h1).1, h2, fun h => h3 (by rw [h]; decide)⟩
  have hsplit : indented ind t.items = indented ind A ++ (CURSOR, replaceChar 10 (10 :: ind) p) :: indented ind B := by
    rw [hitems]; simp [indented]
  obtain ⟨s, hs1, hs2⟩ := merge_upTo indent CURSOR (by decide) (indented ind A) (replaceChar 10 (10 :: ind) p) (indented ind B)
    (by
      intro i hi
      obtain ⟨j, hj, rfl⟩ := List.mem_map.1 hi
      exact hA j hj) (replaceChar 10 (10 :: ind) t.head)
  have hidx : indexOf (mark CURSOR)
      ((merge indent (replaceChar 10 (10 :: ind) t.head) (indented ind t.items)).1 ++
        tail (merge indent (replaceChar 10 (10 :: ind) t.head) (indented ind t.items)).2) =
      some (render ind (values indent [CURSOR]) t.head A).length := by
    rw [indexOf_plain hm.1, indexOf_tail (by decide) _ hcond, hsplit, hs1]
    simp only [Option.map_some, Option.some.injEq]
    have h4 := congrArg List.length hs2
    rw [List.length_append] at h4
    rw [h4]
    unfold render
    congr 2
    simp only [indented, List.flatMap_map]
    have : ∀ (l : List (QString × QString)), (∀ i ∈ l, i.1 ≠ CURSOR) →
        l.flatMap (fun i => (if i.1 = INDENT then indent else mark i.1) ++ replaceChar 10 (10 :: ind) i.2) =
        l.flatMap (fun i => values indent [CURSOR] i.1 ++ replaceChar 10 (10 :: ind) i.2) := by
      intro l
      induction l with
      | nil => intro _; rfl
      | cons i l ih =>
        intro h
        rw [List.flatMap_cons, List.flatMap_cons, ih fun j hj => h j (by simp [hj])]
        have h1 := h i (by simp)
        simp only [values, List.mem_singleton, if_neg h1]
    exact this A hA
  unfold place
  rw [hidx]
  simp only
  rw [replaceAll_plain hm.1, replaceAll_tail (by decide) _ hcond,
    merge_flat indent (fun n => if n = CURSOR then [] else mark n)]
  simp only [render, indented, List.flatMap_map, values, List.mem_singleton]

theorem place_none {u : CharClass} (hu : u.Lawful) (line indent : QString) (hin : Indent indent) (t : Template) (ht : t.Ok)
    (hn : ∀ i ∈ t.items, i.1 ≠ CURSOR ∧ i.1 ≠ SELECT) :
    place (expand (getIndentation u line) indent t.text) =
      (render (getIndentation u line) (values indent []) t.head t.items, none, none) := by
  have hok := indented_ok hu line t ht
  have hm := merge_ok indent hin.noPercent hin.ne _ hok.2 _ hok.1
  have hflat := merge_flat indent mark (indented (getIndentation u line) t.items)
    (replaceChar 10 (10 :: getIndentation u line) t.head)
  rw [expand_merge line indent t hu ht]
  generalize hI : getIndentation u line = ind at *
  have hcond : ∀ v ∈ names, ∀ i ∈ (merge indent (replaceChar 10 (10 :: ind) t.head) (indented ind t.items)).2,
      noPercent i.1 ∧ noPercent i.2 ∧ i.2 ≠ v := by
    intro v hv i hi
    obtain ⟨h1, h2, h3⟩ := hm.2.2 i hi
    exact ⟨(names_plain _ h1).1, h2, fun h => h3 (by rw [h]; exact hv)⟩
  have hnone : ∀ v ∈ names, (∀ i ∈ t.items, i.1 ≠ v) → indexOf (mark v)
      ((merge indent (replaceChar 10 (10 :: ind) t.head) (indented ind t.items)).1 ++
        tail (merge indent (replaceChar 10 (10 :: ind) t.head) (indented ind t.items)).2) = none := by
    intro v hv hi
    rw [indexOf_plain hm.1, indexOf_tail (names_plain v hv).1 _ (hcond v hv), merge_none]
    · rfl
    · intro i h
      obtain ⟨j, hj, rfl⟩ := List.mem_map.1 h
      exact hi j hj
  unfold place
  rw [hnone CURSOR (by decide) fun i hi => (hn i hi).1]
  simp only
  rw [hnone SELECT (by decide) fun i hi => (hn i hi).2]
  simp only
  unfold tail
  rw [hflat]
  simp only [render, indented, List.flatMap_map, values, List.not_mem_nil, if_false]

/-- the indentation markers before the selection are gone after the first stage -/
theorem merge_indents (indent : QString) (A : List (QString × QString)) (l : List (QString × QString)) (hA : ∀ i ∈ A, i.1 = INDENT) :
    ∀ h, merge indent h (A ++ l) = merge indent (h ++ A.flatMap fun i => indent ++ i.2) l := by
  induction A with
  | nil => intro h; simp
  | cons i A ih =>
    intro h
    rw [List.cons_append, merge, if_pos (hA i (by simp)), ih (fun j hj => hA j (by simp [hj])), List.flatMap_cons]
    simp

theorem place_select {u : CharClass} (hu : u.Lawful) (line indent : QString) (hin : Indent indent) (t : Template) (ht : t.Ok)
    (A B : List (QString × QString)) (name rest : QString)
    (hitems : t.items = A ++ (SELECT, name) :: (ENDSELECT, rest) :: B) (hA : ∀ i ∈ A, i.1 = INDENT)
    (hB : ∀ i ∈ B, i.1 = INDENT) (hname : name ≠ []) :
    place (expand (getIndentation u line) indent t.text) =
      (render (getIndentation u line) (values indent [SELECT, ENDSELECT]) t.head t.items,
       some (render (getIndentation u line) (values indent [SELECT, ENDSELECT]) t.head A).length,
       some (render (getIndentation u line) (values indent [SELECT, ENDSELECT]) t.head (A ++ [(SELECT, name)])).length) := by
  have hok := indented_ok hu line t ht
  have hm := merge_ok indent hin.noPercent hin.ne _ hok.2 _ hok.1
  rw [expand_merge line indent t hu ht]
  generalize hI : getIndentation u line = ind at *
  have hsplit : indented ind t.items = indented ind A ++ (SELECT, replaceChar 10 (10 :: ind) name) ::
      (ENDSELECT, replaceChar 10 (10 :: ind) rest) :: indented ind B := by
    rw [hitems]; simp [indented]
  have hiA : ∀ i ∈ indented ind A, i.1 = INDENT := by
    intro i hi
    obtain ⟨j, hj, rfl⟩ := List.mem_map.1 hi
    exact hA j hj
  have hiB : ∀ i ∈ indented ind B, i.1 = INDENT := by
    intro i hi
    obtain ⟨j, hj, rfl⟩ := List.mem_map.1 hi
    exact hB j hj
  have h1 : ¬ SELECT = INDENT := by decide
  have h2 : ¬ ENDSELECT = INDENT := by decide
  have hmerge : merge indent (replaceChar 10 (10 :: ind) t.head) (indented ind t.items) =
      (replaceChar 10 (10 :: ind) t.head ++ (indented ind A).flatMap (fun i => indent ++ i.2),
       [(SELECT, replaceChar 10 (10 :: ind) name),
        (ENDSELECT, replaceChar 10 (10 :: ind) rest ++ (indented ind B).flatMap fun i => indent ++ i.2)]) := by
    rw [hsplit, merge_indents indent _ _ hiA]
    have hBm := merge_indents indent (indented ind B) [] hiB (replaceChar 10 (10 :: ind) rest)
    rw [List.append_nil] at hBm
    simp only [merge, if_neg h1, if_neg h2, hBm]
  rw [hmerge] at hm ⊢
  obtain ⟨m1, m2, m3⟩ := hm
  simp only at m1
  have hN := m3 (SELECT, replaceChar 10 (10 :: ind) name) (by simp)
  have hR := m3 (ENDSELECT, replaceChar 10 (10 :: ind) rest ++ (indented ind B).flatMap fun i => indent ++ i.2) (by simp)
  simp only at hN hR
  generalize hX : replaceChar 10 (10 :: ind) t.head ++ (indented ind A).flatMap (fun i => indent ++ i.2) = X at *
  have hNe : replaceChar 10 (10 :: ind) name ≠ [] := by
    cases name with
    | nil => exact absurd rfl hname
    | cons c s =>
      unfold replaceChar
      rw [List.flatMap_cons]
      split <;> simp
  have hrN : ∀ l : List (QString × QString), (∀ i ∈ l, i.1 = INDENT) →
      l.flatMap (fun i => values indent [SELECT, ENDSELECT] i.1 ++ replaceChar 10 (10 :: ind) i.2) =
      (indented ind l).flatMap (fun i => indent ++ i.2) := by
    intro l
    induction l with
    | nil => intro _; rfl
    | cons i l ih =>
      intro h
      rw [List.flatMap_cons, ih fun j hj => h j (by simp [hj])]
      have : values indent [SELECT, ENDSELECT] i.1 = indent := by simp only [values, if_pos (h i (by simp))]
      rw [this]
      simp [indented]
  have v1 : values indent [SELECT, ENDSELECT] SELECT = [] := by
    unfold values; rw [if_neg (by decide), if_pos (by decide)]
  have v2 : values indent [SELECT, ENDSELECT] ENDSELECT = [] := by
    unfold values; rw [if_neg (by decide), if_pos (by decide)]
  have r1 : render ind (values indent [SELECT, ENDSELECT]) t.head A = X := by
    unfold render
    rw [hrN A hA, hX]
  have r2 : render ind (values indent [SELECT, ENDSELECT]) t.head (A ++ [(SELECT, name)]) = X ++ replaceChar 10 (10 :: ind) name := by
    unfold render at r1 ⊢
    rw [List.flatMap_append, ← List.append_assoc, r1]
    simp [v1]
  have r3 : render ind (values indent [SELECT, ENDSELECT]) t.head t.items =
      X ++ replaceChar 10 (10 :: ind) name ++ (replaceChar 10 (10 :: ind) rest ++ (indented ind B).flatMap fun i => indent ++ i.2) := by
    unfold render at r1 ⊢
    rw [hitems, List.flatMap_append, ← List.append_assoc, r1]
    simp only [List.flatMap_cons, v1, v2, hrN B hB, List.nil_append, List.append_assoc]
  rw [r1, r2, r3]
  generalize replaceChar 10 (10 :: ind) name = N at *
  generalize (replaceChar 10 (10 :: ind) rest ++ (indented ind B).flatMap fun i => indent ++ i.2) = R at *
  obtain ⟨-, hN1, hN2⟩ := hN
  obtain ⟨-, hR1, hR2⟩ := hR
  have hcond : ∀ v ∈ names, ∀ i ∈ [(SELECT, N), (ENDSELECT, R)], noPercent i.1 ∧ noPercent i.2 ∧ i.2 ≠ v := by
    intro v hv i hi
    simp only [List.mem_cons, List.not_mem_nil, or_false] at hi
    rcases hi with rfl | rfl
    · exact ⟨(by decide : (37 : Nat) ∉ SELECT), hN1, fun e => hN2 (by rw [show N = v from e]; exact hv)⟩
    · exact ⟨(by decide : (37 : Nat) ∉ ENDSELECT), hR1, fun e => hR2 (by rw [show R = v from e]; exact hv)⟩
  have i1 : indexOf (mark CURSOR) (X ++ tail [(SELECT, N), (ENDSELECT, R)]) = none := by
    rw [indexOf_plain m1, indexOf_tail (by decide) _ (hcond CURSOR (by decide))]
    rfl
  have i2 : indexOf (mark SELECT) (X ++ tail [(SELECT, N), (ENDSELECT, R)]) = some X.length := by
    rw [indexOf_plain m1, indexOf_tail (by decide) _ (hcond SELECT (by decide))]
    rfl
  have e1 : replaceAll (mark SELECT) [] (X ++ tail [(SELECT, N), (ENDSELECT, R)]) = X ++ N ++ tail [(ENDSELECT, R)] := by
    rw [replaceAll_plain m1, replaceAll_tail (by decide) _ (hcond SELECT (by decide))]
    have : ¬ ENDSELECT = SELECT := by decide
    simp [tail, this]
  have hXN : noPercent (X ++ N) := by unfold noPercent at *; simp [m1, hN1]
  have e2 : replaceAll (mark ENDSELECT) [] (X ++ N ++ tail [(ENDSELECT, R)]) = X ++ N ++ R := by
    rw [replaceAll_plain hXN, replaceAll_tail (by decide) _ (fun i hi => hcond ENDSELECT (by decide) i (by simp at hi ⊢; exact Or.inr hi))]
    simp
  have e3 : indexOf (mark ENDSELECT) ((X ++ N ++ tail [(ENDSELECT, R)]).drop (X.length + 1)) = some (N.length - 1) := by
    cases N with
    | nil => exact absurd rfl hNe
    | cons c N' =>
      have : (X ++ (c :: N') ++ tail [(ENDSELECT, R)]).drop (X.length + 1) = N' ++ tail [(ENDSELECT, R)] := by
        have : X ++ (c :: N') ++ tail [(ENDSELECT, R)] = (X ++ [c]) ++ (N' ++ tail [(ENDSELECT, R)]) := by simp
        rw [this]
        have : X.length + 1 = (X ++ [c]).length := by simp
        rw [this, List.drop_left]
      rw [this, indexOf_plain (fun h => hN1 (by simp [h])),
        indexOf_tail (by decide) _ (fun i hi => hcond ENDSELECT (by decide) i (by simp at hi ⊢; exact Or.inr hi))]
      rfl
  unfold place
  rw [i1]
  simp only
  rw [i2]
  simp only [e1, e2, e3]
  have : 0 < N.length := List.length_pos_iff.2 hNe
  simp only [List.length_append]
  rw [show X.length + 1 + (N.length - 1) = X.length + N.length by omega]

/-! ## The theorems -/

theorem advance_append (a b : QString) : ∀ p, advance p (a ++ b) = advance (advance p a) b := by
  induction a with
  | nil => intro p; rfl
  | cons c a ih => intro p; simp only [List.cons_append, advance]; split <;> exact ih _

theorem advance_line (s : QString) : ∀ p, (advance p s).line = p.line + s.count 10 := by
  induction s with
  | nil => intro p; rfl
  | cons c s ih =>
    intro p
    rw [advance]
    split
    · rename_i h; rw [ih, h]; simp; omega
    · rename_i h; rw [ih]; simp [h]

/-- the characters behind the last line break -/
def lastLine (s : QString) : Nat := (s.reverse.takeWhile (· != 10)).length

theorem takeWhile_append_all {α : Type} {p : α → Bool} {a b : List α} (h : ∀ x ∈ a, p x = true) :
    (a ++ b).takeWhile p = a ++ b.takeWhile p := by
  induction a with
  | nil => rfl
  | cons x a ih => simp [h x (by simp), ih fun y hy => h y (by simp [hy])]

theorem advance_column (s : QString) : ∀ p,
    (advance p s).column = (if 10 ∈ s then 0 else p.column) + lastLine s := by
  -- induction from the end
  have gen : ∀ (r : QString) p, (advance p r.reverse).column =
      (if 10 ∈ r then 0 else p.column) + (r.takeWhile (· != 10)).length := by
    intro r
    induction r with
    | nil => intro p; simp [advance]
    | cons c r ih =>
      intro p
      rw [List.reverse_cons, advance_append]
      simp only [advance]
      by_cases hc : c = 10
      · subst hc; simp
      · rw [if_neg hc, List.takeWhile_cons_of_pos (by simp [hc])]
        simp only [ih, List.length_cons, List.mem_cons]
        have : (10 = c ∨ 10 ∈ r) ↔ 10 ∈ r := ⟨fun h => h.elim (fun e => absurd e.symm hc) id, Or.inr⟩
        simp only [this]
        omega
  intro p
  have := gen s.reverse p
  rw [List.reverse_reverse] at this
  rw [this]
  simp [lastLine]

theorem newPos_eq (start : Cursor) (s : QString) :
    newPos start s = ⟨start.line + s.count 10, start.column + lastLine s⟩ := by
  have : (s.reverse.takeWhile (· != 10)).length ≤ s.length := by
    have := (List.takeWhile_prefix (l := s.reverse) (· != 10)).length_le
    simpa using this
  simp only [newPos, afterLastBreak, lastLine]
  congr 1
  omega

/-- **C43 (cursor).** For a template with a cursor marker the inserted text is the template without it, with the indentation of the
line after every line break and the indentation for every `%INDENT%`; the cursor is put where the marker was, if the text before
it has no line break or the word starts at the beginning of the line. Missing: in the other case the column is wrong, see
`keyword_cursor_shifted`. -/
theorem keyword_cursor_partial {u : CharClass} (hu : u.Lawful) (line : QString) (width : Option Nat) (hw : width ≠ some 0)
    (start : Cursor) (t : Template) (ht : t.Ok) (A B : List (QString × QString)) (p : QString)
    (hitems : t.items = A ++ (CURSOR, p) :: B) (hA : ∀ i ∈ A, i.1 ≠ CURSOR)
    (before : QString) (hbefore : before = render (getIndentation u line) (values (oneLevel width) [CURSOR]) t.head A)
    (hcol : 10 ∉ before ∨ start.column = 0) :
    execute u t.text line width start =
      (render (getIndentation u line) (values (oneLevel width) [CURSOR]) t.head t.items, some (advance start before)) := by
  simp only [← indentString_eq] at hbefore ⊢
  have hp := place_cursor hu line _ (indentString_indent width hw) t ht A B p hitems hA
  have htake : (render (getIndentation u line) (values (indentString width) [CURSOR]) t.head t.items).take before.length = before := by
    subst hbefore
    have : render (getIndentation u line) (values (indentString width) [CURSOR]) t.head t.items =
        render (getIndentation u line) (values (indentString width) [CURSOR]) t.head A ++
          ((CURSOR, p) :: B).flatMap (fun i => values (indentString width) [CURSOR] i.1 ++
            replaceChar 10 (10 :: getIndentation u line) i.2) := by
      rw [hitems]; simp [render]
    rw [this, List.take_left]
  simp only [execute, hp, ← hbefore, Option.map_some, htake]
  rw [newPos_eq]
  have h1 := advance_line before start
  have h2 := advance_column before start
  have : advance start before = ⟨(advance start before).line, (advance start before).column⟩ := rfl
  rw [this, h1, h2]
  rcases hcol with h | h
  · simp [h]
  · simp [h]

/-- **Limit of C43.** If the marker stands after a line break and the word does not start at the beginning of its line, the
cursor is put too far to the right, by the column of the word. -/
theorem keyword_cursor_shifted (start : Cursor) (before : QString) (h : 10 ∈ before) :
    (newPos start before).line = (advance start before).line ∧
    (newPos start before).column = (advance start before).column + start.column := by
  rw [newPos_eq, advance_line, advance_column]
  simp [h]; omega

/-- **C43 (no marker).** A template without markers other than `%INDENT%` is inserted, the cursor is not moved. -/
theorem keyword_plain {u : CharClass} (hu : u.Lawful) (line : QString) (width : Option Nat) (hw : width ≠ some 0)
    (start : Cursor) (t : Template) (ht : t.Ok) (hn : ∀ i ∈ t.items, i.1 ≠ CURSOR ∧ i.1 ≠ SELECT) :
    execute u t.text line width start =
      (render (getIndentation u line) (values (oneLevel width) []) t.head t.items, none) := by
  simp only [← indentString_eq]
  simp only [execute, place_none hu line _ (indentString_indent width hw) t ht hn, Option.map_none]

/-- **C43 (selection).** For `%SELECT%name%ENDSELECT%` both markers are removed, the cursor is put before and the selection ends
behind the name, i.e. the name is selected. -/
theorem keyword_selection {u : CharClass} (hu : u.Lawful) (line : QString) (width : Option Nat) (hw : width ≠ some 0)
    (t : Template) (ht : t.Ok) (A B : List (QString × QString)) (name rest : QString)
    (hitems : t.items = A ++ (SELECT, name) :: (ENDSELECT, rest) :: B) (hA : ∀ i ∈ A, i.1 = INDENT)
    (hB : ∀ i ∈ B, i.1 = INDENT) (hname : name ≠ []) :
    ∃ text c e, place (expand (getIndentation u line) (indentString width) t.text) = (text, some c, some e) ∧
      text = render (getIndentation u line) (values (oneLevel width) [SELECT, ENDSELECT]) t.head t.items ∧
      text.take c = render (getIndentation u line) (values (oneLevel width) [SELECT, ENDSELECT]) t.head A ∧
      (text.take e).drop c = replaceChar 10 (10 :: getIndentation u line) name := by
  simp only [← indentString_eq]
  refine ⟨_, _, _, place_select hu line _ (indentString_indent width hw) t ht A B name rest hitems hA hB hname, rfl, ?_, ?_⟩
  · rw [hitems]
    simp only [render, List.flatMap_append]
    rw [← List.append_assoc, List.take_left]
  · rw [hitems]
    have v1 : values (indentString width) [SELECT, ENDSELECT] SELECT = [] := by
      unfold values; rw [if_neg (by decide), if_pos (by decide)]
    have e : A ++ (SELECT, name) :: (ENDSELECT, rest) :: B = (A ++ [(SELECT, name)]) ++ (ENDSELECT, rest) :: B := by simp
    rw [e]
    generalize hv : values (indentString width) [SELECT, ENDSELECT] = val at v1 ⊢
    have r1 : ∀ X Y, render (getIndentation u line) val t.head (X ++ Y) = render (getIndentation u line) val t.head X ++
        Y.flatMap fun i => val i.1 ++ replaceChar 10 (10 :: getIndentation u line) i.2 := by
      intro X Y; simp [render]
    rw [r1 (A ++ _), List.take_left, r1 A, List.drop_left]
    simp [v1]

/-- `if (%CURSOR%) {\n%INDENT%\n}\n` -/
def ifTemplate : Template := ⟨q! "if (", [(CURSOR, q! ") {\n"), (INDENT, q! "\n}\n")]⟩
/-- `class %SELECT%NAME%ENDSELECT% {\n%INDENT%\n}\n` -/
def classTemplate : Template := ⟨q! "class ", [(SELECT, q! "NAME"), (ENDSELECT, q! " {\n"), (INDENT, q! "\n}\n")]⟩
/-- `array(\n%INDENT%%CURSOR%\n)` -/
def arrayTemplate : Template := ⟨q! "array(\n", [(INDENT, []), (CURSOR, q! "\n)")]⟩
/-- `case %SELECT%CASE%ENDSELECT%:\n%INDENT%\n%INDENT%break;\n` -/
def caseTemplate : Template :=
  ⟨q! "case ", [(SELECT, q! "CASE"), (ENDSELECT, q! ":\n"), (INDENT, q! "\n"), (INDENT, q! "break;\n")]⟩

/-- The templates of the code meet the hypotheses (four of them, of all shapes that occur). -/
example : ∀ t ∈ [ifTemplate, classTemplate, arrayTemplate, caseTemplate], Template.Ok t := by
  intro t ht
  simp only [List.mem_cons, List.not_mem_nil, or_false] at ht
  rcases ht with rfl | rfl | rfl | rfl <;> exact ⟨by decide, by decide, by decide⟩

example : ifTemplate.text = q! "if (%CURSOR%) {\n%INDENT%\n}\n" ∧ arrayTemplate.text = q! "array(\n%INDENT%%CURSOR%\n)" := by
  decide

/-- `if` in a line indented by four spaces -/
example : execute asciiClass ifTemplate.text (q! "    i") (some 4) ⟨7, 4⟩ =
    (q! "if () {\n        \n    }\n    ", some ⟨7, 8⟩) := by decide +kernel

end KPhp.Keyword
