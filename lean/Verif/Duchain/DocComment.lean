import Verif.Chars
/-
Model of the doc-comment tag search (duchain/builders/typebuilder.cpp:141-203) and property C21.
-/
set_option linter.unusedVariables false
set_option linter.unusedSimpArgs false
namespace KPhp.Doc

/-- `i = docComment.indexOf('\n', i)` followed by the `++i` of the loop: the text after the next
line break, `none` if there is none (typebuilder.cpp:176-179, 196-199). -/
def afterNewline : QString → Option QString
  | [] => none
  | c :: s => if c = c! '\n' then some s else afterNewline s

theorem afterNewline_length {s r : QString} (h : afterNewline s = some r) :
    r.length < s.length := by
  induction s with
  | nil => simp [afterNewline] at h
  | cons c s ih =>
    unfold afterNewline at h
    split at h
    · cases h; simp
    · have := ih h; simp; omega

/-- `docComment[i].isSpace() || docComment[i] == '*' || docComment[i] == '/'`
(typebuilder.cpp:161). -/
def isMarker (u : CharClass) (c : QChar) : Bool :=
  u.isSpace c || c == c! '*' || c == c! '/'

/-- `findInDocComment` (typebuilder.cpp:141-203).  The position `i` is represented by the remaining
text `docComment.mid(i)`; everything else is as in the code. -/
def findInDoc (u : CharClass) (name : QString) (onlyOne : Bool) : QString → List QString
  | [] => []
  | c :: rest =>
    if isMarker u c then findInDoc u name onlyOne rest
    else if c = c! '@' ∧ rest.take name.length = name then
      match h1 : rest.drop name.length with
      | [] => []                                       -- i >= size: no further line break
      | d :: s2 =>
        if u.isSpace d = false then
          match h : afterNewline (d :: s2) with
          | none => []
          | some r => findInDoc u name onlyOne r
        else if d = c! '\n' then findInDoc u name onlyOne s2
        else
          let s3 := s2.dropWhile u.isSpace
          let w := s3.takeWhile (fun x => !u.isSpace x)
          if w ≠ [] then
            if onlyOne then [w]
            else
              match h : afterNewline (s3.drop w.length) with
              | none => [w]
              | some r => w :: findInDoc u name onlyOne r
          else
            match h : afterNewline s3 with
            | none => []
            | some r => findInDoc u name onlyOne r
    else
      match h : afterNewline (c :: rest) with
      | none => []
      | some r => findInDoc u name onlyOne r
termination_by s => s.length
decreasing_by
  · simp
  · have := afterNewline_length h
    have h2 := congrArg List.length h1
    simp at h2 this ⊢; omega
  · have h2 := congrArg List.length h1
    simp at h2 ⊢; omega
  · have := afterNewline_length h
    have h2 := congrArg List.length h1
    have h3 : s3.length ≤ s2.length := (List.dropWhile_suffix u.isSpace (l := s2)).length_le
    simp at h2 this ⊢; omega
  · have := afterNewline_length h
    have h2 := congrArg List.length h1
    have h3 : s3.length ≤ s2.length := (List.dropWhile_suffix u.isSpace (l := s2)).length_le
    simp at h2 this ⊢; omega
  · have := afterNewline_length h
    simp at this ⊢; omega

/-! ### Specification -/

/-- The lines of a text (without their line breaks). -/
def lines : QString → List QString
  | [] => [[]]
  | c :: s =>
    if c = c! '\n' then [] :: lines s
    else match lines s with
      | [] => [[c]]
      | l :: ls => (c :: l) :: ls

/-- The first word of a text: the first maximal run of non-white-space characters, empty if the
text is blank. -/
def firstWord (u : CharClass) (l : QString) : QString :=
  (l.dropWhile u.isSpace).takeWhile (fun x => !u.isSpace x)

/-- The characters in front of the text in a line of a doc comment: white space, `*` and the `/` of its beginning. -/
def frame (u : CharClass) (c : QChar) : Bool := u.isSpace c || c == c! '*' || c == c! '/'

/-- If the line starts, after white space and comment markers, with `@name` followed by a white
space character: what follows that character. -/
def tagRest (u : CharClass) (name : QString) (l : QString) : Option QString :=
  match l.dropWhile (frame u) with
  | [] => none
  | c :: s =>
    if c = c! '@' ∧ s.take name.length = name then
      match s.drop name.length with
      | [] => none
      | d :: r => if u.isSpace d then some r else none
    else none

/-- A line with nothing but white space. -/
def blank (u : CharClass) (l : QString) : Bool := l.all u.isSpace

/-- The values of a tag: the first word after the tag, line by line; a tag with nothing after it on
its line takes the first word of the next line that is not blank (that line is then used up). -/
def tagValues (u : CharClass) (name : QString) : List QString → List QString
  | [] => []
  | l :: ls =>
    match tagRest u name l with
    | none => tagValues u name ls
    | some r =>
      if blank u r then
        match _h : ls.dropWhile (blank u) with
        | [] => []
        | l' :: ls' => firstWord u l' :: tagValues u name ls'
      else firstWord u r :: tagValues u name ls
termination_by ls => ls.length
decreasing_by
  · simp
  · have h3 := (List.dropWhile_suffix (blank u) (l := ls)).length_le
    rw [_h] at h3
    simp at h3 ⊢; omega
  · simp


/-! ### Lemmas -/

theorem lines_ne_nil (s : QString) : lines s ≠ [] := by
  cases s with
  | nil => simp [lines]
  | cons c s => unfold lines; split <;> (try split) <;> simp

theorem lines_nl (s : QString) : lines (c! '\n' :: s) = [] :: lines s := by
  simp [lines]

theorem lines_cons {c : QChar} {s l : QString} {t : List QString} (hc : c ≠ c! '\n')
    (h : lines s = l :: t) : lines (c :: s) = (c :: l) :: t := by
  simp [lines, hc, h]

theorem lines_cases (s : QString) : ∃ l t, lines s = l :: t := by
  cases h : lines s with
  | nil => exact absurd h (lines_ne_nil s)
  | cons l t => exact ⟨l, t, rfl⟩

/-- What the rest of the lines is, in terms of the next line break. -/
def restLines (s : QString) : List QString :=
  match afterNewline s with
  | none => []
  | some r => lines r

theorem lines_rest {s l : QString} {t : List QString} (h : lines s = l :: t) :
    t = restLines s := by
  unfold restLines
  induction s generalizing l with
  | nil => simp [lines] at h; simp [afterNewline, h]
  | cons c s ih =>
    by_cases hc : c = c! '\n'
    · subst hc; rw [lines_nl] at h; cases h; simp [afterNewline]
    · rw [afterNewline, if_neg hc]
      obtain ⟨l', t', h'⟩ := lines_cases s
      rw [lines_cons hc h'] at h
      cases h
      exact ih h'

theorem restLines_cons {c : QChar} {s : QString} (hc : c ≠ c! '\n') :
    restLines (c :: s) = restLines s := by
  simp [restLines, afterNewline, hc]

theorem restLines_append {a s : QString} (ha : ∀ c ∈ a, c ≠ c! '\n') :
    restLines (a ++ s) = restLines s := by
  induction a with
  | nil => rfl
  | cons c a ih =>
    rw [List.cons_append, restLines_cons (ha c (by simp)), ih (fun x hx => ha x (by simp [hx]))]

theorem lines_append {a s l : QString} {t : List QString} (ha : ∀ c ∈ a, c ≠ c! '\n')
    (h : lines s = l :: t) : lines (a ++ s) = (a ++ l) :: t := by
  induction a with
  | nil => exact h
  | cons c a ih =>
    rw [List.cons_append, List.cons_append]
    exact lines_cons (ha c (by simp)) (ih (fun x hx => ha x (by simp [hx])))

theorem lines_prefix {s l : QString} {t : List QString} (h : lines s = l :: t) :
    ∃ y, s = l ++ y := by
  induction s generalizing l with
  | nil => simp [lines] at h; simp [← h.1]
  | cons c s ih =>
    by_cases hc : c = c! '\n'
    · subst hc; rw [lines_nl] at h; cases h; exact ⟨_, rfl⟩
    · obtain ⟨l', t', h'⟩ := lines_cases s
      rw [lines_cons hc h'] at h
      cases h
      obtain ⟨y, hy⟩ := ih h'
      exact ⟨y, by rw [hy]; simp⟩

theorem isSpace_nl {u : CharClass} (hu : u.Lawful) : u.isSpace (c! '\n') = true := by
  rw [hu.space_ascii _ (by decide)]; rfl

theorem tagValues_none {u : CharClass} {name l : QString} {ls : List QString}
    (h : tagRest u name l = none) : tagValues u name (l :: ls) = tagValues u name ls := by
  rw [tagValues, h]

/-- The value part of `tagValues`: the rest of the tag's line and the following lines. -/
def valueSpec (u : CharClass) (name : QString) (r : QString) (ls : List QString) : List QString :=
  if blank u r then
    match ls.dropWhile (blank u) with
    | [] => []
    | l' :: ls' => firstWord u l' :: tagValues u name ls'
  else firstWord u r :: tagValues u name ls

theorem tagValues_some {u : CharClass} {name l r : QString} {ls : List QString}
    (h : tagRest u name l = some r) :
    tagValues u name (l :: ls) = valueSpec u name r ls := by
  rw [tagValues, h]
  unfold valueSpec
  simp only
  split
  · split <;> simp_all
  · rfl

theorem tagRest_marker {u : CharClass} {name l : QString} {c : QChar} (h : isMarker u c = true) :
    tagRest u name (c :: l) = tagRest u name l := by
  have h' : frame u c = true := h
  simp [tagRest, List.dropWhile_cons, h']

/-- The value part of `findInDoc` (all values wanted). -/
def valueFrom (u : CharClass) (name : QString) (s2 : QString) : List QString :=
  let s3 := s2.dropWhile u.isSpace
  let w := s3.takeWhile (fun x => !u.isSpace x)
  if w ≠ [] then
    match afterNewline (s3.drop w.length) with
    | none => [w]
    | some r => w :: findInDoc u name false r
  else
    match afterNewline s3 with
    | none => []
    | some r => findInDoc u name false r

/-- Continue after the next line break. -/
def contFrom (u : CharClass) (name : QString) (o : Bool) (s : QString) : List QString :=
  match afterNewline s with
  | none => []
  | some r => findInDoc u name o r

theorem takeWhile_line {u : CharClass} (hu : u.Lawful) {s l : QString} {t : List QString}
    (h : lines s = l :: t) :
    s.takeWhile (fun x => !u.isSpace x) = l.takeWhile (fun x => !u.isSpace x) := by
  induction s generalizing l with
  | nil => simp [lines] at h; simp [← h.1]
  | cons c s ih =>
    by_cases hc : c = c! '\n'
    · subst hc
      rw [lines_nl] at h
      cases h
      simp [isSpace_nl hu]
    · obtain ⟨l', t', h'⟩ := lines_cases s
      rw [lines_cons hc h'] at h
      cases h
      simp only [List.takeWhile_cons, ih h']

theorem word_no_nl {u : CharClass} (hu : u.Lawful) (s : QString) :
    ∀ c ∈ s.takeWhile (fun x => !u.isSpace x), c ≠ c! '\n' := by
  intro c hc e
  have := List.all_takeWhile (p := fun x => !u.isSpace x) (l := s)
  rw [List.all_eq_true] at this
  have := this c hc
  subst e
  simp [isSpace_nl hu] at this

theorem drop_takeWhile {α} (p : α → Bool) (s : List α) :
    s.drop (s.takeWhile p).length = s.dropWhile p := by
  induction s with
  | nil => rfl
  | cons c s ih =>
    by_cases h : p c
    · simp [List.takeWhile_cons, List.dropWhile_cons, h, ih]
    · simp [List.takeWhile_cons, List.dropWhile_cons, h]

theorem valueFrom_spec {u : CharClass} (hu : u.Lawful) {name s2 l : QString} {t : List QString}
    (ih : ∀ r : QString, r.length < s2.length →
      findInDoc u name false r = tagValues u name (lines r))
    (h : lines s2 = l :: t) : valueFrom u name s2 = valueSpec u name l t := by
  induction s2 generalizing l t with
  | nil =>
    simp [lines] at h
    obtain ⟨rfl, rfl⟩ := h
    simp [valueFrom, valueSpec, blank, afterNewline]
  | cons c s ihs =>
    obtain ⟨l', t', h'⟩ := lines_cases s
    have ihs' := ihs (fun r hr => ih r (by simp; omega)) h'
    by_cases hc : c = c! '\n'
    · subst hc
      rw [lines_nl] at h
      cases h
      have e : valueFrom u name (c! '\n' :: s) = valueFrom u name s := by
        simp [valueFrom, List.dropWhile_cons, isSpace_nl hu]
      rw [e, ihs', h']
      have hbn : blank u [] = true := by simp [blank]
      by_cases hb : blank u l' = true
      · simp only [valueSpec, hb, hbn, List.dropWhile_cons, if_true]
      · simp only [valueSpec, hb, hbn, List.dropWhile_cons, if_true]
        rfl
    · rw [lines_cons hc h'] at h
      cases h
      by_cases hsp : u.isSpace c = true
      · have e : valueFrom u name (c :: s) = valueFrom u name s := by
          simp [valueFrom, List.dropWhile_cons, hsp]
        rw [e, ihs']
        simp [valueSpec, blank, firstWord, List.dropWhile_cons, hsp]
      · have e3 : (c :: s).dropWhile u.isSpace = c :: s := by simp [List.dropWhile_cons, hsp]
        have e3' : (c :: l').dropWhile u.isSpace = c :: l' := by simp [List.dropWhile_cons, hsp]
        have ew := takeWhile_line hu (lines_cons hc h')
        have hw : (c :: s).takeWhile (fun x => !u.isSpace x) ≠ [] := by simp [hsp]
        have hb : blank u (c :: l') = false := by simp [blank, hsp]
        unfold valueFrom valueSpec
        simp only [e3, hw, ne_eq, not_false_eq_true, if_true, hb, firstWord, e3', ← ew]
        have hrest : restLines ((c :: s).drop ((c :: s).takeWhile (fun x => !u.isSpace x)).length)
            = t := by
          rw [drop_takeWhile, lines_rest h']
          have := restLines_append (s := (c :: s).dropWhile (fun x => !u.isSpace x))
            (word_no_nl hu (c :: s))
          rw [List.takeWhile_append_dropWhile, restLines_cons hc] at this
          exact this.symm
        rw [← hrest, restLines]
        cases ha : afterNewline ((c :: s).drop ((c :: s).takeWhile (fun x => !u.isSpace x)).length) with
        | none => simp [tagValues]
        | some r =>
          have := afterNewline_length ha
          have hlen := ih r (by simp at this ⊢; omega)
          simp only [hlen]
          rfl

theorem contFrom_spec {u : CharClass} {name s l : QString} {t : List QString}
    (ih : ∀ r : QString, r.length < s.length →
      findInDoc u name false r = tagValues u name (lines r))
    (h : lines s = l :: t) : contFrom u name false s = tagValues u name t := by
  rw [lines_rest h]
  unfold contFrom restLines
  cases ha : afterNewline s with
  | none => simp [tagValues]
  | some r => exact ih r (afterNewline_length ha)

/-- One step of the search when all values are wanted. -/
theorem findInDoc_cons (u : CharClass) (name : QString) (c : QChar) (rest : QString) :
    findInDoc u name false (c :: rest) =
      if isMarker u c then findInDoc u name false rest
      else if c = c! '@' ∧ rest.take name.length = name then
        match rest.drop name.length with
        | [] => []
        | d :: s2 =>
          if u.isSpace d = false then contFrom u name false (d :: s2)
          else if d = c! '\n' then findInDoc u name false s2
          else valueFrom u name s2
      else contFrom u name false (c :: rest) := by
  rw [findInDoc]
  split
  · rfl
  · split
    · generalize rest.drop name.length = s1
      cases s1 with
      | nil => rfl
      | cons d s2 =>
        simp only
        split
        · unfold contFrom; split <;> simp_all
        · split
          · rfl
          · unfold valueFrom
            simp only [Bool.false_eq_true, if_false]
            split
            · split <;> simp_all
            · split <;> simp_all
    · unfold contFrom; split <;> simp_all

/-! ### C21 -/

theorem findInDoc_eq {u : CharClass} (hu : u.Lawful) (name : QString)
    (hn : ∀ c ∈ name, u.isSpace c = false) (n : Nat) :
    ∀ s : QString, s.length < n → findInDoc u name false s = tagValues u name (lines s) := by
  induction n with
  | zero => intro s h; omega
  | succ n ih =>
    intro s hs
    have hn' : ∀ c ∈ name, c ≠ c! '\n' := by
      intro c hc e
      have := hn c hc
      rw [e, isSpace_nl hu] at this
      exact absurd this (by decide)
    cases s with
    | nil => simp [findInDoc, lines, tagValues, tagRest]
    | cons c rest =>
      have ih' : ∀ r : QString, r.length < (c :: rest).length →
          findInDoc u name false r = tagValues u name (lines r) :=
        fun r hr => ih r (by omega)
      rw [findInDoc_cons]
      obtain ⟨l', t', h'⟩ := lines_cases rest
      by_cases hm : isMarker u c = true
      · rw [if_pos hm, ih' rest (by simp)]
        by_cases hc : c = c! '\n'
        · subst hc
          rw [lines_nl, tagValues_none (by simp [tagRest])]
        · rw [lines_cons hc h', h']
          cases ht : tagRest u name l' with
          | none => rw [tagValues_none ht, tagValues_none (by rw [tagRest_marker hm, ht])]
          | some r => rw [tagValues_some ht, tagValues_some (by rw [tagRest_marker hm, ht])]
      · rw [if_neg hm]
        have hc : c ≠ c! '\n' := by
          intro e; apply hm; subst e; simp [isMarker, isSpace_nl hu]
        have hl := lines_cons hc h'
        have hm' : ¬ frame u c = true := hm
        have hdw : (c :: l').dropWhile (frame u) = c :: l' := by simp [List.dropWhile_cons, hm']
        by_cases hat : c = c! '@' ∧ rest.take name.length = name
        · rw [if_pos hat]
          have hrest : rest = name ++ rest.drop name.length := by
            conv => lhs; rw [← List.take_append_drop name.length rest, hat.2]
          generalize hd : rest.drop name.length = s1 at hrest
          cases s1 with
          | nil =>
            rw [List.append_nil] at hrest
            have h2 := lines_append (s := []) (l := []) (t := []) hn' (by simp [lines])
            rw [List.append_nil, ← hrest, h'] at h2
            cases h2
            rw [hl, tagValues_none]
            · simp [tagValues]
            · unfold tagRest; rw [hdw]; simp [hat.1, hrest]
          | cons d s2 =>
            obtain ⟨l2, t2, h2⟩ := lines_cases s2
            have hlen : s2.length < (c :: rest).length := by
              rw [hrest]; simp; omega
            simp only
            by_cases hdn : d = c! '\n'
            · subst hdn
              have h3 := lines_append (s := c! '\n' :: s2) hn' (lines_nl s2)
              rw [← hrest, h', List.append_nil] at h3
              cases h3
              rw [if_neg (by simp [isSpace_nl hu]), if_pos rfl, ih' s2 hlen, hl, tagValues_none]
              unfold tagRest; rw [hdw]; simp [hat.1]
            · have h3 := lines_append (s := d :: s2) hn' (lines_cons hdn h2)
              rw [← hrest, h'] at h3
              cases h3
              have htr : tagRest u name (c :: (name ++ d :: l2)) =
                  if u.isSpace d then some l2 else none := by
                unfold tagRest; rw [hdw]; simp [hat.1]
              by_cases hds : u.isSpace d = true
              · rw [if_neg (by simp [hds]), if_neg hdn, hl, tagValues_some (by rw [htr, if_pos hds])]
                exact valueFrom_spec hu (fun r hr => ih' r (by omega)) h2
              · rw [if_pos (by simpa using hds), hl, tagValues_none (by rw [htr, if_neg hds])]
                exact contFrom_spec (fun r hr => ih' r (by rw [hrest]; simp at hr ⊢; omega))
                  (lines_cons hdn h2)
        · rw [if_neg hat, contFrom_spec ih' hl, hl, tagValues_none]
          unfold tagRest
          rw [hdw]
          simp only
          rw [if_neg]
          intro hh
          apply hat
          refine ⟨hh.1, ?_⟩
          obtain ⟨y, hy⟩ := lines_prefix h'
          have hlen := congrArg List.length hh.2
          rw [List.length_take] at hlen
          rw [hy, List.take_append_of_le_length (by omega), hh.2]

theorem dropWhile_head {α} (p : α → Bool) (s : List α) {c : α} {t : List α}
    (h : s.dropWhile p = c :: t) : p c = false := by
  induction s with
  | nil => simp at h
  | cons a s ih =>
    rw [List.dropWhile_cons] at h
    split at h
    · exact ih h
    · cases h; simp_all

theorem firstWord_ne_nil {u : CharClass} {l : QString} (h : blank u l = false) :
    firstWord u l ≠ [] := by
  unfold firstWord
  cases hd : l.dropWhile u.isSpace with
  | nil =>
    exfalso
    have h3 : l.all u.isSpace = true := by
      rw [List.all_eq_true]
      have := List.takeWhile_append_dropWhile (p := u.isSpace) (l := l)
      rw [hd, List.append_nil] at this
      intro x hx
      rw [← this] at hx
      have h2 := List.all_takeWhile (p := u.isSpace) (l := l)
      rw [List.all_eq_true] at h2
      exact h2 x hx
    unfold blank at h
    rw [h3] at h
    exact absurd h (by decide)
  | cons c t =>
    have := dropWhile_head _ _ hd
    simp [this]

theorem firstWord_no_space {u : CharClass} {l : QString} :
    ∀ c ∈ firstWord u l, u.isSpace c = false := by
  intro c hc
  have := List.all_takeWhile (p := fun x => !u.isSpace x) (l := l.dropWhile u.isSpace)
  rw [List.all_eq_true] at this
  simpa using this c hc

/-- **C21.**  Searching a doc comment for a tag gives the first word after the tag of every line
that starts (after white space, `*` and `/`) with the tag, in order; a tag with nothing after it on
its line takes the first word of the next non-blank line. -/
theorem doc_tag_values {u : CharClass} (hu : u.Lawful) (name doc : QString)
    (hn : ∀ c ∈ name, u.isSpace c = false) :
    findInDoc u name false doc = tagValues u name (lines doc) :=
  findInDoc_eq hu name hn (doc.length + 1) doc (by omega)

/-- **C21.**  When every tag has a value on its own line, the values are simply those of the lines,
one by one. -/
theorem doc_tag_lines {u : CharClass} (hu : u.Lawful) (name doc : QString)
    (hn : ∀ c ∈ name, u.isSpace c = false)
    (hv : ∀ l ∈ lines doc, ∀ r, tagRest u name l = some r → blank u r = false) :
    findInDoc u name false doc =
      (lines doc).filterMap (fun l => (tagRest u name l).map (firstWord u)) := by
  rw [doc_tag_values hu name doc hn]
  generalize lines doc = ls at hv
  induction ls with
  | nil => simp [tagValues]
  | cons l ls ih =>
    have ih' := ih (fun l hl => hv l (by simp [hl]))
    cases h : tagRest u name l with
    | none => rw [tagValues_none h, ih']; simp [h]
    | some r =>
      rw [tagValues_some h, valueSpec, if_neg (by simp [hv l (by simp) r h]), ih']
      simp [h]

/-- **C21.**  Every value found is a non-empty word without white space. -/
theorem doc_tag_words {u : CharClass} (hu : u.Lawful) (name doc : QString)
    (hn : ∀ c ∈ name, u.isSpace c = false) :
    ∀ w ∈ findInDoc u name false doc, w ≠ [] ∧ ∀ c ∈ w, u.isSpace c = false := by
  rw [doc_tag_values hu name doc hn]
  have aux : ∀ n, ∀ ls : List QString, ls.length < n → ∀ w ∈ tagValues u name ls,
      w ≠ [] ∧ ∀ c ∈ w, u.isSpace c = false := by
    intro n
    induction n with
    | zero => intro ls h; omega
    | succ n ih =>
      intro ls hls w hw
      cases ls with
      | nil => simp [tagValues] at hw
      | cons l ls =>
        simp at hls
        cases h : tagRest u name l with
        | none =>
          rw [tagValues_none h] at hw
          exact ih ls (by omega) w hw
        | some r =>
          rw [tagValues_some h, valueSpec] at hw
          by_cases hb : blank u r = true
          · rw [if_pos hb] at hw
            cases hd : ls.dropWhile (blank u) with
            | nil => simp [hd] at hw
            | cons l' ls' =>
              simp only [hd, List.mem_cons] at hw
              have hl := (List.dropWhile_suffix (blank u) (l := ls)).length_le
              rw [hd] at hl
              simp at hl
              rcases hw with rfl | hw
              · exact ⟨firstWord_ne_nil (dropWhile_head _ _ hd), firstWord_no_space⟩
              · exact ih ls' (by omega) w hw
          · rw [if_neg hb, List.mem_cons] at hw
            rcases hw with rfl | hw
            · exact ⟨firstWord_ne_nil (by simpa using hb), firstWord_no_space⟩
            · exact ih ls (by omega) w hw
  exact aux _ _ (Nat.lt_succ_self _)

/-- **C21.**  Asking for one value gives the first of all the values (none if there is none). -/
theorem doc_tag_first (u : CharClass) (name doc : QString) :
    findInDoc u name true doc = (findInDoc u name false doc).take 1 := by
  have aux : ∀ n, ∀ s : QString, s.length < n →
      findInDoc u name true s = (findInDoc u name false s).take 1 := by
    intro n
    induction n with
    | zero => intro s h; omega
    | succ n ih =>
      intro s hs
      cases s with
      | nil => simp [findInDoc]
      | cons c rest =>
        simp at hs
        rw [findInDoc, findInDoc_cons]
        have hcont : ∀ s : QString, s.length ≤ rest.length + 1 →
            contFrom u name true s = (contFrom u name false s).take 1 := by
          intro s hs'
          unfold contFrom
          cases ha : afterNewline s with
          | none => rfl
          | some r =>
            have := afterNewline_length ha
            exact ih r (by omega)
        split
        · exact ih rest (by omega)
        · split
          · have hl : (rest.drop name.length).length ≤ rest.length := by simp
            generalize rest.drop name.length = s1 at hl
            cases s1 with
            | nil => rfl
            | cons d s2 =>
              simp at hl
              simp only
              split
              · rw [← hcont _ (by simp; omega)]
                unfold contFrom; split <;> simp_all
              · split
                · exact ih s2 (by omega)
                · unfold valueFrom
                  simp only [if_true]
                  split
                  · split <;> simp_all
                  · have hl3 := (List.dropWhile_suffix u.isSpace (l := s2)).length_le
                    have := hcont (s2.dropWhile u.isSpace) (by omega)
                    unfold contFrom at this
                    rw [← this]
                    split <;> simp_all
          · rw [← hcont _ (by simp)]
            unfold contFrom; split <;> simp_all
  exact aux _ doc (Nat.lt_succ_self _)

/-- A doc comment with two `@param` lines and an unrelated one. -/
example : (∀ l ∈ lines (q! "/**\n * @param int a\n * @return x\n *  @param\tFoo|Bar $b */"), ∀ r,
      tagRest asciiClass (q! "param") l = some r → blank asciiClass r = false) ∧
    findInDoc asciiClass (q! "param") false
      (q! "/**\n * @param int a\n * @return x\n *  @param\tFoo|Bar $b */")
      = [q! "int", q! "Foo|Bar"] := by
  constructor
  · intro l hl r hr
    have : l ∈ [q! "/**", q! " * @param int a", q! " * @return x", q! " *  @param\tFoo|Bar $b */"] := by
      have e : lines (q! "/**\n * @param int a\n * @return x\n *  @param\tFoo|Bar $b */") =
        [q! "/**", q! " * @param int a", q! " * @return x", q! " *  @param\tFoo|Bar $b */"] := by
        decide +kernel
      rwa [e] at hl
    revert r
    simp only [List.mem_cons, List.not_mem_nil, or_false] at this
    rcases this with rfl | rfl | rfl | rfl
    · intro r hr; revert hr; have : tagRest asciiClass (q! "param") (q! "/**") = none := by decide +kernel
      rw [this]; simp
    · intro r hr; revert hr; have : tagRest asciiClass (q! "param") (q! " * @param int a") = some (q! "int a") := by decide +kernel
      rw [this]; simp only [Option.some.injEq]; rintro rfl; decide +kernel
    · intro r hr; revert hr; have : tagRest asciiClass (q! "param") (q! " * @return x") = none := by decide +kernel
      rw [this]; simp
    · intro r hr; revert hr; have : tagRest asciiClass (q! "param") (q! " *  @param\tFoo|Bar $b */") = some (q! "Foo|Bar $b */") := by decide +kernel
      rw [this]; simp only [Option.some.injEq]; rintro rfl; decide +kernel
  · decide +kernel

/-- A tag without a value swallows the beginning of the next line: here `@param`'s value is the
word `*` starting the next line. -/
theorem doc_tag_swallows :
    findInDoc asciiClass (q! "param") false (q! "/**\n * @param \n * @param int\n */")
      = [q! "*"] := by
  decide +kernel

end KPhp.Doc
