import Verif.Chars
/-!
# Documentation pages and the word under the cursor (C42, C44)

Models `PhpDocsPlugin::getDocumentationFilename` and `documentationForDeclaration` (docs/phpdocsplugin.cpp:75-166) and
`LanguageSupport::wordUnderCursor`, `isMagicConstant` and `specialLanguageObjectRange` (phplanguagesupport.cpp:109-182).
-/
namespace KPhp.Docs

/-- A declaration as the plugin sees it. -/
inductive Decl where
  /-- a method; `owner`: the class it is declared in, if its context is that of a class with an owner -/
  | method (owner : Option QString) (name : QString) (constructor destructor : Bool)
  | cls (name : QString)
  | function (name : QString)
  | other (name : QString)
deriving DecidableEq, Repr

/-- docs/phpdocsplugin.cpp:110-122 -/
def superglobals : List QString :=
  [q! "GLOBALS", q! "php_errormsg", q! "HTTP_RAW_POST_DATA", q! "http_response_header", q! "argc", q! "argv", q! "_GET", q! "_POST",
   q! "_FILES", q! "_REQUEST", q! "_SESSION", q! "_ENV", q! "_COOKIE"]

/-- Specification: the variables with a page of their own in the PHP manual. -/
def Documented (n : QString) : Prop :=
  n = q! "GLOBALS" ∨ n = q! "php_errormsg" ∨ n = q! "HTTP_RAW_POST_DATA" ∨ n = q! "http_response_header" ∨ n = q! "argc" ∨
  n = q! "argv" ∨ n = q! "_GET" ∨ n = q! "_POST" ∨ n = q! "_FILES" ∨ n = q! "_REQUEST" ∨ n = q! "_SESSION" ∨ n = q! "_ENV" ∨
  n = q! "_COOKIE"

theorem documented_iff (n : QString) : Documented n ↔ n ∈ superglobals := by
  simp [Documented, superglobals]

/-- docs/phpdocsplugin.cpp:77-129 -/
def baseName (isLocal : Bool) : Decl → QString
  | .method none _ _ _ => []
  | .method (some c) n isC isD =>
    if !isLocal then c ++ [46] ++ n
    else q! "function." ++ c ++ [45] ++ (if isC then q! "construct" else if isD then q! "destruct" else n)
  | .cls n => q! "class." ++ n
  | .function n => q! "function." ++ n
  | .other n =>
    if n ∈ superglobals then
      if isLocal then q! "reserved.variables." ++ n.filter (· != 95) else n
    else []

/-- docs/phpdocsplugin.cpp:75-140 -/
def fileName (u : CharClass) (isLocal : Bool) (d : Decl) : QString :=
  let f := baseName isLocal d
  if !f.isEmpty && isLocal then (lowerStr u f).map (fun c => if c = 95 then 45 else c) ++ q! ".html" else f

/-- docs/phpdocsplugin.cpp:142-166: the path of the page shown; `internal`: the declaration is in the file of internal functions -/
def page (u : CharClass) (isLocal : Bool) (root : QString) (exists_ : QString → Bool) (internal : Bool) (d : Decl) : Option QString :=
  if !internal then none
  else
    let f := fileName u isLocal d
    if f.isEmpty then none
    else if isLocal && !exists_ (root ++ [47] ++ f) then none
    else some (root ++ [47] ++ f)

/-! ## Specification -/

/-- a name as it is written in the names of local pages: lower case, dashes for underscores -/
def norm (u : CharClass) (n : QString) : QString := n.map fun c => if u.toLower c = 95 then 45 else u.toLower c

theorem norm_eq (u : CharClass) (n : QString) : (lowerStr u n).map (fun c => if c = 95 then 45 else c) = norm u n := by
  simp [lowerStr, norm]

theorem norm_append (u : CharClass) (a b : QString) : norm u (a ++ b) = norm u a ++ norm u b := by simp [norm]

theorem norm_ascii {u : CharClass} (hu : u.Lawful) {a : QString} (h : ∀ c ∈ a, c < 128 ∧ asciiLower c = c ∧ c ≠ 95) : norm u a = a := by
  induction a with
  | nil => rfl
  | cons c a ih =>
    obtain ⟨h1, h2, h3⟩ := h c (by simp)
    have ih := ih fun x hx => h x (by simp [hx])
    unfold norm at ih ⊢
    rw [List.map_cons, ih, hu.lower_ascii c h1, h2, if_neg h3]

theorem fileName_local (u : CharClass) (d : Decl) :
    fileName u true d = if baseName true d = [] then [] else norm u (baseName true d) ++ q! ".html" := by
  simp only [fileName, norm_eq]
  cases baseName true d with
  | nil => simp
  | cons c s => simp

/-- **C42 (local pages).** The file name of the local page of every kind of declaration. -/
theorem local_pages {u : CharClass} (hu : u.Lawful) :
    (∀ n, fileName u true (.cls n) = q! "class." ++ norm u n ++ q! ".html") ∧
    (∀ n, fileName u true (.function n) = q! "function." ++ norm u n ++ q! ".html") ∧
    (∀ c n, fileName u true (.method (some c) n false false) = q! "function." ++ norm u c ++ q! "-" ++ norm u n ++ q! ".html") ∧
    (∀ c n b, fileName u true (.method (some c) n true b) = q! "function." ++ norm u c ++ q! "-construct.html") ∧
    (∀ c n, fileName u true (.method (some c) n false true) = q! "function." ++ norm u c ++ q! "-destruct.html") ∧
    (∀ n, ¬ Documented n → fileName u true (.other n) = []) ∧
    (∀ n, Documented n → fileName u true (.other n) = q! "reserved.variables." ++ norm u (n.filter (· != 95)) ++ q! ".html") := by
  simp only [documented_iff]
  have h1 : norm u (q! "class.") = q! "class." := norm_ascii hu (by decide)
  have h2 : norm u (q! "function.") = q! "function." := norm_ascii hu (by decide)
  have h3 : norm u (q! "reserved.variables.") = q! "reserved.variables." := norm_ascii hu (by decide)
  have h4 : norm u (q! "construct") = q! "construct" := norm_ascii hu (by decide)
  have h5 : norm u (q! "destruct") = q! "destruct" := norm_ascii hu (by decide)
  have h6 : norm u [45] = [45] := norm_ascii hu (by decide)
  refine ⟨?_, ?_, ?_, ?_, ?_, ?_, ?_⟩
  · intro n
    rw [fileName_local, baseName, if_neg (by simp), norm_append, h1]
  · intro n
    rw [fileName_local, baseName, if_neg (by simp), norm_append, h2]
  · intro c n
    rw [fileName_local]
    simp only [baseName, Bool.not_true, Bool.false_eq_true, if_false]
    rw [if_neg (by simp), norm_append, norm_append, norm_append, h2, h6]
  · intro c n b
    rw [fileName_local]
    simp only [baseName, Bool.not_true, Bool.false_eq_true, if_false, if_true]
    rw [if_neg (by simp), norm_append, norm_append, norm_append, h2, h6, h4]
    simp
  · intro c n
    rw [fileName_local]
    simp only [baseName, Bool.not_true, Bool.false_eq_true, if_false, if_true]
    rw [if_neg (by simp), norm_append, norm_append, norm_append, h2, h6, h5]
    simp
  · intro n h
    rw [fileName_local, baseName, if_neg h, if_pos rfl]
  · intro n h
    rw [fileName_local, baseName, if_pos h]
    simp only [if_true]
    rw [if_neg (by simp), norm_append, h3]

/-- **C42 (form).** Local file names are lower case, without underscores, and end in `.html`. -/
theorem local_form {u : CharClass} (hu : u.Lawful) (d : Decl) (h : fileName u true d ≠ []) :
    lowerStr u (fileName u true d) = fileName u true d ∧ 95 ∉ fileName u true d ∧ q! ".html" <:+ fileName u true d := by
  rw [fileName_local] at h ⊢
  split at h
  · exact absurd rfl h
  · rename_i hb
    rw [if_neg hb]
    have hn : ∀ c ∈ norm u (baseName true d), u.toLower c = c ∧ c ≠ 95 := by
      intro c hc
      obtain ⟨x, -, rfl⟩ := List.mem_map.1 hc
      split
      · exact ⟨hu.lower_ascii 45 (by decide), by decide⟩
      · rename_i hx
        exact ⟨hu.lower_idem x, hx⟩
    refine ⟨?_, ?_, List.suffix_append _ _⟩
    · unfold lowerStr
      rw [List.map_append]
      congr 1
      · exact (List.map_congr_left fun c hc => (hn c hc).1).trans (List.map_id _)
      · simp [hu.lower_ascii, asciiLower]
    · intro hm
      rcases List.mem_append.1 hm with hm | hm
      · exact (hn 95 hm).2 rfl
      · revert hm; decide

/-- the name without regard to case -/
def sameName (u : CharClass) (a b : QString) : Prop := lowerStr u a = lowerStr u b

theorem norm_same {u : CharClass} {a b : QString} (h : sameName u a b) : norm u a = norm u b := by
  rw [← norm_eq, ← norm_eq, h]

/-- **C42 (case).** The local page of a class, function or method does not depend on the case in which the names are written. -/
theorem local_case {u : CharClass} (hu : u.Lawful) {a b c d : QString} (h : sameName u a b) (h' : sameName u c d) (isC isD : Bool) :
    fileName u true (.cls a) = fileName u true (.cls b) ∧
    fileName u true (.function a) = fileName u true (.function b) ∧
    fileName u true (.method (some a) c isC isD) = fileName u true (.method (some b) d isC isD) := by
  obtain ⟨p1, p2, p3, p4, p5, -⟩ := local_pages hu
  refine ⟨?_, ?_, ?_⟩
  · rw [p1, p1, norm_same h]
  · rw [p2, p2, norm_same h]
  · cases isC with
    | true => rw [p4, p4, norm_same h]
    | false =>
      cases isD with
      | true => rw [p5, p5, norm_same h]
      | false => rw [p3, p3, norm_same h, norm_same h']

/-- Names that differ in more than case and `_`/`-` have different pages. -/
theorem local_injective {u : CharClass} (hu : u.Lawful) (a b : QString) :
    (fileName u true (.cls a) = fileName u true (.cls b) ↔ norm u a = norm u b) ∧
    (fileName u true (.function a) = fileName u true (.function b) ↔ norm u a = norm u b) ∧
    fileName u true (.cls a) ≠ fileName u true (.function b) := by
  obtain ⟨p1, p2, -⟩ := local_pages hu
  rw [p1, p1, p2, p2]
  refine ⟨?_, ?_, ?_⟩
  · simp
  · simp
  · simp

/-- **Limit of C42.** A method shares its local page with the function called `class_method`. -/
theorem local_collision {u : CharClass} (hu : u.Lawful) (c m : QString) :
    fileName u true (.method (some c) m false false) = fileName u true (.function (c ++ [95] ++ m)) := by
  obtain ⟨-, p2, p3, -⟩ := local_pages hu
  rw [p2, p3, norm_append, norm_append]
  have : norm u [95] = [45] := by simp [norm, hu.lower_ascii, asciiLower]
  rw [this]
  simp

/-- **C42 (remote pages).** Remote pages keep the name as it is. -/
theorem remote_pages (u : CharClass) :
    (∀ n, fileName u false (.cls n) = q! "class." ++ n) ∧ (∀ n, fileName u false (.function n) = q! "function." ++ n) ∧
    (∀ c n a b, fileName u false (.method (some c) n a b) = c ++ q! "." ++ n) ∧
    (∀ n, Documented n → fileName u false (.other n) = n) := by
  refine ⟨?_, ?_, ?_, ?_⟩
  · intro n; simp [fileName, baseName]
  · intro n; simp [fileName, baseName]
  · intro c n a b; simp [fileName, baseName]
  · intro n h; rw [documented_iff] at h; simp [fileName, baseName, h]

/-- **C42 (shown).** A page is shown exactly for internal declarations with a file name, and if it is local, only if it exists. -/
theorem page_shown_iff (u : CharClass) (isLocal : Bool) (root : QString) (ex : QString → Bool) (internal : Bool) (d : Decl) (p : QString) :
    page u isLocal root ex internal d = some p ↔
      internal = true ∧ fileName u isLocal d ≠ [] ∧ p = root ++ q! "/" ++ fileName u isLocal d ∧ (isLocal = true → ex p = true) := by
  unfold page
  cases internal with
  | false => simp
  | true =>
    simp only [Bool.not_true, Bool.false_eq_true, if_false, true_and]
    cases hf : fileName u isLocal d with
    | nil => simp
    | cons c s =>
      simp only [List.isEmpty_cons, Bool.false_eq_true, if_false, ne_eq, reduceCtorEq, not_false_eq_true, true_and]
      cases isLocal with
      | false =>
        simp only [Bool.false_and, Bool.false_eq_true, if_false, Option.some.injEq, false_imp_iff, and_true]
        exact ⟨fun h => h.symm, fun h => h.symm⟩
      | true =>
        cases he : ex (root ++ [47] ++ c :: s) with
        | false =>
          simp only [Bool.not_false, Bool.and_self, if_true, reduceCtorEq, false_iff]
          rintro ⟨rfl, h⟩
          rw [h trivial] at he
          exact absurd he (by simp)
        | true =>
          simp only [Bool.not_true, Bool.and_false, Bool.false_eq_true, if_false, Option.some.injEq]
          constructor
          · rintro rfl; exact ⟨rfl, fun _ => he⟩
          · rintro ⟨h, -⟩; exact h.symm

example : fileName asciiClass true (.function (q! "array_map")) = q! "function.array-map.html" := by decide +kernel
example : fileName asciiClass true (.method (some (q! "DateTime")) (q! "setTime") false false) = q! "function.datetime-settime.html" := by
  decide +kernel
example : fileName asciiClass true (.other (q! "_GET")) = q! "reserved.variables.get.html" := by decide +kernel

/-! ## The word under the cursor -/

/-- `QString::operator[](int)` used for reading: a character, and 0 outside of the string (`QCharRef`, Qt 5) -/
def charAt (line : QString) (i : Nat) : QChar := line.getD i 0

/-- a character of a word for this purpose: phplanguagesupport.cpp:122,132 -/
def wordChar (u : CharClass) (c : QChar) : Bool := u.isLetter c || c == 95

/-- phplanguagesupport.cpp:120-129: the loop from column `n - 1` down; `col` is the column of the cursor -/
def startCol (u : CharClass) (line : QString) (col : Nat) : Nat → Int
  | 0 => -1
  | n + 1 =>
    if wordChar u (charAt line n) then startCol u line col n
    else if n ≠ col then (n : Int) + 1 else n

/-- phplanguagesupport.cpp:130-135: `for (; endCol <= lineLength; ++endCol)`, `left` iterations to go -/
def endCol (u : CharClass) (line : QString) : Nat → Nat → Nat
  | 0, n => n
  | left + 1, n => if wordChar u (charAt line n) then endCol u line left (n + 1) else n

/-- `QString::mid` with a possibly negative position -/
def mid (s : QString) (pos len : Int) : QString :=
  if pos < 0 then s.take (len + pos).toNat else (s.drop pos.toNat).take len.toNat

/-- phplanguagesupport.cpp:109-139: the word, the start and the end column of its range -/
def wordUnderCursor (u : CharClass) (line : QString) (col : Nat) : QString × Int × Int :=
  let s := startCol u line col (col + 1)
  let e := (endCol u line (line.length + 1 - col) col : Int)
  (mid line s (e - s), s, e)

/-- phplanguagesupport.cpp:143-146 -/
def magicConstants : List QString :=
  [q! "__FILE__", q! "__LINE__", q! "__METHOD__", q! "__CLASS__", q! "__FUNCTION__", q! "__NAMESPACE__", q! "__DIR__", q! "__TRAIT__"]

/-- Specification: the magic constants of the PHP manual. -/
inductive Magic : QString → Prop
  | line : Magic (q! "__LINE__")
  | file : Magic (q! "__FILE__")
  | dir : Magic (q! "__DIR__")
  | function : Magic (q! "__FUNCTION__")
  | klass : Magic (q! "__CLASS__")
  | trait : Magic (q! "__TRAIT__")
  | method : Magic (q! "__METHOD__")
  | namespace : Magic (q! "__NAMESPACE__")

theorem magic_iff (w : QString) : w ∈ magicConstants ↔ Magic w := by
  constructor
  · intro h
    simp only [magicConstants, List.mem_cons, List.not_mem_nil, or_false] at h
    rcases h with rfl | rfl | rfl | rfl | rfl | rfl | rfl | rfl <;> constructor
  · intro h
    cases h <;> decide

/-- phplanguagesupport.cpp:141-157; a range is valid if its columns are not negative, and empty if they are equal -/
def isMagicConstant (w : QString × Int × Int) : Bool :=
  if (0 ≤ w.2.1 ∧ 0 ≤ w.2.2) ∧ w.2.1 ≠ w.2.2 then decide (w.1 ∈ magicConstants) else false

/-- phplanguagesupport.cpp:175-182: the columns, if the cursor is on a magic constant -/
def specialObjectRange (u : CharClass) (line : QString) (col : Nat) : Option (Int × Int) :=
  let w := wordUnderCursor u line col
  if isMagicConstant w then some w.2 else none

theorem charAt_lt {line : QString} {i : Nat} (h : i < line.length) : charAt line i = line[i] := by
  simp [charAt, h]

theorem charAt_ge {line : QString} {i : Nat} (h : line.length ≤ i) : charAt line i = 0 := by
  simp [charAt, List.getD, List.getElem?_eq_none h]

theorem wordChar_zero {u : CharClass} (hu : u.Lawful) : wordChar u 0 = false := by
  simp [wordChar, hu.letter_ascii, asciiLetter]

/-- Specification: letters and the underscore form words. -/
def IsWord (u : CharClass) (c : QChar) : Prop := u.isLetter c = true ∨ c = c! '_'

theorem wordChar_iff (u : CharClass) (c : QChar) : wordChar u c = true ↔ IsWord u c := by
  simp [wordChar, IsWord]
theorem wordChar_not (u : CharClass) (c : QChar) : wordChar u c = false ↔ ¬ IsWord u c := by
  rw [← wordChar_iff]; simp

instance (u : CharClass) (c : QChar) : Decidable (IsWord u c) := inferInstanceAs (Decidable (_ ∨ _))

/-- the cursor is on the run: `pre` before it, `post` behind it -/
structure OnWord (u : CharClass) (line : QString) (col : Nat) (pre word post : QString) : Prop where
  split : line = pre ++ word ++ post
  chars : ∀ c ∈ word, IsWord u c
  left : ∀ c, pre.getLast? = some c → ¬ IsWord u c
  right : ∀ c, post.head? = some c → ¬ IsWord u c
  inside : pre.length ≤ col ∧ col < pre.length + word.length

theorem startCol_run {u : CharClass} {line : QString} {col a : Nat} (n : Nat)
    (hw : ∀ i, a ≤ i → i < n → wordChar u (charAt line i) = true) (han : a ≤ n) :
    startCol u line col n = startCol u line col a := by
  induction n with
  | zero => have : a = 0 := by omega
            subst this; rfl
  | succ n ih =>
    by_cases h : a = n + 1
    · subst h; rfl
    · rw [startCol, if_pos (hw n (by omega) (by omega))]
      exact ih (fun i h1 h2 => hw i h1 (by omega)) (by omega)

theorem endCol_run {u : CharClass} {line : QString} {b : Nat} (hb : wordChar u (charAt line b) = false) : ∀ (left n : Nat),
    (∀ i, n ≤ i → i < b → wordChar u (charAt line i) = true) → n ≤ b → b < n + left → endCol u line left n = b := by
  intro left
  induction left with
  | zero => intro n _ _ h; omega
  | succ left ih =>
    intro n hw hn hl
    rw [endCol]
    by_cases h : n = b
    · subst h; rw [hb]; rfl
    · rw [if_pos (hw n (by omega) (by omega))]
      exact ih (n + 1) (fun i h1 h2 => hw i (by omega) h2) (by omega) (by omega)

theorem OnWord.facts {u : CharClass} (hu : u.Lawful) {line : QString} {col : Nat} {pre word post : QString} (h : OnWord u line col pre word post) :
    (∀ i, pre.length ≤ i → i < pre.length + word.length → wordChar u (charAt line i) = true) ∧
    wordChar u (charAt line (pre.length + word.length)) = false ∧
    (pre ≠ [] → wordChar u (charAt line (pre.length - 1)) = false) ∧ pre.length + word.length ≤ line.length := by
  have hlen : pre.length + word.length ≤ line.length := by rw [h.split]; simp
  refine ⟨?_, ?_, ?_, hlen⟩
  · intro i h1 h2
    rw [charAt_lt (by omega)]
    have : line[i]'(by omega) = word[i - pre.length]'(by omega) := by
      simp only [h.split]
      rw [List.getElem_append_left (by simp; omega), List.getElem_append_right h1]
    rw [this]
    exact (wordChar_iff _ _).2 (h.chars _ (List.getElem_mem _))
  · by_cases hp : post = []
    · rw [charAt_ge (by rw [h.split, hp]; simp)]
      exact wordChar_zero hu
    · obtain ⟨c, t, rfl⟩ := List.exists_cons_of_ne_nil hp
      have : charAt line (pre.length + word.length) = c := by
        rw [h.split]
        unfold charAt
        rw [← List.length_append, List.getD_eq_getElem?_getD, List.getElem?_append_right (Nat.le_refl _)]
        simp
      rw [this]
      exact (wordChar_not _ _).2 (h.right c rfl)
  · intro hp
    have hl := List.length_pos_iff.2 hp
    refine (wordChar_not _ _).2 (h.left _ ?_)
    rw [charAt_lt (by omega), List.getLast?_eq_getElem?]
    have : pre[pre.length - 1]? = some (pre[pre.length - 1]'(by omega)) := List.getElem?_eq_getElem _
    rw [this]
    congr 1
    simp only [h.split]
    rw [List.getElem_append_left (by simp; omega), List.getElem_append_left (by omega)]

/-- **C44 (word).** If the cursor is on a letter or underscore, the word is the maximal run of letters and underscores around it and,
unless it starts at the beginning of the line, its range is that of the run. Missing: the range of a word at the beginning of the
line, see `word_at_line_start`. -/
theorem word_under_cursor_partial {u : CharClass} (hu : u.Lawful) {line : QString} {col : Nat} {pre word post : QString}
    (h : OnWord u line col pre word post) (hp : pre ≠ []) :
    wordUnderCursor u line col = (word, (pre.length : Int), (pre.length : Int) + word.length) := by
  obtain ⟨h1, h2, h3, h4⟩ := h.facts hu
  have hl := List.length_pos_iff.2 hp
  have hs : startCol u line col (col + 1) = pre.length := by
    rw [startCol_run (a := pre.length) (col + 1) (fun i a b => h1 i a (by have := h.inside.2; omega)) (by have := h.inside.1; omega)]
    obtain ⟨n, hn⟩ : ∃ n, pre.length = n + 1 := ⟨pre.length - 1, by omega⟩
    rw [hn, startCol]
    have := h3 hp
    rw [hn] at this
    simp only [Nat.add_sub_cancel] at this
    rw [this]
    have hne : n ≠ col := by have := h.inside.1; omega
    simp [hne]
  have he : endCol u line (line.length + 1 - col) col = pre.length + word.length :=
    endCol_run h2 _ _ (fun i a b => h1 i (by have := h.inside.1; omega) b) (by have := h.inside.2; omega)
      (by have := h.inside; omega)
  unfold wordUnderCursor
  rw [hs, he]
  simp only [Prod.mk.injEq, true_and]
  refine ⟨?_, by simp⟩
  unfold mid
  rw [if_neg (by omega)]
  have e1 : ((pre.length : Int)).toNat = pre.length := by omega
  have e2 : (((pre.length + word.length : Nat) : Int) - pre.length).toNat = word.length := by omega
  rw [e1, e2, h.split, List.append_assoc, List.drop_left, List.take_left]

/-- **Limit of C44.** The word at the beginning of a line is found too, but its range starts at column −1. -/
theorem word_at_line_start {u : CharClass} (hu : u.Lawful) {line : QString} {col : Nat} {word post : QString}
    (h : OnWord u line col [] word post) :
    wordUnderCursor u line col = (word, -1, (word.length : Int)) ∧ specialObjectRange u line col = none := by
  obtain ⟨h1, h2, -, h4⟩ := h.facts hu
  have hins := h.inside
  simp only [List.length_nil, Nat.zero_add] at h1 h2 h4 hins
  have hs : startCol u line col (col + 1) = -1 := by
    rw [startCol_run (a := 0) (col + 1) (fun i a b => h1 i a (by omega)) (by omega)]
    rfl
  have he : endCol u line (line.length + 1 - col) col = word.length :=
    endCol_run h2 _ _ (fun i a b => h1 i (by omega) b) (by omega) (by omega)
  have hw : wordUnderCursor u line col = (word, -1, (word.length : Int)) := by
    unfold wordUnderCursor
    rw [hs, he]
    simp only [Prod.mk.injEq, and_true]
    unfold mid
    rw [if_pos (by omega)]
    have : ((word.length : Int) - -1 + -1).toNat = word.length := by omega
    rw [this]
    have := h.split
    rw [List.nil_append] at this
    rw [this, List.take_left]
  refine ⟨hw, ?_⟩
  unfold specialObjectRange
  rw [hw]
  simp [isMagicConstant]

/-- **C44 (no word).** If the cursor is on another character, or behind the line, the word is empty. -/
theorem no_word_under_cursor {u : CharClass} (hu : u.Lawful) (line : QString) (col : Nat)
    (h : ∀ c, line[col]? = some c → wordChar u c = false) :
    wordUnderCursor u line col = ([], (col : Int), (col : Int)) := by
  have hc : wordChar u (charAt line col) = false := by
    by_cases hl : col < line.length
    · rw [charAt_lt hl]; exact h _ (List.getElem?_eq_getElem hl)
    · rw [charAt_ge (by omega)]; exact wordChar_zero hu
  have hs : startCol u line col (col + 1) = col := by rw [startCol, hc]; simp
  have he : endCol u line (line.length + 1 - col) col = col := by
    cases line.length + 1 - col with
    | zero => rfl
    | succ n => rw [endCol, hc]; rfl
  unfold wordUnderCursor
  rw [hs, he]
  simp only [Int.sub_self, Prod.mk.injEq, and_true]
  unfold mid
  rw [if_neg (by omega)]
  rfl

/-- **C44 (magic constants).** The range shown for a cursor is that of the word, if it is one of the magic constants and not at the
beginning of the line. -/
theorem magic_constant_range {u : CharClass} (hu : u.Lawful) {line : QString} {col : Nat} {pre word post : QString}
    (h : OnWord u line col pre word post) (hp : pre ≠ []) (a b : Int) :
    specialObjectRange u line col = some (a, b) ↔ Magic word ∧ a = pre.length ∧ b = pre.length + word.length := by
  rw [← magic_iff]
  have hw := word_under_cursor_partial hu h hp
  have hpos : 0 < word.length := by have := h.inside; omega
  unfold specialObjectRange
  rw [hw]
  have : isMagicConstant (word, (pre.length : Int), (pre.length : Int) + word.length) = decide (word ∈ magicConstants) := by
    unfold isMagicConstant
    rw [if_pos (by simp only; omega)]
  simp only [this]
  by_cases hm : word ∈ magicConstants
  · simp [hm, eq_comm]
  · simp [hm]

example : OnWord asciiClass (q! "echo __FILE__;") 7 (q! "echo ") (q! "__FILE__") (q! ";") :=
  ⟨by decide, by decide, by decide, by decide, by decide⟩
example : specialObjectRange asciiClass (q! "echo __FILE__;") 7 = some (5, 13) := by decide +kernel
example : specialObjectRange asciiClass (q! "__FILE__;") 3 = none := by decide +kernel

end KPhp.Docs
