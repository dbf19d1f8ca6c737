import Verif.Duchain.Types
/-
Model of the interpretation of doc-comment types (duchain/builders/typebuilder.cpp:45-124) and
property C22.
-/
namespace KPhp.DocType

/-- What the interpretation of a type depends on: the type of the class owning the current context
(`none` outside a class context or without owner, typebuilder.cpp:100-102; a class declaration
always carries its type, which is set by the PreDeclarationBuilder), and the class lookup
`findDeclarationImport(ClassDeclarationType, …)` for a lower-cased name with `::` separators
(typebuilder.cpp:109-119; `none` = not found or without type). -/
structure Env where
  selfType : Option Ty
  lookup : QString → Option Ty

/-- `QString::trimmed`. -/
def trim (u : CharClass) (s : QString) : QString :=
  ((s.dropWhile u.isSpace).reverse.dropWhile u.isSpace).reverse

/-- `QString::split(sep)` (empty parts are kept). -/
def split (sep : QChar) : QString → List QString
  | [] => [[]]
  | c :: s =>
    if c = sep then [] :: split sep s
    else match split sep s with
      | [] => [[c]]
      | p :: ps => (c :: p) :: ps

/-- `replace("\\", "::")` (typebuilder.cpp:109). -/
def colons : QString → QString
  | [] => []
  | c :: s => if c = c! '\\' then c! ':' :: c! ':' :: colons s else c :: colons s

/-- `parseSimpleType` (typebuilder.cpp:72-124). -/
def parseSimple (u : CharClass) (env : Env) (type : QString) : Ty :=
  if ciEq u type (q! "int") || ciEq u type (q! "integer") then .integral .int
  else if ciEq u type (q! "float") || ciEq u type (q! "double") then .integral .float
  else if ciEq u type (q! "bool") || ciEq u type (q! "boolean")
      || ciEq u type (q! "false") || ciEq u type (q! "true") then .integral .boolean
  else if ciEq u type (q! "string") then .integral .string
  else if ciEq u type (q! "mixed") then .integral .mixed
  else if ciEq u type (q! "array") then .integral .array
  else if ciEq u type (q! "resource") then .ext .resource
  else if ciEq u type (q! "null") then .integral .null
  else if ciEq u type (q! "void") then .integral .void
  else if ciEq u type (q! "self") || ciEq u type (q! "this") || ciEq u type (q! "static") then
    match env.selfType with
    | some t => t
    | none => .integral .void                       -- iType is still 0
  else if ciEq u type (q! "object") then .ext .object
  else
    match env.lookup (colons (lowerStr u type)) with
    | some t => t
    | none => .integral .mixed

/-- `parseType` for a text without `|` (typebuilder.cpp:45, 63-69). -/
def parseAtom (u : CharClass) (env : Env) (type : QString) : Ty :=
  let type := trim u type
  if (q! "[]").isSuffixOf type then .array (parseSimple u env (type.take (type.length - 2)))
  else parseSimple u env type

/-- `parseType` (typebuilder.cpp:43-70).  The parts between the `|` contain no `|` themselves
(`split_no_sep`), so the recursive call is `parseAtom`; `parseType_eq` states the recursive
equation of the code. -/
def parseType (u : CharClass) (env : Env) (type : QString) : Ty :=
  let type := trim u type
  if c! '|' ∈ type then
    let types := ((split (c! '|') type).map (parseAtom u env)).filter (fun t => t ≠ .mixed)
    .unsure (addTypes [] types)
  else parseAtom u env type

theorem split_no_sep (sep : QChar) (s : QString) : ∀ p ∈ split sep s, sep ∉ p := by
  induction s with
  | nil => simp [split]
  | cons c s ih =>
    unfold split
    split
    · intro p hp
      rcases List.mem_cons.1 hp with rfl | hp
      · simp
      · exact ih p hp
    · next hc =>
      cases h : split sep s with
      | nil => intro p hp; simp at hp; subst hp; simpa using fun e => hc e.symm
      | cons q qs =>
        rw [h] at ih
        intro p hp
        rcases List.mem_cons.1 hp with rfl | hp
        · have := ih q (by simp)
          simp [this]
          exact fun e => hc e.symm
        · exact ih p (by simp [hp])

theorem dropWhile_idem {α} (p : α → Bool) (s : List α) :
    (s.dropWhile p).dropWhile p = s.dropWhile p := by
  induction s with
  | nil => rfl
  | cons a s ih =>
    rw [List.dropWhile_cons]
    split
    · exact ih
    · next h => rw [List.dropWhile_cons, if_neg h]

/-- Trimmed from the right, a text that does not start with white space still does not. -/
theorem dropWhile_rtrim (u : CharClass) (s : QString) (h : s.dropWhile u.isSpace = s) :
    ((s.reverse.dropWhile u.isSpace).reverse).dropWhile u.isSpace =
      (s.reverse.dropWhile u.isSpace).reverse := by
  obtain ⟨t, ht⟩ := List.dropWhile_suffix u.isSpace (l := s.reverse)
  have hs : s = (s.reverse.dropWhile u.isSpace).reverse ++ t.reverse := by
    rw [← List.reverse_append, ht, List.reverse_reverse]
  generalize (s.reverse.dropWhile u.isSpace).reverse = a at hs
  cases a with
  | nil => rfl
  | cons c a =>
    rw [hs, List.cons_append, List.dropWhile_cons] at h
    rw [List.dropWhile_cons]
    split at h
    · next hc =>
      exfalso
      have := (List.dropWhile_suffix u.isSpace (l := a ++ t.reverse)).length_le
      rw [h] at this
      simp at this
      omega
    · next hc => rw [if_neg hc]

theorem trim_idem (u : CharClass) (s : QString) : trim u (trim u s) = trim u s := by
  have h1 := dropWhile_rtrim u (s.dropWhile u.isSpace) (dropWhile_idem _ _)
  unfold trim
  rw [h1, List.reverse_reverse, dropWhile_idem]

/-- The recursive equation of the code for `parseType`. -/
theorem parseType_eq (u : CharClass) (env : Env) (type : QString) :
    parseType u env type =
      if c! '|' ∈ trim u type then
        .unsure (addTypes [] (((split (c! '|') (trim u type)).map (parseType u env)).filter
          (fun t => t ≠ .mixed)))
      else if (q! "[]").isSuffixOf (trim u type) then
        .array (parseSimple u env ((trim u type).take ((trim u type).length - 2)))
      else parseSimple u env (trim u type) := by
  have h : ∀ p : QString, c! '|' ∉ p → parseType u env p = parseAtom u env p := by
    intro p hp
    unfold parseType
    rw [if_neg]
    · show parseAtom u env (trim u p) = parseAtom u env p
      unfold parseAtom
      rw [trim_idem]
    · intro hm
      apply hp
      unfold trim at hm
      have h1 := (List.dropWhile_suffix u.isSpace (l := (p.dropWhile u.isSpace).reverse)).subset
        (List.mem_reverse.1 hm)
      exact (List.dropWhile_suffix u.isSpace (l := p)).subset (List.mem_reverse.1 h1)
  conv => lhs; unfold parseType
  simp only
  split
  · have : (split (c! '|') (trim u type)).map (parseAtom u env)
        = (split (c! '|') (trim u type)).map (parseType u env) := by
      apply List.map_congr_left
      intro p hp
      exact (h p (split_no_sep _ _ p hp)).symm
    rw [this]
  · unfold parseAtom; rw [trim_idem]

/-! ### Specification -/

/-- The built-in type names of doc comments and what they mean. -/
def builtins : List (QString × Ty) :=
  [(q! "int", .integral .int), (q! "integer", .integral .int),
   (q! "float", .integral .float), (q! "double", .integral .float),
   (q! "bool", .integral .boolean), (q! "boolean", .integral .boolean),
   (q! "false", .integral .boolean), (q! "true", .integral .boolean),
   (q! "string", .integral .string), (q! "mixed", .integral .mixed),
   (q! "array", .integral .array), (q! "resource", .ext .resource),
   (q! "null", .integral .null), (q! "void", .integral .void), (q! "object", .ext .object)]

/-- The names denoting the current class. -/
def selfNames : List QString := [q! "self", q! "this", q! "static"]

theorem split_lower (a : QString) :
    (split (c! '|') a).map (fun p => p.map asciiLower) = split (c! '|') (a.map asciiLower) := by
  have hbar : ∀ c : QChar, asciiLower c = 124 ↔ c = 124 := by
    intro c; unfold asciiLower; split <;> omega
  induction a with
  | nil => simp [split]
  | cons c a ih =>
    rw [List.map_cons]
    unfold split
    by_cases hc : c = 124
    · rw [if_pos hc, if_pos ((hbar c).2 hc), ← ih]; simp
    · rw [if_neg hc, if_neg (fun h => hc ((hbar c).1 h)), ← ih]
      cases split 124 a <;> simp

theorem split_congr {a b : QString} (h : SameIgnoringCase a b) :
    (split (c! '|') a).map (fun p => p.map asciiLower) =
      (split (c! '|') b).map (fun p => p.map asciiLower) := by
  rw [split_lower, split_lower]
  unfold SameIgnoringCase at h
  rw [h]

theorem parseSimple_congr {u : CharClass} (hu : u.Lawful) (env : Env) {a b : QString}
    (h : SameIgnoringCase a b) : parseSimple u env a = parseSimple u env b := by
  unfold parseSimple
  simp only [ciEq_congr hu h, lowerStr_congr hu h]

theorem dropWhile_congr {u : CharClass} (hu : u.Lawful) : ∀ {a b : QString},
    SameIgnoringCase a b → SameIgnoringCase (a.dropWhile u.isSpace) (b.dropWhile u.isSpace)
  | [], [], _ => rfl
  | [], _ :: _, h => by simp [SameIgnoringCase] at h
  | _ :: _, [], h => by simp [SameIgnoringCase] at h
  | c :: a, d :: b, h => by
    simp only [SameIgnoringCase, List.map_cons, List.cons.injEq] at h
    rw [List.dropWhile_cons, List.dropWhile_cons, isSpace_eq_of_lower hu h.1]
    split
    · exact dropWhile_congr hu h.2
    · simp [SameIgnoringCase, h.1, h.2]

theorem reverse_congr {a b : QString} (h : SameIgnoringCase a b) :
    SameIgnoringCase a.reverse b.reverse := by
  unfold SameIgnoringCase at *
  rw [List.map_reverse, List.map_reverse, h]

theorem trim_congr {u : CharClass} (hu : u.Lawful) {a b : QString} (h : SameIgnoringCase a b) :
    SameIgnoringCase (trim u a) (trim u b) :=
  reverse_congr (dropWhile_congr hu (reverse_congr (dropWhile_congr hu h)))

theorem length_congr {a b : QString} (h : SameIgnoringCase a b) : a.length = b.length := by
  have := congrArg List.length h
  simpa using this

theorem mem_bar_congr {a b : QString} (h : SameIgnoringCase a b) :
    c! '|' ∈ a ↔ c! '|' ∈ b := by
  have hbar : ∀ c d : QChar, asciiLower c = asciiLower d → (decide (c = 124)) = (decide (d = 124)) := by
    intro c d h; rw [Bool.eq_iff_iff]; simp; unfold asciiLower at h; split at h <;> split at h <;> omega
  have := map_congr_lower (fun c => decide (c = 124)) hbar h
  have h2 : ∀ s : QString, 124 ∈ s ↔ true ∈ s.map (fun c => decide (c = 124)) := by
    intro s; simp
  rw [h2, h2, this]

theorem suffix_congr {a b : QString} (h : SameIgnoringCase a b) :
    (q! "[]").isSuffixOf a = (q! "[]").isSuffixOf b := by
  have hb : ∀ k : Nat, k = 91 ∨ k = 93 → ∀ c d : QChar, asciiLower c = asciiLower d → (c = k ↔ d = k) := by
    intro k hk c d h; unfold asciiLower at h; split at h <;> split at h <;> omega
  unfold List.isSuffixOf
  have hr := reverse_congr h
  generalize a.reverse = x at hr
  generalize b.reverse = y at hr
  match x, y, hr with
  | [], [], _ => rfl
  | [], _ :: _, h => simp [SameIgnoringCase] at h
  | _ :: _, [], h => simp [SameIgnoringCase] at h
  | [c], [d], h => simp [List.isPrefixOf]
  | [c], d :: d' :: y, h => simp [SameIgnoringCase] at h
  | c :: c' :: x, [d], h => simp [SameIgnoringCase] at h
  | c :: c' :: x, d :: d' :: y, h =>
    simp only [SameIgnoringCase, List.map_cons, List.cons.injEq] at h
    have h1 := hb 93 (by simp) c d h.1
    have h2 := hb 91 (by simp) c' d' h.2.1
    rw [Bool.eq_iff_iff]
    simp only [List.reverse_cons, List.reverse_nil, List.nil_append, List.cons_append,
      List.isPrefixOf, Bool.and_true, Bool.and_eq_true, beq_iff_eq]
    omega

theorem parseAtom_congr {u : CharClass} (hu : u.Lawful) (env : Env) {a b : QString}
    (h : SameIgnoringCase a b) : parseAtom u env a = parseAtom u env b := by
  have ht := trim_congr hu h
  unfold parseAtom
  simp only [suffix_congr ht, length_congr ht]
  rw [parseSimple_congr hu env ht]
  have : SameIgnoringCase ((trim u a).take ((trim u b).length - 2))
      ((trim u b).take ((trim u b).length - 2)) := by
    unfold SameIgnoringCase at *
    rw [List.map_take, List.map_take, ht]
  rw [parseSimple_congr hu env this]

/-- **C22.**  The interpretation of a doc type does not depend on letter case: of the built-in
names as of class names. -/
theorem doc_type_case_insensitive {u : CharClass} (hu : u.Lawful) (env : Env) {a b : QString}
    (h : SameIgnoringCase a b) : parseType u env a = parseType u env b := by
  have ht := trim_congr hu h
  unfold parseType
  simp only [mem_bar_congr ht]
  rw [parseAtom_congr hu env ht]
  have : (split (c! '|') (trim u a)).map (parseAtom u env)
      = (split (c! '|') (trim u b)).map (parseAtom u env) := by
    exact map_congr_of_map (fun x y h => parseAtom_congr hu env h) (split_congr ht)
  rw [this]

/-- `trim` does nothing to a text that neither starts nor ends with white space. -/
theorem trim_of_no_space {u : CharClass} {s : QString} (h : ∀ c ∈ s, u.isSpace c = false) :
    trim u s = s := by
  have aux : ∀ s : QString, (∀ c ∈ s, u.isSpace c = false) → s.dropWhile u.isSpace = s := by
    intro s hs
    cases s with
    | nil => rfl
    | cons c s => rw [List.dropWhile_cons, hs c (by simp)]; rfl
  unfold trim
  rw [aux s h, aux _ (by simpa using h), List.reverse_reverse]

theorem parseType_plain {u : CharClass} (env : Env) {s : QString}
    (h : ∀ c ∈ s, u.isSpace c = false) (hb : c! '|' ∉ s) (ha : (q! "[]").isSuffixOf s = false) :
    parseType u env s = parseSimple u env s := by
  rw [parseType_eq, trim_of_no_space h, if_neg hb, if_neg (by simp [ha])]

theorem asciiLower_fixed {s : QString} (h : ∀ c ∈ s, 97 ≤ c ∧ c ≤ 122) : s.map asciiLower = s := by
  induction s with
  | nil => rfl
  | cons c s ih =>
    rw [List.map_cons, ih (fun c hc => h c (by simp [hc]))]
    have := h c (by simp)
    unfold asciiLower
    rw [if_neg (by omega)]

theorem builtins_simple : ∀ e ∈ builtins, (∀ c ∈ e.1, 97 ≤ c ∧ c ≤ 122) := by
  decide +kernel

theorem fold_lower_str {u : CharClass} (hu : u.Lawful) {s : QString}
    (h : ∀ c ∈ s, 97 ≤ c ∧ c ≤ 122) : s.map u.fold = s := by
  rw [← asciiLower_fixed h]
  conv => rhs; rw [asciiLower_fixed h]
  rw [asciiLower_fixed h]
  induction s with
  | nil => rfl
  | cons c s ih =>
    have hc := h c (by simp)
    rw [List.map_cons, ih (fun c hc => h c (by simp [hc])), hu.fold_ascii c (by omega)]
    unfold asciiLower; rw [if_neg (by omega)]

/-- Comparison of two lower-case ASCII words ignoring case is comparison. -/
theorem ciEq_lower {u : CharClass} (hu : u.Lawful) {s t : QString}
    (hs : ∀ c ∈ s, 97 ≤ c ∧ c ≤ 122) (ht : ∀ c ∈ t, 97 ≤ c ∧ c ≤ 122) :
    ciEq u s t = (s == t) := by
  unfold ciEq
  rw [fold_lower_str hu hs, fold_lower_str hu ht]

theorem lower_no_space {u : CharClass} (hu : u.Lawful) {s : QString}
    (hs : ∀ c ∈ s, 97 ≤ c ∧ c ≤ 122) : ∀ c ∈ s, u.isSpace c = false := by
  intro c hc
  have := hs c hc
  rw [hu.space_ascii c (by omega)]
  simp [asciiSpace]; omega

theorem lower_not_array {s : QString} (hs : ∀ c ∈ s, 97 ≤ c ∧ c ≤ 122) :
    (q! "[]").isSuffixOf s = false := by
  rw [Bool.eq_false_iff]
  intro h
  have := (List.isSuffixOf_iff_suffix.1 h).subset (a := 93) (by simp)
  have := hs 93 this
  omega

/-- **C22.**  The built-in type names mean what the table says, in any letter case. -/
theorem doc_type_builtin {u : CharClass} (hu : u.Lawful) (env : Env) {s n : QString} {t : Ty}
    (hn : (n, t) ∈ builtins) (h : SameIgnoringCase s n) : parseType u env s = t := by
  rw [doc_type_case_insensitive hu env h]
  have hl := builtins_simple _ hn
  rw [parseType_plain env (lower_no_space hu hl) (fun hm => by have := hl _ hm; omega)
    (lower_not_array hl)]
  have hall : ∀ e ∈ builtins, ∀ k : QString, (∀ c ∈ k, 97 ≤ c ∧ c ≤ 122) →
      ciEq u e.1 k = (e.1 == k) := fun e he k hk => ciEq_lower hu (builtins_simple e he) hk
  have h2 := hall _ hn
  simp only [builtins, List.mem_cons, List.not_mem_nil, or_false, Prod.mk.injEq] at hn
  unfold parseSimple
  simp only [h2 (q! "int") (by decide), h2 (q! "integer") (by decide), h2 (q! "float") (by decide),
    h2 (q! "double") (by decide), h2 (q! "bool") (by decide), h2 (q! "boolean") (by decide),
    h2 (q! "false") (by decide), h2 (q! "true") (by decide), h2 (q! "string") (by decide),
    h2 (q! "mixed") (by decide), h2 (q! "array") (by decide), h2 (q! "resource") (by decide),
    h2 (q! "null") (by decide), h2 (q! "void") (by decide), h2 (q! "self") (by decide),
    h2 (q! "this") (by decide), h2 (q! "static") (by decide), h2 (q! "object") (by decide)]
  rcases hn with h | h | h | h | h | h | h | h | h | h | h | h | h | h | h <;>
    (obtain ⟨rfl, rfl⟩ := h; rfl)

/-- **C22.**  `self`, `this` and `static` denote the current class, in any letter case. -/
theorem doc_type_self {u : CharClass} (hu : u.Lawful) (env : Env) {s n : QString} {t : Ty}
    (hn : n ∈ selfNames) (h : SameIgnoringCase s n) (ht : env.selfType = some t) :
    parseType u env s = t := by
  rw [doc_type_case_insensitive hu env h]
  have hl : ∀ c ∈ n, 97 ≤ c ∧ c ≤ 122 := by
    have : ∀ n ∈ selfNames, ∀ c ∈ n, 97 ≤ c ∧ c ≤ 122 := by decide +kernel
    exact this n hn
  rw [parseType_plain env (lower_no_space hu hl) (fun hm => by have := hl _ hm; omega)
    (lower_not_array hl)]
  have h2 : ∀ k : QString, (∀ c ∈ k, 97 ≤ c ∧ c ≤ 122) → ciEq u n k = (n == k) :=
    fun k hk => ciEq_lower hu hl hk
  simp only [selfNames, List.mem_cons, List.not_mem_nil, or_false] at hn
  unfold parseSimple
  simp only [h2 (q! "int") (by decide), h2 (q! "integer") (by decide), h2 (q! "float") (by decide),
    h2 (q! "double") (by decide), h2 (q! "bool") (by decide), h2 (q! "boolean") (by decide),
    h2 (q! "false") (by decide), h2 (q! "true") (by decide), h2 (q! "string") (by decide),
    h2 (q! "mixed") (by decide), h2 (q! "array") (by decide), h2 (q! "resource") (by decide),
    h2 (q! "null") (by decide), h2 (q! "void") (by decide), h2 (q! "self") (by decide),
    h2 (q! "this") (by decide), h2 (q! "static") (by decide), h2 (q! "object") (by decide), ht]
  rcases hn with h | h | h <;> (subst h; rfl)

/-- A qualified name in the notation of the duchain: `::` in place of each backslash. -/
def qualified (s : QString) : QString := s.flatMap fun c => if c = c! '\\' then q! "::" else [c]

theorem colons_qualified (s : QString) : colons s = qualified s := by
  induction s with
  | nil => rfl
  | cons c s ih =>
    unfold colons qualified
    by_cases h : c = c! '\\'
    · simp [h, ih, qualified]
    · simp [h, ih, qualified]

/-- **C22.**  Any other name (without white space, `|`, and not ending in `[]`) is looked up as a
class, lower-cased, with `::` between its parts; an unknown name is mixed. -/
theorem doc_type_class {u : CharClass} (env : Env) {s : QString}
    (hsp : ∀ c ∈ s, u.isSpace c = false) (hb : c! '|' ∉ s) (ha : (q! "[]").isSuffixOf s = false)
    (hn : ∀ e ∈ builtins, ciEq u s e.1 = false) (hself : ∀ n ∈ selfNames, ciEq u s n = false) :
    parseType u env s = (env.lookup (qualified (lowerStr u s))).getD .mixed := by
  rw [parseType_plain env hsp hb ha, ← colons_qualified]
  simp only [builtins, selfNames, List.forall_mem_cons, List.not_mem_nil, false_implies,
    implies_true, and_true] at hn hself
  unfold parseSimple
  simp only [hn, hself, Bool.or_false, Bool.false_eq_true, if_false]
  cases env.lookup (colons (lowerStr u s)) <;> rfl

theorem parseType_brackets {u : CharClass} (env : Env) {s : QString}
    (hsp : ∀ c ∈ s ++ q! "[]", u.isSpace c = false) (hb : c! '|' ∉ s) :
    parseType u env (s ++ q! "[]") = .array (parseSimple u env s) := by
  rw [parseType_eq, trim_of_no_space hsp, if_neg (by simpa using hb), if_pos]
  · simp
  · rw [List.isSuffixOf_iff_suffix]; exact ⟨s, rfl⟩

/-- **C22.**  `T[]` is the array of `T`, if `T` is not an array itself. -/
theorem doc_type_array {u : CharClass} (env : Env) {s : QString}
    (hsp : ∀ c ∈ s ++ q! "[]", u.isSpace c = false) (hb : c! '|' ∉ s) (ha : (q! "[]").isSuffixOf s = false) :
    parseType u env (s ++ q! "[]") = .array (parseType u env s) := by
  rw [parseType_brackets env hsp hb, parseType_plain env (fun c hc => hsp c (by simp [hc])) hb ha]

/-- **Limit of C22.**  Arrays of arrays are not understood: unless there is a class of this name, `T[][]` is an array of mixed,
whatever `T` is. -/
theorem doc_type_nested_array {u : CharClass} (hu : u.Lawful) (env : Env) {s : QString}
    (hsp : ∀ c ∈ s ++ q! "[][]", u.isSpace c = false) (hb : c! '|' ∉ s)
    (hno : env.lookup (qualified (lowerStr u (s ++ q! "[]"))) = none) :
    parseType u env (s ++ q! "[][]") = .array .mixed := by
  have e : s ++ q! "[][]" = (s ++ q! "[]") ++ q! "[]" := by simp
  have hci : ∀ k : QString, (∀ c ∈ k, 97 ≤ c ∧ c ≤ 122) → ciEq u (s ++ q! "[]") k = false := by
    intro k hk
    rw [Bool.eq_false_iff]
    intro h
    unfold ciEq at h
    rw [fold_lower_str hu hk] at h
    have h1 := beq_iff_eq.1 h
    have : u.fold 93 ∈ k := by rw [← h1]; simp
    rw [hu.fold_ascii 93 (by omega)] at this
    have := hk _ this
    unfold asciiLower at this
    simp at this
  rw [e, parseType_brackets env (by rw [← e]; exact hsp) (by simpa using hb)]
  congr 1
  unfold parseSimple
  rw [colons_qualified, hno]
  simp only [hci (q! "int") (by decide), hci (q! "integer") (by decide), hci (q! "float") (by decide),
    hci (q! "double") (by decide), hci (q! "bool") (by decide), hci (q! "boolean") (by decide),
    hci (q! "false") (by decide), hci (q! "true") (by decide), hci (q! "string") (by decide),
    hci (q! "mixed") (by decide), hci (q! "array") (by decide), hci (q! "resource") (by decide),
    hci (q! "null") (by decide), hci (q! "void") (by decide), hci (q! "self") (by decide),
    hci (q! "this") (by decide), hci (q! "static") (by decide), hci (q! "object") (by decide), Bool.or_false,
    Bool.false_eq_true, if_false]

/-- **C22.**  A union is an unsure type offering exactly the non-mixed members, each once, in the
order of their first mention. -/
theorem doc_type_union (u : CharClass) (env : Env) (s : QString) (h : c! '|' ∈ trim u s) :
    ∃ ts, parseType u env s = .unsure ts ∧
      ts = firstOccurrences (((split (c! '|') (trim u s)).map (parseType u env)).filter
        (fun t => t ≠ .mixed)) ∧
      ts.Nodup ∧
      ∀ t, t ∈ ts ↔ t ≠ .mixed ∧ ∃ p ∈ split (c! '|') (trim u s), parseType u env p = t := by
  refine ⟨_, by rw [parseType_eq, if_pos h], addTypes_nil _, nodup_addTypes List.nodup_nil, ?_⟩
  intro t
  rw [mem_addTypes]
  simp [List.mem_filter, and_comm]

/-- What joining the parts with `|` gives. -/
def joinBar : List QString → QString
  | [] => []
  | [p] => p
  | p :: ps => p ++ c! '|' :: joinBar ps

/-- `split` cuts a text exactly at the `|`: it is inverse to joining. -/
theorem join_split (s : QString) : joinBar (split (c! '|') s) = s := by
  induction s with
  | nil => rfl
  | cons c s ih =>
    unfold split
    cases h : split (c! '|') s with
    | nil =>
      exfalso
      cases s with
      | nil => simp [split] at h
      | cons d s => unfold split at h; split at h <;> (try split at h) <;> simp at h
    | cons p ps =>
      rw [h] at ih
      by_cases hc : c = c! '|'
      · rw [if_pos hc, joinBar, ih, hc]; simp
        simp
      · rw [if_neg hc]
        simp only
        cases ps with
        | nil => simp [joinBar] at ih ⊢; exact ih
        | cons q qs => simp [joinBar] at ih ⊢; exact ih

def exEnv : Env where
  selfType := some (.struct 1)
  lookup n := if n = q! "foo" then some (.struct 7) else none

example : parseType asciiClass exEnv (q! " INT|Foo|mixed|int[]|null|foo ") =
    .unsure [.integral .int, .struct 7, .array (.integral .int), .null] := by decide +kernel
example : parseType asciiClass exEnv (q! "self") = .struct 1 := by decide +kernel
/-- A union whose other members are mixed stays a one-member unsure type. -/
example : parseType asciiClass exEnv (q! "int|mixed") = .unsure [.integral .int] := by decide +kernel
/-- Arrays of arrays are not understood: the element type becomes mixed. -/
example : parseType asciiClass exEnv (q! "int[][]") = .array .mixed := by decide +kernel
/-- Outside a class `self` is void. -/
example : parseType asciiClass { exEnv with selfType := none } (q! "self") = .integral .void := by
  decide +kernel

end KPhp.DocType
