import Verif.Chars
/-!
# The text written for a chosen completion (C80)

Models `NormalDeclarationCompletionItem::declarationName` (completion/item.cpp:39-78), `CodeCompletionModel::completionRange` and `shouldAbortCompletion` (completion/model.cpp:48-75) and the replacement of
`CodeModelCompletionItem::execute` (completion/codemodelitem.cpp:78-90).

Trusted platform behaviour: the default `completionRange` of KTextEditor is the word around the cursor (`\b([_\w]+)$` before it, `^([_\w]*)\b` behind it); `NormalDeclarationCompletionItem::execute`
replaces this range by `declarationName()`.  `word` says which characters are word characters (`\w` and `_`).  Not modelled: the parentheses `insertFunctionParenText` of the platform adds behind the name of
a function; the line is that of the cursor.
-/
namespace KPhp.Insert

/-! ### The range that is replaced -/

/-- The default range of KTextEditor: the word around column `col`. -/
def wordRange (word : QChar → Bool) (line : QString) (col : Nat) : Nat × Nat :=
  (col - ((line.take col).reverse.takeWhile word).length, col + ((line.drop col).takeWhile word).length)

/-- completion/model.cpp:48-63 -/
def completionRange (word : QChar → Bool) (line : QString) (col : Nat) : Nat × Nat :=
  let r := wordRange word line col
  if r.1 > 0 then
    if line[r.1 - 1]? = some (c! '$') then (r.1 - 1, r.2) else r                        -- :56-59
  else r

/-- `^\$?(\w*)` matches the whole text (completion/model.cpp:71-72). -/
def allowedText (word : QChar → Bool) (t : QString) : Bool :=
  match t with
  | [] => true
  | c :: t => (c == c! '$' && t.all word) || (c :: t).all word

/-- completion/model.cpp:65-73: `cur` is the column of the cursor (the line of the cursor is that of the range), `t` the text from the start of the range to the cursor. -/
def shouldAbort (word : QChar → Bool) (cur : Nat) (r : Nat × Nat) (t : QString) : Bool :=
  if cur < r.1 || cur > r.2 then true else !allowedText word t

/-- `replaceText(range, text)` in the line. -/
def replaceText (line : QString) (r : Nat × Nat) (t : QString) : QString := line.take r.1 ++ t ++ line.drop r.2

/-! ### The text -/

/-- What a declaration is, as far as `declarationName` asks; the type of a member that is not a function is given by whether it has the constant modifier. -/
inductive What
  /-- `VariableDeclaration` -/
  | var
  /-- a function that is not a method, with its namespace -/
  | function (ns : QString)
  | klass (ns : QString)
  | constant (ns : QString)
  | property (static : Bool) (type : Option Bool)
  | classConstant (type : Option Bool)
  | method (static : Bool)
deriving DecidableEq, Repr

structure Dec where
  /-- `prettyName` -/
  name : QString
  what : What
deriving DecidableEq, Repr

/-- The context of a declaration is a class. -/
def What.inClass : What → Bool
  | .property .. | .classConstant .. | .method .. => true
  | _ => false

/-- The contexts around the cursor.  The context of the parameters of a method counts as the method. -/
inductive Ctx
  | method (static : Bool)
  | function
  | closure (static : Bool)
  | cls
  | global
deriving DecidableEq, Repr

/-- The operation of the completion: nothing before the cursor, `->`, `::`, or some choice of a class. -/
inductive Op | none | arrow | colons | choose
deriving DecidableEq, Repr

/-- `isStatic` of a member; class constants are static (declarationbuilder.cpp:683). -/
def What.isStatic : What → Bool
  | .property s _ => s
  | .classConstant _ => true
  | .method s => s
  | _ => false

/-- `duContext()->parentContext()` is a class. -/
def inMethod : List Ctx → Bool
  | _ :: .cls :: _ => true
  | _ => false

/-- completion/item.cpp:45-58: the name with its dollar sign -/
def dollarName (d : Dec) : QString :=
  match d.what with
  | .var => c! '$' :: d.name                                                       -- :47
  | .property true (some false) => c! '$' :: d.name                                     -- :50-53
  | .classConstant (some false) => c! '$' :: d.name
  | _ => d.name

/-- completion/item.cpp:39-78 -/
def declarationName (op : Op) (scope : List Ctx) (d : Dec) : QString :=
  if d.name = [] then q! "<unknown>"                                                    -- :42-44
  else
    let ret := dollarName d
    if op = .none then
      if inMethod scope && d.what.inClass then
        if d.what.isStatic then q! "self::" ++ ret else q! "$this->" ++ ret             -- :69-73
      else ret
    else ret

/-- The line after an item was chosen with the cursor in column `col`. -/
def execute (word : QChar → Bool) (op : Op) (scope : List Ctx) (d : Dec) (line : QString) (col : Nat) : QString :=
  replaceText line (completionRange word line col) (declarationName op scope d)

/-! ### Specification -/

/-- `typed` is what was typed of a name at the cursor in column `col` of `line`: a word, with the `$` directly before it, as far as it goes to the left and right. -/
structure Typed (word : QChar → Bool) (line : QString) (col : Nat) (before typed after : QString) : Prop where
  whole : line = before ++ typed ++ after
  around : before.length ≤ col ∧ col ≤ before.length + typed.length
  right : ∀ c, after.head? = some c → word c = false
  name : ∃ n : QString, (∀ c ∈ n, word c = true) ∧ (typed = c! '$' :: n ∧ before.length < col ∨ typed = n ∧ ∀ c, before.getLast? = some c → word c = false ∧ c ≠ c! '$')

/-- The scopes in which `self` is the class, in PHP. -/
inductive InClass : List Ctx → Prop
  | cls (o : List Ctx) : InClass (.cls :: o)
  | method (s : Bool) (o : List Ctx) : InClass (.method s :: .cls :: o)
  | closure (s : Bool) {o : List Ctx} : InClass o → InClass (.closure s :: o)

/-- The scopes in which there is a `$this`, in PHP. -/
inductive HasThis : List Ctx → Prop
  | method (o : List Ctx) : HasThis (.method false :: .cls :: o)
  | closure {o : List Ctx} : HasThis o → HasThis (.closure false :: o)

/-- A text means a declaration, in PHP: in an expression in the namespace `ns`, behind `->` or behind `::`. -/
inductive Means (ns : QString) (scope : List Ctx) : Op → QString → Dec → Prop
  | variable (n : QString) : Means ns scope .none (c! '$' :: n) ⟨n, .var⟩
  /-- functions and constants are looked for in the namespace and then globally -/
  | function (n m : QString) : m = ns ∨ m = [] → Means ns scope .none n ⟨n, .function m⟩
  | constant (n m : QString) : m = ns ∨ m = [] → Means ns scope .none n ⟨n, .constant m⟩
  | klass (n : QString) (op : Op) : op = .none ∨ op = .choose → Means ns scope op n ⟨n, .klass ns⟩
  | thisProperty (n : QString) (t : Option Bool) : HasThis scope → Means ns scope .none (q! "$this->" ++ n) ⟨n, .property false t⟩
  | thisMethod (n : QString) : HasThis scope → Means ns scope .none (q! "$this->" ++ n) ⟨n, .method false⟩
  | selfProperty (n : QString) (t : Option Bool) : InClass scope → Means ns scope .none (q! "self::$" ++ n) ⟨n, .property true t⟩
  | selfMethod (n : QString) : InClass scope → Means ns scope .none (q! "self::" ++ n) ⟨n, .method true⟩
  | selfConstant (n : QString) (t : Option Bool) : InClass scope → Means ns scope .none (q! "self::" ++ n) ⟨n, .classConstant t⟩
  | arrowProperty (n : QString) (t : Option Bool) : Means ns scope .arrow n ⟨n, .property false t⟩
  | arrowMethod (n : QString) : Means ns scope .arrow n ⟨n, .method false⟩
  | colonsProperty (n : QString) (t : Option Bool) : Means ns scope .colons (c! '$' :: n) ⟨n, .property true t⟩
  | colonsMethod (n : QString) : Means ns scope .colons n ⟨n, .method true⟩
  | colonsConstant (n : QString) (t : Option Bool) : Means ns scope .colons n ⟨n, .classConstant t⟩

/-- What is offered (C38, C35): behind `->` members of objects, behind `::` static members, at a choice of a class classes, else anything. -/
def Offered : Op → What → Prop
  | .arrow, w => w.inClass = true ∧ w.isStatic = false
  | .colons, w => w.inClass = true ∧ w.isStatic = true
  | .choose, w => ∃ ns, w = .klass ns
  | .none, _ => True

/-- A type that is as it has to be: that of a constant is constant, that of a property is not. -/
def TypeFits : What → Prop
  | .property true t => t = some false
  | .classConstant t => t ≠ some false
  | _ => True

/-- When the right text is written. -/
def Fine (ns : QString) (scope : List Ctx) (op : Op) (d : Dec) : Prop :=
  TypeFits d.what ∧ match d.what with
    | .var => True
    | .function m | .constant m => m = ns ∨ m = []
    | .klass m => m = ns
    | w => op = .none → ∃ s o, scope = .method s :: .cls :: o ∧ (w.isStatic = false → s = false)

/-- Contexts are as the builder makes them: a class contains methods. -/
def Scoped : List Ctx → Prop
  | c :: .cls :: _ => ∃ s, c = .method s
  | _ => True

/-! ### The range -/

theorem takeWhile_run {p : QChar → Bool} (n rest : QString) (hn : ∀ c ∈ n, p c = true) (hr : ∀ c, rest.head? = some c → p c = false) : (n ++ rest).takeWhile p = n := by
  rw [List.takeWhile_append_of_pos hn]
  cases rest with
  | nil => simp
  | cons c rest => simp [hr c rfl]

theorem getLast?_reverse_head (b : QString) : b.reverse.head? = b.getLast? := List.head?_reverse

/-- The word around the cursor. -/
theorem wordRange_eq (word : QChar → Bool) (a n1 n2 b : QString) (h1 : ∀ c ∈ n1, word c = true) (h2 : ∀ c ∈ n2, word c = true)
    (ha : ∀ c, a.getLast? = some c → word c = false) (hb : ∀ c, b.head? = some c → word c = false) :
    wordRange word (a ++ (n1 ++ n2) ++ b) (a.length + n1.length) = (a.length, a.length + n1.length + n2.length) := by
  have e1 : (a ++ (n1 ++ n2) ++ b).take (a.length + n1.length) = a ++ n1 := by
    rw [show a ++ (n1 ++ n2) ++ b = (a ++ n1) ++ (n2 ++ b) by simp]
    rw [List.take_append_of_le_length (by simp), List.take_of_length_le (by simp)]
  have e2 : (a ++ (n1 ++ n2) ++ b).drop (a.length + n1.length) = n2 ++ b := by
    rw [show a ++ (n1 ++ n2) ++ b = (a ++ n1) ++ (n2 ++ b) by simp, show a.length + n1.length = (a ++ n1).length by simp]
    exact List.drop_left
  unfold wordRange
  rw [e1, e2, List.reverse_append, takeWhile_run n1.reverse a.reverse (by simpa using h1) (by rw [List.head?_reverse]; exact ha), takeWhile_run n2 b h2 hb]
  simp

/-- **C80 (range).** The range that is replaced is what was typed of the name, the dollar sign included. -/
theorem range_typed (word : QChar → Bool) (hw : word (c! '$') = false) (line : QString) (col : Nat) (before typed after : QString) (h : Typed word line col before typed after) :
    completionRange word line col = (before.length, before.length + typed.length) := by
  obtain ⟨hl, ⟨hb1, hb2⟩, hr, n, hn, hd | hd⟩ := h
  · obtain ⟨ht, hlt⟩ := hd
    obtain ⟨n1, n2, hnn, hk⟩ : ∃ n1 n2, n = n1 ++ n2 ∧ n1.length = col - before.length - 1 := by
      refine ⟨n.take (col - before.length - 1), n.drop (col - before.length - 1), (List.take_append_drop _ _).symm, ?_⟩
      rw [List.length_take]
      subst ht
      simp only [List.length_cons] at hb2
      omega
    have hcol : col = (before ++ [c! '$']).length + n1.length := by simp; omega
    have hline : line = (before ++ [c! '$']) ++ (n1 ++ n2) ++ after := by rw [hl, ht, hnn]; simp
    have hwr := wordRange_eq word (before ++ [c! '$']) n1 n2 after (fun c hc => hn c (by rw [hnn]; simp [hc])) (fun c hc => hn c (by rw [hnn]; simp [hc]))
      (by intro c hc; simp at hc; subst hc; exact hw) hr
    rw [← hline, ← hcol] at hwr
    unfold completionRange
    simp only [hwr]
    have h0 : (before ++ [c! '$']).length > 0 := by simp
    have hget : line[(before ++ [c! '$']).length - 1]? = some (c! '$') := by
      rw [hline]
      simp
    rw [if_pos h0, if_pos hget]
    refine Prod.ext ?_ ?_
    · simp
    · simp [ht, hnn, hcol]; omega
  · obtain ⟨ht, hbf⟩ := hd
    subst ht
    obtain ⟨n1, n2, hnn, hk⟩ : ∃ n1 n2, typed = n1 ++ n2 ∧ n1.length = col - before.length := by
      refine ⟨typed.take (col - before.length), typed.drop (col - before.length), (List.take_append_drop _ _).symm, ?_⟩
      rw [List.length_take]
      omega
    have hcol : col = before.length + n1.length := by omega
    have hline : line = before ++ (n1 ++ n2) ++ after := by rw [hl, hnn]
    have hwr := wordRange_eq word before n1 n2 after (fun c hc => hn c (by rw [hnn]; simp [hc])) (fun c hc => hn c (by rw [hnn]; simp [hc]))
      (fun c hc => (hbf c hc).1) hr
    rw [← hline, ← hcol] at hwr
    unfold completionRange
    simp only [hwr]
    have hend : col + n2.length = before.length + typed.length := by rw [hnn, List.length_append]; omega
    rw [hend]
    by_cases h0 : before.length > 0
    · rw [if_pos h0, if_neg]
      intro hget
      have : before.getLast? = some (c! '$') := by
        rw [hl] at hget
        rw [List.append_assoc, List.getElem?_append_left (by omega)] at hget
        rw [List.getLast?_eq_getElem?]; exact hget
      exact (hbf _ this).2 rfl
    · rw [if_neg h0]

/-- There is always such a piece. -/
theorem typed_exists (word : QChar → Bool) (line : QString) (col : Nat) (hc : col ≤ line.length) :
    ∃ before typed after, Typed word line col before typed after := by
  let l := line.take col
  let n1 := (l.reverse.takeWhile word).reverse
  let a := (l.reverse.dropWhile word).reverse
  let n2 := (line.drop col).takeWhile word
  let b := (line.drop col).dropWhile word
  have hl : l = a ++ n1 := by
    show l = (l.reverse.dropWhile word).reverse ++ (l.reverse.takeWhile word).reverse
    rw [← List.reverse_append, List.takeWhile_append_dropWhile, List.reverse_reverse]
  have hline : line = a ++ (n1 ++ n2) ++ b := by
    have : line = l ++ (n2 ++ b) := by rw [List.takeWhile_append_dropWhile]; exact (List.take_append_drop col line).symm
    rw [this, hl]; simp
  have hcol : col = a.length + n1.length := by
    have : l.length = col := by simp [l]; omega
    rw [← this, hl]; simp
  have hn1 : ∀ c ∈ n1, word c = true := by
    intro c hc
    exact List.all_eq_true.1 List.all_takeWhile c (List.mem_reverse.1 hc)
  have hn2 : ∀ c ∈ n2, word c = true := fun c hc => List.all_eq_true.1 List.all_takeWhile c hc
  have hb : ∀ c, b.head? = some c → word c = false := by
    intro c hc
    have := List.head?_dropWhile_not word (line.drop col)
    rw [show (List.dropWhile word (line.drop col)).head? = some c from hc] at this
    simpa using this
  have ha : ∀ c, a.getLast? = some c → word c = false := by
    intro c hc
    have := List.head?_dropWhile_not word l.reverse
    rw [show a = (l.reverse.dropWhile word).reverse from rfl, List.getLast?_reverse] at hc
    rw [hc] at this
    simpa using this
  have hn : ∀ c ∈ n1 ++ n2, word c = true := by
    intro c hc
    rcases List.mem_append.1 hc with h | h
    · exact hn1 c h
    · exact hn2 c h
  by_cases hd : a.getLast? = some (c! '$')
  · obtain ⟨a', ha'⟩ : ∃ a', a = a' ++ [c! '$'] := by
      obtain ⟨ys, h⟩ := List.getLast?_eq_some_iff.1 hd
      exact ⟨ys, h⟩
    refine ⟨a', c! '$' :: (n1 ++ n2), b, ⟨?_, ?_, hb, n1 ++ n2, hn, Or.inl ⟨rfl, ?_⟩⟩⟩
    · rw [hline, ha']; simp
    · rw [hcol, ha']; simp; omega
    · rw [hcol, ha']; simp; omega
  · refine ⟨a, n1 ++ n2, b, ⟨hline, ?_, hb, n1 ++ n2, hn, Or.inr ⟨rfl, ?_⟩⟩⟩
    · rw [hcol]; simp
    · intro c hc
      exact ⟨ha c hc, fun e => hd (by rw [hc, e])⟩

/-- **C80 (replacement).** Exactly what was typed of the name is replaced, by the text of the item. -/
theorem execute_replaces (word : QChar → Bool) (hw : word (c! '$') = false) (op : Op) (scope : List Ctx) (d : Dec) (line : QString) (col : Nat) (before typed after : QString)
    (h : Typed word line col before typed after) : execute word op scope d line col = before ++ declarationName op scope d ++ after := by
  unfold execute replaceText
  rw [range_typed word hw line col before typed after h]
  rw [h.whole]
  congr 1
  · rw [List.append_assoc, List.take_left]
  · rw [show before.length + typed.length = (before ++ typed).length by simp, List.drop_left]

/-- **C80 (typing on).** If more of the name is typed, the range only grows at its end. -/
theorem range_grows (word : QChar → Bool) (hw : word (c! '$') = false) (line : QString) (col : Nat) (hc : col ≤ line.length) (more : QString) (hm : ∀ c ∈ more, word c = true) :
    completionRange word (line.take col ++ more ++ line.drop col) (col + more.length) =
      ((completionRange word line col).1, (completionRange word line col).2 + more.length) := by
  obtain ⟨before, typed, after, h⟩ := typed_exists word line col hc
  rw [range_typed word hw line col before typed after h]
  let k := col - before.length
  have hk : col = before.length + k := by have := h.around; omega
  have hkt : k ≤ typed.length := by have := h.around; omega
  have e1 : line.take col = before ++ typed.take k := by
    rw [h.whole, hk, List.append_assoc, List.take_length_add_append, List.take_append_of_le_length hkt]
  have e2 : line.drop col = typed.drop k ++ after := by
    rw [h.whole, hk, List.append_assoc, List.drop_length_add_append, List.drop_append_of_le_length hkt]
  have ht : Typed word (line.take col ++ more ++ line.drop col) (col + more.length) before (typed.take k ++ more ++ typed.drop k) after := by
    obtain ⟨n, hn, h4⟩ := h.name
    refine ⟨by rw [e1, e2]; simp, ?_, h.right, ?_⟩
    · simp; omega
    · rcases h4 with ⟨h4, h5⟩ | ⟨h4, h5⟩
      · have hk0 : k ≠ 0 := by omega
        obtain ⟨k', hk'⟩ : ∃ k', k = k' + 1 := ⟨k - 1, by omega⟩
        refine ⟨n.take k' ++ more ++ n.drop k', ?_, Or.inl ⟨?_, by omega⟩⟩
        · intro c hc
          rcases List.mem_append.1 hc with hc | hc
          · rcases List.mem_append.1 hc with hc | hc
            · exact hn c (List.mem_of_mem_take hc)
            · exact hm c hc
          · exact hn c (List.mem_of_mem_drop hc)
        · rw [h4, hk']; simp
      · refine ⟨typed.take k ++ more ++ typed.drop k, ?_, Or.inr ⟨rfl, h5⟩⟩
        intro c hc
        rw [← h4] at hn
        rcases List.mem_append.1 hc with hc | hc
        · rcases List.mem_append.1 hc with hc | hc
          · exact hn c (List.mem_of_mem_take hc)
          · exact hm c hc
        · exact hn c (List.mem_of_mem_drop hc)
  rw [range_typed word hw _ _ before _ after ht]
  refine Prod.ext rfl ?_
  simp
  omega

/-- **C80 (going on).** The list stays open as long as the cursor is in the range and the text before it is a word with at most one dollar sign in front. -/
theorem stays_open_iff (word : QChar → Bool) (cur : Nat) (r : Nat × Nat) (t : QString) :
    shouldAbort word cur r t = false ↔ (r.1 ≤ cur ∧ cur ≤ r.2) ∧ ∃ n : QString, (∀ c ∈ n, word c = true) ∧ (t = n ∨ t = c! '$' :: n) := by
  have ha : allowedText word t = true ↔ ∃ n : QString, (∀ c ∈ n, word c = true) ∧ (t = n ∨ t = c! '$' :: n) := by
    cases t with
    | nil => simp [allowedText]
    | cons c t =>
      simp only [allowedText, Bool.or_eq_true, Bool.and_eq_true, beq_iff_eq, List.all_eq_true]
      constructor
      · rintro (⟨rfl, h⟩ | h)
        · exact ⟨t, h, Or.inr rfl⟩
        · exact ⟨c :: t, h, Or.inl rfl⟩
      · rintro ⟨n, hn, h | h⟩
        · right; rw [h]; exact hn
        · left; injection h with h1 h2; subst h2; exact ⟨h1, hn⟩
  rw [← ha]
  unfold shouldAbort
  by_cases h : r.1 ≤ cur ∧ cur ≤ r.2
  · rw [if_neg (by simp; omega)]; simp [h]
  · rw [if_pos (by simp; omega)]; simp; intro h1 h2; exact absurd ⟨h1, h2⟩ h

/-- The text before the cursor, in the range, when the completion is asked for: the list is not closed at once, nor while the name is typed on. -/
theorem open_while_typing (word : QChar → Bool) (hw : word (c! '$') = false) (line : QString) (col : Nat) (hc : col ≤ line.length) :
    let r := completionRange word line col
    shouldAbort word col r ((line.take col).drop r.1) = false := by
  intro r
  obtain ⟨before, typed, after, h⟩ := typed_exists word line col hc
  have hr : r = (before.length, before.length + typed.length) := range_typed word hw line col before typed after h
  rw [hr, stays_open_iff]
  refine ⟨h.around, ?_⟩
  let k := col - before.length
  have hk : col = before.length + k := by have := h.around; omega
  have hkt : k ≤ typed.length := by have := h.around; omega
  have e1 : (line.take col).drop before.length = typed.take k := by
    rw [h.whole, hk, List.append_assoc, List.take_length_add_append, List.take_append_of_le_length hkt, List.drop_left]
  rw [e1]
  obtain ⟨n, hn, ⟨h4, h5⟩ | ⟨h4, h5⟩⟩ := h.name
  · obtain ⟨k', hk'⟩ : ∃ k', k = k' + 1 := ⟨k - 1, by omega⟩
    refine ⟨n.take k', fun c hc => hn c (List.mem_of_mem_take hc), Or.inr ?_⟩
    rw [h4, hk']; simp
  · refine ⟨typed.take k, fun c hc => hn c (h4 ▸ List.mem_of_mem_take hc), Or.inl rfl⟩

/-! ### The text -/

theorem len_ne {a b : QString} (h : a.length ≠ b.length) : a ≠ b := fun e => h (congrArg _ e)

theorem inMethod_iff (scope : List Ctx) (hs : Scoped scope) : inMethod scope = true ↔ ∃ s o, scope = .method s :: .cls :: o := by
  match scope, hs with
  | [], _ => simp [inMethod]
  | [c], _ => simp [inMethod]
  | c :: .cls :: o, ⟨s, h⟩ => subst h; simp [inMethod]
  | c :: .method _ :: o, _ => simp [inMethod]
  | c :: .function :: o, _ => simp [inMethod]
  | c :: .closure _ :: o, _ => simp [inMethod]
  | c :: .global :: o, _ => simp [inMethod]

/-- The text means the member `w`, in an expression: which texts these are. -/
theorem means_member (ns : QString) (scope : List Ctx) (t n : QString) (w : What) (hw : w.inClass = true) : Means ns scope .none t ⟨n, w⟩ ↔
    (w.isStatic = false ∧ HasThis scope ∧ t = q! "$this->" ++ n) ∨
    (w.isStatic = true ∧ InClass scope ∧ t = (match w with | .property .. => q! "self::$" | _ => q! "self::") ++ n) := by
  constructor
  · intro h
    cases h <;> first | (cases hw; done) | skip
    · rename_i h; exact Or.inl ⟨rfl, h, rfl⟩
    · rename_i h; exact Or.inl ⟨rfl, h, rfl⟩
    · rename_i h; exact Or.inr ⟨rfl, h, rfl⟩
    · rename_i h; exact Or.inr ⟨rfl, h, rfl⟩
    · rename_i h; exact Or.inr ⟨rfl, h, rfl⟩
  · rintro (⟨hst, ht, he⟩ | ⟨hst, ht, he⟩)
    · subst he
      cases w with
      | property s t => cases s <;> first | cases hst; done | exact .thisProperty n t ht
      | classConstant t => cases hst
      | method s => cases s <;> first | cases hst; done | exact .thisMethod n ht
      | _ => cases hw
    · subst he
      cases w with
      | property s t => cases s <;> first | cases hst; done | exact .selfProperty n t ht
      | classConstant t => exact .selfConstant n t ht
      | method s => cases s <;> first | cases hst; done | exact .selfMethod n ht
      | _ => cases hw

/-- A member, in an expression. -/
theorem member_iff (ns : QString) (scope : List Ctx) (hs : Scoped scope) (n : QString) (hn : n ≠ []) (w : What) (hw : w.inClass = true) :
    Means ns scope .none (declarationName .none scope ⟨n, w⟩) ⟨n, w⟩ ↔ TypeFits w ∧ ∃ s o, scope = .method s :: .cls :: o ∧ (w.isStatic = false → s = false) := by
  rw [means_member ns scope _ n w hw]
  unfold declarationName
  simp only [hn, if_false, if_true, hw, Bool.and_true]
  by_cases hm : inMethod scope = true
  · rw [if_pos hm]
    obtain ⟨s, o, rfl⟩ := (inMethod_iff scope hs).1 hm
    have hthis : HasThis (.method s :: .cls :: o) ↔ s = false := ⟨fun h => by cases h; rfl, fun h => by subst h; exact .method o⟩
    have hcls : InClass (.method s :: .cls :: o) := .method s o
    cases hst : w.isStatic
    · simp only [Bool.false_eq_true, if_false, false_and, or_false, true_and]
      have ht : TypeFits w := by
        cases w with
        | property a b => cases a <;> first | trivial | cases hst
        | classConstant a => cases hst
        | _ => trivial
      have hdn : dollarName ⟨n, w⟩ = n := by
        cases w with
        | property a b => cases a <;> first | rfl | cases hst
        | classConstant a => cases hst
        | method a => rfl
        | _ => cases hw
      rw [hdn, hthis]
      constructor
      · rintro ⟨h, _⟩; exact ⟨ht, s, o, rfl, fun _ => h⟩
      · rintro ⟨_, s', o', he, h⟩; injection he with h1 _; injection h1 with h1; subst h1; exact ⟨h trivial, by simp⟩
    · simp only [Bool.true_eq_false, false_and, false_or, true_and, if_true, false_implies]
      have hr : ∃ s' o', Ctx.method s :: .cls :: o = .method s' :: .cls :: o' ∧ True := ⟨s, o, rfl, trivial⟩
      simp only [hcls, true_and]
      cases w with
      | property a b =>
        cases a
        · cases hst
        · cases b with
          | none => simp [dollarName, TypeFits]
          | some b => cases b <;> simp [dollarName, TypeFits]
      | classConstant a =>
        cases a with
        | none => simp [dollarName, TypeFits]
        | some b => cases b <;> simp [dollarName, TypeFits]
      | method a => simp [dollarName, TypeFits]
      | _ => cases hw
  · rw [if_neg hm]
    have hlen : (dollarName ⟨n, w⟩).length ≤ n.length + 1 := by
      unfold dollarName
      dsimp only
      split <;> simp
    constructor
    · rintro (⟨_, _, h⟩ | ⟨_, _, h⟩)
      · rw [h] at hlen; simp at hlen; omega
      · rw [h] at hlen; split at hlen <;> simp at hlen <;> omega
    · rintro ⟨_, s, o, h, _⟩
      exact absurd ((inMethod_iff scope hs).2 ⟨s, o, h⟩) hm

/-- **C80 (meaning).** Of what is offered, the text that is written means the chosen declaration at the cursor iff the declaration has a fitting type, a class is in the namespace of the cursor, and a
member is chosen directly in a method of a class, which is not static if the member is not. -/
theorem means_iff (ns : QString) (scope : List Ctx) (hs : Scoped scope) (op : Op) (d : Dec) (hn : d.name ≠ []) (ho : Offered op d.what) :
    Means ns scope op (declarationName op scope d) d ↔ Fine ns scope op d := by
  obtain ⟨n, w⟩ := d
  simp only at hn ho
  by_cases hop : op = .none
  · subst hop
    by_cases hw : w.inClass = true
    · rw [member_iff ns scope hs n hn w hw]
      unfold Fine
      cases w <;> first | (cases hw; done) | simp
    · unfold declarationName Fine
      simp only [hn, if_false, if_true, hw, Bool.and_false, Bool.false_eq_true]
      cases w with
      | var => exact ⟨fun _ => ⟨trivial, trivial⟩, fun _ => .variable n⟩
      | function m => exact ⟨fun h => by cases h with | function _ _ h => exact ⟨trivial, h⟩, fun h => .function n m h.2⟩
      | constant m => exact ⟨fun h => by cases h with | constant _ _ h => exact ⟨trivial, h⟩, fun h => .constant n m h.2⟩
      | klass m => exact ⟨fun h => by cases h with | klass _ _ h => exact ⟨trivial, rfl⟩, fun h => by have := h.2; subst this; exact .klass n .none (Or.inl rfl)⟩
      | property a b => exact absurd rfl hw
      | classConstant a => exact absurd rfl hw
      | method a => exact absurd rfl hw
  · unfold declarationName Fine
    simp only [hn, if_false, hop]
    cases op with
    | none => exact absurd rfl hop
    | choose =>
      obtain ⟨m, rfl⟩ := ho
      exact ⟨fun h => by cases h with | klass _ _ h => exact ⟨trivial, rfl⟩, fun h => by have := h.2; subst this; exact .klass n .choose (Or.inr rfl)⟩
    | arrow =>
      cases w with
      | property a b => 
        cases a
        · exact ⟨fun _ => ⟨trivial, fun h => h.elim⟩, fun _ => .arrowProperty n b⟩
        · cases ho.2
      | classConstant a => cases ho.2
      | method a =>
        cases a
        · exact ⟨fun _ => ⟨trivial, fun h => h.elim⟩, fun _ => .arrowMethod n⟩
        · cases ho.2
      | _ => cases ho.1
    | colons =>
      cases w with
      | property a b => 
        cases a
        · cases ho.2
        · constructor
          · intro h
            refine ⟨?_, fun h => h.elim⟩
            show b = some false
            cases b with
            | none => have : n = c! '$' :: n := by { generalize ht : dollarName _ = t at h; cases h; exact ht }; simp at this
            | some b =>
              cases b
              · rfl
              · have : n = c! '$' :: n := by { generalize ht : dollarName _ = t at h; cases h; exact ht }
                simp at this
          · intro h
            have hb : b = some false := h.1
            subst hb
            exact .colonsProperty n _
      | classConstant a =>
        constructor
        · intro h
          refine ⟨?_, fun h => h.elim⟩
          show a ≠ some false
          intro ha
          subst ha
          have : c! '$' :: n = n := by { generalize ht : dollarName _ = t at h; cases h; exact ht }
          simp at this
        · intro h
          have ha : a ≠ some false := h.1
          have : dollarName ⟨n, .classConstant a⟩ = n := by
            cases a with
            | none => rfl
            | some b => cases b <;> first | exact absurd rfl ha | rfl
          rw [this]
          exact .colonsConstant n a
      | method a =>
        cases a
        · cases ho.2
        · exact ⟨fun _ => ⟨trivial, fun h => h.elim⟩, fun _ => .colonsMethod n⟩
      | _ => cases ho.1

/-- **C80.** Choosing an offered declaration replaces exactly what was typed of its name by a text that means the declaration, under the condition above. -/
theorem chosen_means_partial (word : QChar → Bool) (hw : word (c! '$') = false) (ns : QString) (scope : List Ctx) (hs : Scoped scope) (op : Op) (d : Dec) (hn : d.name ≠ []) (ho : Offered op d.what)
    (hf : Fine ns scope op d) (line : QString) (col : Nat) (before typed after : QString) (h : Typed word line col before typed after) :
    ∃ t, Means ns scope op t d ∧ execute word op scope d line col = before ++ t ++ after :=
  ⟨_, (means_iff ns scope hs op d hn ho).2 hf, execute_replaces word hw op scope d line col before typed after h⟩

/-- **C80 (dollar sign).** However much of it was typed, with or without the dollar sign, a chosen variable is there with exactly one more dollar sign than was before the typed one. -/
theorem variable_chosen (word : QChar → Bool) (hw : word (c! '$') = false) (op : Op) (scope : List Ctx) (n : QString) (hn : n ≠ []) (line : QString) (col : Nat) (before typed after : QString)
    (h : Typed word line col before typed after) : execute word op scope ⟨n, .var⟩ line col = before ++ [c! '$'] ++ n ++ after := by
  rw [execute_replaces word hw op scope ⟨n, .var⟩ line col before typed after h]
  unfold declarationName dollarName
  simp [hn, What.inClass]

/-! ### Findings and examples -/

/-- The word characters of ASCII. -/
def asciiWord (c : QChar) : Bool := asciiLetter c || asciiDigit c || c == c! '_'

/-- **C80 (finding).** In a static method, `$this->` is written for a property of objects. -/
theorem static_method_this : declarationName .none [.method true, .cls, .global] ⟨q! "x", .property false none⟩ = q! "$this->x" ∧
    ¬ ∃ t, Means [] [.method true, .cls, .global] .none t ⟨q! "x", .property false none⟩ := by
  refine ⟨by decide +kernel, ?_⟩
  rintro ⟨t, h⟩
  rw [means_member _ _ _ _ _ rfl] at h
  rcases h with ⟨_, h, _⟩ | ⟨h, _⟩
  · cases h
  · cases h

/-- **C80 (finding).** In a closure in a method, where `$this->x` is right, `x` is written, which is a constant; the same for a constant of the class in the values of its other constants (`const B = A`,
not `self::A`). -/
theorem closure_member : declarationName .none [.closure false, .method false, .cls, .global] ⟨q! "x", .property false none⟩ = q! "x" ∧
    Means [] [.closure false, .method false, .cls, .global] .none (q! "$this->x") ⟨q! "x", .property false none⟩ ∧
    declarationName .none [.cls, .global] ⟨q! "A", .classConstant (some true)⟩ = q! "A" ∧
    Means [] [.cls, .global] .none (q! "self::A") ⟨q! "A", .classConstant (some true)⟩ :=
  ⟨by decide +kernel, .thisProperty (q! "x") none (.closure (.method _)), by decide +kernel, .selfConstant (q! "A") _ (.cls _)⟩

/-- **C80 (finding).** A static property with a value that is a constant (`static $x = self::A;`) has its type, and is written without the dollar sign. -/
theorem static_constant_value : declarationName .colons [.global] ⟨q! "x", .property true (some true)⟩ = q! "x" ∧
    Means [] [.global] .colons (q! "$x") ⟨q! "x", .property true (some true)⟩ := ⟨by decide +kernel, .colonsProperty _ _⟩

/-- **C80 (finding).** A class of another namespace is written with its last name only. -/
theorem other_namespace : declarationName .choose [.global] ⟨q! "C", .klass (q! "n")⟩ = q! "C" ∧ ¬ Means (q! "m") [.global] .choose (q! "C") ⟨q! "C", .klass (q! "n")⟩ := by
  refine ⟨by decide +kernel, ?_⟩
  intro h
  cases h

/-- `echo $f|o;` and `foo` chosen: the whole `$fo` is replaced. -/
example : execute asciiWord .none [.global] ⟨q! "foo", .var⟩ (q! "echo $fo;") 7 = q! "echo $foo;" := by decide +kernel
/-- The hypotheses of `chosen_means_partial` can be met, here with a property in a method. -/
example : Typed asciiWord (q! "echo $fo;") 7 (q! "echo ") (q! "$fo") (q! ";") ∧ Fine [] [.method false, .cls, .global] .none ⟨q! "foo", .property false none⟩ ∧
    Scoped [.method false, .cls, .global] ∧ execute asciiWord .none [.method false, .cls, .global] ⟨q! "foo", .property false none⟩ (q! "echo $fo;") 7 = q! "echo $this->foo;" :=
  ⟨⟨by decide +kernel, by decide +kernel, by intro c h; injection h with h; subst h; decide +kernel, q! "fo", by decide +kernel, Or.inl ⟨rfl, by decide +kernel⟩⟩,
    ⟨trivial, fun _ => ⟨false, [.global], rfl, fun _ => rfl⟩⟩, ⟨false, rfl⟩, by decide +kernel⟩
/-- `A::$|` and a constant chosen: the dollar sign goes. -/
example : execute asciiWord .colons [.global] ⟨q! "B", .classConstant (some true)⟩ (q! "A::$") 4 = q! "A::B" := by decide +kernel
example : shouldAbort asciiWord 3 (0, 3) (q! "$a+") = true ∧ shouldAbort asciiWord 3 (0, 3) (q! "$ab") = false := by decide +kernel

end KPhp.Insert
