import Verif.Chars
/-!
# The tool tips of functions and classes (C89)

Models `DeclarationNavigationContext::htmlFunction` and `htmlClass` (duchain/navigation/declarationnavigationcontext.cpp:44-109, 147-223).

Parameters of the model (KDevPlatform): the text that `eventuallyMakeTypeLinks` writes for a type is given with the type; `hl` is `identifierHighlight`.
-/
namespace KPhp.Navigation

/-! ### functions -/

/-- `QString::toHtmlEscaped`. -/
def escape : QString → QString
  | [] => []
  | c :: s =>
    (if c = c! '<' then q! "&lt;" else if c = c! '>' then q! "&gt;" else if c = c! '&' then q! "&amp;" else if c = c! '"' then q! "&quot;" else [c])
      ++ escape s

/-- The type of an argument: what is written for it, and what is written for its elements if it is an array type. -/
structure ArgType where
  text : QString
  elements : Option QString
deriving DecidableEq, Repr

/-- The declaration of a parameter. -/
structure Decl where
  name : QString
  variadic : Bool
deriving DecidableEq, Repr

/-- A function as the tool tip sees it: `special` for constructors and destructors; `decls` is empty if there is no context for the parameters. -/
structure Fn where
  special : Bool
  ret : QString
  name : QString
  args : List ArgType
  decls : List Decl
  defaults : List QString

/-- The text of one argument, declarationnavigationcontext.cpp:182-217; `none` if a list is read behind its end. -/
def argText (hl : QString → QString) (mixed : QString) (f : Fn) (n : Nat) (a : ArgType) : Option QString :=
  let dec := if f.decls.isEmpty then some none else (f.decls[n]?).map some
  dec.bind fun d =>
    if (d.map (·.variadic)).getD false then
      some (q! "[" ++ a.elements.getD mixed
        ++ (match f.decls[n]? with
          | some d => q! " ..." ++ hl (escape d.name)
          | none => [])
        ++ q! "]")
    else
      let t := a.text ++ (match f.decls[n]? with
          | some d => q! " " ++ hl (escape d.name)
          | none => [])
      let first : Int := (f.args.length : Int) - f.defaults.length
      if (n : Int) ≥ first then
        (f.defaults[((n : Int) - first).toNat]?).map fun s => if s.isEmpty then t else t ++ q! " = " ++ escape s
      else some t

/-- The loop over the arguments, :175-220. -/
def argsText (hl : QString → QString) (mixed : QString) (f : Fn) : List ArgType → Nat → QString → Option QString
  | [], _, html => some html
  | a :: as, n, html => (argText hl mixed f n a).bind fun t => argsText hl mixed f as (n + 1) (html ++ (if n = 0 then [] else q! ", ") ++ t)

/-- `htmlFunction`, declarationnavigationcontext.cpp:147-223. -/
def htmlFunction (hl : QString → QString) (mixed : QString) (f : Fn) : Option QString :=
  let html := (if f.special then [] else f.ret) ++ q! " " ++ hl (escape f.name)
  if f.args.length = 0 then some (html ++ q! "()" ++ q! "<br />")
  else (argsText hl mixed f f.args 0 (html ++ q! "( ")).map fun h => h ++ q! " )" ++ q! "<br />"

/-! ### classes -/

/-- `ClassDeclarationData::ClassType`. -/
inductive ClassType
  | klass | interface | trait
deriving DecidableEq, Repr

/-- `ClassDeclarationData::ClassModifier`. -/
inductive Modifier
  | none | abstract | final
deriving DecidableEq, Repr

/-- A base class: what is written for its type, and what kind of class it is; `none` if its declaration is not found. -/
structure Base where
  text : QString
  type : Option ClassType
deriving DecidableEq, Repr

/-- A class. -/
structure Cls where
  modifier : Modifier
  type : ClassType
  text : QString
  bases : List Base

/-- The sorting of the bases, declarationnavigationcontext.cpp:73-86. -/
def sortBases : List Base → Option QString × List QString → Option QString × List QString
  | [], r => r
  | b :: bs, (ext, impl) =>
    match b.type with
    | none => sortBases bs (ext, impl)
    | some .interface => sortBases bs (ext, impl ++ [b.text])
    | some _ => sortBases bs (some b.text, impl)

/-- The loop over the interfaces, :95-104. -/
def commaLoop : List QString → QString → QString
  | [], html => html
  | [t], html => html ++ t
  | t :: ts, html => commaLoop ts (html ++ t ++ q! ", ")

/-- `htmlClass`, declarationnavigationcontext.cpp:44-109. -/
def htmlClass (c : Cls) : QString :=
  let html := match c.modifier with
    | .abstract => q! "abstract "
    | .final => q! "final "
    | .none => []
  let html := html ++ (match c.type with
    | .interface => q! "interface "
    | .trait => q! "trait "
    | .klass => q! "class ")
  let html := html ++ c.text
  let html :=
    if c.bases.length > 0 then
      let r := sortBases c.bases (none, [])
      let html := match r.1 with
        | some t => html ++ q! " extends " ++ t
        | none => html
      if r.2.isEmpty then html else commaLoop r.2 (html ++ q! " implements ")
    else html
  html ++ q! " "

/-! ### Specification -/

/-- A parameter as it is declared: its type, its name, whether it is variadic and the text of its default value (empty if there is none). -/
structure Param where
  type : ArgType
  name : QString
  variadic : Bool
  default : QString

/-- The function with these parameters as the builder leaves it (declarationbuilder.cpp:819-852: one declaration and one, perhaps empty, default value for every parameter). -/
def declared (special : Bool) (ret name : QString) (ps : List Param) : Fn :=
  { special, ret, name, args := ps.map (·.type), decls := ps.map fun p => ⟨p.name, p.variadic⟩, defaults := ps.map (·.default) }

/-- What a reader expects to see of a parameter. -/
def showParam (hl : QString → QString) (mixed : QString) (p : Param) : QString :=
  if p.variadic then q! "[" ++ p.type.elements.getD mixed ++ q! " ..." ++ hl (escape p.name) ++ q! "]"
  else p.type.text ++ q! " " ++ hl (escape p.name) ++ (if p.default = [] then [] else q! " = " ++ escape p.default)

/-- Texts separated by commas. -/
def commas (ts : List QString) : QString := (ts.intersperse (q! ", ")).flatten

/-! ### proofs -/

theorem argText_declared (hl : QString → QString) (mixed : QString) (special : Bool) (ret name : QString) (ps : List Param) {n : Nat} {p : Param}
    (h : ps[n]? = some p) : argText hl mixed (declared special ret name ps) n p.type = some (showParam hl mixed p) := by
  have hne : ps ≠ [] := by intro h0; simp [h0] at h
  have hd : (declared special ret name ps).decls[n]? = some ⟨p.name, p.variadic⟩ := by simp [declared, h]
  have hf : (declared special ret name ps).defaults[n]? = some p.default := by simp [declared, h]
  have hem : (declared special ret name ps).decls.isEmpty = false := by
    cases ps with
    | nil => exact absurd rfl hne
    | cons q qs => rfl
  have hfirst : ((declared special ret name ps).args.length : Int) - (declared special ret name ps).defaults.length = 0 := by simp [declared]
  unfold argText
  simp only [hd, hem, hfirst, Option.map_some, Option.bind_some, Option.getD_some, Bool.false_eq_true, if_false]
  cases hv : p.variadic with
  | true => simp [showParam, hv]
  | false =>
    simp only [Bool.false_eq_true, if_false]
    rw [if_pos (by omega)]
    simp only [Int.sub_zero, Int.toNat_natCast, hf, Option.map_some]
    by_cases hx : p.default = [] <;> simp [showParam, hv, hx]

theorem argsText_declared (hl : QString → QString) (mixed : QString) (special : Bool) (ret name : QString) (ps : List Param) :
    ∀ (rest : List Param) (n : Nat), (∀ i, rest[i]? = ps[n + i]?) → ∀ html, argsText hl mixed (declared special ret name ps) (rest.map (·.type)) n html
      = some (html ++ (if n = 0 then commas (rest.map (showParam hl mixed)) else (rest.map fun p => q! ", " ++ showParam hl mixed p).flatten)) := by
  have tail : ∀ l : List Param, ∀ p, commas ((p :: l).map (showParam hl mixed)) = showParam hl mixed p ++ (l.map fun p => q! ", " ++ showParam hl mixed p).flatten := by
    intro l
    induction l with
    | nil => intro p; simp [commas]
    | cons q l ih =>
      intro p
      have := ih q
      simp only [List.map_cons] at this ⊢
      simp only [commas, List.intersperse_cons_cons, List.flatten_cons] at this ⊢
      rw [this]
      simp
  intro rest
  induction rest with
  | nil => intro n _ html; simp [argsText, commas]
  | cons p rest ih =>
    intro n h html
    have h0 := h 0
    simp only [List.getElem?_cons_zero, Nat.add_zero] at h0
    rw [List.map_cons, argsText, argText_declared hl mixed special ret name ps h0.symm, Option.bind_some,
      ih (n + 1) (by intro i; have := h (i + 1); simp only [List.getElem?_cons_succ] at this; rw [this]; congr 1; omega)]
    simp only [Nat.add_eq_zero_iff, Nat.one_ne_zero, and_false, if_false]
    by_cases hn : n = 0
    · simp only [hn, if_true, tail]; simp
    · simp only [hn, if_false]; simp

/-- **The tool tip of a function shows its return type (not that of a constructor or destructor), its name and its parameters in their order, each with its type, its name and its own
default value.** -/
theorem function_tip (hl : QString → QString) (mixed : QString) (special : Bool) (ret name : QString) (ps : List Param) :
    htmlFunction hl mixed (declared special ret name ps)
      = some ((if special then [] else ret) ++ q! " " ++ hl (escape name)
          ++ (if ps = [] then q! "()" else q! "( " ++ commas (ps.map (showParam hl mixed)) ++ q! " )") ++ q! "<br />") := by
  unfold htmlFunction
  cases ps with
  | nil => simp [declared]
  | cons p ps =>
    have hlen : (declared special ret name (p :: ps)).args.length ≠ 0 := by simp [declared]
    simp only [if_neg hlen]
    have := argsText_declared hl mixed special ret name (p :: ps) (p :: ps) 0 (by simp)
    have ha : (declared special ret name (p :: ps)).args = (p :: ps).map (·.type) := rfl
    rw [ha, this]
    simp [declared]

/-- The name and the default values cannot introduce markup: an escaped text has no `<`, `>` or `"` … -/
theorem escape_safe (s : QString) : c! '<' ∉ escape s ∧ c! '>' ∉ escape s ∧ c! '"' ∉ escape s := by
  induction s with
  | nil => simp [escape]
  | cons c s ih =>
    simp only [escape, List.mem_append, not_or]
    by_cases h1 : c = c! '<'
    · simp [h1, ih]
    by_cases h2 : c = c! '>'
    · simp [h2, ih]
    by_cases h3 : c = c! '&'
    · simp [h3, ih]
    by_cases h4 : c = c! '"'
    · simp [h4, ih]
    · simp [h1, h2, h3, h4, ih, Ne.symm h1, Ne.symm h2, Ne.symm h4]

/-- What a browser shows for the character references that `escape` writes. -/
def unescape : QString → QString
  | 38 :: 108 :: 116 :: 59 :: s => c! '<' :: unescape s
  | 38 :: 103 :: 116 :: 59 :: s => c! '>' :: unescape s
  | 38 :: 97 :: 109 :: 112 :: 59 :: s => c! '&' :: unescape s
  | 38 :: 113 :: 117 :: 111 :: 116 :: 59 :: s => c! '"' :: unescape s
  | c :: s => c :: unescape s
  | [] => []

/-- … and is shown as it was. -/
theorem escape_shown (s : QString) : unescape (escape s) = s := by
  induction s with
  | nil => simp [escape, unescape]
  | cons c s ih =>
    rw [escape]
    by_cases h1 : c = c! '<'
    · simp [h1, unescape, ih]
    by_cases h2 : c = c! '>'
    · simp [h2, unescape, ih]
    by_cases h3 : c = c! '&'
    · simp [h3, unescape, ih]
    by_cases h4 : c = c! '"'
    · simp [h4, unescape, ih]
    · simp only [if_neg h1, if_neg h2, if_neg h3, if_neg h4, List.cons_append, List.nil_append]
      rw [unescape.eq_def]
      split <;> simp_all

/-! ### classes -/

theorem sortBases_eq : ∀ (bs : List Base) (e : Option QString) (l : List QString), sortBases bs (e, l)
    = ((((bs.filter fun b => b.type = some .klass ∨ b.type = some .trait).map (·.text)).getLast?).or e, l ++ (bs.filter fun b => b.type = some .interface).map (·.text))
  | [], e, l => by simp [sortBases]
  | b :: bs, e, l => by
    rw [sortBases]
    cases hb : b.type with
    | none => simp [sortBases_eq bs, hb]
    | some t =>
      cases t with
      | interface => simp [sortBases_eq bs, hb]
      | klass =>
        simp only [sortBases_eq bs]
        simp [hb, List.getLast?_cons]
      | trait =>
        simp only [sortBases_eq bs]
        simp [hb, List.getLast?_cons]

theorem commaLoop_eq : ∀ (ts : List QString) (html : QString), commaLoop ts html = html ++ commas ts
  | [], html => by simp [commaLoop, commas]
  | [t], html => by simp [commaLoop, commas]
  | t :: t' :: ts, html => by
    rw [commaLoop, commaLoop_eq (t' :: ts)]
    simp [commas]
    simp

/-- The word for the kind of class. -/
def ClassType.word : ClassType → QString
  | .klass => q! "class "
  | .interface => q! "interface "
  | .trait => q! "trait "

/-- The word for the modifier. -/
def Modifier.word : Modifier → QString
  | .none => []
  | .abstract => q! "abstract "
  | .final => q! "final "

/-- **The tool tip of a class with a parent class `parent` and interfaces: modifier, kind, name, parent and interfaces, in the order of the declaration.** -/
theorem class_tip (m : Modifier) (t : ClassType) (text : QString) (parent : Option QString) (interfaces : List QString) :
    htmlClass ⟨m, t, text, (parent.toList.map fun p => ⟨p, some .klass⟩) ++ interfaces.map fun i => ⟨i, some .interface⟩⟩
      = m.word ++ t.word ++ text ++ (parent.elim [] fun p => q! " extends " ++ p)
          ++ (if interfaces = [] then [] else q! " implements " ++ commas interfaces) ++ q! " " := by
  have f1 : ∀ l : List QString, (l.map fun i => (⟨i, some .interface⟩ : Base)).filter (fun b => b.type = some .klass ∨ b.type = some .trait) = [] := by
    intro l; induction l <;> simp_all
  have f2 : ∀ l : List QString, ((l.map fun i => (⟨i, some .interface⟩ : Base)).filter (fun b => b.type = some .interface)).map (·.text) = l := by
    intro l
    induction l with
    | nil => rfl
    | cons x l ih => simp at ih ⊢; exact ih
  have hs : sortBases ((parent.toList.map fun p => ⟨p, some .klass⟩) ++ interfaces.map fun i => ⟨i, some .interface⟩) (none, [])
      = (parent, interfaces) := by
    rw [sortBases_eq, List.filter_append, List.filter_append, List.map_append, List.map_append, f1, f2]
    cases parent <;> simp
  unfold htmlClass
  simp only [hs]
  cases m <;> cases t <;> cases parent <;> cases interfaces <;> simp [Modifier.word, ClassType.word, commaLoop_eq]

/-- A base whose declaration is not found is not shown. -/
theorem unknown_base (m : Modifier) (t : ClassType) (text : QString) (b : QString) : htmlClass ⟨m, t, text, [⟨b, none⟩]⟩ = m.word ++ t.word ++ text ++ q! " " := by
  cases m <;> cases t <;> simp [htmlClass, sortBases, Modifier.word, ClassType.word]

/-- The interfaces an interface extends are shown as if it implemented them. -/
theorem interface_implements (text b : QString) : htmlClass ⟨.none, .interface, text, [⟨b, some .interface⟩]⟩
    = q! "interface " ++ text ++ q! " implements " ++ b ++ q! " " := by
  have := class_tip .none .interface text none [b]
  simpa [Modifier.word, ClassType.word, commas] using this

/-! ### examples -/

example : htmlFunction id (q! "mixed") (declared false (q! "int") (q! "f")
    [⟨⟨q! "string", none⟩, q! "a", false, []⟩, ⟨⟨q! "int", none⟩, q! "b", false, q! "1<2"⟩, ⟨⟨q! "array", some (q! "Foo")⟩, q! "c", true, []⟩])
    = some (q! "int f( string a, int b = 1&lt;2, [Foo ...c] )<br />") := by decide +kernel

example : htmlClass ⟨.abstract, .klass, q! "A", [⟨q! "B", some .klass⟩, ⟨q! "I", some .interface⟩, ⟨q! "J", some .interface⟩]⟩
    = q! "abstract class A extends B implements I, J " := by decide +kernel

end KPhp.Navigation
