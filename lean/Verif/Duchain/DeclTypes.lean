import Verif.Duchain.Types
/-!
# The types that declarations are given (C67)

Models how the builders hand a type to a declaration: `DeclarationBuilder::closeDeclaration` gives a declaration the type that was closed last
(duchain/builders/declarationbuilder.cpp:153-163), and `TypeBuilder` closes types, with the members `m_gotTypeFromDocComment` and
`m_gotTypeFromTypeHint` (typebuilder.cpp:206-254, 296-470, 551-645).

Trusted platform behaviour: `openAbstractType` pushes, `closeType` pops and remembers the type, `injectType` does both, `clearLastType` forgets it; visiting is in
the order of the grammar.  Simplified: the file is compiled for the first time; types of expressions, type hints and doc comments are given (C28, C30, C31, C44 treat them);
values of properties, constants and static variables contain no closures; assignments are to plain variables.
-/
namespace KPhp.DeclTypes

/-- A type and whether it has the constant modifier. -/
structure T where
  ty : Ty
  const : Bool
deriving DecidableEq, Repr

def mixed : T := ⟨.mixed, false⟩
def null : T := ⟨.integral .null, false⟩

/-- What a doc comment says with the tag looked for: nothing, `$this` (with the type of the owner of the current context, if there is one), or a type. -/
inductive Doc
  | none
  | this (owner : Option T)
  | type (t : T)
deriving DecidableEq, Repr

/-- A part of a file in visiting order.  Numbers identify declarations. -/
inductive Code
  | empty
  | seq (a b : Code)
  /-- `$x = e;` with the comment before it, the type of `e` if it has one, and what is inside of `e` (closures) -/
  | assign (id : Nat) (doc : Doc) (value : Option T) (inner : Code)
  /-- `return e;` in a function without a declared return type, and any other evaluation -/
  | eval (doc : Doc) (inner : Code)
  /-- `static $x;` or `static $x = v;` -/
  | staticVar (id : Nat) (value : Option (Doc × Option T))
  /-- `foreach (e as $k => $v) body` with the type of the elements -/
  | foreach (value : Nat) (key : Option Nat) (elem : T) (body : Code)
  /-- `catch (A | B $e) { body }` with the types of the classes that are known -/
  | catchItem (id : Nat) (first : Option T) (more : List (Option T)) (body : Code)
  /-- a function, method or closure: its `@return`, parameters, type, body -/
  | func (id : Nat) (doc : Doc) (params : List (Nat × T)) (type : T) (body : Code)
  | klass (id : Nat) (type : T) (members : Code)
  /-- `A = v` in a `const` of a class, with a comment before `v` -/
  | constant (id : Nat) (doc : Doc) (value : Option T)
  /-- `public T $a, $b;` -/
  | typedProps (doc : Doc) (hint : Option T) (vars : List Nat)
  /-- `public $a = 1, $b;` -/
  | props (doc : Doc) (vars : List (Nat × Option (Doc × Option T)))
  /-- `use T { … }` in a class: aliases, imported members -/
  | traitUse (doc : Doc) (aliases imports : List (Nat × T))
deriving Repr

/-- The members of the builder: `m_gotTypeFromDocComment`, `m_gotTypeFromTypeHint`, `lastType()`. -/
structure St where
  gotDoc : Bool
  gotHint : Bool
  last : Option T
deriving DecidableEq, Repr

/-- A declaration with its type. -/
abbrev Decl := Nat × Option T

/-- `TypeBuilder::parseDocComment` (typebuilder.cpp:206-231). -/
def parseDoc (s : St) : Doc → St × Option T
  | .none => ({ s with gotDoc := false }, none)
  | .this owner => ({ s with gotDoc := owner.isSome }, owner)
  | .type t => ({ s with gotDoc := true, last := some t }, some t)

/-- `TypeBuilder::getTypeForNode` for a node (typebuilder.cpp:249-271). -/
def getType (s : St) (doc : Doc) (value : Option T) : St × T :=
  let r := parseDoc s doc
  (r.1, (r.2.or value).getD mixed)

/-- A type that is opened and closed. -/
def close (s : St) (t : T) : St := { s with last := some t }

/-- `clearLastType`, with the flag (typebuilder.cpp:333-336, 341-344). -/
def afterDoc (s : St) : St := if s.gotDoc then { s with last := none, gotDoc := false } else s

/-- Declarations that bring their types: parameters (typebuilder.cpp:415-418, declarationbuilder.cpp:848), members of traits (declarationbuilder.cpp:495-515, 804-805). -/
def given (s : St) : List (Nat × T) → St × List Decl
  | [] => (s, [])
  | (i, t) :: ps =>
    let s := close s t
    let r := given s ps
    (r.1, (i, s.last) :: r.2)

/-- `TypeBuilder::visitClassVariable` (typebuilder.cpp:348-363) and the end of `DeclarationBuilder::visitClassVariable` (declarationbuilder.cpp:559). -/
def classVariable (s : St) (id : Nat) (value : Option (Doc × Option T)) : St × Decl :=
  if !s.gotDoc && !s.gotHint then
    match value with
    | some (d, v) =>
      let r := getType s d v
      let s := close r.1 r.2
      (s, (id, s.last))
    | none =>
      let s := close s null
      (s, (id, s.last))
  else (s, (id, s.last))

/-- The variables of a statement. -/
def classVariables (s : St) : List (Nat × Option (Doc × Option T)) → St × List Decl
  | [] => (s, [])
  | (i, v) :: vs =>
    let r := classVariable s i v
    let q := classVariables r.1 vs
    (q.1, r.2 :: q.2)

/-- typebuilder.cpp:613-644: the type of a `catch`.  With one class nothing is closed if it is not known. -/
def catchType (s : St) (first : Option T) (more : List (Option T)) : St :=
  if more.isEmpty then
    match first with
    | some t => close s t
    | none => s
  else close s ⟨.unsure (addTypes [] (((first :: more).filterMap id).map (·.ty))), false⟩

/-- typebuilder.cpp:381-395 inside of a class (there is a current type). -/
def classConstant (s : St) (id : Nat) (doc : Doc) (value : Option T) : St × Decl :=
  if !s.gotDoc then
    let r := getType s doc value
    let s := close r.1 { r.2 with const := true }
    (s, (id, s.last))
  else (s, (id, s.last))

/-- typebuilder.cpp:322-337. -/
def typedProperties (s : St) (doc : Doc) (hint : Option T) (vars : List Nat) : St × List Decl :=
  let r := parseDoc { s with gotHint := true } doc
  let s := close r.1 ((hint.or r.2).getD mixed)
  let q := classVariables s (vars.map fun i => (i, none))
  (afterDoc { q.1 with last := none, gotHint := false }, q.2)

/-- typebuilder.cpp:338-345. -/
def properties (s : St) (doc : Doc) (vars : List (Nat × Option (Doc × Option T))) : St × List Decl :=
  let r := parseDoc s doc
  let q := classVariables r.1 vars
  (afterDoc q.1, q.2)

/-- The walk: the state and the declarations with their types, in the order in which they get them. -/
def walk (s : St) : Code → St × List Decl
  | .empty => (s, [])
  | .seq a b =>
    let r := walk s a
    let q := walk r.1 b
    (q.1, r.2 ++ q.2)
  | .assign id doc value inner =>                   -- typebuilder.cpp:448-460, declarationbuilder.cpp:1272-1294
    let r := getType s doc value
    let q := walk r.1 inner
    (close q.1 r.2, q.2 ++ [(id, some r.2)])
  | .eval doc inner =>                              -- typebuilder.cpp:471-478
    let q := walk s inner
    ((parseDoc q.1 doc).1, q.2)
  | .staticVar id value =>                          -- typebuilder.cpp:462-469, declarationbuilder.cpp:1502-1512
    match value with
    | some (d, v) =>
      let r := getType s d v
      let s := close r.1 r.2
      (s, [(id, s.last)])
    | none =>
      let s := close s mixed
      (s, [(id, s.last)])
  | .foreach value key elem body =>                 -- typebuilder.cpp:473, 551-604, declarationbuilder.cpp:1472-1499
    let q := walk s body
    let s := close q.1 elem
    (s, q.2 ++ (value :: key.toList).map fun i => (i, s.last))
  | .catchItem id first more body =>                -- typebuilder.cpp:607-645, declarationbuilder.cpp:1541-1550
    let q := walk s body
    let s := catchType q.1 first more
    (s, q.2 ++ [(id, s.last)])
  | .func id doc params type body =>                -- typebuilder.cpp:298-318, 423-470, declarationbuilder.cpp:380, 853-898
    let r := parseDoc s doc
    let p := given r.1 params
    let q := walk p.1 body
    let s := close q.1 type
    (s, p.2 ++ q.2 ++ [(id, s.last)])
  | .klass id type members =>                       -- declarationbuilder.cpp:171-220
    let q := walk s members
    let s := close q.1 type
    (s, q.2 ++ [(id, s.last)])
  | .constant id doc value =>
    let r := classConstant s id doc value
    (r.1, [r.2])
  | .typedProps doc hint vars => typedProperties s doc hint vars
  | .props doc vars => properties s doc vars
  | .traitUse doc aliases imports =>                -- typebuilder.cpp:338-345, declarationbuilder.cpp:382-385
    let r := parseDoc s doc
    let a := given r.1 aliases
    let b := given (afterDoc a.1) imports
    (b.1, a.2 ++ b.2)

/-- The builder at the beginning of a file (typebuilder.cpp:35-36). -/
def start : St := ⟨false, false, none⟩

/-! ### Specification: what the text of a declaration says about its type -/

/-- The type a comment names. -/
def Doc.says : Doc → Option T
  | .none => Option.none
  | .this owner => owner
  | .type t => some t

/-- The comment is not `$this`. -/
def Doc.Plain : Doc → Prop
  | .this _ => False
  | _ => True

/-- The type of an expression with a comment before it. -/
def valueType (doc : Doc) (value : Option T) : T := (doc.says.or value).getD mixed

/-- The type of a property without a comment: the type of its value, or null. -/
def varOwn : Option (Doc × Option T) → T
  | some (d, t) => valueType d t
  | none => null

/-- A declaration, the type its own text gives it, and whether the builder is sure to find it. -/
structure Entry where
  id : Nat
  own : T
  sure : Prop

/-- The alternatives of a `catch`. -/
def catchOwn (first : Option T) (more : List (Option T)) : T :=
  if more.isEmpty then first.getD mixed else ⟨.unsure (addTypes [] (((first :: more).filterMap id).map (·.ty))), false⟩

/-- Does the comment evaluated last name a type, behind a part, if `stale` tells so before it?  A class constant evaluates no comment behind such a one. -/
def docLeft (stale : Bool) : Code → Bool
  | .empty => stale
  | .seq a b => docLeft (docLeft stale a) b
  | .assign _ doc _ inner => docLeft doc.says.isSome inner
  | .eval doc _ => doc.says.isSome
  | .staticVar _ value =>
    match value with
    | some v => v.1.says.isSome
    | none => stale
  | .foreach _ _ _ body => docLeft stale body
  | .catchItem _ _ _ body => docLeft stale body
  | .func _ doc _ _ body => docLeft doc.says.isSome body
  | .klass _ _ members => docLeft stale members
  | .constant _ doc _ => stale || doc.says.isSome
  | .typedProps .. => false
  | .props .. => false
  | .traitUse .. => false

/-- The declarations of a part in the order of the walk.  `stale`: the comment evaluated last before it names a type.  Not sure are: class constants behind such a
comment, a `catch` with one class that is not known, the key of a
`foreach`, properties with `@var $this`, and properties behind a value with a comment of its own in the same statement. -/
def entries (stale : Bool) : Code → List Entry
  | .empty => []
  | .seq a b => entries stale a ++ entries (docLeft stale a) b
  | .assign id doc value inner => entries doc.says.isSome inner ++ [⟨id, valueType doc value, True⟩]
  | .eval _ inner => entries stale inner
  | .staticVar id value => [⟨id, match value with | some (d, v) => valueType d v | none => mixed, True⟩]
  | .foreach value key elem body => entries stale body ++ ⟨value, elem, True⟩ :: key.toList.map fun i => ⟨i, mixed, False⟩
  | .catchItem id first more body => entries stale body ++ [⟨id, catchOwn first more, more ≠ [] ∨ first.isSome⟩]
  | .func id doc params type body =>
    (params.map fun p => ⟨p.1, p.2, True⟩) ++ entries doc.says.isSome body ++ [⟨id, type, True⟩]
  | .klass id type members => entries stale members ++ [⟨id, type, True⟩]
  | .constant id doc value => [⟨id, { valueType doc value with const := true }, stale = false⟩]
  | .typedProps doc hint vars => vars.map fun i => ⟨i, (hint.or doc.says).getD mixed, True⟩
  | .props doc vars => vars.map fun v =>
      ⟨v.1, match doc.says with
            | some t => t
            | none => varOwn v.2,
       doc.Plain ∧ (doc.says = none → ∀ w ∈ vars, ∀ d t, w.2 = some (d, t) → d.says = none)⟩
  | .traitUse _ aliases imports => (aliases.map fun p => ⟨p.1, p.2, True⟩) ++ imports.map fun p => ⟨p.1, p.2, True⟩

/-- The declaration is the one of the entry, and has the type of its text if the entry is sure. -/
def Matches (e : Entry) (d : Decl) : Prop := d.1 = e.id ∧ (e.sure → d.2 = some e.own)

/-! ### Proofs -/

/-- Lists of the same length, element by element. -/
inductive All₂ {α β : Type} (R : α → β → Prop) : List α → List β → Prop
  | nil : All₂ R [] []
  | cons {a b as bs} : R a b → All₂ R as bs → All₂ R (a :: as) (b :: bs)

theorem All₂.append {α β : Type} {R : α → β → Prop} {as as' : List α} {bs bs' : List β} (h : All₂ R as bs) (h' : All₂ R as' bs') :
    All₂ R (as ++ as') (bs ++ bs') := by
  induction h with
  | nil => exact h'
  | cons hr _ ih => exact .cons hr ih

theorem parseDoc_flag (s : St) (d : Doc) : (parseDoc s d).1.gotDoc = d.says.isSome ∧ (parseDoc s d).1.gotHint = s.gotHint ∧ (parseDoc s d).2 = d.says := by
  cases d <;> exact ⟨rfl, rfl, rfl⟩

theorem getType_spec (s : St) (d : Doc) (v : Option T) : (getType s d v).1.gotDoc = d.says.isSome ∧ (getType s d v).1.gotHint = s.gotHint ∧
    (getType s d v).2 = valueType d v := by
  obtain ⟨h1, h2, h3⟩ := parseDoc_flag s d
  refine ⟨h1, h2, ?_⟩
  simp only [getType, h3, valueType]

theorem given_spec : ∀ (ps : List (Nat × T)) (s : St), (given s ps).1.gotDoc = s.gotDoc ∧ (given s ps).1.gotHint = s.gotHint ∧
    All₂ Matches (ps.map fun p => (⟨p.1, p.2, True⟩ : Entry)) (given s ps).2
  | [], s => ⟨rfl, rfl, .nil⟩
  | (i, t) :: ps, s => by
    obtain ⟨h1, h2, h3⟩ := given_spec ps (close s t)
    exact ⟨h1, h2, .cons ⟨rfl, fun _ => rfl⟩ h3⟩

theorem afterDoc_spec (s : St) : (afterDoc s).gotDoc = false ∧ (afterDoc s).gotHint = s.gotHint := by
  unfold afterDoc
  split
  · exact ⟨rfl, rfl⟩
  · rename_i h; exact ⟨by simpa using h, rfl⟩

/-- With a type hint or a comment the variables get the type closed before. -/
theorem classVariables_fixed {s : St} (h : s.gotDoc = true ∨ s.gotHint = true) : ∀ vs : List (Nat × Option (Doc × Option T)),
    classVariables s vs = (s, vs.map fun v => (v.1, s.last))
  | [] => rfl
  | (i, v) :: vs => by
    have hc : (!s.gotDoc && !s.gotHint) = false := by rcases h with h | h <;> simp [h]
    have : classVariable s i v = (s, (i, s.last)) := by rw [classVariable.eq_def, hc]; rfl
    rw [classVariables, this]
    simp only [classVariables_fixed h vs, List.map_cons]

theorem all_map {α : Type} {f : α → Entry} {g : α → Decl} : ∀ l : List α, (∀ a ∈ l, Matches (f a) (g a)) → All₂ Matches (l.map f) (l.map g)
  | [], _ => .nil
  | a :: l, h => .cons (h a (by simp)) (all_map l fun b hb => h b (by simp [hb]))

/-- Without a comment, as long as no value has a comment. -/
theorem classVariables_free {doc : Doc} (hd : doc.says = none) (all : List (Nat × Option (Doc × Option T))) : ∀ (vs : List (Nat × Option (Doc × Option T))) (s : St), s.gotHint = false →
    (s.gotDoc = false ∨ ∃ w ∈ all, ∃ d t, w.2 = some (d, t) ∧ d.says ≠ none) → (∀ w ∈ vs, w ∈ all) →
    (classVariables s vs).1.gotHint = false ∧ All₂ Matches (vs.map fun v =>
      (⟨v.1, match doc.says with
            | some t => t
            | none => varOwn v.2,
       doc.Plain ∧ (doc.says = none → ∀ w ∈ all, ∀ d t, w.2 = some (d, t) → d.says = none)⟩ : Entry)) (classVariables s vs).2
  | [], s, hh, _, _ => ⟨hh, .nil⟩
  | (i, v) :: vs, s, hh, hs, hall => by
    rw [classVariables]
    have key : (classVariable s i v).1.gotHint = false ∧
        ((classVariable s i v).1.gotDoc = false ∨ ∃ w ∈ all, ∃ d t, w.2 = some (d, t) ∧ d.says ≠ none) ∧
        (classVariable s i v).2.1 = i ∧ ((∀ w ∈ all, ∀ d t, w.2 = some (d, t) → d.says = none) →
          (classVariable s i v).2.2 = some (varOwn v)) := by
      unfold classVariable
      split
      · cases v with
        | none =>
          refine ⟨hh, ?_, rfl, fun _ => rfl⟩
          exact hs
        | some w =>
          obtain ⟨d, t⟩ := w
          obtain ⟨h1, h2, h3⟩ := getType_spec s d t
          refine ⟨h2.trans hh, ?_, rfl, fun _ => ?_⟩
          · cases hds : d.says with
            | none => left; show (getType s d t).1.gotDoc = false; rw [h1, hds]; rfl
            | some x => right; exact ⟨(i, some (d, t)), hall _ (by simp), d, t, rfl, by rw [hds]; simp⟩
          · show some (getType s d t).2 = _; rw [h3]; rfl
      · rename_i hc
        have hd' : s.gotDoc = true := by simpa [hh] using hc
        refine ⟨hh, hs, rfl, fun hno => ?_⟩
        rcases hs with hs | ⟨w, hw, d, t, h1, h2⟩
        · rw [hd'] at hs; cases hs
        · exact absurd (hno w hw d t h1) h2
    obtain ⟨k1, k2, k3, k4⟩ := key
    obtain ⟨r1, r2⟩ := classVariables_free hd all vs (classVariable s i v).1 k1 k2 (fun w hw => hall w (by simp [hw]))
    refine ⟨r1, .cons ⟨k3, fun hsure => ?_⟩ r2⟩
    simp only [hd] at hsure ⊢
    exact k4 (hsure.2 trivial)

theorem properties_spec {s : St} (hh : s.gotHint = false) (doc : Doc) (vars : List (Nat × Option (Doc × Option T))) :
    (properties s doc vars).1.gotDoc = false ∧ (properties s doc vars).1.gotHint = false ∧
    All₂ Matches (entries s.gotDoc (.props doc vars)) (properties s doc vars).2 := by
  obtain ⟨h1, h2, h3⟩ := parseDoc_flag s doc
  unfold properties
  obtain ⟨a1, a2⟩ := afterDoc_spec (classVariables (parseDoc s doc).1 vars).1
  cases hd : doc.says with
  | none =>
    obtain ⟨r1, r2⟩ := classVariables_free hd vars vars (parseDoc s doc).1 (h2.trans hh) (.inl (by rw [h1, hd]; rfl)) (fun _ h => h)
    exact ⟨a1, a2.trans r1, r2⟩
  | some t =>
    have hf := classVariables_fixed (s := (parseDoc s doc).1) (.inl (by rw [h1, hd]; rfl)) vars
    refine ⟨a1, ?_, ?_⟩
    · rw [a2, hf]; exact h2.trans hh
    · simp only [hf, entries]
      apply all_map
      intro v _
      refine ⟨rfl, fun hsure => ?_⟩
      simp only [hd]
      cases doc with
      | none => cases hd
      | this o => exact absurd hsure.1 (by simp [Doc.Plain])
      | type t' => cases hd; rfl

theorem typedProperties_spec (s : St) (doc : Doc) (hint : Option T) (vars : List Nat) :
    (typedProperties s doc hint vars).1.gotDoc = false ∧ (typedProperties s doc hint vars).1.gotHint = false ∧
    All₂ Matches (entries s.gotDoc (.typedProps doc hint vars)) (typedProperties s doc hint vars).2 := by
  obtain ⟨h1, h2, h3⟩ := parseDoc_flag { s with gotHint := true } doc
  unfold typedProperties
  have hf := classVariables_fixed (s := close (parseDoc { s with gotHint := true } doc).1 ((hint.or (parseDoc { s with gotHint := true } doc).2).getD mixed))
    (.inr h2) (vars.map fun i => (i, none))
  simp only [hf]
  refine ⟨(afterDoc_spec _).1, (afterDoc_spec _).2, ?_⟩
  rw [entries, List.map_map]
  apply all_map
  intro i _
  exact ⟨rfl, fun _ => by simp [close, h3]⟩

/-- **C67.**  Every declaration has the type its own text gives it, whatever stands before – but for the cases named in `entries`; and which comment was seen last
is what is left over. -/
theorem walk_types : ∀ (c : Code) (s : St), s.gotHint = false →
    (walk s c).1.gotHint = false ∧ (walk s c).1.gotDoc = docLeft s.gotDoc c ∧ All₂ Matches (entries s.gotDoc c) (walk s c).2
  | .empty, s, hh => ⟨hh, rfl, .nil⟩
  | .seq a b, s, hh => by
    obtain ⟨a1, a2, a3⟩ := walk_types a s hh
    obtain ⟨b1, b2, b3⟩ := walk_types b (walk s a).1 a1
    refine ⟨b1, ?_, ?_⟩
    · simp only [walk, b2, a2, docLeft]
    · rw [a2] at b3
      exact a3.append b3
  | .assign id doc value inner, s, hh => by
    obtain ⟨h1, h2, h3⟩ := getType_spec s doc value
    obtain ⟨a1, a2, a3⟩ := walk_types inner (getType s doc value).1 (h2.trans hh)
    refine ⟨a1, ?_, ?_⟩
    · show (walk (getType s doc value).1 inner).1.gotDoc = _
      rw [a2, h1, docLeft]
    · rw [h1] at a3
      refine a3.append (.cons ⟨rfl, fun _ => ?_⟩ .nil)
      show some (getType s doc value).2 = _
      rw [h3]
  | .eval doc inner, s, hh => by
    obtain ⟨a1, a2, a3⟩ := walk_types inner s hh
    obtain ⟨h1, h2, h3⟩ := parseDoc_flag (walk s inner).1 doc
    exact ⟨h2.trans a1, h1, a3⟩
  | .staticVar id value, s, hh => by
    cases value with
    | none => exact ⟨hh, rfl, .cons ⟨rfl, fun _ => rfl⟩ .nil⟩
    | some v =>
      obtain ⟨d, v⟩ := v
      obtain ⟨h1, h2, h3⟩ := getType_spec s d v
      refine ⟨h2.trans hh, h1, .cons ⟨rfl, fun _ => ?_⟩ .nil⟩
      show some (getType s d v).2 = _
      rw [h3]
  | .foreach value key elem body, s, hh => by
    obtain ⟨a1, a2, a3⟩ := walk_types body s hh
    exact ⟨a1, a2, a3.append (.cons ⟨rfl, fun _ => rfl⟩ (all_map _ fun i _ => ⟨rfl, fun h => h.elim⟩))⟩
  | .catchItem id first more body, s, hh => by
    obtain ⟨a1, a2, a3⟩ := walk_types body s hh
    have hc : (catchType (walk s body).1 first more).gotHint = (walk s body).1.gotHint ∧ (catchType (walk s body).1 first more).gotDoc = (walk s body).1.gotDoc ∧
        (more ≠ [] ∨ first.isSome → (catchType (walk s body).1 first more).last = some (catchOwn first more)) := by
      unfold catchType catchOwn
      cases more with
      | nil =>
        cases first with
        | none => exact ⟨rfl, rfl, by simp⟩
        | some t => exact ⟨rfl, rfl, fun _ => rfl⟩
      | cons m ms => exact ⟨rfl, rfl, fun _ => rfl⟩
    exact ⟨hc.1.trans a1, hc.2.1.trans a2, a3.append (.cons ⟨rfl, hc.2.2⟩ .nil)⟩
  | .func id doc params type body, s, hh => by
    obtain ⟨h1, h2, h3⟩ := parseDoc_flag s doc
    obtain ⟨p1, p2, p3⟩ := given_spec params (parseDoc s doc).1
    obtain ⟨a1, a2, a3⟩ := walk_types body (given (parseDoc s doc).1 params).1 (p2.trans (h2.trans hh))
    refine ⟨a1, ?_, ?_⟩
    · show (walk _ body).1.gotDoc = _
      rw [a2, p1, h1, docLeft]
    · rw [p1, h1] at a3
      exact (p3.append a3).append (.cons ⟨rfl, fun _ => rfl⟩ .nil)
  | .klass id type members, s, hh => by
    obtain ⟨a1, a2, a3⟩ := walk_types members s hh
    exact ⟨a1, a2, a3.append (.cons ⟨rfl, fun _ => rfl⟩ .nil)⟩
  | .constant id doc value, s, hh => by
    cases hg : s.gotDoc with
    | false =>
      obtain ⟨h1, h2, h3⟩ := getType_spec s doc value
      have hc : walk s (.constant id doc value) = (close (getType s doc value).1 { (getType s doc value).2 with const := true },
          [(id, some { (getType s doc value).2 with const := true })]) := by
        simp [walk, classConstant, hg, close]
      rw [hc]
      refine ⟨h2.trans hh, by simpa [docLeft, close] using h1, .cons ⟨rfl, fun _ => ?_⟩ .nil⟩
      rw [h3]
    | true =>
      have hc : walk s (.constant id doc value) = (s, [(id, s.last)]) := by simp [walk, classConstant, hg]
      rw [hc]
      exact ⟨hh, by simp [docLeft, hg], .cons ⟨rfl, fun h => by simp at h⟩ .nil⟩
  | .typedProps doc hint vars, s, hh => by
    obtain ⟨h1, h2, h3⟩ := typedProperties_spec s doc hint vars
    exact ⟨h2, h1, h3⟩
  | .props doc vars, s, hh => by
    obtain ⟨h1, h2, h3⟩ := properties_spec hh doc vars
    exact ⟨h2, h1, h3⟩
  | .traitUse doc aliases imports, s, hh => by
    obtain ⟨h1, h2, h3⟩ := parseDoc_flag s doc
    obtain ⟨p1, p2, p3⟩ := given_spec aliases (parseDoc s doc).1
    obtain ⟨d1, d2⟩ := afterDoc_spec (given (parseDoc s doc).1 aliases).1
    obtain ⟨q1, q2, q3⟩ := given_spec imports (afterDoc (given (parseDoc s doc).1 aliases).1)
    exact ⟨q2.trans (d2.trans (p2.trans (h2.trans hh))), q1.trans d1, p3.append q3⟩

/-- **C67.**  In a file, every declaration has the type its own text gives it, but for the cases named in `entries`. -/
theorem file_types (c : Code) : All₂ Matches (entries false c) (walk start c).2 := (walk_types c start rfl).2.2

/-- **C67 (finding).**  A class constant behind a method with `@return` in its comment and nothing evaluated in its body – an abstract method, a method of an
interface – has the type of the method and is not constant; so have all constants of the statements that follow immediately. -/
theorem constants_behind_method {id : Nat} {doc : Doc} {params : List (Nat × T)} {t : T} (h : doc.says.isSome) (s : St) (cs : List (Nat × Doc × Option T)) :
    ∃ ds, (walk s (.seq (.func id doc params t .empty) (cs.foldr (fun c r => .seq (.constant c.1 c.2.1 c.2.2) r) .empty))).2 =
      ds ++ (id, some t) :: cs.map fun c => (c.1, some t) := by
  refine ⟨(given (parseDoc s doc).1 params).2, ?_⟩
  have key : ∀ (cs : List (Nat × Doc × Option T)) (s : St), s.gotDoc = true → s.last = some t →
      (walk s (cs.foldr (fun c r => .seq (.constant c.1 c.2.1 c.2.2) r) .empty)).2 = cs.map fun c => (c.1, some t) := by
    intro cs
    induction cs with
    | nil => intros; rfl
    | cons c cs ih =>
      intro s h1 h2
      have hc : walk s (.constant c.1 c.2.1 c.2.2) = (s, [(c.1, some t)]) := by simp [walk, classConstant, h1, h2]
      simp only [List.foldr_cons, walk.eq_2, hc, ih s h1 h2, List.map_cons, List.singleton_append]
  have hg : (given (parseDoc s doc).1 params).1.gotDoc = true := by
    rw [(given_spec params _).1, (parseDoc_flag s doc).1, h]
  have := key cs (close (given (parseDoc s doc).1 params).1 t) hg rfl
  simp only [walk.eq_2]
  show ((given (parseDoc s doc).1 params).2 ++ [] ++ [(id, some t)]) ++ _ = _
  have hw : (walk s (.func id doc params t .empty)).1 = close (given (parseDoc s doc).1 params).1 t := rfl
  rw [hw, this]
  simp

/-- **C67 (finding).**  The variable of a `catch` with one class that is not known has the type closed last in its block, that of the last assignment, say. -/
theorem catch_unknown (s : St) (id : Nat) (body : Code) : (walk s (.catchItem id none [] body)).2 = (walk s body).2 ++ [(id, (walk s body).1.last)] := rfl

theorem catch_unknown_assign (s : St) (id x : Nat) (doc : Doc) (v : Option T) (b : Code) :
    (walk s (.catchItem id none [] (.seq b (.assign x doc v .empty)))).2 =
      (walk s (.seq b (.assign x doc v .empty))).2 ++ [(id, some (valueType doc v))] := by
  rw [catch_unknown, ← (getType_spec (walk s b).1 doc v).2.2]
  rfl

/-- **C67 (finding).**  The key of a `foreach` has the type of the elements. -/
theorem foreach_key (s : St) (v k : Nat) (e : T) (body : Code) :
    (walk s (.foreach v (some k) e body)).2 = (walk s body).2 ++ [(v, some e), (k, some e)] := rfl

/-- **C67 (finding).**  A property with `@var $this` has the type closed before, whatever it is. -/
theorem this_property (s : St) (x : Nat) (owner : T) : (walk s (.props (.this (some owner)) [(x, none)])).2 = [(x, s.last)] := by
  simp [walk, properties, parseDoc, classVariables, classVariable]

/-! ### A file

    interface I { /** @return int */ function m(int $p); const A = 1; public $x = 'a', $y; /** @var I */ public $z; const B = 2; }
    try { } catch (Unknown $e) { $s = 'x'; }
    foreach ($l as $k => $v) { } -/

def int : T := ⟨.integral .int, false⟩
def str : T := ⟨.integral .string, false⟩
def iI : T := ⟨.struct 0, false⟩
def fn : T := ⟨.func 1, false⟩

def exFile : Code :=
  .seq (.klass 0 iI (.seq (.func 1 (.type int) [(2, int)] fn .empty) (.seq (.constant 3 .none (some int)) (.seq (.props .none [(4, some (.none, some str)), (5, none)])
    (.seq (.props (.type iI) [(6, none)]) (.constant 7 .none (some int)))))))
  (.seq (.catchItem 8 none [] (.assign 9 .none (some str) .empty)) (.foreach 10 (some 11) int .empty))

-- `A` has the type of `m`, `$e` is a string, `$k` has the type of the elements
example : (walk start exFile).2 = [(2, some int), (1, some fn), (3, some fn), (4, some str), (5, some null), (6, some iI), (7, some ⟨.integral .int, true⟩),
    (0, some iI), (9, some str), (8, some str), (10, some int), (11, some int)] := by decide +kernel
example : (entries false exFile).map (fun e => (e.id, e.own)) = [(2, int), (1, fn), (3, ⟨.integral .int, true⟩), (4, str), (5, null), (6, iI), (7, ⟨.integral .int, true⟩),
    (0, iI), (9, str), (8, mixed), (10, int), (11, mixed)] := by decide +kernel

end KPhp.DeclTypes
