import Verif.Duchain.UseStatements
/-!
# Which variable an assignment, a `list()` element or an argument declares (C73, C74)

Models the search for "the" variable of an expression: `m_findVariable`, `getVariableIdentifier`, `visitAssignmentExpression`, `visitVariable`,
`visitFunctionCall` (without `define`), `visitFunctionCallParameterList`, `visitFunctionCallParameterListElement`, `visitAssignmentListElement`, and
from `visitAssignmentExpressionEqual` and `declareFoundVariable` what variable they are about
(duchain/builders/declarationbuilder.cpp:49-119, 985-1005, 1192, 1273, 1297-1330, 1362-1440).

What is then declared for such a variable, and where, is the subject of `Variables.lean`, `VariableScopes.lean`, `MemberDecls.lean`.  Simplified: of the syntax tree, only the nodes those functions
treat are kept, all others are the sequence of their children; a name that is not there (`$$x`, `$o->{$e}`) is `none`; `m_findVariable.node` is
set exactly if the identifier is; what stands before the parentheses of a call is visited before the
arguments (for `C::$f(…)` the generated visitor takes them the other way round, which matters for the order of what comes out only).  The file of PHP's internal functions, in which calls are not looked up, is left out.
-/
namespace KPhp.VariableSearch
open Names

/-- What stands before the first `->` of a `VariableAst` (`var->baseVariable`). -/
inductive Base
  /-- `$x`, `$$x` (no name), with or without `[…]` behind it -/
  | var (name : Option QString) (offset : Bool)
  /-- a call, a static member -/
  | other
deriving DecidableEq, Repr

/-- `VariableObjectPropertyAst`: one `->…`. -/
inductive Prop'
  /-- `->x`, `->{…}` (no name), called or not, with or without `[…]` (`objectDimList`) -/
  | named (name : Option QString) (offset : Bool)
  /-- `->$x` -/
  | other
deriving DecidableEq, Repr

/-- `VariableAst`. -/
structure VarAst where
  base : Base
  props : List Prop'
deriving DecidableEq, Repr

/-- `FindVariableResults` without `find` and `node` (declarationbuilder.h:113-131). -/
structure Found where
  ident : Option QString
  parent : Option QString
  isArray : Bool
deriving DecidableEq, Repr

/-- `FindVariableResults()` (declarationbuilder.cpp:49-55). -/
def Found.fresh : Found := ⟨none, none, false⟩

/-- The parent identifier, if there is at least one `->` (declarationbuilder.cpp:65-92): the last but one name. -/
def parentOf (v : VarAst) : Option QString :=
  if v.props.length = 1 then
    match v.base with
    | .var n false => n
    | _ => none
  else
    match v.props[v.props.length - 2]? with
    | some (.named n false) => n
    | _ => none

/-- `getVariableIdentifier` (declarationbuilder.cpp:57-119); the results are written over those there are. -/
def getVariableIdentifier (v : VarAst) (f : Found) : Found :=
  if v.props.isEmpty then
    match v.base with
    | .var n off => { ident := n, parent := none, isArray := off }
    | .other => { f with parent := none }
  else
    let f := { f with parent := parentOf v }
    if (parentOf v).isSome then
      match v.props[v.props.length - 1]? with
      | some (.named n off) => { f with ident := n, isArray := off }
      | _ => f
    else f

/-- What is called in a `FunctionCallAst` (php.g:666-676). -/
inductive Callee
  /-- `f(…)` -/
  | name (n : NameAst)
  /-- `C::m(…)` -/
  | static (c : NameAst) (m : QString)
  /-- `C::$f(…)`, `C::{…}(…)` -/
  | staticDynamic (c : NameAst)
  /-- `$f(…)` -/
  | dynamic
deriving DecidableEq, Repr

mutual
/-- Expressions, as far as the search looks at them. -/
inductive X
  | nil
  | seq (a b : X)
  /-- `VariableAst` with the expressions in it -/
  | variable (v : VarAst) (inside : X)
  /-- `AssignmentExpressionAst` with `=`, numbered -/
  | assign (id : Nat) (lhs rhs : X)
  /-- `AssignmentListElementAst`, numbered -/
  | element (id : Nat) (inside : X)
  /-- `FunctionCallAst`: the callee, the expressions before the parentheses, the arguments -/
  | call (c : Callee) (head : X) (as : Args)
  /-- the arguments of a method, of `new`, of a called closure: a `FunctionCallParameterListAst` without a `FunctionCallAst` -/
  | args (as : Args)
/-- `FunctionCallParameterListElementAst`s: numbered, with or without `...` -/
inductive Args
  | nil
  | cons (id : Nat) (unpacked : Bool) (e : X) (rest : Args)
end

/-- Which parameters of a function are by reference. -/
abbrev Sig := List Bool

/-- What comes out, in order. -/
inductive Event
  /-- an assignment is to this variable -/
  | assign (id : Nat) (f : Found)
  /-- this variable is declared by `list()` -/
  | element (id : Nat) (f : Found)
  /-- this variable is declared for a parameter by reference -/
  | byRef (id : Nat) (f : Found)
  /-- "Cannot use positional argument after argument unpacking" -/
  | positional (id : Nat)
deriving DecidableEq, Repr

/-- The members of `DeclarationBuilder` in question (declarationbuilder.h:132-141). -/
structure St where
  find : Bool
  found : Found
  fn : Option Sig
  prev : Option Bool
  pos : Nat
  out : List Event

/-- `m_currentFunctionType && …arguments().count() > pos && …at(pos)` is a reference (declarationbuilder.cpp:1374-1378). -/
def isByRef (fn : Option Sig) (pos : Nat) : Bool :=
  match fn with
  | some s => s.getD pos false
  | none => false

/-- The event of a found variable; an array element is not declared (declarationbuilder.cpp:1430-1431). -/
def declared (mk : Found → Event) (f : Found) : List Event :=
  if f.ident.isSome && !f.isArray then [mk f] else []

/-- `visitFunctionCallParameterListElement` behind the visit of the children (declarationbuilder.cpp:1374-1390). -/
def argEvents (id : Nat) (unpacked : Bool) (s : St) : List Event :=
  (if isByRef s.fn s.pos then declared (.byRef id) s.found else []) ++
  (if s.prev == some true && !unpacked then [.positional id] else [])

mutual
/-- The visitor.  `PushValue` sets a member and puts the old value back at the end. -/
def visit (F : Callee → Option Sig) : X → St → St
  | .nil, s => s
  | .seq a b, s => visit F b (visit F a s)
  | .variable v i, s =>                              -- declarationbuilder.cpp:997-1005
    visit F i (if s.find then { s with find := false, found := getVariableIdentifier v s.found } else s)
  | .assign id l r, s =>                             -- declarationbuilder.cpp:985-995, 1192, 1273
    let s1 := visit F r (visit F l { s with find := true, found := .fresh })
    { s1 with find := s.find, found := s.found, out := s1.out ++ (if s1.found.ident.isSome then [.assign id s1.found] else []) }
  | .element id i, s =>                              -- declarationbuilder.cpp:1414-1424
    let s1 := visit F i { s with find := true, found := .fresh }
    { s1 with find := s.find, found := s.found, out := s1.out ++ declared (.element id) s1.found }
  | .call c h as, s =>                               -- declarationbuilder.cpp:1297-1330, 1362-1368
    let s1 := visit F h { s with fn := F c }
    let s2 := visitArgs F as { s1 with prev := none, pos := 0 }
    { s2 with prev := s1.prev, pos := s1.pos, fn := s.fn }
  | .args as, s =>                                   -- declarationbuilder.cpp:1362-1368
    let s1 := visitArgs F as { s with prev := none, pos := 0 }
    { s1 with prev := s.prev, pos := s.pos }
/-- The elements of a parameter list, in order (declarationbuilder.cpp:1370-1395). -/
def visitArgs (F : Callee → Option Sig) : Args → St → St
  | .nil, s => s
  | .cons id u e rest, s =>
    let s1 := visit F e { s with find := true, found := .fresh }
    visitArgs F rest { s1 with find := s.find, found := s.found, prev := some u, pos := s1.pos + 1, out := s1.out ++ argEvents id u s1 }
end

/-- Where a statement begins; whatever a search before has left behind. -/
def start (find : Bool) (f : Found) : St := ⟨find, f, none, none, 0, []⟩

/-- The function called (declarationbuilder.cpp:1303-1325).  For `C::m(…)` a function `m` is looked up, for `C::$f(…)` a function `C`. -/
def callee (u : CharClass) (fm : Bool) (env : Env) (ctx : List Scope) (sigOf : Decl → Option Sig) (c : Callee) : Option Sig :=
  let two (id : QId) : Option Decl :=
    match findDeclaration fm env ctx id .function with
    | some d => some d
    | none => findDeclaration fm env ctx { id with global := true } .function
  match c with
  | .name n => (two (identifierForNamespace u n false)).bind sigOf
  | .static _ m => (two ⟨false, [lowerStr u m]⟩).bind sigOf
  | .staticDynamic n => (two (identifierForNamespace u n false)).bind sigOf
  | .dynamic => none

/-! ### Specification -/

/-- The written variable names this one, of that parent, as an array element or not: `$x`, `$x[…]`, `$p->x`, `$p->x[…]`, `…->p->x`, `…->p->x[…]`. -/
inductive NamesVar : VarAst → Found → Prop
  | plain (x off) : NamesVar ⟨.var (some x) off, []⟩ ⟨some x, none, off⟩
  | member (p x off) : NamesVar ⟨.var (some p) false, [.named (some x) off]⟩ ⟨some x, some p, off⟩
  | deep (b pre p x off) : NamesVar ⟨b, pre ++ [.named (some p) false, .named (some x) off]⟩ ⟨some x, some p, off⟩

/-- The expression has no variable outside of assignments, of arguments and of elements of `list()`. -/
inductive Without : X → Prop
  | nil : Without .nil
  | seq {a b} : Without a → Without b → Without (.seq a b)
  | assign {id l r} : Without (.assign id l r)
  | element {id i} : Without (.element id i)
  | call {c h as} : Without h → Without (.call c h as)
  | args {as} : Without (.args as)

/-- The expression's first variable in the order of the text, those inside of assignments, of arguments and of elements of `list()` not counted. -/
inductive First : X → VarAst → Prop
  | here {v i} : First (.variable v i) v
  | left {a b v} : First a v → First (.seq a b) v
  | right {a b v} : Without a → First b v → First (.seq a b) v
  | head {c h as v} : First h v → First (.call c h as) v

mutual
/-- `y` stands somewhere in `x`; `g` and `g'` are the functions whose arguments they stand in. -/
inductive Within (F : Callee → Option Sig) : Option Sig → X → Option Sig → X → Prop
  | refl {g x} : Within F g x g x
  | seqL {g a b g' y} : Within F g a g' y → Within F g (.seq a b) g' y
  | seqR {g a b g' y} : Within F g b g' y → Within F g (.seq a b) g' y
  | variable {g v i g' y} : Within F g i g' y → Within F g (.variable v i) g' y
  | lhs {g id l r g' y} : Within F g l g' y → Within F g (.assign id l r) g' y
  | rhs {g id l r g' y} : Within F g r g' y → Within F g (.assign id l r) g' y
  | element {g id i g' y} : Within F g i g' y → Within F g (.element id i) g' y
  | head {g c h as g' y} : Within F (F c) h g' y → Within F g (.call c h as) g' y
  | arg {g c h as g' y} : WithinArgs F (F c) as g' y → Within F g (.call c h as) g' y
  | args {g as g' y} : WithinArgs F g as g' y → Within F g (.args as) g' y
inductive WithinArgs (F : Callee → Option Sig) : Option Sig → Args → Option Sig → X → Prop
  | here {g id u e rest g' y} : Within F g e g' y → WithinArgs F g (.cons id u e rest) g' y
  | there {g id u e rest g' y} : WithinArgs F g rest g' y → WithinArgs F g (.cons id u e rest) g' y
end

/-- The list of arguments of an expression, with the function they are taken to belong to. -/
inductive ArgsOf (F : Callee → Option Sig) : Option Sig → X → Option Sig → Args → Prop
  | call {g c h as} : ArgsOf F g (.call c h as) (F c) as
  | args {g as} : ArgsOf F g (.args as) g as

/-- The argument at this place. -/
inductive At : Args → Nat → Nat → Bool → X → Prop
  | zero {id u e rest} : At (.cons id u e rest) 0 id u e
  | succ {id u e rest j id' u' e'} : At rest j id' u' e' → At (.cons id u e rest) (j + 1) id' u' e'

/-- What comes out of an expression. -/
inductive Happens (F : Callee → Option Sig) (g : Option Sig) (x : X) : Event → Prop
  /-- An assignment is to the first variable of its left side (of its right side, if the left one has none). -/
  | assign {g' id l r v f} : Within F g x g' (.assign id l r) → First (.seq l r) v → NamesVar v f → Happens F g x (.assign id f)
  /-- An element of `list()` declares its first variable, if that is no array element. -/
  | element {g' id i v f} : Within F g x g' (.element id i) → First i v → NamesVar v f → f.isArray = false → Happens F g x (.element id f)
  /-- An argument declares its first variable, if that is no array element and the parameter at this place is by reference. -/
  | byRef {g' y sig as j id u e v f} : Within F g x g' y → ArgsOf F g' y (some sig) as → At as j id u e → sig[j]? = some true →
      First e v → NamesVar v f → f.isArray = false → Happens F g x (.byRef id f)
  /-- An argument without `...` directly behind one with it is reported. -/
  | positional {g' y g'' as j id id' e e'} : Within F g x g' y → ArgsOf F g' y g'' as → At as j id' true e' → At as (j + 1) id false e →
      Happens F g x (.positional id)

/-! ### Lemmas -/

/-- The first variable, as a function. -/
def first : X → Option VarAst
  | .nil => none
  | .seq a b => (first a).or (first b)
  | .variable v _ => some v
  | .assign _ _ _ => none
  | .element _ _ => none
  | .call _ h _ => first h
  | .args _ => none

theorem without_iff : ∀ x : X, Without x ↔ first x = none
  | .nil => ⟨fun _ => rfl, fun _ => .nil⟩
  | .seq a b => by
    constructor
    · intro h; cases h with
      | seq h1 h2 => simp [first, (without_iff a).1 h1, (without_iff b).1 h2]
    · intro h
      simp only [first, Option.or_eq_none_iff] at h
      exact .seq ((without_iff a).2 h.1) ((without_iff b).2 h.2)
  | .variable v i => by
    constructor
    · intro h; cases h
    · intro h; simp [first] at h
  | .assign _ _ _ => ⟨fun _ => rfl, fun _ => .assign⟩
  | .element _ _ => ⟨fun _ => rfl, fun _ => .element⟩
  | .call c h as => by
    constructor
    · intro hw; cases hw with | call hw => exact (without_iff h).1 hw
    · intro hw; exact .call ((without_iff h).2 hw)
  | .args _ => ⟨fun _ => rfl, fun _ => .args⟩

theorem first_iff : ∀ (x : X) (v : VarAst), First x v ↔ first x = some v
  | .nil, v => by constructor <;> intro h <;> cases h
  | .seq a b, v => by
    constructor
    · intro h; cases h with
      | left h => simp [first, (first_iff a v).1 h]
      | right h1 h2 => simp [first, (without_iff a).1 h1, (first_iff b v).1 h2]
    · intro h
      cases ha : first a with
      | some w =>
        simp only [first, ha, Option.some_or] at h
        exact .left ((first_iff a v).2 (by rw [ha, h]))
      | none =>
        simp only [first, ha, Option.none_or] at h
        exact .right ((without_iff a).2 ha) ((first_iff b v).2 h)
  | .variable w i, v => by
    constructor
    · intro h; cases h; rfl
    · intro h; simp only [first, Option.some.injEq] at h; subst h; exact .here
  | .assign _ _ _, v => by constructor <;> intro h <;> cases h
  | .element _ _, v => by constructor <;> intro h <;> cases h
  | .call c h as, v => by
    constructor
    · intro hw; cases hw with | head hw => exact (first_iff h v).1 hw
    · intro hw; exact .head ((first_iff h v).2 hw)
  | .args _, v => by constructor <;> intro h <;> cases h

/-- What a search has found at its end. -/
def search (f : Found) : Option VarAst → Found
  | some v => getVariableIdentifier v f
  | none => f

mutual
/-- The events of an expression without any state. -/
def sem (F : Callee → Option Sig) (g : Option Sig) : X → List Event
  | .nil => []
  | .seq a b => sem F g a ++ sem F g b
  | .variable _ i => sem F g i
  | .assign id l r =>
    sem F g l ++ sem F g r ++
      (if (search .fresh (first (.seq l r))).ident.isSome then [.assign id (search .fresh (first (.seq l r)))] else [])
  | .element id i => sem F g i ++ declared (.element id) (search .fresh (first i))
  | .call c h as => sem F (F c) h ++ semArgs F (F c) none 0 as
  | .args as => semArgs F g none 0 as
def semArgs (F : Callee → Option Sig) (g : Option Sig) : Option Bool → Nat → Args → List Event
  | _, _, .nil => []
  | prev, pos, .cons id u e rest =>
    sem F g e ++ ((if isByRef g pos then declared (.byRef id) (search .fresh (first e)) else []) ++
      (if prev == some true && !u then [.positional id] else [])) ++ semArgs F g (some u) (pos + 1) rest
end

theorem search_or (f : Found) (a b : Option VarAst) :
    (if a.isNone then search (search f a) b else search f a) = search f (a.or b) := by
  cases a <;> simp [search]

mutual
theorem visit_eq (F : Callee → Option Sig) : ∀ (x : X) (s : St),
    visit F x s = { s with out := s.out ++ sem F s.fn x, find := s.find && (first x).isNone,
                           found := if s.find then search s.found (first x) else s.found }
  | .nil, s => by cases s; cases ‹Bool› <;> simp [visit, sem, first, search]
  | .seq a b, s => by
    rw [visit, visit_eq F a, visit_eq F b]
    obtain ⟨fi, f, g, p, q, o⟩ := s
    cases fi
    · simp [sem]
    · simp only [sem, first, List.append_assoc, Bool.true_and, if_true, St.mk.injEq, and_true]
      rw [← search_or]
      constructor
      · cases first a <;> simp
      · rfl
  | .variable v i, s => by
    obtain ⟨fi, f, g, p, q, o⟩ := s
    cases fi
    · rw [visit, visit_eq F i]; simp [sem]
    · rw [visit, visit_eq F i]; simp [sem, first, search]
  | .assign id l r, s => by
    rw [visit, visit_eq F l, visit_eq F r]
    have := search_or .fresh (first l) (first r)
    simp only [if_true, Bool.true_and, this, sem, List.append_assoc, first]
    obtain ⟨fi, f, g, p, q, o⟩ := s
    have hn : ∀ f, search f none = f := fun _ => rfl
    cases fi <;> simp only [hn, Option.isNone_none, Bool.and_self, Bool.and_true, ite_self] <;> rfl
  | .element id i, s => by
    rw [visit, visit_eq F i]
    obtain ⟨fi, f, g, p, q, o⟩ := s
    cases fi <;> simp [sem, first, search]
  | .call c h as, s => by
    rw [visit, visit_eq F h]
    obtain ⟨p, q, he⟩ := visitArgs_eq F as
      { s with fn := F c, out := s.out ++ sem F (F c) h, find := s.find && (first h).isNone, prev := none, pos := 0,
               found := if s.find then search s.found (first h) else s.found }
    simp only [he, sem, first, List.append_assoc]
  | .args as, s => by
    rw [visit]
    obtain ⟨p, q, he⟩ := visitArgs_eq F as { s with prev := none, pos := 0 }
    rw [he]
    obtain ⟨fi, f, g, p, q, o⟩ := s
    cases fi <;> simp [sem, first, search]
theorem visitArgs_eq (F : Callee → Option Sig) : ∀ (as : Args) (s : St),
    ∃ p q, visitArgs F as s = { s with out := s.out ++ semArgs F s.fn s.prev s.pos as, prev := p, pos := q }
  | .nil, s => ⟨s.prev, s.pos, by simp [visitArgs, semArgs]⟩
  | .cons id u e rest, s => by
    rw [visitArgs, visit_eq F e]
    obtain ⟨p, q, he⟩ := visitArgs_eq F rest
      { s with prev := some u, pos := s.pos + 1,
               out := (s.out ++ sem F s.fn e) ++ ((if isByRef s.fn s.pos then declared (.byRef id) (search .fresh (first e)) else []) ++
                 (if s.prev == some true && !u then [.positional id] else [])) }
    refine ⟨p, q, ?_⟩
    simp only [argEvents, if_true]
    rw [he]
    simp [semArgs]
end

/-- What a node itself brings about. -/
inductive Own (F : Callee → Option Sig) (g : Option Sig) : X → Event → Prop
  | assign {id l r v f} : First (.seq l r) v → NamesVar v f → Own F g (.assign id l r) (.assign id f)
  | element {id i v f} : First i v → NamesVar v f → f.isArray = false → Own F g (.element id i) (.element id f)
  | byRef {y sig as j id u e v f} : ArgsOf F g y (some sig) as → At as j id u e → sig[j]? = some true →
      First e v → NamesVar v f → f.isArray = false → Own F g y (.byRef id f)
  | positional {y g' as j id id' e e'} : ArgsOf F g y g' as → At as j id' true e' → At as (j + 1) id false e → Own F g y (.positional id)

theorem happens_iff {F : Callee → Option Sig} {g : Option Sig} {x : X} {e : Event} :
    Happens F g x e ↔ ∃ g' y, Within F g x g' y ∧ Own F g' y e := by
  constructor
  · intro h
    cases h with
    | assign h1 h2 h3 => exact ⟨_, _, h1, .assign h2 h3⟩
    | element h1 h2 h3 h4 => exact ⟨_, _, h1, .element h2 h3 h4⟩
    | byRef h1 h2 h3 h4 h5 h6 h7 => exact ⟨_, _, h1, .byRef h2 h3 h4 h5 h6 h7⟩
    | positional h1 h2 h3 h4 => exact ⟨_, _, h1, .positional h2 h3 h4⟩
  · rintro ⟨g', y, h1, h⟩
    cases h with
    | assign h2 h3 => exact .assign h1 h2 h3
    | element h2 h3 h4 => exact .element h1 h2 h3 h4
    | byRef h2 h3 h4 h5 h6 h7 => exact .byRef h1 h2 h3 h4 h5 h6 h7
    | positional h2 h3 h4 => exact .positional h1 h2 h3 h4

theorem namesVar_iff (v : VarAst) (f : Found) : NamesVar v f ↔ (getVariableIdentifier v .fresh = f ∧ f.ident.isSome = true) := by
  constructor
  · intro h
    cases h with
    | plain x off => exact ⟨rfl, rfl⟩
    | member p x off => exact ⟨rfl, rfl⟩
    | deep b pre p x off =>
      refine ⟨?_, rfl⟩
      have hp : parentOf ⟨b, pre ++ [.named (some p) false, .named (some x) off]⟩ = some p := by
        simp [parentOf]
      have he : (pre ++ [Prop'.named (some p) false, .named (some x) off]).isEmpty = false := by cases pre <;> rfl
      simp [getVariableIdentifier, he, hp]
  · rintro ⟨rfl, hs⟩
    obtain ⟨b, ps⟩ := v
    rcases List.eq_nil_or_concat ps with rfl | ⟨pre, l, rfl⟩
    · cases b with
      | var n off =>
        cases n with
        | none => simp [getVariableIdentifier] at hs
        | some x => exact .plain x off
      | other => simp [getVariableIdentifier, Found.fresh] at hs
    · have he : (pre ++ [l]).isEmpty = false := by cases pre <;> rfl
      simp only [List.concat_eq_append, getVariableIdentifier, he] at hs ⊢
      cases hp : parentOf ⟨b, pre ++ [l]⟩ with
      | none => simp [hp, Found.fresh] at hs
      | some p =>
        cases l with
        | other => simp [hp, Found.fresh] at hs
        | named n off =>
          cases n with
          | none => simp [hp] at hs
          | some x =>
            simp only [Option.isSome_some, if_true, List.length_append, List.length_cons, List.length_nil, Nat.zero_add,
              Nat.add_sub_cancel, Found.fresh]
            simp
            rcases List.eq_nil_or_concat pre with rfl | ⟨pre', l', rfl⟩
            · cases b with
              | other => simp [parentOf] at hp
              | var m off' =>
                cases off' with
                | true => simp [parentOf] at hp
                | false =>
                  simp only [parentOf, List.nil_append, List.length_cons, List.length_nil, Nat.zero_add, if_true] at hp
                  subst hp
                  exact .member p x off
            · have hl : l' = .named (some p) false := by
                simp only [parentOf, List.concat_eq_append, List.append_assoc, List.cons_append, List.nil_append, List.length_append,
                  List.length_cons, List.length_nil] at hp
                have h1 : pre'.length + (0 + 1 + 1) ≠ 1 := by omega
                rw [if_neg h1] at hp
                have h2 : (pre' ++ [l', Prop'.named (some x) off])[pre'.length + (0 + 1 + 1) - 2]? = some l' := by simp
                rw [h2] at hp
                cases l' with
                | other => simp at hp
                | named m off' => cases off' with
                  | true => simp at hp
                  | false => simp only at hp; rw [hp]
              subst hl
              have : pre'.concat (.named (some p) false) ++ [Prop'.named (some x) off] =
                  pre' ++ [.named (some p) false, .named (some x) off] := by simp
              rw [this]
              exact .deep b pre' p x off


theorem declared_mem {mk : Found → Event} {o : Option VarAst} {e : Event} :
    e ∈ declared mk (search .fresh o) ↔ ∃ v f, o = some v ∧ NamesVar v f ∧ f.isArray = false ∧ e = mk f := by
  cases o with
  | none => simp [declared, search, Found.fresh]
  | some v =>
    rw [show search .fresh (some v) = getVariableIdentifier v .fresh from rfl]
    constructor
    · intro h
      unfold declared at h
      by_cases hc : ((getVariableIdentifier v .fresh).ident.isSome && !(getVariableIdentifier v .fresh).isArray) = true
      · rw [if_pos hc, List.mem_singleton] at h
        simp only [Bool.and_eq_true, Bool.not_eq_true'] at hc
        exact ⟨v, _, rfl, (namesVar_iff v _).2 ⟨rfl, hc.1⟩, hc.2, h⟩
      · rw [if_neg hc] at h
        cases h
    · rintro ⟨w, f, h, hn, ha, rfl⟩
      cases h
      obtain ⟨rfl, hs⟩ := (namesVar_iff _ _).1 hn
      simp [declared, hs, ha]

theorem isByRef_iff {g : Option Sig} {j : Nat} : isByRef g j = true ↔ ∃ sig, g = some sig ∧ sig[j]? = some true := by
  cases g with
  | none => simp [isByRef]
  | some sig =>
    simp only [isByRef, List.getD_eq_getElem?_getD, Option.some.injEq, exists_eq_left']
    cases sig[j]? <;> simp

/-- The argument at this place is behind one with `...`; before the first one there is `prev`. -/
def Behind (as : Args) (prev : Option Bool) (j : Nat) : Prop :=
  (j = 0 ∧ prev = some true) ∨ ∃ j' id e, j = j' + 1 ∧ At as j' id true e

/-- What the arguments themselves bring about, the first one being at `pos`. -/
def OwnArgs (g : Option Sig) (prev : Option Bool) (pos : Nat) (as : Args) (e : Event) : Prop :=
  ∃ j id u x, At as j id u x ∧
    ((∃ sig v f, g = some sig ∧ sig[pos + j]? = some true ∧ First x v ∧ NamesVar v f ∧ f.isArray = false ∧ e = .byRef id f) ∨
     (Behind as prev j ∧ u = false ∧ e = .positional id))

theorem ownArgs_nil {g : Option Sig} {prev : Option Bool} {pos : Nat} {e : Event} : ¬ OwnArgs g prev pos .nil e := by
  rintro ⟨j, id, u, x, h, _⟩; cases h

theorem ownArgs_cons {g : Option Sig} {prev : Option Bool} {pos : Nat} {id : Nat} {u : Bool} {x : X} {rest : Args} {e : Event} :
    OwnArgs g prev pos (.cons id u x rest) e ↔
      (∃ sig v f, g = some sig ∧ sig[pos]? = some true ∧ First x v ∧ NamesVar v f ∧ f.isArray = false ∧ e = .byRef id f) ∨
      (prev = some true ∧ u = false ∧ e = .positional id) ∨ OwnArgs g (some u) (pos + 1) rest e := by
  constructor
  · rintro ⟨j, i, w, y, hat, h⟩
    cases hat with
    | zero =>
      rcases h with h | ⟨hb, hu, he⟩
      · exact Or.inl h
      · refine Or.inr (Or.inl ⟨?_, hu, he⟩)
        rcases hb with ⟨_, h⟩ | ⟨j', _, _, h, _⟩
        · exact h
        · omega
    | succ hat =>
      rename_i j
      refine Or.inr (Or.inr ⟨j, i, w, y, hat, ?_⟩)
      rcases h with ⟨sig, v, f, h1, h2, h3⟩ | ⟨hb, hu, he⟩
      · exact Or.inl ⟨sig, v, f, h1, by rw [← h2]; congr 1; omega, h3⟩
      · refine Or.inr ⟨?_, hu, he⟩
        rcases hb with ⟨h, _⟩ | ⟨j', i', e', h, hat'⟩
        · omega
        · have : j' = j := by omega
          subst this
          cases hat' with
          | zero => exact Or.inl ⟨rfl, rfl⟩
          | succ h => exact Or.inr ⟨_, _, _, rfl, h⟩
  · rintro (h | ⟨h1, h2, h3⟩ | ⟨j, i, w, y, hat, h⟩)
    · exact ⟨0, id, u, x, .zero, Or.inl h⟩
    · exact ⟨0, id, u, x, .zero, Or.inr ⟨Or.inl ⟨rfl, h1⟩, h2, h3⟩⟩
    · refine ⟨j + 1, i, w, y, .succ hat, ?_⟩
      rcases h with ⟨sig, v, f, h1, h2, h3⟩ | ⟨hb, hu, he⟩
      · exact Or.inl ⟨sig, v, f, h1, by rw [← h2]; congr 1; omega, h3⟩
      · refine Or.inr ⟨?_, hu, he⟩
        rcases hb with ⟨h, h'⟩ | ⟨j', i', e', h, hat'⟩
        · subst h
          simp only [Option.some.injEq] at h'
          subst h'
          exact Or.inr ⟨0, _, _, rfl, .zero⟩
        · subst h
          exact Or.inr ⟨j' + 1, _, _, rfl, .succ hat'⟩

theorem argsOf_unique {F : Callee → Option Sig} {g a b : Option Sig} {y : X} {as bs : Args} (ha : ArgsOf F g y a as)
    (hb : ArgsOf F g y b bs) : a = b ∧ as = bs := by
  cases ha with
  | call => generalize hc : F _ = o at hb; cases hb; exact ⟨hc.symm, rfl⟩
  | args => cases hb; exact ⟨rfl, rfl⟩

theorem ownArgs_own {F : Callee → Option Sig} {g g' : Option Sig} {y : X} {as : Args} {e : Event} (ha : ArgsOf F g y g' as) :
    OwnArgs g' none 0 as e ↔ Own F g y e := by
  constructor
  · rintro ⟨j, id, u, x, hat, h⟩
    rcases h with ⟨sig, v, f, rfl, h2, h3, h4, h5, rfl⟩ | ⟨hb, rfl, rfl⟩
    · exact .byRef ha hat (by simpa using h2) h3 h4 h5
    · rcases hb with ⟨_, h⟩ | ⟨j', i', e', rfl, hat'⟩
      · cases h
      · exact .positional ha hat' hat
  · intro h
    cases h with
    | assign => cases ha
    | element => cases ha
    | byRef h1 h2 h3 h4 h5 h6 =>
      obtain ⟨h, rfl⟩ := argsOf_unique ha h1
      exact ⟨_, _, _, _, h2, Or.inl ⟨_, _, _, h, by simpa using h3, h4, h5, h6, rfl⟩⟩
    | positional h1 h2 h3 =>
      obtain ⟨_, rfl⟩ := argsOf_unique ha h1
      exact ⟨_, _, _, _, h3, Or.inr ⟨Or.inr ⟨_, _, _, rfl, h2⟩, rfl, rfl⟩⟩

mutual
theorem sem_mem (F : Callee → Option Sig) : ∀ (x : X) (g : Option Sig) (e : Event),
    e ∈ sem F g x ↔ ∃ g' y, Within F g x g' y ∧ Own F g' y e
  | .nil, g, e => by
    simp only [sem, List.not_mem_nil, false_iff]
    rintro ⟨g', y, hw, ho⟩
    cases hw
    cases ho with
    | byRef h => cases h
    | positional h => cases h
  | .seq a b, g, e => by
    rw [sem, List.mem_append, sem_mem F a, sem_mem F b]
    constructor
    · rintro (⟨g', y, h, h'⟩ | ⟨g', y, h, h'⟩)
      · exact ⟨g', y, .seqL h, h'⟩
      · exact ⟨g', y, .seqR h, h'⟩
    · rintro ⟨g', y, hw, ho⟩
      cases hw with
      | refl => cases ho with
        | byRef h => cases h
        | positional h => cases h
      | seqL h => exact Or.inl ⟨_, _, h, ho⟩
      | seqR h => exact Or.inr ⟨_, _, h, ho⟩
  | .variable v i, g, e => by
    rw [sem, sem_mem F i]
    constructor
    · rintro ⟨g', y, h, h'⟩; exact ⟨g', y, .variable h, h'⟩
    · rintro ⟨g', y, hw, ho⟩
      cases hw with
      | refl => cases ho with
        | byRef h => cases h
        | positional h => cases h
      | «variable» h => exact ⟨_, _, h, ho⟩
  | .assign id l r, g, e => by
    rw [sem, List.mem_append, List.mem_append, sem_mem F l, sem_mem F r]
    have hown : e ∈ (if (search .fresh (first (.seq l r))).ident.isSome then [Event.assign id (search .fresh (first (.seq l r)))] else []) ↔
        Own F g (.assign id l r) e := by
      constructor
      · intro h
        cases hf : first (.seq l r) with
        | none => simp [hf, search, Found.fresh] at h
        | some v =>
          simp only [hf, search] at h
          split at h
          · rename_i hs
            rw [List.mem_singleton] at h
            subst h
            exact .assign ((first_iff _ _).2 hf) ((namesVar_iff _ _).2 ⟨rfl, hs⟩)
          · simp at h
      · intro h
        cases h with
        | assign h1 h2 =>
          obtain ⟨rfl, hs⟩ := (namesVar_iff _ _).1 h2
          simp [(first_iff _ _).1 h1, search, hs]
        | byRef h => cases h
        | positional h => cases h
    rw [hown]
    constructor
    · rintro ((⟨g', y, h, h'⟩ | ⟨g', y, h, h'⟩) | h)
      · exact ⟨g', y, .lhs h, h'⟩
      · exact ⟨g', y, .rhs h, h'⟩
      · exact ⟨_, _, .refl, h⟩
    · rintro ⟨g', y, hw, ho⟩
      cases hw with
      | refl => exact Or.inr ho
      | lhs h => exact Or.inl (Or.inl ⟨_, _, h, ho⟩)
      | rhs h => exact Or.inl (Or.inr ⟨_, _, h, ho⟩)
  | .element id i, g, e => by
    rw [sem, List.mem_append, sem_mem F i, declared_mem]
    constructor
    · rintro (⟨g', y, h, h'⟩ | ⟨v, f, h1, h2, h3, rfl⟩)
      · exact ⟨g', y, .element h, h'⟩
      · exact ⟨_, _, .refl, .element ((first_iff _ _).2 h1) h2 h3⟩
    · rintro ⟨g', y, hw, ho⟩
      cases hw with
      | refl => cases ho with
        | element h1 h2 h3 => exact Or.inr ⟨_, _, (first_iff _ _).1 h1, h2, h3, rfl⟩
        | byRef h => cases h
        | positional h => cases h
      | element h => exact Or.inl ⟨_, _, h, ho⟩
  | .call c h as, g, e => by
    rw [sem, List.mem_append, sem_mem F h, semArgs_mem F as, ownArgs_own (F := F) (g := g) (.call (h := h))]
    constructor
    · rintro (⟨g', y, h, h'⟩ | ⟨g', y, h, h'⟩ | h)
      · exact ⟨g', y, .head h, h'⟩
      · exact ⟨g', y, .arg h, h'⟩
      · exact ⟨_, _, .refl, h⟩
    · rintro ⟨g', y, hw, ho⟩
      cases hw with
      | refl => exact Or.inr (Or.inr ho)
      | head h => exact Or.inl ⟨_, _, h, ho⟩
      | arg h => exact Or.inr (Or.inl ⟨_, _, h, ho⟩)
  | .args as, g, e => by
    rw [sem, semArgs_mem F as, ownArgs_own (F := F) (g := g) .args]
    constructor
    · rintro (⟨g', y, h, h'⟩ | h)
      · exact ⟨g', y, .args h, h'⟩
      · exact ⟨_, _, .refl, h⟩
    · rintro ⟨g', y, hw, ho⟩
      cases hw with
      | refl => exact Or.inr ho
      | args h => exact Or.inl ⟨_, _, h, ho⟩
theorem semArgs_mem (F : Callee → Option Sig) : ∀ (as : Args) (g : Option Sig) (prev : Option Bool) (pos : Nat) (e : Event),
    e ∈ semArgs F g prev pos as ↔ (∃ g' y, WithinArgs F g as g' y ∧ Own F g' y e) ∨ OwnArgs g prev pos as e
  | .nil, g, prev, pos, e => by
    simp only [semArgs, List.not_mem_nil, ownArgs_nil, or_false, false_iff]
    rintro ⟨g', y, h, _⟩; cases h
  | .cons id u x rest, g, prev, pos, e => by
    rw [semArgs, List.mem_append, List.mem_append, List.mem_append, sem_mem F x, semArgs_mem F rest, ownArgs_cons]
    have h1 : e ∈ (if isByRef g pos = true then declared (.byRef id) (search .fresh (first x)) else []) ↔
        ∃ sig v f, g = some sig ∧ sig[pos]? = some true ∧ First x v ∧ NamesVar v f ∧ f.isArray = false ∧ e = .byRef id f := by
      constructor
      · intro h
        split at h
        · rename_i hb
          obtain ⟨sig, hs, ht⟩ := isByRef_iff.1 hb
          obtain ⟨v, f, h1, h2, h3, h4⟩ := declared_mem.1 h
          exact ⟨sig, v, f, hs, ht, (first_iff _ _).2 h1, h2, h3, h4⟩
        · simp at h
      · rintro ⟨sig, v, f, hs, ht, h1, h2, h3, h4⟩
        rw [if_pos (isByRef_iff.2 ⟨sig, hs, ht⟩)]
        exact declared_mem.2 ⟨v, f, (first_iff _ _).1 h1, h2, h3, h4⟩
    have h2 : e ∈ (if (prev == some true && !u) = true then [Event.positional id] else []) ↔
        (prev = some true ∧ u = false ∧ e = .positional id) := by
      by_cases hp : prev = some true <;> cases u <;> simp [hp]
    rw [h1, h2]
    constructor
    · rintro ((⟨g', y, h, h'⟩ | h | h) | ⟨g', y, h, h'⟩ | h)
      · exact Or.inl ⟨g', y, .here h, h'⟩
      · exact Or.inr (Or.inl h)
      · exact Or.inr (Or.inr (Or.inl h))
      · exact Or.inl ⟨g', y, .there h, h'⟩
      · exact Or.inr (Or.inr (Or.inr h))
    · rintro (⟨g', y, hw, ho⟩ | h | h | h)
      · cases hw with
        | here h => exact Or.inl (Or.inl ⟨_, _, h, ho⟩)
        | there h => exact Or.inr (Or.inl ⟨_, _, h, ho⟩)
      · exact Or.inl (Or.inr (Or.inl h))
      · exact Or.inl (Or.inr (Or.inr h))
      · exact Or.inr (Or.inr h)
end

/-! ### C73, C74 -/

/-- **C73, C74.**  Exactly the assignments, elements, arguments by reference and misplaced arguments of the expression, at whatever depth, come out, each with its own variable; whatever
was searched for, or called, before and around it does not matter. -/
theorem events_iff (F : Callee → Option Sig) (x : X) (find : Bool) (f : Found) (e : Event) :
    e ∈ (visit F x (start find f)).out ↔ Happens F none x e := by
  rw [visit_eq, happens_iff, ← sem_mem]
  simp [start]

/-- **C73.**  After the visit of an expression, the state is as before: nothing of a call or an assignment leaks into what follows it, but that a search which goes on has
found its variable. -/
theorem state_restored (F : Callee → Option Sig) (x : X) (s : St) :
    (visit F x s).fn = s.fn ∧ (visit F x s).prev = s.prev ∧ (visit F x s).pos = s.pos ∧ s.out <+: (visit F x s).out ∧
      (s.find = false → (visit F x s).find = false ∧ (visit F x s).found = s.found) ∧
      (Without x → (visit F x s).find = s.find ∧ (visit F x s).found = s.found) := by
  rw [visit_eq]
  refine ⟨rfl, rfl, rfl, List.prefix_append _ _, fun h => by simp [h], fun h => ?_⟩
  rw [without_iff] at h
  cases hs : s.find <;> simp [h, search]

/-- **C73.**  An assignment to a variable is to that variable, whatever stands in its index, in its arguments and on the right side. -/
theorem assignment_target (F : Callee → Option Sig) (id : Nat) (v : VarAst) (i r : X) (find : Bool) (f fd : Found) (h : NamesVar v fd) :
    .assign id fd ∈ (visit F (.assign id (.variable v i) r) (start find f)).out :=
  (events_iff F _ find f _).2 (.assign .refl (.left .here) h)

/-- **C73.**  The variable of a written variable is unique. -/
theorem namesVar_unique {v : VarAst} {a b : Found} (ha : NamesVar v a) (hb : NamesVar v b) : a = b := by
  rw [← ((namesVar_iff _ _).1 ha).1, ← ((namesVar_iff _ _).1 hb).1]

/-- **C73.**  `$p->x`, and `…->p->x`, but not `$p[…]->x` and not `…->p[…]->x`, have a variable. -/
theorem no_member_of_array (b : Option QString) (pre : List Prop') (p : Option QString) (t : Prop') (f : Found) :
    ¬ NamesVar ⟨.var b true, [t]⟩ f ∧ ∀ base, ¬ NamesVar ⟨base, pre ++ [.named p true, t]⟩ f := by
  constructor
  · intro h
    generalize hv : (⟨.var b true, [t]⟩ : VarAst) = v at h
    cases h with
    | plain => simp at hv
    | member => simp at hv
    | deep b' pre' p' x' off' =>
      have := congrArg (fun v => v.props.length) hv
      simp at this
  · intro base h
    generalize hv : (⟨base, pre ++ [.named p true, t]⟩ : VarAst) = v at h
    cases h with
    | plain => simp at hv
    | member =>
      have := congrArg (fun v => v.props.length) hv
      simp at this
    | deep b' pre' p' x' off' =>
      simp only [VarAst.mk.injEq] at hv
      have := List.append_inj' hv.2 rfl
      simp at this

/-- The length of an argument list. -/
def Args.length : Args → Nat
  | .nil => 0
  | .cons _ _ _ rest => rest.length + 1

theorem at_total : ∀ (as : Args) (j : Nat), j < as.length → ∃ id u e, At as j id u e
  | .nil, j, h => by simp [Args.length] at h
  | .cons id u e rest, 0, _ => ⟨id, u, e, .zero⟩
  | .cons id u e rest, j + 1, h => by
    obtain ⟨id', u', e', h⟩ := at_total rest j (by simpa [Args.length] using h)
    exact ⟨id', u', e', .succ h⟩

theorem at_lt : ∀ {as : Args} {j id u e}, At as j id u e → j < as.length := by
  intro as j id u e h
  induction h with
  | zero => simp [Args.length]
  | succ _ ih => simp [Args.length, ih]

/-- **C74.**  If any argument without `...` stands anywhere behind one with it, something is reported in this list; and nothing is otherwise. -/
theorem unpacking_reported_iff (F : Callee → Option Sig) (g g' : Option Sig) (y : X) (as : Args) (ha : ArgsOf F g y g' as) :
    (∃ id, Own F g y (.positional id)) ↔
      ∃ j k id id' e e', j < k ∧ At as j id true e ∧ At as k id' false e' := by
  constructor
  · rintro ⟨id, h⟩
    cases h with
    | positional h1 h2 h3 =>
      obtain ⟨_, rfl⟩ := argsOf_unique ha h1
      exact ⟨_, _, _, _, _, _, Nat.lt_succ_self _, h2, h3⟩
  · rintro ⟨j, k, id, id', e, e', hjk, h1, h2⟩
    obtain ⟨n, rfl⟩ : ∃ n, k = j + 1 + n := ⟨k - j - 1, by omega⟩
    clear hjk
    induction n generalizing j id e with
    | zero => exact ⟨id', .positional ha h1 h2⟩
    | succ n ih =>
      obtain ⟨i, u, x, h3⟩ := at_total as (j + 1) (by have := at_lt h2; omega)
      cases u with
      | false => exact ⟨i, .positional ha h1 h3⟩
      | true => exact ih (j + 1) i x h3 (by rw [show j + 1 + 1 + n = j + 1 + (n + 1) by omega]; exact h2)

/-- **C74.**  Without a function that is known, no argument declares anything. -/
theorem unknown_declares_nothing (F : Callee → Option Sig) (hF : ∀ c, F c = none) (x : X) (find : Bool) (f : Found) (id : Nat) (fd : Found) :
    .byRef id fd ∉ (visit F x (start find f)).out := by
  rw [events_iff]
  intro h
  cases h with
  | byRef hw ha _ _ _ _ _ =>
    have : ∀ g x g' y, Within F g x g' y → g = none → g' = none := by
      intro g x g' y h
      refine Within.rec (F := F) (motive_1 := fun g _ g' _ _ => g = none → g' = none)
        (motive_2 := fun g _ g' _ _ => g = none → g' = none) ?_ ?_ ?_ ?_ ?_ ?_ ?_ ?_ ?_ ?_ ?_ ?_ h
      all_goals intros
      all_goals simp_all
    have hg := this _ _ _ _ hw rfl
    subst hg
    generalize hs : some _ = o at ha
    cases ha with
    | call => rw [hF] at hs; cases hs
    | args => cases hs

/-- **C74.**  The function called by a name: the one the name means here, else the one it means outside of all namespaces; letter case does not matter. -/
theorem callee_name (u : CharClass) (fm : Bool) (env : Env) (ctx : List Scope) (sigOf : Decl → Option Sig) (n : NameAst) (r : Option Decl)
    (h : (∃ d, r = some d ∧ UseStatements.Means env ctx ⟨n.isGlobal, n.names.map (·.map u.toLower)⟩ .function (some d)) ∨
      (UseStatements.Means env ctx ⟨n.isGlobal, n.names.map (·.map u.toLower)⟩ .function none ∧
       UseStatements.Means env ctx ⟨true, n.names.map (·.map u.toLower)⟩ .function r)) :
    callee u fm env ctx sigOf (.name n) = r.bind sigOf := by
  have hid : identifierForNamespace u n false = ⟨n.isGlobal, n.names.map (·.map u.toLower)⟩ := plain_name u n.isGlobal n.names
  have hk : ∀ id : QId, DeclType.function ≠ .klass ∨ ¬ selfLike id := fun _ => Or.inl (by decide)
  simp only [callee, hid]
  rcases h with ⟨d, rfl, h⟩ | ⟨h1, h2⟩
  · rw [(UseStatements.means_iff (fm := fm) (hk _)).1 h]
  · rw [(UseStatements.means_iff (fm := fm) (hk _)).1 h1]
    simp only [(UseStatements.means_iff (fm := fm) (hk _)).1 h2]

/-! ### Examples and findings -/

def simple (x : String) : VarAst := ⟨.var (some (x.toList.map Char.toNat)) false, []⟩
def var (x : String) : X := .variable (simple x) .nil
def named (x : String) : Found := ⟨some (x.toList.map Char.toNat), none, false⟩
/-- `preg_match($a, $b, &$c)` -/
def exF : Callee → Option Sig
  | .name n => if n.names = [q! "preg_match"] then some [false, false, true] else none
  | _ => none
def pregMatch : Callee := .name ⟨false, [q! "preg_match"]⟩

/-- `$r = preg_match($p, f($s[$i = 0]), $m)`: `$m` is declared, and the two assignments are to `$r` and `$i`. -/
example : (visit exF (.assign 1 (var "r") (.call pregMatch .nil (.cons 2 false (var "p") (.cons 3 false
      (.variable ⟨.other, []⟩ (.call (.name ⟨false, [q! "f"]⟩) .nil (.cons 4 false (.variable ⟨.var (some (q! "s")) true, []⟩ (.assign 5 (var "i") .nil)) .nil)))
      (.cons 6 false (var "m") .nil))))) (start true .fresh)).out =
    [.assign 5 (named "i"), .byRef 6 (named "m"), .assign 1 (named "r")] := by decide +kernel
/-- `f(...$a, $b, ...$c, ...$d, $e, $g)`. -/
example : (visit exF (.call (.name ⟨false, [q! "f"]⟩) .nil (.cons 1 true (var "a") (.cons 2 false (var "b") (.cons 3 true (var "c") (.cons 4 true (var "d")
      (.cons 5 false (var "e") (.cons 6 false (var "g") .nil))))))) (start true .fresh)).out = [.positional 2, .positional 5] := by decide +kernel
/-- `list($a, list($b), $c[0]) = …`. -/
example : (visit exF (.seq (.element 1 (var "a")) (.seq (.element 2 (.element 3 (var "b"))) (.element 4 (.variable ⟨.var (some (q! "c")) true, []⟩ .nil))))
    (start false (named "z"))).out = [.element 1 (named "a"), .element 3 (named "b")] := by decide +kernel
example : NamesVar ⟨.var (some (q! "this")) false, [.named (some (q! "a")) false, .named (some (q! "b")) true]⟩ ⟨some (q! "b"), some (q! "a"), true⟩ :=
  .deep _ [] _ _ _
example : ArgsOf exF none (.call pregMatch .nil (.cons 1 true (var "a") (.cons 2 true (var "b") (.cons 3 false (var "c") .nil)))) (some [false, false, true])
      (.cons 1 true (var "a") (.cons 2 true (var "b") (.cons 3 false (var "c") .nil))) :=
  .call

/-- Finding: in `$x && $y = 1`, which is read as `($x && $y) = 1` (see C59), the assignment is taken to be to `$x`, and `$y` is not declared.  The same holds for any two variables and any right side. -/
theorem and_assign_finding (F : Callee → Option Sig) (id : Nat) (x y : VarAst) (r : X) (find : Bool) (f fx fy : Found) (hx : NamesVar x fx)
    (hr : ∀ g, ¬ Happens F none r (.assign id g)) :
    .assign id fy ∈ (visit F (.assign id (.seq (.variable x .nil) (.variable y .nil)) r) (start find f)).out ↔ fy = fx := by
  rw [events_iff, happens_iff]
  constructor
  · rintro ⟨g', z, hw, ho⟩
    cases hw with
    | refl => cases ho with
      | assign h1 h2 =>
        have : First (X.seq (.seq (.variable x .nil) (.variable y .nil)) r) x := .left (.left .here)
        have := ((first_iff _ _).1 this).symm.trans ((first_iff _ _).1 h1)
        cases this
        exact namesVar_unique h2 hx
    | lhs h =>
      cases h with
      | refl => cases ho
      | seqL h => cases h with
        | refl => cases ho
        | «variable» h => cases h; cases ho
      | seqR h => cases h with
        | refl => cases ho
        | «variable» h => cases h; cases ho
    | rhs h => exact absurd (happens_iff.2 ⟨_, _, h, ho⟩) (hr fy)
  · rintro rfl
    exact ⟨_, _, .refl, .assign (.left (.left .here)) hx⟩

/-- Finding: `[$a, $b] = f();` is taken as an assignment to `$a` alone. -/
theorem short_list_finding :
    (visit exF (.assign 1 (.seq (var "a") (var "b")) (.variable ⟨.other, []⟩ (.call (.name ⟨false, [q! "f"]⟩) .nil .nil))) (start true .fresh)).out =
      [.assign 1 (named "a")] := by decide +kernel

/-- Finding: the arguments of a method (of `new`, of a called closure) are matched with the parameters of the function around the method call: in
`preg_match($p, $s, $o->m(0, 0, $x))` the undefined `$x` is declared. -/
theorem method_arguments_finding :
    (visit exF (.call pregMatch .nil (.cons 1 false (var "p") (.cons 2 false (var "s") (.cons 3 false
      (.variable ⟨.var (some (q! "o")) false, [.named (some (q! "m")) false]⟩ (.args (.cons 4 false .nil (.cons 5 false .nil (.cons 6 false (var "x") .nil))))) .nil))))
      (start true .fresh)).out = [.byRef 6 (named "x"), .byRef 3 ⟨some (q! "m"), some (q! "o"), false⟩] := by decide +kernel

/-- Finding: the arguments of `C::m(…)` are matched with the parameters of a function `m`, those of `C::$f(…)` with the parameters of a function `C`. -/
theorem static_call_finding (u : CharClass) (fm : Bool) (env : Env) (ctx : List Scope) (sigOf : Decl → Option Sig) (c : NameAst) (m : QString) :
    callee u fm env ctx sigOf (.static c m) = callee u fm env ctx sigOf (.name ⟨false, [m]⟩) ∧
    callee u fm env ctx sigOf (.staticDynamic c) = callee u fm env ctx sigOf (.name c) := by
  refine ⟨?_, rfl⟩
  simp only [callee, identifierForNamespace, pushNames]
  rfl

end KPhp.VariableSearch
