import Verif.Duchain.Names
/-
# Types and uses of expressions (C56, C57, C58)

Models `ExpressionVisitor` (duchain/expressionvisitor.cpp) on the syntax trees of parser/php.g:340-640, 880-960,
and `ExpressionEvaluationResult` (duchain/expressionevaluationresult.cpp).

Simplifications:
* Grammar rules whose visitor function is not overridden are the constructor `plain`: the generated `DefaultVisitor`
  visits the children in the order of the rule.
* What is looked up outside of the expression (declarations by name, variables, members of a class) is a parameter.
  Lookups get the node they are made for, so the current context may be different for different nodes.
* Class references by variables with properties (`new $a->b`, expressionvisitor.cpp:707-823) are `plain`.
* Static calls through a variable (`X::$f()`, expressionvisitor.cpp:342-343) are `plain`, too: the class is not looked at.
-/
namespace KPhp.Expr
open KPhp.Names (QId DeclType)

/-- The identity of a node that names something (its position in the file). -/
abbrev Pos := Nat

/-- A declaration, as far as expressions look at it. -/
structure Decl where
  id : Nat
  /-- `abstractType()` -/
  type : Option Ty
  /-- `isFunctionDeclaration()` -/
  isFunction : Bool
  /-- a class member with access policy `Private` -/
  isPrivate : Bool
  /-- the class whose context contains it -/
  owner : Nat
  /-- the end of its range -/
  stop : Nat
deriving DecidableEq, Repr

/-- A name in the text. -/
structure Ident where
  pos : Pos
  text : QString
deriving DecidableEq, Repr

/-- `NamespacedIdentifierAst`: the names before the last one, and the last one. -/
structure Name where
  pos : Pos
  isGlobal : Bool
  front : List Ident
  last : Ident
deriving DecidableEq, Repr

/-- The operators of assignments (php.g:371-395); `none`: no assignment. -/
inductive AssignOp | none | equal | plus | minus | mul | exp | div | concat | other
deriving DecidableEq, Repr

/-- `ScalarTypes` (php.g:930-946) -/
inductive Scalar | int | float | string
deriving DecidableEq, Repr

/-- `CastType` (php.g:490-496) -/
inductive Cast | int | double | string | array | object | bool | unset
deriving DecidableEq, Repr

inductive AddOp | plus | minus | concat
deriving DecidableEq, Repr

/-- the class of `new` (php.g:866-873) -/
inductive ClassRef | static (p : Pos) | named (n : Name) | computed
deriving DecidableEq, Repr

/-- Syntax trees (parser/php.g; the line is given with each constructor). -/
inductive Node
  /-- a node whose visitor function is not overridden -/
  | plain (cs : List Node)
  /-- assignmentExpression (php.g:366-398) -/
  | assign (op : AssignOp) (lhs : Node) (rhs : List Node)
  /-- arrayIndexSpecifier (php.g:610-611) -/
  | index (e : List Node)
  /-- a variable identifier in compoundVariableWithSimpleIndirectReference (php.g:637-638) -/
  | varName (v : Ident)
  /-- variable (php.g:584-585); the flag: the first property is an objectProperty -/
  | variable (base : Node) (objProp : Bool) (props : List Node)
  /-- varExpression with `yield` (php.g:515-516) -/
  | yield (p : Pos) (cs : List Node)
  /-- varExpressionNewObject (php.g:567-568) -/
  | newObj (cls : ClassRef) (cs : List Node)
  /-- varExpressionArray (php.g:537-547) -/
  | array (cs : List Node)
  /-- a class name in a type hint (php.g:804-822) -/
  | typeHint (n : Name)
  /-- closure (php.g:550-554): the type of the return hint, the body, hints and default values in their order, and the
  variables in `use` -/
  | closure (hint : Option Ty) (body sig : List Node) (lexical : List Ident)
  /-- functionCallParameterList and -Element (php.g:574-580) -/
  | params (cs : List Node)
  | param (c : Node)
  /-- functionCall (php.g:617-627): `f(…)`, `X::m(…)`, `X::{…}(…)` -/
  | call (f : Name) (args : Node) (nArgs : Nat)
  | staticCall (cls : Name) (m : Ident) (args : Node)
  | staticCallExpr (cls : Name) (args e : Node)
  /-- constantOrClassConst (php.g:911-913) -/
  | const (n : Name)
  | classConst (cls : Name) (k : Ident)
  /-- commonScalar (php.g:930-946): its text -/
  | scalar (k : Scalar) (s : Ident) (cs : List Node)
  /-- other strings (php.g:906-908) -/
  | encapsed (cs : List Node)
  /-- encapsVar with a variable (php.g:928) -/
  | encapsVar (v : Ident) (prop : Option Ident) (cs : List Node)
  /-- variableProperty with a objectDimList (php.g:592-594): whether it is a call, the name -/
  | prop (isCall : Bool) (name : Ident) (cs : List Node)
  /-- staticMember (php.g:641-642): `X::$v`, `X::${…}` -/
  | staticMember (cls : Name) (v : Ident) (offsets : List Node)
  | staticMemberExpr (cls : Name) (e : Node) (offsets : List Node)
  /-- unaryExpression with a cast (php.g:490-496) -/
  | cast (k : Cast) (c : Node)
  /-- additiveExpressionRest, relationalExpressionRest, equalityExpressionRest (php.g:438-475) -/
  | addRest (op : AddOp) (c : Node)
  | relRest (c : Node)
  | eqRest (spaceship : Bool) (c : Node)
  /-- relationalExpression with `instanceof` (php.g:447-453) -/
  | instanceOf (e : Node) (cls : Option Name) (cs : List Node)
  /-- statement with `return` (php.g:682) -/
  | ret (e : Node)
deriving Repr

/-- What is looked up outside of the expression. -/
structure Env where
  u : CharClass
  /-- `findDeclarationImport` for a node -/
  find : Pos → DeclType → QId → Option Decl
  /-- the declaration `processVariable` finds for a variable -/
  findVar : Ident → Option Decl
  /-- the declaration of a `StructureType` -/
  classOf : Nat → Option Decl
  /-- the class has a context (its internal context, or it is the class around the current context) -/
  hasContext : Decl → Bool
  /-- `findDeclarations` in the context of a class -/
  members : Decl → QString → List Decl
  /-- `returnType()` of a `FunctionType` -/
  returnType : Nat → Option Ty
  /-- `findDeclarations("stdclass")` -/
  stdclass : Pos → List Decl
  /-- the first `Instance` declaration of that name in the current context (expressionvisitor.cpp:265-270) -/
  lexical : Ident → Option Decl

/-- `ExpressionEvaluationResult` -/
structure Res where
  decls : List Decl
  type : Option Ty
  unresolved : Bool
deriving DecidableEq, Repr

/-- The state of the visitor; `closures` are the return types of the open closures, innermost first; `closed` those of
the closures that were left. -/
structure St where
  res : Res
  eq : Bool
  inDefine : Bool
  closures : List (Option Ty)
  closed : List (Option Ty)
  uses : List (Pos × Option Decl)

/-- expressionevaluationresult.cpp:90-95 -/
def St.setType (s : St) (t : Option Ty) : St := { s with res := { s.res with type := t } }
/-- expressionevaluationresult.cpp:57-74: the type is that of the last declaration -/
def St.setDecls (s : St) (ds : List Decl) : St :=
  { s with res := { s.res with decls := ds, type := ds.getLast?.bind (·.type) } }
/-- expressionevaluationresult.cpp:38-45 -/
def St.setDecl (s : St) (d : Option Decl) : St := s.setDecls d.toList
/-- expressionevaluationresult.cpp:97-100 -/
def St.setUnresolved (s : St) : St := { s with res := { s.res with unresolved := true } }
/-- `usingDeclaration` -/
def St.use (s : St) (p : Pos) (d : Option Decl) : St := { s with uses := s.uses ++ [(p, d)] }

/-- `identifierForNamespace` (helper.cpp:441-456) -/
def Name.qid (u : CharClass) (n : Name) (lastIsConst : Bool := false) : QId :=
  { global := n.isGlobal
    parts := n.front.map (fun i => lowerStr u i.text) ++ [if lastIsConst then n.last.text else lowerStr u n.last.text] }

/-- `stringForNode` of a name: the text (without blanks between the names) -/
def Name.text (n : Name) : QString :=
  (if n.isGlobal then [c! '\\'] else []) ++ n.front.flatMap (fun i => i.text ++ [c! '\\']) ++ n.last.text

/-- expressionvisitor.cpp:971-982 `buildNamespaceUses`: a use of every namespace in front of the last name -/
def nsUses (env : Env) (g : Bool) : List QString → List Ident → List (Pos × Option Decl)
  | _, [] => []
  | done, i :: is =>
    (i.pos, env.find i.pos .namespace ⟨g, done ++ [lowerStr env.u i.text]⟩) ::
      nsUses env g (done ++ [lowerStr env.u i.text]) is

def St.useNamespaces (s : St) (env : Env) (g : Bool) (n : Name) : St :=
  { s with uses := s.uses ++ nsUses env g [] n.front }

/-- find a class, report its use and those of its namespaces (expressionvisitor.cpp:206-210, 346-349, 396-399, 688-691,
876-880, 920-924) -/
def St.useClass (s : St) (env : Env) (n : Name) : St × Option Decl :=
  let dec := env.find n.pos .klass (n.qid env.u)
  ((s.use n.last.pos dec).useNamespaces env n.isGlobal n, dec)

/-- the class context of `findClassContext` (expressionvisitor.cpp:393-409): here the class that has one -/
def contextOf (env : Env) : Option Decl → Option Decl
  | some d => if env.hasContext d then some d else none
  | none => none

/-- `type<FunctionType>()` and its return type (expressionvisitor.cpp:330-335, 364-369, 636-641) -/
def resultOf (env : Env) (d : Decl) : Option Ty :=
  match d.type with
  | some (.func k) => env.returnType k
  | _ => none

def Scalar.ty : Scalar → Ty
  | .int => .integral .int
  | .float => .integral .float
  | .string => .integral .string

/-- `^['"]([A-Za-z0-9_]+)['"]$` (expressionvisitor.cpp:488): the word in quotes -/
def isWordChar (c : QChar) : Bool :=
  (c! 'a' ≤ c && c ≤ c! 'z') || (c! 'A' ≤ c && c ≤ c! 'Z') || (c! '0' ≤ c && c ≤ c! '9') || c == c! '_'
def isQuote (c : QChar) : Bool := c == c! '\'' || c == c! '"'
def wordInQuotes : QString → Option QString
  | q :: s =>
    if isQuote q then
      match s.getLast? with
      | some q' => if isQuote q' && s.dropLast != [] && s.dropLast.all isWordChar then some s.dropLast else none
      | none => none
    else none
  | [] => none

/-- The use of a class named in a string (expressionvisitor.cpp:486-499) -/
def useString (env : Env) (s : Ident) (st : St) : St :=
  if st.inDefine then st
  else match wordInQuotes s.text with
    | none => st
    | some w =>
      match env.find s.pos .klass ⟨false, [lowerStr env.u w]⟩ with
      | some d => st.use s.pos (some d)
      | none => st.setUnresolved

/-- expressionvisitor.cpp:95-108: whether `processVariable` reports a use -/
def reportsVariable (eq : Bool) (v : Ident) (d : Option Decl) : Bool :=
  (!eq || v.text == q! "this" || match d with | some d => decide (d.stop < v.pos) | none => false) &&
    match d with | some d => d.stop != v.pos | none => true

/-- expressionvisitor.cpp:42-110 `processVariable` after the lookup -/
def processVariable (env : Env) (v : Ident) (s : St) : St × Option Decl :=
  let d := env.findVar v
  (if reportsVariable s.eq v d then s.use v.pos d else s, d)

/-- the only class among the alternatives of a type (expressionvisitor.cpp:577-598) -/
def objectType : Option Ty → Option Ty
  | some (.unsure ts) =>
    match ts.filter (fun t => match t with | .struct _ => true | _ => false) with
    | [t] => some t
    | _ => some (.unsure ts)
  | t => t

/-- the members of that name a property access looks at (expressionvisitor.cpp:613-648) -/
def memberDecls (env : Env) (cls : Decl) (isCall : Bool) (name : QString) : List Decl :=
  if isCall then (env.members cls (lowerStr env.u name)).filter (·.isFunction)
  else (env.members cls name).filter (fun d => !d.isFunction && (!d.isPrivate || d.owner == cls.id))

/-- expressionvisitor.cpp:600-670: the access itself, before the children are visited -/
def accessProperty (env : Env) (isCall : Bool) (name : Ident) (s : St) : St :=
  match objectType s.res.type with
  | some (.struct c) =>
    match contextOf env (env.classOf c) with
    | none => s.setType none
    | some cls =>
      let decs := memberDecls env cls isCall name.text
      let s1 := s.setDecls decs
      let s2 := if s.eq then s1 else s1.use name.pos decs.getLast?
      match decs.getLast? with
      | none => s2.setType none
      | some d => if isCall then s2.setType (resultOf env d) else s2
  | _ => s

/-- the type of a cast (expressionvisitor.cpp:828-860) -/
def castType : Cast → Option Ty
  | .int => some (.integral .int)
  | .double => some (.integral .float)
  | .string => some (.integral .string)
  | .array => some (.integral .array)
  | .bool => some (.integral .boolean)
  | .object => none
  | .unset => none

/-- the type of a compound assignment (expressionvisitor.cpp:139-145) -/
def assignType : AssignOp → Option Ty
  | .plus | .minus | .mul | .div | .exp => some (.integral .int)
  | .concat => some (.integral .string)
  | .none | .equal | .other => none

/-- the result of the class constant access (expressionvisitor.cpp:415-432) -/
def accessConstant (env : Env) (cls : Option Decl) (k : Ident) (s : St) : St :=
  match contextOf env cls with
  | some c =>
    let decs := env.members c k.text
    let s := (s.setDecls decs).use k.pos decs.getLast?
    if ciEq env.u k.text (q! "class") then s.setType (some (.integral .string)) else s
  | none => s.setType none

/-- a constant (expressionvisitor.cpp:433-456) -/
def useConstant (env : Env) (n : Name) (s : St) : St :=
  let str := lowerStr env.u n.text
  if str = q! "true" ∨ str = q! "false" then s.setType (some (.integral .boolean))
  else if str = q! "null" then s.setType (some (.integral .null))
  else
    let id := n.qid env.u true
    match env.find n.pos .constant id with
    | some d => ((s.setDecl (some d)).use n.last.pos (some d)).useNamespaces env id.global n
    | none =>
      let gid : QId := { id with global := true }
      let d := match env.find n.pos .constant gid with
        | some d => some d
        | none => env.find n.pos .function gid
      ((s.setDecl d).use n.last.pos d).useNamespaces env true n

/-- a function call `f(…)` (expressionvisitor.cpp:351-373) -/
def useFunction (env : Env) (n : Name) (s : St) : St :=
  let id := n.qid env.u
  let (d, g) := match env.find n.pos .function id with
    | some d => (some d, id.global)
    | none => (env.find n.pos .function { id with global := true }, true)
  let s := ((s.setDecl d).use n.last.pos d).useNamespaces env g n
  match d with
  | some d => s.setType (resultOf env d)
  | none => s.setUnresolved

/-- a static call `X::m(…)` (expressionvisitor.cpp:320-341) -/
def useStaticCall (env : Env) (cls : Name) (m : Ident) (s : St) : St :=
  let (s, dec) := s.useClass env cls
  match contextOf env dec with
  | some c =>
    let decs := env.members c (lowerStr env.u m.text)
    let s := s.setDecls decs
    match decs.getLast? with
    | some d => (s.use m.pos (some d)).setType (resultOf env d)
    | none => s
  | none => (s.setUnresolved.use m.pos none).setType none

/-- a static property `X::$v` (expressionvisitor.cpp:679-686, 984-994) -/
def useStaticMember (env : Env) (cls : Name) (v : Ident) (s : St) : St :=
  let (s, dec) := s.useClass env cls
  match contextOf env dec with
  | some c =>
    let decs := env.members c v.text
    (s.setDecls decs).use v.pos decs.getLast?
  | none => (s.use cls.pos none).setType none

/-- whether a call is `define(…)` with arguments (expressionvisitor.cpp:305-313) -/
def isDefine (env : Env) (f : Name) (nArgs : Nat) : Bool :=
  (f.qid env.u).parts == [q! "define"] && nArgs != 0

/-- uses of the variables taken over by a closure (expressionvisitor.cpp:260-279) -/
def useLexical (env : Env) : List Ident → St → St
  | [], s => s
  | i :: is, s => useLexical env is (s.use i.pos (env.lexical i))

/-- set the return type of the innermost closure -/
def St.setReturn (s : St) (t : Option Ty) : St :=
  match s.closures with
  | _ :: cs => { s with closures := t :: cs }
  | [] => s

/-- leave a closure: its return type is kept in `closed` -/
def St.closeClosure (s : St) (hint : Option Ty) : St :=
  match s.closures with
  | c :: cs => { s with closures := cs, closed := s.closed ++ [match hint with | some t => some t | none => c] }
  | [] => s

/-- a property in a string (expressionvisitor.cpp:539-564) -/
def useEncapsProp (env : Env) (d : Option Decl) (prop : Option Ident) (s : St) : St :=
  match d, prop with
  | some d, some p =>
    let found := match d.type with
      | some (.struct c) =>
        match contextOf env (env.classOf c) with
        | some cls => (env.members cls p.text).find? (fun m => !m.isFunction)
        | none => none
      | _ => none
    s.use p.pos found
  | _, _ => s

mutual
/-- The visitor (duchain/expressionvisitor.cpp); the lines are given with each case. -/
def visit (env : Env) : Node → St → St
  | .plain cs, s => visitList env cs s
  | .assign op lhs rhs, s =>                                               -- :129-147
    let s := visit env lhs { s with eq := if op = .equal then true else s.eq }
    let s := visitList env rhs { s with eq := false }
    match assignType op with
    | some t => s.setType (some t)
    | none => s
  | .index e, s => (visitList env e s).setType (some (.integral .mixed))    -- :149-155
  | .varName v, s =>                                                       -- :157-163
    let (s, d) := processVariable env v s
    s.setDecl d
  | .variable base objProp props, s =>                                     -- :165-179
    let s' := visitList env props (visit env base { s with eq := if objProp then false else s.eq })
    if objProp then { s' with eq := s.eq } else s'
  | .yield p cs, s =>                                                      -- :182-196
    let s := visitList env cs s
    match env.find p .klass ⟨false, [q! "generator"]⟩ with
    | some g => (s.setType (some (.integral .mixed))).setReturn g.type
    | none => s
  | .newObj cls cs, s =>                                                   -- :198-213
    let s := visitList env cs s
    match cls with
    | .static p =>
      let d := env.find p .klass ⟨false, [q! "static"]⟩
      (s.use p d).setDecl d
    | .named n =>
      let (s, d) := s.useClass env n
      s.setDecl d
    | .computed => s
  | .array cs, s => (visitList env cs s).setType (some (.integral .array))  -- :215-219
  | .typeHint n, s => (s.useClass env n).1                                 -- :917-926
  | .closure hint body sig lexical, s =>                                   -- :221-283
    let s := visitList env body { s with closures := some (.integral .void) :: s.closures }
    let s := visitList env sig s
    let s := useLexical env lexical s
    (s.setType (some (.ext .callable))).closeClosure hint
  | .params cs, s =>                                                       -- :285-294
    let s' := visitList env cs s
    (s'.setDecls s.res.decls).setType s.res.type
  | .param c, s => { visit env c s with inDefine := false }                -- :296-301
  | .call f args n, s =>                                                   -- :303-318, :352-373
    let s := visit env args { s with inDefine := isDefine env f n || s.inDefine }
    useFunction env f { s with inDefine := false }
  | .staticCall cls m args, s =>                                           -- :319-341
    useStaticCall env cls m { visit env args s with inDefine := false }
  | .staticCallExpr cls args e, s =>                                       -- :344-350
    let s := { visit env e (visit env args s) with inDefine := false }
    let (s, d) := s.useClass env cls
    s.setDecl d
  | .const n, s => useConstant env n s                                     -- :411-457
  | .classConst cls k, s =>
    let (s, d) := s.useClass env cls
    accessConstant env d k s
  | .scalar k t cs, s =>                                                   -- :459-498
    let s := (visitList env cs s).setType (some k.ty)
    if k = .string then useString env t s else s
  | .encapsed cs, s => (visitList env cs s).setType (some (.integral .string))
  | .encapsVar v prop cs, s =>                                             -- :533-567
    let (s, d) := processVariable env v (visitList env cs s)
    useEncapsProp env d prop s
  | .prop isCall name cs, s => visitList env cs (accessProperty env isCall name s)   -- :569-672
  | .staticMember cls v offsets, s => visitList env offsets (useStaticMember env cls v s)   -- :674-705
  | .staticMemberExpr cls e offsets, s =>
    let (s, _) := s.useClass env cls
    visitList env offsets ((visit env e s).setType none)
  | .cast k c, s =>                                                        -- :825-861
    let s := visit env c s
    match k with
    | .object => s.setDecls (env.stdclass 0)
    | k => match castType k with
      | some t => s.setType (some t)
      | none => s
  | .addRest op c, s =>                                                    -- :863-871
    (visit env c s).setType (some (.integral (if op = .concat then .string else .int)))
  | .relRest c, s => (visit env c s).setType (some (.integral .boolean))   -- :886-891
  | .eqRest spaceship c, s =>                                              -- :893-902
    (visit env c s).setType (some (.integral (if spaceship then .int else .boolean)))
  | .instanceOf e cls cs, s =>                                             -- :873-884
    let s := visitList env cs (visit env e s)
    match cls with
    | some n => (s.useClass env n).1.setType (some (.integral .boolean))
    | none => s
  | .ret e, s =>                                                           -- :904-915
    let s := visit env e s
    s.setReturn s.res.type
/-- The generated visitor visits the elements of a sequence in order. -/
def visitList (env : Env) : List Node → St → St
  | [], s => s
  | n :: ns, s => visitList env ns (visit env n s)
end

/-- `ExpressionParser::evaluateType` (expressionparser.cpp:66-83): a new visitor -/
def start : St := ⟨⟨[], none, false⟩, false, false, [], [], []⟩

/-! ## C56: types -/

/-- The identifier a name is looked up with: its parts without regard to case. -/
def Name.folded (u : CharClass) (n : Name) : QId := ⟨n.isGlobal, (n.front ++ [n.last]).map (fun i => lowerStr u i.text)⟩
/-- The same for a constant: case matters in the last part. -/
def Name.constId (u : CharClass) (n : Name) : QId := ⟨n.isGlobal, n.front.map (fun i => lowerStr u i.text) ++ [n.last.text]⟩

/-- A class is the only one among the possible types. -/
inductive OnlyClass : Ty → Nat → Prop
  | sure (c) : OnlyClass (.struct c) c
  | among (l r c) : (∀ k, Ty.struct k ∉ l) → (∀ k, Ty.struct k ∉ r) → OnlyClass (.unsure (l ++ .struct c :: r)) c

/-- The declaration of class `c` has a context in which members can be looked up. -/
def HasMembers (env : Env) (c : Nat) (cls : Decl) : Prop := env.classOf c = some cls ∧ env.hasContext cls = true

/-- The member `$object->name` of a class: the last visible property, or the last method. -/
inductive Member (env : Env) (cls : Decl) : Bool → QString → Decl → Prop
  | method (name l d r) : env.members cls (lowerStr env.u name) = l ++ d :: r → d.isFunction = true →
      (∀ x ∈ r, x.isFunction = false) → Member env cls true name d
  | property (name l d r) : env.members cls name = l ++ d :: r → d.isFunction = false →
      (d.isPrivate = true → d.owner = cls.id) →
      (∀ x ∈ r, x.isFunction = true ∨ (x.isPrivate = true ∧ x.owner ≠ cls.id)) → Member env cls false name d

/-- The type of what a function returns. -/
def Returns (env : Env) (d : Decl) (t : Option Ty) : Prop :=
  (∀ k, d.type = some (.func k) → t = env.returnType k) ∧ ((∀ k, d.type ≠ some (.func k)) → t = none)

/-- What may follow a name: arguments keep the type, an index makes it `mixed`. -/
inductive After : Option Ty → List Node → Option Ty → Prop
  | done (t) : After t [] t
  | args (t t' as rest) : After t rest t' → After t (.params as :: rest) t'
  | index (t t' e rest) : After (some (.integral .mixed)) rest t' → After t (.index e :: rest) t'

/-- `t->name…` for an object of type `t`, over a chain of accesses. -/
inductive Chain (env : Env) : Option Ty → List Node → Option Ty → Prop
  | done (t) : Chain env t [] t
  | method (t c cls name d tm ta t' rest more) : OnlyClass t c → HasMembers env c cls → Member env cls true name.text d →
      Returns env d tm → After tm rest ta → Chain env ta more t' → Chain env (some t) (.prop true name rest :: more) t'
  | property (t c cls name d ta t' rest more) : OnlyClass t c → HasMembers env c cls → Member env cls false name.text d →
      After d.type rest ta → Chain env ta more t' → Chain env (some t) (.prop false name rest :: more) t'
  | missing (t c cls isCall name ta t' rest more) : OnlyClass t c → HasMembers env c cls →
      (∀ d, ¬ Member env cls isCall name.text d) → After none rest ta → Chain env ta more t' →
      Chain env (some t) (.prop isCall name rest :: more) t'

/-- A constant name that is not one of the words `true`, `false` and `null`. -/
def NoWord (env : Env) (n : Name) : Prop :=
  lowerStr env.u n.text ≠ q! "true" ∧ lowerStr env.u n.text ≠ q! "false" ∧ lowerStr env.u n.text ≠ q! "null"

/-- The function a call of `n` refers to: the one found for the name, else the global one. -/
inductive Callee (env : Env) (n : Name) : Decl → Prop
  | found (d) : env.find n.pos .function (n.folded env.u) = some d → Callee env n d
  | global (d) : env.find n.pos .function (n.folded env.u) = none →
      env.find n.pos .function { n.folded env.u with global := true } = some d → Callee env n d

/-- The typing rules. -/
inductive HasType (env : Env) : Node → Option Ty → Prop
  -- literals
  | int (s cs) : HasType env (.scalar .int s cs) (some (.integral .int))
  | float (s cs) : HasType env (.scalar .float s cs) (some (.integral .float))
  | string (s cs) : HasType env (.scalar .string s cs) (some (.integral .string))
  | interpolated (cs) : HasType env (.encapsed cs) (some (.integral .string))
  | array (cs) : HasType env (.array cs) (some (.integral .array))
  | bool (n) : lowerStr env.u n.text = q! "true" ∨ lowerStr env.u n.text = q! "false" →
      HasType env (.const n) (some (.integral .boolean))
  | null (n) : lowerStr env.u n.text = q! "null" → HasType env (.const n) (some (.integral .null))
  | closure (h b p l) : HasType env (.closure h b p l) (some (.ext .callable))
  -- names
  | constant (n d) : NoWord env n → env.find n.pos .constant (n.constId env.u) = some d → HasType env (.const n) d.type
  | known (v d) : env.findVar v = some d → HasType env (.varName v) d.type
  | unknown (v) : env.findVar v = none → HasType env (.varName v) none
  | classConst (n k c d l) : env.find n.pos .klass (n.folded env.u) = some c → env.hasContext c = true →
      env.members c k.text = l ++ [d] → ciEq env.u k.text (q! "class") = false → HasType env (.classConst n k) d.type
  | className (n k c) : env.find n.pos .klass (n.folded env.u) = some c → env.hasContext c = true →
      ciEq env.u k.text (q! "class") = true → HasType env (.classConst n k) (some (.integral .string))
  | staticProperty (n v c d l t rest) : env.find n.pos .klass (n.folded env.u) = some c → env.hasContext c = true →
      env.members c v.text = l ++ [d] → After d.type rest t → HasType env (.staticMember n v rest) t
  -- operators: the result does not depend on the operands
  | sum (op c) : op ≠ .concat → HasType env (.addRest op c) (some (.integral .int))
  | concat (c) : HasType env (.addRest .concat c) (some (.integral .string))
  | relation (c) : HasType env (.relRest c) (some (.integral .boolean))
  | equality (c) : HasType env (.eqRest false c) (some (.integral .boolean))
  | spaceship (c) : HasType env (.eqRest true c) (some (.integral .int))
  | instanceOf (e n cs) : HasType env (.instanceOf e (some n) cs) (some (.integral .boolean))
  | castInt (c) : HasType env (.cast .int c) (some (.integral .int))
  | castFloat (c) : HasType env (.cast .double c) (some (.integral .float))
  | castString (c) : HasType env (.cast .string c) (some (.integral .string))
  | castArray (c) : HasType env (.cast .array c) (some (.integral .array))
  | castBool (c) : HasType env (.cast .bool c) (some (.integral .boolean))
  | castObject (c d l) : env.stdclass 0 = l ++ [d] → HasType env (.cast .object c) d.type
  | index (e) : HasType env (.index e) (some (.integral .mixed))
  -- every other form has the type of its last part
  | last (front n t) : HasType env n t → HasType env (.plain (front ++ [n])) t
  -- assignments
  | assign (lhs front n t) : HasType env n t → HasType env (.assign .equal lhs (front ++ [n])) t
  | assignSum (op lhs rhs) : op ∈ [AssignOp.plus, .minus, .mul, .div, .exp] →
      HasType env (.assign op lhs rhs) (some (.integral .int))
  | assignConcat (lhs rhs) : HasType env (.assign .concat lhs rhs) (some (.integral .string))
  -- objects and calls
  | new (n d cs) : env.find n.pos .klass (n.folded env.u) = some d → HasType env (.newObj (.named n) cs) d.type
  | newUnknown (n cs) : env.find n.pos .klass (n.folded env.u) = none → HasType env (.newObj (.named n) cs) none
  | call (n d t args k) : Callee env n d → Returns env d t → HasType env (.call n args k) t
  | callUnknown (n args k) : (∀ d, ¬ Callee env n d) → HasType env (.call n args k) none
  | staticCall (n m c d l t args) : env.find n.pos .klass (n.folded env.u) = some c → env.hasContext c = true →
      env.members c (lowerStr env.u m.text) = l ++ [d] → Returns env d t → HasType env (.staticCall n m args) t
  | staticUnknown (n m args) : env.find n.pos .klass (n.folded env.u) = none → HasType env (.staticCall n m args) none
  | access (base b props t t') : HasType env base t → Chain env t props t' → HasType env (.variable base b props) t'

section
variable {env : Env}

@[simp] theorem qid_folded (u : CharClass) (n : Name) : n.qid u = n.folded u := by
  simp [Name.qid, Name.folded]
@[simp] theorem qid_const (u : CharClass) (n : Name) : n.qid u true = n.constId u := rfl

@[simp] theorem setType_type (s : St) (t) : (s.setType t).res.type = t := rfl
@[simp] theorem setDecls_type (s : St) (ds) : (s.setDecls ds).res.type = ds.getLast?.bind (·.type) := rfl
@[simp] theorem setDecl_type (s : St) (d) : (s.setDecl d).res.type = d.bind (·.type) := by cases d <;> rfl
@[simp] theorem setUnresolved_type (s : St) : s.setUnresolved.res.type = s.res.type := rfl
@[simp] theorem use_type (s : St) (p d) : (s.use p d).res.type = s.res.type := rfl
@[simp] theorem useNamespaces_type (s : St) (g n) : (s.useNamespaces env g n).res.type = s.res.type := rfl
@[simp] theorem useClass_type (s : St) (n) : (s.useClass env n).1.res.type = s.res.type := rfl
@[simp] theorem useClass_snd (s : St) (n : Name) : (s.useClass env n).2 = env.find n.pos .klass (n.folded env.u) := by
  simp [St.useClass]
@[simp] theorem setReturn_type (s : St) (t) : (s.setReturn t).res.type = s.res.type := by
  unfold St.setReturn; split <;> rfl
@[simp] theorem closeClosure_type (s : St) (t) : (s.closeClosure t).res.type = s.res.type := by
  unfold St.closeClosure; split <;> rfl
@[simp] theorem useString_type (i : Ident) (s : St) : (useString env i s).res.type = s.res.type := by
  unfold useString; repeat' split
  all_goals rfl
theorem resultOf_returns {d : Decl} {t : Option Ty} (h : Returns env d t) : resultOf env d = t := by
  unfold resultOf
  split
  · rename_i k hk; exact (h.1 k hk).symm
  · rename_i hk; exact (h.2 (fun k h' => hk k h')).symm

theorem visitList_append (a b : List Node) (s : St) : visitList env (a ++ b) s = visitList env b (visitList env a s) := by
  induction a generalizing s with
  | nil => rfl
  | cons n a ih => simp only [List.cons_append, visitList, ih]

theorem filter_none {ts : List Ty} (h : ∀ k, Ty.struct k ∉ ts) :
    ts.filter (fun t => match t with | .struct _ => true | _ => false) = [] := by
  rw [List.filter_eq_nil_iff]
  intro t ht
  cases t <;> simp
  exact h _ ht

theorem objectType_only {t : Ty} {c : Nat} (h : OnlyClass t c) : objectType (some t) = some (.struct c) := by
  cases h with
  | sure => rfl
  | among l r _ h1 h2 =>
    simp only [objectType, List.filter_append, filter_none h1, List.filter_cons, if_true, filter_none h2, List.nil_append]

theorem last_filter {p : Decl → Bool} {l r : List Decl} {d : Decl} (hd : p d = true) (hr : ∀ x ∈ r, p x = false) :
    ((l ++ d :: r).filter p).getLast? = some d := by
  have : r.filter p = [] := by
    rw [List.filter_eq_nil_iff]; intro x hx; simp [hr x hx]
  simp [List.filter_append, hd, this]

theorem memberDecls_last {cls : Decl} {b : Bool} {name : QString} {d : Decl} (h : Member env cls b name d) :
    (memberDecls env cls b name).getLast? = some d := by
  cases h with
  | method _ l _ r e h1 h2 =>
    simp only [memberDecls, if_true, e]
    exact last_filter h1 h2
  | property _ l _ r e h1 h2 h3 =>
    simp only [memberDecls, Bool.false_eq_true, if_false, e]
    refine last_filter ?_ ?_
    · cases hp : d.isPrivate <;> simp [h1]
      exact h2 hp
    · intro x hx
      rcases h3 x hx with h | ⟨h, h'⟩
      · simp [h]
      · simp [h, h']

/-- The last element that satisfies a condition. -/
theorem exists_last {p : Decl → Bool} : ∀ (l : List Decl) (d : Decl), (l.filter p).getLast? = some d →
    ∃ a r, l = a ++ d :: r ∧ p d = true ∧ ∀ x ∈ r, p x = false := by
  intro l
  induction l with
  | nil => intro d h; simp at h
  | cons x l ih =>
    intro d h
    cases hl : (l.filter p).getLast? with
    | some y =>
      have : y = d := by
        cases hp : p x with
        | false => simp [hp, hl] at h; exact h
        | true => simp [hp, List.getLast?_cons, hl] at h; exact h
      subst this
      obtain ⟨a, r, rfl, h1, h2⟩ := ih y hl
      exact ⟨x :: a, r, rfl, h1, h2⟩
    | none =>
      have hn : l.filter p = [] := by simpa using hl
      cases hp : p x with
      | false => simp [hp, hn] at h
      | true =>
        simp [hp, hn] at h; subst h
        refine ⟨[], l, rfl, hp, fun y hy => ?_⟩
        rw [List.filter_eq_nil_iff] at hn
        simpa using hn y hy

theorem member_of_last {cls : Decl} {b : Bool} {name : QString} {d : Decl}
    (h : (memberDecls env cls b name).getLast? = some d) : Member env cls b name d := by
  cases b with
  | true =>
    simp only [memberDecls, if_true] at h
    obtain ⟨a, r, e, h1, h2⟩ := exists_last _ _ h
    exact .method _ a d r e h1 h2
  | false =>
    simp only [memberDecls, Bool.false_eq_true, if_false] at h
    obtain ⟨a, r, e, h1, h2⟩ := exists_last _ _ h
    simp only [Bool.and_eq_true, Bool.not_eq_true', Bool.or_eq_true, beq_iff_eq] at h1
    refine .property _ a d r e h1.1 (fun hp => ?_) (fun x hx => ?_)
    · rcases h1.2 with h | h
      · rw [hp] at h; exact absurd h (by decide)
      · exact h
    · have := h2 x hx
      simp only [Bool.and_eq_false_iff, Bool.not_eq_false', Bool.or_eq_false_iff, beq_eq_false_iff_ne] at this
      exact this

theorem memberDecls_none {cls : Decl} {b : Bool} {name : QString} (h : ∀ d, ¬ Member env cls b name d) :
    (memberDecls env cls b name).getLast? = none := by
  cases hl : (memberDecls env cls b name).getLast? with
  | none => rfl
  | some d => exact absurd (member_of_last hl) (h d)

theorem accessProperty_type {t : Ty} {c : Nat} {cls : Decl} (ho : OnlyClass t c) (hm : HasMembers env c cls) (b : Bool)
    (name : Ident) (s : St) (hs : s.res.type = some t) :
    (accessProperty env b name s).res.type =
      match (memberDecls env cls b name.text).getLast? with
      | none => none
      | some d => if b then resultOf env d else d.type := by
  unfold accessProperty
  rw [hs, objectType_only ho]
  simp only [hm.1, contextOf, hm.2, if_true]
  cases hl : (memberDecls env cls b name.text).getLast? with
  | none => rfl
  | some d =>
    cases b with
    | true => rfl
    | false =>
      simp only [Bool.false_eq_true, if_false]
      split <;> simp [hl]

theorem after_type {t t' : Option Ty} {ns : List Node} (h : After t ns t') :
    ∀ s : St, s.res.type = t → (visitList env ns s).res.type = t' := by
  induction h with
  | done => intro s hs; exact hs
  | args t t' as rest _ ih => intro s hs; exact ih _ (by simp only [visit, setType_type]; exact hs)
  | index t t' e rest _ ih => intro s _; exact ih _ (by simp [visit])

theorem chain_type {t t' : Option Ty} {ns : List Node} (h : Chain env t ns t') :
    ∀ s : St, s.res.type = t → (visitList env ns s).res.type = t' := by
  induction h with
  | done => intro s hs; exact hs
  | method t c cls name d tm ta t' rest more ho hm hd hr ha _ ih =>
    intro s hs
    refine ih _ (after_type ha _ ?_)
    rw [accessProperty_type ho hm true name s hs, memberDecls_last hd]
    exact resultOf_returns hr
  | property t c cls name d ta t' rest more ho hm hd ha _ ih =>
    intro s hs
    refine ih _ (after_type ha _ ?_)
    rw [accessProperty_type ho hm false name s hs, memberDecls_last hd]
    rfl
  | missing t c cls b name ta t' rest more ho hm hd ha _ ih =>
    intro s hs
    refine ih _ (after_type ha _ ?_)
    rw [accessProperty_type ho hm b name s hs, memberDecls_none hd]

theorem function_type (n : Name) (s : St) {d : Decl} (h : Callee env n d) :
    (useFunction env n s).res.type = resultOf env d := by
  cases h with
  | found h => simp only [useFunction, qid_folded, h, setType_type]
  | global h h' => simp only [useFunction, qid_folded, h, h', setType_type]

/-- **C56 (types).** The type found for an expression follows the typing rules, whatever has been visited before. -/
theorem type_of {n : Node} {t : Option Ty} (h : HasType env n t) : ∀ s : St, (visit env n s).res.type = t := by
  induction h with
  | int | float | string =>
    intro s; simp [visit, Scalar.ty]
  | interpolated | array | index | closure | relation | equality | spaceship | concat | instanceOf =>
    intro s; simp [visit]
  | castInt | castFloat | castString | castArray | castBool => intro s; simp [visit, castType]
  | sum op c h => intro s; simp [visit, h]
  | bool n h => intro s; simp [visit, useConstant, h]
  | null n h =>
    intro s
    have : ¬ (lowerStr env.u n.text = q! "true" ∨ lowerStr env.u n.text = q! "false") := by rw [h]; decide
    simp only [visit, useConstant]
    rw [if_neg this, if_pos h]; rfl
  | constant n d hw h =>
    intro s
    have : ¬ (lowerStr env.u n.text = q! "true" ∨ lowerStr env.u n.text = q! "false") := by
      rintro (h | h)
      · exact hw.1 h
      · exact hw.2.1 h
    simp only [visit, useConstant, this, hw.2.2, if_false, qid_const, h, useNamespaces_type, use_type, setDecl_type, Option.bind_some]
  | known v d h => intro s; simp only [visit, processVariable, h, setDecl_type, Option.bind_some]
  | unknown v h => intro s; simp only [visit, processVariable, h, setDecl_type, Option.bind_none]
  | classConst n k c d l h1 h2 h3 h4 =>
    intro s; simp [visit, accessConstant, contextOf, h1, h2, h3, h4]
  | className n k c h1 h2 h4 => intro s; simp [visit, accessConstant, contextOf, h1, h2, h4]
  | staticProperty n v c d l t rest h1 h2 h3 h4 =>
    intro s
    simp only [visit]
    refine after_type h4 _ ?_
    simp [useStaticMember, contextOf, h1, h2, h3]
  | castObject c d l h => intro s; simp [visit, h]
  | last front n t _ ih => intro s; simp only [visit, visitList_append, visitList]; exact ih _
  | assign lhs front n t _ ih => intro s; simp only [visit, visitList_append, visitList, assignType]; exact ih _
  | assignSum op lhs rhs h =>
    intro s
    simp only [List.mem_cons, List.not_mem_nil, or_false] at h
    rcases h with rfl | rfl | rfl | rfl | rfl <;> simp [visit, assignType]
  | assignConcat => intro s; simp [visit, assignType]
  | new n d cs h => intro s; simp [visit, h]
  | newUnknown n cs h => intro s; simp [visit, h]
  | call n d t args k hc hr =>
    intro s
    simp only [visit]
    rw [function_type n _ hc, resultOf_returns hr]
  | callUnknown n args k h =>
    intro s
    have h1 : env.find n.pos .function (n.folded env.u) = none := by
      cases hf : env.find n.pos .function (n.folded env.u) with
      | none => rfl
      | some d => exact absurd (.found d hf) (h d)
    have h2 : env.find n.pos .function { n.folded env.u with global := true } = none := by
      cases hf : env.find n.pos .function { n.folded env.u with global := true } with
      | none => rfl
      | some d => exact absurd (.global d h1 hf) (h d)
    simp only [visit, useFunction, qid_folded, h1, h2, setUnresolved_type, useNamespaces_type, use_type, setDecl_type, Option.bind_none]
  | staticCall n m c d l t args h1 h2 h3 h4 =>
    intro s
    simp [visit, useStaticCall, contextOf, h1, h2, h3, resultOf_returns h4]
  | staticUnknown n m args h => intro s; simp [visit, useStaticCall, contextOf, h]
  | access base b props t t' _ hc ih =>
    intro s
    simp only [visit]
    have := fun s => chain_type hc _ (ih s)
    split <;> exact this _

/-! ## C57, C58: uses and unresolved names -/

/-- What never gets less while nodes are visited. -/
structure Le (s s' : St) : Prop where
  uses : s.uses <+: s'.uses
  unresolved : s.res.unresolved = true → s'.res.unresolved = true
  eq : s.eq = false → s'.eq = false
  inDefine : s.inDefine = false → s'.inDefine = false

theorem Le.refl (s : St) : Le s s := ⟨List.prefix_refl _, id, id, id⟩
theorem Le.trans {a b c : St} (h : Le a b) (h' : Le b c) : Le a c :=
  ⟨h.uses.trans h'.uses, h'.unresolved ∘ h.unresolved, h'.eq ∘ h.eq, h'.inDefine ∘ h.inDefine⟩

theorem le_setType (s : St) (t) : Le s (s.setType t) := ⟨List.prefix_refl _, id, id, id⟩
theorem le_setDecls (s : St) (t) : Le s (s.setDecls t) := ⟨List.prefix_refl _, id, id, id⟩
theorem le_setDecl (s : St) (t) : Le s (s.setDecl t) := ⟨List.prefix_refl _, id, id, id⟩
theorem le_setUnresolved (s : St) : Le s s.setUnresolved := ⟨List.prefix_refl _, fun _ => rfl, id, id⟩
theorem le_use (s : St) (p d) : Le s (s.use p d) := ⟨List.prefix_append _ _, id, id, id⟩
theorem le_useNamespaces (s : St) (g n) : Le s (s.useNamespaces env g n) := ⟨List.prefix_append _ _, id, id, id⟩
theorem le_useClass (s : St) (n) : Le s (s.useClass env n).1 := (le_use _ _ _).trans (le_useNamespaces _ _ _)
theorem le_setReturn (s : St) (t) : Le s (s.setReturn t) := by
  unfold St.setReturn; split <;> exact ⟨List.prefix_refl _, id, id, id⟩
theorem le_closeClosure (s : St) (t) : Le s (s.closeClosure t) := by
  unfold St.closeClosure; split <;> exact ⟨List.prefix_refl _, id, id, id⟩

theorem le_useString (i : Ident) (s : St) : Le s (useString env i s) := by
  unfold useString
  split
  · exact .refl _
  · split
    · exact .refl _
    · split
      · exact le_use _ _ _
      · exact le_setUnresolved _

theorem le_processVariable (v : Ident) (s : St) : Le s (processVariable env v s).1 := by
  unfold processVariable
  simp only
  split
  · exact le_use _ _ _
  · exact .refl _

theorem le_accessProperty (b : Bool) (name : Ident) (s : St) : Le s (accessProperty env b name s) := by
  unfold accessProperty
  split
  · split
    · exact le_setType _ _
    · rename_i cls _
      simp only
      have h2 : Le s (if s.eq then s.setDecls (memberDecls env cls b name.text)
          else (s.setDecls (memberDecls env cls b name.text)).use name.pos (memberDecls env cls b name.text).getLast?) := by
        split
        · exact le_setDecls _ _
        · exact (le_setDecls _ _).trans (le_use _ _ _)
      split
      · exact h2.trans (le_setType _ _)
      · split
        · exact h2.trans (le_setType _ _)
        · exact h2
  · exact .refl _

theorem le_accessConstant (c : Option Decl) (k : Ident) (s : St) : Le s (accessConstant env c k s) := by
  unfold accessConstant
  split
  · simp only
    split
    · exact ((le_setDecls _ _).trans (le_use _ _ _)).trans (le_setType _ _)
    · exact (le_setDecls _ _).trans (le_use _ _ _)
  · exact le_setType _ _

theorem le_useConstant (n : Name) (s : St) : Le s (useConstant env n s) := by
  unfold useConstant
  simp only
  split
  · exact le_setType _ _
  · split
    · exact le_setType _ _
    · split
      · exact ((le_setDecl _ _).trans (le_use _ _ _)).trans (le_useNamespaces _ _ _)
      · exact ((le_setDecl _ _).trans (le_use _ _ _)).trans (le_useNamespaces _ _ _)

theorem le_useFunction (n : Name) (s : St) : Le s (useFunction env n s) := by
  unfold useFunction
  simp only
  generalize hx : (match env.find n.pos .function (n.qid env.u) with
    | some d => (some d, (n.qid env.u).global)
    | none => (env.find n.pos .function { n.qid env.u with global := true }, true)) = x
  have h := (((le_setDecl s x.1).trans (le_use _ n.last.pos x.1)).trans (le_useNamespaces (env := env) _ x.2 n))
  split
  · exact h.trans (le_setType _ _)
  · exact h.trans (le_setUnresolved _)

theorem le_useStaticCall (n : Name) (m : Ident) (s : St) : Le s (useStaticCall env n m s) := by
  unfold useStaticCall
  simp only
  refine (le_useClass (env := env) s n).trans ?_
  split
  · split
    · exact ((le_setDecls _ _).trans (le_use _ _ _)).trans (le_setType _ _)
    · exact le_setDecls _ _
  · exact ((le_setUnresolved _).trans (le_use _ _ _)).trans (le_setType _ _)

theorem le_useStaticMember (n : Name) (m : Ident) (s : St) : Le s (useStaticMember env n m s) := by
  unfold useStaticMember
  simp only
  refine (le_useClass (env := env) s n).trans ?_
  split
  · exact (le_setDecls _ _).trans (le_use _ _ _)
  · exact (le_use _ _ _).trans (le_setType _ _)

theorem le_useLexical (l : List Ident) (s : St) : Le s (useLexical env l s) := by
  induction l generalizing s with
  | nil => exact .refl _
  | cons i l ih => exact (le_use _ _ _).trans (ih _)

theorem le_useEncapsProp (d p) (s : St) : Le s (useEncapsProp env d p s) := by
  unfold useEncapsProp
  split
  · exact le_use _ _ _
  · exact .refl _

mutual
theorem le_visit (n : Node) (s : St) : Le s (visit env n s) := by
  cases n with
  | plain cs => simp only [visit]; exact le_visitList cs s
  | assign op lhs rhs =>
    simp only [visit]
    have h1 := le_visit lhs { s with eq := if op = .equal then true else s.eq }
    have h2 := le_visitList rhs { visit env lhs { s with eq := if op = .equal then true else s.eq } with eq := false }
    have h : Le s (visitList env rhs { visit env lhs { s with eq := if op = .equal then true else s.eq } with eq := false }) :=
      ⟨h1.uses.trans h2.uses, fun h => h2.unresolved (h1.unresolved h), fun _ => h2.eq rfl,
        fun h => h2.inDefine (h1.inDefine h)⟩
    split
    · exact h.trans (le_setType _ _)
    · exact h
  | index e => simp only [visit]; exact (le_visitList e s).trans (le_setType _ _)
  | varName v => simp only [visit]; exact (le_processVariable v s).trans (le_setDecl _ _)
  | «variable» base b props =>
    simp only [visit]
    have h1 := le_visit base { s with eq := if b then false else s.eq }
    have h2 := le_visitList props (visit env base { s with eq := if b then false else s.eq })
    have h := h1.trans h2
    cases b with
    | true => exact ⟨h.uses, h.unresolved, id, h.inDefine⟩
    | false => exact ⟨h.uses, h.unresolved, h.eq, h.inDefine⟩
  | yield p cs =>
    simp only [visit]
    split
    · exact ((le_visitList cs s).trans (le_setType _ _)).trans (le_setReturn _ _)
    · exact le_visitList cs s
  | newObj c cs =>
    simp only [visit]
    refine (le_visitList cs s).trans ?_
    split
    · exact (le_use _ _ _).trans (le_setDecl _ _)
    · exact (le_useClass _ _).trans (le_setDecl _ _)
    · exact .refl _
  | array cs => simp only [visit]; exact (le_visitList cs s).trans (le_setType _ _)
  | typeHint n => exact le_useClass _ _
  | closure hint body sig lexical =>
    simp only [visit]
    have h1 := le_visitList body { s with closures := some (.integral .void) :: s.closures }
    have h0 : Le s { s with closures := some (.integral .void) :: s.closures } := ⟨List.prefix_refl _, id, id, id⟩
    exact (((((h0.trans h1).trans (le_visitList sig _)).trans (le_useLexical _ _)).trans (le_setType _ _)).trans
      (le_closeClosure _ _))
  | params cs =>
    simp only [visit]
    exact ((le_visitList cs s).trans (le_setDecls _ _)).trans (le_setType _ _)
  | param c =>
    simp only [visit]
    have h := le_visit c s
    exact ⟨h.uses, h.unresolved, h.eq, fun _ => rfl⟩
  | call f args n =>
    simp only [visit]
    have h1 := le_visit args { s with inDefine := isDefine env f n || s.inDefine }
    have h : Le s { visit env args { s with inDefine := isDefine env f n || s.inDefine } with inDefine := false } :=
      ⟨h1.uses, h1.unresolved, h1.eq, fun _ => rfl⟩
    exact h.trans (le_useFunction _ _)
  | staticCall c m args =>
    simp only [visit]
    have h1 := le_visit args s
    have h : Le s { visit env args s with inDefine := false } := ⟨h1.uses, h1.unresolved, h1.eq, fun _ => rfl⟩
    exact h.trans (le_useStaticCall _ _ _)
  | staticCallExpr c args e =>
    simp only [visit]
    have h1 := (le_visit args s).trans (le_visit e _)
    have h : Le s { visit env e (visit env args s) with inDefine := false } :=
      ⟨h1.uses, h1.unresolved, h1.eq, fun _ => rfl⟩
    exact (h.trans (le_useClass _ _)).trans (le_setDecl _ _)
  | const n => exact le_useConstant _ _
  | classConst c k => simp only [visit]; exact (le_useClass _ _).trans (le_accessConstant _ _ _)
  | scalar k t cs =>
    simp only [visit]
    have h := (le_visitList cs s).trans (le_setType _ (some k.ty))
    split
    · exact h.trans (le_useString _ _)
    · exact h
  | encapsed cs => simp only [visit]; exact (le_visitList cs s).trans (le_setType _ _)
  | encapsVar v p cs =>
    simp only [visit]
    exact ((le_visitList cs s).trans (le_processVariable _ _)).trans (le_useEncapsProp _ _ _)
  | prop b name cs => simp only [visit]; exact (le_accessProperty _ _ _).trans (le_visitList cs _)
  | staticMember c v o => simp only [visit]; exact (le_useStaticMember _ _ _).trans (le_visitList o _)
  | staticMemberExpr c e o =>
    simp only [visit]
    exact (((le_useClass _ _).trans (le_visit e _)).trans (le_setType _ _)).trans (le_visitList o _)
  | cast k c =>
    simp only [visit]
    refine (le_visit c s).trans ?_
    split
    · exact le_setDecls _ _
    · split
      · exact le_setType _ _
      · exact .refl _
  | addRest op c => simp only [visit]; exact (le_visit c s).trans (le_setType _ _)
  | relRest c => simp only [visit]; exact (le_visit c s).trans (le_setType _ _)
  | eqRest b c => simp only [visit]; exact (le_visit c s).trans (le_setType _ _)
  | instanceOf e c cs =>
    simp only [visit]
    refine ((le_visit e s).trans (le_visitList cs _)).trans ?_
    split
    · exact (le_useClass _ _).trans (le_setType _ _)
    · exact .refl _
  | ret e => simp only [visit]; exact (le_visit e s).trans (le_setReturn _ _)
theorem le_visitList (ns : List Node) (s : St) : Le s (visitList env ns s) := by
  cases ns with
  | nil => exact .refl _
  | cons n ns => exact (le_visit n s).trans (le_visitList ns _)
end

/-- A node inside another one: whether it belongs to the target of an assignment with `=`, and whether it belongs to the
name given to `define` (`none`: as around it). -/
structure Part where
  node : Node
  target : Option Bool := none
  defName : Option Bool := none

/-- The parts of a node. -/
def Node.parts (env : Env) : Node → List Part
  | .plain cs | .index cs | .yield _ cs | .newObj _ cs | .array cs | .scalar _ _ cs | .encapsed cs | .encapsVar _ _ cs
  | .prop _ _ cs | .staticMember _ _ cs => cs.map ({ node := · })
  | .assign op lhs rhs =>
    { node := lhs, target := if op = .equal then some true else none } :: rhs.map ({ node := ·, target := some false })
  | .variable base b props => (base :: props).map ({ node := ·, target := if b then some false else none })
  | .closure _ body sig _ => (body ++ sig).map ({ node := · })
  | .params (.param a :: cs) => { node := .param a } :: cs.map ({ node := ·, defName := some false })
  | .params cs => cs.map ({ node := · })
  | .call f args n => [{ node := args, defName := if (f.folded env.u).parts = [q! "define"] ∧ n ≠ 0 then some true else none }]
  | .staticCall _ _ args => [{ node := args }]
  | .staticCallExpr _ args e => [{ node := args }, { node := e }]
  | .staticMemberExpr _ e offsets => { node := e } :: offsets.map ({ node := · })
  | .param c | .cast _ c | .addRest _ c | .relRest c | .eqRest _ c | .ret c => [{ node := c }]
  | .instanceOf e _ cs => { node := e } :: cs.map ({ node := · })
  | .varName _ | .typeHint _ | .const _ | .classConst _ _ => []

/-- `m` occurs in `n`; the flags: as part of an assignment target, as part of the name given to `define`. -/
inductive At (env : Env) (n : Node) : Node → Bool → Bool → Prop
  | root : At env n n false false
  | down {m t d} (p : Part) : At env n m t d → p ∈ m.parts env → At env n p.node (p.target.getD t) (p.defName.getD d)

/-- One visit is contained in another. -/
structure Sub (s s' : St) : Prop where
  uses : s.uses <+: s'.uses
  unresolved : s.res.unresolved = true → s'.res.unresolved = true

theorem Le.sub {a b : St} (h : Le a b) : Sub a b := ⟨h.uses, h.unresolved⟩
theorem Sub.trans {a b c : St} (h : Sub a b) (h' : Sub b c) : Sub a c :=
  ⟨h.uses.trans h'.uses, h'.unresolved ∘ h.unresolved⟩

/-- A state in which a part is visited. -/
def Visited (env : Env) (p : Part) (s : St) (r : St) : Prop :=
  ∃ s', Sub (visit env p.node s') r ∧ (p.target.getD s.eq = false → s'.eq = false) ∧
    (p.defName.getD s.inDefine = false → s'.inDefine = false)

theorem Visited.mono {p : Part} {s r r' : St} (h : Visited env p s r) (hs : Sub r r') : Visited env p s r' := by
  obtain ⟨s', h1, h2⟩ := h
  exact ⟨s', h1.trans hs, h2⟩

/-- every element of a list is visited -/
theorem visited_list (f : Node → Part) (hf : ∀ n, (f n).node = n) (s0 : St) (cs : List Node) : ∀ (s : St),
    (∀ n, (f n).target.getD s0.eq = false → s.eq = false) → (∀ n, (f n).defName.getD s0.inDefine = false → s.inDefine = false) →
    ∀ p ∈ cs.map f, Visited env p s0 (visitList env cs s) := by
  induction cs with
  | nil => intro s _ _ p hp; simp at hp
  | cons c cs ih =>
    intro s h1 h2 p hp
    simp only [List.map_cons, List.mem_cons] at hp
    rcases hp with rfl | hp
    · exact ⟨s, by rw [hf]; exact (le_visitList cs _).sub, h1 c, h2 c⟩
    · exact ih _ (fun n h => (le_visit c s).eq (h1 n h)) (fun n h => (le_visit c s).inDefine (h2 n h)) p hp

theorem visited_same (s0 s : St) (he : s0.eq = false → s.eq = false) (hd : s0.inDefine = false → s.inDefine = false)
    (cs : List Node) : ∀ p ∈ cs.map ({ node := · : Part }), Visited env p s0 (visitList env cs s) :=
  visited_list _ (fun _ => rfl) s0 cs s (fun _ => he) (fun _ => hd)

theorem visited_one (s0 s : St) (c : Node) (he : s0.eq = false → s.eq = false) (hd : s0.inDefine = false → s.inDefine = false) :
    Visited env { node := c } s0 (visit env c s) := ⟨s, (Le.refl _).sub, he, hd⟩

theorem sub_of_eq {a b : St} (h1 : a.uses = b.uses) (h2 : a.res.unresolved = b.res.unresolved) : Sub a b :=
  ⟨by rw [h1]; exact List.prefix_refl _, by rw [h2]; exact id⟩
theorem sub_setEq (s : St) (b : Bool) : Sub s { s with eq := b } := sub_of_eq rfl rfl
theorem sub_setDef (s : St) (b : Bool) : Sub s { s with inDefine := b } := sub_of_eq rfl rfl

theorem isDefine_iff (f : Name) (n : Nat) : isDefine env f n = true ↔ (f.folded env.u).parts = [q! "define"] ∧ n ≠ 0 := by
  simp [isDefine]

theorem part_visited (m : Node) (p : Part) (hp : p ∈ m.parts env) (s : St) : Visited env p s (visit env m s) := by
  cases m with
  | plain cs => exact visited_same s s id id cs p hp
  | assign op lhs rhs =>
    simp only [visit]
    have key : Visited env p s (visitList env rhs
        { visit env lhs { s with eq := if op = .equal then true else s.eq } with eq := false }) := by
      simp only [Node.parts, List.mem_cons] at hp
      rcases hp with rfl | hp
      · refine ⟨{ s with eq := if op = .equal then true else s.eq }, ?_, ?_, id⟩
        · exact (sub_setEq _ false).trans (le_visitList rhs _).sub
        · intro h
          by_cases ho : op = .equal
          · simp [ho] at h
          · simpa [ho] using h
      · refine visited_list (fun n => { node := n, target := some false }) (fun _ => rfl) s rhs _ (fun _ _ => rfl) ?_ p hp
        intro _ h
        exact (le_visit lhs { s with eq := if op = .equal then true else s.eq }).inDefine h
    split
    · exact key.mono (le_setType _ _).sub
    · exact key
  | index e => simp only [visit]; exact (visited_same s s id id e p hp).mono (le_setType _ _).sub
  | varName v => simp [Node.parts] at hp
  | «variable» base b props =>
    simp only [visit]
    have key : Visited env p s (visitList env props (visit env base { s with eq := if b then false else s.eq })) := by
      refine visited_list (fun n => { node := n, target := if b then some false else none }) (fun _ => rfl) s
        (base :: props) { s with eq := if b then false else s.eq } ?_ (fun _ => id) p hp
      intro _ h
      cases b with
      | true => rfl
      | false => exact h
    cases b with
    | true => exact key.mono (sub_setEq _ _)
    | false => exact key
  | yield q cs =>
    simp only [visit]
    have key := visited_same (env := env) s s id id cs p hp
    split
    · exact key.mono ((le_setType _ _).trans (le_setReturn _ _)).sub
    · exact key
  | newObj c cs =>
    simp only [visit]
    refine (visited_same (env := env) s s id id cs p hp).mono (Le.sub ?_)
    split
    · exact (le_use _ _ _).trans (le_setDecl _ _)
    · exact (le_useClass _ _).trans (le_setDecl _ _)
    · exact .refl _
  | array cs => simp only [visit]; exact (visited_same s s id id cs p hp).mono (le_setType _ _).sub
  | typeHint n => simp [Node.parts] at hp
  | closure hint body sig lexical =>
    simp only [visit]
    have e : visitList env sig (visitList env body { s with closures := some (.integral .void) :: s.closures }) =
        visitList env (body ++ sig) { s with closures := some (.integral .void) :: s.closures } :=
      (visitList_append _ _ _).symm
    rw [e]
    exact (visited_same s { s with closures := some (.integral .void) :: s.closures } id id (body ++ sig) p hp).mono
      (((le_useLexical _ _).trans (le_setType _ _)).trans (le_closeClosure _ _)).sub
  | params cs =>
    simp only [visit]
    have key : Visited env p s (visitList env cs s) := by
      cases cs with
      | nil => simp [Node.parts] at hp
      | cons c cs =>
        by_cases hc : ∃ a, c = .param a
        · obtain ⟨a, rfl⟩ := hc
          simp only [Node.parts, List.mem_cons] at hp
          rcases hp with rfl | hp
          · exact (visited_one s s (.param a) id id).mono (le_visitList cs _).sub
          · refine visited_list (fun n => { node := n, defName := some false }) (fun _ => rfl) s cs _ ?_ ?_ p hp
            · exact fun _ h => (le_visit _ _).eq h
            · exact fun _ _ => by simp [visit]
        · have : p ∈ (c :: cs).map ({ node := · : Part }) := by
            cases c <;> first | exact hp | exact absurd ⟨_, rfl⟩ hc
          exact visited_same s s id id _ p this
    exact key.mono ((le_setDecls _ _).trans (le_setType _ _)).sub
  | param c =>
    simp only [Node.parts, List.mem_singleton] at hp; subst hp
    exact (visited_one s s c id id).mono (sub_of_eq rfl rfl)
  | call f args n =>
    simp only [Node.parts, List.mem_singleton] at hp; subst hp
    simp only [visit]
    refine ⟨{ s with inDefine := isDefine env f n || s.inDefine }, ?_, id, ?_⟩
    · exact (sub_setDef _ false).trans (le_useFunction _ _).sub
    · intro h
      have hi := isDefine_iff (env := env) f n
      cases hd : isDefine env f n with
      | true => simp [hi.1 hd] at h
      | false =>
        have : ¬ ((f.folded env.u).parts = [q! "define"] ∧ n ≠ 0) := fun h => by rw [hi.2 h] at hd; simp at hd
        rw [if_neg this] at h; exact h
  | staticCall c m args =>
    simp only [Node.parts, List.mem_singleton] at hp; subst hp
    simp only [visit]
    exact ((visited_one s s args id id).mono (sub_setDef _ false)).mono (le_useStaticCall _ _ _).sub
  | staticCallExpr c args e =>
    simp only [visit]
    have key : Visited env p s (visit env e (visit env args s)) := by
      simp only [Node.parts, List.mem_cons, List.not_mem_nil, or_false] at hp
      rcases hp with rfl | rfl
      · exact (visited_one s s args id id).mono (le_visit e _).sub
      · exact visited_one s _ e (le_visit args s).eq (le_visit args s).inDefine
    exact (key.mono (sub_setDef _ false)).mono
      ((le_useClass _ _).trans (le_setDecl _ _)).sub
  | const n => simp [Node.parts] at hp
  | classConst c k => simp [Node.parts] at hp
  | scalar k t cs =>
    simp only [visit]
    have key := (visited_same (env := env) s s id id cs p hp).mono (le_setType _ (some k.ty)).sub
    split
    · exact key.mono (le_useString _ _).sub
    · exact key
  | encapsed cs => simp only [visit]; exact (visited_same s s id id cs p hp).mono (le_setType _ _).sub
  | encapsVar v q cs =>
    simp only [visit]
    exact (visited_same s s id id cs p hp).mono ((le_processVariable _ _).trans (le_useEncapsProp _ _ _)).sub
  | prop b name cs =>
    simp only [visit]
    have h := le_accessProperty (env := env) b name s
    exact visited_same s _ h.eq h.inDefine cs p hp
  | staticMember c v o =>
    simp only [visit]
    have h := le_useStaticMember (env := env) c v s
    exact visited_same s _ h.eq h.inDefine o p hp
  | staticMemberExpr c e o =>
    simp only [visit]
    have h0 := le_useClass (env := env) s c
    have h1 := h0.trans (le_visit (env := env) e _)
    simp only [Node.parts, List.mem_cons] at hp
    rcases hp with rfl | hp
    · exact (visited_one s _ e h0.eq h0.inDefine).mono ((le_setType _ _).trans (le_visitList o _)).sub
    · have h2 := h1.trans (le_setType _ none)
      exact visited_same s _ h2.eq h2.inDefine o p hp
  | cast k c =>
    simp only [Node.parts, List.mem_singleton] at hp; subst hp
    simp only [visit]
    refine (visited_one s s c id id).mono (Le.sub ?_)
    split
    · exact le_setDecls _ _
    · split
      · exact le_setType _ _
      · exact .refl _
  | addRest op c =>
    simp only [Node.parts, List.mem_singleton] at hp; subst hp
    simp only [visit]; exact (visited_one s s c id id).mono (le_setType _ _).sub
  | relRest c =>
    simp only [Node.parts, List.mem_singleton] at hp; subst hp
    simp only [visit]; exact (visited_one s s c id id).mono (le_setType _ _).sub
  | eqRest b c =>
    simp only [Node.parts, List.mem_singleton] at hp; subst hp
    simp only [visit]; exact (visited_one s s c id id).mono (le_setType _ _).sub
  | instanceOf e c cs =>
    simp only [visit]
    have key : Visited env p s (visitList env cs (visit env e s)) := by
      simp only [Node.parts, List.mem_cons] at hp
      rcases hp with rfl | hp
      · exact (visited_one s s e id id).mono (le_visitList cs _).sub
      · exact visited_same s _ (le_visit e s).eq (le_visit e s).inDefine cs p hp
    refine key.mono (Le.sub ?_)
    split
    · exact (le_useClass _ _).trans (le_setType _ _)
    · exact .refl _
  | ret e =>
    simp only [Node.parts, List.mem_singleton] at hp; subst hp
    simp only [visit]; exact (visited_one s s e id id).mono (le_setReturn _ _).sub

/-- Every node in a tree is visited. -/
theorem node_visited {n m : Node} {t d : Bool} (h : At env n m t d) (s : St) (he : s.eq = false) (hd : s.inDefine = false) :
    ∃ s', Sub (visit env m s') (visit env n s) ∧ (t = false → s'.eq = false) ∧ (d = false → s'.inDefine = false) := by
  induction h with
  | root => exact ⟨s, (Le.refl _).sub, fun _ => he, fun _ => hd⟩
  | down p _ hp ih =>
    obtain ⟨s1, h1, h2, h3⟩ := ih
    obtain ⟨s2, g1, g2, g3⟩ := part_visited _ p hp s1
    refine ⟨s2, g1.trans h1, fun h => g2 ?_, fun h => g3 ?_⟩
    · cases ht : p.target with
      | none => rw [ht] at h; exact h2 h
      | some b => rw [ht] at h; exact h
    · cases ht : p.defName with
      | none => rw [ht] at h; exact h3 h
      | some b => rw [ht] at h; exact h

/-! ### Specification of the reported uses -/

/-- The class names in a node (not in its parts). -/
inductive NamesClass : Node → Name → Prop
  | new (n cs) : NamesClass (.newObj (.named n) cs) n
  | staticCall (n m a) : NamesClass (.staticCall n m a) n
  | staticCallExpr (n a e) : NamesClass (.staticCallExpr n a e) n
  | classConst (n k) : NamesClass (.classConst n k) n
  | staticMember (n v o) : NamesClass (.staticMember n v o) n
  | staticMemberExpr (n e o) : NamesClass (.staticMemberExpr n e o) n
  | instanceOf (e n cs) : NamesClass (.instanceOf e (some n) cs) n
  | hint (n) : NamesClass (.typeHint n) n

/-- The variables in a node. -/
inductive NamesVariable : Node → Ident → Prop
  | name (v) : NamesVariable (.varName v) v
  | inString (v p cs) : NamesVariable (.encapsVar v p cs) v

/-- The namespace in front of the part `i` of a name, with `i` itself, as it is looked up. -/
inductive Namespace (env : Env) (g : Bool) : Name → Ident → QId → Prop
  | mk (p g' before i after last) :
      Namespace env g ⟨p, g', before ++ i :: after, last⟩ i ⟨g, (before ++ [i]).map (fun x => lowerStr env.u x.text)⟩

/-- The declaration a constant refers to: as written, else global, else a global function of that name. -/
def constantDecl (env : Env) (n : Name) : Option Decl :=
  ((env.find n.pos .constant (n.constId env.u)).or (env.find n.pos .constant { n.constId env.u with global := true })).or
    (env.find n.pos .function { n.constId env.u with global := true })

/-- The declaration a function name refers to: as written, else global. -/
def functionDecl (env : Env) (n : Name) : Option Decl :=
  (env.find n.pos .function (n.folded env.u)).or (env.find n.pos .function { n.folded env.u with global := true })

theorem nsUses_iff (g : Bool) (is : List Ident) : ∀ (done : List Ident) (x : Pos × Option Decl),
    x ∈ nsUses env g (done.map (fun x => lowerStr env.u x.text)) is ↔
    ∃ before i after, is = before ++ i :: after ∧
      x = (i.pos, env.find i.pos .namespace ⟨g, (done ++ before ++ [i]).map (fun x => lowerStr env.u x.text)⟩) := by
  induction is with
  | nil => intro done x; simp [nsUses]
  | cons i is ih =>
    intro done x
    have e : done.map (fun x => lowerStr env.u x.text) ++ [lowerStr env.u i.text] =
        (done ++ [i]).map (fun x => lowerStr env.u x.text) := by simp
    simp only [nsUses, List.mem_cons, e, ih]
    constructor
    · rintro (rfl | ⟨b, j, a, rfl, rfl⟩)
      · exact ⟨[], i, is, rfl, by simp⟩
      · exact ⟨i :: b, j, a, rfl, by simp⟩
    · rintro ⟨b, j, a, h, rfl⟩
      cases b with
      | nil =>
        simp only [List.nil_append, List.cons.injEq] at h
        obtain ⟨rfl, rfl⟩ := h
        exact Or.inl (by simp)
      | cons y b =>
        simp only [List.cons_append, List.cons.injEq] at h
        obtain ⟨rfl, rfl⟩ := h
        exact Or.inr ⟨b, j, a, rfl, by simp⟩

theorem namespace_uses (g : Bool) (n : Name) (x : Pos × Option Decl) :
    x ∈ nsUses env g [] n.front ↔ ∃ i q, Namespace env g n i q ∧ x = (i.pos, env.find i.pos .namespace q) := by
  rw [show ([] : List QString) = ([] : List Ident).map (fun x => lowerStr env.u x.text) from rfl, nsUses_iff]
  obtain ⟨p, g', front, last⟩ := n
  constructor
  · rintro ⟨b, i, a, rfl, rfl⟩
    exact ⟨i, _, .mk .., rfl⟩
  · rintro ⟨i, q, h, rfl⟩
    cases h with
    | mk _ _ b _ a _ => exact ⟨b, i, a, rfl, rfl⟩

/-- the uses of a class name and its namespaces -/
def classUses (env : Env) (n : Name) : List (Pos × Option Decl) :=
  (n.last.pos, env.find n.pos .klass (n.folded env.u)) :: nsUses env n.isGlobal [] n.front

theorem useClass_uses (s : St) (n : Name) : (s.useClass env n).1.uses = s.uses ++ classUses env n := by
  simp [St.useClass, St.use, St.useNamespaces, classUses]

theorem useFunction_eq (n : Name) (s : St) : ∃ g, (useFunction env n s).uses =
    s.uses ++ (n.last.pos, functionDecl env n) :: nsUses env g [] n.front ∧
    ((useFunction env n s).res.unresolved = (s.res.unresolved || (functionDecl env n).isNone)) ∧
    (g = n.isGlobal ∨ g = true) := by
  unfold useFunction functionDecl
  simp only [qid_folded]
  cases h : env.find n.pos .function (n.folded env.u) with
  | some d =>
    refine ⟨n.isGlobal, ?_, ?_, Or.inl rfl⟩
    · simp [St.setType, St.useNamespaces, St.use, St.setDecl, St.setDecls, Name.folded]
    · simp [St.setType, St.useNamespaces, St.use, St.setDecl, St.setDecls]
  | none =>
    refine ⟨true, ?_, ?_, Or.inr rfl⟩ <;>
    cases h' : env.find n.pos .function { n.folded env.u with global := true } <;>
      simp [St.setType, St.useNamespaces, St.use, St.setDecl, St.setDecls, St.setUnresolved]

theorem useConstant_eq (n : Name) (s : St) (hw : NoWord env n) : ∃ g, (useConstant env n s).uses =
    s.uses ++ (n.last.pos, constantDecl env n) :: nsUses env g [] n.front ∧ (g = n.isGlobal ∨ g = true) := by
  have h0 : ¬ (lowerStr env.u n.text = q! "true" ∨ lowerStr env.u n.text = q! "false") := by
    rintro (h | h)
    · exact hw.1 h
    · exact hw.2.1 h
  unfold useConstant constantDecl
  simp only [qid_const]
  rw [if_neg h0, if_neg hw.2.2]
  cases h : env.find n.pos .constant (n.constId env.u) with
  | some d => exact ⟨n.isGlobal, by simp [St.useNamespaces, St.use, St.setDecl, St.setDecls, Name.constId], Or.inl rfl⟩
  | none =>
    refine ⟨true, ?_, Or.inr rfl⟩
    cases h' : env.find n.pos .constant { n.constId env.u with global := true } <;>
      simp [St.useNamespaces, St.use, St.setDecl, St.setDecls]

/-- a visitor that starts outside of assignments and `define` -/
def Fresh (s : St) : Prop := s.eq = false ∧ s.inDefine = false

theorem classUses_of {m : Node} {n : Name} (h : NamesClass m n) (s : St) : ∀ x ∈ classUses env n, x ∈ (visit env m s).uses := by
  intro x hx
  have key : ∀ s : St, x ∈ (s.useClass env n).1.uses := by
    intro s; rw [useClass_uses]; simp [hx]
  cases h with
  | new n cs => simp only [visit]; exact (le_setDecl _ _).uses.subset (key _)
  | staticCall n m a =>
    simp only [visit, useStaticCall]
    have := key { visit env a s with inDefine := false }
    split
    · split
      · exact (((le_setDecls _ _).trans (le_use _ _ _)).trans (le_setType _ _)).uses.subset this
      · exact (le_setDecls _ _).uses.subset this
    · exact (((le_setUnresolved _).trans (le_use _ _ _)).trans (le_setType _ _)).uses.subset this
  | staticCallExpr n a e => simp only [visit]; exact (le_setDecl _ _).uses.subset (key _)
  | classConst n k => simp only [visit]; exact (le_accessConstant _ _ _).uses.subset (key _)
  | staticMember n v o =>
    simp only [visit]
    refine (le_visitList o _).uses.subset ?_
    simp only [useStaticMember]
    split
    · exact ((le_setDecls _ _).trans (le_use _ _ _)).uses.subset (key s)
    · exact ((le_use _ _ _).trans (le_setType _ _)).uses.subset (key s)
  | staticMemberExpr n e o =>
    simp only [visit]
    exact (((le_visit e _).trans (le_setType _ _)).trans (le_visitList o _)).uses.subset (key s)
  | instanceOf e n cs => simp only [visit]; exact (le_setType _ _).uses.subset (key _)
  | hint n => exact key s

/-- **C57 (class names).** Wherever a class is named in an expression, a use is reported at the name, of the class the lookup
finds. -/
theorem class_reported {n m : Node} {t d : Bool} {c : Name} (h : At env n m t d) (hc : NamesClass m c) {s : St} (hs : Fresh s) :
    (c.last.pos, env.find c.pos .klass (c.folded env.u)) ∈ (visit env n s).uses := by
  obtain ⟨s', h1, _⟩ := node_visited h s hs.1 hs.2
  exact h1.uses.subset (classUses_of hc s' _ (by simp [classUses]))

/-- **C57 (namespaces).** The same for every namespace in front of a class name. -/
theorem namespace_reported {n m : Node} {t d : Bool} {c : Name} {i : Ident} {q : QId} (h : At env n m t d)
    (hc : NamesClass m c) (hi : Namespace env c.isGlobal c i q) {s : St} (hs : Fresh s) :
    (i.pos, env.find i.pos .namespace q) ∈ (visit env n s).uses := by
  obtain ⟨s', h1, _⟩ := node_visited h s hs.1 hs.2
  refine h1.uses.subset (classUses_of hc s' _ ?_)
  exact List.mem_cons_of_mem _ ((namespace_uses _ _ _).2 ⟨i, q, hi, rfl⟩)

/-- **C57 (functions).** Every called function is reported, as written or, if there is none, the global one. -/
theorem function_reported {n args : Node} {t d : Bool} {f : Name} {k : Nat} (h : At env n (.call f args k) t d)
    {s : St} (hs : Fresh s) : (f.last.pos, functionDecl env f) ∈ (visit env n s).uses := by
  obtain ⟨s', h1, _⟩ := node_visited h s hs.1 hs.2
  refine h1.uses.subset ?_
  simp only [visit]
  obtain ⟨g, h2, _⟩ := useFunction_eq (env := env) f
    { visit env args { s' with inDefine := isDefine env f k || s'.inDefine } with inDefine := false }
  rw [h2]; simp

/-- **C57 (constants).** Every constant is reported. -/
theorem constant_reported {n : Node} {t d : Bool} {c : Name} (h : At env n (.const c) t d) (hw : NoWord env c)
    {s : St} (hs : Fresh s) : (c.last.pos, constantDecl env c) ∈ (visit env n s).uses := by
  obtain ⟨s', h1, _⟩ := node_visited h s hs.1 hs.2
  refine h1.uses.subset ?_
  simp only [visit]
  obtain ⟨g, h2, _⟩ := useConstant_eq c s' hw
  rw [h2]; simp

/-- **C57 (variables).** Every variable is reported that does not belong to the target of an assignment — in a target, those
declared before —, except where it is declared. -/
theorem variable_reported {n m : Node} {t d : Bool} {v : Ident} (h : At env n m t d) (hv : NamesVariable m v)
    (ht : t = false ∨ v.text = q! "this" ∨ ∃ x, env.findVar v = some x ∧ x.stop < v.pos)
    (hd : ∀ x, env.findVar v = some x → x.stop ≠ v.pos) {s : St} (hs : Fresh s) :
    (v.pos, env.findVar v) ∈ (visit env n s).uses := by
  obtain ⟨s', h1, h2, _⟩ := node_visited h s hs.1 hs.2
  refine h1.uses.subset ?_
  have key : ∀ s1 : St, (t = false → s1.eq = false) → (v.pos, env.findVar v) ∈ (processVariable env v s1).1.uses := by
    intro s1 h2
    have hr : reportsVariable s1.eq v (env.findVar v) = true := by
      unfold reportsVariable
      rw [Bool.and_eq_true]
      constructor
      · rcases ht with ht | ht | ⟨x, hx, hlt⟩
        · rw [h2 ht]; rfl
        · simp [ht]
        · simp [hx, hlt]
      · cases hx : env.findVar v with
        | none => rfl
        | some x => simpa using hd x hx
    simp only [processVariable, hr, if_true, St.use]
    simp
  cases hv with
  | name v => simp only [visit]; exact (le_setDecl _ _).uses.subset (key _ h2)
  | inString v p cs =>
    simp only [visit]
    exact (le_useEncapsProp _ _ _).uses.subset (key _ (fun ht => (le_visitList cs s').eq (h2 ht)))

/-- **C57 (members).** In `object->…->name`, the member is reported if the class of the object is known: the declaration
that is found, or that there is none. -/
theorem member_reported {n base : Node} {t d : Bool} {front rest more : List Node} {isCall : Bool} {name : Ident}
    {t0 : Option Ty} {ty : Ty} {c : Nat} {cls : Decl}
    (h : At env n (.variable base true (front ++ .prop isCall name rest :: more)) t d)
    (hb : HasType env base t0) (hf : Chain env t0 front (some ty)) (ho : OnlyClass ty c) (hm : HasMembers env c cls)
    {s : St} (hs : Fresh s) :
    (∀ x, Member env cls isCall name.text x → (name.pos, some x) ∈ (visit env n s).uses) ∧
    ((∀ x, ¬ Member env cls isCall name.text x) → (name.pos, none) ∈ (visit env n s).uses) := by
  obtain ⟨s', h1, _⟩ := node_visited h s hs.1 hs.2
  have key : (name.pos, (memberDecls env cls isCall name.text).getLast?) ∈ (visit env n s).uses := by
    refine h1.uses.subset ?_
    simp only [visit, if_true, visitList_append, visitList]
    refine (le_visitList more _).uses.subset ((le_visitList rest _).uses.subset ?_)
    have hty := chain_type hf _ (type_of hb { s' with eq := false })
    have heq : (visitList env front (visit env base { s' with eq := false })).eq = false :=
      (le_visitList front _).eq ((le_visit base _).eq rfl)
    generalize visitList env front (visit env base { s' with eq := false }) = s1 at hty heq
    unfold accessProperty
    rw [hty, objectType_only ho]
    simp only [hm.1, contextOf, hm.2, if_true, heq, Bool.false_eq_true, if_false]
    have hu : (name.pos, (memberDecls env cls isCall name.text).getLast?) ∈
        ((s1.setDecls (memberDecls env cls isCall name.text)).use name.pos
          (memberDecls env cls isCall name.text).getLast?).uses := by simp [St.use]
    split
    · exact (le_setType _ _).uses.subset hu
    · split
      · exact (le_setType _ _).uses.subset hu
      · exact hu
  constructor
  · intro x hx
    rw [memberDecls_last hx] at key; exact key
  · intro hn
    rw [memberDecls_none hn] at key; exact key

/-! ### Nothing else is reported -/

/-- The names of members in a node. -/
inductive NamesMember : Node → Ident → Prop
  | prop (b i cs) : NamesMember (.prop b i cs) i
  | staticCall (n i a) : NamesMember (.staticCall n i a) i
  | classConst (n i) : NamesMember (.classConst n i) i
  | staticMember (n i o) : NamesMember (.staticMember n i o) i
  | inString (v i cs) : NamesMember (.encapsVar v (some i) cs) i

/-- What may be reported for a node itself. -/
inductive Reports (env : Env) : Node → Pos × Option Decl → Prop
  | «variable» (m v) : NamesVariable m v → Reports env m (v.pos, env.findVar v)
  | klass (m c) : NamesClass m c → Reports env m (c.last.pos, env.find c.pos .klass (c.folded env.u))
  | nspace (m c g i q) : (NamesClass m c ∨ (∃ a k, m = .call c a k) ∨ m = .const c) → (g = c.isGlobal ∨ g = true) →
      Namespace env g c i q → Reports env m (i.pos, env.find i.pos .namespace q)
  | function (f a k) : Reports env (.call f a k) (f.last.pos, functionDecl env f)
  | constant (c) : Reports env (.const c) (c.last.pos, constantDecl env c)
  | member (m i cls name d) : NamesMember m i → d ∈ env.members cls name → Reports env m (i.pos, some d)
  | noMember (m i) : NamesMember m i → Reports env m (i.pos, none)
  | static (p cs) : Reports env (.newObj (.static p) cs) (p, env.find p .klass ⟨false, [q! "static"]⟩)
  | word (i w cs d) : (∃ a b, isQuote a = true ∧ isQuote b = true ∧ i.text = a :: w ++ [b]) →
      env.find i.pos .klass ⟨false, [lowerStr env.u w]⟩ = some d → Reports env (.scalar .string i cs) (i.pos, some d)
  | lexical (h b s l i) : i ∈ l → Reports env (.closure h b s l) (i.pos, env.lexical i)
  | noClass (c v o) : Reports env (.staticMember c v o) (c.pos, none)

/-- The names that cannot be resolved: a function, the class of a static call, a string that looks like a class name. -/
inductive Unresolved (env : Env) : Node → Prop
  | function (f a k) : functionDecl env f = none → Unresolved env (.call f a k)
  | klass (c m a) : (∀ d, env.find c.pos .klass (c.folded env.u) = some d → env.hasContext d = false) →
      Unresolved env (.staticCall c m a)
  | word (i w cs) : (∃ a b, isQuote a = true ∧ isQuote b = true ∧ i.text = a :: w ++ [b]) → w ≠ [] →
      (∀ x ∈ w, isWordChar x = true) → env.find i.pos .klass ⟨false, [lowerStr env.u w]⟩ = none →
      Unresolved env (.scalar .string i cs)

/-- `m` occurs in `n`. -/
def Inside (env : Env) (n m : Node) : Prop := ∃ t d, At env n m t d

theorem Inside.refl (n : Node) : Inside env n n := ⟨_, _, .root⟩
theorem Inside.part {n m : Node} (p : Part) (hp : p ∈ n.parts env) (h : Inside env p.node m) : Inside env n m := by
  obtain ⟨t, d, h⟩ := h
  induction h with
  | root => exact ⟨_, _, .down p .root hp⟩
  | down q _ hq ih =>
    obtain ⟨t', d', h'⟩ := ih
    exact ⟨_, _, .down q h' hq⟩

/-- From `s` to `s'` only such uses are added, and the flag is only set in such a case. -/
structure Only (P : Pos × Option Decl → Prop) (Q : Prop) (s s' : St) : Prop where
  uses : ∀ x ∈ s'.uses, x ∈ s.uses ∨ P x
  unresolved : s'.res.unresolved = true → s.res.unresolved = true ∨ Q

section
variable {P P' : Pos × Option Decl → Prop} {Q Q' : Prop}

theorem Only.same {s s' : St} (h1 : s'.uses = s.uses) (h2 : s'.res.unresolved = s.res.unresolved) : Only P Q s s' :=
  ⟨fun _ hx => Or.inl (h1 ▸ hx), fun h => Or.inl (h2 ▸ h)⟩
theorem Only.refl (s : St) : Only P Q s s := .same rfl rfl
theorem Only.trans {a b c : St} (h : Only P Q a b) (h' : Only P Q b c) : Only P Q a c := by
  refine ⟨fun x hx => ?_, fun hu => ?_⟩
  · rcases h'.uses x hx with h1 | h1
    · exact h.uses x h1
    · exact Or.inr h1
  · rcases h'.unresolved hu with h1 | h1
    · exact h.unresolved h1
    · exact Or.inr h1
theorem Only.mono {a b : St} (h : Only P Q a b) (hP : ∀ x, P x → P' x) (hQ : Q → Q') : Only P' Q' a b :=
  ⟨fun x hx => (h.uses x hx).imp id (hP x), fun hu => (h.unresolved hu).imp id hQ⟩

theorem only_setType (s : St) (t) : Only P Q s (s.setType t) := .same rfl rfl
theorem only_setDecls (s : St) (t) : Only P Q s (s.setDecls t) := .same rfl rfl
theorem only_setDecl (s : St) (t) : Only P Q s (s.setDecl t) := .same rfl rfl
theorem only_setReturn (s : St) (t) : Only P Q s (s.setReturn t) := by
  unfold St.setReturn; split <;> exact .same rfl rfl
theorem only_closeClosure (s : St) (t) : Only P Q s (s.closeClosure t) := by
  unfold St.closeClosure; split <;> exact .same rfl rfl
theorem only_setEq (s : St) (b) : Only P Q s { s with eq := b } := .same rfl rfl
theorem only_setDef (s : St) (b) : Only P Q s { s with inDefine := b } := .same rfl rfl
theorem only_use (s : St) (p d) (h : P (p, d)) : Only P Q s (s.use p d) := by
  refine ⟨fun x hx => ?_, Or.inl⟩
  simp only [St.use, List.mem_append, List.mem_singleton] at hx
  rcases hx with hx | rfl
  · exact Or.inl hx
  · exact Or.inr h
theorem only_setUnresolved (s : St) (h : Q) : Only P Q s s.setUnresolved := ⟨fun _ => Or.inl, fun _ => Or.inr h⟩
theorem only_list {s s' : St} (l : List (Pos × Option Decl)) (h1 : s'.uses = s.uses ++ l)
    (h2 : s'.res.unresolved = true → s.res.unresolved = true ∨ Q) (h : ∀ x ∈ l, P x) : Only P Q s s' :=
  ⟨fun x hx => by rw [h1, List.mem_append] at hx; exact hx.imp id (h x), h2⟩

theorem only_useClass (s : St) {m : Node} {n : Name} (hn : NamesClass m n) (hP : ∀ x, Reports env m x → P x) :
    Only P Q s (s.useClass env n).1 := by
  refine only_list _ (useClass_uses s n) Or.inl ?_
  intro x hx
  refine hP x ?_
  simp only [classUses, List.mem_cons] at hx
  rcases hx with rfl | hx
  · exact .klass m n hn
  · obtain ⟨i, q, hi, rfl⟩ := (namespace_uses _ _ _).1 hx
    exact .nspace m n _ i q (Or.inl hn) (Or.inl rfl) hi

theorem wordInQuotes_some {t w : QString} (h : wordInQuotes t = some w) :
    (∃ a b, isQuote a = true ∧ isQuote b = true ∧ t = a :: w ++ [b]) ∧ w ≠ [] ∧ ∀ x ∈ w, isWordChar x = true := by
  unfold wordInQuotes at h
  split at h
  · rename_i q s
    split at h
    · rename_i hq
      split at h
      · rename_i q' hl
        split at h
        · rename_i hc
          simp only [Bool.and_eq_true, bne_iff_ne, ne_eq, List.all_eq_true] at hc
          injection h with h
          subst h
          refine ⟨⟨q, q', hq, hc.1.1, ?_⟩, hc.1.2, hc.2⟩
          have hne : s ≠ [] := by intro h; simp [h] at hl
          have : s.getLast hne = q' := by
            rw [List.getLast?_eq_some_getLast hne] at hl; injection hl
          rw [List.cons_append, ← this, List.dropLast_concat_getLast]
        · simp at h
      · simp at h
    · simp at h
  · simp at h

theorem wordInQuotes_of {w : QString} {a b : QChar} (ha : isQuote a = true) (hb : isQuote b = true) (hw : w ≠ [])
    (h : ∀ x ∈ w, isWordChar x = true) : wordInQuotes (a :: w ++ [b]) = some w := by
  simp only [List.cons_append, wordInQuotes, ha, if_true, List.getLast?_append, List.getLast?_singleton, Option.some_or,
    hb, List.dropLast_concat]
  rw [if_pos]
  simp only [Bool.and_eq_true, bne_iff_ne, ne_eq, List.all_eq_true, true_and]
  exact ⟨hw, h⟩

theorem only_useString (i : Ident) (cs : List Node) (s : St) (hP : ∀ x, Reports env (.scalar .string i cs) x → P x)
    (hQ : Unresolved env (.scalar .string i cs) → Q) : Only P Q s (useString env i s) := by
  unfold useString
  split
  · exact .refl _
  · split
    · exact .refl _
    · rename_i w hw
      obtain ⟨h1, h2, h3⟩ := wordInQuotes_some hw
      split
      · rename_i d hd
        exact only_use _ _ _ (hP _ (.word i w cs d h1 hd))
      · rename_i hd
        exact only_setUnresolved _ (hQ (.word i w cs h1 h2 h3 hd))

theorem only_processVariable (v : Ident) (s : St) {m : Node} (hm : NamesVariable m v) (hP : ∀ x, Reports env m x → P x) :
    Only P Q s (processVariable env v s).1 := by
  unfold processVariable
  simp only
  split
  · exact only_use _ _ _ (hP _ (.variable m v hm))
  · exact .refl _

/-- the last element found is one of the members -/
theorem only_useMember (s : St) {m : Node} {i : Ident} (hi : NamesMember m i) {cls : Decl} {name : QString} (ds : List Decl)
    (hd : ∀ d ∈ ds, d ∈ env.members cls name) (hP : ∀ x, Reports env m x → P x) : Only P Q s (s.use i.pos ds.getLast?) := by
  refine only_use _ _ _ (hP _ ?_)
  cases h : ds.getLast? with
  | none => exact .noMember m i hi
  | some d => exact .member m i cls name d hi (hd d (List.mem_of_getLast? h))

theorem only_accessProperty (b : Bool) (i : Ident) (cs : List Node) (s : St)
    (hP : ∀ x, Reports env (.prop b i cs) x → P x) : Only P Q s (accessProperty env b i s) := by
  unfold accessProperty
  split
  · split
    · exact only_setType _ _
    · rename_i cls _
      simp only
      have h2 : Only P Q s (if s.eq then s.setDecls (memberDecls env cls b i.text)
          else (s.setDecls (memberDecls env cls b i.text)).use i.pos (memberDecls env cls b i.text).getLast?) := by
        split
        · exact only_setDecls _ _
        · refine (only_setDecls s (memberDecls env cls b i.text)).trans ?_
          cases b with
          | true =>
            exact only_useMember (cls := cls) (name := lowerStr env.u i.text) _ (.prop _ i cs) _
              (fun d hd => (List.mem_filter.1 hd).1) hP
          | false =>
            exact only_useMember (cls := cls) (name := i.text) _ (.prop _ i cs) _
              (fun d hd => (List.mem_filter.1 hd).1) hP
      split
      · exact h2.trans (only_setType _ _)
      · split
        · exact h2.trans (only_setType _ _)
        · exact h2
  · exact .refl _

theorem only_accessConstant (n : Name) (c : Option Decl) (k : Ident) (s : St)
    (hP : ∀ x, Reports env (.classConst n k) x → P x) : Only P Q s (accessConstant env c k s) := by
  unfold accessConstant
  split
  · rename_i cls _
    simp only
    have h := (only_setDecls (P := P) (Q := Q) s (env.members cls k.text)).trans
      (only_useMember (cls := cls) (name := k.text) _ (.classConst n k) _ (fun _ h => h) hP)
    split
    · exact h.trans (only_setType _ _)
    · exact h
  · exact only_setType _ _

theorem only_useConstant (n : Name) (s : St) (hP : ∀ x, Reports env (.const n) x → P x) :
    Only P Q s (useConstant env n s) := by
  by_cases hw : NoWord env n
  · obtain ⟨g, h1, h2⟩ := useConstant_eq n s hw
    refine only_list _ h1 ?_ ?_
    · have h0 : ¬ (lowerStr env.u n.text = q! "true" ∨ lowerStr env.u n.text = q! "false") := by
        rintro (h | h)
        · exact hw.1 h
        · exact hw.2.1 h
      unfold useConstant
      simp only
      rw [if_neg h0, if_neg hw.2.2]
      split <;> exact Or.inl
    · intro x hx
      simp only [List.mem_cons] at hx
      rcases hx with rfl | hx
      · exact hP _ (.constant n)
      · obtain ⟨i, q, hi, rfl⟩ := (namespace_uses _ _ _).1 hx
        exact hP _ (.nspace _ n g i q (Or.inr (Or.inr rfl)) h2 hi)
  · unfold useConstant
    simp only
    split
    · exact only_setType _ _
    · rename_i h1
      split
      · exact only_setType _ _
      · rename_i h2
        exact absurd ⟨fun h => h1 (Or.inl h), fun h => h1 (Or.inr h), h2⟩ hw

theorem only_useFunction (n : Name) (a : Node) (k : Nat) (s : St) (hP : ∀ x, Reports env (.call n a k) x → P x)
    (hQ : Unresolved env (.call n a k) → Q) : Only P Q s (useFunction env n s) := by
  obtain ⟨g, h1, h2, h3⟩ := useFunction_eq (env := env) n s
  refine only_list _ h1 ?_ ?_
  · rw [h2, Bool.or_eq_true]
    refine Or.imp id (fun h => hQ (.function n a k ?_))
    simpa using h
  · intro x hx
    simp only [List.mem_cons] at hx
    rcases hx with rfl | hx
    · exact hP _ (.function n a k)
    · obtain ⟨i, q, hi, rfl⟩ := (namespace_uses _ _ _).1 hx
      exact hP _ (.nspace _ n g i q (Or.inr (Or.inl ⟨a, k, rfl⟩)) h3 hi)

theorem contextOf_none {o : Option Decl} (h : contextOf env o = none) : ∀ d, o = some d → env.hasContext d = false := by
  rintro d rfl
  unfold contextOf at h
  cases hc : env.hasContext d with
  | false => rfl
  | true => simp [hc] at h

theorem only_useStaticCall (n : Name) (m : Ident) (a : Node) (s : St) (hP : ∀ x, Reports env (.staticCall n m a) x → P x)
    (hQ : Unresolved env (.staticCall n m a) → Q) : Only P Q s (useStaticCall env n m s) := by
  unfold useStaticCall
  simp only [useClass_snd]
  refine (only_useClass s (.staticCall n m a) hP).trans ?_
  split
  · rename_i cls _
    split
    · rename_i d hd
      have := only_useMember (P := P) (Q := Q) (env := env) (cls := cls) (name := lowerStr env.u m.text)
        ((s.useClass env n).1.setDecls (env.members cls (lowerStr env.u m.text))) (.staticCall n m a) _ (fun _ h => h) hP
      rw [hd] at this
      exact ((only_setDecls _ _).trans this).trans (only_setType _ _)
    · exact only_setDecls _ _
  · rename_i hc
    exact ((only_setUnresolved _ (hQ (.klass n m a (contextOf_none hc)))).trans
      (only_use _ _ _ (hP _ (.noMember _ m (.staticCall n m a))))).trans (only_setType _ _)

theorem only_useStaticMember (n : Name) (v : Ident) (o : List Node) (s : St)
    (hP : ∀ x, Reports env (.staticMember n v o) x → P x) : Only P Q s (useStaticMember env n v s) := by
  unfold useStaticMember
  simp only
  refine (only_useClass s (.staticMember n v o) hP).trans ?_
  split
  · rename_i cls _
    exact (only_setDecls _ _).trans
      (only_useMember (cls := cls) (name := v.text) _ (.staticMember n v o) _ (fun _ h => h) hP)
  · exact (only_use _ _ _ (hP _ (.noClass n v o))).trans (only_setType _ _)

theorem only_useLexical (hP : ∀ i ∈ (l : List Ident), P (i.pos, env.lexical i)) (s : St) :
    Only P Q s (useLexical env l s) := by
  induction l generalizing s with
  | nil => exact .refl _
  | cons i l ih => exact (only_use _ _ _ (hP i (by simp))).trans (ih (fun j hj => hP j (by simp [hj])) _)

theorem only_useEncapsProp (v : Ident) (d : Option Decl) (pr : Option Ident) (cs : List Node) (s : St)
    (hP : ∀ x, Reports env (.encapsVar v pr cs) x → P x) : Only P Q s (useEncapsProp env d pr s) := by
  unfold useEncapsProp
  split
  · rename_i d p
    simp only
    refine only_use _ _ _ (hP _ ?_)
    split
    · split
      · rename_i cls _
        cases hf : (env.members cls p.text).find? (fun m => !m.isFunction) with
        | none => exact .noMember _ p (.inString v p cs)
        | some m => exact .member _ p cls p.text m (.inString v p cs) (List.mem_of_find?_eq_some hf)
      · exact .noMember _ p (.inString v p cs)
    · exact .noMember _ p (.inString v p cs)
  · exact .refl _

end

/-- what may be reported, and what may be unresolved, in a tree -/
def PIn (env : Env) (n : Node) (x : Pos × Option Decl) : Prop := ∃ m, Inside env n m ∧ Reports env m x
def QIn (env : Env) (n : Node) : Prop := ∃ m, Inside env n m ∧ Unresolved env m

theorem PIn.own {n : Node} {x} (h : Reports env n x) : PIn env n x := ⟨n, .refl n, h⟩
theorem QIn.own {n : Node} (h : Unresolved env n) : QIn env n := ⟨n, .refl n, h⟩

/-- the parts of `n` with these nodes -/
theorem only_part {n c : Node} {a b : St} (h : Only (PIn env c) (QIn env c) a b) (hc : c ∈ (n.parts env).map Part.node) :
    Only (PIn env n) (QIn env n) a b := by
  obtain ⟨p, hp, rfl⟩ := List.mem_map.1 hc
  exact h.mono (fun x ⟨m, h1, h2⟩ => ⟨m, h1.part p hp, h2⟩) (fun ⟨m, h1, h2⟩ => ⟨m, h1.part p hp, h2⟩)

theorem only_parts {n : Node} {a b : St} (cs : List Node)
    (h : Only (fun x => ∃ c ∈ cs, PIn env c x) (∃ c ∈ cs, QIn env c) a b)
    (hc : ∀ c ∈ cs, c ∈ (n.parts env).map Part.node) : Only (PIn env n) (QIn env n) a b := by
  refine h.mono ?_ ?_
  · rintro x ⟨c, h1, m, h2, h3⟩
    obtain ⟨p, hp, rfl⟩ := List.mem_map.1 (hc c h1)
    exact ⟨m, h2.part p hp, h3⟩
  · rintro ⟨c, h1, m, h2, h3⟩
    obtain ⟨p, hp, rfl⟩ := List.mem_map.1 (hc c h1)
    exact ⟨m, h2.part p hp, h3⟩

theorem mem_same {c : Node} {cs : List Node} (h : c ∈ cs) : c ∈ (cs.map ({ node := · : Part })).map Part.node := by
  simpa using h

theorem params_nodes (cs : List Node) : ((Node.params cs).parts env).map Part.node = cs := by
  cases cs with
  | nil => rfl
  | cons c cs => cases c <;> simp [Node.parts, Function.comp_def]

mutual
theorem only_visit (n : Node) (s : St) : Only (PIn env n) (QIn env n) s (visit env n s) := by
  have own : ∀ x, Reports env n x → PIn env n x := fun _ => .own
  have ownQ : Unresolved env n → QIn env n := .own
  cases n with
  | plain cs => simp only [visit]; exact only_parts cs (only_visitList cs s) (fun c => mem_same)
  | assign op lhs rhs =>
    simp only [visit]
    have h1 := only_part (n := .assign op lhs rhs)
      (only_visit lhs { s with eq := if op = .equal then true else s.eq }) (by simp [Node.parts])
    have h2 := only_parts (n := .assign op lhs rhs) rhs (only_visitList rhs
      { visit env lhs { s with eq := if op = .equal then true else s.eq } with eq := false })
      (fun c hc => by simp [Node.parts, Function.comp_def, hc])
    have h := (((only_setEq s (if op = .equal then true else s.eq)).trans h1).trans (only_setEq _ false)).trans h2
    split
    · exact h.trans (only_setType _ _)
    · exact h
  | index e =>
    simp only [visit]
    exact (only_parts e (only_visitList e s) (fun c => mem_same)).trans (only_setType _ _)
  | varName v => simp only [visit]; exact (only_processVariable v s (.name v) own).trans (only_setDecl _ _)
  | «variable» base b props =>
    simp only [visit]
    have h1 := only_part (n := .variable base b props)
      (only_visit base { s with eq := if b then false else s.eq }) (by simp [Node.parts])
    have h2 := only_parts (n := .variable base b props) props
      (only_visitList props (visit env base { s with eq := if b then false else s.eq }))
      (fun c hc => by simp [Node.parts, Function.comp_def, hc])
    have h := ((only_setEq s (if b then false else s.eq)).trans h1).trans h2
    cases b with
    | true => exact h.trans (only_setEq _ _)
    | false => exact h
  | yield q cs =>
    simp only [visit]
    have h := only_parts (n := .yield q cs) cs (only_visitList cs s) (fun c => mem_same)
    split
    · exact (h.trans (only_setType _ _)).trans (only_setReturn _ _)
    · exact h
  | newObj c cs =>
    simp only [visit]
    refine (only_parts (n := .newObj c cs) cs (only_visitList cs s) (fun c => mem_same)).trans ?_
    cases c with
    | static p => exact (only_use _ _ _ (own _ (.static p cs))).trans (only_setDecl _ _)
    | named n => exact (only_useClass _ (.new n cs) own).trans (only_setDecl _ _)
    | computed => exact .refl _
  | array cs =>
    simp only [visit]
    exact (only_parts cs (only_visitList cs s) (fun c => mem_same)).trans (only_setType _ _)
  | typeHint n => exact only_useClass _ (.hint n) own
  | closure hint body sig lexical =>
    simp only [visit]
    have h0 : Only (PIn env (.closure hint body sig lexical)) (QIn env (.closure hint body sig lexical)) s
      { s with closures := some (.integral .void) :: s.closures } := .same rfl rfl
    have h1 := only_parts (n := .closure hint body sig lexical) body
      (only_visitList body { s with closures := some (.integral .void) :: s.closures })
      (fun c hc => mem_same (by simp [hc]))
    have h2 := only_parts (n := .closure hint body sig lexical) sig
      (only_visitList sig (visitList env body { s with closures := some (.integral .void) :: s.closures }))
      (fun c hc => mem_same (by simp [hc]))
    exact ((((h0.trans h1).trans h2).trans (only_useLexical (fun i hi => own _ (.lexical hint body sig lexical i hi)) _)).trans
      (only_setType _ _)).trans (only_closeClosure _ _)
  | params cs =>
    simp only [visit]
    exact ((only_parts cs (only_visitList cs s) (fun c hc => by rw [params_nodes]; exact hc)).trans
      (only_setDecls _ _)).trans (only_setType _ _)
  | param c =>
    simp only [visit]
    exact (only_part (only_visit c s) (by simp [Node.parts])).trans (only_setDef _ _)
  | call f args k =>
    simp only [visit]
    have h1 := only_part (n := .call f args k) (only_visit args { s with inDefine := isDefine env f k || s.inDefine })
      (by simp [Node.parts])
    exact (((only_setDef s (isDefine env f k || s.inDefine)).trans h1).trans (only_setDef _ false)).trans
      (only_useFunction f args k _ own ownQ)
  | staticCall c m args =>
    simp only [visit]
    have h1 := only_part (n := .staticCall c m args) (only_visit args s) (by simp [Node.parts])
    exact (h1.trans (only_setDef _ false)).trans (only_useStaticCall c m args _ own ownQ)
  | staticCallExpr c args e =>
    simp only [visit]
    have h1 := only_part (n := .staticCallExpr c args e) (only_visit args s) (by simp [Node.parts])
    have h2 := only_part (n := .staticCallExpr c args e) (only_visit e (visit env args s)) (by simp [Node.parts])
    exact (((h1.trans h2).trans (only_setDef _ false)).trans (only_useClass _ (.staticCallExpr c args e) own)).trans
      (only_setDecl _ _)
  | const n => exact only_useConstant _ _ own
  | classConst c k =>
    simp only [visit]
    exact (only_useClass _ (.classConst c k) own).trans (only_accessConstant c _ _ _ own)
  | scalar k t cs =>
    simp only [visit]
    have h := (only_parts (n := .scalar k t cs) cs (only_visitList cs s) (fun c => mem_same)).trans
      (only_setType _ (some k.ty))
    split
    · rename_i hk; subst hk
      exact h.trans (only_useString t cs _ own ownQ)
    · exact h
  | encapsed cs =>
    simp only [visit]
    exact (only_parts cs (only_visitList cs s) (fun c => mem_same)).trans (only_setType _ _)
  | encapsVar v p cs =>
    simp only [visit]
    exact ((only_parts (n := .encapsVar v p cs) cs (only_visitList cs s) (fun c => mem_same)).trans
      (only_processVariable _ _ (.inString v p cs) own)).trans (only_useEncapsProp v _ p cs _ own)
  | prop b name cs =>
    simp only [visit]
    exact (only_accessProperty b name cs s own).trans
      (only_parts (n := .prop b name cs) cs (only_visitList cs _) (fun c => mem_same))
  | staticMember c v o =>
    simp only [visit]
    exact (only_useStaticMember c v o s own).trans
      (only_parts (n := .staticMember c v o) o (only_visitList o _) (fun c => mem_same))
  | staticMemberExpr c e o =>
    simp only [visit]
    have h1 := only_part (n := .staticMemberExpr c e o) (only_visit e (s.useClass env c).1) (by simp [Node.parts])
    exact (((only_useClass s (.staticMemberExpr c e o) own).trans h1).trans (only_setType _ _)).trans
      (only_parts (n := .staticMemberExpr c e o) o (only_visitList o _)
        (fun c hc => by simp [Node.parts, Function.comp_def, hc]))
  | cast k c =>
    simp only [visit]
    refine (only_part (n := .cast k c) (only_visit c s) (by simp [Node.parts])).trans ?_
    split
    · exact only_setDecls _ _
    · split
      · exact only_setType _ _
      · exact .refl _
  | addRest op c =>
    simp only [visit]; exact (only_part (only_visit c s) (by simp [Node.parts])).trans (only_setType _ _)
  | relRest c =>
    simp only [visit]; exact (only_part (only_visit c s) (by simp [Node.parts])).trans (only_setType _ _)
  | eqRest b c =>
    simp only [visit]; exact (only_part (only_visit c s) (by simp [Node.parts])).trans (only_setType _ _)
  | instanceOf e c cs =>
    simp only [visit]
    have h1 := only_part (n := .instanceOf e c cs) (only_visit e s) (by simp [Node.parts])
    have h2 := only_parts (n := .instanceOf e c cs) cs (only_visitList cs (visit env e s))
      (fun c hc => by simp [Node.parts, Function.comp_def, hc])
    refine (h1.trans h2).trans ?_
    cases c with
    | none => exact .refl _
    | some n => exact (only_useClass _ (.instanceOf e n cs) own).trans (only_setType _ _)
  | ret e => simp only [visit]; exact (only_part (only_visit e s) (by simp [Node.parts])).trans (only_setReturn _ _)
theorem only_visitList (ns : List Node) (s : St) :
    Only (fun x => ∃ c ∈ ns, PIn env c x) (∃ c ∈ ns, QIn env c) s (visitList env ns s) := by
  cases ns with
  | nil => exact .refl _
  | cons n ns =>
    simp only [visitList]
    exact ((only_visit n s).mono (fun x h => ⟨n, by simp, h⟩) (fun h => ⟨n, by simp, h⟩)).trans
      ((only_visitList ns _).mono (fun x ⟨c, h1, h2⟩ => ⟨c, by simp [h1], h2⟩)
        (fun ⟨c, h1, h2⟩ => ⟨c, by simp [h1], h2⟩))
end

/-- **C57 (nothing else).** Every reported use is one of a name that occurs in the expression, of a declaration found for
this name. -/
theorem reported_only (n : Node) (s : St) (x : Pos × Option Decl) (hx : x ∈ (visit env n s).uses) :
    x ∈ s.uses ∨ ∃ m, Inside env n m ∧ Reports env m x := (only_visit n s).uses x hx

/-- **C58 (unresolved names).** The flag is set exactly if a function, the class of a static call or a class-like string
is unresolved; a string is not looked at where it is the name given to `define`. -/
theorem unresolved_iff (n : Node) :
    ((visit env n start).res.unresolved = true → ∃ m, Inside env n m ∧ Unresolved env m) ∧
    (∀ m t d, At env n m t d → Unresolved env m → (d = false ∨ ∀ k i cs, m ≠ .scalar k i cs) →
      (visit env n start).res.unresolved = true) := by
  constructor
  · intro h
    rcases (only_visit n start).unresolved h with h | h
    · simp [start] at h
    · exact h
  · intro m t d ha hu hd
    obtain ⟨s', h1, _, h3⟩ := node_visited ha start rfl rfl
    refine h1.unresolved ?_
    cases hu with
    | function f a k h =>
      simp only [visit]
      obtain ⟨g, _, h2, _⟩ := useFunction_eq (env := env) f
        { visit env a { s' with inDefine := isDefine env f k || s'.inDefine } with inDefine := false }
      rw [h2, h]; simp
    | klass c m a h =>
      have hc : contextOf env (env.find c.pos .klass (c.folded env.u)) = none := by
        cases hf : env.find c.pos .klass (c.folded env.u) with
        | none => rfl
        | some d => simp [contextOf, h d hf]
      simp only [visit, useStaticCall, useClass_snd, hc]
      rfl
    | word i w cs h hw hx hf =>
      obtain ⟨a, b, ha, hb, e⟩ := h
      simp only [visit, if_true, useString]
      have hd : ((visitList env cs s').setType (some Scalar.string.ty)).inDefine = false :=
        ((le_visitList cs s').trans (le_setType _ _)).inDefine (h3 (hd.resolve_right (fun h => h _ _ _ rfl)))
      rw [hd, e, wordInQuotes_of ha hb hw hx]
      simp only [Bool.false_eq_true, if_false, hf]
      rfl

/-- **C58 (define).** The name given to `define` is not looked at: whatever it is, everything is as with any other string in
its place, and neither a use nor an unresolved name is added by it. -/
theorem define_name_ignored (f : Name) (hf : (f.folded env.u).parts = [q! "define"]) (i j : Ident) (k : Nat) (hk : k ≠ 0)
    (more : List Node) (s : St) :
    visit env (.call f (.params (.param (.scalar .string i []) :: more)) k) s =
      visit env (.call f (.params (.param (.scalar .string j []) :: more)) k) s ∧
    ∀ s', s'.inDefine = true → (visit env (.scalar .string i []) s').uses = s'.uses ∧
      (visit env (.scalar .string i []) s').res.unresolved = s'.res.unresolved := by
  have key : ∀ (i : Ident) (s' : St), s'.inDefine = true →
      visit env (.scalar .string i []) s' = s'.setType (some Scalar.string.ty) := by
    intro i s' h
    have hu : useString env i (s'.setType (some Scalar.string.ty)) = s'.setType (some Scalar.string.ty) := by
      unfold useString
      exact if_pos h
    simp only [visit, visitList, if_true, hu]
  refine ⟨?_, fun s' h => by rw [key i s' h]; exact ⟨rfl, rfl⟩⟩
  have hd : isDefine env f k = true := (isDefine_iff f k).2 ⟨hf, hk⟩
  have hp : ∀ s' : St, s'.inDefine = true →
      visit env (.param (.scalar .string i [])) s' = visit env (.param (.scalar .string j [])) s' := by
    intro s' h
    show ({ visit env (.scalar .string i []) s' with inDefine := false } : St) =
      { visit env (.scalar .string j []) s' with inDefine := false }
    rw [key i s' h, key j s' h]
  have hl : ∀ s' : St, s'.inDefine = true →
      visitList env (.param (.scalar .string i []) :: more) s' = visitList env (.param (.scalar .string j []) :: more) s' := by
    intro s' h
    show visitList env more (visit env (.param (.scalar .string i [])) s') =
      visitList env more (visit env (.param (.scalar .string j [])) s')
    rw [hp s' h]
  have ha : ∀ s' : St, s'.inDefine = true → visit env (.params (.param (.scalar .string i []) :: more)) s' =
      visit env (.params (.param (.scalar .string j []) :: more)) s' := by
    intro s' h
    show ((visitList env (.param (.scalar .string i []) :: more) s').setDecls _).setType _ =
      ((visitList env (.param (.scalar .string j []) :: more) s').setDecls _).setType _
    rw [hl s' h]
  show useFunction env f { visit env (.params (.param (.scalar .string i []) :: more))
      { s with inDefine := isDefine env f k || s.inDefine } with inDefine := false } =
    useFunction env f { visit env (.params (.param (.scalar .string j []) :: more))
      { s with inDefine := isDefine env f k || s.inDefine } with inDefine := false }
  rw [ha _ (by simp [hd])]

/-! ## C56: return types of closures -/

/-- Nothing is changed about closures. -/
def Keeps (s s' : St) : Prop := s'.closures = s.closures ∧ s'.closed = s.closed

theorem keeps_useString (i : Ident) (s : St) : Keeps s (useString env i s) := by
  unfold useString; repeat' split
  all_goals exact ⟨rfl, rfl⟩
theorem keeps_processVariable (v : Ident) (s : St) : Keeps s (processVariable env v s).1 := by
  unfold processVariable; simp only; split <;> exact ⟨rfl, rfl⟩
theorem keeps_accessProperty (b : Bool) (name : Ident) (s : St) : Keeps s (accessProperty env b name s) := by
  unfold accessProperty; simp only; repeat' split
  all_goals exact ⟨rfl, rfl⟩
theorem keeps_accessConstant (c : Option Decl) (k : Ident) (s : St) : Keeps s (accessConstant env c k s) := by
  unfold accessConstant; simp only; repeat' split
  all_goals exact ⟨rfl, rfl⟩
theorem keeps_useConstant (n : Name) (s : St) : Keeps s (useConstant env n s) := by
  unfold useConstant; simp only; repeat' split
  all_goals exact ⟨rfl, rfl⟩
theorem keeps_useFunction (n : Name) (s : St) : Keeps s (useFunction env n s) := by
  unfold useFunction; simp only; split <;> exact ⟨rfl, rfl⟩
theorem keeps_useStaticCall (n : Name) (m : Ident) (s : St) : Keeps s (useStaticCall env n m s) := by
  unfold useStaticCall; simp only; repeat' split
  all_goals exact ⟨rfl, rfl⟩
theorem keeps_useStaticMember (n : Name) (m : Ident) (s : St) : Keeps s (useStaticMember env n m s) := by
  unfold useStaticMember; simp only; repeat' split
  all_goals exact ⟨rfl, rfl⟩
theorem keeps_useLexical (l : List Ident) (s : St) : Keeps s (useLexical env l s) := by
  induction l generalizing s with
  | nil => exact ⟨rfl, rfl⟩
  | cons i l ih => exact ih _
theorem keeps_useEncapsProp (d p) (s : St) : Keeps s (useEncapsProp env d p s) := by
  unfold useEncapsProp; split <;> exact ⟨rfl, rfl⟩

/-- No `return` and `yield` in a node, other than in closures. -/
inductive NoReturn (env : Env) : Node → Prop
  | closure (h b s l) : NoReturn env (.closure h b s l)
  | node (n) : (∀ e, n ≠ .ret e) → (∀ p cs, n ≠ .yield p cs) → (∀ p ∈ n.parts env, NoReturn env p.node) → NoReturn env n

/-- The last `return` of a list of statements has a value of this type. -/
inductive LastReturn (env : Env) : List Node → Option Ty → Prop
  | here (before e after t) : HasType env e t → (∀ n ∈ after, NoReturn env n) → LastReturn env (before ++ .ret e :: after) t
  | inside (before cs after t) : LastReturn env cs t → (∀ n ∈ after, NoReturn env n) →
      LastReturn env (before ++ .plain cs :: after) t

/-- The closures around a node stay open; only the type of the innermost one may change. -/
structure Clo (s s' : St) (noReturn : Prop) : Prop where
  len : s'.closures.length = s.closures.length
  tail : s'.closures.tail = s.closures.tail
  same : noReturn → s'.closures = s.closures

theorem Clo.of {s s' : St} {P : Prop} (h : s'.closures = s.closures) : Clo s s' P := ⟨by rw [h], by rw [h], fun _ => h⟩
theorem Clo.keeps {s s' : St} {P : Prop} (h : Keeps s s') : Clo s s' P := .of h.1
theorem Clo.trans {a b c : St} {P : Prop} (h : Clo a b P) (h' : Clo b c P) : Clo a c P :=
  ⟨h'.len.trans h.len, h'.tail.trans h.tail, fun p => (h'.same p).trans (h.same p)⟩
theorem Clo.mono {a b : St} {P Q : Prop} (h : Clo a b P) (hp : Q → P) : Clo a b Q := ⟨h.len, h.tail, h.same ∘ hp⟩

theorem NoReturn.parts {n : Node} (h : NoReturn env n) (hc : ∀ a b c d, n ≠ .closure a b c d) :
    ∀ m ∈ (n.parts env).map Part.node, NoReturn env m := by
  cases h with
  | closure h b s l => exact absurd rfl (hc _ _ _ _)
  | node _ _ _ h =>
    intro m hm
    obtain ⟨p, hp, rfl⟩ := List.mem_map.1 hm
    exact h p hp

mutual
theorem clo_visit (n : Node) (s : St) : Clo s (visit env n s) (NoReturn env n) := by
  cases n with
  | plain cs =>
    simp only [visit]
    exact (clo_visitList cs s).mono (fun h c hc => h.parts (by simp) c (mem_same hc))
  | assign op lhs rhs =>
    simp only [visit]
    have h1 : Clo s (visit env lhs { s with eq := if op = .equal then true else s.eq })
        (NoReturn env (.assign op lhs rhs)) :=
      (Clo.of rfl : Clo s { s with eq := if op = .equal then true else s.eq } _).trans
        ((clo_visit lhs _).mono (fun h => h.parts (by simp) lhs (by simp [Node.parts])))
    have h2 := (clo_visitList rhs
      { visit env lhs { s with eq := if op = .equal then true else s.eq } with eq := false }).mono
        (fun (h : NoReturn env (.assign op lhs rhs)) c hc =>
          h.parts (by simp) c (by simp [Node.parts, Function.comp_def, hc]))
    have hk : ∀ (s : St) (P : Prop), Clo s { s with eq := false } P := fun _ _ => .of rfl
    have h := (h1.trans (hk _ _)).trans h2
    split
    · exact h.trans (.of rfl)
    · exact h
  | index e =>
    simp only [visit]
    exact ((clo_visitList e s).mono (fun h c hc => h.parts (by simp) c (mem_same hc))).trans (.of rfl)
  | varName v => simp only [visit]; exact (Clo.keeps (keeps_processVariable v s)).trans (.of rfl)
  | «variable» base b props =>
    simp only [visit]
    have h1 : Clo s (visit env base { s with eq := if b then false else s.eq }) (NoReturn env (.variable base b props)) :=
      (Clo.of rfl : Clo s { s with eq := if b then false else s.eq } _).trans
        ((clo_visit base _).mono (fun h => h.parts (by simp) base (by simp [Node.parts])))
    have h := h1.trans ((clo_visitList props _).mono (fun h c hc =>
      h.parts (by simp) c (by simp [Node.parts, Function.comp_def, hc])))
    cases b with
    | true => exact h.trans (.of rfl)
    | false => exact h
  | yield q cs =>
    simp only [visit]
    have h := (clo_visitList cs s).mono
      (fun (h : NoReturn env (.yield q cs)) c hc => h.parts (by simp) c (mem_same hc))
    have no : ¬ NoReturn env (.yield q cs) := by
      intro h; cases h with
      | node _ _ h _ => exact h _ _ rfl
    split
    · refine ⟨?_, ?_, fun h => absurd h no⟩ <;> unfold St.setReturn <;> split
      · rename_i hc; rw [← h.len]; exact (congrArg List.length hc).symm
      · exact h.len
      · rename_i hc; rw [← h.tail]; exact (congrArg List.tail hc).symm
      · exact h.tail
    · exact h
  | newObj c cs =>
    simp only [visit]
    refine ((clo_visitList cs s).mono (fun h c hc => h.parts (by simp) c (mem_same hc))).trans ?_
    split <;> exact .of rfl
  | array cs =>
    simp only [visit]
    exact ((clo_visitList cs s).mono (fun h c hc => h.parts (by simp) c (mem_same hc))).trans (.of rfl)
  | typeHint n => exact .of rfl
  | closure hint body sig lexical =>
    simp only [visit]
    have h1 := clo_visitList body { s with closures := some (.integral .void) :: s.closures }
    have h2 := clo_visitList sig
      (visitList env body { s with closures := some (.integral .void) :: s.closures })
    have h3 := (keeps_useLexical (env := env) lexical (visitList env sig
      (visitList env body { s with closures := some (.integral .void) :: s.closures }))).1
    have hl := h2.len.trans h1.len
    have ht := h2.tail.trans h1.tail
    rw [← h3] at hl ht
    generalize useLexical env lexical _ = s1 at hl ht
    refine .of ?_
    unfold St.closeClosure
    split
    · rename_i c cs hc
      have hc : s1.closures = c :: cs := hc
      rw [hc] at ht; exact ht
    · rename_i hc
      have hc : s1.closures = [] := hc
      rw [hc] at hl; simp at hl
  | params cs =>
    simp only [visit]
    exact ((clo_visitList cs s).mono (fun h c hc => h.parts (by simp) c (by rw [params_nodes]; exact hc))).trans (.of rfl)
  | param c =>
    simp only [visit]
    exact ((clo_visit c s).mono (fun h => h.parts (by simp) c (by simp [Node.parts]))).trans (.of rfl)
  | call f args k =>
    simp only [visit]
    have h1 : Clo s (visit env args { s with inDefine := isDefine env f k || s.inDefine }) (NoReturn env (.call f args k)) :=
      (Clo.of rfl : Clo s { s with inDefine := isDefine env f k || s.inDefine } _).trans
        ((clo_visit args _).mono (fun h => h.parts (by simp) args (by simp [Node.parts])))
    exact (h1.trans (.of rfl)).trans (.keeps (keeps_useFunction _ _))
  | staticCall c m args =>
    simp only [visit]
    exact (((clo_visit args s).mono (fun h => h.parts (by simp) args (by simp [Node.parts]))).trans (.of rfl)).trans
      (.keeps (keeps_useStaticCall _ _ _))
  | staticCallExpr c args e =>
    simp only [visit]
    exact ((((clo_visit args s).mono (fun h => h.parts (by simp) args (by simp [Node.parts]))).trans
      ((clo_visit e _).mono (fun h => h.parts (by simp) e (by simp [Node.parts])))).trans (.of rfl)).trans (.of rfl)
  | const n => exact .keeps (keeps_useConstant _ _)
  | classConst c k =>
    simp only [visit]
    exact (Clo.of rfl : Clo s (s.useClass env c).1 _).trans (.keeps (keeps_accessConstant _ _ _))
  | scalar k t cs =>
    simp only [visit]
    have h : Clo s ((visitList env cs s).setType (some k.ty)) (NoReturn env (.scalar k t cs)) :=
      ((clo_visitList cs s).mono (fun h c hc => h.parts (by simp) c (mem_same hc))).trans (.of rfl)
    split
    · exact h.trans (.keeps (keeps_useString _ _))
    · exact h
  | encapsed cs =>
    simp only [visit]
    exact ((clo_visitList cs s).mono (fun h c hc => h.parts (by simp) c (mem_same hc))).trans (.of rfl)
  | encapsVar v p cs =>
    simp only [visit]
    exact (((clo_visitList cs s).mono (fun h c hc => h.parts (by simp) c (mem_same hc))).trans
      (.keeps (keeps_processVariable _ _))).trans (.keeps (keeps_useEncapsProp _ _ _))
  | prop b name cs =>
    simp only [visit]
    exact (Clo.keeps (keeps_accessProperty _ _ _)).trans
      ((clo_visitList cs _).mono (fun h c hc => h.parts (by simp) c (mem_same hc)))
  | staticMember c v o =>
    simp only [visit]
    exact (Clo.keeps (keeps_useStaticMember _ _ _)).trans
      ((clo_visitList o _).mono (fun h c hc => h.parts (by simp) c (mem_same hc)))
  | staticMemberExpr c e o =>
    simp only [visit]
    exact (((Clo.of rfl : Clo s (s.useClass env c).1 _).trans
      ((clo_visit e _).mono (fun (h : NoReturn env (.staticMemberExpr c e o)) =>
        h.parts (by simp) e (by simp [Node.parts])))).trans
      (.of rfl : Clo (visit env e (s.useClass env c).1) ((visit env e (s.useClass env c).1).setType none) _)).trans
      ((clo_visitList o _).mono (fun (h : NoReturn env (.staticMemberExpr c e o)) x hx =>
        h.parts (by simp) x (by simp [Node.parts, Function.comp_def, hx])))
  | cast k c =>
    simp only [visit]
    refine ((clo_visit c s).mono (fun h => h.parts (by simp) c (by simp [Node.parts]))).trans ?_
    split
    · exact .of rfl
    · split <;> exact .of rfl
  | addRest op c =>
    simp only [visit]
    exact ((clo_visit c s).mono (fun h => h.parts (by simp) c (by simp [Node.parts]))).trans (.of rfl)
  | relRest c =>
    simp only [visit]
    exact ((clo_visit c s).mono (fun h => h.parts (by simp) c (by simp [Node.parts]))).trans (.of rfl)
  | eqRest b c =>
    simp only [visit]
    exact ((clo_visit c s).mono (fun h => h.parts (by simp) c (by simp [Node.parts]))).trans (.of rfl)
  | instanceOf e c cs =>
    simp only [visit]
    refine (((clo_visit e s).mono (fun (h : NoReturn env (.instanceOf e c cs)) =>
      h.parts (by simp) e (by simp [Node.parts]))).trans
      ((clo_visitList cs _).mono (fun h x hx => NoReturn.parts h (by simp) x (by simp [Node.parts, Function.comp_def, hx])))).trans ?_
    split <;> exact .of rfl
  | ret e =>
    simp only [visit]
    have h := clo_visit e s
    have no : ¬ NoReturn env (.ret e) := by
      intro h; cases h with
      | node _ h _ _ => exact h _ rfl
    refine ⟨?_, ?_, fun h => absurd h no⟩ <;> unfold St.setReturn <;> split
    · rename_i hc; rw [← h.len]; exact (congrArg List.length hc).symm
    · exact h.len
    · rename_i hc; rw [← h.tail]; exact (congrArg List.tail hc).symm
    · exact h.tail
theorem clo_visitList (ns : List Node) (s : St) : Clo s (visitList env ns s) (∀ n ∈ ns, NoReturn env n) := by
  cases ns with
  | nil => exact .of rfl
  | cons n ns =>
    simp only [visitList]
    exact ((clo_visit n s).mono (fun h => h n (by simp))).trans
      ((clo_visitList ns _).mono (fun h c hc => h c (by simp [hc])))
end

theorem lastReturn_head {body : List Node} {t : Option Ty} (h : LastReturn env body t) : ∀ (s : St), s.closures ≠ [] →
    (visitList env body s).closures.head? = some t := by
  induction h with
  | here before e after t he ha =>
    intro s hs
    rw [visitList_append]
    simp only [visitList]
    rw [(clo_visitList after _).same ha]
    simp only [visit]
    have hl : (visit env e (visitList env before s)).closures ≠ [] := by
      intro h0
      have h1 := (clo_visit (env := env) e (visitList env before s)).len.trans (clo_visitList before s).len
      rw [h0] at h1
      exact hs (List.length_eq_zero_iff.1 h1.symm)
    unfold St.setReturn
    split
    · simp [type_of he]
    · rename_i h0; exact absurd h0 hl
  | inside before cs after t _ ha ih =>
    intro s hs
    rw [visitList_append]
    simp only [visitList]
    rw [(clo_visitList after _).same ha]
    simp only [visit]
    refine ih _ ?_
    intro h0
    have h1 := (clo_visitList (env := env) before s).len
    rw [h0] at h1
    exact hs (List.length_eq_zero_iff.1 h1.symm)

/-- **C56 (closures).** A closure returns what its hint says; without a hint, the type of the last `return` in its body;
without a `return`, `void`.  Closures inside of its body have no influence, and it has none on the closure around it. -/
theorem closure_return (hint : Option Ty) (body sig : List Node) (lexical : List Ident) (s : St)
    (hsig : ∀ n ∈ sig, NoReturn env n) :
    (visit env (.closure hint body sig lexical) s).closures = s.closures ∧
    (∀ t, hint = some t → (visit env (.closure hint body sig lexical) s).closed.getLast? = some (some t)) ∧
    (hint = none → (∀ n ∈ body, NoReturn env n) →
      (visit env (.closure hint body sig lexical) s).closed.getLast? = some (some (.integral .void))) ∧
    (∀ t, hint = none → LastReturn env body t →
      (visit env (.closure hint body sig lexical) s).closed.getLast? = some t) := by
  refine ⟨(clo_visit (.closure hint body sig lexical) s).same (.closure ..), ?_⟩
  simp only [visit]
  have h1 := clo_visitList (env := env) body { s with closures := some (.integral .void) :: s.closures }
  have hr : ∀ t, LastReturn env body t →
      (visitList env body { s with closures := some (.integral .void) :: s.closures }).closures.head? = some t :=
    fun t ht => lastReturn_head ht _ (by simp)
  have hn : (∀ n ∈ body, NoReturn env n) →
      (visitList env body { s with closures := some (.integral .void) :: s.closures }).closures.head? =
        some (some (.integral .void)) := fun h => by rw [h1.same h]; rfl
  have h2 := (clo_visitList (env := env) sig
    (visitList env body { s with closures := some (.integral .void) :: s.closures })).same hsig
  have h3 := (keeps_useLexical (env := env) lexical (visitList env sig
    (visitList env body { s with closures := some (.integral .void) :: s.closures }))).1
  rw [h2] at h3
  have hl := h1.len
  rw [← h3] at hl hr hn
  generalize useLexical env lexical _ = s1 at hl hr hn
  cases hc : s1.closures with
  | nil => rw [hc] at hl; simp at hl
  | cons c cs =>
    have hcl : ((s1.setType (some (.ext .callable))).closeClosure hint).closed =
        s1.closed ++ [match hint with | some t => some t | none => c] := by
      have hc' : (s1.setType (some (.ext .callable))).closures = c :: cs := hc
      simp only [St.closeClosure, hc']; rfl
    rw [hcl, List.getLast?_concat]
    rw [hc] at hr hn
    refine ⟨?_, ?_, ?_⟩
    · rintro t rfl; rfl
    · rintro rfl h; simpa using hn h
    · rintro t rfl h; simpa using hr t h

/-! ## Limits of the code -/

/-- No class is known for a type. -/
def NoClass (t : Option Ty) : Prop := ∀ ty c, t = some ty → ¬ OnlyClass ty c

theorem objectType_noClass {t : Option Ty} (h : NoClass t) : ∀ c, objectType t ≠ some (.struct c) := by
  intro c hc
  cases t with
  | none => simp [objectType] at hc
  | some ty =>
    cases ty with
    | struct k => exact h _ k rfl (.sure k)
    | unsure ts =>
      unfold objectType at hc
      simp only at hc
      split at hc
      · rename_i t hf
        injection hc with hc
        subst hc
        have hm : Ty.struct c ∈ ts := by
          have : Ty.struct c ∈ ts.filter (fun t => match t with | .struct _ => true | _ => false) := by rw [hf]; simp
          exact (List.mem_filter.1 this).1
        obtain ⟨l, r, rfl⟩ := List.append_of_mem hm
        simp only [List.filter_append, List.filter_cons, if_true] at hf
        have hlen := congrArg List.length hf
        simp only [List.length_append, List.length_cons, List.length_nil] at hlen
        have hl : ∀ (x : List Ty), (x.filter (fun t => match t with | .struct _ => true | _ => false)).length = 0 →
            ∀ k, Ty.struct k ∉ x := by
          intro x hx k hk
          have := List.length_eq_zero_iff.1 hx
          rw [List.filter_eq_nil_iff] at this
          exact this _ hk rfl
        exact h _ c rfl (.among l r c (hl l (by omega)) (hl r (by omega)))
      · simp at hc
    | integral _ | ext _ | array _ | func _ | ref _ => simp [objectType] at hc

/-- **C56 (limit).** A member access on a value whose class is not known does not change the type: `$i->x` is an integer if
`$i` is. -/
theorem access_without_class {base : Node} {t : Option Ty} (h : HasType env base t) (hn : NoClass t) (b isCall : Bool)
    (name : Ident) (s : St) : (visit env (.variable base b [.prop isCall name []]) s).res.type = t := by
  have key : ∀ s : St, (accessProperty env isCall name (visit env base s)).res.type = t := by
    intro s
    unfold accessProperty
    have := objectType_noClass hn
    rw [type_of h]
    split
    · rename_i c hc; exact absurd hc (this c)
    · exact type_of h s
  simp only [visit, visitList]
  split <;> exact key _

/-- **C57 (declarations).** The place where a variable is declared is not reported as a use of it, and neither is an
assigned variable that is unknown or declared by this assignment or later. -/
theorem declaration_not_reported (v : Ident) (s : St) :
    (∀ d, env.findVar v = some d → d.stop = v.pos → (visit env (.varName v) s).uses = s.uses) ∧
    (v.text ≠ q! "this" → (∀ d, env.findVar v = some d → v.pos ≤ d.stop) →
      (visit env (.assign .equal (.varName v) []) s).uses = s.uses) := by
  refine ⟨?_, ?_⟩
  · intro d hd hs
    have hr : reportsVariable s.eq v (some d) = false := by simp [reportsVariable, hs]
    simp only [visit, processVariable, hd, hr]
    rfl
  · intro ht h
    have hr : reportsVariable true v (env.findVar v) = false := by
      unfold reportsVariable
      cases hf : env.findVar v with
      | none => simp [ht]
      | some d =>
        have := h d hf
        simp [ht]; intro hlt; exact absurd hlt (Nat.not_lt.2 this)
    simp only [visit, visitList, processVariable, if_true, hr]
    rfl

/-- **C57 (limit).** An unknown variable in the index of an assigned array (`$a[$i] = …`) is not reported. -/
theorem unknown_index_not_reported (a i : Ident) (s : St) (hi : env.findVar i = none) (ht : i.text ≠ q! "this") :
    (visit env (.assign .equal (.variable (.varName a) false [.index [.varName i]]) []) s).uses =
      (visit env (.assign .equal (.varName a) []) s).uses := by
  have hr : ∀ s : St, s.eq = true → (processVariable env i s).1 = s := by
    intro s hs
    simp [processVariable, reportsVariable, hi, hs, ht]
  simp only [visit, visitList, if_true, Bool.false_eq_true, if_false]
  rw [hr]
  · rfl
  · unfold processVariable St.setDecl St.setDecls; simp only; split <;> rfl

/-- **C57 (limit).** An unknown method in `X::m()` is not reported: only the class is. -/
theorem unknown_static_method (n : Name) (m : Ident) (s : St) {c : Decl} (h1 : env.find n.pos .klass (n.folded env.u) = some c)
    (h2 : env.hasContext c = true) (h3 : env.members c (lowerStr env.u m.text) = []) :
    (visit env (.staticCall n m (.params [])) s).uses = s.uses ++ classUses env n := by
  simp only [visit, visitList, useStaticCall, useClass_snd, h1, contextOf, h2, if_true, h3, List.getLast?_nil]
  exact useClass_uses _ n

/-- **C57 (limit).** The unknown class in `X::$v` is reported twice. -/
theorem unknown_class_twice (n : Name) (v : Ident) (s : St) (h : env.find n.pos .klass (n.folded env.u) = none) :
    (visit env (.staticMember n v []) s).uses = s.uses ++ classUses env n ++ [(n.pos, none)] := by
  simp only [visit, visitList, useStaticMember, useClass_snd, h, contextOf]
  show (s.useClass env n).1.uses ++ _ = _
  rw [useClass_uses]

end

/-! ## A concrete case -/

namespace Example

/-- class `A` with a method `m` that returns an `A` and a private property `p` -/
def clsA : Decl := ⟨1, some (.struct 1), false, false, 0, 0⟩
def methodM : Decl := ⟨2, some (.func 7), true, false, 1, 0⟩
def propP : Decl := ⟨3, some (.integral .int), false, true, 1, 0⟩
def varX : Decl := ⟨4, some (.unsure [.integral .null, .struct 1]), false, false, 0, 0⟩

def env : Env where
  u := asciiClass
  find _ k q := if k = .klass ∧ q = ⟨false, [q! "a"]⟩ then some clsA else none
  findVar v := if v.text = q! "x" then some varX else none
  classOf k := if k = 1 then some clsA else none
  hasContext d := d.id == 1
  members _ n := if n = q! "m" then [methodM] else if n = q! "p" then [propP] else []
  returnType k := if k = 7 then some (.struct 1) else none
  stdclass _ := []
  lexical _ := none

def x : Node := .varName ⟨10, q! "x"⟩
/-- `$x->m()->p` -/
def chain : Node :=
  .variable x true [.prop true ⟨13, q! "m"⟩ [.params []], .prop false ⟨18, q! "p"⟩ []]
/-- `$x = function () { return $x->m()->p; }` with an unknown function called afterwards: `. f("A")` -/
def tree : Node :=
  .assign .equal x [.closure none [.plain [.ret chain]] [] [],
    .addRest .concat (.call ⟨40, false, [], ⟨40, q! "f"⟩⟩ (.params [.param (.scalar .string ⟨42, q! "'a'"⟩ [])]) 1)]

theorem chain_int : HasType env chain (some (.integral .int)) := by
  refine .access _ _ _ varX.type _ (.known _ varX rfl) ?_
  refine .method _ 1 clsA _ methodM (some (.struct 1)) (some (.struct 1)) _ _ _
    (.among [.integral .null] [] 1 (by simp) (by simp)) ⟨rfl, rfl⟩ (.method _ [] _ [] rfl rfl (by simp)) ?_
    (.args _ _ _ _ (.done _)) ?_
  · exact ⟨by rintro k ⟨⟩; rfl, fun h => absurd rfl (h 7)⟩
  · exact .property _ 1 clsA _ propP _ _ _ _ (.sure 1) ⟨rfl, rfl⟩ (.property _ [] _ [] rfl rfl (fun _ => rfl) (by simp))
      (.done _) (.done _)

example : HasType env tree (some (.integral .string)) := .assign _ [_] _ _ (.concat _)
example : LastReturn env [.plain [.ret chain]] (some (.integral .int)) :=
  .inside [] _ [] _ (.here [] _ [] _ chain_int (by simp)) (by simp)
/-- the closure returns an integer -/
example : (visit env tree start).closed = [some (.integral .int)] := by decide +kernel
/-- the assigned `$x` is reported because it is declared before; then those in the closure, the string and the function -/
example : (visit env tree start).uses =
    [(10, some varX), (10, some varX), (13, some methodM), (18, some propP), (42, some clsA), (40, none)] := by
  decide +kernel
example : (visit env tree start).res.unresolved = true := by decide +kernel
example : At env tree chain false false :=
  .down ⟨chain, none, none⟩ (.down ⟨.ret chain, none, none⟩ (.down ⟨.plain [.ret chain], none, none⟩
    (.down ⟨.closure none [.plain [.ret chain]] [] [], some false, none⟩ .root (by simp [tree, Node.parts]))
    (by simp [Node.parts])) (by simp [Node.parts])) (by simp [Node.parts])
example : Fresh start := ⟨rfl, rfl⟩
example : Unresolved env (.call ⟨40, false, [], ⟨40, q! "f"⟩⟩ (.params []) 0) := .function _ _ _ rfl

end Example

end KPhp.Expr
