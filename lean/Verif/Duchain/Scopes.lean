import Verif.Duchain.Names
/-!
# Scopes: the contexts of a file and what is declared in them (C61 - C64)

Models `ContextBuilder` (duchain/builders/contextbuilder.cpp:92-125, 244-427) and the parts of
`PreDeclarationBuilder` (duchain/builders/predeclarationbuilder.cpp:35-180) and `DeclarationBuilder`
(duchain/builders/declarationbuilder.cpp:146-235, 853-897, 1581-1595) that open and close contexts.  The
builders walk over the syntax tree twice: the first walk makes a context for every construct that has one and
writes it into the node, the second one opens the contexts it reads from the nodes.

Trusted platform behaviour (KDevPlatform, `AbstractContextBuilder`): `openContext(node, …)` makes a context below
the current one and stores it in `node->ducontext` while contexts are compiled, and opens the stored one
otherwise; `closeContext` goes back to the context that was current before.

Simplified: the file is compiled for the first time (no context of an earlier build is reused); ranges, comments and locks are
left out; everything in a tree that opens no context is a `Leaf`.
-/
namespace KPhp.Scopes

/-- `DUContext::ContextType`. -/
inductive Kind
  | global | namespace | klass | function | other
deriving DecidableEq, Repr

/-- The nodes of one construct that carry a context: the statement of a class or the identifier of a namespace
(`whole`), the parameter list, the list of lexical variables of a closure, the body. -/
inductive Part
  | whole | params | uses | body
deriving DecidableEq, Repr

/-- A node with a context: the construct is named by the index of its first token. -/
structure Key where
  id : Nat
  part : Part
deriving DecidableEq, Repr

/-- `ClassDeclarationData::ClassType`. -/
inductive TypeKind
  | klass | interface | trait
deriving DecidableEq, Repr

/-- What opens no context; the number is the position in the source. -/
inductive Leaf
  /-- the variable is read -/
  | read (x : QString) (pos : Nat)
  /-- the variable is assigned: `$x = …` -/
  | assign (x : QString) (pos : Nat)
  /-- the variable is a target of another kind: `foreach (… as $x)`, `list($x) = …`, an argument passed by reference -/
  | target (x : QString) (pos : Nat)
  /-- `catch (E $x)`, `static $x` -/
  | fresh (x : QString) (pos : Nat)
  /-- `global $x` -/
  | globalVar (x : QString) (pos : Nat)
  | param (x : QString) (pos : Nat)
  | lexical (x : QString) (pos : Nat)
  | property (x : QString)
  | constant (x : QString)
  | yield (pos : Nat)
  /-- a class, function or constant is named -/
  | name (n : Names.NameAst) (pos : Nat)
deriving DecidableEq, Repr

/-- A part of a syntax tree (parser/php.g:301-311 `topStatement`, 590-595 `closure`, 938-941
`functionDeclarationStatement`, 1080-1125 classes and their members).  Type hints and default values belong to `params`, base
classes to `members`. -/
inductive Code
  | empty
  | seq (a b : Code)
  | leaf (l : Leaf)
  | closure (id : Nat) (params : Code) (hasUses : Bool) (uses : Code) (body : Code)
  | function (id : Nat) (name : QString) (params body : Code)
  | type (id : Nat) (k : TypeKind) (name : QString) (members : Code)
  | method (id : Nat) (name : QString) (params : Code) (hasBody : Bool) (body : Code)
deriving DecidableEq, Repr

/-- `#namespaceName=identifier*`: each identifier with its token. -/
abbrev NsName := List (Nat × QString)

/-- `outerTopStatement` (parser/php.g:297-299) with `namespaceDeclarationStatement` (1073-1078): a namespace
is only declared at the outermost level. -/
inductive Outer
  | code (c : Code)
  /-- `namespace A\B;` -/
  | nsDecl (name : NsName)
  /-- `namespace A\B { … }`, `namespace { … }` -/
  | nsBlock (name : NsName) (body : Code)
deriving DecidableEq, Repr

/-- What happens in the current context. -/
inductive Event
  | leaf (l : Leaf)
  | type (k : TypeKind) (name : QString)
  | function (name : QString)
  | method (name : QString)
  | closure
  | namespace (name : QString)
deriving DecidableEq, Repr

/-- A context. -/
structure Ctx where
  key : Option Key
  kind : Kind
  /-- the local scope identifier; empty if none -/
  name : QString
  parent : Option Nat
  imports : List Nat
deriving DecidableEq, Repr

/-- The state of a builder. -/
structure St where
  /-- all contexts of the file; a context is named by its index -/
  ctxs : List Ctx
  /-- the opened contexts, innermost first -/
  stack : List Nat
  /-- `node->ducontext` -/
  nodes : Key → Option Nat
  /-- `m_types`, `m_functions`, `m_namespaces` (predeclarationbuilder.cpp:72, 98, 124, 152, 168): keyed by the token of the name -/
  decls : Nat → Option Event
  /-- `m_openNamespaces` -/
  openNs : Option NsName
  /-- what was declared or seen in which context, in order -/
  log : List (Event × Nat)

/-- Which walk it is: the first one compiles contexts; the file with the internal functions has no bodies. -/
structure Pass where
  compiling : Bool
  internal : Bool
deriving DecidableEq, Repr

/-- `currentContext()`. -/
def St.current (s : St) : Option Nat := s.stack.head?

/-- Something is declared or used in the current context. -/
def note (e : Event) (s : St) : Option St :=
  match s.stack with
  | [] => none
  | c :: _ => some { s with log := s.log ++ [(e, c)] }

/-- `openContext` of the platform (see the head of this file); a missing context cannot be opened. -/
def openContext (p : Pass) (k : Key) (kind : Kind) (name : QString) (s : St) : Option (Nat × St) :=
  if p.compiling then
    some (s.ctxs.length, { s with
      ctxs := s.ctxs ++ [⟨some k, kind, name, s.current, []⟩]
      stack := s.ctxs.length :: s.stack
      nodes := fun k' => if k' = k then some s.ctxs.length else s.nodes k' })
  else
    match s.nodes k with
    | none => none
    | some c => some (c, { s with stack := c :: s.stack })

/-- `closeContext`. -/
def closeContext (s : St) : Option St :=
  match s.stack with
  | [] => none
  | _ :: st => some { s with stack := st }

/-- `body->addImportedParentContext(i)` while compiling contexts. -/
def addImport (p : Pass) (c i : Nat) (s : St) : St :=
  if p.compiling then { s with ctxs := s.ctxs.modify c (fun x => { x with imports := x.imports ++ [i] }) }
  else s

/-- The first walk stores the declaration under the token of its name (predeclarationbuilder.cpp:72, 98, 124,
152, 168), the second one asserts that it is there and of the same kind (declarationbuilder.cpp:224-227, 857-858,
1583-1584). -/
def declare (p : Pass) (id : Nat) (e : Event) (s : St) : Option St :=
  if p.compiling then
    note e { s with decls := fun i => if i = id then some e else s.decls i }
  else if s.decls id = some e then note e s else none

/-- Open a context, let it import others, visit what is in it, close it; the result is the context.  Only bodies import
something (contextbuilder.cpp:287-297, 317-327, 350-363). -/
def scope (p : Pass) (k : Key) (kind : Kind) (name : QString) (imported : List Nat) (visit : St → Option St) (s : St) :
    Option (Nat × St) :=
  (openContext p k kind name s).bind fun r =>
  ((visit (imported.foldl (fun s i => addImport p r.1 i s) r.2)).bind closeContext).map fun s => (r.1, s)

/-- The body of a function or closure: skipped in the file with the internal functions and for abstract methods
(contextbuilder.cpp:287, 317, 350). -/
def bodyScope (p : Pass) (skip : Bool) (id : Nat) (name : QString) (imported : List Nat) (visit : St → Option St) (s : St) :
    Option St :=
  if skip then some s
  else (scope p ⟨id, .body⟩ .other name imported visit s).map (·.2)

/-- The lexical variables of a closure and its body (contextbuilder.cpp:341-363). -/
def closureRest (p : Pass) (id : Nat) (params : Nat) (hasUses : Bool) (uses body : St → Option St) (s : St) : Option St :=
  if hasUses then
    (scope p ⟨id, .uses⟩ .other [] [] uses s).bind fun r =>
    bodyScope p p.internal id [] [params, r.1] body r.2
  else bodyScope p p.internal id [] [params] body s

/-- The walk over a tree: `visitClosure` (contextbuilder.cpp:330-364, declarationbuilder.cpp:884-897),
`visitFunctionDeclarationStatement` (contextbuilder.cpp:304-328, declarationbuilder.cpp:853-870,
predeclarationbuilder.cpp:134-155), `visitClassDeclarationStatement` and the same for interfaces and traits
(contextbuilder.cpp:244-271, declarationbuilder.cpp:171-235, predeclarationbuilder.cpp:35-127), `visitClassStatement`
(contextbuilder.cpp:273-302). -/
def walk (u : CharClass) (p : Pass) : Code → St → Option St
  | .empty, s => some s
  | .seq a b, s => (walk u p a s).bind (walk u p b)
  | .leaf l, s => note (.leaf l) s
  | .closure id params hasUses uses body, s =>
    (note .closure s).bind fun s =>
    (scope p ⟨id, .params⟩ .function [] [] (walk u p params) s).bind fun r =>
    closureRest p id r.1 hasUses (walk u p uses) (walk u p body) r.2
  | .function id name params body, s =>
    (declare p id (.function (lowerStr u name)) s).bind fun s =>
    (scope p ⟨id, .params⟩ .function name [] (walk u p params) s).bind fun r =>
    bodyScope p p.internal id name [r.1] (walk u p body) r.2
  | .type id k name members, s =>
    (declare p id (.type k (lowerStr u name)) s).bind fun s =>
    (scope p ⟨id, .whole⟩ .klass (lowerStr u name) [] (walk u p members) s).map (·.2)
  | .method id name params hasBody body, s =>
    (note (.method (lowerStr u name)) s).bind fun s =>
    (scope p ⟨id, .params⟩ .function name [] (walk u p params) s).bind fun r =>
    bodyScope p (p.internal || !hasBody) id name [r.1] (walk u p body) r.2

/-- `openNamespace` for each identifier (contextbuilder.cpp:391-394, 415-422, predeclarationbuilder.cpp:157-172,
declarationbuilder.cpp:1581-1589). -/
def openNamespaces (u : CharClass) (p : Pass) : NsName → St → Option St
  | [], s => some s
  | (id, n) :: ns, s =>
    (declare p id (.namespace (lowerStr u n)) s).bind fun s =>
    (openContext p ⟨id, .whole⟩ .namespace (lowerStr u n) s).bind fun r => openNamespaces u p ns r.2

/-- `closeNamespaces` with its assertion (contextbuilder.cpp:405-413, 424-427). -/
def closeNamespaces : NsName → St → Option St
  | [], s => some s
  | _ :: ns, s =>
    match s.current.bind (s.ctxs[·]?) with
    | some x => if x.kind = .namespace then (closeContext s).bind (closeNamespaces ns) else none
    | none => none

/-- contextbuilder.cpp:368-372 and 121-124: close the namespace opened by `namespace A;`. -/
def closeOpen (s : St) : Option St :=
  match s.openNs with
  | none => some s
  | some ns => (closeNamespaces ns s).map fun s => { s with openNs := none }

/-- `outerTopStatement` with `visitNamespaceDeclarationStatement` (contextbuilder.cpp:366-403). -/
def outer (u : CharClass) (p : Pass) : Outer → St → Option St
  | .code c, s => walk u p c s
  | .nsDecl [], s => closeOpen s
  | .nsDecl (n :: ns), s =>
    (closeOpen s).bind fun s =>
    (openNamespaces u p (n :: ns) s).map fun s => { s with openNs := some (n :: ns) }
  | .nsBlock [] body, s => (closeOpen s).bind (walk u p body)
  | .nsBlock (n :: ns) body, s =>
    (closeOpen s).bind fun s =>
    (openNamespaces u p (n :: ns) s).bind fun s =>
    (walk u p body s).bind (closeNamespaces (n :: ns))

/-- The walk over a file (`startVisiting`, contextbuilder.cpp:92-125). -/
def visitFile (u : CharClass) (p : Pass) (f : List Outer) (s : St) : Option St :=
  (f.foldlM (fun s o => outer u p o s) s).bind closeOpen

/-- The state at the beginning: only the context of the file. -/
def start : St :=
  { ctxs := [⟨none, .global, [], none, []⟩], stack := [0], nodes := fun _ => none, decls := fun _ => none,
    openNs := none, log := [] }

/-- `DeclarationBuilder::build` (declarationbuilder.cpp:121-144): the first walk by `PreDeclarationBuilder`, then the
second one over the same nodes.  The logs are those of the two walks. -/
def build (u : CharClass) (internal : Bool) (f : List Outer) : Option (St × St) :=
  (visitFile u ⟨true, internal⟩ f start).bind fun s1 =>
  (visitFile u ⟨false, internal⟩ f { s1 with stack := [0], openNs := none, log := [] }).map fun s2 => (s1, s2)

/-! ### Specification: where things stand in the text -/

/-- One construct around a place of the text. -/
structure Frame where
  key : Option Key
  kind : Kind
  name : QString
deriving DecidableEq, Repr

/-- The file itself. -/
def fileFrame : Frame := ⟨none, .global, []⟩

/-- The namespaces around what stands in namespace `ns`, innermost first. -/
def inNamespace (u : CharClass) (ns : NsName) : List Frame :=
  (ns.map fun (id, n) => (⟨some ⟨id, .whole⟩, .namespace, lowerStr u n⟩ : Frame)).reverse ++ [fileFrame]

/-- All that stands in a tree, in order, each with the constructs around it, innermost first.  In the file with the
internal functions bodies are skipped. -/
def sites (u : CharClass) (internal : Bool) (around : List Frame) : Code → List (Event × List Frame)
  | .empty => []
  | .seq a b => sites u internal around a ++ sites u internal around b
  | .leaf l => [(.leaf l, around)]
  | .closure id params hasUses uses body =>
    (.closure, around)
    :: (sites u internal (⟨some ⟨id, .params⟩, .function, []⟩ :: around) params
    ++ ((if hasUses then sites u internal (⟨some ⟨id, .uses⟩, .other, []⟩ :: around) uses else [])
    ++ (if internal then [] else sites u internal (⟨some ⟨id, .body⟩, .other, []⟩ :: around) body)))
  | .function id name params body =>
    (.function (lowerStr u name), around)
    :: (sites u internal (⟨some ⟨id, .params⟩, .function, name⟩ :: around) params
    ++ (if internal then [] else sites u internal (⟨some ⟨id, .body⟩, .other, name⟩ :: around) body))
  | .type id k name members =>
    (.type k (lowerStr u name), around)
    :: sites u internal (⟨some ⟨id, .whole⟩, .klass, lowerStr u name⟩ :: around) members
  | .method id name params hasBody body =>
    (.method (lowerStr u name), around)
    :: (sites u internal (⟨some ⟨id, .params⟩, .function, name⟩ :: around) params
    ++ (if internal || !hasBody then [] else sites u internal (⟨some ⟨id, .body⟩, .other, name⟩ :: around) body))

/-- The identifiers of a namespace declaration: each one stands in the namespaces before it. -/
def nsSites (u : CharClass) (around : List Frame) : NsName → List (Event × List Frame)
  | [] => []
  | (id, n) :: ns =>
    (.namespace (lowerStr u n), around) :: nsSites u (⟨some ⟨id, .whole⟩, .namespace, lowerStr u n⟩ :: around) ns

/-- All that stands in a file whose namespace is `ns` at the beginning: `namespace A;` is in force until the next
namespace declaration, `namespace A { … }` only for its block. -/
def fileSites (u : CharClass) (internal : Bool) : NsName → List Outer → List (Event × List Frame)
  | _, [] => []
  | ns, .code c :: f => sites u internal (inNamespace u ns) c ++ fileSites u internal ns f
  | _, .nsDecl n :: f => nsSites u [fileFrame] n ++ fileSites u internal n f
  | _, .nsBlock n b :: f =>
    nsSites u [fileFrame] n ++ sites u internal (inNamespace u n) b ++ fileSites u internal [] f

/-- A context that the text asks for: the constructs around it with itself, and which contexts of the same construct
it imports. -/
structure Scope where
  frames : List Frame
  imports : List Key
deriving DecidableEq, Repr

/-- The contexts of a tree, in order: one for each parameter list, list of lexical variables, body and class.  A body imports the
parameters and the lexical variables of its own function, nothing else imports anything. -/
def scopes (u : CharClass) (internal : Bool) (around : List Frame) : Code → List Scope
  | .empty => []
  | .seq a b => scopes u internal around a ++ scopes u internal around b
  | .leaf _ => []
  | .closure id params hasUses uses body =>
    let ps := ⟨some ⟨id, .params⟩, .function, []⟩ :: around
    let us := ⟨some ⟨id, .uses⟩, .other, []⟩ :: around
    let bs := ⟨some ⟨id, .body⟩, .other, []⟩ :: around
    ⟨ps, []⟩ :: scopes u internal ps params
    ++ ((if hasUses then ⟨us, []⟩ :: scopes u internal us uses else [])
    ++ (if internal then []
        else ⟨bs, if hasUses then [⟨id, .params⟩, ⟨id, .uses⟩] else [⟨id, .params⟩]⟩ :: scopes u internal bs body))
  | .function id name params body =>
    let ps := ⟨some ⟨id, .params⟩, .function, name⟩ :: around
    let bs := ⟨some ⟨id, .body⟩, .other, name⟩ :: around
    ⟨ps, []⟩ :: scopes u internal ps params
    ++ (if internal then [] else ⟨bs, [⟨id, .params⟩]⟩ :: scopes u internal bs body)
  | .type id _ name members =>
    let cs := ⟨some ⟨id, .whole⟩, .klass, lowerStr u name⟩ :: around
    ⟨cs, []⟩ :: scopes u internal cs members
  | .method id name params hasBody body =>
    let ps := ⟨some ⟨id, .params⟩, .function, name⟩ :: around
    let bs := ⟨some ⟨id, .body⟩, .other, name⟩ :: around
    ⟨ps, []⟩ :: scopes u internal ps params
    ++ (if internal || !hasBody then [] else ⟨bs, [⟨id, .params⟩]⟩ :: scopes u internal bs body)

/-- The contexts of a namespace declaration. -/
def nsScopes (u : CharClass) (around : List Frame) : NsName → List Scope
  | [] => []
  | (id, n) :: ns =>
    let fs := ⟨some ⟨id, .whole⟩, .namespace, lowerStr u n⟩ :: around
    ⟨fs, []⟩ :: nsScopes u fs ns

/-- The contexts of a file. -/
def fileScopes (u : CharClass) (internal : Bool) : NsName → List Outer → List Scope
  | _, [] => []
  | ns, .code c :: f => scopes u internal (inNamespace u ns) c ++ fileScopes u internal ns f
  | _, .nsDecl n :: f => nsScopes u [fileFrame] n ++ fileScopes u internal n f
  | _, .nsBlock n b :: f =>
    nsScopes u [fileFrame] n ++ scopes u internal (inNamespace u n) b ++ fileScopes u internal [] f

/-- The nodes of a tree that have a context. -/
def keys : Code → List Key
  | .empty => []
  | .seq a b => keys a ++ keys b
  | .leaf _ => []
  | .closure id params _ uses body =>
    ⟨id, .params⟩ :: keys params ++ (⟨id, .uses⟩ :: keys uses ++ (⟨id, .body⟩ :: keys body))
  | .function id _ params body => ⟨id, .params⟩ :: keys params ++ (⟨id, .body⟩ :: keys body)
  | .type id _ _ members => ⟨id, .whole⟩ :: keys members
  | .method id _ params _ body => ⟨id, .params⟩ :: keys params ++ (⟨id, .body⟩ :: keys body)

/-- The tokens of the names of functions and classes. -/
def tokens : Code → List Nat
  | .empty => []
  | .seq a b => tokens a ++ tokens b
  | .leaf _ => []
  | .closure _ params _ uses body => tokens params ++ (tokens uses ++ tokens body)
  | .function id _ params body => [id] ++ (tokens params ++ tokens body)
  | .type id _ _ members => [id] ++ tokens members
  | .method _ _ params _ body => tokens params ++ tokens body

/-- The nodes of a file that have a context. -/
def fileKeys : List Outer → List Key
  | [] => []
  | .code c :: f => keys c ++ fileKeys f
  | .nsDecl n :: f => n.map (fun x => ⟨x.1, .whole⟩) ++ fileKeys f
  | .nsBlock n b :: f => n.map (fun x => ⟨x.1, .whole⟩) ++ (keys b ++ fileKeys f)

/-- The tokens of the names of functions, classes and namespaces. -/
def fileTokens : List Outer → List Nat
  | [] => []
  | .code c :: f => tokens c ++ fileTokens f
  | .nsDecl n :: f => n.map (·.1) ++ fileTokens f
  | .nsBlock n b :: f => n.map (·.1) ++ (tokens b ++ fileTokens f)

/-- `Within cs c fs`: the context `c` and those around it are `fs`, innermost first; each is made before those in it. -/
inductive Within (cs : List Ctx) : Nat → List Frame → Prop
  | file {c : Nat} {x : Ctx} : cs[c]? = some x → x.parent = none → Within cs c [⟨x.key, x.kind, x.name⟩]
  | inner {c q : Nat} {x : Ctx} {fs : List Frame} : cs[c]? = some x → x.parent = some q → q < c → Within cs q fs →
      Within cs c (⟨x.key, x.kind, x.name⟩ :: fs)

/-- A log agrees with the text: the same things in the same order, each in the context of the constructs around
it. -/
def Agrees (cs : List Ctx) : List (Event × Nat) → List (Event × List Frame) → Prop
  | [], [] => True
  | (e, c) :: l, (e', fs) :: l' => e = e' ∧ Within cs c fs ∧ Agrees cs l l'
  | _, _ => False

/-- The contexts `is` are those of the nodes `ks`, all directly in the context `par`. -/
def Beside (cs : List Ctx) (par : Option Nat) : List Nat → List Key → Prop
  | [], [] => True
  | i :: is, k :: ks => (∃ y, cs[i]? = some y ∧ y.key = some k ∧ y.parent = par) ∧ Beside cs par is ks
  | _, _ => False

/-- The context `i` is the one the text asks for: it stands where it should, and it imports the contexts of the given
nodes, which stand beside it. -/
def Made (cs : List Ctx) (i : Nat) (sc : Scope) : Prop :=
  Within cs i sc.frames ∧
  ∃ x, cs[i]? = some x ∧ Beside cs x.parent x.imports sc.imports

/-- The contexts from the `n`-th on are those the text asks for. -/
def MadeAll (cs : List Ctx) : Nat → List Scope → Prop
  | _, [] => True
  | n, sc :: l => Made cs n sc ∧ MadeAll cs (n + 1) l

/-! ### The first walk -/

theorem Within.lt {cs : List Ctx} {c : Nat} {fs : List Frame} (h : Within cs c fs) : c < cs.length := by
  cases h with
  | file hx _ => exact (List.getElem?_eq_some_iff.mp hx).1
  | inner hx _ _ _ => exact (List.getElem?_eq_some_iff.mp hx).1

/-- The constructs around a context are determined. -/
theorem Within.unique {cs : List Ctx} {c : Nat} {fs fs' : List Frame} (h : Within cs c fs) (h' : Within cs c fs') : fs = fs' := by
  induction h generalizing fs' with
  | file hx hp =>
    cases h' with
    | file hx' _ => rw [hx] at hx'; cases hx'; rfl
    | inner hx' hp' _ _ => rw [hx] at hx'; cases hx'; rw [hp] at hp'; cases hp'
  | inner hx hp _ _ ih =>
    cases h' with
    | file hx' hp' => rw [hx] at hx'; cases hx'; rw [hp] at hp'; cases hp'
    | inner hx' hp' _ hw' => rw [hx] at hx'; cases hx'; rw [hp] at hp'; cases hp'; rw [ih hw']

/-- The contexts only grow: `cs'` begins with `cs`. -/
def Extends (cs cs' : List Ctx) : Prop := ∃ l, cs' = cs ++ l

theorem Extends.refl (cs : List Ctx) : Extends cs cs := ⟨[], by simp⟩

theorem Extends.trans {a b c : List Ctx} (h : Extends a b) (h' : Extends b c) : Extends a c := by
  obtain ⟨l, rfl⟩ := h; obtain ⟨l', rfl⟩ := h'; exact ⟨l ++ l', by simp⟩

theorem Extends.get {a b : List Ctx} (h : Extends a b) {c : Nat} {x : Ctx} (hx : a[c]? = some x) : b[c]? = some x := by
  obtain ⟨l, rfl⟩ := h
  rw [List.getElem?_append_left]
  · exact hx
  · exact (List.getElem?_eq_some_iff.mp hx).1

theorem Within.extends {a b : List Ctx} (h : Extends a b) {c : Nat} {fs : List Frame} (hw : Within a c fs) : Within b c fs := by
  induction hw with
  | file hx hp => exact .file (h.get hx) hp
  | inner hx hp hq _ ih => exact .inner (h.get hx) hp hq ih

theorem Agrees.extends {a b : List Ctx} (h : Extends a b) : ∀ {l l'}, Agrees a l l' → Agrees b l l'
  | [], [], _ => trivial
  | (_, _) :: _, (_, _) :: _, ⟨h1, h2, h3⟩ => ⟨h1, h2.extends h, Agrees.extends h h3⟩

theorem Agrees.append {cs : List Ctx} : ∀ {l l' m m'}, Agrees cs l l' → Agrees cs m m' → Agrees cs (l ++ m) (l' ++ m')
  | [], [], _, _, _, h => h
  | (_, _) :: _, (_, _) :: _, _, _, ⟨h1, h2, h3⟩, h => ⟨h1, h2, h3.append h⟩

theorem Beside.extends {a b : List Ctx} (h : Extends a b) {par : Option Nat} : ∀ {is ks}, Beside a par is ks → Beside b par is ks
  | [], [], _ => trivial
  | _ :: _, _ :: _, ⟨⟨y, h1, h2⟩, h3⟩ => ⟨⟨y, h.get h1, h2⟩, h3.extends h⟩

theorem Made.extends {a b : List Ctx} (h : Extends a b) {i : Nat} {sc : Scope} (hm : Made a i sc) : Made b i sc := by
  obtain ⟨hw, x, hx, hf⟩ := hm
  exact ⟨hw.extends h, x, h.get hx, hf.extends h⟩

theorem MadeAll.extends {a b : List Ctx} (h : Extends a b) : ∀ {n l}, MadeAll a n l → MadeAll b n l
  | _, [], _ => trivial
  | _, _ :: _, ⟨h1, h2⟩ => ⟨h1.extends h, h2.extends h⟩

theorem MadeAll.append {cs : List Ctx} : ∀ {n l m}, MadeAll cs n l → MadeAll cs (n + l.length) m → MadeAll cs n (l ++ m)
  | _, [], _, _, h => h
  | n, _ :: l, m, ⟨h1, h2⟩, h => by
    refine ⟨h1, h2.append ?_⟩
    have : n + 1 + l.length = n + (l.length + 1) := by omega
    rw [this]; exact h

/-- What one visit of the first walk leaves behind. -/
structure Ran (ks : List Key) (ts : List Nat) (s s' : St) (l : List (Event × Nat)) (ss : List (Event × List Frame))
    (sc : List Scope) : Prop where
  ext : Extends s.ctxs s'.ctxs
  stack : s'.stack = s.stack
  openNs : s'.openNs = s.openNs
  nodes : ∀ k, k ∉ ks → s'.nodes k = s.nodes k
  decls : ∀ i, i ∉ ts → s'.decls i = s.decls i
  log : s'.log = s.log ++ l
  agrees : Agrees s'.ctxs l ss
  len : s'.ctxs.length = s.ctxs.length + sc.length
  made : MadeAll s'.ctxs s.ctxs.length sc

/-- The second walk over the same nodes sees the same in the same contexts. -/
def Again (v : St → Option St) (ks : List Key) (ts : List Nat) (s s' : St) (l : List (Event × Nat)) : Prop :=
  ks.Nodup → ts.Nodup → ∀ t : St, t.stack = s.stack → (∀ k ∈ ks, t.nodes k = s'.nodes k) → (∀ i ∈ ts, t.decls i = s'.decls i) →
    v t = some { t with log := t.log ++ l }

/-- The same for what results in a context. -/
def AgainC (v : St → Option (Nat × St)) (c : Nat) (ks : List Key) (ts : List Nat) (s s' : St) (l : List (Event × Nat)) : Prop :=
  ks.Nodup → ts.Nodup → ∀ t : St, t.stack = s.stack → (∀ k ∈ ks, t.nodes k = s'.nodes k) → (∀ i ∈ ts, t.decls i = s'.decls i) →
    v t = some (c, { t with log := t.log ++ l })

theorem Ran.trans {ks ks' : List Key} {ts ts' : List Nat} {s s1 s2 : St} {l l' : List (Event × Nat)}
    {ss ss' : List (Event × List Frame)} {sc sc' : List Scope} (h : Ran ks ts s s1 l ss sc) (h' : Ran ks' ts' s1 s2 l' ss' sc') :
    Ran (ks ++ ks') (ts ++ ts') s s2 (l ++ l') (ss ++ ss') (sc ++ sc') where
  ext := h.ext.trans h'.ext
  stack := by rw [h'.stack, h.stack]
  openNs := by rw [h'.openNs, h.openNs]
  nodes k hk := by
    rw [List.mem_append, not_or] at hk
    rw [h'.nodes k hk.2, h.nodes k hk.1]
  decls k hk := by
    rw [List.mem_append, not_or] at hk
    rw [h'.decls k hk.2, h.decls k hk.1]
  log := by rw [h'.log, h.log, List.append_assoc]
  agrees := (h.agrees.extends h'.ext).append h'.agrees
  len := by rw [h'.len, h.len, List.length_append]; omega
  made := (h.made.extends h'.ext).append (by rw [← h.len]; exact h'.made)

/-- Two visits one after the other. -/
theorem Again.trans {v w : St → Option St} {ks ks' : List Key} {ts ts' : List Nat} {s s1 s2 : St} {l l' : List (Event × Nat)}
    {ss ss' : List (Event × List Frame)} {sc sc' : List Scope} (hr : Ran ks ts s s1 l ss sc) (hr' : Ran ks' ts' s1 s2 l' ss' sc')
    (h : Again v ks ts s s1 l) (h' : Again w ks' ts' s1 s2 l') :
    Again (fun t => (v t).bind w) (ks ++ ks') (ts ++ ts') s s2 (l ++ l') := by
  intro hk ht t hts htn htd
  obtain ⟨hk1, hk2, hk3⟩ := List.nodup_append.mp hk
  obtain ⟨ht1, ht2, ht3⟩ := List.nodup_append.mp ht
  have e1 := h hk1 ht1 t hts
    (fun k hkk => by rw [htn k (List.mem_append_left _ hkk), hr'.nodes k (fun hc => hk3 k hkk k hc rfl)])
    (fun i hi => by rw [htd i (List.mem_append_left _ hi), hr'.decls i (fun hc => ht3 i hi i hc rfl)])
  have e2 := h' hk2 ht2 { t with log := t.log ++ l } (hts.trans hr.stack.symm)
    (fun k hkk => htn k (List.mem_append_right _ hkk)) (fun i hi => htd i (List.mem_append_right _ hi))
  show (v t).bind _ = _
  rw [e1, Option.bind_some]
  refine e2.trans ?_
  simp [List.append_assoc]

theorem AgainC.trans {v : St → Option (Nat × St)} {c : Nat} {w : Nat → St → Option St} {ks ks' : List Key} {ts ts' : List Nat} {s s1 s2 : St}
    {l l' : List (Event × Nat)} {ss ss' : List (Event × List Frame)} {sc sc' : List Scope}
    (hr : Ran ks ts s s1 l ss sc) (hr' : Ran ks' ts' s1 s2 l' ss' sc')
    (h : AgainC v c ks ts s s1 l) (h' : Again (w c) ks' ts' s1 s2 l') :
    Again (fun t => (v t).bind fun r => w r.1 r.2) (ks ++ ks') (ts ++ ts') s s2 (l ++ l') := by
  intro hk ht t hts htn htd
  obtain ⟨hk1, hk2, hk3⟩ := List.nodup_append.mp hk
  obtain ⟨ht1, ht2, ht3⟩ := List.nodup_append.mp ht
  have e1 := h hk1 ht1 t hts
    (fun k hkk => by rw [htn k (List.mem_append_left _ hkk), hr'.nodes k (fun hc => hk3 k hkk k hc rfl)])
    (fun i hi => by rw [htd i (List.mem_append_left _ hi), hr'.decls i (fun hc => ht3 i hi i hc rfl)])
  have e2 := h' hk2 ht2 { t with log := t.log ++ l } (hts.trans hr.stack.symm)
    (fun k hkk => htn k (List.mem_append_right _ hkk)) (fun i hi => htd i (List.mem_append_right _ hi))
  show (v t).bind _ = _
  rw [e1, Option.bind_some]
  refine e2.trans ?_
  simp [List.append_assoc]

/-- A visit does its work in both walks, started in the context `top` inside `around`. -/
def GoodAt (v1 v2 : St → Option St) (ks : List Key) (ts : List Nat) (ss : List (Event × List Frame)) (sc : List Scope) (s : St) : Prop :=
  ∃ s' l, v1 s = some s' ∧ Ran ks ts s s' l ss sc ∧ Again v2 ks ts s s' l

/-- … whatever the current context is. -/
def Good (v1 v2 : St → Option St) (ks : List Key) (ts : List Nat) (ss : List Frame → List (Event × List Frame))
    (sc : List Frame → List Scope) : Prop :=
  ∀ (s : St) (top : Nat) (st : List Nat) (around : List Frame), s.stack = top :: st → Within s.ctxs top around →
    GoodAt v1 v2 ks ts (ss around) (sc around) s

theorem note_good (e : Event) {s : St} {top : Nat} {st : List Nat} {around : List Frame} (hst : s.stack = top :: st)
    (hw : Within s.ctxs top around) : GoodAt (note e) (note e) [] [] [(e, around)] [] s := by
  refine ⟨{ s with log := s.log ++ [(e, top)] }, [(e, top)], by simp [note, hst], ?_, ?_⟩
  · exact ⟨Extends.refl _, rfl, rfl, fun _ _ => rfl, fun _ _ => rfl, rfl, ⟨rfl, hw, trivial⟩, rfl, trivial⟩
  · intro _ _ t ht _ _
    simp [note, ht, hst]

theorem declare_good (i : Bool) (id : Nat) (e : Event) {s : St} {top : Nat} {st : List Nat} {around : List Frame} (hst : s.stack = top :: st)
    (hw : Within s.ctxs top around) : GoodAt (declare ⟨true, i⟩ id e) (declare ⟨false, i⟩ id e) [] [id] [(e, around)] [] s := by
  refine ⟨{ s with log := s.log ++ [(e, top)], decls := fun j => if j = id then some e else s.decls j }, [(e, top)],
    by simp [declare, note, hst], ?_, ?_⟩
  · refine ⟨Extends.refl _, rfl, rfl, fun _ _ => rfl, ?_, rfl, ⟨rfl, hw, trivial⟩, rfl, trivial⟩
    intro j hj
    have : j ≠ id := by simpa using hj
    simp [this]
  · intro _ _ t ht _ hd
    have : t.decls id = some e := by rw [hd id (by simp)]; simp
    simp [declare, note, ht, hst, this]

theorem GoodAt.trans {v1 v2 w1 w2 : St → Option St} {ks ks' : List Key} {ts ts' : List Nat} {ss ss' : List (Event × List Frame)}
    {sc sc' : List Scope} {s : St} (h : GoodAt v1 v2 ks ts ss sc s)
    (h' : ∀ s' l, Ran ks ts s s' l ss sc → GoodAt w1 w2 ks' ts' ss' sc' s') :
    GoodAt (fun s => (v1 s).bind w1) (fun s => (v2 s).bind w2) (ks ++ ks') (ts ++ ts') (ss ++ ss') (sc ++ sc') s := by
  obtain ⟨s1, l, e1, r1, a1⟩ := h
  obtain ⟨s2, l', e2, r2, a2⟩ := h' s1 l r1
  exact ⟨s2, l ++ l', by show (v1 s).bind w1 = _; rw [e1]; exact e2, r1.trans r2, Again.trans r1 r2 a1 a2⟩

theorem modify_last (f : Ctx → Ctx) (x : Ctx) : ∀ cs : List Ctx, (cs ++ [x]).modify cs.length f = cs ++ [f x]
  | [] => rfl
  | y :: cs => by
    show y :: (cs ++ [x]).modify cs.length f = _
    rw [modify_last f x cs]; rfl

theorem foldl_addImport (i : Bool) (cs : List Ctx) (x : Ctx) : ∀ (is : List Nat) (s : St), s.ctxs = cs ++ [x] →
    is.foldl (fun s j => addImport ⟨true, i⟩ cs.length j s) s = { s with ctxs := cs ++ [{ x with imports := x.imports ++ is }] }
  | [], s, h => by simp [← h]
  | j :: is, s, h => by
    rw [List.foldl_cons]
    have e : addImport ⟨true, i⟩ cs.length j s = { s with ctxs := cs ++ [{ x with imports := x.imports ++ [j] }] } := by
      simp only [addImport, h, if_true, modify_last]
    rw [e, foldl_addImport i cs { x with imports := x.imports ++ [j] } is _ rfl]
    simp

/-- A context around a visit. -/
theorem scope_good (i : Bool) (k : Key) (kind : Kind) (name : QString) {is : List Nat} {iks : List Key} {v1 v2 : St → Option St}
    {ks : List Key} {ts : List Nat} {ss : List Frame → List (Event × List Frame)} {sc : List Frame → List Scope}
    (hv : Good v1 v2 ks ts ss sc) {s : St} {top : Nat} {st : List Nat} {around : List Frame} (hst : s.stack = top :: st)
    (hw : Within s.ctxs top around) (hb : Beside s.ctxs (some top) is iks) :
    ∃ c s' l, scope ⟨true, i⟩ k kind name is v1 s = some (c, s') ∧
      Ran (k :: ks) ts s s' l (ss (⟨some k, kind, name⟩ :: around))
        (⟨⟨some k, kind, name⟩ :: around, iks⟩ :: sc (⟨some k, kind, name⟩ :: around)) ∧
      (∃ x, s'.ctxs[c]? = some x ∧ x.key = some k ∧ x.parent = some top) ∧
      AgainC (scope ⟨false, i⟩ k kind name is v2) c (k :: ks) ts s s' l := by
  let n := s.ctxs.length
  let fr : Frame := ⟨some k, kind, name⟩
  let x : Ctx := ⟨some k, kind, name, some top, is⟩
  let s0 : St := { s with ctxs := s.ctxs ++ [x], stack := n :: s.stack, nodes := fun k' => if k' = k then some n else s.nodes k' }
  have hx0 : s0.ctxs[n]? = some x := by simp [s0, n]
  have hext0 : Extends s.ctxs s0.ctxs := ⟨[x], rfl⟩
  have hw0 : Within s0.ctxs n (fr :: around) := .inner (x := x) hx0 rfl hw.lt (hw.extends hext0)
  obtain ⟨s1, l, e1, r1, a1⟩ := hv s0 n s.stack (fr :: around) rfl hw0
  have hs0 : is.foldl (fun s' j => addImport ⟨true, i⟩ n j s')
      { s with ctxs := s.ctxs ++ [⟨some k, kind, name, s.current, []⟩], stack := n :: s.stack,
               nodes := fun k' => if k' = k then some n else s.nodes k' } = s0 := by
    rw [foldl_addImport i s.ctxs _ is _ rfl]
    simp [s0, x, n, St.current, hst]
  refine ⟨n, { s1 with stack := s.stack }, l, ?_, ?_, ⟨x, r1.ext.get hx0, rfl, rfl⟩, ?_⟩
  · show Option.map _ (Option.bind (v1 (is.foldl (fun s' j => addImport ⟨true, i⟩ n j s') _)) closeContext) = _
    rw [hs0, e1, Option.bind_some]
    simp [closeContext, r1.stack, s0, n]
  · refine ⟨hext0.trans r1.ext, rfl, r1.openNs, ?_, r1.decls, r1.log, r1.agrees, ?_, ?_⟩
    · intro k' hk'
      have h1 : k' ≠ k := fun h => hk' (by simp [h])
      have h2 : k' ∉ ks := fun h => hk' (by simp [h])
      show s1.nodes k' = _
      rw [r1.nodes k' h2]
      simp [s0, h1]
    · show s1.ctxs.length = s.ctxs.length + ((sc (fr :: around)).length + 1)
      have hl : s0.ctxs.length = s.ctxs.length + 1 := by simp [s0]
      have := r1.len
      omega
    · have hm := r1.made
      have hl : s0.ctxs.length = s.ctxs.length + 1 := by simp [s0]
      rw [hl] at hm
      exact ⟨⟨hw0.extends r1.ext, x, r1.ext.get hx0, hb.extends (hext0.trans r1.ext)⟩, hm⟩
  · intro hk ht t hts htn htd
    obtain ⟨hk1, hk2⟩ := List.nodup_cons.mp hk
    have hnk : t.nodes k = some n := by
      rw [htn k (by simp)]
      show s1.nodes k = _
      rw [r1.nodes k hk1]; simp [s0]
    have hfold : ∀ (js : List Nat) (q : St), js.foldl (fun s' j => addImport ⟨false, i⟩ n j s') q = q := by
      intro js
      induction js with
      | nil => intro q; rfl
      | cons j js ih => intro q; rw [List.foldl_cons, show addImport ⟨false, i⟩ n j q = q from rfl]; exact ih q
    have e2 := a1 hk2 ht { t with stack := n :: t.stack } (by simp [s0, hts])
      (fun k' hk' => htn k' (by simp [hk'])) htd
    show Option.bind (openContext ⟨false, i⟩ k kind name t) _ = _
    rw [show openContext ⟨false, i⟩ k kind name t = some (n, { t with stack := n :: t.stack }) by simp [openContext, hnk]]
    rw [Option.bind_some]
    show Option.map _ (Option.bind (v2 (is.foldl (fun s' j => addImport ⟨false, i⟩ n j s') { t with stack := n :: t.stack })) closeContext) = _
    rw [hfold, e2]
    simp [closeContext]

/-- Nothing is done. -/
theorem nothing_good (s : St) : GoodAt (fun s => some s) (fun s => some s) [] [] [] [] s :=
  ⟨s, [], rfl, ⟨Extends.refl _, rfl, rfl, fun _ _ => rfl, fun _ _ => rfl, by simp, trivial, rfl, trivial⟩,
    fun _ _ t _ _ _ => by simp⟩

/-- Nodes that are not visited do not matter. -/
theorem GoodAt.more {v1 v2 : St → Option St} {ks : List Key} {ts : List Nat} {ss : List (Event × List Frame)} {sc : List Scope} {s : St}
    (h : GoodAt v1 v2 ks ts ss sc s) (ks' : List Key) (ts' : List Nat) : GoodAt v1 v2 (ks ++ ks') (ts ++ ts') ss sc s := by
  obtain ⟨s', l, e, r, a⟩ := h
  refine ⟨s', l, e, ⟨r.ext, r.stack, r.openNs, fun k hk => r.nodes k fun h => hk (List.mem_append_left _ h),
    fun k hk => r.decls k fun h => hk (List.mem_append_left _ h), r.log, r.agrees, r.len, r.made⟩, ?_⟩
  intro hk ht t hts htn htd
  exact a (List.nodup_append.mp hk).1 (List.nodup_append.mp ht).1 t hts (fun k h => htn k (List.mem_append_left _ h))
    (fun k h => htd k (List.mem_append_left _ h))

/-- A context and then something that knows it. -/
theorem scope_then {i : Bool} {k : Key} {kind : Kind} {name : QString} {v1 v2 : St → Option St}
    {ks ks' : List Key} {ts ts' : List Nat} {ss : List Frame → List (Event × List Frame)} {sc : List Frame → List Scope}
    {w1 w2 : Nat → St → Option St} {ss' : List (Event × List Frame)} {sc' : List Scope}
    (hv : Good v1 v2 ks ts ss sc) {s : St} {top : Nat} {st : List Nat} {around : List Frame} (hst : s.stack = top :: st)
    (hw : Within s.ctxs top around)
    (hrest : ∀ c s', s'.stack = top :: st → Extends s.ctxs s'.ctxs → (∃ x, s'.ctxs[c]? = some x ∧ x.key = some k ∧ x.parent = some top) →
      GoodAt (w1 c) (w2 c) ks' ts' ss' sc' s') :
    GoodAt (fun s => (scope ⟨true, i⟩ k kind name [] v1 s).bind fun r => w1 r.1 r.2)
      (fun s => (scope ⟨false, i⟩ k kind name [] v2 s).bind fun r => w2 r.1 r.2)
      (k :: ks ++ ks') (ts ++ ts') (ss (⟨some k, kind, name⟩ :: around) ++ ss')
      (⟨⟨some k, kind, name⟩ :: around, []⟩ :: sc (⟨some k, kind, name⟩ :: around) ++ sc') s := by
  obtain ⟨c, s1, l, e1, r1, hc, a1⟩ := scope_good i k kind name (is := []) (iks := []) hv hst hw trivial
  obtain ⟨s2, l', e2, r2, a2⟩ := hrest c s1 (r1.stack.trans hst) r1.ext hc
  exact ⟨s2, l ++ l', by show Option.bind _ _ = _; rw [e1]; exact e2, r1.trans r2, AgainC.trans r1 r2 a1 a2⟩

theorem bodyScope_good {i skip : Bool} {id : Nat} {name : QString} {is : List Nat} {iks : List Key} {v1 v2 : St → Option St}
    {ks : List Key} {ts : List Nat} {ss : List Frame → List (Event × List Frame)} {sc : List Frame → List Scope}
    (hv : Good v1 v2 ks ts ss sc) {s : St} {top : Nat} {st : List Nat} {around : List Frame} (hst : s.stack = top :: st)
    (hw : Within s.ctxs top around) (hb : Beside s.ctxs (some top) is iks) :
    GoodAt (bodyScope ⟨true, i⟩ skip id name is v1) (bodyScope ⟨false, i⟩ skip id name is v2) (⟨id, .body⟩ :: ks) ts
      (if skip then [] else ss (⟨some ⟨id, .body⟩, .other, name⟩ :: around))
      (if skip then [] else ⟨⟨some ⟨id, .body⟩, .other, name⟩ :: around, iks⟩ :: sc (⟨some ⟨id, .body⟩, .other, name⟩ :: around)) s := by
  cases skip with
  | true => exact (nothing_good s).more (⟨id, .body⟩ :: ks) ts
  | false =>
    obtain ⟨c, s1, l, e1, r1, _, a1⟩ := scope_good i ⟨id, .body⟩ .other name hv hst hw hb
    refine ⟨s1, l, ?_, r1, ?_⟩
    · show Option.map _ (scope _ _ _ _ _ _ _) = _
      rw [e1]; rfl
    · intro hk ht t hts htn htd
      show Option.map _ (scope _ _ _ _ _ _ _) = _
      rw [a1 hk ht t hts htn htd]; rfl

/-- Both walks over a tree do what the text says. -/
theorem walk_good (u : CharClass) (i : Bool) : ∀ c : Code,
    Good (walk u ⟨true, i⟩ c) (walk u ⟨false, i⟩ c) (keys c) (tokens c) (fun a => sites u i a c) (fun a => scopes u i a c)
  | .empty, s, _, _, _, _, _ => nothing_good s
  | .seq a b, s, top, st, around, hst, hw =>
    (walk_good u i a s top st around hst hw).trans fun s' _ r =>
      walk_good u i b s' top st around (r.stack.trans hst) (hw.extends r.ext)
  | .leaf l, s, top, st, around, hst, hw => note_good (.leaf l) hst hw
  | .closure id params hasUses uses body, s, top, st, around, hst, hw => by
    have h := (note_good .closure hst hw).trans fun s' _ r =>
      scope_then (i := i) (k := ⟨id, .params⟩) (kind := .function) (name := []) (walk_good u i params) (r.stack.trans hst) (hw.extends r.ext)
        (w1 := fun c => closureRest ⟨true, i⟩ id c hasUses (walk u ⟨true, i⟩ uses) (walk u ⟨true, i⟩ body))
        (w2 := fun c => closureRest ⟨false, i⟩ id c hasUses (walk u ⟨false, i⟩ uses) (walk u ⟨false, i⟩ body))
        (ks' := ⟨id, .uses⟩ :: keys uses ++ (⟨id, .body⟩ :: keys body)) (ts' := tokens uses ++ tokens body)
        (ss' := (if hasUses then sites u i (⟨some ⟨id, .uses⟩, .other, []⟩ :: around) uses else [])
          ++ (if i then [] else sites u i (⟨some ⟨id, .body⟩, .other, []⟩ :: around) body))
        (sc' := (if hasUses then ⟨⟨some ⟨id, .uses⟩, .other, []⟩ :: around, []⟩ :: scopes u i (⟨some ⟨id, .uses⟩, .other, []⟩ :: around) uses else [])
          ++ (if i then [] else ⟨⟨some ⟨id, .body⟩, .other, []⟩ :: around, if hasUses then [⟨id, .params⟩, ⟨id, .uses⟩] else [⟨id, .params⟩]⟩
            :: scopes u i (⟨some ⟨id, .body⟩, .other, []⟩ :: around) body))
        (fun c s' hst' hext hc => by
          have hw' := (hw.extends r.ext).extends hext
          cases hasUses with
          | true =>
            exact scope_then (i := i) (k := ⟨id, .uses⟩) (kind := .other) (name := []) (walk_good u i uses) hst' hw'
              (w1 := fun c' => bodyScope ⟨true, i⟩ i id [] [c, c'] (walk u ⟨true, i⟩ body))
              (w2 := fun c' => bodyScope ⟨false, i⟩ i id [] [c, c'] (walk u ⟨false, i⟩ body))
              (fun c' s'' hst'' hext' hc' => by
                obtain ⟨x, hx, hx'⟩ := hc
                exact bodyScope_good (walk_good u i body) hst'' (hw'.extends hext') ⟨⟨x, hext'.get hx, hx'⟩, hc', trivial⟩)
          | false =>
            exact (nothing_good s').more (⟨id, .uses⟩ :: keys uses) (tokens uses) |>.trans fun s'' _ r' =>
              bodyScope_good (i := i) (skip := i) (id := id) (name := []) (walk_good u i body) (r'.stack.trans hst') (hw'.extends r'.ext)
                (is := [c]) (iks := [⟨id, .params⟩]) (by obtain ⟨x, hx, hx'⟩ := hc; exact ⟨⟨x, r'.ext.get hx, hx'⟩, trivial⟩))
    exact h
  | .function id name params body, s, top, st, around, hst, hw => by
    have h := (declare_good i id (.function (lowerStr u name)) hst hw).trans fun s' _ r =>
      scope_then (i := i) (k := ⟨id, .params⟩) (kind := .function) (name := name) (walk_good u i params) (r.stack.trans hst) (hw.extends r.ext)
        (w1 := fun c => bodyScope ⟨true, i⟩ i id name [c] (walk u ⟨true, i⟩ body))
        (w2 := fun c => bodyScope ⟨false, i⟩ i id name [c] (walk u ⟨false, i⟩ body))
        (fun c s' hst' hext hc =>
          bodyScope_good (iks := [⟨id, .params⟩]) (walk_good u i body) hst' ((hw.extends r.ext).extends hext) ⟨hc, trivial⟩)
    exact h
  | .type id k name members, s, top, st, around, hst, hw => by
    have h := (declare_good i id (.type k (lowerStr u name)) hst hw).trans fun s' _ r =>
      scope_then (i := i) (k := ⟨id, .whole⟩) (kind := .klass) (name := lowerStr u name) (walk_good u i members) (r.stack.trans hst)
        (hw.extends r.ext) (w1 := fun _ s => some s) (w2 := fun _ s => some s) (fun c s' _ _ _ => nothing_good s')
    simp only [List.append_nil] at h
    have e : ∀ o : Option (Nat × St), (o.bind fun r => some r.2) = o.map (·.2) := by intro o; cases o <;> rfl
    simp only [e] at h
    exact h
  | .method id name params hasBody body, s, top, st, around, hst, hw => by
    have h := (note_good (.method (lowerStr u name)) hst hw).trans fun s' _ r =>
      scope_then (i := i) (k := ⟨id, .params⟩) (kind := .function) (name := name) (walk_good u i params) (r.stack.trans hst) (hw.extends r.ext)
        (w1 := fun c => bodyScope ⟨true, i⟩ (i || !hasBody) id name [c] (walk u ⟨true, i⟩ body))
        (w2 := fun c => bodyScope ⟨false, i⟩ (i || !hasBody) id name [c] (walk u ⟨false, i⟩ body))
        (fun c s' hst' hext hc =>
          bodyScope_good (iks := [⟨id, .params⟩]) (walk_good u i body) hst' ((hw.extends r.ext).extends hext) ⟨hc, trivial⟩)
    exact h

/-! ### Namespaces and the file -/

/-- What a visit of the first walk leaves behind if it may also change the opened contexts. -/
structure Grew (ks : List Key) (ts : List Nat) (s s' : St) (l : List (Event × Nat)) (ss : List (Event × List Frame))
    (sc : List Scope) : Prop where
  ext : Extends s.ctxs s'.ctxs
  nodes : ∀ k, k ∉ ks → s'.nodes k = s.nodes k
  decls : ∀ i, i ∉ ts → s'.decls i = s.decls i
  log : s'.log = s.log ++ l
  agrees : Agrees s'.ctxs l ss
  len : s'.ctxs.length = s.ctxs.length + sc.length
  made : MadeAll s'.ctxs s.ctxs.length sc

theorem Ran.grew {ks : List Key} {ts : List Nat} {s s' : St} {l : List (Event × Nat)} {ss : List (Event × List Frame)}
    {sc : List Scope} (h : Ran ks ts s s' l ss sc) : Grew ks ts s s' l ss sc :=
  ⟨h.ext, h.nodes, h.decls, h.log, h.agrees, h.len, h.made⟩

theorem Grew.trans {ks ks' : List Key} {ts ts' : List Nat} {s s1 s2 : St} {l l' : List (Event × Nat)}
    {ss ss' : List (Event × List Frame)} {sc sc' : List Scope} (h : Grew ks ts s s1 l ss sc) (h' : Grew ks' ts' s1 s2 l' ss' sc') :
    Grew (ks ++ ks') (ts ++ ts') s s2 (l ++ l') (ss ++ ss') (sc ++ sc') where
  ext := h.ext.trans h'.ext
  nodes k hk := by
    rw [List.mem_append, not_or] at hk
    rw [h'.nodes k hk.2, h.nodes k hk.1]
  decls k hk := by
    rw [List.mem_append, not_or] at hk
    rw [h'.decls k hk.2, h.decls k hk.1]
  log := by rw [h'.log, h.log, List.append_assoc]
  agrees := (h.agrees.extends h'.ext).append h'.agrees
  len := by rw [h'.len, h.len, List.length_append]; omega
  made := (h.made.extends h'.ext).append (by rw [← h.len]; exact h'.made)

/-- The second walk sees the same in the same contexts and opens and closes the same contexts. -/
def AgainO (v : St → Option St) (ks : List Key) (ts : List Nat) (s s' : St) (l : List (Event × Nat)) : Prop :=
  ks.Nodup → ts.Nodup → ∀ t : St, t.stack = s.stack → t.openNs = s.openNs → Extends s'.ctxs t.ctxs →
    (∀ k ∈ ks, t.nodes k = s'.nodes k) → (∀ i ∈ ts, t.decls i = s'.decls i) →
    v t = some { t with log := t.log ++ l, stack := s'.stack, openNs := s'.openNs }

theorem AgainO.trans {v w : St → Option St} {ks ks' : List Key} {ts ts' : List Nat} {s s1 s2 : St} {l l' : List (Event × Nat)}
    {ss' : List (Event × List Frame)} {sc' : List Scope} (hr' : Grew ks' ts' s1 s2 l' ss' sc')
    (h : AgainO v ks ts s s1 l) (h' : AgainO w ks' ts' s1 s2 l') :
    AgainO (fun t => (v t).bind w) (ks ++ ks') (ts ++ ts') s s2 (l ++ l') := by
  intro hk ht t hts hto hext htn htd
  obtain ⟨hk1, hk2, hk3⟩ := List.nodup_append.mp hk
  obtain ⟨ht1, ht2, ht3⟩ := List.nodup_append.mp ht
  have e1 := h hk1 ht1 t hts hto (hr'.ext.trans hext)
    (fun k hkk => by rw [htn k (List.mem_append_left _ hkk), hr'.nodes k (fun hc => hk3 k hkk k hc rfl)])
    (fun i hi => by rw [htd i (List.mem_append_left _ hi), hr'.decls i (fun hc => ht3 i hi i hc rfl)])
  have e2 := h' hk2 ht2 { t with log := t.log ++ l, stack := s1.stack, openNs := s1.openNs } rfl rfl hext
    (fun k hkk => htn k (List.mem_append_right _ hkk)) (fun i hi => htd i (List.mem_append_right _ hi))
  show (v t).bind _ = _
  rw [e1, Option.bind_some]
  refine e2.trans ?_
  simp [List.append_assoc]

/-- All these contexts are namespaces. -/
def Spaces (cs : List Ctx) (is : List Nat) : Prop := ∀ j ∈ is, ∃ x, cs[j]? = some x ∧ x.kind = .namespace

theorem Spaces.extends {a b : List Ctx} (h : Extends a b) {is : List Nat} (hs : Spaces a is) : Spaces b is := fun j hj => by
  obtain ⟨x, h1, h2⟩ := hs j hj
  exact ⟨x, h.get h1, h2⟩

theorem closeNamespaces_eq : ∀ (ns : NsName) (is : List Nat) (rest : List Nat) (t : St), is.length = ns.length → t.stack = is ++ rest →
    Spaces t.ctxs is → closeNamespaces ns t = some { t with stack := rest }
  | [], [], rest, t, _, hs, _ => by
    have : t.stack = rest := hs
    simp [closeNamespaces, ← this]
  | _ :: ns, j :: is, rest, t, hl, hs, hk => by
    obtain ⟨x, hx, hxk⟩ := hk j (by simp)
    have hcur : t.current = some j := by simp [St.current, hs]
    have hclose : closeContext t = some { t with stack := is ++ rest } := by simp [closeContext, hs]
    simp only [closeNamespaces, hcur, Option.bind_some, hx, hxk, if_true, hclose]
    exact closeNamespaces_eq ns is rest _ (by simpa using hl) rfl (fun k hkk => hk k (by simp [hkk]))

/-- The frames of a namespace. -/
def nsFrames (u : CharClass) (around : List Frame) : NsName → List Frame
  | [] => around
  | (id, n) :: ns => nsFrames u (⟨some ⟨id, .whole⟩, .namespace, lowerStr u n⟩ :: around) ns

theorem nsFrames_eq (u : CharClass) : ∀ (ns : NsName) (around : List Frame),
    nsFrames u around ns = (ns.map fun (id, n) => (⟨some ⟨id, .whole⟩, .namespace, lowerStr u n⟩ : Frame)).reverse ++ around
  | [], _ => rfl
  | (id, n) :: ns, around => by
    rw [nsFrames, nsFrames_eq u ns]
    simp

theorem openNamespaces_good (u : CharClass) (i : Bool) : ∀ (ns : NsName) (s : St) (top : Nat) (st : List Nat) (around : List Frame),
    s.stack = top :: st → Within s.ctxs top around →
    ∃ s' l is top' st', openNamespaces u ⟨true, i⟩ ns s = some s' ∧
      Grew (ns.map fun x => ⟨x.1, .whole⟩) (ns.map (·.1)) s s' l (nsSites u around ns) (nsScopes u around ns) ∧
      s'.stack = is ++ s.stack ∧ is.length = ns.length ∧ Spaces s'.ctxs is ∧ s'.openNs = s.openNs ∧
      s'.stack = top' :: st' ∧ Within s'.ctxs top' (nsFrames u around ns) ∧
      AgainO (openNamespaces u ⟨false, i⟩ ns) (ns.map fun x => ⟨x.1, .whole⟩) (ns.map (·.1)) s s' l
  | [], s, top, st, around, hst, hw =>
    ⟨s, [], [], top, st, rfl, ⟨Extends.refl _, fun _ _ => rfl, fun _ _ => rfl, by simp, trivial, rfl, trivial⟩, rfl, rfl,
      (fun _ h => by cases h), rfl, hst, hw, fun _ _ t hts hto _ _ _ => by simp [openNamespaces, ← hts, ← hto]⟩
  | (id, n) :: ns, s, top, st, around, hst, hw => by
    let e : Event := .namespace (lowerStr u n)
    let k : Key := ⟨id, .whole⟩
    let x : Ctx := ⟨some k, .namespace, lowerStr u n, some top, []⟩
    let s1 : St := { s with log := s.log ++ [(e, top)], decls := fun j => if j = id then some e else s.decls j }
    let c := s.ctxs.length
    let s2 : St := { s1 with ctxs := s.ctxs ++ [x], stack := c :: s.stack, nodes := fun k' => if k' = k then some c else s.nodes k' }
    have hx : s2.ctxs[c]? = some x := by simp [s2, c]
    have hext : Extends s.ctxs s2.ctxs := ⟨[x], rfl⟩
    have hw2 : Within s2.ctxs c (⟨some k, .namespace, lowerStr u n⟩ :: around) := .inner (x := x) hx rfl hw.lt (hw.extends hext)
    have hd : declare ⟨true, i⟩ id e s = some s1 := by simp [declare, note, hst, s1]
    have ho : openContext ⟨true, i⟩ k .namespace (lowerStr u n) s1 = some (c, s2) := by
      simp [openContext, s1, s2, c, x, St.current, hst]
    obtain ⟨s', l, is, top', st', h1, h2, h3, h4, h5, h6, h7, h8, h9⟩ :=
      openNamespaces_good u i ns s2 c s.stack _ rfl hw2
    have g1 : Grew [k] [id] s s2 [(e, top)] [(e, around)] [⟨⟨some k, .namespace, lowerStr u n⟩ :: around, []⟩] := by
      refine ⟨hext, ?_, ?_, rfl, ⟨rfl, hw.extends hext, trivial⟩, by simp [s2], ⟨⟨hw2, x, hx, trivial⟩, trivial⟩⟩
      · intro k' hk'
        have : k' ≠ k := by simpa using hk'
        simp [s2, this]
      · intro j hj
        have : j ≠ id := by simpa using hj
        simp [s2, s1, this]
    refine ⟨s', (e, top) :: l, is ++ [c], top', st', ?_, g1.trans h2, ?_, by simp [h4], ?_, h6, h7, h8, ?_⟩
    · show Option.bind (declare ⟨true, i⟩ id e s) _ = _
      rw [hd, Option.bind_some, ho]
      exact h1
    · rw [h3]; simp [s2]
    · intro j hj
      rcases List.mem_append.mp hj with hj | hj
      · exact h5 j hj
      · have : j = c := by simpa using hj
        exact ⟨x, this ▸ h2.ext.get hx, rfl⟩
    · have h0 : AgainO (fun t => (declare ⟨false, i⟩ id e t).bind fun t =>
          (openContext ⟨false, i⟩ k .namespace (lowerStr u n) t).map (·.2)) [k] [id] s s2 [(e, top)] := by
        intro _ _ t hts hto _ htn htd
        have hk : t.nodes k = some c := by rw [htn k (by simp)]; simp [s2]
        have hdd : t.decls id = some e := by rw [htd id (by simp)]; simp [s2, s1]
        simp [declare, note, openContext, hts, hst, hk, hdd, s2, s1, hto]
      have h := AgainO.trans h2 h0 h9
      · intro hk ht t hts hto he htn htd
        have := h hk ht t hts hto he htn htd
        refine Eq.trans ?_ this
        show Option.bind (declare ⟨false, i⟩ id e t) _ = Option.bind (Option.bind (declare ⟨false, i⟩ id e t) _) _
        cases declare ⟨false, i⟩ id e t with
        | none => rfl
        | some t' =>
          show Option.bind (openContext ⟨false, i⟩ k .namespace (lowerStr u n) t') _
            = Option.bind (Option.map _ (openContext ⟨false, i⟩ k .namespace (lowerStr u n) t')) _
          cases openContext ⟨false, i⟩ k .namespace (lowerStr u n) t' <;> rfl

/-- Between two outer statements, in namespace `ns`. -/
structure AtNs (u : CharClass) (s : St) (ns : NsName) : Prop where
  stack : ∃ is, s.stack = is ++ [0] ∧ is.length = ns.length ∧ Spaces s.ctxs is
  openNs : s.openNs = if ns = [] then none else some ns
  top : ∃ top st, s.stack = top :: st ∧ Within s.ctxs top (inNamespace u ns)
  file : Within s.ctxs 0 [fileFrame]

theorem closeOpen_eq {u : CharClass} {s : St} {ns : NsName} (h : AtNs u s ns) {t : St} (hs : t.stack = s.stack) (ho : t.openNs = s.openNs)
    (he : Extends s.ctxs t.ctxs) : closeOpen t = some { t with stack := [0], openNs := none } := by
  obtain ⟨is, h1, h2, h3⟩ := h.stack
  rw [closeOpen, ho, h.openNs]
  cases ns with
  | nil =>
    have : is = [] := by simpa using h2
    have e1 : t.stack = [0] := by rw [hs, h1, this]; rfl
    have e2 : t.openNs = none := by rw [ho, h.openNs]; rfl
    show some t = some { t with stack := [0], openNs := none }
    rw [← e1, ← e2]
  | cons n ns =>
    simp only [List.cons_ne_nil, if_false]
    rw [closeNamespaces_eq (n :: ns) is [0] t h2 (hs.trans h1) (h3.extends he)]
    rfl

/-- The namespace in force after a statement. -/
def nsAfter (ns : NsName) : Outer → NsName
  | .code _ => ns
  | .nsDecl n => n
  | .nsBlock _ _ => []

def outerSites (u : CharClass) (i : Bool) (ns : NsName) : Outer → List (Event × List Frame)
  | .code c => sites u i (inNamespace u ns) c
  | .nsDecl n => nsSites u [fileFrame] n
  | .nsBlock n b => nsSites u [fileFrame] n ++ sites u i (inNamespace u n) b

def outerScopes (u : CharClass) (i : Bool) (ns : NsName) : Outer → List Scope
  | .code c => scopes u i (inNamespace u ns) c
  | .nsDecl n => nsScopes u [fileFrame] n
  | .nsBlock n b => nsScopes u [fileFrame] n ++ scopes u i (inNamespace u n) b

def outerKeys : Outer → List Key
  | .code c => keys c
  | .nsDecl n => n.map fun x => ⟨x.1, .whole⟩
  | .nsBlock n b => n.map (fun x => ⟨x.1, .whole⟩) ++ keys b

def outerTokens : Outer → List Nat
  | .code c => tokens c
  | .nsDecl n => n.map (·.1)
  | .nsBlock n b => n.map (·.1) ++ tokens b

theorem inNamespace_nil (u : CharClass) : inNamespace u [] = [fileFrame] := rfl

theorem inNamespace_eq (u : CharClass) (ns : NsName) : inNamespace u ns = nsFrames u [fileFrame] ns := by
  rw [nsFrames_eq]; rfl

/-- A visit of the first walk that leaves the opened contexts as they were. -/
theorem Again.outer {v : St → Option St} {ks : List Key} {ts : List Nat} {s s' : St} {l : List (Event × Nat)} {ss : List (Event × List Frame)}
    {sc : List Scope} (r : Ran ks ts s s' l ss sc) (h : Again v ks ts s s' l) : AgainO v ks ts s s' l := by
  intro hk ht t hts hto _ htn htd
  rw [h hk ht t hts htn htd, r.stack, r.openNs, ← hts, ← hto]

theorem AtNs.ran {u : CharClass} {ks : List Key} {ts : List Nat} {s s' : St} {l : List (Event × Nat)} {ss : List (Event × List Frame)}
    {sc : List Scope} {ns : NsName} (h : AtNs u s ns) (r : Ran ks ts s s' l ss sc) : AtNs u s' ns := by
  obtain ⟨is, h1, h2, h3⟩ := h.stack
  obtain ⟨top, st, h4, h5⟩ := h.top
  exact ⟨⟨is, r.stack.trans h1, h2, h3.extends r.ext⟩, r.openNs.trans h.openNs, ⟨top, st, r.stack.trans h4, h5.extends r.ext⟩,
    h.file.extends r.ext⟩

/-- Closing the open namespace. -/
theorem closeOpen_good {u : CharClass} {s : St} {ns : NsName} (h : AtNs u s ns) :
    ∃ s', closeOpen s = some s' ∧ AtNs u s' [] ∧ Grew [] [] s s' [] [] [] ∧ AgainO closeOpen [] [] s s' [] := by
  refine ⟨_, closeOpen_eq h rfl rfl (Extends.refl _), ⟨⟨[], rfl, rfl, fun _ h => by cases h⟩, rfl, ⟨0, [], rfl, h.file⟩, h.file⟩,
    ⟨Extends.refl _, fun _ _ => rfl, fun _ _ => rfl, by simp, trivial, rfl, trivial⟩, ?_⟩
  intro _ _ t hts hto he _ _
  rw [closeOpen_eq h hts hto he]
  simp

/-- `namespace A\B` without what follows. -/
theorem open_good {u : CharClass} (i : Bool) {s : St} (h : AtNs u s []) (n : NsName) :
    ∃ s' l, openNamespaces u ⟨true, i⟩ n s = some s' ∧
      Grew (n.map fun x => ⟨x.1, .whole⟩) (n.map (·.1)) s s' l (nsSites u [fileFrame] n) (nsScopes u [fileFrame] n) ∧
      (∃ is, s'.stack = is ++ [0] ∧ is.length = n.length ∧ Spaces s'.ctxs is) ∧ s'.openNs = none ∧
      (∃ top st, s'.stack = top :: st ∧ Within s'.ctxs top (inNamespace u n)) ∧ Within s'.ctxs 0 [fileFrame] ∧
      AgainO (openNamespaces u ⟨false, i⟩ n) (n.map fun x => ⟨x.1, .whole⟩) (n.map (·.1)) s s' l := by
  obtain ⟨is, h1, h2, _⟩ := h.stack
  have : is = [] := by simpa using h2
  subst this
  obtain ⟨s', l, is', top', st', g1, g2, g3, g4, g5, g6, g7, g8, g9⟩ := openNamespaces_good u i n s 0 [] [fileFrame] h1 h.file
  exact ⟨s', l, g1, g2, ⟨is', by rw [g3, h1]; rfl, g4, g5⟩, g6.trans h.openNs, ⟨top', st', g7, by rw [inNamespace_eq]; exact g8⟩,
    h.file.extends g2.ext, g9⟩

theorem outer_good (u : CharClass) (i : Bool) (o : Outer) {s : St} {ns : NsName} (h : AtNs u s ns) :
    ∃ s' l, outer u ⟨true, i⟩ o s = some s' ∧ AtNs u s' (nsAfter ns o) ∧
      Grew (outerKeys o) (outerTokens o) s s' l (outerSites u i ns o) (outerScopes u i ns o) ∧
      AgainO (outer u ⟨false, i⟩ o) (outerKeys o) (outerTokens o) s s' l := by
  obtain ⟨s0, c1, c2, c3, c4⟩ := closeOpen_good h
  cases o with
  | code c =>
    obtain ⟨top, st, h4, h5⟩ := h.top
    obtain ⟨s', l, e, r, a⟩ := walk_good u i c s top st _ h4 h5
    exact ⟨s', l, e, h.ran r, r.grew, a.outer r⟩
  | nsDecl n =>
    cases n with
    | nil => exact ⟨s0, [], c1, c2, c3, c4⟩
    | cons n ns' =>
      obtain ⟨s1, l, e1, g1, k1, o1, t1, f1, a1⟩ := open_good i c2 (n :: ns')
      refine ⟨{ s1 with openNs := some (n :: ns') }, l, ?_, ⟨k1, rfl, t1, f1⟩, ?_, ?_⟩
      · show (closeOpen s).bind _ = _
        rw [c1, Option.bind_some, e1]; rfl
      · have := c3.trans g1
        exact ⟨this.ext, this.nodes, this.decls, this.log, this.agrees, this.len, this.made⟩
      · intro hk ht t hts hto he htn htd
        have := AgainO.trans g1 c4 a1 hk ht t hts hto he htn htd
        have e : outer u ⟨false, i⟩ (.nsDecl (n :: ns')) t
            = Option.map (fun t => { t with openNs := some (n :: ns') }) ((closeOpen t).bind (openNamespaces u ⟨false, i⟩ (n :: ns'))) := by
          show (closeOpen t).bind _ = _
          cases closeOpen t <;> rfl
        rw [e]
        refine (congrArg (Option.map fun t : St => { t with openNs := some (n :: ns') }) this).trans ?_
        simp
  | nsBlock n b =>
    cases n with
    | nil =>
      obtain ⟨top, st, h4, h5⟩ := c2.top
      obtain ⟨s', l, e, r, a⟩ := walk_good u i b s0 top st _ h4 h5
      refine ⟨s', l, ?_, c2.ran r, c3.trans r.grew, AgainO.trans r.grew c4 (a.outer r)⟩
      show (closeOpen s).bind _ = _
      rw [c1]; exact e
    | cons n ns' =>
      obtain ⟨s1, l, e1, g1, k1, o1, t1, f1, a1⟩ := open_good i c2 (n :: ns')
      obtain ⟨is, k2, k3, k4⟩ := k1
      obtain ⟨top, st, h4, h5⟩ := t1
      obtain ⟨s2, l2, e2, r, a2⟩ := walk_good u i b s1 top st _ h4 h5
      have e3 := closeNamespaces_eq (n :: ns') is [0] s2 k3 (r.stack.trans k2) (k4.extends r.ext)
      have f2 := f1.extends r.ext
      refine ⟨{ s2 with stack := [0] }, l ++ l2, ?_, ⟨⟨[], rfl, rfl, fun _ h => by cases h⟩, r.openNs.trans o1, ⟨0, [], rfl, f2⟩, f2⟩, ?_, ?_⟩
      · show (closeOpen s).bind _ = _
        rw [c1, Option.bind_some, e1, Option.bind_some, e2, Option.bind_some, e3]
      · have := c3.trans (g1.trans r.grew)
        exact ⟨this.ext, this.nodes, this.decls, this.log, this.agrees, this.len, this.made⟩
      · intro hk ht t hts hto he htn htd
        have := AgainO.trans (g1.trans r.grew) c4 (AgainO.trans r.grew a1 (a2.outer r)) hk ht t hts hto he htn htd
        have e : outer u ⟨false, i⟩ (.nsBlock (n :: ns') b) t
            = Option.bind ((closeOpen t).bind fun t => (openNamespaces u ⟨false, i⟩ (n :: ns') t).bind (walk u ⟨false, i⟩ b))
              (closeNamespaces (n :: ns')) := by
          show (closeOpen t).bind _ = _
          cases closeOpen t with
          | none => rfl
          | some t' =>
            show (openNamespaces u ⟨false, i⟩ (n :: ns') t').bind _ = Option.bind ((openNamespaces u ⟨false, i⟩ (n :: ns') t').bind _) _
            cases openNamespaces u ⟨false, i⟩ (n :: ns') t' <;> rfl
        rw [e]
        refine (congrArg (fun o => Option.bind o (closeNamespaces (n :: ns'))) this).trans ?_
        rw [Option.bind_some]
        refine (closeNamespaces_eq (n :: ns') is [0]
          { t with log := t.log ++ ([] ++ (l ++ l2)), stack := s2.stack, openNs := s2.openNs } k3 (r.stack.trans k2)
          ((k4.extends r.ext).extends he)).trans ?_
        rfl

theorem fold_good (u : CharClass) (i : Bool) : ∀ (f : List Outer) (s : St) (ns : NsName), AtNs u s ns →
    ∃ s' l ns', f.foldlM (fun s o => outer u ⟨true, i⟩ o s) s = some s' ∧ AtNs u s' ns' ∧
      Grew (fileKeys f) (fileTokens f) s s' l (fileSites u i ns f) (fileScopes u i ns f) ∧
      AgainO (fun s => f.foldlM (fun s o => outer u ⟨false, i⟩ o s) s) (fileKeys f) (fileTokens f) s s' l
  | [], s, ns, h => ⟨s, [], ns, rfl, h, ⟨Extends.refl _, fun _ _ => rfl, fun _ _ => rfl, by simp, trivial, rfl, trivial⟩,
      fun _ _ t hts hto _ _ _ => by simp [← hts, ← hto]⟩
  | o :: f, s, ns, h => by
    obtain ⟨s1, l1, e1, n1, g1, a1⟩ := outer_good u i o h
    obtain ⟨s2, l2, ns', e2, n2, g2, a2⟩ := fold_good u i f s1 _ n1
    have hks : fileKeys (o :: f) = outerKeys o ++ fileKeys f := by cases o <;> simp [fileKeys, outerKeys]
    have hts : fileTokens (o :: f) = outerTokens o ++ fileTokens f := by cases o <;> simp [fileTokens, outerTokens]
    have hss : fileSites u i ns (o :: f) = outerSites u i ns o ++ fileSites u i (nsAfter ns o) f := by
      cases o <;> simp [fileSites, outerSites, nsAfter]
    have hsc : fileScopes u i ns (o :: f) = outerScopes u i ns o ++ fileScopes u i (nsAfter ns o) f := by
      cases o <;> simp [fileScopes, outerScopes, nsAfter]
    refine ⟨s2, l1 ++ l2, ns', ?_, n2, ?_, ?_⟩
    · rw [List.foldlM_cons]
      show (outer u ⟨true, i⟩ o s).bind _ = _
      rw [e1]; exact e2
    · rw [hks, hts, hss, hsc]; exact g1.trans g2
    · rw [hks, hts]
      have := AgainO.trans g2 a1 a2
      intro hk ht t h1 h2 h3 h4 h5
      have e := this hk ht t h1 h2 h3 h4 h5
      refine Eq.trans ?_ e
      show List.foldlM _ t (o :: f) = _
      rw [List.foldlM_cons]
      rfl

theorem start_atNs (u : CharClass) : AtNs u start [] :=
  have h : Within start.ctxs 0 [fileFrame] := .file (x := ⟨none, .global, [], none, []⟩) rfl rfl
  ⟨⟨[], rfl, rfl, fun _ h => by cases h⟩, rfl, ⟨0, [], rfl, h⟩, h⟩

/-- **C61.** Whatever the file is: both walks run to the end, with no context missing and none closed twice, and close every
context they opened; the contexts are exactly those the text asks for, in its order, each in the construct around it and each body
importing the parameters (and lexical variables) of its own function; and everything is seen and declared in the context of the
constructs around it.  The second walk sees everything in the same contexts as the first one. -/
theorem build_good (u : CharClass) (i : Bool) (f : List Outer) (hk : (fileKeys f).Nodup) (ht : (fileTokens f).Nodup) :
    ∃ s1 s2, build u i f = some (s1, s2) ∧ s1.stack = [0] ∧ s2.stack = [0] ∧
      s1.ctxs[0]? = some ⟨none, .global, [], none, []⟩ ∧
      s1.ctxs.length = 1 + (fileScopes u i [] f).length ∧ MadeAll s1.ctxs 1 (fileScopes u i [] f) ∧
      Agrees s1.ctxs s1.log (fileSites u i [] f) ∧ s2.ctxs = s1.ctxs ∧ s2.log = s1.log := by
  obtain ⟨s, l, ns, e1, n1, g1, a1⟩ := fold_good u i f start [] (start_atNs u)
  obtain ⟨s', c1, c2, c3, c4⟩ := closeOpen_good n1
  have hs' : s' = { s with stack := [0], openNs := none } := by
    have := closeOpen_eq n1 rfl rfl (Extends.refl _)
    rw [c1] at this; exact Option.some.inj this
  have hf1 : visitFile u ⟨true, i⟩ f start = some s' := by
    show Option.bind (f.foldlM _ start) closeOpen = _
    rw [e1]; exact c1
  have hf2 := AgainO.trans (c3) a1 c4 (by simpa using hk) (by simpa using ht)
    { s' with stack := [0], openNs := none, log := [] } rfl rfl (Extends.refl _) (fun _ _ => rfl) (fun _ _ => rfl)
  refine ⟨s', { s' with log := l, stack := s'.stack, openNs := s'.openNs }, ?_, by rw [hs'], by rw [hs'], ?_, ?_, ?_, ?_, rfl, ?_⟩
  · show (visitFile u ⟨true, i⟩ f start).bind _ = _
    rw [hf1, Option.bind_some]
    refine (congrArg (Option.map fun s2 => (s', s2)) hf2).trans ?_
    simp
  · rw [hs']; exact g1.ext.get rfl
  · rw [hs']; exact g1.len
  · rw [hs']; exact g1.made
  · rw [hs']
    show Agrees s.ctxs s.log _
    rw [g1.log]; exact g1.agrees
  · rw [hs']; show l = s.log; rw [g1.log]; rfl

end KPhp.Scopes
