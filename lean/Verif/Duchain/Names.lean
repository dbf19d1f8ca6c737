import Verif.Duchain.Types
/-
Qualified names, namespaces and declaration lookup (duchain/helper.cpp) and property C26.

Trusted KDevPlatform behaviour: `QualifiedIdentifier` is a list of identifiers with a flag
"explicitly global"; `a + b` appends the identifiers of `b`.  Locking, and the import of the file a
declaration was found in (helper.cpp:287-292), are not modelled.
-/
namespace KPhp.Names

/-- `QualifiedIdentifier`. -/
structure QId where
  global : Bool
  parts : List QString
  deriving DecidableEq, Repr

/-- `NamespacedIdentifierAst` and `NamespacedIdentifierBeforeGroupedNamespaceAst`: a leading
backslash and the names. -/
structure NameAst where
  isGlobal : Bool
  names : List QString
  deriving DecidableEq, Repr

/-- The loop `do { … id.push(…) } while (it->hasNext() && …)` over the names
(helper.cpp:447-455, 464-472, 493-499): lower case, except the last one of a constant. -/
def pushNames (u : CharClass) (lastIsConst : Bool) : List QString → List QString
  | [] => []
  | [n] => [if lastIsConst then n else lowerStr u n]
  | n :: ns => lowerStr u n :: pushNames u lastIsConst ns

/-- `identifierForNamespace(NamespacedIdentifierAst*, …)` and
`identifierForNamespace(NamespacedIdentifierBeforeGroupedNamespaceAst*, …)`
(helper.cpp:441-456, 458-473; the two have the same text). -/
def identifierForNamespace (u : CharClass) (node : NameAst) (lastIsConst : Bool) : QId :=
  { global := node.isGlobal, parts := pushNames u lastIsConst node.names }

/-- `identifierForNamespace(prefixNode, node, …)` for a grouped use (helper.cpp:475-501). -/
def identifierForGrouped (u : CharClass) (pre : NameAst) (inner : List QString)
    (lastIsConst : Bool) : QId :=
  { global := pre.isGlobal, parts := pre.names.map (lowerStr u) ++ pushNames u lastIsConst inner }

/-- What kind of declaration a context's type makes it. -/
inductive CtxKind where
  | klass | namespace | other
  deriving DecidableEq, Repr

/-- A declaration, as far as the lookup looks at it (helper.cpp:48-74). -/
structure Decl where
  id : Nat
  isClass : Bool               -- dynamic_cast<ClassDeclaration*>
  isFunction : Bool            -- dynamic_cast<FunctionDeclaration*>
  isConst : Bool               -- abstractType() with ConstModifier
  inClass : Bool               -- context() exists and has type DUContext::Class
  isInstance : Bool            -- kind() == Instance
  isNamespace : Bool           -- kind() == Namespace or NamespaceAlias
  deriving DecidableEq, Repr

/-- A context with what the lookup reads from it.  `imports` are the class contexts among the
imported parent contexts, given by their owners. -/
structure Scope where
  kind : CtxKind
  owner : Option Decl
  scopeId : List QString
  imports : List (CtxKind × Option Decl)
  deriving Repr

/-- `enum DeclarationType` (helper.h). -/
inductive DeclType where
  | klass | function | constant | globalVariable | namespace
  deriving DecidableEq, Repr

/-- `isMatch` (helper.cpp:48-74). -/
def isMatch (d : Decl) : DeclType → Bool
  | .klass => d.isClass
  | .function => d.isFunction
  | .constant => d.isConst && !d.inClass
  | .globalVariable => d.isInstance && !d.isConst
  | .namespace => d.isNamespace || d.isClass

/-- `identifierWithNamespace` (helper.cpp:503-516); a context is the list of its scopes, innermost
first. -/
def identifierWithNamespace (base : QId) (ctx : List Scope) : QId :=
  match ctx.find? (fun s => s.kind = .namespace) with
  | some s => { global := base.global, parts := s.scopeId ++ base.parts }
  | none => base

/-- An entry of the persistent symbol table (helper.cpp:267-297): whether its file is a PHP file
with meta data, and its declaration if it can be loaded. -/
structure PstEntry where
  phpFile : Bool
  decl : Option Decl
  deriving Repr

/-- What the lookup consults: the declarations visible from the top context, whether the document
is the one with PHP's internal functions, and the persistent symbol table. -/
structure Env where
  topFind : List QString → List Decl
  internalFile : Bool
  pst : List QString → List PstEntry

/-- `findDeclarationInPST` (helper.cpp:259-300). -/
def findInPst (env : Env) (parts : List QString) (ty : DeclType) : Option Decl :=
  ((env.pst parts).filterMap (fun e => if e.phpFile then e.decl else none)).find?
    (fun d => isMatch d ty)

/-- The enclosing class context: the current context or its parent (helper.cpp:189-196, 199-206,
211-216). -/
def classScope : List Scope → Option Scope
  | [] => none
  | [s] => if s.kind = .klass then some s else none
  | s :: p :: _ =>
    if s.kind = .klass then some s else if p.kind = .klass then some p else none

/-- The name of the id is exactly the given one.  Whether `==` of `QualifiedIdentifier`s looks at
the flag "explicitly global" is left open (`flagMatters`). -/
def isName (flagMatters : Bool) (id : QId) (n : QString) : Bool :=
  id.parts == [n] && !(flagMatters && id.global)

/-- `findDeclarationImportHelper` (helper.cpp:165-257). -/
def findDeclaration (flagMatters : Bool) (env : Env) (ctx : List Scope) (id : QId)
    (ty : DeclType) : Option Decl :=
  let lookup := if id.global then { id with global := false } else identifierWithNamespace id ctx
  if ty = .klass ∧ isName flagMatters id (q! "self") then
    (classScope ctx).bind (·.owner)
  else if ty = .klass ∧ isName flagMatters id (q! "static") then
    (classScope ctx).bind (·.owner)
  else if ty = .klass ∧ isName flagMatters id (q! "parent") then
    (classScope ctx).bind fun c =>
      (c.imports.find? (fun i => i.1 = .klass)).bind (·.2)
  else
    match (env.topFind lookup.parts).find? (fun d => isMatch d ty) with
    | some d => some d
    | none =>
      if env.internalFile then none
      else if ty ≠ .globalVariable then findInPst env lookup.parts ty
      else none

/-! ### C26 -/

/-- The same names, letter by letter, except for the case of ASCII letters. -/
def SameNames (a b : List QString) : Prop :=
  a.map (fun n => n.map asciiLower) = b.map (fun n => n.map asciiLower)

/-- **C26.**  Names other than constants are lower-cased entirely. -/
theorem plain_name (u : CharClass) (g : Bool) (ns : List QString) :
    identifierForNamespace u ⟨g, ns⟩ false = ⟨g, ns.map (lowerStr u)⟩ := by
  have : pushNames u false ns = ns.map (lowerStr u) := by
    induction ns with
    | nil => rfl
    | cons m ms ih =>
      cases ms with
      | nil => simp [pushNames]
      | cons m' ms' => rw [pushNames, ih]; simp; simp
  simp [identifierForNamespace, this]

/-- **C26.**  Names of classes, functions and namespaces written in different letter case are the
same identifier. -/
theorem name_case_insensitive {u : CharClass} (hu : u.Lawful) {a b : NameAst}
    (hg : a.isGlobal = b.isGlobal) (hn : SameNames a.names b.names) :
    identifierForNamespace u a false = identifierForNamespace u b false := by
  have h := map_congr_of_map (α := QString) (f := fun n => n.map asciiLower) (g := lowerStr u)
    (fun x y h => lowerStr_congr hu h) hn
  cases a; cases b
  simp only at hg h
  rw [plain_name, plain_name, h, hg]

/-- **C26.**  A constant keeps the letter case of its last component, and of that only. -/
theorem constant_name (u : CharClass) (g : Bool) (ns : List QString) (n : QString) :
    identifierForNamespace u ⟨g, ns ++ [n]⟩ true = ⟨g, ns.map (lowerStr u) ++ [n]⟩ := by
  have : pushNames u true (ns ++ [n]) = ns.map (lowerStr u) ++ [n] := by
    induction ns with
    | nil => simp [pushNames]
    | cons m ms ih =>
      cases ms with
      | nil => simp [pushNames]
      | cons m' ms' => simp only [List.cons_append, List.map_cons] at ih ⊢; rw [pushNames, ih]; simp
  simp [identifierForNamespace, this]

/-- **C26.**  A name in a grouped use is the name written out in full. -/
theorem grouped_name (u : CharClass) (pre : NameAst) (inner : List QString) (lastIsConst : Bool)
    (hi : inner ≠ []) :
    identifierForGrouped u pre inner lastIsConst =
      identifierForNamespace u ⟨pre.isGlobal, pre.names ++ inner⟩ lastIsConst := by
  have : pushNames u lastIsConst (pre.names ++ inner) =
      pre.names.map (lowerStr u) ++ pushNames u lastIsConst inner := by
    induction pre.names with
    | nil => rfl
    | cons n ns ih =>
      rw [List.cons_append, pushNames, ih]
      · simp
      · simp [hi]
  simp [identifierForGrouped, identifierForNamespace, this]

/-- The three names with a meaning of their own. -/
def selfLike (id : QId) : Prop :=
  id.parts = [q! "self"] ∨ id.parts = [q! "static"] ∨ id.parts = [q! "parent"]

theorem findDeclaration_plain {fm : Bool} {env : Env} {ctx : List Scope} {id : QId} {ty : DeclType}
    (h : ty ≠ .klass ∨ ¬ selfLike id) :
    findDeclaration fm env ctx id ty =
      match (env.topFind (if id.global then id else identifierWithNamespace id ctx).parts).find?
          (fun d => isMatch d ty) with
      | some d => some d
      | none =>
        if env.internalFile then none
        else if ty ≠ .globalVariable then
          findInPst env (if id.global then id else identifierWithNamespace id ctx).parts ty
        else none := by
  unfold findDeclaration
  have hn : ∀ n, (n = q! "self" ∨ n = q! "static" ∨ n = q! "parent") →
      ¬ (ty = .klass ∧ isName fm id n = true) := by
    intro n hn ⟨h1, h2⟩
    rcases h with h | h
    · exact h h1
    · apply h
      unfold isName at h2
      simp only [Bool.and_eq_true, beq_iff_eq] at h2
      rcases hn with rfl | rfl | rfl <;> simp [selfLike, h2.1]
  rw [if_neg (hn _ (by simp)), if_neg (hn _ (by simp)), if_neg (hn _ (by simp))]
  cases id.global <;> rfl

/-- **C26.**  An explicitly global name is looked up as it is: the result is the same in every
namespace (and context). -/
theorem global_lookup (fm : Bool) (env : Env) (ctx ctx' : List Scope) (id : QId) (ty : DeclType)
    (hg : id.global = true) (h : ty ≠ .klass ∨ ¬ selfLike id) :
    findDeclaration fm env ctx id ty = findDeclaration fm env ctx' id ty := by
  rw [findDeclaration_plain h, findDeclaration_plain h]
  simp [hg]

/-- **C26.**  A relative name inside a namespace denotes the name with the namespace in front. -/
theorem relative_lookup (fm : Bool) (env : Env) (ctx : List Scope) (parts : List QString)
    (ty : DeclType) (s : Scope) (hs : ctx.find? (fun s => s.kind = .namespace) = some s)
    (h : ty ≠ .klass ∨ ¬ selfLike ⟨false, parts⟩)
    (h' : ty ≠ .klass ∨ ¬ selfLike ⟨true, s.scopeId ++ parts⟩) :
    findDeclaration fm env ctx ⟨false, parts⟩ ty =
      findDeclaration fm env ctx ⟨true, s.scopeId ++ parts⟩ ty := by
  rw [findDeclaration_plain h, findDeclaration_plain h']
  simp [identifierWithNamespace, hs]

/-- **C26.**  Outside of namespaces relative and global names are the same. -/
theorem toplevel_lookup (fm : Bool) (env : Env) (ctx : List Scope) (parts : List QString)
    (ty : DeclType) (hs : ∀ s ∈ ctx, s.kind ≠ .namespace)
    (h : ty ≠ .klass ∨ ¬ selfLike ⟨false, parts⟩) :
    findDeclaration fm env ctx ⟨false, parts⟩ ty =
      findDeclaration fm env ctx ⟨true, parts⟩ ty := by
  rw [findDeclaration_plain h, findDeclaration_plain (id := ⟨true, parts⟩) h]
  have : ctx.find? (fun s => s.kind = .namespace) = none := by
    rw [List.find?_eq_none]; intro s hm; simpa using hs s hm
  simp [identifierWithNamespace, this]

/-- Specification: the class around the cursor, in its body or directly in one of its methods. -/
inductive InClass : List Scope → Scope → Prop
  | body (c : Scope) (rest : List Scope) : c.kind = .klass → InClass (c :: rest) c
  | method (s c : Scope) (rest : List Scope) : s.kind ≠ .klass → c.kind = .klass → InClass (s :: c :: rest) c

theorem classScope_of {ctx : List Scope} {c : Scope} (h : InClass ctx c) : classScope ctx = some c := by
  cases h with
  | body c rest h => cases rest <;> simp [classScope, h]
  | method s c rest h1 h2 => simp [classScope, h1, h2]

/-- **C26.**  `self` and `static` inside a class body or directly inside one of its methods denote
that class. -/
theorem self_lookup (fm : Bool) (env : Env) (ctx : List Scope) (n : QString) (c : Scope)
    (hn : n = q! "self" ∨ n = q! "static") (hc : InClass ctx c) :
    findDeclaration fm env ctx ⟨false, [n]⟩ .klass = c.owner := by
  unfold findDeclaration
  rcases hn with rfl | rfl <;> simp [isName, classScope_of hc]

/-- `parent` inside a class body or directly inside one of its methods denotes the first class
the class inherits from. -/
theorem parent_lookup (fm : Bool) (env : Env) (ctx : List Scope) (c : Scope) (pre post : List (CtxKind × Option Decl))
    (o : Option Decl) (hc : InClass ctx c) (hi : c.imports = pre ++ (.klass, o) :: post)
    (hp : ∀ i ∈ pre, i.1 ≠ .klass) :
    findDeclaration fm env ctx ⟨false, [q! "parent"]⟩ .klass = o := by
  have h1 : isName fm ⟨false, [q! "parent"]⟩ (q! "self") = false := by cases fm <;> decide
  have h2 : isName fm ⟨false, [q! "parent"]⟩ (q! "static") = false := by cases fm <;> decide
  have h3 : isName fm ⟨false, [q! "parent"]⟩ (q! "parent") = true := by cases fm <;> decide
  have h4 : pre.find? (fun i => decide (i.1 = .klass)) = none := by
    rw [List.find?_eq_none]; intro i hm; simpa using hp i hm
  simp [findDeclaration, h1, h2, h3, classScope_of hc, hi, List.find?_append, h4]

/-- Outside of classes and their methods `self`, `static` and `parent` denote nothing. -/
theorem self_outside (fm : Bool) (env : Env) (ctx : List Scope) (n : QString)
    (hn : n = q! "self" ∨ n = q! "static" ∨ n = q! "parent")
    (hc : ∀ s ∈ ctx.take 2, s.kind ≠ .klass) :
    findDeclaration fm env ctx ⟨false, [n]⟩ .klass = none := by
  have hcs : classScope ctx = none := by
    match ctx with
    | [] => rfl
    | [s] => simp [classScope, hc s (by simp)]
    | s :: p :: r => simp [classScope, hc s (by simp), hc p (by simp)]
  have h1 : isName fm ⟨false, [q! "parent"]⟩ (q! "self") = false := by cases fm <;> decide
  have h2 : isName fm ⟨false, [q! "parent"]⟩ (q! "static") = false := by cases fm <;> decide
  have h3 : isName fm ⟨false, [q! "parent"]⟩ (q! "parent") = true := by cases fm <;> decide
  rcases hn with rfl | rfl | rfl
  · simp [findDeclaration, isName, hcs]
  · simp [findDeclaration, isName, hcs]
  · simp [findDeclaration, h1, h2, h3, hcs]

/-- Specification: the declaration is one of the kind asked for.  Class constants are not
constants; constants are not variables; a class can stand where a namespace is expected (for
`use`). -/
inductive IsKind (d : Decl) : DeclType → Prop
  | klass : d.isClass = true → IsKind d .klass
  | function : d.isFunction = true → IsKind d .function
  | constant : d.isConst = true → d.inClass = false → IsKind d .constant
  | variable : d.isInstance = true → d.isConst = false → IsKind d .globalVariable
  | namespace : d.isNamespace = true → IsKind d .namespace
  | namespaceClass : d.isClass = true → IsKind d .namespace

theorem isMatch_iff (d : Decl) (ty : DeclType) : isMatch d ty = true ↔ IsKind d ty := by
  constructor
  · intro h
    cases ty <;> simp only [isMatch, Bool.and_eq_true, Bool.or_eq_true, Bool.not_eq_true'] at h
    · exact .klass h
    · exact .function h
    · exact .constant h.1 h.2
    · exact .variable h.1 h.2
    · rcases h with h | h
      · exact .namespace h
      · exact .namespaceClass h
  · intro h
    cases h <;> simp_all [isMatch]

/-- Specification: the full name a name denotes in a context: an explicitly global one itself, any
other one the name behind the innermost enclosing namespace. -/
inductive Denotes (ctx : List Scope) : QId → List QString → Prop
  | global (ps : List QString) : Denotes ctx ⟨true, ps⟩ ps
  | toplevel (ps : List QString) : (∀ s ∈ ctx, s.kind ≠ .namespace) → Denotes ctx ⟨false, ps⟩ ps
  | relative (ps : List QString) (inner outer : List Scope) (s : Scope) :
      ctx = inner ++ s :: outer → (∀ x ∈ inner, x.kind ≠ .namespace) → s.kind = .namespace →
      Denotes ctx ⟨false, ps⟩ (s.scopeId ++ ps)

theorem denotes_eq {ctx : List Scope} {id : QId} {ps : List QString} (h : Denotes ctx id ps) :
    (if id.global then id else identifierWithNamespace id ctx).parts = ps := by
  cases h with
  | global => rfl
  | toplevel _ hc =>
    have : ctx.find? (fun s => s.kind = .namespace) = none := by
      rw [List.find?_eq_none]; intro s hm; simpa using hc s hm
    simp [identifierWithNamespace, this]
  | relative _ inner outer s he hi hs =>
    have : inner.find? (fun s => decide (s.kind = .namespace)) = none := by
      rw [List.find?_eq_none]; intro s hm; simpa using hi s hm
    simp [identifierWithNamespace, he, List.find?_append, this, hs]

/-- Every name denotes a full name. -/
theorem denotes_total (ctx : List Scope) (id : QId) : ∃ ps, Denotes ctx id ps := by
  obtain ⟨g, ps⟩ := id
  cases g with
  | true => exact ⟨_, .global ps⟩
  | false =>
    cases h : ctx.find? (fun s => decide (s.kind = .namespace)) with
    | none =>
      refine ⟨_, .toplevel ps ?_⟩
      intro s hm
      rw [List.find?_eq_none] at h
      simpa using h s hm
    | some s =>
      obtain ⟨hs, as, bs, he, ha⟩ := List.find?_eq_some_iff_append.1 h
      exact ⟨_, .relative ps as bs s he (fun x hx => by simpa using ha x hx) (by simpa using hs)⟩

/-- Specification: the declarations of the symbol table entries that are in PHP files and can be
loaded, in order. -/
inductive FromPhp : List PstEntry → List Decl → Prop
  | nil : FromPhp [] []
  | found {d es l} : FromPhp es l → FromPhp (⟨true, some d⟩ :: es) (d :: l)
  | unloadable {es l} : FromPhp es l → FromPhp (⟨true, none⟩ :: es) l
  | foreign {d es l} : FromPhp es l → FromPhp (⟨false, d⟩ :: es) l

/-- Specification: the declarations in question, in order.  Those visible from the file come
first; then, but never for variables, and not while the file of PHP's own functions is parsed, those
the symbol table knows in other PHP files. -/
inductive Candidates (env : Env) (ps : List QString) (ty : DeclType) : List Decl → Prop
  | visible : (env.internalFile = true ∨ ty = .globalVariable) → Candidates env ps ty (env.topFind ps)
  | all (others : List Decl) : env.internalFile = false → ty ≠ .globalVariable →
      FromPhp (env.pst ps) others → Candidates env ps ty (env.topFind ps ++ others)

theorem fromPhp_iff {es : List PstEntry} {l : List Decl} :
    FromPhp es l ↔ l = es.filterMap (fun e => if e.phpFile then e.decl else none) := by
  constructor
  · intro h
    induction h with
    | nil => rfl
    | found _ ih => simp [ih]
    | unloadable _ ih => simpa using ih
    | foreign _ ih => simpa using ih
  · rintro rfl
    induction es with
    | nil => exact .nil
    | cons e es ih =>
      obtain ⟨p, d⟩ := e
      cases p with
      | false => simpa using FromPhp.foreign ih
      | true =>
        cases d with
        | none => simpa using FromPhp.unloadable ih
        | some d => simpa using FromPhp.found ih

/-- Specification: the first declaration of the list of the kind asked for. -/
def FirstOf (l : List Decl) (ty : DeclType) : Option Decl → Prop
  | some d => ∃ pre post, l = pre ++ d :: post ∧ IsKind d ty ∧ ∀ x ∈ pre, ¬ IsKind x ty
  | none => ∀ x ∈ l, ¬ IsKind x ty

theorem firstOf_find (l : List Decl) (ty : DeclType) : FirstOf l ty (l.find? (fun d => isMatch d ty)) := by
  cases h : l.find? (fun d => isMatch d ty) with
  | none =>
    intro x hx hk
    rw [List.find?_eq_none] at h
    exact h x hx ((isMatch_iff x ty).2 hk)
  | some d =>
    obtain ⟨hd, as, bs, he, ha⟩ := List.find?_eq_some_iff_append.1 h
    exact ⟨as, bs, he, (isMatch_iff d ty).1 hd,
      fun x hx hk => by simp at ha; exact absurd ((isMatch_iff x ty).2 hk) (by simp [ha x hx])⟩

/-- **C26.**  What a name denotes: the first declaration of the kind asked for among those visible
in the file under the full name, and then those known in other PHP files. -/
theorem lookup_first (fm : Bool) (env : Env) (ctx : List Scope) (id : QId) (ty : DeclType)
    (h : ty ≠ .klass ∨ ¬ selfLike id) (ps : List QString) (l : List Decl)
    (hp : Denotes ctx id ps) (hl : Candidates env ps ty l) :
    FirstOf l ty (findDeclaration fm env ctx id ty) := by
  have hf : findDeclaration fm env ctx id ty = l.find? (fun d => isMatch d ty) := by
    rw [findDeclaration_plain h, denotes_eq hp]
    cases hl with
    | visible hv =>
      cases hx : (env.topFind ps).find? (fun d => isMatch d ty) with
      | some d => rfl
      | none => rcases hv with hv | hv <;> simp [hv]
    | all others hi ht ho =>
      rw [List.find?_append]
      cases hx : (env.topFind ps).find? (fun d => isMatch d ty) with
      | some d => rfl
      | none => simp [hi, ht, findInPst, ← fromPhp_iff.1 ho]
  rw [hf]
  exact firstOf_find l ty

/-- There is always exactly one list of candidates. -/
theorem candidates_total (env : Env) (ps : List QString) (ty : DeclType) :
    ∃ l, Candidates env ps ty l := by
  by_cases h : env.internalFile = true ∨ ty = .globalVariable
  · exact ⟨_, .visible h⟩
  · rw [not_or] at h
    exact ⟨_, .all _ (by simpa using h.1) h.2 (fromPhp_iff.2 rfl)⟩

/-- The lookup only returns declarations of the kind asked for. -/
theorem lookup_kind (fm : Bool) (env : Env) (ctx : List Scope) (id : QId) (ty : DeclType)
    (h : ty ≠ .klass ∨ ¬ selfLike id) (d : Decl)
    (hd : findDeclaration fm env ctx id ty = some d) : IsKind d ty := by
  obtain ⟨ps, hp⟩ := denotes_total ctx id
  obtain ⟨l, hl⟩ := candidates_total env ps ty
  have := lookup_first fm env ctx id ty h ps l hp hl
  rw [hd] at this
  obtain ⟨_, _, _, hk, _⟩ := this
  exact hk

/-- A visible declaration is never overlooked: if one of the kind asked for is visible under the
full name, one is found. -/
theorem lookup_complete (fm : Bool) (env : Env) (ctx : List Scope) (id : QId) (ty : DeclType)
    (h : ty ≠ .klass ∨ ¬ selfLike id) (ps : List QString) (hp : Denotes ctx id ps)
    (hd : ∃ d ∈ env.topFind ps, IsKind d ty) :
    (findDeclaration fm env ctx id ty).isSome = true := by
  obtain ⟨d, hd, hk⟩ := hd
  obtain ⟨l, hl⟩ := candidates_total env ps ty
  have hm : d ∈ l := by
    cases hl with
    | visible => exact hd
    | all => exact List.mem_append_left _ hd
  have := lookup_first fm env ctx id ty h ps l hp hl
  cases hf : findDeclaration fm env ctx id ty with
  | some x => rfl
  | none => rw [hf] at this; exact absurd hk (this d hm)

/-! A namespace `a\b` with a class `c` in it, and a global class `c`. -/
def dClass (n : Nat) : Decl := ⟨n, true, false, false, false, false, false⟩
def exEnv : Env where
  topFind p := if p = [q! "a", q! "b", q! "c"] then [dClass 1] else if p = [q! "c"] then [dClass 2] else []
  internalFile := false
  pst _ := []
def exCtx : List Scope :=
  [⟨.other, none, [], []⟩, ⟨.klass, some (dClass 3), [], [(.klass, some (dClass 4))]⟩,
   ⟨.namespace, none, [q! "a", q! "b"], []⟩]
example : findDeclaration true exEnv exCtx (identifierForNamespace asciiClass ⟨false, [q! "C"]⟩ false) .klass
    = some (dClass 1) := by decide +kernel
example : findDeclaration true exEnv exCtx (identifierForNamespace asciiClass ⟨true, [q! "C"]⟩ false) .klass
    = some (dClass 2) := by decide +kernel
example : findDeclaration true exEnv exCtx (identifierForNamespace asciiClass ⟨false, [q! "SELF"]⟩ false) .klass
    = some (dClass 3) := by decide +kernel
example : Denotes exCtx ⟨false, [q! "c"]⟩ [q! "a", q! "b", q! "c"] :=
  .relative [q! "c"] (exCtx.take 2) [] ⟨.namespace, none, [q! "a", q! "b"], []⟩ rfl (by simp [exCtx]) rfl
example : Candidates { exEnv with pst := fun _ => [⟨false, some (dClass 7)⟩, ⟨true, some (dClass 8)⟩] } [q! "x"] .klass [dClass 8] :=
  .all [dClass 8] rfl (by decide) (.foreign (.found .nil))
example : findDeclaration true exEnv exCtx ⟨false, [q! "parent"]⟩ .klass = some (dClass 4) := by decide +kernel

end KPhp.Names
