import Verif.Duchain.Types
/-!
# Class members: modifiers, diagnostics, reserved names, parameters (C32, C33, C46)

Models `DeclarationBuilder::visitClassStatement` (duchain/builders/declarationbuilder.cpp:290-425),
`openClassMemberDeclaration` (:562-588), `visitClassConstantDeclaration` (:643-690), `isReservedClassName`
(:1735-1746) and the diagnostics of `visitParameter` (:819-860).

Simplified: redeclaration errors and names are left out here (see `Inheritance.lean`); the texts of problems are
constructors.  `openDefinition` (KDevPlatform) returns either a new declaration (public, not static, not
abstract, not final) or, when a file is parsed again, the old declaration of the same name and range with its old
attributes; that declaration is the argument `old`.
-/
namespace KPhp.Members

/-- parser/php.g:82-89 `ModifierFlags`; a set of bits, filled by the grammar with `|=` (php.g:1165-1172). -/
structure Mods where
  pub : Bool := false
  prot : Bool := false
  priv : Bool := false
  stat : Bool := false
  fin : Bool := false
  abst : Bool := false
deriving DecidableEq, Repr

/-- The modifier keywords. -/
inductive Modifier | PUBLIC | PROTECTED | PRIVATE | STATIC | ABSTRACT | FINAL
deriving DecidableEq, Repr

/-- parser/php.g:1165-1172: one keyword. -/
def Mods.add (m : Mods) : Modifier → Mods
  | .PUBLIC => { m with pub := true }
  | .PROTECTED => { m with prot := true }
  | .PRIVATE => { m with priv := true }
  | .STATIC => { m with stat := true }
  | .ABSTRACT => { m with abst := true }
  | .FINAL => { m with fin := true }

/-- parser/php.g:1164-1176 `optionalModifiers` -/
def optionalModifiers (ks : List Modifier) : Mods := ks.foldl Mods.add {}

inductive Access | Public | Protected | Private
deriving DecidableEq, Repr

/-- The attributes of a class member declaration. -/
structure Attrs where
  access : Access := .Public
  isStatic : Bool := false
  isAbstract : Bool := false
  isFinal : Bool := false
deriving DecidableEq, Repr

inductive ClassType | Class | Interface | Trait
deriving DecidableEq, Repr

/-- parser/php.g:1147-1149: `methodBody`; `missing` is a null node after a parse error. -/
inductive Body | missing | semicolon | block
deriving DecidableEq, Repr

/-- declarationbuilder.h:92-94 -/
def isEmptyMethodBody : Body → Bool
  | .missing => true
  | .semicolon => true
  | .block => false

/-- The problems `visitClassStatement` and `visitClassConstantDeclaration` report. -/
inductive Problem
  /-- "Access type for interface method %1 must be omitted." -/
  | interfaceModifier
  /-- "Interface function %1 cannot contain body." -/
  | interfaceBody
  /-- "Class %1 contains abstract method %2 and must therefore be declared abstract or implement the method." -/
  | classNotAbstract
  /-- "Abstract function %1 cannot contain body." -/
  | abstractBody
  /-- "Cannot use the final modifier on an abstract class member." -/
  | abstractFinal
  /-- "Non-abstract method %1 must contain body." -/
  | missingBody
  /-- "Cannot use 'final' as constant modifier" -/
  | constFinal
  | constStatic
  | constAbstract
  /-- "Properties cannot be declared final." -/
  | propertyFinal
  | propertyAbstract
  /-- "Traits cannot have constants." -/
  | traitConstant
  /-- "A class constant must not be called 'class'; …" -/
  | constNamedClass
deriving DecidableEq, Repr

/-- declarationbuilder.cpp:328-334 and :575-581 -/
def accessOf (m : Mods) (old : Access) : Access :=
  if m.pub then .Public else if m.prot then .Protected else if m.priv then .Private else old

/-- declarationbuilder.cpp:350-372: the abstract method of a class or trait: problems, and whether it becomes
abstract. -/
def abstractMethod (report : Bool) (ct : ClassType) (classAbstract : Bool) (m : Mods) (b : Body) : List Problem × Bool :=
  if !report then ([], true)
  else if !classAbstract && ct != .Trait then ([.classNotAbstract], false)
  else if !isEmptyMethodBody b then ([.abstractBody], false)
  else if m.fin then ([.abstractFinal], false)
  else ([], true)

/-- declarationbuilder.cpp:322-383: a method; `report` is `m_reportErrors`. -/
def declareMethod (report : Bool) (ct : ClassType) (classAbstract : Bool) (m : Mods) (b : Body) (old : Attrs) :
    List Problem × Attrs :=
  let dec := { old with access := accessOf m old.access, isStatic := old.isStatic || m.stat }
  if ct = .Interface then                                                              -- :338
    ((if report then
        (if m.fin || m.abst then [Problem.interfaceModifier] else []) ++
        (if isEmptyMethodBody b then [] else [Problem.interfaceBody])
      else []),
     { dec with isAbstract := true })                                                  -- :339-349
  else
    let r := if m.abst then abstractMethod report ct classAbstract m b else ([], false)
    let dec := { dec with
      isAbstract := dec.isAbstract || r.2
      isFinal := dec.isFinal || (!m.abst && m.fin) }                                   -- :373-375
    (r.1 ++ (if report && !dec.isAbstract && isEmptyMethodBody b then [Problem.missingBody] else []), dec) -- :376-378

/-- declarationbuilder.cpp:390-407, :649-684: one class constant of the given name. -/
def declareConst (report : Bool) (u : CharClass) (ct : ClassType) (m : Mods) (name : QString) (old : Attrs) :
    List Problem × Attrs :=
  ((if report then
      (if m.fin then [Problem.constFinal] else []) ++ (if m.stat then [Problem.constStatic] else []) ++
      (if m.abst then [Problem.constAbstract] else []) ++
      (if ct = .Trait then [Problem.traitConstant] else []) ++
      (if lowerStr u name = q! "class" then [Problem.constNamedClass] else [])
    else []),
   { old with access := if m.prot then .Protected else if m.priv then .Private else .Public, isStatic := true })

/-- declarationbuilder.cpp:408-424, :562-588: a property. -/
def declareProperty (report : Bool) (m : Mods) (old : Attrs) : List Problem × Attrs :=
  ((if report then
      (if m.fin then [Problem.propertyFinal] else []) ++ (if m.abst then [Problem.propertyAbstract] else [])
    else []),
   { old with access := accessOf m old.access, isStatic := old.isStatic || m.stat })

/-! ### Modifiers: order and repetition do not matter -/

theorem foldl_add (ks : List Modifier) (m : Mods) : ks.foldl Mods.add m =
    { pub := m.pub || ks.contains .PUBLIC, prot := m.prot || ks.contains .PROTECTED,
      priv := m.priv || ks.contains .PRIVATE, stat := m.stat || ks.contains .STATIC,
      fin := m.fin || ks.contains .FINAL, abst := m.abst || ks.contains .ABSTRACT } := by
  induction ks generalizing m with
  | nil => simp
  | cons k ks ih =>
    rw [List.foldl_cons, ih]
    cases k <;> simp [Mods.add]

/-- **C32.** A modifier is set iff it is written, wherever and however often. -/
theorem modifiers_written (ks : List Modifier) : optionalModifiers ks =
    { pub := ks.contains .PUBLIC, prot := ks.contains .PROTECTED, priv := ks.contains .PRIVATE,
      stat := ks.contains .STATIC, fin := ks.contains .FINAL, abst := ks.contains .ABSTRACT } := by
  unfold optionalModifiers
  rw [foldl_add]; simp

/-! ### Specification of the diagnostics -/

/-- The rules a method declaration has to obey, as checked by kdev-php. -/
def ValidMethod (ct : ClassType) (classAbstract : Bool) (ks : List Modifier) (hasBody : Bool) : Prop :=
  match ct with
  | .Interface => .FINAL ∉ ks ∧ .ABSTRACT ∉ ks ∧ hasBody = false
  | ct =>
    if Modifier.ABSTRACT ∈ ks then (classAbstract = true ∨ ct = .Trait) ∧ hasBody = false ∧ .FINAL ∉ ks
    else hasBody = true

/-- **C32.** With error reporting on, a newly declared method gets no diagnostic iff it obeys the rules. -/
theorem method_reported_iff (ct : ClassType) (ca : Bool) (ks : List Modifier) (b : Body) :
    (declareMethod true ct ca (optionalModifiers ks) b {}).1 = [] ↔ ValidMethod ct ca ks (b == .block) := by
  rw [modifiers_written]
  unfold declareMethod ValidMethod abstractMethod
  simp only [← List.contains_iff_mem]
  generalize ks.contains .ABSTRACT = a
  generalize ks.contains .FINAL = f
  generalize ks.contains .PUBLIC = x1
  generalize ks.contains .PROTECTED = x2
  generalize ks.contains .PRIVATE = x3
  generalize ks.contains .STATIC = x4
  cases ct <;> cases ca <;> cases a <;> cases f <;> cases b <;> simp [isEmptyMethodBody]

/-- **C32.** Each diagnostic of a newly declared method is given exactly when its text is true of the
declaration. -/
theorem method_diagnostics (ct : ClassType) (ca : Bool) (ks : List Modifier) (b : Body) :
    let ps := (declareMethod true ct ca (optionalModifiers ks) b {}).1
    (.interfaceModifier ∈ ps ↔ ct = .Interface ∧ (.FINAL ∈ ks ∨ .ABSTRACT ∈ ks)) ∧
    (.interfaceBody ∈ ps ↔ ct = .Interface ∧ b = .block) ∧
    (.classNotAbstract ∈ ps ↔ ct = .Class ∧ ca = false ∧ .ABSTRACT ∈ ks) ∧
    (.abstractBody ∈ ps ↔ ct ≠ .Interface ∧ .ABSTRACT ∈ ks ∧ (ca = true ∨ ct = .Trait) ∧ b = .block) ∧
    (.abstractFinal ∈ ps ↔ ct ≠ .Interface ∧ .ABSTRACT ∈ ks ∧ .FINAL ∈ ks ∧ (ca = true ∨ ct = .Trait) ∧
      b ≠ .block) ∧
    (.missingBody ∈ ps ↔ ct ≠ .Interface ∧ b ≠ .block ∧
      (.ABSTRACT ∈ ks → .FINAL ∈ ks ∨ (ct = .Class ∧ ca = false))) ∧
    ps.Nodup := by
  rw [modifiers_written]
  unfold declareMethod abstractMethod
  simp only [← List.contains_iff_mem]
  generalize ks.contains .ABSTRACT = a
  generalize ks.contains .FINAL = f
  generalize ks.contains .PUBLIC = x1
  generalize ks.contains .PROTECTED = x2
  generalize ks.contains .PRIVATE = x3
  generalize ks.contains .STATIC = x4
  cases ct <;> cases ca <;> cases a <;> cases f <;> cases b <;> simp [isEmptyMethodBody]

/-- **C32.** Without error reporting nothing is reported. -/
theorem nothing_reported (u : CharClass) (ct : ClassType) (ca : Bool) (m : Mods) (b : Body) (n : QString) (old : Attrs) :
    (declareMethod false ct ca m b old).1 = [] ∧ (declareConst false u ct m n old).1 = [] ∧
    (declareProperty false m old).1 = [] := by
  refine ⟨?_, by simp [declareConst], by simp [declareProperty]⟩
  unfold declareMethod abstractMethod
  split
  · simp
  · split <;> simp

/-- **C32.** The attributes of a newly declared method are those written: the access is the least restrictive one
written, public by default; it is static iff `static` is written, final iff `final` is written outside of an
interface and without `abstract`, and abstract iff it belongs to an interface or is a valid abstract method. -/
theorem method_attributes (ct : ClassType) (ca : Bool) (ks : List Modifier) (b : Body) :
    let d := (declareMethod true ct ca (optionalModifiers ks) b {}).2
    (d.access = .Private ↔ .PRIVATE ∈ ks ∧ .PROTECTED ∉ ks ∧ .PUBLIC ∉ ks) ∧
    (d.access = .Protected ↔ .PROTECTED ∈ ks ∧ .PUBLIC ∉ ks) ∧
    (d.isStatic = true ↔ .STATIC ∈ ks) ∧
    (d.isFinal = true ↔ ct ≠ .Interface ∧ .FINAL ∈ ks ∧ .ABSTRACT ∉ ks) ∧
    (d.isAbstract = true ↔ ct = .Interface ∨
      (.ABSTRACT ∈ ks ∧ ValidMethod ct ca ks (b == .block))) := by
  rw [modifiers_written]
  unfold declareMethod ValidMethod abstractMethod accessOf
  simp only [← List.contains_iff_mem]
  generalize ks.contains .ABSTRACT = a
  generalize ks.contains .FINAL = f
  generalize ks.contains .PUBLIC = x1
  generalize ks.contains .PROTECTED = x2
  generalize ks.contains .PRIVATE = x3
  generalize ks.contains .STATIC = x4
  cases ct <;> cases ca <;> cases a <;> cases f <;> cases b <;> cases x1 <;> cases x2 <;> cases x3 <;> simp [isEmptyMethodBody]

/-- **C32, limit.** A method that is parsed again keeps attributes whose modifiers have been removed. -/
theorem stale_modifiers (b : Body) :
    let d := (declareMethod true .Class false (optionalModifiers []) b
      (declareMethod true .Class false (optionalModifiers [.PRIVATE, .STATIC, .FINAL]) b {}).2).2
    d.access = .Private ∧ d.isStatic = true ∧ d.isFinal = true := by
  cases b <;> decide

/-- **C32.** The diagnostics and attributes of class constants: always static, public unless `protected` or
`private` is written. -/
theorem constant_checks (u : CharClass) (ct : ClassType) (ks : List Modifier) (n : QString) (old : Attrs) :
    let r := declareConst true u ct (optionalModifiers ks) n old
    (r.1 = [] ↔ .FINAL ∉ ks ∧ .STATIC ∉ ks ∧ .ABSTRACT ∉ ks ∧ ct ≠ .Trait ∧ lowerStr u n ≠ q! "class") ∧
    r.2.isStatic = true ∧
    (r.2.access = .Public ↔ .PROTECTED ∉ ks ∧ .PRIVATE ∉ ks) ∧
    (r.2.access = .Protected ↔ .PROTECTED ∈ ks) := by
  rw [modifiers_written]
  unfold declareConst
  simp only [← List.contains_iff_mem]
  generalize ks.contains .ABSTRACT = a
  generalize ks.contains .FINAL = f
  generalize ks.contains .PUBLIC = x1
  generalize ks.contains .PROTECTED = x2
  generalize ks.contains .PRIVATE = x3
  generalize ks.contains .STATIC = x4
  refine ⟨?_, trivial, ?_, ?_⟩
  · by_cases h1 : ct = .Trait <;> by_cases h2 : lowerStr u n = q! "class" <;>
      cases a <;> cases f <;> cases x4 <;> simp [h1, h2]
  · cases x2 <;> cases x3 <;> simp
  · cases x2 <;> cases x3 <;> simp

/-- **C32.** The diagnostics and attributes of newly declared properties. -/
theorem property_checks (ks : List Modifier) :
    let r := declareProperty true (optionalModifiers ks) {}
    (r.1 = [] ↔ .FINAL ∉ ks ∧ .ABSTRACT ∉ ks) ∧
    (r.2.isStatic = true ↔ .STATIC ∈ ks) ∧
    (r.2.access = .Private ↔ .PRIVATE ∈ ks ∧ .PROTECTED ∉ ks ∧ .PUBLIC ∉ ks) ∧
    (r.2.access = .Protected ↔ .PROTECTED ∈ ks ∧ .PUBLIC ∉ ks) := by
  rw [modifiers_written]
  unfold declareProperty accessOf
  simp only [← List.contains_iff_mem]
  generalize ks.contains .ABSTRACT = a
  generalize ks.contains .FINAL = f
  generalize ks.contains .PUBLIC = x1
  generalize ks.contains .PROTECTED = x2
  generalize ks.contains .PRIVATE = x3
  generalize ks.contains .STATIC = x4
  refine ⟨?_, ?_, ?_, ?_⟩
  · cases a <;> cases f <;> simp
  · simp
  · cases x1 <;> cases x2 <;> cases x3 <;> simp
  · cases x1 <;> cases x2 <;> cases x3 <;> simp

/-! ### Reserved class names (C33) -/

/-- declarationbuilder.cpp:1735-1746 `isReservedClassName` -/
def isReservedClassName (u : CharClass) (name : QString) : Bool :=
  ciEq u name (q! "string") || ciEq u name (q! "bool") || ciEq u name (q! "int") || ciEq u name (q! "float") ||
  ciEq u name (q! "iterable") || ciEq u name (q! "object") || ciEq u name (q! "null") || ciEq u name (q! "true") ||
  ciEq u name (q! "false")

/-- The reserved names. -/
def reserved : List QString :=
  [q! "string", q! "bool", q! "int", q! "float", q! "iterable", q! "object", q! "null", q! "true", q! "false"]

/-- **C33.** Exactly the names equal to a reserved name under Qt's case folding are reported. -/
theorem reserved_iff (u : CharClass) (name : QString) :
    isReservedClassName u name = true ↔ ∃ r ∈ reserved, ciEq u name r = true := by
  simp [isReservedClassName, reserved, or_assoc]

theorem asciiLower_lt {c : QChar} (h : c < 128) : asciiLower c < 128 := by
  unfold asciiLower; split <;> omega

/-- **C33.** For ASCII names: exactly those spelled like a reserved name in any letter case are reported. -/
theorem reserved_ascii_iff (u : CharClass) (hu : u.Lawful) (name : QString) (ha : ∀ c ∈ name, c < 128) :
    isReservedClassName u name = true ↔ ∃ r ∈ reserved, SameIgnoringCase name r := by
  rw [reserved_iff]
  have hfold : ∀ l : QString, (∀ c ∈ l, c < 128) → l.map u.fold = l.map asciiLower := by
    intro l hl
    exact List.map_congr_left (fun c hc => hu.fold_ascii c (hl c hc))
  have hr : ∀ r ∈ reserved, ∀ c ∈ r, c < 128 := by decide
  constructor
  · rintro ⟨r, h1, h2⟩
    refine ⟨r, h1, ?_⟩
    simp only [ciEq, beq_iff_eq] at h2
    rw [hfold name ha, hfold r (hr r h1)] at h2
    exact h2
  · rintro ⟨r, h1, h2⟩
    refine ⟨r, h1, ?_⟩
    simp only [ciEq, beq_iff_eq]
    rw [hfold name ha, hfold r (hr r h1)]
    exact h2

/-! ### Parameters (C46) -/

/-- A parameter: whether it is variadic, its default value, whether it has a class type hint
(`hasClassTypehint`, see `TypeHint.lean`). -/
structure Param where
  variadic : Bool
  default : Option QString
  classHint : Bool
deriving DecidableEq, Repr

inductive ParamProblem
  /-- "Variadic parameter cannot have a default value" -/
  | variadicDefault (i : Nat)
  /-- "Default value for parameters with a class type hint can only be NULL." -/
  | defaultNotNull (i : Nat)
  /-- "Only the last parameter can be variadic." (reported at the variadic parameter) -/
  | variadicNotLast (i : Nat)
deriving DecidableEq, Repr

/-- declarationbuilder.cpp:826-836: the default value; problems and the string passed to
`addDefaultParameter` (empty when there is none). -/
def checkDefault (u : CharClass) (i : Nat) (p : Param) : List ParamProblem × QString :=
  match p.default with
  | some d =>
    (if p.variadic then [.variadicDefault i]
     else if p.classHint && !ciEq u d (q! "null") then [.defaultNotNull i]
     else [], d)
  | none => ([], [])

/-- declarationbuilder.cpp:848-850 -/
def checkPrevious (i : Nat) : Option Param → List ParamProblem
  | some q => if q.variadic then [ParamProblem.variadicNotLast (i - 1)] else []
  | none => []

/-- declarationbuilder.cpp:819-860 over a parameter list; `prev` is
`m_functionDeclarationPreviousArgument`, `i` the index of the next parameter. -/
def visitParameters (u : CharClass) : Nat → Option Param → List Param → List ParamProblem × List QString
  | _, _, [] => ([], [])
  | i, prev, p :: ps =>
    let a := checkDefault u i p
    let b := checkPrevious i prev
    let r := visitParameters u (i + 1) (some p) ps
    (a.1 ++ b ++ r.1, a.2 :: r.2)

/-- declarationbuilder.cpp:812-817: a parameter list starts without previous parameter. -/
def visitParameterList (u : CharClass) (ps : List Param) : List ParamProblem × List QString :=
  visitParameters u 0 none ps

theorem visitParameters_spec (u : CharClass) (ps : List Param) : ∀ (i : Nat) (prev : Option Param) (x : ParamProblem),
    x ∈ (visitParameters u i prev ps).1 ↔
      (∃ j p, ps[j]? = some p ∧ x = .variadicDefault (i + j) ∧ p.variadic = true ∧ p.default ≠ none) ∨
      (∃ j p d, ps[j]? = some p ∧ x = .defaultNotNull (i + j) ∧ p.variadic = false ∧ p.classHint = true ∧
        p.default = some d ∧ ciEq u d (q! "null") = false) ∨
      (∃ j p, ps[j]? = some p ∧ j + 1 < ps.length ∧ x = .variadicNotLast (i + j) ∧ p.variadic = true) ∨
      (∃ q, prev = some q ∧ q.variadic = true ∧ ps ≠ [] ∧ x = .variadicNotLast (i - 1)) := by
  induction ps with
  | nil => intro i prev x; simp [visitParameters]
  | cons p ps ih =>
    intro i prev x
    rw [visitParameters]
    simp only [List.mem_append, ih]
    constructor
    · rintro ((h | h) | h)
      · unfold checkDefault at h
        split at h
        · rename_i d hd
          simp only [] at h
          split at h
          · rename_i hv
            simp at h
            exact .inl ⟨0, p, by simp, by simpa using h, hv, by simp [hd]⟩
          · split at h
            · rename_i hv hh
              simp at h hh
              exact .inr (.inl ⟨0, p, d, by simp, by simpa using h, by simpa using hv, hh.1, hd, hh.2⟩)
            · simp at h
        · simp at h
      · unfold checkPrevious at h
        split at h
        · rename_i q
          split at h
          · rename_i hv
            simp at h
            exact .inr (.inr (.inr ⟨q, rfl, hv, by simp, h⟩))
          · simp at h
        · simp at h
      · rcases h with ⟨j, q, h1, h2, h3⟩ | ⟨j, q, d, h1, h2, h3⟩ | ⟨j, q, h1, h0, h2, h3⟩ | ⟨q, h1, h2, h3, h4⟩
        · exact .inl ⟨j + 1, q, by simpa using h1, by rw [h2]; congr 1; omega, h3⟩
        · exact .inr (.inl ⟨j + 1, q, d, by simpa using h1, by rw [h2]; congr 1; omega, h3⟩)
        · exact .inr (.inr (.inl ⟨j + 1, q, by simpa using h1, by simp; omega, by rw [h2]; congr 1; omega, h3⟩))
        · refine .inr (.inr (.inl ⟨0, p, by simp, ?_, by simpa using h4, ?_⟩))
          · cases ps with
            | nil => exact absurd rfl h3
            | cons _ _ => simp
          · simp at h1; rw [h1]; exact h2
    · rintro (⟨j, q, h1, h2, h3⟩ | ⟨j, q, d, h1, h2, h3⟩ | ⟨j, q, h1, h0, h2, h3⟩ | ⟨q, h1, h2, h3, h4⟩)
      · cases j with
        | zero =>
          simp at h1; subst h1
          left; left
          unfold checkDefault
          cases hd : p.default with
          | none => exact absurd hd h3.2
          | some d => simp [h3.1, h2]
        | succ j => exact .inr (.inl ⟨j, q, by simpa using h1, by rw [h2]; congr 1; omega, h3⟩)
      · cases j with
        | zero =>
          simp at h1; subst h1
          left; left
          unfold checkDefault
          rw [h3.2.2.1]
          simp [h3.1, h3.2.1, h3.2.2.2, h2]
        | succ j => exact .inr (.inr (.inl ⟨j, q, d, by simpa using h1, by rw [h2]; congr 1; omega, h3⟩))
      · cases j with
        | zero =>
          simp at h1; subst h1
          right; right; right; right
          refine ⟨p, rfl, h3, ?_, by simpa using h2⟩
          intro hp; subst hp; simp at h0
        | succ j =>
          exact .inr (.inr (.inr (.inl ⟨j, q, by simpa using h1, by simp at h0; omega, by rw [h2]; congr 1; omega, h3⟩)))
      · left; right
        subst h1
        simp [checkPrevious, h2, h4]

/-- **C46.** A parameter list of any length is reported exactly for: variadic parameters with a default value,
class-hinted parameters with a default value other than `null` (in any letter case), and variadic parameters
that are not the last. -/
theorem parameter_diagnostics (u : CharClass) (ps : List Param) (x : ParamProblem) :
    x ∈ (visitParameterList u ps).1 ↔
      (∃ i p, ps[i]? = some p ∧ x = .variadicDefault i ∧ p.variadic = true ∧ p.default ≠ none) ∨
      (∃ i p d, ps[i]? = some p ∧ x = .defaultNotNull i ∧ p.variadic = false ∧ p.classHint = true ∧
        p.default = some d ∧ ciEq u d (q! "null") = false) ∨
      (∃ i p, ps[i]? = some p ∧ i + 1 < ps.length ∧ x = .variadicNotLast i ∧ p.variadic = true) := by
  unfold visitParameterList
  rw [visitParameters_spec]
  simp

theorem visitParameters_defaults (u : CharClass) (ps : List Param) : ∀ i prev,
    (visitParameters u i prev ps).2 = ps.map (fun p => p.default.getD []) := by
  induction ps with
  | nil => intro i prev; rfl
  | cons p ps ih =>
    intro i prev
    rw [visitParameters]
    simp only [ih, List.map_cons, List.cons.injEq, and_true]
    unfold checkDefault
    cases p.default <;> rfl

/-- **C46.** A function has exactly one default parameter entry for each of its parameters: the default value, or
the empty string. -/
theorem default_parameters (u : CharClass) (ps : List Param) :
    (visitParameterList u ps).2 = ps.map (fun p => p.default.getD []) :=
  visitParameters_defaults u ps 0 none

/-! ### Concrete cases -/

-- `abstract function f();` in a non-abstract class is reported twice
example : (declareMethod true .Class false (optionalModifiers [.ABSTRACT]) .semicolon {}).1 =
    [.classNotAbstract, .missingBody] := rfl
example : (declareMethod true .Class true (optionalModifiers [.PUBLIC, .ABSTRACT]) .semicolon {}) =
    ([], { isAbstract := true }) := rfl
-- a private abstract method and a private interface method are not reported
example : (declareMethod true .Class true (optionalModifiers [.PRIVATE, .ABSTRACT]) .semicolon {}).1 = [] ∧
    (declareMethod true .Interface false (optionalModifiers [.PRIVATE]) .semicolon {}).1 = [] := by decide
example : isReservedClassName asciiClass (q! "String") = true ∧ isReservedClassName asciiClass (q! "Strings") = false := by
  decide
-- `function f(...$a = 1, A $b = 2, $c)`
example : (visitParameterList asciiClass [⟨true, some (q! "1"), false⟩, ⟨false, some (q! "2"), true⟩, ⟨false, none, false⟩]).1 =
    [.variadicDefault 0, .defaultNotNull 1, .variadicNotLast 0] := rfl
example : (visitParameterList asciiClass [⟨false, some (q! "NULL"), true⟩, ⟨true, none, false⟩]).1 = [] := by decide

end KPhp.Members
