import Verif.Duchain.Names
/-
Type hints (duchain/helper.cpp:76-163, 518-718) and properties C23, C24, C25.

Undefined behaviour (dereferencing a null type pointer) is the outcome `none` of the outer
`Option`, called `Cpp`.  A null `AbstractType::Ptr` is the inner `none`.
-/
namespace KPhp.TypeHint
open KPhp.Names

/-- Result of running C++ code: `none` is undefined behaviour. -/
abbrev Cpp (α : Type) := Option α

/-- One member of a (union) type hint, `ParameterTypeHintAst`, `ReturnTypeHintAst` or
`PropertyTypeHintAst` with its `GenericTypeHintAst` (parser/php.g:949-996).  `missing` is a node with
none of the alternatives set. -/
inductive HintKind where
  | callable
  | void
  | array
  | named (name : NameAst)
  | missing
  deriving Repr

structure Hint where
  kind : HintKind
  nullable : Bool
  deriving Repr

/-- The class lookup used by the hints: `findDeclarationImportHelper(currentContext, id,
ClassDeclarationType)` and the type of the declaration found (a class declaration always has a
type). -/
abbrev ClassLookup := QId → Option Ty

/-- The first component of the name, `namespaceNameSequence->front()` (the grammar guarantees at
least one). -/
def firstName (n : NameAst) : QString := n.names.headD []

/-- `isGenericClassTypehint` (helper.cpp:76-98). -/
def isGenericClassTypehint (u : CharClass) (n : NameAst) : Bool :=
  if ciEq u (firstName n) (q! "bool") then false
  else if ciEq u (firstName n) (q! "float") then false
  else if ciEq u (firstName n) (q! "int") then false
  else if ciEq u (firstName n) (q! "string") then false
  else if ciEq u (firstName n) (q! "iterable") then false
  else if ciEq u (firstName n) (q! "object") then false
  else if ciEq u (firstName n) (q! "mixed") then false
  else true

/-- `isClassTypehint` (helper.cpp:100-118). -/
def isClassTypehint (u : CharClass) : HintKind → Bool
  | .callable => false
  | .void => false
  | .array => false
  | .named n => isGenericClassTypehint u n
  | .missing => false

/-- `hasClassTypehint` (helper.cpp:120-163, three copies). -/
def hasClassTypehint (u : CharClass) (hints : List Hint) : Bool :=
  hints.any (fun h => isClassTypehint u h.kind)

/-- `determineGenericTypeHint` (helper.cpp:518-564) for a name. -/
def determineNamed (u : CharClass) (look : ClassLookup) (n : NameAst) : Option Ty :=
  if ciEq u (firstName n) (q! "bool") then some (.integral .boolean)
  else if ciEq u (firstName n) (q! "float") then some (.integral .float)
  else if ciEq u (firstName n) (q! "int") then some (.integral .int)
  else if ciEq u (firstName n) (q! "string") then some (.integral .string)
  else if ciEq u (firstName n) (q! "object") then some (.ext .object)
  else if ciEq u (firstName n) (q! "mixed") then some (.integral .mixed)
  else if ciEq u (firstName n) (q! "iterable") then
    match look ⟨false, [q! "traversable"]⟩ with
    | some t => some (.unsure (addTypes [] [.integral .array, t]))
    | none => none
  else look (identifierForNamespace u n false)

/-- The type of one member, before nullability (helper.cpp:572-578 and 588-594). -/
def determineKind (u : CharClass) (look : ClassLookup) : HintKind → Option Ty
  | .callable => some (.ext .callable)
  | .void => some (.integral .void)
  | .array => some (.integral .array)
  | .named n => determineNamed u look n
  | .missing => none

/-- The loop over the further members (helper.cpp:587-600).  A member without any alternative adds
nothing; an unresolved name dereferences null. -/
def addMembers (u : CharClass) (look : ClassLookup) : List Ty → List Hint → Cpp (List Ty)
  | ts, [] => some ts
  | ts, h :: hs => do
    let ts ← match h.kind with
      | .missing => some ts
      | k => (determineKind u look k).map (addType ts)
    addMembers u look (if h.nullable then addType ts .null else ts) hs

/-- `determineTypehintFromList` (helper.cpp:566-618); the list is non-empty by the grammar, the
empty case is not reachable (`front()` of an empty sequence). -/
def determineTypehint (u : CharClass) (look : ClassLookup) : List Hint → Cpp (Option Ty)
  | [] => none
  | [h] =>
    match determineKind u look h.kind with
    | none => some none
    | some t =>
      if h.nullable then
        match t with
        | .unsure ts => some (some (.unsure (addType ts .null)))
        | t => some (some (.unsure (addTypes [] [t, .null])))
      else some (some t)
  | h :: hs => do
    let unsure ← match determineKind u look h.kind with
      | some (.unsure ts) => some ts
      | some t => some (addTypes [] [t])
      | none => none                                   -- type->indexed() with type == nullptr
    let ts ← addMembers u look unsure hs
    return some (.unsure ts)

/-- A parameter (`ParameterAst`): its hint, the type of its default value if it has one
(`none` = the expression visitor found no type), reference and variadic marks. -/
structure Param where
  hint : Option (List Hint)
  default : Option (Option Ty)
  isRef : Bool
  isVariadic : Bool

/-- The default value's part of `parameterType` (helper.cpp:637-665). -/
def withDefault (type : Option Ty) : Option (Option Ty) → Option Ty
  | none => type
  | some d =>
    match type, d with
    | some (.unsure ts), some (.integral .null) => some (.unsure (addType ts .null))
    | some t, some (.integral .null) => some (.unsure (addTypes [] [t, .null]))
    | none, d => d
    | some t, _ => some t

/-- The hint part shared by `parameterType`, `propertyType` and `returnType`
(helper.cpp:633-636, 693-696, 711-714): no type without hint. -/
def hintType (u : CharClass) (look : ClassLookup) (hint : Option (List Hint)) : Cpp (Option Ty) :=
  match hint with
  | some hs => determineTypehint u look hs
  | none => some none

/-- `parameterType` (helper.cpp:631-688). -/
def parameterType (u : CharClass) (look : ClassLookup) (p : Param) (doc : Option Ty) : Cpp Ty := do
  let type ← hintType u look p.hint
  let type := withDefault type p.default
  let type := match type with
    | some t => t
    | none => match doc with
      | some t => t
      | none => .mixed
  let type := if p.isRef then .ref type else type
  return if p.isVariadic then .array type else type

/-- `propertyType` (helper.cpp:691-708). -/
def propertyType (u : CharClass) (look : ClassLookup) (hint : Option (List Hint))
    (doc : Option Ty) : Cpp Ty := do
  let type ← hintType u look hint
  return match type with
    | some t => t
    | none => match doc with
      | some t => t
      | none => .mixed

/-- `returnType` (helper.cpp:710-719). -/
def returnType (u : CharClass) (look : ClassLookup) (hint : Option (List Hint))
    (doc : Option Ty) : Cpp (Option Ty) := do
  let type ← hintType u look hint
  return match type with
    | some t => some t
    | none => doc

/-! ### C25 -/

/-- The names with a built-in meaning. -/
def builtinHints : List QString :=
  [q! "bool", q! "float", q! "int", q! "string", q! "iterable", q! "object", q! "mixed"]

/-- The types of the built-in names; `iterable` is an array or a `Traversable`. -/
def builtinTypes (look : ClassLookup) : List (QString × Option Ty) :=
  [(q! "bool", some (.integral .boolean)), (q! "float", some (.integral .float)),
   (q! "int", some (.integral .int)), (q! "string", some (.integral .string)),
   (q! "object", some (.ext .object)), (q! "mixed", some (.integral .mixed)),
   (q! "iterable", (look ⟨false, [q! "traversable"]⟩).map
      (fun t => .unsure (addTypes [] [.integral .array, t])))]

/-- What one member of a hint means: the keywords, the built-in names and otherwise the class with this name, lower-cased; `none`:
there is no such class. -/
def meaning (u : CharClass) (look : ClassLookup) : HintKind → Option Ty
  | .callable => some (.ext .callable)
  | .void => some (.integral .void)
  | .array => some (.integral .array)
  | .named n =>
    match (builtinTypes look).find? (fun b => ciEq u (firstName n) b.1) with
    | some b => b.2
    | none => look ⟨n.isGlobal, n.names.map (lowerStr u)⟩
  | .missing => none

theorem kind_meaning : determineKind = meaning := by
  funext u look k
  cases k with
  | named n =>
    simp only [determineKind, meaning, determineNamed, builtinTypes, List.find?_cons, List.find?_nil]
    have hid : identifierForNamespace u n false = ⟨n.isGlobal, n.names.map (lowerStr u)⟩ := by
      cases n; exact plain_name u _ _
    rw [hid]
    generalize ciEq u (firstName n) (q! "bool") = b1
    generalize ciEq u (firstName n) (q! "float") = b2
    generalize ciEq u (firstName n) (q! "int") = b3
    generalize ciEq u (firstName n) (q! "string") = b4
    generalize ciEq u (firstName n) (q! "object") = b5
    generalize ciEq u (firstName n) (q! "mixed") = b6
    generalize ciEq u (firstName n) (q! "iterable") = b7
    cases b1
    · cases b2
      · cases b3
        · cases b4
          · cases b5
            · cases b6
              · cases b7
                · rfl
                · simp only [Bool.false_eq_true, if_false, if_true]
                  cases look ⟨false, [q! "traversable"]⟩ <;> rfl
              · rfl
            · rfl
          · rfl
        · rfl
      · rfl
    · rfl
  | _ => rfl

/-- Is the member a class (and not a keyword or built-in name)? -/
def NamesClass (u : CharClass) : HintKind → Prop
  | .named n => ∀ b ∈ builtinHints, ciEq u (firstName n) b = false
  | _ => False

/-- **C25.**  A name is treated as a class hint iff it is, ignoring case, none of the built-in
names. -/
theorem class_hint_iff (u : CharClass) (n : NameAst) :
    isGenericClassTypehint u n = true ↔ ∀ b ∈ builtinHints, ciEq u (firstName n) b = false := by
  simp only [isGenericClassTypehint, builtinHints, List.forall_mem_cons, List.not_mem_nil,
    false_implies, implies_true, and_true]
  repeat' split
  all_goals simp_all

/-- **C25.**  A hint counts as a class hint iff one of its members names a class. -/
theorem has_class_hint_iff (u : CharClass) (hints : List Hint) :
    hasClassTypehint u hints = true ↔ ∃ h ∈ hints, NamesClass u h.kind := by
  simp only [hasClassTypehint, List.any_eq_true]
  constructor
  · rintro ⟨h, hm, hc⟩
    refine ⟨h, hm, ?_⟩
    cases hk : h.kind <;> rw [hk] at hc <;> simp [isClassTypehint] at hc
    exact (class_hint_iff u _).1 hc
  · rintro ⟨h, hm, hc⟩
    refine ⟨h, hm, ?_⟩
    cases hk : h.kind <;> rw [hk] at hc <;> simp [NamesClass] at hc
    exact (class_hint_iff u _).2 hc

/-- **C25.**  Exactly the names treated as class hints are resolved by looking up a class of that
name; all others have their built-in type. -/
theorem class_hint_resolution (u : CharClass) (n : NameAst) :
    (isGenericClassTypehint u n = true →
      ∀ look, determineNamed u look n = look (identifierForNamespace u n false)) ∧
    (isGenericClassTypehint u n = false →
      ∃ b, b ∈ builtinHints ∧ ciEq u (firstName n) b = true ∧
        ∀ look, ∃ t, (b, t) ∈ builtinTypes look ∧ determineNamed u look n = t) := by
  constructor
  · intro h look
    rw [class_hint_iff] at h
    simp only [builtinHints, List.forall_mem_cons, List.not_mem_nil, false_implies, implies_true,
      and_true] at h
    simp [determineNamed, h]
  · intro h
    unfold isGenericClassTypehint at h
    unfold determineNamed
    by_cases h1 : ciEq u (firstName n) (q! "bool") = true
    · exact ⟨q! "bool", by simp [builtinHints], h1, fun look => ⟨some (.integral .boolean), by simp [builtinTypes],
        by simp [h1]⟩⟩
    by_cases h2 : ciEq u (firstName n) (q! "float") = true
    · exact ⟨q! "float", by simp [builtinHints], h2, fun look => ⟨some (.integral .float), by simp [builtinTypes],
        by simp [h1, h2]⟩⟩
    by_cases h3 : ciEq u (firstName n) (q! "int") = true
    · exact ⟨q! "int", by simp [builtinHints], h3, fun look => ⟨some (.integral .int), by simp [builtinTypes],
        by simp [h1, h2, h3]⟩⟩
    by_cases h4 : ciEq u (firstName n) (q! "string") = true
    · exact ⟨q! "string", by simp [builtinHints], h4, fun look => ⟨some (.integral .string), by simp [builtinTypes],
        by simp [h1, h2, h3, h4]⟩⟩
    by_cases h5 : ciEq u (firstName n) (q! "object") = true
    · exact ⟨q! "object", by simp [builtinHints], h5, fun look => ⟨some (.ext .object), by simp [builtinTypes],
        by simp [h1, h2, h3, h4, h5]⟩⟩
    by_cases h6 : ciEq u (firstName n) (q! "mixed") = true
    · exact ⟨q! "mixed", by simp [builtinHints], h6, fun look => ⟨some (.integral .mixed), by simp [builtinTypes],
        by simp [h1, h2, h3, h4, h5, h6]⟩⟩
    by_cases h7 : ciEq u (firstName n) (q! "iterable") = true
    · refine ⟨q! "iterable", by simp [builtinHints], h7, fun look =>
        ⟨(look ⟨false, [q! "traversable"]⟩).map (fun t => .unsure (addTypes [] [.integral .array, t])),
          by simp [builtinTypes], ?_⟩⟩
      simp [h1, h2, h3, h4, h5, h6, h7]
      cases look ⟨false, [q! "traversable"]⟩ <;> rfl
    simp [h1, h2, h3, h4, h5, h6, h7] at h

/-! ### C23 -/

/-- The types a member stands for when it is alone: the members of an unsure type, otherwise the
type itself. -/
def members : Ty → List Ty
  | .unsure ts => ts
  | t => [t]

/-- The types the first member of a union contributes, and the types a further member contributes
(a further `iterable` is kept as one nested unsure type); `none` if the member is unresolved. -/
def firstTypes (u : CharClass) (look : ClassLookup) (h : Hint) : Option (List Ty) :=
  (meaning u look h.kind).map members
def nextTypes (u : CharClass) (look : ClassLookup) (h : Hint) : Option (List Ty) :=
  (match h.kind with
    | .missing => some []
    | k => (meaning u look k).map (fun t => [t])).map
  (fun ts => ts ++ if h.nullable then [Ty.null] else [])

/-- All members' types in order; `none` if one of them is unresolved. -/
def allNext (u : CharClass) (look : ClassLookup) : List Hint → Option (List Ty)
  | [] => some []
  | h :: hs => do return (← nextTypes u look h) ++ (← allNext u look hs)

theorem addMembers_eq (u : CharClass) (look : ClassLookup) (hs : List Hint) :
    ∀ ts, addMembers u look ts hs = (allNext u look hs).map (addTypes ts) := by
  induction hs with
  | nil => intro ts; simp [addMembers, allNext, addTypes]
  | cons h hs ih =>
    intro ts
    rcases h with ⟨k, nl⟩
    cases k <;> simp only [addMembers, allNext, nextTypes, kind_meaning]
    case missing =>
      cases nl <;> simp [ih] <;> cases allNext u look hs <;> simp [addTypes]
    case named n =>
      cases meaning u look (.named n) <;> cases nl <;> simp [ih] <;> cases allNext u look hs <;>
        simp [addTypes]
    all_goals
      simp only [meaning]
      cases nl <;> simp [ih] <;> cases allNext u look hs <;> simp [addTypes]

/-- **C23.**  A single hint without `?` gives its plain type, and no type if it is unresolved. -/
theorem single_hint (u : CharClass) (look : ClassLookup) (k : HintKind) :
    determineTypehint u look [⟨k, false⟩] = some (meaning u look k) := by
  rw [determineTypehint, kind_meaning]
  cases h : meaning u look k <;> simp

/-- `unsure` types are never nested in what a class lookup returns (it returns class types). -/
def LookupIsClass (look : ClassLookup) : Prop := ∀ id t, look id = some t → ∃ c, t = .struct c

/-- **C23.**  A single nullable hint offers its type(s) and null, and nothing else; it stays
without type if it is unresolved. -/
theorem nullable_hint (u : CharClass) (look : ClassLookup) (k : HintKind) :
    determineTypehint u look [⟨k, true⟩] = some
      ((meaning u look k).map (fun t => .unsure (addType (members t) .null))) := by
  have e : ∀ t : Ty, addTypes [] [t, .null] = addType [t] .null := by
    intro t; simp [addTypes, addType]
  rw [determineTypehint, kind_meaning]
  cases hk : meaning u look k with
  | none => rfl
  | some t => cases t <;> simp [members, e]

/-- **C23.**  A union (at least two members), all members resolved: an unsure type with exactly the
members' types, each once in order of first mention, and null after a member marked with `?` —
except that the mark of the *first* member is ignored (see `first_nullable_dropped`).
If a member is unresolved the code dereferences a null type (`none`). -/
theorem union_hint_partial (u : CharClass) (look : ClassLookup) (h h2 : Hint) (hs : List Hint) :
    determineTypehint u look (h :: h2 :: hs) =
      match firstTypes u look h, allNext u look (h2 :: hs) with
      | some a, some b => some (some (.unsure (addTypes a b)))
      | _, _ => none := by
  rw [determineTypehint, kind_meaning]
  simp only [firstTypes, addMembers_eq]
  cases meaning u look h.kind with
  | none => simp
  | some t =>
    cases t <;> cases allNext u look (h2 :: hs) <;> simp [members, addTypes, addType]
  simp

theorem mem_allNext {u : CharClass} {look : ClassLookup} : ∀ {hs : List Hint} {ts : List Ty},
    allNext u look hs = some ts → ∀ t, t ∈ ts ↔
      (∃ h ∈ hs, meaning u look h.kind = some t) ∨ (t = .null ∧ ∃ h ∈ hs, h.nullable = true) := by
  intro hs
  induction hs with
  | nil => intro ts h; simp [allNext] at h; subst h; simp
  | cons h hs ih =>
    intro ts hts t
    simp only [allNext, Option.bind_eq_bind, Option.bind_eq_some_iff, Option.pure_def,
      Option.some.injEq] at hts
    obtain ⟨a, ha, b, hb, rfl⟩ := hts
    rw [List.mem_append, ih hb]
    have hat : t ∈ a ↔ meaning u look h.kind = some t ∨ (t = .null ∧ h.nullable = true) := by
      rcases h with ⟨k, nl⟩
      unfold nextTypes at ha
      cases k with
      | missing =>
        simp at ha; subst ha
        cases nl <;> simp [meaning]
      | _ =>
        simp only [Option.map_eq_some_iff] at ha
        obtain ⟨c, ⟨d, hd, rfl⟩, rfl⟩ := ha
        rw [hd]
        cases nl <;> simp [eq_comm]
    rw [hat]
    simp only [List.mem_cons, exists_eq_or_imp]
    constructor
    · rintro ((h | h) | (h | h))
      · exact Or.inl (Or.inl h)
      · exact Or.inr ⟨h.1, Or.inl h.2⟩
      · exact Or.inl (Or.inr h)
      · exact Or.inr ⟨h.1, Or.inr h.2⟩
    · rintro ((h | h) | ⟨h, (h' | h')⟩)
      · exact Or.inl (Or.inl h)
      · exact Or.inr (Or.inl h)
      · exact Or.inl (Or.inr ⟨h, h'⟩)
      · exact Or.inr (Or.inr ⟨h, h'⟩)

/-- **C23.**  What a resolved union offers: exactly the listed types, plus null iff a member after
the first is marked nullable; each once. -/
theorem union_hint_members_partial (u : CharClass) (look : ClassLookup) (h h2 : Hint) (hs : List Hint)
    (hf : LookupIsClass look) (ts : List Ty)
    (hr : determineTypehint u look (h :: h2 :: hs) = some (some (.unsure ts))) :
    ts.Nodup ∧ ∀ t, t ∈ ts ↔
      (∃ a, meaning u look h.kind = some a ∧ t ∈ members a) ∨
      (∃ m ∈ h2 :: hs, meaning u look m.kind = some t) ∨
      (t = .null ∧ ∃ m ∈ h2 :: hs, m.nullable = true) := by
  rw [union_hint_partial u look h h2 hs] at hr
  cases ha : firstTypes u look h with
  | none => simp [ha] at hr
  | some a =>
    cases hb : allNext u look (h2 :: hs) with
    | none => simp [ha, hb] at hr
    | some b =>
      simp only [ha, hb, Option.some.injEq, Ty.unsure.injEq] at hr
      subst hr
      unfold firstTypes at ha
      rw [Option.map_eq_some_iff] at ha
      obtain ⟨t0, h0, rfl⟩ := ha
      refine ⟨nodup_addTypes ?_, ?_⟩
      · rcases h with ⟨k, nl⟩
        cases k with
        | named n =>
          simp only [← kind_meaning, determineKind] at h0
          unfold determineNamed at h0
          have hcls : ∀ t, look (identifierForNamespace u n false) = some t → (members t).Nodup := by
            intro t ht
            obtain ⟨c, rfl⟩ := hf _ _ ht
            simp [members]
          repeat' split at h0
          all_goals first
            | (cases h0; done)
            | (cases h0; exact nodup_addTypes List.nodup_nil)
            | (cases h0; simp [members]; done)
            | (exact hcls _ h0)
        | missing => simp [meaning] at h0
        | _ => simp [meaning] at h0; subst h0; simp [members]
      · intro t
        rw [mem_addTypes, mem_allNext hb]
        simp [h0]

/-- The `?` of the first member of a union is lost. -/
theorem first_nullable_dropped :
    determineTypehint asciiClass (fun _ => none)
      [⟨.named ⟨false, [q! "int"]⟩, true⟩, ⟨.named ⟨false, [q! "string"]⟩, false⟩] =
    some (some (.unsure [.integral .int, .integral .string])) := by decide +kernel

/-- A union with a member that names no known class dereferences a null type. -/
theorem unresolved_union_ub (u : CharClass) (look : ClassLookup) (h h2 : Hint) (hs : List Hint)
    (hn : ∀ m ∈ h :: h2 :: hs, m.kind ≠ .missing)
    (hu : ∃ m ∈ h :: h2 :: hs, meaning u look m.kind = none) :
    determineTypehint u look (h :: h2 :: hs) = none := by
  rw [union_hint_partial u look h h2 hs]
  obtain ⟨m, hm, hk⟩ := hu
  rcases List.mem_cons.1 hm with rfl | hm
  · simp [firstTypes, hk]
  · have : ∀ l : List Hint, (∀ m ∈ l, m.kind ≠ .missing) → m ∈ l → allNext u look l = none := by
      intro l hl hm
      induction l with
      | nil => simp at hm
      | cons x l ih =>
        rcases List.mem_cons.1 hm with rfl | hm
        · have hx := hl m (by simp)
          have : nextTypes u look m = none := by
            unfold nextTypes
            rcases m with ⟨k, nl⟩
            cases k <;> simp_all
          simp [allNext, this]
        · simp only [allNext]
          rw [ih (fun m hm => hl m (by simp [hm])) hm]
          cases nextTypes u look x <;> simp
    rw [this _ (fun m hm => hn m (List.mem_cons_of_mem _ hm)) hm]
    cases firstTypes u look h <;> rfl

/-! ### C24 -/

/-- **C24.**  A parameter without hint, default value and doc comment is mixed; the doc comment
counts only without hint and default value type; the default value's type only without hint. -/
theorem parameter_type_priority (u : CharClass) (look : ClassLookup) (p : Param) (doc : Option Ty)
    (hint : Option Ty) (hh : hintType u look p.hint = some hint)
    (hr : p.isRef = false) (hv : p.isVariadic = false)
    (hnull : ¬ (hint.isSome = true ∧ p.default = some (some .null))) :
    parameterType u look p doc =
      some (((hint.or p.default.join).or doc).getD .mixed) := by
  unfold parameterType
  rw [Option.bind_eq_bind, hh]
  simp only [hr, hv, Option.bind_some, Bool.false_eq_true, if_false]
  have e : withDefault hint p.default = hint.or p.default.join := by
    unfold withDefault
    cases hd : p.default with
    | none => cases hint <;> rfl
    | some d =>
      cases hint with
      | none => cases d <;> rfl
      | some t =>
        cases d with
        | none => cases t <;> rfl
        | some d =>
          by_cases hdn : d = .null
          · subst hdn; exact absurd ⟨rfl, hd⟩ hnull
          · cases d with
            | integral k => cases k <;> first | (exact absurd rfl hdn) | (cases t <;> rfl)
            | _ => cases t <;> rfl
  rw [e]
  cases hint.or p.default.join with
  | some t => rfl
  | none => cases doc <;> rfl

/-- **C24.**  A `null` default value adds null to the hinted type. -/
theorem parameter_null_default (u : CharClass) (look : ClassLookup) (p : Param) (doc : Option Ty)
    (hs : List Hint) (t : Ty) (hp : p.hint = some hs)
    (ht : determineTypehint u look hs = some (some t))
    (hd : p.default = some (some .null)) (hr : p.isRef = false) (hv : p.isVariadic = false) :
    parameterType u look p doc = some (.unsure (addType (members t) .null)) := by
  have e : ∀ t : Ty, addTypes [] [t, .null] = addType [t] .null := by
    intro t; simp [addTypes, addType]
  unfold parameterType
  rw [Option.bind_eq_bind, hp, hintType]
  simp only [ht, hr, hv, hd, Option.bind_some, Bool.false_eq_true, if_false]
  cases t <;> simp [withDefault, members, e]

/-- **C24.**  By-reference wraps the type in a reference, variadic then in an array. -/
theorem parameter_wrapping (u : CharClass) (look : ClassLookup) (p : Param) (doc : Option Ty)
    (t : Ty) (ht : parameterType u look { p with isRef := false, isVariadic := false } doc = some t) :
    parameterType u look { p with isVariadic := false, isRef := true } doc = some (.ref t) ∧
    parameterType u look { p with isVariadic := true, isRef := false } doc = some (.array t) ∧
    parameterType u look { p with isVariadic := true, isRef := true } doc = some (.array (.ref t)) := by
  unfold parameterType at *
  simp only [Option.bind_eq_bind, Option.bind_eq_some_iff, Option.pure_def, Option.some.injEq] at ht
  obtain ⟨a, ha, h⟩ := ht
  refine ⟨?_, ?_, ?_⟩ <;>
  · simp only [Option.bind_eq_bind, ha, Option.bind_some]
    simpa using h

/-- **C24.**  A parameter always gets a type, unless its hint is a union with an unresolved
member. -/
theorem parameter_has_type (u : CharClass) (look : ClassLookup) (p : Param) (doc : Option Ty)
    (hh : ∀ hs, p.hint = some hs → determineTypehint u look hs ≠ none) :
    ∃ t, parameterType u look p doc = some t := by
  unfold parameterType hintType
  cases hp : p.hint with
  | none => simp
  | some hs =>
    cases hd : determineTypehint u look hs with
    | none => exact absurd hd (hh hs hp)
    | some a => simp [hd]

/-- **C24.**  A property's type is its hint, else its doc comment, else mixed; a return type is the
hint, else the doc comment, else none. -/
theorem property_and_return_type (u : CharClass) (look : ClassLookup) (hint : Option (List Hint))
    (doc : Option Ty) (h : Option Ty) (hh : hintType u look hint = some h) :
    propertyType u look hint doc = some ((h.or doc).getD .mixed) ∧
    returnType u look hint doc = some (h.or doc) := by
  unfold propertyType returnType
  rw [Option.bind_eq_bind, hh]
  cases h <;> cases doc <;> simp

def exLook : ClassLookup := fun id =>
  if id = ⟨false, [q! "foo"]⟩ then some (.struct 3)
  else if id = ⟨false, [q! "traversable"]⟩ then some (.struct 4) else none
example : LookupIsClass exLook := by
  intro id t h
  unfold exLook at h
  split at h
  · cases h; exact ⟨_, rfl⟩
  · split at h
    · cases h; exact ⟨_, rfl⟩
    · cases h
/-- `iterable|Foo|?int|FOO` -/
example : determineTypehint asciiClass exLook
    [⟨.named ⟨false, [q! "iterable"]⟩, false⟩, ⟨.named ⟨false, [q! "Foo"]⟩, false⟩,
     ⟨.named ⟨false, [q! "int"]⟩, true⟩, ⟨.named ⟨false, [q! "FOO"]⟩, false⟩] =
    some (some (.unsure [.integral .array, .struct 4, .struct 3, .integral .int, .null])) := by
  decide +kernel
/-- `int|null` is such a union: there is no class called `null`. -/
example : determineTypehint asciiClass exLook
    [⟨.named ⟨false, [q! "int"]⟩, false⟩, ⟨.named ⟨false, [q! "null"]⟩, false⟩] = none := by
  decide +kernel
/-- `Foo &...$x = null` -/
example : parameterType asciiClass exLook
    ⟨some [⟨.named ⟨false, [q! "Foo"]⟩, false⟩], some (some .null), true, true⟩ none =
    some (.array (.ref (.unsure [.struct 3, .null]))) := by decide +kernel
/-- A class `String\Foo` used as a hint is mistaken for `string`. -/
example : determineNamed asciiClass exLook ⟨false, [q! "String", q! "Foo"]⟩ =
    some (.integral .string) := by decide +kernel

end KPhp.TypeHint
