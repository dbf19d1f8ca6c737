import Verif.Duchain.Members
/-!
# Trait composition (C47)

Models `DeclarationBuilder::importTraitMethods` (duchain/builders/declarationbuilder.cpp:427-526),
`visitTraitAliasStatement` and `createTraitAliasDeclarations` (:692-810) and
`TraitMethodAliasDeclaration::isOverriding` (duchain/declarations/traitmethodaliasdeclaration.cpp:107-116).

Simplified: types, ranges and pretty names are left out; every declaration in a class context is a
`ClassMemberDeclaration` (methods and their aliases are), so the casts at :478 succeed.  Names are lower-cased for
methods by the caller.
-/
namespace KPhp.Traits
open KPhp.Members (Access Mods)

inductive Kind
  | method
  /-- property or constant -/
  | member
  /-- `TraitMethodAliasDeclaration`: `aliasedDeclaration()` and the overridden traits -/
  | methodAlias (aliased : Nat) (overrides : List Nat)
  /-- `TraitMemberAliasDeclaration` -/
  | memberAlias (aliased : Nat)
deriving DecidableEq, Repr

/-- A declaration in a class or trait: its identity, its identifier (without `$`), the class it belongs to. -/
structure D where
  id : Nat
  name : QString
  kind : Kind
  scope : Nat
  access : Access := .Public
  isStatic : Bool := false
deriving DecidableEq, Repr

/-- `dynamic_cast<ClassMethodDeclaration*>` -/
def D.isMethod (d : D) : Bool :=
  match d.kind with
  | .method => true
  | .methodAlias _ _ => true
  | _ => false

/-- The declaration this one was made from. -/
def D.aliases (d : D) : Option Nat :=
  match d.kind with
  | .methodAlias a _ => some a
  | .memberAlias a => some a
  | _ => none

/-- declarationbuilder.cpp:448-484: how the local declaration `l` answers for the trait member `imp`:
`none`: not at all; `some false`: it is there already; `some true`: "Trait method … has not been applied,
because there are collisions with other trait methods". -/
def answers (imp l : D) : Option Bool :=
  match l.kind with
  | .methodAlias a ov =>
    if a = imp.id then some false                                             -- :450-454
    else if l.name = imp.name then
      if imp.scope ∈ ov then some false                                       -- :457-460
      else if imp.isMethod then some true                                     -- :461-470
      else some false                                                         -- :480-485
    else none
  | .memberAlias a =>
    if a = imp.id then some false                                             -- :473-478
    else if l.name = imp.name then some false                                 -- :480-485
    else none
  | _ => if l.name = imp.name then some false else none                       -- :480-485

/-- The `foreach (local)` loop :446-486: the first local declaration that answers. -/
def found (locals : List D) (imp : D) : Option Bool := locals.findSome? (answers imp)

/-- declarationbuilder.cpp:497-517: the new declaration. -/
def aliasOf (imp : D) (newId scope : Nat) : D :=
  { id := newId, name := imp.name, scope := scope, access := imp.access, isStatic := imp.isStatic
    kind := if imp.isMethod then .methodAlias imp.id [] else .memberAlias imp.id }

/-- The state while importing into the class `scope`: the declarations of the class, the next fresh
identity, the names reported as colliding. -/
structure S where
  locals : List D
  fresh : Nat
  errors : List QString

/-- declarationbuilder.cpp:444-519: one trait; `snapshot` are the local declarations before it (:440). -/
def importFrom (scope : Nat) (snapshot : List D) : S → List D → S
  | s, [] => s
  | s, imp :: rest =>
    match found snapshot imp with
    | some e => importFrom scope snapshot { s with errors := if e then s.errors ++ [imp.name] else s.errors } rest
    | none => importFrom scope snapshot
        { s with locals := s.locals ++ [aliasOf imp s.fresh scope], fresh := s.fresh + 1 } rest

/-- declarationbuilder.cpp:432-525: the traits of a `use` clause in order; `none` is a trait that is not found or
has no internal context: the loop ends there (:435-437). -/
def importTraits (scope : Nat) : S → List (Option (List D)) → S
  | s, [] => s
  | s, none :: _ => s
  | s, some t :: ts => importTraits scope (importFrom scope s.locals s t) ts

/-! ### Specification -/

/-- The class has something for the trait member `m`: a declaration of that name, or an alias of it. -/
def Provides (locals : List D) (m : D) : Prop := ∃ l ∈ locals, l.name = m.name ∨ l.aliases = some m.id

/-- `d` stands for the trait member `m` under its own name. -/
def StandsFor (d m : D) : Prop :=
  d.aliases = some m.id ∧ d.name = m.name ∧ d.access = m.access ∧ d.isStatic = m.isStatic ∧ d.isMethod = m.isMethod

/-! ### Proofs -/

theorem answers_some {imp l : D} : (answers imp l).isSome = true ↔ l.name = imp.name ∨ l.aliases = some imp.id := by
  unfold answers D.aliases
  cases l.kind with
  | method => simp
  | member => simp
  | methodAlias a ov =>
    simp only []
    by_cases h1 : a = imp.id
    · simp [h1]
    · by_cases h2 : l.name = imp.name
      · simp only [h1, h2, if_false, if_true]
        split
        · simp
        · split <;> simp
      · simp [h1, h2]
  | memberAlias a =>
    simp only []
    by_cases h1 : a = imp.id
    · simp [h1]
    · by_cases h2 : l.name = imp.name <;> simp [h1, h2]

theorem found_none {locals : List D} {imp : D} : found locals imp = none ↔ ¬ Provides locals imp := by
  unfold found Provides
  rw [List.findSome?_eq_none_iff]
  constructor
  · rintro h ⟨l, hl, hh⟩
    have := answers_some.2 hh
    rw [h l hl] at this
    simp at this
  · intro h l hl
    cases ha : answers imp l with
    | none => rfl
    | some e => exact absurd ⟨l, hl, answers_some.1 (by rw [ha]; rfl)⟩ h

theorem aliasOf_standsFor (imp : D) (n s : Nat) : StandsFor (aliasOf imp n s) imp := by
  unfold StandsFor aliasOf D.aliases
  cases h : imp.isMethod <;> simp [D.isMethod]

/-- What one trait adds. -/
theorem importFrom_spec (scope : Nat) (snapshot : List D) (t : List D) : ∀ s : S,
    ∃ new : List D, (importFrom scope snapshot s t).locals = s.locals ++ new ∧
      (∀ d ∈ new, d.scope = scope ∧ ∃ m ∈ t, StandsFor d m ∧ ¬ Provides snapshot m) ∧
      (∀ m ∈ t, ¬ Provides snapshot m → ∃ d ∈ new, StandsFor d m) := by
  induction t with
  | nil => intro s; exact ⟨[], by simp [importFrom], by simp, by simp⟩
  | cons imp rest ih =>
    intro s
    rw [importFrom]
    cases hf : found snapshot imp with
    | some e =>
      obtain ⟨new, h1, h2, h3⟩ := ih { s with errors := if e then s.errors ++ [imp.name] else s.errors }
      refine ⟨new, h1, ?_, ?_⟩
      · intro d hd; obtain ⟨hsc, m, hm, hs⟩ := h2 d hd; exact ⟨hsc, m, by simp [hm], hs⟩
      · intro m hm hp
        rcases List.mem_cons.1 hm with rfl | hm
        · rw [found_none.2 hp] at hf; simp at hf
        · exact h3 m hm hp
    | none =>
      obtain ⟨new, h1, h2, h3⟩ := ih { s with locals := s.locals ++ [aliasOf imp s.fresh scope], fresh := s.fresh + 1 }
      refine ⟨aliasOf imp s.fresh scope :: new, by simp [h1], ?_, ?_⟩
      · intro d hd
        rcases List.mem_cons.1 hd with rfl | hd
        · exact ⟨rfl, imp, by simp, aliasOf_standsFor _ _ _, found_none.1 hf⟩
        · obtain ⟨hsc, m, hm, hs⟩ := h2 d hd; exact ⟨hsc, m, by simp [hm], hs⟩
      · intro m hm hp
        rcases List.mem_cons.1 hm with rfl | hm
        · exact ⟨aliasOf m s.fresh scope, by simp, aliasOf_standsFor _ _ _⟩
        · obtain ⟨d, hd, hs⟩ := h3 m hm hp; exact ⟨d, by simp [hd], hs⟩

theorem Provides.mono {a b : List D} (h : ∀ x ∈ a, x ∈ b) {m : D} (hp : Provides a m) : Provides b m := by
  obtain ⟨l, hl, hh⟩ := hp; exact ⟨l, h l hl, hh⟩

/-- **C47.** Using traits that are all found never removes or changes a declaration of the class; everything
added belongs to the class and stands for a member of one of the traits, with its name, access and staticness; and afterwards the class has,
for every member of every trait, a declaration of that name or an alias of that member. -/
theorem traits_composed (scope : Nat) (ts : List (List D)) : ∀ s : S,
    ∃ new : List D, (importTraits scope s (ts.map some)).locals = s.locals ++ new ∧
      (∀ d ∈ new, d.scope = scope ∧ ∃ t ∈ ts, ∃ m ∈ t, StandsFor d m ∧ ¬ Provides s.locals m) ∧
      (∀ t ∈ ts, ∀ m ∈ t, Provides (s.locals ++ new) m) := by
  induction ts with
  | nil => intro s; exact ⟨[], by simp [importTraits], by simp, by simp⟩
  | cons t ts ih =>
    intro s
    rw [List.map_cons, importTraits]
    obtain ⟨n1, h1, h2, h3⟩ := importFrom_spec scope s.locals t s
    obtain ⟨n2, g1, g2, g3⟩ := ih (importFrom scope s.locals s t)
    rw [h1] at g1 g2 g3
    refine ⟨n1 ++ n2, by rw [g1]; simp, ?_, ?_⟩
    · intro d hd
      rcases List.mem_append.1 hd with hd | hd
      · obtain ⟨hsc, m, hm, hs⟩ := h2 d hd
        exact ⟨hsc, t, by simp, m, hm, hs⟩
      · obtain ⟨hsc, t', ht, m, hm, hs, hp⟩ := g2 d hd
        exact ⟨hsc, t', by simp [ht], m, hm, hs, fun h => hp (h.mono (by simp +contextual))⟩
    · intro t' ht m hm
      rcases List.mem_cons.1 ht with rfl | ht
      · by_cases hp : Provides s.locals m
        · exact hp.mono (by simp +contextual)
        · obtain ⟨d, hd, hs⟩ := h3 m hm hp
          exact ⟨d, by simp [hd], .inl hs.2.1⟩
      · rw [← List.append_assoc]; exact g3 t' ht m hm

/-- **C47.** The own declarations of a class take precedence: a trait member of the same name is not added. -/
theorem own_member_wins (scope : Nat) (t : List D) (s : S) (own m : D) (ho : own ∈ s.locals) (hn : own.name = m.name)
    (d : D) (hd : d ∈ (importFrom scope s.locals s t).locals) (hs : StandsFor d m) : d ∈ s.locals := by
  obtain ⟨new, h1, h2, -⟩ := importFrom_spec scope s.locals t s
  rw [h1] at hd
  rcases List.mem_append.1 hd with hd | hd
  · exact hd
  · obtain ⟨-, m', -, hs', hp⟩ := h2 d hd
    exact absurd ⟨own, ho, .inl (by rw [hn, ← hs.2.1, hs'.2.1])⟩ hp

/-- **C47.** The collisions reported for a trait are those of its members, in order. -/
theorem importFrom_errors (scope : Nat) (snapshot : List D) (t : List D) : ∀ s : S,
    (importFrom scope snapshot s t).errors =
      s.errors ++ (t.filter (fun m => found snapshot m == some true)).map (·.name) := by
  induction t with
  | nil => intro s; simp [importFrom]
  | cons imp rest ih =>
    intro s
    rw [importFrom]
    cases hf : found snapshot imp with
    | none => simp [ih, hf]
    | some e => cases e <;> simp [ih, hf]

/-- **C47.** A collision is reported exactly for the trait methods whose name is already taken by a method
of another trait, first of all declarations of that name, that does not override them (`insteadof`) and that is
not an alias of the same method. -/
theorem collision_iff (locals : List D) (m : D) : found locals m = some true ↔
    ∃ pre l post a ov, locals = pre ++ l :: post ∧ l.kind = .methodAlias a ov ∧ l.name = m.name ∧ m.isMethod = true ∧
      a ≠ m.id ∧ m.scope ∉ ov ∧ ¬ Provides pre m := by
  unfold found
  rw [List.findSome?_eq_some_iff]
  constructor
  · rintro ⟨pre, l, post, h1, h2, h3⟩
    have hp : ¬ Provides pre m := found_none.1 (List.findSome?_eq_none_iff.2 h3)
    unfold answers at h2
    split at h2
    · rename_i a ov hk
      split at h2
      · simp at h2
      · rename_i ha
        split at h2
        · rename_i hn
          split at h2
          · simp at h2
          · rename_i hov
            split at h2
            · rename_i hm
              exact ⟨pre, l, post, a, ov, h1, hk, hn, hm, ha, hov, hp⟩
            · simp at h2
        · simp at h2
    · split at h2
      · simp at h2
      · split at h2 <;> simp at h2
    · split at h2 <;> simp at h2
  · rintro ⟨pre, l, post, a, ov, h1, hk, hn, hm, ha, hov, hp⟩
    refine ⟨pre, l, post, h1, ?_, fun x hx => List.findSome?_eq_none_iff.1 (found_none.2 hp) x hx⟩
    unfold answers
    simp [hk, hn, hm, ha, hov]

/-- **C47, limit.** A trait that is not found hides all traits named after it in the same `use` clause. -/
theorem missing_trait_hides (scope : Nat) (s : S) (ts : List (Option (List D))) :
    importTraits scope s (none :: ts) = s := rfl

/-- **C47, limit.** A trait method that was given another name (`use T { T::foo as bar; }`) is not added under its
own name any more, although PHP keeps it. -/
theorem aliased_original_lost (scope : Nat) (s : S) (t : List D) (m l : D) (a : Nat) (ov : List Nat)
    (hl : l ∈ s.locals) (hk : l.kind = .methodAlias a ov) (ha : a = m.id)
    (d : D) (hd : d ∈ (importFrom scope s.locals s t).locals) (hs : StandsFor d m) (hu : ∀ m' ∈ t, m'.id = m.id → m' = m) :
    d ∈ s.locals := by
  obtain ⟨new, h1, h2, -⟩ := importFrom_spec scope s.locals t s
  rw [h1] at hd
  rcases List.mem_append.1 hd with hd | hd
  · exact hd
  · obtain ⟨-, m', hm', hs', hp⟩ := h2 d hd
    have : m'.id = m.id := by
      have := hs.1.symm.trans hs'.1
      simpa using this.symm
    rw [hu m' hm' this] at hp
    exact absurd ⟨l, hl, .inr (by simp [D.aliases, hk, ha])⟩ hp

/-! ### Trait alias statements -/

/-- A trait alias statement `T::m as [modifiers] [alias];` or `T::m insteadof …;`: the written method name, the
alias, the modifiers, the conflicting traits that were found. -/
structure AliasStmt where
  method : QString
  alias : Option QString
  mods : Option Mods
  conflicts : Option (List Nat)

inductive AliasProblem | abstract | final | static
deriving DecidableEq, Repr

/-- declarationbuilder.cpp:735-755, :763-783 -/
def aliasAccess (st : AliasStmt) (old : Access) : Access :=
  match st.mods with
  | some m => KPhp.Members.accessOf m old
  | none => old

/-- declarationbuilder.cpp:745-753, :773-781 -/
def aliasProblems (st : AliasStmt) : List AliasProblem :=
  match st.mods with
  | some m => (if m.abst then [.abstract] else []) ++ (if m.fin then [.final] else []) ++ (if m.stat then [.static] else [])
  | none => []

/-- The result of an alias statement. -/
inductive AliasResult
  /-- no such method: nothing happens -/
  | nothing
  /-- a null pointer is dereferenced -/
  | crash
  | declared (d : D) (problems : List AliasProblem)
deriving DecidableEq, Repr

/-- declarationbuilder.cpp:692-810: `trait` are the local declarations of the trait, `none` when it is not
found or has no internal context. -/
def traitAlias (u : CharClass) (scope fresh : Nat) (trait : Option (List D)) (st : AliasStmt) : AliasResult :=
  match trait with
  | none => .nothing                                                          -- :698-700
  | some t =>
    match t.find? (fun d => d.name == lowerStr u st.method) with              -- :708-709, :720
    | none => .nothing
    | some old =>
      if old.isMethod then                                                    -- :721
        .declared
          { id := fresh, scope := scope
            name := lowerStr u (st.alias.getD st.method)                       -- :711-718
            kind := .methodAlias old.id (st.conflicts.getD [])                 -- :786, :789-806
            access := aliasAccess st old.access, isStatic := old.isStatic }
          (aliasProblems st)
      else .crash                                                             -- :733, :760: olddec is null

/-- **C47.** An alias statement for a method of the trait declares a method of the alias name (the original name if
none is given), for that method, as static as it, with the written access or else that of the method. -/
theorem alias_declared (u : CharClass) (scope fresh : Nat) (t : List D) (st : AliasStmt) (old : D)
    (h : t.find? (fun d => d.name == lowerStr u st.method) = some old) (hm : old.isMethod = true) :
    ∃ d ps, traitAlias u scope fresh (some t) st = .declared d ps ∧
      d.aliases = some old.id ∧ d.isMethod = true ∧ d.isStatic = old.isStatic ∧
      d.name = lowerStr u (st.alias.getD st.method) ∧
      (∀ m, st.mods = some m → m.pub = true → d.access = .Public) ∧
      (∀ m, st.mods = some m → m.pub = false → m.prot = true → d.access = .Protected) ∧
      (∀ m, st.mods = some m → m.pub = false → m.prot = false → m.priv = true → d.access = .Private) ∧
      ((∀ m, st.mods = some m → m.pub = false ∧ m.prot = false ∧ m.priv = false) → d.access = old.access) := by
  refine ⟨{ id := fresh, scope := scope, name := lowerStr u (st.alias.getD st.method),
            kind := .methodAlias old.id (st.conflicts.getD []),
            access := aliasAccess st old.access, isStatic := old.isStatic }, aliasProblems st, ?_, ?_⟩
  · unfold traitAlias
    simp only [h, hm, if_true]
  · refine ⟨rfl, rfl, rfl, rfl, ?_, ?_, ?_, ?_⟩
    · intro m h1 h2; simp [aliasAccess, h1, KPhp.Members.accessOf, h2]
    · intro m h1 h2 h3; simp [aliasAccess, h1, KPhp.Members.accessOf, h2, h3]
    · intro m h1 h2 h3 h4; simp [aliasAccess, h1, KPhp.Members.accessOf, h2, h3, h4]
    · intro hh
      cases hmods : st.mods with
      | none => simp [aliasAccess, hmods]
      | some m =>
        obtain ⟨a, b, c⟩ := hh m hmods
        simp [aliasAccess, hmods, KPhp.Members.accessOf, a, b, c]

/-- **C47.** The modifiers `abstract`, `final` and `static` are not permitted in an alias statement; exactly those
written are reported, and nothing else. -/
theorem alias_modifiers_reported (u : CharClass) (scope fresh : Nat) (t : List D) (st : AliasStmt) (d : D)
    (ps : List AliasProblem) (h : traitAlias u scope fresh (some t) st = .declared d ps) :
    (.abstract ∈ ps ↔ ∃ m, st.mods = some m ∧ m.abst = true) ∧
    (.final ∈ ps ↔ ∃ m, st.mods = some m ∧ m.fin = true) ∧
    (.static ∈ ps ↔ ∃ m, st.mods = some m ∧ m.stat = true) := by
  unfold traitAlias at h
  simp only at h
  split at h
  · cases h
  · split at h
    · cases h
      unfold aliasProblems
      cases hm : st.mods with
      | none => simp
      | some m => cases h1 : m.abst <;> cases h2 : m.fin <;> cases h3 : m.stat <;> simp [h1, h2, h3]
    · cases h

/-- **C47, limit.** An alias statement naming a property of the trait (`trait T { public $foo; }` and
`use T { T::foo as bar; }`) dereferences a null pointer. -/
theorem alias_of_property_crashes (u : CharClass) (scope fresh : Nat) (t : List D) (st : AliasStmt) (old : D)
    (h : t.find? (fun d => d.name == lowerStr u st.method) = some old) (hm : old.isMethod = false) :
    traitAlias u scope fresh (some t) st = .crash := by
  unfold traitAlias
  simp [h, hm]

/-- **C47.** `insteadof`: when the first declaration of that name in the class is that of `A::foo insteadof B;`, the
method of `B` is neither added nor reported as collision. -/
theorem insteadof_overrides (pre post : List D) (l m : D) (a : Nat) (ov : List Nat)
    (hk : l.kind = .methodAlias a ov) (hn : l.name = m.name) (hov : m.scope ∈ ov) (hp : ¬ Provides pre m) :
    found (pre ++ l :: post) m = some false := by
  unfold found
  rw [List.findSome?_append, show pre.findSome? (answers m) = none from found_none.2 hp]
  simp [answers, hk, hn, hov]

/-! ### Concrete cases -/

/-- `trait T { function foo() {} protected $p; }` -/
def traitT : List D := [⟨1, q! "foo", .method, 100, .Public, false⟩, ⟨2, q! "p", .member, 100, .Protected, false⟩]
/-- `trait U { function foo() {} function bar() {} }` -/
def traitU : List D := [⟨3, q! "foo", .method, 101, .Public, false⟩, ⟨4, q! "bar", .method, 101, .Public, true⟩]

-- `class C { use T, U; }`: `foo` of `U` collides
example : importTraits 7 ⟨[], 50, []⟩ [some traitT, some traitU] =
    ⟨[⟨50, q! "foo", .methodAlias 1 [], 7, .Public, false⟩, ⟨51, q! "p", .memberAlias 2, 7, .Protected, false⟩,
      ⟨52, q! "bar", .methodAlias 4 [], 7, .Public, true⟩], 53, [q! "foo"]⟩ := by rfl
-- `class C { use T, U { T::foo insteadof U; } }`
example : traitAlias asciiClass 7 50 (some traitT) ⟨q! "Foo", none, none, some [101]⟩ =
    .declared ⟨50, q! "foo", .methodAlias 1 [101], 7, .Public, false⟩ [] := by rfl
example : (importTraits 7 ⟨[⟨50, q! "foo", .methodAlias 1 [101], 7, .Public, false⟩], 51, []⟩
    [some traitT, some traitU]).errors = [] := by rfl
-- `class C { use T { T::foo as bar; } }`: no `foo`
example : ((importTraits 7 ⟨[⟨50, q! "bar", .methodAlias 1 [], 7, .Public, false⟩], 51, []⟩
    [some traitT]).locals.map (·.name)) = [q! "bar", q! "p"] := by rfl
-- `use T { T::p as q; }`
example : traitAlias asciiClass 7 50 (some traitT) ⟨q! "p", some (q! "q"), none, none⟩ = .crash := by rfl

end KPhp.Traits
