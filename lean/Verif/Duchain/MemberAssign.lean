import Verif.Duchain.Types
/-!
# Assignments to members of objects (C75)

Models `getClassContext` and the part of `DeclarationBuilder::visitAssignmentExpressionEqual` for `$p->x = …`
(duchain/builders/declarationbuilder.cpp:1169-1294) with the first check of `declareClassMember` (592-605).

Trusted platform behaviour: `findDeclarations(id)` of a context looks through the context itself, what it imports and what is around it, and stops at the first
one that has declarations of this name; the context of a class imports those of its base classes; it imports itself.  Simplified: classes have numbers, and the base classes of a class are given as one list in the order they are searched (the class
itself first); of a type, only whether it is `null` is known; the value has a type.  `$p` of `$p->x` is a name, as `C73` finds it.
-/
namespace KPhp.MemberAssign

inductive Access
  | pub | prot | priv
deriving DecidableEq, Repr

/-- A declaration. -/
structure Dec where
  name : QString
  /-- `kind() == Instance`: variables, properties, constants; no functions and classes -/
  isInstance : Bool
  /-- `ClassMemberDeclaration`: the access policy and the class it is declared in -/
  member : Option (Access × Nat)
  /-- its type is `null` -/
  isNull : Bool
  /-- its range is the one of the assigned name itself (it is left over from the last time the file was parsed) -/
  isOld : Bool
deriving DecidableEq, Repr

structure World where
  /-- the class itself and its base classes, in the order they are searched -/
  chain : Nat → List Nat
  /-- the declarations in the context of a class -/
  own : Nat → List Dec
  /-- the declarations around a class (global variables among them) -/
  around : Nat → List Dec
  /-- what the outermost scope finds for a name, with the class of its type, if that is one -/
  top : QString → List (Option Nat)
  /-- `m_upcomingClassVariables`: properties of classes that are still to come in this file -/
  upcoming : List QString

/-- Where the assignment stands: the variables of the scope, the parameters, the class whose context is directly around (in a method), what is around that. -/
structure Place where
  locals : List Dec
  params : List Dec
  cls : Option Nat
  outside : List Dec

/-- The search of `findDeclarations`: the first of the contexts that has the name. -/
def firstNonEmpty (n : QString) : List (List Dec) → List Dec
  | [] => []
  | ds :: rest =>
    let found := ds.filter (·.name == n)
    if found.isEmpty then firstNonEmpty n rest else found

/-- `currentContext()->findDeclarations(id)`. -/
def fromHere (w : World) (h : Place) (n : QString) : List Dec :=
  firstNonEmpty n ([h.locals, h.params] ++
    (match h.cls with
      | some c => (w.chain c).map w.own
      | none => []) ++ [h.outside])

/-- `ctx->findDeclarations(id)` for the context of a class. -/
def fromClass (w : World) (c : Nat) (n : QString) : List Dec :=
  firstNonEmpty n ((w.chain c).map w.own ++ [w.around c])

/-- `getClassContext` (declarationbuilder.cpp:1169-1188). -/
def classContext (w : World) (h : Place) (p : QString) : Option Nat :=
  if p == q! "this" then h.cls
  else (w.top p).findSome? id

/-- What becomes of the assignment. -/
inductive Outcome
  | nothing
  /-- the declaration is taken; its type is set if it was `null` -/
  | takes (d : Dec) (setsType : Bool)
  /-- "Cannot access private property" -/
  | privateError (d : Dec)
  /-- "Cannot access protected property" -/
  | protectedError (d : Dec)
  /-- a public property is declared in the class -/
  | declares (c : Nat)
deriving DecidableEq, Repr

/-- The condition in the first search (declarationbuilder.cpp:1203-1221). -/
def usable (h : Place) (d : Dec) : Bool :=
  d.isInstance && !d.isOld &&
  (match d.member with
    | some (.priv, c) => h.cls == some c
    | _ => true)

/-- The condition in the second search (declarationbuilder.cpp:1243-1253). -/
def usable' (d : Dec) : Bool := d.isInstance && !d.isOld

/-- The check of the access policy (declarationbuilder.cpp:1259-1273). -/
def checkAccess (h : Place) (d : Dec) : Outcome :=
  match d.member with
  | some (.priv, c) => if h.cls == some c then .takes d d.isNull else .privateError d
  | some (.prot, c) => if h.cls == some c then .takes d d.isNull else .protectedError d
  | _ => .takes d d.isNull

/-- `declareClassMember` (declarationbuilder.cpp:592-605, 1289-1291). -/
def declareMember (w : World) (c : Nat) (n : QString) : Outcome :=
  if w.upcoming.contains n then .nothing else .declares c

/-- `currentContext()->parentContext()->imports(ctx)`. -/
def imports (w : World) (h : Place) (c : Nat) : Bool :=
  match h.cls with
  | some k => (w.chain k).contains c
  | none => false

/-- `visitAssignmentExpressionEqual` for `$p->n = …` (declarationbuilder.cpp:1190-1294). -/
def assignMember (w : World) (h : Place) (p n : QString) : Outcome :=
  match classContext w h p with
  | none => .nothing
  | some c =>
    match ((fromHere w h n).filter (usable h)).getLast? with
    | some d => .takes d d.isNull
    | none =>
      if imports w h c then declareMember w c n
      else
        match ((fromClass w c n).filter usable').getLast? with
        | some d => checkAccess h d
        | none => declareMember w c n

/-! ### Specification -/

/-- The class, or the nearest of its base classes in the order of the search, that declares something of the name. -/
inductive Nearest (w : World) (n : QString) : List Nat → Nat → Prop
  | here {c cs} : (∃ d ∈ w.own c, d.name = n) → Nearest w n (c :: cs) c
  | there {c cs k} : (∀ d ∈ w.own c, d.name ≠ n) → Nearest w n cs k → Nearest w n (c :: cs) k

/-- The class declares one property of the name, and nothing else of that name. -/
structure OneProperty (w : World) (k : Nat) (n : QString) (d : Dec) : Prop where
  mem : d ∈ w.own k
  name : d.name = n
  only : ∀ e ∈ w.own k, e.name = n → e = d
  prop : d.isInstance = true ∧ d.isOld = false
  owner : ∃ a, d.member = some (a, k)

/-- A class comes first in its own list; declarations of members know their class. -/
structure World.Ok (w : World) : Prop where
  self : ∀ c, ∃ cs, w.chain c = c :: cs
  owner : ∀ k, ∀ d ∈ w.own k, ∃ a, d.member = some (a, k)

/-- Nothing of the name is visible around: no variable, and no member of the class the code stands in. -/
def NothingHere (w : World) (h : Place) (n : QString) : Prop :=
  (∀ d ∈ h.locals, d.name ≠ n) ∧ (∀ d ∈ h.params, d.name ≠ n) ∧ (∀ d ∈ h.outside, d.name ≠ n) ∧
  ∀ k, h.cls = some k → ∀ c ∈ w.chain k, ∀ d ∈ w.own c, d.name ≠ n

/-- What a search through contexts, one after the other, comes to: declarations of the name in the first context that has any. -/
inductive Sees (n : QString) : List (List Dec) → Dec → Prop
  | here {ds rest d} : d ∈ ds → d.name = n → Sees n (ds :: rest) d
  | there {ds rest d} : (∀ e ∈ ds, e.name ≠ n) → Sees n rest d → Sees n (ds :: rest) d

/-- The code finds the declaration: in the function or its parameters, then in the class and its base classes, then around. -/
def CodeSees (w : World) (h : Place) (n : QString) (d : Dec) : Prop :=
  (h.cls = none ∧ Sees n [h.locals, h.params, h.outside] d) ∨
  ∃ c, h.cls = some c ∧ Sees n (h.locals :: h.params :: ((w.chain c).map w.own ++ [h.outside])) d

/-- The class finds the declaration: in itself and its base classes, then around. -/
def ClassSees (w : World) (c : Nat) (n : QString) (d : Dec) : Prop :=
  Sees n ((w.chain c).map w.own ++ [w.around c]) d

/-- A property, constant or variable that is not just left over from this very assignment. -/
def Dec.Stands (d : Dec) : Prop := d.isInstance = true ∧ d.isOld = false

/-- A private member of another class than the one the code stands in. -/
def Dec.Foreign (d : Dec) (h : Place) : Prop := ∃ b, d.member = some (.priv, b) ∧ h.cls ≠ some b

/-! ### Lemmas -/

theorem mem_firstNonEmpty {n : QString} {d : Dec} : ∀ {l : List (List Dec)}, d ∈ firstNonEmpty n l ↔ Sees n l d
  | [] => by
    constructor
    · intro h; cases h
    · intro h; cases h
  | ds :: rest => by
    have ih := @mem_firstNonEmpty n d rest
    by_cases he : ∀ e ∈ ds, e.name ≠ n
    · have hf : ds.filter (·.name == n) = [] := by simpa [List.filter_eq_nil_iff] using he
      simp only [firstNonEmpty, hf, List.isEmpty_nil, if_true]
      rw [ih]
      constructor
      · exact .there he
      · rintro (⟨hd, hn⟩ | ⟨_, h⟩)
        · exact absurd hn (he d hd)
        · exact h
    · have hf : (ds.filter (·.name == n)).isEmpty = false := by
        rw [← Bool.not_eq_true, List.isEmpty_iff]
        intro h
        rw [List.filter_eq_nil_iff] at h
        exact he (by simpa using h)
      simp only [firstNonEmpty, hf, Bool.false_eq_true, if_false, List.mem_filter]
      constructor
      · rintro ⟨hd, hn⟩; exact .here hd (by simpa using hn)
      · rintro (⟨hd, hn⟩ | ⟨h, _⟩)
        · exact ⟨hd, by simp [hn]⟩
        · exact absurd h he

theorem mem_fromHere {w : World} {h : Place} {n : QString} {d : Dec} : d ∈ fromHere w h n ↔ CodeSees w h n d := by
  unfold fromHere CodeSees
  rw [mem_firstNonEmpty]
  cases h.cls <;> simp

theorem mem_fromClass {w : World} {c : Nat} {n : QString} {d : Dec} : d ∈ fromClass w c n ↔ ClassSees w c n d := mem_firstNonEmpty

theorem usable_iff {h : Place} {d : Dec} : usable h d = false ↔ (d.Stands → d.Foreign h) := by
  unfold usable Dec.Stands Dec.Foreign
  rcases d with ⟨n, i, m, nu, o⟩
  rcases m with _ | ⟨a, b⟩
  · cases i <;> cases o <;> simp
  · cases a <;> cases i <;> cases o <;> simp

theorem usable'_iff {d : Dec} : usable' d = false ↔ ¬ d.Stands := by
  unfold usable' Dec.Stands
  cases d.isInstance <;> cases d.isOld <;> simp

theorem firstNonEmpty_skip {n : QString} {ds : List Dec} (h : ∀ d ∈ ds, d.name ≠ n) (rest : List (List Dec)) :
    firstNonEmpty n (ds :: rest) = firstNonEmpty n rest := by
  have : ds.filter (·.name == n) = [] := by simpa [List.filter_eq_nil_iff] using h
  simp [firstNonEmpty, this]

theorem firstNonEmpty_none {n : QString} : ∀ (l : List (List Dec)), (∀ ds ∈ l, ∀ d ∈ ds, d.name ≠ n) → firstNonEmpty n l = []
  | [], _ => rfl
  | ds :: rest, h => by
    rw [firstNonEmpty_skip (h ds (by simp)), firstNonEmpty_none rest (fun ds' hd => h ds' (by simp [hd]))]

theorem fromHere_nothing {w : World} {h : Place} {n : QString} (hn : NothingHere w h n) : fromHere w h n = [] := by
  obtain ⟨h1, h2, h3, h4⟩ := hn
  apply firstNonEmpty_none
  intro ds hds
  simp only [List.mem_append, List.mem_cons, List.not_mem_nil, or_false] at hds
  rcases hds with ((rfl | rfl) | hds) | rfl
  · exact h1
  · exact h2
  · cases hc : h.cls with
    | none => simp [hc] at hds
    | some k =>
      simp only [hc, List.mem_map] at hds
      obtain ⟨c, hc', rfl⟩ := hds
      exact h4 k hc c hc'
  · exact h3

theorem firstNonEmpty_nearest {w : World} {n : QString} {rest : List (List Dec)} : ∀ {cs : List Nat} {k : Nat}, Nearest w n cs k →
    firstNonEmpty n (cs.map w.own ++ rest) = (w.own k).filter (·.name == n)
  | _, _, .here (c := c) (cs := cs) h => by
    have : ((w.own c).filter (·.name == n)).isEmpty = false := by
      obtain ⟨d, hd, hn⟩ := h
      rw [← Bool.not_eq_true, List.isEmpty_iff]
      intro he
      rw [List.filter_eq_nil_iff] at he
      exact he d hd (by simp [hn])
    simp [firstNonEmpty, this]
  | _, _, .there h h' => by
    rw [List.map_cons, List.cons_append, firstNonEmpty_skip h]
    exact firstNonEmpty_nearest h'

theorem filter_one {w : World} {k : Nat} {n : QString} {d : Dec} (h : OneProperty w k n d) :
    ∃ m, (w.own k).filter (·.name == n) = List.replicate (m + 1) d := by
  have hall : ∀ e ∈ (w.own k).filter (·.name == n), e = d := by
    intro e he
    rw [List.mem_filter] at he
    exact h.only e he.1 (by simpa using he.2)
  have hmem : d ∈ (w.own k).filter (·.name == n) := by
    rw [List.mem_filter]; exact ⟨h.mem, by simp [h.name]⟩
  have := List.eq_replicate_of_mem hall
  cases hl : ((w.own k).filter (·.name == n)).length with
  | zero => rw [List.length_eq_zero_iff] at hl; rw [hl] at hmem; cases hmem
  | succ m => exact ⟨m, by rw [this, hl]⟩

theorem getLast_replicate_filter {p : Dec → Bool} {m : Nat} {d : Dec} (h : p d = true) :
    ((List.replicate (m + 1) d).filter p).getLast? = some d := by
  rw [List.filter_replicate_of_pos h]
  rw [List.replicate_succ']
  simp

/-! ### C75 -/

/-- **C75.**  From outside of the class and its subclasses, where nothing of the name is visible: a private property is reported as private, a protected one as protected, a public
one is taken.  It is the property of the nearest base class that has one. -/
theorem outside_access (w : World) (h : Place) (p n : QString) (c k : Nat) (d : Dec) (hc : classContext w h p = some c)
    (hn : NothingHere w h n) (hi : ∀ j, h.cls = some j → c ∉ w.chain j) (hk : Nearest w n (w.chain c) k) (hd : OneProperty w k n d) :
    (∀ b, d.member = some (.priv, b) → h.cls ≠ some b → assignMember w h p n = .privateError d) ∧
    (∀ b, d.member = some (.prot, b) → h.cls ≠ some b → assignMember w h p n = .protectedError d) ∧
    (∀ b, d.member = some (.pub, b) → assignMember w h p n = .takes d d.isNull) := by
  have himp : imports w h c = false := by
    unfold imports
    cases hh : h.cls with
    | none => rfl
    | some j => simpa using hi j hh
  obtain ⟨m, hm⟩ := filter_one hd
  have hu : usable' d = true := by simp [usable', hd.prop.1, hd.prop.2]
  have hf : assignMember w h p n = checkAccess h d := by
    unfold assignMember
    rw [hc]
    simp only [fromHere_nothing hn, List.filter_nil, List.getLast?_nil, himp, Bool.false_eq_true, if_false]
    simp only [fromClass, firstNonEmpty_nearest hk, hm, getLast_replicate_filter hu]
  rw [hf]
  unfold checkAccess
  refine ⟨?_, ?_, ?_⟩
  · intro b hb hne; rw [hb]; simp [hne]
  · intro b hb hne; rw [hb]; simp [hne]
  · intro b hb; rw [hb]

/-- **C75.**  No access is ever reported in a method of the class itself or of a subclass, `$this->x` among them. -/
theorem inside_no_report (w : World) (h : Place) (p n : QString) (d : Dec)
    (hi : ∀ c, classContext w h p = some c → ∃ k, h.cls = some k ∧ c ∈ w.chain k) :
    assignMember w h p n ≠ .privateError d ∧ assignMember w h p n ≠ .protectedError d := by
  unfold assignMember
  cases hc : classContext w h p with
  | none => simp
  | some c =>
    obtain ⟨k, hk, hm⟩ := hi c hc
    have himp : imports w h c = true := by simp [imports, hk, hm]
    simp only [himp, if_true]
    cases ((fromHere w h n).filter (usable h)).getLast? with
    | some e => simp
    | none =>
      simp only [declareMember]
      split <;> simp

/-- **C75.**  In particular `$this->x = …` is never reported. -/
theorem this_no_report (w : World) (hw : w.Ok) (h : Place) (n : QString) (d : Dec) :
    assignMember w h (q! "this") n ≠ .privateError d ∧ assignMember w h (q! "this") n ≠ .protectedError d := by
  apply inside_no_report
  intro c hc
  simp only [classContext, beq_self_eq_true, if_true] at hc
  obtain ⟨cs, hs⟩ := hw.self c
  exact ⟨c, hc, by rw [hs]; simp⟩

/-- A property is declared in the class exactly if nothing suitable is found from the code and (unless the code stands in the class or a subclass) nothing from the class,
and the file declares no property of that name further on; it is declared in the class of the object, and nothing is reported. -/
theorem declares_iff' (w : World) (h : Place) (p n : QString) (c : Nat) :
    assignMember w h p n = .declares c ↔
      classContext w h p = some c ∧ n ∉ w.upcoming ∧ (∀ d ∈ fromHere w h n, usable h d = false) ∧
      ((∃ k, h.cls = some k ∧ c ∈ w.chain k) ∨ ∀ d ∈ fromClass w c n, usable' d = false) := by
  have hl : ∀ (l : List Dec) (q : Dec → Bool), (l.filter q).getLast? = none ↔ ∀ d ∈ l, q d = false := by
    intro l q
    rw [List.getLast?_eq_none_iff, List.filter_eq_nil_iff]
    simp
  have hd : ∀ c', declareMember w c' n = .declares c ↔ c' = c ∧ n ∉ w.upcoming := by
    intro c'
    by_cases hu : n ∈ w.upcoming <;> simp [declareMember, hu]
  unfold assignMember
  cases hc : classContext w h p with
  | none => simp
  | some c' =>
    simp only [Option.some.injEq]
    cases hf : ((fromHere w h n).filter (usable h)).getLast? with
    | some d =>
      simp only [reduceCtorEq, false_iff]
      rintro ⟨_, _, h3, _⟩
      rw [(hl _ _).2 h3] at hf
      cases hf
    | none =>
      have hf' := (hl _ _).1 hf
      have himp : imports w h c' = true ↔ ∃ k, h.cls = some k ∧ c' ∈ w.chain k := by
        unfold imports
        cases h.cls <;> simp
      by_cases hi : imports w h c' = true
      · rw [if_pos hi, hd]
        constructor
        · rintro ⟨rfl, hu⟩; exact ⟨rfl, hu, hf', Or.inl (himp.1 hi)⟩
        · rintro ⟨rfl, hu, _⟩; exact ⟨rfl, hu⟩
      · rw [if_neg hi]
        cases hg : ((fromClass w c' n).filter usable').getLast? with
        | some d =>
          have : checkAccess h d ≠ .declares c := by
            unfold checkAccess
            split <;> (try split) <;> simp
          constructor
          · intro he; exact absurd he this
          · rintro ⟨rfl, _, _, h4⟩
            rcases h4 with h4 | h4
            · exact absurd (himp.2 h4) hi
            · rw [(hl _ _).2 h4] at hg; cases hg
        | none =>
          rw [hd]
          constructor
          · rintro ⟨rfl, hu⟩; exact ⟨rfl, hu, hf', Or.inr ((hl _ _).1 hg)⟩
          · rintro ⟨rfl, hu, _⟩; exact ⟨rfl, hu⟩

/-- **C75.**  A property is declared in the class exactly if all the code finds of the name are functions, or private members of other classes, and (unless the code stands in the class or a
subclass) the class finds nothing but functions; and the file declares no property of that name further on. -/
theorem declares_iff (w : World) (h : Place) (p n : QString) (c : Nat) :
    assignMember w h p n = .declares c ↔
      classContext w h p = some c ∧ n ∉ w.upcoming ∧ (∀ d, CodeSees w h n d → d.Stands → d.Foreign h) ∧
      ((∃ k, h.cls = some k ∧ c ∈ w.chain k) ∨ ∀ d, ClassSees w c n d → ¬ d.Stands) := by
  rw [declares_iff']
  simp only [mem_fromHere, mem_fromClass, usable_iff, usable'_iff]

/-- **C75.**  `$this->x = …` takes the property of the class itself whatever its access, and an inherited one unless it is private, where no variable or parameter of the name hides it; a
private one of a base class is not taken. -/
theorem this_takes (w : World) (hw : w.Ok) (h : Place) (n : QString) (c k : Nat) (d : Dec) (hc : h.cls = some c)
    (hl : (∀ d ∈ h.locals, d.name ≠ n) ∧ (∀ d ∈ h.params, d.name ≠ n)) (hk : Nearest w n (w.chain c) k) (hd : OneProperty w k n d) :
    (k = c ∨ (∀ b, d.member ≠ some (.priv, b)) → assignMember w h (q! "this") n = .takes d d.isNull) ∧
    (k ≠ c → (∃ b, d.member = some (.priv, b)) → n ∉ w.upcoming → assignMember w h (q! "this") n = .declares c) := by
  obtain ⟨m, hm⟩ := filter_one hd
  obtain ⟨a, ha⟩ := hd.owner
  have hcc : classContext w h (q! "this") = some c := by simp [classContext, hc]
  have hfh : fromHere w h n = List.replicate (m + 1) d := by
    unfold fromHere
    rw [hc, List.append_assoc, List.cons_append, List.cons_append, List.nil_append, firstNonEmpty_skip hl.1, firstNonEmpty_skip hl.2,
      firstNonEmpty_nearest hk, hm]
  constructor
  · intro hx
    have hu : usable h d = true := by
      unfold usable
      rw [ha, hd.prop.1, hd.prop.2, hc]
      rcases hx with rfl | hx
      · cases a <;> simp
      · cases a with
        | priv => exact absurd ha (hx k)
        | _ => simp
    unfold assignMember
    rw [hcc]
    simp only [hfh, getLast_replicate_filter hu]
  · intro hne ⟨b, hb⟩ hup
    rw [declares_iff']
    refine ⟨hcc, hup, ?_, Or.inl ⟨c, hc, ?_⟩⟩
    · intro e he
      rw [hfh] at he
      rw [List.mem_replicate] at he
      rw [he.2]
      rw [hb] at ha
      simp only [Option.some.injEq, Prod.mk.injEq] at ha
      have : (h.cls == some b) = false := by rw [hc, ha.2]; simpa using Ne.symm hne
      simp [usable, hb, this]
    · obtain ⟨cs, hs⟩ := hw.self c
      rw [hs]; simp

/-- **C75.**  `$p->x` of an object whose class is not known is left alone: outside of classes `$this`, and a variable of a name that no global variable of class type has. -/
theorem unknown_object (w : World) (h : Place) (p n : QString)
    (hp : (p = q! "this" ∧ h.cls = none) ∨ (p ≠ q! "this" ∧ ∀ o ∈ w.top p, o = none)) : assignMember w h p n = .nothing := by
  have : classContext w h p = none := by
    unfold classContext
    rcases hp with ⟨rfl, hc⟩ | ⟨hp, ht⟩
    · simp [hc]
    · have : (p == q! "this") = false := by simpa using hp
      rw [this]
      simp only [Bool.false_eq_true, if_false, List.findSome?_eq_none_iff]
      intro o ho; exact ht o ho
  simp [assignMember, this]

/-! ### Examples and findings -/

def dec (n : QString) (a : Access) (c : Nat) : Dec := ⟨n, true, some (a, c), false, false⟩
def vdec (n : QString) : Dec := ⟨n, true, none, true, false⟩

/-- Class 1 with a private `p`, a protected `q`, a public `r`; class 2 extends it and has a private `s`; class 3 has a public `p`.  The global variable `$o` is of
class 1. -/
def exW : World where
  chain c := if c = 2 then [2, 1] else [c]
  own c := if c = 1 then [dec (q! "p") .priv 1, dec (q! "q") .prot 1, dec (q! "r") .pub 1] else if c = 2 then [dec (q! "s") .priv 2]
    else if c = 3 then [dec (q! "p") .pub 3] else []
  around _ := []
  top p := if p = q! "o" then [none, some 1] else []
  upcoming := [q! "u"]

theorem exW_ok : exW.Ok where
  self c := by by_cases h : c = 2 <;> simp [exW, h]
  owner k d hd := by
    by_cases h1 : k = 1
    · subst h1; simp [exW, dec] at hd; rcases hd with rfl | rfl | rfl <;> simp
    · by_cases h2 : k = 2
      · subst h2; simp [exW, dec] at hd; subst hd; simp
      · by_cases h3 : k = 3
        · subst h3; simp [exW, dec] at hd; subst hd; simp
        · simp [exW, h1, h2, h3] at hd

def atTop : Place := ⟨[], [], none, []⟩
def inClass (c : Nat) : Place := ⟨[], [], some c, []⟩

example : assignMember exW atTop (q! "o") (q! "p") = .privateError (dec (q! "p") .priv 1) ∧
    assignMember exW atTop (q! "o") (q! "q") = .protectedError (dec (q! "q") .prot 1) ∧
    assignMember exW atTop (q! "o") (q! "r") = .takes (dec (q! "r") .pub 1) false ∧
    assignMember exW atTop (q! "o") (q! "x") = .declares 1 ∧ assignMember exW atTop (q! "o") (q! "u") = .nothing := by decide +kernel
example : assignMember exW (inClass 2) (q! "this") (q! "q") = .takes (dec (q! "q") .prot 1) false ∧
    assignMember exW (inClass 2) (q! "this") (q! "p") = .declares 2 ∧
    assignMember exW (inClass 1) (q! "this") (q! "p") = .takes (dec (q! "p") .priv 1) false := by decide +kernel
example : NothingHere exW atTop (q! "p") ∧ Nearest exW (q! "p") (exW.chain 2) 1 ∧ OneProperty exW 1 (q! "p") (dec (q! "p") .priv 1) := by
  refine ⟨⟨by simp [atTop], by simp [atTop], by simp [atTop], by simp [atTop]⟩, ?_, ⟨by decide, rfl, by decide +kernel, by decide, ⟨_, rfl⟩⟩⟩
  refine .there (by decide +kernel) (.here (by decide +kernel))

/-- Finding: the property is looked up from the code first, not from the object.  With a variable `$p` in sight nothing is reported for the private `$o->p`; if that variable is `null`, it gets the
type of the value. -/
theorem local_variable_taken :
    assignMember exW { atTop with locals := [vdec (q! "p")] } (q! "o") (q! "p") = .takes (vdec (q! "p")) true := by decide +kernel

/-- Finding: nothing is reported for a private property of another class in a class with a property of that name. -/
theorem other_class_taken :
    assignMember exW (inClass 3) (q! "o") (q! "p") = .takes (dec (q! "p") .pub 3) false := by decide +kernel

/-- Finding: in a subclass, the private property of an object of the base class is not reported; a second, public one is declared in the base class. -/
theorem subclass_redeclares : assignMember exW (inClass 2) (q! "o") (q! "p") = .declares 1 := by decide +kernel

/-- Finding: the class of `$p` is the one of the *global* variable of that name: the result is the same whatever variables the function has (but for one of the name of
the property). -/
theorem local_object_ignored (w : World) (h h' : Place) (p n : QString) (hc : h'.cls = h.cls)
    (hf : fromHere w h' n = fromHere w h n) : assignMember w h' p n = assignMember w h p n := by
  have hu : usable h' = usable h := by funext d; simp [usable, hc]
  have hi : ∀ c, imports w h' c = imports w h c := by intro c; simp [imports, hc]
  have ha : ∀ d, checkAccess h' d = checkAccess h d := by intro d; simp [checkAccess, hc]
  simp only [assignMember, classContext, hc, hf, hu, hi, ha]

end KPhp.MemberAssign
