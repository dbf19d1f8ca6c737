/-!
# Class inheritance graph (C29)

Models `ContextBuilder::addBaseType` (duchain/builders/contextbuilder.cpp:429-458), the opening of class
declarations and contexts by the first pass (duchain/builders/predeclarationbuilder.cpp:34-139,
duchain/builders/contextbuilder.cpp:244-274) and the search for redeclared base methods
`DeclarationBuilder::isBaseMethodRedeclaration` (duchain/builders/declarationbuilder.cpp:237-288).

Taken from KDevPlatform (not in this repository):
* `DUContext::imports(other)` is true iff `other` is the context itself or is reachable over imports
  (it searches with a recursion guard, so it answers on every graph);
* a base class is stored by its type, i.e. by its qualified name, and resolved when it is needed;
  an import is stored by context identity;
* opening a context either reuses the old context, whose imports are cleared, or creates a new one;
  in the latter case the old context is deleted, and with it the imports of it.
-/
namespace KPhp.Inheritance

/-- A class, interface or trait, identified by its qualified name (declaration id). -/
abbrev ClassId := Nat
/-- The identity of a `DUContext` of type `Class`. -/
abbrev Ctx := Nat

/-- `ClassDeclarationData::ClassType` as set in predeclarationbuilder.cpp:45,86,116. -/
inductive CType | Class | Interface | Trait
deriving DecidableEq, Repr

/-- The part of a `ClassDeclaration` used by inheritance: its kind, its base classes
(`baseClasses()`), its internal context. -/
structure ClassInfo where
  ctype : CType
  bases : List ClassId
  ctx : Option Ctx
deriving Repr

/-- The duchain: the classes and the imports of every class context (`importedParentContexts()`). -/
structure St where
  cls : ClassId → ClassInfo
  imp : Ctx → List Ctx

/-- Nothing parsed yet. -/
def St.empty : St := ⟨fun _ => ⟨.Class, [], none⟩, fun _ => []⟩

/-- `DUContext::imports` (KDevPlatform): reflexive and transitive. -/
inductive Imports (g : Ctx → List Ctx) : Ctx → Ctx → Prop
  | refl (x : Ctx) : Imports g x x
  | step {x y z : Ctx} : y ∈ g x → Imports g y z → Imports g x z

/-- What `addBaseType` tells the user and the parse job. -/
inductive Outcome
  /-- import and base class added -/
  | added
  /-- "Circular inheritance of %1 and %2" -/
  | circularError
  /-- neither added nor reported -/
  | silent
  /-- `m_hadUnresolvedIdentifiers = true` -/
  | unresolved
deriving DecidableEq, Repr

/-- predeclarationbuilder.cpp:34-139 with contextbuilder.cpp:244-274: the class `c` is (re)declared, its base
classes are cleared, and its context `x` is opened: the old context of the class if it is reused, else a new
one; then the old context is deleted. -/
def declareClass (s : St) (c : ClassId) (k : CType) (x : Ctx) : St :=
  let old := (s.cls c).ctx
  let dead : Ctx → Bool := fun y => old == some y && y != x
  { cls := fun d => if d = c then ⟨k, [], some x⟩ else s.cls d
    imp := fun y => if y = x then [] else if dead y then [] else (s.imp y).filter (fun z => !dead z) }

open Classical in
/-- contextbuilder.cpp:429-458 `addBaseType`: in the class `c`; `found` is the class found for the written
name, `report` is `m_reportErrors`. -/
noncomputable def addBaseType (report : Bool) (s : St) (c : ClassId) (found : Option ClassId) : St × Outcome :=
  match found with
  | none => (s, .unresolved)                                                         -- :454-457
  | some b =>
    match (s.cls c).ctx, (s.cls b).ctx with
    | some cur, some base =>                                                          -- :440-441
      if ¬ Imports s.imp base cur ∧ ¬ Imports s.imp cur base then                     -- :443
        ({ cls := fun d => if d = c then { s.cls c with bases := (s.cls c).bases ++ [b] } else s.cls d
           imp := fun y => if y = cur then s.imp cur ++ [base] else s.imp y }, .added) -- :444-449
      else if report ∧ (s.cls b).ctype ≠ .Interface then (s, .circularError)          -- :450-452
      else (s, .silent)
    | _, _ => (s, .silent)

/-- What the builders do to the graph. -/
inductive Op
  | declare (c : ClassId) (k : CType) (x : Ctx)
  | base (c : ClassId) (found : Option ClassId)

/-- One builder action. -/
noncomputable def apply (report : Bool) (s : St) : Op → St
  | .declare c k x => declareClass s c k x
  | .base c f => (addBaseType report s c f).1

/-- Any history of builder actions, over any number of files and re-parses. -/
noncomputable def run (report : Bool) (ops : List Op) : St := ops.foldl (apply report) .empty

/-! ### Specification -/

/-- A walk of at least one step from `x` to `y`. -/
inductive Path {α : Type} (r : α → α → Prop) : α → α → Prop
  | single {x y : α} : r x y → Path r x y
  | cons {x y z : α} : r x y → Path r y z → Path r x z

/-- `x` directly imports `y`. -/
def St.Direct (s : St) (x y : Ctx) : Prop := y ∈ s.imp x
/-- `c` lists `b` as base class. -/
def St.Base (s : St) (c b : ClassId) : Prop := b ∈ (s.cls c).bases

/-- The history never replaces the context of a class by another one, nor gives the context of a class to
another class. -/
def Stable (report : Bool) : List Op → Prop
  | ops => ∀ pre c k x post, ops = pre ++ .declare c k x :: post →
      ((run report pre).cls c).ctx ∈ [none, some x] ∧
      ∀ d, ((run report pre).cls d).ctx = some x → d = c

/-! ### Acyclicity -/

/-- The relation decreases some rank. -/
def Ranked {α : Type} (r : α → α → Prop) : Prop := ∃ rank : α → Nat, ∀ x y, r x y → rank y < rank x

theorem Ranked.acyclic {α : Type} {r : α → α → Prop} (h : Ranked r) (x : α) : ¬ Path r x x := by
  obtain ⟨rank, hr⟩ := h
  have key : ∀ x y, Path r x y → rank y < rank x := by
    intro x y p
    induction p with
    | single h => exact hr _ _ h
    | cons h _ ih => exact Nat.lt_trans ih (hr _ _ h)
  intro p
  exact Nat.lt_irrefl _ (key x x p)

theorem Ranked.mono {α : Type} {r r' : α → α → Prop} (h : Ranked r) (hs : ∀ x y, r' x y → r x y) : Ranked r' := by
  obtain ⟨rank, hr⟩ := h
  exact ⟨rank, fun x y h => hr x y (hs x y h)⟩

open Classical in
/-- Adding an edge `c → b` where `b` does not reach `c` keeps a ranking. -/
theorem Ranked.addEdge {g : Ctx → List Ctx} {cur base : Ctx} (h : Ranked (fun x y => y ∈ g x))
    (hn : ¬ Imports g base cur) :
    Ranked (fun x y => y ∈ (if x = cur then g cur ++ [base] else g x)) := by
  obtain ⟨rank, hr⟩ := h
  refine ⟨fun x => if Imports g x cur then rank x + rank base + 1 else rank x, ?_⟩
  intro x y hxy
  have old : y ∈ g x → (if Imports g y cur then rank y + rank base + 1 else rank y) <
      (if Imports g x cur then rank x + rank base + 1 else rank x) := by
    intro hm
    have := hr x y hm
    by_cases hy : Imports g y cur
    · have hx : Imports g x cur := .step hm hy
      simp only [hx, hy, if_true]; omega
    · simp only [hy, if_false]
      split <;> omega
  by_cases hx : x = cur
  · subst hx
    simp only [if_true, List.mem_append, List.mem_singleton] at hxy
    rcases hxy with hxy | hxy
    · exact old hxy
    · subst hxy
      have hc : Imports g x x := .refl x
      simp only [hc, hn, if_true, if_false]; omega
  · simp only [hx, if_false] at hxy
    exact old hxy

theorem ranked_apply (report : Bool) (s : St) (o : Op) (h : Ranked s.Direct) :
    Ranked (apply report s o).Direct := by
  cases o with
  | declare c k x =>
    refine h.mono ?_
    intro y z hz
    simp only [St.Direct, apply, declareClass] at hz ⊢
    split at hz
    · simp at hz
    · split at hz
      · simp at hz
      · exact (List.mem_filter.1 hz).1
  | base c f =>
    simp only [apply]
    unfold addBaseType
    split
    · exact h
    · rename_i b
      split
      · rename_i cur base _ _
        split
        · rename_i hc
          exact Ranked.addEdge h hc.1
        · split <;> exact h
      · exact h

theorem run_append (report : Bool) (a b : List Op) :
    run report (a ++ b) = b.foldl (apply report) (run report a) := by
  simp [run, List.foldl_append]

theorem run_snoc (report : Bool) (a : List Op) (o : Op) :
    run report (a ++ [o]) = apply report (run report a) o := by
  simp [run_append]

theorem snocInd {α : Type} {P : List α → Prop} (nil : P []) (snoc : ∀ l x, P l → P (l ++ [x])) (l : List α) : P l := by
  have : ∀ n (l : List α), l.length = n → P l := by
    intro n
    induction n with
    | zero => intro l h; rw [List.length_eq_zero_iff.1 h]; exact nil
    | succ n ih =>
      intro l h
      have hne : l ≠ [] := by intro hh; simp [hh] at h
      rw [← List.dropLast_concat_getLast hne]
      apply snoc
      apply ih
      simp [h]
  exact this _ l rfl

theorem ranked_run (report : Bool) (ops : List Op) : Ranked (run report ops).Direct := by
  induction ops using snocInd with
  | nil => exact ⟨fun _ => 0, fun x y h => by simp [St.Direct, run, St.empty] at h⟩
  | snoc l o ih => rw [run_snoc]; exact ranked_apply _ _ _ ih

/-- **C29.** Whatever classes declare as their base classes, in whatever order and over any number of
re-parses, no class context imports itself directly or indirectly. -/
theorem imports_acyclic (report : Bool) (ops : List Op) (x : Ctx) : ¬ Path (run report ops).Direct x x :=
  (ranked_run report ops).acyclic x

/-! ### The base class lists -/

/-- Every base class of a class is directly imported by its context. -/
structure BasesImported (s : St) : Prop where
  inj : ∀ c d x, (s.cls c).ctx = some x → (s.cls d).ctx = some x → c = d
  imp : ∀ c b, s.Base c b → ∃ x y, (s.cls c).ctx = some x ∧ (s.cls b).ctx = some y ∧ s.Direct x y

theorem Stable.prefix {report : Bool} {l : List Op} {o : Op} (h : Stable report (l ++ [o])) : Stable report l := by
  intro pre c k x post he
  exact h pre c k x (post ++ [o]) (by simp [he])

theorem basesImported_run (report : Bool) (ops : List Op) (hs : Stable report ops) :
    BasesImported (run report ops) := by
  induction ops using snocInd with
  | nil => exact ⟨fun c d x h => by simp [run, St.empty] at h, fun c b h => by simp [run, St.empty, St.Base] at h⟩
  | snoc l o ih =>
    have ih := ih hs.prefix
    rw [run_snoc]
    generalize hsr : run report l = s at ih
    cases o with
    | declare c k x =>
      obtain ⟨hold, hown⟩ := hs l c k x [] rfl
      rw [hsr] at hold hown
      constructor
      · intro a d y ha hd
        simp only [apply, declareClass] at ha hd
        by_cases hac : a = c <;> by_cases hdc : d = c
        · rw [hac, hdc]
        · simp only [hac, hdc, if_true, if_false, Option.some.injEq] at ha hd
          exact absurd (hown d (by rw [hd, ha])) hdc
        · simp only [hac, hdc, if_true, if_false, Option.some.injEq] at ha hd
          exact absurd (hown a (by rw [ha, hd])) hac
        · simp only [hac, hdc, if_false] at ha hd
          exact ih.inj a d y ha hd
      · intro a b hab
        simp only [apply, declareClass, St.Base] at hab
        by_cases hac : a = c
        · simp [hac] at hab
        · simp only [hac, if_false] at hab
          obtain ⟨xa, yb, h1, h2, h3⟩ := ih.imp a b hab
          have hxa : xa ≠ x := fun hh => hac (hown a (by rw [h1, hh]))
          have hdead : ∀ y, ((s.cls c).ctx == some y && y != x) = false := by
            intro y
            simp only [List.mem_cons, List.not_mem_nil, or_false] at hold
            rcases hold with h | h
            · rw [h]; rfl
            · rw [h]
              by_cases hy : y = x
              · simp [hy]
              · have : (some x == some y) = false := by simp; exact fun h => hy h.symm
                rw [this]; rfl
          refine ⟨xa, yb, ?_, ?_, ?_⟩
          · simp only [apply, declareClass, hac, if_false]; exact h1
          · simp only [apply, declareClass]
            by_cases hbc : b = c
            · simp only [hbc, if_true]
              rw [hbc] at h2
              rw [h2] at hold
              simp at hold
              rw [hold]
            · simp only [hbc, if_false]; exact h2
          · simp only [apply, declareClass, St.Direct, hxa, if_false]
            rw [hdead]
            simp only [Bool.false_eq_true, if_false]
            exact List.mem_filter.2 ⟨h3, by rw [hdead]; rfl⟩
    | base c f =>
      simp only [apply]
      unfold addBaseType
      split
      · exact ih
      · rename_i b
        split
        · rename_i cur bctx hcur hb
          split
          · have hctx : ∀ d, ((if d = c then { s.cls c with bases := (s.cls c).bases ++ [b] } else s.cls d) :
                ClassInfo).ctx = (s.cls d).ctx := by
              intro d; split
              · rename_i h; rw [h]
              · rfl
            constructor
            · intro a d x ha hd
              simp only [hctx] at ha hd
              exact ih.inj a d x ha hd
            · intro a e hae
              have mono : ∀ y z, z ∈ s.imp y → z ∈ (if y = cur then s.imp cur ++ [bctx] else s.imp y) := by
                intro y z hz
                split
                · rename_i h; subst h; simp [hz]
                · exact hz
              simp only [St.Base] at hae
              by_cases hac : a = c
              · simp only [hac, if_true, List.mem_append, List.mem_singleton] at hae
                rcases hae with hae | hae
                · obtain ⟨x, y, h1, h2, h3⟩ := ih.imp c e hae
                  exact ⟨x, y, by simp only [hctx, hac]; exact h1, by simp only [hctx]; exact h2, mono _ _ h3⟩
                · refine ⟨cur, bctx, by simp only [hctx, hac]; exact hcur, by simp only [hctx, hae]; exact hb, ?_⟩
                  simp [St.Direct]
              · simp only [hac, if_false] at hae
                obtain ⟨x, y, h1, h2, h3⟩ := ih.imp a e hae
                exact ⟨x, y, by simp only [hctx]; exact h1, by simp only [hctx]; exact h2, mono _ _ h3⟩
          · split <;> exact ih
        · exact ih

theorem BasesImported.ranked {s : St} (h : BasesImported s) (hr : Ranked s.Direct) : Ranked s.Base := by
  obtain ⟨rank, hr⟩ := hr
  refine ⟨fun c => match (s.cls c).ctx with | some x => rank x | none => 0, ?_⟩
  intro c b hcb
  obtain ⟨x, y, h1, h2, h3⟩ := h.imp c b hcb
  simp only [h1, h2]
  exact hr x y h3

/-- **C29.** As long as the contexts of classes are kept over re-parses, no class is its own base class,
directly or indirectly. -/
theorem bases_acyclic (report : Bool) (ops : List Op) (hs : Stable report ops) (c : ClassId) :
    ¬ Path (run report ops).Base c c :=
  ((basesImported_run report ops hs).ranked (ranked_run report ops)).acyclic c

/-! ### What one `extends`/`implements` does -/

theorem Imports.mono {g g' : Ctx → List Ctx} (hs : ∀ x y, y ∈ g x → y ∈ g' x) {x y : Ctx} (h : Imports g x y) :
    Imports g' x y := by
  induction h with
  | refl => exact .refl _
  | step h _ ih => exact .step (hs _ _ h) ih

/-- After `class c extends b` either `b` is an ancestor of `c`, or `c` is an ancestor of `b` and nothing
has changed. -/
theorem base_is_ancestor (report : Bool) (s : St) (c b : ClassId) (x y : Ctx)
    (hx : (s.cls c).ctx = some x) (hy : (s.cls b).ctx = some y) :
    Imports (addBaseType report s c (some b)).1.imp x y ∨
    (Imports s.imp y x ∧ (addBaseType report s c (some b)).1 = s) := by
  unfold addBaseType
  simp only [hx, hy]
  split
  · left
    exact .step (y := y) (by simp) (.refl y)
  · rename_i h
    have h' : Imports s.imp y x ∨ Imports s.imp x y := by
      apply Classical.byContradiction; intro hh
      exact h ⟨fun h1 => hh (.inl h1), fun h2 => hh (.inr h2)⟩
    rcases h' with h' | h'
    · right; split <;> exact ⟨h', rfl⟩
    · left; split <;> exact h'

/-- "Circular inheritance" is reported iff errors are wanted, the base is not an interface, and one of the two
classes already has the other as ancestor (or they are the same). -/
theorem circular_reported_iff (report : Bool) (s : St) (c b : ClassId) (x y : Ctx)
    (hx : (s.cls c).ctx = some x) (hy : (s.cls b).ctx = some y) :
    (addBaseType report s c (some b)).2 = .circularError ↔
      report = true ∧ (s.cls b).ctype ≠ .Interface ∧ (Imports s.imp y x ∨ Imports s.imp x y) := by
  unfold addBaseType
  simp only [hx, hy]
  by_cases h : ¬ Imports s.imp y x ∧ ¬ Imports s.imp x y
  · rw [if_pos h]
    simp only [reduceCtorEq, false_iff, not_and]
    rintro - - (h' | h')
    · exact h.1 h'
    · exact h.2 h'
  · rw [if_neg h]
    have h' : Imports s.imp y x ∨ Imports s.imp x y := by
      apply Classical.byContradiction; intro hh
      exact h ⟨fun h1 => hh (.inl h1), fun h2 => hh (.inr h2)⟩
    by_cases h2 : report = true ∧ (s.cls b).ctype ≠ .Interface
    · rw [if_pos h2]; simp [h2, h']
    · rw [if_neg h2]
      simp only [reduceCtorEq, false_iff, not_and]
      intro h3 h4; exact absurd ⟨h3, h4⟩ h2

/-! ### Redeclared base methods -/

/-- What `isBaseMethodRedeclaration` needs from a method of a base class. -/
structure Method where
  name : Nat
  /-- `wasEncountered(func)` and the declaration is a `ClassMethodDeclaration` -/
  encountered : Bool
  isFinal : Bool
  isAbstract : Bool
deriving DecidableEq, Repr

/-- declarationbuilder.cpp:243-256: the first base class that is a class (base classes that do not resolve
have no `ctx` and no kind; they are not modelled). -/
def nextClass (s : St) (c : ClassId) : Option ClassId :=
  (s.cls c).bases.find? (fun b => (s.cls b).ctype == .Class)

/-- declarationbuilder.cpp:265-281: a method that may not be redeclared. -/
def forbids (name : Nat) (newAbstract : Bool) (m : Method) : Bool :=
  m.name == name && m.encountered && (m.isFinal || (m.isAbstract && newAbstract))

/-- declarationbuilder.cpp:237-288 `isBaseMethodRedeclaration`; one unit of fuel per round of the `while`
loop, `none` when the fuel runs out.  `methods` are the local methods of a class. -/
def isBaseMethodRedeclaration (s : St) (methods : ClassId → List Method) (name : Nat) (newAbstract : Bool) :
    Nat → ClassId → Option Bool
  | 0, _ => none
  | n + 1, c =>
    match nextClass s c with
    | none => some false                                                              -- :241, :257-259
    | some b =>
      if (s.cls b).ctx = none then isBaseMethodRedeclaration s methods name newAbstract n b  -- :261-263
      else if (methods b).any (forbids name newAbstract) then some true                -- :264-282
      else isBaseMethodRedeclaration s methods name newAbstract n b

/-- `b` is the parent class of `c` that PHP would use: the first base that is a class. -/
def Parent (s : St) (c b : ClassId) : Prop := nextClass s c = some b

theorem Parent.base {s : St} {c b : ClassId} (h : Parent s c b) : s.Base c b :=
  List.mem_of_find?_eq_some h

/-- **C29.** As long as contexts are kept, the search for redeclared base methods ends, and it reports iff some
proper ancestor class has a final method of that name, or an abstract one while the new one is abstract. -/
theorem base_method_search (report : Bool) (ops : List Op) (hs : Stable report ops)
    (methods : ClassId → List Method) (name : Nat) (newAbstract : Bool) (c : ClassId) :
    ∃ n r, (∀ m, n ≤ m → isBaseMethodRedeclaration (run report ops) methods name newAbstract m c = some r) ∧
      (r = true ↔ ∃ b m, Path (Parent (run report ops)) c b ∧ m ∈ methods b ∧ m.name = name ∧ m.encountered = true ∧
        (m.isFinal = true ∨ (m.isAbstract = true ∧ newAbstract = true))) := by
  have hB := basesImported_run report ops hs
  obtain ⟨rank, hr⟩ := hB.ranked (ranked_run report ops)
  generalize run report ops = s at *
  have : ∀ k c, rank c ≤ k → ∃ n r, (∀ m, n ≤ m → isBaseMethodRedeclaration s methods name newAbstract m c = some r) ∧
      (r = true ↔ ∃ b m, Path (Parent s) c b ∧ m ∈ methods b ∧ m.name = name ∧ m.encountered = true ∧
        (m.isFinal = true ∨ (m.isAbstract = true ∧ newAbstract = true))) := by
    intro k
    induction k with
    | zero =>
      intro c hc
      refine ⟨1, false, ?_, ?_⟩
      · intro m hm
        obtain ⟨m, rfl⟩ : ∃ j, m = j + 1 := ⟨m - 1, by omega⟩
        have : nextClass s c = none := by
          cases h : nextClass s c with
          | none => rfl
          | some b => have := hr c b (Parent.base h); omega
        simp [isBaseMethodRedeclaration, this]
      · simp only [Bool.false_eq_true, false_iff]
        rintro ⟨b, m, hp, -⟩
        cases hp with
        | single h => have := hr _ _ (Parent.base h); omega
        | cons h _ => have := hr _ _ (Parent.base h); omega
    | succ k ih =>
      intro c hc
      cases h : nextClass s c with
      | none =>
        refine ⟨1, false, ?_, ?_⟩
        · intro m hm
          obtain ⟨m, rfl⟩ : ∃ j, m = j + 1 := ⟨m - 1, by omega⟩
          simp [isBaseMethodRedeclaration, h]
        · simp only [Bool.false_eq_true, false_iff]
          rintro ⟨b, m, hp, -⟩
          cases hp with
          | single h' => rw [Parent, h] at h'; simp at h'
          | cons h' _ => rw [Parent, h] at h'; simp at h'
      | some b =>
        obtain ⟨x, y, -, hby, -⟩ := hB.imp c b (Parent.base h)
        have hlt := hr c b (Parent.base h)
        obtain ⟨n, r, h1, h2⟩ := ih b (by omega)
        by_cases hany : (methods b).any (forbids name newAbstract) = true
        · refine ⟨1, true, ?_, ?_⟩
          · intro m hm
            obtain ⟨m, rfl⟩ : ∃ j, m = j + 1 := ⟨m - 1, by omega⟩
            simp [isBaseMethodRedeclaration, h, hby, hany]
          · simp only [true_iff]
            obtain ⟨m, hm, hf⟩ := List.any_eq_true.1 hany
            simp only [forbids, Bool.and_eq_true, Bool.or_eq_true, beq_iff_eq] at hf
            exact ⟨b, m, .single h, hm, hf.1.1, hf.1.2, hf.2⟩
        · refine ⟨n + 1, r, ?_, ?_⟩
          · intro m hm
            obtain ⟨m, rfl⟩ : ∃ j, m = j + 1 := ⟨m - 1, by omega⟩
            simp only [isBaseMethodRedeclaration, h, hby]
            rw [if_neg (by simp), if_neg hany]
            exact h1 m (by omega)
          · rw [h2]
            constructor
            · rintro ⟨d, m, hp, hrest⟩; exact ⟨d, m, .cons h hp, hrest⟩
            · rintro ⟨d, m, hp, hm, hn, he, hf⟩
              cases hp with
              | single h' =>
                rw [Parent, h] at h'
                simp only [Option.some.injEq] at h'
                subst h'
                exfalso; apply hany
                refine List.any_eq_true.2 ⟨m, hm, ?_⟩
                simp [forbids, hn, he, hf]
              | cons h' hp =>
                rw [Parent, h] at h'
                simp only [Option.some.injEq] at h'
                subst h'
                exact ⟨d, m, hp, hm, hn, he, hf⟩
  exact this _ c (Nat.le_refl _)

/-! ### Recreated contexts -/

/-- `class A extends B {}` in one file; then the file of `B` is removed and added again with
`class B extends A {}`, so that `B` gets a new context: both are accepted. -/
def recreated : List Op :=
  [.declare 1 .Class 11, .declare 0 .Class 10, .base 0 (some 1), .declare 1 .Class 21, .base 1 (some 0)]

theorem Imports.of_nil {g : Ctx → List Ctx} {x y : Ctx} (hx : g x = []) (h : Imports g x y) : x = y := by
  cases h with
  | refl => rfl
  | step h _ => rw [hx] at h; simp at h

/-- Computes the state before the last `base` operation of the concrete histories below. -/
theorem addBase_fresh (report : Bool) (s : St) (c b : ClassId) (x y : Ctx)
    (hx : (s.cls c).ctx = some x) (hy : (s.cls b).ctx = some y)
    (h1 : ¬ Imports s.imp y x) (h2 : ¬ Imports s.imp x y) :
    (addBaseType report s c (some b)).1 =
      { cls := fun d => if d = c then { s.cls c with bases := (s.cls c).bases ++ [b] } else s.cls d
        imp := fun z => if z = x then s.imp x ++ [y] else s.imp z } := by
  unfold addBaseType
  simp only [hx, hy]
  rw [if_pos ⟨h1, h2⟩]

/-- **C29, limit.** When a context is recreated while other classes name it as base, the base class lists can
form a cycle, and the search for redeclared methods does not end. -/
theorem base_cycle_after_recreation (report : Bool) :
    Path (run report recreated).Base 0 0 ∧
    ∀ n, isBaseMethodRedeclaration (run report recreated) (fun _ => []) 7 false n 1 = none := by
  have e2 : run report [.declare 1 .Class 11, .declare 0 .Class 10, .base 0 (some 1)] =
      { cls := fun d => if d = 0 then ⟨.Class, [1], some 10⟩ else if d = 1 then ⟨.Class, [], some 11⟩ else ⟨.Class, [], none⟩
        imp := fun z => if z = 10 then [11] else [] } := by
    rw [show [Op.declare 1 .Class 11, .declare 0 .Class 10, .base 0 (some 1)] =
      [Op.declare 1 .Class 11, .declare 0 .Class 10] ++ [.base 0 (some 1)] from rfl, run_snoc]
    show (addBaseType report _ 0 (some 1)).1 = _
    have i0 : ∀ x, (run report [Op.declare 1 .Class 11, .declare 0 .Class 10]).imp x = [] := by
      intro x
      simp [run, apply, declareClass, St.empty]
    rw [addBase_fresh report _ 0 1 10 11 rfl rfl
      (fun h => absurd (Imports.of_nil (i0 _) h) (by decide)) (fun h => absurd (Imports.of_nil (i0 _) h) (by decide))]
    congr 1
    · funext d
      by_cases h0 : d = 0
      · subst h0; rfl
      · by_cases h1 : d = 1
        · subst h1; rfl
        · simp [run, apply, declareClass, St.empty, h0, h1]
    · funext z
      by_cases hz : z = 10
      · subst hz; rw [i0]; rfl
      · simp [hz, i0]
  have e3 : run report recreated =
      { cls := fun d => if d = 1 then ⟨.Class, [0], some 21⟩ else if d = 0 then ⟨.Class, [1], some 10⟩ else ⟨.Class, [], none⟩
        imp := fun z => if z = 21 then [10] else [] } := by
    rw [show recreated = ([Op.declare 1 .Class 11, .declare 0 .Class 10, .base 0 (some 1)] ++ [.declare 1 .Class 21]) ++
      [.base 1 (some 0)] from rfl, run_snoc, run_snoc, e2]
    show (addBaseType report _ 1 (some 0)).1 = _
    generalize hs : apply report _ (Op.declare 1 .Class 21) = s
    have i0 : ∀ x, s.imp x = [] := by
      intro x
      rw [← hs]
      simp only [apply, declareClass]
      by_cases h1 : x = 21
      · simp [h1]
      · by_cases h2 : x = 10
        · subst h2; rfl
        · simp [h1, h2]
    have hc : s.cls = fun d => if d = 1 then ⟨.Class, [], some 21⟩ else if d = 0 then ⟨.Class, [1], some 10⟩ else ⟨.Class, [], none⟩ := by
      rw [← hs]
      funext d
      by_cases h1 : d = 1
      · simp [h1, apply, declareClass]
      · simp [h1, apply, declareClass]
    rw [addBase_fresh report s 1 0 21 10 (by rw [hc]; rfl) (by rw [hc]; rfl)
      (fun h => absurd (Imports.of_nil (i0 _) h) (by decide)) (fun h => absurd (Imports.of_nil (i0 _) h) (by decide))]
    congr 1
    · funext d
      by_cases h1 : d = 1
      · subst h1; simp [hc]
      · simp [hc, h1]
    · funext z
      by_cases hz : z = 21
      · subst hz; rw [i0]; rfl
      · simp [hz, i0]
  rw [e3]
  refine ⟨.cons (y := 1) (by simp [St.Base]) (.single (by simp [St.Base])), ?_⟩
  have : ∀ n, isBaseMethodRedeclaration
      { cls := fun d => if d = 1 then ⟨.Class, [0], some 21⟩ else if d = 0 then ⟨.Class, [1], some 10⟩ else ⟨.Class, [], none⟩
        imp := fun z => if z = 21 then [10] else [] } (fun _ => []) 7 false n 1 = none ∧
      isBaseMethodRedeclaration
      { cls := fun d => if d = 1 then ⟨.Class, [0], some 21⟩ else if d = 0 then ⟨.Class, [1], some 10⟩ else ⟨.Class, [], none⟩
        imp := fun z => if z = 21 then [10] else [] } (fun _ => []) 7 false n 0 = none := by
    intro n
    induction n with
    | zero => exact ⟨rfl, rfl⟩
    | succ n ih =>
      constructor
      · rw [isBaseMethodRedeclaration]
        exact ih.2
      · rw [isBaseMethodRedeclaration]
        exact ih.1
  exact fun n => (this n).1

/-! ### Concrete histories -/

/-- `class A extends B {}` and `class B extends A {}` in one file: the first is accepted, the second is reported. -/
def mutualExtends : List Op := [.declare 0 .Class 10, .declare 1 .Class 11, .base 0 (some 1), .base 1 (some 0)]

theorem mutual_stable (report : Bool) : Stable report mutualExtends := by
  intro pre c k x post he
  match pre, he with
  | [], he =>
    simp only [mutualExtends, List.nil_append, List.cons.injEq, Op.declare.injEq] at he
    obtain ⟨⟨rfl, rfl, rfl⟩, -⟩ := he
    exact ⟨by simp [run, St.empty], fun d h => by simp [run, St.empty] at h⟩
  | [_], he =>
    simp only [mutualExtends, List.cons_append, List.nil_append, List.cons.injEq, Op.declare.injEq] at he
    obtain ⟨rfl, ⟨rfl, rfl, rfl⟩, -⟩ := he
    refine ⟨by simp [run, apply, declareClass, St.empty], fun d h => ?_⟩
    simp only [run, apply, declareClass, St.empty, List.foldl_cons, List.foldl_nil] at h
    by_cases hd : d = 0 <;> simp [hd] at h
  | [_, _], he => simp [mutualExtends] at he
  | [_, _, _], he => simp [mutualExtends] at he
  | _ :: _ :: _ :: _ :: _, he => simp [mutualExtends] at he

example (c : ClassId) : ¬ Path (run true mutualExtends).Base c c := bases_acyclic _ _ (mutual_stable true) c

-- a self-inheriting class is reported
example (s : St) (h : (s.cls 3).ctx = some 5) (hk : (s.cls 3).ctype = .Class) :
    (addBaseType true s 3 (some 3)).2 = .circularError :=
  (circular_reported_iff true s 3 3 5 5 h h).2 ⟨rfl, by rw [hk]; decide, .inl (.refl _)⟩

-- an interface cycle is silently ignored
example (s : St) (h : (s.cls 3).ctx = some 5) (hk : (s.cls 3).ctype = .Interface) :
    (addBaseType true s 3 (some 3)).2 = .silent := by
  unfold addBaseType
  simp only [h]
  rw [if_neg (by intro hh; exact hh.1 (.refl _)), if_neg (by simp [hk])]

end KPhp.Inheritance
