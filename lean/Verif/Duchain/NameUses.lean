import Verif.Duchain.Names
/-!
# The uses of the parts of a name, and what is reported for them (C64)

Models `UseBuilder::buildNamespaceUses`, `newCheckedUse`, `visitUseNamespaceOrUseGroupedNamespace`, `visitInnerUseNamespace`
(duchain/builders/usebuilder.cpp:199-207, 225-262, 270-339) and `ExpressionVisitor::buildNamespaceUses` with the
use of the last part (duchain/expressionvisitor.cpp:971-982, 197-215), over the lookup of `Names.lean`.

Trusted platform behaviour: `newUse(node, declaration)` adds one use.  Simplified: a part of a name is given by its index; of a declaration,
only what the lookup reads, whether its comment contains `@deprecated`, and which written part it stands at are known.
-/
namespace KPhp.NameUses
open Names

/-- What is reported at a part of a name. -/
inductive Problem
  | deprecated (part : Nat)
  | notFound (part : Nat)
deriving DecidableEq, Repr

/-- The uses (part, declaration) and reports so far; `none` if a part was asked for that does not exist. -/
structure Out where
  uses : List (Nat × Option Decl)
  problems : List Problem
deriving DecidableEq, Repr

/-- What is known of the file besides the lookup. -/
structure File where
  env : Env
  /-- the comment contains `@deprecated` -/
  deprecated : Decl → Bool
  /-- the range of the declaration is the one of this part -/
  standsAt : Decl → Nat → Bool

/-- `newCheckedUse` (usebuilder.cpp:199-207). -/
def newCheckedUse (f : File) (part : Nat) (d : Option Decl) (reportNotFound : Bool) (o : Out) : Out :=
  { uses := o.uses ++ [(part, d)]
    problems := o.problems ++ (match d with
      | some d => if f.deprecated d then [.deprecated part] else []
      | none => if reportNotFound then [.notFound part] else []) }

/-- The first half of `buildNamespaceUses` (usebuilder.cpp:299-318): the name as it is taken from here on. -/
def choose (fm : Bool) (f : File) (ctx : List Scope) (id : QId) (ty : DeclType) : QId :=
  if (findDeclaration fm f.env ctx id ty).isSome then id
  else if (findDeclaration fm f.env ctx id .namespace).isSome then id
  else if id.global then id
  else if (findDeclaration fm f.env ctx { id with global := true } ty).isSome then { id with global := true }
  else if (findDeclaration fm f.env ctx { id with global := true } .namespace).isSome then { id with global := true }
  else id

/-- `!dec || dec->range() != editorFindRange(n, n)` (usebuilder.cpp:328). -/
def isUse (f : File) (part : Nat) : Option Decl → Bool
  | none => true
  | some d => !f.standsAt d part

/-- The loop over the parts before the last one (usebuilder.cpp:323-332) from the part `i` on, `n` of them; `cnt` is the number of written parts: asking for
another one (`namespaceNameSequence->at(i)`) is out of range. -/
def partsLoop (fm : Bool) (f : File) (ctx : List Scope) (id : QId) (pre cnt : Nat) : Nat → Nat → Out → Option Out
  | 0, _, o => some o
  | n + 1, i, o =>
    if i < pre then partsLoop fm f ctx id pre cnt n (i + 1) o
    else if cnt ≤ i then none
    else
      let dec := findDeclaration fm f.env ctx ⟨id.global, id.parts.take (i + 1)⟩ .namespace
      if isUse f i dec then
        partsLoop fm f ctx id pre cnt n (i + 1) (newCheckedUse f i dec true o)
      else partsLoop fm f ctx id pre cnt n (i + 1) o

/-- `buildNamespaceUses` (usebuilder.cpp:291-339): `pre` is the number of parts before a group, `cnt` that of the written parts. -/
def buildUses (fm : Bool) (f : File) (ctx : List Scope) (id : QId) (pre cnt : Nat) (ty : DeclType) : Option Out :=
  let id := choose fm f ctx id ty
  (partsLoop fm f ctx id pre cnt (id.parts.length - 1) 0 ⟨[], []⟩).map fun o =>
    newCheckedUse f (cnt - 1) (findDeclaration fm f.env ctx id ty) (ty = .klass ∨ ty = .constant ∨ ty = .function ∨ ty = .namespace) o

/-- `buildNamespaceUses(node, lastType)` (usebuilder.cpp:285-289): base classes, interfaces, traits, type hints, `catch`. -/
def nameUses (u : CharClass) (fm : Bool) (f : File) (ctx : List Scope) (n : NameAst) (ty : DeclType) : Option Out :=
  buildUses fm f ctx (identifierForNamespace u n (ty = .constant)) 0 n.names.length ty

/-- The kind of a `use` statement. -/
inductive UseKind
  | plain | function | const
deriving DecidableEq, Repr

/-- usebuilder.cpp:272-279, 243-250. -/
def UseKind.type : UseKind → DeclType
  | .plain => .namespace
  | .function => .function
  | .const => .constant

/-- `use A\B;` (usebuilder.cpp:235-238, 270-283). -/
def useUses (u : CharClass) (fm : Bool) (f : File) (ctx : List Scope) (n : NameAst) (k : UseKind) : Option Out :=
  buildUses fm f ctx (identifierForNamespace u n (k = .const)) 0 n.names.length k.type

/-- `use A\{…};`: the name before the group (usebuilder.cpp:227-234). -/
def groupUses (u : CharClass) (fm : Bool) (f : File) (ctx : List Scope) (n : NameAst) : Option Out :=
  buildUses fm f ctx (identifierForNamespace u n false) 0 n.names.length .namespace

/-- A name in a group (usebuilder.cpp:241-262). -/
def innerUses (u : CharClass) (fm : Bool) (f : File) (ctx : List Scope) (p : NameAst) (inner : List QString) (k : UseKind) : Option Out :=
  buildUses fm f ctx (identifierForGrouped u p inner (k = .const)) p.names.length inner.length k.type

/-! ### Specification -/

/-- A declaration of the kind is known under the full name: in the file or what it imports, or (not for variables) in another PHP file. -/
def Known (f : File) (ps : List QString) (ty : DeclType) : Prop :=
  ∃ l d, Candidates f.env ps ty l ∧ d ∈ l ∧ IsKind d ty

/-- The declaration is the one that the full name stands for. -/
def StandsFor (f : File) (ps : List QString) (ty : DeclType) (d : Decl) : Prop :=
  ∃ l, Candidates f.env ps ty l ∧ FirstOf l ty (some d)

/-- How the parts of a name are read: as PHP does (`here`), that is behind the namespace unless the name begins with `\`, or (`there`) as if it
began with `\`. -/
inductive Reading
  | here | there

/-- The name in a reading. -/
def Reading.id (id : QId) : Reading → QId
  | .here => id
  | .there => ⟨true, id.parts⟩

/-- Which reading is taken: the one of PHP, unless nothing is known under this name but something is under the other. -/
inductive Taken (f : File) (ctx : List Scope) (id : QId) (ty : DeclType) : Reading → Prop
  | known {ps : List QString} : Denotes ctx id ps → Known f ps ty ∨ Known f ps .namespace → Taken f ctx id ty .here
  | other {ps : List QString} : Denotes ctx id ps → ¬ Known f ps ty → ¬ Known f ps .namespace → Known f id.parts ty ∨ Known f id.parts .namespace →
      Taken f ctx id ty .there
  | unknown {ps : List QString} : Denotes ctx id ps → ¬ Known f ps ty → ¬ Known f ps .namespace → ¬ Known f id.parts ty → ¬ Known f id.parts .namespace →
      Taken f ctx id ty .here

/-- What a use of a name should be linked to: the declaration that the full name stands for, and nothing if nothing is known under it. -/
def UseOf (f : File) (ps : List QString) (ty : DeclType) : Option Decl → Prop
  | some d => StandsFor f ps ty d
  | none => ¬ Known f ps ty

/-- The use of a part of the name `id`: one before the last is the namespace (or class) named by the parts up to it, unless that very part is where this is
declared; the last part is what the whole name stands for. -/
inductive PartUse (f : File) (ctx : List Scope) (id : QId) (ty : DeclType) : Nat → Option Decl → Prop
  | before {j : Nat} {ps : List QString} {d : Option Decl} : j + 1 < id.parts.length → Denotes ctx ⟨id.global, id.parts.take (j + 1)⟩ ps →
      UseOf f ps .namespace d → (∀ d', d = some d' → f.standsAt d' j = false) → PartUse f ctx id ty j d
  | last {j : Nat} {ps : List QString} {d : Option Decl} : j + 1 = id.parts.length → Denotes ctx id ps → UseOf f ps ty d → PartUse f ctx id ty j d

/-- The part a report is about. -/
def Problem.part : Problem → Nat
  | .deprecated j => j
  | .notFound j => j

/-- The uses and reports are those of the parts of the name, at most one each, in order. -/
structure Right (f : File) (ctx : List Scope) (id : QId) (ty : DeclType) (o : Out) : Prop where
  uses : ∀ j d, (j, d) ∈ o.uses ↔ PartUse f ctx id ty j d
  order : o.uses.Pairwise (fun a b => a.1 < b.1)
  notFound : ∀ j, .notFound j ∈ o.problems ↔ (j, none) ∈ o.uses
  deprecated : ∀ j, .deprecated j ∈ o.problems ↔ ∃ d, (j, some d) ∈ o.uses ∧ f.deprecated d = true
  problemOrder : o.problems.Pairwise (fun a b => a.part < b.part)

/-! ### Proofs -/

theorem candidates_unique {env : Env} {ps : List QString} {ty : DeclType} {l l' : List Decl} (h : Candidates env ps ty l) (h' : Candidates env ps ty l') : l = l' := by
  cases h with
  | visible h =>
    cases h' with
    | visible _ => rfl
    | all _ h1 h2 _ => rcases h with h | h
                       · rw [h1] at h; cases h
                       · exact absurd h h2
  | all _ h1 h2 h3 =>
    cases h' with
    | visible h => rcases h with h | h
                   · rw [h1] at h; cases h
                   · exact absurd h h2
    | all _ _ _ h4 => rw [fromPhp_iff.mp h3, fromPhp_iff.mp h4]

/-- The lookup finds something exactly if something is known, and then what the name stands for. -/
theorem find_known {fm : Bool} {f : File} {ctx : List Scope} {id : QId} {ty : DeclType} {ps : List QString} (h : ty ≠ .klass ∨ ¬ selfLike id)
    (hp : Denotes ctx id ps) :
    ((findDeclaration fm f.env ctx id ty).isSome = true ↔ Known f ps ty) ∧
    ∀ d, findDeclaration fm f.env ctx id ty = some d ↔ StandsFor f ps ty d := by
  obtain ⟨l, hl⟩ := candidates_total f.env ps ty
  have hf := lookup_first fm f.env ctx id ty h ps l hp hl
  constructor
  · cases hr : findDeclaration fm f.env ctx id ty with
    | none =>
      rw [hr] at hf
      simp only [Option.isSome_none, Bool.false_eq_true, false_iff]
      rintro ⟨l', d, h1, h2, h3⟩
      rw [candidates_unique h1 hl] at h2
      exact hf d h2 h3
    | some d =>
      rw [hr] at hf
      obtain ⟨a, b, h1, h2, h3⟩ := hf
      simp only [Option.isSome_some, true_iff]
      exact ⟨l, d, hl, by rw [h1]; simp, h2⟩
  · intro d
    constructor
    · intro hr
      rw [hr] at hf
      exact ⟨l, hl, hf⟩
    · rintro ⟨l', h1, h2⟩
      rw [candidates_unique h1 hl] at h2
      cases hr : findDeclaration fm f.env ctx id ty with
      | none =>
        rw [hr] at hf
        obtain ⟨a, b, h3, h4, _⟩ := h2
        exact absurd h4 (hf d (by rw [h3]; simp))
      | some d' =>
        rw [hr] at hf
        obtain ⟨a, b, e1, k1, n1⟩ := hf
        obtain ⟨a', b', e2, k2, n2⟩ := h2
        rw [e1] at e2
        rcases List.append_eq_append_iff.mp e2 with ⟨c, hc1, hc2⟩ | ⟨c, hc1, hc2⟩
        · cases c with
          | nil => simp only [List.nil_append, List.cons.injEq] at hc2; rw [hc2.1]
          | cons x c =>
            simp only [List.cons_append, List.cons.injEq] at hc2
            exact absurd k1 (n2 d' (by rw [hc1, hc2.1]; simp))
        · cases c with
          | nil => simp only [List.nil_append, List.cons.injEq] at hc2; rw [hc2.1]
          | cons x c =>
            simp only [List.cons_append, List.cons.injEq] at hc2
            exact absurd k2 (n1 d (by rw [hc1, hc2.1]; simp))

/-- Which reading is taken. -/
theorem choose_taken (fm : Bool) (f : File) (ctx : List Scope) (id : QId) (ty : DeclType) (h : ty ≠ .klass ∨ ¬ selfLike id) :
    ∃ r, Taken f ctx id ty r ∧ choose fm f ctx id ty = r.id id := by
  obtain ⟨ps, hp⟩ := denotes_total ctx id
  have h1 := (find_known (fm := fm) (f := f) h hp).1
  have h2 := (find_known (fm := fm) (f := f) (ty := .namespace) (.inl (by simp)) hp).1
  have hg : Denotes ctx ⟨true, id.parts⟩ id.parts := .global _
  have h3 := (find_known (fm := fm) (f := f) (id := ⟨true, id.parts⟩) (ty := ty) (h.imp_right (fun h h' => h h')) hg).1
  have h4 := (find_known (fm := fm) (f := f) (id := ⟨true, id.parts⟩) (ty := .namespace) (.inl (by simp)) hg).1
  unfold choose
  split
  · rename_i c1; exact ⟨.here, .known hp (.inl (h1.mp c1)), rfl⟩
  · rename_i c1
    have c1' : ¬ Known f ps ty := fun h => c1 (h1.mpr h)
    split
    · rename_i c2; exact ⟨.here, .known hp (.inr (h2.mp c2)), rfl⟩
    · rename_i c2
      have c2' : ¬ Known f ps .namespace := fun h => c2 (h2.mpr h)
      split
      · rename_i c3
        have hps : ps = id.parts := by
          cases hp with
          | global => rfl
          | toplevel => cases c3
          | relative => cases c3
        subst hps
        exact ⟨.here, .unknown hp c1' c2' c1' c2', rfl⟩
      · split
        · rename_i c4; exact ⟨.there, .other hp c1' c2' (.inl (h3.mp c4)), rfl⟩
        · rename_i c4
          split
          · rename_i c5; exact ⟨.there, .other hp c1' c2' (.inr (h4.mp c5)), rfl⟩
          · rename_i c5
            exact ⟨.here, .unknown hp c1' c2' (fun h => c4 (h3.mpr h)) (fun h => c5 (h4.mpr h)), rfl⟩

theorem find_useOf {fm : Bool} {f : File} {ctx : List Scope} {id : QId} {ty : DeclType} {ps : List QString} (h : ty ≠ .klass ∨ ¬ selfLike id)
    (hp : Denotes ctx id ps) : UseOf f ps ty (findDeclaration fm f.env ctx id ty) := by
  obtain ⟨h1, h2⟩ := find_known (fm := fm) (f := f) h hp
  cases hr : findDeclaration fm f.env ctx id ty with
  | none => intro hk; rw [hr] at h1; simp at h1; exact h1 hk
  | some d => exact (h2 d).mp hr

/-- The declaration the part `j` before the last one is taken for. -/
def partDecl (fm : Bool) (f : File) (ctx : List Scope) (id : QId) (j : Nat) : Option Decl :=
  findDeclaration fm f.env ctx ⟨id.global, id.parts.take (j + 1)⟩ .namespace

/-- The use added for the part `j` before the last one. -/
def partUse (fm : Bool) (f : File) (ctx : List Scope) (id : QId) (pre : Nat) (j : Nat) : Option (Nat × Option Decl) :=
  if pre ≤ j then (if isUse f j (partDecl fm f ctx id j) then some (j, partDecl fm f ctx id j) else none) else none

/-- What is reported for a use. -/
def report (f : File) (x : Nat × Option Decl) : List Problem :=
  match x.2 with
  | some d => if f.deprecated d then [.deprecated x.1] else []
  | none => [.notFound x.1]

theorem newCheckedUse_eq (f : File) (j : Nat) (d : Option Decl) (o : Out) :
    newCheckedUse f j d true o = ⟨o.uses ++ [(j, d)], o.problems ++ report f (j, d)⟩ := by
  cases d <;> rfl

/-- The loop over the parts. -/
theorem partsLoop_spec (fm : Bool) (f : File) (ctx : List Scope) (id : QId) (pre cnt : Nat) : ∀ (n i : Nat) (o : Out),
    (∀ j, i ≤ j → j < i + n → pre ≤ j → j < cnt) →
    partsLoop fm f ctx id pre cnt n i o = some
      ⟨o.uses ++ (List.range' i n).filterMap (partUse fm f ctx id pre),
       o.problems ++ ((List.range' i n).filterMap (partUse fm f ctx id pre)).flatMap (report f)⟩
  | 0, i, o, _ => by simp [partsLoop]
  | n + 1, i, o, h => by
    have ih := fun o => partsLoop_spec fm f ctx id pre cnt n (i + 1) o (fun j h1 h2 h3 => h j (by omega) (by omega) h3)
    rw [List.range'_succ, List.filterMap_cons]
    by_cases hp : i < pre
    · have : partUse fm f ctx id pre i = none := by rw [partUse, if_neg (by omega)]
      simp only [partsLoop, if_pos hp, this]
      exact ih o
    · have hc := h i (by omega) (by omega) (by omega)
      by_cases hu : isUse f i (partDecl fm f ctx id i) = true
      · have : partUse fm f ctx id pre i = some (i, partDecl fm f ctx id i) := by simp [partUse, hu]; omega
        have hu' := hu
        unfold partDecl at hu'
        simp only [partsLoop, if_neg hp, if_neg (show ¬ cnt ≤ i by omega), if_pos hu', this]
        rw [newCheckedUse_eq, ih]
        simp [partDecl]
      · have : partUse fm f ctx id pre i = none := by simp [partUse, hu]
        have hu' := hu
        unfold partDecl at hu'
        simp only [partsLoop, if_neg hp, if_neg (show ¬ cnt ≤ i by omega), if_neg hu', this]
        exact ih o

/-- Out of range. -/
theorem partsLoop_none (fm : Bool) (f : File) (ctx : List Scope) (id : QId) (pre cnt : Nat) : ∀ (n i : Nat) (o : Out),
    (∃ j, i ≤ j ∧ j < i + n ∧ pre ≤ j ∧ cnt ≤ j) → partsLoop fm f ctx id pre cnt n i o = none
  | 0, i, o, ⟨j, h1, h2, _⟩ => absurd h2 (by omega)
  | n + 1, i, o, ⟨j, h1, h2, h3, h4⟩ => by
    rw [partsLoop]
    by_cases hp : i < pre
    · rw [if_pos hp]
      exact partsLoop_none fm f ctx id pre cnt n (i + 1) o ⟨j, by omega, by omega, h3, h4⟩
    · rw [if_neg hp]
      by_cases hc : cnt ≤ i
      · rw [if_pos hc]
      · rw [if_neg hc]
        have ih := fun o => partsLoop_none fm f ctx id pre cnt n (i + 1) o ⟨j, by omega, by omega, h3, h4⟩
        simp only [ih, ite_self]

theorem buildUses_eq {fm : Bool} {f : File} {ctx : List Scope} {id : QId} {pre cnt : Nat} {ty : DeclType} (ht : ty ≠ .globalVariable)
    (hc : ∀ j, j < id.parts.length - 1 → pre ≤ j → j < cnt) :
    buildUses fm f ctx id pre cnt ty =
      let id' := choose fm f ctx id ty
      let us := (List.range' 0 (id.parts.length - 1)).filterMap (partUse fm f ctx id' pre) ++ [(cnt - 1, findDeclaration fm f.env ctx id' ty)]
      some ⟨us, us.flatMap (report f)⟩ := by
  have hl : (choose fm f ctx id ty).parts = id.parts := by
    unfold choose
    repeat' split
    all_goals rfl
  have hr : (decide (ty = .klass ∨ ty = .constant ∨ ty = .function ∨ ty = .namespace)) = true := by cases ty <;> first | rfl | exact absurd rfl ht
  simp only [buildUses, hl]
  rw [partsLoop_spec _ _ _ _ _ _ _ _ _ (fun j _ h2 h3 => hc j (by omega) h3)]
  simp only [Option.map_some, hr, newCheckedUse_eq]
  simp

theorem denotes_unique {ctx : List Scope} {id : QId} {ps ps' : List QString} (h : Denotes ctx id ps) (h' : Denotes ctx id ps') : ps = ps' :=
  (denotes_eq h).symm.trans (denotes_eq h')

theorem find_useOf_iff {fm : Bool} {f : File} {ctx : List Scope} {id : QId} {ty : DeclType} {ps : List QString} (h : ty ≠ .klass ∨ ¬ selfLike id)
    (hp : Denotes ctx id ps) (d : Option Decl) : UseOf f ps ty d ↔ findDeclaration fm f.env ctx id ty = d := by
  obtain ⟨h1, h2⟩ := find_known (fm := fm) (f := f) h hp
  cases d with
  | none =>
    show ¬ _ ↔ _
    rw [← h1]
    cases findDeclaration fm f.env ctx id ty <;> simp
  | some d => exact (h2 d).symm

/-- Only one reading is taken. -/
theorem taken_unique {f : File} {ctx : List Scope} {id : QId} {ty : DeclType} {r r' : Reading} (h : Taken f ctx id ty r) (h' : Taken f ctx id ty r') : r = r' := by
  cases h with
  | known h1 h2 =>
    cases h' with
    | known => rfl
    | other h3 h4 h5 => rw [denotes_unique h3 h1] at h4 h5; exact absurd h2 (by simp [h4, h5])
    | unknown => rfl
  | other h1 h2 h3 h4 =>
    cases h' with
    | known h5 h6 => rw [denotes_unique h5 h1] at h6; exact absurd h6 (by simp [h2, h3])
    | other => rfl
    | unknown _ _ _ h5 h6 => exact absurd h4 (by simp [h5, h6])
  | unknown _ _ _ h5 h6 =>
    cases h' with
    | known => rfl
    | other _ _ _ h4 => exact absurd h4 (by simp [h5, h6])
    | unknown => rfl

theorem pairwise_filterMap_range {α : Type} (g : Nat → Option (Nat × α)) (hg : ∀ j x, g j = some x → x.1 = j) : ∀ n i,
    ((List.range' i n).filterMap g).Pairwise (fun a b => a.1 < b.1)
  | 0, i => by simp
  | n + 1, i => by
    have ih := pairwise_filterMap_range g hg n (i + 1)
    rw [List.range'_succ, List.filterMap_cons]
    split
    · exact ih
    · rename_i x hx
      refine List.pairwise_cons.mpr ⟨fun b hb => ?_, ih⟩
      obtain ⟨j, hj, hb⟩ := List.mem_filterMap.mp hb
      rw [hg _ _ hx, hg _ _ hb]
      have := List.mem_range'_1.mp hj
      omega

theorem report_part {f : File} {x : Nat × Option Decl} {p : Problem} (h : p ∈ report f x) : p.part = x.1 := by
  unfold report at h
  split at h
  · split at h
    · cases List.mem_singleton.mp h; rfl
    · cases h
  · cases List.mem_singleton.mp h; rfl

theorem report_pairwise {f : File} : ∀ {us : List (Nat × Option Decl)}, us.Pairwise (fun a b => a.1 < b.1) →
    (us.flatMap (report f)).Pairwise (fun a b => a.part < b.part)
  | [], _ => by simp
  | x :: us, h => by
    obtain ⟨h1, h2⟩ := List.pairwise_cons.mp h
    rw [List.flatMap_cons, List.pairwise_append]
    refine ⟨?_, report_pairwise h2, ?_⟩
    · unfold report
      split
      · split <;> simp
      · simp
    · intro a ha b hb
      obtain ⟨y, hy, hb⟩ := List.mem_flatMap.mp hb
      rw [report_part ha, report_part hb]
      exact h1 y hy

theorem right_of {fm : Bool} {f : File} {ctx : List Scope} {id : QId} {ty : DeclType} (h : ty ≠ .klass ∨ ¬ selfLike id) (hn : id.parts ≠ []) :
    let us := (List.range' 0 (id.parts.length - 1)).filterMap (partUse fm f ctx id 0) ++ [(id.parts.length - 1, findDeclaration fm f.env ctx id ty)]
    Right f ctx id ty ⟨us, us.flatMap (report f)⟩ := by
  intro us
  have hlen : 0 < id.parts.length := List.length_pos_iff.mpr hn
  have hord : us.Pairwise (fun a b => a.1 < b.1) := by
    refine List.pairwise_append.mpr ⟨pairwise_filterMap_range _ ?_ _ _, by simp, ?_⟩
    · intro j x hx
      unfold partUse at hx
      split at hx
      · split at hx
        · cases hx; rfl
        · cases hx
      · cases hx
    · intro a ha b hb
      obtain ⟨j, hj, ha⟩ := List.mem_filterMap.mp ha
      have := List.mem_range'_1.mp hj
      cases List.mem_singleton.mp hb
      unfold partUse at ha
      split at ha
      · split at ha
        · cases ha; show j < _; omega
        · cases ha
      · cases ha
  refine ⟨fun j d => ?_, hord, fun j => ?_, fun j => ?_, report_pairwise hord⟩
  · show (j, d) ∈ us ↔ _
    rw [List.mem_append, List.mem_filterMap, List.mem_singleton]
    constructor
    · rintro (⟨i, hi, hd⟩ | hd)
      · have hi := List.mem_range'_1.mp hi
        unfold partUse at hd
        rw [if_pos (Nat.zero_le _)] at hd
        split at hd
        · rename_i hu
          injection hd with hd
          injection hd with h1 h2
          subst h1
          obtain ⟨ps, hps⟩ := denotes_total ctx ⟨id.global, id.parts.take (i + 1)⟩
          refine .before (by omega) hps ((find_useOf_iff (fm := fm) (.inl (by simp)) hps d).mpr h2) ?_
          intro d' hd'
          rw [h2, hd'] at hu
          simpa [isUse] using hu
        · cases hd
      · injection hd with h1 h2
        obtain ⟨ps, hps⟩ := denotes_total ctx id
        exact .last (by omega) hps ((find_useOf_iff (fm := fm) h hps d).mpr h2.symm)
    · intro hp
      cases hp with
      | before h1 h2 h3 h4 =>
        left
        refine ⟨j, List.mem_range'_1.mpr ⟨by omega, by omega⟩, ?_⟩
        have := (find_useOf_iff (fm := fm) (.inl (by simp)) h2 d).mp h3
        have hu : isUse f j d = true := by
          cases d with
          | none => rfl
          | some d' => simpa [isUse] using h4 d' rfl
        simp [partUse, partDecl, this, hu]
      | last h1 h2 h3 =>
        right
        rw [(find_useOf_iff (fm := fm) h h2 d).mp h3, ← h1]; rfl
  · show _ ∈ us.flatMap _ ↔ _ ∈ us
    rw [List.mem_flatMap]
    constructor
    · rintro ⟨⟨i, d⟩, hx, hp⟩
      cases d with
      | none => cases List.mem_singleton.mp hp; exact hx
      | some d =>
        unfold report at hp
        simp only at hp
        split at hp
        · simp at hp
        · cases hp
    · intro hx
      exact ⟨_, hx, by simp [report]⟩
  · show _ ∈ us.flatMap _ ↔ ∃ d, _ ∈ us ∧ _
    rw [List.mem_flatMap]
    constructor
    · rintro ⟨⟨i, d⟩, hx, hp⟩
      cases d with
      | none => simp [report] at hp
      | some d =>
        unfold report at hp
        simp only at hp
        split at hp
        · rename_i hd
          simp at hp
          subst hp
          exact ⟨d, hx, hd⟩
        · cases hp
    · rintro ⟨d, hx, hd⟩
      exact ⟨_, hx, by simp [report, hd]⟩

theorem pushNames_length (u : CharClass) (c : Bool) : ∀ ns, (pushNames u c ns).length = ns.length
  | [] => rfl
  | [n] => rfl
  | n :: m :: ns => by rw [pushNames, List.length_cons, pushNames_length u c (m :: ns)]; rfl; simp

/-- **C64.**  The uses of the parts of a name and what is reported for them, in the reading taken. -/
theorem parts_used {u : CharClass} (fm : Bool) (f : File) (ctx : List Scope) (n : NameAst) (ty : DeclType) (r : Reading)
    (hn : n.names ≠ []) (ht : ty ≠ .globalVariable) (hs : ty ≠ .klass ∨ ¬ selfLike (identifierForNamespace u n (ty = .constant)))
    (hr : Taken f ctx (identifierForNamespace u n (ty = .constant)) ty r) :
    ∃ o, nameUses u fm f ctx n ty = some o ∧ Right f ctx (r.id (identifierForNamespace u n (ty = .constant))) ty o := by
  generalize hid : identifierForNamespace u n (decide (ty = .constant)) = id at hs hr
  have hl : id.parts.length = n.names.length := by rw [← hid]; exact pushNames_length u _ _
  obtain ⟨r', h1, h2⟩ := choose_taken fm f ctx id ty hs
  cases taken_unique hr h1
  have hp : (r.id id).parts = id.parts := by cases r <;> rfl
  have hne : id.parts ≠ [] := by
    intro h0
    rw [h0] at hl
    exact hn (List.length_eq_zero_iff.mp hl.symm)
  have hb := buildUses_eq (fm := fm) (f := f) (ctx := ctx) (id := id) (pre := 0) (cnt := n.names.length) ht (fun j h _ => by omega)
  have := right_of (fm := fm) (f := f) (ctx := ctx) (id := r.id id) (ty := ty)
    (hs.imp_right (fun h h' => h (by unfold selfLike at h' ⊢; rwa [hp] at h'))) (by rw [hp]; exact hne)
  refine ⟨_, ?_, this⟩
  unfold nameUses
  rw [hid, hb]
  simp only [h2, hp, hl]

theorem useUses_eq (u : CharClass) (fm : Bool) (f : File) (ctx : List Scope) (n : NameAst) (k : UseKind) :
    useUses u fm f ctx n k = nameUses u fm f ctx n k.type := by
  cases k <;> rfl

/-- **C64.**  The same for the names in `use`. -/
theorem use_parts_used {u : CharClass} (fm : Bool) (f : File) (ctx : List Scope) (n : NameAst) (k : UseKind) (r : Reading) (hn : n.names ≠ [])
    (hr : Taken f ctx (identifierForNamespace u n (k.type = .constant)) k.type r) :
    ∃ o, useUses u fm f ctx n k = some o ∧ Right f ctx (r.id (identifierForNamespace u n (k.type = .constant))) k.type o := by
  rw [useUses_eq]
  exact parts_used fm f ctx n k.type r hn (by cases k <;> decide) (.inl (by cases k <;> decide)) hr

/-- **C64.**  "Declaration not found" at the last part is never reported for what is known under the name as PHP reads it. -/
theorem known_not_reported {u : CharClass} (fm : Bool) (f : File) (ctx : List Scope) (n : NameAst) (ty : DeclType) (ps : List QString) (o : Out)
    (hn : n.names ≠ []) (ht : ty ≠ .globalVariable) (hs : ty ≠ .klass ∨ ¬ selfLike (identifierForNamespace u n (ty = .constant)))
    (hp : Denotes ctx (identifierForNamespace u n (ty = .constant)) ps) (hk : Known f ps ty) (ho : nameUses u fm f ctx n ty = some o) :
    .notFound (n.names.length - 1) ∉ o.problems ∧ ∃ d, (n.names.length - 1, some d) ∈ o.uses ∧ StandsFor f ps ty d := by
  obtain ⟨o', h1, h2⟩ := parts_used fm f ctx n ty .here hn ht hs (.known hp (.inl hk))
  rw [ho] at h1
  cases h1
  have hl : (identifierForNamespace u n (decide (ty = .constant))).parts.length = n.names.length := pushNames_length u _ _
  have hpos : 0 < n.names.length := List.length_pos_iff.mpr hn
  constructor
  · rw [h2.notFound, h2.uses]
    intro h
    cases h with
    | before h => simp only [Reading.id, hl] at h; omega
    | last _ hp' hu => rw [denotes_unique hp' hp] at hu; exact hu hk
  · have := (find_known (fm := fm) (f := f) hs hp)
    cases hd : findDeclaration fm f.env ctx (identifierForNamespace u n (decide (ty = .constant))) ty with
    | none => rw [hd] at this; exact absurd (this.1.mpr hk) (by simp)
    | some d =>
      have hsf := (this.2 d).mp hd
      exact ⟨d, (h2.uses _ _).mpr (.last (by simp only [Reading.id, hl]; omega) hp hsf), hsf⟩

/-- **C64.**  What is known under neither reading is reported. -/
theorem unknown_reported {u : CharClass} (fm : Bool) (f : File) (ctx : List Scope) (n : NameAst) (ty : DeclType) (ps : List QString) (o : Out)
    (hn : n.names ≠ []) (ht : ty ≠ .globalVariable) (hs : ty ≠ .klass ∨ ¬ selfLike (identifierForNamespace u n (ty = .constant)))
    (hp : Denotes ctx (identifierForNamespace u n (ty = .constant)) ps) (hk : ¬ Known f ps ty)
    (hg : Known f ps .namespace ∨ ¬ Known f (identifierForNamespace u n (ty = .constant)).parts ty) (ho : nameUses u fm f ctx n ty = some o) :
    .notFound (n.names.length - 1) ∈ o.problems := by
  have hl : (identifierForNamespace u n (decide (ty = .constant))).parts.length = n.names.length := pushNames_length u _ _
  have hpos : 0 < n.names.length := List.length_pos_iff.mpr hn
  obtain ⟨r, hr, _⟩ := choose_taken fm f ctx _ ty hs
  obtain ⟨o', h1, h2⟩ := parts_used fm f ctx n ty r hn ht hs hr
  rw [ho] at h1
  cases h1
  rw [h2.notFound, h2.uses]
  cases r with
  | here => exact .last (by simp only [Reading.id, hl]; omega) hp hk
  | there =>
    refine .last (by simp only [Reading.id, hl]; omega) (.global _) ?_
    cases hr with
    | other h3 h4 h5 h6 =>
      rw [denotes_unique h3 hp] at h5
      rcases hg with hg | hg
      · exact absurd hg h5
      · exact hg

/-- **C64 (finding).**  A name that PHP looks up in the namespace only, and that is unknown there, is not reported if there is a global declaration of this
name: it is linked to that. -/
theorem fallback_hides {u : CharClass} (fm : Bool) (f : File) (ctx : List Scope) (n : NameAst) (ty : DeclType) (ps : List QString) (o : Out)
    (hn : n.names ≠ []) (ht : ty ≠ .globalVariable) (hs : ty ≠ .klass ∨ ¬ selfLike (identifierForNamespace u n (ty = .constant)))
    (hp : Denotes ctx (identifierForNamespace u n (ty = .constant)) ps) (hk : ¬ Known f ps ty) (hkn : ¬ Known f ps .namespace)
    (hg : Known f (identifierForNamespace u n (ty = .constant)).parts ty) (ho : nameUses u fm f ctx n ty = some o) :
    .notFound (n.names.length - 1) ∉ o.problems ∧
    ∃ d, (n.names.length - 1, some d) ∈ o.uses ∧ StandsFor f (identifierForNamespace u n (ty = .constant)).parts ty d := by
  have hl : (identifierForNamespace u n (decide (ty = .constant))).parts.length = n.names.length := pushNames_length u _ _
  have hpos : 0 < n.names.length := List.length_pos_iff.mpr hn
  obtain ⟨o', h1, h2⟩ := parts_used fm f ctx n ty .there hn ht hs (.other hp hk hkn (.inl hg))
  rw [ho] at h1
  cases h1
  have hgl : Denotes ctx (Reading.there.id (identifierForNamespace u n (decide (ty = .constant)))) _ := .global _
  constructor
  · rw [h2.notFound, h2.uses]
    intro h
    cases h with
    | before h => simp only [Reading.id, hl] at h; omega
    | last _ hp' hu => rw [denotes_unique hp' hgl] at hu; exact hu hg
  · have := (find_known (fm := fm) (f := f) (id := Reading.there.id (identifierForNamespace u n (decide (ty = .constant)))) (ty := ty)
      (hs.imp_right (fun h h' => h h')) hgl)
    cases hd : findDeclaration fm f.env ctx (Reading.there.id (identifierForNamespace u n (decide (ty = .constant)))) ty with
    | none => rw [hd] at this; exact absurd (this.1.mpr hg) (by simp)
    | some d =>
      have hsf := (this.2 d).mp hd
      exact ⟨d, (h2.uses _ _).mpr (.last (by simp only [Reading.id, hl]; omega) hgl hsf), hsf⟩

/-- **C64 (finding).**  `use A\B` in a namespace, where PHP takes the name as it is, means the one behind the namespace if that is known. -/
theorem use_behind_namespace {u : CharClass} (fm : Bool) (f : File) (ctx : List Scope) (n : NameAst) (k : UseKind) (ps : List QString) (o : Out)
    (hn : n.names ≠ []) (hp : Denotes ctx (identifierForNamespace u n (k.type = .constant)) ps) (hk : Known f ps k.type) (ho : useUses u fm f ctx n k = some o) :
    ∃ d, (n.names.length - 1, some d) ∈ o.uses ∧ StandsFor f ps k.type d := by
  rw [useUses_eq] at ho
  exact (known_not_reported fm f ctx n k.type ps o hn (by cases k <;> decide) (.inl (by cases k <;> decide)) hp hk ho).2

/-! #### Names in a group -/

theorem grouped_length (u : CharClass) (p : NameAst) (inner : List QString) (c : Bool) :
    (identifierForGrouped u p inner c).parts.length = p.names.length + inner.length := by
  simp [identifierForGrouped, pushNames_length]

/-- **C64.**  A name of one part in a group: its use is what the prefix and the name together stand for. -/
theorem inner_one {u : CharClass} (fm : Bool) (f : File) (ctx : List Scope) (p : NameAst) (x : QString) (k : UseKind) (r : Reading)
    (hr : Taken f ctx (identifierForGrouped u p [x] (k = .const)) k.type r) :
    ∃ o d ps, innerUses u fm f ctx p [x] k = some o ∧ o.uses = [(0, d)] ∧ Denotes ctx (r.id (identifierForGrouped u p [x] (k = .const))) ps ∧
      UseOf f ps k.type d ∧ (.notFound 0 ∈ o.problems ↔ d = none) := by
  have ht : k.type ≠ .globalVariable := by cases k <;> decide
  have hs : k.type ≠ .klass ∨ ¬ selfLike (identifierForGrouped u p [x] (k = .const)) := .inl (by cases k <;> decide)
  have hl := grouped_length u p [x] (k = .const)
  simp only [List.length_cons, List.length_nil] at hl
  obtain ⟨r', h1, h2⟩ := choose_taken fm f ctx _ k.type hs
  cases taken_unique hr h1
  have hb := buildUses_eq (fm := fm) (f := f) (ctx := ctx) (id := identifierForGrouped u p [x] (k = .const)) (pre := p.names.length) (cnt := 1) ht
    (fun j h h' => by omega)
  obtain ⟨ps, hps⟩ := denotes_total ctx (r.id (identifierForGrouped u p [x] (k = .const)))
  have hnil : ∀ id', (List.range' 0 ((identifierForGrouped u p [x] (decide (k = .const))).parts.length - 1)).filterMap
      (partUse fm f ctx id' p.names.length) = [] := by
    intro id'
    rw [List.filterMap_eq_nil_iff]
    intro j hj
    have := List.mem_range'_1.mp hj
    rw [partUse, if_neg (by omega)]
  refine ⟨_, _, ps, hb, ?_, hps, (find_useOf_iff (fm := fm) (.inl (by cases k <;> decide)) hps _).mpr rfl, ?_⟩
  · simp only [h2, hnil, List.nil_append]
  · simp only [h2, hnil, List.nil_append]
    cases findDeclaration fm f.env ctx (r.id (identifierForGrouped u p [x] (decide (k = .const)))) k.type with
    | none => simp [report]
    | some d => simp [report]

/-- **C64 (finding).**  A name of several parts in a group behind a prefix of two or more parts asks for a part that does not exist. -/
theorem inner_out_of_range {u : CharClass} (fm : Bool) (f : File) (ctx : List Scope) (p : NameAst) (inner : List QString) (k : UseKind)
    (hp : 2 ≤ p.names.length) (hi : 2 ≤ inner.length) : innerUses u fm f ctx p inner k = none := by
  have hl := grouped_length u p inner (k = .const)
  have hc : (choose fm f ctx (identifierForGrouped u p inner (k = .const)) k.type).parts = (identifierForGrouped u p inner (k = .const)).parts := by
    unfold choose
    repeat' split
    all_goals rfl
  unfold innerUses buildUses
  simp only [hc]
  rw [partsLoop_none _ _ _ _ _ _ _ _ _ ⟨p.names.length + inner.length - 2, by omega, by omega, by omega, by omega⟩]
  rfl

/-- **C64 (finding).**  Behind a prefix of one part, the first part has no use, and every other one is linked to the namespace that is named by the parts
*before* it (if this is declared elsewhere); the last one has a second use. -/
theorem inner_shifted {u : CharClass} (fm : Bool) (f : File) (ctx : List Scope) (p : NameAst) (inner : List QString) (k : UseKind) (r : Reading)
    (hp : p.names.length = 1) (hi : 2 ≤ inner.length) (hr : Taken f ctx (identifierForGrouped u p inner (k = .const)) k.type r) :
    ∃ o, innerUses u fm f ctx p inner k = some o ∧ (∀ d, (0, d) ∉ o.uses) ∧
      ∀ j ps d, 1 ≤ j → j < inner.length → Denotes ctx ⟨(r.id (identifierForGrouped u p inner (k = .const))).global,
          (p.names ++ inner.take j).map (lowerStr u)⟩ ps → UseOf f ps .namespace d → (∀ d', d = some d' → f.standsAt d' j = false) → (j, d) ∈ o.uses := by
  have ht : k.type ≠ .globalVariable := by cases k <;> decide
  have hs : k.type ≠ .klass ∨ ¬ selfLike (identifierForGrouped u p inner (k = .const)) := .inl (by cases k <;> decide)
  have hl := grouped_length u p inner (k = .const)
  obtain ⟨r', h1, h2⟩ := choose_taken fm f ctx _ k.type hs
  cases taken_unique hr h1
  have hb := buildUses_eq (fm := fm) (f := f) (ctx := ctx) (id := identifierForGrouped u p inner (k = .const)) (pre := p.names.length)
    (cnt := inner.length) ht (fun j h h' => by omega)
  refine ⟨_, hb, ?_, ?_⟩
  · intro d hd
    simp only [List.mem_append, List.mem_filterMap, List.mem_singleton] at hd
    rcases hd with ⟨j, _, hd⟩ | hd
    · unfold partUse at hd
      split at hd
      · split at hd
        · simp at hd; omega
        · cases hd
      · cases hd
    · simp at hd; omega
  · intro j ps d h3 h4 h5 h6 h7
    simp only [List.mem_append, List.mem_filterMap]
    left
    refine ⟨j, List.mem_range'_1.mpr ⟨by omega, by omega⟩, ?_⟩
    have hrp : (r.id (identifierForGrouped u p inner (decide (k = .const)))).parts = (identifierForGrouped u p inner (decide (k = .const))).parts := by
      cases r <;> rfl
    have htake : (identifierForGrouped u p inner (decide (k = .const))).parts.take (j + 1) = (p.names ++ inner.take j).map (lowerStr u) := by
      have hpn : ∀ (ns : List QString) (j : Nat), j < ns.length → (pushNames u (decide (k = .const)) ns).take j = (ns.take j).map (lowerStr u) := by
        intro ns
        induction ns with
        | nil => intro j h; simp at h
        | cons m ms ih =>
          intro j h
          cases j with
          | zero => simp
          | succ j =>
            cases ms with
            | nil => simp at h
            | cons m' ms' => rw [pushNames, List.take_succ_cons, List.take_succ_cons, List.map_cons, ih j (by simpa using h)]; simp
      simp only [identifierForGrouped]
      rw [List.take_append, List.take_of_length_le (by simp; omega), List.map_append, ← hpn inner j h4]
      simp [hp]
    have hd := (find_useOf_iff (fm := fm) (.inl (by simp)) h5 d).mp h6
    have hu : isUse f j d = true := by
      cases d with
      | none => rfl
      | some d' => simpa [isUse] using h7 d' rfl
    rw [h2, partUse, if_pos (by omega), partDecl, hrp, htake, hd, if_pos hu]

/-! ### A file

In the namespace `n`: a namespace `n\a` with a deprecated class `n\a\b`; a global class `g`; namespaces `p`, `p\q` and a function `p\q\f`. -/

def dNs (n : Nat) : Decl := ⟨n, false, false, false, false, false, true⟩
def dFn (n : Nat) : Decl := ⟨n, false, true, false, false, false, false⟩

def exFile : File where
  env :=
    { topFind := fun p =>
        if p = [q! "n"] then [dNs 1] else if p = [q! "n", q! "a"] then [dNs 2] else if p = [q! "n", q! "a", q! "b"] then [dClass 3]
        else if p = [q! "g"] then [dClass 4] else if p = [q! "p"] then [dNs 5] else if p = [q! "p", q! "q"] then [dNs 6]
        else if p = [q! "p", q! "q", q! "f"] then [dFn 7] else []
      internalFile := false
      pst := fun _ => [] }
  deprecated d := d.id = 3
  standsAt _ _ := false

def inN : List Scope := [⟨.namespace, none, [q! "n"], []⟩]

-- `A\B` in `n`: uses of `n\a` and `n\a\b`, the second one reported as deprecated
example : nameUses asciiClass true exFile inN ⟨false, [q! "A", q! "B"]⟩ .klass = some ⟨[(0, some (dNs 2)), (1, some (dClass 3))], [.deprecated 1]⟩ := by
  decide +kernel
-- `A\C`: not found
example : nameUses asciiClass true exFile inN ⟨false, [q! "A", q! "C"]⟩ .klass = some ⟨[(0, some (dNs 2)), (1, none)], [.notFound 1]⟩ := by decide +kernel
-- `G`: the global class, although PHP looks for `n\g` only
example : nameUses asciiClass true exFile inN ⟨false, [q! "G"]⟩ .klass = some ⟨[(0, some (dClass 4))], []⟩ := by decide +kernel
-- `use function p\{q\f}`: the part `f` is linked to the namespace `p\q` and to the function, the part `q` to nothing
example : innerUses asciiClass true exFile [] ⟨false, [q! "p"]⟩ [q! "q", q! "f"] .function = some ⟨[(1, some (dNs 6)), (1, some (dFn 7))], []⟩ := by
  decide +kernel
example : innerUses asciiClass true exFile [] ⟨false, [q! "p", q! "q"]⟩ [q! "f"] .function = some ⟨[(0, some (dFn 7))], []⟩ := by decide +kernel

/-- the namespace the example is in -/
theorem exDenotes (ps : List QString) : Denotes inN ⟨false, ps⟩ ([q! "n"] ++ ps) :=
  .relative ps [] [] ⟨.namespace, none, [q! "n"], []⟩ rfl (by simp) rfl

theorem exKnown : Known exFile [q! "n", q! "a", q! "b"] .klass :=
  ⟨_, dClass 3, .all [] rfl (by decide) .nil, by decide +kernel, .klass rfl⟩

theorem exKnownG : Known exFile [q! "g"] .klass := ⟨_, dClass 4, .all [] rfl (by decide) .nil, by decide +kernel, .klass rfl⟩

theorem exUnknown (ty : DeclType) : ¬ Known exFile [q! "n", q! "g"] ty := by
  rintro ⟨l, d, h1, h2, _⟩
  have : Candidates exFile.env [q! "n", q! "g"] ty [] := by
    by_cases h : ty = .globalVariable
    · have := Candidates.visible (env := exFile.env) (ps := [q! "n", q! "g"]) (ty := ty) (.inr h)
      exact (show exFile.env.topFind [q! "n", q! "g"] = [] by decide +kernel) ▸ this
    · have := Candidates.all (env := exFile.env) (ps := [q! "n", q! "g"]) (ty := ty) [] rfl h .nil
      exact (show exFile.env.topFind [q! "n", q! "g"] ++ [] = [] by decide +kernel) ▸ this
  rw [candidates_unique h1 this] at h2
  cases h2

-- the hypotheses of `parts_used`, `known_not_reported` (`A\B`) and `fallback_hides` (`G`) are met
example : Taken exFile inN (identifierForNamespace asciiClass ⟨false, [q! "A", q! "B"]⟩ false) .klass .here :=
  .known (ps := [q! "n", q! "a", q! "b"]) (exDenotes [q! "a", q! "b"]) (.inl exKnown)
example : Taken exFile inN (identifierForNamespace asciiClass ⟨false, [q! "G"]⟩ false) .klass .there :=
  .other (ps := [q! "n", q! "g"]) (exDenotes [q! "g"]) (exUnknown _) (exUnknown _) (.inl exKnownG)
example : ¬ selfLike (identifierForNamespace asciiClass ⟨false, [q! "G"]⟩ false) := by unfold selfLike; decide +kernel
example : ∃ d, ((0 : Nat), some d) ∈ [((0 : Nat), some (dClass 4))] ∧ StandsFor exFile [q! "g"] .klass d :=
  (fallback_hides (u := asciiClass) true exFile inN ⟨false, [q! "G"]⟩ .klass [q! "n", q! "g"] ⟨[(0, some (dClass 4))], []⟩ (by simp) (by simp)
    (.inr (by unfold selfLike; decide +kernel)) (exDenotes [q! "g"]) (exUnknown _) (exUnknown _) exKnownG (by decide +kernel)).2

end KPhp.NameUses
