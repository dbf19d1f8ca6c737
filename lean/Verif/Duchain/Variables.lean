import Verif.Duchain.Types
/-!
# Types of variables inferred from assignments (C30)

Models `DeclarationBuilder::declareVariable` (duchain/builders/declarationbuilder.cpp:1006-1176).
Simplified: ranges, comments (`@superglobal`) and the DUChain lock are left out; a type is never null (the
callers check it).  `findDeclarations` is given as the list of the declarations of that name, oldest first.
-/
namespace KPhp.Variables

/-- A declaration of the assigned name in the current context: `isVar` tells whether it is a
`VariableDeclaration`. -/
structure Decl where
  isVar : Bool
  type : Ty
deriving DecidableEq, Repr

/-- declarationbuilder.cpp:1092-1136: the type of an already declared variable after the assignment of a
value of type `t`. -/
def assign (old t : Ty) : Ty :=
  if old = t then old                                                    -- :1092
  else match old with
    | .ref (.integral .mixed) => .ref t                                  -- :1094-1103
    | .integral .mixed => t                                              -- :1105-1111
    | .unsure ts => .unsure (addType ts t)                               -- :1113, :1127, :1132
    | .ref (.unsure ts) => .ref (.unsure (addType ts t))                 -- :1115-1118, :1127-1130
    | .ref b => .ref (.unsure (addType (addType [] b) t))                -- :1119-1122, :1127-1130
    | o => .unsure (addType (addType [] o) t)                            -- :1123-1125, :1132

/-- declarationbuilder.cpp:1080-1140: update the newest variable declaration in the list. -/
def updateNewest (t : Ty) : List Decl → Option (List Decl)
  | [] => none
  | d :: ds =>
    match updateNewest t ds with
    | some ds' => some (d :: ds')
    | none => if d.isVar then some ({ d with type := assign d.type t } :: ds) else none

/-- declarationbuilder.cpp:1076-1175 `declareVariable` for a name other than `this` in a class: update the
newest variable of that name, else declare a new one. -/
def declareVariable (decs : List Decl) (t : Ty) : List Decl :=
  match updateNewest t decs with
  | some decs' => decs'
  | none => decs ++ [⟨true, t⟩]

/-- A sequence of assignments. -/
def assignAll (decs : List Decl) (ts : List Ty) : List Decl := ts.foldl declareVariable decs

/-- The type of the variable: that of its newest declaration. -/
def varType (decs : List Decl) : Option Ty := ((decs.filter (·.isVar)).getLast?).map (·.type)

/-! ### Assignments to `$this` (declarationbuilder.cpp:1012-1070) -/

/-- What declareVariable looks at when `$this` is assigned inside a class. -/
structure ThisEnv where
  /-- the class imports the global interface `ArrayAccess` (:1022-1033) -/
  arrayAccess : Bool
  /-- the method context belongs to a class declaration (:1019) -/
  hasClass : Bool
  /-- `ClassDeclarationData::Abstract` -/
  isAbstract : Bool
  /-- the lower-case names of the functions declared in the class (:1041-1049) -/
  functions : List String

/-- The problems reported for `$this`. -/
inductive ThisProblem
  /-- "Class %1 contains %2 abstract methods and must therefore be declared abstract …" -/
  | missingOffsetMethods (n : Nat)
  /-- "Cannot re-assign $this." -/
  | cannotReassign
deriving DecidableEq, Repr

/-- :1045 -/
def offsetMethods : List String := ["offsetexists", "offsetget", "offsetset", "offsetunset"]

/-- declarationbuilder.cpp:1012-1070 -/
def assignThis (e : ThisEnv) (t : Ty) : List ThisProblem :=
  if e.arrayAccess && e.hasClass && t == .integral .array then                     -- :1037
    let n := (e.functions.filter (fun f => offsetMethods.contains f)).length        -- :1039-1049
    if n < 4 then (if e.isAbstract then [] else [.missingOffsetMethods (4 - n)])    -- :1051-1056
    else []
  else [.cannotReassign]                                                           -- :1061

/-! ### Specification -/

/-- The alternatives a type offers: the members of an unsure type, behind a reference or not. -/
def alternatives : Ty → List Ty
  | .unsure ts => ts
  | .ref (.unsure ts) => ts
  | .ref b => [b]
  | t => [t]

/-- Nothing is known about the value yet. -/
def Unknown (t : Ty) : Prop := t = .mixed ∨ t = .ref .mixed

instance (t : Ty) : Decidable (Unknown t) := by unfold Unknown; infer_instance

def isRef : Ty → Bool
  | .ref _ => true
  | _ => false

/-- Neither a reference nor an unsure type. -/
def Plain : Ty → Prop
  | .unsure _ => False
  | .ref _ => False
  | _ => True

/-! ### One assignment -/

theorem assign_known {old t : Ty} (hk : ¬ Unknown old) (hne : old ≠ t) :
    alternatives (assign old t) = addType (alternatives old) t := by
  unfold assign
  rw [if_neg hne]
  unfold Unknown at hk
  split
  · exact absurd (.inr rfl) hk
  · exact absurd (.inl rfl) hk
  · rfl
  · rfl
  · rename_i b h1 h2
    cases b <;> first | rfl | (exact absurd rfl (h2 _)) | skip
  · rename_i h1 h2 h3 h4 h5
    cases old <;> first | rfl | (exact absurd rfl (h3 _)) | (exact absurd rfl (h5 _)) | skip

/-- **C30, one step.** The first proper type assigned to an unknown variable becomes its type (the target of
the reference, if it is one). -/
theorem assign_unknown {t : Ty} {old : Ty} (hk : Unknown old) (hne : old ≠ t) :
    assign old t = if isRef old then .ref t else t := by
  unfold assign
  rw [if_neg hne]
  rcases hk with rfl | rfl <;> rfl

theorem assign_same (t : Ty) : assign t t = t := by simp [assign]

/-- **C30, one step.** Assigning to a variable of a known type adds exactly the assigned type to its
alternatives, at the end, unless the variable already has that type or offers it. -/
theorem assign_adds (old t : Ty) (hk : ¬ Unknown old) :
    alternatives (assign old t) =
      if old = t ∨ t ∈ alternatives old then alternatives old else alternatives old ++ [t] := by
  by_cases he : old = t
  · subst he; rw [assign_same]; simp
  · rw [assign_known hk he]
    unfold addType
    simp [he]

/-- **C30, one step.** A reference stays a reference. -/
theorem assign_reference (old t : Ty) (hr : isRef old = true) : isRef (assign old t) = true := by
  unfold assign
  split
  · exact hr
  · split <;> first | rfl | (simp [isRef] at hr) | skip

theorem assign_not_unknown {old t : Ty} (hk : ¬ Unknown old) : ¬ Unknown (assign old t) := by
  by_cases he : old = t
  · subst he; rw [assign_same]; exact hk
  · unfold assign
    rw [if_neg he]
    unfold Unknown at hk ⊢
    split <;> simp_all

/-! ### Sequences on one variable -/

/-- A sequence of assignments to a declared variable. -/
def assigns (old : Ty) (ts : List Ty) : Ty := ts.foldl assign old

theorem assigns_cons (old t : Ty) (ts : List Ty) : assigns old (t :: ts) = assigns (assign old t) ts := rfl

theorem assigns_append (old : Ty) (a b : List Ty) : assigns old (a ++ b) = assigns (assigns old a) b := by
  simp [assigns]

theorem assigns_not_unknown {old : Ty} (hk : ¬ Unknown old) (ts : List Ty) : ¬ Unknown (assigns old ts) := by
  induction ts generalizing old with
  | nil => exact hk
  | cons t ts ih => exact ih (assign_not_unknown hk)

theorem assigns_prefix {old : Ty} (hk : ¬ Unknown old) (ts : List Ty) :
    alternatives old <+: alternatives (assigns old ts) := by
  induction ts generalizing old with
  | nil => exact List.prefix_rfl
  | cons t ts ih =>
    refine List.IsPrefix.trans ?_ (ih (assign_not_unknown hk))
    rw [assign_adds old t hk]
    split
    · exact List.prefix_rfl
    · exact List.prefix_append _ _

theorem assigns_sound {old : Ty} (hk : ¬ Unknown old) (ts : List Ty) {x : Ty}
    (hx : x ∈ alternatives (assigns old ts)) : x ∈ alternatives old ∨ x ∈ ts := by
  induction ts generalizing old with
  | nil => exact .inl hx
  | cons t ts ih =>
    rcases ih (assign_not_unknown hk) hx with h | h
    · rw [assign_adds old t hk] at h
      split at h
      · exact .inl h
      · simp at h
        rcases h with h | h
        · exact .inl h
        · exact .inr (by simp [h])
    · exact .inr (by simp [h])

theorem assigns_complete {old : Ty} (hk : ¬ Unknown old) (ts : List Ty) {t : Ty} (ht : t ∈ ts) :
    t ∈ alternatives (assigns old ts) ∨ ∀ x ∈ alternatives t, x ∈ alternatives (assigns old ts) := by
  obtain ⟨a, b, rfl⟩ := List.append_of_mem ht
  rw [assigns_append, assigns_cons]
  have hk1 := assigns_not_unknown hk a
  have hk2 := assign_not_unknown (t := t) hk1
  have hp := assigns_prefix hk2 b
  generalize assigns old a = o at *
  by_cases he : o = t
  · right
    intro x hx
    subst he
    rw [assign_same] at hp ⊢
    exact hp.subset hx
  · left
    apply hp.subset
    rw [assign_known hk1 he, mem_addType]
    exact .inr rfl

theorem assigns_nodup {old : Ty} (hk : ¬ Unknown old) (hn : (alternatives old).Nodup) (ts : List Ty) :
    (alternatives (assigns old ts)).Nodup := by
  induction ts generalizing old with
  | nil => exact hn
  | cons t ts ih =>
    apply ih (assign_not_unknown hk)
    by_cases he : old = t
    · subst he; rw [assign_same]; exact hn
    · rw [assign_known hk he]; exact nodup_addType hn

/-- **C30.** After any sequence of assignments to a variable of a known type, its alternatives are the old
ones followed by new ones; every new one was assigned, every assigned type is offered (itself or all its
alternatives), and no alternative is listed twice. -/
theorem variable_type_accumulates (old : Ty) (hk : ¬ Unknown old) (hn : (alternatives old).Nodup) (ts : List Ty) :
    ∃ new, alternatives (assigns old ts) = alternatives old ++ new ∧
      (∀ x ∈ new, x ∈ ts) ∧
      (∀ t ∈ ts, t ∈ alternatives (assigns old ts) ∨ ∀ x ∈ alternatives t, x ∈ alternatives (assigns old ts)) ∧
      (alternatives (assigns old ts)).Nodup := by
  obtain ⟨new, hnew⟩ := assigns_prefix hk ts
  refine ⟨new, hnew.symm, ?_, fun t ht => assigns_complete hk ts ht, assigns_nodup hk hn ts⟩
  intro x hx
  have hnd := assigns_nodup hk hn ts
  rw [← hnew] at hnd
  have hx' : x ∈ alternatives (assigns old ts) := by rw [← hnew]; simp [hx]
  rcases assigns_sound hk ts hx' with h | h
  · exact absurd rfl ((List.nodup_append.1 hnd).2.2 x h x hx)
  · exact h

/-! ### Plain types: the exact result -/

/-- The type offering exactly the types of a list. -/
def offering : List Ty → Ty
  | [t] => t
  | ts => .unsure ts

theorem firstOccurrences_snoc (ts : List Ty) (t : Ty) :
    firstOccurrences (ts ++ [t]) = addType (firstOccurrences ts) t := by
  rw [← addTypes_nil, ← addTypes_nil, addTypes_append]; rfl

/-- The exact type after assigning plain types to a fresh variable: leading `mixed` are forgotten, then every
type is listed once, in the order of its first assignment; a single type is not wrapped. -/
def expected (ts : List Ty) : Ty :=
  match ts.dropWhile (· == Ty.mixed) with
  | [] => .mixed
  | known => offering (firstOccurrences known)

theorem dropWhile_nil {α : Type} {p : α → Bool} : ∀ {l : List α}, l.dropWhile p = [] → ∀ x ∈ l, p x = true
  | [], _, x, hx => by simp at hx
  | a :: l, h, x, hx => by
    cases ha : p a with
    | false => simp [List.dropWhile, ha] at h
    | true =>
      simp only [List.dropWhile, ha] at h
      rcases List.mem_cons.1 hx with rfl | hx
      · exact ha
      · exact dropWhile_nil h x hx

theorem assign_offering {l : List Ty} (hne : l ≠ []) (hm : l ≠ [.mixed]) (hp : ∀ x ∈ l, Plain x) {t : Ty}
    (ht : Plain t) (hnd : l.Nodup) : assign (offering l) t = offering (addType l t) := by
  match l, hne with
  | [a], _ =>
    have ha : Plain a := hp a (by simp)
    show assign a t = _
    by_cases he : a = t
    · subst he; rw [assign_same]; simp [addType, offering]
    · have hu : ¬ Unknown a := by
        rintro (h | h)
        · rw [h] at hm; exact hm rfl
        · rw [h] at ha; exact ha
      have : assign a t = .unsure (addType (addType [] a) t) := by
        unfold assign
        rw [if_neg he]
        split
        · simp [Plain] at ha
        · exact absurd (.inl rfl) hu
        · simp [Plain] at ha
        · simp [Plain] at ha
        · simp [Plain] at ha
        · rfl
      rw [this]
      have hta : t ≠ a := fun h => he h.symm
      simp [addType, hta, offering]
  | a :: b :: l, _ =>
    show assign (.unsure (a :: b :: l)) t = _
    have he : Ty.unsure (a :: b :: l) ≠ t := by rintro rfl; exact ht
    unfold assign
    rw [if_neg he]
    simp only []
    unfold addType
    split
    · rfl
    · rfl

theorem assigns_expected (ts : List Ty) (hp : ∀ x ∈ ts, Plain x) : ∀ t, Plain t →
    assigns t ts = expected (t :: ts) := by
  intro t ht
  have key : ∀ (post pre : List Ty), pre ≠ [] → (∀ x ∈ pre, Plain x) → (∀ x ∈ post, Plain x) →
      assigns (expected pre) post = expected (pre ++ post) := by
    intro post
    induction post with
    | nil => intro pre _ _ _; simp [assigns]
    | cons p post ih =>
      intro pre hne hpre hpost
      rw [assigns_cons]
      have hpp : Plain p := hpost p (by simp)
      have step : assign (expected pre) p = expected (pre ++ [p]) := by
        unfold expected
        cases hd : pre.dropWhile (· == Ty.mixed) with
        | nil =>
          have hall : ∀ x ∈ pre, (x == Ty.mixed) = true := dropWhile_nil hd
          rw [List.dropWhile_append_of_pos hall]
          by_cases he : p = .mixed
          · subst he; simp [List.dropWhile, assign]
          · have : (p == Ty.mixed) = false := by simpa using he
            simp only [List.dropWhile, this]
            rw [assign_unknown (.inl rfl) (fun h => he h.symm)]
            simp [isRef, firstOccurrences, offering]
        | cons a known =>
          have ha : (a == Ty.mixed) = false := by
            have := List.head_dropWhile_not (p := (· == Ty.mixed)) (l := pre) (by rw [hd]; simp)
            simpa [hd] using this
          have happ : (pre ++ [p]).dropWhile (· == Ty.mixed) = (a :: known) ++ [p] := by
            rw [List.dropWhile_append, hd]; simp
          rw [happ]
          show assign (offering (firstOccurrences (a :: known))) p = offering (firstOccurrences ((a :: known) ++ [p]))
          rw [firstOccurrences_snoc]
          apply assign_offering
          · simp [firstOccurrences]
          · simp only [firstOccurrences]
            intro h
            simp only [List.cons.injEq] at h
            rw [h.1] at ha; simp at ha
          · intro x hx
            rw [mem_firstOccurrences] at hx
            apply hpre
            rw [← hd] at hx
            exact (List.dropWhile_sublist _).subset hx
          · exact hpp
          · exact nodup_firstOccurrences _
      rw [step, ih (pre ++ [p]) (by simp) (by
        intro x hx; simp at hx; rcases hx with h | h
        · exact hpre x h
        · rw [h]; exact hpp) (fun x hx => hpost x (by simp [hx]))]
      simp
  have h1 : expected [t] = t := by
    unfold expected
    by_cases hm : t = .mixed
    · subst hm; rfl
    · have : (t == Ty.mixed) = false := by simpa using hm
      simp [List.dropWhile, this, firstOccurrences, offering]
  have := key ts [t] (by simp) (by simpa using ht) hp
  rwa [h1] at this

/-! ### Declarations -/

theorem updateNewest_none {t : Ty} {ds : List Decl} : updateNewest t ds = none ↔ ∀ d ∈ ds, d.isVar = false := by
  induction ds with
  | nil => simp [updateNewest]
  | cons d ds ih =>
    rw [updateNewest]
    cases h : updateNewest t ds with
    | some ds' =>
      simp only [reduceCtorEq, false_iff]
      intro hh
      rw [ih.2 (fun e he => hh e (by simp [he]))] at h
      simp at h
    | none =>
      have := ih.1 h
      simp only [List.mem_cons, forall_eq_or_imp]
      split <;> simp_all

/-- The newest variable declaration is the one that changes; all others are kept. -/
theorem updateNewest_split {t : Ty} (pre post : List Decl) (d : Decl) (hd : d.isVar = true)
    (hpost : ∀ e ∈ post, e.isVar = false) :
    updateNewest t (pre ++ d :: post) = some (pre ++ { d with type := assign d.type t } :: post) := by
  induction pre with
  | nil => simp [updateNewest, updateNewest_none.2 hpost, hd]
  | cons p pre ih => simp [updateNewest, ih]

/-- **C30.** An assignment to a name that has a variable declaration changes the type of the newest such
declaration and nothing else. -/
theorem assignment_updates_newest (pre post : List Decl) (d : Decl) (t : Ty) (hd : d.isVar = true)
    (hpost : ∀ e ∈ post, e.isVar = false) :
    declareVariable (pre ++ d :: post) t = pre ++ { d with type := assign d.type t } :: post := by
  unfold declareVariable
  rw [updateNewest_split pre post d hd hpost]

/-- **C30.** An assignment to a name without variable declaration declares one with the assigned type. -/
theorem assignment_declares (decs : List Decl) (t : Ty) (h : ∀ e ∈ decs, e.isVar = false) :
    declareVariable decs t = decs ++ [⟨true, t⟩] := by
  unfold declareVariable
  rw [updateNewest_none.2 h]

/-- **C30.** However often a name is assigned, one variable is declared for it, and its type is that of the
first assignment after all the later ones. -/
theorem one_declaration (decs : List Decl) (h : ∀ e ∈ decs, e.isVar = false) (t : Ty) (ts : List Ty) :
    assignAll decs (t :: ts) = decs ++ [⟨true, assigns t ts⟩] := by
  show assignAll (declareVariable decs t) ts = _
  rw [assignment_declares decs t h]
  clear h
  induction ts generalizing t with
  | nil => rfl
  | cons t' ts ih =>
    show assignAll (declareVariable (decs ++ [⟨true, t⟩]) t') ts = _
    rw [assignment_updates_newest decs [] ⟨true, t⟩ t' rfl (by simp)]
    exact ih _

/-- **C30.** The type of a variable that is assigned plain types only: `mixed` is forgotten as soon as a proper
type is assigned; then the variable offers every assigned type once, in the order of first assignment. -/
theorem plain_variable_type (decs : List Decl) (h : ∀ e ∈ decs, e.isVar = false) (t : Ty) (ts : List Ty)
    (hp : ∀ x ∈ t :: ts, Plain x) :
    varType (assignAll decs (t :: ts)) = some (expected (t :: ts)) := by
  rw [one_declaration decs h]
  have : decs.filter (·.isVar) = [] := by
    rw [List.filter_eq_nil_iff]; intro a ha; simp [h a ha]
  simp only [varType, List.filter_append, this]
  simp only [List.filter_cons, List.nil_append]
  simp only [if_true, List.filter_nil, List.getLast?_singleton, Option.map_some]
  rw [assigns_expected ts (fun x hx => hp x (by simp [hx])) t (hp t (by simp))]

/-- **C30.** `$this` is never declared as a variable: apart from the array access of a class implementing
`ArrayAccess`, an assignment is reported. -/
theorem this_reported_iff (e : ThisEnv) (t : Ty) :
    ThisProblem.cannotReassign ∈ assignThis e t ↔
      ¬ (e.arrayAccess = true ∧ e.hasClass = true ∧ t = .integral .array) := by
  unfold assignThis
  by_cases h : (e.arrayAccess && e.hasClass && t == .integral .array) = true
  · rw [if_pos h]
    simp only [Bool.and_eq_true, beq_iff_eq] at h
    simp only [h]
    simp only [and_self, not_true_eq_false, iff_false]
    split
    · split <;> simp
    · simp
  · rw [if_neg h]
    simp only [Bool.and_eq_true, beq_iff_eq] at h
    simp only [List.mem_singleton, true_iff]
    intro hh; exact h ⟨⟨hh.1, hh.2.1⟩, hh.2.2⟩

/-- A class using `$this` as array that is neither abstract nor declares all four methods is reported (when its
function names are distinct). -/
theorem this_array_access (e : ThisEnv) (h1 : e.arrayAccess = true) (h2 : e.hasClass = true)
    (h3 : e.isAbstract = false) (hn : e.functions.Nodup) :
    assignThis e (.integral .array) = [] ↔ ∀ m ∈ offsetMethods, m ∈ e.functions := by
  have hcount : (e.functions.filter (fun f => offsetMethods.contains f)).length =
      (offsetMethods.filter (fun m => e.functions.contains m)).length := by
    apply List.Perm.length_eq
    rw [List.perm_ext_iff_of_nodup (List.Pairwise.filter _ hn) (List.Pairwise.filter _ (by decide))]
    intro a
    simp [List.mem_filter, and_comm]
  unfold assignThis
  simp only [h1, h2, h3, Bool.true_and, beq_self_eq_true, if_true, Bool.false_eq_true, if_false, hcount]
  constructor
  · intro h m hm
    have hlen : ¬ (offsetMethods.filter (fun m => e.functions.contains m)).length < 4 := by
      intro hlt; rw [if_pos hlt] at h; simp at h
    have : (offsetMethods.filter (fun m => e.functions.contains m)).length = offsetMethods.length := by
      have := List.length_filter_le (fun m => e.functions.contains m) offsetMethods
      have : offsetMethods.length = 4 := rfl
      omega
    have := (List.length_filter_eq_length_iff.1 this) m hm
    simpa using this
  · intro h
    have : (offsetMethods.filter (fun m => e.functions.contains m)).length = offsetMethods.length :=
      List.length_filter_eq_length_iff.2 (fun m hm => by simpa using h m hm)
    rw [this]
    rfl

/-! ### Concrete cases -/

-- `$a = $unknown; $a = 1; $a = "x"; $a = 2;`
example : varType (assignAll [] [.mixed, .integral .int, .integral .string, .integral .int]) =
    some (.unsure [.integral .int, .integral .string]) := rfl
example : ¬ Unknown (.integral .int) ∧ (alternatives (.integral .int)).Nodup := by decide
-- a later `mixed` is listed
example : assigns (.integral .int) [.mixed] = .unsure [.integral .int, .mixed] := rfl
-- a reference parameter keeps being a reference; note the one-member unsure type
example : assigns (.ref .mixed) [.integral .int, .integral .int] = .ref (.unsure [.integral .int]) := by decide
-- an unsure type becomes a nested member
example : assigns (.integral .string) [.unsure [.integral .int, .integral .string]] =
    .unsure [.integral .string, .unsure [.integral .int, .integral .string]] := rfl
example : assignThis ⟨true, true, false, ["offsetget", "foo"]⟩ (.integral .array) = [.missingOffsetMethods 3] := by
  decide +kernel

end KPhp.Variables
