import Verif.Chars
/-
The types of the DUChain used by kdev-php.

Trusted KDevPlatform behaviour: an `IndexedType` identifies a type up to `equals`, i.e. structural
equality; `UnsureType::addType` appends a type unless it is already contained.  Type modifiers
(`const`) are not modelled.
-/
namespace KPhp

/-- Data types of KDevPlatform's `IntegralType` used by kdev-php (`void` is the enumerator 0). -/
inductive IKind where
  | void | null | boolean | int | float | string | mixed | array
  deriving DecidableEq, Repr

/-- duchain/types/integraltypeextended.h:28-32. -/
inductive XKind where
  | resource | callable | object
  deriving DecidableEq, Repr

/-- Types of the DUChain: `IntegralType`, `IntegralTypeExtended`, `ArrayType`, `StructureType`
(identified by its class declaration), `FunctionType` (identified by its declaration),
`ReferenceType`, `UnsureType`. -/
inductive Ty where
  | integral (k : IKind)
  | ext (k : XKind)
  | array (elem : Ty)
  | struct (decl : Nat)
  | func (decl : Nat)
  | ref (base : Ty)
  | unsure (types : List Ty)
  deriving Repr

mutual
/-- Structural equality of types is decidable. -/
def Ty.decEq : (a b : Ty) → Decidable (a = b)
  | .integral k, .integral k' =>
    if h : k = k' then .isTrue (by rw [h]) else .isFalse (by simpa using h)
  | .ext k, .ext k' => if h : k = k' then .isTrue (by rw [h]) else .isFalse (by simpa using h)
  | .array a, .array b =>
    match Ty.decEq a b with
    | .isTrue h => .isTrue (by rw [h])
    | .isFalse h => .isFalse (by simpa using h)
  | .struct k, .struct k' => if h : k = k' then .isTrue (by rw [h]) else .isFalse (by simpa using h)
  | .func k, .func k' => if h : k = k' then .isTrue (by rw [h]) else .isFalse (by simpa using h)
  | .ref a, .ref b =>
    match Ty.decEq a b with
    | .isTrue h => .isTrue (by rw [h])
    | .isFalse h => .isFalse (by simpa using h)
  | .unsure a, .unsure b =>
    match Ty.decEqList a b with
    | .isTrue h => .isTrue (by rw [h])
    | .isFalse h => .isFalse (by simpa using h)
  | .integral _, .ext _ | .integral _, .array _ | .integral _, .struct _ | .integral _, .func _
  | .integral _, .ref _ | .integral _, .unsure _
  | .ext _, .integral _ | .ext _, .array _ | .ext _, .struct _ | .ext _, .func _
  | .ext _, .ref _ | .ext _, .unsure _
  | .array _, .integral _ | .array _, .ext _ | .array _, .struct _ | .array _, .func _
  | .array _, .ref _ | .array _, .unsure _
  | .struct _, .integral _ | .struct _, .ext _ | .struct _, .array _ | .struct _, .func _
  | .struct _, .ref _ | .struct _, .unsure _
  | .func _, .integral _ | .func _, .ext _ | .func _, .array _ | .func _, .struct _
  | .func _, .ref _ | .func _, .unsure _
  | .ref _, .integral _ | .ref _, .ext _ | .ref _, .array _ | .ref _, .struct _
  | .ref _, .func _ | .ref _, .unsure _
  | .unsure _, .integral _ | .unsure _, .ext _ | .unsure _, .array _ | .unsure _, .struct _
  | .unsure _, .func _ | .unsure _, .ref _ => .isFalse (by simp)
/-- Structural equality of lists of types is decidable. -/
def Ty.decEqList : (a b : List Ty) → Decidable (a = b)
  | [], [] => .isTrue rfl
  | [], _ :: _ => .isFalse (by simp)
  | _ :: _, [] => .isFalse (by simp)
  | a :: as, b :: bs =>
    match Ty.decEq a b, Ty.decEqList as bs with
    | .isTrue h, .isTrue h' => .isTrue (by rw [h, h'])
    | .isFalse h, _ => .isFalse (by simp [h])
    | _, .isFalse h => .isFalse (by simp [h])
end

instance : DecidableEq Ty := Ty.decEq

/-- `UnsureType::addType` (KDevPlatform, used everywhere): append unless contained. -/
def addType (ts : List Ty) (t : Ty) : List Ty := if t ∈ ts then ts else ts ++ [t]

/-- A sequence of `addType` calls. -/
def addTypes (ts : List Ty) (new : List Ty) : List Ty := new.foldl addType ts

abbrev Ty.mixed : Ty := .integral .mixed
abbrev Ty.null : Ty := .integral .null

/-! ### Specification: `addTypes` keeps the first occurrences -/

/-- The list with every repetition (anything that occurred earlier) left out. -/
def firstOccurrences : List Ty → List Ty
  | [] => []
  | t :: ts => t :: (firstOccurrences ts).filter (fun x => x ≠ t)

theorem mem_addType {ts : List Ty} {t x : Ty} : x ∈ addType ts t ↔ x ∈ ts ∨ x = t := by
  unfold addType; split
  · constructor
    · exact Or.inl
    · rintro (h | rfl)
      · exact h
      · assumption
  · simp

theorem nodup_addType {ts : List Ty} {t : Ty} (h : ts.Nodup) : (addType ts t).Nodup := by
  unfold addType; split
  · exact h
  · rw [List.nodup_append]
    refine ⟨h, by simp, ?_⟩
    intro a ha b hb e
    simp at hb; subst hb; subst e; contradiction

theorem mem_addTypes {new : List Ty} : ∀ {ts : List Ty} {x : Ty},
    x ∈ addTypes ts new ↔ x ∈ ts ∨ x ∈ new := by
  induction new with
  | nil => simp [addTypes]
  | cons t new ih =>
    intro ts x
    have : addTypes ts (t :: new) = addTypes (addType ts t) new := rfl
    rw [this, ih, mem_addType]
    simp [or_assoc]

theorem nodup_addTypes {new : List Ty} : ∀ {ts : List Ty}, ts.Nodup → (addTypes ts new).Nodup := by
  induction new with
  | nil => intro ts h; exact h
  | cons t new ih => intro ts h; exact ih (nodup_addType h)

theorem addTypes_append (ts a b : List Ty) : addTypes ts (a ++ b) = addTypes (addTypes ts a) b := by
  simp [addTypes]

theorem firstOccurrences_append_filter (ts new : List Ty) :
    addTypes ts new = ts ++ (firstOccurrences new).filter (fun x => x ∉ ts) := by
  induction new generalizing ts with
  | nil => simp [addTypes, firstOccurrences]
  | cons t new ih =>
    have : addTypes ts (t :: new) = addTypes (addType ts t) new := rfl
    rw [this, ih, firstOccurrences]
    unfold addType
    by_cases h : t ∈ ts
    · rw [if_pos h, List.filter_cons, if_neg (by simpa using h), List.filter_filter]
      congr 1
      apply List.filter_congr
      intro x _
      by_cases hx : x ∈ ts
      · simp [hx]
      · have : x ≠ t := fun e => hx (e ▸ h)
        simp [hx, this]
    · rw [if_neg h, List.filter_cons, if_pos (by simpa using h), List.filter_filter]
      simp only [List.append_assoc, List.cons_append, List.nil_append, List.append_cancel_left_eq,
        List.cons.injEq, true_and]
      apply List.filter_congr
      intro x _
      by_cases hx : x ∈ ts <;> by_cases hxt : x = t <;> simp [hx, hxt]

/-- Adding types one after the other to an empty unsure type keeps the first occurrences, in
order. -/
theorem addTypes_nil (new : List Ty) : addTypes [] new = firstOccurrences new := by
  rw [firstOccurrences_append_filter]
  simp

theorem mem_firstOccurrences {l : List Ty} {x : Ty} : x ∈ firstOccurrences l ↔ x ∈ l := by
  rw [← addTypes_nil, mem_addTypes]; simp

theorem nodup_firstOccurrences (l : List Ty) : (firstOccurrences l).Nodup := by
  rw [← addTypes_nil]; exact nodup_addTypes List.nodup_nil

/-- Letter case of ASCII letters aside, the same text. -/
def SameIgnoringCase (a b : QString) : Prop := a.map asciiLower = b.map asciiLower

theorem fold_eq_of_lower {u : CharClass} (hu : u.Lawful) {c d : QChar}
    (h : asciiLower c = asciiLower d) : u.fold c = u.fold d := by
  by_cases hc : c < 128
  · have hd : d < 128 := by
      unfold asciiLower at h; split at h <;> split at h <;> omega
    rw [hu.fold_ascii c hc, hu.fold_ascii d hd, h]
  · have : c = d := by unfold asciiLower at h; split at h <;> split at h <;> omega
    rw [this]

theorem toLower_eq_of_lower {u : CharClass} (hu : u.Lawful) {c d : QChar}
    (h : asciiLower c = asciiLower d) : u.toLower c = u.toLower d := by
  by_cases hc : c < 128
  · have hd : d < 128 := by
      unfold asciiLower at h; split at h <;> split at h <;> omega
    rw [hu.lower_ascii c hc, hu.lower_ascii d hd, h]
  · have : c = d := by unfold asciiLower at h; split at h <;> split at h <;> omega
    rw [this]

theorem isSpace_eq_of_lower {u : CharClass} (hu : u.Lawful) {c d : QChar}
    (h : asciiLower c = asciiLower d) : u.isSpace c = u.isSpace d := by
  by_cases hc : c < 128
  · have hd : d < 128 := by
      unfold asciiLower at h; split at h <;> split at h <;> omega
    rw [hu.space_ascii c hc, hu.space_ascii d hd]
    unfold asciiSpace
    unfold asciiLower at h
    rw [Bool.eq_iff_iff]
    simp
    split at h <;> split at h <;> omega
  · have : c = d := by unfold asciiLower at h; split at h <;> split at h <;> omega
    rw [this]

theorem map_congr_lower {β} (f : QChar → β) (hf : ∀ c d, asciiLower c = asciiLower d → f c = f d) :
    ∀ {a b : QString}, SameIgnoringCase a b → a.map f = b.map f
  | [], [], _ => rfl
  | [], _ :: _, h => by simp [SameIgnoringCase] at h
  | _ :: _, [], h => by simp [SameIgnoringCase] at h
  | c :: a, d :: b, h => by
    simp only [SameIgnoringCase, List.map_cons, List.cons.injEq] at h ⊢
    exact ⟨hf c d h.1, map_congr_lower f hf h.2⟩

theorem map_congr_of_map {α β γ} {f : α → β} {g : α → γ} (hfg : ∀ x y, f x = f y → g x = g y) :
    ∀ {a b : List α}, a.map f = b.map f → a.map g = b.map g
  | [], [], _ => rfl
  | [], _ :: _, h => by simp at h
  | _ :: _, [], h => by simp at h
  | x :: a, y :: b, h => by
    simp only [List.map_cons, List.cons.injEq] at h ⊢
    exact ⟨hfg x y h.1, map_congr_of_map hfg h.2⟩

theorem ciEq_congr {u : CharClass} (hu : u.Lawful) {a b : QString} (h : SameIgnoringCase a b)
    (x : QString) : ciEq u a x = ciEq u b x := by
  unfold ciEq
  rw [map_congr_lower u.fold (fun _ _ => fold_eq_of_lower hu) h]

theorem lowerStr_congr {u : CharClass} (hu : u.Lawful) {a b : QString} (h : SameIgnoringCase a b) :
    lowerStr u a = lowerStr u b :=
  map_congr_lower u.toLower (fun _ _ => toLower_eq_of_lower hu) h

end KPhp
