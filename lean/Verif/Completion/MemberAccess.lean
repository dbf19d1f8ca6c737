import Verif.Completion.TokenAccess
/-!
# Member completion and visibility (C38)

Models `memberAccessContainers` (completion/context.cpp:1047-1083), the listing of members after `->` and `::`
(:1368-1438) and the class around the cursor (:1372-1378).

Taken from KDevPlatform: `isPublicBaseClass(x)` is true iff `x` is the class itself or one of its transitive bases
(bases in PHP are always public); `allDeclarations` of a class context lists the members of the class and of its bases;
`Declaration::AccessPolicy` is ordered Public < Protected < Private (interfaces/… duchain `Declaration::AccessPolicy`).
-/
namespace KPhp.Completion.Access

/-- `Declaration::AccessPolicy`; `rank` is its value. -/
inductive Policy | pub | prot | priv
deriving DecidableEq, Repr

def Policy.rank : Policy → Nat
  | .pub => 0
  | .prot => 1
  | .priv => 2

/-- The types of expressions as `memberAccessContainers` sees them. -/
inductive Ty
  /-- an identified type with the class of its declaration, if that is found and has a context -/
  | cls (c : Option Nat)
  | unsure (ts : List Ty)
  | ref (t : Ty)
  | other

/-- completion/context.cpp:1061-1081: the container for one type -/
def container : Ty → List Nat
  | .cls (some c) => [c]
  | _ => []

/-- completion/context.cpp:1047-1083; a container is the class whose context it is -/
def containers : Ty → List Nat
  | .unsure ts => ts.flatMap container
  | .ref t => container t
  | t => container t

/-- A declaration listed by `allDeclarations` of a class context. -/
structure Member where
  /-- identifies the declaration -/
  id : Nat
  /-- `identifier().isEmpty()` -/
  unnamed : Bool
  /-- a `ClassMemberDeclaration`: staticness, access and the class it is declared in -/
  cls : Option (Bool × Policy × Option Nat)
deriving DecidableEq, Repr

/-- completion/context.cpp:1402-1424: the most restricted access shown. `derives a b`: `a->isPublicBaseClass(b)`. -/
def shown (derives : Nat → Nat → Bool) (current : Option Nat) (accessed : Nat) (owner : Option Nat) : Policy :=
  match current, owner with
  | some c, some m =>
    if c = accessed then
      (if c = m then .priv else if derives c m then .prot else .pub)
    else if derives c accessed && (accessed == m || derives accessed m) then .prot
    else .pub
  | _, _ => .pub

/-- completion/context.cpp:1386-1436: is the member listed? `static`: the operation is `StaticMemberAccess`; the container
always is the context of a class. -/
def listed (derives : Nat → Nat → Bool) (static : Bool) (current : Option Nat) (accessed : Nat) (d : Member) : Bool :=
  match d.cls with
  | none => !static && !d.unnamed
  | some (st, ap, owner) =>
    st == static && !((shown derives current accessed owner).rank < ap.rank) && !d.unnamed

/-- completion/context.cpp:1380-1437; `members c`: `allDeclarations` of the context of the class `c` -/
def memberItems (derives : Nat → Nat → Bool) (members : Nat → List Member) (static : Bool) (current : Option Nat)
    (t : Ty) : List Member :=
  (containers t).flatMap fun c => (members c).filter (listed derives static current c)

/-- The declaration that owns a context. -/
inductive Owner
  | nothing
  /-- `isFunctionDeclaration()`: a function, method or closure -/
  | function
  /-- a `ClassDeclaration` -/
  | cls (c : Nat)
deriving DecidableEq, Repr

/-- completion/context.cpp:1372-1378: the class around the cursor. `scope`: the owners of the context at the cursor, of its parent
context and so on. -/
def currentClass (scope : List Owner) : Option Nat :=
  if scope.head? = some .function then
    match scope.tail.head? with
    | some (.cls c) => some c
    | _ => none
  else none

/-- The listing at a cursor with these contexts around it. -/
def memberCompletion (derives : Nat → Nat → Bool) (members : Nat → List Member) (static : Bool) (scope : List Owner)
    (t : Ty) : List Member := memberItems derives members static (currentClass scope) t

/-! ## Specification -/

/-- PHP: a member of class `owner` with this access may be used inside class `current` (`none`: outside of classes), if
`derives` is the reflexive-transitive inheritance. -/
def Permits (derives : Nat → Nat → Bool) (current : Option Nat) (ap : Policy) (owner : Option Nat) : Prop :=
  match ap with
  | .pub => True
  | .prot => ∃ c m, current = some c ∧ owner = some m ∧ derives c m = true
  | .priv => ∃ c, current = some c ∧ owner = some c

/-- what is taken from KDevPlatform about `isPublicBaseClass` -/
structure Inherits (derives : Nat → Nat → Bool) : Prop where
  refl : ∀ a, derives a a = true
  trans : ∀ a b c, derives a b = true → derives b c = true → derives a c = true

/-- **C38 (visibility).** Every class member that is listed may be used at the cursor, and fits the operator: static members
after `::`, others after `->`. -/
theorem member_visible {derives : Nat → Nat → Bool} (hd : Inherits derives) (members : Nat → List Member) (static : Bool)
    (current : Option Nat) (t : Ty) (d : Member) (h : d ∈ memberItems derives members static current t) :
    d.unnamed = false ∧ match d.cls with
      | none => static = false
      | some (st, ap, owner) => st = static ∧ Permits derives current ap owner := by
  obtain ⟨a, _, h⟩ := List.mem_flatMap.1 h
  obtain ⟨_, h⟩ := List.mem_filter.1 h
  unfold listed at h
  cases hc : d.cls with
  | none => rw [hc] at h; simp at h; exact ⟨h.2, h.1⟩
  | some x =>
    obtain ⟨st, ap, owner⟩ := x
    rw [hc] at h
    simp only [Bool.and_eq_true, beq_iff_eq, Bool.not_eq_true', decide_eq_false_iff_not] at h
    obtain ⟨⟨h1, h2⟩, h3⟩ := h
    refine ⟨h3, h1, ?_⟩
    cases ap with
    | pub => trivial
    | prot =>
      unfold shown at h2
      cases hcur : current with
      | none => rw [hcur] at h2; simp [Policy.rank] at h2
      | some c =>
        cases howner : owner with
        | none => rw [hcur, howner] at h2; simp [Policy.rank] at h2
        | some m =>
          rw [hcur, howner] at h2
          simp only at h2
          refine ⟨c, m, rfl, rfl, ?_⟩
          split at h2
          · split at h2
            · rename_i h; rw [h]; exact hd.refl m
            · split at h2
              · assumption
              · simp [Policy.rank] at h2
          · split at h2
            · rename_i h
              simp at h
              rcases h.2 with h' | h'
              · rw [← h']; exact h.1
              · exact hd.trans c a m h.1 h'
            · simp [Policy.rank] at h2
    | priv =>
      unfold shown at h2
      cases hcur : current with
      | none => rw [hcur] at h2; simp [Policy.rank] at h2
      | some c =>
        cases howner : owner with
        | none => rw [hcur, howner] at h2; simp [Policy.rank] at h2
        | some m =>
          rw [hcur, howner] at h2
          simp only at h2
          split at h2
          · split at h2
            · rename_i h; subst h; exact ⟨c, rfl, rfl⟩
            · split at h2 <;> simp [Policy.rank] at h2
          · split at h2 <;> simp [Policy.rank] at h2

/-- **C38 (nothing public is missing).** Every named public member that fits the operator, of every class the expression may
have, is listed. -/
theorem public_listed (derives : Nat → Nat → Bool) (members : Nat → List Member) (static : Bool) (current : Option Nat)
    (t : Ty) (c : Nat) (hc : c ∈ containers t) (d : Member) (hm : d ∈ members c) (hn : d.unnamed = false) (owner : Option Nat)
    (hcls : d.cls = some (static, .pub, owner)) : d ∈ memberItems derives members static current t := by
  refine List.mem_flatMap.2 ⟨c, hc, List.mem_filter.2 ⟨hm, ?_⟩⟩
  simp [listed, hcls, hn, Policy.rank]

/-- **C38 (own class).** On an object of the current class itself all permitted members that fit are listed. -/
theorem own_members_listed {derives : Nat → Nat → Bool} (members : Nat → List Member) (static : Bool) (c : Nat) (t : Ty)
    (hc : c ∈ containers t) (d : Member) (hm : d ∈ members c) (hn : d.unnamed = false) (ap : Policy) (m : Nat)
    (hcls : d.cls = some (static, ap, some m)) (hp : Permits derives (some c) ap (some m)) :
    d ∈ memberItems derives members static (some c) t := by
  refine List.mem_flatMap.2 ⟨c, hc, List.mem_filter.2 ⟨hm, ?_⟩⟩
  simp only [listed, hcls, hn, beq_self_eq_true, shown, if_true]
  cases ap with
  | pub => simp [Policy.rank]
  | prot =>
    obtain ⟨c', m', h1, h2, h3⟩ := hp
    cases h1; cases h2
    by_cases h : c = m
    · simp [h, Policy.rank]
    · simp [h, h3, Policy.rank]
  | priv =>
    obtain ⟨c', h1, h2⟩ := hp
    cases h1; cases h2
    simp [Policy.rank]

/-- **C38 (parents).** On an object of a base class of the current one all permitted members but private ones are listed. -/
theorem base_members_listed {derives : Nat → Nat → Bool} (members : Nat → List Member) (static : Bool) (c a : Nat) (t : Ty)
    (ha : a ∈ containers t) (hne : c ≠ a) (hca : derives c a = true) (d : Member) (hm : d ∈ members a)
    (hn : d.unnamed = false) (m : Nat) (hcls : d.cls = some (static, .prot, some m)) (ham : derives a m = true) :
    d ∈ memberItems derives members static (some c) t := by
  refine List.mem_flatMap.2 ⟨a, ha, List.mem_filter.2 ⟨hm, ?_⟩⟩
  simp [listed, hcls, hn, shown, hne, hca, ham, Policy.rank]

/-- **Limit of C38.** The converse does not hold for objects of derived classes: inside class 0, a private member of class 0 on an
object of class 1, which derives from 0, is permitted but not listed. -/
theorem derived_object_missing :
    let derives : Nat → Nat → Bool := fun a b => a == b || (a == 1 && b == 0)
    let d : Member := ⟨7, false, some (false, .priv, some 0)⟩
    Permits derives (some 0) .priv (some 0) ∧ d ∉ memberItems derives (fun _ => [d]) false (some 0) (.cls (some 1)) := by
  exact ⟨⟨0, rfl, rfl⟩, by decide⟩

/-- **C38 (containers).** The members of every class an unsure type may be are listed, those of the class a reference refers
to, and those of a class type itself. -/
theorem containers_of (c : Nat) :
    containers (.cls (some c)) = [c] ∧ containers (.ref (.cls (some c))) = [c] ∧
    ∀ ts, c ∈ containers (.unsure ts) ↔ .cls (some c) ∈ ts := by
  refine ⟨rfl, rfl, ?_⟩
  intro ts
  simp only [containers, List.mem_flatMap]
  constructor
  · rintro ⟨t, ht, hc⟩
    cases t with
    | cls o =>
      cases o with
      | none => simp [container] at hc
      | some x => simp [container] at hc; subst hc; exact ht
    | unsure _ => simp [container] at hc
    | ref _ => simp [container] at hc
    | other => simp [container] at hc
  · intro h; exact ⟨_, h, by simp [container]⟩

/-- **Limit.** Nested: a reference to an unsure type, and references inside of an unsure type, have no members. -/
theorem containers_nested (ts : List Ty) (t : Ty) :
    containers (.ref (.unsure ts)) = [] ∧ containers (.unsure [.ref t]) = [] := ⟨rfl, rfl⟩

/-- **C38 (in a method).** With the cursor in a method of class `c`, all members of `c` that fit the operator and are permitted
in `c` are listed for an object of class `c` (e.g. `$this`), private ones included. -/
theorem method_sees_own {derives : Nat → Nat → Bool} (members : Nat → List Member) (static : Bool) (c : Nat)
    (around : List Owner) (d : Member) (hm : d ∈ members c) (hn : d.unnamed = false) (ap : Policy) (m : Nat)
    (hcls : d.cls = some (static, ap, some m)) (hp : Permits derives (some c) ap (some m)) :
    d ∈ memberCompletion derives members static (.function :: .cls c :: around) (.cls (some c)) :=
  own_members_listed members static c _ (by simp [containers, container]) d hm hn ap m hcls hp

/-- **C38 (outside of methods).** With the cursor anywhere else than directly in a method, only public members are listed. -/
theorem outside_only_public (derives : Nat → Nat → Bool) (members : Nat → List Member) (static : Bool) (scope : List Owner)
    (h : ∀ c around, scope ≠ .function :: .cls c :: around) (t : Ty) (d : Member)
    (hd : d ∈ memberCompletion derives members static scope t) (st : Bool) (ap : Policy) (m : Option Nat)
    (hcls : d.cls = some (st, ap, m)) : ap = .pub := by
  have hc : currentClass scope = none := by
    unfold currentClass
    split
    · rename_i hh
      split
      · rename_i c ht
        cases scope with
        | nil => simp at hh
        | cons a l =>
          cases l with
          | nil => simp at ht
          | cons b l =>
            simp at hh ht
            exact absurd (by rw [hh, ht]) (h c l)
      · rfl
    · rfl
  unfold memberCompletion at hd
  rw [hc] at hd
  obtain ⟨a, _, hd⟩ := List.mem_flatMap.1 hd
  obtain ⟨_, hd⟩ := List.mem_filter.1 hd
  unfold listed at hd
  rw [hcls] at hd
  cases ap <;> simp [shown, Policy.rank] at hd ⊢

/-- **Limit of C38.** In a closure inside a method, which has the access of the method, private members are not listed. -/
theorem closure_in_method_hides (derives : Nat → Nat → Bool) (members : Nat → List Member) (static : Bool) (c id : Nat)
    (around : List Owner) (t : Ty) :
    (⟨id, false, some (static, .priv, some c)⟩ : Member) ∉
      memberCompletion derives members static (.function :: .function :: .cls c :: around) t := by
  intro h
  exact absurd (outside_only_public derives members static _ (by intro c' a h; simp at h) t _ h static .priv (some c) rfl)
    (by decide)

/-- a class that inherits from another one: `Inherits` can be met -/
example : Inherits (fun a b => a == b || (a == 1 && b == 0)) :=
  ⟨by simp, by intro a b c; simp; omega⟩

/-- Inside class 1 (which extends 0) on `$this`: its own private member and the protected one of the base, but neither the
private one of the base nor static members. -/
example : memberItems (fun a b => a == b || (a == 1 && b == 0))
    (fun _ => [⟨1, false, some (false, .priv, some 1)⟩, ⟨2, false, some (false, .prot, some 0)⟩,
      ⟨3, false, some (false, .priv, some 0)⟩, ⟨4, false, some (true, .pub, some 0)⟩]) false (some 1) (.cls (some 1)) =
    [⟨1, false, some (false, .priv, some 1)⟩, ⟨2, false, some (false, .prot, some 0)⟩] := by decide

end KPhp.Completion.Access
