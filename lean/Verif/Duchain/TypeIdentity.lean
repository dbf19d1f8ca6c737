import Verif.Chars
/-
# The identity of types (C93)

Models the type classes kdev-php adds to KDevPlatform: `Php::StructureType` (duchain/types/structuretype.cpp),
`IndexedContainer` (duchain/types/indexedcontainer.cpp), `IntegralTypeExtended`
(duchain/types/integraltypeextended.cpp): their `equals`, `hash` and `toString`, and what they mean for the repository
that gives out the indexes by which declarations refer to their types.

Simplifications:
* KDevPlatform's `StructureType::equals` and `IntegralType::equals` are taken to compare the dynamic class of the types,
  the modifiers, and the declaration (the data type respectively); their hashes are arbitrary functions of these
  (`Platform`).
* KDevPlatform's type repository is the list of the types stored so far; a type is looked for by hash and `equals`, and
  appended if nothing is found.  Its removal of types without references is not modelled.
* `addEntry` and `replaceType` of an invalid position (`Q_ASSERT`) are not modelled.
-/
namespace KPhp.TypeId

/-- The data of a type object. `klass` is `Php::StructureType`, `container` is `IndexedContainer`, `ext` is
`IntegralTypeExtended`.  Entries of a container are indexes of the repository.
(duchain/types/structuretype.h:22-36, indexedcontainer.h:21-47, integraltypeextended.h:28-32) -/
inductive Item where
  | klass (decl mods : Nat) (pretty : QString)
  | container (decl mods : Nat) (pretty : QString) (values : List Nat)
  | ext (kind mods : Nat)
deriving DecidableEq, Repr

/-- What kdev-php takes from KDevPlatform. -/
structure Platform where
  /-- `KDevelop::StructureType::hash` -/
  structHash : Nat → Nat → UInt32
  /-- `KDevelop::IntegralType::hash` -/
  integralHash : Nat → Nat → UInt32
  /-- the number an `IndexedType` is converted to -/
  value : Nat → UInt32
  /-- `KDevelop::StructureType::toString` -/
  structString : Nat → QString
  /-- `KDevelop::IntegralType::toString` -/
  integralString : Nat → QString

/-- `KDevelop::StructureType::equals`: the same dynamic class, declaration and modifiers. -/
def baseEquals : Item → Item → Bool
  | .klass d m _, .klass d' m' _ => d == d' && m == m'
  | .container d m _ _, .container d' m' _ _ => d == d' && m == m'
  | .ext _ m, .ext _ m' => m == m'
  | _, _ => false

/-- duchain/types/indexedcontainer.cpp:105-109: the loop over the entries, from position `i`; `n` entries are left. -/
def sameEntries (a b : List Nat) : Nat → Nat → Bool
  | _, 0 => true
  | i, n + 1 => if b[i]? ≠ a[i]? then false else sameEntries a b (i + 1) n

/-- duchain/types/indexedcontainer.cpp:89-111, integraltypeextended.cpp:58-74; `Php::StructureType` has no `equals` of
its own. `samePtr`: both are the same object. -/
def equals (samePtr : Bool) (a b : Item) : Bool :=
  match a with
  | .klass .. => baseEquals a b
  | .container _ _ _ va =>
    if samePtr then true
    else if !baseEquals a b then false
    else match b with
      | .container _ _ _ vb => if va.length ≠ vb.length then false else sameEntries va vb 0 va.length
      | _ => false
  | .ext k _ =>
    if samePtr then true
    else if !baseEquals a b then false
    else match b with
      | .ext k' _ => k == k'
      | _ => false

/-- duchain/types/indexedcontainer.cpp:116-118 -/
def addEntries (P : Platform) (vs : List Nat) : UInt32 → Nat → Nat → UInt32
  | h, _, 0 => h
  | h, i, n + 1 => addEntries P vs (h + UInt32.ofNat i * P.value (vs[i]?.getD 0)) (i + 1) n

/-- duchain/types/structuretype.cpp:55-58, indexedcontainer.cpp:113-120, integraltypeextended.cpp:53-56 -/
def hash (P : Platform) : Item → UInt32
  | .klass d m _ => 4 * P.structHash d m
  | .container d m _ vs => addEntries P vs (4 * P.structHash d m) 0 vs.length
  | .ext k m => 4 * P.integralHash k m

/-- duchain/types/structuretype.cpp:31-38 -/
def structString (P : Platform) (d : Nat) (pretty : QString) : QString :=
  if pretty.isEmpty then P.structString d else pretty

/-- duchain/types/indexedcontainer.cpp:64-73: the loop, from position `i`; `n` entries are left. -/
def entryStrings (shown : Nat → QString) (vs : List Nat) : Nat → Nat → List QString
  | _, 0 => []
  | i, n + 1 =>
    if i ≥ 5 then [q! "..."]
    else shown (vs[i]?.getD 0) :: entryStrings shown vs (i + 1) n

/-- `QStringList::join` -/
def join (sep : QString) : List QString → QString
  | [] => []
  | [x] => x
  | x :: xs => x ++ sep ++ join sep xs

/-- duchain/types/structuretype.cpp:31-38, indexedcontainer.cpp:61-76, integraltypeextended.cpp:36-46;
`shown`: the text of the type with an index (`typeAt(i).abstractType()->toString()`).
The translation of the text "%1 of %2" is the identity.  0, 1, 2 stand for `TypeResource`, `TypeCallable`,
`TypeObject` (integraltypeextended.h:28-32). -/
def toStr (P : Platform) (shown : Nat → QString) : Item → QString
  | .klass d _ pretty => structString P d pretty
  | .container d _ pretty vs =>
    structString P d pretty ++ q! " of " ++ (q! "(" ++ join (q! ", ") (entryStrings shown vs 0 vs.length) ++ q! ")")
  | .ext k _ =>
    if k = 0 then q! "resource" else if k = 1 then q! "callable" else if k = 2 then q! "object"
    else P.integralString k

/-- duchain/types/indexedcontainer.cpp:78-81 -/
def containerString (P : Platform) : Item → QString
  | .klass d _ pretty | .container d _ pretty _ => structString P d pretty
  | it => toStr P (fun _ => []) it

/-- duchain/types/indexedcontainer.cpp:39-43 -/
def addEntry (vs : List Nat) (t : Nat) : List Nat := vs ++ [t]

/-- duchain/types/indexedcontainer.cpp:51-55 -/
def replaceType (vs : List Nat) (i t : Nat) : List Nat := vs.set i t

/-! ## The repository -/

/-- The types stored so far; the type with index `i + 1` is at position `i`. -/
abbrev Repo := List Item

/-- The position of the first stored type with the hash of `it` that equals it. -/
def find (P : Platform) (it : Item) : Repo → Option Nat
  | [] => none
  | x :: xs =>
    if hash P x = hash P it ∧ equals false it x = true then some 0 else (find P it xs).map (· + 1)

/-- `AbstractType::indexed`: the index of a type, which is stored if it is not yet. -/
def index (P : Platform) (r : Repo) (it : Item) : Repo × Nat :=
  match find P it r with
  | some i => (r, i + 1)
  | none => (r ++ [it], r.length + 1)

/-- The type with an index (`IndexedType::abstractType`). -/
def at? (r : Repo) : Nat → Option Item
  | 0 => none
  | i + 1 => r[i]?

/-! ## Specification -/

/-- A type as the user sees it: containers contain types. -/
inductive Tree where
  | klass (decl mods : Nat) (pretty : QString)
  | container (decl mods : Nat) (pretty : QString) (entries : List Tree)
  | ext (kind mods : Nat)

mutual
/-- Two types are the same: the same class (or kind) and modifiers, and for containers the same entries in the same
order.  How the name of the class is written is not compared. -/
def Same : Tree → Tree → Prop
  | .klass d m _, .klass d' m' _ => d = d' ∧ m = m'
  | .container d m _ es, .container d' m' _ es' => d = d' ∧ m = m' ∧ SameAll es es'
  | .ext k m, .ext k' m' => k = k' ∧ m = m'
  | _, _ => False
/-- `Same`, one by one. -/
def SameAll : List Tree → List Tree → Prop
  | [], [] => True
  | a :: as, b :: bs => Same a b ∧ SameAll as bs
  | _, _ => False
end

mutual
/-- A type is built from the entries to the container: each entry is added by its index (`addEntry`); the result is the
index of the whole. -/
def build (P : Platform) : Tree → Repo → Repo × Nat
  | .klass d m p, r => index P r (.klass d m p)
  | .ext k m, r => index P r (.ext k m)
  | .container d m p es, r =>
    let (r', vs) := buildAll P es r []
    index P r' (.container d m p vs)
/-- The entries are added one after the other. -/
def buildAll (P : Platform) : List Tree → Repo → List Nat → Repo × List Nat
  | [], r, vs => (r, vs)
  | e :: es, r, vs =>
    let (r', i) := build P e r
    buildAll P es r' (addEntry vs i)
end

/-- A history of the repository: types are built one after the other, each gets an index. -/
def history (P : Platform) : List Tree → Repo → Repo × List Nat
  | [], r => (r, [])
  | t :: ts, r =>
    let (r', i) := build P t r
    let (r'', is) := history P ts r'
    (r'', i :: is)

/-! ## `equals` and `hash` -/

/-- What `equals` compares. -/
def SameItem : Item → Item → Prop
  | .klass d m _, .klass d' m' _ => d = d' ∧ m = m'
  | .container d m _ vs, .container d' m' _ vs' => d = d' ∧ m = m' ∧ vs = vs'
  | .ext k m, .ext k' m' => k = k' ∧ m = m'
  | _, _ => False

theorem sameEntries_iff (a b : List Nat) : ∀ n i, sameEntries a b i n = true ↔ ∀ j, i ≤ j → j < i + n → a[j]? = b[j]? := by
  intro n
  induction n with
  | zero => intro i; simp only [sameEntries, true_iff]; intro j h1 h2; omega
  | succ n ih =>
    intro i
    simp only [sameEntries]
    by_cases h : b[i]? = a[i]?
    · rw [if_neg (by simpa using h), ih]
      constructor
      · intro H j h1 h2
        by_cases hj : j = i
        · rw [hj]; exact h.symm
        · exact H j (by omega) (by omega)
      · intro H j h1 h2; exact H j (by omega) (by omega)
    · rw [if_pos h]
      constructor
      · intro H; exact absurd H (by simp)
      · intro H; exact absurd (H i (Nat.le_refl i) (by omega)).symm h

/-- **C93.** Types compare as equal exactly if they are the same: same kind of type, same class, same modifiers, same
entries in the same order.  (`this == rhs` makes no difference.) -/
theorem equals_iff (p : Bool) (a b : Item) (hp : p = true → a = b) : equals p a b = true ↔ SameItem a b := by
  cases a with
  | klass d m n => cases b <;> simp [equals, baseEquals, SameItem]
  | ext k m =>
    cases p with
    | true => have := hp rfl; subst this; simp [equals, SameItem]
    | false =>
      cases b with
      | ext k' m' =>
        simp only [equals, baseEquals, SameItem]
        by_cases h : m = m' <;> simp [h]
      | klass => simp [equals, baseEquals, SameItem]
      | container => simp [equals, baseEquals, SameItem]
  | container d m n vs =>
    cases p with
    | true => have := hp rfl; subst this; simp [equals, SameItem]
    | false =>
      cases b with
      | ext k' m' => simp [equals, baseEquals, SameItem]
      | klass => simp [equals, baseEquals, SameItem]
      | container d' m' n' vs' =>
        simp only [equals, baseEquals, SameItem]
        by_cases hd : d = d'
        · by_cases hm : m = m'
          · subst hd; subst hm
            simp only [beq_self_eq_true, Bool.and_self, Bool.not_true, Bool.false_eq_true, ↓reduceIte, true_and]
            by_cases hl : vs.length = vs'.length
            · rw [if_neg (by simpa using hl), sameEntries_iff]
              constructor
              · intro H
                apply List.ext_getElem? 
                intro i
                by_cases hi : i < vs.length
                · exact H i (Nat.zero_le _) (by omega)
                · rw [List.getElem?_eq_none (by omega), List.getElem?_eq_none (by omega)]
              · intro h j _ _; rw [h]
            · rw [if_pos hl]
              constructor
              · intro h; exact absurd h (by simp)
              · intro h; exact absurd (congrArg List.length h) hl
          · simp [hd, hm]
        · simp [hd]

/-- **C93.** Comparing types is an equivalence relation. -/
theorem equals_refl (p : Bool) (a : Item) : equals p a a = true := by
  rw [equals_iff p a a (fun _ => rfl)]; cases a <;> simp [SameItem]
theorem SameItem.symm {a b : Item} (h : SameItem a b) : SameItem b a := by
  cases a <;> cases b <;> simp_all [SameItem]
theorem SameItem.trans {a b c : Item} (h : SameItem a b) (h' : SameItem b c) : SameItem a c := by
  cases a <;> cases b <;> cases c <;> simp_all [SameItem]
theorem equals_symm (a b : Item) : equals false a b = equals false b a := by
  have h1 := equals_iff false a b (by simp)
  have h2 := equals_iff false b a (by simp)
  have : SameItem a b ↔ SameItem b a := ⟨.symm, .symm⟩
  rw [Bool.eq_iff_iff, h1, h2, this]
theorem equals_trans (a b c : Item) (h : equals false a b = true) (h' : equals false b c = true) :
    equals false a c = true := by
  rw [equals_iff _ _ _ (by simp)] at h h' ⊢; exact h.trans h'

/-- **C93.** Equal types have equal hashes. -/
theorem hash_of_equals (P : Platform) (a b : Item) (h : equals false a b = true) : hash P a = hash P b := by
  rw [equals_iff _ _ _ (by simp)] at h
  cases a <;> cases b <;> simp_all [SameItem, hash]

/-! ## The repository gives every type one index -/

theorem find_some (P : Platform) (it : Item) : ∀ (r : Repo) (i : Nat), find P it r = some i →
    ∃ x, r[i]? = some x ∧ SameItem it x := by
  intro r
  induction r with
  | nil => intro i h; simp [find] at h
  | cons x xs ih =>
    intro i h
    simp only [find] at h
    split at h
    · rename_i hx
      cases h
      exact ⟨x, rfl, (equals_iff _ _ _ (by simp)).1 hx.2⟩
    · cases hf : find P it xs with
      | none => rw [hf] at h; simp at h
      | some j =>
        rw [hf] at h
        simp only [Option.map_some, Option.some.injEq] at h
        obtain ⟨y, h1, h2⟩ := ih j hf
        exact ⟨y, by rw [← h]; simpa using h1, h2⟩

theorem find_none (P : Platform) (it : Item) : ∀ (r : Repo), find P it r = none → ∀ x ∈ r, ¬ SameItem it x := by
  intro r
  induction r with
  | nil => intro _ x hx; simp at hx
  | cons y ys ih =>
    intro h x hx hs
    simp only [find] at h
    split at h
    · simp at h
    · rename_i hy
      rcases List.mem_cons.1 hx with rfl | hx
      · have he := (equals_iff false it x (by simp)).2 hs
        exact hy ⟨(hash_of_equals P it x he).symm, he⟩
      · cases hf : find P it ys with
        | none => exact ih hf x hx hs
        | some j => rw [hf] at h; simp at h

/-- No type is stored twice. -/
def Once (r : Repo) : Prop := ∀ (i j : Nat) (x y : Item), r[i]? = some x → r[j]? = some y → SameItem x y → i = j

theorem index_prefix (P : Platform) (r : Repo) (it : Item) : r <+: (index P r it).1 := by
  unfold index; split
  · exact List.prefix_refl _
  · exact List.prefix_append _ _

theorem index_at (P : Platform) (r : Repo) (it : Item) :
    ∃ x, at? (index P r it).1 (index P r it).2 = some x ∧ SameItem it x := by
  unfold index; split
  · rename_i i h; exact find_some P it r i h
  · refine ⟨it, ?_, ?_⟩
    · simp [at?]
    · cases it <;> simp [SameItem]

theorem index_once (P : Platform) (r : Repo) (it : Item) (h : Once r) : Once (index P r it).1 := by
  unfold index; split
  · exact h
  · rename_i hn
    intro i j x y hi hj hs
    have key := find_none P it r hn
    have hcase : ∀ k z, (r ++ [it])[k]? = some z → (k < r.length ∧ r[k]? = some z) ∨ (k = r.length ∧ z = it) := by
      intro k z hk
      by_cases hlt : k < r.length
      · rw [List.getElem?_append_left hlt] at hk; exact .inl ⟨hlt, hk⟩
      · rw [List.getElem?_append_right (by omega)] at hk
        by_cases h0 : k - r.length = 0
        · rw [h0] at hk; simp at hk; exact .inr ⟨by omega, hk.symm⟩
        · rw [List.getElem?_eq_none (by simp; omega)] at hk; simp at hk
    rcases hcase i x hi with ⟨_, hi'⟩ | ⟨hi1, rfl⟩
    · rcases hcase j y hj with ⟨_, hj'⟩ | ⟨hj1, rfl⟩
      · exact h i j x y hi' hj' hs
      · exact absurd hs.symm (key x (List.mem_of_getElem? hi'))
    · rcases hcase j y hj with ⟨_, hj'⟩ | ⟨hj1, rfl⟩
      · exact absurd hs (key y (List.mem_of_getElem? hj'))
      · omega

mutual
/-- The type with index `i` is `t`, up to the names of classes. -/
def Den (r : Repo) : Tree → Nat → Prop
  | .klass d m _, i => ∃ p, at? r i = some (.klass d m p)
  | .ext k m, i => at? r i = some (.ext k m)
  | .container d m _ es, i => ∃ p vs, at? r i = some (.container d m p vs) ∧ DenAll r es vs
def DenAll (r : Repo) : List Tree → List Nat → Prop
  | [], vs => vs = []
  | e :: es, vs => ∃ v vs', vs = v :: vs' ∧ Den r e v ∧ DenAll r es vs'
end

theorem at_mono {r r' : Repo} (h : r <+: r') {i : Nat} {x : Item} (hx : at? r i = some x) : at? r' i = some x := by
  cases i with
  | zero => simp [at?] at hx
  | succ i =>
    obtain ⟨s, rfl⟩ := h
    simp only [at?] at hx ⊢
    rw [List.getElem?_append_left]
    · exact hx
    · exact (List.getElem?_eq_some_iff.1 hx).1

mutual
theorem den_mono {r r' : Repo} (h : r <+: r') : ∀ (t : Tree) (i : Nat), Den r t i → Den r' t i
  | .klass .., _, ⟨p, hp⟩ => ⟨p, at_mono h hp⟩
  | .ext .., _, hp => by unfold Den at hp ⊢; exact at_mono h hp
  | .container _ _ _ es, _, ⟨p, vs, hp, hv⟩ => ⟨p, vs, at_mono h hp, denAll_mono h es vs hv⟩
theorem denAll_mono {r r' : Repo} (h : r <+: r') : ∀ (ts : List Tree) (vs : List Nat), DenAll r ts vs → DenAll r' ts vs
  | [], _, hv => by unfold DenAll at hv ⊢; exact hv
  | t :: ts, _, ⟨v, vs', h1, h2, h3⟩ => ⟨v, vs', h1, den_mono h t v h2, denAll_mono h ts vs' h3⟩
end

theorem denAll_append {r : Repo} : ∀ {ts ts' : List Tree} {vs vs' : List Nat}, DenAll r ts vs → DenAll r ts' vs' →
    DenAll r (ts ++ ts') (vs ++ vs')
  | [], _, vs, _, h, h' => by unfold DenAll at h; subst h; simpa using h'
  | t :: ts, ts', _, vs', ⟨v, ws, h1, h2, h3⟩, h' => by
    subst h1
    simp only [List.cons_append]
    exact ⟨v, ws ++ vs', rfl, h2, denAll_append h3 h'⟩

mutual
theorem build_den (P : Platform) : ∀ (t : Tree) (r : Repo), Once r →
    Once (build P t r).1 ∧ r <+: (build P t r).1 ∧ Den (build P t r).1 t (build P t r).2
  | .klass d m p, r, h => by
    obtain ⟨x, hx, hs⟩ := index_at P r (.klass d m p)
    refine ⟨index_once P r _ h, index_prefix P r _, ?_⟩
    cases x with
    | klass d' m' p' => obtain ⟨rfl, rfl⟩ := hs; exact ⟨p', hx⟩
    | _ => exact hs.elim
  | .ext k m, r, h => by
    obtain ⟨x, hx, hs⟩ := index_at P r (.ext k m)
    refine ⟨index_once P r _ h, index_prefix P r _, ?_⟩
    cases x with
    | ext d' m' => obtain ⟨rfl, rfl⟩ := hs; unfold Den; exact hx
    | _ => exact hs.elim
  | .container d m p es, r, h => by
    obtain ⟨h1, h2, h3⟩ := buildAll_den P es r [] h
    simp only [build]
    revert h1 h2 h3
    generalize buildAll P es r [] = q
    obtain ⟨r', vs⟩ := q
    intro h1 h2 h3
    obtain ⟨x, hx, hs⟩ := index_at P r' (.container d m p vs)
    have hp := index_prefix P r' (.container d m p vs)
    refine ⟨index_once P r' _ h1, h2.trans hp, ?_⟩
    obtain ⟨ws, hw, hd⟩ := h3
    simp only [List.nil_append] at hw
    cases x with
    | container d' m' p' vs' =>
      obtain ⟨rfl, rfl, rfl⟩ := hs
      exact ⟨p', _, hx, hw ▸ denAll_mono hp es _ hd⟩
    | _ => exact hs.elim
theorem buildAll_den (P : Platform) : ∀ (ts : List Tree) (r : Repo) (vs : List Nat), Once r →
    Once (buildAll P ts r vs).1 ∧ r <+: (buildAll P ts r vs).1 ∧
      ∃ ws, (buildAll P ts r vs).2 = vs ++ ws ∧ DenAll (buildAll P ts r vs).1 ts ws
  | [], r, vs, h => ⟨h, List.prefix_refl _, [], by simp [buildAll], by simp [DenAll]⟩
  | t :: ts, r, vs, h => by
    have a := build_den P t r h
    simp only [buildAll]
    revert a
    generalize build P t r = q
    obtain ⟨r', i⟩ := q
    rintro ⟨a1, a2, a3⟩
    obtain ⟨b1, b2, ws, b3, b4⟩ := buildAll_den P ts r' (addEntry vs i) a1
    refine ⟨b1, a2.trans b2, i :: ws, ?_, ?_⟩
    · rw [b3]; simp [addEntry]
    · exact ⟨i, ws, rfl, den_mono b2 t i a3, b4⟩
end

theorem at_once {r : Repo} (h : Once r) {i j : Nat} {x y : Item} (hx : at? r i = some x) (hy : at? r j = some y)
    (hs : SameItem x y) : i = j := by
  cases i with
  | zero => simp [at?] at hx
  | succ i =>
    cases j with
    | zero => simp [at?] at hy
    | succ j => exact congrArg (· + 1) (h i j x y hx hy hs)

mutual
theorem den_same {r : Repo} (h : Once r) : ∀ (a b : Tree) (i j : Nat), Den r a i → Den r b j → (i = j ↔ Same a b)
  | .klass d m p, b, i, j, ⟨q, hq⟩, hb => by
    cases b with
    | klass d' m' p' =>
      obtain ⟨q', hq'⟩ := hb
      constructor
      · rintro rfl; rw [hq] at hq'; cases hq'; exact ⟨rfl, rfl⟩
      · rintro ⟨rfl, rfl⟩; exact at_once h hq hq' ⟨rfl, rfl⟩
    | container d' m' p' es =>
      obtain ⟨q', vs, hq', _⟩ := hb
      exact ⟨(by rintro rfl; rw [hq] at hq'; cases hq'), False.elim⟩
    | ext k m' =>
      unfold Den at hb
      exact ⟨(by rintro rfl; rw [hq] at hb; cases hb), False.elim⟩
  | .ext k m, b, i, j, ha, hb => by
    unfold Den at ha
    cases b with
    | klass d' m' p' =>
      obtain ⟨q', hq'⟩ := hb
      exact ⟨(by rintro rfl; rw [ha] at hq'; cases hq'), False.elim⟩
    | container d' m' p' es =>
      obtain ⟨q', vs, hq', _⟩ := hb
      exact ⟨(by rintro rfl; rw [ha] at hq'; cases hq'), False.elim⟩
    | ext k' m' =>
      unfold Den at hb
      constructor
      · rintro rfl; rw [ha] at hb; cases hb; exact ⟨rfl, rfl⟩
      · rintro ⟨rfl, rfl⟩; exact at_once h ha hb ⟨rfl, rfl⟩
  | .container d m p es, b, i, j, ⟨q, vs, hq, hv⟩, hb => by
    cases b with
    | klass d' m' p' =>
      obtain ⟨q', hq'⟩ := hb
      exact ⟨(by rintro rfl; rw [hq] at hq'; cases hq'), False.elim⟩
    | container d' m' p' es' =>
      obtain ⟨q', vs', hq', hv'⟩ := hb
      have ih := denAll_same h es es' vs vs' hv hv'
      constructor
      · rintro rfl; rw [hq] at hq'; cases hq'; exact ⟨rfl, rfl, ih.1 rfl⟩
      · rintro ⟨rfl, rfl, hs⟩; exact at_once h hq hq' ⟨rfl, rfl, ih.2 hs⟩
    | ext k m' =>
      unfold Den at hb
      exact ⟨(by rintro rfl; rw [hq] at hb; cases hb), False.elim⟩
theorem denAll_same {r : Repo} (h : Once r) : ∀ (as bs : List Tree) (vs ws : List Nat), DenAll r as vs → DenAll r bs ws →
    (vs = ws ↔ SameAll as bs)
  | [], bs, vs, ws, ha, hb => by
    unfold DenAll at ha
    subst ha
    cases bs with
    | nil => unfold DenAll at hb; subst hb; simp [SameAll]
    | cons b bs => obtain ⟨w, ws', rfl, _, _⟩ := hb; simp [SameAll]
  | a :: as, bs, vs, ws, ⟨v, vs', hv, h1, h2⟩, hb => by
    subst hv
    cases bs with
    | nil => unfold DenAll at hb; subst hb; simp [SameAll]
    | cons b bs =>
      obtain ⟨w, ws', rfl, g1, g2⟩ := hb
      have i1 := den_same h a b v w h1 g1
      have i2 := denAll_same h as bs vs' ws' h2 g2
      simp only [List.cons.injEq, SameAll, i1, i2]
end

theorem history_den (P : Platform) : ∀ (ts : List Tree) (r : Repo), Once r →
    Once (history P ts r).1 ∧ r <+: (history P ts r).1 ∧ DenAll (history P ts r).1 ts (history P ts r).2
  | [], r, h => ⟨h, List.prefix_refl _, by simp [history, DenAll]⟩
  | t :: ts, r, h => by
    have a := build_den P t r h
    simp only [history]
    revert a
    generalize build P t r = q
    obtain ⟨r', i⟩ := q
    rintro ⟨a1, a2, a3⟩
    obtain ⟨b1, b2, b3⟩ := history_den P ts r' a1
    exact ⟨b1, a2.trans b2, i, _, rfl, den_mono b2 t i a3, b3⟩

theorem denAll_get {r : Repo} : ∀ {ts : List Tree} {vs : List Nat}, DenAll r ts vs → ∀ {k : Nat} {t : Tree}, ts[k]? = some t →
    ∃ v, vs[k]? = some v ∧ Den r t v
  | [], _, _, k, t, hk => by simp at hk
  | s :: ts, _, ⟨v, vs', rfl, h2, h3⟩, k, t, hk => by
    cases k with
    | zero => simp at hk; subst hk; exact ⟨v, rfl, h2⟩
    | succ k => simpa using denAll_get h3 (by simpa using hk)

/-- **C93.** Whatever types are built one after the other, each gets an index, and two of them get the same index
exactly if they are the same type: the same class or kind, and containers of the same types in the same order. -/
theorem same_index_iff (P : Platform) (ts : List Tree) (k l : Nat) (a b : Tree) (ha : ts[k]? = some a) (hb : ts[l]? = some b) :
    ∃ i j, (history P ts []).2[k]? = some i ∧ (history P ts []).2[l]? = some j ∧ (i = j ↔ Same a b) := by
  have h0 : Once [] := by intro i j x y hi; simp at hi
  obtain ⟨h1, _, h3⟩ := history_den P ts [] h0
  obtain ⟨i, hi, da⟩ := denAll_get h3 ha
  obtain ⟨j, hj, db⟩ := denAll_get h3 hb
  exact ⟨i, j, hi, hj, den_same h1 a b i j da db⟩

/-- **C93.** The type with an index that was given out is the type it was given out for, also after any number of
further types: its class, modifiers and entries are unchanged (`Den`). -/
theorem index_keeps (P : Platform) (ts us : List Tree) (k : Nat) (a : Tree) (ha : ts[k]? = some a) :
    ∃ i, (history P ts []).2[k]? = some i ∧ Den (history P us (history P ts []).1).1 a i := by
  have h0 : Once [] := by intro i j x y hi; simp at hi
  obtain ⟨h1, _, h3⟩ := history_den P ts [] h0
  obtain ⟨i, hi, da⟩ := denAll_get h3 ha
  exact ⟨i, hi, den_mono (history_den P us _ h1).2.1 a i da⟩

/-! ## Texts -/

theorem entryStrings_eq (shown : Nat → QString) (vs : List Nat) : ∀ (n i : Nat), i + n = vs.length → i ≤ 5 →
    entryStrings shown vs i n = ((vs.drop i).take (5 - i)).map shown ++ (if vs.length > 5 then [q! "..."] else []) := by
  intro n
  induction n with
  | zero =>
    intro i h hi
    rw [List.drop_eq_nil_of_le (by omega), if_neg (by omega)]
    simp [entryStrings]
  | succ n ih =>
    intro i h hi
    simp only [entryStrings]
    by_cases h5 : i ≥ 5
    · have : i = 5 := by omega
      subst this
      rw [if_pos h5, if_pos (by omega)]
      simp
    · rw [if_neg h5, ih (i + 1) (by omega) (by omega)]
      have hlt : i < vs.length := by omega
      rw [List.drop_eq_getElem_cons hlt]
      have h6 : 5 - i = (5 - (i + 1)) + 1 := by omega
      rw [h6, List.take_succ_cons, List.map_cons, List.getElem?_eq_getElem hlt]
      rfl

/-- **C93.** A container with at most five entries is shown as the name of its class and the texts of all entries, in
their order. -/
theorem container_shown (P : Platform) (shown : Nat → QString) (d m : Nat) (name : QString) (hn : name ≠ []) (vs : List Nat)
    (h : vs.length ≤ 5) :
    toStr P shown (.container d m name vs) = name ++ q! " of (" ++ join (q! ", ") (vs.map shown) ++ q! ")" := by
  have hne : name.isEmpty = false := by cases name <;> simp_all
  have h5 : ¬ vs.length > 5 := by omega
  have he := entryStrings_eq shown vs vs.length 0 (by omega) (by omega)
  simp only [if_neg h5] at he
  simp only [toStr, structString, he, hne]
  simp only [List.drop_zero, Nat.sub_zero, List.append_nil, Bool.false_eq_true, ↓reduceIte]
  rw [List.take_of_length_le h]
  simp only [List.append_assoc]
  congr 1

/-- **C93.** With more than five entries, the first five and three dots are shown. -/
theorem long_container_shown (P : Platform) (shown : Nat → QString) (d m : Nat) (name : QString) (hn : name ≠ [])
    (v1 v2 v3 v4 v5 v6 : Nat) (more : List Nat) :
    toStr P shown (.container d m name (v1 :: v2 :: v3 :: v4 :: v5 :: v6 :: more)) =
      name ++ q! " of (" ++ shown v1 ++ q! ", " ++ shown v2 ++ q! ", " ++ shown v3 ++ q! ", " ++ shown v4 ++ q! ", " ++
        shown v5 ++ q! ", ...)" := by
  have hne : name.isEmpty = false := by cases name <;> simp_all
  have he := entryStrings_eq shown (v1 :: v2 :: v3 :: v4 :: v5 :: v6 :: more) _ 0 (Nat.zero_add _) (by omega)
  have h5 : (v1 :: v2 :: v3 :: v4 :: v5 :: v6 :: more).length > 5 := by simp
  simp only [if_pos h5] at he
  simp only [toStr, structString, he, hne]
  simp only [List.drop_zero, Nat.sub_zero, Bool.false_eq_true, ↓reduceIte, List.take_succ_cons, List.take_zero,
    List.map_cons, List.map_nil, List.cons_append, List.nil_append, join, List.append_assoc]

/-- **C93.** A class type is shown with the name it was given; without a name, as KDevPlatform does. -/
theorem class_shown (P : Platform) (shown : Nat → QString) (d m : Nat) (name : QString) :
    (name ≠ [] → toStr P shown (.klass d m name) = name) ∧ toStr P shown (.klass d m []) = P.structString d := by
  constructor
  · intro h
    have : name.isEmpty = false := by cases name <;> simp_all
    simp [toStr, structString, this]
  · rfl

/-- **C93.** The three further kinds of types are shown with the words of PHP. -/
theorem kinds_shown (P : Platform) (shown : Nat → QString) (m : Nat) :
    toStr P shown (.ext 0 m) = q! "resource" ∧ toStr P shown (.ext 1 m) = q! "callable" ∧
      toStr P shown (.ext 2 m) = q! "object" := ⟨rfl, rfl, rfl⟩

/-- **C93.** The container without its entries is shown with the name of the class. -/
theorem container_name_shown (P : Platform) (d m : Nat) (name : QString) (vs : List Nat) (shown : Nat → QString) :
    containerString P (.container d m name vs) = toStr P shown (.klass d m name) := rfl

/-- **C93.** Adding an entry puts it behind the others; replacing one leaves the others. -/
theorem entries_after_add (vs : List Nat) (t i : Nat) :
    (addEntry vs t)[i]? = if i = vs.length then some t else vs[i]? := by
  unfold addEntry
  by_cases h : i = vs.length
  · rw [if_pos h, h]; simp
  · rw [if_neg h]
    by_cases h2 : i < vs.length
    · rw [List.getElem?_append_left h2]
    · rw [List.getElem?_eq_none (by simp; omega), List.getElem?_eq_none (by omega)]
theorem entries_after_replace (vs : List Nat) (k t i : Nat) (hk : k < vs.length) :
    (replaceType vs k t)[i]? = if i = k then some t else vs[i]? := by
  unfold replaceType
  rw [List.getElem?_set]
  by_cases h : i = k
  · rw [if_pos h.symm, if_pos h, if_pos hk]
  · rw [if_neg (fun e => h e.symm), if_neg h]

/-! ## Findings -/

/-- How the name of a class is written is not part of the identity of its type: if a type was stored before with another
writing, it is shown in the old writing.  (A class `Foo` that is renamed to `FOO` goes on being shown as `Foo` as long as
the old type is stored: the declaration is found by the folded name, and stays the same.) -/
theorem first_writing_shown (P : Platform) (d m : Nat) (old new : QString) (ts : List Tree) (shown : Nat → QString)
    (ho : old ≠ []) : ∃ x, at? (history P (.klass d m old :: ts ++ [.klass d m new]) []).1 1 = some x ∧
      toStr P shown x = old ∧ (history P (.klass d m old :: ts ++ [.klass d m new]) []).2[ts.length + 1]? = some 1 := by
  have h0 : Once [] := by intro i j x y hi; simp at hi
  have hb : build P (.klass d m old) [] = ([.klass d m old], 1) := rfl
  have hh : history P (.klass d m old :: ts ++ [.klass d m new]) [] =
      ((history P (ts ++ [.klass d m new]) [.klass d m old]).1, 1 :: (history P (ts ++ [.klass d m new]) [.klass d m old]).2) := by
    simp only [List.cons_append, history, hb]
  have h1 : Once ([.klass d m old] : Repo) := by simpa [hb] using (build_den P (.klass d m old) [] h0).1
  obtain ⟨_, hp, _⟩ := history_den P (ts ++ [.klass d m new]) [.klass d m old] h1
  refine ⟨.klass d m old, ?_, (class_shown P shown d m old).1 ho, ?_⟩
  · rw [hh]; exact at_mono hp rfl
  · obtain ⟨i, j, hi, hj, hij⟩ := same_index_iff P (.klass d m old :: ts ++ [.klass d m new]) 0 (ts.length + 1)
      (.klass d m old) (.klass d m new) rfl (by simp)
    have : i = j := hij.2 ⟨rfl, rfl⟩
    rw [hh] at hi
    simp only [List.getElem?_cons_zero, Option.some.injEq] at hi
    rw [hj, ← this, ← hi]

/-- The first entry is not part of the hash: all containers of one class that differ in the first entry only collide
(which is allowed, `hash_of_equals`, but slows the repository down). -/
theorem first_entry_not_hashed (P : Platform) (d m : Nat) (p : QString) (v w : Nat) :
    hash P (.container d m p [v]) = hash P (.container d m p [w]) ∧
      hash P (.container d m p [v]) = hash P (.klass d m p) := by
  have hz : ∀ v, hash P (.container d m p [v]) = hash P (.klass d m p) := by
    intro v
    simp [hash, addEntries]
  exact ⟨(hz v).trans (hz w).symm, hz v⟩

/-! ## A concrete case -/

/-- Hashes that all collide. -/
def bad : Platform := ⟨fun _ _ => 0, fun _ _ => 0, fun _ => 0, fun _ => [], fun _ => []⟩

example : (history bad [.klass 1 0 (q! "Foo"), .ext 0 0, .container 2 0 (q! "Bag") [.klass 1 0 (q! "FOO"), .ext 0 0],
    .ext 1 0, .container 2 0 (q! "Bag") [.ext 0 0, .klass 1 0 (q! "foo")],
    .container 2 0 (q! "bag") [.klass 1 0 (q! "foo"), .ext 0 0]] []).2 = [1, 2, 3, 4, 5, 3] := by decide +kernel

example : toStr bad (fun i => if i = 1 then q! "Foo" else q! "int") (.container 2 0 (q! "Bag") [1, 2, 1]) =
    q! "Bag of (Foo, int, Foo)" := by decide +kernel

end KPhp.TypeId
