import Verif.Duchain.Scopes
/-!
# Redeclared classes, functions and constants (C66)

Models `DeclarationBuilder::isGlobalRedeclaration`, `reportRedeclarationError` (duchain/builders/declarationbuilder.cpp:927-958), their callers
`openTypeDeclaration` (222-235), `visitFunctionDeclarationStatement` (853-860) and `define` in `visitFunctionCall` (1336-1373), with the names the
declarations were given (predeclarationbuilder.cpp:39-41, 80-82, 108, 112, 138-140).

Trusted platform behaviour: `topContext()->findDeclarations(id)` for an identifier of one part yields the declarations directly in the file (and
those imported); a declaration was encountered if the walk has opened it.  Simplified: declarations of imported files, among them PHP's own functions, are
given as a list `foreign`, each with whether the platform takes it as encountered.
-/
namespace KPhp.Redeclared

/-- What can be redeclared. -/
inductive DKind
  | klass | function | constant
deriving DecidableEq, Repr

/-- A declaration in the text: the name as written, and the scope of the context it is declared in (empty directly in the file, the namespace in a namespace, the
name of the function in a function). -/
structure Site where
  kind : DKind
  written : QString
  scope : List QString
deriving DecidableEq, Repr

/-- The identifier a declaration gets (`identifierPairForNode`, contextbuilder.cpp:190-202; `QualifiedIdentifier(constant)`, declarationbuilder.cpp:1361). -/
def stored (u : CharClass) (s : Site) : QString :=
  match s.kind with
  | .constant => s.written
  | _ => lowerStr u s.written

/-- A declaration of another file. -/
structure Foreign where
  kind : DKind
  name : QString
  encountered : Bool
deriving DecidableEq, Repr

/-- `topContext()->findDeclarations(QualifiedIdentifier(n))` restricted to what was encountered and is of the kind: `before` are the declarations the walk has
opened (declarationbuilder.cpp:941-948). -/
def isGlobalRedeclaration (u : CharClass) (foreign : List Foreign) (before : List Site) (s : Site) : Bool :=
  before.any (fun d => d.scope == [] && stored u d == s.written && d.kind == s.kind) ||
  foreign.any (fun d => d.name == s.written && d.encountered && d.kind == s.kind)

/-- The second walk over the declarations of a file: which of them are reported. -/
def reports (u : CharClass) (foreign : List Foreign) : List Site → List Site → List Bool
  | _, [] => []
  | before, s :: ss => isGlobalRedeclaration u foreign before s :: reports u foreign (before ++ [s]) ss

/-- The reports of a file. -/
def file (u : CharClass) (foreign : List Foreign) (ss : List Site) : List Bool := reports u foreign [] ss

/-- The classes and functions of a tree in the order of the walk (see `Scopes.walk`), with the scope of the context each is declared in: the names of the contexts
around. -/
def codeSites (u : CharClass) (internal : Bool) (scope : List QString) : Scopes.Code → List Site
  | .empty => []
  | .leaf _ => []
  | .seq a b => codeSites u internal scope a ++ codeSites u internal scope b
  | .closure _ params hasUses uses body =>
    codeSites u internal scope params ++ ((if hasUses then codeSites u internal scope uses else []) ++
      (if internal then [] else codeSites u internal scope body))
  | .function _ n params body =>
    ⟨.function, n, scope⟩ :: (codeSites u internal (scope ++ [n]) params ++ (if internal then [] else codeSites u internal (scope ++ [n]) body))
  | .type _ _ n members => ⟨.klass, n, scope⟩ :: codeSites u internal (scope ++ [lowerStr u n]) members
  | .method _ n params hasBody body =>
    codeSites u internal (scope ++ [n]) params ++ (if internal || !hasBody then [] else codeSites u internal (scope ++ [n]) body)

/-! ### Specification -/

/-- What an event of C61 declares, and in which scope: the names of the constructs around, outermost first. -/
def declared (e : Scopes.Event × List Scopes.Frame) : Option (DKind × QString × List QString) :=
  let scope := (e.2.map (·.name)).reverse.filter (· ≠ [])
  match e.1 with
  | .type _ n => some (.klass, n, scope)
  | .function n => some (.function, n, scope)
  | _ => none

/-- No name in the tree is empty. -/
def Named : Scopes.Code → Prop
  | .empty => True
  | .leaf _ => True
  | .seq a b => Named a ∧ Named b
  | .closure _ params _ uses body => Named params ∧ Named uses ∧ Named body
  | .function _ n params body => n ≠ [] ∧ Named params ∧ Named body
  | .type _ _ n members => n ≠ [] ∧ Named members
  | .method _ n params _ body => n ≠ [] ∧ Named params ∧ Named body

/-- The two declare the same thing: names of classes and functions do not depend on letter case, names of constants do. -/
def SameThing (u : CharClass) (a b : Site) : Prop :=
  a.kind = b.kind ∧ a.scope = b.scope ∧ (a.kind = .constant → a.written = b.written) ∧ (a.kind ≠ .constant → lowerStr u a.written = lowerStr u b.written)

/-- Nothing of another file is taken as encountered. -/
def NoForeign (foreign : List Foreign) : Prop := ∀ d ∈ foreign, d.encountered = false

/-! ### Proofs -/

theorem lowerStr_idem {u : CharClass} (hu : u.Lawful) (n : QString) : lowerStr u (lowerStr u n) = lowerStr u n := by
  simp [lowerStr, hu.lower_idem]

/-- **C66.**  The declarations of a tree, each with its lower-case name and its scope, are those of C61. -/
theorem codeSites_spec (u : CharClass) (internal : Bool) : ∀ (c : Scopes.Code) (around : List Scopes.Frame), Named c →
    (Scopes.sites u internal around c).filterMap declared =
      (codeSites u internal ((around.map (·.name)).reverse.filter (· ≠ [])) c).map fun s => (s.kind, stored u s, s.scope)
  | .empty, _, _ => rfl
  | .leaf _, _, _ => rfl
  | .seq a b, around, h => by
    simp only [Scopes.sites, codeSites, List.filterMap_append, List.map_append]
    rw [codeSites_spec u internal a around h.1, codeSites_spec u internal b around h.2]
  | .closure id params hasUses uses body, around, h => by
    have hh : ∀ k d, ((((⟨k, d, []⟩ : Scopes.Frame) :: around).map (·.name)).reverse.filter (· ≠ [])) = (around.map (·.name)).reverse.filter (· ≠ []) := by
      intro k d; simp
    have h1 := codeSites_spec u internal params (⟨some ⟨id, .params⟩, .function, []⟩ :: around) h.1
    have h2 := codeSites_spec u internal uses (⟨some ⟨id, .uses⟩, .other, []⟩ :: around) h.2.1
    have h3 := codeSites_spec u internal body (⟨some ⟨id, .body⟩, .other, []⟩ :: around) h.2.2
    rw [hh] at h1 h2 h3
    simp only [Scopes.sites, codeSites, List.filterMap_cons, declared, List.filterMap_append, List.map_append]
    rw [← h1]
    congr 1
    congr 1
    · cases hasUses
      · rfl
      · exact h2
    · cases internal
      · exact h3
      · rfl
  | .function id n params body, around, h => by
    have hh : ∀ k d, ((((⟨k, d, n⟩ : Scopes.Frame) :: around).map (·.name)).reverse.filter (· ≠ [])) =
        (around.map (·.name)).reverse.filter (· ≠ []) ++ [n] := by
      intro k d; simp [List.filter_append, h.1]
    have h1 := codeSites_spec u internal params (⟨some ⟨id, .params⟩, .function, n⟩ :: around) h.2.1
    have h3 := codeSites_spec u internal body (⟨some ⟨id, .body⟩, .other, n⟩ :: around) h.2.2
    rw [hh] at h1 h3
    simp only [Scopes.sites, codeSites, List.filterMap_cons, declared, List.filterMap_append, List.map_append, List.map_cons]
    rw [← h1]
    congr 1
    congr 1
    cases internal
    · exact h3
    · rfl
  | .type id k n members, around, h => by
    have hh : ∀ k d, ((((⟨k, d, lowerStr u n⟩ : Scopes.Frame) :: around).map (·.name)).reverse.filter (· ≠ [])) =
        (around.map (·.name)).reverse.filter (· ≠ []) ++ [lowerStr u n] := by
      intro k d
      have : lowerStr u n ≠ [] := by simpa [lowerStr] using h.1
      simp [List.filter_append, this]
    have h1 := codeSites_spec u internal members (⟨some ⟨id, .whole⟩, .klass, lowerStr u n⟩ :: around) h.2
    rw [hh] at h1
    simp only [Scopes.sites, codeSites, List.filterMap_cons, declared, List.map_cons]
    rw [← h1]
    rfl
  | .method id n params hasBody body, around, h => by
    have hh : ∀ k d, ((((⟨k, d, n⟩ : Scopes.Frame) :: around).map (·.name)).reverse.filter (· ≠ [])) =
        (around.map (·.name)).reverse.filter (· ≠ []) ++ [n] := by
      intro k d; simp [List.filter_append, h.1]
    have h1 := codeSites_spec u internal params (⟨some ⟨id, .params⟩, .function, n⟩ :: around) h.2.1
    have h3 := codeSites_spec u internal body (⟨some ⟨id, .body⟩, .other, n⟩ :: around) h.2.2
    rw [hh] at h1 h3
    simp only [Scopes.sites, codeSites, List.filterMap_cons, declared, List.filterMap_append, List.map_append]
    rw [← h1]
    congr 1
    cases internal || !hasBody
    · exact h3
    · rfl

theorem reports_get (u : CharClass) (foreign : List Foreign) : ∀ (ss before : List Site) (i : Nat) (s : Site), ss[i]? = some s →
    (reports u foreign before ss)[i]? = some (isGlobalRedeclaration u foreign (before ++ ss.take i) s)
  | [], _, i, s, h => by simp at h
  | s0 :: ss, before, 0, s, h => by
    simp only [List.getElem?_cons_zero, Option.some.injEq] at h
    simp [reports, h]
  | s0 :: ss, before, i + 1, s, h => by
    have := reports_get u foreign ss (before ++ [s0]) i s (by simpa using h)
    simpa [reports] using this

/-- What is reported: an earlier declaration directly in the file whose stored name is the name as written. -/
theorem reported_iff {u : CharClass} {foreign : List Foreign} (hf : NoForeign foreign) {ss : List Site} {i : Nat} {s : Site} (hi : ss[i]? = some s) :
    (file u foreign ss)[i]? = some true ↔ ∃ j d, j < i ∧ ss[j]? = some d ∧ d.kind = s.kind ∧ d.scope = [] ∧ stored u d = s.written := by
  rw [file, reports_get u foreign ss [] i s hi]
  have hfo : foreign.any (fun d => d.name == s.written && d.encountered && d.kind == s.kind) = false := by
    rw [List.any_eq_false]
    intro d hd
    simp [hf d hd]
  simp only [List.nil_append, Option.some.injEq, isGlobalRedeclaration, hfo, Bool.or_false, List.any_eq_true, Bool.and_eq_true, beq_iff_eq]
  constructor
  · rintro ⟨d, hd, ⟨h1, h2⟩, h3⟩
    obtain ⟨j, hj⟩ := List.mem_iff_getElem?.mp hd
    rw [List.getElem?_take] at hj
    split at hj
    · exact ⟨j, d, by assumption, hj, h3, h1, h2⟩
    · cases hj
  · rintro ⟨j, d, hj, hd, h3, h1, h2⟩
    refine ⟨d, ?_, ⟨h1, h2⟩, h3⟩
    exact List.mem_iff_getElem?.mpr ⟨j, by rw [List.getElem?_take, if_pos hj, hd]⟩

/-- **C66.**  Directly in the file, what is reported has been declared before. -/
theorem redeclaration_sound {u : CharClass} (hu : u.Lawful) {foreign : List Foreign} (hf : NoForeign foreign) {ss : List Site} {i : Nat} {s : Site}
    (hi : ss[i]? = some s) (hs : s.scope = []) (h : (file u foreign ss)[i]? = some true) : ∃ j d, j < i ∧ ss[j]? = some d ∧ SameThing u d s := by
  obtain ⟨j, d, h1, h2, h3, h4, h5⟩ := (reported_iff hf hi).mp h
  refine ⟨j, d, h1, h2, h3, by rw [h4, hs], ?_, ?_⟩
  · intro hk; simpa [stored, hk] using h5
  · intro hk
    have : stored u d = lowerStr u d.written := by
      unfold stored
      split
      · rename_i h; exact absurd h hk
      · rfl
    rw [← h5, this]
    exact (lowerStr_idem hu _).symm

/-- **C66.**  A constant, or a class or function whose name is written in lower case, is reported if it has been declared before directly in the file. -/
theorem redeclaration_complete {u : CharClass} {foreign : List Foreign} (hf : NoForeign foreign) {ss : List Site} {i : Nat} {s : Site} (hi : ss[i]? = some s)
    (hl : s.kind ≠ .constant → lowerStr u s.written = s.written) {j : Nat} {d : Site} (hj : j < i) (hd : ss[j]? = some d) (hs : d.scope = [])
    (hsame : SameThing u d s) : (file u foreign ss)[i]? = some true := by
  obtain ⟨h1, h2, h3, h4⟩ := hsame
  refine (reported_iff hf hi).mpr ⟨j, d, hj, hd, h1, hs, ?_⟩
  by_cases hk : d.kind = .constant
  · simpa [stored, hk] using h3 hk
  · have : stored u d = lowerStr u d.written := by
      unfold stored
      split
      · rename_i h; exact absurd h hk
      · rfl
    rw [this, h4 hk, hl (by rw [← h1]; exact hk)]

/-- **C66 (finding).**  A class or function whose name is not written in lower case is never reported. -/
theorem upper_case_never {u : CharClass} (hu : u.Lawful) {foreign : List Foreign} (hf : NoForeign foreign) {ss : List Site} {i : Nat} {s : Site}
    (hi : ss[i]? = some s) (hk : s.kind ≠ .constant) (hl : lowerStr u s.written ≠ s.written) : (file u foreign ss)[i]? = some false := by
  cases hb : (file u foreign ss)[i]? with
  | none => rw [file, reports_get u foreign ss [] i s hi] at hb; cases hb
  | some b =>
    cases b with
    | false => rfl
    | true =>
      obtain ⟨j, d, _, _, h3, _, h5⟩ := (reported_iff hf hi).mp hb
      have : stored u d = lowerStr u d.written := by
        unfold stored
        split
        · rename_i h; rw [h3] at h; exact absurd h hk
        · rfl
      rw [this] at h5
      exact absurd (by rw [← h5]; exact lowerStr_idem hu _) hl

/-- **C66 (finding).**  In a namespace, a redeclaration is not reported, but a class or function of the name of a global one is. -/
theorem namespace_ignored {u : CharClass} {foreign : List Foreign} (hf : NoForeign foreign) {ss : List Site} {i : Nat} {s : Site} (hi : ss[i]? = some s) :
    ((∀ j d, j < i → ss[j]? = some d → d.kind = s.kind → d.scope ≠ []) → (file u foreign ss)[i]? = some false) ∧
    ∀ j d, j < i → ss[j]? = some d → d.kind = s.kind → d.scope = [] → stored u d = s.written → (file u foreign ss)[i]? = some true := by
  constructor
  · intro h
    cases hb : (file u foreign ss)[i]? with
    | none => rw [file, reports_get u foreign ss [] i s hi] at hb; cases hb
    | some b =>
      cases b with
      | false => rfl
      | true =>
        obtain ⟨j, d, h1, h2, h3, h4, _⟩ := (reported_iff hf hi).mp hb
        exact absurd h4 (h j d h1 h2 h3)
  · intro j d h1 h2 h3 h4 h5
    exact (reported_iff hf hi).mpr ⟨j, d, h1, h2, h3, h4, h5⟩

/-! ### A file: `function f; class C; function f; class C; const-by-define F, F; namespace n { function f; function g; function g; }` -/

def exSites : List Site :=
  [⟨.function, q! "f", []⟩, ⟨.klass, q! "C", []⟩, ⟨.function, q! "f", []⟩, ⟨.klass, q! "C", []⟩, ⟨.constant, q! "F", []⟩, ⟨.constant, q! "F", []⟩,
   ⟨.function, q! "f", [q! "n"]⟩, ⟨.function, q! "g", [q! "n"]⟩, ⟨.function, q! "g", [q! "n"]⟩]

-- the second `f` and the second `F` are reported; the second `C` and `n\g` are not, `n\f` is
example : file asciiClass [] exSites = [false, false, true, false, false, true, true, false, false] := by decide +kernel
example : NoForeign [] := by simp [NoForeign]
example : SameThing asciiClass ⟨.klass, q! "C", []⟩ ⟨.klass, q! "c", []⟩ := ⟨rfl, rfl, by simp, by decide +kernel⟩
example : lowerStr asciiClass (q! "C") ≠ q! "C" := by decide +kernel

/-- The tree of `function f() { function g() {} } class C { function m() {} } class c {}`. -/
def exCode : Scopes.Code :=
  .seq (.function 0 (q! "f") .empty (.function 1 (q! "g") .empty .empty))
    (.seq (.type 2 .klass (q! "C") (.method 3 (q! "m") .empty true .empty)) (.type 4 .klass (q! "c") .empty))

example : codeSites asciiClass false [] exCode =
    [⟨.function, q! "f", []⟩, ⟨.function, q! "g", [q! "f"]⟩, ⟨.klass, q! "C", []⟩, ⟨.klass, q! "c", []⟩] := by decide +kernel
example : file asciiClass [] (codeSites asciiClass false [] exCode) = [false, false, false, true] := by decide +kernel
example : Named exCode := by simp [Named, exCode]

end KPhp.Redeclared
