import Verif.Duchain.Members
/-!
# Analysing a changed class again (C79)

Models what happens to the declarations of a class when its file is parsed again (`DeclarationBuilder::visitClassStatement`, duchain/builders/declarationbuilder.cpp:290-425; `openClassMemberDeclaration`
:562-588; `declareClassMember` :590-621; `visitClassConstantDeclaration` :643-690; `PreDeclarationBuilder::visitClassDeclarationStatement`, `visitInterfaceDeclarationStatement`,
`visitTraitDeclarationStatement`, duchain/builders/predeclarationbuilder.cpp:35-117; `ParseJob::run`, phpparsejob.cpp:101-124, which hands the old declarations to the builder without moving them).

Trusted (KDevPlatform): a class context is kept when the class keeps its name; `openDefinition<T>` takes an old declaration of the context that has the same C++ type, identifier and range and was not
taken yet, with all its attributes, or else makes a new one (public, not static, not abstract, not final); at the end the old declarations that were not taken are deleted.
-/
namespace KPhp.Reparse
open KPhp.Members

/-- What identifies an old declaration: its C++ type (`ClassMethodDeclaration` or `ClassMemberDeclaration`), identifier and range. -/
structure Key where
  method : Bool
  name : QString
  start : Nat × Nat
  stop : Nat × Nat
deriving DecidableEq, Repr

/-- A member as written. -/
inductive What
  | method (ks : List Modifier) (b : Body)
  /-- `static $x;`; `var $x;` has no modifiers -/
  | property (ks : List Modifier)
  | constant (ks : List Modifier)
  /-- `$this->x = …` somewhere in a method -/
  | assigned
deriving DecidableEq, Repr

structure Member where
  key : Key
  what : What
deriving DecidableEq, Repr

/-- A version of a class; `report`: are problems to be reported (`m_reportErrors`). -/
structure Version where
  report : Bool
  name : QString
  type : ClassType
  abst : Bool
  members : List Member
deriving DecidableEq, Repr

abbrev Decls := List (Key × Attrs)

/-- One member is visited; `old` is the declaration it gets. -/
def declare (u : CharClass) (v : Version) (m : Member) (old : Attrs) : List Problem × Attrs :=
  match m.what with
  | .method ks b => declareMethod v.report v.type v.abst (optionalModifiers ks) b old
  | .property ks => declareProperty v.report (optionalModifiers ks) old
  | .constant ks => declareConst v.report u v.type (optionalModifiers ks) m.key.name old
  | .assigned => ([], (declareProperty false { pub := true } old).2)                   -- :609-612

/-- `openDefinition`: the attributes of the declaration it returns, and the old declarations that are left. -/
def openDef (old : Decls) (k : Key) : Attrs × Decls :=
  match old.find? (fun d => d.1 = k) with
  | some d => (d.2, old.erase d)
  | none => ({}, old)

/-- The members are visited one after the other: problems, and the declarations of the class afterwards. -/
def visit (u : CharClass) (v : Version) : Decls → List Member → List Problem × Decls
  | _, [] => ([], [])
  | old, m :: ms =>
    let o := openDef old m.key
    let d := declare u v m o.1
    let r := visit u v o.2 ms
    (d.1 ++ r.1, (m.key, d.2) :: r.2)

/-- What is known of the class: its name and members. -/
structure World where
  name : QString
  decls : Decls
deriving DecidableEq, Repr

/-- The file is parsed again. -/
def parseAgain (u : CharClass) (w : World) (v : Version) : List Problem × World :=
  let r := visit u v (if w.name = v.name then w.decls else []) v.members
  (r.1, ⟨v.name, r.2⟩)

/-- The file is parsed for the first time. -/
def parseFirst (u : CharClass) (v : Version) : List Problem × World :=
  let r := visit u v [] v.members
  (r.1, ⟨v.name, r.2⟩)

/-- A history: the first version, then the others. -/
def history (u : CharClass) (r : List Problem × World) : List Version → List Problem × World
  | [] => r
  | v :: vs => history u (parseAgain u r.2 v) vs

/-! ### Specification -/

/-- The access that is written, if any. -/
def written (ks : List Modifier) : Option Access :=
  if .PUBLIC ∈ ks then some .Public else if .PROTECTED ∈ ks then some .Protected else if .PRIVATE ∈ ks then some .Private else none

/-- The access stated by a member. -/
def stated : What → Option Access
  | .method ks _ => written ks
  | .property ks => written ks
  | .constant ks => some (if .PROTECTED ∈ ks then .Protected else if .PRIVATE ∈ ks then .Private else .Public)
  | .assigned => some .Public

/-- Is the member static? -/
def saysStatic : What → Prop
  | .method ks _ => .STATIC ∈ ks
  | .property ks => .STATIC ∈ ks
  | .constant _ => True
  | .assigned => False

/-- Is the member final? -/
def saysFinal (v : Version) : What → Prop
  | .method ks _ => v.type ≠ .Interface ∧ .FINAL ∈ ks ∧ .ABSTRACT ∉ ks
  | _ => False

/-- Is the member abstract?  A method of an interface, or one that says so and may be. -/
def saysAbstract (v : Version) : What → Prop
  | .method ks b => v.type = .Interface ∨ .ABSTRACT ∈ ks ∧ (v.report = false ∨ ValidMethod v.type v.abst ks (b == .block))
  | _ => False

/-- Nothing that the old text of a declaration says is missing in the new. -/
structure NothingRemoved (v v' : Version) (m m' : Member) : Prop where
  access : stated m'.what = none → (stated m.what).getD .Public = .Public
  stat : saysStatic m.what → saysStatic m'.what
  fin : saysFinal v m.what → saysFinal v' m'.what
  abst : saysAbstract v m.what → saysAbstract v' m'.what

/-- No two members have the same place. -/
def Distinct (v : Version) : Prop := (v.members.map Member.key).Nodup

/-! ### One declaration -/

theorem contains_iff {ks : List Modifier} {k : Modifier} : (ks.contains k = true) = (k ∈ ks) := by
  simp

theorem accessOf_written (ks : List Modifier) (a : Access) : accessOf (optionalModifiers ks) a = (written ks).getD a := by
  rw [modifiers_written]
  unfold accessOf written
  simp only [contains_iff]
  split
  · rfl
  · split
    · rfl
    · split <;> rfl

theorem method_attrs (report : Bool) (ct : ClassType) (ca : Bool) (ks : List Modifier) (b : Body) (old : Attrs) :
    let d := (declareMethod report ct ca (optionalModifiers ks) b old).2
    d.access = (written ks).getD old.access ∧
    (d.isStatic = true ↔ old.isStatic = true ∨ .STATIC ∈ ks) ∧
    (d.isFinal = true ↔ old.isFinal = true ∨ ct ≠ .Interface ∧ .FINAL ∈ ks ∧ .ABSTRACT ∉ ks) ∧
    (d.isAbstract = true ↔ old.isAbstract = true ∨ ct = .Interface ∨ .ABSTRACT ∈ ks ∧ (report = false ∨ ValidMethod ct ca ks (b == .block))) := by
  intro d
  rw [← accessOf_written]
  have hd : d = (declareMethod report ct ca (optionalModifiers ks) b old).2 := rfl
  rw [hd]
  clear hd d
  refine ⟨?_, ?_, ?_, ?_⟩
  · unfold declareMethod
    by_cases hi : ct = .Interface
    · rw [if_pos hi]
    · rw [if_neg hi]
  · rw [modifiers_written]
    unfold declareMethod
    by_cases hi : ct = .Interface
    · rw [if_pos hi]; simp
    · rw [if_neg hi]; simp
  · rw [modifiers_written]
    unfold declareMethod
    by_cases hi : ct = .Interface
    · rw [if_pos hi]; simp [hi]
    · rw [if_neg hi]; simp [hi, and_comm]
  · rw [modifiers_written]
    unfold declareMethod
    by_cases hi : ct = .Interface
    · rw [if_pos hi]; simp [hi]
    · rw [if_neg hi]
      simp only [hi, false_or, Bool.or_eq_true]
      apply or_congr Iff.rfl
      by_cases ha : Modifier.ABSTRACT ∈ ks
      · have ha' : ks.contains Modifier.ABSTRACT = true := by simpa using ha
        rw [if_pos ha']
        unfold abstractMethod ValidMethod
        simp only [ha, true_and]
        cases hf : ks.contains Modifier.FINAL
        · have hf' : Modifier.FINAL ∉ ks := by intro h; rw [← List.contains_iff_mem] at h; rw [h] at hf; cases hf
          cases ct <;> cases report <;> cases ca <;> cases b <;> simp_all [isEmptyMethodBody]
        · have hf' : Modifier.FINAL ∈ ks := by rw [← List.contains_iff_mem]; exact hf
          cases ct <;> cases report <;> cases ca <;> cases b <;> simp_all [isEmptyMethodBody]
      · have ha' : ks.contains Modifier.ABSTRACT = false := by simpa using ha
        rw [ha', if_neg (by decide)]
        simp [ha]

/-- **C79 (one step).** The attributes of a declaration after its text was visited: what the text says, and what it had. -/
theorem declare_attrs (u : CharClass) (v : Version) (m : Member) (old : Attrs) :
    (declare u v m old).2.access = (stated m.what).getD old.access ∧
    ((declare u v m old).2.isStatic = true ↔ old.isStatic = true ∨ saysStatic m.what) ∧
    ((declare u v m old).2.isFinal = true ↔ old.isFinal = true ∨ saysFinal v m.what) ∧
    ((declare u v m old).2.isAbstract = true ↔ old.isAbstract = true ∨ saysAbstract v m.what) := by
  unfold declare
  cases hw : m.what with
  | method ks b =>
    dsimp only [stated, saysStatic, saysFinal, saysAbstract]
    exact method_attrs v.report v.type v.abst ks b old
  | property ks =>
    refine ⟨?_, ?_, ?_, ?_⟩
    · show _ = (written ks).getD _
      rw [← accessOf_written]; rfl
    · dsimp only [declareProperty, saysStatic]
      rw [modifiers_written]; simp
    · simp [declareProperty, saysFinal]
    · simp [declareProperty, saysAbstract]
  | constant ks =>
    refine ⟨?_, ?_, ?_, ?_⟩
    · dsimp only [declareConst, stated]
      rw [modifiers_written]
      simp
    · simp [declareConst, saysStatic]
    · simp [declareConst, saysFinal]
    · simp [declareConst, saysAbstract]
  | assigned =>
    refine ⟨?_, ?_, ?_, ?_⟩
    · simp [declareProperty, accessOf, stated]
    · simp [declareProperty, saysStatic]
    · simp [declareProperty, saysFinal]
    · simp [declareProperty, saysAbstract]

/-- The problems depend on what the declaration was only as far as it was abstract. -/
theorem declare_problems (u : CharClass) (v : Version) (m : Member) (a b : Attrs) (h : (declare u v m a).2 = (declare u v m b).2) :
    (declare u v m a).1 = (declare u v m b).1 := by
  unfold declare at *
  cases hw : m.what with
  | method ks bd =>
    rw [hw] at h
    simp only at h ⊢
    unfold declareMethod at *
    by_cases hi : v.type = .Interface
    · simp [hi]
    · simp only [hi, if_false] at h ⊢
      have h' := congrArg Attrs.isAbstract h
      simp only at h'
      rw [h']
  | property ks => rfl
  | constant ks => rfl
  | assigned => rfl

/-! ### Opening declarations -/

theorem openDef_of_mem {old : Decls} {k : Key} {a : Attrs} (hn : (old.map Prod.fst).Nodup) (h : (k, a) ∈ old) : openDef old k = (a, old.erase (k, a)) := by
  unfold openDef
  have : old.find? (fun d => d.1 = k) = some (k, a) := by
    induction old with
    | nil => cases h
    | cons d ds ih =>
      rw [List.map_cons, List.nodup_cons] at hn
      rw [List.find?_cons]
      rcases List.mem_cons.1 h with h | h
      · subst h; simp
      · have hne : d.1 ≠ k := by
          intro he
          apply hn.1
          rw [he]
          exact List.mem_map_of_mem (f := Prod.fst) h
        simp [hne, ih hn.2 h]
  rw [this]

theorem openDef_of_not {old : Decls} {k : Key} (h : ∀ a, (k, a) ∉ old) : openDef old k = ({}, old) := by
  unfold openDef
  have : old.find? (fun d => d.1 = k) = none := by
    rw [List.find?_eq_none]
    intro d hd
    simp only [decide_eq_true_eq]
    intro he
    subst he
    exact h d.2 hd
  rw [this]

/-- Which declaration a member gets. -/
def got (old : Decls) (k : Key) : Attrs := (openDef old k).1

theorem openDef_rest {old : Decls} {k : Key} (hn : (old.map Prod.fst).Nodup) : ((openDef old k).2.map Prod.fst).Nodup ∧
    ∀ k', k' ≠ k → ∀ a, ((k', a) ∈ (openDef old k).2 ↔ (k', a) ∈ old) := by
  by_cases h : ∃ a, (k, a) ∈ old
  · obtain ⟨a, h⟩ := h
    rw [openDef_of_mem hn h]
    refine ⟨hn.sublist ((List.erase_sublist).map _), ?_⟩
    intro k' hk a'
    have : (k', a') ≠ (k, a) := fun e => hk (congrArg Prod.fst e)
    simp [List.mem_erase_of_ne this]
  · rw [openDef_of_not (fun a ha => h ⟨a, ha⟩)]
    exact ⟨hn, fun _ _ _ => Iff.rfl⟩

theorem got_rest {old : Decls} {k k' : Key} (hn : (old.map Prod.fst).Nodup) (hk : k' ≠ k) : got (openDef old k).2 k' = got old k' := by
  obtain ⟨h1, h2⟩ := openDef_rest (k := k) hn
  by_cases h : ∃ a, (k', a) ∈ old
  · obtain ⟨a, h⟩ := h
    unfold got
    rw [openDef_of_mem hn h, openDef_of_mem h1 ((h2 k' hk a).2 h)]
  · unfold got
    rw [openDef_of_not (fun a ha => h ⟨a, ha⟩), openDef_of_not (fun a ha => h ⟨a, (h2 k' hk a).1 ha⟩)]

/-- Every member gets the old declaration in its place, if there is one. -/
theorem visit_eq (u : CharClass) (v : Version) : ∀ (ms : List Member) (old : Decls), (old.map Prod.fst).Nodup → (ms.map Member.key).Nodup →
    visit u v old ms = (ms.flatMap fun m => (declare u v m (got old m.key)).1, ms.map fun m => (m.key, (declare u v m (got old m.key)).2))
  | [], _, _, _ => rfl
  | m :: ms, old, hn, hk => by
    rw [List.map_cons, List.nodup_cons] at hk
    rw [visit, visit_eq u v ms _ (openDef_rest hn).1 hk.2]
    have hrest : ∀ m' ∈ ms, got (openDef old m.key).2 m'.key = got old m'.key := by
      intro m' hm'
      apply got_rest hn
      intro he
      apply hk.1
      rw [← he]
      exact List.mem_map_of_mem (f := Member.key) hm'
    refine Prod.ext ?_ ?_
    · show _ ++ _ = _
      rw [List.flatMap_cons]
      congr 1
      show ms.flatMap _ = ms.flatMap _
      rw [List.flatMap_def, List.flatMap_def]
      congr 1
      apply List.map_congr_left
      intro m' hm'
      rw [hrest m' hm']
    · show _ :: _ = _
      rw [List.map_cons]
      congr 1
      apply List.map_congr_left
      intro m' hm'
      rw [hrest m' hm']

theorem got_nil (k : Key) : got [] k = {} := rfl

/-- The first look at a class. -/
theorem parseFirst_eq (u : CharClass) (v : Version) (hd : Distinct v) :
    parseFirst u v = (v.members.flatMap fun m => (declare u v m {}).1, ⟨v.name, v.members.map fun m => (m.key, (declare u v m {}).2)⟩) := by
  unfold parseFirst
  rw [visit_eq u v _ [] (by simp) hd]
  rfl

theorem first_nodup (u : CharClass) (v : Version) (hd : Distinct v) : ((parseFirst u v).2.decls.map Prod.fst).Nodup := by
  rw [parseFirst_eq u v hd]
  simpa [List.map_map, Function.comp_def, Distinct] using hd

theorem got_first (u : CharClass) (v : Version) (hd : Distinct v) {m : Member} (hm : m ∈ v.members) : got (parseFirst u v).2.decls m.key = (declare u v m {}).2 := by
  unfold got
  rw [openDef_of_mem (a := (declare u v m {}).2) (first_nodup u v hd)]
  rw [parseFirst_eq u v hd]
  exact List.mem_map_of_mem (f := fun m => (m.key, (declare u v m {}).2)) hm

theorem got_first_not (u : CharClass) (v : Version) (hd : Distinct v) {k : Key} (h : ∀ m ∈ v.members, m.key ≠ k) : got (parseFirst u v).2.decls k = {} := by
  unfold got
  rw [openDef_of_not]
  intro a ha
  rw [parseFirst_eq u v hd] at ha
  simp only [List.mem_map, Prod.mk.injEq] at ha
  obtain ⟨m, hm, he, _⟩ := ha
  exact h m hm he

/-! ### The theorems -/

theorem attrs_ext {a b : Attrs} (h1 : a.access = b.access) (h2 : a.isStatic = true ↔ b.isStatic = true) (h3 : a.isFinal = true ↔ b.isFinal = true)
    (h4 : a.isAbstract = true ↔ b.isAbstract = true) : a = b := by
  cases a; cases b
  simp only [← Bool.eq_iff_iff] at h2 h3 h4
  simp_all

/-- A declaration that is taken over has the attributes of its new text iff nothing was removed. -/
theorem taken_over_iff (u : CharClass) (v v' : Version) (m m' : Member) :
    (declare u v' m' (declare u v m {}).2).2 = (declare u v' m' {}).2 ↔ NothingRemoved v v' m m' := by
  obtain ⟨a1, a2, a3, a4⟩ := declare_attrs u v m {}
  obtain ⟨b1, b2, b3, b4⟩ := declare_attrs u v' m' {}
  obtain ⟨c1, c2, c3, c4⟩ := declare_attrs u v' m' (declare u v m {}).2
  simp only [Bool.false_eq_true, false_or] at a2 a3 a4 b2 b3 b4
  rw [a2] at c2; rw [a3] at c3; rw [a4] at c4
  constructor
  · intro h
    refine ⟨?_, ?_, ?_, ?_⟩
    · intro hn
      have := congrArg Attrs.access h
      rw [c1, b1, hn, a1] at this
      exact this
    · intro hs; exact b2.1 (h ▸ c2.2 (Or.inl hs))
    · intro hs; exact b3.1 (h ▸ c3.2 (Or.inl hs))
    · intro hs; exact b4.1 (h ▸ c4.2 (Or.inl hs))
  · intro h
    apply attrs_ext
    · rw [c1, b1, a1]
      cases hs : stated m'.what with
      | some x => rfl
      | none => exact h.access hs
    · rw [c2, b2]; exact ⟨fun x => x.elim h.stat id, Or.inr⟩
    · rw [c3, b3]; exact ⟨fun x => x.elim h.fin id, Or.inr⟩
    · rw [c4, b4]; exact ⟨fun x => x.elim h.abst id, Or.inr⟩

/-- **C79 (one change).** Parsing a changed text again gives the declarations of a first parse of it iff the class was renamed, or no declaration that kept its place lost a modifier.  The problems
reported are then the same as well. -/
theorem parse_again_iff (u : CharClass) (v v' : Version) (hd : Distinct v) (hd' : Distinct v') :
    (parseAgain u (parseFirst u v).2 v').2 = (parseFirst u v').2 ↔
      v.name = v'.name → ∀ m ∈ v.members, ∀ m' ∈ v'.members, m.key = m'.key → NothingRemoved v v' m m' := by
  have hname : (parseFirst u v).2.name = v.name := rfl
  by_cases hn : v.name = v'.name
  · have hp : (parseAgain u (parseFirst u v).2 v').2 = ⟨v'.name, v'.members.map fun m => (m.key, (declare u v' m (got (parseFirst u v).2.decls m.key)).2)⟩ := by
      unfold parseAgain
      rw [hname, if_pos hn, visit_eq u v' _ _ (first_nodup u v hd) hd']
    rw [hp, parseFirst_eq u v' hd']
    simp only [World.mk.injEq, true_and, hn, true_imp_iff]
    rw [List.map_inj_left]
    constructor
    · intro h m hm m' hm' hk
      have := h m' hm'
      rw [Prod.mk.injEq] at this
      have := this.2
      rw [← hk, got_first u v hd hm] at this
      exact (taken_over_iff u v v' m m').1 this
    · intro h m' hm'
      rw [Prod.mk.injEq]
      refine ⟨rfl, ?_⟩
      by_cases hk : ∃ m ∈ v.members, m.key = m'.key
      · obtain ⟨m, hm, hk⟩ := hk
        rw [← hk, got_first u v hd hm]
        exact (taken_over_iff u v v' m m').2 (h m hm m' hm' hk)
      · rw [got_first_not u v hd (fun m hm he => hk ⟨m, hm, he⟩)]
  · constructor
    · intro _ h; exact absurd h hn
    · intro _
      unfold parseAgain parseFirst
      rw [if_neg hn]

theorem parse_again_problems (u : CharClass) (v v' : Version) (hd : Distinct v) (hd' : Distinct v')
    (h : (parseAgain u (parseFirst u v).2 v').2 = (parseFirst u v').2) : parseAgain u (parseFirst u v).2 v' = parseFirst u v' := by
  refine Prod.ext ?_ h
  have hname : (parseFirst u v).2.name = v.name := rfl
  by_cases hn : v.name = v'.name
  · unfold parseAgain at h ⊢
    rw [hname, if_pos hn, visit_eq u v' _ _ (first_nodup u v hd) hd', parseFirst_eq u v' hd'] at h ⊢
    simp only [World.mk.injEq, true_and] at h
    rw [List.map_inj_left] at h
    show v'.members.flatMap _ = v'.members.flatMap _
    rw [List.flatMap_def, List.flatMap_def]
    congr 1
    apply List.map_congr_left
    intro m hm
    have := h m hm
    rw [Prod.mk.injEq] at this
    exact declare_problems u v' m _ _ this.2
  · unfold parseAgain parseFirst
    rw [if_neg hn]

/-- The steps of a history from a version on: nothing removed where a declaration kept its place. -/
def Careful (v : Version) : List Version → Prop
  | [] => True
  | v' :: vs => (v.name = v'.name → ∀ m ∈ v.members, ∀ m' ∈ v'.members, m.key = m'.key → NothingRemoved v v' m m') ∧ Careful v' vs

/-- **C79 (histories).** After any history of changes that never takes a modifier from a member that keeps its place, problems and declarations are those of a first parse of the last version. -/
theorem history_first_partial (u : CharClass) : ∀ (vs : List Version) (v : Version), Distinct v → (∀ x ∈ vs, Distinct x) → Careful v vs →
    history u (parseFirst u v) vs = parseFirst u ((v :: vs).getLast (by simp))
  | [], v, _, _, _ => rfl
  | v' :: vs, v, hd, hds, hc => by
    have hd' := hds v' List.mem_cons_self
    rw [history, parse_again_problems u v v' hd hd' ((parse_again_iff u v v' hd hd').2 hc.1),
      history_first_partial u vs v' hd' (fun x hx => hds x (List.mem_cons_of_mem _ hx)) hc.2]
    rfl

/-- The texts one declaration has had, the oldest first, and its attributes. -/
def kept (u : CharClass) (a : Attrs) (ts : List (Version × Member)) : Attrs := ts.foldl (fun a t => (declare u t.1 t.2 a).2) a

/-- **C79 (what is kept).** A declaration that keeps its place has the access that was stated last, and is static, final or abstract iff any of its texts said so. -/
theorem kept_attrs (u : CharClass) (ts : List (Version × Member)) :
    (kept u {} ts).access = ((ts.filterMap fun t => stated t.2.what).getLast?).getD .Public ∧
    ((kept u {} ts).isStatic = true ↔ ∃ t ∈ ts, saysStatic t.2.what) ∧
    ((kept u {} ts).isFinal = true ↔ ∃ t ∈ ts, saysFinal t.1 t.2.what) ∧
    ((kept u {} ts).isAbstract = true ↔ ∃ t ∈ ts, saysAbstract t.1 t.2.what) := by
  have key : ∀ (ts : List (Version × Member)) (a : Attrs),
      (kept u a ts).access = ((ts.filterMap fun t => stated t.2.what).getLast?).getD a.access ∧
      ((kept u a ts).isStatic = true ↔ a.isStatic = true ∨ ∃ t ∈ ts, saysStatic t.2.what) ∧
      ((kept u a ts).isFinal = true ↔ a.isFinal = true ∨ ∃ t ∈ ts, saysFinal t.1 t.2.what) ∧
      ((kept u a ts).isAbstract = true ↔ a.isAbstract = true ∨ ∃ t ∈ ts, saysAbstract t.1 t.2.what) := by
    intro ts
    induction ts with
    | nil => intro a; simp [kept]
    | cons t ts ih =>
      intro a
      obtain ⟨i1, i2, i3, i4⟩ := ih (declare u t.1 t.2 a).2
      obtain ⟨d1, d2, d3, d4⟩ := declare_attrs u t.1 t.2 a
      have hk : kept u a (t :: ts) = kept u (declare u t.1 t.2 a).2 ts := rfl
      rw [hk]
      refine ⟨?_, ?_, ?_, ?_⟩
      · rw [i1, d1, List.filterMap_cons]
        cases hs : stated t.2.what with
        | none => rfl
        | some x =>
          simp only [List.getLast?_cons, Option.getD_some]
      · rw [i2, d2]; simp [or_assoc]
      · rw [i3, d3]; simp [or_assoc]
      · rw [i4, d4]; simp [or_assoc]
  have := key ts {}
  simpa using this

/-- **C79 (constants).** A class constant always has what its text says. -/
theorem constant_right (u : CharClass) (v : Version) (k : Key) (ks : List Modifier) (old : Attrs) :
    (declare u v ⟨k, .constant ks⟩ old).2.access = (declare u v ⟨k, .constant ks⟩ {}).2.access ∧ (declare u v ⟨k, .constant ks⟩ old).2.isStatic = true := by
  obtain ⟨a1, a2, -, -⟩ := declare_attrs u v ⟨k, .constant ks⟩ old
  obtain ⟨b1, -, -, -⟩ := declare_attrs u v ⟨k, .constant ks⟩ {}
  exact ⟨by rw [a1, b1]; rfl, a2.2 (Or.inr trivial)⟩

/-! ### The class itself -/

inductive ClassMod | None | Final | Abstract
deriving DecidableEq, Repr

structure ClassAttrs where
  type : ClassType := .Class
  mod : ClassMod := .None
deriving DecidableEq, Repr

/-- A class declaration as written: its kind and modifier (interfaces and traits have none). -/
inductive Head
  | cls (m : ClassMod)
  | interface
  | trait
deriving DecidableEq, Repr

/-- predeclarationbuilder.cpp:35-117: the attributes of the declaration after the visit. -/
def declareClass (h : Head) (old : ClassAttrs) : ClassAttrs :=
  match h with
  | .cls m => { old with type := .Class, mod := m }
  | .interface => { old with type := .Interface }
  | .trait => { old with type := .Trait }

/-- The attributes that are written. -/
def headAttrs : Head → ClassAttrs
  | .cls m => ⟨.Class, m⟩
  | .interface => ⟨.Interface, .None⟩
  | .trait => ⟨.Trait, .None⟩

/-- **C79 (classes).** A class declaration that keeps its place has always the kind that is written, and the modifier of the last version that is a class: of interfaces and traits a former
`abstract` or `final` is kept. -/
theorem class_kept (hs : List Head) (h : Head) :
    ((hs ++ [h]).foldl (fun a h => declareClass h a) {}).type = (headAttrs h).type ∧
    ((hs ++ [h]).foldl (fun a h => declareClass h a) {}).mod =
      (((hs ++ [h]).filterMap fun | .cls m => some m | _ => none).getLast?).getD .None := by
  rw [List.foldl_append]
  constructor
  · cases h <;> rfl
  · have key : ∀ (l : List Head) (a : ClassAttrs), (l.foldl (fun a h => declareClass h a) a).mod =
        ((l.filterMap fun | .cls m => some m | _ => none).getLast?).getD a.mod := by
      intro l
      induction l with
      | nil => intro a; rfl
      | cons x l ih =>
        intro a
        rw [List.foldl_cons, ih]
        cases x with
        | cls m => simp [declareClass, List.getLast?_cons]
        | interface => simp [declareClass]
        | trait => simp [declareClass]
    have := key (hs ++ [h]) {}
    rw [List.foldl_append] at this
    exact this

/-! ### Examples -/

def kF : Key := ⟨true, q! "f", (3, 20), (3, 21)⟩
def kX : Key := ⟨false, q! "x", (5, 18), (5, 20)⟩

def ex1 : Version := ⟨true, q! "a", .Class, true, [⟨kF, .method [.ABSTRACT, .PROTECTED] .semicolon⟩, ⟨kX, .property [.PRIVATE, .STATIC]⟩]⟩
/-- `abstract` and `static` are overwritten by blanks -/
def ex2 : Version := ⟨true, q! "a", .Class, true, [⟨kF, .method [.PROTECTED] .semicolon⟩, ⟨kX, .property [.PRIVATE]⟩]⟩
/-- `private` by `public ` -/
def ex3 : Version := ⟨true, q! "a", .Class, true, [⟨kF, .method [.ABSTRACT, .PUBLIC] .semicolon⟩, ⟨kX, .property [.PUBLIC, .STATIC]⟩]⟩

example : Distinct ex1 ∧ Distinct ex2 ∧ Distinct ex3 := by unfold Distinct; decide

/-- Finding: the error for a method without body is not reported when its `abstract` is removed. -/
theorem removed_abstract_finding :
    (parseFirst asciiClass ex2).1 = [.missingBody] ∧ (parseAgain asciiClass (parseFirst asciiClass ex1).2 ex2).1 = [] ∧
    (parseAgain asciiClass (parseFirst asciiClass ex1).2 ex2).2.decls = [(kF, ⟨.Protected, false, true, false⟩), (kX, ⟨.Private, true, false, false⟩)] := by
  decide

example : Careful ex1 [ex3] := by
  refine ⟨fun _ m hm m' hm' hk => ?_, trivial⟩
  simp only [ex1, ex3, List.mem_cons, List.not_mem_nil, or_false] at hm hm'
  rcases hm with rfl | rfl <;> rcases hm' with rfl | rfl
  · exact ⟨by decide, by simp [saysStatic], by simp [saysFinal], fun _ => Or.inr ⟨by decide, Or.inr (by simp [ValidMethod, ex3])⟩⟩
  · exact absurd hk (by decide)
  · exact absurd hk (by decide)
  · exact ⟨by decide, by simp [saysStatic], by simp [saysFinal], by simp [saysAbstract]⟩

end KPhp.Reparse
