import Verif.Duchain.Types
/-!
# Redeclared members and members declared by assignment (C65)

Models the checks for redeclared methods, properties and constants of a class (duchain/builders/declarationbuilder.cpp:299-319, 543-560, 623-633, 663-674),
the declaration of a property by `$this->x = …` in a method (1178-1295 for `$this`, 592-621 `declareClassMember`), and the list of upcoming class
variables (predeclarationbuilder.cpp:129-132, declarationbuilder.cpp:177-184, 209-216, 592-605).

Trusted platform behaviour: `findLocalDeclarations(id)` of a class context yields its declarations of this identifier; `openDefinition` adds one to
the current context; a context imports itself.  Simplified: the file is compiled for the first time; of a type only whether it has the constant modifier is
known; a statement `$this->x = …` stands directly in the body of a method.
-/
namespace KPhp.MemberDecls

/-- The kinds of declarations in the context of a class. -/
inductive MKind
  | method | traitMethod | property | traitProperty | constant
deriving DecidableEq, Repr

/-- A declaration in the context of a class; the name of a method is in lower case.  `constType`: its type has the constant modifier. -/
structure Mem where
  kind : MKind
  name : QString
  constType : Bool
deriving DecidableEq, Repr

/-- `$this->x = v`.  `hidden`: something else of the name that is a variable or property (a local variable, a parameter, a global variable, an inherited
property that is not private) is visible from the method.  `constType`: the type of `v` has the constant modifier. -/
structure Assign where
  name : QString
  constType : Bool
  hidden : Bool
deriving DecidableEq, Repr

/-- A statement of a class. -/
inductive Stmt
  /-- a method and the assignments in its body -/
  | method (name : QString) (assigns : List Assign)
  | property (name : QString) (constType : Bool)
  | constant (name : QString) (constType : Bool)
  /-- a member taken over from a trait -/
  | traitMethod (name : QString)
  | traitProperty (name : QString) (constType : Bool)
deriving DecidableEq, Repr

/-- `dec->isFunctionDeclaration()`. -/
def MKind.isFunction : MKind → Bool
  | .method | .traitMethod => true
  | _ => false

/-- declarationbuilder.cpp:306-313: the redeclared method. -/
def checkMethod (ds : List Mem) (n : QString) : Option Mem :=
  ds.find? fun d => d.name == n && (d.kind.isFunction && d.kind != .traitMethod)

/-- declarationbuilder.cpp:549-555. -/
def checkProperty (ds : List Mem) (n : QString) : Option Mem :=
  ds.find? fun d => d.name == n && (!d.kind.isFunction && !d.constType)

/-- declarationbuilder.cpp:627-633, 667-673. -/
def checkConstant (ds : List Mem) (n : QString) : Option Mem :=
  ds.find? fun d => d.name == n && (!d.kind.isFunction && d.constType)

/-- `$this->x = v` in a method: nothing is declared if something of kind `Instance` is found from the method (declarationbuilder.cpp:1190-1230; the second search,
1232-1268, is skipped since the class imports itself) or the name is an upcoming class variable (596-607); otherwise a property is declared (609-620). -/
def assign (upcoming : List QString) (ds : List Mem) (a : Assign) : List Mem :=
  if a.hidden || ds.any (fun d => d.name == a.name && !d.kind.isFunction) then ds
  else if upcoming.contains a.name then ds
  else ds ++ [⟨.property, a.name, a.constType⟩]

/-- One statement of a class: the declaration it is reported to redeclare, if any, and the declarations after it. -/
def statement (u : CharClass) (upcoming : List QString) (ds : List Mem) : Stmt → Option Mem × List Mem
  | .method n as => (checkMethod ds (lowerStr u n), as.foldl (assign upcoming) (ds ++ [⟨.method, lowerStr u n, false⟩]))
  | .property n c => (checkProperty ds n, ds ++ [⟨.property, n, c⟩])
  | .constant n c => (checkConstant ds n, ds ++ [⟨.constant, n, c⟩])
  | .traitMethod n => (none, ds ++ [⟨.traitMethod, lowerStr u n, false⟩])
  | .traitProperty n c => (none, ds ++ [⟨.traitProperty, n, c⟩])

/-- The statements of a class in order. -/
def classBody (u : CharClass) (upcoming : List QString) : List Mem → List Stmt → List (Option Mem) × List Mem
  | ds, [] => ([], ds)
  | ds, s :: ss =>
    let r := statement u upcoming ds s
    let q := classBody u upcoming r.2 ss
    (r.1 :: q.1, q.2)

/-- A class, interface or trait. -/
structure Cls where
  isInterface : Bool
  body : List Stmt
deriving DecidableEq, Repr

/-- `PreDeclarationBuilder::visitClassVariable` (predeclarationbuilder.cpp:129-132) over a class. -/
def variables (c : Cls) : List QString :=
  c.body.filterMap fun
    | .property n _ => some n
    | _ => none

/-- The second walk over the classes: `m_upcomingClassVariables` is cleared behind a class or trait (declarationbuilder.cpp:182, 213). -/
def classes (u : CharClass) : List QString → List Cls → List (List (Option Mem) × List Mem)
  | _, [] => []
  | up, c :: cs => classBody u up [] c.body :: classes u (if c.isInterface then up else []) cs

/-- The file: the reports for the statements of each class, and its members. -/
def file (u : CharClass) (cs : List Cls) : List (List (Option Mem) × List Mem) :=
  classes u (cs.flatMap variables) cs

/-! ### Specification -/

/-- A statement of the list declares the method. -/
def HasMethod (u : CharClass) (ss : List Stmt) (n : QString) : Prop :=
  ∃ m as, Stmt.method m as ∈ ss ∧ lowerStr u m = lowerStr u n

/-- A statement of the list declares the property, or it is taken over from a trait. -/
def HasProperty (ss : List Stmt) (n : QString) (c : Bool) : Prop :=
  Stmt.property n c ∈ ss ∨ Stmt.traitProperty n c ∈ ss

/-- A statement of the list declares the constant. -/
def HasConstant (ss : List Stmt) (n : QString) (c : Bool) : Prop := Stmt.constant n c ∈ ss

/-- A method among the statements assigns `$this->n`. -/
def Assigns (ss : List Stmt) (a : Assign) : Prop := ∃ m as, Stmt.method m as ∈ ss ∧ a ∈ as

/-- Properties and what they are assigned do not have types with the constant modifier, constants do. -/
def PlainTypes (ss : List Stmt) : Prop :=
  (∀ n c, HasProperty ss n c → c = false) ∧ (∀ n c, HasConstant ss n c → c = true) ∧ ∀ a, Assigns ss a → a.constType = false

/-- The declaration that the statement `i` of the class `k` is reported to redeclare. -/
def reportOf (u : CharClass) (cs : List Cls) (k i : Nat) : Option Mem :=
  ((file u cs)[k]?.bind fun r => r.1[i]?).join

/-- The members of the class `k` in the end. -/
def membersOf (u : CharClass) (cs : List Cls) (k : Nat) : List Mem :=
  match (file u cs)[k]? with
  | some r => r.2
  | none => []

/-- No class or trait ends before the class `k` begins. -/
def First (cs : List Cls) (k : Nat) : Prop := ∀ c ∈ cs.take k, c.isInterface = true

/-! ### Proofs -/

/-- What is declared after the statements `ss`. -/
structure Inv (u : CharClass) (up : List QString) (ss : List Stmt) (ds : List Mem) : Prop where
  method : ∀ n, (∃ c, ⟨.method, n, c⟩ ∈ ds) ↔ ∃ m as, Stmt.method m as ∈ ss ∧ lowerStr u m = n
  constant : ∀ n c, ⟨.constant, n, c⟩ ∈ ds ↔ HasConstant ss n c
  traitProperty : ∀ n c, ⟨.traitProperty, n, c⟩ ∈ ds ↔ Stmt.traitProperty n c ∈ ss
  /-- explicit properties are there -/
  property : ∀ n c, Stmt.property n c ∈ ss → ⟨.property, n, c⟩ ∈ ds
  /-- the others are assigned -/
  only : ∀ n c, ⟨.property, n, c⟩ ∈ ds → Stmt.property n c ∈ ss ∨ (n ∉ up ∧ ∃ a, Assigns ss a ∧ a.name = n ∧ a.constType = c ∧ a.hidden = false)
  /-- what is assigned is there unless hidden or upcoming -/
  assigned : ∀ a, Assigns ss a → a.hidden = false → a.name ∉ up → ∃ d ∈ ds, d.name = a.name ∧ d.kind.isFunction = false

theorem inv_nil (u : CharClass) (up : List QString) : Inv u up [] [] := by
  constructor <;> simp [HasConstant, Assigns]

theorem assigns_snoc {ss : List Stmt} {s : Stmt} {a : Assign} : Assigns (ss ++ [s]) a ↔ Assigns ss a ∨ ∃ m as, s = .method m as ∧ a ∈ as := by
  unfold Assigns
  constructor
  · rintro ⟨m, as, h1, h2⟩
    rcases List.mem_append.mp h1 with h1 | h1
    · exact .inl ⟨m, as, h1, h2⟩
    · exact .inr ⟨m, as, (List.mem_singleton.mp h1).symm, h2⟩
  · rintro (⟨m, as, h1, h2⟩ | ⟨m, as, rfl, h2⟩)
    · exact ⟨m, as, by simp [h1], h2⟩
    · exact ⟨m, as, by simp, h2⟩

theorem assign_eq (up : List QString) (ds : List Mem) (a : Assign) :
    (assign up ds a = ds ∧ (a.hidden = true ∨ a.name ∈ up ∨ ∃ d ∈ ds, d.name = a.name ∧ d.kind.isFunction = false)) ∨
    (assign up ds a = ds ++ [⟨.property, a.name, a.constType⟩] ∧ a.hidden = false ∧ a.name ∉ up) := by
  unfold assign
  split
  · rename_i h
    left
    refine ⟨rfl, ?_⟩
    rcases Bool.or_eq_true_iff.mp h with h | h
    · exact .inl h
    · obtain ⟨d, h1, h2⟩ := List.any_eq_true.mp h
      simp only [Bool.and_eq_true, beq_iff_eq, Bool.not_eq_true'] at h2
      exact .inr (.inr ⟨d, h1, h2⟩)
  · rename_i h
    split
    · rename_i h2
      exact .inl ⟨rfl, .inr (.inl (by simpa using h2))⟩
    · rename_i h2
      refine .inr ⟨rfl, ?_, by simpa using h2⟩
      cases hh : a.hidden
      · rfl
      · rw [hh] at h; simp at h

/-- A further assignment in the last method. -/
theorem inv_assign {u : CharClass} {up : List QString} {ss : List Stmt} {m : QString} : ∀ (as' as : List Assign) (ds : List Mem),
    Inv u up (ss ++ [.method m as]) ds → Inv u up (ss ++ [.method m (as ++ as')]) (as'.foldl (assign up) ds)
  | [], as, ds, h => by simpa using h
  | a :: as', as, ds, h => by
    have key : Inv u up (ss ++ [.method m (as ++ [a])]) (assign up ds a) := by
      have hm : ∀ n, (∃ m' as', Stmt.method m' as' ∈ ss ++ [.method m (as ++ [a])] ∧ lowerStr u m' = n) ↔
          ∃ m' as', Stmt.method m' as' ∈ ss ++ [.method m as] ∧ lowerStr u m' = n := by
        intro n
        simp only [List.mem_append, List.mem_singleton]
        constructor
        · rintro ⟨m', as', h1 | h1, h2⟩
          · exact ⟨m', as', .inl h1, h2⟩
          · cases h1; exact ⟨m, as, .inr rfl, h2⟩
        · rintro ⟨m', as', h1 | h1, h2⟩
          · exact ⟨m', as', .inl h1, h2⟩
          · cases h1; exact ⟨m, _, .inr rfl, h2⟩
      have ha : ∀ b, Assigns (ss ++ [.method m (as ++ [a])]) b ↔ Assigns (ss ++ [.method m as]) b ∨ b = a := by
        intro b
        simp only [assigns_snoc]
        constructor
        · rintro (h | ⟨m', as', h1, h2⟩)
          · exact .inl (.inl h)
          · cases h1
            rcases List.mem_append.mp h2 with h2 | h2
            · exact .inl (.inr ⟨m, as, rfl, h2⟩)
            · exact .inr (List.mem_singleton.mp h2)
        · rintro ((h | ⟨m', as', h1, h2⟩) | h)
          · exact .inl h
          · cases h1; exact .inr ⟨m, _, rfl, by simp [h2]⟩
          · exact .inr ⟨m, _, rfl, by simp [h]⟩
      have hc : ∀ n c, HasConstant (ss ++ [.method m (as ++ [a])]) n c ↔ HasConstant (ss ++ [.method m as]) n c := by
        intro n c; simp [HasConstant]
      have ht : ∀ n c, Stmt.traitProperty n c ∈ (ss ++ [.method m (as ++ [a])]) ↔ Stmt.traitProperty n c ∈ (ss ++ [.method m as]) := by
        intro n c; simp
      have hp : ∀ n c, Stmt.property n c ∈ (ss ++ [.method m (as ++ [a])]) ↔ Stmt.property n c ∈ (ss ++ [.method m as]) := by
        intro n c; simp
      rcases assign_eq up ds a with ⟨he, hw⟩ | ⟨he, h1, h2⟩
      · rw [he]
        refine ⟨fun n => (h.method n).trans (hm n).symm, fun n c => (h.constant n c).trans (hc n c).symm, fun n c => (h.traitProperty n c).trans (ht n c).symm,
          fun n c hx => h.property n c ((hp n c).mp hx), fun n c hx => ?_, fun b hb hh hu => ?_⟩
        · rcases h.only n c hx with hx | ⟨h1, b, hb, h2⟩
          · exact .inl ((hp n c).mpr hx)
          · exact .inr ⟨h1, b, (ha b).mpr (.inl hb), h2⟩
        · rcases (ha b).mp hb with hb | rfl
          · exact h.assigned b hb hh hu
          · rcases hw with hw | hw | hw
            · rw [hh] at hw; cases hw
            · exact absurd hw hu
            · exact hw
      · rw [he]
        refine ⟨fun n => ?_, fun n c => ?_, fun n c => ?_, fun n c hx => ?_, fun n c hx => ?_, fun b hb hh hu => ?_⟩
        · rw [hm n, ← h.method n]; simp
        · rw [hc n c, ← h.constant n c]; simp
        · rw [ht n c, ← h.traitProperty n c]; simp
        · exact List.mem_append.mpr (.inl (h.property n c ((hp n c).mp hx)))
        · rcases List.mem_append.mp hx with hx | hx
          · rcases h.only n c hx with hx | ⟨h3, b, hb, h4⟩
            · exact .inl ((hp n c).mpr hx)
            · exact .inr ⟨h3, b, (ha b).mpr (.inl hb), h4⟩
          · cases List.mem_singleton.mp hx
            exact .inr ⟨h2, a, (ha a).mpr (.inr rfl), rfl, rfl, h1⟩
        · rcases (ha b).mp hb with hb | rfl
          · obtain ⟨d, hd, h3⟩ := h.assigned b hb hh hu
            exact ⟨d, by simp [hd], h3⟩
          · exact ⟨_, List.mem_append.mpr (.inr (List.mem_singleton.mpr rfl)), rfl, rfl⟩
    have := inv_assign as' (as ++ [a]) (assign up ds a) key
    simpa using this

theorem inv_statement {u : CharClass} {up : List QString} {ss : List Stmt} {ds : List Mem} (h : Inv u up ss ds) (s : Stmt) :
    Inv u up (ss ++ [s]) (statement u up ds s).2 := by
  cases s with
  | method m as =>
    have : Inv u up (ss ++ [.method m []]) (ds ++ [⟨.method, lowerStr u m, false⟩]) := by
      refine ⟨fun n => ?_, fun n c => ?_, fun n c => ?_, fun n c hx => ?_, fun n c hx => ?_, fun b hb hh hu => ?_⟩
      · simp only [List.mem_append, List.mem_singleton]
        constructor
        · rintro ⟨c, hc | hc⟩
          · obtain ⟨m', as', h1, h2⟩ := (h.method n).mp ⟨c, hc⟩
            exact ⟨m', as', .inl h1, h2⟩
          · cases hc; exact ⟨m, [], .inr rfl, rfl⟩
        · rintro ⟨m', as', h1 | h1, h2⟩
          · obtain ⟨c, hc⟩ := (h.method n).mpr ⟨m', as', h1, h2⟩
            exact ⟨c, .inl hc⟩
          · cases h1; exact ⟨false, .inr (by rw [h2])⟩
      · have := h.constant n c; simp only [HasConstant] at this ⊢; simp [this]
      · have := h.traitProperty n c; simp [this]
      · exact List.mem_append.mpr (.inl (h.property n c (by simpa using hx)))
      · have hx' : ⟨.property, n, c⟩ ∈ ds := by simpa using hx
        rcases h.only n c hx' with h1 | ⟨h1, b, hb, h2⟩
        · exact .inl (by simp [h1])
        · exact .inr ⟨h1, b, assigns_snoc.mpr (.inl hb), h2⟩
      · rcases assigns_snoc.mp hb with hb | ⟨_, _, h1, h2⟩
        · obtain ⟨d, hd, h3⟩ := h.assigned b hb hh hu
          exact ⟨d, by simp [hd], h3⟩
        · cases h1; cases h2
    simpa [statement] using inv_assign as [] _ this
  | _ =>
    rename_i n0
    refine ⟨fun n => ?_, fun n c => ?_, fun n c => ?_, fun n c hx => ?_, fun n c hx => ?_, fun b hb hh hu => ?_⟩
    · have := h.method n; simp [statement, this]
    · have := h.constant n c
      simp only [HasConstant] at this
      simp [statement, HasConstant, this]
    · have := h.traitProperty n c; simp [statement, this]
    · rcases List.mem_append.mp hx with hx | hx
      · exact List.mem_append.mpr (.inl (h.property n c hx))
      · first | (cases List.mem_singleton.mp hx; done) | (cases List.mem_singleton.mp hx; simp [statement])
    · have hx' := List.mem_append.mp hx
      rcases hx' with hx' | hx'
      · rcases h.only n c hx' with h1 | ⟨h1, b, hb, h2⟩
        · exact .inl (by simp [h1])
        · exact .inr ⟨h1, b, assigns_snoc.mpr (.inl hb), h2⟩
      · first | (cases List.mem_singleton.mp hx'; done) | (cases List.mem_singleton.mp hx'; exact .inl (by simp))
    · rcases assigns_snoc.mp hb with hb | ⟨_, _, h1, h2⟩
      · obtain ⟨d, hd, h3⟩ := h.assigned b hb hh hu
        exact ⟨d, by simp [statement, hd], h3⟩
      · cases h1

theorem inv_classBody {u : CharClass} {up : List QString} : ∀ (ss0 ss : List Stmt) (ds : List Mem), Inv u up ss0 ds →
    Inv u up (ss0 ++ ss) (classBody u up ds ss).2
  | ss0, [], ds, h => by simpa [classBody] using h
  | ss0, s :: ss, ds, h => by
    have := inv_classBody (ss0 ++ [s]) ss _ (inv_statement h s)
    simpa [classBody] using this

theorem classBody_report {u : CharClass} {up : List QString} : ∀ (ss : List Stmt) (ds : List Mem) (i : Nat) (s : Stmt), ss[i]? = some s →
    (classBody u up ds ss).1[i]? = some (statement u up (classBody u up ds (ss.take i)).2 s).1
  | [], _, i, s, h => by simp at h
  | s0 :: ss, ds, 0, s, h => by
    simp only [List.getElem?_cons_zero, Option.some.injEq] at h
    simp [classBody, h]
  | s0 :: ss, ds, i + 1, s, h => by
    have := classBody_report (u := u) (up := up) ss (statement u up ds s0).2 i s (by simpa using h)
    simpa [classBody] using this

/-- The list of upcoming variables when the class `k` begins. -/
def upAt (cs : List Cls) (k : Nat) : List QString :=
  if (cs.take k).all (·.isInterface) then cs.flatMap variables else []

theorem classes_get {u : CharClass} : ∀ (cs : List Cls) (up : List QString) (k : Nat) (c : Cls), cs[k]? = some c →
    (classes u up cs)[k]? = some (classBody u (if (cs.take k).all (·.isInterface) then up else []) [] c.body)
  | [], _, k, c, h => by simp at h
  | c0 :: cs, up, 0, c, h => by
    simp only [List.getElem?_cons_zero, Option.some.injEq] at h
    simp [classes, h]
  | c0 :: cs, up, k + 1, c, h => by
    have := classes_get (u := u) cs (if c0.isInterface then up else []) k c (by simpa using h)
    rw [classes, List.getElem?_cons_succ, this]
    cases h0 : c0.isInterface
    · simp [h0]
    · simp [h0]

theorem file_get {u : CharClass} {cs : List Cls} {k : Nat} {c : Cls} (h : cs[k]? = some c) :
    (file u cs)[k]? = some (classBody u (upAt cs k) [] c.body) := classes_get cs _ k c h

theorem report_eq {u : CharClass} {cs : List Cls} {k i : Nat} {c : Cls} {s : Stmt} (h : cs[k]? = some c) (hi : c.body[i]? = some s) :
    ∃ ds, Inv u (upAt cs k) (c.body.take i) ds ∧ reportOf u cs k i = (statement u (upAt cs k) ds s).1 := by
  refine ⟨_, inv_classBody [] (c.body.take i) [] (inv_nil u _), ?_⟩
  rw [reportOf, file_get h]
  simp only [Option.bind_some, classBody_report _ _ _ _ hi, Option.join_some]

theorem members_inv {u : CharClass} {cs : List Cls} {k : Nat} {c : Cls} (h : cs[k]? = some c) : Inv u (upAt cs k) c.body (membersOf u cs k) := by
  have := inv_classBody [] c.body [] (inv_nil u (upAt cs k))
  rw [membersOf, file_get h]
  exact this

theorem upAt_first {cs : List Cls} {k : Nat} (h : First cs k) : upAt cs k = cs.flatMap variables := by
  rw [upAt, if_pos (List.all_eq_true.mpr h)]

theorem upAt_later {cs : List Cls} {k : Nat} (h : ¬ First cs k) : upAt cs k = [] := by
  rw [upAt, if_neg (fun h' => h (List.all_eq_true.mp h'))]

theorem mem_upAt {cs : List Cls} {k i : Nat} {c : Cls} {n : QString} {b : Bool} (h : First cs k) (hc : cs[k]? = some c)
    (hi : c.body[i]? = some (.property n b)) : n ∈ upAt cs k := by
  rw [upAt_first h, List.mem_flatMap]
  refine ⟨c, List.mem_of_getElem? hc, ?_⟩
  unfold variables
  exact List.mem_filterMap.mpr ⟨_, List.mem_of_getElem? hi, rfl⟩

/-- **C65.**  A method is reported exactly if a method with the same name, in any letter case, stands before it in the class. -/
theorem method_redeclared {u : CharClass} {cs : List Cls} {k i : Nat} {c : Cls} {n : QString} {as : List Assign} (h : cs[k]? = some c)
    (hi : c.body[i]? = some (.method n as)) : (reportOf u cs k i).isSome ↔ HasMethod u (c.body.take i) n := by
  obtain ⟨ds, hinv, hr⟩ := report_eq (u := u) h hi
  rw [hr]
  show (checkMethod ds (lowerStr u n)).isSome ↔ _
  unfold checkMethod HasMethod
  rw [List.find?_isSome, ← hinv.method]
  constructor
  · rintro ⟨⟨dk, dn, dc⟩, hd, h1⟩
    cases dk <;> simp [MKind.isFunction] at h1
    exact ⟨dc, h1 ▸ hd⟩
  · rintro ⟨b, hd⟩
    exact ⟨_, hd, by simp [MKind.isFunction]⟩

theorem property_reported {u : CharClass} {cs : List Cls} {k i : Nat} {c : Cls} {n : QString} {b : Bool} (h : cs[k]? = some c)
    (hi : c.body[i]? = some (.property n b)) : ∃ ds, Inv u (upAt cs k) (c.body.take i) ds ∧
      ((reportOf u cs k i).isSome ↔ ⟨.property, n, false⟩ ∈ ds ∨ ⟨.traitProperty, n, false⟩ ∈ ds ∨ ⟨.constant, n, false⟩ ∈ ds) := by
  obtain ⟨ds, hinv, hr⟩ := report_eq (u := u) h hi
  refine ⟨ds, hinv, ?_⟩
  rw [hr]
  show (checkProperty ds n).isSome ↔ _
  unfold checkProperty
  rw [List.find?_isSome]
  constructor
  · rintro ⟨⟨dk, dn, dc⟩, hd, h1⟩
    cases dk <;> simp [MKind.isFunction] at h1 <;> obtain ⟨rfl, rfl⟩ := h1
    · exact .inl hd
    · exact .inr (.inl hd)
    · exact .inr (.inr hd)
  · rintro (h1 | h1 | h1) <;> exact ⟨_, h1, by simp [MKind.isFunction]⟩

theorem constant_reported {u : CharClass} {cs : List Cls} {k i : Nat} {c : Cls} {n : QString} {b : Bool} (h : cs[k]? = some c)
    (hi : c.body[i]? = some (.constant n b)) : ∃ ds, Inv u (upAt cs k) (c.body.take i) ds ∧
      ((reportOf u cs k i).isSome ↔ ⟨.property, n, true⟩ ∈ ds ∨ ⟨.traitProperty, n, true⟩ ∈ ds ∨ ⟨.constant, n, true⟩ ∈ ds) := by
  obtain ⟨ds, hinv, hr⟩ := report_eq (u := u) h hi
  refine ⟨ds, hinv, ?_⟩
  rw [hr]
  show (checkConstant ds n).isSome ↔ _
  unfold checkConstant
  rw [List.find?_isSome]
  constructor
  · rintro ⟨⟨dk, dn, dc⟩, hd, h1⟩
    cases dk <;> simp [MKind.isFunction] at h1 <;> obtain ⟨rfl, rfl⟩ := h1
    · exact .inl hd
    · exact .inr (.inl hd)
    · exact .inr (.inr hd)
  · rintro (h1 | h1 | h1) <;> exact ⟨_, h1, by simp [MKind.isFunction]⟩

theorem plain_take {ss : List Stmt} (h : PlainTypes ss) (i : Nat) : PlainTypes (ss.take i) := by
  have hm : ∀ {s}, s ∈ ss.take i → s ∈ ss := fun h => List.mem_of_mem_take h
  obtain ⟨h1, h2, h3⟩ := h
  refine ⟨fun n c hp => h1 n c (hp.imp hm hm), fun n c hp => h2 n c (hm hp), ?_⟩
  rintro a ⟨m, as, h4, h5⟩
  exact h3 a ⟨m, as, hm h4, h5⟩

/-- **C65.**  In the first class of a file, a property is reported exactly if it stands before in the class, or is taken over from a trait before. -/
theorem property_redeclared {u : CharClass} {cs : List Cls} {k i : Nat} {c : Cls} {n : QString} {b : Bool} (h : cs[k]? = some c)
    (hi : c.body[i]? = some (.property n b)) (hp : PlainTypes c.body) (hf : First cs k) :
    (reportOf u cs k i).isSome ↔ HasProperty (c.body.take i) n false := by
  obtain ⟨ds, hinv, hr⟩ := property_reported (u := u) h hi
  rw [hr]
  have hup := mem_upAt hf h hi
  constructor
  · rintro (h1 | h1 | h1)
    · rcases hinv.only n false h1 with h2 | ⟨h2, _⟩
      · exact .inl h2
      · exact absurd hup h2
    · exact .inr ((hinv.traitProperty n false).mp h1)
    · have := (plain_take hp i).2.1 n false ((hinv.constant n false).mp h1)
      cases this
  · rintro (h1 | h1)
    · exact .inl (hinv.property n false h1)
    · exact .inr (.inl ((hinv.traitProperty n false).mpr h1))

/-- **C65.**  In every class, a property that is reported stands before in the class, is taken over from a trait, or is assigned in a method before; and the
first two are always reported. -/
theorem property_redeclared_any {u : CharClass} {cs : List Cls} {k i : Nat} {c : Cls} {n : QString} {b : Bool} (h : cs[k]? = some c)
    (hi : c.body[i]? = some (.property n b)) (hp : PlainTypes c.body) :
    ((reportOf u cs k i).isSome → HasProperty (c.body.take i) n false ∨ ∃ a, Assigns (c.body.take i) a ∧ a.name = n) ∧
    (HasProperty (c.body.take i) n false → (reportOf u cs k i).isSome) := by
  obtain ⟨ds, hinv, hr⟩ := property_reported (u := u) h hi
  rw [hr]
  constructor
  · rintro (h1 | h1 | h1)
    · rcases hinv.only n false h1 with h2 | ⟨_, a, h2, h3, _⟩
      · exact .inl (.inl h2)
      · exact .inr ⟨a, h2, h3⟩
    · exact .inl (.inr ((hinv.traitProperty n false).mp h1))
    · have := (plain_take hp i).2.1 n false ((hinv.constant n false).mp h1)
      cases this
  · rintro (h1 | h1)
    · exact .inl (hinv.property n false h1)
    · exact .inr (.inl ((hinv.traitProperty n false).mpr h1))

/-- **C65.**  A constant is reported exactly if it stands before in the class. -/
theorem constant_redeclared {u : CharClass} {cs : List Cls} {k i : Nat} {c : Cls} {n : QString} {b : Bool} (h : cs[k]? = some c)
    (hi : c.body[i]? = some (.constant n b)) (hp : PlainTypes c.body) : (reportOf u cs k i).isSome ↔ HasConstant (c.body.take i) n true := by
  obtain ⟨ds, hinv, hr⟩ := constant_reported (u := u) h hi
  rw [hr]
  have hpt := plain_take hp i
  constructor
  · rintro (h1 | h1 | h1)
    · rcases hinv.only n true h1 with h2 | ⟨_, a, h2, h3, h4, _⟩
      · cases hpt.1 n true (.inl h2)
      · rw [hpt.2.2 a h2] at h4; cases h4
    · cases hpt.1 n true (.inr ((hinv.traitProperty n true).mp h1))
    · exact (hinv.constant n true).mp h1
  · intro h1
    exact .inr (.inr ((hinv.constant n true).mpr h1))

/-- **C65 (finding).**  In a class behind another class of the file, a property that a method before its declaration assigns is reported as redeclared. -/
theorem upcoming_forgotten {u : CharClass} {cs : List Cls} {k i : Nat} {c : Cls} {n : QString} {b : Bool} {a : Assign} (h : cs[k]? = some c)
    (hi : c.body[i]? = some (.property n b)) (hp : PlainTypes c.body) (hf : ¬ First cs k) (ha : Assigns (c.body.take i) a) (hn : a.name = n)
    (hh : a.hidden = false) (hc : ¬ HasConstant (c.body.take i) n true) : (reportOf u cs k i).isSome := by
  obtain ⟨ds, hinv, hr⟩ := property_reported (u := u) h hi
  rw [hr]
  have hpt := plain_take hp i
  obtain ⟨⟨dk, dn, dc⟩, hd, h1, h2⟩ := hinv.assigned a ha hh (by rw [upAt_later hf]; simp)
  simp only at h1 h2
  rw [hn] at h1
  subst h1
  cases dk with
  | method => cases h2
  | traitMethod => cases h2
  | property =>
    cases dc with
    | false => exact .inl hd
    | true =>
      rcases hinv.only _ true hd with h2 | ⟨_, a', h3, _, h4, _⟩
      · cases hpt.1 _ true (.inl h2)
      · rw [hpt.2.2 a' h3] at h4; cases h4
  | traitProperty =>
    cases dc with
    | false => exact .inr (.inl hd)
    | true => cases hpt.1 _ true (.inr ((hinv.traitProperty _ true).mp hd))
  | constant =>
    cases dc with
    | false => cases hpt.2.1 _ false ((hinv.constant _ false).mp hd)
    | true => exact absurd ((hinv.constant _ true).mp hd) hc

/-- **C65.**  A property is a member exactly if it is declared in the class or a method assigns it (and nothing hides it); for a name that is not the
one of a property declared in the file, and that is no constant or property of a trait in the class. -/
theorem assigned_member {u : CharClass} {cs : List Cls} {k : Nat} {c : Cls} {n : QString} (h : cs[k]? = some c) (hn : n ∉ cs.flatMap variables)
    (hc : ∀ b, ¬ HasConstant c.body n b) (ht : ∀ b, Stmt.traitProperty n b ∉ c.body) :
    (∃ b, ⟨.property, n, b⟩ ∈ membersOf u cs k) ↔ ∃ a, Assigns c.body a ∧ a.name = n ∧ a.hidden = false := by
  have hinv := members_inv (u := u) h
  have hup : n ∉ upAt cs k := by unfold upAt; split <;> simp_all
  constructor
  · rintro ⟨b, hb⟩
    rcases hinv.only n b hb with h1 | ⟨_, a, h1, h2, _, h3⟩
    · exfalso
      apply hn
      rw [List.mem_flatMap]
      exact ⟨c, List.mem_of_getElem? h, List.mem_filterMap.mpr ⟨_, h1, rfl⟩⟩
    · exact ⟨a, h1, h2, h3⟩
  · rintro ⟨a, h1, h2, h3⟩
    obtain ⟨⟨dk, dn, dc⟩, hd, h4, h5⟩ := hinv.assigned a h1 h3 (h2 ▸ hup)
    simp only at h4 h5
    rw [h2] at h4
    subst h4
    cases dk with
    | method => cases h5
    | traitMethod => cases h5
    | property => exact ⟨dc, hd⟩
    | traitProperty => exact absurd ((hinv.traitProperty _ dc).mp hd) (ht dc)
    | constant => exact absurd ((hinv.constant _ dc).mp hd) (hc dc)

/-- **C65 (finding).**  In the first class of a file, an assignment does not declare a property if another class of the file declares one of this name. -/
theorem assigned_member_lost {u : CharClass} {cs : List Cls} {k : Nat} {c : Cls} {n : QString} (h : cs[k]? = some c) (hf : First cs k)
    (hn : n ∈ cs.flatMap variables) (hp : ∀ b, Stmt.property n b ∉ c.body) (b : Bool) : ⟨.property, n, b⟩ ∉ membersOf u cs k := by
  have hinv := members_inv (u := u) h
  intro hb
  rcases hinv.only n b hb with h1 | ⟨h1, _⟩
  · exact hp b h1
  · rw [upAt_first hf] at h1; exact h1 hn

/-- **C65 (finding).**  An assignment does not declare a property if a variable of the same name is visible in every method that assigns it: a parameter, say. -/
theorem hidden_member_lost {u : CharClass} {cs : List Cls} {k : Nat} {c : Cls} {n : QString} (h : cs[k]? = some c) (hp : ∀ b, Stmt.property n b ∉ c.body)
    (ha : ∀ a, Assigns c.body a → a.name = n → a.hidden = true) (b : Bool) : ⟨.property, n, b⟩ ∉ membersOf u cs k := by
  have hinv := members_inv (u := u) h
  intro hb
  rcases hinv.only n b hb with h1 | ⟨_, a, h1, h2, _, h3⟩
  · exact hp b h1
  · rw [ha a h1 h2] at h3; cases h3

/-- **C65 (finding).**  A constant behind a property of the same name is reported if the type of the property has the constant modifier (`$x = self::A`). -/
theorem constant_after_property {u : CharClass} {cs : List Cls} {k i : Nat} {c : Cls} {n : QString} {b : Bool} (h : cs[k]? = some c)
    (hi : c.body[i]? = some (.constant n b)) (hp : HasProperty (c.body.take i) n true) : (reportOf u cs k i).isSome := by
  obtain ⟨ds, hinv, hr⟩ := constant_reported (u := u) h hi
  rw [hr]
  rcases hp with hp | hp
  · exact .inl (hinv.property n true hp)
  · exact .inr (.inl ((hinv.traitProperty n true).mpr hp))

/-! ### A file

    class A { public $a; public $A; function f() { $this->b = 1; } function F() {} const a = 1; public $a; const a = 2; }
    class B { function g() { $this->x = 1; } public $x; public $b; } -/

def exA : Cls := ⟨false, [.property (q! "a") false, .property (q! "A") false, .method (q! "f") [⟨q! "b", false, false⟩], .method (q! "F") [],
  .constant (q! "a") true, .property (q! "a") false, .constant (q! "a") true]⟩
def exB : Cls := ⟨false, [.method (q! "g") [⟨q! "x", false, false⟩], .property (q! "x") false, .property (q! "b") false]⟩

example : (List.range 7).map (fun i => (reportOf asciiClass [exA, exB] 0 i).isSome) = [false, false, false, true, false, true, true] := by decide +kernel
-- `$x` of B is reported, `$this->b` in A declares nothing
example : (List.range 3).map (fun i => (reportOf asciiClass [exA, exB] 1 i).isSome) = [false, true, false] := by decide +kernel
example : (membersOf asciiClass [exA, exB] 0).any (fun d => d.name = q! "b") = false := by decide +kernel
example : (membersOf asciiClass [exA] 0).any (fun d => d.name = q! "b") = true := by decide +kernel

example : First [exA, exB] 0 := by simp [First]
example : ¬ First [exA, exB] 1 := by intro h; have := h exA (by simp); cases this
example : PlainTypes exA.body := by
  refine ⟨?_, ?_, ?_⟩
  · intro n c h; simp [HasProperty, exA] at h; rcases h with h | h | h <;> exact h.2
  · intro n c h; simp [HasConstant, exA] at h; exact h.2
  · rintro a ⟨m, as, h1, h2⟩
    simp [exA] at h1
    rcases h1 with ⟨rfl, rfl⟩ | ⟨rfl, rfl⟩
    · cases List.mem_singleton.mp h2; rfl
    · cases h2
example : Assigns (exB.body.take 1) ⟨q! "x", false, false⟩ := ⟨q! "g", [⟨q! "x", false, false⟩], by simp [exB], by simp⟩
example : (reportOf asciiClass [exA, exB] 1 1).isSome := by
  refine upcoming_forgotten (c := exB) (n := q! "x") (b := false) (a := ⟨q! "x", false, false⟩) rfl rfl ?_ ?_ ⟨q! "g", [⟨q! "x", false, false⟩], by simp [exB], by simp⟩ rfl rfl ?_
  · refine ⟨?_, ?_, ?_⟩
    · intro n c h; simp [HasProperty, exB] at h; rcases h with h | h <;> exact h.2
    · intro n c h; simp [HasConstant, exB] at h
    · rintro a ⟨m, as, h1, h2⟩
      simp [exB] at h1
      obtain ⟨rfl, rfl⟩ := h1
      cases List.mem_singleton.mp h2; rfl
  · intro h; have := h exA (by simp); cases this
  · simp [HasConstant, exB]

end KPhp.MemberDecls
