import Verif.Chars
/-!
# PHPUnit runs and test suites (C40, C52)

Models `PhpUnitRunJob::rowsInserted` and `processFinished` (testprovider/phpunitrunjob.cpp:123-180) and the discovery of test suites
(testprovider/phpunitprovider.cpp:82-160).
-/
namespace KPhp.PhpUnit

/-- `KDevelop::TestResult::TestCaseResult`, the values used -/
inductive Res where
  | passed | failed | error
deriving DecidableEq, Repr

/-- `QRegExp("\\[([x\\s])\\]")`, phpunitrunjob.cpp:148,153: the character captured and the position of the first match -/
def matchAt (u : CharClass) : QString → Option QChar
  | a :: c :: b :: _ => if a = 91 ∧ (c = 120 ∨ u.isSpace c = true) ∧ b = 93 then some c else none
  | _ => none

/-- `QRegExp::indexIn` and `cap(1)` -/
def indexIn (u : CharClass) : QString → Option (Nat × QChar)
  | [] => none
  | a :: s =>
    match matchAt u (a :: s) with
    | some c => some (0, c)
    | none => (indexIn u s).map fun p => (p.1 + 1, p.2)

/-- `QString::remove(' ')` -/
def removeSpaces (s : QString) : QString := s.filter (· != 32)

/-- phpunitrunjob.cpp:153-157: whether the line says that a test passed, and its name -/
def readLine (u : CharClass) (line : QString) : Option (Bool × QString) :=
  (indexIn u line).map fun p => (p.2 == 120, q! "test" ++ removeSpaces (lowerStr u (line.drop (p.1 + 4))))

/-- `QHash::operator[] =` -/
def insert (m : List (QString × Res)) (k : QString) (v : Res) : List (QString × Res) :=
  (k, v) :: m.filter fun e => e.1 != k

/-- `QHash::value` -/
def lookup (m : List (QString × Res)) (k : QString) : Option Res := (m.find? fun e => e.1 == k).map Prod.snd

/-- phpunitrunjob.cpp:149-179 for one line -/
def readRow (u : CharClass) (cases : List QString) (m : List (QString × Res)) (line : QString) : List (QString × Res) :=
  match readLine u line with
  | none => m
  | some (passed, testCase) =>
    if cases.any (fun c => ciEq u c testCase) then
      match cases.find? fun c => ciEq u testCase c with
      | some _ => insert m testCase (if passed then .passed else .failed)
      | none => m
    else m

/-- phpunitrunjob.cpp:145-180 -/
def rowsInserted (u : CharClass) (cases : List QString) (m : List (QString × Res)) (rows : List QString) : List (QString × Res) :=
  rows.foldl (readRow u cases) m

/-- phpunitrunjob.cpp:123-143; `error` is `KJob::error` -/
def processFinished (error : Int) (m : List (QString × Res)) : Res :=
  if error = 1 then .failed
  else if error = 0 then (if m.any fun e => e.2 == .failed then .failed else .passed)
  else .error

/-! ## Specification -/

/-- `line` says of the test called `name`, after `test`, that it passed or not: it contains `[x]` (or `[ ]`), a character and the
words of the name; it is the first such mark in the line. -/
structure Says (u : CharClass) (line : QString) (passed : Bool) (name : QString) : Prop where
  split : ∃ pre c rest, line = pre ++ [91, c, 93] ++ rest ∧ (c = 120 ∨ u.isSpace c = true) ∧ passed = (c == 120) ∧
    (∀ p d r, pre ++ [91, c, 93] ++ rest = p ++ [91, d, 93] ++ r → (d = 120 ∨ u.isSpace d = true) → pre.length ≤ p.length) ∧
    name = (lowerStr u (rest.drop 1)).filter (· != 32)

theorem matchAt_iff (u : CharClass) (s : QString) (c : QChar) :
    matchAt u s = some c ↔ ∃ r, s = [91, c, 93] ++ r ∧ (c = 120 ∨ u.isSpace c = true) := by
  constructor
  · intro h
    match s, h with
    | [], h => simp [matchAt] at h
    | [_], h => simp [matchAt] at h
    | [_, _], h => simp [matchAt] at h
    | a :: b :: d :: r, h =>
      rw [matchAt] at h
      split at h
      · rename_i hc
        obtain ⟨rfl, hc2, rfl⟩ := hc
        simp at h
        subst h
        exact ⟨r, rfl, hc2⟩
      · simp at h
  · rintro ⟨r, rfl, h⟩
    simp [matchAt, h]

theorem indexIn_spec (u : CharClass) (s : QString) : ∀ i c, indexIn u s = some (i, c) ↔
    ∃ pre r, s = pre ++ [91, c, 93] ++ r ∧ pre.length = i ∧ (c = 120 ∨ u.isSpace c = true) ∧
      ∀ p d t, s = p ++ [91, d, 93] ++ t → (d = 120 ∨ u.isSpace d = true) → i ≤ p.length := by
  induction s with
  | nil =>
    intro i c
    simp [indexIn]
  | cons a s ih =>
    intro i c
    rw [indexIn]
    cases hm : matchAt u (a :: s) with
    | some c' =>
      obtain ⟨r, hr, hc'⟩ := (matchAt_iff u _ _).1 hm
      simp only [Option.some.injEq, Prod.mk.injEq]
      constructor
      · rintro ⟨rfl, rfl⟩
        exact ⟨[], r, hr, rfl, hc', fun _ _ _ _ _ => Nat.zero_le _⟩
      · rintro ⟨pre, r', hs, hl, hc, hmin⟩
        have h0 := hmin [] c' r hr hc'
        have hp : pre = [] := List.eq_nil_of_length_eq_zero (by simp at h0; omega)
        subst hp
        rw [hr] at hs
        simp at hs
        exact ⟨by simpa using hl, hs.1⟩
    | none =>
      have hno : ∀ d t, a :: s = [91, d, 93] ++ t → ¬ (d = 120 ∨ u.isSpace d = true) := by
        intro d t he hd
        have := (matchAt_iff u (a :: s) d).2 ⟨t, he, hd⟩
        rw [hm] at this
        exact absurd this (by simp)
      simp only [Option.map_eq_some_iff, Prod.mk.injEq, Prod.exists]
      constructor
      · rintro ⟨j, c', h, rfl, rfl⟩
        obtain ⟨pre, r, hs, hl, hc, hmin⟩ := (ih _ _).1 h
        refine ⟨a :: pre, r, by rw [hs]; simp, by simp [hl], hc, ?_⟩
        intro p d t he hd
        cases p with
        | nil => exact absurd hd (hno d t he)
        | cons b p =>
          simp only [List.cons_append, List.cons.injEq] at he
          have := hmin p d t he.2 hd
          simp; omega
      · rintro ⟨pre, r, hs, hl, hc, hmin⟩
        cases pre with
        | nil => exact absurd hc (hno c r hs)
        | cons b pre =>
          simp only [List.cons_append, List.cons.injEq] at hs
          refine ⟨pre.length, c, (ih _ _).2 ⟨pre, r, hs.2, rfl, hc, ?_⟩, by simpa using hl, rfl⟩
          intro p d t he hd
          have := hmin (a :: p) d t (by rw [he]; simp) hd
          simp at this hl
          omega

/-- The result read from a line is what the line says. -/
theorem readLine_iff (u : CharClass) (line : QString) (passed : Bool) (k : QString) :
    readLine u line = some (passed, k) ↔ ∃ name, Says u line passed name ∧ k = q! "test" ++ name := by
  unfold readLine
  simp only [Option.map_eq_some_iff, Prod.mk.injEq, Prod.exists]
  constructor
  · rintro ⟨i, c, h, rfl, rfl⟩
    obtain ⟨pre, r, hs, hl, hc, hmin⟩ := (indexIn_spec u line i c).1 h
    refine ⟨_, ⟨pre, c, r, hs, hc, rfl, ?_, rfl⟩, ?_⟩
    · intro p d t he hd
      rw [hl]
      exact hmin p d t (by rw [hs, he]) hd
    · have : line.drop (i + 4) = r.drop 1 := by
        have h1 : line = (pre ++ [91, c, 93]) ++ r := hs
        have h2 : i + 4 = (pre ++ [91, c, 93]).length + 1 := by simp [hl]
        rw [h2, h1, ← List.drop_drop, List.drop_left]
      rw [this]; rfl
  · rintro ⟨name, ⟨pre, c, r, hs, hc, hp, hmin, rfl⟩, rfl⟩
    refine ⟨pre.length, c, (indexIn_spec u line _ _).2 ⟨pre, r, hs, rfl, hc, ?_⟩, hp.symm, ?_⟩
    · intro p d t he hd
      exact hmin p d t (by rw [← hs, he]) hd
    · have : line.drop (pre.length + 4) = r.drop 1 := by
        have h1 : line = (pre ++ [91, c, 93]) ++ r := hs
        have h2 : pre.length + 4 = (pre ++ [91, c, 93]).length + 1 := by simp
        rw [h2, h1, ← List.drop_drop, List.drop_left]
      rw [this]; rfl

/-- the name of a case of this run, whatever its case -/
def Known (u : CharClass) (cases : List QString) (k : QString) : Prop := ∃ c ∈ cases, c.map u.fold = k.map u.fold

/-- What the rows say about the test `k`: the last one about it counts. -/
inductive LastSays (u : CharClass) (k : QString) : List QString → Bool → Prop
  | intro {before after line passed} : readLine u line = some (passed, k) →
      (∀ l ∈ after, ∀ p, readLine u l ≠ some (p, k)) → LastSays u k (before ++ line :: after) passed

theorem lookup_insert (m : List (QString × Res)) (k k' : QString) (v : Res) :
    lookup (insert m k v) k' = if k' = k then some v else lookup m k' := by
  unfold lookup insert
  by_cases h : k' = k
  · subst h; simp
  · rw [if_neg h, List.find?_cons_of_neg (by simpa using fun e => h e.symm)]
    congr 1
    induction m with
    | nil => rfl
    | cons e m ih =>
      by_cases he : e.1 = k
      · rw [List.filter_cons_of_neg (by simp [he]), ih]
        rw [List.find?_cons_of_neg]
        rw [he]; simpa using fun e => h e.symm
      · rw [List.filter_cons_of_pos (by simp [he])]
        simp only [List.find?_cons, ih]

theorem readRow_eq (u : CharClass) (cases : List QString) (m : List (QString × Res)) (line : QString) :
    readRow u cases m line = match readLine u line with
      | none => m
      | some (p, k) => if cases.any (fun c => ciEq u c k) then insert m k (if p then .passed else .failed) else m := by
  unfold readRow
  cases readLine u line with
  | none => rfl
  | some x =>
    obtain ⟨p, k⟩ := x
    simp only
    cases h : cases.any (fun c => ciEq u c k) with
    | false => simp
    | true =>
      simp only [if_true]
      obtain ⟨c, hc, he⟩ := List.any_eq_true.1 h
      cases hf : cases.find? (fun c => ciEq u k c) with
      | some d => rfl
      | none =>
        exfalso
        have := (List.find?_eq_none.1 hf) c hc
        simp [ciEq] at this he
        exact this he.symm

theorem known_iff (u : CharClass) (cases : List QString) (k : QString) :
    cases.any (fun c => ciEq u c k) = true ↔ Known u cases k := by
  simp [Known, ciEq]

/-- **C40 (lines).** After any output the result of a case is what the last line about it says, if it is a case of the run; what other
lines say does not change it. -/
theorem results_iff (u : CharClass) (cases : List QString) (rows : List QString) (k : QString) (r : Res) :
    lookup (rowsInserted u cases [] rows) k = some r ↔
      Known u cases k ∧ ∃ p, LastSays u k rows p ∧ r = if p then .passed else .failed := by
  have gen : ∀ (rev : List QString), lookup (rowsInserted u cases [] rev.reverse) k = some r ↔
      Known u cases k ∧ ∃ p, LastSays u k rev.reverse p ∧ r = if p then .passed else .failed := by
    intro rev
    induction rev with
    | nil =>
      simp only [List.reverse_nil, rowsInserted, List.foldl_nil]
      constructor
      · intro h; simp [lookup] at h
      · rintro ⟨-, p, h, -⟩
        generalize hn : ([] : List QString) = l at h
        cases h with
        | intro h1 h2 => simp at hn
    | cons l rev ih =>
      rw [List.reverse_cons]
      have hstep : rowsInserted u cases [] (rev.reverse ++ [l]) = readRow u cases (rowsInserted u cases [] rev.reverse) l := by
        simp [rowsInserted]
      rw [hstep, readRow_eq]
      have hlast : ∀ p, LastSays u k (rev.reverse ++ [l]) p ↔
          readLine u l = some (p, k) ∨ ((∀ q, readLine u l ≠ some (q, k)) ∧ LastSays u k rev.reverse p) := by
        intro p
        constructor
        · intro h
          generalize hl : rev.reverse ++ [l] = rows at h
          cases h with
          | @intro before after line _ h1 h2 =>
            rcases List.eq_nil_or_concat after with rfl | ⟨after', x, rfl⟩
            · have := List.append_inj_right' hl (by simp)
              simp at this
              subst this
              exact Or.inl h1
            · rw [List.concat_eq_append] at h2 hl
              have e : before ++ line :: (after' ++ [x]) = (before ++ line :: after') ++ [x] := by simp
              rw [e] at hl
              have e1 := List.append_inj_left' hl (by simp)
              have e2 := List.append_inj_right' hl (by simp)
              simp at e2
              subst e2
              refine Or.inr ⟨fun q => h2 l (by simp) q, ?_⟩
              rw [e1]
              exact .intro h1 fun y hy q => h2 y (by simp [hy]) q
        · rintro (h | ⟨h1, h2⟩)
          · exact .intro h (by simp)
          · generalize rev.reverse = rows at h2
            cases h2 with
            | @intro before after line _ h3 h4 =>
              have e : before ++ line :: after ++ [l] = before ++ line :: (after ++ [l]) := by simp
              rw [e]
              refine .intro h3 ?_
              intro y hy q
              rcases List.mem_append.1 hy with hy | hy
              · exact h4 y hy q
              · simp at hy; subst hy; exact h1 q
      simp only [hlast]
      cases hr : readLine u l with
      | none => simp [ih]
      | some x =>
        obtain ⟨p, k'⟩ := x
        simp only
        by_cases hk : k' = k
        · subst hk
          cases hc : cases.any (fun c => ciEq u c k') with
          | true =>
            have := (known_iff u cases k').1 hc
            rw [if_pos rfl, lookup_insert, if_pos rfl]
            simp only [this, true_and, Option.some.injEq, Prod.mk.injEq, and_true]
            constructor
            · intro h; exact ⟨p, Or.inl rfl, h.symm⟩
            · rintro ⟨q, (hq | hq), h⟩
              · subst hq; exact h.symm
              · exact absurd rfl (hq.1 p)
          | false =>
            have hnk : ¬ Known u cases k' := fun h => by rw [(known_iff u cases k').2 h] at hc; exact absurd hc (by simp)
            simp only [Bool.false_eq_true, if_false, ih, hnk, false_and]
        · have hne : ∀ q, some (p, k') ≠ some (q, k) := by
            intro q h
            simp at h
            exact hk h.2
          have hlk : lookup (if cases.any (fun c => ciEq u c k') = true then
              insert (rowsInserted u cases [] rev.reverse) k' (if p = true then .passed else .failed)
              else rowsInserted u cases [] rev.reverse) k = lookup (rowsInserted u cases [] rev.reverse) k := by
            split
            · rw [lookup_insert, if_neg (fun e => hk e.symm)]
            · rfl
          rw [hlk, ih]
          simp [hk]
  have := gen rows.reverse
  rwa [List.reverse_reverse] at this

/-- keys are unique -/
theorem insert_nodup {m : List (QString × Res)} (h : (m.map Prod.fst).Nodup) (k : QString) (v : Res) :
    ((insert m k v).map Prod.fst).Nodup := by
  unfold insert
  rw [List.map_cons, List.nodup_cons]
  constructor
  · simp
  · exact List.Nodup.sublist ((List.filter_sublist).map _) h

theorem any_failed {m : List (QString × Res)} (h : (m.map Prod.fst).Nodup) :
    m.any (fun e => e.2 == .failed) = true ↔ ∃ k, lookup m k = some .failed := by
  rw [List.any_eq_true]
  constructor
  · rintro ⟨e, he, hf⟩
    refine ⟨e.1, ?_⟩
    have hf : e.2 = .failed := by simpa using hf
    rw [← hf]
    clear hf
    unfold lookup
    induction m with
    | nil => simp at he
    | cons d m ih =>
      rw [List.map_cons, List.nodup_cons] at h
      rcases List.mem_cons.1 he with rfl | he
      · simp
      · have : d.1 ≠ e.1 := fun hd => h.1 (by rw [hd]; exact List.mem_map.2 ⟨e, he, rfl⟩)
        rw [List.find?_cons_of_neg (by simpa using this)]
        exact ih h.2 he
  · rintro ⟨k, hk⟩
    unfold lookup at hk
    obtain ⟨e, he, hf⟩ := Option.map_eq_some_iff.1 hk
    exact ⟨e, List.mem_of_find?_eq_some he, by simp [hf]⟩

theorem rows_nodup (u : CharClass) (cases : List QString) (rows : List QString) : ∀ m, (m.map Prod.fst).Nodup →
    ((rowsInserted u cases m rows).map Prod.fst).Nodup := by
  induction rows with
  | nil => intro m h; exact h
  | cons r rows ih =>
    intro m h
    refine ih _ ?_
    rw [readRow_eq]
    split
    · exact h
    · split
      · exact insert_nodup h _ _
      · exact h

/-- **C40 (suite).** The result of a run of the suite: failed if PHPUnit reports so or, although it does not, the last line about
some case of the run says that it failed; passed if PHPUnit succeeds and there is no such case; an error otherwise. -/
theorem suite_result (u : CharClass) (cases : List QString) (rows : List QString) (error : Int) :
    let failure := ∃ k, Known u cases k ∧ LastSays u k rows false
    let r := processFinished error (rowsInserted u cases [] rows)
    (r = .failed ↔ error = 1 ∨ error = 0 ∧ failure) ∧
    (r = .passed ↔ error = 0 ∧ ¬ failure) ∧
    (r = .error ↔ error ≠ 0 ∧ error ≠ 1) := by
  intro failure r
  have hf : (rowsInserted u cases [] rows).any (fun e => e.2 == .failed) = true ↔ failure := by
    rw [any_failed (rows_nodup u cases rows [] (by simp))]
    simp only [results_iff]
    constructor
    · rintro ⟨k, hk, p, hp, he⟩
      cases p with
      | true => simp at he
      | false => exact ⟨k, hk, hp⟩
    · rintro ⟨k, hk, hp⟩
      exact ⟨k, hk, false, hp, rfl⟩
  have hr : r = processFinished error (rowsInserted u cases [] rows) := rfl
  rw [processFinished] at hr
  by_cases h1 : error = 1
  · rw [if_pos h1] at hr
    rw [hr, h1]
    simp
  · rw [if_neg h1] at hr
    by_cases h0 : error = 0
    · rw [if_pos h0] at hr
      by_cases hfail : failure
      · rw [if_pos (hf.2 hfail)] at hr
        rw [hr]; simp [h0, hfail]
      · rw [if_neg (fun h => hfail (hf.1 h))] at hr
        rw [hr]; simp [h0, hfail]
    · rw [if_neg h0] at hr
      rw [hr]; simp [h0, h1]

/-- A run with output: ` [x] Foo bar`, then ` [ ] Baz`. -/
example : rowsInserted asciiClass [q! "testfoobar", q! "testbaz"] [] [q! "Suite", q! " [x] Foo bar", q! " [ ] Baz"] =
    [(q! "testbaz", .failed), (q! "testfoobar", .passed)] := by decide +kernel

example : processFinished 0 (rowsInserted asciiClass [q! "testfoobar", q! "testbaz"] [] [q! "Suite", q! " [x] Foo bar", q! " [ ] Baz"]) =
    .failed := by decide +kernel

/-- **Limit of C40.** The results are kept under the lower-case name: a case given to the run under a name with capital letters gets
no result. (The names that come from declarations are lower case.) -/
example : lookup (rowsInserted asciiClass [q! "testFoo"] [] [q! " [x] Foo"]) (q! "testFoo") = none := by decide +kernel

/-! ## Discovery of test suites -/

/-- A member of a class. -/
structure Member where
  isFunction : Bool
  name : QString
deriving DecidableEq, Repr

/-- A class with its members and the classes that inherit from it (`DUChainUtils::inheriters`; the unfolding of the acyclic graph of
classes, and the limit of 100 steps of that search is not modelled).  `inProject`: its file belongs to a project. -/
inductive Cls where
  | node (name : QString) (abstract inProject : Bool) (members : List Member) (inheriters : List Cls)

def Cls.name : Cls → QString | .node n _ _ _ _ => n
def Cls.isAbstract : Cls → Bool | .node _ a _ _ _ => a
def Cls.inProject : Cls → Bool | .node _ _ p _ _ => p
def Cls.members : Cls → List Member | .node _ _ _ m _ => m
def Cls.inheriters : Cls → List Cls | .node _ _ _ _ i => i

/-- `ITestController::addTestSuite` -/
structure Suite where
  name : QString
  cases : List QString
deriving DecidableEq, Repr

/-- testprovider/phpunitprovider.cpp:136-145 -/
def testCases (ms : List Member) : List QString :=
  (ms.filter fun m => m.isFunction && (q! "test").isPrefixOf m.name).map Member.name

mutual
/-- testprovider/phpunitprovider.cpp:111-160 -/
def processTestCase : Cls → List Suite
  | .node name abstract inProject members inheriters =>
    if !inProject then []
    else if !abstract && !(testCases members).isEmpty then [⟨name, testCases members⟩]
    else processAll inheriters
def processAll : List Cls → List Suite
  | [] => []
  | c :: cs => processTestCase c ++ processAll cs
end

/-- testprovider/phpunitprovider.cpp:82-109: the classes declared in a file, each with whether it derives from the test case class -/
def processContext (classes : List (Cls × Bool)) : List Suite :=
  classes.flatMap fun c => if c.1.isAbstract then [] else if c.2 then processTestCase c.1 else []

/-- A class with own test methods that can be instantiated. -/
def IsSuite (c : Cls) : Prop := c.isAbstract = false ∧ ∃ m ∈ c.members, m.isFunction = true ∧ q! "test" <+: m.name

/-- `d` is reached from `c` through classes of projects that are no test suites themselves. -/
inductive Reaches : Cls → Cls → Prop
  | refl {c} : c.inProject = true → Reaches c c
  | step {c d e} : c.inProject = true → ¬ IsSuite c → d ∈ c.inheriters → Reaches d e → Reaches c e

theorem isSuite_iff (n : QString) (a p : Bool) (ms : List Member) (is : List Cls) :
    IsSuite (.node n a p ms is) ↔ (!a && !(testCases ms).isEmpty) = true := by
  unfold IsSuite
  simp only [Cls.isAbstract, Cls.members, Bool.and_eq_true, Bool.not_eq_true', List.isEmpty_eq_false_iff]
  constructor
  · rintro ⟨h1, m, hm, h2, h3⟩
    refine ⟨h1, ?_⟩
    intro he
    have : m.name ∈ testCases ms :=
      List.mem_map.2 ⟨m, List.mem_filter.2 ⟨hm, by simp [h2, List.isPrefixOf_iff_prefix.2 h3]⟩, rfl⟩
    rw [he] at this
    simp at this
  · rintro ⟨h1, h2⟩
    refine ⟨h1, ?_⟩
    obtain ⟨x, l, hx⟩ := List.exists_cons_of_ne_nil h2
    have : x ∈ testCases ms := by rw [hx]; simp
    obtain ⟨m, hm, -⟩ := List.mem_map.1 this
    obtain ⟨hm, hc⟩ := List.mem_filter.1 hm
    simp only [Bool.and_eq_true] at hc
    exact ⟨m, hm, hc.1, List.isPrefixOf_iff_prefix.1 hc.2⟩

theorem processAll_mem (cs : List Cls) (s : Suite) : s ∈ processAll cs ↔ ∃ c ∈ cs, s ∈ processTestCase c := by
  induction cs with
  | nil => simp [processAll]
  | cons c cs ih => simp [processAll, ih]

/-- **C52.** The test suites found for a file: for every class of the file that is not abstract and derives from the PHPUnit test case
class, the nearest descendants (or itself) that belong to a project and have test methods of their own, each with exactly these
methods. -/
theorem suites_found (classes : List (Cls × Bool)) (s : Suite) :
    s ∈ processContext classes ↔ ∃ c d, (c, true) ∈ classes ∧ c.isAbstract = false ∧ Reaches c d ∧ IsSuite d ∧
      s.name = d.name ∧ s.cases = (d.members.filter fun m => m.isFunction && (q! "test").isPrefixOf m.name).map Member.name := by
  have key : ∀ c, s ∈ processTestCase c ↔ ∃ d, Reaches c d ∧ IsSuite d ∧ s.name = d.name ∧ s.cases = testCases d.members := by
    intro c
    refine Cls.rec (motive_1 := fun c => s ∈ processTestCase c ↔
        ∃ d, Reaches c d ∧ IsSuite d ∧ s.name = d.name ∧ s.cases = testCases d.members)
      (motive_2 := fun cs => ∀ c ∈ cs, (s ∈ processTestCase c ↔
        ∃ d, Reaches c d ∧ IsSuite d ∧ s.name = d.name ∧ s.cases = testCases d.members)) ?_ ?_ ?_ c
    · intro n a p ms is ih
      rw [processTestCase]
      cases p with
      | false =>
        simp only [Bool.not_false, if_true, List.not_mem_nil, false_iff]
        rintro ⟨d, hr, -⟩
        cases hr with
        | refl h => simp [Cls.inProject] at h
        | step h => simp [Cls.inProject] at h
      | true =>
        simp only [Bool.not_true, Bool.false_eq_true, if_false]
        by_cases hs : (!a && !(testCases ms).isEmpty) = true
        · rw [if_pos hs]
          have his := (isSuite_iff n a true ms is).2 hs
          constructor
          · intro h
            simp at h
            subst h
            exact ⟨_, .refl rfl, his, rfl, rfl⟩
          · rintro ⟨d, hr, -, h1, h2⟩
            cases hr with
            | refl =>
              obtain ⟨sn, sc⟩ := s
              simp only [Cls.name, Cls.members] at h1 h2
              simp [h1, h2]
            | step _ hn => exact absurd his hn
        · rw [if_neg hs, processAll_mem]
          have his : ¬ IsSuite (.node n a true ms is) := fun h => hs ((isSuite_iff n a true ms is).1 h)
          constructor
          · rintro ⟨c, hc, h⟩
            obtain ⟨d, hr, hrest⟩ := (ih c hc).1 h
            exact ⟨d, .step rfl his hc hr, hrest⟩
          · rintro ⟨d, hr, h1, h2⟩
            cases hr with
            | refl => exact absurd h1 his
            | step _ _ hc hr => exact ⟨_, hc, (ih _ hc).2 ⟨d, hr, h1, h2⟩⟩
    · intro c hc; simp at hc
    · intro c cs h1 h2 d hd
      rcases List.mem_cons.1 hd with rfl | hd
      · exact h1
      · exact h2 d hd
  unfold processContext
  rw [List.mem_flatMap]
  constructor
  · rintro ⟨⟨c, b⟩, hc, h⟩
    simp only at h
    split at h
    · simp at h
    · rename_i ha
      split at h
      · rename_i hb
        subst hb
        obtain ⟨d, hd⟩ := (key c).1 h
        exact ⟨c, d, hc, by simpa using ha, hd⟩
      · simp at h
  · rintro ⟨c, d, hc, ha, hd⟩
    refine ⟨(c, true), hc, ?_⟩
    simp only [ha, Bool.false_eq_true, if_false, if_true]
    exact (key c).2 ⟨d, hd⟩

/-- `class Base extends TestCase {}` in one file, `class FooTest extends Base { function testA; function helper }` in another -/
example : processContext [(.node (q! "base") false true [] [.node (q! "footest") false true
    [⟨true, q! "testa"⟩, ⟨true, q! "helper"⟩] []], true)] = [⟨q! "footest", [q! "testa"]⟩] := by decide +kernel

end KPhp.PhpUnit
