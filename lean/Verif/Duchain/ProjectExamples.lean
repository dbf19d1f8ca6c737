import Verif.Duchain.ProjectMarks
/-
Properties C96 and C97, part 4: histories that show what is wrong, and instances of the theorems.
-/
namespace KPhp.Project.Demo

open KPhp.Project

/-- All files are in one directory and exist; the revisions are given by a list (0 if not listed). -/
def world (revs : List (QString × Nat)) : World QString where
  parent := fun p => p
  join := fun _ p => p
  isParentOf := fun _ _ => true
  isLocalFile := fun _ => true
  fileExists := fun _ => true
  projects := []
  url := fun p => p
  rev := fun p => ((revs.find? (fun x => x.1 = p)).map Prod.snd).getD 0

def fi : QString := q! "i.php"
def fa : QString := q! "a.php"
def fb : QString := q! "b.php"
def fc : QString := q! "c.php"
def fd : QString := q! "d.php"

/-- A job that reads the file with these include expressions (each the name of a file). -/
def job (revs : List (QString × Nat)) (f : QString) (incs : List QString) : Job QString :=
  ⟨world revs, f, some (incs.map (fun n => q! "'" ++ n ++ q! "'"))⟩

def bad (revs : List (QString × Nat)) (f : QString) : Job QString := ⟨world revs, f, none⟩

/-- The state after jobs given in the order in which they run. -/
def doAll (js : List (Job QString)) : State QString := after asciiClass fi js.reverse

def base : List (Job QString) := [job [] fi []]

/-- **C96.**  A file that includes a file parsed later does not import it, and counts as up to date:
nothing makes it import the file until it changes itself. -/
theorem included_later_finding :
    ((doAll (base ++ [job [(fa, 1), (fb, 1)] fa [fb], job [(fa, 1), (fb, 1)] fb []])).chain fa).map Chain.imports = some [fi] ∧
    upToDate (world [(fa, 1), (fb, 1)]) (doAll (base ++ [job [(fa, 1), (fb, 1)] fa [fb], job [(fa, 1), (fb, 1)] fb []])) fa = true ∧
    ((doAll (base ++ [job [(fa, 1), (fb, 1)] fb [], job [(fa, 1), (fb, 1)] fa [fb]])).chain fa).map Chain.imports = some [fi, fb] := by
  decide +kernel

/-- The history of the next finding: `a` includes `b`; `a` gets a syntax error (revision 2); `b` is
changed and analysed. -/
def broken : List (Job QString) :=
  base ++ [job [(fa, 1), (fb, 1)] fb [], job [(fa, 1), (fb, 1)] fa [fb], bad [(fa, 2), (fb, 1)] fa, job [(fa, 2), (fb, 2)] fb []]

theorem includes_of (h : List (Job QString)) (j : Job QString) (ts : List QString) (t g : QString) (ht : j.text = some ts) (hm : t ∈ ts)
    (hg : (after asciiClass fi (j :: h)).known g = true)
    (hx : target asciiClass j.w (after asciiClass fi (j :: h)).known t j.file = some g) : Includes asciiClass h j g :=
  ⟨ts, t, ht, hm, (known_steps _ _ _ _).1 hg, _, known_steps asciiClass fi (j :: h), hx⟩

/-- **C97.**  When the text with the syntax error is given up (the document is closed without being
saved, so its revision is again the one of the file on disk), the file counts as up to date: the
syntax error stays among its problems, although there is none any more, and the change of the
included file is not noticed. -/
theorem broken_finding :
    upToDate (world [(fa, 1), (fb, 2)]) (doAll broken) fa = true ∧
    ((doAll broken).chain fa).map Chain.errors = some true ∧
    RestsOn asciiClass broken.reverse fa fb 1 := by
  refine ⟨by decide +kernel, by decide +kernel, ?_⟩
  show RestsOn asciiClass [job [(fa, 2), (fb, 2)] fb [], bad [(fa, 2), (fb, 1)] fa, job [(fa, 1), (fb, 1)] fa [fb], job [(fa, 1), (fb, 1)] fb [], job [] fi []] fa fb 1
  refine .kept ?_ (.kept ?_ ?_)
  · rintro ⟨h, _⟩; revert h; decide +kernel
  · rintro ⟨_, ts, h⟩; cases h
  · refine @RestsOn.included _ asciiClass (job [(fa, 1), (fb, 1)] fa [fb]) [job [(fa, 1), (fb, 1)] fb [], job [] fi []] fb fb 1
      (includes_of _ _ [q! "'b.php'"] (q! "'b.php'") fb (by decide +kernel) (by decide +kernel) (by decide +kernel) (by decide +kernel)) (by decide +kernel) ?_ (by decide +kernel)
    exact @RestsOn.own _ asciiClass (job [(fa, 1), (fb, 1)] fb []) [job [] fi []] [] rfl

/-- Two files that include each other; `a` is changed twice. -/
def crossed : List (Job QString) :=
  base ++ [job [(fa, 1), (fb, 1)] fa [fb], job [(fa, 1), (fb, 1)] fb [fa], job [(fa, 2), (fb, 1)] fa [fb], job [(fa, 3), (fb, 1)] fa [fb]]

/-- **C97.**  After that neither is up to date although both have been analysed with the present
text, and analysing them again, any number of times, in any order, does not help. -/
theorem mutual_finding (n : List Bool) :
    upToDate (world [(fa, 3), (fb, 1)]) (after asciiClass fi
      (n.map (fun x => if x then job [(fa, 3), (fb, 1)] fa [fb] else job [(fa, 3), (fb, 1)] fb [fa]) ++ crossed.reverse)) fa = false ∧
    upToDate (world [(fa, 3), (fb, 1)]) (after asciiClass fi
      (n.map (fun x => if x then job [(fa, 3), (fb, 1)] fa [fb] else job [(fa, 3), (fb, 1)] fb [fa]) ++ crossed.reverse)) fb = false := by
  have hk : ∀ (e : List (Job QString)) (j : Job QString) (p : QString), (p = fa ∨ p = fb ∨ p = fi) → (after asciiClass fi (j :: (e ++ crossed.reverse))).known p = true := by
    intro e j p hp
    rw [known_steps]
    have : Parsed crossed.reverse p := by
      rcases hp with rfl | rfl | rfl
      · exact ⟨job [(fa, 1), (fb, 1)] fa [fb], by simp [crossed, base], rfl⟩
      · exact ⟨job [(fa, 1), (fb, 1)] fb [fa], by simp [crossed, base], rfl⟩
      · exact ⟨job [] fi [], by simp [crossed, base], rfl⟩
    obtain ⟨j', h1, h2⟩ := this
    exact ⟨j', by simp [h1], h2⟩
  have ht : ∀ (known : QString → Bool) (f g : QString), (g = fa ∨ g = fb) → known g = true →
      target asciiClass (world [(fa, 3), (fb, 1)]) known (q! "'" ++ g ++ q! "'") f = some g := by
    intro known f g hg hkn
    have hex : ∀ p, KPhp.Include.includeExists ((world [(fa, 3), (fb, 1)]).env known) p = true := by
      intro p; simp [KPhp.Include.includeExists, World.env, world]
    unfold target KPhp.Include.includeForLiteral
    have e : ((q! "'" ++ g ++ q! "'").drop 1).take ((q! "'" ++ g ++ q! "'").length - 2) = g := by
      rcases hg with rfl | rfl <;> decide +kernel
    simp only [e]
    rw [if_neg (by rcases hg with rfl | rfl <;> decide +kernel)]
    unfold KPhp.Include.findIncludeFile
    rw [if_neg (by rcases hg with rfl | rfl <;> decide +kernel), if_neg (by rcases hg with rfl | rfl <;> decide +kernel)]
    simp only [hex, if_true]
    rfl
  refine mutual_never_up_to_date asciiClass fi fa fb (by decide +kernel) 1 crossed.reverse ?_ ?_ ?_ _ ?_ _ (by decide +kernel)
  · exact ⟨⟨[fi, fb], 3, [(fa, 1), (fb, 1), (fa, 3)], 0, false⟩, by rfl, by decide +kernel⟩
  · exact ⟨⟨[fi, fa], 1, [(fa, 1), (fb, 1)], 1, false⟩, by rfl, by decide +kernel⟩
  · exact ⟨⟨[fi, fb], 3, [(fa, 1), (fb, 1), (fa, 3)], 0, false⟩, by rfl, by decide +kernel⟩
  · intro later j earlier he
    have hj : j ∈ n.map (fun x => if x then job [(fa, 3), (fb, 1)] fa [fb] else job [(fa, 3), (fb, 1)] fb [fa]) := by rw [he]; simp
    obtain ⟨x, _, rfl⟩ := List.mem_map.1 hj
    cases x with
    | true =>
      refine ⟨Or.inl ⟨rfl, ?_⟩, by decide +kernel⟩
      exact includes_of _ _ [q! "'b.php'"] (q! "'b.php'") fb rfl (by decide +kernel) (hk _ _ _ (by simp)) (ht _ _ fb (Or.inr rfl) (hk _ _ _ (by simp)))
    | false =>
      refine ⟨Or.inr ⟨rfl, ?_⟩, by decide +kernel⟩
      exact includes_of _ _ [q! "'a.php'"] (q! "'a.php'") fa rfl (by decide +kernel) (hk _ _ _ (by simp)) (ht _ _ fa (Or.inl rfl) (hk _ _ _ (by simp)))

/-- `c` includes `b`, and `b` includes `d`; `d` is changed (revision 2), so `b` and `c` are analysed
again. -/
def chainJobs : List (Job QString) :=
  base ++ [job [(fb, 1), (fc, 1), (fd, 1)] fd [], job [(fb, 1), (fc, 1), (fd, 1)] fb [fd],
    job [(fb, 1), (fc, 1), (fd, 2)] fd []]

def jobB : Job QString := job [(fb, 1), (fc, 1), (fd, 2)] fb [fd]
def jobC : Job QString := job [(fb, 1), (fc, 1), (fd, 2)] fc [fb]

/-- The jobs for `b` and `c` overlap: `c` is analysed after the analysis of `b` has begun and before
it visits its include expression. -/
def overlap : List (World QString × Step QString) :=
  jobB.steps.dropLast ++ (jobC.steps ++ (jobB.steps.drop (jobB.steps.length - 1) ++ steps chainJobs.reverse))

/-- **C97, false for overlapping jobs.**  If the analyses of `b` and of `c`, which includes it,
overlap, a later change of `d` is not noticed for `c`.  If they run one after the other (in either
order), it is. -/
theorem overlap_finding :
    upToDate (world [(fb, 1), (fc, 1), (fd, 3)]) (run asciiClass fi overlap) fc = true ∧
    upToDate (world [(fb, 1), (fc, 1), (fd, 3)]) (doAll (chainJobs ++ [jobB, jobC])) fc = false ∧
    upToDate (world [(fb, 1), (fc, 1), (fd, 3)]) (doAll (chainJobs ++ [jobC, jobB])) fc = false := by
  decide +kernel

/-! ### Instances -/

/-- Without errors and cycles: up to date until the file included by the included file changes. -/
example : upToDate (world [(fb, 1), (fc, 1), (fd, 2)]) (doAll (chainJobs ++ [jobB, jobC])) fc = true ∧
    upToDate (world [(fb, 1), (fc, 1), (fd, 3)]) (doAll (chainJobs ++ [jobB, jobC])) fc = false := by decide +kernel

example : ∀ j ∈ (chainJobs ++ [jobB, jobC]).reverse, j.text ≠ none := by
  intro j hj; simp [chainJobs, base, jobB, jobC, job] at hj
  rcases hj with rfl | rfl | rfl | rfl | rfl | rfl <;> simp

/-- The declaration for `b` is there after `c` has been analysed, and goes when `b` is analysed. -/
example : ((doAll (chainJobs ++ [jobB, jobC])).chain fb).map Chain.marks = some 1 ∧
    ((doAll (chainJobs ++ [jobC, jobB])).chain fb).map Chain.marks = some 0 := by decide +kernel

/-- A file that includes itself does not import itself, and keeps its declaration. -/
example : ((doAll (base ++ [job [] fa [fa], job [] fa [fa]])).chain fa).map (fun c => (c.imports, c.marks, c.all)) =
    some ([fi], 1, [(fa, 0)]) := by decide +kernel

end KPhp.Project.Demo
