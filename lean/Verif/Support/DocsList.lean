import Verif.Chars
/-!
# The list of the documented functions and classes (C90)

Models `PhpDocsModel::fillModel`, `data` and `rowCount` (docs/phpdocsmodel.cpp:58-125) and the text of a function, method or class
(`toString`: duchain/declarations/functiondeclaration.cpp:60-71, classmethoddeclaration.cpp:75-91, classdeclaration.cpp:60-89).

Simplifications: texts contain no line breaks (`.` does not match them); the texts of the return type and of the arguments are parameters (`FunctionType::partToString`, which puts the arguments between
parentheses).
-/
namespace KPhp.DocsList

/-! ### the rows -/

/-- A declaration of the file: whether its type is constant, and the declarations in the class if its type is a class. -/
structure Decl where
  id : Nat
  constType : Bool
  members : List Nat
deriving DecidableEq, Repr

/-- `fillModel`, docs/phpdocsmodel.cpp:58-82. -/
def fill (ds : List Decl) : List Nat :=
  ds.foldl (fun rows d => if d.constType then rows else rows ++ [d.id] ++ d.members) []

/-! ### the texts -/

/-- `remove(QRegularExpression("\\(.+\\)"))`, docs/phpdocsmodel.cpp:100-102: the first match goes from the first opening parenthesis to the last closing one, with a character
between them; after it there is no closing parenthesis left. -/
def removeArgs (s : QString) : QString :=
  let pre := s.takeWhile (· ≠ c! '(')
  match s.dropWhile (· ≠ c! '(') with
  | [] => s
  | _ :: r =>
    let post := (r.reverse.takeWhile (· ≠ c! ')')).reverse
    match r.reverse.dropWhile (· ≠ c! ')') with
    | [] => s                     -- no closing parenthesis
    | [_] => s                    -- nothing between them
    | _ :: _ :: _ => pre ++ post

/-- `remove(QRegularExpression("^[^ ]+ "))`, docs/phpdocsmodel.cpp:101-102. -/
def removeReturn (s : QString) : QString :=
  if s.takeWhile (· ≠ c! ' ') = [] then s
  else match s.dropWhile (· ≠ c! ' ') with
    | [] => s
    | _ :: r => r

/-- The text of a function or method, functiondeclaration.cpp:60-71. -/
def functionText (ret name args : QString) : QString := ret ++ q! " " ++ name ++ q! " " ++ (q! "(" ++ args ++ q! ")")

/-- `data` for a function, docs/phpdocsmodel.cpp:90-105. -/
def shown (ret name args : QString) : QString := removeReturn (removeArgs (functionText ret name args))

/-! ### Specification and proofs -/

/-- **The rows are the declarations whose type is not constant, each followed by the members of its class, in the order of the file.** -/
theorem rows (ds : List Decl) : fill ds = (ds.filter fun d => !d.constType).flatMap fun d => d.id :: d.members := by
  have : ∀ (ds : List Decl) (r : List Nat), ds.foldl (fun rows d => if d.constType then rows else rows ++ [d.id] ++ d.members) r
      = r ++ (ds.filter fun d => !d.constType).flatMap fun d => d.id :: d.members := by
    intro ds
    induction ds with
    | nil => simp
    | cons d ds ih =>
      intro r
      rw [List.foldl_cons, ih]
      cases hd : d.constType <;> simp [hd]
  simpa [fill] using this ds []

theorem takeWhile_app {q : QChar → Bool} {c : QChar} (hc : q c = false) : ∀ (a r : QString), (∀ x ∈ a, q x = true) → (a ++ c :: r).takeWhile q = a ∧ (a ++ c :: r).dropWhile q = c :: r
  | [], r, _ => by simp [hc]
  | x :: a, r, h => by
    have ih := takeWhile_app hc a r (fun y hy => h y (List.mem_cons_of_mem _ hy))
    have hx := h x List.mem_cons_self
    simp [hx, ih.1, ih.2]

theorem removeArgs_app {a b c : QString} (ha : c! '(' ∉ a) (hb : b ≠ []) (hc : c! ')' ∉ c) : removeArgs (a ++ c! '(' :: (b ++ c! ')' :: c)) = a ++ c := by
  have h1 := takeWhile_app (q := fun x => x ≠ c! '(') (c := c! '(') (by decide) a (b ++ c! ')' :: c) (by intro x hx; simp; rintro rfl; exact ha hx)
  have h2 := takeWhile_app (q := fun x => x ≠ c! ')') (c := c! ')') (by decide) c.reverse b.reverse (by intro x hx; simp at hx; simp; rintro rfl; exact hc hx)
  have hrev : (b ++ c! ')' :: c).reverse = c.reverse ++ c! ')' :: b.reverse := by simp
  simp only [removeArgs, h1.1, h1.2, hrev, h2.1, h2.2]
  cases hbr : b.reverse with
  | nil => simp at hbr; exact absurd hbr hb
  | cons x xs => simp

theorem removeArgs_empty {a : QString} (ha : c! '(' ∉ a) : removeArgs (a ++ q! "()") = a ++ q! "()" := by
  have h1 := takeWhile_app (q := fun x => x ≠ c! '(') (c := c! '(') (by decide) a (q! ")") (by intro x hx; simp; rintro rfl; exact ha hx)
  simp only [removeArgs, h1.1, h1.2]
  simp

theorem removeReturn_app {a r : QString} (ha : c! ' ' ∉ a) (hne : a ≠ []) : removeReturn (a ++ c! ' ' :: r) = r := by
  have h1 := takeWhile_app (q := fun x => x ≠ c! ' ') (c := c! ' ') (by decide) a r (by intro x hx; simp; rintro rfl; exact ha hx)
  simp only [removeReturn, h1.1, h1.2, if_neg hne]

/-- **A function whose return type is one word is shown by its name and a space**; … -/
theorem shown_plain_partial {ret name args : QString} (hr : ret ≠ []) (h1 : c! ' ' ∉ ret) (h2 : c! '(' ∉ ret) (h3 : c! '(' ∉ name) (ha : args ≠ []) :
    shown ret name args = name ++ q! " " := by
  have he : functionText ret name args = (ret ++ q! " " ++ name ++ q! " ") ++ c! '(' :: (args ++ c! ')' :: []) := by simp [functionText]
  rw [shown, he, removeArgs_app (by simp [h2, h3]) ha (by simp)]
  have : ret ++ q! " " ++ name ++ q! " " ++ [] = ret ++ c! ' ' :: (name ++ q! " ") := by simp
  rw [this, removeReturn_app h1 hr]

/-- … without parameters by its name and `()`. -/
theorem shown_noargs {ret name : QString} (hr : ret ≠ []) (h1 : c! ' ' ∉ ret) (h2 : c! '(' ∉ ret) (h3 : c! '(' ∉ name) :
    shown ret name [] = name ++ q! " ()" := by
  have he : functionText ret name [] = (ret ++ q! " " ++ name ++ q! " ") ++ q! "()" := by simp [functionText]
  rw [shown, he, removeArgs_empty (by simp [h2, h3])]
  have : ret ++ q! " " ++ name ++ q! " " ++ q! "()" = ret ++ c! ' ' :: (name ++ q! " ()") := by simp
  rw [this, removeReturn_app h1 hr]

/-- **A function that returns one of several types (`unsure (…)`) is shown as an empty line, whatever its name and its parameters.** -/
theorem shown_unsure (types name args : QString) : shown (q! "unsure (" ++ types ++ q! ")") name args = [] := by
  have he : functionText (q! "unsure (" ++ types ++ q! ")") name args
      = q! "unsure " ++ c! '(' :: ((types ++ q! ") " ++ name ++ q! " (" ++ args) ++ c! ')' :: []) := by simp [functionText]
  rw [shown, he, removeArgs_app (by decide) (by simp) (by simp)]
  decide

example : shown (q! "int") (q! "strlen") (q! "string") = q! "strlen " := shown_plain_partial (by decide) (by decide) (by decide) (by decide) (by decide)
example : shown (q! "int") (q! "time") [] = q! "time ()" := shown_noargs (by decide) (by decide) (by decide) (by decide)
example : shown (q! "unsure (int, bool)") (q! "strpos") (q! "string, string") = [] := by decide +kernel
example : fill [⟨1, false, []⟩, ⟨2, true, []⟩, ⟨3, false, [4, 5]⟩] = [1, 3, 4, 5] := by decide

end KPhp.DocsList
