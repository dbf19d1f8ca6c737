import Verif.Duchain.Types
/-
Resolution of include files (duchain/helper.cpp:330-401) and property C27.
-/
namespace KPhp.Include

/-- What the resolution consults.  `Path` is KDevPlatform's path class, `join dir p` is
`Path(dir, p)`; `includeExists` is helper.cpp:330-344 (the document is in the DUChain, or it is a
local file that exists). -/
structure Env (Path : Type) where
  parent : Path → Path
  join : Path → QString → Path
  isParentOf : Path → Path → Bool
  known : Path → Bool               -- DUChain has a chain for it
  isLocalFile : Path → Bool
  fileExists : Path → Bool
  projects : List Path

/-- Result: nothing, the include path itself (remote), or a path. -/
inductive Result (Path : Type) where
  | nothing
  | remote (url : QString)
  | file (p : Path)
  deriving DecidableEq, Repr

/-- `includeExists` (helper.cpp:330-344). -/
def includeExists {Path} (env : Env Path) (p : Path) : Bool :=
  if env.known p then true else if env.isLocalFile p then env.fileExists p else false

/-- `startsWith(prefix, Qt::CaseInsensitive)`. -/
def startsWithCI (u : CharClass) (s pre : QString) : Bool := ciEq u (s.take pre.length) pre

/-- The inner loop over the projects in round `i` (helper.cpp:371-379). -/
def findInProjects {Path} (env : Env Path) (cur : Path) (inc : QString) (round : Nat) :
    List Path → Option Path
  | [] => none
  | p :: ps =>
    if round = 0 && !env.isParentOf p cur then findInProjects env cur inc round ps
    else if includeExists env (env.join p inc) then some (env.join p inc)
    else findInProjects env cur inc round ps

/-- `findIncludeFile` (helper.cpp:346-384). -/
def findIncludeFile {Path} (u : CharClass) (env : Env Path) (inc : QString) (cur : Path) :
    Result Path :=
  if inc = [] then .nothing
  else if startsWithCI u inc (q! "http://") || startsWithCI u inc (q! "ftp://") then .remote inc
  else
    let include_ := env.join (env.parent cur) inc
    if includeExists env include_ then .file include_
    else
      match findInProjects env cur inc 0 env.projects with
      | some p => .file p
      | none =>
        match findInProjects env cur inc 1 env.projects with
        | some p => .file p
        | none => .nothing

/-- `getIncludeFileForNode` (helper.cpp:386-401) for an include expression whose scalar is the given
string token (with its quotes): `mid(1, length - 2)`, and the directory-like names are refused. -/
def includeForLiteral {Path} (u : CharClass) (env : Env Path) (token : QString) (cur : Path) :
    Result Path :=
  let str := (token.drop 1).take (token.length - 2)
  if str = q! "." ∨ str = q! ".." ∨ (q! "/").isSuffixOf str then .nothing
  else findIncludeFile u env str cur

/-! ### C27 -/

/-- Where an include path is looked for, in this order: next to the current document, in the
projects containing the document, in all projects. -/
def candidates {Path} (env : Env Path) (inc : QString) (cur : Path) : List Path :=
  env.join (env.parent cur) inc ::
    ((env.projects.filter (fun p => env.isParentOf p cur)).map (fun p => env.join p inc) ++
      env.projects.map (fun p => env.join p inc))

/-- Specification: a remote include path begins with `http://` or `ftp://`, in any case. -/
def IsRemote (u : CharClass) (inc : QString) : Prop :=
  ∃ scheme rest, inc = scheme ++ rest ∧
    (scheme.map u.fold = (q! "http://").map u.fold ∨ scheme.map u.fold = (q! "ftp://").map u.fold)

theorem startsWithCI_iff (u : CharClass) (s pre : QString) :
    startsWithCI u s pre = true ↔ ∃ a b, s = a ++ b ∧ a.map u.fold = pre.map u.fold := by
  unfold startsWithCI ciEq
  rw [beq_iff_eq]
  constructor
  · intro h; exact ⟨s.take pre.length, s.drop pre.length, (List.take_append_drop _ _).symm, h⟩
  · rintro ⟨a, b, rfl, h⟩
    have hl : a.length = pre.length := by have := congrArg List.length h; simpa using this
    rw [← hl, List.take_left']
    · exact h
    · rfl

theorem isRemote_iff (u : CharClass) (inc : QString) : IsRemote u inc ↔
    startsWithCI u inc (q! "http://") = true ∨ startsWithCI u inc (q! "ftp://") = true := by
  rw [startsWithCI_iff, startsWithCI_iff]
  constructor
  · rintro ⟨a, b, e, h | h⟩
    · exact Or.inl ⟨a, b, e, h⟩
    · exact Or.inr ⟨a, b, e, h⟩
  · rintro (⟨a, b, e, h⟩ | ⟨a, b, e, h⟩)
    · exact ⟨a, b, e, Or.inl h⟩
    · exact ⟨a, b, e, Or.inr h⟩

theorem findInProjects_eq {Path} (env : Env Path) (cur : Path) (inc : QString) (ps : List Path) :
    findInProjects env cur inc 0 ps =
      ((ps.filter (fun p => env.isParentOf p cur)).map (fun p => env.join p inc)).find?
        (includeExists env) ∧
    findInProjects env cur inc 1 ps =
      (ps.map (fun p => env.join p inc)).find? (includeExists env) := by
  induction ps with
  | nil => simp [findInProjects]
  | cons p ps ih =>
    simp only [findInProjects]
    constructor
    · by_cases h : env.isParentOf p cur = true
      · by_cases hi : includeExists env (env.join p inc) = true <;> simp [h, hi, ih.1]
      · simp [h, ih.1]
    · by_cases hi : includeExists env (env.join p inc) = true <;> simp [hi, ih.2]

theorem include_find {Path} (u : CharClass) (env : Env Path) (inc : QString) (cur : Path)
    (h0 : inc ≠ []) (hr : ¬ IsRemote u inc) :
    findIncludeFile u env inc cur =
      match (candidates env inc cur).find? (includeExists env) with
      | some p => .file p
      | none => .nothing := by
  unfold findIncludeFile candidates
  rw [if_neg h0, if_neg (by simpa [isRemote_iff] using hr)]
  simp only [List.find?_cons, List.find?_append]
  by_cases hi : includeExists env (env.join (env.parent cur) inc) = true
  · simp [hi]
  · simp only [hi]
    obtain ⟨h1, h2⟩ := findInProjects_eq env cur inc env.projects
    rw [h1, h2]
    cases ((env.projects.filter (fun p => env.isParentOf p cur)).map
      (fun p => env.join p inc)).find? (includeExists env) with
    | some p => rfl
    | none => simp only [Option.none_or]; cases ((env.projects.map (fun p => env.join p inc)).find? (includeExists env)) <;> rfl

/-- Specification: there is something to include at the path: a document that has been parsed, or
a file on this machine. -/
inductive Present {Path} (env : Env Path) (p : Path) : Prop
  | parsed : env.known p = true → Present env p
  | onDisk : env.isLocalFile p = true → env.fileExists p = true → Present env p

theorem includeExists_iff {Path} (env : Env Path) (p : Path) :
    includeExists env p = true ↔ Present env p := by
  constructor
  · intro h
    unfold includeExists at h
    split at h
    · next hk => exact .parsed hk
    · split at h
      · next hl => exact .onDisk hl h
      · cases h
  · rintro (h | ⟨h, h'⟩)
    · simp [includeExists, h]
    · simp [includeExists, h, h']

/-- Specification: the first of the paths at which there is something. -/
def FirstPresent {Path} (env : Env Path) (l : List Path) : Result Path → Prop
  | .file p => ∃ pre post, l = pre ++ p :: post ∧ Present env p ∧ ∀ x ∈ pre, ¬ Present env x
  | .nothing => ∀ x ∈ l, ¬ Present env x
  | .remote _ => False

/-- **C27.**  A local include path resolves to the first existing candidate in the order given by
`candidates`, and to nothing if no candidate exists. -/
theorem include_first_existing {Path} (u : CharClass) (env : Env Path) (inc : QString) (cur : Path)
    (h0 : inc ≠ []) (hr : ¬ IsRemote u inc) :
    FirstPresent env (candidates env inc cur) (findIncludeFile u env inc cur) := by
  rw [include_find u env inc cur h0 hr]
  cases h : (candidates env inc cur).find? (includeExists env) with
  | none =>
    intro x hx hp
    rw [List.find?_eq_none] at h
    exact h x hx ((includeExists_iff env x).2 hp)
  | some p =>
    obtain ⟨hd, as, bs, he, ha⟩ := List.find?_eq_some_iff_append.1 h
    refine ⟨as, bs, he, (includeExists_iff env p).1 hd, fun x hx hp => ?_⟩
    have := ha x hx
    rw [(includeExists_iff env x).2 hp] at this
    cases this

/-- **C27.**  A remote include path is taken as it is. -/
theorem include_remote {Path} (u : CharClass) (env : Env Path) (inc : QString) (cur : Path)
    (h0 : inc ≠ []) (hr : IsRemote u inc) : findIncludeFile u env inc cur = .remote inc := by
  unfold findIncludeFile
  rw [if_neg h0, if_pos (by simpa [isRemote_iff] using hr)]

/-- **C27.**  A local include path resolves iff there is something at one of the candidates, and
only to such a candidate. -/
theorem include_resolves_iff {Path} (u : CharClass) (env : Env Path) (inc : QString) (cur : Path)
    (h0 : inc ≠ []) (hr : ¬ IsRemote u inc) :
    ((∃ p, findIncludeFile u env inc cur = .file p) ↔
      ∃ p ∈ candidates env inc cur, Present env p) ∧
    ∀ p, findIncludeFile u env inc cur = .file p →
      p ∈ candidates env inc cur ∧ Present env p := by
  have h := include_first_existing u env inc cur h0 hr
  cases hf : findIncludeFile u env inc cur with
  | nothing =>
    rw [hf] at h
    refine ⟨⟨fun ⟨_, h'⟩ => (by cases h'), fun ⟨p, hp, hx⟩ => absurd hx (h p hp)⟩, fun p h' => (by cases h')⟩
  | remote r => rw [hf] at h; exact h.elim
  | file p =>
    rw [hf] at h
    obtain ⟨pre, post, he, hp, _⟩ := h
    have hm : p ∈ candidates env inc cur := by rw [he]; simp
    refine ⟨⟨fun _ => ⟨p, hm, hp⟩, fun _ => ⟨p, rfl⟩⟩, fun q hq => ?_⟩
    cases hq
    exact ⟨hm, hp⟩

/-- **C27.**  The empty include path resolves to nothing. -/
theorem include_empty {Path} (u : CharClass) (env : Env Path) (cur : Path) :
    findIncludeFile u env [] cur = .nothing := rfl

/-- **C27.**  The literal's quotes are removed; `.`, `..` and directory names never resolve. -/
theorem include_literal {Path} (u : CharClass) (env : Env Path) (q s : QString) (c d : QChar)
    (cur : Path) (hq : q = c :: (s ++ [d])) :
    includeForLiteral u env q cur =
      if s = q! "." ∨ s = q! ".." ∨ (q! "/").isSuffixOf s then .nothing
      else findIncludeFile u env s cur := by
  subst hq
  simp [includeForLiteral]

/-! Two projects `1` and `2`; document `10` in project `2`; the file exists in both. -/
def exEnv : Env Nat where
  parent p := p + 1000
  join d _ := d * 10
  isParentOf p c := p == 2 && c == 10
  known _ := false
  isLocalFile _ := true
  fileExists p := p == 20 || p == 10
  projects := [1, 2]
example : findIncludeFile asciiClass exEnv (q! "a.php") 10 = .file 20 ∧
    findIncludeFile asciiClass exEnv (q! "a.php") 11 = .file 10 ∧
    ¬ IsRemote asciiClass (q! "a.php") := by
  refine ⟨by decide +kernel, by decide +kernel, ?_⟩
  rw [isRemote_iff]; rintro (h | h) <;> revert h <;> decide +kernel
example : IsRemote asciiClass (q! "HTTP://x/y.php") := ⟨q! "HTTP://", q! "x/y.php", rfl, Or.inl (by decide +kernel)⟩

end KPhp.Include
