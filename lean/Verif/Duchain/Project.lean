import Verif.Duchain.Include
/-
A project of files that include each other, over any history of parse jobs: which files a file
imports, when a file counts as up to date, and the declarations that stand for included files.
(duchain/builders/contextbuilder.cpp:50-125, 462-480; duchain/builders/declarationbuilder.cpp:121-151,
1552-1580, 1709-1730; phpparsejob.cpp:61-205) and properties C96, C97.
-/
namespace KPhp.Project

open KPhp.Include (Env Result includeForLiteral)

variable {Path : Type} [DecidableEq Path]

/-- What surrounds the analysis at a moment: the paths and the projects, the files on disk, and the
revision of each document (`ModificationRevision::revisionForFile`: the time stamp of the file and
the revision of the editor, here one number).  `url` is `IndexedString` of a remote path. -/
structure World (Path : Type) where
  parent : Path → Path
  join : Path → QString → Path
  isParentOf : Path → Path → Bool
  isLocalFile : Path → Bool
  fileExists : Path → Bool
  projects : List Path
  url : QString → Path
  rev : Path → Nat

/-- What C27 consults, given which documents have a chain. -/
def World.env (w : World Path) (known : Path → Bool) : Env Path :=
  ⟨w.parent, w.join, w.isParentOf, known, w.isLocalFile, w.fileExists, w.projects⟩

/-- The document an include expression with this string token in the file `cur` refers to
(`getIncludeFileForNode`, duchain/helper.cpp:386-401, C27), `none` if there is none. -/
def target (u : CharClass) (w : World Path) (known : Path → Bool) (token : QString) (cur : Path) : Option Path :=
  match includeForLiteral u (w.env known) token cur with
  | .nothing => none
  | .remote p => some (w.url p)
  | .file p => some p

/-- What the DUChain keeps for a document, as far as includes are concerned.
* `imports`: the imported parent contexts of the top context;
* `own`: the revision of the document stored in its `ParsingEnvironmentFile`;
* `all`: its `allModificationRevisions`, a set of pairs of a document and a revision;
* `marks`: how many declarations of the kind `Import` with the document's own path as name and an
  empty range at (0, 0) are in the top context;
* `errors`: the syntax errors of the last run are among its problems. -/
structure Chain (Path : Type) where
  imports : List Path
  own : Nat
  all : List (Path × Nat)
  marks : Nat
  errors : Bool

/-- What a running job keeps besides: whether it found a chain to update
(`m_actuallyRecompiling`, declarationbuilder.cpp:131), and whether it has encountered the
declaration that stands for its own document (`setEncountered`). -/
structure Local where
  recompiling : Bool
  seen : Bool

/-- The chains of all documents and the jobs that are running. -/
structure State (Path : Type) where
  chain : Path → Option (Chain Path)
  job : Path → Option Local

/-- Nothing has been parsed. -/
def State.empty : State Path := ⟨fun _ => none, fun _ => none⟩

/-- A map changed at one point. -/
def put {α : Type} (m : Path → α) (p : Path) (a : α) : Path → α := fun q => if q = p then a else m q

def State.known (s : State Path) (p : Path) : Bool := (s.chain p).isSome

/-- The steps of a job: each is one section under the DUChain write lock (`start`, `pass1`, `pass2`,
`cleanup`, `stamp`), in this order.  Other jobs may run between them: the lock of a job excludes only
other jobs for the same document (`UrlParseLock`, phpparsejob.cpp:75), and `parseLock` is taken for
reading (phpparsejob.cpp:120). -/
inductive Step (Path : Type) where
  /-- the analysis of a file without syntax error begins -/
  | start (f : Path)
  /-- the first pass visits an include expression -/
  | pass1 (f : Path) (token : QString)
  /-- the second pass visits an include expression -/
  | pass2 (f : Path) (token : QString)
  /-- the second pass closes the top context -/
  | cleanup (f : Path)
  /-- the revision of the text that was read is stored -/
  | stamp (f : Path) (r : Nat)
  /-- the file has a syntax error -/
  | failed (f : Path)

/-- `TopDUContext::addImportedParentContext`: a context does not import itself, and it imports
another one once. -/
def addImport (f : Path) (imports : List Path) (g : Path) : List Path :=
  if g = f then imports else if g ∈ imports then imports else imports ++ [g]

/-- `ContextBuilder::build` and `startVisiting` in the first pass (contextbuilder.cpp:50-80,
94-117): the chain of the document, with its imports, its revisions (all but its own) and its
problems cleared, or a new chain with the present revision (`ParsingEnvironmentFile`'s constructor);
then the file of built-in functions is imported, if there are no imports. -/
def start (internal : Path) (w : World Path) (s : State Path) (f : Path) : State Path :=
  let c : Chain Path := match s.chain f with
    | some c => { c with imports := [], all := [(f, c.own)], errors := false }
    | none => ⟨[], w.rev f, [(f, w.rev f)], 0, false⟩
  let s' : State Path := ⟨put s.chain f (some c), put s.job f (some ⟨s.known f, false⟩)⟩
  if c.imports.isEmpty = true ∧ f ≠ internal then
    if s'.known internal then
      ⟨put s'.chain f (some { c with imports := addImport f c.imports internal }), s'.job⟩
    else s'
  else s'

/-- `ContextBuilder::visitUnaryExpression` in the first pass (contextbuilder.cpp:462-480): a document
that has a chain is imported, and its revisions are added. -/
def pass1 (u : CharClass) (w : World Path) (s : State Path) (f : Path) (token : QString) : State Path :=
  match target u w s.known token f with
  | none => s
  | some g =>
    match s.chain g, s.chain f with
    | some cg, some c =>
      { s with chain := put s.chain f (some { c with imports := addImport f c.imports g, all := c.all ++ cg.all }) }
    | _, _ => s

/-- `DeclarationBuilder::visitUnaryExpression` in the second pass (declarationbuilder.cpp:1552-1580):
if the included document has a declaration that stands for it, it is encountered (which matters only
in the document's own job, and then only when a chain is updated: 1722-1730); otherwise one is made
(and encountered).  The search goes through the document's imports, too; no other document has a
declaration with this name, as they are made here only. -/
def pass2 (u : CharClass) (w : World Path) (s : State Path) (f : Path) (token : QString) : State Path :=
  match target u w s.known token f with
  | none => s
  | some g =>
    match s.chain g with
    | none => s
    | some cg =>
      if cg.marks > 0 then
        match s.job f with
        | some l => { s with job := put s.job f (some { l with seen := l.seen || (decide (g = f) && l.recompiling) }) }
        | none => s
      else
        ⟨put s.chain g (some { cg with marks := cg.marks + 1 }),
          match s.job f with
          | some l => put s.job f (some { l with seen := l.seen || decide (g = f) })
          | none => s.job⟩

/-- `DeclarationBuilder::closeContext` for the top context (declarationbuilder.cpp:1709-1720):
`cleanIfNotEncountered` deletes the declarations the job has not encountered. -/
def cleanup (s : State Path) (f : Path) : State Path :=
  match s.chain f, s.job f with
  | some c, some l => { s with chain := put s.chain f (some { c with marks := if l.seen then c.marks else 0 }) }
  | _, _ => s

/-- `setModificationRevision` (phpparsejob.cpp:167-169): the pair of the document and its old
revision is replaced by the new one. -/
def stamp (s : State Path) (f : Path) (r : Nat) : State Path :=
  match s.chain f with
  | some c =>
    ⟨put s.chain f (some { c with own := r, all := c.all.filter (fun p => p ≠ (f, c.own)) ++ [(f, r)] }), put s.job f none⟩
  | none => s

/-- A file with a syntax error (phpparsejob.cpp:174-194): its chain keeps its imports and its
declarations, and loses its revisions (all but its own, which stays as it was); a new chain has the
present revision. -/
def failed (w : World Path) (s : State Path) (f : Path) : State Path :=
  match s.chain f with
  | some c => { s with chain := put s.chain f (some { c with all := [(f, c.own)], errors := true }) }
  | none => { s with chain := put s.chain f (some ⟨[], w.rev f, [(f, w.rev f)], 0, true⟩) }

def step (u : CharClass) (internal : Path) (w : World Path) (s : State Path) : Step Path → State Path
  | .start f => start internal w s f
  | .pass1 f t => pass1 u w s f t
  | .pass2 f t => pass2 u w s f t
  | .cleanup f => cleanup s f
  | .stamp f r => stamp s f r
  | .failed f => failed w s f

/-- Steps of any jobs in any order, the latest first; the world may be another one at each step. -/
def run (u : CharClass) (internal : Path) : List (World Path × Step Path) → State Path
  | [] => State.empty
  | e :: tr => step u internal e.1 (run u internal tr) e.2

/-- `ParseJob::isUpdateRequired` of KDevPlatform for a request that asks for no more features than
the chain has and does not force the update (phpparsejob.cpp:77-79): the document has a chain, and
every recorded revision is the present one. -/
def upToDate (w : World Path) (s : State Path) (f : Path) : Bool :=
  match s.chain f with
  | none => false
  | some c => c.all.all (fun p => decide (w.rev p.1 = p.2))

end KPhp.Project
