import Verif.Parser.OutlineFile
import Verif.Parser.Tokenize
/-!
# From the text to the declarations: theorems (C100)
-/
namespace KPhp.Outline
set_option linter.unusedVariables false
open KPhp (Tok)
open KPhp.Stmt
open KPhp.Scopes (TypeKind Code Outer Event visitFile start)

/-- `DeclarationBuilder::build` (declarationbuilder.cpp:121-144) over a tree of which the two walks see different parts. -/
def buildBoth (v : CharClass) (internal : Bool) (f1 f2 : List Outer) : Option (Scopes.St × Scopes.St) :=
  (visitFile v ⟨true, internal⟩ f1 start).bind fun s1 =>
  (visitFile v ⟨false, internal⟩ f2 { s1 with stack := [0], openNs := none, log := [] }).map fun s2 => (s1, s2)

/-- From the tokens of a file to its declarations (phpparsejob.cpp:153-182: parse, then build). -/
def declared (v : CharClass) (nm : Nat → QString) (ts : List Tok) : Option (Scopes.St × Scopes.St) :=
  (codeOf false nm ts).bind fun f1 => (codeOf true nm ts).bind fun f2 => buildBoth v false f1 f2

/-- The classes, interfaces and traits that a walk declared, in order. -/
def classesOf (s : Scopes.St) : List (TypeKind × QString) := s.log.filterMap fun x => classOf x.1

/-! ### Both walks see the same -/

def SameFile (f f' : List Outer) : Prop := ∀ v p s, f.foldlM (fun s o => Scopes.outer v p o s) s = f'.foldlM (fun s o => Scopes.outer v p o s) s

theorem sameFile_cons {a b : Outer} {f f' : List Outer} (h : ∀ v p s, Scopes.outer v p a s = Scopes.outer v p b s) (hf : SameFile f f') : SameFile (a :: f) (b :: f') :=
  fun v p s => by
    simp only [List.foldlM_cons, h]
    cases Scopes.outer v p b s with
    | none => rfl
    | some s' => exact hf v p s'

theorem file_same {n : Nat} (nm : Nat → QString) (s : S) (h : s.Fits .file) : ∀ o, s.toks.length ≤ n →
    hides s.toks = true ∨ SameFile (fileCode n true nm o s) (fileCode n false nm o s) := by
  refine file_rec (P := fun s => ∀ o, s.toks.length ≤ n →
    hides s.toks = true ∨ SameFile (fileCode n true nm o s) (fileCode n false nm o s)) ?_ ?_ ?_ ?_ s h
  · exact fun o _ => .inr fun _ _ _ => rfl
  · intro p l hp _ ih o hn
    exact (ih (o + (S.nsLine p).toks.length) (by simp only [S.toks, List.length_append] at hn ⊢; omega)).imp (fun h => hides_right _ _ h)
      (fun h => sameFile_cons (fun _ _ _ => rfl) h)
  · intro p b l hp hb _ ih o hn
    have hf := fine_outline (N := n) (fun w => by simp) hb (by simp only [S.toks, List.length_append, List.length_cons] at hn; omega)
    rcases hf.kept with h | h
    · rw [outline_toks] at h
      have h' := hides_left _ l.toks (hides_right (.NAMESPACE :: sepTxt .BACKSLASH tokTxt p ++ [.LBRACE]) (b.toks ++ [.RBRACE]) (hides_left _ _ (by simpa [ext] using h)))
      exact .inl (by simpa [S.toks] using h')
    refine (ih (o + (S.nsBlock p b).toks.length) (by simp only [S.toks, List.length_append] at hn ⊢; omega)).imp (fun h => hides_right _ _ h)
      (fun hl => sameFile_cons (fun v q s => ?_) hl)
    have e : Scopes.walk v q ((outline n b).code true nm (o + 2 + (sepTxt .BACKSLASH tokTxt p).length)) =
        Scopes.walk v q ((outline n b).code false nm (o + 2 + (sepTxt .BACKSLASH tokTxt p).length)) := funext fun s => h.same nm _ v q s
    cases nsName nm o p with
    | nil => simp only [Scopes.outer, e]
    | cons x ns => simp only [Scopes.outer, e]
  · intro a l ha1 ha2 ha _ ih o hn
    have hf := fine_outline (N := n) (fun w => by simp) ha (by simp only [S.toks, List.length_append] at hn; omega)
    rw [fileCode_other ha1 ha2, fileCode_other ha1 ha2]
    rcases hf.kept with h | h
    · refine .inl (hides_left _ _ ?_)
      rw [outline_toks] at h; simpa [ext] using h
    refine (ih (o + a.toks.length) (by simp only [S.toks, List.length_append] at hn ⊢; omega)).imp (fun h => hides_right _ _ h)
      (fun hl => sameFile_cons (fun v q s => h.same nm _ v q s) hl)

/-! ### Theorems -/

theorem parsed_fits {ts : List Tok} {s : S} (h : parseFile ts = some s) : s.Fits .file ∧ s.toks = ts := by
  have := (file_read_iff ts s).1 h
  exact ⟨this.1, this.2.symm⟩

/-- **C100 (no assertion fails).** In the tree of a file, no two constructs share a node: what C61 assumes of a tree holds for all trees that the parser makes. -/
theorem nodes_distinct {again : Bool} {nm : Nat → QString} {ts : List Tok} {f : List Outer} (h : codeOf again nm ts = some f) :
    (Scopes.fileKeys f).Nodup ∧ (Scopes.fileTokens f).Nodup := by
  simp only [codeOf, Option.map_eq_some_iff] at h
  obtain ⟨s, hs, rfl⟩ := h
  obtain ⟨hf, rfl⟩ := parsed_fits hs
  exact ⟨(rng_fileKeys s hf 0).nodup, (rng_fileTokens s hf 0).nodup⟩

theorem agrees_fst {cs : List Scopes.Ctx} : ∀ {l : List (Event × Nat)} {l' : List (Event × List Scopes.Frame)}, Scopes.Agrees cs l l' → l.map (·.1) = l'.map (·.1)
  | [], [], _ => rfl
  | (e, c) :: l, (e', fs) :: l', h => by
    obtain ⟨h1, _, h2⟩ := h
    simp only [List.map_cons]
    rw [agrees_fst h2, h1]
  | [], _ :: _, h => h.elim
  | _ :: _, [], h => h.elim

theorem first_walk {v : CharClass} {nm : Nat → QString} {ts : List Tok} {s : S} (h : parseFile ts = some s) :
    ∃ s1 s2, Scopes.build v false (fileCode ts.length false nm 0 s) = some (s1, s2) ∧ s1.stack = [0] ∧ s2.stack = [0] ∧ s2.ctxs = s1.ctxs ∧ s2.log = s1.log ∧
      (classesOf s1).Sublist ((scan 0 ts).map fun x => (x.1, lowerStr v (nm x.2))) ∧
      (hides ts = false → classesOf s1 = (scan 0 ts).map fun x => (x.1, lowerStr v (nm x.2))) := by
  obtain ⟨hf, rfl⟩ := parsed_fits h
  have hn := nodes_distinct (again := false) (nm := nm) (f := fileCode s.toks.length false nm 0 s) (by rw [codeOf, h]; rfl)
  obtain ⟨s1, s2, h1, h2, h3, _, _, _, h4, h5, h6⟩ := Scopes.build_good v false _ hn.1 hn.2
  obtain ⟨K, L, k1, k2, k3, k4⟩ := file_types v nm s hf [] 0 (Nat.le_refl _)
  have e : classesOf s1 = K.map fun x => (x.1, lowerStr v (nm x.2)) := by
    rw [← k1]
    have := congrArg (List.filterMap classOf) (agrees_fst h4)
    simp only [List.filterMap_map] at this
    exact this
  have eL : scan 0 s.toks = L := by
    have := k3 []
    rw [List.append_nil] at this
    rw [this]; simp [scan]
  refine ⟨s1, s2, h1, h2, h3, h5, h6, ?_, fun hh => ?_⟩
  · rw [e, eL]; exact k2.map _
  · rw [e, eL, k4.resolve_left (by rw [hh]; simp)]

/-- **C100 (no more than the text says).** In a file without syntax error the first walk runs to the end, and it declares only classes, interfaces and traits whose name stands behind the
word `class`, `interface`, `trait` in the text, of the kind the word says, each once and in the order of the text. -/
theorem classes_sound (v : CharClass) (nm : Nat → QString) {ts : List Tok} (h : (parseFile ts).isSome = true) :
    ∃ f s1, codeOf false nm ts = some f ∧ visitFile v ⟨true, false⟩ f start = some s1 ∧ s1.stack = [0] ∧
      (classesOf s1).Sublist ((scan 0 ts).map fun x => (x.1, lowerStr v (nm x.2))) := by
  obtain ⟨s, hs⟩ := Option.isSome_iff_exists.1 h
  obtain ⟨s1, s2, h1, h2, _, _, _, h3, _⟩ := first_walk (v := v) (nm := nm) hs
  obtain ⟨t, ht, h4⟩ := Option.bind_eq_some_iff.1 h1
  obtain ⟨t2, _, h5⟩ := Option.map_eq_some_iff.1 h4
  cases h5
  exact ⟨_, s1, by simp [codeOf, hs], ht, h2, h3⟩

/-- **C100 (partial).** In a file without syntax error that has no `if (…): … endif`, no `declare`, no index behind an index and none behind a string, both walks run to the end, see the same in the
same contexts, and declare exactly the classes, interfaces and traits that the text says.  Missing: the other files, for which it is false. -/
theorem classes_declared_partial (v : CharClass) (nm : Nat → QString) {ts : List Tok} (h : (parseFile ts).isSome = true) (hh : hides ts = false) :
    ∃ s1 s2, declared v nm ts = some (s1, s2) ∧ s1.stack = [0] ∧ s2.stack = [0] ∧ s2.ctxs = s1.ctxs ∧ s2.log = s1.log ∧
      classesOf s1 = (scan 0 ts).map fun x => (x.1, lowerStr v (nm x.2)) := by
  obtain ⟨s, hs⟩ := Option.isSome_iff_exists.1 h
  obtain ⟨s1, s2, h1, h2, h3, h4, h5, _, h6⟩ := first_walk (v := v) (nm := nm) hs
  refine ⟨s1, s2, ?_, h2, h3, h4, h5, h6 hh⟩
  obtain ⟨hf, rfl⟩ := parsed_fits hs
  have hsame := (file_same nm s hf 0 (Nat.le_refl _)).resolve_left (by rw [hh]; simp)
  show (codeOf false nm s.toks).bind _ = _
  simp only [codeOf, hs, Option.map_some, Option.bind_some]
  rw [← h1]
  have e : visitFile v ⟨false, false⟩ (fileCode s.toks.length true nm 0 s) = visitFile v ⟨false, false⟩ (fileCode s.toks.length false nm 0 s) :=
    funext fun s => by simp only [visitFile, hsame v ⟨false, false⟩ s]
  simp only [buildBoth, Scopes.build, e]

/-! ### Source text -/

/-- The tokens of a stream, without the end of the file. -/
def kindsOf (stream : List PTok) : List Tok := stream.filterMap (·.kind)
/-- The text of the `i`-th token (`ParseSession::symbol`). -/
def nameIn (c : QString) (stream : List PTok) (i : Nat) : QString :=
  match stream[i]? with
  | some t => symbolText c t
  | none => []
/-- The names that stand directly behind `class`, `interface` or `trait`. -/
def namesIn (v : CharClass) (c : QString) : List PTok → List (TypeKind × QString)
  | t :: n :: r =>
    match t.kind.bind kindOf with
    | some k => if n.kind = some .STRING then (k, lowerStr v (symbolText c n)) :: namesIn v c (n :: r) else namesIn v c (n :: r)
    | none => namesIn v c (n :: r)
  | _ => []

theorem scan_names (v : CharClass) (c : QString) : ∀ (l pre : List PTok), (∀ t ∈ l, t.kind ≠ none) → ∀ post,
    (scan pre.length (kindsOf l)).map (fun x => (x.1, lowerStr v (nameIn c (pre ++ l ++ post) x.2))) = namesIn v c l
  | [], pre, _, post => rfl
  | [t], pre, h, post => by
    obtain ⟨k, hk⟩ := Option.ne_none_iff_exists'.1 (h t (by simp))
    simp [kindsOf, hk, scan, namesIn]
  | t :: n :: r, pre, h, post => by
    obtain ⟨k, hk⟩ := Option.ne_none_iff_exists'.1 (h t (by simp))
    obtain ⟨m, hm⟩ := Option.ne_none_iff_exists'.1 (h n (by simp))
    have ih := scan_names v c (n :: r) (pre ++ [t]) (fun x hx => h x (List.mem_cons_of_mem _ hx)) post
    have e : pre ++ [t] ++ n :: r ++ post = pre ++ t :: n :: r ++ post := by simp
    have e1 : kindsOf (t :: n :: r) = k :: m :: kindsOf r := by simp [kindsOf, hk, hm]
    have e2 : kindsOf (n :: r) = m :: kindsOf r := by simp [kindsOf, hm]
    have e3 : nameIn c (pre ++ t :: n :: r ++ post) (pre.length + 1) = symbolText c n := by
      have : (pre ++ t :: n :: r ++ post)[pre.length + 1]? = some n := by
        rw [List.append_assoc, List.getElem?_append_right (by omega)]
        simp
      simp only [nameIn, this]
    rw [e, List.length_append, List.length_singleton, e2] at ih
    rw [e1]
    simp only [scan, namesIn, hk, hm, Option.bind_some]
    cases kindOf k with
    | none => exact ih
    | some k' =>
      dsimp only
      by_cases hs : m = .STRING
      · subst hs
        simp only [if_true, List.map_cons, e3, ih]
      · simp only [if_neg hs, Option.some.injEq, ih]

theorem names_eof (v : CharClass) (c : QString) (x : PTok) (hx : x.kind = none) : ∀ l, namesIn v c (l ++ [x]) = namesIn v c l
  | [] => rfl
  | [t] => by
    show namesIn v c [t, x] = []
    simp only [namesIn, hx]
    cases t.kind.bind kindOf <;> rfl
  | t :: n :: r => by
    have ih := names_eof v c x hx (n :: r)
    simp only [List.cons_append] at ih ⊢
    simp only [namesIn, ih]

/-- **C100 (partial), from the text of a file to its declared classes.** Whatever the source is: if it is read to its end without syntax error and hides nothing, both walks run to the end, and
declared are exactly the names that stand behind `class`, `interface` and `trait` in the source, in lower case. -/
theorem source_classes_partial (v : CharClass) (hv : v.Lawful) {c : QString} {php : Bool} {n : Nat} {stream : List PTok} (ht : tokenize v c php n = some (.done stream))
    (hp : (parseFile (kindsOf stream)).isSome = true) (hh : hides (kindsOf stream) = false) :
    ∃ s1 s2, declared v (nameIn c stream) (kindsOf stream) = some (s1, s2) ∧ s1.stack = [0] ∧ s2.stack = [0] ∧ s2.ctxs = s1.ctxs ∧ s2.log = s1.log ∧
      classesOf s1 = namesIn v c stream := by
  obtain ⟨s1, s2, h1, h2, h3, h4, h5, h6⟩ := classes_declared_partial v (nameIn c stream) hp hh
  refine ⟨s1, s2, h1, h2, h3, h4, h5, h6.trans ?_⟩
  obtain ⟨_, pre, x, rfl, hx, hpre⟩ := stream_no_trivia hv ht
  have := scan_names v c pre [] hpre [x]
  rw [names_eof v c x hx, ← this]
  have e : kindsOf (pre ++ [x]) = kindsOf pre := by simp [kindsOf, hx]
  rw [e]; rfl

/-! ### Files -/

/-- for the examples: the `i`-th token is called `i` -/
def number (i : Nat) : QString := [i]

/-- what the first walk declares -/
def firstClasses (ts : List Tok) : Option (List (TypeKind × QString)) :=
  (codeOf false number ts).bind fun f => (visitFile asciiClass ⟨true, false⟩ f start).map classesOf

/-- `if ($a) { interface I { function f(); } } class A { function g() { trait T { } } }` -/
def goodFile : List Tok :=
  [.IF, .LPAREN, .VARIABLE, .RPAREN, .LBRACE, .INTERFACE, .STRING, .LBRACE, .FUNCTION, .STRING, .LPAREN, .RPAREN, .SEMICOLON, .RBRACE, .RBRACE,
    .CLASS, .STRING, .LBRACE, .FUNCTION, .STRING, .LPAREN, .RPAREN, .LBRACE, .TRAIT, .STRING, .LBRACE, .RBRACE, .RBRACE, .RBRACE]
example : (parseFile goodFile).isSome = true ∧ hides goodFile = false ∧ scan 0 goodFile = [(.interface, 6), (.klass, 16), (.trait, 24)] ∧
    firstClasses goodFile = some [(.interface, [6]), (.klass, [16]), (.trait, [24])] := by decide +kernel

/-- `if ($a): else: class X { } endif;` -/
def elseFile : List Tok := [.IF, .LPAREN, .VARIABLE, .RPAREN, .COLON, .ELSE, .COLON, .CLASS, .STRING, .LBRACE, .RBRACE, .ENDIF, .SEMICOLON]
/-- `declare (ticks=1) { class X { } }` -/
def declareFile : List Tok := [.DECLARE, .LPAREN, .STRING, .ASSIGN, .LNUMBER, .RPAREN, .LBRACE, .CLASS, .STRING, .LBRACE, .RBRACE, .RBRACE]
/-- `f()[function () { class X { } }][1];` -/
def indexFile : List Tok := [.STRING, .LPAREN, .RPAREN, .LBRACKET, .FUNCTION, .LPAREN, .RPAREN, .LBRACE, .CLASS, .STRING, .LBRACE, .RBRACE, .RBRACE, .RBRACKET,
  .LBRACKET, .LNUMBER, .RBRACKET, .SEMICOLON]
/-- `static $x = 'a'[function () { class A { } }][1];` -/
def staticFile : List Tok := [.STATIC, .VARIABLE, .ASSIGN, .CONSTANT_ENCAPSED_STRING, .LBRACKET, .FUNCTION, .LPAREN, .RPAREN, .LBRACE, .CLASS, .STRING, .LBRACE, .RBRACE,
  .RBRACE, .RBRACKET, .LBRACKET, .LNUMBER, .RBRACKET, .SEMICOLON]
/-- `declare (a = 'a'[function () { class A { } }], b = 1);` -/
def declaresFile : List Tok := [.DECLARE, .LPAREN, .STRING, .ASSIGN, .CONSTANT_ENCAPSED_STRING, .LBRACKET, .FUNCTION, .LPAREN, .RPAREN, .LBRACE, .CLASS, .STRING, .LBRACE,
  .RBRACE, .RBRACE, .RBRACKET, .COMMA, .STRING, .ASSIGN, .LNUMBER, .RPAREN, .SEMICOLON]
/-- **C100 (counterexamples).** Classes in these places are never declared: behind `else:` and `elseif (…):`, in a block of `declare`, in an index that another one follows (in expressions and in the values of static variables), in a value of `declare` that another one follows. -/
theorem classes_not_declared :
    ((parseFile elseFile).isSome = true ∧ scan 0 elseFile = [(.klass, 8)] ∧ firstClasses elseFile = some []) ∧
    ((parseFile declareFile).isSome = true ∧ scan 0 declareFile = [(.klass, 8)] ∧ firstClasses declareFile = some []) ∧
    ((parseFile indexFile).isSome = true ∧ scan 0 indexFile = [(.klass, 9)] ∧ firstClasses indexFile = some []) ∧
    ((parseFile staticFile).isSome = true ∧ scan 0 staticFile = [(.klass, 10)] ∧ firstClasses staticFile = some []) ∧
    ((parseFile declaresFile).isSome = true ∧ scan 0 declaresFile = [(.klass, 11)] ∧ firstClasses declaresFile = some []) := by decide +kernel

/-- the contexts that the first walk makes -/
def contextsOf (ts : List Tok) : Option (List (Scopes.Kind × Option Scopes.Part)) := ((codeOf false number ts).bind fun f => visitFile asciiClass ⟨true, false⟩ f start).map fun s => s.ctxs.map fun c => (c.kind, c.key.map (·.part))
/-- `abstract class A { abstract function f (); function g () { } }` -/
def abstractFile : List Tok := [.ABSTRACT, .CLASS, .STRING, .LBRACE, .ABSTRACT, .FUNCTION, .STRING, .LPAREN, .RPAREN, .SEMICOLON, .FUNCTION, .STRING, .LPAREN, .RPAREN, .LBRACE, .RBRACE, .RBRACE]
/-- `function () { }; function () use ($x) { };` -/
def closuresFile : List Tok := [.FUNCTION, .LPAREN, .RPAREN, .LBRACE, .RBRACE, .SEMICOLON, .FUNCTION, .LPAREN, .RPAREN, .USE, .LPAREN, .VARIABLE, .RPAREN, .LBRACE, .RBRACE, .SEMICOLON]
/-- Also an abstract method has a scope for its body, the `;` (php.g:1121, 1145-1147: `methodBody` is there in both cases, so that contextbuilder.cpp:287 opens one); a closure has a list of uses only if it names some. -/
example : contextsOf abstractFile = some [(.global, none), (.klass, some .whole), (.function, some .params), (.other, some .body), (.function, some .params), (.other, some .body)] ∧
    contextsOf closuresFile = some [(.global, none), (.function, some .params), (.other, some .body), (.function, some .params), (.other, some .uses), (.other, some .body)] := by decide +kernel

/-- `class A { var $x = 'a'[function () { }]; }` -/
def closureFile : List Tok := [.CLASS, .STRING, .LBRACE, .VAR, .VARIABLE, .ASSIGN, .CONSTANT_ENCAPSED_STRING, .LBRACKET, .FUNCTION, .LPAREN, .RPAREN, .LBRACE, .RBRACE,
  .RBRACKET, .SEMICOLON, .RBRACE]
/-- **C100 (finding).** The second walk meets a closure in the value of a class variable, whose context the first walk never made. -/
theorem second_walk_stops :
    (parseFile closureFile).isSome = true ∧ (firstClasses closureFile).isSome = true ∧ (declared asciiClass number closureFile).isNone = true := by decide +kernel

/-- `<?php class A { } trait B { }` -/
def source : QString := q! "<?php class A { } trait B { }"
example : (tokenize asciiClass source false 40).bind (fun f => match f with
    | .done stream => some ((parseFile (kindsOf stream)).isSome, hides (kindsOf stream), namesIn asciiClass source stream)
    | .running => none) = some (true, false, [(.klass, q! "a"), (.trait, q! "b")]) := by decide +kernel

end KPhp.Outline
