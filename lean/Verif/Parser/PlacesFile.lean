import Verif.Parser.PlacesStmt
import Verif.Parser.Declared
/-!
# The place of every declaration (C101)
-/
namespace KPhp.Outline
set_option linter.unusedVariables false
set_option linter.unusedSectionVars false
open KPhp (Tok)
open KPhp.Grammar (E Closures headIn Fits)
open KPhp.Stmt
open KPhp.Scopes (TypeKind Event Frame Ctx visitFile start)

/-! ### Specification -/

/-- The declarations of classes, functions, methods and namespaces, with their names. -/
def declOf : Event → Option (What × QString)
  | .type k n => some (.type k, n)
  | .function n => some (.function, n)
  | .method n => some (.method, n)
  | .namespace n => some (.namespace, n)
  | _ => none

/-- The names of the classes and namespaces around the context `c`, innermost first, found by going from a context to its parent; the first argument bounds how often. -/
def pathTo (cs : List Ctx) : Nat → Nat → List QString
  | 0, _ => []
  | n + 1, c =>
    match cs[c]? with
    | none => []
    | some x => (if x.kind = .klass ∨ x.kind = .namespace then [x.name] else []) ++ (match x.parent with | some q => pathTo cs n q | none => [])

/-- The classes, functions, methods and namespaces that a walk declared, in order, each with the names of the classes and namespaces that the context of the declaration stands in. -/
def declarationsOf (s : Scopes.St) : List (What × QString × List QString) :=
  s.log.filterMap fun x => (declOf x.1).map fun y => (y.1, y.2, pathTo s.ctxs (x.2 + 1) x.2)

/-- A place by the names at it: `nm` gives the text of a token. -/
def named (v : CharClass) (nm : Nat → QString) (m : Mark) : What × QString × List QString :=
  (m.1, lowerStr v (nm m.2.1), m.2.2.map fun i => lowerStr v (nm i))

/-! ### From contexts to frames -/

def pathOf (fs : List Frame) : List QString := fs.filterMap fun f => if f.kind = .klass ∨ f.kind = .namespace then some f.name else none

theorem within_path {cs : List Ctx} {c : Nat} {fs : List Frame} (h : Scopes.Within cs c fs) : ∀ n, c < n → pathTo cs n c = pathOf fs := by
  induction h with
  | file h1 h2 =>
    intro n hn
    obtain ⟨n, rfl⟩ : ∃ k, n = k + 1 := ⟨n - 1, by omega⟩
    simp only [pathTo, h1, h2, pathOf, List.filterMap_cons, List.filterMap_nil, List.append_nil]
    split <;> rfl
  | @inner c q x fs h1 h2 h3 _ ih =>
    intro n hn
    obtain ⟨n, rfl⟩ : ∃ k, n = k + 1 := ⟨n - 1, by omega⟩
    simp only [pathTo, h1, h2, ih n (by omega)]
    simp only [pathOf, List.filterMap_cons]
    split <;> rfl

/-- a declaration, with the names of what is around it -/
def declAt (x : Event × List Frame) : Option (What × QString × List QString) := (declOf x.1).map fun y => (y.1, y.2, pathOf x.2)

theorem agrees_decl {cs : List Ctx} : ∀ {l : List (Event × Nat)} {l' : List (Event × List Frame)}, Scopes.Agrees cs l l' →
    (l.filterMap fun x => (declOf x.1).map fun y => (y.1, y.2, pathTo cs (x.2 + 1) x.2)) = l'.filterMap declAt
  | [], [], _ => rfl
  | (e, c) :: l, (e', fs) :: l', h => by
    obtain ⟨rfl, h1, h2⟩ := h
    simp only [List.filterMap_cons, agrees_decl h2, declAt, within_path h1 _ (Nat.lt_succ_self _)]
  | [], _ :: _, h => h.elim
  | _ :: _, [], h => h.elim

@[simp] theorem declOf_type (k : TypeKind) (n : QString) : declOf (.type k n) = some (.type k, n) := rfl
@[simp] theorem declOf_function (n : QString) : declOf (.function n) = some (.function, n) := rfl
@[simp] theorem declOf_method (n : QString) : declOf (.method n) = some (.method, n) := rfl
@[simp] theorem declOf_closure : declOf .closure = none := rfl
@[simp] theorem declOf_namespace (n : QString) : declOf (.namespace n) = some (.namespace, n) := rfl
@[simp] theorem pathOf_namespace (k : Option Scopes.Key) (n : QString) (fr : List Frame) : pathOf (⟨k, .namespace, n⟩ :: fr) = n :: pathOf fr := rfl

@[simp] theorem pathOf_type (k : Option Scopes.Key) (n : QString) (fr : List Frame) : pathOf (⟨k, .klass, n⟩ :: fr) = n :: pathOf fr := rfl
@[simp] theorem pathOf_function (k : Option Scopes.Key) (n : QString) (fr : List Frame) : pathOf (⟨k, .function, n⟩ :: fr) = pathOf fr := rfl
@[simp] theorem pathOf_other (k : Option Scopes.Key) (n : QString) (fr : List Frame) : pathOf (⟨k, .other, n⟩ :: fr) = pathOf fr := rfl

variable (u : CharClass)

theorem sites_seen (nm : Nat → QString) (t : U) : ∀ w o fr, pathOf fr = w.map (fun i => lowerStr u (nm i)) →
    (Scopes.sites u false fr (t.code false nm o)).filterMap declAt = (t.seen w o).map (named u nm) := by
  induction t with
  | txt ts => exact fun _ _ _ _ => rfl
  | app a b iha ihb => intro w o fr h; simp only [U.code, Scopes.sites, List.filterMap_append, iha w o fr h, ihb w _ fr h, U.seen, List.map_append]
  | lost a ih => exact fun _ _ _ _ => rfl
  | late a ih => exact fun _ _ _ _ => rfl
  | type f k r ih =>
    intro w o fr h
    have := ih ((o + f.length + 1) :: w) (o + f.length + 2) (⟨some ⟨o + f.length + 1, .whole⟩, .klass, lowerStr u (nm (o + f.length + 1))⟩ :: fr) (by simp [h])
    simp only [U.code, Scopes.sites, List.filterMap_cons, declAt, declOf_type, Option.map_some, U.seen, List.map_cons, named, h]
    exact congrArg _ this
  | func f n p b ihp ihb =>
    intro w o fr h
    have h1 := ihp w (o + f.length + 1) (⟨some ⟨o + f.length, .params⟩, .function, nm (o + f.length)⟩ :: fr) h
    have h2 := ihb w (o + f.length + 1 + p.toks.length) (⟨some ⟨o + f.length, .body⟩, .other, nm (o + f.length)⟩ :: fr) h
    simp only [U.code, Scopes.sites, List.filterMap_cons, declAt, declOf_function, Option.map_some, U.seen, List.map_cons, named, h, List.map_append, List.filterMap_append]
    exact congrArg _ (congr (congrArg _ h1) h2)
  | meth f n p hb b ihp ihb =>
    intro w o fr h
    have h1 := ihp w (o + f.length + 1) (⟨some ⟨o + f.length, .params⟩, .function, nm (o + f.length)⟩ :: fr) h
    have h2 := ihb w (o + f.length + 1 + p.toks.length) (⟨some ⟨o + f.length, .body⟩, .other, nm (o + f.length)⟩ :: fr) h
    simp only [U.code, Scopes.sites, List.filterMap_cons, declAt, declOf_method, Option.map_some, U.seen, List.map_cons, named, h, List.map_append, List.filterMap_append]
    cases hb
    · exact congrArg _ (congr (congrArg _ h1) rfl)
    · exact congrArg _ (congr (congrArg _ h1) h2)
  | clo p hb us b ihp ihu ihb =>
    intro w o fr h
    have h1 := ihp w (o + 1) (⟨some ⟨o, .params⟩, .function, []⟩ :: fr) h
    have h2 := ihu w (o + 1 + p.toks.length) (⟨some ⟨o, .uses⟩, .other, []⟩ :: fr) h
    have h3 := ihb w (o + 1 + p.toks.length + us.toks.length) (⟨some ⟨o, .body⟩, .other, []⟩ :: fr) h
    simp only [U.code, Scopes.sites, List.filterMap_cons, declAt, declOf_closure, Option.map_none, U.seen, List.map_append, List.filterMap_append]
    cases hb
    · exact congr (congrArg _ h1) (congr (congrArg _ rfl) h3)
    · exact congr (congrArg _ h1) (congr (congrArg _ h2) h3)

theorem nsSites_seen (nm : Nat → QString) (p : List Tok) : ∀ fr w o, pathOf fr = w.map (fun i => lowerStr u (nm i)) →
    (Scopes.nsSites u fr (nsName nm o p)).filterMap declAt = (spaces w ((nsName nm o p).map (·.1))).map (named u nm) := by
  induction p with
  | nil => exact fun _ _ _ _ => rfl
  | cons t p ih =>
    intro fr w o h
    have := ih (⟨some ⟨o + 1, .whole⟩, .namespace, lowerStr u (nm (o + 1))⟩ :: fr) ((o + 1) :: w) (o + 2) (by simp [h])
    simp only [nsName, Scopes.nsSites, List.filterMap_cons, declAt, declOf_namespace, Option.map_some, List.map_cons, spaces, named, h]
    exact congrArg _ this
theorem nsSites_file (nm : Nat → QString) (p : List Tok) (o : Nat) :
    (Scopes.nsSites u [Scopes.fileFrame] (nsName nm o p)).filterMap declAt = (spaces [] ((nsName nm o p).map (·.1))).map (named u nm) := nsSites_seen u nm p _ _ _ rfl

theorem path_ns (ns : Scopes.NsName) : pathOf (Scopes.inNamespace u ns) = (ns.map fun x => lowerStr u x.2).reverse := by
  unfold pathOf Scopes.inNamespace
  rw [List.filterMap_append, List.filterMap_reverse, List.filterMap_map]
  have : (List.filterMap (fun f : Frame => if f.kind = .klass ∨ f.kind = .namespace then some f.name else none) [Scopes.fileFrame]) = [] := rfl
  rw [this, List.append_nil]
  congr 1
  induction ns with
  | nil => rfl
  | cons x ns ih => rw [List.filterMap_cons, List.map_cons, ← ih]; rfl

theorem nsName_names (nm : Nat → QString) (p : List Tok) : ∀ o, (nsName nm o p).map (fun x => lowerStr u x.2) = ((nsName nm o p).map (·.1)).map fun i => lowerStr u (nm i) := by
  induction p with
  | nil => exact fun o => rfl
  | cons t p ih => intro o; simp only [nsName, List.map_cons, ih]

theorem nsNames_text (nm : Nat → QString) {t : Tok} (ht : t = .SEMICOLON ∨ t = .LBRACE) {r : List Tok} (p : List Tok) : (∀ t ∈ p, t = .STRING) → ∀ o,
    nsNames (o + 1) (sepTxt .BACKSLASH tokTxt p ++ t :: r) = (nsName nm o p).map (·.1) := by
  have h0 : ∀ o, nsNames o (t :: r) = [] := fun o => by rcases ht with rfl | rfl <;> rfl
  induction p with
  | nil => exact fun _ o => h0 _
  | cons a p ih =>
    intro h o
    have ha := h a (by simp)
    subst ha
    cases p with
    | nil => show _ :: nsNames (o + 2) (t :: r) = _; rw [h0]; rfl
    | cons b p =>
      have := ih (fun x hx => h x (List.mem_cons_of_mem _ hx)) (o + 2)
      show _ :: nsNames (o + 2 + 1) (sepTxt .BACKSLASH tokTxt (b :: p) ++ t :: r) = _
      rw [this]; rfl

/-! ### Outlines -/

theorem go_closure {A : Closures} {clo : List Tok → U} (hclo : ∀ t, A.Ok t → ∀ w a, Go w a a (clo t)) {c : Clo} (h : @Clo.Ok A c) (w : List Nat) (a : Lv) :
    Go w a a (Clo.tree clo c) := by
  refine go_clo (b := c.ref) (go_app (go_plain (plain_app (plain_flag rfl _) rfl)) (go_app (go_params hclo h.1) (go_txt rfl))) ?_ (go_plain ?_)
    (go_app (go_plain (plain_opt fun x hx => plain_cons rfl (plain_hints words_return (h.2.2.1 x hx)))) (go_in (.inl rfl) (go_tree hclo _ _ (good_of rfl) h.2.2.2 _ _ rfl)))
  · refine ⟨(paramsTree clo c.params).toks ++ [.RPAREN], ?_⟩
    show (flagTxt .BIT_AND c.ref ++ [.LPAREN]) ++ ((paramsTree clo c.params).toks ++ [.RPAREN]) = _
    simp
  · exact plain_opt fun x _ => plain_cons rfl (plain_cons rfl (plain_app (plain_app (plain_sep rfl fun b _ => plain_app (plain_flag rfl b) rfl) (plain_flag rfl _)) rfl))

theorem go_cloTree (n : Nat) : ∀ t, (lvl n).Ok t → ∀ m, n ≤ m → ∀ w a, Go w a a (cloTree m t) := by
  induction n with
  | zero => exact fun t h => h.elim
  | succ n ih =>
    rintro t ⟨c, h, rfl⟩ m hm
    obtain ⟨m, rfl⟩ : ∃ k, m = k + 1 := ⟨m - 1, by omega⟩
    rw [cloTree_read h]
    exact go_closure (A := lvl n) (fun t ht => ih t ht m (by omega)) h

theorem go_outline {s : S} {c : Cat} (hc : Good c s) {N : Nat} (h : s.Fits c) (hN : s.toks.length ≤ N) {w : List Nat} {a : Lv} (ha : Lev c a) : Go w a a (outline N s) :=
  @go_tree (lvl N) (cloTree N) (fun t ht => go_cloTree N t ht N (Nat.le_refl _)) s c hc (lvl_file h hN) w a ha

/-! ### The nodes of the names -/

/-- The nodes of the names that a walk over a tree declares, in its order (the same functions as `Scopes.walk`). -/
def codeNodes : Scopes.Code → List Nat
  | .empty | .leaf _ => []
  | .seq a b => codeNodes a ++ codeNodes b
  | .closure _ p hasUses us b => codeNodes p ++ ((if hasUses then codeNodes us else []) ++ codeNodes b)
  | .function id _ p b => id :: (codeNodes p ++ codeNodes b)
  | .type id _ _ m => id :: codeNodes m
  | .method id _ p hasBody b => id :: (codeNodes p ++ if hasBody then codeNodes b else [])
/-- The same for a file. -/
def fileNodes : List Scopes.Outer → List Nat
  | [] => []
  | .code c :: f => codeNodes c ++ fileNodes f
  | .nsDecl n :: f => n.map (·.1) ++ fileNodes f
  | .nsBlock n b :: f => n.map (·.1) ++ (codeNodes b ++ fileNodes f)

theorem codeNodes_seen (nm : Nat → QString) (t : U) : ∀ w o, codeNodes (t.code false nm o) = (t.seen w o).map (·.2.1) := by
  induction t with
  | txt ts => exact fun _ _ => rfl
  | app a b iha ihb => intro w o; simp only [U.code, codeNodes, iha w o, ihb w _, U.seen, List.map_append]
  | lost a ih => exact fun _ _ => rfl
  | late a ih => exact fun _ _ => rfl
  | type f k r ih => intro w o; simp only [U.code, codeNodes, U.seen, List.map_cons, ih ((o + f.length + 1) :: w) (o + f.length + 2)]
  | func f n p b ihp ihb => intro w o; simp only [U.code, codeNodes, U.seen, List.map_cons, List.map_append, ihp w, ihb w]
  | meth f n p hb b ihp ihb =>
    intro w o
    simp only [U.code, codeNodes, U.seen, List.map_cons, List.map_append, ihp w, ihb w]
    cases hb <;> rfl
  | clo p hb us b ihp ihu ihb =>
    intro w o
    simp only [U.code, codeNodes, U.seen, List.map_append, ihp w, ihb w]
    cases hb
    · rfl
    · simp only [if_true, ihu w]

theorem spaces_nodes : ∀ (l w : List Nat), (spaces w l).map (·.2.1) = l
  | [], _ => rfl
  | i :: l, w => by simp [spaces, spaces_nodes l (i :: w)]

/-! ### Files -/

theorem run_ns {w : List Nat} {o : Nat} {p : List Tok} (nm : Nat → QString) (hp : ∀ t ∈ p, t = .STRING) {t : Tok} (ht : t = .SEMICOLON ∨ t = .LBRACE) {r : List Tok} :
    run (lv w (false, [])) o (.NAMESPACE :: (sepTxt .BACKSLASH tokTxt p ++ t :: r)) =
      spaces [] ((nsName nm o p).map (·.1)) ++ run (lv ((nsName nm o p).map (·.1)).reverse (false, if t = .LBRACE then [⟨[], false⟩] else [])) (o + 2 + (sepTxt .BACKSLASH tokTxt p).length) r := by
  have h1 : run (lv w (false, [])) o (.NAMESPACE :: (sepTxt .BACKSLASH tokTxt p ++ t :: r)) =
      spaces [] (nsNames (o + 1) (sepTxt .BACKSLASH tokTxt p ++ t :: r)) ++ run { lv [] (false, []) with next := some ⟨(nsNames (o + 1) (sepTxt .BACKSLASH tokTxt p ++ t :: r)).reverse, false⟩ } (o + 1) (sepTxt .BACKSLASH tokTxt p ++ t :: r) := rfl
  rw [h1, nsNames_text nm ht p hp, run_txt rfl (plain_string hp)]
  have e : o + 1 + (sepTxt .BACKSLASH tokTxt p).length + 1 = o + 2 + (sepTxt .BACKSLASH tokTxt p).length := by omega
  rcases ht with rfl | rfl
  · rw [← e]; rfl
  · rw [← e]; rfl

/-- The declarations of a file with their tokens, in the order of the walk over `fileCode`. -/
def fileMarks (n : Nat) (nm : Nat → QString) : List Nat → Nat → S → List Mark
  | _, o, .cons (.nsLine p) l => spaces [] ((nsName nm o p).map (·.1)) ++ fileMarks n nm ((nsName nm o p).map (·.1)).reverse (o + (S.nsLine p).toks.length) l
  | _, o, .cons (.nsBlock p b) l =>
    spaces [] ((nsName nm o p).map (·.1)) ++ ((outline n b).seen ((nsName nm o p).map (·.1)).reverse (o + 2 + (sepTxt .BACKSLASH tokTxt p).length) ++
      fileMarks n nm [] (o + (S.nsBlock p b).toks.length) l)
  | w, o, .cons a l => (outline n a).seen w o ++ fileMarks n nm w (o + a.toks.length) l
  | _, _, _ => []

theorem fileMarks_other {n : Nat} {nm : Nat → QString} {w : List Nat} {o : Nat} {a l : S} (h1 : ∀ p, a ≠ .nsLine p) (h2 : ∀ p b, a ≠ .nsBlock p b) :
    fileMarks n nm w o (.cons a l) = (outline n a).seen w o ++ fileMarks n nm w (o + a.toks.length) l := by
  cases a with
  | nsLine p => exact absurd rfl (h1 p)
  | nsBlock p b => exact absurd rfl (h2 p b)
  | _ => rfl

theorem file_places {n : Nat} (nm : Nat → QString) (s : S) (h : s.Fits .file) : ∀ ns w o, pathOf (Scopes.inNamespace u ns) = w.map (fun i => lowerStr u (nm i)) → s.toks.length ≤ n →
    ∃ K L : List Mark, (Scopes.fileSites u false ns (fileCode n false nm o s)).filterMap declAt = K.map (named u nm) ∧ fileNodes (fileCode n false nm o s) = K.map (·.2.1) ∧ K = fileMarks n nm w o s ∧
      K.Sublist L ∧ run (lv w (false, [])) o s.toks = L ∧ (hides s.toks = true ∨ K = L) := by
  have hN : ∀ o p, pathOf (Scopes.inNamespace u (nsName nm o p)) = ((nsName nm o p).map (·.1)).reverse.map (fun i => lowerStr u (nm i)) :=
    fun o p => by rw [path_ns, nsName_names, List.map_reverse]
  refine file_rec (P := fun s => ∀ ns w o, pathOf (Scopes.inNamespace u ns) = w.map (fun i => lowerStr u (nm i)) → s.toks.length ≤ n →
    ∃ K L : List Mark, (Scopes.fileSites u false ns (fileCode n false nm o s)).filterMap declAt = K.map (named u nm) ∧ fileNodes (fileCode n false nm o s) = K.map (·.2.1) ∧ K = fileMarks n nm w o s ∧
      K.Sublist L ∧ run (lv w (false, [])) o s.toks = L ∧ (hides s.toks = true ∨ K = L)) ?_ ?_ ?_ ?_ s h
  · exact fun ns w o _ _ => ⟨[], [], rfl, rfl, rfl, .refl _, rfl, .inr rfl⟩
  · intro p l hp _ ih ns w o hw hn
    obtain ⟨K, L, h1, h5, h6, h2, h3, h4⟩ := ih (nsName nm o p) _ (o + (S.nsLine p).toks.length) (hN o p) (by simp only [S.toks, List.length_append] at hn ⊢; omega)
    refine ⟨spaces [] ((nsName nm o p).map (·.1)) ++ K, spaces [] ((nsName nm o p).map (·.1)) ++ L, ?_, ?_, (by simp only [fileMarks, h6]), (List.Sublist.refl _).append h2, ?_,
      h4.imp (fun h => hides_right _ _ h) fun h => by rw [h]⟩
    · simp only [fileCode, Scopes.fileSites, List.filterMap_append, nsSites_file, h1, List.map_append]
    · simp only [fileCode, fileNodes, h5, List.map_append, spaces_nodes]
    · have e : (S.cons (.nsLine p) l).toks = .NAMESPACE :: (sepTxt .BACKSLASH tokTxt p ++ .SEMICOLON :: l.toks) := by simp [S.toks]
      have e1 : o + (S.nsLine p).toks.length = o + 2 + (sepTxt .BACKSLASH tokTxt p).length := by simp only [S.toks, List.length_append, List.length_cons, List.length_nil]; omega
      rw [e, run_ns nm hp.2.2 (.inl rfl), ← e1]
      exact congrArg _ h3
  · intro p b l hp hb _ ih ns w o hw hn
    obtain ⟨K, L, h1, h5, h6, h2, h3, h4⟩ := ih [] [] (o + (S.nsBlock p b).toks.length) rfl (by simp only [S.toks, List.length_append] at hn ⊢; omega)
    have hnb : b.toks.length ≤ n := by simp only [S.toks, List.length_append, List.length_cons] at hn; omega
    have hf := fine_outline (N := n) (fun w => by simp) hb hnb
    have ht : (S.cons (.nsBlock p b) l).toks = .NAMESPACE :: (sepTxt .BACKSLASH tokTxt p ++ .LBRACE :: (b.toks ++ .RBRACE :: l.toks)) := by simp [S.toks]
    have hg := go_outline (N := n) (w := ((nsName nm o p).map (·.1)).reverse) (a := (false, [⟨[], false⟩])) (good_of rfl) hb hnb rfl (o + 2 + (sepTxt .BACKSLASH tokTxt p).length) (.RBRACE :: l.toks)
    rw [outline_toks] at hg
    refine ⟨spaces [] ((nsName nm o p).map (·.1)) ++ ((outline n b).seen ((nsName nm o p).map (·.1)).reverse (o + 2 + (sepTxt .BACKSLASH tokTxt p).length) ++ K),
      spaces [] ((nsName nm o p).map (·.1)) ++ ((outline n b).marks ((nsName nm o p).map (·.1)).reverse (o + 2 + (sepTxt .BACKSLASH tokTxt p).length) ++ L), ?_, ?_, (by simp only [fileMarks, h6]),
      (List.Sublist.refl _).append ((seen_sublist _ _ _).append h2), ?_, ?_⟩
    · simp only [fileCode, Scopes.fileSites, List.filterMap_append, nsSites_file, h1, List.map_append]
      rw [sites_seen u nm (outline n b) _ _ _ (hN o p), List.append_assoc]
    · simp only [fileCode, fileNodes, h5, List.map_append, spaces_nodes]
      rw [codeNodes_seen]
    · rw [ht, run_ns nm hp (.inr rfl)]
      refine congrArg _ (hg.trans ?_)
      have e2 : o + 2 + (sepTxt .BACKSLASH tokTxt p).length + b.toks.length + 1 = o + (S.nsBlock p b).toks.length := by
        simp only [S.toks, List.length_append, List.length_cons, List.length_nil]; omega
      rw [run_close (w := []) (a := (false, [])), e2, h3]
    · rw [ht]
      rcases hf.kept with h | h
      · refine .inl ?_
        rw [outline_toks] at h
        have h : hides b.toks = true := by simpa [ext] using h
        have := hides_right (.NAMESPACE :: (sepTxt .BACKSLASH tokTxt p ++ [.LBRACE])) _ (hides_left b.toks (.RBRACE :: l.toks) h)
        simpa using this
      rcases h4 with h4 | h4
      · refine .inl ?_
        have := hides_right (.NAMESPACE :: (sepTxt .BACKSLASH tokTxt p ++ .LBRACE :: (b.toks ++ [.RBRACE]))) l.toks h4
        simpa using this
      · exact .inr (by rw [h.seen, h4])
  · intro a l ha1 ha2 ha _ ih ns w o hw hn
    obtain ⟨K, L, h1, h5, h6, h2, h3, h4⟩ := ih ns w (o + a.toks.length) hw (by simp only [S.toks, List.length_append] at hn ⊢; omega)
    have hna : a.toks.length ≤ n := by simp only [S.toks, List.length_append] at hn; omega
    have hf := fine_outline (N := n) (fun w => by simp) ha hna
    have hg := go_outline (N := n) (w := w) (a := (false, [])) ⟨(fun w hw => by cases hw), (fun hw => by cases hw), fun _ => ⟨ha1, ha2⟩⟩ ha hna rfl o l.toks
    rw [outline_toks] at hg
    refine ⟨(outline n a).seen w o ++ K, (outline n a).marks w o ++ L, ?_, ?_, (by rw [fileMarks_other ha1 ha2, h6]), (seen_sublist _ _ _).append h2, ?_, ?_⟩
    · rw [fileCode_other ha1 ha2]
      simp only [Scopes.fileSites, List.filterMap_append, h1, List.map_append]
      rw [sites_seen u nm (outline n a) w o _ hw]
    · rw [fileCode_other ha1 ha2]
      simp only [fileNodes, h5, List.map_append]
      rw [codeNodes_seen]
    · refine hg.trans ?_
      rw [h3]
    · rcases hf.kept with h | h
      · refine .inl (hides_left _ _ ?_)
        rw [outline_toks] at h; simpa [ext] using h
      rcases h4 with h4 | h4
      · exact .inl (hides_right _ _ h4)
      · exact .inr (by rw [h.seen, h4])

end KPhp.Outline
