import Verif.Parser.OutlineStmt
/-!
# Closures and files (C100)
-/
namespace KPhp.Outline
set_option linter.unusedVariables false
set_option linter.unusedSectionVars false
open KPhp (Tok)
open KPhp.Grammar (E Closures headIn Fits)
open KPhp.Stmt
open KPhp.Scopes (TypeKind)

theorem fine_uses {o : Option (List Bool × Bool)} : noKind (usesTxt o) = true :=
  noKind_opt fun x _ => noKind_cons rfl (noKind_cons rfl (noKind_app (noKind_app (noKind_sep rfl fun b _ => noKind_app (noKind_flag rfl b) rfl) (noKind_flag rfl _)) rfl))

theorem fine_closure {A : Closures} {clo : List Tok → U} (hclo : ∀ t, A.Ok t → Fine true false (clo t)) {c : Clo} (h : @Clo.Ok A c) :
    Fine true false (Clo.tree clo c) :=
  fine_clo (fine_app (fine_txt (noKind_app (noKind_flag rfl _) rfl)) (fine_end (fine_params hclo h.1) (by decide) rfl)) fine_uses
    (fine_app (fine_txt (noKind_opt fun x hx => noKind_cons rfl (noKind_hints words_return (h.2.2.1 x hx))))
      (fine_brace hclo (fine_tree hclo _ _ (fun w hw => by cases hw) h.2.2.2)))

theorem cloTree_read {n m : Nat} {c : Clo} (h : @Clo.Ok (lvl n) c) : cloTree (m + 1) c.toks = Clo.tree (cloTree m) c := by
  have h' : c.Ok := by
    obtain ⟨h1, h2, h3, h4⟩ := h
    have hK : ∀ t' : List Tok, t'.length ≤ c.toks.length - 1 → (lvl n).Ok t' → Closures.Ok t' := fun t' _ h => ⟨n, h⟩
    refine ⟨params_mono hK h1 ?_, h2, h3, tree_mono hK c.body _ h4 ?_⟩
    all_goals simp only [Clo.toks, List.length_append, List.length_cons]; omega
  have h1 := closure_compl c [] h' trivial
  rw [List.append_nil] at h1
  simp only [cloTree, h1]

theorem fine_cloTree (n : Nat) : ∀ t, (lvl n).Ok t → ∀ m, n ≤ m → Fine true false (cloTree m t) := by
  induction n with
  | zero => exact fun t h => h.elim
  | succ n ih =>
    rintro t ⟨c, h, rfl⟩ m hm
    obtain ⟨m, rfl⟩ : ∃ k, m = k + 1 := ⟨m - 1, by omega⟩
    rw [cloTree_read h]
    exact fine_closure (A := lvl n) (fun t ht => ih t ht m (by omega)) h

theorem lvl_file {s : S} {c : Cat} {N : Nat} (h : s.Fits c) (hN : s.toks.length ≤ N) : @S.Fits (lvl N) s c := by
  refine @tree_mono all (lvl N) N ?_ s _ h hN
  rintro t hl ⟨n, ht⟩
  exact lvl_mono hl (lvl_length _ t n (Nat.le_refl _) ht)

theorem fine_outline {s : S} {c : Cat} (hc : ∀ w, c ≠ .loopBody w) {N : Nat} (h : s.Fits c) (hN : s.toks.length ≤ N) : Fine true false (outline N s) :=
  @fine_tree (lvl N) (cloTree N) (fun t ht => fine_cloTree N t ht N (Nat.le_refl _)) s c (fun w hw => absurd hw (hc w)) (lvl_file h hN)

/-! ### Every node has its own token -/

/-- no two of `l` are equal, and their tokens are those from `o` to `e` -/
structure Rng {α : Type} (f : α → Nat) (o e : Nat) (l : List α) : Prop where
  le : o ≤ e
  mem : ∀ x ∈ l, o ≤ f x ∧ f x < e
  nodup : l.Nodup

section
variable {α : Type} {f : α → Nat}
theorem rng_nil {o e : Nat} (h : o ≤ e) : Rng f o e [] := ⟨h, (fun x hx => nomatch hx), .nil⟩
theorem rng_app {o m e : Nat} {a b : List α} (ha : Rng f o m a) (hb : Rng f m e b) : Rng f o e (a ++ b) := by
  have h1 := ha.le
  have h2 := hb.le
  refine ⟨by omega, fun x hx => ?_, List.nodup_append.2 ⟨ha.nodup, hb.nodup, fun x hx y hy he => ?_⟩⟩
  · rcases List.mem_append.1 hx with h | h
    · have := ha.mem x h; omega
    · have := hb.mem x h; omega
  · have := ha.mem x hx
    have := hb.mem y hy
    subst he; omega
theorem Rng.wider {o e o' e' : Nat} {l : List α} (h : Rng f o e l) (h1 : o' ≤ o) (h2 : e ≤ e') : Rng f o' e' l :=
  ⟨by have := h.le; omega, fun x hx => by have := h.mem x hx; omega, h.nodup⟩
theorem rng_one {x : α} {i : Nat} (h : f x = i) : Rng f i (i + 1) [x] :=
  ⟨by omega, fun y hy => by simp only [List.mem_singleton] at hy; subst hy; omega, by simp⟩
theorem rng_cons {x : α} {i e : Nat} {l : List α} (h : f x = i) (hl : Rng f (i + 1) e l) : Rng f i e (x :: l) := rng_app (rng_one h) hl
/-- a second node with the same token -/
theorem rng_two {x y : α} {i m e : Nat} {a b : List α} (hx : f x = i) (hy : f y = i) (hne : x ≠ y) (ha : Rng f (i + 1) m a) (hb : Rng f m e b) :
    Rng f i e (x :: a ++ (y :: b)) := by
  have h := rng_cons hx (rng_app ha hb)
  have h1 := ha.le
  have h2 := hb.le
  have hp : (x :: a ++ (y :: b)).Perm (y :: (x :: (a ++ b))) := by
    rw [List.cons_append]
    exact ((List.perm_middle (l₁ := a)).cons x).trans (.swap y x _)
  refine ⟨h.le, fun z hz => ?_, hp.nodup_iff.2 (List.nodup_cons.2 ⟨fun hm => ?_, h.nodup⟩)⟩
  · rcases List.mem_cons.1 (hp.mem_iff.1 hz) with rfl | hz
    · omega
    · exact h.mem z hz
  · rcases List.mem_cons.1 hm with he | hm
    · exact hne he.symm
    rcases List.mem_append.1 hm with hm | hm
    · have := ha.mem y hm; omega
    · have := hb.mem y hm; omega
end

theorem rng_keys (again : Bool) (nm : Nat → QString) (u : U) : ∀ o, Rng Scopes.Key.id o (o + u.toks.length) (Scopes.keys (u.code again nm o)) := by
  induction u with
  | txt ts => exact fun o => rng_nil (by omega)
  | app a b iha ihb => exact fun o => (rng_app (iha o) (ihb _)).wider (Nat.le_refl _) (by simp only [U.toks, List.length_append]; omega)
  | lost a ih => exact fun o => rng_nil (by omega)
  | late a ih =>
    intro o
    simp only [U.code]
    split
    · exact ih o
    · exact rng_nil (by omega)
  | type f k r ih =>
    exact fun o => (rng_cons (f := Scopes.Key.id) (i := o + f.length + 1) (x := ⟨o + f.length + 1, .whole⟩) rfl ((ih (o + f.length + 2)).wider (by omega) (Nat.le_refl _))).wider (by omega) (by simp only [U.toks, List.length_append, List.length_cons]; omega)
  | func f n p b ihp ihb =>
    exact fun o => (rng_two (f := Scopes.Key.id) (i := o + f.length) (x := ⟨o + f.length, .params⟩) (y := ⟨o + f.length, .body⟩) rfl rfl (fun e => by cases e) (ihp _) (ihb _)).wider (by omega) (by simp only [U.toks, List.length_append, List.length_cons]; omega)
  | meth f n p h b ihp ihb =>
    exact fun o => (rng_two (f := Scopes.Key.id) (i := o + f.length) (x := ⟨o + f.length, .params⟩) (y := ⟨o + f.length, .body⟩) rfl rfl (fun e => by cases e) (ihp _) (ihb _)).wider (by omega) (by simp only [U.toks, List.length_append, List.length_cons]; omega)
  | clo p h us b ihp ihu ihb =>
    intro o
    have h2 := rng_app (ihp (o + 1)) (rng_app (ihu _) (ihb _))
    have hp : (Scopes.keys ((U.clo p h us b).code again nm o)).Perm (⟨o, .params⟩ :: (⟨o, .uses⟩ :: (⟨o, .body⟩ :: (Scopes.keys (p.code again nm (o + 1)) ++
        (Scopes.keys (us.code again nm (o + 1 + p.toks.length)) ++ Scopes.keys (b.code again nm (o + 1 + p.toks.length + us.toks.length))))))) := by
      simp only [U.code, Scopes.keys, List.cons_append]
      refine List.Perm.cons _ ((List.perm_middle (l₁ := Scopes.keys (p.code again nm (o + 1)))).trans (.cons _ ?_))
      refine (List.Perm.append_left _ List.perm_middle).trans ?_
      exact List.perm_middle
    have hin : ∀ x ∈ Scopes.keys (p.code again nm (o + 1)) ++ (Scopes.keys (us.code again nm (o + 1 + p.toks.length)) ++ Scopes.keys (b.code again nm (o + 1 + p.toks.length + us.toks.length))),
        o + 1 ≤ x.id := fun x hx => (h2.mem x hx).1
    refine ⟨by omega, fun x hx => ?_, hp.nodup_iff.2 ?_⟩
    · have hl : (U.clo p h us b).toks.length = 1 + (p.toks.length + (us.toks.length + b.toks.length)) := by simp [U.toks]; omega
      have hx := hp.mem_iff.1 hx
      simp only [List.mem_cons] at hx
      rcases hx with rfl | rfl | rfl | hx
      · exact ⟨Nat.le_refl _, by show o < _; omega⟩
      · exact ⟨Nat.le_refl _, by show o < _; omega⟩
      · exact ⟨Nat.le_refl _, by show o < _; omega⟩
      · have := h2.mem x hx; omega
    · refine List.nodup_cons.2 ⟨?_, List.nodup_cons.2 ⟨?_, List.nodup_cons.2 ⟨fun hm => ?_, h2.nodup⟩⟩⟩
      · simp only [List.mem_cons, not_or]
        exact ⟨by simp, by simp, fun hm => by have h : o + 1 ≤ o := hin _ hm; omega⟩
      · simp only [List.mem_cons, not_or]
        exact ⟨by simp, fun hm => by have h : o + 1 ≤ o := hin _ hm; omega⟩
      · have h : o + 1 ≤ o := hin _ hm; omega

theorem rng_tokens (again : Bool) (nm : Nat → QString) (u : U) : ∀ o, Rng id o (o + u.toks.length) (Scopes.tokens (u.code again nm o)) := by
  induction u with
  | txt ts => exact fun o => rng_nil (by omega)
  | app a b iha ihb => exact fun o => (rng_app (iha o) (ihb _)).wider (Nat.le_refl _) (by simp only [U.toks, List.length_append]; omega)
  | lost a ih => exact fun o => rng_nil (by omega)
  | late a ih =>
    intro o
    simp only [U.code]
    split
    · exact ih o
    · exact rng_nil (by omega)
  | type f k r ih =>
    exact fun o => (rng_cons (f := id) (i := o + f.length + 1) (x := o + f.length + 1) rfl ((ih (o + f.length + 2)).wider (by omega) (Nat.le_refl _))).wider (by omega) (by simp only [U.toks, List.length_append, List.length_cons]; omega)
  | func f n p b ihp ihb =>
    exact fun o => (rng_cons (f := id) (i := o + f.length) (x := o + f.length) rfl (rng_app (ihp _) (ihb _))).wider (by omega) (by simp only [U.toks, List.length_append, List.length_cons]; omega)
  | meth f n p h b ihp ihb =>
    exact fun o => (rng_app (ihp _) (ihb _)).wider (by omega) (by simp only [U.toks, List.length_append, List.length_cons]; omega)
  | clo p h us b ihp ihu ihb =>
    exact fun o => (rng_app (ihp _) (rng_app (ihu _) (ihb _))).wider (by omega) (by simp only [U.toks, List.length_append, List.length_cons]; omega)

theorem rng_ns {α : Type} {f : α → Nat} (g : Nat × QString → α) (hg : ∀ x, f (g x) = x.1) (nm : Nat → QString) (p : List Tok) :
    ∀ o, Rng f o (o + 1 + (sepTxt .BACKSLASH tokTxt p).length) ((nsName nm o p).map g) := by
  induction p with
  | nil => exact fun o => rng_nil (by omega)
  | cons t p ih =>
    intro o
    have h := rng_cons (x := g (o + 1, nm (o + 1))) (f := f) (hg _) (ih (o + 2))
    cases p with
    | nil =>
      exact (rng_one (x := g (o + 1, nm (o + 1))) (f := f) (hg _)).wider (by omega) (by simp [sepTxt, tokTxt])
    | cons s p => exact h.wider (by omega) (by simp [sepTxt, tokTxt]; omega)

/-! ### Files -/

theorem fileCode_other {n : Nat} {again : Bool} {nm : Nat → QString} {o : Nat} {a l : S} (h1 : ∀ p, a ≠ .nsLine p) (h2 : ∀ p b, a ≠ .nsBlock p b) :
    fileCode n again nm o (.cons a l) = .code ((outline n a).code again nm o) :: fileCode n again nm (o + a.toks.length) l := by
  cases a with
  | nsLine p => exact absurd rfl (h1 p)
  | nsBlock p b => exact absurd rfl (h2 p b)
  | _ => rfl

/-- what stands directly in a file -/
theorem file_rec {P : S → Prop} (hnil : P .nil) (hline : ∀ p l, (S.nsLine p).Fits .outer → l.Fits .file → P l → P (.cons (.nsLine p) l))
    (hblock : ∀ p b l, (∀ t ∈ p, t = .STRING) → b.Fits .body → l.Fits .file → P l → P (.cons (.nsBlock p b) l))
    (hother : ∀ a l, (∀ p, a ≠ .nsLine p) → (∀ p b, a ≠ .nsBlock p b) → a.Fits .outer → l.Fits .file → P l → P (.cons a l)) (s : S) : s.Fits .file → P s := by
  induction s with
  | nil => exact fun _ => hnil
  | cons a l _ ih =>
    rintro ⟨i, hi, ha, hl⟩
    cases hi
    by_cases h1 : ∃ p, a = .nsLine p
    · obtain ⟨p, rfl⟩ := h1
      exact hline p l ha hl (ih hl)
    by_cases h2 : ∃ p b, a = .nsBlock p b
    · obtain ⟨p, b, rfl⟩ := h2
      exact hblock p b l ha.2.1 ha.2.2 hl (ih hl)
    · exact hother a l (fun p h => h1 ⟨p, h⟩) (fun p b h => h2 ⟨p, b, h⟩) ha hl (ih hl)
  | _ => intro h; simp [S.Fits, Cat.isStmt, Cat.isTop] at h

theorem rng_fileKeys {n : Nat} {again : Bool} {nm : Nat → QString} (s : S) (h : s.Fits .file) :
    ∀ o, Rng Scopes.Key.id o (o + s.toks.length) (Scopes.fileKeys (fileCode n again nm o s)) := by
  refine file_rec (P := fun s => ∀ o, Rng Scopes.Key.id o (o + s.toks.length) (Scopes.fileKeys (fileCode n again nm o s))) ?_ ?_ ?_ ?_ s h
  · exact fun o => rng_nil (by omega)
  · intro p l _ _ ih o
    have h1 := rng_ns (f := Scopes.Key.id) (fun x : Nat × QString => (⟨x.1, .whole⟩ : Scopes.Key)) (fun _ => rfl) nm p o
    have h2 := ih (o + (S.nsLine p).toks.length)
    exact (rng_app (h1.wider (Nat.le_refl _) (by simp only [S.toks, List.length_append, List.length_cons]; omega)) h2).wider (Nat.le_refl _)
      (by simp only [S.toks, List.length_append, List.length_cons]; omega)
  · intro p b l _ _ _ ih o
    have h1 := rng_ns (f := Scopes.Key.id) (fun x : Nat × QString => (⟨x.1, .whole⟩ : Scopes.Key)) (fun _ => rfl) nm p o
    have h2 := rng_keys again nm (outline n b) (o + 2 + (sepTxt .BACKSLASH tokTxt p).length)
    rw [outline_toks] at h2
    have h3 := ih (o + (S.nsBlock p b).toks.length)
    exact (rng_app (h1.wider (Nat.le_refl _) (by omega)) (rng_app h2 (h3.wider (by simp only [S.toks, List.length_append, List.length_cons]; omega) (Nat.le_refl _)))).wider
      (Nat.le_refl _) (by simp only [S.toks, List.length_append, List.length_cons]; omega)
  · intro a l h1 h2 _ _ ih o
    rw [fileCode_other h1 h2]
    have h3 := rng_keys again nm (outline n a) o
    rw [outline_toks] at h3
    exact (rng_app h3 (ih _)).wider (Nat.le_refl _) (by simp only [S.toks, List.length_append]; omega)
theorem rng_fileTokens {n : Nat} {again : Bool} {nm : Nat → QString} (s : S) (h : s.Fits .file) :
    ∀ o, Rng id o (o + s.toks.length) (Scopes.fileTokens (fileCode n again nm o s)) := by
  refine file_rec (P := fun s => ∀ o, Rng id o (o + s.toks.length) (Scopes.fileTokens (fileCode n again nm o s))) ?_ ?_ ?_ ?_ s h
  · exact fun o => rng_nil (by omega)
  · intro p l _ _ ih o
    have h1 := rng_ns (f := id) (fun x : Nat × QString => x.1) (fun _ => rfl) nm p o
    have h2 := ih (o + (S.nsLine p).toks.length)
    exact (rng_app (h1.wider (Nat.le_refl _) (by simp only [S.toks, List.length_append, List.length_cons]; omega)) h2).wider (Nat.le_refl _)
      (by simp only [S.toks, List.length_append, List.length_cons]; omega)
  · intro p b l _ _ _ ih o
    have h1 := rng_ns (f := id) (fun x : Nat × QString => x.1) (fun _ => rfl) nm p o
    have h2 := rng_tokens again nm (outline n b) (o + 2 + (sepTxt .BACKSLASH tokTxt p).length)
    rw [outline_toks] at h2
    have h3 := ih (o + (S.nsBlock p b).toks.length)
    exact (rng_app (h1.wider (Nat.le_refl _) (by omega)) (rng_app h2 (h3.wider (by simp only [S.toks, List.length_append, List.length_cons]; omega) (Nat.le_refl _)))).wider
      (Nat.le_refl _) (by simp only [S.toks, List.length_append, List.length_cons]; omega)
  · intro a l h1 h2 _ _ ih o
    rw [fileCode_other h1 h2]
    have h3 := rng_tokens again nm (outline n a) o
    rw [outline_toks] at h3
    exact (rng_app h3 (ih _)).wider (Nat.le_refl _) (by simp only [S.toks, List.length_append]; omega)

/-! ### The classes that are declared -/

/-- The declaration of a class, interface or trait, with its name. -/
def classOf : Scopes.Event → Option (TypeKind × QString)
  | .type k n => some (k, n)
  | _ => none

@[simp] theorem classOf_type (k : TypeKind) (n : QString) : classOf (.type k n) = some (k, n) := rfl
@[simp] theorem classOf_function (n : QString) : classOf (.function n) = none := rfl
@[simp] theorem classOf_method (n : QString) : classOf (.method n) = none := rfl
@[simp] theorem classOf_closure : classOf .closure = none := rfl
@[simp] theorem classOf_namespace (n : QString) : classOf (.namespace n) = none := rfl

variable (u : CharClass)

theorem sites_types (nm : Nat → QString) (t : U) : ∀ o fr, (Scopes.sites u false fr (t.code false nm o)).filterMap (fun x => classOf x.1) =
    (t.kept o).map fun x => (x.1, lowerStr u (nm x.2)) := by
  induction t with
  | txt ts => exact fun _ _ => rfl
  | app a b iha ihb => intro o fr; simp only [U.code, Scopes.sites, List.filterMap_append, iha, ihb, U.kept, List.map_append]
  | lost a ih => exact fun _ _ => rfl
  | late a ih => exact fun _ _ => rfl
  | type f k r ih => intro o fr; simp only [U.code, Scopes.sites, List.filterMap_cons, classOf_type, ih, U.kept, List.map_cons]
  | func f n p b ihp ihb => intro o fr; simp [U.code, Scopes.sites, List.filterMap_cons, ihp, ihb, U.kept]
  | meth f n p h b ihp ihb =>
    intro o fr
    cases h <;> simp [U.code, Scopes.sites, List.filterMap_cons, ihp, ihb, U.kept]
  | clo p h us b ihp ihu ihb =>
    intro o fr
    cases h <;> simp [U.code, Scopes.sites, List.filterMap_cons, ihp, ihu, ihb, U.kept]

theorem nsSites_types (ns : Scopes.NsName) : ∀ fr, (Scopes.nsSites u fr ns).filterMap (fun x => classOf x.1) = [] := by
  induction ns with
  | nil => exact fun _ => rfl
  | cons x ns ih => intro fr; simp only [Scopes.nsSites, List.filterMap_cons, classOf_namespace, ih]

theorem file_types {n : Nat} (nm : Nat → QString) (s : S) (h : s.Fits .file) : ∀ ns o, s.toks.length ≤ n → ∃ K L : List (TypeKind × Nat),
    (Scopes.fileSites u false ns (fileCode n false nm o s)).filterMap (fun x => classOf x.1) = K.map (fun x => (x.1, lowerStr u (nm x.2))) ∧
    K.Sublist L ∧ (∀ r, scan o (s.toks ++ r) = L ++ scan (o + s.toks.length) r) ∧ (hides s.toks = true ∨ K = L) := by
  refine file_rec (P := fun s => ∀ ns o, s.toks.length ≤ n → ∃ K L : List (TypeKind × Nat),
    (Scopes.fileSites u false ns (fileCode n false nm o s)).filterMap (fun x => classOf x.1) = K.map (fun x => (x.1, lowerStr u (nm x.2))) ∧
    K.Sublist L ∧ (∀ r, scan o (s.toks ++ r) = L ++ scan (o + s.toks.length) r) ∧ (hides s.toks = true ∨ K = L)) ?_ ?_ ?_ ?_ s h
  · exact fun ns o _ => ⟨[], [], rfl, .refl _, fun _ => rfl, .inr rfl⟩
  · intro p l hp _ ih ns o hn
    obtain ⟨K, L, h1, h2, h3, h4⟩ := ih (nsName nm o p) (o + (S.nsLine p).toks.length) (by simp only [S.toks, List.length_append] at hn ⊢; omega)
    have hk : noKind (S.nsLine p).toks = true := noKind_cons rfl (noKind_app (noKind_string hp.2.2) rfl)
    refine ⟨K, L, ?_, h2, fun r => ?_, h4.imp (fun h => hides_right _ _ h) id⟩
    · simp only [fileCode, Scopes.fileSites, List.filterMap_append, nsSites_types, h1, List.nil_append]
    · show scan o ((S.nsLine p).toks ++ l.toks ++ r) = _
      rw [List.append_assoc, scan_noKind hk, h3]
      simp only [S.toks, List.length_append]; congr 2; omega
  · intro p b l hp hb _ ih ns o hn
    obtain ⟨K, L, h1, h2, h3, h4⟩ := ih [] (o + (S.nsBlock p b).toks.length) (by simp only [S.toks, List.length_append] at hn ⊢; omega)
    have hf := fine_outline (N := n) (fun w => by simp) hb (by simp only [S.toks, List.length_append, List.length_cons] at hn; omega)
    have hk : noKind (.NAMESPACE :: (sepTxt .BACKSLASH tokTxt p ++ [.LBRACE])) = true := noKind_cons rfl (noKind_app (noKind_string hp) rfl)
    have ht : (S.cons (.nsBlock p b) l).toks = (.NAMESPACE :: (sepTxt .BACKSLASH tokTxt p ++ [.LBRACE])) ++ (b.toks ++ ([.RBRACE] ++ l.toks)) := by simp [S.toks]
    refine ⟨(outline n b).kept (o + 2 + (sepTxt .BACKSLASH tokTxt p).length) ++ K, (outline n b).types (o + 2 + (sepTxt .BACKSLASH tokTxt p).length) ++ L, ?_,
      (kept_sublist _ _).append h2, fun r => ?_, ?_⟩
    · simp only [fileCode, Scopes.fileSites, List.filterMap_append, nsSites_types, h1, List.nil_append, sites_types, List.map_append, List.append_assoc]
    · have e1 : o + (Tok.NAMESPACE :: (sepTxt .BACKSLASH tokTxt p ++ [.LBRACE])).length = o + 2 + (sepTxt .BACKSLASH tokTxt p).length := by
        simp only [List.length_append, List.length_cons, List.length_nil]; omega
      have := hf.scan (o + 2 + (sepTxt .BACKSLASH tokTxt p).length) ([.RBRACE] ++ (l.toks ++ r)) (.inl rfl)
      rw [outline_toks] at this
      rw [ht, List.append_assoc, List.append_assoc, List.append_assoc, scan_noKind hk, e1, this, scan_noKind (ts := [.RBRACE]) rfl, List.append_assoc]
      have e2 : o + 2 + (sepTxt .BACKSLASH tokTxt p).length + b.toks.length + [Tok.RBRACE].length = o + (S.nsBlock p b).toks.length := by
        simp only [S.toks, List.length_append, List.length_cons, List.length_nil]; omega
      rw [e2, h3]
      simp only [List.length_append, List.length_cons, S.toks, Nat.add_assoc]
      congr 3; simp only [List.length_append, List.length_cons, List.length_nil]; omega
    · rw [ht]
      rcases hf.kept with h | h
      · refine .inl (hides_right _ _ (hides_left _ _ ?_))
        rw [outline_toks] at h; simpa [ext] using h
      rcases h4 with h4 | h4
      · exact .inl (hides_right _ _ (hides_right _ _ (hides_right _ _ h4)))
      · exact .inr (by rw [h.kept, h4])
  · intro a l ha1 ha2 ha _ ih ns o hn
    obtain ⟨K, L, h1, h2, h3, h4⟩ := ih ns (o + a.toks.length) (by simp only [S.toks, List.length_append] at hn ⊢; omega)
    have hf := fine_outline (N := n) (fun w => by simp) ha (by simp only [S.toks, List.length_append] at hn; omega)
    refine ⟨(outline n a).kept o ++ K, (outline n a).types o ++ L, ?_, (kept_sublist _ _).append h2, fun r => ?_, ?_⟩
    · rw [fileCode_other ha1 ha2]
      simp only [Scopes.fileSites, List.filterMap_append, h1, sites_types, List.map_append]
    · have := hf.scan o (l.toks ++ r) (.inl rfl)
      rw [outline_toks] at this
      show scan o (a.toks ++ l.toks ++ r) = _
      rw [List.append_assoc, this, h3, List.append_assoc]
      simp only [S.toks, List.length_append, Nat.add_assoc]
    · rcases hf.kept with h | h
      · refine .inl (hides_left _ _ ?_)
        rw [outline_toks] at h; simpa [ext] using h
      rcases h4 with h4 | h4
      · exact .inl (hides_right _ _ h4)
      · exact .inr (by rw [h.kept, h4])

end KPhp.Outline
