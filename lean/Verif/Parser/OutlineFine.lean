import Verif.Parser.OutlineTypes
/-!
# Every part of a file declares the classes its text says (C100)
-/
namespace KPhp.Outline
set_option linter.unusedVariables false
set_option linter.unusedSectionVars false
open KPhp (Tok)
open KPhp.Grammar (E Closures headIn Fits semiReserved modifierWords)
open KPhp.Stmt
open KPhp.Scopes (TypeKind)

variable [Closures]

/-! ### Expressions -/

/-- whatever follows -/
def closedCat : Grammar.Cat → Bool
  | .part => true
  | _ => false

theorem noKind_append {a b : List Tok} : noKind (a ++ b) = (noKind a && noKind b) := by simp [noKind]
theorem noKind_moreNames (n : Nat) : noKind (Grammar.moreNames n) = true := by
  induction n with
  | zero => rfl
  | succ n ih => simpa [Grammar.moreNames, noKind, kindOf] using ih
theorem noKind_name (g : Bool) (n : Nat) : noKind (Grammar.nameToks g n) = true := by
  have := noKind_moreNames n
  cases g <;> simpa [Grammar.nameToks, noKind, kindOf] using this
theorem noKind_dollars (n : Nat) : noKind (List.replicate n .DOLLAR) = true := by
  simp [noKind, kindOf]

/-- the clauses of a tree, one after the other -/
macro "fine" : tactic => `(tactic| (
  try simp only [E.tree, Grammar.closing]
  repeat first
    | exact fine_txt rfl
    | with_reducible apply_assumption
    | (with_reducible refine Fine.more ?_; with_reducible apply_assumption)
    | with_reducible refine fine_app (fine_txt rfl) ?_
    | with_reducible refine fine_mid ?_ (by decide) ?_
    | with_reducible refine fine_end ?_ (by decide) rfl))

/-- an index -/
theorem fine_idx {c b : Bool} {x y : U} (hx : Fine false true x) (hy : Fine c b y) : Fine c b (x ++ (T [.LBRACKET] ++ y)) := by
  refine ⟨fun o r hr => ?_, ?_, hx.shut, trivial, hy.shut⟩
  · have h1 : ∀ o r, c = true ∨ Free r → scan o ((T [.LBRACKET] ++ y).toks ++ r) = (T [.LBRACKET] ++ y).types o ++ scan (o + (T [.LBRACKET] ++ y).toks.length) r :=
      fun o r hr => (fine_app (fine_txt (c := true) (b := false) (ts := [.LBRACKET]) rfl) hy).scan o r hr
    exact scan_app hx.scan h1 o r (.inr rfl) hr
  · show hides ((x.toks ++ (.LBRACKET :: y.toks)) ++ ext b) = true ∨ _
    rcases hx.kept with h | h
    · refine .inl ?_
      have e : (x.toks ++ (.LBRACKET :: y.toks)) ++ ext b = (x.toks ++ [.LBRACKET]) ++ (y.toks ++ ext b) := by simp
      rw [e]
      exact hides_left _ _ h
    rcases hy.kept with h2 | h2
    · refine .inl ?_
      have e : (x.toks ++ (.LBRACKET :: y.toks)) ++ ext b = (x.toks ++ [.LBRACKET]) ++ (y.toks ++ ext b) := by simp
      rw [e]
      exact hides_right _ _ h2
    · exact .inr (whole_app h (whole_app (whole_txt _) h2))

theorem fine_txt_idx {b : Bool} {x : U} (hx : Fine false true x) : Fine false b (x ++ T [.LBRACKET, .RBRACKET]) := by
  have := fine_idx (c := false) (b := b) hx (fine_txt (ts := [.RBRACKET]) rfl)
  refine ⟨this.scan, ?_, hx.shut, trivial⟩
  rcases hx.kept with h | h
  · refine .inl ?_
    have e : (x ++ T [.LBRACKET, .RBRACKET]).toks ++ ext b = (x.toks ++ [.LBRACKET]) ++ ([.RBRACKET] ++ ext b) := by
      show (x.toks ++ [.LBRACKET, .RBRACKET]) ++ ext b = _
      simp
    rw [e]
    exact hides_left _ _ h
  · exact .inr (whole_app h (whole_txt _))

section
variable {clo : List Tok → U} (hclo : ∀ t, Closures.Ok t → Fine false false (clo t))
include hclo

theorem fine_bin {k : Tok} {a b : E} {over : Bool} (hk : k ≠ .STRING) (hn : noKind [k] = true) (ha : ∀ o, Fine false o (E.tree clo o a))
    (hb : ∀ o, Fine false o (E.tree clo o b)) : Fine false over (E.tree clo false a ++ (T [k] ++ E.tree clo false b)) :=
  fine_mid (ha _) hk (fine_app (fine_txt hn) (hb _).more)

set_option maxHeartbeats 800000 in
theorem fine_expr {c : Grammar.Cat} {e : E} (h : Fits c e) : ∀ over, Fine (closedCat c) over (E.tree clo over e) := by
  induction h with
  | left k l a b hp _ _ iha ihb => intro over; exact fine_bin hclo (by cases hp <;> decide) (by cases hp <;> rfl) iha ihb
  | non k l a b hp _ _ iha ihb => intro over; exact fine_bin hclo (by cases hp <;> decide) (by cases hp <;> rfl) iha ihb
  | assign k a b hk _ _ _ iha ihb => intro over; exact fine_bin hclo (by cases hk <;> decide) (by cases hk <;> rfl) iha ihb
  | unary k e hk _ ih => intro over; exact fine_app (fine_txt (by cases hk <;> rfl)) (ih _).more
  | pre k e hk _ ih => intro over; exact fine_app (fine_txt (by cases hk <;> rfl)) (ih _).more
  | post e k hk _ ih => intro over; exact fine_end (ih _) (by cases hk <;> decide) (by cases hk <;> rfl)
  | scalar k hk => intro over; exact fine_txt (by cases hk <;> rfl)
  | closure t h => intro over; exact (hclo t h).more
  | iife t l h _ ih =>
    intro over
    have := hclo _ h
    exact Fine.more (by fine)
  | arr s l _ ih => intro over; cases s <;> exact Fine.more (by fine)
  | poff k hk => intro over; cases hk <;> exact fine_txt rfl
  | classConst g n k hk => 
    intro over
    have := fine_snoc (b := over) (ts := Grammar.nameToks g n ++ [.PAAMAYIM_NEKUDOTAYIM]) (t := k) (by rw [noKind_append, noKind_name]; rfl)
    simpa [E.tree, E.toks, closedCat] using this
  | constName g n => intro over; exact fine_txt (noKind_name g n)
  | className g n => intro over; exact fine_txt (noKind_name g n)
  | dyn n e _ ih =>
    intro over
    exact fine_app (fine_txt (by rw [noKind_append, noKind_dollars]; rfl)) (fine_end (ih _) (by decide) rfl)
  | vvar n => intro over; exact fine_txt (by rw [E.toks, noKind_append, noKind_dollars]; rfl)
  | up _ _ _ _ ih | array _ _ ih | normal _ _ ih | new _ _ ih | const _ _ ih | string _ _ ih | created _ _ ih | «variable» _ _ ih | classVar _ _ ih | simple _ _ ih | nameVar _ _ ih
  | item _ _ _ ih | velem _ _ _ ih | some _ _ _ ih => exact fun over => ih over
  | last _ _ _ ih | vlast _ _ _ ih => exact fun over => (ih false).more
  | staticVar g n v _ ih =>
    intro over
    exact fine_app (fine_txt (by rw [noKind_append, noKind_name]; rfl)) (ih _).more
  | function g n l _ ih =>
    intro over
    exact fine_app (fine_txt (noKind_name g n)) (fine_app (fine_txt rfl) (fine_end (ih _) (by decide) rfl))
  | method g n k l hk _ ih =>
    intro over
    have := fine_snoc (b := false) (ts := Grammar.nameToks g n ++ [.PAAMAYIM_NEKUDOTAYIM]) (t := k) (by rw [noKind_append, noKind_name]; rfl)
    rw [List.append_assoc] at this
    exact fine_mid this (by decide) (fine_app (fine_txt rfl) (fine_end (ih _) (by decide) rfl))
  | dynMethod g n e l _ _ ihe ihl =>
    intro over
    refine fine_mid (fine_app (fine_txt (by rw [noKind_append, noKind_name]; rfl)) (fine_end (ihe _) (by decide) rfl)) (by decide) ?_
    exact fine_app (fine_txt rfl) (fine_end (ihl _) (by decide) rfl)
  | index0 m b _ _ _ ih => intro over; exact fine_txt_idx (ih true)
  | index m b i _ _ _ ihb ihi =>
    intro over
    simp only [E.tree]
    split
    · rename_i h
      have ho : over = true := by cases over <;> simp_all
      subst ho
      have hi := ihi false
      have h1 : Fine true false (E.tree clo true b ++ (T [.LBRACKET] ++ (E.tree clo false i ++ T [.RBRACKET]))) :=
        fine_idx (y := E.tree clo false i ++ T [.RBRACKET]) (ihb true) (fine_end hi (by decide) rfl)
      refine ⟨fun o r hr => h1.scan o r (.inl rfl), .inl ?_, h1.shut⟩
      have e : (E.tree clo true b ++ (T [.LBRACKET] ++ (U.lost (E.tree clo false i) ++ T [.RBRACKET]))).toks ++ ext true =
          ((E.tree clo true b).toks ++ ([.LBRACKET] ++ (E.tree clo false i).toks)) ++ [.RBRACKET, .LBRACKET] := by
        show ((E.tree clo true b).toks ++ ([.LBRACKET] ++ ((E.tree clo false i).toks ++ [.RBRACKET]))) ++ [.LBRACKET] = _
        simp
      rw [e]
      exact hides_right _ _ rfl
    · exact fine_idx (ihb true) (fine_end (ihi false) (by decide) rfl)
  | cindex m b i _ _ _ _ _ _ ihb ihi => intro over; exact fine_mid (ihb _) (by decide) (fine_app (fine_txt rfl) (fine_end (ihi _) (by decide) rfl))
  | call m b l _ _ _ _ _ ihb ihl => intro over; exact fine_mid (ihb _) (by decide) (fine_app (fine_txt rfl) (fine_end (ihl _) (by decide) rfl))
  | part p l _ _ ihp ihl => intro over; exact fine_app (ihp _) (ihl _).more
  | _ => intro over; fine
end
end KPhp.Outline
