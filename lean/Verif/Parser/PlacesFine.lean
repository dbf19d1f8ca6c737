import Verif.Parser.Places
import Verif.Parser.OutlineFine
/-!
# Every expression declares what its text says, where its text says it (C101)
-/
namespace KPhp.Outline
set_option linter.unusedVariables false
set_option linter.unusedSectionVars false
open KPhp (Tok)
open KPhp.Grammar (E Closures headIn Fits semiReserved modifierWords)
open KPhp.Stmt
open KPhp.Scopes (TypeKind)

variable [Closures]

theorem calm_append {a b : List Tok} : Calm (a ++ b) = (Calm a && Calm b) := by simp [Calm]
theorem calm_moreNames (n : Nat) : Calm (Grammar.moreNames n) = true := by
  induction n with
  | zero => rfl
  | succ n ih => simpa [Grammar.moreNames, Calm, calm, plain] using ih
theorem calm_name (g : Bool) (n : Nat) : Calm (Grammar.nameToks g n) = true := by
  have := calm_moreNames n
  cases g <;> simpa [Grammar.nameToks, Calm, calm, plain] using this
theorem calm_dollars (n : Nat) : Calm (List.replicate n .DOLLAR) = true := by
  simp [Calm, calm, plain]
theorem Go.cast {w : List Nat} {a b : Lv} {x y : U} (h : Go w a b x) (ht : x.toks = y.toks) (hm : ∀ o, x.marks w o = y.marks w o) : Go w a b y :=
  fun o r => by rw [← ht, ← hm]; exact h o r

theorem go_mid {w : List Nat} {a c : Lv} {x y : U} (hx : Go w a a x) (hy : Go w a c y) : Go w a c (x ++ y) := go_app hx hy
theorem go_in {w : List Nat} {a : Lv} {t : Tok} {x : U} (h : t = .LBRACE ∨ t = .CURLY_OPEN ∨ t = .DOLLAR_OPEN_CURLY_BRACES) (hx : Go w (inside w a) (inside w a) x) :
    Go w a a (T [t] ++ (x ++ T [.RBRACE])) := go_app (go_open h) (go_app hx go_close)

theorem neutral_cvar {clo : List Tok → U} {v : E} (h : Fits .cvar v) : Neutral (E.tree clo false v) := by
  cases h with
  | var => exact ⟨_, _, rfl, .inl rfl⟩
  | vvar n => exact ⟨_, _, rfl, .inl rfl⟩
  | dyn n e _ => exact ⟨.DOLLAR, _, rfl, .inl rfl⟩
theorem neutral_pname {clo : List Tok → U} {v : E} (h : Fits .pname v) : Neutral (E.tree clo false v) := by
  cases h with
  | id => exact ⟨_, _, rfl, .inl rfl⟩
  | curly e _ => exact ⟨_, _, rfl, .inr rfl⟩
  | nameVar v h => exact neutral_cvar h

section
variable {clo : List Tok → U} (hclo : ∀ t, Closures.Ok t → ∀ w a, Go w a a (clo t))
include hclo

set_option maxHeartbeats 800000 in
theorem go_expr {c : Grammar.Cat} {e : E} (h : Fits c e) : ∀ over w a, Go w a a (E.tree clo over e) := by
  induction h with
  | left k l a b hp _ _ iha ihb => exact fun over w c => go_app (iha _ _ _) (go_app (go_txt (by cases hp <;> rfl)) (ihb _ _ _))
  | non k l a b hp _ _ iha ihb => exact fun over w c => go_app (iha _ _ _) (go_app (go_txt (by cases hp <;> rfl)) (ihb _ _ _))
  | assign k a b hk _ _ _ iha ihb => exact fun over w c => go_app (iha _ _ _) (go_app (go_txt (by cases hk <;> rfl)) (ihb _ _ _))
  | unary k e hk _ ih => exact fun over w a => go_app (go_txt (by cases hk <;> rfl)) (ih _ _ _)
  | pre k e hk _ ih => exact fun over w a => go_app (go_txt (by cases hk <;> rfl)) (ih _ _ _)
  | post e k hk _ ih => exact fun over w a => go_app (ih _ _ _) (go_txt (by cases hk <;> rfl))
  | scalar k hk => exact fun over w a => go_txt (by cases hk <;> rfl)
  | closure t h => exact fun over w a => hclo t h w a
  | iife t l h _ ih => exact fun over w a => go_app (go_txt rfl) (go_app (hclo _ h w a) (go_app (go_txt rfl) (go_app (ih _ _ _) (go_txt rfl))))
  | arr s l _ ih => intro over w a; cases s <;> exact go_app (go_txt rfl) (go_app (ih _ _ _) (go_txt rfl))
  | poff k hk => intro over w a; cases hk <;> exact go_txt rfl
  | classConst g n k hk => exact fun over w a => go_const (calm_name g n) (wordy_of hk)
  | constName g n => exact fun over w a => go_txt (calm_name g n)
  | className g n => exact fun over w a => go_txt (calm_name g n)
  | dyn n e _ ih => exact fun over w a => go_app (go_pre (calm_dollars _)) (go_app (ih _ _ _) go_close)
  | vvar n => exact fun over w a => go_txt (by rw [E.toks, calm_append, calm_dollars]; rfl)
  | up _ _ _ _ ih | array _ _ ih | normal _ _ ih | new _ _ ih | const _ _ ih | string _ _ ih | created _ _ ih | «variable» _ _ ih | classVar _ _ ih | simple _ _ ih | nameVar _ _ ih
  | item _ _ _ ih | velem _ _ _ ih | some _ _ _ ih => exact fun over => ih over
  | last _ _ _ ih | vlast _ _ _ ih => exact fun over => ih false
  | staticVar g n v hv ih => exact fun over w a => go_colons (calm_name g n) (neutral_cvar hv) (ih _ _ _)
  | scope b p _ hp ihb ihp => exact fun over w a => go_app (ihb _ _ _) (go_colons (x := []) rfl (neutral_pname hp) (ihp _ _ _))
  | classScope b v _ hv ihb ihv => exact fun over w a => go_app (ihb _ _ _) (go_colons (x := []) rfl (neutral_cvar hv) (ihv _ _ _))
  | function g n l _ ih => exact fun over w a => go_app (go_txt (calm_name g n)) (go_app (go_txt rfl) (go_app (ih _ _ _) (go_txt rfl)))
  | method g n k l hk _ ih => exact fun over w a => go_app (go_const (calm_name g n) (wordy_of hk)) (go_app (go_txt rfl) (go_app (ih _ _ _) (go_txt rfl)))
  | dynMethod g n e l _ _ ihe ihl =>
    intro over w a
    have h1 := go_colons (w := w) (a := a) (x := Grammar.nameToks g n) (u := T [.LBRACE] ++ (E.tree clo false e ++ T [.RBRACE])) (calm_name g n) ⟨_, _, rfl, .inr rfl⟩ (go_brace (ihe _ _ _))
    have h2 : Go w a a (E.tree clo over (.sdyn g n e)) := by
      refine Go.cast h1 ?_ fun o => ?_
      · show (Grammar.nameToks g n ++ [.PAAMAYIM_NEKUDOTAYIM]) ++ ([.LBRACE] ++ _) = (Grammar.nameToks g n ++ [.PAAMAYIM_NEKUDOTAYIM, .LBRACE]) ++ _
        simp [U.toks]
      · show [] ++ ([] ++ ((E.tree clo false e).marks w (o + _ + _) ++ _)) = [] ++ ((E.tree clo false e).marks w (o + _) ++ _)
        have q : o + (T (Grammar.nameToks g n ++ [.PAAMAYIM_NEKUDOTAYIM])).toks.length + (T [.LBRACE]).toks.length = o + (T (Grammar.nameToks g n ++ [.PAAMAYIM_NEKUDOTAYIM, .LBRACE])).toks.length := by
          simp [U.toks]; omega
        rw [q]; rfl
    exact go_app h2 (go_app (go_txt rfl) (go_app (ihl _ _ _) (go_txt rfl)))
  | index0 m b _ _ _ ih => exact fun over w a => go_app (ih _ _ _) (go_txt rfl)
  | index m b i _ _ _ ihb ihi =>
    intro over w a
    refine go_app (ihb _ _ _) (go_app (go_txt rfl) (go_app ?_ (go_txt rfl)))
    split
    · exact go_lost (ihi _ _ _)
    · exact ihi _ _ _
  | part p l _ _ ihp ihl => exact fun over w a => go_app (ihp _ _ _) (ihl _ _ _)
  | print e _ ih | yield e _ ih | yieldFrom e _ ih | spread e _ ih | byRef _ v _ ih | newBare c _ ih | clone e _ ih =>
    exact fun over w a => go_app (go_txt rfl) (ih _ _ _)
  | exitE e _ ih | eval e _ ih | paren e _ _ ih | parenNew e _ ih | empty e _ ih | isset l _ ih | vlists l _ ih | heredoc ps _ ih | backtick ps _ ih | quoted ps _ ih =>
    exact fun over w a => go_app (go_txt rfl) (go_app (ih _ _ _) (go_txt rfl))
  | inst a c _ _ iha ihb | assignVar a v _ _ _ iha ihb | assignNew a v _ _ _ iha ihb | elvis c b _ _ iha ihb | pair k v _ _ _ iha ihb
  | more _ i l _ _ iha ihb | vmore _ e l _ _ iha ihb | arrow _ b p _ _ _ iha ihb =>
    exact fun over w a => go_app (iha _ _ _) (go_app (go_txt rfl) (ihb _ _ _))
  | pairRef k v _ _ _ iha ihb => exact fun over w a => go_app (iha _ _ _) (go_app (go_txt rfl) (go_app (go_txt rfl) (ihb _ _ _)))
  | yieldPair k v _ _ _ iha ihb => exact fun over w a => go_app (go_txt rfl) (go_app (iha _ _ _) (go_app (go_txt rfl) (ihb _ _ _)))
  | cond c x y _ _ _ ihc iha ihb => exact fun over w a => go_app (ihc _ _ _) (go_app (go_txt rfl) (go_app (iha _ _ _) (go_app (go_txt rfl) (ihb _ _ _))))
  | list l e _ _ iha ihb => exact fun over w a => go_app (go_txt rfl) (go_app (iha _ _ _) (go_app (go_txt rfl) (ihb _ _ _)))
  | newArgs c l _ _ iha ihb => exact fun over w a => go_app (go_txt rfl) (go_app (iha _ _ _) (go_app (go_txt rfl) (go_app (ihb _ _ _) (go_txt rfl))))
  | cindex m b i _ _ _ _ _ _ ihb ihi => exact fun over w a => go_app (ihb _ _ _) (go_in (.inl rfl) (ihi _ _ _))
  | call m b l _ _ _ _ _ ihb ihl => exact fun over w a => go_app (ihb _ _ _) (go_app (go_txt rfl) (go_app (ihl _ _ _) (go_txt rfl)))
  | curly e _ ih => exact fun over w a => go_in (.inl rfl) (ih _ _ _)
  | pcurly e _ ih => exact fun over w a => go_in (.inr (.inl rfl)) (ih _ _ _)
  | pdollar e _ ih => exact fun over w a => go_in (.inr (.inr rfl)) (ih _ _ _)
  | lastComma _ i _ ih => exact fun over w a => go_app (ih _ _ _) (go_txt rfl)
  | pvname i _ ih =>
    exact fun over w a => go_app (x := T [.DOLLAR_OPEN_CURLY_BRACES, .STRING_VARNAME, .LBRACKET]) (go_join (x := [.DOLLAR_OPEN_CURLY_BRACES]) (go_app (go_open (.inr (.inr rfl))) (go_txt rfl)))
      (go_app (ih _ _ _) (go_join (x := [.RBRACKET]) (go_app (go_txt rfl) go_close)))
  | pvname0 => exact fun over w a => go_in (t := .DOLLAR_OPEN_CURLY_BRACES) (x := T [.STRING_VARNAME, .LBRACKET, .RBRACKET]) (.inr (.inr rfl)) (go_txt rfl)
  | yield0 | exit0 | exitP | nowdoc | literal | var | classStatic | id | nil _ | vnone | pnil | ptext | pvar | pprop => exact fun over w a => go_txt rfl
end
end KPhp.Outline
