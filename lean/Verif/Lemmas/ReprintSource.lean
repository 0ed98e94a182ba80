import Verif.Lemmas.ResolverNames
import Verif.Lemmas.ReprintShape
import Verif.Lemmas.PrintBalance
/-
Helper lemmas: resolution keeps the shape in which expressions can be read back.
-/
namespace Pemdas
open Resolver OpTree

mutual
/-- The part of `Rereads` that is not about names, operators, literals and patterns. -/
def Expr.WellApplied : Expr → Prop
  | .lit _ => True
  | .var _ => True
  | .app f x => f.NonBin ∧ f.isOpen = false ∧ x.isArg = true ∧ f.WellApplied ∧ x.WellApplied
  | .bin l _ r => l.WellApplied ∧ r.WellApplied
  | .lam _ b => b.WellApplied
  | .grp e => e.WellApplied
  | .neg _ => False
  | .tup es => es.length ≠ 1 ∧ Expr.WellAppliedList es
  | .list es => Expr.WellAppliedList es
  | .let_ _ b => b.WellApplied
/-- `WellApplied` for all elements. -/
def Expr.WellAppliedList : List Expr → Prop
  | [] => True
  | e :: es => e.WellApplied ∧ Expr.WellAppliedList es
end

theorem wellApplied_toExpr (t : OpTree) :
    t.toExpr.WellApplied ↔ ∀ x ∈ t.operands, x.WellApplied := by
  induction t with
  | leaf e => simp [toExpr, operands]
  | node l op r ihl ihr =>
    simp only [toExpr, Expr.WellApplied, ihl, ihr, operands, List.mem_append]
    exact ⟨fun h x hx => hx.elim (h.1 x) (h.2 x), fun h => ⟨fun x hx => h x (.inl hx),
      fun x hx => h x (.inr hx)⟩⟩

theorem wellApplied_chain (e : Expr) : e.WellApplied ↔ ∀ x ∈ e.chainOperands, x.WellApplied := by
  fun_induction Expr.chainOperands e with
  | case1 l op r ih => simp [Expr.WellApplied, ih]
  | case2 e h => simp

theorem rewrite_wellApplied {m : Fixities} {e e' : Expr} (h : m.rewrite e = .ok (.ok e')) :
    e'.WellApplied ↔ e.WellApplied := by
  obtain ⟨t, rfl, hg, _⟩ := rewrite_ok_grouping h
  rw [wellApplied_toExpr, wellApplied_chain e, hg.1]

/-- What resolution keeps. -/
def SameShape (e e' : Expr) : Prop :=
  (e'.NonBin ↔ e.NonBin) ∧ e'.isOpen = e.isOpen ∧ e'.isArg = e.isArg ∧
    (e'.WellApplied ↔ e.WellApplied)

theorem thread_shape {r es r' es'} (h : Thread (fun _ e _ e' => SameShape e e') r es r' es') :
    es'.length = es.length ∧ (Expr.WellAppliedList es' ↔ Expr.WellAppliedList es) := by
  induction h with
  | nil => exact ⟨rfl, Iff.rfl⟩
  | cons hp _ ih => exact ⟨by simp [ih.1], by simp only [Expr.WellAppliedList, hp.2.2.2, ih.2]⟩

theorem visit_shape : ∀ e r r' e', visit r e = .ok (r', e') → SameShape e e' := by
  apply visit_induct (P := fun _ e _ e' => SameShape e e')
  case bin =>
    intro r a op b a₁ op₁ b₁ r₁ a₂ r₂ b₂ hr h1 h2
    refine ⟨by simp [Expr.NonBin, Expr.rootOp], rfl, rfl, ?_⟩
    rw [← rewrite_wellApplied hr]
    simp only [Expr.WellApplied, h1.2.2.2, h2.2.2.2]
  case tup =>
    intro r es r₁ es' h
    have := thread_shape h
    exact ⟨by simp [Expr.NonBin, Expr.rootOp], rfl, rfl, by simp only [Expr.WellApplied, this.1, this.2]⟩
  case list =>
    intro r es r₁ es' h
    have := thread_shape h
    exact ⟨by simp [Expr.NonBin, Expr.rootOp], rfl, rfl, by simp only [Expr.WellApplied, this.2]⟩
  case app =>
    intro r f x r₁ f' r₂ x' h1 h2
    refine ⟨by simp [Expr.NonBin, Expr.rootOp], rfl, rfl, ?_⟩
    simp only [Expr.WellApplied, h1.1, h1.2.1, h1.2.2.2, h2.2.2.1, h2.2.2.2]
  case bad => intro r a op b err _; exact ⟨Iff.rfl, rfl, rfl, Iff.rfl⟩
  case lit => intro r l; exact ⟨Iff.rfl, rfl, rfl, Iff.rfl⟩
  case var => intro r l; exact ⟨Iff.rfl, rfl, rfl, Iff.rfl⟩
  all_goals
    intros
    refine ⟨by simp [Expr.NonBin, Expr.rootOp], rfl, rfl, ?_⟩
    simp_all only [Expr.WellApplied, SameShape]

mutual
theorem Expr.Parsed.wellApplied : ∀ {e : Expr}, e.Parsed → e.BodiesLast true → e.WellApplied
  | .lit _, _, _ => trivial
  | .var _, _, _ => trivial
  | .app _ _, h, hb => ⟨h.1, hb.1 rfl, h.2.1, h.2.2.1.wellApplied hb.2.1, h.2.2.2.wellApplied hb.2.2⟩
  | .bin _ _ _, h, hb => ⟨h.2.1.wellApplied hb.2.1, h.2.2.wellApplied hb.2.2⟩
  | .lam _ b, h, hb => Expr.Parsed.wellApplied (e := b) h hb
  | .grp b, h, hb => Expr.Parsed.wellApplied (e := b) h hb
  | .neg _, h, _ => h.elim
  | .tup es, h, hb => ⟨h.1, Expr.parsedList_wellApplied es h.2 hb⟩
  | .list es, h, hb => Expr.parsedList_wellApplied es h hb
  | .let_ _ b, h, hb => Expr.Parsed.wellApplied (e := b) h hb
theorem Expr.parsedList_wellApplied : ∀ (es : List Expr), Expr.ParsedList es →
    Expr.BodiesLastList true es → Expr.WellAppliedList es
  | [], _, _ => trivial
  | e :: es, h, hb => ⟨Expr.Parsed.wellApplied (e := e) h.1 hb.1, Expr.parsedList_wellApplied es h.2 hb.2⟩
end

mutual
theorem Expr.WellApplied.rereads [CharTables] : ∀ {e : Expr}, e.WellApplied → e.PlainParts → e.Rereads
  | .lit _, _, hp => hp
  | .var _, _, hp => hp
  | .app _ _, h, hp => ⟨h.1, h.2.1, h.2.2.1, h.2.2.2.1.rereads hp.1, h.2.2.2.2.rereads hp.2⟩
  | .bin _ _ _, h, hp => ⟨hp.1, h.1.rereads hp.2.1, h.2.rereads hp.2.2⟩
  | .lam _ b, h, hp => ⟨hp.1, Expr.WellApplied.rereads (e := b) h hp.2⟩
  | .grp b, h, hp => Expr.WellApplied.rereads (e := b) h hp
  | .neg _, h, _ => h.elim
  | .tup es, h, hp => ⟨h.1, Expr.wellAppliedList_rereads es h.2 hp⟩
  | .list es, h, hp => Expr.wellAppliedList_rereads es h hp
  | .let_ _ b, h, hp => Expr.WellApplied.rereads (e := b) h hp
theorem Expr.wellAppliedList_rereads [CharTables] : ∀ (es : List Expr), Expr.WellAppliedList es →
    Expr.PlainPartsList es → Expr.RereadsList es
  | [], _, _ => trivial
  | e :: es, h, hp =>
    ⟨Expr.WellApplied.rereads (e := e) h.1 hp.1, Expr.wellAppliedList_rereads es h.2 hp.2⟩
end

/-! ### Names of expressions that can be read back -/

section
variable [CharTables] [LawfulTables]
open Printer Good
set_option linter.unusedSectionVars false

theorem clean_lower {s : Text} (h : LowerName s) : Clean s :=
  lexed_clean (src := []) (by simp) (t := .lower s) h s (by simp [Token.names])

theorem clean_op {s : Text} (h : OpName s) : Clean s :=
  lexed_clean (src := []) (by simp) (t := .affix s false) h s (by simp [Token.names])

theorem clean_promoted {s : Text} (h : PromotedName s) : Clean s :=
  lexed_clean (src := []) (by simp) (t := .affix s true) (.inl h) s (by simp [Token.names])

theorem clean_ident {i : Ident} (h : i.Rereads) : ∀ n ∈ i.names, Clean n := by
  cases i with
  | lower s => intro n hn; rw [List.mem_singleton.1 hn]; exact clean_lower h.1
  | infix_ s => intro n hn; rw [List.mem_singleton.1 hn]; exact clean_op h
  | commas k => intro n hn; simp [Ident.names] at hn
  | upper s => cases h
  | nil => cases h

theorem clean_infix {op : Infix} (h : op.Rereads) : Clean op.symbol := by
  cases op with
  | standard s =>
    rcases h with h | rfl | rfl
    · exact clean_op h
    · unfold Clean; decide
    · unfold Clean; decide
  | promoted s =>
    rcases h with ⟨c, d, y, rfl, h1, _, h2⟩ | ⟨c, w, rfl, h1, _, _, h2, _⟩
    · exact clean_promoted ⟨c, d :: y, rfl, h1, h2⟩
    · intro x hx
      have hw : w ∉ special := fun hs => by
        rw [(by decide : ∀ c ∈ special, isWhitespace c = false) w hs] at h1; cases h1
      rcases List.mem_cons.1 hx with rfl | hx
      · exact h2
      · rw [List.mem_singleton.1 hx]; exact hw

mutual
theorem clean_pat : ∀ (p : Pat) (i : Bool), p.Rereads i → ∀ n ∈ p.names, Clean n
  | .wild, _, _ => by simp [Pat.names]
  | .lit _, _, _ => by simp [Pat.names]
  | .var s, _, h => by intro n hn; rw [List.mem_singleton.1 hn]; exact clean_lower h.1
  | .neg p, _, h => clean_pat p false h
  | .con _ _, _, h => h.elim
  | .tup ps, _, h => clean_pats ps false h.2
  | .arr ps, _, h => clean_pats ps true h.2
  | .lnk _ _, _, h => h.elim
  | .as_ s p, _, h => by
    intro n hn
    rcases List.mem_cons.1 hn with rfl | hn
    · exact clean_lower h.1.1
    · exact clean_pat p false h.2 n hn
theorem clean_pats : ∀ (ps : List Pat) (i : Bool), Pat.RereadsList i ps → ∀ n ∈ Pat.namesList ps, Clean n
  | [], _, _ => by simp [Pat.namesList]
  | p :: ps, i, h => fun n hn => (List.mem_append.1 hn).elim (clean_pat p i h.1 n) (clean_pats ps true h.2 n)
end

mutual
theorem Expr.Rereads.names : ∀ {e : Expr}, e.Rereads → e.NoNeg ∧ ∀ n ∈ e.names, Clean n
  | .lit _, _ => ⟨trivial, by simp [Expr.names]⟩
  | .var _, h => ⟨trivial, clean_ident h⟩
  | .app f x, h => by
    have h1 := Expr.Rereads.names h.2.2.2.1
    have h2 := Expr.Rereads.names h.2.2.2.2
    exact ⟨⟨h1.1, h2.1⟩, fun n hn => (List.mem_append.1 hn).elim (h1.2 n) (h2.2 n)⟩
  | .bin l op r, h => by
    have h1 := Expr.Rereads.names h.2.1
    have h2 := Expr.Rereads.names h.2.2
    refine ⟨⟨h1.1, h2.1⟩, fun n hn => ?_⟩
    rcases List.mem_append.1 hn with hn | hn
    · exact h1.2 n hn
    · rcases List.mem_cons.1 hn with rfl | hn
      · exact clean_infix h.1
      · exact h2.2 n hn
  | .lam p b, h => by
    have h2 := Expr.Rereads.names h.2
    exact ⟨h2.1, fun n hn => (List.mem_append.1 hn).elim (clean_pat p _ h.1 n) (h2.2 n)⟩
  | .grp b, h => Expr.Rereads.names (e := b) h
  | .neg _, h => h.elim
  | .tup es, h => Expr.rereadsList_names es h.2
  | .list es, h => Expr.rereadsList_names es h
  | .let_ _ b, h => Expr.Rereads.names (e := b) h
theorem Expr.rereadsList_names : ∀ (es : List Expr), Expr.RereadsList es →
    Expr.NoNegList es ∧ ∀ n ∈ Expr.namesList es, Clean n
  | [], _ => ⟨trivial, by simp [Expr.namesList]⟩
  | e :: es, h => by
    have h1 := Expr.Rereads.names (e := e) h.1
    have h2 := Expr.rereadsList_names es h.2
    exact ⟨⟨h1.1, h2.1⟩, fun n hn => (List.mem_append.1 hn).elim (h1.2 n) (h2.2 n)⟩
end

omit [CharTables] [LawfulTables] in
theorem screen_plain (ps : List Piece) : (screen ps).map (·.1) = plain ps := by
  induction ps with
  | nil => rfl
  | cons p ps ih =>
    have : (Piece.screen p).map (·.1) = p.plain := by
      cases p <;> simp [Piece.screen, Piece.plain, Function.comp_def]
    simp only [screen, plain, List.flatMap_cons, List.map_append, this] at ih ⊢
    rw [ih]

end
end Pemdas
