import Verif.Spec.Drawn
import Verif.Lemmas.PrintBalance
/-
Helper lemmas: what the printer writes is the drawing.
-/
namespace Pemdas
open Printer

/-- A piece as a drawing. -/
def Piece.draw : Piece → Drawing
  | .txt t => ink t
  | .par d c => [(c, some d)]

/-- Pieces as a drawing. -/
def draw (ps : List Piece) : Drawing := ps.flatMap Piece.draw

theorem draw_append (a b : List Piece) : draw (a ++ b) = draw a ++ draw b := by simp [draw]

theorem draw_cons (p : Piece) (b : List Piece) : draw (p :: b) = p.draw ++ draw b := by simp [draw]

theorem draw_nil : draw [] = [] := rfl

theorem ink_append (a b : Text) : ink (a ++ b) = ink a ++ ink b := by simp [ink]

theorem draw_inParens (d : Nat) (ps : List Piece) : draw (inParens d ps) = boxed d (draw ps) := by
  simp [inParens, boxed, draw_append, draw_cons, draw_nil, Piece.draw]

theorem draw_parIf (b : Bool) (d : Nat) (ps : List Piece) :
    draw (parIf b d ps) = boxedIf b d (draw ps) := by
  cases b
  · rfl
  · exact draw_inParens d ps

/-! ### colours -/

theorem color_cases (P : Color → Nat × Nat × Nat → Prop)
    (h : ∀ i < 7, ∀ c, Rainbow.roygbiv[i]? = some c → P c (rainbow.getD i (0, 0, 0))) (d : Nat) :
    P (colorAt d) (depthColor d) := by
  have hc := colorAt_eq d
  unfold Rainbow.color at hc
  have ht : (UInt64.ofNat d).toNat = d % 2 ^ 64 := rfl
  rw [ht] at hc
  cases hr : Rainbow.roygbiv[d % 2 ^ 64 % 7]? with
  | none => rw [hr] at hc; cases hc
  | some c =>
    rw [hr] at hc
    simp only [Except.ok.injEq] at hc
    rw [← hc]
    exact h _ (Nat.mod_lt _ (by decide)) c hr

/-- A coloured character, as sent. -/
def shade (c : Char) (q : Nat × Nat × Nat) : Text :=
  painted (t!"38;2;" ++ decText q.1 ++ t!";" ++ decText q.2.1 ++ t!";" ++ decText q.2.2) [c]

theorem shade_eq (c : Char) (d : Nat) :
    ((Style.new [c]).setFg (colorAt d)).display = shade c (depthColor d) := by
  apply color_cases (fun x q => ((Style.new [c]).setFg x).display = shade c q)
  intro i hi x hx
  have h2 : ∀ i < 7, ∀ x ∈ Rainbow.roygbiv[i]?,
      (Config.default.setFgColor x).writeStart = t!"\x1b[38;2;" ++
        decText (rainbow.getD i (0, 0, 0)).1 ++ t!";" ++ decText (rainbow.getD i (0, 0, 0)).2.1 ++
        t!";" ++ decText (rainbow.getD i (0, 0, 0)).2.2 ++ t!"m" := by decide
  have := h2 i hi x hx
  simp only [Style.display, Style.setFg, Style.new, this, shade, painted, Config.writeEnd]
  simp

theorem pen_eq (d : Nat) :
    Pen.apply (Config.params (Config.default.setFgColor (colorAt d))) Pen.default =
      { Pen.default with fg := some (.rgb (depthColor d).1 (depthColor d).2.1 (depthColor d).2.2) } := by
  apply color_cases (fun x q => Pen.apply (Config.params (Config.default.setFgColor x)) Pen.default =
    { Pen.default with fg := some (.rgb q.1 q.2.1 q.2.2) })
  have h2 : ∀ i < 7, ∀ x ∈ Rainbow.roygbiv[i]?,
      Pen.apply (Config.params (Config.default.setFgColor x)) Pen.default =
        { Pen.default with fg := some (.rgb (rainbow.getD i (0, 0, 0)).1
          (rainbow.getD i (0, 0, 0)).2.1 (rainbow.getD i (0, 0, 0)).2.2) } := by decide
  exact h2

theorem sent_append (a b : Drawing) : Drawing.sent (a ++ b) = a.sent ++ b.sent := by
  simp [Drawing.sent]

theorem sent_ink (t : Text) : (ink t).sent = t := by
  induction t with
  | nil => rfl
  | cons c t ih =>
    have : ink (c :: t) = (c, none) :: ink t := rfl
    rw [this]
    show [c] ++ (ink t).sent = _
    rw [ih]; rfl

theorem sent_draw (ps : List Piece) : (draw ps).sent = render ps := by
  induction ps with
  | nil => rfl
  | cons p ps ih =>
    have h1 : render (p :: ps) = render [p] ++ render ps := render_append [p] ps
    rw [draw_cons, sent_append, ih, h1]
    congr 1
    cases p with
    | txt t => simp [Piece.draw, sent_ink, render, Piece.frag]
    | par d c =>
      have h2 : render [.par d c] = ((Style.new [c]).setFg (colorAt d)).display := by
        simp [render, Piece.frag]
      rw [h2, shade_eq]
      simp [Piece.draw, Drawing.sent, shade]

theorem seen_draw (ps : List Piece) : (draw ps).seen = screen ps := by
  induction ps with
  | nil => rfl
  | cons p ps ih =>
    have h1 : screen (p :: ps) = p.screen ++ screen ps := by simp [screen]
    have h2 : ∀ a b : Drawing, Drawing.seen (a ++ b) = a.seen ++ b.seen := by simp [Drawing.seen]
    rw [draw_cons, h2, ih, h1]
    congr 1
    cases p with
    | txt t => simp [Piece.draw, Piece.screen, Drawing.seen, ink]
    | par d c => simp [Piece.draw, Piece.screen, Drawing.seen, pen_eq]

/-! ### joining -/

theorem joined_cons (sep : Text) (x : Drawing) (xs : List Drawing) :
    joined sep (x :: xs) = x ++ xs.flatMap (ink sep ++ ·) := by
  induction xs generalizing x with
  | nil => simp [joined]
  | cons y ys ih =>
    have : joined sep (x :: y :: ys) = x ++ ink sep ++ joined sep (y :: ys) := by
      simp [joined, List.intercalate, List.intersperse]
    rw [this, ih]; simp

theorem simple_eq (p : Pat) : p.simple = bareNeg p := by cases p <;> rfl
theorem isLink_eq (p : Pat) : p.isLink = lnkParens p := by cases p <;> rfl
theorem closed_eq (e : Expr) : e.closed = noParen e := by cases e <;> rfl

section
variable [CharTables]

mutual
theorem draw_pat : ∀ (p : Pat) (d : Nat), draw (ppPat d p) = p.drawn d
  | .wild, d => by simp [ppPat, Pat.drawn, draw, Piece.draw]
  | .lit l, d => by simp [ppPat, Pat.drawn, draw, Piece.draw]
  | .var s, d => by simp [ppPat, Pat.drawn, draw, Piece.draw]
  | .neg p, d => by
    simp only [ppPat, Pat.drawn, draw_append, draw_parIf, draw_pat p d, simple_eq]
    simp [draw, Piece.draw, ink]
  | .con c [], d => by simp [ppPat, Pat.drawn, draw, Piece.draw]
  | .con c (p :: ps), d => by
    simp only [ppPat, Pat.drawn, draw_append, draw_patArgs (p :: ps) d, joined_cons,
      List.isEmpty_cons, Bool.false_eq_true, if_false]
    simp [draw, Piece.draw, ink]
  | .tup ps, d => by
    simp only [ppPat, Pat.drawn, draw_append, draw_pats ps d]
    simp [draw, Piece.draw]
  | .arr ps, d => by
    simp only [ppPat, Pat.drawn, draw_append, draw_pats ps d]
    simp [draw, Piece.draw]
  | .lnk l r, d => by
    simp only [ppPat, Pat.drawn, draw_inParens, draw_append, draw_parIf, draw_pat l, draw_pat r,
      isLink_eq]
    simp [draw, Piece.draw]
  | .as_ s p, d => by
    simp only [ppPat, Pat.drawn, draw_cons, draw_pat p d]
    simp [Piece.draw]
theorem draw_pats : ∀ (ps : List Pat) (d : Nat),
    draw (ppPats d true ps) = joined t!", " (Pat.drawnList d ps)
  | [], d => rfl
  | p :: ps, d => by
    simp only [ppPats, Pat.drawnList, joined_cons, if_true, List.nil_append, draw_append,
      draw_pat p d, draw_patsMore ps d]
theorem draw_patsMore : ∀ (ps : List Pat) (d : Nat),
    draw (ppPats d false ps) = (Pat.drawnList d ps).flatMap (ink t!", " ++ ·)
  | [], d => rfl
  | p :: ps, d => by
    simp only [ppPats, Pat.drawnList, Bool.false_eq_true, if_false, draw_append,
      draw_pat p d, draw_patsMore ps d, List.flatMap_cons]
    simp [draw, Piece.draw]
theorem draw_patArgs : ∀ (ps : List Pat) (d : Nat),
    draw (ppPatArgs d ps) = (Pat.drawnList d ps).flatMap (ink t!" " ++ ·)
  | [], d => rfl
  | p :: ps, d => by
    simp only [ppPatArgs, Pat.drawnList, draw_append, draw_cons,
      draw_pat p d, draw_patArgs ps d, List.flatMap_cons]
    simp [Piece.draw]
end

/-- What follows the first parameter of a lambda. -/
def following (x : List Drawing × Drawing) : Drawing :=
  x.1.flatMap (ink t!" " ++ ·) ++ ink t!" -> " ++ x.2

omit [CharTables] in
theorem lambda_nil (d : Nat) (x : Drawing) : lambda d ([], x) = x := rfl

mutual
theorem draw_go : ∀ (e : Expr), e.NoNeg → ∀ d, draw (ppGo d none e) = lambda d (e.parts d)
  | .lit l, _, d => by simp [ppGo, ppEnter, Expr.parts, lambda, draw, Piece.draw]
  | .var i, _, d => by
    cases i <;>
      simp [ppGo, ppEnter, Expr.parts, lambda, draw, Piece.draw, Ident.isInfix, Ident.text]
  | .app f x, h, d => by
    simp only [ppGo, ppEnter, Option.getD_none, List.nil_append, draw_append, Expr.parts,
      lambda_nil, draw_go f h.1, draw_go x h.2]
    simp [draw, Piece.draw]
  | .bin l op r, h, d => by
    simp only [ppGo, ppEnter, Option.getD_none, List.nil_append, draw_append, Expr.parts,
      lambda_nil, draw_parIf, draw_go l h.1, draw_go r h.2, closed_eq]
    simp [draw, Piece.draw]
  | .lam p b, h, d => by
    simp only [ppGo, draw_append, draw_cons, draw_pat, draw_body b h, Expr.parts, lambda,
      List.isEmpty_cons, Bool.false_eq_true, if_false, joined_cons, following, draw_nil, Piece.draw]
    cases d <;> simp
  | .grp e, h, d => by
    have ih := draw_go e h d
    simp only [ppGo, ppEnter, Option.getD_none, List.nil_append, draw_inParens, ih, Expr.parts,
      lambda_nil]
  | .neg _, h, _ => h.elim
  | .tup es, h, d => by
    simp only [ppGo, ppEnter, List.nil_append, draw_append, draw_list es h, Expr.parts, lambda_nil]
    simp [draw, Piece.draw]
  | .list es, h, d => by
    simp only [ppGo, ppEnter, List.nil_append, draw_append, draw_list es h, Expr.parts, lambda_nil]
    simp [draw, Piece.draw]
  | .let_ _ b, h, d => by
    have ih := draw_go b h d
    simp only [ppGo, ppEnter, Option.getD_none, List.nil_append, ih, Expr.parts, lambda_nil]
theorem draw_body : ∀ (e : Expr), e.NoNeg → ∀ d, draw (ppGo 0 (some d) e) = following (e.parts d)
  | .lit l, _, d => by simp [ppGo, ppEnter, Expr.parts, following, draw, Piece.draw]
  | .var i, _, d => by
    cases i <;>
      simp [ppGo, ppEnter, Expr.parts, following, draw, Piece.draw, Ident.isInfix, Ident.text]
  | .app f x, h, d => by
    simp only [ppGo, ppEnter, Option.getD_some, draw_append, Expr.parts,
      following, draw_go f h.1, draw_go x h.2]
    simp [draw, Piece.draw]
  | .bin l op r, h, d => by
    simp only [ppGo, ppEnter, Option.getD_some, draw_append, Expr.parts,
      following, draw_parIf, draw_go l h.1, draw_go r h.2, closed_eq]
    simp [draw, Piece.draw]
  | .lam p b, h, d => by
    simp only [ppGo, draw_append, draw_cons, draw_pat, draw_body b h, Expr.parts, following,
      Piece.draw, List.flatMap_cons]
    simp
  | .grp e, h, d => by
    have ih := draw_go e h d
    simp only [ppGo, ppEnter, Option.getD_some, draw_append, draw_inParens, ih, Expr.parts,
      following]
    simp [draw, Piece.draw]
  | .neg _, h, _ => h.elim
  | .tup es, h, d => by
    simp only [ppGo, ppEnter, draw_append, draw_list es h, Expr.parts, following]
    simp [draw, Piece.draw]
  | .list es, h, d => by
    simp only [ppGo, ppEnter, draw_append, draw_list es h, Expr.parts, following]
    simp [draw, Piece.draw]
  | .let_ _ b, h, d => by
    have ih := draw_go b h d
    simp only [ppGo, ppEnter, Option.getD_some, draw_append, ih, Expr.parts, following]
    simp [draw, Piece.draw]
theorem draw_list : ∀ (es : List Expr), Expr.NoNegList es →
    draw (ppList true es) = joined t!", " (Expr.drawnList es)
  | [], _ => rfl
  | e :: es, h => by
    simp only [ppList, Expr.drawnList, joined_cons, if_true, List.nil_append, draw_append,
      draw_go e h.1, draw_more es h.2]
theorem draw_more : ∀ (es : List Expr), Expr.NoNegList es →
    draw (ppList false es) = (Expr.drawnList es).flatMap (ink t!", " ++ ·)
  | [], _ => rfl
  | e :: es, h => by
    simp only [ppList, Expr.drawnList, Bool.false_eq_true, if_false, draw_append,
      draw_go e h.1, draw_more es h.2, List.flatMap_cons]
    simp [draw, Piece.draw]
end

end
end Pemdas
