import Verif.Model.Printer
import Verif.Spec.Print
import Verif.Props.Color
import Verif.Props.Style
import Verif.Lemmas.Visit
/-
Helper lemmas: what the printer writes, as a list of plain pieces and coloured parentheses that is
computed from the expression and the depth of the stack alone.
-/
namespace Pemdas
open Printer

/-- Something the printer writes: plain text, or a parenthesis in the colour of a depth. -/
inductive Piece where
  | txt (t : Text)
  | par (d : Nat) (c : Char)
  deriving DecidableEq, Repr

/-- The colour of parentheses at depth `d`. -/
def colorAt (d : Nat) : Color :=
  match Rainbow.color (UInt64.ofNat d) with
  | .ok c => c
  | .error _ => .rgb ⟨0, 0, 0⟩

theorem colorAt_eq (d : Nat) : Rainbow.color (UInt64.ofNat d) = .ok (colorAt d) := by
  obtain ⟨c, h⟩ := C61_color_total (UInt64.ofNat d)
  simp only [colorAt, h]

/-- A piece as a fragment of styled output. -/
def Piece.frag : Piece → Text ⊕ Style
  | .txt t => .inl t
  | .par d c => .inr ((Style.new [c]).setFg (colorAt d))

/-- What a piece shows. -/
def Piece.plain : Piece → Text
  | .txt t => t
  | .par _ c => [c]

/-- The text written. -/
def render (ps : List Piece) : Text := ((ps.map Piece.frag).map (fun f => f.elim id Style.display)).flatten

/-- The text shown. -/
def plain (ps : List Piece) : Text := ps.flatMap Piece.plain

theorem render_append (a b : List Piece) : render (a ++ b) = render a ++ render b := by
  simp [render]

theorem plain_append (a b : List Piece) : plain (a ++ b) = plain a ++ plain b := by
  simp [plain]

/-- In parentheses of the colour of a depth. -/
def inParens (d : Nat) (ps : List Piece) : List Piece := [.par d '('] ++ ps ++ [.par d ')']

/-- In parentheses if the condition holds. -/
def parIf (b : Bool) (d : Nat) (ps : List Piece) : List Piece := if b then inParens d ps else ps

section
variable [CharTables]

mutual
/-- `write_pat` with `d` fixities on the stack. -/
def ppPat (d : Nat) : Pat → List Piece
  | .wild => [.txt t!"_"]
  | .lit l => [.txt l.text]
  | .var s => [.txt s]
  | .neg p =>
    [.txt t!"(", .txt t!"-"] ++ parIf (!bareNeg p) d (ppPat d p) ++ [.txt t!")"]
  | .con c [] => [.txt c]
  | .con c (p :: ps) => [.txt (t!"(" ++ c)] ++ ppPatArgs d (p :: ps) ++ [.txt t!")"]
  | .tup ps => [.txt t!"("] ++ ppPats d true ps ++ [.txt t!")"]
  | .arr ps => [.txt t!"["] ++ ppPats d true ps ++ [.txt t!"]"]
  | .lnk l r =>
    inParens (d + 1)
      (parIf (lnkParens l) (d + 1) (ppPat (d + 1) l) ++ [.txt t!":"] ++
        parIf (lnkParens r) (d + 1) (ppPat (d + 1) r))
  | .as_ s p => .txt (s ++ t!"@") :: ppPat d p
/-- Patterns separated by commas. -/
def ppPats (d : Nat) : Bool → List Pat → List Piece
  | _, [] => []
  | first, p :: ps => (if first then [] else [.txt t!", "]) ++ ppPat d p ++ ppPats d false ps
/-- Arguments of a constructor. -/
def ppPatArgs (d : Nat) : List Pat → List Piece
  | [] => []
  | p :: ps => .txt t!" " :: ppPat d p ++ ppPatArgs d ps
end

/-- What precedes an expression that may be the body of a lambda. -/
def ppEnter (lams : Option Nat) : List Piece :=
  match lams with
  | none => []
  | some _ => [.txt t!" -> "]

mutual
/-- `write_expr` with `d` fixities on the stack; `lams` is the depth outside the lambda whose body
this is, if it is one. -/
def ppGo (d : Nat) (lams : Option Nat) : Expr → List Piece
  | .lit l => ppEnter lams ++ [.txt l.text]
  | .var i => ppEnter lams ++ [.txt (if i.isInfix then t!"(" ++ i.text ++ t!")" else i.text)]
  | .app f x => ppEnter lams ++ (ppGo (lams.getD d) none f ++ [.txt t!" "] ++ ppGo (lams.getD d) none x)
  | .bin l op r =>
    ppEnter lams ++
    (parIf (!noParen l) (lams.getD d + 1) (ppGo (lams.getD d + 1) none l) ++
     [.txt (t!" " ++ op.text ++ t!" ")] ++
     parIf (!noParen r) (lams.getD d + 1) (ppGo (lams.getD d + 1) none r))
  | .lam p b =>
    match lams with
    | some k => .txt t!" " :: ppPat d p ++ ppGo d (some k) b
    | none =>
      .txt (if d = 0 then t!"\\" else t!"(\\") :: ppPat 0 p ++ ppGo 0 (some d) b ++
        [.txt (if d = 0 then t!"" else t!")")]
  | .grp e => ppEnter lams ++ inParens (lams.getD d) (ppGo (lams.getD d) none e)
  | .neg e => ppEnter lams ++ ppGo (lams.getD d) none e
  | .tup es => ppEnter lams ++ ([.txt t!"("] ++ ppList true es ++ [.txt t!")"])
  | .list es => ppEnter lams ++ ([.txt t!"["] ++ ppList true es ++ [.txt t!"]"])
  | .let_ _ b => ppEnter lams ++ ppGo (lams.getD d) none b
/-- Elements separated by commas. -/
def ppList : Bool → List Expr → List Piece
  | _, [] => []
  | first, e :: es => (if first then [] else [.txt t!", "]) ++ ppGo 0 none e ++ ppList false es
end

/-- What is written for an expression. -/
def pp (e : Expr) : List Piece := ppGo 0 none e

end

/-! ### the model's printer writes these pieces -/

/-- The action writes the pieces. -/
def Pr.Does (m : Pr Unit) (s : List Fixity) (ps : List Piece) (s' : List Fixity) : Prop :=
  m s = .ok ((), render ps, s')

namespace Pr.Does

theorem seq {m n : Pr Unit} {s s1 s2 : List Fixity} {ps qs : List Piece} (h1 : m.Does s ps s1)
    (h2 : n.Does s1 qs s2) : Pr.Does (m >>= fun _ => n) s (ps ++ qs) s2 := by
  show Pr.bind m (fun _ => n) s = _
  unfold Pr.bind
  rw [h1]
  simp only
  rw [h2, render_append]

theorem skip {s : List Fixity} : (Pr.pure ()).Does s [] s := rfl

theorem write {s : List Fixity} (t : Text) : (Pr.write t).Does s [.txt t] s := by
  show Except.ok ((), t, s) = _
  simp [render, Piece.frag]

theorem highlight {s : List Fixity} (d : Nat) (c : Char) :
    (Printer.highlight d [c]).Does s [.par d c] s := by
  unfold Pr.Does Printer.highlight
  rw [colorAt_eq]
  simp [render, Piece.frag, Pr.write, Style.highlighted]

theorem grouped {m : Pr Unit} {s : List Fixity} {ps : List Piece} (h : m.Does s ps s) :
    (writeGrouped m).Does s (inParens s.length ps) s := by
  unfold writeGrouped
  show Pr.bind _ _ s = _
  unfold Pr.bind getStack
  have h1 := (highlight (s := s) s.length '(').seq (h.seq (highlight (s := s) s.length ')'))
  unfold Pr.Does at h1
  simp only
  rw [h1]
  simp [inParens]

theorem parIf {m : Pr Unit} {s : List Fixity} {ps : List Piece} {b : Bool} (h : m.Does s ps s) :
    (parensIf b m).Does s (Pemdas.parIf b s.length ps) s := by
  cases b
  · exact h
  · exact h.grouped

theorem sep {s : List Fixity} {b : Bool} :
    (Printer.sep b).Does s (if b then [] else [.txt t!", "]) s := by
  cases b
  · exact .write _
  · exact .skip

theorem push {m : Pr Unit} {s s' : List Fixity} {ps : List Piece} (fx : Fixity)
    (h : m.Does (fx :: s) ps s') : Pr.Does (Pr.push fx >>= fun _ => m) s ps s' := by
  show Pr.bind _ _ s = _
  unfold Pr.bind Pr.push
  simp only
  rw [h]
  simp

theorem pop {fx : Fixity} {s : List Fixity} : Pr.pop.Does (fx :: s) [] s := rfl

theorem take {m : List Fixity → Pr Unit} {s s' : List Fixity} {ps : List Piece}
    (h : (m s).Does [] ps s') : Pr.Does (takeStack >>= m) s ps s' := by
  show Pr.bind _ _ s = _
  unfold Pr.bind takeStack
  simp only
  rw [h]
  simp

theorem get {m : List Fixity → Pr Unit} {s s' : List Fixity} {ps : List Piece}
    (h : (m s).Does s ps s') : Pr.Does (getStack >>= m) s ps s' := by
  show Pr.bind _ _ s = _
  unfold Pr.bind getStack
  simp only
  rw [h]
  simp

theorem set {s s' : List Fixity} : (setStack s').Does s [] s' := rfl

theorem of_eq {m : Pr Unit} {s s' : List Fixity} {ps qs : List Piece} (h : m.Does s ps s')
    (e : ps = qs) : m.Does s qs s' := e ▸ h

end Pr.Does

section
variable [CharTables]
open Pr

mutual
theorem writePat_does : ∀ (p : Pat) (s : List Fixity), (writePat p).Does s (ppPat s.length p) s
  | .wild, s => by rw [writePat, ppPat]; exact .write _
  | .lit l, s => by rw [writePat, ppPat]; exact .write _
  | .var x, s => by rw [writePat, ppPat]; exact .write _
  | .neg p, s => by
    rw [writePat, ppPat]
    exact .of_eq (.seq (.write _) (.seq (.write _) (.seq (.parIf (writePat_does p s)) (.write _)))) (by simp)
  | .con c [], s => by rw [writePat, ppPat]; exact .write _
  | .con c (p :: ps), s => by
    rw [writePat, ppPat]
    exact .of_eq (.seq (.write _) (.seq (writePatArgs_does (p :: ps) s) (.write _))) (by simp)
    simp
  | .tup ps, s => by
    rw [writePat, ppPat]
    exact .of_eq (.seq (.write _) (.seq (writePats_does true ps s) (.write _))) (by simp)
  | .arr ps, s => by
    rw [writePat, ppPat]
    exact .of_eq (.seq (.write _) (.seq (writePats_does true ps s) (.write _))) (by simp)
  | .lnk l r, s => by
    rw [writePat, ppPat]
    exact .of_eq (.push _ (.seq (.grouped (.seq (.parIf (writePat_does l _))
      (.seq (.write _) (.parIf (writePat_does r _))))) .pop)) (by simp)
  | .as_ x p, s => by
    rw [writePat, ppPat]
    exact .seq (.write _) (writePat_does p s)
theorem writePats_does : ∀ (first : Bool) (ps : List Pat) (s : List Fixity),
    (writePats first ps).Does s (ppPats s.length first ps) s
  | _, [], s => by rw [writePats, ppPats]; exact .skip
  | first, p :: ps, s => by
    rw [writePats, ppPats]
    exact .of_eq (.seq .sep (.seq (writePat_does p s) (writePats_does false ps s))) (by simp)
theorem writePatArgs_does : ∀ (ps : List Pat) (s : List Fixity),
    (writePatArgs ps).Does s (ppPatArgs s.length ps) s
  | [], s => by rw [writePatArgs, ppPatArgs]; exact .skip
  | p :: ps, s => by
    rw [writePatArgs, ppPatArgs]
    exact .of_eq (.seq (.write _) (.seq (writePat_does p s) (writePatArgs_does ps s))) (by simp)
end

omit [CharTables] in
theorem enter_does (lams : Option (List Fixity)) (s : List Fixity) :
    (enter lams).Does s (ppEnter (lams.map List.length)) (lams.getD s) := by
  cases lams with
  | none => exact .skip
  | some k => exact .of_eq (.seq (.write _) .set) (by simp [ppEnter])

omit [CharTables] in
theorem getD_length (lams : Option (List Fixity)) (s : List Fixity) :
    (lams.getD s).length = (lams.map List.length).getD s.length := by cases lams <;> rfl

mutual
theorem writeGo_does (m : Fixities) : ∀ (e : Expr), e.NoNeg → ∀ (lams : Option (List Fixity)) (s : List Fixity),
    (writeGo m lams e).Does s (ppGo s.length (lams.map List.length) e) (lams.getD s)
  | .lit l, _, lams, s => by
    rw [writeGo, ppGo]; exact .seq (enter_does lams s) (.write _)
  | .var i, _, lams, s => by
    rw [writeGo, ppGo]; exact .seq (enter_does lams s) (.write _)
  | .app f x, h, lams, s => by
    rw [writeGo, ppGo]
    have h1 := writeGo_does m f h.1 none (lams.getD s)
    have h2 := writeGo_does m x h.2 none (lams.getD s)
    rw [getD_length] at h1 h2
    exact .of_eq (.seq (enter_does lams s) (.seq h1 (.seq (.write _) h2))) (by simp)
  | .bin l op r, h, lams, s => by
    rw [writeGo, ppGo]
    have h1 := (writeGo_does m l h.1 none (m.get op :: lams.getD s)).parIf (b := !noParen l)
    have h2 := (writeGo_does m r h.2 none (m.get op :: lams.getD s)).parIf (b := !noParen r)
    simp only [List.length_cons, getD_length] at h1 h2
    exact .of_eq (.seq (enter_does lams s) (.push _ (.seq h1 (.seq (.write _) (.seq h2 .pop))))) (by simp)
  | .lam p b, h, some k, s => by
    simp only [Option.map_some]
    rw [writeGo, ppGo]
    exact .of_eq (.seq (.write _) (.seq (writePat_does p s) (writeGo_does m b h (some k) s))) (by simp)
  | .lam p b, h, none, s => by
    simp only [Option.map_none]
    rw [writeGo, ppGo]
    refine .of_eq (.get (.seq (.write _) (.take (.seq (writePat_does p []) (.seq
      (writeGo_does m b h (some s) []) (.write _)))))) ?_
    cases s <;> simp
  | .grp e, h, lams, s => by
    rw [writeGo, ppGo]
    have h1 := (writeGo_does m e h none (lams.getD s)).grouped
    rw [getD_length] at h1
    exact .seq (enter_does lams s) h1
  | .neg _, h, _, _ => h.elim
  | .tup es, h, lams, s => by
    rw [writeGo, ppGo]
    exact .of_eq (.seq (enter_does lams s) (.take (.seq (.write _) (.seq (writeExprs_does m es h true)
      (.seq (.write _) .set))))) (by simp)
  | .list es, h, lams, s => by
    rw [writeGo, ppGo]
    exact .of_eq (.seq (enter_does lams s) (.take (.seq (.write _) (.seq (writeExprs_does m es h true)
      (.seq (.write _) .set))))) (by simp)
  | .let_ d b, h, lams, s => by
    rw [writeGo, ppGo]
    have h1 := writeGo_does m b h none (lams.getD s)
    rw [getD_length] at h1
    exact .seq (enter_does lams s) h1
theorem writeExprs_does (m : Fixities) : ∀ (es : List Expr), Expr.NoNegList es → ∀ first,
    (writeExprs m first es).Does [] (ppList first es) []
  | [], _, _ => by rw [writeExprs, ppList]; exact .skip
  | e :: es, h, first => by
    rw [writeExprs, ppList]
    exact .of_eq (.seq .sep (.seq (writeGo_does m e h.1 none []) (writeExprs_does m es h.2 false))) (by simp)
end

/-- The action panics on the negation case. -/
def Pr.Fails (m : Pr Unit) (s : List Fixity) : Prop := m s = .error .negTodo

namespace Pr.Fails

omit [CharTables] in
theorem fst {α β : Type} {m : Pr α} {n : α → Pr β} {s : List Fixity} (h : m s = .error .negTodo) :
    (m >>= n) s = .error .negTodo := by
  show Pr.bind m n s = _
  unfold Pr.bind
  rw [h]

omit [CharTables] in
theorem snd {m n : Pr Unit} {s s' : List Fixity} {ps : List Piece} (h : m.Does s ps s')
    (h2 : n.Fails s') : Pr.Fails (m >>= fun _ => n) s := by
  show Pr.bind m (fun _ => n) s = _
  unfold Pr.bind
  rw [h]
  simp only
  rw [h2]

omit [CharTables] in
theorem get {m : List Fixity → Pr Unit} {s : List Fixity} (h : (m s).Fails s) :
    Pr.Fails (getStack >>= m) s := by
  show Pr.bind _ _ s = _
  unfold Pr.bind getStack
  simp only
  rw [h]

omit [CharTables] in
theorem take {m : List Fixity → Pr Unit} {s : List Fixity} (h : (m s).Fails []) :
    Pr.Fails (takeStack >>= m) s := by
  show Pr.bind _ _ s = _
  unfold Pr.bind takeStack
  simp only
  rw [h]

omit [CharTables] in
theorem push {m : Pr Unit} {fx : Fixity} {s : List Fixity} (h : m.Fails (fx :: s)) :
    Pr.Fails (Pr.push fx >>= fun _ => m) s := by
  show Pr.bind _ _ s = _
  unfold Pr.bind Pr.push
  simp only
  rw [h]

omit [CharTables] in
theorem grouped {m : Pr Unit} {s : List Fixity} (h : m.Fails s) : (writeGrouped m).Fails s :=
  get (snd (.highlight _ _) (fst h))

omit [CharTables] in
theorem parIf {m : Pr Unit} {b : Bool} {s : List Fixity} (h : m.Fails s) : (parensIf b m).Fails s := by
  cases b
  · exact h
  · exact h.grouped

end Pr.Fails

mutual
theorem writeGo_fails (m : Fixities) : ∀ (e : Expr), ¬ e.NoNeg → ∀ (lams : Option (List Fixity)) (s : List Fixity),
    (writeGo m lams e).Fails s
  | .lit l, h, _, _ => absurd trivial h
  | .var l, h, _, _ => absurd trivial h
  | .app f x, h, lams, s => by
    rw [writeGo]
    refine .snd (enter_does lams s) ?_
    by_cases hf : f.NoNeg
    · exact .snd (writeGo_does m f hf none _) (.snd (.write _) (writeGo_fails m x (fun hx => h ⟨hf, hx⟩) none _))
    · exact .fst (writeGo_fails m f hf none _)
  | .bin l op r, h, lams, s => by
    rw [writeGo]
    refine .snd (enter_does lams s) (.push ?_)
    by_cases hf : l.NoNeg
    · exact .snd (writeGo_does m l hf none _).parIf (.snd (.write _) (.fst (Pr.Fails.parIf
        (writeGo_fails m r (fun hx => h ⟨hf, hx⟩) none _))))
    · exact .fst (Pr.Fails.parIf (writeGo_fails m l hf none _))
  | .lam p b, h, some k, s => by
    rw [writeGo]
    exact .snd (.write _) (.snd (writePat_does p s) (writeGo_fails m b h (some k) s))
  | .lam p b, h, none, s => by
    rw [writeGo]
    exact .get (.snd (.write _) (.take (.snd (writePat_does p []) (.fst (writeGo_fails m b h (some s) [])))))
  | .grp e, h, lams, s => by
    rw [writeGo]
    exact .snd (enter_does lams s) (.grouped (writeGo_fails m e h none _))
  | .neg e, _, lams, s => by
    rw [writeGo]
    exact .snd (enter_does lams s) rfl
  | .tup es, h, lams, s => by
    rw [writeGo]
    exact .snd (enter_does lams s) (.take (.snd (.write _) (.fst (writeExprs_fails m es h true))))
  | .list es, h, lams, s => by
    rw [writeGo]
    exact .snd (enter_does lams s) (.take (.snd (.write _) (.fst (writeExprs_fails m es h true))))
  | .let_ d b, h, lams, s => by
    rw [writeGo]
    exact .snd (enter_does lams s) (writeGo_fails m b h none _)
theorem writeExprs_fails (m : Fixities) : ∀ (es : List Expr), ¬ Expr.NoNegList es → ∀ first,
    (writeExprs m first es).Fails []
  | [], h, _ => absurd trivial h
  | e :: es, h, first => by
    rw [writeExprs]
    refine .snd .sep ?_
    by_cases he : e.NoNeg
    · exact .snd (writeGo_does m e he none []) (writeExprs_fails m es (fun hx => h ⟨he, hx⟩) false)
    · exact .fst (writeGo_fails m e he none [])
end

theorem writeExpr_neg (m : Fixities) {e : Expr} (h : ¬ e.NoNeg) : writeExpr m e = .error .negTodo := by
  have := writeGo_fails m e h none []
  unfold writeExpr
  rw [this]
  rfl

theorem writeExpr_noNeg (m : Fixities) {e : Expr} (h : e.NoNeg) : writeExpr m e = .ok (render (pp e)) := by
  have := writeGo_does m e h none []
  unfold writeExpr
  rw [this]
  rfl

end
end Pemdas
