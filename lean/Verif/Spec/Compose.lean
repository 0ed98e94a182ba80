import Verif.Model.Compose
import Verif.Spec.Terminal
/-
Specification of what composed styled values look like on a terminal, without escape sequences.
-/
namespace Pemdas

/-- The texts of the leaves in order: as displayed (`dbg = false`) or as debugged. -/
def Doc.plain : Doc → Bool → Text
  | .leaf s d, dbg => if dbg then d else s
  | .style d _, dbg => d.plain dbg
  | .debug d _, _ => d.plain true
  | .and a b, dbg => a.plain dbg ++ b.plain dbg
  | .then_ a b, dbg => a.plain dbg ++ b.plain dbg

/-- What one would expect to see: every leaf in the style of all the values it is inside of, the
inner ones refining the outer ones. `look` is the pen of a configuration over a given pen. -/
def Doc.expected (look : Config → Pen → Pen) : Doc → Bool → Pen → List (Char × Pen)
  | .leaf s d, dbg, p => (if dbg then d else s).map (·, p)
  | .style d c, dbg, p => d.expected look dbg (look c p)
  | .debug d c, false, p => d.expected look true (look c p)
  | .debug d _, true, p => d.expected look true p
  | .and a b, dbg, p => a.expected look dbg p ++ b.expected look dbg p
  | .then_ a b, dbg, p => a.expected look dbg p ++ b.expected look dbg p

/-- What is really seen: a styled value leaves the pen reset behind it. The result is the drawn
characters and the pen afterwards. -/
def Doc.drawn (look : Config → Pen → Pen) : Doc → Bool → Pen → List (Char × Pen) × Pen
  | .leaf s d, dbg, p => ((if dbg then d else s).map (·, p), p)
  | .style d c, dbg, p => ((d.drawn look dbg (look c p)).1, Pen.default)
  | .debug d c, false, p => ((d.drawn look true (look c p)).1, Pen.default)
  | .debug d _, true, p => d.drawn look true p
  | .and a b, dbg, p =>
    let (x, p) := a.drawn look dbg p
    let (y, p) := b.drawn look dbg p
    (x ++ y, p)
  | .then_ a b, dbg, p =>
    let (x, p) := a.drawn look dbg p
    let (y, p) := b.drawn look dbg p
    (x ++ y, p)

/-- No styling occurs when the value is formatted. -/
def Doc.Unstyled : Doc → Bool → Prop
  | .leaf _ _, _ => True
  | .style _ _, _ => False
  | .debug _ _, false => False
  | .debug d _, true => d.Unstyled true
  | .and a b, dbg => a.Unstyled dbg ∧ b.Unstyled dbg
  | .then_ a b, dbg => a.Unstyled dbg ∧ b.Unstyled dbg

/-- Nothing follows a styled part (used for what is inside a style). -/
def Doc.StyledLast : Doc → Bool → Prop
  | .leaf _ _, _ => True
  | .style d _, dbg => d.StyledLast dbg
  | .debug d _, _ => d.StyledLast true
  | .and a b, dbg => a.Unstyled dbg ∧ b.StyledLast dbg
  | .then_ a b, dbg => a.Unstyled dbg ∧ b.StyledLast dbg

/-- Inside every style nothing follows a styled part. -/
def Doc.Tidy : Doc → Bool → Prop
  | .leaf _ _, _ => True
  | .style d _, dbg => d.StyledLast dbg
  | .debug d _, false => d.StyledLast true
  | .debug d _, true => d.Tidy true
  | .and a b, dbg => a.Tidy dbg ∧ b.Tidy dbg
  | .then_ a b, dbg => a.Tidy dbg ∧ b.Tidy dbg

end Pemdas
