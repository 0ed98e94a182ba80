import Verif.Model.Ast
import Verif.Model.Memory
/-
Model of the comparisons and accessors of `src/syntax/ast.rs` that the rest of the crate does not
use.
-/
namespace Pemdas

/-- `impl PartialEq<Symbol> for Infix` (ast.rs:232-236). -/
def Infix.eqSymbol (op : Infix) (s : Symbol) : Bool := op.symbol == s

/-- `impl PartialEq<Ident> for Infix` (ast.rs:238-246). -/
def Infix.eqIdent : Infix → Ident → Bool
  | .promoted pr, .upper s | .promoted pr, .lower s => pr == s
  | .standard op, .infix_ s => op == s
  | _, _ => false

/-- `impl PartialEq for Infix` (ast.rs:248-252). -/
def Infix.eqInfix (op op' : Infix) : Bool := op.symbol == op'.symbol

/-- `impl Borrow<Symbol> for Infix` (ast.rs:283-289). -/
def Infix.borrow : Infix → Symbol
  | .standard s | .promoted s => s

/-- What `impl Hash for Infix` (ast.rs:256-260) feeds to the hasher, given what a symbol feeds. -/
def Infix.hashFeed (feed : Symbol → List UInt8) (op : Infix) : List UInt8 := feed op.symbol

/-- `Ident::is_unit` (ast.rs:301-303). -/
def Ident.isUnit : Ident → Bool
  | .commas 0 => true
  | _ => false

/-- The loop `for _ in 0..*k` of `as_str` (ast.rs:329-331). -/
def Ident.asStrCommas : Nat → List UInt8 → Except Panic (List UInt8)
  | 0, buf => .ok buf
  | k + 1, buf => do
    let buf ← Memory.encodeUtf8 ',' buf
    asStrCommas k buf

/-- `Ident::as_str` (ast.rs:323-340). -/
def Ident.asStr (m : Memory.Mem) : Ident → Except Panic (Memory.Ref × Memory.Mem)
  | .nil => .ok (.const t!"[]", m)
  | .commas k => do
    let buf ← Memory.encodeUtf8 '(' []
    let buf ← asStrCommas k buf
    let buf ← Memory.encodeUtf8 ')' buf
    .ok (Memory.leak m buf)
  | .upper _ => .error .identTodo
  | .lower _ => .error .identTodo
  | .infix_ _ => .error .identTodo

/-- `is_empty` (ast.rs:94-96). -/
def AstIter.isEmpty (it : AstIter) : Bool := it.len == 0

/-- `Iterator::size_hint`, which the iterators do not override (ast.rs:99-103): the standard
library's default. -/
def AstIter.sizeHint (_ : AstIter) : Nat × Option Nat := (0, none)

/-- `ExactSizeIterator::len`, which the iterators do not override (ast.rs:105): the standard
library's default asserts that `size_hint` is exact. -/
def AstIter.exactLen (it : AstIter) : Except Panic Nat :=
  let (lower, upper) := it.sizeHint
  if upper = some lower then .ok lower else .error .sizeHintAssert

/-- `next_back` of the standard library's `Enumerate` over such an iterator, of which `count` items
were taken from the front: the item, then the number of items left by `ExactSizeIterator::len`. -/
def AstIter.enumNextBack (it : AstIter) (count : Nat) :
    Except Panic (Option (Nat × Decl) × AstIter) :=
  match it.nextBack with
  | (none, it) => .ok (none, it)
  | (some d, it) => do
    let len ← it.exactLen
    .ok (some (count + len, d), it)

/-- `DeclMut` (ast.rs:173): a mutable reference to an entry of `infxs` or of `exprs`, given by its
index. -/
inductive DeclMut where
  | infix_ (i : Nat)
  | expr (i : Nat)
  deriving DecidableEq, Repr

/-- `AstIterMut` (ast.rs:73-77,145-149): the kinds left, and the entries left in the two slices. -/
structure AstIterMut where
  kinds : List DeclKind
  infxs : List Nat
  exprs : List Nat
  deriving DecidableEq, Repr

/-- `Ast::iter_mut`, `AstIterMut::new` (ast.rs:43-45,80-88), and `into_iter` of `&mut Ast`
(ast.rs:111-120). -/
def Ast.iterMut (a : Ast) : AstIterMut :=
  ⟨a.kinds, List.range a.infxs.length, List.range a.exprs.length⟩

/-- `next` (ast.rs:49-61,102). -/
def AstIterMut.next (it : AstIterMut) : Option DeclMut × AstIterMut :=
  match popFront it.kinds with
  | (none, ks) => (none, { it with kinds := ks })
  | (some .infix_, ks) =>
    let (d, ds) := popFront it.infxs
    (d.map .infix_, { it with kinds := ks, infxs := ds })
  | (some .expr, ks) =>
    let (d, ds) := popFront it.exprs
    (d.map .expr, { it with kinds := ks, exprs := ds })

/-- `next_back` (ast.rs:49-61,108). -/
def AstIterMut.nextBack (it : AstIterMut) : Option DeclMut × AstIterMut :=
  match popBack it.kinds with
  | (none, ks) => (none, { it with kinds := ks })
  | (some .infix_, ks) =>
    let (d, ds) := popBack it.infxs
    (d.map .infix_, { it with kinds := ks, infxs := ds })
  | (some .expr, ks) =>
    let (d, ds) := popBack it.exprs
    (d.map .expr, { it with kinds := ks, exprs := ds })

/-- `len` (ast.rs:90-92). -/
def AstIterMut.len (it : AstIterMut) : Nat := it.kinds.length

/-- What a reference refers to. -/
def Ast.deref (a : Ast) : DeclMut → Option Decl
  | .infix_ i => a.infxs[i]?.map .infix_
  | .expr i => a.exprs[i]?.map .expr

/-- Changing what a reference refers to; what is done depends on its type only. -/
def Ast.assign (a : Ast) (fi : InfixDecl → InfixDecl) (fe : Expr → Expr) : DeclMut → Ast
  | .infix_ i => { a with infxs := a.infxs.modify i fi }
  | .expr i => { a with exprs := a.exprs.modify i fe }

end Pemdas
