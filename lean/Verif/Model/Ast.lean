import Verif.Model.Token
/-
Model of `src/syntax/ast.rs` and of the plain data types of `src/syntax/fixity.rs`
(`Assoc`, `Prec`, `Fixity`), which the AST mentions.
Comparisons and accessors that nothing in the crate calls are in `Model/AstMore.lean`, the traits
`Visit` and `VisitMut` in `Model/Visitors.lean`.
-/
namespace Pemdas

/-- `Assoc` (fixity.rs:11-17). -/
inductive Assoc where
  | left | right | neither
  deriving DecidableEq, Repr

/-- `Fixity` (fixity.rs:77-81). `Prec` (fixity.rs:49-50, a `u8` newtype) is a `Nat`. -/
structure Fixity where
  prec : Nat
  assoc : Assoc
  deriving DecidableEq, Repr

/-- `Infix` (ast.rs:207-211). -/
inductive Infix where
  | standard (s : Symbol)
  | promoted (s : Symbol)
  deriving DecidableEq, Repr

/-- `Infix::symbol` (ast.rs:214-218). Rust's `==` on `Infix` compares only these
(ast.rs:248-252). -/
def Infix.symbol : Infix → Symbol
  | .standard s => s
  | .promoted s => s

/-- `Ident` (ast.rs:291-298). -/
inductive Ident where
  | nil
  | commas (n : Nat)
  | upper (s : Symbol)
  | lower (s : Symbol)
  | infix_ (s : Symbol)
  deriving DecidableEq, Repr

/-- `Infix::as_ident` (ast.rs:220-229). -/
def Infix.asIdent [CharTables] : Infix → Ident
  | .standard s => .infix_ s
  | .promoted s =>
    match s with
    | c :: _ => if isUppercase c then .upper s else .lower s
    | [] => .lower s

/-- `Ident::is_infix` (ast.rs:305-307). -/
def Ident.isInfix : Ident → Bool
  | .infix_ _ => true
  | _ => false

/-- `impl Display for Infix` (ast.rs:262-275). `s.len() == 1` is a byte length. -/
def Infix.text : Infix → Text
  | .standard s => s
  | .promoted s =>
    if utf8Len s = 1 ∧ endsWith s t!"'" then '`' :: (s ++ t!"`") else '\'' :: s

/-- `impl Display for Ident` (ast.rs:342-356). -/
def Ident.text : Ident → Text
  | .nil => t!"[]"
  | .commas k => '(' :: (List.replicate k ',' ++ t!")")
  | .upper s => s
  | .lower s => s
  | .infix_ s => s

/-- `Ident::len` (ast.rs:315-321). -/
def Ident.len : Ident → Nat
  | .nil => 2
  | .commas n => 2 + n
  | .upper s => utf8Len s
  | .lower s => utf8Len s
  | .infix_ s => utf8Len s

/-- `Ident::width` (ast.rs:311-313). -/
def Ident.width (i : Ident) : Nat := i.len + if i.isInfix then 2 else 0

/-- `Pat` (ast.rs:358-369). -/
inductive Pat where
  | wild
  | lit (l : Literal)
  | var (s : Symbol)
  | neg (p : Pat)
  | con (s : Symbol) (ps : List Pat)
  | tup (ps : List Pat)
  | arr (ps : List Pat)
  | lnk (l r : Pat)
  | as_ (s : Symbol) (p : Pat)
  deriving Repr

/-- `InfixDecl` (ast.rs:176-180). -/
structure InfixDecl where
  infixes : List Infix
  fixity : Fixity
  deriving DecidableEq, Repr

/-- `Expr` (ast.rs:187-201). -/
inductive Expr where
  | lit (l : Literal)
  | var (i : Ident)
  | app (f x : Expr)
  | bin (l : Expr) (op : Infix) (r : Expr)
  | lam (p : Pat) (b : Expr)
  | grp (e : Expr)
  | neg (e : Expr)
  | tup (es : List Expr)
  | list (es : List Expr)
  | let_ (d : InfixDecl) (b : Expr)
  deriving Repr

/-- `Expr::UNIT` (ast.rs:204). -/
def Expr.unit : Expr := .tup []

/-! Decidable (structural) equality; `deriving` does not support nested inductives. -/

mutual
/-- Decidable equality of patterns. -/
def Pat.decEq : (a b : Pat) → Decidable (a = b)
  | .wild, b => by cases b <;> first | exact isTrue rfl | exact isFalse (by simp)
  | .lit x, b => by
    cases b
    case lit y => exact if h : x = y then isTrue (by simp [h]) else isFalse (by simp [h])
    all_goals exact isFalse (by simp)
  | .var x, b => by
    cases b
    case var y => exact if h : x = y then isTrue (by simp [h]) else isFalse (by simp [h])
    all_goals exact isFalse (by simp)
  | .neg x, b => by
    cases b
    case neg y =>
      exact match Pat.decEq x y with
        | isTrue h => isTrue (by simp [h])
        | isFalse h => isFalse (by simp [h])
    all_goals exact isFalse (by simp)
  | .con s x, b => by
    cases b
    case con t y =>
      exact match Pat.decEqList x y with
        | isTrue h => if hs : s = t then isTrue (by simp [h, hs]) else isFalse (by simp [hs])
        | isFalse h => isFalse (by simp [h])
    all_goals exact isFalse (by simp)
  | .tup x, b => by
    cases b
    case tup y =>
      exact match Pat.decEqList x y with
        | isTrue h => isTrue (by simp [h])
        | isFalse h => isFalse (by simp [h])
    all_goals exact isFalse (by simp)
  | .arr x, b => by
    cases b
    case arr y =>
      exact match Pat.decEqList x y with
        | isTrue h => isTrue (by simp [h])
        | isFalse h => isFalse (by simp [h])
    all_goals exact isFalse (by simp)
  | .lnk x x', b => by
    cases b
    case lnk y y' =>
      exact match Pat.decEq x y, Pat.decEq x' y' with
        | isTrue h, isTrue h' => isTrue (by simp [h, h'])
        | isFalse h, _ => isFalse (by simp [h])
        | _, isFalse h => isFalse (by simp [h])
    all_goals exact isFalse (by simp)
  | .as_ s x, b => by
    cases b
    case as_ t y =>
      exact match Pat.decEq x y with
        | isTrue h => if hs : s = t then isTrue (by simp [h, hs]) else isFalse (by simp [hs])
        | isFalse h => isFalse (by simp [h])
    all_goals exact isFalse (by simp)

/-- Decidable equality of lists of patterns. -/
def Pat.decEqList : (a b : List Pat) → Decidable (a = b)
  | [], [] => isTrue rfl
  | [], _ :: _ => isFalse (by simp)
  | _ :: _, [] => isFalse (by simp)
  | x :: xs, y :: ys =>
    match Pat.decEq x y, Pat.decEqList xs ys with
    | isTrue h, isTrue h' => isTrue (by simp [h, h'])
    | isFalse h, _ => isFalse (by simp [h])
    | _, isFalse h => isFalse (by simp [h])
end

instance : DecidableEq Pat := Pat.decEq

mutual
/-- Decidable equality of expressions. -/
def Expr.decEq : (a b : Expr) → Decidable (a = b)
  | .lit x, b => by
    cases b
    case lit y => exact if h : x = y then isTrue (by simp [h]) else isFalse (by simp [h])
    all_goals exact isFalse (by simp)
  | .var x, b => by
    cases b
    case var y => exact if h : x = y then isTrue (by simp [h]) else isFalse (by simp [h])
    all_goals exact isFalse (by simp)
  | .app x x', b => by
    cases b
    case app y y' =>
      exact match Expr.decEq x y, Expr.decEq x' y' with
        | isTrue h, isTrue h' => isTrue (by simp [h, h'])
        | isFalse h, _ => isFalse (by simp [h])
        | _, isFalse h => isFalse (by simp [h])
    all_goals exact isFalse (by simp)
  | .bin x s x', b => by
    cases b
    case bin y t y' =>
      exact match Expr.decEq x y, Expr.decEq x' y' with
        | isTrue h, isTrue h' =>
          if hs : s = t then isTrue (by simp [h, h', hs]) else isFalse (by simp [hs])
        | isFalse h, _ => isFalse (by simp [h])
        | _, isFalse h => isFalse (by simp [h])
    all_goals exact isFalse (by simp)
  | .lam s x, b => by
    cases b
    case lam t y =>
      exact match Expr.decEq x y with
        | isTrue h => if hs : s = t then isTrue (by simp [h, hs]) else isFalse (by simp [hs])
        | isFalse h => isFalse (by simp [h])
    all_goals exact isFalse (by simp)
  | .grp x, b => by
    cases b
    case grp y =>
      exact match Expr.decEq x y with
        | isTrue h => isTrue (by simp [h])
        | isFalse h => isFalse (by simp [h])
    all_goals exact isFalse (by simp)
  | .neg x, b => by
    cases b
    case neg y =>
      exact match Expr.decEq x y with
        | isTrue h => isTrue (by simp [h])
        | isFalse h => isFalse (by simp [h])
    all_goals exact isFalse (by simp)
  | .tup x, b => by
    cases b
    case tup y =>
      exact match Expr.decEqList x y with
        | isTrue h => isTrue (by simp [h])
        | isFalse h => isFalse (by simp [h])
    all_goals exact isFalse (by simp)
  | .list x, b => by
    cases b
    case list y =>
      exact match Expr.decEqList x y with
        | isTrue h => isTrue (by simp [h])
        | isFalse h => isFalse (by simp [h])
    all_goals exact isFalse (by simp)
  | .let_ s x, b => by
    cases b
    case let_ t y =>
      exact match Expr.decEq x y with
        | isTrue h => if hs : s = t then isTrue (by simp [h, hs]) else isFalse (by simp [hs])
        | isFalse h => isFalse (by simp [h])
    all_goals exact isFalse (by simp)

/-- Decidable equality of lists of expressions. -/
def Expr.decEqList : (a b : List Expr) → Decidable (a = b)
  | [], [] => isTrue rfl
  | [], _ :: _ => isFalse (by simp)
  | _ :: _, [] => isFalse (by simp)
  | x :: xs, y :: ys =>
    match Expr.decEq x y, Expr.decEqList xs ys with
    | isTrue h, isTrue h' => isTrue (by simp [h, h'])
    | isFalse h, _ => isFalse (by simp [h])
    | _, isFalse h => isFalse (by simp [h])
end

instance : DecidableEq Expr := Expr.decEq

/-! ### Declarations and `Ast` -/

/-- `DeclKind` (ast.rs:152-156). -/
inductive DeclKind where
  | infix_ | expr
  deriving DecidableEq, Repr

/-- `Decl` (ast.rs:158-162). `ExprDecl` (ast.rs:182-185) is its single field. -/
inductive Decl where
  | infix_ (d : InfixDecl)
  | expr (e : Expr)
  deriving DecidableEq, Repr

/-- `Decl::kind` (ast.rs:165-170). -/
def Decl.kind : Decl → DeclKind
  | .infix_ _ => .infix_
  | .expr _ => .expr

/-- `Ast` (ast.rs:5-10). -/
structure Ast where
  kinds : List DeclKind
  infxs : List InfixDecl
  exprs : List Expr
  deriving DecidableEq, Repr

/-- `impl Default for Ast` (ast.rs:12-20). -/
def Ast.empty : Ast := ⟨[], [], []⟩

/-- `Ast::push` (ast.rs:23-33). -/
def Ast.push (a : Ast) (d : Decl) : Ast :=
  let a := { a with kinds := a.kinds ++ [d.kind] }
  match d with
  | .infix_ d => { a with infxs := a.infxs ++ [d] }
  | .expr e => { a with exprs := a.exprs ++ [e] }

/-- The state of `AstIntoIter`/`AstIter`/`AstIterMut` (ast.rs:73-77): what each of the three
slice iterators has left. -/
structure AstIter where
  kinds : List DeclKind
  infxs : List InfixDecl
  exprs : List Expr
  deriving DecidableEq, Repr

/-- `new` (ast.rs:80-88). -/
def AstIter.new (a : Ast) : AstIter := ⟨a.kinds, a.infxs, a.exprs⟩

/-- `len` (ast.rs:90-92). -/
def AstIter.len (it : AstIter) : Nat := it.kinds.length

/-- `next` of a slice or `vec` iterator. -/
def popFront {α : Type} : List α → Option α × List α
  | [] => (none, [])
  | x :: xs => (some x, xs)

/-- `next_back` of a slice or `vec` iterator. -/
def popBack {α : Type} (l : List α) : Option α × List α := (l.getLast?, l.dropLast)

/-- `next` (ast.rs:49-61,102). -/
def AstIter.next (it : AstIter) : Option Decl × AstIter :=
  match popFront it.kinds with
  | (none, ks) => (none, { it with kinds := ks })
  | (some .infix_, ks) =>
    let (d, ds) := popFront it.infxs
    (d.map .infix_, { it with kinds := ks, infxs := ds })
  | (some .expr, ks) =>
    let (d, ds) := popFront it.exprs
    (d.map .expr, { it with kinds := ks, exprs := ds })

/-- `next_back` (ast.rs:49-61,108). -/
def AstIter.nextBack (it : AstIter) : Option Decl × AstIter :=
  match popBack it.kinds with
  | (none, ks) => (none, { it with kinds := ks })
  | (some .infix_, ks) =>
    let (d, ds) := popBack it.infxs
    (d.map .infix_, { it with kinds := ks, infxs := ds })
  | (some .expr, ks) =>
    let (d, ds) := popBack it.exprs
    (d.map .expr, { it with kinds := ks, exprs := ds })

end Pemdas
