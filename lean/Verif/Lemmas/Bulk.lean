import Verif.Lemmas.Drawn
import Verif.Lemmas.Becomes
import Verif.Lemmas.ReprintLex
import Verif.Lemmas.LexPos
import Verif.Lemmas.PrintBalance
import Verif.Lemmas.LexText
import Verif.Spec.AnySource
import Verif.Spec.Retyped
import Verif.Spec.Wording
/-
How long the drawing of an expression is, compared with the text it is read from.
-/
namespace Pemdas
open TLex

/-! ### drawings -/

/-- The number of bytes of a drawing, where a coloured character counts `q` times. -/
def weigh (q : Nat) : Drawing → Nat
  | [] => 0
  | (c, none) :: x => c.utf8Size + weigh q x
  | (c, some _) :: x => q * c.utf8Size + weigh q x

@[simp] theorem weigh_append (q : Nat) (x y : Drawing) : weigh q (x ++ y) = weigh q x + weigh q y := by
  induction x with
  | nil => simp [weigh]
  | cons a x ih =>
    rcases a with ⟨c, _ | d⟩ <;> simp only [List.cons_append, weigh, ih] <;> omega

@[simp] theorem weigh_ink (q : Nat) (t : Text) : weigh q (ink t) = utf8Len t := by
  induction t with
  | nil => rfl
  | cons c t ih => rw [ink, List.map_cons, weigh, ← ink, ih]; rfl

theorem weigh_boxed (q d : Nat) (x : Drawing) : weigh q (boxed d x) = weigh q x + 2 * q := by
  have h1 : Char.utf8Size '(' = 1 := rfl
  have h2 : Char.utf8Size ')' = 1 := rfl
  simp only [boxed, weigh_append, weigh, h1, h2]
  omega

theorem weigh_boxedIf (q : Nat) (b : Bool) (d : Nat) (x : Drawing) :
    weigh q (boxedIf b d x) ≤ weigh q x + 2 * q := by
  unfold boxedIf
  split
  · exact Nat.le_of_eq (weigh_boxed q d x)
  · omega

/-- What several drawings weigh, each with something more. -/
def weighAll (q k : Nat) : List Drawing → Nat
  | [] => 0
  | x :: xs => weigh q x + k + weighAll q k xs

theorem weigh_joined (q : Nat) (sep : Text) (xs : List Drawing) :
    weigh q (joined sep xs) ≤ weighAll q (utf8Len sep) xs ∧
    (xs ≠ [] → weigh q (joined sep xs) + utf8Len sep = weighAll q (utf8Len sep) xs) := by
  induction xs with
  | nil => exact ⟨Nat.zero_le _, fun h => absurd rfl h⟩
  | cons x xs ih =>
    cases xs with
    | nil => simp [joined, weighAll]
    | cons y ys =>
      have := ih.2 (by simp)
      have e : joined sep (x :: y :: ys) = x ++ ink sep ++ joined sep (y :: ys) := by
        simp [joined, List.intercalate, List.intersperse]
      rw [e, weigh_append, weigh_append, weigh_ink]
      simp only [weighAll] at this ⊢
      omega

theorem weigh_one (x : Drawing) : weigh 1 x = utf8Len (x.map (·.1)) := by
  induction x with
  | nil => rfl
  | cons a x ih =>
    rcases a with ⟨c, _ | d⟩ <;> simp [weigh, ih]

theorem shade_length (d : Nat) : utf8Len (t!"38;2;" ++ decText (depthColor d).1 ++ t!";" ++
    decText (depthColor d).2.1 ++ t!";" ++ decText (depthColor d).2.2) ≤ 15 := by
  have h : ∀ k, k < 7 → utf8Len (t!"38;2;" ++ decText (rainbow.getD k (0, 0, 0)).1 ++ t!";" ++
      decText (rainbow.getD k (0, 0, 0)).2.1 ++ t!";" ++ decText (rainbow.getD k (0, 0, 0)).2.2) ≤ 15 := by
    decide
  exact h _ (Nat.mod_lt _ (by decide))

theorem sent_length (x : Drawing) : utf8Len x.sent ≤ weigh 23 x := by
  induction x with
  | nil => exact Nat.zero_le _
  | cons a x ih =>
    rcases a with ⟨c, _ | d⟩
    · show utf8Len ([c] ++ Drawing.sent x) ≤ _
      simp only [utf8Len_append, utf8Len_cons, utf8Len_nil, weigh]
      omega
    · show utf8Len (painted _ [c] ++ Drawing.sent x) ≤ _
      have := shade_length d
      have h1 : utf8Len t!"\x1b[" = 2 := rfl
      have h2 : utf8Len t!"m" = 1 := rfl
      have h3 : utf8Len t!"\x1b[0m" = 4 := rfl
      have hc := c.utf8Size_pos
      simp only [painted, utf8Len_append, utf8Len_cons, utf8Len_nil, weigh, h1, h2, h3] at this ⊢
      omega

/-! ### expressions -/

section
variable [CharTables]

mutual
/-- What an expression may weigh, however its operators are grouped. -/
def Expr.room (q : Nat) : Expr → Nat
  | .lit l => utf8Len l.text
  | .var (.infix_ s) => 2 + utf8Len s
  | .var i => utf8Len i.text
  | .app f x => f.room q + 1 + x.room q
  | .bin l op r => l.room q + (2 + utf8Len op.text + 4 * q) + r.room q
  | .lam p b => weigh q (p.drawn 0) + 1 + (if b.isLam then 0 else 6) + b.room q
  | .grp e => e.room q + 2 * q
  | .tup es => 2 + Expr.roomList q es
  | .list es => 2 + Expr.roomList q es
  | .let_ _ b => b.room q
  | .neg e => e.room q
/-- What elements may weigh, each with a separator. -/
def Expr.roomList (q : Nat) : List Expr → Nat
  | [] => 0
  | e :: es => e.room q + 2 + Expr.roomList q es
end

omit [CharTables] in
theorem weigh_lambda (q d : Nat) (x : List Drawing × Drawing) :
    weigh q (lambda d x) ≤ weighAll q 1 x.1 + (if x.1.isEmpty then 0 else 6) + weigh q x.2 := by
  obtain ⟨ps, x⟩ := x
  cases ps with
  | nil => simp [lambda, weighAll]
  | cons p ps =>
    have h := (weigh_joined q t!" " (p :: ps)).2 (by simp)
    have h0 : utf8Len t!" " = 1 := rfl
    have h1 : utf8Len t!" -> " = 4 := rfl
    have h2 : utf8Len (if d = 0 then t!"\\" else t!"(\\") ≤ 2 := by split <;> decide
    have h3 : utf8Len (if d = 0 then [] else t!")") ≤ 1 := by split <;> decide
    rw [h0] at h
    simp only [lambda, List.isEmpty_cons, Bool.false_eq_true, if_false, weigh_append, weigh_ink, h1]
    omega

theorem parts_isEmpty (e : Expr) (d : Nat) : (e.parts d).1.isEmpty = !e.isLam := by
  cases e with
  | var i => cases i <;> simp [Expr.parts, Expr.isLam]
  | _ => simp [Expr.parts, Expr.isLam]

mutual
theorem parts_room (q : Nat) : ∀ (e : Expr) (d : Nat),
    weighAll q 1 (e.parts d).1 + (if e.isLam then 6 else 0) + weigh q (e.parts d).2 ≤ e.room q
  | .lit l, d => by simp [Expr.parts, Expr.room, Expr.isLam, weighAll]
  | .var i, d => by
    have h1 : Char.utf8Size '(' = 1 := rfl
    have h2 : Char.utf8Size ')' = 1 := rfl
    cases i <;> simp [Expr.parts, Expr.room, Expr.isLam, weighAll, h1, h2] <;> omega
  | .app f x, d => by
    have h1 : utf8Len t!" " = 1 := rfl
    have hf := lambda_room q f d
    have hx := lambda_room q x d
    simp only [Expr.parts, Expr.room, Expr.isLam, weighAll, weigh_append, weigh_ink, h1]
    simp
    omega
  | .bin l op r, d => by
    have h1 : utf8Len t!" " = 1 := rfl
    have hf := lambda_room q l (d + 1)
    have hx := lambda_room q r (d + 1)
    have bf := weigh_boxedIf q (!l.closed) (d + 1) (lambda (d + 1) (l.parts (d + 1)))
    have bx := weigh_boxedIf q (!r.closed) (d + 1) (lambda (d + 1) (r.parts (d + 1)))
    simp only [Expr.parts, Expr.room, Expr.isLam, weighAll, weigh_append, weigh_ink, utf8Len_append, h1]
    simp only [Bool.false_eq_true, if_false]
    omega
  | .lam p b, d => by
    have hb := parts_room q b d
    have hl : (Expr.lam p b).isLam = true := rfl
    simp only [Expr.parts, Expr.room, weighAll, hl, if_true]
    cases hb' : b.isLam <;> simp [hb'] at hb ⊢ <;> omega
  | .grp e, d => by
    have he := lambda_room q e d
    simp only [Expr.parts, Expr.room, Expr.isLam, weighAll, weigh_boxed]
    simp
    omega
  | .tup es, d => by
    have h := list_room q es
    have h1 : utf8Len t!"(" = 1 := rfl
    have h2 : utf8Len t!")" = 1 := rfl
    have hj := (weigh_joined q t!", " (Expr.drawnList es)).1
    have h3 : utf8Len t!", " = 2 := rfl
    rw [h3] at hj
    simp only [Expr.parts, Expr.room, Expr.isLam, weighAll, weigh_append, weigh_ink, h1, h2]
    simp
    omega
  | .list es, d => by
    have h := list_room q es
    have h1 : utf8Len t!"[" = 1 := rfl
    have h2 : utf8Len t!"]" = 1 := rfl
    have hj := (weigh_joined q t!", " (Expr.drawnList es)).1
    have h3 : utf8Len t!", " = 2 := rfl
    rw [h3] at hj
    simp only [Expr.parts, Expr.room, Expr.isLam, weighAll, weigh_append, weigh_ink, h1, h2]
    simp
    omega
  | .let_ _ b, d => by
    have he := lambda_room q b d
    simpa [Expr.parts, Expr.room, Expr.isLam, weighAll] using he
  | .neg e, d => by simp [Expr.parts, Expr.room, Expr.isLam, weighAll, weigh]
theorem lambda_room (q : Nat) : ∀ (e : Expr) (d : Nat), weigh q (lambda d (e.parts d)) ≤ e.room q
  | e, d => by
    have h := parts_room q e d
    have h' := weigh_lambda q d (e.parts d)
    rw [parts_isEmpty] at h'
    cases hl : e.isLam <;> simp [hl] at h h' <;> omega
theorem list_room (q : Nat) : ∀ es : List Expr, weighAll q 2 (Expr.drawnList es) ≤ Expr.roomList q es
  | [] => Nat.zero_le _
  | e :: es => by
    have h := lambda_room q e 0
    have h' := list_room q es
    simp only [Expr.drawnList, weighAll, Expr.roomList]
    omega
end

theorem drawn_room (q : Nat) (e : Expr) : weigh q e.drawn ≤ e.room q := lambda_room q e 0


/-! ### resolving -/

/-- The sum of a measure. -/
def sumOf {α : Type} (f : α → Nat) : List α → Nat
  | [] => 0
  | a :: l => f a + sumOf f l

omit [CharTables] in
theorem sumOf_append {α : Type} (f : α → Nat) (a b : List α) : sumOf f (a ++ b) = sumOf f a + sumOf f b := by
  induction a with
  | nil => simp [sumOf]
  | cons x a ih => simp only [List.cons_append, sumOf, ih]; omega

/-- What an operator may weigh, with the parentheses around its operands. -/
def opRoom (q : Nat) (op : Infix) : Nat := 2 + utf8Len op.text + 4 * q

theorem tree_room (q : Nat) (t : OpTree) :
    t.toExpr.room q = sumOf (Expr.room q) t.operands + sumOf (opRoom q) t.operators := by
  induction t with
  | leaf e => simp [OpTree.toExpr, OpTree.operands, OpTree.operators, sumOf]
  | node l op r ihl ihr =>
    simp only [OpTree.toExpr, OpTree.operands, OpTree.operators, Expr.room, sumOf_append, sumOf, ihl, ihr,
      opRoom]
    omega

theorem chain_room (q : Nat) : ∀ e : Expr,
    e.room q = sumOf (Expr.room q) e.chainOperands + sumOf (opRoom q) e.chainOperators
  | .bin l op r => by
    have := chain_room q r
    simp only [Expr.chainOperands, Expr.chainOperators, sumOf, opRoom] at this ⊢
    simp only [Expr.room]
    omega
  | .lit _ | .var _ | .app .. | .lam .. | .grp _ | .neg _ | .tup _ | .list _ | .let_ .. => by
    simp [Expr.chainOperands, Expr.chainOperators, sumOf]

omit [CharTables] in
theorem Becomes.isLam {fx fx' : Env} {e e' : Expr} {es : List AssocError} (h : Becomes fx e e' es fx') :
    e'.isLam = e.isLam := by
  cases h <;> rfl

/-- The length of an error message on a line of its own. -/
def AssocError.line (e : AssocError) : Nat := 3 + utf8Len e.wording.toList

omit [CharTables] in
theorem line_le (fx : Env) (p c : Infix) :
    (clashError fx p c).line ≤ 101 + utf8Len p.text + utf8Len c.text := by
  have h : ∀ a b : Assoc, utf8Len (AssocError.wording ⟨(.standard [], ⟨0, a⟩), (.standard [], ⟨0, b⟩)⟩).toList ≤ 98 := by
    intro a b
    cases a <;> cases b <;> decide
  have h1 := h (fx p).assoc (fx c).assoc
  unfold AssocError.line clashError
  simp only [AssocError.wording, Infix.text, str] at h1 ⊢
  simp only [String.toList_append, String.toList_ofList, utf8Len_append, toString] at h1 ⊢
  simp only [utf8Len_nil] at h1
  omega

omit [CharTables] in
theorem clash_room {fx : Env} {ops : List Infix} {p c : Infix} (h : FirstClash fx ops p c) :
    (clashError fx p c).line ≤ sumOf (opRoom 23) ops := by
  obtain ⟨pre, mid, post, rfl, -⟩ := h
  have := line_le fx p c
  simp only [sumOf_append, sumOf, opRoom]
  omega

mutual
theorem Becomes.room {q : Nat} {fx fx' : Env} {e e' : Expr} {es : List AssocError}
    (h : Becomes fx e e' es fx') :
    e'.room q = e.room q ∧ sumOf AssocError.line es ≤ e.room 23 := by
  cases h with
  | lit => exact ⟨rfl, Nat.zero_le _⟩
  | var => exact ⟨rfl, Nat.zero_le _⟩
  | app hf hx =>
    have a := hf.room (q := q)
    have b := hx.room (q := q)
    simp only [Expr.room, sumOf_append]
    omega
  | lam hb =>
    have a := hb.room (q := q)
    simp only [Expr.room, hb.isLam]
    omega
  | grp hb =>
    have a := hb.room (q := q)
    simp only [Expr.room]
    omega
  | neg hb =>
    have a := hb.room (q := q)
    simp only [Expr.room]
    omega
  | tup hb =>
    have a := hb.room (q := q)
    simp only [Expr.room]
    omega
  | list hb =>
    have a := hb.room (q := q)
    simp only [Expr.room]
    omega
  | let_ hb =>
    have a := hb.room (q := q)
    simp only [Expr.room]
    omega
  | @ambiguous _ l op r p c hc =>
    refine ⟨rfl, ?_⟩
    have := clash_room hc
    rw [chain_room]
    simp only [sumOf]
    omega
  | @grouped _ l op r s o t s' t' es es' fx₁ _ hw ho hx hs ht =>
    have a := hs.room (q := q)
    have b := ht.room (q := q)
    have c := fun k => tree_room k (.node s o t)
    simp only [ho, hx, ← chain_room] at c
    simp only [OpTree.toExpr] at c
    rw [← c q, ← c 23]
    simp only [Expr.room, sumOf_append]
    omega
theorem BecomeAll.room {q : Nat} {fx fx' : Env} {xs xs' : List Expr} {es : List AssocError}
    (h : BecomeAll fx xs xs' es fx') :
    Expr.roomList q xs' = Expr.roomList q xs ∧ sumOf AssocError.line es ≤ Expr.roomList 23 xs := by
  cases h with
  | nil => exact ⟨rfl, Nat.zero_le _⟩
  | cons ha hb =>
    have a := ha.room (q := q)
    have b := hb.room (q := q)
    simp only [Expr.roomList, sumOf_append]
    omega
end

/-! ### tokens -/

/-- How long the text is that is written for a token. -/
def Token.bulk : Token → Nat
  | .lit l => utf8Len l.text
  | .upper s => utf8Len s
  | .lower s => utf8Len s
  | .affix s true => utf8Len s + 2
  | .affix s false => utf8Len s
  | .dash => 1
  | .at_ => 1
  | _ => 0

/-- What tokens weigh. -/
def heft (q : Nat) (ts : List Token) : Nat := sumOf (fun t => t.bulk + (2 * q + 3)) ts

theorem heft_cons (q : Nat) (t : Token) (ts : List Token) :
    heft q (t :: ts) = t.bulk + (2 * q + 3) + heft q ts := rfl
theorem heft_nil (q : Nat) : heft q [] = 0 := rfl
theorem heft_append (q : Nat) (a b : List Token) : heft q (a ++ b) = heft q a + heft q b :=
  sumOf_append _ a b

theorem heft_sepBy (q : Nat) (sep : Token) (tss : List (List Token)) :
    sumOf (heft q) tss ≤ heft q (sepBy sep tss) ∧
    (2 ≤ tss.length → sumOf (heft q) tss + (2 * q + 3) ≤ heft q (sepBy sep tss)) := by
  induction tss with
  | nil => exact ⟨Nat.le_refl _, fun h => absurd h (by simp)⟩
  | cons a tss ih =>
    cases tss with
    | nil => simp [sepBy, sumOf]
    | cons b tss =>
      have := ih.1
      simp only [sepBy, heft_append, heft_cons, sumOf] at this ⊢
      omega

theorem heft_flatten (q : Nat) (tss : List (List Token)) : heft q tss.flatten = sumOf (heft q) tss := by
  induction tss with
  | nil => rfl
  | cons a tss ih => simp only [List.flatten_cons, heft_append, sumOf, ih]

theorem pats_heft {q k : Nat} (hk : k ≤ 2 * q + 2) {d : Nat} {ps : List (Pat × List Token)}
    (h : ∀ x ∈ ps, weigh q (x.1.drawn d) + (2 * q + 2) ≤ heft q x.2) :
    weighAll q k (Pat.drawnList d (ps.map (·.1))) + (2 * q + 2 - k) * ps.length ≤
      sumOf (heft q) (ps.map (·.2)) := by
  induction ps with
  | nil => simp [Pat.drawnList, weighAll]
  | cons x ps ih =>
    have h1 := ih fun x hx => h x (by simp [hx])
    have h2 := h x (by simp)
    simp only [List.map_cons, Pat.drawnList, weighAll, sumOf, List.length_cons, Nat.mul_add, Nat.mul_one]
    omega

/-- What is written for a pattern is hardly longer than its tokens. -/
theorem PatToks.weight {q : Nat} {c : PatCat} {p : Pat} {ts : List Token} (h : PatToks c p ts) :
    ∀ d, weigh q (p.drawn d) + (2 * q + 2) ≤ heft q ts := by
  have h1 : utf8Len t!"(" = 1 := rfl
  have h2 : utf8Len t!")" = 1 := rfl
  have h3 : utf8Len t!"[" = 1 := rfl
  have h4 : utf8Len t!"]" = 1 := rfl
  have h5 : utf8Len t!"(-" = 2 := rfl
  have h6 : utf8Len t!"_" = 1 := rfl
  have h7 : utf8Len t!"@" = 1 := rfl
  have h8 : utf8Len t!", " = 2 := rfl
  have h9 : utf8Len t!" " = 1 := rfl
  induction h with
  | wild => intro d; simp only [Pat.drawn, weigh_ink, heft_cons, heft_nil, Token.bulk, h6]; omega
  | con0 s => intro d; simp [Pat.drawn, heft_cons, heft_nil, Token.bulk] <;> omega
  | var s => intro d; simp [Pat.drawn, heft_cons, heft_nil, Token.bulk] <;> omega
  | as_ s _ ih =>
    intro d
    have := ih d
    simp only [Pat.drawn, weigh_append, weigh_ink, utf8Len_append, heft_cons, Token.bulk, h7]
    omega
  | firstOp s b =>
    intro d
    cases b <;> simp [Pat.drawn, heft_cons, heft_nil, Token.bulk] <;> omega
  | @firstNeg p _ _ ih =>
    intro d
    have := ih d
    have hb := weigh_boxedIf q (!p.simple) d (p.drawn d)
    simp only [Pat.drawn, weigh_append, weigh_ink, heft_cons, Token.bulk, h5, h2]
    omega
  | firstCon _ ih => exact ih
  | first _ ih => exact ih
  | paren _ ih =>
    intro d
    have := ih d
    simp only [List.cons_append, heft_cons, heft_append]
    omega
  | @tup p ts ps _ _ _ ih ihs =>
    intro d
    have a := ih d
    have b := pats_heft (k := 2) (by omega) (fun x hx => ihs x hx d)
    have c := (weigh_joined q t!", " (Pat.drawnList d (p :: ps.map (·.1)))).1
    have e := (heft_sepBy q .comma (ts :: ps.map (·.2))).1
    rw [h8] at c
    simp only [Pat.drawnList, weighAll, sumOf] at c e
    simp only [Pat.drawn, Pat.drawnList, weigh_append, weigh_ink, List.cons_append, heft_cons, heft_append, h1, h2]
    omega
  | arrNil =>
    intro d
    simp only [Pat.drawn, Pat.drawnList, weigh_append, weigh_ink, heft_cons, h3, h4]
    simp [joined, weigh]
    omega
  | @arr ps _ _ ihs =>
    intro d
    have b := pats_heft (k := 2) (by omega) (fun x hx => ihs x hx d)
    have c := (weigh_joined q t!", " (Pat.drawnList d (ps.map (·.1)))).1
    have e := (heft_sepBy q .comma (ps.map (·.2))).1
    rw [h8] at c
    simp only [Pat.drawn, weigh_append, weigh_ink, List.cons_append, heft_cons, heft_append, h3, h4]
    omega
  | @con s ps _ ihs =>
    intro d
    have b := pats_heft (k := 1) (by omega) (fun x hx => ihs x hx d)
    have c := (weigh_joined q t!" " (ink s :: Pat.drawnList d (ps.map (·.1)))).2 (by simp)
    rw [h9] at c
    simp only [weighAll, weigh_ink] at c
    rw [heft_cons, heft_flatten]
    cases ps with
    | nil => simp [Pat.drawn, Token.bulk]; omega
    | cons x ps =>
      simp only [List.length_cons, Nat.mul_add, Nat.mul_one] at b
      simp only [Pat.drawn, List.map_cons, List.isEmpty_cons, Bool.false_eq_true, if_false, weigh_append,
        weigh_ink, Token.bulk, h1, h2] at b c ⊢
      omega
  | @conTup p ts ps _ hne _ ih ihs =>
    intro d
    have a := ih d
    have b := pats_heft (k := 2) (by omega) (fun x hx => ihs x hx d)
    have c := (weigh_joined q t!", " (Pat.drawnList d (p :: ps.map (·.1)))).2 (by simp [Pat.drawnList])
    have e := (heft_sepBy q .comma (ts :: ps.map (·.2))).2 (by
      cases ps with
      | nil => exact absurd rfl hne
      | cons => simp)
    rw [h8] at c
    simp only [Pat.drawnList, weighAll, sumOf] at c e
    simp only [Pat.drawn, Pat.drawnList, weigh_append, weigh_ink, h1, h2]
    omega
  | inner _ ih => exact ih
  | innerCon _ ih => exact ih
  | lit l => intro d; simp [Pat.drawn, heft_cons, heft_nil, Token.bulk] <;> omega
  | minus _ ih =>
    intro d
    have := ih d
    rw [heft_cons]
    omega

theorem OpTok.bulk {op : Infix} {t : Token} (h : OpTok op t) : utf8Len op.text ≤ t.bulk := by
  cases h with
  | dash => exact Nat.le_refl 1
  | at_ => exact Nat.le_refl 1
  | standard s => exact Nat.le_refl _
  | promoted s =>
    have h1 : Char.utf8Size '`' = 1 := rfl
    have h2 : Char.utf8Size '\'' = 1 := rfl
    simp only [Infix.text, Token.bulk]
    split <;> simp [h1, h2] <;> omega

theorem lams_room (q : Nat) (ps : List Pat) (e : Expr) :
    (ps.foldr .lam e).room q + (if (ps.foldr .lam e).isLam then 0 else 6) ≤
      weighAll q 1 (ps.map (·.drawn 0)) + 6 + e.room q := by
  induction ps with
  | nil =>
    simp only [List.foldr_nil, List.map_nil, weighAll]
    rcases Bool.eq_false_or_eq_true e.isLam with h | h <;> simp [h] <;> omega
  | cons p ps ih =>
    have : (Expr.lam p (ps.foldr .lam e)).isLam = true := rfl
    simp only [List.foldr_cons, Expr.room, List.map_cons, weighAll, this, if_true]
    omega

/-- What tokens weigh that have places. -/
abbrev cheft (q : Nat) (cs : List CTok) : Nat := heft q (cs.map (·.1))

theorem commas_weight (q : Nat) (ks : List Nat) :
    utf8Len (List.replicate ks.length ',') ≤ heft q (ks.map fun _ => Token.comma) := by
  have hc : Char.utf8Size ',' = 1 := rfl
  induction ks with
  | nil => simp
  | cons j ks ih =>
    simp only [List.length_cons, List.replicate_succ, utf8Len_cons, List.map_cons, heft_cons, hc]
    omega

theorem tupItems_weight {q : Nat} {xs : List TupItem}
    (ihs : ∀ x ∈ xs, x.expr.room q + (2 * q + 2) ≤ cheft q x.toks) :
    Expr.roomList q (xs.map (·.expr)) ≤ heft q ((xs.map (·.all)).flatten.map (·.1)) := by
  induction xs with
  | nil => simp [Expr.roomList]
  | cons x xs ih =>
    have a := ih fun x hx => ihs x (by simp [hx])
    have b := ihs x (by simp)
    simp only [List.map_cons, Expr.roomList, List.flatten_cons, List.map_append, heft_append, TupItem.all,
      heft_cons, cheft] at a b ⊢
    omega

theorem listItems_weight {q : Nat} {xs : List ListItem}
    (ihs : ∀ x ∈ xs, x.expr.room q + (2 * q + 2) ≤ cheft q x.toks) :
    Expr.roomList q (xs.map (·.expr)) ≤ heft q ((xs.map (·.all)).flatten.map (·.1)) := by
  induction xs with
  | nil => simp [Expr.roomList]
  | cons x xs ih =>
    have a := ih fun x hx => ihs x (by simp [hx])
    have b := ihs x (by simp)
    simp only [List.map_cons, Expr.roomList, List.flatten_cons, List.map_append, heft_append, ListItem.all,
      cheft] at a b ⊢
    omega

/-- What is written for an expression is hardly longer than its tokens. -/
theorem Written.weight {q : Nat} {cat : ExprCat} {c m : Nat} {e : Expr} {cs : List CTok}
    (h : Written cat c m e cs) : e.room q + (2 * q + 2) ≤ cheft q cs := by
  induction h with
  | last _ ih => exact ih
  | lastOpen _ ih => exact ih
  | bin _ ho _ ihl ihr =>
    have := ho.bulk
    simp only [Expr.room, cheft, List.map_append, List.map_cons, heft_append, heft_cons] at ihl ihr ⊢
    omega
  | head _ ih => exact ih
  | app _ _ _ ihf ihx =>
    simp only [Expr.room, cheft, List.map_append, heft_append] at ihf ihx ⊢
    omega
  | appOpen _ _ _ _ ihf ihx =>
    simp only [Expr.room, cheft, List.map_append, heft_append] at ihf ihx ⊢
    omega
  | @lam c k₀ k m ps pts e ts hne hp ht _ ih =>
    have a := lams_room q (ps.map (·.1)) e
    have b := pats_heft (q := q) (k := 1) (by omega) (fun x hx => (hp x hx).1.weight 0)
    have hl : weighAll q 1 (Pat.drawnList 0 (ps.map (·.1))) = weighAll q 1 ((ps.map (·.1)).map (·.drawn 0)) := by
      congr 1
      generalize ps.map (·.1) = l
      induction l with
      | nil => rfl
      | cons x l ih => simp only [Pat.drawnList, List.map_cons, ih]
    have hf := heft_flatten q (ps.map (·.2))
    rw [← ht] at hf
    simp only [cheft, List.cons_append, List.map_append, List.map_cons, heft_append, heft_cons] at ih ⊢
    omega
  | let_ _ _ ih =>
    simp only [Expr.room, cheft, List.cons_append, List.map_append, List.map_cons, heft_append, heft_cons] at ih ⊢
    omega
  | lit c k l => simp [Expr.room, cheft, heft_cons, heft_nil, Token.bulk] <;> omega
  | upper c k s => simp [Expr.room, Ident.text, cheft, heft_cons, heft_nil, Token.bulk] <;> omega
  | lower c k s => simp [Expr.room, Ident.text, cheft, heft_cons, heft_nil, Token.bulk] <;> omega
  | unit => simp only [Expr.room, Expr.roomList, cheft, List.map_cons, heft_cons]; omega
  | op c k₀ k₁ k s b =>
    cases b <;> simp only [Expr.room, cheft, List.map_cons, heft_cons, Token.bulk] <;> omega
  | @commas c k₀ k ks _ =>
    have := commas_weight q ks
    have h1 : Char.utf8Size '(' = 1 := rfl
    have h2 : utf8Len t!")" = 1 := rfl
    simp only [Expr.room, Ident.text, utf8Len_cons, utf8Len_append, cheft, List.cons_append, List.map_append,
      List.map_cons, heft_append, heft_cons, List.map_map, Function.comp_def, h1, h2]
    omega
  | grp _ ih =>
    simp only [Expr.room, cheft, List.cons_append, List.map_append, List.map_cons, heft_append, heft_cons] at ih ⊢
    omega
  | @tup c k₀ k m e ts xs _ _ _ ih ihs =>
    have := tupItems_weight ihs
    simp only [Expr.room, Expr.roomList, cheft, List.cons_append, List.map_append, List.map_cons, heft_append,
      heft_cons] at ih ⊢
    omega
  | @list c k₀ k xs _ _ ihs =>
    have := listItems_weight ihs
    simp only [Expr.room, cheft, List.cons_append, List.map_append, List.map_cons, heft_append, heft_cons]
    omega

/-! ### texts -/

omit [CharTables] in
theorem hex_length {n k : Nat} (hk : 0 < k) (h : n < 16 ^ k) : utf8Len (hexText n) ≤ k := by
  rw [Lexer.utf8Len_hex (List.all_eq_true.2 fun _ hc => hexText_mem hc)]
  exact (Nat.length_toDigits_le_iff (by decide) hk).2 h

theorem escape_length (a b : Bool) (c : Char) : utf8Len (escapeDebug a b c) ≤ 6 * c.utf8Size := by
  have hp := c.utf8Size_pos
  have h2 : ∀ d : Char, d.utf8Size ≤ 1 → utf8Len ['\\', d] ≤ 2 := by
    intro d hd
    have : Char.utf8Size '\\' = 1 := rfl
    simp only [utf8Len_cons, utf8Len_nil]
    omega
  have long : utf8Len (t!"\\u{" ++ hexText c.toNat ++ t!"}") ≤ 6 * c.utf8Size := by
    have e1 : utf8Len t!"\\u{" = 3 := rfl
    have e2 : utf8Len t!"}" = 1 := rfl
    simp only [utf8Len_append, e1, e2]
    have hv : c.val.toNat = c.toNat := rfl
    unfold Char.utf8Size
    simp only [UInt32.le_iff_toNat_le, hv]
    split
    · rename_i h
      have := hex_length (n := c.toNat) (k := 2) (by decide) (Nat.lt_of_le_of_lt (m := 0x7f) h (by decide))
      omega
    · split
      · rename_i h
        have := hex_length (n := c.toNat) (k := 3) (by decide)
          (Nat.lt_of_le_of_lt (m := 0x7ff) h (by decide))
        omega
      · split
        · rename_i h
          have := hex_length (n := c.toNat) (k := 4) (by decide)
            (Nat.lt_of_le_of_lt (m := 0xffff) h (by decide))
          omega
        · have hc : c.toNat < 0x110000 := by
            rcases c.valid with h | h
            · exact Nat.lt_trans h (by decide)
            · exact h.2
          have := hex_length (n := c.toNat) (k := 6) (by decide) (Nat.lt_trans hc (by decide))
          omega
  unfold escapeDebug
  repeat' split
  all_goals first
    | exact long
    | exact Nat.le_trans (h2 _ (by decide)) (by omega)
    | (simp only [utf8Len_cons, utf8Len_nil]; omega)

theorem debugStr_length (s : Text) : utf8Len (debugStr s) ≤ 2 + 6 * utf8Len s := by
  have h1 : Char.utf8Size '"' = 1 := rfl
  have : utf8Len (s.flatMap (escapeDebug false true)) ≤ 6 * utf8Len s := by
    induction s with
    | nil => simp
    | cons c s ih =>
      have := escape_length false true c
      simp only [List.flatMap_cons, utf8Len_append, utf8Len_cons]
      omega
  simp only [debugStr, utf8Len_cons, utf8Len_append, utf8Len_nil, h1]
  omega

omit [CharTables] in
theorem digits_ascii {ds : Text} (h : ds.all isDigit10 = true) : utf8Len ds = ds.length := by
  apply Lexer.utf8Len_hex
  rw [List.all_eq_true] at h ⊢
  intro c hc
  have := h c hc
  simp only [isDigit10, Bool.and_eq_true, decide_eq_true_eq] at this
  simp [isHexDigit, this]

omit [CharTables] in
theorem dec_length {ds : Text} (hn : ds ≠ []) (h : ds.all isDigit10 = true) :
    utf8Len (decText (decValue ds)) ≤ ds.length := by
  have key : ∀ (ds : Text) (a : Nat), ds.all isDigit10 = true →
      ds.foldl (fun a c => a * 10 + (c.toNat - '0'.toNat)) a < (a + 1) * 10 ^ ds.length := by
    intro ds
    induction ds with
    | nil => intro a _; simp
    | cons c ds ih =>
      intro a h
      simp only [List.all_cons, Bool.and_eq_true] at h
      have hc : c.toNat - '0'.toNat ≤ 9 := by
        have : 48 ≤ c.toNat ∧ c.toNat ≤ 57 := by simpa [isDigit10, toNat_le_iff] using h.1
        have e : '0'.toNat = 48 := rfl
        omega
      refine Nat.lt_of_lt_of_le (ih _ h.2) ?_
      rw [List.length_cons, Nat.pow_succ, Nat.mul_comm (10 ^ ds.length), ← Nat.mul_assoc]
      exact Nat.mul_le_mul_right _ (by dsimp only; omega)
  rw [digits_ascii (decText_digits _).1]
  refine (Nat.length_toDigits_le_iff (by decide) (List.length_pos_iff.2 hn)).2 ?_
  have := key ds 0 h
  simpa [decValue] using this

omit [CharTables] in
theorem StrBody.length {w s : Text} (h : StrBody w s) : utf8Len s ≤ utf8Len w := by
  have h1 : Char.utf8Size '\\' = 1 := rfl
  have h2 : Char.utf8Size '\n' = 1 := rfl
  induction h with
  | nil => exact Nat.le_refl _
  | char _ _ _ ih => simp only [utf8Len_cons]; omega
  | @escape c d w s hc _ ih =>
    have : d.utf8Size = 1 := by
      simp only [escapes, List.mem_cons, List.not_mem_nil, Prod.mk.injEq, or_false] at hc
      rcases hc with ⟨-, rfl⟩ | ⟨-, rfl⟩ | ⟨-, rfl⟩ | ⟨-, rfl⟩ | ⟨-, rfl⟩ | ⟨-, rfl⟩ | ⟨-, rfl⟩ | ⟨-, rfl⟩ <;>
        rfl
    simp only [utf8Len_cons, h1]
    omega
  | hidden _ _ _ ih => simp only [utf8Len_cons, utf8Len_append]; omega
  | other _ _ _ ih => simp only [utf8Len_cons]; omega

theorem debugChar_length (c : Char) : utf8Len (debugChar c) ≤ 2 + 6 * c.utf8Size := by
  have h1 : Char.utf8Size '\'' = 1 := rfl
  have := escape_length true false c
  simp only [debugChar, utf8Len_cons, utf8Len_append, utf8Len_nil, h1]
  omega

theorem debugChar_short (c : Char) : utf8Len (debugChar c) ≤ 12 := by
  have h1 : Char.utf8Size '\'' = 1 := rfl
  have h4 := c.utf8Size_le_four
  have h2 : ∀ d : Char, d.utf8Size ≤ 1 → utf8Len ['\\', d] ≤ 2 := by
    intro d hd
    have : Char.utf8Size '\\' = 1 := rfl
    simp only [utf8Len_cons, utf8Len_nil]
    omega
  have long : utf8Len (t!"\\u{" ++ hexText c.toNat ++ t!"}") ≤ 10 := by
    have e1 : utf8Len t!"\\u{" = 3 := rfl
    have e2 : utf8Len t!"}" = 1 := rfl
    have hc : c.toNat < 0x110000 := by
      rcases c.valid with h | h
      · exact Nat.lt_trans h (by decide)
      · exact h.2
    have := hex_length (n := c.toNat) (k := 6) (by decide) (Nat.lt_trans hc (by decide))
    simp only [utf8Len_append, e1, e2]
    omega
  have : utf8Len (escapeDebug true false c) ≤ 10 := by
    unfold escapeDebug
    repeat' split
    all_goals first
      | exact long
      | exact Nat.le_trans (h2 _ (by decide)) (by omega)
      | (simp only [utf8Len_cons, utf8Len_nil]; omega)
  simp only [debugChar, utf8Len_cons, utf8Len_append, utf8Len_nil, h1]
  omega

omit [CharTables] in
theorem Found.bytes {src pre x y : Text} (h : Found src pre x y) : utf8Len y = utf8Len x := by
  obtain ⟨a, b, -, -, h⟩ := h
  exact h

theorem TokenIn.bulk {src pre : Text} {t : Token} {w rest : Text} (h : TokenIn src pre t w rest) :
    t.bulk + 5 ≤ 6 * utf8Len w ∧ 1 ≤ utf8Len w := by
  have q1 : Char.utf8Size '\'' = 1 := rfl
  have q2 : Char.utf8Size '`' = 1 := rfl
  have q3 : Char.utf8Size '\\' = 1 := rfl
  have q4 : Char.utf8Size '"' = 1 := rfl
  cases h with
  | @punct _ c _ h =>
    have hc := c.utf8Size_pos
    simp only [punctuation, List.mem_cons, List.not_mem_nil, Prod.mk.injEq, or_false] at h
    simp only [utf8Len_cons, utf8Len_nil]
    rcases h with ⟨rfl, -⟩ | ⟨rfl, -⟩ | ⟨rfl, -⟩ | ⟨rfl, -⟩ | ⟨rfl, -⟩ | ⟨rfl, -⟩ | ⟨rfl, -⟩ | ⟨rfl, -⟩ <;>
      simp only [Token.bulk] <;> omega
  | @word _ c x y _ _ _ _ hf h =>
    have hc := c.utf8Size_pos
    have hy := hf.bytes
    rcases h with h | ⟨-, -, rfl⟩
    · simp only [keywordTokens, List.mem_cons, List.not_mem_nil, Prod.mk.injEq, or_false] at h
      simp only [utf8Len_cons]
      rcases h with ⟨rfl, -⟩ | ⟨rfl, -⟩ | ⟨rfl, -⟩ | ⟨rfl, -⟩ | ⟨rfl, -⟩ | ⟨rfl, -⟩ <;>
        simp only [Token.bulk] <;> omega
    · simp only [Token.bulk, utf8Len_cons] at hy ⊢
      omega
  | @op _ c x y _ _ _ _ hf h =>
    have hc := c.utf8Size_pos
    have hy := hf.bytes
    rcases h with h | ⟨-, -, rfl⟩
    · simp only [reservedSpellings, List.mem_cons, List.not_mem_nil, Prod.mk.injEq, or_false] at h
      simp only [utf8Len_cons]
      rcases h with ⟨rfl, -⟩ | ⟨rfl, -⟩ | ⟨rfl, -⟩ | ⟨rfl, -⟩ | ⟨rfl, -⟩ | ⟨rfl, -⟩ | ⟨rfl, -⟩ | ⟨rfl, -⟩ |
        ⟨rfl, -⟩ <;> simp only [Token.bulk] <;> omega
    · simp only [Token.bulk, utf8Len_cons] at hy ⊢
      omega
  | @backticks x y _ hx hf =>
    have hy := hf.bytes
    obtain ⟨c, z, rfl, -, -⟩ := hx
    have hc := c.utf8Size_pos
    simp only [Token.bulk, utf8Len_cons, utf8Len_append, utf8Len_nil, q2] at hy ⊢
    omega
  | @apostrophe x y _ hx _ _ hf =>
    have hy := hf.bytes
    obtain ⟨c, z, rfl, -, -⟩ := hx
    have hc := c.utf8Size_pos
    simp only [Token.bulk, utf8Len_cons, q1] at hy ⊢
    omega
  | @blank c w y _ _ _ hf =>
    have hy := hf.bytes
    have hc := c.utf8Size_pos
    simp only [Token.bulk, utf8Len_cons, utf8Len_nil, q1] at hy ⊢
    omega
  | @int _ y ds _ hx hd _ hf hs _ =>
    have hy := hf.bytes
    obtain ⟨hs, hn, ha⟩ := hs
    have h1 := dec_length hn ha
    rw [← digits_ascii ha] at h1
    have h2 : utf8Len ds ≤ utf8Len y := by
      rcases hs with rfl | rfl
      · exact Nat.le_refl _
      · simp only [utf8Len_cons]; omega
    have h3 : 0 < utf8Len w := Nat.pos_of_ne_zero fun h => hx ((utf8Len_eq_zero w).1 h)
    simp only [Token.bulk, Literal.text]
    omega
  | @char c _ _ =>
    have hc := c.utf8Size_pos
    have := debugChar_length c
    simp only [Token.bulk, Literal.text, utf8Len_cons, utf8Len_nil, q1]
    omega
  | @charEscape c d _ hc =>
    have h1 := c.utf8Size_pos
    have : d.utf8Size = 1 := by
      simp only [escapes, List.mem_cons, List.not_mem_nil, Prod.mk.injEq, or_false] at hc
      rcases hc with ⟨-, rfl⟩ | ⟨-, rfl⟩ | ⟨-, rfl⟩ | ⟨-, rfl⟩ | ⟨-, rfl⟩ | ⟨-, rfl⟩ | ⟨-, rfl⟩ | ⟨-, rfl⟩ <;>
        rfl
    have := debugChar_length d
    simp only [Token.bulk, Literal.text, utf8Len_cons, utf8Len_nil, q1, q3]
    omega
  | @charCode u c plus x y ds l _ hu _ hx _ _ hf _ _ _ =>
    have h1 := u.utf8Size_pos
    have := debugChar_short c
    have h3 : 0 < utf8Len x := Nat.pos_of_ne_zero fun h => hx ((utf8Len_eq_zero x).1 h)
    simp only [Token.bulk, Literal.text, utf8Len_cons, utf8Len_append, q1, q3]
    omega
  | @str w s _ h =>
    have := debugStr_length s
    have := h.length
    simp only [Token.bulk, Literal.text, utf8Len_cons, utf8Len_append, utf8Len_nil, q4]
    omega

theorem Reading.weight {q : Nat} (hq : 1 ≤ q) {src pre s : Text} {cs : List CTok} (h : Reading src pre s cs) :
    cheft q cs ≤ (2 * q + 4) * utf8Len s := by
  induction h with
  | nil => exact Nat.zero_le _
  | space _ _ ih => exact Nat.le_trans ih (Nat.mul_le_mul_left _ (by simp))
  | line _ _ _ _ _ _ _ ih => exact Nat.le_trans ih (Nat.mul_le_mul_left _ (by simp only [utf8Len_append]; omega))
  | block _ _ _ _ _ _ ih => exact Nat.le_trans ih (Nat.mul_le_mul_left _ (by simp only [utf8Len_append]; omega))
  | @token t pre w s cs ht _ ih =>
    obtain ⟨h1, h2⟩ := ht.bulk
    have h3 : (2 * q - 2) * 1 ≤ (2 * q - 2) * utf8Len w := Nat.mul_le_mul_left _ h2
    have h4 : (2 * q + 4) * utf8Len w = (2 * q - 2) * utf8Len w + 6 * utf8Len w := by
      rw [← Nat.add_mul]; congr 1; omega
    simp only [cheft, List.map_cons, heft_cons, utf8Len_append, Nat.mul_add] at ih ⊢
    omega

end
end Pemdas
