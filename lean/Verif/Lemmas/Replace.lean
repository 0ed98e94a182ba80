import Verif.Spec.Replace
import Verif.Lemmas.Resolver
import Verif.Lemmas.ResolverMain
import Verif.Lemmas.ResolverMore
/-
Lemmas for C184.
-/
namespace Pemdas
open OpTree

theorem replacedList_eq (σ : Ident → Expr) (es : List Expr) :
    Expr.replacedList σ es = es.map (Expr.replaced σ) := by
  induction es with
  | nil => simp [Expr.replacedList]
  | cons e es ih => simp [Expr.replacedList, ih]

theorem replaced_rootOp {σ : Ident → Expr} (hσ : ∀ i, (σ i).NonBin) (e : Expr) : (e.replaced σ).rootOp = e.rootOp := by
  cases e with
  | var i => exact hσ i
  | _ => simp [Expr.replaced, Expr.rootOp]

/-! ### tokens -/

mutual
/-- Tokens with names replaced. -/
def Tok.replaced (f : Ident → List Tok) : Tok → List Tok
  | .op o => [.op o]
  | .lit l => [.lit l]
  | .var i => f i
  | .app a b => [.app (Tok.replacedList f a) (Tok.replacedList f b)]
  | .lam p b => [.lam p (Tok.replacedList f b)]
  | .grp b => [.grp (Tok.replacedList f b)]
  | .neg b => [.neg (Tok.replacedList f b)]
  | .tup es => [.tup (Tok.replacedLists f es)]
  | .list es => [.list (Tok.replacedLists f es)]
  | .let_ d b => [.let_ d (Tok.replacedList f b)]
/-- The same for tokens in a row. -/
def Tok.replacedList (f : Ident → List Tok) : List Tok → List Tok
  | [] => []
  | t :: ts => t.replaced f ++ Tok.replacedList f ts
/-- The same for elements. -/
def Tok.replacedLists (f : Ident → List Tok) : List (List Tok) → List (List Tok)
  | [] => []
  | t :: ts => Tok.replacedList f t :: Tok.replacedLists f ts
end

theorem tok_replacedList_append (f : Ident → List Tok) (a b : List Tok) :
    Tok.replacedList f (a ++ b) = Tok.replacedList f a ++ Tok.replacedList f b := by
  induction a with
  | nil => simp [Tok.replacedList]
  | cons t a ih => simp [Tok.replacedList, ih]

mutual
theorem toks_replaced (σ : Ident → Expr) : ∀ e : Expr,
    (e.replaced σ).toks = Tok.replacedList (fun i => (σ i).toks) e.toks
  | .lit _ => by simp [Expr.replaced, Expr.toks, Tok.replacedList, Tok.replaced]
  | .var _ => by simp [Expr.replaced, Expr.toks, Tok.replacedList, Tok.replaced]
  | .app f x => by simp [Expr.replaced, Expr.toks, Tok.replacedList, Tok.replaced, toks_replaced σ f, toks_replaced σ x]
  | .bin l op r => by
    simp [Expr.replaced, Expr.toks, tok_replacedList_append, Tok.replacedList, Tok.replaced, toks_replaced σ l,
      toks_replaced σ r]
  | .lam _ b => by simp [Expr.replaced, Expr.toks, Tok.replacedList, Tok.replaced, toks_replaced σ b]
  | .grp b => by simp [Expr.replaced, Expr.toks, Tok.replacedList, Tok.replaced, toks_replaced σ b]
  | .neg b => by simp [Expr.replaced, Expr.toks, Tok.replacedList, Tok.replaced, toks_replaced σ b]
  | .tup es => by simp [Expr.replaced, Expr.toks, Tok.replacedList, Tok.replaced, toksList_replaced σ es]
  | .list es => by simp [Expr.replaced, Expr.toks, Tok.replacedList, Tok.replaced, toksList_replaced σ es]
  | .let_ _ b => by simp [Expr.replaced, Expr.toks, Tok.replacedList, Tok.replaced, toks_replaced σ b]
theorem toksList_replaced (σ : Ident → Expr) : ∀ es : List Expr,
    Expr.toksList (Expr.replacedList σ es) = Tok.replacedLists (fun i => (σ i).toks) (Expr.toksList es)
  | [] => by simp [Expr.replacedList, Expr.toksList, Tok.replacedLists]
  | e :: es => by
    simp [Expr.replacedList, Expr.toksList, Tok.replacedLists, toks_replaced σ e, toksList_replaced σ es]
end

/-! ### shapes -/

mutual
theorem rightNested_replaced {σ : Ident → Expr} (hσ : ∀ i, (σ i).NonBin) (hs : ∀ i, (σ i).RightNested) :
    ∀ e : Expr, e.RightNested → (e.replaced σ).RightNested
  | .lit _, h => h
  | .var i, _ => hs i
  | .app f x, h => ⟨rightNested_replaced hσ hs f h.1, rightNested_replaced hσ hs x h.2⟩
  | .bin l _ r, h => ⟨(replaced_rootOp hσ l).trans h.1, rightNested_replaced hσ hs l h.2.1,
      rightNested_replaced hσ hs r h.2.2⟩
  | .lam _ b, h => rightNested_replaced hσ hs b h
  | .grp b, h => rightNested_replaced hσ hs b h
  | .neg b, h => rightNested_replaced hσ hs b h
  | .tup es, h => rightNestedList_replaced hσ hs es h
  | .list es, h => rightNestedList_replaced hσ hs es h
  | .let_ _ b, h => rightNested_replaced hσ hs b h
theorem rightNestedList_replaced {σ : Ident → Expr} (hσ : ∀ i, (σ i).NonBin) (hs : ∀ i, (σ i).RightNested) :
    ∀ es : List Expr, Expr.RightNestedList es → Expr.RightNestedList (Expr.replacedList σ es)
  | [], _ => trivial
  | e :: es, h => ⟨rightNested_replaced hσ hs e h.1, rightNestedList_replaced hσ hs es h.2⟩
end

mutual
theorem letsDistinct_replaced {σ : Ident → Expr} (hs : ∀ i, (σ i).LetsDistinct) :
    ∀ e : Expr, e.LetsDistinct → (e.replaced σ).LetsDistinct
  | .lit _, h => h
  | .var i, _ => hs i
  | .app f x, h => ⟨letsDistinct_replaced hs f h.1, letsDistinct_replaced hs x h.2⟩
  | .bin l _ r, h => ⟨letsDistinct_replaced hs l h.1, letsDistinct_replaced hs r h.2⟩
  | .lam _ b, h => letsDistinct_replaced hs b h
  | .grp b, h => letsDistinct_replaced hs b h
  | .neg b, h => letsDistinct_replaced hs b h
  | .tup es, h => letsDistinctList_replaced hs es h
  | .list es, h => letsDistinctList_replaced hs es h
  | .let_ _ b, h => ⟨h.1, letsDistinct_replaced hs b h.2⟩
theorem letsDistinctList_replaced {σ : Ident → Expr} (hs : ∀ i, (σ i).LetsDistinct) :
    ∀ es : List Expr, Expr.LetsDistinctList es → Expr.LetsDistinctList (Expr.replacedList σ es)
  | [], _ => trivial
  | e :: es, h => ⟨letsDistinct_replaced hs e h.1, letsDistinctList_replaced hs es h.2⟩
end

mutual
theorem grouped_replaced {τ : Ident → Expr} (hτ : ∀ i, (τ i).NonBin) : ∀ (e : Expr) (fx : Env), e.Grouped fx →
    (∀ i fx', SubAt fx e fx' (.var i) → (τ i).Grouped fx') → (e.replaced τ).Grouped fx
  | .lit _, _, _, _ => trivial
  | .var i, fx, _, h => h i fx .here
  | .app f x, fx, g, h => ⟨grouped_replaced hτ f fx g.1 fun i fx' k => h i fx' (.appL k),
      grouped_replaced hτ x fx g.2 fun i fx' k => h i fx' (.appR k)⟩
  | .bin l op r, fx, g, h => ⟨grouped_replaced hτ l fx g.1 fun i fx' k => h i fx' (.binL k),
      grouped_replaced hτ r fx g.2.1 fun i fx' k => h i fx' (.binR k),
      by rw [replaced_rootOp hτ]; exact g.2.2.1, by rw [replaced_rootOp hτ]; exact g.2.2.2⟩
  | .lam _ b, fx, g, h => grouped_replaced hτ b fx g fun i fx' k => h i fx' (.lam k)
  | .grp b, fx, g, h => grouped_replaced hτ b fx g fun i fx' k => h i fx' (.grp k)
  | .neg b, fx, g, h => grouped_replaced hτ b fx g fun i fx' k => h i fx' (.neg k)
  | .tup es, fx, g, h => groupedList_replaced hτ es fx g fun x hx i fx' k => h i fx' (.tup hx k)
  | .list es, fx, g, h => groupedList_replaced hτ es fx g fun x hx i fx' k => h i fx' (.list hx k)
  | .let_ d b, fx, g, h => grouped_replaced hτ b (fx.extend d) g fun i fx' k => h i fx' (.let_ k)
theorem groupedList_replaced {τ : Ident → Expr} (hτ : ∀ i, (τ i).NonBin) : ∀ (es : List Expr) (fx : Env),
    Expr.GroupedList fx es → (∀ x ∈ es, ∀ i fx', SubAt fx x fx' (.var i) → (τ i).Grouped fx') →
    Expr.GroupedList fx (Expr.replacedList τ es)
  | [], _, _, _ => trivial
  | e :: es, fx, g, h => ⟨grouped_replaced hτ e fx g.1 (h e List.mem_cons_self),
      groupedList_replaced hτ es fx g.2 fun x hx => h x (List.mem_cons_of_mem _ hx)⟩
end

/-! ### places -/

theorem subAt_toExpr (t : OpTree) {fx fx' : Env} {i : Ident} : SubAt fx t.toExpr fx' (.var i) ↔
    ∃ x ∈ t.operands, SubAt fx x fx' (.var i) := by
  induction t with
  | leaf e => simp [toExpr, operands]
  | node l op r ihl ihr =>
    simp only [toExpr, operands, List.mem_append]
    constructor
    · intro h
      cases h with
      | binL h => obtain ⟨x, h1, h2⟩ := ihl.1 h; exact ⟨x, .inl h1, h2⟩
      | binR h => obtain ⟨x, h1, h2⟩ := ihr.1 h; exact ⟨x, .inr h1, h2⟩
    · rintro ⟨x, h1 | h1, h2⟩
      · exact .binL (ihl.2 ⟨x, h1, h2⟩)
      · exact .binR (ihr.2 ⟨x, h1, h2⟩)

theorem subAt_var_chain (e : Expr) {fx fx' : Env} {i : Ident} : SubAt fx e fx' (.var i) ↔
    ∃ x ∈ e.chainOperands, SubAt fx x fx' (.var i) := by
  fun_induction Expr.chainOperands e with
  | case1 l op r ih =>
    simp only [List.mem_cons]
    constructor
    · intro h
      cases h with
      | binL h => exact ⟨l, .inl rfl, h⟩
      | binR h => obtain ⟨x, h1, h2⟩ := ih.1 h; exact ⟨x, .inr h1, h2⟩
    · rintro ⟨x, rfl | h1, h2⟩
      · exact .binL h2
      · exact .binR (ih.2 ⟨x, h1, h2⟩)
  | case2 e h => simp

/-- A name has the same places, with the same fixities in scope, in both expressions. -/
def Placed₂ (e e' : Expr) : Prop := ∀ fx fx' i, SubAt fx e' fx' (.var i) ↔ SubAt fx e fx' (.var i)

theorem thread_placed {r es r' es'} (h : Resolver.Thread (fun _ e _ e' => Placed₂ e e') r es r' es') (fx fx' i) :
    (∃ x ∈ es', SubAt fx x fx' (.var i)) ↔ ∃ x ∈ es, SubAt fx x fx' (.var i) := by
  induction h with
  | nil => exact Iff.rfl
  | cons hp _ ih =>
    simp only [List.mem_cons, or_and_right, exists_or, exists_eq_left, ih]
    rw [hp fx fx' i]

theorem visit_placed : ∀ e r r' e', Resolver.visit r e = .ok (r', e') → Placed₂ e e' := by
  apply Resolver.visit_induct (P := fun _ e _ e' => Placed₂ e e')
  case bin =>
    intro r a op b a₁ op₁ b₁ r₁ a₂ r₂ b₂ hr h1 h2 fx fx' i
    obtain ⟨t, ht, hg, _⟩ := rewrite_ok_grouping hr
    rw [subAt_var_chain (.bin a op b), ← hg.1, ← subAt_toExpr, ht]
    constructor
    · intro h
      cases h with
      | binL h => exact .binL ((h1 _ _ _).1 h)
      | binR h => exact .binR ((h2 _ _ _).1 h)
    · intro h
      cases h with
      | binL h => exact .binL ((h1 _ _ _).2 h)
      | binR h => exact .binR ((h2 _ _ _).2 h)
  case tup =>
    intro r es r₁ es' h fx fx' i
    have := thread_placed h fx fx' i
    constructor
    · intro h
      cases h with
      | tup hx h => obtain ⟨y, h1, h2⟩ := this.1 ⟨_, hx, h⟩; exact .tup h1 h2
    · intro h
      cases h with
      | tup hx h => obtain ⟨y, h1, h2⟩ := this.2 ⟨_, hx, h⟩; exact .tup h1 h2
  case list =>
    intro r es r₁ es' h fx fx' i
    have := thread_placed h fx fx' i
    constructor
    · intro h
      cases h with
      | list hx h => obtain ⟨y, h1, h2⟩ := this.1 ⟨_, hx, h⟩; exact .list h1 h2
    · intro h
      cases h with
      | list hx h => obtain ⟨y, h1, h2⟩ := this.2 ⟨_, hx, h⟩; exact .list h1 h2
  case lit => exact fun _ _ _ _ _ => Iff.rfl
  case var => exact fun _ _ _ _ _ => Iff.rfl
  case bad => exact fun _ _ _ _ _ _ _ _ _ => Iff.rfl
  case app =>
    intro _ _ _ _ _ _ _ h1 h2 fx fx' i
    constructor
    · intro h
      cases h with
      | appL h => exact .appL ((h1 _ _ _).1 h)
      | appR h => exact .appR ((h2 _ _ _).1 h)
    · intro h
      cases h with
      | appL h => exact .appL ((h1 _ _ _).2 h)
      | appR h => exact .appR ((h2 _ _ _).2 h)
  case lam =>
    intro _ _ _ _ _ h1 fx fx' i
    exact ⟨fun h => by cases h with | lam h => exact .lam ((h1 _ _ _).1 h),
      fun h => by cases h with | lam h => exact .lam ((h1 _ _ _).2 h)⟩
  case grp =>
    intro _ _ _ _ h1 fx fx' i
    exact ⟨fun h => by cases h with | grp h => exact .grp ((h1 _ _ _).1 h),
      fun h => by cases h with | grp h => exact .grp ((h1 _ _ _).2 h)⟩
  case neg =>
    intro _ _ _ _ h1 fx fx' i
    exact ⟨fun h => by cases h with | neg h => exact .neg ((h1 _ _ _).1 h),
      fun h => by cases h with | neg h => exact .neg ((h1 _ _ _).2 h)⟩
  case let_ =>
    intro _ _ _ _ _ h1 fx fx' i
    exact ⟨fun h => by cases h with | let_ h => exact .let_ ((h1 _ _ _).1 h),
      fun h => by cases h with | let_ h => exact .let_ ((h1 _ _ _).2 h)⟩

/-! ### conflicts -/

theorem chainOperators_replaced {σ : Ident → Expr} (hσ : ∀ i, (σ i).NonBin) (e : Expr) :
    (e.replaced σ).chainOperators = e.chainOperators := by
  fun_induction Expr.chainOperators e with
  | case1 l op r ih => simp [Expr.replaced, Expr.chainOperators, ih]
  | case2 e h =>
    have : (e.replaced σ).rootOp = none := by
      rw [replaced_rootOp hσ]
      cases e with
      | bin l op r => exact absurd rfl (h l op r)
      | _ => rfl
    cases hr : e.replaced σ with
    | bin l op r => rw [hr] at this; cases this
    | _ => rfl

theorem subAt_replaced (σ : Ident → Expr) {fx fx' : Env} {e e' : Expr} (h : SubAt fx e fx' e') :
    SubAt fx (e.replaced σ) fx' (e'.replaced σ) := by
  induction h with
  | here => exact .here
  | appL _ ih => exact .appL ih
  | appR _ ih => exact .appR ih
  | binL _ ih => exact .binL ih
  | binR _ ih => exact .binR ih
  | lam _ ih => exact .lam ih
  | grp _ ih => exact .grp ih
  | neg _ ih => exact .neg ih
  | tup hx _ ih => exact .tup (by rw [replacedList_eq]; exact List.mem_map_of_mem hx) ih
  | list hx _ ih => exact .list (by rw [replacedList_eq]; exact List.mem_map_of_mem hx) ih
  | let_ _ ih => exact .let_ ih

/-- A part of the expression with names replaced is a part with names replaced, or a part of a replacement. -/
def Parted (σ : Ident → Expr) (fx : Env) (e : Expr) (fx' : Env) (y : Expr) : Prop :=
  (∃ e', SubAt fx e fx' e' ∧ y = e'.replaced σ) ∨ ∃ i fx₁, SubAt fx e fx₁ (.var i) ∧ SubAt fx₁ (σ i) fx' y

theorem Parted.up {σ : Ident → Expr} {fx fx₀ fx' : Env} {e e₀ y : Expr} (h : SubAt fx₀ e₀ fx e)
    (hp : Parted σ fx e fx' y) : Parted σ fx₀ e₀ fx' y := by
  rcases hp with ⟨e', h1, h2⟩ | ⟨i, fx₁, h1, h2⟩
  · exact .inl ⟨e', Resolver.SubAt_trans h h1, h2⟩
  · exact .inr ⟨i, fx₁, Resolver.SubAt_trans h h1, h2⟩

mutual
theorem parted (σ : Ident → Expr) : ∀ (e : Expr) (fx fx' : Env) (y : Expr), SubAt fx (e.replaced σ) fx' y →
    Parted σ fx e fx' y
  | .lit l, _, _, _, h => by
    cases h with
    | here => exact .inl ⟨_, .here, rfl⟩
  | .var i, fx, _, _, h => .inr ⟨i, fx, .here, h⟩
  | .app f x, fx, fx', y, h => by
    cases h with
    | here => exact .inl ⟨_, .here, rfl⟩
    | appL h => exact (parted σ f fx fx' y h).up (.appL .here)
    | appR h => exact (parted σ x fx fx' y h).up (.appR .here)
  | .bin l op r, fx, fx', y, h => by
    cases h with
    | here => exact .inl ⟨_, .here, rfl⟩
    | binL h => exact (parted σ l fx fx' y h).up (.binL .here)
    | binR h => exact (parted σ r fx fx' y h).up (.binR .here)
  | .lam _ b, fx, fx', y, h => by
    cases h with
    | here => exact .inl ⟨_, .here, rfl⟩
    | lam h => exact (parted σ b fx fx' y h).up (.lam .here)
  | .grp b, fx, fx', y, h => by
    cases h with
    | here => exact .inl ⟨_, .here, rfl⟩
    | grp h => exact (parted σ b fx fx' y h).up (.grp .here)
  | .neg b, fx, fx', y, h => by
    cases h with
    | here => exact .inl ⟨_, .here, rfl⟩
    | neg h => exact (parted σ b fx fx' y h).up (.neg .here)
  | .let_ d b, fx, fx', y, h => by
    cases h with
    | here => exact .inl ⟨_, .here, rfl⟩
    | let_ h => exact (parted σ b _ fx' y h).up (.let_ .here)
  | .tup es, fx, fx', y, h => by
    cases h with
    | here => exact .inl ⟨_, .here, rfl⟩
    | tup hx h =>
      obtain ⟨e, he, hp⟩ := partedList σ es fx fx' y ⟨_, hx, h⟩
      exact hp.up (.tup he .here)
  | .list es, fx, fx', y, h => by
    cases h with
    | here => exact .inl ⟨_, .here, rfl⟩
    | list hx h =>
      obtain ⟨e, he, hp⟩ := partedList σ es fx fx' y ⟨_, hx, h⟩
      exact hp.up (.list he .here)
theorem partedList (σ : Ident → Expr) : ∀ (es : List Expr) (fx fx' : Env) (y : Expr),
    (∃ x ∈ Expr.replacedList σ es, SubAt fx x fx' y) → ∃ e ∈ es, Parted σ fx e fx' y
  | [], _, _, _, h => by obtain ⟨x, hx, -⟩ := h; cases hx
  | e :: es, fx, fx', y, h => by
    obtain ⟨x, hx, h⟩ := h
    rcases List.mem_cons.1 hx with rfl | hx
    · exact ⟨e, List.mem_cons_self, parted σ e fx fx' y h⟩
    · obtain ⟨e', h1, h2⟩ := partedList σ es fx fx' y ⟨x, hx, h⟩
      exact ⟨e', List.mem_cons_of_mem _ h1, h2⟩
end

theorem conflict_replaced {σ : Ident → Expr} (hσ : ∀ i, (σ i).NonBin) (fx : Env) (e : Expr) (p c) :
    Conflict fx (e.replaced σ) p c ↔
      Conflict fx e p c ∨ ∃ i fx', SubAt fx e fx' (.var i) ∧ Conflict fx' (σ i) p c := by
  constructor
  · rintro ⟨fx', y, h, h1, h2, h3⟩
    rcases parted σ e fx fx' y h with ⟨e', h4, rfl⟩ | ⟨i, fx₁, h4, h5⟩
    · rw [chainOperators_replaced hσ] at h3
      exact .inl ⟨fx', e', h4, h1, h2, h3⟩
    · exact .inr ⟨i, fx₁, h4, fx', y, h5, h1, h2, h3⟩
  · rintro (⟨fx', e', h, h1, h2, h3⟩ | ⟨i, fx₁, h, fx', y, h', h1, h2, h3⟩)
    · exact ⟨fx', _, subAt_replaced σ h, h1, h2, by rw [chainOperators_replaced hσ]; exact h3⟩
    · exact ⟨fx', y, Resolver.SubAt_trans (subAt_replaced σ h) h', h1, h2, h3⟩

/-! ### operators used -/

theorem thread_usesOp {o : Infix} {r es r' es'} (h : Resolver.Thread (fun _ e _ e' => UsesOp o e' → UsesOp o e) r es r' es') :
    (∃ x ∈ es', UsesOp o x) → ∃ x ∈ es, UsesOp o x := by
  induction h with
  | nil => exact id
  | cons hp _ ih =>
    simp only [List.mem_cons, or_and_right, exists_or, exists_eq_left]
    exact fun h => h.elim (fun h => .inl (hp h)) fun h => .inr (ih h)

theorem visit_usesOp (o : Infix) : ∀ e r r' e', Resolver.visit r e = .ok (r', e') → UsesOp o e' → UsesOp o e := by
  apply Resolver.visit_induct (P := fun _ e _ e' => UsesOp o e' → UsesOp o e)
  case bin =>
    intro r a op b a₁ op₁ b₁ r₁ a₂ r₂ b₂ hr h1 h2 h
    rw [← Resolver.rewrite_usesOp hr]
    cases h with
    | here => exact .here
    | binL h => exact .binL (h1 h)
    | binR h => exact .binR (h2 h)
  case tup =>
    intro r es r₁ es' ht h
    cases h with
    | tup hx h => obtain ⟨y, h1, h2⟩ := thread_usesOp ht ⟨_, hx, h⟩; exact .tup h1 h2
  case list =>
    intro r es r₁ es' ht h
    cases h with
    | list hx h => obtain ⟨y, h1, h2⟩ := thread_usesOp ht ⟨_, hx, h⟩; exact .list h1 h2
  case lit => exact fun _ _ => id
  case var => exact fun _ _ => id
  case bad => exact fun _ _ _ _ _ _ => id
  case app =>
    intro _ _ _ _ _ _ _ h1 h2 h
    cases h with
    | appL h => exact .appL (h1 h)
    | appR h => exact .appR (h2 h)
  case lam => exact fun _ _ _ _ _ h1 h => by cases h with | lam h => exact .lam (h1 h)
  case grp => exact fun _ _ _ _ h1 h => by cases h with | grp h => exact .grp (h1 h)
  case neg => exact fun _ _ _ _ h1 h => by cases h with | neg h => exact .neg (h1 h)
  case let_ => exact fun _ _ _ _ _ h1 h => by cases h with | let_ h => exact .let_ (h1 h)

theorem rootOp_usesOp {e : Expr} {o : Infix} (h : e.rootOp = some o) : UsesOp o e := by
  cases e with
  | bin l op r => cases h; exact .here
  | _ => cases h

mutual
theorem grouped_agree : ∀ (e : Expr) (fx fx' : Env), (∀ o, UsesOp o e → fx o = fx' o) → e.Grouped fx → e.Grouped fx'
  | .lit _, _, _, _, _ => trivial
  | .var _, _, _, _, _ => trivial
  | .app f x, fx, fx', h, g => ⟨grouped_agree f fx fx' (fun o k => h o (.appL k)) g.1,
      grouped_agree x fx fx' (fun o k => h o (.appR k)) g.2⟩
  | .bin l op r, fx, fx', h, g => ⟨grouped_agree l fx fx' (fun o k => h o (.binL k)) g.1,
      grouped_agree r fx fx' (fun o k => h o (.binR k)) g.2.1,
      fun o ho => by rw [← h o (.binL (rootOp_usesOp ho)), ← h op .here]; exact g.2.2.1 o ho,
      fun o ho => by rw [← h o (.binR (rootOp_usesOp ho)), ← h op .here]; exact g.2.2.2 o ho⟩
  | .lam _ b, fx, fx', h, g => grouped_agree b fx fx' (fun o k => h o (.lam k)) g
  | .grp b, fx, fx', h, g => grouped_agree b fx fx' (fun o k => h o (.grp k)) g
  | .neg b, fx, fx', h, g => grouped_agree b fx fx' (fun o k => h o (.neg k)) g
  | .tup es, fx, fx', h, g => groupedList_agree es fx fx' (fun x hx o k => h o (.tup hx k)) g
  | .list es, fx, fx', h, g => groupedList_agree es fx fx' (fun x hx o k => h o (.list hx k)) g
  | .let_ d b, fx, fx', h, g => grouped_agree b (fx.extend d) (fx'.extend d) (fun o k => by
      simp only [Env.extend, h o (.let_ k)]) g
theorem groupedList_agree : ∀ (es : List Expr) (fx fx' : Env), (∀ x ∈ es, ∀ o, UsesOp o x → fx o = fx' o) →
    Expr.GroupedList fx es → Expr.GroupedList fx' es
  | [], _, _, _, _ => trivial
  | e :: es, fx, fx', h, g => ⟨grouped_agree e fx fx' (h e List.mem_cons_self) g.1,
      groupedList_agree es fx fx' (fun x hx => h x (List.mem_cons_of_mem _ hx)) g.2⟩
end

theorem subAt_agree {fx fx' : Env} {e e' : Expr} {o : Infix} (h : SubAt fx e fx' e')
    (hd : ∀ d, LetIn d e → o.symbol ∉ d.infixes.map Infix.symbol) : fx' o = fx o := by
  induction h with
  | here => rfl
  | appL _ ih => exact ih fun d k => hd d (.appL k)
  | appR _ ih => exact ih fun d k => hd d (.appR k)
  | binL _ ih => exact ih fun d k => hd d (.binL k)
  | binR _ ih => exact ih fun d k => hd d (.binR k)
  | lam _ ih => exact ih fun d k => hd d (.lam k)
  | grp _ ih => exact ih fun d k => hd d (.grp k)
  | neg _ ih => exact ih fun d k => hd d (.neg k)
  | tup hx _ ih => exact ih fun d k => hd d (.tup hx k)
  | list hx _ ih => exact ih fun d k => hd d (.list hx k)
  | let_ _ ih =>
    rw [ih fun d k => hd d (.let_ k), Env.extend, if_neg (hd _ .here)]

end Pemdas
