import Verif.Model.AstMore
import Verif.Props.Ast
/-
C105 and C107: equality of operators and identifiers, and the length of AST iterators.
-/
namespace Pemdas

/-! ### C105 -/

/-- **C105 fails**: `'x` equals the operator written `x`, and the identifier `x` too, but these two
differ. -/
theorem C105_equality_wrong :
    ∃ (op op' : Infix) (i : Ident), op.eqInfix op' = true ∧ op.eqIdent i = true ∧
      op'.eqIdent i = false :=
  ⟨.promoted t!"x", .standard t!"x", .lower t!"x", by decide⟩

/-- **C105** Every operator equals the identifier it stands for. -/
theorem C105_own_identifier [CharTables] (op : Infix) : op.eqIdent op.asIdent = true := by
  cases op with
  | standard s => simp [Infix.asIdent, Infix.eqIdent]
  | promoted s =>
    unfold Infix.asIdent
    simp only []
    split
    · split <;> simp [Infix.eqIdent]
    · simp [Infix.eqIdent]

/-- **C105** Which identifier an operator stands for: a symbolic operator for itself in parentheses, a
promoted name for the name, of the class that its first character says. -/
theorem C105_class [CharTables] (op : Infix) (i : Ident) : op.asIdent = i ↔
    (∃ s, op = .standard s ∧ i = .infix_ s) ∨
    (∃ s, op = .promoted s ∧ i = .upper s ∧ ∃ c y, s = c :: y ∧ isUppercase c = true) ∨
    (∃ s, op = .promoted s ∧ i = .lower s ∧ ∀ c y, s = c :: y → isUppercase c = false) := by
  constructor
  · rintro rfl
    match op with
    | .standard s => exact Or.inl ⟨s, rfl, rfl⟩
    | .promoted [] => exact Or.inr (Or.inr ⟨[], rfl, rfl, fun c y h => nomatch h⟩)
    | .promoted (c :: y) =>
      cases hc : isUppercase c with
      | true => exact Or.inr (Or.inl ⟨c :: y, rfl, by simp [Infix.asIdent, hc], c, y, rfl, hc⟩)
      | false =>
        refine Or.inr (Or.inr ⟨c :: y, rfl, by simp [Infix.asIdent, hc], ?_⟩)
        intro c' y' h
        cases h
        exact hc
  · rintro (⟨s, rfl, rfl⟩ | ⟨s, rfl, rfl, c, y, rfl, hc⟩ | ⟨s, rfl, rfl, h⟩)
    · rfl
    · simp [Infix.asIdent, hc]
    · match s with
      | [] => simp [Infix.asIdent]
      | c :: y => simp [Infix.asIdent, h c y rfl]

/-- **C105** (the part that holds) An operator equals exactly the identifiers with its text that are
symbolic if the operator is and names otherwise; so operators that are equal and both symbolic or
both promoted equal the same identifiers. Missing: one of each, see `C105_equality_wrong`. -/
theorem C105_equality_partial (op op' : Infix) (i : Ident) :
    (op.eqIdent i = true ↔
      (∃ s, op = .standard s ∧ i = .infix_ s) ∨
      (∃ s, op = .promoted s ∧ (i = .upper s ∨ i = .lower s))) ∧
    (op.eqInfix op' = true → ((∃ s, op = .standard s) ↔ ∃ s, op' = .standard s) →
      op.eqIdent i = op'.eqIdent i) := by
  refine ⟨?_, ?_⟩
  · cases op <;> cases i <;> simp [Infix.eqIdent] <;> exact eq_comm
  · intro h hk
    cases op <;> cases op' <;> simp_all [Infix.eqInfix, Infix.symbol]

/-- **C105** What hash maps keyed by operators rely on: equality is an equivalence, equal operators
feed the hasher the same bytes, and an operator, equal symbols included, can be looked up by its
symbol: it hashes like it and equals exactly it. -/
theorem C105_hash_contract (feed : Symbol → List UInt8) (a b c : Infix) (s : Symbol) :
    a.eqInfix a = true ∧ (a.eqInfix b = b.eqInfix a) ∧
    (a.eqInfix b = true → b.eqInfix c = true → a.eqInfix c = true) ∧
    (a.eqInfix b = true → a.hashFeed feed = b.hashFeed feed) ∧
    a.hashFeed feed = feed a.borrow ∧ (a.eqSymbol s = true ↔ a.borrow = s) ∧
    (a.eqInfix b = true ↔ a.borrow = b.borrow) := by
  have hb : ∀ x : Infix, x.borrow = x.symbol := fun x => by cases x <;> rfl
  simp only [Infix.eqInfix, Infix.eqSymbol, Infix.hashFeed, hb, beq_iff_eq]
  exact ⟨trivial, BEq.comm, Eq.trans, fun h => by rw [h], trivial, trivial, trivial⟩

/-! ### C107 -/

/-- **C107 fails**: asking an AST iterator for its length as an `ExactSizeIterator` panics, always;
and so does numbering the declarations from the back, unless there are none. -/
theorem C107_exact_length_wrong (it : AstIter) (ds : List Decl) (hd : ds ≠ []) (n : Nat) :
    it.exactLen = .error .sizeHintAssert ∧
    (AstIter.new (Ast.ofDecls ds)).enumNextBack n = .error .sizeHintAssert := by
  refine ⟨rfl, ?_⟩
  have hr : (AstIter.new (Ast.ofDecls ds)).Rep ds := by
    rw [Ast.ofDecls_eq]; exact ⟨rfl, rfl, rfl⟩
  have h1 := (AstIter.rep_nextBack hr).1
  unfold AstIter.enumNextBack
  cases h : (AstIter.new (Ast.ofDecls ds)).nextBack with
  | mk d it' =>
    rw [h] at h1
    simp only at h1
    cases d with
    | none => exact absurd (List.getLast?_eq_none_iff.1 h1.symm) hd
    | some d => rfl

/-- **C107** (the part that holds) After any steps from either end, the iterators' own `len` is the
number of declarations left, `is_empty` holds exactly when there are none, and the bounds of
`size_hint` are not wrong. Missing: `ExactSizeIterator::len`, see `C107_exact_length_wrong`. -/
theorem C107_length_partial (ds : List Decl) (qs : List Bool) :
    let it := ((AstIter.new (Ast.ofDecls ds)).run qs).2
    let left := (dequeRun qs ds).2
    it.len = left.length ∧ (it.isEmpty = true ↔ left = []) ∧
    it.sizeHint.1 ≤ left.length ∧ (∀ n, it.sizeHint.2 = some n → left.length ≤ n) := by
  intro it left
  have h : it.len = left.length := (C25_iter_is_deque ds qs).2
  refine ⟨h, ?_, Nat.zero_le _, fun n hn => nomatch hn⟩
  simp [AstIter.isEmpty, h]

example : let ds : List Decl := [.expr (.var (.lower t!"a")), .expr (.var (.lower t!"b"))]
    ds ≠ [] ∧ (dequeRun [false] ds).2.length = 1 ∧
    ((AstIter.new (Ast.ofDecls ds)).run [false]).2.len = 1 := by decide

end Pemdas
