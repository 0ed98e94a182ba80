import Verif.Lemmas.IterMut
/-
C156 changing the declarations of a program through `iter_mut`.
-/
namespace Pemdas

/-- **C156** Whatever is done through the references an iterator gives out, from either end, is done
to the declarations of a list taken from its ends, to each at most once, and to nothing else. -/
theorem C156_changes (ds : List Decl) (qs : List (Bool × Change)) :
    (Ast.ofDecls ds).iterMut.changeAll qs (Ast.ofDecls ds) = Ast.ofDecls (changed qs ds) := by
  have key : ∀ (pre mid post : List Decl), (AstIterMut.over pre mid).changeAll qs
      (Ast.ofDecls (pre ++ mid ++ post)) = Ast.ofDecls (pre ++ changed qs mid ++ post) := by
    induction qs with
    | nil => intro pre mid post; rfl
    | cons q qs ih =>
      intro pre mid post
      obtain ⟨q, c⟩ := q
      cases q with
      | true =>
        cases mid with
        | nil =>
          simp only [AstIterMut.changeAll, if_true, over_next_nil]
          exact ih pre [] post
        | cons d mid =>
          simp only [AstIterMut.changeAll, if_true, over_next]
          rw [show pre ++ d :: mid ++ post = pre ++ d :: (mid ++ post) by simp, assign_ref]
          -- the reference does not depend on the change
          have := ih (pre ++ [c.on d]) mid post
          have he : AstIterMut.over (pre ++ [d]) mid = .over (pre ++ [c.on d]) mid := by
            cases d <;> simp [AstIterMut.over, Change.on, Decl.asInfix?, Decl.asExpr?, List.filterMap_cons]
          rw [he, show pre ++ c.on d :: (mid ++ post) = pre ++ [c.on d] ++ mid ++ post by simp, this]
          simp [changed]
      | false =>
        rcases List.eq_nil_or_concat mid with rfl | ⟨mid, d, rfl⟩
        · simp only [AstIterMut.changeAll, Bool.false_eq_true, if_false, over_nextBack_nil]
          simpa [changed] using ih pre [] post
        · simp only [List.concat_eq_append]
          simp only [AstIterMut.changeAll, Bool.false_eq_true, if_false, over_nextBack]
          rw [show pre ++ (mid ++ [d]) ++ post = (pre ++ mid) ++ d :: post by simp, assign_ref,
            show pre ++ mid ++ c.on d :: post = pre ++ mid ++ (c.on d :: post) by simp, ih]
          simp [changed]
  have := key [] ds []
  rw [iterMut_ofDecls]
  simpa using this

/-- **C156** The references can also be kept: the one given out for a declaration goes on referring to
it, whatever is done through the others, and references to different declarations are different. -/
theorem C156_references (ds : List Decl) : ∃ ref : Nat → DeclMut,
    (∀ qs, ((Ast.ofDecls ds).iterMut.run qs).1 =
        (dequeRun qs (List.range ds.length)).1.map (·.map ref) ∧
      ((Ast.ofDecls ds).iterMut.run qs).2.len = (dequeRun qs ds).2.length) ∧
    (∀ p q, p < ds.length → q < ds.length → ref p = ref q → p = q) ∧
    ∀ ds' : List Decl, ds'.map Decl.kind = ds.map Decl.kind → ∀ p < ds.length,
      (Ast.ofDecls ds').deref (ref p) = ds'[p]? ∧
      ∀ c : Change, (Ast.ofDecls ds').assign c.infix_ c.expr (ref p) = Ast.ofDecls (ds'.modify p c.on) := by
  refine ⟨refAt ds, fun qs => ?_, fun p q hp hq h => ?_, fun ds' hk p hp => ?_⟩
  · rw [iterMut_ofDecls]
    have := over_run qs [] ds []
    simpa [List.range_eq_range'] using this
  · rcases Nat.lt_trichotomy p q with h1 | h1 | h1
    · exact absurd h (refAt_lt h1 hq)
    · exact h1
    · exact absurd h.symm (refAt_lt h1 hp)
  · rw [← refAt_congr hk]
    have hp' : p < ds'.length := by
      have := congrArg List.length hk
      simp at this; omega
    obtain ⟨a, d, b, rfl, rfl⟩ : ∃ a d b, ds' = a ++ d :: b ∧ a.length = p :=
      ⟨ds'.take p, ds'[p], ds'.drop (p + 1), by simp, by simp; omega⟩
    rw [refAt_append]
    refine ⟨by rw [deref_ref]; simp, fun c => ?_⟩
    rw [assign_ref, modify_append_length]

/-! ### examples -/

/-- The last, then the first, then the last of what is left of three declarations; each expression
taken is put into parentheses, each declaration made an `infixr 1`. -/
example :
    let c : Change := ⟨fun d => { d with fixity := ⟨1, .right⟩ }, .grp⟩
    let a := Ast.ofDecls [.expr (.var (.lower t!"a")), .infix_ ⟨[.standard t!"+"], ⟨6, .left⟩⟩,
      .expr (.var (.lower t!"b")), .expr (.var (.lower t!"c"))]
    a.iterMut.changeAll [(false, c), (true, c), (false, ⟨id, .neg⟩)] a =
      Ast.ofDecls [.expr (.grp (.var (.lower t!"a"))), .infix_ ⟨[.standard t!"+"], ⟨6, .left⟩⟩,
        .expr (.neg (.var (.lower t!"b"))), .expr (.grp (.var (.lower t!"c")))] := by decide

end Pemdas
