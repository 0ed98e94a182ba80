import Verif.Lemmas.ResolverMore
import Verif.Model.Session
import Verif.Lemmas.Text
import Verif.Model.AstMore
import Verif.Spec.Terminal
import Verif.Props.Grouping
/-
C120 removing entries from a table, C121 adding a fixity and resolving programs on their own,
C122 number prefixes and digits, C123 lengths of identifiers, C124 what a session starts with.
-/
namespace Pemdas

/-! ### C120 -/

/-- C120, the part that holds: `remove_last(n)`, once consumed, has removed the last `n` entries of
the table (all, if there are fewer) and has yielded these. Missing: their order, see
`C120_order_wrong`; the code yields them last first. -/
theorem C120_remove_last_partial (n : Nat) (m : Fixities) :
    (Fixities.removeLast n m).2 = m.take (m.length - n) ∧
    (Fixities.removeLast n m).1 = (m.drop (m.length - n)).reverse := by
  induction n generalizing m with
  | zero => simp [Fixities.removeLast]
  | succ n ih =>
    rcases List.eq_nil_or_concat m with rfl | ⟨m, e, rfl⟩
    · have := ih []
      simpa [Fixities.removeLast] using this
    · obtain ⟨h1, h2⟩ := ih m
      have hk : m.length + 1 - (n + 1) = m.length - n := by omega
      simp only [Fixities.removeLast, List.concat_eq_append, List.getLast?_concat,
        List.dropLast_concat, List.length_append, List.length_cons, List.length_nil, hk, h1, h2]
      refine ⟨?_, ?_⟩
      · rw [List.take_append_of_le_length (by omega)]
      · rw [List.drop_append_of_le_length (by omega)]; simp

/-- C120 is false: the entries do not come in the order of the table. -/
theorem C120_order_wrong :
    (Fixities.removeLast 2 [(.standard t!"+", ⟨6, .left⟩), (.standard t!"*", ⟨7, .left⟩)]).1 =
      [(.standard t!"*", ⟨7, .left⟩), (.standard t!"+", ⟨6, .left⟩)] := by decide

/-- **C120** An operator that was removed is no longer defined, the others keep their fixities. -/
theorem C120_lookup (n : Nat) (m : Fixities) (hw : m.Wf) (op : Infix) :
    (Fixities.removeLast n m).2.getDefined op =
      if op.symbol ∈ (Fixities.removeLast n m).1.map (·.1.symbol) then none else m.getDefined op := by
  obtain ⟨h1, h2⟩ := C120_remove_last_partial n m
  rw [h1, h2]
  have happ : ∀ a b : Fixities, (a ++ b).getDefined op =
      (a.getDefined op).or (b.getDefined op) := by
    intro a b
    induction a with
    | nil => simp [Fixities.getDefined]
    | cons x a ih =>
      obtain ⟨k, v⟩ := x
      simp only [List.cons_append, Fixities.getDefined]
      split <;> simp [ih]
  have hnone : ∀ a : Fixities, op.symbol ∉ a.map (·.1.symbol) → a.getDefined op = none := by
    intro a h
    induction a with
    | nil => rfl
    | cons x a ih =>
      obtain ⟨k, v⟩ := x
      simp only [List.map_cons, List.mem_cons, not_or] at h
      simp only [Fixities.getDefined, if_neg (Ne.symm h.1)]
      exact ih h.2
  have hsplit := List.take_append_drop (m.length - n) m
  generalize m.take (m.length - n) = a at *
  generalize m.drop (m.length - n) = b at *
  subst hsplit
  have hmem : op.symbol ∈ b.reverse.map (·.1.symbol) ↔ op.symbol ∈ b.map (·.1.symbol) := by simp
  split
  · rename_i h
    refine hnone a fun ha => ?_
    have hn : ((a ++ b).map (·.1.symbol)).Nodup := hw
    rw [List.map_append, List.nodup_append] at hn
    exact hn.2.2 _ ha _ (hmem.1 h) rfl
  · rename_i h
    rw [happ, hnone b (fun hb => h (hmem.2 hb))]
    simp

example : (Fixities.removeLast 1 [(.standard t!"+", ⟨6, .left⟩), (.standard t!"*", ⟨7, .left⟩)]).2 =
    [(.standard t!"+", ⟨6, .left⟩)] := by decide

/-! ### C121 -/

/-- **C121** `add_fixity` gives the operator the fixity, leaves all others alone, and tells which
fixity it had, if any. -/
theorem C121_add_fixity (r : Resolver) (op : Infix) (fx : Fixity) :
    (∀ op', (r.addFixity op fx).2.fixities.getDefined op' =
      if op'.symbol = op.symbol then some fx else r.fixities.getDefined op') ∧
    (∀ x, (r.addFixity op fx).1 = some x ↔ ∃ old, r.fixities.getDefined op = some old ∧ x = (op, old)) ∧
    (r.addFixity op fx).2.errors = r.errors := by
  refine ⟨fun op' => ?_, fun x => ?_, rfl⟩
  · show (r.fixities.insert op fx).2.getDefined op' = _
    rw [Fixities.getDefined_insert]
    simp only [eq_comm]
  · show ((r.fixities.insert op fx).1.map fun f => (op, f)) = some x ↔ _
    rw [Fixities.insert_old]
    cases r.fixities.getDefined op with
    | none => simp
    | some old => simp [eq_comm]

/-- **C121** `resolved` resolves a program by its own declarations: it gives what a new resolver
gives. -/
theorem C121_resolved (a : Ast) :
    Resolver.resolved a = (Resolver.resolveAst Resolver.new a).map fun x => (x.2.1, x.2.2) := by
  have h : Resolver.resolveAst (Resolver.loadFixities Resolver.new a) a =
      Resolver.resolveAst Resolver.new a := by
    unfold Resolver.resolveAst Resolver.visitAst
    simp only [Resolver.loadFixities]
    rw [Resolver.loadDecls_twice (m := Resolver.new.fixities) List.nodup_nil a.infxs]
  unfold Resolver.resolved
  rw [h]
  cases Resolver.resolveAst Resolver.new a <;> rfl

example : (Resolver.resolved ⟨[.infix_, .expr], [⟨[.standard t!"+"], ⟨6, .left⟩⟩],
    [.bin (.var (.lower t!"a")) (.standard t!"+") (.bin (.var (.lower t!"b")) (.standard t!"+")
      (.var (.lower t!"c")))]⟩).map (fun x => x.1.exprs) = .ok
    [.bin (.bin (.var (.lower t!"a")) (.standard t!"+") (.var (.lower t!"b"))) (.standard t!"+")
      (.var (.lower t!"c"))] := by decide +kernel

/-- **C121** `resolve_expr` regroups the one chain it is given: it returns the grouping of the
operands, unchanged and in their order, that respects the resolver's fixities, and reports an error
exactly if two operators of the chain clash; it never panics. -/
theorem C121_resolve_expr (r : Resolver) (e : Expr) :
    (∀ e', r.resolveExpr e = .ok (.ok e') ↔
      ∃ t : OpTree, t.toExpr = e' ∧ IsGrouping e t ∧ t.WellGrouped r.fixities.get) ∧
    ((∃ err, r.resolveExpr e = .ok (.error err)) ↔
      ∃ p c, ClashIn r.fixities.get e.chainOperators p c) ∧
    ∀ p, r.resolveExpr e ≠ .error p := by
  refine ⟨fun e' => ⟨C01_grouping_sound _ _ _, ?_⟩, C03_error_iff_clash _ _,
    C04_rewrite_never_panics _ _⟩
  rintro ⟨t, rfl, hg, hw⟩
  exact C02_grouping_complete _ _ _ hg hw

example : (⟨exTable, []⟩ : Resolver).resolveExpr exChain = .ok (.ok exTree.toExpr) ∧
    ∃ err, (⟨exTable, []⟩ : Resolver).resolveExpr exBad = .ok (.error err) :=
  ⟨by decide, _, rfl⟩

/-! ### C122 -/

/-- The digits of the bases up to 36, in lower and upper case. -/
private def lowerDigits : Text := t!"0123456789abcdefghijklmnopqrstuvwxyz"
private def upperDigits : Text := t!"0123456789ABCDEFGHIJKLMNOPQRSTUVWXYZ"

private theorem isNumChar_ascii : ∀ r : Fin 37, ∀ n : Fin 128, ∀ first : Bool,
    isNumChar r.1 (Char.ofNat n.1) first =
      (decide (Char.ofNat n.1 ∈ lowerDigits.take r.1) || decide (Char.ofNat n.1 ∈ upperDigits.take r.1) ||
        (!first && Char.ofNat n.1 == '_')) := by decide +kernel

/-- **C122** For a base up to 36, `is_num_char` accepts exactly the first so many of the digits
0-9, a-z (in either case), and an underscore that is not the first character. -/
theorem C122_digits {r : Nat} (hr : r ≤ 36) (c : Char) (first : Bool) :
    isNumChar r c first = true ↔
      c ∈ lowerDigits.take r ∨ c ∈ upperDigits.take r ∨ (first = false ∧ c = '_') := by
  by_cases hc : c.toNat < 128
  · have := isNumChar_ascii ⟨r, by omega⟩ ⟨c.toNat, hc⟩ first
    simp only [Char.ofNat_toNat] at this
    rw [this]
    simp [or_assoc]
  · have h1 : ∀ d : Char, d.toNat < 128 → c ≠ d := by rintro d hd rfl; exact hc hd
    have h2 : ∀ l : Text, (∀ d ∈ l, d.toNat < 128) → c ∉ l.take r :=
      fun l hl h => h1 c (hl c (List.mem_of_mem_take h)) rfl
    have h3 : toDigit r c = none := by
      have e1 : ¬ ('0' ≤ c ∧ c ≤ '9') := by
        rintro ⟨_, h⟩; have : c.toNat ≤ 57 := h; omega
      have e2 : ¬ ('a' ≤ c ∧ c ≤ 'z') := by
        rintro ⟨_, h⟩; have : c.toNat ≤ 122 := h; omega
      have e3 : ¬ ('A' ≤ c ∧ c ≤ 'Z') := by
        rintro ⟨_, h⟩; have : c.toNat ≤ 90 := h; omega
      simp [toDigit, e1, e2, e3]
    simp only [isNumChar, h3]
    have h4 := h1 '_' (by decide)
    have h5 := h2 lowerDigits (by decide)
    have h6 := h2 upperDigits (by decide)
    simp [h4, h5, h6]

/-- **C122** The letters of number prefixes stand for the bases 2, 8 and 16, other characters for
none; the letter of a prefix is a digit of no smaller base. -/
theorem C122_prefix (c : Char) (r : Nat) :
    (IntPrefix.fromChar c).map IntPrefix.radix = some r ↔
      (c ∈ t!"bB" ∧ r = 2) ∨ (c ∈ t!"oO" ∧ r = 8) ∨ (c ∈ t!"xX" ∧ r = 16) := by
  unfold IntPrefix.fromChar
  split
  · rename_i h
    rcases h with rfl | rfl <;> simp [IntPrefix.radix, eq_comm]
  · rename_i h1
    split
    · rename_i h
      rcases h with rfl | rfl <;> simp [IntPrefix.radix, eq_comm]
    · rename_i h2
      split
      · rename_i h
        rcases h with rfl | rfl <;> simp [IntPrefix.radix, eq_comm]
      · rename_i h3
        simp only [not_or] at h1 h2 h3
        simp [h1.1, h1.2, h2.1, h2.2, h3.1, h3.2]

example : isNumChar 16 'F' true = true ∧ isNumChar 10 'f' true = false ∧
    isNumChar 10 '_' true = false ∧ isNumChar 8 '8' false = false := by decide

/-! ### C123 -/

/-- **C123** The length of an identifier is that of its text in bytes; its width is the length of its
text, in parentheses if it is an operator; `is_unit` says that it is the constructor `()`. -/
theorem C123_lengths (i : Ident) :
    i.len = utf8Len i.text ∧
    i.width = utf8Len (match i with | .infix_ s => t!"(" ++ s ++ t!")" | _ => i.text) ∧
    (i.isUnit = true ↔ ∃ k, i = .commas k ∧ i.text = t!"()") := by
  have h1 : i.len = utf8Len i.text := by
    cases i with
    | commas k =>
      have : utf8Len (List.replicate k ',') = k := by
        induction k with
        | zero => rfl
        | succ k ih => rw [List.replicate_succ, utf8Len, ih]; show 1 + k = k + 1; omega
      simp only [Ident.len, Ident.text, utf8Len, utf8Len_append, this]
      show 2 + k = 1 + (k + (1 + 0))
      omega
    | _ => rfl
  refine ⟨h1, ?_, ?_⟩
  · cases i with
    | infix_ s =>
      simp only [Ident.width, Ident.len, Ident.isInfix, utf8Len_append]
      show utf8Len s + 2 = 1 + utf8Len s + 1
      omega
    | _ => simp only [Ident.width, h1, Ident.isInfix]; rfl
  · cases i with
    | commas k =>
      cases k with
      | zero => simp [Ident.isUnit, Ident.text]
      | succ k => simp [Ident.isUnit, Ident.text, List.replicate_succ]
    | _ => simp [Ident.isUnit]

example : (Ident.infix_ t!"→").width = 5 ∧ (Ident.commas 2).len = 4 := by decide

/-! ### C124 -/

/-- **C124** The prompts show `> ` and ` |  `, in different colours, and reset the terminal. -/
theorem C124_prompts :
    Term.visible LinePrompt.initial.text = t!"> " ∧
    Term.visible LinePrompt.continued.text = t!" |  " ∧
    (Term.start.run LinePrompt.initial.text).pen = Term.start.pen ∧
    (Term.start.run LinePrompt.continued.text).pen = Term.start.pen := by decide

section
variable [CharTables]

/-- **C124** A session that is given nothing prints, after the messages of its setup (which go to
stderr), the version, where the history is stored and the three hints, and defines no fixities; what
it is given has no influence on that. -/
theorem C124_banner (fs : FileSystem) (home : Option Text) :
    ∃ msgs s, (∀ e ∈ msgs, ∃ t, e = Effect.err t) ∧
      runRepl fs home [] = .ok (true, s, msgs ++
        [.out t!"Pemdas, version 0.1.0\n", .out (t!"history stored at \"" ++ s.historyPath ++ t!"\"\n"),
         .out ("    :quit, :q               exit REPL
    :fixities               display the fixities of infixes defined in session
    :help, :h               display list of REPL commands".toList ++ t!"\n")]) ∧
      s.resolver.fixities = [] ∧
      ∀ ins b s' fx, runRepl fs home ins = .ok (b, s', fx) →
        ∃ rest, fx = msgs ++ s.initMsg ++ rest := by
  refine ⟨(Session.new fs home).2, (Session.new fs home).1, ?_, ?_, rfl, ?_⟩
  · intro e he
    have h2 : ∀ x, (tryHistoryPath fs home).2 = x → x = (tryCfgDir fs home).2 := by
      rintro x rfl
      unfold tryHistoryPath
      split
      · rename_i h
        rw [h]
        simp only
        split
        · rfl
        · split <;> rfl
      · rename_i h; rw [h]
    have h3 : e ∈ (tryCfgDir fs home).2 := by
      rw [← h2 _ rfl]; exact he
    unfold tryCfgDir at h3
    split at h3
    · simp only at h3
      split at h3
      · split at h3
        · cases h3
        · simp only [List.mem_cons, List.not_mem_nil, or_false] at h3
          rcases h3 with rfl | rfl <;> exact ⟨_, rfl⟩
      · split at h3 <;> cases h3
    · simp only [List.mem_cons, List.not_mem_nil, or_false] at h3
      rcases h3 with rfl | rfl <;> exact ⟨_, rfl⟩
  · show (Except.ok (true, _, _ ++ (Session.new fs home).1.initMsg ++ []) : Session.Cmd) = _
    rw [List.append_nil, List.append_assoc]
    congr 3
    simp only [Session.initMsg, Session.sayLine, List.append_assoc]
    rfl
  · intro ins b s' fx h
    unfold runRepl at h
    simp only [bind, Except.bind] at h
    split at h
    · cases h
    · rename_i x hx
      cases h
      exact ⟨_, rfl⟩

end
end Pemdas
