import Verif.Lemmas.Bulk
import Verif.Spec.Bulk
import Verif.Props.Becomes
import Verif.Props.AnySource
/-
C173: how long answers are, compared with what is typed in.
-/
namespace Pemdas
open Printer Resolver Session

section
variable [CharTables]

theorem WrittenProg.weight {q : Nat} {ds : List Decl} {cs : List CTok} (h : WrittenProg ds cs) :
    Expr.roomList q (ds.filterMap Decl.asExpr?) ≤ cheft q cs := by
  induction h with
  | nil => exact Nat.zero_le _
  | infix_ semi _ _ ih =>
    simp only [List.filterMap_cons, Decl.asExpr?, cheft, List.map_append, heft_append] at ih ⊢
    omega
  | expr semi hw _ _ ih =>
    have := hw.weight (q := q)
    simp only [List.filterMap_cons, Decl.asExpr?, Expr.roomList, cheft, List.map_append, heft_append] at this ih ⊢
    omega
/-- The expressions of a source, however their operators are grouped. -/
theorem source_room [LawfulTables] {q : Nat} (hq : 1 ≤ q) {src : Text} {ast : Ast} {l : Lexer} (hp : parse src = .ok ast l) :
    Expr.roomList q ast.exprs ≤ (2 * q + 4) * utf8Len src := by
  obtain ⟨cs, ds, h1, h2, rfl⟩ := (C96_every_source src ast).1 ⟨l, hp⟩
  have a := h2.weight (q := q)
  have b := h1.weight hq
  have c : (2 * q + 4) * utf8Len (unCR src) ≤ (2 * q + 4) * utf8Len src :=
    Nat.mul_le_mul_left _ (utf8Len_unCR_le src)
  rw [Ast.ofDecls_eq]
  exact Nat.le_trans a (Nat.le_trans b c)

omit [CharTables] in
theorem firstOfEach_sum (f : AssocError → Nat) (es : List AssocError) :
    sumOf f (firstOfEach es) ≤ sumOf f es := by
  have hf : ∀ (p : AssocError → Bool) (l : List AssocError), sumOf f (l.filter p) ≤ sumOf f l := by
    intro p l
    induction l with
    | nil => exact Nat.le_refl _
    | cons a l ih =>
      rw [List.filter_cons]
      split <;> simp only [sumOf] <;> omega
  induction es with
  | nil => exact Nat.le_refl _
  | cons e es ih =>
    simp only [firstOfEach, sumOf]
    have := hf (fun e' => ¬ e.Alike e') (firstOfEach es)
    omega

theorem mem_room (q : Nat) {x : Expr} {xs : List Expr} (hx : x ∈ xs) : x.room q ≤ Expr.roomList q xs := by
  induction xs with
  | nil => cases hx
  | cons y xs ih =>
    simp only [Expr.roomList]
    rcases List.mem_cons.1 hx with rfl | hx
    · omega
    · have := ih hx; omega

/-- **C173** What is shown of an expression, however its operators are grouped under whatever fixities, is
at most six times as long as the text of the source (in bytes). -/
theorem C173_shown [LawfulTables] {src : Text} {ast : Ast} {l : Lexer} (hp : parse src = .ok ast l) {fx fx' : Env}
    {xs : List Expr} {es : List AssocError} (hb : BecomeAll fx ast.exprs xs es fx') :
    ∀ x ∈ xs, utf8Len (x.drawn.map (·.1)) ≤ 6 * utf8Len src := by
  intro x hx
  have h1 := source_room (q := 1) (by decide) hp
  have h2 := (hb.room (q := 1)).1
  have h3 := mem_room 1 hx
  have h4 := drawn_room 1 x
  rw [weigh_one] at h4
  omega

/-- **C173** For every input that can be parsed, after every history: what is sent to the terminal, colours
included, is at most fifty times as long as the input, and 27 bytes. -/
theorem C173_sent [LawfulTables] (w : World) {s : Session} {log : List Event} (hh : History s log)
    {line src : Text} (hc : Completes s line src) {ast : Ast} {l : Lexer} (hp : parse src = .ok ast l) :
    ∃ s' fx, step w s line = .ok (true, s', fx) ∧ (fx.map Effect.sent).sum ≤ 50 * utf8Len src + 27 := by
  obtain ⟨fx, xs, es, fx', -, hb, s', hs, -⟩ := C152_answer w hh hc hp
  refine ⟨s', _, hs, ?_⟩
  have h1 := source_room (q := 23) (by decide) hp
  obtain ⟨h2, h3⟩ := hb.room (q := 23)
  have h4 := firstOfEach_sum AssocError.line es
  have e1 : utf8Len (painted t!"0" (painted t!"31" t!"[Error]:" ++ t!" ")) = 26 := by decide
  have e2 : utf8Len t!"\n" = 1 := rfl
  have e3 : utf8Len t!"  " = 2 := rfl
  have e4 : utf8Len t!"\n  " = 3 := rfl
  unfold answer
  simp only
  split
  · rename_i x _ _ _
    have h5 := drawn_room 23 x
    have h6 := sent_length x.drawn
    simp only [Expr.roomList] at h2
    simp only [List.map_cons, List.map_nil, List.sum_cons, List.sum_nil, Effect.sent, utf8Len_append, e2, e3]
    omega
  · simp
  · rename_i e _ _ he
    rw [he] at h4
    simp only [sumOf, AssocError.line] at h4
    simp only [List.map_cons, List.map_nil, List.sum_cons, List.sum_nil, Effect.sent, utf8Len_append, e1, e2]
    omega
  · have h5 : ∀ es : List AssocError, utf8Len (es.flatMap fun e => t!"\n  " ++ e.wording.toList) =
        sumOf AssocError.line es := by
      intro es
      induction es with
      | nil => rfl
      | cons e es ih => simp only [List.flatMap_cons, utf8Len_append, ih, sumOf, AssocError.line, e4]
    simp only [List.map_cons, List.map_nil, List.sum_cons, List.sum_nil, Effect.sent, utf8Len_append, e1, e2, h5]
    omega


/-! ### the first bound is the best -/

/-- A string literal of delete characters. -/
def deletes (n : Nat) : Text := '"' :: (List.replicate n '\x7f' ++ t!"\"")

/-- **C173** The bound for what is shown cannot be better: `n` delete characters between quotes are shown
as `6 * n` characters between quotes. -/
theorem C173_best [LawfulTables] (h1 : isPrintable '\x7f' = false) (n : Nat) :
    ∃ e l, parse (deletes n) = .ok ⟨[.expr], [], [e]⟩ l ∧ (∀ fx, Becomes fx e e [] fx) ∧
      utf8Len (deletes n) = n + 2 ∧ utf8Len (e.drawn.map (·.1)) = 6 * n + 2 := by
  have hb : ∀ n, StrBody (List.replicate n '\x7f') (List.replicate n '\x7f') := by
    intro n
    induction n with
    | zero => exact .nil
    | succ n ih => exact .char (by decide) (by decide) ih
  have hu : unCR (deletes n) = deletes n := by
    refine unCR_of_noLFCR fun hi => ?_
    have := hi.subset (List.mem_cons_self (a := '\n'))
    simp [deletes] at this
  have hr : Reading (deletes n) [] (deletes n) [(.lit (.str (List.replicate n '\x7f')), colAfter ([] ++ deletes n))] := by
    have := Reading.token (src := deletes n) (pre := []) (w := deletes n) (s := []) (.str (hb n)) .nil
    rwa [List.append_nil] at this
  obtain ⟨l, hl⟩ := (C96_every_source (deletes n) (Ast.ofDecls [.expr (.lit (.str (List.replicate n '\x7f')))])).2
    ⟨_, _, by rw [hu]; exact hr, .expr none (.last (.head (.lit _ _ _))) .nil (fun _ => trivial), rfl⟩
  refine ⟨_, l, hl, fun fx => .lit, ?_, ?_⟩
  · have : utf8Len (List.replicate n '\x7f') = n := by
      clear hl hr hu
      induction n with
      | zero => rfl
      | succ n ih =>
        have e : Char.utf8Size '\x7f' = 1 := rfl
        rw [List.replicate_succ, utf8Len_cons, e, ih, Nat.add_comm]
    have e : Char.utf8Size '"' = 1 := rfl
    simp only [deletes, utf8Len_cons, utf8Len_append, utf8Len_nil, this, e]
    omega
  · have he : escapeDebug false true '\x7f' = t!"\\u{7f}" := by
      have e : hexText 127 = t!"7f" := by decide
      simp [escapeDebug, h1, e]
    have : utf8Len ((List.replicate n '\x7f').flatMap (escapeDebug false true)) = 6 * n := by
      clear hl hr hu
      induction n with
      | zero => rfl
      | succ n ih =>
        have e : utf8Len t!"\\u{7f}" = 6 := rfl
        rw [List.replicate_succ, List.flatMap_cons, utf8Len_append, he, e, ih]
        omega
    have e : Char.utf8Size '"' = 1 := rfl
    rw [← weigh_one]
    simp only [Expr.drawn, Expr.parts, lambda, List.isEmpty_nil, if_true, weigh_ink, Literal.text, debugStr,
      utf8Len_cons, utf8Len_append, utf8Len_nil, this, e]
    omega

end

section
attribute [local instance] asciiTables asciiTables_lawful

/-- C173: an input with four operators of the same precedence and no parentheses; three pairs of
parentheses are shown. -/
example : (parse t!"a+b+c+d+e").value?.isSome = true ∧
    exShown [t!"a+b+c+d+e"] = some [t!"  (((a + b) + c) + d) + e\n"] ∧
    utf8Len t!"(((a + b) + c) + d) + e" ≤ 6 * utf8Len t!"a+b+c+d+e" := by decide +kernel

/-- C173: what is sent for an input with two errors. -/
example : (exRun [t!"infix 4 ==, /=\n(a == b == c, a /= b /= c)"]).map (fun x => (x.2.map Effect.sent).sum) =
      some 229 := by decide +kernel

/-- C173: delete characters cannot be printed. -/
example : isPrintable '\x7f' = false ∧ deletes 3 = t!"\"\x7f\x7f\x7f\"" := by decide

end
end Pemdas
