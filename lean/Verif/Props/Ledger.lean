import Verif.Lemmas.Ledger
import Verif.Props.Becomes
import Verif.Props.Commands
/-
C157: exactly which operators a session lists, with which fixities, and in which order.
-/
namespace Pemdas
open Printer Resolver Session

/-- **C157** Every expression turns into exactly what the rules say, and leaves exactly the ledger that
the rules say: its entries in this order, each operator as it is shown. -/
theorem C157_expression {m : Fixities} (hw : m.Wf) (e : Expr) :
    ∃ e' es l, (∀ g gs f, Turns m e g gs f ↔ g = e' ∧ gs = es ∧ f = l) ∧
      visit ⟨m, []⟩ e = .ok (⟨l, firstOfEach es⟩, e') := by
  obtain ⟨⟨⟨m', errs⟩, e'⟩, h⟩ := visit_total ⟨m, []⟩ e
  obtain ⟨w, -, es, b, he⟩ := visit_turns e _ _ _ h hw
  refine ⟨e', es, m', fun g gs f => ⟨fun b' => b'.unique b, ?_⟩, ?_⟩
  · rintro ⟨rfl, rfl, rfl⟩
    exact b
  · rw [h, ← storeAll_firstOfEach, ← show errs = _ from he]

theorem declared_eq (ds : List InfixDecl) : declared ds = ds.flatMap InfixDecl.entries := by
  rw [declared, List.flatMap_def]; rfl

/-- **C157** The same for whole inputs: the declarations are entered, then the expressions are treated
one after the other. -/
theorem C157_input {m : Fixities} (hw : m.Wf) (a : Ast) :
    ∃ xs es l, (∀ g gs f, TurnAll (Ledger.enterAll m (declared a.infxs)) a.exprs g gs f ↔
        g = xs ∧ gs = es ∧ f = l) ∧
      Fixities.Wf l ∧ resolveAst ⟨m, []⟩ a = .ok (⟨l, []⟩, { a with exprs := xs }, firstOfEach es) := by
  obtain ⟨⟨⟨m', errs⟩, xs⟩, h⟩ := walkList_total (es := a.exprs) (fun e _ r => visit_total r e)
    ⟨loadDecls m a.infxs, []⟩
  have ht := walkList_thread (P := TurnsAt) (fun e _ => visit_turns e) _ _ _ h
  obtain ⟨w, -, es, b, he⟩ := thread_turns ht (wf_loadDecls hw _)
  simp only [← Ledger.enterAll_loadDecls hw, ← declared_eq] at b
  refine ⟨xs, es, m', fun g gs f => ⟨fun b' => b'.unique b, ?_⟩, w, ?_⟩
  · rintro ⟨rfl, rfl, rfl⟩
    exact b
  · rw [← storeAll_firstOfEach, ← show errs = _ from he]
    simp only [resolveAst, visitAst, bind, Except.bind, h]
    split
    · rename_i hn
      rw [← show errs = [] from hn]
    · rfl

/-- The first operator of each text, in order. -/
def firstSpellings : List Infix → List Infix
  | [] => []
  | op :: ops => op :: (firstSpellings ops).filter fun o => o.symbol ≠ op.symbol

theorem mem_firstSpellings {s : Symbol} (ops : List Infix) :
    s ∈ (firstSpellings ops).map Infix.symbol ↔ s ∈ ops.map Infix.symbol := by
  induction ops with
  | nil => rfl
  | cons o ops ih =>
    simp only [firstSpellings, List.map_cons, List.mem_cons, ← ih]
    by_cases h : s = o.symbol
    · simp [h]
    · simp only [h, false_or]
      constructor
      · rintro h'
        obtain ⟨x, hx, rfl⟩ := List.mem_map.1 h'
        exact List.mem_map_of_mem (List.mem_filter.1 hx).1
      · intro h'
        obtain ⟨x, hx, rfl⟩ := List.mem_map.1 h'
        exact List.mem_map_of_mem (List.mem_filter.2 ⟨hx, by simpa using h⟩)

theorem map_fst_enterAll (l : Ledger) (hw : Fixities.Wf l) (xs : List (Infix × Fixity)) :
    (l.enterAll xs).map (·.1) = l.map (·.1) ++
      (firstSpellings (xs.map (·.1))).filter fun op => ¬ l.Knows op := by
  induction xs generalizing l with
  | nil => simp [Ledger.enterAll, firstSpellings]
  | cons x xs ih =>
    obtain ⟨o, v⟩ := x
    have he := Ledger.enter_eq hw o v
    have hw' : Fixities.Wf (l.enter (o, v)) := by rw [he]; exact Fixities.wf_insert hw _ _
    have step : l.enterAll ((o, v) :: xs) = (l.enter (o, v)).enterAll xs := rfl
    rw [step, ih _ hw', List.map_cons, firstSpellings]
    by_cases hk : l.Knows o
    · have h1 : (l.enter (o, v)).map (·.1) = l.map (·.1) := by
        rw [he]; exact Fixities.map_fst_insert_of_mem hk v
      have h2 : ∀ op, (l.enter (o, v)).Knows op ↔ l.Knows op := by
        intro op
        simp only [Ledger.knows_iff, keys_eq_map, h1]
      rw [h1, List.filter_cons_of_neg (by simpa using hk), List.filter_filter]
      congr 1
      refine List.filter_congr fun a _ => ?_
      by_cases ha : a.symbol = o.symbol
      · have : l.Knows a := by unfold Ledger.Knows; rw [ha]; exact hk
        simp [h2, this]
      · simp [h2, ha]
    · have h1 : (l.enter (o, v)).map (·.1) = l.map (·.1) ++ [o] := by
        rw [he]; exact Fixities.map_fst_insert_of_not_mem hk v
      have h2 : ∀ op, (l.enter (o, v)).Knows op ↔ l.Knows op ∨ op.symbol = o.symbol := by
        intro op
        simp only [Ledger.knows_iff, keys_eq_map, h1]
        simp
      rw [h1, List.filter_cons_of_pos (by simpa using hk), List.filter_filter, List.append_assoc,
        List.singleton_append]
      congr 2
      refine List.filter_congr fun a _ => ?_
      simp only [h2]
      by_cases ha : a.symbol = o.symbol <;> by_cases hl : l.Knows a <;> simp [ha, hl]

/-- **C157** Declarations alone are listed in the order of their first declaration, each operator as it
is spelled there. -/
theorem C157_order (xs : List (Infix × Fixity)) :
    (Ledger.enterAll [] xs).map (·.1) = firstSpellings (xs.map (·.1)) := by
  rw [map_fst_enterAll [] List.nodup_nil]
  simp only [List.map_nil, List.nil_append]
  exact List.filter_eq_self.2 fun _ _ => by simp [Ledger.Knows]

section
variable [CharTables]

/-- What `:load --math` enters. -/
def mathEntries : List (Infix × Fixity) :=
  [(.standard t!"+", ⟨6, .left⟩), (.standard t!"-", ⟨6, .left⟩), (.standard t!"*", ⟨6, .left⟩),
   (.standard t!"/", ⟨6, .left⟩), (.standard t!"%", ⟨6, .left⟩), (.standard t!"^", ⟨8, .right⟩),
   (.standard t!"^^", ⟨8, .right⟩), (.standard t!"**", ⟨8, .right⟩)]

/-- What `:load --prelude` enters. -/
def preludeEntries : List (Infix × Fixity) :=
  [(.standard t!"$", ⟨0, .right⟩), (.standard t!">>=", ⟨1, .left⟩), (.standard t!">>", ⟨1, .left⟩),
   (.standard t!"=<<", ⟨1, .right⟩), (.standard t!"||", ⟨2, .right⟩), (.standard t!"&&", ⟨3, .right⟩),
   (.standard t!"==", ⟨4, .neither⟩), (.standard t!"/=", ⟨4, .neither⟩),
   (.standard t!"<", ⟨4, .neither⟩), (.standard t!"<=", ⟨4, .neither⟩),
   (.standard t!">", ⟨4, .neither⟩), (.standard t!">=", ⟨4, .neither⟩),
   (.promoted t!"elem", ⟨4, .neither⟩), (.standard t!":", ⟨5, .right⟩),
   (.standard t!"++", ⟨5, .right⟩), (.standard t!"<>", ⟨6, .right⟩), (.standard t!"+", ⟨6, .left⟩),
   (.standard t!"-", ⟨6, .left⟩), (.standard t!"*", ⟨7, .left⟩), (.standard t!"/", ⟨7, .left⟩),
   (.standard t!"%", ⟨7, .left⟩), (.standard t!"^", ⟨8, .right⟩), (.standard t!"^^", ⟨8, .right⟩),
   (.standard t!"**", ⟨8, .right⟩)]

/-- `Books l evs l'`: if the ledger is `l` before the events, it is `l'` after them. -/
inductive Books : Ledger → List Event → Ledger → Prop where
  | nil {l} : Books l [] l
  | wrong {l t e lx evs l'} : parse t = .err e lx → Books l evs l' → Books l (.text t :: evs) l'
  | input {l t ast lx xs es l₁ evs l'} : parse t = .ok ast lx →
      TurnAll (l.enterAll (declared ast.infxs)) ast.exprs xs es l₁ → Books l₁ evs l' →
      Books l (.text t :: evs) l'
  | clear {l evs l'} : Books [] evs l' → Books l (.clear :: evs) l'
  | math {l evs l'} : Books (l.enterAll mathEntries) evs l' → Books l (.math :: evs) l'
  | prelude {l evs l'} : Books (l.enterAll preludeEntries) evs l' → Books l (.prelude :: evs) l'

theorem Books.unique {l l₁ l₂ : Ledger} {evs : List Event} (h₁ : Books l evs l₁)
    (h₂ : Books l evs l₂) : l₁ = l₂ := by
  induction h₁ with
  | nil => cases h₂; rfl
  | wrong h _ ih =>
    cases h₂ with
    | wrong _ h' => exact ih h'
    | input g => rw [h] at g; cases g
  | input h b _ ih =>
    cases h₂ with
    | wrong g => rw [h] at g; cases g
    | input g b' h' =>
      rw [h] at g
      cases g
      obtain ⟨-, -, rfl⟩ := b.unique b'
      exact ih h'
  | clear _ ih => cases h₂ with | clear h' => exact ih h'
  | math _ ih => cases h₂ with | math h' => exact ih h'
  | prelude _ ih => cases h₂ with | prelude h' => exact ih h'

theorem Books.append {l l₁ l₂ : Ledger} {evs evs' : List Event} (h₁ : Books l evs l₁)
    (h₂ : Books l₁ evs' l₂) : Books l (evs ++ evs') l₂ := by
  induction h₁ with
  | nil => exact h₂
  | wrong h _ ih => exact .wrong h (ih h₂)
  | input h b _ ih => exact .input h b (ih h₂)
  | clear _ ih => exact .clear (ih h₂)
  | math _ ih => exact .math (ih h₂)
  | prelude _ ih => exact .prelude (ih h₂)

omit [CharTables] in
theorem enterAll_math {r : Resolver} (hw : r.fixities.Wf) :
    Ledger.enterAll r.fixities mathEntries = r.loadArithmetic.2.fixities := by
  have a : mathEntries = [opPlus, .standard t!"-"].map (fun op => (op, Fixity.plusMinus)) ++
    ([.standard t!"*", .standard t!"/", .standard t!"%"].map (fun op => (op, Fixity.plusMinus)) ++
    [.standard t!"^", .standard t!"^^", .standard t!"**"].map (fun op => (op, Fixity.pow))) := rfl
  have w1 := Fixities.wf_insertMany hw Fixity.plusMinus [opPlus, .standard t!"-"]
  have w2 := Fixities.wf_insertMany w1 Fixity.plusMinus
    [.standard t!"*", .standard t!"/", .standard t!"%"]
  rw [a, Ledger.enterAll_append, Ledger.enterAll_append, Ledger.enterAll_insertMany hw,
    Ledger.enterAll_insertMany w1, Ledger.enterAll_insertMany w2]
  rfl

omit [CharTables] in
theorem entered {m : Fixities} (hw : m.Wf) (xs : List (Infix × Fixity)) :
    Ledger.enterAll m xs = xs.foldl (fun m x => (m.insert x.1 x.2).2) m ∧
      Fixities.Wf (Ledger.enterAll m xs) := by
  induction xs generalizing m with
  | nil => exact ⟨rfl, hw⟩
  | cons x xs ih =>
    have := ih (Fixities.wf_insert hw x.1 x.2)
    rw [← Ledger.enter_eq hw] at this
    simp only [List.foldl_cons]
    rw [← Ledger.enter_eq hw]
    exact this

omit [CharTables] in
theorem enterAll_prelude {r : Resolver} (hw : r.fixities.Wf) :
    Ledger.enterAll r.fixities preludeEntries = r.loadHsPrelude.2.fixities := by
  rw [(entered hw _).1]
  simp only [preludeEntries, List.foldl_cons, List.foldl_nil, loadHsPrelude, Fixities.insertMany,
    Fixity.cons, Fixity.plusMinus, Fixity.multDivRem, Fixity.pow]

theorem applies_books {r r' : Resolver} {evs : List Event} (h : Applies r evs r')
    (hr : r.errors = []) (hw : r.fixities.Wf) :
    r'.fixities.Wf ∧ Books r.fixities evs r'.fixities := by
  induction h with
  | nil => exact ⟨hw, .nil⟩
  | bad h1 _ ih => exact (ih hr hw).imp id (.wrong h1)
  | @good t ast l r r₁ a es r' evs h1 h2 _ ih =>
    have e : r.loadFixities ast = ⟨loadDecls r.fixities ast.infxs, []⟩ := by rw [loadFixities, hr]
    rw [e] at h2
    have w1 := wf_loadDecls hw ast.infxs
    obtain ⟨xs, gs, l', hb, w', h4⟩ := C157_input w1 ast
    rw [h4] at h2
    cases h2
    obtain ⟨w2, h5⟩ := ih rfl w'
    have := (hb xs gs l').2 ⟨rfl, rfl, rfl⟩
    rw [declared_eq, Ledger.enterAll_loadDecls w1, loadDecls_twice hw,
      ← Ledger.enterAll_loadDecls hw, ← declared_eq] at this
    exact ⟨w2, .input h1 this h5⟩
  | @clear r r' evs _ ih =>
    obtain ⟨w, h⟩ := ih hr List.nodup_nil
    exact ⟨w, .clear h⟩
  | @math r r' evs ha ih =>
    obtain ⟨w, h⟩ := ih ((loadArithmetic_errors _).trans hr)
      (by rw [← enterAll_math hw]; exact (entered hw _).2)
    exact ⟨w, .math (by rw [enterAll_math hw]; exact h)⟩
  | @prelude r r' evs ha ih =>
    obtain ⟨w, h⟩ := ih ((loadHsPrelude_errors _).trans hr) (wf_prelude hw)
    exact ⟨w, .prelude (by rw [enterAll_prelude hw]; exact h)⟩

theorem history_books {s : Session} {log : List Event} (h : History s log) :
    s.resolver.fixities.Wf ∧ Books [] log s.resolver.fixities := by
  induction h with
  | start => exact ⟨List.nodup_nil, .nil⟩
  | reads hh hr hs ih =>
    obtain ⟨w, h⟩ := applies_books (reads_step hr hs) (C14_no_pending_error hh) ih.1
    exact ⟨w, ih.2.append h⟩
  | quiet _ hr hs ih => rw [quiet_step hr hs]; exact ih

/-- **C157** After every history the ledger is exactly that which the events leave. -/
theorem C157_ledger {s : Session} {log : List Event} (h : History s log) (l : Ledger) :
    Books [] log l ↔ s.resolver.fixities = l :=
  ⟨fun h' => (history_books h).2.unique h', fun e => e ▸ (history_books h).2⟩

/-- **C157** After every history `:fixities`, like `:info` and `:i` alone, shows exactly the listing of
the ledger that the history leaves, and changes nothing. -/
theorem C157_shown (w : World) {s : Session} {log : List Event} (hh : History s log)
    (hb : s.buffer = []) {line c : Text} (hl : Says line c)
    (hc : c ∈ [t!":fixities", t!":info", t!":i"]) :
    ∃ l, Books [] log l ∧ step w s line = .ok (true, s, [.out (listingSent l ++ t!"\n")]) := by
  refine ⟨_, (history_books hh).2, ?_⟩
  have : step w s line = cmdFixities s := by
    simp only [List.mem_cons, List.not_mem_nil, or_false] at hc
    rcases hc with rfl | rfl | rfl <;> rw [step_cmd w hl ⟨_, rfl⟩ hb] <;> rfl
  rw [this, cmdFixities, C49_sent]
  rfl

/-- The entry for a text. -/
def Ledger.entry (l : Ledger) (t : Text) : Option (Infix × Fixity) := l.find? fun x => x.1.symbol = t

omit [CharTables] in
theorem getKeyValue_entry (m : Fixities) (op : Infix) :
    m.getKeyValue op = Ledger.entry m op.symbol := by
  unfold Ledger.entry
  induction m with
  | nil => rfl
  | cons x m ih =>
    obtain ⟨k, v⟩ := x
    simp only [Fixities.getKeyValue]
    by_cases h : k.symbol = op.symbol
    · simp [h]
    · rw [if_neg h, List.find?_cons_of_neg (by simpa using h), ih]

/-- **C157** After every history `:info` with names shows exactly the listing of the entries that the
ledger has for the names, in the order in which they are asked for, and as the ledger has them. -/
theorem C157_info [LawfulTables] (w : World) {s : Session} {log : List Event} (hh : History s log)
    (hb : s.buffer = []) {line word arg : Text} {ws : List Text}
    (hw : word = t!":info" ∨ word = t!":i") (hl : SaysWith line word arg)
    (hws : Words (arg.filter fun c => !(c == '(' || c == ')')) ws) :
    ∃ l fx, Books [] log l ∧
      step w s line = .ok (true, s, .out (listingSent (ws.filterMap l.entry) ++ t!"\n") :: fx) := by
  obtain ⟨bl, h1, h2, h3, h4⟩ := hl
  rw [List.append_assoc] at h1
  have hr : ∀ x, (bl ++ arg).head? = some x → isWhitespace x = true := by
    cases bl with
    | nil => exact absurd rfl h3
    | cons c r =>
      intro x hx
      simp only [List.cons_append, List.head?_cons, Option.some.injEq] at hx
      exact hx ▸ h2 c (by simp)
  have hpre : isPrefix word (word ++ (bl ++ arg)) = true := by
    rcases hw with rfl | rfl <;> exact isPrefix_of_rest (by decide) (by decide) hr
  have hk : kind (word ++ (bl ++ arg)) = .info :=
    (kind_of_word hpre).2.2.2.2.2.2 hw (by simp [h3])
  have hcol : t!":" <+: word ++ (bl ++ arg) := by rcases hw with rfl | rfl <;> exact ⟨_, rfl⟩
  have hcmd : cmdInfo s (word ++ (bl ++ arg)) = .ok (true, s, infoArg s (bl ++ arg)) := by
    unfold cmdInfo
    rw [isPrefix_other hpre]
    rcases hw with rfl | rfl
    · rw [if_pos (by decide), sliceFrom_ok]; rfl
    · rw [if_neg (by decide), sliceFrom_ok]; rfl
  have hsplit : splitWhitespace ((bl ++ arg).filter fun c => !(c == '(' || c == ')')) = ws := by
    rw [splitWhitespace_iff, List.filter_append, List.filter_eq_self.2]
    · exact hws.blank_append h2
    · intro c hc
      have := h2 c hc
      by_cases h5 : c = '('
      · subst h5; exact absurd this (by decide)
      · by_cases h6 : c = ')'
        · subst h6; exact absurd this (by decide)
        · simp [h5, h6]
  refine ⟨s.resolver.fixities, notDefined ((ws.map infoOp).filter fun op =>
    !s.resolver.fixities.has op), (history_books hh).2, ?_⟩
  rw [step_cmd w h1 hcol hb, hk]
  simp only [byKind, hcmd, infoArg, hsplit, sayLine, C49_sent]
  congr 5
  simp only [entriesFor, List.filterMap_filter, List.filterMap_map]
  congr 3
  funext n
  have hg := getKeyValue_entry s.resolver.fixities (infoOp n)
  rw [infoOp_symbol] at hg
  simp only [Function.comp_apply, hg, Fixities.has]
  rw [← (C17_key_value s.resolver.fixities (infoOp n)).1, hg]
  cases Ledger.entry s.resolver.fixities n <;> rfl

end

/-- A `let` naming `*` once, `+` twice and the known `-`
twice: `*` is gone afterwards, `-` keeps its place, and `+` comes last. -/
example : Ledger.afterLet [(.standard t!"-", ⟨6, .left⟩), (opEq, ⟨4, .neither⟩)]
    ⟨[opPlus, .standard t!"-", opMul, opPlus, .standard t!"-"], ⟨9, .right⟩⟩
    [(.standard t!"-", ⟨9, .right⟩), (opEq, ⟨4, .neither⟩), (opPlus, ⟨9, .right⟩), (opMul, ⟨9, .right⟩)] =
    [(.standard t!"-", ⟨9, .right⟩), (opEq, ⟨4, .neither⟩), (opPlus, ⟨9, .right⟩)] := by decide

/-- An operator that is declared again keeps its place and the way it is written. -/
example : Ledger.enterAll [] [(.promoted t!"f", ⟨1, .left⟩), (opPlus, ⟨6, .left⟩),
      (.standard t!"f", ⟨2, .right⟩)] =
    [(.promoted t!"f", ⟨2, .right⟩), (opPlus, ⟨6, .left⟩)] := by decide

section
attribute [local instance] asciiTables asciiTables_lawful

/-- A history whose ledger has an entry that only a `let` has declared, and what is shown then. -/
example : (exRun [t!"infixr 5 *", t!"let infixl 4 +, * , +in a", t!":load --math", t!":reset",
      t!"let infixl 4 +, + in a", t!"infixr 5 *"]).map (·.1.resolver.fixities) =
    some [(opPlus, ⟨4, .left⟩), (opMul, ⟨5, .right⟩)] := by decide +kernel

example : ∃ l, Books [] [.text t!"let infixl 4 +, + in a", .math] l ∧
    (l.map (·.1.text)).head? = some t!"+" ∧ l.length = 8 := by
  have h : ∃ lx, parse t!"let infixl 4 +, + in a" =
      .ok ⟨[.expr], [], [.let_ ⟨[opPlus, opPlus], ⟨4, .left⟩⟩ exA]⟩ lx := by
    have h1 : (parse t!"let infixl 4 +, + in a").value? =
        some ⟨[.expr], [], [.let_ ⟨[opPlus, opPlus], ⟨4, .left⟩⟩ exA]⟩ := by decide +kernel
    cases hp : parse t!"let infixl 4 +, + in a" with
    | ok a l' => rw [hp] at h1; cases h1; exact ⟨l', rfl⟩
    | _ => rw [hp] at h1; cases h1
  obtain ⟨lx, h⟩ := h
  exact ⟨_, .input h (.cons (.let_ .var) .nil) (.math .nil), by decide, by decide⟩

example : Says t!"  :fixities " t!":fixities" ∧ exStart.buffer = [] ∧ History exStart [] :=
  ⟨(says_iff (by decide)).2 (by decide), rfl, .start _ _⟩

end
end Pemdas
