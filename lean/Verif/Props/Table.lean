import Verif.Lemmas.ResolverMore
import Verif.Props.Grouping
/-
C17–C20: fixity tables and the preset loaders.
-/
namespace Pemdas
open Resolver

private theorem symbol_standard (s : Symbol) : (Infix.standard s).symbol = s := rfl
private theorem symbol_promoted (s : Symbol) : (Infix.promoted s).symbol = s := rfl

/-! ### C17: insertion-ordered map -/

/-- Operations on a table. -/
inductive TableOp where
  | insert (op : Infix) (fx : Fixity)
  | remove (op : Infix)
  deriving DecidableEq, Repr

/-- Specification: the declared texts in order of first declaration, and the fixity of each. -/
structure AbsTable where
  order : List Symbol
  val : Symbol → Option Fixity

/-- Specification of an operation: what it returns and the new abstract table. -/
def AbsTable.step (a : AbsTable) : TableOp → Option Fixity × AbsTable
  | .insert op fx =>
    (a.val op.symbol,
     { order := if (a.val op.symbol).isSome then a.order else a.order ++ [op.symbol]
       val := fun s => if s = op.symbol then some fx else a.val s })
  | .remove op =>
    (a.val op.symbol,
     { order := a.order.filter (fun s => s ≠ op.symbol)
       val := fun s => if s = op.symbol then none else a.val s })

/-- Run operations, collecting what they return. -/
def AbsTable.run : List TableOp → AbsTable → List (Option Fixity) × AbsTable
  | [], a => ([], a)
  | o :: os, a => let (x, a) := a.step o; let (xs, a) := AbsTable.run os a; (x :: xs, a)

/-- One operation on the model's table. -/
def Fixities.step (m : Fixities) : TableOp → Option Fixity × Fixities
  | .insert op fx => m.insert op fx
  | .remove op => m.remove op

/-- Run operations, collecting what they return. -/
def Fixities.run : List TableOp → Fixities → List (Option Fixity) × Fixities
  | [], m => ([], m)
  | o :: os, m => let (x, m) := m.step o; let (xs, m) := Fixities.run os m; (x :: xs, m)

/-- The concrete table represents the abstract one. -/
def Fixities.Rep (m : Fixities) (a : AbsTable) : Prop :=
  m.Wf ∧ m.keys = a.order ∧ ∀ op : Infix, m.getDefined op = a.val op.symbol

theorem Fixities.rep_step {m : Fixities} {a : AbsTable} (h : m.Rep a) (o : TableOp) :
    (m.step o).1 = (a.step o).1 ∧ (m.step o).2.Rep (a.step o).2 := by
  obtain ⟨hw, hk, hv⟩ := h
  cases o with
  | insert op fx =>
    refine ⟨by simp [step, AbsTable.step, insert_old, hv], wf_insert hw op fx, ?_, ?_⟩
    · simp only [step, AbsTable.step, keys_insert, ← hv]
      have := getDefined_eq_none m op
      by_cases hm : op.symbol ∈ m.keys
      · have : m.getDefined op ≠ none := fun h => (this.1 h) hm
        simp [Option.isSome_iff_ne_none.2 this, hk, hk ▸ hm]
      · simp [this.2 hm, hk, hk ▸ hm]
    · intro o
      simp only [step, AbsTable.step, getDefined_insert, hv]
      by_cases h : op.symbol = o.symbol
      · simp [h]
      · simp only [if_neg h, if_neg (fun e => h (Eq.symm e))]
  | remove op =>
    refine ⟨by simp [step, AbsTable.step, remove_old, hv], wf_remove hw op, ?_, ?_⟩
    · simp only [step, AbsTable.step, keys_remove, ← hk]
      rw [List.Nodup.erase_eq_filter hw]
      congr 1
      funext s
      by_cases h : s = op.symbol <;> simp [h]
    · intro o
      simp only [step, AbsTable.step, getDefined_remove hw, hv]
      by_cases h : op.symbol = o.symbol
      · simp [h]
      · simp only [if_neg h, if_neg (fun e => h (Eq.symm e))]

/-- **C17** Every sequence of insertions and removals on a fixity table returns the same
previous fixities as an insertion-ordered map keyed by operator text, and afterwards lookups,
declaredness, length and iteration order are those of that map. -/
theorem C17_table_is_ordered_map (os : List TableOp) :
    let a := AbsTable.run os ⟨[], fun _ => none⟩
    let m := Fixities.run os []
    m.1 = a.1 ∧ m.2.map (·.1.symbol) = a.2.order ∧ m.2.length = a.2.order.length ∧
    (m.2.map (·.1.symbol)).Nodup ∧
    ∀ op : Infix, m.2.getDefined op = a.2.val op.symbol ∧
      m.2.has op = (a.2.val op.symbol).isSome ∧
      m.2.get op = (a.2.val op.symbol).getD ⟨9, .left⟩ := by
  have key : ∀ (m : Fixities) (a : AbsTable), m.Rep a →
      (m.run os).1 = (a.run os).1 ∧ (m.run os).2.Rep (a.run os).2 := by
    induction os with
    | nil => intro m a h; exact ⟨rfl, h⟩
    | cons o os ih =>
      intro m a h
      have hs := Fixities.rep_step h o
      have := ih _ _ hs.2
      exact ⟨by simp [Fixities.run, AbsTable.run, hs.1, this.1], this.2⟩
  obtain ⟨h1, hw, hk, hv⟩ := key [] ⟨[], fun _ => none⟩ ⟨List.nodup_nil, rfl, fun _ => rfl⟩
  refine ⟨h1, hk, ?_, hw, ?_⟩
  · rw [← hk]; simp [Fixities.keys]
  · intro op
    refine ⟨hv op, ?_, ?_⟩
    · unfold Fixities.has; rw [hv op]
    · unfold Fixities.get; rw [hv op]; rfl

/-- **C17** A promoted identifier and an operator with the same text share their entry: declaring
one way is seen by, and removed by, the other. -/
theorem C17_same_text_same_entry (m : Fixities) (hm : m.Wf) (s : Symbol) (fx : Fixity) :
    m.getDefined (.promoted s) = m.getDefined (.standard s) ∧
    (m.insert (.promoted s) fx).2.getDefined (.standard s) = some fx ∧
    (m.insert (.standard s) fx).2.getDefined (.promoted s) = some fx ∧
    (m.remove (.promoted s)).2.getDefined (.standard s) = none ∧
    (m.remove (.standard s)).2.getDefined (.promoted s) = none := by
  refine ⟨?_, ?_, ?_, ?_, ?_⟩
  · induction m with
    | nil => rfl
    | cons x m ih =>
      have hm : (Fixities.keys m).Nodup := (List.nodup_cons.1 hm).2
      simp only [Fixities.getDefined, ih hm]
      rfl
  · simp [Fixities.getDefined_insert, symbol_standard, symbol_promoted]
  · simp [Fixities.getDefined_insert, symbol_standard, symbol_promoted]
  · simp [Fixities.getDefined_remove hm, symbol_standard, symbol_promoted]
  · simp [Fixities.getDefined_remove hm, symbol_standard, symbol_promoted]

example : (exTable).Wf := by unfold Fixities.Wf; decide

/-- **C17** The key handed out by a lookup of a declared operator is an entry of the table with
the same text, and its fixity is the one looked up. -/
theorem C17_key_value (m : Fixities) (op : Infix) :
    (m.getKeyValue op).map (·.2) = m.getDefined op ∧
    ∀ x, m.getKeyValue op = some x → x ∈ m ∧ x.1.symbol = op.symbol := by
  induction m with
  | nil => simp [Fixities.getKeyValue, Fixities.getDefined]
  | cons y m ih =>
    obtain ⟨k, v⟩ := y
    simp only [Fixities.getKeyValue, Fixities.getDefined]
    split
    · rename_i h
      refine ⟨rfl, ?_⟩
      intro x hx
      simp only [Option.some.injEq] at hx
      subst hx
      exact ⟨by simp, h⟩
    · refine ⟨ih.1, fun x hx => ?_⟩
      have := ih.2 x hx
      exact ⟨List.mem_cons_of_mem _ this.1, this.2⟩

example : (Fixities.run [.insert opPlus ⟨6, .left⟩, .insert opMul ⟨7, .left⟩,
    .insert opPlus ⟨5, .right⟩, .remove opMul, .insert opMul ⟨1, .left⟩] []) =
    ([none, none, some ⟨6, .left⟩, some ⟨7, .left⟩, none],
     [(opPlus, ⟨5, .right⟩), (opMul, ⟨1, .left⟩)]) := by decide

/-! ### C18: `:load --math` -/

/-- **C18 fails**: after loading arithmetic, `*` does not bind tighter than `+`:
`a + b * c` is grouped as `(a + b) * c`, whatever was declared before. -/
theorem C18_math_precedence_wrong (r : Resolver) :
    (loadArithmetic r).2.fixities.rewrite (.bin exA opPlus (.bin exB opMul exC)) =
      .ok (.ok (.bin (.bin exA opPlus exB) opMul exC)) := by
  apply C02_grouping_complete _ _ (.node (.node (.leaf exA) opPlus (.leaf exB)) opMul (.leaf exC))
  · exact ⟨rfl, rfl⟩
  · simp only [OpTree.WellGrouped, OpTree.root, true_and, reduceCtorEq, false_imp_iff,
      implies_true, and_true, Option.some.injEq, forall_eq']
    right
    simp only [loadArithmetic, Fixities.get, Fixities.getDefined_insertMany, opPlus, opMul,
      List.map_cons, List.map_nil, symbol_standard, List.mem_cons, List.not_mem_nil]
    exact ⟨rfl, rfl, rfl⟩

/-- **C18** (the part that holds) After `:load --math`, whatever was declared before: `+`, `-`
(and `*`, `/`, `%`) are `infixl 6`; `^`, `^^`, `**` are `infixr 8`, hence bind tighter; every
other operator keeps its fixity. Missing: `*`, `/`, `%` do not bind tighter than `+`, `-`. -/
theorem C18_math_partial (r : Resolver) (op : Infix) :
    (loadArithmetic r).2.fixities.getDefined op =
      if op.symbol ∈ [t!"^", t!"^^", t!"**"] then some ⟨8, .right⟩
      else if op.symbol ∈ [t!"+", t!"-", t!"*", t!"/", t!"%"] then some ⟨6, .left⟩
      else r.fixities.getDefined op := by
  simp only [loadArithmetic, Fixities.getDefined_insertMany, List.map_cons, List.map_nil,
    symbol_standard, Fixity.plusMinus, Fixity.pow]
  generalize op.symbol = s
  simp only [List.mem_cons, List.not_mem_nil, or_false]
  by_cases h1 : s = t!"*" ∨ s = t!"/" ∨ s = t!"%"
  · rcases h1 with h | h | h <;> subst h <;> rfl
  · simp only [not_or] at h1
    simp [h1.1, h1.2.1, h1.2.2]

/-! ### C19: `:load --prelude` -/

/-- The Haskell 2010 Prelude fixities of the operators the loader lists (plus `<>` and `%`
from base), as written in the Haskell report. -/
def haskellFixities : List (Text × Fixity) :=
  [(t!"$", ⟨0, .right⟩), (t!">>=", ⟨1, .left⟩), (t!">>", ⟨1, .left⟩), (t!"=<<", ⟨1, .right⟩),
   (t!"||", ⟨2, .right⟩), (t!"&&", ⟨3, .right⟩), (t!"==", ⟨4, .neither⟩), (t!"/=", ⟨4, .neither⟩),
   (t!"<", ⟨4, .neither⟩), (t!"<=", ⟨4, .neither⟩), (t!">", ⟨4, .neither⟩), (t!">=", ⟨4, .neither⟩),
   (t!"elem", ⟨4, .neither⟩), (t!":", ⟨5, .right⟩), (t!"++", ⟨5, .right⟩), (t!"<>", ⟨6, .right⟩),
   (t!"+", ⟨6, .left⟩), (t!"-", ⟨6, .left⟩), (t!"*", ⟨7, .left⟩), (t!"/", ⟨7, .left⟩),
   (t!"%", ⟨7, .left⟩), (t!"^", ⟨8, .right⟩), (t!"^^", ⟨8, .right⟩), (t!"**", ⟨8, .right⟩)]

/-- **C19** After `:load --prelude` each listed operator has its Haskell fixity and every other
operator keeps its own, whatever was declared before. -/
theorem C19_prelude_fixities (r : Resolver) (op : Infix) :
    (loadHsPrelude r).2.fixities.getDefined op =
      (haskellFixities.lookup op.symbol).or (r.fixities.getDefined op) := by
  simp only [loadHsPrelude, Fixities.getDefined_insertMany, Fixities.getDefined_insert,
    List.map_cons, List.map_nil, symbol_standard, symbol_promoted, Fixity.plusMinus, Fixity.pow,
    Fixity.multDivRem, Fixity.cons, haskellFixities]
  generalize op.symbol = s
  by_cases hm : s ∈ haskellFixities.map (·.1)
  · simp only [haskellFixities, List.map_cons, List.map_nil, List.mem_cons, List.not_mem_nil,
      or_false] at hm
    rcases hm with h | h | h | h | h | h | h | h | h | h | h | h | h | h | h | h | h | h | h | h |
      h | h | h | h <;> subst h <;> rfl
  · simp only [haskellFixities, List.map_cons, List.map_nil, List.mem_cons, List.not_mem_nil,
      or_false, not_or] at hm
    obtain ⟨h1, h2, h3, h4, h5, h6, h7, h8, h9, h10, h11, h12, h13, h14, h15, h16, h17, h18, h19,
      h20, h21, h22, h23, h24⟩ := hm
    have e : ∀ {a : Text}, ¬ s = a → (s == a) = false := fun h => by simpa using h
    have e' : ∀ {a : Text}, ¬ s = a → ¬ a = s := fun h h' => h h'.symm
    simp [List.lookup, *]

/-- **C19 fails on the count**: loading into an empty session reports 23 but declares 24
operators. -/
theorem C19_prelude_count_wrong :
    (loadHsPrelude Resolver.new).1 = 23 ∧ (loadHsPrelude Resolver.new).2.fixities.length = 24 := by
  decide

/-! ### C20: clearing -/

/-- **C20** (resolver part) `clear` forgets every declaration and reports how many there were. -/
theorem C20_clear (r : Resolver) :
    (clear r).1 = r.fixities.length ∧ ∀ op, (clear r).2.fixities.getDefined op = none :=
  ⟨rfl, fun _ => rfl⟩

end Pemdas
