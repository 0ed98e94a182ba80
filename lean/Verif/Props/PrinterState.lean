import Verif.Lemmas.Printer
/-
C143 printing leaves the printer as it was.
-/
namespace Pemdas
open Printer

section
variable [CharTables]

/-- **C143** Writing an expression or a pattern, on a printer in any state, leaves the printer's
stack of fixities as it was; what is written depends on the number of fixities on the stack only. -/
theorem C143_restored (m : Fixities) (e : Expr) (p : Pat) (s : List Fixity) :
    (∀ u t s', writeGo m none e s = .ok (u, t, s') → s' = s ∧
      ∀ m' s2, s2.length = s.length → writeGo m' none e s2 = .ok (u, t, s2)) ∧
    (∃ t, writePat p s = .ok ((), t, s) ∧
      ∀ s2, s2.length = s.length → writePat p s2 = .ok ((), t, s2)) := by
  refine ⟨fun u t s' h => ?_, ?_⟩
  · by_cases hn : e.NoNeg
    · have h1 := writeGo_does m e hn none s
      unfold Pr.Does at h1
      rw [h1] at h
      cases h
      refine ⟨rfl, fun m' s2 hs => ?_⟩
      have h2 := writeGo_does m' e hn none s2
      unfold Pr.Does at h2
      rw [h2, hs]
      rfl
    · rw [writeGo_fails m e hn none s] at h
      cases h
  · refine ⟨_, writePat_does p s, fun s2 hs => ?_⟩
    have h := writePat_does p s2
    unfold Pr.Does at h
    rw [h, hs]

/-- The texts that a printer in state `s` writes for expressions one after the other. -/
def Printer.writeAll (m : Fixities) : List Expr → List Fixity → Except Panic (List Text × List Fixity)
  | [], s => .ok ([], s)
  | e :: es, s =>
    match writeGo m none e s with
    | .error p => .error p
    | .ok (_, t, s) =>
      match writeAll m es s with
      | .error p => .error p
      | .ok (ts, s) => .ok (t :: ts, s)

/-- **C143** One printer for many expressions writes what a new printer for each writes. -/
theorem C143_reuse (m : Fixities) (es : List Expr) (ts : List Text) :
    (∃ s, writeAll m es [] = .ok (ts, s)) ↔ es.map (writeExpr m) = ts.map .ok := by
  have key : ∀ es ts, (∃ s, writeAll m es [] = .ok (ts, s)) ↔
      es.map (writeExpr m) = ts.map .ok := by
    intro es
    induction es with
    | nil => intro ts; simp [writeAll, eq_comm]
    | cons e es ih =>
      intro ts
      unfold writeAll
      have hw : writeExpr m e = (writeGo m none e []).map (·.2.1) := rfl
      cases h : writeGo m none e [] with
      | error p =>
        rw [h] at hw
        cases ts with
        | nil => simp
        | cons t ts => simp [hw, Except.map]
      | ok x =>
        obtain ⟨u, t, s'⟩ := x
        obtain ⟨rfl, -⟩ := (C143_restored m e .wild []).1 u t s' h
        rw [h] at hw
        simp only
        cases ts with
        | nil =>
          simp only [List.map_cons, List.map_nil, reduceCtorEq, iff_false]
          rintro ⟨s, hs⟩
          cases h2 : writeAll m es [] with
          | error p => rw [h2] at hs; cases hs
          | ok y => rw [h2] at hs; cases hs
        | cons t' ts =>
          simp only [List.map_cons, List.cons.injEq, hw, Except.map, Except.ok.injEq, ← ih ts]
          cases h2 : writeAll m es [] with
          | error p => simp
          | ok y =>
            obtain ⟨ts', s2⟩ := y
            simp only [Except.ok.injEq, Prod.mk.injEq, List.cons.injEq]
            constructor
            · rintro ⟨s, ⟨rfl, rfl⟩, rfl⟩; exact ⟨rfl, s2, rfl, rfl⟩
            · rintro ⟨rfl, s, rfl, rfl⟩; exact ⟨s2, ⟨rfl, rfl⟩, rfl⟩
  exact key es ts

example : @writeAll asciiTables [] [.grp (.var (.lower t!"x")), .var (.lower t!"y")] [] =
    .ok ([render (inParens 0 [.txt t!"x"]), t!"y"], []) := by decide +kernel

end

/-- **C143** The current fixity is the innermost on the stack, and `infix 0` on a new printer; its
precedence and associativity are those of it. -/
theorem C143_current (fx : Fixity) (s : List Fixity) :
    currFixity [] = ⟨0, .neither⟩ ∧ currFixity (fx :: s) = fx ∧
    ∀ s, currPrec s = (currFixity s).prec ∧ currAssoc s = (currFixity s).assoc := by
  refine ⟨rfl, rfl, fun s => ?_⟩
  cases s <;> exact ⟨rfl, rfl⟩

end Pemdas
