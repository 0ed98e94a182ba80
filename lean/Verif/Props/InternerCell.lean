import Verif.Model.Interner
import Verif.Props.Interner
/-
C108: interning through the thread-local interner.
-/
namespace Pemdas
open Lexicon Interner

/-- A call of the interner's interface. -/
inductive InternerCall where
  | lookup (s : Nat)
  | intern (a : Arg)
  | internIter (as : List Arg)

/-- What a call returns (the text, one symbol or several), and the interner afterwards. -/
def InternerCall.run (sl : Slack) (c : Cell) :
    InternerCall → (Except Panic (Text ⊕ List Nat)) × Cell
  | .lookup s => ((Interner.lookup c s).map .inl, c)
  | .intern a => let (r, c) := Interner.intern sl c a; (r.map (fun s => .inr [s]), c)
  | .internIter as => let (r, c) := Interner.internIter sl c as; (r.map .inr, c)

/-- The interner after some calls, panicking or not. -/
def InternerCall.runAll (sl : Slack) : List InternerCall → Cell → Cell
  | [], c => c
  | k :: ks, c => runAll sl ks (k.run sl c).2

/-- The texts among the arguments up to the first symbol. -/
def leadingTexts : List Arg → List Text
  | .text t :: as => t :: leadingTexts as
  | _ => []

/-- The texts a call interns. -/
def InternerCall.texts : InternerCall → List Text
  | .lookup _ => []
  | .intern a => leadingTexts [a]
  | .internIter as => leadingTexts as

/-- A new interner whose lexicon has the given capacity. -/
def newCell (sl : Slack) (cap : Nat) : Cell := ⟨withCapacity sl cap, false⟩

/-- Some argument is a symbol. -/
def hasSymbol (as : List Arg) : Prop := ∃ s, Arg.symbol s ∈ as

private theorem loop_text (sl : Slack) (as : List Arg) (l : Lexicon) :
    (internLoop sl as ⟨l, true⟩).2 = ⟨(internAll sl (leadingTexts as) l).2, true⟩ ∧
    (hasSymbol as → (internLoop sl as ⟨l, true⟩).1 = .error .alreadyBorrowed) ∧
    (¬ hasSymbol as → (internLoop sl as ⟨l, true⟩).1 =
      .ok (internAll sl (leadingTexts as) l).1) := by
  induction as generalizing l with
  | nil => exact ⟨rfl, fun ⟨_, h⟩ => absurd h (by simp), fun _ => rfl⟩
  | cons a as ih =>
    cases a with
    | symbol s =>
      refine ⟨rfl, fun _ => rfl, fun h => absurd ⟨s, by simp⟩ h⟩
    | text t =>
      have hs : hasSymbol (.text t :: as) ↔ hasSymbol as := by simp [hasSymbol]
      obtain ⟨h1, h2, h3⟩ := ih (l.intern sl t).2
      rw [hs]
      simp only [internLoop, internIn, asRef, leadingTexts, internAll]
      generalize internLoop sl as ⟨(l.intern sl t).2, true⟩ = r at *
      obtain ⟨r, c⟩ := r
      simp only at h1 h2 h3
      subst h1
      cases r with
      | error p =>
        refine ⟨rfl, fun h => h2 h, fun h => ?_⟩
        cases h3 h
      | ok ids =>
        refine ⟨rfl, fun h => ?_, fun h => ?_⟩
        · cases h2 h
        · have := h3 h
          simp only [Except.ok.injEq] at this
          simp [this]

private theorem iter_eq (sl : Slack) (as : List Arg) (l : Lexicon) :
    (Interner.internIter sl ⟨l, false⟩ as).2 = ⟨(internAll sl (leadingTexts as) l).2, false⟩ ∧
    (hasSymbol as → (Interner.internIter sl ⟨l, false⟩ as).1 = .error .alreadyBorrowed) ∧
    (¬ hasSymbol as → (Interner.internIter sl ⟨l, false⟩ as).1 =
      .ok (internAll sl (leadingTexts as) l).1) := by
  obtain ⟨h1, h2, h3⟩ := loop_text sl as l
  simp only [Interner.internIter, withMut, Bool.false_eq_true, if_false, h1]
  exact ⟨trivial, h2, h3⟩

private theorem intern_eq (sl : Slack) (a : Arg) (l : Lexicon) :
    (Interner.intern sl ⟨l, false⟩ a).2 = ⟨(internAll sl (leadingTexts [a]) l).2, false⟩ := by
  cases a <;> rfl

private theorem run_cell (sl : Slack) (k : InternerCall) (l : Lexicon) :
    (k.run sl ⟨l, false⟩).2 = ⟨(internAll sl k.texts l).2, false⟩ := by
  cases k with
  | lookup s => rfl
  | intern a => exact intern_eq sl a l
  | internIter as => exact (iter_eq sl as l).1

private theorem runAll_cell (sl : Slack) (ks : List InternerCall) (l : Lexicon) :
    InternerCall.runAll sl ks ⟨l, false⟩ =
      ⟨(internAll sl (ks.flatMap InternerCall.texts) l).2, false⟩ := by
  induction ks generalizing l with
  | nil => rfl
  | cons k ks ih => rw [InternerCall.runAll, run_cell, ih, List.flatMap_cons, internAll_append]

/-- **C108 fails**: interning a symbol, which should give the symbol back, panics whatever the
symbol and whatever happened before; so does interning several strings if one of them is a symbol. -/
theorem C108_symbol_wrong (sl : Slack) (cap : Nat) (before : List InternerCall) (s : Nat)
    (as : List Arg) (h : Arg.symbol s ∈ as) :
    let c := InternerCall.runAll sl before (newCell sl cap)
    (Interner.intern sl c (.symbol s)).1 = .error .alreadyBorrowed ∧
    (Interner.internIter sl c as).1 = .error .alreadyBorrowed := by
  simp only [newCell, runAll_cell]
  exact ⟨rfl, (iter_eq sl as _).2.1 ⟨s, h⟩⟩

/-- **C108** No call leaves the interner locked, not even one that panics: after any calls, the
interner has exactly the texts that were given as strings, up to the first symbol within a call,
and behaves as if they had been interned one by one. -/
theorem C108_panics_harmless (sl : Slack) (cap : Nat) (before : List InternerCall)
    (as : List Arg) (hs : ∀ s, Arg.symbol s ∉ as) (s : Nat) :
    let c := InternerCall.runAll sl before (newCell sl cap)
    let hist := before.flatMap InternerCall.texts
    (Interner.lookup c s = (internAll sl hist (withCapacity sl cap)).2.lookup s) ∧
    (Interner.internIter sl c as).1 =
      .ok (internAll sl (leadingTexts as) (internAll sl hist (withCapacity sl cap)).2).1 := by
  simp only [newCell, runAll_cell]
  exact ⟨rfl, (iter_eq sl as _).2.2 (fun ⟨s, h⟩ => hs s h)⟩

/-- **C108** (the part that holds) Interning the *text* of a symbol gives the symbol back, and
changes nothing. Missing: interning the symbol itself, see `C108_symbol_wrong`. -/
theorem C108_text_of_symbol_partial (sl : Slack) (cap : Nat) (before : List InternerCall)
    (hd : AtMostDistinct (2 ^ 32) (before.flatMap InternerCall.texts)) (s : Nat) (t : Text)
    (ht : Interner.lookup (InternerCall.runAll sl before (newCell sl cap)) s = .ok t) :
    Interner.intern sl (InternerCall.runAll sl before (newCell sl cap)) (.text t) =
      (.ok s, InternerCall.runAll sl before (newCell sl cap)) := by
  simp only [newCell, runAll_cell] at *
  generalize before.flatMap InternerCall.texts = hist at *
  have hh := (internAll_holds (sl := sl) hist (holds_withCapacity sl cap)).2
  generalize (internAll sl hist (withCapacity sl cap)).2 = l at *
  have hl : (addTexts [] hist).length ≤ 2 ^ 32 :=
    hd _ hh.nodup (fun t ht => by simpa using (mem_addTexts hist [] t).1 ht)
  change l.lookup s = .ok t at ht
  rw [lookup_holds hh] at ht
  cases hg : (addTexts [] hist)[s]? with
  | none => rw [hg] at ht; cases ht
  | some t' =>
    rw [hg] at ht
    simp only [Except.ok.injEq] at ht
    subst ht
    obtain ⟨hlt, hget⟩ := List.getElem?_eq_some_iff.1 hg
    have hidx : (addTexts [] hist).idxOf t' = s := by
      rw [← hget]; exact hh.nodup.idxOf_getElem s hlt
    have hf := find_holds hh t'
    rw [if_pos (List.mem_of_getElem? hg), hidx, Nat.mod_eq_of_lt (by omega)] at hf
    simp [Interner.intern, withMut, internIn, asRef, Lexicon.intern, hf]

/-- Non-trivial instances: a call that panics half-way, and the symbols it left. -/
example :
    let c := InternerCall.runAll (fun _ _ => 0)
      [.internIter [.text t!"a", .text t!"b", .symbol 0, .text t!"c"], .intern (.text t!"d")]
      (newCell (fun _ _ => 0) 4)
    Interner.lookup c 1 = .ok t!"b" ∧ Interner.lookup c 2 = .ok t!"d" ∧
    (Interner.intern (fun _ _ => 0) c (.symbol 1)).1 = .error .alreadyBorrowed ∧
    (Interner.intern (fun _ _ => 0) c (.text t!"b")).1 = .ok 1 := by decide

end Pemdas
