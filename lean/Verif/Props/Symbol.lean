import Verif.Model.Symbol
import Verif.Props.Interner
/-
C92, C93: symbols compared with texts, characters and constants.
-/
namespace Pemdas
open Lexicon

/-- The symbol returned by the `i`-th of the intern calls `hist` made after start-up. -/
def symbolAt (sl : Slack) (hist : List Text) (i : Nat) : Option Nat :=
  (internAll sl hist (Lexicon.default sl)).1[i]?

private theorem symbolAt_spec (sl : Slack) (hist : List Text)
    (hd : AtMostDistinct (2 ^ 32) (predefined ++ hist)) (i : Nat) (t : Text)
    (hi : hist[i]? = some t) :
    ∃ s, symbolAt sl hist i = some s ∧
      (internAll sl hist (Lexicon.default sl)).2.lookup s = .ok t ∧
      ∀ (j : Nat) (u : Text), (predefined ++ hist)[j]? = some u →
        ((internAll sl (predefined ++ hist) (withCapacity sl predefined.length)).1[j]? = some s ↔
          u = t) := by
  have hlt : i < hist.length := (List.getElem?_eq_some_iff.1 hi).1
  have hi' : (predefined ++ hist)[predefined.length + i]? = some t := by
    rw [List.getElem?_append_right (by omega), Nat.add_sub_cancel_left]; exact hi
  obtain ⟨s, h1, h2⟩ := C21_lookup sl predefined.length _ hd _ t hi'
  have hiff := fun j u hj => C21_same_symbol_iff_same_text sl predefined.length _ hd j _ u t hj hi'
  rw [h1] at hiff
  rw [internAll_append] at h1 h2
  refine ⟨s, ?_, h2, hiff⟩
  have hlen : (internAll sl predefined (withCapacity sl predefined.length)).1.length =
      predefined.length := by
    obtain ⟨h, -⟩ := internAll_holds (sl := sl) predefined
      (holds_withCapacity sl predefined.length)
    rw [h, List.length_map]
  rw [List.getElem?_append_right (by rw [hlen]; omega), hlen, Nat.add_sub_cancel_left] at h1
  exact h1

/-- **C92** In every state, the symbol of a text compares with a text, a character and has a length
exactly as the text does, and never panics. -/
theorem C92_symbol_as_text (sl : Slack) (hist : List Text)
    (hd : AtMostDistinct (2 ^ 32) (predefined ++ hist)) (i : Nat) (t : Text)
    (hi : hist[i]? = some t) :
    ∃ s, symbolAt sl hist i = some s ∧
      let l := (internAll sl hist (Lexicon.default sl)).2
      Symbol.asStr l s = .ok t ∧
      Symbol.len l s = .ok (utf8Len t) ∧
      (∀ u, Symbol.eqStr l s u = .ok (decide (t = u))) ∧
      (∀ c, Symbol.eqChar l s c = .ok (decide (t = [c]))) := by
  obtain ⟨s, h1, h2, -⟩ := symbolAt_spec sl hist hd i t hi
  refine ⟨s, h1, h2, ?_, ?_, ?_⟩
  · simp [Symbol.len, Symbol.asStr, h2, bind, Except.bind, pure, Except.pure]
  · intro u
    simp only [Symbol.eqStr, Symbol.asStr, h2, bind, Except.bind, pure, Except.pure]
    congr 1
    rw [Bool.eq_iff_iff]; simp
  · intro c
    simp only [Symbol.eqChar, Symbol.asStr, h2, bind, Except.bind, pure, Except.pure]
    congr 1
    cases t with
    | nil => simp
    | cons d ds =>
      rw [Bool.eq_iff_iff]
      simp only [Bool.and_eq_true, beq_iff_eq, List.isEmpty_iff, decide_eq_true_eq,
        List.cons.injEq]
      constructor
      · rintro ⟨-, rfl, rfl⟩; exact ⟨rfl, rfl⟩
      · rintro ⟨rfl, rfl⟩; simp

/-- **C92** The predicate of a constant holds for a symbol iff its text is the constant's text. -/
theorem C92_predicates (sl : Slack) (hist : List Text)
    (hd : AtMostDistinct (2 ^ 32) (predefined ++ hist)) (i : Nat) (t : Text)
    (hi : hist[i]? = some t) (name txt : Text) (hn : (name, txt) ∈ predefinedNamed) :
    ∃ s, symbolAt sl hist i = some s ∧ (Symbol.isNamed name s = true ↔ t = txt) := by
  obtain ⟨s, h1, h2, h3⟩ := symbolAt_spec sl hist hd i t hi
  refine ⟨s, h1, ?_⟩
  obtain ⟨c1, c2⟩ := C23_constants sl hist hd name txt hn
  simp only [Symbol.isNamed, beq_iff_eq]
  constructor
  · intro e
    rw [← e, h2] at c1
    cases c1; rfl
  · rintro rfl
    obtain ⟨id, g1, -, -, g4⟩ := C22_symbols_stable sl predefined.length (predefined ++ hist) []
      (by simpa using hd) (predefined.length + i) t (by
        rw [List.getElem?_append_right (by omega), Nat.add_sub_cancel_left]; exact hi)
    rw [List.append_nil, internAll_append] at g4
    have : id = s := by
      have := (h3 (predefined.length + i) t (by
        rw [List.getElem?_append_right (by omega), Nat.add_sub_cancel_left]; exact hi)).2 rfl
      rw [g1] at this
      exact Option.some.inj this
    have e2 : constant name = id := by
      have := congrArg Prod.fst g4
      simp only at this
      rw [← this, ← c2]
      rfl
    rw [e2, this]

example : AtMostDistinct (2 ^ 32) (predefined ++ [t!"foo", t!"+"]) := by
  intro ds hn hm
  have : ds.length ≤ (predefined ++ [t!"foo", t!"+"]).length :=
    hn.length_le_of_subset hm
  have e : (predefined ++ [t!"foo", t!"+"]).length = 30 := rfl
  omega
example : symbolAt (fun _ _ => 0) [t!"foo", t!"+"] 1 = some 10 ∧
    Symbol.isNamed t!"PLUS" 10 = true ∧ Symbol.isNamed t!"DASH" 10 = false := by decide

/-! ### C93 -/

private theorem utf8Bytes_length (t : Text) : (Symbol.utf8Bytes t).length = utf8Len t := by
  induction t with
  | nil => rfl
  | cons c t ih =>
    simp only [Symbol.utf8Bytes, List.flatMap_cons, List.length_append] at *
    rw [ih, utf8Len_cons, String.length_utf8EncodeChar]

/-- **C93 fails**: `Symbol` promises through `Borrow<str>` that it hashes like its text, but unless
the text is three bytes long the two feed different bytes to the hasher. -/
theorem C93_borrow_hash_wrong (s : Nat) (t : Text) (ht : utf8Len t ≠ 3) :
    Symbol.hashFeed s ≠ Symbol.strHashFeed t := by
  intro h
  have := congrArg List.length h
  simp only [Symbol.hashFeed, Symbol.strHashFeed, List.length_append, utf8Bytes_length,
    List.length_cons, List.length_nil] at this
  omega

/-- **C93** Even for three-byte texts the bytes fed can only agree for symbols no program reaches
(the top byte has to be `0xff`). -/
theorem C93_borrow_hash_wrong_small (s : Nat) (t : Text) (hs : s < 0xff000000) :
    Symbol.hashFeed s ≠ Symbol.strHashFeed t := by
  intro h
  have := congrArg List.getLast? h
  simp only [Symbol.hashFeed, Symbol.strHashFeed, List.getLast?_append, List.getLast?_cons,
    Option.some_or, Option.some.injEq] at this
  have := congrArg UInt8.toNat this
  simp at this
  omega

/-- **C93** (the part that holds) Symbols hash alike iff they are equal, so maps keyed and queried
by symbols are consistent. Missing: queries by `&str`. -/
theorem C93_hash_partial (s r : Nat) (hs : s < 2 ^ 32) (hr : r < 2 ^ 32) :
    Symbol.hashFeed s = Symbol.hashFeed r ↔ s = r := by
  constructor
  · intro h
    simp only [Symbol.hashFeed, List.cons.injEq, and_true] at h
    obtain ⟨h1, h2, h3, h4⟩ := h
    have h1 := congrArg UInt8.toNat h1
    have h2 := congrArg UInt8.toNat h2
    have h3 := congrArg UInt8.toNat h3
    have h4 := congrArg UInt8.toNat h4
    simp at h1 h2 h3 h4
    omega
  · rintro rfl; rfl

example : Symbol.hashFeed (constant t!"DASH") = [11, 0, 0, 0] ∧
    Symbol.strHashFeed t!"-" = [45, 255] ∧ utf8Len t!"-" ≠ 3 := by decide

end Pemdas
