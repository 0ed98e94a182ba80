import Verif.Spec.Harmless
import Verif.Lemmas.LexKinds
import Verif.Lemmas.PrintBalance
import Verif.Lemmas.PrintList
/-
Helper lemmas: which texts are harmless.
-/
namespace Pemdas

/-- The terminal is in no escape sequence afterwards, and its pen is the one before. -/
def Inert (t : Text) : Prop := ∀ p sc, ∃ sc', Term.run ⟨.ground, p, sc⟩ t = ⟨.ground, p, sc'⟩

/-- The terminal is in no escape sequence afterwards. -/
def Whole (t : Text) : Prop := ∀ p sc, ∃ p' sc', Term.run ⟨.ground, p, sc⟩ t = ⟨.ground, p', sc'⟩

theorem run_snoc (t : Term) (a b : Text) : Term.run t (a ++ b) = Term.run (Term.run t a) b := by
  simp [Term.run]

theorem Inert.whole {t : Text} (h : Inert t) : Whole t := fun p sc =>
  let ⟨sc', h'⟩ := h p sc; ⟨p, sc', h'⟩

theorem Inert.harmless {t : Text} (h : Inert t) : Harmless t := fun sc => h _ sc

theorem Inert.nil : Inert [] := fun _ sc => ⟨sc, rfl⟩

theorem Inert.append {a b : Text} (ha : Inert a) (hb : Inert b) : Inert (a ++ b) := by
  intro p sc
  obtain ⟨s1, h1⟩ := ha p sc
  obtain ⟨s2, h2⟩ := hb p s1
  exact ⟨s2, by rw [run_snoc, h1, h2]⟩

theorem Whole.append {a b : Text} (ha : Whole a) (hb : Whole b) : Whole (a ++ b) := by
  intro p sc
  obtain ⟨p1, s1, h1⟩ := ha p sc
  obtain ⟨p2, s2, h2⟩ := hb p1 s1
  exact ⟨p2, s2, by rw [run_snoc, h1, h2]⟩

theorem Harmless.append {a b : Text} (ha : Harmless a) (hb : Harmless b) : Harmless (a ++ b) := by
  intro sc
  obtain ⟨s1, h1⟩ := ha sc
  obtain ⟨s2, h2⟩ := hb s1
  exact ⟨s2, by rw [run_snoc, h1, h2]⟩

theorem Inert.of_noEsc {t : Text} (h : '\x1b' ∉ t) : Inert t := by
  intro p sc
  induction t generalizing sc with
  | nil => exact ⟨sc, rfl⟩
  | cons c t ih =>
    have hc : c ≠ '\x1b' := fun e => h (e ▸ List.mem_cons_self)
    obtain ⟨sc', h'⟩ := ih (fun hm => h (List.mem_cons_of_mem _ hm)) (sc ++ [(c, p)])
    refine ⟨sc', ?_⟩
    rw [← h']
    simp [Term.run, Term.step, hc]

/-- A character of any kind does not matter if another one than `[` follows. -/
theorem Inert.any_cons (c : Char) {d : Char} {t : Text} (hd : d ≠ '[') (hd' : d ≠ '\x1b') (h : Inert t) :
    Inert (c :: d :: t) := by
  intro p sc
  by_cases hc : c = '\x1b'
  · obtain ⟨sc', h'⟩ := h p sc
    exact ⟨sc', by rw [← h']; simp [Term.run, Term.step, hc, hd]⟩
  · obtain ⟨sc', h'⟩ := h p (sc ++ [(c, p)] ++ [(d, p)])
    exact ⟨sc', by rw [← h']; simp [Term.run, Term.step, hc, hd']⟩

theorem Inert.cons {c : Char} {t : Text} (hc : c ≠ '\x1b') (h : Inert t) : Inert (c :: t) :=
  Inert.append (a := [c]) (.of_noEsc (by simpa [eq_comm] using hc)) h

theorem run_code {code : Text} (h : ∀ c ∈ code, c.isDigit = true ∨ c = ';') (ps : List Nat) (n : Nat)
    (p : Pen) (sc : List (Char × Pen)) :
    ∃ ps' n', Term.run ⟨.csi ps n, p, sc⟩ code = ⟨.csi ps' n', p, sc⟩ := by
  induction code generalizing ps n with
  | nil => exact ⟨ps, n, rfl⟩
  | cons c code ih =>
    have hc := h c List.mem_cons_self
    have ih := ih fun c hc => h c (List.mem_cons_of_mem _ hc)
    by_cases hd : c.isDigit = true
    · obtain ⟨ps', n', h'⟩ := ih ps (n * 10 + (c.toNat - '0'.toNat))
      exact ⟨ps', n', by rw [← h']; simp [Term.run, Term.step, hd]⟩
    · obtain ⟨ps', n', h'⟩ := ih (ps ++ [n]) 0
      rcases hc with hc | hc
      · exact absurd hc hd
      · exact ⟨ps', n', by rw [← h']; simp [Term.run, Term.step, hc]⟩

/-- The text consists of digits and semicolons. -/
def Codes (code : Text) : Prop := ∀ c ∈ code, c.isDigit = true ∨ c = ';'

instance (code : Text) : Decidable (Codes code) := inferInstanceAs (Decidable (∀ c ∈ code, _))

theorem Codes.append {a b : Text} (ha : Codes a) (hb : Codes b) : Codes (a ++ b) := fun c hc =>
  (List.mem_append.1 hc).elim (ha c) (hb c)

theorem codes_decText (n : Nat) : Codes (decText n) := fun _ hc =>
  .inl (decText_mem hc)

theorem run_painted {code t : Text} (hc : Codes code) (h : Whole t) (p : Pen) (sc : List (Char × Pen)) :
    ∃ sc', Term.run ⟨.ground, p, sc⟩ (painted code t) = ⟨.ground, Pen.default, sc'⟩ := by
  obtain ⟨ps, n, h1⟩ := run_code hc [] 0 p sc
  obtain ⟨p2, s2, h2⟩ := h (Pen.apply (ps ++ [n]) p) sc
  refine ⟨s2, ?_⟩
  unfold painted
  rw [run_snoc, run_snoc, run_snoc, run_snoc]
  rw [show Term.run ⟨.ground, p, sc⟩ t!"\x1b[" = ⟨.csi [] 0, p, sc⟩ from rfl, h1]
  rw [show Term.run ⟨.csi ps n, p, sc⟩ t!"m" = ⟨.ground, Pen.apply (ps ++ [n]) p, sc⟩ from rfl, h2]
  rfl

theorem Whole.painted {code t : Text} (hc : Codes code) (h : Whole t) : Whole (painted code t) :=
  fun p sc => let ⟨sc', h'⟩ := run_painted hc h p sc; ⟨_, sc', h'⟩

theorem Harmless.painted {code t : Text} (hc : Codes code) (h : Whole t) : Harmless (painted code t) :=
  fun sc => run_painted hc h _ sc

theorem Inert.intercalate {sep : Text} {xs : List Text} (hs : Inert sep) (h : ∀ x ∈ xs, Inert x) :
    Inert (List.intercalate sep xs) := by
  induction xs with
  | nil => exact .nil
  | cons x xs ih =>
    cases xs with
    | nil => simpa [List.intercalate] using h x List.mem_cons_self
    | cons y ys =>
      have := ih fun z hz => h z (List.mem_cons_of_mem _ hz)
      have e : List.intercalate sep (x :: y :: ys) = x ++ (sep ++ List.intercalate sep (y :: ys)) := by
        simp [List.intercalate, List.intersperse]
      rw [e]
      exact (h x List.mem_cons_self).append (hs.append this)

theorem Harmless.intercalate {sep : Text} {xs : List Text} (hs : Harmless sep)
    (h : ∀ x ∈ xs, Harmless x) : Harmless (List.intercalate sep xs) := by
  induction xs with
  | nil => exact Inert.nil.harmless
  | cons x xs ih =>
    cases xs with
    | nil => simpa [List.intercalate] using h x List.mem_cons_self
    | cons y ys =>
      have := ih fun z hz => h z (List.mem_cons_of_mem _ hz)
      have e : List.intercalate sep (x :: y :: ys) = x ++ (sep ++ List.intercalate sep (y :: ys)) := by
        simp [List.intercalate, List.intersperse]
      rw [e]
      exact (h x List.mem_cons_self).append (hs.append this)

theorem Harmless.flatMap {α : Type} {xs : List α} {f : α → Text} (h : ∀ x ∈ xs, Harmless (f x)) :
    Harmless (xs.flatMap f) := by
  induction xs with
  | nil => exact Inert.nil.harmless
  | cons x xs ih =>
    rw [List.flatMap_cons]
    exact (h x List.mem_cons_self).append (ih fun y hy => h y (List.mem_cons_of_mem _ hy))

theorem inert_dec (n : Nat) : Inert (decText n) := .of_noEsc (decText_noEsc n)

/-! ### operators, listings -/

theorem Infix.inert {op : Infix} (h : Inert op.symbol) : Inert op.text := by
  cases op with
  | standard s => exact h
  | promoted s =>
    simp only [Infix.text]
    split
    · exact .cons (by decide) (h.append (.of_noEsc (by decide)))
    · exact .cons (by decide) h

theorem Fixity.written_harmless (fx : Fixity) {ops : List Infix} (h : ∀ op ∈ ops, Inert op.symbol) :
    Harmless (fx.written ops) := by
  unfold Fixity.written
  have h1 : '\x1b' ∉ fx.assoc.shown := by cases fx.assoc <;> decide
  refine .append (.append (.append (.append (.append (.painted (by decide) (Inert.of_noEsc h1).whole) ?_)
    ?_) (.painted (by decide) (inert_dec _).whole)) ?_) ?_
  · exact (Inert.of_noEsc fun h => absurd (List.eq_of_mem_replicate h) (by decide)).harmless
  · exact (Inert.of_noEsc (by decide)).harmless
  · exact (Inert.of_noEsc (by decide)).harmless
  · refine (Inert.intercalate (.of_noEsc (by decide)) fun x hx => ?_).harmless
    obtain ⟨op, ho, rfl⟩ := List.mem_map.1 hx
    exact Infix.inert (h op ho)

/-- All operators have names that do nothing to the terminal. -/
def Ledger.Inert (l : Ledger) : Prop := ∀ x ∈ l, Pemdas.Inert x.1.symbol

theorem listing_harmless {l : Ledger} (h : l.Inert) : Harmless (listingSent l) := by
  refine .intercalate (Inert.of_noEsc (by decide)).harmless fun x hx => ?_
  obtain ⟨fx, -, rfl⟩ := List.mem_map.1 hx
  refine Fixity.written_harmless _ fun op ho => ?_
  obtain ⟨y, hy, rfl⟩ := List.mem_map.1 ho
  exact h y (List.mem_filter.1 hy).1

end Pemdas
