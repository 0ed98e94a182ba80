import Verif.Spec.Quoted
import Verif.Lemmas.PrintBalance
import Verif.Props.Symbol
/-
C135: quoted texts, characters and symbols can be told apart.
-/
namespace Pemdas
open Lexicon

private theorem hexText_spec (n : Nat) : hexText n ≠ [] ∧ (hexText n).all isHexDigit = true ∧
    hexValue (hexText n) = n := by
  refine ⟨Nat.toDigits_ne_nil, ?_, ?_⟩
  · rw [List.all_eq_true]
    exact fun c hc => hexText_mem hc
  · have digit : ∀ d, d < 16 → hexDigit (Nat.digitChar d) = d := by decide
    unfold hexText
    induction n using Nat.strongRecOn with
    | ind n ih =>
      rw [Nat.toDigits_eq_if (by decide)]
      split
      · rename_i hn
        simp only [hexValue, List.foldl_cons, List.foldl_nil, Nat.zero_mul, Nat.zero_add]
        exact digit n hn
      · have := ih (n / 16) (by omega)
        unfold hexValue at this ⊢
        rw [List.foldl_append, this]
        simp only [List.foldl_cons, List.foldl_nil]
        rw [digit _ (Nat.mod_lt _ (by decide))]
        omega

/-- **C135** A quoted text denotes one text only. -/
theorem C135_unique {q : Char} {w s s' : Text} (h : Quoted q w s) (h' : Quoted q w s') :
    s = s' := by
  have brace : ∀ {ds : Text}, ds.all isHexDigit = true → '}' ∉ ds := fun h hm => by
    have := List.all_eq_true.1 h _ hm
    revert this; decide
  have split : ∀ {a b x y : Text}, '}' ∉ a → '}' ∉ b → a ++ '}' :: x = b ++ '}' :: y →
      a = b ∧ x = y := by
    intro a b x y ha hb e
    induction a generalizing b with
    | nil =>
      cases b with
      | nil => simpa using e
      | cons d b => injection e with e1 _; exact absurd (by rw [e1]; exact List.mem_cons_self) hb
    | cons c a ih =>
      cases b with
      | nil => injection e with e1 _; exact absurd (by rw [e1]; exact List.mem_cons_self) ha
      | cons d b =>
        injection e with e1 e2
        obtain ⟨h1, h2⟩ := ih (fun h => ha (by simp [h])) (fun h => hb (by simp [h])) e2
        exact ⟨by rw [e1, h1], h2⟩
  have key : ∀ {c d k : Char}, (c, k) ∈ shortEscapes → (d, k) ∈ shortEscapes → c = d := by
    have : ∀ x ∈ shortEscapes, ∀ y ∈ shortEscapes, x.2 = y.2 → x.1 = y.1 := by decide
    exact fun {_ _ _} h1 h2 => this _ h1 _ h2 rfl
  have nou : ∀ {c : Char}, (c, 'u') ∉ shortEscapes := by
    have : ∀ x ∈ shortEscapes, x.2 ≠ 'u' := by decide
    exact fun {_} h => this _ h rfl
  induction h generalizing s' with
  | nil => cases h'; rfl
  | @char c w s hq hn hw ih =>
    cases h' with
    | char _ _ h => rw [ih h]
    | short => exact absurd (by decide) hn
    | long => exact absurd (by decide) hn
  | @short c k w s hm _ hw ih =>
    cases h' with
    | char _ hn _ => exact absurd (by decide) hn
    | short hm' _ h => rw [ih h, key hm hm']
    | long => exact absurd hm nou
  | @long c ds w s hne hd hv hw ih =>
    generalize hx : t!"\\u{" ++ (ds ++ '}' :: w) = x at h'
    cases h' with
    | nil => cases hx
    | char _ hn _ => injection hx with h1 _; exact absurd (by rw [← h1]; decide) hn
    | short hm' _ h =>
      injection hx with _ h1
      injection h1 with h1 _
      exact absurd (h1 ▸ hm') nou
    | @long d es y t _ hd' hv' h =>
      have hx := List.append_cancel_left hx
      obtain ⟨rfl, rfl⟩ := split (brace hd) (brace hd') hx
      rw [ih h, Char.toNat_inj.1 (hv.symm.trans hv')]

section
variable [CharTables]

private theorem escape_quoted {q : Char} (b d : Bool) (hq : q = '\'' ∨ q = '"') (hb : b = true ↔ q = '\'')
    (hd : d = true ↔ q = '"') (c : Char) {w s : Text} (h : Quoted q w s) :
    Quoted q (escapeDebug b d c ++ w) (c :: s) := by
  have long : Quoted q (t!"\\u{" ++ hexText c.toNat ++ t!"}" ++ w) (c :: s) := by
    obtain ⟨h1, h2, h3⟩ := hexText_spec c.toNat
    have := Quoted.long h1 h2 h3 h
    simpa using this
  have short : ∀ k, (c, k) ∈ shortEscapes → (c = '"' ∨ c = '\'' → c = q) →
      Quoted q (['\\', k] ++ w) (c :: s) := fun k hk hq => .short hk hq h
  unfold escapeDebug
  split
  · rename_i e; subst e; exact short '0' (by decide) (fun h => absurd h (by decide))
  split
  · rename_i e; subst e; exact short 't' (by decide) (fun h => absurd h (by decide))
  split
  · rename_i e; subst e; exact short 'r' (by decide) (fun h => absurd h (by decide))
  split
  · rename_i e; subst e; exact short 'n' (by decide) (fun h => absurd h (by decide))
  split
  · rename_i e; subst e; exact short '\\' (by decide) (fun h => absurd h (by decide))
  split
  · rename_i e; obtain ⟨rfl, e⟩ := e; exact short '"' (by decide) (fun _ => (hd.1 e).symm)
  split
  · rename_i e; obtain ⟨rfl, e⟩ := e; exact short '\'' (by decide) (fun _ => (hb.1 e).symm)
  split
  · exact long
  split
  · rename_i h1 h2 h3 h4 h5 h6 h7 _ _
    refine .char (fun e => ?_) (by simp [h1, h2, h3, h4, h5]) h
    subst e
    rcases hq with e | e
    · exact h7 ⟨e, hb.2 e⟩
    · exact h6 ⟨e, hd.2 e⟩
  · exact long

/-- **C135** A string is shown between double quotes, where what is shown stands for the string
and has no double quote, line end or tabulator of its own. -/
theorem C135_string (s : Text) : ∃ w, debugStr s = '"' :: (w ++ t!"\"") ∧ Quoted '"' w s := by
  refine ⟨_, rfl, ?_⟩
  induction s with
  | nil => exact .nil
  | cons c s ih =>
    rw [List.flatMap_cons]
    exact escape_quoted false true (.inr rfl) (by decide) (by decide) c ih

/-- **C135** A character is shown between single quotes. -/
theorem C135_char (c : Char) : ∃ w, debugChar c = '\'' :: (w ++ t!"'") ∧ Quoted '\'' w [c] := by
  refine ⟨_, rfl, ?_⟩
  have := escape_quoted true false (.inl rfl) (by decide) (by decide) c (Quoted.nil (q := '\''))
  simpa using this

/-- **C135** Different strings are shown differently, and so are different characters. -/
theorem C135_told_apart :
    (∀ s t : Text, debugStr s = debugStr t → s = t) ∧
    (∀ c d : Char, debugChar c = debugChar d → c = d) := by
  constructor
  · intro s t h
    obtain ⟨w, h1, h2⟩ := C135_string s
    obtain ⟨v, h3, h4⟩ := C135_string t
    rw [h1, h3] at h
    injection h with _ h
    obtain rfl := List.append_cancel_right h
    exact C135_unique h2 h4
  · intro c d h
    obtain ⟨w, h1, h2⟩ := C135_char c
    obtain ⟨v, h3, h4⟩ := C135_char d
    rw [h1, h3] at h
    injection h with _ h
    obtain rfl := List.append_cancel_right h
    exact List.singleton_inj.1 (C135_unique h2 h4)

/-- **C135** Literals without a fraction are shown differently when they are different, be they
characters, strings or integers.  (Fractions are not: see C94.) -/
theorem C135_literals {l l' : Literal} (hl : ∀ f, l ≠ .frac f) (hl' : ∀ f, l' ≠ .frac f)
    (h : l.text = l'.text) : l = l' := by
  have dig : ∀ n : Nat, ∃ c w, decText n = c :: w ∧ c.isDigit = true := by
    intro n
    have hm : ∀ c ∈ decText n, c.isDigit = true :=
      fun c hc => Nat.isDigit_of_mem_toDigits (by decide) (by decide) hc
    have hn : decText n ≠ [] := Nat.toDigits_ne_nil
    revert hm hn
    cases decText n with
    | nil => exact fun _ h => absurd rfl h
    | cons c w => exact fun hm _ => ⟨c, w, rfl, hm c List.mem_cons_self⟩
  rcases l with c | s | n | f <;> rcases l' with d | t | m | g
  all_goals first
    | exact absurd rfl (hl _)
    | exact absurd rfl (hl' _)
    | skip
  · rw [C135_told_apart.2 c d h]
  · cases h
  · obtain ⟨x, w, e, hx⟩ := dig m
    rw [show Literal.text (.int m) = _ from e] at h
    injection h with h _; rw [← h] at hx; cases hx
  · cases h
  · rw [C135_told_apart.1 s t h]
  · obtain ⟨x, w, e, hx⟩ := dig m
    rw [show Literal.text (.int m) = _ from e] at h
    injection h with h _; rw [← h] at hx; cases hx
  · obtain ⟨x, w, e, hx⟩ := dig n
    rw [show Literal.text (.int n) = _ from e] at h
    injection h with h _; rw [h] at hx; cases hx
  · obtain ⟨x, w, e, hx⟩ := dig n
    rw [show Literal.text (.int n) = _ from e] at h
    injection h with h _; rw [h] at hx; cases hx
  · have := congrArg (fun s => Nat.ofDigitChars 10 s 0) (show decText n = decText m from h)
    simp only [decText, Nat.ofDigitChars_ten_toDigits] at this
    rw [this]

/-- **C135** What Rust's `{:?}` shows of a symbol gives its number and its text. -/
theorem C135_symbols (sl : Slack) (hist : List Text)
    (hd : AtMostDistinct (2 ^ 32) (predefined ++ hist)) (i : Nat) (t : Text)
    (hi : hist[i]? = some t) :
    ∃ s, symbolAt sl hist i = some s ∧
      let l := (internAll sl hist (Lexicon.default sl)).2
      Symbol.debugText l s = .ok (t!"Symbol(" ++ (toString s).toList ++ t!")(" ++ debugStr t ++ t!")") ∧
      Symbol.debugWrapped l s = .ok (t!"Symbol(Symbol(" ++ (toString s).toList ++ t!")(" ++
        debugStr t ++ t!"))") := by
  obtain ⟨s, h1, h2, -⟩ := C92_symbol_as_text sl hist hd i t hi
  refine ⟨s, h1, ?_⟩
  have e : (toString s).toList = decText s := by simp [toString, decText]
  simp only [Symbol.debugWrapped, Symbol.debugText, h2, e, bind, Except.bind, pure, Except.pure,
    List.append_assoc, List.cons_append, List.nil_append, and_self]

/-- **C135** So it tells symbols apart, even those of different interners. -/
theorem C135_symbols_told_apart {l l' : Lexicon} {s s' : Nat} {x : Text}
    (h : Symbol.debugText l s = .ok x) (h' : Symbol.debugText l' s' = .ok x) :
    s = s' ∧ Symbol.asStr l s = Symbol.asStr l' s' := by
  unfold Symbol.debugText at h h'
  cases ha : Symbol.asStr l s with
  | error p => rw [ha] at h; cases h
  | ok t =>
    cases hb : Symbol.asStr l' s' with
    | error p => rw [hb] at h'; cases h'
    | ok t' =>
      rw [ha] at h; rw [hb] at h'
      simp only [bind, Except.bind, pure, Except.pure, Except.ok.injEq] at h h'
      have e := h.trans h'.symm
      simp only [List.append_assoc] at e
      have e := List.append_cancel_left e
      have stop : ∀ {a b x y : Text}, ')' ∉ a → ')' ∉ b → a ++ ')' :: x = b ++ ')' :: y →
          a = b ∧ x = y := by
        intro a b x y ha hb e
        induction a generalizing b with
        | nil =>
          cases b with
          | nil => simpa using e
          | cons d b =>
            injection e with e1 _; exact absurd (by rw [e1]; exact List.mem_cons_self) hb
        | cons c a ih =>
          cases b with
          | nil => injection e with e1 _; exact absurd (by rw [e1]; exact List.mem_cons_self) ha
          | cons d b =>
            injection e with e1 e2
            obtain ⟨h1, h2⟩ := ih (fun h => ha (by simp [h])) (fun h => hb (by simp [h])) e2
            exact ⟨by rw [e1, h1], h2⟩
      have hd : ∀ n, ')' ∉ decText n := fun n h => by
        have : (')').isDigit = true := Nat.isDigit_of_mem_toDigits (by decide) (by decide) h
        exact absurd this (by decide)
      obtain ⟨e1, e2⟩ := stop (hd s) (hd s') e
      have e1 : s = s' := by
        have := congrArg (fun s => Nat.ofDigitChars 10 s 0) e1
        simpa only [decText, Nat.ofDigitChars_ten_toDigits] using this
      injection e2 with _ e2
      exact ⟨e1, by rw [C135_told_apart.1 t t' (List.append_cancel_right e2)]⟩

end

attribute [local instance] asciiTables asciiTables_lawful in
/-- A text with a quote, a tabulator, an accent that cannot be shown, and a number. -/
example : debugStr t!"a\"\té1" = t!"\"a\\\"\\t\\u{e9}1\"" ∧ debugChar '\'' = t!"'\\''" ∧
    debugChar '"' = t!"'\"'" ∧ debugStr t!"'" = t!"\"'\"" ∧
    Symbol.debugText (internAll (fun _ _ => 0) [t!"f\n"] (Lexicon.default fun _ _ => 0)).2 28 =
      .ok t!"Symbol(28)(\"f\\n\")" := by
  decide +kernel

end Pemdas
