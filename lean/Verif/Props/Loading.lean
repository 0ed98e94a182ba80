import Verif.Lemmas.Loading
import Verif.Props.Apart
/-
C187: loading several files at once, loading again, loading in another order, and typing what is loaded.
-/
namespace Pemdas
open Session Resolver

/-- The operators for `:load --math`, one by one. -/
def mathDeclared : List InfixDecl :=
  [⟨[.standard t!"+"], ⟨6, .left⟩⟩, ⟨[.standard t!"-"], ⟨6, .left⟩⟩, ⟨[.standard t!"*"], ⟨6, .left⟩⟩,
   ⟨[.standard t!"/"], ⟨6, .left⟩⟩, ⟨[.standard t!"%"], ⟨6, .left⟩⟩, ⟨[.standard t!"^"], ⟨8, .right⟩⟩,
   ⟨[.standard t!"^^"], ⟨8, .right⟩⟩, ⟨[.standard t!"**"], ⟨8, .right⟩⟩]

/-- The operators for `:load --prelude`, one by one. -/
def preludeDeclared : List InfixDecl :=
  [⟨[.standard t!"$"], ⟨0, .right⟩⟩, ⟨[.standard t!">>="], ⟨1, .left⟩⟩, ⟨[.standard t!">>"], ⟨1, .left⟩⟩,
   ⟨[.standard t!"=<<"], ⟨1, .right⟩⟩, ⟨[.standard t!"||"], ⟨2, .right⟩⟩, ⟨[.standard t!"&&"], ⟨3, .right⟩⟩,
   ⟨[.standard t!"=="], ⟨4, .neither⟩⟩, ⟨[.standard t!"/="], ⟨4, .neither⟩⟩, ⟨[.standard t!"<"], ⟨4, .neither⟩⟩,
   ⟨[.standard t!"<="], ⟨4, .neither⟩⟩, ⟨[.standard t!">"], ⟨4, .neither⟩⟩, ⟨[.standard t!">="], ⟨4, .neither⟩⟩,
   ⟨[.promoted t!"elem"], ⟨4, .neither⟩⟩, ⟨[.standard t!":"], ⟨5, .right⟩⟩, ⟨[.standard t!"++"], ⟨5, .right⟩⟩,
   ⟨[.standard t!"<>"], ⟨6, .right⟩⟩, ⟨[.standard t!"+"], ⟨6, .left⟩⟩, ⟨[.standard t!"-"], ⟨6, .left⟩⟩,
   ⟨[.standard t!"*"], ⟨7, .left⟩⟩, ⟨[.standard t!"/"], ⟨7, .left⟩⟩, ⟨[.standard t!"%"], ⟨7, .left⟩⟩,
   ⟨[.standard t!"^"], ⟨8, .right⟩⟩, ⟨[.standard t!"^^"], ⟨8, .right⟩⟩, ⟨[.standard t!"**"], ⟨8, .right⟩⟩]

theorem loadArithmetic_declared (r : Resolver) :
    loadArithmetic r = (8, { r with fixities := loadDecls r.fixities mathDeclared }) := by
  simp only [loadArithmetic, mathDeclared, loadDecls, Fixities.insertMany, Fixity.plusMinus, Fixity.pow]

theorem loadHsPrelude_declared (r : Resolver) :
    loadHsPrelude r = (23, { r with fixities := loadDecls r.fixities preludeDeclared }) := by
  simp only [loadHsPrelude, preludeDeclared, loadDecls, Fixities.insertMany, Fixity.plusMinus, Fixity.pow,
    Fixity.multDivRem, Fixity.cons]

section
variable [CharTables]

theorem loadArg_math (w : World) (s : Session) : loadArg w s t!"--math" =
    .ok ({ s with resolver := { s.resolver with fixities := loadDecls s.resolver.fixities mathDeclared } },
      [sayLine (t!"loaded " ++ decText 8 ++ t!" fixities for arithmetic operators")]) := by
  rw [loadArg, if_neg (by decide), if_neg (by decide), if_pos rfl, loadArithmetic_declared]

theorem loadArg_prelude (w : World) (s : Session) : loadArg w s t!"--prelude" =
    .ok ({ s with resolver := { s.resolver with fixities := loadDecls s.resolver.fixities preludeDeclared } },
      [sayLine (t!"loaded " ++ decText 23 ++ t!" fixities from Haskell prelude")]) := by
  rw [loadArg, if_neg (by decide), if_pos rfl, loadHsPrelude_declared]

/-- **C187** (part that holds) Loading several files with one `:load` does exactly what loading some of them and then the
others does: the same files are read in the same order, the same is written, the session is the same, and it crashes if and
only if the others do. Missing: `--math` and `--prelude` among several arguments, see below. -/
theorem C187_several_partial (w : World) {s : Session} (hb : s.buffer = []) {line line₁ line₂ : Text} {ws₁ ws₂ : List Text}
    (h : Words line (t!":load" :: (ws₁ ++ ws₂))) (h₁ : Words line₁ (t!":load" :: ws₁))
    (h₂ : Words line₂ (t!":load" :: ws₂)) (n₁ : ws₁ ≠ []) (n₂ : ws₂ ≠ [])
    (o₁ : ws₁ ≠ [t!"--math"] ∧ ws₁ ≠ [t!"--prelude"]) (o₂ : ws₂ ≠ [t!"--math"] ∧ ws₂ ≠ [t!"--prelude"]) :
    step w s line = (do
      let (_, s₁, out₁) ← step w s line₁
      let (b, s₂, out₂) ← step w s₁ line₂
      .ok (b, s₂, out₁ ++ out₂)) := by
  have hne : ∀ o : Text, ws₁ ++ ws₂ ≠ [o] := by
    intro o e
    have := congrArg List.length e
    have h1 := List.length_pos_iff.2 n₁
    have h2 := List.length_pos_iff.2 n₂
    simp at this
    omega
  rw [load_files w hb h (by simp [n₁]) (hne _) (hne _), load_files w hb h₁ n₁ o₁.1 o₁.2, loadPaths_append]
  cases hl : loadPaths w s ws₁ with
  | error e => rfl
  | ok x =>
    obtain ⟨s₁, out₁⟩ := x
    simp only [bind, Except.bind, Except.map]
    rw [load_files w ((loadPaths_buffer hl).trans hb) h₂ n₂ o₂.1 o₂.2]
    cases loadPaths w s₁ ws₂ <;> rfl

/-- **C187** (part that holds) The same `:load`, with a file that still has the same content or with an option, entered
once more changes nothing and writes the same. Missing: files with a `let` that names an operator twice. -/
theorem C187_again_partial {w w' : World} {s s₁ : Session} {log : List Event} (hh : History s log) (hb : s.buffer = [])
    {line word : Text} (h : Words line [t!":load", word]) (hf : w'.readFile = w.readFile)
    (hn : ∀ p content t, Opens word p → w.readFile p = .ok content → FileText p content t → NoDupIn t)
    {b : Bool} {out : List Effect} (hs : step w s line = .ok (b, s₁, out)) : step w' s₁ line = .ok (b, s₁, out) := by
  obtain ⟨hw, -⟩ := history_after hh
  have he := C14_no_pending_error hh
  obtain ⟨rest, hr, e⟩ := load_words w hb h
  have ht := hr.trim_one
  rw [ht] at e
  have hr' : ∀ {w : World} {s : Session}, s.buffer = [] → step w s line = (loadArg w s word).map (true, ·) := by
    intro w s hb
    obtain ⟨rest, hr, e⟩ := load_words w hb h
    rw [e, hr.trim_one]
  have h0 : word ≠ [] := by
    rintro rfl
    have := (Words.trim.2 hr).unique (.nil (by simp [ht, Blank]))
    cases this
  rw [e] at hs
  by_cases hp : word = t!"--prelude"
  · rw [hp, loadArg_prelude] at hs
    simp only [Except.map, Except.ok.injEq, Prod.mk.injEq] at hs
    obtain ⟨rfl, rfl, rfl⟩ := hs
    rw [hr' (by exact hb), hp, loadArg_prelude]
    simp only [loadDecls_twice hw, Except.map]
  · by_cases hm : word = t!"--math"
    · rw [hm, loadArg_math] at hs
      simp only [Except.map, Except.ok.injEq, Prod.mk.injEq] at hs
      obtain ⟨rfl, rfl, rfl⟩ := hs
      rw [hr' (by exact hb), hm, loadArg_math]
      simp only [loadDecls_twice hw, Except.map]
    · have hws : splitWhitespace word = [word] := by
        rw [splitWhitespace_iff, ← ht]
        exact ht.symm ▸ Words.trim.2 hr
      rw [loadArg, if_neg h0, if_neg hp, if_neg hm, hws] at hs
      have key : ∀ {w : World} {s : Session} {p : Text}, s.buffer = [] → unquote word = .ok p →
          step w s line = (readFile w s p).map (true, ·) := by
        intro w s p hb hu
        rw [hr' hb, loadArg, if_neg h0, if_neg hp, if_neg hm, hws]
        simp only [loadPaths, hu, bind, Except.bind]
        cases readFile w s p with
        | error e => rfl
        | ok x => simp [Except.map]
      cases hu : unquote word with
      | error e => simp only [loadPaths, hu, bind, Except.bind, Except.map] at hs; cases hs
      | ok p =>
        have hk := key (w := w) hb hu
        rw [hr' hb, loadArg, if_neg h0, if_neg hp, if_neg hm, hws] at hk
        rw [hk] at hs
        unfold readFile at hs
        cases hc : w.readFile p with
        | error k =>
          simp only [hc, Except.map] at hs
          cases hs
          rw [key hb hu, readFile, hf, hc]; rfl
        | ok content =>
          simp only [hc] at hs
          have hd := hn p content _ (unquote_opens.1 hu) hc (fileText_iff.2 rfl)
          cases hfi : feedInput s (fileInput p content) with
          | error e => simp only [hfi, Except.map] at hs; cases hs
          | ok x =>
            obtain ⟨res, s'⟩ := x
            obtain ⟨-, h2⟩ := feedInput_twice he hw hd hfi
            have hb' := (feedInput_buffer hfi).trans hb
            simp only [hfi] at hs
            cases res with
            | ok ast =>
              simp only [Except.map] at hs
              cases hs
              rw [key hb' hu, readFile, hf, hc]
              simp only [h2]
              rfl
            | error err =>
              simp only at hs
              cases hx : err.textWithPath p with
              | error q => rw [hx] at hs; cases hs
              | ok t =>
                rw [hx] at hs
                simp only [Except.map] at hs
                cases hs
                rw [key hb' hu, readFile, hf, hc]
                simp only [h2, hx]
                rfl

omit [CharTables] in
/-- **C187** (part that holds) Whether `:load --math` comes before or after `:load --prelude` does not matter to the
operators other than `*`, `/` and `%`. Missing: these three, see below. -/
theorem C187_order_partial (r : Resolver) (op : Infix) (h : op.symbol ∉ [t!"*", t!"/", t!"%"]) :
    (loadHsPrelude (loadArithmetic r).2).2.fixities.getDefined op =
      (loadArithmetic (loadHsPrelude r).2).2.fixities.getDefined op := by
  rw [C19_prelude_fixities, C18_math_partial, C18_math_partial, C19_prelude_fixities]
  by_cases h1 : op.symbol ∈ [t!"^", t!"^^", t!"**"]
  · rw [if_pos h1]
    generalize op.symbol = o at h1
    simp only [List.mem_cons, List.not_mem_nil, or_false] at h1
    rcases h1 with rfl | rfl | rfl <;> rfl
  · rw [if_neg h1]
    by_cases h2 : op.symbol ∈ [t!"+", t!"-", t!"*", t!"/", t!"%"]
    · rw [if_pos h2]
      generalize op.symbol = o at h h2
      simp only [List.mem_cons, List.not_mem_nil, or_false, not_or] at h h2
      rcases h2 with rfl | rfl | rfl | rfl | rfl
      · rfl
      · rfl
      · exact absurd rfl h.1
      · exact absurd rfl h.2.1
      · exact absurd rfl h.2.2
    · rw [if_neg h2]
      simp [h1, h2]

variable [LawfulTables]

/-- **C187** `:load --math` and `:load --prelude` leave exactly what typing the declarations of the operators leaves,
whether these are typed one by one or those of the same fixity together. -/
theorem C187_typed (w : World) {s : Session} {log : List Event} (hh : History s log) (hb : s.buffer = [])
    {line line' src word : Text} {ds : List InfixDecl} (h : Words line [t!":load", word])
    (hd : word = t!"--math" ∧ ds = mathDeclared ∨ word = t!"--prelude" ∧ ds = preludeDeclared)
    (hc : Completes s line' src) {ast : Ast} {l : Lexer} (hp : parse src = .ok ast l) (hx : ast.exprs = [])
    (hi : ast.infxs.flatMap InfixDecl.singly = ds) :
    ∃ s₁ s₂ out₁ out₂, step w s line = .ok (true, s₁, out₁) ∧ step w s line' = .ok (true, s₂, out₂) ∧
      s₁.resolver = s₂.resolver := by
  have he := C14_no_pending_error hh
  obtain ⟨s₂, xs, es, fx, -, a2, -, a4⟩ := input_leaves w hh hc hp (by rw [hx]; simp)
  obtain ⟨rest, hr, e⟩ := load_words w hb h
  rw [hr.trim_one] at e
  rcases hd with ⟨rfl, hd⟩ | ⟨rfl, hd⟩
  · rw [loadArg_math] at e
    refine ⟨_, s₂, _, _, e, a2, ?_⟩
    rw [a4, ← loadDecls_flat _ ast.infxs, hi, hd]
    simp only [he]
  · rw [loadArg_prelude] at e
    refine ⟨_, s₂, _, _, e, a2, ?_⟩
    rw [a4, ← loadDecls_flat _ ast.infxs, hi, hd]
    simp only [he]

end

/-! ### concrete cases -/

section
attribute [local instance] asciiTables asciiTables_lawful

/-- Two files. -/
def twoFiles : World :=
  { exWorld with
    readFile := fun p =>
      if p = t!"a" then .ok (t!"infixl 6 +")
      else if p = t!"b" then .ok (t!"infixr 5 +")
      else .error (t!"no file") }

/-- C187: the file that is loaded last decides. -/
example : ((step twoFiles exStart t!":load a b").toOption.map (·.2.1.resolver.fixities)) = some [(opPlus, ⟨5, .right⟩)] ∧
    ((step twoFiles exStart t!":load b  a").toOption.map (·.2.1.resolver.fixities)) = some [(opPlus, ⟨6, .left⟩)] ∧
    Words t!":load b  a" (t!":load" :: ([t!"b"] ++ [t!"a"])) :=
  ⟨by decide +kernel, by decide +kernel, splitWhitespace_iff.1 (by decide)⟩

/-- C187: the hypotheses of `C187_again_partial` are met. -/
example : Words t!":load a" [t!":load", t!"a"] ∧ exStart.buffer = [] ∧ History exStart [] ∧
    (∀ p content t, Opens t!"a" p → twoFiles.readFile p = .ok content → FileText p content t → NoDupIn t) ∧
    ∃ s out, step twoFiles exStart t!":load a" = .ok (true, s, out) ∧ s.resolver.fixities = [(opPlus, ⟨6, .left⟩)] := by
  refine ⟨splitWhitespace_iff.1 (by decide), rfl, .start _ _, ?_, ?_⟩
  · intro p content t ho hr ht
    have hp : p = t!"a" := by simpa [Opens] using ho
    subst hp
    have hc : content = t!"infixl 6 +" := by
      simp only [twoFiles, if_true, Except.ok.injEq] at hr
      exact hr.symm
    subst hc
    have ht' : t = t!"infixl 6 +" := by
      rw [fileText_iff] at ht
      rw [ht]
      decide
    subst ht'
    intro ast l h
    obtain ⟨l', h'⟩ := of_value (src := t!"infixl 6 +") (ast := ⟨[.infix_], [⟨[opPlus], ⟨6, .left⟩⟩], []⟩)
      (by decide +kernel)
    rw [h'] at h
    cases h
    simp
  · have h : (step twoFiles exStart t!":load a").toOption.map (fun x => (x.1, x.2.1.resolver.fixities)) =
        some (true, [(opPlus, ⟨6, .left⟩)]) := by decide +kernel
    cases hs : step twoFiles exStart t!":load a" with
    | error e => rw [hs] at h; cases h
    | ok x =>
      obtain ⟨b, s, out⟩ := x
      rw [hs] at h
      simp only [Except.toOption, Option.map_some, Option.some.injEq, Prod.mk.injEq] at h
      exact ⟨s, out, by rw [h.1], h.2⟩

/-- C187: typing what `:load --math` loads. -/
example : ∃ l ast, parse t!"infixl 6 +, -, *, /, %\ninfixr 8 ^, ^^, **" = .ok ast l ∧ ast.exprs = [] ∧
    ast.infxs.flatMap InfixDecl.singly = mathDeclared := by
  obtain ⟨l, h⟩ := of_value (src := t!"infixl 6 +, -, *, /, %\ninfixr 8 ^, ^^, **")
    (ast := ⟨[.infix_, .infix_], [⟨[.standard t!"+", .standard t!"-", .standard t!"*", .standard t!"/", .standard t!"%"],
      ⟨6, .left⟩⟩, ⟨[.standard t!"^", .standard t!"^^", .standard t!"**"], ⟨8, .right⟩⟩], []⟩) (by decide +kernel)
  exact ⟨l, _, h, rfl, rfl⟩

/-- C187 is false: among several arguments, options are taken for files, whereas one by one they are options. -/
theorem C187_several_wrong :
    ((step twoFiles exStart t!":load --math a").toOption.map fun x => (x.2.2.head?, x.2.1.resolver.fixities)) =
      some (some (.read t!"--math"), [(opPlus, ⟨6, .left⟩)]) ∧
    ((step twoFiles exStart t!":load --math").toOption.map fun x => x.2.1.resolver.fixities.length) = some 8 := by
  decide +kernel

/-- C187 is false: the two built-in tables contradict each other, so that their order matters. -/
theorem C187_order_wrong :
    exShown [t!":load --math", t!":load --prelude", t!"a + b * c"] =
      some [t!"loaded 8 fixities for arithmetic operators\n", t!"loaded 23 fixities from Haskell prelude\n",
        t!"  a + (b * c)\n"] ∧
    exShown [t!":load --prelude", t!":load --math", t!"a + b * c"] =
      some [t!"loaded 23 fixities from Haskell prelude\n", t!"loaded 8 fixities for arithmetic operators\n",
        t!"  (a + b) * c\n"] := by
  decide +kernel

end
end Pemdas
