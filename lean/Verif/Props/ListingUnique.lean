import Verif.Lemmas.ListingUnique
/-
C170: what is listed decides what is answered.
-/
namespace Pemdas
open Session

section
variable [CharTables] [LawfulTables]

/-- **C170** (part that holds) Nothing is hidden: if two sessions, whatever has happened in them, show the
same when all fixities are asked for, and their pending input and the place of the history are the same,
then they do the same for ever, crashes included, whatever is typed. (Missing: when all fixities are asked
for again, the lines may come in different orders, see `C170_order_wrong`; and histories with a carriage
return directly after a line feed, after which operators can have names with commas and line ends, see
`C170_shifted_wrong`.) -/
theorem C170_listed_partial {s s' : Session} {log log' : List Event} (h : History s log) (h' : History s' log')
    (ht : ∀ ev ∈ log ++ log', ev.Tidy) (hb : s.buffer = []) (hb' : s'.buffer = [])
    (hp : s.historyPath = s'.historyPath) {w w' : World} {line line' : Text} (hl : AsksAll line)
    (hl' : AsksAll line') {b b' : Bool} {s₁ s₁' : Session} {fx : List Effect}
    (hs : step w s line = .ok (b, s₁, fx)) (hs' : step w' s' line' = .ok (b', s₁', fx)) :
    Alike s s' ∧ ∀ inputs : List (World × Input),
      (∀ w line, (w, Input.line line) ∈ inputs → ¬ AsksAll line) →
      SameOutcome Alike (run s inputs) (run s' inputs) := by
  have shown : ∀ {s : Session} {log : List Event} (_ : History s log) (_ : s.buffer = []) {w : World}
      {line : Text} (_ : AsksAll line) {b : Bool} {s₁ : Session} {fx : List Effect},
      step w s line = .ok (b, s₁, fx) → fx = [.out (listingSent s.resolver.fixities ++ t!"\n")] := by
    intro s log h hb w line hl b s₁ fx hs
    obtain ⟨c, hc, hl⟩ := hl
    obtain ⟨l, h1, h2⟩ := C157_shown w h hb hl (by
      simp only [List.mem_cons, List.not_mem_nil, or_false] at hc ⊢
      rcases hc with rfl | rfl | rfl <;> simp)
    rw [(C157_ledger h l).1 h1]
    rw [h2] at hs
    cases hs
    rfl
  have e1 := shown h hb hl hs
  have e2 := shown h' hb' hl' hs'
  rw [e1] at e2
  simp only [List.cons.injEq, Effect.out.injEq, and_true] at e2
  have e3 := List.append_cancel_right e2
  have g := C80_reachable h
  have g' := C80_reachable h'
  have n := books_sourced (history_books h).2 (fun ev hev => ht ev (List.mem_append_left _ hev))
    (fun x hx => by cases hx)
  have n' := books_sourced (history_books h').2 (fun ev hev => ht ev (List.mem_append_right _ hev))
    (fun x hx => by cases hx)
  have mem := listing_unique (fun x hx => ⟨n x hx, g.1.2 x hx⟩) (fun x hx => ⟨n' x hx, g'.1.2 x hx⟩) e3
  have nd : ∀ {m : Fixities}, m.Wf → m.Nodup := fun hw =>
    (List.pairwise_map.1 hw).imp fun hne e => hne (by rw [e])
  have al : Alike s s' := by
    refine (alike_iff s s').2 ⟨hb.trans hb'.symm, hp, g.2.trans g'.2.symm, (history_books h).1, ?_⟩
    exact (List.perm_ext_iff_of_nodup (nd (history_books h).1) (nd (history_books h').1)).2 mem
  exact ⟨al, fun inputs hi => C136_sessions al inputs hi⟩

end

section
attribute [local instance] asciiTables asciiTables_lawful

/-- C170 is false for listings: two sessions that show the same list of fixities show them in different
orders after the same declaration. -/
theorem C170_order_wrong : ∃ s s' t,
    (run exStart ([t!"infixl 6 +", t!"infixl 7 *", t!"infixl 6 -"].map fun l => (exWorld, .line l))).toOption.map
      (·.2.1) = some s ∧
    (run exStart ([t!"infixl 6 +, -", t!"infixl 7 *"].map fun l => (exWorld, .line l))).toOption.map
      (·.2.1) = some s' ∧
    (s.buffer = [] ∧ s'.buffer = [] ∧ s.historyPath = s'.historyPath) ∧
    (step exWorld s t!":fixities").toOption.map (·.2.2) = some [.out t] ∧
    (step exWorld s' t!":fixities").toOption.map (·.2.2) = some [.out t] ∧
    (run s [(exWorld, .line t!"infixr 8 +"), (exWorld, .line t!":fixities")]).toOption.map (·.2.2) ≠
      (run s' [(exWorld, .line t!"infixr 8 +"), (exWorld, .line t!":fixities")]).toOption.map (·.2.2) := by
  refine ⟨⟨⟨[(opPlus, ⟨6, .left⟩), (opMul, ⟨7, .left⟩), (.standard t!"-", ⟨6, .left⟩)], []⟩, [], .initial,
      exStart.historyPath⟩,
    ⟨⟨[(opPlus, ⟨6, .left⟩), (.standard t!"-", ⟨6, .left⟩), (opMul, ⟨7, .left⟩)], []⟩, [], .initial,
      exStart.historyPath⟩,
    listingSent [(opPlus, ⟨6, .left⟩), (opMul, ⟨7, .left⟩), (.standard t!"-", ⟨6, .left⟩)] ++ t!"\n", ?_⟩
  decide +kernel

/-- C170 is false after carriage returns directly behind line feeds: a file with fifteen of them declares one
operator whose name is `+, -`, which is listed like the two operators `+` and `-`. -/
theorem C170_shifted_wrong : ∃ w s s' t,
    w.readFile t!"x" =
      .ok ((List.replicate 15 t!"\n\r").flatten ++ t!"\"infixl 6 +, -\";aaaaaa 6 ++++") ∧
    (run exStart [(w, .line t!":load x")]).toOption.map (·.2.1) = some s ∧
    (run exStart [(exWorld, .line t!"infixl 6 +, -")]).toOption.map (·.2.1) = some s' ∧
    (s.buffer = [] ∧ s'.buffer = [] ∧ s.historyPath = s'.historyPath) ∧
    (step exWorld s t!":fixities").toOption.map (·.2.2) = some [.out t] ∧
    (step exWorld s' t!":fixities").toOption.map (·.2.2) = some [.out t] ∧
    (step exWorld s t!"a + b * c").toOption.map (·.2.2) ≠
      (step exWorld s' t!"a + b * c").toOption.map (·.2.2) := by
  refine ⟨⟨fun _ => .ok ((List.replicate 15 t!"\n\r").flatten ++ t!"\"infixl 6 +, -\";aaaaaa 6 ++++"),
      fun _ => .ok (), fun _ _ => .ok []⟩,
    ⟨⟨[(.standard t!"+, -", ⟨6, .left⟩)], []⟩, [], .initial, exStart.historyPath⟩,
    ⟨⟨[(opPlus, ⟨6, .left⟩), (.standard t!"-", ⟨6, .left⟩)], []⟩, [], .initial, exStart.historyPath⟩,
    listingSent [(opPlus, ⟨6, .left⟩), (.standard t!"-", ⟨6, .left⟩)] ++ t!"\n", rfl, ?_⟩
  decide +kernel

/-- C170: names that the source can have, and a line that asks. -/
example : (Infix.promoted t!"f\n").Sourced ∧ (Infix.promoted t!", ").Sourced ∧ (Infix.standard t!"+₁").Sourced ∧
    AsksAll t!" :i " ∧ (Event.text t!"infixl 6 +\n").Tidy := by
  refine ⟨.inr ⟨_, _, rfl, by decide⟩, .inr ⟨_, _, rfl, by decide⟩, ⟨⟨by decide, by decide, by decide⟩, by decide⟩,
    ⟨t!":i", by decide, (says_iff (by decide)).2 (by decide)⟩, ?_⟩
  show NoLFCR _
  unfold NoLFCR
  decide +kernel

/-- C170: two sessions that list the same, and one step of each. -/
example : History exStart [] ∧ exStart.buffer = [] ∧
    (step exWorld exStart t!":fixities").toOption.map (·.2.2) =
      (step exWorld exStart t!" :i").toOption.map (·.2.2) :=
  ⟨.start _ _, rfl, by decide +kernel⟩

end
end Pemdas
