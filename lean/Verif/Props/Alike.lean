import Verif.Lemmas.Alike
import Verif.Props.SessionMore
/-
C136: the prompt and the order of the declarations are for show; clearing starts afresh.
-/
namespace Pemdas
open Session Resolver

/-! ### orders of declarations -/

namespace Fixities

theorem perm_insert_comm {m : Fixities} {a b : Infix} {f g : Fixity} (h : a.symbol ≠ b.symbol) :
    ((m.insert a f).2.insert b g).2.Perm ((m.insert b g).2.insert a f).2 := by
  induction m with
  | nil =>
    simp only [insert, if_neg h, if_neg h.symm]
    exact .swap _ _ _
  | cons x m ih =>
    obtain ⟨k, v⟩ := x
    simp only [insert]
    by_cases h1 : k.symbol = a.symbol
    · have h2 : ¬ k.symbol = b.symbol := fun e => h (h1.symm.trans e)
      simp only [insert, if_pos h1, if_neg h2]
      exact .refl _
    · by_cases h2 : k.symbol = b.symbol
      · simp only [insert, if_pos h2, if_neg h1]
        exact .refl _
      · simp only [insert, if_neg h1, if_neg h2]
        exact ih.cons _

/-- Insert one entry after the other. -/
def insertAll (m : Fixities) (es : List (Infix × Fixity)) : Fixities :=
  es.foldl (fun m e => (m.insert e.1 e.2).2) m

theorem insertAll_append (m : Fixities) (es es' : List (Infix × Fixity)) :
    m.insertAll (es ++ es') = (m.insertAll es).insertAll es' := List.foldl_append ..

theorem wf_insertAll {m : Fixities} (hw : m.Wf) (es : List (Infix × Fixity)) :
    (m.insertAll es).Wf := by
  induction es generalizing m with
  | nil => exact hw
  | cons e es ih => exact ih (wf_insert hw _ _)

theorem perm_insertAll {m m' : Fixities} (h : m.Perm m') (hw : m.Wf) (es : List (Infix × Fixity)) :
    (m.insertAll es).Perm (m'.insertAll es) := by
  induction es generalizing m m' with
  | nil => exact h
  | cons e es ih => exact ih (perm_insert h hw _ _) (wf_insert hw _ _)

theorem perm_insertAll_one {m : Fixities} (hw : m.Wf) {a : Infix × Fixity}
    {es : List (Infix × Fixity)} (h : ∀ e ∈ es, a.1.symbol ≠ e.1.symbol) :
    ((m.insert a.1 a.2).2.insertAll es).Perm ((m.insertAll es).insert a.1 a.2).2 := by
  induction es generalizing m with
  | nil => exact .refl _
  | cons e es ih =>
    have h1 := perm_insertAll (perm_insert_comm (m := m) (f := a.2) (g := e.2) (h e (by simp)))
      (wf_insert (wf_insert hw _ _) _ _) es
    exact h1.trans (ih (wf_insert hw _ _) fun x hx => h x (by simp [hx]))

theorem perm_insertAll_comm {m : Fixities} (hw : m.Wf) {es es' : List (Infix × Fixity)}
    (h : ∀ e ∈ es, ∀ e' ∈ es', e.1.symbol ≠ e'.1.symbol) :
    ((m.insertAll es).insertAll es').Perm ((m.insertAll es').insertAll es) := by
  induction es generalizing m with
  | nil => exact .refl _
  | cons e es ih =>
    refine (ih (wf_insert hw _ _) fun x hx => h x (by simp [hx])).trans ?_
    exact perm_insertAll (perm_insertAll_one hw (h e (by simp)))
      (wf_insertAll (wf_insert hw _ _) _) _

theorem insertAll_many (m : Fixities) (fx : Fixity) (ops : List Infix) :
    m.insertAll (ops.map fun op => (op, fx)) = m.insertMany fx ops := by
  induction ops generalizing m with
  | nil => rfl
  | cons op ops ih => exact ih _

theorem insertAll_declared (m : Fixities) (ds : List InfixDecl) :
    m.insertAll (declared ds) = loadDecls m ds := by
  induction ds generalizing m with
  | nil => rfl
  | cons d ds ih =>
    have : declared (d :: ds) = d.infixes.map (fun op => (op, d.fixity)) ++ declared ds := rfl
    rw [this, insertAll_append, insertAll_many, ih]
    rfl

end Fixities

section
variable [CharTables] [LawfulTables]

omit [CharTables] [LawfulTables] in
theorem sameOutcome_of_sim {R : Fixities → Fixities → Prop} {S : Session → Session → Prop}
    (hS : ∀ s s', SimS R s s' → S s s') {x x' : Cmd} (h : SimC R x x') : SameOutcome S x x' := by
  match x, x', h with
  | .ok (b, s, fx), .ok (_, s', _), h => obtain ⟨rfl, h, rfl⟩ := h; exact .ok (hS _ _ h)
  | .error e, .error _, h => cases h; exact .crash

omit [LawfulTables] in
theorem sameOutcome_run {S : Session → Session → Prop} {P : Text → Prop}
    (hs : ∀ w line s s', P line → S s s' → SameOutcome S (step w s line) (step w s' line))
    (inputs : List (World × Input)) (hi : ∀ w line, (w, Input.line line) ∈ inputs → P line) :
    ∀ s s', S s s' → SameOutcome S (run s inputs) (run s' inputs) := by
  have after : ∀ (f : Bool × Session × List Effect → Bool × Session × List Effect)
      (g : List Effect → List Effect), (∀ b s fx, f (b, s, fx) = (b, s, g fx)) → ∀ {x x' : Cmd},
      SameOutcome S x x' → SameOutcome S (x >>= fun y => .ok (f y)) (x' >>= fun y => .ok (f y)) := by
    intro f g hf x x' h
    cases h with
    | ok h =>
      simp only [bind, Except.bind, hf]
      exact .ok h
    | crash => exact .crash
  induction inputs with
  | nil => intro s s' h; exact .ok h
  | cons x rest ih =>
    intro s s' h
    replace ih := ih fun w line hm => hi w line (by simp [hm])
    obtain ⟨w, i⟩ := x
    cases i with
    | eof => exact .ok h
    | interrupted => exact .ok h
    | error e => exact after (fun y => (y.1, y.2.1, _ :: y.2.2)) _ (fun _ _ _ => rfl) (ih s s' h)
    | line l =>
      simp only [run]
      have hs := hs w l s s' (hi w l (by simp)) h
      generalize step w s l = x, step w s' l = x' at hs
      cases hs with
      | crash => exact .crash
      | @ok b t t' fx h =>
        cases b with
        | false => exact .ok h
        | true => exact after (fun y => (y.1, y.2.1, fx ++ y.2.2)) _ (fun _ _ _ => rfl) (ih t t' h)

omit [CharTables] [LawfulTables] in
theorem alike_iff (s s' : Session) :
    Alike s s' ↔ SimS (fun m m' => Fixities.Wf m ∧ m.Perm m') s s' := by
  have hp : s.resolver.fixities.Wf ↔
      s.resolver.fixities.Pairwise fun a b => a.1.symbol ≠ b.1.symbol := by
    unfold Fixities.Wf Fixities.keys List.Nodup
    exact List.pairwise_map
  exact ⟨fun h => ⟨h.buffer, h.historyPath, h.errors, hp.2 h.unique, h.fixities⟩,
    fun h => ⟨h.1, h.2.1, h.2.2.1, hp.1 h.2.2.2.1, h.2.2.2.2⟩⟩

omit [CharTables] [LawfulTables] in
theorem sameButPrompt_iff (s s' : Session) : SameButPrompt s s' ↔ SimS (· = ·) s s' := by
  refine ⟨fun h => ⟨h.buffer, h.historyPath, by rw [h.resolver], by rw [h.resolver]⟩,
    fun h => ⟨h.1, h.2.1, ?_⟩⟩
  obtain ⟨⟨m, e⟩, _⟩ := s
  obtain ⟨⟨m', e'⟩, _⟩ := s'
  obtain ⟨_, _, h1, h2⟩ := h
  cases h1
  cases h2
  rfl

omit [LawfulTables] in
theorem not_asksAll {line : Text} (h : ¬ AsksAll line) : kind (trim (trim line)) ≠ .fixities := by
  intro hk
  have hm := (kind_word (c := trim (trim line)) (by rw [hk]; decide)).2 (by rw [hk]; simp)
  rw [hk] at hm
  apply h
  have hb : ¬ Blank line := by
    intro hb
    have : trim line = [] := trim_eq_nil.2 hb
    rw [this] at hm
    exact absurd hm (by decide)
  have hs := says_trim hb
  have ht : trim (trim line) = trim line := hs.self.trim
  rw [ht] at hm
  exact ⟨_, hm, hs⟩

/-! ### C136 -/

omit [LawfulTables] in
/-- **C136** In sessions that agree but for the prompt and the order of the declarations, a line
does the same, and they agree afterwards. The exception is a line that lists all fixities, which
lists them in the order of the declarations. -/
theorem C136_lines (w : World) {s s' : Session} (h : Alike s s') (line : Text) :
    SameOutcome Alike (step w s line) (step w s' line) ∨
    (AsksAll line ∧
      step w s line = .ok (true, s, [.out (Printer.writeFixities s.resolver.fixities ++ t!"\n")]) ∧
      step w s' line = .ok (true, s', [.out (Printer.writeFixities s'.resolver.fixities ++ t!"\n")])) := by
  by_cases ha : AsksAll line ∧ s.buffer = []
  · obtain ⟨⟨c, hc, hs⟩, hb⟩ := ha
    have hk : kind c = .fixities ∧ t!":" <+: c := by
      simp only [List.mem_cons, List.not_mem_nil, or_false] at hc
      rcases hc with rfl | rfl | rfl <;> decide
    refine .inr ⟨⟨c, hc, hs⟩, ?_, ?_⟩
    · rw [step_cmd w hs hk.2 hb, hk.1]; rfl
    · rw [step_cmd w hs hk.2 (h.buffer ▸ hb), hk.1]; rfl
  · refine .inl (sameOutcome_of_sim (fun _ _ => (alike_iff _ _).2)
      (step_sim TableSim.perm w ((alike_iff _ _).1 h) line fun hb => ?_))
    exact not_asksAll fun hl => ha ⟨hl, hb⟩

omit [LawfulTables] in
/-- **C136** Whatever is typed afterwards, if it does not ask for a list of all fixities, such
sessions print the same, end in the same way, and agree at the end. -/
theorem C136_sessions {s s' : Session} (h : Alike s s') (inputs : List (World × Input))
    (hi : ∀ w line, (w, Input.line line) ∈ inputs → ¬ AsksAll line) :
    SameOutcome Alike (run s inputs) (run s' inputs) := by
  refine sameOutcome_run (P := fun line => ¬ AsksAll line) (fun w line s s' hl h => ?_) inputs hi s s' h
  rcases C136_lines w h line with h | ⟨h, -⟩
  · exact h
  · exact absurd h hl

omit [LawfulTables] in
/-- **C136** The prompt never matters: sessions that agree but for it print the same, whatever is
typed. -/
theorem C136_prompt {s s' : Session} (h : SameButPrompt s s') (inputs : List (World × Input)) :
    SameOutcome SameButPrompt (run s inputs) (run s' inputs) := by
  refine sameOutcome_run (P := fun _ => True) (fun w line s s' _ h => ?_) inputs
    (fun _ _ _ => trivial) s s' h
  by_cases hk : s.buffer = [] → kind (trim (trim line)) ≠ .fixities
  · exact sameOutcome_of_sim (fun _ _ => (sameButPrompt_iff _ _).2)
      (step_sim TableSim.eq w ((sameButPrompt_iff _ _).1 h) line hk)
  · have hb : s.buffer = [] := Classical.byContradiction fun hb => hk fun h => absurd h hb
    have ha : AsksAll line := Classical.byContradiction fun ha => hk fun _ => not_asksAll ha
    obtain ⟨c, hc, hs⟩ := ha
    have hk : kind c = .fixities ∧ t!":" <+: c := by
      simp only [List.mem_cons, List.not_mem_nil, or_false] at hc
      rcases hc with rfl | rfl | rfl <;> decide
    rw [step_cmd w hs hk.2 hb, step_cmd w hs hk.2 (h.buffer ▸ hb), hk.1]
    simp only [byKind, cmdFixities, h.resolver]
    exact .ok h

/-- **C136** Clearing the fixities starts afresh: in every session that can be reached, what happens
after `:reset` or `:clear` with an option that clears fixities is what would happen in a new session
that saves its history in the same place. -/
theorem C136_afresh (w : World) {s : Session} {log : List Event} {line : Text}
    (hr : History s log) (hb : s.buffer = [])
    (hl : (∃ c ∈ [t!":reset", t!":r"], Says line c) ∨ ∃ o ∈ clearingOptions, SaysWith line t!":clear" o) :
    ∃ t fx, step w s line = .ok (true, t, fx) ∧ ∀ inputs,
      SameOutcome SameButPrompt (run t inputs)
        (run ⟨Resolver.new, [], .initial, s.historyPath⟩ inputs) := by
  have he := (C80_reachable hr).2
  have key : ∀ {t fx}, Reads w s.buffer line [.clear] → step w s line = .ok (true, t, fx) →
      t.buffer = [] → t.historyPath = s.historyPath →
      SameButPrompt t ⟨Resolver.new, [], .initial, s.historyPath⟩ := by
    intro t fx h1 h2 h3 h4
    refine ⟨h3, h4, ?_⟩
    have nil : ∀ {r r'}, Applies r [] r' → r' = r := by intro r r' h; cases h; rfl
    cases reads_step h1 h2 with
    | clear h =>
      rw [nil h]
      simp only [Resolver.clear, he, Resolver.new]
  rcases hl with ⟨c, hc, hs⟩ | ⟨o, ho, hs⟩
  · have hc' : c = t!":reset" ∨ c = t!":r" := by simpa using hc
    have h := C20_reset_count_wrong w s hb hs hc'
    exact ⟨_, _, h, fun inputs => C136_prompt (key (.reset hb hs hc) h hb rfl) inputs⟩
  · obtain ⟨t, fx, h, -⟩ := C20_clear_partial w s hb hs ho
    obtain ⟨bl, h1, h2, h3, h4⟩ := hs
    obtain ⟨k1, -, k3⟩ := C54_commands_keep_the_rest h1 ⟨_, rfl⟩ h
    refine ⟨t, fx, h, fun inputs => C136_prompt (key (.clear hb ⟨bl, h1, h2, h3, h4⟩ ho) h
      (k1.trans hb) (Classical.byContradiction fun hn => ?_)) inputs⟩
    obtain ⟨-, -, pre, rest, hw, hp, -⟩ := k3 hn
    cases pre with
    | nil => simp at hw
    | cons x pre =>
      have hx := hp x (by simp)
      simp only [List.cons_append, List.cons.injEq] at hw
      rw [← hw.1] at hx
      exact absurd hx (by decide)

omit [LawfulTables] in
theorem step_declLine (w : World) {s : Session} {line : Text} {ds : List InfixDecl}
    (hb : s.buffer = []) (he : s.resolver.errors = []) (h : DeclLine line ds) :
    ∃ p, step w s line = .ok (true,
      ⟨⟨(s.resolver.fixities.insertAll (declared ds)).insertAll (declared ds), []⟩, [], p,
        s.historyPath⟩, []) := by
  obtain ⟨body, ast, st, h1, h2, h3, rfl⟩ := h
  refine ⟨if s.prompt = .continued then .initial else s.prompt, ?_⟩
  rw [step_plain w s h1, Fixities.insertAll_declared, Fixities.insertAll_declared]
  have hecho : ∀ s : Session, echo s ast = .ok [] := by
    intro s
    unfold echo
    have : ∀ e, (AstIter.new ast).next.1 ≠ some (.expr e) := by
      intro e
      unfold AstIter.next AstIter.new
      simp only [h3]
      split
      · simp
      · simp [Option.map_eq_some_iff]
      · simp [popFront]
    split
    · rename_i e he
      exact absurd he (this e)
    · rfl
  have hr : resolveAst (s.resolver.loadFixities ast) ast =
      .ok (⟨loadDecls (loadDecls s.resolver.fixities ast.infxs) ast.infxs, []⟩, ast, []) := by
    unfold resolveAst visitAst loadFixities
    simp only [h3, walkList, bind, Except.bind, he, if_true]
    obtain ⟨_, _, _⟩ := ast
    simp only at h3
    rw [h3]
  unfold process readBuffer feedInput
  simp only [hb, List.nil_append, h2, hr, hecho]
  rfl

/-- **C136** Lines with fixity declarations of different operators can be exchanged, in every session
that can be reached. -/
theorem C136_exchange (w w' : World) {s : Session} {log : List Event} {l l' : Text}
    {ds ds' : List InfixDecl} (hr : History s log) (hb : s.buffer = [])
    (h : DeclLine l ds) (h' : DeclLine l' ds')
    (hd : ∀ e ∈ declared ds, ∀ e' ∈ declared ds', e.1.symbol ≠ e'.1.symbol) :
    SameOutcome Alike (run s [(w, .line l), (w', .line l')]) (run s [(w', .line l'), (w, .line l)]) := by
  obtain ⟨hg, he⟩ := C80_reachable hr
  have hw : s.resolver.fixities.Wf := by
    unfold Fixities.Wf Fixities.keys List.Nodup
    exact List.pairwise_map.2 hg.1
  obtain ⟨p, h1⟩ := step_declLine w hb he h
  obtain ⟨p', h1'⟩ := step_declLine w' hb he h'
  obtain ⟨q, h2⟩ := step_declLine w' (s := ⟨⟨(s.resolver.fixities.insertAll (declared ds)).insertAll (declared ds), []⟩,
    [], p, s.historyPath⟩) rfl rfl h'
  obtain ⟨q', h2'⟩ := step_declLine w (s := ⟨⟨(s.resolver.fixities.insertAll (declared ds')).insertAll (declared ds'), []⟩,
    [], p', s.historyPath⟩) rfl rfl h
  simp only [run, h1, h1', bind, Except.bind, if_true, h2, h2']
  refine .ok ((alike_iff _ _).2 ⟨rfl, rfl, rfl, ?_, ?_⟩)
  · exact Fixities.wf_insertAll (Fixities.wf_insertAll (Fixities.wf_insertAll
      (Fixities.wf_insertAll hw _) _) _) _
  · simp only [← Fixities.insertAll_append]
    simp only [List.append_assoc]
    have := Fixities.perm_insertAll_comm hw (es := declared ds ++ declared ds)
      (es' := declared ds' ++ declared ds') (by
        intro e he e' he'
        simp only [List.mem_append, or_self] at he he'
        exact hd e he e' he')
    simpa only [← Fixities.insertAll_append, List.append_assoc] using this

end

/-! ### concrete cases -/

section
attribute [local instance] asciiTables asciiTables_lawful

theorem exDeclLine {line : Text} {ast : Ast} (h1 : trim line ≠ []) (h2 : ¬ t!":" <+: trim line)
    (h3 : ¬ t!"{" <+: trim line) (h4 : ¬ t!"\\" <:+ trim line) (h5 : (parse (trim line)).value? = some ast)
    (h6 : ast.exprs = []) : DeclLine line ast.infxs := by
  obtain ⟨st, h⟩ : ∃ st, parse (trim line) = .ok ast st := by
    cases h : parse (trim line) with
    | ok a st => rw [h] at h5; cases h5; exact ⟨st, rfl⟩
    | err => rw [h] at h5; cases h5
    | panic => rw [h] at h5; cases h5
    | fuel => rw [h] at h5; cases h5
  exact ⟨_, ast, st, .plain ((says_iff h1).2 rfl) h2 h3 h4, h, h6, rfl⟩

/-- C136: two lines that can be exchanged. -/
example : DeclLine t!" infixl 6 +" [⟨[opPlus], ⟨6, .left⟩⟩] ∧
    DeclLine t!"infixr 5 *" [⟨[opMul], ⟨5, .right⟩⟩] :=
  ⟨exDeclLine (ast := ⟨[.infix_], [⟨[opPlus], ⟨6, .left⟩⟩], []⟩) (by decide) (by decide) (by decide)
      (by decide) (by decide +kernel) rfl,
    exDeclLine (ast := ⟨[.infix_], [⟨[opMul], ⟨5, .right⟩⟩], []⟩) (by decide) (by decide) (by decide)
      (by decide) (by decide +kernel) rfl⟩

/-- C136: the order of the declarations shows in a list of all fixities, and nowhere else. -/
example : (exRun [t!"infixl 6 +", t!"infixr 5 *", t!":fixities"]).map (·.2) ≠
      (exRun [t!"infixr 5 *", t!"infixl 6 +", t!":fixities"]).map (·.2) ∧
    (exRun [t!"infixl 6 +", t!"infixr 5 *", t!"a + b * c", t!":info + *", t!":r"]).map (·.2) =
      (exRun [t!"infixr 5 *", t!"infixl 6 +", t!"a + b * c", t!":info + *", t!":r"]).map (·.2) := by
  decide +kernel

/-- C136: sessions that differ in the prompt and in the order of the declarations. -/
example : Alike ⟨⟨[(opPlus, ⟨6, .left⟩), (opMul, ⟨5, .right⟩)], []⟩, [], .initial, []⟩
    ⟨⟨[(opMul, ⟨5, .right⟩), (opPlus, ⟨6, .left⟩)], []⟩, [], .continued, []⟩ :=
  ⟨rfl, rfl, rfl, by decide, .swap _ _ _⟩

end
end Pemdas
