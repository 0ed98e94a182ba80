import Verif.Lemmas.Desk
import Verif.Props.CrashSession
/-
C158: exactly what every line and every session does.
-/
set_option linter.unusedSectionVars false
namespace Pemdas
open Session Resolver

section
variable [CharTables] [LawfulTables]

theorem asked_eq (n : Text) : asked n = infoOp n := by
  unfold asked infoOp
  cases n <;> rfl

omit [CharTables] [LawfulTables] in
theorem intercalate_cons_map (f : Infix → Text) (op : Infix) (ops : List Infix) :
    List.intercalate t!", " ((op :: ops).map f) = f op ++ (ops.map fun o => t!", " ++ f o).flatten := by
  induction ops generalizing op with
  | nil => simp [List.intercalate]
  | cons o ops ih =>
    have := ih o
    simp only [List.map_cons, List.intercalate, List.intersperse] at this ⊢
    simp only [List.flatten_cons, this, List.append_assoc]

/-- What `:info` with an argument does. -/
theorem info_step (w : World) {s : Session} (hb : s.buffer = []) {line word arg : Text} {ws : List Text}
    (hw : word ∈ [t!":info", t!":i"]) (hl : SaysWith line word arg)
    (hws : Words (arg.filter fun c => !(c == '(' || c == ')')) ws) :
    step w s line = .ok (true, s,
      .out (listingSent (ws.filterMap (Ledger.entry s.resolver.fixities)) ++ t!"\n") ::
      notDefined ((ws.filter fun n => (Ledger.entry s.resolver.fixities n).isNone).map asked)) := by
  simp only [List.mem_cons, List.not_mem_nil, or_false] at hw
  obtain ⟨bl, h1, h2, h3, h4⟩ := hl
  rw [List.append_assoc] at h1
  have hr : ∀ x, (bl ++ arg).head? = some x → isWhitespace x = true := by
    cases bl with
    | nil => exact absurd rfl h3
    | cons c r =>
      intro x hx
      simp only [List.cons_append, List.head?_cons, Option.some.injEq] at hx
      exact hx ▸ h2 c (by simp)
  have hpre : isPrefix word (word ++ (bl ++ arg)) = true := by
    rcases hw with rfl | rfl <;> exact isPrefix_of_rest (by decide) (by decide) hr
  have hk : kind (word ++ (bl ++ arg)) = .info :=
    (kind_of_word hpre).2.2.2.2.2.2 hw (by simp [h3])
  have hcol : t!":" <+: word ++ (bl ++ arg) := by rcases hw with rfl | rfl <;> exact ⟨_, rfl⟩
  have hcmd : cmdInfo s (word ++ (bl ++ arg)) = .ok (true, s, infoArg s (bl ++ arg)) := by
    unfold cmdInfo
    rw [isPrefix_other hpre]
    rcases hw with rfl | rfl
    · rw [if_pos (by decide), sliceFrom_ok]; rfl
    · rw [if_neg (by decide), sliceFrom_ok]; rfl
  have hsplit : splitWhitespace ((bl ++ arg).filter fun c => !(c == '(' || c == ')')) = ws := by
    rw [splitWhitespace_iff, List.filter_append, List.filter_eq_self.2]
    · exact hws.blank_append h2
    · intro c hc
      have := h2 c hc
      by_cases h5 : c = '('
      · subst h5; exact absurd this (by decide)
      · by_cases h6 : c = ')'
        · subst h6; exact absurd this (by decide)
        · simp [h5, h6]
  have hhas : ∀ n, s.resolver.fixities.has (infoOp n) =
      (Ledger.entry s.resolver.fixities n).isSome := by
    intro n
    have hg := getKeyValue_entry s.resolver.fixities (infoOp n)
    rw [infoOp_symbol] at hg
    simp only [Fixities.has]
    rw [← (C17_key_value s.resolver.fixities (infoOp n)).1, hg]
    cases Ledger.entry s.resolver.fixities n <;> rfl
  rw [step_cmd w h1 hcol hb, hk]
  simp only [byKind, hcmd, infoArg, hsplit, sayLine, C49_sent]
  congr 4
  · congr 3
    simp only [entriesFor, List.filterMap_filter, List.filterMap_map]
    congr 1
    funext n
    have hg := getKeyValue_entry s.resolver.fixities (infoOp n)
    rw [infoOp_symbol] at hg
    simp only [Function.comp_apply, hg, hhas]
    cases Ledger.entry s.resolver.fixities n <;> rfl
  · rw [show asked = infoOp from funext asked_eq, List.filter_map]
    congr 2
    congr 1
    funext n
    simp only [Function.comp_apply, hhas]
    cases Ledger.entry s.resolver.fixities n <;> rfl

/-- What does a line do, is done. -/
theorem does_step {w : World} {s : Session} (hn : s.Neat) {line : Text} {go : Bool} {d : Desk}
    {fx : List Effect} (h : Does w s.desk line go d fx) :
    ∃ s', step w s line = .ok (go, s', fx) ∧ s'.desk = d ∧ s'.Neat := by
  cases h with
  | blank h => exact ⟨s, step_blank w s h, rfl, hn⟩
  | busy h1 h2 h3 =>
    refine ⟨s, ?_, rfl, hn⟩
    rw [step_says w s h1, if_pos (startsWith_iff.2 h2), if_neg (show ¬ s.buffer = [] from h3)]
    rfl
  | continues h => exact ⟨_, step_continues w s h, rfl, hn⟩
  | opens h1 h2 h3 h4 => exact ⟨_, step_open w s h1 h2 h3 h4, rfl, hn⟩
  | @ends body fx l h1 h2 =>
    have e := step_plain w s h1
    have : (if s.prompt = .continued then LinePrompt.initial else s.prompt) = .initial := by
      cases s.prompt <;> rfl
    rw [this] at e
    obtain ⟨h3, hw⟩ := replies_step w hn ⟨body, .inl h1, rfl⟩ e h2
    exact ⟨_, h3, rfl, rfl, hw⟩
  | @block body fx l h1 h2 =>
    obtain ⟨h3, hw⟩ := replies_step w (p := s.prompt) hn ⟨body, .inr h1, rfl⟩ (step_block w s h1) h2
    exact ⟨_, h3, rfl, rfl, hw⟩
  | help h1 h2 h3 => exact ⟨s, C127_help w h1 h3 h2, rfl, hn⟩
  | quit h1 h2 h3 => exact ⟨s, (C75_quit_saves w h1 h2).1 h3, rfl, hn⟩
  | quitOnly h1 h2 h3 => exact ⟨s, (C75_quit_saves w h1 h2).2 h3, rfl, hn⟩
  | reset h1 h2 h3 =>
    have : step w s line = cmdReset s := by
      simp only [List.mem_cons, List.not_mem_nil, or_false] at h3
      rcases h3 with rfl | rfl <;> rw [step_cmd w h2 ⟨_, rfl⟩ h1] <;> rfl
    refine ⟨{ s with resolver := { s.resolver with fixities := [] } }, ?_, rfl, hn.1, List.nodup_nil⟩
    rw [this]
    show Except.ok (_, _, [sayLine (decText (List.length s.resolver.fixities - 1) ++ _)]) = _
    simp [sayLine, desk]
  | fixities h1 h2 h3 =>
    refine ⟨s, ?_, rfl, hn⟩
    have : step w s line = cmdFixities s := by
      simp only [List.mem_cons, List.not_mem_nil, or_false] at h3
      rcases h3 with rfl | rfl | rfl <;> rw [step_cmd w h2 ⟨_, rfl⟩ h1] <;> rfl
    rw [this, cmdFixities, C49_sent]
    rfl
  | @info c arg ws h1 h2 h3 h4 h5 =>
    refine ⟨s, ?_, rfl, hn⟩
    rw [info_step w h1 h2 h3 h4]
    have : (ws.filter fun n => (Ledger.entry s.resolver.fixities n).isNone) = [] := by
      rw [List.filter_eq_nil_iff]
      intro n hm
      have := h5 n hm
      simp only [desk] at this
      cases hx : Ledger.entry s.resolver.fixities n <;> simp [hx] at this ⊢
    rw [this]
    rfl
  | @infoPartly c arg ws h1 h2 h3 h4 h5 =>
    refine ⟨s, ?_, rfl, hn⟩
    rw [info_step w h1 h2 h3 h4]
    obtain ⟨n, hm, h5⟩ := h5
    simp only [desk] at h5 ⊢
    have hm : n ∈ ws.filter fun n => (Ledger.entry s.resolver.fixities n).isNone :=
      List.mem_filter.2 ⟨hm, by rw [h5]; rfl⟩
    generalize (ws.filter fun n => (Ledger.entry s.resolver.fixities n).isNone) = us at *
    cases us with
    | nil => cases hm
    | cons u us =>
      have := intercalate_cons_map Infix.text (asked u) (us.map asked)
      simp only [← List.map_cons, List.map_map] at this
      simp only [List.map_cons, notDefined]
      rw [show List.intercalate t!", " ((asked u).text :: us.map fun n => (asked n).text) = _ from this]
      simp
  | @obeys word o d' fx h1 h2 h3 =>
    obtain ⟨s', h4, h5, h6⟩ := obeys_step hn h3 (asks_trim h2)
    refine ⟨s', ?_, h5, h6⟩
    rw [obey_eq w h1 (obeys_word h3) h2, h4]
    rfl
  | @unknown c h1 h2 h3 h4 h5 =>
    refine ⟨s, ?_, rfl, hn⟩
    have hs : ({ s with buffer := [] } : Session) = s := by
      have h1 : s.buffer = [] := h1
      cases s; simp only at h1; rw [h1]
    rw [step_cmd w h2 h3 h1]
    have pre : ∀ p ∈ [t!":info", t!":i"] ++ argumentWords, isPrefix p c = false := by
      intro p hp
      have := h5 p hp
      rw [← C65_is_prefix] at this
      simpa using this
    simp only [argumentWords, plainWords, quitForms, List.cons_append, List.nil_append, List.mem_cons,
      List.not_mem_nil, or_false, not_or, forall_eq_or_imp, forall_eq] at pre h4
    by_cases hk : kind c = .unknown
    · rw [hk]
      simp only [byKind, hs, errLine]
      simp
    · obtain ⟨⟨p, hp, hpre⟩, -⟩ := kind_word hk
      have hq : kind c = .quit := by
        have hm := (kind_word hk).2
        cases hk' : kind c <;> rw [hk'] at hp hm <;>
          simp only [kindWords, List.mem_cons, List.not_mem_nil, or_false] at hp <;>
          simp [kindWords, h4] at hm
        · subst hp; rw [pre.2.2.1] at hpre; cases hpre
        · subst hp; rw [pre.2.2.2.1] at hpre; cases hpre
        · subst hp; rw [pre.2.2.2.2.1] at hpre; cases hpre
        · rcases hm with rfl | rfl
          · exact absurd pre.1 (by decide)
          · exact absurd pre.2.1 (by decide)
        · rcases hp with rfl | rfl
          · rw [pre.1] at hpre; cases hpre
          · rw [pre.2.1] at hpre; cases hpre
        · subst hp; rw [pre.2.2.2.2.2.1] at hpre; cases hpre
        · subst hp; rw [pre.2.2.2.2.2.2] at hpre; cases hpre
      rw [hq]
      simp only [byKind, cmdQuit]
      rw [if_neg (by simp [h4]), if_neg (by simp [h4])]
      simp [errLine]

/-- A line that does not crash does something. -/
theorem does_exists {w : World} {s s' : Session} (hn : s.Neat) {line : Text} {go : Bool}
    {fx : List Effect} (h : step w s line = .ok (go, s', fx)) :
    ∃ go d fx, Does w s.desk line go d fx := by
  rcases line_cases line with hl | ⟨c, hs, hc⟩ | ⟨add, hl⟩ | ⟨body, hl⟩ | ⟨body, hl⟩ |
    ⟨n, body, hl, h1, h2, h3⟩
  · exact ⟨_, _, _, .blank hl⟩
  · by_cases hb : s.buffer = []
    · have arg : ∀ word ∈ argumentWords, isPrefix word c = true →
          ∃ go d fx, Does w s.desk line go d fx := by
        intro word hw hpre
        obtain ⟨rest, h2, -, h4⟩ := sliceFrom_word hpre (says_lead hs)
        subst h2
        have ha : Asks line word (trim rest) := asks_iff.2 ⟨rest, hs, h4, rfl⟩
        rw [obey_rest w hb hw hs h4] at h
        cases ho : obey w s (argumentKind word) (trim rest) with
        | error e => rw [ho] at h; cases h
        | ok x =>
          obtain ⟨d, fx, hx⟩ := obeys_exists hn hw (asks_trim ha) ho
          exact ⟨_, _, _, .obeys hb ha hx⟩
      by_cases hk : kind c = .unknown
      · refine ⟨_, _, _, .unknown hb hs hc ?_ ?_⟩
        · intro hm
          have : ∀ c ∈ plainWords ++ quitForms, kind c ≠ .unknown := by decide
          exact this c hm hk
        · intro p hp hf
          have hf := (C65_is_prefix _ _).2 hf
          have := kind_of_word hf
          rw [hk] at this
          simp only [argumentWords, List.cons_append, List.nil_append, List.mem_cons, List.not_mem_nil,
            or_false] at hp
          rcases hp with rfl | rfl | rfl | rfl | rfl | rfl | rfl <;> simp at this
          · subst this; exact absurd hk (by decide)
          · subst this; exact absurd hk (by decide)
      · obtain ⟨⟨p, hp, hpre⟩, hm⟩ := kind_word hk
        have hpre' := hpre
        cases hk' : kind c <;> rw [hk'] at hp hm <;>
          simp only [kindWords, List.mem_cons, List.not_mem_nil, or_false] at hp
        · subst hp; exact arg _ (by decide) hpre
        · exact ⟨_, _, _, .help hb hs (hm (.inl rfl))⟩
        · by_cases hq : c ∈ [t!":q", t!":quit"]
          · exact ⟨_, _, _, .quit hb hs hq⟩
          · by_cases hq' : c ∈ [t!":q --no-history", t!":quit --no-history"]
            · exact ⟨_, _, _, .quitOnly hb hs hq'⟩
            · refine ⟨_, _, _, .unknown hb hs hc ?_ ?_⟩
              · simp only [List.mem_cons, List.not_mem_nil, or_false, not_or] at hq hq'
                simp only [plainWords, quitForms, List.cons_append, List.nil_append, List.mem_cons,
                  List.not_mem_nil, or_false, not_or]
                refine ⟨?_, ?_, ?_, ?_, ?_, ?_, hq.1, hq.2, hq'.1, hq'.2⟩ <;> rintro rfl <;>
                  exact absurd hk' (by decide)
              · intro q hq hf
                have hf := (C65_is_prefix _ _).2 hf
                rw [isPrefix_other hpre] at hf
                have hf := of_decide_eq_true hf
                subst hf
                rcases hp with rfl | rfl <;> exact absurd hq (by decide)
        · subst hp; exact arg _ (by decide) hpre
        · subst hp; exact arg _ (by decide) hpre
        · exact ⟨_, _, _, .reset hb hs (hm (.inr (.inl rfl)))⟩
        · have := hm (.inr (.inr rfl))
          simp only [kindWords, List.mem_cons, List.not_mem_nil, or_false] at this
          refine ⟨_, _, _, .fixities hb hs ?_⟩
          rcases this with h | h | h <;> simp [h]
        · obtain ⟨rest, h2, -, h4⟩ := sliceFrom_word hpre (says_lead hs)
          have ha : Asks line p (trim rest) := asks_iff.2 ⟨rest, h2 ▸ hs, h4, rfl⟩
          have hp' : p ∈ [t!":info", t!":i"] := by simpa using hp
          rcases ha with ha | ⟨ha, -⟩
          · have hws := splitWhitespace_iff.1
              (rfl : splitWhitespace ((trim rest).filter fun c => !(c == '(' || c == ')')) = _)
            by_cases hd : ∀ n ∈ splitWhitespace ((trim rest).filter fun c => !(c == '(' || c == ')')),
                (s.desk.ledger.entry n).isSome
            · exact ⟨_, _, _, .info hb hp' ha hws hd⟩
            · refine ⟨_, _, _, .infoPartly hb hp' ha hws ?_⟩
              simp only [Classical.not_forall] at hd
              obtain ⟨n, hm, hd⟩ := hd
              exact ⟨n, hm, by simpa using hd⟩
          · have : c = p := by rw [← hs.trim, ha.trim]
            subst this
            rcases hp with rfl | rfl <;> exact absurd hk' (by decide)
        · subst hp; exact arg _ (by decide) hpre
        · subst hp; exact arg _ (by decide) hpre
    · exact ⟨_, _, _, .busy hs hc hb⟩
  · exact ⟨_, _, _, .continues hl⟩
  · rw [step_plain w s hl] at h
    obtain ⟨_, _, hr⟩ := replies_exist hn h
    exact ⟨_, _, _, .ends hl hr⟩
  · rw [step_block w s hl] at h
    obtain ⟨_, _, hr⟩ := replies_exist (p := s.prompt) hn h
    exact ⟨_, _, _, .block hl hr⟩
  · exact ⟨_, _, _, .opens hl h1 h2 h3⟩

theorem does_iff {w : World} {s : Session} (hn : s.Neat) {line : Text} {go : Bool} {d : Desk}
    {fx : List Effect} : Does w s.desk line go d fx ↔
      ∃ s', step w s line = .ok (go, s', fx) ∧ s'.desk = d ∧ s'.Neat := by
  refine ⟨does_step hn, ?_⟩
  rintro ⟨s', h1, h2, -⟩
  obtain ⟨go', d', fx', h⟩ := does_exists hn h1
  obtain ⟨s'', h3, h4, -⟩ := does_step hn h
  rw [h1] at h3
  cases h3
  rw [h2] at h4
  subst h4
  exact h

theorem desk_session {s : Session} (hn : s.Neat) : s.desk.session = s := by
  obtain ⟨⟨m, e⟩, b, p, hp⟩ := s
  have : e = [] := hn.1
  subst this; rfl

/-- **C158** In every session that can be reached, a line does exactly what is specified. -/
theorem C158_line (w : World) {s : Session} {log : List Event} (hh : History s log) (line : Text)
    (go : Bool) (d : Desk) (fx : List Effect) :
    Does w s.desk line go d fx ↔ step w s line = .ok (go, d.session, fx) := by
  rw [does_iff (neat_of_history hh)]
  constructor
  · rintro ⟨s', h1, rfl, h2⟩
    rw [desk_session h2]; exact h1
  · intro h
    obtain ⟨go', d', fx', h1⟩ := does_exists (neat_of_history hh) h
    obtain ⟨s', h2, h3, h4⟩ := does_step (neat_of_history hh) h1
    have h2' := h2
    rw [h] at h2'
    cases h2'
    exact ⟨_, h, rfl, h4⟩

/-- **C158** The specification leaves no choice, and no line is forgotten: the lines that do nothing
that is specified are those at which the program crashes, which are those of C155. -/
theorem C158_complete (w : World) {s : Session} {log : List Event} (hh : History s log) (line : Text) :
    (∀ {go go' d d' fx fx'}, Does w s.desk line go d fx → Does w s.desk line go' d' fx' →
      go = go' ∧ d = d' ∧ fx = fx') ∧
    ((¬ ∃ go d fx, Does w s.desk line go d fx) ↔ ∃ pre t post p,
      Reads w s.buffer line (pre ++ .text t :: post) ∧
      (∀ t', .text t' ∈ pre → ∀ q, ¬ Crashes t' q) ∧ Crashes t p) := by
  constructor
  · intro go go' d d' fx fx' h1 h2
    rw [C158_line w hh] at h1 h2
    rw [h1] at h2
    simp only [Except.ok.injEq, Prod.mk.injEq] at h2
    obtain ⟨rfl, h2, rfl⟩ := h2
    exact ⟨rfl, congrArg Session.desk h2, rfl⟩
  · constructor
    · intro h
      cases hs : step w s line with
      | ok x =>
        obtain ⟨go, s', fx⟩ := x
        exact absurd (does_exists (neat_of_history hh) hs) h
      | error e =>
        obtain ⟨pre, t, post, p, h1, h2, -, h3⟩ := (C155_session w s line e).1 hs
        exact ⟨pre, t, post, p, h1, h2, h3⟩
    · rintro ⟨pre, t, post, p, h1, h2, h3⟩ ⟨go, d, fx, h⟩
      rw [C158_line w hh] at h
      rw [(C155_session w s line (.panic p)).2 ⟨pre, t, post, p, h1, h2, rfl, h3⟩] at h
      cases h

theorem sits_iff {s : Session} (hn : s.Neat) (ins : List (World × Input)) (go : Bool) (d : Desk)
    (fx : List Effect) : Sits s.desk ins go d fx ↔ run s ins = .ok (go, d.session, fx) := by
  induction ins generalizing s fx with
  | nil =>
    rw [run]
    constructor
    · intro h; cases h; rw [desk_session hn]
    · intro h
      simp only [Except.ok.injEq, Prod.mk.injEq] at h
      obtain ⟨rfl, rfl, rfl⟩ := h
      exact .nothing
  | cons x ins ih =>
    obtain ⟨w, i⟩ := x
    cases i with
    | eof =>
      rw [run]
      constructor
      · intro h; cases h; rw [desk_session hn]
      · intro h
        simp only [Except.ok.injEq, Prod.mk.injEq] at h
        obtain ⟨rfl, rfl, rfl⟩ := h
        exact .eof
    | interrupted =>
      rw [run]
      constructor
      · intro h; cases h; rw [desk_session hn]
      · intro h
        simp only [Except.ok.injEq, Prod.mk.injEq] at h
        obtain ⟨rfl, rfl, rfl⟩ := h
        exact .interrupted
    | error e =>
      rw [run]
      constructor
      · intro h
        cases h with
        | error h => rw [(ih hn _).1 h]; rfl
      · intro h
        cases hr : run s ins with
        | error e' => rw [hr] at h; cases h
        | ok y =>
          obtain ⟨b, s', fx'⟩ := y
          rw [hr] at h
          simp only [bind, Except.bind, Except.ok.injEq, Prod.mk.injEq] at h
          obtain ⟨rfl, rfl, rfl⟩ := h
          exact .error ((ih hn _).2 hr)
    | line l =>
      rw [run]
      constructor
      · intro h
        cases h with
        | quits h =>
          obtain ⟨s', h1, rfl, h2⟩ := does_step hn h
          rw [h1, desk_session h2]
          rfl
        | line h h' =>
          obtain ⟨s', h1, rfl, h2⟩ := does_step hn h
          have := (ih h2 _).1 h'
          simp only [h1, bind, Except.bind, if_true, this]
      · intro h
        cases hs : step w s l with
        | error e => rw [hs] at h; cases h
        | ok y =>
          obtain ⟨b, s1, fx1⟩ := y
          rw [hs] at h
          simp only [bind, Except.bind] at h
          obtain ⟨go', d', fx', h1⟩ := does_exists hn hs
          obtain ⟨s', h2, h3, h4⟩ := does_step hn h1
          rw [hs] at h2
          cases h2
          subst h3
          cases b with
          | false =>
            simp only [Bool.false_eq_true, if_false, Except.ok.injEq, Prod.mk.injEq] at h
            obtain ⟨rfl, rfl, rfl⟩ := h
            exact .quits h1
          | true =>
            simp only [if_true] at h
            cases hr : run s1 ins with
            | error e => rw [hr] at h; cases h
            | ok z =>
              obtain ⟨b2, s2, fx2⟩ := z
              rw [hr] at h
              simp only [Except.ok.injEq, Prod.mk.injEq] at h
              obtain ⟨rfl, rfl, rfl⟩ := h
              exact .line h1 ((ih h4 _).2 hr)

theorem run_session {s s' : Session} (hn : s.Neat) {ins : List (World × Input)} {go : Bool}
    {fx : List Effect} (h : run s ins = .ok (go, s', fx)) : s'.Neat := by
  induction ins generalizing s fx with
  | nil => cases h; exact hn
  | cons x ins ih =>
    obtain ⟨w, i⟩ := x
    cases i with
    | eof => cases h; exact hn
    | interrupted => cases h; exact hn
    | error e =>
      rw [run] at h
      cases hr : run s ins with
      | error e' => rw [hr] at h; cases h
      | ok y =>
        obtain ⟨b, s2, fx'⟩ := y
        rw [hr] at h
        cases h
        exact ih hn hr
    | line l =>
      rw [run] at h
      cases hs : step w s l with
      | error e => rw [hs] at h; cases h
      | ok y =>
        obtain ⟨b, s1, fx1⟩ := y
        rw [hs] at h
        simp only [bind, Except.bind] at h
        obtain ⟨go', d', fx', h1⟩ := does_exists hn hs
        obtain ⟨s', h2, h3, h4⟩ := does_step hn h1
        rw [hs] at h2
        cases h2
        cases b with
        | false => cases h; exact h4
        | true =>
          simp only [if_true] at h
          cases hr : run s1 ins with
          | error e => rw [hr] at h; cases h
          | ok z =>
            obtain ⟨b2, s2, fx2⟩ := z
            rw [hr] at h
            cases h
            exact ih h4 hr

omit [CharTables] [LawfulTables] in
theorem housed_iff (fs : FileSystem) (home dir : Option Text) (fx : List Effect) :
    Housed fs home dir fx ↔ tryCfgDir fs home = (dir, fx) := by
  constructor
  · intro h
    cases h <;> simp [tryCfgDir, *, errLine]
  · intro h
    cases home with
    | none => cases h; exact .homeless
    | some h' =>
      unfold tryCfgDir at h
      simp only at h
      split at h
      · split at h
        · cases h; exact .found ‹_› ‹_›
        · rename_i h1 h2
          cases h; exact .file h1 (Bool.eq_false_iff.2 h2)
      · rename_i h1
        split at h
        · rename_i h2
          cases h; exact .made (Bool.eq_false_iff.2 h1) h2
        · rename_i h2
          cases h; exact .fails (Bool.eq_false_iff.2 h1) (Bool.eq_false_iff.2 h2)

omit [CharTables] [LawfulTables] in
theorem housed_join {fs : FileSystem} {home : Option Text} {dir : Text} {fx : List Effect}
    (h : Housed fs home (some dir) fx) : pathJoin dir t!".history" = dir ++ t!"/.history" := by
  have hj : ∀ h : Text, pathJoin (pathJoin h t!".pemdas") t!".history" =
      pathJoin h t!".pemdas" ++ t!"/.history" := by
    intro h
    have h1 : (pathJoin h t!".pemdas").getLast? = some 's' := by
      unfold pathJoin
      split
      · rfl
      · split
        · rw [List.getLast?_append]; rfl
        · rw [List.getLast?_append]; rfl
    have h2 : pathJoin h t!".pemdas" ≠ [] := by intro h; rw [h] at h1; cases h1
    rw [pathJoin, if_neg h2, if_neg (by rw [h1]; decide), List.append_assoc]
    rfl
  cases h with
  | found => exact hj _
  | file => rfl
  | made => exact hj _
  | homeless => rfl

omit [LawfulTables] in
theorem keeps_iff (fs : FileSystem) (home : Option Text) (path : Text) (fx : List Effect) :
    Keeps fs home path fx ↔ Session.new fs home = (⟨⟨[], []⟩, [], .initial, path⟩, fx) := by
  have e : ∀ p, tryHistoryPath fs home = (p, fx) →
      Session.new fs home = (⟨⟨[], []⟩, [], .initial, p.getD []⟩, fx) := by
    intro p h; unfold Session.new; rw [h]; rfl
  have fwd : ∀ {path fx}, Keeps fs home path fx →
      ∃ p, tryHistoryPath fs home = (p, fx) ∧ p.getD [] = path := by
    intro path fx h
    cases h with
    | @kept dir fx h1 h2 =>
      refine ⟨some (dir ++ t!"/.history"), ?_, rfl⟩
      unfold tryHistoryPath
      rw [(housed_iff _ _ _ _).1 h1]
      simp only [housed_join h1]
      rcases h2 with h2 | h2
      · rw [if_pos h2]
      · simp only [h2, if_true]
        split <;> rfl
    | @noFile dir fx h1 h2 h3 =>
      refine ⟨none, ?_, rfl⟩
      unfold tryHistoryPath
      rw [(housed_iff _ _ _ _).1 h1]
      simp only [housed_join h1, h2, h3, Bool.false_eq_true, if_false]
    | noDir h1 =>
      refine ⟨none, ?_, rfl⟩
      unfold tryHistoryPath
      rw [(housed_iff _ _ _ _).1 h1]
  constructor
  · intro h
    obtain ⟨p, h1, h2⟩ := fwd h
    rw [e p h1, h2]
  · intro h
    have ex : ∃ path fx, Keeps fs home path fx := by
      cases hd : tryCfgDir fs home with
      | mk dir fx =>
        cases dir with
        | none => exact ⟨_, _, .noDir ((housed_iff _ _ _ _).2 hd)⟩
        | some dir =>
          have hd := (housed_iff _ _ _ _).2 hd
          cases h1 : fs.exists_ (dir ++ t!"/.history") with
          | true => exact ⟨_, _, .kept hd (.inl h1)⟩
          | false =>
            cases h2 : fs.createFile (dir ++ t!"/.history") with
            | true => exact ⟨_, _, .kept hd (.inr h2)⟩
            | false => exact ⟨_, _, .noFile hd h1 h2⟩
    obtain ⟨path', fx', hk⟩ := ex
    obtain ⟨p, h1, h2⟩ := fwd hk
    have : Session.new fs home = (⟨⟨[], []⟩, [], .initial, p.getD []⟩, fx') := by
      unfold Session.new; rw [h1]; rfl
    rw [h] at this
    simp only [Prod.mk.injEq, Session.mk.injEq, true_and] at this
    obtain ⟨h3, rfl⟩ := this
    rw [h3, h2]
    exact hk

/-- **C158** What the whole program does: it looks for the place of its history, greets, and then
does line by line what is specified. -/
theorem C158_session (fs : FileSystem) (home : Option Text) (ins : List (World × Input)) (go : Bool)
    (s' : Session) (fx : List Effect) :
    runRepl fs home ins = .ok (go, s', fx) ↔ ∃ path fx₀ fx₁ d, Keeps fs home path fx₀ ∧
      Sits ⟨[], [], .initial, path⟩ ins go d fx₁ ∧ s' = d.session ∧
      fx = fx₀ ++ greeting path ++ fx₁ := by
  have hi : ∀ s : Session, s.initMsg = greeting s.historyPath := by
    intro s
    unfold initMsg greeting sayLine
    simp only [List.append_assoc]
    rfl
  constructor
  · intro h
    unfold runRepl at h
    cases hn : Session.new fs home with
    | mk s fx₀ =>
      rw [hn] at h
      simp only at h
      have hs : s = ⟨⟨[], []⟩, [], .initial, s.historyPath⟩ := by
        have := congrArg Prod.fst hn
        simp only [Session.new] at this
        rw [← this]
        rfl
      have hneat : s.Neat := by rw [hs]; exact ⟨rfl, List.nodup_nil⟩
      cases hr : run s ins with
      | error e => rw [hr] at h; cases h
      | ok y =>
        obtain ⟨b, s2, fx₁⟩ := y
        rw [hr] at h
        simp only [bind, Except.bind, Except.ok.injEq, Prod.mk.injEq] at h
        obtain ⟨rfl, rfl, rfl⟩ := h
        refine ⟨s.historyPath, fx₀, fx₁, s2.desk, ?_, ?_, (desk_session (run_session hneat hr)).symm, ?_⟩
        · rw [keeps_iff, hn, ← hs]
        · have : s.desk = ⟨[], [], .initial, s.historyPath⟩ := by rw [hs]; rfl
          rw [← this, sits_iff hneat, desk_session (run_session hneat hr)]
          exact hr
        · rw [hi]
  · rintro ⟨path, fx₀, fx₁, d, h1, h2, rfl, rfl⟩
    have hneat : (⟨⟨[], []⟩, [], .initial, path⟩ : Session).Neat := ⟨rfl, List.nodup_nil⟩
    have := (sits_iff hneat ins go d fx₁).1 h2
    unfold runRepl
    rw [(keeps_iff _ _ _ _).1 h1]
    simp only [bind, Except.bind, this, hi]

end
/-- A command with an argument, by the specification alone. -/
example [CharTables] (d : Desk) (h : d.pending = []) :
    Does exWorld d t!" :cd a b" true d [.chdir t!"a b"] :=
  .obeys h (.inl ⟨t!" ", ⟨t!" ", [], rfl, by simp [Blank, isWhitespace], by simp [Blank], ⟨_, _, rfl, by decide⟩,
    ⟨t!":cd a ", 'b', rfl, by decide⟩⟩, by simp [Blank, isWhitespace], by decide, ⟨_, _, rfl, by decide⟩⟩)
    (.cd (by decide) rfl)

/-- A word that is no command, although it begins like one. -/
example [CharTables] (d : Desk) (h : d.pending = []) :
    Does exWorld d t!":cdx" true d [.err t!"unknown command: `:cdx`\n"] := by
  refine .unknown (c := t!":cdx") h ⟨[], [], rfl, by simp [Blank], by simp [Blank], ⟨_, _, rfl, by decide⟩,
    ⟨t!":cd", 'x', rfl, by decide⟩⟩ ⟨_, rfl⟩ (by decide) fun p hp hf => ?_
  have h1 := (C65_is_prefix _ _).2 hf
  have : ∀ p ∈ [t!":info", t!":i"] ++ argumentWords, isPrefix p t!":cdx" = false := by decide
  rw [this p hp] at h1
  cases h1

attribute [local instance] asciiTables asciiTables_lawful

/-- The hypothesis of `C158_line` holds at the start, where a declaration is entered. -/
example : History exStart [] ∧
    Does exWorld exStart.desk t!"infixl 6 +" true ⟨[(opPlus, ⟨6, .left⟩)], [], .initial,
      t!"/home/u/.pemdas/.history"⟩ [] :=
  ⟨.start _ _, (C158_line exWorld (.start exFs (some t!"/home/u")) _ _ _ _).2 (by
    have : ∀ x : Cmd, x.toOption = some (true, (⟨⟨[(opPlus, ⟨6, .left⟩)], []⟩, [], .initial,
        t!"/home/u/.pemdas/.history"⟩ : Session), []) → x = .ok (true, Desk.session
          ⟨[(opPlus, ⟨6, .left⟩)], [], .initial, t!"/home/u/.pemdas/.history"⟩, []) := by
      intro x hx
      cases x with
      | error => cases hx
      | ok y => cases hx; rfl
    exact this _ (by decide +kernel))⟩

/-- A whole session. -/
example : (runRepl exFs (some t!"/home/u") ([t!"infixl 6 +", t!":reset now", t!":r", t!":q"].map
      fun l => (exWorld, .line l))).toOption.map (fun x => (x.1, x.2.2.drop 3)) =
    some (false, [.err t!"unknown command: `:reset now`\n", .out t!"0 fixities removed\n",
      .saveHistory t!"/home/u/.pemdas/.history", .out t!"exiting Pemdas REPL\n"]) := by decide +kernel

end Pemdas
