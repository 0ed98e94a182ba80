import Verif.Spec.Confined
import Verif.Props.Trace
/-
C166: a session does to the system only what a typed line says.
-/
namespace Pemdas
open Session

section
variable [CharTables]

/-- The file of the session is the one of the beginning, or was named. -/
def Located (path : Text) (ls : List Text) (p : Text) : Prop :=
  p = path ∨ ∃ line' ∈ ls, ∃ b, SaysWith line' t!":history" (t!"--set" ++ b ++ p) ∧ Blank b

omit [CharTables] in
theorem asks_with {line word o : Text} (h : Asks line word o) (ho : o ≠ []) : SaysWith line word o := by
  rcases h with h | ⟨-, h⟩
  · exact h
  · exact absurd h ho

theorem replies_said {l l' : Ledger} {src : Text} {fx : List Effect} (h : Replies l src fx l') :
    ∀ x ∈ fx, ∃ t, x = .out t ∨ x = .err t := by
  intro x hx
  cases h with
  | wrong h1 h2 => cases List.mem_singleton.1 hx; exact ⟨_, .inr rfl⟩
  | input h1 h2 =>
    unfold answer at hx
    simp only at hx
    split at hx
    · cases List.mem_singleton.1 hx; exact ⟨_, .inl rfl⟩
    · cases hx
    · cases List.mem_singleton.1 hx; exact ⟨_, .inr rfl⟩
    · cases List.mem_singleton.1 hx; exact ⟨_, .inr rfl⟩

theorem file_said {w : World} {l l' : Ledger} {word : Text} {fx : List Effect}
    (h : RepliesFile w l word fx l') :
    ∀ x ∈ fx, (∃ t, x = .out t ∨ x = .err t) ∨ ∃ p, x = .read p ∧ Opens word p := by
  intro x hx
  cases h with
  | missing h _ =>
    simp only [List.mem_cons, List.not_mem_nil, or_false] at hx
    rcases hx with rfl | rfl | rfl
    · exact .inr ⟨_, rfl, h⟩
    · exact .inl ⟨_, .inr rfl⟩
    · exact .inl ⟨_, .inr rfl⟩
  | wrong h _ =>
    simp only [List.mem_cons, List.not_mem_nil, or_false] at hx
    rcases hx with rfl | rfl
    · exact .inr ⟨_, rfl, h⟩
    · exact .inl ⟨_, .inl rfl⟩
  | accepted h _ =>
    simp only [List.mem_cons, List.not_mem_nil, or_false] at hx
    rcases hx with rfl | rfl | rfl
    · exact .inr ⟨_, rfl, h⟩
    · exact .inl ⟨_, .inl rfl⟩
    · exact .inl ⟨_, .inl rfl⟩
  | ambiguous h _ =>
    simp only [List.mem_cons, List.not_mem_nil, or_false] at hx
    rcases hx with rfl | rfl
    · exact .inr ⟨_, rfl, h⟩
    · exact .inl ⟨_, .inl rfl⟩

theorem files_said {w : World} {l l' : Ledger} {ws : List Text} {fx : List Effect}
    (h : RepliesFiles w l ws fx l') :
    ∀ x ∈ fx, (∃ t, x = .out t ∨ x = .err t) ∨ ∃ p, ∃ word ∈ ws, x = .read p ∧ Opens word p := by
  induction h with
  | nil => intro x hx; cases hx
  | cons h1 h2 ih =>
    intro x hx
    rcases List.mem_append.1 hx with hx | hx
    · rcases file_said h1 x hx with h | ⟨p, h, h'⟩
      · exact .inl h
      · exact .inr ⟨p, _, List.mem_cons_self, h, h'⟩
    · rcases ih x hx with h | ⟨p, word, hw, h, h'⟩
      · exact .inl h
      · exact .inr ⟨p, word, List.mem_cons_of_mem _ hw, h, h'⟩

omit [CharTables] in
theorem granted_said {path : Text} {ls : List Text} {x : Effect} (h : ∃ t, x = .out t ∨ x = .err t) :
    Granted path ls x := by
  obtain ⟨t, rfl | rfl⟩ := h
  · exact .out
  · exact .err

omit [CharTables] in
theorem words_ne {o w : Text} {ws : List Text} (h : Words o (w :: ws)) : o ≠ [] := by
  generalize hq : w :: ws = q at h
  cases h with
  | nil => cases hq
  | cons h1 h2 h3 h4 h5 => cases hq; simp [h2]

theorem obeys_granted {w : World} {d d' : Desk} {word o line path : Text} {ls : List Text}
    {fx : List Effect} (hl : line ∈ ls) (ha : Asks line word o) (hp : Located path ls d.history)
    (h : Obeys w d word o d' fx) :
    (∀ x ∈ fx, Granted path ls x) ∧ Located path ls d'.history := by
  cases h with
  | cd h1 h2 =>
    refine ⟨fun x hx => ?_, hp⟩
    cases List.mem_singleton.1 hx
    exact .chdir hl (asks_with ha h1)
  | cdFails h1 h2 =>
    refine ⟨fun x hx => ?_, hp⟩
    simp only [List.mem_cons, List.not_mem_nil, or_false] at hx
    rcases hx with rfl | rfl
    · exact .chdir hl (asks_with ha h1)
    · exact .err
  | cdNowhere => refine ⟨fun x hx => ?_, hp⟩; cases List.mem_singleton.1 hx; exact .err
  | clearHistory =>
    refine ⟨fun x hx => ?_, hp⟩
    simp only [List.mem_cons, List.not_mem_nil, or_false] at hx
    rcases hx with rfl | rfl
    · exact .clear hl (asks_with ha (by decide)) (by decide)
    · exact .out
  | clearFixities => refine ⟨fun x hx => ?_, hp⟩; cases List.mem_singleton.1 hx; exact .out
  | clearSession h1 =>
    refine ⟨fun x hx => ?_, hp⟩
    simp only [List.mem_cons, List.not_mem_nil, or_false] at hx
    rcases hx with rfl | rfl
    · refine .clear hl (asks_with ha ?_) (List.mem_cons_of_mem _ h1)
      rintro rfl
      revert h1; decide
    · exact .out
  | clearOther => refine ⟨fun x hx => ?_, hp⟩; cases List.mem_singleton.1 hx; exact .err
  | forget =>
    refine ⟨fun x hx => ?_, hp⟩
    simp only [List.mem_cons, List.not_mem_nil, or_false] at hx
    rcases hx with rfl | rfl
    · exact .forget hl (asks_with ha (by decide)) (by decide)
    · exact .out
  | forgetFile =>
    refine ⟨fun x hx => ?_, hp⟩
    simp only [List.mem_cons, List.not_mem_nil, or_false] at hx
    have := asks_with ha (by decide)
    rcases hx with rfl | rfl | rfl
    · exact .forget hl this (by decide)
    · exact .save hl (.inr (.inr (.inr this))) hp
    · exact .out
  | setNothing => refine ⟨fun x hx => ?_, hp⟩; cases List.mem_singleton.1 hx; exact .err
  | set h1 h2 =>
    refine ⟨fun x hx => ?_, .inr ⟨line, hl, _, asks_with ha (by simp), h1⟩⟩
    cases List.mem_singleton.1 hx; exact .out
  | save =>
    refine ⟨fun x hx => ?_, hp⟩
    simp only [List.mem_cons, List.not_mem_nil, or_false] at hx
    rcases hx with rfl | rfl
    · exact .save hl (.inr (.inr (.inl (asks_with ha (by decide))))) hp
    · exact .out
  | saveTo h1 h2 h3 =>
    refine ⟨fun x hx => ?_, hp⟩
    simp only [List.mem_cons, List.not_mem_nil, or_false] at hx
    rcases hx with rfl | rfl
    · exact .saveTo hl (asks_with ha (by simp)) h1 h3
    · exact .out
  | historyOther =>
    refine ⟨fun x hx => ?_, hp⟩
    simp only [List.mem_cons, List.not_mem_nil, or_false] at hx
    rcases hx with rfl | rfl <;> exact .err
  | loadNothing => refine ⟨fun x hx => ?_, hp⟩; cases List.mem_singleton.1 hx; exact .err
  | math => refine ⟨fun x hx => ?_, hp⟩; cases List.mem_singleton.1 hx; exact .out
  | prelude => refine ⟨fun x hx => ?_, hp⟩; cases List.mem_singleton.1 hx; exact .out
  | files h1 h2 h3 =>
    refine ⟨fun x hx => ?_, hp⟩
    rcases files_said h3 x hx with h | ⟨p, word, hw, rfl, h⟩
    · exact granted_said h
    · refine .read hl (asks_with ha ?_) h2 hw h
      rintro rfl
      exact h1 List.mem_cons_self
  | shell h1 h2 =>
    refine ⟨fun x hx => ?_, hp⟩
    simp only [List.mem_cons, List.not_mem_nil, or_false] at hx
    have := asks_with ha (words_ne h1)
    rcases hx with rfl | rfl
    · exact .spawn hl this h1
    · exact .bytes hl this
  | shellFails h1 h2 =>
    refine ⟨fun x hx => ?_, hp⟩
    simp only [List.mem_cons, List.not_mem_nil, or_false] at hx
    rcases hx with rfl | rfl
    · exact .spawn hl (asks_with ha (words_ne h1)) h1
    · exact .err
  | shellNothing =>
    refine ⟨fun x hx => ?_, hp⟩
    simp only [List.mem_cons, List.not_mem_nil, or_false] at hx
    rcases hx with rfl | rfl <;> exact .err

theorem does_granted {w : World} {d d' : Desk} {line path : Text} {ls : List Text} {go : Bool}
    {fx : List Effect} (hl : line ∈ ls) (hp : Located path ls d.history)
    (h : Does w d line go d' fx) :
    (∀ x ∈ fx, Granted path ls x) ∧ Located path ls d'.history := by
  cases h with
  | blank => exact ⟨fun x hx => (by cases hx), hp⟩
  | busy => refine ⟨fun x hx => ?_, hp⟩; cases List.mem_singleton.1 hx; exact .err
  | continues => exact ⟨fun x hx => (by cases hx), hp⟩
  | opens => exact ⟨fun x hx => (by cases hx), hp⟩
  | ends h1 h2 => exact ⟨fun x hx => granted_said (replies_said h2 x hx), hp⟩
  | block h1 h2 => exact ⟨fun x hx => granted_said (replies_said h2 x hx), hp⟩
  | help => refine ⟨fun x hx => ?_, hp⟩; cases List.mem_singleton.1 hx; exact .out
  | quit h1 h2 h3 =>
    refine ⟨fun x hx => ?_, hp⟩
    simp only [List.mem_cons, List.not_mem_nil, or_false] at hx h3
    rcases hx with rfl | rfl
    · refine .save hl ?_ hp
      rcases h3 with rfl | rfl
      · exact .inl h2
      · exact .inr (.inl h2)
    · exact .out
  | quitOnly => refine ⟨fun x hx => ?_, hp⟩; cases List.mem_singleton.1 hx; exact .out
  | reset => refine ⟨fun x hx => ?_, hp⟩; cases List.mem_singleton.1 hx; exact .out
  | fixities => refine ⟨fun x hx => ?_, hp⟩; cases List.mem_singleton.1 hx; exact .out
  | info => refine ⟨fun x hx => ?_, hp⟩; cases List.mem_singleton.1 hx; exact .out
  | infoPartly =>
    refine ⟨fun x hx => ?_, hp⟩
    simp only [List.mem_cons, List.not_mem_nil, or_false] at hx
    rcases hx with rfl | rfl <;> exact .out
  | obeys h1 h2 h3 => exact obeys_granted hl h2 hp h3
  | unknown => refine ⟨fun x hx => ?_, hp⟩; cases List.mem_singleton.1 hx; exact .err

theorem sits_granted {d d' : Desk} {ins : List (World × Input)} {go : Bool} {fx : List Effect}
    {path : Text} {ls : List Text} (h : Sits d ins go d' fx) (hls : ∀ l ∈ typed ins, l ∈ ls)
    (hp : Located path ls d.history) :
    (∀ x ∈ fx, Granted path ls x) ∧ Located path ls d'.history := by
  induction h with
  | nothing => exact ⟨fun x hx => (by cases hx), hp⟩
  | eof => exact ⟨fun x hx => (by cases hx), hp⟩
  | interrupted => exact ⟨fun x hx => (by cases hx), hp⟩
  | error h ih =>
    obtain ⟨h1, h2⟩ := ih hls hp
    refine ⟨fun x hx => ?_, h2⟩
    rcases List.mem_cons.1 hx with rfl | hx
    · exact .err
    · exact h1 x hx
  | quits h => exact does_granted (hls _ (by simp [typed])) hp h
  | line h h' ih =>
    obtain ⟨h1, h2⟩ := does_granted (hls _ (by simp [typed])) hp h
    obtain ⟨h3, h4⟩ := ih (fun l hl => hls l (by simp only [typed] at hl ⊢; simp [hl])) h2
    refine ⟨fun x hx => ?_, h4⟩
    rcases List.mem_append.1 hx with hx | hx
    · exact h1 x hx
    · exact h3 x hx

theorem snaps_said {src : Text} {fx : List Effect} {p : Panic} (h : Snaps src fx p) :
    ∀ x ∈ fx, ∃ t, x = .out t ∨ x = .err t := by
  intro x hx
  cases h with
  | silently => cases hx
  | speaking => cases List.mem_singleton.1 hx; exact ⟨_, .inr rfl⟩

theorem falls_granted {w : World} {d : Desk} {line path : Text} {ls : List Text} {fx : List Effect}
    {p : Panic} (hl : line ∈ ls) (h : Falls w d line fx p) : ∀ x ∈ fx, Granted path ls x := by
  intro x hx
  cases h with
  | ends h1 h2 => exact granted_said (snaps_said h2 x hx)
  | block h1 h2 => exact granted_said (snaps_said h2 x hx)
  | files h1 h2 h3 h4 h5 h6 =>
    rcases List.mem_append.1 hx with hx | hx
    · rcases files_said h5 x hx with h | ⟨p, word, hw, rfl, h⟩
      · exact granted_said h
      · exact .read hl h2 h4 (List.mem_append_left _ hw) h
    · cases h6 with
      | silently a b c d =>
        cases List.mem_singleton.1 hx
        exact .read hl h2 h4 (List.mem_append_right _ List.mem_cons_self) a
      | speaking a b c d e =>
        simp only [List.mem_cons, List.not_mem_nil, or_false] at hx
        rcases hx with rfl | rfl
        · exact .read hl h2 h4 (List.mem_append_right _ List.mem_cons_self) a
        · exact .out

omit [CharTables] in
theorem housed_said {fs : FileSystem} {home dir : Option Text} {fx : List Effect}
    (h : Housed fs home dir fx) : ∀ x ∈ fx, ∃ t, x = .out t ∨ x = .err t := by
  intro x hx
  cases h <;> simp only [List.mem_cons, List.not_mem_nil, or_false] at hx
  all_goals rcases hx with rfl | rfl <;> exact ⟨_, .inr rfl⟩

omit [CharTables] in
theorem keeps_said {fs : FileSystem} {home : Option Text} {path : Text} {fx : List Effect}
    (h : Keeps fs home path fx) : ∀ x ∈ fx ++ greeting path, ∃ t, x = .out t ∨ x = .err t := by
  intro x hx
  rcases List.mem_append.1 hx with hx | hx
  · rcases h with h | h | h <;> exact housed_said h x (by assumption)
  · simp only [greeting, List.mem_cons, List.not_mem_nil, or_false] at hx
    rcases hx with rfl | rfl | rfl <;> exact ⟨_, .inl rfl⟩

end

section
variable [CharTables] [LawfulTables]

/-- **C166** Whatever is typed, whatever is in the files and whatever the system answers: everything
that a session does to the system is said by a typed line. This holds for sessions that panic, too. -/
theorem C166_confined (fs : FileSystem) (home : Option Text) (ins : List (World × Input)) :
    ∃ path fx₀, Keeps fs home path fx₀ ∧
      ∀ x ∈ (runReplT fs home ins).done, Granted path (typed ins) x := by
  cases hr : runReplT fs home ins with
  | mk done result =>
    cases result with
    | ok y =>
      obtain ⟨go, s'⟩ := y
      rw [← (C159_same ⟨fun _ => .ok [], fun _ => .ok (), fun _ _ => .ok []⟩
        (Session.new fs home).1 [] fs home ins).2.2.1, C158_session] at hr
      obtain ⟨path, fx₀, fx₁, d, h1, h2, -, rfl⟩ := hr
      refine ⟨path, fx₀, h1, fun x hx => ?_⟩
      rcases List.mem_append.1 hx with hx | hx
      · exact granted_said (keeps_said h1 x hx)
      · exact (sits_granted h2 (fun _ h => h) (.inl rfl)).1 x hx
    | error e =>
      rw [C159_session] at hr
      obtain ⟨path, fx₀, before, w, line, after, d, fx₁, fx₂, p, h1, rfl, h2, h3, rfl, -⟩ := hr
      refine ⟨path, fx₀, h1, fun x hx => ?_⟩
      rcases List.mem_append.1 hx with hx | hx
      · exact granted_said (keeps_said h1 x hx)
      · rcases List.mem_append.1 hx with hx | hx
        · exact (sits_granted h2 (fun l h => by simp only [typed] at h ⊢; simp [h]) (.inl rfl)).1 x hx
        · exact falls_granted (by simp [typed]) h3 x hx

/-- **C166** In particular: as long as no line begins with a colon, a session only writes to the
screen. -/
theorem C166_quiet (fs : FileSystem) (home : Option Text) (ins : List (World × Input))
    (h : ∀ line ∈ typed ins, ∀ c, Says line c → ¬ t!":" <+: c) :
    ∀ x ∈ (runReplT fs home ins).done, ∃ t, x = .out t ∨ x = .err t := by
  obtain ⟨path, fx₀, -, hg⟩ := C166_confined fs home ins
  have no : ∀ {line r o : Text}, line ∈ typed ins → SaysWith line (':' :: r) o → False := by
    intro line r o hl hs
    obtain ⟨b, hs, -⟩ := hs
    exact h line hl _ hs ⟨r ++ b ++ o, by simp⟩
  intro x hx
  cases hg x hx with
  | out => exact ⟨_, .inl rfl⟩
  | err => exact ⟨_, .inr rfl⟩
  | spawn a b c => exact (no a b).elim
  | bytes a b => exact (no a b).elim
  | chdir a b => exact (no a b).elim
  | read a b c d e => exact (no a b).elim
  | clear a b c => exact (no a b).elim
  | forget a b c => exact (no a b).elim
  | saveTo a b c d => exact (no a b).elim
  | save a b c =>
    rcases b with b | b | b | b
    · exact (h _ a _ b ⟨t!"q", rfl⟩).elim
    · exact (h _ a _ b ⟨t!"quit", rfl⟩).elim
    · exact (no a b).elim
    · exact (no a b).elim

end

attribute [local instance] asciiTables asciiTables_lawful

/-- A session that asks for three things, and for one of them wrongly. -/
example : (runReplT exFs (some t!"/home/u") ([t!" :shell ls -l", t!":history --set h", t!":cd", t!"1 {-",
      t!":q"].map fun l => (exWorld, .line l))).done.filter (fun x => match x with
        | .out _ | .err _ => false
        | _ => true) =
    [.spawn t!"ls" [t!"-l"], .bytes [], .saveHistory t!"h"] := by decide +kernel

/-- What is not asked for is not granted. -/
example : ¬ Granted [] [t!"ls", t!"\":shell ls\""] (.spawn t!"ls" []) := by
  rintro (_ | _ | ⟨h1, h2, -⟩)
  have no : ∀ {l o : Text} {c : Char} {r : Text}, l = c :: r → c ≠ ':' → isWhitespace c = false →
      ¬ SaysWith l t!":shell" o := by
    rintro l o c r rfl hc hw ⟨b, ⟨x, y, h, hx, -⟩, -⟩
    cases x with
    | nil => cases h; exact hc rfl
    | cons z zs =>
      cases h
      have := hx c List.mem_cons_self
      rw [hw] at this; cases this
  simp only [List.mem_cons, List.not_mem_nil, or_false] at h1
  rcases h1 with rfl | rfl
  · exact no rfl (by decide) (by decide) h2
  · exact no rfl (by decide) (by decide) h2

/-- Lines without commands, as `C166_quiet` supposes. -/
example : ∀ line ∈ typed [(exWorld, .line t!"1 + 2"), (exWorld, .eof)], ∀ c, Says line c →
    ¬ t!":" <+: c := by
  intro line hl c hs
  simp only [typed, List.filterMap_cons, List.filterMap_nil, List.mem_cons, List.not_mem_nil, or_false] at hl
  subst hl
  have hc : c ≠ [] := by
    rintro rfl
    obtain ⟨x, r, h, -⟩ := says_lead hs
    cases h
  rw [says_iff hc] at hs
  rw [← hs]
  decide

end Pemdas
