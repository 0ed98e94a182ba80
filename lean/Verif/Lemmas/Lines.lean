import Verif.Props.Join
import Verif.Spec.Lines
import Verif.Lemmas.ParseShapes
import Verif.Lemmas.Laid
/-
Programs line by line.
-/
namespace Pemdas
open Lexer Parser

/-- With increasing columns, what may follow an expression is at least what may follow an argument at the
column at which it starts. -/
theorem Written.edge_le {cat : ExprCat} {c m : Nat} {e : Expr} {ts : List CTok} (h : Written cat c m e ts) :
    Inc ts → (∀ x ∈ ts, c ≤ x.2) → c ≤ m := by
  induction h with
  | lastOpen _ ih => intro h1 h2; have := ih h1 h2; omega
  | @bin c m l op t k r ts us hl _ hr _ ih =>
    intro h1 h2
    have h3 := ih h1.right.tail fun x hx => h1.right.tail.firstCol_le hx
    obtain ⟨x, hx, h4⟩ := firstCol_mem hr.ne_nil
    have := h2 x (by simp [hx])
    omega
  | @lam c k₀ k m ps pts e ts _ _ _ _ ih =>
    intro h1 h2
    have h3 : Inc ((.arrow, k) :: ts) := Inc.right (ts := (.lambda, k₀) :: pts) (by simpa using h1)
    have h4 := ih h3.tail fun x hx => Nat.le_of_lt (h3.head hx)
    have := h2 (.arrow, k) (by simp)
    simp only at this
    omega
  | @let_ c k₀ k m d e ds ts _ _ ih =>
    intro h1 h2
    have h3 : Inc ((.in_, k) :: ts) := Inc.right (ts := (.let_, k₀) :: ds) (by simpa using h1)
    have h4 := ih h3.tail fun x hx => Nat.le_of_lt (h3.head hx)
    have := h2 (.in_, k) (by simp)
    simp only at this
    omega
  | _ => intros; omega

/-- A program does not begin with an operator. -/
theorem WrittenProg.not_joins {ds : List Decl} {t : Token} {k : Nat} {ts : List CTok}
    (h : WrittenProg ds ((t, k) :: ts)) : t.joins = false := by
  generalize he : (t, k) :: ts = all at h
  cases h with
  | nil => cases he
  | @infix_ d ds us ts' semi hd _ =>
    obtain ⟨hd, _⟩ := hd
    have hp := hd.length_pos
    cases ts' with
    | nil => simp at hp
    | cons x ts' =>
      simp only [List.cons_append, List.cons.injEq] at he
      obtain ⟨rfl, _⟩ := he
      generalize hm : ((t, k) :: ts').map (·.1) = toks at hd
      cases hd with
      | @withPrec a _ _ _ _ _ =>
        simp only [List.map_cons, List.cons.injEq] at hm
        rw [hm.1]; cases a <;> rfl
      | @noPrec a _ _ _ =>
        simp only [List.map_cons, List.cons.injEq] at hm
        rw [hm.1]; cases a <;> rfl
  | @expr e m ds ts' us semi hw _ _ =>
    obtain ⟨t', k', ts'', rfl, h1, _⟩ := hw.starts
    simp only [List.cons_append, List.cons.injEq, Prod.mk.injEq] at he
    obtain ⟨⟨rfl, _⟩, _⟩ := he
    cases t <;> simp_all [beginsExpr, Token.joins]

theorem firstCol_append_le {ts us : List CTok} (h : Inc (ts ++ us)) (hne' : us ≠ []) :
    firstCol (ts ++ us) ≤ firstCol us := by
  obtain ⟨x, hx, e⟩ := firstCol_mem hne'
  rw [e]
  exact h.firstCol_le (by simp [hx])

/-- Two programs, the first of which is on one line. -/
theorem WrittenProg.append [CharTables] [LawfulTables] {ds : List Decl} {ts : List CTok} (h : WrittenProg ds ts) {ds' : List Decl}
    {us : List CTok} (h' : WrittenProg ds' us) : Inc ts →
    ((∃ e, ds.getLast? = some (.expr e)) → (ts.map (·.1)).getLast? ≠ some .semi →
      Follow (firstCol ts) us) → WrittenProg (ds ++ ds') (ts ++ us) := by
  have last : ∀ {xs ys : List CTok} {semi : Option Nat}, ys ≠ [] →
      ((xs ++ semiToks semi ++ ys).map (·.1)).getLast? = (ys.map (·.1)).getLast? := by
    intro xs ys semi hne
    rw [List.map_append, List.getLast?_append]
    cases hg : (ys.map (·.1)).getLast? with
    | none => exact absurd (by simpa using hg) hne
    | some x => rfl
  have more : ∀ {d : Decl} {ds : List Decl} {xs vs : List CTok} {semi : Option Nat}, xs ≠ [] →
      WrittenProg ds vs → Inc (xs ++ semiToks semi ++ vs) →
      ((∃ e, (d :: ds).getLast? = some (.expr e)) →
        ((xs ++ semiToks semi ++ vs).map (·.1)).getLast? ≠ some .semi →
        Follow (firstCol (xs ++ semiToks semi ++ vs)) us) →
      (∃ e, ds.getLast? = some (.expr e)) → (vs.map (·.1)).getLast? ≠ some .semi →
      Follow (firstCol vs) us := by
    rintro d ds xs vs semi hne hv hi hf ⟨e, he⟩ hl
    have hd : ds ≠ [] := by rintro rfl; simp at he
    have hvs : vs ≠ [] := by rintro rfl; exact hd hv.of_nil
    refine (hf ⟨e, ?_⟩ ?_).mono (firstCol_append_le hi hvs)
    · rw [List.getLast?_cons, he]; rfl
    · rw [last hvs]; exact hl
  induction h with
  | nil => intro _ _; simpa using h'
  | @infix_ d ds vs ts semi hd hr ih =>
    intro hi hf
    have hne : ts ≠ [] := by rintro rfl; have := hd.1.length_pos; simp at this
    have := WrittenProg.infix_ semi hd (ih hi.right (more hne hr hi hf))
    simpa using this
  | @expr e m ds ts vs semi hw hr hs ih =>
    intro hi hf
    have hr' := ih hi.right (more hw.ne_nil hr hi hf)
    have := WrittenProg.expr semi hw hr' (by
      rintro rfl
      cases hvs : vs with
      | cons x xs => exact Follow.right (by simp) (hvs ▸ hs rfl)
      | nil =>
        subst hvs
        have := hr.of_nil
        subst this
        have hi' : Inc ts := hi.left.left
        have hm : firstCol ts ≤ m := hw.edge_le hi' fun x hx => hi'.firstCol_le hx
        have := hf ⟨e, rfl⟩ (by
          simp only [semiToks, List.append_nil]
          intro hg
          exact (hw.inner _ (List.mem_of_getLast? hg)).1 rfl)
        simp only [semiToks, List.append_nil] at this
        simpa using this.mono hm)
    simpa using this

section
variable [CharTables] [LawfulTables]

theorem SourceLine.Fine.placed {x : SourceLine} (h : x.Fine) :
    Placed [] x.text x.toks ∧ WrittenProg x.decls x.toks ∧ Inc x.toks := by
  obtain ⟨l, hp⟩ := h.reads
  obtain ⟨cs, ds, h1, h2, h3⟩ := (C96_texts (noLFCR_of_noLF h.lf) _).1 ⟨l, hp⟩
  cases ofDecls_inj h3
  cases (h1.lexes (noLFCR_of_noLF h.lf)).unique h.lexes
  exact ⟨h1, h2, (h.lexes.inc h.lf).1⟩

theorem each_placed {last : SourceLine} (hl : last.Fine) : ∀ {ls : List SourceLine}, (∀ x ∈ ls, x.Fine) →
    Placed [] (withEol t!"\n" (ls.map (·.text)) last.text) ((ls ++ [last]).flatMap (·.toks)) ∧
      NoLFCR (withEol t!"\n" (ls.map (·.text)) last.text) ∧
      (withEol t!"\n" (ls.map (·.text)) last.text).head? ≠ some '\r'
  | [], _ => by simpa [withEol] using ⟨hl.placed.1, noLFCR_of_noLF hl.lf, hl.cr⟩
  | x :: ls, h => by
    obtain ⟨h1, h2, h3⟩ := each_placed hl (ls := ls) fun y hy => h y (by simp [hy])
    have hx := h x (by simp)
    have e : withEol t!"\n" ((x :: ls).map (·.text)) last.text =
        x.text ++ (t!"\n" ++ withEol t!"\n" (ls.map (·.text)) last.text) := by simp [withEol]
    rw [e]
    refine ⟨?_, ?_, ?_⟩
    · have := hx.placed.1.gap (g := t!"\n") (by decide) (by decide) hx.code hx.short (.inl (by simp))
        (Placed.newline.2 h1)
      simpa using this
    · exact noLFCR_append (noLFCR_of_noLF hx.lf) (noLFCR_cons (fun _ => h3) h2) (by simp)
    · cases ht : x.text with
      | nil => simp
      | cons c cs => have := hx.cr; rw [ht] at this; simpa using this

theorem each_written : ∀ {ls : List SourceLine}, (∀ x ∈ ls, x.Fine) → AllApart ls →
    WrittenProg (ls.flatMap (·.decls)) (ls.flatMap (·.toks))
  | [], _, _ => .nil
  | x :: ls, h, ha => by
    have h1 := each_written (ls := ls) (fun y hy => h y (by simp [hy])) (by
      rintro a y b z c rfl hb
      exact ha (x :: a) y b z c rfl hb)
    obtain ⟨_, h2, h3⟩ := (h x (by simp)).placed
    refine h2.append h1 h3 fun he hl => ?_
    have key : ∀ (b ls' : List SourceLine), ls = b ++ ls' → (∀ z ∈ b, z.toks = []) →
        Follow (firstCol x.toks) (ls'.flatMap (·.toks)) := by
      intro b ls'
      induction ls' generalizing b with
      | nil => intro _ _; trivial
      | cons y c ih =>
        intro hls hb
        cases hy : y.toks with
        | nil =>
          rw [List.flatMap_cons, hy, List.nil_append]
          exact ih (b ++ [y]) (by simp [hls]) (by
            intro z hz
            rcases List.mem_append.1 hz with hz | hz
            · exact hb z hz
            · simp only [List.mem_singleton] at hz; rw [hz]; exact hy)
        | cons t ts =>
          rw [List.flatMap_cons, hy, List.cons_append]
          obtain ⟨t, k⟩ := t
          have hyf := (h y (by simp [hls])).placed.2.1
          rw [hy] at hyf
          exact ⟨hyf.not_joins, ha [] x b y c (by simp [hls]) hb he hl t k (by rw [hy]; rfl)⟩
    exact key [] ls rfl (by simp)

end
end Pemdas
