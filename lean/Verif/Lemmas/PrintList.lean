import Verif.Model.Printer
import Verif.Spec.Print
import Verif.Props.Style
/-
Helper lemmas: the listing of fixities.
-/
namespace Pemdas
open Printer

theorem indexSet_eq (xs acc : List Fixity) :
    indexSet xs acc = acc ++ (xs.filter fun x => !acc.contains x).eraseDups := by
  induction hn : xs.length using Nat.strongRecOn generalizing xs acc with
  | ind n ih =>
    subst hn
    cases xs with
    | nil => simp [indexSet]
    | cons x xs =>
      unfold indexSet
      rw [ih xs.length (by simp) xs _ rfl]
      by_cases h : acc.contains x = true
      · rw [if_pos h, List.filter_cons_of_neg (by simpa using h)]
      · rw [if_neg h, List.filter_cons_of_pos (by simpa using h), List.eraseDups_cons,
          List.append_assoc, List.singleton_append, List.filter_filter]
        congr 3
        apply List.filter_congr
        intro y _
        by_cases hy : y = x <;> simp [hy]

theorem indexSet_nil (xs : List Fixity) : indexSet xs [] = xs.eraseDups := by
  rw [indexSet_eq]; simp only [List.nil_append]; congr 1; exact List.filter_eq_self.2 (by simp)

theorem mem_eraseDups {xs : List Fixity} {x : Fixity} : x ∈ xs.eraseDups ↔ x ∈ xs := by
  induction hn : xs.length using Nat.strongRecOn generalizing xs with
  | ind n ih =>
    subst hn
    cases xs with
    | nil => simp
    | cons y ys =>
      rw [List.eraseDups_cons, List.mem_cons, ih _ _ rfl]
      · by_cases h : x = y <;> simp [h]
      · exact Nat.lt_succ_of_le (List.length_filter_le _ _)

theorem nodup_eraseDups (xs : List Fixity) : xs.eraseDups.Nodup := by
  induction hn : xs.length using Nat.strongRecOn generalizing xs with
  | ind n ih =>
    subst hn
    cases xs with
    | nil => simp
    | cons y ys =>
      rw [List.eraseDups_cons, List.nodup_cons]
      refine ⟨?_, ih _ ?_ _ rfl⟩
      · rw [mem_eraseDups]; simp
      · exact Nat.lt_succ_of_le (List.length_filter_le _ _)

/-- The line for one fixity as fragments. -/
def lineFrags (fx : Fixity) (ops : List Infix) : List (Text ⊕ Style) :=
  [.inr (Style.ansi .red fx.assoc.keyword), .inl ((if fx.assoc = .neither then t!" " else []) ++ t!" "),
   .inr ((Style.new (decText fx.prec)).setFg (.rgb ⟨128, 0, 128⟩)), .inl (opsText ops)]

/-- All lines as fragments. -/
def linesFrags (es : List (Infix × Fixity)) : List Fixity → List (Text ⊕ Style)
  | [] => []
  | fx :: fxs =>
    (match (es.filterMap fun e => if fx = e.2 then some e.1 else none) with
     | [] => []
     | ops => lineFrags fx ops ++ [.inl (if fxs.isEmpty then [] else t!"\n")]) ++
    linesFrags es fxs

theorem writeLines_frags (es : List (Infix × Fixity)) (fxs : List Fixity) :
    writeLines es fxs = ((linesFrags es fxs).map (fun f => f.elim id Style.display)).flatten := by
  induction fxs with
  | nil => rfl
  | cons fx fxs ih =>
    unfold writeLines linesFrags
    rw [List.map_append, List.flatten_append, ih]
    congr 1
    cases es.filterMap fun e => if fx = e.2 then some e.1 else none with
    | nil => rfl
    | cons op ops => simp [lineFrags, alignable]

theorem opsText_eq (op : Infix) (ops : List Infix) :
    opsText (op :: ops) = t!" " ++ List.intercalate t!", " ((op :: ops).map Infix.text) := by
  have : ∀ (ops : List Infix) (op : Infix), op.text ++ (ops.map fun o => t!", " ++ o.text).flatten =
      List.intercalate t!", " ((op :: ops).map Infix.text) := by
    intro ops
    induction ops with
    | nil => intro op; simp [List.intercalate]
    | cons o ops ih =>
      intro op
      rw [List.map_cons, List.flatten_cons, List.append_assoc, ih o]
      simp [List.intercalate]
  simp only [opsText]
  rw [List.append_assoc, this]

theorem ops_filter (es : List (Infix × Fixity)) (fx : Fixity) :
    es.filterMap (fun e => if fx = e.2 then some e.1 else none) =
      (es.filter (·.2 = fx)).map (·.1) := by
  induction es with
  | nil => rfl
  | cons e es ih =>
    by_cases h : fx = e.2
    · rw [List.filterMap_cons_some (b := e.1) (by simp [h]), List.filter_cons_of_pos (by simp [h]),
        List.map_cons, ih]
    · rw [List.filterMap_cons_none (by simp [h]), List.filter_cons_of_neg (by simp [eq_comm, h]), ih]

theorem line_plain (fx : Fixity) (op : Infix) (ops : List Infix) :
    ((lineFrags fx (op :: ops)).map (fun f => f.elim id Style.item)).flatten =
      fx.line (op :: ops) := by
  simp only [lineFrags, List.map_cons, List.map_nil, Sum.elim_inl, Sum.elim_inr, id, opsText_eq,
    List.flatten_cons, List.flatten_nil, List.append_nil, Fixity.line]
  cases fx with
  | mk p a => cases a <;>
    simp [Assoc.keyword, Assoc.shown, Style.ansi, Style.new, Style.setFg]

theorem lines_plain (es : List (Infix × Fixity)) (fxs : List Fixity)
    (h : ∀ fx ∈ fxs, ∃ e ∈ es, e.2 = fx) :
    ((linesFrags es fxs).map (fun f => f.elim id Style.item)).flatten =
      List.intercalate t!"\n" (fxs.map fun fx => fx.line ((es.filter (·.2 = fx)).map (·.1))) := by
  induction fxs with
  | nil => rfl
  | cons fx fxs ih =>
    have ih := ih (fun x hx => h x (by simp [hx]))
    unfold linesFrags
    rw [ops_filter]
    obtain ⟨e, he, hfx⟩ := h fx (by simp)
    have hm : e.1 ∈ (es.filter (·.2 = fx)).map (·.1) :=
      List.mem_map_of_mem (List.mem_filter.2 ⟨he, by simp [hfx]⟩)
    cases hops : (es.filter (·.2 = fx)).map (·.1) with
    | nil => rw [hops] at hm; cases hm
    | cons op ops =>
      simp only [List.map_append, List.flatten_append, ih, line_plain, List.map_cons, List.map_nil,
        List.flatten_cons, List.flatten_nil, Sum.elim_inl, id, List.append_nil, hops]
      cases fxs with
      | nil => simp [List.intercalate]
      | cons y ys => simp [List.intercalate]

theorem alignable_written (fx : Fixity) (op : Infix) (ops : List Infix) :
    alignable fx ++ opsText (op :: ops) = fx.written (op :: ops) := by
  have red : ∀ t, (Style.ansi .red t).display = painted t!"31" t := by
    intro t
    have e1 : (Style.ansi .red []).config.writeStart = t!"\x1b[31m" := by decide
    have e2 : (Style.ansi .red []).config.writeEnd = t!"\x1b[0m" := by decide
    show (Style.ansi .red []).config.writeStart ++ t ++ (Style.ansi .red []).config.writeEnd = _
    rw [e1, e2]; rfl
  have purple : ∀ t, ((Style.new t).setFg (.rgb ⟨128, 0, 128⟩)).display =
      painted t!"38;2;128;0;128" t := by
    intro t
    have e1 : ((Style.new []).setFg (.rgb ⟨128, 0, 128⟩)).config.writeStart =
        t!"\x1b[38;2;128;0;128m" := by decide +kernel
    have e2 : ((Style.new []).setFg (.rgb ⟨128, 0, 128⟩)).config.writeEnd = t!"\x1b[0m" := by
      decide +kernel
    show ((Style.new []).setFg (.rgb ⟨128, 0, 128⟩)).config.writeStart ++ t ++
      ((Style.new []).setFg (.rgb ⟨128, 0, 128⟩)).config.writeEnd = _
    rw [e1, e2]; rfl
  rw [opsText_eq]
  simp only [alignable, Fixity.written, red, purple]
  cases fx with
  | mk p a => cases a <;> simp [Assoc.keyword, Assoc.shown]

theorem lines_written (es : List (Infix × Fixity)) (fxs : List Fixity)
    (h : ∀ fx ∈ fxs, ∃ e ∈ es, e.2 = fx) :
    writeLines es fxs =
      List.intercalate t!"\n" (fxs.map fun fx => fx.written ((es.filter (·.2 = fx)).map (·.1))) := by
  induction fxs with
  | nil => rfl
  | cons fx fxs ih =>
    have ih := ih (fun x hx => h x (by simp [hx]))
    unfold writeLines
    rw [ops_filter]
    obtain ⟨e, he, hfx⟩ := h fx (by simp)
    have hm : e.1 ∈ (es.filter (·.2 = fx)).map (·.1) :=
      List.mem_map_of_mem (List.mem_filter.2 ⟨he, by simp [hfx]⟩)
    cases hops : (es.filter (·.2 = fx)).map (·.1) with
    | nil => rw [hops] at hm; cases hm
    | cons op ops =>
      simp only [ih, alignable_written, hops, List.map_cons]
      cases fxs with
      | nil => simp [List.intercalate]
      | cons y ys => simp [List.intercalate]

theorem keyword_noEsc (a : Assoc) : '\x1b' ∉ a.keyword := by cases a <;> decide

theorem decText_noEsc (n : Nat) : '\x1b' ∉ decText n := fun h =>
  absurd (Nat.isDigit_of_mem_toDigits (by decide) (by decide) h) (by decide)

theorem opsText_noEsc {ops : List Infix} (h : ∀ op ∈ ops, '\x1b' ∉ op.text) : '\x1b' ∉ opsText ops := by
  cases ops with
  | nil => simp [opsText]
  | cons op ops =>
    simp only [opsText, List.mem_append, List.mem_flatten, List.mem_map, not_or, not_exists, not_and]
    refine ⟨⟨by decide, h op (by simp)⟩, ?_⟩
    rintro _ ⟨o, ho, rfl⟩
    simp [h o (by simp [ho])]

theorem linesFrags_noEsc {es : List (Infix × Fixity)} (h : ∀ e ∈ es, '\x1b' ∉ e.1.text)
    (fxs : List Fixity) : ∀ f ∈ linesFrags es fxs, '\x1b' ∉ f.elim id Style.item := by
  induction fxs with
  | nil => simp [linesFrags]
  | cons fx fxs ih =>
    intro f hf
    unfold linesFrags at hf
    rcases List.mem_append.1 hf with hf | hf
    · rw [ops_filter] at hf
      split at hf
      · cases hf
      · rename_i ops hops
        have hn : ∀ op ∈ (es.filter (·.2 = fx)).map (·.1), '\x1b' ∉ op.text := by
          intro op hop
          obtain ⟨e, he, rfl⟩ := List.mem_map.1 hop
          exact h e (List.mem_filter.1 he).1
        simp only [lineFrags, List.mem_append, List.mem_cons, List.not_mem_nil, or_false] at hf
        rcases hf with (rfl | rfl | rfl | rfl) | rfl
        · exact keyword_noEsc _
        · show '\x1b' ∉ (if fx.assoc = .neither then t!" " else []) ++ t!" "
          split <;> decide
        · exact decText_noEsc _
        · exact opsText_noEsc hn
        · show '\x1b' ∉ (if fxs.isEmpty then [] else t!"\n")
          split <;> decide
    · exact ih f hf

end Pemdas
