import Verif.Model.Setup
/-
C125: removing what a session has stored.
-/
namespace Pemdas

private theorem deleteNamed_spec {w : DirWorld} {path name : Text} {es : List Text}
    {x : List Text × List Effect} (h : deleteNamed w path name es = some x) :
    x.1 = es.filter (fun e => e = name && w.exists_ e) ∧ ∀ e ∈ x.1, w.removeFile e = true := by
  induction es generalizing x with
  | nil => cases h; simp
  | cons e es ih =>
    unfold deleteNamed at h
    split at h
    · rename_i hc
      split at h
      · rename_i hr
        cases hd : deleteNamed w path name es with
        | none => rw [hd] at h; cases h
        | some y =>
          rw [hd] at h
          cases h
          obtain ⟨h1, h2⟩ := ih hd
          refine ⟨by rw [List.filter_cons_of_pos (by simpa using hc), ← h1], ?_⟩
          intro e' he'
          rcases List.mem_cons.1 he' with rfl | h'
          · exact hr
          · exact h2 e' h'
      · cases h
    · rename_i hc
      obtain ⟨h1, h2⟩ := ih h
      refine ⟨?_, h2⟩
      rw [List.filter_cons_of_neg (by simpa using hc), h1]

private theorem deleteNamed_total {w : DirWorld} {path name : Text} {es : List Text}
    (h : ∀ e, w.removeFile e = true) : ∃ x, deleteNamed w path name es = some x := by
  induction es with
  | nil => exact ⟨_, rfl⟩
  | cons e es ih =>
    obtain ⟨x, hx⟩ := ih
    unfold deleteNamed
    split
    · rw [if_pos (h e), hx]; exact ⟨_, rfl⟩
    · exact ⟨x, hx⟩

private theorem deleteNamed_said {w : DirWorld} {path name : Text} {es : List Text}
    {x : List Text × List Effect} (h : deleteNamed w path name es = some x) :
    x.2 = x.1.map fun e => .err (t!"deleting history file found at " ++ pathJoin path e ++ t!"\n") := by
  induction es generalizing x with
  | nil => cases h; rfl
  | cons e es ih =>
    unfold deleteNamed at h
    split at h
    · split at h
      · cases hd : deleteNamed w path name es with
        | none => rw [hd] at h; cases h
        | some y =>
          rw [hd] at h
          cases h
          rw [List.map_cons, ← ih hd]
          rfl
      · cases h
    · exact ih h

/-- **C125** What is said: a failed comparison with the current directory, every deletion, a
directory that cannot be listed, and a directory that is left because it is not empty (or is the
current directory). -/
theorem C125_said {w : DirWorld} {path : Text} {u : Uninstalled}
    (h : uninstallArtifacts w path = some u) :
    u.said =
      (match w.isCwd with
        | .ok _ => []
        | .error e => [.err (t!"Error canonicalizing `" ++ path ++ t!"` and `.` for comparison while " ++
            t!"identifying history file name to delete: " ++ e ++ t!"\n")]) ++
      (u.deleted.map fun e =>
        .err (t!"deleting history file found at " ++ pathJoin path e ++ t!"\n")) ++
      (match w.entries with
        | .error e => [.err (t!"Error calling `uninstall_artifacts(" ++ path ++ t!")`: " ++ e ++ t!"\n")]
        | .ok _ => if w.relist = true ∧ u.dirDeleted = false then
            [.err (t!"could not delete non-empty directory `" ++ path ++ t!"`\n")] else []) := by
  have hm : uninstallMsg w path = (match w.isCwd with
        | .ok _ => []
        | .error e => [.err (t!"Error canonicalizing `" ++ path ++ t!"` and `.` for comparison while " ++
            t!"identifying history file name to delete: " ++ e ++ t!"\n")]) := by
    unfold uninstallMsg
    cases w.isCwd with
    | ok _ => rfl
    | error e =>
      simp only [Session.errLine, List.append_assoc]
      rfl
  rw [← hm]
  unfold uninstallArtifacts at h
  split at h
  · rename_i es hes
    rw [hes]
    split at h
    · cases h
    · rename_i del said hd
      have hs := deleteNamed_said hd
      simp only at hs
      split at h
      · rename_i hr
        split at h
        · split at h
          · cases h; simp [hs]
          · cases h
        · cases h
          simp only [hs, hr, Session.errLine, List.append_assoc, and_self, if_true]
          rfl
      · rename_i hr
        cases h
        simp [hs, hr]
  · rename_i e hes
    rw [hes]
    cases h
    simp [Session.errLine]

/-- **C125** Whatever is deleted is a history file; the directory is deleted only if there is nothing
else in it and it is not known to be the current directory. -/
theorem C125_nothing_else {w : DirWorld} {path : Text} {u : Uninstalled}
    (h : uninstallArtifacts w path = some u) :
    (∀ e ∈ u.deleted, e = t!".history" ∨ e = t!".pemdas_history") ∧
    (u.dirDeleted = true → w.isCwd ≠ .ok true ∧
      ∃ es, w.entries = .ok es ∧ ∀ e ∈ es, e = t!".history") := by
  have hname : uninstallName w = t!".history" ∨ uninstallName w = t!".pemdas_history" := by
    unfold uninstallName
    split
    · exact .inr rfl
    · exact .inl rfl
  unfold uninstallArtifacts at h
  split at h
  · rename_i es hes
    split at h
    · cases h
    · rename_i del said hd
      obtain ⟨h1, _⟩ := deleteNamed_spec hd
      simp only at h1
      have hdel : ∀ e ∈ del, e = t!".history" ∨ e = t!".pemdas_history" := by
        intro e he
        rw [h1] at he
        have := (List.mem_filter.1 he).2
        simp only [Bool.and_eq_true, decide_eq_true_eq] at this
        rw [this.1]
        exact hname
      split at h
      · split at h
        · rename_i hn
          split at h
          · cases h
            refine ⟨hdel, fun _ => ⟨?_, es, hes, ?_⟩⟩
            · intro hw
              have := hn.2
              simp only [uninstallName, hw] at this
              exact absurd this (by decide)
            · intro e he
              have h2 : es.length ≤ del.length := by omega
              rw [h1] at h2
              have h3 := List.length_filter_eq_length_iff.1
                (Nat.le_antisymm (List.length_filter_le _ _) h2) e he
              simp only [Bool.and_eq_true, decide_eq_true_eq] at h3
              rw [h3.1]
              exact hn.2
          · cases h
        · cases h
          exact ⟨hdel, fun h => by cases h⟩
      · cases h
        exact ⟨hdel, fun h => by cases h⟩
  · cases h
    exact ⟨by simp, fun h => by cases h⟩

/-- C125, the part that holds: in a directory other than the current one, where everything works, the
history file that sessions use is deleted, and the directory if there was nothing else. Missing: the
current directory, see `C125_current_directory_wrong`. -/
theorem C125_history_deleted_partial {w : DirWorld} {path : Text} {es : List Text}
    (h1 : w.isCwd = .ok false) (h2 : w.entries = .ok es) (h3 : ∀ e, w.exists_ e = true)
    (h4 : ∀ e, w.removeFile e = true) (h5 : w.relist = true) (h6 : w.removeDir = true) :
    ∃ u, uninstallArtifacts w path = some u ∧ (t!".history" ∈ es → t!".history" ∈ u.deleted) ∧
      (u.dirDeleted = true ↔ ∀ e ∈ es, e = t!".history") := by
  obtain ⟨x, hx⟩ := deleteNamed_total (w := w) (path := path) (name := t!".history") (es := es) h4
  obtain ⟨hs, _⟩ := deleteNamed_spec hx
  have hmem : t!".history" ∈ es → t!".history" ∈ x.1 := by
    intro h
    rw [hs]
    exact List.mem_filter.2 ⟨h, by simp [h3]⟩
  have hlen : es.length - x.1.length = 0 ↔ ∀ e ∈ es, e = t!".history" := by
    have : es.length - x.1.length = 0 ↔ x.1.length = es.length := by
      have : x.1.length ≤ es.length := by rw [hs]; exact List.length_filter_le _ _
      omega
    rw [this, hs, List.length_filter_eq_length_iff]
    simp [h3]
  have hname : uninstallName w = t!".history" := by simp only [uninstallName, h1]
  unfold uninstallArtifacts
  simp only [h2, hname, hx, h5, h6, if_true]
  by_cases hc : es.length - x.1.length = 0
  · exact ⟨_, by rw [if_pos ⟨hc, trivial⟩], hmem, by simp [← hlen, hc]⟩
  · exact ⟨_, by rw [if_neg (fun h => hc h.1)], hmem, by simp [← hlen, hc]⟩

/-- C125 is false when the history is in the current directory: there sessions use `.history`
(`C79_start`), which is never deleted. -/
theorem C125_current_directory_wrong {w : DirWorld} {path : Text} {u : Uninstalled}
    (h1 : w.isCwd = .ok true) (h : uninstallArtifacts w path = some u) :
    t!".history" ∉ u.deleted := by
  have hname : uninstallName w = t!".pemdas_history" := by simp only [uninstallName, h1]
  unfold uninstallArtifacts at h
  rw [hname] at h
  split at h
  · split at h
    · cases h
    · rename_i del said hd
      obtain ⟨hs, _⟩ := deleteNamed_spec hd
      have : t!".history" ∉ del := by
        intro hm
        rw [show del = _ from hs] at hm
        have := (List.mem_filter.1 hm).2
        simp at this
      split at h
      · split at h
        · rename_i hn
          exact absurd hn.2 (by decide)
        · cases h; exact this
      · cases h; exact this
  · cases h; simp

/-- Witnesses: a directory with just the history, elsewhere and as the current directory. -/
example : (uninstallArtifacts ⟨.ok false, .ok [t!".history"], fun _ => true, fun _ => true, true, true⟩
      t!"/h/.pemdas").map (fun u => (u.deleted, u.dirDeleted)) = some ([t!".history"], true) ∧
    (uninstallArtifacts ⟨.ok true, .ok [t!".history"], fun _ => true, fun _ => true, true, true⟩
      t!".").map (fun u => (u.deleted, u.dirDeleted)) = some ([], false) := by decide

end Pemdas
