import Verif.Model.AstMore
/-
C106, C109 and C110: texts built in local buffers, and the end marker `Char::Eof`.
-/
namespace Pemdas
open Memory

/-! ### C109 -/

private theorem totalLen_eq (cs : List Char) (n : Nat) :
    totalLen cs n = n + (Symbol.utf8Bytes cs).length := by
  induction cs generalizing n with
  | nil => simp [totalLen, Symbol.utf8Bytes]
  | cons c cs ih =>
    rw [totalLen, ih]
    simp [Symbol.utf8Bytes, String.length_utf8EncodeChar]
    omega

private theorem encodeAt_ok (c : Char) (done rest : List UInt8)
    (h : c.utf8Size ≤ rest.length) :
    encodeAt c done.length (done.length + c.utf8Size) (done ++ rest) =
      .ok (done ++ String.utf8EncodeChar c ++ rest.drop c.utf8Size) := by
  unfold encodeAt
  rw [if_pos ⟨by omega, by simp; omega⟩]
  have h1 : (done ++ rest).drop done.length = rest := by simp
  have h2 : (done ++ rest).drop (done.length + c.utf8Size) = rest.drop c.utf8Size := by
    rw [← List.drop_drop, h1]
  have h3 : (done ++ rest).take done.length = done := by simp
  rw [h1, h2, h3]
  have h4 : done.length + c.utf8Size - done.length = c.utf8Size := by omega
  rw [h4]
  unfold encodeUtf8
  have h5 : (rest.take c.utf8Size).length = c.utf8Size := by simp; omega
  rw [if_pos (by omega)]
  have h6 : (rest.take c.utf8Size).drop c.utf8Size = [] := by simp
  rw [h6]
  simp [bind, Except.bind]

private theorem fill_ok (cs : List Char) (done rest : List UInt8)
    (h : rest.length = (Symbol.utf8Bytes cs).length) :
    fill cs done.length (done ++ rest) = .ok (done ++ Symbol.utf8Bytes cs) := by
  induction cs generalizing done rest with
  | nil =>
    have : rest = [] := by simpa [Symbol.utf8Bytes] using h
    simp [fill, Symbol.utf8Bytes, this]
  | cons c cs ih =>
    have hl : rest.length = c.utf8Size + (Symbol.utf8Bytes cs).length := by
      rw [h]; simp [Symbol.utf8Bytes, String.length_utf8EncodeChar]
    unfold fill
    simp only []
    rw [encodeAt_ok c done rest (by omega)]
    have := ih (done ++ String.utf8EncodeChar c) (rest.drop c.utf8Size) (by simp; omega)
    simp only [List.length_append, String.length_utf8EncodeChar] at this
    simp only [bind, Except.bind]
    rw [this]
    simp [Symbol.utf8Bytes]

private theorem charBuf_ok (cs : List Char) : charBuf cs = .ok (Symbol.utf8Bytes cs) := by
  have := fill_ok cs [] (List.replicate (totalLen cs 0) 0) (by simp [totalLen_eq])
  simpa [charBuf] using this

private theorem utf8Bytes_eq (cs : List Char) :
    Symbol.utf8Bytes cs = cs.utf8Encode.data.toList := by
  simp [Symbol.utf8Bytes, List.utf8Encode]

/-- **C109** Whatever the characters, building the text does not panic, and the buffer built is
their UTF-8 encoding: neither a byte too many nor one missing. -/
theorem C109_contents (cs : List Char) :
    ∃ buf, charBuf cs = .ok buf ∧ buf = cs.utf8Encode.data.toList :=
  ⟨_, charBuf_ok cs, utf8Bytes_eq cs⟩

/-- The memory with the allocations `bss` added one after the other. -/
def Memory.allocAll : List (List UInt8) → Mem → Mem
  | [], m => m
  | bs :: bss, m => allocAll bss (alloc m bs).2

private theorem dead (bss : List (List UInt8)) (m : Mem) (a n : Nat) (hn : n ≠ 0)
    (h : ∀ e ∈ m.live, e.1 ≠ a) (ha : a < m.next) : read (allocAll bss m) (.heap a n) = none := by
  induction bss generalizing m with
  | nil =>
    have : m.live.find? (fun e => e.1 == a) = none := by
      rw [List.find?_eq_none]
      intro e he
      simpa using h e he
    simp [allocAll, Memory.read, hn, this]
  | cons bs bss ih =>
    apply ih
    · intro e he
      rcases List.mem_cons.1 he with rfl | he
      · show m.next ≠ a
        omega
      · exact h e he
    · show a < m.next + 1
      omega

private theorem leak_dead (bss : List (List UInt8)) (m : Mem) (buf : List UInt8) (hb : buf ≠ []) :
    read (allocAll bss (leak m buf).2) (leak m buf).1 = none := by
  apply dead
  · simpa using hb
  · intro e he
    have := (List.mem_filter.1 he).2
    simpa using this
  · show m.next < m.next + 1
    omega

/-- The result of `charstring` and `combine_chars` is a reference that can be read, in the memory
the call leaves behind, and gives the characters. -/
def Memory.Usable (r : Except Panic (Ref × Mem)) (t : Text) : Prop :=
  ∃ p m, r = .ok (p, m) ∧ read m p = some t.utf8Encode.data.toList

private theorem encode_ne {cs : List Char} (h : cs ≠ []) : Symbol.utf8Bytes cs ≠ [] := by
  cases cs with
  | nil => exact absurd rfl h
  | cons c cs =>
    intro he
    have := congrArg List.length he
    simp [Symbol.utf8Bytes, String.length_utf8EncodeChar] at this
    have := c.utf8Size_pos
    omega

private theorem combine_eq (m : Mem) (pre cs post : List Char) :
    combineChars m pre cs post = charstring m (pre ++ cs ++ post) := rfl

private theorem charstring_eq (m : Mem) (cs : List Char) :
    charstring m cs = .ok (leak m (Symbol.utf8Bytes cs)) := by
  simp [charstring, charBuf_ok, bind, Except.bind]

/-- **C109 fails** for every text that is not empty, whatever the memory and however it is used
later: the buffer is freed when the function returns, and the reference returned never points to
anything again. -/
theorem C109_dangling_wrong (m : Mem) (pre cs post : List Char) (h : pre ++ cs ++ post ≠ []) :
    (∃ p m', combineChars m pre cs post = .ok (p, m') ∧ ∀ bss, read (allocAll bss m') p = none) ∧
    (∃ p m', charstring m (pre ++ cs ++ post) = .ok (p, m') ∧
      ∀ bss, read (allocAll bss m') p = none) := by
  rw [combine_eq, and_self, charstring_eq]
  exact ⟨_, _, rfl, fun bss => leak_dead bss m _ (encode_ne h)⟩

/-- **C109** (the part that holds) Exactly the empty text can be read. Missing: all others, see
`C109_dangling_wrong`. -/
theorem C109_usable_partial (m : Mem) (cs : List Char) : Usable (charstring m cs) cs ↔ cs = [] := by
  constructor
  · rintro ⟨p, m', h, hr⟩
    apply Classical.byContradiction
    intro hne
    rw [charstring_eq] at h
    have := leak_dead [] m _ (encode_ne hne)
    have e := Except.ok.inj h
    rw [e] at this
    simp only [allocAll] at this
    rw [this] at hr
    cases hr
  · rintro rfl
    exact ⟨_, _, charstring_eq m [], by simp [Memory.read, Symbol.utf8Bytes]⟩

/-- **C109** What the memory is: the bytes of a live allocation can be read, all of them and any first part,
and no more. -/
theorem C109_memory (m : Mem) (bs : List UInt8) (n : Nat) :
    (n ≤ bs.length → read (alloc m bs).2 (.heap (alloc m bs).1 n) = some (bs.take n)) ∧
    (bs.length < n → read (alloc m bs).2 (.heap (alloc m bs).1 n) = none) := by
  unfold Memory.read alloc
  simp only [List.find?_cons, beq_self_eq_true]
  constructor
  · intro h
    split
    · rename_i h0; subst h0; rfl
    · rfl
  · intro h
    rw [if_neg (by omega), if_neg (by omega)]

/-- Freed allocations are not the caller's: what could be read before the call can be read after
it. -/
theorem C109_others_partial (m : Mem) (hm : ∀ e ∈ m.live, e.1 < m.next) (cs : List Char) (p : Ref)
    (bs : List UInt8) (hp : read m p = some bs) :
    ∃ q m', charstring m cs = .ok (q, m') ∧ read m' p = some bs := by
  refine ⟨(leak m (Symbol.utf8Bytes cs)).1, (leak m (Symbol.utf8Bytes cs)).2,
    charstring_eq m cs, ?_⟩
  have : (leak m (Symbol.utf8Bytes cs)).2.live = m.live := by
    simp only [leak, alloc, free]
    rw [List.filter_cons_of_neg (by simp)]
    apply List.filter_eq_self.2
    intro e he
    have := hm e he
    simp; omega
  cases p with
  | const t => exact hp
  | heap a n =>
    unfold Memory.read at hp ⊢
    rw [this]
    exact hp

example : t!"aé" ++ [] ++ t!"!" ≠ [] ∧
    charBuf t!"aé!" = .ok [0x61, 0xc3, 0xa9, 0x21] ∧
    charstring ⟨[(0, [1, 2])], 1⟩ t!"aé!" = .ok (.heap 1 4, ⟨[(0, [1, 2])], 2⟩) := by decide

/-! ### C110 -/

/-- **C110 fails**: the end of the input equals the character NUL, and is one byte long although
its text is empty. -/
theorem C110_eof_wrong :
    Chr.eof.eqChar '\x00' = true ∧ (Chr.chr '\x00').eqChar '\x00' = true ∧
    Chr.eof ≠ Chr.chr '\x00' ∧
    ∀ m, Chr.asStr m .eof = .ok (.const [], m) ∧ Chr.eof.lenUtf8 = 1 := by
  refine ⟨by decide, by decide, by decide, fun m => ⟨rfl, by decide⟩⟩

/-- **C110** (the part that holds) Apart from NUL, a `Char` equals exactly the character it holds,
and `is_eof` tells whether there is one; converting from an `Option` loses nothing. -/
theorem C110_chars_partial (x : Chr) (o o' : Option Char) (c : Char) :
    (c ≠ '\x00' → (x.eqChar c = true ↔ x = .chr c)) ∧
    (Chr.ofOption o = Chr.ofOption o' ↔ o = o') ∧
    ((Chr.ofOption o).isEof = true ↔ o = none) ∧
    (∀ c, x = .chr c → x.lenUtf8 = (String.utf8EncodeChar c).length) := by
  refine ⟨?_, ?_, ?_, ?_⟩
  · intro hc
    cases x with
    | eof =>
      simp only [Chr.eqChar, Chr.deref, beq_iff_eq]
      exact ⟨fun h => absurd h.symm hc, fun h => nomatch h⟩
    | chr d => simp [Chr.eqChar, Chr.deref]
  · cases o <;> cases o' <;> simp [Chr.ofOption]
  · cases o <;> simp [Chr.ofOption, Chr.isEof]
  · rintro c rfl
    simp [Chr.lenUtf8, String.length_utf8EncodeChar]

/-- **C109 fails** for the text of a single `Char` as well. -/
theorem C109_char_dangling_wrong (m : Mem) (c : Char) :
    ∃ p m', Chr.asStr m (.chr c) = .ok (p, m') ∧ ∀ bss, read (allocAll bss m') p = none := by
  have : Chr.asStr m (.chr c) = .ok (leak m (String.utf8EncodeChar c)) := by
    simp [Chr.asStr, Chr.isEof, Chr.deref, Chr.lenUtf8, encodeUtf8, bind, Except.bind]
  refine ⟨_, _, this, fun bss => leak_dead bss m _ ?_⟩
  simp

/-! ### C106 -/

/-- **C106 fails** for every identifier but `[]`: asking for its text panics. -/
theorem C106_as_str_wrong (m : Mem) (i : Ident) (h : i ≠ .nil) : ∃ p, i.asStr m = .error p := by
  cases i with
  | nil => exact absurd rfl h
  | commas k => exact ⟨.encodeBuffer, rfl⟩
  | upper s => exact ⟨.identTodo, rfl⟩
  | lower s => exact ⟨.identTodo, rfl⟩
  | infix_ s => exact ⟨.identTodo, rfl⟩

/-- **C106** (the part that holds) `[]` is the one identifier whose `as_str` is what is displayed.
Missing: all others, see `C106_as_str_wrong`. -/
theorem C106_as_str_partial (m : Mem) (i : Ident) : Usable (i.asStr m) i.text ↔ i = .nil := by
  constructor
  · rintro ⟨p, m', h, -⟩
    apply Classical.byContradiction
    intro hne
    obtain ⟨e, he⟩ := C106_as_str_wrong m i hne
    rw [he] at h
    cases h
  · rintro rfl
    exact ⟨_, _, rfl, by simp [Memory.read, utf8Bytes_eq, Ident.text]⟩

example : Ident.commas 2 ≠ .nil ∧ (Ident.commas 2).text = t!"(,,)" := by decide

end Pemdas
