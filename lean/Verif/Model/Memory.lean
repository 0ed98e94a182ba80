import Verif.Model.Symbol
/-
Model of the functions that build a text in a local buffer and return a reference into it:
`charstring` and `combine_chars` of `src/text/grapheme.rs`, and the type `Char` of
`src/syntax/token.rs`, with the memory they use.

The memory is a list of live allocations.  Addresses are never used twice, so a reference to an
allocation that was freed stays distinguishable from all others; reading through it gives `none`
(undefined behaviour in Rust).  A reference of length 0 needs no allocation.
-/
namespace Pemdas.Memory

/-- The live allocations with their bytes, and the next fresh address. -/
structure Mem where
  live : List (Nat × List UInt8)
  next : Nat
  deriving DecidableEq, Repr

/-- `&'a str`: a string constant of the program, or `len` bytes of an allocation. -/
inductive Ref where
  | const (t : Text)
  | heap (addr len : Nat)
  deriving DecidableEq, Repr

/-- Read the bytes a reference refers to. -/
def read (m : Mem) : Ref → Option (List UInt8)
  | .const t => some (Symbol.utf8Bytes t)
  | .heap a n =>
    if n = 0 then some []
    else match m.live.find? (fun e => e.1 == a) with
      | some (_, bs) => if n ≤ bs.length then some (bs.take n) else none
      | none => none

/-- A new allocation with the given bytes. -/
def alloc (m : Mem) (bs : List UInt8) : Nat × Mem :=
  (m.next, { live := (m.next, bs) :: m.live, next := m.next + 1 })

/-- Drop the allocation at an address. -/
def free (m : Mem) (a : Nat) : Mem := { m with live := m.live.filter (fun e => e.1 != a) }

/-- `c.encode_utf8(&mut buf)` of the standard library: overwrites the start of the buffer, panics
if the buffer is too small. -/
def encodeUtf8 (c : Char) (buf : List UInt8) : Except Panic (List UInt8) :=
  if c.utf8Size ≤ buf.length then
    .ok (String.utf8EncodeChar c ++ buf.drop c.utf8Size)
  else .error .encodeBuffer

/-- `c.encode_utf8(&mut buf[i..j])`: the whole buffer afterwards. -/
def encodeAt (c : Char) (i j : Nat) (buf : List UInt8) : Except Panic (List UInt8) :=
  if i ≤ j ∧ j ≤ buf.length then do
    let mid ← encodeUtf8 c ((buf.drop i).take (j - i))
    .ok (buf.take i ++ mid ++ buf.drop j)
  else .error .badSlice

/-- The `fold` adding up the lengths (grapheme.rs:290-294, 313-327). -/
def totalLen : List Char → Nat → Nat
  | [], len => len
  | c :: cs, len => totalLen cs (len + c.utf8Size)

/-- The loop filling the buffer (grapheme.rs:297-301, 330-334). -/
def fill : List Char → Nat → List UInt8 → Except Panic (List UInt8)
  | [], _, buf => .ok buf
  | c :: cs, i, buf => do
    let len := c.utf8Size
    let buf ← encodeAt c i (i + len) buf
    fill cs (i + len) buf

/-- `charstring` (grapheme.rs:285-304) up to the `transmute`: the buffer. -/
def charBuf (cs : List Char) : Except Panic (List UInt8) :=
  fill cs 0 (List.replicate (totalLen cs 0) 0)

/-- `transmute::<_, &'a str>(&buf[..])` at the end of a function owning `buf` (grapheme.rs:303,
336; token.rs:506): the buffer is dropped when the function returns. -/
def leak (m : Mem) (buf : List UInt8) : Ref × Mem :=
  let (a, m) := alloc m buf
  (.heap a buf.length, free m a)

/-- `charstring` (grapheme.rs:285-304). -/
def charstring (m : Mem) (cs : List Char) : Except Panic (Ref × Mem) := do
  let buf ← charBuf cs
  .ok (leak m buf)

/-- `combine_chars` (grapheme.rs:306-337). -/
def combineChars (m : Mem) (pre cs post : List Char) : Except Panic (Ref × Mem) := do
  let all := pre ++ cs ++ post
  let buf ← fill all 0 (List.replicate (totalLen all 0) 0)
  .ok (leak m buf)

/-! ### `Char` -/

/-- `Char` (token.rs:435-440). -/
inductive Chr where
  | eof
  | chr (c : Char)
  deriving DecidableEq, Repr

namespace Chr

/-- `impl Deref for Char` (token.rs:442-451). -/
def deref : Chr → Char
  | .eof => '\x00'
  | .chr c => c

/-- `impl PartialEq<char> for Char` and its three variants (token.rs:453-475). -/
def eqChar (x : Chr) (c : Char) : Bool := x.deref == c

/-- `impl From<Option<char>> for Char` (token.rs:477-485). -/
def ofOption : Option Char → Chr
  | some c => .chr c
  | none => .eof

/-- `Char::is_eof` (token.rs:488-490). -/
def isEof : Chr → Bool
  | .eof => true
  | .chr _ => false

/-- `Char::len_utf8` (token.rs:492-499). -/
def lenUtf8 (x : Chr) : Nat :=
  match x with
  | .eof => '\x00'.utf8Size
  | .chr c => c.utf8Size

/-- `Char::as_str` (token.rs:501-509). -/
def asStr (m : Mem) (x : Chr) : Except Panic (Ref × Mem) :=
  if x.isEof then .ok (.const [], m)
  else do
    let buf ← encodeUtf8 x.deref (List.replicate x.lenUtf8 0)
    .ok (leak m buf)

end Chr
end Pemdas.Memory
