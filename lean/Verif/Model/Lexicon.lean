import Verif.Model.Basic
/-
Model of the string interner, `src/text/lexicon.rs`.

Interned strings are `&'static str` obtained from raw pointers into a growing buffer, so the model
has a small heap: a buffer is an allocation with an address, a capacity and its text, and a `Str`
is a fat pointer (address, start, length in bytes).  Reading through a pointer whose allocation no
longer exists gives `none` (undefined behaviour in Rust).

Not modelled: `usize` overflow of buffer sizes; the thread-local wrapper `Interner`
(lexicon.rs:182-221), which is in `Model/Interner`; the `debug_assert!`s (lexicon.rs:55-56; they are
consequences of C21).  A zero-capacity `String` has no allocation; here it has an empty one.
-/
namespace Pemdas

/-- `usize::next_power_of_two`: the smallest power of two not below `n`. -/
def nextPow2 (n : Nat) : Nat := if n ≤ 1 then 1 else 2 ^ (Nat.log2 (n - 1) + 1)

/-- A `String` with its heap allocation. -/
structure StrBuf where
  addr : Nat
  cap : Nat
  text : Text
  deriving DecidableEq, Repr

/-- `&'static str` (lexicon.rs:7): a pointer into an allocation. -/
structure StrRef where
  addr : Nat
  start : Nat
  len : Nat
  deriving DecidableEq, Repr

/-- `Lexicon` (lexicon.rs:13-19). `map` lists the hash map's entries; `next` is the next fresh
heap address. -/
structure Lexicon where
  map : List (StrRef × Nat)
  vec : List StrRef
  buf : StrBuf
  all : List StrBuf
  next : Nat
  deriving Repr

namespace Lexicon

/-- How much capacity `String::with_capacity n` really provides beyond `n`
(the standard library only promises at least `n`); may depend on the allocation. -/
abbrev Slack := Nat → Nat → Nat

/-- `Lexicon::with_capacity` (lexicon.rs:26-33). -/
def withCapacity (sl : Slack) (cap : Nat) : Lexicon :=
  { map := [], vec := [], buf := ⟨0, cap + sl 0 cap, []⟩, all := [], next := 1 }

/-- Dereference a pointer in the current heap: the live allocations are those of `buf` and `all`. -/
def read (l : Lexicon) (p : StrRef) : Option Text :=
  match (l.buf :: l.all).find? (fun b => b.addr == p.addr) with
  | some b => byteSlice b.text p.start (p.start + p.len)
  | none => none

/-- `String::push_str` on `self.buf`: in place when it fits, otherwise the contents move to a new
allocation and the old one is freed. -/
def pushStr (sl : Slack) (l : Lexicon) (s : Text) : Lexicon :=
  if utf8Len l.buf.text + utf8Len s ≤ l.buf.cap then
    { l with buf := { l.buf with text := l.buf.text ++ s } }
  else
    let cap := utf8Len l.buf.text + utf8Len s
    { l with buf := ⟨l.next, cap + sl l.next cap, l.buf.text ++ s⟩, next := l.next + 1 }

/-- `Lexicon::alloc` (lexicon.rs:65-83). -/
def alloc (sl : Slack) (l : Lexicon) (s : Text) : StrRef × Lexicon :=
  let cap := l.buf.cap
  let l :=
    if cap < utf8Len l.buf.text + utf8Len s then
      let newCap := nextPow2 (max cap (utf8Len s) + 1)
      { l with buf := ⟨l.next, newCap + sl l.next newCap, []⟩,
               all := l.all ++ [l.buf], next := l.next + 1 }
    else l
  let start := utf8Len l.buf.text
  let l := pushStr sl l s
  (⟨l.buf.addr, start, utf8Len s⟩, l)

/-- `self.map.get(string)` (lexicon.rs:45): keys compare by content. -/
def find (l : Lexicon) (s : Text) : Option Nat :=
  (l.map.find? (fun e => l.read e.1 == some s)).map (·.2)

/-- `Lexicon::intern` (lexicon.rs:44-59). `Symbol(self.map.len() as u32)` truncates. -/
def intern (sl : Slack) (l : Lexicon) (s : Text) : Nat × Lexicon :=
  match l.find s with
  | some id => (id, l)
  | none =>
    let (p, l) := alloc sl l s
    let id := l.map.length % 2 ^ 32
    (id, { l with map := l.map ++ [(p, id)], vec := l.vec ++ [p] })

/-- `Lexicon::lookup` (lexicon.rs:61-63). Reading a dangling pointer is reported as an
out-of-bounds access too. -/
def lookup (l : Lexicon) (id : Nat) : Except Panic Text :=
  match l.vec[id]? with
  | none => .error .indexOutOfBounds
  | some p => match l.read p with
    | some t => .ok t
    | none => .error .indexOutOfBounds

/-- Intern several texts in turn, collecting the symbols (`intern_iter`, lexicon.rs:196-206;
`intern_n`, lexicon.rs:208-220). -/
def internAll (sl : Slack) : List Text → Lexicon → List Nat × Lexicon
  | [], l => ([], l)
  | s :: ss, l =>
    let (id, l) := intern sl l s
    let (ids, l) := internAll sl ss l
    (id :: ids, l)

/-- `PREDEFINED` with the constants' names (lexicon.rs:132-134, 235-264). The macro gives the
constant at position `n` the value `Symbol(n)` (lexicon.rs:106,171). -/
def predefinedNamed : List (Text × Text) :=
  [(t!"EMPTY", t!""), (t!"UNDERSCORE", t!"_"), (t!"UNIT", t!"()"), (t!"NIL", t!"[]"),
   (t!"ARROW", t!"->"), (t!"AT", t!"@"), (t!"COLON", t!":"), (t!"DOT", t!"."),
   (t!"DOT2", t!".."), (t!"CASH", t!"$"), (t!"PLUS", t!"+"), (t!"DASH", t!"-"),
   (t!"STAR", t!"*"), (t!"STAR2", t!"**"), (t!"CARET", t!"^"), (t!"CARET2", t!"^^"),
   (t!"FSLASH", t!"/"), (t!"BSLASH", t!"\\"), (t!"PERCENT", t!"%"), (t!"PIPE", t!"|"),
   (t!"PIPE2", t!"||"), (t!"AMPERSAND", t!"&"), (t!"AMPERSAND2", t!"&&"),
   (t!"FIXITY", t!"fixity"), (t!"LEFT", t!"left"), (t!"RIGHT", t!"right"),
   (t!"UPPER_L", t!"L"), (t!"UPPER_R", t!"R")]

/-- `Lexicon::PREDEFINED` (lexicon.rs:132-134). -/
def predefined : List Text := predefinedNamed.map (·.2)

/-- The value of the constant called `name`: the number of entries before it
(`count!`, lexicon.rs:92-99,171). -/
def constant (name : Text) : Nat := predefinedNamed.findIdx (fun e => e.1 == name)

/-- `impl Default for Lexicon`, through `with_reserved` (lexicon.rs:36-42,136-140). -/
def default (sl : Slack) : Lexicon :=
  (internAll sl predefined (withCapacity sl predefined.length)).2

end Lexicon
end Pemdas
