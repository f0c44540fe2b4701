import Verif.Model.Framing

/-!
# Recording and replaying a session

Models the input side of crates/sync-lsp/src/transport.rs: `with_stdio_transport_impl` (lines 54-83: the choice of the input),
`MirrorWriter` (202-235), and the reader thread of `io_transport` (133-165), with `read_msg_text` (msg.rs:208-239) on the level of
`fill_buf`, `consume` and `read`, because a `MirrorWriter` records in `consume` and in `read`.

Simplifications: reading the standard input and writing the mirror do not fail. `serde_json::from_str` and `is_exit` are parameters. The
`BufReader` is that of the standard library, with its capacity as a parameter; `read_line` and `read_exact` are the provided methods of
the traits. The bodies of messages fit into memory.
-/

namespace Tinymist.Mirror

open Framing (splitColon eqIgnoreCase usizeMax)

/-- `BufRead` and `Read`, as far as they are used. `left` bounds the loops: the bytes that are still to come. -/
structure Input (σ : Type) where
  fill : σ → List Nat × σ
  consume : Nat → σ → σ
  read : Nat → σ → List Nat × σ
  left : σ → Nat

/-- A `BufReader`: what is in its buffer, and what the coming reads of the system find. If they find nothing, the file ends, at least for
the moment. -/
structure Buffered where
  buf : List Nat
  chunks : List (List Nat)
  deriving DecidableEq, Repr

/-- A read of the system of at most `n` bytes. -/
def sysRead (n : Nat) : List (List Nat) → List Nat × List (List Nat)
  | [] => ([], [])
  | c :: cs => if c.length ≤ n then (c, cs) else (c.take n, c.drop n :: cs)

/-- `BufReader::fill_buf`. -/
def fill (cap : Nat) (s : Buffered) : List Nat × Buffered :=
  if s.buf = [] then ((sysRead cap s.chunks).1, ⟨(sysRead cap s.chunks).1, (sysRead cap s.chunks).2⟩) else (s.buf, s)

/-- `BufReader::consume`. -/
def consume (n : Nat) (s : Buffered) : Buffered := ⟨s.buf.drop n, s.chunks⟩

/-- `BufReader::read`: around the buffer, if it is empty and the read is large. -/
def read (cap n : Nat) (s : Buffered) : List Nat × Buffered :=
  if s.buf = [] ∧ cap ≤ n then ((sysRead n s.chunks).1, ⟨[], (sysRead n s.chunks).2⟩)
  else ((fill cap s).1.take n, consume n (fill cap s).2)

/-- The standard input, or the file to be replayed (transport.rs:63-71). -/
def plain (cap : Nat) : Input Buffered where
  fill := fill cap
  consume := consume
  read := read cap
  left s := s.buf.length + s.chunks.flatten.length

/-- `MirrorWriter`, transport.rs:202. -/
structure Mirrored where
  inner : Buffered
  mirror : List Nat
  deriving DecidableEq, Repr

/-- `BufRead::fill_buf` of `MirrorWriter`, transport.rs:219-221. -/
def mirrorFill (cap : Nat) (s : Mirrored) : List Nat × Mirrored := ((fill cap s.inner).1, { s with inner := (fill cap s.inner).2 })

/-- `BufRead::consume` of `MirrorWriter`, transport.rs:223-234. -/
def mirrorConsume (cap n : Nat) (s : Mirrored) : Mirrored :=
  let f := fill cap s.inner
  ⟨consume n f.2, s.mirror ++ f.1.take n⟩

/-- `Read::read` of `MirrorWriter`, transport.rs:204-215. -/
def mirrorRead (cap n : Nat) (s : Mirrored) : List Nat × Mirrored :=
  let r := read cap n s.inner
  (r.1, ⟨r.2, s.mirror ++ r.1⟩)

/-- The standard input with a mirror. -/
def mirrored (cap : Nat) : Input Mirrored where
  fill := mirrorFill cap
  consume := mirrorConsume cap
  read := mirrorRead cap
  left s := s.inner.buf.length + s.inner.chunks.flatten.length

/-- The index of the first line break and one: the bytes of the line (`memchr`). -/
def lineLen : List Nat → Option Nat
  | [] => none
  | b :: bs => if b = 10 then some 1 else (lineLen bs).map (· + 1)

/-- The loop of `BufRead::read_line`. -/
def readLineLoop {σ : Type} (io : Input σ) : Nat → σ → List Nat × σ
  | 0, s => ([], s)
  | n + 1, s =>
    let f := io.fill s
    match lineLen f.1 with
    | some k => (f.1.take k, io.consume k f.2)
    | none =>
      if f.1 = [] then ([], io.consume 0 f.2)
      else
        let r := readLineLoop io n (io.consume f.1.length f.2)
        (f.1 ++ r.1, r.2)

/-- `BufRead::read_line`, but for UTF-8. -/
def readLine {σ : Type} (io : Input σ) (s : σ) : List Nat × σ := readLineLoop io (io.left s + 1) s

/-- The loop of `Read::read_exact`. -/
def readExactLoop {σ : Type} (io : Input σ) : Nat → Nat → σ → Option (List Nat) × σ
  | _, 0, s => (some [], s)
  | 0, _ + 1, s => (none, s)
  | fuel + 1, n + 1, s =>
    let r := io.read (n + 1) s
    if r.1 = [] then (none, r.2)
    else
      let r' := readExactLoop io fuel (n + 1 - r.1.length) r.2
      (r'.1.map (r.1 ++ ·), r'.2)

/-- `Read::read_exact`. -/
def readExact {σ : Type} (io : Input σ) (n : Nat) (s : σ) : Option (List Nat) × σ := readExactLoop io (io.left s + 1) n s

/-- What a line of the header does. -/
inductive Line where
  | bad
  | last
  | next (size : Option Nat)
  deriving DecidableEq, Repr

/-- msg.rs:213-230, for a line that is not empty. -/
def header (size : Option Nat) (line : List Nat) : Line :=
  match Utf8.decode line with
  | none => .bad
  | some buf =>
    if ¬ ("\r\n".toList.isSuffixOf buf) then .bad
    else
      let buf := buf.take (buf.length - 2)
      if buf = [] then .last
      else
        match splitColon buf with
        | none => .bad
        | some (name, value) =>
          if eqIgnoreCase name "Content-Length".toList then
            match RustNum.parse 10 usizeMax value with
            | none => .bad
            | some sz => .next (some sz)
          else .next size

/-- Outcome of the header loop. -/
inductive Head where
  | eof
  | err
  | done (size : Option Nat)
  deriving DecidableEq, Repr

/-- msg.rs:211-231. -/
def headers {σ : Type} (io : Input σ) : Nat → Option Nat → σ → Head × σ
  | 0, _, s => (.err, s)
  | n + 1, size, s =>
    let l := readLine io s
    if l.1 = [] then (.eof, l.2)
    else
      match header size l.1 with
      | .bad => (.err, l.2)
      | .last => (.done size, l.2)
      | .next size => headers io n size l.2

/-- Outcome of reading a text. -/
inductive Got where
  | eof
  | err
  | text (text : List Char)
  deriving DecidableEq, Repr

/-- `read_msg_text`, msg.rs:208-239. -/
def readText {σ : Type} (io : Input σ) (s : σ) : Got × σ :=
  let h := headers io (io.left s + 1) none s
  match h.1 with
  | .eof => (.eof, h.2)
  | .err => (.err, h.2)
  | .done none => (.err, h.2)
  | .done (some size) =>
    let b := readExact io size h.2
    match b.1 with
    | none => (.err, b.2)
    | some bytes =>
      match Utf8.decode bytes with
      | none => (.err, b.2)
      | some text => (.text text, b.2)

/-- How the reader thread ends. -/
inductive End where
  | eof
  | err
  | exit
  /-- It has not ended yet. -/
  | going
  deriving DecidableEq, Repr

/-- The loop of the reader thread, transport.rs:142-161, for at most `n` messages: what it sends, how it ends, and what is left. -/
def reader {σ M : Type} (io : Input σ) (parse : List Char → Option M) (isExit : M → Bool) : Nat → σ → List M × End × σ
  | 0, s => ([], .going, s)
  | n + 1, s =>
    let r := readText io s
    match r.1 with
    | .eof => ([], .eof, r.2)
    | .err => ([], .err, r.2)
    | .text text =>
      match parse text with
      | none => ([], .err, r.2)
      | some m =>
        if isExit m then ([m], .exit, r.2)
        else
          let q := reader io parse isExit n r.2
          (m :: q.1, q.2.1, q.2.2)

/-- `MirrorArgs`, transport.rs:35-42. -/
structure Args where
  mirror : String
  replay : String
  deriving DecidableEq, Repr

/-- Which input is taken. -/
inductive Source where
  | replay (file : String)
  | stdin
  | mirror (file : String)
  deriving DecidableEq, Repr

/-- transport.rs:63-80. -/
def source (args : Args) : Source :=
  if ¬args.replay.isEmpty then .replay args.replay
  else if args.mirror.isEmpty then .stdin
  else .mirror args.mirror

end Tinymist.Mirror
