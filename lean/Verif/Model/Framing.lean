import Verif.Model.RustNum
import Verif.Model.Utf8
/-!
# Message framing of the LSP/DAP transport

Models `crates/sync-lsp/src/msg.rs`: `read_msg_text`, `write_msg_text`.  The stream is the list of
bytes still to be read.  JSON (de)serialisation of the text is external.
-/
namespace Tinymist.Framing
open Tinymist

/-- `BufRead::read_line`: bytes up to and including the first `\n`, and the rest. -/
def readLine : List Nat → List Nat × List Nat
  | [] => ([], [])
  | b :: bs => if b = 10 then ([10], bs) else (b :: (readLine bs).1, (readLine bs).2)

/-- `buf.splitn(2, ": ")`, msg.rs:223-227: text before and after the first `": "`. -/
def splitColon : List Char → Option (List Char × List Char)
  | ':' :: ' ' :: r => some ([], r)
  | c :: r => (splitColon r).map fun p => (c :: p.1, p.2)
  | [] => none

/-- `char::to_ascii_lowercase`. -/
def lower (c : Char) : Char :=
  if 'A'.toNat ≤ c.toNat ∧ c.toNat ≤ 'Z'.toNat then Char.ofNat (c.toNat + 32) else c

/-- `str::eq_ignore_ascii_case`. -/
def eqIgnoreCase (a b : List Char) : Bool := a.map lower == b.map lower

/-- `usize::MAX`. -/
def usizeMax : Nat := 2 ^ 64 - 1

/-- Outcome of the header loop: end of stream, error, or the declared size and the remaining stream. -/
inductive Headers where
  | eof
  | err
  | done (size : Option Nat) (rest : List Nat)
  deriving DecidableEq, Repr

/-- The header loop, msg.rs:211-231.  The fuel bounds the number of lines. -/
def readHeaders : Nat → Option Nat → List Nat → Headers
  | 0, _, _ => .err
  | n + 1, size, inp =>
    let line := (readLine inp).1
    let rest := (readLine inp).2
    if line = [] then .eof
    else
      match Utf8.decode line with
      | none => .err
      | some buf =>
        if ¬ ("\r\n".toList.isSuffixOf buf) then .err
        else
          let buf := buf.take (buf.length - 2)
          if buf = [] then .done size rest
          else
            match splitColon buf with
            | none => .err
            | some (name, value) =>
              if eqIgnoreCase name "Content-Length".toList then
                match RustNum.parse 10 usizeMax value with
                | none => .err
                | some sz => readHeaders n (some sz) rest
              else readHeaders n size rest

/-- Outcome of reading one message. -/
inductive Read where
  | eof
  | err
  | msg (text : List Char) (rest : List Nat)
  deriving DecidableEq, Repr

/-- `read_msg_text`, msg.rs:208-239. -/
def readMsg (inp : List Nat) : Read :=
  match readHeaders (inp.length + 1) none inp with
  | .eof => .eof
  | .err => .err
  | .done none _ => .err
  | .done (some size) rest =>
    if rest.length < size then .err
    else
      match Utf8.decode (rest.take size) with
      | none => .err
      | some text => .msg text (rest.drop size)

/-- `write_msg_text`, msg.rs:242-248. -/
def writeMsg (msg : List Char) : List Nat :=
  Utf8.encode ("Content-Length: ".toList ++ RustNum.print 10 (Utf8.encode msg).length ++ "\r\n\r\n".toList)
    ++ Utf8.encode msg

/-- The reader thread's loop, transport.rs:142-157 (JSON parsing left out): messages until the end of
the stream; `true` if the stream ended properly, `false` on an error. -/
def readAll : Nat → List Nat → List (List Char) × Bool
  | 0, _ => ([], false)
  | n + 1, inp =>
    match readMsg inp with
    | .eof => ([], true)
    | .err => ([], false)
    | .msg text rest => (text :: (readAll n rest).1, (readAll n rest).2)

end Tinymist.Framing
