import Verif.Model.Tokens
import Verif.Spec.Position
/-! What semantic tokens should be. -/
namespace Tinymist.Tokens
open Tinymist.Position

/-- A token with its place in the document. -/
structure Abs where
  line : Nat
  start : Nat
  length : Nat
  tag : Tag
  deriving DecidableEq, Repr

/-- How a client reads tokens (Language Server Protocol, `textDocument/semanticTokens`): the line is relative to the
token before, the character too if both are on the same line. -/
def decode : Nat × Nat → List Sem → List Abs
  | _, [] => []
  | p, t :: ts =>
    let q := if t.deltaLine = 0 then (p.1, p.2 + t.deltaStart) else (p.1 + t.deltaLine, t.deltaStart)
    ⟨q.1, q.2, t.length, t.tag⟩ :: decode q ts

/-- A stretch of the document, by byte offsets, and its tag. -/
structure Piece where
  start : Nat
  stop : Nat
  tag : Tag
  deriving DecidableEq

mutual
/-- The leaves that are not empty. -/
def leaves : Node → Nat → List Piece
  | .leaf text tag, b => if text = [] then [] else [⟨b, b + len8 text, tag⟩]
  | .inner _ cs, b => forestLeaves cs b
def forestLeaves : List Node → Nat → List Piece
  | [], _ => []
  | n :: ns, b => leaves n b ++ forestLeaves ns (b + len8 n.text)
end

/-- Where line `i` starts; line `i` ends where line `i + 1` starts. -/
def startOf (s : Text) (i : Nat) : Nat := len8 ((lines s).take i).flatten

/-- A stretch cut at line starts. -/
def cut (s : Text) (p : Piece) : List Piece :=
  (List.range (lines s).length).filterMap fun i =>
    let x := max p.start (startOf s i)
    let y := min p.stop (startOf s (i + 1))
    if x < y then some ⟨x, y, p.tag⟩ else none

/-- What has to be highlighted: the leaves, for clients without multiline tokens cut into lines. -/
def wanted (multiline : Bool) (root : Node) : List Piece :=
  if multiline then leaves root 0 else (leaves root 0).flatMap (cut root.text)

/-- A stretch is described by a token. Columns of UTF-8 are characters (see C19), lengths are bytes. -/
def Describes (enc : Encoding) (s : Text) (a : Abs) (p : Piece) : Prop :=
  ∃ pre mid post, s = pre ++ mid ++ post ∧ p.start = len8 pre ∧ p.stop = len8 (pre ++ mid) ∧
    toLsp enc s p.start = some (a.line, a.start) ∧ a.length = units enc mid ∧ a.tag = p.tag

/-- Pieces that follow one another without gap or overlap, from offset `a` to offset `b`. -/
inductive Tiles : Nat → List Piece → Nat → Prop
  | nil (a) : Tiles a [] a
  | cons {b L} (p : Piece) (h : p.start < p.stop) (hs : Tiles p.stop L b) : Tiles p.start (p :: L) b

/-- `Stutter E D`: `E` is `D`, except that a piece may be repeated with other tags right after it. -/
inductive Stutter : List Piece → List Piece → Prop
  | nil : Stutter [] []
  | next {E D} (p : Piece) (h : Stutter E D) : Stutter (E ++ [p]) (D ++ [p])
  | again {E D} (p : Piece) (tag : Tag) (h : Stutter (E ++ [p]) D) :
      Stutter (E ++ [p] ++ [⟨p.start, p.stop, tag⟩]) D

end Tinymist.Tokens
