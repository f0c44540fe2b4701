/-!
# Hovering: the place previewed, the links offered and how they are written
-/

namespace Tinymist.Hover

/-- The search for the place that is previewed (crates/tinymist-query/src/hover.rs:258-287, `preview`): the cursor itself,
and then the cursors around it at growing distances, the one behind it first. `jump` is the first position that
`jump_from_cursor` gives for a cursor, `len` the length of the text. -/
def position {P : Type} (jump : Nat → Option P) (len cursor : Nat) : Option P :=
  (jump cursor).or <|
    (List.range' 1 99).findSome? fun idx =>
      (if cursor + idx < len then jump (cursor + idx) else none).or
        (if idx ≤ cursor then jump (cursor - idx) else none)

/-- A link found in the call around the leaf (crates/tinymist-query/src/analysis/link_expr.rs:37-43, `LinkObject`): the
place of the path between its quotes, and its target, if that can be resolved. -/
structure Link where
  start : Nat
  stop : Nat
  target : Option (List Char)
  deriving DecidableEq, Repr

/-- `HoverWorker::link` (hover.rs:220-256): the targets for which actions are offered. The cursor is the offset asked for
plus one (hover.rs:34-35). -/
def linkTargets (links : List Link) (offset : Nat) : List (List Char) :=
  (links.filter fun l => decide (l.start ≤ offset + 1 ∧ offset + 1 < l.stop)).filterMap (·.target)

/-! ## Commands as links -/

/-- A digit of an escape in `percent_encoding` (upper case). -/
def upperHex (n : Nat) : Char := if n < 10 then Char.ofNat (48 + n) else Char.ofNat (55 + n)

/-- `NON_ALPHANUMERIC` of `percent_encoding`, its complement: the bytes that are kept. -/
def kept (b : Nat) : Bool := (48 ≤ b && b ≤ 57) || (65 ≤ b && b ≤ 90) || (97 ≤ b && b ≤ 122)

/-- `utf8_percent_encode(…, NON_ALPHANUMERIC)` (hover.rs:416-419), on the bytes of the text. -/
def percentEncode : List Nat → List Char
  | [] => []
  | b :: bs => if kept b then Char.ofNat b :: percentEncode bs else '%' :: upperHex (b / 16) :: upperHex (b % 16) :: percentEncode bs

/-- A digit of an escape in `serde_json` (lower case). -/
def lowerHex (n : Nat) : Char := if n < 10 then Char.ofNat (48 + n) else Char.ofNat (87 + n)

/-- The characters of a string in JSON as `serde_json::to_string` writes them (hover.rs:415). -/
def jsonChar (c : Char) : List Char :=
  if c = '"' then ['\\', '"']
  else if c = '\\' then ['\\', '\\']
  else if c.toNat = 8 then ['\\', 'b']
  else if c.toNat = 9 then ['\\', 't']
  else if c.toNat = 10 then ['\\', 'n']
  else if c.toNat = 12 then ['\\', 'f']
  else if c.toNat = 13 then ['\\', 'r']
  else if c.toNat < 32 then ['\\', 'u', '0', '0', lowerHex (c.toNat / 16), lowerHex (c.toNat % 16)]
  else [c]

/-- The argument of the commands, a list of one string, as JSON (hover.rs:238-251, 415). -/
def jsonArgs (s : List Char) : List Char :=
  '[' :: '"' :: s.flatMap jsonChar ++ ['"', ']']

/-- The action as it is written in Markdown (hover.rs:377-423, the `Display` of `CommandLink` and of `CommandOrLink`).
`utf8` gives the bytes of a text. -/
def commandLink (utf8 : List Char → List Nat) (title id arg : List Char) : List Char :=
  '[' :: title ++ ']' :: '(' :: ("command:".toList ++ id ++ '?' :: percentEncode (utf8 (jsonArgs arg))) ++ [')']

end Tinymist.Hover
