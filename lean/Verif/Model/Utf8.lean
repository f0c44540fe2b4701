/-!
# UTF-8 and UTF-16 of the Rust standard library

External contracts (not code of /repo): `str::as_bytes`, `String::from_utf8`, `char::len_utf8`,
`char::len_utf16`.  Texts are lists of `Char` (Unicode scalar values), bytes natural numbers < 256.
-/
namespace Tinymist.Utf8

/-- `char::len_utf8`. -/
def len8 (c : Char) : Nat :=
  if c.toNat < 0x80 then 1 else if c.toNat < 0x800 then 2 else if c.toNat < 0x10000 then 3 else 4

/-- `char::encode_utf8`. -/
def encodeChar (c : Char) : List Nat :=
  let n := c.toNat
  if n < 0x80 then [n]
  else if n < 0x800 then [0xC0 + n / 64, 0x80 + n % 64]
  else if n < 0x10000 then [0xE0 + n / 4096, 0x80 + n / 64 % 64, 0x80 + n % 64]
  else [0xF0 + n / 262144, 0x80 + n / 4096 % 64, 0x80 + n / 64 % 64, 0x80 + n % 64]

/-- `str::as_bytes`. -/
def encode (s : List Char) : List Nat := s.flatMap encodeChar

/-- A continuation byte. -/
def isCont (b : Nat) : Bool := decide (0x80 ≤ b ∧ b < 0xC0)

/-- One character off the front of a byte string; `none` if it does not start with a well-formed
(shortest form, non-surrogate, in range) sequence. -/
def decodeOne : List Nat → Option (Char × List Nat)
  | [] => none
  | a :: r =>
    if a < 0x80 then some (Char.ofNat a, r)
    else if 0xC2 ≤ a ∧ a < 0xE0 then
      match r with
      | b :: r => if isCont b then some (Char.ofNat ((a - 0xC0) * 64 + (b - 0x80)), r) else none
      | _ => none
    else if 0xE0 ≤ a ∧ a < 0xF0 then
      match r with
      | b :: c :: r =>
        let v := (a - 0xE0) * 4096 + (b - 0x80) * 64 + (c - 0x80)
        if isCont b && isCont c && decide (0x800 ≤ v ∧ ¬ (0xD800 ≤ v ∧ v < 0xE000)) then
          some (Char.ofNat v, r) else none
      | _ => none
    else if 0xF0 ≤ a ∧ a < 0xF5 then
      match r with
      | b :: c :: d :: r =>
        let v := (a - 0xF0) * 262144 + (b - 0x80) * 4096 + (c - 0x80) * 64 + (d - 0x80)
        if isCont b && isCont c && isCont d && decide (0x10000 ≤ v ∧ v < 0x110000) then
          some (Char.ofNat v, r) else none
      | _ => none
    else none

/-- `String::from_utf8`; the fuel is an upper bound of the number of characters. -/
def decodeFuel : Nat → List Nat → Option (List Char)
  | _, [] => some []
  | 0, _ => none
  | n + 1, bs =>
    match decodeOne bs with
    | none => none
    | some (c, r) => (decodeFuel n r).map (c :: ·)

/-- `String::from_utf8` (every character takes at least one byte). -/
def decode (bs : List Nat) : Option (List Char) := decodeFuel bs.length bs

end Tinymist.Utf8
