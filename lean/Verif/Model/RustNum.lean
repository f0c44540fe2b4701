/-!
# Integer printing and parsing of the Rust standard library

External contracts used by several areas (not code of /repo): `format!("{:x}")`, `format!("{}")`,
`uN::from_str_radix` and `uN::from_str`.  Strings are lists of characters.
-/
namespace Tinymist.RustNum

/-- The lower-case digit character of `d < 16` used by `{}` and `{:x}`. -/
def digitChar (d : Nat) : Char := if d < 10 then Char.ofNat (48 + d) else Char.ofNat (87 + d)

/-- `char::to_digit(radix)`. -/
def digitVal (b : Nat) (c : Char) : Option Nat :=
  let v :=
    if '0'.toNat ≤ c.toNat ∧ c.toNat ≤ '9'.toNat then c.toNat - '0'.toNat
    else if 'a'.toNat ≤ c.toNat ∧ c.toNat ≤ 'z'.toNat then c.toNat - 'a'.toNat + 10
    else if 'A'.toNat ≤ c.toNat ∧ c.toNat ≤ 'Z'.toNat then c.toNat - 'A'.toNat + 10
    else b
  if v < b then some v else none

/-- Digits of `n` in base `b`, most significant first; `0` prints as `"0"`. -/
def print (b : Nat) (n : Nat) : List Char :=
  if _h : b < 2 then [] else
  if n < b then [digitChar n] else print b (n / b) ++ [digitChar (n % b)]
termination_by n
decreasing_by
  rename_i h1
  exact Nat.div_lt_self (by omega) (by omega)

/-- Accumulates digits; `none` on a non-digit or when the value exceeds `max` (the loop of
`from_str_radix` with checked arithmetic). -/
def parseDigits (b max : Nat) : Nat → List Char → Option Nat
  | acc, [] => some acc
  | acc, c :: cs =>
    match digitVal b c with
    | none => none
    | some d => if acc * b + d ≤ max then parseDigits b max (acc * b + d) cs else none

/-- `uN::from_str_radix(s, b)` with `max = uN::MAX`: the empty string, a lone sign, a minus sign,
non-digits and overflow are errors; one leading `+` is accepted. -/
def parse (b max : Nat) (s : List Char) : Option Nat :=
  match s with
  | [] => none
  | ['+'] => none
  | '+' :: cs => parseDigits b max 0 cs
  | cs => parseDigits b max 0 cs

end Tinymist.RustNum
