/-!
# Fingerprints and their SVG ids

Models `crates/tinymist-std/src/hash.rs`.  The base64 engine `STANDARD_NO_PAD` (external crate) is
modelled byte for byte: standard alphabet, no padding, decoding rejects foreign characters, a
dangling character and non-zero trailing bits.  Bytes are natural numbers below 256.
-/
namespace Tinymist.Fingerprint

/-- The standard base64 alphabet. -/
def alphabet : List Char :=
  "ABCDEFGHIJKLMNOPQRSTUVWXYZabcdefghijklmnopqrstuvwxyz0123456789+/".toList

/-- External: bytes to 6-bit groups. -/
def sextets : List Nat → List Nat
  | a :: b :: c :: rest =>
    a / 4 :: (a % 4 * 16 + b / 16) :: (b % 16 * 4 + c / 64) :: (c % 64) :: sextets rest
  | [a, b] => [a / 4, a % 4 * 16 + b / 16, b % 16 * 4]
  | [a] => [a / 4, a % 4 * 16]
  | [] => []

/-- External: 6-bit groups to bytes. -/
def unsextets : List Nat → Option (List Nat)
  | w :: x :: y :: z :: rest =>
    (unsextets rest).map fun bs => (w * 4 + x / 16) :: (x % 16 * 16 + y / 4) :: (y % 4 * 64 + z) :: bs
  | [w, x, y] => if y % 4 = 0 then some [w * 4 + x / 16, x % 16 * 16 + y / 4] else none
  | [w, x] => if x % 16 = 0 then some [w * 4 + x / 16] else none
  | [_] => none
  | [] => some []

/-- External: `STANDARD_NO_PAD.encode`. -/
def encode (bytes : List Nat) : List Char := (sextets bytes).map fun v => alphabet.getD v 'A'

/-- External: `STANDARD_NO_PAD.decode`. -/
def decode (s : List Char) : Option (List Nat) :=
  (s.mapM fun c => alphabet.findIdx? (· = c)).bind unsextets

/-- `u64::to_le_bytes` (with `k = 8`). -/
def toLe : Nat → Nat → List Nat
  | 0, _ => []
  | k + 1, n => n % 256 :: toLe k (n / 256)

/-- `u64::from_le_bytes`. -/
def fromLe : List Nat → Nat
  | [] => 0
  | b :: bs => b + 256 * fromLe bs

/-- `Fingerprint`, hash.rs:39-42: two `u64`. -/
structure Fp where
  lo : Nat
  hi : Nat
  deriving DecidableEq, Repr

/-- `from_u128`, hash.rs:70-76. -/
def fromU128 (h : Nat) : Fp := ⟨h % 2 ^ 64, (h >>> 64) % 2 ^ 64⟩

/-- `to_u128`, hash.rs:79-81. -/
def toU128 (f : Fp) : Nat := (f.hi <<< 64) ||| f.lo

/-- `lower32`, hash.rs:86-88. -/
def lower32 (f : Fp) : Nat := f.lo % 2 ^ 32

/-- `as_svg_id`, hash.rs:108-124 (`comemo::memoize` is transparent). -/
def asSvgId (f : Fp) (pre : List Char) : List Char :=
  let lo := encode (toLe 8 f.lo)
  if f.hi = 0 then pre ++ lo
  else
    let id := toLe 8 f.hi
    let revZero := (id.reverse.dropWhile (fun b => b = 0)).length
    pre ++ lo ++ encode (id.take revZero)

/-- `Vec::resize(8, 0)`. -/
def resize8 (bs : List Nat) : List Nat := (bs ++ List.replicate 8 0).take 8

/-- `try_from_str`, hash.rs:91-102; `none` models the panics (slice out of range, `expect`,
`unwrap`).  All strings here are ASCII, so bytes are characters. -/
def tryFromStr (s : List Char) : Option Fp :=
  if s.length < 11 then none
  else
    match decode (s.take 11) with
    | none => none
    | some bytes =>
      if bytes.length = 8 then
        match decode (s.drop 11) with
        | none => none
        | some hiBytes => some ⟨fromLe bytes, fromLe (resize8 hiBytes)⟩
      else none

end Tinymist.Fingerprint
