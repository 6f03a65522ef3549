import Verif.Py
/-!
# Base64 helpers of keys

Model of `CoseKey.base64decode` and `CoseKey.base64encode` (`/repo/pycose/keys/cosekey.py:149-179`) with the parts of Python's
`base64` and `binascii` modules they call.  A Python string is a list of characters (lone surrogates are not modelled).
-/
set_option autoImplicit false
namespace Cose

/-- The base64 alphabet: the character of a 6-bit value. -/
def b64Dig (n : Nat) : Char :=
  if n < 26 then Char.ofNat (65 + n) else if n < 52 then Char.ofNat (71 + n)
  else if n < 62 then Char.ofNat (n - 4) else if n = 62 then '+' else '/'

/-- `table_a2b_base64` of `binascii`: the value of a character of the alphabet. -/
def b64Val (c : Char) : Option Nat :=
  if 'A' ≤ c ∧ c ≤ 'Z' then some (c.toNat - 65)
  else if 'a' ≤ c ∧ c ≤ 'z' then some (c.toNat - 71)
  else if '0' ≤ c ∧ c ≤ '9' then some (c.toNat + 4)
  else if c = '+' then some 62
  else if c = '/' then some 63
  else none

/-- `base64.b64encode(b).decode("utf-8")`, i.e. `CoseKey.base64encode` (`cosekey.py:170-179`). -/
def base64encode : Bytes → List Char
  | [] => []
  | [a] => [b64Dig (a.toNat / 4), b64Dig (a.toNat % 4 * 16), '=', '=']
  | [a, b] => [b64Dig (a.toNat / 4), b64Dig (a.toNat % 4 * 16 + b.toNat / 16), b64Dig (b.toNat % 16 * 4), '=']
  | a :: b :: c :: t =>
    b64Dig (a.toNat / 4) :: b64Dig (a.toNat % 4 * 16 + b.toNat / 16) ::
      b64Dig (b.toNat % 16 * 4 + c.toNat / 64) :: b64Dig (c.toNat % 64) :: base64encode t

/-- `binascii.a2b_base64` (not in strict mode): `quad` is the position in the group of four, `left` the bits carried over, `pads` the
padding characters seen.  Characters outside the alphabet are skipped; sufficient padding ends the input.  `binascii.Error` is a
`ValueError`. -/
def a2bBase64 (quad left pads : Nat) : List Char → Res Bytes
  | [] => if quad = 0 then .ok [] else .error .valueError
  | c :: t =>
    if c = '=' then
      if 2 ≤ quad then
        if 4 ≤ quad + (pads + 1) then .ok [] else a2bBase64 quad left (pads + 1) t
      else a2bBase64 quad left pads t
    else
      match b64Val c with
      | none => a2bBase64 quad left pads t
      | some v =>
        if quad = 0 then a2bBase64 1 v 0 t
        else if quad = 1 then do
          let r ← a2bBase64 2 (v % 16) 0 t
          .ok (UInt8.ofNat (left * 4 + v / 16) :: r)
        else if quad = 2 then do
          let r ← a2bBase64 3 (v % 4) 0 t
          .ok (UInt8.ofNat (left * 16 + v / 4) :: r)
        else do
          let r ← a2bBase64 0 0 0 t
          .ok (UInt8.ofNat (left * 64 + v) :: r)

/-- `base64.b64decode(s)` on a string: it must be ASCII. -/
def b64decode (s : List Char) : Res Bytes :=
  if s.all (fun c => c.toNat < 128) then a2bBase64 0 0 0 s else .error .valueError

/-- `s.replace('-', '+').replace('_', '/')` on one character. -/
def unUrl (c : Char) : Char := if c = '-' then '+' else if c = '_' then '/' else c

/-- `CoseKey.base64decode` (`cosekey.py:149-168`); falling off the end returns `None`. -/
def base64decode (s : List Char) : Res (Option Bytes) :=
  let s := s.map unUrl
  if s.length % 4 = 0 then do let b ← b64decode s; .ok (some b)
  else if s.length % 4 = 2 then do let b ← b64decode (s ++ ['=', '=']); .ok (some b)
  else if s.length % 4 = 3 then do let b ← b64decode (s ++ ['=']); .ok (some b)
  else .ok none

end Cose
