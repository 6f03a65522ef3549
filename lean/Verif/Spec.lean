import Verif.Multi
/-!
# Specification vocabulary

Byte-level formats of RFC 8152 / RFC 8949, written down independently of the model of the encoder,
and a few predicates on messages used to state properties.
-/
set_option autoImplicit false

namespace Cose
namespace Spec

/-- `k` big-endian bytes of `n`. -/
def be (k n : Nat) : Bytes := (List.range k).map fun i => UInt8.ofNat (n / 256 ^ (k - 1 - i) % 256)

/-- RFC 8949 section 3: initial byte and argument, shortest form. -/
def head (major n : Nat) : Bytes :=
  if n < 24 then [UInt8.ofNat (major * 32 + n)]
  else if n < 2 ^ 8 then UInt8.ofNat (major * 32 + 24) :: be 1 n
  else if n < 2 ^ 16 then UInt8.ofNat (major * 32 + 25) :: be 2 n
  else if n < 2 ^ 32 then UInt8.ofNat (major * 32 + 26) :: be 4 n
  else UInt8.ofNat (major * 32 + 27) :: be 8 n

/-- A byte string item. -/
def bstr (b : Bytes) : Bytes := head 2 b.length ++ b
/-- A text string item (UTF-8). -/
def tstr (s : Bytes) : Bytes := head 3 s.length ++ s
/-- An array item, given its encoded elements. -/
def array (items : List Bytes) : Bytes := head 4 items.length ++ items.flatten

/-- RFC 8152 section 4.4, COSE_Sign1. -/
def sig1Structure (prot aad payload : Bytes) : Bytes :=
  array [tstr b!"Signature1", bstr prot, bstr aad, bstr payload]

/-- RFC 8152 section 4.4, COSE_Sign: the signer's protected header, as pycose builds it (the field is
left out when the signer's header is empty; the RFC has an empty string there). -/
def sigStructure (bodyProt : Bytes) (signProt : Option Bytes) (aad payload : Bytes) : Bytes :=
  match signProt with
  | some p => array [tstr b!"Signature", bstr bodyProt, bstr p, bstr aad, bstr payload]
  | none => array [tstr b!"Signature", bstr bodyProt, bstr aad, bstr payload]

/-- RFC 8152 section 6.3. -/
def macStructure (context prot aad payload : Bytes) : Bytes :=
  array [tstr context, bstr prot, bstr aad, bstr payload]

/-- RFC 8152 section 5.3. -/
def encStructure (context prot aad : Bytes) : Bytes := array [tstr context, bstr prot, bstr aad]

/-- `p` are the protected header bytes that are authenticated: empty if the protected header is
empty, otherwise the bytes that `phdr_encoded` gives (those that are sent). -/
def AuthProtected (b : Base) (p : Bytes) : Prop :=
  (b.phdr = [] ∧ p = []) ∨ (b.phdr ≠ [] ∧ b.phdrEncoded = .ok p)

/-- `p` is the payload that is signed: the attached one or the detached one, never both. -/
def SignedPayload (attached detached : Option Bytes) (p : Bytes) : Prop :=
  (attached = some p ∧ detached = none) ∨ (attached = none ∧ detached = some p)

end Spec
end Cose
