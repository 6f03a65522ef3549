import Verif.Key
/-!
# Keys of the `cryptography` package and PEM files

`CoseKey._from_cryptography_key` (`/repo/pycose/keys/cosekey.py:131-147`), the functions of the key classes
that it calls, and the PEM loaders on top of it.  A key object of the `cryptography` package is the value
`ExtKey`: its type and the numbers or raw bytes that pycose reads from it.
-/
set_option autoImplicit false
namespace Cose

/-- The curve classes of `cryptography.hazmat.primitives.asymmetric.ec`; the ones that no COSE curve refers to
are `other`. -/
inductive ExtCurve
  | secp256r1 | secp384r1 | secp521r1 | secp256k1
  | other (name : Bytes)
  deriving DecidableEq, Repr

/-- The classes of octet key pairs. -/
inductive ExtOkp
  | ed25519 | ed448 | x25519 | x448
  deriving DecidableEq, Repr

/-- A key object of the `cryptography` package.  An EC key has a curve, the point and possibly the private
value; an octet key pair the raw public bytes and possibly the raw private bytes; an RSA key the modulus, the
public exponent and possibly the private numbers.  Keys of other types (DSA, DH) are `other`. -/
inductive ExtKey
  | ec (curve : ExtCurve) (x y : Nat) (d : Option Nat)
  | okp (t : ExtOkp) (pub : Bytes) (priv : Option Bytes)
  | rsa (n e : Nat) (priv : Option RsaNums)
  | other

/-- `type(curve_obj)` of the curve classes for which it is a curve of the `ec` module (`curves.py:58-250`). -/
def crvObj (c : Cls) : Option ExtCurve :=
  if c.ident = 1 then some .secp256r1 else if c.ident = 2 then some .secp384r1
  else if c.ident = 3 then some .secp521r1 else if c.ident = 8 then some .secp256k1 else none

/-- The dictionary `curves` and the lookup in it (`ec2.py:66-74`); of two classes with the same curve object
the later one would win. -/
def ec2CurveOf (t : ExtCurve) : Res Cls :=
  match ((registry .crv).filter fun p => crvKind p.1 == some KtyEC2).reverse.find? fun p => crvObj p.1 == some t with
  | some p => .ok p.1
  | none => .error .unsupportedCurve

/-- `OKPKey._curve_from_cryptography_key` (`okp.py:87-97`). -/
def okpCurveOf : ExtKey → Res Cls
  | .okp .ed25519 _ _ => .ok ⟨.crv, 6⟩
  | .okp .ed448 _ _ => .ok ⟨.crv, 7⟩
  | .okp .x25519 _ _ => .ok ⟨.crv, 4⟩
  | .okp .x448 _ _ => .ok ⟨.crv, 5⟩
  | _ => .error .illegalKeyType

/-- `_supports_cryptography_key_type` (`ec2.py:94-96`, `okp.py:99-105`, `rsa.py:114-116`,
`symmetric.py:36-38`). -/
def supportsExt : Kind → ExtKey → Bool
  | .ec2, .ec _ _ _ _ => true
  | .okp, k => (okpCurveOf k).isOk
  | .rsa, .rsa _ _ _ => true
  | _, _ => false

/-- `_from_cryptography_key` of the key classes (`ec2.py:45-92`, `okp.py:46-85`, `rsa.py:77-112`).  A symmetric
key has no such method of its own; it is never asked for one. -/
def kindFromExt (C : Crypto) (kind : Kind) (k : ExtKey) (opt : Dict) : Res Key :=
  match kind, k with
  | .ec2, .ec cv x y d => do
    let c ← ec2CurveOf cv
    ec2FromNumbers C c x y d opt
  | .okp, .okp t pub priv => do
    let c ← okpCurveOf (.okp t pub priv)
    okpFromBytes c pub priv opt
  | .rsa, .rsa n e priv => rsaFromNumbers n e priv opt
  | _, _ => .error .illegalKeyType

/-- `CoseKey._from_cryptography_key` (`cosekey.py:131-147`); the key classes in the order of
`keys/__init__.py:1-4`.  `opt` is the dictionary of optional parameters, empty for `None`. -/
def fromExt (C : Crypto) (k : ExtKey) (opt : Dict) : Res Key :=
  match [Kind.ec2, .okp, .rsa, .sym].find? fun kind => supportsExt kind k with
  | some kind => kindFromExt C kind k opt
  | none => .error .illegalKeyType

/-- `RSAKey.generate_key` (`rsa.py:302-315`); `gen e bits` is `rsa.generate_private_key(public_exponent=e,
key_size=bits)`. -/
def rsaGenerate (C : Crypto) (gen : Int → Int → Res ExtKey) (keyBits : Int) (opt : Dict) : Res Key := do
  let k ← gen 65537 keyBits
  kindFromExt C .rsa k opt

/-- `CoseKey.from_pem_private_key` (`cosekey.py:99-114`); `load` is `load_pem_private_key`. -/
def fromPemPrivate (C : Crypto) (load : Bytes → Option Bytes → Res ExtKey) (pem : Bytes) (password : Option Bytes)
    (opt : Dict) : Res Key := do
  let k ← load pem password
  fromExt C k opt

/-- `CoseKey.from_pem_public_key` (`cosekey.py:116-129`); `load` is `load_pem_public_key`. -/
def fromPemPublic (C : Crypto) (load : Bytes → Res ExtKey) (pem : Bytes) (opt : Dict) : Res Key := do
  let k ← load pem
  fromExt C k opt

end Cose
