import Verif.Cbor
/-!
# Attribute registries

`_CoseAttribute.register_attribute` / `from_id` (`/repo/pycose/utils.py:8-43`) and the tables of the
classes that the package registers.
-/

set_option autoImplicit false

namespace Cose

/-! ### Tables (identifier, fullname), in registration order -/

/-- `/repo/pycose/headers.py:15-156`. -/
def hdrRows : List (Int × Bytes) :=
  [(0, b!"RESERVED"), (1, b!"ALG"), (2, b!"CRITICAL"), (3, b!"CONTENT_TYPE"), (4, b!"KID"),
   (5, b!"IV"), (6, b!"PARTIAL_IV"), (7, b!"COUNTER_SIGN"), (9, b!"COUNTER_SIGN0"),
   (10, b!"KID_CONTEXT"), (32, b!"X5_BAG"), (33, b!"X5_CHAIN"), (34, b!"X5_T"), (35, b!"X5_U"),
   (-1, b!"EPHEMERAL_KEY"), (-2, b!"STATIC_KEY"), (-3, b!"STATIC_KEY_ID"), (-20, b!"SALT"),
   (-21, b!"PARTY_U_ID"), (-22, b!"PARTY_U_NONCE"), (-23, b!"PARTY_U_OTHER"),
   (-24, b!"PARTY_V_ID"), (-25, b!"PARTY_V_NONCE"), (-26, b!"PARTY_V_OTHER")]

/-- `/repo/pycose/headers.py:159-168`: classes that are declared but not registered. -/
def hdrUnregistered : List (Int × Bytes) :=
  [(-998, b!"SUPP_PUB_OTHER"), (-999, b!"SUPP_PRIV_OTHER")]

/-- `/repo/pycose/algorithms.py:348-1419`. -/
def algRows : List (Int × Bytes) :=
  [(-65535, b!"RS1"), (-259, b!"RS512"), (-258, b!"RS384"), (-257, b!"RS256"),
   (-45, b!"SHAKE-256"), (-44, b!"SHA-512"), (-43, b!"SHA-384"),
   (-42, b!"RSAES_OAEP_SHA_512"), (-41, b!"RSAES_OAEP_SHA_256"), (-40, b!"RSAES_OAEP_SHA_1"),
   (-39, b!"PS512"), (-38, b!"PS384"), (-37, b!"PS256"), (-36, b!"ES512"), (-35, b!"ES384"),
   (-34, b!"ECDH_SS_A256KW"), (-33, b!"ECDH_SS_A192KW"), (-32, b!"ECDH_SS_A128KW"),
   (-31, b!"ECDH_ES_A256KW"), (-30, b!"ECDH_ES_A192KW"), (-29, b!"ECDH_ES_A128KW"),
   (-28, b!"ECDH_SS_HKDF_512"), (-27, b!"ECDH_SS_HKDF_256"),
   (-26, b!"ECDH_ES_HKDF_512"), (-25, b!"ECDH_ES_HKDF_256"),
   (-18, b!"SHAKE-128"), (-17, b!"SHA-512/256"), (-16, b!"SHA-256"), (-15, b!"SHA-256/64"),
   (-14, b!"SHA-1"), (-13, b!"DIRECT_HKDF_AES_256"), (-12, b!"DIRECT_HKDF_AES_128"),
   (-11, b!"DIRECT_HKDF_SHA_512"), (-10, b!"DIRECT_HKDF_SHA_256"), (-8, b!"EDDSA"),
   (-7, b!"ES256"), (-6, b!"DIRECT"), (-5, b!"A256KW"), (-4, b!"A192KW"), (-3, b!"A128KW"),
   (1, b!"A128GCM"), (2, b!"A192GCM"), (3, b!"A256GCM"), (4, b!"HMAC_256_64"), (5, b!"HMAC_256"),
   (6, b!"HMAC_384"), (7, b!"HMAC_512"), (10, b!"AES_CCM_16_64_128"), (11, b!"AES_CCM_16_64_256"),
   (12, b!"AES_CCM_64_64_128"), (13, b!"AES_CCM_64_64_256"), (14, b!"AES_MAC_128_64"),
   (15, b!"AES_MAC_256_64"), (25, b!"AES_MAC_128_128"), (26, b!"AES_MAC_256_128"),
   (30, b!"AES_CCM_16_128_128"), (31, b!"AES_CCM_16_128_256"), (32, b!"AES_CCM_64_128_128"),
   (33, b!"AES_CCM_64_128_256")]

/-- `/repo/pycose/keys/keyparam.py:24-51`. -/
def kpRows : List (Int × Bytes) :=
  [(1, b!"KTY"), (2, b!"KID"), (3, b!"ALG"), (4, b!"KEY_OPS"), (5, b!"BASE_IV")]
/-- `/repo/pycose/keys/keyparam.py:67-88`. -/
def kpEc2Rows : List (Int × Bytes) := [(-1, b!"CURVE"), (-2, b!"X"), (-3, b!"Y"), (-4, b!"D")]
/-- `/repo/pycose/keys/keyparam.py:104-119`. -/
def kpOkpRows : List (Int × Bytes) := [(-1, b!"CURVE"), (-4, b!"D"), (-2, b!"X")]
/-- `/repo/pycose/keys/keyparam.py:135-204`. -/
def kpRsaRows : List (Int × Bytes) :=
  [(-1, b!"N"), (-2, b!"E"), (-3, b!"D"), (-4, b!"P"), (-5, b!"Q"), (-6, b!"DP"), (-7, b!"DQ"),
   (-8, b!"QINV"), (-9, b!"OTHER"), (-10, b!"R_I"), (-11, b!"D_I"), (-12, b!"T_I")]
/-- `/repo/pycose/keys/keyparam.py:220-223`. -/
def kpSymRows : List (Int × Bytes) := [(-1, b!"K")]
/-- `/repo/pycose/keys/keyops.py:15-72`. -/
def opRows : List (Int × Bytes) :=
  [(1, b!"SIGN"), (2, b!"VERIFY"), (3, b!"ENCRYPT"), (4, b!"DECRYPT"), (5, b!"WRAP"),
   (6, b!"UNWRAP"), (7, b!"DERIVE_KEY"), (8, b!"DERIVE_BITS"), (9, b!"MAC_CREATE"),
   (10, b!"MAC_VERIFY")]
/-- `/repo/pycose/keys/keytype.py:15-42`. -/
def ktyRows : List (Int × Bytes) :=
  [(0, b!"RESERVED"), (1, b!"OKP"), (2, b!"EC2"), (3, b!"RSA"), (4, b!"SYMMETRIC")]
/-- `/repo/pycose/keys/curves.py:39-252`. -/
def crvRows : List (Int × Bytes) :=
  [(0, b!"RESERVED"), (1, b!"P_256"), (2, b!"P_384"), (3, b!"P_521"), (4, b!"X25519"),
   (5, b!"X448"), (6, b!"ED25519"), (7, b!"ED448"), (8, b!"SECP256K1")]

/-- The classes registered directly in one registry (with their `fullname`). -/
def ownRows : Reg → List (Int × Bytes)
  | .hdr => hdrRows
  | .alg => algRows
  | .kp => kpRows
  | .kpEc2 => kpEc2Rows
  | .kpOkp => kpOkpRows
  | .kpRsa => kpRsaRows
  | .kpSym => kpSymRows
  | .op => opRows
  | .kty => ktyRows
  | .crv => crvRows

def clsRows (r : Reg) : List (Cls × Bytes) := (ownRows r).map fun p => (⟨r, p.1⟩, p.2)

/-- What `get_registered_classes()` of a registry contains, in registration order.  The key
parameter registries of the key types start from a copy of the common ones
(`keyparam.py:59-60,96-97,127-128,212-213`). -/
def registry : Reg → List (Cls × Bytes)
  | .kpEc2 => clsRows .kp ++ clsRows .kpEc2
  | .kpOkp => clsRows .kp ++ clsRows .kpOkp
  | .kpRsa => clsRows .kp ++ clsRows .kpRsa
  | .kpSym => clsRows .kp ++ clsRows .kpSym
  | r => clsRows r

/-- The class stored under an integer key (`utils.py:22`: a later registration overwrites). -/
def lookupId (r : Reg) (i : Int) : Option Cls :=
  ((registry r).reverse.find? fun p => p.1.ident == i).map (·.1)

/-- ASCII upper case of one byte. -/
def upByte (b : UInt8) : UInt8 := if 97 ≤ b ∧ b ≤ 122 then b - 32 else b

/-- `str.upper()` on UTF-8 text, as far as it can produce ASCII: besides ASCII letters these are
dotless i (U+0131), long s (U+017F), sharp s (U+00DF) and the Latin ligatures U+FB00–U+FB06.  Other
characters are left alone, which does not change the outcome of a lookup because no registered name
contains a non-ASCII character and their upper-case forms are not ASCII. -/
def upper : Bytes → Bytes
  | [] => []
  | [a] => [upByte a]
  | [a, b] =>
    if a = 0xC4 ∧ b = 0xB1 then [73]
    else if a = 0xC5 ∧ b = 0xBF then [83]
    else if a = 0xC3 ∧ b = 0x9F then [83, 83]
    else upByte a :: upper [b]
  | a :: b :: c :: t =>
    if a = 0xC4 ∧ b = 0xB1 then 73 :: upper (c :: t)
    else if a = 0xC5 ∧ b = 0xBF then 83 :: upper (c :: t)
    else if a = 0xC3 ∧ b = 0x9F then 83 :: 83 :: upper (c :: t)
    else if a = 0xEF ∧ b = 0xAC ∧ 0x80 ≤ c ∧ c ≤ 0x86 then
      (if c = 0x80 then b!"FF" else if c = 0x81 then b!"FI" else if c = 0x82 then b!"FL"
       else if c = 0x83 then b!"FFI" else if c = 0x84 then b!"FFL" else b!"ST") ++ upper t
    else upByte a :: upper (b :: c :: t)

/-- The class stored under a text key (already upper case; `utils.py:23`). -/
def lookupName (r : Reg) (s : Bytes) : Option Cls :=
  ((registry r).reverse.find? fun p => upper p.2 == s).map (·.1)

/-- The `fullname` attribute of a class. -/
def fullname (c : Cls) : Bytes :=
  match (ownRows c.reg ++ (if c.reg = .hdr then hdrUnregistered else [])).find?
      fun p => p.1 == c.ident with
  | some p => p.2
  | none => []

/-- The class is in its own registry. -/
def Registered (c : Cls) : Prop := lookupId c.reg c.ident = some c
instance (c : Cls) : Decidable (Registered c) := by unfold Registered; infer_instance

/-- The class `from_id` finds for a non-list attribute, if any (`utils.py:30-33,37-38`).  `bool` is a
subclass of `int`. -/
def resolve (r : Reg) : Val → Option Cls
  | .int i => lookupId r i
  | .bool b => lookupId r (if b then 1 else 0)
  | .text s => lookupName r (upper s)
  | .cls c => lookupId r c.ident
  | _ => none

/-- `from_id` for a dictionary key (`utils.py:28-43`): a key is never a `list`. -/
def fromIdKey (r : Reg) (v : Val) (allow : Bool) : Res Val :=
  match resolve r v with
  | some c => .ok (.cls c)
  | none => if allow then .ok v else .error .coseException

mutual
/-- `from_id(value)` with the default `allow_unknown_attributes=False` (`utils.py:28-43`). -/
def fromId (r : Reg) : Val → Res Val
  | .arr l => do
    let l' ← fromIdL r l
    .ok (.arr l')
  | v =>
    match resolve r v with
    | some c => .ok (.cls c)
    | none => .error .coseException
termination_by structural x => x
/-- The list comprehension of `utils.py:35`. -/
def fromIdL (r : Reg) : List Val → Res (List Val)
  | [] => .ok []
  | v :: t => do
    let v' ← fromId r v
    let t' ← fromIdL r t
    .ok (v' :: t')
termination_by structural x => x
end

/-! ### Names of classes used below -/

namespace Hdr
abbrev Algorithm : Cls := ⟨.hdr, 1⟩
abbrev Critical : Cls := ⟨.hdr, 2⟩
abbrev ContentType : Cls := ⟨.hdr, 3⟩
abbrev KID : Cls := ⟨.hdr, 4⟩
abbrev IV : Cls := ⟨.hdr, 5⟩
abbrev PartialIV : Cls := ⟨.hdr, 6⟩
abbrev CounterSignature0 : Cls := ⟨.hdr, 9⟩
abbrev KIDContext : Cls := ⟨.hdr, 10⟩
abbrev EphemeralKey : Cls := ⟨.hdr, -1⟩
abbrev StaticKey : Cls := ⟨.hdr, -2⟩
abbrev PartyUID : Cls := ⟨.hdr, -21⟩
abbrev PartyUNonce : Cls := ⟨.hdr, -22⟩
abbrev PartyUOther : Cls := ⟨.hdr, -23⟩
abbrev PartyVID : Cls := ⟨.hdr, -24⟩
abbrev PartyVNonce : Cls := ⟨.hdr, -25⟩
abbrev PartyVOther : Cls := ⟨.hdr, -26⟩
abbrev SuppPubOther : Cls := ⟨.hdr, -998⟩
abbrev SuppPrivOther : Cls := ⟨.hdr, -999⟩
end Hdr

abbrev KpKty : Cls := ⟨.kp, 1⟩
abbrev KpKid : Cls := ⟨.kp, 2⟩
abbrev KpAlg : Cls := ⟨.kp, 3⟩
abbrev KpBaseIV : Cls := ⟨.kp, 5⟩
abbrev Ec2Crv : Cls := ⟨.kpEc2, -1⟩
abbrev Ec2X : Cls := ⟨.kpEc2, -2⟩
abbrev Ec2Y : Cls := ⟨.kpEc2, -3⟩
abbrev Ec2D : Cls := ⟨.kpEc2, -4⟩
abbrev OkpCrv : Cls := ⟨.kpOkp, -1⟩
abbrev OkpX : Cls := ⟨.kpOkp, -2⟩
abbrev OkpD : Cls := ⟨.kpOkp, -4⟩
abbrev RsaN : Cls := ⟨.kpRsa, -1⟩
abbrev RsaE : Cls := ⟨.kpRsa, -2⟩
abbrev RsaD : Cls := ⟨.kpRsa, -3⟩
abbrev RsaP : Cls := ⟨.kpRsa, -4⟩
abbrev RsaQ : Cls := ⟨.kpRsa, -5⟩
abbrev RsaDP : Cls := ⟨.kpRsa, -6⟩
abbrev RsaDQ : Cls := ⟨.kpRsa, -7⟩
abbrev RsaQInv : Cls := ⟨.kpRsa, -8⟩
abbrev RsaOther : Cls := ⟨.kpRsa, -9⟩
abbrev RsaRi : Cls := ⟨.kpRsa, -10⟩
abbrev RsaDi : Cls := ⟨.kpRsa, -11⟩
abbrev RsaTi : Cls := ⟨.kpRsa, -12⟩
abbrev SymK : Cls := ⟨.kpSym, -1⟩
abbrev KtyOKP : Cls := ⟨.kty, 1⟩
abbrev KtyEC2 : Cls := ⟨.kty, 2⟩
abbrev KtyRSA : Cls := ⟨.kty, 3⟩
abbrev KtySym : Cls := ⟨.kty, 4⟩

namespace Op
abbrev Sign : Cls := ⟨.op, 1⟩
abbrev Verify : Cls := ⟨.op, 2⟩
abbrev Encrypt : Cls := ⟨.op, 3⟩
abbrev Decrypt : Cls := ⟨.op, 4⟩
abbrev Wrap : Cls := ⟨.op, 5⟩
abbrev Unwrap : Cls := ⟨.op, 6⟩
abbrev DeriveKey : Cls := ⟨.op, 7⟩
abbrev DeriveBits : Cls := ⟨.op, 8⟩
abbrev MacCreate : Cls := ⟨.op, 9⟩
abbrev MacVerify : Cls := ⟨.op, 10⟩
end Op

/-- `key_type` of a curve class (`curves.py:59-252`); `none` is Python's `None`
(`Reserved`). -/
def crvKind (c : Cls) : Option Cls :=
  if c.reg = .crv then
    if c.ident = 1 ∨ c.ident = 2 ∨ c.ident = 3 ∨ c.ident = 8 then some KtyEC2
    else if c.ident = 4 ∨ c.ident = 5 ∨ c.ident = 6 ∨ c.ident = 7 then some KtyOKP
    else none
  else none

/-- `size` of a curve class (`curves.py:60-252`). -/
def crvSize (c : Cls) : Nat :=
  if c.ident = 1 then 32 else if c.ident = 2 then 48 else if c.ident = 3 then 66
  else if c.ident = 4 then 32 else if c.ident = 5 then 57 else if c.ident = 6 then 32
  else if c.ident = 7 then 57 else if c.ident = 8 then 32 else 0

end Cose
