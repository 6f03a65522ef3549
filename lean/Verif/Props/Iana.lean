import Verif.Props.Registry
/-!
# Names and numbers are the registered ones (C79)

The tables of this file were written from RFC 8152 (sections 3.1, 7.1, 8–13), RFC 8230, RFC 8812, RFC 9054 and RFC 9360 and the
IANA registries they define, not from the code: each row has the registered number and the spelling the library gives to the
registered name.
-/
set_option autoImplicit false
namespace Cose

/-- "COSE Header Parameters" and "COSE Header Algorithm Parameters". -/
def Spec.headerNumbers : List (Bytes × Int) :=
  [ -- RFC 8152 table 2
    (b!"ALG", 1), (b!"CRITICAL", 2), (b!"CONTENT_TYPE", 3), (b!"KID", 4), (b!"IV", 5), (b!"PARTIAL_IV", 6), (b!"COUNTER_SIGN", 7),
    -- section 11.1 and 12.4.1
    (b!"SALT", -20), (b!"EPHEMERAL_KEY", -1), (b!"STATIC_KEY", -2), (b!"STATIC_KEY_ID", -3),
    -- table 14
    (b!"PARTY_U_ID", -21), (b!"PARTY_U_NONCE", -22), (b!"PARTY_U_OTHER", -23),
    (b!"PARTY_V_ID", -24), (b!"PARTY_V_NONCE", -25), (b!"PARTY_V_OTHER", -26),
    -- appendix of the registry
    (b!"COUNTER_SIGN0", 9), (b!"KID_CONTEXT", 10),
    (b!"X5_BAG", 32), (b!"X5_CHAIN", 33), (b!"X5_T", 34), (b!"X5_U", 35), (b!"RESERVED", 0)]

/-- "COSE Algorithms". -/
def Spec.algorithmNumbers : List (Bytes × Int) :=
  [ -- signatures: RFC 8152 tables 5 and 6, RFC 8230, RFC 8812
    (b!"ES256", -7), (b!"ES384", -35), (b!"ES512", -36), (b!"EDDSA", -8),
    (b!"PS256", -37), (b!"PS384", -38), (b!"PS512", -39),
    (b!"RS256", -257), (b!"RS384", -258), (b!"RS512", -259), (b!"RS1", -65535),
    -- MACs: tables 7 and 8
    (b!"HMAC_256_64", 4), (b!"HMAC_256", 5), (b!"HMAC_384", 6), (b!"HMAC_512", 7),
    (b!"AES_MAC_128_64", 14), (b!"AES_MAC_256_64", 15), (b!"AES_MAC_128_128", 25), (b!"AES_MAC_256_128", 26),
    -- content encryption: tables 9 and 10
    (b!"A128GCM", 1), (b!"A192GCM", 2), (b!"A256GCM", 3),
    (b!"AES_CCM_16_64_128", 10), (b!"AES_CCM_16_64_256", 11), (b!"AES_CCM_64_64_128", 12), (b!"AES_CCM_64_64_256", 13),
    (b!"AES_CCM_16_128_128", 30), (b!"AES_CCM_16_128_256", 31), (b!"AES_CCM_64_128_128", 32), (b!"AES_CCM_64_128_256", 33),
    -- direct use: tables 15 and 16
    (b!"DIRECT", -6), (b!"DIRECT_HKDF_SHA_256", -10), (b!"DIRECT_HKDF_SHA_512", -11), (b!"DIRECT_HKDF_AES_128", -12),
    (b!"DIRECT_HKDF_AES_256", -13),
    -- key wrap: table 17 and RFC 8230
    (b!"A128KW", -3), (b!"A192KW", -4), (b!"A256KW", -5),
    (b!"RSAES_OAEP_SHA_1", -40), (b!"RSAES_OAEP_SHA_256", -41), (b!"RSAES_OAEP_SHA_512", -42),
    -- key agreement: tables 18 and 20
    (b!"ECDH_ES_HKDF_256", -25), (b!"ECDH_ES_HKDF_512", -26), (b!"ECDH_SS_HKDF_256", -27), (b!"ECDH_SS_HKDF_512", -28),
    (b!"ECDH_ES_A128KW", -29), (b!"ECDH_ES_A192KW", -30), (b!"ECDH_ES_A256KW", -31),
    (b!"ECDH_SS_A128KW", -32), (b!"ECDH_SS_A192KW", -33), (b!"ECDH_SS_A256KW", -34),
    -- hashes: RFC 9054
    (b!"SHA-1", -14), (b!"SHA-256/64", -15), (b!"SHA-256", -16), (b!"SHA-512/256", -17), (b!"SHAKE-128", -18),
    (b!"SHA-384", -43), (b!"SHA-512", -44), (b!"SHAKE-256", -45)]

/-- "COSE Key Common Parameters" (RFC 8152 table 3). -/
def Spec.keyParameterNumbers : List (Bytes × Int) :=
  [(b!"KTY", 1), (b!"KID", 2), (b!"ALG", 3), (b!"KEY_OPS", 4), (b!"BASE_IV", 5)]

/-- "COSE Key Type Parameters" (RFC 8152 tables 23 to 25, RFC 8230 table 4). -/
def Spec.ec2Numbers : List (Bytes × Int) := [(b!"CURVE", -1), (b!"X", -2), (b!"Y", -3), (b!"D", -4)]
def Spec.okpNumbers : List (Bytes × Int) := [(b!"CURVE", -1), (b!"X", -2), (b!"D", -4)]
def Spec.rsaNumbers : List (Bytes × Int) :=
  [(b!"N", -1), (b!"E", -2), (b!"D", -3), (b!"P", -4), (b!"Q", -5), (b!"DP", -6), (b!"DQ", -7), (b!"QINV", -8), (b!"OTHER", -9),
   (b!"R_I", -10), (b!"D_I", -11), (b!"T_I", -12)]
def Spec.symmetricNumbers : List (Bytes × Int) := [(b!"K", -1)]

/-- Key operations (RFC 8152 table 4). -/
def Spec.operationNumbers : List (Bytes × Int) :=
  [(b!"SIGN", 1), (b!"VERIFY", 2), (b!"ENCRYPT", 3), (b!"DECRYPT", 4), (b!"WRAP", 5), (b!"UNWRAP", 6), (b!"DERIVE_KEY", 7),
   (b!"DERIVE_BITS", 8), (b!"MAC_CREATE", 9), (b!"MAC_VERIFY", 10)]

/-- "COSE Key Types" (RFC 8152 table 21, RFC 8230 table 3). -/
def Spec.keyTypeNumbers : List (Bytes × Int) := [(b!"RESERVED", 0), (b!"OKP", 1), (b!"EC2", 2), (b!"RSA", 3), (b!"SYMMETRIC", 4)]

/-- "COSE Elliptic Curves" (RFC 8152 table 22, RFC 8812). -/
def Spec.curveNumbers : List (Bytes × Int) :=
  [(b!"RESERVED", 0), (b!"P_256", 1), (b!"P_384", 2), (b!"P_521", 3), (b!"X25519", 4), (b!"X448", 5), (b!"ED25519", 6), (b!"ED448", 7), (b!"SECP256K1", 8)]

/-- The registered names and numbers of each kind of attribute. -/
def Spec.numbers : Reg → List (Bytes × Int)
  | .hdr => Spec.headerNumbers
  | .alg => Spec.algorithmNumbers
  | .kp => Spec.keyParameterNumbers
  | .kpEc2 => Spec.keyParameterNumbers ++ Spec.ec2Numbers
  | .kpOkp => Spec.keyParameterNumbers ++ Spec.okpNumbers
  | .kpRsa => Spec.keyParameterNumbers ++ Spec.rsaNumbers
  | .kpSym => Spec.keyParameterNumbers ++ Spec.symmetricNumbers
  | .op => Spec.operationNumbers
  | .kty => Spec.keyTypeNumbers
  | .crv => Spec.curveNumbers

theorem numbers_registered : ∀ r : Reg, (∀ p ∈ Spec.numbers r, ∃ q ∈ registry r, q.2 = p.1 ∧ q.1.ident = p.2) ∧
    (∀ q ∈ registry r, (q.2, q.1.ident) ∈ Spec.numbers r) := by
  intro r
  cases r <;> decide +kernel

/-- **C79**: every registered name, in any letter case, and the registered number denote the same attribute, and it is written to the
wire as that number. -/
theorem c79_numbers {r : Reg} {name s : Bytes} {n : Int} (h : (name, n) ∈ Spec.numbers r) (hs : Spec.CaseVariant s name) :
    ∃ c : Cls, fromId r (.text s) = .ok (.cls c) ∧ fromId r (.int n) = .ok (.cls c) ∧ c.ident = n ∧
      dumps fullname (.base false) (.cls c) = dumps fullname .plain (.int n) := by
  obtain ⟨⟨c, m⟩, h1, rfl, rfl⟩ := (numbers_registered r).1 _ h
  obtain ⟨g1, g2, g3⟩ := c51_from_id h1
  exact ⟨c, g3 s hs, g1, rfl, by simp [dumps, subst, substCls]⟩

/-- **C79**: nothing else is registered: an attribute known to the library has a registered name and number. -/
theorem c79_complete {r : Reg} {v w : Val} (hv : ∀ l, v ≠ .arr l) (h : fromId r v = .ok w) :
    ∃ c name, w = .cls c ∧ (name, c.ident) ∈ Spec.numbers r ∧ fullname c = name := by
  obtain ⟨c, n, rfl, h1, _⟩ := c51_from_id_sound hv h
  exact ⟨c, n, rfl, (numbers_registered r).2 _ h1, c51_fullname h1⟩

/-- **C79**: the classes the code itself refers to are the registered attributes of these names. -/
theorem c79_used : (∀ p ∈ [(Hdr.Algorithm, b!"ALG"), (Hdr.Critical, b!"CRITICAL"), (Hdr.ContentType, b!"CONTENT_TYPE"), (Hdr.KID, b!"KID"), (Hdr.IV, b!"IV"),
      (Hdr.PartialIV, b!"PARTIAL_IV"), (Hdr.CounterSignature0, b!"COUNTER_SIGN0"), (Hdr.KIDContext, b!"KID_CONTEXT"),
      (Hdr.EphemeralKey, b!"EPHEMERAL_KEY"), (Hdr.StaticKey, b!"STATIC_KEY"), (Hdr.PartyUID, b!"PARTY_U_ID"),
      (Hdr.PartyUNonce, b!"PARTY_U_NONCE"), (Hdr.PartyUOther, b!"PARTY_U_OTHER"), (Hdr.PartyVID, b!"PARTY_V_ID"),
      (Hdr.PartyVNonce, b!"PARTY_V_NONCE"), (Hdr.PartyVOther, b!"PARTY_V_OTHER"),
      (KpKty, b!"KTY"), (KpKid, b!"KID"), (KpAlg, b!"ALG"), (KpKeyOps, b!"KEY_OPS"), (KpBaseIV, b!"BASE_IV"),
      (Ec2Crv, b!"CURVE"), (Ec2X, b!"X"), (Ec2Y, b!"Y"), (Ec2D, b!"D"), (OkpCrv, b!"CURVE"), (OkpX, b!"X"), (OkpD, b!"D"),
      (RsaN, b!"N"), (RsaE, b!"E"), (RsaD, b!"D"), (RsaP, b!"P"), (RsaQ, b!"Q"), (RsaDP, b!"DP"), (RsaDQ, b!"DQ"), (RsaQInv, b!"QINV"),
      (RsaOther, b!"OTHER"), (RsaRi, b!"R_I"), (RsaDi, b!"D_I"), (RsaTi, b!"T_I"), (SymK, b!"K"),
      (KtyOKP, b!"OKP"), (KtyEC2, b!"EC2"), (KtyRSA, b!"RSA"), (KtySym, b!"SYMMETRIC"),
      (Op.Sign, b!"SIGN"), (Op.Verify, b!"VERIFY"), (Op.Encrypt, b!"ENCRYPT"), (Op.Decrypt, b!"DECRYPT"), (Op.Wrap, b!"WRAP"),
      (Op.Unwrap, b!"UNWRAP"), (Op.DeriveKey, b!"DERIVE_KEY"), (Op.DeriveBits, b!"DERIVE_BITS"), (Op.MacCreate, b!"MAC_CREATE"),
      (Op.MacVerify, b!"MAC_VERIFY")], (p.2, p.1.ident) ∈ Spec.numbers p.1.reg ∧ fullname p.1 = p.2) := by
  decide +kernel

/-- The tables are not empty and name what one expects. -/
example : (b!"AES_CCM_16_64_128", 10) ∈ Spec.numbers .alg ∧ Spec.CaseVariant b!"Es256" b!"ES256" ∧ (b!"ES256", -7) ∈ Spec.numbers .alg ∧
    (b!"QINV", -8) ∈ Spec.numbers .kpRsa := ⟨by decide +kernel, .same _ (.lower 83 (by decide) (by decide) (.same _ (.same _ (.same _ .nil)))),
    by decide +kernel, by decide +kernel⟩

end Cose
