import Verif.Registry
import Verif.Bits
/-!
# Algorithms and the cryptographic libraries

The algorithm classes (`/repo/pycose/algorithms.py`) are described by their family and parameters.
The primitives of `cryptography` and `ecdsa` that they call are the fields of `Crypto`; all theorems
hold for every such structure.  Laws that a theorem needs are stated in `Crypto.Laws` and appear as
hypotheses; `toy` is an instance that satisfies all of them.
-/

set_option linter.unusedSimpArgs false

set_option autoImplicit false

namespace Cose

inductive HashId where
  | sha1 | sha256 | sha384 | sha512 | shake128 | shake256
deriving DecidableEq, Repr

/-- Digest size in bytes (SHAKE has none; pycose cannot use it, see `computeHash`). -/
def HashId.size : HashId → Nat
  | .sha1 => 20 | .sha256 => 32 | .sha384 => 48 | .sha512 => 64 | .shake128 => 0 | .shake256 => 0

inductive RsaPad where
  | pkcs1 | pss
deriving DecidableEq, Repr

inductive Aead where
  | gcm | ccm (tagLen : Nat)
deriving DecidableEq, Repr

/-- Families of algorithm classes: `_RsaPkcs1`, `_RsaPss`, `_RsaOaep`, `_Ecdsa` (with `get_curve`),
`_HashAlg`, `_AesMac`, `_HMAC`, `_AesKw`, `_EcdhHkdf` (with the class of `get_key_wrap_func`),
`_AesGcm`, `_AesCcm`, `EdDSA`, and classes without methods (`Direct…`). -/
inductive AlgFam where
  | rsa (pad : RsaPad) (h : HashId)
  | rsaOaep (h : HashId)
  | ecdsa (crv : Cls) (h : HashId)
  | hash (h : HashId) (trunc : Option Nat)
  | aesMac (keyLen digLen : Nat)
  | hmac (h : HashId) (digLen : Nat)
  | aesKw (keyLen : Nat)
  | ecdh (h : HashId) (wrap : Option Int)
  | aead (a : Aead) (keyLen : Nat)
  | eddsa
  | bare
deriving DecidableEq, Repr

def P256 : Cls := ⟨.crv, 1⟩
def P384 : Cls := ⟨.crv, 2⟩
def P521 : Cls := ⟨.crv, 3⟩

/-- `/repo/pycose/algorithms.py:348-1419`, same order as `algRows`. -/
def algTable : List (Int × AlgFam) :=
  [(-65535, .rsa .pkcs1 .sha1), (-259, .rsa .pkcs1 .sha512), (-258, .rsa .pkcs1 .sha384),
   (-257, .rsa .pkcs1 .sha256),
   (-45, .hash .shake256 none), (-44, .hash .sha512 none), (-43, .hash .sha384 none),
   (-42, .rsaOaep .sha512), (-41, .rsaOaep .sha256), (-40, .rsaOaep .sha1),
   (-39, .rsa .pss .sha512), (-38, .rsa .pss .sha384), (-37, .rsa .pss .sha256),
   (-36, .ecdsa P521 .sha512), (-35, .ecdsa P384 .sha384),
   (-34, .ecdh .sha256 (some (-5))), (-33, .ecdh .sha256 (some (-4))), (-32, .ecdh .sha256 (some (-3))),
   (-31, .ecdh .sha256 (some (-5))), (-30, .ecdh .sha256 (some (-4))), (-29, .ecdh .sha256 (some (-3))),
   (-28, .ecdh .sha512 none), (-27, .ecdh .sha256 none), (-26, .ecdh .sha512 none),
   (-25, .ecdh .sha256 none),
   (-18, .hash .shake128 none), (-17, .hash .sha512 (some 32)), (-16, .hash .sha256 none),
   (-15, .hash .sha256 (some 8)), (-14, .hash .sha1 none),
   (-13, .bare), (-12, .bare), (-11, .bare), (-10, .bare), (-8, .eddsa), (-7, .ecdsa P256 .sha256),
   (-6, .bare), (-5, .aesKw 32), (-4, .aesKw 24), (-3, .aesKw 16),
   (1, .aead .gcm 16), (2, .aead .gcm 24), (3, .aead .gcm 32),
   (4, .hmac .sha256 8), (5, .hmac .sha256 32), (6, .hmac .sha384 48), (7, .hmac .sha512 64),
   (10, .aead (.ccm 8) 16), (11, .aead (.ccm 8) 32), (12, .aead (.ccm 8) 16), (13, .aead (.ccm 8) 32),
   (14, .aesMac 16 8), (15, .aesMac 32 8), (25, .aesMac 16 16), (26, .aesMac 32 16),
   (30, .aead (.ccm 16) 16), (31, .aead (.ccm 16) 32), (32, .aead (.ccm 16) 16),
   (33, .aead (.ccm 16) 32)]

/-- The methods a value used as an algorithm has (`alg.sign`, `alg.encrypt`, …): only algorithm
classes have any. -/
def algFam : Val → Option AlgFam
  | .cls c => if c.reg = .alg then (algTable.find? fun p => p.1 == c.ident).map (·.2) else none
  | _ => none

abbrev algCls (i : Int) : Val := .cls ⟨.alg, i⟩

/-- `alg.get_key_length()`: defined for AES-MAC, AES-KW, ECDH+KW, AES-GCM and AES-CCM classes
(`algorithms.py:608-1419`); otherwise the attribute does not exist. -/
def algKeyLength (alg : Val) : Res Nat :=
  match algFam alg with
  | some (.aesMac n _) => .ok n
  | some (.aesKw n) => .ok n
  | some (.aead _ n) => .ok n
  | some (.ecdh _ (some w)) =>
    match algFam (algCls w) with
    | some (.aesKw n) => .ok n
    | _ => .error .attributeError
  | _ => .error .attributeError

/-- `x.identifier`. -/
def identOf : Val → Res Int
  | .cls c => .ok c.ident
  | _ => .error .attributeError

/-- RSA key numbers (`rsa.RSAPrivateNumbers`, `algorithms.py:93-101`). -/
structure RsaNums where
  n : Nat
  e : Nat
  d : Nat
  p : Nat
  q : Nat
  dp : Nat
  dq : Nat
  qinv : Nat
deriving DecidableEq, Repr

/-- The primitives that pycose calls. -/
structure Crypto where
  /-- `Hash(h).update(data).finalize()` (`algorithms.py:57-60`) -/
  hash : HashId → Bytes → Bytes
  /-- `HMAC(key, h)` over data (`algorithms.py:246-248`) -/
  hmac : HashId → Bytes → Bytes → Bytes
  /-- AES-CBC with zero IV over whole blocks: key, data (`algorithms.py:208-215`) -/
  aesCbc : Bytes → Bytes → Res Bytes
  /-- key, nonce, associated data, plaintext (`algorithms.py:316-335`) -/
  aeadEnc : Aead → Bytes → Bytes → Bytes → Bytes → Res Bytes
  aeadDec : Aead → Bytes → Bytes → Bytes → Bytes → Res Bytes
  /-- RFC 3394: key, data (`algorithms.py:270,276`) -/
  kwWrap : Bytes → Bytes → Res Bytes
  kwUnwrap : Bytes → Bytes → Res Bytes
  /-- HKDF without salt: hash, length, info, secret (`algorithms.py:307-310`) -/
  hkdf : HashId → Nat → Bytes → Bytes → Bytes
  /-- public point of a private value (`ec2.py:145-147`, `ec.derive_private_key`) -/
  ecPub : Cls → Nat → Res (Nat × Nat)
  /-- decompression of `03 || x` (`ec2.py:161-166`) -/
  ecDecompress : Cls → Bytes → Res (Nat × Nat)
  /-- shared secret of private value and public point (`algorithms.py:291-300`) -/
  ecdh : Cls → Nat → Nat → Nat → Res Bytes
  /-- curve, hash, private value, data (`algorithms.py:184-186`) -/
  ecdsaSign : Cls → HashId → Nat → Bytes → Res Bytes
  /-- curve, hash, x, y, data, signature (`algorithms.py:190-197`) -/
  ecdsaVerify : Cls → HashId → Nat → Nat → Bytes → Bytes → Res Bool
  /-- public bytes of private bytes (`okp.py:70-72`) -/
  okpPub : Cls → Bytes → Res Bytes
  /-- curve, private bytes, data (`algorithms.py:1019-1027`) -/
  eddsaSign : Cls → Bytes → Bytes → Res Bytes
  /-- curve, public bytes, data, signature (`algorithms.py:1030-1042`) -/
  eddsaVerify : Cls → Bytes → Bytes → Bytes → Res Bool
  /-- padding, hash, key numbers, randomness, data (`algorithms.py:88-105`) -/
  rsaSign : RsaPad → HashId → RsaNums → Bytes → Bytes → Res Bytes
  /-- padding, hash, n, e, data, signature (`algorithms.py:108-118`) -/
  rsaVerify : RsaPad → HashId → Nat → Nat → Bytes → Bytes → Res Bool
  /-- OAEP: hash, n, e, randomness, data (`algorithms.py:137-142`) -/
  rsaEnc : HashId → Nat → Nat → Bytes → Bytes → Res Bytes
  /-- OAEP: hash, key numbers, data (`algorithms.py:145-160`) -/
  rsaDec : HashId → RsaNums → Bytes → Res Bytes

/-- What correct implementations of the primitives satisfy.  Used only as explicit hypotheses. -/
structure Crypto.Laws (C : Crypto) : Prop where
  aead_dec : ∀ {a k n ad m c}, C.aeadEnc a k n ad m = .ok c → C.aeadDec a k n ad c = .ok m
  kw_unwrap : ∀ {k m c}, C.kwWrap k m = .ok c → C.kwUnwrap k c = .ok m
  kw_length : ∀ {k m c}, C.kwWrap k m = .ok c → c.length = m.length + 8
  ecdh_comm : ∀ {crv a b ax ay bx bY}, C.ecPub crv a = .ok (ax, ay) → C.ecPub crv b = .ok (bx, bY) →
    C.ecdh crv a bx bY = C.ecdh crv b ax ay
  ecdsa_ok : ∀ {crv h d x y m s}, C.ecPub crv d = .ok (x, y) → C.ecdsaSign crv h d m = .ok s →
    C.ecdsaVerify crv h x y m s = .ok true
  eddsa_ok : ∀ {crv d x m s}, C.okpPub crv d = .ok x → C.eddsaSign crv d m = .ok s →
    C.eddsaVerify crv x m s = .ok true
  rsa_ok : ∀ {pad h k r m s}, C.rsaSign pad h k r m = .ok s → C.rsaVerify pad h k.n k.e m s = .ok true
  oaep_ok : ∀ {h k r m c}, C.rsaEnc h k.n k.e r m = .ok c → C.rsaDec h k c = .ok m
  oaep_nonempty : ∀ {h n e r m c}, C.rsaEnc h n e r m = .ok c → c ≠ []
  hmac_length : ∀ h k m, (C.hmac h k m).length = h.size
  cbc_length : ∀ {k m c}, C.aesCbc k m = .ok c → c.length = m.length
  hash_length : ∀ h m, (C.hash h m).length = h.size
  hkdf_length : ∀ h n i s, (C.hkdf h n i s).length = n

/-- First `n` bytes of `b`, padded with zeros. -/
def fit (n : Nat) (b : Bytes) : Bytes := (b ++ List.replicate n 0).take n

theorem fit_length (n : Nat) (b : Bytes) : (fit n b).length = n := by simp [fit]

/-- An instance of `Crypto` for which every law holds (no security whatsoever). -/
def toy : Crypto where
  hash h m := fit h.size m
  hmac h k m := fit h.size (m.reverse ++ k)
  aesCbc _ m := .ok m
  aeadEnc _ k n ad m := .ok (fit 2 (k ++ n ++ ad) ++ m)
  aeadDec _ k n ad c :=
    if c.take 2 = fit 2 (k ++ n ++ ad) then .ok (c.drop 2) else .error .crypto
  kwWrap k m := .ok (fit 8 k ++ m)
  kwUnwrap k c := if c.take 8 = fit 8 k then .ok (c.drop 8) else .error .crypto
  hkdf _ n i s := fit n (s ++ i)
  ecPub _ d := if 0 < d ∧ d < 2 ^ 200 then .ok (d, d + 1) else .error .valueError
  ecDecompress _ x := .ok (natOfBytes x, natOfBytes x + 1)
  ecdh _ a x _ := .ok (beBytes 8 (a * x))
  ecdsaSign _ _ d m := .ok (beBytes 25 d ++ m)
  ecdsaVerify _ _ x _ m s := .ok (s == beBytes 25 x ++ m)
  okpPub _ d := .ok d
  eddsaSign _ d m := .ok (d ++ m)
  eddsaVerify _ x m s := .ok (s == x ++ m)
  rsaSign _ _ k _ m := .ok (beBytes 4 k.n ++ m)
  rsaVerify _ _ n _ m s := .ok (s == beBytes 4 n ++ m)
  rsaEnc _ n _ _ m := .ok (beBytes 4 n ++ m)
  rsaDec _ k c := if c.take 4 = beBytes 4 k.n then .ok (c.drop 4) else .error .crypto

theorem toy_laws : toy.Laws where
  aead_dec := by
    intro a k n ad m c h
    simp only [toy, Except.ok.injEq] at h ⊢
    subst h
    generalize hf : fit 2 (k ++ n ++ ad) = f
    have : f.length = 2 := by rw [← hf]; exact fit_length _ _
    simp [List.take_append, List.drop_append, this, List.take_of_length_le, List.drop_of_length_le]
  kw_unwrap := by
    intro k m c h
    simp only [toy, Except.ok.injEq] at h ⊢
    subst h
    generalize hf : fit 8 k = f
    have : f.length = 8 := by rw [← hf]; exact fit_length _ _
    simp [List.take_append, List.drop_append, this, List.take_of_length_le, List.drop_of_length_le]
  kw_length := by
    intro k m c h
    simp only [toy, Except.ok.injEq] at h
    subst h; simp [fit_length]; omega
  ecdh_comm := by
    intro crv a b ax ay bx bY h1 h2
    simp only [toy] at h1 h2 ⊢
    split at h1 <;> simp at h1
    split at h2 <;> simp at h2
    rw [← h1.1, ← h2.1, Nat.mul_comm]
  ecdsa_ok := by
    intro crv h d x y m s h1 h2
    simp only [toy] at h1 h2 ⊢
    split at h1 <;> simp at h1 h2
    simp [← h1.1, ← h2]
  eddsa_ok := by
    intro crv d x m s h1 h2
    simp only [toy, Except.ok.injEq] at h1 h2 ⊢
    simp [← h1, ← h2]
  rsa_ok := by
    intro pad h k r m s h1
    simp only [toy, Except.ok.injEq] at h1 ⊢
    simp [← h1]
  oaep_ok := by
    intro h k r m c h1
    simp only [toy, Except.ok.injEq] at h1 ⊢
    simp [← h1, List.take_append, List.drop_append]
  oaep_nonempty := by
    intro h n e r m c h1
    simp only [toy, Except.ok.injEq] at h1
    rintro rfl
    have := congrArg List.length h1
    simp at this
  hmac_length := by intro h k m; simp [toy, fit_length]
  cbc_length := by
    intro k m c h
    simp only [toy, Except.ok.injEq] at h
    rw [h]
  hash_length := by intro h m; simp [toy, fit_length]
  hkdf_length := by intro h n i s; simp [toy, fit_length]

end Cose
