import Verif.Key
/-!
# Methods of the algorithm classes

Model of the methods in `/repo/pycose/algorithms.py:46-341,1004-1042`, over the primitives of
`Crypto`.  Each method is split into the attribute look-up on the algorithm value (which raises
`AttributeError` for values that are not algorithm classes, or classes without the method) and the
call, because Python evaluates the arguments in between.
-/

set_option autoImplicit false

namespace Cose

/-- `alg in {…}` for a set of algorithm classes: unhashable values raise `TypeError`. -/
def inSet (v : Val) (s : List Int) : Res Bool :=
  match v with
  | .arr _ => .error .typeError
  | .map _ => .error .typeError
  | .key _ _ => .error .typeError
  | .tag _ w => if hashable w then .ok false else .error .typeError
  | .cls c => .ok (c.reg = .alg ∧ c.ident ∈ s)
  | _ => .ok false

/-- `_HashAlg.compute_hash` (`algorithms.py:46-65`).  `hash_cls()` raises `TypeError` for SHAKE, whose
constructor needs a digest size. -/
def computeHash (C : Crypto) (alg : Val) (data : Bytes) : Res Bytes :=
  match algFam alg with
  | some (.hash h t) =>
    if h = .shake128 ∨ h = .shake256 then .error .typeError
    else
      match t with
      | some n => .ok ((C.hash h data).take n)
      | none => .ok (C.hash h data)
  | _ => .error .attributeError

/-- RSA private numbers read from a key (`algorithms.py:93-101`). -/
def rsaNumsOf (k : Key) : Res RsaNums := do
  let e ← k.rsaParam RsaE; let e ← intFromBytes e
  let n ← k.rsaParam RsaN; let n ← intFromBytes n
  let p ← k.rsaParam RsaP; let p ← intFromBytes p
  let q ← k.rsaParam RsaQ; let q ← intFromBytes q
  let d ← k.rsaParam RsaD; let d ← intFromBytes d
  let dp ← k.rsaParam RsaDP; let dp ← intFromBytes dp
  let dq ← k.rsaParam RsaDQ; let dq ← intFromBytes dq
  let qi ← k.rsaParam RsaQInv; let qi ← intFromBytes qi
  .ok ⟨n, e, d, p, q, dp, dq, qi⟩

/-- Families with a `sign` (and `verify`) method: `_Rsa` (inherited by OAEP), `_Ecdsa`, `EdDSA`. -/
def signMethod (alg : Val) : Res AlgFam :=
  match algFam alg with
  | some (.rsa p h) => .ok (.rsa p h)
  | some (.rsaOaep h) => .ok (.rsaOaep h)
  | some (.ecdsa c h) => .ok (.ecdsa c h)
  | some .eddsa => .ok .eddsa
  | _ => .error .attributeError

/-- The curve of an EdDSA key (`algorithms.py:1019-1025`): Ed25519 or Ed448. -/
def edCurve (k : Key) : Res Cls := do
  let v ← k.crv
  match v with
  | .cls c =>
    if fullname c = b!"ED25519" ∨ fullname c = b!"ED448" then .ok c else .error .coseException
  | _ => .error .attributeError

/-- `alg.sign(key, data)` (`algorithms.py:88-105` RSA, `:182-186` ECDSA, `:1018-1027` EdDSA).  Signing
with OAEP padding is rejected by the library.  `rnd` is the randomness of PSS. -/
def callSign (C : Crypto) (rnd : Bytes) (f : AlgFam) (k : Key) (data : Bytes) : Res Bytes :=
  match f with
  | .rsa pad h => do
    let n ← rsaNumsOf k
    C.rsaSign pad h n rnd data
  | .rsaOaep _ => do
    let _ ← rsaNumsOf k
    .error .crypto
  | .ecdsa crv h => do
    let d ← k.d
    let d ← intFromHex d
    C.ecdsaSign crv h d data
  | .eddsa => do
    let c ← edCurve k
    let d ← k.d
    let d ← asBytes .typeError d
    C.eddsaSign c d data
  | _ => .error .attributeError

/-- `alg.verify(key, data, signature)` (`algorithms.py:107-118` RSA, `:188-197` ECDSA, `:1029-1042`
EdDSA).  A signature that is not a byte string makes the libraries raise `TypeError`. -/
def callVerify (C : Crypto) (f : AlgFam) (k : Key) (data : Bytes) (sig : Val) : Res Bool :=
  match f with
  | .rsa pad h => do
    let e ← k.rsaParam RsaE; let e ← intFromBytes e
    let n ← k.rsaParam RsaN; let n ← intFromBytes n
    let s ← asBytes .typeError sig
    C.rsaVerify pad h n e data s
  | .rsaOaep _ => do
    let e ← k.rsaParam RsaE; let _ ← intFromBytes e
    let n ← k.rsaParam RsaN; let _ ← intFromBytes n
    .error .crypto
  | .ecdsa crv h => do
    let x ← k.x; let x ← intFromHex x
    let y ← k.y; let y ← intFromHex y
    let s ← asBytes .typeError sig
    C.ecdsaVerify crv h x y data s
  | .eddsa => do
    let c ← edCurve k
    let x ← k.x
    let x ← asBytes .typeError x
    let s ← asBytes .typeError sig
    C.eddsaVerify c x data s
  | _ => .error .attributeError

/-- Zero padding to a multiple of 16 bytes (`algorithms.py:211-212`; the `while` loop in closed
form). -/
def zeroPad (data : Bytes) : Bytes := data ++ List.replicate ((16 - data.length % 16) % 16) 0

/-- `b[-n:]` for `n > 0`. -/
def lastN (n : Nat) (b : Bytes) : Bytes := b.drop (b.length - n)

/-- Families with `compute_tag`. -/
def macMethod (alg : Val) : Res AlgFam :=
  match algFam alg with
  | some (.aesMac k d) => .ok (.aesMac k d)
  | some (.hmac h d) => .ok (.hmac h d)
  | _ => .error .attributeError

/-- `alg.compute_tag(key, data)` (`algorithms.py:206-222` AES-MAC, `:245-251` HMAC). -/
def callTag (C : Crypto) (f : AlgFam) (k : Key) (data : Bytes) : Res Bytes :=
  match f with
  | .aesMac _ dl => do
    let kk ← k.symK
    let kb ← asBytes .typeError kk
    let c ← C.aesCbc kb (zeroPad data)
    if dl = 16 then .ok (lastN 16 c)
    else .ok (lastN 8 (c.take (c.length - 8)))
  | .hmac h dl => do
    let kk ← k.symK
    let kb ← asBytes .typeError kk
    .ok ((C.hmac h kb data).take dl)
  | _ => .error .attributeError

/-- `alg.verify_tag(key, tag, data)` (`algorithms.py:224-231`, `:253-261`). -/
def callVerifyTag (C : Crypto) (f : AlgFam) (k : Key) (tag : Val) (data : Bytes) : Res Bool := do
  let t ← callTag C f k data
  .ok (tag == .bytes t)

/-- Families with `encrypt`/`decrypt`. -/
def encMethod (alg : Val) : Res Aead :=
  match algFam alg with
  | some (.aead a _) => .ok a
  | _ => .error .attributeError

/-- `alg.encrypt(key, nonce, data, aad)` (`algorithms.py:315-318`, `:332-335`). -/
def callEncrypt (C : Crypto) (a : Aead) (k : Key) (nonce : Val) (data : Option Bytes) (aad : Bytes) :
    Res Bytes := do
  let kk ← k.symK
  let kb ← asBytes .typeError kk
  let n ← asBytes .typeError nonce
  match data with
  | some d => C.aeadEnc a kb n aad d
  | none => .error .typeError

/-- `alg.decrypt(key, nonce, ciphertext, aad)` (`algorithms.py:320-323`, `:337-341`). -/
def callDecrypt (C : Crypto) (a : Aead) (k : Key) (nonce : Val) (data : Option Bytes) (aad : Bytes) :
    Res Bytes := do
  let kk ← k.symK
  let kb ← asBytes .typeError kk
  let n ← asBytes .typeError nonce
  match data with
  | some d => C.aeadDec a kb n aad d
  | none => .error .typeError

/-- `_AesKw.key_wrap` (`algorithms.py:266-270`). -/
def kwKeyWrap (C : Crypto) (keyLen : Nat) (k : Key) (data : Option Bytes) : Res Bytes := do
  let kk ← k.symK
  let n ← lenOf kk
  if keyLen ≠ n then .error .valueError
  else do
    let kb ← asBytes .typeError kk
    match data with
    | some d => C.kwWrap kb d
    | none => .error .typeError

/-- `_AesKw.key_unwrap` (`algorithms.py:272-276`). -/
def kwKeyUnwrap (C : Crypto) (keyLen : Nat) (k : Key) (data : Option Bytes) : Res Bytes := do
  let kk ← k.symK
  let n ← lenOf kk
  if keyLen ≠ n then .error .valueError
  else do
    let kb ← asBytes .typeError kk
    match data with
    | some d => C.kwUnwrap kb d
    | none => .error .typeError

/-- `_RsaOaep.key_wrap` (`algorithms.py:136-142`). -/
def oaepKeyWrap (C : Crypto) (rnd : Bytes) (h : HashId) (k : Key) (data : Option Bytes) : Res Bytes := do
  let e ← k.rsaParam RsaE; let e ← intFromBytes e
  let n ← k.rsaParam RsaN; let n ← intFromBytes n
  match data with
  | some d => C.rsaEnc h n e rnd d
  | none => .error .typeError

/-- `_RsaOaep.key_unwrap` (`algorithms.py:144-160`). -/
def oaepKeyUnwrap (C : Crypto) (h : HashId) (k : Key) (data : Option Bytes) : Res Bytes := do
  let n ← rsaNumsOf k
  match data with
  | some d => C.rsaDec h n d
  | none => .error .typeError

/-- `alg.get_key_wrap_func()` (`algorithms.py:602-858`): the AES-KW class, or `Direct` for the
classes without key wrap.  (Two of them return an instance instead of the class; every use makes the
same attribute look-ups on either.) -/
def keyWrapFunc (alg : Val) : Res Val :=
  match algFam alg with
  | some (.ecdh _ (some w)) => .ok (algCls w)
  | some (.ecdh _ none) => .ok (algCls (-6))
  | _ => .error .attributeError

end Cose
