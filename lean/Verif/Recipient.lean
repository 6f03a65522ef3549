import Verif.Messages
import Verif.Context
/-!
# Recipients

Model of `/repo/pycose/messages/recipient.py`.

A recipient object is a value of `Rcpt`; its identity (Python's `is`) is the number `oid`.
Simplification: the recipient objects of one message are distinct objects, so that a method call
changes only the recipient it is called on.  Methods that change the object return the new object;
what a call that raises leaves behind is modelled in `Raise.lean`.
-/
set_option autoImplicit false

namespace Cose

/-- The four registered recipient classes (`recipient.py:188,246,372,466`). -/
inductive RCls where
  | directEncryption | keyWrap | directKeyAgreement | keyAgreementWithKeyWrap
deriving DecidableEq, Repr

/-- `CoseRecipient` (`recipient.py:39-129`). -/
inductive Rcpt where
  | mk (cls : RCls) (base : Base) (context : Bytes) (oid : Nat) (recipients : List Rcpt)

mutual
/-- Decision procedure for equality of recipients (not part of the code). -/
def Rcpt.beq : Rcpt → Rcpt → Bool
  | .mk c b x o rs, .mk c' b' x' o' rs' => (decide (c = c') && decide (b = b') && decide (x = x') && decide (o = o')) && rcptsBeq rs rs'
termination_by structural x => x
def rcptsBeq : List Rcpt → List Rcpt → Bool
  | [], [] => true
  | r :: t, r' :: t' => r.beq r' && rcptsBeq t t'
  | _, _ => false
termination_by structural x => x
end

mutual
theorem Rcpt.beq_eq (a b : Rcpt) : Rcpt.beq a b = true ↔ a = b := by
  cases a; cases b
  rename_i rs _ _ _ _ rs'
  simp [Rcpt.beq, rcptsBeq_eq rs rs', and_assoc]
termination_by structural a
theorem rcptsBeq_eq (a b : List Rcpt) : rcptsBeq a b = true ↔ a = b := by
  cases a <;> cases b <;> simp [rcptsBeq]
  case cons.cons x xs y ys => rw [Rcpt.beq_eq x y, rcptsBeq_eq xs ys]
termination_by structural a
end

instance : DecidableEq Rcpt := fun a b => decidable_of_iff _ (Rcpt.beq_eq a b)

namespace Rcpt
def cls : Rcpt → RCls | mk c _ _ _ _ => c
def base : Rcpt → Base | mk _ b _ _ _ => b
def context : Rcpt → Bytes | mk _ _ c _ _ => c
def oid : Rcpt → Nat | mk _ _ _ o _ => o
def recipients : Rcpt → List Rcpt | mk _ _ _ _ rs => rs
def withBase (r : Rcpt) (b : Base) : Rcpt := mk r.cls b r.context r.oid r.recipients
def withRecipients (r : Rcpt) (rs : List Rcpt) : Rcpt := mk r.cls r.base r.context r.oid rs
/-- `recipient.key = k`. -/
def withKey (r : Rcpt) (k : Option Key) : Rcpt := r.withBase { r.base with key := k }
end Rcpt

/-- Randomness: `cek n` is `os.urandom(n)`, `eph path` the private value of the ephemeral key generated
for the recipient at that path, `salt phase path` the randomness of OAEP (phase 0 is the key wrapping
done inside `encrypt`, phase 1 the one done by the recipient's `encode`). -/
structure Rand where
  cek : Nat → Bytes
  eph : List Nat → Nat
  salt : Nat → List Nat → Bytes

/-- `_RCPT_CLASSES[alg]` (`recipient.py:52-57,187,245,371,466`). -/
def rcptClass (alg : Val) : Res RCls :=
  match alg with
  | .cls c =>
    if c.reg = .alg then
      if c.ident ∈ [-6, -10, -13] then .ok .directEncryption
      else if c.ident ∈ [-3, -4, -5, -40, -41, -42] then .ok .keyWrap
      else if c.ident ∈ [-25, -26, -27, -28] then .ok .directKeyAgreement
      else if c.ident ∈ [-29, -30, -31, -32, -33, -34] then .ok .keyAgreementWithKeyWrap
      else .error .keyError
    else .error .keyError
  | .arr _ => .error .typeError
  | _ => .error .keyError

/-- Algorithm sets used in membership tests. -/
def aesKws : List Int := [-3, -4, -5]
def oaeps : List Int := [-40, -41, -42]
def ecdhEsHkdf : List Int := [-25, -26]
def ecdhSsHkdf : List Int := [-27, -28]
def ecdhEsKw : List Int := [-29, -30, -31]
def ecdhSsKw : List Int := [-32, -33, -34]

/-- `CoseRecipient.__init__` (`recipient.py:106-129`). -/
def Rcpt.new (C : Crypto) (cls : RCls) (oid : Nat) (a : HdrArgs) (payload : Val := .bytes [])
    (aad : Val := .bytes []) (key : Option Key := none) (recipients : List Rcpt := []) : Res Rcpt := do
  let b ← initMsg C a payload aad key
  .ok (.mk cls b [] oid recipients)

/-- `recipients` setter (`recipient.py:139-148`, `encmessage.py:129-138`): `None` clears, a list is
appended. -/
def setRecipients (old : List Rcpt) : Option (List Rcpt) → List Rcpt
  | none => []
  | some l => old ++ l

mutual
/-- `has_recipient` (`recipient.py:78-89`): the result of a later sibling overwrites `found`. -/
def hasLoop (target : Nat) : Bool → List Rcpt → Bool
  | found, [] => found
  | found, r :: t => match hasIn target found r with
    | some f => hasLoop target f t
    | none => true
termination_by structural _ x => x
/-- One iteration: `none` means `return True`. -/
def hasIn (target : Nat) (found : Bool) : Rcpt → Option Bool
  | .mk _ _ _ oid rs =>
    if oid = target then none
    else if rs.isEmpty then some found
    else some (hasLoop target false rs)
termination_by structural x => x
end

/-- `CoseRecipient.has_recipient(target, recipients)`. -/
def hasRecipient (target : Nat) (rs : List Rcpt) : Bool := hasLoop target false rs

/-- `verify_recipients` (`recipient.py:91-104`): raises, or returns the set of classes (here: the
list of classes). -/
def verifyRecipients (rs : List Rcpt) : Res (List RCls) :=
  let types := rs.map Rcpt.cls
  if types.contains .directEncryption ∧ types.any (· != .directEncryption) then .error .coseException
  else if types.contains .directKeyAgreement ∧ rs.length > 1 then .error .coseException
  else .ok types

/-- `SymmetricKey(k=…, optional_params=…)` as called in `recipient.py` and `encmessage.py`. -/
def mkSym (k : Val) (alg : Val) (ops : List Cls) : Res Key :=
  symInit k ((.cls KpAlg, alg) :: (if ops.isEmpty then [] else [(.cls KpKeyOps, .arr (ops.map .cls))])) true

/-! ### Key agreement -/

/-- A header or local attribute used as a key object: `v.crv`, `v.x`, … exist only on key objects. -/
def asKey : Val → Res Key
  | .key k s => .ok { kind := k, store := s }
  | _ => .error .attributeError

/-- `_EcdhHkdf.derive_kek` with `_ecdh` (`algorithms.py:290-310`). -/
def deriveKek (C : Crypto) (alg : Val) (crv : Val) (priv : Option Key) (pub : Key) (ctx : KdfContext) :
    Res Bytes :=
  match algFam alg with
  | some (.ecdh h _) =>
    match priv with
    | none => .error .attributeError
    | some priv => do
      let d ← priv.d; let d ← intFromHex d
      let x ← pub.x; let x ← intFromHex x
      let y ← pub.y; let y ← intFromHex y
      match crv with
      | .cls c => do
        let s ← C.ecdh c d x y
        let info ← ctx.encode
        .ok (C.hkdf h ctx.suppPub.keyDataLength info s)
      | _ => .error .attributeError
  | _ => .error .attributeError

/-- `_compute_kek` of the key agreement classes (`recipient.py:434-436,517-520`). -/
def agreeKek (C : Crypto) (b : Base) (target : Val) (peer : Val) (loc : Option Key) (alg : Val) :
    Res Bytes :=
  match algFam alg with
  | some (.ecdh _ _) => do
    let pk ← asKey peer
    let crv ← pk.crv
    let ctx ← kdfContext b target
    deriveKek C alg crv loc pk ctx
  | _ => .error .attributeError

/-- `_setup_ephemeral_key` (`recipient.py:173-185`); `d` is the random private value. -/
def setupEphemeral (C : Crypto) (d : Nat) (b : Base) (peer : Val) : Res Base := do
  let pk ← asKey peer
  let crv ← pk.crv
  let k ← ec2Generate C crv d []
  let e ← b.getAttr Hdr.EphemeralKey
  if e ≠ .none then .error .coseException
  else if dhas k.store (.cls Ec2D) = false then .error .keyError
  else
    .ok { b with key := some k
                 uhdr := dupdate b.uhdr [(.cls Hdr.EphemeralKey, .map (ddel k.store (.cls Ec2D)))] }

/-- `DirectKeyAgreement.compute_cek` (`recipient.py:438-459`); `enc` is `ops == "encrypt"`.  The
formatting of the `CoseIllegalAlgorithm` message reads `self.__name__` and raises `AttributeError`. -/
def dkaComputeCek (C : Crypto) (b : Base) (target : Val) (enc : Bool) : Res Key := do
  let alg ← b.getAttr Hdr.Algorithm
  let m ← inSet alg (ecdhEsHkdf ++ ecdhSsHkdf)
  if m = false then .error .attributeError
  else do
    let ss ← inSet alg ecdhSsHkdf
    let peer ←
      if enc then .ok (getD b.localAttrs Hdr.StaticKey .none)
      else if ss then b.getAttr Hdr.StaticKey
      else b.getAttr Hdr.EphemeralKey
    if peer = .none then .error .coseException
    else do
      let pk ← asKey peer
      pk.verify .ec2 alg [Op.DeriveKey, Op.DeriveBits]
      match b.key with
      | none => .error .attributeError
      | some k => do
        k.verify .ec2 alg [Op.DeriveKey, Op.DeriveBits]
        let kek ← agreeKek C b target peer (some k) alg
        mkSym (.bytes kek) target []

/-- `KeyAgreementWithKeyWrap.encrypt` (`recipient.py:522-547`): wrapped key and new base. -/
def kakwEncrypt (C : Crypto) (d : Nat) (b : Base) : Res (Bytes × Base) := do
  let peer := getD b.localAttrs Hdr.StaticKey .none
  if peer = .none then .error .coseException
  else do
    let alg ← b.getAttr Hdr.Algorithm
    if alg = .none then .error .coseException
    else do
      let b ←
        match b.key with
        | some _ => .ok b
        | none => do
          let es ← inSet alg ecdhEsKw
          if es then setupEphemeral C d b peer else .error .coseException
      let w ← keyWrapFunc alg
      let kek ← agreeKek C b w peer b.key alg
      match algFam w with
      | some (.aesKw n) => do
        let k ← mkSym (.bytes kek) alg [Op.DeriveKey]
        let c ← kwKeyWrap C n k b.payload
        .ok (c, b)
      | _ => .error .attributeError

/-- `KeyAgreementWithKeyWrap.decrypt` (`recipient.py:549-565`).  `self.__name__` in the error
message raises `AttributeError`. -/
def kakwDecrypt (C : Crypto) (b : Base) : Res Bytes := do
  let alg ← b.getAttr Hdr.Algorithm
  let es ← inSet alg ecdhEsKw
  let ss ← inSet alg ecdhSsKw
  let peer ←
    if es then b.getAttr Hdr.EphemeralKey
    else if ss then b.getAttr Hdr.StaticKey
    else .error .attributeError
  let w ← keyWrapFunc alg
  let kek ← agreeKek C b w peer b.key alg
  let k ← mkSym (.bytes kek) alg [Op.Unwrap, Op.Decrypt]
  k.verify .sym alg [Op.Unwrap, Op.Decrypt]
  match algFam w with
  | some (.aesKw n) => kwKeyUnwrap C n k b.payload
  | _ => .error .attributeError

/-! ### Key wrap -/

/-- `KeyWrap._compute_kek(…, 'encrypt')` (`recipient.py:286-316`).  Without a key, every path
raises: `compute_cek` lacks an argument (`TypeError`), `os.urandom` gets a class (`TypeError`). -/
def kwKekEncrypt (key : Option Key) (rs : List Rcpt) : Res Val :=
  match key with
  | some k => k.symK
  | none =>
    if rs.isEmpty then .error .coseException
    else do
      let types ← verifyRecipients rs
      if types.contains .directKeyAgreement then .error .typeError
      else if types.contains .keyWrap ∨ types.contains .keyAgreementWithKeyWrap then .error .typeError
      else .error .coseException

/-- `KeyWrap.encrypt` (`recipient.py:328-348`).  `self.__name__` in the last error message raises
`AttributeError`. -/
def kwEncrypt (C : Crypto) (salt : Bytes) (b : Base) (rs : List Rcpt) : Res Bytes := do
  let alg ← b.getAttr Hdr.Algorithm
  if b.phdr.length ≠ 0 then .error .coseException
  else if alg = .none then .error .coseException
  else do
    let isKw ← inSet alg aesKws
    if isKw then do
      let kk ← kwKekEncrypt b.key rs
      let kek ← mkSym kk alg [Op.Wrap, Op.Encrypt]
      kek.verify .sym alg [Op.Wrap, Op.Encrypt]
      match algFam alg with
      | some (.aesKw n) => kwKeyWrap C n kek b.payload
      | _ => .error .attributeError
    else do
      let isRsa ← inSet alg oaeps
      if isRsa then
        match b.key with
        | none => .error .attributeError
        | some k => do
          k.verify .rsa alg [Op.Wrap, Op.Encrypt]
          match algFam alg with
          | some (.rsaOaep h) => oaepKeyWrap C salt h k b.payload
          | _ => .error .attributeError
      else .error .attributeError

mutual
/-- `KeyWrap._compute_kek(…, 'decrypt')` (`recipient.py:286-316`): a key derived from nested recipients
is a byte string, which the `key` setter rejects (`CoseInvalidKey`); `DirectKeyAgreement` has no
`decrypt`. -/
def kwKekDecrypt (C : Crypto) (key : Option Key) : List Rcpt → Res Val
  | [] =>
    match key with
    | some k => k.symK
    | none => .error .coseException
  | r :: t =>
    match key with
    | some k => k.symK
    | none =>
      match verifyRecipients (r :: t) with
      | .error e => .error e
      | .ok types =>
        if types.contains .directKeyAgreement ∨ types.contains .keyWrap ∨
            types.contains .keyAgreementWithKeyWrap then
          match rcptDecrypt C r with
          | .error e => .error e
          | .ok _ => .error .invalidKey
        else .error .coseException
termination_by structural x => x
/-- `recipient.decrypt(target_alg)` for the classes that have it (`recipient.py:350-365,549-565`). -/
def rcptDecrypt (C : Crypto) : Rcpt → Res Bytes
  | .mk cls b _ _ rs =>
    match cls with
    | .keyAgreementWithKeyWrap => kakwDecrypt C b
    | .keyWrap => do
      let alg ← b.getAttr Hdr.Algorithm
      let isKw ← inSet alg aesKws
      if isKw then do
        let kk ← kwKekDecrypt C b.key rs
        let kek ← mkSym kk alg [Op.Decrypt, Op.Unwrap]
        kek.verify .sym alg [Op.Unwrap, Op.Decrypt]
        match algFam alg with
        | some (.aesKw n) => kwKeyUnwrap C n kek b.payload
        | _ => .error .attributeError
      else do
        let isRsa ← inSet alg oaeps
        if isRsa then
          match b.key with
          | none => .error .attributeError
          | some k => do
            k.verify .rsa alg [Op.Unwrap, Op.Decrypt]
            match algFam alg with
            | some (.rsaOaep h) => oaepKeyUnwrap C h k b.payload
            | _ => .error .attributeError
        else .error .coseException
    | _ => .error .attributeError
termination_by structural x => x
end

/-- `recipient.compute_cek(target, "decrypt")` (`recipient.py:232-239` — one parameter only —,
`:318-326`, `:438-459`, `:497-505`). -/
def rcptComputeCek (C : Crypto) (r : Rcpt) (target : Val) : Res Key :=
  match r.cls with
  | .directEncryption => .error .typeError
  | .directKeyAgreement => dkaComputeCek C r.base target false
  | _ => do
    let k ← rcptDecrypt C r
    mkSym (.bytes k) target [Op.Decrypt]

/-- `recipient.encrypt(target_alg)`: the wrapped key and the new object. -/
def rcptEncrypt (C : Crypto) (R : Rand) (phase : Nat) (path : List Nat) (r : Rcpt) :
    Res (Bytes × Rcpt) :=
  match r.cls with
  | .keyWrap => do
    let c ← kwEncrypt C (R.salt phase path) r.base r.recipients
    .ok (c, r)
  | .keyAgreementWithKeyWrap => do
    let (c, b) ← kakwEncrypt C (R.eph path) r.base
    .ok (c, r.withBase b)
  | _ => .error .attributeError

/-! ### Encoding -/

/-- `self.get_attr(headers.EphemeralKey) is None and alg in {EcdhEsHKDF512, EcdhEsHKDF256}`
(`recipient.py:424`), the header being `e`: the set is searched only if there is no ephemeral key. -/
def lacksEphemeral (alg e : Val) : Res Bool := if e = .none then inSet alg ecdhEsHkdf else .ok false

/-- The first three elements of an encoded recipient and the new base
(`DirectEncryption.encode` `recipient.py:215-230`, `KeyWrap.encode` `:277-284`,
`DirectKeyAgreement.encode` `:398-432`, `KeyAgreementWithKeyWrap.encode` `:507-515`).  The unprotected
header is a reference: an ephemeral key added while encoding is visible. -/
def rcptHead (C : Crypto) (R : Rand) (path : List Nat) : Rcpt → Res (List Val × Base)
  | .mk .directEncryption b _ _ rs => do
    let alg ← b.getAttr Hdr.Algorithm
    if alg = algCls (-6) ∧ b.phdr.length ≠ 0 then .error .coseException
    else if alg = .none then .error .coseException
    else if rs.isEmpty = false then .error .coseException
    else do
      let pe ← b.phdrEncoded
      .ok ([.bytes pe, .map b.uhdr, .bytes []], b)
  | .mk .keyWrap b _ _ rs => do
    let pe ← b.phdrEncoded
    let c ← kwEncrypt C (R.salt 1 path) b rs
    .ok ([.bytes pe, .map b.uhdr, .bytes c], b)
  | .mk .directKeyAgreement b _ _ rs => do
    let alg ← b.getAttr Hdr.Algorithm
    if alg = .none then .error .malformedMessage
    else do
      let peer := getD b.localAttrs Hdr.StaticKey .none
      if peer = .none then .error .coseException
      else do
        let b ←
          match b.key with
          | some _ => .ok b
          | none => do
            let es ← inSet alg ecdhEsHkdf
            if es then setupEphemeral C (R.eph path) b peer else .error .coseException
        if rs.length > 1 then .error .malformedMessage
        else do
          let e ← b.getAttr Hdr.EphemeralKey
          let missing ← lacksEphemeral alg e
          if missing then .error .malformedMessage
          else do
            let pe ← b.phdrEncoded
            .ok ([.bytes pe, .map b.uhdr, .bytes []], b)
  | .mk .keyAgreementWithKeyWrap b _ _ _ => do
    let pe ← b.phdrEncoded
    let alg ← b.getAttr Hdr.Algorithm
    let _ ← keyWrapFunc alg
    let (c, b) ← kakwEncrypt C (R.eph path) b
    .ok ([.bytes pe, .map b.uhdr, .bytes c], b)

mutual
/-- `r.encode(target_alg=…)`: the CBOR array and the new object. -/
def rcptEncode (C : Crypto) (R : Rand) (path : List Nat) : Rcpt → Res (Val × Rcpt)
  | .mk cls b ctx oid rs => do
    let (head, b') ← rcptHead C R path (.mk cls b ctx oid rs)
    if rs.isEmpty then .ok (.arr head, .mk cls b' ctx oid rs)
    else do
      let (vs, rs') ← rcptsEncode C R path 0 rs
      .ok (.arr (head ++ [.arr vs]), .mk cls b' ctx oid rs')
termination_by structural x => x
/-- `[r.encode(…) for r in recipients]`. -/
def rcptsEncode (C : Crypto) (R : Rand) (path : List Nat) : Nat → List Rcpt → Res (List Val × List Rcpt)
  | _, [] => .ok ([], [])
  | i, r :: t => do
    let (v, r') ← rcptEncode C R (path ++ [i]) r
    let (vs, t') ← rcptsEncode C R path (i + 1) t
    .ok (v :: vs, r' :: t')
termination_by structural _ x => x
end

/-! ### Decoding -/

/-- `recipient[i]` for `i = 0, 1`. -/
def rcptItem (r : Val) (i : Nat) : Res Val :=
  match r with
  | .arr l =>
    match l[i]? with
    | some v => .ok v
    | none => .error .indexError
  | .map d =>
    match dget d (.int i) with
    | some v => .ok v
    | none => .error .keyError
  | .bytes b =>
    match b[i]? with
    | some x => .ok (.int x.toNat)
    | none => .error .indexError
  | .text s => if s.isEmpty then .error .indexError else .ok (.text s)
  | _ => .error .typeError

/-- `_parse_header(v)`: `v.items()` exists only on dictionaries. -/
def parseHeaderVal (C : Crypto) (allow : Bool) : Val → Res Dict
  | .map d => parseHeader C allow d
  | _ => .error .attributeError

/-- `<RecipientClass>.from_cose_obj` (`recipient.py:190-205,249-267,375-388,469-487`).  Nested
recipients are never read from the array. -/
def rcptFromObj (C : Crypto) (cls : RCls) (obj : Val) (allow : Bool) (context : Bytes) (oid : Nat) :
    Res Rcpt :=
  match obj with
  | .arr l => do
    let (b, _) ← baseFromObj C l allow
    let r : Rcpt := .mk cls b context oid []
    match cls with
    | .directEncryption =>
      if b.payload ≠ some [] then .error .malformedMessage
      else do
        let alg ← b.getAttr Hdr.Algorithm
        if alg = algCls (-6) ∧ b.phdr.length ≠ 0 then .error .malformedMessage else .ok r
    | .keyWrap => do
      let alg ← b.getAttr Hdr.Algorithm
      let isKw ← inSet alg aesKws
      if isKw = true ∧ b.phdr.length ≠ 0 then .error .malformedMessage
      else if b.payload = some [] then .error .malformedMessage
      else .ok r
    | .directKeyAgreement => do
      let alg ← b.getAttr Hdr.Algorithm
      let es ← inSet alg ecdhEsHkdf
      let missing ← if es then do
          let e ← b.getAttr Hdr.EphemeralKey
          .ok (decide (e = .none))
        else .ok false
      if missing then .error .malformedMessage else .ok r
    | .keyAgreementWithKeyWrap =>
      if b.payload = some [] then .error .malformedMessage else .ok r
  | _ => .error .keyError       -- a `dict`: the second `pop(0)` raises

/-- `create_recipient` (`recipient.py:62-76`). -/
def createRecipient (C : Crypto) (allow : Bool) (context : Bytes) (oid : Nat) (r : Val) : Res Rcpt := do
  let r0 ← rcptItem r 0
  let pAlg ←
    if r0 ≠ .bytes [] then do
      let v ← loadsVal r0
      let h ← parseHeaderVal C allow v
      .ok (getD h Hdr.Algorithm .none)
    else .ok .none
  let r1 ← rcptItem r 1
  let h1 ← parseHeaderVal C allow r1
  let uAlg := getD h1 Hdr.Algorithm .none
  if pAlg ≠ .none then do
    let c ← rcptClass pAlg
    rcptFromObj C c r allow context oid
  else if uAlg ≠ .none then do
    let c ← rcptClass uAlg
    rcptFromObj C c r allow context oid
  else .error .coseException

/-- The list comprehension `[create_recipient(r, …) for r in …]`; the decoded objects are numbered. -/
def createRecipients (C : Crypto) (allow : Bool) (context : Bytes) : Nat → List Val → Res (List Rcpt)
  | _, [] => .ok []
  | i, v :: t => do
    let r ← createRecipient C allow context i v
    let rs ← createRecipients C allow context (i + 1) t
    .ok (r :: rs)

/-- What `create_recipient(r, …)` raises when `r` is a label of a dictionary (`recipient.py:61-76`): `r[0]` needs something that can be indexed and has a
first element; that of a byte string or a text is no CBOR data. A non-empty tuple or frozen dictionary as label is not modelled (it also raises:
it has no `pop`). -/
def labelRecipient : Val → PyErr
  | .bytes [] => .indexError
  | .text [] => .indexError
  | .arr [] => .indexError
  | .map [] => .keyError
  | .arr _ => .unsupported
  | .map _ => .unsupported
  | _ => .typeError

/-- What `for r in v` ranges over (`encmessage.py:30-31`, `macmessage.py:38-39`).  Bytes iterate over
integers (not subscriptable), a text over one-character strings (not CBOR data), a dictionary over its labels, of which the first
is refused. -/
def iterRecipients : Val → Res (List Val)
  | .arr l => .ok l
  | .bytes [] => .ok []
  | .text [] => .ok []
  | .map [] => .ok []
  | .map ((k, _) :: _) => .error (labelRecipient k)
  | _ => .error .typeError

/-- Evaluation of the right-hand side `[… for r in cose_obj.pop(0)]`. -/
def recipientsOf (C : Crypto) (allow : Bool) (context : Bytes) (obj : List Val) : Res (List Rcpt) := do
  let (v, _) ← pop0 obj
  let l ← iterRecipients v
  createRecipients C allow context 0 l

/-- `except (IndexError, ValueError)` (`encmessage.py:32`, `macmessage.py:40`). -/
def PyErr.dropsRecipients (e : PyErr) : Bool := e == .indexError || e.isValueError

end Cose
