import Verif.Header
/-!
# Single-layer messages and COSE_Sign

Model of `/repo/pycose/messages/signcommon.py`, `sign1message.py`, `signer.py`, `signmessage.py`,
`maccommon.py`, `mac0message.py`, `enccommon.py`, `enc0message.py`.
-/

set_option autoImplicit false

namespace Cose

/-! ### Signatures -/

/-- `SignCommon._key_verification` (`signcommon.py:25-37`): the key, when it may be used. -/
def keyVerification (b : Base) (alg : Val) (op : Cls) : Res Key :=
  match b.key with
  | none => .error .coseException
  | some k =>
    match k.kind with
    | .ec2 => do k.verify .ec2 alg [op]; .ok k
    | .okp => do k.verify .okp alg [op]; .ok k
    | .rsa => do k.verify .rsa alg [op]; .ok k
    | .sym => .error .coseException

/-- `SignCommon.compute_signature` (`signcommon.py:51-62`); `tbs` is `_create_sig_structure`. -/
def computeSignature (C : Crypto) (rnd : Bytes) (b : Base) (tbs : Res Bytes) : Res Bytes := do
  let alg ← b.getAttr Hdr.Algorithm
  let k ← keyVerification b alg Op.Sign
  let f ← signMethod alg
  let data ← tbs
  callSign C rnd f k data

/-- `SignCommon.verify_signature` (`signcommon.py:39-49`). -/
def verifySignature (C : Crypto) (b : Base) (tbs : Res Bytes) (sig : Val) : Res Bool := do
  let alg ← b.getAttr Hdr.Algorithm
  let k ← keyVerification b alg Op.Verify
  let f ← signMethod alg
  let data ← tbs
  callVerify C f k data sig

/-- The choice between attached and detached payload (`sign1message.py:62-69`,
`signer.py:60-67`).  A detached payload that is not `None` is passed as bytes (simplification:
other types are in `Verif/Detached.lean`). -/
def choosePayload (payload detached : Option Bytes) : Res Bytes :=
  match detached with
  | none =>
    match payload with
    | none => .error .coseException
    | some p => .ok p
  | some d =>
    match payload with
    | some _ => .error .coseException
    | none => .ok d

/-- `Sign1Message` (`sign1message.py:18-88`): `signature` may be any decoded value
(`from_cose_obj` assigns it unchecked). -/
structure Sign1 where
  base : Base
  signature : Val := .bytes []
deriving DecidableEq

/-- `Sign1Message._create_sig_structure` (`sign1message.py:53-71`). -/
def Sign1.sigStructure (m : Sign1) (detached : Option Bytes) : Res Bytes := do
  let bs ← m.base.baseStructure
  let p ← choosePayload m.base.payload detached
  dumpsPlain (.arr ([.text b!"Signature1"] ++ bs ++ [.bytes p]))

def Sign1.computeSignature (C : Crypto) (rnd : Bytes) (m : Sign1) (detached : Option Bytes) :
    Res Bytes :=
  Cose.computeSignature C rnd m.base (m.sigStructure detached)

def Sign1.verifySignature (C : Crypto) (m : Sign1) (detached : Option Bytes) : Res Bool :=
  Cose.verifySignature C m.base (m.sigStructure detached) m.signature

/-- `Sign1Message.encode` (`sign1message.py:73-88`). -/
def Sign1.encode (C : Crypto) (rnd : Bytes) (m : Sign1) (tag sign : Bool) (detached : Option Bytes) :
    Res Bytes := do
  let pe ← m.base.phdrEncoded
  let head := [.bytes pe, .map m.base.uhdr, optBytes m.base.payload]
  let message ←
    if sign then do
      let s ← m.computeSignature C rnd detached
      .ok (head ++ [.bytes s])
    else if truthy m.signature then .ok (head ++ [m.signature])
    else .ok head
  m.base.finish 18 tag message

/-- `Sign1Message.__init__` (`sign1message.py:29-40`). -/
def Sign1.new (C : Crypto) (a : HdrArgs) (payload : Val := .none) (aad : Val := .bytes [])
    (key : Option Key := none) : Res Sign1 := do
  let b ← initMsg C a payload aad key
  .ok { base := b }

/-- `Sign1Message.from_cose_obj` (`sign1message.py:23-27`). -/
def Sign1.fromObj (C : Crypto) (obj : List Val) (allow : Bool) : Res Sign1 := do
  let (b, obj) ← baseFromObj C obj allow
  let (s, _) ← pop0 obj
  .ok { base := b, signature := s }

/-- The `signature` setter (`sign1message.py:46-51`). -/
def Sign1.setSignature (m : Sign1) : Val → Res Sign1
  | .bytes s => .ok { m with signature := .bytes s }
  | _ => .error .typeError

/-- `SignMessage` (`signmessage.py:19-93`).  A signer (`CoseSignature`, `signer.py:14-76`) is a `Base`
whose payload is the signature; its `_parent` is the message that lists it. -/
structure SignMsg where
  base : Base
  signers : List Base := []
deriving DecidableEq

/-- `CoseSignature._create_sig_structure` (`signer.py:52-70`) with parent `p`. -/
def signerStructure (p : Base) (s : Base) (detached : Option Bytes) : Res Bytes := do
  let pe ← p.phdrEncoded
  let own ← if s.phdr.length ≠ 0 then do let e ← s.phdrEncoded; .ok [.bytes e] else .ok []
  let pl ← choosePayload p.payload detached
  dumpsPlain (.arr ([.text b!"Signature", .bytes pe] ++ own ++ [.bytes s.aad, .bytes pl]))

def signerCompute (C : Crypto) (rnd : Bytes) (p s : Base) (detached : Option Bytes) : Res Bytes :=
  computeSignature C rnd s (signerStructure p s detached)

/-- `signer.verify_signature(detached)` for a signer of a message with base `p`. -/
def signerVerify (C : Crypto) (p s : Base) (detached : Option Bytes) : Res Bool :=
  verifySignature C s (signerStructure p s detached) (optBytes s.payload)

/-- `CoseSignature.encode` (`signer.py:72-73`). -/
def signerEncode (C : Crypto) (rnd : Bytes) (p s : Base) (detached : Option Bytes) : Res Val := do
  let e ← s.phdrEncoded
  let sg ← signerCompute C rnd p s detached
  .ok (.arr [.bytes e, .map s.uhdr, .bytes sg])

/-- The list comprehension of `signmessage.py:80`; the `i`-th signer uses randomness `rnd i`. -/
def signersEncode (C : Crypto) (rnd : Nat → Bytes) (p : Base) (detached : Option Bytes) :
    Nat → List Base → Res (List Val)
  | _, [] => .ok []
  | i, s :: t => do
    let v ← signerEncode C (rnd i) p s detached
    let vs ← signersEncode C rnd p detached (i + 1) t
    .ok (v :: vs)

/-- `_SignMessage.encode` (`signmessage.py:74-87`). -/
def SignMsg.encode (C : Crypto) (rnd : Nat → Bytes) (m : SignMsg) (tag : Bool)
    (detached : Option Bytes) : Res Bytes := do
  let pe ← m.base.phdrEncoded
  let head := [.bytes pe, .map m.base.uhdr, optBytes m.base.payload]
  let message ←
    if m.signers.length ≠ 0 then do
      let ss ← signersEncode C rnd m.base detached 0 m.signers
      .ok (head ++ [.arr ss])
    else .ok head
  m.base.finish 98 tag message

/-- One signer of a decoded message (`signmessage.py:34-36`, `signer.py:15-22`). -/
def signerFromObj (C : Crypto) (allow : Bool) : Val → Res Base
  | .arr l => do
    let (b, _) ← baseFromObj C l allow
    .ok b
  | .map _ => .error .keyError          -- `dict.pop(0)` succeeds at most once
  | _ => .error .attributeError

def signersFromObj (C : Crypto) (allow : Bool) : List Val → Res (List Base)
  | [] => .ok []
  | v :: t => do
    let s ← signerFromObj C allow v
    let ss ← signersFromObj C allow t
    .ok (s :: ss)

/-- The objects `for r in v` ranges over, as far as the callers can distinguish them
(`signmessage.py:35`): the elements of a list; characters, integers and dictionary keys have no
`pop` method. -/
def iterSigners : Val → Res (List Val)
  | .arr l => .ok l
  | .bytes [] => .ok []
  | .text [] => .ok []
  | .map [] => .ok []
  | .bytes _ => .error .attributeError
  | .text _ => .error .attributeError
  | .map _ => .error .attributeError
  | _ => .error .typeError

/-- `_SignMessage.from_cose_obj` (`signmessage.py:27-39`). -/
def SignMsg.fromObj (C : Crypto) (obj : List Val) (allow : Bool) : Res SignMsg := do
  let (b, obj) ← baseFromObj C obj allow
  let (v, _) ← pop0 obj
  let l ← iterSigners v
  let ss ← signersFromObj C allow l
  .ok { base := b, signers := ss }

/-! ### MACs -/

/-- `MacCommon` (`maccommon.py:16-34`). -/
structure Mac0 where
  base : Base
  authTag : Val := .bytes []
deriving DecidableEq

/-- `_mac_structure` (`maccommon.py:61-73`) for a context string. -/
def macStructure (context : Bytes) (b : Base) : Res Bytes := do
  let bs ← b.baseStructure
  match b.payload with
  | none => .error .valueError
  | some p => dumpsPlain (.arr ([.text context] ++ bs ++ [.bytes p]))

/-- `MacCommon.compute_tag` (`maccommon.py:48-59`), without the assignment to `auth_tag`. -/
def macCompute (C : Crypto) (context : Bytes) (b : Base) : Res Bytes := do
  let alg ← b.getAttr Hdr.Algorithm
  match b.key with
  | none => .error .coseException
  | some k => do
    k.verify .sym alg [Op.MacCreate]
    let f ← macMethod alg
    let data ← macStructure context b
    callTag C f k data

/-- `MacCommon.verify_tag` (`maccommon.py:36-46`). -/
def macVerify (C : Crypto) (context : Bytes) (b : Base) (tag : Val) : Res Bool := do
  let alg ← b.getAttr Hdr.Algorithm
  match b.key with
  | none => .error .coseException
  | some k => do
    k.verify .sym alg [Op.MacVerify]
    let f ← macMethod alg
    let data ← macStructure context b
    callVerifyTag C f k tag data

/-- `Mac0Message` (`mac0message.py:19-51`). -/
def Mac0.verifyTag (C : Crypto) (m : Mac0) : Res Bool := macVerify C b!"MAC0" m.base m.authTag
def Mac0.computeTag (C : Crypto) (m : Mac0) : Res Bytes := macCompute C b!"MAC0" m.base

/-- `Mac0Message.encode` (`mac0message.py:42-51`): bytes and new message state. -/
def Mac0.encode (C : Crypto) (m : Mac0) (tag mac : Bool) : Res (Bytes × Mac0) := do
  let pe ← m.base.phdrEncoded
  let head := [.bytes pe, .map m.base.uhdr, optBytes m.base.payload]
  if mac then do
    let t ← m.computeTag C
    let out ← m.base.finish 17 tag (head ++ [.bytes t])
    .ok (out, { m with authTag := .bytes t })
  else do
    let out ← m.base.finish 17 tag head
    .ok (out, m)

/-- `Mac0Message.__init__` (`mac0message.py:31-40`, `maccommon.py:23-34`). -/
def Mac0.new (C : Crypto) (a : HdrArgs) (payload : Val := .bytes []) (aad : Val := .bytes [])
    (key : Option Key := none) : Res Mac0 := do
  let b ← initMsg C a payload aad key
  .ok { base := b }

/-- `Mac0Message.from_cose_obj` (`mac0message.py:24-29`). -/
def Mac0.fromObj (C : Crypto) (obj : List Val) (allow : Bool) : Res Mac0 := do
  let (b, obj) ← baseFromObj C obj allow
  let (t, _) ← pop0 obj
  .ok { base := b, authTag := t }

/-! ### Encryption -/

/-- `_enc_structure` (`enccommon.py:71-79`). -/
def encStructure (context : Bytes) (b : Base) : Res Bytes := do
  let bs ← b.baseStructure
  dumpsPlain (.arr ([.text context] ++ bs))

/-- `_get_nonce` (`enccommon.py:81-92`). -/
def getNonce (b : Base) : Res Val := do
  let iv ← b.getAttr Hdr.IV
  if iv ≠ .none then .ok iv
  else
    match b.key with
    | none => .error .attributeError
    | some k =>
      if k.baseIv ≠ .bytes [] then do
        let p ← b.getAttr Hdr.PartialIV
        let pn ← intFromBytes p
        let bn ← intFromBytes k.baseIv
        let n := pn ^^^ bn
        .ok (.bytes (beBytes ((bitLength n + 7) / 8) n))
      else .error .coseException

/-- `EncCommon.encrypt` (`enccommon.py:52-69`). -/
def encEncrypt (C : Crypto) (context : Bytes) (b : Base) : Res Bytes :=
  match b.key with
  | none => .error .coseException
  | some k => do
    let alg ← b.getAttr Hdr.Algorithm
    let nonce ← getNonce b
    k.verify .sym alg [Op.Encrypt]
    let a ← encMethod alg
    let aad ← encStructure context b
    callEncrypt C a k nonce b.payload aad

/-- `EncCommon.decrypt` (`enccommon.py:34-50`). -/
def encDecrypt (C : Crypto) (context : Bytes) (b : Base) : Res Bytes := do
  let alg ← b.getAttr Hdr.Algorithm
  let nonce ← getNonce b
  match b.key with
  | none => .error .coseException
  | some k => do
    k.verify .sym alg [Op.Decrypt]
    let a ← encMethod alg
    let aad ← encStructure context b
    callDecrypt C a k nonce b.payload aad

/-- `Enc0Message` (`enc0message.py:21-69`) has no state beyond `Base`. -/
structure Enc0 where
  base : Base
deriving DecidableEq

def Enc0.encrypt (C : Crypto) (m : Enc0) : Res Bytes := encEncrypt C b!"Encrypt0" m.base
def Enc0.decrypt (C : Crypto) (m : Enc0) : Res Bytes := encDecrypt C b!"Encrypt0" m.base

/-- `Enc0Message.encode` (`enc0message.py:53-69`). -/
def Enc0.encode (C : Crypto) (m : Enc0) (tag encrypt : Bool) : Res Bytes := do
  let pe ← m.base.phdrEncoded
  let head := [.bytes pe, .map m.base.uhdr]
  let message ←
    if encrypt then do
      let c ← m.encrypt C
      .ok (head ++ [.bytes c])
    else .ok (head ++ [optBytes m.base.payload])
  m.base.finish 16 tag message

/-- `Enc0Message.__init__` (`enc0message.py:30-51`). -/
def Enc0.new (C : Crypto) (a : HdrArgs) (payload : Val := .bytes []) (aad : Val := .bytes [])
    (key : Option Key := none) : Res Enc0 := do
  let b ← initMsg C a payload aad key
  .ok { base := b }

/-- `Enc0Message.from_cose_obj` (`enc0message.py:26-28`). -/
def Enc0.fromObj (C : Crypto) (obj : List Val) (allow : Bool) : Res Enc0 := do
  let (b, _) ← baseFromObj C obj allow
  .ok { base := b }

end Cose
