import Verif.Recipient
/-!
# COSE_Encrypt, COSE_Mac and decoding of messages

Model of `/repo/pycose/messages/encmessage.py`, `macmessage.py` and `CoseMessage.decode`
(`cosemessage.py:35-74`).
-/
set_option autoImplicit false

namespace Cose

/-- `EncMessage` (`encmessage.py:21-58`). -/
structure Enc where
  base : Base
  recipients : List Rcpt := []
deriving DecidableEq

/-- `MacMessage` (`macmessage.py:29-59`).  `recipients` is a plain attribute; `none` is `None`. -/
structure Mac where
  base : Base
  authTag : Val := .bytes []
  recipients : Option (List Rcpt) := none
deriving DecidableEq

/-- `EncMessage.__init__` (`encmessage.py:36-58`). -/
def Enc.new (C : Crypto) (a : HdrArgs) (payload : Val := .bytes []) (aad : Val := .bytes [])
    (key : Option Key := none) (recipients : Option (List Rcpt) := none) : Res Enc := do
  let b ← initMsg C a payload aad key
  .ok { base := b, recipients := setRecipients [] recipients }

/-- `MacMessage.__init__` (`macmessage.py:46-59`). -/
def Mac.new (C : Crypto) (a : HdrArgs) (payload : Val := .bytes []) (aad : Val := .bytes [])
    (key : Option Key := none) (recipients : Option (List Rcpt) := none) : Res Mac := do
  let b ← initMsg C a payload aad key
  .ok { base := b, recipients := recipients }

/-- `_SignMessage.__init__` (`signmessage.py:41-54`). -/
def SignMsg.new (C : Crypto) (a : HdrArgs) (payload : Val := .none) (signers : List Base := []) :
    Res SignMsg := do
  let b ← initMsg C a payload
  .ok { base := b, signers := signers }

/-- `msg.recipients = …` (`encmessage.py:129-138`). -/
def Enc.setRecipients (m : Enc) (l : Option (List Rcpt)) : Enc :=
  { m with recipients := Cose.setRecipients m.recipients l }

/-- The loop of `EncMessage.encrypt` over key-wrap recipients (`encmessage.py:90-95`): the key bytes
after the loop and the recipients. -/
def wrapLoop (C : Crypto) (R : Rand) : Nat → Option Bytes → List Rcpt →
    Res (Option Bytes × List Rcpt)
  | _, key, [] => .ok (key, [])
  | i, key, r :: t => do
    let (key, r) :=
      if r.base.payload = some [] then (key, r.withBase { r.base with payload := key })
      else (r.base.payload, r)
    let (_, r) ← rcptEncrypt C R 0 [i] r
    let (key, t) ← wrapLoop C R (i + 1) key t
    .ok (key, r :: t)

/-- `EncMessage.encrypt` (`encmessage.py:75-102`): ciphertext and new message. -/
def Enc.encrypt (C : Crypto) (R : Rand) (m : Enc) : Res (Bytes × Enc) := do
  let target ← m.base.getAttr Hdr.Algorithm
  let types ← verifyRecipients m.recipients
  if types.contains .directEncryption then do
    let c ← encEncrypt C b!"Encrypt" m.base
    .ok (c, m)
  else if types.contains .directKeyAgreement then
    match m.recipients with
    | [] => .error .indexError
    | r :: _ => do
      let k ← dkaComputeCek C r.base target true
      let b := { m.base with key := some k }
      let c ← encEncrypt C b!"Encrypt" b
      .ok (c, { m with base := b })
  else if types.contains .keyWrap ∨ types.contains .keyAgreementWithKeyWrap then do
    let n ← algKeyLength target
    let (kb, rs) ← wrapLoop C R 0 (some (R.cek n)) m.recipients
    let k ← mkSym (optBytes kb) target [Op.Encrypt]
    let b := { m.base with key := some k }
    let c ← encEncrypt C b!"Encrypt" b
    .ok (c, { m with base := b, recipients := rs })
  else .error .coseException

/-- `EncMessage.encode` (`encmessage.py:60-73`). -/
def Enc.encode (C : Crypto) (R : Rand) (m : Enc) (tag encrypt : Bool) : Res (Bytes × Enc) := do
  let pe ← m.base.phdrEncoded
  let head := [.bytes pe, .map m.base.uhdr]
  let (message, m) ←
    if encrypt then do
      let (c, m) ← m.encrypt C R
      .ok (head ++ [.bytes c], m)
    else .ok (head ++ [optBytes m.base.payload], m)
  let (message, m) ←
    if m.recipients.isEmpty then .ok (message, m)
    else do
      -- `self.get_attr(headers.Algorithm)` is evaluated for each recipient
      let _ ← m.base.getAttr Hdr.Algorithm
      let (vs, rs) ← rcptsEncode C R [] 0 m.recipients
      .ok (message ++ [.arr vs], { m with recipients := rs })
  let out ← m.base.finish 96 tag message
  .ok (out, m)

/-- `EncMessage.decrypt(recipient)` (`encmessage.py:104-123`).  The argument is a recipient object; it is
found in the message by identity. -/
def Enc.decrypt (C : Crypto) (m : Enc) (r : Rcpt) : Res (Bytes × Enc) := do
  let target ← m.base.getAttr Hdr.Algorithm
  if hasRecipient r.oid m.recipients = false then .error .coseException
  else do
    let types ← verifyRecipients m.recipients
    if types.contains .directEncryption then do
      let p ← encDecrypt C b!"Encrypt" m.base
      .ok (p, m)
    else if types.contains .directKeyAgreement ∨ types.contains .keyWrap ∨
        types.contains .keyAgreementWithKeyWrap then do
      let k ← rcptComputeCek C r target
      let b := { m.base with key := some k }
      let p ← encDecrypt C b!"Encrypt" b
      .ok (p, { m with base := b })
    else .error .coseException

/-- `EncMessage.from_cose_obj` (`encmessage.py:25-34`). -/
def Enc.fromObj (C : Crypto) (obj : List Val) (allow : Bool) : Res Enc := do
  let (b, obj) ← baseFromObj C obj allow
  match recipientsOf C allow b!"Enc_Recipient" obj with
  | .ok rs => .ok { base := b, recipients := rs }
  | .error e => if e.dropsRecipients then .ok { base := b, recipients := [] } else .error e

/-- `MacMessage.compute_tag` (`macmessage.py:75-103`).  `verify_recipients(None)` raises `TypeError`.
In the key-wrap branch `SymmetricKey` is not defined at run time (`macmessage.py:24-25`). -/
def Mac.computeTag (C : Crypto) (R : Rand) (m : Mac) : Res (Bytes × Mac) := do
  let target ← m.base.getAttr Hdr.Algorithm
  match m.recipients with
  | none => .error .typeError
  | some recipients => do
    let types ← verifyRecipients recipients
    if types.contains .directEncryption then do
      let t ← macCompute C b!"MAC" m.base
      .ok (t, { m with authTag := .bytes t })
    else if types.contains .directKeyAgreement then
      match recipients with
      | [] => .error .indexError
      | r :: _ => do
        let k ← dkaComputeCek C r.base target true
        let b := { m.base with key := some k }
        let t ← macCompute C b!"MAC" b
        .ok (t, { m with base := b, authTag := .bytes t })
    else if types.contains .keyWrap ∨ types.contains .keyAgreementWithKeyWrap then do
      let n ← algKeyLength target
      let (_, _) ← wrapLoop C R 0 (some (R.cek n)) recipients
      .error .nameError
    else .error .coseException

/-- `MacCommon.verify_tag` on a `MacMessage`. -/
def Mac.verifyTag (C : Crypto) (m : Mac) : Res Bool := macVerify C b!"MAC" m.base m.authTag

/-- `MacMessage.encode` (`macmessage.py:61-73`). -/
def Mac.encode (C : Crypto) (R : Rand) (m : Mac) (tag mac : Bool) : Res (Bytes × Mac) := do
  let pe ← m.base.phdrEncoded
  let head := [.bytes pe, .map m.base.uhdr, optBytes m.base.payload]
  let (message, m) ←
    if mac then do
      let (t, m) ← m.computeTag C R
      .ok (head ++ [.bytes t], m)
    else .ok (head, m)
  match m.recipients with
  | none => .error .typeError            -- `len(None)`
  | some [] => do
    let out ← m.base.finish 97 tag message
    .ok (out, m)
  | some (r :: t) => do
    let _ ← m.base.getAttr Hdr.Algorithm
    let (vs, rs) ← rcptsEncode C R [] 0 (r :: t)
    let out ← m.base.finish 97 tag (message ++ [.arr vs])
    .ok (out, { m with recipients := some rs })

/-- `MacMessage.from_cose_obj` (`macmessage.py:33-44`). -/
def Mac.fromObj (C : Crypto) (obj : List Val) (allow : Bool) : Res Mac := do
  let (b, obj) ← baseFromObj C obj allow
  let (t, obj) ← pop0 obj
  match recipientsOf C allow b!"Mac_Recipient" obj with
  | .ok rs => .ok { base := b, authTag := t, recipients := some rs }
  | .error e =>
    if e.dropsRecipients then .ok { base := b, authTag := t, recipients := none } else .error e

/-! ### `CoseMessage.decode` -/

/-- The six concrete message classes (`record_cbor_tag`). -/
inductive MsgKind where
  | enc0 | mac0 | sign1 | enc | mac | sign
deriving DecidableEq, Repr

inductive Msg where
  | enc0 (m : Enc0) | mac0 (m : Mac0) | sign1 (m : Sign1) | enc (m : Enc) | mac (m : Mac)
  | sign (m : SignMsg)
deriving DecidableEq

def Msg.kind : Msg → MsgKind
  | .enc0 _ => .enc0 | .mac0 _ => .mac0 | .sign1 _ => .sign1 | .enc _ => .enc | .mac _ => .mac
  | .sign _ => .sign

def Msg.base : Msg → Base
  | .enc0 m => m.base | .mac0 m => m.base | .sign1 m => m.base | .enc m => m.base | .mac m => m.base
  | .sign m => m.base

/-- The class `decode` is called on: `CoseMessage`, one of the abstract intermediate classes, a
concrete class, or a class whose instances are never produced (`CoseSignature`, `CoseRecipient`). -/
inductive DecCls where
  | any | encCommon | macCommon | signCommon | signBase | only (k : MsgKind) | never
deriving DecidableEq, Repr

/-- `isinstance(decoded, cls)`. -/
def DecCls.accepts : DecCls → MsgKind → Bool
  | .any, _ => true
  | .encCommon, k => k == .enc0 || k == .enc
  | .macCommon, k => k == .mac0 || k == .mac
  | .signCommon, k => k == .sign1
  | .signBase, k => k == .sign
  | .only k, k' => k == k'
  | .never, _ => false

/-- `_COSE_MSG_ID[cbor_tag]` (`cosemessage.py:23-33` and the decorators). -/
def tagKind (n : Nat) : Option MsgKind :=
  if n = 16 then some .enc0 else if n = 17 then some .mac0 else if n = 18 then some .sign1
  else if n = 96 then some .enc else if n = 97 then some .mac else if n = 98 then some .sign
  else none

/-- `<class>.from_cose_obj`. -/
def fromObj (C : Crypto) (k : MsgKind) (obj : List Val) (allow : Bool) : Res Msg :=
  match k with
  | .enc0 => do let m ← Enc0.fromObj C obj allow; .ok (.enc0 m)
  | .mac0 => do let m ← Mac0.fromObj C obj allow; .ok (.mac0 m)
  | .sign1 => do let m ← Sign1.fromObj C obj allow; .ok (.sign1 m)
  | .enc => do let m ← Enc.fromObj C obj allow; .ok (.enc m)
  | .mac => do let m ← Mac.fromObj C obj allow; .ok (.mac m)
  | .sign => do let m ← SignMsg.fromObj C obj allow; .ok (.sign m)

/-- `X.decode(received, allow_unknown_attributes=…)` (`cosemessage.py:35-74`); `received` is a byte
string. -/
def decode (C : Crypto) (cls : DecCls) (allow : Bool) (received : Bytes) : Res Msg := do
  let v ← match loads received with
    | .ok v => .ok v
    | .error e =>
      if e = .attributeError then .error .attributeError
      else if e.isValueError then .error .valueError
      else .error e
  match v with
  | .tag n (.arr obj) =>
    match tagKind n with
    | none => .error .keyError
    | some k => do
      let m ← fromObj C k obj allow
      if cls.accepts m.kind then .ok m else .error .typeError
  | .tag _ _ => .error .typeError
  | _ => .error .attributeError

end Cose
