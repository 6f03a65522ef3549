import Verif.Multi
/-!
# The object after a call that raised

`Recipient.lean`, `Messages.lean` and `Multi.lean` give the result of a method and the object it leaves when it returns.  Here the
methods that change objects are modelled a second time, statement by statement, such that the object is known also when an exception
leaves the method: everything assigned before stays assigned.  (`RaiseLemmas.lean` proves that the two models agree.)
-/
set_option autoImplicit false

namespace Cose

/-- A method of an object of type `σ`: what it returns or raises, and the object afterwards (not part of the code). -/
structure Eff (σ α : Type) : Type where
  run : σ → Res α × σ

namespace Eff
variable {σ α β : Type}
instance : Monad (Eff σ) where
  pure a := ⟨fun s => (.ok a, s)⟩
  bind m f := ⟨fun s => match m.run s with
    | (.ok a, s') => (f a).run s'
    | (.error e, s') => (.error e, s')⟩
/-- An expression without effects. -/
def expr (f : σ → Res α) : Eff σ α := ⟨fun s => (f s, s)⟩
/-- The object's current attributes. -/
def self : Eff σ σ := ⟨fun s => (.ok s, s)⟩
/-- An assignment. -/
def assign (f : σ → σ) : Eff σ Unit := ⟨fun s => (.ok (), f s)⟩
def raise (e : PyErr) : Eff σ α := ⟨fun s => (.error e, s)⟩
/-- A call of a method of an attribute: `get` and `put` read and replace the attribute. -/
def call {τ : Type} (get : σ → τ) (put : σ → τ → σ) (m : τ → Res α × τ) : Eff σ α :=
  ⟨fun s => ((m (get s)).1, put s (m (get s)).2)⟩
end Eff

open Eff

/-- `self.key = k` with a key object (`cosemessage.py:118-128`). -/
def assignKey (k : Key) : Eff Base Unit := assign fun b => { b with key := some k }

/-- `_setup_ephemeral_key` (`recipient.py:173-185`): the key is assigned before the header is looked at. -/
def setupEphemeralE (C : Crypto) (d : Nat) (peer : Val) : Eff Base Unit := do
  let pk ← expr fun _ => asKey peer
  let crv ← expr fun _ => pk.crv
  let k ← expr fun _ => ec2Generate C crv d []
  assignKey k
  let e ← expr fun b => b.getAttr Hdr.EphemeralKey
  if e ≠ .none then raise .coseException
  else if dhas k.store (.cls Ec2D) = false then raise .keyError
  else assign fun b => { b with uhdr := dupdate b.uhdr [(.cls Hdr.EphemeralKey, .map (ddel k.store (.cls Ec2D)))] }

/-- `KeyAgreementWithKeyWrap.encrypt` from the computation of the key-encryption key on (`recipient.py:543-547`). -/
def kakwWrap (C : Crypto) (b : Base) (peer alg : Val) : Res Bytes := do
  let w ← keyWrapFunc alg
  let kek ← agreeKek C b w peer b.key alg
  match algFam w with
  | some (.aesKw n) => do
    let k ← mkSym (.bytes kek) alg [Op.DeriveKey]
    kwKeyWrap C n k b.payload
  | _ => .error .attributeError

/-- `KeyAgreementWithKeyWrap.encrypt` (`recipient.py:522-547`). -/
def kakwEncryptE (C : Crypto) (d : Nat) : Eff Base Bytes := do
  let peer ← expr fun b => .ok (getD b.localAttrs Hdr.StaticKey .none)
  if peer = .none then raise .coseException
  else do
    let alg ← expr fun b => b.getAttr Hdr.Algorithm
    if alg = .none then raise .coseException
    else do
      let key ← expr fun b => .ok b.key
      if key = none then do
        let es ← expr fun _ => inSet alg ecdhEsKw
        if es then setupEphemeralE C d peer else raise .coseException
        expr fun b => kakwWrap C b peer alg
      else expr fun b => kakwWrap C b peer alg

/-- The attributes a recipient shares with all messages. -/
def ofBase {α : Type} (m : Eff Base α) : Eff Rcpt α := call Rcpt.base Rcpt.withBase m.run

/-- `recipient.encrypt(target_alg)` (`recipient.py:328-348,522-547`); `KeyWrap.encrypt` changes nothing when it returns, and the
assignments in `_compute_kek` (`:286-316`) are never reached. -/
def rcptEncryptE (C : Crypto) (R : Rand) (phase : Nat) (path : List Nat) : Eff Rcpt Bytes := do
  let r ← self
  match r.cls with
  | .keyWrap => expr fun r => kwEncrypt C (R.salt phase path) r.base r.recipients
  | .keyAgreementWithKeyWrap => ofBase (kakwEncryptE C (R.eph path))
  | _ => raise .attributeError

/-- `DirectKeyAgreement.encode` from the check of the recipients on (`recipient.py:419-427`). -/
def dkaHead (b : Base) (rs : List Rcpt) (alg : Val) : Res (List Val) := do
  if rs.length > 1 then .error .malformedMessage
  else do
    let e ← b.getAttr Hdr.EphemeralKey
    let missing ← lacksEphemeral alg e
    if missing then .error .malformedMessage
    else do
      let pe ← b.phdrEncoded
      .ok [.bytes pe, .map b.uhdr, .bytes []]

/-- The first three elements of an encoded recipient (`recipient.py:215-230,277-284,398-432,507-515`). -/
def rcptHeadE (C : Crypto) (R : Rand) (path : List Nat) (cls : RCls) (rs : List Rcpt) : Eff Base (List Val) :=
  match cls with
  | .directEncryption => expr fun b => do
    let alg ← b.getAttr Hdr.Algorithm
    if alg = algCls (-6) ∧ b.phdr.length ≠ 0 then .error .coseException
    else if alg = .none then .error .coseException
    else if rs.isEmpty = false then .error .coseException
    else do
      let pe ← b.phdrEncoded
      .ok [.bytes pe, .map b.uhdr, .bytes []]
  | .keyWrap => expr fun b => do
    let pe ← b.phdrEncoded
    let c ← kwEncrypt C (R.salt 1 path) b rs
    .ok [.bytes pe, .map b.uhdr, .bytes c]
  | .directKeyAgreement => do
    let alg ← expr fun b => b.getAttr Hdr.Algorithm
    if alg = .none then raise .malformedMessage
    else do
      let peer ← expr fun b => .ok (getD b.localAttrs Hdr.StaticKey .none)
      if peer = .none then raise .coseException
      else do
        let key ← expr fun b => .ok b.key
        if key = none then do
          let es ← expr fun _ => inSet alg ecdhEsHkdf
          if es then setupEphemeralE C (R.eph path) peer else raise .coseException
          expr fun b => dkaHead b rs alg
        else expr fun b => dkaHead b rs alg
  | .keyAgreementWithKeyWrap => do
    let pe ← expr fun b => b.phdrEncoded
    let alg ← expr fun b => b.getAttr Hdr.Algorithm
    let _ ← expr fun _ => keyWrapFunc alg
    let c ← kakwEncryptE C (R.eph path)
    expr fun b => .ok [.bytes pe, .map b.uhdr, .bytes c]

mutual
/-- `r.encode(target_alg=…)` (`recipient.py:215-230,277-284,398-432,507-515`). -/
def rcptEncodeE (C : Crypto) (R : Rand) (path : List Nat) : Rcpt → Res Val × Rcpt
  | .mk cls b ctx oid rs =>
    match (rcptHeadE C R path cls rs).run b with
    | (.error e, b') => (.error e, .mk cls b' ctx oid rs)
    | (.ok head, b') =>
      if rs.isEmpty then (.ok (.arr head), .mk cls b' ctx oid rs)
      else
        match rcptsEncodeE C R path 0 rs with
        | (.error e, rs') => (.error e, .mk cls b' ctx oid rs')
        | (.ok vs, rs') => (.ok (.arr (head ++ [.arr vs])), .mk cls b' ctx oid rs')
termination_by structural x => x
/-- `[r.encode(…) for r in recipients]`. -/
def rcptsEncodeE (C : Crypto) (R : Rand) (path : List Nat) : Nat → List Rcpt → Res (List Val) × List Rcpt
  | _, [] => (.ok [], [])
  | i, r :: t =>
    match rcptEncodeE C R (path ++ [i]) r with
    | (.error e, r') => (.error e, r' :: t)
    | (.ok v, r') =>
      match rcptsEncodeE C R path (i + 1) t with
      | (.error e, t') => (.error e, r' :: t')
      | (.ok vs, t') => (.ok (v :: vs), r' :: t')
termination_by structural _ x => x
end

/-- `if r.payload == b'': r.payload = key_bytes else: key_bytes = r.payload` (`encmessage.py:91-94`, `macmessage.py:92-95`). -/
def giveKey (key : Option Bytes) (r : Rcpt) : Option Bytes × Rcpt :=
  if r.base.payload = some [] then (key, r.withBase { r.base with payload := key }) else (r.base.payload, r)

/-- The loop over key-wrap recipients (`encmessage.py:90-95`, `macmessage.py:91-96`). -/
def wrapLoopE (C : Crypto) (R : Rand) : Nat → Option Bytes → List Rcpt → Res (Option Bytes) × List Rcpt
  | _, key, [] => (.ok key, [])
  | i, key, r :: t =>
    match (rcptEncryptE C R 0 [i]).run (giveKey key r).2 with
    | (.error e, r') => (.error e, r' :: t)
    | (.ok _, r') =>
      match wrapLoopE C R (i + 1) (giveKey key r).1 t with
      | (x, t') => (x, r' :: t')

/-- `EncMessage.encrypt` (`encmessage.py:75-102`). -/
def Enc.encryptE (C : Crypto) (R : Rand) : Eff Enc Bytes := do
  let target ← expr fun m => m.base.getAttr Hdr.Algorithm
  let types ← expr fun m => verifyRecipients m.recipients
  if types.contains .directEncryption then expr fun m => encEncrypt C b!"Encrypt" m.base
  else if types.contains .directKeyAgreement then do
    let k ← expr fun m => match m.recipients with
      | [] => .error .indexError
      | r :: _ => dkaComputeCek C r.base target true
    call Enc.base (fun m b => { m with base := b }) (assignKey k).run
    expr fun m => encEncrypt C b!"Encrypt" m.base
  else if types.contains .keyWrap ∨ types.contains .keyAgreementWithKeyWrap then do
    let n ← expr fun _ => algKeyLength target
    let kb ← call Enc.recipients (fun m rs => { m with recipients := rs }) (wrapLoopE C R 0 (some (R.cek n)))
    let k ← expr fun _ => mkSym (optBytes kb) target [Op.Encrypt]
    call Enc.base (fun m b => { m with base := b }) (assignKey k).run
    expr fun m => encEncrypt C b!"Encrypt" m.base
  else raise .coseException

/-- `EncMessage.encode` from `if len(self.recipients)` on (`encmessage.py:69-73`). -/
def Enc.finishE (C : Crypto) (R : Rand) (tag : Bool) (message : List Val) : Eff Enc Bytes := do
  let m ← self
  if m.recipients.isEmpty then expr fun m => m.base.finish 96 tag message
  else do
    let _ ← expr fun m => m.base.getAttr Hdr.Algorithm
    let vs ← call Enc.recipients (fun m rs => { m with recipients := rs }) (rcptsEncodeE C R [] 0)
    expr fun m => m.base.finish 96 tag (message ++ [.arr vs])

/-- `EncMessage.encode` (`encmessage.py:60-73`). -/
def Enc.encodeE (C : Crypto) (R : Rand) (tag encrypt : Bool) : Eff Enc Bytes := do
  let pe ← expr fun m => m.base.phdrEncoded
  let uh ← expr fun m => .ok m.base.uhdr
  if encrypt then do
    let c ← Enc.encryptE C R
    Enc.finishE C R tag [.bytes pe, .map uh, .bytes c]
  else do
    let p ← expr fun m => .ok m.base.payload
    Enc.finishE C R tag [.bytes pe, .map uh, optBytes p]

/-- `EncMessage.decrypt(recipient)` (`encmessage.py:104-123`). -/
def Enc.decryptE (C : Crypto) (r : Rcpt) : Eff Enc Bytes := do
  let target ← expr fun m => m.base.getAttr Hdr.Algorithm
  let m ← self
  if hasRecipient r.oid m.recipients = false then raise .coseException
  else do
    let types ← expr fun m => verifyRecipients m.recipients
    if types.contains .directEncryption then expr fun m => encDecrypt C b!"Encrypt" m.base
    else if types.contains .directKeyAgreement ∨ types.contains .keyWrap ∨ types.contains .keyAgreementWithKeyWrap then do
      let k ← expr fun _ => rcptComputeCek C r target
      call Enc.base (fun m b => { m with base := b }) (assignKey k).run
      expr fun m => encDecrypt C b!"Encrypt" m.base
    else raise .coseException

/-- `MacCommon.compute_tag` (`maccommon.py:48-59`) with the context of `MacMessage`. -/
def Mac.tagE (C : Crypto) : Eff Mac Bytes := do
  let t ← expr fun m => macCompute C b!"MAC" m.base
  assign fun m => { m with authTag := .bytes t }
  pure t

/-- `MacMessage.compute_tag` (`macmessage.py:75-103`). -/
def Mac.computeTagE (C : Crypto) (R : Rand) : Eff Mac Bytes := do
  let target ← expr fun m => m.base.getAttr Hdr.Algorithm
  let recipients ← expr fun m => match m.recipients with
    | none => .error .typeError
    | some rs => .ok rs
  let types ← expr fun _ => verifyRecipients recipients
  if types.contains .directEncryption then Mac.tagE C
  else if types.contains .directKeyAgreement then do
    let k ← expr fun _ => match recipients with
      | [] => .error .indexError
      | r :: _ => dkaComputeCek C r.base target true
    call Mac.base (fun m b => { m with base := b }) (assignKey k).run
    Mac.tagE C
  else if types.contains .keyWrap ∨ types.contains .keyAgreementWithKeyWrap then do
    let n ← expr fun _ => algKeyLength target
    let _ ← call (fun _ : Mac => recipients) (fun m rs => { m with recipients := some rs }) (wrapLoopE C R 0 (some (R.cek n)))
    raise .nameError
  else raise .coseException

/-- `MacMessage.encode` from `if len(self.recipients)` on (`macmessage.py:69-73`). -/
def Mac.finishE (C : Crypto) (R : Rand) (tag : Bool) (message : List Val) : Eff Mac Bytes := do
  let m ← self
  match m.recipients with
  | none => raise .typeError
  | some [] => expr fun m => m.base.finish 97 tag message
  | some (r :: t) => do
    let _ ← expr fun m => m.base.getAttr Hdr.Algorithm
    let vs ← call (fun _ : Mac => r :: t) (fun m rs => { m with recipients := some rs }) (rcptsEncodeE C R [] 0)
    expr fun m => m.base.finish 97 tag (message ++ [.arr vs])

/-- `MacMessage.encode` (`macmessage.py:61-73`). -/
def Mac.encodeE (C : Crypto) (R : Rand) (tag mac : Bool) : Eff Mac Bytes := do
  let pe ← expr fun m => m.base.phdrEncoded
  let uh ← expr fun m => .ok m.base.uhdr
  let p ← expr fun m => .ok m.base.payload
  if mac then do
    let t ← Mac.computeTagE C R
    Mac.finishE C R tag [.bytes pe, .map uh, optBytes p, .bytes t]
  else Mac.finishE C R tag [.bytes pe, .map uh, optBytes p]

/-- `Mac0Message.encode` (`mac0message.py:42-51`, `maccommon.py:48-59`). -/
def Mac0.encodeE (C : Crypto) (tag mac : Bool) : Eff Mac0 Bytes := do
  let pe ← expr fun m => m.base.phdrEncoded
  if mac then do
    let t ← expr fun m => m.computeTag C
    assign fun m => { m with authTag := .bytes t }
    expr fun m => m.base.finish 17 tag [.bytes pe, .map m.base.uhdr, optBytes m.base.payload, .bytes t]
  else expr fun m => m.base.finish 17 tag [.bytes pe, .map m.base.uhdr, optBytes m.base.payload]

end Cose
