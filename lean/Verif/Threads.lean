import Verif.Raise
/-!
# Threads that share a message object

The library has no locks.  Here the methods are modelled once more, as sequences of atomic steps on a message object that other threads
use at the same time.  One step reads or assigns one attribute of the message (Python's interpreter lock makes these indivisible);
between two steps any other thread may run.  The bodies of the methods repeat every access to an attribute that the Python text
contains, also where it reads the same attribute twice.

Simplifications.  A call of `encrypt`, `encode` or `compute_cek` *of a recipient* is one step, and so are the serialisation of a
dictionary and the cryptographic primitives.  The header dictionary that `encode` puts into the list to be serialised is the one present
at that moment (no method of a message changes this dictionary in place).  `ThreadLemmas.lean` proves that a thread that runs alone does
what the models of `Messages.lean` and `Raise.lean` say.
-/
set_option autoImplicit false

namespace Cose

/-- What a thread still has to do: it has finished with a result or an exception, or it executes a step, which sees the shared object,
changes it by `f`, and continues (not part of the code). -/
inductive Thr (σ α : Type) : Type where
  | done (r : Res α)
  | step (f : σ → σ) (k : σ → Thr σ α)

namespace Thr
variable {σ α β : Type}

/-- Sequential composition; an exception ends the thread. -/
def andThen : Thr σ α → (α → Thr σ β) → Thr σ β
  | done (.ok a), f => f a
  | done (.error e), _ => done (.error e)
  | step g k, f => step g fun s => andThen (k s) f

instance : Monad (Thr σ) where
  pure a := done (.ok a)
  bind := andThen

/-- An expression of local variables. -/
def expr (r : Res α) : Thr σ α := done r
def raise (e : PyErr) : Thr σ α := done (.error e)
/-- One access to an attribute of the shared object. -/
def attr (f : σ → α) : Thr σ α := step id fun s => done (.ok (f s))
/-- One assignment to an attribute of the shared object. -/
def assign (f : σ → σ) : Thr σ Unit := step f fun _ => done (.ok ())
/-- A call that is executed as one step. -/
def atomic (m : Eff σ α) : Thr σ α := step (fun s => (m.run s).2) fun s => done (m.run s).1

/-- The thread without others: its result and the object afterwards. -/
def alone : Thr σ α → σ → Res α × σ
  | done r, s => (r, s)
  | step f k, s => alone (k s) (f s)

/-- Thread number `i` executes its next step (a finished or absent thread does nothing). -/
def stepAt (i : Nat) (c : σ × List (Thr σ α)) : σ × List (Thr σ α) :=
  match c.2[i]? with
  | some (step f k) => (f c.1, c.2.set i (k c.1))
  | _ => c

/-- An execution: the numbers of the threads in the order in which they get their turns. -/
def exec : List Nat → σ × List (Thr σ α) → σ × List (Thr σ α)
  | [], c => c
  | i :: t, c => exec t (stepAt i c)
end Thr

open Thr

section
variable {σ : Type} (g : σ → Base)

/-- `get_attr` (`cosebase.py:61-81`). -/
def getAttrT (c : Cls) : Thr σ Val := do
  let p ← attr fun s => (g s).phdr
  let u ← attr fun s => (g s).uhdr
  expr (({ phdr := p, uhdr := u } : Base).getAttr c)

/-- `phdr_encoded` (`cosebase.py:124-138`): the stored encoding is looked at and then fetched. -/
def phdrEncodedT : Thr σ Val := do
  let e ← attr fun s => (g s).phdrEnc
  if e ≠ none then do
    let e ← attr fun s => (g s).phdrEnc
    pure (optBytes e)
  else do
    let n ← attr fun s => (g s).phdr.length
    if n ≠ 0 then do
      let p ← attr fun s => (g s).phdr
      let t ← attr fun s => (g s).tstr
      let b ← expr (dumps fullname (.base t) (.map p))
      pure (.bytes b)
    else pure (.bytes [])

/-- `_base_structure` (`cosemessage.py:149-157`). -/
def baseStructureT : Thr σ (List Val) := do
  let n ← attr fun s => (g s).phdr.length
  if n = 0 then do
    let a ← attr fun s => (g s).aad
    pure [.bytes [], .bytes a]
  else do
    let p ← phdrEncodedT g
    let a ← attr fun s => (g s).aad
    pure [p, .bytes a]

/-- `CoseMessage.encode` (`cosemessage.py:140-147`). -/
def finishT (cborTag : Nat) (tag : Bool) (message : List Val) : Thr σ Val := do
  let t ← attr fun s => (g s).tstr
  let b ← expr (({ tstr := t } : Base).finish cborTag tag message)
  pure (.bytes b)

/-- `self.key.verify(…)`: `None` has no attribute `verify`. -/
def verifyKey (kind : Kind) (alg : Val) (op : Cls) : Option Key → Res Unit
  | none => .error .attributeError
  | some k => k.verify kind alg [op]

/-- A primitive that is handed `self.key`; `None` has no key parameters. -/
def withKey {α : Type} (f : Key → Res α) : Option Key → Res α
  | none => .error .attributeError
  | some k => f k

/-! ### Signatures -/

/-- `_key_verification` (`signcommon.py:25-37`). -/
def keyVerificationT (alg : Val) (op : Cls) : Thr σ Unit := do
  let k ← attr fun s => (g s).key
  if k = none then raise .coseException
  else do
    let k ← attr fun s => (g s).key
    if k.map Key.kind = some .ec2 then do
      let k ← attr fun s => (g s).key
      expr (verifyKey .ec2 alg op k)
    else do
      let k ← attr fun s => (g s).key
      if k.map Key.kind = some .okp then do
        let k ← attr fun s => (g s).key
        expr (verifyKey .okp alg op k)
      else do
        let k ← attr fun s => (g s).key
        if k.map Key.kind = some .rsa then do
          let k ← attr fun s => (g s).key
          expr (verifyKey .rsa alg op k)
        else raise .coseException

/-- `compute_signature` (`signcommon.py:51-62`). -/
def computeSignatureT (C : Crypto) (rnd : Bytes) (tbs : Thr σ Bytes) : Thr σ Val := do
  let alg ← getAttrT g Hdr.Algorithm
  keyVerificationT g alg Op.Sign
  let f ← expr (signMethod alg)
  let k ← attr fun s => (g s).key
  let data ← tbs
  let sig ← expr (withKey (fun k => callSign C rnd f k data) k)
  pure (.bytes sig)

/-- `verify_signature` (`signcommon.py:39-49`). -/
def verifySignatureT (C : Crypto) (tbs : Thr σ Bytes) (sig : σ → Val) : Thr σ Val := do
  let alg ← getAttrT g Hdr.Algorithm
  keyVerificationT g alg Op.Verify
  let f ← expr (signMethod alg)
  let k ← attr fun s => (g s).key
  let data ← tbs
  let sg ← attr sig
  let b ← expr (withKey (fun k => callVerify C f k data sg) k)
  pure (.bool b)

/-- The payload in the structure to be signed (`sign1message.py:62-69`, `signer.py:60-67`). -/
def choosePayloadT (detached : Option Bytes) : Thr σ Val := do
  match detached with
  | none => do
    let p ← attr fun s => (g s).payload
    if p = none then raise .coseException
    else do
      let p ← attr fun s => (g s).payload
      pure (optBytes p)
  | some d => do
    let p ← attr fun s => (g s).payload
    if p ≠ none then raise .coseException else pure (.bytes d)

/-- `Sign1Message._create_sig_structure` (`sign1message.py:53-71`). -/
def sign1StructureT (detached : Option Bytes) : Thr σ Bytes := do
  let bs ← baseStructureT g
  let p ← choosePayloadT g detached
  expr (dumpsPlain (.arr ([.text b!"Signature1"] ++ bs ++ [p])))

/-- `CoseSignature._create_sig_structure` (`signer.py:52-70`); `p` is the parent. -/
def signerStructureT (p : σ → Base) (detached : Option Bytes) : Thr σ Bytes := do
  let pe ← phdrEncodedT p
  let n ← attr fun s => (g s).phdr.length
  if n ≠ 0 then do
    let own ← phdrEncodedT g
    let a ← attr fun s => (g s).aad
    let pl ← choosePayloadT p detached
    expr (dumpsPlain (.arr [.text b!"Signature", pe, own, .bytes a, pl]))
  else do
    let a ← attr fun s => (g s).aad
    let pl ← choosePayloadT p detached
    expr (dumpsPlain (.arr [.text b!"Signature", pe, .bytes a, pl]))

/-! ### MACs and encryption -/

/-- `_mac_structure` (`maccommon.py:61-73`). -/
def macStructureT (context : Bytes) : Thr σ Bytes := do
  let bs ← baseStructureT g
  let p ← attr fun s => (g s).payload
  if p = none then raise .valueError
  else do
    let p ← attr fun s => (g s).payload
    expr (dumpsPlain (.arr ([.text context] ++ bs ++ [optBytes p])))

/-- `MacCommon.compute_tag` (`maccommon.py:48-59`): the tag is assigned to the message and read back. -/
def macComputeT (C : Crypto) (context : Bytes) (tag : σ → Val) (setTag : Val → σ → σ) : Thr σ Val := do
  let alg ← getAttrT g Hdr.Algorithm
  let k ← attr fun s => (g s).key
  if k = none then raise .coseException
  else do
    let k ← attr fun s => (g s).key
    expr (verifyKey .sym alg Op.MacCreate k)
    let f ← expr (macMethod alg)
    let k ← attr fun s => (g s).key
    let data ← macStructureT g context
    let t ← expr (withKey (fun k => callTag C f k data) k)
    assign (setTag (.bytes t))
    attr tag

/-- `MacCommon.verify_tag` (`maccommon.py:36-46`). -/
def macVerifyT (C : Crypto) (context : Bytes) (tag : σ → Val) : Thr σ Val := do
  let alg ← getAttrT g Hdr.Algorithm
  let k ← attr fun s => (g s).key
  if k = none then raise .coseException
  else do
    let k ← attr fun s => (g s).key
    expr (verifyKey .sym alg Op.MacVerify k)
    let f ← expr (macMethod alg)
    let k ← attr fun s => (g s).key
    let t ← attr tag
    let data ← macStructureT g context
    let b ← expr (withKey (fun k => callVerifyTag C f k t data) k)
    pure (.bool b)

/-- `_enc_structure` (`enccommon.py:71-79`). -/
def encStructureT (context : Bytes) : Thr σ Bytes := do
  let bs ← baseStructureT g
  expr (dumpsPlain (.arr ([.text context] ++ bs)))

/-- `self.key.base_iv`. -/
def baseIvOf : Option Key → Res Val
  | none => .error .attributeError
  | some k => .ok k.baseIv

/-- `_get_nonce` (`enccommon.py:81-92`). -/
def getNonceT : Thr σ Val := do
  let iv ← getAttrT g Hdr.IV
  if iv ≠ .none then pure iv
  else do
    let k ← attr fun s => (g s).key
    let v ← expr (baseIvOf k)
    if v ≠ .bytes [] then do
      let p ← getAttrT g Hdr.PartialIV
      let pn ← expr (intFromBytes p)
      let k ← attr fun s => (g s).key
      let v ← expr (baseIvOf k)
      let bn ← expr (intFromBytes v)
      pure (.bytes (beBytes ((bitLength (pn ^^^ bn) + 7) / 8) (pn ^^^ bn)))
    else do
      let k ← attr fun s => (g s).key
      let v ← expr (baseIvOf k)
      if v = .bytes [] then raise .coseException else pure .none

/-- `EncCommon.encrypt` (`enccommon.py:52-69`). -/
def encEncryptT (C : Crypto) (context : Bytes) : Thr σ Val := do
  let k ← attr fun s => (g s).key
  if k = none then raise .coseException
  else do
    let alg ← getAttrT g Hdr.Algorithm
    let nonce ← getNonceT g
    let k ← attr fun s => (g s).key
    expr (verifyKey .sym alg Op.Encrypt k)
    let a ← expr (encMethod alg)
    let k ← attr fun s => (g s).key
    let p ← attr fun s => (g s).payload
    let aad ← encStructureT g context
    let c ← expr (withKey (fun k => callEncrypt C a k nonce p aad) k)
    pure (.bytes c)

/-- `EncCommon.decrypt` (`enccommon.py:34-50`). -/
def encDecryptT (C : Crypto) (context : Bytes) : Thr σ Val := do
  let alg ← getAttrT g Hdr.Algorithm
  let nonce ← getNonceT g
  let k ← attr fun s => (g s).key
  if k = none then raise .coseException
  else do
    let k ← attr fun s => (g s).key
    expr (verifyKey .sym alg Op.Decrypt k)
    let a ← expr (encMethod alg)
    let k ← attr fun s => (g s).key
    let p ← attr fun s => (g s).payload
    let aad ← encStructureT g context
    let c ← expr (withKey (fun k => callDecrypt C a k nonce p aad) k)
    pure (.bytes c)

end

/-! ### The methods of the message classes -/

/-- `Sign1Message.compute_signature` (`signcommon.py:51-62`, `sign1message.py:53-71`). -/
def Sign1.computeSignatureT (C : Crypto) (rnd : Bytes) (detached : Option Bytes) : Thr Sign1 Val :=
  Cose.computeSignatureT Sign1.base C rnd (sign1StructureT Sign1.base detached)

/-- `Sign1Message.verify_signature` (`signcommon.py:39-49`, `sign1message.py:53-71`). -/
def Sign1.verifySignatureT (C : Crypto) (detached : Option Bytes) : Thr Sign1 Val :=
  Cose.verifySignatureT Sign1.base C (sign1StructureT Sign1.base detached) Sign1.signature

/-- `msg.payload = p` with bytes or `None` (`cosemessage.py:134-138`). -/
def Sign1.setPayloadT (p : Option Bytes) : Thr Sign1 Val := do
  assign fun m => { m with base := { m.base with payload := p } }
  pure .none

/-- `Sign1Message.encode` (`sign1message.py:73-88`). -/
def Sign1.encodeT (C : Crypto) (rnd : Bytes) (tag sign : Bool) (detached : Option Bytes) : Thr Sign1 Val := do
  if sign then do
    let pe ← phdrEncodedT Sign1.base
    let uh ← attr fun m => m.base.uhdr
    let p ← attr fun m => m.base.payload
    let sg ← Sign1.computeSignatureT C rnd detached
    finishT Sign1.base 18 tag [pe, .map uh, optBytes p, sg]
  else do
    let sg ← attr Sign1.signature
    if truthy sg then do
      let pe ← phdrEncodedT Sign1.base
      let uh ← attr fun m => m.base.uhdr
      let p ← attr fun m => m.base.payload
      let sg ← attr Sign1.signature
      finishT Sign1.base 18 tag [pe, .map uh, optBytes p, sg]
    else do
      let pe ← phdrEncodedT Sign1.base
      let uh ← attr fun m => m.base.uhdr
      let p ← attr fun m => m.base.payload
      finishT Sign1.base 18 tag [pe, .map uh, optBytes p]

/-- The attributes of signer number `i` of a message (an index that does not exist is never used). -/
def SignMsg.signer (i : Nat) (m : SignMsg) : Base := m.signers[i]?.getD {}

/-- `signer.verify_signature(detached)` for signer number `i` (`signcommon.py:39-49`, `signer.py:52-70`). -/
def SignMsg.verifyT (C : Crypto) (i : Nat) (detached : Option Bytes) : Thr SignMsg Val :=
  Cose.verifySignatureT (SignMsg.signer i) C (signerStructureT (SignMsg.signer i) SignMsg.base detached)
    fun m => optBytes (SignMsg.signer i m).payload

/-- The list comprehension of `signmessage.py:80` with `CoseSignature.encode` (`signer.py:72-73`): `n` signers from number `i` on. -/
def signersEncodeT (C : Crypto) (rnd : Nat → Bytes) (detached : Option Bytes) : Nat → Nat → Thr SignMsg (List Val)
  | 0, _ => pure []
  | n + 1, i => do
    let e ← phdrEncodedT (SignMsg.signer i)
    let uh ← attr fun m => (SignMsg.signer i m).uhdr
    let sg ← Cose.computeSignatureT (SignMsg.signer i) C (rnd i) (signerStructureT (SignMsg.signer i) SignMsg.base detached)
    let vs ← signersEncodeT C rnd detached n (i + 1)
    pure (.arr [e, .map uh, sg] :: vs)

/-- `_SignMessage.encode` (`signmessage.py:74-87`). -/
def SignMsg.encodeT (C : Crypto) (rnd : Nat → Bytes) (tag : Bool) (detached : Option Bytes) : Thr SignMsg Val := do
  let pe ← phdrEncodedT SignMsg.base
  let uh ← attr fun m => m.base.uhdr
  let p ← attr fun m => m.base.payload
  let n ← attr fun m => m.signers.length
  if n ≠ 0 then do
    let n ← attr fun m => m.signers.length
    let vs ← signersEncodeT C rnd detached n 0
    finishT SignMsg.base 98 tag [pe, .map uh, optBytes p, .arr vs]
  else finishT SignMsg.base 98 tag [pe, .map uh, optBytes p]

/-- `Mac0Message.compute_tag` (`maccommon.py:48-59`). -/
def Mac0.computeTagT (C : Crypto) : Thr Mac0 Val :=
  macComputeT Mac0.base C b!"MAC0" Mac0.authTag fun t m => { m with authTag := t }

/-- `Mac0Message.verify_tag` (`maccommon.py:36-46`). -/
def Mac0.verifyTagT (C : Crypto) : Thr Mac0 Val := macVerifyT Mac0.base C b!"MAC0" Mac0.authTag

/-- `Mac0Message.encode` (`mac0message.py:42-51`). -/
def Mac0.encodeT (C : Crypto) (tag mac : Bool) : Thr Mac0 Val := do
  let pe ← phdrEncodedT Mac0.base
  let uh ← attr fun m => m.base.uhdr
  let p ← attr fun m => m.base.payload
  if mac then do
    let t ← Mac0.computeTagT C
    finishT Mac0.base 17 tag [pe, .map uh, optBytes p, t]
  else finishT Mac0.base 17 tag [pe, .map uh, optBytes p]

/-- `Enc0Message.encrypt` (`enccommon.py:52-69`). -/
def Enc0.encryptT (C : Crypto) : Thr Enc0 Val := encEncryptT Enc0.base C b!"Encrypt0"

/-- `Enc0Message.decrypt` (`enccommon.py:34-50`). -/
def Enc0.decryptT (C : Crypto) : Thr Enc0 Val := encDecryptT Enc0.base C b!"Encrypt0"

/-- `Enc0Message.encode` (`enc0message.py:53-69`). -/
def Enc0.encodeT (C : Crypto) (tag encrypt : Bool) : Thr Enc0 Val := do
  let pe ← phdrEncodedT Enc0.base
  let uh ← attr fun m => m.base.uhdr
  if encrypt then do
    let c ← Enc0.encryptT C
    finishT Enc0.base 16 tag [pe, .map uh, c]
  else do
    let p ← attr fun m => m.base.payload
    finishT Enc0.base 16 tag [pe, .map uh, optBytes p]

/-! ### COSE_Encrypt -/

/-- The payload of recipient number `i`. -/
def Enc.rcptPayload (i : Nat) (m : Enc) : Option Bytes := m.recipients[i]?.bind fun r => r.base.payload

/-- `r.payload = v` for recipient number `i`. -/
def Enc.setRcptPayload (i : Nat) (v : Option Bytes) (m : Enc) : Enc :=
  { m with recipients := m.recipients.modify i fun r => r.withBase { r.base with payload := v } }

/-- `self.key = k` (`cosemessage.py:118-128`). -/
def Enc.setKey (k : Key) (m : Enc) : Enc := { m with base := { m.base with key := some k } }

/-- A call of a method of recipient number `i`, in one step. -/
def onRcpt {α : Type} (i : Nat) (f : Rcpt → Res α × Rcpt) : Eff Enc α :=
  ⟨fun m => match m.recipients[i]? with
    | none => (.error .indexError, m)
    | some r => ((f r).1, { m with recipients := m.recipients.set i (f r).2 })⟩

/-- The loop over key-wrap recipients (`encmessage.py:90-95`): `n` recipients from number `i` on; the payload of a recipient is compared
with `b''` and then assigned or fetched. -/
def wrapLoopT (C : Crypto) (R : Rand) : Nat → Nat → Option Bytes → Thr Enc (Option Bytes)
  | 0, _, key => pure key
  | n + 1, i, key => do
    let p ← attr (Enc.rcptPayload i)
    if p = some [] then do
      assign (Enc.setRcptPayload i key)
      let _ ← atomic (onRcpt i (rcptEncryptE C R 0 [i]).run)
      wrapLoopT C R n (i + 1) key
    else do
      let key ← attr (Enc.rcptPayload i)
      let _ ← atomic (onRcpt i (rcptEncryptE C R 0 [i]).run)
      wrapLoopT C R n (i + 1) key

/-- `EncMessage.encrypt` (`encmessage.py:75-102`). -/
def Enc.encryptT (C : Crypto) (R : Rand) : Thr Enc Val := do
  let target ← getAttrT Enc.base Hdr.Algorithm
  let rs ← attr Enc.recipients
  let types ← expr (verifyRecipients rs)
  if types.contains .directEncryption then encEncryptT Enc.base C b!"Encrypt"
  else if types.contains .directKeyAgreement then do
    let rs ← attr Enc.recipients
    let k ← expr (match rs with
      | [] => .error .indexError
      | r :: _ => dkaComputeCek C r.base target true)
    assign (Enc.setKey k)
    encEncryptT Enc.base C b!"Encrypt"
  else if types.contains .keyWrap ∨ types.contains .keyAgreementWithKeyWrap then do
    let alg ← getAttrT Enc.base Hdr.Algorithm
    let n ← expr (algKeyLength alg)
    let count ← attr fun m => m.recipients.length
    let kb ← wrapLoopT C R count 0 (some (R.cek n))
    let k ← expr (mkSym (optBytes kb) target [Op.Encrypt])
    assign (Enc.setKey k)
    encEncryptT Enc.base C b!"Encrypt"
  else raise .coseException

/-- `[r.encode(target_alg=self.get_attr(headers.Algorithm)) for r in self.recipients]` (`encmessage.py:70`). -/
def rcptsEncodeT (C : Crypto) (R : Rand) : Nat → Nat → Thr Enc (List Val)
  | 0, _ => pure []
  | n + 1, i => do
    let _ ← getAttrT Enc.base Hdr.Algorithm
    let v ← atomic (onRcpt i (rcptEncodeE C R [i]))
    let vs ← rcptsEncodeT C R n (i + 1)
    pure (v :: vs)

/-- `EncMessage.encode` from `if len(self.recipients)` on (`encmessage.py:69-73`). -/
def Enc.finishT (C : Crypto) (R : Rand) (tag : Bool) (message : List Val) : Thr Enc Val := do
  let n ← attr fun m => m.recipients.length
  if n = 0 then Cose.finishT Enc.base 96 tag message
  else do
    let n ← attr fun m => m.recipients.length
    let vs ← rcptsEncodeT C R n 0
    Cose.finishT Enc.base 96 tag (message ++ [.arr vs])

/-- `EncMessage.encode` (`encmessage.py:60-73`). -/
def Enc.encodeT (C : Crypto) (R : Rand) (tag encrypt : Bool) : Thr Enc Val := do
  let pe ← phdrEncodedT Enc.base
  let uh ← attr fun m => m.base.uhdr
  if encrypt then do
    let c ← Enc.encryptT C R
    Enc.finishT C R tag [pe, .map uh, c]
  else do
    let p ← attr fun m => m.base.payload
    Enc.finishT C R tag [pe, .map uh, optBytes p]

/-- `EncMessage.decrypt(recipient)` (`encmessage.py:104-123`): the derived key is assigned to the message and read back. -/
def Enc.decryptT (C : Crypto) (r : Rcpt) : Thr Enc Val := do
  let target ← getAttrT Enc.base Hdr.Algorithm
  let rs ← attr Enc.recipients
  if hasRecipient r.oid rs = false then raise .coseException
  else do
    let rs ← attr Enc.recipients
    let types ← expr (verifyRecipients rs)
    if types.contains .directEncryption then encDecryptT Enc.base C b!"Encrypt"
    else if types.contains .directKeyAgreement ∨ types.contains .keyWrap ∨ types.contains .keyAgreementWithKeyWrap then do
      let k ← expr (rcptComputeCek C r target)
      assign (Enc.setKey k)
      encDecryptT Enc.base C b!"Encrypt"
    else raise .coseException

/-! ### COSE_Mac -/

/-- A call of a method of recipient number `i`, in one step. -/
def onMacRcpt {α : Type} (i : Nat) (f : Rcpt → Res α × Rcpt) : Eff Mac α :=
  ⟨fun m => match m.recipients.bind (·[i]?) with
    | none => (.error .indexError, m)
    | some r => ((f r).1, { m with recipients := m.recipients.map (·.set i (f r).2) })⟩

/-- `r.payload` for recipient number `i`. -/
def Mac.rcptPayload (i : Nat) (m : Mac) : Option Bytes := (m.recipients.bind (·[i]?)).bind fun r => r.base.payload

/-- `r.payload = v` for recipient number `i`. -/
def Mac.setRcptPayload (i : Nat) (v : Option Bytes) (m : Mac) : Mac :=
  { m with recipients := m.recipients.map (·.modify i fun r => r.withBase { r.base with payload := v }) }

/-- The loop over key-wrap recipients (`macmessage.py:91-96`). -/
def macWrapLoopT (C : Crypto) (R : Rand) : Nat → Nat → Option Bytes → Thr Mac (Option Bytes)
  | 0, _, key => pure key
  | n + 1, i, key => do
    let p ← attr (Mac.rcptPayload i)
    if p = some [] then do
      assign (Mac.setRcptPayload i key)
      let _ ← atomic (onMacRcpt i (rcptEncryptE C R 0 [i]).run)
      macWrapLoopT C R n (i + 1) key
    else do
      let key ← attr (Mac.rcptPayload i)
      let _ ← atomic (onMacRcpt i (rcptEncryptE C R 0 [i]).run)
      macWrapLoopT C R n (i + 1) key

/-- `MacMessage.compute_tag` (`macmessage.py:75-103`). With recipients that wrap a key it raises `NameError` after the loop, because
`SymmetricKey` (`:97`) is imported for type checkers only (`:22-23`). -/
def Mac.computeTagT (C : Crypto) (R : Rand) : Thr Mac Val := do
  let target ← getAttrT Mac.base Hdr.Algorithm
  let rs ← attr Mac.recipients
  let types ← expr (match rs with
    | none => .error .typeError
    | some rs => verifyRecipients rs)
  if types.contains .directEncryption then macComputeT Mac.base C b!"MAC" Mac.authTag fun t m => { m with authTag := t }
  else if types.contains .directKeyAgreement then do
    let rs ← attr Mac.recipients
    let k ← expr (match rs with
      | none => .error .typeError
      | some [] => .error .indexError
      | some (r :: _) => dkaComputeCek C r.base target true)
    assign fun m => { m with base := { m.base with key := some k } }
    macComputeT Mac.base C b!"MAC" Mac.authTag fun t m => { m with authTag := t }
  else if types.contains .keyWrap ∨ types.contains .keyAgreementWithKeyWrap then do
    let alg ← getAttrT Mac.base Hdr.Algorithm
    let n ← expr (algKeyLength alg)
    let count ← attr fun m => (m.recipients.getD []).length
    let _ ← macWrapLoopT C R count 0 (some (R.cek n))
    raise .nameError
  else raise .coseException

/-- `MacMessage.verify_tag` (`maccommon.py:36-46`). -/
def Mac.verifyTagT (C : Crypto) : Thr Mac Val := macVerifyT Mac.base C b!"MAC" Mac.authTag

/-- `[r.encode(target_alg=self.get_attr(headers.Algorithm)) for r in self.recipients]` (`macmessage.py:70`). -/
def macRcptsEncodeT (C : Crypto) (R : Rand) : Nat → Nat → Thr Mac (List Val)
  | 0, _ => pure []
  | n + 1, i => do
    let _ ← getAttrT Mac.base Hdr.Algorithm
    let v ← atomic (onMacRcpt i (rcptEncodeE C R [i]))
    let vs ← macRcptsEncodeT C R n (i + 1)
    pure (v :: vs)

/-- `MacMessage.encode` from `if len(self.recipients)` on (`macmessage.py:69-73`). -/
def Mac.finishT (C : Crypto) (R : Rand) (tag : Bool) (message : List Val) : Thr Mac Val := do
  let rs ← attr Mac.recipients
  let n ← expr (match rs with
    | none => .error .typeError
    | some rs => .ok rs.length)
  if n = 0 then Cose.finishT Mac.base 97 tag message
  else do
    let rs ← attr Mac.recipients
    let n ← expr (match rs with
      | none => .error .typeError
      | some rs => .ok rs.length)
    let vs ← macRcptsEncodeT C R n 0
    Cose.finishT Mac.base 97 tag (message ++ [.arr vs])

/-- `MacMessage.encode` (`macmessage.py:61-73`). -/
def Mac.encodeT (C : Crypto) (R : Rand) (tag mac : Bool) : Thr Mac Val := do
  let pe ← phdrEncodedT Mac.base
  let uh ← attr fun m => m.base.uhdr
  let p ← attr fun m => m.base.payload
  if mac then do
    let t ← Mac.computeTagT C R
    Mac.finishT C R tag [pe, .map uh, optBytes p, t]
  else Mac.finishT C R tag [pe, .map uh, optBytes p]

end Cose
