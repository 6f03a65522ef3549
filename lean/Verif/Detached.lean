import Verif.Multi

/-! Detached payloads of any type.

`detached_payload` is annotated `Optional[bytes]` but not checked: `_create_sig_structure` compares it with `None`, appends it
to the list and hands the list to `cbor2.dumps` without callback (`sign1message.py:62-71`, `signer.py:60-70`).  In
`Verif/Messages.lean` it is a byte string or `None`; here it is any value.  `c15_any_…_agrees` in
`Verif/Props/DetachedAny.lean` shows that the definitions there are the restriction of these. -/

set_option autoImplicit false

namespace Cose

/-- The choice between attached and detached payload (`sign1message.py:62-69`, `signer.py:60-67`). -/
def choosePayloadV (payload : Option Bytes) (detached : Val) : Res Val :=
  match detached with
  | .none =>
    match payload with
    | none => .error .coseException
    | some p => .ok (.bytes p)
  | d =>
    match payload with
    | some _ => .error .coseException
    | none => .ok d

/-- `Sign1Message._create_sig_structure` (`sign1message.py:53-71`). -/
def Sign1.sigStructureV (m : Sign1) (detached : Val) : Res Bytes := do
  let bs ← m.base.baseStructure
  let p ← choosePayloadV m.base.payload detached
  dumpsPlain (.arr ([.text b!"Signature1"] ++ bs ++ [p]))

/-- `SignCommon.compute_signature` (`signcommon.py:51-62`). -/
def Sign1.computeSignatureV (C : Crypto) (rnd : Bytes) (m : Sign1) (detached : Val) : Res Bytes :=
  Cose.computeSignature C rnd m.base (m.sigStructureV detached)

/-- `SignCommon.verify_signature` (`signcommon.py:39-49`). -/
def Sign1.verifySignatureV (C : Crypto) (m : Sign1) (detached : Val) : Res Bool :=
  Cose.verifySignature C m.base (m.sigStructureV detached) m.signature

/-- `Sign1Message.encode` (`sign1message.py:73-88`). -/
def Sign1.encodeV (C : Crypto) (rnd : Bytes) (m : Sign1) (tag sign : Bool) (detached : Val) : Res Bytes := do
  let pe ← m.base.phdrEncoded
  let head := [.bytes pe, .map m.base.uhdr, optBytes m.base.payload]
  let message ←
    if sign then do
      let s ← m.computeSignatureV C rnd detached
      .ok (head ++ [.bytes s])
    else if truthy m.signature then .ok (head ++ [m.signature])
    else .ok head
  m.base.finish 18 tag message

/-- `CoseSignature._create_sig_structure` (`signer.py:52-70`). -/
def signerStructureV (p s : Base) (detached : Val) : Res Bytes := do
  let pe ← p.phdrEncoded
  let own ← if s.phdr.length ≠ 0 then do let e ← s.phdrEncoded; .ok [.bytes e] else .ok []
  let pl ← choosePayloadV p.payload detached
  dumpsPlain (.arr ([.text b!"Signature", .bytes pe] ++ own ++ [.bytes s.aad, pl]))

/-- `SignCommon.compute_signature` (`signcommon.py:51-62`) of a signer. -/
def signerComputeV (C : Crypto) (rnd : Bytes) (p s : Base) (detached : Val) : Res Bytes :=
  computeSignature C rnd s (signerStructureV p s detached)

/-- `SignCommon.verify_signature` (`signcommon.py:39-49`) of a signer. -/
def signerVerifyV (C : Crypto) (p s : Base) (detached : Val) : Res Bool :=
  verifySignature C s (signerStructureV p s detached) (optBytes s.payload)

/-- `CoseSignature.encode` (`signer.py:72-73`). -/
def signerEncodeV (C : Crypto) (rnd : Bytes) (p s : Base) (detached : Val) : Res Val := do
  let e ← s.phdrEncoded
  let sg ← signerComputeV C rnd p s detached
  .ok (.arr [.bytes e, .map s.uhdr, .bytes sg])

/-- The list comprehension of `signmessage.py:80`. -/
def signersEncodeV (C : Crypto) (rnd : Nat → Bytes) (p : Base) (detached : Val) : Nat → List Base → Res (List Val)
  | _, [] => .ok []
  | i, s :: t => do
    let v ← signerEncodeV C (rnd i) p s detached
    let vs ← signersEncodeV C rnd p detached (i + 1) t
    .ok (v :: vs)

/-- `SignMessage.encode` (`signmessage.py:74-87`). -/
def SignMsg.encodeV (C : Crypto) (rnd : Nat → Bytes) (m : SignMsg) (tag : Bool) (detached : Val) : Res Bytes := do
  let pe ← m.base.phdrEncoded
  let head := [.bytes pe, .map m.base.uhdr, optBytes m.base.payload]
  let message ←
    if m.signers.length ≠ 0 then do
      let ss ← signersEncodeV C rnd m.base detached 0 m.signers
      .ok (head ++ [.arr ss])
    else .ok head
  m.base.finish 98 tag message

end Cose
