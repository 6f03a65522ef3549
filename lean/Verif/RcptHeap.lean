import Verif.Raise
/-!
# Recipient objects shared between messages

`Multi.lean` and `Raise.lean` model a message as a value that contains its recipients, which is right as long as no recipient object is
listed twice.  In Python a message has a list of references, and the same recipient object can be listed twice in a message or in several
messages.  This file models the references; recipients nested inside a recipient stay part of it (they are never read from a message, and
keys are never derived from them).
-/
set_option autoImplicit false

namespace Cose

open Eff

/-- The recipient objects of a program, by address; an address is what Python's `is` compares, so that the object at `a` has `oid` `a`. -/
abbrev RHeap := Nat → Rcpt

def RHeap.put (h : RHeap) (a : Nat) (r : Rcpt) : RHeap := fun b => if b = a then r else h b

/-- An `EncMessage` object (`encmessage.py:21-58`) together with the objects its list refers to. -/
structure EncW where
  heap : RHeap
  base : Base
  addrs : List Nat

/-- The recipients of the message as they are now. -/
def EncW.recipients (w : EncW) : List Rcpt := w.addrs.map w.heap

/-- The loop over key-wrap recipients (`encmessage.py:90-95`). -/
def wrapLoopH (C : Crypto) (R : Rand) : Nat → Option Bytes → List Nat → RHeap → Res (Option Bytes) × RHeap
  | _, key, [], h => (.ok key, h)
  | i, key, a :: t, h =>
    match (rcptEncryptE C R 0 [i]).run (giveKey key (h a)).2 with
    | (.error e, r') => (.error e, h.put a r')
    | (.ok _, r') => wrapLoopH C R (i + 1) (giveKey key (h a)).1 t (h.put a r')

/-- `[r.encode(…) for r in self.recipients]` (`encmessage.py:70`). -/
def rcptsEncodeH (C : Crypto) (R : Rand) : Nat → List Nat → RHeap → Res (List Val) × RHeap
  | _, [], h => (.ok [], h)
  | i, a :: t, h =>
    match rcptEncodeE C R [i] (h a) with
    | (.error e, r') => (.error e, h.put a r')
    | (.ok v, r') =>
      match rcptsEncodeH C R (i + 1) t (h.put a r') with
      | (.error e, h') => (.error e, h')
      | (.ok vs, h') => (.ok (v :: vs), h')

/-- The second element of an encoded recipient is its dictionary of unprotected headers itself (`cosebase.py:140-149`), which is read when the
message is serialised. -/
def reread (h : RHeap) (a : Nat) : Val → Val
  | .arr (p :: _ :: t) => .arr (p :: .map (h a).base.uhdr :: t)
  | v => v

/-- `EncMessage.encrypt` (`encmessage.py:75-102`). -/
def EncW.encrypt (C : Crypto) (R : Rand) : Eff EncW Bytes := do
  let target ← expr fun w => w.base.getAttr Hdr.Algorithm
  let types ← expr fun w => verifyRecipients w.recipients
  if types.contains .directEncryption then expr fun w => encEncrypt C b!"Encrypt" w.base
  else if types.contains .directKeyAgreement then do
    let k ← expr fun w => match w.recipients with
      | [] => .error .indexError
      | r :: _ => dkaComputeCek C r.base target true
    call EncW.base (fun w b => { w with base := b }) (assignKey k).run
    expr fun w => encEncrypt C b!"Encrypt" w.base
  else if types.contains .keyWrap ∨ types.contains .keyAgreementWithKeyWrap then do
    let n ← expr fun _ => algKeyLength target
    let w ← self
    let kb ← call EncW.heap (fun w h => { w with heap := h }) (wrapLoopH C R 0 (some (R.cek n)) w.addrs)
    let k ← expr fun _ => mkSym (optBytes kb) target [Op.Encrypt]
    call EncW.base (fun w b => { w with base := b }) (assignKey k).run
    expr fun w => encEncrypt C b!"Encrypt" w.base
  else raise .coseException

/-- `EncMessage.encode` from `if len(self.recipients)` on (`encmessage.py:69-73`). -/
def EncW.finish (C : Crypto) (R : Rand) (tag : Bool) (message : List Val) : Eff EncW Bytes := do
  let w ← self
  if w.recipients.isEmpty then expr fun w => w.base.finish 96 tag message
  else do
    let _ ← expr fun w => w.base.getAttr Hdr.Algorithm
    let vs ← call EncW.heap (fun w h => { w with heap := h }) (rcptsEncodeH C R 0 w.addrs)
    expr fun w => w.base.finish 96 tag (message ++ [.arr (List.zipWith (reread w.heap) w.addrs vs)])

/-- `EncMessage.encode` (`encmessage.py:60-73`). -/
def EncW.encode (C : Crypto) (R : Rand) (tag encrypt : Bool) : Eff EncW Bytes := do
  let pe ← expr fun w => w.base.phdrEncoded
  let uh ← expr fun w => .ok w.base.uhdr
  if encrypt then do
    let c ← EncW.encrypt C R
    EncW.finish C R tag [.bytes pe, .map uh, .bytes c]
  else do
    let p ← expr fun w => .ok w.base.payload
    EncW.finish C R tag [.bytes pe, .map uh, optBytes p]

/-- `EncMessage.decrypt(recipient)` (`encmessage.py:104-123`). -/
def EncW.decrypt (C : Crypto) (a : Nat) : Eff EncW Bytes := do
  let target ← expr fun w => w.base.getAttr Hdr.Algorithm
  let w ← self
  if hasRecipient a w.recipients = false then raise .coseException
  else do
    let types ← expr fun w => verifyRecipients w.recipients
    if types.contains .directEncryption then expr fun w => encDecrypt C b!"Encrypt" w.base
    else if types.contains .directKeyAgreement ∨ types.contains .keyWrap ∨ types.contains .keyAgreementWithKeyWrap then do
      let k ← expr fun w => rcptComputeCek C (w.heap a) target
      call EncW.base (fun w b => { w with base := b }) (assignKey k).run
      expr fun w => encDecrypt C b!"Encrypt" w.base
    else raise .coseException

/-- A `MacMessage` object (`macmessage.py:29-59`) together with the objects its list refers to. -/
structure MacW where
  heap : RHeap
  base : Base
  authTag : Val
  addrs : Option (List Nat)

/-- `MacCommon.compute_tag` (`maccommon.py:48-59`) with the context of `MacMessage`. -/
def MacW.tag (C : Crypto) : Eff MacW Bytes := do
  let t ← expr fun w => macCompute C b!"MAC" w.base
  assign fun w => { w with authTag := .bytes t }
  pure t

/-- `MacMessage.compute_tag` (`macmessage.py:75-103`). -/
def MacW.computeTag (C : Crypto) (R : Rand) : Eff MacW Bytes := do
  let target ← expr fun w => w.base.getAttr Hdr.Algorithm
  let addrs ← expr fun w => match w.addrs with
    | none => .error .typeError
    | some l => .ok l
  let types ← expr fun w => verifyRecipients (addrs.map w.heap)
  if types.contains .directEncryption then MacW.tag C
  else if types.contains .directKeyAgreement then do
    let k ← expr fun w => match addrs.map w.heap with
      | [] => .error .indexError
      | r :: _ => dkaComputeCek C r.base target true
    call MacW.base (fun w b => { w with base := b }) (assignKey k).run
    MacW.tag C
  else if types.contains .keyWrap ∨ types.contains .keyAgreementWithKeyWrap then do
    let n ← expr fun _ => algKeyLength target
    let _ ← call MacW.heap (fun w h => { w with heap := h }) (wrapLoopH C R 0 (some (R.cek n)) addrs)
    raise .nameError
  else raise .coseException

/-- `MacMessage.encode` from `if len(self.recipients)` on (`macmessage.py:69-73`). -/
def MacW.finish (C : Crypto) (R : Rand) (tag : Bool) (message : List Val) : Eff MacW Bytes := do
  let w ← self
  match w.addrs with
  | none => raise .typeError
  | some [] => expr fun w => w.base.finish 97 tag message
  | some (a :: t) => do
    let _ ← expr fun w => w.base.getAttr Hdr.Algorithm
    let vs ← call MacW.heap (fun w h => { w with heap := h }) (rcptsEncodeH C R 0 (a :: t))
    expr fun w => w.base.finish 97 tag (message ++ [.arr (List.zipWith (reread w.heap) (a :: t) vs)])

/-- `MacMessage.encode` (`macmessage.py:61-73`). -/
def MacW.encode (C : Crypto) (R : Rand) (tag mac : Bool) : Eff MacW Bytes := do
  let pe ← expr fun w => w.base.phdrEncoded
  let uh ← expr fun w => .ok w.base.uhdr
  let p ← expr fun w => .ok w.base.payload
  if mac then do
    let t ← MacW.computeTag C R
    MacW.finish C R tag [.bytes pe, .map uh, optBytes p, .bytes t]
  else MacW.finish C R tag [.bytes pe, .map uh, optBytes p]

/-! ### Programs with several messages -/

/-- The objects of a program: recipients, and COSE_Encrypt messages with their lists. -/
structure World where
  heap : RHeap
  msg : Nat → Base × List Nat

/-- What a program does with them. -/
inductive WorldOp where
  /-- any change of the attributes of a recipient (or its creation) -/
  | setRcpt (a : Nat) (r : Rcpt)
  /-- any change of the attributes of a message (or its creation) -/
  | setMsg (i : Nat) (b : Base)
  /-- `msg.recipients = …` and changes of the list in place (`encmessage.py:125-138`) -/
  | setList (i : Nat) (l : List Nat)
  | encrypt (i : Nat) (R : Rand)
  | encode (i : Nat) (R : Rand) (tag encrypt : Bool)
  | decrypt (i a : Nat)

/-- Run a method of message `i`. -/
def World.call {α : Type} (w : World) (i : Nat) (m : Eff EncW α) : Res α × World :=
  let x := m.run ⟨w.heap, (w.msg i).1, (w.msg i).2⟩
  (x.1, { heap := x.2.heap, msg := fun j => if j = i then (x.2.base, x.2.addrs) else w.msg j })

def World.step (C : Crypto) (w : World) : WorldOp → World
  | .setRcpt a r => { w with heap := w.heap.put a r }
  | .setMsg i b => { w with msg := fun j => if j = i then (b, (w.msg i).2) else w.msg j }
  | .setList i l => { w with msg := fun j => if j = i then ((w.msg i).1, l) else w.msg j }
  | .encrypt i R => (w.call i (EncW.encrypt C R)).2
  | .encode i R tag e => (w.call i (EncW.encode C R tag e)).2
  | .decrypt i a => (w.call i (EncW.decrypt C a)).2

def World.run (C : Crypto) (w : World) : List WorldOp → World
  | [] => w
  | o :: t => World.run C (w.step C o) t

end Cose
