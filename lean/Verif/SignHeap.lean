import Verif.Messages
/-!
# COSE_Sign objects, lists of signers and parent pointers

`Messages.lean` models a `SignMessage` as a value that contains its signers.  In Python the message refers to a list object, the list
refers to signer objects, and every signer refers back to one message through `_parent` (`signer.py:38`, `signmessage.py:66-72`).  The same
list or signer can be reached from several messages.  This file models those references.
-/
set_option autoImplicit false
namespace Cose

/-- A `SignMessage` object: its attributes and the address of the list `_signers`. -/
structure MsgObj where
  base : Base
  signers : Nat

/-- A `CoseSignature` object: its attributes and `_parent`. -/
structure SigObj where
  base : Base
  parent : Option Nat

/-- The objects of a program, by address. -/
structure Heap where
  msg : Nat → Option MsgObj := fun _ => none
  lst : Nat → Option (List Nat) := fun _ => none
  sig : Nat → Option SigObj := fun _ => none

def upd {α : Type} (f : Nat → Option α) (i : Nat) (v : α) : Nat → Option α := fun j => if j = i then some v else f j

/-- What a program does with these objects.  Addresses given to a new object must be unused. -/
inductive HeapOp where
  /-- `SignMessage(...)` without signers, whose list gets address `l` (`signmessage.py:41-55`) -/
  | newMsg (m : Nat) (b : Base) (l : Nat)
  /-- `CoseSignature(...)` (`signer.py:24-38`) -/
  | newSig (s : Nat) (b : Base)
  /-- `l = [s, ...]` -/
  | newList (l : Nat) (ss : List Nat)
  /-- any change of a list in place, e.g. `msg.signers.append(s)` or `msg.signers[0] = s` -/
  | setList (l : Nat) (ss : List Nat)
  /-- `msg.signers = l` (`signmessage.py:66-72`) -/
  | assign (m : Nat) (l : Nat)
  /-- any change of the attributes of a message (header, payload, …) -/
  | setMsg (m : Nat) (b : Base)
  /-- any change of the attributes of a signer (header, key, signature, …) -/
  | setSig (s : Nat) (b : Base)

/-- `for s in signers: s._parent = self` (`signmessage.py:68-69`). -/
def adopt (m : Nat) : List Nat → (Nat → Option SigObj) → (Nat → Option SigObj)
  | [], f => f
  | s :: t, f => adopt m t (match f s with
    | some o => upd f s { o with parent := some m }
    | none => f)

/-- One action.  Actions on objects that do not exist cannot be written in Python; here they change nothing. -/
def Heap.step (h : Heap) : HeapOp → Heap
  | .newMsg m b l =>
    match h.msg m, h.lst l with
    | none, none => { h with msg := upd h.msg m ⟨b, l⟩, lst := upd h.lst l [] }
    | _, _ => h
  | .newSig s b =>
    match h.sig s with
    | none => { h with sig := upd h.sig s ⟨b, none⟩ }
    | some _ => h
  | .newList l ss =>
    match h.lst l with
    | none => { h with lst := upd h.lst l ss }
    | some _ => h
  | .setList l ss =>
    match h.lst l with
    | none => h
    | some _ => { h with lst := upd h.lst l ss }
  | .assign m l =>
    match h.msg m, h.lst l with
    | some o, some ss => { h with sig := adopt m ss h.sig, msg := upd h.msg m { o with signers := l } }
    | _, _ => h
  | .setMsg m b =>
    match h.msg m with
    | some o => { h with msg := upd h.msg m { o with base := b } }
    | none => h
  | .setSig s b =>
    match h.sig s with
    | some o => { h with sig := upd h.sig s { o with base := b } }
    | none => h

/-- A history: the actions of a program, in order. -/
def Heap.run : List HeapOp → Heap → Heap
  | [], h => h
  | o :: t, h => Heap.run t (h.step o)

/-- `_create_sig_structure` (`signer.py:52-70`): `self._parent.context` raises `AttributeError` without a parent. -/
def Heap.sigStructure (h : Heap) (o : SigObj) (detached : Option Bytes) : Res Bytes :=
  match o.parent with
  | none => .error .attributeError
  | some m =>
    match h.msg m with
    | some p => signerStructure p.base o.base detached
    | none => .error .attributeError

/-- `s.compute_signature(detached)` (`signcommon.py:51-62`). -/
def Heap.compute (C : Crypto) (rnd : Bytes) (h : Heap) (s : Nat) (detached : Option Bytes) : Res Bytes :=
  match h.sig s with
  | some o => computeSignature C rnd o.base (h.sigStructure o detached)
  | none => .error .nameError

/-- `s.verify_signature(detached)` (`signcommon.py:39-49`). -/
def Heap.verify (C : Crypto) (h : Heap) (s : Nat) (detached : Option Bytes) : Res Bool :=
  match h.sig s with
  | some o => verifySignature C o.base (h.sigStructure o detached) (optBytes o.base.payload)
  | none => .error .nameError

/-- `s.encode(detached)` (`signer.py:72-73`). -/
def Heap.sigEncode (C : Crypto) (rnd : Bytes) (h : Heap) (s : Nat) (detached : Option Bytes) : Res Val :=
  match h.sig s with
  | some o => do
    let e ← o.base.phdrEncoded
    let sg ← h.compute C rnd s detached
    .ok (.arr [.bytes e, .map o.base.uhdr, .bytes sg])
  | none => .error .nameError

/-- `[s.encode(detached_payload) for s in self.signers]` (`signmessage.py:79-80`). -/
def Heap.sigsEncode (C : Crypto) (rnd : Nat → Bytes) (h : Heap) (detached : Option Bytes) : Nat → List Nat → Res (List Val)
  | _, [] => .ok []
  | i, s :: t => do
    let v ← h.sigEncode C (rnd i) s detached
    let vs ← Heap.sigsEncode C rnd h detached (i + 1) t
    .ok (v :: vs)

/-- `msg.encode(tag, detached_payload)` (`signmessage.py:74-87`). -/
def Heap.encode (C : Crypto) (rnd : Nat → Bytes) (h : Heap) (m : Nat) (tag : Bool) (detached : Option Bytes) : Res Bytes :=
  match h.msg m with
  | none => .error .nameError
  | some o => do
    let pe ← o.base.phdrEncoded
    let head := [.bytes pe, .map o.base.uhdr, optBytes o.base.payload]
    let ss := (h.lst o.signers).getD []
    let message ←
      if ss.length ≠ 0 then do
        let vs ← h.sigsEncode C rnd detached 0 ss
        .ok (head ++ [.arr vs])
      else .ok head
    o.base.finish 98 tag message

end Cose
