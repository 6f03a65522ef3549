import Verif.Header
/-!
# KDF contexts

Model of `/repo/pycose/messages/context.py`.
-/
set_option autoImplicit false

namespace Cose

/-- `PartyInfo` (`context.py:12-21`). -/
structure PartyInfo where
  identity : Val := .none
  nonce : Val := .none
  other : Val := .none

/-- `PartyInfo.encode` (`context.py:18-21`). -/
def PartyInfo.encode (p : PartyInfo) : Val := .arr [p.identity, p.nonce, p.other]

/-- `SuppPubInfo` (`context.py:24-28`); the key length is in bytes.  (`__attrs_post__init__` is never
called by `attrs`, so there is no validation.) -/
structure SuppPubInfo where
  keyDataLength : Nat
  isProtected : Dict := []
  other : Val := .bytes []

/-- `SuppPubInfo(key_data_length, protected, other)` (`context.py:24-28,45-47`): the generated constructor stores its arguments. -/
def SuppPubInfo.init (keyDataLength : Nat) (isProtected : Dict) (other : Val) : Res SuppPubInfo := .ok ⟨keyDataLength, isProtected, other⟩

/-- `SuppPubInfo.encode` (`context.py:50-57`). -/
def SuppPubInfo.encode (s : SuppPubInfo) : Res Val := do
  let p ← dumps fullname .ident (.map s.isProtected)
  .ok (.arr ([.int (s.keyDataLength * 8), .bytes p] ++ (if s.other ≠ .bytes [] then [s.other] else [])))

/-- `key_data_length` setter (`context.py:36-43`). -/
def SuppPubInfo.setKeyDataLength (s : SuppPubInfo) (n : Nat) : Res SuppPubInfo :=
  if n = 16 ∨ n = 24 ∨ n = 32 then .ok { s with keyDataLength := n } else .error .valueError

/-- `CoseKDFContext` (`context.py:63-69`); `algorithm` is an algorithm class. -/
structure KdfContext where
  algorithm : Val
  suppPub : SuppPubInfo
  partyU : PartyInfo := {}
  partyV : PartyInfo := {}
  suppPriv : Val := .bytes []

/-- `CoseKDFContext.encode` (`context.py:71-80`). -/
def KdfContext.encode (c : KdfContext) : Res Bytes := do
  let a ← identOf c.algorithm
  let sp ← c.suppPub.encode
  dumpsPlain (.arr ([.int a, c.partyU.encode, c.partyV.encode, sp] ++
    (if c.suppPriv ≠ .bytes [] then [c.suppPriv] else [])))

/-- `CoseRecipient.get_kdf_context` (`recipient.py:150-171`). -/
def kdfContext (b : Base) (algorithm : Val) : Res KdfContext := do
  let uid ← b.getAttr Hdr.PartyUID
  let un ← b.getAttr Hdr.PartyUNonce
  let uo ← b.getAttr Hdr.PartyUOther
  let vid ← b.getAttr Hdr.PartyVID
  let vn ← b.getAttr Hdr.PartyVNonce
  let vo ← b.getAttr Hdr.PartyVOther
  let n ← algKeyLength algorithm
  let sp ← SuppPubInfo.init n b.phdr (getD b.localAttrs Hdr.SuppPubOther (.bytes []))
  .ok { algorithm := algorithm
        suppPub := sp
        partyU := ⟨uid, un, uo⟩
        partyV := ⟨vid, vn, vo⟩
        suppPriv := getD b.localAttrs Hdr.SuppPrivOther (.bytes []) }

end Cose
