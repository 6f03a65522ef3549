import Verif.Alg
/-!
# Header buckets and the common part of messages

Model of `/repo/pycose/messages/cosebase.py` and `cosemessage.py`.
-/

set_option autoImplicit false

namespace Cose

/-- `value_parser` of a header class (`headers.py:193-200`, `algorithms.py:1423`,
`cosekey.py:321-322`). -/
def hdrParser (C : Crypto) (c : Cls) (v : Val) : Res Val :=
  if c.reg = .hdr ∧ (c.ident = -1 ∨ c.ident = -2) then do
    let k ← fromDictVal C v
    .ok k.toVal
  else simpleParser c v

/-- `CoseBase._parse_header` (`cosebase.py:162-173`). -/
def parseHeader (C : Crypto) (allow : Bool) (hdr : Dict) : Res Dict :=
  parseAttrs .hdr allow (hdrParser C) [] hdr

/-- The state of a message object shared by all message classes: `_phdr_encoded`, `_phdr`, `_uhdr`,
`_payload`, `_external_aad`, `_key`, `alg_tstr_encoding`, `_local_attrs`
(`cosebase.py:27-59`, `cosemessage.py:84-97`). -/
structure Base where
  phdrEnc : Option Bytes := none
  phdr : Dict := []
  uhdr : Dict := []
  payload : Option Bytes := none
  aad : Bytes := []
  key : Option Key := none
  tstr : Bool := false
  localAttrs : Dict := []
deriving DecidableEq, Repr

/-- The constructor arguments that the headers are taken from; `none` is Python's `None`. -/
structure HdrArgs where
  phdr : Val := .none
  uhdr : Val := .none
  phdrEncoded : Val := .none
  tstr : Bool := false
  allow : Bool := true

/-- `type(v) is dict`, else `TypeError`. -/
def asDict : Val → Res Dict
  | .map d => .ok d
  | _ => .error .typeError

/-- `CoseBase.__init__` without the payload (`cosebase.py:27-54`). -/
def initBase (C : Crypto) (a : HdrArgs) : Res Base :=
  if a.phdr ≠ .none ∧ a.phdrEncoded ≠ .none then .error .valueError
  else do
    let phdr ←
      if a.phdrEncoded ≠ .none then
        if a.phdrEncoded = .bytes [] then .ok (.map []) else loadsVal a.phdrEncoded
      else if a.phdr = .none then .ok (.map []) else .ok a.phdr
    let uhdr := if a.uhdr = .none then .map [] else a.uhdr
    let pd ← asDict phdr
    let ud ← asDict uhdr
    let p ← parseHeader C a.allow pd
    let u ← parseHeader C a.allow ud
    let pe ← match a.phdrEncoded with
      | .none => .ok none
      | .bytes b => .ok (some b)
      | _ => .error .typeError     -- unreachable: `loadsVal` has raised
    .ok { phdrEnc := pe, phdr := p, uhdr := u, tstr := a.tstr }

/-- `payload` setter (`cosemessage.py:134-138`, `cosebase.py:57-59`). -/
def Base.setPayload (b : Base) : Val → Res Base
  | .none => .ok { b with payload := none }
  | .bytes p => .ok { b with payload := some p }
  | _ => .error .typeError

/-- `external_aad` setter (`cosemessage.py:108-112`). -/
def Base.setAad (b : Base) : Val → Res Base
  | .bytes p => .ok { b with aad := p }
  | _ => .error .typeError

/-- `CoseMessage.__init__` (`cosemessage.py:84-97`). -/
def initMsg (C : Crypto) (a : HdrArgs) (payload : Val) (aad : Val := .bytes [])
    (key : Option Key := none) : Res Base := do
  let b ← initBase C a
  let b ← b.setPayload payload
  let b ← b.setAad aad
  .ok { b with key := key }

/-- `get_attr` (`cosebase.py:61-81`). -/
def Base.getAttrD (b : Base) (c : Val) (default : Val) : Res Val :=
  let p := (dget b.phdr c).getD default
  let u := (dget b.uhdr c).getD default
  if p ≠ .none ∧ u ≠ .none then .error .coseException
  else if p ≠ .none then .ok p else .ok u

/-- `get_attr(attribute)`, with the default `None`. -/
def Base.getAttr (b : Base) (c : Cls) : Res Val := b.getAttrD (.cls c) .none

/-- `phdr = …` (`cosebase.py:87-92`). -/
def Base.setPhdr (b : Base) (v : Val) : Res Base := do
  let d ← asDict v
  .ok { b with phdr := d, phdrEnc := none }

/-- `uhdr = …` (`cosebase.py:98-102`). -/
def Base.setUhdr (b : Base) (v : Val) : Res Base := do
  let d ← asDict v
  .ok { b with uhdr := d }

/-- `phdr_update` (`cosebase.py:104-108`). -/
def Base.phdrUpdate (b : Base) (v : Val) : Res Base := do
  let d ← asDict v
  .ok { b with phdr := dupdate b.phdr d, phdrEnc := none }

/-- `uhdr_update` (`cosebase.py:110-113`). -/
def Base.uhdrUpdate (b : Base) (v : Val) : Res Base := do
  let d ← asDict v
  .ok { b with uhdr := dupdate b.uhdr d }

/-- Item assignment on the dictionary returned by the `phdr` property (`cosebase.py:83-85`): the
cached encoding is *not* dropped. -/
def Base.phdrSetItem (b : Base) (k v : Val) : Base := { b with phdr := dset b.phdr k v }

/-- Item deletion on the dictionary returned by the `phdr` property. -/
def Base.phdrDelItem (b : Base) (k : Val) : Base := { b with phdr := ddel b.phdr k }

/-- `local_attrs = …` (`cosebase.py:119-122`). -/
def Base.setLocal (b : Base) (d : Dict) : Base := { b with localAttrs := dupdate b.localAttrs d }

/-- The encoder callback of a message (`cosebase.py:151-160`). -/
def Base.mode (b : Base) : Mode := .base b.tstr

/-- `phdr_encoded` (`cosebase.py:124-138`). -/
def Base.phdrEncoded (b : Base) : Res Bytes :=
  match b.phdrEnc with
  | some e => .ok e
  | none =>
    if b.phdr.length ≠ 0 then dumps fullname b.mode (.map b.phdr) else .ok []

/-- `_base_structure` (`cosemessage.py:149-157`): the two elements it appends. -/
def Base.baseStructure (b : Base) : Res (List Val) := do
  let p ← if b.phdr.length = 0 then .ok [] else b.phdrEncoded
  .ok [.bytes p, .bytes b.aad]

/-- A payload as a CBOR item: `bytes` or `None`. -/
def optBytes : Option Bytes → Val
  | some b => .bytes b
  | none => .none

/-- `cbor2.dumps(x)` without callback (`signer.py:69`, `sign1message.py:71`, `maccommon.py:73`,
`enccommon.py:78`). -/
def dumpsPlain (v : Val) : Res Bytes := dumps fullname .plain v

/-- `CoseMessage.encode` and its copies (`cosemessage.py:140-147`, `sign1message.py:83-86`,
`signmessage.py:82-85`). -/
def Base.finish (b : Base) (cborTag : Nat) (tag : Bool) (message : List Val) : Res Bytes :=
  if tag then dumps fullname b.mode (.tag cborTag (.arr message))
  else dumps fullname b.mode (.arr message)

/-! ### Decoding -/

/-- `list.pop(0)`. -/
def pop0 : List Val → Res (Val × List Val)
  | [] => .error .indexError
  | v :: t => .ok (v, t)

/-- `CoseMessage.from_cose_obj` (`cosemessage.py:76-82`, `cosebase.py:20-25`): the message and the rest
of the list.  (The constructor's default payload is overwritten at once.) -/
def baseFromObj (C : Crypto) (obj : List Val) (allow : Bool) : Res (Base × List Val) := do
  let (pe, obj) ← pop0 obj
  let (uh, obj) ← pop0 obj
  let b ← initMsg C { phdrEncoded := pe, uhdr := uh, allow := allow } .none
  let (pl, obj) ← pop0 obj
  let b ← b.setPayload pl
  .ok (b, obj)

end Cose
