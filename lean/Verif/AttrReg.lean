import Verif.RegLemmas
import Verif.Multi
/-!
# Registering attributes, and attribute objects

The registries of `Registry.lean` are the contents of the dictionaries after the package has been imported. Here the dictionaries
themselves are state: importing the package and every later use of the decorators are steps that change them
(`/repo/pycose/utils.py:19-27`, `cosemessage.py:23-33`, `cosekey.py:41-58`, `recipient.py:48-60`).
-/

set_option autoImplicit false

namespace Cose

/-- The `identifier` of an attribute class (`utils.py:45-48`): a label of a COSE map is an integer or a text. -/
inductive Ident where
  | int (i : Int)
  | text (s : Bytes)
deriving DecidableEq, Repr

/-- The class object: one of the package, or one that a user declares (numbered). -/
inductive ClsId where
  | builtin (c : Cls)
  | own (n : Nat)
deriving DecidableEq, Repr

/-- An attribute class: the object, and its class attributes `identifier` and `fullname` (`utils.py:45-53`). -/
structure AttrCls where
  obj : ClsId
  ident : Ident
  name : Bytes
deriving DecidableEq, Repr

/-- `d.get(k)` for a dictionary with these keys. -/
def aget {κ α : Type} [DecidableEq κ] : List (κ × α) → κ → Option α
  | [], _ => none
  | (k, v) :: t, q => if k = q then some v else aget t q

/-- `d[k] = v`. -/
def aset {κ α : Type} [DecidableEq κ] : List (κ × α) → κ → α → List (κ × α)
  | [], q, w => [(q, w)]
  | (k, v) :: t, q, w => if k = q then (k, w) :: t else (k, v) :: aset t q w

/-- `d.update(e)`. -/
def aupdate {κ α : Type} [DecidableEq κ] (d : List (κ × α)) : List (κ × α) → List (κ × α)
  | [] => d
  | (k, v) :: t => aupdate (aset d k v) t

/-- The dictionaries `get_registered_classes()` returns, one for each registry. -/
abbrev Attrs := Reg → List (Ident × AttrCls)

def Attrs.put (s : Attrs) (r : Reg) (d : List (Ident × AttrCls)) : Attrs := fun q => if q = r then d else s q

/-- What changes the registries: the decorator `@r.register_attribute()` applied to a class (`utils.py:19-27`), and the
`update` in the body of a key parameter class (`keyparam.py:59-60,96-97,127-128,212-213`). -/
inductive RegStep where
  | register (r : Reg) (c : AttrCls)
  | copy (src dst : Reg)
deriving Repr

/-- `utils.py:22-23`; `keyparam.py:60`. -/
def Attrs.step (s : Attrs) : RegStep → Attrs
  | .register r c => s.put r (aset (aset (s r) c.ident c) (.text (upper c.name)) c)
  | .copy a b => s.put b (aupdate (s b) (s a))

def Attrs.run (s : Attrs) (l : List RegStep) : Attrs := l.foldl Attrs.step s

/-- A class of the package, from the tables of `Registry.lean`. -/
def builtinCls (p : Cls × Bytes) : AttrCls := ⟨.builtin p.1, .int p.1.ident, p.2⟩

def declare (r : Reg) : List RegStep := (clsRows r).map fun p => .register r (builtinCls p)

/-- The registrations that importing the package makes. The order of the modules does not matter, because each registry is filled in one
module; in `keyparam.py` the order is that of the file. -/
def importSteps : List RegStep :=
  declare .hdr ++ declare .alg ++ declare .kp
  ++ (.copy .kp .kpEc2 :: declare .kpEc2) ++ (.copy .kp .kpOkp :: declare .kpOkp)
  ++ (.copy .kp .kpRsa :: declare .kpRsa) ++ (.copy .kp .kpSym :: declare .kpSym)
  ++ declare .op ++ declare .kty ++ declare .crv

def Attrs.imported : Attrs := Attrs.run (fun _ => []) importSteps

/-- An argument of `from_id`. `inst` is an instance of an attribute class; `val` is any other value that is not a list. -/
inductive Attribute where
  | val (v : Val)
  | cls (c : AttrCls)
  | inst (c : AttrCls)
  | list (l : List Attribute)
deriving Repr

/-- The dictionary entry that the tests of `utils.py:30-38` find for an argument that is not a list. -/
def Attrs.find (s : Attrs) (r : Reg) : Attribute → Option AttrCls
  | .val (.int i) => aget (s r) (.int i)
  | .val (.bool b) => aget (s r) (.int (if b then 1 else 0))
  | .val (.text t) => aget (s r) (.text (upper t))
  | .cls c => aget (s r) c.ident
  | .inst c => aget (s r) c.ident
  | _ => none

mutual
/-- `from_id` (`utils.py:28-43`). The elements of a list are looked up with `allow_unknown_attributes=False`. -/
def Attrs.fromId (s : Attrs) (r : Reg) (allow : Bool) : Attribute → Res Attribute
  | .list l => do
    let l' ← Attrs.fromIdL s r l
    .ok (.list l')
  | .val v =>
    match s.find r (.val v) with
    | some c => .ok (.cls c)
    | none => if allow then .ok (.val v) else .error .coseException
  | .cls c =>
    match s.find r (.cls c) with
    | some c => .ok (.cls c)
    | none => if allow then .ok (.cls c) else .error .coseException
  | .inst c =>
    match s.find r (.inst c) with
    | some c => .ok (.cls c)
    | none => if allow then .ok (.inst c) else .error .coseException
termination_by structural x => x
/-- `utils.py:35`. -/
def Attrs.fromIdL (s : Attrs) (r : Reg) : List Attribute → Res (List Attribute)
  | [] => .ok []
  | a :: t => do
    let a' ← Attrs.fromId s r false a
    let t' ← Attrs.fromIdL s r t
    .ok (a' :: t')
termination_by structural x => x
end

/-! ### Attribute objects -/

/-- The comparison operators (`utils.py:55-71`). -/
inductive CmpOp where
  | eq | ne | lt | le | gt | ge
deriving DecidableEq, Repr

/-- Python's order of texts is by code points, which for UTF-8 is the order of the bytes. -/
def textLt : Bytes → Bytes → Bool
  | _, [] => false
  | [], _ :: _ => true
  | a :: s, b :: t => a < b || (a == b && textLt s t)

/-- Comparison of two identifiers; an integer and a text have no order. -/
def identCmp (op : CmpOp) (a b : Ident) : Res Bool :=
  match op with
  | .eq => .ok (a == b)
  | .ne => .ok (a != b)
  | op =>
    match a, b with
    | .int i, .int j => .ok (match op with
      | .lt => i < j
      | .le => i ≤ j
      | .gt => j < i
      | _ => j ≤ i)
    | .text s, .text t => .ok (match op with
      | .lt => textLt s t
      | .le => textLt s t || s == t
      | .gt => textLt t s
      | _ => textLt t s || t == s)
    | _, _ => .error .typeError

/-- `a op other` for an attribute object `a`: `other.identifier` is read, which other values do not have
(`utils.py:55-71`). -/
def attrCmp (op : CmpOp) (a : AttrCls) : Attribute → Res Bool
  | .cls c => identCmp op a.ident c.ident
  | .inst c => identCmp op a.ident c.ident
  | _ => .error .attributeError

/-! ### The other decorators -/

/-- A class given to a decorator: whether it passes the `issubclass` test, and what it is. -/
structure Given (α : Type) where
  subclass : Bool
  what : α

/-- `@CoseMessage.record_cbor_tag(tag)` (`cosemessage.py:23-33`). -/
def recordTag {α : Type} (d : List (Int × α)) (tag : Int) (c : Given α) : Res (List (Int × α)) :=
  if c.subclass then .ok (aset d tag c.what) else .error .valueError

/-- The class `decode` dispatches to: one of the package or one of a user. -/
inductive MsgCls where
  | builtin (k : MsgKind)
  | own (n : Nat)
deriving DecidableEq, Repr

/-- `enc0message.py:21`, `mac0message.py:19`, `sign1message.py:18`, `encmessage.py:20`, `macmessage.py:28`, `signmessage.py:95`, in the order of
the imports in `messages/__init__.py:1-6`. -/
def importTags : List (Int × MsgCls) :=
  [(16, .builtin .enc0), (96, .builtin .enc), (17, .builtin .mac0), (97, .builtin .mac), (18, .builtin .sign1), (98, .builtin .sign)]

/-- The keys of `_RCPT_CLASSES` are class objects. `@CoseRecipient.record_rc(algs)` (`recipient.py:48-60`): what is not an algorithm class is
skipped. -/
def recordRc {α : Type} (d : List (ClsId × α)) (algs : List (ClsId × Bool)) (c : Given α) : Res (List (ClsId × α)) :=
  if c.subclass then .ok (algs.foldl (fun d a => if a.2 then aset d a.1 c.what else d) d) else .error .valueError

inductive RcptCls where
  | builtin (c : RCls)
  | own (n : Nat)
deriving DecidableEq, Repr

/-- The decorators of `recipient.py:188,247-248,373,467`. -/
def importRcpts : List (ClsId × RcptCls) :=
  let dec (d : List (ClsId × RcptCls)) (algs : List Int) (c : RCls) : List (ClsId × RcptCls) :=
    match recordRc d (algs.map fun a => (.builtin ⟨.alg, a⟩, true)) ⟨true, .builtin c⟩ with
    | .ok d => d
    | .error _ => d
  dec (dec (dec (dec [] [-6, -10, -13] .directEncryption) [-3, -4, -5, -42, -41, -40] .keyWrap) [-25, -26, -27, -28] .directKeyAgreement)
    [-29, -30, -31, -32, -33, -34] .keyAgreementWithKeyWrap

/-- The keys of `_key_types` (`cosekey.py:53-55`): identifier, name and class of a key type. -/
inductive KtyKey where
  | ident (i : Ident)
  | cls (c : ClsId)
deriving DecidableEq, Repr

/-- `@CoseKey.record_kty(kty)` (`cosekey.py:41-58`). The name is used as it is, not in upper case. -/
def recordKty {α : Type} (d : List (KtyKey × α)) (kty : AttrCls) (c : Given α) : Res (List (KtyKey × α)) :=
  if c.subclass then .ok (aset (aset (aset d (.ident kty.ident) c.what) (.ident (.text kty.name)) c.what) (.cls kty.obj) c.what)
  else .error .valueError

inductive KeyCls where
  | builtin (k : Kind)
  | own (n : Nat)
deriving DecidableEq, Repr

/-- `okp.py:20`, `ec2.py:18`, `rsa.py:21`, `symmetric.py:15`. -/
def importKtys : List (KtyKey × KeyCls) :=
  let dec (d : List (KtyKey × KeyCls)) (t : Int) (n : Bytes) (k : Kind) : List (KtyKey × KeyCls) :=
    match recordKty d ⟨.builtin ⟨.kty, t⟩, .int t, n⟩ ⟨true, .builtin k⟩ with
    | .ok d => d
    | .error _ => d
  dec (dec (dec (dec [] 2 b!"EC2" .ec2) 1 b!"OKP" .okp) 4 b!"SYMMETRIC" .sym) 3 b!"RSA" .rsa

end Cose
