import Verif.KeyObj
import Verif.CtxHeap
/-!
# COSE keys as objects

`Key.lean` and `KeyObj.lean` model a COSE key as a value.  In Python the key refers to the dictionary `store`, whose values may be lists: the list of key
operations, and any list given for a parameter the package does not parse.  Here lists, dictionaries and keys have addresses, so that one can say which of them
are shared by the program, by the dictionaries it passes to the constructors, and by several keys.

Simplifications: the elements of lists, and all values other than lists, are values without identity; the attributes of multi-prime RSA keys (`other`, …) are
values; `key.store = …` (replacing the dictionary object of a key) is not modelled.  What the constructors check and compute is taken from `Key.lean`.
-/
set_option autoImplicit false
namespace Cose

/-- A value in a dictionary: a value without identity, or a list object. -/
inductive Slot
  | imm (v : Val)
  | ref (a : Nat)

/-- A dictionary whose values may be list objects. -/
abbrev SDict := List (Val × Slot)

/-- `d[k]` (`dget`, with list objects). -/
def sget : SDict → Val → Option Slot
  | [], _ => none
  | (k, v) :: t, q => if keq k q then some v else sget t q

/-- `d[k] = v` (`dset`, with list objects). -/
def sset : SDict → Val → Slot → SDict
  | [], q, w => [(q, w)]
  | (k, v) :: t, q, w => if keq k q then (k, w) :: t else (k, v) :: sset t q w

/-- `d.pop(k, None)` (`ddel`, with list objects). -/
def sdel : SDict → Val → SDict
  | [], _ => []
  | (k, v) :: t, q => if keq k q then t else (k, v) :: sdel t q

/-- A key object (`cosekey.py:181-187`): its class, the address of `store`, and the further instance attributes (`rsa.py:192-205`). -/
structure KeyCell where
  kind : Kind
  store : Nat
  extra : Dict

/-- An object. -/
inductive KCell
  | list (l : List Val)
  | dict (e : SDict)
  | key (o : KeyCell)

/-- The objects of a program, by address, and the first unused address. -/
structure KeyMem where
  cell : Nat → Option KCell
  next : Nat

namespace KeyMem

/-- No objects yet. -/
def start : KeyMem := { cell := fun _ => none, next := 0 }

/-- A new object; its address is `h.next`. -/
def alloc (h : KeyMem) (c : KCell) : KeyMem := { cell := kput h.cell h.next c, next := h.next + 1 }

/-- Changing an object in place. -/
def put (h : KeyMem) (a : Nat) (c : KCell) : KeyMem := { h with cell := kput h.cell a c }

/-- The current value of an entry. -/
def val (h : KeyMem) : Slot → Val
  | .imm v => v
  | .ref a =>
    match h.cell a with
    | some (.list l) => .arr l
    | _ => .none

/-- The current value of a dictionary. -/
def dictVal (h : KeyMem) (e : SDict) : Dict := e.map fun p => (p.1, h.val p.2)

/-- The entries of a dictionary, or of the store of a key: what `dict.update` reads (`symmetric.py:31`). -/
def entries (h : KeyMem) (a : Nat) : Option SDict :=
  match h.cell a with
  | some (.dict e) => some e
  | some (.key o) =>
    match h.cell o.store with
    | some (.dict e) => some e
    | _ => none
  | _ => none

/-- The current value of a key object. -/
def view (h : KeyMem) (k : Nat) : Option Key :=
  match h.cell k with
  | some (.key o) =>
    match h.cell o.store with
    | some (.dict e) => some { kind := o.kind, store := h.dictVal e, extra := o.extra }
    | _ => none
  | _ => none

/-- A value made by the package: a list is a new object. -/
def newVal (h : KeyMem) : Val → KeyMem × Slot
  | .arr l => (h.alloc (.list l), .ref h.next)
  | v => (h, .imm v)

end KeyMem

/-- The parameters whose values are translated by `from_id`, which makes a new list from a list (`utils.py:32-34`; the parsers are assigned in
`keyparam.py:226-230` and `algorithms.py:1423`).  All other parsers return the object they get (`utils.py:9-12`). -/
def translates (c : Cls) : Bool :=
  match c.reg with
  | .hdr => c.ident == 1
  | .kp => c.ident == 1 || c.ident == 3 || c.ident == 4
  | .kpEc2 => c.ident == -1
  | .kpOkp => c.ident == -1
  | _ => false

namespace KeyMem

/-- The loop of the constructors over `optional_params`, on objects (`symmetric.py:51-60`, `ec2.py:123-132`, `okp.py:133-142`, `rsa.py:163-172`; compare
`parseAttrs`): translated values are new objects, others the same objects. -/
def parseSlots (r : Reg) (allow : Bool) : KeyMem → SDict → SDict → Res (KeyMem × SDict)
  | h, acc, [] => .ok (h, acc)
  | h, acc, (k, s) :: t =>
    match fromIdKey r k allow with
    | .error e => .error e
    | .ok (.cls c) =>
      match simpleParser c (h.val s) with
      | .error e => .error e
      | .ok v =>
        if translates c then parseSlots r allow (h.newVal v).1 (sset acc (.cls c) (h.newVal v).2) t
        else parseSlots r allow h (sset acc (.cls c) s) t
    | .ok a => parseSlots r allow h (sset acc a s) t

/-- The entries of a store that has the values of `d`: the objects of `t` where it has the value already, new values elsewhere.  The constructors and setters
assign single entries and leave the others alone. -/
def place (t : SDict) : KeyMem → Dict → KeyMem × SDict
  | h, [] => (h, [])
  | h, (l, v) :: d =>
    match sget t l with
    | some s =>
      if h.val s = v then ((place t h d).1, (l, s) :: (place t h d).2)
      else ((place t (h.newVal v).1 d).1, (l, (h.newVal v).2) :: (place t (h.newVal v).1 d).2)
    | none => ((place t (h.newVal v).1 d).1, (l, (h.newVal v).2) :: (place t (h.newVal v).1 d).2)

/-- The second part of the constructors: `CoseKey.__init__` deletes an empty list of operations from the dictionary it is given – `transformed_dict` – and
copies the rest into the store of the object (`cosekey.py:181-187`); then the parameters of the key type are assigned.  `t` are the entries of
`transformed_dict`, and `key` is the value of the key. -/
def finish (h : KeyMem) (key : Key) (t : SDict) : KeyMem :=
  let transformed := h.next
  let h1 := h.alloc (.dict t)
  let t' := if dget (h1.dictVal t) (.cls KpKeyOps) = some (.arr []) then sdel t (.cls KpKeyOps) else t
  let h2 := h1.put transformed (.dict t')
  let p := place t' h2 key.store
  let store := p.1.next
  let h3 := p.1.alloc (.dict p.2)
  h3.alloc (.key { kind := key.kind, store := store, extra := key.extra })

/-- The loop and what follows, for a key with the value `key` and the optional parameters `e`. -/
def build (h : KeyMem) (key : Key) (e : SDict) (allow : Bool) : KeyMem × Res (Option Nat) :=
  match parseSlots (kindReg key.kind) allow h [(.cls KpKty, .imm (.cls (kindKty key.kind)))] e with
  | .error x => (h, .error x)
  | .ok (h1, t) => (h1.finish key t, .ok (some ((h1.finish key t).next - 1)))

end KeyMem

/-- A call of one of the constructors, without `optional_params` (`symmetric.py:45`, `ec2.py:102-107`, `okp.py:112-116`, `rsa.py:122-136`). -/
inductive Maker
  | sym (k : Val)
  | ec2 (crv x y d : Val)
  | okp (crv x d : Val)
  | rsa (a : RsaArgs)

/-- The value of the key the constructor makes (`symInit`, `ec2Init`, `okpInit`, `rsaInit`). -/
def Maker.run (C : Crypto) (m : Maker) (opt : Dict) (allow : Bool) : Res Key :=
  match m with
  | .sym k => symInit k opt allow
  | .ec2 crv x y d => ec2Init C crv x y d opt allow
  | .okp crv x d => okpInit crv x d opt allow
  | .rsa a => rsaInit a opt allow

/-- The parameters `from_dict` removes from its copy of the dictionary (`symmetric.py:32`, `ec2.py:38-41`, `okp.py:40-42`, `rsa.py:48-60`). -/
def dropped : Kind → List Cls
  | .sym => [SymK]
  | .ec2 => [Ec2X, Ec2Y, Ec2D, Ec2Crv]
  | .okp => [OkpX, OkpD, OkpCrv]
  | .rsa => [RsaE, RsaN, RsaD, RsaP, RsaQ, RsaDP, RsaDQ, RsaQInv, RsaOther, RsaQInv, RsaRi, RsaDi, RsaTi]

/-- `CoseKey._remove_from_dict` (`cosekey.py:73-77`) on the entries of a dictionary. -/
def sremove (e : SDict) (c : Cls) : SDict :=
  sdel (sdel (sdel e (.cls c)) (.int c.ident)) (.text (fullname c))

/-- The entry an assignment replaces by a value that may be a list (`cosekey.py:211-212`, `cosekey.py:242-244`); the other setters store byte strings and
curves. -/
def KeyWrite.replaced (k : Kind) : KeyWrite → Option Val
  | .setItem l _ =>
    match fromIdKey (kindReg k) l true with
    | .ok a => some a
    | .error _ => none
  | .setAlg _ => some (.cls KpAlg)
  | _ => none

/-- What a program does with lists, dictionaries and keys; the numbers are addresses. -/
inductive KeyOp
  /-- a list of the program -/
  | newList (l : List Val)
  /-- a dictionary of the program -/
  | newDict (e : SDict)
  /-- any change of a list: `l.append(x)`, `l.clear()`, … -/
  | writeList (a : Nat) (l : List Val)
  /-- any change of a dictionary, also of `key.store` -/
  | writeDict (a : Nat) (e : SDict)
  /-- a constructor, with a dictionary of optional parameters -/
  | construct (m : Maker) (opt : Nat) (allow : Bool)
  /-- `CoseKey.from_dict(x)` for a dictionary or a key -/
  | fromDict (a : Nat)
  /-- `key.key_ops`: the result is a list object -/
  | getOps (k : Nat)
  /-- `key.key_ops = v` -/
  | setOps (k : Nat) (s : Slot)
  /-- `key[label] = v` -/
  | setItem (k : Nat) (label : Val) (s : Slot)
  /-- the other writes, with values that are not held elsewhere -/
  | write (k : Nat) (w : KeyWrite)

namespace KeyMem

/-- The object exists and is a list; a value without identity is not a list. -/
def slotOk (h : KeyMem) : Slot → Bool
  | .imm v => match v with | .arr _ => false | _ => true
  | .ref a => match h.cell a with | some (.list _) => true | _ => false

/-- The loop of the `key_ops` setters (`symmetric.py:101-108`, `ec2.py:250-257`, `okp.py:215-222`, `rsa.py:293-300`), on objects: each round puts a new list
into the store (`cosekey.py:264-269`).  Compare `keyOpsLoop`. -/
def opsLoop (o : KeyCell) (v : Val) : KeyMem → List Val → KeyMem × Res (Option Nat)
  | h, [] => (h, .ok none)
  | h, x :: t =>
    match supportedBy o.kind x with
    | .error e => (h, .error e)
    | .ok false => (h, .error .illegalKeyOps)
    | .ok true =>
      match v with
      | .arr l =>
        match fromIdL .op l with
        | .error e => (h, .error e)
        | .ok l' =>
          match h.cell o.store with
          | some (.dict e) => opsLoop o v ((h.alloc (.list l')).put o.store (.dict (sset e (.cls KpKeyOps) (.ref h.next)))) t
          | _ => (h, .ok none)
      | _ => (h, .error .valueError)

/-- `key.key_ops = v` on objects; compare `Key.setKeyOps`. -/
def setOps (h : KeyMem) (o : KeyCell) (v : Val) : KeyMem × Res (Option Nat) :=
  match v with
  | .arr l => h.opsLoop o v l
  | .map l => h.opsLoop o v (l.map (·.1))
  | .bytes b => h.opsLoop o v (b.map fun x => .int x.toNat)
  | .text [] => (h, .ok none)
  | .text (_ :: _) => (h, .error .illegalKeyOps)
  | .key _ _ => (h, .error .unsupported)
  | _ => (h, .error .typeError)

/-- One operation: the objects after it, and its result: the address of the object it returns, if any, or the exception.  Operations on objects that do not
exist cannot be written in Python; here they change nothing. -/
def step (C : Crypto) (h : KeyMem) : KeyOp → KeyMem × Res (Option Nat)
  | .newList l => (h.alloc (.list l), .ok (some h.next))
  | .newDict e => if e.all (fun p => h.slotOk p.2) then (h.alloc (.dict e), .ok (some h.next)) else (h, .ok none)
  | .writeList a l =>
    match h.cell a with
    | some (.list _) => (h.put a (.list l), .ok none)
    | _ => (h, .ok none)
  | .writeDict a e =>
    match h.cell a with
    | some (.dict _) => if e.all (fun p => h.slotOk p.2) then (h.put a (.dict e), .ok none) else (h, .ok none)
    | _ => (h, .ok none)
  | .construct m opt allow =>
    match h.cell opt with
    | some (.dict e) =>
      match m.run C (h.dictVal e) allow with
      | .error x => (h, .error x)
      | .ok key => h.build key e allow
    | _ => (h, .ok none)
  | .fromDict a =>
    match h.entries a with
    | none => (h, .ok none)
    | some e =>
      match Cose.fromDict C (h.dictVal e) with
      | .error x => (h, .error x)
      | .ok key =>
        -- `_optional_params = {}; _optional_params.update(cose_key)`, then the removals from this copy (`symmetric.py:27-32`)
        let copy := h.next
        let h1 := h.alloc (.dict e)
        let e' := (dropped key.kind).foldl sremove e
        let h2 := h1.put copy (.dict e')
        h2.build key e' true
  | .getOps k =>
    match h.cell k with
    | some (.key o) =>
      match h.cell o.store with
      | some (.dict e) =>
        match sget e (.cls KpKeyOps) with
        | some (.ref a) => (h, .ok (some a))
        | some (.imm _) => (h, .ok none)
        | none => (h.alloc (.list []), .ok (some h.next))
      | _ => (h, .ok none)
    | _ => (h, .ok none)
  | .setOps k s =>
    match h.cell k with
    | some (.key o) => if h.slotOk s then h.setOps o (h.val s) else (h, .ok none)
    | _ => (h, .ok none)
  | .setItem k label s =>
    match h.cell k with
    | some (.key o) =>
      match h.cell o.store with
      | some (.dict e) =>
        if h.slotOk s then
          match fromIdKey (kindReg o.kind) label true with
          | .error x => (h, .error x)
          | .ok a => (h.put o.store (.dict (sset e a s)), .ok none)
        else (h, .ok none)
      | _ => (h, .ok none)
    | _ => (h, .ok none)
  | .write k w =>
    match h.cell k, h.view k with
    | some (.key o), some key =>
      match h.cell o.store with
      | some (.dict e) =>
        let r := key.write w
        let kept := match r.2, w.replaced o.kind with
          | none, some a => sdel e a
          | _, _ => e
        let p := place kept h r.1.store
        (p.1.put o.store (.dict p.2), match r.2 with | none => .ok none | some x => .error x)
      | _ => (h, .ok none)
    | _, _ => (h, .ok none)

/-- A program: it goes on after exceptions. -/
def run (C : Crypto) : List KeyOp → KeyMem → KeyMem
  | [], h => h
  | op :: t, h => run C t (h.step C op).1

end KeyMem

end Cose
