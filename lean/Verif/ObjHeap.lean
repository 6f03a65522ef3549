import Verif.MsgObj
/-!
# Header dictionaries, lists and keys as objects

`Header.lean` and `MsgObj.lean` model a message as a value that contains its headers and its key.  In Python the message refers to dictionary
objects, their entries may refer to lists, dictionaries and keys, and a program may hold further references to all of them: to a dictionary it
passed to the constructor, to the dictionary that `msg.phdr` returned, to a list inside a header, to the key.  This file models those references.

Simplifications: labels are immutable; an object that a value parser makes from a header value (an algorithm, the key for an ephemeral or static
key header) is not an object of its own; the same for the values of a header that is decoded from bytes.
-/
set_option autoImplicit false
namespace Cose

/-- What an entry of a dictionary or list holds: an immutable value, or a reference to an object. -/
inductive Elem
  | imm (v : Val)
  | ref (a : Nat)
deriving DecidableEq

/-- A mutable object: a list, a dictionary, or a key with its `store`. -/
inductive Cell
  | list (l : List Elem)
  | dict (d : List (Val × Elem))
  | key (k : Kind) (s : List (Val × Elem))

/-- The references in an object. -/
def Cell.elems : Cell → List Elem
  | .list l => l
  | .dict d => d.map (·.2)
  | .key _ s => s.map (·.2)

/-- A message object: `_phdr`, `_uhdr` and `_local_attrs` are addresses of dictionaries, `_key` of a key (`cosebase.py:48-59`, `cosemessage.py:84-97`). -/
structure MObj where
  phdrEnc : Option Bytes
  phdr : Nat
  uhdr : Nat
  loc : Nat
  payload : Option Bytes
  aad : Bytes
  key : Option Nat
  tstr : Bool

/-- The objects of a program by address, the first unused address, and the messages. -/
structure Mem where
  cell : Nat → Option Cell := fun _ => none
  next : Nat := 0
  msg : Nat → Option MObj := fun _ => none

/-- `f` with another value at `i`. -/
def put {α : Type} (f : Nat → Option α) (i : Nat) (v : α) : Nat → Option α := fun j => if j = i then some v else f j

/-! ### Values -/

/-- The values of the elements of a list. -/
def valuesL (f : Elem → Option Val) : List Elem → Option (List Val)
  | [] => some []
  | e :: t =>
    match f e, valuesL f t with
    | some v, some vs => some (v :: vs)
    | _, _ => none

/-- The values of the entries of a dictionary. -/
def valuesD (f : Elem → Option Val) : List (Val × Elem) → Option Dict
  | [] => some []
  | (k, e) :: t =>
    match f e, valuesD f t with
    | some v, some vs => some ((k, v) :: vs)
    | _, _ => none

/-- The value of an element, if it is at most `n` references deep. -/
def valueAt (c : Nat → Option Cell) : Nat → Elem → Option Val
  | _, .imm v => some v
  | 0, .ref _ => none
  | n + 1, .ref a =>
    match c a with
    | none => none
    | some (.list l) => (valuesL (valueAt c n) l).map .arr
    | some (.dict d) => (valuesD (valueAt c n) d).map .map
    | some (.key k s) => (valuesD (valueAt c n) s).map (.key k)

open Classical in
/-- The value of an element; none if it contains itself. -/
noncomputable def Mem.value (h : Mem) (e : Elem) : Option Val :=
  if hv : ∃ v n, valueAt h.cell n e = some v then some hv.choose else none

/-! ### Dictionaries of references -/

/-- `d[k] = e`. -/
def rset : List (Val × Elem) → Val → Elem → List (Val × Elem)
  | [], q, w => [(q, w)]
  | (k, v) :: t, q, w => if keq k q then (k, w) :: t else (k, v) :: rset t q w

/-- `del d[k]`. -/
def rdel : List (Val × Elem) → Val → List (Val × Elem)
  | [], _ => []
  | (k, v) :: t, q => if keq k q then t else (k, v) :: rdel t q

/-- `d.update(es)`. -/
def rupdate (d : List (Val × Elem)) : List (Val × Elem) → List (Val × Elem)
  | [] => d
  | (k, v) :: t => rupdate (rset d k v) t

/-- The dictionary an element refers to; `type(x) is not dict` raises `TypeError` (`cosebase.py:42-46`, `:89-90`, `:100-101`, `:105-106`, `:111-112`). -/
def Mem.asDict (h : Mem) : Elem → Res (List (Val × Elem))
  | .imm (.map d) => .ok (d.map fun p => (p.1, .imm p.2))
  | .imm _ => .error .typeError
  | .ref a =>
    match h.cell a with
    | some (.dict d) => .ok d
    | _ => .error .typeError

/-- `x.items()`, which dictionaries and keys have (`cosebase.py:121`). -/
def Mem.items (h : Mem) : Elem → Res (List (Val × Elem))
  | .imm (.map d) => .ok (d.map fun p => (p.1, .imm p.2))
  | .imm (.key _ d) => .ok (d.map fun p => (p.1, .imm p.2))
  | .imm _ => .error .attributeError
  | .ref a =>
    match h.cell a with
    | some (.dict d) => .ok d
    | some (.key _ d) => .ok d
    | _ => .error .attributeError

/-! ### Construction -/

/-- The header classes whose value parser makes a new object; the others return their argument (`headers.py:162-200`, `algorithms.py:1423`,
`cosekey.py:321-322`). -/
def converts (c : Cls) : Bool := c.reg = .hdr ∧ (c.ident = 1 ∨ c.ident = -1 ∨ c.ident = -2)

/-- `attr.value_parser(v)` or `v` (`cosebase.py:168-171`).  A value that contains itself is not modelled. -/
noncomputable def Mem.parse (C : Crypto) (h : Mem) (c : Cls) (e : Elem) : Res Elem :=
  match h.value e with
  | none => .error .unsupported
  | some v => do
    let w ← hdrParser C c v
    .ok (if converts c then .imm w else e)

/-- The value under a label: labels that are no attributes have no parser (`cosebase.py:168-171`). -/
noncomputable def Mem.parseEntry (C : Crypto) (h : Mem) : Val → Elem → Res Elem
  | .cls c, e => h.parse C c e
  | _, e => .ok e

/-- `CoseBase._parse_header` (`cosebase.py:162-173`): a new dictionary with the old values. -/
noncomputable def Mem.parseHeader (C : Crypto) (allow : Bool) (h : Mem) : List (Val × Elem) → List (Val × Elem) → Res (List (Val × Elem))
  | acc, [] => .ok acc
  | acc, (k, e) :: t => do
    let a ← fromIdKey .hdr k allow
    let e' ← h.parseEntry C a e
    Mem.parseHeader C allow h (rset acc a e') t

/-- What `msg.key` can be assigned: `None`, a key object, or something else. -/
inductive KeyRef
  | none
  | key (a : Nat)
  | other

/-- The constructor arguments; a missing one is `None` (`b''` for the external data). -/
structure MArgs where
  phdr : Elem := .imm .none
  uhdr : Elem := .imm .none
  phdrEncoded : Val := .none
  payload : Val := .none
  aad : Val := .bytes []
  key : KeyRef := .none
  tstr : Bool := false
  allow : Bool := true

/-- `payload` setter (`cosemessage.py:134-138`). -/
def payloadOf : Val → Res (Option Bytes)
  | .none => .ok none
  | .bytes b => .ok (some b)
  | _ => .error .typeError

/-- `key` setter (`cosemessage.py:118-128`): the reference is kept. -/
def Mem.keyOf (h : Mem) : KeyRef → Res (Option Nat)
  | .none => .ok none
  | .key a =>
    match h.cell a with
    | some (.key _ _) => .ok (some a)
    | _ => .error .invalidKey
  | .other => .error .invalidKey

/-- The dictionary the protected header is parsed from (`cosebase.py:28-43`). -/
def Mem.protectedArg (h : Mem) (a : MArgs) : Res (List (Val × Elem)) :=
  if a.phdr ≠ .imm .none ∧ a.phdrEncoded ≠ .none then .error .valueError
  else if a.phdrEncoded ≠ .none then
    if a.phdrEncoded = .bytes [] then .ok []
    else do
      let v ← loadsVal a.phdrEncoded
      h.asDict (.imm v)
  else if a.phdr = .imm .none then .ok [] else h.asDict a.phdr

/-- The dictionary the unprotected header is parsed from (`cosebase.py:39-40`, `:45-46`). -/
def Mem.unprotectedArg (h : Mem) (a : MArgs) : Res (List (Val × Elem)) := if a.uhdr = .imm .none then .ok [] else h.asDict a.uhdr

/-- `_phdr_encoded` (`cosebase.py:52`); `loadsVal` has raised for other values. -/
def encodedOf : Val → Res (Option Bytes)
  | .none => .ok none
  | .bytes b => .ok (some b)
  | _ => .error .typeError

/-- `CoseMessage.__init__` (`cosemessage.py:84-97`, `cosebase.py:27-59`): three new dictionaries, and a message that refers to them. -/
noncomputable def Mem.construct (C : Crypto) (h : Mem) (m : Nat) (a : MArgs) : Res Mem := do
  let pd ← h.protectedArg a
  let ud ← h.unprotectedArg a
  let p ← h.parseHeader C a.allow [] pd
  let u ← h.parseHeader C a.allow [] ud
  let pe ← encodedOf a.phdrEncoded
  let payload ← payloadOf a.payload
  let aad ← asBytes .typeError a.aad
  let key ← h.keyOf a.key
  .ok { cell := put (put (put h.cell h.next (.dict p)) (h.next + 1) (.dict u)) (h.next + 2) (.dict []),
        next := h.next + 3,
        msg := put h.msg m { phdrEnc := pe, phdr := h.next, uhdr := h.next + 1, loc := h.next + 2, payload := payload, aad := aad, key := key, tstr := a.tstr } }

/-! ### `deepcopy` -/

/-- The element with all addresses moved by `n`. -/
def Elem.move (n : Nat) : Elem → Elem
  | .imm v => .imm v
  | .ref a => .ref (a + n)

/-- The object with all addresses moved by `n`. -/
def Cell.move (n : Nat) : Cell → Cell
  | .list l => .list (l.map (Elem.move n))
  | .dict d => .dict (d.map fun p => (p.1, p.2.move n))
  | .key k s => .key k (s.map fun p => (p.1, p.2.move n))

/-- The object at `b` can be reached from the element. -/
inductive Mem.Reaches (h : Mem) : Elem → Nat → Prop
  | self {a : Nat} : Mem.Reaches h (.ref a) a
  | step {a b : Nat} {c : Cell} {e : Elem} : h.cell a = some c → e ∈ c.elems → Mem.Reaches h e b → Mem.Reaches h (.ref a) b

open Classical in
/-- `deepcopy` of the object at `root` (`cosebase.py:91`, `:102`): copies, at new addresses, of all objects that can be reached from it, with references
among the copies as among the originals.  Classes and immutable values are not copied. -/
noncomputable def Mem.copy (h : Mem) (root : Nat) : Mem :=
  { h with
    cell := fun a => if a < h.next then h.cell a else if h.Reaches (.ref root) (a - h.next) then (h.cell (a - h.next)).map (Cell.move h.next) else none,
    next := h.next + h.next }

/-- `deepcopy(new_hdr)` of a dictionary: the state with the copy, and its address. -/
noncomputable def Mem.copyDict (h : Mem) : Elem → Res (Mem × Nat)
  | .imm (.map d) => .ok ({ h with cell := put h.cell h.next (.dict (d.map fun p => (p.1, .imm p.2))), next := h.next + 1 }, h.next)
  | .imm _ => .error .typeError
  | .ref a =>
    match h.cell a with
    | some (.dict _) => .ok (h.copy a, a + h.next)
    | _ => .error .typeError

/-! ### Programs -/

/-- What a program does with these objects. -/
inductive MemOp
  /-- a new list, dictionary or key of the program -/
  | new (c : Cell)
  /-- any change of a list, dictionary or key in place, e.g. `d[k] = v`, `msg.phdr[k] = v`, `del msg.uhdr[k]`, `msg.phdr[Critical].append(4)`, `key.kid = b'1'` -/
  | write (a : Nat) (c : Cell)
  /-- a message is constructed -/
  | construct (m : Nat) (a : MArgs)
  | setPhdr (m : Nat) (e : Elem)
  | setUhdr (m : Nat) (e : Elem)
  | phdrUpdate (m : Nat) (e : Elem)
  | uhdrUpdate (m : Nat) (e : Elem)
  | setPayload (m : Nat) (v : Val)
  | setAad (m : Nat) (v : Val)
  | setKey (m : Nat) (k : KeyRef)
  | setLocal (m : Nat) (e : Elem)

/-- The element refers to an object that exists. -/
def Mem.has (h : Mem) : Elem → Bool
  | .imm _ => true
  | .ref a => (h.cell a).isSome

/-- A change in place leaves the type of an object alone. -/
def Cell.alike : Cell → Cell → Bool
  | .list _, .list _ => true
  | .dict _, .dict _ => true
  | .key k _, .key k' _ => k = k'
  | _, _ => false

/-- The operations on an existing message object. -/
noncomputable def Mem.onMsg (h : Mem) (m : Nat) (o : MObj) : MemOp → Res Mem
  | .setPhdr _ e => do
    let (h', a) ← h.copyDict e
    .ok { h' with msg := put h'.msg m { o with phdr := a, phdrEnc := none } }
  | .setUhdr _ e => do
    let (h', a) ← h.copyDict e
    .ok { h' with msg := put h'.msg m { o with uhdr := a } }
  | .phdrUpdate _ e => do
    let es ← h.asDict e
    let d ← h.asDict (.ref o.phdr)
    .ok { h with cell := put h.cell o.phdr (.dict (rupdate d es)), msg := put h.msg m { o with phdrEnc := none } }
  | .uhdrUpdate _ e => do
    let es ← h.asDict e
    let d ← h.asDict (.ref o.uhdr)
    .ok { h with cell := put h.cell o.uhdr (.dict (rupdate d es)) }
  | .setPayload _ v => do
    let p ← payloadOf v
    .ok { h with msg := put h.msg m { o with payload := p } }
  | .setAad _ v => do
    let b ← asBytes .typeError v
    .ok { h with msg := put h.msg m { o with aad := b } }
  | .setKey _ k => do
    let a ← h.keyOf k
    .ok { h with msg := put h.msg m { o with key := a } }
  | .setLocal _ e => do
    let es ← h.items e
    let d ← h.asDict (.ref o.loc)
    .ok { h with cell := put h.cell o.loc (.dict (rupdate d es)) }
  | _ => .ok h

/-- The message an operation is about. -/
def MemOp.target : MemOp → Option Nat
  | .new _ | .write _ _ => none
  | .construct m _ | .setPhdr m _ | .setUhdr m _ | .phdrUpdate m _ | .uhdrUpdate m _ | .setPayload m _ | .setAad m _ | .setKey m _ | .setLocal m _ => some m

/-- The arguments of an operation. -/
def MemOp.args : MemOp → List Elem
  | .new c | .write _ c => c.elems
  | .construct _ a => [a.phdr, a.uhdr]
  | .setPhdr _ e | .setUhdr _ e | .phdrUpdate _ e | .uhdrUpdate _ e | .setLocal _ e => [e]
  | .setPayload _ _ | .setAad _ _ | .setKey _ _ => []

/-- One operation: the state after it, or the exception.  Operations on objects that do not exist cannot be written in Python; here they
change nothing. -/
noncomputable def Mem.step (C : Crypto) (h : Mem) (op : MemOp) : Res Mem :=
  if op.args.all h.has then
    match op with
    | .new c => .ok { h with cell := put h.cell h.next c, next := h.next + 1 }
    | .write a c =>
      match h.cell a with
      | some c' => if c'.alike c then .ok { h with cell := put h.cell a c } else .ok h
      | none => .ok h
    | .construct m a =>
      match h.msg m with
      | some _ => .ok h
      | none => h.construct C m a
    | op =>
      match op.target with
      | none => .ok h
      | some m =>
        match h.msg m with
        | some o => h.onMsg m o op
        | none => .ok h
  else .ok h

/-- A program: an operation that raises changes nothing, and the program goes on. -/
noncomputable def Mem.run (C : Crypto) : List MemOp → Mem → Mem
  | [], h => h
  | op :: t, h =>
    match h.step C op with
    | .ok h' => Mem.run C t h'
    | .error _ => Mem.run C t h

end Cose
