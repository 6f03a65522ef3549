/-!
# Python values, exceptions and dictionaries

The part of Python that the rest of the model is written in.  Nothing here is specific to COSE
except the two leaf constructors `Val.cls` (an attribute *class* of pycose, e.g.
`pycose.headers.Algorithm`, `pycose.algorithms.Es256`) and `Val.key` (a `CoseKey` object).
-/

set_option autoImplicit false

namespace Cose

/-- A Python `bytes` object. -/
abbrev Bytes := List UInt8

/-- `b!"abc"` is the list of the UTF-8 bytes of the literal (written out, so that it computes). -/
syntax:max "b!" str : term

open Lean in
macro_rules
  | `(b! $s:str) => do
    let bs := s.getString.toUTF8.toList
    let xs : Array (TSyntax `term) :=
      (bs.map (fun b => (Syntax.mkNumLit (toString b.toNat) : TSyntax `term))).toArray
    `(([$xs,*] : List UInt8))

/-- The exceptions that the modelled code can raise.
`/repo/pycose/exceptions.py:1-34` for the first seven (independent subclasses of `Exception`),
Python built-ins after that; `cborEOF`/`cborValue` are `cbor2.CBORDecodeEOF` (an `EOFError`) and
`cbor2.CBORDecodeValueError` (a `ValueError`); `cborEncode` is `cbor2.CBOREncodeTypeError`;
`recursionError` is only a fuel marker of the decoder model and is proved unreachable;
`crypto` stands for whatever exception a cryptographic library raises (e.g. `InvalidTag`,
`InvalidUnwrap`, point not on curve); `unsupported` marks behaviour of a library that is not
modelled (only reached on the inputs listed in DESIGN.md). -/
inductive PyErr where
  | coseException | illegalAlgorithm | unsupportedCurve | illegalKeyOps | illegalKeyType
  | malformedMessage | invalidKey
  | typeError | valueError | attributeError | keyError | indexError | nameError
  | assertionError | notImplemented | overflowError
  | cborEOF | cborValue | cborEncode | recursionError | crypto | unsupported
deriving DecidableEq, Repr

/-- The outcome of a Python call: a value or a raised exception. -/
abbrev Res (α : Type) := Except PyErr α

/-- `isinstance(e, ValueError)`: `cbor2.CBORDecodeValueError` derives from `ValueError`
(and `UnicodeDecodeError` is wrapped in it). -/
def PyErr.isValueError : PyErr → Bool
  | .valueError | .cborValue => true
  | _ => false

/-- Which registry (`_registered_…` dictionary) a class belongs to.
`headers.py:7-12`, `algorithms.py:36-43`, `keyparam.py:16-21,58-64,95-101,126-132,211-217`,
`keyops.py:7-12`, `keytype.py:7-12`, `curves.py:13-29`. -/
inductive Reg where
  | hdr | alg | kp | kpEc2 | kpOkp | kpRsa | kpSym | op | kty | crv
deriving DecidableEq, Repr

/-- A pycose attribute class.  Within one registry family pycose never declares two classes with
one identifier, so a class is named by its family and its `identifier`
(the tables in `Registry.lean` list the ones that exist). -/
structure Cls where
  reg : Reg
  ident : Int
deriving DecidableEq, Repr

/-- The Python class of a `CoseKey` object. -/
inductive Kind where
  | sym | ec2 | okp | rsa
deriving DecidableEq, Repr

/-- The Python values that occur as header labels/values, key parameters, payloads and CBOR items.
Text is stored as its UTF-8 encoding.  `arr` is a list (or, as a dictionary key, a tuple).
`float` carries the IEEE-754 binary64 bit pattern. -/
inductive Val where
  | none
  | undef
  | bool (b : Bool)
  | simple (n : Nat)
  | int (i : Int)
  | float (bits : Nat)
  | bytes (b : Bytes)
  | text (s : Bytes)
  | arr (l : List Val)
  | map (l : List (Val × Val))
  | tag (n : Nat) (v : Val)
  | cls (c : Cls)
  | key (k : Kind) (store : List (Val × Val))
deriving Repr

/-- A Python `dict`: insertion ordered association list. -/
abbrev Dict := List (Val × Val)

instance : Inhabited Val := ⟨.none⟩

/-! ### Structural equality of values is decidable -/
mutual
def Val.beq : Val → Val → Bool
  | .none, .none => true
  | .undef, .undef => true
  | .bool a, .bool b => a == b
  | .simple a, .simple b => a == b
  | .int a, .int b => a == b
  | .float a, .float b => a == b
  | .bytes a, .bytes b => a == b
  | .text a, .text b => a == b
  | .arr a, .arr b => Val.beqL a b
  | .map a, .map b => Val.beqP a b
  | .tag n a, .tag m b => n == m && Val.beq a b
  | .cls a, .cls b => a == b
  | .key k a, .key l b => k == l && Val.beqP a b
  | _, _ => false
termination_by structural x => x
def Val.beqL : List Val → List Val → Bool
  | [], [] => true
  | a :: as, b :: bs => Val.beq a b && Val.beqL as bs
  | _, _ => false
termination_by structural x => x
def Val.beqP : List (Val × Val) → List (Val × Val) → Bool
  | [], [] => true
  | a :: as, b :: bs => Val.beqQ a b && Val.beqP as bs
  | _, _ => false
termination_by structural x => x
def Val.beqQ : Val × Val → Val × Val → Bool
  | (a, b), (c, d) => Val.beq a c && Val.beq b d
termination_by structural x => x
end

mutual
theorem Val.beq_eq (a b : Val) : Val.beq a b = true ↔ a = b := by
  cases a <;> cases b <;> simp [Val.beq]
  case arr.arr l m => exact Val.beqL_eq l m
  case map.map l m => exact Val.beqP_eq l m
  case tag.tag n v m w => intro _; exact Val.beq_eq v w
  case key.key n v m w => intro _; exact Val.beqP_eq v w
termination_by structural a
theorem Val.beqL_eq (a b : List Val) : Val.beqL a b = true ↔ a = b := by
  cases a <;> cases b <;> simp [Val.beqL]
  case cons.cons x xs y ys => rw [Val.beq_eq x y, Val.beqL_eq xs ys]
termination_by structural a
theorem Val.beqP_eq (a b : List (Val × Val)) : Val.beqP a b = true ↔ a = b := by
  cases a <;> cases b <;> simp [Val.beqP]
  case cons.cons x xs y ys => rw [Val.beqQ_eq x y, Val.beqP_eq xs ys]
termination_by structural a
theorem Val.beqQ_eq (a b : Val × Val) : Val.beqQ a b = true ↔ a = b := by
  cases a; cases b; rename_i x y z w
  simp [Val.beqQ]; rw [Val.beq_eq x z, Val.beq_eq y w]
termination_by structural a
end

instance : DecidableEq Val := fun a b => decidable_of_iff _ (Val.beq_eq a b)

/-! ### Python equality of dictionary keys

`True == 1 == 1.0` and equal numbers hash equally, so such keys collide in a `dict`.  `norm` maps a
key to a representative.  Simplification: only at the top level of the key (not inside tuples),
and NaN keys are compared by bit pattern. -/

/-- The integer a binary64 bit pattern denotes, if it denotes one. -/
def floatInt? (bits : Nat) : Option Int :=
  let sgn : Nat := bits / 2 ^ 63
  let e : Nat := (bits / 2 ^ 52) % 2048
  let m : Nat := bits % 2 ^ 52
  let mag : Option Nat :=
    if e = 2047 then Option.none
    else if e = 0 then (if m = 0 then some 0 else Option.none)
    else
      let s := 2 ^ 52 + m
      if 1075 ≤ e then some (s * 2 ^ (e - 1075))
      else if s % 2 ^ (1075 - e) = 0 then some (s / 2 ^ (1075 - e)) else Option.none
  mag.map fun (n : Nat) => if sgn = 0 then (n : Int) else -(n : Int)

/-- Representative of a dictionary key under Python's `==`. -/
def norm : Val → Val
  | .bool b => .int (if b then 1 else 0)
  | .float f => match floatInt? f with
    | some i => .int i
    | .none => .float f
  | v => v

/-- Python `a == b` for dictionary keys. -/
def keq (a b : Val) : Bool := norm a == norm b

/-- `d.get(k)`. -/
def dget : Dict → Val → Option Val
  | [], _ => none
  | (k, v) :: t, q => if keq k q then some v else dget t q

/-- `k in d`. -/
def dhas (d : Dict) (k : Val) : Bool := (dget d k).isSome

/-- `d[k] = v`: overwrites in place (keeping the old key object and its position), else appends. -/
def dset : Dict → Val → Val → Dict
  | [], q, w => [(q, w)]
  | (k, v) :: t, q, w => if keq k q then (k, w) :: t else (k, v) :: dset t q w

/-- `d.pop(k, None)` as a statement; `del d[k]` when the key is present. -/
def ddel : Dict → Val → Dict
  | [], _ => []
  | (k, v) :: t, q => if keq k q then t else (k, v) :: ddel t q

/-- `d.update(e)`. -/
def dupdate (d : Dict) : Dict → Dict
  | [] => d
  | (k, v) :: t => dupdate (dset d k v) t

/-- `dict(pairs)` – what a CBOR map decodes to when keys repeat (last value wins, first position). -/
def dictOf (ps : List (Val × Val)) : Dict := dupdate [] ps

/-! ### Monad lemmas for `Res` -/

@[simp] theorem ok_bind {α β : Type} (a : α) (f : α → Res β) : (Except.ok a >>= f) = f a := rfl
@[simp] theorem error_bind {α β : Type} (e : PyErr) (f : α → Res β) :
    ((Except.error e : Res α) >>= f) = .error e := rfl
@[simp] theorem pure_eq_ok {α : Type} (a : α) : (pure a : Res α) = .ok a := rfl
theorem bind_eq_ok {α β : Type} {x : Res α} {f : α → Res β} {b : β} :
    (x >>= f) = .ok b ↔ ∃ a, x = .ok a ∧ f a = .ok b := by
  cases x <;> simp
theorem bind_eq_error {α β : Type} {x : Res α} {f : α → Res β} {e : PyErr} :
    (x >>= f) = .error e ↔ x = .error e ∨ ∃ a, x = .ok a ∧ f a = .error e := by
  cases x <;> simp
theorem map_eq_ok {α β : Type} {x : Res α} {f : α → β} {b : β} :
    (f <$> x) = .ok b ↔ ∃ a, x = .ok a ∧ f a = b := by
  cases x <;> simp [Functor.map, Except.map]

/-! ### Small helpers -/

/-- `type(v) is bytes`, else raise `e`. -/
def asBytes (e : PyErr) : Val → Res Bytes
  | .bytes b => .ok b
  | _ => .error e

/-- `hash(v)` does not raise.  A `CBORTag` is hashable if its content is. -/
def hashable : Val → Bool
  | .arr _ => false
  | .map _ => false
  | .key _ _ => false
  | .tag _ v => hashable v
  | _ => true
termination_by structural v => v

/-- `len(s)` of a text: its code points are the bytes that do not continue one. -/
def textLength (s : Bytes) : Nat := (s.filter fun b => b < 0x80 || 0xC0 ≤ b).length

/-- `len(v)`. -/
def lenOf : Val → Res Nat
  | .bytes b => .ok b.length
  | .text s => .ok s.length   -- number of code points in Python; only compared with 0 in the code
  | .arr l => .ok l.length
  | .map l => .ok l.length
  | .key _ s => .ok s.length
  | _ => .error .typeError

/-- `bool(v)` for the values that occur. -/
def truthy : Val → Bool
  | .none => false
  | .bool b => b
  | .int i => i != 0
  | .float f => floatInt? f != some 0
  | .bytes b => !b.isEmpty
  | .text s => !s.isEmpty
  | .arr l => !l.isEmpty
  | .map l => !l.isEmpty
  | .key _ s => !s.isEmpty
  | .undef => false
  | .simple _ => true
  | .tag _ _ => true
  | .cls _ => true

/-- `int.from_bytes(b, "big")`. -/
def natOfBytes (b : Bytes) : Nat := b.foldl (fun acc x => acc * 256 + x.toNat) 0

/-- The `len` low-order base-256 digits of `n`, most significant first. -/
def beBytes : Nat → Nat → Bytes
  | 0, _ => []
  | len + 1, n => beBytes len (n / 256) ++ [UInt8.ofNat (n % 256)]

/-- `n.to_bytes(len, "big")`: `OverflowError` when it does not fit. -/
def toBytes (n len : Nat) : Res Bytes :=
  if n < 256 ^ len then .ok (beBytes len n) else .error .overflowError

/-- `n.bit_length()`. -/
def bitLength (n : Nat) : Nat := if n = 0 then 0 else Nat.log2 n + 1

end Cose
