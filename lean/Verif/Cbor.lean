import Verif.Py
/-!
# CBOR as implemented by `cbor2` (the serialisation library of pycose)

pycose calls `cbor2.dumps` and `cbor2.loads` (`cosebase.py:35,136`, `cosemessage.py:55,143,145`,
`sign1message.py:71,84,86`, `signer.py:69`, `maccommon.py:73`, `enccommon.py:78`,
`cosekey.py:39,289`, `context.py:52,80`, `recipient.py:65`, `x509.py:25,53`).  The library itself is
not part of the repository; this file models its documented behaviour (RFC 7049 items, insertion
order of maps, no canonicalisation, shortest heads, trailing bytes ignored by `loads`).

* `enc` writes a *wire value* (no classes, no key objects, integers that fit a head).
* `dec` reads one item and returns it together with the unread bytes.
* `interp` gives a decoded item its Python meaning: maps become dictionaries (last duplicate wins),
  tags 2/3 become integers, tag 55799 disappears.

Simplifications: other tags that cbor2 decodes to special Python objects (dates, fractions, regular
expressions, UUIDs, sets, IP addresses, shared references, …) give `unsupported`; a stray break code
is an error; Python's recursion limit is not modelled.
-/

set_option autoImplicit false

namespace Cose

/-- Head of a data item: major type `mt`, argument `n`, shortest form
(`cbor2.CBOREncoder.encode_length`). -/
def encHead (mt n : Nat) : Res Bytes :=
  if n < 24 then .ok [UInt8.ofNat (mt * 32 + n)]
  else if n < 256 then .ok (UInt8.ofNat (mt * 32 + 24) :: beBytes 1 n)
  else if n < 65536 then .ok (UInt8.ofNat (mt * 32 + 25) :: beBytes 2 n)
  else if n < 4294967296 then .ok (UInt8.ofNat (mt * 32 + 26) :: beBytes 4 n)
  else if n < 18446744073709551616 then .ok (UInt8.ofNat (mt * 32 + 27) :: beBytes 8 n)
  else .error .overflowError

/-- Strict UTF-8 check (`bytes.decode("utf-8")`), as a state machine: `need` continuation bytes are
outstanding and the next one must lie in `[lo, hi]`. -/
def utf8Go : Nat → UInt8 → UInt8 → Bytes → Bool
  | 0, _, _, [] => true
  | _ + 1, _, _, [] => false
  | 0, _, _, a :: t =>
    if a < 0x80 then utf8Go 0 0x80 0xBF t
    else if a < 0xC2 then false
    else if a < 0xE0 then utf8Go 1 0x80 0xBF t
    else if a == 0xE0 then utf8Go 2 0xA0 0xBF t
    else if a == 0xED then utf8Go 2 0x80 0x9F t
    else if a < 0xF0 then utf8Go 2 0x80 0xBF t
    else if a == 0xF0 then utf8Go 3 0x90 0xBF t
    else if a < 0xF4 then utf8Go 3 0x80 0xBF t
    else if a == 0xF4 then utf8Go 3 0x80 0x8F t
    else false
  | n + 1, lo, hi, a :: t =>
    if lo ≤ a ∧ a ≤ hi then utf8Go n 0x80 0xBF t else false

/-- The byte list is valid UTF-8. -/
def validUtf8 (b : Bytes) : Bool := utf8Go 0 0x80 0xBF b

/-- Bit patterns: exponent all ones. -/
def floatSpecial (bits : Nat) : Bool := (bits / 2 ^ 52) % 2048 == 2047
def floatNaN (bits : Nat) : Bool := floatSpecial bits && bits % 2 ^ 52 != 0
/-- The NaN that `float("nan")` has. -/
def nanBits : Nat := 0x7ff8000000000000
def infBits : Nat := 0x7ff0000000000000
def ninfBits : Nat := 0xfff0000000000000

/-- `cbor2.CBOREncoder.encode_float`: NaN and infinities as half floats, everything else binary64. -/
def encFloat (bits : Nat) : Res Bytes :=
  if bits = nanBits then .ok [0xf9, 0x7e, 0x00]
  else if bits = infBits then .ok [0xf9, 0x7c, 0x00]
  else if bits = ninfBits then .ok [0xf9, 0xfc, 0x00]
  else if floatNaN bits then .error .unsupported
  else if bits < 2 ^ 64 then .ok (0xfb :: beBytes 8 bits)
  else .error .unsupported

/-- `cbor2.CBOREncoder.encode_simple_value` for the unassigned simple values. -/
def encSimple (n : Nat) : Res Bytes :=
  if n < 20 then .ok [UInt8.ofNat (224 + n)]
  else if 32 ≤ n ∧ n < 256 then .ok [0xf8, UInt8.ofNat n]
  else .error .unsupported

mutual
/-- Encode a wire value.  Classes and key objects have no encoding here: they are replaced by
`subst` (the `default=` callback) first. -/
def enc : Val → Res Bytes
  | .none => .ok [0xf6]
  | .undef => .ok [0xf7]
  | .bool b => .ok [if b then 0xf5 else 0xf4]
  | .simple n => encSimple n
  | .int i => if 0 ≤ i then encHead 0 i.toNat else encHead 1 (-1 - i).toNat
  | .float f => encFloat f
  | .bytes b => do
    let h ← encHead 2 b.length
    .ok (h ++ b)
  | .text s =>
    if validUtf8 s then do
      let h ← encHead 3 s.length
      .ok (h ++ s)
    else .error .unsupported
  | .arr l => do
    let h ← encHead 4 l.length
    let b ← encL l
    .ok (h ++ b)
  | .map l => do
    let h ← encHead 5 l.length
    let b ← encP l
    .ok (h ++ b)
  | .tag n v => do
    let h ← encHead 6 n
    let b ← enc v
    .ok (h ++ b)
  | .cls _ => .error .cborEncode
  | .key _ _ => .error .cborEncode
termination_by structural x => x
def encL : List Val → Res Bytes
  | [] => .ok []
  | v :: t => do
    let a ← enc v
    let b ← encL t
    .ok (a ++ b)
termination_by structural x => x
def encP : List (Val × Val) → Res Bytes
  | [] => .ok []
  | p :: t => do
    let a ← encQ p
    let b ← encP t
    .ok (a ++ b)
termination_by structural x => x
def encQ : Val × Val → Res Bytes
  | (k, v) => do
    let a ← enc k
    let b ← enc v
    .ok (a ++ b)
termination_by structural x => x
end

/-! ### Decoding -/

/-- Read exactly `n` bytes (`CBORDecoder.read`). -/
def readN (n : Nat) (bs : Bytes) : Res (Bytes × Bytes) :=
  if n ≤ bs.length then .ok (bs.take n, bs.drop n) else .error .cborEOF

/-- The argument of a head (`CBORDecoder._decode_length`), definite forms only. -/
def decLen (ai : Nat) (bs : Bytes) : Res (Nat × Bytes) :=
  if ai < 24 then .ok (ai, bs)
  else if ai = 24 then do let (x, r) ← readN 1 bs; .ok (natOfBytes x, r)
  else if ai = 25 then do let (x, r) ← readN 2 bs; .ok (natOfBytes x, r)
  else if ai = 26 then do let (x, r) ← readN 4 bs; .ok (natOfBytes x, r)
  else if ai = 27 then do let (x, r) ← readN 8 bs; .ok (natOfBytes x, r)
  else .error .cborValue

/-- Chunks of an indefinite-length byte (`mt = 2`) or text (`mt = 3`) string. -/
def decChunks : Nat → Nat → Bytes → Res (Bytes × Bytes)
  | 0, _, _ => .error .recursionError
  | _ + 1, _, [] => .error .cborEOF
  | f + 1, mt, ib :: t =>
    if ib = 0xff then .ok ([], t)
    else if ib.toNat / 32 = mt then do
      let (n, r) ← decLen (ib.toNat % 32) t
      let (c, r) ← readN n r
      if mt = 3 ∧ validUtf8 c = false then .error .cborValue
      else do
        let (cs, r) ← decChunks f mt r
        .ok (c ++ cs, r)
    else .error .cborValue

/-- Binary64 pattern of a narrower IEEE float with `eb` exponent and `mb` mantissa bits
(`struct.unpack(">e")`, `">f"`); NaN payloads are dropped. -/
def widen (eb mb bits : Nat) : Nat :=
  let s := bits / 2 ^ (eb + mb)
  let e := (bits / 2 ^ mb) % 2 ^ eb
  let m := bits % 2 ^ mb
  let bias := 2 ^ (eb - 1) - 1
  if e = 2 ^ eb - 1 then (if m = 0 then s * 2 ^ 63 + infBits else nanBits)
  else if e = 0 then
    if m = 0 then s * 2 ^ 63
    else
      let k := Nat.log2 m
      s * 2 ^ 63 + (1024 + k - bias - mb) * 2 ^ 52 + (m - 2 ^ k) * 2 ^ (52 - k)
  else s * 2 ^ 63 + (e + 1023 - bias) * 2 ^ 52 + m * 2 ^ (52 - mb)

/-- Major type 7 (`CBORDecoder.decode_special`). -/
def decSpecial (ai : Nat) (t : Bytes) : Res (Val × Bytes) :=
  if ai < 20 then .ok (.simple ai, t)
  else if ai = 20 then .ok (.bool false, t)
  else if ai = 21 then .ok (.bool true, t)
  else if ai = 22 then .ok (.none, t)
  else if ai = 23 then .ok (.undef, t)
  else if ai = 24 then do
    let (x, r) ← readN 1 t
    let n := natOfBytes x
    if n < 32 then .error .cborValue else .ok (.simple n, r)
  else if ai = 25 then do
    let (x, r) ← readN 2 t
    .ok (.float (widen 5 10 (natOfBytes x)), r)
  else if ai = 26 then do
    let (x, r) ← readN 4 t
    .ok (.float (widen 8 23 (natOfBytes x)), r)
  else if ai = 27 then do
    let (x, r) ← readN 8 t
    let b := natOfBytes x
    .ok (.float (if floatNaN b then nanBits else b), r)
  else .error .cborValue

mutual
/-- Decode one data item (`CBORDecoder._decode`). The first argument is fuel. -/
def dec : Nat → Bytes → Res (Val × Bytes)
  | 0, _ => .error .recursionError
  | _ + 1, [] => .error .cborEOF
  | f + 1, ib :: t =>
    let mt := ib.toNat / 32
    let ai := ib.toNat % 32
    if mt = 0 then do
      let (n, r) ← decLen ai t
      .ok (.int n, r)
    else if mt = 1 then do
      let (n, r) ← decLen ai t
      .ok (.int (-1 - (n : Int)), r)
    else if mt = 2 then
      if ai = 31 then do
        let (b, r) ← decChunks f 2 t
        .ok (.bytes b, r)
      else do
        let (n, r) ← decLen ai t
        let (b, r) ← readN n r
        .ok (.bytes b, r)
    else if mt = 3 then
      if ai = 31 then do
        let (b, r) ← decChunks f 3 t
        .ok (.text b, r)
      else do
        let (n, r) ← decLen ai t
        let (b, r) ← readN n r
        if validUtf8 b then .ok (.text b, r) else .error .cborValue
    else if mt = 4 then
      if ai = 31 then do
        let (l, r) ← decArrInf f t
        .ok (.arr l, r)
      else do
        let (n, r) ← decLen ai t
        let (l, r) ← decArr f n r
        .ok (.arr l, r)
    else if mt = 5 then
      if ai = 31 then do
        let (l, r) ← decMapInf f t
        .ok (.map l, r)
      else do
        let (n, r) ← decLen ai t
        let (l, r) ← decMap f n r
        .ok (.map l, r)
    else if mt = 6 then do
      let (n, r) ← decLen ai t
      let (v, r) ← dec f r
      .ok (.tag n v, r)
    else decSpecial ai t
termination_by structural x => x
/-- `n` items of a definite-length array. -/
def decArr : Nat → Nat → Bytes → Res (List Val × Bytes)
  | 0, _, _ => .error .recursionError
  | _ + 1, 0, bs => .ok ([], bs)
  | f + 1, n + 1, bs => do
    let (v, r) ← dec f bs
    let (l, r) ← decArr f n r
    .ok (v :: l, r)
termination_by structural x => x
/-- Items of an indefinite-length array up to the break code. -/
def decArrInf : Nat → Bytes → Res (List Val × Bytes)
  | 0, _ => .error .recursionError
  | f + 1, bs =>
    if bs.head? = some 0xff then .ok ([], bs.tail)
    else do
      let (v, r) ← dec f bs
      let (l, r) ← decArrInf f r
      .ok (v :: l, r)
termination_by structural x => x
/-- `n` pairs of a definite-length map. -/
def decMap : Nat → Nat → Bytes → Res (List (Val × Val) × Bytes)
  | 0, _, _ => .error .recursionError
  | _ + 1, 0, bs => .ok ([], bs)
  | f + 1, n + 1, bs => do
    let (k, r) ← dec f bs
    let (v, r) ← dec f r
    let (l, r) ← decMap f n r
    .ok ((k, v) :: l, r)
termination_by structural x => x
/-- Pairs of an indefinite-length map up to the break code. -/
def decMapInf : Nat → Bytes → Res (List (Val × Val) × Bytes)
  | 0, _ => .error .recursionError
  | f + 1, bs =>
    if bs.head? = some 0xff then .ok ([], bs.tail)
    else do
      let (k, r) ← dec f bs
      let (v, r) ← dec f r
      let (l, r) ← decMapInf f r
      .ok ((k, v) :: l, r)
termination_by structural x => x
end

/-! ### Python meaning of decoded items -/

/-- Tags that cbor2 turns into other Python objects and that are not modelled. -/
def semanticTags : List Nat :=
  [0, 1, 4, 5, 25, 28, 29, 30, 35, 36, 37, 100, 256, 258, 260, 261, 1004, 43000]

/-- Meaning of a tagged item (`CBORDecoder.decode_semantic`). -/
def mkTag (n : Nat) (v : Val) : Res Val :=
  if n = 2 then
    match v with
    | .bytes b => .ok (.int (natOfBytes b))
    | _ => .error .cborValue
  else if n = 3 then
    match v with
    | .bytes b => .ok (.int (-1 - (natOfBytes b : Int)))
    | _ => .error .cborValue
  else if n = 55799 then .ok v
  else if n ∈ semanticTags then .error .unsupported
  else .ok (.tag n v)

mutual
def interp : Val → Res Val
  | .arr l => do
    let l' ← interpL l
    .ok (.arr l')
  | .map l => do
    let l' ← interpP l
    .ok (.map (dictOf l'))
  | .tag n v => do
    let v' ← interp v
    mkTag n v'
  | v => .ok v
termination_by structural x => x
def interpL : List Val → Res (List Val)
  | [] => .ok []
  | v :: t => do
    let v' ← interp v
    let t' ← interpL t
    .ok (v' :: t')
termination_by structural x => x
def interpP : List (Val × Val) → Res (List (Val × Val))
  | [] => .ok []
  | p :: t => do
    let p' ← interpQ p
    let t' ← interpP t
    .ok (p' :: t')
termination_by structural x => x
def interpQ : Val × Val → Res (Val × Val)
  | (k, v) => do
    let k' ← interp k
    let v' ← interp v
    .ok (k', v')
termination_by structural x => x
end

/-- Decode the first item of a byte string, keeping the rest. -/
def decodeItem (b : Bytes) : Res (Val × Bytes) := dec (2 * b.length + 1) b

/-- `cbor2.loads(b)` for a `bytes` argument: trailing bytes are ignored. -/
def loads (b : Bytes) : Res Val := do
  let (v, _) ← decodeItem b
  interp v

/-- `cbor2.loads(x)` for any argument (`io.BytesIO(x)` rejects everything but bytes and `None`). -/
def loadsVal : Val → Res Val
  | .bytes b => loads b
  | .none => loads []
  | _ => .error .typeError

/-! ### The `default=` callbacks and `cbor2.dumps` -/

/-- Which `default` callback is passed to `cbor2.dumps`.
* `plain`: none (`sign1message.py:71`, `signer.py:69`, `maccommon.py:73`, `enccommon.py:78`, `context.py:80`)
* `ident`: `encoder.encode(x.identifier)` (`cosekey.py:292-293`, `context.py:58-60`)
* `base tstr`: `CoseBase._custom_cbor_encoder` (`cosebase.py:151-160`), `tstr = alg_tstr_encoding`. -/
inductive Mode where
  | plain | ident | base (tstr : Bool)
deriving DecidableEq, Repr

/-- The class `pycose.keys.keyparam.KpKeyOps` (`keyparam.py:42-45`). -/
abbrev KpKeyOps : Cls := ⟨.kp, 4⟩

/-- Big integers are written as tags 2/3 by `CBOREncoder.encode_int`. -/
def bigInt (i : Int) : Val :=
  if (18446744073709551616 : Int) ≤ i then
    .tag 2 (.bytes (beBytes ((bitLength i.toNat + 7) / 8) i.toNat))
  else if i < -18446744073709551616 then
    .tag 3 (.bytes (beBytes ((bitLength (-1 - i).toNat + 7) / 8) (-1 - i).toNat))
  else .int i

mutual
/-- The data item cbor2 writes for a Python value: big integers as tags, one NaN. -/
def big : Val → Val
  | .int i => bigInt i
  | .float f => .float (if floatNaN f then nanBits else f)
  | .arr l => .arr (bigL l)
  | .map l => .map (bigP l)
  | .tag n v => .tag n (big v)
  | v => v
termination_by structural x => x
def bigL : List Val → List Val
  | [] => []
  | v :: t => big v :: bigL t
termination_by structural x => x
def bigP : List (Val × Val) → List (Val × Val)
  | [] => []
  | p :: t => bigQ p :: bigP t
termination_by structural x => x
def bigQ : Val × Val → Val × Val
  | (k, v) => (big k, big v)
termination_by structural x => x
end

/-- `KpKeyOps in new_dict and not len(new_dict[KpKeyOps])` for the entry `(k, v)` of a key store
(`cosebase.py:154`). -/
def emptyKeyOps (k v : Val) : Bool :=
  k == .cls KpKeyOps && (match lenOf v with | .ok 0 => true | _ => false)

/-- `len(new_dict[KpKeyOps])`, if there is such an entry (`cosebase.py:154`). -/
def keyOpsLen (s : Dict) : Res Nat :=
  match dget s (.cls KpKeyOps) with
  | some v => lenOf v
  | none => .ok 0

section
variable (fullname : Cls → Bytes)

/-- What the callback writes in place of an attribute class. -/
def substCls (m : Mode) (c : Cls) : Res Val :=
  match m with
  | .plain => .error .cborEncode
  | .ident => .ok (.int c.ident)
  | .base tstr =>
    if c.reg = .alg ∧ tstr = true then .ok (.text (fullname c)) else .ok (.int c.ident)

mutual
/-- Apply the `default` callback to everything only it can encode; `fullname` gives the `fullname`
attribute of a class. -/
def subst (m : Mode) : Val → Res Val
  | .arr l => do
    let l' ← substL m l
    .ok (.arr l')
  | .map l => do
    let l' ← substP m l
    .ok (.map l')
  | .tag n v => do
    let v' ← subst m v
    .ok (.tag n v')
  | .cls c => substCls fullname m c
  | .key _ s =>
    match m with
    | .plain => .error .cborEncode
    | .ident => .error .attributeError
    | .base _ => do
      let _ ← keyOpsLen s
      let s' ← substS m s
      .ok (.map s')
  | v => .ok v
termination_by structural x => x
def substL (m : Mode) : List Val → Res (List Val)
  | [] => .ok []
  | v :: t => do
    let v' ← subst m v
    let t' ← substL m t
    .ok (v' :: t')
termination_by structural x => x
def substP (m : Mode) : List (Val × Val) → Res (List (Val × Val))
  | [] => .ok []
  | p :: t => do
    let p' ← substQ m p
    let t' ← substP m t
    .ok (p' :: t')
termination_by structural x => x
def substQ (m : Mode) : Val × Val → Res (Val × Val)
  | (k, v) => do
    let k' ← subst m k
    let v' ← subst m v
    .ok (k', v')
termination_by structural x => x
/-- The store of a key object: like a dictionary, without an empty `KpKeyOps` entry
(`cosebase.py:152-156`). -/
def substS (m : Mode) : List (Val × Val) → Res (List (Val × Val))
  | [] => .ok []
  | p :: t => do
    let p' ← substQ m p
    let t' ← substS m t
    if emptyKeyOps p.1 p.2 then .ok t' else .ok (p' :: t')
termination_by structural x => x
end

/-- `cbor2.dumps(v, default=…)`. -/
def dumps (m : Mode) (v : Val) : Res Bytes := do
  let w ← subst fullname m v
  enc (big w)

end

end Cose
