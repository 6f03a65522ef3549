import Verif.Crypto
/-!
# COSE keys

Model of `/repo/pycose/keys/cosekey.py`, `symmetric.py`, `ec2.py`, `okp.py`, `rsa.py`.
-/

set_option autoImplicit false

namespace Cose

/-- A `CoseKey` object: its Python class, its `store` dictionary, and (RSA only) the attributes
`other`, `r_i`, `d_i`, `t_i`, which are plain instance attributes that never reach the store
(`rsa.py:196-205`: there are no property setters for them). -/
structure Key where
  kind : Kind
  store : Dict
  extra : Dict := []
deriving DecidableEq, Repr

/-- A key object used as a header value.  Simplification: the RSA instance attributes are dropped. -/
def Key.toVal (k : Key) : Val := .key k.kind k.store

/-- `KtyX` recorded for a key class (`symmetric.py:14`, `ec2.py:17`, `okp.py:20`, `rsa.py:21`). -/
def kindKty : Kind → Cls
  | .sym => KtySym | .ec2 => KtyEC2 | .okp => KtyOKP | .rsa => KtyRSA

/-- The key parameter registry of a key class (`_key_transform`: `symmetric.py:40-43`,
`ec2.py:98-100`, `okp.py:107-110`, `rsa.py:118-120`). -/
def kindReg : Kind → Reg
  | .sym => .kpSym | .ec2 => .kpEc2 | .okp => .kpOkp | .rsa => .kpRsa

/-! ### Value parsers -/

/-- `headers.py:171-175`. -/
def isBstr : Val → Res Val
  | .bytes b => .ok (.bytes b)
  | _ => .error .valueError

/-- `isinstance(x, (int, str))`. -/
def isIntOrStr : Val → Bool
  | .int _ => true
  | .bool _ => true
  | .text _ => true
  | _ => false

/-- `headers.py:178-182`. -/
def critIsArray : Val → Res Val
  | .arr l => if l.length < 1 ∨ l.all isIntOrStr = false then .error .valueError else .ok (.arr l)
  | _ => .error .valueError

/-- `headers.py:185-190`. -/
def contentType : Val → Res Val
  | .int i => if i < 0 then .error .valueError else .ok (.int i)
  | .bool b => .ok (.bool b)
  | .text s => .ok (.text s)
  | _ => .error .valueError

/-- `value_parser` of an attribute class: `utils.py:9-12` (default), `headers.py:193-200`,
`algorithms.py:1423`, `keyparam.py:226-230`.  The parser of the headers EphemeralKey and StaticKey
(`cosekey.py:321-322`) is not included here (see `hdrParser`); it can be reached from key parsing
only when a *symmetric* key dictionary uses the class `headers.StaticKey` as a label, which is
reported as `unsupported`. -/
def simpleParser (c : Cls) (v : Val) : Res Val :=
  match c.reg with
  | .hdr =>
    if c.ident = 1 then fromId .alg v
    else if c.ident = 2 then critIsArray v
    else if c.ident = 3 then contentType v
    else if c.ident = 4 ∨ c.ident = 5 ∨ c.ident = 6 ∨ c.ident = 9 ∨ c.ident = 10 then isBstr v
    else if c.ident = -1 ∨ c.ident = -2 then .error .unsupported
    else .ok v
  | .kp =>
    if c.ident = 1 then fromId .kty v
    else if c.ident = 3 then fromId .alg v
    else if c.ident = 4 then fromId .op v
    else .ok v
  | .kpEc2 => if c.ident = -1 then fromId .crv v else .ok v
  | .kpOkp => if c.ident = -1 then fromId .crv v else .ok v
  | _ => .ok v

/-- The loop that translates the labels of a dictionary and parses its values
(`cosebase.py:163-171` for headers, `symmetric.py:51-60`, `ec2.py:123-132`, `okp.py:133-142`,
`rsa.py:163-172` for keys).  `acc` is the dictionary built so far. -/
def parseAttrs (r : Reg) (allow : Bool) (parse : Cls → Val → Res Val) : Dict → Dict → Res Dict
  | acc, [] => .ok acc
  | acc, (k, v) :: t => do
    let a ← fromIdKey r k allow
    let v' ← match a with
      | .cls c => parse c v
      | _ => .ok v
    parseAttrs r allow parse (dset acc a v') t

/-! ### Helpers on Python values -/

/-- `int.from_bytes(v, "big")` elements of an iterable of integers. -/
def byteOf : Val → Res UInt8
  | .int i => if 0 ≤ i ∧ i < 256 then .ok (UInt8.ofNat i.toNat) else .error .valueError
  | .bool b => .ok (if b then 1 else 0)
  | _ => .error .typeError

def bytesOfL : List Val → Res Bytes
  | [] => .ok []
  | v :: t => do
    let b ← byteOf v
    let bs ← bytesOfL t
    .ok (b :: bs)

/-- `int.from_bytes(v, "big")`: accepts `bytes` and any iterable of small integers. -/
def intFromBytes : Val → Res Nat
  | .bytes b => .ok (natOfBytes b)
  | .arr l => do let b ← bytesOfL l; .ok (natOfBytes b)
  | .map l => do let b ← bytesOfL (l.map (·.1)); .ok (natOfBytes b)
  | _ => .error .typeError

/-- `int(hexlify(v), 16)` (`algorithms.py:184,191,291-293`): `ValueError` for the empty string. -/
def intFromHex : Val → Res Nat
  | .bytes [] => .error .valueError
  | .bytes (a :: t) => .ok (natOfBytes (a :: t))
  | _ => .error .typeError

/-- `dict.get(k, default)` for a class key. -/
def getD (d : Dict) (c : Cls) (default : Val) : Val := (dget d (.cls c)).getD default

/-- Store a value that must be `bytes` (the property setters of key parameters). -/
def setBytes (e : PyErr) (s : Dict) (c : Cls) : Val → Res Dict
  | .bytes b => .ok (dset s (.cls c) (.bytes b))
  | _ => .error e

/-- `if v != b'': self.<param> = v`. -/
def setIfNonEmpty (s : Dict) (c : Cls) (v : Val) : Res Dict :=
  if v = .bytes [] then .ok s else setBytes .typeError s c v

/-! ### Constructors -/

/-- The common part of the constructors: the loop over `optional_params`, the key type check, and
`CoseKey.__init__` (`symmetric.py:46-66`, `ec2.py:118-138`, `okp.py:128-148`, `rsa.py:163-178`,
`cosekey.py:181-187`). -/
def initStore (k : Kind) (opt : Dict) (allow : Bool) : Res Dict := do
  let t ← parseAttrs (kindReg k) allow simpleParser [(.cls KpKty, .cls (kindKty k))] opt
  if dget t (.cls KpKty) ≠ some (.cls (kindKty k)) then .error .illegalKeyType
  else
    match dget t (.cls KpKeyOps) with
    | none => .ok t
    | some v => do
      let n ← lenOf v
      if n = 0 then .ok (ddel t (.cls KpKeyOps)) else .ok t

/-- `SymmetricKey.k` setter (`symmetric.py:87-93`). -/
def setSymK (s : Dict) : Val → Res Dict
  | .bytes b =>
    if b.length = 16 ∨ b.length = 24 ∨ b.length = 32 then .ok (dset s (.cls SymK) (.bytes b))
    else .error .invalidKey
  | _ => .error .valueError

/-- `SymmetricKey.__init__` (`symmetric.py:45-71`). -/
def symInit (k : Val) (opt : Dict) (allow : Bool) : Res Key := do
  let s ← initStore .sym opt allow
  if k = .bytes [] then .error .invalidKey
  else do
    let s ← setSymK s k
    .ok { kind := .sym, store := s }

/-- Translate a curve and check that it belongs to the key type (`ec2.py:194-200`,
`okp.py:173-179`, `ec2.py:271-274`, `okp.py:236-239`). -/
def parseCrv (kty : Cls) (v : Val) : Res Cls := do
  let a ← fromId .crv v
  match a with
  | .cls c => if crvKind c = some kty then .ok c else .error .unsupportedCurve
  | _ => .error .attributeError

/-- `EC2Key.__init__` lines `ec2.py:150-158`: given value or the derived one; a given value must be
the derived one (`assert`). -/
def checkOrDerive (given : Val) (derived : Bytes) : Res Val :=
  if truthy given then
    if given = .bytes derived then .ok given else .error .assertionError
  else .ok (.bytes derived)

/-- `EC2Key.__init__` (`ec2.py:102-181`). -/
def ec2Init (C : Crypto) (crv x y d : Val) (opt : Dict) (allow : Bool) : Res Key := do
  let s ← initStore .ec2 opt allow
  if crv = .none then .error .invalidKey
  else do
    let c ← parseCrv KtyEC2 crv
    let s := dset s (.cls Ec2Crv) (.cls c)
    if truthy x = false ∧ truthy y = false ∧ truthy d = false then .error .invalidKey
    else if truthy d = false ∧ truthy x = false then .error .invalidKey
    else do
      let (x, y) ←
        if truthy d then do
          let n ← intFromBytes d
          let (px, py) ← C.ecPub c n
          let bx ← toBytes px (crvSize c)
          let x ← checkOrDerive x bx
          let bY ← toBytes py (crvSize c)
          let y ← checkOrDerive y bY
          .ok (x, y)
        else .ok (x, y)
      let y ←
        if truthy x ∧ truthy y = false then
          match x with
          | .bytes xb => do
            let (px, py) ← C.ecDecompress c xb
            let bx ← toBytes px (crvSize c)
            if xb = bx then do
              let bY ← toBytes py (crvSize c)
              .ok (.bytes bY)
            else .error .assertionError
          | _ => .error .typeError
        else .ok y
      let s ← setIfNonEmpty s Ec2X x
      let s ← setIfNonEmpty s Ec2Y y
      let s ← setIfNonEmpty s Ec2D d
      .ok { kind := .ec2, store := s }

/-- `OKPKey.__init__` (`okp.py:112-160`). -/
def okpInit (crv x d : Val) (opt : Dict) (allow : Bool) : Res Key := do
  let s ← initStore .okp opt allow
  let lx ← lenOf x
  let bothEmpty ← if lx = 0 then do let ld ← lenOf d; .ok (ld == 0) else .ok false
  if bothEmpty then .error .invalidKey
  else if crv = .none then .error .invalidKey
  else do
    let c ← parseCrv KtyOKP crv
    let s := dset s (.cls OkpCrv) (.cls c)
    let s ← setIfNonEmpty s OkpX x
    let s ← setIfNonEmpty s OkpD d
    .ok { kind := .okp, store := s }

/-- `all(map(lambda x: len(x) == 0, l))` / `… != 0`, short-circuiting. -/
def allLen (zero : Bool) : List Val → Res Bool
  | [] => .ok true
  | v :: t => do
    let n ← lenOf v
    if (n == 0) = zero then allLen zero t else .ok false

/-- The parameters of an RSA key as passed to the constructor. -/
structure RsaArgs where
  n : Val := .bytes []
  e : Val := .bytes []
  d : Val := .bytes []
  p : Val := .bytes []
  q : Val := .bytes []
  dp : Val := .bytes []
  dq : Val := .bytes []
  qinv : Val := .bytes []
  other : Val := .arr []
  ri : Val := .bytes []
  di : Val := .bytes []
  ti : Val := .bytes []

/-- The classification `is_valid_key` (`rsa.py:144-157`). -/
def rsaValid (a : RsaArgs) : Res Bool := do
  let pub ← do
    let ln ← lenOf a.n
    if ln ≠ 0 then do
      let le ← lenOf a.e
      if le ≠ 0 then allLen true [a.d, a.p, a.q, a.dp, a.dq, a.qinv, a.other, a.ri, a.di, a.ti]
      else .ok false
    else .ok false
  if pub then .ok true
  else do
    let z ← allLen true [a.other, a.ri, a.ti, a.di]
    let two ← if z then allLen false [a.n, a.e, a.d, a.p, a.q, a.dp, a.dq, a.qinv] else .ok false
    if two then .ok true
    else allLen false [a.n, a.e, a.d, a.p, a.q, a.dp, a.dq, a.qinv, a.other, a.ri, a.di, a.ti]

/-- `RSAKey.__init__` (`rsa.py:122-205`).  `other`, `r_i`, `d_i`, `t_i` become instance attributes. -/
def rsaInit (a : RsaArgs) (opt : Dict) (allow : Bool) : Res Key := do
  let a := if a.other = .none then { a with other := .arr [] } else a
  let ok ← rsaValid a
  if ok = false then .error .invalidKey
  else do
    let s ← initStore .rsa opt allow
    let s ← setBytes .typeError s RsaE a.e
    let s ← setBytes .typeError s RsaN a.n
    let s ← setIfNonEmpty s RsaD a.d
    let s ← setIfNonEmpty s RsaP a.p
    let s ← setIfNonEmpty s RsaQ a.q
    let s ← setIfNonEmpty s RsaDP a.dp
    let s ← setIfNonEmpty s RsaDQ a.dq
    let s ← setIfNonEmpty s RsaQInv a.qinv
    let x1 := if truthy a.other then [(Val.text b!"other", a.other)] else []
    let x2 := if a.ri = .bytes [] then [] else [(Val.text b!"r_i", a.ri)]
    let x3 := if a.di = .bytes [] then [] else [(Val.text b!"d_i", a.di)]
    let x4 := if a.ti = .bytes [] then [] else [(Val.text b!"t_i", a.ti)]
    .ok { kind := .rsa, store := s, extra := x1 ++ x2 ++ x3 ++ x4 }

/-! ### Construction from dictionaries -/

/-- `CoseKey._extract_from_dict` (`cosekey.py:60-71`). -/
def extract (d : Dict) (c : Cls) (default : Val := .bytes []) : Val :=
  match dget d (.cls c) with
  | some v => v
  | none =>
    match dget d (.int c.ident) with
    | some v => v
    | none =>
      match dget d (.text (fullname c)) with
      | some v => v
      | none => default

/-- `CoseKey._remove_from_dict` (`cosekey.py:73-77`). -/
def remove (d : Dict) (c : Cls) : Dict :=
  ddel (ddel (ddel d (.cls c)) (.int c.ident)) (.text (fullname c))

/-- The key class recorded under a key type (`cosekey.py:52-54`): identifier, full name (exact case)
or class.  Unhashable values raise `TypeError`, unknown ones `KeyError`. -/
def ktyLookup (v : Val) : Res Kind :=
  match v with
  | .arr _ => .error .typeError
  | .map _ => .error .typeError
  | .key _ _ => .error .typeError
  | .tag _ w => if hashable w then .error .keyError else .error .typeError
  | _ =>
    if keq v (.int 4) ∨ v = .text b!"SYMMETRIC" ∨ v = .cls KtySym then .ok .sym
    else if keq v (.int 2) ∨ v = .text b!"EC2" ∨ v = .cls KtyEC2 then .ok .ec2
    else if keq v (.int 1) ∨ v = .text b!"OKP" ∨ v = .cls KtyOKP then .ok .okp
    else if keq v (.int 3) ∨ v = .text b!"RSA" ∨ v = .cls KtyRSA then .ok .rsa
    else .error .keyError

/-- `SymmetricKey.from_dict` (`symmetric.py:18-34`). -/
def symFromDict (d : Dict) : Res Key :=
  symInit (extract d SymK) (remove d SymK) true

/-- `EC2Key.from_dict` (`ec2.py:21-43`). -/
def ec2FromDict (C : Crypto) (d : Dict) : Res Key :=
  ec2Init C (extract d Ec2Crv .none) (extract d Ec2X) (extract d Ec2Y) (extract d Ec2D)
    (remove (remove (remove (remove d Ec2X) Ec2Y) Ec2D) Ec2Crv) true

/-- `OKPKey.from_dict` (`okp.py:23-44`). -/
def okpFromDict (d : Dict) : Res Key :=
  okpInit (extract d OkpCrv .none) (extract d OkpX) (extract d OkpD)
    (remove (remove (remove d OkpX) OkpD) OkpCrv) true

/-- `RSAKey.from_dict` (`rsa.py:24-75`). -/
def rsaFromDict (d : Dict) : Res Key :=
  rsaInit
    { n := extract d RsaN, e := extract d RsaE, d := extract d RsaD, p := extract d RsaP,
      q := extract d RsaQ, dp := extract d RsaDP, dq := extract d RsaDQ, qinv := extract d RsaQInv,
      other := extract d RsaOther (.arr []), ri := extract d RsaRi, di := extract d RsaDi,
      ti := extract d RsaTi }
    ([RsaE, RsaN, RsaD, RsaP, RsaQ, RsaDP, RsaDQ, RsaQInv, RsaOther, RsaQInv, RsaRi, RsaDi, RsaTi].foldl
      remove d) true

def kindFromDict (C : Crypto) : Kind → Dict → Res Key
  | .sym, d => symFromDict d
  | .ec2, d => ec2FromDict C d
  | .okp, d => okpFromDict d
  | .rsa, d => rsaFromDict d

/-- `CoseKey.from_dict` on a dictionary (`cosekey.py:79-97`). -/
def fromDict (C : Crypto) (d : Dict) : Res Key :=
  match dget d (.cls KpKty) with
  | some v => do let k ← ktyLookup v; kindFromDict C k d
  | none =>
    match dget d (.int 1) with
    | some v => do let k ← ktyLookup v; kindFromDict C k d
    | none =>
      match dget d (.text b!"KTY") with
      | some v => do let k ← ktyLookup v; kindFromDict C k d
      | none => .error .illegalKeyType

/-- What `_optional_params.update(l)` raises for an element of a list `l` (`symmetric.py:31`, `ec2.py:37`, `okp.py:39`, `rsa.py:47`): each must be
iterable and give two objects, the first of which is hashable. The elements of a byte string, of a text and the labels of a dictionary always are. -/
def pairRefused : Val → Option PyErr
  | .arr [k, _] => if hashable k then none else some .typeError
  | .arr _ => some .valueError
  | .bytes b => if b.length = 2 then none else some .valueError
  | .text s => if textLength s = 2 then none else some .valueError
  | .map d => if d.length = 2 then none else some .valueError
  | .key _ d => if d.length = 2 then none else some .valueError
  | _ => some .typeError

/-- `CoseKey._extract_from_dict(l, p)` for a list `l` (`cosekey.py:59-70`): only what it raises. `l[p]` and `l["X"]` raise `TypeError`, `l[-2]` is the last
but one element (the identifiers of these parameters are negative). -/
def listExtract (l : List Val) (c : Cls) : Res Unit :=
  if l.any (· == .cls c) then .error .typeError
  else if l.any (keq · (.int c.ident)) then if c.ident.natAbs ≤ l.length then .ok () else .error .indexError
  else if l.any (· == .text (fullname c)) then .error .typeError
  else .ok ()

def listExtracts (l : List Val) : List Cls → Res Unit
  | [] => .ok ()
  | c :: t => do listExtract l c; listExtracts l t

/-- The parameters that `from_dict` of a key class takes out of its argument, in order (`symmetric.py:29`, `ec2.py:32-35`, `okp.py:35-37`, `rsa.py:34-45`). -/
def extracted : Kind → List Cls
  | .sym => [SymK]
  | .ec2 => [Ec2X, Ec2Y, Ec2D, Ec2Crv]
  | .okp => [OkpX, OkpD, OkpCrv]
  | .rsa => [RsaE, RsaN, RsaD, RsaP, RsaQ, RsaDP, RsaDQ, RsaQInv, RsaOther, RsaRi, RsaDi, RsaTi]

/-- `CoseKey.from_dict` on a list (`cosekey.py:79-97`): `1 in l` looks for an element, `l[1]` is the second one.  It always raises: an element
equal to `1` is no pair (`pairRefused`), so the last alternative of the inner `match` does not occur. -/
def fromList (l : List Val) : Res Key :=
  if l.any (· == .cls KpKty) then .error .typeError
  else if l.any (keq · (.int 1)) then
    match l with
    | _ :: v :: _ => do
      let k ← ktyLookup v
      listExtracts l (extracted k)
      match l.findSome? pairRefused with
      | some e => .error e
      | none => .error .typeError
    | _ => .error .indexError
  else if l.any (· == .text b!"KTY") then .error .typeError
  else .error .illegalKeyType

/-- `CoseKey.from_dict` on any value (`cosekey.py:79-97`).  A key object behaves like its store. -/
def fromDictVal (C : Crypto) : Val → Res Key
  | .map d => fromDict C d
  | .key _ s => fromDict C s
  | .arr l => fromList l
  | _ => .error .typeError

/-- `CoseKey.decode` (`cosekey.py:30-39`). -/
def Key.decode (C : Crypto) (b : Bytes) : Res Key := do
  let v ← loads b
  fromDictVal C v

/-- `CoseKey.encode` (`cosekey.py:283-293`). -/
def Key.encode (k : Key) : Res Bytes := dumps fullname .ident (.map k.store)

/-! ### Keys of the `cryptography` package -/

/-- `EC2Key._from_cryptography_key` (`ec2.py:45-92`), given the numbers of the external key. -/
def ec2FromNumbers (C : Crypto) (crv : Cls) (x y : Nat) (d : Option Nat) (opt : Dict) : Res Key := do
  let bx ← toBytes x (crvSize crv)
  let bY ← toBytes y (crvSize crv)
  let base : Dict := [(.cls Ec2Crv, .cls crv), (.cls Ec2X, .bytes bx), (.cls Ec2Y, .bytes bY)]
  let base ← match d with
    | some n => do
      let bd ← toBytes n (crvSize crv)
      .ok (dupdate base [(.cls Ec2D, .bytes bd)])
    | none => .ok base
  ec2FromDict C (dupdate base opt)

/-- `EC2Key.generate_key` (`ec2.py:259-278`); `d` is the random private value. -/
def ec2Generate (C : Crypto) (crv : Val) (d : Nat) (opt : Dict) : Res Key := do
  let c ← parseCrv KtyEC2 crv
  let (x, y) ← C.ecPub c d
  ec2FromNumbers C c x y (some d) opt

/-- `OKPKey._from_cryptography_key` (`okp.py:46-85`), given the raw bytes of the external key. -/
def okpFromBytes (crv : Cls) (x : Bytes) (d : Option Bytes) (opt : Dict) : Res Key :=
  let base : Dict := [(.cls OkpCrv, .cls crv), (.cls OkpX, .bytes x)]
  let base := match d with
    | some (a :: t) => dset base (.cls OkpD) (.bytes (a :: t))
    | _ => base
  okpFromDict (dupdate base opt)

/-- `OKPKey.generate_key` (`okp.py:224-243`); `d` are the random private bytes. -/
def okpGenerate (C : Crypto) (crv : Val) (d : Bytes) (opt : Dict) : Res Key := do
  let c ← parseCrv KtyOKP crv
  let x ← C.okpPub c d
  okpFromBytes c x (some d) opt

/-- `to_bstr` (`rsa.py:17-19`). -/
def toBstr (n : Nat) : Bytes := beBytes ((bitLength n + 7) / 8) n

/-- `RSAKey._from_cryptography_key` (`rsa.py:77-112`). -/
def rsaFromNumbers (n e : Nat) (priv : Option RsaNums) (opt : Dict) : Res Key :=
  let base : Dict := [(.cls RsaE, .bytes (toBstr e)), (.cls RsaN, .bytes (toBstr n))]
  let base := match priv with
    | some k => dupdate base
        [(.cls RsaD, .bytes (toBstr k.d)), (.cls RsaP, .bytes (toBstr k.p)),
         (.cls RsaQ, .bytes (toBstr k.q)), (.cls RsaDP, .bytes (toBstr k.dp)),
         (.cls RsaDQ, .bytes (toBstr k.dq)), (.cls RsaQInv, .bytes (toBstr k.qinv))]
    | none => base
  rsaFromDict (dupdate base opt)

/-- `SymmetricKey.generate_key` (`symmetric.py:110-127`); `rnd n` is `os.urandom(n)`. -/
def symGenerate (rnd : Nat → Bytes) (keyLen : Int) (opt : Dict) : Res Key :=
  if keyLen = 16 ∨ keyLen = 24 ∨ keyLen = 32 then symInit (.bytes (rnd keyLen.toNat)) opt true
  else .error .valueError

/-! ### Attributes -/

/-- `key.alg` (`cosekey.py:236-240`); absent is `None`. -/
def Key.alg (k : Key) : Val := getD k.store KpAlg .none
/-- `key.key_ops` (`cosekey.py:258-262`). -/
def Key.keyOps (k : Key) : Val := getD k.store KpKeyOps (.arr [])
/-- `key.base_iv` (`cosekey.py:271-275`). -/
def Key.baseIv (k : Key) : Val := getD k.store KpBaseIV (.bytes [])
/-- `key.kid` (`cosekey.py:246-250`). -/
def Key.kid (k : Key) : Val := getD k.store KpKid (.bytes [])
/-- `key.kty` (`cosekey.py:226-230`). -/
def Key.kty (k : Key) : Val := getD k.store KpKty .none

/-- `key.k` (`symmetric.py:79-85`); only symmetric keys have it. -/
def Key.symK (k : Key) : Res Val :=
  if k.kind = .sym then
    match dget k.store (.cls SymK) with
    | some v => .ok v
    | none => .error .invalidKey
  else .error .attributeError

/-- `key.crv` (`ec2.py:183-192`, `okp.py:162-171`); symmetric and RSA keys have none. -/
def Key.crv (k : Key) : Res Val :=
  match k.kind with
  | .ec2 =>
    match dget k.store (.cls Ec2Crv) with
    | some v => .ok v
    | none => .error .invalidKey
  | .okp =>
    match dget k.store (.cls OkpCrv) with
    | some v => .ok v
    | none => .error .invalidKey
  | _ => .error .attributeError

/-- `key.x` (`ec2.py:202-208`, `okp.py:181-187`). -/
def Key.x (k : Key) : Res Val :=
  match k.kind with
  | .ec2 => .ok (getD k.store Ec2X (.bytes []))
  | .okp => .ok (getD k.store OkpX (.bytes []))
  | _ => .error .attributeError

/-- `key.y` (`ec2.py:216-222`). -/
def Key.y (k : Key) : Res Val :=
  match k.kind with
  | .ec2 => .ok (getD k.store Ec2Y (.bytes []))
  | _ => .error .attributeError

/-- `key.d` (`ec2.py:230-236`, `okp.py:195-201`, `rsa.py:227-229`). -/
def Key.d (k : Key) : Res Val :=
  match k.kind with
  | .ec2 => .ok (getD k.store Ec2D (.bytes []))
  | .okp => .ok (getD k.store OkpD (.bytes []))
  | .rsa => .ok (getD k.store RsaD (.bytes []))
  | .sym => .error .attributeError

/-- `key.<param>` of an RSA key (`rsa.py:207-285`). -/
def Key.rsaParam (k : Key) (c : Cls) : Res Val :=
  if k.kind = .rsa then .ok (getD k.store c (.bytes [])) else .error .attributeError

/-! ### Policy check -/

/-- `k in l` for an attribute class `k`. -/
def containsCls (l : Val) (c : Cls) : Res Bool :=
  match l with
  | .arr l => .ok (l.contains (.cls c))
  | .map l => .ok (dhas l (.cls c))
  | .key _ _ => .error .unsupported
  | _ => .error .typeError

/-- The loop of `cosekey.py:201-203`. -/
def anyOp (l : Val) : List Cls → Bool → Res Bool
  | [], acc => .ok acc
  | c :: t, acc => do
    let b ← containsCls l c
    anyOp l t (acc || b)

/-- `CoseKey.verify` (`cosekey.py:189-206`). -/
def Key.verify (k : Key) (kind : Kind) (alg : Val) (ops : List Cls) : Res Unit :=
  if k.kind ≠ kind then .error .coseException
  else do
    let conflict ←
      if k.alg = .none then .ok false
      else do
        let a ← identOf k.alg
        let b ← identOf alg
        .ok (a != b)
    if conflict then .error .illegalAlgorithm
    else do
      let n ← lenOf k.keyOps
      if n = 0 then .ok ()
      else do
        let m ← anyOp k.keyOps ops false
        if m then .ok () else .error .illegalKeyOps

/-! ### Mutation -/

/-- `key.alg = v` (`cosekey.py:242-244`). -/
def Key.setAlg (k : Key) (v : Val) : Res Key := do
  let a ← fromId .alg v
  .ok { k with store := dset k.store (.cls KpAlg) a }

/-- `key.kty = v` (`cosekey.py:232-234`): note that it looks the value up among the key
*parameters*. -/
def Key.setKty (k : Key) (v : Val) : Res Key := do
  let a ← fromId .kp v
  .ok { k with store := dset k.store (.cls KpKty) a }

/-- `key.kid = v` (`cosekey.py:252-256`). -/
def Key.setKid (k : Key) (v : Val) : Res Key := do
  let s ← setBytes .typeError k.store KpKid v
  .ok { k with store := s }

/-- `key.base_iv = v` (`cosekey.py:277-281`). -/
def Key.setBaseIv (k : Key) (v : Val) : Res Key := do
  let s ← setBytes .typeError k.store KpBaseIV v
  .ok { k with store := s }

/-- `key.k = v` (`symmetric.py:87-93`). -/
def Key.setK (k : Key) (v : Val) : Res Key :=
  if k.kind = .sym then do
    let s ← setSymK k.store v
    .ok { k with store := s }
  else .error .unsupported

/-- `key.crv = v` (`ec2.py:194-200`, `okp.py:173-179`). -/
def Key.setCrv (k : Key) (v : Val) : Res Key :=
  match k.kind with
  | .ec2 => do
    let c ← parseCrv KtyEC2 v
    .ok { k with store := dset k.store (.cls Ec2Crv) (.cls c) }
  | .okp => do
    let c ← parseCrv KtyOKP v
    .ok { k with store := dset k.store (.cls OkpCrv) (.cls c) }
  | _ => .error .unsupported

/-- `key.x = v`, `key.y = v`, `key.d = v`, … : the parameter classes with a `bytes` setter
(`ec2.py:210-242`, `okp.py:189-207`, `rsa.py:211-285`). -/
def bytesParams : Kind → List Cls
  | .sym => []
  | .ec2 => [Ec2X, Ec2Y, Ec2D]
  | .okp => [OkpX, OkpD]
  | .rsa => [RsaN, RsaE, RsaD, RsaP, RsaQ, RsaDP, RsaDQ, RsaQInv]

def Key.setParam (k : Key) (c : Cls) (v : Val) : Res Key :=
  if c ∈ bytesParams k.kind then do
    let s ← setBytes .typeError k.store c v
    .ok { k with store := s }
  else .error .unsupported

/-- Operations a key type supports (`symmetric.py:103`, `ec2.py:252`, `okp.py:217`, `rsa.py:295`). -/
def supportedOps : Kind → List Cls
  | .sym => [Op.MacCreate, Op.MacVerify, Op.Encrypt, Op.Decrypt, Op.Unwrap, Op.Wrap]
  | _ => [Op.Sign, Op.Verify, Op.DeriveKey, Op.DeriveBits]

/-- `_supported_by_key_type` (`cosekey.py:299-303`): class, identifier or exact full name. -/
def supportedBy (kind : Kind) (v : Val) : Res Bool :=
  match v with
  | .arr _ => .error .typeError
  | .map _ => .error .typeError
  | .key _ _ => .error .typeError
  | _ => .ok ((supportedOps kind).any fun c =>
      v == .cls c || keq v (.int c.ident) || v == .text (fullname c))

/-- `CoseKey.key_ops` setter (`cosekey.py:264-269`). -/
def Key.setKeyOpsBase (k : Key) (v : Val) : Res Key :=
  match v with
  | .arr l => do
    let l' ← fromIdL .op l
    .ok { k with store := dset k.store (.cls KpKeyOps) (.arr l') }
  | _ => .error .valueError

/-- The loop of the `key_ops` setters; the state survives an exception. -/
def keyOpsLoop (v : Val) : Key → List Val → Key × Res Unit
  | k, [] => (k, .ok ())
  | k, o :: t =>
    match supportedBy k.kind o with
    | .error e => (k, .error e)
    | .ok false => (k, .error .illegalKeyOps)
    | .ok true =>
      match k.setKeyOpsBase v with
      | .error e => (k, .error e)
      | .ok k' => keyOpsLoop v k' t

/-- `key.key_ops = v` (`symmetric.py:101-108`, `ec2.py:250-257`, `okp.py:215-222`,
`rsa.py:293-300`): the new key and the outcome.  A non-empty string iterates over single characters,
none of which is an operation. -/
def Key.setKeyOps (k : Key) (v : Val) : Key × Res Unit :=
  match v with
  | .arr l => keyOpsLoop v k l
  | .map l => keyOpsLoop v k (l.map (·.1))
  | .bytes b => keyOpsLoop v k (b.map fun x => .int x.toNat)
  | .text [] => (k, .ok ())
  | .text (_ :: _) => (k, .error .illegalKeyOps)
  | .key _ _ => (k, .error .unsupported)
  | _ => (k, .error .typeError)

/-- `CoseKey.__setitem__` (`cosekey.py:211-212`). Labels are hashable values. -/
def Key.setItem (k : Key) (label v : Val) : Res Key := do
  let a ← fromIdKey (kindReg k.kind) label true
  .ok { k with store := dset k.store a v }

/-- `CoseKey.__delitem__` (`cosekey.py:214-215`). -/
def Key.delBase (k : Key) (label : Val) : Res Key := do
  let a ← fromIdKey (kindReg k.kind) label true
  if dhas k.store a then .ok { k with store := ddel k.store a } else .error .keyError

/-- `del key[label]` (`symmetric.py:73-77`, `ec2.py:280-293`, `okp.py:245-254`, and the inherited
method for RSA): the new key and the outcome.  Deleting X or Y of an EC2 key with D removes X first
and may then fail on Y. -/
def Key.delItem (k : Key) (label : Val) : Key × Res Unit :=
  let lift (r : Res Key) : Key × Res Unit :=
    match r with
    | .ok k' => (k', .ok ())
    | .error e => (k, .error e)
  match k.kind with
  | .rsa => lift (k.delBase label)
  | .sym =>
    match fromIdKey .kpSym label false with
    | .error e => (k, .error e)
    | .ok a =>
      if a ≠ .cls KpKty ∧ a ≠ .cls SymK then lift (k.delBase label) else (k, .error .invalidKey)
  | .okp =>
    match fromIdKey .kpOkp label false with
    | .error e => (k, .error e)
    | .ok a =>
      if a ≠ .cls KpKty ∧ a ≠ .cls OkpCrv then
        if a = .cls OkpX ∧ dhas k.store (.cls OkpD) = false then (k, .error .invalidKey)
        else lift (k.delBase label)
      else (k, .error .invalidKey)
  | .ec2 =>
    match fromIdKey .kpEc2 label false with
    | .error e => (k, .error e)
    | .ok a =>
      if a ≠ .cls KpKty ∧ a ≠ .cls Ec2Crv then
        if a = .cls Ec2D ∧ (dhas k.store (.cls Ec2Y) = false ∨ dhas k.store (.cls Ec2X) = false) then
          (k, .error .invalidKey)
        else if a = .cls Ec2X ∧ dhas k.store (.cls Ec2D) = false then (k, .error .invalidKey)
        else if (a = .cls Ec2X ∨ a = .cls Ec2Y) ∧ dhas k.store (.cls Ec2D) = true then
          match k.delBase (.cls Ec2X) with
          | .error e => (k, .error e)
          | .ok k1 =>
            match k1.delBase (.cls Ec2Y) with
            | .error e => (k1, .error e)
            | .ok k2 => (k2, .ok ())
        else lift (k.delBase label)
      else (k, .error .invalidKey)

end Cose
