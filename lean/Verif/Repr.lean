import Verif.Multi
/-!
# Printing keys and messages

`repr(key)` and `repr(message)`.  The texts are built by Python from dictionaries of names and values; the model
has the dictionary (`Shown`), and leaves to Python how a list, a dictionary or a string is written.
-/

set_option autoImplicit false

namespace Cose

/-! ### Names of the attribute classes (`__name__`) -/

/-- `/repo/pycose/headers.py:16-166`. -/
def hdrNames : List (Int × Bytes) :=
  [(0, b!"Reserved"), (1, b!"Algorithm"), (2, b!"Critical"), (3, b!"ContentType"), (4, b!"KID"),
   (5, b!"IV"), (6, b!"PartialIV"), (7, b!"CounterSignature"), (9, b!"CounterSignature0"),
   (10, b!"KIDContext"), (32, b!"X5bag"), (33, b!"X5chain"), (34, b!"X5t"), (35, b!"X5u"),
   (-1, b!"EphemeralKey"), (-2, b!"StaticKey"), (-3, b!"StaticKeyID"), (-20, b!"Salt"),
   (-21, b!"PartyUID"), (-22, b!"PartyUNonce"), (-23, b!"PartyUOther"), (-24, b!"PartyVID"),
   (-25, b!"PartyVNonce"), (-26, b!"PartyVOther"), (-998, b!"SuppPubOther"),
   (-999, b!"SuppPrivOther")]
/-- `/repo/pycose/algorithms.py:349-1409`. -/
def algNames : List (Int × Bytes) :=
  [(-65535, b!"RsaPkcs1Sha1"), (-259, b!"RsaPkcs1Sha512"), (-258, b!"RsaPkcs1Sha384"),
   (-257, b!"RsaPkcs1Sha256"), (-45, b!"Shake256"), (-44, b!"Sha512"), (-43, b!"Sha384"),
   (-42, b!"RsaesOaepSha512"), (-41, b!"RsaesOaepSha256"), (-40, b!"RsaesOaepSha1"),
   (-39, b!"Ps512"), (-38, b!"Ps384"), (-37, b!"Ps256"), (-36, b!"Es512"), (-35, b!"Es384"),
   (-34, b!"EcdhSsA256KW"), (-33, b!"EcdhSsA192KW"), (-32, b!"EcdhSsA128KW"),
   (-31, b!"EcdhEsA256KW"), (-30, b!"EcdhEsA192KW"), (-29, b!"EcdhEsA128KW"),
   (-28, b!"EcdhSsHKDF512"), (-27, b!"EcdhSsHKDF256"), (-26, b!"EcdhEsHKDF512"),
   (-25, b!"EcdhEsHKDF256"), (-18, b!"Shake128"), (-17, b!"Sha512Trunc256"), (-16, b!"Sha256"),
   (-15, b!"Sha256Trunc64"), (-14, b!"Sha1"), (-13, b!"DirectHKDFAES256"),
   (-12, b!"DirectHKDFAES128"), (-11, b!"DirecHKDFSHA512"), (-10, b!"DirectHKDFSHA256"),
   (-8, b!"EdDSA"), (-7, b!"Es256"), (-6, b!"Direct"), (-5, b!"A256KW"), (-4, b!"A192KW"),
   (-3, b!"A128KW"), (1, b!"A128GCM"), (2, b!"A192GCM"), (3, b!"A256GCM"), (4, b!"HMAC25664"),
   (5, b!"HMAC256"), (6, b!"HMAC384"), (7, b!"HMAC512"), (10, b!"AESCCM1664128"),
   (11, b!"AESCCM1664256"), (12, b!"AESCCM6464128"), (13, b!"AESCCM6464256"),
   (14, b!"AESMAC12864"), (15, b!"AESMAC25664"), (25, b!"AESMAC128128"), (26, b!"AESMAC256128"),
   (30, b!"AESCCM16128128"), (31, b!"AESCCM16128256"), (32, b!"AESCCM64128128"),
   (33, b!"AESCCM64128256")]
/-- `/repo/pycose/keys/keyparam.py:25-49`. -/
def kpNames : List (Int × Bytes) :=
  [(1, b!"KpKty"), (2, b!"KpKid"), (3, b!"KpAlg"), (4, b!"KpKeyOps"), (5, b!"KpBaseIV")]
/-- `/repo/pycose/keys/keyparam.py:68-86`. -/
def kpEc2Names : List (Int × Bytes) :=
  [(-1, b!"EC2KpCurve"), (-2, b!"EC2KpX"), (-3, b!"EC2KpY"), (-4, b!"EC2KpD")]
/-- `/repo/pycose/keys/keyparam.py:105-117`. -/
def kpOkpNames : List (Int × Bytes) :=
  [(-1, b!"OKPKpCurve"), (-4, b!"OKPKpD"), (-2, b!"OKPKpX")]
/-- `/repo/pycose/keys/keyparam.py:136-202`. -/
def kpRsaNames : List (Int × Bytes) :=
  [(-1, b!"RSAKpN"), (-2, b!"RSAKpE"), (-3, b!"RSAKpD"), (-4, b!"RSAKpP"), (-5, b!"RSAKpQ"),
   (-6, b!"RSAKpDP"), (-7, b!"RSAKpDQ"), (-8, b!"RSAKpQInv"), (-9, b!"RSAKpOther"),
   (-10, b!"RSAKpRi"), (-11, b!"RSAKpDi"), (-12, b!"RSAKpTi")]
/-- `/repo/pycose/keys/keyparam.py:221-221`. -/
def kpSymNames : List (Int × Bytes) :=
  [(-1, b!"SymKpK")]
/-- `/repo/pycose/keys/keyops.py:16-70`. -/
def opNames : List (Int × Bytes) :=
  [(1, b!"SignOp"), (2, b!"VerifyOp"), (3, b!"EncryptOp"), (4, b!"DecryptOp"), (5, b!"WrapOp"),
   (6, b!"UnwrapOp"), (7, b!"DeriveKeyOp"), (8, b!"DeriveBitsOp"), (9, b!"MacCreateOp"),
   (10, b!"MacVerifyOp")]
/-- `/repo/pycose/keys/keytype.py:16-40`. -/
def ktyNames : List (Int × Bytes) :=
  [(0, b!"KtyReserved"), (1, b!"KtyOKP"), (2, b!"KtyEC2"), (3, b!"KtyRSA"),
   (4, b!"KtySymmetric")]
/-- `/repo/pycose/keys/curves.py:40-232`. -/
def crvNames : List (Int × Bytes) :=
  [(0, b!"Reserved"), (1, b!"P256"), (2, b!"P384"), (3, b!"P521"), (4, b!"X25519"),
   (5, b!"X448"), (6, b!"Ed25519"), (7, b!"Ed448"), (8, b!"SECP256K1")]

def nameRows : Reg → List (Int × Bytes)
  | .hdr => hdrNames | .alg => algNames | .kp => kpNames | .kpEc2 => kpEc2Names | .kpOkp => kpOkpNames
  | .kpRsa => kpRsaNames | .kpSym => kpSymNames | .op => opNames | .kty => ktyNames | .crv => crvNames

/-- `cls.__name__`; the tables list every class of the package that can be a label or a value. -/
def className (c : Cls) : Bytes := ((nameRows c.reg).lookup c.ident).getD []

/-! ### What is shown -/

/-- A text under construction: `atom v` is Python's own `repr` of `v`; `trunc` is the result of `utils.truncate`. -/
inductive Shown where
  | atom (v : Val)
  | list (l : List Shown)
  | dict (l : List (Val × Shown))
  | tagged (n : Nat) (v : Shown)
  | trunc (start : Shown) (len : Nat)
  | key (k : Kind) (l : List (Val × Shown))
  | msg (name : Bytes) (l : List Shown)

/-- A label, its value and how the value is shown. -/
abbrev Entries := List (Val × Val × Res Shown)

/-- `d[k] = x` on such a dictionary. -/
def putE : Entries → Val → Val × Res Shown → Entries
  | [], k, x => [(k, x)]
  | (k', y) :: t, k, x => if keq k' k then (k', x) :: t else (k', y) :: putE t k x

/-- `d.get(k)`. -/
def findE : Entries → Val → Option (Val × Res Shown)
  | [], _ => none
  | (k', y) :: t, k => if keq k' k then some y else findE t k

/-- `x.__name__ if hasattr(x, '__name__') else x`. -/
def nameOf : Val → Val
  | .cls c => .text (className c)
  | v => v

def shownName : Val → Res Shown → Res Shown
  | .cls c, _ => .ok (.atom (.text (className c)))
  | _, s => s

/-- The dictionary comprehension with the names (`cosekey.py:306-309`, `cosebase.py:176-180`): a label that is
there already keeps its place and gets the new value. -/
def names (es : Entries) : Entries :=
  es.foldl (fun acc e => putE acc (nameOf e.1) (nameOf e.2.1, shownName e.2.1 e.2.2)) []

/-- The sort key of `cosekey.py:309`. -/
def rank : Val → Int
  | .cls c => c.ident
  | _ => 65536

def insertE (e : Val × Val × Res Shown) : Entries → Entries
  | [] => [e]
  | e' :: t => if rank e.1 ≤ rank e'.1 then e :: e' :: t else e' :: insertE e t

/-- `sorted(store, key=…)` (`cosekey.py:309`); the sort is stable. -/
def sortE : Entries → Entries
  | [] => []
  | e :: t => insertE e (sortE t)

/-- The first `n` characters of a text, given by its UTF-8 bytes. -/
def takeChars : Nat → Bytes → Bytes
  | _, [] => []
  | n, b :: t =>
    if 128 ≤ b.toNat ∧ b.toNat < 192 then b :: takeChars n t
    else match n with
      | 0 => []
      | n + 1 => b :: takeChars n t

/-- The number of characters of a text. -/
def countChars (s : Bytes) : Nat := (s.filter fun b => b.toNat < 128 || 192 ≤ b.toNat).length

/-- The characters of a text, as texts. -/
def chars : Bytes → List Bytes
  | [] => []
  | b :: t =>
    match chars t with
    | [] => [[b]]
    | (c :: cs) =>
      match c with
      | x :: _ => if 128 ≤ x.toNat ∧ x.toNat < 192 then (b :: c) :: cs else [b] :: c :: cs
      | [] => [b] :: cs

/-- `utils.truncate` (`utils.py:80-81`).  Slicing a dictionary or a key object raises `TypeError` (`KeyError` from
Python 3.12 on). -/
def truncate : Val → Res Shown → Res Shown
  | .bytes b, _ => .ok (.trunc (.atom (.bytes (b.take 5))) b.length)
  | .text s, _ => .ok (.trunc (.atom (.text (takeChars 5 s))) (countChars s))
  | .arr l, s => do
    match ← s with
    | .list ls => .ok (.trunc (.list (ls.take 5)) l.length)
    | s => .ok s
  | _, _ => .error .typeError

/-- `if name in d and len(d[name]) > 0: d[name] = utils.truncate(d[name])` (`cosekey.py:315-316`,
`cosebase.py:182-192`, `symmetric.py:132-133`, `okp.py:259-264`, `ec2.py:298-303`). -/
def truncAt (name : Bytes) (es : Entries) : Res Entries :=
  match findE es (.text name) with
  | none => .ok es
  | some (v, s) => do
    let n ← lenOf v
    if n > 0 then do
      let s' ← truncate v s
      .ok (putE es (.text name) (v, .ok s'))
    else .ok es

def truncAll : List Bytes → Entries → Res Entries
  | [], es => .ok es
  | n :: t, es => do
    let es ← truncAt n es
    truncAll t es

/-- An element of the list of key operations, with its class replaced by its name (`cosekey.py:312`). -/
def opName (v : Val) (s : Shown) : Shown :=
  match v with
  | .cls c => .atom (.text (className c))
  | _ => s

/-- The key operations (`cosekey.py:311-313`).  Iterating over a dictionary or a key object is not modelled. -/
def opsShown : Val → Res Shown → Res (Res Shown)
  | .arr l, s => .ok do
    match ← s with
    | .list ls => .ok (.list (List.zipWith opName l ls))
    | s => .ok s
  | .text s, _ => .ok (.ok (.list ((chars s).map fun c => .atom (.text c))))
  | .bytes b, _ => .ok (.ok (.list (b.map fun x => .atom (.int x.toNat))))
  | .map _, _ => .error .unsupported
  | .key _ _, _ => .error .unsupported
  | _, _ => .error .typeError

def opsAt (es : Entries) : Res Entries :=
  match findE es (.text b!"KpKeyOps") with
  | none => .ok es
  | some (v, s) => do
    let s' ← opsShown v s
    .ok (putE es (.text b!"KpKeyOps") (v, s'))

/-- Writing the dictionary. -/
def finish : Entries → Res (List (Val × Shown))
  | [] => .ok []
  | (k, _, s) :: t => do
    let s ← s
    let t ← finish t
    .ok ((k, s) :: t)

/-- The parameters a key class shortens (`symmetric.py:132-133`, `ec2.py:298-303`, `okp.py:259-264`,
`rsa.py:317-319`). -/
def shortened : Kind → List Bytes
  | .sym => [b!"SymKpK"]
  | .ec2 => [b!"EC2KpD", b!"EC2KpX", b!"EC2KpY"]
  | .okp => [b!"OKPKpD", b!"OKPKpX", b!"OKPKpY"]
  | .rsa => []

/-- `CoseKey._key_repr` (`cosekey.py:305-318`) and the `__repr__` of the key classes (`symmetric.py:129-137`,
`ec2.py:295-306`, `okp.py:256-267`, `rsa.py:317-319`). -/
def keyShown (kd : Kind) (es : Entries) : Res Shown := do
  let es ← opsAt (names (sortE es))
  let es ← truncAt b!"BASE_IV" es
  let es ← truncAll (shortened kd) es
  let l ← finish es
  .ok (.key kd l)

mutual
/-- `repr(v)`. -/
def showVal : Val → Res Shown
  | .arr l => do
    let s ← showL l
    .ok (.list s)
  | .map d => do
    let s ← finish (showE d)
    .ok (.dict s)
  | .tag n v => do
    let s ← showVal v
    .ok (.tagged n s)
  | .key kd s => keyShown kd (showE s)
  | v => .ok (.atom v)
termination_by structural x => x
def showL : List Val → Res (List Shown)
  | [] => .ok []
  | v :: t => do
    let s ← showVal v
    let ss ← showL t
    .ok (s :: ss)
termination_by structural x => x
def showE : List (Val × Val) → Entries
  | [] => []
  | p :: t => showP p :: showE t
termination_by structural x => x
def showP : Val × Val → Val × Val × Res Shown
  | (k, v) => (k, v, showVal v)
termination_by structural x => x
end

/-- `repr(key)`. -/
def Key.repr (k : Key) : Res Shown := keyShown k.kind (showE k.store)

/-- One of the two dictionaries of `CoseBase._hdr_repr` (`cosebase.py:175-194`). -/
def hdrShown (d : Dict) : Res Shown := do
  let es ← truncAll [b!"IV", b!"PARTIAL_IV"] (names (showE d))
  let l ← finish es
  .ok (.dict l)

/-- `utils.truncate(self._payload)`. -/
def payloadShown : Option Bytes → Res Shown
  | some b => truncate (.bytes b) (.ok (.atom (.bytes b)))
  | none => .error .typeError

/-- The common part of the `__repr__` methods of messages and recipients. -/
def baseShown (b : Base) : Res (List Shown) := do
  let p ← hdrShown b.phdr
  let u ← hdrShown b.uhdr
  let pl ← payloadShown b.payload
  .ok [p, u, pl]

/-- `CoseSignature.__repr__` (`signer.py:75-76`): the dictionaries as they are. -/
def signerShown (b : Base) : Res Shown := do
  let p ← showVal (.map b.phdr)
  let u ← showVal (.map b.uhdr)
  let pl ← payloadShown b.payload
  .ok (.msg b!"COSE_Signature" [p, u, pl])

def signersShown : List Base → Res (List Shown)
  | [] => .ok []
  | b :: t => do
    let s ← signerShown b
    let ss ← signersShown t
    .ok (s :: ss)

mutual
/-- `CoseRecipient.__repr__` (`recipient.py:241-244`, `:367-370`, `:461-464`, `:567-570`). -/
def Rcpt.repr : Rcpt → Res Shown
  | .mk _ b _ _ rs => do
    let h ← baseShown b
    let r ← rcptsShown rs
    .ok (.msg b!"COSE_Recipient" (h ++ [.list r]))
termination_by structural x => x
def rcptsShown : List Rcpt → Res (List Shown)
  | [] => .ok []
  | r :: t => do
    let s ← r.repr
    let ss ← rcptsShown t
    .ok (s :: ss)
termination_by structural x => x
end

/-- `utils.truncate` of a signature or tag. -/
def tailShown (v : Val) : Res Shown := truncate v (showVal v)

/-- `repr(message)` (`enc0message.py:71-74`, `encmessage.py:140-144`, `mac0message.py:53-57`,
`macmessage.py:105-110`, `sign1message.py:90-94`, `signmessage.py:89-92`). -/
def Msg.repr : Msg → Res Shown
  | .enc0 m => do
    let h ← baseShown m.base
    .ok (.msg b!"COSE_Encrypt0" h)
  | .mac0 m => do
    let h ← baseShown m.base
    let t ← tailShown m.authTag
    .ok (.msg b!"COSE_Mac0" (h ++ [t]))
  | .sign1 m => do
    let h ← baseShown m.base
    let t ← tailShown m.signature
    .ok (.msg b!"COSE_Sign1" (h ++ [t]))
  | .enc m => do
    let h ← baseShown m.base
    let r ← rcptsShown m.recipients
    .ok (.msg b!"COSE_Encrypt" (h ++ [.list r]))
  | .mac m => do
    let h ← baseShown m.base
    let t ← tailShown m.authTag
    match m.recipients with
    | none => .ok (.msg b!"COSE_Mac" (h ++ [t, .atom .none]))
    | some rs => do
      let r ← rcptsShown rs
      .ok (.msg b!"COSE_Mac" (h ++ [t, .list r]))
  | .sign m => do
    let h ← baseShown m.base
    let s ← signersShown m.signers
    .ok (.msg b!"COSE_Sign" (h ++ [.list s]))

end Cose
