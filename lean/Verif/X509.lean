import Verif.Alg
import Verif.Repr
/-!
# X.509 header values

Model of `/repo/pycose/extensions/x509.py`.  The certificate validator (`certvalidator.CertificateValidator(...).validate_usage`) is
a function given from outside: the end-entity certificate and the intermediate certificates go in, its result comes out.
-/
set_option autoImplicit false
namespace Cose

/-- Python's `v[i]` for `i = 0, 1`. -/
def pyItem (v : Val) (i : Nat) : Res Val :=
  match v with
  | .arr l => match l[i]? with
    | some x => .ok x
    | none => .error .indexError
  | .bytes l => match l[i]? with
    | some x => .ok (.int x.toNat)
    | none => .error .indexError
  | .text l => match (chars l)[i]? with
    | some x => .ok (.text x)
    | none => .error .indexError
  | .map d => match dget d (.int i) with
    | some x => .ok x
    | none => .error .keyError
  | .key _ d => match dget d (.int i) with
    | some x => .ok x
    | none => .error .keyError
  | _ => .error .typeError

/-- `alg.compute_hash(x)` for any argument: `h.update` takes bytes only (`algorithms.py:56-65`). -/
def computeHashVal (C : Crypto) (alg : Val) (x : Val) : Res Bytes :=
  match x with
  | .bytes b => computeHash C alg b
  | _ => match algFam alg with
    | some (.hash _ _) => .error .typeError
    | _ => .error .attributeError

/-- `X5T` (`x509.py:35-37`). -/
structure X5T where
  alg : Val
  thumbprint : Val
deriving DecidableEq

/-- The certificate to hash: `cbor2.loads(certificate)` if it is CBOR encoded (`x509.py:24-25,51-52`). -/
def certBytes (certificate : Bytes) (cborEncoded : Bool) : Res Val :=
  if cborEncoded then loads certificate else .ok (.bytes certificate)

/-- `X5T.from_certificate` (`x509.py:21-27`). -/
def X5T.fromCertificate (C : Crypto) (alg : Val) (certificate : Bytes) (cborEncoded : Bool := false) : Res X5T := do
  let c ← certBytes certificate cborEncoded
  let d ← computeHashVal C alg c
  .ok ⟨alg, .bytes d⟩

/-- `X5T.decode` (`x509.py:29-33`). -/
def X5T.decode (item : Val) : Res X5T := do
  let a ← pyItem item 0
  let a ← fromId .alg a
  let t ← pyItem item 1
  .ok ⟨a, t⟩

/-- `X5T.__eq__` (`x509.py:39-40`).  Classes are compared by identity; thumbprints are compared as dictionary keys are, which is
Python's equality for all values but containers, and stricter for containers. -/
def X5T.eq (s t : X5T) : Bool := keq s.alg t.alg && keq s.thumbprint t.thumbprint

/-- `X5T.encode` (`x509.py:42-44`). -/
def X5T.encode (t : X5T) : Val := .arr [t.alg, t.thumbprint]

/-- `X5T.matches` (`x509.py:46-55`). -/
def X5T.matchesCert (C : Crypto) (t : X5T) (certificate : Bytes) (cborEncoded : Bool := false) : Res Bool :=
  if truthy t.thumbprint then do
    let c ← certBytes certificate cborEncoded
    let d ← computeHashVal C t.alg c
    .ok (decide (t.thumbprint = .bytes d))
  else .ok false

/-- `X5U` and its `encode` (`x509.py:58-63`): the URI as it is given. -/
def X5U.encode (uri : Bytes) : Val := .text uri

/-- `X5Bag.__init__`, `X5Chain.__init__` without verification (`x509.py:10-14,67-71`): the stored value, which is also what `encode`
returns (`x509.py:16-17,83-84`). -/
def x5Collapse (certificates : Val) : Val :=
  match certificates with
  | .arr [c] => c
  | c => c

/-- `X5Chain.verify_chain` on the stored value (`x509.py:76-81`): `self.cert_chain[0]` and `self.cert_chain[1:]`. -/
def verifyChain (validator : Val → Val → Res Val) (chain : Val) : Res Val := do
  let e ← pyItem chain 0
  match chain with
  | .arr l => validator e (.arr (l.drop 1))
  | .bytes l => validator e (.bytes (l.drop 1))
  | .text l => validator e (.text ((chars l).drop 1).flatten)
  | _ => .error .typeError

/-- `X5Chain(cert_chain, verify)` (`x509.py:66-74`). -/
def X5Chain.init (validator : Val → Val → Res Val) (certs : Val) (verify : Bool) : Res Val :=
  if verify then do
    let _ ← verifyChain validator (x5Collapse certs)
    .ok (x5Collapse certs)
  else .ok (x5Collapse certs)

end Cose
