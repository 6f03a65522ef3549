import Verif.Key
/-!
# A key object as a mapping

`CoseKey` derives from `MutableMapping`.  The methods that write are in `Key.lean`; this file has the
methods that read, and runs a sequence of writes.
-/

set_option autoImplicit false

namespace Cose

/-- `key[label]` (`cosekey.py:208-209`); the class of the key decides how a label is translated
(`cosekey.py:295-297`, `symmetric.py:40-43`, `ec2.py:98-100`, `okp.py:107-110`, `rsa.py:118-120`). -/
def Key.getItem (k : Key) (label : Val) : Res Val := do
  let a ← fromIdKey (kindReg k.kind) label true
  match dget k.store a with
  | some v => .ok v
  | none => .error .keyError

/-- `label in key` (`cosekey.py:217-218`). -/
def Key.contains (k : Key) (label : Val) : Res Bool := do
  let a ← fromIdKey (kindReg k.kind) label true
  .ok (dhas k.store a)

/-- `list(key)` (`cosekey.py:220-221`). -/
def Key.labels (k : Key) : List Val := k.store.map (·.1)

/-- `len(key)` (`cosekey.py:223-224`). -/
def Key.len (k : Key) : Nat := k.store.length

/-- The writes on a key object, except `kty = …` and `key_ops = …`. -/
inductive KeyWrite
  | setItem (label v : Val)
  | delItem (label : Val)
  | setAlg (v : Val)
  | setKid (v : Val)
  | setBaseIv (v : Val)
  | setK (v : Val)
  | setCrv (v : Val)
  | setParam (c : Cls) (v : Val)

/-- A property assignment: the object is as before when it raises (`cosekey.py:242-281`). -/
def Key.assigned (k : Key) : Res Key → Key × Option PyErr
  | .ok k' => (k', none)
  | .error e => (k, some e)

/-- One write: the object afterwards and the exception, if one was raised (`cosekey.py:211-215`,
`cosekey.py:242-281` and the setters of the key classes). -/
def Key.write (k : Key) : KeyWrite → Key × Option PyErr
  | .setItem l v => k.assigned (k.setItem l v)
  | .delItem l =>
    match k.delItem l with
    | (k', .ok _) => (k', none)
    | (k', .error e) => (k', some e)
  | .setAlg v => k.assigned (k.setAlg v)
  | .setKid v => k.assigned (k.setKid v)
  | .setBaseIv v => k.assigned (k.setBaseIv v)
  | .setK v => k.assigned (k.setK v)
  | .setCrv v => k.assigned (k.setCrv v)
  | .setParam c v => k.assigned (k.setParam c v)

/-- A sequence of writes: the object at the end, and the exception of each write. -/
def Key.runWrites (k : Key) : List KeyWrite → Key × List (Option PyErr)
  | [] => (k, [])
  | w :: t => let r := (k.write w).1.runWrites t; (r.1, (k.write w).2 :: r.2)

end Cose
