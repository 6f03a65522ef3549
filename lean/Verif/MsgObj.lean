import Verif.Header
/-!
# A message object and the attribute writes a program can make on it

The setters themselves are in `Header.lean`; this file adds the `key` setter and runs a sequence of
writes, where a write that raises leaves the object as it was (every setter checks its argument before it
assigns) and the program goes on.
-/

set_option autoImplicit false

namespace Cose

/-- What can be assigned to `msg.key`: `None`, a key object of one of the four key classes, or anything
else. -/
inductive KeyArg
  | none
  | key (k : Key)
  | other
deriving DecidableEq, Repr

/-- `key` setter (`cosemessage.py:118-128`). -/
def Base.setKey (b : Base) : KeyArg → Res Base
  | .none => .ok { b with key := Option.none }
  | .key k => .ok { b with key := some k }
  | .other => .error .invalidKey

/-- `del msg.phdr[k]` (`cosebase.py:83-85`, a plain dictionary). -/
def Base.phdrDel (b : Base) (k : Val) : Res Base :=
  match dget b.phdr k with
  | some _ => .ok (b.phdrDelItem k)
  | none => .error .keyError

/-- The writes: assignments to the properties `phdr`, `uhdr`, `payload`, `external_aad`, `key` and
`local_attrs`, the two update methods, and item assignment and deletion on the dictionary `phdr` returns
(`cosebase.py:87-122`, `cosemessage.py:108-138`). -/
inductive MsgOp
  | setPhdr (v : Val)
  | setUhdr (v : Val)
  | phdrUpdate (v : Val)
  | uhdrUpdate (v : Val)
  | phdrSetItem (k v : Val)
  | phdrDelItem (k : Val)
  | setPayload (v : Val)
  | setAad (v : Val)
  | setKey (k : KeyArg)
  | setLocal (d : Dict)

/-- One write. -/
def Base.apply (b : Base) : MsgOp → Res Base
  | .setPhdr v => b.setPhdr v
  | .setUhdr v => b.setUhdr v
  | .phdrUpdate v => b.phdrUpdate v
  | .uhdrUpdate v => b.uhdrUpdate v
  | .phdrSetItem k v => .ok (b.phdrSetItem k v)
  | .phdrDelItem k => b.phdrDel k
  | .setPayload v => b.setPayload v
  | .setAad v => b.setAad v
  | .setKey k => b.setKey k
  | .setLocal d => .ok (b.setLocal d)

/-- A sequence of writes: the object at the end, and for each write the exception it raised, if any. -/
def Base.run (b : Base) : List MsgOp → Base × List (Option PyErr)
  | [] => (b, [])
  | op :: t =>
    match b.apply op with
    | .ok b' => let (b'', es) := b'.run t; (b'', Option.none :: es)
    | .error e => let (b'', es) := b.run t; (b'', some e :: es)

end Cose
