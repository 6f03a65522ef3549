import Verif.Context
/-!
# KDF contexts as objects

`Context.lean` models a KDF context as a value.  In Python it refers to two `PartyInfo` objects and a `SuppPubInfo` object, and the latter to the dictionary
of a protected header.  All their attributes can be assigned.  The default `PartyInfo` objects of the class are made once, when the class is defined
(`context.py:67-68`), and not for each context.

Simplification: the algorithm, the entries of the dictionaries and the attributes of the parties are values, not objects.
-/
set_option autoImplicit false
namespace Cose

/-- A `SuppPubInfo` object (`context.py:24-28`): `protected` is the address of a dictionary. -/
structure SuppObj where
  keyDataLength : Nat
  prot : Nat
  other : Val

/-- A `CoseKDFContext` object (`context.py:63-69`): the addresses of its parts. -/
structure CtxObj where
  algorithm : Val
  supp : Nat
  u : Nat
  v : Nat
  suppPriv : Val

/-- The objects of a program, by address, and the first unused address. -/
structure KMem where
  party : Nat → Option PartyInfo
  dict : Nat → Option Dict
  supp : Nat → Option SuppObj
  ctx : Nat → Option CtxObj
  next : Nat

/-- A table with another entry at `i`. -/
def kput {α : Type} (f : Nat → Option α) (i : Nat) (v : α) : Nat → Option α := fun j => if j = i then some v else f j

/-- The address of the default of `party_u_info` (`context.py:67`). -/
def defaultU : Nat := 0
/-- The address of the default of `party_v_info` (`context.py:68`). -/
def defaultV : Nat := 1

/-- After `import pycose.messages.context`: the two default objects exist (`context.py:67-68`). -/
def KMem.start : KMem :=
  { party := kput (kput (fun _ => none) defaultU {}) defaultV {}, dict := fun _ => none, supp := fun _ => none, ctx := fun _ => none, next := 2 }

/-- The attributes of `PartyInfo` (`context.py:14-16`). -/
inductive PartyField
  | identity
  | nonce
  | other

/-- `party.identity = v`, … (`context.py:12-16`: plain attributes). -/
def PartyInfo.assign (p : PartyInfo) : PartyField → Val → PartyInfo
  | .identity, v => { p with identity := v }
  | .nonce, v => { p with nonce := v }
  | .other, v => { p with other := v }

/-- What a program does with these objects; the numbers are addresses. -/
inductive KOp
  /-- `PartyInfo(identity, nonce, other)` -/
  | newParty (identity nonce other : Val)
  /-- a dictionary of the program, or of a message -/
  | newDict (d : Dict)
  /-- `SuppPubInfo(length, protected, other)`; without `protected` it gets a new dictionary -/
  | newSupp (length : Nat) (prot : Option Nat) (other : Val)
  /-- `CoseKDFContext(algorithm, supp, u, v, supp_priv)`; `none` for a party that is not given -/
  | newCtx (algorithm : Val) (supp : Nat) (u v : Option Nat) (suppPriv : Val)
  /-- `recipient.get_kdf_context(algorithm)` of a recipient with this protected header dictionary, and these other headers -/
  | ofRecipient (phdr : Nat) (uhdr localAttrs : Dict) (algorithm : Val)
  /-- `party.identity = v`, also as `ctx.party_u_info.identity = v` -/
  | setParty (a : Nat) (f : PartyField) (v : Val)
  /-- any change of a dictionary -/
  | writeDict (a : Nat) (d : Dict)
  /-- `supp.key_data_length = n` -/
  | setLength (a n : Nat)
  /-- `supp.protected = d` -/
  | setProtected (a d : Nat)
  /-- `supp.other = v` -/
  | setOther (a : Nat) (v : Val)
  /-- `ctx.algorithm = v` -/
  | setAlgorithm (c : Nat) (v : Val)
  /-- `ctx.supp_pub_info = s` -/
  | setSupp (c s : Nat)
  /-- `ctx.party_u_info = p` -/
  | setU (c p : Nat)
  /-- `ctx.party_v_info = p` -/
  | setV (c p : Nat)
  /-- `ctx.supp_priv_info = v` -/
  | setPriv (c : Nat) (v : Val)

/-- The context's parts all exist. -/
def KMem.whole (h : KMem) (o : CtxObj) : Bool := (h.supp o.supp).isSome && (h.party o.u).isSome && (h.party o.v).isSome

/-- Storing a new context (`context.py:63-69`), if its parts exist. -/
def KMem.addCtx (h : KMem) (o : CtxObj) : KMem :=
  if h.whole o then { h with ctx := kput h.ctx h.next o, next := h.next + 1 } else h

/-- Replacing the attributes of a context, if the new parts exist. -/
def KMem.editCtx (h : KMem) (c : Nat) (f : CtxObj → CtxObj) : KMem :=
  match h.ctx c with
  | some o => if h.whole (f o) then { h with ctx := kput h.ctx c (f o) } else h
  | none => h

/-- One operation: the state after it, or the exception.  Operations on objects that do not exist cannot be written in Python; here they change nothing. -/
def KMem.step (h : KMem) : KOp → Res KMem
  | .newParty i n o => .ok { h with party := kput h.party h.next ⟨i, n, o⟩, next := h.next + 1 }
  | .newDict d => .ok { h with dict := kput h.dict h.next d, next := h.next + 1 }
  | .newSupp n (some p) o =>
    if (h.dict p).isSome then .ok { h with supp := kput h.supp h.next ⟨n, p, o⟩, next := h.next + 1 } else .ok h
  | .newSupp n none o => .ok { h with dict := kput h.dict h.next [], supp := kput h.supp (h.next + 1) ⟨n, h.next, o⟩, next := h.next + 2 }
  | .newCtx a s u v p => .ok (h.addCtx ⟨a, s, u.getD defaultU, v.getD defaultV, p⟩)
  | .ofRecipient d uhdr loc alg =>
    match h.dict d with
    | none => .ok h
    | some phdr => do
      let c ← kdfContext { phdr := phdr, uhdr := uhdr, localAttrs := loc } alg
      .ok { h with
            party := kput (kput h.party h.next c.partyU) (h.next + 1) c.partyV,
            supp := kput h.supp (h.next + 2) ⟨c.suppPub.keyDataLength, d, c.suppPub.other⟩,
            ctx := kput h.ctx (h.next + 3) ⟨c.algorithm, h.next + 2, h.next, h.next + 1, c.suppPriv⟩,
            next := h.next + 4 }
  | .setParty a f v =>
    match h.party a with
    | some p => .ok { h with party := kput h.party a (p.assign f v) }
    | none => .ok h
  | .writeDict a d => if (h.dict a).isSome then .ok { h with dict := kput h.dict a d } else .ok h
  | .setLength a n =>
    match h.supp a with
    | some s => if n = 16 ∨ n = 24 ∨ n = 32 then .ok { h with supp := kput h.supp a { s with keyDataLength := n } } else .error .valueError
    | none => .ok h
  | .setProtected a d =>
    match h.supp a with
    | some s => if (h.dict d).isSome then .ok { h with supp := kput h.supp a { s with prot := d } } else .ok h
    | none => .ok h
  | .setOther a v =>
    match h.supp a with
    | some s => .ok { h with supp := kput h.supp a { s with other := v } }
    | none => .ok h
  | .setAlgorithm c v => .ok (h.editCtx c fun o => { o with algorithm := v })
  | .setSupp c s => .ok (h.editCtx c fun o => { o with supp := s })
  | .setU c p => .ok (h.editCtx c fun o => { o with u := p })
  | .setV c p => .ok (h.editCtx c fun o => { o with v := p })
  | .setPriv c v => .ok (h.editCtx c fun o => { o with suppPriv := v })

/-- A program: an operation that raises changes nothing, and the program goes on. -/
def KMem.run : List KOp → KMem → KMem
  | [], h => h
  | op :: t, h =>
    match h.step op with
    | .ok h' => KMem.run t h'
    | .error _ => KMem.run t h

/-- The value of a context in this state: what its attributes show now. -/
def KMem.view (h : KMem) (c : Nat) : Option KdfContext := do
  let o ← h.ctx c
  let s ← h.supp o.supp
  let d ← h.dict s.prot
  let u ← h.party o.u
  let v ← h.party o.v
  some { algorithm := o.algorithm, suppPub := ⟨s.keyDataLength, d, s.other⟩, partyU := u, partyV := v, suppPriv := o.suppPriv }

/-- `ctx.encode()` (`context.py:71-80`) of the context at an address. -/
def KMem.encode (h : KMem) (c : Nat) : Option (Res Bytes) := (h.view c).map KdfContext.encode

end Cose
