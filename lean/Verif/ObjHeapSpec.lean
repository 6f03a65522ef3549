import Verif.ObjHeap
/-!
# The words in which C94 is stated
-/
set_option autoImplicit false
namespace Cose

/-- In this state the element has the value `v`. -/
def Spec.Shows (h : Mem) (e : Elem) (v : Val) : Prop := ∃ n, valueAt h.cell n e = some v

/-- The dictionaries that belong to a message. -/
def MObj.dicts (o : MObj) : List Nat := [o.phdr, o.uhdr, o.loc]

/-- What a message refers to. -/
def MObj.parts (o : MObj) : List Elem := o.dicts.map .ref ++ (o.key.map .ref).toList

/-- The key a message refers to. -/
def Spec.ShowsKey (h : Mem) : Option Nat → Option Key → Prop
  | none, none => True
  | some a, some k => Spec.Shows h (.ref a) k.toVal
  | _, _ => False

/-- In this state the message `m` shows the headers, payload, external data and key of `b`. -/
def Spec.Looks (h : Mem) (m : Nat) (b : Base) : Prop :=
  ∃ o, h.msg m = some o ∧ o.phdrEnc = b.phdrEnc ∧ Spec.Shows h (.ref o.phdr) (.map b.phdr) ∧ Spec.Shows h (.ref o.uhdr) (.map b.uhdr) ∧
    Spec.Shows h (.ref o.loc) (.map b.localAttrs) ∧ o.payload = b.payload ∧ o.aad = b.aad ∧ o.tstr = b.tstr ∧ Spec.ShowsKey h o.key b.key

/-- The objects an operation changes in place. -/
def Spec.changes (h : Mem) : MemOp → List Nat
  | .write a _ => [a]
  | .phdrUpdate m _ => ((h.msg m).map (·.phdr)).toList
  | .uhdrUpdate m _ => ((h.msg m).map (·.uhdr)).toList
  | .setLocal m _ => ((h.msg m).map (·.loc)).toList
  | _ => []

/-- An ordinary operation: it does not put the header dictionary of a message itself into a list, dictionary or key (as `d['x'] = msg.phdr` would), and
does not assign a dictionary that contains itself as a header. -/
def Spec.Ordinary (h : Mem) : MemOp → Prop
  | .new c | .write _ c => ∀ m o, h.msg m = some o → ∀ a ∈ o.dicts, .ref a ∉ c.elems
  | .setPhdr _ e | .setUhdr _ e => ∃ v, Spec.Shows h e v
  | _ => True

/-- All operations of the program are ordinary when they are carried out. -/
def Spec.OrdinaryRun (C : Crypto) (h : Mem) (p : List MemOp) : Prop := ∀ q op r, p = q ++ op :: r → Spec.Ordinary (Mem.run C q h) op

/-- The write of `MsgOp` with these argument values. -/
def Spec.Same (h : Mem) : MemOp → MsgOp → Prop
  | .setPhdr _ e, .setPhdr v => Spec.Shows h e v
  | .setUhdr _ e, .setUhdr v => Spec.Shows h e v
  | .phdrUpdate _ e, .phdrUpdate v => Spec.Shows h e v
  | .uhdrUpdate _ e, .uhdrUpdate v => Spec.Shows h e v
  | .setPayload _ v, .setPayload w => v = w
  | .setAad _ v, .setAad w => v = w
  | .setKey _ .none, .setKey .none => True
  | .setKey _ (.key a), .setKey (.key k) => Spec.Shows h (.ref a) k.toVal
  | .setKey _ .other, .setKey .other => True
  | .setLocal _ e, .setLocal d => Spec.Shows h e (.map d) ∨ ∃ k, Spec.Shows h e (.key k d)
  | _, _ => False

/-- The key argument of a constructor. -/
def Spec.SameKey (h : Mem) : KeyRef → Option Key → Prop
  | .none, none => True
  | .key a, some k => Spec.Shows h (.ref a) k.toVal
  | _, _ => False

/-- The operation is not one on `m`, and does not change in place an object that can be reached from `m`. -/
def Spec.Elsewhere (h : Mem) (m : Nat) (op : MemOp) : Prop :=
  op.target ≠ some m ∧ ∀ a c, op = .write a c → ∀ o, h.msg m = some o → ∀ e ∈ o.parts, ¬ h.Reaches e a

/-- The program `p`, started in `h`, makes the writes `q` on the message `m`, among operations that do not concern it.  The writes are the setters, the update
methods, and assignment and deletion of items of the dictionary that `m.phdr` returns. -/
inductive Spec.History (C : Crypto) (m : Nat) : Mem → List MemOp → List MsgOp → Prop
  | done {h : Mem} : History C m h [] []
  | elsewhere {h : Mem} {op : MemOp} {p : List MemOp} {q : List MsgOp} : Spec.Elsewhere h m op → History C m (Mem.run C [op] h) p q → History C m h (op :: p) q
  | own {h : Mem} {op : MemOp} {w : MsgOp} {p : List MemOp} {q : List MsgOp} : op.target = some m → Spec.Same h op w → History C m (Mem.run C [op] h) p q →
      History C m h (op :: p) (w :: q)
  | setItem {h : Mem} {o : MObj} {es : List (Val × Elem)} {k v : Val} {e : Elem} {p : List MemOp} {q : List MsgOp} : h.msg m = some o →
      h.cell o.phdr = some (.dict es) → Spec.Shows h e v → History C m (Mem.run C [.write o.phdr (.dict (rset es k e))] h) p q →
      History C m h (.write o.phdr (.dict (rset es k e)) :: p) (.phdrSetItem k v :: q)
  | delItem {h : Mem} {o : MObj} {es : List (Val × Elem)} {k k' : Val} {e : Elem} {p : List MemOp} {q : List MsgOp} : h.msg m = some o →
      h.cell o.phdr = some (.dict es) → (k', e) ∈ es → keq k' k = true → History C m (Mem.run C [.write o.phdr (.dict (rdel es k))] h) p q →
      History C m h (.write o.phdr (.dict (rdel es k)) :: p) (.phdrDelItem k :: q)

/-- No operation of the program is one on `m`. -/
def Spec.NotOn (m : Nat) (p : List MemOp) : Prop := ∀ op ∈ p, op.target ≠ some m

/-- The program changes in place none of the objects that exist in `h'` but not in `h`. -/
def Spec.Spares (h h' : Mem) (p : List MemOp) : Prop := ∀ a c, .write a c ∈ p → (h.cell a).isSome ∨ h'.cell a = none

/-- The states that ordinary programs reach. -/
def Spec.MemReached (C : Crypto) (h : Mem) : Prop := ∃ p, Spec.OrdinaryRun C {} p ∧ h = Mem.run C p {}

end Cose
