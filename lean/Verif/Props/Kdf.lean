import Verif.Context
import Verif.CborPy
import Verif.Props.Samples
/-!
# The key derivation context (C49)
-/
set_option autoImplicit false
namespace Cose

/-! ### Specification -/

/-- A party: identity, nonce, other. -/
structure Spec.Party where
  identity : Val
  nonce : Val
  other : Val

def Spec.Party.item (p : Spec.Party) : Val := .arr [p.identity, p.nonce, p.other]

/-- An optional element at the end of an array; empty strings are left out. -/
def Spec.optional (v : Val) : List Val := if v = .bytes [] then [] else [v]

/-- `COSE_KDF_Context` (RFC 8152 section 11.2). -/
def Spec.kdfContext (alg : Int) (u v : Spec.Party) (bits : Nat) (protectedHeader : Bytes) (pubOther privOther : Val) : Val :=
  .arr ([.int alg, u.item, v.item, .arr ([.int bits, .bytes protectedHeader] ++ Spec.optional pubOther)] ++ Spec.optional privOther)

/-- `nil` or a byte string (or, for the nonce, an integer). -/
def Spec.PartyField (v : Val) : Prop := v = .none ∨ (∃ b, v = .bytes b) ∨ (∃ i, v = .int i)

def Spec.Party.WF (p : Spec.Party) : Prop := Spec.PartyField p.identity ∧ Spec.PartyField p.nonce ∧ Spec.PartyField p.other

/-- Key lengths in bits of the symmetric algorithms and of the key wrap algorithms inside ECDH-ES/SS + AES-KW (RFC 8152 tables 9, 10, 13, 14, 20). -/
def Spec.keyBits (alg : Int) : Option Nat :=
  if alg ∈ [1, 10, 12, 30, 32, 14, 25, -3, -29, -32] then some 128
  else if alg ∈ [2, -4, -30, -33] then some 192
  else if alg ∈ [3, 11, 13, 31, 33, 15, 26, -5, -31, -34] then some 256
  else none

/-- A `KdfContext` as a tuple of the specification. -/
def KdfContext.u (c : KdfContext) : Spec.Party := ⟨c.partyU.identity, c.partyU.nonce, c.partyU.other⟩
def KdfContext.v (c : KdfContext) : Spec.Party := ⟨c.partyV.identity, c.partyV.nonce, c.partyV.other⟩

/-! ### Lemmas -/

theorem partyField_pyok {v : Val} (h : Spec.PartyField v) : PyOK v := by
  rcases h with rfl | ⟨b, rfl⟩ | ⟨i, rfl⟩ <;> simp [PyOK]

theorem optional_pyok {v : Val} (h : PyOK v) : PyOKL (Spec.optional v) := by
  unfold Spec.optional; split <;> simp [PyOKL, h]

theorem optional_inj {v w : Val} (h : Spec.optional v = Spec.optional w) : v = w := by
  unfold Spec.optional at h
  split at h <;> split at h <;> simp_all

/-- Key lengths. -/
def keyLenRow (p : Int × AlgFam) : Bool :=
  match algKeyLength (algCls p.1) with
  | .ok n => Spec.keyBits p.1 == some (n * 8)
  | .error _ => Spec.keyBits p.1 == none

theorem keyLenRows : ∀ p ∈ algTable, keyLenRow p = true := by decide +kernel

theorem algKeyLength_spec {i : Int} {n : Nat} (h : algKeyLength (algCls i) = .ok n) : Spec.keyBits i = some (n * 8) := by
  have : ∃ p ∈ algTable, p.1 = i := by
    unfold algKeyLength algFam at h
    simp only [if_true] at h
    cases e : algTable.find? (fun p => p.1 == i) with
    | none => rw [e] at h; simp at h
    | some p => exact ⟨p, List.mem_of_find?_eq_some e, by simpa using List.find?_some e⟩
  obtain ⟨p, hp, rfl⟩ := this
  have := keyLenRows p hp
  unfold keyLenRow at this
  rw [h] at this
  simpa using this

theorem algKeyLength_cls {a : Val} {n : Nat} (h : algKeyLength a = .ok n) : ∃ i, a = algCls i := by
  unfold algKeyLength at h
  cases a with
  | cls c =>
    obtain ⟨r, i⟩ := c
    by_cases hr : r = .alg
    · exact ⟨i, by rw [hr]⟩
    · simp [algFam, hr] at h
  | _ => simp [algFam] at h

/-! ### C49 -/

/-- C49: the encoding of a context is the CBOR encoding of the structure of RFC 8152, with the key length in bits. -/
theorem c49_format {c : KdfContext} {w : Bytes} (h : c.encode = .ok w) :
    ∃ r i prot, c.algorithm = .cls ⟨r, i⟩ ∧ dumps fullname .ident (.map c.suppPub.isProtected) = .ok prot ∧
      dumpsPlain (Spec.kdfContext i c.u c.v (c.suppPub.keyDataLength * 8) prot c.suppPub.other c.suppPriv) = .ok w := by
  simp only [KdfContext.encode, SuppPubInfo.encode, bind_eq_ok, Except.ok.injEq] at h
  obtain ⟨i, hi, sp, ⟨prot, hp, rfl⟩, h⟩ := h
  cases ha : c.algorithm with
  | cls k =>
    obtain ⟨r, j⟩ := k
    rw [ha] at hi
    simp only [identOf, Except.ok.injEq] at hi
    subst hi
    refine ⟨r, j, prot, rfl, hp, ?_⟩
    rw [← h]
    simp only [Spec.kdfContext, Spec.optional, Spec.Party.item, KdfContext.u, KdfContext.v, PartyInfo.encode, ne_eq, ite_not,
      Int.natCast_mul]
    rfl
  | _ => rw [ha] at hi; cases hi

/-- C49: an encoded context determines everything in it: the algorithm, both parties, the key length, the encoded protected header and the
supplementary information.  It is also not a prefix of the encoding of another context. -/
theorem c49_injective {c c' : KdfContext} {w w' r r' : Bytes} (h : c.encode = .ok w) (h' : c'.encode = .ok w') (e : w ++ r = w' ++ r')
    (hu : c.u.WF) (hv : c.v.WF) (hu' : c'.u.WF) (hv' : c'.v.WF)
    (ho : PyOK c.suppPub.other) (ho' : PyOK c'.suppPub.other) (hp : PyOK c.suppPriv) (hp' : PyOK c'.suppPriv) :
    identOf c.algorithm = identOf c'.algorithm ∧ c.u = c'.u ∧ c.v = c'.v ∧ c.suppPub.keyDataLength = c'.suppPub.keyDataLength ∧
      dumps fullname .ident (.map c.suppPub.isProtected) = dumps fullname .ident (.map c'.suppPub.isProtected) ∧
      c.suppPub.other = c'.suppPub.other ∧ c.suppPriv = c'.suppPriv := by
  obtain ⟨ra, i, prot, ha, hprot, hw⟩ := c49_format h
  obtain ⟨ra', i', prot', ha', hprot', hw'⟩ := c49_format h'
  have key : ∀ {c : KdfContext} {i : Int} {prot : Bytes}, c.u.WF → c.v.WF → PyOK c.suppPub.other → PyOK c.suppPriv →
      PyOK (Spec.kdfContext i c.u c.v (c.suppPub.keyDataLength * 8) prot c.suppPub.other c.suppPriv) := by
    intro c i prot hu hv ho hp
    have h1 := optional_pyok ho
    have h2 := optional_pyok hp
    simp [Spec.kdfContext, PyOK, PyOKL, Spec.Party.item, partyField_pyok hu.1, partyField_pyok hu.2.1, partyField_pyok hu.2.2,
      partyField_pyok hv.1, partyField_pyok hv.2.1, partyField_pyok hv.2.2, h1, h2]
  obtain ⟨hitem, _, _⟩ := dumps_append_inj (key hu hv ho hp) (key hu' hv' ho' hp') hw hw' e
  simp only [Spec.kdfContext, Val.arr.injEq, List.cons_append, List.nil_append, List.cons.injEq, Val.int.injEq, Spec.Party.item,
    Val.bytes.injEq, and_true] at hitem
  obtain ⟨h1, ⟨h2, h3, h4⟩, ⟨h5, h6, h7⟩, ⟨h8, h9, h10⟩, h11⟩ := hitem
  refine ⟨by rw [ha, ha']; simp [identOf, h1], ?_, ?_, by omega, by rw [hprot, hprot', h9], optional_inj h10, optional_inj h11⟩
  · cases hcu : c.u; cases hcu' : c'.u; simp_all
  · cases hcv : c.v; cases hcv' : c'.v; simp_all

/-- C49: the context of a recipient holds the target algorithm and its key length in bits, the party information of the recipient's headers,
the encoding of its protected header, and the supplementary information given locally. -/
theorem c49_recipient {b : Base} {alg : Val} {c : KdfContext} {w : Bytes} (h : kdfContext b alg = .ok c) (hw : c.encode = .ok w) :
    ∃ i u v bits prot, alg = algCls i ∧ Spec.keyBits i = some bits ∧
      b.getAttr Hdr.PartyUID = .ok u.identity ∧ b.getAttr Hdr.PartyUNonce = .ok u.nonce ∧ b.getAttr Hdr.PartyUOther = .ok u.other ∧
      b.getAttr Hdr.PartyVID = .ok v.identity ∧ b.getAttr Hdr.PartyVNonce = .ok v.nonce ∧ b.getAttr Hdr.PartyVOther = .ok v.other ∧
      dumps fullname .ident (.map b.phdr) = .ok prot ∧
      dumpsPlain (Spec.kdfContext i u v bits prot ((dget b.localAttrs (.cls Hdr.SuppPubOther)).getD (.bytes []))
        ((dget b.localAttrs (.cls Hdr.SuppPrivOther)).getD (.bytes []))) = .ok w := by
  simp only [kdfContext, bind_eq_ok, Except.ok.injEq] at h
  obtain ⟨uid, h1, un, h2, uo, h3, vid, h4, vn, h5, vo, h6, n, h7, sp, hsp, rfl⟩ := h
  simp only [SuppPubInfo.init, Except.ok.injEq] at hsp
  subst hsp
  obtain ⟨i, rfl⟩ := algKeyLength_cls h7
  obtain ⟨r, i', prot, ha, hp, hd⟩ := c49_format hw
  simp only [Val.cls.injEq, Cls.mk.injEq] at ha
  obtain ⟨_, rfl⟩ := ha
  exact ⟨i, ⟨uid, un, uo⟩, ⟨vid, vn, vo⟩, n * 8, prot, rfl, algKeyLength_spec h7, h1, h2, h3, h4, h5, h6, hp, hd⟩

/-- C49: the contexts of recipients only have the allowed key lengths. -/
theorem c49_recipient_length {b : Base} {alg : Val} {c : KdfContext} (h : kdfContext b alg = .ok c) :
    c.suppPub.keyDataLength = 16 ∨ c.suppPub.keyDataLength = 24 ∨ c.suppPub.keyDataLength = 32 := by
  simp only [kdfContext, bind_eq_ok, Except.ok.injEq] at h
  obtain ⟨_, _, _, _, _, _, _, _, _, _, _, _, n, h7, sp, hsp, rfl⟩ := h
  simp only [SuppPubInfo.init, Except.ok.injEq] at hsp
  subst hsp
  obtain ⟨i, rfl⟩ := algKeyLength_cls h7
  have := algKeyLength_spec h7
  unfold Spec.keyBits at this
  show n = 16 ∨ n = 24 ∨ n = 32
  split at this
  · simp at this; omega
  · split at this
    · simp at this; omega
    · split at this
      · simp at this; omega
      · cases this

/-- C49: assigning `key_data_length` accepts 16, 24 and 32 only, stores them, and changes nothing otherwise. -/
theorem c49_setter (s : SuppPubInfo) (n : Nat) :
    (s.setKeyDataLength n = .ok { s with keyDataLength := n } ∧ (n = 16 ∨ n = 24 ∨ n = 32)) ∨
    (s.setKeyDataLength n = .error .valueError ∧ ¬ (n = 16 ∨ n = 24 ∨ n = 32)) := by
  unfold SuppPubInfo.setKeyDataLength
  by_cases h : n = 16 ∨ n = 24 ∨ n = 32
  · exact .inl ⟨if_pos h, h⟩
  · exact .inr ⟨if_neg h, h⟩

/-- C49, the part that fails: the constructor accepts every length (its check is in a method whose name is misspelt, so it never runs), and the
context encodes. -/
theorem c49_constructor_unchecked :
    (∀ n p o, ∃ s, SuppPubInfo.init n p o = .ok s ∧ s.keyDataLength = n) ∧
    (do let s ← SuppPubInfo.init 5 [] (.bytes []); KdfContext.encode { algorithm := algCls 1, suppPub := s }) =
      .ok [0x84, 0x01, 0x83, 0xf6, 0xf6, 0xf6, 0x83, 0xf6, 0xf6, 0xf6, 0x82, 0x18, 0x28, 0x41, 0xa0] := by
  refine ⟨fun n p o => ⟨_, rfl, rfl⟩, ?_⟩
  decide +kernel

/-- C49, a deviation from RFC 8152: an empty protected header goes into the context as the byte string `a0`, although it is the empty string
in the message. -/
theorem c49_empty_protected {c : KdfContext} {w : Bytes} (h : c.encode = .ok w) (he : c.suppPub.isProtected = []) :
    ∃ i, dumpsPlain (Spec.kdfContext i c.u c.v (c.suppPub.keyDataLength * 8) [0xa0] c.suppPub.other c.suppPriv) = .ok w := by
  obtain ⟨_, i, prot, _, hp, hw⟩ := c49_format h
  rw [he] at hp
  have : dumps fullname .ident (.map []) = .ok [0xa0] := by decide +kernel
  rw [this, Except.ok.injEq] at hp
  subst hp
  exact ⟨i, hw⟩

namespace Sample

/-- The context of a recipient with party information in its headers. -/
example : ∃ c, kdfContext { phdr := [(.cls Hdr.Algorithm, algCls (-29))], uhdr := [(.cls Hdr.PartyUID, .bytes b!"alice"), (.cls Hdr.PartyVID, .bytes b!"bob")], localAttrs := [(.cls Hdr.SuppPrivOther, .bytes b!"secret")] } (algCls (-3)) = .ok c ∧
    (c.encode = .ok ([0x85, 0x22, 0x83, 0x45] ++ b!"alice" ++ [0xf6, 0xf6, 0x83, 0x43] ++ b!"bob" ++
      [0xf6, 0xf6, 0x82, 0x18, 0x80, 0x44, 0xa1, 0x01, 0x38, 0x1c, 0x46] ++ b!"secret")) ∧
    c.u.WF ∧ c.v.WF ∧ PyOK c.suppPub.other ∧ PyOK c.suppPriv := by
  refine ⟨{ algorithm := algCls (-3), suppPub := ⟨16, [(.cls Hdr.Algorithm, algCls (-29))], .bytes []⟩, partyU := ⟨.bytes b!"alice", .none, .none⟩, partyV := ⟨.bytes b!"bob", .none, .none⟩, suppPriv := .bytes b!"secret" }, rfl, by decide +kernel, ?_⟩
  simp [Spec.Party.WF, KdfContext.u, KdfContext.v, Spec.PartyField, PyOK]

end Sample

end Cose
