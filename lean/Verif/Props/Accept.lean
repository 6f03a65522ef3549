import Verif.Props.MsgObj
import Verif.Props.RcptAccept
/-!
# C77: which received bytes are accepted as a message, and what the message then shows
-/
set_option autoImplicit false

namespace Cose

/-! ### Specification -/

/-- The protected header as received: a byte string, empty or the encoding of a map `P` (which is kept), or `null`. -/
inductive Spec.WireProtected : Val → Dict → Option Bytes → Prop
  | absent : WireProtected .none [] none
  | empty : WireProtected (.bytes []) [] (some [])
  | encoded {e : Bytes} {P : Dict} : e ≠ [] → loads e = .ok (.map P) → WireProtected (.bytes e) P (some e)

/-- The unprotected header as received: a map, or `null`. -/
inductive Spec.WireUnprotected : Val → Dict → Prop
  | absent : WireUnprotected .none []
  | dict {U : Dict} : WireUnprotected (.map U) U

/-- The three common fields of a message can be read. -/
def Spec.HeadOk (C : Crypto) (allow : Bool) (p u pl : Val) : Prop :=
  ∃ P e U, Spec.WireProtected p P e ∧ Spec.WireUnprotected u U ∧ (∀ x ∈ P, ∃ y, Spec.EntryArg C allow x y) ∧
    (∀ x ∈ U, ∃ y, Spec.EntryArg C allow x y) ∧ (pl = .none ∨ ∃ d, pl = .bytes d)

/-- The object `b` shows the three common fields: each header entry as its label and value denote it, the last one where a label is
repeated; and it has no key, no external data, no local attributes. -/
def Spec.HeadShown (C : Crypto) (allow : Bool) (p u pl : Val) (b : Base) : Prop :=
  ∃ P e U ps us, Spec.WireProtected p P e ∧ Spec.WireUnprotected u U ∧ All2 (Spec.EntryArg C allow) P ps ∧ Spec.Holds b.view.phdr ps ∧
    All2 (Spec.EntryArg C allow) U us ∧ Spec.Holds b.view.uhdr us ∧ b.view.received = e ∧ pl = optBytes b.view.payload ∧ b.view.aad = [] ∧
    b.view.key = none ∧ (∀ q, b.view.loc q = none) ∧ b.tstr = false

/-- One signature of a COSE_Sign message can be read. -/
def Spec.SignerOk (C : Crypto) (allow : Bool) (v : Val) : Prop := ∃ p u pl rest, v = .arr (p :: u :: pl :: rest) ∧ Spec.HeadOk C allow p u pl

/-- The object for one signature. -/
def Spec.SignerShown (C : Crypto) (allow : Bool) (v : Val) (b : Base) : Prop :=
  ∃ p u pl rest, v = .arr (p :: u :: pl :: rest) ∧ Spec.HeadShown C allow p u pl b

/-- The signatures of a COSE_Sign message: an array; or an empty byte string, text or map, which the code takes for an empty array. -/
inductive Spec.WireList : Val → List Val → Prop
  | arr {l : List Val} : WireList (.arr l) l
  | bytes : WireList (.bytes []) []
  | text : WireList (.text []) []
  | map : WireList (.map []) []

/-! ### The common fields -/

theorem protected_wire {p u : Val} {allow : Bool} {P : Dict} {e : Option Bytes} :
    Spec.Protected { phdrEncoded := p, uhdr := u, allow := allow } P e ↔ Spec.WireProtected p P e := by
  constructor
  · intro h
    cases h with
    | absent _ h => simp only at h; subst h; exact .absent
    | dict h => simp at h
    | empty _ h => simp only at h; subst h; exact .empty
    | encoded _ h h1 h2 => simp only at h; subst h; exact .encoded h1 h2
  · intro h
    cases h with
    | absent => exact .absent rfl rfl
    | empty => exact .empty rfl rfl
    | encoded h1 h2 => exact .encoded rfl rfl h1 h2

theorem unprotected_wire {p u : Val} {allow : Bool} {U : Dict} :
    Spec.Unprotected { phdrEncoded := p, uhdr := u, allow := allow } U ↔ Spec.WireUnprotected u U := by
  constructor
  · intro h
    cases h with
    | absent h => simp only at h; subst h; exact .absent
    | dict h => simp only at h; subst h; exact .dict
  · intro h
    cases h with
    | absent => exact .absent rfl
    | dict => exact .dict rfl

theorem fromObj_short {C : Crypto} {allow : Bool} {l : List Val} {x : Base × List Val} (h : baseFromObj C l allow = .ok x) :
    ∃ p u pl, l = p :: u :: pl :: x.2 := by
  obtain ⟨b, r⟩ := x
  obtain ⟨p, u, h, _⟩ := baseFromObj_iff.mp h
  exact ⟨p, u, _, h⟩

theorem head_split {C : Crypto} {allow : Bool} {p u pl : Val} {rest : List Val} {b : Base} :
    baseFromObj C (p :: u :: pl :: rest) allow = .ok (b, rest) ↔
      initMsg C { phdrEncoded := p, uhdr := u, allow := allow } pl = .ok b := by
  simp only [baseFromObj, pop0, ok_bind]
  constructor
  · intro h
    simp only [bind_eq_ok] at h
    obtain ⟨b0, h0, b1, h1, h2⟩ := h
    simp at h2; subst h2
    obtain ⟨b00, q, d, e1, e2, e3, rfl⟩ := initMsg_iff.mp h0
    obtain ⟨q', rfl, rfl⟩ := setPayload_ok.mp h1
    exact initMsg_iff.mpr ⟨b00, q', d, e1, rfl, e3, rfl⟩
  · intro h
    obtain ⟨b00, q, d, e1, rfl, e3, rfl⟩ := initMsg_iff.mp h
    have := (initMsg_iff (C := C) (key := none)).mpr ⟨b00, none, d, e1, rfl, e3, rfl⟩
    simp only [optBytes] at this
    rw [this, ok_bind, setPayload_ok.mpr ⟨q, rfl, rfl⟩, ok_bind]

theorem head_ok {C : Crypto} {allow : Bool} {p u pl : Val} {rest : List Val} :
    (∃ b, baseFromObj C (p :: u :: pl :: rest) allow = .ok (b, rest)) ↔ Spec.HeadOk C allow p u pl := by
  simp only [head_split, c65_accepts, protected_wire, unprotected_wire, Spec.HeadOk]
  simp

theorem head_shown {C : Crypto} {allow : Bool} {p u pl : Val} {rest : List Val} {b : Base}
    (h : baseFromObj C (p :: u :: pl :: rest) allow = .ok (b, rest)) : Spec.HeadShown C allow p u pl b := by
  obtain ⟨P, e, U, ps, us, h1, h2, h3, h4, h5, h6, h7, h8, h9, h10, h11, h12⟩ := c65_holds (head_split.mp h)
  refine ⟨P, e, U, ps, us, protected_wire.mp h1, unprotected_wire.mp h2, h3, h4, h5, h6, h7, h8, ?_, h10, h11, h12⟩
  simpa using h9.symm

/-- The CBOR tags of the six message types. -/
def Spec.tagNumber : MsgKind → Nat
  | .enc0 => 16 | .mac0 => 17 | .sign1 => 18 | .enc => 96 | .mac => 97 | .sign => 98

theorem tagKind_num {n : Nat} {k : MsgKind} (h : tagKind n = some k) : n = Spec.tagNumber k := by
  unfold tagKind at h
  repeat' split at h
  all_goals simp at h
  all_goals subst h
  all_goals assumption

/-! ### Signatures -/

theorem signer_ok {C : Crypto} {allow : Bool} {v : Val} : (∃ b, signerFromObj C allow v = .ok b) ↔ Spec.SignerOk C allow v := by
  constructor
  · rintro ⟨b, h⟩
    cases v <;> simp only [signerFromObj, reduceCtorEq, bind_eq_ok] at h
    obtain ⟨⟨b', r⟩, h1, h2⟩ := h
    obtain ⟨p, u, pl, e⟩ := fromObj_short h1
    subst e
    exact ⟨p, u, pl, r, rfl, head_ok.mp ⟨b', h1⟩⟩
  · rintro ⟨p, u, pl, rest, rfl, h⟩
    obtain ⟨b, hb⟩ := (head_ok (rest := rest)).mpr h
    exact ⟨b, by simp only [signerFromObj, hb, ok_bind]⟩

theorem signer_shown {C : Crypto} {allow : Bool} {v : Val} {b : Base} (h : signerFromObj C allow v = .ok b) : Spec.SignerShown C allow v b := by
  cases v <;> simp only [signerFromObj, reduceCtorEq, bind_eq_ok] at h
  obtain ⟨⟨b', r⟩, h1, h2⟩ := h
  simp at h2; subst h2
  obtain ⟨p, u, pl, e⟩ := fromObj_short h1
  subst e
  exact ⟨p, u, pl, r, rfl, head_shown h1⟩

theorem signers_ok {C : Crypto} {allow : Bool} {l : List Val} :
    (∃ ss, signersFromObj C allow l = .ok ss) ↔ ∀ v ∈ l, Spec.SignerOk C allow v := by
  induction l with
  | nil => simp [signersFromObj]
  | cons v t ih =>
    rw [List.forall_mem_cons, ← ih, ← signer_ok]
    simp only [signersFromObj, bind_eq_ok]
    constructor
    · rintro ⟨ss, s, h1, ss', h2, _⟩; exact ⟨⟨s, h1⟩, ss', h2⟩
    · rintro ⟨⟨s, h1⟩, ss', h2⟩; exact ⟨_, s, h1, ss', h2, rfl⟩

theorem signers_shown {C : Crypto} {allow : Bool} {l : List Val} {ss : List Base} (h : signersFromObj C allow l = .ok ss) :
    All2 (Spec.SignerShown C allow) l ss := by
  induction l generalizing ss with
  | nil => simp [signersFromObj] at h; subst h; exact .nil
  | cons v t ih =>
    simp only [signersFromObj, bind_eq_ok] at h
    obtain ⟨s, h1, ss', h2, h3⟩ := h
    simp at h3; subst h3
    exact .cons (signer_shown h1) (ih h2)

theorem wireList_iff {v : Val} {l : List Val} : iterSigners v = .ok l ↔ Spec.WireList v l := by
  constructor
  · intro h
    unfold iterSigners at h
    split at h <;> simp at h <;> subst h <;> constructor
  · intro h
    cases h <;> rfl

/-! ### The property -/

/-- C77: exactly these byte strings are accepted as COSE_Sign1 messages: a CBOR array with tag 18, at least four elements, of which the
first three can be read. -/
theorem c77_sign1_accepts {C : Crypto} {cls : DecCls} {allow : Bool} {bs : Bytes} :
    (∃ m, decode C cls allow bs = .ok (.sign1 m)) ↔ cls.accepts .sign1 = true ∧
      ∃ p u pl s rest, loads bs = .ok (.tag 18 (.arr (p :: u :: pl :: s :: rest))) ∧ Spec.HeadOk C allow p u pl := by
  constructor
  · rintro ⟨m, h⟩
    obtain ⟨n, obj, k, h1, h2, h3, h4, h5⟩ := decode_iff.mp h
    simp only [Msg.kind] at h5; subst h5
    have en := tagKind_num h2
    simp only [Spec.tagNumber] at en
    subst en
    simp only [fromObj, Sign1.fromObj, bind_eq_ok] at h3
    obtain ⟨m', ⟨⟨b, r⟩, g1, ⟨s, r'⟩, g2, _⟩, _⟩ := h3
    obtain ⟨p, u, pl, e⟩ := fromObj_short g1
    subst e
    cases r with
    | nil => simp [pop0] at g2
    | cons x t => exact ⟨h4, p, u, pl, x, t, h1, head_ok.mp ⟨b, g1⟩⟩
  · rintro ⟨hc, p, u, pl, s, rest, h1, h2⟩
    obtain ⟨b, hb⟩ := (head_ok (rest := s :: rest)).mpr h2
    exact ⟨{ base := b, signature := s }, decode_iff.mpr ⟨18, _, .sign1, h1, rfl,
      by simp only [fromObj, Sign1.fromObj, hb, ok_bind, pop0], hc, rfl⟩⟩

/-- C77: the accepted COSE_Sign1 message shows what was received. -/
theorem c77_sign1_shows {C : Crypto} {cls : DecCls} {allow : Bool} {bs : Bytes} {m : Sign1} (h : decode C cls allow bs = .ok (.sign1 m)) :
    ∃ p u pl rest, loads bs = .ok (.tag 18 (.arr (p :: u :: pl :: m.signature :: rest))) ∧ Spec.HeadShown C allow p u pl m.base := by
  obtain ⟨n, obj, k, h1, h2, h3, h4, h5⟩ := decode_iff.mp h
  simp only [Msg.kind] at h5; subst h5
  have en := tagKind_num h2
  simp only [Spec.tagNumber] at en
  subst en
  simp only [fromObj, Sign1.fromObj, bind_eq_ok] at h3
  obtain ⟨m', ⟨⟨b, r⟩, g1, ⟨s, r'⟩, g2, g3⟩, g4⟩ := h3
  simp at g3 g4; subst g3; subst g4
  obtain ⟨p, u, pl, e⟩ := fromObj_short g1
  subst e
  cases r with
  | nil => simp [pop0] at g2
  | cons x t =>
    simp [pop0] at g2
    obtain ⟨rfl, rfl⟩ := g2
    exact ⟨p, u, pl, _, h1, head_shown g1⟩

/-- C77: COSE_Mac0. -/
theorem c77_mac0_accepts {C : Crypto} {cls : DecCls} {allow : Bool} {bs : Bytes} :
    (∃ m, decode C cls allow bs = .ok (.mac0 m)) ↔ cls.accepts .mac0 = true ∧
      ∃ p u pl t rest, loads bs = .ok (.tag 17 (.arr (p :: u :: pl :: t :: rest))) ∧ Spec.HeadOk C allow p u pl := by
  constructor
  · rintro ⟨m, h⟩
    obtain ⟨n, obj, k, h1, h2, h3, h4, h5⟩ := decode_iff.mp h
    simp only [Msg.kind] at h5; subst h5
    have en := tagKind_num h2
    simp only [Spec.tagNumber] at en
    subst en
    simp only [fromObj, Mac0.fromObj, bind_eq_ok] at h3
    obtain ⟨m', ⟨⟨b, r⟩, g1, ⟨s, r'⟩, g2, _⟩, _⟩ := h3
    obtain ⟨p, u, pl, e⟩ := fromObj_short g1
    subst e
    cases r with
    | nil => simp [pop0] at g2
    | cons x t => exact ⟨h4, p, u, pl, x, t, h1, head_ok.mp ⟨b, g1⟩⟩
  · rintro ⟨hc, p, u, pl, s, rest, h1, h2⟩
    obtain ⟨b, hb⟩ := (head_ok (rest := s :: rest)).mpr h2
    exact ⟨{ base := b, authTag := s }, decode_iff.mpr ⟨17, _, .mac0, h1, rfl,
      by simp only [fromObj, Mac0.fromObj, hb, ok_bind, pop0], hc, rfl⟩⟩

theorem c77_mac0_shows {C : Crypto} {cls : DecCls} {allow : Bool} {bs : Bytes} {m : Mac0} (h : decode C cls allow bs = .ok (.mac0 m)) :
    ∃ p u pl rest, loads bs = .ok (.tag 17 (.arr (p :: u :: pl :: m.authTag :: rest))) ∧ Spec.HeadShown C allow p u pl m.base := by
  obtain ⟨n, obj, k, h1, h2, h3, h4, h5⟩ := decode_iff.mp h
  simp only [Msg.kind] at h5; subst h5
  have en := tagKind_num h2
  simp only [Spec.tagNumber] at en
  subst en
  simp only [fromObj, Mac0.fromObj, bind_eq_ok] at h3
  obtain ⟨m', ⟨⟨b, r⟩, g1, ⟨s, r'⟩, g2, g3⟩, g4⟩ := h3
  simp at g3 g4; subst g3; subst g4
  obtain ⟨p, u, pl, e⟩ := fromObj_short g1
  subst e
  cases r with
  | nil => simp [pop0] at g2
  | cons x t =>
    simp [pop0] at g2
    obtain ⟨rfl, rfl⟩ := g2
    exact ⟨p, u, pl, _, h1, head_shown g1⟩

/-- C77: COSE_Encrypt0. -/
theorem c77_enc0_accepts {C : Crypto} {cls : DecCls} {allow : Bool} {bs : Bytes} :
    (∃ m, decode C cls allow bs = .ok (.enc0 m)) ↔ cls.accepts .enc0 = true ∧
      ∃ p u pl rest, loads bs = .ok (.tag 16 (.arr (p :: u :: pl :: rest))) ∧ Spec.HeadOk C allow p u pl := by
  constructor
  · rintro ⟨m, h⟩
    obtain ⟨n, obj, k, h1, h2, h3, h4, h5⟩ := decode_iff.mp h
    simp only [Msg.kind] at h5; subst h5
    have en := tagKind_num h2
    simp only [Spec.tagNumber] at en
    subst en
    simp only [fromObj, Enc0.fromObj, bind_eq_ok] at h3
    obtain ⟨m', ⟨⟨b, r⟩, g1, _⟩, _⟩ := h3
    obtain ⟨p, u, pl, e⟩ := fromObj_short g1
    subst e
    exact ⟨h4, p, u, pl, r, h1, head_ok.mp ⟨b, g1⟩⟩
  · rintro ⟨hc, p, u, pl, rest, h1, h2⟩
    obtain ⟨b, hb⟩ := (head_ok (rest := rest)).mpr h2
    exact ⟨{ base := b }, decode_iff.mpr ⟨16, _, .enc0, h1, rfl,
      by simp only [fromObj, Enc0.fromObj, hb, ok_bind], hc, rfl⟩⟩

theorem c77_enc0_shows {C : Crypto} {cls : DecCls} {allow : Bool} {bs : Bytes} {m : Enc0} (h : decode C cls allow bs = .ok (.enc0 m)) :
    ∃ p u pl rest, loads bs = .ok (.tag 16 (.arr (p :: u :: pl :: rest))) ∧ Spec.HeadShown C allow p u pl m.base := by
  obtain ⟨n, obj, k, h1, h2, h3, h4, h5⟩ := decode_iff.mp h
  simp only [Msg.kind] at h5; subst h5
  have en := tagKind_num h2
  simp only [Spec.tagNumber] at en
  subst en
  simp only [fromObj, Enc0.fromObj, bind_eq_ok] at h3
  obtain ⟨m', ⟨⟨b, r⟩, g1, g3⟩, g4⟩ := h3
  simp at g3 g4; subst g3; subst g4
  obtain ⟨p, u, pl, e⟩ := fromObj_short g1
  subst e
  exact ⟨p, u, pl, _, h1, head_shown g1⟩

/-- C77: COSE_Sign: also every signature can be read. -/
theorem c77_sign_accepts {C : Crypto} {cls : DecCls} {allow : Bool} {bs : Bytes} :
    (∃ m, decode C cls allow bs = .ok (.sign m)) ↔ cls.accepts .sign = true ∧
      ∃ p u pl v l rest, loads bs = .ok (.tag 98 (.arr (p :: u :: pl :: v :: rest))) ∧ Spec.HeadOk C allow p u pl ∧ Spec.WireList v l ∧
        ∀ x ∈ l, Spec.SignerOk C allow x := by
  constructor
  · rintro ⟨m, h⟩
    obtain ⟨n, obj, k, h1, h2, h3, h4, h5⟩ := decode_iff.mp h
    simp only [Msg.kind] at h5; subst h5
    have en := tagKind_num h2
    simp only [Spec.tagNumber] at en
    subst en
    simp only [fromObj, SignMsg.fromObj, bind_eq_ok] at h3
    obtain ⟨m', ⟨⟨b, r⟩, g1, ⟨s, r'⟩, g2, l, g3, ss, g4, _⟩, _⟩ := h3
    obtain ⟨p, u, pl, e⟩ := fromObj_short g1
    subst e
    cases r with
    | nil => simp [pop0] at g2
    | cons x t =>
      simp [pop0] at g2
      obtain ⟨rfl, rfl⟩ := g2
      exact ⟨h4, p, u, pl, _, l, _, h1, head_ok.mp ⟨b, g1⟩, wireList_iff.mp g3, signers_ok.mp ⟨ss, g4⟩⟩
  · rintro ⟨hc, p, u, pl, v, l, rest, h1, h2, h3, h4⟩
    obtain ⟨b, hb⟩ := (head_ok (rest := v :: rest)).mpr h2
    obtain ⟨ss, hs⟩ := signers_ok.mpr h4
    exact ⟨{ base := b, signers := ss }, decode_iff.mpr ⟨98, _, .sign, h1, rfl,
      by simp only [fromObj, SignMsg.fromObj, hb, ok_bind, pop0, wireList_iff.mpr h3, hs], hc, rfl⟩⟩

theorem c77_sign_shows {C : Crypto} {cls : DecCls} {allow : Bool} {bs : Bytes} {m : SignMsg} (h : decode C cls allow bs = .ok (.sign m)) :
    ∃ p u pl v l rest, loads bs = .ok (.tag 98 (.arr (p :: u :: pl :: v :: rest))) ∧ Spec.HeadShown C allow p u pl m.base ∧
      Spec.WireList v l ∧ All2 (Spec.SignerShown C allow) l m.signers := by
  obtain ⟨n, obj, k, h1, h2, h3, h4, h5⟩ := decode_iff.mp h
  simp only [Msg.kind] at h5; subst h5
  have en := tagKind_num h2
  simp only [Spec.tagNumber] at en
  subst en
  simp only [fromObj, SignMsg.fromObj, bind_eq_ok] at h3
  obtain ⟨m', ⟨⟨b, r⟩, g1, ⟨s, r'⟩, g2, l, g3, ss, g4, g5⟩, g6⟩ := h3
  simp at g5 g6; subst g5; subst g6
  obtain ⟨p, u, pl, e⟩ := fromObj_short g1
  subst e
  cases r with
  | nil => simp [pop0] at g2
  | cons x t =>
    simp [pop0] at g2
    obtain ⟨rfl, rfl⟩ := g2
    exact ⟨p, u, pl, _, l, _, h1, head_shown g1, wireList_iff.mp g3, signers_shown g4⟩

/-- C77: an accepted COSE_Encrypt or COSE_Mac message shows its common fields (for its recipients see C69). -/
theorem c77_enc_shows {C : Crypto} {cls : DecCls} {allow : Bool} {bs : Bytes} {m : Enc} (h : decode C cls allow bs = .ok (.enc m)) :
    ∃ p u pl rest, loads bs = .ok (.tag 96 (.arr (p :: u :: pl :: rest))) ∧ Spec.HeadShown C allow p u pl m.base := by
  obtain ⟨n, obj, k, h1, h2, h3, h4, h5⟩ := decode_iff.mp h
  simp only [Msg.kind] at h5; subst h5
  have en := tagKind_num h2
  simp only [Spec.tagNumber] at en
  subst en
  simp only [fromObj, Enc.fromObj, bind_eq_ok] at h3
  obtain ⟨m', ⟨⟨b, r⟩, g1, g3⟩, g4⟩ := h3
  simp at g4; subst g4
  obtain ⟨p, u, pl, e⟩ := fromObj_short g1
  subst e
  have : m'.base = b := by
    repeat' split at g3
    all_goals simp at g3
    all_goals subst g3; rfl
  exact ⟨p, u, pl, r, h1, by rw [this]; exact head_shown g1⟩

theorem c77_mac_shows {C : Crypto} {cls : DecCls} {allow : Bool} {bs : Bytes} {m : Mac} (h : decode C cls allow bs = .ok (.mac m)) :
    ∃ p u pl rest, loads bs = .ok (.tag 97 (.arr (p :: u :: pl :: m.authTag :: rest))) ∧ Spec.HeadShown C allow p u pl m.base := by
  obtain ⟨n, obj, k, h1, h2, h3, h4, h5⟩ := decode_iff.mp h
  simp only [Msg.kind] at h5; subst h5
  have en := tagKind_num h2
  simp only [Spec.tagNumber] at en
  subst en
  simp only [fromObj, Mac.fromObj, bind_eq_ok] at h3
  obtain ⟨m', ⟨⟨b, r⟩, g1, ⟨s, r'⟩, g2, g3⟩, g4⟩ := h3
  simp at g4; subst g4
  obtain ⟨p, u, pl, e⟩ := fromObj_short g1
  subst e
  cases r with
  | nil => simp [pop0] at g2
  | cons x t =>
    simp [pop0] at g2
    obtain ⟨rfl, rfl⟩ := g2
    have : m'.base = b ∧ m'.authTag = x := by
      repeat' split at g3
      all_goals simp at g3
      all_goals subst g3; exact ⟨rfl, rfl⟩
    exact ⟨p, u, pl, t, by rw [this.2]; exact h1, by rw [this.1]; exact head_shown g1⟩

/-- C77: the unregistered labels, with their values, and the headers of an accepted message come from the received maps and from nowhere else: an
entry that is shown has been received under a label that denotes it. -/
theorem c77_shown_received {C : Crypto} {allow : Bool} {p u pl : Val} {b : Base} (h : Spec.HeadShown C allow p u pl b) {q w : Val}
    (hq : b.view.phdr q = some w ∨ b.view.uhdr q = some w) :
    ∃ D k v k', (Spec.WireUnprotected u D ∨ ∃ e, Spec.WireProtected p D e) ∧ (k, v) ∈ D ∧ Spec.EntryArg C allow (k, v) (k', w) ∧ keq k' q = true := by
  have key : ∀ {D es t}, All2 (Spec.EntryArg C allow) D es → Spec.Holds t es → t q = some w →
      ∃ k v k', (k, v) ∈ D ∧ Spec.EntryArg C allow (k, v) (k', w) ∧ keq k' q = true := by
    intro D es t h1 h2 h3
    rw [h2 q] at h3
    simp only [Option.map_eq_some_iff] at h3
    obtain ⟨⟨k', w'⟩, h3, rfl⟩ := h3
    have hm := List.mem_of_find?_eq_some h3
    have hk := List.find?_some h3
    simp only [List.mem_reverse] at hm
    clear h2 h3
    induction h1 with
    | nil => simp at hm
    | @cons x y xs ys hr _ ih =>
      rcases List.mem_cons.mp hm with rfl | hm
      · exact ⟨x.1, x.2, k', List.mem_cons_self .., hr, hk⟩
      · obtain ⟨k, v, k'', h1, h2⟩ := ih hm
        exact ⟨k, v, k'', List.mem_cons_of_mem _ h1, h2⟩
  obtain ⟨P, e, U, ps, us, h1, h2, h3, h4, h5, h6, _⟩ := h
  rcases hq with hq | hq
  · obtain ⟨k, v, k', g⟩ := key h3 h4 hq
    exact ⟨P, k, v, k', .inr ⟨e, h1⟩, g⟩
  · obtain ⟨k, v, k', g⟩ := key h5 h6 hq
    exact ⟨U, k, v, k', .inl h2, g⟩

/-! ### Samples -/

/-- A COSE_Sign1 message with a protected algorithm and an unregistered unprotected label; the same with a superfluous element, with
`null` for both headers, and without signature; a COSE_Sign message with two signatures. -/
def Sample.wire1 : Bytes := [0xd2, 0x84, 0x43, 0xa1, 0x01, 0x26, 0xa1, 0x18, 0x63, 0x07, 0x41, 0x68, 0x41, 0x05]
def Sample.wire1Extra : Bytes := [0xd2, 0x85, 0x43, 0xa1, 0x01, 0x26, 0xa1, 0x18, 0x63, 0x07, 0x41, 0x68, 0x41, 0x05, 0x00]
def Sample.wire1Null : Bytes := [0xd2, 0x84, 0xf6, 0xf6, 0xf6, 0x41, 0x05]
def Sample.wire1Short : Bytes := [0xd2, 0x83, 0x43, 0xa1, 0x01, 0x26, 0xa1, 0x18, 0x63, 0x07, 0x41, 0x68]
def Sample.wireSign : Bytes :=
  [0xd8, 0x62, 0x84, 0x40, 0xa0, 0x41, 0x68, 0x82, 0x83, 0x43, 0xa1, 0x01, 0x26, 0xa0, 0x41, 0x01, 0x83, 0x40, 0xa1, 0x01, 0x26, 0x41, 0x02]

example : (∃ m, decode toy .any true Sample.wire1 = .ok (.sign1 m) ∧ m.base.phdr = [(.cls Hdr.Algorithm, algCls (-7))] ∧
      m.base.uhdr = [(.int 99, .int 7)] ∧ m.base.payload = some b!"h" ∧ m.signature = .bytes [5]) ∧
    (∃ m, decode toy .any true Sample.wire1Extra = .ok (.sign1 m)) ∧ (∃ m, decode toy (.only .sign1) true Sample.wire1Null = .ok (.sign1 m)) ∧
    decode toy .any true Sample.wire1Short = .error .indexError ∧ decode toy .any false Sample.wire1 = .error .coseException ∧
    (∃ m, decode toy .any true Sample.wireSign = .ok (.sign m) ∧ m.signers.length = 2) := by
  refine ⟨?_, ?_, ?_, by decide +kernel, by decide +kernel, ?_⟩
  · obtain ⟨x, h, hx⟩ := res_any (r := decode toy .any true Sample.wire1) (p := fun x => match x with
      | .sign1 m => decide (m.base.phdr = [(.cls Hdr.Algorithm, algCls (-7))] ∧ m.base.uhdr = [(.int 99, .int 7)] ∧
          m.base.payload = some b!"h" ∧ m.signature = .bytes [5])
      | _ => false) (by decide +kernel)
    cases x <;> simp only [Bool.false_eq_true, decide_eq_true_eq] at hx
    exact ⟨_, h, hx⟩
  · obtain ⟨x, h, hx⟩ := res_any (r := decode toy .any true Sample.wire1Extra) (p := fun x => match x with
      | .sign1 _ => true
      | _ => false) (by decide +kernel)
    cases x <;> simp only [Bool.false_eq_true] at hx
    exact ⟨_, h⟩
  · obtain ⟨x, h, hx⟩ := res_any (r := decode toy (.only .sign1) true Sample.wire1Null) (p := fun x => match x with
      | .sign1 _ => true
      | _ => false) (by decide +kernel)
    cases x <;> simp only [Bool.false_eq_true] at hx
    exact ⟨_, h⟩
  · obtain ⟨x, h, hx⟩ := res_any (r := decode toy .any true Sample.wireSign) (p := fun x => match x with
      | .sign m => decide (m.signers.length = 2)
      | _ => false) (by decide +kernel)
    cases x <;> simp only [Bool.false_eq_true, decide_eq_true_eq] at hx
    exact ⟨_, h, hx⟩

end Cose
