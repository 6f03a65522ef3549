import Verif.Detached
import Verif.Props.RoundTrip
import Verif.Props.Tbs

/-! Signatures over detached payloads of any type (C01, C03, C06, C07, C15). -/

set_option autoImplicit false

namespace Cose

/-! ### Lemmas -/

theorem choosePayloadV_none (p : Option Bytes) : choosePayloadV p .none = (choosePayload p none).map .bytes := by
  cases p <;> rfl

theorem choosePayloadV_bytes (p : Option Bytes) (d : Bytes) :
    choosePayloadV p (.bytes d) = (choosePayload p (some d)).map .bytes := by
  cases p <;> rfl

theorem substL_snoc (l : List Bytes) (v : Val) :
    substL fullname .plain (l.map .bytes ++ [v]) = (subst fullname .plain v).map fun w => l.map .bytes ++ [w] := by
  induction l with
  | nil => simp only [List.map_nil, List.nil_append, substL]; cases subst fullname .plain v <;> rfl
  | cons a t ih =>
    simp only [List.map_cons, List.cons_append, substL, subst, ih, ok_bind]
    cases subst fullname .plain v <;> rfl

theorem bigL_snoc (l : List Bytes) (v : Val) : bigL (l.map .bytes ++ [v]) = l.map .bytes ++ [big v] := by
  induction l with
  | nil => rfl
  | cons a t ih => simp [bigL, big, ih]

theorem encL_snoc {l : List Bytes} {v : Val} {b : Bytes} (h : encL (l.map .bytes ++ [v]) = .ok b) :
    ∃ e, enc v = .ok e ∧ b = (l.map Spec.bstr ++ [e]).flatten := by
  induction l generalizing b with
  | nil =>
    simp only [List.map_nil, List.nil_append, encL, bind_eq_ok, Except.ok.injEq] at h
    obtain ⟨e, h1, y, h2, h3⟩ := h
    subst h2; subst h3
    exact ⟨e, h1, by simp⟩
  | cons a t ih =>
    simp only [List.map_cons, List.cons_append, encL, bind_eq_ok, Except.ok.injEq] at h
    obtain ⟨x, h1, y, h2, h3⟩ := h
    obtain ⟨e, h4, h5⟩ := ih h2
    exact ⟨e, h4, by rw [← h3, enc_bytes h1, h5]; simp⟩

theorem dumpsPlain_snoc {c : Bytes} {l : List Bytes} {v : Val} {b : Bytes}
    (h : dumpsPlain (.arr (.text c :: (l.map .bytes ++ [v]))) = .ok b) :
    ∃ e, dumpsPlain v = .ok e ∧ b = Spec.array (Spec.tstr c :: (l.map Spec.bstr ++ [e])) := by
  simp only [dumpsPlain, dumps, subst, substL, substL_snoc, ok_bind] at h
  cases hw : subst fullname .plain v with
  | error e => simp [hw, Except.map] at h
  | ok w =>
    simp only [hw, Except.map, ok_bind, big, bigL, bigL_snoc, enc, encL, bind_eq_ok, Except.ok.injEq] at h
    obtain ⟨hd, h1, x, ⟨tx, h2, y, h3, h4⟩, h5⟩ := h
    have h2' : enc (.text c) = .ok tx := by simpa only [enc] using h2
    obtain ⟨e, h6, h7⟩ := encL_snoc h3
    refine ⟨e, by simp only [dumpsPlain, dumps, hw, ok_bind, h6], ?_⟩
    rw [← h5, ← h4, enc_text h2', h7, encHead_eq h1]
    simp [Spec.array]

theorem pyOK_snoc {c : Bytes} (hc : validUtf8 c = true) (l : List Bytes) {v : Val} (hv : PyOK v) :
    PyOK (.arr (.text c :: (l.map .bytes ++ [v]))) := by
  simp only [PyOK, PyOKL, hc, true_and]
  rw [PyOKL_iff]; intro w hw
  rcases List.mem_append.mp hw with h | h
  · obtain ⟨b, _, rfl⟩ := List.mem_map.mp h
    trivial
  · rw [List.mem_singleton.mp h]; exact hv

theorem map_bytes_inj : ∀ {x y : List Bytes}, x.map Val.bytes = y.map Val.bytes → x = y
  | [], [], _ => rfl
  | [], _ :: _, h => by simp at h
  | _ :: _, [], h => by simp at h
  | a :: s, b :: t, h => by
    simp only [List.map_cons, List.cons.injEq, Val.bytes.injEq] at h
    rw [h.1, map_bytes_inj h.2]

theorem snoc_inj {c d : Bytes} {l k : List Bytes} {v w : Val} {b : Bytes} (hc : validUtf8 c = true) (hd : validUtf8 d = true)
    (hv : PyOK v) (hw : PyOK w) (ha : dumpsPlain (.arr (.text c :: (l.map .bytes ++ [v]))) = .ok b)
    (hb : dumpsPlain (.arr (.text d :: (k.map .bytes ++ [w]))) = .ok b) : c = d ∧ l = k ∧ v = w := by
  obtain ⟨h1, _, _⟩ := dumps_append_inj (r := []) (s := []) (pyOK_snoc hc l hv) (pyOK_snoc hd k hw) ha hb rfl
  simp only [Val.arr.injEq, List.cons.injEq, Val.text.injEq] at h1
  obtain ⟨h2, h3⟩ := List.append_inj' h1.2 rfl
  exact ⟨h1.1, map_bytes_inj h2, by simpa using h3⟩

/-! ### Specification -/

/-- The value that is signed: the attached payload, or the detached one, and never both. -/
def Spec.SignedValue (payload : Option Bytes) (detached v : Val) : Prop :=
  (detached = .none ∧ ∃ p, payload = some p ∧ v = .bytes p) ∨ (detached ≠ .none ∧ payload = none ∧ v = detached)

/-- `Sig_structure` of COSE_Sign1 with the serialised payload `e` in last place. -/
def Spec.sig1StructureAny (p aad e : Bytes) : Bytes :=
  Spec.array [Spec.tstr b!"Signature1", Spec.bstr p, Spec.bstr aad, e]

/-- `Sig_structure` of a COSE_Sign signer; without own protected header it has four elements. -/
def Spec.sigStructureAny (p : Bytes) (q : Option Bytes) (aad e : Bytes) : Bytes :=
  match q with
  | some o => Spec.array [Spec.tstr b!"Signature", Spec.bstr p, Spec.bstr o, Spec.bstr aad, e]
  | none => Spec.array [Spec.tstr b!"Signature", Spec.bstr p, Spec.bstr aad, e]

theorem choosePayloadV_ok {a : Option Bytes} {d v : Val} : choosePayloadV a d = .ok v ↔ Spec.SignedValue a d v := by
  cases a <;> cases d <;> simp [choosePayloadV, Spec.SignedValue, eq_comm]

theorem signedValue_pyOK {a : Option Bytes} {d v : Val} (hd : PyOK d) (h : Spec.SignedValue a d v) : PyOK v := by
  rcases h with ⟨_, p, _, rfl⟩ | ⟨_, _, rfl⟩
  · trivial
  · exact hd

theorem sign1_any_val {m : Sign1} {d : Val} {b : Bytes} (h : m.sigStructureV d = .ok b) :
    ∃ p v, Spec.AuthProtected m.base p ∧ Spec.SignedValue m.base.payload d v ∧
      dumpsPlain (.arr (.text b!"Signature1" :: ([p, m.base.aad].map .bytes ++ [v]))) = .ok b := by
  simp only [Sign1.sigStructureV, bind_eq_ok] at h
  obtain ⟨l, h1, v, h2, h3⟩ := h
  obtain ⟨p, hp, rfl⟩ := baseStructure_ok h1
  exact ⟨p, v, hp, choosePayloadV_ok.mp h2, h3⟩

/-- The byte strings before the payload in the structure of a signer. -/
def Spec.signerFields (p : Bytes) (q : Option Bytes) (aad : Bytes) : List Bytes :=
  match q with
  | some o => [p, o, aad]
  | none => [p, aad]

theorem signer_any_val {p s : Base} {d : Val} {b : Bytes} (h : signerStructureV p s d = .ok b) :
    ∃ e q v, p.phdrEncoded = .ok e ∧ Spec.SignerProtected s q ∧ Spec.SignedValue p.payload d v ∧
      dumpsPlain (.arr (.text b!"Signature" :: ((Spec.signerFields e q s.aad).map .bytes ++ [v]))) = .ok b := by
  simp only [signerStructureV, bind_eq_ok] at h
  obtain ⟨e, h1, h⟩ := h
  split at h
  · rename_i hn
    simp only [bind_eq_ok, ok_bind] at h
    obtain ⟨o, h5, v, h3, h4⟩ := h
    exact ⟨e, some o, v, h1, Or.inr ⟨fun hh => hn (by simp [hh]), o, h5, rfl⟩, choosePayloadV_ok.mp h3, h4⟩
  · rename_i hn
    simp only [ok_bind, bind_eq_ok] at h
    obtain ⟨v, h3, h4⟩ := h
    exact ⟨e, none, v, h1, Or.inl ⟨by simpa using hn, rfl⟩, choosePayloadV_ok.mp h3, h4⟩

/-! ### The byte-string model is the restriction -/

/-- **C15**: `None` and byte strings as detached payload. -/
theorem c15_any_sign1_agrees {C : Crypto} {rnd : Bytes} {m : Sign1} {tag sign : Bool} (d : Option Bytes) :
    m.sigStructureV (optBytes d) = m.sigStructure d ∧ m.computeSignatureV C rnd (optBytes d) = m.computeSignature C rnd d ∧
    m.verifySignatureV C (optBytes d) = m.verifySignature C d ∧
    m.encodeV C rnd tag sign (optBytes d) = m.encode C rnd tag sign d := by
  have h : m.sigStructureV (optBytes d) = m.sigStructure d := by
    simp only [Sign1.sigStructureV, Sign1.sigStructure]
    cases hb : m.base.baseStructure with
    | error e => rfl
    | ok l => cases d <;> cases hp : m.base.payload <;> rfl
  have h2 : m.computeSignatureV C rnd (optBytes d) = m.computeSignature C rnd d := by
    simp only [Sign1.computeSignatureV, Sign1.computeSignature, h]
  exact ⟨h, h2, by simp only [Sign1.verifySignatureV, Sign1.verifySignature, h],
    by simp only [Sign1.encodeV, Sign1.encode, h2]⟩

theorem c15_any_signer_agrees {C : Crypto} {rnd : Bytes} {p s : Base} (d : Option Bytes) :
    signerStructureV p s (optBytes d) = signerStructure p s d ∧ signerComputeV C rnd p s (optBytes d) = signerCompute C rnd p s d ∧
    signerVerifyV C p s (optBytes d) = signerVerify C p s d := by
  have h : signerStructureV p s (optBytes d) = signerStructure p s d := by
    simp only [signerStructureV, signerStructure]
    cases p.phdrEncoded with
    | error e => rfl
    | ok e =>
      simp only [ok_bind]
      split
      · cases s.phdrEncoded with
        | error e => rfl
        | ok e => cases d <;> cases hp : p.payload <;> rfl
      · cases d <;> cases hp : p.payload <;> rfl
  exact ⟨h, by simp only [signerComputeV, signerCompute, h], by simp only [signerVerifyV, signerVerify, h]⟩

theorem signersEncodeV_agrees {C : Crypto} {rnd : Nat → Bytes} {p : Base} (d : Option Bytes) (l : List Base) :
    ∀ i, signersEncodeV C rnd p (optBytes d) i l = signersEncode C rnd p d i l := by
  induction l with
  | nil => intro i; rfl
  | cons s t ih =>
    intro i
    simp only [signersEncodeV, signersEncode, signerEncodeV, signerEncode, ih, (c15_any_signer_agrees d).2.1]

theorem c15_any_sign_agrees {C : Crypto} {rnd : Nat → Bytes} {m : SignMsg} {tag : Bool} (d : Option Bytes) :
    m.encodeV C rnd tag (optBytes d) = m.encode C rnd tag d := by
  simp only [SignMsg.encodeV, SignMsg.encode, signersEncodeV_agrees]

/-! ### What is signed -/

/-- **C01** for detached payloads of any type: the signed bytes are the Sig_structure with the serialised value in last place;
a value that cannot be serialised is not signed. -/
theorem c01_any_format {m : Sign1} {d : Val} {b : Bytes} (h : m.sigStructureV d = .ok b) :
    ∃ p v e, Spec.AuthProtected m.base p ∧ Spec.SignedValue m.base.payload d v ∧ dumpsPlain v = .ok e ∧
      b = Spec.sig1StructureAny p m.base.aad e := by
  obtain ⟨p, v, h1, h2, h3⟩ := sign1_any_val h
  obtain ⟨e, h4, h5⟩ := dumpsPlain_snoc h3
  exact ⟨p, v, e, h1, h2, h4, h5⟩

/-- **C01**: two messages sign the same bytes only with the same protected header, the same external aad and the same payload,
also in its type: a text is never taken for the byte string of its characters, an integer never for a truth value. -/
theorem c01_any_unambiguous {m m' : Sign1} {d d' : Val} {b : Bytes} (hd : PyOK d) (hd' : PyOK d')
    (h : m.sigStructureV d = .ok b) (h' : m'.sigStructureV d' = .ok b) :
    ∃ p v, Spec.AuthProtected m.base p ∧ Spec.AuthProtected m'.base p ∧ m.base.aad = m'.base.aad ∧
      Spec.SignedValue m.base.payload d v ∧ Spec.SignedValue m'.base.payload d' v := by
  obtain ⟨p, v, h1, h2, h3⟩ := sign1_any_val h
  obtain ⟨p', v', h1', h2', h3'⟩ := sign1_any_val h'
  obtain ⟨_, hl, hv⟩ := snoc_inj (by decide) (by decide) (signedValue_pyOK hd h2) (signedValue_pyOK hd' h2') h3 h3'
  simp only [List.cons.injEq, and_true] at hl
  obtain ⟨rfl, ha⟩ := hl
  subst hv
  exact ⟨p, v, h1, h1', ha, h2, h2'⟩

/-- **C03** for detached payloads of any type. -/
theorem c03_any_format {p s : Base} {d : Val} {b : Bytes} (h : signerStructureV p s d = .ok b) :
    ∃ pe q v e, p.phdrEncoded = .ok pe ∧ Spec.SignerProtected s q ∧ Spec.SignedValue p.payload d v ∧ dumpsPlain v = .ok e ∧
      b = Spec.sigStructureAny pe q s.aad e := by
  obtain ⟨pe, q, v, h0, h1, h2, h3⟩ := signer_any_val h
  obtain ⟨e, h4, h5⟩ := dumpsPlain_snoc h3
  refine ⟨pe, q, v, e, h0, h1, h2, h4, ?_⟩
  cases q <;> exact h5

theorem c03_any_unambiguous {p s p' s' : Base} {d d' : Val} {b : Bytes} (hd : PyOK d) (hd' : PyOK d')
    (h : signerStructureV p s d = .ok b) (h' : signerStructureV p' s' d' = .ok b) :
    ∃ e q v, p.phdrEncoded = .ok e ∧ p'.phdrEncoded = .ok e ∧ Spec.SignerProtected s q ∧ Spec.SignerProtected s' q ∧
      s.aad = s'.aad ∧ Spec.SignedValue p.payload d v ∧ Spec.SignedValue p'.payload d' v := by
  obtain ⟨e, q, v, h0, h1, h2, h3⟩ := signer_any_val h
  obtain ⟨e', q', v', h0', h1', h2', h3'⟩ := signer_any_val h'
  obtain ⟨_, hl, hv⟩ := snoc_inj (by decide) (by decide) (signedValue_pyOK hd h2) (signedValue_pyOK hd' h2') h3 h3'
  subst hv
  cases q <;> cases q' <;> simp [Spec.signerFields] at hl
  · obtain ⟨rfl, ha⟩ := hl; exact ⟨e, none, v, h0, h0', h1, h1', ha, h2, h2'⟩
  · rename_i q q'
    obtain ⟨rfl, rfl, ha⟩ := hl; exact ⟨e, some q, v, h0, h0', h1, h1', ha, h2, h2'⟩

/-- **C03**: no signer of a COSE_Sign message signs the bytes of a COSE_Sign1 message, whatever the detached payloads. -/
theorem c03_any_separate {m : Sign1} {p s : Base} {d d' : Val} {b : Bytes} (hd : PyOK d) (hd' : PyOK d')
    (h : m.sigStructureV d = .ok b) : signerStructureV p s d' ≠ .ok b := by
  intro h'
  obtain ⟨_, _, _, h2, h3⟩ := sign1_any_val h
  obtain ⟨_, _, _, _, _, h2', h3'⟩ := signer_any_val h'
  have := (snoc_inj (by decide) (by decide) (signedValue_pyOK hd h2) (signedValue_pyOK hd' h2') h3 h3').1
  revert this; decide

/-! ### Exactly one payload -/

/-- **C15**: without payload, or with two, nothing is signed or verified, whatever the type of the detached one. -/
theorem c15_any_no_result {C : Crypto} {rnd : Bytes} {m : Sign1} {d : Val}
    (h : (m.base.payload = none ∧ d = .none) ∨ (m.base.payload ≠ none ∧ d ≠ .none)) :
    (∀ s, m.computeSignatureV C rnd d ≠ .ok s) ∧ (∀ r, m.verifySignatureV C d ≠ .ok r) ∧
    ∀ tag out, m.encodeV C rnd tag true d ≠ .ok out := by
  have key : ∀ b, m.sigStructureV d ≠ .ok b := by
    intro b hb
    obtain ⟨_, v, _, _, hh, _⟩ := c01_any_format hb
    rcases h with ⟨h1, h2⟩ | ⟨h1, h2⟩ <;> rcases hh with ⟨h3, _, h4, _⟩ | ⟨h3, h4, _⟩ <;> simp_all
  have k1 : ∀ s, m.computeSignatureV C rnd d ≠ .ok s := by
    intro s hs
    simp only [Sign1.computeSignatureV, computeSignature, bind_eq_ok] at hs
    obtain ⟨_, _, _, _, _, _, b, hb, _⟩ := hs
    exact key b hb
  refine ⟨k1, fun r hr => ?_, fun tag out ho => ?_⟩
  · simp only [Sign1.verifySignatureV, verifySignature, bind_eq_ok] at hr
    obtain ⟨_, _, _, _, _, _, b, hb, _⟩ := hr
    exact key b hb
  · simp only [Sign1.encodeV, ↓reduceIte, bind_eq_ok] at ho
    obtain ⟨_, _, s, hs, _⟩ := ho
    exact k1 s hs

theorem c15_any_signer_no_result {C : Crypto} {rnd : Bytes} {p s : Base} {d : Val}
    (h : (p.payload = none ∧ d = .none) ∨ (p.payload ≠ none ∧ d ≠ .none)) :
    (∀ x, signerComputeV C rnd p s d ≠ .ok x) ∧ (∀ r, signerVerifyV C p s d ≠ .ok r) := by
  have key : ∀ b, signerStructureV p s d ≠ .ok b := by
    intro b hb
    obtain ⟨_, _, v, _, _, _, hh, _⟩ := c03_any_format hb
    rcases h with ⟨h1, h2⟩ | ⟨h1, h2⟩ <;> rcases hh with ⟨h3, _, h4, _⟩ | ⟨h3, h4, _⟩ <;> simp_all
  refine ⟨fun x hx => ?_, fun r hr => ?_⟩
  · simp only [signerComputeV, computeSignature, bind_eq_ok] at hx
    obtain ⟨_, _, _, _, _, _, b, hb, _⟩ := hx
    exact key b hb
  · simp only [signerVerifyV, verifySignature, bind_eq_ok] at hr
    obtain ⟨_, _, _, _, _, _, b, hb, _⟩ := hr
    exact key b hb

/-- **C15**: a detached payload that cannot be serialised (a class of a registry, a key object) is never signed or verified. -/
theorem c15_any_unserialisable {C : Crypto} {rnd : Bytes} {m : Sign1} {p s : Base} {d : Val} (h0 : d ≠ .none)
    (h : ∀ e, dumpsPlain d ≠ .ok e) :
    (∀ s, m.computeSignatureV C rnd d ≠ .ok s) ∧ (∀ r, m.verifySignatureV C d ≠ .ok r) ∧
    (∀ x, signerComputeV C rnd p s d ≠ .ok x) ∧ (∀ r, signerVerifyV C p s d ≠ .ok r) := by
  have k1 : ∀ b, m.sigStructureV d ≠ .ok b := by
    intro b hb
    obtain ⟨_, v, e, _, hh, he, _⟩ := c01_any_format hb
    rcases hh with ⟨h3, _⟩ | ⟨_, _, rfl⟩
    · exact h0 h3
    · exact h e he
  have k2 : ∀ b, signerStructureV p s d ≠ .ok b := by
    intro b hb
    obtain ⟨_, _, v, e, _, _, hh, he, _⟩ := c03_any_format hb
    rcases hh with ⟨h3, _⟩ | ⟨_, _, rfl⟩
    · exact h0 h3
    · exact h e he
  refine ⟨fun x hx => ?_, fun r hr => ?_, fun x hx => ?_, fun r hr => ?_⟩
  · simp only [Sign1.computeSignatureV, computeSignature, bind_eq_ok] at hx
    obtain ⟨_, _, _, _, _, _, b, hb, _⟩ := hx
    exact k1 b hb
  · simp only [Sign1.verifySignatureV, verifySignature, bind_eq_ok] at hr
    obtain ⟨_, _, _, _, _, _, b, hb, _⟩ := hr
    exact k1 b hb
  · simp only [signerComputeV, computeSignature, bind_eq_ok] at hx
    obtain ⟨_, _, _, _, _, _, b, hb, _⟩ := hx
    exact k2 b hb
  · simp only [signerVerifyV, verifySignature, bind_eq_ok] at hr
    obtain ⟨_, _, _, _, _, _, b, hb, _⟩ := hr
    exact k2 b hb

/-- **C15**: a detached payload of any type is not in the message. -/
theorem c15_any_payload_field {C : Crypto} {rnd : Bytes} {m : Sign1} {tag : Bool} {d : Val} {out : Bytes}
    (h : m.encodeV C rnd tag true d = .ok out) :
    ∃ pe s, m.base.phdrEncoded = .ok pe ∧ m.computeSignatureV C rnd d = .ok s ∧
      m.base.finish 18 tag [.bytes pe, .map m.base.uhdr, optBytes m.base.payload, .bytes s] = .ok out := by
  simp only [Sign1.encodeV, bind_eq_ok, ↓reduceIte, Except.ok.injEq] at h
  obtain ⟨pe, h1, s, h2, h4⟩ := h
  exact ⟨pe, s, h1, h2, by simpa using h4⟩

/-! ### Round trips -/

/-- **C06** for detached payloads of any type. -/
theorem c06_any_roundtrip {C : Crypto} (L : C.Laws) {m : Sign1} {rnd out : Bytes} {d : Val} {allow : Bool}
    {ph uh : Dict} {cls : DecCls} {alg : Val} {sk vk : Key} (hcls : cls.accepts .sign1 = true)
    (hs : Spec.Sendable C m.base.tstr allow m.base ph uh) (h : m.encodeV C rnd true true d = .ok out)
    (halg : m.base.getAttr Hdr.Algorithm = .ok alg) (hsk : m.base.key = some sk)
    (hk : Spec.KeyPair C alg sk vk) (hp : Spec.Permits vk vk.kind alg [Op.Verify]) :
    ∃ m', decode C cls allow out = .ok (.sign1 m') ∧ m'.base.phdr = ph ∧ m'.base.uhdr = uh ∧
      m'.base.payload = m.base.payload ∧
      Sign1.verifySignatureV C { m' with base := m'.base.withKeyAad vk m.base.aad } d = .ok true := by
  obtain ⟨pe, s, hpe, hsig, hf⟩ := c15_any_payload_field h
  obtain ⟨w, hw, hb⟩ := received_base hs hpe
  refine ⟨⟨recvBase pe ph uh m.base.payload, .bytes s⟩, ?_, rfl, rfl, rfl, ?_⟩
  · have := finish_decode (C := C) (allow := allow) (cls := cls) (k := .sign1) (m := .sign1 ⟨recvBase pe ph uh m.base.payload, .bytes s⟩)
      rfl hcls (.cons sent_bytes (.cons hw (.cons sent_opt (.cons sent_bytes .nil)))) hf ?_ []
    · rwa [List.append_nil] at this
    · simp only [fromObj, Sign1.fromObj, hb, ok_bind, pop0]
  · refine signature_verifies L hsig (sendable_getAttr hs rfl rfl (by decide) (by decide)) ?_ halg hsk rfl hk hp
    simp only [Sign1.sigStructureV]
    rw [sendable_baseStructure hs hpe]
    all_goals rfl

/-- Signer `s` of the sender and signer `s'` of the decoded message, with a detached payload of any type. -/
structure Spec.SignerReceivedAny (C : Crypto) (p p' : Base) (d : Val) (s s' : Base) (ph uh : Dict) : Prop where
  phdr : s'.phdr = ph
  uhdr : s'.uhdr = uh
  verifies : ∀ alg sk vk, s.getAttr Hdr.Algorithm = .ok alg → s.key = some sk → Spec.KeyPair C alg sk vk →
    Spec.Permits vk vk.kind alg [Op.Verify] → signerVerifyV C p' (s'.withKeyAad vk s.aad) d = .ok true

theorem signersEncodeV_roundtrip {C : Crypto} (L : C.Laws) {tstr allow : Bool} {p p' : Base} {pe : Bytes} {d : Val}
    {rnd : Nat → Bytes} (hp : p.phdrEncoded = .ok pe) (hp' : p'.phdrEncoded = .ok pe) (hpl : p'.payload = p.payload)
    {ss : List Base} {hs : List (Dict × Dict)}
    (hsend : All2 (fun (s : Base) (h : Dict × Dict) => Spec.Sendable C tstr allow s h.1 h.2) ss hs) :
    ∀ {i : Nat} {vs : List Val}, signersEncodeV C rnd p d i ss = .ok vs →
    ∃ ws ss', All2 (Sent (.base tstr)) vs ws ∧ signersFromObj C allow ws = .ok ss' ∧ ss'.length = ss.length ∧
      ∀ (j : Nat) (s s' : Base) (h : Dict × Dict), ss[j]? = some s → ss'[j]? = some s' → hs[j]? = some h →
        Spec.SignerReceivedAny C p p' d s s' h.1 h.2 := by
  induction hsend with
  | nil =>
    intro i vs h
    simp [signersEncodeV] at h; subst h
    exact ⟨[], [], .nil, rfl, rfl, by simp⟩
  | cons hh _ ih =>
    rename_i s h' t ht _
    intro i vs h
    simp only [signersEncodeV, bind_eq_ok] at h
    obtain ⟨v, h1, vs', h2, h3⟩ := h
    simp at h3; subst h3
    obtain ⟨ws, ss', i1, i2, i3, i4⟩ := ih h2
    simp only [signerEncodeV, bind_eq_ok] at h1
    obtain ⟨e, he, sg, hsg, h1⟩ := h1
    simp at h1; subst h1
    obtain ⟨w, hw, hb⟩ := received_base hh he
    have hb' := hb (some sg) []
    simp only [optBytes] at hb'
    refine ⟨.arr [.bytes e, .map w, .bytes sg] :: ws, recvBase e h'.1 h'.2 (some sg) :: ss',
      .cons (sent_arr (.cons sent_bytes (.cons hw (.cons sent_bytes .nil)))) i1, ?_, by simp [i3], ?_⟩
    · simp only [signersFromObj, signerFromObj, hb', ok_bind, i2]
    · intro j s0 s0' h0 e1 e2 e3
      cases j with
      | succ j => simp at e1 e2 e3; exact i4 j s0 s0' h0 e1 e2 e3
      | zero =>
        simp at e1 e2 e3; subst e1 e2 e3
        refine ⟨rfl, rfl, ?_⟩
        intro alg sk vk hal hsk hk hperm
        refine signature_verifies L hsg (sendable_getAttr hh rfl rfl (by decide) (by decide)) ?_ hal hsk rfl hk hperm
        have hl := sendable_ph_length hh
        have hpe : ((recvBase e h'.1 h'.2 (some sg)).withKeyAad vk s.aad).phdrEncoded = .ok e := rfl
        simp only [signerStructureV, hp, hp', hpl, hpe, he]
        simp only [recvBase, Base.withKeyAad, hl]

/-- **C07** for detached payloads of any type. -/
theorem c07_any_roundtrip {C : Crypto} (L : C.Laws) {m : SignMsg} {rnd : Nat → Bytes} {out : Bytes} {d : Val}
    {allow : Bool} {ph uh : Dict} {hs : List (Dict × Dict)} {cls : DecCls} (hcls : cls.accepts .sign = true)
    (hne : m.signers ≠ []) (hb : Spec.Sendable C m.base.tstr allow m.base ph uh)
    (hss : All2 (fun (s : Base) (h : Dict × Dict) => Spec.Sendable C m.base.tstr allow s h.1 h.2) m.signers hs)
    (h : m.encodeV C rnd true d = .ok out) :
    ∃ m', decode C cls allow out = .ok (.sign m') ∧ m'.base.phdr = ph ∧ m'.base.uhdr = uh ∧
      m'.base.payload = m.base.payload ∧ m'.signers.length = m.signers.length ∧
      ∀ (j : Nat) (s s' : Base) (h : Dict × Dict), m.signers[j]? = some s → m'.signers[j]? = some s' →
        hs[j]? = some h → Spec.SignerReceivedAny C m.base m'.base d s s' h.1 h.2 := by
  have hn : m.signers.length ≠ 0 := fun e => hne (List.length_eq_zero_iff.mp e)
  simp only [SignMsg.encodeV, if_pos hn, bind_eq_ok] at h
  obtain ⟨pe, hpe, vs, hvs, _, e, hf⟩ := h
  simp only [Except.ok.injEq] at e; subst e
  obtain ⟨w, hw, hb'⟩ := received_base hb hpe
  obtain ⟨ws, ss', h1, h2, h3, h4⟩ := signersEncodeV_roundtrip L (p' := recvBase pe ph uh m.base.payload) hpe rfl rfl hss hvs
  refine ⟨⟨recvBase pe ph uh m.base.payload, ss'⟩, ?_, rfl, rfl, rfl, h3, h4⟩
  have := finish_decode (C := C) (allow := allow) (cls := cls) (k := .sign) (m := .sign ⟨recvBase pe ph uh m.base.payload, ss'⟩)
      rfl hcls (.cons sent_bytes (.cons hw (.cons sent_opt (.cons (sent_arr h1) .nil)))) hf ?_ []
  · rwa [List.append_nil] at this
  · simp only [fromObj, SignMsg.fromObj, hb', ok_bind, pop0, iterSigners, h2]

/-! ### Cases that meet the hypotheses -/

/-- A COSE_Sign1 message without payload. -/
def Sample.bare : Sign1 := ⟨Sample.baseWith (-7) Sample.ecKey none, .bytes []⟩

/-- The text "hi", the byte string of its characters, a list and the number 1 as detached payloads: all are signed, and the
signed bytes differ; the class of an algorithm is not. -/
example : PyOK (.text b!"hi") ∧ PyOK (.bytes b!"hi") ∧ PyOK (.arr [.int 1, .bool true]) ∧
    Sample.bare.sigStructureV (.text b!"hi") = .ok (Spec.sig1StructureAny [0xa1, 1, 0x26] Sample.bare.base.aad [0x62, 104, 105]) ∧
    Sample.bare.sigStructureV (.bytes b!"hi") = .ok (Spec.sig1StructureAny [0xa1, 1, 0x26] Sample.bare.base.aad [0x42, 104, 105]) ∧
    (Sample.bare.encodeV toy [] true true (.arr [.int 1, .bool true])).isOk = true ∧
    Sample.bare.encodeV toy [] true true (algCls (-7)) = .error .cborEncode ∧
    Sample.bare.encodeV toy [] true true .none = .error .coseException := by
  refine ⟨by simp only [PyOK]; decide, trivial, by simp [PyOK, PyOKL], ?_, ?_, ?_, ?_, ?_⟩ <;> decide +kernel

example : ∀ e, dumpsPlain (algCls (-7)) ≠ .ok e := by
  have : dumpsPlain (algCls (-7)) = .error .cborEncode := by decide +kernel
  simp [this]

/-- Two signers of a message without payload sign a text. -/
example : (SignMsg.encodeV toy (fun _ => []) { Sample.sign with base := { Sample.sign.base with payload := none } } true
    (.text b!"hi")).isOk = true := by decide +kernel

end Cose
