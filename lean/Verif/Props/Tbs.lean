import Verif.SpecLemmas
import Verif.Props.Samples
/-!
# What is authenticated (C01–C05, C15, C56)
-/
set_option autoImplicit false

namespace Cose

/-! ### Helper lemmas about the model's structures -/

theorem baseStructure_ok {b : Base} {l : List Val} (h : b.baseStructure = .ok l) :
    ∃ p, Spec.AuthProtected b p ∧ l = [.bytes p, .bytes b.aad] := by
  unfold Base.baseStructure at h
  split at h
  · rename_i e
    simp only [ok_bind, Except.ok.injEq] at h
    exact ⟨[], Or.inl ⟨List.length_eq_zero_iff.mp e, rfl⟩, h.symm⟩
  · rename_i e
    simp only [bind_eq_ok, Except.ok.injEq] at h
    obtain ⟨p, h1, h2⟩ := h
    exact ⟨p, Or.inr ⟨fun h => e (by simp [h]), h1⟩, h2.symm⟩

theorem baseStructure_of {b : Base} {p : Bytes} (h : Spec.AuthProtected b p) :
    b.baseStructure = .ok [.bytes p, .bytes b.aad] := by
  rcases h with ⟨h1, h2⟩ | ⟨h1, h2⟩
  · simp [Base.baseStructure, h1, h2]
  · have : b.phdr.length ≠ 0 := fun e => h1 (List.length_eq_zero_iff.mp e)
    simp [Base.baseStructure, h1, h2]

theorem authProtected_unique {b : Base} {p q : Bytes} (h : Spec.AuthProtected b p)
    (g : Spec.AuthProtected b q) : p = q := by
  have := (baseStructure_of h).symm.trans (baseStructure_of g)
  simpa using this

theorem choosePayload_ok {a d : Option Bytes} {p : Bytes} :
    choosePayload a d = .ok p ↔ Spec.SignedPayload a d p := by
  cases a <;> cases d <;> simp [choosePayload, Spec.SignedPayload]

theorem sign1_structure_val {m : Sign1} {det : Option Bytes} {b : Bytes}
    (h : m.sigStructure det = .ok b) :
    ∃ p pl, Spec.AuthProtected m.base p ∧ Spec.SignedPayload m.base.payload det pl ∧
      dumpsPlain (.arr (.text b!"Signature1" :: [p, m.base.aad, pl].map .bytes)) = .ok b := by
  simp only [Sign1.sigStructure, bind_eq_ok] at h
  obtain ⟨l, h1, pl, h2, h3⟩ := h
  obtain ⟨p, hp, rfl⟩ := baseStructure_ok h1
  exact ⟨p, pl, hp, choosePayload_ok.mp h2, h3⟩

theorem mac_structure_val {ctx : Bytes} {m : Base} {b : Bytes} (h : macStructure ctx m = .ok b) :
    ∃ p pl, Spec.AuthProtected m p ∧ m.payload = some pl ∧
      dumpsPlain (.arr (.text ctx :: [p, m.aad, pl].map .bytes)) = .ok b := by
  simp only [macStructure, bind_eq_ok] at h
  obtain ⟨l, h1, h2⟩ := h
  obtain ⟨p, hp, rfl⟩ := baseStructure_ok h1
  split at h2
  · simp at h2
  · rename_i pl e
    exact ⟨p, pl, hp, e, h2⟩

theorem enc_structure_val {ctx : Bytes} {m : Base} {b : Bytes} (h : encStructure ctx m = .ok b) :
    ∃ p, Spec.AuthProtected m p ∧
      dumpsPlain (.arr (.text ctx :: [p, m.aad].map .bytes)) = .ok b := by
  simp only [encStructure, bind_eq_ok] at h
  obtain ⟨l, h1, h2⟩ := h
  obtain ⟨p, hp, rfl⟩ := baseStructure_ok h1
  exact ⟨p, hp, h2⟩

/-- The signer's own protected header as it enters the structure. -/
def Spec.SignerProtected (s : Base) (q : Option Bytes) : Prop :=
  (s.phdr = [] ∧ q = none) ∨ (s.phdr ≠ [] ∧ ∃ e, s.phdrEncoded = .ok e ∧ q = some e)

def Spec.sigFields (p : Bytes) (q : Option Bytes) (aad pl : Bytes) : List Bytes :=
  match q with
  | some e => [p, e, aad, pl]
  | none => [p, aad, pl]

theorem signer_structure_val {p s : Base} {det : Option Bytes} {b : Bytes}
    (h : signerStructure p s det = .ok b) :
    ∃ e q pl, p.phdrEncoded = .ok e ∧ Spec.SignerProtected s q ∧
      Spec.SignedPayload p.payload det pl ∧
      dumpsPlain (.arr (.text b!"Signature" :: (Spec.sigFields e q s.aad pl).map .bytes)) = .ok b := by
  simp only [signerStructure, bind_eq_ok] at h
  obtain ⟨e, h1, h⟩ := h
  split at h
  · rename_i hn
    simp only [bind_eq_ok, ok_bind] at h
    obtain ⟨o, h5, pl, h3, h4⟩ := h
    refine ⟨e, some o, pl, h1, Or.inr ⟨fun hh => hn (by simp [hh]), o, h5, rfl⟩,
      choosePayload_ok.mp h3, h4⟩
  · rename_i hn
    simp only [bind_eq_ok, ok_bind] at h
    obtain ⟨pl, h3, h4⟩ := h
    refine ⟨e, none, pl, h1, Or.inl ⟨?_, rfl⟩, choosePayload_ok.mp h3, h4⟩
    exact List.length_eq_zero_iff.mp (by simpa using hn)

theorem spec_sig1 (p a l : Bytes) : Spec.sig1Structure p a l =
    Spec.array (Spec.tstr b!"Signature1" :: [p, a, l].map Spec.bstr) := rfl

theorem spec_sig (p : Bytes) (q : Option Bytes) (a l : Bytes) : Spec.sigStructure p q a l =
    Spec.array (Spec.tstr b!"Signature" :: (Spec.sigFields p q a l).map Spec.bstr) := by
  cases q <;> rfl

/-! ### C01 -/

/-- C01, format: what a Sign1 message signs is the Sig_structure of RFC 8152 over the protected bytes,
the external_aad and the payload. -/
theorem c01_sign1_format {m : Sign1} {det : Option Bytes} {b : Bytes}
    (h : m.sigStructure det = .ok b) :
    ∃ p pl, Spec.AuthProtected m.base p ∧ Spec.SignedPayload m.base.payload det pl ∧
      b = Spec.sig1Structure p m.base.aad pl := by
  obtain ⟨p, pl, h1, h2, h3⟩ := sign1_structure_val h
  exact ⟨p, pl, h1, h2, by rw [spec_sig1]; exact dumpsPlain_struct h3⟩

theorem encL_bytes_ok {l : List Bytes} (h : ∀ x ∈ l, x.length < 2 ^ 64) :
    encL (l.map .bytes) = .ok (l.map Spec.bstr).flatten := by
  induction l with
  | nil => rfl
  | cons a t ih =>
    have ht := ih (fun x hx => h x (List.mem_cons_of_mem _ hx))
    simp only [List.map_cons, encL, enc, encHead_ok (h a List.mem_cons_self), ht, ok_bind]
    simp [Spec.bstr]

theorem dumpsPlain_struct_ok {c : Bytes} {l : List Bytes} (hc : validUtf8 c = true)
    (hl : c.length < 2 ^ 64) (hn : l.length < 2 ^ 32) (h : ∀ x ∈ l, x.length < 2 ^ 64) :
    dumpsPlain (.arr (.text c :: l.map .bytes)) =
      .ok (Spec.array (Spec.tstr c :: l.map Spec.bstr)) := by
  have h4 : (Val.text c :: bigL (l.map .bytes)).length < 2 ^ 64 := by
    rw [big_bytes]; simp; omega
  simp only [dumpsPlain, dumps, subst, substL, substL_bytes, ok_bind, big, bigL, enc, encL,
    encHead_ok h4]
  simp only [big_bytes, encL_bytes_ok h, hc, ↓reduceIte, encHead_ok hl, ok_bind]
  simp [Spec.array, Spec.tstr]

/-- C01, progress: the structure is produced whenever there is exactly one payload, the protected
header can be encoded, and no field is longer than CBOR can express. -/
theorem c01_sign1_produces {m : Sign1} {det : Option Bytes} {p pl : Bytes}
    (h1 : Spec.AuthProtected m.base p) (h2 : Spec.SignedPayload m.base.payload det pl)
    (hp : p.length < 2 ^ 64) (ha : m.base.aad.length < 2 ^ 64) (hl : pl.length < 2 ^ 64) :
    m.sigStructure det = .ok (Spec.sig1Structure p m.base.aad pl) := by
  simp only [Sign1.sigStructure, baseStructure_of h1, choosePayload_ok.mpr h2, ok_bind, spec_sig1]
  exact dumpsPlain_struct_ok (l := [p, m.base.aad, pl]) (by decide) (by decide) (by simp)
    (by
      intro x hx
      simp only [List.mem_cons, List.not_mem_nil, or_false] at hx
      rcases hx with rfl | rfl | rfl <;> assumption)

/-- C01, unambiguity. -/
theorem c01_sign1_unambiguous {m m' : Sign1} {det det' : Option Bytes} {b : Bytes}
    (h : m.sigStructure det = .ok b) (h' : m'.sigStructure det' = .ok b) :
    ∃ p pl, Spec.AuthProtected m.base p ∧ Spec.AuthProtected m'.base p ∧
      m.base.aad = m'.base.aad ∧
      Spec.SignedPayload m.base.payload det pl ∧ Spec.SignedPayload m'.base.payload det' pl := by
  obtain ⟨p, pl, h1, h2, h3⟩ := sign1_structure_val h
  obtain ⟨p', pl', h1', h2', h3'⟩ := sign1_structure_val h'
  obtain ⟨_, e, _⟩ := struct_inj (r := []) (s := []) (by decide) (by decide) h3 h3' rfl
  simp only [List.cons.injEq, and_true] at e
  obtain ⟨rfl, e2, rfl⟩ := e
  exact ⟨p, pl, h1, h1', e2, h2, h2'⟩

/-- C01, use: a signature is computed over exactly that structure … -/
theorem c01_sign1_signed_bytes {C : Crypto} {rnd : Bytes} {m : Sign1} {det : Option Bytes} {s : Bytes}
    (h : m.computeSignature C rnd det = .ok s) :
    ∃ p pl k f, Spec.AuthProtected m.base p ∧ Spec.SignedPayload m.base.payload det pl ∧
      m.base.key = some k ∧ callSign C rnd f k (Spec.sig1Structure p m.base.aad pl) = .ok s := by
  simp only [Sign1.computeSignature, computeSignature, bind_eq_ok] at h
  obtain ⟨alg, _, k, hk, f, _, data, hd, hs⟩ := h
  obtain ⟨p, pl, h1, h2, rfl⟩ := c01_sign1_format hd
  refine ⟨p, pl, k, f, h1, h2, ?_, hs⟩
  unfold keyVerification at hk
  split at hk
  · simp at hk
  · rename_i k' e
    split at hk <;> simp only [bind_eq_ok, Except.ok.injEq, reduceCtorEq] at hk
    all_goals (obtain ⟨_, _, rfl⟩ := hk; exact e)

/-- … and a verification verdict is about exactly that structure and the transported signature. -/
theorem c01_sign1_verified_bytes {C : Crypto} {m : Sign1} {det : Option Bytes} {r : Bool}
    (h : m.verifySignature C det = .ok r) :
    ∃ p pl k f, Spec.AuthProtected m.base p ∧ Spec.SignedPayload m.base.payload det pl ∧
      m.base.key = some k ∧
      callVerify C f k (Spec.sig1Structure p m.base.aad pl) m.signature = .ok r := by
  simp only [Sign1.verifySignature, verifySignature, bind_eq_ok] at h
  obtain ⟨alg, _, k, hk, f, _, data, hd, hs⟩ := h
  obtain ⟨p, pl, h1, h2, rfl⟩ := c01_sign1_format hd
  refine ⟨p, pl, k, f, h1, h2, ?_, hs⟩
  unfold keyVerification at hk
  split at hk
  · simp at hk
  · rename_i k' e
    split at hk <;> simp only [bind_eq_ok, Except.ok.injEq, reduceCtorEq] at hk
    all_goals (obtain ⟨_, _, rfl⟩ := hk; exact e)

/-- Non-vacuity: a message that signs; RFC 8152 structure of the example. -/
example : Sample.sign1.sigStructure none = .ok (Spec.sig1Structure [0xa1, 0x01, 0x26] b!"aad" b!"hello")
    ∧ Sample.sign1Detached.sigStructure (some b!"hello") =
      .ok (Spec.sig1Structure [0xa1, 0x01, 0x26] b!"aad" b!"hello")
    ∧ (Sample.sign1.computeSignature toy [] none).isOk = true := by decide +kernel

/-! ### C02 -/

/-- The byte strings that the six kinds of messages authenticate. -/
inductive Authenticated : MsgKind → Bytes → Prop
  | sign1 {m det b} : Sign1.sigStructure m det = .ok b → Authenticated .sign1 b
  | sign {p s det b} : signerStructure p s det = .ok b → Authenticated .sign b
  | mac0 {m b} : macStructure b!"MAC0" m = .ok b → Authenticated .mac0 b
  | mac {m b} : Cose.macStructure b!"MAC" m = .ok b → Authenticated .mac b
  | enc0 {m b} : encStructure b!"Encrypt0" m = .ok b → Authenticated .enc0 b
  | enc {m b} : encStructure b!"Encrypt" m = .ok b → Authenticated .enc b

/-- The context string of each kind of message (RFC 8152, sections 4.4, 5.3 and 6.3). -/
def Spec.contextOf : MsgKind → Bytes
  | .sign1 => b!"Signature1" | .sign => b!"Signature" | .mac0 => b!"MAC0" | .mac => b!"MAC"
  | .enc0 => b!"Encrypt0" | .enc => b!"Encrypt"

theorem authenticated_val {k : MsgKind} {b : Bytes} (h : Authenticated k b) :
    ∃ l, dumpsPlain (.arr (.text (Spec.contextOf k) :: List.map .bytes l)) = .ok b := by
  cases h with
  | sign1 h => obtain ⟨p, pl, _, _, h⟩ := sign1_structure_val h; exact ⟨_, h⟩
  | sign h => obtain ⟨e, q, pl, _, _, _, h⟩ := signer_structure_val h; exact ⟨_, h⟩
  | mac0 h => obtain ⟨p, pl, _, _, h⟩ := mac_structure_val h; exact ⟨_, h⟩
  | mac h => obtain ⟨p, pl, _, _, h⟩ := mac_structure_val h; exact ⟨_, h⟩
  | enc0 h => obtain ⟨p, _, h⟩ := enc_structure_val h; exact ⟨_, h⟩
  | enc h => obtain ⟨p, _, h⟩ := enc_structure_val h; exact ⟨_, h⟩

theorem contextOf_valid (k : MsgKind) : validUtf8 (Spec.contextOf k) = true := by
  cases k <;> decide

theorem contextOf_inj {k k' : MsgKind} (h : Spec.contextOf k = Spec.contextOf k') : k = k' := by
  cases k <;> cases k' <;> first | rfl | (revert h; decide)

/-- C02: the authenticated bytes of two different kinds of messages are never equal, and none is a
prefix of another. -/
theorem c02_domain_separation {k k' : MsgKind} {b b' r r' : Bytes} (h : Authenticated k b)
    (h' : Authenticated k' b') (e : b ++ r = b' ++ r') : k = k' := by
  obtain ⟨l, hl⟩ := authenticated_val h
  obtain ⟨l', hl'⟩ := authenticated_val h'
  exact contextOf_inj (struct_inj (contextOf_valid k) (contextOf_valid k') hl hl' e).1

/-- C02 in the plain form. -/
theorem c02_domain_separation_eq {k k' : MsgKind} {b : Bytes} (h : Authenticated k b)
    (h' : Authenticated k' b) : k = k' :=
  c02_domain_separation (r := []) (r' := []) h h' rfl

/-- C02: what the primitives are given belongs to the right kind: signatures. -/
theorem c02_sign1_primitive {C : Crypto} {rnd : Bytes} {m : Sign1} {det : Option Bytes} {s : Bytes}
    (h : m.computeSignature C rnd det = .ok s) :
    ∃ k f data, Authenticated .sign1 data ∧ callSign C rnd f k data = .ok s := by
  simp only [Sign1.computeSignature, computeSignature, bind_eq_ok] at h
  obtain ⟨alg, _, k, hk, f, _, data, hd, hs⟩ := h
  exact ⟨k, f, data, .sign1 hd, hs⟩

theorem c02_signer_primitive {C : Crypto} {rnd : Bytes} {p s : Base} {det : Option Bytes} {sg : Bytes}
    (h : signerCompute C rnd p s det = .ok sg) :
    ∃ k f data, Authenticated .sign data ∧ callSign C rnd f k data = .ok sg := by
  simp only [signerCompute, computeSignature, bind_eq_ok] at h
  obtain ⟨alg, _, k, hk, f, _, data, hd, hs⟩ := h
  exact ⟨k, f, data, .sign hd, hs⟩

theorem c02_mac_primitive {C : Crypto} {b : Base} {t : Bytes} :
    (macCompute C b!"MAC0" b = .ok t →
      ∃ k f data, Authenticated .mac0 data ∧ callTag C f k data = .ok t) ∧
    (macCompute C b!"MAC" b = .ok t →
      ∃ k f data, Authenticated .mac data ∧ callTag C f k data = .ok t) := by
  refine ⟨?_, ?_⟩ <;>
  · intro h
    simp only [macCompute, bind_eq_ok] at h
    obtain ⟨alg, _, h⟩ := h
    split at h
    · simp at h
    · rename_i k _
      simp only [bind_eq_ok] at h
      obtain ⟨_, _, f, _, data, hd, ht⟩ := h
      first
        | exact ⟨k, f, data, .mac0 hd, ht⟩
        | exact ⟨k, f, data, .mac hd, ht⟩

theorem c02_enc_primitive {C : Crypto} {b : Base} {c : Bytes} :
    (encEncrypt C b!"Encrypt0" b = .ok c →
      ∃ k a n data, Authenticated .enc0 data ∧ callEncrypt C a k n b.payload data = .ok c) ∧
    (encEncrypt C b!"Encrypt" b = .ok c →
      ∃ k a n data, Authenticated .enc data ∧ callEncrypt C a k n b.payload data = .ok c) := by
  refine ⟨?_, ?_⟩ <;>
  · intro h
    unfold encEncrypt at h
    split at h
    · simp at h
    · rename_i k _
      simp only [bind_eq_ok] at h
      obtain ⟨_, _, n, _, _, _, a, _, data, hd, ht⟩ := h
      first
        | exact ⟨k, a, n, data, .enc0 hd, ht⟩
        | exact ⟨k, a, n, data, .enc hd, ht⟩

/-- Non-vacuity: every kind has authenticated bytes. -/
example : ∀ k : MsgKind, ∃ b, Authenticated k b := by
  intro k
  cases k
  case sign1 => exact ⟨_, .sign1 (m := Sample.sign1) (det := none)
    (b := Spec.sig1Structure [0xa1, 0x01, 0x26] b!"aad" b!"hello") (by decide +kernel)⟩
  case sign => exact ⟨_, .sign (p := Sample.sign1.base) (s := Sample.sign1.base) (det := none)
    (b := Spec.sigStructure [0xa1, 0x01, 0x26] (some [0xa1, 0x01, 0x26]) b!"aad" b!"hello")
    (by decide +kernel)⟩
  case mac0 => exact ⟨_, .mac0 (m := Sample.mac0.base)
    (b := Spec.macStructure b!"MAC0" [0xa1, 0x01, 0x05] b!"aad" b!"hello") (by decide +kernel)⟩
  case mac => exact ⟨_, .mac (m := Sample.mac0.base)
    (b := Spec.macStructure b!"MAC" [0xa1, 0x01, 0x05] b!"aad" b!"hello") (by decide +kernel)⟩
  case enc0 => exact ⟨_, .enc0 (m := Sample.enc0.base)
    (b := Spec.encStructure b!"Encrypt0" [0xa1, 0x01, 0x01] b!"aad") (by decide +kernel)⟩
  case enc => exact ⟨_, .enc (m := Sample.enc0.base)
    (b := Spec.encStructure b!"Encrypt" [0xa1, 0x01, 0x01] b!"aad") (by decide +kernel)⟩

/-! ### C03 -/

/-- C03, format of what a COSE_Sign signer signs. -/
theorem c03_signer_format {p s : Base} {det : Option Bytes} {b : Bytes}
    (h : signerStructure p s det = .ok b) :
    ∃ e q pl, p.phdrEncoded = .ok e ∧ Spec.SignerProtected s q ∧
      Spec.SignedPayload p.payload det pl ∧ b = Spec.sigStructure e q s.aad pl := by
  obtain ⟨e, q, pl, h1, h2, h3, h4⟩ := signer_structure_val h
  exact ⟨e, q, pl, h1, h2, h3, by rw [spec_sig]; exact dumpsPlain_struct h4⟩

/-- C03, unambiguity. -/
theorem c03_signer_unambiguous {p s p' s' : Base} {det det' : Option Bytes} {b : Bytes}
    (h : signerStructure p s det = .ok b) (h' : signerStructure p' s' det' = .ok b) :
    ∃ e q pl, p.phdrEncoded = .ok e ∧ p'.phdrEncoded = .ok e ∧
      Spec.SignerProtected s q ∧ Spec.SignerProtected s' q ∧ s.aad = s'.aad ∧
      Spec.SignedPayload p.payload det pl ∧ Spec.SignedPayload p'.payload det' pl := by
  obtain ⟨e, q, pl, h1, h2, h3, h4⟩ := signer_structure_val h
  obtain ⟨e', q', pl', h1', h2', h3', h4'⟩ := signer_structure_val h'
  obtain ⟨_, hh, _⟩ := struct_inj (r := []) (s := []) (by decide) (by decide) h4 h4' rfl
  cases q <;> cases q' <;> simp [Spec.sigFields] at hh
  · obtain ⟨rfl, ha, rfl⟩ := hh; exact ⟨e, none, pl, h1, h1', h2, h2', ha, h3, h3'⟩
  · rename_i q q'
    obtain ⟨rfl, rfl, ha, rfl⟩ := hh; exact ⟨e, some q, pl, h1, h1', h2, h2', ha, h3, h3'⟩

/-- Non-vacuity: both shapes of the structure occur. -/
example : signerStructure Sample.sign.base (Sample.sign.signers[0]) none =
      .ok (Spec.sigStructure [0xa1, 0x03, 0x05] (some [0xa1, 0x01, 0x26]) b!"aad" b!"hello") ∧
    signerStructure Sample.sign.base (Sample.sign.signers[1]) none =
      .ok (Spec.sigStructure [0xa1, 0x03, 0x05] none [] b!"hello") := by decide +kernel

/-! ### C04 -/

/-- C04, format. -/
theorem c04_mac_format {ctx : Bytes} {m : Base} {b : Bytes} (h : macStructure ctx m = .ok b) :
    ∃ p pl, Spec.AuthProtected m p ∧ m.payload = some pl ∧
      b = Spec.macStructure ctx p m.aad pl := by
  obtain ⟨p, pl, h1, h2, h3⟩ := mac_structure_val h
  exact ⟨p, pl, h1, h2, dumpsPlain_struct h3⟩

/-- C04: the padding that AES-MAC applies: whole blocks, fewer than 16 zero bytes. -/
theorem c04_padding (data : Bytes) :
    (zeroPad data).length % 16 = 0 ∧ ∃ n, n < 16 ∧ zeroPad data = data ++ List.replicate n 0 := by
  refine ⟨?_, _, ?_, rfl⟩
  · simp only [zeroPad, List.length_append, List.length_replicate]; omega
  · omega

/-- C04, unambiguity, also after zero padding, and also across the two contexts. -/
theorem c04_mac_unambiguous {ctx ctx' : Bytes} {m m' : Base} {b b' : Bytes}
    (hc : ctx = b!"MAC0" ∨ ctx = b!"MAC") (hc' : ctx' = b!"MAC0" ∨ ctx' = b!"MAC")
    (h : macStructure ctx m = .ok b) (h' : macStructure ctx' m' = .ok b')
    (e : b = b' ∨ zeroPad b = zeroPad b') :
    ctx = ctx' ∧ m.aad = m'.aad ∧ m.payload = m'.payload ∧
      ∃ p, Spec.AuthProtected m p ∧ Spec.AuthProtected m' p := by
  have hv : validUtf8 ctx = true := by rcases hc with rfl | rfl <;> decide
  have hv' : validUtf8 ctx' = true := by rcases hc' with rfl | rfl <;> decide
  obtain ⟨p, pl, h1, h2, h3⟩ := mac_structure_val h
  obtain ⟨p', pl', h1', h2', h3'⟩ := mac_structure_val h'
  have key : ∃ r s, b ++ r = b' ++ s := by
    rcases e with e | e
    · exact ⟨[], [], by simp [e]⟩
    · exact ⟨_, _, e⟩
  obtain ⟨r, s, key⟩ := key
  obtain ⟨e1, e2, _⟩ := struct_inj hv hv' h3 h3' key
  simp only [List.cons.injEq, and_true] at e2
  obtain ⟨rfl, ea, rfl⟩ := e2
  exact ⟨e1, ea, by rw [h2, h2'], p, h1, h1'⟩

/-- Non-vacuity: the AES-MAC example pads. -/
example : macStructure b!"MAC0" Sample.mac0Aes.base =
      .ok (Spec.macStructure b!"MAC0" [0xa1, 0x01, 0x0e] b!"aad" b!"hello") ∧
    (zeroPad (Spec.macStructure b!"MAC0" [0xa1, 0x01, 0x0e] b!"aad" b!"hello")).length = 32 ∧
    (Spec.macStructure b!"MAC0" [0xa1, 0x01, 0x0e] b!"aad" b!"hello").length = 20 := by
  decide +kernel

/-! ### C05 -/

/-- C05, format. -/
theorem c05_aead_format {ctx : Bytes} {m : Base} {b : Bytes} (h : encStructure ctx m = .ok b) :
    ∃ p, Spec.AuthProtected m p ∧ b = Spec.encStructure ctx p m.aad := by
  obtain ⟨p, h1, h3⟩ := enc_structure_val h
  exact ⟨p, h1, dumpsPlain_struct h3⟩

/-- C05, unambiguity. -/
theorem c05_aead_unambiguous {ctx ctx' : Bytes} {m m' : Base} {b : Bytes}
    (hc : ctx = b!"Encrypt0" ∨ ctx = b!"Encrypt") (hc' : ctx' = b!"Encrypt0" ∨ ctx' = b!"Encrypt")
    (h : encStructure ctx m = .ok b) (h' : encStructure ctx' m' = .ok b) :
    ctx = ctx' ∧ m.aad = m'.aad ∧ ∃ p, Spec.AuthProtected m p ∧ Spec.AuthProtected m' p := by
  have hv : validUtf8 ctx = true := by rcases hc with rfl | rfl <;> decide
  have hv' : validUtf8 ctx' = true := by rcases hc' with rfl | rfl <;> decide
  obtain ⟨p, h1, h3⟩ := enc_structure_val h
  obtain ⟨p', h1', h3'⟩ := enc_structure_val h'
  obtain ⟨e1, e2, _⟩ := struct_inj (r := []) (s := []) hv hv' h3 h3' rfl
  simp only [List.cons.injEq, and_true] at e2
  obtain ⟨rfl, ea⟩ := e2
  exact ⟨e1, ea, p, h1, h1'⟩

example : encStructure b!"Encrypt0" Sample.enc0.base =
    .ok (Spec.encStructure b!"Encrypt0" [0xa1, 0x01, 0x01] b!"aad") := by decide +kernel

/-! ### C15 -/

/-- Preconditions of computing a signature other than the payload: algorithm, key and policy. -/
def Spec.ReadyToSign (b : Base) (op : Cls) : Prop :=
  ∃ alg k f, b.getAttr Hdr.Algorithm = .ok alg ∧ keyVerification b alg op = .ok k ∧
    signMethod alg = .ok f

/-- C15: with both payloads, or with none, signing and verification raise `CoseException` (when
the message gets as far as building the structure). -/
theorem c15_wrong_payload_raises {C : Crypto} {rnd : Bytes} {m : Sign1} {det : Option Bytes}
    (hp : ∃ p, Spec.AuthProtected m.base p)
    (h : (m.base.payload = none ∧ det = none) ∨ (m.base.payload ≠ none ∧ det ≠ none)) :
    (Spec.ReadyToSign m.base Op.Sign → m.computeSignature C rnd det = .error .coseException) ∧
    (Spec.ReadyToSign m.base Op.Verify → m.verifySignature C det = .error .coseException) := by
  obtain ⟨p, hp⟩ := hp
  have hc : choosePayload m.base.payload det = .error .coseException := by
    rcases h with ⟨h1, h2⟩ | ⟨h1, h2⟩
    · simp [h1, h2, choosePayload]
    · obtain ⟨a, ha⟩ := Option.ne_none_iff_exists'.mp h1
      obtain ⟨d, hd⟩ := Option.ne_none_iff_exists'.mp h2
      simp [ha, hd, choosePayload]
  have hs : m.sigStructure det = .error .coseException := by
    simp [Sign1.sigStructure, baseStructure_of hp, hc]
  refine ⟨?_, ?_⟩ <;>
  · rintro ⟨alg, k, f, h1, h2, h3⟩
    simp [Sign1.computeSignature, Sign1.verifySignature, computeSignature, verifySignature, h1, h2,
      h3, hs]

/-- C15: in every case, both or none means that no signature and no verdict is produced. -/
theorem c15_wrong_payload_no_result {C : Crypto} {rnd : Bytes} {m : Sign1} {det : Option Bytes}
    (h : (m.base.payload = none ∧ det = none) ∨ (m.base.payload ≠ none ∧ det ≠ none)) :
    (∀ s, m.computeSignature C rnd det ≠ .ok s) ∧ (∀ r, m.verifySignature C det ≠ .ok r) := by
  have key : ∀ pl, ¬ Spec.SignedPayload m.base.payload det pl := by
    intro pl hh
    rcases h with ⟨h1, h2⟩ | ⟨h1, h2⟩ <;> rcases hh with ⟨h3, h4⟩ | ⟨h3, h4⟩ <;> simp_all
  refine ⟨fun s hs => ?_, fun r hr => ?_⟩
  · obtain ⟨p, pl, _, _, _, h2, _⟩ := c01_sign1_signed_bytes hs
    exact key pl h2
  · obtain ⟨p, pl, _, _, _, h2, _⟩ := c01_sign1_verified_bytes hr
    exact key pl h2

/-- C15 for COSE_Sign signers. -/
theorem c15_signer_wrong_payload_no_result {C : Crypto} {rnd : Bytes} {p s : Base}
    {det : Option Bytes}
    (h : (p.payload = none ∧ det = none) ∨ (p.payload ≠ none ∧ det ≠ none)) :
    (∀ x, signerCompute C rnd p s det ≠ .ok x) ∧ (∀ r, signerVerify C p s det ≠ .ok r) := by
  have key : ∀ b, signerStructure p s det ≠ .ok b := by
    intro b hb
    obtain ⟨_, _, pl, _, _, hh, _⟩ := c03_signer_format hb
    rcases h with ⟨h1, h2⟩ | ⟨h1, h2⟩ <;> rcases hh with ⟨h3, h4⟩ | ⟨h3, h4⟩ <;> simp_all
  refine ⟨fun x hx => ?_, fun r hr => ?_⟩
  · simp only [signerCompute, computeSignature, bind_eq_ok] at hx
    obtain ⟨_, _, _, _, _, _, d, hd, _⟩ := hx
    exact key d hd
  · simp only [signerVerify, verifySignature, bind_eq_ok] at hr
    obtain ⟨_, _, _, _, _, _, d, hd, _⟩ := hr
    exact key d hd

/-- C15: detached and attached payloads sign the same bytes: moving the payload out of the message
changes nothing about what is authenticated. -/
theorem c15_detached_same_bytes (m : Sign1) (pl : Bytes) :
    Sign1.sigStructure { m with base := { m.base with payload := some pl } } none =
    Sign1.sigStructure { m with base := { m.base with payload := none } } (some pl) := rfl

/-- C15: a detached payload influences the encoded message only through the signature. -/
theorem c15_detached_only_through_signature {C : Crypto} {rnd : Bytes} {m : Sign1} {tag : Bool}
    {d d' : Option Bytes} :
    (m.computeSignature C rnd d = m.computeSignature C rnd d' →
      m.encode C rnd tag true d = m.encode C rnd tag true d') ∧
    m.encode C rnd tag false d = m.encode C rnd tag false d' := by
  refine ⟨fun h => ?_, ?_⟩
  · simp [Sign1.encode, h]
  · simp [Sign1.encode]

/-- C15: a detached payload is not in the message: the payload field sent is the attached payload. -/
theorem c15_payload_field {C : Crypto} {rnd : Bytes} {m : Sign1} {tag : Bool} {det : Option Bytes}
    {out : Bytes} (h : m.encode C rnd tag true det = .ok out) :
    ∃ pe s, m.base.phdrEncoded = .ok pe ∧ m.computeSignature C rnd det = .ok s ∧
      m.base.finish 18 tag [.bytes pe, .map m.base.uhdr, optBytes m.base.payload, .bytes s] = .ok out := by
  simp only [Sign1.encode, bind_eq_ok, ↓reduceIte, Except.ok.injEq] at h
  obtain ⟨pe, h1, s, h2, h4⟩ := h
  exact ⟨pe, s, h1, h2, by simpa using h4⟩

/-- Non-vacuity of the refusals and of the acceptance. -/
example : Spec.AuthProtected Sample.sign1.base [0xa1, 0x01, 0x26] ∧
    Spec.ReadyToSign Sample.sign1.base Op.Sign ∧ Spec.ReadyToSign Sample.sign1.base Op.Verify ∧
    Sample.sign1.computeSignature toy [] (some b!"x") = .error .coseException ∧
    Sample.sign1Detached.computeSignature toy [] none = .error .coseException ∧
    (Sample.sign1Detached.encode toy [] true true (some b!"x")).isOk = true := by
  refine ⟨Or.inr ⟨by decide, by decide +kernel⟩, ⟨algCls (-7), Sample.ecKey, .ecdsa P256 .sha256, ?_⟩,
    ⟨algCls (-7), Sample.ecKey, .ecdsa P256 .sha256, ?_⟩, ?_, ?_, ?_⟩ <;> decide +kernel

/-! ### C56 -/

/-- C56: the authenticated bytes do not depend on the unprotected header. -/
theorem c56_uhdr_not_authenticated (m : Base) (u : Dict) :
    (∀ s det, Sign1.sigStructure ⟨{ m with uhdr := u }, s⟩ det = Sign1.sigStructure ⟨m, s⟩ det) ∧
    (∀ s det, signerStructure { m with uhdr := u } s det = signerStructure m s det) ∧
    (∀ p det, signerStructure p { m with uhdr := u } det = signerStructure p m det) ∧
    (∀ ctx, macStructure ctx { m with uhdr := u } = macStructure ctx m) ∧
    (∀ ctx, encStructure ctx { m with uhdr := u } = encStructure ctx m) :=
  ⟨fun _ _ => rfl, fun _ _ => rfl, fun _ _ => rfl, fun _ => rfl, fun _ => rfl⟩

/-- C56: changing the external_aad always changes the authenticated bytes. -/
theorem c56_aad_authenticated {m : Base} {a : Bytes} (ha : a ≠ m.aad) :
    (∀ s det b b', Sign1.sigStructure ⟨m, s⟩ det = .ok b →
      Sign1.sigStructure ⟨{ m with aad := a }, s⟩ det = .ok b' → b ≠ b') ∧
    (∀ p det b b', signerStructure p m det = .ok b →
      signerStructure p { m with aad := a } det = .ok b' → b ≠ b') ∧
    (∀ ctx, ctx = b!"MAC0" ∨ ctx = b!"MAC" → ∀ b b', macStructure ctx m = .ok b →
      macStructure ctx { m with aad := a } = .ok b' → b ≠ b') ∧
    (∀ ctx, ctx = b!"Encrypt0" ∨ ctx = b!"Encrypt" → ∀ b b', encStructure ctx m = .ok b →
      encStructure ctx { m with aad := a } = .ok b' → b ≠ b') := by
  refine ⟨?_, ?_, ?_, ?_⟩
  · rintro s det b _ h1 h2 rfl
    obtain ⟨_, _, _, _, e, _⟩ := c01_sign1_unambiguous h1 h2
    exact ha e.symm
  · rintro p det b _ h1 h2 rfl
    obtain ⟨_, _, _, _, _, _, _, e, _⟩ := c03_signer_unambiguous h1 h2
    exact ha e.symm
  · rintro ctx hc b _ h1 h2 rfl
    obtain ⟨_, e, _⟩ := c04_mac_unambiguous hc hc h1 h2 (Or.inl rfl)
    exact ha e.symm
  · rintro ctx hc b _ h1 h2 rfl
    obtain ⟨_, e, _⟩ := c05_aead_unambiguous hc hc h1 h2
    exact ha e.symm

/-- C56: the external_aad is not transmitted: messages that differ only in it and have the same
signature (tag, ciphertext) have the same encoding. -/
theorem c56_aad_not_transmitted {C : Crypto} {rnd : Bytes} {m : Base} {a : Bytes} {s : Val}
    {tag : Bool} {det : Option Bytes} :
    (Sign1.computeSignature C rnd ⟨{ m with aad := a }, s⟩ det =
        Sign1.computeSignature C rnd ⟨m, s⟩ det →
      Sign1.encode C rnd ⟨{ m with aad := a }, s⟩ tag true det =
        Sign1.encode C rnd ⟨m, s⟩ tag true det) ∧
    (Mac0.computeTag C ⟨{ m with aad := a }, s⟩ = Mac0.computeTag C ⟨m, s⟩ →
      (Mac0.encode C ⟨{ m with aad := a }, s⟩ tag true).map (·.1) =
        (Mac0.encode C ⟨m, s⟩ tag true).map (·.1)) ∧
    (Enc0.encrypt C ⟨{ m with aad := a }⟩ = Enc0.encrypt C ⟨m⟩ →
      Enc0.encode C ⟨{ m with aad := a }⟩ tag true = Enc0.encode C ⟨m⟩ tag true) := by
  refine ⟨fun h => ?_, fun h => ?_, fun h => ?_⟩
  · simp only [Sign1.encode, h]; rfl
  · simp only [Mac0.encode, h, ↓reduceIte, map_bind]; rfl
  · simp only [Enc0.encode, h]; rfl

example : ∃ b b', Sign1.sigStructure Sample.sign1 none = .ok b ∧
    Sign1.sigStructure ⟨{ Sample.sign1.base with aad := b!"other" }, .bytes []⟩ none = .ok b' :=
  ⟨Spec.sig1Structure [0xa1, 0x01, 0x26] b!"aad" b!"hello",
   Spec.sig1Structure [0xa1, 0x01, 0x26] b!"other" b!"hello", by decide +kernel, by decide +kernel⟩

end Cose
