import Verif.SpecKeys
/-!
# Round trips of single-layer messages and COSE_Sign: C06–C09

The sender's headers must be transmissible (`Spec.Sendable`); this holds for all messages built by the
constructors from plain headers (`sendable_constructed`) and is what a receiver can see of them: `ph`
and `uh` are the received header maps, equal to the sent ones except that a COSE key in a header
arrives as a key object.
-/
set_option autoImplicit false
namespace Cose

/-! ### Helpers -/

theorem keyVerification_pair {C : Crypto} {alg : Val} {sk vk : Key} {b : Base} (h : Spec.KeyPair C alg sk vk)
    (hp : Spec.Permits vk vk.kind alg [Op.Verify]) (hb : b.key = some vk) :
    keyVerification b alg Op.Verify = .ok vk := by
  have hv := permits_verify hp
  have hk : vk.kind ≠ .sym := by
    cases h with
    | ecdsa _ hk => rw [hk]; decide
    | eddsa _ hk => rw [hk]; decide
    | rsa _ hk => rw [hk]; decide
  simp only [keyVerification, hb]
  cases hkk : vk.kind <;> simp only [hkk] at hv hk ⊢ <;> first | (rw [hv]; rfl) | exact absurd rfl hk

theorem computeSignature_inv {C : Crypto} {rnd : Bytes} {b : Base} {tbs : Res Bytes} {s : Bytes}
    (h : computeSignature C rnd b tbs = .ok s) :
    ∃ alg sk f data, b.getAttr Hdr.Algorithm = .ok alg ∧ b.key = some sk ∧ signMethod alg = .ok f ∧
      tbs = .ok data ∧ callSign C rnd f sk data = .ok s ∧ keyVerification b alg Op.Sign = .ok sk := by
  simp only [computeSignature, bind_eq_ok] at h
  obtain ⟨alg, h1, k, h2, f, h3, data, h4, h5⟩ := h
  refine ⟨alg, k, f, data, h1, ?_, h3, h4, h5, h2⟩
  unfold keyVerification at h2
  split at h2
  · simp at h2
  · rename_i k' hk
    split at h2 <;> simp only [bind_eq_ok, reduceCtorEq] at h2
    all_goals obtain ⟨_, _, h2⟩ := h2; simp at h2; rw [hk, h2]

/-- A signature verifies for whoever authenticates the same bytes with the matching key. -/
theorem signature_verifies {C : Crypto} (L : C.Laws) {rnd : Bytes} {b b' : Base} {tbs tbs' : Res Bytes} {s : Bytes}
    {alg : Val} {sk vk : Key} (h : computeSignature C rnd b tbs = .ok s)
    (ha : b'.getAttr Hdr.Algorithm = b.getAttr Hdr.Algorithm) (ht : tbs' = tbs)
    (hal : b.getAttr Hdr.Algorithm = .ok alg) (hsk : b.key = some sk) (hvk : b'.key = some vk)
    (hk : Spec.KeyPair C alg sk vk) (hp : Spec.Permits vk vk.kind alg [Op.Verify]) :
    verifySignature C b' tbs' (.bytes s) = .ok true := by
  obtain ⟨alg', sk', f, data, h1, h2, h3, h4, h5, _⟩ := computeSignature_inv h
  rw [hal] at h1; simp at h1; subst h1
  rw [hsk] at h2; simp at h2; subst h2
  subst ht
  simp only [verifySignature, ha, hal, ok_bind, keyVerification_pair hk hp hvk, h3, h4]
  exact keyPair_verify L hk h3 h5

/-- The receiver sets key and external aad on the decoded message. -/
def Base.withKeyAad (b : Base) (k : Key) (aad : Bytes) : Base := { b with key := some k, aad := aad }


/-! ### Concrete cases -/

/-- The sample messages can be sent. -/
theorem Sample.sendable {C : Crypto} {tstr allow : Bool} {alg : Int} {n : Bytes} (ha : (⟨.alg, alg⟩, n) ∈ registry .alg)
    (key : Key) (pl : Option Bytes) :
    Spec.Sendable C tstr allow (Sample.baseWith alg key pl) (Sample.baseWith alg key pl).phdr (Sample.baseWith alg key pl).uhdr := by
  refine ⟨.inl ⟨rfl, by simp [KeysNodup, Sample.baseWith], .cons (.alg (.one ha)) .nil⟩, by simp [KeysNodup, Sample.baseWith], ?_⟩
  refine .cons (.plain (n := b!"KID") (by decide +kernel) (by decide) (by decide) (by decide) trivial ?_) .nil
  simp [Spec.ValidValue]

theorem Sample.ecPair : Spec.KeyPair toy (algCls (-7)) Sample.ecKey Sample.ecPubKey :=
  .ecdsa (crv := P256) (h := .sha256) (d := beBytes 32 7) (x := beBytes 32 7) (y := beBytes 32 8)
    (by decide) rfl rfl rfl rfl (by decide) (by decide) (by decide +kernel)

theorem Sample.ecPermits : Spec.Permits Sample.ecPubKey .ec2 (algCls (-7)) [Op.Verify] :=
  ⟨rfl, .inl rfl, .inl rfl⟩

theorem Sample.symPermits (alg : Val) (op : Cls) : Spec.Permits Sample.symKey .sym alg [op] :=
  ⟨rfl, .inl rfl, .inl rfl⟩

/-! ### C06 -/

/-- C06.  `encode()` of a COSE_Sign1 message decodes to a message with the sender's headers and payload,
and verifies under the matching key, the same external aad and the same detached payload. -/
theorem c06_sign1_roundtrip {C : Crypto} (L : C.Laws) {m : Sign1} {rnd out : Bytes} {d : Option Bytes} {allow : Bool}
    {ph uh : Dict} {cls : DecCls} {alg : Val} {sk vk : Key} (hcls : cls.accepts .sign1 = true)
    (hs : Spec.Sendable C m.base.tstr allow m.base ph uh) (h : m.encode C rnd true true d = .ok out)
    (halg : m.base.getAttr Hdr.Algorithm = .ok alg) (hsk : m.base.key = some sk)
    (hk : Spec.KeyPair C alg sk vk) (hp : Spec.Permits vk vk.kind alg [Op.Verify]) :
    ∃ m', decode C cls allow out = .ok (.sign1 m') ∧ m'.base.phdr = ph ∧ m'.base.uhdr = uh ∧
      m'.base.payload = m.base.payload ∧
      Sign1.verifySignature C { m' with base := m'.base.withKeyAad vk m.base.aad } d = .ok true := by
  obtain ⟨pe, tl, hpe, hf, ht⟩ := sign1_encode_inv h
  rcases ht with ⟨_, s, hsig, rfl⟩ | ⟨h0, _⟩ | ⟨h0, _⟩
  · obtain ⟨w, hw, hb⟩ := received_base hs hpe
    refine ⟨⟨recvBase pe ph uh m.base.payload, .bytes s⟩, ?_, rfl, rfl, rfl, ?_⟩
    · have := finish_decode (C := C) (allow := allow) (cls := cls) (k := .sign1) (m := .sign1 ⟨recvBase pe ph uh m.base.payload, .bytes s⟩)
        rfl hcls (.cons sent_bytes (.cons hw (.cons sent_opt (.cons sent_bytes .nil)))) hf ?_ []
      · rwa [List.append_nil] at this
      · simp only [fromObj, Sign1.fromObj, hb, ok_bind, pop0]
    · refine signature_verifies L hsig (sendable_getAttr hs rfl rfl (by decide) (by decide)) ?_ halg hsk rfl hk hp
      simp only [Sign1.sigStructure]
      rw [sendable_baseStructure hs hpe]
      all_goals rfl
  · simp at h0
  · simp at h0

/-- Messages made by the constructor from plain headers: the headers arrive unchanged. -/
theorem c06_constructed {C : Crypto} (L : C.Laws) {a : HdrArgs} {dp du : Dict} {pl aad : Val} {m : Sign1} {rnd out : Bytes}
    {d : Option Bytes} {cls : DecCls} {alg : Val} {sk vk : Key} (hcls : cls.accepts .sign1 = true)
    (h0 : a.phdrEncoded = .none) (h1 : a.phdr = .map dp) (h2 : a.uhdr = .map du) (hdp : Spec.PlainArgs dp)
    (hdu : Spec.PlainArgs du) (hm : Sign1.new C a pl aad (some sk) = .ok m) (h : m.encode C rnd true true d = .ok out)
    (halg : m.base.getAttr Hdr.Algorithm = .ok alg) (hk : Spec.KeyPair C alg sk vk)
    (hp : Spec.Permits vk vk.kind alg [Op.Verify]) :
    ∃ m', decode C cls a.allow out = .ok (.sign1 m') ∧ m'.base.phdr = m.base.phdr ∧ m'.base.uhdr = m.base.uhdr ∧
      m'.base.payload = m.base.payload ∧
      Sign1.verifySignature C { m' with base := m'.base.withKeyAad vk m.base.aad } d = .ok true := by
  simp only [Sign1.new, bind_eq_ok] at hm
  obtain ⟨b, hb, hm⟩ := hm
  simp at hm; subst hm
  have hkey : b.key = some sk := by
    obtain ⟨b0, p, x, _, rfl, rfl, rfl⟩ := initMsg_ok hb
    rfl
  exact c06_sign1_roundtrip L hcls (sendable_constructed h0 h1 h2 hdp hdu hb _) h halg hkey hk hp

example : ∃ out, Sample.sign1.encode toy [] true true none = .ok out ∧
    Spec.Sendable toy Sample.sign1.base.tstr false Sample.sign1.base Sample.sign1.base.phdr Sample.sign1.base.uhdr ∧
    Sample.sign1.base.getAttr Hdr.Algorithm = .ok (algCls (-7)) ∧ Sample.sign1.base.key = some Sample.ecKey ∧
    Spec.KeyPair toy (algCls (-7)) Sample.ecKey Sample.ecPubKey ∧
    Spec.Permits Sample.ecPubKey Sample.ecPubKey.kind (algCls (-7)) [Op.Verify] ∧ toy.Laws :=
  ⟨(Sample.sign1.encode toy [] true true none).toOption.get (by decide +kernel), by decide +kernel, Sample.sendable (n := b!"ES256") (by decide +kernel) _ _,
    by decide +kernel, rfl, Sample.ecPair, Sample.ecPermits, toy_laws⟩

/-- The detached variant. -/
example : (Sample.sign1Detached.encode toy [] true true (some b!"far away")).isOk = true := by decide +kernel

/-- With a protected COSE key, an unknown label and an algorithm transported as text. -/
example : Spec.Sendable toy true true
    { phdr := [(.cls Hdr.Algorithm, algCls (-7)), (.text b!"note", .arr [.int 1, .none])], tstr := true }
    [(.cls Hdr.Algorithm, algCls (-7)), (.text b!"note", .arr [.int 1, .none])] [] := by
  refine ⟨.inl ⟨rfl, by simp [KeysNodup, keq, norm], .cons (.alg (.one (n := b!"ES256") (by decide +kernel))) (.cons (.foreign rfl (foreign_text ?_ ?_) ?_) .nil)⟩,
    by simp [KeysNodup], .nil⟩
  · decide +kernel
  · decide +kernel
  · simp [PyOK, PyOKL]

/-! ### C08 -/

theorem macVerify_roundtrip {C : Crypto} {ctx : Bytes} {b b' : Base} {t : Bytes} {k rk : Key} {alg : Val}
    (h : macCompute C ctx b = .ok t) (hal : b.getAttr Hdr.Algorithm = .ok alg) (hk : b.key = some k)
    (hrk : b'.key = some rk) (ha : b'.getAttr Hdr.Algorithm = b.getAttr Hdr.Algorithm)
    (hs : macStructure ctx b' = macStructure ctx b) (hK : rk.symK = k.symK)
    (hp : Spec.Permits rk .sym alg [Op.MacVerify]) : macVerify C ctx b' (.bytes t) = .ok true := by
  simp only [macCompute, hal, ok_bind, hk, bind_eq_ok] at h
  obtain ⟨_, _, f, hf, data, hd, ht⟩ := h
  have : callTag C f rk data = .ok t := by
    rw [← ht]; cases f <;> simp only [callTag, hK]
  simp only [macVerify, ha, hal, ok_bind, hrk, permits_verify hp, hf, hs, hd, callVerifyTag, this, beq_self_eq_true]

theorem sendable_macStructure {C : Crypto} {tstr allow : Bool} {b b' : Base} {ph uh : Dict} {pe ctx : Bytes}
    (h : Spec.Sendable C tstr allow b ph uh) (hp : b.phdrEncoded = .ok pe)
    (e1 : b'.phdr = ph) (e2 : b'.phdrEnc = some pe) (e3 : b'.aad = b.aad) (e4 : b'.payload = b.payload) :
    macStructure ctx b' = macStructure ctx b := by
  simp only [macStructure, sendable_baseStructure h hp e1 e2 e3, e4]

/-- C08.  `encode()` of a COSE_Mac0 message decodes to a message with the sender's headers and payload whose
tag verifies under the same key value and external aad. -/
theorem c08_mac0_roundtrip {C : Crypto} {m m1 : Mac0} {out : Bytes} {allow : Bool}
    {ph uh : Dict} {cls : DecCls} {alg : Val} {k rk : Key} (hcls : cls.accepts .mac0 = true)
    (hs : Spec.Sendable C m.base.tstr allow m.base ph uh) (h : m.encode C true true = .ok (out, m1))
    (halg : m.base.getAttr Hdr.Algorithm = .ok alg) (hk : m.base.key = some k)
    (hK : rk.symK = k.symK) (hp : Spec.Permits rk .sym alg [Op.MacVerify]) :
    ∃ m', decode C cls allow out = .ok (.mac0 m') ∧ m'.base.phdr = ph ∧ m'.base.uhdr = uh ∧
      m'.base.payload = m.base.payload ∧
      Mac0.verifyTag C { m' with base := m'.base.withKeyAad rk m.base.aad } = .ok true := by
  obtain ⟨pe, tl, hpe, hf, ht⟩ := mac0_encode_inv h
  rcases ht with ⟨_, t, htag, rfl, _⟩ | ⟨h0, _⟩
  · obtain ⟨w, hw, hb⟩ := received_base hs hpe
    refine ⟨⟨recvBase pe ph uh m.base.payload, .bytes t⟩, ?_, rfl, rfl, rfl, ?_⟩
    · have := finish_decode (C := C) (allow := allow) (cls := cls) (k := .mac0) (m := .mac0 ⟨recvBase pe ph uh m.base.payload, .bytes t⟩)
        rfl hcls (.cons sent_bytes (.cons hw (.cons sent_opt (.cons sent_bytes .nil)))) hf ?_ []
      · rwa [List.append_nil] at this
      · simp only [fromObj, Mac0.fromObj, hb, ok_bind, pop0]
    · exact macVerify_roundtrip htag halg hk rfl (sendable_getAttr hs rfl rfl (by decide) (by decide))
        (sendable_macStructure hs hpe rfl rfl rfl rfl) hK hp
  · simp at h0

example : (Sample.mac0.encode toy true true).isOk = true ∧ (Sample.mac0Aes.encode toy true true).isOk = true ∧
    Sample.mac0.base.getAttr Hdr.Algorithm = .ok (algCls 5) ∧ Sample.mac0.base.key = some Sample.symKey ∧
    Spec.Sendable toy Sample.mac0.base.tstr false Sample.mac0.base Sample.mac0.base.phdr Sample.mac0.base.uhdr ∧
    Spec.Permits Sample.symKey .sym (algCls 5) [Op.MacVerify] :=
  ⟨by decide +kernel, by decide +kernel, by decide +kernel, rfl, Sample.sendable (n := b!"HMAC_256") (by decide +kernel) _ _,
    Sample.symPermits _ _⟩

/-! ### C09 -/

theorem getNonce_congr {b b' : Base} {k rk : Key} (hk : b.key = some k) (hrk : b'.key = some rk)
    (h1 : b'.getAttr Hdr.IV = b.getAttr Hdr.IV) (h2 : b'.getAttr Hdr.PartialIV = b.getAttr Hdr.PartialIV)
    (h3 : rk.baseIv = k.baseIv) : getNonce b' = getNonce b := by
  simp only [getNonce, h1, h2, hk, hrk, h3]

theorem decrypt_roundtrip {C : Crypto} (L : C.Laws) {ctx : Bytes} {b b' : Base} {c : Bytes} {k rk : Key} {alg : Val}
    (h : encEncrypt C ctx b = .ok c) (hal : b.getAttr Hdr.Algorithm = .ok alg) (hk : b.key = some k)
    (hrk : b'.key = some rk) (ha : b'.getAttr Hdr.Algorithm = b.getAttr Hdr.Algorithm)
    (h1 : b'.getAttr Hdr.IV = b.getAttr Hdr.IV) (h2 : b'.getAttr Hdr.PartialIV = b.getAttr Hdr.PartialIV)
    (h3 : rk.baseIv = k.baseIv)
    (hs : encStructure ctx b' = encStructure ctx b) (hK : rk.symK = k.symK) (hpl : b'.payload = some c)
    (hp : Spec.Permits rk .sym alg [Op.Decrypt]) : ∃ p, b.payload = some p ∧ encDecrypt C ctx b' = .ok p := by
  simp only [encEncrypt, hal, ok_bind, hk, bind_eq_ok] at h
  obtain ⟨n, hn, _, _, a, hae, aad, haad, hc⟩ := h
  simp only [callEncrypt, bind_eq_ok] at hc
  obtain ⟨kk, hkk, kb, hkb, nb, hnb, hc⟩ := hc
  cases hpp : b.payload with
  | none => simp [hpp] at hc
  | some p =>
    simp only [hpp] at hc
    refine ⟨p, rfl, ?_⟩
    simp only [encDecrypt, ha, hal, ok_bind, getNonce_congr hk hrk h1 h2 h3, hn, hrk, permits_verify hp, hae, hs, haad,
      callDecrypt, hK, hkk, hkb, hnb, hpl]
    exact L.aead_dec hc

theorem sendable_encStructure {C : Crypto} {tstr allow : Bool} {b b' : Base} {ph uh : Dict} {pe ctx : Bytes}
    (h : Spec.Sendable C tstr allow b ph uh) (hp : b.phdrEncoded = .ok pe)
    (e1 : b'.phdr = ph) (e2 : b'.phdrEnc = some pe) (e3 : b'.aad = b.aad) :
    encStructure ctx b' = encStructure ctx b := by
  simp only [encStructure, sendable_baseStructure h hp e1 e2 e3]

/-- C09.  `encode()` of a COSE_Encrypt0 message decodes to a message with the sender's headers that decrypts,
under the same key value (and base IV) and external aad, to the sender's payload. -/
theorem c09_enc0_roundtrip {C : Crypto} (L : C.Laws) {m : Enc0} {out : Bytes} {allow : Bool}
    {ph uh : Dict} {cls : DecCls} {alg : Val} {k rk : Key} (hcls : cls.accepts .enc0 = true)
    (hs : Spec.Sendable C m.base.tstr allow m.base ph uh) (h : m.encode C true true = .ok out)
    (halg : m.base.getAttr Hdr.Algorithm = .ok alg) (hk : m.base.key = some k)
    (hK : rk.symK = k.symK) (hiv : rk.baseIv = k.baseIv) (hp : Spec.Permits rk .sym alg [Op.Decrypt]) :
    ∃ m' p, decode C cls allow out = .ok (.enc0 m') ∧ m'.base.phdr = ph ∧ m'.base.uhdr = uh ∧
      m.base.payload = some p ∧
      Enc0.decrypt C { m' with base := m'.base.withKeyAad rk m.base.aad } = .ok p := by
  obtain ⟨pe, v, hpe, hf, ht⟩ := enc0_encode_inv h
  rcases ht with ⟨_, c, hc, rfl⟩ | ⟨h0, _⟩
  · obtain ⟨w, hw, hb⟩ := received_base hs hpe
    obtain ⟨p, hpp, hd⟩ := decrypt_roundtrip L (b' := (recvBase pe ph uh (some c)).withKeyAad rk m.base.aad) hc halg hk rfl
      (sendable_getAttr hs rfl rfl (by decide) (by decide)) (sendable_getAttr hs rfl rfl (by decide) (by decide))
      (sendable_getAttr hs rfl rfl (by decide) (by decide)) hiv (sendable_encStructure hs hpe rfl rfl rfl) hK rfl hp
    refine ⟨⟨recvBase pe ph uh (some c)⟩, p, ?_, rfl, rfl, hpp, hd⟩
    have := finish_decode (C := C) (allow := allow) (cls := cls) (k := .enc0) (m := .enc0 ⟨recvBase pe ph uh (some c)⟩)
        rfl hcls (.cons sent_bytes (.cons hw (.cons sent_bytes .nil))) hf ?_ []
    · rwa [List.append_nil] at this
    · have := hb (some c) []
      simp only [optBytes] at this
      simp only [fromObj, Enc0.fromObj, this, ok_bind]
  · simp at h0

theorem Sample.enc0Sendable {C : Crypto} {tstr allow : Bool} :
    Spec.Sendable C tstr allow Sample.enc0.base Sample.enc0.base.phdr Sample.enc0.base.uhdr := by
  refine ⟨.inl ⟨rfl, by simp [KeysNodup, Sample.baseWith, Sample.enc0], .cons (.alg (.one (n := b!"A128GCM") (by decide +kernel))) .nil⟩, ?_, ?_⟩
  · simp [KeysNodup, Sample.enc0, Hdr.KID, Hdr.IV]
  · refine .cons (.plain (n := b!"KID") (by decide +kernel) (by decide) (by decide) (by decide) trivial ?_)
      (.cons (.plain (n := b!"IV") (by decide +kernel) (by decide) (by decide) (by decide) trivial ?_) .nil) <;>
      simp [Spec.ValidValue]

example : (Sample.enc0.encode toy true true).isOk = true ∧
    Sample.enc0.base.getAttr Hdr.Algorithm = .ok (algCls 1) ∧ Sample.enc0.base.key = some Sample.symKey ∧
    Spec.Permits Sample.symKey .sym (algCls 1) [Op.Decrypt] :=
  ⟨by decide +kernel, by decide +kernel, rfl, Sample.symPermits _ _⟩

/-! ### C07 -/

/-- Signer `s` of the sender and signer `s'` of the decoded message. -/
structure Spec.SignerReceived (C : Crypto) (p p' : Base) (d : Option Bytes) (s s' : Base) (ph uh : Dict) : Prop where
  phdr : s'.phdr = ph
  uhdr : s'.uhdr = uh
  verifies : ∀ alg sk vk, s.getAttr Hdr.Algorithm = .ok alg → s.key = some sk → Spec.KeyPair C alg sk vk →
    Spec.Permits vk vk.kind alg [Op.Verify] → signerVerify C p' (s'.withKeyAad vk s.aad) d = .ok true

theorem signersEncode_roundtrip {C : Crypto} (L : C.Laws) {tstr allow : Bool} {p p' : Base} {pe : Bytes} {d : Option Bytes}
    {rnd : Nat → Bytes} (hp : p.phdrEncoded = .ok pe) (hp' : p'.phdrEncoded = .ok pe) (hpl : p'.payload = p.payload)
    {ss : List Base} {hs : List (Dict × Dict)}
    (hsend : All2 (fun (s : Base) (h : Dict × Dict) => Spec.Sendable C tstr allow s h.1 h.2) ss hs) :
    ∀ {i : Nat} {vs : List Val}, signersEncode C rnd p d i ss = .ok vs →
    ∃ ws ss', All2 (Sent (.base tstr)) vs ws ∧ signersFromObj C allow ws = .ok ss' ∧ ss'.length = ss.length ∧
      ∀ (j : Nat) (s s' : Base) (h : Dict × Dict), ss[j]? = some s → ss'[j]? = some s' → hs[j]? = some h →
        Spec.SignerReceived C p p' d s s' h.1 h.2 := by
  induction hsend with
  | nil =>
    intro i vs h
    simp [signersEncode] at h; subst h
    exact ⟨[], [], .nil, rfl, rfl, by simp⟩
  | cons hh _ ih =>
    rename_i s h' t ht _
    intro i vs h
    simp only [signersEncode, bind_eq_ok] at h
    obtain ⟨v, h1, vs', h2, h3⟩ := h
    simp at h3; subst h3
    obtain ⟨ws, ss', i1, i2, i3, i4⟩ := ih h2
    simp only [signerEncode, bind_eq_ok] at h1
    obtain ⟨e, he, sg, hsg, h1⟩ := h1
    simp at h1; subst h1
    obtain ⟨w, hw, hb⟩ := received_base hh he
    have hb' := hb (some sg) []
    simp only [optBytes] at hb'
    refine ⟨.arr [.bytes e, .map w, .bytes sg] :: ws, recvBase e h'.1 h'.2 (some sg) :: ss',
      .cons (sent_arr (.cons sent_bytes (.cons hw (.cons sent_bytes .nil)))) i1, ?_, by simp [i3], ?_⟩
    · simp only [signersFromObj, signerFromObj, hb', ok_bind, i2]
    · intro j s0 s0' h0 e1 e2 e3
      cases j with
      | succ j => simp at e1 e2 e3; exact i4 j s0 s0' h0 e1 e2 e3
      | zero =>
        simp at e1 e2 e3; subst e1 e2 e3
        refine ⟨rfl, rfl, ?_⟩
        intro alg sk vk hal hsk hk hperm
        refine signature_verifies L hsg (sendable_getAttr hh rfl rfl (by decide) (by decide)) ?_ hal hsk rfl hk hperm
        have hl := sendable_ph_length hh
        have hpe : ((recvBase e h'.1 h'.2 (some sg)).withKeyAad vk s.aad).phdrEncoded = .ok e := rfl
        simp only [signerStructure, hp, hp', hpl, hpe, he]
        simp only [recvBase, Base.withKeyAad, hl]

/-- C07.  `encode()` of a COSE_Sign message with signers decodes to a message with the same payload and,
position by position, the same signers; every signer verifies under its matching key and external aad. -/
theorem c07_sign_roundtrip {C : Crypto} (L : C.Laws) {m : SignMsg} {rnd : Nat → Bytes} {out : Bytes} {d : Option Bytes}
    {allow : Bool} {ph uh : Dict} {hs : List (Dict × Dict)} {cls : DecCls} (hcls : cls.accepts .sign = true)
    (hne : m.signers ≠ []) (hb : Spec.Sendable C m.base.tstr allow m.base ph uh)
    (hss : All2 (fun (s : Base) (h : Dict × Dict) => Spec.Sendable C m.base.tstr allow s h.1 h.2) m.signers hs)
    (h : m.encode C rnd true d = .ok out) :
    ∃ m', decode C cls allow out = .ok (.sign m') ∧ m'.base.phdr = ph ∧ m'.base.uhdr = uh ∧
      m'.base.payload = m.base.payload ∧ m'.signers.length = m.signers.length ∧
      ∀ (j : Nat) (s s' : Base) (h : Dict × Dict), m.signers[j]? = some s → m'.signers[j]? = some s' →
        hs[j]? = some h → Spec.SignerReceived C m.base m'.base d s s' h.1 h.2 := by
  obtain ⟨pe, tl, hpe, hf, ht⟩ := sign_encode_inv h
  rcases ht with ⟨_, vs, hvs, rfl⟩ | ⟨h0, _⟩
  · obtain ⟨w, hw, hb'⟩ := received_base hb hpe
    obtain ⟨ws, ss', h1, h2, h3, h4⟩ := signersEncode_roundtrip L (p' := recvBase pe ph uh m.base.payload) hpe rfl rfl hss hvs
    refine ⟨⟨recvBase pe ph uh m.base.payload, ss'⟩, ?_, rfl, rfl, rfl, h3, h4⟩
    have := finish_decode (C := C) (allow := allow) (cls := cls) (k := .sign) (m := .sign ⟨recvBase pe ph uh m.base.payload, ss'⟩)
        rfl hcls (.cons sent_bytes (.cons hw (.cons sent_opt (.cons (sent_arr h1) .nil)))) hf ?_ []
    · rwa [List.append_nil] at this
    · simp only [fromObj, SignMsg.fromObj, hb', ok_bind, pop0, iterSigners, h2]
  · exact absurd h0 hne

/-- Two signers, one with an empty protected header. -/
example : ∃ hs, (Sample.sign.encode toy (fun _ => []) true none).isOk = true ∧ Sample.sign.signers ≠ [] ∧
    Spec.Sendable toy Sample.sign.base.tstr false Sample.sign.base Sample.sign.base.phdr Sample.sign.base.uhdr ∧
    All2 (fun (s : Base) (h : Dict × Dict) => Spec.Sendable toy Sample.sign.base.tstr false s h.1 h.2) Sample.sign.signers hs := by
  have ha : Spec.SendEntry toy false false (.cls Hdr.Algorithm, algCls (-7)) (.cls Hdr.Algorithm, algCls (-7)) :=
    .alg (.one (n := b!"ES256") (by decide +kernel))
  refine ⟨[([(.cls Hdr.Algorithm, algCls (-7))], []), ([], [(.cls Hdr.Algorithm, algCls (-7))])],
    by decide +kernel, by decide, ⟨.inl ⟨rfl, by simp [KeysNodup, Sample.sign], ?_⟩, by simp [KeysNodup, Sample.sign], .nil⟩, ?_⟩
  · refine .cons (.plain (n := b!"CONTENT_TYPE") (by decide +kernel) (by decide) (by decide) (by decide) trivial ?_) .nil
    simp [Spec.ValidValue, Hdr.ContentType, Hdr.KID, Hdr.IV, Hdr.PartialIV, Hdr.KIDContext, Hdr.CounterSignature0, Hdr.Critical]
  · refine .cons ⟨.inl ⟨rfl, by simp [KeysNodup, Sample.baseWith], .cons ha .nil⟩, by simp [KeysNodup], .nil⟩
      (.cons ⟨.inl ⟨rfl, by simp [KeysNodup], .nil⟩, by simp [KeysNodup], .cons ha .nil⟩ .nil)

end Cose
