import Verif.Props.RoundTrip
import Verif.Props.Decode
import Verif.Props.Tbs
/-!
# End-to-end integrity: C16, C57–C59

Unforgeability of the primitives is a hypothesis, stated relative to the signatures (tags, ciphertexts) that can be
presented: `avail` is the set of those the attacker has; whatever of them is accepted under the key was made by the key
holder, who only uses the key through COSE messages.  The theorems then say that whatever a receiver decodes from
*arbitrary bytes* and accepts agrees with something the key holder has protected.
-/
set_option autoImplicit false
namespace Cose

/-! ### Specification -/

/-- Of the available signatures, the key accepts only those over byte strings that were signed. -/
def Spec.NoForgery (C : Crypto) (vk : Key) (avail : Val → Prop) (signed : Bytes → Prop) : Prop :=
  ∀ f data sig, avail sig → callVerify C f vk data sig = .ok true → signed data

/-- Everything signed was the Sig_structure of a COSE_Sign1 message (with its detached payload) or of a signer of a COSE_Sign
message. -/
def Spec.SignedThrough (signed : Bytes → Prop) (log1 : Sign1 → Option Bytes → Prop) (logS : Base → Base → Option Bytes → Prop) : Prop :=
  ∀ data, signed data → (∃ m det, log1 m det ∧ m.sigStructure det = .ok data) ∨
    ∃ p s det, logS p s det ∧ signerStructure p s det = .ok data

/-- Of the available tags, the key accepts only those over byte strings that were MACed, up to zero padding to the block size
(which the AES-MAC algorithms apply, so that they do not distinguish such strings). -/
def Spec.NoTagForgery (C : Crypto) (k : Key) (avail : Val → Prop) (maced : Bytes → Prop) : Prop :=
  ∀ f data tag, avail tag → callVerifyTag C f k tag data = .ok true →
    ∃ data', maced data' ∧ (data' = data ∨ zeroPad data' = zeroPad data)

/-- Everything MACed was the MAC_structure of a COSE_Mac0 or COSE_Mac message. -/
def Spec.MacedThrough (maced : Bytes → Prop) (log0 log : Base → Prop) : Prop :=
  ∀ data, maced data → (∃ b, log0 b ∧ Cose.macStructure b!"MAC0" b = .ok data) ∨ ∃ b, log b ∧ Cose.macStructure b!"MAC" b = .ok data

/-- Of the available ciphertexts, the key decrypts only what was encrypted, with the associated data of the encryption. -/
def Spec.NoCiphertextForgery (C : Crypto) (k : Key) (avail : Option Bytes → Prop) (made : Bytes → Bytes → Prop) : Prop :=
  ∀ a n c aad p, avail c → callDecrypt C a k n c aad = .ok p → made p aad

/-- Every encryption was that of the payload of a COSE_Encrypt0 or COSE_Encrypt message with its Enc_structure. -/
def Spec.EncryptedThrough (made : Bytes → Bytes → Prop) (log0 log : Base → Prop) : Prop :=
  ∀ p aad, made p aad → (∃ b, log0 b ∧ b.payload = some p ∧ Cose.encStructure b!"Encrypt0" b = .ok aad) ∨
    ∃ b, log b ∧ b.payload = some p ∧ Cose.encStructure b!"Encrypt" b = .ok aad

/-- The received message `b` carries the protected header of the protected message `b0`: the same bytes unless the header is
empty, and the header that any receiver of `b0` gets. -/
structure Spec.SameProtected (C : Crypto) (allow : Bool) (b0 b : Base) : Prop where
  bytes : ∃ p, Spec.AuthProtected b0 p ∧ Spec.AuthProtected b p
  verbatim : ∀ p, Spec.AuthProtected b0 p → b.phdr ≠ [] → b.phdrEnc = some p
  header : ∀ tstr ph uh, Spec.Sendable C tstr allow b0 ph uh → b.phdr = ph

/-! ### Proofs -/

theorem protReceived_unique {C : Crypto} {allow : Bool} {b : Bytes} {v : Val} {e : Option Bytes} {ph ph' : Dict}
    (h : ProtReceived C allow (.bytes b) (some b) ph) (h' : ProtReceived C allow v e ph') (hv : e = some b) : ph = ph' := by
  subst hv
  rcases h.inv with ⟨e, _⟩ | ⟨e, _, rfl⟩ | ⟨b1, d1, e, _, hb, h1, h2⟩
  · simp at e
  · simp at e; subst e
    rcases h'.inv with ⟨_, e, _⟩ | ⟨_, _, rfl⟩ | ⟨b1, _, rfl, e, hb, _⟩
    · simp at e
    · rfl
    · simp at e; exact absurd e hb
  · simp at e; subst e
    rcases h'.inv with ⟨_, e, _⟩ | ⟨_, e, _⟩ | ⟨b2, d2, _, e, _, h1', h2'⟩
    · simp at e
    · simp at e; exact absurd e hb
    · simp at e; subst e
      rw [h1] at h1'; simp at h1'; subst h1'
      rw [h2] at h2'; simpa using h2'

theorem sameProtected {C : Crypto} {allow : Bool} {b0 b : Base} {v : Val} {p : Bytes} (hr : ProtReceived C allow v b.phdrEnc b.phdr)
    (h0 : Spec.AuthProtected b0 p) (h : Spec.AuthProtected b p) : Spec.SameProtected C allow b0 b := by
  have hv : b.phdr ≠ [] → b.phdrEnc = some p := by
    intro hn
    rcases h with ⟨h1, _⟩ | ⟨_, h2⟩
    · exact absurd h1 hn
    · rcases hr.inv with ⟨_, _, e⟩ | ⟨_, _, e⟩ | ⟨b1, _, _, e, _⟩
      · exact absurd e hn
      · exact absurd e hn
      · simp only [Base.phdrEncoded, e, Except.ok.injEq] at h2
        rw [e, h2]
  refine ⟨⟨p, h0, h⟩, ?_, ?_⟩
  · intro q hq hn
    rw [authProtected_unique hq h0]
    exact hv hn
  · intro tstr ph uh hs
    have hl := sendable_ph_length hs
    rcases h0 with ⟨e0, rfl⟩ | ⟨n0, hp⟩
    · have : ph = [] := List.eq_nil_of_length_eq_zero (by rw [hl, e0]; rfl)
      rw [this]
      by_cases hn : b.phdr = []
      · exact hn
      · have e := hv hn
        rcases hr.inv with ⟨_, _, e'⟩ | ⟨_, _, e'⟩ | ⟨b1, _, _, e1, hb, _⟩
        · exact e'
        · exact e'
        · rw [e] at e1; simp at e1; exact absurd e1 hb
    · have hsp := sendable_prot hs hp
      by_cases hn : b.phdr = []
      · have : p = [] := by
          rcases h with ⟨_, e⟩ | ⟨h1, _⟩
          · exact e
          · exact absurd hn h1
        subst this
        rcases hsp.inv with ⟨e, _⟩ | ⟨_, _, rfl⟩ | ⟨_, _, e, _, hb, _⟩
        · simp at e
        · exact hn
        · simp at e; exact absurd e hb
      · exact (protReceived_unique hsp hr (hv hn)).symm

theorem decode_received {C : Crypto} {cls : DecCls} {allow : Bool} {bs : Bytes} {m : Msg} (h : decode C cls allow bs = .ok m) :
    ∃ v, ProtReceived C allow v m.base.phdrEnc m.base.phdr := by
  obtain ⟨n', obj, k, _, _, h2, _, _⟩ := decode_iff.mp h
  obtain ⟨rest, h3⟩ := fromObj_base h2
  obtain ⟨pe, _, _, hp, _⟩ := baseFromObj_iff.mp h3
  exact ⟨pe, hp⟩

theorem keyVerification_key {b : Base} {alg : Val} {op : Cls} {k k' : Key} (h : keyVerification b alg op = .ok k) (hk : b.key = some k') : k = k' := by
  unfold keyVerification at h
  rw [hk] at h
  simp only at h
  split at h <;> simp only [bind_eq_ok, reduceCtorEq] at h
  all_goals obtain ⟨_, _, h⟩ := h; simp at h; exact h.symm

/-- **C16**.  Whatever byte string decodes to a COSE_Sign1 message that verifies under `vk` with external_aad `aad` agrees in
protected header, payload and external_aad with a COSE_Sign1 message that the key holder signed — even if they also sign
COSE_Sign messages with the same key. -/
theorem c16_sign1 {C : Crypto} {cls : DecCls} {allow : Bool} {bs aad : Bytes} {m : Sign1} {vk : Key} {det : Option Bytes}
    {avail : Val → Prop} {signed : Bytes → Prop} {log1 : Sign1 → Option Bytes → Prop} {logS : Base → Base → Option Bytes → Prop}
    (hf : Spec.NoForgery C vk avail signed) (hs : Spec.SignedThrough signed log1 logS)
    (hd : decode C cls allow bs = .ok (.sign1 m)) (ha : avail m.signature)
    (hv : Sign1.verifySignature C { m with base := m.base.withKeyAad vk aad } det = .ok true) :
    ∃ m0 det0 pl, log1 m0 det0 ∧ Spec.SameProtected C allow m0.base m.base ∧ m0.base.aad = aad ∧
      Spec.SignedPayload m0.base.payload det0 pl ∧ Spec.SignedPayload m.base.payload det pl := by
  obtain ⟨v, hr⟩ := decode_received hd
  simp only [Sign1.verifySignature, verifySignature, bind_eq_ok] at hv
  obtain ⟨alg, _, k, hk, f, _, data, hdt, hv⟩ := hv
  have := keyVerification_key hk rfl
  subst this
  rcases hs data (hf f data _ ha hv) with ⟨m0, det0, hl, h0⟩ | ⟨p, s, det0, hl, h0⟩
  · obtain ⟨p, pl, h1, h2, h3, h4, h5⟩ := c01_sign1_unambiguous h0 hdt
    exact ⟨m0, det0, pl, hl, sameProtected hr h1 h2, h3, h4, h5⟩
  · exact absurd (c02_domain_separation_eq (.sign1 hdt) (.sign h0)) (by decide)

/-- **C57**.  The same for each signer of a COSE_Sign message: the body's protected header bytes, the signer's protected header,
the payload and the signer's external_aad are those of a signature the key holder made as a signer. -/
theorem c57_signer {C : Crypto} {cls : DecCls} {allow : Bool} {bs aad : Bytes} {m : SignMsg} {s : Base} {vk : Key} {det : Option Bytes}
    {avail : Val → Prop} {signed : Bytes → Prop} {log1 : Sign1 → Option Bytes → Prop} {logS : Base → Base → Option Bytes → Prop}
    (hf : Spec.NoForgery C vk avail signed) (hs : Spec.SignedThrough signed log1 logS)
    (hd : decode C cls allow bs = .ok (.sign m)) (hm : s ∈ m.signers) (ha : avail (optBytes s.payload))
    (hv : signerVerify C m.base (s.withKeyAad vk aad) det = .ok true) :
    ∃ p0 s0 det0 e pl, logS p0 s0 det0 ∧ p0.phdrEncoded = .ok e ∧ m.base.phdrEncoded = .ok e ∧
      (∀ tstr ph uh, Spec.Sendable C tstr allow p0 ph uh → m.base.phdr = ph) ∧
      Spec.SameProtected C allow s0 s ∧ s0.aad = aad ∧
      Spec.SignedPayload p0.payload det0 pl ∧ Spec.SignedPayload m.base.payload det pl := by
  obtain ⟨v, hr⟩ := decode_received hd
  have hsr : ∃ v, ProtReceived C allow v s.phdrEnc s.phdr := by
    obtain ⟨n', obj, k, h1, _, h2, _, hk⟩ := decode_iff.mp hd
    simp [Msg.kind] at hk; subst hk
    simp only [fromObj, SignMsg.fromObj, bind_eq_ok] at h2
    obtain ⟨m', ⟨⟨b, o⟩, h3, ⟨v, o'⟩, h4, l, h5, ss, h6, h7⟩, h8⟩ := h2
    simp at h7 h8; subst h7 h8
    obtain ⟨i, hi⟩ := List.getElem?_of_mem hm
    obtain ⟨v, hv, so, r, rfl, hb⟩ := (signersFromObj_all2 h6).get i s hi
    obtain ⟨pe, _, _, hp, _⟩ := baseFromObj_iff.mp hb
    exact ⟨pe, hp⟩
  obtain ⟨v', hsr⟩ := hsr
  simp only [signerVerify, verifySignature, bind_eq_ok] at hv
  obtain ⟨alg, _, k, hk, f, _, data, hdt, hv⟩ := hv
  have := keyVerification_key hk rfl
  subst this
  rcases hs data (hf f data _ ha hv) with ⟨m0, det0, hl, h0⟩ | ⟨p0, s0, det0, hl, h0⟩
  · exact absurd (c02_domain_separation_eq (.sign hdt) (.sign1 h0)) (by decide)
  · obtain ⟨e, q, pl, h1, h2, h3, h4, h5, h6, h7⟩ := c03_signer_unambiguous h0 hdt
    have conv : ∀ {b : Base}, Spec.SignerProtected b q → Spec.AuthProtected b (q.getD []) := by
      rintro b (⟨h, rfl⟩ | ⟨h, e, he, rfl⟩)
      · exact .inl ⟨h, rfl⟩
      · exact .inr ⟨h, he⟩
    have h4' : Spec.SignerProtected s q := h4
    refine ⟨p0, s0, det0, e, pl, hl, h1, h2, ?_, sameProtected hsr (conv h3) (conv h4'), h5, h6, h7⟩
    intro tstr ph uh hse
    have hsp := sendable_prot hse h1
    rcases hr.inv with ⟨_, e1, e2⟩ | ⟨_, e1, e2⟩ | ⟨b1, _, _, e1, hb, _⟩
    · simp only [Msg.base] at e1 e2
      simp [Base.phdrEncoded, e1, e2] at h2
      subst h2
      rcases hsp.inv with ⟨e, _⟩ | ⟨_, _, rfl⟩ | ⟨_, _, e, _, hb, _⟩
      · simp at e
      · exact e2
      · simp at e; exact absurd e hb
    · simp only [Msg.base] at e1
      simp [Base.phdrEncoded, e1] at h2
      subst h2
      exact (protReceived_unique hsp hr e1).symm
    · simp only [Msg.base] at e1
      simp [Base.phdrEncoded, e1] at h2
      subst h2
      exact (protReceived_unique hsp hr e1).symm

theorem macVerify_inv {C : Crypto} {ctx : Bytes} {b : Base} {tag : Val} {r : Bool} (h : macVerify C ctx b tag = .ok r) :
    ∃ k f data, b.key = some k ∧ macStructure ctx b = .ok data ∧ callVerifyTag C f k tag data = .ok r := by
  simp only [macVerify, bind_eq_ok] at h
  obtain ⟨alg, _, h⟩ := h
  split at h
  · simp at h
  · rename_i k hk
    simp only [bind_eq_ok] at h
    obtain ⟨_, _, f, _, data, hd, h⟩ := h
    exact ⟨k, f, data, hk, hd, h⟩

/-- **C58** for COSE_Mac0. -/
theorem c58_mac0 {C : Crypto} {cls : DecCls} {allow : Bool} {bs aad : Bytes} {m : Mac0} {k : Key}
    {avail : Val → Prop} {maced : Bytes → Prop} {log0 log : Base → Prop}
    (hf : Spec.NoTagForgery C k avail maced) (hs : Spec.MacedThrough maced log0 log)
    (hd : decode C cls allow bs = .ok (.mac0 m)) (ha : avail m.authTag)
    (hv : Mac0.verifyTag C { m with base := m.base.withKeyAad k aad } = .ok true) :
    ∃ b0, log0 b0 ∧ Spec.SameProtected C allow b0 m.base ∧ b0.aad = aad ∧ b0.payload = m.base.payload ∧ m.base.payload ≠ none := by
  obtain ⟨v, hr⟩ := decode_received hd
  obtain ⟨k', f, data, hk, hdt, hv⟩ := macVerify_inv hv
  simp only [Base.withKeyAad, Option.some.injEq] at hk
  subst hk
  obtain ⟨data', hm, he⟩ := hf f data _ ha hv
  rcases hs data' hm with ⟨b0, hl, h0⟩ | ⟨b0, hl, h0⟩
  · obtain ⟨_, h2, h3, p, h4, h5⟩ := c04_mac_unambiguous (.inl rfl) (.inl rfl) h0 hdt he
    refine ⟨b0, hl, sameProtected hr h4 h5, h2, h3, ?_⟩
    obtain ⟨_, pl, _, h6, _⟩ := c04_mac_format hdt
    intro e; simp only [Base.withKeyAad] at h6; rw [e] at h6; simp at h6
  · exact absurd (c04_mac_unambiguous (.inr rfl) (.inl rfl) h0 hdt he).1 (by decide)

/-- **C58** for COSE_Mac. -/
theorem c58_mac {C : Crypto} {cls : DecCls} {allow : Bool} {bs aad : Bytes} {m : Mac} {k : Key}
    {avail : Val → Prop} {maced : Bytes → Prop} {log0 log : Base → Prop}
    (hf : Spec.NoTagForgery C k avail maced) (hs : Spec.MacedThrough maced log0 log)
    (hd : decode C cls allow bs = .ok (.mac m)) (ha : avail m.authTag)
    (hv : Mac.verifyTag C { m with base := m.base.withKeyAad k aad } = .ok true) :
    ∃ b0, log b0 ∧ Spec.SameProtected C allow b0 m.base ∧ b0.aad = aad ∧ b0.payload = m.base.payload ∧ m.base.payload ≠ none := by
  obtain ⟨v, hr⟩ := decode_received hd
  obtain ⟨k', f, data, hk, hdt, hv⟩ := macVerify_inv hv
  simp only [Base.withKeyAad, Option.some.injEq] at hk
  subst hk
  obtain ⟨data', hm, he⟩ := hf f data _ ha hv
  rcases hs data' hm with ⟨b0, hl, h0⟩ | ⟨b0, hl, h0⟩
  · exact absurd (c04_mac_unambiguous (.inl rfl) (.inr rfl) h0 hdt he).1 (by decide)
  · obtain ⟨_, h2, h3, p, h4, h5⟩ := c04_mac_unambiguous (.inr rfl) (.inr rfl) h0 hdt he
    refine ⟨b0, hl, sameProtected hr h4 h5, h2, h3, ?_⟩
    obtain ⟨_, pl, _, h6, _⟩ := c04_mac_format hdt
    intro e; simp only [Base.withKeyAad] at h6; rw [e] at h6; simp at h6

theorem encDecrypt_inv {C : Crypto} {ctx : Bytes} {b : Base} {p : Bytes} (h : encDecrypt C ctx b = .ok p) :
    ∃ k a n aad, b.key = some k ∧ encStructure ctx b = .ok aad ∧ callDecrypt C a k n b.payload aad = .ok p := by
  simp only [encDecrypt, bind_eq_ok] at h
  obtain ⟨alg, _, n, _, h⟩ := h
  split at h
  · simp at h
  · rename_i k hk
    simp only [bind_eq_ok] at h
    obtain ⟨_, _, a, _, aad, hd, h⟩ := h
    exact ⟨k, a, n, aad, hk, hd, h⟩

/-- **C59** for COSE_Encrypt0: what decrypts is a payload that the sender encrypted under this protected header and external_aad. -/
theorem c59_enc0 {C : Crypto} {cls : DecCls} {allow : Bool} {bs aad p : Bytes} {m : Enc0} {k : Key}
    {avail : Option Bytes → Prop} {made : Bytes → Bytes → Prop} {log0 log : Base → Prop}
    (hf : Spec.NoCiphertextForgery C k avail made) (hs : Spec.EncryptedThrough made log0 log)
    (hd : decode C cls allow bs = .ok (.enc0 m)) (ha : avail m.base.payload)
    (hv : Enc0.decrypt C { m with base := m.base.withKeyAad k aad } = .ok p) :
    ∃ b0, log0 b0 ∧ b0.payload = some p ∧ Spec.SameProtected C allow b0 m.base ∧ b0.aad = aad := by
  obtain ⟨v, hr⟩ := decode_received hd
  obtain ⟨k', a, n, ad, hk, hdt, hv⟩ := encDecrypt_inv hv
  simp only [Base.withKeyAad, Option.some.injEq] at hk
  subst hk
  rcases hs p ad (hf a n _ ad p ha hv) with ⟨b0, hl, hp, h0⟩ | ⟨b0, hl, hp, h0⟩
  · obtain ⟨_, h2, q, h4, h5⟩ := c05_aead_unambiguous (.inl rfl) (.inl rfl) h0 hdt
    exact ⟨b0, hl, hp, sameProtected hr h4 h5, h2⟩
  · exact absurd (c02_domain_separation_eq (.enc0 hdt) (.enc h0)) (by decide)

/-- **C59** for COSE_Encrypt, whatever recipient (of any kind) the content key comes from. -/
theorem c59_enc {C : Crypto} {cls : DecCls} {allow : Bool} {bs aad p : Bytes} {m m1 : Enc} {k0 : Option Key} {r : Rcpt}
    {avail : Option Bytes → Prop} {made : Bytes → Bytes → Prop} {log0 log : Base → Prop}
    (hf : ∀ k, m1.base.key = some k → Spec.NoCiphertextForgery C k avail made) (hs : Spec.EncryptedThrough made log0 log)
    (hd : decode C cls allow bs = .ok (.enc m)) (ha : avail m.base.payload)
    (hv : Enc.decrypt C { m with base := { m.base with key := k0, aad := aad } } r = .ok (p, m1)) :
    ∃ b0, log b0 ∧ b0.payload = some p ∧ Spec.SameProtected C allow b0 m.base ∧ b0.aad = aad := by
  obtain ⟨v, hr⟩ := decode_received hd
  have : ∃ k, m1.base.key = some k ∧ encDecrypt C b!"Encrypt" { m.base with key := some k, aad := aad } = .ok p := by
    simp only [Enc.decrypt, bind_eq_ok] at hv
    obtain ⟨_, _, hv⟩ := hv
    split at hv
    · simp at hv
    · simp only [bind_eq_ok] at hv
      obtain ⟨types, _, hv⟩ := hv
      split at hv
      · simp only [bind_eq_ok, Except.ok.injEq, Prod.mk.injEq] at hv
        obtain ⟨p', hp, rfl, rfl⟩ := hv
        obtain ⟨k, _, _, _, hk, _⟩ := encDecrypt_inv hp
        simp only at hk
        subst hk
        exact ⟨k, rfl, hp⟩
      · split at hv
        · simp only [bind_eq_ok, Except.ok.injEq, Prod.mk.injEq] at hv
          obtain ⟨k, _, p', hp, rfl, rfl⟩ := hv
          exact ⟨k, rfl, hp⟩
        · simp at hv
  obtain ⟨k, hk, hv⟩ := this
  obtain ⟨k', a, n, ad, hk', hdt, hv⟩ := encDecrypt_inv hv
  simp only [Option.some.injEq] at hk'
  subst hk'
  rcases hs p ad (hf _ hk a n _ ad p ha hv) with ⟨b0, hl, hp, h0⟩ | ⟨b0, hl, hp, h0⟩
  · exact absurd (c02_domain_separation_eq (.enc hdt) (.enc0 h0)) (by decide)
  · obtain ⟨_, h2, q, h4, h5⟩ := c05_aead_unambiguous (.inr rfl) (.inr rfl) h0 hdt
    exact ⟨b0, hl, hp, sameProtected hr h4 h5, h2⟩

/-! ### Non-vacuity -/

namespace Sample

/-- The message is a … that satisfies `p`. -/
def ifMac (r : Res Msg) (p : Mac → Bool) : Bool := match r with | .ok (.mac m) => p m | _ => false
def ifEnc0 (r : Res Msg) (p : Enc0 → Bool) : Bool := match r with | .ok (.enc0 m) => p m | _ => false
def ifEnc (r : Res Msg) (p : Enc → Bool) : Bool := match r with | .ok (.enc m) => p m | _ => false

theorem ifMac_true {r : Res Msg} {p : Mac → Bool} (h : ifMac r p = true) : ∃ m, r = .ok (.mac m) ∧ p m = true := by
  unfold ifMac at h; split at h
  · exact ⟨_, rfl, h⟩
  · simp at h

theorem ifEnc0_true {r : Res Msg} {p : Enc0 → Bool} (h : ifEnc0 r p = true) : ∃ m, r = .ok (.enc0 m) ∧ p m = true := by
  unfold ifEnc0 at h; split at h
  · exact ⟨_, rfl, h⟩
  · simp at h

theorem ifEnc_true {r : Res Msg} {p : Enc → Bool} (h : ifEnc r p = true) : ∃ m, r = .ok (.enc m) ∧ p m = true := by
  unfold ifEnc at h; split at h
  · exact ⟨_, rfl, h⟩
  · simp at h

/-- What the sample message signs. -/
def tbs : Bytes := Spec.sig1Structure [0xa1, 0x01, 0x26] b!"aad" b!"hello"
/-- Its signature. -/
def sig : Val := .bytes (beBytes 25 7 ++ tbs)
/-- It encoded. -/
def sign1Bytes : Bytes := (sign1.encode toy [] true true none).toOption.getD []

/-- The toy signature scheme is unforgeable for someone who has only that signature. -/
theorem noForgery : Spec.NoForgery toy ecPubKey (· = sig) (· = tbs) := by
  rintro f data _ rfl h
  have hx : ecPubKey.x = .ok (.bytes (beBytes 32 7)) := by decide +kernel
  have hy : ecPubKey.y = .ok (.bytes (beBytes 32 8)) := by decide +kernel
  have hxi : intFromHex (.bytes (beBytes 32 7)) = .ok 7 := by decide +kernel
  have hyi : intFromHex (.bytes (beBytes 32 8)) = .ok 8 := by decide +kernel
  have he : ecPubKey.rsaParam RsaE = .error .attributeError := by decide +kernel
  have hc : ∃ e, edCurve ecPubKey = .error e := by
    first | exact ⟨.attributeError, by decide +kernel⟩ | exact ⟨.coseException, by decide +kernel⟩ | exact ⟨.typeError, by decide +kernel⟩
  obtain ⟨e, hc⟩ := hc
  cases f <;> simp [callVerify, he, hc, hx, hy, hxi, hyi, toy, sig, asBytes] at h
  exact h.symm

/-- The key holder signed this message only. -/
theorem signedThrough : Spec.SignedThrough (· = tbs) (fun m det => m = sign1 ∧ det = none) (fun _ _ _ => False) := by
  rintro _ rfl
  exact .inl ⟨_, _, ⟨rfl, rfl⟩, by decide +kernel⟩

example : ∃ m, decode toy (.only .sign1) false sign1Bytes = .ok (.sign1 m) ∧ m.signature = sig ∧
    Sign1.verifySignature toy { m with base := m.base.withKeyAad ecPubKey b!"aad" } none = .ok true ∧
    Spec.SameProtected toy false sign1.base m.base := by
  have h : ∃ m, decode toy (.only .sign1) false sign1Bytes = .ok (.sign1 m) ∧ m.signature = sig ∧
      Sign1.verifySignature toy { m with base := m.base.withKeyAad ecPubKey b!"aad" } none = .ok true := by
    refine ⟨{ base := { sign1.base with phdrEnc := some [0xa1, 0x01, 0x26], aad := [], key := none }, signature := sig }, ?_, rfl, ?_⟩ <;>
      decide +kernel
  obtain ⟨m, h1, h2, h3⟩ := h
  obtain ⟨m0, det0, pl, ⟨rfl, rfl⟩, h4, _⟩ := c16_sign1 noForgery signedThrough h1 h2 h3
  exact ⟨m, h1, h2, h3, h4⟩

/-- A message with an empty protected header. -/
def sign1Empty : Sign1 :=
  { base := { phdr := [], uhdr := [(.cls Hdr.Algorithm, algCls (-7))], payload := some b!"hello", key := some ecKey } }
def sign1EmptyBytes : Bytes := (sign1Empty.encode toy [] true true none).toOption.getD []
/-- The protected header `h''` (0x40) replaced by `h'a0'` (0x41 0xa0). -/
def sign1EmptyMangled : Bytes := sign1EmptyBytes.take 2 ++ [0x41, 0xa0] ++ sign1EmptyBytes.drop 3

def verdict (r : Res Msg) (k : Key) : Res Bool :=
  match r with
  | .ok (.sign1 m) => Sign1.verifySignature toy { m with base := m.base.withKeyAad k [] } none
  | _ => .error .typeError

end Sample
open Sample in
/-- C16: the encoding of an empty protected header is not covered: a message whose `h''` is replaced by `h'a0'` in transit still
verifies (`SameProtected.verbatim` has to exclude this case). -/
theorem c16_empty_header_malleable :
    sign1EmptyMangled ≠ sign1EmptyBytes ∧
    verdict (decode toy .any false sign1EmptyBytes) ecPubKey = .ok true ∧
    verdict (decode toy .any false sign1EmptyMangled) ecPubKey = .ok true := by decide +kernel

namespace Sample

/-- What the first signer of the sample COSE_Sign message signs. -/
def tbsS : Bytes := Spec.sigStructure [0xa1, 0x03, 0x05] (some [0xa1, 0x01, 0x26]) b!"aad" b!"hello"
def sigS : Bytes := beBytes 25 7 ++ tbsS
/-- The message with the first signer only. -/
def signOne : SignMsg := { sign with signers := sign.signers.take 1 }
def signBytes : Bytes := (signOne.encode toy (fun _ => []) true none).toOption.getD []
/-- The received signer. -/
def signer1 : Base :=
  { phdr := [(.cls Hdr.Algorithm, algCls (-7))], phdrEnc := some [0xa1, 0x01, 0x26], payload := some sigS }

theorem noForgeryS : Spec.NoForgery toy ecPubKey (· = .bytes sigS) (· = tbsS) := by
  rintro f data _ rfl h
  have hx : ecPubKey.x = .ok (.bytes (beBytes 32 7)) := by decide +kernel
  have hy : ecPubKey.y = .ok (.bytes (beBytes 32 8)) := by decide +kernel
  have hxi : intFromHex (.bytes (beBytes 32 7)) = .ok 7 := by decide +kernel
  have hyi : intFromHex (.bytes (beBytes 32 8)) = .ok 8 := by decide +kernel
  have he : ecPubKey.rsaParam RsaE = .error .attributeError := by decide +kernel
  have hc : ∃ e, edCurve ecPubKey = .error e := by
    first | exact ⟨.attributeError, by decide +kernel⟩ | exact ⟨.coseException, by decide +kernel⟩ | exact ⟨.typeError, by decide +kernel⟩
  obtain ⟨e, hc⟩ := hc
  cases f <;> simp [callVerify, he, hc, hx, hy, hxi, hyi, toy, sigS, asBytes] at h
  exact h.symm

example : ∃ m s0, decode toy (.only .sign) false signBytes = .ok (.sign m) ∧ signer1 ∈ m.signers ∧
    signerVerify toy m.base (signer1.withKeyAad ecPubKey b!"aad") none = .ok true ∧
    signOne.signers = [s0] ∧ Spec.SameProtected toy false s0 signer1 := by
  have h : ∃ m, decode toy (.only .sign) false signBytes = .ok (.sign m) ∧ signer1 ∈ m.signers ∧
      signerVerify toy m.base (signer1.withKeyAad ecPubKey b!"aad") none = .ok true := by
    refine ⟨{ base := { sign.base with phdrEnc := some [0xa1, 0x03, 0x05] }, signers := [signer1] }, ?_, by simp, ?_⟩ <;>
      decide +kernel
  obtain ⟨m, h1, h2, h3⟩ := h
  have hs : Spec.SignedThrough (· = tbsS) (fun _ _ => False)
      (fun p s det => p = sign.base ∧ signOne.signers = [s] ∧ det = none) := by
    rintro _ rfl
    exact .inr ⟨sign.base, { baseWith (-7) ecKey (some []) with uhdr := [] }, none, ⟨rfl, by decide +kernel, rfl⟩, by decide +kernel⟩
  obtain ⟨_, s0, _, _, _, ⟨_, h4, _⟩, _, _, _, h5, _⟩ := c57_signer noForgeryS hs h1 h2 rfl h3
  exact ⟨m, s0, h1, h2, h3, h4, h5⟩

/-- An HMAC for which one tag is known, of one string. -/
def macC (data : Bytes) : Crypto :=
  { toy with hmac := fun _ _ m => if m = data then List.replicate 32 1 else []
             aesCbc := fun _ _ => .error .crypto }

theorem noTagForgery (data : Bytes) :
    Spec.NoTagForgery (macC data) symKey (· = .bytes (List.replicate 32 1)) (· = data) := by
  rintro f data' _ rfl h
  refine ⟨data, rfl, .inl ?_⟩
  simp only [callVerifyTag, bind_eq_ok, Except.ok.injEq] at h
  obtain ⟨t, ht, h⟩ := h
  simp at h
  cases f <;> simp only [callTag, bind_eq_ok, reduceCtorEq] at ht
  · obtain ⟨_, _, _, _, _, ht, _⟩ := ht
    simp [macC] at ht
  · obtain ⟨_, _, _, _, ht⟩ := ht
    simp only [macC] at ht
    split at ht
    · rename_i e; exact e.symm
    · simp at ht; subst ht; simp at h

def mac0Data : Bytes := Spec.macStructure b!"MAC0" [0xa1, 0x01, 0x05] b!"aad" b!"hello"
def macData : Bytes := Spec.macStructure b!"MAC" [0xa1, 0x01, 0x05] b!"aad" b!"hello"
def mac0Bytes : Bytes := ((mac0.encode (macC mac0Data) true true).toOption.map (·.1)).getD []
def macBytes : Bytes := ((mac.encode (macC macData) rand true true).toOption.map (·.1)).getD []

example : ∃ m, decode (macC mac0Data) .any false mac0Bytes = .ok (.mac0 m) ∧ m.base.payload = some b!"hello" ∧
    Mac0.verifyTag (macC mac0Data) { m with base := m.base.withKeyAad symKey b!"aad" } = .ok true ∧
    Spec.SameProtected (macC mac0Data) false mac0.base m.base := by
  have h : ∃ m, decode (macC mac0Data) .any false mac0Bytes = .ok (.mac0 m) ∧ m.authTag = .bytes (List.replicate 32 1) ∧
      Mac0.verifyTag (macC mac0Data) { m with base := m.base.withKeyAad symKey b!"aad" } = .ok true := by
    refine ⟨{ base := { mac0.base with phdrEnc := some [0xa1, 0x01, 0x05], aad := [], key := none },
              authTag := .bytes (List.replicate 32 1) }, ?_, rfl, ?_⟩ <;> decide +kernel
  obtain ⟨m, h1, h2, h3⟩ := h
  have hs : Spec.MacedThrough (· = mac0Data) (· = mac0.base) (fun _ => False) := by
    rintro _ rfl
    exact .inl ⟨_, rfl, by decide +kernel⟩
  obtain ⟨b0, rfl, h4, _, h5, _⟩ := c58_mac0 (noTagForgery _) hs h1 h2 h3
  exact ⟨m, h1, h5.symm, h3, h4⟩

example : ∃ m, decode (macC macData) .any false macBytes = .ok (.mac m) ∧ m.base.payload = some b!"hello" ∧
    Mac.verifyTag (macC macData) { m with base := m.base.withKeyAad symKey b!"aad" } = .ok true ∧
    Spec.SameProtected (macC macData) false mac.base m.base := by
  have h : ∃ m, decode (macC macData) .any false macBytes = .ok (.mac m) ∧ m.authTag = .bytes (List.replicate 32 1) ∧
      Mac.verifyTag (macC macData) { m with base := m.base.withKeyAad symKey b!"aad" } = .ok true := by
    have e : ifMac (decode (macC macData) .any false macBytes) (fun m => decide (m.authTag = .bytes (List.replicate 32 1) ∧
        Mac.verifyTag (macC macData) { m with base := m.base.withKeyAad symKey b!"aad" } = .ok true)) = true := by decide +kernel
    obtain ⟨m, h, e⟩ := ifMac_true e
    exact ⟨m, h, of_decide_eq_true e⟩
  obtain ⟨m, h1, h2, h3⟩ := h
  have hs : Spec.MacedThrough (· = macData) (fun _ => False) (· = mac.base) := by
    rintro _ rfl
    exact .inr ⟨_, rfl, by decide +kernel⟩
  obtain ⟨b0, rfl, h4, _, h5, _⟩ := c58_mac (noTagForgery _) hs h1 h2 h3
  exact ⟨m, h1, h5.symm, h3, h4⟩

/-- An AEAD with one ciphertext. -/
def encC (ad : Bytes) : Crypto :=
  { toy with aeadEnc := fun _ _ _ _ _ => .ok [7]
             aeadDec := fun _ _ _ a c => if a = ad ∧ c = [7] then .ok b!"hello" else .error .crypto }

theorem noCiphertextForgery (ad : Bytes) (k : Key) :
    Spec.NoCiphertextForgery (encC ad) k (fun _ => True) (fun p a => p = b!"hello" ∧ a = ad) := by
  intro a n c aad p _ h
  simp only [callDecrypt, bind_eq_ok] at h
  obtain ⟨_, _, _, _, _, _, h⟩ := h
  split at h
  · simp only [encC] at h
    split at h
    · rename_i e; simp at h; exact ⟨h.symm, e.1⟩
    · simp at h
  · simp at h

def enc0Aad : Bytes := Spec.encStructure b!"Encrypt0" [0xa1, 0x01, 0x01] b!"aad"
def encAad : Bytes := Spec.encStructure b!"Encrypt" [0xa1, 0x01, 0x01] b!"aad"
def enc0Bytes : Bytes := (enc0.encode (encC enc0Aad) true true).toOption.getD []
def encBytes : Bytes := ((enc.encode (encC encAad) rand true true).toOption.map (·.1)).getD []

example : ∃ m, decode (encC enc0Aad) .any false enc0Bytes = .ok (.enc0 m) ∧
    Enc0.decrypt (encC enc0Aad) { m with base := m.base.withKeyAad symKey b!"aad" } = .ok b!"hello" ∧
    Spec.SameProtected (encC enc0Aad) false enc0.base m.base := by
  have h : ∃ m, decode (encC enc0Aad) .any false enc0Bytes = .ok (.enc0 m) ∧
      Enc0.decrypt (encC enc0Aad) { m with base := m.base.withKeyAad symKey b!"aad" } = .ok b!"hello" := by
    have e : ifEnc0 (decode (encC enc0Aad) .any false enc0Bytes) (fun m => decide
        (Enc0.decrypt (encC enc0Aad) { m with base := m.base.withKeyAad symKey b!"aad" } = .ok b!"hello")) = true := by decide +kernel
    obtain ⟨m, h, e⟩ := ifEnc0_true e
    exact ⟨m, h, of_decide_eq_true e⟩
  obtain ⟨m, h1, h3⟩ := h
  have hs : Spec.EncryptedThrough (fun p a => p = b!"hello" ∧ a = enc0Aad) (· = enc0.base) (fun _ => False) := by
    rintro _ _ ⟨rfl, rfl⟩
    exact .inl ⟨_, rfl, rfl, by decide +kernel⟩
  obtain ⟨b0, rfl, _, h4, _⟩ := c59_enc0 (noCiphertextForgery _ _) hs h1 trivial h3
  exact ⟨m, h1, h3, h4⟩

example : ∃ m m1, decode (encC encAad) .any false encBytes = .ok (.enc m) ∧
    Enc.decrypt (encC encAad) { m with base := { m.base with key := some symKey, aad := b!"aad" } } (directRcpt 0) = .ok (b!"hello", m1) ∧
    Spec.SameProtected (encC encAad) false enc.base m.base := by
  have h : ∃ m m1, decode (encC encAad) .any false encBytes = .ok (.enc m) ∧
      Enc.decrypt (encC encAad) { m with base := { m.base with key := some symKey, aad := b!"aad" } } (directRcpt 0) = .ok (b!"hello", m1) := by
    have e : ifEnc (decode (encC encAad) .any false encBytes) (fun m => decide ((Enc.decrypt (encC encAad)
        { m with base := { m.base with key := some symKey, aad := b!"aad" } } (directRcpt 0)).map (·.1) = .ok b!"hello")) = true := by
      decide +kernel
    obtain ⟨m, h, e⟩ := ifEnc_true e
    replace e := of_decide_eq_true e
    cases hd : Enc.decrypt (encC encAad) { m with base := { m.base with key := some symKey, aad := b!"aad" } } (directRcpt 0) with
    | error _ => rw [hd] at e; simp [Except.map] at e
    | ok r =>
      rw [hd] at e
      simp [Except.map] at e
      exact ⟨m, r.2, h, by rw [hd, ← e]⟩
  obtain ⟨m, m1, h1, h3⟩ := h
  have hs : Spec.EncryptedThrough (fun p a => p = b!"hello" ∧ a = encAad) (fun _ => False) (· = enc.base) := by
    rintro _ _ ⟨rfl, rfl⟩
    exact .inr ⟨_, rfl, rfl, by decide +kernel⟩
  obtain ⟨b0, rfl, _, h4, _⟩ := c59_enc (fun k _ => noCiphertextForgery _ k) hs h1 trivial h3
  exact ⟨m, m1, h1, h3, h4⟩

end Sample

end Cose
