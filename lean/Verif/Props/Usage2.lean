import Verif.Props.Details5
import Verif.Props.Details6
import Verif.Props.Exact
/-!
# Ordinary use with agreement recipients (C90), and what encoding raises with several parties (C91)
-/
set_option autoImplicit false
namespace Cose

/-- C90.  A COSE_Encrypt message for a recipient with direct key agreement (ECDH-ES or ECDH-SS with HKDF) is encrypted under the agreed key,
encoded and decoded, and the recipient, with the private key that matches the public key the sender used, decrypts the payload. -/
theorem c90_enc_agreed {C : Crypto} (L : C.Laws) {m : Enc} {R : Rand} {r : Rcpt} {p kek nonce : Bytes} {allow : Bool} {cls : DecCls} {i : Int}
    {rk : Key} {la : Dict} (hcls : cls.accepts .enc = true) (hm : Spec.MadeWithKeys C allow m.base) (hf : Spec.Fits m.base)
    (hp : m.base.payload = some p) (hi : m.base.getAttr Hdr.Algorithm = .ok (algCls i)) (hn : m.base.getAttr Hdr.IV = .ok (.bytes nonce))
    (hrs : m.recipients = [r]) (hr : Spec.MadeWithKeys C allow r.base) (hw : Spec.AgreementWritable (Mode.base m.base.tstr).classes r.base)
    (hk : ∀ k, r.base.key = some k → Spec.PlainPolicy k)
    (hpeer : ∀ alg kind store, Spec.PeerIs r.base true alg (.key kind store) → Spec.PlainPolicy { kind := kind, store := store })
    (hkek : Spec.DirectlyAgreed C r.base true i kek) (hcan : Spec.CanSeal C i kek nonce p) (ha : Spec.DirectAgreement C r r.base.uhdr rk la) :
    ∃ out m1 m' r', m.encode C R true true = .ok (out, m1) ∧ decode C cls allow out = .ok (.enc m') ∧
      m'.base.phdr = m.base.phdr ∧ m'.base.uhdr = m.base.uhdr ∧ m'.recipients = [r'] ∧ r'.base.phdr = r.base.phdr ∧ r'.base.uhdr = r.base.uhdr ∧
      ∃ m'', Enc.decrypt C { base := { m'.base with aad := m.base.aad }, recipients := [r'.receiver rk la] } (r'.receiver rk la) = .ok (p, m'') := by
  obtain ⟨a, aad, c, h1, h2, h3⟩ := made_sealing (C := C) (ctx := b!"Encrypt")
    (b := (Spec.WithKey m (Spec.MadeKey i [] kek)).base) (k := Spec.MadeKey i [] kek)
    (kb := kek) (by simp) hf.prot hf.aad hp hi hn rfl rfl hcan
  obtain ⟨out, m1, ho⟩ := (c82_enc_encode_agreed (C := C) (R := R) (tag := true) hrs hi ha.cls ha.nested hk hpeer).mpr
    ⟨hf.prot, hf.unprot, hw, kek, hkek, a, nonce, aad, p, c, h1, h2, h3⟩
  obtain ⟨m', r', q, g1, g2, g3, g4, g5, g6, g7, g8⟩ := c14_constructed_keys L hcls hm hrs hr ha ho
  rw [hp] at g7; simp at g7; subst g7
  exact ⟨out, m1, m', r', ho, g1, g2, g3, g4, g5, g6, g8⟩

/-- C90.  A COSE_Mac message for a recipient with direct key agreement is tagged under the agreed key, encoded and decoded, the recipient computes
a key, and with it the tag verifies. -/
theorem c90_mac_agreed {C : Crypto} (L : C.Laws) {m : Mac} {R : Rand} {r : Rcpt} {p kek : Bytes} {allow : Bool} {cls : DecCls} {i : Int}
    {rk : Key} {la : Dict} (hcls : cls.accepts .mac = true) (hm : Spec.MadeWithKeys C allow m.base) (hf : Spec.Fits m.base)
    (hp : m.base.payload = some p) (hi : m.base.getAttr Hdr.Algorithm = .ok (algCls i))
    (hrs : m.recipients = some [r]) (hr : Spec.MadeWithKeys C allow r.base) (hw : Spec.AgreementWritable (Mode.base m.base.tstr).classes r.base)
    (hk : ∀ k, r.base.key = some k → Spec.PlainPolicy k)
    (hpeer : ∀ alg kind store, Spec.PeerIs r.base true alg (.key kind store) → Spec.PlainPolicy { kind := kind, store := store })
    (hkek : Spec.DirectlyAgreed C r.base true i kek) (hcan : Spec.CanTag C i kek) (ha : Spec.DirectAgreement C r r.base.uhdr rk la) :
    ∃ out m1 m' r' k, m.encode C R true true = .ok (out, m1) ∧ decode C cls allow out = .ok (.mac m') ∧
      m'.base.phdr = m.base.phdr ∧ m'.base.uhdr = m.base.uhdr ∧ m'.base.payload = some p ∧ m'.recipients = some [r'] ∧
      r'.base.phdr = r.base.phdr ∧ r'.base.uhdr = r.base.uhdr ∧ rcptComputeCek C (r'.receiver rk la) (algCls i) = .ok k ∧
      Mac.verifyTag C { m' with base := m'.base.withKeyAad k m.base.aad } = .ok true := by
  obtain ⟨out, m1, ho⟩ := (c82_mac_encode_agreed (C := C) L (R := R) (tag := true) hrs hi ha.cls ha.nested hk hpeer).mpr
    ⟨hf.prot, hf.unprot, hf.payload, hw, kek, by
      obtain ⟨data, h1⟩ := (c81_mac_structure (ctx := b!"MAC") (b := m.base) (by simp)).mpr
        ⟨.inr hf.prot, hf.aad, p, hp, hf.payload p hp⟩
      obtain ⟨t, h2⟩ := hcan data (macStructure_ne h1)
      exact ⟨data, t, hkek, h1, h2⟩⟩
  obtain ⟨m', r', k, g1, g2, g3, g4, g5, g6, g7, g8, g9⟩ := c14_mac_constructed_keys L hcls hm hrs hr ha hi ho
  exact ⟨out, m1, m', r', k, ho, g1, g2, g3, g4.trans hp, g5, g6, g7, g8, g9⟩

/-- C90.  A COSE_Encrypt message for any mix of recipients that wrap the content key (AES key wrap, RSAES-OAEP, ECDH with key wrap) is encrypted
under a fresh key, encoded and decoded, and each recipient decrypts the payload with its own key. -/
theorem c90_enc_mixed {C : Crypto} (L : C.Laws) {m : Enc} {R : Rand} {p nonce : Bytes} {allow : Bool} {cls : DecCls} {i : Int} {bits : Nat}
    (hcls : cls.accepts .enc = true) (hm : Spec.MadeWithKeys C allow m.base) (hf : Spec.Fits m.base) (hp : m.base.payload = some p)
    (hR : ∀ n, (R.cek n).length = n) (hbits : Spec.keyBits i = some bits)
    (hne : m.recipients ≠ []) (hlen : m.recipients.length < 2 ^ 64)
    (hd : ∀ (j : Nat) r, m.recipients[j]? = some r → Spec.WrapRecipient r ∧ Spec.MadeWithKeys C allow r.base ∧
      (∀ k, r.base.key = some k → Spec.PlainPolicy k) ∧ Spec.WrapWritable C R (Mode.base m.base.tstr).classes j r (R.cek (bits / 8)))
    (hi : m.base.getAttr Hdr.Algorithm = .ok (algCls i)) (hn : m.base.getAttr Hdr.IV = .ok (.bytes nonce))
    (hcan : Spec.CanSeal C i (R.cek (bits / 8)) nonce p) :
    ∃ out m1 m', m.encode C R true true = .ok (out, m1) ∧ decode C cls allow out = .ok (.enc m') ∧
      m'.base.phdr = m.base.phdr ∧ m'.base.uhdr = m.base.uhdr ∧ m'.recipients.length = m.recipients.length ∧
      ∀ (j : Nat) (r r' : Rcpt) (rk : Key) (la : Dict), m.recipients[j]? = some r → m'.recipients[j]? = some r' →
        Spec.Unwraps C r r.base.uhdr rk la →
        ∃ m'', Enc.decrypt C { base := { m'.base with aad := m.base.aad }, recipients := m'.recipients.set j (r'.receiver rk la) }
          (r'.receiver rk la) = .ok (p, m'') := by
  have hmem : i ∈ Spec.aeadAlgs.map (·.1) := by
    obtain ⟨a, ha, _⟩ := hcan
    exact List.mem_map.mpr ⟨_, ha, rfl⟩
  have hd' : ∀ r ∈ m.recipients, Spec.WrapRecipient r ∧ Spec.MadeWithKeys C allow r.base ∧ (∀ k, r.base.key = some k → Spec.PlainPolicy k) := by
    intro r hr
    obtain ⟨j, hj⟩ := List.mem_iff_getElem?.mp hr
    obtain ⟨a, b, c, _⟩ := hd j r hj
    exact ⟨a, b, c⟩
  obtain ⟨a, aad, c, h1, h2, h3⟩ := made_sealing (C := C) (ctx := b!"Encrypt")
    (b := (Spec.WithKey m (Spec.MadeKey i [Op.Encrypt] (R.cek (bits / 8)))).base) (k := Spec.MadeKey i [Op.Encrypt] (R.cek (bits / 8)))
    (kb := R.cek (bits / 8)) (by simp) hf.prot hf.aad hp hi hn rfl rfl hcan
  obtain ⟨out, m1, ho⟩ := (c82_enc_encode_wrapped (C := C) (R := R) (tag := true) hne hR hi hmem hbits
    (fun r hr => by
      obtain ⟨_, _, _, _, h | h⟩ := (hd' r hr).1
      · exact .inl h.1
      · exact .inr h.1)
    (fun r hr => by
      obtain ⟨h1, h2, _⟩ := (hd' r hr).1
      exact ⟨h2, h1⟩)
    (fun r hr => (hd' r hr).2.2)).mpr
    ⟨hf.prot, hf.unprot, hlen, fun j r hj => (hd j r hj).2.2.2, a, nonce, aad, p, c, h1, h2, h3⟩
  obtain ⟨m', q, g1, g2, g3, g4, _, g5, g6⟩ := c12_constructed_keys L hcls hm hne (fun r hr => ⟨(hd' r hr).1, (hd' r hr).2.1⟩) ho
  rw [hp] at g5; simp at g5; subst g5
  exact ⟨out, m1, m', ho, g1, g2, g3, g4, g6⟩

/-! ### C91 for messages with several parties -/

theorem signers_first_error {C : Crypto} {rnd : Nat → Bytes} {p : Base} {det : Option Bytes} {e : PyErr} :
    ∀ {ss : List Base} {i j : Nat} {s : Base} {pe : Bytes}, ss[j]? = some s →
      (∀ (l : Nat) s', l < j → ss[l]? = some s' → ∃ pe sg, s'.phdrEncoded = .ok pe ∧ signerCompute C (rnd (i + l)) p s' det = .ok sg) →
      s.phdrEncoded = .ok pe → signerCompute C (rnd (i + j)) p s det = .error e → signersEncode C rnd p det i ss = .error e
  | [], _, j, _, _, h, _, _, _ => by simp at h
  | s0 :: t, i, 0, s, pe, h, _, hp, he => by
    simp at h; subst h
    simp only [signersEncode, signerEncode, hp, ok_bind, Nat.add_zero] at he ⊢
    rw [he]; rfl
  | s0 :: t, i, j + 1, s, pe, h, hb, hp, he => by
    obtain ⟨pe0, sg, h1, h2⟩ := hb 0 s0 (by omega) (by simp)
    simp only [Nat.add_zero] at h2
    have ih := signers_first_error (C := C) (rnd := rnd) (p := p) (det := det) (ss := t) (i := i + 1) (j := j) (by simpa using h)
      (fun l s' hl hs => by
        have := hb (l + 1) s' (by omega) (by simpa using hs)
        rwa [show i + (l + 1) = i + 1 + l by omega] at this)
      hp (by rwa [show i + 1 + j = i + (j + 1) by omega])
    simp only [signersEncode, signerEncode, h1, ok_bind, h2, ih]
    rfl

/-- C91: `encode` of a message with recipients raises what encrypting or computing the tag raises, and of a message with signers what the first
signer that does not sign raises, if the protected headers can be written. -/
theorem c91_encode_multi {C : Crypto} {pe : Bytes} {e : PyErr} {tag : Bool} :
    (∀ {m : Enc} {R : Rand}, m.base.phdrEncoded = .ok pe → m.encrypt C R = .error e → m.encode C R tag true = .error e) ∧
    (∀ {m : Mac} {R : Rand}, m.base.phdrEncoded = .ok pe → m.computeTag C R = .error e → m.encode C R tag true = .error e) ∧
    (∀ {m : SignMsg} {rnd : Nat → Bytes} {det : Option Bytes} {j : Nat} {s : Base} {pes : Bytes}, m.base.phdrEncoded = .ok pe →
      m.signers[j]? = some s → s.phdrEncoded = .ok pes → signerCompute C (rnd j) m.base s det = .error e →
      (∀ (l : Nat) s', l < j → m.signers[l]? = some s' →
        ∃ pe sg, s'.phdrEncoded = .ok pe ∧ signerCompute C (rnd l) m.base s' det = .ok sg) →
      m.encode C rnd tag det = .error e) := by
  refine ⟨fun hp h => ?_, fun hp h => ?_, fun hp hs hps he hb => ?_⟩
  · simp only [Enc.encode, hp, ok_bind, if_true, h]; rfl
  · simp only [Mac.encode, hp, ok_bind, if_true, h]; rfl
  · have := signers_first_error (C := C) (i := 0) hs (by simpa using hb) hps (by simpa using he)
    rename_i m _ _ _ _ _
    have hne : m.signers.length ≠ 0 := by
      intro h0
      rw [List.length_eq_zero_iff.mp h0] at hs
      simp at hs
    simp only [SignMsg.encode, hp, ok_bind, if_pos hne, this]; rfl

/-- The second of two signers has no key. -/
example : SignMsg.encode toy (fun _ => [])
    { base := { phdr := [], payload := some [1] }
      signers := [Sample.baseWith (-7) Sample.ecKey (some []), { Sample.baseWith (-7) Sample.ecKey (some []) with key := none }] } true none =
      .error .coseException :=
  c91_encode_multi.2.2 (j := 1) rfl rfl rfl (by decide +kernel) fun l s' hl hs => by
    obtain rfl : l = 0 := by omega
    cases hs
    obtain ⟨_, h, _⟩ := res_any (r := signerCompute toy [] { phdr := [], payload := some [1] } (Sample.baseWith (-7) Sample.ecKey (some [])) none)
      (p := fun _ => true) (by decide +kernel)
    exact ⟨_, _, rfl, h⟩

/-! ### A case for C90 -/

/-- A recipient with ECDH-ES + HKDF-256, made by its constructor, with the sender's ephemeral public key as an object in its header. -/
def Sample.dkaMade (oid : Nat) : Rcpt :=
  .mk .directKeyAgreement
    { phdr := [(.cls Hdr.Algorithm, algCls (-25))], uhdr := [(.cls Hdr.EphemeralKey, Sample.sndPub.toVal)],
      payload := some [], key := some Sample.sndPriv, localAttrs := [(.cls Hdr.StaticKey, Sample.rcvPub.toVal)] } [] oid []

theorem Sample.sndConstructed : Spec.ConstructedKey toy Sample.sndPub :=
  ⟨[], (by intro k v h; cases h), .cls P256, .bytes (beBytes 32 11), .bytes (beBytes 32 12), .bytes [], by decide +kernel⟩

theorem Sample.dkaMade_keyed (oid : Nat) (allow : Bool) : Spec.MadeWithKeys toy allow (Sample.dkaMade oid).base := by
  refine ⟨{ phdr := .map [(.cls Hdr.Algorithm, .int (-25))], uhdr := .map [(.int (-1), Sample.sndPub.toVal)], allow := allow },
    _, _, .bytes [], .bytes [], none, { (Sample.dkaMade 0).base with key := none, localAttrs := [] }, rfl, rfl, rfl, rfl, ?_, ?_, ?_, rfl, rfl, rfl⟩
  · intro k v h
    have h : (k, v) = (.cls Hdr.Algorithm, .int (-25)) := by simpa using h
    cases h
    exact .inl ⟨Hdr.Algorithm, b!"ALG", by decide +kernel, .cls, .inr ⟨by decide, by decide, fun h => absurd rfl h⟩⟩
  · intro k v h
    have h : (k, v) = (.int (-1), Sample.sndPub.toVal) := by simpa using h
    cases h
    exact .inl ⟨Hdr.EphemeralKey, b!"EPHEMERAL_KEY", by decide +kernel, .ident, .inl ⟨.inl rfl, Sample.sndPub, rfl, Sample.sndConstructed⟩⟩
  · cases allow <;> decide +kernel

theorem Sample.dkaMade_agreed (oid : Nat) :
    Spec.DirectAgreement toy (Sample.dkaMade oid) (Sample.dkaMade oid).base.uhdr Sample.rcvPriv [] where
  cls := rfl
  nested := rfl
  agree := ⟨-25, P256, Sample.sndPriv, Sample.rcvPub, Sample.sndPub, rfl, by decide, rfl, rfl, rfl, Sample.sndPublic, Sample.rcvPublic,
    ⟨rfl, .inl rfl, .inl rfl⟩, ⟨rfl, .inl rfl, .inl rfl⟩⟩
  supp := ⟨rfl, rfl⟩

theorem Sample.encKeyed {allow : Bool} : Spec.MadeWithKeys toy allow { Sample.enc0.base with key := none } := by
  refine ⟨{ phdr := .map [(.cls Hdr.Algorithm, .text b!"A128GCM")],
            uhdr := .map [(.int 4, .bytes b!"me"), (.cls Hdr.IV, .bytes (List.replicate 12 1))], allow := allow }, _, _,
    .bytes b!"hello", .bytes b!"aad", none, { Sample.enc0.base with key := none }, rfl, rfl, rfl, rfl, ?_, ?_,
    by cases allow <;> decide +kernel, rfl, rfl, rfl⟩
  · intro k v h
    have h : (k, v) = (.cls Hdr.Algorithm, .text b!"A128GCM") := by simpa using h
    cases h
    exact .inl ⟨Hdr.Algorithm, b!"ALG", by decide +kernel, .cls, .inr ⟨by decide, by decide, fun h => absurd rfl h⟩⟩
  · intro k v h
    have h : (k, v) = (.int 4, .bytes b!"me") ∨ (k, v) = (.cls Hdr.IV, .bytes (List.replicate 12 1)) := by simpa using h
    rcases h with e | e <;> cases e
    · exact .inl ⟨Hdr.KID, b!"KID", by decide +kernel, .ident, .inr ⟨by decide, by decide, fun _ => trivial⟩⟩
    · exact .inl ⟨Hdr.IV, b!"IV", by decide +kernel, .cls, .inr ⟨by decide, by decide, fun _ => trivial⟩⟩

theorem Sample.dkaMade_plain (oid : Nat) : (∀ k, (Sample.dkaMade oid).base.key = some k → Spec.PlainPolicy k) ∧
    ∀ alg kind store, Spec.PeerIs (Sample.dkaMade oid).base true alg (.key kind store) → Spec.PlainPolicy { kind := kind, store := store } := by
  refine ⟨fun k hk => ?_, fun alg kind store hp => ?_⟩
  · simp only [Sample.dkaMade, Rcpt.base, Option.some.injEq] at hk
    subst hk
    exact plain_of (by decide +kernel) (by decide +kernel)
  · rcases hp with ⟨_, h⟩ | ⟨h, _⟩ | ⟨h, _⟩
    · have : some (Sample.rcvPub.toVal) = some (Val.key kind store) := h
      simp only [Key.toVal, Option.some.injEq, Val.key.injEq] at this
      obtain ⟨rfl, rfl⟩ := this
      exact plain_of (by decide +kernel) (by decide +kernel)
    · simp at h
    · simp at h

/-- The message of `c90_enc_agreed`. -/
def Sample.encAgreed : Enc := { base := { Sample.enc0.base with key := none }, recipients := [Sample.dkaMade 1] }

theorem Sample.encAgreed_parts : Spec.AgreementWritable (Mode.base false).classes (Sample.dkaMade 1).base ∧
    ∃ kek, Spec.DirectlyAgreed toy (Sample.dkaMade 1).base true 1 kek := by
  obtain ⟨⟨o, m'⟩, h, _⟩ := res_any (r := Sample.encAgreed.encode toy Sample.rand true true) (p := fun _ => true) (by decide +kernel)
  obtain ⟨-, -, h1, kek, h2, -⟩ := (c82_enc_encode_agreed (t := 1) (r := Sample.dkaMade 1) rfl (by decide +kernel) rfl rfl
    (Sample.dkaMade_plain 1).1 (Sample.dkaMade_plain 1).2).mp ⟨o, m', h⟩
  exact ⟨h1, kek, h2⟩

example : ∃ out m1 m' r' m'', Sample.encAgreed.encode toy Sample.rand true true = .ok (out, m1) ∧ decode toy .any false out = .ok (.enc m') ∧
    m'.recipients = [r'] ∧
    Enc.decrypt toy { base := { m'.base with aad := b!"aad" }, recipients := [r'.receiver Sample.rcvPriv []] } (r'.receiver Sample.rcvPriv []) =
      .ok (b!"hello", m'') := by
  obtain ⟨hw, kek, hk⟩ := Sample.encAgreed_parts
  obtain ⟨out, m1, m', r', h1, h2, _, _, h3, _, _, m'', h4⟩ := c90_enc_agreed toy_laws (m := Sample.encAgreed) (R := Sample.rand) (p := b!"hello") (i := 1)
    (allow := false) (cls := .any) (nonce := List.replicate 12 1) (by decide) Sample.encKeyed Sample.fitsEnc rfl (by decide +kernel) (by decide +kernel)
    rfl (Sample.dkaMade_keyed 1 false) hw (Sample.dkaMade_plain 1).1 (Sample.dkaMade_plain 1).2 hk (Sample.canSeal _ _) (Sample.dkaMade_agreed 1)
  exact ⟨out, m1, m', r', m'', h1, h2, h3, h4⟩

/-! A COSE_Mac message with that recipient, AES-MAC 128/64. -/

def Sample.macAgreed : Mac := { base := { Sample.mac0Aes.base with key := none }, recipients := some [Sample.dkaMade 1] }

theorem Sample.macKeyed {allow : Bool} : Spec.MadeWithKeys toy allow Sample.macAgreed.base := by
  refine ⟨{ phdr := .map [(.cls Hdr.Algorithm, .int 14)], uhdr := .map [(.int 4, .bytes b!"me")], allow := allow }, _, _,
    .bytes b!"hello", .bytes b!"aad", none, Sample.macAgreed.base, rfl, rfl, rfl, rfl, ?_, ?_,
    by cases allow <;> decide +kernel, rfl, rfl, rfl⟩
  · intro k v h
    have h : (k, v) = (.cls Hdr.Algorithm, .int 14) := by simpa using h
    cases h
    exact .inl ⟨Hdr.Algorithm, b!"ALG", by decide +kernel, .cls, .inr ⟨by decide, by decide, fun h => absurd rfl h⟩⟩
  · intro k v h
    have h : (k, v) = (.int 4, .bytes b!"me") := by simpa using h
    cases h
    exact .inl ⟨Hdr.KID, b!"KID", by decide +kernel, .ident, .inr ⟨by decide, by decide, fun _ => trivial⟩⟩

example : ∃ out m1 m' r' k, Sample.macAgreed.encode toy Sample.rand true true = .ok (out, m1) ∧ decode toy .any false out = .ok (.mac m') ∧
    rcptComputeCek toy (r'.receiver Sample.rcvPriv []) (algCls 14) = .ok k ∧ m'.recipients = some [r'] ∧
    Mac.verifyTag toy { m' with base := m'.base.withKeyAad k b!"aad" } = .ok true := by
  have h : ∃ kek, Spec.DirectlyAgreed toy (Sample.dkaMade 1).base true 14 kek := by
    obtain ⟨⟨o, m'⟩, h, _⟩ := res_any (r := Sample.macAgreed.encode toy Sample.rand true true) (p := fun _ => true) (by decide +kernel)
    obtain ⟨-, -, -, -, kek, _, _, h2, -⟩ := (c82_mac_encode_agreed toy_laws (t := 14) (r := Sample.dkaMade 1) rfl (by decide +kernel) rfl rfl
      (Sample.dkaMade_plain 1).1 (Sample.dkaMade_plain 1).2).mp ⟨o, m', h⟩
    exact ⟨kek, h2⟩
  obtain ⟨kek, hk⟩ := h
  obtain ⟨out, m1, m', r', k, h1, h2, _, _, _, h3, _, _, h4, h5⟩ := c90_mac_agreed toy_laws (m := Sample.macAgreed) (R := Sample.rand) (p := b!"hello") (i := 14)
    (allow := false) (cls := .any) (by decide) Sample.macKeyed ⟨⟨_, rfl, by decide⟩,
      (Sample.fits (alg := 14) (key := Sample.symKey) (pl := none) ⟨_, rfl, by decide⟩ (by simp [Spec.ShortPayload])).unprot,
      by simp [Spec.ShortPayload, Sample.macAgreed, Sample.mac0Aes, Sample.baseWith], by decide⟩ rfl (by decide +kernel)
    rfl (Sample.dkaMade_keyed 1 false) Sample.encAgreed_parts.1 (Sample.dkaMade_plain 1).1 (Sample.dkaMade_plain 1).2 hk (Sample.canTagAes _)
    (Sample.dkaMade_agreed 1)
  exact ⟨out, m1, m', r', k, h1, h2, h4, h3, h5⟩

/-! A COSE_Encrypt message for a recipient with AES key wrap and one with ECDH-ES and key wrap. -/

def Sample.encTwo : Enc := { base := { Sample.enc0.base with key := none }, recipients := [Sample.kwRcpt 1, Sample.esRcpt 2] }

theorem Sample.kwKeyed (oid : Nat) (allow : Bool) : Spec.MadeWithKeys toy allow (Sample.kwRcpt oid).base := by
  refine ⟨{ phdr := .map [], uhdr := .map [(.cls Hdr.Algorithm, .int (-3)), (.int 4, .bytes b!"kek")], allow := allow }, _, _,
    .bytes [], .bytes [], none, { (Sample.kwRcpt 0).base with key := none }, rfl, rfl, rfl, rfl, (by intro k v h; cases h), ?_,
    by cases allow <;> decide +kernel, rfl, rfl, rfl⟩
  intro k v h
  have h : (k, v) = (.cls Hdr.Algorithm, .int (-3)) ∨ (k, v) = (.int 4, .bytes b!"kek") := by simpa using h
  rcases h with e | e <;> cases e
  · exact .inl ⟨Hdr.Algorithm, b!"ALG", by decide +kernel, .cls, .inr ⟨by decide, by decide, fun h => absurd rfl h⟩⟩
  · exact .inl ⟨Hdr.KID, b!"KID", by decide +kernel, .ident, .inr ⟨by decide, by decide, fun _ => trivial⟩⟩

theorem Sample.esKeyed (oid : Nat) (allow : Bool) : Spec.MadeWithKeys toy allow (Sample.esRcpt oid).base := by
  refine ⟨{ phdr := .map [(.cls Hdr.Algorithm, .int (-29))], uhdr := .map [(.cls Hdr.PartyUID, .bytes b!"lighting-client")], allow := allow }, _, _,
    .bytes [], .bytes [], none, { (Sample.esRcpt 0).base with localAttrs := [] }, rfl, rfl, rfl, rfl, ?_, ?_,
    by cases allow <;> decide +kernel, rfl, rfl, rfl⟩
  · intro k v h
    have h : (k, v) = (.cls Hdr.Algorithm, .int (-29)) := by simpa using h
    cases h
    exact .inl ⟨Hdr.Algorithm, b!"ALG", by decide +kernel, .cls, .inr ⟨by decide, by decide, fun h => absurd rfl h⟩⟩
  · intro k v h
    have h : (k, v) = (.cls Hdr.PartyUID, .bytes b!"lighting-client") := by simpa using h
    cases h
    exact .inl ⟨Hdr.PartyUID, b!"PARTY_U_ID", by decide +kernel, .cls, .inr ⟨by decide, by decide, fun _ => trivial⟩⟩

theorem Sample.encTwo_plain (r : Rcpt) (hr : r ∈ Sample.encTwo.recipients) (k : Key) (hk : r.base.key = some k) : Spec.PlainPolicy k := by
  simp only [Sample.encTwo, List.mem_cons, List.not_mem_nil, or_false] at hr
  rcases hr with rfl | rfl
  · simp only [Sample.kwRcpt, Rcpt.base, Option.some.injEq] at hk
    subst hk
    exact plain_of (by decide +kernel) (by decide +kernel)
  · simp [Sample.esRcpt, Rcpt.base] at hk

theorem Sample.encTwo_wraps (j : Nat) (r : Rcpt) (hr : Sample.encTwo.recipients[j]? = some r) :
    Spec.WrapWritable toy Sample.rand (Mode.base false).classes j r (Sample.rand.cek 16) := by
  obtain ⟨⟨o, m'⟩, h, _⟩ := res_any (r := Sample.encTwo.encode toy Sample.rand true true) (p := fun _ => true) (by decide +kernel)
  exact ((c82_enc_encode_wrapped (t := 1) (bits := 128) (by simp [Sample.encTwo]) (fun n => List.length_replicate ..) (by decide +kernel)
    (by decide +kernel) rfl (by decide) (by decide) Sample.encTwo_plain).mp ⟨o, m', h⟩).2.2.2.1 j r hr

example : ∃ out m1 m', Sample.encTwo.encode toy Sample.rand true true = .ok (out, m1) ∧ decode toy .any false out = .ok (.enc m') ∧
    (∀ r', m'.recipients[0]? = some r' → ∃ m'', Enc.decrypt toy
      { base := { m'.base with aad := b!"aad" }, recipients := m'.recipients.set 0 (r'.receiver Sample.symKey []) }
      (r'.receiver Sample.symKey []) = .ok (b!"hello", m'')) ∧
    (∀ r', m'.recipients[1]? = some r' → ∃ m'', Enc.decrypt toy
      { base := { m'.base with aad := b!"aad" }, recipients := m'.recipients.set 1 (r'.receiver Sample.rcvPriv []) }
      (r'.receiver Sample.rcvPriv []) = .ok (b!"hello", m'')) := by
  obtain ⟨out, m1, m', h1, h2, _, _, _, h4⟩ := c90_enc_mixed toy_laws (m := Sample.encTwo) (R := Sample.rand) (p := b!"hello") (i := 1) (bits := 128)
    (allow := false) (cls := .any) (nonce := List.replicate 12 1) (by decide) Sample.encKeyed Sample.fitsEnc rfl (fun n => List.length_replicate ..) rfl
    (by simp [Sample.encTwo]) (by simp [Sample.encTwo])
    (fun j r hr => by
      refine ⟨?_, ?_, Sample.encTwo_plain r (List.mem_of_getElem? hr), Sample.encTwo_wraps j r hr⟩
      all_goals
        have := List.mem_of_getElem? hr
        simp only [Sample.encTwo, List.mem_cons, List.not_mem_nil, or_false] at this
        rcases this with rfl | rfl
      · exact (Sample.kwOk (tstr := false) (allow := false) 1).1
      · exact (Sample.esOk (tstr := false) (allow := false) 2).1
      · exact Sample.kwKeyed 1 false
      · exact Sample.esKeyed 2 false)
    (by decide +kernel) (by decide +kernel) (Sample.canSeal _ _)
  exact ⟨out, m1, m', h1, h2,
    fun r' hr => h4 0 (Sample.kwRcpt 1) r' Sample.symKey [] rfl hr (.aesKw (i := -3) rfl (by decide) rfl rfl),
    fun r' hr => h4 1 (Sample.esRcpt 2) r' Sample.rcvPriv [] rfl hr
      (.ecdhGenerated (i := -29) (crv := P256) (pk := Sample.rcvPub) rfl (by decide) rfl rfl (by decide) Sample.rcvPublic ⟨rfl, rfl⟩)⟩

end Cose
