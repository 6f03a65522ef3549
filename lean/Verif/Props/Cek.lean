import Verif.Cek
import Verif.Props.Structure
/-!
# The content key as the two sides compute it (C86)
-/
set_option autoImplicit false
namespace Cose

/-- A symmetric key with these bytes, for this algorithm and for this operation only. -/
structure Spec.KeyFor (k : Key) (kb : Bytes) (alg : Val) (op : Cls) : Prop where
  bytes : k.symK = .ok (.bytes kb)
  size : kb.length = 16 ∨ kb.length = 24 ∨ kb.length = 32
  alg : k.alg = alg
  ops : k.keyOps = .arr [.cls op]

theorem symStore_contentKey {alg : Val} {op : Cls} {kb : Bytes} (hl : kb.length = 16 ∨ kb.length = 24 ∨ kb.length = 32) :
    Spec.KeyFor { kind := .sym, store := symStore alg [op] kb } kb alg op := by
  refine ⟨symStore_symK _ _ _, hl, ?_, ?_⟩
  · simp [Key.alg, getD, symStore, dget, KpKty, KpAlg]
  · simp [Key.keyOps, getD, symStore, dget, KpKty, KpAlg, KpKeyOps]

theorem senderCek_wrapped {C : Crypto} {r : Rcpt} {alg : Val} {kb : Bytes} {k : Key}
    (hc : r.cls = .keyWrap ∨ r.cls = .keyAgreementWithKeyWrap) (hp : r.base.payload = some kb) (hkb : kb ≠ [])
    (hk : mkSym (.bytes kb) alg [Op.Encrypt] = .ok k) : rcptSenderCek C r alg = .ok (some k) := by
  rcases hc with e | e <;>
    simp [rcptSenderCek, e, hp, optBytes, hk, ok_bind, hkb]

/-- C86.  Before a recipient has a content key, asking it for one gives `None`. -/
theorem c86_unset (C : Crypto) {r : Rcpt} (alg : Val) (hc : r.cls = .keyWrap ∨ r.cls = .keyAgreementWithKeyWrap)
    (hp : r.base.payload = some []) : rcptSenderCek C r alg = .ok none := by
  rcases hc with e | e <;> simp [rcptSenderCek, e, hp]

/-- C86.  After `encrypt()` each recipient that carries the wrapped key gives the key the message was encrypted
with, marked for encryption only. -/
theorem c86_sender {C : Crypto} {R : Rand} {m m' : Enc} {c : Bytes} {alg : Val}
    (hk : ∀ r ∈ m.recipients, r.cls = .keyWrap ∨ r.cls = .keyAgreementWithKeyWrap) (hu : Spec.OnePreset m.recipients)
    (ha : m.base.getAttr Hdr.Algorithm = .ok alg) (h : m.encrypt C R = .ok (c, m')) :
    ∃ k kb, m'.base.key = some k ∧ Spec.KeyFor k kb alg Op.Encrypt ∧
      ∀ r ∈ m'.recipients, rcptSenderCek C r alg = .ok (some k) := by
  simp only [Enc.encrypt, ha, ok_bind, bind_eq_ok] at h
  obtain ⟨types, ht, h⟩ := h
  obtain ⟨rfl, _⟩ := verifyRecipients_iff.mp ht
  obtain ⟨k1, k2⟩ := kw_not_direct hk
  rw [if_neg (by rw [k1]; decide), if_neg (by rw [k2]; decide)] at h
  split at h
  · simp only [bind_eq_ok] at h
    obtain ⟨n, _, ⟨kb, rs⟩, h1, k, h2, c', h3, h4⟩ := h
    simp at h4; obtain ⟨rfl, rfl⟩ := h4
    obtain ⟨q, rfl, hq⟩ := wrapLoop_onePreset hu h1
    obtain ⟨f, hfam⟩ := encMethod_alg h3 (show ({ m.base with key := some k } : Base).getAttr Hdr.Algorithm = _ from ha)
    obtain ⟨ca, nn, rfl, hreg, _⟩ := algFam_reg hfam
    have hopE : ∀ o ∈ [Op.Encrypt], ∃ n, (o, n) ∈ registry .op := by
      intro o ho; apply opReg; simp at ho; subst ho; decide
    have h2' := h2
    obtain ⟨kb', hkb, hl, rfl⟩ := mkSym_ok hreg hopE h2
    simp only [optBytes, Val.bytes.injEq] at hkb
    subst hkb
    refine ⟨_, q, rfl, symStore_contentKey hl, fun r hr => ?_⟩
    refine senderCek_wrapped ?_ (hq r hr) (by rintro rfl; simp at hl) h2'
    have : r.cls ∈ rs.map Rcpt.cls := List.mem_map_of_mem hr
    rw [wrapLoop_cls h1] at this
    obtain ⟨s, hs, e⟩ := List.mem_map.mp this
    rw [← e]; exact hk s hs
  · simp at h

/-- C86.  A message sent to recipients that carry the wrapped key: after `encode()` every recipient of the sender
gives the same key, marked for encryption, and every receiver who can unwrap gives — and decrypts with — a key with
the same bytes and the same algorithm, marked for decryption. -/
theorem c86_wrapped {C : Crypto} (L : C.Laws) {m m1 : Enc} {R : Rand} {out : Bytes} {allow : Bool} {ph uh : Dict}
    {uhs : List Dict} {cls : DecCls} (hcls : cls.accepts .enc = true)
    (hb : Spec.Sendable C m.base.tstr allow m.base ph uh) (hne : m.recipients ≠ [])
    (hrs : All2 (fun r uh => Spec.WrapRecipient r ∧ Spec.Sendable C m.base.tstr allow r.base r.base.phdr uh) m.recipients uhs)
    (h : m.encode C R true true = .ok (out, m1)) :
    ∃ m' alg k kb, decode C cls allow out = .ok (.enc m') ∧ m'.recipients.length = m.recipients.length ∧
      m.base.getAttr Hdr.Algorithm = .ok alg ∧ m1.base.key = some k ∧ Spec.KeyFor k kb alg Op.Encrypt ∧
      (∀ r ∈ m1.recipients, rcptSenderCek C r alg = .ok (some k)) ∧
      ∀ (j : Nat) (r r' : Rcpt) (uhj : Dict) (rk : Key) (la : Dict), m.recipients[j]? = some r → uhs[j]? = some uhj →
        m'.recipients[j]? = some r' → Spec.Unwraps C r uhj rk la →
        ∃ k' p m'', rcptComputeCek C (r'.receiver rk la) alg = .ok k' ∧ Spec.KeyFor k' kb alg Op.Decrypt ∧
          Enc.decrypt C { base := { m'.base with aad := m.base.aad },
                          recipients := m'.recipients.set j (r'.receiver rk la) } (r'.receiver rk la) = .ok (p, m'') ∧
          m''.base.key = some k' := by
  obtain ⟨m', p, h1, _, _, h2, _, _, alg, kb, h3, hl, h4, h5, h6⟩ := keywrap_keys L hcls hb hne hrs h
  refine ⟨m', alg, _, kb, h1, h2, h3, h4, symStore_contentKey hl, ?_, ?_⟩
  · have hcl : ∀ r ∈ m.recipients, r.cls = .keyWrap ∨ r.cls = .keyAgreementWithKeyWrap := fun r hr => by
      obtain ⟨_, _, h1, _⟩ := all2_mem_left hrs hr
      obtain ⟨_, _, _, _, h | h⟩ := h1
      · exact .inl h.1
      · exact .inr h.1
    have hu : Spec.OnePreset m.recipients := .inl fun r hr => by
      obtain ⟨_, _, h1, _⟩ := all2_mem_left hrs hr
      exact h1.2.1
    obtain ⟨⟨k, q, e1, e2, e3⟩, e4, _⟩ := c37_encode_partial hcl hu h
    rw [h4] at e1
    simp only [Option.some.injEq] at e1
    subst e1
    rw [symStore_symK] at e2
    simp only [Except.ok.injEq, Val.bytes.injEq] at e2
    subst e2
    exact fun r hr => senderCek_wrapped (e4 r hr) (e3 r hr) (by rintro rfl; simp at hl) h5
  · intro j r r' uhj rk la a1 a2 a3 a4
    obtain ⟨m'', k', g1, g2, g3, rfl⟩ := h6 j r r' uhj rk la a1 a2 a3 a4
    exact ⟨_, p, m'', g2, symStore_contentKey hl, g1, g3⟩

/-- C86.  Direct key agreement: the sender's recipient and the decoded recipient give the very same key, which is
the one the message is encrypted and decrypted with. -/
theorem c86_agreed {C : Crypto} (L : C.Laws) {m m1 : Enc} {R : Rand} {out : Bytes} {allow : Bool}
    {ph uh uhr : Dict} {r : Rcpt} {rk : Key} {la : Dict} {cls : DecCls} (hcls : cls.accepts .enc = true)
    (hb : Spec.Sendable C m.base.tstr allow m.base ph uh) (hrs : m.recipients = [r])
    (hs : Spec.Sendable C m.base.tstr allow r.base r.base.phdr uhr) (hr : Spec.DirectAgreement C r uhr rk la)
    (h : m.encode C R true true = .ok (out, m1)) :
    ∃ m' r' alg k p m'', decode C cls allow out = .ok (.enc m') ∧ m'.recipients = [r'] ∧
      m.base.getAttr Hdr.Algorithm = .ok alg ∧ m1.base.key = some k ∧
      rcptSenderCek C r alg = .ok (some k) ∧ rcptComputeCek C (r'.receiver rk la) alg = .ok k ∧
      Enc.decrypt C { base := { m'.base with aad := m.base.aad }, recipients := [r'.receiver rk la] }
        (r'.receiver rk la) = .ok (p, m'') ∧ m''.base.key = some k := by
  obtain ⟨m', r', p, h1, _, _, h2, _, _, _, m'', alg, k, h3, h4, h5, h6, h7, h8⟩ := agreement_keys L hcls hb hrs hs hr h
  exact ⟨m', r', alg, k, p, m'', h1, h2, h3, h4, by simp [rcptSenderCek, hr.cls, h5, ok_bind], h7, h6, h8⟩

/-- C86 for COSE_Mac with direct key agreement. -/
theorem c86_mac_agreed {C : Crypto} (L : C.Laws) {m m1 : Mac} {R : Rand} {out : Bytes} {allow : Bool}
    {ph uh uhr : Dict} {r : Rcpt} {rk : Key} {la : Dict} {cls : DecCls} {alg : Val} (hcls : cls.accepts .mac = true)
    (hb : Spec.Sendable C m.base.tstr allow m.base ph uh) (hrs : m.recipients = some [r])
    (hs : Spec.Sendable C m.base.tstr allow r.base r.base.phdr uhr) (hr : Spec.DirectAgreement C r uhr rk la)
    (halg : m.base.getAttr Hdr.Algorithm = .ok alg) (h : m.encode C R true true = .ok (out, m1)) :
    ∃ m' r' k, decode C cls allow out = .ok (.mac m') ∧ m'.recipients = some [r'] ∧ m1.base.key = some k ∧
      rcptSenderCek C r alg = .ok (some k) ∧ rcptComputeCek C (r'.receiver rk la) alg = .ok k := by
  obtain ⟨m', r', k, h1, _, _, _, h2, _, _, h3, h4, h5, _⟩ := mac_agreement_keys L hcls hb hrs hs hr halg h
  exact ⟨m', r', k, h1, h2, h3, by simp [rcptSenderCek, hr.cls, h4, ok_bind], h5⟩

/-- C86.  A direct-encryption recipient never gives a key: with one argument the call returns `None` if the
algorithm is `direct` and raises otherwise; with the two arguments all other classes take it raises. -/
theorem c86_direct (C : Crypto) (r : Rcpt) (hc : r.cls = .directEncryption) :
    (∀ k, directComputeCek r.base ≠ .ok (some k)) ∧
    (directComputeCek r.base = .ok none ↔ r.base.getAttr Hdr.Algorithm = .ok (algCls (-6))) ∧
    ∀ alg, rcptSenderCek C r alg = .error .typeError ∧ rcptComputeCek C r alg = .error .typeError := by
  refine ⟨fun k hk => ?_, ⟨fun h => ?_, fun h => by simp [directComputeCek, h, ok_bind]⟩, fun alg => ?_⟩
  · simp only [directComputeCek, bind_eq_ok] at hk
    obtain ⟨a, _, hk⟩ := hk
    split at hk
    · simp at hk
    · split at hk
      · simp at hk
      · simp [bind_eq_ok] at hk
  · simp only [directComputeCek, bind_eq_ok] at h
    obtain ⟨a, ha, h⟩ := h
    split at h
    · rename_i e; rw [ha, e]
    · split at h
      · simp at h
      · simp [bind_eq_ok] at h
  · simp [rcptSenderCek, rcptComputeCek, hc]

/-! ### The cases are met -/

/-- `c86_sender`: the message of C37. -/
example : Spec.OnePreset Sample.encKw.recipients ∧ (Sample.encKw.encrypt toy Sample.rand).isOk = true ∧
    (∃ alg, Sample.encKw.base.getAttr Hdr.Algorithm = .ok alg) ∧ Sample.encKw.recipients ≠ [] := by
  refine ⟨.inl ?_, by decide +kernel, ⟨_, rfl⟩, ?_⟩ <;> simp [Sample.encKw, Sample.kwRcpt, Rcpt.base]

/-- `c86_wrapped`, `c86_agreed`: the messages of C12, C13 and C14, whose hypotheses they share; here the four
recipients of one of them and the key they give after `encode()`. -/
example : ∃ p, Sample.encMix.encode toy Sample.rand true true = .ok p ∧ p.2.recipients.length = 4 ∧
    ∀ r ∈ p.2.recipients, rcptSenderCek toy r (algCls 1) = .ok p.2.base.key :=
  ⟨(Sample.encMix.encode toy Sample.rand true true).toOption.get (by decide +kernel), by decide +kernel, by decide +kernel,
    by decide +kernel⟩

/-- `c86_direct`: both cases of the one-argument call occur. -/
example : directComputeCek { phdr := [], uhdr := [(.cls Hdr.Algorithm, algCls (-6))], payload := some [] } = .ok none ∧
    directComputeCek { phdr := [(.cls Hdr.Algorithm, algCls (-10))], uhdr := [], payload := some [] } = .error .attributeError :=
  ⟨rfl, rfl⟩

end Cose
