import Verif.RcptListLemmas
import Verif.Props.RoundTrip
/-!
# Properties C10–C14: round trips of messages with recipients
-/
set_option autoImplicit false
namespace Cose

/-! ### Direct encryption -/

/-- A recipient of the direct encryption class. -/
def Spec.DirectRecipient (r : Rcpt) : Prop :=
  r.cls = .directEncryption ∧ r.recipients = [] ∧
    ∃ i : Int, r.base.getAttr Hdr.Algorithm = .ok (algCls i) ∧ i ∈ [-6, -10, -13]

/-- What the receiver gets for such a recipient: the same class and headers, and an empty ciphertext. -/
def Spec.DirectReceived (h : Dict × Dict) (r' : Rcpt) : Prop :=
  r'.cls = .directEncryption ∧ r'.recipients = [] ∧ r'.base.phdr = h.1 ∧ r'.base.uhdr = h.2 ∧ r'.base.payload = some []

theorem direct_received {C : Crypto} {R : Rand} {tstr allow : Bool} {r : Rcpt} {ph uh : Dict} (hr : Spec.DirectRecipient r)
    (hs : Spec.Sendable C tstr allow r.base ph uh) {p : List Nat} {v : Val} {r2 : Rcpt}
    (h : rcptEncode C R p r = .ok (v, r2)) :
    ∃ w, Sent (.base tstr) v w ∧ ∀ ctx oid, ∃ r', createRecipient C allow ctx oid w = .ok r' ∧ r'.oid = oid ∧
      Spec.DirectReceived (ph, uh) r' := by
  obtain ⟨cls, b, rctx, roid, rs⟩ := r
  obtain ⟨h1, h2, i, h3, h4⟩ := hr
  simp only [Rcpt.cls, Rcpt.recipients, Rcpt.base] at h1 h2 h3 hs
  subst h1 h2
  obtain ⟨head, b', hh, rfl, rfl⟩ := rcptEncode_flat rfl h
  simp only [rcptHead, h3, ok_bind] at hh
  split at hh
  · simp at hh
  rename_i hphd
  split at hh
  · simp at hh
  split at hh
  · simp at hh
  obtain ⟨pe, hpe, hh⟩ := bind_eq_ok.mp hh
  simp only [Except.ok.injEq, Prod.mk.injEq] at hh
  obtain ⟨rfl, rfl⟩ := hh
  have hc : rcptClass (algCls i) = .ok .directEncryption := by
    simp at h4; rcases h4 with rfl | rfl | rfl <;> rfl
  obtain ⟨w, hw, hrec⟩ := recv_rcpt hs hpe h3 hc
  refine ⟨.arr [.bytes pe, .map w, .bytes []], sent_arr (.cons sent_bytes (.cons hw (.cons sent_bytes .nil))), ?_⟩
  intro ctx oid
  obtain ⟨e1, e2, e3⟩ := hrec ctx oid []
  refine ⟨.mk .directEncryption (recvBase pe ph uh (some [])) ctx oid [], ?_, rfl, rfl, rfl, rfl, rfl, rfl⟩
  rw [e1]
  simp only [rcptFromObj, e2, ok_bind, e3]
  rw [if_neg (by simp [recvBase]), if_neg]
  simpa [recvBase, sendable_ph_length hs] using hphd

theorem direct_list {C : Crypto} {R : Rand} {tstr allow : Bool} {rs : List Rcpt} {hs : List (Dict × Dict)}
    (h : All2 (fun r (h : Dict × Dict) => Spec.DirectRecipient r ∧ Spec.Sendable C tstr allow r.base h.1 h.2) rs hs) :
    All2 (fun (a : Dict × Dict) r1 => ∀ p v r2, rcptEncode C R p r1 = .ok (v, r2) → ∃ w, Sent (.base tstr) v w ∧
      ∀ ctx oid, ∃ r', createRecipient C allow ctx oid w = .ok r' ∧ r'.oid = oid ∧ Spec.DirectReceived a r') hs rs := by
  induction h with
  | nil => exact .nil
  | cons h0 _ ih => exact .cons (fun p v r2 h => direct_received h0.1 h0.2 h) ih

theorem direct_types {rs : List Rcpt} (h : ∀ r ∈ rs, r.cls = .directEncryption) (hne : rs ≠ []) :
    (verifyRecipients rs) = .ok (rs.map Rcpt.cls) ∧ (rs.map Rcpt.cls).contains .directEncryption = true := by
  have h1 : (rs.map Rcpt.cls).any (· != .directEncryption) = false := by
    rw [List.any_eq_false]; intro x hx
    obtain ⟨r, hr, rfl⟩ := List.mem_map.mp hx
    simp [h r hr]
  have h2 : (rs.map Rcpt.cls).contains .directKeyAgreement = false := by
    rw [List.contains_eq_any_beq, List.any_eq_false]; intro x hx
    obtain ⟨r, hr, rfl⟩ := List.mem_map.mp hx
    rw [h r hr]; decide
  have h3 : (rs.map Rcpt.cls).contains .directEncryption = true := by
    cases rs with
    | nil => simp at hne
    | cons r t => simp [h r (by simp)]
  exact ⟨by simp only [verifyRecipients, h1, h2, Bool.false_eq_true, and_false, false_and, if_false], h3⟩

theorem all2_mem_left {α β : Type} {P : α → β → Prop} {l : List α} {m : List β} (h : All2 P l m) {a : α} (ha : a ∈ l) :
    ∃ b ∈ m, P a b := by
  induction h with
  | nil => simp at ha
  | cons h0 _ ih =>
    rcases List.mem_cons.mp ha with rfl | ha
    · exact ⟨_, by simp, h0⟩
    · obtain ⟨b, hb, hp⟩ := ih ha; exact ⟨b, List.mem_cons_of_mem _ hb, hp⟩

theorem all2_mem_right {α β : Type} {P : α → β → Prop} {l : List α} {m : List β} (h : All2 P l m) {b : β} (hb : b ∈ m) :
    ∃ a ∈ l, P a b := by
  induction h with
  | nil => simp at hb
  | cons h0 _ ih =>
    rcases List.mem_cons.mp hb with rfl | hb
    · exact ⟨_, by simp, h0⟩
    · obtain ⟨a, ha, hp⟩ := ih hb; exact ⟨a, List.mem_cons_of_mem _ ha, hp⟩

/-! ### C10 -/

/-- C10.  `encode()` of a COSE_Mac message with Direct recipients decodes to a message with the sender's
headers, payload and recipients, whose tag verifies under the same key value and external aad. -/
theorem c10_mac_direct_roundtrip {C : Crypto} {m m1 : Mac} {R : Rand} {out : Bytes} {allow : Bool} {ph uh : Dict}
    {rs : List Rcpt} {hs : List (Dict × Dict)} {cls : DecCls} {alg : Val} {k rk : Key} (hcls : cls.accepts .mac = true)
    (hb : Spec.Sendable C m.base.tstr allow m.base ph uh) (hrs : m.recipients = some rs) (hne : rs ≠ [])
    (hd : All2 (fun r (h : Dict × Dict) => Spec.DirectRecipient r ∧ Spec.Sendable C m.base.tstr allow r.base h.1 h.2) rs hs)
    (h : m.encode C R true true = .ok (out, m1)) (halg : m.base.getAttr Hdr.Algorithm = .ok alg) (hk : m.base.key = some k)
    (hK : rk.symK = k.symK) (hp : Spec.Permits rk .sym alg [Op.MacVerify]) :
    ∃ m' rs', decode C cls allow out = .ok (.mac m') ∧ m'.base.phdr = ph ∧ m'.base.uhdr = uh ∧
      m'.base.payload = m.base.payload ∧ m'.recipients = some rs' ∧ All2 Spec.DirectReceived hs rs' ∧
      Mac.verifyTag C { m' with base := m'.base.withKeyAad rk m.base.aad } = .ok true := by
  obtain ⟨pe, m2, tl0, tl, rs1, hpe, hc, hf, hr1, hr2⟩ := mac_encode_inv h
  rcases hc with ⟨_, t, ht, rfl⟩ | ⟨h0, _⟩
  rotate_left
  · simp at h0
  have hcl : ∀ r ∈ rs, r.cls = .directEncryption := fun r hr => by
    obtain ⟨_, _, h1, _⟩ := all2_mem_left hd hr; exact h1.1
  obtain ⟨ht1, ht2⟩ := direct_types hcl hne
  have htag : macCompute C b!"MAC" m.base = .ok t ∧ m2 = { m with authTag := .bytes t } := by
    simp only [Mac.computeTag, halg, ok_bind, hrs, ht1, ht2, if_true, bind_eq_ok] at ht
    obtain ⟨t', h1, h2⟩ := ht
    simp at h2
    obtain ⟨rfl, rfl⟩ := h2
    exact ⟨h1, by rw [hrs]⟩
  obtain ⟨hmac, rfl⟩ := htag
  simp only [hrs, Option.some.injEq] at hr1
  subst hr1
  rcases hr2 with ⟨h0, _⟩ | ⟨_, vs, rs2, he, rfl, hm1⟩
  · exact absurd h0 hne
  obtain ⟨ws, hws, hrec⟩ := rcptsEncode_received (direct_list hd) he
  obtain ⟨rs', hcr, hall⟩ := hrec b!"Mac_Recipient" 0
  obtain ⟨w, hw, hbase⟩ := received_base hb hpe
  have hfo := mac_fromObj_rs (hbase m.base.payload [.bytes t, .arr ws]) hcr
  have hdec := finish_decode (C := C) (allow := allow) (cls := cls) (k := .mac) (t := 97) rfl hcls
    (.cons sent_bytes (.cons hw (.cons sent_opt (.cons sent_bytes (.cons (sent_arr hws) .nil))))) hf
    (m := .mac { base := recvBase pe ph uh m.base.payload, authTag := .bytes t, recipients := some rs' })
    (by simp only [fromObj, hfo, ok_bind]) []
  rw [List.append_nil] at hdec
  refine ⟨_, rs', hdec, rfl, rfl, rfl, rfl, hall, ?_⟩
  refine macVerify_roundtrip (b := m.base) hmac halg hk rfl ?_ ?_ hK hp
  · exact sendable_getAttr hb rfl rfl (by decide) (by decide)
  · exact sendable_macStructure hb hpe rfl rfl rfl rfl

theorem Sample.directOk {C : Crypto} {tstr allow : Bool} (oid : Nat) : Spec.DirectRecipient (Sample.directRcpt oid) ∧
    Spec.Sendable C tstr allow (Sample.directRcpt oid).base [] (Sample.directRcpt oid).base.uhdr := by
  refine ⟨⟨rfl, rfl, -6, rfl, by decide⟩, .inl ⟨rfl, by simp [KeysNodup, Sample.directRcpt, Rcpt.base], .nil⟩,
    by simp [KeysNodup, Sample.directRcpt, Rcpt.base, keq, norm, Hdr.Algorithm, Hdr.KID], ?_⟩
  exact .cons (.alg (.one (n := b!"DIRECT") (by decide +kernel)))
    (.cons (.plain (n := b!"KID") (by decide +kernel) (by decide) (by decide) (by decide) trivial (by simp [Spec.ValidValue])) .nil)

/-- C10's hypotheses hold of a message with two recipients. -/
example : ∃ (m : Mac) (rs : List Rcpt) (hs : List (Dict × Dict)) (ph uh : Dict),
    m.recipients = some rs ∧ rs.length = 2 ∧ Spec.Sendable toy m.base.tstr false m.base ph uh ∧
    All2 (fun r (h : Dict × Dict) => Spec.DirectRecipient r ∧ Spec.Sendable toy m.base.tstr false r.base h.1 h.2) rs hs ∧
    (m.encode toy Sample.rand true true).isOk = true ∧ m.base.key = some Sample.symKey ∧
    m.base.getAttr Hdr.Algorithm = .ok (algCls 5) ∧ Spec.Permits Sample.symKey .sym (algCls 5) [Op.MacVerify] :=
  ⟨{ Sample.mac with recipients := some [Sample.directRcpt 1, Sample.directRcpt 2] }, _,
    [([], (Sample.directRcpt 1).base.uhdr), ([], (Sample.directRcpt 2).base.uhdr)], _, _, rfl, rfl,
    Sample.sendable (alg := 5) (n := b!"HMAC_256") (by decide +kernel) _ _,
    .cons (Sample.directOk 1) (.cons (Sample.directOk 2) .nil), by decide +kernel, rfl, rfl, Sample.symPermits _ _⟩

/-! ### C11 -/

/-- C11.  `encode()` of a COSE_Encrypt message with Direct recipients decodes to a message with the sender's
headers and recipients, which decrypts for every one of its recipients, under the same key value and external
aad, to the sender's payload. -/
theorem c11_enc_direct_roundtrip {C : Crypto} (L : C.Laws) {m m1 : Enc} {R : Rand} {out : Bytes} {allow : Bool} {ph uh : Dict}
    {hs : List (Dict × Dict)} {cls : DecCls} {alg : Val} {k rk : Key} (hcls : cls.accepts .enc = true)
    (hb : Spec.Sendable C m.base.tstr allow m.base ph uh) (hne : m.recipients ≠ [])
    (hd : All2 (fun r (h : Dict × Dict) => Spec.DirectRecipient r ∧ Spec.Sendable C m.base.tstr allow r.base h.1 h.2) m.recipients hs)
    (h : m.encode C R true true = .ok (out, m1)) (halg : m.base.getAttr Hdr.Algorithm = .ok alg) (hk : m.base.key = some k)
    (hK : rk.symK = k.symK) (hiv : rk.baseIv = k.baseIv) (hp : Spec.Permits rk .sym alg [Op.Decrypt]) :
    ∃ m' p, decode C cls allow out = .ok (.enc m') ∧ m'.base.phdr = ph ∧ m'.base.uhdr = uh ∧
      All2 Spec.DirectReceived hs m'.recipients ∧ m.base.payload = some p ∧
      ∀ r ∈ m'.recipients, ∃ m'', Enc.decrypt C { m' with base := m'.base.withKeyAad rk m.base.aad } r = .ok (p, m'') := by
  obtain ⟨pe, v, m2, tl, hpe, hc, hf, hr2⟩ := enc_encode_inv h
  rcases hc with ⟨_, c, ht, rfl⟩ | ⟨h0, _⟩
  rotate_left
  · simp at h0
  have hcl : ∀ r ∈ m.recipients, r.cls = .directEncryption := fun r hr => by
    obtain ⟨_, _, h1, _⟩ := all2_mem_left hd hr; exact h1.1
  obtain ⟨ht1, ht2⟩ := direct_types hcl hne
  have hct : encEncrypt C b!"Encrypt" m.base = .ok c ∧ m2 = m := by
    simp only [Enc.encrypt, halg, ok_bind, ht1, ht2, if_true, bind_eq_ok] at ht
    obtain ⟨t', h1, h2⟩ := ht
    simp at h2
    obtain ⟨rfl, rfl⟩ := h2
    exact ⟨h1, rfl⟩
  obtain ⟨henc, rfl⟩ := hct
  rcases hr2 with ⟨h0, _⟩ | ⟨_, vs, rs2, he, rfl, hm1⟩
  · exact absurd h0 hne
  obtain ⟨ws, hws, hrec⟩ := rcptsEncode_received (direct_list hd) he
  obtain ⟨rs', hcr, hall⟩ := hrec b!"Enc_Recipient" 0
  obtain ⟨w, hw, hbase⟩ := received_base hb hpe
  have hfo := enc_fromObj_rs (hbase (some c) [.arr ws]) hcr
  have hdec := finish_decode (C := C) (allow := allow) (cls := cls) (k := .enc) (t := 96) rfl hcls
    (.cons sent_bytes (.cons hw (.cons sent_bytes (.cons (sent_arr hws) .nil)))) hf
    (m := .enc { base := recvBase pe ph uh (some c), recipients := rs' })
    (by rw [fromObj, show Val.bytes c = optBytes (some c) from rfl, hfo]; rfl) []
  rw [List.append_nil] at hdec
  have hga := fun {q : Cls} (n1 : q ≠ Hdr.EphemeralKey) (n2 : q ≠ Hdr.StaticKey) =>
    sendable_getAttr hb (b' := (recvBase pe ph uh (some c)).withKeyAad rk m2.base.aad) rfl rfl (c := q) n1 n2
  obtain ⟨p, hpp, hdc⟩ := decrypt_roundtrip L (b' := (recvBase pe ph uh (some c)).withKeyAad rk m2.base.aad) henc halg hk rfl
    (hga (by decide) (by decide)) (hga (by decide) (by decide)) (hga (by decide) (by decide)) hiv
    (sendable_encStructure hb hpe rfl rfl rfl) hK rfl hp
  refine ⟨_, p, hdec, rfl, rfl, hall, hpp, ?_⟩
  intro r hr
  have hcl' : ∀ r ∈ rs', r.cls = .directEncryption := fun r hr => by
    obtain ⟨_, _, h1⟩ := all2_mem_right hall hr; exact h1.1
  obtain ⟨ht1', ht2'⟩ := direct_types hcl' (by rintro rfl; simp at hr)
  refine ⟨⟨(recvBase pe ph uh (some c)).withKeyAad rk m2.base.aad, rs'⟩, ?_⟩
  simp only [Enc.decrypt]
  rw [hga (by decide) (by decide), halg]
  simp only [ok_bind, hasRecipient_mem hr, ht1', ht2', if_true, hdc]
  rfl

/-- C11's hypotheses hold of a message with two recipients. -/
example : ∃ (m : Enc) (hs : List (Dict × Dict)) (ph uh : Dict), m.recipients.length = 2 ∧
    Spec.Sendable toy m.base.tstr false m.base ph uh ∧
    All2 (fun r (h : Dict × Dict) => Spec.DirectRecipient r ∧ Spec.Sendable toy m.base.tstr false r.base h.1 h.2) m.recipients hs ∧
    (m.encode toy Sample.rand true true).isOk = true ∧ m.base.key = some Sample.symKey ∧
    m.base.getAttr Hdr.Algorithm = .ok (algCls 1) ∧ Spec.Permits Sample.symKey .sym (algCls 1) [Op.Decrypt] :=
  ⟨{ Sample.enc with recipients := [Sample.directRcpt 1, Sample.directRcpt 2] },
    [([], (Sample.directRcpt 1).base.uhdr), ([], (Sample.directRcpt 2).base.uhdr)], _, _, rfl, Sample.enc0Sendable,
    .cons (Sample.directOk 1) (.cons (Sample.directOk 2) .nil), by decide +kernel, rfl, rfl, Sample.symPermits _ _⟩

/-! ### C12 and C13 -/

theorem wrap_types {rs : List Rcpt} (h : ∀ r ∈ rs, r.cls = .keyWrap ∨ r.cls = .keyAgreementWithKeyWrap) :
    verifyRecipients rs = .ok (rs.map Rcpt.cls) ∧ (rs.map Rcpt.cls).contains .directEncryption = false ∧
    (rs.map Rcpt.cls).contains .directKeyAgreement = false ∧
    (rs ≠ [] → ((rs.map Rcpt.cls).contains .keyWrap = true ∨ (rs.map Rcpt.cls).contains .keyAgreementWithKeyWrap = true)) := by
  have h1 : (rs.map Rcpt.cls).contains .directEncryption = false := by
    rw [List.contains_eq_any_beq, List.any_eq_false]; intro x hx
    obtain ⟨r, hr, rfl⟩ := List.mem_map.mp hx
    rcases h r hr with e | e <;> rw [e] <;> decide
  have h2 : (rs.map Rcpt.cls).contains .directKeyAgreement = false := by
    rw [List.contains_eq_any_beq, List.any_eq_false]; intro x hx
    obtain ⟨r, hr, rfl⟩ := List.mem_map.mp hx
    rcases h r hr with e | e <;> rw [e] <;> decide
  refine ⟨by simp only [verifyRecipients, h1, h2, Bool.false_eq_true, false_and, if_false], h1, h2, ?_⟩
  intro hne
  cases rs with
  | nil => simp at hne
  | cons r t => rcases h r (by simp) with e | e <;> simp [e]

theorem encMethod_alg {C : Crypto} {ctx : Bytes} {b : Base} {c : Bytes} {alg : Val} (h : encEncrypt C ctx b = .ok c)
    (ha : b.getAttr Hdr.Algorithm = .ok alg) : ∃ f, algFam alg = some f := by
  simp only [encEncrypt, ha, ok_bind] at h
  split at h
  · simp at h
  · simp only [bind_eq_ok] at h
    obtain ⟨n, hn, _, _, a, hae, _⟩ := h
    cases hf : algFam alg with
    | some f => exact ⟨f, rfl⟩
    | none => simp [encMethod, hf] at hae

/-- A recipient that carries a wrapped key, as the receiver sees it: its class and its headers are the sender's (`uh` is the receiver's
reading of the unprotected header), with the generated ephemeral key added at the end if the sender had none of its own. -/
structure Spec.WrapPreserved (r : Rcpt) (uh : Dict) (r' : Rcpt) : Prop where
  cls : r'.cls = r.cls
  flat : r'.recipients = []
  phdr : r'.base.phdr = r.base.phdr
  uhdr : r'.base.uhdr = uh ∨ r.cls = .keyAgreementWithKeyWrap ∧ r.base.key = none ∧
    ∃ store, r'.base.uhdr = uh ++ [(.cls Hdr.EphemeralKey, .key .ec2 store)]

/-- The round trip of a message whose recipients carry the wrapped content key, with the keys the two sides have. -/
theorem keywrap_keys {C : Crypto} (L : C.Laws) {m m1 : Enc} {R : Rand} {out : Bytes} {allow : Bool} {ph uh : Dict}
    {uhs : List Dict} {cls : DecCls} (hcls : cls.accepts .enc = true)
    (hb : Spec.Sendable C m.base.tstr allow m.base ph uh) (hne : m.recipients ≠ [])
    (hrs : All2 (fun r uh => Spec.WrapRecipient r ∧ Spec.Sendable C m.base.tstr allow r.base r.base.phdr uh) m.recipients uhs)
    (h : m.encode C R true true = .ok (out, m1)) :
    ∃ m' p, decode C cls allow out = .ok (.enc m') ∧ m'.base.phdr = ph ∧ m'.base.uhdr = uh ∧
      m'.recipients.length = m.recipients.length ∧
      (∀ (j : Nat) (r r' : Rcpt) (uhj : Dict), m.recipients[j]? = some r → uhs[j]? = some uhj → m'.recipients[j]? = some r' →
        Spec.WrapPreserved r uhj r') ∧ m.base.payload = some p ∧
      ∃ alg kb, m.base.getAttr Hdr.Algorithm = .ok alg ∧ (kb.length = 16 ∨ kb.length = 24 ∨ kb.length = 32) ∧
      m1.base.key = some { kind := .sym, store := symStore alg [Op.Encrypt] kb } ∧
      mkSym (.bytes kb) alg [Op.Encrypt] = .ok { kind := .sym, store := symStore alg [Op.Encrypt] kb } ∧
      ∀ (j : Nat) (r r' : Rcpt) (uhj : Dict) (rk : Key) (la : Dict), m.recipients[j]? = some r → uhs[j]? = some uhj →
        m'.recipients[j]? = some r' → Spec.Unwraps C r uhj rk la →
        ∃ m'' k', Enc.decrypt C { base := { m'.base with aad := m.base.aad },
                                  recipients := m'.recipients.set j (r'.receiver rk la) } (r'.receiver rk la) = .ok (p, m'') ∧
          rcptComputeCek C (r'.receiver rk la) alg = .ok k' ∧ m''.base.key = some k' ∧
          k' = { kind := .sym, store := symStore alg [Op.Decrypt] kb } := by
  obtain ⟨pe, v, m2, tl, hpe, hc, hf, hr2⟩ := enc_encode_inv h
  rcases hc with ⟨_, c, ht, rfl⟩ | ⟨h0, _⟩
  rotate_left
  · simp at h0
  have hcl : ∀ r ∈ m.recipients, r.cls = .keyWrap ∨ r.cls = .keyAgreementWithKeyWrap := fun r hr => by
    obtain ⟨_, _, h1, _⟩ := all2_mem_left hrs hr
    obtain ⟨_, _, _, _, h | h⟩ := h1
    · exact .inl h.1
    · exact .inr h.1
  obtain ⟨ht1, ht2, ht3, ht4⟩ := wrap_types hcl
  have ht4 := ht4 hne
  simp only [Enc.encrypt, ht1, ok_bind, ht2, ht3, ht4, if_true, Bool.false_eq_true, if_false, bind_eq_ok] at ht
  obtain ⟨alg, halg, n, _, ⟨kb, rs1⟩, hloop, k, hk, c', henc, ht⟩ := ht
  simp only [Except.ok.injEq, Prod.mk.injEq] at ht
  obtain ⟨rfl, rfl⟩ := ht
  obtain ⟨rfl, hall1⟩ := wrapLoop_received L hrs hloop
  dsimp only at hr2 hf henc hk
  have hlen1 : rs1.length = m.recipients.length := by
    have e1 := all2_length hall1
    have e2 := all2_length hrs
    rw [e1, List.length_zip, e2]; simp
  rcases hr2 with ⟨h0, _⟩ | ⟨_, vs, rs2, he, rfl, hm1⟩
  · rw [h0] at hlen1
    exact absurd (List.length_eq_zero_iff.mp hlen1.symm) hne
  obtain ⟨ws, hws, hrec⟩ := rcptsEncode_received hall1 he
  obtain ⟨rs', hcr, hall⟩ := hrec b!"Enc_Recipient" 0
  obtain ⟨w, hw, hbase⟩ := received_base hb hpe
  have hfo := enc_fromObj_rs (hbase (some c') [.arr ws]) hcr
  have hdec := finish_decode (C := C) (allow := allow) (cls := cls) (k := .enc) (t := 96) rfl hcls
    (.cons sent_bytes (.cons hw (.cons sent_bytes (.cons (sent_arr hws) .nil)))) hf
    (m := .enc { base := recvBase pe ph uh (some c'), recipients := rs' })
    (by rw [fromObj, show Val.bytes c' = optBytes (some c') from rfl, hfo]; rfl) []
  rw [List.append_nil] at hdec
  have hlen' : rs'.length = m.recipients.length := by
    have e1 := all2_length hall
    have e2 := all2_length hrs
    rw [e1, List.length_zip, e2]; simp
  -- the content key
  obtain ⟨f, hfam⟩ := encMethod_alg henc (show ({ m.base with key := some k } : Base).getAttr Hdr.Algorithm = _ from halg)
  obtain ⟨ca, nn, rfl, hreg, _⟩ := algFam_reg hfam
  have hopE : ∀ o ∈ [Op.Encrypt], ∃ n, (o, n) ∈ registry .op := by
    intro o ho; apply opReg; simp at ho; subst ho; decide
  have hopD : ∀ o ∈ [Op.Decrypt], ∃ n, (o, n) ∈ registry .op := by
    intro o ho; apply opReg; simp at ho; subst ho; decide
  obtain ⟨kb', hkb, hl, rfl⟩ := mkSym_ok hreg hopE hk
  simp only [optBytes, Val.bytes.injEq] at hkb
  -- decryption
  obtain ⟨rk', hrk'⟩ : ∃ rk', rk' = ({ kind := .sym, store := symStore (.cls ca) [Op.Decrypt] kb' } : Key) := ⟨_, rfl⟩
  have hga := fun {q : Cls} (n1 : q ≠ Hdr.EphemeralKey) (n2 : q ≠ Hdr.StaticKey) =>
    sendable_getAttr hb (b' := (recvBase pe ph uh (some c')).withKeyAad rk' m.base.aad) rfl rfl (c := q) n1 n2
  obtain ⟨p, hpp, hdc⟩ := decrypt_roundtrip L (b' := (recvBase pe ph uh (some c')).withKeyAad rk' m.base.aad) henc halg rfl rfl
    (hga (by decide) (by decide)) (hga (by decide) (by decide)) (hga (by decide) (by decide))
    (by rw [hrk', symStore_baseIv, symStore_baseIv])
    (sendable_encStructure (b := { m.base with key := some _ }) ⟨hb.prot, hb.unprot⟩ hpe rfl rfl rfl)
    (by rw [hrk', symStore_symK, symStore_symK]) rfl
    (by rw [hrk']; exact symStore_permits kb' (.inr ⟨Op.Decrypt, by simp, by simp⟩))
  refine ⟨_, p, hdec, rfl, rfl, hlen', ?_, hpp, _, kb', halg, hl, by rw [hm1], mkSym_bytes hreg hopE hl, ?_⟩
  · intro j r r' uhj hj1 hj2 hj3
    obtain ⟨w1, w2, w3, _, w5, _⟩ := all2_get hall
      (show (m.recipients.zip uhs)[j]? = some (r, uhj) by rw [List.getElem?_zip_eq_some]; exact ⟨hj1, hj2⟩) hj3
    exact ⟨w1, w2, w3, w5⟩
  intro j r r' uhj rk la hj1 hj2 hj3 hu
  dsimp only at hj3 ⊢
  have hz : (m.recipients.zip uhs)[j]? = some (r, uhj) := by
    rw [List.getElem?_zip_eq_some]; exact ⟨hj1, hj2⟩
  obtain ⟨w1, w2, w3, w4, _, w5⟩ := all2_get hall hz hj3
  have hmem : r'.receiver rk la ∈ rs'.set j (r'.receiver rk la) := by
    apply List.mem_set
    exact (List.getElem?_eq_some_iff.mp hj3).1
  have hclr : (rs'.set j (r'.receiver rk la)).map Rcpt.cls = m.recipients.map Rcpt.cls := by
    rw [map_set_same (f := Rcpt.cls) (x := r'.receiver rk la) hj3 rfl]
    have h2 : (rs'.map Rcpt.cls) = (m.recipients.zip uhs).map (fun a => a.1.cls) := all2_map hall (fun a b h => h.1)
    have h3 : (m.recipients.zip uhs).map (fun a => a.1.cls) = m.recipients.map Rcpt.cls := by
      rw [show (fun (a : Rcpt × Dict) => a.1.cls) = Rcpt.cls ∘ Prod.fst from rfl, ← List.map_map, List.map_fst_zip]
      have := all2_length hrs; omega
    rw [h2, h3]
  have hcek : rcptComputeCek C (r'.receiver rk la) (.cls ca) = .ok rk' := by
    have hd := w5 rk la hu
    have hcr : (r'.receiver rk la).cls = r.cls := w1
    have : r ∈ m.recipients := List.mem_of_getElem? hj1
    rcases hcl r this with e | e
    all_goals
      rw [e] at hcr
      simp only [rcptComputeCek, hcr, hd, ok_bind]
      rw [hrk', hkb]; exact mkSym_bytes hreg hopD hl
  refine ⟨⟨(recvBase pe ph uh (some c')).withKeyAad rk' m.base.aad, rs'.set j (r'.receiver rk la)⟩, rk', ?_, hcek, rfl, hrk'⟩
  have hgal : ({ recvBase pe ph uh (some c') with aad := m.base.aad } : Base).getAttr Hdr.Algorithm = .ok (.cls ca) := by
    rw [← halg]; exact sendable_getAttr hb rfl rfl (by decide) (by decide)
  have hkw : (List.map Rcpt.cls m.recipients).contains RCls.directKeyAgreement = true ∨
      (List.map Rcpt.cls m.recipients).contains RCls.keyWrap = true ∨
      (List.map Rcpt.cls m.recipients).contains RCls.keyAgreementWithKeyWrap = true := .inr ht4
  simp only [Enc.decrypt]
  rw [hgal]
  simp only [ok_bind, hasRecipient_mem hmem, verifyRecipients_congr hclr, ht1, ht2, hkw, if_true, hcek, Bool.false_eq_true, if_false,
    Bool.true_eq_false]
  rw [show ({ recvBase pe ph uh (some c') with aad := m.base.aad, key := some rk' } : Base) =
    (recvBase pe ph uh (some c')).withKeyAad rk' m.base.aad from rfl, hdc]
  rfl

/-- C12, C13.  `encode()` of a COSE_Encrypt message whose recipients carry the wrapped content key — any mix of
AES key wrap, RSA-OAEP and ECDH with key wrap — decodes to a message with the sender's headers and one recipient
per recipient of the sender with that one's headers, and for every index `j`, a receiver who holds the key of recipient `j` (and sets it
and the external aad) gets the sender's payload from `decrypt(recipient j)`. -/
theorem c12_keywrap_roundtrip {C : Crypto} (L : C.Laws) {m m1 : Enc} {R : Rand} {out : Bytes} {allow : Bool} {ph uh : Dict}
    {uhs : List Dict} {cls : DecCls} (hcls : cls.accepts .enc = true)
    (hb : Spec.Sendable C m.base.tstr allow m.base ph uh) (hne : m.recipients ≠ [])
    (hrs : All2 (fun r uh => Spec.WrapRecipient r ∧ Spec.Sendable C m.base.tstr allow r.base r.base.phdr uh) m.recipients uhs)
    (h : m.encode C R true true = .ok (out, m1)) :
    ∃ m' p, decode C cls allow out = .ok (.enc m') ∧ m'.base.phdr = ph ∧ m'.base.uhdr = uh ∧
      m'.recipients.length = m.recipients.length ∧
      (∀ (j : Nat) (r r' : Rcpt) (uhj : Dict), m.recipients[j]? = some r → uhs[j]? = some uhj → m'.recipients[j]? = some r' →
        Spec.WrapPreserved r uhj r') ∧ m.base.payload = some p ∧
      ∀ (j : Nat) (r r' : Rcpt) (uhj : Dict) (rk : Key) (la : Dict), m.recipients[j]? = some r → uhs[j]? = some uhj →
        m'.recipients[j]? = some r' → Spec.Unwraps C r uhj rk la →
        ∃ m'', Enc.decrypt C { base := { m'.base with aad := m.base.aad },
                               recipients := m'.recipients.set j (r'.receiver rk la) } (r'.receiver rk la) = .ok (p, m'') := by
  obtain ⟨m', p, h1, h2, h3, h4, h0, h5, _, _, _, _, _, _, h6⟩ := keywrap_keys L hcls hb hne hrs h
  refine ⟨m', p, h1, h2, h3, h4, h0, h5, fun j r r' uhj rk la a1 a2 a3 a4 => ?_⟩
  obtain ⟨m'', _, h7, _⟩ := h6 j r r' uhj rk la a1 a2 a3 a4
  exact ⟨m'', h7⟩

/-- C13.  The case of ECDH-ES with an automatically generated ephemeral key: the receiver needs the private key of
the static key the sender was given. -/
theorem c13_ecdh_es_kw_roundtrip {C : Crypto} (L : C.Laws) {m m1 : Enc} {R : Rand} {out : Bytes} {allow : Bool} {ph uh : Dict}
    {uhs : List Dict} {cls : DecCls} (hcls : cls.accepts .enc = true)
    (hb : Spec.Sendable C m.base.tstr allow m.base ph uh) (hne : m.recipients ≠ [])
    (hrs : All2 (fun r uh => Spec.WrapRecipient r ∧ Spec.Sendable C m.base.tstr allow r.base r.base.phdr uh) m.recipients uhs)
    (h : m.encode C R true true = .ok (out, m1)) :
    ∃ m' p, decode C cls allow out = .ok (.enc m') ∧ m'.recipients.length = m.recipients.length ∧ m.base.payload = some p ∧
      ∀ (j : Nat) (r r' : Rcpt) (uhj : Dict) (i : Int) (crv : Cls) (pk rk : Key) (la : Dict), m.recipients[j]? = some r →
        uhs[j]? = some uhj → m'.recipients[j]? = some r' →
        r.base.getAttr Hdr.Algorithm = .ok (algCls i) → i ∈ [-29, -30, -31] → r.base.key = none →
        dget r.base.localAttrs (.cls Hdr.StaticKey) = some pk.toVal → crvKind crv = some KtyEC2 →
        Spec.PublicOf C crv rk pk → Spec.SameSupp la r.base.localAttrs →
        ∃ m'', Enc.decrypt C { base := { m'.base with aad := m.base.aad },
                               recipients := m'.recipients.set j (r'.receiver rk la) } (r'.receiver rk la) = .ok (p, m'') := by
  obtain ⟨m', p, h1, _, _, h2, _, h3, h4⟩ := c12_keywrap_roundtrip L hcls hb hne hrs h
  exact ⟨m', p, h1, h2, h3, fun j r r' uhj i crv pk rk la a1 a2 a3 a4 a5 a6 a7 a8 a9 a10 =>
    h4 j r r' uhj rk la a1 a2 a3 (.ecdhGenerated a4 a5 a6 a7 a8 a9 a10)⟩

/-- C13.  The case of a sender key whose public part is in the header: ECDH-SS, or ECDH-ES with a key chosen by
the sender. -/
theorem c13_ecdh_ss_kw_roundtrip {C : Crypto} (L : C.Laws) {m m1 : Enc} {R : Rand} {out : Bytes} {allow : Bool} {ph uh : Dict}
    {uhs : List Dict} {cls : DecCls} (hcls : cls.accepts .enc = true)
    (hb : Spec.Sendable C m.base.tstr allow m.base ph uh) (hne : m.recipients ≠ [])
    (hrs : All2 (fun r uh => Spec.WrapRecipient r ∧ Spec.Sendable C m.base.tstr allow r.base r.base.phdr uh) m.recipients uhs)
    (h : m.encode C R true true = .ok (out, m1)) :
    ∃ m' p, decode C cls allow out = .ok (.enc m') ∧ m'.recipients.length = m.recipients.length ∧ m.base.payload = some p ∧
      ∀ (j : Nat) (r r' : Rcpt) (uhj : Dict) (i : Int) (crv : Cls) (sk pk hk rk : Key) (la : Dict), m.recipients[j]? = some r →
        uhs[j]? = some uhj → m'.recipients[j]? = some r' →
        r.base.getAttr Hdr.Algorithm = .ok (algCls i) → i ∈ [-29, -30, -31, -32, -33, -34] → r.base.key = some sk →
        dget r.base.localAttrs (.cls Hdr.StaticKey) = some pk.toVal →
        (Spec.received r.base.phdr uhj).getAttr (if i ∈ [-29, -30, -31] then Hdr.EphemeralKey else Hdr.StaticKey) = .ok hk.toVal →
        Spec.PublicOf C crv sk hk → Spec.PublicOf C crv rk pk → Spec.SameSupp la r.base.localAttrs →
        ∃ m'', Enc.decrypt C { base := { m'.base with aad := m.base.aad },
                               recipients := m'.recipients.set j (r'.receiver rk la) } (r'.receiver rk la) = .ok (p, m'') := by
  obtain ⟨m', p, h1, _, _, h2, _, h3, h4⟩ := c12_keywrap_roundtrip L hcls hb hne hrs h
  exact ⟨m', p, h1, h2, h3, fun j r r' uhj i crv sk pk hk rk la a1 a2 a3 a4 a5 a6 a7 a8 a9 a10 a11 =>
    h4 j r r' uhj rk la a1 a2 a3 (.ecdh a4 a5 a6 a7 a8 a9 a10 a11)⟩

/-! #### A message with an AES-KW, an RSA-OAEP, an ECDH-ES and an ECDH-SS recipient -/

namespace Sample
/-- Private RSA key (with small numbers). -/
def rsaKey : Key :=
  { kind := .rsa
    store := [(.cls KpKty, .cls KtyRSA), (.cls RsaN, .bytes [15]), (.cls RsaE, .bytes [3]), (.cls RsaD, .bytes [3]),
      (.cls RsaP, .bytes [5]), (.cls RsaQ, .bytes [3]), (.cls RsaDP, .bytes [3]), (.cls RsaDQ, .bytes [1]), (.cls RsaQInv, .bytes [2])] }
/-- The receiver's static key pair. -/
def rcvPriv : Key :=
  { kind := .ec2
    store := [(.cls KpKty, .cls KtyEC2), (.cls Ec2Crv, .cls P256), (.cls Ec2X, .bytes (beBytes 32 9)),
      (.cls Ec2Y, .bytes (beBytes 32 10)), (.cls Ec2D, .bytes (beBytes 32 9))] }
def rcvPub : Key := { kind := .ec2, store := ec2Pub P256 (beBytes 32 9) (beBytes 32 10) }
/-- The sender's static key pair. -/
def sndPub : Key := { kind := .ec2, store := ec2Pub P256 (beBytes 32 11) (beBytes 32 12) }
def sndPriv : Key := { sndPub with store := sndPub.store ++ [(.cls Ec2D, .bytes (beBytes 32 11))] }

def oaepRcpt (oid : Nat) : Rcpt :=
  .mk .keyWrap { uhdr := [(.cls Hdr.Algorithm, algCls (-41))], payload := some [], key := some rsaKey } [] oid []
def esRcpt (oid : Nat) : Rcpt :=
  .mk .keyAgreementWithKeyWrap
    { phdr := [(.cls Hdr.Algorithm, algCls (-29))], uhdr := [(.cls Hdr.PartyUID, .bytes b!"lighting-client")], payload := some [],
      localAttrs := [(.cls Hdr.StaticKey, rcvPub.toVal)] } [] oid []
def ssRcpt (oid : Nat) : Rcpt :=
  .mk .keyAgreementWithKeyWrap
    { phdr := [(.cls Hdr.Algorithm, algCls (-34))],
      uhdr := [(.cls Hdr.StaticKey, .map sndPub.store)],
      payload := some [], key := some sndPriv, localAttrs := [(.cls Hdr.StaticKey, rcvPub.toVal), (.cls Hdr.SuppPubOther, .bytes b!"info")] } [] oid []
def encMix : Enc := { base := { enc0.base with key := none }, recipients := [kwRcpt 1, oaepRcpt 2, esRcpt 3, ssRcpt 4] }
/-- The unprotected headers as received. -/
def encMixUhs : List Dict :=
  [(kwRcpt 1).base.uhdr, (oaepRcpt 2).base.uhdr, (esRcpt 3).base.uhdr, [(.cls Hdr.StaticKey, sndPub.toVal)]]

theorem rcvPublic : Spec.PublicOf toy P256 rcvPriv rcvPub :=
  ⟨beBytes 32 9, beBytes 32 9, beBytes 32 10, rfl, rfl, rfl, rfl, rfl, by decide, by decide, by decide, by decide +kernel⟩
theorem sndPublic : Spec.PublicOf toy P256 sndPriv sndPub :=
  ⟨beBytes 32 11, beBytes 32 11, beBytes 32 12, rfl, rfl, rfl, rfl, rfl, by decide, by decide, by decide, by decide +kernel⟩

theorem kwOk {tstr allow : Bool} (oid : Nat) : Spec.WrapRecipient (kwRcpt oid) ∧
    Spec.Sendable toy tstr allow (kwRcpt oid).base (kwRcpt oid).base.phdr (kwRcpt oid).base.uhdr := by
  refine ⟨⟨rfl, rfl, -3, rfl, .inl ⟨rfl, by decide⟩⟩, .inl ⟨rfl, by simp [KeysNodup, kwRcpt, Rcpt.base], .nil⟩,
    by simp [KeysNodup, kwRcpt, Rcpt.base, keq, norm, Hdr.Algorithm, Hdr.KID], ?_⟩
  exact .cons (.alg (.one (n := b!"A128KW") (by decide +kernel)))
    (.cons (.plain (n := b!"KID") (by decide +kernel) (by decide) (by decide) (by decide) trivial (by simp [Spec.ValidValue])) .nil)
theorem oaepOk {tstr allow : Bool} (oid : Nat) : Spec.WrapRecipient (oaepRcpt oid) ∧
    Spec.Sendable toy tstr allow (oaepRcpt oid).base (oaepRcpt oid).base.phdr (oaepRcpt oid).base.uhdr := by
  refine ⟨⟨rfl, rfl, -41, rfl, .inl ⟨rfl, by decide⟩⟩, .inl ⟨rfl, by simp [KeysNodup, oaepRcpt, Rcpt.base], .nil⟩,
    by simp [KeysNodup, oaepRcpt, Rcpt.base], ?_⟩
  exact .cons (.alg (.one (n := b!"RSAES_OAEP_SHA_256") (by decide +kernel))) .nil
theorem esOk {tstr allow : Bool} (oid : Nat) : Spec.WrapRecipient (esRcpt oid) ∧
    Spec.Sendable toy tstr allow (esRcpt oid).base (esRcpt oid).base.phdr (esRcpt oid).base.uhdr := by
  refine ⟨⟨rfl, rfl, -29, rfl, .inr ⟨rfl, by decide⟩⟩, .inl ⟨rfl, by simp [KeysNodup, esRcpt, Rcpt.base], ?_⟩,
    by simp [KeysNodup, esRcpt, Rcpt.base], ?_⟩
  · exact .cons (.alg (.one (n := b!"ECDH_ES_A128KW") (by decide +kernel))) .nil
  · exact .cons (.plain (n := b!"PARTY_U_ID") (by decide +kernel) (by decide) (by decide) (by decide) trivial (by simp [Spec.ValidValue])) .nil
theorem ssOk {tstr allow : Bool} (oid : Nat) : Spec.WrapRecipient (ssRcpt oid) ∧
    Spec.Sendable toy tstr allow (ssRcpt oid).base (ssRcpt oid).base.phdr [(.cls Hdr.StaticKey, sndPub.toVal)] := by
  refine ⟨⟨rfl, rfl, -34, rfl, .inr ⟨rfl, by decide⟩⟩, .inl ⟨rfl, by simp [KeysNodup, ssRcpt, Rcpt.base], ?_⟩,
    by simp [KeysNodup, ssRcpt, Rcpt.base], ?_⟩
  · exact .cons (.alg (.one (n := b!"ECDH_SS_A256KW") (by decide +kernel))) .nil
  · exact .cons (.key (.inr rfl) (ec2Pub_subst (by decide)) (by simp [PyOK, PyOKP, PyOKQ, KeysNodup, keq, norm])
      (ec2Pub_received toy (by decide) (by decide) (by decide))) .nil
end Sample

/-- C12's and C13's hypotheses hold of a message with four different recipients … -/
example : Spec.Sendable toy Sample.encMix.base.tstr false Sample.encMix.base Sample.encMix.base.phdr Sample.encMix.base.uhdr ∧
    All2 (fun r uh => Spec.WrapRecipient r ∧ Spec.Sendable toy Sample.encMix.base.tstr false r.base r.base.phdr uh)
      Sample.encMix.recipients Sample.encMixUhs ∧
    (Sample.encMix.encode toy Sample.rand true true).isOk = true :=
  ⟨⟨(Sample.enc0Sendable (tstr := false)).prot, Sample.enc0Sendable.unprot⟩,
    .cons (Sample.kwOk 1) (.cons (Sample.oaepOk 2) (.cons (Sample.esOk 3) (.cons (Sample.ssOk 4) .nil))), by decide +kernel⟩

/-- … and each of its recipients has a key that unwraps. -/
example : Spec.Unwraps toy (Sample.kwRcpt 1) (Sample.kwRcpt 1).base.uhdr Sample.symKey [] ∧
    Spec.Unwraps toy (Sample.oaepRcpt 2) (Sample.oaepRcpt 2).base.uhdr Sample.rsaKey [] ∧
    Spec.Unwraps toy (Sample.esRcpt 3) (Sample.esRcpt 3).base.uhdr Sample.rcvPriv [] ∧
    Spec.Unwraps toy (Sample.ssRcpt 4) [(.cls Hdr.StaticKey, Sample.sndPub.toVal)] Sample.rcvPriv [(.cls Hdr.SuppPubOther, .bytes b!"info")] :=
  ⟨.aesKw (i := -3) rfl (by decide) rfl rfl,
   .oaep (i := -41) (k := Sample.rsaKey) (nums := ⟨15, 3, 3, 5, 3, 3, 1, 2⟩) rfl (by decide) rfl
      ⟨rfl, .inl rfl, .inl rfl⟩ (by decide +kernel) rfl rfl,
   .ecdhGenerated (i := -29) (crv := P256) (pk := Sample.rcvPub) rfl (by decide) rfl rfl (by decide) Sample.rcvPublic ⟨rfl, rfl⟩,
   .ecdh (i := -34) (crv := P256) (sk := Sample.sndPriv) (pk := Sample.rcvPub) (hk := Sample.sndPub) rfl (by decide) rfl rfl
      rfl Sample.sndPublic Sample.rcvPublic ⟨rfl, rfl⟩⟩

/-! ### C14 -/

/-- A single recipient of the direct key agreement class with sender key `sk`: its headers arrive as `uh`, with
the public key `hk`; the receiver's key pair is `rk`, `pk`. -/
structure Spec.DirectAgreement (C : Crypto) (r : Rcpt) (uh : Dict) (rk : Key) (la : Dict) : Prop where
  cls : r.cls = .directKeyAgreement
  nested : r.recipients = []
  agree : ∃ (i : Int) (crv : Cls) (sk pk hk : Key), r.base.getAttr Hdr.Algorithm = .ok (algCls i) ∧ i ∈ [-25, -26, -27, -28] ∧
    r.base.key = some sk ∧ dget r.base.localAttrs (.cls Hdr.StaticKey) = some pk.toVal ∧
    (Spec.received r.base.phdr uh).getAttr (if i ∈ [-25, -26] then Hdr.EphemeralKey else Hdr.StaticKey) = .ok hk.toVal ∧
    Spec.PublicOf C crv sk hk ∧ Spec.PublicOf C crv rk pk ∧
    Spec.Permits hk .ec2 (algCls i) [Op.DeriveKey, Op.DeriveBits] ∧ Spec.Permits rk .ec2 (algCls i) [Op.DeriveKey, Op.DeriveBits]
  supp : Spec.SameSupp la r.base.localAttrs

theorem permits_toVal {k : Key} {kd : Kind} {alg : Val} {use : List Cls} (h : Spec.Permits k kd alg use) :
    Spec.Permits { kind := k.kind, store := k.store } kd alg use := ⟨h.1, h.2, h.3⟩

theorem dka_received {C : Crypto} (L : C.Laws) {R : Rand} {tstr allow : Bool} {r : Rcpt} {uh : Dict} {rk : Key} {la : Dict}
    (hr : Spec.DirectAgreement C r uh rk la) (hs : Spec.Sendable C tstr allow r.base r.base.phdr uh) {p : List Nat} {v : Val} {r2 : Rcpt}
    (h : rcptEncode C R p r = .ok (v, r2)) :
    ∃ w, Sent (.base tstr) v w ∧ ∀ ctx oid, ∃ r', createRecipient C allow ctx oid w = .ok r' ∧ r'.cls = .directKeyAgreement ∧
      r'.base.phdr = r.base.phdr ∧ r'.base.uhdr = uh ∧
      ∀ target k, dkaComputeCek C r.base target true = .ok k →
        rcptComputeCek C (r'.receiver rk la) target = .ok k := by
  obtain ⟨cls, b, rctx, roid, rs⟩ := r
  obtain ⟨h1, h2, ⟨i, crv, sk, pk, hk, ha, hi, hsk, hst, hhk, hp1, hp2, hv1, hv2⟩, hsup⟩ := hr
  simp only [Rcpt.cls, Rcpt.recipients, Rcpt.base] at h1 h2 hs ha hsk hst hhk hsup ⊢
  subst h1 h2
  obtain ⟨head, b', hh, rfl, rfl⟩ := rcptEncode_flat rfl h
  have hc : rcptClass (algCls i) = .ok .directKeyAgreement := by
    simp at hi; rcases hi with rfl | rfl | rfl | rfl <;> rfl
  have hstD : getD b.localAttrs Hdr.StaticKey .none = pk.toVal := by rw [getD, hst]; rfl
  have hes : ∃ es, inSet (algCls i) ecdhEsHkdf = .ok es ∧ (es = true ↔ i ∈ [-25, -26]) ∧
      inSet (algCls i) ecdhSsHkdf = .ok (!es) ∧ inSet (algCls i) (ecdhEsHkdf ++ ecdhSsHkdf) = .ok true := by
    simp at hi; rcases hi with rfl | rfl | rfl | rfl
    · exact ⟨true, rfl, by decide, rfl, rfl⟩
    · exact ⟨true, rfl, by decide, rfl, rfl⟩
    · exact ⟨false, rfl, by decide, rfl, rfl⟩
    · exact ⟨false, rfl, by decide, rfl, rfl⟩
  obtain ⟨es, he1, he2, he3, he4⟩ := hes
  have hhead : ∃ pe, b.phdrEncoded = .ok pe ∧ head = [.bytes pe, .map b.uhdr, .bytes []] := by
    simp only [rcptHead, ha, ok_bind, hstD, he1, hsk] at hh
    rw [if_neg (by simp), if_neg (by simp [Key.toVal])] at hh
    simp only [List.length_nil, Nat.not_lt_zero, if_false, gt_iff_lt, bind_eq_ok] at hh
    obtain ⟨e, _, m, _, hh⟩ := hh
    split at hh
    · simp at hh
    · obtain ⟨pe, hpe, hh⟩ := bind_eq_ok.mp hh
      simp at hh
      exact ⟨pe, hpe, hh.1.symm⟩
  obtain ⟨pe, hpe, rfl⟩ := hhead
  obtain ⟨w, hw, hrec⟩ := recv_rcpt hs hpe ha hc
  refine ⟨.arr [.bytes pe, .map w, .bytes []], sent_arr (.cons sent_bytes (.cons hw (.cons sent_bytes .nil))), ?_⟩
  intro ctx oid
  obtain ⟨e1, e2, e3⟩ := hrec ctx oid []
  refine ⟨.mk .directKeyAgreement (recvBase pe b.phdr uh (some [])) ctx oid [], ?_, rfl, rfl, rfl, ?_⟩
  · rw [e1]
    simp only [rcptFromObj, e2, ok_bind, e3, he1]
    cases es with
    | false => simp
    | true =>
      have : (recvBase pe b.phdr uh (some [])).getAttr Hdr.EphemeralKey = .ok hk.toVal := by
        rw [if_pos (he2.mp rfl)] at hhk; exact hhk
      simp [this, Key.toVal]
  · intro target k hk0
    simp only [dkaComputeCek, ha, ok_bind, he4, he3, hstD, if_true, Bool.true_eq_false, if_false, hsk] at hk0
    rw [if_neg (by simp [Key.toVal])] at hk0
    simp only [asKey_toVal, bind_eq_ok, Except.ok.injEq, exists_eq_left'] at hk0
    obtain ⟨_, _, _, _, kek, hkek, hmk⟩ := hk0
    have hag : b.getAttr Hdr.Algorithm = (recvBase pe b.phdr uh (some [])).getAttr Hdr.Algorithm := by rw [ha, e3]
    obtain ⟨B, hB⟩ : ∃ B : Base, B = { recvBase pe b.phdr uh (some []) with key := some rk, localAttrs := la } := ⟨_, rfl⟩
    have hctx : kdfContext B target = kdfContext b target := by
      rw [hB]
      refine kdfContext_congr rfl ?_ hsup.1 hsup.2
      intro q n1 n2
      exact hdrSend_get hs.unprot n1 n2
    have hkek' := agreeKek_agree L (asKey_toVal pk) (asKey_toVal hk) (publicOf_toVal hp2) (publicOf_toVal hp1) hctx hkek
    have hBk : B.key = some rk := by rw [hB]
    have hga : ∀ q, B.getAttr q = (Spec.received b.phdr uh).getAttr q := fun _ => by rw [hB]; rfl
    have halg' : (Spec.received b.phdr uh).getAttr Hdr.Algorithm = .ok (algCls i) := e3
    have hv1' : ({ kind := hk.kind, store := hk.store } : Key).verify .ec2 (algCls i) [Op.DeriveKey, Op.DeriveBits] = .ok () :=
      permits_verify (permits_toVal hv1)
    have hv2' := permits_verify hv2
    show dkaComputeCek C { recvBase pe b.phdr uh (some []) with key := some rk, localAttrs := la } target false = _
    rw [← hB]
    simp only [dkaComputeCek, hga, halg', ok_bind, he4, he3, Bool.true_eq_false, if_false, Bool.false_eq_true]
    cases es with
    | true =>
      rw [if_pos (he2.mp rfl)] at hhk
      simp only [Bool.not_true, Bool.false_eq_true, if_false, hhk, ok_bind]
      rw [if_neg (by simp [Key.toVal])]
      simp only [asKey_toVal, ok_bind, hv1', hv2', hBk, hkek', hmk]
    | false =>
      rw [if_neg (by simp [← he2])] at hhk
      simp only [Bool.not_false, if_true, hhk, ok_bind]
      rw [if_neg (by simp [Key.toVal])]
      simp only [asKey_toVal, ok_bind, hv1', hv2', hBk, hkek', hmk]

theorem dka_list {C : Crypto} {R : Rand} {r : Rcpt} {vs : List Val} {rs2 : List Rcpt}
    (h : rcptsEncode C R [] 0 [r] = .ok (vs, rs2)) : ∃ v r2, rcptEncode C R [0] r = .ok (v, r2) ∧ vs = [v] := by
  simp only [rcptsEncode, bind_eq_ok, Except.ok.injEq, exists_eq_left'] at h
  obtain ⟨⟨v, r2⟩, h1, h2⟩ := h
  simp at h2
  exact ⟨v, r2, h1, h2.1.symm⟩

theorem dka_types {r : Rcpt} (h : r.cls = .directKeyAgreement) : verifyRecipients [r] = .ok [.directKeyAgreement] := by
  simp [verifyRecipients, h]

/-- The key a direct key agreement gives. -/
theorem dka_mkSym {C : Crypto} {b : Base} {target : Val} {enc : Bool} {k : Key} (h : dkaComputeCek C b target enc = .ok k) :
    ∃ v, mkSym v target [] = .ok k := by
  simp only [dkaComputeCek, bind_eq_ok] at h
  obtain ⟨alg, _, m, _, h⟩ := h
  split at h
  · simp at h
  · obtain ⟨ss, _, h⟩ := bind_eq_ok.mp h
    have aux : ∀ peer : Val, (if peer = .none then .error .coseException
        else do
          let pk ← asKey peer
          pk.verify .ec2 alg [Op.DeriveKey, Op.DeriveBits]
          match b.key with
          | none => .error .attributeError
          | some k => do
            k.verify .ec2 alg [Op.DeriveKey, Op.DeriveBits]
            let kek ← agreeKek C b target peer (some k) alg
            mkSym (.bytes kek) target [] : Res Key) = .ok k → ∃ v, mkSym v target [] = .ok k := by
      intro peer h
      split at h
      · simp at h
      · obtain ⟨pk, _, h⟩ := bind_eq_ok.mp h
        obtain ⟨_, _, h⟩ := bind_eq_ok.mp h
        split at h
        · simp at h
        · simp only [bind_eq_ok] at h
          obtain ⟨_, _, kek, _, h⟩ := h
          exact ⟨_, h⟩
    split at h
    · exact aux _ h
    · split at h
      · obtain ⟨p, _, h⟩ := bind_eq_ok.mp h; exact aux _ h
      · obtain ⟨p, _, h⟩ := bind_eq_ok.mp h; exact aux _ h

/-- The round trip of a message with an ECDH-ES/SS + HKDF recipient, with the key the two sides have. -/
theorem agreement_keys {C : Crypto} (L : C.Laws) {m m1 : Enc} {R : Rand} {out : Bytes} {allow : Bool}
    {ph uh uhr : Dict} {r : Rcpt} {rk : Key} {la : Dict} {cls : DecCls} (hcls : cls.accepts .enc = true)
    (hb : Spec.Sendable C m.base.tstr allow m.base ph uh) (hrs : m.recipients = [r])
    (hs : Spec.Sendable C m.base.tstr allow r.base r.base.phdr uhr) (hr : Spec.DirectAgreement C r uhr rk la)
    (h : m.encode C R true true = .ok (out, m1)) :
    ∃ m' r' p, decode C cls allow out = .ok (.enc m') ∧ m'.base.phdr = ph ∧ m'.base.uhdr = uh ∧ m'.recipients = [r'] ∧
      r'.base.phdr = r.base.phdr ∧ r'.base.uhdr = uhr ∧ m.base.payload = some p ∧
      ∃ m'' alg k, m.base.getAttr Hdr.Algorithm = .ok alg ∧ m1.base.key = some k ∧ dkaComputeCek C r.base alg true = .ok k ∧
      Enc.decrypt C { base := { m'.base with aad := m.base.aad }, recipients := [r'.receiver rk la] }
        (r'.receiver rk la) = .ok (p, m'') ∧
      rcptComputeCek C (r'.receiver rk la) alg = .ok k ∧ m''.base.key = some k := by
  obtain ⟨pe, v, m2, tl, hpe, hc, hf, hr2⟩ := enc_encode_inv h
  rcases hc with ⟨_, c, ht, rfl⟩ | ⟨h0, _⟩
  rotate_left
  · simp at h0
  simp only [Enc.encrypt, hrs, dka_types hr.cls, ok_bind, bind_eq_ok] at ht
  obtain ⟨alg, halg, ht⟩ := ht
  rw [if_neg (by decide), if_pos (by decide)] at ht
  simp only [bind_eq_ok] at ht
  obtain ⟨k, hk, c', henc, ht⟩ := ht
  simp only [Except.ok.injEq, Prod.mk.injEq] at ht
  obtain ⟨rfl, rfl⟩ := ht
  dsimp only at hr2 hf henc hk
  rcases hr2 with ⟨h0, _⟩ | ⟨_, vs, rs2, he, rfl, hm1⟩
  · simp at h0
  obtain ⟨v, r2, he1, rfl⟩ := dka_list he
  obtain ⟨w1, hw1, hrec⟩ := dka_received L hr hs he1
  obtain ⟨r', hcr, hcl, hph, huh, hcek⟩ := hrec b!"Enc_Recipient" 0
  have hcek := hcek alg k hk
  obtain ⟨w, hw, hbase⟩ := received_base hb hpe
  have hfo := enc_fromObj_rs (hbase (some c') [.arr [w1]]) (rs := [r']) (by simp only [createRecipients, hcr, ok_bind])
  have hdec := finish_decode (C := C) (allow := allow) (cls := cls) (k := .enc) (t := 96) rfl hcls
    (.cons sent_bytes (.cons hw (.cons sent_bytes (.cons (sent_arr (.cons hw1 .nil)) .nil)))) hf
    (m := .enc { base := recvBase pe ph uh (some c'), recipients := [r'] })
    (by rw [fromObj, show Val.bytes c' = optBytes (some c') from rfl, hfo]; rfl) []
  rw [List.append_nil] at hdec
  obtain ⟨f, hfam⟩ := encMethod_alg henc (show ({ m.base with key := some k } : Base).getAttr Hdr.Algorithm = _ from halg)
  obtain ⟨ca, nn, rfl, hreg, _⟩ := algFam_reg hfam
  obtain ⟨v', hv'⟩ := dka_mkSym hk
  obtain ⟨kb, _, hl, rfl⟩ := mkSym_ok hreg (by simp) hv'
  obtain ⟨kk, hkk⟩ : ∃ kk, kk = ({ kind := .sym, store := symStore (.cls ca) [] kb } : Key) := ⟨_, rfl⟩
  rw [← hkk] at henc hcek hk
  have hcekR : rcptComputeCek C (r'.receiver rk la) (.cls ca) = .ok kk := hcek
  have hga := fun {q : Cls} (n1 : q ≠ Hdr.EphemeralKey) (n2 : q ≠ Hdr.StaticKey) =>
    sendable_getAttr hb (b' := (recvBase pe ph uh (some c')).withKeyAad kk m.base.aad) rfl rfl (c := q) n1 n2
  obtain ⟨p, hpp, hdc⟩ := decrypt_roundtrip L (b' := (recvBase pe ph uh (some c')).withKeyAad kk m.base.aad) henc halg rfl rfl
    (hga (by decide) (by decide)) (hga (by decide) (by decide)) (hga (by decide) (by decide)) rfl
    (sendable_encStructure (b := { m.base with key := some kk }) ⟨hb.prot, hb.unprot⟩ hpe rfl rfl rfl) rfl rfl
    (by rw [hkk]; exact symStore_permits kb (.inl rfl))
  refine ⟨_, r', p, hdec, rfl, rfl, rfl, hph, huh, hpp,
    ⟨(recvBase pe ph uh (some c')).withKeyAad kk m.base.aad, [r'.receiver rk la]⟩, _, kk, halg, by rw [hm1, hkk],
    hk, ?_, hcekR, rfl⟩
  have hgal : ({ recvBase pe ph uh (some c') with aad := m.base.aad } : Base).getAttr Hdr.Algorithm = .ok (.cls ca) := by
    rw [← halg]; exact sendable_getAttr hb rfl rfl (by decide) (by decide)
  simp only [Enc.decrypt]
  rw [hgal]
  simp only [ok_bind, hasRecipient_mem (List.mem_singleton.mpr rfl), dka_types (r := r'.receiver rk la) hcl, hcek, Bool.true_eq_false, if_false]
  rw [if_neg (by decide), if_pos (by decide)]
  rw [show ({ recvBase pe ph uh (some c') with aad := m.base.aad, key := some kk } : Base) =
    (recvBase pe ph uh (some c')).withKeyAad kk m.base.aad from rfl, hdc]
  rfl

/-- C14.  `encode()` of a COSE_Encrypt message with an ECDH-ES/SS + HKDF recipient decodes to a message with the
sender's headers and one recipient; a receiver holding the private key of the static key the sender was given
gets the sender's payload from `decrypt(recipient)`. -/
theorem c14_direct_agreement_roundtrip {C : Crypto} (L : C.Laws) {m m1 : Enc} {R : Rand} {out : Bytes} {allow : Bool}
    {ph uh uhr : Dict} {r : Rcpt} {rk : Key} {la : Dict} {cls : DecCls} (hcls : cls.accepts .enc = true)
    (hb : Spec.Sendable C m.base.tstr allow m.base ph uh) (hrs : m.recipients = [r])
    (hs : Spec.Sendable C m.base.tstr allow r.base r.base.phdr uhr) (hr : Spec.DirectAgreement C r uhr rk la)
    (h : m.encode C R true true = .ok (out, m1)) :
    ∃ m' r' p, decode C cls allow out = .ok (.enc m') ∧ m'.base.phdr = ph ∧ m'.base.uhdr = uh ∧ m'.recipients = [r'] ∧
      r'.base.phdr = r.base.phdr ∧ r'.base.uhdr = uhr ∧ m.base.payload = some p ∧
      ∃ m'', Enc.decrypt C { base := { m'.base with aad := m.base.aad }, recipients := [r'.receiver rk la] }
        (r'.receiver rk la) = .ok (p, m'') := by
  obtain ⟨m', r', p, h1, h2, h3, h4, h5, h6, h7, m'', _, _, _, _, _, h8, _⟩ := agreement_keys L hcls hb hrs hs hr h
  exact ⟨m', r', p, h1, h2, h3, h4, h5, h6, h7, m'', h8⟩

/-- The round trip of a COSE_Mac message with an ECDH-ES/SS + HKDF recipient, with the key the two sides have. -/
theorem mac_agreement_keys {C : Crypto} (L : C.Laws) {m m1 : Mac} {R : Rand} {out : Bytes} {allow : Bool}
    {ph uh uhr : Dict} {r : Rcpt} {rk : Key} {la : Dict} {cls : DecCls} {alg : Val} (hcls : cls.accepts .mac = true)
    (hb : Spec.Sendable C m.base.tstr allow m.base ph uh) (hrs : m.recipients = some [r])
    (hs : Spec.Sendable C m.base.tstr allow r.base r.base.phdr uhr) (hr : Spec.DirectAgreement C r uhr rk la)
    (halg : m.base.getAttr Hdr.Algorithm = .ok alg) (h : m.encode C R true true = .ok (out, m1)) :
    ∃ m' r' k, decode C cls allow out = .ok (.mac m') ∧ m'.base.phdr = ph ∧ m'.base.uhdr = uh ∧
      m'.base.payload = m.base.payload ∧ m'.recipients = some [r'] ∧
      r'.base.phdr = r.base.phdr ∧ r'.base.uhdr = uhr ∧
      m1.base.key = some k ∧ dkaComputeCek C r.base alg true = .ok k ∧
      rcptComputeCek C (r'.receiver rk la) alg = .ok k ∧
      Mac.verifyTag C { m' with base := m'.base.withKeyAad k m.base.aad } = .ok true := by
  obtain ⟨pe, m2, tl0, tl, rs1, hpe, hc, hf, hr1, hr2⟩ := mac_encode_inv h
  rcases hc with ⟨_, t, ht, rfl⟩ | ⟨h0, _⟩
  rotate_left
  · simp at h0
  simp only [Mac.computeTag, hrs, dka_types hr.cls, ok_bind, halg] at ht
  rw [if_neg (by decide), if_pos (by decide)] at ht
  simp only [bind_eq_ok] at ht
  obtain ⟨k, hk, t', htag, ht⟩ := ht
  simp only [Except.ok.injEq, Prod.mk.injEq] at ht
  obtain ⟨rfl, rfl⟩ := ht
  dsimp only at hr1 hr2 hf htag hk
  simp only [Option.some.injEq] at hr1
  subst hr1
  rcases hr2 with ⟨h0, _⟩ | ⟨_, vs, rs2, he, rfl, hm1⟩
  · simp at h0
  obtain ⟨v, r2, he1, rfl⟩ := dka_list he
  obtain ⟨w1, hw1, hrec⟩ := dka_received L hr hs he1
  obtain ⟨r', hcr, hcl, hph, huh, hcek⟩ := hrec b!"Mac_Recipient" 0
  have hcek := hcek alg k hk
  obtain ⟨w, hw, hbase⟩ := received_base hb hpe
  have hfo := mac_fromObj_rs (hbase m.base.payload [.bytes t', .arr [w1]]) (rs := [r']) (by simp only [createRecipients, hcr, ok_bind])
  have hdec := finish_decode (C := C) (allow := allow) (cls := cls) (k := .mac) (t := 97) rfl hcls
    (.cons sent_bytes (.cons hw (.cons sent_opt (.cons sent_bytes (.cons (sent_arr (.cons hw1 .nil)) .nil))))) hf
    (m := .mac { base := recvBase pe ph uh m.base.payload, authTag := .bytes t', recipients := some [r'] })
    (by simp only [fromObj, hfo, ok_bind]) []
  rw [List.append_nil] at hdec
  refine ⟨_, r', k, hdec, rfl, rfl, rfl, rfl, hph, huh, by rw [hm1], hk, hcek, ?_⟩
  have hfam : ∃ f, algFam alg = some f := by
    have htag := htag
    simp only [macCompute, show ({ m.base with key := some k } : Base).getAttr Hdr.Algorithm = _ from halg, ok_bind, bind_eq_ok] at htag
    obtain ⟨_, _, f, hf, _⟩ := htag
    cases hh : algFam alg with
    | some f => exact ⟨f, rfl⟩
    | none => simp [macMethod, hh] at hf
  obtain ⟨f, hfam⟩ := hfam
  obtain ⟨ca, nn, rfl, hreg, _⟩ := algFam_reg hfam
  obtain ⟨v', hv'⟩ := dka_mkSym hk
  obtain ⟨kb, _, hl, rfl⟩ := mkSym_ok hreg (by simp) hv'
  refine macVerify_roundtrip (b := { m.base with key := some _ }) htag halg rfl rfl ?_ ?_ rfl
    (symStore_permits kb (.inl rfl))
  · exact sendable_getAttr hb rfl rfl (by decide) (by decide)
  · exact sendable_macStructure (b := { m.base with key := some _ }) ⟨hb.prot, hb.unprot⟩ hpe rfl rfl rfl rfl

/-- C14 for COSE_Mac: the receiver obtains the MAC key from the decoded recipient, and the tag verifies under it. -/
theorem c14_mac_direct_agreement_roundtrip {C : Crypto} (L : C.Laws) {m m1 : Mac} {R : Rand} {out : Bytes} {allow : Bool}
    {ph uh uhr : Dict} {r : Rcpt} {rk : Key} {la : Dict} {cls : DecCls} {alg : Val} (hcls : cls.accepts .mac = true)
    (hb : Spec.Sendable C m.base.tstr allow m.base ph uh) (hrs : m.recipients = some [r])
    (hs : Spec.Sendable C m.base.tstr allow r.base r.base.phdr uhr) (hr : Spec.DirectAgreement C r uhr rk la)
    (halg : m.base.getAttr Hdr.Algorithm = .ok alg) (h : m.encode C R true true = .ok (out, m1)) :
    ∃ m' r' k, decode C cls allow out = .ok (.mac m') ∧ m'.base.phdr = ph ∧ m'.base.uhdr = uh ∧
      m'.base.payload = m.base.payload ∧ m'.recipients = some [r'] ∧
      r'.base.phdr = r.base.phdr ∧ r'.base.uhdr = uhr ∧
      rcptComputeCek C (r'.receiver rk la) alg = .ok k ∧
      Mac.verifyTag C { m' with base := m'.base.withKeyAad k m.base.aad } = .ok true := by
  obtain ⟨m', r', k, h1, h2, h3, h4, h5, h6, h7, _, _, h8, h9⟩ := mac_agreement_keys L hcls hb hrs hs hr halg h
  exact ⟨m', r', k, h1, h2, h3, h4, h5, h6, h7, h8, h9⟩

/-- C14, remark: without a sender key (the case in which an ephemeral key would have to be generated) nothing is
ever produced. -/
theorem c14_no_generated_key {C : Crypto} {m : Enc} {r : Rcpt} (R : Rand) (hrs : m.recipients = [r])
    (hcl : r.cls = .directKeyAgreement) (hk : r.base.key = none) (tag : Bool) :
    ∃ e, m.encode C R tag true = .error e := by
  cases h : m.encode C R tag true with
  | error e => exact ⟨e, rfl⟩
  | ok p =>
    exfalso
    obtain ⟨out, m1⟩ := p
    obtain ⟨pe, v, m2, tl, hpe, hc, _⟩ := enc_encode_inv h
    rcases hc with ⟨_, c, ht, rfl⟩ | ⟨h0, _⟩
    rotate_left
    · simp at h0
    simp only [Enc.encrypt, hrs, dka_types hcl, ok_bind, bind_eq_ok] at ht
    obtain ⟨alg, halg, ht⟩ := ht
    rw [if_neg (by decide), if_pos (by decide)] at ht
    simp only [bind_eq_ok] at ht
    obtain ⟨k, hk', _⟩ := ht
    simp only [dkaComputeCek, bind_eq_ok] at hk'
    obtain ⟨_, _, _, _, hk'⟩ := hk'
    split at hk'
    · simp at hk'
    · simp only [bind_eq_ok, hk, if_true] at hk'
      obtain ⟨_, _, peer, _, hk'⟩ := hk'
      split at hk'
      · simp at hk'
      · simp only [bind_eq_ok, reduceCtorEq, and_false, exists_false] at hk'

namespace Sample
def dkaRcpt (oid : Nat) : Rcpt :=
  .mk .directKeyAgreement
    { phdr := [(.cls Hdr.Algorithm, algCls (-25))],
      uhdr := [(.cls Hdr.EphemeralKey, .map sndPub.store)],
      payload := some [], key := some sndPriv, localAttrs := [(.cls Hdr.StaticKey, rcvPub.toVal)] } [] oid []
def encDka : Enc := { base := { enc0.base with key := none }, recipients := [dkaRcpt 1] }

theorem dkaSend {tstr allow : Bool} (oid : Nat) :
    Spec.Sendable toy tstr allow (dkaRcpt oid).base (dkaRcpt oid).base.phdr [(.cls Hdr.EphemeralKey, sndPub.toVal)] := by
  refine ⟨.inl ⟨rfl, by simp [KeysNodup, dkaRcpt, Rcpt.base], ?_⟩, by simp [KeysNodup, dkaRcpt, Rcpt.base], ?_⟩
  · exact .cons (.alg (.one (n := b!"ECDH_ES_HKDF_256") (by decide +kernel))) .nil
  · exact .cons (.key (.inl rfl) (ec2Pub_subst (by decide)) (by simp [PyOK, PyOKP, PyOKQ, KeysNodup, keq, norm])
      (ec2Pub_received toy (by decide) (by decide) (by decide))) .nil
theorem dkaOk (oid : Nat) : Spec.DirectAgreement toy (dkaRcpt oid) [(.cls Hdr.EphemeralKey, sndPub.toVal)] rcvPriv [] where
  cls := rfl
  nested := rfl
  agree := ⟨-25, P256, sndPriv, rcvPub, sndPub, rfl, by decide, rfl, rfl, rfl, sndPublic, rcvPublic,
    ⟨rfl, .inl rfl, .inl rfl⟩, ⟨rfl, .inl rfl, .inl rfl⟩⟩
  supp := ⟨rfl, rfl⟩
end Sample

example : (Sample.encDka.encode toy Sample.rand true true).isOk = true ∧ Sample.encDka.recipients = [Sample.dkaRcpt 1] ∧
    Spec.Sendable toy Sample.encDka.base.tstr false Sample.encDka.base Sample.encDka.base.phdr Sample.encDka.base.uhdr :=
  ⟨by decide +kernel, rfl, ⟨(Sample.enc0Sendable (tstr := false)).prot, Sample.enc0Sendable.unprot⟩⟩

/-- AES-MAC 128/64 under an agreed key. -/
example : ((⟨{ Sample.mac0Aes.base with key := none }, .bytes [], some [Sample.dkaRcpt 1]⟩ : Mac).encode toy Sample.rand true true).isOk = true := by
  decide +kernel

end Cose
