import Verif.Props.Exact
/-!
# Property C90: ordinary use succeeds from end to end

The round trips C06–C12 assume that the sender's `encode()` returns.  Here nothing of the kind is assumed: an object made
by a constructor, with a key that the cryptographic library can use, is encoded, the bytes are decoded, and the receiver's
`verify_signature`, `verify_tag` or `decrypt` gives the right answer.  No step raises.
-/
set_option autoImplicit false
namespace Cose

/-! ### What the caller does -/

/-- Constructor arguments as callers write them: dictionaries of labels and plain values (or no dictionary at all), and no
encoded protected header. -/
structure Spec.PlainHeaders (a : HdrArgs) : Prop where
  notEncoded : a.phdrEncoded = .none
  prot : a.phdr = .none ∨ ∃ d, a.phdr = .map d ∧ Spec.PlainArgs d
  unprot : a.uhdr = .none ∨ ∃ d, a.uhdr = .map d ∧ Spec.PlainArgs d

/-- `b` is an object made by a constructor from plain headers; key, external aad, payload and local attributes may have been
assigned afterwards.  A sender that uses unknown header attributes has a receiver (`allow`) that allows them. -/
def Spec.Made (C : Crypto) (allow : Bool) (b : Base) : Prop :=
  ∃ (a : HdrArgs) (pl aad : Val) (key : Option Key) (b0 : Base), Spec.PlainHeaders a ∧ (a.allow = true → allow = true) ∧
    initMsg C a pl aad key = .ok b0 ∧
    b = { b0 with payload := b.payload, aad := b.aad, key := b.key, localAttrs := b.localAttrs }

/-- Both headers can be written, and no byte string is too long for CBOR. -/
structure Spec.Fits (b : Base) : Prop where
  prot : Spec.ShortProtected b
  unprot : Spec.HeaderWritable b b.uhdr
  payload : Spec.ShortPayload b.payload
  aad : b.aad.length < 2 ^ 64

/-- The library makes a signature of whatever it is given, with this key and this algorithm. -/
def Spec.CanSign (C : Crypto) (rnd : Bytes) (i : Int) (k : Key) : Prop :=
  ∀ data, ∃ s, Spec.Signature C rnd i k data s ∧ s.length < 2 ^ 64

/-- The library makes a tag of whatever it is given (of at least one byte: the CBC-MAC of nothing has no last block), with this key and this
algorithm. -/
def Spec.CanTag (C : Crypto) (i : Int) (kb : Bytes) : Prop := ∀ data, data ≠ [] → ∃ t, Spec.MacTag C i kb data t

/-- The library encrypts the text under whatever is to be authenticated with it. -/
def Spec.CanSeal (C : Crypto) (i : Int) (kb nonce text : Bytes) : Prop :=
  ∃ a, (i, a) ∈ Spec.aeadAlgs ∧ ∀ aad, ∃ c, C.aeadEnc a kb nonce aad text = .ok c ∧ c.length < 2 ^ 64

/-! ### Consequences -/

theorem sendEntry_allow {C : Crypto} {tstr allow allow' : Bool} (h : allow = true → allow' = true) {p q : Val × Val}
    (hs : Spec.SendEntry C tstr allow p q) : Spec.SendEntry C tstr allow' p q := by
  cases hs with
  | alg h1 => exact .alg h1
  | plain h1 h2 h3 h4 h5 h6 => exact .plain h1 h2 h3 h4 h5 h6
  | key h1 h2 h3 h4 => exact .key h1 h2 h3 h4
  | foreign h1 h2 h3 => exact .foreign (h h1) h2 h3

theorem hdrSend_allow {C : Crypto} {tstr allow allow' : Bool} (h : allow = true → allow' = true) {d e : Dict}
    (hs : Spec.HdrSend C tstr allow d e) : Spec.HdrSend C tstr allow' d e := by
  obtain ⟨h1, h2⟩ := hs
  refine ⟨h1, ?_⟩
  clear h1
  induction h2 with
  | nil => exact .nil
  | cons hh _ ih => exact .cons (sendEntry_allow h hh) ih

theorem hdrSend_arg {C : Crypto} {tstr allow allow' : Bool} (h : allow = true → allow' = true) {v : Val} {d : Dict}
    (hv : v = .none ∨ ∃ d, v = .map d ∧ Spec.PlainArgs d) (hr : UnprotReceived C allow v d) : Spec.HdrSend C tstr allow' d d := by
  rcases hr.inv with ⟨rfl, rfl⟩ | ⟨e, rfl, hp⟩
  · exact ⟨by simp [KeysNodup], .nil⟩
  · rcases hv with hv | ⟨e', hv, hpl⟩
    · simp at hv
    · simp at hv; subst hv
      exact hdrSend_allow h (hdrSend_parsed hpl hp)

/-- Everything made by the constructors arrives as it is. -/
theorem made_sendable {C : Crypto} {allow tstr : Bool} {b : Base} (h : Spec.Made C allow b) :
    Spec.Sendable C tstr allow b b.phdr b.uhdr := by
  obtain ⟨a, pl, aad, key, b0, hp, ha, hb, hbe⟩ := h
  obtain ⟨b1, p, x, h0, _, _, rfl⟩ := initMsg_ok hb
  obtain ⟨u1, u2, u3⟩ := (initBase_dict hp.notEncoded).mp h0
  have e1 : b.phdr = b1.phdr := by rw [hbe]
  have e2 : b.uhdr = b1.uhdr := by rw [hbe]
  have e3 : b.phdrEnc = none := by rw [hbe]; simp only; rw [u3]
  refine ⟨.inl ⟨e3, ?_⟩, ?_⟩
  · rw [e1]; exact hdrSend_arg ha hp.prot u1
  · rw [e2]; exact hdrSend_arg ha hp.unprot u2

theorem made_new {C : Crypto} {allow : Bool} {a : HdrArgs} {pl aad : Val} {key : Option Key} {b : Base} (hp : Spec.PlainHeaders a)
    (ha : a.allow = true → allow = true) (h : initMsg C a pl aad key = .ok b) : Spec.Made C allow b :=
  ⟨a, pl, aad, key, b, hp, ha, h, rfl⟩

theorem permits_plain {k : Key} {kind : Kind} {i : Int} {ops : List Cls} (h : Spec.Permits k kind (algCls i) ops) : Spec.PlainPolicy k := by
  refine ⟨?_, ?_⟩
  · rcases h.alg with h | ⟨c, e, h⟩
    · exact .inl h
    · simp at e; subst e; exact .inr ⟨i, h⟩
  · rcases h.ops with h | ⟨l, h, _⟩
    · exact .inl h
    · exact .inr ⟨l, h⟩

/-! ### C90 -/

/-- C90.  A COSE_Sign1 message made by the constructor, with a payload either in the message or detached, is signed, encoded,
decoded and verified under the matching public key. -/
theorem c90_sign1 {C : Crypto} (L : C.Laws) {m : Sign1} {rnd p : Bytes} {d : Option Bytes} {allow : Bool} {cls : DecCls} {i : Int}
    {sk vk : Key} (hcls : cls.accepts .sign1 = true) (hm : Spec.Made C allow m.base) (hf : Spec.Fits m.base)
    (hp : Spec.OnePayload m.base.payload d p) (hl : p.length < 2 ^ 64) (hi : m.base.getAttr Hdr.Algorithm = .ok (algCls i))
    (hk : m.base.key = some sk) (hkind : sk.kind ≠ .sym) (hs : Spec.Permits sk sk.kind (algCls i) [Op.Sign])
    (hcan : Spec.CanSign C rnd i sk) (hpair : Spec.KeyPair C (algCls i) sk vk) (hv : Spec.Permits vk vk.kind (algCls i) [Op.Verify]) :
    ∃ out m', m.encode C rnd true true d = .ok out ∧ decode C cls allow out = .ok (.sign1 m') ∧
      m'.base.phdr = m.base.phdr ∧ m'.base.uhdr = m.base.uhdr ∧ m'.base.payload = m.base.payload ∧
      Sign1.verifySignature C { m' with base := m'.base.withKeyAad vk m.base.aad } d = .ok true := by
  obtain ⟨tbs, ht⟩ := c81_sign1_structure.mpr ⟨.inr hf.prot, hf.aad, p, hp, hl⟩
  obtain ⟨s, hs1, hs2⟩ := hcan tbs
  obtain ⟨out, ho⟩ := (c81_sign1 (C := C) (rnd := rnd) (tag := true) (det := d) (m := m) (fun k e => by
    rw [hk] at e; simp at e; subst e; exact permits_plain hs)).mpr
    ⟨hf.prot, hf.unprot, hf.payload, s, ⟨i, sk, tbs, hi, hk, hkind, hs, ht, hs1⟩, hs2⟩
  obtain ⟨m', h1, h2, h3, h4, h5⟩ := c06_sign1_roundtrip L hcls (made_sendable hm) ho hi hk hpair hv
  exact ⟨out, m', ho, h1, h2, h3, h4, h5⟩

/-- C90.  A COSE_Sign message with any number of signers is signed by each of them, encoded and decoded, and every signer of the
received message verifies under the matching public key. -/
theorem c90_sign {C : Crypto} (L : C.Laws) {m : SignMsg} {rnd : Nat → Bytes} {p : Bytes} {d : Option Bytes} {allow : Bool} {cls : DecCls}
    (hcls : cls.accepts .sign = true) (hm : Spec.Made C allow m.base) (hf : Spec.Fits m.base) (hp : Spec.OnePayload m.base.payload d p)
    (hl : p.length < 2 ^ 64) (hne : m.signers ≠ []) (hn : m.signers.length < 2 ^ 64)
    (hs : ∀ (j : Nat) s, m.signers[j]? = some s → Spec.Made C allow s ∧ Spec.ShortProtected s ∧ Spec.HeaderWritable m.base s.uhdr ∧
      s.aad.length < 2 ^ 64 ∧ ∃ i sk, s.getAttr Hdr.Algorithm = .ok (algCls i) ∧ s.key = some sk ∧ sk.kind ≠ .sym ∧
        Spec.Permits sk sk.kind (algCls i) [Op.Sign] ∧ Spec.CanSign C (rnd j) i sk) :
    ∃ out m', m.encode C rnd true d = .ok out ∧ decode C cls allow out = .ok (.sign m') ∧
      m'.base.phdr = m.base.phdr ∧ m'.base.uhdr = m.base.uhdr ∧ m'.base.payload = m.base.payload ∧
      m'.signers.length = m.signers.length ∧
      ∀ (j : Nat) s s', m.signers[j]? = some s → m'.signers[j]? = some s' → s'.phdr = s.phdr ∧ s'.uhdr = s.uhdr ∧
        ∀ i sk vk, s.getAttr Hdr.Algorithm = .ok (algCls i) → s.key = some sk → Spec.KeyPair C (algCls i) sk vk →
          Spec.Permits vk vk.kind (algCls i) [Op.Verify] → signerVerify C m'.base (s'.withKeyAad vk s.aad) d = .ok true := by
  obtain ⟨out, ho⟩ := (c81_sign (C := C) (rnd := rnd) (tag := true) (det := d) (m := m) (fun s hs' k e => by
    obtain ⟨j, hj⟩ := List.getElem?_of_mem hs'
    obtain ⟨_, _, _, _, i, sk, _, hk, _, hpm, _⟩ := hs j s hj
    rw [hk] at e; simp at e; subst e; exact permits_plain hpm)).mpr
    ⟨hf.prot, hf.unprot, hf.payload, hn, fun j s hj => by
      obtain ⟨_, h2, h3, h4, i, sk, hi, hk, hkd, hpm, hcan⟩ := hs j s hj
      obtain ⟨tbs, ht⟩ := c81_signer_structure.mpr ⟨hf.prot, .inr h2, h4, p, hp, hl⟩
      obtain ⟨sg, hs1, hs2⟩ := hcan tbs
      exact ⟨h2, h3, sg, ⟨i, sk, tbs, hi, hk, hkd, hpm, ht, hs1⟩, hs2⟩⟩
  have hall : All2 (fun (s : Base) (h : Dict × Dict) => Spec.Sendable C m.base.tstr allow s h.1 h.2) m.signers
      (m.signers.map fun s => (s.phdr, s.uhdr)) := by
    have : ∀ l : List Base, (∀ s ∈ l, Spec.Made C allow s) →
        All2 (fun (s : Base) (h : Dict × Dict) => Spec.Sendable C m.base.tstr allow s h.1 h.2) l (l.map fun s => (s.phdr, s.uhdr)) := by
      intro l
      induction l with
      | nil => intro _; exact .nil
      | cons s t ih => intro h; exact .cons (made_sendable (h s (by simp))) (ih fun s hs => h s (List.mem_cons_of_mem _ hs))
    exact this _ fun s hs' => by
      obtain ⟨j, hj⟩ := List.getElem?_of_mem hs'
      exact (hs j s hj).1
  obtain ⟨m', h1, h2, h3, h4, h5, h6⟩ := c07_sign_roundtrip L hcls hne (made_sendable hm) hall ho
  refine ⟨out, m', ho, h1, h2, h3, h4, h5, fun j s s' hj hj' => ?_⟩
  obtain ⟨e1, e2, e3⟩ := h6 j s s' (s.phdr, s.uhdr) hj hj' (by simp [hj])
  exact ⟨e1, e2, fun i sk vk a1 a2 a3 a4 => e3 _ sk vk a1 a2 a3 a4⟩

theorem all2_of_map {α β γ : Type} {P : γ → β → Prop} {f : α → γ} {l : List α} {l' : List β} (h : All2 P (l.map f) l') :
    All2 (fun a b => P (f a) b) l l' := by
  induction l generalizing l' with
  | nil => cases h; exact .nil
  | cons a t ih =>
    cases h with
    | cons h1 h2 => exact .cons h1 (ih h2)

theorem made_tags {C : Crypto} {ctx : Bytes} {b : Base} {i : Int} {k : Key} {kb p : Bytes} (hc : ctx ∈ [b!"MAC0", b!"MAC"]) (hf : Spec.Fits b)
    (hp : b.payload = some p) (hi : b.getAttr Hdr.Algorithm = .ok (algCls i)) (hk : b.key = some k)
    (hs : Spec.Permits k .sym (algCls i) [Op.MacCreate]) (hK : k.symK = .ok (.bytes kb)) (hcan : Spec.CanTag C i kb) :
    ∃ t, Spec.Tags C ctx b t := by
  obtain ⟨data, hd⟩ := (c81_mac_structure hc).mpr ⟨.inr hf.prot, hf.aad, p, hp, hf.payload p hp⟩
  obtain ⟨t, ht⟩ := hcan data (macStructure_ne hd)
  exact ⟨t, i, k, kb, data, hi, hk, hs, hK, hd, ht⟩

/-- C90.  A COSE_Mac0 message made by the constructor is tagged, encoded, decoded and verified under the same key. -/
theorem c90_mac0 {C : Crypto} (L : C.Laws) {m : Mac0} {p kb : Bytes} {allow : Bool} {cls : DecCls} {i : Int} {k rk : Key}
    (hcls : cls.accepts .mac0 = true) (hm : Spec.Made C allow m.base) (hf : Spec.Fits m.base) (hp : m.base.payload = some p)
    (hi : m.base.getAttr Hdr.Algorithm = .ok (algCls i)) (hk : m.base.key = some k) (hs : Spec.Permits k .sym (algCls i) [Op.MacCreate])
    (hK : k.symK = .ok (.bytes kb)) (hcan : Spec.CanTag C i kb) (hr : rk.symK = .ok (.bytes kb))
    (hv : Spec.Permits rk .sym (algCls i) [Op.MacVerify]) :
    ∃ out m1 m', m.encode C true true = .ok (out, m1) ∧ decode C cls allow out = .ok (.mac0 m') ∧
      m'.base.phdr = m.base.phdr ∧ m'.base.uhdr = m.base.uhdr ∧ m'.base.payload = some p ∧
      Mac0.verifyTag C { m' with base := m'.base.withKeyAad rk m.base.aad } = .ok true := by
  obtain ⟨out, m1, ho⟩ := (c81_mac0 L (tag := true) (m := m) (fun k' e => by
    rw [hk] at e; simp at e; subst e; exact permits_plain hs)).mpr
    ⟨hf.prot, hf.unprot, hf.payload, made_tags (by simp) hf hp hi hk hs hK hcan⟩
  obtain ⟨m', h1, h2, h3, h4, h5⟩ := c08_mac0_roundtrip hcls (made_sendable hm) ho hi hk (hr.trans hK.symm) hv
  exact ⟨out, m1, m', ho, h1, h2, h3, h4.trans hp, h5⟩

theorem made_sealing {C : Crypto} {ctx : Bytes} {b : Base} {i : Int} {k : Key} {kb nonce p : Bytes}
    (hc : ctx ∈ [b!"Encrypt0", b!"Encrypt", b!"Enc_Recipient", b!"Mac_Recipient", b!"Rec_Recipient"]) (hf : Spec.ShortProtected b)
    (ha : b.aad.length < 2 ^ 64)
    (hp : b.payload = some p) (hi : b.getAttr Hdr.Algorithm = .ok (algCls i)) (hn : b.getAttr Hdr.IV = .ok (.bytes nonce)) (hk : b.key = some k)
    (hK : k.symK = .ok (.bytes kb)) (hcan : Spec.CanSeal C i kb nonce p) :
    ∃ a aad c, Spec.Sealing ctx b a kb nonce aad p ∧ C.aeadEnc a kb nonce aad p = .ok c ∧ c.length < 2 ^ 64 := by
  obtain ⟨a, hm, hcan⟩ := hcan
  obtain ⟨aad, hd⟩ := (c81_enc_structure hc).mpr ⟨.inr hf, ha⟩
  obtain ⟨c, h1, h2⟩ := hcan aad
  refine ⟨a, aad, c, ⟨⟨i, hi, hm⟩, ⟨k, hk, hK⟩, ?_, hd, hp⟩, h1, h2⟩
  simp only [getNonce, hn, ok_bind]
  rw [if_pos (by simp)]

/-- C90.  A COSE_Encrypt0 message made by the constructor with an IV in a header is encrypted, encoded, decoded and decrypted
to its payload under the same key. -/
theorem c90_enc0 {C : Crypto} (L : C.Laws) {m : Enc0} {p kb nonce : Bytes} {allow : Bool} {cls : DecCls} {i : Int} {k rk : Key}
    (hcls : cls.accepts .enc0 = true) (hm : Spec.Made C allow m.base) (hf : Spec.Fits m.base) (hp : m.base.payload = some p)
    (hi : m.base.getAttr Hdr.Algorithm = .ok (algCls i)) (hn : m.base.getAttr Hdr.IV = .ok (.bytes nonce)) (hk : m.base.key = some k)
    (hs : Spec.Permits k .sym (algCls i) [Op.Encrypt]) (hK : k.symK = .ok (.bytes kb)) (hcan : Spec.CanSeal C i kb nonce p)
    (hr : rk.symK = .ok (.bytes kb)) (hiv : rk.baseIv = k.baseIv) (hv : Spec.Permits rk .sym (algCls i) [Op.Decrypt]) :
    ∃ out m', m.encode C true true = .ok out ∧ decode C cls allow out = .ok (.enc0 m') ∧
      m'.base.phdr = m.base.phdr ∧ m'.base.uhdr = m.base.uhdr ∧
      Enc0.decrypt C { m' with base := m'.base.withKeyAad rk m.base.aad } = .ok p := by
  obtain ⟨a, aad, c, h1, h2, h3⟩ := made_sealing (ctx := b!"Encrypt0") (by simp) hf.prot hf.aad hp hi hn hk hK hcan
  obtain ⟨out, ho⟩ := (c81_enc0 (C := C) (tag := true) (m := m) (fun k' e => by
    rw [hk] at e; simp at e; subst e; exact permits_plain hs)).mpr
    ⟨hf.prot, hf.unprot, a, kb, nonce, aad, p, c, h1, ⟨k, _, hk, hi, hs⟩, h2, h3⟩
  obtain ⟨m', q, h1, h2, h3, h4, h5⟩ := c09_enc0_roundtrip L hcls (made_sendable hm) ho hi hk (hr.trans hK.symm) hiv hv
  rw [hp] at h4; simp at h4; subst h4
  exact ⟨out, m', ho, h1, h2, h3, h5⟩

/-- A recipient object for direct use of a shared key, made by its constructor. -/
structure Spec.UsualDirect (C : Crypto) (allow : Bool) (p : Base) (r : Rcpt) : Prop where
  made : Spec.Made C allow r.base
  cls : r.cls = .directEncryption
  nested : r.recipients = []
  alg : ∃ i ∈ [(-6 : Int), -10, -13], r.base.getAttr Hdr.Algorithm = .ok (algCls i) ∧ (i = -6 → r.base.phdr = [])
  prot : Spec.ShortProtected r.base
  unprot : Spec.HeaderWritable p r.base.uhdr

theorem usual_direct {C : Crypto} {allow : Bool} {p : Base} {rs : List Rcpt} (h : ∀ r ∈ rs, Spec.UsualDirect C allow p r) :
    (∀ r ∈ rs, r.cls = .directEncryption) ∧ (∀ r ∈ rs, Spec.DirectWritable (Mode.base p.tstr).classes r) ∧
    All2 (fun r (h : Dict × Dict) => Spec.DirectRecipient r ∧ Spec.Sendable C p.tstr allow r.base h.1 h.2) rs
      (rs.map fun r => (r.base.phdr, r.base.uhdr)) := by
  refine ⟨fun r hr => (h r hr).cls, fun r hr => ?_, ?_⟩
  · obtain ⟨_, _, h3, ⟨i, hi, ha, h0⟩, h5, h6⟩ := h r hr
    refine ⟨h3, ⟨_, ha, by simp, fun e => ?_⟩, h5, h6, by simp⟩
    simp at e; exact h0 e
  · induction rs with
    | nil => exact .nil
    | cons r t ih =>
      obtain ⟨h1, h2, h3, ⟨i, hi, ha, h0⟩, _, _⟩ := h r (by simp)
      exact .cons ⟨⟨h2, h3, i, ha, hi⟩, made_sendable h1⟩ (ih fun r hr => h r (List.mem_cons_of_mem _ hr))

/-- C90.  A COSE_Mac message whose recipients share its key already is tagged, encoded, decoded and verified under that key. -/
theorem c90_mac_direct {C : Crypto} (L : C.Laws) {m : Mac} {R : Rand} {rs : List Rcpt} {p kb : Bytes} {allow : Bool} {cls : DecCls} {i : Int}
    {k rk : Key} (hcls : cls.accepts .mac = true) (hm : Spec.Made C allow m.base) (hf : Spec.Fits m.base) (hp : m.base.payload = some p)
    (hrs : m.recipients = some rs) (hne : rs ≠ []) (hlen : rs.length < 2 ^ 64) (hd : ∀ r ∈ rs, Spec.UsualDirect C allow m.base r)
    (hi : m.base.getAttr Hdr.Algorithm = .ok (algCls i)) (hk : m.base.key = some k) (hs : Spec.Permits k .sym (algCls i) [Op.MacCreate])
    (hK : k.symK = .ok (.bytes kb)) (hcan : Spec.CanTag C i kb) (hr : rk.symK = .ok (.bytes kb))
    (hv : Spec.Permits rk .sym (algCls i) [Op.MacVerify]) :
    ∃ out m1 m' rs', m.encode C R true true = .ok (out, m1) ∧ decode C cls allow out = .ok (.mac m') ∧
      m'.base.phdr = m.base.phdr ∧ m'.base.uhdr = m.base.uhdr ∧ m'.base.payload = some p ∧ m'.recipients = some rs' ∧
      All2 (fun r r' => Spec.DirectReceived (r.base.phdr, r.base.uhdr) r') rs rs' ∧
      Mac.verifyTag C { m' with base := m'.base.withKeyAad rk m.base.aad } = .ok true := by
  obtain ⟨d1, d2, d3⟩ := usual_direct hd
  obtain ⟨out, m1, ho⟩ := (c82_mac_encode_direct L (R := R) (tag := true) hrs hne d1 (fun k' e => by
    rw [hk] at e; simp at e; subst e; exact permits_plain hs)).mpr
    ⟨hf.prot, hf.unprot, hf.payload, hlen, d2, made_tags (by simp) hf hp hi hk hs hK hcan⟩
  obtain ⟨m', rs', h1, h2, h3, h4, h5, h6, h7⟩ := c10_mac_direct_roundtrip hcls (made_sendable hm) hrs hne d3 ho hi hk (hr.trans hK.symm) hv
  exact ⟨out, m1, m', rs', ho, h1, h2, h3, h4.trans hp, h5, all2_of_map h6, h7⟩

/-- C90.  A COSE_Encrypt message whose recipients share its key already is encrypted, encoded and decoded, and each recipient
decrypts the payload with that key. -/
theorem c90_enc_direct {C : Crypto} (L : C.Laws) {m : Enc} {R : Rand} {p kb nonce : Bytes} {allow : Bool} {cls : DecCls} {i : Int}
    {k rk : Key} (hcls : cls.accepts .enc = true) (hm : Spec.Made C allow m.base) (hf : Spec.Fits m.base) (hp : m.base.payload = some p)
    (hne : m.recipients ≠ []) (hlen : m.recipients.length < 2 ^ 64) (hd : ∀ r ∈ m.recipients, Spec.UsualDirect C allow m.base r)
    (hi : m.base.getAttr Hdr.Algorithm = .ok (algCls i)) (hn : m.base.getAttr Hdr.IV = .ok (.bytes nonce)) (hk : m.base.key = some k)
    (hs : Spec.Permits k .sym (algCls i) [Op.Encrypt]) (hK : k.symK = .ok (.bytes kb)) (hcan : Spec.CanSeal C i kb nonce p)
    (hr : rk.symK = .ok (.bytes kb)) (hiv : rk.baseIv = k.baseIv) (hv : Spec.Permits rk .sym (algCls i) [Op.Decrypt]) :
    ∃ out m1 m', m.encode C R true true = .ok (out, m1) ∧ decode C cls allow out = .ok (.enc m') ∧
      m'.base.phdr = m.base.phdr ∧ m'.base.uhdr = m.base.uhdr ∧
      All2 (fun r r' => Spec.DirectReceived (r.base.phdr, r.base.uhdr) r') m.recipients m'.recipients ∧
      ∀ r ∈ m'.recipients, ∃ m'', Enc.decrypt C { m' with base := m'.base.withKeyAad rk m.base.aad } r = .ok (p, m'') := by
  obtain ⟨d1, d2, d3⟩ := usual_direct hd
  obtain ⟨a, aad, c, h1, h2, h3⟩ := made_sealing (ctx := b!"Encrypt") (by simp) hf.prot hf.aad hp hi hn hk hK hcan
  obtain ⟨out, m1, ho⟩ := (c82_enc_encode_direct (C := C) (R := R) (tag := true) hne d1 (fun k' e => by
    rw [hk] at e; simp at e; subst e; exact permits_plain hs)).mpr
    ⟨hf.prot, hf.unprot, hlen, d2, a, kb, nonce, aad, p, c, h1, ⟨k, _, hk, hi, hs⟩, h2, h3⟩
  obtain ⟨m', q, h1, h2, h3, h4, h5, h6⟩ := c11_enc_direct_roundtrip L hcls (made_sendable hm) hne d3 ho hi hk (hr.trans hK.symm) hiv hv
  rw [hp] at h5; simp at h5; subst h5
  exact ⟨out, m1, m', ho, h1, h2, h3, all2_of_map h4, h6⟩

/-- A recipient object for AES key wrap, made by its constructor, with a key-encryption key with which the library wraps `cek`. -/
structure Spec.UsualWrap (C : Crypto) (allow : Bool) (p : Base) (cek : Bytes) (r : Rcpt) : Prop where
  made : Spec.Made C allow r.base
  cls : r.cls = .keyWrap
  nested : r.recipients = []
  noKeyYet : r.base.payload = some []
  unprotectedOnly : r.base.phdr = []
  unprot : Spec.HeaderWritable p r.base.uhdr
  kek : ∃ i n k kek c, r.base.getAttr Hdr.Algorithm = .ok (algCls i) ∧ (i, n) ∈ Spec.kwAlgs ∧ r.base.key = some k ∧ Spec.PlainPolicy k ∧
    k.symK = .ok (.bytes kek) ∧ kek.length = n ∧ C.kwWrap kek cek = .ok c ∧ c.length < 2 ^ 64

/-- C90.  A COSE_Encrypt message with any number of AES key wrap recipients is encrypted under a fresh key, encoded and decoded, and
each recipient decrypts the payload with its own key-encryption key. -/
theorem c90_enc_wrapped {C : Crypto} (L : C.Laws) {m : Enc} {R : Rand} {p nonce : Bytes} {allow : Bool} {cls : DecCls} {i : Int} {bits : Nat}
    (hcls : cls.accepts .enc = true) (hm : Spec.Made C allow m.base) (hf : Spec.Fits m.base) (hp : m.base.payload = some p)
    (hR : ∀ n, (R.cek n).length = n) (hbits : Spec.keyBits i = some bits)
    (hne : m.recipients ≠ []) (hlen : m.recipients.length < 2 ^ 64)
    (hd : ∀ r ∈ m.recipients, Spec.UsualWrap C allow m.base (R.cek (bits / 8)) r)
    (hi : m.base.getAttr Hdr.Algorithm = .ok (algCls i)) (hn : m.base.getAttr Hdr.IV = .ok (.bytes nonce))
    (hcan : Spec.CanSeal C i (R.cek (bits / 8)) nonce p) :
    ∃ out m1 m', m.encode C R true true = .ok (out, m1) ∧ decode C cls allow out = .ok (.enc m') ∧
      m'.base.phdr = m.base.phdr ∧ m'.base.uhdr = m.base.uhdr ∧ m'.recipients.length = m.recipients.length ∧
      ∀ (j : Nat) r r' k rk, m.recipients[j]? = some r → m'.recipients[j]? = some r' → r.base.key = some k → rk.symK = k.symK →
        ∃ m'', Enc.decrypt C { base := { m'.base with aad := m.base.aad }, recipients := m'.recipients.set j (r'.receiver rk []) }
          (r'.receiver rk []) = .ok (p, m'') := by
  have hmem : i ∈ Spec.aeadAlgs.map (·.1) := by
    obtain ⟨a, ha, _⟩ := hcan
    exact List.mem_map.mpr ⟨_, ha, rfl⟩
  have hkw : ∀ p ∈ Spec.kwAlgs, p.1 ∈ [(-3 : Int), -4, -5] := by decide
  obtain ⟨a, aad, c, h1, h2, h3⟩ := made_sealing (C := C) (ctx := b!"Encrypt")
    (b := (Spec.WithKey m (Spec.MadeKey i [Op.Encrypt] (R.cek (bits / 8)))).base) (k := Spec.MadeKey i [Op.Encrypt] (R.cek (bits / 8)))
    (kb := R.cek (bits / 8)) (by simp) hf.prot hf.aad hp hi hn rfl rfl hcan
  obtain ⟨out, m1, ho⟩ := (c82_enc_encode_wrapped (C := C) (R := R) (tag := true) hne hR hi hmem hbits (fun r hr => .inl (hd r hr).cls)
    (fun r hr => ⟨(hd r hr).noKeyYet, (hd r hr).nested⟩) (fun r hr k' e => by
      obtain ⟨_, _, k, _, _, _, _, hk, hpp, _⟩ := (hd r hr).kek
      rw [hk] at e; simp at e; subst e; exact hpp)).mpr
    ⟨hf.prot, hf.unprot, hlen, fun j r hj => by
      have hr := hd r (List.mem_of_getElem? hj)
      obtain ⟨i', n, k, kek, c', ha, hn', hk, hpp, hK, hl, hw, hcl⟩ := hr.kek
      refine .keyWrap (c := c') (c' := c') hr.cls hr.unprotectedOnly ?_ (.aesKw ha hn' hk hK hl hw) (.aesKw ha hn' hk hK hl hw)
        ⟨?_, hr.unprot, hcl⟩
      · intro i2 h2 k2 e1 e2
        rw [ha] at e1; simp at e1; subst e1
        exact absurd e2 (by
          have : ∀ p ∈ Spec.kwAlgs, ∀ q ∈ Spec.oaepAlgs, q.1 ≠ p.1 := by decide
          exact fun e2 => this _ hn' _ e2 rfl)
      · have hs := made_sendable (tstr := false) hr.made
        rcases hs.prot with ⟨e, _⟩ | ⟨e, he, _, ⟨rfl, _⟩ | ⟨hne, raw, hl, hpr⟩⟩
        · exact ⟨[], by simp [Base.phdrEncoded, e, hr.unprotectedOnly], by simp⟩
        · exact ⟨[], by simp [Base.phdrEncoded, he], by simp⟩
        · obtain ⟨_, _, _, _, b0, hpl, _, hb, hbe⟩ := hr.made
          obtain ⟨b1, _, _, h0, _, _, rfl⟩ := initMsg_ok hb
          obtain ⟨_, _, u3⟩ := (initBase_dict hpl.notEncoded).mp h0
          have : r.base.phdrEnc = none := by rw [hbe]; simp only; rw [u3]
          rw [this] at he; simp at he,
     a, nonce, aad, p, c, h1, h2, h3⟩
  have hall : All2 (fun r uh => Spec.WrapRecipient r ∧ Spec.Sendable C m.base.tstr allow r.base r.base.phdr uh) m.recipients
      (m.recipients.map fun r => r.base.uhdr) := by
    have : ∀ l : List Rcpt, (∀ r ∈ l, Spec.UsualWrap C allow m.base (R.cek (bits / 8)) r) →
        All2 (fun r uh => Spec.WrapRecipient r ∧ Spec.Sendable C m.base.tstr allow r.base r.base.phdr uh) l (l.map fun r => r.base.uhdr) := by
      intro l
      induction l with
      | nil => intro _; exact .nil
      | cons r t ih =>
        intro h
        have hr := h r (by simp)
        obtain ⟨i', n, k, kek, c', ha, hn', hk, _⟩ := hr.kek
        have := hkw _ hn'
        refine .cons ⟨⟨hr.nested, hr.noKeyYet, i', ha, .inl ⟨hr.cls, ?_⟩⟩, made_sendable hr.made⟩ (ih fun r hr => h r (List.mem_cons_of_mem _ hr))
        simp only [List.mem_cons, List.not_mem_nil, or_false] at this ⊢
        omega
    exact this _ hd
  obtain ⟨m', q, h1, h2, h3, h4, _, h5, h6⟩ := c12_keywrap_roundtrip L hcls (made_sendable hm) hne hall ho
  rw [hp] at h5; simp at h5; subst h5
  refine ⟨out, m1, m', ho, h1, h2, h3, h4, fun j r r' k rk e1 e2 e3 e4 => ?_⟩
  obtain ⟨i', n, k', kek, c', ha, hn', hk, _⟩ := (hd r (List.mem_of_getElem? e1)).kek
  rw [hk] at e3; simp at e3; subst e3
  exact h6 j r r' r.base.uhdr rk [] e1 (by simp [e1]) e2 (.aesKw ha (hkw _ hn') hk e4)

/-! ### Concrete cases -/

/-- The toy primitives with signatures of bounded length. -/
def toySig : Crypto :=
  { toy with
    ecdsaSign := fun _ _ d m => .ok (beBytes 25 d ++ fit 8 m)
    ecdsaVerify := fun _ _ x _ m s => .ok (s == beBytes 25 x ++ fit 8 m) }

theorem toySig_ecdsa {crv : Cls} {h : HashId} {d x y : Nat} {m s : Bytes} (h1 : toySig.ecPub crv d = .ok (x, y))
    (h2 : toySig.ecdsaSign crv h d m = .ok s) : toySig.ecdsaVerify crv h x y m s = .ok true := by
  have h1' : (if 0 < d ∧ d < 2 ^ 200 then Except.ok (d, d + 1) else .error .valueError : Res (Nat × Nat)) = .ok (x, y) := h1
  have h2' : (.ok (beBytes 25 d ++ fit 8 m) : Res Bytes) = .ok s := h2
  show (.ok (s == beBytes 25 x ++ fit 8 m) : Res Bool) = .ok true
  split at h1' <;> simp at h1' h2'
  simp [← h1'.1, ← h2']

theorem toySig_laws : toySig.Laws := by
  obtain ⟨l1, l2, l3, l4, l5, l6, l7, l8, l9, l10, l11, l12, l13⟩ := toy_laws
  constructor
  · dsimp only [toySig]; exact @l1
  · dsimp only [toySig]; exact @l2
  · dsimp only [toySig]; exact @l3
  · dsimp only [toySig]; exact @l4
  · exact toySig_ecdsa
  · dsimp only [toySig]; exact @l6
  · dsimp only [toySig]; exact @l7
  · dsimp only [toySig]; exact @l8
  · dsimp only [toySig]; exact @l9
  · dsimp only [toySig]; exact @l10
  · dsimp only [toySig]; exact @l11
  · dsimp only [toySig]; exact @l12
  · dsimp only [toySig]; exact @l13

theorem Sample.canSign (rnd : Bytes) : Spec.CanSign toySig rnd (-7) Sample.ecKey := fun data =>
  ⟨_, .ecdsa (c := 1) (h := .sha256) (d := beBytes 32 7) (by decide) rfl (by decide) rfl, by
    show (beBytes 25 _ ++ fit 8 data).length < 2 ^ 64
    rw [List.length_append, fit_length]; simp⟩

theorem Sample.canTag (kb : Bytes) : Spec.CanTag toy 5 kb := fun _ _ => ⟨_, .hmac (h := .sha256) (n := 32) (by decide) rfl⟩

theorem Sample.canTagAes (kb : Bytes) : Spec.CanTag toy 14 kb := fun data hne => by
  obtain ⟨pad, h1, h2, _⟩ := zeroPad_spec data
  have hl : 1 ≤ data.length := by cases data <;> simp at hne ⊢
  refine ⟨_, .aes (n := 8) (pad := pad) (init := (data ++ List.replicate pad 0).take (data.length + pad - 16))
    (last := (data ++ List.replicate pad 0).drop (data.length + pad - 16)) (by decide) h1 h2 ?_ ?_ rfl⟩
  · show (.ok _ : Res Bytes) = _
    rw [List.take_append_drop]
  · simp only [List.length_drop, List.length_append, List.length_replicate]
    omega

theorem Sample.canSeal (kb nonce : Bytes) : Spec.CanSeal toy 1 kb nonce b!"hello" :=
  ⟨.gcm, by decide, fun aad => ⟨_, rfl, by rw [List.length_append, fit_length]; decide⟩⟩

theorem Sample.sigPair : Spec.KeyPair toySig (algCls (-7)) Sample.ecKey Sample.ecPubKey :=
  .ecdsa (crv := P256) (h := .sha256) (d := beBytes 32 7) (x := beBytes 32 7) (y := beBytes 32 8)
    (by decide) rfl rfl rfl rfl (by decide) (by decide) (by decide +kernel)

theorem Sample.signPermits : Spec.Permits Sample.ecKey .ec2 (algCls (-7)) [Op.Sign] :=
  ⟨rfl, .inl rfl, .inr ⟨_, rfl, by decide⟩⟩

theorem plainArgs_of {d : Dict} (h : ∀ p ∈ d, ∃ c n, (c, n) ∈ registry .hdr ∧ Spec.Alias c n p.1 ∧ c ≠ Hdr.EphemeralKey ∧ c ≠ Hdr.StaticKey ∧
    (c ≠ Hdr.Algorithm → PyOK p.2)) : Spec.PlainArgs d := fun k v hm => .inl (h (k, v) hm)

/-- `Sign1Message(phdr={Algorithm: 'es256'}, uhdr={4: b'me'}, payload=b'hello', external_aad=b'aad', key=…)`. -/
theorem Sample.madeWith {alg : Int} {n : Bytes} {key : Key} {pl : Option Bytes} {allow : Bool} {C : Crypto}
    (h : initMsg C { phdr := .map [(.cls Hdr.Algorithm, .text n)], uhdr := .map [(.int 4, .bytes b!"me")], allow := false } (.bytes b!"hello") (.bytes b!"aad") (some key) =
      .ok (Sample.baseWith alg key (some b!"hello"))) : Spec.Made C allow (Sample.baseWith alg key pl) := by
  refine ⟨_, _, _, _, _, ⟨rfl, .inr ⟨_, rfl, plainArgs_of ?_⟩, .inr ⟨_, rfl, plainArgs_of ?_⟩⟩, by simp, h, rfl⟩
  · simp only [List.mem_singleton]
    rintro p rfl
    exact ⟨Hdr.Algorithm, b!"ALG", by decide +kernel, .cls, by decide, by decide, fun h => absurd rfl h⟩
  · simp only [List.mem_singleton]
    rintro p rfl
    exact ⟨Hdr.KID, b!"KID", by decide +kernel, .ident, by decide, by decide, fun _ => trivial⟩

theorem Sample.fits {alg : Int} {key : Key} {pl : Option Bytes} (h : Spec.ShortProtected (Sample.baseWith alg key none)) (hp : Spec.ShortPayload pl) :
    Spec.Fits (Sample.baseWith alg key pl) := by
  refine ⟨h, ?_, hp, by simp [Sample.baseWith]⟩
  simp [Sample.baseWith, Spec.HeaderWritable, Spec.Writable, Spec.WritableP, Spec.WritableQ, Mode.classes, Spec.IntWritable]
  decide +kernel

/-- Sign1, in the message. -/
example : ∃ out m', Sample.sign1.encode toySig [] true true none = .ok out ∧ decode toySig .any false out = .ok (.sign1 m') ∧
    Sign1.verifySignature toySig { m' with base := m'.base.withKeyAad Sample.ecPubKey b!"aad" } none = .ok true := by
  obtain ⟨out, m', h1, h2, _, _, _, h3⟩ := c90_sign1 toySig_laws (m := Sample.sign1) (rnd := []) (p := b!"hello") (d := none) (allow := false)
    (cls := .any) (i := -7) (by decide) (Sample.madeWith (n := b!"es256") (by decide +kernel)) (Sample.fits ⟨_, rfl, by decide⟩ (by simp [Spec.ShortPayload])) (.inl ⟨rfl, rfl⟩)
    (by decide) rfl rfl (by decide) Sample.signPermits (Sample.canSign _) Sample.sigPair Sample.ecPermits
  exact ⟨out, m', h1, h2, h3⟩

/-- Sign1, detached. -/
example : ∃ out m', Sample.sign1Detached.encode toySig [] true true (some b!"far away") = .ok out ∧ decode toySig .any false out = .ok (.sign1 m') ∧
    Sign1.verifySignature toySig { m' with base := m'.base.withKeyAad Sample.ecPubKey b!"aad" } (some b!"far away") = .ok true := by
  obtain ⟨out, m', h1, h2, _, _, _, h3⟩ := c90_sign1 toySig_laws (m := Sample.sign1Detached) (rnd := []) (p := b!"far away") (d := some b!"far away")
    (allow := false) (cls := .any) (i := -7) (by decide) (Sample.madeWith (n := b!"es256") (by decide +kernel))
    (Sample.fits ⟨_, rfl, by decide⟩ (by simp [Spec.ShortPayload])) (.inr ⟨rfl, rfl⟩)
    (by decide) rfl rfl (by decide) Sample.signPermits (Sample.canSign _) Sample.sigPair Sample.ecPermits
  exact ⟨out, m', h1, h2, h3⟩

/-- A COSE_Sign message with as many signers as one likes. -/
example (n : Nat) (hn : n < 2 ^ 32) : ∃ out m', SignMsg.encode toySig (fun _ => [])
      { base := Sample.sign1.base, signers := List.replicate (n + 1) (Sample.baseWith (-7) Sample.ecKey (some [])) } true none = .ok out ∧
    decode toySig .any false out = .ok (.sign m') ∧ m'.signers.length = n + 1 ∧
    ∀ s' ∈ m'.signers, signerVerify toySig m'.base (s'.withKeyAad Sample.ecPubKey b!"aad") none = .ok true := by
  have hm : ∀ pl, Spec.Made toySig false (Sample.baseWith (-7) Sample.ecKey pl) := fun pl => Sample.madeWith (n := b!"es256") (by decide +kernel)
  have hf : ∀ pl, Spec.ShortPayload pl → Spec.Fits (Sample.baseWith (-7) Sample.ecKey pl) := fun pl => Sample.fits ⟨_, rfl, by decide⟩
  obtain ⟨out, m', h1, h2, _, _, _, h3, h4⟩ := c90_sign toySig_laws (rnd := fun _ => []) (p := b!"hello") (d := none) (allow := false) (cls := .any)
    (m := { base := Sample.sign1.base, signers := List.replicate (n + 1) (Sample.baseWith (-7) Sample.ecKey (some [])) })
    (by decide) (hm _) (hf _ (by simp [Spec.ShortPayload])) (.inl ⟨rfl, rfl⟩) (by decide) (by simp [List.replicate_succ])
    (by simp only [List.length_replicate]; omega) (fun j s hj => by
      have := List.mem_of_getElem? hj
      simp only [List.mem_replicate] at this
      obtain ⟨_, rfl⟩ := this
      have hf := hf (some []) (by simp [Spec.ShortPayload])
      exact ⟨hm _, hf.prot, hf.unprot, hf.aad, -7, _, rfl, rfl, by decide, Sample.signPermits, Sample.canSign _⟩)
  simp only [List.length_replicate] at h3
  refine ⟨out, m', h1, h2, h3, fun s' hs' => ?_⟩
  obtain ⟨j, hj⟩ := List.getElem?_of_mem hs'
  have hl : j < n + 1 := by
    have := (List.getElem?_eq_some_iff.mp hj).1
    omega
  have hj' : (List.replicate (n + 1) (Sample.baseWith (-7) Sample.ecKey (some [])))[j]? = some (Sample.baseWith (-7) Sample.ecKey (some [])) := by
    simp only [List.getElem?_replicate, hl, if_true]
  exact (h4 j _ s' hj' hj).2.2 (-7) _ _ rfl rfl Sample.sigPair Sample.ecPermits

/-- Mac0. -/
example : ∃ out m1 m', Sample.mac0.encode toy true true = .ok (out, m1) ∧ decode toy .any false out = .ok (.mac0 m') ∧
    Mac0.verifyTag toy { m' with base := m'.base.withKeyAad Sample.symKey b!"aad" } = .ok true := by
  obtain ⟨out, m1, m', h1, h2, _, _, _, h3⟩ := c90_mac0 toy_laws (m := Sample.mac0) (p := b!"hello") (allow := false) (cls := .any) (i := 5) (by decide)
    (Sample.madeWith (n := b!"HMAC_256") (by decide +kernel)) (Sample.fits ⟨_, rfl, by decide⟩ (by simp [Spec.ShortPayload])) rfl rfl rfl
    (Sample.symPermits _ _) rfl (Sample.canTag _) rfl (Sample.symPermits _ _)
  exact ⟨out, m1, m', h1, h2, h3⟩

/-- Mac0 with AES-MAC 128/64. -/
example : ∃ out m1 m', Sample.mac0Aes.encode toy true true = .ok (out, m1) ∧ decode toy .any false out = .ok (.mac0 m') ∧
    Mac0.verifyTag toy { m' with base := m'.base.withKeyAad Sample.symKey b!"aad" } = .ok true := by
  obtain ⟨out, m1, m', h1, h2, _, _, _, h3⟩ := c90_mac0 toy_laws (m := Sample.mac0Aes) (p := b!"hello") (allow := false) (cls := .any) (i := 14) (by decide)
    (Sample.madeWith (n := b!"AES_MAC_128_64") (by decide +kernel)) (Sample.fits ⟨_, rfl, by decide⟩ (by simp [Spec.ShortPayload])) rfl rfl rfl
    (Sample.symPermits _ _) rfl (Sample.canTagAes _) rfl (Sample.symPermits _ _)
  exact ⟨out, m1, m', h1, h2, h3⟩

theorem Sample.madeEnc {key : Option Key} {allow : Bool} : Spec.Made toy allow { Sample.enc0.base with key := key } := by
  refine ⟨{ phdr := .map [(.cls Hdr.Algorithm, .text b!"A128GCM")],
            uhdr := .map [(.int 4, .bytes b!"me"), (.cls Hdr.IV, .bytes (List.replicate 12 1))], allow := false },
    .bytes b!"hello", .bytes b!"aad", none, { Sample.enc0.base with key := none }, ⟨rfl, .inr ⟨_, rfl, plainArgs_of ?_⟩, .inr ⟨_, rfl, plainArgs_of ?_⟩⟩, by simp,
    by decide +kernel, rfl⟩
  · simp only [List.mem_singleton]
    rintro p rfl
    exact ⟨Hdr.Algorithm, b!"ALG", by decide +kernel, .cls, by decide, by decide, fun h => absurd rfl h⟩
  · simp only [List.mem_cons, List.not_mem_nil, or_false]
    rintro p (rfl | rfl)
    · exact ⟨Hdr.KID, b!"KID", by decide +kernel, .ident, by decide, by decide, fun _ => trivial⟩
    · exact ⟨Hdr.IV, b!"IV", by decide +kernel, .cls, by decide, by decide, fun _ => trivial⟩

theorem Sample.fitsEnc {key : Option Key} : Spec.Fits { Sample.enc0.base with key := key } := by
  refine ⟨⟨_, rfl, by decide⟩, ?_, by simp [Spec.ShortPayload, Sample.enc0, Sample.baseWith], by simp [Sample.enc0, Sample.baseWith]⟩
  simp [Sample.enc0, Sample.baseWith, Spec.HeaderWritable, Spec.Writable, Spec.WritableP, Spec.WritableQ, Mode.classes, Spec.IntWritable]
  decide +kernel

/-- Encrypt0. -/
example : ∃ out m', Sample.enc0.encode toy true true = .ok out ∧ decode toy .any false out = .ok (.enc0 m') ∧
    Enc0.decrypt toy { m' with base := m'.base.withKeyAad Sample.symKey b!"aad" } = .ok b!"hello" := by
  obtain ⟨out, m', h1, h2, _, _, h3⟩ := c90_enc0 toy_laws (m := Sample.enc0) (p := b!"hello") (allow := false) (cls := .any) (i := 1)
    (nonce := List.replicate 12 1) (by decide) Sample.madeEnc Sample.fitsEnc rfl rfl rfl rfl
    (Sample.symPermits _ _) rfl (Sample.canSeal _ _) rfl rfl (Sample.symPermits _ _)
  exact ⟨out, m', h1, h2, h3⟩

theorem Sample.usualDirect (p : Base) (oid : Nat) (hp : p.tstr = false) : Spec.UsualDirect toy false p (Sample.directRcpt oid) := by
  refine ⟨?_, rfl, rfl, ⟨-6, by decide, rfl, fun _ => rfl⟩, ⟨[], rfl, by decide⟩, ?_⟩
  · refine ⟨{ uhdr := .map [(.cls Hdr.Algorithm, .text b!"direct"), (.text b!"kid", .bytes b!"our-secret")], allow := false }, .bytes [], .bytes [], none,
      (Sample.directRcpt oid).base, ⟨rfl, .inl rfl, .inr ⟨_, rfl, plainArgs_of ?_⟩⟩, by simp, ?_, rfl⟩
    · simp only [List.mem_cons, List.not_mem_nil, or_false]
      rintro p (rfl | rfl)
      · exact ⟨Hdr.Algorithm, b!"ALG", by decide +kernel, .cls, by decide, by decide, fun h => absurd rfl h⟩
      · exact ⟨Hdr.KID, b!"KID", by decide +kernel, .name (.lower 75 (by decide) (by decide) (.lower 73 (by decide) (by decide) (.lower 68 (by decide) (by decide) .nil))), by decide, by decide, fun _ => trivial⟩
    · show _ = Except.ok ({ uhdr := _, payload := _ } : Base)
      decide +kernel
  · simp [Sample.directRcpt, Rcpt.base, Spec.HeaderWritable, Spec.Writable, Spec.WritableP, Spec.WritableQ, Mode.classes, Spec.IntWritable, hp]
    decide +kernel

/-- A COSE_Mac message with two Direct recipients. -/
example : ∃ out m1 m', Mac.encode toy Sample.rand { base := Sample.mac0.base, recipients := some [Sample.directRcpt 1, Sample.directRcpt 2] } true true = .ok (out, m1) ∧
    decode toy .any false out = .ok (.mac m') ∧ Mac.verifyTag toy { m' with base := m'.base.withKeyAad Sample.symKey b!"aad" } = .ok true := by
  obtain ⟨out, m1, m', rs, h1, h2, _, _, _, _, _, h3⟩ := c90_mac_direct toy_laws (R := Sample.rand) (p := b!"hello") (allow := false) (cls := .any) (i := 5)
    (m := { base := Sample.mac0.base, recipients := some [Sample.directRcpt 1, Sample.directRcpt 2] }) (by decide)
    (Sample.madeWith (n := b!"HMAC_256") (by decide +kernel)) (Sample.fits ⟨_, rfl, by decide⟩ (by simp [Spec.ShortPayload])) rfl rfl (by simp) (by simp)
    (by intro r hr
        simp only [List.mem_cons, List.not_mem_nil, or_false] at hr
        rcases hr with rfl | rfl <;> exact Sample.usualDirect _ _ rfl) rfl rfl
    (Sample.symPermits _ _) rfl (Sample.canTag _) rfl (Sample.symPermits _ _)
  exact ⟨out, m1, m', h1, h2, h3⟩

/-- A COSE_Encrypt message with two Direct recipients. -/
example : ∃ out m1 m', Enc.encode toy Sample.rand { base := Sample.enc0.base, recipients := [Sample.directRcpt 1, Sample.directRcpt 2] } true true = .ok (out, m1) ∧
    decode toy .any false out = .ok (.enc m') ∧
    ∀ r ∈ m'.recipients, ∃ m'', Enc.decrypt toy { m' with base := m'.base.withKeyAad Sample.symKey b!"aad" } r = .ok (b!"hello", m'') := by
  obtain ⟨out, m1, m', h1, h2, _, _, _, h3⟩ := c90_enc_direct toy_laws (R := Sample.rand) (p := b!"hello") (allow := false) (cls := .any) (i := 1)
    (nonce := List.replicate 12 1) (m := { base := Sample.enc0.base, recipients := [Sample.directRcpt 1, Sample.directRcpt 2] }) (by decide)
    Sample.madeEnc Sample.fitsEnc rfl (by simp) (by simp)
    (by intro r hr
        simp only [List.mem_cons, List.not_mem_nil, or_false] at hr
        rcases hr with rfl | rfl <;> exact Sample.usualDirect _ _ rfl) rfl rfl rfl
    (Sample.symPermits _ _) rfl (Sample.canSeal _ _) rfl rfl (Sample.symPermits _ _)
  exact ⟨out, m1, m', h1, h2, h3⟩

theorem Sample.usualWrap (p : Base) (oid : Nat) (hp : p.tstr = false) : Spec.UsualWrap toy false p (Sample.rand.cek 16) (Sample.kwRcpt oid) := by
  refine ⟨?_, rfl, rfl, rfl, rfl, ?_, ⟨-3, 16, Sample.symKey, List.replicate 16 5, _, rfl, by decide, rfl, permits_plain (i := -3) (Sample.symPermits _ Op.Wrap),
    rfl, by decide, rfl, by rw [List.length_append, fit_length]; decide⟩⟩
  · refine ⟨{ uhdr := .map [(.cls Hdr.Algorithm, .text b!"a128kw"), (.text b!"kid", .bytes b!"kek")], allow := false }, .bytes [], .bytes [], some Sample.symKey,
      (Sample.kwRcpt oid).base, ⟨rfl, .inl rfl, .inr ⟨_, rfl, plainArgs_of ?_⟩⟩, by simp, ?_, rfl⟩
    · simp only [List.mem_cons, List.not_mem_nil, or_false]
      rintro p (rfl | rfl)
      · exact ⟨Hdr.Algorithm, b!"ALG", by decide +kernel, .cls, by decide, by decide, fun h => absurd rfl h⟩
      · exact ⟨Hdr.KID, b!"KID", by decide +kernel, .name (.lower 75 (by decide) (by decide) (.lower 73 (by decide) (by decide) (.lower 68 (by decide) (by decide) .nil))), by decide, by decide, fun _ => trivial⟩
    · show _ = Except.ok ({ uhdr := _, payload := _, key := _ } : Base)
      decide +kernel
  · simp [Sample.kwRcpt, Rcpt.base, Spec.HeaderWritable, Spec.Writable, Spec.WritableP, Spec.WritableQ, Mode.classes, Spec.IntWritable, hp]
    decide +kernel

/-- A COSE_Encrypt message with two A128KW recipients; the second decrypts. -/
example : ∃ out m1 m' r', Sample.encKw.encode toy Sample.rand true true = .ok (out, m1) ∧ decode toy .any false out = .ok (.enc m') ∧ m'.recipients[1]? = some r' ∧
    ∃ m'', Enc.decrypt toy { base := { m'.base with aad := b!"aad" }, recipients := m'.recipients.set 1 (r'.receiver Sample.symKey []) } (r'.receiver Sample.symKey []) =
      .ok (b!"hello", m'') := by
  obtain ⟨out, m1, m', h1, h2, _, _, h3, h4⟩ := c90_enc_wrapped toy_laws (R := Sample.rand) (m := Sample.encKw) (p := b!"hello") (allow := false) (cls := .any) (i := 1)
    (bits := 128) (nonce := List.replicate 12 1) (by decide) Sample.madeEnc Sample.fitsEnc rfl (fun n => List.length_replicate ..) rfl (by simp [Sample.encKw])
    (by simp [Sample.encKw])
    (by intro r hr
        simp only [Sample.encKw, List.mem_cons, List.not_mem_nil, or_false] at hr
        rcases hr with rfl | rfl <;> exact Sample.usualWrap _ _ rfl) rfl rfl (Sample.canSeal _ _)
  have hl : 1 < m'.recipients.length := by rw [h3]; decide
  exact ⟨out, m1, m', _, h1, h2, List.getElem?_eq_getElem hl, h4 1 (Sample.kwRcpt 2) _ Sample.symKey Sample.symKey rfl (List.getElem?_eq_getElem hl) rfl rfl⟩

end Cose
