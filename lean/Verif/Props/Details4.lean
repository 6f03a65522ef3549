import Verif.Props.KeyTwice
import Verif.Props.Tbs
import Verif.Props.Decode
import Verif.Props.X509
import Verif.Props.RoundTrip
/-!
# Further details (C03, C04, C05, C06, C08, C09, C17, C22, C50)
-/
set_option autoImplicit false
namespace Cose

/-! ### Progress: the authenticated structures are produced -/

/-- C03, progress: the structure of a signer is produced whenever there is exactly one payload, both protected headers can be
encoded, and no field is longer than CBOR can express. -/
theorem c03_signer_produces {p s : Base} {det : Option Bytes} {e pl : Bytes} {q : Option Bytes} (h1 : p.phdrEncoded = .ok e)
    (h2 : Spec.SignerProtected s q) (h3 : Spec.SignedPayload p.payload det pl) (he : e.length < 2 ^ 64)
    (hq : ∀ b, q = some b → b.length < 2 ^ 64) (ha : s.aad.length < 2 ^ 64) (hl : pl.length < 2 ^ 64) :
    signerStructure p s det = .ok (Spec.sigStructure e q s.aad pl) := by
  have key : dumpsPlain (.arr (.text b!"Signature" :: (Spec.sigFields e q s.aad pl).map .bytes)) =
      .ok (Spec.sigStructure e q s.aad pl) := by
    rw [spec_sig]
    refine dumpsPlain_struct_ok (by decide) (by decide) ?_ ?_
    · cases q <;> simp [Spec.sigFields]
    · intro x hx
      cases q with
      | none =>
        simp only [Spec.sigFields, List.mem_cons, List.not_mem_nil, or_false] at hx
        rcases hx with rfl | rfl | rfl <;> assumption
      | some b =>
        simp only [Spec.sigFields, List.mem_cons, List.not_mem_nil, or_false] at hx
        rcases hx with rfl | rfl | rfl | rfl
        · exact he
        · exact hq _ rfl
        · exact ha
        · exact hl
  rw [← key]
  rcases h2 with ⟨h2, rfl⟩ | ⟨h2, b, h4, rfl⟩
  · simp [signerStructure, h1, h2, choosePayload_ok.mpr h3, Spec.sigFields]
  · have : s.phdr.length ≠ 0 := fun e => h2 (List.length_eq_zero_iff.mp e)
    simp [signerStructure, h1, h2, h4, choosePayload_ok.mpr h3, Spec.sigFields]

/-- C04, progress. -/
theorem c04_mac_produces {ctx : Bytes} (hc : ctx = b!"MAC0" ∨ ctx = b!"MAC") {m : Base} {p pl : Bytes} (h1 : Spec.AuthProtected m p)
    (h2 : m.payload = some pl) (hp : p.length < 2 ^ 64) (ha : m.aad.length < 2 ^ 64) (hl : pl.length < 2 ^ 64) :
    macStructure ctx m = .ok (Spec.macStructure ctx p m.aad pl) := by
  simp only [macStructure, baseStructure_of h1, h2, ok_bind]
  refine dumpsPlain_struct_ok (l := [p, m.aad, pl]) ?_ ?_ (by simp) ?_
  · rcases hc with rfl | rfl <;> decide
  · rcases hc with rfl | rfl <;> decide
  · intro x hx
    simp only [List.mem_cons, List.not_mem_nil, or_false] at hx
    rcases hx with rfl | rfl | rfl <;> assumption

/-- C05, progress. -/
theorem c05_aead_produces {ctx : Bytes} (hc : ctx = b!"Encrypt0" ∨ ctx = b!"Encrypt") {m : Base} {p : Bytes} (h1 : Spec.AuthProtected m p)
    (hp : p.length < 2 ^ 64) (ha : m.aad.length < 2 ^ 64) :
    encStructure ctx m = .ok (Spec.encStructure ctx p m.aad) := by
  simp only [encStructure, baseStructure_of h1, ok_bind]
  refine dumpsPlain_struct_ok (l := [p, m.aad]) ?_ ?_ (by simp) ?_
  · rcases hc with rfl | rfl <;> decide
  · rcases hc with rfl | rfl <;> decide
  · intro x hx
    simp only [List.mem_cons, List.not_mem_nil, or_false] at hx
    rcases hx with rfl | rfl <;> assumption

example : (∃ e q, Sample.sign.base.phdrEncoded = .ok e ∧ Spec.SignerProtected (Sample.sign.signers[0]) q) ∧
    Spec.AuthProtected Sample.mac0Aes.base [0xa1, 0x01, 0x0e] ∧ Spec.AuthProtected Sample.enc0.base [0xa1, 0x01, 0x01] := by
  refine ⟨⟨_, _, rfl, .inr ⟨by decide +kernel, _, rfl, rfl⟩⟩, .inr ⟨by decide +kernel, by decide +kernel⟩, .inr ⟨by decide +kernel, by decide +kernel⟩⟩

/-! ### C17: the recipients of a COSE_Mac message -/

/-- For every recipient of a COSE_Mac message. -/
theorem c17_mac_recipients {C : Crypto} {cls : DecCls} {allow : Bool} {bs : Bytes} {n : Nat} {p u pl t : Val} {sg rest : List Val}
    {m : Mac} (hl : loads bs = .ok (.tag n (.arr (p :: u :: pl :: t :: .arr sg :: rest))))
    (h : decode C cls allow bs = .ok (.mac m)) {rs : List Rcpt} (hrs : m.recipients = some rs) :
    rs.length = sg.length ∧ ∀ (i : Nat) (r : Rcpt), rs[i]? = some r → ∃ so : List Val, sg[i]? = some (.arr so) ∧
      ∀ pe t, so = .bytes pe :: t → r.base.phdrEncoded = .ok pe ∧
        (∀ p, Spec.AuthProtected r.base p → r.base.phdr ≠ [] → p = pe) ∧ Spec.CurrentEncoding C r.base pe := by
  obtain ⟨n', obj, k, h1, _, h2, _, hk⟩ := decode_iff.mp h
  rw [hl] at h1
  simp at h1
  obtain ⟨_, rfl⟩ := h1
  simp [Msg.kind] at hk; subst hk
  simp only [fromObj, Mac.fromObj, bind_eq_ok] at h2
  obtain ⟨m', ⟨⟨b, o⟩, h3, ⟨t', o'⟩, h3', h4⟩, h8⟩ := h2
  simp at h8; subst h8
  obtain ⟨_, _, he, _⟩ := baseFromObj_iff.mp h3
  simp at he
  obtain ⟨_, _, _, he⟩ := he
  rw [pop0_ok] at h3'
  simp only at h3' h4
  rw [h3'] at he
  simp at he
  obtain ⟨rfl, he⟩ := he
  split at h4
  · rename_i rs' hrs'
    simp at h4; subst h4
    simp at hrs; subst hrs
    obtain ⟨v, rest', l, h5, h6, h7⟩ := recipientsOf_ok hrs'
    rw [← he] at h5
    simp at h5
    obtain ⟨rfl, rfl⟩ := h5
    simp [iterRecipients] at h6
    subst h6
    refine ⟨(createRecipients_all2 h7).length.symm, fun i r hr => ?_⟩
    obtain ⟨v, hv, so, r', _, _, rfl, hb, _⟩ := (createRecipients_all2 h7).get i r hr
    refine ⟨so, hv, ?_⟩
    rintro pe t rfl
    exact baseFromObj_verbatim hb
  · split at h4 <;> simp at h4
    subst h4
    simp at hrs

/-! ### Messages made by the constructors, with COSE keys in their headers -/

/-- Headers with serialisable values, as passed to a constructor, under any of their names: the algorithm in any form, COSE keys made by
the key constructors, other registered headers and unknown ones. -/
def Spec.KeyedArgs (C : Crypto) (d : Dict) : Prop :=
  ∀ k v, (k, v) ∈ d →
    (∃ c n, (c, n) ∈ registry .hdr ∧ Spec.Alias c n k ∧
      ((c = Hdr.EphemeralKey ∨ c = Hdr.StaticKey) ∧ (∃ key, v = .key key.kind key.store ∧ Spec.ConstructedKey C key) ∨
       c ≠ Hdr.EphemeralKey ∧ c ≠ Hdr.StaticKey ∧ (c ≠ Hdr.Algorithm → PyOK v))) ∨
    (Spec.ForeignLabel k ∧ PyOK v)

/-- Parsed headers arrive as they are. -/
theorem hdrSend_keyed {C : Crypto} {tstr allow : Bool} {d h : Dict} (hd : Spec.KeyedArgs C d)
    (e : parseHeader C allow d = .ok h) : Spec.HdrSend C tstr allow h h := by
  refine ⟨parseAttrs_nodup (by simp [KeysNodup]) e, ?_⟩
  have key := parseAttrs_inv (P := fun k v => Spec.SendEntry C tstr allow (k, v) (k, v)) ?_ ?_ (by simp) e
  · clear e hd
    induction h with
    | nil => exact .nil
    | cons p t ih => exact .cons (key p (by simp)) (ih (fun p hp => key p (List.mem_cons_of_mem _ hp)))
  · intro k w a w' h1 h2 he
    by_cases hk : ∃ c, k = .cls c
    · obtain ⟨c, rfl⟩ := hk
      rw [keq_cls_left] at he; subst he; exact h2
    · have ha : ¬ ∃ c, a = .cls c := by
        rintro ⟨c, rfl⟩
        rw [keq_cls_right] at he
        exact hk ⟨c, he⟩
      cases h1 with
      | foreign ha' hf _ =>
        cases h2 with
        | foreign _ _ hv => exact .foreign ha' hf hv
        | alg _ => exact absurd ⟨_, rfl⟩ ha
        | plain _ _ _ _ _ _ => exact absurd ⟨_, rfl⟩ ha
        | key _ _ _ _ => exact absurd ⟨_, rfl⟩ ha
      | alg _ => exact absurd ⟨_, rfl⟩ hk
      | plain _ _ _ _ _ _ => exact absurd ⟨_, rfl⟩ hk
      | key _ _ _ _ => exact absurd ⟨_, rfl⟩ hk
  · intro k v a w hm h1 h2
    rcases hd k v hm with ⟨c, n, hc, hal, ⟨hck, key, rfl, hkey⟩ | ⟨n1, n2, hv⟩⟩ | ⟨hf, hv⟩
    · simp only [fromIdKey, alias_resolve hc hal] at h1
      simp at h1; subst h1
      have hkp : c.reg = .hdr ∧ (c.ident = -1 ∨ c.ident = -2) := by
        rcases hck with rfl | rfl
        · exact ⟨rfl, .inl rfl⟩
        · exact ⟨rfl, .inr rfl⟩
      simp only [parsedVal, hdrParser, hkp, and_self, if_true, fromDictVal, constructed_own hkey, ok_bind, Key.toVal, Except.ok.injEq] at h2
      subst h2
      obtain ⟨w, w1, w2, w3⟩ := (constructed_sent (m := .base tstr) (by simp) hkey).header
      exact .key (k := { key with extra := [] }) hck w1 w2 w3
    · simp only [fromIdKey, alias_resolve hc hal] at h1
      simp at h1; subst h1
      simp only [parsedVal] at h2
      by_cases hA : c = Hdr.Algorithm
      · subst hA
        rw [hdrParser_alg] at h2
        exact .alg (fromId_algValue v h2)
      · obtain ⟨rfl, hvv⟩ := parser_validValue (hdr_reg hc) hA n1 n2 h2
        exact .plain hc hA n1 n2 (hv hA) hvv
    · have hr := unregistered_iff.mp hf.unregistered
      simp only [fromIdKey, hr] at h1
      split at h1 <;> simp at h1
      rename_i ha
      subst h1
      have : parsedVal (hdrParser C) k v = .ok v := by
        have : ∀ c, k ≠ .cls c := by rintro c rfl; exact hf.plain
        cases k <;> first | rfl | exact absurd rfl (this _)
      rw [this] at h2
      simp at h2; subst h2
      exact .foreign ha hf hv

/-- What the constructors do with header dictionaries. -/
theorem constructed_headers {C : Crypto} {a : HdrArgs} {d e : Dict} {pl aad : Val} {key : Option Key} {b : Base}
    (hp : a.phdrEncoded = .none) (h1 : a.phdr = .map d) (h2 : a.uhdr = .map e) (h : initMsg C a pl aad key = .ok b) :
    parseHeader C a.allow d = .ok b.phdr ∧ parseHeader C a.allow e = .ok b.uhdr ∧ b.phdrEnc = none ∧ b.key = key ∧ pl = optBytes b.payload ∧
      aad = .bytes b.aad := by
  obtain ⟨b0, p, x, h0, rfl, rfl, rfl⟩ := initMsg_ok h
  obtain ⟨u1, u2, u3⟩ := (initBase_dict hp).mp h0
  rw [h1] at u1; rw [h2] at u2
  rcases u1.inv with ⟨h, _⟩ | ⟨_, h, u1⟩
  · simp at h
  simp at h; subst h
  rcases u2.inv with ⟨h, _⟩ | ⟨_, h, u2⟩
  · simp at h
  simp at h; subst h
  exact ⟨u1, u2, by rw [u3], rfl, rfl, rfl⟩

theorem sendable_keyed {C : Crypto} {a : HdrArgs} {d e : Dict} {pl aad : Val} {key : Option Key} {b : Base}
    (hp : a.phdrEncoded = .none) (h1 : a.phdr = .map d) (h2 : a.uhdr = .map e) (hd : Spec.KeyedArgs C d)
    (he : Spec.KeyedArgs C e) (h : initMsg C a pl aad key = .ok b) (tstr : Bool) :
    Spec.Sendable C tstr a.allow b b.phdr b.uhdr := by
  obtain ⟨u1, u2, u3, _⟩ := constructed_headers hp h1 h2 h
  exact ⟨.inl ⟨u3, hdrSend_keyed hd u1⟩, hdrSend_keyed he u2⟩

/-- C06 for messages made by the constructor: every header, COSE keys included, arrives unchanged. -/
theorem c06_constructed_keys {C : Crypto} (L : C.Laws) {a : HdrArgs} {dp du : Dict} {pl aad : Val} {m : Sign1} {rnd out : Bytes}
    {d : Option Bytes} {cls : DecCls} {alg : Val} {sk vk : Key} (hcls : cls.accepts .sign1 = true)
    (h0 : a.phdrEncoded = .none) (h1 : a.phdr = .map dp) (h2 : a.uhdr = .map du) (hdp : Spec.KeyedArgs C dp)
    (hdu : Spec.KeyedArgs C du) (hm : Sign1.new C a pl aad (some sk) = .ok m) (h : m.encode C rnd true true d = .ok out)
    (halg : m.base.getAttr Hdr.Algorithm = .ok alg) (hk : Spec.KeyPair C alg sk vk)
    (hp : Spec.Permits vk vk.kind alg [Op.Verify]) :
    ∃ m', decode C cls a.allow out = .ok (.sign1 m') ∧ m'.base.phdr = m.base.phdr ∧ m'.base.uhdr = m.base.uhdr ∧
      m'.base.payload = m.base.payload ∧
      Sign1.verifySignature C { m' with base := m'.base.withKeyAad vk m.base.aad } d = .ok true := by
  simp only [Sign1.new, bind_eq_ok] at hm
  obtain ⟨b, hb, hm⟩ := hm
  simp at hm; subst hm
  exact c06_sign1_roundtrip L hcls (sendable_keyed h0 h1 h2 hdp hdu hb _) h halg (constructed_headers h0 h1 h2 hb).2.2.2.1 hk hp

/-- C08 for messages made by the constructor. -/
theorem c08_constructed_keys {C : Crypto} {a : HdrArgs} {dp du : Dict} {pl aad : Val} {m m1 : Mac0} {out : Bytes} {cls : DecCls}
    {alg : Val} {k rk : Key} (hcls : cls.accepts .mac0 = true) (h0 : a.phdrEncoded = .none) (h1 : a.phdr = .map dp) (h2 : a.uhdr = .map du)
    (hdp : Spec.KeyedArgs C dp) (hdu : Spec.KeyedArgs C du) (hm : Mac0.new C a pl aad (some k) = .ok m)
    (h : m.encode C true true = .ok (out, m1)) (halg : m.base.getAttr Hdr.Algorithm = .ok alg)
    (hK : rk.symK = k.symK) (hp : Spec.Permits rk .sym alg [Op.MacVerify]) :
    ∃ m', decode C cls a.allow out = .ok (.mac0 m') ∧ m'.base.phdr = m.base.phdr ∧ m'.base.uhdr = m.base.uhdr ∧
      m'.base.payload = m.base.payload ∧
      Mac0.verifyTag C { m' with base := m'.base.withKeyAad rk m.base.aad } = .ok true := by
  simp only [Mac0.new, bind_eq_ok] at hm
  obtain ⟨b, hb, hm⟩ := hm
  simp at hm; subst hm
  exact c08_mac0_roundtrip hcls (sendable_keyed h0 h1 h2 hdp hdu hb _) h halg (constructed_headers h0 h1 h2 hb).2.2.2.1 hK hp

/-- C09 for messages made by the constructor. -/
theorem c09_constructed_keys {C : Crypto} (L : C.Laws) {a : HdrArgs} {dp du : Dict} {pl aad : Val} {m : Enc0} {out : Bytes} {cls : DecCls}
    {alg : Val} {k rk : Key} (hcls : cls.accepts .enc0 = true) (h0 : a.phdrEncoded = .none) (h1 : a.phdr = .map dp) (h2 : a.uhdr = .map du)
    (hdp : Spec.KeyedArgs C dp) (hdu : Spec.KeyedArgs C du) (hm : Enc0.new C a pl aad (some k) = .ok m)
    (h : m.encode C true true = .ok out) (halg : m.base.getAttr Hdr.Algorithm = .ok alg)
    (hK : rk.symK = k.symK) (hiv : rk.baseIv = k.baseIv) (hp : Spec.Permits rk .sym alg [Op.Decrypt]) :
    ∃ m' p, decode C cls a.allow out = .ok (.enc0 m') ∧ m'.base.phdr = m.base.phdr ∧ m'.base.uhdr = m.base.uhdr ∧
      m.base.payload = some p ∧
      Enc0.decrypt C { m' with base := m'.base.withKeyAad rk m.base.aad } = .ok p := by
  simp only [Enc0.new, bind_eq_ok] at hm
  obtain ⟨b, hb, hm⟩ := hm
  simp at hm; subst hm
  exact c09_enc0_roundtrip L hcls (sendable_keyed h0 h1 h2 hdp hdu hb _) h halg (constructed_headers h0 h1 h2 hb).2.2.2.1 hK hiv hp

/-! ### C22: unknown headers survive -/

/-- The entry is the last one of the dictionary with its label. -/
def Spec.LastEntry (d : Dict) (k v : Val) : Prop := ∃ h1 h2, d = h1 ++ (k, v) :: h2 ∧ ∀ p ∈ h2, keq p.1 k = false

theorem unknown_kept {C : Crypto} {a : HdrArgs} {d h : Dict} {k v : Val} (ha : a.allow = true) (hk : Spec.ForeignLabel k)
    (hl : Spec.LastEntry d k v) (e : parseHeader C a.allow d = .ok h) : dget h k = some v := by
  obtain ⟨h1, h2, rfl, hlast⟩ := hl
  rw [ha] at e
  exact c22_unknown_kept hk.unregistered (by rintro c rfl; exact hk.plain) hlast e

/-- **C22**: an unknown header that is passed to the constructor of a COSE_Sign1 message is found, with its value unchanged, in the
message that the receiver decodes. -/
theorem c22_survives_sign1 {C : Crypto} (L : C.Laws) {a : HdrArgs} {dp du : Dict} {pl aad : Val} {m : Sign1} {rnd out : Bytes}
    {d : Option Bytes} {cls : DecCls} {alg : Val} {sk vk : Key} (hcls : cls.accepts .sign1 = true) (ha : a.allow = true)
    (h0 : a.phdrEncoded = .none) (h1 : a.phdr = .map dp) (h2 : a.uhdr = .map du) (hdp : Spec.KeyedArgs C dp)
    (hdu : Spec.KeyedArgs C du) (hm : Sign1.new C a pl aad (some sk) = .ok m) (h : m.encode C rnd true true d = .ok out)
    (halg : m.base.getAttr Hdr.Algorithm = .ok alg) (hk : Spec.KeyPair C alg sk vk)
    (hp : Spec.Permits vk vk.kind alg [Op.Verify]) :
    ∃ m', decode C cls true out = .ok (.sign1 m') ∧ ∀ k v, Spec.ForeignLabel k →
      (Spec.LastEntry dp k v → dget m'.base.phdr k = some v) ∧ (Spec.LastEntry du k v → dget m'.base.uhdr k = some v) := by
  obtain ⟨m', e1, e2, e3, _⟩ := c06_constructed_keys L hcls h0 h1 h2 hdp hdu hm h halg hk hp
  simp only [Sign1.new, bind_eq_ok] at hm
  obtain ⟨b, hb, hm⟩ := hm
  simp at hm; subst hm
  obtain ⟨u1, u2, _⟩ := constructed_headers h0 h1 h2 hb
  exact ⟨m', ha ▸ e1, fun k v hf => ⟨fun hl => by rw [e2]; exact unknown_kept ha hf hl u1, fun hl => by rw [e3]; exact unknown_kept ha hf hl u2⟩⟩

/-- **C22** for COSE_Mac0. -/
theorem c22_survives_mac0 {C : Crypto} {a : HdrArgs} {dp du : Dict} {pl aad : Val} {m m1 : Mac0} {out : Bytes} {cls : DecCls}
    {alg : Val} {k rk : Key} (hcls : cls.accepts .mac0 = true) (ha : a.allow = true) (h0 : a.phdrEncoded = .none) (h1 : a.phdr = .map dp)
    (h2 : a.uhdr = .map du) (hdp : Spec.KeyedArgs C dp) (hdu : Spec.KeyedArgs C du) (hm : Mac0.new C a pl aad (some k) = .ok m)
    (h : m.encode C true true = .ok (out, m1)) (halg : m.base.getAttr Hdr.Algorithm = .ok alg)
    (hK : rk.symK = k.symK) (hp : Spec.Permits rk .sym alg [Op.MacVerify]) :
    ∃ m', decode C cls true out = .ok (.mac0 m') ∧ ∀ k v, Spec.ForeignLabel k →
      (Spec.LastEntry dp k v → dget m'.base.phdr k = some v) ∧ (Spec.LastEntry du k v → dget m'.base.uhdr k = some v) := by
  obtain ⟨m', e1, e2, e3, _⟩ := c08_constructed_keys hcls h0 h1 h2 hdp hdu hm h halg hK hp
  simp only [Mac0.new, bind_eq_ok] at hm
  obtain ⟨b, hb, hm⟩ := hm
  simp at hm; subst hm
  obtain ⟨u1, u2, _⟩ := constructed_headers h0 h1 h2 hb
  exact ⟨m', ha ▸ e1, fun k v hf => ⟨fun hl => by rw [e2]; exact unknown_kept ha hf hl u1, fun hl => by rw [e3]; exact unknown_kept ha hf hl u2⟩⟩

/-- **C22** for COSE_Encrypt0. -/
theorem c22_survives_enc0 {C : Crypto} (L : C.Laws) {a : HdrArgs} {dp du : Dict} {pl aad : Val} {m : Enc0} {out : Bytes} {cls : DecCls}
    {alg : Val} {k rk : Key} (hcls : cls.accepts .enc0 = true) (ha : a.allow = true) (h0 : a.phdrEncoded = .none) (h1 : a.phdr = .map dp)
    (h2 : a.uhdr = .map du) (hdp : Spec.KeyedArgs C dp) (hdu : Spec.KeyedArgs C du) (hm : Enc0.new C a pl aad (some k) = .ok m)
    (h : m.encode C true true = .ok out) (halg : m.base.getAttr Hdr.Algorithm = .ok alg)
    (hK : rk.symK = k.symK) (hiv : rk.baseIv = k.baseIv) (hp : Spec.Permits rk .sym alg [Op.Decrypt]) :
    ∃ m', decode C cls true out = .ok (.enc0 m') ∧ ∀ k v, Spec.ForeignLabel k →
      (Spec.LastEntry dp k v → dget m'.base.phdr k = some v) ∧ (Spec.LastEntry du k v → dget m'.base.uhdr k = some v) := by
  obtain ⟨m', p, e1, e2, e3, _⟩ := c09_constructed_keys L hcls h0 h1 h2 hdp hdu hm h halg hK hiv hp
  simp only [Enc0.new, bind_eq_ok] at hm
  obtain ⟨b, hb, hm⟩ := hm
  simp at hm; subst hm
  obtain ⟨u1, u2, _⟩ := constructed_headers h0 h1 h2 hb
  exact ⟨m', ha ▸ e1, fun k v hf => ⟨fun hl => by rw [e2]; exact unknown_kept ha hf hl u1, fun hl => by rw [e3]; exact unknown_kept ha hf hl u2⟩⟩

/-- A MAC message with an unknown header in each map and a COSE key in the unprotected one. -/
def Sample.keyedArgs : HdrArgs :=
  { phdr := .map [(.text b!"alg", .text b!"hmac_256"), (.int 999, .bytes [7])],
    uhdr := .map [(.int (-2), Sample.symKey.toVal), (.text b!"note", .arr [.int 1])] }

example : ∃ dp du, Sample.keyedArgs.phdr = .map dp ∧ Sample.keyedArgs.uhdr = .map du ∧ Sample.keyedArgs.allow = true ∧
    Spec.KeyedArgs toy dp ∧ Spec.KeyedArgs toy du ∧ Spec.LastEntry dp (.int 999) (.bytes [7]) ∧ Spec.ForeignLabel (.int 999) ∧
    (do let m ← Mac0.new toy Sample.keyedArgs (.bytes [1]) (.bytes []) (some Sample.symKey)
        let r ← m.encode toy true true
        .ok (decide (r.1 ≠ [])) : Res Bool) = .ok true := by
  refine ⟨_, _, rfl, rfl, rfl, ?_, ?_, ⟨[_], [], rfl, by simp⟩, foreign_int (by decide +kernel), by decide +kernel⟩
  · intro k v h
    have h : (k, v) = (.text b!"alg", .text b!"hmac_256") ∨ (k, v) = (.int 999, .bytes [7]) := by simpa using h
    rcases h with e | e <;> cases e
    · exact .inl ⟨Hdr.Algorithm, b!"ALG", by decide +kernel,
        .name (.lower 65 (by decide) (by decide) (.lower 76 (by decide) (by decide) (.lower 71 (by decide) (by decide) .nil))),
        .inr ⟨by decide, by decide, fun h => absurd rfl h⟩⟩
    · exact .inr ⟨foreign_int (by decide +kernel), trivial⟩
  · intro k v h
    have h : (k, v) = (.int (-2), Sample.symKey.toVal) ∨ (k, v) = (.text b!"note", .arr [.int 1]) := by simpa using h
    rcases h with e | e <;> cases e
    · refine .inl ⟨Hdr.StaticKey, b!"STATIC_KEY", by decide +kernel, .ident, .inl ⟨.inr rfl, Sample.symKey, rfl, ?_⟩⟩
      exact ⟨[], (by intro k v h; cases h), .bytes (List.replicate 16 5), by decide +kernel⟩
    · exact .inr ⟨⟨(by simp only [PyOK]; decide), unregistered_iff.mpr (by decide +kernel), fun p _ => by simp [keq, norm]⟩, ⟨trivial, trivial⟩⟩

/-! ### C50 -/

/-- C50: any thumbprint with a registered algorithm and a byte string is read back as itself from a message; anything may follow. -/
theorem c50_roundtrip_any {c : Cls} {n d w rest : Bytes} (hc : (c, n) ∈ registry .alg)
    (hw : dumps fullname .ident (X5T.encode ⟨.cls c, .bytes d⟩) = .ok w) :
    (do let item ← loads (w ++ rest); X5T.decode item) = .ok ⟨.cls c, .bytes d⟩ := by
  have hs : subst fullname .ident (X5T.encode ⟨.cls c, .bytes d⟩) = .ok (.arr [.int c.ident, .bytes d]) := by
    simp [X5T.encode, subst, substL, substCls]
  rw [loads_dumps hs (by simp [PyOK, PyOKL]) hw]
  have hr : fromId .alg (.int c.ident) = .ok (.cls c) := by
    simp [fromId, resolve_of_mem hc]
  simp [X5T.decode, pyItem, hr]

example : (⟨.alg, -7⟩, b!"ES256") ∈ registry .alg ∧ (dumps fullname .ident (X5T.encode ⟨algCls (-7), .bytes [1, 2]⟩)).isOk = true := by
  decide +kernel

end Cose
