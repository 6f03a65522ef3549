import Verif.Props.Details5
/-!
# Unknown headers survive in messages with signers and recipients (C22)

The headers of the message and those of every signer and recipient.
-/
set_option autoImplicit false
namespace Cose

/-- The headers of this object are what a constructor called with `phdr=dp`, `uhdr=du` and `allow_unknown_attributes=True` stored. -/
def Spec.MadeFrom (C : Crypto) (dp du : Dict) (b : Base) : Prop :=
  ∃ (a : HdrArgs) (pl aad : Val) (key : Option Key) (b0 : Base), a.phdrEncoded = .none ∧ a.phdr = .map dp ∧ a.uhdr = .map du ∧
    a.allow = true ∧ Spec.KeyedArgs C dp ∧ Spec.KeyedArgs C du ∧ initMsg C a pl aad key = .ok b0 ∧
    b.phdr = b0.phdr ∧ b.uhdr = b0.uhdr ∧ b.phdrEnc = b0.phdrEnc

/-- Every unknown label of the dictionaries is found, with its value, in the object. -/
def Spec.Arrived (dp du : Dict) (b' : Base) : Prop :=
  ∀ k v, Spec.ForeignLabel k → (Spec.LastEntry dp k v → dget b'.phdr k = some v) ∧ (Spec.LastEntry du k v → dget b'.uhdr k = some v)

theorem madeFrom_withKeys {C : Crypto} {dp du : Dict} {b : Base} (h : Spec.MadeFrom C dp du b) : Spec.MadeWithKeys C true b := by
  obtain ⟨a, pl, aad, key, b0, h0, h1, h2, h3, h4, h5, h6, h7, h8, h9⟩ := h
  exact ⟨a, dp, du, pl, aad, key, b0, h0, h1, h2, h3, h4, h5, h6, h7, h8, h9⟩

theorem madeFrom_arrived {C : Crypto} {dp du : Dict} {b b' : Base} (h : Spec.MadeFrom C dp du b) (hp : b'.phdr = b.phdr)
    (hu : ∃ e, b'.uhdr = b.uhdr ++ e) : Spec.Arrived dp du b' := by
  obtain ⟨a, pl, aad, key, b0, h0, h1, h2, h3, h4, h5, h6, h7, h8, h9⟩ := h
  obtain ⟨u1, u2, _⟩ := constructed_headers h0 h1 h2 h6
  obtain ⟨e, hu⟩ := hu
  intro k v hk
  refine ⟨fun hl => ?_, fun hl => ?_⟩
  · rw [hp, h7]; exact unknown_kept h3 hk hl u1
  · rw [hu, h8, dget_append, unknown_kept h3 hk hl u2]; rfl

/-- **C22** for COSE_Sign: the unknown headers of the message and of every signer. -/
theorem c22_survives_sign {C : Crypto} (L : C.Laws) {m : SignMsg} {rnd : Nat → Bytes} {out : Bytes} {d : Option Bytes} {cls : DecCls}
    {dp du : Dict} (hcls : cls.accepts .sign = true) (hne : m.signers ≠ []) (hb : Spec.MadeFrom C dp du m.base)
    (hss : ∀ s ∈ m.signers, ∃ sp su, Spec.MadeFrom C sp su s) (h : m.encode C rnd true d = .ok out) :
    ∃ m', decode C cls true out = .ok (.sign m') ∧ Spec.Arrived dp du m'.base ∧ m'.signers.length = m.signers.length ∧
      ∀ (j : Nat) (s s' : Base), m.signers[j]? = some s → m'.signers[j]? = some s' → ∀ sp su, Spec.MadeFrom C sp su s → Spec.Arrived sp su s' := by
  obtain ⟨m', e1, e2, e3, _, e4, e5⟩ := c07_constructed_keys L hcls hne (madeFrom_withKeys hb)
    (fun s hs => by obtain ⟨sp, su, hs⟩ := hss s hs; exact madeFrom_withKeys hs) h
  refine ⟨m', e1, madeFrom_arrived hb e2 ⟨[], by simp [e3]⟩, e4, fun j s s' h1 h2 sp su hs => ?_⟩
  have := e5 j s s' h1 h2
  exact madeFrom_arrived hs this.phdr ⟨[], by simp [this.uhdr]⟩

/-- **C22** for COSE_Mac with direct recipients: the unknown headers of the message and of every recipient. -/
theorem c22_survives_mac {C : Crypto} {m m1 : Mac} {R : Rand} {out : Bytes} {rs : List Rcpt} {cls : DecCls} {alg : Val} {k rk : Key}
    {dp du : Dict} (hcls : cls.accepts .mac = true) (hb : Spec.MadeFrom C dp du m.base) (hrs : m.recipients = some rs) (hne : rs ≠ [])
    (hd : ∀ r ∈ rs, Spec.DirectRecipient r ∧ ∃ rp ru, Spec.MadeFrom C rp ru r.base) (h : m.encode C R true true = .ok (out, m1))
    (halg : m.base.getAttr Hdr.Algorithm = .ok alg) (hk : m.base.key = some k) (hK : rk.symK = k.symK)
    (hp : Spec.Permits rk .sym alg [Op.MacVerify]) :
    ∃ m' rs', decode C cls true out = .ok (.mac m') ∧ Spec.Arrived dp du m'.base ∧ m'.recipients = some rs' ∧ rs'.length = rs.length ∧
      ∀ (j : Nat) (r r' : Rcpt), rs[j]? = some r → rs'[j]? = some r' → ∀ rp ru, Spec.MadeFrom C rp ru r.base → Spec.Arrived rp ru r'.base := by
  obtain ⟨m', rs', e1, e2, e3, _, e4, e5, _⟩ := c10_constructed_keys hcls (madeFrom_withKeys hb) hrs hne
    (fun r hr => ⟨(hd r hr).1, by obtain ⟨_, rp, ru, hr⟩ := hd r hr; exact madeFrom_withKeys hr⟩) h halg hk hK hp
  refine ⟨m', rs', e1, madeFrom_arrived hb e2 ⟨[], by simp [e3]⟩, e4, all2_length e5, fun j r r' h1 h2 rp ru hr => ?_⟩
  obtain ⟨_, _, g1, g2, _⟩ := all2_get e5 h1 h2
  exact madeFrom_arrived hr g1 ⟨[], by simp [g2]⟩

/-- **C22** for COSE_Encrypt with direct recipients: the unknown headers of the message and of every recipient. -/
theorem c22_survives_enc {C : Crypto} (L : C.Laws) {m m1 : Enc} {R : Rand} {out : Bytes} {cls : DecCls} {alg : Val} {k rk : Key}
    {dp du : Dict} (hcls : cls.accepts .enc = true) (hb : Spec.MadeFrom C dp du m.base) (hne : m.recipients ≠ [])
    (hd : ∀ r ∈ m.recipients, Spec.DirectRecipient r ∧ ∃ rp ru, Spec.MadeFrom C rp ru r.base) (h : m.encode C R true true = .ok (out, m1))
    (halg : m.base.getAttr Hdr.Algorithm = .ok alg) (hk : m.base.key = some k) (hK : rk.symK = k.symK) (hiv : rk.baseIv = k.baseIv)
    (hp : Spec.Permits rk .sym alg [Op.Decrypt]) :
    ∃ m', decode C cls true out = .ok (.enc m') ∧ Spec.Arrived dp du m'.base ∧ m'.recipients.length = m.recipients.length ∧
      ∀ (j : Nat) (r r' : Rcpt), m.recipients[j]? = some r → m'.recipients[j]? = some r' → ∀ rp ru, Spec.MadeFrom C rp ru r.base →
        Spec.Arrived rp ru r'.base := by
  obtain ⟨m', p, e1, e2, e3, e5, _⟩ := c11_constructed_keys L hcls (madeFrom_withKeys hb) hne
    (fun r hr => ⟨(hd r hr).1, by obtain ⟨_, rp, ru, hr⟩ := hd r hr; exact madeFrom_withKeys hr⟩) h halg hk hK hiv hp
  refine ⟨m', e1, madeFrom_arrived hb e2 ⟨[], by simp [e3]⟩, all2_length e5, fun j r r' h1 h2 rp ru hr => ?_⟩
  obtain ⟨_, _, g1, g2, _⟩ := all2_get e5 h1 h2
  exact madeFrom_arrived hr g1 ⟨[], by simp [g2]⟩

/-- **C22** for COSE_Encrypt with any mix of recipients that wrap the content key. -/
theorem c22_survives_wrapped {C : Crypto} (L : C.Laws) {m m1 : Enc} {R : Rand} {out : Bytes} {cls : DecCls} {dp du : Dict}
    (hcls : cls.accepts .enc = true) (hb : Spec.MadeFrom C dp du m.base) (hne : m.recipients ≠ [])
    (hd : ∀ r ∈ m.recipients, Spec.WrapRecipient r ∧ ∃ rp ru, Spec.MadeFrom C rp ru r.base) (h : m.encode C R true true = .ok (out, m1)) :
    ∃ m', decode C cls true out = .ok (.enc m') ∧ Spec.Arrived dp du m'.base ∧ m'.recipients.length = m.recipients.length ∧
      ∀ (j : Nat) (r r' : Rcpt), m.recipients[j]? = some r → m'.recipients[j]? = some r' → ∀ rp ru, Spec.MadeFrom C rp ru r.base →
        Spec.Arrived rp ru r'.base := by
  obtain ⟨m', p, e1, e2, e3, e4, e5, _⟩ := c12_constructed_keys L hcls (madeFrom_withKeys hb) hne
    (fun r hr => ⟨(hd r hr).1, by obtain ⟨_, rp, ru, hr⟩ := hd r hr; exact madeFrom_withKeys hr⟩) h
  refine ⟨m', e1, madeFrom_arrived hb e2 ⟨[], by simp [e3]⟩, e4, fun j r r' h1 h2 rp ru hr => ?_⟩
  have := e5 j r r' h1 h2
  refine madeFrom_arrived hr this.phdr ?_
  rcases this.uhdr with g | ⟨_, _, st, g⟩
  · exact ⟨[], by simp [g]⟩
  · exact ⟨_, g⟩

/-- **C22** for direct key agreement, in a COSE_Encrypt message. -/
theorem c22_survives_agreement {C : Crypto} (L : C.Laws) {m m1 : Enc} {R : Rand} {out : Bytes} {r : Rcpt} {rk : Key} {la dp du rp ru : Dict}
    {cls : DecCls} (hcls : cls.accepts .enc = true) (hb : Spec.MadeFrom C dp du m.base) (hrs : m.recipients = [r])
    (hs : Spec.MadeFrom C rp ru r.base) (hr : Spec.DirectAgreement C r r.base.uhdr rk la) (h : m.encode C R true true = .ok (out, m1)) :
    ∃ m' r', decode C cls true out = .ok (.enc m') ∧ Spec.Arrived dp du m'.base ∧ m'.recipients = [r'] ∧ Spec.Arrived rp ru r'.base := by
  obtain ⟨m', r', p, e1, e2, e3, e4, e5, e6, _⟩ := c14_constructed_keys L hcls (madeFrom_withKeys hb) hrs (madeFrom_withKeys hs) hr h
  exact ⟨m', r', e1, madeFrom_arrived hb e2 ⟨[], by simp [e3]⟩, e4, madeFrom_arrived hs e5 ⟨[], by simp [e6]⟩⟩

/-- **C22** for direct key agreement, in a COSE_Mac message. -/
theorem c22_survives_mac_agreement {C : Crypto} (L : C.Laws) {m m1 : Mac} {R : Rand} {out : Bytes} {r : Rcpt} {rk : Key}
    {la dp du rp ru : Dict} {cls : DecCls} {alg : Val} (hcls : cls.accepts .mac = true) (hb : Spec.MadeFrom C dp du m.base)
    (hrs : m.recipients = some [r]) (hs : Spec.MadeFrom C rp ru r.base) (hr : Spec.DirectAgreement C r r.base.uhdr rk la)
    (halg : m.base.getAttr Hdr.Algorithm = .ok alg) (h : m.encode C R true true = .ok (out, m1)) :
    ∃ m' r', decode C cls true out = .ok (.mac m') ∧ Spec.Arrived dp du m'.base ∧ m'.recipients = some [r'] ∧ Spec.Arrived rp ru r'.base := by
  obtain ⟨m', r', k, e1, e2, e3, _, e4, e5, e6, _⟩ := c14_mac_constructed_keys L hcls (madeFrom_withKeys hb) hrs (madeFrom_withKeys hs) hr halg h
  exact ⟨m', r', e1, madeFrom_arrived hb e2 ⟨[], by simp [e3]⟩, e4, madeFrom_arrived hs e5 ⟨[], by simp [e6]⟩⟩

/-- The message of two signers of `c07_constructed_keys`: unknown label 999 in the message and in both signers. -/
example : (Sample.keyedSign.encode toy (fun _ => []) true none).isOk = true ∧ ∃ dp du, Spec.MadeFrom toy dp du Sample.keyedSign.base ∧
    (∀ s ∈ Sample.keyedSign.signers, Spec.MadeFrom toy dp du s) ∧ Spec.LastEntry du (.int 999) (.bytes [7]) := by
  obtain ⟨dp, du, h1, h2, h3, h4⟩ := Sample.signerArgs_keyed
  have hm : ∀ key pl, Spec.MadeFrom toy dp du { Sample.signerMade key with payload := pl } := fun key pl =>
    ⟨Sample.signerArgs, .bytes [], .bytes [], none, Sample.signerMade none, rfl, h1, h2, rfl, h3, h4, by decide +kernel, rfl, rfl, rfl⟩
  refine ⟨by decide +kernel, dp, du, hm none _, fun s hs => ?_, ?_⟩
  · simp [Sample.keyedSign] at hs
    subst hs
    exact hm _ (some [])
  · simp only [Sample.signerArgs, Val.map.injEq] at h2
    subst h2
    exact ⟨[_], [], rfl, by simp⟩

/-- Headers of an AES key wrap recipient with an unknown label. -/
def Sample.wrapArgs : HdrArgs := { uhdr := .map [(.int 1, .int (-3)), (.int 999, .bytes [7])] }

def Sample.wrapMade : Base :=
  { uhdr := [(.cls Hdr.Algorithm, algCls (-3)), (.int 999, .bytes [7])], payload := some [], key := some Sample.symKey }

theorem Sample.wrapMade_from : Spec.MadeFrom toy [] [(.int 1, .int (-3)), (.int 999, .bytes [7])] Sample.wrapMade := by
  refine ⟨{ Sample.wrapArgs with phdr := .map [] }, .bytes [], .bytes [], none, { Sample.wrapMade with key := none }, rfl, rfl, rfl, rfl, ?_, ?_,
    by decide +kernel, rfl, rfl, rfl⟩
  · intro k v h; cases h
  · intro k v h
    have h : (k, v) = (.int 1, .int (-3)) ∨ (k, v) = (.int 999, .bytes [7]) := by simpa using h
    rcases h with e | e <;> cases e
    · exact .inl ⟨Hdr.Algorithm, b!"ALG", by decide +kernel, .ident, .inr ⟨by decide, by decide, fun h => absurd rfl h⟩⟩
    · exact .inr ⟨foreign_int (by decide +kernel), trivial⟩

/-- A message for two such recipients can be encoded. -/
example : (Enc.encode toy Sample.rand { base := { Sample.enc0.base with key := none }, recipients :=
      [.mk .keyWrap Sample.wrapMade [] 1 [], .mk .keyWrap Sample.wrapMade [] 2 []] } true true).isOk = true ∧
    Spec.WrapRecipient (.mk .keyWrap Sample.wrapMade [] 1 []) := by
  refine ⟨by decide +kernel, rfl, rfl, -3, by decide +kernel, .inl ⟨rfl, by decide⟩⟩

end Cose
