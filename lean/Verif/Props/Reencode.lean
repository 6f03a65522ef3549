import Verif.Props.KeyAgain
import Verif.Props.Recipients
/-!
# Re-encoding a received message without protecting it again (C53)
-/
set_option autoImplicit false
namespace Cose

/-! ### Specification -/

/-- A received header map in which no unregistered label is numerically equal to a registered one (such as the floating point
number 1.0), and in which every COSE key is one that its constructor makes from parameters with serialisable values: see
`constructed_received`. -/
def Spec.PlainHeader (C : Crypto) (h : Dict) : Prop :=
  ∀ k v, (k, v) ∈ h → (∀ p ∈ registry .hdr, keq k (.int p.1.ident) = false) ∧
    (k = .cls Hdr.EphemeralKey ∨ k = .cls Hdr.StaticKey → ∃ key, v = .key key.kind key.store ∧ Spec.ConstructedKey C key)

/-- Same headers, same bytes of the protected header, same payload. -/
structure Spec.SameContent (b b' : Base) : Prop where
  phdr : b'.phdr = b.phdr
  uhdr : b'.uhdr = b.uhdr
  payload : b'.payload = b.payload
  encoded : b'.phdrEncoded = b.phdrEncoded

/-- The object after `msg.key = k` and `msg.external_aad = x`. -/
def Base.using (b : Base) (k : Option Key) (x : Bytes) : Base := { b with key := k, aad := x }

/-! ### Lemmas -/

theorem pyokl_mem {l : List Val} (h : PyOKL l) : ∀ v ∈ l, PyOK v := by
  induction l with
  | nil => simp
  | cons a t ih =>
    intro v hv
    rcases List.mem_cons.mp hv with rfl | hv
    · exact h.1
    · exact ih h.2 v hv

theorem pyokp_mem {l : Dict} (h : PyOKP l) : ∀ p ∈ l, PyOK p.1 ∧ PyOK p.2 := by
  induction l with
  | nil => simp
  | cons a t ih =>
    intro v hv
    obtain ⟨k, x⟩ := a
    rcases List.mem_cons.mp hv with rfl | hv
    · exact h.1
    · exact ih h.2 v hv

/-- A received header map with integer and text labels, in which the labels of the COSE keys are in order, is plain. -/
theorem plainHeader_received {C : Crypto} {allow : Bool} {d h : Dict} (hd : PyOK (.map d)) (e : parseHeader C allow d = .ok h)
    (hl : ∀ k v, (k, v) ∈ d → (∃ i, k = .int i) ∨ ∃ s, k = .text s)
    (hk : ∀ k m key, (k, .map m) ∈ d → fromDict C m = .ok key → Spec.KeyLabels key.kind m) : Spec.PlainHeader C h := by
  have key := parseAttrs_inv (P := fun k v => (∀ p ∈ registry .hdr, keq k (.int p.1.ident) = false) ∧
    (k = .cls Hdr.EphemeralKey ∨ k = .cls Hdr.StaticKey → ∃ key, v = .key key.kind key.store ∧ Spec.ConstructedKey C key))
    ?_ ?_ (by intro p hp; cases hp) e
  · exact fun k v hm => key (k, v) hm
  · intro k w a w' h1 h2 he
    refine ⟨h1.1, fun hc => ?_⟩
    have : a = k := by
      rcases hc with rfl | rfl <;> exact keq_cls_left.mp he
    subst this
    exact h2.2 hc
  · intro k v a w hm h1 h2
    obtain ⟨hpk, hpv⟩ := pyokp_mem hd.1 (k, v) hm
    simp only at hpk hpv
    simp only [fromIdKey] at h1
    split at h1
    · rename_i c hc
      simp at h1; subst h1
      refine ⟨fun p _ => by simp [keq, norm], fun e => ?_⟩
      have e : c = Hdr.EphemeralKey ∨ c = Hdr.StaticKey := by simpa using e
      have hkp : c.reg = .hdr ∧ (c.ident = -1 ∨ c.ident = -2) := by
        rcases e with rfl | rfl
        · exact ⟨rfl, .inl rfl⟩
        · exact ⟨rfl, .inr rfl⟩
      simp only [parsedVal, hdrParser, hkp, and_self, if_true] at h2
      obtain ⟨key, h3, h2⟩ := bind_eq_ok.mp h2
      simp only [Key.toVal, Except.ok.injEq] at h2
      refine ⟨key, h2.symm, ?_⟩
      cases v
      case map m => exact constructed_received hpv h3 (hk k m key hm h3)
      case key => exact absurd hpv (by simp [PyOK])
      case arr l =>
        exact (fromList_refused h3).elim
      all_goals cases h3
    · rename_i hr
      split at h1 <;> simp at h1
      subst h1
      refine ⟨fun p hp => ?_, fun e => ?_⟩
      · rcases hl k v hm with ⟨i, rfl⟩ | ⟨s, rfl⟩
        · cases hq : keq (.int i) (.int p.1.ident) with
          | false => rfl
          | true =>
            have : i = p.1.ident := by simpa [keq, norm] using hq
            subst this
            rw [resolve_of_mem hp] at hr
            cases hr
        · simp [keq, norm]
      · rcases e with rfl | rfl <;> exact absurd hpk (by simp [PyOK])

/-- A header map that was received can be sent again and arrives the same. -/
theorem hdrSend_received {C : Crypto} {tstr allow : Bool} {d h : Dict} (hd : PyOK (.map d))
    (e : parseHeader C allow d = .ok h) (hp : Spec.PlainHeader C h) : Spec.HdrSend C tstr allow h h := by
  refine ⟨parseAttrs_nodup (by simp [KeysNodup]) e, ?_⟩
  have key := parseAttrs_inv (P := fun k v => Spec.SendEntry C tstr allow (k, v) (k, v) ∨ k = .cls Hdr.EphemeralKey ∨
    k = .cls Hdr.StaticKey ∨ ∃ p ∈ registry .hdr, keq k (.int p.1.ident) = true) ?_ ?_ (by intro p hp; cases hp) e
  · have key' : ∀ p ∈ h, Spec.SendEntry C tstr allow p p := by
      intro p hm
      obtain ⟨h3, hkey⟩ := hp p.1 p.2 hm
      have sent : p.1 = .cls Hdr.EphemeralKey ∨ p.1 = .cls Hdr.StaticKey → Spec.SendEntry C tstr allow p p := by
        intro hs
        obtain ⟨kk, e, hc⟩ := hkey hs
        obtain ⟨w, w1, w2, w3⟩ := (constructed_sent (m := .base tstr) (by simp) hc).header
        obtain ⟨a, b⟩ := p
        simp only at hs e
        subst e
        rcases hs with rfl | rfl
        · exact .key (k := { kk with extra := [] }) (.inl rfl) w1 w2 w3
        · exact .key (k := { kk with extra := [] }) (.inr rfl) w1 w2 w3
      rcases key p hm with hs | hs | hs | ⟨q, hq, hs⟩
      · exact hs
      · exact sent (.inl hs)
      · exact sent (.inr hs)
      · rw [h3 q hq] at hs; simp at hs
    clear key e hp
    induction h with
    | nil => exact .nil
    | cons p t ih => exact .cons (key' p (by simp)) (ih (fun p hp => key' p (List.mem_cons_of_mem _ hp)))
  · intro k w a w' h1 h2 he
    by_cases hk : ∃ c, k = .cls c
    · obtain ⟨c, rfl⟩ := hk
      rw [keq_cls_left] at he; subst he; exact h2
    · have ha : ¬ ∃ c, a = .cls c := by
        rintro ⟨c, rfl⟩
        rw [keq_cls_right] at he
        exact hk ⟨c, he⟩
      rcases h1 with h1 | rfl | rfl | h1
      · cases h1 with
        | foreign ha' hf _ =>
          rcases h2 with h2 | rfl | rfl | ⟨q, hq, h2⟩
          · cases h2 with
            | foreign _ _ hv => exact .inl (.foreign ha' hf hv)
            | alg _ => exact absurd ⟨_, rfl⟩ ha
            | plain _ _ _ _ _ _ => exact absurd ⟨_, rfl⟩ ha
            | key _ _ _ _ => exact absurd ⟨_, rfl⟩ ha
          · exact absurd ⟨_, rfl⟩ ha
          · exact absurd ⟨_, rfl⟩ ha
          · have := hf.apart q hq
            rw [keq_trans he h2] at this
            simp at this
        | alg _ => exact absurd ⟨_, rfl⟩ hk
        | plain _ _ _ _ _ _ => exact absurd ⟨_, rfl⟩ hk
        | key _ _ _ _ => exact absurd ⟨_, rfl⟩ hk
      · exact absurd ⟨_, rfl⟩ hk
      · exact absurd ⟨_, rfl⟩ hk
      · exact .inr (.inr (.inr h1))
  · intro k v a w hm h1 h2
    obtain ⟨hk, hv⟩ := pyokp_mem hd.1 (k, v) hm
    simp only at hk hv
    simp only [fromIdKey] at h1
    split at h1
    · rename_i c hc
      simp at h1; subst h1
      obtain ⟨n, hn⟩ : ∃ n, (c, n) ∈ registry .hdr := by
        exact (resolve_some hc).2
      simp only [parsedVal] at h2
      by_cases e1 : c = Hdr.EphemeralKey
      · exact .inr (.inl (by rw [e1]))
      by_cases e2 : c = Hdr.StaticKey
      · exact .inr (.inr (.inl (by rw [e2])))
      by_cases hA : c = Hdr.Algorithm
      · subst hA
        rw [hdrParser_alg] at h2
        exact .inl (.alg (fromId_algValue v h2))
      · obtain ⟨rfl, hvv⟩ := parser_validValue (hdr_reg hn) hA e1 e2 h2
        exact .inl (.plain hn hA e1 e2 hv hvv)
    · rename_i hr
      split at h1 <;> simp at h1
      rename_i ha
      subst h1
      have : parsedVal (hdrParser C) k v = .ok v := by
        have : ∀ c, k ≠ .cls c := by rintro c rfl; exact hk
        cases k <;> first | rfl | exact absurd rfl (this _)
      rw [this] at h2
      simp at h2; subst h2
      by_cases hb : ∃ p ∈ registry .hdr, keq k (.int p.1.ident) = true
      · exact .inr (.inr (.inr hb))
      · refine .inl (.foreign ha ⟨hk, unregistered_iff.mpr hr, ?_⟩ hv)
        intro p hp
        cases hq : keq k (.int p.1.ident) with
        | false => rfl
        | true => exact absurd ⟨p, hp, hq⟩ hb

/-- Whatever was read from a CBOR array can be sent again. -/
theorem sendable_received {C : Crypto} {tstr allow : Bool} {obj rest : List Val} {b : Base} (ho : PyOKL obj)
    (h : baseFromObj C obj allow = .ok (b, rest)) (hu : Spec.PlainHeader C b.uhdr) (k : Option Key) (x : Bytes) :
    Spec.Sendable C tstr allow (b.using k x) b.phdr b.uhdr := by
  obtain ⟨pe, uh, rfl, hp, hu', _, _, h3, _⟩ := baseFromObj_iff.mp h
  refine ⟨?_, ?_⟩
  · simp only [Base.using]
    rcases hp.inv with ⟨_, h1, h2⟩ | ⟨_, h1, h2⟩ | ⟨e, d, _, h1, h2, h4, h5⟩
    · refine .inl ⟨h1, ?_⟩
      rw [h2]; exact ⟨by simp [KeysNodup], .nil⟩
    · exact .inr ⟨[], h1, by trivial, .inl ⟨rfl, h2⟩⟩
    · exact .inr ⟨e, h1, by trivial, .inr ⟨h2, d, h4, h5⟩⟩
  · simp only [Base.using]
    rcases hu'.inv with ⟨_, h1⟩ | ⟨d, rfl, h1⟩
    · rw [h1]; exact ⟨by simp [KeysNodup], .nil⟩
    · exact hdrSend_received (pyokl_mem ho _ (by simp)) h1 hu

theorem phdrEncoded_using {b : Base} {k : Option Key} {x : Bytes} : (b.using k x).phdrEncoded = b.phdrEncoded := rfl

theorem decode_obj {C : Crypto} {cls : DecCls} {allow : Bool} {bs : Bytes} {m : Msg} (h : decode C cls allow bs = .ok m) :
    ∃ n obj, PyOKL obj ∧ tagKind n = some m.kind ∧ fromObj C m.kind obj allow = .ok m ∧ cls.accepts m.kind = true := by
  obtain ⟨n, obj, k, h1, h2, h3, h4, rfl⟩ := decode_iff.mp h
  have := loads_pyok h1
  exact ⟨n, obj, this.2.2.2.2, h2, h3, h4⟩

/-! ### C53 -/

/-- C53 for COSE_Sign1.  Missing: unprotected headers that are not plain, and messages received with an empty signature
(`c53_sign1_empty`). -/
theorem c53_sign1_partial {C : Crypto} {cls : DecCls} {allow : Bool} {received out : Bytes} {m : Sign1} {rnd : Bytes}
    {d : Option Bytes} (hdec : decode C cls allow received = .ok (.sign1 m)) (hu : Spec.PlainHeader C m.base.uhdr)
    (hs : truthy m.signature = true) (k : Option Key) (x : Bytes)
    (h : Sign1.encode C rnd { m with base := m.base.using k x } true false d = .ok out) :
    ∃ m', decode C cls allow out = .ok (.sign1 m') ∧ Spec.SameContent m.base m'.base ∧ m'.signature = m.signature := by
  obtain ⟨n, obj, ho, hk, hf, hc⟩ := decode_obj hdec
  simp only [Msg.kind, fromObj, Sign1.fromObj, bind_eq_ok] at hf
  obtain ⟨m0, ⟨⟨b, r⟩, h1, ⟨s, r'⟩, h2, h3⟩, h4⟩ := hf
  simp at h4; subst h4
  rw [pop0_ok] at h2; subst h2
  simp at h3; subst h3
  have hsend := sendable_received (tstr := b.tstr) ho h1 hu k x
  obtain ⟨pe, tl, hpe, hfin, ht⟩ := sign1_encode_inv h
  rw [phdrEncoded_using] at hpe
  obtain ⟨w, hw, hb⟩ := received_base hsend hpe
  have hsig : PyOK s := by
    obtain ⟨_, _, rfl, _⟩ := baseFromObj_iff.mp h1
    exact pyokl_mem ho _ (by simp)
  rcases ht with ⟨h0, _⟩ | ⟨_, _, rfl⟩ | ⟨_, h0, _⟩
  · simp at h0
  · refine ⟨⟨recvBase pe b.phdr b.uhdr b.payload, s⟩, ?_, ⟨rfl, rfl, rfl, hpe.symm⟩, rfl⟩
    have := finish_decode (C := C) (allow := allow) (cls := cls) (k := .sign1)
        (m := .sign1 ⟨recvBase pe b.phdr b.uhdr b.payload, s⟩)
        rfl hc (.cons sent_bytes (.cons hw (.cons sent_opt (.cons (sent_plain hsig) .nil)))) hfin ?_ []
    · rwa [List.append_nil] at this
    · simp only [fromObj, Sign1.fromObj, hb, ok_bind, pop0]; rfl
  · simp only at h0; rw [hs] at h0; simp at h0

/-- A Sign1 message received with an empty signature is re-encoded without signature; nothing decodes the result. -/
theorem c53_sign1_empty {C : Crypto} {cls : DecCls} {allow : Bool} {received out : Bytes} {m : Sign1} {rnd : Bytes}
    {d : Option Bytes} (hdec : decode C cls allow received = .ok (.sign1 m)) (hu : Spec.PlainHeader C m.base.uhdr)
    (hs : truthy m.signature = false) (k : Option Key) (x : Bytes)
    (h : Sign1.encode C rnd { m with base := m.base.using k x } true false d = .ok out) :
    decode C cls allow out = .error .indexError := by
  obtain ⟨n, obj, ho, hk, hf, hc⟩ := decode_obj hdec
  simp only [Msg.kind, fromObj, Sign1.fromObj, bind_eq_ok] at hf
  obtain ⟨m0, ⟨⟨b, r⟩, h1, ⟨s, r'⟩, h2, h3⟩, h4⟩ := hf
  simp at h4; subst h4
  simp at h3; subst h3
  have hsend := sendable_received (tstr := b.tstr) ho h1 hu k x
  obtain ⟨pe, tl, hpe, hfin, ht⟩ := sign1_encode_inv h
  rw [phdrEncoded_using] at hpe
  obtain ⟨w, hw, hb⟩ := received_base hsend hpe
  rcases ht with ⟨h0, _⟩ | ⟨_, h0, rfl⟩ | ⟨_, h0, rfl⟩
  · simp at h0
  · simp only at h0; rw [hs] at h0; simp at h0
  · have := finish_loads rfl (.cons sent_bytes (.cons hw (.cons sent_opt .nil))) hfin []
    rw [List.append_nil] at this
    simp only [decode, this, ok_bind, tagKind, Nat.reduceEqDiff, if_true, if_false, fromObj, Sign1.fromObj, hb, pop0, error_bind]

/-- C53 for COSE_Encrypt0.  Missing: unprotected headers that are not plain. -/
theorem c53_enc0_partial {C : Crypto} {cls : DecCls} {allow : Bool} {received out : Bytes} {m : Enc0}
    (hdec : decode C cls allow received = .ok (.enc0 m)) (hu : Spec.PlainHeader C m.base.uhdr) (k : Option Key) (x : Bytes)
    (h : Enc0.encode C { m with base := m.base.using k x } true false = .ok out) :
    ∃ m', decode C cls allow out = .ok (.enc0 m') ∧ Spec.SameContent m.base m'.base := by
  obtain ⟨n, obj, ho, hk, hf, hc⟩ := decode_obj hdec
  simp only [Msg.kind, fromObj, Enc0.fromObj, bind_eq_ok] at hf
  obtain ⟨m0, ⟨⟨b, r⟩, h1, h3⟩, h4⟩ := hf
  simp at h4; subst h4
  simp at h3; subst h3
  have hsend := sendable_received (tstr := b.tstr) ho h1 hu k x
  obtain ⟨pe, v, hpe, hfin, ht⟩ := enc0_encode_inv h
  rw [phdrEncoded_using] at hpe
  obtain ⟨w, hw, hb⟩ := received_base hsend hpe
  rcases ht with ⟨h0, _⟩ | ⟨_, rfl⟩
  · simp at h0
  · refine ⟨⟨recvBase pe b.phdr b.uhdr b.payload⟩, ?_, ⟨rfl, rfl, rfl, hpe.symm⟩⟩
    have := finish_decode (C := C) (allow := allow) (cls := cls) (k := .enc0)
        (m := .enc0 ⟨recvBase pe b.phdr b.uhdr b.payload⟩)
        rfl hc (.cons sent_bytes (.cons hw (.cons sent_opt .nil))) hfin ?_ []
    · rwa [List.append_nil] at this
    · simp only [fromObj, Enc0.fromObj, hb, ok_bind]; rfl

/-- C53 is false for COSE_Mac0: the re-encoded message has no tag and no received message survives. -/
theorem c53_mac0_refuted {C : Crypto} {cls : DecCls} {allow : Bool} {received out : Bytes} {m m1 : Mac0}
    (hdec : decode C cls allow received = .ok (.mac0 m)) (hu : Spec.PlainHeader C m.base.uhdr) (k : Option Key) (x : Bytes)
    (h : Mac0.encode C { m with base := m.base.using k x } true false = .ok (out, m1)) :
    decode C cls allow out = .error .indexError := by
  obtain ⟨n, obj, ho, hk, hf, hc⟩ := decode_obj hdec
  simp only [Msg.kind, fromObj, Mac0.fromObj, bind_eq_ok] at hf
  obtain ⟨m0, ⟨⟨b, r⟩, h1, ⟨s, r'⟩, h2, h3⟩, h4⟩ := hf
  simp at h4; subst h4
  simp at h3; subst h3
  have hsend := sendable_received (tstr := b.tstr) ho h1 hu k x
  obtain ⟨pe, tl, hpe, hfin, ht⟩ := mac0_encode_inv h
  rw [phdrEncoded_using] at hpe
  obtain ⟨w, hw, hb⟩ := received_base hsend hpe
  rcases ht with ⟨h0, _⟩ | ⟨_, rfl, _⟩
  · simp at h0
  · have := finish_loads rfl (.cons sent_bytes (.cons hw (.cons sent_opt .nil))) hfin []
    rw [List.append_nil] at this
    simp only [decode, this, ok_bind, tagKind, Nat.reduceEqDiff, if_true, if_false, fromObj, Mac0.fromObj, hb, pop0, error_bind]

/-- The unprotected headers of the recipients of a decoded message. -/
theorem sendable_recipients {C : Crypto} {tstr allow : Bool} {ctx : Bytes} {i : Nat} {l : List Val} {rs : List Rcpt} (ho : PyOKL l)
    (h : createRecipients C allow ctx i l = .ok rs) (hu : ∀ r ∈ rs, Spec.PlainHeader C r.base.uhdr) :
    ∀ r ∈ rs, Spec.Sendable C tstr allow r.base r.base.phdr r.base.uhdr := by
  intro r hr
  obtain ⟨v, hv, obj, rest, c, o, rfl, hb, _⟩ := all2_mem_right (createRecipients_all2 h) hr
  have hs := sendable_received (tstr := tstr) (pyokl_mem ho _ hv) hb (hu r hr) r.base.key r.base.aad
  exact hs

theorem iterRecipients_ok {v : Val} {l : List Val} (hv : PyOK v) (h : iterRecipients v = .ok l) : PyOKL l := by
  cases v <;> simp only [iterRecipients, reduceCtorEq] at h
  · rename_i b; cases b <;> simp at h; subst h; trivial
  · rename_i b; cases b <;> simp at h; subst h; trivial
  · simp at h; subst h; exact hv
  · rename_i b; cases b <;> simp at h; subst h; trivial

theorem direct_same {rs rs' : List Rcpt} (hcls : ∀ r ∈ rs, r.cls = .directEncryption)
    (h : All2 Spec.DirectReceived (rs.map fun r => (r.base.phdr, r.base.uhdr)) rs') :
    rs'.map (fun r => (r.cls, r.base.phdr, r.base.uhdr, r.base.payload)) =
      rs.map (fun r => (r.cls, r.base.phdr, r.base.uhdr, some [])) := by
  induction rs generalizing rs' with
  | nil => cases h; rfl
  | cons r t ih =>
    cases h with
    | cons h0 ht =>
      obtain ⟨e1, e2, e3, e4, e5⟩ := h0
      simp only [List.map_cons, List.cons.injEq, e1, e3, e4, e5, hcls r (by simp), true_and]
      exact ih (fun r hh => hcls r (List.mem_cons_of_mem _ hh)) ht

theorem enc_fromObj_none {C : Crypto} {allow : Bool} {obj : List Val} {b : Base} (h1 : baseFromObj C obj allow = .ok (b, [])) :
    Enc.fromObj C obj allow = .ok { base := b, recipients := [] } := by
  simp only [Enc.fromObj, h1, ok_bind, recipientsOf, pop0, error_bind]
  rfl

theorem mac_fromObj_none {C : Crypto} {allow : Bool} {obj : List Val} {b : Base} {t : Val}
    (h1 : baseFromObj C obj allow = .ok (b, [t])) :
    Mac.fromObj C obj allow = .ok { base := b, authTag := t, recipients := none } := by
  simp only [Mac.fromObj, h1, ok_bind, recipientsOf, pop0, error_bind]
  rfl

/-- C53 for COSE_Encrypt with direct recipients: the decoded recipients, in order, have the same headers.  Missing:
unprotected headers that are not plain, and other kinds of recipients (`c53_enc_refuted`). -/
theorem c53_enc_direct_partial {C : Crypto} {R : Rand} {cls : DecCls} {allow : Bool} {received out : Bytes} {m m1 : Enc}
    (hdec : decode C cls allow received = .ok (.enc m)) (hu : Spec.PlainHeader C m.base.uhdr)
    (hr : ∀ r ∈ m.recipients, Spec.DirectRecipient r ∧ Spec.PlainHeader C r.base.uhdr) (k : Option Key) (x : Bytes)
    (h : Enc.encode C R { m with base := m.base.using k x } true false = .ok (out, m1)) :
    ∃ m', decode C cls allow out = .ok (.enc m') ∧ Spec.SameContent m.base m'.base ∧
      m'.recipients.map (fun r => (r.cls, r.base.phdr, r.base.uhdr, r.base.payload)) =
        m.recipients.map (fun r => (r.cls, r.base.phdr, r.base.uhdr, some [])) := by
  obtain ⟨n, obj, ho, hk, hf, hc⟩ := decode_obj hdec
  simp only [Msg.kind, fromObj, Enc.fromObj, bind_eq_ok] at hf
  obtain ⟨m0, ⟨⟨b, rest⟩, h1, h3⟩, h4⟩ := hf
  simp at h4; subst h4
  simp only at h3
  by_cases hne : m0.recipients = []
  · have hb0 : m0.base = b := by
      split at h3
      · simp at h3; rw [← h3]
      · split at h3 <;> simp at h3
        rw [← h3]
    have hsend := sendable_received (tstr := b.tstr) ho h1 (hb0 ▸ hu) k x
    obtain ⟨pe, v', m2, tl, hpe, hc', hfin, ht⟩ := enc_encode_inv h
    simp only [hb0] at hpe hfin hc'
    rw [phdrEncoded_using] at hpe
    rcases hc' with ⟨h0, _⟩ | ⟨_, rfl, rfl⟩
    · simp at h0
    rcases ht with ⟨_, rfl, _⟩ | ⟨h0, _⟩
    rotate_left
    · exact absurd hne h0
    obtain ⟨w, hw, hb⟩ := received_base hsend hpe
    have hdec' := finish_decode (C := C) (allow := allow) (cls := cls) (k := .enc) (t := 96) rfl hc
      (.cons sent_bytes (.cons hw (.cons sent_opt .nil))) hfin
      (m := .enc { base := recvBase pe b.phdr b.uhdr b.payload, recipients := [] })
      (by simp only [fromObj]; exact congrArg (fun r => r >>= fun m => Except.ok (Msg.enc m)) (enc_fromObj_none (hb b.payload []))) []
    rw [List.append_nil] at hdec'
    refine ⟨_, hdec', ?_, ?_⟩
    · rw [hb0]; exact ⟨rfl, rfl, rfl, hpe.symm⟩
    · rw [hne]; rfl
  split at h3
  rotate_left
  · split at h3 <;> simp at h3
    subst h3
    simp at hne
  rename_i rs hrs
  simp at h3; subst h3
  obtain ⟨v, rest', l, rfl, hl, hcr⟩ := recipientsOf_ok hrs
  have hv : PyOK v := by
    obtain ⟨_, _, rfl, _⟩ := baseFromObj_iff.mp h1
    exact pyokl_mem ho _ (by simp)
  have hsr := sendable_recipients (tstr := b.tstr) (iterRecipients_ok hv hl) hcr (fun r hh => (hr r hh).2)
  have hall : All2 (fun r (h : Dict × Dict) => Spec.DirectRecipient r ∧ Spec.Sendable C b.tstr allow r.base h.1 h.2) rs
      (rs.map fun r => (r.base.phdr, r.base.uhdr)) := by
    have : ∀ r ∈ rs, Spec.DirectRecipient r ∧ Spec.Sendable C b.tstr allow r.base r.base.phdr r.base.uhdr :=
      fun r hh => ⟨(hr r hh).1, hsr r hh⟩
    clear hr hsr hcr hrs h hne hdec hu hk hc
    induction rs with
    | nil => exact .nil
    | cons r t ih => exact .cons (this r (by simp)) (ih (fun r (hh : r ∈ t) => this r (List.mem_cons_of_mem _ hh)))
  have hsend := sendable_received (tstr := b.tstr) ho h1 hu k x
  obtain ⟨pe, v', m2, tl, hpe, hc', hfin, ht⟩ := enc_encode_inv h
  rw [phdrEncoded_using] at hpe
  rcases hc' with ⟨h0, _⟩ | ⟨_, rfl, rfl⟩
  · simp at h0
  rcases ht with ⟨h0, _⟩ | ⟨_, vs, rs2, he, rfl, _⟩
  · exact absurd h0 hne
  obtain ⟨ws, hws, hrec⟩ := rcptsEncode_received (direct_list hall) he
  obtain ⟨rs', hcr', hall'⟩ := hrec b!"Enc_Recipient" 0
  obtain ⟨w, hw, hb⟩ := received_base hsend hpe
  have hfo := enc_fromObj_rs (hb b.payload [.arr ws]) hcr'
  have hdec' := finish_decode (C := C) (allow := allow) (cls := cls) (k := .enc) (t := 96) rfl hc
    (.cons sent_bytes (.cons hw (.cons sent_opt (.cons (sent_arr hws) .nil)))) hfin
    (m := .enc { base := recvBase pe b.phdr b.uhdr b.payload, recipients := rs' })
    (by simp only [fromObj]; exact congrArg (fun r => r >>= fun m => Except.ok (Msg.enc m)) hfo) []
  rw [List.append_nil] at hdec'
  refine ⟨_, hdec', ⟨rfl, rfl, rfl, hpe.symm⟩, ?_⟩
  have hcls : ∀ r ∈ rs, r.cls = .directEncryption := fun r hh => (hr r hh).1.1
  exact direct_same hcls hall'

/-- C53 is false for every COSE_Mac message that is received with direct recipients: after `encode(mac=False)` the list of
recipients stands in the place of the tag, and the decoded message has no recipients.  A message with an empty list of
recipients does not decode at all. -/
theorem c53_mac_direct_refuted {C : Crypto} {R : Rand} {cls : DecCls} {allow : Bool} {received out : Bytes} {m m1 : Mac}
    {rs : List Rcpt} (hdec : decode C cls allow received = .ok (.mac m)) (hu : Spec.PlainHeader C m.base.uhdr)
    (hrs : m.recipients = some rs) (hr : ∀ r ∈ rs, Spec.DirectRecipient r ∧ Spec.PlainHeader C r.base.uhdr)
    (k : Option Key) (x : Bytes)
    (h : Mac.encode C R { m with base := m.base.using k x } true false = .ok (out, m1)) :
    (rs = [] → decode C cls allow out = .error .indexError) ∧
    (rs ≠ [] → ∃ m' ws, decode C cls allow out = .ok (.mac m') ∧ Spec.SameContent m.base m'.base ∧
      m'.authTag = .arr ws ∧ ws.length = rs.length ∧ m'.recipients = none) := by
  obtain ⟨n, obj, ho, hk, hf, hc⟩ := decode_obj hdec
  simp only [Msg.kind, fromObj, Mac.fromObj, bind_eq_ok] at hf
  obtain ⟨m0, ⟨⟨b, rest⟩, h1, ⟨t, rest1⟩, hp, h3⟩, h4⟩ := hf
  simp at h4; subst h4
  simp only at h3 hp
  split at h3
  rotate_left
  · split at h3 <;> simp at h3
    subst h3
    simp at hrs
  rename_i rs0 hrs0
  simp at h3; subst h3
  simp only [Option.some.injEq] at hrs
  subst hrs
  obtain ⟨v, rest', l, rfl, hl, hcr⟩ := recipientsOf_ok hrs0
  have hv : PyOK v := by
    obtain ⟨_, _, rfl, _⟩ := baseFromObj_iff.mp h1
    cases rest with
    | nil => simp [pop0] at hp
    | cons a q =>
      simp [pop0] at hp
      obtain ⟨rfl, rfl⟩ := hp
      exact pyokl_mem ho _ (by simp)
  have hsr := sendable_recipients (tstr := b.tstr) (iterRecipients_ok hv hl) hcr (fun r hh => (hr r hh).2)
  have hall : All2 (fun r (h : Dict × Dict) => Spec.DirectRecipient r ∧ Spec.Sendable C b.tstr allow r.base h.1 h.2) rs0
      (rs0.map fun r => (r.base.phdr, r.base.uhdr)) := by
    have : ∀ r ∈ rs0, Spec.DirectRecipient r ∧ Spec.Sendable C b.tstr allow r.base r.base.phdr r.base.uhdr :=
      fun r hh => ⟨(hr r hh).1, hsr r hh⟩
    clear hr hsr hcr hrs0 h hdec hu hk hc
    induction rs0 with
    | nil => exact .nil
    | cons r t ih => exact .cons (this r (by simp)) (ih (fun r (hh : r ∈ t) => this r (List.mem_cons_of_mem _ hh)))
  have hsend := sendable_received (tstr := b.tstr) ho h1 hu k x
  obtain ⟨pe, m2, tl0, tl, rs1, hpe, hc', hfin, hr1, ht⟩ := mac_encode_inv h
  rw [phdrEncoded_using] at hpe
  rcases hc' with ⟨h0, _⟩ | ⟨_, rfl, rfl⟩
  · simp at h0
  simp only [Option.some.injEq] at hr1
  subst hr1
  obtain ⟨w, hw, hb⟩ := received_base hsend hpe
  rcases ht with ⟨rfl, rfl, _⟩ | ⟨hne, vs, rs2, he, rfl, _⟩
  · refine ⟨fun _ => ?_, fun h => absurd rfl h⟩
    have := finish_loads rfl (.cons sent_bytes (.cons hw (.cons sent_opt .nil))) hfin []
    rw [List.append_nil] at this
    simp only [decode, this, ok_bind, tagKind, Nat.reduceEqDiff, if_true, if_false, fromObj, Mac.fromObj, hb, pop0, error_bind]
  · refine ⟨fun h => absurd h hne, fun _ => ?_⟩
    obtain ⟨ws, hws, hrec⟩ := rcptsEncode_received (direct_list hall) he
    obtain ⟨rs', hcr', hall'⟩ := hrec b!"Mac_Recipient" 0
    have hdec' := finish_decode (C := C) (allow := allow) (cls := cls) (k := .mac) (t := 97) rfl hc
      (.cons sent_bytes (.cons hw (.cons sent_opt (.cons (sent_arr hws) .nil)))) hfin
      (m := .mac { base := recvBase pe b.phdr b.uhdr b.payload, authTag := .arr ws, recipients := none })
      (by
        simp only [fromObj]
        exact congrArg (fun r => r >>= fun m => Except.ok (Msg.mac m)) (mac_fromObj_none (hb b.payload [.arr ws]))) []
    rw [List.append_nil] at hdec'
    refine ⟨_, ws, hdec', ⟨rfl, rfl, rfl, hpe.symm⟩, rfl, ?_, rfl⟩
    have e1 := all2_length hall'
    have e2 := all2_length (createRecipients_all2 hcr')
    simp only [List.length_map] at e1
    omega

/-- A COSE_Mac message received without a list of recipients cannot be encoded again at all, with or without the tag. -/
theorem c53_mac_none_refuted {C : Crypto} {R : Rand} {m : Mac} (hrs : m.recipients = none) (tag mac : Bool) (r : Bytes × Mac) :
    m.encode C R tag mac ≠ .ok r := by
  intro h
  obtain ⟨out, m1⟩ := r
  obtain ⟨pe, m2, tl0, tl, rs1, hpe, hc', hfin, hr1, ht⟩ := mac_encode_inv h
  rcases hc' with ⟨_, t, h0, _⟩ | ⟨_, rfl, _⟩
  · simp only [Mac.computeTag, hrs, bind_eq_ok, reduceCtorEq, and_false, exists_false] at h0
  · simp [hrs] at hr1

/-! ### Samples and counterexamples -/

/-- Decodes `b` and applies `f` if the result is a message of that kind. -/
def Sample.sign1Of (b : Res Bytes) : Res Sign1 := do
  let o ← b
  match ← decode toy .any true o with
  | .sign1 m => .ok m
  | _ => .error .typeError

def Sample.enc0Of (b : Res Bytes) : Res Enc0 := do
  let o ← b
  match ← decode toy .any true o with
  | .enc0 m => .ok m
  | _ => .error .typeError

def Sample.macOf (b : Res Bytes) : Res Mac := do
  let o ← b
  match ← decode toy .any true o with
  | .mac m => .ok m
  | _ => .error .typeError

def Sample.encOf (b : Res Bytes) : Res Enc := do
  let o ← b
  match ← decode toy .any true o with
  | .enc m => .ok m
  | _ => .error .typeError

theorem Sample.macOf_inv {o : Bytes} {m : Mac} (h : Sample.macOf (.ok o) = .ok m) : decode toy .any true o = .ok (.mac m) := by
  simp only [Sample.macOf, ok_bind, bind_eq_ok] at h
  obtain ⟨x, h1, h2⟩ := h
  cases x <;> simp at h2
  subst h2; exact h1

theorem Sample.encOf_inv {o : Bytes} {m : Enc} (h : Sample.encOf (.ok o) = .ok m) : decode toy .any true o = .ok (.enc m) := by
  simp only [Sample.encOf, ok_bind, bind_eq_ok] at h
  obtain ⟨x, h1, h2⟩ := h
  cases x <;> simp at h2
  subst h2; exact h1

/-- The sample messages have plain unprotected headers, and re-encoding gives the received bytes. -/
example : (Sample.sign1Of (Sample.sign1.encode toy [] true true none)).bind (fun m => m.encode toy [] true false none) =
    Sample.sign1.encode toy [] true true none ∧ (Sample.sign1.encode toy [] true true none).isOk = true := by decide +kernel

example : (Sample.enc0Of (Sample.enc0.encode toy true true)).bind (fun m => m.encode toy true false) =
    Sample.enc0.encode toy true true ∧ (Sample.enc0.encode toy true true).isOk = true := by decide +kernel

example : Spec.PlainHeader toy Sample.enc0.base.uhdr := by
  have : ∀ p ∈ Sample.enc0.base.uhdr, p.1 ≠ .cls Hdr.EphemeralKey ∧ p.1 ≠ .cls Hdr.StaticKey ∧
    ∀ q ∈ registry .hdr, keq p.1 (.int q.1.ident) = false := by decide +kernel
  refine fun k v h => ⟨(this (k, v) h).2.2, fun e => ?_⟩
  rcases e with e | e
  · exact absurd e (this (k, v) h).1
  · exact absurd e (this (k, v) h).2.1

/-- An unprotected header with a COSE key, as received. -/
example : (∃ h, parseHeader toy true [(.int 4, .bytes [1]), (.int (-2), .map Sample.okpMap)] = .ok h ∧
    dget h (.cls Hdr.StaticKey) ≠ none) ∧
    ∀ h, parseHeader toy true [(.int 4, .bytes [1]), (.int (-2), .map Sample.okpMap)] = .ok h → Spec.PlainHeader toy h := by
  refine ⟨?_, fun h e => ?_⟩
  · obtain ⟨h, h1, h2⟩ := res_any (r := parseHeader toy true [(.int 4, .bytes [1]), (.int (-2), .map Sample.okpMap)])
      (p := fun h => (dget h (.cls Hdr.StaticKey)).isSome) (by decide +kernel)
    exact ⟨h, h1, by intro e; simp [e] at h2⟩
  · refine plainHeader_received ?_ e ?_ ?_
    · refine ⟨⟨⟨trivial, trivial⟩, ⟨trivial, ?_, ?_⟩, trivial⟩, ?_⟩
      · simp only [Sample.okpMap, PyOKP, PyOKQ, PyOK, PyOKL]
        decide +kernel
      · decide +kernel
      · decide +kernel
    · intro k v hm
      simp only [List.mem_cons, Prod.mk.injEq, List.not_mem_nil, or_false] at hm
      rcases hm with ⟨rfl, _⟩ | ⟨rfl, _⟩ <;> exact .inl ⟨_, rfl⟩
    · intro k m key hm hf
      simp only [List.mem_cons, Prod.mk.injEq, List.not_mem_nil, or_false, reduceCtorEq, and_false, false_or, Val.map.injEq] at hm
      obtain ⟨_, rfl⟩ := hm
      have : (match fromDict toy Sample.okpMap with | .ok k => decide (k.kind = .okp) | .error _ => false) = true := by decide +kernel
      rw [hf] at this
      simp only [decide_eq_true_eq] at this
      rw [this]
      exact Sample.okpMap_labels

example : (Sample.encOf ((Sample.enc.encode toy Sample.rand true true).map (·.1))).bind (fun m => m.encode toy Sample.rand true false |>.map (·.1)) =
    (Sample.enc.encode toy Sample.rand true true).map (·.1) ∧ (Sample.enc.encode toy Sample.rand true true).isOk = true := by decide +kernel

/-- The sample COSE_Mac0 message can be re-encoded, to something that does not decode. -/
def Sample.mac0Again : Res (Option PyErr) := do
  let r ← Sample.mac0.encode toy true true
  match ← decode toy .any true r.1 with
  | .mac0 m => do
    let o ← m.encode toy true false
    match decode toy .any true o.1 with
    | .ok _ => .ok none
    | .error e => .ok (some e)
  | _ => .error .typeError

example : Sample.mac0Again = .ok (some .indexError) := by decide +kernel

/-- Messages received with an empty signature exist. -/
example : (Sample.sign1Of (.ok [0xd2, 0x84, 0x40, 0xa0, 0x41, 0x01, 0x40])).map (fun m => truthy m.signature) = .ok false := by
  decide +kernel

/-- The sample COSE_Mac message as received, the bytes of the re-encoded message, and what is decoded from them. -/
def Sample.macAgain : Res (Bytes × Mac × (Bytes × Mac) × Mac) := do
  let r ← Sample.mac.encode toy Sample.rand true true
  let m ← Sample.macOf (.ok r.1)
  let o ← m.encode toy Sample.rand true false
  let m' ← Sample.macOf (.ok o.1)
  .ok (r.1, m, o, m')

/-- C53 is false for COSE_Mac: the message decodes, but the list of recipients has become its tag. -/
theorem c53_mac_refuted : ∃ (received out : Bytes) (m m1 m' : Mac),
    decode toy .any true received = .ok (.mac m) ∧ m.encode toy Sample.rand true false = .ok (out, m1) ∧
    decode toy .any true out = .ok (.mac m') ∧ (∃ rs, m.recipients = some rs ∧ rs.length = 1) ∧ m'.recipients = none ∧
    m'.authTag ≠ m.authTag := by
  obtain ⟨⟨r, m, ⟨o, m1⟩, m'⟩, h, hp⟩ := res_any (r := Sample.macAgain)
    (p := fun t => decide (t.2.1.recipients.map List.length = some 1) && decide (t.2.2.2.recipients = none) &&
      decide (t.2.2.2.authTag ≠ t.2.1.authTag)) (by decide +kernel)
  simp only [Sample.macAgain, bind_eq_ok] at h
  obtain ⟨_, _, _, h2, _, h3, _, h4, h5⟩ := h
  simp only [Except.ok.injEq, Prod.mk.injEq] at h5
  obtain ⟨rfl, rfl, rfl, rfl⟩ := h5
  simp only [Bool.and_eq_true, decide_eq_true_eq] at hp
  refine ⟨_, o, _, m1, _, Sample.macOf_inv h2, h3, Sample.macOf_inv h4, ?_, hp.1.2, hp.2⟩
  generalize Mac.recipients _ = q at hp ⊢
  cases q with
  | none => simp at hp
  | some rs => exact ⟨rs, rfl, by simpa using hp.1.1⟩

/-- The recipients of the received sample COSE_Mac message are direct, with plain headers, and it can be encoded again. -/
example : ((Sample.macAgain).map fun t => (t.2.1.recipients.getD []).map fun r =>
    (decide (r.cls = .directEncryption), r.recipients.length, r.base.uhdr.all fun p => (registry .hdr).all fun q =>
      !keq p.1 (.int q.1.ident) && decide (p.1 ≠ .cls Hdr.EphemeralKey) && decide (p.1 ≠ .cls Hdr.StaticKey))) =
    .ok [(true, 0, true)] := by decide +kernel

/-- A COSE_Mac message without a list of recipients, and one with an empty list, are received. -/
example : ((Sample.macOf (.ok [0xd8, 0x61, 0x84, 0x40, 0xa0, 0x41, 0x01, 0x41, 0x02])).map fun m => m.recipients) = .ok none ∧
    ((Sample.macOf (.ok [0xd8, 0x61, 0x85, 0x40, 0xa0, 0x41, 0x01, 0x41, 0x02, 0x80])).bind fun m => do
      let o ← m.encode toy Sample.rand true false
      .ok (m.recipients, o.1)) = .ok (some [], [0xd8, 0x61, 0x83, 0x40, 0xa0, 0x41, 0x01]) := by decide +kernel

/-- A COSE_Encrypt message without recipients is received and encoded again. -/
example : ((Sample.encOf (.ok [0xd8, 0x60, 0x83, 0x40, 0xa0, 0x41, 0x01])).bind fun m => do
    let o ← m.encode toy Sample.rand true false
    .ok (m.recipients, o.1)) = .ok ([], [0xd8, 0x60, 0x83, 0x40, 0xa0, 0x41, 0x01]) := by decide +kernel

/-- The sample COSE_Encrypt message with key-wrap recipients as received, the bytes of the re-encoded message after the
recipient's key has been set, and what is decoded from them. -/
def Sample.encAgain : Res (Bytes × Enc × (Bytes × Enc) × Enc) := do
  let r ← Sample.encKw.encode toy Sample.rand true true
  let m ← Sample.encOf (.ok r.1)
  let o ← Enc.encode toy Sample.rand { m with recipients := m.recipients.map (·.withKey (some Sample.symKey)) } true false
  let m' ← Sample.encOf (.ok o.1)
  .ok (r.1, m, o, m')

/-- C53 is false for COSE_Encrypt with key-wrap recipients: `encode(encrypt=False)` wraps the already wrapped key once more. -/
theorem c53_enc_refuted : ∃ (received out : Bytes) (m m1 m' : Enc),
    decode toy .any true received = .ok (.enc m) ∧
    Enc.encode toy Sample.rand { m with recipients := m.recipients.map (·.withKey (some Sample.symKey)) } true false = .ok (out, m1) ∧
    decode toy .any true out = .ok (.enc m') ∧ m'.recipients.length = m.recipients.length ∧
    m'.recipients.map (·.base.payload) ≠ m.recipients.map (·.base.payload) := by
  obtain ⟨⟨r, m, ⟨o, m1⟩, m'⟩, h, hp⟩ := res_any (r := Sample.encAgain)
    (p := fun t => decide (t.2.2.2.recipients.length = t.2.1.recipients.length) &&
      decide (t.2.2.2.recipients.map (·.base.payload) ≠ t.2.1.recipients.map (·.base.payload))) (by decide +kernel)
  simp only [Sample.encAgain, bind_eq_ok] at h
  obtain ⟨_, _, _, h2, _, h3, _, h4, h5⟩ := h
  simp only [Except.ok.injEq, Prod.mk.injEq] at h5
  obtain ⟨rfl, rfl, rfl, rfl⟩ := h5
  simp only [Bool.and_eq_true, decide_eq_true_eq] at hp
  exact ⟨_, o, _, m1, _, Sample.encOf_inv h2, h3, Sample.encOf_inv h4, hp.1, hp.2⟩

end Cose
