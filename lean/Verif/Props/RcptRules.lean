import Verif.Props.Recipients
import Verif.Props.Structure
import Verif.Props.Reencode
/-!
# Rules for recipients and key lengths (C61, C62)
-/
set_option autoImplicit false
namespace Cose

/-! ### C61: received recipients -/

/-- Which algorithms (IANA identifiers) belong to which of the four classes of RFC 8152, section 12. -/
inductive Spec.ClassOf : RCls → Int → Prop
  | direct {i : Int} : i = -6 ∨ i = -10 ∨ i = -13 → Spec.ClassOf .directEncryption i
  | aesKw {i : Int} : i = -3 ∨ i = -4 ∨ i = -5 → Spec.ClassOf .keyWrap i
  | oaep {i : Int} : i = -40 ∨ i = -41 ∨ i = -42 → Spec.ClassOf .keyWrap i
  | agreement {i : Int} : i = -25 ∨ i = -26 ∨ i = -27 ∨ i = -28 → Spec.ClassOf .directKeyAgreement i
  | agreementKw {i : Int} : i = -29 ∨ i = -30 ∨ i = -31 ∨ i = -32 ∨ i = -33 ∨ i = -34 → Spec.ClassOf .keyAgreementWithKeyWrap i

/-- The algorithm of a recipient: the one in the protected header, else the one in the unprotected header. -/
def Spec.RcptAlg (b : Base) (i : Int) : Prop :=
  getD b.phdr Hdr.Algorithm .none = algCls i ∨ getD b.phdr Hdr.Algorithm .none = .none ∧ getD b.uhdr Hdr.Algorithm .none = algCls i

/-- RFC 8152, section 12, for a received recipient: it has an algorithm, which determines its class; with direct encryption there is
no ciphertext, and no protected header for `Direct`; a key-wrap recipient has a ciphertext, and no protected header for AES key wrap;
ephemeral-static key agreement has an ephemeral key; key agreement with key wrap has a ciphertext. -/
structure Spec.RcptRules (r : Rcpt) (i : Int) : Prop where
  alg : Spec.RcptAlg r.base i
  cls : Spec.ClassOf r.cls i
  direct : r.cls = .directEncryption → r.base.payload = some [] ∧ (i = -6 → r.base.phdr = [])
  keyWrap : r.cls = .keyWrap → r.base.payload ≠ some [] ∧ (i = -3 ∨ i = -4 ∨ i = -5 → r.base.phdr = [])
  ephemeral : i = -25 ∨ i = -26 → getD r.base.phdr Hdr.EphemeralKey .none ≠ .none ∨ getD r.base.uhdr Hdr.EphemeralKey .none ≠ .none
  agreementKw : r.cls = .keyAgreementWithKeyWrap → r.base.payload ≠ some []
  nested : r.recipients = []

theorem rcptClass_spec {v : Val} {c : RCls} (h : rcptClass v = .ok c) : ∃ i, v = algCls i ∧ Spec.ClassOf c i := by
  cases v <;> simp only [rcptClass, reduceCtorEq] at h
  rename_i a
  obtain ⟨reg, i⟩ := a
  split at h
  · rename_i hr
    simp only at hr
    subst hr
    refine ⟨i, rfl, ?_⟩
    simp only at h
    split at h
    · rename_i hi; simp at hi h; subst h; exact .direct hi
    split at h
    · rename_i hi; simp at hi h; subst h
      rcases hi with h | h | h | h | h | h
      · exact .aesKw (.inl h)
      · exact .aesKw (.inr (.inl h))
      · exact .aesKw (.inr (.inr h))
      · exact .oaep (.inl h)
      · exact .oaep (.inr (.inl h))
      · exact .oaep (.inr (.inr h))
    split at h
    · rename_i hi; simp at hi h; subst h; exact .agreement hi
    split at h
    · rename_i hi; simp at hi h; subst h; exact .agreementKw hi
    · simp at h
  · simp at h

theorem getAttr_of_rcptAlg {b : Base} {i : Int} {v : Val} (h : Spec.RcptAlg b i) (ha : b.getAttr Hdr.Algorithm = .ok v) : v = algCls i := by
  have h' : (if getD b.phdr Hdr.Algorithm .none ≠ .none ∧ getD b.uhdr Hdr.Algorithm .none ≠ .none then .error .coseException
      else if getD b.phdr Hdr.Algorithm .none ≠ .none then .ok (getD b.phdr Hdr.Algorithm .none)
      else .ok (getD b.uhdr Hdr.Algorithm .none) : Res Val) = .ok v := ha
  rcases h with h | ⟨h1, h2⟩
  · rw [h] at h'
    split at h'
    · simp at h'
    · simp [algCls] at h'; exact h'.symm
  · rw [h1, h2] at h'
    simp at h'; exact h'.symm

theorem getAttr_eph {b : Base} {v : Val} (ha : b.getAttr Hdr.EphemeralKey = .ok v) (hn : v ≠ .none) :
    getD b.phdr Hdr.EphemeralKey .none ≠ .none ∨ getD b.uhdr Hdr.EphemeralKey .none ≠ .none := by
  have h' : (if getD b.phdr Hdr.EphemeralKey .none ≠ .none ∧ getD b.uhdr Hdr.EphemeralKey .none ≠ .none then .error .coseException
      else if getD b.phdr Hdr.EphemeralKey .none ≠ .none then .ok (getD b.phdr Hdr.EphemeralKey .none)
      else .ok (getD b.uhdr Hdr.EphemeralKey .none) : Res Val) = .ok v := ha
  split at h'
  · simp at h'
  split at h'
  · rename_i h; exact .inl h
  · simp at h'; right; rw [h']; exact hn

theorem rcptFromObj_rules {C : Crypto} {cls : RCls} {obj : Val} {allow : Bool} {ctx : Bytes} {oid : Nat} {r : Rcpt} {i : Int}
    (h : rcptFromObj C cls obj allow ctx oid = .ok r) (hc : Spec.ClassOf cls i) (ha : Spec.RcptAlg r.base i) : Spec.RcptRules r i := by
  cases obj <;> simp only [rcptFromObj, reduceCtorEq, bind_eq_ok] at h
  rename_i l
  obtain ⟨⟨b, rest⟩, h1, h2⟩ := h
  cases cls <;> simp only at h2
  · split at h2
    · simp at h2
    · rename_i hp
      simp only [bind_eq_ok] at h2
      obtain ⟨alg, h3, h2⟩ := h2
      split at h2 <;> simp at h2
      rename_i hx
      subst h2
      have := getAttr_of_rcptAlg ha h3
      subst this
      refine ⟨ha, hc, fun _ => ⟨by simpa [Rcpt.base] using hp, fun hi => ?_⟩, by simp [Rcpt.cls], ?_, by simp [Rcpt.cls], rfl⟩
      · subst hi; simpa [Rcpt.base] using hx
      · cases hc with | direct hd => omega
  · simp only [bind_eq_ok] at h2
    obtain ⟨alg, h3, kw, h4, h2⟩ := h2
    split at h2
    · simp at h2
    rename_i hx
    split at h2 <;> simp at h2
    rename_i hp
    subst h2
    have := getAttr_of_rcptAlg ha h3
    subst this
    refine ⟨ha, hc, by simp [Rcpt.cls], fun _ => ⟨hp, fun hi => ?_⟩, ?_, by simp [Rcpt.cls], rfl⟩
    · have hkw : kw = true := by
        simp only [inSet, Except.ok.injEq] at h4
        rw [← h4]
        simpa [aesKws] using hi
      simpa [hkw, Rcpt.base] using hx
    · cases hc with
      | aesKw hd => omega
      | oaep hd => omega
  · simp only [bind_eq_ok] at h2
    obtain ⟨alg, h3, es, h4, h2⟩ := h2
    have e : ∀ (b1 : Bool), (if b1 then .error .malformedMessage else .ok (.mk .directKeyAgreement b ctx oid []) : Res Rcpt) = .ok r →
        b1 = false ∧ r = .mk .directKeyAgreement b ctx oid [] := by
      intro b1 h
      cases b1 <;> simp at h
      exact ⟨rfl, h.symm⟩
    have base : r = .mk .directKeyAgreement b ctx oid [] ∧
        (es = true → getD b.phdr Hdr.EphemeralKey .none ≠ .none ∨ getD b.uhdr Hdr.EphemeralKey .none ≠ .none) := by
      split at h2
      · simp only [bind_eq_ok] at h2
        obtain ⟨ek, h5, _, h6, h2⟩ := h2
        obtain ⟨rfl, rfl⟩ := e _ h2
        refine ⟨rfl, fun _ => getAttr_eph h5 ?_⟩
        simpa using h6
      · rename_i hes
        simp only [ok_bind] at h2
        exact ⟨(e _ h2).2, fun h => absurd h hes⟩
    obtain ⟨rfl, heph⟩ := base
    have := getAttr_of_rcptAlg ha h3
    subst this
    refine ⟨ha, hc, by simp [Rcpt.cls], by simp [Rcpt.cls], fun hi => heph ?_, by simp [Rcpt.cls], rfl⟩
    simp only [inSet, Except.ok.injEq] at h4
    rw [← h4]
    simpa [ecdhEsHkdf] using hi
  · split at h2 <;> simp at h2
    rename_i hp
    subst h2
    refine ⟨ha, hc, by simp [Rcpt.cls], by simp [Rcpt.cls], fun hi => ?_, fun _ => hp, rfl⟩
    cases hc with | agreementKw hd => omega

theorem createRecipient_rules {C : Crypto} {allow : Bool} {ctx : Bytes} {oid : Nat} {v : Val} {r : Rcpt}
    (h : createRecipient C allow ctx oid v = .ok r) : ∃ i, Spec.RcptRules r i := by
  have hcls := createRecipient_ok h
  obtain ⟨cls0, h0⟩ := hcls
  obtain ⟨l, rest, b, rfl, hb, rfl⟩ := rcptFromObj_ok h0
  obtain ⟨pe, uh, rfl, hp, hu, _⟩ := baseFromObj_iff.mp hb
  unfold createRecipient at h
  simp only [bind_eq_ok] at h
  obtain ⟨r0, hr0, h⟩ := h
  have e0 : r0 = pe := by simp [rcptItem] at hr0; exact hr0.symm
  subst e0
  have fin : ∀ (p u : Val), p = getD b.phdr Hdr.Algorithm .none → u = getD b.uhdr Hdr.Algorithm .none →
      (if p ≠ .none then do
        let c ← rcptClass p
        rcptFromObj C c (.arr (r0 :: uh :: optBytes b.payload :: rest)) allow ctx oid
      else if u ≠ .none then do
        let c ← rcptClass u
        rcptFromObj C c (.arr (r0 :: uh :: optBytes b.payload :: rest)) allow ctx oid
      else .error .coseException) = .ok (.mk cls0 b ctx oid []) → ∃ i, Spec.RcptRules (.mk cls0 b ctx oid []) i := by
    intro p u hpp huu h
    split at h
    · simp only [bind_eq_ok] at h
      obtain ⟨c, hc, h⟩ := h
      obtain ⟨i, rfl, hci⟩ := rcptClass_spec hc
      exact ⟨i, rcptFromObj_rules h hci (.inl hpp.symm)⟩
    · rename_i hpn
      split at h
      · simp only [bind_eq_ok] at h
        obtain ⟨c, hc, h⟩ := h
        obtain ⟨i, rfl, hci⟩ := rcptClass_spec hc
        refine ⟨i, rcptFromObj_rules h hci (.inr ⟨?_, huu.symm⟩)⟩
        show getD b.phdr Hdr.Algorithm .none = .none
        rw [← hpp]
        exact Classical.byContradiction fun g => hpn g
      · simp at h
  have hu' : ∀ r1 h1, rcptItem (.arr (r0 :: uh :: optBytes b.payload :: rest)) 1 = .ok r1 → parseHeaderVal C allow r1 = .ok h1 →
      getD h1 Hdr.Algorithm .none = getD b.uhdr Hdr.Algorithm .none := by
    intro r1 h1 e1 e2
    simp [rcptItem] at e1
    subst e1
    rcases hu.inv with ⟨rfl, _⟩ | ⟨d, rfl, e3⟩
    · simp [parseHeaderVal] at e2
    · simp only [parseHeaderVal] at e2
      rw [e3] at e2
      simp at e2
      rw [e2]
  split at h
  · rename_i hne
    simp only [bind_eq_ok, ok_bind] at h
    obtain ⟨v, hv, ph, hph, r1, hr1, h1, hh1, h⟩ := h
    refine fin _ _ ?_ (hu' _ _ hr1 hh1) h
    rcases hp.inv with ⟨rfl, _⟩ | ⟨rfl, _⟩ | ⟨bb, d, rfl, _, _, e3, e4⟩
    · exact absurd hv (loads_nil _)
    · simp at hne
    · simp only [loadsVal] at hv
      rw [e3] at hv
      simp at hv
      subst hv
      simp only [parseHeaderVal] at hph
      rw [e4] at hph
      simp at hph
      rw [hph]
  · rename_i hne
    simp only [bind_eq_ok, ok_bind] at h
    obtain ⟨r1, hr1, h1, hh1, h⟩ := h
    refine fin _ _ ?_ (hu' _ _ hr1 hh1) h
    have : r0 = .bytes [] := Classical.byContradiction fun g => hne g
    subst this
    rcases hp.inv with ⟨e, _⟩ | ⟨_, _, e⟩ | ⟨bb, d, e, _, e2, _⟩
    · simp at e
    · rw [e]; rfl
    · simp at e; exact absurd e e2

theorem createRecipients_rules {C : Crypto} {allow : Bool} {ctx : Bytes} {i : Nat} {l : List Val} {rs : List Rcpt}
    (h : createRecipients C allow ctx i l = .ok rs) : ∀ r ∈ rs, ∃ i, Spec.RcptRules r i := by
  induction l generalizing rs i with
  | nil => simp [createRecipients] at h; subst h; simp
  | cons v t ih =>
    simp only [createRecipients, bind_eq_ok] at h
    obtain ⟨r, h1, rs', h2, h3⟩ := h
    simp at h3; subst h3
    intro r' hr'
    simp only [List.mem_cons] at hr'
    rcases hr' with rfl | hr'
    · exact createRecipient_rules h1
    · exact ih h2 r' hr'

/-- C61: every recipient of a received message obeys the rules of its class, and its class is that of its algorithm. -/
theorem c61_enc {C : Crypto} {cls : DecCls} {allow : Bool} {bs : Bytes} {m : Enc} (h : decode C cls allow bs = .ok (.enc m)) :
    ∀ r ∈ m.recipients, ∃ i, Spec.RcptRules r i := by
  obtain ⟨n, obj, k, _, _, h2, _, hk⟩ := decode_iff.mp h
  simp [Msg.kind] at hk; subst hk
  simp only [fromObj, Enc.fromObj, bind_eq_ok] at h2
  obtain ⟨m', ⟨⟨b, o⟩, _, h4⟩, h8⟩ := h2
  simp at h8; subst h8
  split at h4
  · rename_i rs hrs
    simp at h4; subst h4
    obtain ⟨_, _, _, _, _, h5⟩ := recipientsOf_ok hrs
    exact createRecipients_rules h5
  · split at h4 <;> simp at h4
    subst h4; simp

theorem c61_mac {C : Crypto} {cls : DecCls} {allow : Bool} {bs : Bytes} {m : Mac} {rs : List Rcpt}
    (h : decode C cls allow bs = .ok (.mac m)) (hr : m.recipients = some rs) : ∀ r ∈ rs, ∃ i, Spec.RcptRules r i := by
  obtain ⟨n, obj, k, _, _, h2, _, hk⟩ := decode_iff.mp h
  simp [Msg.kind] at hk; subst hk
  simp only [fromObj, Mac.fromObj, bind_eq_ok] at h2
  obtain ⟨m', ⟨⟨b, o⟩, _, ⟨t, o'⟩, _, h4⟩, h8⟩ := h2
  simp at h8; subst h8
  split at h4
  · rename_i rs' hrs
    simp at h4; subst h4
    simp at hr; subst hr
    obtain ⟨_, _, _, _, _, h5⟩ := recipientsOf_ok hrs
    exact createRecipients_rules h5
  · split at h4 <;> simp at h4
    subst h4; simp at hr

/-- A message with recipients of three classes, as received. -/
example : ∃ m, decode toy .any false (((Sample.encMix.encode toy Sample.rand true true).toOption.map (·.1)).getD []) = .ok (.enc m) ∧
    m.recipients.map Rcpt.cls = [.keyWrap, .keyWrap, .keyAgreementWithKeyWrap, .keyAgreementWithKeyWrap] := by
  obtain ⟨m, h1, h2⟩ := res_any (r := decode toy .any false (((Sample.encMix.encode toy Sample.rand true true).toOption.map (·.1)).getD []))
    (p := fun | .enc m => decide (m.recipients.map Rcpt.cls = [.keyWrap, .keyWrap, .keyAgreementWithKeyWrap, .keyAgreementWithKeyWrap]) | _ => false)
    (by decide +kernel)
  cases m <;> simp at h2
  exact ⟨_, h1, by simpa using h2⟩

example : ∃ m rs, decode toy .any false (((Sample.mac.encode toy Sample.rand true true).toOption.map (·.1)).getD []) = .ok (.mac m) ∧
    m.recipients = some rs ∧ rs.map Rcpt.cls = [.directEncryption] := by
  obtain ⟨m, h1, h2⟩ := res_any (r := decode toy .any false (((Sample.mac.encode toy Sample.rand true true).toOption.map (·.1)).getD []))
    (p := fun | .mac m => decide (m.recipients.map (List.map Rcpt.cls) = some [.directEncryption]) | _ => false)
    (by decide +kernel)
  cases m <;> simp at h2
  rename_i m
  obtain ⟨rs, h3, h4⟩ := h2
  exact ⟨_, rs, h1, h3, by simpa using h4⟩

/-! ### C62: key lengths -/

/-- The number of key bytes of an algorithm, by IANA identifier (RFC 8152, sections 9.2, 10.1, 10.2, 12.2.1, 12.5.1): AES key wrap,
AES-GCM, AES-CCM, AES-CBC-MAC and, for key agreement with key wrap, the key-encryption key. -/
def Spec.keyLength (i : Int) : Option Nat :=
  if i = -3 ∨ i = 1 ∨ i = 10 ∨ i = 12 ∨ i = 30 ∨ i = 32 ∨ i = 14 ∨ i = 25 ∨ i = -29 ∨ i = -32 then some 16
  else if i = -4 ∨ i = 2 ∨ i = -30 ∨ i = -33 then some 24
  else if i = -5 ∨ i = 3 ∨ i = 11 ∨ i = 13 ∨ i = 31 ∨ i = 33 ∨ i = 15 ∨ i = 26 ∨ i = -31 ∨ i = -34 then some 32
  else none

theorem algFam_id {i : Int} {f : AlgFam} (h : algFam (algCls i) = some f) : (i, f) ∈ algTable := by
  obtain ⟨c, _, e, _, h2⟩ := algFam_reg h
  cases e; exact h2

theorem aesKw_len {i : Int} {n : Nat} (h : algFam (algCls i) = some (.aesKw n)) : Spec.keyLength i = some n := by
  have row : ∀ p ∈ algTable, (match p.2 with | (.aesKw n) => decide (Spec.keyLength p.1 = some n) | _ => true) = true := by
    decide +kernel
  have := row _ (algFam_id h)
  simpa using this

theorem algKeyLength_id {alg : Val} {n : Nat} (h : algKeyLength alg = .ok n) : ∃ i, alg = algCls i ∧ Spec.keyLength i = some n := by
  have hf : ∃ f, algFam alg = some f := by
    unfold algKeyLength at h
    split at h <;> first | exact ⟨_, by assumption⟩ | simp at h
  obtain ⟨f, hf⟩ := hf
  obtain ⟨c, nm, rfl, hreg, htab⟩ := algFam_reg hf
  obtain ⟨r, i⟩ := c
  have hc := registry_reg (by decide) hreg
  simp at hc; subst hc
  have row : ∀ p ∈ algTable, (match algKeyLength (algCls p.1) with | .ok n => decide (Spec.keyLength p.1 = some n) | _ => true) = true := by
    decide +kernel
  have := row _ htab
  simp only [h] at this
  exact ⟨i, rfl, by simpa using this⟩

theorem kwKeyWrap_len {C : Crypto} {n : Nat} {alg : Val} {ops : List Cls} {kb c : Bytes} {p : Option Bytes}
    (h : kwKeyWrap C n { kind := .sym, store := symStore alg ops kb } p = .ok c) : kb.length = n ∧ ∃ d, p = some d ∧ C.kwWrap kb d = .ok c := by
  simp only [kwKeyWrap, symStore_symK, ok_bind, lenOf, asBytes] at h
  split at h
  · simp at h
  · rename_i hl
    cases p with
    | none => simp at h
    | some d => exact ⟨by simpa using (Classical.byContradiction fun g => hl g : n = kb.length).symm, d, rfl, h⟩

theorem kwKeyUnwrap_len {C : Crypto} {n : Nat} {alg : Val} {ops : List Cls} {kb c : Bytes} {p : Option Bytes}
    (h : kwKeyUnwrap C n { kind := .sym, store := symStore alg ops kb } p = .ok c) : kb.length = n ∧ ∃ d, p = some d ∧ C.kwUnwrap kb d = .ok c := by
  simp only [kwKeyUnwrap, symStore_symK, ok_bind, lenOf, asBytes] at h
  split at h
  · simp at h
  · rename_i hl
    cases p with
    | none => simp at h
    | some d => exact ⟨by simpa using (Classical.byContradiction fun g => hl g : n = kb.length).symm, d, rfl, h⟩

theorem kwFunc_len {alg w : Val} {n : Nat} (h : keyWrapFunc alg = .ok w) (hn : algFam w = some (.aesKw n)) :
    ∃ i nm, alg = algCls i ∧ Spec.keyLength i = some n ∧ ((⟨.alg, i⟩ : Cls), nm) ∈ registry .alg := by
  obtain ⟨i, rfl, hi, nm, hreg⟩ := kwFunc_ids h hn
  refine ⟨i, nm, rfl, ?_, hreg⟩
  have row : ∀ i ∈ [(-29 : Int), -30, -31, -32, -33, -34], (match keyWrapFunc (algCls i) with
      | .ok w => (match algFam w with | some (.aesKw n) => decide (Spec.keyLength i = some n) | _ => true)
      | _ => true) = true := by decide +kernel
  have := row i hi
  simp only [h, hn] at this
  simpa using this

theorem kwEncrypt_len {C : Crypto} {salt c : Bytes} {b : Base} {rs : List Rcpt} (h : kwEncrypt C salt b rs = .ok c) {i : Int}
    (ha : b.getAttr Hdr.Algorithm = .ok (algCls i)) (hi : i = -3 ∨ i = -4 ∨ i = -5) :
    ∃ k kek cek, b.key = some k ∧ k.symK = .ok (.bytes kek) ∧ Spec.keyLength i = some kek.length ∧ b.payload = some cek ∧
      C.kwWrap kek cek = .ok c := by
  unfold kwEncrypt at h
  simp only [ha, ok_bind] at h
  split at h
  · simp at h
  split at h
  · simp at h
  obtain ⟨kw, h1, h⟩ := bind_eq_ok.mp h
  split at h
  · simp only [bind_eq_ok] at h
    obtain ⟨kk, h2, kek, h3, _, _, h⟩ := h
    split at h
    · rename_i n hn
      obtain ⟨nm, hreg⟩ := algReg_of hn
      obtain ⟨kb, rfl, _, rfl⟩ := mkSym_ok hreg wrapOps_reg h3
      obtain ⟨hl, d, hd, hw⟩ := kwKeyWrap_len h
      unfold kwKekEncrypt at h2
      split at h2
      · rename_i k hk
        exact ⟨k, kb, d, hk, h2, by rw [hl]; exact aesKw_len hn, hd, hw⟩
      · split at h2
        · simp at h2
        · obtain ⟨_, _, h2⟩ := bind_eq_ok.mp h2
          split at h2
          · simp at h2
          · split at h2 <;> simp at h2
    · simp at h
  · rename_i hk
    have : kw = true := by
      simp only [inSet, Except.ok.injEq] at h1
      rw [← h1]; simpa [aesKws] using hi
    exact absurd this hk

/-- C62: AES key wrap by a key-wrap recipient succeeds only with a key-encryption key of the length the algorithm requires, and the
key wrapped is the recipient's payload. -/
theorem c62_wrap {C : Crypto} {R : Rand} {phase : Nat} {path : List Nat} {r r' : Rcpt} {c : Bytes} {i : Int} (hc : r.cls = .keyWrap)
    (h : rcptEncrypt C R phase path r = .ok (c, r')) (ha : r.base.getAttr Hdr.Algorithm = .ok (algCls i)) (hi : i = -3 ∨ i = -4 ∨ i = -5) :
    ∃ k kek cek, r.base.key = some k ∧ k.symK = .ok (.bytes kek) ∧ Spec.keyLength i = some kek.length ∧ r.base.payload = some cek ∧
      C.kwWrap kek cek = .ok c := by
  simp only [rcptEncrypt, hc, bind_eq_ok] at h
  obtain ⟨c', h1, h2⟩ := h
  simp at h2
  obtain ⟨rfl, rfl⟩ := h2
  exact kwEncrypt_len h1 ha hi

/-- … and so does encoding such a recipient. -/
theorem c62_encode {C : Crypto} {R : Rand} {path : List Nat} {r r' : Rcpt} {v : Val} {i : Int} (hc : r.cls = .keyWrap)
    (h : rcptEncode C R path r = .ok (v, r')) (ha : r.base.getAttr Hdr.Algorithm = .ok (algCls i)) (hi : i = -3 ∨ i = -4 ∨ i = -5) :
    ∃ k kek cek c p u rest, v = .arr (p :: u :: .bytes c :: rest) ∧ r.base.key = some k ∧ k.symK = .ok (.bytes kek) ∧
      Spec.keyLength i = some kek.length ∧ r.base.payload = some cek ∧ C.kwWrap kek cek = .ok c := by
  obtain ⟨cls, b, ctx, oid, rs⟩ := r
  simp only [Rcpt.cls] at hc
  subst hc
  simp only [rcptEncode, rcptHead, bind_eq_ok] at h
  obtain ⟨⟨hd, b'⟩, ⟨pe, _, c, hk, h1⟩, h⟩ := h
  simp only [Except.ok.injEq, Prod.mk.injEq] at h1
  obtain ⟨rfl, rfl⟩ := h1
  obtain ⟨k, kek, cek, e⟩ := kwEncrypt_len hk ha hi
  simp only at h
  split at h
  · simp at h
    obtain ⟨rfl, _⟩ := h
    exact ⟨k, kek, cek, c, _, _, _, rfl, e⟩
  · simp only [bind_eq_ok] at h
    obtain ⟨⟨vs, rs'⟩, _, h⟩ := h
    simp at h
    obtain ⟨rfl, _⟩ := h
    exact ⟨k, kek, cek, c, _, _, _, rfl, e⟩

/-- Unwrapping with AES key wrap succeeds only with a key-encryption key of the length the algorithm requires. -/
theorem c62_unwrap {C : Crypto} {r : Rcpt} {cek : Bytes} {i : Int} (hc : r.cls = .keyWrap) (h : rcptDecrypt C r = .ok cek)
    (ha : r.base.getAttr Hdr.Algorithm = .ok (algCls i)) (hi : i = -3 ∨ i = -4 ∨ i = -5) :
    ∃ k kek c, r.base.key = some k ∧ k.symK = .ok (.bytes kek) ∧ Spec.keyLength i = some kek.length ∧ r.base.payload = some c ∧
      C.kwUnwrap kek c = .ok cek := by
  obtain ⟨cls, b, ctx, oid, rs⟩ := r
  simp only [Rcpt.cls] at hc
  subst hc
  simp only [Rcpt.base] at ha
  simp only [rcptDecrypt, ha, ok_bind] at h
  obtain ⟨kw, h1, h⟩ := bind_eq_ok.mp h
  split at h
  · simp only [bind_eq_ok] at h
    obtain ⟨kk, h2, kek, h3, _, _, h⟩ := h
    split at h
    · rename_i n hn
      obtain ⟨nm, hreg⟩ := algReg_of hn
      obtain ⟨kb, rfl, _, rfl⟩ := mkSym_ok hreg unwrapOps_reg h3
      obtain ⟨hl, d, hd, hw⟩ := kwKeyUnwrap_len h
      cases hk : b.key with
      | some k =>
        refine ⟨k, kb, d, hk, ?_, by rw [hl]; exact aesKw_len hn, hd, hw⟩
        rw [hk] at h2
        cases rs <;> exact h2
      | none =>
        rw [hk] at h2
        cases rs with
        | nil => simp [kwKekDecrypt] at h2
        | cons a t =>
          simp only [kwKekDecrypt] at h2
          split at h2
          · simp at h2
          · split at h2
            · split at h2 <;> simp at h2
            · simp at h2
    · simp at h
  · rename_i hk
    have : kw = true := by
      simp only [inSet, Except.ok.injEq] at h1
      rw [← h1]; simpa [aesKws] using hi
    exact absurd this hk

/-- Key agreement with key wrap wraps, and unwraps, only with a derived key of the length of the key-wrap algorithm. -/
theorem c62_agreement_wrap {C : Crypto} {R : Rand} {phase : Nat} {path : List Nat} {r r' : Rcpt} {c : Bytes}
    (hc : r.cls = .keyAgreementWithKeyWrap) (h : rcptEncrypt C R phase path r = .ok (c, r')) :
    ∃ i kek cek, r.base.getAttr Hdr.Algorithm = .ok (algCls i) ∧ Spec.keyLength i = some kek.length ∧ r'.base.payload = some cek ∧
      C.kwWrap kek cek = .ok c := by
  simp only [rcptEncrypt, hc, bind_eq_ok] at h
  obtain ⟨⟨c', b'⟩, h1, h2⟩ := h
  simp at h2
  obtain ⟨rfl, rfl⟩ := h2
  obtain ⟨alg, w, kek, n, k, sk, ha, _, _, hw, _, hn, hm, hk⟩ := kakwEncrypt_ok h1
  obtain ⟨i, nm, rfl, hl, hreg⟩ := kwFunc_len hw hn
  obtain ⟨kb, e, _, rfl⟩ := mkSym_ok hreg deriveOps_reg hm
  cases e
  obtain ⟨hl2, d, hd, hww⟩ := kwKeyWrap_len hk
  refine ⟨i, kek, d, ha, by rw [hl2]; exact hl, ?_, hww⟩
  obtain ⟨_, _, _, _, _⟩ := r
  exact hd

theorem c62_agreement_unwrap {C : Crypto} {r : Rcpt} {cek : Bytes} (hc : r.cls = .keyAgreementWithKeyWrap) (h : rcptDecrypt C r = .ok cek) :
    ∃ i kek c, r.base.getAttr Hdr.Algorithm = .ok (algCls i) ∧ Spec.keyLength i = some kek.length ∧ r.base.payload = some c ∧
      C.kwUnwrap kek c = .ok cek := by
  obtain ⟨cls, b, ctx, oid, rs⟩ := r
  simp only [Rcpt.cls] at hc
  subst hc
  simp only [rcptDecrypt, kakwDecrypt] at h
  have fin : ∀ (alg peer : Val), b.getAttr Hdr.Algorithm = .ok alg → (do
      let w ← keyWrapFunc alg
      let kek ← agreeKek C b w peer b.key alg
      let k ← mkSym (.bytes kek) alg [Op.Unwrap, Op.Decrypt]
      k.verify .sym alg [Op.Unwrap, Op.Decrypt]
      match algFam w with
      | some (.aesKw n) => kwKeyUnwrap C n k b.payload
      | _ => .error .attributeError : Res Bytes) = .ok cek →
      ∃ i kek c, b.getAttr Hdr.Algorithm = .ok (algCls i) ∧ Spec.keyLength i = some kek.length ∧ b.payload = some c ∧
      C.kwUnwrap kek c = .ok cek := by
    intro alg peer ha h
    simp only [bind_eq_ok] at h
    obtain ⟨w, hw, kek, _, k, hm, _, _, h⟩ := h
    split at h
    · rename_i n hn
      obtain ⟨i, nm, rfl, hl, hreg⟩ := kwFunc_len hw hn
      obtain ⟨kb, e, _, rfl⟩ := mkSym_ok hreg unwrapOps_reg' hm
      cases e
      obtain ⟨hl2, d, hd, hww⟩ := kwKeyUnwrap_len h
      exact ⟨i, kek, d, ha, by rw [hl2]; exact hl, hd, hww⟩
    · simp at h
  obtain ⟨alg, ha, h⟩ := bind_eq_ok.mp h
  obtain ⟨es, _, h⟩ := bind_eq_ok.mp h
  obtain ⟨ss, _, h⟩ := bind_eq_ok.mp h
  split at h
  · obtain ⟨peer, _, h⟩ := bind_eq_ok.mp h
    exact fin alg peer ha h
  · split at h
    · obtain ⟨peer, _, h⟩ := bind_eq_ok.mp h
      exact fin alg peer ha h
    · simp at h

/-- Direct key agreement yields a key of the length of the algorithm it is for. -/
theorem c62_agreement_direct {C : Crypto} (L : C.Laws) {b : Base} {target : Val} {enc : Bool} {k : Key} (h : dkaComputeCek C b target enc = .ok k) :
    ∃ i kb, target = algCls i ∧ k.symK = .ok (.bytes kb) ∧ Spec.keyLength i = some kb.length := by
  have fin : ∀ (alg peer : Val) (k0 : Key), (do
      let kek ← agreeKek C b target peer (some k0) alg
      mkSym (.bytes kek) target [] : Res Key) = .ok k → ∃ i kb, target = algCls i ∧ k.symK = .ok (.bytes kb) ∧ Spec.keyLength i = some kb.length := by
    intro alg peer k0 h
    obtain ⟨kek, h1, h2⟩ := bind_eq_ok.mp h
    unfold agreeKek at h1
    split at h1
    · simp only [bind_eq_ok] at h1
      obtain ⟨pk, _, crv, _, ctx, hctx, h1⟩ := h1
      simp only [kdfContext, bind_eq_ok] at hctx
      obtain ⟨_, _, _, _, _, _, _, _, _, _, _, _, n, hn, sp, hsp, hctx⟩ := hctx
      simp at hctx
      subst hctx
      simp [SuppPubInfo.init] at hsp
      subst hsp
      unfold deriveKek at h1
      split at h1
      · simp only [bind_eq_ok] at h1
        obtain ⟨_, _, _, _, _, _, _, _, _, _, _, _, h1⟩ := h1
        split at h1
        · simp only [bind_eq_ok] at h1
          obtain ⟨_, _, _, _, h1⟩ := h1
          simp at h1
          obtain ⟨i, rfl, hl⟩ := algKeyLength_id hn
          have hf : ∃ f, algFam (algCls i) = some f := by
            unfold algKeyLength at hn
            split at hn <;> first | exact ⟨_, by assumption⟩ | simp at hn
          obtain ⟨f, hf⟩ := hf
          obtain ⟨nm, hreg⟩ := algReg_of hf
          obtain ⟨kb, e, _, rfl⟩ := mkSym_ok hreg (ops := []) (by simp) h2
          cases e
          refine ⟨i, kek, rfl, symStore_symK _ _ _, ?_⟩
          rw [← h1, L.hkdf_length]
          exact hl
        · simp at h1
      · simp at h1
    · simp at h1
  unfold dkaComputeCek at h
  obtain ⟨alg, _, h⟩ := bind_eq_ok.mp h
  obtain ⟨m, _, h⟩ := bind_eq_ok.mp h
  split at h
  · simp at h
  obtain ⟨ss, _, h⟩ := bind_eq_ok.mp h
  have fin2 : ∀ peer, (if peer = .none then .error .coseException
    else do
      let pk ← asKey peer
      pk.verify .ec2 alg [Op.DeriveKey, Op.DeriveBits]
      match b.key with
      | none => .error .attributeError
      | some k => do
        k.verify .ec2 alg [Op.DeriveKey, Op.DeriveBits]
        let kek ← agreeKek C b target peer (some k) alg
        mkSym (.bytes kek) target [] : Res Key) = .ok k → ∃ i kb, target = algCls i ∧ k.symK = .ok (.bytes kb) ∧ Spec.keyLength i = some kb.length := by
    intro peer h
    split at h
    · simp at h
    obtain ⟨pk, _, h⟩ := bind_eq_ok.mp h
    obtain ⟨_, _, h⟩ := bind_eq_ok.mp h
    split at h
    · simp at h
    · obtain ⟨_, _, h⟩ := bind_eq_ok.mp h
      exact fin _ _ _ h
  cases enc
  · simp only [Bool.false_eq_true, if_false] at h
    cases ss
    · simp only [Bool.false_eq_true, if_false] at h
      obtain ⟨peer, _, h⟩ := bind_eq_ok.mp h
      exact fin2 peer h
    · simp only [if_true] at h
      obtain ⟨peer, _, h⟩ := bind_eq_ok.mp h
      exact fin2 peer h
  · simp only [if_true, ok_bind] at h
    exact fin2 _ h

theorem wrapLoop_fresh {C : Crypto} {R : Rand} {i : Nat} {key key' : Option Bytes} {rs rs' : List Rcpt}
    (hp : ∀ r ∈ rs, r.base.payload = some []) (h : wrapLoop C R i key rs = .ok (key', rs')) : key' = key := by
  induction rs generalizing i key key' rs' with
  | nil => simp [wrapLoop] at h; exact h.1.symm
  | cons r t ih =>
    simp only [wrapLoop, hp r (by simp), if_true, bind_eq_ok] at h
    obtain ⟨⟨_, r1⟩, _, ⟨k2, rs2⟩, h2, h3⟩ := h
    simp at h3
    rw [← h3.1]
    exact ih (fun x hx => hp x (by simp [hx])) h2

/-- A content-encryption key generated for key-wrap recipients has the length of the content algorithm, and is the one used. -/
theorem c62_generated {C : Crypto} {R : Rand} {m m' : Enc} {c : Bytes} (h : m.encrypt C R = .ok (c, m'))
    (hk : ∃ r ∈ m.recipients, r.cls = .keyWrap ∨ r.cls = .keyAgreementWithKeyWrap) (hp : ∀ r ∈ m.recipients, r.base.payload = some []) :
    ∃ i n k, m.base.getAttr Hdr.Algorithm = .ok (algCls i) ∧ Spec.keyLength i = some n ∧ m'.base.key = some k ∧
      k.symK = .ok (.bytes (R.cek n)) := by
  unfold Enc.encrypt at h
  obtain ⟨target, ht, h⟩ := bind_eq_ok.mp h
  obtain ⟨types, hty, h⟩ := bind_eq_ok.mp h
  have hv := verifyRecipients_types hty
  obtain ⟨r, hr, hrc⟩ := hk
  have hmem : r.cls ∈ types := by rw [hv]; exact List.mem_map_of_mem hr
  have hno : ¬ (types.contains .directEncryption = true) ∧ ¬ (types.contains .directKeyAgreement = true) := by
    unfold verifyRecipients at hty
    rw [← hv] at hty
    dsimp only at hty
    split at hty
    · simp at hty
    rename_i h1
    split at hty
    · simp at hty
    rename_i h2
    refine ⟨fun g => h1 ⟨g, ?_⟩, fun g => h2 ⟨g, ?_⟩⟩
    · rw [List.any_eq_true]
      exact ⟨_, hmem, by rcases hrc with h | h <;> simp [h]⟩
    · simp at g
      have hg : RCls.directKeyAgreement ∈ m.recipients.map Rcpt.cls := by rw [← hv]; exact g
      obtain ⟨r2, hr2, hr2c⟩ := List.mem_map.mp hg
      match hl : m.recipients with
      | [] => rw [hl] at hr; simp at hr
      | [a] =>
        rw [hl] at hr hr2
        simp at hr hr2
        subst hr; subst hr2
        rw [hr2c] at hrc
        simp at hrc
      | a :: b :: t => simp
  rw [if_neg hno.1, if_neg hno.2] at h
  split at h
  · simp only [bind_eq_ok] at h
    obtain ⟨n, hn, ⟨kb, rs⟩, hw, k, hm, c', _, h⟩ := h
    simp at h
    obtain ⟨_, rfl⟩ := h
    have hkb := wrapLoop_fresh hp hw
    simp only at hm
    subst hkb
    obtain ⟨i, rfl, hl⟩ := algKeyLength_id hn
    have hf : ∃ f, algFam (algCls i) = some f := by
      unfold algKeyLength at hn
      split at hn <;> first | exact ⟨_, by assumption⟩ | simp at hn
    obtain ⟨f, hf⟩ := hf
    obtain ⟨nm, hreg⟩ := algReg_of hf
    obtain ⟨kb, e, _, rfl⟩ := mkSym_ok hreg (ops := [Op.Encrypt]) (fun o ho => opReg o (by simp at ho; simp [ho])) hm
    simp [optBytes] at e
    subst e
    exact ⟨i, n, _, ht, hl, rfl, symStore_symK _ _ _⟩
  · simp at h

/-- The property fails for content keys that are set by the user: `A128GCM` and `AES_MAC_128_64`, whose keys have 16 bytes, are used with
a key of 32 bytes. -/
theorem c62_content_refuted : ∃ (k : Key) (kb : Bytes), k.symK = .ok (.bytes kb) ∧ Spec.keyLength 1 = some 16 ∧ Spec.keyLength 14 = some 16 ∧
    kb.length = 32 ∧ symInit (.bytes kb) [] true = .ok k ∧
    (∃ c, Enc0.encrypt toy { base := { Sample.enc0.base with key := some k } } = .ok c) ∧
    (∃ m, Mac0.computeTag toy { base := { Sample.mac0Aes.base with key := some k } } = .ok m) := by
  refine ⟨{ kind := .sym, store := [(.cls KpKty, .cls KtySym), (.cls SymK, .bytes (List.replicate 32 5))] }, List.replicate 32 5, rfl, rfl, rfl,
    rfl, by decide +kernel, ?_, ?_⟩
  · obtain ⟨c, h, _⟩ := res_any (r := Enc0.encrypt toy { base := { Sample.enc0.base with key := some { kind := .sym, store := [(.cls KpKty, .cls KtySym), (.cls SymK, .bytes (List.replicate 32 5))] } } })
      (p := fun _ => true) (by decide +kernel)
    exact ⟨c, h⟩
  · obtain ⟨c, h, _⟩ := res_any (r := Mac0.computeTag toy { base := { Sample.mac0Aes.base with key := some { kind := .sym, store := [(.cls KpKty, .cls KtySym), (.cls SymK, .bytes (List.replicate 32 5))] } } })
      (p := fun _ => true) (by decide +kernel)
    exact ⟨c, h⟩

/-- The hypotheses of the theorems above are met: key wrap, key agreement with key wrap, direct key agreement, generated key. -/
example : ∃ c r', rcptEncrypt toy Sample.rand 0 [] ((Sample.kwRcpt 1).withBase { (Sample.kwRcpt 1).base with payload := some (List.replicate 16 3) }) = .ok (c, r') ∧
    (Sample.kwRcpt 1).base.getAttr Hdr.Algorithm = .ok (algCls (-3)) := by
  obtain ⟨⟨c, r'⟩, h, _⟩ := res_any (r := rcptEncrypt toy Sample.rand 0 [] ((Sample.kwRcpt 1).withBase { (Sample.kwRcpt 1).base with payload := some (List.replicate 16 3) }))
    (p := fun _ => true) (by decide +kernel)
  exact ⟨c, r', h, by decide +kernel⟩

example : ∃ c r', rcptEncrypt toy Sample.rand 0 [] ((Sample.esRcpt 1).withBase { (Sample.esRcpt 1).base with payload := some (List.replicate 16 3) }) = .ok (c, r') := by
  obtain ⟨⟨c, r'⟩, h, _⟩ := res_any (r := rcptEncrypt toy Sample.rand 0 [] ((Sample.esRcpt 1).withBase { (Sample.esRcpt 1).base with payload := some (List.replicate 16 3) }))
    (p := fun _ => true) (by decide +kernel)
  exact ⟨c, r', h⟩

example : ∃ k, dkaComputeCek toy (Sample.dkaRcpt 1).base (algCls 1) true = .ok k := by
  obtain ⟨k, h, _⟩ := res_any (r := dkaComputeCek toy (Sample.dkaRcpt 1).base (algCls 1) true) (p := fun _ => true) (by decide +kernel)
  exact ⟨k, h⟩

example : ∃ c m', Sample.encMix.encrypt toy Sample.rand = .ok (c, m') ∧ (∃ r ∈ Sample.encMix.recipients, r.cls = .keyWrap) ∧
    ∀ r ∈ Sample.encMix.recipients, r.base.payload = some [] := by
  obtain ⟨⟨c, m'⟩, h, _⟩ := res_any (r := Sample.encMix.encrypt toy Sample.rand) (p := fun _ => true) (by decide +kernel)
  refine ⟨c, m', h, ⟨Sample.kwRcpt 1, by simp [Sample.encMix], rfl⟩, ?_⟩
  simp [Sample.encMix, Sample.kwRcpt, Sample.oaepRcpt, Sample.esRcpt, Sample.ssRcpt, Rcpt.base]

end Cose
