import Verif.Props.Detach
/-!
# Unprotected headers that are replaced on the way (C102)

`msg.uhdr = d` on a received COSE_Sign1 or COSE_Encrypt0 message, followed by `encode(sign=False)` or `encode(encrypt=False)`.
-/
set_option autoImplicit false
namespace Cose

/-! ### Specification -/

/-- `y` is what a node sends that has received the COSE_Sign1 message `x`, assigned the dictionary `d` to its unprotected header and
sends it on without signing; for some key, external data, detached payload and randomness. -/
def Spec.Sign1Relabel (C : Crypto) (cls : DecCls) (allow : Bool) (d : Dict) (x y : Bytes) : Prop :=
  ∃ m b rnd det k a, decode C cls allow x = .ok (.sign1 m) ∧ (m.base.using k a).setUhdr (.map d) = .ok b ∧
    Sign1.encode C rnd { m with base := b } true false det = .ok y

/-- The same for COSE_Encrypt0. -/
def Spec.Enc0Relabel (C : Crypto) (cls : DecCls) (allow : Bool) (d : Dict) (x y : Bytes) : Prop :=
  ∃ m b k a, decode C cls allow x = .ok (.enc0 m) ∧ (m.base.using k a).setUhdr (.map d) = .ok b ∧
    Enc0.encode C { m with base := b } true false = .ok y

/-- Everything but the unprotected header is the same. -/
structure Spec.SameButUnprotected (b b' : Base) : Prop where
  phdr : b'.phdr = b.phdr
  encoded : b'.phdrEncoded = b.phdrEncoded
  payload : b'.payload = b.payload

/-- The value of an attribute in the protected header is `v`, and it is not `None`. -/
def Spec.InProtected (b : Base) (c : Cls) (v : Val) : Prop := dget b.phdr (.cls c) = some v ∧ v ≠ .none

/-- An unprotected header without the attribute (or with the value `None`, which counts as absent). -/
def Spec.Absent (d : Dict) (c : Cls) : Prop := dget d (.cls c) = none ∨ dget d (.cls c) = some .none

/-! ### Lemmas -/

theorem prot_received {C : Crypto} {allow : Bool} {obj rest : List Val} {b : Base} (h : baseFromObj C obj allow = .ok (b, rest)) :
    (b.phdrEnc = none ∧ Spec.HdrSend C b.tstr allow b.phdr b.phdr) ∨
    ∃ e, b.phdrEnc = some e ∧ b.phdr = b.phdr ∧
      ((e = [] ∧ b.phdr = []) ∨ e ≠ [] ∧ ∃ raw, loads e = .ok (.map raw) ∧ parseHeader C allow raw = .ok b.phdr) := by
  obtain ⟨pe, uh, rfl, hp, _, _, _, _, _⟩ := baseFromObj_iff.mp h
  rcases hp.inv with ⟨_, h1, h2⟩ | ⟨_, h1, h2⟩ | ⟨e, d, _, h1, h2, h4, h5⟩
  · refine .inl ⟨h1, ?_⟩
    rw [h2]; exact ⟨by simp [KeysNodup], .nil⟩
  · exact .inr ⟨[], h1, rfl, .inl ⟨rfl, h2⟩⟩
  · exact .inr ⟨e, h1, rfl, .inr ⟨h2, d, h4, h5⟩⟩

theorem relabel_structure {b b' : Base} (h : Spec.SameButUnprotected b b') (k : Option Key) (a : Bytes) :
    (b'.using k a).baseStructure = (b.using k a).baseStructure := by
  have e : (b'.using k a).phdr.length = (b.using k a).phdr.length := congrArg List.length h.phdr
  unfold Base.baseStructure
  by_cases hl : (b.using k a).phdr.length = 0
  · rw [if_pos hl, if_pos (e.trans hl)]; rfl
  · rw [if_neg hl, if_neg (by rw [e]; exact hl), phdrEncoded_using, phdrEncoded_using, h.encoded]; rfl

theorem relabel_verdict {C : Crypto} {m m' : Sign1} (h : Spec.SameButUnprotected m.base m'.base) (hs : m'.signature = m.signature)
    (hg : m'.base.getAttr Hdr.Algorithm = m.base.getAttr Hdr.Algorithm) (k : Option Key) (a : Bytes) (d : Option Bytes) :
    Spec.verdict C m' k a d = Spec.verdict C m k a d := by
  have hc : choosePayload (m'.base.using k a).payload d = choosePayload (m.base.using k a).payload d :=
    congrArg (fun p => choosePayload p d) h.payload
  have hg' : (m'.base.using k a).getAttr Hdr.Algorithm = (m.base.using k a).getAttr Hdr.Algorithm := hg
  simp only [Spec.verdict, Sign1.verifySignature, verifySignature, Sign1.sigStructure, hg', relabel_structure h, hs, hc]
  rfl

theorem getAttr_absent {b : Base} {c : Cls} {v : Val} (hp : Spec.InProtected b c v) (hu : Spec.Absent b.uhdr c) :
    b.getAttr c = .ok v := by
  have : (dget b.uhdr (.cls c)).getD .none = .none := by rcases hu with h | h <;> rw [h] <;> rfl
  simp only [Base.getAttr, Base.getAttrD, hp.1, this, Option.getD_some]
  simp [hp.2]

theorem getAttr_both {b : Base} {c : Cls} {v : Val} (hp : Spec.InProtected b c v) (hu : ¬ Spec.Absent b.uhdr c) :
    b.getAttr c = .error .coseException := by
  have : (dget b.uhdr (.cls c)).getD .none ≠ .none := by
    cases h : dget b.uhdr (.cls c) with
    | none => exact absurd (.inl h) hu
    | some w => exact fun e => hu (.inr (by rw [h]; exact congrArg some e))
  simp only [Base.getAttr, Base.getAttrD, hp.1, Option.getD_some]
  rw [if_pos ⟨hp.2, this⟩]

theorem verdict_no_alg {C : Crypto} {m : Sign1} {e : PyErr} (h : m.base.getAttr Hdr.Algorithm = .error e) (k : Option Key) (a : Bytes)
    (d : Option Bytes) : Spec.verdict C m k a d = .error e := by
  have h' : (m.base.using k a).getAttr Hdr.Algorithm = .error e := h
  simp only [Spec.verdict, Sign1.verifySignature, verifySignature, h']
  rfl

/-! ### Properties -/

/-- **C102**: the next receiver sees the new unprotected header; the protected header and its bytes, the payload and the signature
are the ones that were sent. -/
theorem c102_sign1 {C : Crypto} {cls : DecCls} {allow : Bool} {x y : Bytes} {m : Sign1} {d uh : Dict}
    (hdec : decode C cls allow x = .ok (.sign1 m)) (hs : truthy m.signature = true) (hd : Spec.HdrSend C false allow d uh)
    (h : Spec.Sign1Relabel C cls allow d x y) :
    ∃ m', decode C cls allow y = .ok (.sign1 m') ∧ Spec.SameButUnprotected m.base m'.base ∧ m'.signature = m.signature ∧
      m'.base.uhdr = uh := by
  obtain ⟨m1, b1, rnd, det, k, a, g1, g2, g3⟩ := h
  rw [hdec] at g1
  simp only [Except.ok.injEq, Msg.sign1.injEq] at g1
  subst g1
  simp only [Base.setUhdr, asDict, ok_bind, Except.ok.injEq] at g2
  subst g2
  obtain ⟨n, obj, ho, hk, hf, hc⟩ := decode_obj hdec
  simp only [Msg.kind, fromObj, Sign1.fromObj, bind_eq_ok] at hf
  obtain ⟨m0, ⟨⟨b, r⟩, h1, ⟨s, r'⟩, h2, h3⟩, h4⟩ := hf
  simp at h4; subst h4
  rw [pop0_ok] at h2; subst h2
  simp at h3; subst h3
  have ht0 : b.tstr = false := decoded_tstr h1
  have hprot := prot_received h1
  have hsend : Spec.Sendable C b.tstr allow { b.using k a with uhdr := d } b.phdr uh :=
    ⟨hprot, by rw [ht0]; exact hd⟩
  obtain ⟨pe, tl, hpe, hfin, ht⟩ := sign1_encode_inv g3
  obtain ⟨w, hw, hb⟩ := received_base hsend hpe
  have hpe' : b.phdrEncoded = .ok pe := hpe
  have hsig : PyOK s := by
    obtain ⟨_, _, rfl, _⟩ := baseFromObj_iff.mp h1
    exact pyokl_mem ho _ (by simp)
  rcases ht with ⟨h0, _⟩ | ⟨_, _, rfl⟩ | ⟨_, h0, _⟩
  · simp at h0
  · refine ⟨⟨recvBase pe b.phdr uh b.payload, s⟩, ?_, ⟨rfl, hpe'.symm, rfl⟩, rfl, rfl⟩
    have := finish_decode (C := C) (allow := allow) (cls := cls) (k := .sign1)
        (m := .sign1 ⟨recvBase pe b.phdr uh b.payload, s⟩)
        rfl hc (.cons sent_bytes (.cons hw (.cons sent_opt (.cons (sent_plain hsig) .nil)))) hfin ?_ []
    · rwa [List.append_nil] at this
    · simp only [fromObj, Sign1.fromObj, hb, ok_bind, pop0]; rfl
  · simp only at h0; rw [hs] at h0; simp at h0

/-- **C102**: if looking up the algorithm has the same outcome, so has every verification. -/
theorem c102_sign1_verdict {C : Crypto} {cls : DecCls} {allow : Bool} {x y : Bytes} {m : Sign1} {d uh : Dict}
    (hdec : decode C cls allow x = .ok (.sign1 m)) (hs : truthy m.signature = true) (hd : Spec.HdrSend C false allow d uh)
    (h : Spec.Sign1Relabel C cls allow d x y) :
    ∃ m', decode C cls allow y = .ok (.sign1 m') ∧ (m'.base.getAttr Hdr.Algorithm = m.base.getAttr Hdr.Algorithm →
      ∀ k a det, Spec.verdict C m' k a det = Spec.verdict C m k a det) := by
  obtain ⟨m', h1, h2, h3, _⟩ := c102_sign1 hdec hs hd h
  exact ⟨m', h1, fun hg k a det => relabel_verdict h2 h3 hg k a det⟩

/-- **C102**: a node gains nothing when the algorithm is protected.  Whatever header it puts in, a verification of what it sends
either has the outcome that it has for the same message without any unprotected header, or raises `CoseException`; the second exactly
if the header names an algorithm.  The message as it was sent (without a second algorithm) has that outcome, too. -/
theorem c102_sign1_protected {C : Crypto} {cls : DecCls} {allow : Bool} {x y : Bytes} {m : Sign1} {d uh : Dict} {alg : Val}
    (hdec : decode C cls allow x = .ok (.sign1 m)) (hs : truthy m.signature = true) (hd : Spec.HdrSend C false allow d uh)
    (hp : Spec.InProtected m.base Hdr.Algorithm alg) (h : Spec.Sign1Relabel C cls allow d x y) :
    ∃ m', decode C cls allow y = .ok (.sign1 m') ∧ ∀ k a det,
      (Spec.Absent uh Hdr.Algorithm →
        Spec.verdict C m' k a det = Spec.verdict C { m with base := { m.base with uhdr := [] } } k a det) ∧
      (¬ Spec.Absent uh Hdr.Algorithm → Spec.verdict C m' k a det = .error .coseException) ∧
      (Spec.Absent m.base.uhdr Hdr.Algorithm → ∀ r, Spec.verdict C m' k a det = .ok r → Spec.verdict C m k a det = .ok r) := by
  obtain ⟨m', h1, h2, h3, h4⟩ := c102_sign1 hdec hs hd h
  have hp' : Spec.InProtected m'.base Hdr.Algorithm alg := ⟨by rw [h2.phdr]; exact hp.1, hp.2⟩
  have twice : ¬ Spec.Absent uh Hdr.Algorithm → ∀ k a det, Spec.verdict C m' k a det = .error .coseException := fun hu k a det =>
    verdict_no_alg (getAttr_both hp' (by rw [h4]; exact hu)) k a det
  refine ⟨m', h1, fun k a det => ⟨fun hu => ?_, fun hu => twice hu k a det, fun hm r hr => ?_⟩⟩
  · refine relabel_verdict (m := { m with base := { m.base with uhdr := [] } }) ⟨h2.phdr, h2.encoded, h2.payload⟩ h3 ?_ k a det
    rw [getAttr_absent hp' (by rw [h4]; exact hu)]
    exact (getAttr_absent (b := { m.base with uhdr := [] }) hp (.inl rfl)).symm
  · by_cases hu : Spec.Absent uh Hdr.Algorithm
    · rw [← hr]
      refine (relabel_verdict h2 h3 ?_ k a det).symm
      rw [getAttr_absent hp' (by rw [h4]; exact hu), getAttr_absent hp hm]
    · rw [twice hu k a det] at hr; simp at hr

/-- **C102**: when no algorithm is protected, the node chooses it: the receiver verifies with the algorithm of the new header. -/
theorem c102_sign1_unprotected {C : Crypto} {cls : DecCls} {allow : Bool} {x y : Bytes} {m : Sign1} {d uh : Dict} {alg : Val}
    (hdec : decode C cls allow x = .ok (.sign1 m)) (hs : truthy m.signature = true) (hd : Spec.HdrSend C false allow d uh)
    (hp : Spec.Absent m.base.phdr Hdr.Algorithm) (hu : dget uh (.cls Hdr.Algorithm) = some alg)
    (h : Spec.Sign1Relabel C cls allow d x y) :
    ∃ m', decode C cls allow y = .ok (.sign1 m') ∧ m'.base.getAttr Hdr.Algorithm = .ok alg := by
  obtain ⟨m', h1, h2, h3, h4⟩ := c102_sign1 hdec hs hd h
  refine ⟨m', h1, ?_⟩
  have : (dget m'.base.phdr (.cls Hdr.Algorithm)).getD .none = .none := by
    rw [h2.phdr]; rcases hp with h | h <;> rw [h] <;> rfl
  simp only [Base.getAttr, Base.getAttrD, this, h4, hu, Option.getD_some]
  simp

/-- **C102** for COSE_Encrypt0: what the next receiver sees. -/
theorem c102_enc0 {C : Crypto} {cls : DecCls} {allow : Bool} {x y : Bytes} {m : Enc0} {d uh : Dict}
    (hdec : decode C cls allow x = .ok (.enc0 m)) (hd : Spec.HdrSend C false allow d uh)
    (h : Spec.Enc0Relabel C cls allow d x y) :
    ∃ m', decode C cls allow y = .ok (.enc0 m') ∧ Spec.SameButUnprotected m.base m'.base ∧ m'.base.uhdr = uh := by
  obtain ⟨m1, b1, k, a, g1, g2, g3⟩ := h
  rw [hdec] at g1
  simp only [Except.ok.injEq, Msg.enc0.injEq] at g1
  subst g1
  simp only [Base.setUhdr, asDict, ok_bind, Except.ok.injEq] at g2
  subst g2
  obtain ⟨n, obj, ho, hk, hf, hc⟩ := decode_obj hdec
  simp only [Msg.kind, fromObj, Enc0.fromObj, bind_eq_ok] at hf
  obtain ⟨m0, ⟨⟨b, r⟩, h1, h3⟩, h4⟩ := hf
  simp at h4; subst h4
  simp at h3; subst h3
  have ht0 : b.tstr = false := decoded_tstr h1
  have hprot := prot_received h1
  have hsend : Spec.Sendable C b.tstr allow { b.using k a with uhdr := d } b.phdr uh :=
    ⟨hprot, by rw [ht0]; exact hd⟩
  obtain ⟨pe, v, hpe, hfin, ht⟩ := enc0_encode_inv g3
  obtain ⟨w, hw, hb⟩ := received_base hsend hpe
  have hpe' : b.phdrEncoded = .ok pe := hpe
  rcases ht with ⟨h0, _⟩ | ⟨_, rfl⟩
  · simp at h0
  · refine ⟨⟨recvBase pe b.phdr uh b.payload⟩, ?_, ⟨rfl, hpe'.symm, rfl⟩, rfl⟩
    have := finish_decode (C := C) (allow := allow) (cls := cls) (k := .enc0)
        (m := .enc0 ⟨recvBase pe b.phdr uh b.payload⟩)
        rfl hc (.cons sent_bytes (.cons hw (.cons sent_opt .nil))) hfin ?_ []
    · rwa [List.append_nil] at this
    · simp only [fromObj, Enc0.fromObj, hb, ok_bind]; rfl

/-- **C102** for COSE_Encrypt0: if looking up the algorithm, the IV and the Partial IV has the same outcome, so has every
decryption. -/
theorem c102_enc0_decrypt {C : Crypto} {cls : DecCls} {allow : Bool} {x y : Bytes} {m : Enc0} {d uh : Dict}
    (hdec : decode C cls allow x = .ok (.enc0 m)) (hd : Spec.HdrSend C false allow d uh)
    (h : Spec.Enc0Relabel C cls allow d x y) :
    ∃ m', decode C cls allow y = .ok (.enc0 m') ∧
      ((∀ c ∈ [Hdr.Algorithm, Hdr.IV, Hdr.PartialIV], m'.base.getAttr c = m.base.getAttr c) →
        ∀ k a, Enc0.decrypt C { m' with base := m'.base.using k a } = Enc0.decrypt C { m with base := m.base.using k a }) := by
  obtain ⟨m', h1, h2, h3⟩ := c102_enc0 hdec hd h
  refine ⟨m', h1, fun hg k a => ?_⟩
  have e1 : (m'.base.using k a).getAttr Hdr.Algorithm = (m.base.using k a).getAttr Hdr.Algorithm := hg _ (by simp)
  have e2 : (m'.base.using k a).getAttr Hdr.IV = (m.base.using k a).getAttr Hdr.IV := hg _ (by simp)
  have e3 : (m'.base.using k a).getAttr Hdr.PartialIV = (m.base.using k a).getAttr Hdr.PartialIV := hg _ (by simp)
  have hp : (m'.base.using k a).payload = (m.base.using k a).payload := h2.payload
  have hn : getNonce (m'.base.using k a) = getNonce (m.base.using k a) := by
    simp only [getNonce, e2, e3]
    rfl
  simp only [Enc0.decrypt, encDecrypt, e1, hn, hp, encStructure, relabel_structure h2]
  rfl

/-- **C102** for COSE_Encrypt0: a node gains nothing when the algorithm and the IV are protected: whatever decrypts after the node
decrypts to the same plaintext before it. -/
theorem c102_enc0_protected {C : Crypto} {cls : DecCls} {allow : Bool} {x y : Bytes} {m : Enc0} {d uh : Dict} {alg iv : Val}
    (hdec : decode C cls allow x = .ok (.enc0 m)) (hd : Spec.HdrSend C false allow d uh)
    (hp : Spec.InProtected m.base Hdr.Algorithm alg) (hi : Spec.InProtected m.base Hdr.IV iv)
    (hm : Spec.Absent m.base.uhdr Hdr.Algorithm ∧ Spec.Absent m.base.uhdr Hdr.IV)
    (h : Spec.Enc0Relabel C cls allow d x y) :
    ∃ m', decode C cls allow y = .ok (.enc0 m') ∧ ∀ k a p, Enc0.decrypt C { m' with base := m'.base.using k a } = .ok p →
      Enc0.decrypt C { m with base := m.base.using k a } = .ok p := by
  obtain ⟨m', h1, h2, h3⟩ := c102_enc0 hdec hd h
  refine ⟨m', h1, fun k a p hdp => ?_⟩
  have hp' : Spec.InProtected (m'.base.using k a) Hdr.Algorithm alg := ⟨by rw [← hp.1, ← h2.phdr]; rfl, hp.2⟩
  have hi' : Spec.InProtected (m'.base.using k a) Hdr.IV iv := ⟨by rw [← hi.1, ← h2.phdr]; rfl, hi.2⟩
  have ea : (m.base.using k a).getAttr Hdr.Algorithm = .ok alg := getAttr_absent (b := m.base.using k a) hp hm.1
  have ei : (m.base.using k a).getAttr Hdr.IV = .ok iv := getAttr_absent (b := m.base.using k a) hi hm.2
  have hpl : (m'.base.using k a).payload = (m.base.using k a).payload := h2.payload
  have hk : (m'.base.using k a).key = (m.base.using k a).key := rfl
  by_cases ua : Spec.Absent (m'.base.using k a).uhdr Hdr.Algorithm
  · by_cases ui : Spec.Absent (m'.base.using k a).uhdr Hdr.IV
    · rw [← hdp]
      simp only [Enc0.decrypt, encDecrypt, getNonce, getAttr_absent hp' ua, getAttr_absent hi' ui, ea, ei, ok_bind, hi.2, ne_eq,
        not_false_eq_true, if_true, hpl, hk, encStructure, relabel_structure h2]
    · simp only [Enc0.decrypt, encDecrypt, getNonce, getAttr_absent hp' ua, getAttr_both hi' ui, ok_bind, error_bind] at hdp
      simp at hdp
  · simp only [Enc0.decrypt, encDecrypt, getAttr_both hp' ua, error_bind] at hdp
    simp at hdp

/-! ### Samples -/

/-- A header a node may put in: a key identifier. -/
example : Spec.HdrSend toy false false [(.cls Hdr.KID, .bytes b!"you")] [(.cls Hdr.KID, .bytes b!"you")] := by
  refine ⟨by simp [KeysNodup], .cons ?_ .nil⟩
  exact .plain (n := b!"KID") (by decide +kernel) (by decide) (by decide) (by decide) trivial (by
    rw [Spec.ValidValue, if_pos (by decide)]; exact ⟨_, rfl⟩)

/-- A header that names an algorithm. -/
example : Spec.HdrSend toy false false [(.cls Hdr.Algorithm, algCls (-7))] [(.cls Hdr.Algorithm, algCls (-7))] :=
  ⟨by simp [KeysNodup], .cons (.alg (.one (n := b!"ES256") (by decide +kernel))) .nil⟩

/-- The verification was carried out with this result. -/
def Sample.gives {α : Type} [BEq α] (r : Res (Res α)) (a : α) : Bool := match r with | .ok (.ok b) => b == a | _ => false

/-- It was not. -/
def Sample.raises {α : Type} (r : Res (Res α)) (e : PyErr) : Bool := match r with | .ok (.error e') => e' == e | _ => false

/-- The sample COSE_Sign1 message (ES256 protected) after a node has put the header `d` in, and its verification. -/
def Sample.relabelled (m : Sign1) (d : Dict) : Res (Res Bool) := do
  let x ← m.encode toy [] true true none
  let m1 ← Sample.sign1Of (.ok x)
  let b ← (m1.base.using none []).setUhdr (.map d)
  let y ← Sign1.encode toy [] { m1 with base := b } true false none
  let m2 ← Sample.sign1Of (.ok y)
  .ok (Spec.verdict toy m2 (some Sample.ecPubKey) m.base.aad none)

example : Sample.gives (Sample.relabelled Sample.sign1 []) true = true := by decide +kernel
example : Sample.gives (Sample.relabelled Sample.sign1 [(.cls Hdr.KID, .bytes b!"you")]) true = true := by decide +kernel
example : Sample.raises (Sample.relabelled Sample.sign1 [(.cls Hdr.Algorithm, algCls (-7))]) .coseException = true := by decide +kernel

/-- With an unprotected algorithm the node decides: it can leave it, remove it, or replace it (the
signatures of `toy` do not depend on the hash function, so the replaced algorithm even accepts). -/
def Sample.sign1Open : Sign1 := { base := { Sample.sign1.base with phdr := [], uhdr := [(.cls Hdr.Algorithm, algCls (-7))] } }

example : Sample.gives (Sample.relabelled Sample.sign1Open [(.cls Hdr.Algorithm, algCls (-7))]) true = true := by decide +kernel
example : Sample.gives (Sample.relabelled Sample.sign1Open []) true = false := by decide +kernel
example : Sample.gives (Sample.relabelled Sample.sign1Open [(.cls Hdr.Algorithm, algCls (-35))]) true = true := by decide +kernel

/-- COSE_Encrypt0 with the algorithm and the IV protected. -/
def Sample.enc0Closed : Enc0 :=
  { base := { Sample.enc0.base with
      phdr := [(.cls Hdr.Algorithm, algCls 1), (.cls Hdr.IV, .bytes (List.replicate 12 1))], uhdr := [] } }

def Sample.relabelledEnc (m : Enc0) (d : Dict) : Res (Res Bytes) := do
  let x ← m.encode toy true true
  let m1 ← Sample.enc0Of (.ok x)
  let b ← (m1.base.using none []).setUhdr (.map d)
  let y ← Enc0.encode toy { m1 with base := b } true false
  let m2 ← Sample.enc0Of (.ok y)
  .ok (Enc0.decrypt toy { m2 with base := m2.base.using m.base.key m.base.aad })

example : Sample.gives (Sample.relabelledEnc Sample.enc0Closed [(.cls Hdr.KID, .bytes b!"you")]) b!"hello" = true := by decide +kernel
example : Sample.raises (Sample.relabelledEnc Sample.enc0Closed [(.cls Hdr.IV, .bytes (List.replicate 12 2))]) .coseException = true := by decide +kernel
example : Sample.gives (Sample.relabelledEnc Sample.enc0 Sample.enc0.base.uhdr) b!"hello" = true := by decide +kernel

end Cose
