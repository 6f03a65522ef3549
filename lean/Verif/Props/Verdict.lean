import Verif.Props.Primitives
/-!
# C76: verification answers for every signature and every tag
-/
set_option autoImplicit false

namespace Cose

/-- The verification primitives refuse keys, never signatures: with a key for which some signature of some data has been judged,
every signature of all data is judged.  (`ecdsa`: `BadSignatureError` is caught; `cryptography`: `InvalidSignature` is caught.) -/
structure Spec.JudgesAll (C : Crypto) : Prop where
  ecdsa : ∀ {c h x y m s v}, C.ecdsaVerify c h x y m s = .ok v → ∀ m' s', ∃ v', C.ecdsaVerify c h x y m' s' = .ok v'
  eddsa : ∀ {c x m s v}, C.eddsaVerify c x m s = .ok v → ∀ m' s', ∃ v', C.eddsaVerify c x m' s' = .ok v'
  rsa : ∀ {p h n e m s v}, C.rsaVerify p h n e m s = .ok v → ∀ m' s', ∃ v', C.rsaVerify p h n e m' s' = .ok v'

/-- AES-CBC refuses keys, never data of whole blocks. -/
def Spec.CbcKeyed (C : Crypto) : Prop := ∀ {k m c}, C.aesCbc k m = .ok c → ∀ m', m'.length % 16 = 0 → ∃ c', C.aesCbc k m' = .ok c'

/-- With a key that has judged one signature, the primitive of the algorithm judges all. -/
theorem verdict_all {C : Crypto} (J : Spec.JudgesAll C) {i : Int} {k : Key} {data s : Bytes} {v : Bool} (h : Spec.Verdict C i k data s v)
    (data' s' : Bytes) : ∃ v', Spec.Verdict C i k data' s' v' := by
  cases h with
  | ecdsa a b c d e f => obtain ⟨v', hv⟩ := J.ecdsa f data' s'; exact ⟨v', .ecdsa a b c d e hv⟩
  | eddsa a b c d f => obtain ⟨v', hv⟩ := J.eddsa f data' s'; exact ⟨v', .eddsa a b c d hv⟩
  | rsa a b c f => obtain ⟨v', hv⟩ := J.rsa f data' s'; exact ⟨v', .rsa a b c hv⟩

theorem verify_type {C : Crypto} {f : AlgFam} {k : Key} {data s : Bytes} {v : Bool} (h : callVerify C f k data (.bytes s) = .ok v) {sig : Val}
    (hs : ∀ b, sig ≠ .bytes b) (data' : Bytes) : callVerify C f k data' sig = .error .typeError := by
  have ha : asBytes .typeError sig = .error .typeError := by
    cases sig <;> first | rfl | exact (hs _ rfl).elim
  cases f <;> simp only [callVerify, reduceCtorEq, bind_eq_ok] at h
  case rsa p hh =>
    obtain ⟨e, h1, e', h2, n, h3, n', h4, _⟩ := h
    simp only [callVerify, h1, h2, h3, h4, ok_bind, ha, error_bind]
  case rsaOaep => simp at h
  case ecdsa c hh =>
    obtain ⟨e, h1, e', h2, n, h3, n', h4, _⟩ := h
    simp only [callVerify, h1, h2, h3, h4, ok_bind, ha, error_bind]
  case eddsa =>
    obtain ⟨e, h1, e', h2, n, h3, _⟩ := h
    simp only [callVerify, h1, h2, h3, ok_bind, ha, error_bind]

/-- What `verify_signature` says is decided by the algorithm, the key, the bytes to be signed and the signature. -/
theorem verify_all {C : Crypto} (J : Spec.JudgesAll C) {b b' : Base} {tbs tbs' : Res Bytes} {s d' : Bytes} {v : Bool}
    (h : verifySignature C b tbs (.bytes s) = .ok v) (ha : b'.getAttr Hdr.Algorithm = b.getAttr Hdr.Algorithm) (hk : b'.key = b.key)
    (hd : tbs' = .ok d') (s' : Bytes) : ∃ v', verifySignature C b' tbs' (.bytes s') = .ok v' := by
  simp only [verifySignature, bind_eq_ok] at h
  obtain ⟨alg, h1, k, h2, f, h3, data, h4, h5⟩ := h
  obtain ⟨i, rfl, hv⟩ := verify_iff.mp ⟨f, h3, h5⟩
  obtain ⟨v', hv'⟩ := verdict_all J hv d' s'
  obtain ⟨f', h3', h5'⟩ := verify_iff.mpr ⟨i, rfl, hv'⟩
  have hkv : keyVerification b' (algCls i) Op.Verify = .ok k := by
    rw [← h2]; simp only [keyVerification, hk]
  exact ⟨v', by simp only [verifySignature, ha, h1, ok_bind, hkv, h3', hd, h5']⟩

theorem verify_all_type {C : Crypto} {b b' : Base} {tbs tbs' : Res Bytes} {s d' : Bytes} {v : Bool}
    (h : verifySignature C b tbs (.bytes s) = .ok v) (ha : b'.getAttr Hdr.Algorithm = b.getAttr Hdr.Algorithm) (hk : b'.key = b.key)
    (hd : tbs' = .ok d') {sig : Val} (hs : ∀ b, sig ≠ .bytes b) : verifySignature C b' tbs' sig = .error .typeError := by
  simp only [verifySignature, bind_eq_ok] at h
  obtain ⟨alg, h1, k, h2, f, h3, data, h4, h5⟩ := h
  have hkv : keyVerification b' alg Op.Verify = .ok k := by
    rw [← h2]; simp only [keyVerification, hk]
  simp only [verifySignature, ha, h1, ok_bind, hkv, h3, hd, verify_type h5 hs]

/-- C76: a key that has given a verdict on one COSE_Sign1 message with some algorithm gives a verdict on every other one with that
algorithm: any headers, payload (attached or detached), external data, and any byte string as signature. -/
theorem c76_sign1_partial {C : Crypto} (J : Spec.JudgesAll C) {m m' : Sign1} {det det' : Option Bytes} {s s' d : Bytes} {v : Bool}
    (h : m.verifySignature C det = .ok v) (hs : m.signature = .bytes s)
    (ha : m'.base.getAttr Hdr.Algorithm = m.base.getAttr Hdr.Algorithm) (hk : m'.base.key = m.base.key) (hs' : m'.signature = .bytes s')
    (hd : m'.sigStructure det' = .ok d) : ∃ v', m'.verifySignature C det' = .ok v' := by
  unfold Sign1.verifySignature at h ⊢
  rw [hs] at h
  rw [hs']
  exact verify_all J h ha hk hd s'

/-- C76: the same for the signers of COSE_Sign messages. -/
theorem c76_signer_partial {C : Crypto} (J : Spec.JudgesAll C) {p p' b b' : Base} {det det' : Option Bytes} {s s' d : Bytes} {v : Bool}
    (h : signerVerify C p b det = .ok v) (hs : b.payload = some s) (ha : b'.getAttr Hdr.Algorithm = b.getAttr Hdr.Algorithm)
    (hk : b'.key = b.key) (hs' : b'.payload = some s') (hd : signerStructure p' b' det' = .ok d) :
    ∃ v', signerVerify C p' b' det' = .ok v' := by
  unfold signerVerify at h ⊢
  rw [hs] at h
  rw [hs']
  exact verify_all J h ha hk hd s'

/-- C76: a signature that is not a byte string gets no verdict, but a `TypeError`. -/
theorem c76_sign1_type {C : Crypto} {m m' : Sign1} {det det' : Option Bytes} {s d : Bytes} {v : Bool}
    (h : m.verifySignature C det = .ok v) (hs : m.signature = .bytes s)
    (ha : m'.base.getAttr Hdr.Algorithm = m.base.getAttr Hdr.Algorithm) (hk : m'.base.key = m.base.key) (hs' : ∀ b, m'.signature ≠ .bytes b)
    (hd : m'.sigStructure det' = .ok d) : m'.verifySignature C det' = .error .typeError := by
  unfold Sign1.verifySignature at h ⊢
  rw [hs] at h
  exact verify_all_type h ha hk hd hs'

theorem c76_signer_type {C : Crypto} {p p' b b' : Base} {det det' : Option Bytes} {s d : Bytes} {v : Bool}
    (h : signerVerify C p b det = .ok v) (hs : b.payload = some s) (ha : b'.getAttr Hdr.Algorithm = b.getAttr Hdr.Algorithm)
    (hk : b'.key = b.key) (hs' : b'.payload = none) (hd : signerStructure p' b' det' = .ok d) :
    signerVerify C p' b' det' = .error .typeError := by
  unfold signerVerify at h ⊢
  rw [hs] at h
  rw [hs']
  exact verify_all_type h ha hk hd (by simp [optBytes])

/-- C76: a MAC key that has computed or checked one tag with some algorithm answers for every other message with that algorithm and for every
value in the place of the tag, byte string or not. -/
theorem mac_all {C : Crypto} (hC : Spec.CbcKeyed C) {ctx ctx' : Bytes} {b b' : Base}
    {tag tag' : Val} {d : Bytes} {v : Bool} (h : macVerify C ctx b tag = .ok v)
    (ha : b'.getAttr Hdr.Algorithm = b.getAttr Hdr.Algorithm) (hk : b'.key = b.key) (hd : macStructure ctx' b' = .ok d) :
    ∃ v', macVerify C ctx' b' tag' = .ok v' := by
  simp only [macVerify, bind_eq_ok] at h
  obtain ⟨alg, h1, h⟩ := h
  cases hkey : b.key with
  | none => simp [hkey] at h
  | some k =>
    simp only [hkey, bind_eq_ok, callVerifyTag] at h
    obtain ⟨_, h2, f, h3, data, h4, t, h5, _⟩ := h
    have : ∃ t', callTag C f k d = .ok t' := by
      cases f <;> simp only [callTag, reduceCtorEq, bind_eq_ok] at h5
      case hmac hh n =>
        obtain ⟨kk, g1, kb, g2, _⟩ := h5
        simp [callTag, g1, g2, ok_bind]
      case aesMac kl n =>
        obtain ⟨kk, g1, kb, g2, c, g3, _⟩ := h5
        obtain ⟨pad, hp1, hp2, hp⟩ := zeroPad_spec d
        obtain ⟨c', hc'⟩ := hC g3 (zeroPad d) (by rw [hp]; simpa using hp2)
        by_cases hn : n = 16 <;> simp [callTag, g1, g2, hc', ok_bind, hn]
    obtain ⟨t', ht'⟩ := this
    exact ⟨tag' == .bytes t', by simp only [macVerify, ha, h1, ok_bind, hk, hkey, h2, h3, hd, callVerifyTag, ht']⟩

theorem c76_mac0 {C : Crypto} (hC : Spec.CbcKeyed C) {m m' : Mac0} {d : Bytes} {v : Bool}
    (h : m.verifyTag C = .ok v) (ha : m'.base.getAttr Hdr.Algorithm = m.base.getAttr Hdr.Algorithm) (hk : m'.base.key = m.base.key)
    (hd : macStructure b!"MAC0" m'.base = .ok d) : ∃ v', m'.verifyTag C = .ok v' := mac_all hC h ha hk hd

theorem c76_mac {C : Crypto} (hC : Spec.CbcKeyed C) {m m' : Mac} {d : Bytes} {v : Bool}
    (h : m.verifyTag C = .ok v) (ha : m'.base.getAttr Hdr.Algorithm = m.base.getAttr Hdr.Algorithm) (hk : m'.base.key = m.base.key)
    (hd : macStructure b!"MAC" m'.base = .ok d) : ∃ v', m'.verifyTag C = .ok v' := mac_all hC h ha hk hd

/-- The assumption about the primitives holds of the toy primitives. -/
theorem toy_judges : Spec.JudgesAll toy ∧ Spec.CbcKeyed toy :=
  ⟨⟨fun _ _ _ => ⟨_, rfl⟩, fun _ _ _ => ⟨_, rfl⟩, fun _ _ _ => ⟨_, rfl⟩⟩, fun _ _ _ => ⟨_, rfl⟩⟩

/-- The hypotheses are met: a key that judges, and messages that it then judges or refuses. -/
example : (∃ v, ({ Sample.sign1 with signature := .bytes [1] } : Sign1).verifySignature toy none = .ok v) ∧
    (∃ d, Sample.sign1.sigStructure none = .ok d) ∧ (∃ v, Sample.mac0.verifyTag toy = .ok v) ∧ (∃ v, Sample.mac0Aes.verifyTag toy = .ok v) := by
  refine ⟨?_, ?_, ?_, ?_⟩
  · obtain ⟨v, h, _⟩ := res_any (r := ({ Sample.sign1 with signature := .bytes [1] } : Sign1).verifySignature toy none) (p := fun _ => true) (by decide +kernel)
    exact ⟨v, h⟩
  · obtain ⟨v, h, _⟩ := res_any (r := Sample.sign1.sigStructure none) (p := fun _ => true) (by decide +kernel)
    exact ⟨v, h⟩
  · obtain ⟨v, h, _⟩ := res_any (r := Sample.mac0.verifyTag toy) (p := fun _ => true) (by decide +kernel)
    exact ⟨v, h⟩
  · obtain ⟨v, h, _⟩ := res_any (r := Sample.mac0Aes.verifyTag toy) (p := fun _ => true) (by decide +kernel)
    exact ⟨v, h⟩

/-- A received COSE_Sign1 message whose signature is the number 5. -/
def Sample.numberSigned : Bytes := [0xd2, 0x84, 0x43, 0xa1, 0x01, 0x26, 0xa0, 0x41, 0x68, 0x05]

/-- C76 is false of the code: a received message is decoded, its key is good, and verification raises `TypeError` instead of
answering `False`. -/
theorem c76_refuted : ∃ m, decode toy .any true Sample.numberSigned = .ok (.sign1 m) ∧
    ({ m with base := { m.base with key := some Sample.ecKey } } : Sign1).verifySignature toy none = .error .typeError ∧
    ({ m with base := { m.base with key := some Sample.ecKey }, signature := .bytes [5] } : Sign1).verifySignature toy none = .ok false := by
  obtain ⟨x, h, hx⟩ := res_any (r := decode toy .any true Sample.numberSigned) (p := fun x => match x with
    | .sign1 m => decide (({ m with base := { m.base with key := some Sample.ecKey } } : Sign1).verifySignature toy none = .error .typeError ∧
        ({ m with base := { m.base with key := some Sample.ecKey }, signature := .bytes [5] } : Sign1).verifySignature toy none = .ok false)
    | _ => false) (by decide +kernel)
  cases x <;> simp only [Bool.false_eq_true, decide_eq_true_eq] at hx
  exact ⟨_, h, hx⟩

end Cose
