import Verif.Props.AgreePolicy
import Verif.Props.Nonce
import Verif.Props.Kdf
/-!
# Which primitive an algorithm identifier stands for, and on which key material it works (C75)
-/
set_option autoImplicit false
namespace Cose

/-! ### Specification: the IANA registry of COSE algorithms -/

/-- ECDSA (RFC 8152 table 5; the curve is the one this library ties to the algorithm): identifier, curve, hash. -/
def Spec.ecdsaAlgs : List (Int × Int × HashId) := [(-7, 1, .sha256), (-35, 2, .sha384), (-36, 3, .sha512)]

/-- RSASSA-PSS (RFC 8230 table 1) and RSASSA-PKCS1-v1_5 (RFC 8812 table 1): identifier, padding, hash. -/
def Spec.rsaAlgs : List (Int × RsaPad × HashId) :=
  [(-37, .pss, .sha256), (-38, .pss, .sha384), (-39, .pss, .sha512),
   (-257, .pkcs1, .sha256), (-258, .pkcs1, .sha384), (-259, .pkcs1, .sha512), (-65535, .pkcs1, .sha1)]

/-- AES-GCM and AES-CCM (RFC 8152 tables 9 and 10): identifier, mode with the tag length in bytes. -/
def Spec.aeadAlgs : List (Int × Aead) :=
  [(1, .gcm), (2, .gcm), (3, .gcm),
   (10, .ccm 8), (11, .ccm 8), (12, .ccm 8), (13, .ccm 8), (30, .ccm 16), (31, .ccm 16), (32, .ccm 16), (33, .ccm 16)]

/-- AES key wrap (RFC 8152 table 17): identifier, key length in bytes. -/
def Spec.kwAlgs : List (Int × Nat) := [(-3, 16), (-4, 24), (-5, 32)]

/-- RSAES-OAEP (RFC 8230 table 2): identifier, hash. -/
def Spec.oaepAlgs : List (Int × HashId) := [(-40, .sha1), (-41, .sha256), (-42, .sha512)]

/-- ECDH with HKDF (RFC 8152 tables 18 and 20): identifier, hash of HKDF, key wrap algorithm if any. -/
def Spec.agreeAlgs : List (Int × HashId × Option Int) :=
  [(-25, .sha256, none), (-26, .sha512, none), (-27, .sha256, none), (-28, .sha512, none),
   (-29, .sha256, some (-3)), (-30, .sha256, some (-4)), (-31, .sha256, some (-5)),
   (-32, .sha256, some (-3)), (-33, .sha256, some (-4)), (-34, .sha256, some (-5))]

/-- The elliptic curve with a number of the registry. -/
abbrev Spec.curve (i : Int) : Cls := ⟨.crv, i⟩

/-- `int.from_bytes(v, 'big')` of a value the key shows is `n`. -/
def Spec.Number (shown : Res Val) (n : Nat) : Prop := ∃ v, shown = .ok v ∧ Spec.BigEndian v n

/-- The numbers of an RSA key, each read from the parameter of that name. -/
structure Spec.RsaKey (k : Key) (r : RsaNums) : Prop where
  n : Spec.Number (k.rsaParam RsaN) r.n
  e : Spec.Number (k.rsaParam RsaE) r.e
  d : Spec.Number (k.rsaParam RsaD) r.d
  p : Spec.Number (k.rsaParam RsaP) r.p
  q : Spec.Number (k.rsaParam RsaQ) r.q
  dp : Spec.Number (k.rsaParam RsaDP) r.dp
  dq : Spec.Number (k.rsaParam RsaDQ) r.dq
  qinv : Spec.Number (k.rsaParam RsaQInv) r.qinv

/-- `s` is a signature of `data` with key `k` under the algorithm number `i`. -/
inductive Spec.Signature (C : Crypto) (rnd : Bytes) (i : Int) (k : Key) (data s : Bytes) : Prop
  | ecdsa {c : Int} {h : HashId} {d : Bytes} : (i, c, h) ∈ Spec.ecdsaAlgs → k.d = .ok (.bytes d) → d ≠ [] →
      C.ecdsaSign (Spec.curve c) h (natOfBytes d) data = .ok s → Signature C rnd i k data s
  | eddsa {c : Cls} {d : Bytes} : i = -8 → k.crv = .ok (.cls c) → fullname c ∈ [b!"ED25519", b!"ED448"] →
      k.d = .ok (.bytes d) → C.eddsaSign c d data = .ok s → Signature C rnd i k data s
  | rsa {p : RsaPad} {h : HashId} {r : RsaNums} : (i, p, h) ∈ Spec.rsaAlgs → Spec.RsaKey k r →
      C.rsaSign p h r rnd data = .ok s → Signature C rnd i k data s

/-- The primitive's verdict on the signature `s` of `data`, with key `k` under the algorithm number `i`, is `v`. -/
inductive Spec.Verdict (C : Crypto) (i : Int) (k : Key) (data s : Bytes) (v : Bool) : Prop
  | ecdsa {c : Int} {h : HashId} {x y : Bytes} : (i, c, h) ∈ Spec.ecdsaAlgs → k.x = .ok (.bytes x) → x ≠ [] →
      k.y = .ok (.bytes y) → y ≠ [] →
      C.ecdsaVerify (Spec.curve c) h (natOfBytes x) (natOfBytes y) data s = .ok v → Verdict C i k data s v
  | eddsa {c : Cls} {x : Bytes} : i = -8 → k.crv = .ok (.cls c) → fullname c ∈ [b!"ED25519", b!"ED448"] →
      k.x = .ok (.bytes x) → C.eddsaVerify c x data s = .ok v → Verdict C i k data s v
  | rsa {p : RsaPad} {h : HashId} {n e : Nat} : (i, p, h) ∈ Spec.rsaAlgs → Spec.Number (k.rsaParam RsaN) n →
      Spec.Number (k.rsaParam RsaE) e → C.rsaVerify p h n e data s = .ok v → Verdict C i k data s v

/-! ### The table of the code against the registry -/

theorem ecdsa_row : ∀ p ∈ Spec.ecdsaAlgs, algFam (algCls p.1) = some (.ecdsa (Spec.curve p.2.1) p.2.2) := by decide +kernel
theorem rsa_row : ∀ p ∈ Spec.rsaAlgs, algFam (algCls p.1) = some (.rsa p.2.1 p.2.2) := by decide +kernel
theorem kw_row : ∀ p ∈ Spec.kwAlgs, algFam (algCls p.1) = some (.aesKw p.2) := by decide +kernel
theorem oaep_row : ∀ p ∈ Spec.oaepAlgs, algFam (algCls p.1) = some (.rsaOaep p.2) := by decide +kernel
theorem agree_row : ∀ p ∈ Spec.agreeAlgs, algFam (algCls p.1) = some (.ecdh p.2.1 p.2.2) := by decide +kernel
theorem aead_row : ∀ p ∈ Spec.aeadAlgs, encMethod (algCls p.1) = .ok p.2 := by decide +kernel

/-- Every row of the table of the code is a row of the registry. -/
def registryRow (p : Int × AlgFam) : Bool :=
  match p.2 with
  | .ecdsa c h => Spec.ecdsaAlgs.any fun q => q.1 == p.1 && Spec.curve q.2.1 == c && q.2.2 == h
  | .rsa pad h => Spec.rsaAlgs.contains (p.1, pad, h)
  | .eddsa => p.1 == -8
  | .aead a _ => Spec.aeadAlgs.contains (p.1, a)
  | .aesKw n => Spec.kwAlgs.contains (p.1, n)
  | .rsaOaep h => Spec.oaepAlgs.contains (p.1, h)
  | .ecdh h w => Spec.agreeAlgs.contains (p.1, h, w)
  | _ => true

theorem registryRows : ∀ p ∈ algTable, registryRow p = true := by decide +kernel

theorem algFam_row {alg : Val} {f : AlgFam} (h : algFam alg = some f) : ∃ i, alg = algCls i ∧ registryRow (i, f) = true := by
  obtain ⟨⟨r, i⟩, n, rfl, hr, ht⟩ := algFam_reg h
  have := alg_reg hr
  simp at this; subst this
  exact ⟨i, rfl, registryRows _ ht⟩

/-! ### Signatures -/

theorem rsaNums_iff {k : Key} {r : RsaNums} : rsaNumsOf k = .ok r ↔ Spec.RsaKey k r := by
  simp only [rsaNumsOf, bind_eq_ok, Except.ok.injEq, intFromBytes_iff]
  constructor
  · rintro ⟨e, h1, e', h1', n, h2, n', h2', p, h3, p', h3', q, h4, q', h4', d, h5, d', h5', dp, h6, dp', h6', dq, h7, dq', h7', qi, h8,
      qi', h8', rfl⟩
    exact ⟨⟨_, h2, h2'⟩, ⟨_, h1, h1'⟩, ⟨_, h5, h5'⟩, ⟨_, h3, h3'⟩, ⟨_, h4, h4'⟩, ⟨_, h6, h6'⟩, ⟨_, h7, h7'⟩, ⟨_, h8, h8'⟩⟩
  · rintro ⟨⟨_, h2, h2'⟩, ⟨_, h1, h1'⟩, ⟨_, h5, h5'⟩, ⟨_, h3, h3'⟩, ⟨_, h4, h4'⟩, ⟨_, h6, h6'⟩, ⟨_, h7, h7'⟩, ⟨_, h8, h8'⟩⟩
    exact ⟨_, h1, _, h1', _, h2, _, h2', _, h3, _, h3', _, h4, _, h4', _, h5, _, h5', _, h6, _, h6', _, h7, _, h7', _, h8, _, h8', rfl⟩

theorem edCurve_iff {k : Key} {c : Cls} : edCurve k = .ok c ↔ k.crv = .ok (.cls c) ∧ fullname c ∈ [b!"ED25519", b!"ED448"] := by
  simp only [edCurve, bind_eq_ok, List.mem_cons, List.not_mem_nil, or_false]
  constructor
  · rintro ⟨v, h1, h⟩
    split at h
    · split at h
      · simp at h; subst h; exact ⟨h1, by assumption⟩
      · simp at h
    · simp at h
  · rintro ⟨h1, h2⟩
    exact ⟨_, h1, by simp only [if_pos h2]⟩

theorem intFromHex_iff {v : Val} {n : Nat} : intFromHex v = .ok n ↔ ∃ b, v = .bytes b ∧ b ≠ [] ∧ n = natOfBytes b :=
  ⟨intFromHex_inv, by rintro ⟨b, rfl, h, rfl⟩; exact intFromHex_bytes h⟩

theorem sign_iff {C : Crypto} {rnd : Bytes} {alg : Val} {k : Key} {data s : Bytes} :
    (∃ f, signMethod alg = .ok f ∧ callSign C rnd f k data = .ok s) ↔ ∃ i, alg = algCls i ∧ Spec.Signature C rnd i k data s := by
  constructor
  · rintro ⟨f, hf, hs⟩
    obtain ⟨i, rfl, hr⟩ := algFam_row (signMethod_fam hf)
    refine ⟨i, rfl, ?_⟩
    cases f <;> simp only [callSign, reduceCtorEq, bind_eq_ok, intFromHex_iff, edCurve_iff, rsaNums_iff, asBytes_ok] at hs
    · obtain ⟨r, h1, h2⟩ := hs
      exact .rsa (by simpa [registryRow] using hr) h1 h2
    · simp at hs
    · obtain ⟨v, h1, n, ⟨b, rfl, h2, rfl⟩, h3⟩ := hs
      simp only [registryRow, List.any_eq_true, Bool.and_eq_true, beq_iff_eq] at hr
      obtain ⟨⟨i', c', h'⟩, hm, ⟨h4, h5⟩, h6⟩ := hr
      simp only at h4 h5 h6
      subst h4 h5 h6
      exact .ecdsa hm h1 h2 h3
    · obtain ⟨c, ⟨h1, h2⟩, v, h3, d, rfl, h4⟩ := hs
      exact .eddsa (by simpa [registryRow] using hr) h1 h2 h3 h4
  · rintro ⟨i, rfl, h⟩
    cases h with
    | ecdsa hm h1 h2 h3 =>
      refine ⟨_, by simp only [signMethod, ecdsa_row _ hm]; rfl, ?_⟩
      simp only [callSign, h1, ok_bind, intFromHex_bytes h2, h3]
    | eddsa hm h1 h2 h3 h4 =>
      subst hm
      refine ⟨.eddsa, rfl, ?_⟩
      simp only [callSign, edCurve_iff.mpr ⟨h1, h2⟩, ok_bind, h3, asBytes, h4]
    | rsa hm h1 h2 =>
      refine ⟨_, by simp only [signMethod, rsa_row _ hm]; rfl, ?_⟩
      simp only [callSign, rsaNums_iff.mpr h1, ok_bind, h2]

theorem verify_iff {C : Crypto} {alg : Val} {k : Key} {data s : Bytes} {v : Bool} :
    (∃ f, signMethod alg = .ok f ∧ callVerify C f k data (.bytes s) = .ok v) ↔ ∃ i, alg = algCls i ∧ Spec.Verdict C i k data s v := by
  constructor
  · rintro ⟨f, hf, hs⟩
    obtain ⟨i, rfl, hr⟩ := algFam_row (signMethod_fam hf)
    refine ⟨i, rfl, ?_⟩
    cases f <;> simp only [callVerify, reduceCtorEq, bind_eq_ok, intFromHex_iff, edCurve_iff, asBytes_ok, Val.bytes.injEq] at hs
    · obtain ⟨e, h1, e', h1', n, h2, n', h2', _, rfl, h⟩ := hs
      exact .rsa (by simpa [registryRow] using hr) ⟨_, h2, intFromBytes_iff.mp h2'⟩ ⟨_, h1, intFromBytes_iff.mp h1'⟩ h
    · simp at hs
    · obtain ⟨x, h1, n, ⟨b, rfl, h2, rfl⟩, y, h3, n', ⟨b', rfl, h4, rfl⟩, _, rfl, h⟩ := hs
      simp only [registryRow, List.any_eq_true, Bool.and_eq_true, beq_iff_eq] at hr
      obtain ⟨⟨i', c', h'⟩, hm, ⟨h5, h6⟩, h7⟩ := hr
      simp only at h5 h6 h7
      subst h5 h6 h7
      exact .ecdsa hm h1 h2 h3 h4 h
    · obtain ⟨c, ⟨h1, h2⟩, x, h3, b, rfl, _, rfl, h4⟩ := hs
      exact .eddsa (by simpa [registryRow] using hr) h1 h2 h3 h4
  · rintro ⟨i, rfl, h⟩
    cases h with
    | ecdsa hm h1 h2 h3 h4 h =>
      refine ⟨_, by simp only [signMethod, ecdsa_row _ hm]; rfl, ?_⟩
      simp only [callVerify, h1, h3, ok_bind, intFromHex_bytes h2, intFromHex_bytes h4, asBytes, h]
    | eddsa hm h1 h2 h3 h4 =>
      subst hm
      refine ⟨.eddsa, rfl, ?_⟩
      simp only [callVerify, edCurve_iff.mpr ⟨h1, h2⟩, ok_bind, h3, asBytes, h4]
    | rsa hm h1 h2 h =>
      obtain ⟨_, h1, h1'⟩ := h1
      obtain ⟨_, h2, h2'⟩ := h2
      refine ⟨_, by simp only [signMethod, rsa_row _ hm]; rfl, ?_⟩
      simp only [callVerify, h1, h2, intFromBytes_iff.mpr h1', intFromBytes_iff.mpr h2', ok_bind, asBytes, h]

theorem compute_prim {C : Crypto} {rnd s : Bytes} {b : Base} {tbs : Res Bytes} (h : computeSignature C rnd b tbs = .ok s) :
    ∃ i k data, b.getAttr Hdr.Algorithm = .ok (algCls i) ∧ b.key = some k ∧ tbs = .ok data ∧ Spec.Signature C rnd i k data s := by
  simp only [computeSignature, bind_eq_ok] at h
  obtain ⟨alg, ha, k, hk, f, hf, data, hd, h⟩ := h
  obtain ⟨i, rfl, hs⟩ := sign_iff.mp ⟨f, hf, h⟩
  exact ⟨i, k, data, ha, (keyVerification_inv hk).1, hd, hs⟩

theorem compute_accepts {C : Crypto} {rnd s : Bytes} {b : Base} {tbs : Res Bytes} {i : Int} {k : Key} {data : Bytes}
    (ha : b.getAttr Hdr.Algorithm = .ok (algCls i)) (hk : b.key = some k) (hn : k.kind ≠ .sym)
    (hp : Spec.Permits k k.kind (algCls i) [Op.Sign]) (ht : tbs = .ok data) (hs : Spec.Signature C rnd i k data s) :
    computeSignature C rnd b tbs = .ok s := by
  obtain ⟨f, hf, h⟩ := sign_iff.mpr ⟨i, rfl, hs⟩
  have hv := permits_verify hp
  have : keyVerification b (algCls i) Op.Sign = .ok k := by
    unfold keyVerification
    cases hkd : k.kind <;> simp_all
  simp only [computeSignature, ha, ok_bind, this, hf, ht, h]

theorem verify_prim {C : Crypto} {s : Bytes} {v : Bool} {b : Base} {tbs : Res Bytes} (h : verifySignature C b tbs (.bytes s) = .ok v) :
    ∃ i k data, b.getAttr Hdr.Algorithm = .ok (algCls i) ∧ b.key = some k ∧ tbs = .ok data ∧ Spec.Verdict C i k data s v := by
  simp only [verifySignature, bind_eq_ok] at h
  obtain ⟨alg, ha, k, hk, f, hf, data, hd, h⟩ := h
  obtain ⟨i, rfl, hs⟩ := verify_iff.mp ⟨f, hf, h⟩
  exact ⟨i, k, data, ha, (keyVerification_inv hk).1, hd, hs⟩

theorem verify_accepts {C : Crypto} {s : Bytes} {v : Bool} {b : Base} {tbs : Res Bytes} {i : Int} {k : Key} {data : Bytes}
    (ha : b.getAttr Hdr.Algorithm = .ok (algCls i)) (hk : b.key = some k) (hn : k.kind ≠ .sym)
    (hp : Spec.Permits k k.kind (algCls i) [Op.Verify]) (ht : tbs = .ok data) (hs : Spec.Verdict C i k data s v) :
    verifySignature C b tbs (.bytes s) = .ok v := by
  obtain ⟨f, hf, h⟩ := verify_iff.mpr ⟨i, rfl, hs⟩
  have hv := permits_verify hp
  have : keyVerification b (algCls i) Op.Verify = .ok k := by
    unfold keyVerification
    cases hkd : k.kind <;> simp_all
  simp only [verifySignature, ha, ok_bind, this, hf, ht, h]

/-! ### C75, signatures -/

/-- C75: a signature of a COSE_Sign1 message is the result of the registered primitive of the algorithm in the header, on the
private material of the message's key and the bytes to be signed. -/
theorem c75_sign1 {C : Crypto} {rnd s : Bytes} {m : Sign1} {det : Option Bytes} (h : m.computeSignature C rnd det = .ok s) :
    ∃ i k data, m.base.getAttr Hdr.Algorithm = .ok (algCls i) ∧ m.base.key = some k ∧ m.sigStructure det = .ok data ∧
      Spec.Signature C rnd i k data s := compute_prim h

/-- C75: conversely, if the key may sign, whatever the primitive returns is the signature. -/
theorem c75_sign1_accepted {C : Crypto} {rnd s : Bytes} {m : Sign1} {det : Option Bytes} {i : Int} {k : Key} {data : Bytes}
    (ha : m.base.getAttr Hdr.Algorithm = .ok (algCls i)) (hk : m.base.key = some k) (hn : k.kind ≠ .sym)
    (hp : Spec.Permits k k.kind (algCls i) [Op.Sign]) (ht : m.sigStructure det = .ok data) (hs : Spec.Signature C rnd i k data s) :
    m.computeSignature C rnd det = .ok s := compute_accepts ha hk hn hp ht hs

/-- C75: the signature of a signer of a COSE_Sign message. -/
theorem c75_signer {C : Crypto} {rnd s : Bytes} {p b : Base} {det : Option Bytes} (h : signerCompute C rnd p b det = .ok s) :
    ∃ i k data, b.getAttr Hdr.Algorithm = .ok (algCls i) ∧ b.key = some k ∧ signerStructure p b det = .ok data ∧
      Spec.Signature C rnd i k data s := compute_prim h

theorem c75_signer_accepted {C : Crypto} {rnd s : Bytes} {p b : Base} {det : Option Bytes} {i : Int} {k : Key} {data : Bytes}
    (ha : b.getAttr Hdr.Algorithm = .ok (algCls i)) (hk : b.key = some k) (hn : k.kind ≠ .sym)
    (hp : Spec.Permits k k.kind (algCls i) [Op.Sign]) (ht : signerStructure p b det = .ok data) (hs : Spec.Signature C rnd i k data s) :
    signerCompute C rnd p b det = .ok s := compute_accepts ha hk hn hp ht hs

/-- C75: the answer of `verify_signature` is the verdict of the registered primitive on the public material of the message's key,
the bytes to be signed and the signature in the message. -/
theorem c75_sign1_verify {C : Crypto} {s : Bytes} {v : Bool} {m : Sign1} {det : Option Bytes} (hsig : m.signature = .bytes s)
    (h : m.verifySignature C det = .ok v) :
    ∃ i k data, m.base.getAttr Hdr.Algorithm = .ok (algCls i) ∧ m.base.key = some k ∧ m.sigStructure det = .ok data ∧
      Spec.Verdict C i k data s v := by
  unfold Sign1.verifySignature at h
  rw [hsig] at h
  exact verify_prim h

theorem c75_sign1_verify_accepted {C : Crypto} {s : Bytes} {v : Bool} {m : Sign1} {det : Option Bytes} {i : Int} {k : Key} {data : Bytes}
    (hsig : m.signature = .bytes s) (ha : m.base.getAttr Hdr.Algorithm = .ok (algCls i)) (hk : m.base.key = some k) (hn : k.kind ≠ .sym)
    (hp : Spec.Permits k k.kind (algCls i) [Op.Verify]) (ht : m.sigStructure det = .ok data) (hs : Spec.Verdict C i k data s v) :
    m.verifySignature C det = .ok v := by
  unfold Sign1.verifySignature
  rw [hsig]
  exact verify_accepts ha hk hn hp ht hs

theorem c75_signer_verify {C : Crypto} {s : Bytes} {v : Bool} {p b : Base} {det : Option Bytes} (hsig : b.payload = some s)
    (h : signerVerify C p b det = .ok v) :
    ∃ i k data, b.getAttr Hdr.Algorithm = .ok (algCls i) ∧ b.key = some k ∧ signerStructure p b det = .ok data ∧
      Spec.Verdict C i k data s v := by
  unfold signerVerify at h
  rw [hsig] at h
  exact verify_prim h

theorem c75_signer_verify_accepted {C : Crypto} {s : Bytes} {v : Bool} {p b : Base} {det : Option Bytes} {i : Int} {k : Key} {data : Bytes}
    (hsig : b.payload = some s) (ha : b.getAttr Hdr.Algorithm = .ok (algCls i)) (hk : b.key = some k) (hn : k.kind ≠ .sym)
    (hp : Spec.Permits k k.kind (algCls i) [Op.Verify]) (ht : signerStructure p b det = .ok data) (hs : Spec.Verdict C i k data s v) :
    signerVerify C p b det = .ok v := by
  unfold signerVerify
  rw [hsig]
  exact verify_accepts ha hk hn hp ht hs

/-! ### C75, content encryption -/

theorem aead_enc_prim {C : Crypto} {ctx : Bytes} {b : Base} {c : Bytes} (h : encEncrypt C ctx b = .ok c) :
    ∃ i a k kb n aad p, b.getAttr Hdr.Algorithm = .ok (algCls i) ∧ (i, a) ∈ Spec.aeadAlgs ∧ b.key = some k ∧ k.symK = .ok (.bytes kb) ∧
      getNonce b = .ok (.bytes n) ∧ encStructure ctx b = .ok aad ∧ b.payload = some p ∧ C.aeadEnc a kb n aad p = .ok c := by
  unfold encEncrypt at h
  split at h
  · simp at h
  · rename_i k hk
    simp only [bind_eq_ok, callEncrypt, asBytes_ok] at h
    obtain ⟨alg, ha, nonce, hn, _, _, a, hm, aad, haad, kk, h1, kb, rfl, n, rfl, h⟩ := h
    obtain ⟨_, hf⟩ := encMethod_fam hm
    obtain ⟨i, rfl, hr⟩ := algFam_row hf
    split at h
    · rename_i p hp
      exact ⟨i, a, k, kb, n, aad, p, ha, by simpa [registryRow] using hr, hk, h1, hn, haad, hp, h⟩
    · simp at h

theorem aead_dec_prim {C : Crypto} {ctx : Bytes} {b : Base} {p : Bytes} (h : encDecrypt C ctx b = .ok p) :
    ∃ i a k kb n aad c, b.getAttr Hdr.Algorithm = .ok (algCls i) ∧ (i, a) ∈ Spec.aeadAlgs ∧ b.key = some k ∧ k.symK = .ok (.bytes kb) ∧
      getNonce b = .ok (.bytes n) ∧ encStructure ctx b = .ok aad ∧ b.payload = some c ∧ C.aeadDec a kb n aad c = .ok p := by
  simp only [encDecrypt, bind_eq_ok] at h
  obtain ⟨alg, ha, nonce, hn, h⟩ := h
  split at h
  · simp at h
  · rename_i k hk
    simp only [bind_eq_ok, callDecrypt, asBytes_ok] at h
    obtain ⟨_, _, a, hm, aad, haad, kk, h1, kb, rfl, n, rfl, h⟩ := h
    obtain ⟨_, hf⟩ := encMethod_fam hm
    obtain ⟨i, rfl, hr⟩ := algFam_row hf
    split at h
    · rename_i p hp
      exact ⟨i, a, k, kb, n, aad, p, ha, by simpa [registryRow] using hr, hk, h1, hn, haad, hp, h⟩
    · simp at h

theorem aead_enc_accepts {C : Crypto} {ctx : Bytes} {b : Base} {i : Int} {a : Aead} {k : Key} {kb n aad p : Bytes}
    (ha : b.getAttr Hdr.Algorithm = .ok (algCls i)) (hm : (i, a) ∈ Spec.aeadAlgs) (hk : b.key = some k)
    (hp : Spec.Permits k .sym (algCls i) [Op.Encrypt]) (hK : k.symK = .ok (.bytes kb)) (hn : getNonce b = .ok (.bytes n))
    (haad : encStructure ctx b = .ok aad) (hpl : b.payload = some p) : encEncrypt C ctx b = C.aeadEnc a kb n aad p := by
  simp only [encEncrypt, hk, ha, ok_bind, hn, permits_verify hp, aead_row _ hm, haad, callEncrypt, hK, asBytes, hpl]

theorem aead_dec_accepts {C : Crypto} {ctx : Bytes} {b : Base} {i : Int} {a : Aead} {k : Key} {kb n aad c : Bytes}
    (ha : b.getAttr Hdr.Algorithm = .ok (algCls i)) (hm : (i, a) ∈ Spec.aeadAlgs) (hk : b.key = some k)
    (hp : Spec.Permits k .sym (algCls i) [Op.Decrypt]) (hK : k.symK = .ok (.bytes kb)) (hn : getNonce b = .ok (.bytes n))
    (haad : encStructure ctx b = .ok aad) (hpl : b.payload = some c) : encDecrypt C ctx b = C.aeadDec a kb n aad c := by
  simp only [encDecrypt, hk, ha, ok_bind, hn, permits_verify hp, aead_row _ hm, haad, callDecrypt, hK, asBytes, hpl]

/-- The key of the message is a symmetric key that may be used for one of `ops` with the message's algorithm. -/
def Spec.PolicyPermits (b : Base) (ops : List Cls) : Prop :=
  ∃ k alg, b.key = some k ∧ b.getAttr Hdr.Algorithm = .ok alg ∧ Spec.Permits k .sym alg ops

/-- The ingredients of content encryption for a message with context string `ctx`: the registered cipher, the value of the message's key,
the nonce, the authenticated structure and the payload. -/
structure Spec.Sealing (ctx : Bytes) (b : Base) (a : Aead) (key nonce aad text : Bytes) : Prop where
  alg : ∃ i, b.getAttr Hdr.Algorithm = .ok (algCls i) ∧ (i, a) ∈ Spec.aeadAlgs
  key : ∃ k, b.key = some k ∧ k.symK = .ok (.bytes key)
  nonce : getNonce b = .ok (.bytes nonce)
  aad : Cose.encStructure ctx b = .ok aad
  text : b.payload = some text

/-- C75: the ciphertext of a COSE_Encrypt0 message is what the registered cipher makes of the payload. -/
theorem c75_enc0_encrypt {C : Crypto} {m : Enc0} {c : Bytes} (h : m.encrypt C = .ok c) :
    ∃ a key nonce aad text, Spec.Sealing b!"Encrypt0" m.base a key nonce aad text ∧ C.aeadEnc a key nonce aad text = .ok c := by
  obtain ⟨i, a, k, kb, n, aad, p, h1, h2, h3, h4, h5, h6, h7, h8⟩ := aead_enc_prim h
  exact ⟨a, kb, n, aad, p, ⟨⟨i, h1, h2⟩, ⟨k, h3, h4⟩, h5, h6, h7⟩, h8⟩

/-- C75: the plaintext is what the registered cipher makes of the ciphertext. -/
theorem c75_enc0_decrypt {C : Crypto} {m : Enc0} {p : Bytes} (h : m.decrypt C = .ok p) :
    ∃ a key nonce aad text, Spec.Sealing b!"Encrypt0" m.base a key nonce aad text ∧ C.aeadDec a key nonce aad text = .ok p := by
  obtain ⟨i, a, k, kb, n, aad, c, h1, h2, h3, h4, h5, h6, h7, h8⟩ := aead_dec_prim h
  exact ⟨a, kb, n, aad, c, ⟨⟨i, h1, h2⟩, ⟨k, h3, h4⟩, h5, h6, h7⟩, h8⟩

/-- C75: conversely, with a key that may be used, the operation gives what the cipher gives, be it bytes or an exception. -/
theorem c75_enc0_accepted {C : Crypto} {m : Enc0} {a : Aead} {key nonce aad text : Bytes} (h : Spec.Sealing b!"Encrypt0" m.base a key nonce aad text) :
    (Spec.PolicyPermits m.base [Op.Encrypt] → m.encrypt C = C.aeadEnc a key nonce aad text) ∧
    (Spec.PolicyPermits m.base [Op.Decrypt] → m.decrypt C = C.aeadDec a key nonce aad text) := by
  obtain ⟨⟨i, ha, hm⟩, ⟨k, hk, hK⟩, h1, h2, h3⟩ := h
  constructor
  · rintro ⟨k', alg, hk', ha', hp⟩
    rw [hk] at hk'; simp at hk'; subst hk'
    rw [ha] at ha'; simp at ha'; subst ha'
    exact aead_enc_accepts ha hm hk hp hK h1 h2 h3
  · rintro ⟨k', alg, hk', ha', hp⟩
    rw [hk] at hk'; simp at hk'; subst hk'
    rw [ha] at ha'; simp at ha'; subst ha'
    exact aead_dec_accepts ha hm hk hp hK h1 h2 h3

theorem enc_encrypt_core {C : Crypto} {R : Rand} {m m' : Enc} {c : Bytes} (h : m.encrypt C R = .ok (c, m')) :
    encEncrypt C b!"Encrypt" m'.base = .ok c := by
  simp only [Enc.encrypt, bind_eq_ok] at h
  obtain ⟨target, _, types, _, h⟩ := h
  split at h
  · simp only [bind_eq_ok] at h
    obtain ⟨c', h1, h2⟩ := h
    simp at h2; obtain ⟨rfl, rfl⟩ := h2
    exact h1
  · split at h
    · split at h
      · simp at h
      · simp only [bind_eq_ok] at h
        obtain ⟨k, _, c', h1, h2⟩ := h
        simp at h2; obtain ⟨rfl, rfl⟩ := h2
        exact h1
    · split at h
      · simp only [bind_eq_ok] at h
        obtain ⟨n, _, ⟨kb, rs⟩, _, k, _, c', h1, h2⟩ := h
        simp at h2; obtain ⟨rfl, rfl⟩ := h2
        exact h1
      · simp at h

theorem enc_decrypt_core {C : Crypto} {m m' : Enc} {r : Rcpt} {p : Bytes} (h : m.decrypt C r = .ok (p, m')) :
    encDecrypt C b!"Encrypt" m'.base = .ok p := by
  simp only [Enc.decrypt, bind_eq_ok] at h
  obtain ⟨target, _, h⟩ := h
  split at h
  · simp at h
  · simp only [bind_eq_ok] at h
    obtain ⟨types, _, h⟩ := h
    split at h
    · simp only [bind_eq_ok] at h
      obtain ⟨c', h1, h2⟩ := h
      simp at h2; obtain ⟨rfl, rfl⟩ := h2
      exact h1
    · split at h
      · simp only [bind_eq_ok] at h
        obtain ⟨k, _, c', h1, h2⟩ := h
        simp at h2; obtain ⟨rfl, rfl⟩ := h2
        exact h1
      · simp at h

/-- C75: the same for COSE_Encrypt; the key is the content key that the operation leaves in the message (see C72). -/
theorem c75_enc_encrypt {C : Crypto} {R : Rand} {m m' : Enc} {c : Bytes} (h : m.encrypt C R = .ok (c, m')) :
    ∃ a key nonce aad text, Spec.Sealing b!"Encrypt" m'.base a key nonce aad text ∧ C.aeadEnc a key nonce aad text = .ok c := by
  obtain ⟨i, a, k, kb, n, aad, p, h1, h2, h3, h4, h5, h6, h7, h8⟩ := aead_enc_prim (enc_encrypt_core h)
  exact ⟨a, kb, n, aad, p, ⟨⟨i, h1, h2⟩, ⟨k, h3, h4⟩, h5, h6, h7⟩, h8⟩

theorem c75_enc_decrypt {C : Crypto} {m m' : Enc} {r : Rcpt} {p : Bytes} (h : m.decrypt C r = .ok (p, m')) :
    ∃ a key nonce aad text, Spec.Sealing b!"Encrypt" m'.base a key nonce aad text ∧ C.aeadDec a key nonce aad text = .ok p := by
  obtain ⟨i, a, k, kb, n, aad, c, h1, h2, h3, h4, h5, h6, h7, h8⟩ := aead_dec_prim (enc_decrypt_core h)
  exact ⟨a, kb, n, aad, c, ⟨⟨i, h1, h2⟩, ⟨k, h3, h4⟩, h5, h6, h7⟩, h8⟩

/-! ### C75, key wrap -/

/-- `c` is the key `text` wrapped for the recipient with base `b`, whose algorithm is AES key wrap or RSAES-OAEP, under the
recipient's own key. -/
inductive Spec.WrapsTo (C : Crypto) (salt : Bytes) (b : Base) (text c : Bytes) : Prop
  | aesKw {i : Int} {k : Key} {kek : Bytes} {n : Nat} : b.getAttr Hdr.Algorithm = .ok (algCls i) → (i, n) ∈ Spec.kwAlgs → b.key = some k →
      k.symK = .ok (.bytes kek) → kek.length = n → C.kwWrap kek text = .ok c → WrapsTo C salt b text c
  | oaep {i : Int} {k : Key} {h : HashId} {n e : Nat} : b.getAttr Hdr.Algorithm = .ok (algCls i) → (i, h) ∈ Spec.oaepAlgs → b.key = some k →
      Spec.Number (k.rsaParam RsaN) n → Spec.Number (k.rsaParam RsaE) e → C.rsaEnc h n e salt text = .ok c → WrapsTo C salt b text c

/-- `text` is what unwrapping `c` gives for the recipient with base `b`. -/
inductive Spec.UnwrapsTo (C : Crypto) (b : Base) (c text : Bytes) : Prop
  | aesKw {i : Int} {k : Key} {kek : Bytes} {n : Nat} : b.getAttr Hdr.Algorithm = .ok (algCls i) → (i, n) ∈ Spec.kwAlgs → b.key = some k →
      k.symK = .ok (.bytes kek) → kek.length = n → C.kwUnwrap kek c = .ok text → UnwrapsTo C b c text
  | oaep {i : Int} {k : Key} {h : HashId} {r : RsaNums} : b.getAttr Hdr.Algorithm = .ok (algCls i) → (i, h) ∈ Spec.oaepAlgs → b.key = some k →
      Spec.RsaKey k r → C.rsaDec h r c = .ok text → UnwrapsTo C b c text

theorem kwKeyWrap_prim {C : Crypto} {n : Nat} {k : Key} {data : Option Bytes} {c : Bytes} (h : kwKeyWrap C n k data = .ok c) :
    ∃ kb text, k.symK = .ok (.bytes kb) ∧ kb.length = n ∧ data = some text ∧ C.kwWrap kb text = .ok c := by
  simp only [kwKeyWrap, bind_eq_ok] at h
  obtain ⟨kk, h1, l, h2, h⟩ := h
  split at h
  · simp at h
  · rename_i hn
    simp only [bind_eq_ok, asBytes_ok] at h
    obtain ⟨kb, rfl, h⟩ := h
    simp [lenOf] at h2
    split at h
    · exact ⟨kb, _, h1, by simp at hn; omega, rfl, h⟩
    · simp at h

theorem kwKeyUnwrap_prim {C : Crypto} {n : Nat} {k : Key} {data : Option Bytes} {c : Bytes} (h : kwKeyUnwrap C n k data = .ok c) :
    ∃ kb text, k.symK = .ok (.bytes kb) ∧ kb.length = n ∧ data = some text ∧ C.kwUnwrap kb text = .ok c := by
  simp only [kwKeyUnwrap, bind_eq_ok] at h
  obtain ⟨kk, h1, l, h2, h⟩ := h
  split at h
  · simp at h
  · rename_i hn
    simp only [bind_eq_ok, asBytes_ok] at h
    obtain ⟨kb, rfl, h⟩ := h
    simp [lenOf] at h2
    split at h
    · exact ⟨kb, _, h1, by simp at hn; omega, rfl, h⟩
    · simp at h

theorem kwKek_key {key : Option Key} {rs : List Rcpt} {v : Val} (h : kwKekEncrypt key rs = .ok v) : ∃ k, key = some k ∧ k.symK = .ok v := by
  unfold kwKekEncrypt at h
  split at h
  · exact ⟨_, rfl, h⟩
  · split at h
    · simp at h
    · simp only [bind_eq_ok] at h
      obtain ⟨_, _, h⟩ := h
      split at h
      · simp at h
      · split at h <;> simp at h

theorem kwKek_key' {C : Crypto} {key : Option Key} {rs : List Rcpt} {v : Val} (h : kwKekDecrypt C key rs = .ok v) :
    ∃ k, key = some k ∧ k.symK = .ok v := by
  cases rs <;> cases key <;> simp only [kwKekDecrypt, reduceCtorEq] at h
  · exact ⟨_, rfl, h⟩
  · split at h
    · simp at h
    · split at h
      · split at h <;> simp at h
      · simp at h
  · exact ⟨_, rfl, h⟩

theorem kwEncrypt_prim {C : Crypto} {salt : Bytes} {b : Base} {rs : List Rcpt} {c : Bytes} (h : kwEncrypt C salt b rs = .ok c) :
    ∃ text, b.payload = some text ∧ Spec.WrapsTo C salt b text c := by
  unfold kwEncrypt at h
  obtain ⟨alg, ha, h⟩ := bind_eq_ok.mp h
  split at h
  · simp at h
  split at h
  · simp at h
  obtain ⟨isKw, hkw, h⟩ := bind_eq_ok.mp h
  split at h
  · simp only [bind_eq_ok] at h
    obtain ⟨kk, hkk, kek, hkek, _, _, h⟩ := h
    split at h
    · rename_i n hf
      obtain ⟨i, rfl, hr⟩ := algFam_row hf
      obtain ⟨nn, hreg⟩ := algReg_of hf
      obtain ⟨kb, rfl, hl, rfl⟩ := mkSym_ok hreg wrapOps_reg hkek
      obtain ⟨kb', text, h1, h2, h3, h4⟩ := kwKeyWrap_prim h
      rw [symStore_symK] at h1; simp at h1; subst h1
      obtain ⟨k, hk, hK⟩ := kwKek_key hkk
      exact ⟨text, h3, .aesKw ha (by simpa [registryRow] using hr) hk hK h2 h4⟩
    · simp at h
  · obtain ⟨isR, hr, h⟩ := bind_eq_ok.mp h
    split at h
    · split at h
      · simp at h
      · rename_i k hk
        obtain ⟨_, _, h⟩ := bind_eq_ok.mp h
        split at h
        · rename_i hh hf
          obtain ⟨i, ei, hrow⟩ := algFam_row hf
          rw [ei] at ha
          simp only [oaepKeyWrap, bind_eq_ok] at h
          obtain ⟨e, he, e', he', n, hn, n', hn', h⟩ := h
          split at h
          · rename_i text ht
            exact ⟨text, ht, .oaep ha (by simpa [registryRow] using hrow) hk ⟨_, hn, intFromBytes_iff.mp hn'⟩ ⟨_, he, intFromBytes_iff.mp he'⟩ h⟩
          · simp at h
        · simp at h
    · simp at h

/-- C75: what a recipient with AES key wrap or RSAES-OAEP wraps, is wrapped by the registered primitive under the recipient's own key. -/
theorem c75_wrap {C : Crypto} {R : Rand} {phase : Nat} {path : List Nat} {r r' : Rcpt} {c : Bytes} (hc : r.cls = .keyWrap)
    (h : rcptEncrypt C R phase path r = .ok (c, r')) :
    ∃ text, r.base.payload = some text ∧ Spec.WrapsTo C (R.salt phase path) r.base text c := by
  simp only [rcptEncrypt, hc, bind_eq_ok] at h
  obtain ⟨c', h1, h2⟩ := h
  simp at h2; obtain ⟨rfl, rfl⟩ := h2
  exact kwEncrypt_prim h1

/-- C75: what is put on the wire for such a recipient. -/
theorem c75_wrap_encode {C : Crypto} {R : Rand} {path : List Nat} {b b' : Base} {ctx : Bytes} {oid : Nat} {rs : List Rcpt} {head : List Val}
    (h : rcptHead C R path (.mk .keyWrap b ctx oid rs) = .ok (head, b')) :
    ∃ pe text c, head = [.bytes pe, .map b.uhdr, .bytes c] ∧ b.payload = some text ∧ Spec.WrapsTo C (R.salt 1 path) b text c := by
  simp only [rcptHead, bind_eq_ok] at h
  obtain ⟨pe, _, c, h1, h2⟩ := h
  simp at h2; obtain ⟨rfl, rfl⟩ := h2
  obtain ⟨text, h3, h4⟩ := kwEncrypt_prim h1
  exact ⟨pe, text, c, rfl, h3, h4⟩

/-- C75: what such a recipient unwraps is what the registered primitive unwraps with the recipient's own key. -/
theorem c75_unwrap {C : Crypto} {r : Rcpt} {text : Bytes} (hc : r.cls = .keyWrap) (h : rcptDecrypt C r = .ok text) :
    ∃ c, r.base.payload = some c ∧ Spec.UnwrapsTo C r.base c text := by
  obtain ⟨cls, b, ctx, oid, rs⟩ := r
  simp only [Rcpt.cls] at hc
  subst hc
  simp only [Rcpt.base]
  simp only [rcptDecrypt, bind_eq_ok] at h
  obtain ⟨alg, ha, isKw, hkw, h⟩ := h
  split at h
  · simp only [bind_eq_ok] at h
    obtain ⟨kk, hkk, kek, hkek, _, _, h⟩ := h
    split at h
    · rename_i n hf
      obtain ⟨i, rfl, hr⟩ := algFam_row hf
      obtain ⟨nn, hreg⟩ := algReg_of hf
      obtain ⟨kb, rfl, hl, rfl⟩ := mkSym_ok hreg unwrapOps_reg hkek
      obtain ⟨kb', text, h1, h2, h3, h4⟩ := kwKeyUnwrap_prim h
      rw [symStore_symK] at h1; simp at h1; subst h1
      obtain ⟨k, hk, hK⟩ := kwKek_key' hkk
      exact ⟨_, h3, .aesKw ha (by simpa [registryRow] using hr) hk hK h2 h4⟩
    · simp at h
  · obtain ⟨isR, hr, h⟩ := bind_eq_ok.mp h
    split at h
    · split at h
      · simp at h
      · rename_i k hk
        obtain ⟨_, _, h⟩ := bind_eq_ok.mp h
        split at h
        · rename_i hh hf
          obtain ⟨i, ei, hrow⟩ := algFam_row hf
          rw [ei] at ha
          simp only [oaepKeyUnwrap, bind_eq_ok, rsaNums_iff] at h
          obtain ⟨nums, hn, h⟩ := h
          split at h
          · rename_i text ht
            exact ⟨text, ht, .oaep ha (by simpa [registryRow] using hrow) hk hn h⟩
          · simp at h
        · simp at h
    · simp at h

/-! ### C75, key agreement -/

/-- `kek` is the key that HKDF, with the hash of the algorithm number `alg`, derives from the ECDH secret of `mine` and `peer` for the
algorithm number `target`; the context is the one of C49. -/
def Spec.Agreed (C : Crypto) (b : Base) (alg target : Int) (mine peer : Key) (kek : Bytes) : Prop :=
  ∃ h w c d x y secret bits ctx info, (alg, h, w) ∈ Spec.agreeAlgs ∧ peer.crv = .ok (.cls c) ∧
    mine.d = .ok (.bytes d) ∧ d ≠ [] ∧ peer.x = .ok (.bytes x) ∧ x ≠ [] ∧ peer.y = .ok (.bytes y) ∧ y ≠ [] ∧
    C.ecdh c (natOfBytes d) (natOfBytes x) (natOfBytes y) = .ok secret ∧
    Cose.kdfContext b (algCls target) = .ok ctx ∧ ctx.encode = .ok info ∧ Spec.keyBits target = some bits ∧
    kek = C.hkdf h (bits / 8) info secret

theorem agreeKek_prim {C : Crypto} {b : Base} {target peer alg : Val} {mine : Option Key} {kek : Bytes}
    (h : agreeKek C b target peer mine alg = .ok kek) :
    ∃ i t k pk, alg = algCls i ∧ target = algCls t ∧ mine = some k ∧ asKey peer = .ok pk ∧ Spec.Agreed C b i t k pk kek := by
  unfold agreeKek at h
  split at h
  · rename_i hh w hf
    obtain ⟨i, rfl, hr⟩ := algFam_row hf
    simp only [bind_eq_ok] at h
    obtain ⟨pk, hpk, crv, hcrv, ctx, hctx, h⟩ := h
    unfold deriveKek at h
    rw [hf] at h
    simp only at h
    split at h
    · simp at h
    · rename_i k
      simp only [bind_eq_ok, intFromHex_iff] at h
      obtain ⟨_, hd, _, ⟨d, rfl, hd1, rfl⟩, _, hx, _, ⟨x, rfl, hx1, rfl⟩, _, hy, _, ⟨y, rfl, hy1, rfl⟩, h⟩ := h
      split at h
      · rename_i c
        simp only [bind_eq_ok, Except.ok.injEq] at h
        obtain ⟨s, hs, info, hinfo, rfl⟩ := h
        obtain ⟨t, u, v, bits, prot, rfl, hb, _⟩ := c49_recipient hctx hinfo
        refine ⟨i, t, k, pk, rfl, rfl, rfl, hpk, hh, w, c, d, x, y, s, bits, ctx, info, by simpa [registryRow] using hr, hcrv, hd, hd1, hx, hx1,
          hy, hy1, hs, hctx, hinfo, hb, ?_⟩
        have : ctx.suppPub.keyDataLength * 8 = bits := by
          simp only [kdfContext, bind_eq_ok, Except.ok.injEq] at hctx
          obtain ⟨_, _, _, _, _, _, _, _, _, _, _, _, n, hn, sp, hsp, rfl⟩ := hctx
          simp only [SuppPubInfo.init, Except.ok.injEq] at hsp
          subst hsp
          have := algKeyLength_spec hn
          rw [hb] at this
          simpa using this.symm
        rw [← this]
        simp
      · simp at h
  · simp at h

theorem dka_tail_ok {C : Crypto} {b : Base} {target : Val} {i : Int} {v : Val} {cek : Key}
    (h : (if v = .none then .error .coseException
      else do
        let pk ← asKey v
        pk.verify .ec2 (algCls i) [Op.DeriveKey, Op.DeriveBits]
        match b.key with
        | none => .error .attributeError
        | some k => do
          k.verify .ec2 (algCls i) [Op.DeriveKey, Op.DeriveBits]
          let kek ← agreeKek C b target v (some k) (algCls i)
          mkSym (.bytes kek) target [] : Res Key) = .ok cek) :
    v ≠ .none ∧ ∃ t mine kind store kek, target = algCls t ∧ b.key = some mine ∧ v = .key kind store ∧
      Spec.Agreed C b i t mine { kind := kind, store := store } kek ∧ cek.symK = .ok (.bytes kek) := by
  split at h
  · simp at h
  · rename_i hn
    refine ⟨hn, ?_⟩
    simp only [bind_eq_ok] at h
    obtain ⟨pk, hpk, _, _, h⟩ := h
    split at h
    · simp at h
    · rename_i k hk
      simp only [bind_eq_ok] at h
      obtain ⟨_, _, kek, hkek, h⟩ := h
      obtain ⟨i', t, k', pk', e1, rfl, e2, e3, ha⟩ := agreeKek_prim hkek
      simp at e1 e2; subst e1 e2
      rw [hpk] at e3; simp at e3; subst e3
      obtain ⟨s, kb, _, e, _, rfl⟩ := symInit_ok h
      simp at e; subst e
      cases v <;> simp [asKey] at hpk
      subst hpk
      refine ⟨t, k, _, _, kek, rfl, hk, rfl, ha, ?_⟩
      simp [Key.symK, dget_dset_same]

/-- C75: the content key of a direct key agreement, on either side, is the one HKDF derives for the content algorithm from the recipient's own
private key and the public key of the peer. -/
theorem c75_direct_agreement {C : Crypto} {b : Base} {target : Val} {enc : Bool} {cek : Key} (h : dkaComputeCek C b target enc = .ok cek) :
    ∃ i t mine kind store kek, b.getAttr Hdr.Algorithm = .ok (algCls i) ∧ target = algCls t ∧ b.key = some mine ∧
      Spec.PeerIs b enc (algCls i) (.key kind store) ∧ Spec.Agreed C b i t mine { kind := kind, store := store } kek ∧
      cek.symK = .ok (.bytes kek) := by
  have fin : ∀ {i : Int} {v : Val}, b.getAttr Hdr.Algorithm = .ok (algCls i) → (v ≠ .none → Spec.PeerIs b enc (algCls i) v) →
      (v ≠ .none ∧ ∃ t mine kind store kek, target = algCls t ∧ b.key = some mine ∧ v = .key kind store ∧
        Spec.Agreed C b i t mine { kind := kind, store := store } kek ∧ cek.symK = .ok (.bytes kek)) →
      ∃ i t mine kind store kek, b.getAttr Hdr.Algorithm = .ok (algCls i) ∧ target = algCls t ∧ b.key = some mine ∧
        Spec.PeerIs b enc (algCls i) (.key kind store) ∧ Spec.Agreed C b i t mine { kind := kind, store := store } kek ∧
        cek.symK = .ok (.bytes kek) := by
    rintro i v ha hp ⟨hn, t, mine, kind, store, kek, h1, h2, rfl, h3, h4⟩
    exact ⟨i, t, mine, kind, store, kek, ha, h1, h2, hp hn, h3, h4⟩
  unfold dkaComputeCek at h
  obtain ⟨alg, ha, h⟩ := bind_eq_ok.mp h
  obtain ⟨m, hm, h⟩ := bind_eq_ok.mp h
  cases m
  · simp at h
  obtain ⟨i, hi, e⟩ := inSet_true hm
  rw [e] at ha h hm
  simp only [Bool.true_eq_false, if_false] at h
  obtain ⟨ss, hs, h⟩ := bind_eq_ok.mp h
  cases enc
  · cases ss
    · simp only [Bool.false_eq_true, if_false] at h
      obtain ⟨v, he, h⟩ := bind_eq_ok.mp h
      refine fin ha (fun _ => .inr (.inr ⟨rfl, ?_, he⟩)) (dka_tail_ok h)
      simp only [ecdhEsHkdf, ecdhSsHkdf, List.cons_append, List.nil_append, List.mem_cons, List.not_mem_nil, or_false] at hi
      rcases hi with rfl | rfl | rfl | rfl
      · simp
      · simp
      · exact absurd hs (by decide)
      · exact absurd hs (by decide)
    · simp only [Bool.false_eq_true, if_false, if_true] at h
      obtain ⟨v, he, h⟩ := bind_eq_ok.mp h
      obtain ⟨j, hj, e⟩ := inSet_true hs
      refine fin ha (fun _ => .inr (.inl ⟨rfl, ?_, he⟩)) (dka_tail_ok h)
      rw [e]
      simp only [ecdhSsHkdf, List.mem_cons, List.not_mem_nil, or_false] at hj
      rcases hj with rfl | rfl <;> simp
  · simp only [if_true, ok_bind] at h
    refine fin ha (fun hv => .inl ⟨rfl, ?_⟩) (dka_tail_ok h)
    simp only [getD] at hv ⊢
    cases hd : dget b.localAttrs (.cls Hdr.StaticKey) with
    | none => simp [hd] at hv
    | some w => simp

theorem kwFunc_row {alg w : Val} {n : Nat} (h : keyWrapFunc alg = .ok w) (hn : algFam w = some (.aesKw n)) :
    ∃ i hh j, alg = algCls i ∧ w = algCls j ∧ (i, hh, some j) ∈ Spec.agreeAlgs ∧ (j, n) ∈ Spec.kwAlgs := by
  obtain ⟨j, rfl, hj⟩ := algFam_row hn
  unfold keyWrapFunc at h
  split at h
  · rename_i hh ww hf
    obtain ⟨i, rfl, hi⟩ := algFam_row hf
    simp at h; subst h
    exact ⟨i, hh, ww, rfl, rfl, by simpa [registryRow] using hi, by simpa [registryRow] using hj⟩
  · simp at h; subst h
    simp [algFam, algTable] at hn
  · simp at h

/-- The private key used by the sender of a key agreement with key wrap, and the recipient object `b1` that holds it: the key the
caller has set, or a generated one. -/
def Spec.SenderKey (C : Crypto) (d : Nat) (b b1 : Base) (mine : Key) : Prop :=
  (b.key = some mine ∧ b1 = b) ∨
  (b.key = none ∧ ∃ v, dget b.localAttrs (.cls Hdr.StaticKey) = some v ∧ setupEphemeral C d b v = .ok b1 ∧ b1.key = some mine)

/-- C75: what a recipient with ECDH and key wrap wraps, is wrapped by the key wrap algorithm of the registry, under the key HKDF
derives for that algorithm from the sender's private key and the public key of the receiver. -/
theorem c75_agreement_wrap {C : Crypto} {R : Rand} {phase : Nat} {path : List Nat} {r r' : Rcpt} {c : Bytes}
    (hc : r.cls = .keyAgreementWithKeyWrap) (h : rcptEncrypt C R phase path r = .ok (c, r')) :
    ∃ i hh j n mine kind store kek text, r.base.getAttr Hdr.Algorithm = .ok (algCls i) ∧ (i, hh, some j) ∈ Spec.agreeAlgs ∧
      (j, n) ∈ Spec.kwAlgs ∧ Spec.SenderKey C (R.eph path) r.base r'.base mine ∧
      dget r.base.localAttrs (.cls Hdr.StaticKey) = some (.key kind store) ∧
      Spec.Agreed C r'.base i j mine { kind := kind, store := store } kek ∧ kek.length = n ∧
      r'.base.payload = some text ∧ C.kwWrap kek text = .ok c := by
  simp only [rcptEncrypt, hc, bind_eq_ok] at h
  obtain ⟨⟨c', b1⟩, h1, h2⟩ := h
  simp at h2; obtain ⟨rfl, rfl⟩ := h2
  obtain ⟨alg, w, kek, n, k, sk, ha, hp, hs, hw, hk, hn, hmk, hc⟩ := kakwEncrypt_ok h1
  obtain ⟨i, hh, j, rfl, rfl, hi, hj⟩ := kwFunc_row hw hn
  obtain ⟨i', t, k', pk, e1, e2, e3, e4, hag⟩ := agreeKek_prim hk
  simp at e1 e2 e3; subst e1 e2 e3
  obtain ⟨kb, text, k1, k2, k3, k4⟩ := kwKeyWrap_prim hc
  obtain ⟨s, kb', _, e, _, rfl⟩ := symInit_ok hmk
  simp at e; subst e
  simp [Key.symK, dget_dset_same] at k1; subst k1
  cases hd : dget r.base.localAttrs (.cls Hdr.StaticKey) with
  | none => simp [getD, hd] at hp
  | some v =>
    simp only [getD, hd, Option.getD_some] at hs e4
    cases v <;> simp only [asKey, reduceCtorEq, Except.ok.injEq] at e4
    rename_i kind store
    subst e4
    refine ⟨i, hh, j, n, sk, kind, store, kek, text, ha, hi, hj, ?_, rfl, hag, k2, k3, k4⟩
    rcases hs with ⟨g1, g2⟩ | ⟨g1, _, g2, g3⟩
    · exact .inl ⟨g1, g2⟩
    · exact .inr ⟨g1, _, hd, g2, g3⟩

/-- The public key of the sender, in the header of the received recipient: as ephemeral key for ECDH-ES, as static key for ECDH-SS. -/
def Spec.SenderPublic (b : Base) (i : Int) (v : Val) : Prop :=
  (i ∈ [-29, -30, -31] ∧ b.getAttr Hdr.EphemeralKey = .ok v) ∨ (i ∈ [-32, -33, -34] ∧ b.getAttr Hdr.StaticKey = .ok v)

/-- C75: what such a recipient unwraps. -/
theorem c75_agreement_unwrap {C : Crypto} {r : Rcpt} {text : Bytes} (hc : r.cls = .keyAgreementWithKeyWrap) (h : rcptDecrypt C r = .ok text) :
    ∃ i hh j n mine kind store kek c, r.base.getAttr Hdr.Algorithm = .ok (algCls i) ∧ (i, hh, some j) ∈ Spec.agreeAlgs ∧
      (j, n) ∈ Spec.kwAlgs ∧ r.base.key = some mine ∧ Spec.SenderPublic r.base i (.key kind store) ∧
      Spec.Agreed C r.base i j mine { kind := kind, store := store } kek ∧ kek.length = n ∧
      r.base.payload = some c ∧ C.kwUnwrap kek c = .ok text := by
  obtain ⟨cls, b, ctx, oid, rs⟩ := r
  simp only [Rcpt.cls] at hc
  subst hc
  simp only [Rcpt.base]
  simp only [rcptDecrypt] at h
  have tail : ∀ {alg v : Val}, b.getAttr Hdr.Algorithm = .ok alg → (∀ i, alg = algCls i → Spec.SenderPublic b i v) → (do
      let w ← keyWrapFunc alg
      let kek ← agreeKek C b w v b.key alg
      let k ← mkSym (.bytes kek) alg [Op.Unwrap, Op.Decrypt]
      k.verify .sym alg [Op.Unwrap, Op.Decrypt]
      match algFam w with
      | some (.aesKw n) => kwKeyUnwrap C n k b.payload
      | _ => .error .attributeError : Res Bytes) = .ok text → ∃ i hh j n mine kind store kek c, b.getAttr Hdr.Algorithm = .ok (algCls i) ∧ (i, hh, some j) ∈ Spec.agreeAlgs ∧
      (j, n) ∈ Spec.kwAlgs ∧ b.key = some mine ∧ Spec.SenderPublic b i (.key kind store) ∧
      Spec.Agreed C b i j mine { kind := kind, store := store } kek ∧ kek.length = n ∧
      b.payload = some c ∧ C.kwUnwrap kek c = .ok text := by
    intro alg v ha hv h
    simp only [bind_eq_ok] at h
    obtain ⟨w, hw, kek, hk, k, hmk, _, _, h⟩ := h
    split at h
    · rename_i n hn
      obtain ⟨i, hh, j, rfl, rfl, hi, hj⟩ := kwFunc_row hw hn
      obtain ⟨i', t, k', pk, e1, e2, e3, e4, hag⟩ := agreeKek_prim hk
      simp at e1 e2; subst e1 e2
      obtain ⟨kb, c, k1, k2, k3, k4⟩ := kwKeyUnwrap_prim h
      obtain ⟨s, kb', _, e, _, rfl⟩ := symInit_ok hmk
      simp at e; subst e
      simp [Key.symK, dget_dset_same] at k1; subst k1
      cases v <;> simp only [asKey, reduceCtorEq, Except.ok.injEq] at e4
      rename_i kind store
      subst e4
      exact ⟨i, hh, j, n, k', kind, store, kek, c, ha, hi, hj, e3, hv i rfl, hag, k2, k3, k4⟩
    · simp at h
  unfold kakwDecrypt at h
  obtain ⟨alg, ha, h⟩ := bind_eq_ok.mp h
  obtain ⟨es, hes, h⟩ := bind_eq_ok.mp h
  obtain ⟨ss, hss, h⟩ := bind_eq_ok.mp h
  cases es
  · cases ss
    · simp at h
    · simp only [Bool.false_eq_true, if_false, if_true] at h
      obtain ⟨v, hv, h⟩ := bind_eq_ok.mp h
      refine tail ha ?_ h
      intro i e
      obtain ⟨j, hj, e'⟩ := inSet_true hss
      rw [e] at e'
      simp at e'; subst e'
      exact .inr ⟨hj, hv⟩
  · simp only [if_true] at h
    obtain ⟨v, hv, h⟩ := bind_eq_ok.mp h
    refine tail ha ?_ h
    intro i e
    obtain ⟨j, hj, e'⟩ := inSet_true hes
    rw [e] at e'
    simp at e'; subst e'
    exact .inl ⟨hj, hv⟩

/-! ### The hypotheses are met -/

/-- ES256, PS256 and EdDSA signatures are computed, and judged. -/
example : (∃ s, Sample.sign1.computeSignature toy [] none = .ok s ∧
      ({ Sample.sign1 with signature := .bytes s } : Sign1).verifySignature toy none = .ok true) ∧
    (∃ s, ({ base := Sample.baseWith (-37) Sample.rsaKey (some b!"hello") } : Sign1).computeSignature toy [3] none = .ok s) ∧
    (∃ s, ({ base := Sample.baseWith (-8) Sample.edKey (some b!"hello") } : Sign1).computeSignature toy [] none = .ok s) := by
  obtain ⟨s1, h1, h2⟩ := res_any (r := Sample.sign1.computeSignature toy [] none)
    (p := fun s => decide (({ Sample.sign1 with signature := .bytes s } : Sign1).verifySignature toy none = .ok true)) (by decide +kernel)
  obtain ⟨s2, h3, _⟩ := res_any (r := ({ base := Sample.baseWith (-37) Sample.rsaKey (some b!"hello") } : Sign1).computeSignature toy [3] none)
    (p := fun _ => true) (by decide +kernel)
  obtain ⟨s3, h4, _⟩ := res_any (r := ({ base := Sample.baseWith (-8) Sample.edKey (some b!"hello") } : Sign1).computeSignature toy [] none)
    (p := fun _ => true) (by decide +kernel)
  exact ⟨⟨s1, h1, by simpa using h2⟩, ⟨s2, h3⟩, ⟨s3, h4⟩⟩

/-- So are the signatures of the signers of a message. -/
example : ∀ b ∈ Sample.sign.signers, ∃ s, signerCompute toy [] Sample.sign.base b none = .ok s ∧
    signerVerify toy Sample.sign.base { b with payload := some s } none = .ok true := by
  intro b hb
  have key : ∀ b ∈ Sample.sign.signers, (match signerCompute toy [] Sample.sign.base b none with
      | .ok s => decide (signerVerify toy Sample.sign.base { b with payload := some s } none = .ok true) | .error _ => false) = true := by
    simp only [Sample.sign, List.forall_mem_cons]
    refine ⟨by decide +kernel, by decide +kernel, by simp⟩
  have := key b hb
  split at this
  · rename_i s h1
    exact ⟨s, h1, by simpa using this⟩
  · simp at this

/-- Encryption and decryption, with and without recipients. -/
example : (∃ c, Sample.enc0.encrypt toy = .ok c ∧
      ({ Sample.enc0 with base := { Sample.enc0.base with payload := some c } } : Enc0).decrypt toy = .ok b!"hello") ∧
    (∃ c m', Sample.encMix.encrypt toy Sample.rand = .ok (c, m')) := by
  obtain ⟨c, h1, h2⟩ := res_any (r := Sample.enc0.encrypt toy)
    (p := fun c => decide (({ Sample.enc0 with base := { Sample.enc0.base with payload := some c } } : Enc0).decrypt toy = .ok b!"hello"))
    (by decide +kernel)
  obtain ⟨⟨c', m'⟩, h, _⟩ := res_any (r := Sample.encMix.encrypt toy Sample.rand) (p := fun _ => true) (by decide +kernel)
  exact ⟨⟨c, h1, by simpa using h2⟩, c', m', h⟩

/-- The recipient `r` wraps a key, and the receiver with key `k`, who sees the headers as `received`, unwraps it. -/
def Sample.carries (r : Rcpt) (k : Key) (received : Base → Base := id) : Bool :=
  match rcptEncrypt toy Sample.rand 0 [] (r.withBase { r.base with payload := some (List.replicate 16 3) }) with
  | .ok (c, r') => decide (rcptDecrypt toy (r'.withBase { received r'.base with payload := some c, key := some k }) = .ok (List.replicate 16 3))
  | .error _ => false

example : Sample.carries (Sample.kwRcpt 1) Sample.symKey = true ∧ Sample.carries (Sample.oaepRcpt 1) Sample.rsaKey = true ∧
    Sample.carries (Sample.esRcpt 1) Sample.rcvPriv (fun b => { b with uhdr := [(.cls Hdr.PartyUID, .bytes b!"lighting-client"),
      (.cls Hdr.EphemeralKey, Sample.sndPub.toVal)] }) = true := by decide +kernel

end Cose
