import Verif.Props.Encodable
import Verif.Props.Recipients
/-!
# C82: exactly when a recipient wraps, unwraps or agrees on a key, and when messages with recipients are encoded, decrypted and verified
-/
set_option autoImplicit false
namespace Cose

/-- The recipient's own key is asked for its policy only under RSAES-OAEP. -/
def Spec.OaepPolicy (b : Base) (ops : List Cls) : Prop :=
  ∀ i h k, b.getAttr Hdr.Algorithm = .ok (algCls i) → (i, h) ∈ Spec.oaepAlgs → b.key = some k → Spec.Permits k .rsa (algCls i) ops

/-- The sender's private key in a key agreement with key wrap, and the recipient object `b1` that holds it: the key the caller has set, or,
with ECDH-ES only, a generated one. -/
def Spec.SenderHolds (C : Crypto) (d : Nat) (i : Int) (b b1 : Base) (mine : Key) : Prop :=
  (b.key = some mine ∧ b1 = b) ∨
  (b.key = none ∧ i ∈ [-29, -30, -31] ∧ ∃ v, dget b.localAttrs (.cls Hdr.StaticKey) = some v ∧ setupEphemeral C d b v = .ok b1 ∧
    b1.key = some mine)

/-- A symmetric key made by the library: key type, algorithm, the operations if any, and the bytes. -/
def Spec.MadeKey (alg : Int) (ops : List Cls) (kb : Bytes) : Key :=
  { kind := .sym
    store := [(.cls KpKty, .cls KtySym), (.cls KpAlg, algCls alg)] ++
      (match ops with
        | [] => []
        | _ => [(.cls KpKeyOps, .arr (ops.map .cls))]) ++ [(.cls SymK, .bytes kb)] }

theorem madeKey_eq {i : Int} {ops : List Cls} {kb : Bytes} :
    ({ kind := .sym, store := symStore (algCls i) ops kb } : Key) = Spec.MadeKey i ops kb := by
  cases ops <;> rfl

theorem kw_len : ∀ p ∈ Spec.kwAlgs, p.2 = 16 ∨ p.2 = 24 ∨ p.2 = 32 := by decide

theorem kwKeyWrap_iff {C : Crypto} {n : Nat} {k : Key} {data : Option Bytes} {c : Bytes} : kwKeyWrap C n k data = .ok c ↔
    ∃ kb text, k.symK = .ok (.bytes kb) ∧ kb.length = n ∧ data = some text ∧ C.kwWrap kb text = .ok c := by
  refine ⟨kwKeyWrap_prim, ?_⟩
  rintro ⟨kb, text, h1, h2, rfl, h4⟩
  simp [kwKeyWrap, h1, ok_bind, lenOf, h2, asBytes, h4]

theorem kwKeyUnwrap_iff {C : Crypto} {n : Nat} {k : Key} {data : Option Bytes} {c : Bytes} : kwKeyUnwrap C n k data = .ok c ↔
    ∃ kb text, k.symK = .ok (.bytes kb) ∧ kb.length = n ∧ data = some text ∧ C.kwUnwrap kb text = .ok c := by
  refine ⟨kwKeyUnwrap_prim, ?_⟩
  rintro ⟨kb, text, h1, h2, rfl, h4⟩
  simp [kwKeyUnwrap, h1, ok_bind, lenOf, h2, asBytes, h4]

theorem kw_inSet : ∀ p ∈ Spec.kwAlgs, inSet (algCls p.1) aesKws = .ok true := by decide
theorem oaep_inSet : ∀ p ∈ Spec.oaepAlgs, inSet (algCls p.1) aesKws = .ok false ∧ inSet (algCls p.1) oaeps = .ok true := by decide

theorem kwEncrypt_iff {C : Crypto} {salt : Bytes} {b : Base} {rs : List Rcpt} {c : Bytes} (hk : ∀ k, b.key = some k → Spec.PlainPolicy k) :
    kwEncrypt C salt b rs = .ok c ↔
      b.phdr = [] ∧ Spec.OaepPolicy b [Op.Wrap, Op.Encrypt] ∧ ∃ text, b.payload = some text ∧ Spec.WrapsTo C salt b text c := by
  constructor
  · intro h
    refine ⟨?_, ?_, kwEncrypt_prim h⟩
    · unfold kwEncrypt at h
      obtain ⟨alg, ha, h⟩ := bind_eq_ok.mp h
      split at h
      · simp at h
      · rename_i hl
        exact List.length_eq_zero_iff.mp (by simpa using hl)
    · intro i hh k ha hi hkk
      obtain ⟨e1, e2⟩ := oaep_inSet _ hi
      unfold kwEncrypt at h
      rw [ha, ok_bind] at h
      split at h
      · simp at h
      rw [if_neg (by simp)] at h
      simp only [e1, e2, ok_bind, Bool.false_eq_true, if_false, if_true, hkk] at h
      obtain ⟨u, hv, _⟩ := bind_eq_ok.mp h
      exact (verify_exact (hk k hkk)).mp hv
  · rintro ⟨hp, hpol, text, ht, hw⟩
    unfold kwEncrypt
    cases hw with
    | @aesKw i k kek n ha hi hkk hK hl h =>
      have hf := kw_row _ hi
      obtain ⟨nn, hreg⟩ := algReg_of hf
      have hm := mkSym_bytes (kb := kek) hreg wrapOps_reg (by rw [hl]; exact kw_len _ hi)
      have hv := permits_verify (symStore_permits (c := ⟨.alg, i⟩) (ops := [Op.Wrap, Op.Encrypt]) (use := [Op.Wrap, Op.Encrypt]) kek (.inr ⟨Op.Wrap, by simp, by simp⟩))
      rw [ha, ok_bind, hp]
      simp only [List.length_nil, ne_eq, not_true_eq_false, if_false, reduceCtorEq, kw_inSet _ hi, ok_bind, if_true, kwKekEncrypt, hkk, hK, hm, hv, hf]
      exact kwKeyWrap_iff.mpr ⟨kek, text, symStore_symK _ _ _, hl, ht, h⟩
    | @oaep i k hh n e ha hi hkk hn he h =>
      obtain ⟨e1, e2⟩ := oaep_inSet _ hi
      have hf := oaep_row _ hi
      have hv := permits_verify (hpol i hh k ha hi hkk)
      obtain ⟨v, hn1, hn2⟩ := hn
      obtain ⟨w, he1, he2⟩ := he
      rw [ha, ok_bind, hp]
      simp only [List.length_nil, ne_eq, not_true_eq_false, if_false, reduceCtorEq, e1, e2, ok_bind, Bool.false_eq_true, if_true, hkk, hv, hf,
        oaepKeyWrap, hn1, intFromBytes_iff.mpr hn2, he1, intFromBytes_iff.mpr he2, ht, h]

theorem kwDecrypt_iff {C : Crypto} {b : Base} {ctx : Bytes} {oid : Nat} {rs : List Rcpt} {text : Bytes} (hk : ∀ k, b.key = some k → Spec.PlainPolicy k) :
    rcptDecrypt C (.mk .keyWrap b ctx oid rs) = .ok text ↔
      Spec.OaepPolicy b [Op.Unwrap, Op.Decrypt] ∧ ∃ c, b.payload = some c ∧ Spec.UnwrapsTo C b c text := by
  constructor
  · intro h
    refine ⟨?_, c75_unwrap (r := .mk .keyWrap b ctx oid rs) rfl h⟩
    intro i hh k ha hi hkk
    obtain ⟨e1, e2⟩ := oaep_inSet _ hi
    simp only [rcptDecrypt, ha, ok_bind, e1, e2, Bool.false_eq_true, if_false, if_true, hkk] at h
    obtain ⟨u, hv, _⟩ := bind_eq_ok.mp h
    exact (verify_exact (hk k hkk)).mp hv
  · rintro ⟨hpol, c, ht, hw⟩
    cases hw with
    | @aesKw i k kek n ha hi hkk hK hl h =>
      have hf := kw_row _ hi
      obtain ⟨nn, hreg⟩ := algReg_of hf
      have hm := mkSym_bytes (kb := kek) hreg unwrapOps_reg (by rw [hl]; exact kw_len _ hi)
      have hv := permits_verify (symStore_permits (c := ⟨.alg, i⟩) (ops := [Op.Decrypt, Op.Unwrap]) (use := [Op.Unwrap, Op.Decrypt]) kek (.inr ⟨Op.Unwrap, by simp, by simp⟩))
      have hkek : kwKekDecrypt C (some k) rs = .ok (.bytes kek) := by cases rs <;> simp [kwKekDecrypt, hK]
      simp only [rcptDecrypt, ha, ok_bind, kw_inSet _ hi, if_true, hkk, hkek, hm, hv, hf]
      exact kwKeyUnwrap_iff.mpr ⟨kek, c, symStore_symK _ _ _, hl, ht, h⟩
    | @oaep i k hh r ha hi hkk hn h =>
      obtain ⟨e1, e2⟩ := oaep_inSet _ hi
      have hf := oaep_row _ hi
      have hv := permits_verify (hpol i hh k ha hi hkk)
      simp only [rcptDecrypt, ha, ok_bind, e1, e2, Bool.false_eq_true, if_false, if_true, hkk, hv, hf, oaepKeyUnwrap, rsaNums_iff.mpr hn, ht, h]

/-- C82: a recipient with AES key wrap or RSAES-OAEP wraps exactly if its protected header is empty, it has a key to wrap, its key has the
length (numbers) the algorithm needs and, for RSAES-OAEP, may wrap, and the primitive gives a result; nothing changes in the recipient. -/
theorem c82_wrap {C : Crypto} {R : Rand} {phase : Nat} {path : List Nat} {r r' : Rcpt} {c : Bytes} (hc : r.cls = .keyWrap)
    (hk : ∀ k, r.base.key = some k → Spec.PlainPolicy k) :
    rcptEncrypt C R phase path r = .ok (c, r') ↔
      r' = r ∧ r.base.phdr = [] ∧ Spec.OaepPolicy r.base [Op.Wrap, Op.Encrypt] ∧
      ∃ text, r.base.payload = some text ∧ Spec.WrapsTo C (R.salt phase path) r.base text c := by
  simp only [rcptEncrypt, hc, bind_eq_ok, kwEncrypt_iff hk, Except.ok.injEq, Prod.mk.injEq]
  constructor
  · rintro ⟨c', h, rfl, rfl⟩; exact ⟨rfl, h⟩
  · rintro ⟨rfl, h⟩; exact ⟨c, h, rfl, rfl⟩

/-- C82: it unwraps exactly under the same conditions on its key. -/
theorem c82_unwrap {C : Crypto} {r : Rcpt} {text : Bytes} (hc : r.cls = .keyWrap) (hk : ∀ k, r.base.key = some k → Spec.PlainPolicy k) :
    rcptDecrypt C r = .ok text ↔
      Spec.OaepPolicy r.base [Op.Unwrap, Op.Decrypt] ∧ ∃ c, r.base.payload = some c ∧ Spec.UnwrapsTo C r.base c text := by
  obtain ⟨cls, b, ctx, oid, rs⟩ := r
  simp only [Rcpt.cls] at hc
  subst hc
  exact kwDecrypt_iff hk

/-! ### Key agreement -/

theorem keyBits_length {t : Int} {bits : Nat} (h : Spec.keyBits t = some bits) : algKeyLength (algCls t) = .ok (bits / 8) := by
  have rows : ∀ j ∈ [(1 : Int), 10, 12, 30, 32, 14, 25, -3, -29, -32, 2, -4, -30, -33, 3, 11, 13, 31, 33, 15, 26, -5, -31, -34],
      (match Spec.keyBits j with
      | some b => decide (algKeyLength (algCls j) = .ok (b / 8))
      | none => false) = true := by decide +kernel
  have hm : t ∈ [(1 : Int), 10, 12, 30, 32, 14, 25, -3, -29, -32, 2, -4, -30, -33, 3, 11, 13, 31, 33, 15, 26, -5, -31, -34] := by
    unfold Spec.keyBits at h
    simp only [List.mem_cons, List.not_mem_nil, or_false] at h ⊢
    grind
  have := rows t hm
  rw [h] at this
  simpa using this

theorem agreeKek_iff {C : Crypto} {b : Base} {i t : Int} {kind : Kind} {store : Dict} {mine : Key} {kek : Bytes} :
    agreeKek C b (algCls t) (.key kind store) (some mine) (algCls i) = .ok kek ↔
      Spec.Agreed C b i t mine { kind := kind, store := store } kek := by
  constructor
  · intro h
    obtain ⟨i', t', k, pk, e1, e2, e3, e4, h⟩ := agreeKek_prim h
    simp at e1 e2 e3; subst e1 e2 e3
    simp [asKey] at e4; subst e4
    exact h
  · rintro ⟨h, w, c, d, x, y, secret, bits, ctx, info, h1, h2, h3, h4, h5, h6, h7, h8, h9, h10, h11, h12, rfl⟩
    have hf := agree_row _ h1
    have hd := intFromHex_iff.mpr ⟨d, rfl, h4, rfl⟩
    have hx := intFromHex_iff.mpr ⟨x, rfl, h6, rfl⟩
    have hy := intFromHex_iff.mpr ⟨y, rfl, h8, rfl⟩
    have hl : ctx.suppPub.keyDataLength = bits / 8 := by
      simp only [kdfContext, bind_eq_ok, Except.ok.injEq] at h10
      obtain ⟨_, _, _, _, _, _, _, _, _, _, _, _, n, hn, sp, hsp, rfl⟩ := h10
      simp only [SuppPubInfo.init, Except.ok.injEq] at hsp
      subst hsp
      rw [keyBits_length h12] at hn
      simpa using hn.symm
    simp only [agreeKek, hf, asKey, h2, h10, ok_bind, deriveKek, h3, hd, h5, hx, h7, hy, h9, h11, hl]

theorem agree_reg {i : Int} {h : HashId} {w : Option Int} (hi : (i, h, w) ∈ Spec.agreeAlgs) :
    ∃ n, ((⟨.alg, i⟩ : Cls), n) ∈ registry .alg := algReg_of (agree_row _ hi)

theorem kakwDecrypt_iff {C : Crypto} {b : Base} {text : Bytes} :
    kakwDecrypt C b = .ok text ↔
      ∃ i hh j n mine kind store kek c, b.getAttr Hdr.Algorithm = .ok (algCls i) ∧ (i, hh, some j) ∈ Spec.agreeAlgs ∧
      (j, n) ∈ Spec.kwAlgs ∧ b.key = some mine ∧ Spec.SenderPublic b i (.key kind store) ∧
      Spec.Agreed C b i j mine { kind := kind, store := store } kek ∧ kek.length = n ∧
      b.payload = some c ∧ C.kwUnwrap kek c = .ok text := by
  constructor
  · intro h
    exact c75_agreement_unwrap (r := .mk .keyAgreementWithKeyWrap b [] 0 []) rfl (by simpa only [rcptDecrypt] using h)
  · rintro ⟨i, hh, j, n, mine, kind, store, kek, c, ha, hi, hj, hk, hs, hag, hl, hc, hu⟩
    have hw : keyWrapFunc (algCls i) = .ok (algCls j) := by simp only [keyWrapFunc, agree_row _ hi]
    have hf := kw_row _ hj
    obtain ⟨nn, hreg⟩ := agree_reg hi
    have hm := mkSym_bytes (kb := kek) hreg unwrapOps_reg' (by rw [hl]; exact kw_len _ hj)
    have hv := permits_verify (symStore_permits (c := ⟨.alg, i⟩) (ops := [Op.Unwrap, Op.Decrypt]) (use := [Op.Unwrap, Op.Decrypt]) kek (.inr ⟨Op.Unwrap, by simp, by simp⟩))
    have hkek := agreeKek_iff.mpr hag
    have hu := kwKeyUnwrap_iff.mpr ⟨kek, c, symStore_symK (algCls i) [Op.Unwrap, Op.Decrypt] kek, hl, hc, hu⟩
    unfold kakwDecrypt
    rcases hs with ⟨hs, hp⟩ | ⟨hs, hp⟩
    · have e : inSet (algCls i) ecdhEsKw = .ok true ∧ inSet (algCls i) ecdhSsKw = .ok false := by
        have : ∀ i ∈ [(-29 : Int), -30, -31], inSet (algCls i) ecdhEsKw = .ok true ∧ inSet (algCls i) ecdhSsKw = .ok false := by decide
        exact this i hs
      simp only [ha, ok_bind, e.1, e.2, if_true, hp, hw, hk, hkek, hm, hv, hf, hu]
    · have e : inSet (algCls i) ecdhEsKw = .ok false ∧ inSet (algCls i) ecdhSsKw = .ok true := by
        have : ∀ i ∈ [(-32 : Int), -33, -34], inSet (algCls i) ecdhEsKw = .ok false ∧ inSet (algCls i) ecdhSsKw = .ok true := by decide
        exact this i hs
      simp only [ha, ok_bind, e.1, e.2, Bool.false_eq_true, if_false, if_true, hp, hw, hk, hkek, hm, hv, hf, hu]

/-- C82: a recipient with ECDH and key wrap unwraps exactly if the sender's public key is in the header its algorithm names, the agreement
with its own key gives a key of the length the key wrap algorithm needs, and the key wrap primitive accepts; no policy is asked. -/
theorem c82_agreement_unwrap {C : Crypto} {r : Rcpt} {text : Bytes} (hc : r.cls = .keyAgreementWithKeyWrap) :
    rcptDecrypt C r = .ok text ↔
      ∃ i hh j n mine kind store kek c, r.base.getAttr Hdr.Algorithm = .ok (algCls i) ∧ (i, hh, some j) ∈ Spec.agreeAlgs ∧
      (j, n) ∈ Spec.kwAlgs ∧ r.base.key = some mine ∧ Spec.SenderPublic r.base i (.key kind store) ∧
      Spec.Agreed C r.base i j mine { kind := kind, store := store } kek ∧ kek.length = n ∧
      r.base.payload = some c ∧ C.kwUnwrap kek c = .ok text := by
  obtain ⟨cls, b, ctx, oid, rs⟩ := r
  simp only [Rcpt.cls] at hc
  subst hc
  simp only [rcptDecrypt]
  exact kakwDecrypt_iff

theorem kakwEncrypt_iff {C : Crypto} {d : Nat} {b b1 : Base} {c : Bytes} :
    kakwEncrypt C d b = .ok (c, b1) ↔
      ∃ i hh j n mine kind store kek text, b.getAttr Hdr.Algorithm = .ok (algCls i) ∧ (i, hh, some j) ∈ Spec.agreeAlgs ∧
      (j, n) ∈ Spec.kwAlgs ∧ Spec.SenderHolds C d i b b1 mine ∧
      dget b.localAttrs (.cls Hdr.StaticKey) = some (.key kind store) ∧
      Spec.Agreed C b1 i j mine { kind := kind, store := store } kek ∧ kek.length = n ∧
      b1.payload = some text ∧ C.kwWrap kek text = .ok c := by
  constructor
  · intro h
    obtain ⟨alg, w, kek, n, k, sk, ha, hp, hs, hw, hk, hn, hmk, hc⟩ := kakwEncrypt_ok h
    obtain ⟨i, hh, j, rfl, rfl, hi, hj⟩ := kwFunc_row hw hn
    obtain ⟨i', t, k', pk, e1, e2, e3, e4, hag⟩ := agreeKek_prim hk
    simp at e1 e2 e3; subst e1 e2 e3
    obtain ⟨kb, text, k1, k2, k3, k4⟩ := kwKeyWrap_iff.mp hc
    obtain ⟨s, kb', _, e, _, rfl⟩ := symInit_ok hmk
    simp at e; subst e
    simp [Key.symK, dget_dset_same] at k1; subst k1
    cases hd : dget b.localAttrs (.cls Hdr.StaticKey) with
    | none => simp [getD, hd] at hp
    | some v =>
      simp only [getD, hd, Option.getD_some] at hs e4
      cases v <;> simp only [asKey, reduceCtorEq, Except.ok.injEq] at e4
      rename_i kind store
      subst e4
      refine ⟨i, hh, j, n, sk, kind, store, kek, text, ha, hi, hj, ?_, rfl, hag, k2, k3, k4⟩
      rcases hs with ⟨g1, g2⟩ | ⟨g1, g4, g2, g3⟩
      · exact .inl ⟨g1, g2⟩
      · obtain ⟨i', hi', e⟩ := inSet_true g4
        simp at e; subst e
        exact .inr ⟨g1, hi', _, hd, g2, g3⟩
  · rintro ⟨i, hh, j, n, mine, kind, store, kek, text, ha, hi, hj, hs, hd, hag, hl, hc, hu⟩
    have hw : keyWrapFunc (algCls i) = .ok (algCls j) := by simp only [keyWrapFunc, agree_row _ hi]
    have hf := kw_row _ hj
    obtain ⟨nn, hreg⟩ := agree_reg hi
    have hm := mkSym_bytes (kb := kek) hreg deriveOps_reg (by rw [hl]; exact kw_len _ hj)
    have hkek := agreeKek_iff.mpr hag
    have hu := kwKeyWrap_iff.mpr ⟨kek, text, symStore_symK (algCls i) [Op.DeriveKey] kek, hl, hc, hu⟩
    unfold kakwEncrypt
    simp only [getD, hd, Option.getD_some, reduceCtorEq, if_false, ha, ok_bind]
    rcases hs with ⟨h1, rfl⟩ | ⟨h1, h2, v, h3, h4, h5⟩
    · simp only [h1, ok_bind, hw, hkek, hf, hm, hu]
    · rw [hd] at h3; simp at h3; subst h3
      have e : inSet (algCls i) ecdhEsKw = .ok true := by
        have : ∀ i ∈ [(-29 : Int), -30, -31], inSet (algCls i) ecdhEsKw = .ok true := by decide
        exact this i h2
      simp only [h1, e, ok_bind, if_true, h4, h5, hw, hkek, hf, hm, hu]

/-- C82: it wraps exactly if its algorithm is one of ECDH with key wrap, the receiver's public key is among its local attributes, there is a
private key (set by the caller, or, for ECDH-ES, generated), the agreement gives a key of the right length, and there is a key to wrap. -/
theorem c82_agreement_wrap {C : Crypto} {R : Rand} {phase : Nat} {path : List Nat} {r r' : Rcpt} {c : Bytes}
    (hc : r.cls = .keyAgreementWithKeyWrap) :
    rcptEncrypt C R phase path r = .ok (c, r') ↔
      ∃ b1 i hh j n mine kind store kek text, r' = r.withBase b1 ∧ r.base.getAttr Hdr.Algorithm = .ok (algCls i) ∧
      (i, hh, some j) ∈ Spec.agreeAlgs ∧ (j, n) ∈ Spec.kwAlgs ∧ Spec.SenderHolds C (R.eph path) i r.base b1 mine ∧
      dget r.base.localAttrs (.cls Hdr.StaticKey) = some (.key kind store) ∧
      Spec.Agreed C b1 i j mine { kind := kind, store := store } kek ∧ kek.length = n ∧
      b1.payload = some text ∧ C.kwWrap kek text = .ok c := by
  simp only [rcptEncrypt, hc, bind_eq_ok]
  constructor
  · rintro ⟨⟨c', b1⟩, h1, h2⟩
    simp at h2; obtain ⟨rfl, rfl⟩ := h2
    obtain ⟨i, hh, j, n, mine, kind, store, kek, text, h⟩ := kakwEncrypt_iff.mp h1
    exact ⟨b1, i, hh, j, n, mine, kind, store, kek, text, rfl, h⟩
  · rintro ⟨b1, i, hh, j, n, mine, kind, store, kek, text, rfl, h⟩
    exact ⟨(c, b1), kakwEncrypt_iff.mpr ⟨i, hh, j, n, mine, kind, store, kek, text, h⟩, rfl⟩

theorem keyBits_reg {t : Int} {bits : Nat} (h : Spec.keyBits t = some bits) : ∃ n, ((⟨.alg, t⟩ : Cls), n) ∈ registry .alg := by
  have rows : ∀ j ∈ [(1 : Int), 10, 12, 30, 32, 14, 25, -3, -29, -32, 2, -4, -30, -33, 3, 11, 13, 31, 33, 15, 26, -5, -31, -34],
      ((registry .alg).map (·.1)).contains (⟨.alg, j⟩ : Cls) = true := by decide +kernel
  have hm : t ∈ [(1 : Int), 10, 12, 30, 32, 14, 25, -3, -29, -32, 2, -4, -30, -33, 3, 11, 13, 31, 33, 15, 26, -5, -31, -34] := by
    unfold Spec.keyBits at h
    simp only [List.mem_cons, List.not_mem_nil, or_false] at h ⊢
    grind
  have := rows t hm
  rw [List.contains_iff_mem] at this
  obtain ⟨⟨c, n⟩, h1, rfl⟩ := List.mem_map.mp this
  exact ⟨n, h1⟩

theorem hkdf_sets {i : Int} (hi : i ∈ [(-25 : Int), -26, -27, -28]) : inSet (algCls i) (ecdhEsHkdf ++ ecdhSsHkdf) = .ok true ∧
    inSet (algCls i) ecdhSsHkdf = .ok (decide (i ∈ [(-27 : Int), -28])) := by
  have : ∀ i ∈ [(-25 : Int), -26, -27, -28], inSet (algCls i) (ecdhEsHkdf ++ ecdhSsHkdf) = .ok true ∧
    inSet (algCls i) ecdhSsHkdf = .ok (decide (i ∈ [(-27 : Int), -28])) := by decide
  exact this i hi

/-- C82: on either side, a direct key agreement gives a content key exactly if the algorithm is one of ECDH with HKDF, both keys are EC2 keys
that may derive keys with it, and the agreement gives 16, 24 or 32 bytes; the key made of them is bound to the content algorithm. -/
theorem c82_direct_agreement {C : Crypto} {b : Base} {t : Int} {enc : Bool} {cek : Key} (hk : ∀ k, b.key = some k → Spec.PlainPolicy k)
    (hp : ∀ alg kind store, Spec.PeerIs b enc alg (.key kind store) → Spec.PlainPolicy { kind := kind, store := store }) :
    dkaComputeCek C b (algCls t) enc = .ok cek ↔
      ∃ i mine kind store kek, i ∈ [(-25 : Int), -26, -27, -28] ∧ b.getAttr Hdr.Algorithm = .ok (algCls i) ∧ b.key = some mine ∧
        Spec.PeerIs b enc (algCls i) (.key kind store) ∧
        Spec.Permits mine .ec2 (algCls i) [Op.DeriveKey, Op.DeriveBits] ∧
        Spec.Permits { kind := kind, store := store } .ec2 (algCls i) [Op.DeriveKey, Op.DeriveBits] ∧
        Spec.Agreed C b i t mine { kind := kind, store := store } kek ∧
        (kek.length = 16 ∨ kek.length = 24 ∨ kek.length = 32) ∧ cek = Spec.MadeKey t [] kek := by
  constructor
  · intro h
    obtain ⟨i, t', mine, kind, store, kek, ha, ht, hm, hpeer, hag, hK⟩ := c75_direct_agreement h
    simp at ht; subst ht
    have hi : i ∈ [(-25 : Int), -26, -27, -28] := by
      unfold dkaComputeCek at h
      rw [ha, ok_bind] at h
      obtain ⟨m, hm, h⟩ := bind_eq_ok.mp h
      cases m
      · simp at h
      obtain ⟨i', hi, e⟩ := inSet_true hm
      simp at e; subst e
      simpa [ecdhEsHkdf, ecdhSsHkdf] using hi
    obtain ⟨e1, e2⟩ := hkdf_sets hi
    have hv : (if enc then .ok (getD b.localAttrs Hdr.StaticKey .none)
        else if decide (i ∈ [(-27 : Int), -28]) then b.getAttr Hdr.StaticKey
        else b.getAttr Hdr.EphemeralKey : Res Val) = .ok (.key kind store) := by
      rcases hpeer with ⟨rfl, h'⟩ | ⟨rfl, h, h'⟩ | ⟨rfl, h, h'⟩
      · simp [getD, h']
      · have : i ∈ [(-27 : Int), -28] := by simpa [algCls] using h
        simp only [Bool.false_eq_true, if_false, this, decide_true, if_true, h']
      · have : i ∉ [(-27 : Int), -28] := by
          have : i ∈ [(-25 : Int), -26] := by simpa [algCls] using h
          simp at this
          rcases this with rfl | rfl <;> decide
        simp only [Bool.false_eq_true, if_false, this, decide_false, h']
    have hd : ∃ v kek, (if enc then .ok (getD b.localAttrs Hdr.StaticKey .none)
        else if decide (i ∈ [(-27 : Int), -28]) then b.getAttr Hdr.StaticKey
        else b.getAttr Hdr.EphemeralKey : Res Val) = .ok v ∧ ∃ pk, asKey v = .ok pk ∧
        pk.verify .ec2 (algCls i) [Op.DeriveKey, Op.DeriveBits] = .ok () ∧ mine.verify .ec2 (algCls i) [Op.DeriveKey, Op.DeriveBits] = .ok () ∧
        mkSym (.bytes kek) (algCls t) [] = .ok cek := by
      unfold dkaComputeCek at h
      rw [ha, ok_bind, e1, ok_bind, if_neg (by simp), e2, ok_bind] at h
      have tail : ∀ v : Val, (if v = .none then .error .coseException
          else do
            let pk ← asKey v
            pk.verify .ec2 (algCls i) [Op.DeriveKey, Op.DeriveBits]
            match b.key with
            | none => .error .attributeError
            | some k => do
              k.verify .ec2 (algCls i) [Op.DeriveKey, Op.DeriveBits]
              let kek ← agreeKek C b (algCls t) v (some k) (algCls i)
              mkSym (.bytes kek) (algCls t) [] : Res Key) = .ok cek → ∃ kek pk, asKey v = .ok pk ∧
        pk.verify .ec2 (algCls i) [Op.DeriveKey, Op.DeriveBits] = .ok () ∧ mine.verify .ec2 (algCls i) [Op.DeriveKey, Op.DeriveBits] = .ok () ∧
        mkSym (.bytes kek) (algCls t) [] = .ok cek := by
        intro v h
        split at h
        · simp at h
        · rw [hm] at h
          simp only [bind_eq_ok] at h
          obtain ⟨pk, h1, _, h2, _, h3, kek, _, h4⟩ := h
          exact ⟨kek, pk, h1, h2, h3, h4⟩
      cases enc
      · by_cases hs : i ∈ [(-27 : Int), -28]
        · simp only [hs, decide_true, Bool.false_eq_true, if_false, if_true] at h ⊢
          obtain ⟨v, hv, h⟩ := bind_eq_ok.mp h
          obtain ⟨kek, h⟩ := tail v h
          exact ⟨v, kek, hv, h⟩
        · simp only [hs, decide_false, Bool.false_eq_true, if_false] at h ⊢
          obtain ⟨v, hv, h⟩ := bind_eq_ok.mp h
          obtain ⟨kek, h⟩ := tail v h
          exact ⟨v, kek, hv, h⟩
      · simp only [if_true, ok_bind] at h ⊢
        obtain ⟨kek, h⟩ := tail _ h
        exact ⟨_, kek, rfl, h⟩
    obtain ⟨v, kek', hv', pk, hpk, v1, v2, hmk⟩ := hd
    rw [hv] at hv'; simp at hv'; subst hv'
    simp [asKey] at hpk; subst hpk
    have hbits := hag
    obtain ⟨_, _, _, _, _, _, _, bits, _, _, _, _, _, _, _, _, _, _, _, _, _, hb, _⟩ := hbits
    obtain ⟨nn, hreg⟩ := keyBits_reg hb
    obtain ⟨kb, e, hl, rfl⟩ := mkSym_ok hreg (by simp) hmk
    simp at e; subst e
    rw [symStore_symK] at hK
    simp at hK; subst hK
    exact ⟨i, mine, kind, store, kek', hi, ha, hm, hpeer, (verify_exact (hk mine hm)).mp v2, (verify_exact (hp _ _ _ hpeer)).mp v1, hag, hl, madeKey_eq⟩
  · rintro ⟨i, mine, kind, store, kek, hi, ha, hm, hpeer, p1, p2, hag, hl, rfl⟩
    obtain ⟨e1, e2⟩ := hkdf_sets hi
    have hkek := agreeKek_iff.mpr hag
    obtain ⟨_, _, _, _, _, _, _, bits, _, _, _, _, _, _, _, _, _, _, _, _, _, hb, _⟩ := hag
    obtain ⟨nn, hreg⟩ := keyBits_reg hb
    have hmk := mkSym_bytes (ops := []) hreg (by simp) hl
    rw [← madeKey_eq]
    unfold dkaComputeCek
    rw [ha, ok_bind, e1, ok_bind, if_neg (by simp), e2, ok_bind]
    rcases hpeer with ⟨rfl, h⟩ | ⟨rfl, h, h'⟩ | ⟨rfl, h, h'⟩
    · simp only [if_true, ok_bind, getD, h, Option.getD_some, reduceCtorEq, if_false, asKey, permits_verify p1, permits_verify p2, hm, hkek]
      exact hmk
    · have : i ∈ [(-27 : Int), -28] := by simpa [algCls] using h
      simp only [Bool.false_eq_true, if_false, this, decide_true, if_true, h', ok_bind, reduceCtorEq, asKey, permits_verify p1, permits_verify p2, hm, hkek]
      exact hmk
    · have : i ∉ [(-27 : Int), -28] := by
        have : i ∈ [(-25 : Int), -26] := by simpa [algCls] using h
        simp at this
        rcases this with rfl | rfl <;> decide
      simp only [Bool.false_eq_true, if_false, this, decide_false, h', ok_bind, reduceCtorEq, asKey, permits_verify p1, permits_verify p2, hm, hkek]
      exact hmk

/-! ### Verification and decryption of messages -/

/-- `b` has an algorithm and a key that may verify with it, and `v` is what the primitive says of the bytes `tbs` and the signature `s`. -/
def Spec.Judges (C : Crypto) (b : Base) (tbs : Res Bytes) (s : Bytes) (v : Bool) : Prop :=
  ∃ i k data, b.getAttr Hdr.Algorithm = .ok (algCls i) ∧ b.key = some k ∧ k.kind ≠ .sym ∧ Spec.Permits k k.kind (algCls i) [Op.Verify] ∧
    tbs = .ok data ∧ Spec.Verdict C i k data s v

theorem judges_iff {C : Crypto} {b : Base} {tbs : Res Bytes} {s : Bytes} {v : Bool} (hk : ∀ k, b.key = some k → Spec.PlainPolicy k) :
    verifySignature C b tbs (.bytes s) = .ok v ↔ Spec.Judges C b tbs s v := by
  constructor
  · intro h
    simp only [verifySignature, bind_eq_ok] at h
    obtain ⟨alg, ha, k, hv, f, hf, data, hd, h⟩ := h
    obtain ⟨i, rfl, hs⟩ := verify_iff.mp ⟨f, hf, h⟩
    have hb := (keyVerification_inv hv).1
    have : k.kind ≠ .sym ∧ k.verify k.kind (algCls i) [Op.Verify] = .ok () := by
      unfold keyVerification at hv
      rw [hb] at hv
      cases hkd : k.kind <;> simp only [hkd, bind_eq_ok, reduceCtorEq] at hv
      all_goals exact ⟨by simp, hv.choose_spec.1⟩
    exact ⟨i, k, data, ha, hb, this.1, (verify_exact (hk k hb)).mp this.2, hd, hs⟩
  · rintro ⟨i, k, data, h1, h2, h3, h4, h5, h6⟩
    exact verify_accepts h1 h2 h3 h4 h5 h6

/-- C82: `verify_signature` of a COSE_Sign1 message answers `v` exactly if the key may verify and the primitive says `v`. -/
theorem c82_sign1_verify {C : Crypto} {m : Sign1} {det : Option Bytes} {s : Bytes} {v : Bool} (hs : m.signature = .bytes s)
    (hk : ∀ k, m.base.key = some k → Spec.PlainPolicy k) :
    m.verifySignature C det = .ok v ↔ Spec.Judges C m.base (m.sigStructure det) s v := by
  unfold Sign1.verifySignature
  rw [hs]
  exact judges_iff hk

/-- C82: the same for a signer of a COSE_Sign message. -/
theorem c82_signer_verify {C : Crypto} {p b : Base} {det : Option Bytes} {s : Bytes} {v : Bool} (hs : b.payload = some s)
    (hk : ∀ k, b.key = some k → Spec.PlainPolicy k) :
    signerVerify C p b det = .ok v ↔ Spec.Judges C b (signerStructure p b det) s v := by
  unfold signerVerify
  rw [hs]
  exact judges_iff hk

/-- The key of `b` may verify tags, and `t` is the tag that the registered algorithm gives for the bytes to be authenticated. -/
def Spec.Retags (C : Crypto) (ctx : Bytes) (b : Base) (t : Bytes) : Prop :=
  ∃ i k kb data, b.getAttr Hdr.Algorithm = .ok (algCls i) ∧ b.key = some k ∧ Spec.Permits k .sym (algCls i) [Op.MacVerify] ∧
    k.symK = .ok (.bytes kb) ∧ Cose.macStructure ctx b = .ok data ∧ Spec.MacTag C i kb data t

theorem retags_iff {C : Crypto} (L : C.Laws) {ctx : Bytes} {b : Base} {tag : Val} {v : Bool} (hk : ∀ k, b.key = some k → Spec.PlainPolicy k) :
    macVerify C ctx b tag = .ok v ↔ ∃ t, Spec.Retags C ctx b t ∧ (v = true ↔ tag = .bytes t) := by
  constructor
  · intro h
    simp only [macVerify, bind_eq_ok] at h
    obtain ⟨alg, ha, h⟩ := h
    split at h
    · simp at h
    · rename_i k hkk
      simp only [bind_eq_ok, callVerifyTag, Except.ok.injEq] at h
      obtain ⟨_, hv, f, hf, data, hd, t, ht, rfl⟩ := h
      obtain ⟨i, kb, rfl, h1, h2⟩ := callTag_spec L (macStructure_ne hd) hf ht
      exact ⟨t, ⟨i, k, kb, data, ha, hkk, (verify_exact (hk k hkk)).mp hv, h1, hd, h2⟩, beq_iff_eq⟩
  · rintro ⟨t, ⟨i, k, kb, data, ha, hkk, hv, h1, hd, h2⟩, hi⟩
    obtain ⟨f, hf, ht⟩ := callTag_accepts L (macStructure_ne hd) h1 h2
    simp only [macVerify, ha, ok_bind, hkk, permits_verify hv, hf, hd, callVerifyTag, ht, Except.ok.injEq]
    rw [Bool.eq_iff_iff, hi, beq_iff_eq]

/-- C82: `verify_tag` answers exactly if the key may verify tags and the algorithm gives a tag; the answer is whether it is the tag in the message. -/
theorem c82_mac0_verify {C : Crypto} (L : C.Laws) {m : Mac0} {v : Bool} (hk : ∀ k, m.base.key = some k → Spec.PlainPolicy k) :
    m.verifyTag C = .ok v ↔ ∃ t, Spec.Retags C b!"MAC0" m.base t ∧ (v = true ↔ m.authTag = .bytes t) := retags_iff L hk

theorem c82_mac_verify {C : Crypto} (L : C.Laws) {m : Mac} {v : Bool} (hk : ∀ k, m.base.key = some k → Spec.PlainPolicy k) :
    m.verifyTag C = .ok v ↔ ∃ t, Spec.Retags C b!"MAC" m.base t ∧ (v = true ↔ m.authTag = .bytes t) := retags_iff L hk

theorem opens_iff {C : Crypto} {ctx : Bytes} {b : Base} {p : Bytes} (hk : ∀ k, b.key = some k → Spec.PlainPolicy k) :
    encDecrypt C ctx b = .ok p ↔ ∃ a key nonce aad c, Spec.Sealing ctx b a key nonce aad c ∧ Spec.PolicyPermits b [Op.Decrypt] ∧
      C.aeadDec a key nonce aad c = .ok p := by
  constructor
  · intro h
    obtain ⟨i, a, k, kb, n, aad, c, h1, h2, h3, h4, h5, h6, h7, h8⟩ := aead_dec_prim h
    have hv : k.verify .sym (algCls i) [Op.Decrypt] = .ok () := by
      simp only [encDecrypt, h3, h1, h5, ok_bind, bind_eq_ok] at h
      exact h.choose_spec.1
    exact ⟨a, kb, n, aad, c, ⟨⟨i, h1, h2⟩, ⟨k, h3, h4⟩, h5, h6, h7⟩, ⟨k, _, h3, h1, (verify_exact (hk k h3)).mp hv⟩, h8⟩
  · rintro ⟨a, key, nonce, aad, c, ⟨⟨i, ha, hm⟩, ⟨k, hkk, hK⟩, h1, h2, h3⟩, ⟨k', alg, hk', ha', hp⟩, h⟩
    rw [hkk] at hk'; simp at hk'; subst hk'
    rw [ha] at ha'; simp at ha'; subst ha'
    rw [aead_dec_accepts ha hm hkk hp hK h1 h2 h3, h]

/-- C82: a COSE_Encrypt0 message is decrypted exactly if its key may decrypt with the algorithm in the header, there are a nonce and a
ciphertext, and the cipher gives a plaintext. -/
theorem c82_enc0_decrypt {C : Crypto} {m : Enc0} {p : Bytes} (hk : ∀ k, m.base.key = some k → Spec.PlainPolicy k) :
    m.decrypt C = .ok p ↔ ∃ a key nonce aad c, Spec.Sealing b!"Encrypt0" m.base a key nonce aad c ∧
      Spec.PolicyPermits m.base [Op.Decrypt] ∧ C.aeadDec a key nonce aad c = .ok p := opens_iff hk

/-! ### COSE_Encrypt: decryption -/

theorem types_direct {rs : List Rcpt} (h : ∀ r ∈ rs, r.cls = .directEncryption) (hne : rs ≠ []) :
    verifyRecipients rs = .ok (rs.map Rcpt.cls) ∧ (rs.map Rcpt.cls).contains .directEncryption = true := by
  constructor
  · refine verifyRecipients_iff.mpr ⟨rfl, fun _ => h, ?_⟩
    rintro ⟨r, hr, e⟩
    rw [h r hr] at e; simp at e
  · cases rs with
    | nil => simp at hne
    | cons r t => simp [h r (by simp)]

/-- C82: with direct encryption, a COSE_Encrypt message is decrypted exactly as COSE_Encrypt0 is, with the key set on the message. -/
theorem c82_enc_decrypt_direct {C : Crypto} {m m' : Enc} {r : Rcpt} {p : Bytes} (hr : r ∈ m.recipients)
    (hd : ∀ r ∈ m.recipients, r.cls = .directEncryption) (hk : ∀ k, m.base.key = some k → Spec.PlainPolicy k) :
    m.decrypt C r = .ok (p, m') ↔ m' = m ∧ ∃ a key nonce aad c, Spec.Sealing b!"Encrypt" m.base a key nonce aad c ∧
      Spec.PolicyPermits m.base [Op.Decrypt] ∧ C.aeadDec a key nonce aad c = .ok p := by
  obtain ⟨h1, h2⟩ := types_direct hd (by rintro h; simp [h] at hr)
  have h3 := hasRecipient_mem hr
  rw [← opens_iff hk]
  constructor
  · intro h
    simp only [Enc.decrypt, bind_eq_ok] at h
    obtain ⟨alg, _, h⟩ := h
    rw [h3, if_neg (by simp), h1, ok_bind, if_pos h2] at h
    simp only [bind_eq_ok, Except.ok.injEq, Prod.mk.injEq] at h
    obtain ⟨p', h, rfl, rfl⟩ := h
    exact ⟨rfl, h⟩
  · rintro ⟨rfl, h⟩
    have ha : ∃ alg, m'.base.getAttr Hdr.Algorithm = .ok alg := by
      obtain ⟨i, a, k, kb, n, aad, c, h1, _⟩ := aead_dec_prim h
      exact ⟨_, h1⟩
    obtain ⟨alg, ha⟩ := ha
    simp only [Enc.decrypt, ha, ok_bind, h3, Bool.true_eq_false, if_false, h1, if_pos h2, h]

/-- The recipient `r` recovers the wrapped content key `text`. -/
def Spec.Recovers (C : Crypto) (r : Rcpt) (text : Bytes) : Prop :=
  (r.cls = .keyWrap ∧ Spec.OaepPolicy r.base [Op.Unwrap, Op.Decrypt] ∧ ∃ c, r.base.payload = some c ∧ Spec.UnwrapsTo C r.base c text) ∨
  (r.cls = .keyAgreementWithKeyWrap ∧ ∃ i hh j n mine kind store kek c, r.base.getAttr Hdr.Algorithm = .ok (algCls i) ∧
    (i, hh, some j) ∈ Spec.agreeAlgs ∧ (j, n) ∈ Spec.kwAlgs ∧ r.base.key = some mine ∧ Spec.SenderPublic r.base i (.key kind store) ∧
    Spec.Agreed C r.base i j mine { kind := kind, store := store } kek ∧ kek.length = n ∧
    r.base.payload = some c ∧ C.kwUnwrap kek c = .ok text)

theorem recovers_iff {C : Crypto} {r : Rcpt} {text : Bytes} (hw : r.cls = .keyWrap ∨ r.cls = .keyAgreementWithKeyWrap)
    (hk : ∀ k, r.base.key = some k → Spec.PlainPolicy k) : rcptDecrypt C r = .ok text ↔ Spec.Recovers C r text := by
  rcases hw with h | h
  · rw [c82_unwrap h hk]
    simp only [Spec.Recovers, h, true_and, reduceCtorEq, false_and, or_false]
  · rw [c82_agreement_unwrap h]
    simp only [Spec.Recovers, h, true_and, reduceCtorEq, false_and, false_or]

/-- `m` with another key. -/
def Spec.WithKey (m : Enc) (k : Key) : Enc := { m with base := { m.base with key := some k } }

theorem aead_reg {i : Int} {a : Aead} (h : (i, a) ∈ Spec.aeadAlgs) : ∃ n, ((⟨.alg, i⟩ : Cls), n) ∈ registry .alg := by
  have := aead_row _ h
  simp only [encMethod] at this
  split at this <;> simp at this
  rename_i hf
  exact algReg_of hf

theorem opensMade_iff {C : Crypto} {b : Base} {p : Bytes} {ops : List Cls} (ho : ops = [] ∨ Op.Decrypt ∈ ops) {t : Int} {text : Bytes}
    (ha : b.getAttr Hdr.Algorithm = .ok (algCls t)) :
    encDecrypt C b!"Encrypt" { b with key := some (Spec.MadeKey t ops text) } = .ok p ↔
      ∃ a nonce aad c, Spec.Sealing b!"Encrypt" { b with key := some (Spec.MadeKey t ops text) } a text nonce aad c ∧
        C.aeadDec a text nonce aad c = .ok p := by
  have hK : (Spec.MadeKey t ops text).symK = .ok (.bytes text) := by rw [← madeKey_eq]; exact symStore_symK _ _ _
  constructor
  · intro h
    obtain ⟨i, a, k, kb, n, aad, c, h1, h2, h3, h4, h5, h6, h7, h8⟩ := aead_dec_prim h
    simp only [Option.some.injEq] at h3
    subst h3
    rw [hK] at h4; simp at h4; subst h4
    exact ⟨a, n, aad, c, ⟨⟨i, h1, h2⟩, ⟨_, rfl, hK⟩, h5, h6, h7⟩, h8⟩
  · rintro ⟨a, nonce, aad, c, ⟨⟨i, h1, h2⟩, _, h3, h4, h5⟩, h6⟩
    have h1' : b.getAttr Hdr.Algorithm = .ok (algCls i) := h1
    rw [ha] at h1'; simp at h1'; subst h1'
    have hp : Spec.Permits (Spec.MadeKey t ops text) .sym (algCls t) [Op.Decrypt] := by
      rw [← madeKey_eq]
      exact symStore_permits (c := ⟨.alg, t⟩) text (ho.imp id fun h => ⟨Op.Decrypt, by simp, h⟩)
    rw [aead_dec_accepts h1 h2 rfl hp hK h3 h4 h5, h6]

/-- C82: with recipients that wrap the content key, a COSE_Encrypt message is decrypted with one of them exactly if that recipient recovers a
key of 16, 24 or 32 bytes and the cipher gives a plaintext under it; the message then holds that key, bound to the content algorithm and to decryption. -/
theorem c82_enc_decrypt_wrapped {C : Crypto} {m m' : Enc} {r : Rcpt} {p : Bytes} {t : Int} (hr : r ∈ m.recipients)
    (ha : m.base.getAttr Hdr.Algorithm = .ok (algCls t)) (ht : t ∈ Spec.aeadAlgs.map (·.1))
    (hd : ∀ r ∈ m.recipients, r.cls = .keyWrap ∨ r.cls = .keyAgreementWithKeyWrap) (hk : ∀ k, r.base.key = some k → Spec.PlainPolicy k) :
    m.decrypt C r = .ok (p, m') ↔ ∃ text, Spec.Recovers C r text ∧ (text.length = 16 ∨ text.length = 24 ∨ text.length = 32) ∧
      m' = Spec.WithKey m (Spec.MadeKey t [Op.Decrypt] text) ∧
      ∃ a nonce aad c, Spec.Sealing b!"Encrypt" m'.base a text nonce aad c ∧ C.aeadDec a text nonce aad c = .ok p := by
  have hc := hd r hr
  have h1 : verifyRecipients m.recipients = .ok (m.recipients.map Rcpt.cls) := by
    refine verifyRecipients_iff.mpr ⟨rfl, ?_, ?_⟩ <;> rintro ⟨s, hs, e⟩ <;> have := hd s hs <;> simp [e] at this
  have h2 : ¬ ((m.recipients.map Rcpt.cls).contains .directEncryption = true) := by
    simp only [List.contains_iff_mem, List.mem_map]
    rintro ⟨s, hs, e⟩
    have := hd s hs; simp [e] at this
  have h4 : (m.recipients.map Rcpt.cls).contains .directKeyAgreement = true ∨ (m.recipients.map Rcpt.cls).contains .keyWrap = true ∨
        (m.recipients.map Rcpt.cls).contains .keyAgreementWithKeyWrap = true := by
    simp only [List.contains_iff_mem, List.mem_map]
    rcases hc with h | h
    · exact .inr (.inl ⟨r, hr, h⟩)
    · exact .inr (.inr ⟨r, hr, h⟩)
  have h3 := hasRecipient_mem hr
  obtain ⟨⟨t', a'⟩, hm, rfl⟩ := List.mem_map.mp ht
  obtain ⟨nn, hreg⟩ := aead_reg hm
  have hops : ∀ o ∈ [Op.Decrypt], ∃ n, (o, n) ∈ registry .op := fun o ho => opReg o (by simp at ho; subst ho; decide)
  have hcek : ∀ k, rcptComputeCek C r (algCls t') = .ok k ↔
      ∃ text, rcptDecrypt C r = .ok text ∧ mkSym (.bytes text) (algCls t') [Op.Decrypt] = .ok k := by
    intro k
    rcases hc with h | h <;> simp only [rcptComputeCek, h, bind_eq_ok]
  constructor
  · intro h
    simp only [Enc.decrypt, ha, ok_bind] at h
    rw [h3, if_neg (by simp), h1, ok_bind, if_neg h2, if_pos h4] at h
    simp only [bind_eq_ok, Except.ok.injEq, Prod.mk.injEq] at h
    obtain ⟨k, hcc, p', h, rfl, rfl⟩ := h
    obtain ⟨text, hdec, hmk⟩ := (hcek k).mp hcc
    obtain ⟨kb, e, hl, rfl⟩ := mkSym_ok hreg hops hmk
    simp at e; subst e
    rw [show ({ kind := .sym, store := symStore (.cls ⟨.alg, t'⟩) [Op.Decrypt] text } : Key) = Spec.MadeKey t' [Op.Decrypt] text from madeKey_eq] at h ⊢
    exact ⟨text, (recovers_iff hc hk).mp hdec, hl, rfl, (opensMade_iff (.inr (by simp)) ha).mp h⟩
  · rintro ⟨text, hrec, hl, rfl, h⟩
    have hdec := (recovers_iff hc hk).mpr hrec
    have hmk := mkSym_bytes hreg hops hl
    have hcc := (hcek _).mpr ⟨text, hdec, hmk⟩
    have h := (opensMade_iff (.inr (by simp)) ha).mpr h
    rw [← madeKey_eq] at h
    simp only [Enc.decrypt, ha, ok_bind]
    rw [h3, if_neg (by simp), h1, ok_bind, if_neg h2, if_pos h4, hcc, ok_bind]
    simp only [Spec.WithKey, ← madeKey_eq]
    rw [show (Val.cls ⟨.alg, t'⟩) = algCls t' from rfl, h]
    rfl

/-- C82: with one recipient with direct key agreement, exactly if the agreement gives a key and the cipher gives a plaintext under it. -/
theorem c82_enc_decrypt_agreed {C : Crypto} {m m' : Enc} {r : Rcpt} {p : Bytes} {t : Int} (hr : m.recipients = [r])
    (ha : m.base.getAttr Hdr.Algorithm = .ok (algCls t)) (hd : r.cls = .directKeyAgreement) (hk : ∀ k, r.base.key = some k → Spec.PlainPolicy k)
    (hp : ∀ alg kind store, Spec.PeerIs r.base false alg (.key kind store) → Spec.PlainPolicy { kind := kind, store := store }) :
    m.decrypt C r = .ok (p, m') ↔
      ∃ i mine kind store kek, i ∈ [(-25 : Int), -26, -27, -28] ∧ r.base.getAttr Hdr.Algorithm = .ok (algCls i) ∧ r.base.key = some mine ∧
        Spec.PeerIs r.base false (algCls i) (.key kind store) ∧
        Spec.Permits mine .ec2 (algCls i) [Op.DeriveKey, Op.DeriveBits] ∧
        Spec.Permits { kind := kind, store := store } .ec2 (algCls i) [Op.DeriveKey, Op.DeriveBits] ∧
        Spec.Agreed C r.base i t mine { kind := kind, store := store } kek ∧
        (kek.length = 16 ∨ kek.length = 24 ∨ kek.length = 32) ∧ m' = Spec.WithKey m (Spec.MadeKey t [] kek) ∧
        ∃ a nonce aad c, Spec.Sealing b!"Encrypt" m'.base a kek nonce aad c ∧ C.aeadDec a kek nonce aad c = .ok p := by
  have h1 : verifyRecipients m.recipients = .ok [.directKeyAgreement] := by
    rw [hr]
    refine verifyRecipients_iff.mpr ⟨by simp [hd], ?_, ?_⟩ <;> simp [hd]
  have h3 : hasRecipient r.oid m.recipients = true := hasRecipient_mem (by simp [hr])
  have hcek : rcptComputeCek C r (algCls t) = dkaComputeCek C r.base (algCls t) false := by simp only [rcptComputeCek, hd]
  constructor
  · intro h
    simp only [Enc.decrypt, ha, ok_bind] at h
    rw [h3, if_neg (by simp), h1, ok_bind, if_neg (by decide), if_pos (by decide), hcek] at h
    simp only [bind_eq_ok, Except.ok.injEq, Prod.mk.injEq] at h
    obtain ⟨k, hcc, p', h, rfl, rfl⟩ := h
    obtain ⟨i, mine, kind, store, kek, g1, g2, g3, g4, g5, g6, g7, g8, rfl⟩ := (c82_direct_agreement hk hp).mp hcc
    exact ⟨i, mine, kind, store, kek, g1, g2, g3, g4, g5, g6, g7, g8, rfl, (opensMade_iff (.inl rfl) ha).mp h⟩
  · rintro ⟨i, mine, kind, store, kek, g1, g2, g3, g4, g5, g6, g7, g8, rfl, h⟩
    have hcc := (c82_direct_agreement (t := t) (C := C) hk hp).mpr ⟨i, mine, kind, store, kek, g1, g2, g3, g4, g5, g6, g7, g8, rfl⟩
    have h := (opensMade_iff (.inl rfl) ha).mpr h
    simp only [Enc.decrypt, ha, ok_bind]
    rw [h3, if_neg (by simp), h1, ok_bind, if_neg (by decide), if_pos (by decide), hcek, hcc, ok_bind]
    simp only [Spec.WithKey]
    rw [h]
    rfl

/-! ### COSE_Encrypt and COSE_Mac: encoding -/

/-- What is written for a recipient, in a message that writes the classes `cl`: its protected and unprotected header and its ciphertext. -/
def Spec.RcptWritable (cl : Cls → Prop) (b : Base) (c : Bytes) : Prop :=
  Spec.ShortProtected b ∧ Spec.Writable cl true (.map b.uhdr) ∧ c.length < 2 ^ 64

theorem rcptsEncode_ex {C : Crypto} {R : Rand} {cl : Cls → Prop} : ∀ {rs : List Rcpt} {i : Nat} (_ : ∀ r ∈ rs, r.recipients = []),
    (∃ vs rs', rcptsEncode C R [] i rs = .ok (vs, rs') ∧ vs.length = rs.length ∧ Spec.WritableL cl true vs) ↔
      ∀ j r, rs[j]? = some r → ∃ h b', rcptHead C R [i + j] r = .ok (h, b') ∧ Spec.Writable cl true (.arr h)
  | [], i, _ => by simp [rcptsEncode, Spec.WritableL]
  | .mk cls b ctx oid [] :: t, i, hf => by
    have ih := rcptsEncode_ex (C := C) (R := R) (cl := cl) (rs := t) (i := i + 1) fun r hr => hf r (List.mem_cons_of_mem _ hr)
    simp only [rcptsEncode, rcptEncode, List.nil_append, bind_eq_ok, List.isEmpty_nil, if_true, Except.ok.injEq, Prod.mk.injEq]
    constructor
    · rintro ⟨vs, rs', ⟨⟨v, r'⟩, ⟨⟨h, b'⟩, h1, e⟩, ⟨vs', t'⟩, h2, rfl, rfl⟩, hl, hw⟩
      simp only [Prod.mk.injEq] at e h2 hl hw
      obtain ⟨rfl, rfl⟩ := e
      simp only [Spec.WritableL] at hw
      have h3 := ih.mp ⟨vs', t', h2, by simpa using hl, hw.2⟩
      intro j r hj
      cases j with
      | zero => simp at hj; subst hj; exact ⟨h, b', h1, hw.1⟩
      | succ j =>
        have := h3 j r (by simpa using hj)
        rwa [show i + 1 + j = i + (j + 1) by omega] at this
    · intro h
      obtain ⟨hd, b', h1, hw⟩ := h 0 _ rfl
      obtain ⟨vs', t', h2, hl, hw'⟩ := ih.mpr fun j r hj => by
        have := h (j + 1) r (by simpa using hj)
        rwa [show i + (j + 1) = i + 1 + j by omega] at this
      refine ⟨.arr hd :: vs', .mk cls b' ctx oid [] :: t', ⟨(.arr hd, .mk cls b' ctx oid []), ⟨(hd, b'), h1, rfl⟩, (vs', t'), h2, rfl, rfl⟩,
        by simpa using hl, hw, hw'⟩
  | .mk cls b ctx oid (n :: ns) :: t, i, hf => by
    have := hf _ (List.mem_cons_self ..)
    simp [Rcpt.recipients] at this

theorem head_writable {cl : Cls → Prop} {pe c : Bytes} {d : Dict} : Spec.Writable cl true (.arr [.bytes pe, .map d, .bytes c]) ↔
    pe.length < 2 ^ 64 ∧ Spec.Writable cl true (.map d) ∧ c.length < 2 ^ 64 := by
  simp only [Spec.Writable, Spec.WritableL, List.length_cons, List.length_nil]
  grind

/-- A recipient with direct encryption can be written: it has an algorithm, no recipients of its own, and, with the algorithm `direct`, an
empty protected header. -/
def Spec.DirectWritable (cl : Cls → Prop) (r : Rcpt) : Prop :=
  r.recipients = [] ∧ (∃ alg, r.base.getAttr Hdr.Algorithm = .ok alg ∧ alg ≠ .none ∧ (alg = algCls (-6) → r.base.phdr = [])) ∧
    Spec.RcptWritable cl r.base []

theorem direct_head {C : Crypto} {R : Rand} {cl : Cls → Prop} {path : List Nat} {r : Rcpt} (hc : r.cls = .directEncryption)
    (hf : r.recipients = []) : (∃ h b', rcptHead C R path r = .ok (h, b') ∧ Spec.Writable cl true (.arr h)) ↔ Spec.DirectWritable cl r := by
  obtain ⟨cls, b, ctx, oid, rs⟩ := r
  simp only [Rcpt.cls, Rcpt.recipients] at hc hf
  subst hc hf
  simp only [rcptHead, Spec.DirectWritable, Spec.RcptWritable, Spec.ShortProtected, Rcpt.base, Rcpt.recipients, List.isEmpty_nil, Bool.true_eq_false, if_false]
  constructor
  · rintro ⟨h, b', h1, hw⟩
    obtain ⟨alg, ha, h1⟩ := bind_eq_ok.mp h1
    split at h1
    · simp at h1
    · split at h1
      · simp at h1
      · rename_i n1 n2
        obtain ⟨pe, hp, h1⟩ := bind_eq_ok.mp h1
        simp at h1; obtain ⟨rfl, rfl⟩ := h1
        obtain ⟨w1, w2, w3⟩ := head_writable.mp hw
        refine ⟨trivial, ⟨alg, ha, n2, fun e => ?_⟩, ⟨pe, hp, w1⟩, w2, w3⟩
        exact Classical.byContradiction fun hne => n1 ⟨e, by simpa using hne⟩
  · rintro ⟨-, ⟨alg, ha, n2, n1⟩, ⟨pe, hp, w1⟩, w2, w3⟩
    refine ⟨_, b, ?_, head_writable.mpr ⟨w1, w2, w3⟩⟩
    rw [ha, ok_bind, if_neg (by rintro ⟨e, h⟩; simp [n1 e] at h), if_neg n2, hp, ok_bind]

theorem flat_of_direct {C : Crypto} {R : Rand} : ∀ {rs : List Rcpt} {i : Nat} {vs : List Val} {rs' : List Rcpt}
    (_ : ∀ r ∈ rs, r.cls = .directEncryption) (_ : rcptsEncode C R [] i rs = .ok (vs, rs')), ∀ r ∈ rs, r.recipients = []
  | [], _, _, _, _, _ => by simp
  | .mk cls b ctx oid ns :: t, i, vs, rs', hd, h => by
    have hc : cls = .directEncryption := hd _ (List.mem_cons_self ..)
    subst hc
    simp only [rcptsEncode, rcptEncode, bind_eq_ok] at h
    obtain ⟨⟨v, r'⟩, ⟨⟨hh, b'⟩, h1, _⟩, ⟨vs', t'⟩, h2, _⟩ := h
    intro r hr
    rcases List.mem_cons.mp hr with rfl | hr
    · simp only [rcptHead] at h1
      obtain ⟨alg, ha, h1⟩ := bind_eq_ok.mp h1
      cases ns with
      | nil => rfl
      | cons n ns =>
        split at h1
        · simp at h1
        · split at h1
          · simp at h1
          · simp at h1
    · exact flat_of_direct (fun r hr => hd r (List.mem_cons_of_mem _ hr)) h2 r hr

theorem rcptsEncode_size {C : Crypto} {R : Rand} {path : List Nat} : ∀ {rs : List Rcpt} {i : Nat} {vs : List Val} {rs' : List Rcpt},
    rcptsEncode C R path i rs = .ok (vs, rs') → vs.length = rs.length
  | [], _, _, _, h => by simp [rcptsEncode] at h; simp [h.1]
  | r :: t, i, vs, rs', h => by
    simp only [rcptsEncode, bind_eq_ok, Except.ok.injEq, Prod.mk.injEq] at h
    obtain ⟨_, _, ⟨vs', t'⟩, h2, rfl, _⟩ := h
    simp [rcptsEncode_size h2]

theorem direct_rcpts {C : Crypto} {R : Rand} {cl : Cls → Prop} {rs : List Rcpt} (hd : ∀ r ∈ rs, r.cls = .directEncryption) :
    (∃ vs rs', rcptsEncode C R [] 0 rs = .ok (vs, rs') ∧ Spec.Writable cl true (.arr vs)) ↔
      rs.length < 2 ^ 64 ∧ ∀ r ∈ rs, Spec.DirectWritable cl r := by
  constructor
  · rintro ⟨vs, rs', h, hw⟩
    have hf := flat_of_direct hd h
    have hl := rcptsEncode_size h
    simp only [Spec.Writable] at hw
    refine ⟨by omega, fun r hr => ?_⟩
    obtain ⟨j, hj⟩ := List.mem_iff_getElem?.mp hr
    exact (direct_head (hd r hr) (hf r hr)).mp ((rcptsEncode_ex hf).mp ⟨vs, rs', h, hl, hw.2⟩ j r hj)
  · rintro ⟨hl, h⟩
    obtain ⟨vs, rs', h1, h2, h3⟩ := (rcptsEncode_ex (C := C) (R := R) (cl := cl) (i := 0) fun r hr => (h r hr).1).mpr fun j r hj =>
      (direct_head (hd r (List.mem_of_getElem? hj)) (h r (List.mem_of_getElem? hj)).1).mpr (h r (List.mem_of_getElem? hj))
    exact ⟨vs, rs', h1, by simp only [Spec.Writable]; exact ⟨by omega, h3⟩⟩

theorem finishEnc_iff {b : Base} {tag : Bool} {pe c : Bytes} {vs : List Val} :
    (∃ o, b.finish 96 tag ([.bytes pe, .map b.uhdr] ++ [.bytes c] ++ [.arr vs]) = .ok o) ↔
      pe.length < 2 ^ 64 ∧ Spec.HeaderWritable b b.uhdr ∧ c.length < 2 ^ 64 ∧ Spec.Writable (Mode.base b.tstr).classes true (.arr vs) := by
  rw [finish_iff (by decide)]
  simp only [Spec.Writable, Spec.WritableL, List.cons_append, List.nil_append, List.length_cons, List.length_nil, Spec.HeaderWritable]
  grind

theorem encode_enc {C : Crypto} {R : Rand} {m : Enc} {tag : Bool} (hrs : ∀ c m1, m.encrypt C R = .ok (c, m1) → m1.recipients ≠ []) :
    (∃ out m', m.encode C R tag true = .ok (out, m')) ↔
      ∃ pe c m1, m.base.phdrEncoded = .ok pe ∧ m.encrypt C R = .ok (c, m1) ∧ (∃ alg, m1.base.getAttr Hdr.Algorithm = .ok alg) ∧
        ∃ vs rs', rcptsEncode C R [] 0 m1.recipients = .ok (vs, rs') ∧
        ∃ o, m1.base.finish 96 tag ([.bytes pe, .map m.base.uhdr] ++ [.bytes c] ++ [.arr vs]) = .ok o := by
  simp only [Enc.encode, if_true]
  constructor
  · rintro ⟨out, m', h⟩
    obtain ⟨pe, h1, h⟩ := bind_eq_ok.mp h
    obtain ⟨⟨c, m1⟩, h2, h⟩ := bind_eq_ok.mp h
    have hne : m1.recipients.isEmpty = false := by
      have := hrs c m1 h2
      cases hh : m1.recipients <;> simp_all
    simp only [ok_bind, hne, Bool.false_eq_true, if_false] at h
    obtain ⟨alg, h3, h⟩ := bind_eq_ok.mp h
    obtain ⟨⟨vs, rs'⟩, h4, h⟩ := bind_eq_ok.mp h
    obtain ⟨o, h5, h⟩ := bind_eq_ok.mp h
    exact ⟨pe, c, m1, h1, h2, ⟨alg, h3⟩, vs, rs', h4, o, h5⟩
  · rintro ⟨pe, c, m1, h1, h2, ⟨alg, h3⟩, vs, rs', h4, o, h5⟩
    have hne : m1.recipients.isEmpty = false := by
      have := hrs c m1 h2
      cases hh : m1.recipients <;> simp_all
    refine ⟨o, { m1 with recipients := rs' }, ?_⟩
    simp only [h1, h2, ok_bind, hne, Bool.false_eq_true, if_false, h3, h4, h5]

/-- C82: a COSE_Encrypt message with direct encryption is encoded exactly if its headers and those of its recipients can be written, no recipient
has recipients of its own or (with `direct`) a protected header, and the message can be encrypted with the key set on it. -/
theorem c82_enc_encode_direct {C : Crypto} {R : Rand} {m : Enc} {tag : Bool} (hne : m.recipients ≠ [])
    (hd : ∀ r ∈ m.recipients, r.cls = .directEncryption) (hk : ∀ k, m.base.key = some k → Spec.PlainPolicy k) :
    (∃ out m', m.encode C R tag true = .ok (out, m')) ↔
      Spec.ShortProtected m.base ∧ Spec.HeaderWritable m.base m.base.uhdr ∧ m.recipients.length < 2 ^ 64 ∧
      (∀ r ∈ m.recipients, Spec.DirectWritable (Mode.base m.base.tstr).classes r) ∧
      ∃ a key nonce aad text c, Spec.Sealing b!"Encrypt" m.base a key nonce aad text ∧ Spec.PolicyPermits m.base [Op.Encrypt] ∧
        C.aeadEnc a key nonce aad text = .ok c ∧ c.length < 2 ^ 64 := by
  obtain ⟨t1, t2⟩ := types_direct hd hne
  have henc : ∀ c m1, m.encrypt C R = .ok (c, m1) ↔ m1 = m ∧ encEncrypt C b!"Encrypt" m.base = .ok c := by
    intro c m1
    constructor
    · intro h
      simp only [Enc.encrypt, bind_eq_ok] at h
      obtain ⟨alg, _, ts, hts, h⟩ := h
      rw [t1] at hts; simp at hts; subst hts
      rw [if_pos t2] at h
      simp only [bind_eq_ok, Except.ok.injEq, Prod.mk.injEq] at h
      obtain ⟨c', h, rfl, rfl⟩ := h
      exact ⟨rfl, h⟩
    · rintro ⟨rfl, h⟩
      obtain ⟨i, a, k, kb, n, aad, p, ha, _⟩ := aead_enc_prim h
      simp only [Enc.encrypt, ha, ok_bind, t1, if_pos t2, h]
  rw [encode_enc fun c m1 h => by rw [((henc c m1).mp h).1]; exact hne]
  constructor
  · rintro ⟨pe, c, m1, h1, h2, _, vs, rs', h4, h5⟩
    obtain ⟨rfl, h2⟩ := (henc c m1).mp h2
    obtain ⟨w1, w2, w3, w4⟩ := finishEnc_iff.mp h5
    obtain ⟨d1, d2⟩ := (direct_rcpts hd).mp ⟨vs, rs', h4, w4⟩
    obtain ⟨a, key, nonce, aad, text, e1, e2, e3⟩ := (seals_iff hk).mp h2
    exact ⟨⟨pe, h1, w1⟩, w2, d1, d2, a, key, nonce, aad, text, c, e1, e2, e3, w3⟩
  · rintro ⟨⟨pe, h1, w1⟩, w2, d1, d2, a, key, nonce, aad, text, c, e1, e2, e3, w3⟩
    obtain ⟨vs, rs', h4, w4⟩ := (direct_rcpts (C := C) (R := R) hd).mpr ⟨d1, d2⟩
    have h2 := (seals_iff hk).mpr ⟨a, key, nonce, aad, text, e1, e2, e3⟩
    obtain ⟨i, hi, _⟩ := e1.alg
    exact ⟨pe, c, m, h1, (henc c m).mpr ⟨rfl, h2⟩, ⟨_, hi⟩, vs, rs', h4, finishEnc_iff.mpr ⟨w1, w2, w3, w4⟩⟩

theorem sealsMade_iff {C : Crypto} {ctx : Bytes} {b : Base} {c : Bytes} {ops : List Cls} (ho : ops = [] ∨ Op.Encrypt ∈ ops) {t : Int} {key : Bytes}
    (ha : b.getAttr Hdr.Algorithm = .ok (algCls t)) :
    encEncrypt C ctx { b with key := some (Spec.MadeKey t ops key) } = .ok c ↔
      ∃ a nonce aad text, Spec.Sealing ctx { b with key := some (Spec.MadeKey t ops key) } a key nonce aad text ∧
        C.aeadEnc a key nonce aad text = .ok c := by
  have hK : (Spec.MadeKey t ops key).symK = .ok (.bytes key) := by rw [← madeKey_eq]; exact symStore_symK _ _ _
  constructor
  · intro h
    obtain ⟨i, a, k, kb, n, aad, c, h1, h2, h3, h4, h5, h6, h7, h8⟩ := aead_enc_prim h
    simp only [Option.some.injEq] at h3
    subst h3
    rw [hK] at h4; simp at h4; subst h4
    exact ⟨a, n, aad, c, ⟨⟨i, h1, h2⟩, ⟨_, rfl, hK⟩, h5, h6, h7⟩, h8⟩
  · rintro ⟨a, nonce, aad, text, ⟨⟨i, h1, h2⟩, _, h3, h4, h5⟩, h6⟩
    have h1' : b.getAttr Hdr.Algorithm = .ok (algCls i) := h1
    rw [ha] at h1'; simp at h1'; subst h1'
    have hp : Spec.Permits (Spec.MadeKey t ops key) .sym (algCls t) [Op.Encrypt] := by
      rw [← madeKey_eq]
      exact symStore_permits (c := ⟨.alg, t⟩) key (ho.imp id fun h => ⟨Op.Encrypt, by simp, h⟩)
    rw [aead_enc_accepts h1 h2 rfl hp hK h3 h4 h5, h6]

/-- A recipient with the key `text` to be wrapped. -/
def Spec.Carrying (r : Rcpt) (text : Bytes) : Rcpt := r.withBase { r.base with payload := some text }

theorem wrapLoop_unspent {C : Crypto} {R : Rand} {cl : Cls → Prop} {text : Bytes} : ∀ {rs : List Rcpt} {i : Nat}
    (_ : ∀ r ∈ rs, r.base.payload = some [] ∧ r.recipients = []),
    (∃ rs1 k, wrapLoop C R i (some text) rs = .ok (k, rs1) ∧ ∃ vs rs2, rcptsEncode C R [] i rs1 = .ok (vs, rs2) ∧ Spec.WritableL cl true vs) ↔
      ∀ j r, rs[j]? = some r → ∃ c r1 h b', rcptEncrypt C R 0 [i + j] (Spec.Carrying r text) = .ok (c, r1) ∧
        rcptHead C R [i + j] r1 = .ok (h, b') ∧ Spec.Writable cl true (.arr h)
  | [], i, _ => by simp [wrapLoop, rcptsEncode, Spec.WritableL]
  | r :: t, i, hf => by
    have ih := wrapLoop_unspent (C := C) (R := R) (cl := cl) (text := text) (rs := t) (i := i + 1) fun r hr => hf r (List.mem_cons_of_mem _ hr)
    obtain ⟨hp, hr0⟩ := hf r (List.mem_cons_self ..)
    have flat : ∀ {c r1}, rcptEncrypt C R 0 [i] (Spec.Carrying r text) = .ok (c, r1) → r1.recipients = [] := by
      intro c r1 h
      unfold rcptEncrypt at h
      split at h
      · simp only [bind_eq_ok, Except.ok.injEq, Prod.mk.injEq] at h
        obtain ⟨_, _, _, rfl⟩ := h
        exact hr0
      · simp only [bind_eq_ok, Except.ok.injEq, Prod.mk.injEq] at h
        obtain ⟨_, _, _, rfl⟩ := h
        exact hr0
      · simp at h
    have enc : ∀ {r1 : Rcpt} {v r2}, r1.recipients = [] → (rcptEncode C R [i] r1 = .ok (v, r2) ↔
        ∃ h b', rcptHead C R [i] r1 = .ok (h, b') ∧ v = .arr h ∧ r2 = r1.withBase b') := by
      rintro ⟨cls, b, ctx, oid, ns⟩ v r2 e
      simp only [Rcpt.recipients] at e
      subst e
      simp only [rcptEncode, bind_eq_ok, List.isEmpty_nil, if_true, Except.ok.injEq, Prod.mk.injEq]
      constructor
      · rintro ⟨⟨h, b'⟩, h1, e1, e2⟩; exact ⟨h, b', h1, e1.symm, e2.symm⟩
      · rintro ⟨h, b', h1, rfl, rfl⟩; exact ⟨(h, b'), h1, rfl, rfl⟩
    simp only [wrapLoop, hp, if_true]
    change (∃ rs1 k, (do
      let (_, r) ← rcptEncrypt C R 0 [i] (Spec.Carrying r text)
      let (key, t) ← wrapLoop C R (i + 1) (some text) t
      .ok (key, r :: t) : Res (Option Bytes × List Rcpt)) = .ok (k, rs1) ∧ _) ↔ _
    simp only [bind_eq_ok, Except.ok.injEq, Prod.mk.injEq]
    constructor
    · rintro ⟨rs1, k, ⟨⟨c, r1⟩, h1, ⟨k', t1⟩, h2, rfl, rfl⟩, vs, rs2, h3, hw⟩
      simp only [rcptsEncode, bind_eq_ok, List.nil_append, Except.ok.injEq, Prod.mk.injEq] at h3
      obtain ⟨⟨v, r2⟩, h4, ⟨vs', t2⟩, h5, rfl, rfl⟩ := h3
      simp only [Spec.WritableL] at hw
      obtain ⟨h, b', h6, e, _⟩ := (enc (flat h1)).mp h4
      rw [e] at hw
      have h3 := ih.mp ⟨t1, k', h2, vs', t2, h5, hw.2⟩
      intro j r' hj
      cases j with
      | zero => simp at hj; subst hj; exact ⟨c, r1, h, b', h1, h6, hw.1⟩
      | succ j =>
        have := h3 j r' (by simpa using hj)
        rwa [show i + 1 + j = i + (j + 1) by omega] at this
    · intro h
      obtain ⟨c, r1, hd, b', h1, h2, hw⟩ := h 0 _ rfl
      obtain ⟨t1, k', h3, vs', t2, h4, hw'⟩ := ih.mpr fun j r hj => by
        have := h (j + 1) r (by simpa using hj)
        rwa [show i + (j + 1) = i + 1 + j by omega] at this
      refine ⟨r1 :: t1, k', ⟨(c, r1), h1, (k', t1), h3, rfl, rfl⟩, .arr hd :: vs', r1.withBase b' :: t2, ?_, hw, hw'⟩
      simp only [rcptsEncode, bind_eq_ok, List.nil_append, Except.ok.injEq, Prod.mk.injEq]
      exact ⟨(.arr hd, r1.withBase b'), (enc (flat h1)).mpr ⟨hd, b', h2, rfl, rfl⟩, (vs', t2), h4, rfl, rfl⟩

theorem wrapLoop_keeps {C : Crypto} {R : Rand} {text : Bytes} : ∀ {rs : List Rcpt} {i : Nat} {k : Option Bytes} {rs1 : List Rcpt}
    (_ : ∀ r ∈ rs, r.base.payload = some []) (_ : wrapLoop C R i (some text) rs = .ok (k, rs1)), k = some text ∧ rs1.length = rs.length
  | [], i, k, rs1, _, h => by simp [wrapLoop] at h; simp [h.1, ← h.2]
  | r :: t, i, k, rs1, hf, h => by
    simp only [wrapLoop, hf r (List.mem_cons_self ..), if_true, bind_eq_ok, Except.ok.injEq, Prod.mk.injEq] at h
    obtain ⟨_, _, ⟨k', t1⟩, h2, rfl, rfl⟩ := h
    obtain ⟨e1, e2⟩ := wrapLoop_keeps (fun r hr => hf r (List.mem_cons_of_mem _ hr)) h2
    exact ⟨e1, by simp [e2]⟩

/-- The `j`-th recipient of a message, with AES key wrap, RSAES-OAEP or ECDH with key wrap, can wrap the content key `text` and be written.  The
key is wrapped twice: when the message is encrypted, and when it is encoded. -/
inductive Spec.WrapWritable (C : Crypto) (R : Rand) (cl : Cls → Prop) (j : Nat) (r : Rcpt) (text : Bytes) : Prop
  | keyWrap {c c' : Bytes} : r.cls = .keyWrap → r.base.phdr = [] → Spec.OaepPolicy r.base [Op.Wrap, Op.Encrypt] →
      Spec.WrapsTo C (R.salt 0 [j]) r.base text c → Spec.WrapsTo C (R.salt 1 [j]) r.base text c' →
      Spec.RcptWritable cl r.base c' → WrapWritable C R cl j r text
  | agreement {i w : Int} {h : HashId} {n : Nat} {b1 : Base} {mine : Key} {kind : Kind} {store : Dict} {kek c : Bytes} :
      r.cls = .keyAgreementWithKeyWrap → r.base.getAttr Hdr.Algorithm = .ok (algCls i) → (i, h, some w) ∈ Spec.agreeAlgs →
      (w, n) ∈ Spec.kwAlgs → Spec.SenderHolds C (R.eph [j]) i r.base b1 mine →
      dget r.base.localAttrs (.cls Hdr.StaticKey) = some (.key kind store) →
      Spec.Agreed C b1 i w mine { kind := kind, store := store } kek → kek.length = n → C.kwWrap kek text = .ok c →
      Spec.RcptWritable cl b1 c → WrapWritable C R cl j r text

theorem setupEphemeral_carry {C : Crypto} {d : Nat} {b b' : Base} {v : Val} {p : Option Bytes} :
    setupEphemeral C d { b with payload := p } v = .ok b' ↔ ∃ b1, setupEphemeral C d b v = .ok b1 ∧ b' = { b1 with payload := p } := by
  have hg : ({ b with payload := p } : Base).getAttr Hdr.EphemeralKey = b.getAttr Hdr.EphemeralKey := rfl
  simp only [setupEphemeral, hg]
  constructor
  · intro h
    obtain ⟨pk, h1, h⟩ := bind_eq_ok.mp h
    obtain ⟨crv, h2, h⟩ := bind_eq_ok.mp h
    obtain ⟨k, h3, h⟩ := bind_eq_ok.mp h
    obtain ⟨e, h4, h⟩ := bind_eq_ok.mp h
    split at h
    · simp at h
    · split at h
      · simp at h
      · rename_i n1 n2
        simp only [Except.ok.injEq] at h
        refine ⟨{ b with key := some k, uhdr := dupdate b.uhdr [(.cls Hdr.EphemeralKey, .map (ddel k.store (.cls Ec2D)))] },
          by simp only [h1, h2, h3, h4, ok_bind, if_neg n1, if_neg n2], h.symm⟩
  · rintro ⟨b1, h, rfl⟩
    obtain ⟨pk, h1, h⟩ := bind_eq_ok.mp h
    obtain ⟨crv, h2, h⟩ := bind_eq_ok.mp h
    obtain ⟨k, h3, h⟩ := bind_eq_ok.mp h
    obtain ⟨e, h4, h⟩ := bind_eq_ok.mp h
    split at h
    · simp at h
    · split at h
      · simp at h
      · rename_i n1 n2
        simp only [Except.ok.injEq] at h
        subst h
        simp only [h1, h2, h3, h4, ok_bind, if_neg n1, if_neg n2]

theorem senderHolds_carry {C : Crypto} {d : Nat} {i : Int} {b b' : Base} {mine : Key} {p : Option Bytes} :
    Spec.SenderHolds C d i { b with payload := p } b' mine ↔ ∃ b1, Spec.SenderHolds C d i b b1 mine ∧ b' = { b1 with payload := p } := by
  unfold Spec.SenderHolds
  constructor
  · rintro (⟨h1, rfl⟩ | ⟨h1, h2, v, h3, h4, h5⟩)
    · exact ⟨b, .inl ⟨h1, rfl⟩, rfl⟩
    · obtain ⟨b1, h6, rfl⟩ := setupEphemeral_carry.mp h4
      exact ⟨b1, .inr ⟨h1, h2, v, h3, h6, h5⟩, rfl⟩
  · rintro ⟨b1, ⟨h1, rfl⟩ | ⟨h1, h2, v, h3, h4, h5⟩, rfl⟩
    · exact .inl ⟨h1, rfl⟩
    · exact .inr ⟨h1, h2, v, h3, setupEphemeral_carry.mpr ⟨b1, h4, rfl⟩, h5⟩

theorem senderHolds_keeps {C : Crypto} {d : Nat} {i : Int} {b b1 : Base} {mine : Key} (h : Spec.SenderHolds C d i b b1 mine) :
    b1.key = some mine ∧ b1.localAttrs = b.localAttrs ∧ b1.getAttr Hdr.Algorithm = b.getAttr Hdr.Algorithm := by
  rcases h with ⟨h1, rfl⟩ | ⟨h1, h2, v, h3, h4, h5⟩
  · exact ⟨h1, rfl, rfl⟩
  · refine ⟨h5, ?_⟩
    simp only [setupEphemeral] at h4
    obtain ⟨pk, g1, h4⟩ := bind_eq_ok.mp h4
    obtain ⟨crv, g2, h4⟩ := bind_eq_ok.mp h4
    obtain ⟨k, g3, h4⟩ := bind_eq_ok.mp h4
    obtain ⟨e, g4, h4⟩ := bind_eq_ok.mp h4
    split at h4
    · simp at h4
    · split at h4
      · simp at h4
      · simp only [Except.ok.injEq] at h4
        subst h4
        refine ⟨rfl, ?_⟩
        apply getAttr_congr
        · rfl
        · simp only [dupdate]
          exact dget_dset_other (by decide)

theorem wrapsTo_carry {C : Crypto} {salt : Bytes} {b : Base} {p : Option Bytes} {text c : Bytes} :
    Spec.WrapsTo C salt { b with payload := p } text c ↔ Spec.WrapsTo C salt b text c := by
  constructor
  · rintro (⟨h1, h2, h3, h4, h5, h6⟩ | ⟨h1, h2, h3, h4, h5, h6⟩)
    · exact .aesKw h1 h2 h3 h4 h5 h6
    · exact .oaep h1 h2 h3 h4 h5 h6
  · rintro (⟨h1, h2, h3, h4, h5, h6⟩ | ⟨h1, h2, h3, h4, h5, h6⟩)
    · exact .aesKw h1 h2 h3 h4 h5 h6
    · exact .oaep h1 h2 h3 h4 h5 h6

theorem wrap_writable {C : Crypto} {R : Rand} {cl : Cls → Prop} {j : Nat} {r : Rcpt} {text : Bytes}
    (hw : r.cls = .keyWrap ∨ r.cls = .keyAgreementWithKeyWrap) (hk : ∀ k, r.base.key = some k → Spec.PlainPolicy k) :
    (∃ c r1 h b', rcptEncrypt C R 0 [j] (Spec.Carrying r text) = .ok (c, r1) ∧ rcptHead C R [j] r1 = .ok (h, b') ∧
      Spec.Writable cl true (.arr h)) ↔ Spec.WrapWritable C R cl j r text := by
  obtain ⟨cls, b, ctx, oid, ns⟩ := r
  simp only [Rcpt.cls] at hw
  simp only [Rcpt.base] at hk
  rcases hw with rfl | rfl
  · simp only [rcptEncrypt, Spec.Carrying, Rcpt.withBase, Rcpt.cls, Rcpt.base, Rcpt.recipients]
    constructor
    · rintro ⟨c, r1, h, b', h1, h2, hwr⟩
      simp only [bind_eq_ok, Except.ok.injEq, Prod.mk.injEq] at h1
      obtain ⟨c0, h1, rfl, rfl⟩ := h1
      simp only [rcptHead, bind_eq_ok, Except.ok.injEq, Prod.mk.injEq] at h2
      obtain ⟨pe, h3, c', h4, rfl, rfl⟩ := h2
      obtain ⟨g1, g2, x, hx, g3⟩ := (kwEncrypt_iff (b := { b with payload := some text }) hk).mp h1
      obtain ⟨-, -, y, hy, g4⟩ := (kwEncrypt_iff (b := { b with payload := some text }) hk).mp h4
      simp only [Option.some.injEq] at hx hy
      subst hx hy
      obtain ⟨w1, w2, w3⟩ := head_writable.mp hwr
      exact .keyWrap rfl g1 g2 (wrapsTo_carry.mp g3) (wrapsTo_carry.mp g4) ⟨⟨pe, h3, w1⟩, w2, w3⟩
    · rintro (⟨-, g1, g2, g3, g4, ⟨⟨pe, h3, w1⟩, w2, w3⟩⟩ | ⟨e, _⟩)
      · rename_i c c'
        simp only [Rcpt.base] at g1 g2 g3 g4 h3 w2
        have h1 := (kwEncrypt_iff (C := C) (rs := ns) (b := { b with payload := some text }) hk).mpr ⟨g1, g2, text, rfl, wrapsTo_carry.mpr g3⟩
        have h4 := (kwEncrypt_iff (C := C) (rs := ns) (b := { b with payload := some text }) hk).mpr ⟨g1, g2, text, rfl, wrapsTo_carry.mpr g4⟩
        refine ⟨c, .mk .keyWrap { b with payload := some text } ctx oid ns, [.bytes pe, .map b.uhdr, .bytes c'], { b with payload := some text }, ?_, ?_,
          head_writable.mpr ⟨w1, w2, w3⟩⟩
        · simp only [h1, ok_bind]
          rfl
        · have h3 : ({ b with payload := some text } : Base).phdrEncoded = .ok pe := h3
          simp only [rcptHead, h3, h4, ok_bind]
      · simp [Rcpt.cls] at e
  · simp only [rcptEncrypt, Spec.Carrying, Rcpt.withBase, Rcpt.cls, Rcpt.base, Rcpt.recipients, Rcpt.context, Rcpt.oid]
    constructor
    · rintro ⟨c, r1, h, b', h1, h2, hwr⟩
      simp only [bind_eq_ok, Except.ok.injEq, Prod.mk.injEq] at h1
      obtain ⟨⟨c0, b0⟩, h1, rfl, rfl⟩ := h1
      simp only [rcptHead, bind_eq_ok, Except.ok.injEq, Prod.mk.injEq] at h2
      obtain ⟨pe, h3, alg, _, w, _, ⟨c', b2⟩, h4, rfl, rfl⟩ := h2
      obtain ⟨i, hh, w', n, mine, kind, store, kek, x, g1, g2, g3, g4, g5, g6, g7, g8, g9⟩ := kakwEncrypt_iff.mp h1
      obtain ⟨b1, s1, rfl⟩ := senderHolds_carry.mp g4
      obtain ⟨k1, k2, k3⟩ := senderHolds_keeps s1
      obtain ⟨i', hh', w'', n', mine', kind', store', kek', y, q1, q2, q3, q4, q5, q6, q7, q8, q9⟩ := kakwEncrypt_iff.mp h4
      simp only [Option.some.injEq] at g8
      subst g8
      have q4' : mine' = mine ∧ b2 = { b1 with payload := some text } := by
        rcases q4 with ⟨z1, z2⟩ | ⟨z1, _⟩
        · have z1 : b1.key = some mine' := z1
          rw [k1] at z1
          simp at z1
          exact ⟨z1.symm, z2⟩
        · have z1 : b1.key = none := z1
          rw [k1] at z1; simp at z1
      obtain ⟨rfl, rfl⟩ := q4'
      simp only [Option.some.injEq] at q8
      subst q8
      obtain ⟨w1, w2, w3⟩ := head_writable.mp hwr
      have q1 : b1.getAttr Hdr.Algorithm = .ok (algCls i') := q1
      have q5 : dget b1.localAttrs (.cls Hdr.StaticKey) = some (.key kind' store') := q5
      rw [k3] at q1
      rw [k2] at q5
      have g1 : b.getAttr Hdr.Algorithm = .ok (algCls i) := g1
      have ei : i' = i := by rw [g1] at q1; simp at q1; exact q1.symm
      subst ei
      exact .agreement rfl q1 q2 q3 s1 q5 q6 q7 q9 ⟨⟨pe, h3, w1⟩, w2, w3⟩
    · rintro (⟨e, _⟩ | ⟨-, g1, g2, g3, g4, g5, g6, g7, g8, ⟨⟨pe, h3, w1⟩, w2, w3⟩⟩)
      · simp [Rcpt.cls] at e
      · rename_i i w hh n b1 mine kind store kek c
        simp only [Rcpt.base] at g1 g4 g5
        obtain ⟨k1, k2, k3⟩ := senderHolds_keeps g4
        have h1 : kakwEncrypt C (R.eph [j]) { b with payload := some text } = .ok (c, { b1 with payload := some text }) :=
          kakwEncrypt_iff.mpr ⟨i, hh, w, n, mine, kind, store, kek, text, g1, g2, g3, senderHolds_carry.mpr ⟨b1, g4, rfl⟩, g5, g6, g7, rfl, g8⟩
        have g1' : ({ b1 with payload := some text } : Base).getAttr Hdr.Algorithm = .ok (algCls i) := by rw [← g1, ← k3]; rfl
        have h4 : kakwEncrypt C (R.eph [j]) { b1 with payload := some text } = .ok (c, { b1 with payload := some text }) :=
          kakwEncrypt_iff.mpr ⟨i, hh, w, n, mine, kind, store, kek, text, g1', g2, g3, .inl ⟨k1, rfl⟩, by rw [← g5, ← k2], g6, g7, rfl, g8⟩
        have hwf : keyWrapFunc (algCls i) = .ok (algCls w) := by simp only [keyWrapFunc, agree_row _ g2]
        refine ⟨c, .mk .keyAgreementWithKeyWrap { b1 with payload := some text } ctx oid ns, [.bytes pe, .map b1.uhdr, .bytes c],
          { b1 with payload := some text }, ?_, ?_, head_writable.mpr ⟨w1, w2, w3⟩⟩
        · simp only [h1, ok_bind]
        · have h3 : ({ b1 with payload := some text } : Base).phdrEncoded = .ok pe := h3
          simp only [rcptHead, h3, ok_bind, g1', hwf, h4]

theorem aead_bits {t : Int} (ht : t ∈ Spec.aeadAlgs.map (·.1)) : ∃ bits, Spec.keyBits t = some bits ∧ (bits / 8 = 16 ∨ bits / 8 = 24 ∨ bits / 8 = 32) := by
  have rows : ∀ p ∈ Spec.aeadAlgs.map (·.1), (match Spec.keyBits p with
      | some b => decide (b / 8 = 16 ∨ b / 8 = 24 ∨ b / 8 = 32)
      | none => false) = true := by decide +kernel
  have := rows t ht
  cases h : Spec.keyBits t with
  | none => rw [h] at this; simp at this
  | some b => rw [h] at this; exact ⟨b, rfl, by simpa using this⟩

theorem finishKey {b : Base} {k : Key} {n : Nat} {tag : Bool} {l : List Val} :
    ({ b with key := some k } : Base).finish n tag l = b.finish n tag l := rfl

/-- C82: a COSE_Encrypt message with recipients that wrap the content key (AES key wrap, RSAES-OAEP, ECDH with key wrap; new recipient objects,
without recipients of their own) is encoded exactly if its headers can be written, each recipient can wrap the generated content key and be
written, and the cipher gives a ciphertext under that key. -/
theorem c82_enc_encode_wrapped {C : Crypto} {R : Rand} {m : Enc} {tag : Bool} {t : Int} {bits : Nat} (hne : m.recipients ≠ [])
    (hR : ∀ n, (R.cek n).length = n) (ha : m.base.getAttr Hdr.Algorithm = .ok (algCls t)) (ht : t ∈ Spec.aeadAlgs.map (·.1))
    (hb : Spec.keyBits t = some bits)
    (hd : ∀ r ∈ m.recipients, r.cls = .keyWrap ∨ r.cls = .keyAgreementWithKeyWrap)
    (hf : ∀ r ∈ m.recipients, r.base.payload = some [] ∧ r.recipients = [])
    (hk : ∀ r ∈ m.recipients, ∀ k, r.base.key = some k → Spec.PlainPolicy k) :
    (∃ out m', m.encode C R tag true = .ok (out, m')) ↔
      Spec.ShortProtected m.base ∧ Spec.HeaderWritable m.base m.base.uhdr ∧ m.recipients.length < 2 ^ 64 ∧
      (∀ (j : Nat) r, m.recipients[j]? = some r → Spec.WrapWritable C R (Mode.base m.base.tstr).classes j r (R.cek (bits / 8))) ∧
      ∃ a nonce aad text c,
        Spec.Sealing b!"Encrypt" (Spec.WithKey m (Spec.MadeKey t [Op.Encrypt] (R.cek (bits / 8)))).base a (R.cek (bits / 8)) nonce aad text ∧
        C.aeadEnc a (R.cek (bits / 8)) nonce aad text = .ok c ∧ c.length < 2 ^ 64 := by
  have h1 : verifyRecipients m.recipients = .ok (m.recipients.map Rcpt.cls) := by
    refine verifyRecipients_iff.mpr ⟨rfl, ?_, ?_⟩ <;> rintro ⟨s, hs, e⟩ <;> have := hd s hs <;> simp [e] at this
  have h2 : ¬ ((m.recipients.map Rcpt.cls).contains .directEncryption = true) := by
    simp only [List.contains_iff_mem, List.mem_map]
    rintro ⟨s, hs, e⟩
    have := hd s hs; simp [e] at this
  have h3 : ¬ ((m.recipients.map Rcpt.cls).contains .directKeyAgreement = true) := by
    simp only [List.contains_iff_mem, List.mem_map]
    rintro ⟨s, hs, e⟩
    have := hd s hs; simp [e] at this
  have h4 : (m.recipients.map Rcpt.cls).contains .keyWrap = true ∨ (m.recipients.map Rcpt.cls).contains .keyAgreementWithKeyWrap = true := by
    simp only [List.contains_iff_mem, List.mem_map]
    obtain ⟨r, hr⟩ := List.exists_mem_of_ne_nil _ hne
    rcases hd r hr with h | h
    · exact .inl ⟨r, hr, h⟩
    · exact .inr ⟨r, hr, h⟩
  obtain ⟨⟨t', a'⟩, hm, rfl⟩ := List.mem_map.mp ht
  obtain ⟨nn, hreg⟩ := aead_reg hm
  have hops : ∀ o ∈ [Op.Encrypt], ∃ n, (o, n) ∈ registry .op := fun o ho => opReg o (by simp at ho; subst ho; decide)
  have hl : (R.cek (bits / 8)).length = 16 ∨ (R.cek (bits / 8)).length = 24 ∨ (R.cek (bits / 8)).length = 32 := by
    obtain ⟨b', e, h⟩ := aead_bits ht
    rw [hb] at e; simp at e; subst e
    rw [hR]; exact h
  have hmk := mkSym_bytes hreg hops hl
  have hkl := keyBits_length hb
  have henc : ∀ c m1, m.encrypt C R = .ok (c, m1) ↔
      ∃ rs1, wrapLoop C R 0 (some (R.cek (bits / 8))) m.recipients = .ok (some (R.cek (bits / 8)), rs1) ∧
        encEncrypt C b!"Encrypt" (Spec.WithKey m (Spec.MadeKey t' [Op.Encrypt] (R.cek (bits / 8)))).base = .ok c ∧
        m1 = { Spec.WithKey m (Spec.MadeKey t' [Op.Encrypt] (R.cek (bits / 8))) with recipients := rs1 } := by
    intro c m1
    constructor
    · intro h
      simp only [Enc.encrypt, ha, ok_bind, h1, if_neg h2, if_neg h3, if_pos h4, hkl] at h
      obtain ⟨⟨kb, rs1⟩, h5, h⟩ := bind_eq_ok.mp h
      obtain ⟨rfl, _⟩ := wrapLoop_keeps (fun r hr => (hf r hr).1) h5
      simp only [optBytes] at h
      obtain ⟨k, h6, h⟩ := bind_eq_ok.mp h
      have h6 : mkSym (.bytes (R.cek (bits / 8))) (.cls ⟨.alg, t'⟩) [Op.Encrypt] = .ok k := h6
      rw [hmk] at h6
      simp only [Except.ok.injEq] at h6
      subst h6
      simp only [bind_eq_ok, Except.ok.injEq, Prod.mk.injEq] at h
      obtain ⟨c', h7, rfl, rfl⟩ := h
      exact ⟨rs1, h5, by rw [← madeKey_eq]; exact h7, by rw [← madeKey_eq]; rfl⟩
    · rintro ⟨rs1, h5, h6, rfl⟩
      rw [← madeKey_eq] at h6 ⊢
      simp only [Enc.encrypt, ha, ok_bind, h1, if_neg h2, if_neg h3, if_pos h4, hkl, h5, optBytes]
      rw [show (algCls (t', a').1 : Val) = .cls ⟨.alg, t'⟩ from rfl, hmk, ok_bind]
      simp only [Spec.WithKey] at h6 ⊢
      rw [h6]
      rfl
  rw [encode_enc fun c m1 h => by
    obtain ⟨rs1, g1, _, rfl⟩ := (henc c m1).mp h
    have := (wrapLoop_keeps (fun r hr => (hf r hr).1) g1).2
    intro e
    have e : rs1 = [] := e
    rw [e] at this
    exact hne (List.length_eq_zero_iff.mp this.symm)]
  constructor
  · rintro ⟨pe, c, m1, g1, g2, _, vs, rs', g4, g5⟩
    obtain ⟨rs1, g6, g7, rfl⟩ := (henc c m1).mp g2
    obtain ⟨w1, w2, w3, w4⟩ := finishEnc_iff (b := m.base).mp g5
    simp only [Spec.Writable] at w4
    have hlen : vs.length = m.recipients.length := by
      rw [rcptsEncode_size g4, (wrapLoop_keeps (fun r hr => (hf r hr).1) g6).2]
    obtain ⟨a, nonce, aad, text, e1, e2⟩ := (sealsMade_iff (b := m.base) (.inr (by simp)) ha).mp g7
    refine ⟨⟨pe, g1, w1⟩, w2, by omega, fun j r hj => ?_, a, nonce, aad, text, c, e1, e2, w3⟩
    have hr := List.mem_of_getElem? hj
    have := (wrapLoop_unspent hf).mp ⟨rs1, _, g6, vs, rs', g4, w4.2⟩ j r hj
    rw [Nat.zero_add] at this
    exact (wrap_writable (hd r hr) (hk r hr)).mp this
  · rintro ⟨⟨pe, g1, w1⟩, w2, d1, d2, a, nonce, aad, text, c, e1, e2, w3⟩
    obtain ⟨rs1, k, g6, vs, rs', g4, w4⟩ := (wrapLoop_unspent (C := C) (R := R) (cl := (Mode.base m.base.tstr).classes) (i := 0) hf).mpr fun j r hj => by
      have hr := List.mem_of_getElem? hj
      rw [Nat.zero_add]
      exact (wrap_writable (hd r hr) (hk r hr)).mpr (d2 j r hj)
    obtain ⟨rfl, hlen⟩ := wrapLoop_keeps (fun r hr => (hf r hr).1) g6
    have g7 := (sealsMade_iff (b := m.base) (.inr (by simp)) ha).mpr ⟨a, nonce, aad, text, e1, e2⟩
    have hlen' := rcptsEncode_size g4
    obtain ⟨o, g5⟩ := finishEnc_iff (b := m.base) (tag := tag).mpr ⟨w1, w2, w3, by simp only [Spec.Writable]; exact ⟨by omega, w4⟩⟩
    exact ⟨pe, c, _, g1, (henc c _).mpr ⟨rs1, g6, g7, rfl⟩, ⟨_, ha⟩, vs, rs', g4, o, g5⟩

/-- What both sides of a direct key agreement need (see `c82_direct_agreement`): the content key is `kek`. -/
def Spec.DirectlyAgreed (C : Crypto) (b : Base) (enc : Bool) (t : Int) (kek : Bytes) : Prop :=
  ∃ i mine kind store, i ∈ [(-25 : Int), -26, -27, -28] ∧ b.getAttr Hdr.Algorithm = .ok (algCls i) ∧ b.key = some mine ∧
    Spec.PeerIs b enc (algCls i) (.key kind store) ∧
    Spec.Permits mine .ec2 (algCls i) [Op.DeriveKey, Op.DeriveBits] ∧
    Spec.Permits { kind := kind, store := store } .ec2 (algCls i) [Op.DeriveKey, Op.DeriveBits] ∧
    Spec.Agreed C b i t mine { kind := kind, store := store } kek ∧ (kek.length = 16 ∨ kek.length = 24 ∨ kek.length = 32)

theorem directlyAgreed_iff {C : Crypto} {b : Base} {t : Int} {enc : Bool} {cek : Key} (hk : ∀ k, b.key = some k → Spec.PlainPolicy k)
    (hp : ∀ alg kind store, Spec.PeerIs b enc alg (.key kind store) → Spec.PlainPolicy { kind := kind, store := store }) :
    dkaComputeCek C b (algCls t) enc = .ok cek ↔ ∃ kek, Spec.DirectlyAgreed C b enc t kek ∧ cek = Spec.MadeKey t [] kek := by
  rw [c82_direct_agreement hk hp]
  constructor
  · rintro ⟨i, mine, kind, store, kek, h1, h2, h3, h4, h5, h6, h7, h8, h9⟩
    exact ⟨kek, ⟨i, mine, kind, store, h1, h2, h3, h4, h5, h6, h7, h8⟩, h9⟩
  · rintro ⟨kek, ⟨i, mine, kind, store, h1, h2, h3, h4, h5, h6, h7, h8⟩, h9⟩
    exact ⟨i, mine, kind, store, kek, h1, h2, h3, h4, h5, h6, h7, h8, h9⟩

/-- The recipient of a direct key agreement can be written: with ECDH-ES, it has the sender's ephemeral public key in its header. -/
def Spec.AgreementWritable (cl : Cls → Prop) (b : Base) : Prop :=
  (∃ v, b.getAttr Hdr.EphemeralKey = .ok v ∧ ∀ i, i ∈ [(-25 : Int), -26] → b.getAttr Hdr.Algorithm = .ok (algCls i) → v ≠ .none) ∧
  Spec.RcptWritable cl b []

theorem es_sets {i : Int} (hi : i ∈ [(-25 : Int), -26, -27, -28]) : inSet (algCls i) ecdhEsHkdf = .ok (decide (i ∈ [(-25 : Int), -26])) := by
  have : ∀ i ∈ [(-25 : Int), -26, -27, -28], inSet (algCls i) ecdhEsHkdf = .ok (decide (i ∈ [(-25 : Int), -26])) := by decide
  exact this i hi

theorem es_missing {i : Int} {e : Val} (hi : i ∈ [(-25 : Int), -26, -27, -28]) :
    lacksEphemeral (algCls i) e = .ok (decide (e = .none ∧ decide (i ∈ [(-25 : Int), -26]) = true)) := by
  unfold lacksEphemeral
  split
  · rename_i h; rw [es_sets hi]; simp [h]
  · rename_i h; simp [h]

theorem agreed_head {C : Crypto} {R : Rand} {cl : Cls → Prop} {path : List Nat} {t : Int} {r : Rcpt} {kek : Bytes} (hc : r.cls = .directKeyAgreement)
    (hf : r.recipients = []) (ha : Spec.DirectlyAgreed C r.base true t kek) :
    (∃ vs rs', rcptsEncode C R path 0 [r] = .ok (vs, rs') ∧ Spec.Writable cl true (.arr vs)) ↔ Spec.AgreementWritable cl r.base := by
  obtain ⟨cls, b, ctx, oid, ns⟩ := r
  simp only [Rcpt.cls, Rcpt.recipients] at hc hf
  subst hc hf
  obtain ⟨i, mine, kind, store, hi, h1, h2, h3, -⟩ := ha
  simp only [Rcpt.base] at h1 h2 h3
  have h3 : dget b.localAttrs (.cls Hdr.StaticKey) = some (.key kind store) := by
    rcases h3 with ⟨_, h⟩ | ⟨h, _⟩ | ⟨h, _⟩
    · exact h
    · simp at h
    · simp at h
  simp only [rcptsEncode, rcptEncode, rcptHead, h1, ok_bind, getD, h3, Option.getD_some, reduceCtorEq, if_false, h2, List.length_nil,
    Nat.not_lt_zero, gt_iff_lt, Spec.AgreementWritable, Spec.RcptWritable, Spec.ShortProtected, Rcpt.base, List.isEmpty_nil, if_true]
  constructor
  · rintro ⟨vs, rs', g, hw⟩
    obtain ⟨⟨v, r'⟩, g1, hh⟩ := bind_eq_ok.mp g
    obtain ⟨⟨hd, b'⟩, g2, hh'⟩ := bind_eq_ok.mp g1
    clear g g1
    simp at hh hh'
    obtain ⟨rfl, rfl⟩ := hh
    obtain ⟨rfl, rfl⟩ := hh'
    obtain ⟨e, he, g2⟩ := bind_eq_ok.mp g2
    rw [es_missing hi, ok_bind] at g2
    split at g2
    · simp at g2
    · rename_i hn
      rw [decide_eq_true_eq] at hn
      obtain ⟨pe, hp, g2⟩ := bind_eq_ok.mp g2
      simp at g2; obtain ⟨rfl, rfl⟩ := g2
      simp only [Spec.Writable, Spec.WritableL] at hw
      obtain ⟨w1, w2, w3⟩ := head_writable.mp (by simpa only [Spec.Writable, Spec.WritableL] using hw.2.1)
      refine ⟨⟨e, he, fun i' hi' he' e0 => ?_⟩, ⟨pe, hp, w1⟩, w2, w3⟩
      simp at he'; subst he'
      exact hn ⟨e0, by simpa using hi'⟩
  · rintro ⟨⟨e, he, h4⟩, ⟨pe, hp, w1⟩, w2, w3⟩
    have hn : ¬ (e = .none ∧ decide (i ∈ [(-25 : Int), -26]) = true) := by
      rintro ⟨e0, h⟩
      exact h4 i (by simpa using h) rfl e0
    refine ⟨[.arr [.bytes pe, .map b.uhdr, .bytes []]], [.mk .directKeyAgreement b ctx oid []], ?_, ?_⟩
    · simp only [he, ok_bind, es_missing hi, decide_eq_false hn, Bool.false_eq_true, if_false, hp]
    · have := head_writable (c := []).mpr ⟨w1, w2, w3⟩
      simp only [Spec.Writable, Spec.WritableL] at this ⊢
      exact ⟨by simp, this, trivial⟩

/-- C82: a COSE_Encrypt message with one recipient with direct key agreement is encoded exactly if the agreement (with the private key set on the
recipient) gives a content key, the cipher a ciphertext under it, and everything can be written. -/
theorem c82_enc_encode_agreed {C : Crypto} {R : Rand} {m : Enc} {tag : Bool} {r : Rcpt} {t : Int} (hr : m.recipients = [r])
    (ha : m.base.getAttr Hdr.Algorithm = .ok (algCls t)) (hd : r.cls = .directKeyAgreement) (hf : r.recipients = [])
    (hk : ∀ k, r.base.key = some k → Spec.PlainPolicy k)
    (hp : ∀ alg kind store, Spec.PeerIs r.base true alg (.key kind store) → Spec.PlainPolicy { kind := kind, store := store }) :
    (∃ out m', m.encode C R tag true = .ok (out, m')) ↔
      Spec.ShortProtected m.base ∧ Spec.HeaderWritable m.base m.base.uhdr ∧ Spec.AgreementWritable (Mode.base m.base.tstr).classes r.base ∧
      ∃ kek, Spec.DirectlyAgreed C r.base true t kek ∧
      ∃ a nonce aad text c, Spec.Sealing b!"Encrypt" (Spec.WithKey m (Spec.MadeKey t [] kek)).base a kek nonce aad text ∧
        C.aeadEnc a kek nonce aad text = .ok c ∧ c.length < 2 ^ 64 := by
  obtain ⟨mb, mrs⟩ := m
  simp only at hr ha
  subst hr
  have h1 : verifyRecipients [r] = .ok [.directKeyAgreement] := by
    refine verifyRecipients_iff.mpr ⟨by simp [hd], ?_, ?_⟩ <;> simp [hd]
  have henc : ∀ c m1, Enc.encrypt C R { base := mb, recipients := [r] } = .ok (c, m1) ↔ ∃ kek, Spec.DirectlyAgreed C r.base true t kek ∧
      encEncrypt C b!"Encrypt" (Spec.WithKey { base := mb, recipients := [r] } (Spec.MadeKey t [] kek)).base = .ok c ∧ m1 = Spec.WithKey { base := mb, recipients := [r] } (Spec.MadeKey t [] kek) := by
    intro c m1
    constructor
    · intro h
      simp only [Enc.encrypt, ha, ok_bind, h1] at h
      rw [if_neg (by decide), if_pos (by decide)] at h
      simp only [bind_eq_ok, Except.ok.injEq, Prod.mk.injEq] at h
      obtain ⟨k, h2, c', h3, rfl, rfl⟩ := h
      obtain ⟨kek, h4, rfl⟩ := (directlyAgreed_iff hk hp).mp h2
      exact ⟨kek, h4, h3, rfl⟩
    · rintro ⟨kek, h4, h3, rfl⟩
      have h2 := (directlyAgreed_iff (C := C) (t := t) hk hp).mpr ⟨kek, h4, rfl⟩
      simp only [Enc.encrypt, ha, ok_bind, h1]
      rw [if_neg (by decide), if_pos (by decide)]
      simp only [h2, ok_bind]
      simp only [Spec.WithKey] at h3 ⊢
      rw [h3]
      rfl
  rw [encode_enc fun c m1 h => by
    obtain ⟨kek, _, _, rfl⟩ := (henc c m1).mp h
    simp [Spec.WithKey]]
  constructor
  · rintro ⟨pe, c, m1, g1, g2, _, vs, rs', g4, g5⟩
    obtain ⟨kek, g6, g7, rfl⟩ := (henc c m1).mp g2
    obtain ⟨w1, w2, w3, w4⟩ := finishEnc_iff (b := mb).mp g5
    obtain ⟨a, nonce, aad, text, e1, e2⟩ := (sealsMade_iff (b := mb) (.inl rfl) ha).mp g7
    exact ⟨⟨pe, g1, w1⟩, w2, (agreed_head hd hf g6).mp ⟨vs, rs', g4, w4⟩, kek, g6, a, nonce, aad, text, c, e1, e2, w3⟩
  · rintro ⟨⟨pe, g1, w1⟩, w2, g0, kek, g6, a, nonce, aad, text, c, e1, e2, w3⟩
    obtain ⟨vs, rs', g4, w4⟩ := (agreed_head (R := R) (path := []) hd hf g6).mpr g0
    have g7 := (sealsMade_iff (b := mb) (.inl rfl) ha).mpr ⟨a, nonce, aad, text, e1, e2⟩
    exact ⟨pe, c, _, g1, (henc c _).mpr ⟨kek, g6, g7, rfl⟩, ⟨_, ha⟩, vs, rs', g4, finishEnc_iff (b := mb).mpr ⟨w1, w2, w3, w4⟩⟩

/-! ### COSE_Mac -/

theorem finishMac_iff {b : Base} {tag : Bool} {pe c : Bytes} {vs : List Val} (hc : c.length < 2 ^ 64) :
    (∃ o, b.finish 97 tag ([.bytes pe, .map b.uhdr, optBytes b.payload] ++ [.bytes c] ++ [.arr vs]) = .ok o) ↔
      pe.length < 2 ^ 64 ∧ Spec.HeaderWritable b b.uhdr ∧ Spec.ShortPayload b.payload ∧
        Spec.Writable (Mode.base b.tstr).classes true (.arr vs) := by
  rw [finish_iff (by decide), ← writable_opt (c := (Mode.base b.tstr).classes) (k := true)]
  simp only [Spec.Writable, Spec.WritableL, List.cons_append, List.nil_append, List.length_cons, List.length_nil, Spec.HeaderWritable]
  grind

theorem macTag_short {C : Crypto} (L : C.Laws) {i : Int} {kb data t : Bytes} (h : Spec.MacTag C i kb data t) : t.length < 2 ^ 64 := by
  have := macTag_length L h
  have key : ∀ p ∈ Spec.hmacAlgs.map (·.1) ++ Spec.cbcMacAlgs.map (·.1), ∀ n, Spec.tagLength p = some n → n < 2 ^ 64 := by
    decide +kernel
  have hi : i ∈ Spec.hmacAlgs.map (·.1) ++ Spec.cbcMacAlgs.map (·.1) := by
    cases h with
    | hmac a => exact List.mem_append_left _ (List.mem_map.mpr ⟨_, a, rfl⟩)
    | aes a => exact List.mem_append_right _ (List.mem_map.mpr ⟨_, a, rfl⟩)
  exact key i hi _ this.symm

theorem encode_mac {C : Crypto} {R : Rand} {m : Mac} {tag : Bool} {r : Rcpt} {rs : List Rcpt}
    (hrs : ∀ c m1, m.computeTag C R = .ok (c, m1) → m1.recipients = some (r :: rs)) :
    (∃ out m', m.encode C R tag true = .ok (out, m')) ↔
      ∃ pe c m1, m.base.phdrEncoded = .ok pe ∧ m.computeTag C R = .ok (c, m1) ∧ (∃ alg, m1.base.getAttr Hdr.Algorithm = .ok alg) ∧
        ∃ vs rs', rcptsEncode C R [] 0 (r :: rs) = .ok (vs, rs') ∧
        ∃ o, m1.base.finish 97 tag ([.bytes pe, .map m.base.uhdr, optBytes m.base.payload] ++ [.bytes c] ++ [.arr vs]) = .ok o := by
  simp only [Mac.encode, if_true]
  constructor
  · rintro ⟨out, m', h⟩
    obtain ⟨pe, h1, h⟩ := bind_eq_ok.mp h
    obtain ⟨⟨c, m1⟩, h2, h⟩ := bind_eq_ok.mp h
    simp only [ok_bind, hrs c m1 h2] at h
    obtain ⟨alg, h3, h⟩ := bind_eq_ok.mp h
    obtain ⟨⟨vs, rs'⟩, h4, h⟩ := bind_eq_ok.mp h
    obtain ⟨o, h5, h⟩ := bind_eq_ok.mp h
    exact ⟨pe, c, m1, h1, h2, ⟨alg, h3⟩, vs, rs', h4, o, h5⟩
  · rintro ⟨pe, c, m1, h1, h2, ⟨alg, h3⟩, vs, rs', h4, o, h5⟩
    refine ⟨o, { m1 with recipients := some rs' }, ?_⟩
    simp only [h1, h2, ok_bind, hrs c m1 h2, h3, h4, h5]

/-- C82: a COSE_Mac message with direct encryption (the key is shared already) is encoded exactly if everything can be written and the key set on
the message may make tags and gives one. -/
theorem c82_mac_encode_direct {C : Crypto} (L : C.Laws) {R : Rand} {m : Mac} {tag : Bool} {rs : List Rcpt} (hr : m.recipients = some rs)
    (hne : rs ≠ []) (hd : ∀ r ∈ rs, r.cls = .directEncryption) (hk : ∀ k, m.base.key = some k → Spec.PlainPolicy k) :
    (∃ out m', m.encode C R tag true = .ok (out, m')) ↔
      Spec.ShortProtected m.base ∧ Spec.HeaderWritable m.base m.base.uhdr ∧ Spec.ShortPayload m.base.payload ∧ rs.length < 2 ^ 64 ∧
      (∀ r ∈ rs, Spec.DirectWritable (Mode.base m.base.tstr).classes r) ∧ ∃ t, Spec.Tags C b!"MAC" m.base t := by
  obtain ⟨t1, t2⟩ := types_direct hd hne
  have henc : ∀ t m1, m.computeTag C R = .ok (t, m1) ↔ m1 = { m with authTag := .bytes t } ∧ macCompute C b!"MAC" m.base = .ok t := by
    intro t m1
    constructor
    · intro h
      simp only [Mac.computeTag, hr, bind_eq_ok] at h
      obtain ⟨alg, _, ts, hts, h⟩ := h
      rw [t1] at hts; simp at hts; subst hts
      rw [if_pos t2] at h
      simp only [bind_eq_ok, Except.ok.injEq, Prod.mk.injEq] at h
      obtain ⟨c', h, rfl, rfl⟩ := h
      exact ⟨by rw [← hr], h⟩
    · rintro ⟨rfl, h⟩
      have ha : ∃ alg, m.base.getAttr Hdr.Algorithm = .ok alg := by
        simp only [macCompute, bind_eq_ok] at h
        exact ⟨_, h.choose_spec.1⟩
      obtain ⟨alg, ha⟩ := ha
      simp only [Mac.computeTag, hr, ha, ok_bind, t1, if_pos t2, h]
  cases rs with
  | nil => simp at hne
  | cons r rs =>
    rw [encode_mac (r := r) (rs := rs) fun c m1 h => by rw [((henc c m1).mp h).1]; exact hr]
    constructor
    · rintro ⟨pe, c, m1, h1, h2, _, vs, rs', h4, h5⟩
      obtain ⟨rfl, h2'⟩ := (henc c m1).mp h2
      have ht := (tags_iff L hk).mp h2'
      have hs := ht
      obtain ⟨_, _, _, _, _, _, _, _, _, hs⟩ := hs
      obtain ⟨w1, w2, w3, w4⟩ := (finishMac_iff (b := m.base) (macTag_short L hs)).mp h5
      obtain ⟨d1, d2⟩ := (direct_rcpts hd).mp ⟨vs, rs', h4, w4⟩
      exact ⟨⟨pe, h1, w1⟩, w2, w3, d1, d2, c, ht⟩
    · rintro ⟨⟨pe, h1, w1⟩, w2, w3, d1, d2, c, ht⟩
      obtain ⟨vs, rs', h4, w4⟩ := (direct_rcpts (C := C) (R := R) hd).mpr ⟨d1, d2⟩
      have h2 := (tags_iff L hk).mpr ht
      obtain ⟨i, _, _, _, ha, _, _, _, _, hs⟩ := ht
      exact ⟨pe, c, _, h1, (henc c _).mpr ⟨rfl, h2⟩, ⟨_, ha⟩, vs, rs', h4,
        (finishMac_iff (b := m.base) (macTag_short L hs)).mpr ⟨w1, w2, w3, w4⟩⟩

theorem tagsMade_iff {C : Crypto} (L : C.Laws) {ctx : Bytes} {b : Base} {i : Int} {key t : Bytes}
    (ha : b.getAttr Hdr.Algorithm = .ok (algCls i)) :
    macCompute C ctx { b with key := some (Spec.MadeKey i [] key) } = .ok t ↔
      ∃ data, macStructure ctx b = .ok data ∧ Spec.MacTag C i key data t := by
  have hK : (Spec.MadeKey i [] key).symK = .ok (.bytes key) := by rw [← madeKey_eq]; exact symStore_symK _ _ _
  have hpp : Spec.PlainPolicy (Spec.MadeKey i [] key) := by
    refine ⟨.inr ⟨i, ?_⟩, .inl ?_⟩ <;> simp [Spec.MadeKey, dget, KpKty, KpAlg, SymK, KpKeyOps]
  rw [tags_iff L (b := { b with key := some (Spec.MadeKey i [] key) }) (by rintro k ⟨⟩; exact hpp)]
  constructor
  · rintro ⟨i', k, kb, data, h1, h2, h3, h4, h5, h6⟩
    simp only [Option.some.injEq] at h2
    subst h2
    rw [hK] at h4; simp at h4; subst h4
    have h1 : b.getAttr Hdr.Algorithm = .ok (algCls i') := h1
    rw [ha] at h1; simp at h1; subst h1
    exact ⟨data, h5, h6⟩
  · rintro ⟨data, h5, h6⟩
    exact ⟨i, _, key, data, ha, rfl, by rw [← madeKey_eq]; exact symStore_permits (c := ⟨.alg, i⟩) key (.inl rfl), hK, h5, h6⟩

/-- C82: with one recipient with direct key agreement, exactly if the agreement gives a key for the MAC algorithm, that key gives a tag, and
everything can be written. -/
theorem c82_mac_encode_agreed {C : Crypto} (L : C.Laws) {R : Rand} {m : Mac} {tag : Bool} {r : Rcpt} {t : Int} (hr : m.recipients = some [r])
    (ha : m.base.getAttr Hdr.Algorithm = .ok (algCls t)) (hd : r.cls = .directKeyAgreement) (hf : r.recipients = [])
    (hk : ∀ k, r.base.key = some k → Spec.PlainPolicy k)
    (hp : ∀ alg kind store, Spec.PeerIs r.base true alg (.key kind store) → Spec.PlainPolicy { kind := kind, store := store }) :
    (∃ out m', m.encode C R tag true = .ok (out, m')) ↔
      Spec.ShortProtected m.base ∧ Spec.HeaderWritable m.base m.base.uhdr ∧ Spec.ShortPayload m.base.payload ∧
      Spec.AgreementWritable (Mode.base m.base.tstr).classes r.base ∧
      ∃ kek data out, Spec.DirectlyAgreed C r.base true t kek ∧ macStructure b!"MAC" m.base = .ok data ∧ Spec.MacTag C t kek data out := by
  obtain ⟨mb, mt, mrs⟩ := m
  simp only at hr ha
  subst hr
  have h1 : verifyRecipients [r] = .ok [.directKeyAgreement] := by
    refine verifyRecipients_iff.mpr ⟨by simp [hd], ?_, ?_⟩ <;> simp [hd]
  have henc : ∀ c m1, Mac.computeTag C R { base := mb, authTag := mt, recipients := some [r] } = .ok (c, m1) ↔
      ∃ kek, Spec.DirectlyAgreed C r.base true t kek ∧ macCompute C b!"MAC" { mb with key := some (Spec.MadeKey t [] kek) } = .ok c ∧
        m1 = { base := { mb with key := some (Spec.MadeKey t [] kek) }, authTag := .bytes c, recipients := some [r] } := by
    intro c m1
    constructor
    · intro h
      simp only [Mac.computeTag, ha, ok_bind, h1] at h
      rw [if_neg (by decide), if_pos (by decide)] at h
      simp only [bind_eq_ok, Except.ok.injEq, Prod.mk.injEq] at h
      obtain ⟨k, h2, c', h3, rfl, rfl⟩ := h
      obtain ⟨kek, h4, rfl⟩ := (directlyAgreed_iff hk hp).mp h2
      exact ⟨kek, h4, h3, rfl⟩
    · rintro ⟨kek, h4, h3, rfl⟩
      have h2 := (directlyAgreed_iff (C := C) (t := t) hk hp).mpr ⟨kek, h4, rfl⟩
      simp only [Mac.computeTag, ha, ok_bind, h1]
      rw [if_neg (by decide), if_pos (by decide)]
      simp only [h2, ok_bind, h3]
  rw [encode_mac (r := r) (rs := []) fun c m1 h => by
    obtain ⟨kek, _, _, rfl⟩ := (henc c m1).mp h
    rfl]
  constructor
  · rintro ⟨pe, c, m1, g1, g2, _, vs, rs', g4, g5⟩
    obtain ⟨kek, g6, g7, rfl⟩ := (henc c m1).mp g2
    obtain ⟨data, e1, e2⟩ := (tagsMade_iff L ha).mp g7
    obtain ⟨w1, w2, w3, w4⟩ := (finishMac_iff (b := mb) (macTag_short L e2)).mp g5
    exact ⟨⟨pe, g1, w1⟩, w2, w3, (agreed_head hd hf g6).mp ⟨vs, rs', g4, w4⟩, kek, data, c, g6, e1, e2⟩
  · rintro ⟨⟨pe, g1, w1⟩, w2, w3, g0, kek, data, c, g6, e1, e2⟩
    obtain ⟨vs, rs', g4, w4⟩ := (agreed_head (R := R) (path := []) hd hf g6).mpr g0
    have g7 := (tagsMade_iff L ha).mpr ⟨data, e1, e2⟩
    exact ⟨pe, c, _, g1, (henc c _).mpr ⟨kek, g6, g7, rfl⟩, ⟨_, ha⟩, vs, rs', g4,
      (finishMac_iff (b := mb) (macTag_short L e2)).mpr ⟨w1, w2, w3, w4⟩⟩

/-- C82: recipients that wrap a key are never encoded in a COSE_Mac message, whatever is in it. -/
theorem c82_mac_wrapped {C : Crypto} {R : Rand} {m : Mac} {tag : Bool} {rs : List Rcpt} (hr : m.recipients = some rs)
    (hd : ∀ r ∈ rs, r.cls = .keyWrap ∨ r.cls = .keyAgreementWithKeyWrap) : ∃ e, m.encode C R tag true = .error e := by
  cases h : m.encode C R tag true with
  | error e => exact ⟨e, rfl⟩
  | ok o =>
    exfalso
    simp only [Mac.encode, if_true] at h
    obtain ⟨pe, h1, h⟩ := bind_eq_ok.mp h
    obtain ⟨⟨c, m1⟩, h2, h⟩ := bind_eq_ok.mp h
    simp only [Mac.computeTag, hr, bind_eq_ok] at h2
    obtain ⟨alg, _, ts, hts, h2⟩ := h2
    have hts := verifyRecipients_types hts
    subst hts
    rw [if_neg, if_neg] at h2
    · split at h2
      · simp only [bind_eq_ok] at h2
        obtain ⟨n, _, x, _, h2⟩ := h2
        simp at h2
      · simp at h2
    · simp only [List.contains_iff_mem, List.mem_map]
      rintro ⟨s, hs, e⟩
      have := hd s hs; simp [e] at this
    · simp only [List.contains_iff_mem, List.mem_map]
      rintro ⟨s, hs, e⟩
      have := hd s hs; simp [e] at this

/-! ### Cases -/

theorem plain_of {k : Key} (h1 : (match dget k.store (.cls KpAlg) with
      | none => true
      | some (.cls ⟨.alg, _⟩) => true
      | _ => false) = true) (h2 : (match dget k.store (.cls KpKeyOps) with
      | none => true
      | some (.arr _) => true
      | _ => false) = true) : Spec.PlainPolicy k := by
  refine ⟨?_, ?_⟩
  · split at h1
    · exact .inl (by assumption)
    · exact .inr ⟨_, by assumption⟩
    · simp at h1
  · split at h2
    · exact .inl (by assumption)
    · exact .inr ⟨_, by assumption⟩
    · simp at h2

/-- A message with an AES-KW, an RSA-OAEP, an ECDH-ES and an ECDH-SS recipient meets the hypotheses of `c82_enc_encode_wrapped` and is encoded; so
all four recipients can wrap and be written. -/
example : ∀ (j : Nat) r, Sample.encMix.recipients[j]? = some r → Spec.WrapWritable toy Sample.rand (Mode.base false).classes j r (Sample.rand.cek 16) := by
  obtain ⟨⟨o, m'⟩, h, _⟩ := res_any (r := Sample.encMix.encode toy Sample.rand true true) (p := fun _ => true) (by decide +kernel)
  refine ((c82_enc_encode_wrapped (t := 1) (bits := 128) (by simp [Sample.encMix]) (fun n => List.length_replicate ..) (by decide +kernel)
    (by decide +kernel) rfl ?_ ?_ ?_).mp ⟨o, m', h⟩).2.2.2.1
  · decide
  · decide
  · intro r hr k hk
    simp only [Sample.encMix, List.mem_cons, List.not_mem_nil, or_false] at hr
    rcases hr with rfl | rfl | rfl | rfl
    · simp only [Sample.kwRcpt, Rcpt.base, Option.some.injEq] at hk
      subst hk
      exact plain_of (by decide +kernel) (by decide +kernel)
    · simp only [Sample.oaepRcpt, Rcpt.base, Option.some.injEq] at hk
      subst hk
      exact plain_of (by decide +kernel) (by decide +kernel)
    · simp [Sample.esRcpt, Rcpt.base] at hk
    · simp only [Sample.ssRcpt, Rcpt.base, Option.some.injEq] at hk
      subst hk
      exact plain_of (by decide +kernel) (by decide +kernel)

/-- A direct key agreement. -/
example : ∃ kek, Spec.DirectlyAgreed toy (Sample.dkaRcpt 1).base true 1 kek := by
  obtain ⟨⟨o, m'⟩, h, _⟩ := res_any (r := Sample.encDka.encode toy Sample.rand true true) (p := fun _ => true) (by decide +kernel)
  obtain ⟨-, -, -, kek, h, -⟩ := (c82_enc_encode_agreed (t := 1) (r := Sample.dkaRcpt 1) rfl (by decide +kernel) rfl rfl (fun k hk => by
    simp only [Sample.dkaRcpt, Rcpt.base, Option.some.injEq] at hk
    subst hk
    exact plain_of (by decide +kernel) (by decide +kernel)) (fun alg kind store hp => by
    rcases hp with ⟨_, h⟩ | ⟨h, _⟩ | ⟨h, _⟩
    · have : some (Sample.rcvPub.toVal) = some (Val.key kind store) := h
      simp only [Key.toVal, Option.some.injEq, Val.key.injEq] at this
      obtain ⟨rfl, rfl⟩ := this
      exact plain_of (by decide +kernel) (by decide +kernel)
    · simp at h
    · simp at h)).mp ⟨o, m', h⟩
  exact ⟨kek, h⟩

/-- Direct encryption and a direct MAC. -/
example : (∀ r ∈ Sample.enc.recipients, Spec.DirectWritable (Mode.base false).classes r) ∧ ∃ t, Spec.Tags toy b!"MAC" Sample.mac.base t := by
  obtain ⟨⟨o, m'⟩, h, _⟩ := res_any (r := Sample.enc.encode toy Sample.rand true true) (p := fun _ => true) (by decide +kernel)
  obtain ⟨⟨o', m''⟩, h', _⟩ := res_any (r := Sample.mac.encode toy Sample.rand true true) (p := fun _ => true) (by decide +kernel)
  refine ⟨((c82_enc_encode_direct (by simp [Sample.enc]) (by decide) ?_).mp ⟨o, m', h⟩).2.2.2.1,
    ((c82_mac_encode_direct toy_laws (rs := [Sample.directRcpt 1]) rfl (by simp) (by decide) ?_).mp ⟨o', m'', h'⟩).2.2.2.2.2⟩
  · intro k hk
    simp only [Sample.enc, Sample.enc0, Sample.baseWith, Option.some.injEq] at hk
    subst hk
    exact plain_of (by decide +kernel) (by decide +kernel)
  · intro k hk
    simp only [Sample.mac, Sample.mac0, Sample.baseWith, Option.some.injEq] at hk
    subst hk
    exact plain_of (by decide +kernel) (by decide +kernel)

/-- A recipient with AES key wrap and a protected header never wraps. -/
example (R : Rand) (phase : Nat) (path : List Nat) (c : Bytes) (r' : Rcpt) :
    rcptEncrypt toy R phase path ((Sample.kwRcpt 1).withBase { (Sample.kwRcpt 1).base with phdr := [(.cls Hdr.KID, .bytes b!"kek")] }) ≠ .ok (c, r') := by
  intro h
  have := ((c82_wrap rfl (fun k hk => by
    simp only [Sample.kwRcpt, Rcpt.withBase, Rcpt.base, Option.some.injEq] at hk
    subst hk
    exact plain_of (by decide +kernel) (by decide +kernel))).mp h).2.1
  simp [Sample.kwRcpt, Rcpt.withBase, Rcpt.base] at this

end Cose
