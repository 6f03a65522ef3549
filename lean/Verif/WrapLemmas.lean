import Verif.EphemLemmas
/-!
# Recipients of a key-wrapping message recover the wrapped key
-/
set_option autoImplicit false
namespace Cose

/-! ### Key agreement -/

/-- Both sides of a key agreement derive the same key. -/
theorem agreeKek_agree {C : Crypto} (L : C.Laws) {crv : Cls} {sk rk pk hk : Key} {b b' : Base} {w alg peer peer' : Val}
    {s : Bytes} (hpeer : asKey peer = .ok pk) (hpeer' : asKey peer' = .ok hk)
    (h1 : Spec.PublicOf C crv rk pk) (h2 : Spec.PublicOf C crv sk hk)
    (hctx : kdfContext b' w = kdfContext b w) (h : agreeKek C b w peer (some sk) alg = .ok s) :
    agreeKek C b' w peer' (some rk) alg = .ok s := by
  obtain ⟨rd, px, py, r1, _, r2, r3, r4, rn, r5, r6, r7⟩ := h1
  obtain ⟨sd, hx, hy, s1, _, s2, s3, s4, sn, s5, s6, s7⟩ := h2
  unfold agreeKek at h ⊢
  split at h
  · rename_i hh ww ha
    simp only [bind_eq_ok, hpeer, r2, Except.ok.injEq, exists_eq_left'] at h
    obtain ⟨ctx, hc, h⟩ := h
    simp only [hpeer', ok_bind, s2, hctx, hc]
    simp only [deriveKek, ha, bind_eq_ok, s1, intFromHex_bytes sn, r3, r4, intFromHex_bytes r5, intFromHex_bytes r6,
      Except.ok.injEq, exists_eq_left'] at h
    obtain ⟨z, hz, info, hi, h⟩ := h
    simp only [deriveKek, ha, r1, intFromHex_bytes rn, s3, s4, intFromHex_bytes s5, intFromHex_bytes s6, ok_bind]
    rw [L.ecdh_comm r7 s7, hz]
    simp only [ok_bind, hi, h]
  · simp at h

/-- The KDF context only depends on the headers other than the key headers, and on the supplementary
information in the local attributes. -/
theorem kdfContext_congr {b b' : Base} {w : Val} (h1 : b'.phdr = b.phdr)
    (h2 : ∀ q : Cls, q ≠ Hdr.EphemeralKey → q ≠ Hdr.StaticKey → dget b'.uhdr (.cls q) = dget b.uhdr (.cls q))
    (h3 : getD b'.localAttrs Hdr.SuppPubOther (.bytes []) = getD b.localAttrs Hdr.SuppPubOther (.bytes []))
    (h4 : getD b'.localAttrs Hdr.SuppPrivOther (.bytes []) = getD b.localAttrs Hdr.SuppPrivOther (.bytes [])) :
    kdfContext b' w = kdfContext b w := by
  have hg : ∀ q : Cls, q ≠ Hdr.EphemeralKey → q ≠ Hdr.StaticKey → b'.getAttr q = b.getAttr q := by
    intro q n1 n2
    simp only [Base.getAttr, Base.getAttrD, h1, h2 q n1 n2]
  unfold kdfContext
  rw [hg Hdr.PartyUID (by decide) (by decide), hg Hdr.PartyUNonce (by decide) (by decide),
    hg Hdr.PartyUOther (by decide) (by decide), hg Hdr.PartyVID (by decide) (by decide),
    hg Hdr.PartyVNonce (by decide) (by decide), hg Hdr.PartyVOther (by decide) (by decide), h1, h3, h4]

/-! ### Recipients whose key the receiver holds -/

/-- The headers of a recipient as received. -/
def Spec.received (ph uh : Dict) : Base := { phdr := ph, uhdr := uh }

/-- The supplementary information of the KDF context is configured alike on both sides. -/
def Spec.SameSupp (la la' : Dict) : Prop :=
  getD la Hdr.SuppPubOther (.bytes []) = getD la' Hdr.SuppPubOther (.bytes []) ∧
  getD la Hdr.SuppPrivOther (.bytes []) = getD la' Hdr.SuppPrivOther (.bytes [])

/-- `rk`, with local attributes `la`, is the key with which the receiver can unwrap what is sent to
recipient `r` (whose unprotected headers arrive as `uh`). -/
inductive Spec.Unwraps (C : Crypto) (r : Rcpt) (uh : Dict) (rk : Key) (la : Dict) : Prop
  /-- AES key wrap: the same key-encryption key -/
  | aesKw {i : Int} {k : Key} : r.base.getAttr Hdr.Algorithm = .ok (algCls i) → i ∈ [-3, -4, -5] →
      r.base.key = some k → rk.symK = k.symK → Unwraps C r uh rk la
  /-- RSA-OAEP: a private key with the sender's modulus and exponent -/
  | oaep {i : Int} {k : Key} {nums : RsaNums} : r.base.getAttr Hdr.Algorithm = .ok (algCls i) → i ∈ [-40, -41, -42] →
      r.base.key = some k → Spec.Permits rk .rsa (algCls i) [Op.Unwrap, Op.Decrypt] → rsaNumsOf rk = .ok nums →
      rk.rsaParam RsaN = k.rsaParam RsaN → rk.rsaParam RsaE = k.rsaParam RsaE → Unwraps C r uh rk la
  /-- ECDH with a key chosen by the sender, whose public part is in the header: `rk` belongs to the
  static key the sender has been given -/
  | ecdh {i : Int} {crv : Cls} {sk pk hk : Key} : r.base.getAttr Hdr.Algorithm = .ok (algCls i) →
      i ∈ [-29, -30, -31, -32, -33, -34] → r.base.key = some sk → dget r.base.localAttrs (.cls Hdr.StaticKey) = some (pk.toVal) →
      (Spec.received r.base.phdr uh).getAttr (if i ∈ [-29, -30, -31] then Hdr.EphemeralKey else Hdr.StaticKey) = .ok hk.toVal →
      Spec.PublicOf C crv sk hk → Spec.PublicOf C crv rk pk → Spec.SameSupp la r.base.localAttrs → Unwraps C r uh rk la
  /-- ECDH with a generated ephemeral key -/
  | ecdhGenerated {i : Int} {crv : Cls} {pk : Key} : r.base.getAttr Hdr.Algorithm = .ok (algCls i) →
      i ∈ [-29, -30, -31] → r.base.key = none → dget r.base.localAttrs (.cls Hdr.StaticKey) = some (pk.toVal) →
      crvKind crv = some KtyEC2 → Spec.PublicOf C crv rk pk → Spec.SameSupp la r.base.localAttrs → Unwraps C r uh rk la

/-- The receiver has set key and local attributes of the decoded recipient. -/
def Rcpt.receiver (r : Rcpt) (rk : Key) (la : Dict) : Rcpt := r.withBase { r.base with key := some rk, localAttrs := la }

theorem publicOf_toVal {C : Crypto} {crv : Cls} {sk pk : Key} (h : Spec.PublicOf C crv sk pk) :
    Spec.PublicOf C crv sk { kind := pk.kind, store := pk.store } := by
  obtain ⟨d, x, y, h1, h2, h3, h4, h5, h6⟩ := h
  exact ⟨d, x, y, h1, h2, h3, h4, h5, h6⟩

theorem asKey_toVal (k : Key) : asKey k.toVal = .ok { kind := k.kind, store := k.store } := rfl

/-! ### Reception of a recipient -/

theorem recv_rcpt {C : Crypto} {tstr allow : Bool} {b : Base} {ph uh : Dict} (hs : Spec.Sendable C tstr allow b ph uh)
    {pe : Bytes} (hp : b.phdrEncoded = .ok pe) {alg : Val} {cls : RCls} (ha : b.getAttr Hdr.Algorithm = .ok alg)
    (hc : rcptClass alg = .ok cls) :
    ∃ w, Sent (.base tstr) (.map b.uhdr) (.map w) ∧ ∀ ctx oid p,
      createRecipient C allow ctx oid (.arr [.bytes pe, .map w, .bytes p]) =
        rcptFromObj C cls (.arr [.bytes pe, .map w, .bytes p]) allow ctx oid ∧
      baseFromObj C [.bytes pe, .map w, .bytes p] allow = .ok (recvBase pe ph uh (some p), []) ∧
      (recvBase pe ph uh (some p)).getAttr Hdr.Algorithm = .ok alg := by
  obtain ⟨w, h1, h2, h3⟩ := hdrSend_wire hs.unprot
  refine ⟨w, ⟨h1, h2⟩, ?_⟩
  intro ctx oid p
  have hn : alg ≠ .none := by
    obtain ⟨c, rfl, _⟩ := rcptClass_ne_none hc
    simp
  have hg : (recvBase pe ph uh (some p)).getAttr Hdr.Algorithm = .ok alg := by
    rw [sendable_getAttr hs rfl rfl (by decide) (by decide), ha]
  refine ⟨createRecipient_received (sendable_prot hs hp) h3 rfl rfl hg hn hc, ?_, hg⟩
  exact baseFromObj_iff.mpr ⟨.bytes pe, .map w, rfl, sendable_prot hs hp, .full h3, rfl, rfl, rfl, rfl⟩

theorem rcptEncode_flat {C : Crypto} {R : Rand} {path : List Nat} {r r2 : Rcpt} {v : Val} (hr : r.recipients = [])
    (h : rcptEncode C R path r = .ok (v, r2)) :
    ∃ head b', rcptHead C R path r = .ok (head, b') ∧ v = .arr head ∧ r2 = r.withBase b' := by
  obtain ⟨cls, b, ctx, oid, rs⟩ := r
  simp only [Rcpt.recipients] at hr
  subst hr
  simp only [rcptEncode, bind_eq_ok] at h
  obtain ⟨⟨head, b'⟩, h1, h2⟩ := h
  simp at h2
  exact ⟨head, b', h1, h2.1.symm, h2.2.symm⟩

/-! ### AES key wrap and RSA-OAEP -/

theorem kw_ids {i : Int} : i ∈ [-3, -4, -5] ↔ ∃ n, algFam (algCls i) = some (.aesKw n) := by
  constructor
  · intro h
    simp at h
    rcases h with rfl | rfl | rfl
    · exact ⟨16, rfl⟩
    · exact ⟨24, rfl⟩
    · exact ⟨32, rfl⟩
  · rintro ⟨n, h⟩
    obtain ⟨c, m, h1, _, h2⟩ := algFam_reg h
    simp at h1; subst h1
    have : ∀ p ∈ algTable, (∃ n, p.2 = .aesKw n) → p.1 ∈ [(-3 : Int), -4, -5] := by
      intro p hp ⟨n, hn⟩
      have : ∀ p ∈ algTable, (match p.2 with | .aesKw _ => decide (p.1 ∈ [(-3 : Int), -4, -5]) | _ => true) = true := by
        decide +kernel
      have := this p hp
      rw [hn] at this
      simpa using this
    exact this _ h2 ⟨n, rfl⟩

theorem algReg_of {i : Int} {f : AlgFam} (h : algFam (algCls i) = some f) : ∃ n, ((⟨.alg, i⟩ : Cls), n) ∈ registry .alg := by
  obtain ⟨c, n, h1, h2, _⟩ := algFam_reg h
  simp at h1; subst h1
  exact ⟨n, h2⟩

theorem unwrapOps_reg : ∀ o ∈ [Op.Decrypt, Op.Unwrap], ∃ n, (o, n) ∈ registry .op := by
  intro o ho; apply opReg; simp at ho; rcases ho with rfl | rfl <;> decide
theorem wrapOps_reg : ∀ o ∈ [Op.Wrap, Op.Encrypt], ∃ n, (o, n) ∈ registry .op := by
  intro o ho; apply opReg; simp at ho; rcases ho with rfl | rfl <;> decide
theorem unwrapOps_reg' : ∀ o ∈ [Op.Unwrap, Op.Decrypt], ∃ n, (o, n) ∈ registry .op := by
  intro o ho; apply opReg; simp at ho; rcases ho with rfl | rfl <;> decide
theorem deriveOps_reg : ∀ o ∈ [Op.DeriveKey], ∃ n, (o, n) ∈ registry .op := by
  intro o ho; apply opReg; simp at ho; subst ho; decide

/-- Unwrapping with the same key-encryption key. -/
theorem kwUnwrap_of_wrap {C : Crypto} (L : C.Laws) {n : Nat} {alg : Val} {ops ops' : List Cls} {kb cek c : Bytes}
    (h : kwKeyWrap C n { kind := .sym, store := symStore alg ops kb } (some cek) = .ok c) :
    kwKeyUnwrap C n { kind := .sym, store := symStore alg ops' kb } (some c) = .ok cek ∧ c ≠ [] := by
  simp only [kwKeyWrap, symStore_symK, ok_bind, lenOf, asBytes] at h
  split at h
  · simp at h
  · rename_i hl
    have := L.kw_length h
    refine ⟨?_, by rintro rfl; simp at this⟩
    simp only [kwKeyUnwrap, symStore_symK, ok_bind, lenOf, asBytes, if_neg hl]
    exact L.kw_unwrap h

/-- A key-wrap recipient as sent, and what the receiver recovers. -/
theorem kw_roundtrip {C : Crypto} (L : C.Laws) {b : Base} {salt c cek : Bytes} (hpl : b.payload = some cek)
    (h : kwEncrypt C salt b [] = .ok c) :
    c ≠ [] ∧ b.phdr = [] ∧ ∀ (b' : Base) (ctx : Bytes) (oid : Nat) (rk : Key), b'.getAttr Hdr.Algorithm = b.getAttr Hdr.Algorithm →
      b'.payload = some c → b'.key = some rk →
      ((∃ i k, b.getAttr Hdr.Algorithm = .ok (algCls i) ∧ i ∈ [-3, -4, -5] ∧ b.key = some k ∧ rk.symK = k.symK) ∨
       (∃ i k nums, b.getAttr Hdr.Algorithm = .ok (algCls i) ∧ i ∈ [-40, -41, -42] ∧ b.key = some k ∧
          Spec.Permits rk .rsa (algCls i) [Op.Unwrap, Op.Decrypt] ∧ rsaNumsOf rk = .ok nums ∧
          rk.rsaParam RsaN = k.rsaParam RsaN ∧ rk.rsaParam RsaE = k.rsaParam RsaE)) →
      rcptDecrypt C (.mk .keyWrap b' ctx oid []) = .ok cek := by
  unfold kwEncrypt at h
  obtain ⟨alg, ha, h⟩ := bind_eq_ok.mp h
  split at h
  · simp at h
  rename_i hp
  split at h
  · simp at h
  obtain ⟨isKw, hkw, h⟩ := bind_eq_ok.mp h
  split at h
  · rename_i hT
    simp only [bind_eq_ok] at h
    obtain ⟨kk, hkk, kek, hkek, _, _, h⟩ := h
    split at h
    · rename_i n hf
      obtain ⟨c0, nn, rfl, hreg, _⟩ := algFam_reg hf
      obtain ⟨kb, rfl, hl, rfl⟩ := mkSym_ok hreg wrapOps_reg hkek
      rw [hpl] at h
      obtain ⟨hu, hne⟩ := kwUnwrap_of_wrap L (ops' := [Op.Decrypt, Op.Unwrap]) h
      refine ⟨hne, by simpa using hp, ?_⟩
      intro b' ctx oid rk hg hp' hk' hcase
      rcases hcase with ⟨i, k, hi, hii, hbk, hsym⟩ | ⟨i, k, nums, hi, hii, _⟩
      · rw [ha] at hi; simp at hi; subst hi
        simp only [rcptDecrypt, hg, ha, ok_bind]
        rw [show inSet (algCls i) aesKws = .ok isKw from hkw]
        simp only [ok_bind, hT, if_true, kwKekDecrypt, hk']
        have : rk.symK = .ok (.bytes kb) := by
          rw [hsym, ← hkk, hbk]; rfl
        have hver := permits_verify (symStore_permits (c := ⟨.alg, i⟩) (ops := [Op.Decrypt, Op.Unwrap])
          (use := [Op.Unwrap, Op.Decrypt]) kb (.inr ⟨Op.Unwrap, by decide, by decide⟩))
        simp only [this, ok_bind, mkSym_bytes hreg unwrapOps_reg hl, hf, hp', hu]
        rw [hver]; rfl
      · rw [ha] at hi; simp at hi; subst hi
        simp at hii
        rcases hii with rfl | rfl | rfl <;> simp [algFam, algTable] at hf
    · simp at h
  · rename_i hT
    obtain ⟨isR, hr, h⟩ := bind_eq_ok.mp h
    split at h
    · rename_i hR
      split at h
      · simp at h
      · rename_i k hk
        obtain ⟨_, _, h⟩ := bind_eq_ok.mp h
        split at h
        · rename_i hh hf
          simp only [oaepKeyWrap, bind_eq_ok, hpl] at h
          obtain ⟨e, he, e', he', n, hn, n', hn', henc⟩ := h
          refine ⟨L.oaep_nonempty henc, by simpa using hp, ?_⟩
          intro b' ctx oid rk hg hp' hk' hcase
          rcases hcase with ⟨i, _, hi, hii, _⟩ | ⟨i, k', nums, hi, hii, hbk, hperm, hnums, h1, h2⟩
          · rw [ha] at hi; simp at hi; subst hi
            simp at hii
            rcases hii with rfl | rfl | rfl <;> simp [algFam, algTable] at hf
          · rw [ha] at hi; simp at hi; subst hi
            rw [hk] at hbk; simp at hbk; subst hbk
            simp only [rcptDecrypt, hg, ha, ok_bind]
            rw [show inSet (algCls i) aesKws = .ok isKw from hkw, show inSet (algCls i) oaeps = .ok isR from hr]
            simp only [ok_bind, hT, hR, if_true, hk', permits_verify hperm, hf, oaepKeyUnwrap, hnums, hp']
            have hn2 : nums.n = n' ∧ nums.e = e' := by
              simp only [rsaNumsOf, bind_eq_ok] at hnums
              obtain ⟨e0, e1, e2, e3, n0, n1, n2, n3, _, _, _, _, _, _, _, _, _, _, _, _, _, _, _, _, _, _, _, _, _, _, _, _, hnums⟩ := hnums
              simp at hnums; subst hnums
              rw [h2, he] at e1; simp at e1; subst e1
              rw [h1, hn] at n1; simp at n1; subst n1
              rw [he'] at e3; rw [hn'] at n3
              simp at e3 n3
              exact ⟨n3.symm, e3.symm⟩
            rw [← hn2.1, ← hn2.2] at henc
            exact L.oaep_ok henc
        · simp at h
    · simp at h

/-! ### Key agreement with key wrap -/

theorem kakwEncrypt_ok {C : Crypto} {d : Nat} {b b1 : Base} {c : Bytes} (h : kakwEncrypt C d b = .ok (c, b1)) :
    ∃ alg w kek n k sk, b.getAttr Hdr.Algorithm = .ok alg ∧
      getD b.localAttrs Hdr.StaticKey .none ≠ .none ∧
      ((b.key = some sk ∧ b1 = b) ∨
       (b.key = none ∧ inSet alg ecdhEsKw = .ok true ∧
         setupEphemeral C d b (getD b.localAttrs Hdr.StaticKey .none) = .ok b1 ∧ b1.key = some sk)) ∧
      keyWrapFunc alg = .ok w ∧
      agreeKek C b1 w (getD b.localAttrs Hdr.StaticKey .none) (some sk) alg = .ok kek ∧
      algFam w = some (.aesKw n) ∧ mkSym (.bytes kek) alg [Op.DeriveKey] = .ok k ∧
      kwKeyWrap C n k b1.payload = .ok c := by
  unfold kakwEncrypt at h
  dsimp only at h
  split at h
  · simp at h
  rename_i hpeer
  obtain ⟨alg, ha, h⟩ := bind_eq_ok.mp h
  split at h
  · simp at h
  have hh : ∃ b2, ((∃ k, b.key = some k ∧ b2 = b) ∨ (b.key = none ∧ inSet alg ecdhEsKw = .ok true ∧
      setupEphemeral C d b (getD b.localAttrs Hdr.StaticKey .none) = .ok b2)) ∧ (do
        let w ← keyWrapFunc alg
        let kek ← agreeKek C b2 w (getD b.localAttrs Hdr.StaticKey .none) b2.key alg
        match algFam w with
        | some (.aesKw n) => do
          let k ← mkSym (.bytes kek) alg [Op.DeriveKey]
          let c ← kwKeyWrap C n k b2.payload
          .ok (c, b2)
        | _ => .error .attributeError : Res (Bytes × Base)) = .ok (c, b1) := by
    split at h
    · rename_i k0 hk0
      exact ⟨b, .inl ⟨k0, hk0, rfl⟩, h⟩
    · rename_i hk0
      obtain ⟨es, hes, h⟩ := bind_eq_ok.mp h
      split at h
      · rename_i hT; subst hT
        obtain ⟨b2, hb2, h⟩ := bind_eq_ok.mp h
        exact ⟨b2, .inr ⟨hk0, hes, hb2⟩, h⟩
      · simp at h
  clear h
  obtain ⟨b2, hb2, h⟩ := hh
  obtain ⟨w, hw, h⟩ := bind_eq_ok.mp h
  obtain ⟨kek, hk, h⟩ := bind_eq_ok.mp h
  split at h
  · rename_i n hn
    simp only [bind_eq_ok] at h
    obtain ⟨k, hmk, c', hc, h⟩ := h
    simp at h
    obtain ⟨rfl, rfl⟩ := h
    have hsk : ∃ sk, b2.key = some sk := by
      cases hbk : b2.key with
      | some sk => exact ⟨sk, rfl⟩
      | none =>
        rw [hbk] at hk
        unfold agreeKek at hk
        split at hk
        · simp only [bind_eq_ok] at hk
          obtain ⟨_, _, _, _, _, _, hk⟩ := hk
          unfold deriveKek at hk
          split at hk <;> simp at hk
        · simp at hk
    obtain ⟨sk, hsk⟩ := hsk
    rw [hsk] at hk
    refine ⟨alg, w, kek, n, k, sk, ha, hpeer, ?_, hw, hk, hn, hmk, hc⟩
    rcases hb2 with ⟨k0, hk0, rfl⟩ | ⟨hk0, hes, hb2⟩
    · exact .inl ⟨hsk, rfl⟩
    · exact .inr ⟨hk0, hes, hb2, hsk⟩
  · simp at h

/-- The header with the sender's key. -/
def peerHdr (alg : Val) : Cls := if inSet alg ecdhEsKw = .ok true then Hdr.EphemeralKey else Hdr.StaticKey

theorem kwFunc_ids {alg w : Val} {n : Nat} (h : keyWrapFunc alg = .ok w) (hn : algFam w = some (.aesKw n)) :
    ∃ i, alg = algCls i ∧ i ∈ [-29, -30, -31, -32, -33, -34] ∧ (∃ n, (⟨.alg, i⟩, n) ∈ registry .alg) := by
  unfold keyWrapFunc at h
  split at h
  · rename_i ww hf
    obtain ⟨c, nn, rfl, hreg, htab⟩ := algFam_reg hf
    have : ∀ p ∈ algTable, (match p.2 with | .ecdh _ (some _) => decide (p.1 ∈ [(-29 : Int), -30, -31, -32, -33, -34]) | _ => true) = true := by
      decide +kernel
    have := this _ htab
    simp at this
    have hc : c.reg = .alg := registry_reg (by decide) hreg
    obtain ⟨r, i⟩ := c
    simp at hc; subst hc
    exact ⟨i, rfl, by simpa using this, nn, hreg⟩
  · simp at h; subst h
    simp [algFam, algTable] at hn
  · simp at h

theorem kakwDecrypt_recovers {C : Crypto} (L : C.Laws) {crv : Cls} {sk rk pk hk : Key} {b b' : Base} {alg w peer peer' : Val}
    {kek c cek : Bytes} {n : Nat} {k : Key} (hpeer : asKey peer = .ok pk) (hpeer' : asKey peer' = .ok hk)
    (h1 : Spec.PublicOf C crv rk pk) (h2 : Spec.PublicOf C crv sk hk)
    (hctx : kdfContext b' w = kdfContext b w) (ha : b'.getAttr Hdr.Algorithm = .ok alg)
    (hw : keyWrapFunc alg = .ok w) (hkek : agreeKek C b w peer (some sk) alg = .ok kek)
    (hn : algFam w = some (.aesKw n)) (hmk : mkSym (.bytes kek) alg [Op.DeriveKey] = .ok k)
    (hc : kwKeyWrap C n k (some cek) = .ok c) (hg : b'.getAttr (peerHdr alg) = .ok peer')
    (hkey : b'.key = some rk) (hpl : b'.payload = some c) : kakwDecrypt C b' = .ok cek := by
  obtain ⟨i, rfl, hi, nn, hreg⟩ := kwFunc_ids hw hn
  obtain ⟨kb, hkb, hl, rfl⟩ := mkSym_ok hreg deriveOps_reg hmk
  simp at hkb; subst hkb
  obtain ⟨hu, hne⟩ := kwUnwrap_of_wrap L (ops' := [Op.Unwrap, Op.Decrypt]) hc
  have hk' := agreeKek_agree L hpeer hpeer' h1 h2 hctx hkek
  have hver := permits_verify (symStore_permits (c := ⟨.alg, i⟩) (ops := [Op.Unwrap, Op.Decrypt])
          (use := [Op.Unwrap, Op.Decrypt]) kek (.inr ⟨Op.Unwrap, by decide, by decide⟩))
  have key : ∀ (es ss : Bool), inSet (algCls i) ecdhEsKw = .ok es → inSet (algCls i) ecdhSsKw = .ok ss → (es = true ∨ ss = true) →
      kakwDecrypt C b' = .ok cek := by
    intro es ss e1 e2 e3
    unfold kakwDecrypt
    rw [ha, ok_bind, e1, ok_bind, e2, ok_bind]
    have hp : (if es = true then b'.getAttr Hdr.EphemeralKey
      else if ss = true then b'.getAttr Hdr.StaticKey else .error .attributeError : Res Val) = .ok peer' := by
      rw [← hg, peerHdr, e1]
      cases es
      · simp at e3; simp [e3]
      · simp
    rw [show algCls i = Val.cls ⟨.alg, i⟩ from rfl] at *
    split
    · rename_i hT; simp only [hT, if_true] at hp
      rw [hp]; simp only [ok_bind, hw, hkey, hk', mkSym_bytes hreg unwrapOps_reg' hl, hver, hn, hpl, hu]
    · split
      · rename_i hT hT2; simp only [hT, hT2, if_true, if_false, Bool.false_eq_true] at hp
        rw [hp]; simp only [ok_bind, hw, hkey, hk', mkSym_bytes hreg unwrapOps_reg' hl, hver, hn, hpl, hu]
      · rename_i n1 n2; rcases e3 with h | h <;> contradiction
  simp at hi
  rcases hi with rfl | rfl | rfl | rfl | rfl | rfl <;> exact key _ _ rfl rfl (by decide)

theorem parseCrv_cls {kty crv c : Cls} (h : parseCrv kty (.cls crv) = .ok c) (hr : crv.reg = .crv) : c = crv := by
  simp only [parseCrv, bind_eq_ok] at h
  obtain ⟨a, h1, h2⟩ := h
  simp only [fromId] at h1
  split at h1 <;> simp at h1
  subst h1
  rename_i c' hres
  have h3 := resolve_some hres
  obtain ⟨_, n, hn⟩ := h3
  have hcr : c'.reg = .crv := registry_reg (by decide) hn
  have hid : c'.ident = crv.ident := (lookupId_some hres).1
  have : c' = crv := by cases c'; cases crv; simp_all
  dsimp only at h2
  split at h2 <;> simp at h2
  rw [← h2, this]

/-! ### The whole recipient -/

/-- A recipient that carries a wrapped content key: AES-KW, RSA-OAEP or ECDH with key wrap, without nested
recipients and without a preset content key. -/
def Spec.WrapRecipient (r : Rcpt) : Prop :=
  r.recipients = [] ∧ r.base.payload = some [] ∧ ∃ i : Int, r.base.getAttr Hdr.Algorithm = .ok (algCls i) ∧
    ((r.cls = .keyWrap ∧ i ∈ [-3, -4, -5, -40, -41, -42]) ∨
     (r.cls = .keyAgreementWithKeyWrap ∧ i ∈ [-29, -30, -31, -32, -33, -34]))

/-- What the receiver gets for recipient `r` when the content key is `cek`. -/
def Spec.WrapReceived (C : Crypto) (uh : Dict) (cek : Bytes) (r r' : Rcpt) : Prop :=
  r'.cls = r.cls ∧ r'.recipients = [] ∧ r'.base.phdr = r.base.phdr ∧
    (∀ q : Cls, q ≠ Hdr.EphemeralKey → q ≠ Hdr.StaticKey → dget r'.base.uhdr (.cls q) = dget r.base.uhdr (.cls q)) ∧
    (r'.base.uhdr = uh ∨ r.cls = .keyAgreementWithKeyWrap ∧ r.base.key = none ∧
      ∃ store, r'.base.uhdr = uh ++ [(.cls Hdr.EphemeralKey, .key .ec2 store)]) ∧
    ∀ rk la, Spec.Unwraps C r uh rk la → rcptDecrypt C (r'.receiver rk la) = .ok cek

theorem rcptClass_kw {i : Int} (h : i ∈ [-3, -4, -5, -40, -41, -42]) : rcptClass (algCls i) = .ok .keyWrap := by
  simp at h
  rcases h with rfl | rfl | rfl | rfl | rfl | rfl <;> rfl

theorem rcptClass_kakw {i : Int} (h : i ∈ [-29, -30, -31, -32, -33, -34]) :
    rcptClass (algCls i) = .ok .keyAgreementWithKeyWrap := by
  simp at h
  rcases h with rfl | rfl | rfl | rfl | rfl | rfl <;> rfl

theorem inSet_alg (i : Int) (l : List Int) : ∃ b, inSet (algCls i) l = .ok b := ⟨_, rfl⟩

theorem sendable_payload {C : Crypto} {tstr allow : Bool} {b : Base} {ph uh : Dict} (hs : Spec.Sendable C tstr allow b ph uh)
    (p : Option Bytes) : Spec.Sendable C tstr allow { b with payload := p } ph uh := ⟨hs.prot, hs.unprot⟩

theorem peerHdr_es {i : Int} (hi : i ∈ [-29, -30, -31, -32, -33, -34]) :
    peerHdr (algCls i) = if i ∈ [-29, -30, -31] then Hdr.EphemeralKey else Hdr.StaticKey := by
  simp at hi
  rcases hi with rfl | rfl | rfl | rfl | rfl | rfl <;> rfl

theorem getAttr_congr {b b' : Base} (h1 : b'.phdr = b.phdr) {q : Cls} (h2 : dget b'.uhdr (.cls q) = dget b.uhdr (.cls q)) :
    b'.getAttr q = b.getAttr q := by
  simp only [Base.getAttr, Base.getAttrD, h1, h2]

theorem wrap_received {C : Crypto} (L : C.Laws) {R : Rand} {tstr allow : Bool} {r r1 r2 : Rcpt} {uh : Dict} {v : Val}
    {cek c0 : Bytes} {p0 p1 : List Nat}
    (hs : Spec.Sendable C tstr allow r.base r.base.phdr uh) (hr : Spec.WrapRecipient r)
    (h0 : rcptEncrypt C R 0 p0 (r.withBase { r.base with payload := some cek }) = .ok (c0, r1))
    (h1 : rcptEncode C R p1 r1 = .ok (v, r2)) :
    ∃ w, Sent (.base tstr) v w ∧ ∀ ctx oid, ∃ r', createRecipient C allow ctx oid w = .ok r' ∧ r'.oid = oid ∧
      Spec.WrapReceived C uh cek r r' := by
  obtain ⟨cls, b, rctx, roid, rs⟩ := r
  obtain ⟨hr1, hr2, i, ha, hcase⟩ := hr
  simp only [Rcpt.recipients, Rcpt.base, Rcpt.cls] at hr1 hr2 ha hcase hs
  subst hr1
  rcases hcase with ⟨rfl, hi⟩ | ⟨rfl, hi⟩
  · -- key wrap
    simp only [rcptEncrypt, Rcpt.withBase, Rcpt.cls, Rcpt.base, Rcpt.recipients, bind_eq_ok] at h0
    obtain ⟨c', _, h0⟩ := h0
    simp at h0
    obtain ⟨rfl, rfl⟩ := h0
    obtain ⟨head, b', hh, rfl, rfl⟩ := rcptEncode_flat rfl h1
    simp only [rcptHead, bind_eq_ok] at hh
    obtain ⟨pe, hpe, c, hc, hh⟩ := hh
    simp at hh
    obtain ⟨rfl, rfl⟩ := hh
    obtain ⟨w, hw, hrec⟩ := recv_rcpt (sendable_payload hs (some cek)) hpe (alg := algCls i) ha (rcptClass_kw hi)
    refine ⟨.arr [.bytes pe, .map w, .bytes c], sent_arr (.cons sent_bytes (.cons hw (.cons sent_bytes .nil))), ?_⟩
    intro ctx oid
    obtain ⟨e1, e2, e3⟩ := hrec ctx oid c
    obtain ⟨hne, hph, hrt⟩ := kw_roundtrip L rfl hc
    obtain ⟨bb, hbb⟩ := inSet_alg i aesKws
    refine ⟨.mk .keyWrap (recvBase pe b.phdr uh (some c)) ctx oid [], ?_, rfl, rfl, rfl, rfl, ?_, .inl rfl, ?_⟩
    · rw [e1]
      simp only [rcptFromObj, e2, ok_bind, e3, hbb]
      rw [if_neg, if_neg]
      · simpa [recvBase] using hne
      · have : b.phdr = [] := hph
        simp [recvBase, this]
    · intro q n1 n2
      exact hdrSend_get hs.unprot n1 n2
    · intro rk la hu
      refine hrt _ _ _ rk ?_ rfl rfl ?_
      · rw [show ({ b with payload := some cek } : Base).getAttr Hdr.Algorithm = _ from ha]; exact e3
      · cases hu with
        | aesKw g1 g2 g3 g4 => exact .inl ⟨_, _, g1, g2, g3, g4⟩
        | oaep g1 g2 g3 g4 g5 g6 g7 => exact .inr ⟨_, _, _, g1, g2, g3, g4, g5, g6, g7⟩
        | ecdh g1 g2 =>
          simp only [Rcpt.base] at g1
          rw [ha] at g1; simp at g1; subst g1
          simp at hi g2
          omega
        | ecdhGenerated g1 g2 =>
          simp only [Rcpt.base] at g1
          rw [ha] at g1; simp at g1; subst g1
          simp at hi g2
          omega
  · -- key agreement with key wrap
    have hnoKw : ∀ j : Int, b.getAttr Hdr.Algorithm = .ok (algCls j) → j ∉ [-3, -4, -5] ∧ j ∉ [-40, -41, -42] := by
      intro j hj
      rw [ha] at hj; simp at hj; subst hj
      simp at hi ⊢
      omega
    simp only [rcptEncrypt, Rcpt.withBase, Rcpt.cls, Rcpt.base, Rcpt.recipients, bind_eq_ok] at h0
    obtain ⟨⟨c', b1⟩, hk0, h0⟩ := h0
    simp at h0
    obtain ⟨rfl, rfl⟩ := h0
    obtain ⟨head, b', hh, rfl, rfl⟩ := rcptEncode_flat rfl h1
    simp only [rcptHead, bind_eq_ok] at hh
    obtain ⟨pe, hpe, alg1, ha1, _, _, ⟨c, b2⟩, hk1, hh⟩ := hh
    simp only [Except.ok.injEq, Prod.mk.injEq] at hh
    obtain ⟨rfl, rfl⟩ := hh
    obtain ⟨alg0, w0, kek0, n0, k0, sk0, x1, x2, x3, _⟩ := kakwEncrypt_ok hk0
    obtain ⟨alg, w, kek, n, k, sk, y1, y2, y3, y4, y5, y6, y7, y8⟩ := kakwEncrypt_ok hk1
    have x1' : b.getAttr Hdr.Algorithm = .ok alg0 := x1
    rw [ha] at x1'; simp at x1'; subst x1'
    have hb1k : b1.key = some sk0 := by
      rcases x3 with ⟨z1, z2⟩ | ⟨_, _, _, z⟩
      · rw [z2]; exact z1
      · exact z
    have y3' : sk0 = sk ∧ b2 = b1 := by
      rcases y3 with ⟨z1, z2⟩ | ⟨z1, _⟩
      · rw [hb1k] at z1; simp at z1; exact ⟨z1, z2⟩
      · rw [hb1k] at z1; simp at z1
    obtain ⟨rfl, rfl⟩ := y3'
    clear y3
    -- what is known of the base after `encrypt`
    have hfin : ∃ uh', Spec.Sendable C tstr allow b2 b.phdr uh' ∧ b2.phdr = b.phdr ∧ b2.payload = some cek ∧
        b2.localAttrs = b.localAttrs ∧
        (∀ q : Cls, q ≠ Hdr.EphemeralKey → q ≠ Hdr.StaticKey → dget b2.uhdr (.cls q) = dget b.uhdr (.cls q)) ∧
        (uh' = uh ∨ b.key = none ∧ ∃ store, uh' = uh ++ [(.cls Hdr.EphemeralKey, .key .ec2 store)]) ∧
        ∀ rk la, Spec.Unwraps C (.mk .keyAgreementWithKeyWrap b rctx roid []) uh rk la → ∃ crv pk hk,
          asKey (getD b.localAttrs Hdr.StaticKey .none) = .ok pk ∧ Spec.PublicOf C crv rk pk ∧
          Spec.PublicOf C crv sk0 hk ∧ Spec.SameSupp la b.localAttrs ∧
          (Spec.received b.phdr uh').getAttr (peerHdr (algCls i)) = .ok hk.toVal := by
      rcases x3 with ⟨z1, rfl⟩ | ⟨z1, z2, z3, z4⟩
      · refine ⟨uh, sendable_payload hs _, rfl, rfl, rfl, fun _ _ _ => rfl, .inl rfl, ?_⟩
        intro rk la hu
        cases hu with
        | aesKw g1 g2 => exact absurd g2 (hnoKw _ g1).1
        | oaep g1 g2 => exact absurd g2 (hnoKw _ g1).2
        | ecdh g1 g2 g3 g4 g5 g6 g7 g8 =>
          simp only [Rcpt.base] at g1 g3 g4 g5
          rw [ha] at g1; simp at g1; subst g1
          replace z1 : b.key = some sk0 := z1
          rw [z1] at g3; simp at g3; subst g3
          rw [← peerHdr_es g2] at g5
          refine ⟨_, _, _, ?_, publicOf_toVal g7, g6, g8, g5⟩
          rw [getD, g4]; rfl
        | ecdhGenerated g1 g2 g3 =>
          simp only [Rcpt.base] at g3
          replace z1 : b.key = some sk0 := z1
          rw [z1] at g3; simp at g3
      · obtain ⟨pk, k', cv, bx, bY, uh', u1, ⟨vv, u2, u3⟩, u4, u5, u6, u7, u8, u9, u10⟩ := setupEphemeral_ok (sendable_payload hs (some cek)) z3
        rw [u5] at z4
        simp at z4; subst z4
        have e1 : b2.phdr = b.phdr := by rw [u5]
        refine ⟨uh', u6, e1, by rw [u5], by rw [u5], fun q n1 _ => u7 q n1, .inr ⟨z1, _, u10⟩, ?_⟩
        intro rk la hu
        cases hu with
        | aesKw g1 g2 => exact absurd g2 (hnoKw _ g1).1
        | oaep g1 g2 => exact absurd g2 (hnoKw _ g1).2
        | ecdh g1 g2 g3 =>
          simp only [Rcpt.base] at g3
          replace z1 : b.key = none := z1
          rw [z1] at g3; simp at g3
        | ecdhGenerated g1 g2 g3 g4 g5 g6 g7 =>
          rename_i _ crv pk'
          simp only [Rcpt.base] at g1 g4
          rw [ha] at g1; simp at g1; subst g1
          have hpk : asKey (getD b.localAttrs Hdr.StaticKey .none) = .ok { kind := pk'.kind, store := pk'.store } := by
            rw [getD, g4]; rfl
          have u1' : asKey (getD b.localAttrs Hdr.StaticKey .none) = .ok pk := u1
          rw [hpk] at u1'; simp at u1'; subst u1'
          have hcv : cv = crv := by
            obtain ⟨_, _, _, _, _, hc, _⟩ := publicOf_toVal g6
            rw [hc] at u2; simp at u2; subst u2
            refine parseCrv_cls u3 ?_
            rcases ec2_curves g5 with rfl | rfl | rfl | rfl <;> rfl
          subst hcv
          refine ⟨_, _, _, hpk, publicOf_toVal g6, u9, g7, ?_⟩
          rw [peerHdr_es hi, if_pos g2]
          have hn : getD b.phdr Hdr.EphemeralKey .none = .none := (getAttr_none u4).1
          rw [getAttr_uhdr (b := Spec.received b.phdr uh') hn]
          show Except.ok (getD uh' Hdr.EphemeralKey .none) = _
          rw [getD, u8]; rfl
    obtain ⟨uh', hs', f1, f2, f3, f4, f6, f5⟩ := hfin
    have ha' : b2.getAttr Hdr.Algorithm = .ok (algCls i) := by
      rw [getAttr_congr f1 (f4 _ (by decide) (by decide)), ha]
    rw [ha'] at y1; simp at y1; subst y1
    obtain ⟨w', hw, hrec⟩ := recv_rcpt hs' hpe (alg := algCls i) ha' (rcptClass_kakw hi)
    refine ⟨.arr [.bytes pe, .map w', .bytes c], sent_arr (.cons sent_bytes (.cons hw (.cons sent_bytes .nil))), ?_⟩
    intro ctx oid
    obtain ⟨e1, e2, e3⟩ := hrec ctx oid c
    rw [f2] at y8
    have hne : c ≠ [] := by
      obtain ⟨j, hj, _, nn, hreg⟩ := kwFunc_ids y4 y6
      simp at hj; subst hj
      obtain ⟨kb, _, _, rfl⟩ := mkSym_ok hreg deriveOps_reg y7
      exact (kwUnwrap_of_wrap L (ops' := []) y8).2
    have hget : ∀ q : Cls, q ≠ Hdr.EphemeralKey → q ≠ Hdr.StaticKey → dget uh' (.cls q) = dget b.uhdr (.cls q) := by
      intro q n1 n2
      rw [hdrSend_get hs'.unprot n1 n2, f4 q n1 n2]
    refine ⟨.mk .keyAgreementWithKeyWrap (recvBase pe b.phdr uh' (some c)) ctx oid [], ?_, rfl, rfl, rfl, rfl, hget, f6.imp id (fun h => ⟨rfl, h.1, h.2⟩), ?_⟩
    · rw [e1]
      simp only [rcptFromObj, e2, ok_bind]
      rw [if_neg]
      simpa [recvBase] using hne
    · intro rk la hu
      obtain ⟨crv, pk, hk, v1, v2, v3, v4, v5⟩ := f5 rk la hu
      rw [f3] at y5
      have hctx : kdfContext { recvBase pe b.phdr uh' (some c) with key := some rk, localAttrs := la } w = kdfContext b2 w := by
        refine kdfContext_congr f1.symm ?_ ?_ ?_
        · intro q n1 n2
          show dget uh' (.cls q) = _
          rw [hget q n1 n2, f4 q n1 n2]
        · rw [f3]; exact v4.1
        · rw [f3]; exact v4.2
      exact kakwDecrypt_recovers L v1 (asKey_toVal hk) v2 (publicOf_toVal v3) hctx e3 y4 y5 y6 y7 y8 v5 rfl rfl

end Cose
