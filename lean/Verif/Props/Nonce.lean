import Verif.Props.Policy
import Verif.Props.Tbs
import Verif.SpecNumber
/-!
# Nonces and MAC tags (C30, C31, C52)
-/
set_option autoImplicit false
namespace Cose

/-! ### Byte strings as numbers -/

theorem xor_shift {a b c d n : Nat} (hb : b < 2 ^ n) (hd : d < 2 ^ n) :
    (a * 2 ^ n + b) ^^^ (c * 2 ^ n + d) = (a ^^^ c) * 2 ^ n + (b ^^^ d) := by
  apply Nat.eq_of_testBit_eq
  intro i
  have hx : b ^^^ d < 2 ^ n := Nat.xor_lt_two_pow hb hd
  simp only [Nat.testBit_xor, Nat.mul_comm _ (2 ^ n), Nat.testBit_two_pow_mul_add _ hb, Nat.testBit_two_pow_mul_add _ hd,
    Nat.testBit_two_pow_mul_add _ hx]
  split <;> rfl

theorem natOfBytes_xor {a b : Bytes} (h : a.length = b.length) :
    natOfBytes (List.zipWith (· ^^^ ·) a b) = natOfBytes a ^^^ natOfBytes b := by
  induction a generalizing b with
  | nil => cases b with
    | nil => rfl
    | cons _ _ => simp at h
  | cons x t ih =>
    cases b with
    | nil => simp at h
    | cons y s =>
      have h' : t.length = s.length := by simpa using h
      have hl : (List.zipWith (fun (a b : UInt8) => a ^^^ b) t s).length = t.length := by simp [h']
      simp only [List.zipWith_cons_cons]
      rw [natOfBytes_cons, natOfBytes_cons, natOfBytes_cons, ih h', hl, ← h']
      have h1 := natOfBytes_lt t
      have h2 := natOfBytes_lt s
      rw [← h'] at h2
      have e : (256 : Nat) ^ t.length = 2 ^ (8 * t.length) := by rw [Nat.pow_mul]
      rw [e] at h1 h2 ⊢
      rw [xor_shift h1 h2]
      simp

theorem natOfBytes_zeros (n : Nat) (b : Bytes) : natOfBytes (List.replicate n 0 ++ b) = natOfBytes b := by
  induction n with
  | zero => simp
  | succ k ih => rw [List.replicate_succ, List.cons_append, natOfBytes_cons, ih]; simp

theorem byteLen_unique {n k : Nat} (h1 : 256 ^ k ≤ n) (h2 : n < 256 ^ (k + 1)) : (bitLength n + 7) / 8 = k + 1 := by
  have hn : n ≠ 0 := by
    have : 0 < 256 ^ k := Nat.pow_pos (by decide)
    omega
  have a := lt_pow_byteLen n
  have b := pow_byteLen_le hn
  have c := Nat.lt_of_le_of_lt h1 a
  have d := Nat.lt_of_le_of_lt b h2
  have c' := (Nat.pow_lt_pow_iff_right (a := 256) (by decide)).mp c
  have d' := (Nat.pow_lt_pow_iff_right (a := 256) (by decide)).mp d
  omega

/-- The shortest encoding of the number a byte string denotes is the string without its leading zeros. -/
theorem toBstr_natOfBytes (b : Bytes) : toBstr (natOfBytes b) = b.dropWhile (· == 0) := by
  induction b with
  | nil => rfl
  | cons x t ih =>
    by_cases hx : x = 0
    · subst hx
      rw [natOfBytes_cons]
      simpa using ih
    · rw [List.dropWhile_cons_of_neg (by simpa using hx)]
      unfold toBstr
      have hx' : 1 ≤ x.toNat := by
        have : x.toNat ≠ 0 := fun e => hx (UInt8.toNat_inj.mp (by simpa using e))
        omega
      have h1 : 256 ^ t.length ≤ natOfBytes (x :: t) := by
        rw [natOfBytes_cons]
        have := Nat.mul_le_mul_right (256 ^ t.length) hx'
        omega
      have h2 := natOfBytes_lt (x :: t)
      rw [byteLen_unique h1 h2]
      exact beBytes_natOfBytes (x :: t)

/-! ### C30 -/

/-- RFC 8152 section 3.1: the partial IV is left-padded with zeros to the length of the base IV, and the two
are combined with exclusive or. -/
def Spec.nonce (baseIv partialIv : Bytes) : Bytes :=
  List.zipWith (· ^^^ ·) baseIv (List.replicate (baseIv.length - partialIv.length) 0 ++ partialIv)

/-- The message has no IV; its key has the base IV `bi` and the message the partial IV `pi`. -/
structure Spec.DerivesNonce (b : Base) (bi pi : Bytes) : Prop where
  noIv : b.getAttr Hdr.IV = .ok .none
  key : ∃ k, b.key = some k ∧ dget k.store (.cls KpBaseIV) = some (.bytes bi)
  partialIv : b.getAttr Hdr.PartialIV = .ok (.bytes pi)
  baseIv : bi ≠ []

theorem getNonce_derived {b : Base} {bi pi : Bytes} (h : Spec.DerivesNonce b bi pi) :
    getNonce b = .ok (.bytes (toBstr (natOfBytes pi ^^^ natOfBytes bi))) := by
  obtain ⟨h1, ⟨k, h2, h3⟩, h4, h5⟩ := h
  have : k.baseIv = .bytes bi := by simp [Key.baseIv, getD, h3]
  simp [getNonce, h1, h2, this, h4, h5, intFromBytes, toBstr]

/-- C30, as far as it holds: the nonce is that of RFC 8152 *without its leading zero bytes*. -/
theorem c30_nonce_partial {b : Base} {bi pi : Bytes} (h : Spec.DerivesNonce b bi pi) (hl : pi.length ≤ bi.length) :
    getNonce b = .ok (.bytes ((Spec.nonce bi pi).dropWhile (· == 0))) := by
  rw [getNonce_derived h, ← toBstr_natOfBytes, Spec.nonce, natOfBytes_xor (by simp; omega), natOfBytes_zeros, Nat.xor_comm]

/-- C30: it is exactly the nonce of RFC 8152 when that does not begin with a zero byte. -/
theorem c30_nonce_exact {b : Base} {bi pi : Bytes} {x : UInt8} {t : Bytes} (h : Spec.DerivesNonce b bi pi)
    (hl : pi.length ≤ bi.length) (hn : Spec.nonce bi pi = x :: t) (hx : x ≠ 0) :
    getNonce b = .ok (.bytes (Spec.nonce bi pi)) := by
  rw [c30_nonce_partial h hl, hn, List.dropWhile_cons_of_neg (by simpa using hx)]

/-- C30: under one base IV, different partial IVs of the same length give different nonces. -/
theorem c30_nonce_distinct {b b' : Base} {bi pi pi' : Bytes} (h : Spec.DerivesNonce b bi pi)
    (h' : Spec.DerivesNonce b' bi pi') (hl : pi.length = pi'.length) (hne : pi ≠ pi') : getNonce b ≠ getNonce b' := by
  rw [getNonce_derived h, getNonce_derived h']
  intro e
  simp only [Except.ok.injEq, Val.bytes.injEq] at e
  have e2 := congrArg natOfBytes e
  unfold toBstr at e2
  rw [natOfBytes_beBytes_of_lt (lt_pow_byteLen _), natOfBytes_beBytes_of_lt (lt_pow_byteLen _)] at e2
  have e3 : natOfBytes pi = natOfBytes pi' := by
    have := congrArg (· ^^^ natOfBytes bi) e2
    simpa [Nat.xor_assoc] using this
  apply hne
  rw [← beBytes_natOfBytes pi, ← beBytes_natOfBytes pi', e3, hl]

/-- A key with a base IV that starts with a zero byte. -/
def Sample.ivKey : Key :=
  { kind := .sym
    store := [(.cls KpKty, .cls KtySym), (.cls KpBaseIV, .bytes [0, 1, 2, 3, 4, 5, 6, 7, 8, 9, 10, 11, 12]),
      (.cls SymK, .bytes (List.replicate 16 5))] }

def Sample.encPartial (pi : Bytes) : Enc0 :=
  { base := { Sample.baseWith 10 Sample.ivKey (some b!"hello") with uhdr := [(.cls Hdr.PartialIV, .bytes pi)] } }

theorem Sample.encPartial_derives (pi : Bytes) :
    Spec.DerivesNonce (Sample.encPartial pi).base [0, 1, 2, 3, 4, 5, 6, 7, 8, 9, 10, 11, 12] pi :=
  ⟨rfl, ⟨Sample.ivKey, rfl, by decide +kernel⟩, rfl, by simp⟩

/-- The property is false of the code: base IVs whose XOR with the partial IV starts with a zero byte give a
nonce that is too short. -/
theorem c30_refuted : ¬ ∀ (b : Base) (bi pi : Bytes), Spec.DerivesNonce b bi pi → pi.length ≤ bi.length →
    getNonce b = .ok (.bytes (Spec.nonce bi pi)) := by
  intro h
  have := h _ _ _ (Sample.encPartial_derives [7]) (by decide)
  revert this
  decide +kernel

example : Spec.DerivesNonce (Sample.encPartial [1, 7]).base [0, 1, 2, 3, 4, 5, 6, 7, 8, 9, 10, 11, 12] [1, 7] ∧
    (∃ x t, x ≠ 0 ∧ Spec.nonce [9, 1, 2, 3] [7] = x :: t) := ⟨Sample.encPartial_derives _, 9, [1, 2, 4], by decide, by decide⟩

/-! ### C31 -/

/-- The nonce handed to the cipher: the IV header if there is one, otherwise the one derived from base IV and
partial IV: the shortest byte string of the exclusive or of the two numbers. -/
inductive Spec.CipherNonce (b : Base) (n : Bytes) : Prop
  | iv : b.getAttr Hdr.IV = .ok (.bytes n) → CipherNonce b n
  | derived {k : Key} {bi pi : Val} {x y : Nat} : b.getAttr Hdr.IV = .ok .none → b.key = some k →
      dget k.store (.cls KpBaseIV) = some bi → bi ≠ .bytes [] → b.getAttr Hdr.PartialIV = .ok pi →
      Spec.BigEndian bi x → Spec.BigEndian pi y → Spec.Shortest n (y ^^^ x) → CipherNonce b n

theorem getNonce_inv {b : Base} {n : Bytes} (h : getNonce b = .ok (.bytes n)) : Spec.CipherNonce b n := by
  simp only [getNonce, bind_eq_ok] at h
  obtain ⟨iv, h1, h⟩ := h
  split at h
  · simp at h; subst h; exact .iv h1
  · rename_i hn
    simp at hn; subst hn
    split at h
    · simp at h
    · rename_i k hk
      split at h
      · rename_i hb
        simp only [bind_eq_ok] at h
        obtain ⟨p, h2, pn, h3, bn, h4, h5⟩ := h
        simp at h5
        cases hg : dget k.store (.cls KpBaseIV) with
        | none => simp [Key.baseIv, getD, hg] at hb
        | some bi =>
          have : k.baseIv = bi := by simp [Key.baseIv, getD, hg]
          rw [this] at hb h4
          exact .derived h1 hk hg hb h2 (intFromBytes_iff.mp h4) (intFromBytes_iff.mp h3) (h5 ▸ toBstr_shortest _)
      · simp at h

/-- What `encrypt` computes: one call of the AEAD with the nonce of `Spec.CipherNonce` (both kinds of
messages, `ctx` is the context string). -/
theorem encrypt_calls_cipher {C : Crypto} {ctx c : Bytes} {b : Base} (h : encEncrypt C ctx b = .ok c) :
    ∃ a k kb n aad p, Spec.CipherNonce b n ∧ b.key = some k ∧ k.symK = .ok (.bytes kb) ∧ b.payload = some p ∧
      encStructure ctx b = .ok aad ∧ C.aeadEnc a kb n aad p = .ok c := by
  unfold encEncrypt at h
  split at h
  · simp at h
  · rename_i k hk
    simp only [bind_eq_ok, callEncrypt] at h
    obtain ⟨alg, _, nv, hn, _, _, a, _, aad, haad, kk, h1, kb, h2, n, h3, h4⟩ := h
    rw [asBytes_ok] at h2 h3
    subst h2 h3
    split at h4
    · rename_i p hp
      exact ⟨a, k, kb, n, aad, p, getNonce_inv hn, hk, h1, hp, haad, h4⟩
    · simp at h4

theorem decrypt_calls_cipher {C : Crypto} {ctx p : Bytes} {b : Base} (h : encDecrypt C ctx b = .ok p) :
    ∃ a k kb n aad c, Spec.CipherNonce b n ∧ b.key = some k ∧ k.symK = .ok (.bytes kb) ∧ b.payload = some c ∧
      encStructure ctx b = .ok aad ∧ C.aeadDec a kb n aad c = .ok p := by
  simp only [encDecrypt, bind_eq_ok] at h
  obtain ⟨alg, _, nv, hn, h⟩ := h
  split at h
  · simp at h
  · rename_i k hk
    simp only [bind_eq_ok, callDecrypt] at h
    obtain ⟨_, _, a, _, aad, haad, kk, h1, kb, h2, n, h3, h4⟩ := h
    rw [asBytes_ok] at h2 h3
    subst h2 h3
    split at h4
    · rename_i p hp
      exact ⟨a, k, kb, n, aad, p, getNonce_inv hn, hk, h1, hp, haad, h4⟩
    · simp at h4

/-- C31, Encrypt0: a ciphertext is the output of the AEAD under the key of the message, the nonce of
`Spec.CipherNonce` and the Enc_structure. -/
theorem c31_enc0_encrypt {C : Crypto} {m : Enc0} {c : Bytes} (h : m.encrypt C = .ok c) :
    ∃ a k kb n aad p, Spec.CipherNonce m.base n ∧ m.base.key = some k ∧ k.symK = .ok (.bytes kb) ∧
      m.base.payload = some p ∧ encStructure b!"Encrypt0" m.base = .ok aad ∧ C.aeadEnc a kb n aad p = .ok c :=
  encrypt_calls_cipher h

theorem c31_enc0_decrypt {C : Crypto} {m : Enc0} {p : Bytes} (h : m.decrypt C = .ok p) :
    ∃ a k kb n aad c, Spec.CipherNonce m.base n ∧ m.base.key = some k ∧ k.symK = .ok (.bytes kb) ∧
      m.base.payload = some c ∧ encStructure b!"Encrypt0" m.base = .ok aad ∧ C.aeadDec a kb n aad c = .ok p :=
  decrypt_calls_cipher h

theorem enc_encrypt_inner {C : Crypto} {R : Rand} {m m' : Enc} {c : Bytes} (h : m.encrypt C R = .ok (c, m')) :
    encEncrypt C b!"Encrypt" m'.base = .ok c ∧ ∃ k, m'.base = { m.base with key := k } := by
  simp only [Enc.encrypt, bind_eq_ok] at h
  obtain ⟨target, _, types, _, h⟩ := h
  split at h
  · simp only [bind_eq_ok] at h
    obtain ⟨c', h1, h2⟩ := h
    simp at h2; obtain ⟨rfl, rfl⟩ := h2
    exact ⟨h1, m.base.key, rfl⟩
  · split at h
    · split at h
      · simp at h
      · simp only [bind_eq_ok] at h
        obtain ⟨k, _, c', h1, h2⟩ := h
        simp at h2; obtain ⟨rfl, rfl⟩ := h2
        exact ⟨h1, _, rfl⟩
    · split at h
      · simp only [bind_eq_ok] at h
        obtain ⟨n, _, ⟨kb, rs⟩, _, k, _, c', h1, h2⟩ := h
        simp at h2; obtain ⟨rfl, rfl⟩ := h2
        exact ⟨h1, _, rfl⟩
      · simp at h

theorem enc_decrypt_inner {C : Crypto} {m m' : Enc} {r : Rcpt} {p : Bytes} (h : m.decrypt C r = .ok (p, m')) :
    encDecrypt C b!"Encrypt" m'.base = .ok p ∧ ∃ k, m'.base = { m.base with key := k } := by
  simp only [Enc.decrypt, bind_eq_ok] at h
  obtain ⟨target, _, h⟩ := h
  split at h
  · simp at h
  · simp only [bind_eq_ok] at h
    obtain ⟨types, _, h⟩ := h
    split at h
    · simp only [bind_eq_ok] at h
      obtain ⟨c', h1, h2⟩ := h
      simp at h2; obtain ⟨rfl, rfl⟩ := h2
      exact ⟨h1, m.base.key, rfl⟩
    · split at h
      · simp only [bind_eq_ok] at h
        obtain ⟨k, _, c', h1, h2⟩ := h
        simp at h2; obtain ⟨rfl, rfl⟩ := h2
        exact ⟨h1, _, rfl⟩
      · simp at h

/-- C31, COSE_Encrypt; `m'` is the message after the call, which holds the content encryption key. -/
theorem c31_enc_encrypt {C : Crypto} {R : Rand} {m m' : Enc} {c : Bytes} (h : m.encrypt C R = .ok (c, m')) :
    ∃ a k kb n aad p, Spec.CipherNonce m'.base n ∧ m'.base.key = some k ∧ k.symK = .ok (.bytes kb) ∧
      m.base.payload = some p ∧ encStructure b!"Encrypt" m.base = .ok aad ∧ C.aeadEnc a kb n aad p = .ok c := by
  obtain ⟨h1, q, h2⟩ := enc_encrypt_inner h
  obtain ⟨a, k, kb, n, aad, p, h3, h4, h5, h6, h7, h8⟩ := encrypt_calls_cipher h1
  refine ⟨a, k, kb, n, aad, p, h3, h4, h5, ?_, ?_, h8⟩
  · rw [h2] at h6; exact h6
  · rw [h2] at h7; exact h7

theorem c31_enc_decrypt {C : Crypto} {m m' : Enc} {r : Rcpt} {p : Bytes} (h : m.decrypt C r = .ok (p, m')) :
    ∃ a k kb n aad c, Spec.CipherNonce m'.base n ∧ m'.base.key = some k ∧ k.symK = .ok (.bytes kb) ∧
      m.base.payload = some c ∧ encStructure b!"Encrypt" m.base = .ok aad ∧ C.aeadDec a kb n aad c = .ok p := by
  obtain ⟨h1, q, h2⟩ := enc_decrypt_inner h
  obtain ⟨a, k, kb, n, aad, p, h3, h4, h5, h6, h7, h8⟩ := decrypt_calls_cipher h1
  refine ⟨a, k, kb, n, aad, p, h3, h4, h5, ?_, ?_, h8⟩
  · rw [h2] at h6; exact h6
  · rw [h2] at h7; exact h7

/-- There is nothing a nonce could be made of: no IV, and no base IV in the key or no partial IV. -/
def Spec.NoNonce (b : Base) : Prop :=
  b.getAttr Hdr.IV = .ok .none ∧
  ((∀ k, b.key = some k → dget k.store (.cls KpBaseIV) = none ∨ dget k.store (.cls KpBaseIV) = some (.bytes [])) ∨
    b.getAttr Hdr.PartialIV = .ok .none)

/-- C31: without a nonce, `encrypt` and `decrypt` raise, and the cipher has no part in it. -/
theorem c31_no_nonce {b : Base} (h : Spec.NoNonce b) (ctx : Bytes) :
    (∃ e, ∀ C, encEncrypt C ctx b = .error e) ∧ (∃ e, ∀ C, encDecrypt C ctx b = .error e) := by
  have hg : ∃ e, getNonce b = .error e := by
    obtain ⟨h1, h2⟩ := h
    simp only [getNonce, h1, ok_bind, ne_eq, not_true_eq_false, if_false]
    cases hk : b.key with
    | none => exact ⟨_, rfl⟩
    | some k =>
      simp only
      split
      · rename_i hb
        rcases h2 with h2 | h2
        · rcases h2 k hk with h2 | h2
          · simp [Key.baseIv, getD, h2] at hb
          · simp [Key.baseIv, getD, h2] at hb
        · simp only [h2, ok_bind, intFromBytes]
          exact ⟨_, rfl⟩
      · exact ⟨_, rfl⟩
  obtain ⟨e, he⟩ := hg
  constructor
  · unfold encEncrypt
    cases hk : b.key with
    | none => exact ⟨_, fun _ => rfl⟩
    | some k =>
      cases ha : b.getAttr Hdr.Algorithm with
      | error e => exact ⟨e, fun _ => rfl⟩
      | ok alg => exact ⟨e, fun _ => by simp [he]⟩
  · unfold encDecrypt
    cases ha : b.getAttr Hdr.Algorithm with
    | error e => exact ⟨e, fun _ => rfl⟩
    | ok alg => exact ⟨e, fun _ => by simp [he]⟩

theorem c31_enc0_no_nonce {m : Enc0} (h : Spec.NoNonce m.base) :
    (∃ e, ∀ C, m.encrypt C = .error e) ∧ (∃ e, ∀ C, m.decrypt C = .error e) := c31_no_nonce h _

/-- COSE_Encrypt with direct encryption, where the key is the caller's. -/
theorem c31_enc_no_nonce {C : Crypto} {R : Rand} {m m' : Enc} {r : Rcpt} {x : Bytes} (h : Spec.NoNonce m'.base) :
    m.encrypt C R ≠ .ok (x, m') ∧ m.decrypt C r ≠ .ok (x, m') := by
  obtain ⟨⟨e, h1⟩, ⟨e', h2⟩⟩ := c31_no_nonce h b!"Encrypt"
  constructor
  · intro hc
    have := (enc_encrypt_inner hc).1
    rw [h1] at this; simp at this
  · intro hc
    have := (enc_decrypt_inner hc).1
    rw [h2] at this; simp at this

example : Spec.NoNonce { Sample.enc0.base with uhdr := [] } ∧ Spec.NoNonce { Sample.enc0.base with uhdr := [], key := some Sample.ivKey } ∧
    (Sample.enc0.encrypt toy).isOk = true ∧ ((Sample.encPartial [1, 7]).encrypt toy).isOk = true := by
  refine ⟨⟨rfl, .inl ?_⟩, ⟨rfl, .inr rfl⟩, by decide +kernel, by decide +kernel⟩
  intro k hk
  have : k = Sample.symKey := by
    have e : ({ Sample.enc0.base with uhdr := [] } : Base).key = some Sample.symKey := rfl
    rw [e] at hk; simpa using hk.symm
  subst this
  exact .inl (by decide +kernel)

/-! ### C52 -/

/-- HMAC algorithms: number, hash and length of the tag (RFC 8152 table 7). -/
def Spec.hmacAlgs : List (Int × HashId × Nat) := [(4, .sha256, 8), (5, .sha256, 32), (6, .sha384, 48), (7, .sha512, 64)]

/-- AES-CBC-MAC algorithms: number and length of the tag (RFC 8152 table 8). -/
def Spec.cbcMacAlgs : List (Int × Nat) := [(14, 8), (15, 8), (25, 16), (26, 16)]

/-- The tag RFC 8152 section 9 defines for key bytes `k` over `data`: HMAC truncated to the tag length, or the
last block of AES-CBC over the zero-padded data, truncated to the tag length. -/
inductive Spec.MacTag (C : Crypto) (alg : Int) (k data t : Bytes) : Prop
  | hmac {h : HashId} {n : Nat} : (alg, h, n) ∈ Spec.hmacAlgs → t = (C.hmac h k data).take n → MacTag C alg k data t
  | aes {n pad : Nat} {init last : Bytes} : (alg, n) ∈ Spec.cbcMacAlgs → pad < 16 → (data.length + pad) % 16 = 0 →
      C.aesCbc k (data ++ List.replicate pad 0) = .ok (init ++ last) → last.length = 16 → t = last.take n →
      MacTag C alg k data t

/-- Tag lengths in bytes (RFC 8152 tables 7 and 8). -/
def Spec.tagLength : Int → Option Nat
  | 4 => some 8 | 5 => some 32 | 6 => some 48 | 7 => some 64
  | 14 => some 8 | 15 => some 8 | 25 => some 16 | 26 => some 16
  | _ => none

theorem zeroPad_spec (data : Bytes) : ∃ pad, pad < 16 ∧ (data.length + pad) % 16 = 0 ∧ zeroPad data = data ++ List.replicate pad 0 :=
  ⟨(16 - data.length % 16) % 16, by omega, by omega, rfl⟩

theorem aesMac_len {alg : Val} {kl n : Nat} (h : algFam alg = some (.aesMac kl n)) : n = 8 ∨ n = 16 := by
  obtain ⟨c, _, _, _, ht⟩ := algFam_reg h
  have key : ∀ p ∈ algTable, (match p.2 with | .aesMac _ n => decide (n = 8 ∨ n = 16) | _ => true) = true := by decide +kernel
  simpa using key _ ht

theorem mac_row {alg : Val} {f : AlgFam} (h : algFam alg = some f) : ∃ i, alg = algCls i ∧
    (∀ hh n, f = .hmac hh n → (i, hh, n) ∈ Spec.hmacAlgs) ∧ ∀ kl n, f = .aesMac kl n → (i, n) ∈ Spec.cbcMacAlgs := by
  obtain ⟨⟨r, i⟩, n, rfl, hr, ht⟩ := algFam_reg h
  have := alg_reg hr
  simp at this; subst this
  have key : ∀ p ∈ algTable, (match p.2 with
      | .aesMac _ n => decide ((p.1, n) ∈ Spec.cbcMacAlgs)
      | .hmac hh n => decide ((p.1, hh, n) ∈ Spec.hmacAlgs)
      | _ => true) = true := by decide +kernel
  refine ⟨i, rfl, ?_, ?_⟩
  · rintro hh n rfl
    simpa using key _ ht
  · rintro kl n rfl
    simpa using key _ ht

theorem callTag_spec {C : Crypto} (L : C.Laws) {alg : Val} {f : AlgFam} {k : Key} {data t : Bytes} (hne : data ≠ [])
    (hm : macMethod alg = .ok f) (h : callTag C f k data = .ok t) :
    ∃ i kb, alg = algCls i ∧ k.symK = .ok (.bytes kb) ∧ Spec.MacTag C i kb data t := by
  have hf := macMethod_fam hm
  obtain ⟨i, hi, hhm, hcm⟩ := mac_row hf
  refine ⟨i, ?_⟩
  cases f <;> simp only [callTag, reduceCtorEq, bind_eq_ok] at h
  case aesMac kl n =>
    obtain ⟨kk, h1, kb, h2, c, h3, h4⟩ := h
    rw [asBytes_ok] at h2; subst h2
    refine ⟨kb, hi, h1, ?_⟩
    obtain ⟨pad, hp1, hp2, hp⟩ := zeroPad_spec data
    have hlen := L.cbc_length h3
    rw [hp] at hlen h3
    simp at hlen
    have hl : 16 ≤ c.length := by
      have : 0 < data.length := List.length_pos_iff.mpr hne
      omega
    refine .aes (init := c.take (c.length - 16)) (last := c.drop (c.length - 16)) (hcm _ _ rfl) hp1 hp2 (by rw [List.take_append_drop]; exact h3)
      (by simp; omega) ?_
    rcases aesMac_len hf with rfl | rfl
    · simp at h4
      rw [← h4, lastN]
      simp only [List.length_take, Nat.min_def]
      rw [if_pos (by omega), List.drop_take]
      congr 1
      omega
    · simp at h4
      rw [← h4, lastN, List.take_of_length_le]
      simp; omega
  case hmac hh n =>
    obtain ⟨kk, h1, kb, h2, h3⟩ := h
    rw [asBytes_ok] at h2; subst h2
    simp at h3
    exact ⟨kb, hi, h1, .hmac (hhm _ _ rfl) h3.symm⟩

theorem hmacAlgs_fun {i : Int} {p q : HashId × Nat} (h : (i, p) ∈ Spec.hmacAlgs) (h' : (i, q) ∈ Spec.hmacAlgs) : p = q := by
  have key : ∀ x ∈ Spec.hmacAlgs, ∀ y ∈ Spec.hmacAlgs, x.1 = y.1 → x.2 = y.2 := by decide +kernel
  exact key _ h _ h' rfl

theorem cbcMacAlgs_fun {i : Int} {p q : Nat} (h : (i, p) ∈ Spec.cbcMacAlgs) (h' : (i, q) ∈ Spec.cbcMacAlgs) : p = q := by
  have key : ∀ x ∈ Spec.cbcMacAlgs, ∀ y ∈ Spec.cbcMacAlgs, x.1 = y.1 → x.2 = y.2 := by decide +kernel
  exact key _ h _ h' rfl

theorem macAlgs_disj {i : Int} {p : HashId × Nat} {q : Nat} (h : (i, p) ∈ Spec.hmacAlgs) (h' : (i, q) ∈ Spec.cbcMacAlgs) : False := by
  have key : ∀ x ∈ Spec.hmacAlgs, ∀ y ∈ Spec.cbcMacAlgs, x.1 ≠ y.1 := by decide +kernel
  exact key _ h _ h' rfl

theorem macTag_unique {C : Crypto} {alg : Int} {k data t t' : Bytes} (h : Spec.MacTag C alg k data t)
    (h' : Spec.MacTag C alg k data t') : t = t' := by
  cases h with
  | hmac a b =>
    cases h' with
    | hmac a' b' =>
      have := hmacAlgs_fun a a'
      simp at this; obtain ⟨rfl, rfl⟩ := this; rw [b, b']
    | aes a' => exact (macAlgs_disj a a').elim
  | aes a p q r s t =>
    cases h' with
    | hmac a' b' => exact (macAlgs_disj a' a).elim
    | aes a' p' q' r' s' t' =>
      have := cbcMacAlgs_fun a a'
      subst this
      rename_i _ pad _ _ pad' _ _
      have : pad = pad' := by omega
      subst this
      rw [r] at r'
      simp only [Except.ok.injEq] at r'
      have := List.append_inj' r' (by omega)
      rw [t, t', this.2]

theorem macTag_length {C : Crypto} (L : C.Laws) {i : Int} {k data t : Bytes} (h : Spec.MacTag C i k data t) :
    some t.length = Spec.tagLength i := by
  have key1 : ∀ p ∈ Spec.hmacAlgs, Spec.tagLength p.1 = some p.2.2 ∧ p.2.2 ≤ p.2.1.size := by decide +kernel
  have key2 : ∀ p ∈ Spec.cbcMacAlgs, Spec.tagLength p.1 = some p.2 ∧ p.2 ≤ 16 := by decide +kernel
  cases h with
  | hmac a b =>
    have := key1 _ a
    simp at this
    rw [b, this.1, List.length_take, L.hmac_length]
    simp; omega
  | aes a p q r s t =>
    have := key2 _ a
    simp at this
    rw [t, this.1, List.length_take, s]
    simp; omega

theorem macStructure_ne {ctx : Bytes} {b : Base} {d : Bytes} (h : macStructure ctx b = .ok d) : d ≠ [] := by
  obtain ⟨p, pl, _, _, h⟩ := mac_structure_val h
  rw [dumpsPlain_struct h]
  simp [Spec.array, Spec.head]

/-- C52: the verdict of `verify_tag`, when there is one, is whether the transported value is, byte for byte, the
tag of the message (which has the algorithm's full length) under the key. -/
theorem c52_mac_verify {C : Crypto} (L : C.Laws) {ctx : Bytes} {b : Base} {tag : Val} {r : Bool}
    (h : macVerify C ctx b tag = .ok r) :
    ∃ i k kb data t, b.getAttr Hdr.Algorithm = .ok (algCls i) ∧ b.key = some k ∧ k.symK = .ok (.bytes kb) ∧
      macStructure ctx b = .ok data ∧ Spec.MacTag C i kb data t ∧ some t.length = Spec.tagLength i ∧
      (r = true ↔ tag = .bytes t) := by
  simp only [macVerify, bind_eq_ok] at h
  obtain ⟨alg, ha, h⟩ := h
  split at h
  · simp at h
  · rename_i k hk
    simp only [bind_eq_ok, callVerifyTag] at h
    obtain ⟨_, _, f, hf, data, hd, t, ht, h⟩ := h
    simp at h
    obtain ⟨i, kb, rfl, h1, h2⟩ := callTag_spec L (macStructure_ne hd) hf ht
    refine ⟨i, k, kb, data, t, ha, hk, h1, hd, h2, macTag_length L h2, ?_⟩
    rw [← h]; simp

theorem c52_mac0_verify {C : Crypto} (L : C.Laws) {m : Mac0} {r : Bool} (h : m.verifyTag C = .ok r) :
    ∃ i k kb data t, m.base.getAttr Hdr.Algorithm = .ok (algCls i) ∧ m.base.key = some k ∧ k.symK = .ok (.bytes kb) ∧
      macStructure b!"MAC0" m.base = .ok data ∧ Spec.MacTag C i kb data t ∧ some t.length = Spec.tagLength i ∧
      (r = true ↔ m.authTag = .bytes t) := c52_mac_verify L h

theorem c52_macmsg_verify {C : Crypto} (L : C.Laws) {m : Mac} {r : Bool} (h : m.verifyTag C = .ok r) :
    ∃ i k kb data t, m.base.getAttr Hdr.Algorithm = .ok (algCls i) ∧ m.base.key = some k ∧ k.symK = .ok (.bytes kb) ∧
      macStructure b!"MAC" m.base = .ok data ∧ Spec.MacTag C i kb data t ∧ some t.length = Spec.tagLength i ∧
      (r = true ↔ m.authTag = .bytes t) := c52_mac_verify L h

/-- C52: what `compute_tag` returns is that same tag. -/
theorem c52_mac_compute {C : Crypto} (L : C.Laws) {ctx : Bytes} {b : Base} {t : Bytes} (h : macCompute C ctx b = .ok t) :
    ∃ i k kb data, b.getAttr Hdr.Algorithm = .ok (algCls i) ∧ b.key = some k ∧ k.symK = .ok (.bytes kb) ∧
      macStructure ctx b = .ok data ∧ Spec.MacTag C i kb data t ∧ some t.length = Spec.tagLength i := by
  simp only [macCompute, bind_eq_ok] at h
  obtain ⟨alg, ha, h⟩ := h
  split at h
  · simp at h
  · rename_i k hk
    simp only [bind_eq_ok] at h
    obtain ⟨_, _, f, hf, data, hd, ht⟩ := h
    obtain ⟨i, kb, rfl, h1, h2⟩ := callTag_spec L (macStructure_ne hd) hf ht
    exact ⟨i, k, kb, data, ha, hk, h1, hd, h2, macTag_length L h2⟩

/-- C52: truncated, extended, empty and non-bytes tags are rejected: a value whose length is not the full tag
length never verifies. -/
theorem c52_wrong_length {C : Crypto} (L : C.Laws) {ctx : Bytes} {b : Base} {i : Int} {tag : Val}
    (ha : b.getAttr Hdr.Algorithm = .ok (algCls i)) (hl : ∀ t, tag = .bytes t → some t.length ≠ Spec.tagLength i) :
    macVerify C ctx b tag ≠ .ok true := by
  intro h
  obtain ⟨i', _, _, _, t, ha', _, _, _, _, h1, h2⟩ := c52_mac_verify L h
  rw [ha] at ha'
  simp at ha'; subst ha'
  exact hl t (h2.mp rfl) h1

/-- C52: nothing but the tag that `compute_tag` gives for the same message and key value verifies. -/
theorem c52_only_the_tag {C : Crypto} (L : C.Laws) {ctx : Bytes} {b b' : Base} {k k' : Key} {t : Bytes} {tag : Val}
    (hk : b.key = some k) (hk' : b'.key = some k') (hK : k'.symK = k.symK)
    (hal : b'.getAttr Hdr.Algorithm = b.getAttr Hdr.Algorithm) (hs : macStructure ctx b' = macStructure ctx b)
    (h : macCompute C ctx b = .ok t) (hv : macVerify C ctx b' tag = .ok true) : tag = .bytes t := by
  obtain ⟨i, k1, kb, data, h1, h2, h3, h4, h5, _⟩ := c52_mac_compute L h
  obtain ⟨i', k1', kb', data', t', h1', h2', h3', h4', h5', _, h6⟩ := c52_mac_verify L hv
  rw [hk] at h2; rw [hk'] at h2'
  simp at h2 h2'; subst h2 h2'
  rw [hK, h3] at h3'; simp at h3'; subst h3'
  rw [hal, h1] at h1'; simp at h1'; subst h1'
  rw [hs, h4] at h4'; simp at h4'; subst h4'
  rw [h6.mp rfl, macTag_unique h5 h5']

example : ∃ t, Sample.mac0.computeTag toy = .ok t ∧ Mac0.verifyTag toy { Sample.mac0 with authTag := .bytes t } = .ok true ∧
    Mac0.verifyTag toy { Sample.mac0 with authTag := .bytes (t.take 31) } = .ok false ∧
    Mac0.verifyTag toy { Sample.mac0 with authTag := .bytes [] } = .ok false ∧
    Mac0.verifyTag toy { Sample.mac0 with authTag := .none } = .ok false :=
  ⟨(Sample.mac0.computeTag toy).toOption.get (by decide +kernel), by decide +kernel, by decide +kernel, by decide +kernel,
    by decide +kernel, by decide +kernel⟩

end Cose
