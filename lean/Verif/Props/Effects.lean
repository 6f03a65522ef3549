import Verif.Props.Reuse
/-!
# What an operation leaves in the message object (C72)
-/
set_option autoImplicit false
namespace Cose

/-- Everything but the key and the ephemeral key in the unprotected header is the same. -/
structure Spec.OnlyKeys (b b' : Base) : Prop where
  phdrEnc : b'.phdrEnc = b.phdrEnc
  phdr : b'.phdr = b.phdr
  uhdr : ∀ l, keq (.cls Hdr.EphemeralKey) l = false → dget b'.uhdr l = dget b.uhdr l
  payload : b'.payload = b.payload
  aad : b'.aad = b.aad
  tstr : b'.tstr = b.tstr
  localAttrs : b'.localAttrs = b.localAttrs

mutual
/-- Recipient by recipient, at every depth, nothing but keys has changed. -/
inductive Spec.Kept : Rcpt → Rcpt → Prop
  | mk {c : RCls} {b b' : Base} {x : Bytes} {o : Nat} {rs rs' : List Rcpt} :
      Spec.OnlyKeys b b' → Spec.KeptL rs rs' → Spec.Kept (.mk c b x o rs) (.mk c b' x o rs')
inductive Spec.KeptL : List Rcpt → List Rcpt → Prop
  | nil : Spec.KeptL [] []
  | cons {r r' : Rcpt} {t t' : List Rcpt} : Spec.Kept r r' → Spec.KeptL t t' → Spec.KeptL (r :: t) (r' :: t')
end

/-- A recipient that had no content key may have been given one. -/
def Spec.Filled (r r' : Rcpt) : Prop :=
  r' = r ∨ ∃ k, r.base.payload = some [] ∧ r' = r.withBase { r.base with payload := k }

/-- The recipients of a message before and after it was encrypted. -/
def Spec.FilledL (rs rs' : List Rcpt) : Prop := ∃ rs1, All2 Spec.Filled rs rs1 ∧ Spec.KeptL rs1 rs'

theorem onlyKeys_refl (b : Base) : Spec.OnlyKeys b b := ⟨rfl, rfl, fun _ _ => rfl, rfl, rfl, rfl, rfl⟩

theorem onlyKeys_trans {a b c : Base} (h : Spec.OnlyKeys a b) (g : Spec.OnlyKeys b c) : Spec.OnlyKeys a c :=
  ⟨g.1.trans h.1, g.2.trans h.2, fun l hl => (g.3 l hl).trans (h.3 l hl), g.4.trans h.4, g.5.trans h.5, g.6.trans h.6, g.7.trans h.7⟩

mutual
theorem kept_refl : ∀ r : Rcpt, Spec.Kept r r
  | .mk _ b _ _ rs => .mk (onlyKeys_refl b) (keptL_refl rs)
theorem keptL_refl : ∀ rs : List Rcpt, Spec.KeptL rs rs
  | [] => .nil
  | r :: t => .cons (kept_refl r) (keptL_refl t)
end

mutual
theorem kept_trans : ∀ (r : Rcpt) {s t : Rcpt}, Spec.Kept r s → Spec.Kept s t → Spec.Kept r t
  | .mk _ _ _ _ rs, _, _, h, g => by
    cases h with
    | mk h1 h2 =>
      cases g with
      | mk g1 g2 => exact .mk (onlyKeys_trans h1 g1) (keptL_trans rs h2 g2)
theorem keptL_trans : ∀ (r : List Rcpt) {s t : List Rcpt}, Spec.KeptL r s → Spec.KeptL s t → Spec.KeptL r t
  | [], _, _, h, g => by cases h; exact g
  | r :: t, _, _, h, g => by
    cases h with
    | cons h1 h2 =>
      cases g with
      | cons g1 g2 => exact .cons (kept_trans r h1 g1) (keptL_trans t h2 g2)
end

theorem setup_only {C : Crypto} {d : Nat} {b b' : Base} {peer : Val} (h : setupEphemeral C d b peer = .ok b') : Spec.OnlyKeys b b' := by
  simp only [setupEphemeral, bind_eq_ok] at h
  obtain ⟨pk, _, crv, _, k, _, e, _, h⟩ := h
  split at h
  · simp at h
  split at h
  · simp at h
  · simp at h
    subst h
    refine ⟨rfl, rfl, fun l hl => ?_, rfl, rfl, rfl, rfl⟩
    simp only [dupdate]
    exact dget_dset_other hl

theorem kakw_only {C : Crypto} {d : Nat} {b b' : Base} {w : Bytes} (h : kakwEncrypt C d b = .ok (w, b')) : Spec.OnlyKeys b b' := by
  simp only [kakwEncrypt] at h
  split at h
  · simp at h
  obtain ⟨alg, _, h⟩ := bind_eq_ok.mp h
  split at h
  · simp at h
  cases hk : b.key with
  | some k =>
    simp only [hk] at h
    simp only [bind_eq_ok, ok_bind] at h
    obtain ⟨w', _, kek, _, h⟩ := h
    split at h
    · obtain ⟨_, _, h⟩ := bind_eq_ok.mp h
      obtain ⟨_, _, h⟩ := bind_eq_ok.mp h
      simp at h
      rw [← h.2]; exact onlyKeys_refl b
    · simp at h
  | none =>
    simp only [hk] at h
    obtain ⟨es, _, h⟩ := bind_eq_ok.mp h
    cases es
    · simp at h
    · simp only [if_true] at h
      obtain ⟨b1, h1, h⟩ := bind_eq_ok.mp h
      simp only [bind_eq_ok] at h
      obtain ⟨w', _, kek, _, h⟩ := h
      split at h
      · obtain ⟨_, _, h⟩ := bind_eq_ok.mp h
        obtain ⟨_, _, h⟩ := bind_eq_ok.mp h
        simp at h
        rw [← h.2]; exact setup_only h1
      · simp at h

theorem head_only {C : Crypto} {R : Rand} {path : List Nat} {c : RCls} {b b' : Base} {x : Bytes} {o : Nat} {rs : List Rcpt} {l : List Val}
    (h : rcptHead C R path (.mk c b x o rs) = .ok (l, b')) : Spec.OnlyKeys b b' := by
  cases c <;> simp only [rcptHead] at h
  · obtain ⟨_, _, h⟩ := bind_eq_ok.mp h
    split at h
    · simp at h
    split at h
    · simp at h
    split at h
    · simp at h
    obtain ⟨_, _, h⟩ := bind_eq_ok.mp h
    simp at h
    rw [← h.2]; exact onlyKeys_refl b
  · obtain ⟨_, _, h⟩ := bind_eq_ok.mp h
    obtain ⟨_, _, h⟩ := bind_eq_ok.mp h
    simp at h
    rw [← h.2]; exact onlyKeys_refl b
  · obtain ⟨alg, _, h⟩ := bind_eq_ok.mp h
    split at h
    · simp at h
    split at h
    · simp at h
    cases hk : b.key with
    | some k =>
      simp only [hk] at h
      split at h
      · simp at h
      simp only [ok_bind] at h
      obtain ⟨e, _, h⟩ := bind_eq_ok.mp h
      obtain ⟨m, _, h⟩ := bind_eq_ok.mp h
      split at h
      · simp at h
      obtain ⟨_, _, h⟩ := bind_eq_ok.mp h
      simp at h
      rw [← h.2]; exact onlyKeys_refl b
    | none =>
      simp only [hk] at h
      obtain ⟨es, _, h⟩ := bind_eq_ok.mp h
      cases es
      · simp at h
      · simp only [if_true] at h
        obtain ⟨b1, h1, h⟩ := bind_eq_ok.mp h
        split at h
        · simp at h
        obtain ⟨e, _, h⟩ := bind_eq_ok.mp h
        obtain ⟨m, _, h⟩ := bind_eq_ok.mp h
        split at h
        · simp at h
        obtain ⟨_, _, h⟩ := bind_eq_ok.mp h
        simp at h
        rw [← h.2]; exact setup_only h1
  · obtain ⟨_, _, h⟩ := bind_eq_ok.mp h
    obtain ⟨_, _, h⟩ := bind_eq_ok.mp h
    obtain ⟨_, _, h⟩ := bind_eq_ok.mp h
    obtain ⟨⟨w, b1⟩, h1, h⟩ := bind_eq_ok.mp h
    simp at h
    obtain ⟨_, rfl⟩ := h
    exact kakw_only h1

mutual
theorem encode_kept {C : Crypto} {R : Rand} : ∀ (r : Rcpt) {path : List Nat} {v : Val} {r' : Rcpt},
    rcptEncode C R path r = .ok (v, r') → Spec.Kept r r'
  | .mk c b x o rs, path, v, r', h => by
    simp only [rcptEncode] at h
    obtain ⟨⟨l, b'⟩, h1, h⟩ := bind_eq_ok.mp h
    have f := head_only h1
    split at h
    · rename_i he
      simp at h he
      subst he
      rw [← h.2]
      exact .mk f .nil
    · obtain ⟨⟨vs, rs'⟩, h2, h⟩ := bind_eq_ok.mp h
      simp at h
      rw [← h.2]
      exact .mk f (encodes_kept rs h2)
theorem encodes_kept {C : Crypto} {R : Rand} : ∀ (rs : List Rcpt) {path : List Nat} {i : Nat} {vs : List Val} {rs' : List Rcpt},
    rcptsEncode C R path i rs = .ok (vs, rs') → Spec.KeptL rs rs'
  | [], path, i, vs, rs', h => by
    simp [rcptsEncode] at h
    rw [h.2]; exact .nil
  | r :: t, path, i, vs, rs', h => by
    simp only [rcptsEncode] at h
    obtain ⟨⟨v, r1⟩, h1, h⟩ := bind_eq_ok.mp h
    obtain ⟨⟨vs', t1⟩, h2, h⟩ := bind_eq_ok.mp h
    simp at h
    rw [← h.2]
    exact .cons (encode_kept r h1) (encodes_kept t h2)
end

theorem rcptEncrypt_kept {C : Crypto} {R : Rand} {ph : Nat} {path : List Nat} {r r' : Rcpt} {w : Bytes}
    (h : rcptEncrypt C R ph path r = .ok (w, r')) : Spec.Kept r r' := by
  obtain ⟨c, b, x, o, rs⟩ := r
  cases c <;> simp only [rcptEncrypt, Rcpt.cls] at h
  · simp at h
  · obtain ⟨_, _, h⟩ := bind_eq_ok.mp h
    simp at h
    rw [← h.2]; exact kept_refl _
  · simp at h
  · obtain ⟨⟨w', b1⟩, h1, h⟩ := bind_eq_ok.mp h
    simp at h
    rw [← h.2]
    exact .mk (kakw_only h1) (keptL_refl rs)

theorem wrapLoop_filled {C : Crypto} {R : Rand} : ∀ (rs : List Rcpt) {i : Nat} {key kb : Option Bytes} {rs' : List Rcpt},
    wrapLoop C R i key rs = .ok (kb, rs') → Spec.FilledL rs rs'
  | [], i, key, kb, rs', h => by
    simp [wrapLoop] at h
    rw [h.2]; exact ⟨[], .nil, .nil⟩
  | r :: t, i, key, kb, rs', h => by
    simp only [wrapLoop] at h
    split at h
    · rename_i he
      obtain ⟨⟨w, r2⟩, h1, h⟩ := bind_eq_ok.mp h
      obtain ⟨⟨kb', t'⟩, h2, h⟩ := bind_eq_ok.mp h
      simp at h
      rw [← h.2]
      obtain ⟨t1, e1, e2⟩ := wrapLoop_filled t h2
      exact ⟨_, .cons (.inr ⟨key, he, rfl⟩) e1, .cons (rcptEncrypt_kept h1) e2⟩
    · obtain ⟨⟨w, r2⟩, h1, h⟩ := bind_eq_ok.mp h
      obtain ⟨⟨kb', t'⟩, h2, h⟩ := bind_eq_ok.mp h
      simp at h
      rw [← h.2]
      obtain ⟨t1, e1, e2⟩ := wrapLoop_filled t h2
      exact ⟨_, .cons (.inl rfl) e1, .cons (rcptEncrypt_kept h1) e2⟩

theorem filledL_refl : ∀ rs : List Rcpt, Spec.FilledL rs rs := fun rs => ⟨rs, by
  induction rs with
  | nil => exact .nil
  | cons r t ih => exact .cons (.inl rfl) ih, keptL_refl rs⟩

/-! ### The property -/

/-- **C72**, `EncMessage.encrypt`: the message changes in its key only, the recipients as `FilledL` says; with direct recipients
nothing changes. -/
theorem c72_encrypt {C : Crypto} {R : Rand} {m m' : Enc} {c : Bytes} (h : m.encrypt C R = .ok (c, m')) :
    (∃ k, m'.base = { m.base with key := k }) ∧ Spec.FilledL m.recipients m'.recipients ∧
    ((∀ r ∈ m.recipients, r.cls = .directEncryption) → m' = m) := by
  refine ⟨(encrypt_last h).1, ?_⟩
  have hne : m.recipients ≠ [] := (c32_enc_encrypt h).nonempty
  simp only [Enc.encrypt, bind_eq_ok] at h
  obtain ⟨target, _, types, ht, h⟩ := h
  have htypes := (verifyRecipients_iff.mp ht).1
  split at h
  · obtain ⟨_, h1, h⟩ := bind_eq_ok.mp h
    simp at h; obtain ⟨rfl, rfl⟩ := h
    exact ⟨filledL_refl _, fun _ => rfl⟩
  rename_i hn
  have nd : ¬ ∀ r ∈ m.recipients, r.cls = .directEncryption := by
    intro hd
    obtain ⟨r, hr⟩ := List.exists_mem_of_ne_nil _ hne
    apply hn
    rw [htypes]
    simp
    exact ⟨r, hr, hd r hr⟩
  split at h
  · split at h
    · simp at h
    · obtain ⟨k, _, h⟩ := bind_eq_ok.mp h
      obtain ⟨_, h1, h⟩ := bind_eq_ok.mp h
      simp at h; obtain ⟨rfl, rfl⟩ := h
      exact ⟨filledL_refl _, fun hd => absurd hd nd⟩
  split at h
  · simp only [bind_eq_ok] at h
    obtain ⟨n, _, ⟨kb, rs⟩, h2, k, _, c', h1, h4⟩ := h
    simp at h4; obtain ⟨rfl, rfl⟩ := h4
    exact ⟨wrapLoop_filled _ h2, fun hd => absurd hd nd⟩
  · simp at h

/-- **C72**, `EncMessage.encode`. -/
theorem c72_enc_encode {C : Crypto} {R : Rand} {m m' : Enc} {tag e : Bool} {out : Bytes} (h : m.encode C R tag e = .ok (out, m')) :
    (∃ k, m'.base = { m.base with key := k }) ∧ Spec.FilledL m.recipients m'.recipients ∧ (e = false → m'.base = m.base) := by
  obtain ⟨_, _, m1, tl, _, h1, _, h2⟩ := enc_encode_inv h
  have top : (∃ k, m1.base = { m.base with key := k }) ∧ Spec.FilledL m.recipients m1.recipients ∧ (e = false → m1.base = m.base) := by
    rcases h1 with ⟨he, c, h1, _⟩ | ⟨_, h1, _⟩
    · exact ⟨(c72_encrypt h1).1, (c72_encrypt h1).2.1, by simp [he]⟩
    · rw [h1]; exact ⟨⟨m.base.key, rfl⟩, filledL_refl _, fun _ => rfl⟩
  rcases h2 with ⟨_, _, rfl⟩ | ⟨_, vs, rs, h2, _, rfl⟩
  · exact top
  · obtain ⟨t1, ⟨rs1, f1, f2⟩, t3⟩ := top
    exact ⟨t1, ⟨rs1, f1, keptL_trans _ f2 (encodes_kept _ h2)⟩, t3⟩

/-- **C72**, `EncMessage.decrypt`: the message changes in its key only; the payload stays the ciphertext. -/
theorem c72_decrypt {C : Crypto} {m m' : Enc} {r : Rcpt} {p : Bytes} (h : m.decrypt C r = .ok (p, m')) :
    (∃ k, m'.base = { m.base with key := k }) ∧ m'.recipients = m.recipients := by
  simp only [Enc.decrypt, bind_eq_ok] at h
  obtain ⟨target, _, h⟩ := h
  split at h
  · simp at h
  obtain ⟨types, _, h⟩ := bind_eq_ok.mp h
  split at h
  · obtain ⟨_, _, h⟩ := bind_eq_ok.mp h
    simp at h; rw [← h.2]
    exact ⟨⟨m.base.key, rfl⟩, rfl⟩
  split at h
  · obtain ⟨k, _, h⟩ := bind_eq_ok.mp h
    obtain ⟨_, _, h⟩ := bind_eq_ok.mp h
    simp at h; rw [← h.2]
    exact ⟨⟨some k, rfl⟩, rfl⟩
  · simp at h

theorem computeTag_last {C : Crypto} {R : Rand} {m m' : Mac} {t : Bytes} (h : m.computeTag C R = .ok (t, m')) :
    (∃ k, m'.base = { m.base with key := k }) ∧ m'.authTag = .bytes t ∧ m'.recipients = m.recipients ∧ macCompute C b!"MAC" m'.base = .ok t := by
  refine ⟨?_, ?_, mac_top h, ?_⟩ <;>
  · simp only [Mac.computeTag, bind_eq_ok] at h
    obtain ⟨target, _, h⟩ := h
    split at h
    · simp at h
    · obtain ⟨types, _, h⟩ := bind_eq_ok.mp h
      split at h
      · obtain ⟨_, h1, h⟩ := bind_eq_ok.mp h
        simp at h
        obtain ⟨rfl, rfl⟩ := h
        first | exact ⟨m.base.key, rfl⟩ | rfl | exact h1
      split at h
      · split at h
        · simp at h
        · obtain ⟨k, _, h⟩ := bind_eq_ok.mp h
          obtain ⟨_, h1, h⟩ := bind_eq_ok.mp h
          simp at h
          obtain ⟨rfl, rfl⟩ := h
          first | exact ⟨some k, rfl⟩ | rfl | exact h1
      split at h
      · simp [bind_eq_ok] at h
      · simp at h

theorem mac_selfcheck {C : Crypto} {ctx t : Bytes} {b : Base} {k : Key} {alg : Val} (h : macCompute C ctx b = .ok t) (hk : b.key = some k)
    (ha : b.getAttr Hdr.Algorithm = .ok alg) (hp : Spec.Permits k .sym alg [Op.MacVerify]) : macVerify C ctx b (.bytes t) = .ok true :=
  macVerify_roundtrip h ha hk hk rfl rfl rfl hp

/-- **C72**, `MacMessage.compute_tag`: the message changes in its key and its tag only, and it then verifies its own tag,
provided the key it now holds may verify. -/
theorem c72_mac {C : Crypto} {R : Rand} {m m' : Mac} {t : Bytes} (h : m.computeTag C R = .ok (t, m')) :
    (∃ k, m'.base = { m.base with key := k }) ∧ m'.authTag = .bytes t ∧ m'.recipients = m.recipients ∧
    ∀ k alg, m'.base.key = some k → m.base.getAttr Hdr.Algorithm = .ok alg → Spec.Permits k .sym alg [Op.MacVerify] → m'.verifyTag C = .ok true := by
  obtain ⟨⟨q, h1⟩, h2, h3, h4⟩ := computeTag_last h
  refine ⟨⟨q, h1⟩, h2, h3, fun k alg hk ha hp => ?_⟩
  rw [Mac.verifyTag, h2]
  exact mac_selfcheck h4 hk (by rw [h1]; exact ha) hp

/-- **C72**, `MacMessage.compute_tag` with direct key agreement: the agreed key is left in the message, so the message
verifies its own tag, whatever key it had before. -/
theorem c72_mac_agreed {C : Crypto} {R : Rand} {m m' : Mac} {t : Bytes} {r : Rcpt} (hr : m.recipients = some [r])
    (hc : r.cls = .directKeyAgreement) (h : m.computeTag C R = .ok (t, m')) : m'.verifyTag C = .ok true := by
  have hl := computeTag_last h
  simp only [Mac.computeTag, bind_eq_ok] at h
  obtain ⟨target, ha, h⟩ := h
  simp only [hr, dka_types hc, ok_bind] at h
  rw [if_neg (by decide), if_pos (by decide)] at h
  simp only [bind_eq_ok] at h
  obtain ⟨k, hk, t', htag, h⟩ := h
  simp at h
  obtain ⟨rfl, rfl⟩ := h
  have hfam : ∃ f, algFam target = some f := by
    have htag := htag
    simp only [macCompute, show ({ m.base with key := some k } : Base).getAttr Hdr.Algorithm = _ from ha, ok_bind, bind_eq_ok] at htag
    obtain ⟨_, _, f, hf, _⟩ := htag
    exact ⟨f, macMethod_fam hf⟩
  obtain ⟨f, hfam⟩ := hfam
  obtain ⟨ca, nn, rfl, hreg, _⟩ := algFam_reg hfam
  obtain ⟨v', hv'⟩ := dka_mkSym hk
  obtain ⟨kb, _, _, rfl⟩ := mkSym_ok hreg (by simp) hv'
  exact mac_selfcheck htag rfl ha (symStore_permits kb (.inl rfl))

/-- **C72**, `MacMessage.encode`. -/
theorem c72_mac_encode {C : Crypto} {R : Rand} {m m' : Mac} {tag e : Bool} {out : Bytes} (h : m.encode C R tag e = .ok (out, m')) :
    (∃ k, m'.base = { m.base with key := k }) ∧ (∃ rs rs', m.recipients = some rs ∧ m'.recipients = some rs' ∧ Spec.KeptL rs rs') ∧
    (e = false → m'.base = m.base ∧ m'.authTag = m.authTag) ∧
    (e = true → ∀ k alg, m'.base.key = some k → m.base.getAttr Hdr.Algorithm = .ok alg → Spec.Permits k .sym alg [Op.MacVerify] →
      m'.verifyTag C = .ok true) := by
  obtain ⟨_, m1, _, tl, rs1, _, h1, _, h3, h2⟩ := mac_encode_inv h
  have top : (∃ k, m1.base = { m.base with key := k }) ∧ m1.recipients = m.recipients ∧ (e = false → m1.base = m.base ∧ m1.authTag = m.authTag) ∧
      (e = true → ∀ k alg, m1.base.key = some k → m.base.getAttr Hdr.Algorithm = .ok alg → Spec.Permits k .sym alg [Op.MacVerify] →
        m1.verifyTag C = .ok true) := by
    rcases h1 with ⟨he, c, h1, _⟩ | ⟨he, h1, _⟩
    · obtain ⟨a1, a2, a3, a4⟩ := c72_mac h1
      exact ⟨a1, a3, by simp [he], fun _ => a4⟩
    · rw [h1]; exact ⟨⟨m.base.key, rfl⟩, rfl, fun _ => ⟨rfl, rfl⟩, by simp [he]⟩
  obtain ⟨t1, t2, t3, t4⟩ := top
  rcases h2 with ⟨rfl, _, rfl⟩ | ⟨_, vs, rs, h2, _, rfl⟩
  · exact ⟨t1, ⟨[], [], by rw [← t2, h3], h3, .nil⟩, t3, t4⟩
  · exact ⟨t1, ⟨rs1, rs, by rw [← t2, h3], rfl, encodes_kept _ h2⟩, t3, t4⟩

/-- **C72**, `Mac0Message.encode`: only the tag changes, and it verifies. -/
theorem c72_mac0_encode {C : Crypto} {m m' : Mac0} {tag e : Bool} {out : Bytes} (h : m.encode C tag e = .ok (out, m')) :
    m'.base = m.base ∧ (e = false → m'.authTag = m.authTag) ∧
    (e = true → ∀ k alg, m.base.key = some k → m.base.getAttr Hdr.Algorithm = .ok alg → Spec.Permits k .sym alg [Op.MacVerify] →
      m'.verifyTag C = .ok true) := by
  obtain ⟨pe, tl, _, _, ht⟩ := mac0_encode_inv h
  rcases ht with ⟨he, t, h1, _, rfl⟩ | ⟨he, _, rfl⟩
  · exact ⟨rfl, by simp [he], fun _ k alg hk ha hp => mac_selfcheck h1 hk ha hp⟩
  · exact ⟨rfl, fun _ => rfl, by simp [he]⟩

example : (Sample.mac0.encode toy true true).isOk = true ∧ (Sample.mac.encode toy Sample.rand true true).isOk = true ∧
    (Sample.encMix.encode toy Sample.rand true true).isOk = true ∧ (Sample.encDka.encode toy Sample.rand true true).isOk = true ∧
    Spec.Permits Sample.symKey .sym (algCls 5) [Op.MacVerify] :=
  ⟨by decide +kernel, by decide +kernel, by decide +kernel, by decide +kernel, Sample.symPermits _ _⟩

end Cose
