import Verif.Props.AgreePolicy
import Verif.Props.Structure
import Verif.Props.RcptRules
/-!
# The content key of a message that is encoded more than once (C73)
-/
set_option autoImplicit false
namespace Cose

/-- The message holds a key with the given bytes. -/
def Spec.ContentKey (m : Enc) (kb : Bytes) : Prop := ∃ k, m.base.key = some k ∧ k.symK = .ok (.bytes kb)

/-- The recipients are wrapped the content key. -/
def Spec.Wrapped (m : Enc) : Prop := ∀ r ∈ m.recipients, r.cls = .keyWrap ∨ r.cls = .keyAgreementWithKeyWrap

/-- **C73**, the part that holds: while no recipient has a content key yet, `encrypt` uses the key that was drawn in this
call, of the length of the content algorithm.  Missing: later calls (`c73_second`). -/
theorem c73_first_partial {C : Crypto} {R : Rand} {m m' : Enc} {c : Bytes} (h : m.encrypt C R = .ok (c, m')) (hw : Spec.Wrapped m)
    (hp : ∀ r ∈ m.recipients, r.base.payload = some []) :
    ∃ i n, m.base.getAttr Hdr.Algorithm = .ok (algCls i) ∧ Spec.keyLength i = some n ∧ Spec.ContentKey m' (R.cek n) := by
  have hne : m.recipients ≠ [] := (c32_enc_encrypt h).nonempty
  obtain ⟨r, hr⟩ := List.exists_mem_of_ne_nil _ hne
  obtain ⟨i, n, k, h1, h2, h3, h4⟩ := c62_generated h ⟨r, hr, hw r hr⟩ hp
  exact ⟨i, n, h1, h2, k, h3, h4⟩

theorem encrypt_preset {C : Crypto} {R : Rand} {m m' : Enc} {c q : Bytes} (hw : Spec.Wrapped m) (hne : q ≠ [])
    (hp : ∀ r ∈ m.recipients, r.base.payload = some q) (h : m.encrypt C R = .ok (c, m')) : Spec.ContentKey m' q := by
  have hl : m.recipients ≠ [] := (c32_enc_encrypt h).nonempty
  simp only [Enc.encrypt, bind_eq_ok] at h
  obtain ⟨target, _, types, ht, h⟩ := h
  obtain ⟨rfl, _⟩ := verifyRecipients_iff.mp ht
  obtain ⟨k1, k2⟩ := kw_not_direct hw
  rw [if_neg (by rw [k1]; decide), if_neg (by rw [k2]; decide)] at h
  split at h
  · simp only [bind_eq_ok] at h
    obtain ⟨n, _, ⟨kb, rs⟩, h1, k, h2, c', h3, h4⟩ := h
    simp at h4; obtain ⟨rfl, rfl⟩ := h4
    have : kb = some q := by
      cases hr : m.recipients with
      | nil => exact absurd hr hl
      | cons r t =>
        rw [hr] at h1 hp
        simp only [wrapLoop, bind_eq_ok] at h1
        obtain ⟨⟨c, r1⟩, h1, ⟨k2, t'⟩, g2, h3⟩ := h1
        simp at h3; obtain ⟨rfl, rfl⟩ := h3
        rw [if_neg (by rw [hp r (by simp)]; simpa using hne)] at g2
        simp only [hp r (by simp)] at g2
        exact (wrapLoop_uniform (fun s hs => .inr (hp s (by simp [hs]))) g2).1
    subst this
    exact ⟨k, rfl, symK_mkSym h2⟩
  · simp at h

theorem contentKey_nonempty {C : Crypto} {R : Rand} {m m' : Enc} {c kb : Bytes} (hw : Spec.Wrapped m) (h : m.encrypt C R = .ok (c, m'))
    (hk : Spec.ContentKey m' kb) : kb ≠ [] := by
  simp only [Enc.encrypt, bind_eq_ok] at h
  obtain ⟨target, _, types, ht, h⟩ := h
  obtain ⟨rfl, _⟩ := verifyRecipients_iff.mp ht
  obtain ⟨k1, k2⟩ := kw_not_direct hw
  rw [if_neg (by rw [k1]; decide), if_neg (by rw [k2]; decide)] at h
  split at h
  · simp only [bind_eq_ok] at h
    obtain ⟨n, hn, ⟨kb', rs⟩, h1, k, h2, c', h3, h4⟩ := h
    simp at h4; obtain ⟨rfl, rfl⟩ := h4
    obtain ⟨i, rfl, hl⟩ := algKeyLength_id hn
    have hf : ∃ f, algFam (algCls i) = some f := by
      unfold algKeyLength at hn
      split at hn <;> first | exact ⟨_, by assumption⟩ | simp at hn
    obtain ⟨f, hf⟩ := hf
    obtain ⟨nm, hreg⟩ := algReg_of hf
    obtain ⟨kb2, e, hlen, rfl⟩ := mkSym_ok hreg (ops := [Op.Encrypt]) (fun o ho => opReg o (by simp at ho; simp [ho])) h2
    obtain ⟨k, e1, e2⟩ := hk
    simp at e1; subst e1
    rw [symStore_symK] at e2
    simp at e2; subst e2
    intro hz; subst hz; simp at hlen
  · simp at h

/-- **C73** fails in every second call: once a message has been encrypted for key-wrap recipients, encrypting any message for
the same recipient objects, whatever its payload and whatever is drawn, uses the content key of the first call. -/
theorem c73_second {C : Crypto} {R R' : Rand} {m m1 m2 m3 : Enc} {c1 c2 : Bytes} (hw : Spec.Wrapped m) (hu : Spec.OnePreset m.recipients)
    (h1 : m.encrypt C R = .ok (c1, m1)) (hr : m2.recipients = m1.recipients) (h2 : m2.encrypt C R' = .ok (c2, m3)) :
    ∃ kb, Spec.ContentKey m1 kb ∧ Spec.ContentKey m3 kb := by
  obtain ⟨k, kb, e1, e2, e3⟩ := c37_encrypt_partial hw hu h1
  have hk : Spec.ContentKey m1 kb := ⟨k, e1, e2⟩
  have hcls : m1.recipients.map Rcpt.cls = m.recipients.map Rcpt.cls := by
    rcases enc_top h1 with e | ht
    · rw [e]
    · generalize (0 : Nat) = i, m.recipients = l, m1.recipients = l' at ht
      induction ht with
      | nil => rfl
      | cons g _ ih =>
        obtain ⟨_, _, _, _, _, _, rfl, rfl, _⟩ := g
        simp [Rcpt.cls, ih]
  have hw2 : Spec.Wrapped m2 := by
    intro r hr2
    rw [hr] at hr2
    have : r.cls ∈ m1.recipients.map Rcpt.cls := List.mem_map_of_mem hr2
    rw [hcls] at this
    obtain ⟨s, hs, es⟩ := List.mem_map.mp this
    rw [← es]
    exact hw s hs
  exact ⟨kb, hk, encrypt_preset hw2 (contentKey_nonempty hw h1 hk) (by rw [hr]; exact e3) h2⟩

/-- The AEAD call of a message whose key has the bytes `kb` and whose header has the nonce `n`. -/
theorem encEncrypt_call {C : Crypto} {ctx : Bytes} {b : Base} {c kb n : Bytes} {k : Key} (h : encEncrypt C ctx b = .ok c)
    (hk : b.key = some k) (hkb : k.symK = .ok (.bytes kb)) (hn : b.getAttr Hdr.IV = .ok (.bytes n)) :
    ∃ a ad p, b.payload = some p ∧ C.aeadEnc a kb n ad p = .ok c := by
  simp only [encEncrypt, hk, bind_eq_ok] at h
  obtain ⟨alg, _, nv, hnv, _, _, a, _, ad, _, hc⟩ := h
  simp only [getNonce, hn, ok_bind] at hnv
  rw [if_pos (by simp)] at hnv
  simp at hnv; subst hnv
  simp only [callEncrypt, hkb, ok_bind, asBytes] at hc
  cases hp : b.payload with
  | none => simp [hp] at hc
  | some p =>
    simp only [hp] at hc
    exact ⟨a, ad, p, rfl, hc⟩

theorem encrypt_last {C : Crypto} {R : Rand} {m m' : Enc} {c : Bytes} (h : m.encrypt C R = .ok (c, m')) :
    (∃ q, m'.base = { m.base with key := q }) ∧ encEncrypt C b!"Encrypt" m'.base = .ok c := by
  simp only [Enc.encrypt, bind_eq_ok] at h
  obtain ⟨target, _, types, _, h⟩ := h
  split at h
  · obtain ⟨_, h1, h⟩ := bind_eq_ok.mp h
    simp at h; obtain ⟨rfl, rfl⟩ := h
    exact ⟨⟨m.base.key, rfl⟩, h1⟩
  split at h
  · split at h
    · simp at h
    · obtain ⟨k, _, h⟩ := bind_eq_ok.mp h
      obtain ⟨_, h1, h⟩ := bind_eq_ok.mp h
      simp at h; obtain ⟨rfl, rfl⟩ := h
      exact ⟨⟨some k, rfl⟩, h1⟩
  split at h
  · simp only [bind_eq_ok] at h
    obtain ⟨n, _, ⟨kb, rs⟩, _, k, _, c', h1, h4⟩ := h
    simp at h4; obtain ⟨rfl, rfl⟩ := h4
    exact ⟨⟨some k, rfl⟩, h1⟩
  · simp at h

/-- **C73**: what the reuse means.  If the IV in the header is not changed either, both calls of the AEAD have the same key and
the same nonce, for two payloads that may differ. -/
theorem c73_same_nonce {C : Crypto} {R R' : Rand} {m m1 m2 m3 : Enc} {c1 c2 n : Bytes} (hw : Spec.Wrapped m) (hu : Spec.OnePreset m.recipients)
    (h1 : m.encrypt C R = .ok (c1, m1)) (hr : m2.recipients = m1.recipients) (h2 : m2.encrypt C R' = .ok (c2, m3))
    (hn : m.base.getAttr Hdr.IV = .ok (.bytes n)) (hn2 : m2.base.getAttr Hdr.IV = .ok (.bytes n)) :
    ∃ kb a1 a2 ad1 ad2 p1 p2, m.base.payload = some p1 ∧ m2.base.payload = some p2 ∧
      C.aeadEnc a1 kb n ad1 p1 = .ok c1 ∧ C.aeadEnc a2 kb n ad2 p2 = .ok c2 := by
  obtain ⟨kb, ⟨k1, e1, f1⟩, ⟨k3, e3, f3⟩⟩ := c73_second hw hu h1 hr h2
  obtain ⟨⟨q1, b1⟩, g1⟩ := encrypt_last h1
  obtain ⟨⟨q3, b3⟩, g3⟩ := encrypt_last h2
  obtain ⟨a1, ad1, p1, hp1, x1⟩ := encEncrypt_call g1 e1 f1 (by rw [b1]; exact hn)
  obtain ⟨a3, ad3, p3, hp3, x3⟩ := encEncrypt_call g3 e3 f3 (by rw [b3]; exact hn2)
  rw [b1] at hp1
  rw [b3] at hp3
  exact ⟨kb, a1, a3, ad1, ad3, p1, p3, hp1, hp3, x1, x3⟩

/-- A source of randomness whose draws differ from those of `Sample.rand`. -/
def Sample.randOther : Rand := { Sample.rand with cek := fun n => List.replicate n 77 }

/-- Encrypting, changing the payload and encrypting again, with other draws. -/
def Sample.encTwice : Res (Enc × Enc) := do
  let (_, m1) ← Sample.encKw.encrypt toy Sample.rand
  let (_, m3) ← Enc.encrypt toy Sample.randOther { m1 with base := { m1.base with payload := some b!"other" } }
  .ok (m1, m3)

/-- **C73** is false of the code: in this execution the second key is not the one drawn. -/
theorem c73_refuted : ∃ (c1 c2 : Bytes) (m1 m3 : Enc) (k1 k3 : Key), Sample.encKw.encrypt toy Sample.rand = .ok (c1, m1) ∧
    Enc.encrypt toy Sample.randOther { m1 with base := { m1.base with payload := some b!"other" } } = .ok (c2, m3) ∧
    m1.base.key = some k1 ∧ m3.base.key = some k3 ∧ k3.symK = k1.symK ∧ k3.symK ≠ .ok (.bytes (Sample.randOther.cek 16)) := by
  obtain ⟨⟨m1, m3⟩, h, hp⟩ := res_any (r := Sample.encTwice) (p := fun t => match t.1.base.key, t.2.base.key with
    | some k1, some k3 => decide (k3.symK = k1.symK) && decide (k3.symK ≠ .ok (.bytes (Sample.randOther.cek 16)))
    | _, _ => false) (by decide +kernel)
  simp only [Sample.encTwice, bind_eq_ok] at h
  obtain ⟨⟨c1, n1⟩, h1, ⟨c2, n3⟩, h2, h3⟩ := h
  simp at h3
  obtain ⟨rfl, rfl⟩ := h3
  simp only at hp
  split at hp
  · rename_i k1 k3 e1 e3
    simp only [Bool.and_eq_true, decide_eq_true_eq] at hp
    exact ⟨c1, c2, n1, n3, k1, k3, h1, h2, e1, e3, hp.1, hp.2⟩
  · simp at hp

example : Spec.Wrapped Sample.encKw ∧ Spec.OnePreset Sample.encKw.recipients ∧ (Sample.encKw.encrypt toy Sample.rand).isOk = true ∧
    (∀ r ∈ Sample.encKw.recipients, r.base.payload = some []) ∧ ∃ n, Sample.encKw.base.getAttr Hdr.IV = .ok (.bytes n) := by
  refine ⟨?_, .inl ?_, by decide +kernel, ?_, ⟨_, rfl⟩⟩ <;> simp [Spec.Wrapped, Sample.encKw, Sample.kwRcpt, Rcpt.base, Rcpt.cls]

end Cose
