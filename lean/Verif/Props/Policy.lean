import Verif.Props.Recipients
/-!
# Key policy, MAC verification and nonces (C27–C31, C52)
-/
set_option autoImplicit false
namespace Cose

/-! ### C27 -/

/-- The key is of one of the types `kinds`; if its `alg` is set, it is the algorithm `alg`; if its
`key_ops` are set and not empty, they include one of `ops`. -/
structure Spec.Usable (k : Key) (kinds : List Kind) (alg : Val) (ops : List Cls) : Prop where
  kind : k.kind ∈ kinds
  alg : ∀ c, dget k.store (.cls KpAlg) = some (.cls c) → c.reg = .alg → alg = .cls c
  ops : ∀ l, dget k.store (.cls KpKeyOps) = some (.arr l) → l ≠ [] → ∃ o ∈ ops, .cls o ∈ l

/-- The key of the message may be used for one of `ops` with the algorithm of the message. -/
def Spec.PolicyMet (b : Base) (kinds : List Kind) (ops : List Cls) : Prop :=
  ∃ k alg, b.key = some k ∧ b.getAttr Hdr.Algorithm = .ok alg ∧ Spec.Usable k kinds alg ops

theorem verify_inv {k : Key} {kind : Kind} {alg : Val} {ops : List Cls} (h : k.verify kind alg ops = .ok ()) :
    k.kind = kind ∧
    (∀ c, dget k.store (.cls KpAlg) = some (.cls c) → ∃ c', alg = .cls c' ∧ c'.ident = c.ident) ∧
    (∀ l, dget k.store (.cls KpKeyOps) = some (.arr l) → l ≠ [] → ∃ o ∈ ops, .cls o ∈ l) := by
  have hops : ∀ {l}, dget k.store (.cls KpKeyOps) = some (.arr l) → (do
      let n ← lenOf k.keyOps
      if n = 0 then .ok ()
      else do
        let m ← anyOp k.keyOps ops false
        if m then .ok () else .error .illegalKeyOps : Res Unit) = .ok () → l ≠ [] → ∃ o ∈ ops, .cls o ∈ l := by
    intro l hl h hne
    simp only [Key.keyOps, getD, hl, Option.getD_some, lenOf, ok_bind, anyOp_arr] at h
    rw [if_neg (by simpa using hne)] at h
    split at h
    · rename_i h2
      simp only [Bool.false_or, List.any_eq_true] at h2
      obtain ⟨o, ho, h2⟩ := h2
      exact ⟨o, ho, by simpa using h2⟩
    · simp at h
  unfold Key.verify at h
  split at h
  · simp at h
  · rename_i hk
    have hfin : ∃ b, (b = false → (do
        let n ← lenOf k.keyOps
        if n = 0 then .ok ()
        else do
          let m ← anyOp k.keyOps ops false
          if m then .ok () else .error .illegalKeyOps : Res Unit) = .ok ()) ∧ b = false ∧
        (∀ c, dget k.store (.cls KpAlg) = some (.cls c) → ∃ c', alg = .cls c' ∧ c'.ident = c.ident) := by
      split at h
      · rename_i hn
        simp only [ok_bind, Bool.false_eq_true, if_false] at h
        refine ⟨false, fun _ => h, rfl, ?_⟩
        intro c hc
        simp [Key.alg, getD, hc] at hn
      · rename_i hn
        simp only [bind_eq_ok] at h
        obtain ⟨a, ha, b, hb, d, hd, h⟩ := h
        simp only [Except.ok.injEq] at hd
        split at h
        · simp at h
        · rename_i hne
          refine ⟨d, fun _ => h, by simpa using hne, ?_⟩
          intro c hc
          have e : k.alg = .cls c := by simp [Key.alg, getD, hc]
          rw [e] at ha
          simp only [identOf, Except.ok.injEq] at ha
          cases alg <;> simp only [identOf, reduceCtorEq, Except.ok.injEq] at hb
          rename_i c'
          refine ⟨c', rfl, ?_⟩
          rw [← hd] at hne
          simp at hne
          rw [hb, ha, hne]
    obtain ⟨b, h1, rfl, h2⟩ := hfin
    exact ⟨by simpa using hk, h2, fun l hl hne => hops hl (h1 rfl) hne⟩

theorem verify_usable {k : Key} {kind : Kind} {alg : Val} {ops : List Cls} {f : AlgFam} {kinds : List Kind}
    (h : k.verify kind alg ops = .ok ()) (hf : algFam alg = some f) (hk : kind ∈ kinds) : Spec.Usable k kinds alg ops := by
  obtain ⟨h1, h2, h3⟩ := verify_inv h
  obtain ⟨c', _, rfl, hr, _⟩ := algFam_reg hf
  replace hr := alg_reg hr
  refine ⟨h1 ▸ hk, ?_, h3⟩
  intro c hc hcr
  obtain ⟨c2, e, hi⟩ := h2 c hc
  simp at e; subst e
  cases c; cases c'; simp_all

theorem keyVerification_inv {b : Base} {alg : Val} {op : Cls} {k : Key} (h : keyVerification b alg op = .ok k) :
    b.key = some k ∧ ∃ kind ∈ [Kind.ec2, .okp, .rsa], k.verify kind alg [op] = .ok () := by
  unfold keyVerification at h
  split at h
  · simp at h
  · rename_i k' hk
    split at h <;> (try simp only [bind_eq_ok, Except.ok.injEq] at h)
    · obtain ⟨_, h1, rfl⟩ := h; exact ⟨hk, .ec2, by simp, h1⟩
    · obtain ⟨_, h1, rfl⟩ := h; exact ⟨hk, .okp, by simp, h1⟩
    · obtain ⟨_, h1, rfl⟩ := h; exact ⟨hk, .rsa, by simp, h1⟩
    · simp at h

theorem signMethod_fam {alg : Val} {f : AlgFam} (h : signMethod alg = .ok f) : algFam alg = some f := by
  unfold signMethod at h
  split at h <;> simp at h <;> subst h <;> assumption

theorem macMethod_fam {alg : Val} {f : AlgFam} (h : macMethod alg = .ok f) : algFam alg = some f := by
  unfold macMethod at h
  split at h <;> simp at h <;> subst h <;> assumption

theorem encMethod_fam {alg : Val} {a : Aead} (h : encMethod alg = .ok a) : ∃ n, algFam alg = some (.aead a n) := by
  unfold encMethod at h
  split at h <;> simp at h
  subst h; exact ⟨_, by assumption⟩

theorem computeSignature_policy {b : Base} {tbs : Res Bytes} (h : ¬ Spec.PolicyMet b [.ec2, .okp, .rsa] [Op.Sign]) :
    ∃ e, ∀ C rnd, computeSignature C rnd b tbs = .error e := by
  unfold computeSignature
  cases ha : b.getAttr Hdr.Algorithm with
  | error e => exact ⟨e, fun _ _ => rfl⟩
  | ok alg =>
    cases hk : keyVerification b alg Op.Sign with
    | error e => exact ⟨e, fun _ _ => by simp [hk]⟩
    | ok k =>
      cases hf : signMethod alg with
      | error e => exact ⟨e, fun _ _ => by simp [hk, hf]⟩
      | ok f =>
        obtain ⟨h1, kind, h2, h3⟩ := keyVerification_inv hk
        exact absurd ⟨k, alg, h1, ha, verify_usable h3 (signMethod_fam hf) h2⟩ h

theorem verifySignature_policy {b : Base} {tbs : Res Bytes} {sig : Val} (h : ¬ Spec.PolicyMet b [.ec2, .okp, .rsa] [Op.Verify]) :
    ∃ e, ∀ C, verifySignature C b tbs sig = .error e := by
  unfold verifySignature
  cases ha : b.getAttr Hdr.Algorithm with
  | error e => exact ⟨e, fun _ => rfl⟩
  | ok alg =>
    cases hk : keyVerification b alg Op.Verify with
    | error e => exact ⟨e, fun _ => by simp [hk]⟩
    | ok k =>
      cases hf : signMethod alg with
      | error e => exact ⟨e, fun _ => by simp [hk, hf]⟩
      | ok f =>
        obtain ⟨h1, kind, h2, h3⟩ := keyVerification_inv hk
        exact absurd ⟨k, alg, h1, ha, verify_usable h3 (signMethod_fam hf) h2⟩ h

/-- C27, signing: without a key that may sign with the message's algorithm, `compute_signature` raises an
exception that no primitive has a part in (it is the same for all primitives and randomness). -/
theorem c27_sign1_sign {m : Sign1} {det : Option Bytes} (h : ¬ Spec.PolicyMet m.base [.ec2, .okp, .rsa] [Op.Sign]) :
    ∃ e, ∀ C rnd, m.computeSignature C rnd det = .error e := computeSignature_policy h

/-- C27, verification of a Sign1 message. -/
theorem c27_sign1_verify {m : Sign1} {det : Option Bytes} (h : ¬ Spec.PolicyMet m.base [.ec2, .okp, .rsa] [Op.Verify]) :
    ∃ e, ∀ C, m.verifySignature C det = .error e := verifySignature_policy h

/-- C27, a signer of a COSE_Sign message. -/
theorem c27_signer_sign {p s : Base} {det : Option Bytes} (h : ¬ Spec.PolicyMet s [.ec2, .okp, .rsa] [Op.Sign]) :
    ∃ e, ∀ C rnd, signerCompute C rnd p s det = .error e := computeSignature_policy h

theorem c27_signer_verify {p s : Base} {det : Option Bytes} (h : ¬ Spec.PolicyMet s [.ec2, .okp, .rsa] [Op.Verify]) :
    ∃ e, ∀ C, signerVerify C p s det = .error e := verifySignature_policy h

theorem macCompute_policy {ctx : Bytes} {b : Base} (h : ¬ Spec.PolicyMet b [.sym] [Op.MacCreate]) :
    ∃ e, ∀ C, macCompute C ctx b = .error e := by
  unfold macCompute
  cases ha : b.getAttr Hdr.Algorithm with
  | error e => exact ⟨e, fun _ => rfl⟩
  | ok alg =>
    cases hk : b.key with
    | none => exact ⟨_, fun _ => rfl⟩
    | some k =>
      cases hv : k.verify .sym alg [Op.MacCreate] with
      | error e => exact ⟨e, fun _ => by simp [hv]⟩
      | ok u =>
        cases hf : macMethod alg with
        | error e => exact ⟨e, fun _ => by simp [hv, hf]⟩
        | ok f => exact absurd ⟨k, alg, hk, ha, verify_usable hv (macMethod_fam hf) (by simp)⟩ h

theorem macVerify_policy {ctx : Bytes} {b : Base} {tag : Val} (h : ¬ Spec.PolicyMet b [.sym] [Op.MacVerify]) :
    ∃ e, ∀ C, macVerify C ctx b tag = .error e := by
  unfold macVerify
  cases ha : b.getAttr Hdr.Algorithm with
  | error e => exact ⟨e, fun _ => rfl⟩
  | ok alg =>
    cases hk : b.key with
    | none => exact ⟨_, fun _ => rfl⟩
    | some k =>
      cases hv : k.verify .sym alg [Op.MacVerify] with
      | error e => exact ⟨e, fun _ => by simp [hv]⟩
      | ok u =>
        cases hf : macMethod alg with
        | error e => exact ⟨e, fun _ => by simp [hv, hf]⟩
        | ok f => exact absurd ⟨k, alg, hk, ha, verify_usable hv (macMethod_fam hf) (by simp)⟩ h

/-- C27, MAC creation and verification. -/
theorem c27_mac0_compute {m : Mac0} (h : ¬ Spec.PolicyMet m.base [.sym] [Op.MacCreate]) :
    ∃ e, ∀ C, m.computeTag C = .error e := macCompute_policy h

theorem c27_mac0_verify {m : Mac0} (h : ¬ Spec.PolicyMet m.base [.sym] [Op.MacVerify]) :
    ∃ e, ∀ C, m.verifyTag C = .error e := macVerify_policy h

theorem c27_mac_verify {m : Mac} (h : ¬ Spec.PolicyMet m.base [.sym] [Op.MacVerify]) :
    ∃ e, ∀ C, m.verifyTag C = .error e := macVerify_policy h

theorem encEncrypt_policy {ctx : Bytes} {b : Base} (h : ¬ Spec.PolicyMet b [.sym] [Op.Encrypt]) :
    ∃ e, ∀ C, encEncrypt C ctx b = .error e := by
  unfold encEncrypt
  cases hk : b.key with
  | none => exact ⟨_, fun _ => rfl⟩
  | some k =>
    cases ha : b.getAttr Hdr.Algorithm with
    | error e => exact ⟨e, fun _ => rfl⟩
    | ok alg =>
      cases hn : getNonce b with
      | error e => exact ⟨e, fun _ => by simp⟩
      | ok n =>
        cases hv : k.verify .sym alg [Op.Encrypt] with
        | error e => exact ⟨e, fun _ => by simp [hv]⟩
        | ok u =>
          cases hf : encMethod alg with
          | error e => exact ⟨e, fun _ => by simp [hv, hf]⟩
          | ok f =>
            obtain ⟨_, hf⟩ := encMethod_fam hf
            exact absurd ⟨k, alg, hk, ha, verify_usable hv hf (by simp)⟩ h

theorem encDecrypt_policy {ctx : Bytes} {b : Base} (h : ¬ Spec.PolicyMet b [.sym] [Op.Decrypt]) :
    ∃ e, ∀ C, encDecrypt C ctx b = .error e := by
  unfold encDecrypt
  cases ha : b.getAttr Hdr.Algorithm with
  | error e => exact ⟨e, fun _ => rfl⟩
  | ok alg =>
    cases hn : getNonce b with
    | error e => exact ⟨e, fun _ => by simp⟩
    | ok n =>
      cases hk : b.key with
      | none => exact ⟨_, fun _ => rfl⟩
      | some k =>
        cases hv : k.verify .sym alg [Op.Decrypt] with
        | error e => exact ⟨e, fun _ => by simp [hv]⟩
        | ok u =>
          cases hf : encMethod alg with
          | error e => exact ⟨e, fun _ => by simp [hv, hf]⟩
          | ok f =>
            obtain ⟨_, hf⟩ := encMethod_fam hf
            exact absurd ⟨k, alg, hk, ha, verify_usable hv hf (by simp)⟩ h

/-- C27, encryption and decryption. -/
theorem c27_enc0_encrypt {m : Enc0} (h : ¬ Spec.PolicyMet m.base [.sym] [Op.Encrypt]) :
    ∃ e, ∀ C, m.encrypt C = .error e := encEncrypt_policy h

theorem c27_enc0_decrypt {m : Enc0} (h : ¬ Spec.PolicyMet m.base [.sym] [Op.Decrypt]) :
    ∃ e, ∀ C, m.decrypt C = .error e := encDecrypt_policy h

/-- C27, COSE_Encrypt: whatever the recipients, a ciphertext or plaintext only exists if the key in the
message (the caller's, or the content encryption key found through the recipients) may be used. -/
theorem c27_enc_encrypt {C : Crypto} {R : Rand} {m m' : Enc} {c : Bytes} (h : m.encrypt C R = .ok (c, m')) :
    Spec.PolicyMet m'.base [.sym] [Op.Encrypt] := by
  have key : ∀ {b : Base}, encEncrypt C b!"Encrypt" b = .ok c → Spec.PolicyMet b [.sym] [Op.Encrypt] := by
    intro b hb
    apply Classical.byContradiction
    intro hn
    obtain ⟨e, he⟩ := encEncrypt_policy (ctx := b!"Encrypt") hn
    rw [he] at hb; simp at hb
  simp only [Enc.encrypt, bind_eq_ok] at h
  obtain ⟨target, _, types, _, h⟩ := h
  split at h
  · simp only [bind_eq_ok] at h
    obtain ⟨c', h1, h2⟩ := h
    simp at h2; obtain ⟨rfl, rfl⟩ := h2
    exact key h1
  · split at h
    · split at h
      · simp at h
      · simp only [bind_eq_ok] at h
        obtain ⟨k, _, c', h1, h2⟩ := h
        simp at h2; obtain ⟨rfl, rfl⟩ := h2
        exact key h1
    · split at h
      · simp only [bind_eq_ok] at h
        obtain ⟨n, _, ⟨kb, rs⟩, _, k, _, c', h1, h2⟩ := h
        simp at h2; obtain ⟨rfl, rfl⟩ := h2
        exact key h1
      · simp at h

theorem c27_enc_decrypt {C : Crypto} {m m' : Enc} {r : Rcpt} {p : Bytes} (h : m.decrypt C r = .ok (p, m')) :
    Spec.PolicyMet m'.base [.sym] [Op.Decrypt] := by
  have key : ∀ {b : Base}, encDecrypt C b!"Encrypt" b = .ok p → Spec.PolicyMet b [.sym] [Op.Decrypt] := by
    intro b hb
    apply Classical.byContradiction
    intro hn
    obtain ⟨e, he⟩ := encDecrypt_policy (ctx := b!"Encrypt") hn
    rw [he] at hb; simp at hb
  simp only [Enc.decrypt, bind_eq_ok] at h
  obtain ⟨target, _, h⟩ := h
  split at h
  · simp at h
  · simp only [bind_eq_ok] at h
    obtain ⟨types, _, h⟩ := h
    split at h
    · simp only [bind_eq_ok] at h
      obtain ⟨c', h1, h2⟩ := h
      simp at h2; obtain ⟨rfl, rfl⟩ := h2
      exact key h1
    · split at h
      · simp only [bind_eq_ok] at h
        obtain ⟨k, _, c', h1, h2⟩ := h
        simp at h2; obtain ⟨rfl, rfl⟩ := h2
        exact key h1
      · simp at h

theorem c27_mac_compute {C : Crypto} {R : Rand} {m m' : Mac} {t : Bytes} (h : m.computeTag C R = .ok (t, m')) :
    Spec.PolicyMet m'.base [.sym] [Op.MacCreate] := by
  have key : ∀ {b : Base}, macCompute C b!"MAC" b = .ok t → Spec.PolicyMet b [.sym] [Op.MacCreate] := by
    intro b hb
    apply Classical.byContradiction
    intro hn
    obtain ⟨e, he⟩ := macCompute_policy (ctx := b!"MAC") hn
    rw [he] at hb; simp at hb
  simp only [Mac.computeTag, bind_eq_ok] at h
  obtain ⟨target, _, h⟩ := h
  split at h
  · simp at h
  · simp only [bind_eq_ok] at h
    obtain ⟨types, _, h⟩ := h
    split at h
    · simp only [bind_eq_ok] at h
      obtain ⟨c', h1, h2⟩ := h
      simp at h2; obtain ⟨rfl, rfl⟩ := h2
      exact key h1
    · split at h
      · split at h
        · simp at h
        · simp only [bind_eq_ok] at h
          obtain ⟨k, _, c', h1, h2⟩ := h
          simp at h2; obtain ⟨rfl, rfl⟩ := h2
          exact key h1
      · split at h
        · simp [bind_eq_ok] at h
        · simp at h

/-- Direct encryption uses the caller's key: it is not replaced on the way. -/
theorem c27_enc_direct_key {C : Crypto} {R : Rand} {m m' : Enc} {c : Bytes} (h : m.encrypt C R = .ok (c, m'))
    (hd : ∃ r ∈ m.recipients, r.cls = .directEncryption) : Spec.PolicyMet m.base [.sym] [Op.Encrypt] := by
  have hp := c27_enc_encrypt h
  simp only [Enc.encrypt, bind_eq_ok] at h
  obtain ⟨target, _, types, ht, h⟩ := h
  have : types.contains .directEncryption = true := by
    obtain ⟨r, hr, hc⟩ := hd
    simp only [verifyRecipients] at ht
    split at ht
    · simp at ht
    · split at ht
      · simp at ht
      · simp at ht; subst ht
        simp only [List.contains_iff_mem, List.mem_map]
        exact ⟨r, hr, hc⟩
  rw [if_pos this] at h
  simp only [bind_eq_ok] at h
  obtain ⟨c', h1, h2⟩ := h
  simp at h2; obtain ⟨rfl, rfl⟩ := h2
  exact hp

/-- Keys that may and may not be used: `Sample.ecKey` is restricted to sign and verify. -/
example : Spec.PolicyMet Sample.sign1.base [.ec2, .okp, .rsa] [Op.Sign] ∧
    ¬ Spec.PolicyMet Sample.sign1.base [.ec2, .okp, .rsa] [Op.DeriveKey] ∧
    ¬ Spec.PolicyMet Sample.sign1.base [.sym] [Op.MacCreate] ∧
    (Sample.sign1.computeSignature toy [] none).isOk = true ∧ (Sample.enc.encrypt toy Sample.rand).isOk = true ∧
    (Sample.encKw.encrypt toy Sample.rand).isOk = true ∧ (Sample.mac.computeTag toy Sample.rand).isOk = true := by
  refine ⟨⟨Sample.ecKey, algCls (-7), rfl, by decide +kernel, ?_, ?_, ?_⟩, ?_, ?_, by decide +kernel, by decide +kernel,
    by decide +kernel, by decide +kernel⟩
  · decide
  · intro c hc
    have : dget Sample.ecKey.store (.cls KpAlg) = none := by decide +kernel
    rw [this] at hc; simp at hc
  · intro l hl _
    have : dget Sample.ecKey.store (.cls KpKeyOps) = some (.arr [.cls Op.Sign, .cls Op.Verify]) := by decide +kernel
    rw [this] at hl; simp at hl; subst hl; simp
  · rintro ⟨k, alg, hk, _, h⟩
    have hk' : k = Sample.ecKey := by
      have : Sample.sign1.base.key = some Sample.ecKey := rfl
      rw [this] at hk; simpa using hk.symm
    subst hk'
    have := h.ops [.cls Op.Sign, .cls Op.Verify] (by decide +kernel) (by simp)
    revert this; decide
  · rintro ⟨k, alg, hk, _, h⟩
    have hk' : k = Sample.ecKey := by
      have : Sample.sign1.base.key = some Sample.ecKey := rfl
      rw [this] at hk; simpa using hk.symm
    subst hk'
    have := h.kind
    revert this; decide

/-! ### C28 -/

/-- The algorithm of the recipient is RSAES-OAEP. -/
def Spec.IsOaep (b : Base) : Prop := ∃ i ∈ [(-40 : Int), -41, -42], b.getAttr Hdr.Algorithm = .ok (algCls i)
/-- The algorithm of the recipient is AES key wrap. -/
def Spec.IsAesKw (b : Base) : Prop := ∃ i ∈ [(-3 : Int), -4, -5], b.getAttr Hdr.Algorithm = .ok (algCls i)

theorem oaep_sets {i : Int} (h : i ∈ [(-40 : Int), -41, -42]) : inSet (algCls i) aesKws = .ok false ∧
    inSet (algCls i) oaeps = .ok true ∧ ∃ f, algFam (algCls i) = some (.rsaOaep f) := by
  simp only [List.mem_cons, List.not_mem_nil, or_false] at h
  rcases h with rfl | rfl | rfl <;> exact ⟨rfl, rfl, _, rfl⟩

theorem aeskw_sets {i : Int} (h : i ∈ [(-3 : Int), -4, -5]) : inSet (algCls i) aesKws = .ok true ∧
    ∃ n, algFam (algCls i) = some (.aesKw n) := by
  simp only [List.mem_cons, List.not_mem_nil, or_false] at h
  rcases h with rfl | rfl | rfl <;> exact ⟨rfl, _, rfl⟩

/-- C28 for RSA-OAEP recipients, wrapping: without an RSA key that may wrap (or encrypt) with the recipient's
algorithm, `encrypt` raises and no primitive is called. -/
theorem c28_oaep_wrap_partial {b : Base} {ctx : Bytes} {oid : Nat} {rs : List Rcpt} (hal : Spec.IsOaep b)
    (h : ¬ Spec.PolicyMet b [.rsa] [Op.Wrap, Op.Encrypt]) :
    ∃ e, ∀ C R phase path, rcptEncrypt C R phase path (.mk .keyWrap b ctx oid rs) = .error e := by
  obtain ⟨i, hi, ha⟩ := hal
  obtain ⟨s1, s2, f, s3⟩ := oaep_sets hi
  have h3 : ∃ e, ∀ C salt, kwEncrypt C salt b rs = .error e := by
    unfold kwEncrypt
    simp only [ha, ok_bind]
    split
    · exact ⟨_, fun _ _ => rfl⟩
    · simp only [algCls, reduceCtorEq, if_false] at s1 s2 ⊢
      simp only [s1, s2, ok_bind, Bool.false_eq_true, if_false, if_true]
      cases hk : b.key with
      | none => exact ⟨_, fun _ _ => rfl⟩
      | some k =>
        cases hv : k.verify .rsa (algCls i) [Op.Wrap, Op.Encrypt] with
        | error e => exact ⟨e, fun _ _ => by simp [hv]⟩
        | ok u => exact absurd ⟨k, _, hk, ha, verify_usable hv s3 (by simp)⟩ h
  obtain ⟨e, he⟩ := h3
  exact ⟨e, fun C R phase path => by simp [rcptEncrypt, Rcpt.cls, Rcpt.base, Rcpt.recipients, he]⟩

/-- C28 for RSA-OAEP recipients, unwrapping. -/
theorem c28_oaep_unwrap_partial {b : Base} {ctx : Bytes} {oid : Nat} {rs : List Rcpt} (hal : Spec.IsOaep b)
    (h : ¬ Spec.PolicyMet b [.rsa] [Op.Unwrap, Op.Decrypt]) :
    ∃ e, ∀ C, rcptDecrypt C (.mk .keyWrap b ctx oid rs) = .error e := by
  obtain ⟨i, hi, ha⟩ := hal
  obtain ⟨s1, s2, f, s3⟩ := oaep_sets hi
  simp only [rcptDecrypt, ha, ok_bind, s1, s2, Bool.false_eq_true, if_false, if_true]
  cases hk : b.key with
  | none => exact ⟨_, fun _ => rfl⟩
  | some k =>
    cases hv : k.verify .rsa (algCls i) [Op.Unwrap, Op.Decrypt] with
    | error e => exact ⟨e, fun _ => by simp [hv]⟩
    | ok u => exact absurd ⟨k, _, hk, ha, verify_usable hv s3 (by simp)⟩ h

/-- For AES key wrap only the key value matters: whatever else the key-encryption key says (its `alg`, its
`key_ops`), the recipient wraps in the same way … -/
theorem c28_aeskw_ignores_policy {C : Crypto} {R : Rand} {phase : Nat} {path : List Nat} {b : Base} {ctx : Bytes} {oid : Nat}
    {rs : List Rcpt} {k k' : Key} (hal : Spec.IsAesKw b) (hk : k'.symK = k.symK) :
    (rcptEncrypt C R phase path (.mk .keyWrap { b with key := some k' } ctx oid rs)).map (·.1) =
      (rcptEncrypt C R phase path (.mk .keyWrap { b with key := some k } ctx oid rs)).map (·.1) := by
  obtain ⟨i, hi, ha⟩ := hal
  obtain ⟨s1, n, s3⟩ := aeskw_sets hi
  have e : ∀ q : Option Key, ({ b with key := q } : Base).getAttr Hdr.Algorithm = .ok (algCls i) := fun q => ha
  have : kwEncrypt C (R.salt phase path) { b with key := some k' } rs = kwEncrypt C (R.salt phase path) { b with key := some k } rs := by
    simp only [kwEncrypt, e, ok_bind, s1, if_true, kwKekEncrypt, hk]
  simp only [rcptEncrypt, Rcpt.cls, Rcpt.base, Rcpt.recipients, this]
  cases kwEncrypt C (R.salt phase path) { b with key := some k } rs <;> rfl

/-- … and unwraps in the same way. -/
theorem c28_aeskw_unwrap_ignores_policy {C : Crypto} {b : Base} {ctx : Bytes} {oid : Nat}
    {rs : List Rcpt} {k k' : Key} (hal : Spec.IsAesKw b) (hk : k'.symK = k.symK) :
    rcptDecrypt C (.mk .keyWrap { b with key := some k' } ctx oid rs) =
      rcptDecrypt C (.mk .keyWrap { b with key := some k } ctx oid rs) := by
  obtain ⟨i, hi, ha⟩ := hal
  obtain ⟨s1, n, s3⟩ := aeskw_sets hi
  have e : ∀ q : Option Key, ({ b with key := q } : Base).getAttr Hdr.Algorithm = .ok (algCls i) := fun q => ha
  have hd : kwKekDecrypt C (some k') rs = kwKekDecrypt C (some k) rs := by
    cases rs <;> simp [kwKekDecrypt, hk]
  simp only [rcptDecrypt, e, ok_bind, s1, if_true, hd]

/-- A symmetric key for HMAC verification only. -/
def Sample.macOnlyKey : Key :=
  { kind := .sym
    store := [(.cls KpKty, .cls KtySym), (.cls KpAlg, algCls 5), (.cls KpKeyOps, .arr [.cls Op.MacVerify]),
      (.cls SymK, .bytes (List.replicate 16 5))] }

example : symInit (.bytes (List.replicate 16 5)) [(.text b!"ALG", .text b!"HMAC_256"), (.int 4, .arr [.text b!"MAC_VERIFY"])] false =
    .ok Sample.macOnlyKey := by decide +kernel

/-- The property is false of the code: a key restricted to `HMAC_256` and `MacVerify` wraps a key. -/
theorem c28_refuted : ¬ ∀ (C : Crypto) (R : Rand) (path : List Nat) (r r' : Rcpt) (c : Bytes), r.cls = .keyWrap →
    rcptEncrypt C R 0 path r = .ok (c, r') → Spec.PolicyMet r.base [.sym, .rsa] [Op.Wrap, Op.Encrypt] := by
  intro h
  have hr : rcptEncrypt toy Sample.rand 0 [] (((Sample.kwRcpt 1).withKey (some Sample.macOnlyKey)).withBase
      { ((Sample.kwRcpt 1).withKey (some Sample.macOnlyKey)).base with payload := some (List.replicate 16 1) }) =
      .ok (List.replicate 8 5 ++ List.replicate 16 1, (((Sample.kwRcpt 1).withKey (some Sample.macOnlyKey)).withBase
      { ((Sample.kwRcpt 1).withKey (some Sample.macOnlyKey)).base with payload := some (List.replicate 16 1) })) := by
    decide +kernel
  obtain ⟨k, alg, hk, _, hu⟩ := h _ _ _ _ _ _ rfl hr
  simp [Rcpt.withKey, Rcpt.withBase, Rcpt.base] at hk
  subst hk
  obtain ⟨o, ho, hm⟩ := hu.ops [.cls Op.MacVerify] (by decide +kernel) (by simp)
  simp at ho hm
  subst hm
  rcases ho with ho | ho <;> revert ho <;> decide

/-- An OAEP recipient meets the hypotheses: with the key of the samples it wraps, with an EC2 key it does not. -/
example : Spec.IsOaep (Sample.oaepRcpt 1).base ∧
    ¬ Spec.PolicyMet { (Sample.oaepRcpt 1).base with key := some Sample.ecKey } [.rsa] [Op.Wrap, Op.Encrypt] ∧
    Spec.IsAesKw (Sample.kwRcpt 1).base := by
  refine ⟨⟨-41, by decide, by decide +kernel⟩, ?_, ⟨-3, by decide, by decide +kernel⟩⟩
  rintro ⟨k, _, hk, _, hu⟩
  simp at hk; subst hk
  have := hu.kind
  revert this; decide

/-! ### C29 -/

/-- ECDSA, EdDSA and RSA signature algorithms (RFC 8152, RFC 8230). -/
def Spec.ecdsaIds : List Int := [-7, -35, -36]
def Spec.eddsaIds : List Int := [-8]
def Spec.rsaSigIds : List Int := [-37, -38, -39, -257, -258, -259, -65535]

/-- The key is on the curve Ed25519 or Ed448. -/
def Spec.OnEdwards (k : Key) : Prop := ∃ c, k.crv = .ok (.cls c) ∧ (fullname c = b!"ED25519" ∨ fullname c = b!"ED448")

theorem ecdsa_fam {i : Int} (h : i ∈ Spec.ecdsaIds) : ∃ c hh, signMethod (algCls i) = .ok (.ecdsa c hh) := by
  simp only [Spec.ecdsaIds, List.mem_cons, List.not_mem_nil, or_false] at h
  rcases h with rfl | rfl | rfl <;> exact ⟨_, _, rfl⟩

theorem eddsa_fam {i : Int} (h : i ∈ Spec.eddsaIds) : signMethod (algCls i) = .ok .eddsa := by
  simp only [Spec.eddsaIds, List.mem_cons, List.not_mem_nil, or_false] at h
  subst h; rfl

theorem rsa_fam {i : Int} (h : i ∈ Spec.rsaSigIds) : ∃ p hh, signMethod (algCls i) = .ok (.rsa p hh) := by
  simp only [Spec.rsaSigIds, List.mem_cons, List.not_mem_nil, or_false] at h
  rcases h with rfl | rfl | rfl | rfl | rfl | rfl | rfl <;> exact ⟨_, _, rfl⟩

/-- Every algorithm that can sign is one of these. -/
theorem c29_complete {alg : Val} {C : Crypto} {rnd data s : Bytes} {k : Key} {f : AlgFam} (h : signMethod alg = .ok f)
    (hs : callSign C rnd f k data = .ok s) :
    ∃ i, alg = algCls i ∧ i ∈ Spec.ecdsaIds ++ Spec.eddsaIds ++ Spec.rsaSigIds := by
  have hf := signMethod_fam h
  obtain ⟨c, n, rfl, hr, ht⟩ := algFam_reg hf
  have hr := alg_reg hr
  obtain ⟨r, i⟩ := c
  simp at hr; subst hr
  refine ⟨i, rfl, ?_⟩
  have key : ∀ p ∈ algTable, (match p.2 with
      | .rsa _ _ => decide (p.1 ∈ Spec.ecdsaIds ++ Spec.eddsaIds ++ Spec.rsaSigIds)
      | .ecdsa _ _ => decide (p.1 ∈ Spec.ecdsaIds ++ Spec.eddsaIds ++ Spec.rsaSigIds)
      | .eddsa => decide (p.1 ∈ Spec.ecdsaIds ++ Spec.eddsaIds ++ Spec.rsaSigIds)
      | _ => true) = true := by decide +kernel
  have := key _ ht
  cases f <;> simp only [callSign, reduceCtorEq, decide_eq_true_eq] at this hs
  · exact this
  · simp [bind_eq_ok] at hs
  · exact this
  · exact this

theorem edCurve_ok {k : Key} {c : Cls} (h : edCurve k = .ok c) : Spec.OnEdwards k := by
  simp only [edCurve, bind_eq_ok] at h
  obtain ⟨v, h1, h⟩ := h
  split at h
  · split at h
    · exact ⟨_, h1, by assumption⟩
    · simp at h
  · simp at h

theorem edwards_kind {k : Key} (h : Spec.OnEdwards k) :
    k.kind = .okp ∨ (k.kind = .ec2 ∧ ∃ c, dget k.store (.cls Ec2Crv) = some (.cls c) ∧ crvKind c ≠ some KtyEC2) := by
  obtain ⟨c, h1, h2⟩ := h
  cases hk : k.kind
  case okp => exact .inl rfl
  case ec2 =>
    refine .inr ⟨rfl, c, ?_, ?_⟩
    · simp only [Key.crv, hk] at h1
      split at h1 <;> simp at h1
      subst h1; assumption
    · intro hc
      obtain ⟨r, i⟩ := c
      unfold crvKind at hc
      simp only at hc
      split at hc
      · rename_i hr
        subst hr
        split at hc
        · rename_i hi
          rcases hi with rfl | rfl | rfl | rfl <;> revert h2 <;> decide +kernel
        · split at hc <;> revert hc <;> decide
      · simp at hc
  all_goals simp [Key.crv, hk] at h1

/-- C29, RSA algorithms sign only with RSA keys. -/
theorem c29_rsa_sign {C : Crypto} {rnd s : Bytes} {b : Base} {tbs : Res Bytes} {i : Int} (hi : i ∈ Spec.rsaSigIds)
    (ha : b.getAttr Hdr.Algorithm = .ok (algCls i)) (h : computeSignature C rnd b tbs = .ok s) :
    ∃ k, b.key = some k ∧ k.kind = .rsa := by
  obtain ⟨p, hh, hm⟩ := rsa_fam hi
  simp only [computeSignature, ha, ok_bind, bind_eq_ok] at h
  obtain ⟨k, hk, f, hf, _, _, h⟩ := h
  rw [hm] at hf; simp at hf; subst hf
  refine ⟨k, (keyVerification_inv hk).1, ?_⟩
  simp only [callSign, rsaNumsOf, bind_eq_ok] at h
  obtain ⟨_, ⟨_, h1, _⟩, _⟩ := h
  simp only [Key.rsaParam] at h1
  split at h1
  · assumption
  · simp at h1

/-- C29, EdDSA signs only with keys on an Edwards curve; these are OKP keys (an EC2 key would need a curve that
is not an EC2 curve, which the constructors and setters refuse, see C40). -/
theorem c29_eddsa_sign {C : Crypto} {rnd s : Bytes} {b : Base} {tbs : Res Bytes} {i : Int} (hi : i ∈ Spec.eddsaIds)
    (ha : b.getAttr Hdr.Algorithm = .ok (algCls i)) (h : computeSignature C rnd b tbs = .ok s) :
    ∃ k, b.key = some k ∧ Spec.OnEdwards k ∧
      (k.kind = .okp ∨ (k.kind = .ec2 ∧ ∃ c, dget k.store (.cls Ec2Crv) = some (.cls c) ∧ crvKind c ≠ some KtyEC2)) := by
  have hm := eddsa_fam hi
  simp only [computeSignature, ha, ok_bind, bind_eq_ok] at h
  obtain ⟨k, hk, f, hf, _, _, h⟩ := h
  rw [hm] at hf; simp at hf; subst hf
  simp only [callSign, bind_eq_ok] at h
  obtain ⟨c, h1, _⟩ := h
  exact ⟨k, (keyVerification_inv hk).1, edCurve_ok h1, edwards_kind (edCurve_ok h1)⟩

/-- C29, verification: a verdict exists only for a key of the kind that belongs to the algorithm. -/
theorem c29_verify {C : Crypto} {b : Base} {tbs : Res Bytes} {sig : Val} {r : Bool} {i : Int}
    (ha : b.getAttr Hdr.Algorithm = .ok (algCls i)) (h : verifySignature C b tbs sig = .ok r) :
    ∃ k, b.key = some k ∧ (i ∈ Spec.ecdsaIds → k.kind = .ec2) ∧ (i ∈ Spec.eddsaIds → Spec.OnEdwards k) ∧
      (i ∈ Spec.rsaSigIds → k.kind = .rsa) := by
  simp only [verifySignature, ha, ok_bind, bind_eq_ok] at h
  obtain ⟨k, hk, f, hf, _, _, h⟩ := h
  refine ⟨k, (keyVerification_inv hk).1, ?_, ?_, ?_⟩
  · intro hi
    obtain ⟨c, hh, e⟩ := ecdsa_fam hi
    rw [e] at hf; simp at hf; subst hf
    simp only [callVerify, bind_eq_ok] at h
    obtain ⟨_, _, _, _, _, h1, _⟩ := h
    unfold Key.y at h1
    split at h1
    · assumption
    · simp at h1
  · intro hi
    have e := eddsa_fam hi
    rw [e] at hf; simp at hf; subst hf
    simp only [callVerify, bind_eq_ok] at h
    obtain ⟨c, h1, _⟩ := h
    exact edCurve_ok h1
  · intro hi
    obtain ⟨c, hh, e⟩ := rsa_fam hi
    rw [e] at hf; simp at hf; subst hf
    simp only [callVerify, bind_eq_ok] at h
    obtain ⟨_, h1, _⟩ := h
    simp only [Key.rsaParam] at h1
    split at h1
    · assumption
    · simp at h1

/-- C29, ECDSA signing: what remains is that the key has a private value (EC2, OKP and RSA keys have one). -/
theorem c29_ecdsa_sign_partial {C : Crypto} {rnd s : Bytes} {b : Base} {tbs : Res Bytes} {i : Int} (hi : i ∈ Spec.ecdsaIds)
    (ha : b.getAttr Hdr.Algorithm = .ok (algCls i)) (h : computeSignature C rnd b tbs = .ok s) :
    ∃ k d, b.key = some k ∧ k.kind ≠ .sym ∧ k.d = .ok (.bytes d) ∧ d ≠ [] := by
  obtain ⟨p, hh, hm⟩ := ecdsa_fam hi
  simp only [computeSignature, ha, ok_bind, bind_eq_ok] at h
  obtain ⟨k, hk, f, hf, _, _, h⟩ := h
  rw [hm] at hf; simp at hf; subst hf
  simp only [callSign, bind_eq_ok] at h
  obtain ⟨v, h1, n, h2, _⟩ := h
  obtain ⟨d, rfl, hd, _⟩ := intFromHex_inv h2
  refine ⟨k, d, (keyVerification_inv hk).1, ?_, h1, hd⟩
  intro e
  simp [Key.d, e] at h1

/-- An Ed25519 key. -/
def Sample.edKey : Key :=
  { kind := .okp
    store := [(.cls KpKty, .cls KtyOKP), (.cls OkpCrv, .cls ⟨.crv, 6⟩), (.cls OkpX, .bytes (List.replicate 32 3)),
      (.cls OkpD, .bytes (List.replicate 25 3))] }

example : okpInit (.text b!"ED25519") (.bytes (List.replicate 32 3)) (.bytes (List.replicate 25 3)) [] false = .ok Sample.edKey := by
  decide +kernel

/-- The property is false of the code: ES256 signs with an Ed25519 key. -/
theorem c29_ecdsa_sign_refuted : ¬ ∀ (C : Crypto) (rnd s : Bytes) (m : Sign1) (i : Int) (k : Key), i ∈ Spec.ecdsaIds →
    m.base.getAttr Hdr.Algorithm = .ok (algCls i) → m.base.key = some k → m.computeSignature C rnd none = .ok s →
    k.kind = .ec2 := by
  intro h
  have := h toy [] ((Sign1.computeSignature toy [] { base := Sample.baseWith (-7) Sample.edKey (some b!"hello") } none).toOption.get
    (by decide +kernel)) { base := Sample.baseWith (-7) Sample.edKey (some b!"hello") } (-7) Sample.edKey (by decide) (by decide +kernel) rfl
    (by decide +kernel)
  revert this; decide

/-- Also, the curve is the algorithm's: a P-256 key signs with ES512 (P-521). -/
theorem c29_curve_refuted : ¬ ∀ (C : Crypto) (rnd s : Bytes) (m : Sign1) (k : Key),
    m.base.getAttr Hdr.Algorithm = .ok (algCls (-36)) → m.base.key = some k → m.computeSignature C rnd none = .ok s →
    k.crv = .ok (.cls P521) := by
  intro h
  have := h toy [] ((Sign1.computeSignature toy [] { base := Sample.baseWith (-36) Sample.ecKey (some b!"hello") } none).toOption.get
    (by decide +kernel)) { base := Sample.baseWith (-36) Sample.ecKey (some b!"hello") } Sample.ecKey (by decide +kernel) rfl
    (by decide +kernel)
  revert this; decide +kernel

example : (Sign1.computeSignature toy [] { base := Sample.baseWith (-8) Sample.edKey (some b!"hello") } none).isOk = true ∧
    (Sign1.computeSignature toy [] { base := Sample.baseWith (-37) Sample.rsaKey (some b!"hello") } none).isOk = true ∧
    (Sign1.verifySignature toy { base := Sample.baseWith (-7) Sample.ecKey (some b!"hello"), signature := .bytes [1] } none) = .ok false := by
  decide +kernel

end Cose
