import Verif.Props.RefusalsAgree
/-!
# Property C91, continued: messages with recipients
-/
set_option autoImplicit false
namespace Cose

/-! ### Specification -/

/-- The call that seals or opens a message with headers and key `b`, and what is made of its result. -/
def Spec.Seals {α : Type} (prim : Aead → Bytes → Bytes → Bytes → Bytes → Res Bytes) (b : Base) (next : Bytes → α) (r : Res α) : Prop :=
  ∃ a key nonce aad text, Spec.Sealing b!"Encrypt" b a key nonce aad text ∧ Spec.Then (prim a key nonce aad text) (fun c r => r = .ok (next c)) r

/-- A recipient that carries a wrapped key, encrypting. -/
def Spec.WrapsOne (C : Crypto) (R : Rand) (phase : Nat) (path : List Nat) (r : Rcpt) (q : Res (Bytes × Rcpt)) : Prop :=
  match r.cls with
  | .keyWrap => ∃ q', Spec.Outcome (Spec.wrapUse r.base) (Spec.WrapsWith C (R.salt phase path) r.base r.recipients) q' ∧
      Spec.Then q' (fun c q => q = .ok (c, r)) q
  | .keyAgreementWithKeyWrap => ∃ q', Spec.Outcome (Spec.agreedWrapUse r.base) (Spec.AgreedWraps C (R.eph path) r.base) q' ∧
      Spec.Then q' (fun p q => q = .ok (p.1, r.withBase p.2)) q
  | _ => q = .error .attributeError

/-- All recipients wrap, one after the other: each wraps its own payload if it has one, which then is the key for those after it, and
otherwise the key before it.  The first that refuses decides. -/
def Spec.WrapEach (C : Crypto) (R : Rand) : Nat → Option Bytes → List Rcpt → Res (Option Bytes × List Rcpt) → Prop
  | _, key, [], q => q = .ok (key, [])
  | i, key, r :: t, q =>
    let key' := if r.base.payload = some [] then key else r.base.payload
    ∃ q1, Spec.WrapsOne C R 0 [i] (r.withBase { r.base with payload := key' }) q1 ∧
      Spec.Then q1 (fun p q => ∃ q2, Spec.WrapEach C R (i + 1) key' t q2 ∧ Spec.Then q2 (fun p' q => q = .ok (p'.1, p.2 :: p'.2)) q) q

/-- The rules for the recipients of a message. -/
def Spec.recipientsUse (b : Base) (rs : List Rcpt) : List (Prop × PyErr) :=
  [(¬ Spec.Twice b Hdr.Algorithm, .coseException), (Spec.RecipientRules rs, .coseException)]

/-- The algorithm of a message whose key is to be wrapped has a key length. -/
def Spec.lengthUse (b : Base) : List (Prop × PyErr) :=
  [(∃ t bits, Spec.Value b Hdr.Algorithm (algCls t) ∧ Spec.keyBits t = some bits, .attributeError)]

/-- How a message with recipients gets its key, and what it then does (`use`): its own key with direct encryption, an agreed one with direct key
agreement, one that is wrapped for each recipient otherwise. -/
def Spec.KeyedBy {α : Type} (C : Crypto) (R : Rand) (b : Base) (rs : List Rcpt) (own : Res α → Prop) (use : Key → Res α → Prop)
    (wrapped : Int → Option Bytes × List Rcpt → Res α → Prop) (r : Res α) : Prop :=
  ((∀ x ∈ rs, x.cls = .directEncryption) ∧ own r) ∨
  (∃ x target q, rs = [x] ∧ x.cls = .directKeyAgreement ∧ b.getAttr Hdr.Algorithm = .ok target ∧
    Spec.Outcome (Spec.directUse x.base) (Spec.DirectAgreed C x.base target true) q ∧ Spec.Then q use r) ∨
  ((∀ x ∈ rs, x.cls = .keyWrap ∨ x.cls = .keyAgreementWithKeyWrap) ∧
    Spec.Outcome (Spec.lengthUse b) (fun r => ∃ t bits q, Spec.Value b Hdr.Algorithm (algCls t) ∧ Spec.keyBits t = some bits ∧
      Spec.WrapEach C R 0 (some (R.cek (bits / 8))) rs q ∧ Spec.Then q (wrapped t) r) r)

/-- The keys and headers of the recipients are as every way to make them leaves them. -/
def Spec.OrdinaryRecipients (rs : List Rcpt) (sender : Bool) : Prop :=
  ∀ x ∈ rs, Spec.OrdinaryKey x.base ∧ Spec.NamesAlgorithms x.base ∧ ∀ i, Spec.OrdinaryPeer x.base i sender

/-- The algorithm of the message, if it has one, is in the registry, as every way to make a header leaves it. -/
def Spec.KnownAlgorithm (b : Base) : Prop := ∀ v, Spec.Value b Hdr.Algorithm v → ∃ t nm, v = algCls t ∧ ((⟨.alg, t⟩ : Cls), nm) ∈ registry .alg

/-- The key a recipient gives for decryption with the algorithm `target`. -/
def Spec.GivesKey (C : Crypto) (x : Rcpt) (target : Val) (q : Res Key) : Prop :=
  match x.cls with
  | .directEncryption => q = .error .typeError
  | .directKeyAgreement => Spec.Outcome (Spec.directUse x.base) (Spec.DirectAgreed C x.base target false) q
  | .keyWrap => ∃ q', Spec.Outcome (Spec.unwrapUse x.base) (Spec.UnwrapsWith C x.base x.recipients) q' ∧
      Spec.Then q' (fun kb => Spec.Outcome [(target ≠ .none, .coseException)] (Spec.Makes target [Op.Decrypt] kb)) q
  | .keyAgreementWithKeyWrap => ∃ q', Spec.Outcome (Spec.agreedUnwrapUse x.base) (Spec.AgreedUnwraps C x.base) q' ∧
      Spec.Then q' (fun kb => Spec.Outcome [(target ≠ .none, .coseException)] (Spec.Makes target [Op.Decrypt] kb)) q

/-- A COSE_Mac message with this key. -/
def Spec.MacWithKey (m : Mac) (k : Key) : Mac := { m with base := { m.base with key := some k } }

/-! ### Lemmas -/

theorem outcome_bind {α β : Type} {l : List (Prop × PyErr)} {rest : Res α → Prop} {q : Res α} {f : α → Res β} {next : α → Res β → Prop}
    (h : Spec.Outcome l rest q) (hf : ∀ a, q = .ok a → next a (f a)) :
    Spec.Outcome l (fun r => ∃ q, rest q ∧ Spec.Then q next r) (q >>= f) := by
  rcases h with ⟨e, h1, rfl⟩ | ⟨h1, h2⟩
  · exact .inl ⟨e, h1, rfl⟩
  · exact .inr ⟨h1, q, h2, then_bind hf⟩

theorem wrapped_outcome {C : Crypto} {R : Rand} {phase : Nat} {path : List Nat} {r : Rcpt} (hk : Spec.OrdinaryKey r.base) (hn : Spec.NamesAlgorithms r.base) :
    Spec.WrapsOne C R phase path r (rcptEncrypt C R phase path r) := by
  unfold Spec.WrapsOne rcptEncrypt
  cases r.cls with
  | keyWrap => exact ⟨_, wrap_outcome hk hn, then_bind fun _ _ => rfl⟩
  | keyAgreementWithKeyWrap => exact ⟨_, agreed_wrap, then_bind fun _ _ => rfl⟩
  | _ => rfl

theorem wrapEach_outcome {C : Crypto} {R : Rand} {rs : List Rcpt} {i : Nat} {key : Option Bytes}
    (h : ∀ x ∈ rs, Spec.OrdinaryKey x.base ∧ Spec.NamesAlgorithms x.base) : Spec.WrapEach C R i key rs (wrapLoop C R i key rs) := by
  induction rs generalizing i key with
  | nil => rfl
  | cons r t ih =>
    unfold wrapLoop Spec.WrapEach
    obtain ⟨hk, hn⟩ := h r (by simp)
    have hr : (if r.base.payload = some [] then (key, r.withBase { r.base with payload := key }) else (r.base.payload, r)) =
        (if r.base.payload = some [] then key else r.base.payload,
         r.withBase { r.base with payload := if r.base.payload = some [] then key else r.base.payload }) := by
      split
      · rfl
      · cases r; rfl
    rw [hr]
    exact ⟨_, wrapped_outcome (r := r.withBase { r.base with payload := if r.base.payload = some [] then key else r.base.payload }) (by cases r; exact hk) (by cases r; exact hn),
      then_bind fun p _ => ⟨_, ih fun x hx => h x (by simp [hx]), then_bind fun p' _ => rfl⟩⟩

theorem made_ordinary {b : Base} {t : Int} {ops : List Cls} {kb : Bytes} : Spec.OrdinaryKey { b with key := some (Spec.MadeKey t ops kb) } := by
  rintro k hk
  cases hk
  refine ⟨⟨.inr ⟨t, ?_⟩, ?_⟩, fun h => by cases h⟩
  · cases ops <;> rfl
  · cases ops with
    | nil => exact .inl rfl
    | cons o t => exact .inr ⟨_, rfl⟩

theorem made_ivBytes {b : Base} {t : Int} {ops : List Cls} {kb : Bytes} (h : Spec.IvBytes b) : Spec.IvBytes { b with key := some (Spec.MadeKey t ops kb) } := by
  refine ⟨?_, h.2⟩
  rintro k hk
  cases hk
  rw [← madeKey_eq]
  exact ⟨[], symStore_baseIv _ _ _⟩

theorem rules_error {rs : List Rcpt} (h : ¬ Spec.RecipientRules rs) : verifyRecipients rs = .error .coseException ∨ rs = [] := by
  by_cases h0 : rs = []
  · exact .inr h0
  · left
    cases hv : verifyRecipients rs with
    | error e => rw [verifyRecipients_error hv]
    | ok ts => exact absurd (rules_of_types (verifyRecipients_types hv ▸ hv) h0) h

theorem dka_made {C : Crypto} {b : Base} {target : Val} {sender : Bool} {k : Key} (h : dkaComputeCek C b target sender = .ok k) :
    ∃ t kb, k = Spec.MadeKey t [] kb := by
  obtain ⟨i, t, mine, kind, store, kek, _, rfl, _, _, hag, _⟩ := c75_direct_agreement h
  obtain ⟨_, _, _, _, _, _, _, bits, _, _, _, _, _, _, _, _, _, _, _, _, _, hb, _⟩ := hag
  obtain ⟨nm, hreg⟩ := keyBits_reg hb
  obtain ⟨v, hv⟩ := dka_mkSym h
  obtain ⟨kb, _, _, rfl⟩ := mkSym_ok hreg (by simp) hv
  exact ⟨t, kb, madeKey_eq⟩

theorem types_wrap {rs : List Rcpt} (hr : Spec.RecipientRules rs) (hd : (rs.map Rcpt.cls).contains .directEncryption = false)
    (ha : (rs.map Rcpt.cls).contains .directKeyAgreement = false) :
    (∀ x ∈ rs, x.cls = .keyWrap ∨ x.cls = .keyAgreementWithKeyWrap) ∧
    ((rs.map Rcpt.cls).contains .keyWrap = true ∨ (rs.map Rcpt.cls).contains .keyAgreementWithKeyWrap = true) := by
  simp only [List.contains_eq_mem, List.mem_map, decide_eq_false_iff_not, not_exists, not_and] at hd ha
  have h : ∀ x ∈ rs, x.cls = .keyWrap ∨ x.cls = .keyAgreementWithKeyWrap := by
    intro x hx
    have h1 := hd x hx
    have h2 := ha x hx
    cases hc : x.cls <;> simp_all
  refine ⟨h, ?_⟩
  cases rs with
  | nil => exact absurd rfl hr.nonempty
  | cons r t =>
    rcases h r (by simp) with e | e <;> simp [e]

theorem keyed_outcome {α : Type} {C : Crypto} {R : Rand} {b : Base} {rs : List Rcpt} {own : Res α → Prop} {use : Key → Res α → Prop}
    {wrapped : Int → Option Bytes × List Rcpt → Res α → Prop} {ownF : Res α} {useF : Key → Res α} {agreeF : Val → Res α} {wrapF : Val → Option Bytes × List Rcpt → Res α}
    (hrs : Spec.OrdinaryRecipients rs true) (h1 : own ownF)
    (hag : ∀ target x, rs = [x] → agreeF target = dkaComputeCek C x.base target true >>= useF)
    (h2 : ∀ t kb, use (Spec.MadeKey t [] kb) (useF (Spec.MadeKey t [] kb)))
    (h3 : ∀ t bits p, Spec.keyBits t = some bits → wrapped t p (wrapF (algCls t) p)) :
    Spec.Outcome (Spec.recipientsUse b rs) (Spec.KeyedBy C R b rs own use wrapped)
      (b.getAttr Hdr.Algorithm >>= fun target => verifyRecipients rs >>= fun types =>
        if types.contains .directEncryption then ownF
        else if types.contains .directKeyAgreement then
          agreeF target
        else if types.contains .keyWrap ∨ types.contains .keyAgreementWithKeyWrap then
          algKeyLength target >>= fun n => wrapLoop C R 0 (some (R.cek n)) rs >>= wrapF target
        else .error .coseException) := by
  refine outcome_cons (fun hp => ?_) fun hp => ?_
  · rw [getAttr_twice (Classical.not_not.mp hp)]; rfl
  obtain ⟨target, ha, hv⟩ := getAttr_value hp
  rw [ha, ok_bind]
  refine outcome_cons (fun hp => ?_) fun hr => outcome_nil ?_
  · rcases rules_error hp with h | rfl
    · rw [h]; rfl
    · rfl
  rw [c32_accepted hr, ok_bind]
  split
  · rename_i hd
    refine .inl ⟨?_, h1⟩
    simp only [List.contains_eq_mem, List.mem_map, decide_eq_true_eq] at hd
    exact hr.direct hd
  rename_i hd
  split
  · rename_i ha'
    simp only [List.contains_eq_mem, List.mem_map, decide_eq_true_eq] at ha'
    have hl := hr.agreement ha'
    obtain ⟨x, rfl⟩ : ∃ x, rs = [x] := by
      cases rs with
      | nil => simp at hl
      | cons x t => cases t with
        | nil => exact ⟨x, rfl⟩
        | cons _ _ => simp at hl
    have hx : x.cls = .directKeyAgreement := by simpa using ha'
    obtain ⟨hk, hn, hpe⟩ := hrs x (by simp)
    rw [hag target x rfl]
    refine .inr (.inl ⟨x, target, _, rfl, hx, ha, dka_outcome (fun k h => (hk k h).1) hpe hn, then_bind fun k hk' => ?_⟩)
    obtain ⟨t, kb, rfl⟩ := dka_made hk'
    exact h2 t kb
  rename_i ha'
  obtain ⟨hw, ht⟩ := types_wrap hr (by simpa using hd) (by simpa using ha')
  rw [if_pos ht]
  refine .inr (.inr ⟨hw, ?_⟩)
  have hb : (∃ t bits, Spec.Value b Hdr.Algorithm (algCls t) ∧ Spec.keyBits t = some bits) ↔ ∃ n, algKeyLength target = .ok n := by
    rw [← keyLength_bits]
    exact ⟨fun ⟨t, bits, h, h'⟩ => ⟨t, bits, (hv _ cls_ne_none).mp h, h'⟩, fun ⟨t, bits, h, h'⟩ => ⟨t, bits, (hv _ cls_ne_none).mpr h, h'⟩⟩
  refine outcome_cons (fun hp => ?_) fun ⟨t, bits, hva, hbits⟩ => outcome_nil ?_
  · rw [hb] at hp
    rw [keyLength_error hp]; rfl
  have := (hv _ cls_ne_none).mp hva
  subst this
  rw [keyBits_length hbits, ok_bind]
  exact ⟨t, bits, _, hva, hbits, wrapEach_outcome fun x hx => ⟨(hrs x hx).1, (hrs x hx).2.1⟩, then_bind fun p _ => h3 t bits p hbits⟩

theorem seals_encrypt {α : Type} {C : Crypto} {b : Base} {next : Bytes → α} (hk : Spec.OrdinaryKey b) (hn : Spec.NamesAlgorithms b)
    (hf : Spec.FitsStructure b) (hi : Spec.IvBytes b) :
    Spec.Outcome (Spec.encryptUse b) (Spec.Seals C.aeadEnc b next) (encEncrypt C b!"Encrypt" b >>= fun c => .ok (next c)) := by
  refine outcome_mono (outcome_bind (next := fun c r => r = .ok (next c)) (encrypt_outcome (by decide) hk hn hf hi) fun _ _ => rfl) ?_
  rintro ⟨q, ⟨a, key, nonce, aad, text, h, rfl⟩, h'⟩
  exact ⟨a, key, nonce, aad, text, h, h'⟩

theorem seals_decrypt {α : Type} {C : Crypto} {b : Base} {next : Bytes → α} (hk : Spec.OrdinaryKey b) (hn : Spec.NamesAlgorithms b)
    (hf : Spec.FitsStructure b) (hi : Spec.IvBytes b) :
    Spec.Outcome (Spec.decryptUse b) (Spec.Seals C.aeadDec b next) (encDecrypt C b!"Encrypt" b >>= fun c => .ok (next c)) := by
  refine outcome_mono (outcome_bind (next := fun c r => r = .ok (next c)) (decrypt_outcome (by decide) hk hn hf hi) fun _ _ => rfl) ?_
  rintro ⟨q, ⟨a, key, nonce, aad, text, h, rfl⟩, h'⟩
  exact ⟨a, key, nonce, aad, text, h, h'⟩

theorem mkSym_none {kb : Val} {ops : List Cls} : mkSym kb .none ops = .error .coseException := by
  have h1 : fromIdKey .kpSym (.cls KpAlg) true = .ok (.cls KpAlg) := by decide +kernel
  have h2 : simpleParser KpAlg .none = .error .coseException := by decide +kernel
  simp only [mkSym, symInit, initStore, parseAttrs, kindReg, h1, ok_bind, h2]
  rfl

theorem gives_key {C : Crypto} {x : Rcpt} {target : Val} (hk : Spec.OrdinaryKey x.base) (hn : Spec.NamesAlgorithms x.base)
    (hp : ∀ i, Spec.OrdinaryPeer x.base i false) (ht : target = .none ∨ ∃ t nm, target = algCls t ∧ ((⟨.alg, t⟩ : Cls), nm) ∈ registry .alg) :
    Spec.GivesKey C x target (rcptComputeCek C x target) := by
  have make : ∀ kb, Spec.Outcome [(target ≠ .none, .coseException)] (Spec.Makes target [Op.Decrypt] kb) (mkSym (.bytes kb) target [Op.Decrypt]) := by
    intro kb
    rcases ht with rfl | ⟨t, nm, rfl, hreg⟩
    · exact outcome_cons (fun _ => mkSym_none) fun h => absurd rfl h
    · exact outcome_cons (fun h => absurd (by simp) h) fun _ => outcome_nil (makes_reg hreg fun o ho => opReg o (by simp at ho; simp [ho]))
  obtain ⟨cls, b, ctx, oid, rs⟩ := x
  unfold Spec.GivesKey rcptComputeCek
  cases cls with
  | directEncryption => rfl
  | directKeyAgreement => exact dka_outcome (fun k h => (hk k h).1) hp hn
  | keyWrap => exact ⟨_, unwrap_outcome hk hn, then_bind fun kb _ => make kb⟩
  | keyAgreementWithKeyWrap => exact ⟨_, by simp only [rcptDecrypt]; exact agreed_unwrap, then_bind fun kb _ => make kb⟩

theorem computeCek_made {C : Crypto} {x : Rcpt} {t : Int} {nm : Bytes} {k : Key} (hreg : ((⟨.alg, t⟩ : Cls), nm) ∈ registry .alg)
    (h : rcptComputeCek C x (algCls t) = .ok k) : ∃ t ops kb, k = Spec.MadeKey t ops kb := by
  unfold rcptComputeCek at h
  split at h
  · simp at h
  · obtain ⟨t, kb, rfl⟩ := dka_made h; exact ⟨t, _, kb, rfl⟩
  · obtain ⟨kb, _, h⟩ := bind_eq_ok.mp h
    obtain ⟨kb', _, _, rfl⟩ := mkSym_ok hreg (fun o ho => opReg o (by simp at ho; simp [ho])) h
    exact ⟨t, _, kb', madeKey_eq⟩

theorem known_names {b : Base} (h : Spec.KnownAlgorithm b) : Spec.NamesAlgorithms b := by
  intro c hc
  obtain ⟨t, _, e, _⟩ := h _ hc
  cases e; rfl

/-! ### Theorems -/

/-- C91: encrypting a COSE_Encrypt message. -/
theorem c91_enc {C : Crypto} {R : Rand} {m : Enc} (hk : Spec.OrdinaryKey m.base) (hn : Spec.NamesAlgorithms m.base) (hf : Spec.FitsStructure m.base)
    (hi : Spec.IvBytes m.base) (hrs : Spec.OrdinaryRecipients m.recipients true) :
    Spec.Outcome (Spec.recipientsUse m.base m.recipients)
      (Spec.KeyedBy C R m.base m.recipients
        (Spec.Outcome (Spec.encryptUse m.base) (Spec.Seals C.aeadEnc m.base fun c => (c, m)))
        (fun k => Spec.Outcome (Spec.encryptUse (Spec.WithKey m k).base) (Spec.Seals C.aeadEnc (Spec.WithKey m k).base fun c => (c, Spec.WithKey m k)))
        (fun t p => Spec.Outcome [(p.1 ≠ none, .valueError)] fun r => ∃ kb q, p.1 = some kb ∧ Spec.Makes (algCls t) [Op.Encrypt] kb q ∧ Spec.Then q
          (fun k => Spec.Outcome (Spec.encryptUse (Spec.WithKey m k).base)
            (Spec.Seals C.aeadEnc (Spec.WithKey m k).base fun c => (c, { Spec.WithKey m k with recipients := p.2 }))) r))
      (m.encrypt C R) := by
  unfold Enc.encrypt
  refine keyed_outcome (C := C) (R := R) (b := m.base) (rs := m.recipients)
    (ownF := encEncrypt C b!"Encrypt" m.base >>= fun c => .ok (c, m))
    (useF := fun k => encEncrypt C b!"Encrypt" { m.base with key := some k } >>= fun c => .ok (c, { m with base := { m.base with key := some k } }))
    (agreeF := fun target => match m.recipients with
      | [] => .error .indexError
      | r :: _ => dkaComputeCek C r.base target true >>= fun k => encEncrypt C b!"Encrypt" { m.base with key := some k } >>= fun c =>
        .ok (c, { m with base := { m.base with key := some k } }))
    (wrapF := fun target p => mkSym (optBytes p.1) target [Op.Encrypt] >>= fun k =>
    encEncrypt C b!"Encrypt" { m.base with key := some k } >>= fun c => .ok (c, { m with base := { m.base with key := some k }, recipients := p.2 })) hrs
    (seals_encrypt hk hn hf hi) (by intro target x h; simp only [h]) ?_ ?_
  · exact fun t kb => seals_encrypt (b := (Spec.WithKey m (Spec.MadeKey t [] kb)).base) made_ordinary hn ⟨hf.1, hf.2, hf.3⟩ (made_ivBytes hi)
  intro t bits p hb
  cases hp : p.1 with
  | none =>
    refine outcome_cons (fun _ => ?_) fun h => absurd rfl h
    obtain ⟨nm, hreg⟩ := keyBits_reg hb
    rw [mkSym_eq hreg fun o ho => opReg o (by simp at ho; simp [ho])]
    rfl
  | some kb =>
    refine outcome_cons (fun h => absurd (by simp) h) fun _ => outcome_nil ⟨kb, _, rfl, makes_outcome hb fun o ho => opReg o (by simp at ho; simp [ho]), then_bind fun k hk => ?_⟩
    obtain ⟨nm, hreg⟩ := keyBits_reg hb
    obtain ⟨kb', _, _, rfl⟩ := mkSym_ok hreg (fun o ho => opReg o (by simp at ho; simp [ho])) hk
    rw [madeKey_eq]
    exact seals_encrypt (b := (Spec.WithKey m (Spec.MadeKey t _ kb')).base) made_ordinary hn ⟨hf.1, hf.2, hf.3⟩ (made_ivBytes hi)

/-- C91: decrypting a COSE_Encrypt message for the recipient `x`. -/
theorem c91_enc_decrypt {C : Crypto} {m : Enc} {x : Rcpt} (hk : Spec.OrdinaryKey m.base) (hn : Spec.KnownAlgorithm m.base) (hf : Spec.FitsStructure m.base)
    (hi : Spec.IvBytes m.base) (hx : Spec.OrdinaryRecipients [x] false) :
    Spec.Outcome [(¬ Spec.Twice m.base Hdr.Algorithm, .coseException), (hasRecipient x.oid m.recipients = true, .coseException),
        (Spec.RecipientRules m.recipients, .coseException)]
      (fun r =>
        (∀ y ∈ m.recipients, y.cls = .directEncryption) ∧
          Spec.Outcome (Spec.decryptUse m.base) (Spec.Seals C.aeadDec m.base fun p => (p, m)) r ∨
        (∀ y ∈ m.recipients, y.cls ≠ .directEncryption) ∧ ∃ target q, m.base.getAttr Hdr.Algorithm = .ok target ∧ Spec.GivesKey C x target q ∧ Spec.Then q
          (fun k => Spec.Outcome (Spec.decryptUse (Spec.WithKey m k).base) (Spec.Seals C.aeadDec (Spec.WithKey m k).base fun p => (p, Spec.WithKey m k))) r)
      (m.decrypt C x) := by
  unfold Enc.decrypt
  refine outcome_cons (fun hp => ?_) fun hp => ?_
  · rw [getAttr_twice (Classical.not_not.mp hp)]; rfl
  obtain ⟨target, ha, hv⟩ := getAttr_value hp
  rw [ha, ok_bind]
  refine outcome_cons (fun hp => ?_) fun hp => ?_
  · rw [if_pos (by simpa using hp)]
  rw [if_neg (by simpa using hp)]
  refine outcome_cons (fun hp => ?_) fun hr => outcome_nil ?_
  · rcases rules_error hp with h | h
    · rw [h]; rfl
    · rw [h]; rfl
  rw [c32_accepted hr, ok_bind]
  split
  · rename_i hd
    simp only [List.contains_eq_mem, List.mem_map, decide_eq_true_eq] at hd
    exact .inl ⟨hr.direct hd, seals_decrypt hk (known_names hn) hf hi⟩
  · rename_i hd
    simp only [List.contains_eq_mem, List.mem_map, decide_eq_true_eq, not_exists, not_and] at hd
    rw [if_pos (carrier_types (by simpa using hr.nonempty) (by simpa using hd))]
    obtain ⟨h1, h2, h3⟩ := hx x (by simp)
    have ht : target = .none ∨ ∃ t nm, target = algCls t ∧ ((⟨.alg, t⟩ : Cls), nm) ∈ registry .alg := by
      by_cases h0 : target = .none
      · exact .inl h0
      · exact .inr (hn target ((hv target h0).mpr rfl))
    refine .inr ⟨fun y hy => hd y hy, target, _, rfl, gives_key h1 h2 h3 ht, then_bind fun k hk' => ?_⟩
    obtain ⟨t, ops, kb, rfl⟩ : ∃ t ops kb, k = Spec.MadeKey t ops kb := by
      rcases ht with rfl | ⟨t, nm, rfl, hreg⟩
      · exact absurd hk' (by
          intro hk'
          unfold rcptComputeCek at hk'
          split at hk'
          · simp at hk'
          · obtain ⟨_, _, _, _, _, _, _, e, _⟩ := c75_direct_agreement hk'
            simp at e
          · obtain ⟨_, _, hk'⟩ := bind_eq_ok.mp hk'
            rw [mkSym_none] at hk'
            simp at hk')
      · exact computeCek_made hreg hk'
    exact seals_decrypt (made_ordinary) (known_names hn) ⟨hf.1, hf.2, hf.3⟩ (made_ivBytes hi)

theorem tags_mac {α : Type} {C : Crypto} {b : Base} {next : Bytes → α} (hk : Spec.OrdinaryKey b) (hn : Spec.NamesAlgorithms b)
    (hf : Spec.FitsStructure b) : Spec.Outcome (Spec.tagUse b Op.MacCreate) (Spec.TagsWith C b!"MAC" b next) (macCompute C b!"MAC" b >>= fun t => .ok (next t)) := by
  have := tag_use (C := C) (ctx := b!"MAC") (op := Op.MacCreate) (answer := next) (by decide) hk hn hf
  have e : (macCompute C b!"MAC" b >>= fun t => .ok (next t)) = (b.getAttr Hdr.Algorithm >>= fun alg => match b.key with
        | none => .error .coseException
        | some k => k.verify .sym alg [Op.MacCreate] >>= fun _ => macMethod alg >>= fun f => macStructure b!"MAC" b >>= fun data =>
            callTag C f k data >>= fun t => .ok (next t)) := by
    simp only [macCompute, bind_assoc]
    refine congrArg _ (funext fun alg => ?_)
    cases b.key with
    | none => rfl
    | some k => simp only [bind_assoc]
  rw [e]
  exact this

/-- C91: computing the tag of a COSE_Mac message; where a key would have to be wrapped, a defect of the code shows (`NameError`). -/
theorem c91_mac {C : Crypto} {R : Rand} {m : Mac} (hk : Spec.OrdinaryKey m.base) (hn : Spec.NamesAlgorithms m.base) (hf : Spec.FitsStructure m.base)
    (hrs : ∀ rs, m.recipients = some rs → Spec.OrdinaryRecipients rs true) :
    Spec.Outcome [(¬ Spec.Twice m.base Hdr.Algorithm, .coseException), (m.recipients ≠ none, .typeError)]
      (fun r => ∃ rs, m.recipients = some rs ∧ Spec.Outcome (Spec.recipientsUse m.base rs)
        (Spec.KeyedBy C R m.base rs
          (Spec.Outcome (Spec.tagUse m.base Op.MacCreate) (Spec.TagsWith C b!"MAC" m.base fun t => (t, { m with authTag := .bytes t })))
          (fun k => Spec.Outcome (Spec.tagUse (Spec.MacWithKey m k).base Op.MacCreate)
            (Spec.TagsWith C b!"MAC" (Spec.MacWithKey m k).base fun t => (t, { Spec.MacWithKey m k with authTag := .bytes t })))
          (fun _ _ r => r = .error .nameError)) r)
      (m.computeTag C R) := by
  refine outcome_cons (fun hp => ?_) fun hp => ?_
  · simp only [Mac.computeTag, getAttr_twice (Classical.not_not.mp hp)]; rfl
  obtain ⟨target, ha, hv⟩ := getAttr_value hp
  cases hm : m.recipients with
  | none =>
    refine outcome_cons (fun _ => ?_) fun h => absurd rfl h
    simp only [Mac.computeTag, ha, ok_bind, hm]
  | some rs =>
    refine outcome_cons (fun h => absurd (by simp) h) fun _ => outcome_nil ⟨rs, rfl, ?_⟩
    have := keyed_outcome (C := C) (R := R) (b := m.base) (rs := rs)
      (own := Spec.Outcome (Spec.tagUse m.base Op.MacCreate) (Spec.TagsWith C b!"MAC" m.base fun t => (t, { m with authTag := .bytes t })))
      (use := fun k => Spec.Outcome (Spec.tagUse (Spec.MacWithKey m k).base Op.MacCreate)
        (Spec.TagsWith C b!"MAC" (Spec.MacWithKey m k).base fun t => (t, { Spec.MacWithKey m k with authTag := .bytes t })))
      (wrapped := fun _ _ r => r = .error .nameError)
      (ownF := macCompute C b!"MAC" m.base >>= fun t => .ok (t, { m with authTag := .bytes t }))
      (useF := fun k => macCompute C b!"MAC" { m.base with key := some k } >>= fun t => .ok (t, { m with base := { m.base with key := some k }, authTag := .bytes t }))
      (agreeF := fun target => match rs with
        | [] => .error .indexError
        | r :: _ => dkaComputeCek C r.base target true >>= fun k => macCompute C b!"MAC" { m.base with key := some k } >>= fun t =>
          .ok (t, { m with base := { m.base with key := some k }, authTag := .bytes t }))
      (wrapF := fun _ _ => .error .nameError) (hrs rs hm) (tags_mac hk hn hf) (by intro target x h; simp only [h])
      (fun t kb => tags_mac (b := (Spec.MacWithKey m (Spec.MadeKey t [] kb)).base) made_ordinary hn ⟨hf.1, hf.2, hf.3⟩) (fun _ _ _ _ => rfl)
    unfold Mac.computeTag
    simp only [hm] at this ⊢
    exact this

/-- C91: checking the tag of a COSE_Mac message, for which its own key is used. -/
theorem c91_mac_verify {C : Crypto} {m : Mac} (hk : Spec.OrdinaryKey m.base) (hn : Spec.NamesAlgorithms m.base) (hf : Spec.FitsStructure m.base) :
    Spec.Outcome (Spec.tagUse m.base Op.MacVerify) (Spec.TagsWith C b!"MAC" m.base fun t => m.authTag == .bytes t) (m.verifyTag C) :=
  tag_use (C := C) (ctx := b!"MAC") (op := Op.MacVerify) (answer := fun t => m.authTag == .bytes t) (by decide) hk hn hf

/-- C91: a key-wrap recipient wraps. -/
theorem c91_wrap {C : Crypto} {R : Rand} {phase : Nat} {path : List Nat} {r : Rcpt} (hc : r.cls = .keyWrap) (hk : Spec.OrdinaryKey r.base)
    (hn : Spec.NamesAlgorithms r.base) :
    ∃ q, Spec.Outcome (Spec.wrapUse r.base) (Spec.WrapsWith C (R.salt phase path) r.base r.recipients) q ∧
      Spec.Then q (fun c x => x = .ok (c, r)) (rcptEncrypt C R phase path r) := by
  have := wrapped_outcome (C := C) (R := R) (phase := phase) (path := path) hk hn
  unfold Spec.WrapsOne at this
  rw [hc] at this
  exact this

/-- C91: a key-wrap recipient unwraps. -/
theorem c91_unwrap {C : Crypto} {r : Rcpt} (hc : r.cls = .keyWrap) (hk : Spec.OrdinaryKey r.base) (hn : Spec.NamesAlgorithms r.base) :
    Spec.Outcome (Spec.unwrapUse r.base) (Spec.UnwrapsWith C r.base r.recipients) (rcptDecrypt C r) := by
  obtain ⟨cls, b, ctx, oid, rs⟩ := r
  cases hc
  exact unwrap_outcome hk hn

/-- C91: a recipient with ECDH and key wrap wraps. -/
theorem c91_agreed_wrap {C : Crypto} {R : Rand} {phase : Nat} {path : List Nat} {r : Rcpt} (hc : r.cls = .keyAgreementWithKeyWrap) :
    ∃ q, Spec.Outcome (Spec.agreedWrapUse r.base) (Spec.AgreedWraps C (R.eph path) r.base) q ∧
      Spec.Then q (fun p x => x = .ok (p.1, r.withBase p.2)) (rcptEncrypt C R phase path r) := by
  unfold rcptEncrypt
  rw [hc]
  exact ⟨_, agreed_wrap, then_bind fun _ _ => rfl⟩

/-- C91: a recipient with ECDH and key wrap unwraps. -/
theorem c91_agreed_unwrap {C : Crypto} {r : Rcpt} (hc : r.cls = .keyAgreementWithKeyWrap) :
    Spec.Outcome (Spec.agreedUnwrapUse r.base) (Spec.AgreedUnwraps C r.base) (rcptDecrypt C r) := by
  obtain ⟨cls, b, ctx, oid, rs⟩ := r
  cases hc
  simp only [rcptDecrypt]
  exact agreed_unwrap

/-- C91: direct key agreement, on either side. -/
theorem c91_direct_agreement {C : Crypto} {b : Base} {target : Val} {sender : Bool} (hk : ∀ k, b.key = some k → Spec.PlainPolicy k)
    (hp : ∀ i, Spec.OrdinaryPeer b i sender) (hn : Spec.NamesAlgorithms b) :
    Spec.Outcome (Spec.directUse b) (Spec.DirectAgreed C b target sender) (dkaComputeCek C b target sender) := dka_outcome hk hp hn

/-- C91: the other recipient classes neither wrap nor unwrap. -/
theorem c91_no_method {C : Crypto} {R : Rand} {phase : Nat} {path : List Nat} {r : Rcpt} (hc : r.cls = .directEncryption ∨ r.cls = .directKeyAgreement) :
    rcptEncrypt C R phase path r = .error .attributeError ∧ rcptDecrypt C r = .error .attributeError := by
  obtain ⟨cls, b, ctx, oid, rs⟩ := r
  rcases hc with hc | hc <;> cases hc <;> exact ⟨rfl, by simp only [rcptDecrypt]⟩

/-! ### Examples -/

theorem Sample.notTwice (alg : Int) (k : Key) (p : Option Bytes) : ¬ Spec.Twice (Sample.baseWith alg k p) Hdr.Algorithm := by
  rintro ⟨_, w, h, _⟩
  cases (h : (none : Option Val) = some w)

/-- A key-wrap recipient with a protected header refuses with `CoseException`. -/
example (C : Crypto) (R : Rand) (rs : List Rcpt) :
    rcptEncrypt C R 0 [0] (.mk .keyWrap (Sample.baseWith (-3) Sample.symKey (some (List.replicate 16 7))) [] 1 rs) = .error .coseException := by
  obtain ⟨q, h, h'⟩ := c91_wrap (C := C) (R := R) (phase := 0) (path := [0])
    (r := .mk .keyWrap (Sample.baseWith (-3) Sample.symKey (some (List.replicate 16 7))) [] 1 rs) rfl
    (Sample.ordinaryKey _ _ _ ⟨.inl rfl, .inl rfl⟩ (by decide)) (Sample.namesAlgorithms _ _ _)
  have := outcome_unique h (.inr ⟨Sample.notTwice _ _ _, .inl ⟨fun h => (by cases (h : [(Val.cls Hdr.Algorithm, algCls (-3))] = [])), rfl⟩⟩)
  subst this
  rcases h' with ⟨e, h1, h2⟩ | ⟨_, h1, _⟩
  · cases h1; exact h2
  · cases h1

/-- A COSE_Mac message without recipients raises `TypeError`. -/
example (C : Crypto) (R : Rand) : Mac.computeTag C R { base := Sample.baseWith 5 Sample.symKey (some b!"hello") } = .error .typeError := by
  refine outcome_unique (c91_mac (Sample.ordinaryKey _ _ _ ⟨.inl rfl, .inl rfl⟩ (by decide)) (Sample.namesAlgorithms _ _ _)
    ⟨.inr ⟨[0xa1, 1, 5], by decide +kernel, by decide⟩, by decide, by rintro p ⟨⟩; decide⟩ (by rintro _ ⟨⟩)) ?_
  exact .inr ⟨Sample.notTwice _ _ _, .inl ⟨fun h => h rfl, rfl⟩⟩

/-- A COSE_Encrypt message without recipients raises `CoseException`. -/
example (C : Crypto) (R : Rand) : Enc.encrypt C R { base := Sample.baseWith 1 Sample.symKey (some b!"hello") } = .error .coseException := by
  refine outcome_unique (c91_enc (Sample.ordinaryKey _ _ _ ⟨.inl rfl, .inl rfl⟩ (by decide)) (Sample.namesAlgorithms _ _ _)
    ⟨.inr ⟨[0xa1, 1, 1], by decide +kernel, by decide⟩, by decide, by rintro p ⟨⟩; decide⟩ ⟨by rintro k ⟨⟩; exact ⟨[], rfl⟩, ?_⟩ (by intro x hx; cases hx)) ?_
  · rintro v ⟨_, h | h⟩
    · cases (h : (none : Option Val) = some v)
    · cases (h : (none : Option Val) = some v)
  · exact .inr ⟨Sample.notTwice _ _ _, .inl ⟨fun h => h.nonempty rfl, rfl⟩⟩

/-- The recipients of these examples are ordinary, on both sides. -/
example (sender : Bool) : Spec.OrdinaryRecipients [Sample.kwRcpt 1, Sample.oaepRcpt 2, Sample.esRcpt 3, Sample.dkaRcpt 4] sender := by
  have hv : ∀ {b : Base} {c : Cls} {v : Val}, Spec.Value b c v → v ∈ [dget b.phdr (.cls c), dget b.uhdr (.cls c)].filterMap id := by
    rintro b c v ⟨_, h | h⟩ <;> simp [h]
  have hp : ∀ {b : Base} {i : Int} {v : Val}, Spec.Peer b i sender v → v ∈ [dget b.localAttrs (.cls Hdr.StaticKey), dget b.phdr (.cls Hdr.StaticKey),
      dget b.phdr (.cls Hdr.EphemeralKey), dget b.uhdr (.cls Hdr.StaticKey), dget b.uhdr (.cls Hdr.EphemeralKey)].filterMap id := by
    intro b i v h
    unfold Spec.Peer at h
    split at h
    · simp [h.2]
    · split at h <;> rcases h.2 with h | h <;> simp [h]
  intro x hx
  simp only [List.mem_cons, List.not_mem_nil, or_false] at hx
  rcases hx with rfl | rfl | rfl | rfl <;> refine ⟨?_, fun c hc => ?_, fun i kind store h => ?_⟩
  all_goals first
    | (replace hc := hv hc
       rcases hc with _ | ⟨_, hc⟩ <;> first | rfl | cases hc)
    | skip
  all_goals first
    | (replace h := hp h
       rcases h with _ | ⟨_, _ | ⟨_, h⟩⟩ <;> first | exact ⟨.inl rfl, .inl rfl⟩ | cases h)
    | skip
  all_goals
    intro k hk
    first
    | (cases hk
       refine ⟨⟨.inl rfl, .inl rfl⟩, fun hr c v hc hm => ?_⟩
       first
       | (exact absurd hr (by decide))
       | (simp only [List.mem_cons, List.not_mem_nil, or_false] at hm
          rcases hm with rfl | rfl | rfl | rfl | rfl | rfl | rfl | rfl <;> cases hc <;> exact ⟨_, rfl⟩))
    | cases hk

end Cose
