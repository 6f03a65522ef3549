import Verif.Props.Nonce
/-!
# Recipient structures (C32 to C38)
-/
set_option autoImplicit false
namespace Cose

/-! ### C32 -/

/-- RFC 8152 section 12: recipients exist, direct encryption is not mixed with another class, and direct key
agreement has exactly one recipient. -/
structure Spec.RecipientRules (rs : List Rcpt) : Prop where
  nonempty : rs ≠ []
  direct : (∃ r ∈ rs, r.cls = .directEncryption) → ∀ r ∈ rs, r.cls = .directEncryption
  agreement : (∃ r ∈ rs, r.cls = .directKeyAgreement) → rs.length = 1

theorem verifyRecipients_iff {rs : List Rcpt} {ts : List RCls} : verifyRecipients rs = .ok ts ↔
    ts = rs.map Rcpt.cls ∧ ((∃ r ∈ rs, r.cls = .directEncryption) → ∀ r ∈ rs, r.cls = .directEncryption) ∧
      ((∃ r ∈ rs, r.cls = .directKeyAgreement) → rs.length ≤ 1) := by
  unfold verifyRecipients
  simp only
  split
  · rename_i h
    simp at h
    simp only [reduceCtorEq, false_iff]
    rintro ⟨_, h1, _⟩
    obtain ⟨r, hr, hc⟩ := h.2
    exact hc (h1 h.1 r hr)
  · rename_i h
    simp at h
    split
    · rename_i h'
      simp at h'
      simp only [reduceCtorEq, false_iff]
      rintro ⟨_, _, h2⟩
      have := h2 h'.1
      omega
    · rename_i h'
      simp at h'
      simp only [Except.ok.injEq]
      constructor
      · rintro rfl
        refine ⟨rfl, ?_, ?_⟩
        · rintro ⟨r, hr, hc⟩; exact h r hr hc
        · rintro ⟨r, hr, hc⟩; exact h' r hr hc
      · rintro ⟨rfl, _⟩; rfl

theorem rules_of_types {rs : List Rcpt} {ts : List RCls} (h : verifyRecipients rs = .ok ts) (hn : rs ≠ []) :
    Spec.RecipientRules rs := by
  obtain ⟨_, h1, h2⟩ := verifyRecipients_iff.mp h
  refine ⟨hn, h1, fun e => ?_⟩
  have := h2 e
  have : 0 < rs.length := List.length_pos_iff.mpr hn
  omega

/-- C32: `encrypt` succeeds only for recipient lists that obey the rules. -/
theorem c32_enc_encrypt {C : Crypto} {R : Rand} {m m' : Enc} {c : Bytes} (h : m.encrypt C R = .ok (c, m')) :
    Spec.RecipientRules m.recipients := by
  simp only [Enc.encrypt, bind_eq_ok] at h
  obtain ⟨target, _, types, ht, h⟩ := h
  refine rules_of_types ht fun hn => ?_
  obtain ⟨rfl, _⟩ := verifyRecipients_iff.mp ht
  simp [hn] at h

theorem c32_enc_decrypt {C : Crypto} {m m' : Enc} {r : Rcpt} {p : Bytes} (h : m.decrypt C r = .ok (p, m')) :
    Spec.RecipientRules m.recipients := by
  simp only [Enc.decrypt, bind_eq_ok] at h
  obtain ⟨target, _, h⟩ := h
  split at h
  · simp at h
  · simp only [bind_eq_ok] at h
    obtain ⟨types, ht, h⟩ := h
    refine rules_of_types ht fun hn => ?_
    obtain ⟨rfl, _⟩ := verifyRecipients_iff.mp ht
    simp [hn] at h

theorem c32_enc_encode {C : Crypto} {R : Rand} {m m' : Enc} {tag : Bool} {out : Bytes}
    (h : m.encode C R tag true = .ok (out, m')) : Spec.RecipientRules m.recipients := by
  obtain ⟨_, _, m1, _, _, h1, _⟩ := enc_encode_inv h
  rcases h1 with ⟨_, c, h1, _⟩ | ⟨h1, _⟩
  · exact c32_enc_encrypt h1
  · simp at h1

theorem c32_mac_compute {C : Crypto} {R : Rand} {m m' : Mac} {t : Bytes} (h : m.computeTag C R = .ok (t, m')) :
    ∃ rs, m.recipients = some rs ∧ Spec.RecipientRules rs := by
  simp only [Mac.computeTag, bind_eq_ok] at h
  obtain ⟨target, _, h⟩ := h
  split at h
  · simp at h
  · rename_i rs hrs
    simp only [bind_eq_ok] at h
    obtain ⟨types, ht, h⟩ := h
    refine ⟨rs, hrs, rules_of_types ht fun hn => ?_⟩
    obtain ⟨rfl, _⟩ := verifyRecipients_iff.mp ht
    simp [hn] at h

theorem c32_mac_encode {C : Crypto} {R : Rand} {m m' : Mac} {tag : Bool} {out : Bytes}
    (h : m.encode C R tag true = .ok (out, m')) : ∃ rs, m.recipients = some rs ∧ Spec.RecipientRules rs := by
  obtain ⟨_, m1, _, _, _, _, h1, _⟩ := mac_encode_inv h
  rcases h1 with ⟨_, t, h1, _⟩ | ⟨h1, _⟩
  · exact c32_mac_compute h1
  · simp at h1

/-- C32: a violation is found before any primitive is called, whatever the primitives and the random numbers. -/
theorem c32_refused_early {m : Enc} (h : ¬ Spec.RecipientRules m.recipients) :
    ∃ e, ∀ C R, m.encrypt C R = .error e := by
  unfold Enc.encrypt
  cases ha : m.base.getAttr Hdr.Algorithm with
  | error e => exact ⟨e, fun _ _ => rfl⟩
  | ok target =>
    cases hv : verifyRecipients m.recipients with
    | error e => exact ⟨e, fun _ _ => rfl⟩
    | ok types =>
      have hn : m.recipients = [] := Classical.byContradiction fun hn => h (rules_of_types hv hn)
      obtain ⟨rfl, _⟩ := verifyRecipients_iff.mp hv
      refine ⟨.coseException, fun _ _ => ?_⟩
      simp [hn]

/-- C32, the converse: the rules are all that `verify_recipients` asks for. -/
theorem c32_accepted {rs : List Rcpt} (h : Spec.RecipientRules rs) : verifyRecipients rs = .ok (rs.map Rcpt.cls) :=
  verifyRecipients_iff.mpr ⟨rfl, h.direct, fun e => by rw [h.agreement e]; exact Nat.le_refl 1⟩

example : (Sample.encKw.encode toy Sample.rand true true).isOk = true ∧ (Sample.mac.encode toy Sample.rand true true).isOk = true ∧
    ¬ Spec.RecipientRules [Sample.directRcpt 1, Sample.kwRcpt 2] ∧ Spec.RecipientRules [Sample.kwRcpt 1, Sample.kwRcpt 2] := by
  refine ⟨by decide +kernel, by decide +kernel, ?_, ?_⟩
  · intro h
    have := h.direct ⟨Sample.directRcpt 1, by simp, rfl⟩ (Sample.kwRcpt 2) (by simp)
    simp [Sample.kwRcpt, Rcpt.cls] at this
  · exact rules_of_types (ts := [.keyWrap, .keyWrap]) (by decide +kernel) (by simp)

/-! ### C33 -/

/-- The object `o` is the recipient `r` or nested in it, at any depth. -/
inductive Spec.Within (o : Nat) : Rcpt → Prop
  | here {r : Rcpt} : r.oid = o → Within o r
  | nested {r s : Rcpt} : s ∈ r.recipients → Within o s → Within o r

/-- `o` is found: it is in the list, or nested in an element after which no sibling has nested recipients. -/
inductive Spec.Reached (o : Nat) : List Rcpt → Prop
  | here {l : List Rcpt} {r : Rcpt} : r ∈ l → r.oid = o → Reached o l
  | nested {l t : List Rcpt} {r : Rcpt} : Reached o r.recipients → (∀ s ∈ t, s.recipients = []) → Reached o (l ++ r :: t)

mutual
theorem hasIn_sound (o : Nat) (r : Rcpt) : (hasIn o false r = none ∨ hasIn o false r = some true) → Spec.Within o r := by
  cases r with
  | mk c b x i rs =>
    intro h
    unfold hasIn at h
    split at h
    · rename_i e; exact .here e
    · split at h
      · simp at h
      · simp at h
        obtain ⟨s, hs, hw⟩ := hasLoop_sound o rs false h (by simp)
        exact .nested hs hw
termination_by structural r
theorem hasLoop_sound (o : Nat) (l : List Rcpt) (f : Bool) (h : hasLoop o f l = true) (hf : f = false) :
    ∃ r ∈ l, Spec.Within o r := by
  cases l with
  | nil => subst hf; simp [hasLoop] at h
  | cons r t =>
    subst hf
    unfold hasLoop at h
    split at h
    · rename_i g hg
      cases g with
      | true => exact ⟨r, by simp, hasIn_sound o r (.inr hg)⟩
      | false =>
        obtain ⟨s, hs, hw⟩ := hasLoop_sound o t false h rfl
        exact ⟨s, by simp [hs], hw⟩
    · rename_i hg
      exact ⟨r, by simp, hasIn_sound o r (.inl hg)⟩
termination_by structural l
end

theorem hasLoop_flat {o : Nat} {t : List Rcpt} (h : ∀ s ∈ t, s.recipients = []) : hasLoop o true t = true := by
  induction t with
  | nil => rfl
  | cons r t ih =>
    have hr := h r (by simp)
    obtain ⟨c, b, x, i, rs⟩ := r
    simp [Rcpt.recipients] at hr; subst hr
    have := ih fun s hs => h s (by simp [hs])
    simp only [hasLoop, hasIn]
    split
    · rename_i e; split at e <;> simp at e; subst e; exact this
    · rfl

theorem hasLoop_reached {o : Nat} {l : List Rcpt} (h : Spec.Reached o l) : ∀ f, hasLoop o f l = true := by
  induction h with
  | @here l r hm hr =>
    intro f
    induction l generalizing f with
    | nil => simp at hm
    | cons a t ih =>
      rcases List.mem_cons.mp hm with rfl | hm
      · obtain ⟨_, _, _, _, _⟩ := r
        simp [Rcpt.oid] at hr
        simp [hasLoop, hasIn, hr]
      · simp only [hasLoop]
        split
        · exact ih hm _
        · rfl
  | @nested l t r h1 h2 ih =>
    intro f
    induction l generalizing f with
    | nil =>
      obtain ⟨c, b, x, i, rs⟩ := r
      simp only [List.nil_append, hasLoop, hasIn]
      split
      · rename_i e
        split at e
        · simp at e
        · split at e
          · rename_i hn
            simp at hn
            subst hn
            have := ih false
            simp [hasLoop, Rcpt.recipients] at this
          · have ih := ih false
            simp only [Rcpt.recipients] at ih
            simp at e
            rw [ih] at e; subst e
            exact hasLoop_flat h2
      · rfl
    | cons a s ih2 =>
      simp only [List.cons_append, hasLoop]
      split
      · exact ih2 _
      · rfl

/-- C33, refusal, for all recipient trees: an object that is not among the recipients at any level is refused
before any primitive is called. -/
theorem c33_refused {m : Enc} {r : Rcpt} (h : ∀ s ∈ m.recipients, ¬ Spec.Within r.oid s) :
    ∃ e, ∀ C, m.decrypt C r = .error e := by
  have hf : hasRecipient r.oid m.recipients = false := by
    cases hh : hasRecipient r.oid m.recipients with
    | false => rfl
    | true =>
      obtain ⟨s, hs, hw⟩ := hasLoop_sound _ _ _ hh rfl
      exact absurd hw (h s hs)
  unfold Enc.decrypt
  cases ha : m.base.getAttr Hdr.Algorithm with
  | error e => exact ⟨e, fun _ => rfl⟩
  | ok target => exact ⟨.coseException, fun _ => by simp [hf]⟩

theorem c33_refused_membership {o : Nat} {rs : List Rcpt} (h : ∀ s ∈ rs, ¬ Spec.Within o s) : hasRecipient o rs = false := by
  cases hh : hasRecipient o rs with
  | false => rfl
  | true =>
    obtain ⟨s, hs, hw⟩ := hasLoop_sound _ _ _ hh rfl
    exact absurd hw (h s hs)

/-- C33, acceptance at top level, for all recipient lists. -/
theorem c33_accepted_top {rs : List Rcpt} {r : Rcpt} (h : r ∈ rs) : hasRecipient r.oid rs = true := hasRecipient_mem h

/-- C33, acceptance of nested recipients.  Missing: a nested object whose ancestor is followed by a sibling that
also has nested recipients; `c33_refuted` shows that it is not accepted. -/
theorem c33_accepted_nested_partial {rs : List Rcpt} {o : Nat} (h : Spec.Reached o rs) : hasRecipient o rs = true :=
  hasLoop_reached h false

/-- A key-wrap recipient with one nested recipient. -/
def Sample.nestedRcpt (oid inner : Nat) : Rcpt := (Sample.kwRcpt oid).withRecipients [Sample.kwRcpt inner]

theorem c33_refuted : ¬ ∀ (rs : List Rcpt) (o : Nat), (∃ r ∈ rs, Spec.Within o r) → hasRecipient o rs = true := by
  intro h
  have := h [Sample.nestedRcpt 1 2, Sample.nestedRcpt 3 4] 2
    ⟨Sample.nestedRcpt 1 2, by simp, .nested (s := Sample.kwRcpt 2) (by simp [Sample.nestedRcpt, Rcpt.withRecipients, Rcpt.recipients])
      (.here rfl)⟩
  revert this
  decide +kernel

example : Spec.Reached 4 [Sample.nestedRcpt 1 2, Sample.nestedRcpt 3 4, Sample.kwRcpt 5] :=
  .nested (l := [Sample.nestedRcpt 1 2]) (.here (r := Sample.kwRcpt 4) (by simp [Sample.nestedRcpt, Rcpt.withRecipients, Rcpt.recipients]) rfl)
    (by simp [Sample.kwRcpt, Rcpt.recipients])

example : ∀ s ∈ [Sample.kwRcpt 5, Sample.directRcpt 6], ¬ Spec.Within 7 s := by
  intro s hs hw
  cases hw with
  | here h => simp at hs; rcases hs with rfl | rfl <;> simp [Sample.kwRcpt, Sample.directRcpt, Rcpt.oid] at h
  | nested h _ => simp at hs; rcases hs with rfl | rfl <;> simp [Sample.kwRcpt, Sample.directRcpt, Rcpt.recipients] at h

/-! ### C34 -/

/-- C34, as far as it holds: nested recipients are put on the wire, as a fourth element that lists their
encodings.  Missing: they are never read back (`c34_decoded_flat`) and never used (`c34_nested_kek_fails`). -/
theorem c34_encoded_partial {C : Crypto} {R : Rand} {path : List Nat} {r r' : Rcpt} {v : Val} (hr : r.recipients ≠ [])
    (h : rcptEncode C R path r = .ok (v, r')) :
    ∃ p u c vs rs, v = .arr [p, u, c, .arr vs] ∧ rcptsEncode C R path 0 r.recipients = .ok (vs, rs) ∧ r'.recipients = rs := by
  obtain ⟨cls, b, ctx, oid, rs⟩ := r
  simp only [rcptEncode, bind_eq_ok] at h
  obtain ⟨⟨head, b'⟩, hh, h⟩ := h
  simp only [Rcpt.recipients] at hr ⊢
  rw [if_neg (by simpa using hr)] at h
  simp only [bind_eq_ok] at h
  obtain ⟨⟨vs, rs'⟩, h1, h2⟩ := h
  simp at h2
  obtain ⟨rfl, rfl⟩ := h2
  have hl : ∃ p u c, head = [p, u, c] := by
    cases cls <;> simp only [rcptHead, bind_eq_ok] at hh
    · obtain ⟨_, _, hh⟩ := hh
      split at hh
      · simp at hh
      · split at hh
        · simp at hh
        · split at hh
          · simp at hh
          · simp only [bind_eq_ok] at hh
            obtain ⟨_, _, hh⟩ := hh
            simp at hh; exact ⟨_, _, _, hh.1.symm⟩
    · obtain ⟨_, _, _, _, hh⟩ := hh
      simp at hh; exact ⟨_, _, _, hh.1.symm⟩
    · obtain ⟨_, _, hh⟩ := hh
      split at hh
      · simp at hh
      · split at hh
        · simp at hh
        · have aux : ∀ (alg : Val) (b : Base), (if rs.length > 1 then (.error .malformedMessage : Res (List Val × Base))
              else do
                let e ← b.getAttr Hdr.EphemeralKey
                let missing ← lacksEphemeral alg e
                if missing then .error .malformedMessage
                else do
                  let pe ← b.phdrEncoded
                  .ok ([.bytes pe, .map b.uhdr, .bytes []], b)) = .ok (head, b') → ∃ p u c, head = [p, u, c] := by
            intro alg b hh
            split at hh
            · simp at hh
            · simp only [bind_eq_ok] at hh
              obtain ⟨_, _, _, _, hh⟩ := hh
              split at hh
              · simp at hh
              · simp only [bind_eq_ok] at hh
                obtain ⟨_, _, hh⟩ := hh
                simp at hh; exact ⟨_, _, _, hh.1.symm⟩
          split at hh
          · exact aux _ _ hh
          · obtain ⟨_, _, hh⟩ := bind_eq_ok.mp hh
            split at hh
            · obtain ⟨_, _, hh⟩ := bind_eq_ok.mp hh
              exact aux _ _ hh
            · simp at hh
    · obtain ⟨_, _, _, _, _, _, ⟨c, b2⟩, _, hh⟩ := hh
      simp at hh; exact ⟨_, _, _, hh.1.symm⟩
  obtain ⟨p, u, c, rfl⟩ := hl
  exact ⟨p, u, c, vs, rs', rfl, h1, rfl⟩

theorem createRecipients_flat {C : Crypto} {allow : Bool} {ctx : Bytes} {i : Nat} {l : List Val} {rs : List Rcpt}
    (h : createRecipients C allow ctx i l = .ok rs) : ∀ r ∈ rs, r.recipients = [] := by
  have ha := createRecipients_all2 h
  clear h
  induction ha with
  | nil => simp
  | cons hh _ ih =>
    obtain ⟨_, _, _, _, _, _, e⟩ := hh
    intro r hr
    rcases List.mem_cons.mp hr with rfl | hr
    · rw [e]; rfl
    · exact ih r hr

/-- The code, against C34: a decoded message never has nested recipients. -/
theorem c34_decoded_flat {C : Crypto} {cls : DecCls} {allow : Bool} {bs : Bytes} :
    (∀ m, decode C cls allow bs = .ok (.enc m) → ∀ r ∈ m.recipients, r.recipients = []) ∧
    (∀ m, decode C cls allow bs = .ok (.mac m) → ∀ rs, m.recipients = some rs → ∀ r ∈ rs, r.recipients = []) := by
  constructor
  · intro m h
    obtain ⟨n', obj, k, h1, _, h2, _, hk⟩ := decode_iff.mp h
    simp [Msg.kind] at hk; subst hk
    simp only [fromObj, Enc.fromObj, bind_eq_ok] at h2
    obtain ⟨m', ⟨⟨b, o⟩, h3, h4⟩, h8⟩ := h2
    simp at h8; subst h8
    split at h4
    · rename_i rs hrs
      simp at h4; subst h4
      obtain ⟨v, rest', l, h5, h6, h7⟩ := recipientsOf_ok hrs
      exact createRecipients_flat h7
    · split at h4 <;> simp at h4
      subst h4
      simp
  · intro m h
    obtain ⟨n', obj, k, h1, _, h2, _, hk⟩ := decode_iff.mp h
    simp [Msg.kind] at hk; subst hk
    simp only [fromObj, Mac.fromObj, bind_eq_ok] at h2
    obtain ⟨m', ⟨⟨b, o⟩, h3, ⟨t, o'⟩, h3', h4⟩, h8⟩ := h2
    simp at h8; subst h8
    split at h4
    · rename_i rs hrs
      simp at h4; subst h4
      obtain ⟨v, rest', l, h5, h6, h7⟩ := recipientsOf_ok hrs
      intro rs' he
      simp at he; subst he
      exact createRecipients_flat h7
    · split at h4 <;> simp at h4
      subst h4
      simp

/-- The code, against C34: a key-wrap recipient without a key of its own cannot be encrypted or decrypted, whatever
nested recipients it has. -/
theorem c34_nested_kek_fails {C : Crypto} {salt : Bytes} {b : Base} {ctx : Bytes} {oid : Nat} {rs : List Rcpt}
    (hk : b.key = none) :
    (∃ e, kwEncrypt C salt b rs = .error e) ∧ (∃ e, rcptDecrypt C (.mk .keyWrap b ctx oid rs) = .error e) := by
  have he : ∃ e, kwKekEncrypt none rs = .error e := by
    unfold kwKekEncrypt
    simp only
    split
    · exact ⟨_, rfl⟩
    · cases verifyRecipients rs with
      | error e => exact ⟨e, rfl⟩
      | ok types =>
        simp only [ok_bind]
        split
        · exact ⟨_, rfl⟩
        · split <;> exact ⟨_, rfl⟩
  have hd : ∃ e, kwKekDecrypt C none rs = .error e := by
    cases rs with
    | nil => exact ⟨_, rfl⟩
    | cons r t =>
      simp only [kwKekDecrypt]
      split
      · exact ⟨_, rfl⟩
      · split
        · split <;> exact ⟨_, rfl⟩
        · exact ⟨_, rfl⟩
  obtain ⟨e1, he⟩ := he
  obtain ⟨e2, hd⟩ := hd
  constructor
  · unfold kwEncrypt
    cases b.getAttr Hdr.Algorithm with
    | error e => exact ⟨e, rfl⟩
    | ok alg =>
      simp only [ok_bind, hk]
      split
      · exact ⟨_, rfl⟩
      · split
        · exact ⟨_, rfl⟩
        · cases inSet alg aesKws with
          | error e => exact ⟨e, rfl⟩
          | ok isKw =>
            cases isKw
            · cases inSet alg oaeps with
              | error e => exact ⟨e, rfl⟩
              | ok isR => cases isR <;> exact ⟨_, rfl⟩
            · exact ⟨e1, by simp [he]⟩
  · simp only [rcptDecrypt]
    cases b.getAttr Hdr.Algorithm with
    | error e => exact ⟨e, rfl⟩
    | ok alg =>
      simp only [ok_bind, hk]
      cases inSet alg aesKws with
      | error e => exact ⟨e, rfl⟩
      | ok isKw =>
        cases isKw
        · cases inSet alg oaeps with
          | error e => exact ⟨e, rfl⟩
          | ok isR => cases isR <;> exact ⟨_, rfl⟩
        · exact ⟨e2, by simp [hd]⟩

/-- A message whose recipient has a nested recipient. -/
def Sample.encNested : Enc := { Sample.encKw with recipients := [Sample.nestedRcpt 1 2] }
/-- Its encoding, and what is decoded from it. -/
def Sample.encNestedBytes : Bytes := ((Sample.encNested.encode toy Sample.rand true true).toOption.map (·.1)).getD []

/-- The property is false of the code: a nested recipient is lost. -/
theorem c34_refuted : ∃ out m' m2, Sample.encNested.encode toy Sample.rand true true = .ok (out, m') ∧
    m'.recipients.map (fun r => r.recipients.length) = [1] ∧
    decode toy .any true out = .ok (.enc m2) ∧ m2.recipients.map (fun r => r.recipients.length) = [0] :=
  ⟨Sample.encNestedBytes, ((Sample.encNested.encode toy Sample.rand true true).toOption.get (by decide +kernel)).2,
    (match decode toy .any true Sample.encNestedBytes with | .ok (.enc m) => m | _ => Sample.enc),
    by decide +kernel, by decide +kernel, by decide +kernel, by decide +kernel⟩

/-! ### C35 -/

/-- The recipient object `r` stands for the received structure `v`: same protected bytes and ciphertext, and an
unprotected header read from the second field. -/
def Spec.StandsFor (C : Crypto) (allow : Bool) (v : Val) (r : Rcpt) : Prop :=
  ∃ u rest, v = .arr (optBytes r.base.phdrEnc :: u :: optBytes r.base.payload :: rest) ∧
    UnprotReceived C allow u r.base.uhdr

theorem standsFor_of_created {C : Crypto} {allow : Bool} {ctx : Bytes} {i : Nat} {l : List Val} {rs : List Rcpt}
    (h : createRecipients C allow ctx i l = .ok rs) : All2 (Spec.StandsFor C allow) l rs := by
  refine (createRecipients_all2 h).imp fun v r hh => ?_
  obtain ⟨obj, rest, _, _, rfl, hb, _⟩ := hh
  obtain ⟨pe, uh, rfl, hp, hu, _⟩ := baseFromObj_iff.mp hb
  refine ⟨uh, rest, ?_, hu⟩
  have : pe = optBytes r.base.phdrEnc := by
    rcases hp.inv with ⟨e1, e2, _⟩ | ⟨e1, e2, _⟩ | ⟨_, _, e1, e2, _⟩ <;> rw [e1, e2] <;> rfl
  rw [this]

/-- C35, exactly what holds: either every received recipient structure has its object, in order, or there is not
a single one.  Missing: the second case must not occur when structures were received; `c35_refuted` shows that it does. -/
theorem c35_enc_partial {C : Crypto} {cls : DecCls} {allow : Bool} {bs : Bytes} {n : Nat} {p u pl : Val}
    {sg rest : List Val} {m : Enc} (hl : loads bs = .ok (.tag n (.arr (p :: u :: pl :: .arr sg :: rest))))
    (h : decode C cls allow bs = .ok (.enc m)) :
    All2 (Spec.StandsFor C allow) sg m.recipients ∨ m.recipients = [] := by
  obtain ⟨n', obj, k, h1, _, h2, _, hk⟩ := decode_iff.mp h
  rw [hl] at h1
  simp at h1
  obtain ⟨_, rfl⟩ := h1
  simp [Msg.kind] at hk; subst hk
  simp only [fromObj, Enc.fromObj, bind_eq_ok] at h2
  obtain ⟨m', ⟨⟨b, o⟩, h3, h4⟩, h8⟩ := h2
  simp at h8; subst h8
  obtain ⟨_, _, he, _⟩ := baseFromObj_iff.mp h3
  simp at he
  obtain ⟨_, _, _, he⟩ := he
  split at h4
  · rename_i rs hrs
    simp at h4; subst h4
    obtain ⟨v, rest', l, h5, h6, h7⟩ := recipientsOf_ok hrs
    rw [← he] at h5
    simp at h5
    obtain ⟨rfl, rfl⟩ := h5
    simp [iterRecipients] at h6; subst h6
    exact .inl (standsFor_of_created h7)
  · split at h4 <;> simp at h4
    subst h4
    exact .inr rfl

theorem c35_mac_partial {C : Crypto} {cls : DecCls} {allow : Bool} {bs : Bytes} {n : Nat} {p u pl t : Val}
    {sg rest : List Val} {m : Mac} (hl : loads bs = .ok (.tag n (.arr (p :: u :: pl :: t :: .arr sg :: rest))))
    (h : decode C cls allow bs = .ok (.mac m)) :
    (∃ rs, m.recipients = some rs ∧ All2 (Spec.StandsFor C allow) sg rs) ∨ m.recipients = none := by
  obtain ⟨n', obj, k, h1, _, h2, _, hk⟩ := decode_iff.mp h
  rw [hl] at h1
  simp at h1
  obtain ⟨_, rfl⟩ := h1
  simp [Msg.kind] at hk; subst hk
  simp only [fromObj, Mac.fromObj, bind_eq_ok] at h2
  obtain ⟨m', ⟨⟨b, o⟩, h3, ⟨t, o'⟩, h3', h4⟩, h8⟩ := h2
  simp at h8; subst h8
  obtain ⟨_, _, he, _⟩ := baseFromObj_iff.mp h3
  simp at he
  obtain ⟨_, _, _, he⟩ := he
  rw [pop0_ok, ← he] at h3'
  simp at h3'
  obtain ⟨rfl, rfl⟩ := h3'
  split at h4
  · rename_i rs hrs
    simp at h4; subst h4
    obtain ⟨v, rest', l, h5, h6, h7⟩ := recipientsOf_ok hrs
    simp at h5
    obtain ⟨rfl, rfl⟩ := h5
    simp [iterRecipients] at h6; subst h6
    exact .inl ⟨rs, rfl, standsFor_of_created h7⟩
  · split at h4 <;> simp at h4
    subst h4
    exact .inr rfl

/-- A COSE_Encrypt message with one recipient whose `crit` header is an empty array. -/
def Sample.droppedBytes : Bytes :=
  [0xd8, 0x60, 0x84, 0x43, 0xa1, 0x01, 0x01, 0xa0, 0x41, 0x00, 0x81, 0x83, 0x40, 0xa1, 0x02, 0x80, 0x41, 0x01]

/-- The property is false of the code: this message decodes to one without recipients. -/
theorem c35_refuted : ∃ (p u pl : Val) (sg : List Val) (m : Enc),
    loads Sample.droppedBytes = .ok (.tag 96 (.arr [p, u, pl, .arr sg])) ∧ sg.length = 1 ∧
    decode toy .any true Sample.droppedBytes = .ok (.enc m) ∧ m.recipients = [] :=
  ⟨.bytes [0xa1, 0x01, 0x01], .map [], .bytes [0], [.arr [.bytes [], .map [(.int 2, .arr [])], .bytes [1]]],
    (match decode toy .any true Sample.droppedBytes with | .ok (.enc m) => m | _ => Sample.enc),
    by decide +kernel, by decide +kernel, by decide +kernel, by decide +kernel⟩

/-! ### C36 -/

/-- C36, where it holds: for a message without recipients. -/
theorem c36_assign_partial {m : Enc} (h : m.recipients = []) (rs : List Rcpt) :
    (m.setRecipients (some rs)).recipients = rs := by
  simp [Enc.setRecipients, setRecipients, h]

/-- The recipients after a history of assignments (`none` is `None`): the lists since the last `None`, one after
the other. -/
theorem c36_history (m : Enc) (l : List (List Rcpt)) :
    (l.foldl (fun m rs => m.setRecipients (some rs)) (m.setRecipients none)).recipients = l.flatten := by
  have aux : ∀ m : Enc, (l.foldl (fun m rs => m.setRecipients (some rs)) m).recipients = m.recipients ++ l.flatten := by
    induction l with
    | nil => simp
    | cons a t ih => intro m; simp only [List.foldl_cons, ih]; simp [Enc.setRecipients, setRecipients]
  rw [aux]; simp [Enc.setRecipients, setRecipients]

/-- Going through `None`, an assignment does replace. -/
theorem c36_via_none (m : Enc) (rs : List Rcpt) : ((m.setRecipients none).setRecipients (some rs)).recipients = rs := by
  simp [Enc.setRecipients, setRecipients]

/-- The property is false of the code: assigning appends. -/
theorem c36_refuted : ¬ ∀ (m : Enc) (rs : List Rcpt), (m.setRecipients (some rs)).recipients = rs := by
  intro h
  have := congrArg List.length (h Sample.enc [Sample.directRcpt 2])
  revert this
  decide +kernel

/-! ### C37 -/

/-- The payloads of the recipients do not contradict each other: none is preset, or the first one is and every
other one is empty or equal to it. -/
def Spec.OnePreset (rs : List Rcpt) : Prop :=
  (∀ r ∈ rs, r.base.payload = some []) ∨
  ∃ p r t, rs = r :: t ∧ r.base.payload = some p ∧ p ≠ [] ∧ ∀ s ∈ t, s.base.payload = some [] ∨ s.base.payload = some p

/-- All recipients carry the key of the message. -/
def Spec.AllHaveKey (m : Enc) : Prop :=
  ∃ k kb, m.base.key = some k ∧ k.symK = .ok (.bytes kb) ∧ ∀ r ∈ m.recipients, r.base.payload = some kb

theorem setupEphemeral_payload {C : Crypto} {d : Nat} {b b' : Base} {peer : Val} (h : setupEphemeral C d b peer = .ok b') :
    b'.payload = b.payload := by
  simp only [setupEphemeral, bind_eq_ok] at h
  obtain ⟨_, _, _, _, _, _, _, _, h⟩ := h
  split at h
  · simp at h
  · split at h <;> simp at h
    subst h; rfl

theorem kakwEncrypt_payload {C : Crypto} {d : Nat} {b b' : Base} {c : Bytes} (h : kakwEncrypt C d b = .ok (c, b')) :
    b'.payload = b.payload := by
  simp only [kakwEncrypt] at h
  split at h
  · simp at h
  · simp only [bind_eq_ok] at h
    obtain ⟨alg, _, h⟩ := h
    split at h
    · simp at h
    · have aux : ∀ b1 : Base, (do
          let w ← keyWrapFunc alg
          let kek ← agreeKek C b1 w (getD b.localAttrs Hdr.StaticKey .none) b1.key alg
          match algFam w with
          | some (.aesKw n) => do
            let k ← mkSym (.bytes kek) alg [Op.DeriveKey]
            let c ← kwKeyWrap C n k b1.payload
            .ok (c, b1)
          | _ => .error .attributeError : Res (Bytes × Base)) = .ok (c, b') → b' = b1 := by
        intro b1 h
        simp only [bind_eq_ok] at h
        obtain ⟨_, _, _, _, h⟩ := h
        split at h
        · simp only [bind_eq_ok] at h
          obtain ⟨_, _, _, _, h⟩ := h
          simp at h; exact h.2.symm
        · simp at h
      split at h
      · rw [aux _ h]
      · simp only [bind_eq_ok] at h
        obtain ⟨es, _, h⟩ := h
        split at h
        · obtain ⟨b1, h1, h2⟩ := bind_eq_ok.mp h
          rw [aux _ h2, setupEphemeral_payload h1]
        · simp at h

theorem rcptEncrypt_payload {C : Crypto} {R : Rand} {ph : Nat} {path : List Nat} {r r' : Rcpt} {c : Bytes}
    (h : rcptEncrypt C R ph path r = .ok (c, r')) : r'.base.payload = r.base.payload := by
  unfold rcptEncrypt at h
  split at h
  · simp only [bind_eq_ok] at h
    obtain ⟨_, _, h⟩ := h
    simp at h; rw [h.2]
  · simp only [bind_eq_ok] at h
    obtain ⟨⟨c', b'⟩, h1, h⟩ := h
    simp at h; rw [← h.2]
    exact kakwEncrypt_payload h1
  · simp at h

theorem wrapLoop_uniform {C : Crypto} {R : Rand} {i : Nat} {q : Bytes} {key' : Option Bytes} {rs rs' : List Rcpt}
    (hu : ∀ r ∈ rs, r.base.payload = some [] ∨ r.base.payload = some q)
    (h : wrapLoop C R i (some q) rs = .ok (key', rs')) : key' = some q ∧ ∀ r ∈ rs', r.base.payload = some q := by
  induction rs generalizing i rs' with
  | nil => simp [wrapLoop] at h; obtain ⟨rfl, rfl⟩ := h; simp
  | cons r t ih =>
    simp only [wrapLoop, bind_eq_ok] at h
    obtain ⟨⟨c, r1⟩, h1, ⟨k2, t'⟩, h2, h3⟩ := h
    simp at h3; obtain ⟨rfl, rfl⟩ := h3
    have hp := rcptEncrypt_payload h1
    by_cases he : r.base.payload = some []
    · simp [he] at h1 h2 hp
      obtain ⟨e1, e2⟩ := ih (fun s hs => hu s (by simp [hs])) h2
      refine ⟨e1, fun s hs => ?_⟩
      rcases List.mem_cons.mp hs with rfl | hs
      · rw [hp]; rfl
      · exact e2 s hs
    · have hr := (hu r (by simp)).resolve_left he
      rw [if_neg he] at h1 h2 hp
      simp [hr] at h1 h2 hp
      obtain ⟨e1, e2⟩ := ih (fun s hs => hu s (by simp [hs])) h2
      refine ⟨e1, fun s hs => ?_⟩
      rcases List.mem_cons.mp hs with rfl | hs
      · exact hp
      · exact e2 s hs

theorem wrapLoop_onePreset {C : Crypto} {R : Rand} {cek : Bytes} {key' : Option Bytes} {rs rs' : List Rcpt}
    (hu : Spec.OnePreset rs) (h : wrapLoop C R 0 (some cek) rs = .ok (key', rs')) :
    ∃ q, key' = some q ∧ ∀ r ∈ rs', r.base.payload = some q := by
  rcases hu with hu | ⟨p, r, t, rfl, hr, hp, ht⟩
  · exact ⟨cek, wrapLoop_uniform (fun r hr => .inl (hu r hr)) h⟩
  · simp only [wrapLoop, bind_eq_ok] at h
    obtain ⟨⟨c, r1⟩, h1, ⟨k2, t'⟩, h2, h3⟩ := h
    simp at h3; obtain ⟨rfl, rfl⟩ := h3
    have hp1 := rcptEncrypt_payload h1
    have hne : r.base.payload ≠ some [] := by rw [hr]; simpa using hp
    rw [if_neg hne] at h1 h2 hp1
    simp [hr] at h2 hp1
    obtain ⟨e1, e2⟩ := wrapLoop_uniform ht h2
    refine ⟨p, e1, fun s hs => ?_⟩
    rcases List.mem_cons.mp hs with rfl | hs
    · exact hp1
    · exact e2 s hs

theorem symK_mkSym {kb : Bytes} {alg : Val} {ops : List Cls} {k : Key} (h : mkSym (.bytes kb) alg ops = .ok k) :
    k.symK = .ok (.bytes kb) := by
  simp only [mkSym, symInit, bind_eq_ok] at h
  obtain ⟨s, _, h⟩ := h
  split at h
  · simp at h
  · simp only [bind_eq_ok, setSymK] at h
    obtain ⟨s', h1, h2⟩ := h
    split at h1 <;> simp at h1
    simp at h2
    subst h1 h2
    simp [Key.symK, dget_dset_same]

theorem kw_not_direct {rs : List Rcpt} (hk : ∀ r ∈ rs, r.cls = .keyWrap ∨ r.cls = .keyAgreementWithKeyWrap) :
    (rs.map Rcpt.cls).contains .directEncryption = false ∧ (rs.map Rcpt.cls).contains .directKeyAgreement = false := by
  constructor
  all_goals
    simp
    intro r hr
    rcases hk r hr with h | h <;> simp [h]

/-- C37, for recipients whose preset payloads do not contradict each other.  Missing: different preset payloads, for
which `c37_refuted` shows that the recipients get different keys. -/
theorem c37_encrypt_partial {C : Crypto} {R : Rand} {m m' : Enc} {c : Bytes}
    (hk : ∀ r ∈ m.recipients, r.cls = .keyWrap ∨ r.cls = .keyAgreementWithKeyWrap) (hu : Spec.OnePreset m.recipients)
    (h : m.encrypt C R = .ok (c, m')) : Spec.AllHaveKey m' := by
  simp only [Enc.encrypt, bind_eq_ok] at h
  obtain ⟨target, _, types, ht, h⟩ := h
  obtain ⟨rfl, _⟩ := verifyRecipients_iff.mp ht
  obtain ⟨k1, k2⟩ := kw_not_direct hk
  rw [if_neg (by rw [k1]; decide), if_neg (by rw [k2]; decide)] at h
  split at h
  · simp only [bind_eq_ok] at h
    obtain ⟨n, _, ⟨kb, rs⟩, h1, k, h2, c', h3, h4⟩ := h
    simp at h4; obtain ⟨rfl, rfl⟩ := h4
    obtain ⟨q, rfl, hq⟩ := wrapLoop_onePreset hu h1
    exact ⟨k, q, rfl, symK_mkSym h2, hq⟩
  · simp at h

theorem rcptHead_payload {C : Crypto} {R : Rand} {path : List Nat} {r : Rcpt} {hd : List Val} {b' : Base}
    (hk : r.cls = .keyWrap ∨ r.cls = .keyAgreementWithKeyWrap)
    (h : rcptHead C R path r = .ok (hd, b')) : b'.payload = r.base.payload := by
  obtain ⟨cls, b, ctx, oid, rs⟩ := r
  simp only [Rcpt.cls] at hk
  rcases hk with rfl | rfl
  · simp only [rcptHead, bind_eq_ok] at h
    obtain ⟨_, _, _, _, h⟩ := h
    simp at h; rw [← h.2]; rfl
  · simp only [rcptHead, bind_eq_ok] at h
    obtain ⟨_, _, _, _, _, _, ⟨c, b2⟩, h1, h⟩ := h
    simp at h; rw [← h.2]
    exact kakwEncrypt_payload h1

theorem rcptsEncode_payload {C : Crypto} {R : Rand} {path : List Nat} {i : Nat} {rs rs' : List Rcpt} {vs : List Val} {q : Option Bytes}
    (hk : ∀ r ∈ rs, r.cls = .keyWrap ∨ r.cls = .keyAgreementWithKeyWrap)
    (h : rcptsEncode C R path i rs = .ok (vs, rs')) (hq : ∀ r ∈ rs, r.base.payload = q) :
    (∀ r ∈ rs', r.base.payload = q) ∧ rs'.map Rcpt.cls = rs.map Rcpt.cls := by
  induction rs generalizing i rs' vs with
  | nil => simp [rcptsEncode] at h; obtain ⟨_, rfl⟩ := h; simp
  | cons r t ih =>
    simp only [rcptsEncode, bind_eq_ok] at h
    obtain ⟨⟨v, r1⟩, h1, ⟨vs', t'⟩, h2, h3⟩ := h
    simp at h3; obtain ⟨_, rfl⟩ := h3
    obtain ⟨e1, e2⟩ := ih (fun s hs => hk s (by simp [hs])) h2 (fun s hs => hq s (by simp [hs]))
    have hr1 : r1.base.payload = q ∧ r1.cls = r.cls := by
      rw [← hq r (by simp)]
      have hkr := hk r (by simp)
      obtain ⟨cls, b, ctx, oid, rs⟩ := r
      simp only [rcptEncode, bind_eq_ok] at h1
      obtain ⟨⟨hd, b'⟩, hh, h1⟩ := h1
      have hp := rcptHead_payload hkr hh
      split at h1
      · simp at h1; rw [← h1.2]; exact ⟨hp, rfl⟩
      · simp only [bind_eq_ok] at h1
        obtain ⟨⟨_, _⟩, _, h1⟩ := h1
        simp at h1; rw [← h1.2]; exact ⟨hp, rfl⟩
    refine ⟨fun s hs => ?_, by simp [e2, hr1.2]⟩
    rcases List.mem_cons.mp hs with rfl | hs
    · exact hr1.1
    · exact e1 s hs

theorem wrapLoop_cls {C : Crypto} {R : Rand} {i : Nat} {key key' : Option Bytes} {rs rs' : List Rcpt}
    (h : wrapLoop C R i key rs = .ok (key', rs')) : rs'.map Rcpt.cls = rs.map Rcpt.cls := by
  induction rs generalizing i key rs' with
  | nil => simp [wrapLoop] at h; obtain ⟨rfl, rfl⟩ := h; rfl
  | cons r t ih =>
    simp only [wrapLoop, bind_eq_ok] at h
    obtain ⟨⟨c, r1⟩, h1, ⟨k2, t'⟩, h2, h3⟩ := h
    simp at h3; obtain ⟨rfl, rfl⟩ := h3
    have : r1.cls = r.cls := by
      have aux : ∀ s s' : Rcpt, rcptEncrypt C R 0 [i] s = .ok (c, s') → s'.cls = s.cls := by
        intro s s' h
        unfold rcptEncrypt at h
        split at h
        · simp only [bind_eq_ok] at h
          obtain ⟨_, _, h⟩ := h
          simp at h; rw [h.2]
        · simp only [bind_eq_ok] at h
          obtain ⟨⟨c', b'⟩, h1, h⟩ := h
          simp at h; rw [← h.2]; rfl
        · simp at h
      rw [aux _ _ h1]
      split <;> rfl
    simp [this, ih h2]

/-- C37, for a message that is encoded: afterwards all recipients have the key, and — so that the same holds for any
number of further calls — they still meet the hypotheses of this theorem. -/
theorem c37_encode_partial {C : Crypto} {R : Rand} {m m' : Enc} {tag : Bool} {out : Bytes}
    (hk : ∀ r ∈ m.recipients, r.cls = .keyWrap ∨ r.cls = .keyAgreementWithKeyWrap) (hu : Spec.OnePreset m.recipients)
    (h : m.encode C R tag true = .ok (out, m')) :
    Spec.AllHaveKey m' ∧ (∀ r ∈ m'.recipients, r.cls = .keyWrap ∨ r.cls = .keyAgreementWithKeyWrap) ∧
      Spec.OnePreset m'.recipients := by
  obtain ⟨_, _, m1, tl, _, h1, _, h2⟩ := enc_encode_inv h
  rcases h1 with ⟨_, c, h1, _⟩ | ⟨h1, _⟩
  · obtain ⟨k, kb, e1, e2, e3⟩ := c37_encrypt_partial hk hu h1
    have hne : m.recipients ≠ [] := (c32_enc_encrypt h1).nonempty
    have hcls : m1.recipients.map Rcpt.cls = m.recipients.map Rcpt.cls := by
      simp only [Enc.encrypt, bind_eq_ok] at h1
      obtain ⟨target, _, types, ht, h1⟩ := h1
      obtain ⟨rfl, _⟩ := verifyRecipients_iff.mp ht
      obtain ⟨k1, k2⟩ := kw_not_direct hk
      rw [if_neg (by rw [k1]; decide), if_neg (by rw [k2]; decide)] at h1
      split at h1
      · simp only [bind_eq_ok] at h1
        obtain ⟨n, _, ⟨kb, rs⟩, h1, k, h2, c', h3, h4⟩ := h1
        simp at h4; obtain ⟨rfl, rfl⟩ := h4
        exact wrapLoop_cls h1
      · simp at h1
    have clsOf : ∀ {rs : List Rcpt}, rs.map Rcpt.cls = m.recipients.map Rcpt.cls →
        ∀ r ∈ rs, r.cls = .keyWrap ∨ r.cls = .keyAgreementWithKeyWrap := by
      intro rs e r hr
      have : r.cls ∈ rs.map Rcpt.cls := List.mem_map_of_mem hr
      rw [e] at this
      obtain ⟨s, hs, e⟩ := List.mem_map.mp this
      rw [← e]; exact hk s hs
    have hm1 := clsOf hcls
    rcases h2 with ⟨hn, _⟩ | ⟨_, vs, rs, h3, _, rfl⟩
    · exfalso
      rw [hn] at hcls
      exact hne (by simpa using hcls.symm)
    · obtain ⟨e4, e5⟩ := rcptsEncode_payload hm1 h3 e3
      refine ⟨⟨k, kb, e1, e2, e4⟩, clsOf (e5.trans hcls), ?_⟩
      by_cases hkb : kb = []
      · subst hkb; exact .inl e4
      · cases rs with
        | nil => exact .inl (by simp)
        | cons r t => exact .inr ⟨kb, r, t, rfl, e4 r (by simp), hkb, fun s hs => .inr (e4 s (by simp [hs]))⟩
  · simp at h1

/-- Two recipients with different preset payloads. -/
def Sample.encMixed : Enc :=
  { Sample.encKw with recipients :=
      [(Sample.kwRcpt 1).withBase { (Sample.kwRcpt 1).base with payload := some (List.replicate 16 1) },
       (Sample.kwRcpt 2).withBase { (Sample.kwRcpt 2).base with payload := some (List.replicate 16 2) }] }

/-- The property is false of the code: the first recipient is sent a key the message was not encrypted with. -/
theorem c37_refuted : ∃ c m', Sample.encMixed.encrypt toy Sample.rand = .ok (c, m') ∧
    (∃ k, m'.base.key = some k ∧ k.symK = .ok (.bytes (List.replicate 16 2))) ∧
    m'.recipients.map (fun r => r.base.payload) = [some (List.replicate 16 1), some (List.replicate 16 2)] :=
  ⟨((Sample.encMixed.encrypt toy Sample.rand).toOption.get (by decide +kernel)).1,
    ((Sample.encMixed.encrypt toy Sample.rand).toOption.get (by decide +kernel)).2, by decide +kernel,
    ⟨(((Sample.encMixed.encrypt toy Sample.rand).toOption.get (by decide +kernel)).2.base.key).get (by decide +kernel),
      by simp, by decide +kernel⟩, by decide +kernel⟩

example : Spec.OnePreset Sample.encKw.recipients ∧ (Sample.encKw.encrypt toy Sample.rand).isOk = true ∧
    (∀ r ∈ Sample.encKw.recipients, r.cls = .keyWrap ∨ r.cls = .keyAgreementWithKeyWrap) := by
  refine ⟨.inl ?_, by decide +kernel, ?_⟩ <;>
    simp [Sample.encKw, Sample.kwRcpt, Rcpt.base, Rcpt.cls]

/-! ### C38 -/

/-- The property is false of the code, for every message: with a key-wrap recipient `compute_tag` raises. -/
theorem c38_compute_never {C : Crypto} {R : Rand} {m : Mac} {rs : List Rcpt} (hm : m.recipients = some rs)
    (hk : ∃ r ∈ rs, r.cls = .keyWrap ∨ r.cls = .keyAgreementWithKeyWrap) : ∃ e, m.computeTag C R = .error e := by
  cases h : m.computeTag C R with
  | error e => exact ⟨e, rfl⟩
  | ok p =>
    exfalso
    obtain ⟨t, m'⟩ := p
    obtain ⟨r, hr, hc⟩ := hk
    obtain ⟨rs', e, hr'⟩ := c32_mac_compute h
    rw [hm] at e; simp at e; subst e
    have n1 : (rs.map Rcpt.cls).contains .directEncryption = false := by
      cases hh : (rs.map Rcpt.cls).contains .directEncryption with
      | false => rfl
      | true =>
        simp at hh
        have := hr'.direct hh r hr
        rcases hc with hc | hc <;> rw [this] at hc <;> simp at hc
    have n2 : (rs.map Rcpt.cls).contains .directKeyAgreement = false := by
      cases hh : (rs.map Rcpt.cls).contains .directKeyAgreement with
      | false => rfl
      | true =>
        simp at hh
        have hl := hr'.agreement hh
        obtain ⟨s, hs, hsc⟩ := hh
        match rs, hl with
        | [x], _ =>
          simp at hr hs; subst hr hs
          rcases hc with hc | hc <;> rw [hsc] at hc <;> simp at hc
    simp only [Mac.computeTag, bind_eq_ok] at h
    obtain ⟨target, _, h⟩ := h
    simp only [hm, bind_eq_ok] at h
    obtain ⟨types, ht, h⟩ := h
    obtain ⟨rfl, _⟩ := verifyRecipients_iff.mp ht
    rw [if_neg (by rw [n1]; decide), if_neg (by rw [n2]; decide)] at h
    split at h
    · simp only [bind_eq_ok] at h
      obtain ⟨_, _, _, _, h⟩ := h
      simp at h
    · simp at h

theorem c38_refuted {C : Crypto} {R : Rand} {m : Mac} {tag : Bool} {rs : List Rcpt} (hm : m.recipients = some rs)
    (hk : ∃ r ∈ rs, r.cls = .keyWrap ∨ r.cls = .keyAgreementWithKeyWrap) : ∃ e, m.encode C R tag true = .error e := by
  cases h : m.encode C R tag true with
  | error e => exact ⟨e, rfl⟩
  | ok p =>
    exfalso
    obtain ⟨_, m1, _, _, _, _, h1, _⟩ := mac_encode_inv h
    rcases h1 with ⟨_, t, h1, _⟩ | ⟨h1, _⟩
    · obtain ⟨e, he⟩ := c38_compute_never (C := C) (R := R) hm hk
      rw [he] at h1; simp at h1
    · simp at h1

/-- The exception, for an ordinary message (AES-MAC, one AES key wrap recipient): `NameError`. -/
theorem c38_name_error : Mac.computeTag toy Sample.rand { base := Sample.mac0Aes.base, recipients := some [Sample.kwRcpt 1] } =
    .error .nameError := by decide +kernel

end Cose
