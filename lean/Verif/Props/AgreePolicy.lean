import Verif.Props.Fresh
import Verif.Props.Policy
import Verif.Props.Recipients
/-!
# The policy of the keys used in key agreement (C71)
-/
set_option autoImplicit false
namespace Cose

/-- The operations that allow a key to take part in a key agreement. -/
def Spec.deriveOps : List Cls := [Op.DeriveKey, Op.DeriveBits]

/-- The key of the other party.  The sender (`enc`) finds it in the local attributes; the receiver finds it in the
header, as static key for ECDH-SS (-27, -28) and as ephemeral key for ECDH-ES (-25, -26). -/
def Spec.PeerIs (b : Base) (enc : Bool) (alg : Val) (v : Val) : Prop :=
  (enc = true ∧ dget b.localAttrs (.cls Hdr.StaticKey) = some v) ∨
  (enc = false ∧ alg ∈ [algCls (-27), algCls (-28)] ∧ b.getAttr Hdr.StaticKey = .ok v) ∨
  (enc = false ∧ alg ∈ [algCls (-25), algCls (-26)] ∧ b.getAttr Hdr.EphemeralKey = .ok v)

/-- Both keys of a direct key agreement are EC2 keys that may derive keys with the algorithm of the recipient. -/
def Spec.AgreementMet (b : Base) (enc : Bool) : Prop :=
  ∃ alg mine kind store, b.getAttr Hdr.Algorithm = .ok alg ∧ b.key = some mine ∧ Spec.PeerIs b enc alg (.key kind store) ∧
    Spec.Usable mine [.ec2] alg Spec.deriveOps ∧ Spec.Usable { kind := kind, store := store } [.ec2] alg Spec.deriveOps

theorem inSet_true {v : Val} {s : List Int} (h : inSet v s = .ok true) : ∃ i ∈ s, v = algCls i := by
  unfold inSet at h
  split at h <;> try (simp at h; done)
  · split at h <;> cases h
  rename_i c
  obtain ⟨r, i⟩ := c
  simp at h
  exact ⟨i, h.2, by simp [algCls, h.1]⟩

theorem dka_alg_fam {i : Int} (h : i ∈ ecdhEsHkdf ++ ecdhSsHkdf) : ∃ f, algFam (algCls i) = some f := by
  simp only [ecdhEsHkdf, ecdhSsHkdf, List.cons_append, List.nil_append, List.mem_cons, List.not_mem_nil, or_false] at h
  rcases h with rfl | rfl | rfl | rfl <;> exact ⟨_, rfl⟩

theorem dka_tail {b : Base} {target : Val} {enc : Bool} {i : Int} {v : Val} {f : AlgFam} (h : ¬ Spec.AgreementMet b enc)
    (ha : b.getAttr Hdr.Algorithm = .ok (algCls i)) (hf : algFam (algCls i) = some f) (hp : v ≠ .none → Spec.PeerIs b enc (algCls i) v) :
    ∃ e, ∀ C, (if v = .none then .error .coseException
      else do
        let pk ← asKey v
        pk.verify .ec2 (algCls i) [Op.DeriveKey, Op.DeriveBits]
        match b.key with
        | none => .error .attributeError
        | some k => do
          k.verify .ec2 (algCls i) [Op.DeriveKey, Op.DeriveBits]
          let kek ← agreeKek C b target v (some k) (algCls i)
          mkSym (.bytes kek) target [] : Res Key) = .error e := by
  split
  · exact ⟨_, fun _ => rfl⟩
  · rename_i hn
    cases hk : asKey v with
    | error e => exact ⟨e, fun _ => rfl⟩
    | ok pk =>
      simp only [ok_bind]
      cases h1 : pk.verify .ec2 (algCls i) [Op.DeriveKey, Op.DeriveBits] with
      | error e => exact ⟨e, fun _ => rfl⟩
      | ok u =>
        simp only [ok_bind]
        cases hb : b.key with
        | none => exact ⟨_, fun _ => rfl⟩
        | some k =>
          simp only
          cases h2 : k.verify .ec2 (algCls i) [Op.DeriveKey, Op.DeriveBits] with
          | error e => exact ⟨e, fun _ => rfl⟩
          | ok u =>
            refine absurd ?_ h
            cases v <;> simp [asKey] at hk
            subst hk
            exact ⟨_, k, _, _, ha, hb, hp hn, verify_usable h2 hf (by simp), verify_usable h1 hf (by simp)⟩

theorem dka_policy {b : Base} {target : Val} {enc : Bool} (h : ¬ Spec.AgreementMet b enc) :
    ∃ e, ∀ C, dkaComputeCek C b target enc = .error e := by
  unfold dkaComputeCek
  cases ha : b.getAttr Hdr.Algorithm with
  | error e => exact ⟨e, fun _ => rfl⟩
  | ok alg =>
    simp only [ok_bind]
    cases hm : inSet alg (ecdhEsHkdf ++ ecdhSsHkdf) with
    | error e => exact ⟨e, fun _ => rfl⟩
    | ok m =>
      cases m
      · exact ⟨_, fun _ => rfl⟩
      obtain ⟨i, hi, rfl⟩ := inSet_true hm
      obtain ⟨f, hf⟩ := dka_alg_fam hi
      simp only [ok_bind, Bool.true_eq_false, if_false]
      cases hs : inSet (algCls i) ecdhSsHkdf with
      | error e => exact ⟨e, fun _ => rfl⟩
      | ok ss =>
        simp only [ok_bind]
        cases enc
        · cases ss
          · simp only [Bool.false_eq_true, if_false]
            cases he : b.getAttr Hdr.EphemeralKey with
            | error e => exact ⟨e, fun _ => rfl⟩
            | ok v =>
              refine dka_tail h ha hf (fun _ => .inr (.inr ⟨rfl, ?_, he⟩))
              simp only [ecdhEsHkdf, ecdhSsHkdf, List.cons_append, List.nil_append, List.mem_cons, List.not_mem_nil, or_false] at hi
              rcases hi with rfl | rfl | rfl | rfl
              · simp
              · simp
              · exact absurd hs (by decide)
              · exact absurd hs (by decide)
          · simp only [Bool.false_eq_true, if_false, if_true]
            obtain ⟨j, hj, e⟩ := inSet_true hs
            cases he : b.getAttr Hdr.StaticKey with
            | error e => exact ⟨e, fun _ => rfl⟩
            | ok v =>
              refine dka_tail h ha hf (fun _ => .inr (.inl ⟨rfl, ?_, he⟩))
              rw [e]
              simp only [ecdhSsHkdf, List.mem_cons, List.not_mem_nil, or_false] at hj
              rcases hj with rfl | rfl <;> simp
        · simp only [if_true]
          refine dka_tail h ha hf (fun hv => .inl ⟨rfl, ?_⟩)
          simp only [getD] at hv ⊢
          cases hd : dget b.localAttrs (.cls Hdr.StaticKey) with
          | none => simp [hd] at hv
          | some w => simp

/-- **C71**, computing the content key with direct key agreement, on either side: unless both keys are EC2 keys that may
derive keys with the algorithm of the recipient, an exception is raised that no primitive has a part in. -/
theorem c71_direct_partial {b : Base} {target : Val} {enc : Bool} (h : ¬ Spec.AgreementMet b enc) :
    ∃ e, ∀ C, dkaComputeCek C b target enc = .error e := dka_policy h

theorem types_dka {rs : List Rcpt} {r : Rcpt} {types : List RCls} (hr : rs = [r]) (hc : r.cls = .directKeyAgreement)
    (h : verifyRecipients rs = .ok types) : types = [.directKeyAgreement] := by
  subst hr
  simp [verifyRecipients, hc] at h
  exact h.symm

/-- **C71**, encrypting a message for a direct key agreement recipient. -/
theorem c71_encrypt_partial {m : Enc} {r : Rcpt} (hr : m.recipients = [r]) (hc : r.cls = .directKeyAgreement)
    (h : ¬ Spec.AgreementMet r.base true) : ∃ e, ∀ C R, m.encrypt C R = .error e := by
  cases ha : m.base.getAttr Hdr.Algorithm with
  | error e => exact ⟨e, fun _ _ => by simp [Enc.encrypt, ha]⟩
  | ok alg =>
    obtain ⟨e, he⟩ := dka_policy (target := alg) h
    cases hv : verifyRecipients m.recipients with
    | error e => exact ⟨e, fun _ _ => by simp [Enc.encrypt, ha, hv]⟩
    | ok types =>
      obtain rfl := types_dka hr hc hv
      exact ⟨e, fun C R => by simp only [Enc.encrypt, ha, hv, ok_bind]; rw [hr]; simp [he]⟩

/-- **C71**, MACing a message for a direct key agreement recipient. -/
theorem c71_mac_partial {m : Mac} {r : Rcpt} (hr : m.recipients = some [r]) (hc : r.cls = .directKeyAgreement)
    (h : ¬ Spec.AgreementMet r.base true) : ∃ e, ∀ C R, m.computeTag C R = .error e := by
  cases ha : m.base.getAttr Hdr.Algorithm with
  | error e => exact ⟨e, fun _ _ => by simp [Mac.computeTag, ha]⟩
  | ok alg =>
    obtain ⟨e, he⟩ := dka_policy (target := alg) h
    cases hv : verifyRecipients [r] with
    | error e => exact ⟨e, fun _ _ => by simp [Mac.computeTag, ha, hr, hv]⟩
    | ok types =>
      obtain rfl := types_dka rfl hc hv
      exact ⟨e, fun C R => by simp [Mac.computeTag, ha, hr, hv, he]⟩

/-- **C71**, decrypting a message as its direct key agreement recipient. -/
theorem c71_decrypt_partial {m : Enc} {r : Rcpt} (hr : m.recipients = [r]) (hc : r.cls = .directKeyAgreement)
    (h : ¬ Spec.AgreementMet r.base false) : ∃ e, ∀ C, m.decrypt C r = .error e := by
  cases ha : m.base.getAttr Hdr.Algorithm with
  | error e => exact ⟨e, fun _ => by simp [Enc.decrypt, ha]⟩
  | ok alg =>
    obtain ⟨e, he⟩ := dka_policy (target := alg) h
    cases hh : hasRecipient r.oid m.recipients with
    | false => exact ⟨_, fun _ => by simp [Enc.decrypt, ha, hh]; rfl⟩
    | true =>
      cases hv : verifyRecipients m.recipients with
      | error e => exact ⟨e, fun _ => by simp [Enc.decrypt, ha, hh, hv]⟩
      | ok types =>
        obtain rfl := types_dka hr hc hv
        exact ⟨e, fun C => by simp [Enc.decrypt, ha, hh, hv, rcptComputeCek, hc, he]⟩

/-! ### Key agreement with key wrap ignores the policy -/

theorem agreeKek_d {C : Crypto} {b : Base} {q : Option Key} {target peer alg : Val} {k k' : Key} (h : k'.d = k.d) :
    agreeKek C { b with key := q } target peer (some k') alg = agreeKek C b target peer (some k) alg := by
  simp only [agreeKek, deriveKek, h]
  rfl

/-- For key agreement with key wrap only the private value matters: whatever else the sender's key says (its kind, its
`alg`, its `key_ops`), the recipient wraps in the same way … -/
theorem c71_kakw_ignores_policy {C : Crypto} {R : Rand} {phase : Nat} {path : List Nat} {b : Base} {ctx : Bytes} {oid : Nat}
    {rs : List Rcpt} {k k' : Key} (h : k'.d = k.d) :
    (rcptEncrypt C R phase path (.mk .keyAgreementWithKeyWrap { b with key := some k' } ctx oid rs)).map (·.1) =
      (rcptEncrypt C R phase path (.mk .keyAgreementWithKeyWrap { b with key := some k } ctx oid rs)).map (·.1) := by
  have e1 : ∀ q : Option Key, ({ b with key := q } : Base).getAttr Hdr.Algorithm = b.getAttr Hdr.Algorithm := fun _ => rfl
  have : (kakwEncrypt C (R.eph path) { b with key := some k' }).map (·.1) = (kakwEncrypt C (R.eph path) { b with key := some k }).map (·.1) := by
    simp only [kakwEncrypt, e1]
    split
    · rfl
    cases b.getAttr Hdr.Algorithm with
    | error e => rfl
    | ok alg =>
      simp only [ok_bind]
      split
      · rfl
      cases keyWrapFunc alg with
      | error e => rfl
      | ok w =>
        simp only [ok_bind]
        rw [agreeKek_d (b := { b with key := some k }) (q := some k') h]
        cases agreeKek C { b with key := some k } w (getD b.localAttrs Hdr.StaticKey .none) (some k) alg with
        | error e => rfl
        | ok kek =>
          simp only [ok_bind]
          split
          · cases mkSym (.bytes kek) alg [Op.DeriveKey] with
            | error e => rfl
            | ok q =>
              simp only [ok_bind]
              rename_i n _
              cases kwKeyWrap C n q b.payload <;> rfl
          · rfl
  simp only [rcptEncrypt, Rcpt.cls, Rcpt.base]
  revert this
  cases kakwEncrypt C (R.eph path) { b with key := some k' } <;> cases kakwEncrypt C (R.eph path) { b with key := some k } <;>
    simp [Except.map]

/-- … and unwraps in the same way. -/
theorem c71_kakw_unwrap_ignores_policy {C : Crypto} {b : Base} {ctx : Bytes} {oid : Nat} {rs : List Rcpt} {k k' : Key} (h : k'.d = k.d) :
    rcptDecrypt C (.mk .keyAgreementWithKeyWrap { b with key := some k' } ctx oid rs) =
      rcptDecrypt C (.mk .keyAgreementWithKeyWrap { b with key := some k } ctx oid rs) := by
  simp only [rcptDecrypt, kakwDecrypt]
  have e1 : ∀ (q : Option Key) c, ({ b with key := q } : Base).getAttr c = b.getAttr c := fun _ _ => rfl
  have e2 : ∀ w peer alg, agreeKek C { b with key := some k' } w peer (some k') alg = agreeKek C { b with key := some k } w peer (some k) alg :=
    fun w peer alg => agreeKek_d (b := { b with key := some k }) (q := some k') h
  simp only [e1, e2]

/-- An EC key for signing only. -/
def Sample.signOnlyKey : Key := { Sample.sndPriv with store := dset (dset Sample.sndPriv.store (.cls KpAlg) (algCls (-7))) (.cls KpKeyOps) (.arr [.cls Op.Sign]) }

/-- The property is false of the code for key agreement with key wrap: a key restricted to ES256 and to signing
wraps a content key. -/
theorem c71_kakw_refuted : ∃ (r : Rcpt) (c : Bytes) (r' : Rcpt), r.cls = .keyAgreementWithKeyWrap ∧ rcptEncrypt toy Sample.rand 0 [0] r = .ok (c, r') ∧
    ∀ k alg, r.base.key = some k → r.base.getAttr Hdr.Algorithm = .ok alg → ¬ Spec.Usable k [.ec2] alg Spec.deriveOps := by
  obtain ⟨⟨c, r'⟩, h, _⟩ := res_any (r := rcptEncrypt toy Sample.rand 0 [0] (((Sample.ssRcpt 1).withKey (some Sample.signOnlyKey)).withBase
      { ((Sample.ssRcpt 1).withKey (some Sample.signOnlyKey)).base with payload := some (List.replicate 16 3) })) (p := fun _ => true) (by decide +kernel)
  refine ⟨_, c, r', rfl, h, ?_⟩
  intro k alg hk _ hu
  simp [Rcpt.withKey, Rcpt.withBase, Rcpt.base] at hk
  subst hk
  obtain ⟨o, ho, hm⟩ := hu.ops [.cls Op.Sign] (by decide +kernel) (by simp)
  simp [Spec.deriveOps] at ho hm
  subst hm
  rcases ho with ho | ho <;> revert ho <;> decide

/-- The hypothesis of the theorems holds of a recipient whose own key is for signing … -/
example : ¬ Spec.AgreementMet ((Sample.dkaRcpt 1).withKey (some Sample.signOnlyKey)).base true := by
  rintro ⟨alg, k, _, _, _, hk, _, hu, _⟩
  obtain rfl : Sample.signOnlyKey = k := Option.some.inj hk
  obtain ⟨o, ho, hm⟩ := hu.ops [.cls Op.Sign] (by decide +kernel) (by simp)
  simp [Spec.deriveOps] at ho hm
  subst hm
  rcases ho with ho | ho <;> revert ho <;> decide

/-- … and of one whose peer has such a key, while the agreement of the samples meets the policy. -/
example : ¬ Spec.AgreementMet { (Sample.dkaRcpt 1).base with localAttrs := [(.cls Hdr.StaticKey, Sample.signOnlyKey.toVal)] } true := by
  rintro ⟨alg, k, _, _, _, _, hp, _, hu⟩
  rcases hp with ⟨_, hp⟩ | ⟨hp, _⟩ | ⟨hp, _⟩
  · simp [dget, keq, Key.toVal] at hp
    obtain ⟨rfl, rfl⟩ := hp
    obtain ⟨o, ho, hm⟩ := hu.ops [.cls Op.Sign] (by decide +kernel) (by simp)
    simp [Spec.deriveOps] at ho hm
    subst hm
    rcases ho with ho | ho <;> revert ho <;> decide
  · simp at hp
  · simp at hp

example : Spec.AgreementMet (Sample.dkaRcpt 1).base true := by
  refine Classical.byContradiction fun h => ?_
  obtain ⟨e, he⟩ := c71_direct_partial (target := algCls 1) h
  obtain ⟨k, hk, _⟩ := res_any (r := dkaComputeCek toy (Sample.dkaRcpt 1).base (algCls 1) true) (p := fun _ => true) (by decide +kernel)
  rw [he toy] at hk
  simp at hk

end Cose
