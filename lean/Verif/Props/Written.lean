import Verif.Props.RcptRules
import Verif.Props.Fresh
import Verif.Props.Effects
import Verif.Props.AgreePolicy
/-!
# Recipients that are written (C88)
-/
set_option autoImplicit false
namespace Cose

/-- One of the two headers of a recipient has the attribute `a`. -/
def Spec.InHeaders (b : Base) (a : Cls) : Prop := getD b.phdr a .none ≠ .none ∨ getD b.uhdr a .none ≠ .none

/-- RFC 8152, section 12, for a recipient of class `c` with headers `b` that is written with ciphertext `ct` and `n` recipients inside:
it has an algorithm; with direct encryption there is no ciphertext and no recipient inside, and no protected header for `Direct`; a key-wrap
recipient has no protected header; with direct key agreement there is no ciphertext, at most one recipient inside, and an ephemeral key
for the ephemeral-static algorithms; key agreement with key wrap has one of its six algorithms. -/
structure Spec.EntryRules (c : RCls) (b : Base) (ct : Bytes) (n : Nat) : Prop where
  alg : Spec.InHeaders b Hdr.Algorithm
  direct : c = .directEncryption → ct = [] ∧ n = 0 ∧ (Spec.RcptAlg b (-6) → b.phdr = [])
  keyWrap : c = .keyWrap → b.phdr = [] ∧ ∃ i, Spec.RcptAlg b i ∧ Spec.ClassOf .keyWrap i
  agreement : c = .directKeyAgreement → ct = [] ∧ n ≤ 1 ∧ (Spec.RcptAlg b (-25) ∨ Spec.RcptAlg b (-26) → Spec.InHeaders b Hdr.EphemeralKey)
  agreementKw : c = .keyAgreementWithKeyWrap → ∃ i, Spec.RcptAlg b i ∧ Spec.ClassOf .keyAgreementWithKeyWrap i

mutual
/-- The recipient `r` appears on the wire as `v`: three elements, and a fourth one if it has recipients inside; the rules hold, for those
inside as well. -/
inductive Spec.Written : Rcpt → Val → Prop
  | flat {c : RCls} {b : Base} {x : Bytes} {o : Nat} {pe ct : Bytes} : b.phdrEncoded = .ok pe → Spec.EntryRules c b ct 0 →
      Spec.Written (.mk c b x o []) (.arr [.bytes pe, .map b.uhdr, .bytes ct])
  | nested {c : RCls} {b : Base} {x : Bytes} {o : Nat} {pe ct : Bytes} {rs : List Rcpt} {vs : List Val} : b.phdrEncoded = .ok pe →
      Spec.EntryRules c b ct rs.length → rs ≠ [] → Spec.WrittenL rs vs →
      Spec.Written (.mk c b x o rs) (.arr [.bytes pe, .map b.uhdr, .bytes ct, .arr vs])
/-- The recipients of a list, in the same order. -/
inductive Spec.WrittenL : List Rcpt → List Val → Prop
  | nil : Spec.WrittenL [] []
  | cons {r : Rcpt} {v : Val} {rs : List Rcpt} {vs : List Val} : Spec.Written r v → Spec.WrittenL rs vs → Spec.WrittenL (r :: rs) (v :: vs)
end

theorem inHeaders_of_get {b : Base} {a : Cls} {v : Val} (ha : b.getAttr a = .ok v) (hn : v ≠ .none) : Spec.InHeaders b a := by
  have h' : (if getD b.phdr a .none ≠ .none ∧ getD b.uhdr a .none ≠ .none then .error .coseException
      else if getD b.phdr a .none ≠ .none then .ok (getD b.phdr a .none)
      else .ok (getD b.uhdr a .none) : Res Val) = .ok v := ha
  split at h'
  · simp at h'
  split at h'
  · rename_i h; exact .inl h
  · simp at h'; right; rw [h']; exact hn

theorem rcptAlg_of_get {b : Base} {i : Int} (ha : b.getAttr Hdr.Algorithm = .ok (algCls i)) : Spec.RcptAlg b i := by
  have h' : (if getD b.phdr Hdr.Algorithm .none ≠ .none ∧ getD b.uhdr Hdr.Algorithm .none ≠ .none then .error .coseException
      else if getD b.phdr Hdr.Algorithm .none ≠ .none then .ok (getD b.phdr Hdr.Algorithm .none)
      else .ok (getD b.uhdr Hdr.Algorithm .none) : Res Val) = .ok (algCls i) := ha
  split at h'
  · simp at h'
  split at h'
  · simp at h'; exact .inl h'
  · rename_i h; simp at h h'; exact .inr ⟨h, h'⟩

theorem onlyKeys_headers {b b' : Base} (h : Spec.OnlyKeys b b') :
    b'.phdrEncoded = b.phdrEncoded ∧ b'.getAttr Hdr.Algorithm = b.getAttr Hdr.Algorithm :=
  ⟨by simp only [Base.phdrEncoded, Base.mode, h.phdrEnc, h.phdr, h.tstr], getAttr_congr h.phdr (h.uhdr _ (by decide))⟩

theorem dka_tail_written {b b' : Base} {rs : List Rcpt} {alg : Val} {l : List Val} (ha : b.getAttr Hdr.Algorithm = .ok alg) (hn : alg ≠ .none)
    (h : (if rs.length > 1 then (.error .malformedMessage : Res (List Val × Base))
        else do
          let e ← b.getAttr Hdr.EphemeralKey
          let missing ← lacksEphemeral alg e
          if missing then .error .malformedMessage
          else do
            let pe ← b.phdrEncoded
            .ok ([.bytes pe, .map b.uhdr, .bytes []], b)) = .ok (l, b')) :
    ∃ pe ct, b'.phdrEncoded = .ok pe ∧ l = [.bytes pe, .map b'.uhdr, .bytes ct] ∧ Spec.EntryRules .directKeyAgreement b' ct rs.length := by
  split at h
  · simp at h
  rename_i hl
  obtain ⟨e, he, h⟩ := bind_eq_ok.mp h
  obtain ⟨m, hm, h⟩ := bind_eq_ok.mp h
  split at h
  · simp at h
  rename_i hm'
  obtain ⟨pe, hp, h⟩ := bind_eq_ok.mp h
  simp at h
  obtain ⟨rfl, rfl⟩ := h
  refine ⟨pe, [], hp, rfl, inHeaders_of_get ha hn, by simp, by simp, fun _ => ⟨rfl, by omega, fun hi => ?_⟩, by simp⟩
  refine inHeaders_of_get he fun e0 => ?_
  subst e0
  have : alg = algCls (-25) ∨ alg = algCls (-26) := hi.imp (getAttr_of_rcptAlg · ha) (getAttr_of_rcptAlg · ha)
  have hs : lacksEphemeral alg .none = .ok true := by
    rcases this with rfl | rfl <;> rfl
  rw [hs] at hm
  simp at hm
  exact hm' hm

theorem head_written {C : Crypto} {R : Rand} {path : List Nat} {c : RCls} {b b' : Base} {x : Bytes} {o : Nat} {rs : List Rcpt} {l : List Val}
    (h : rcptHead C R path (.mk c b x o rs) = .ok (l, b')) :
    ∃ pe ct, b'.phdrEncoded = .ok pe ∧ l = [.bytes pe, .map b'.uhdr, .bytes ct] ∧ Spec.EntryRules c b' ct rs.length := by
  cases c <;> simp only [rcptHead] at h
  · obtain ⟨alg, ha, h⟩ := bind_eq_ok.mp h
    split at h
    · simp at h
    rename_i h6
    split at h
    · simp at h
    rename_i hn
    split at h
    · simp at h
    rename_i hr
    obtain ⟨pe, hp, h⟩ := bind_eq_ok.mp h
    simp at h
    obtain ⟨rfl, rfl⟩ := h
    refine ⟨pe, [], hp, rfl, inHeaders_of_get ha hn, fun _ => ⟨rfl, by simpa using hr, fun hi => ?_⟩, by simp, by simp, by simp⟩
    have := getAttr_of_rcptAlg hi ha
    subst this
    simpa using h6
  · obtain ⟨pe, hp, h⟩ := bind_eq_ok.mp h
    obtain ⟨ct, hc, h⟩ := bind_eq_ok.mp h
    simp at h
    obtain ⟨rfl, rfl⟩ := h
    unfold kwEncrypt at hc
    obtain ⟨alg, ha, hc⟩ := bind_eq_ok.mp hc
    split at hc
    · simp at hc
    rename_i hl
    split at hc
    · simp at hc
    rename_i hn
    refine ⟨pe, ct, hp, rfl, inHeaders_of_get ha hn, by simp, fun _ => ⟨by simpa using hl, ?_⟩, by simp, by simp⟩
    obtain ⟨kw, hk, hc⟩ := bind_eq_ok.mp hc
    split at hc
    · rename_i hkw
      rw [hkw] at hk
      obtain ⟨i, hi, rfl⟩ := inSet_true hk
      exact ⟨i, rcptAlg_of_get ha, .aesKw (by simpa [aesKws] using hi)⟩
    · obtain ⟨rsa, hk', hc⟩ := bind_eq_ok.mp hc
      split at hc
      · rename_i hrsa
        rw [hrsa] at hk'
        obtain ⟨i, hi, rfl⟩ := inSet_true hk'
        exact ⟨i, rcptAlg_of_get ha, .oaep (by simpa [oaeps] using hi)⟩
      · simp at hc
  · obtain ⟨alg, ha, h⟩ := bind_eq_ok.mp h
    split at h
    · simp at h
    rename_i hn
    split at h
    · simp at h
    cases hk : b.key with
    | some k =>
      simp only [hk] at h
      exact dka_tail_written ha hn h
    | none =>
      simp only [hk] at h
      obtain ⟨es, _, h⟩ := bind_eq_ok.mp h
      cases es
      · simp at h
      · simp only [if_true] at h
        obtain ⟨b1, h1, h⟩ := bind_eq_ok.mp h
        exact dka_tail_written ((onlyKeys_headers (setup_only h1)).2.trans ha) hn h
  · obtain ⟨pe, hp, h⟩ := bind_eq_ok.mp h
    obtain ⟨alg, ha, h⟩ := bind_eq_ok.mp h
    obtain ⟨w, hw, h⟩ := bind_eq_ok.mp h
    obtain ⟨⟨ct, b1⟩, h1, h⟩ := bind_eq_ok.mp h
    simp at h
    obtain ⟨rfl, rfl⟩ := h
    obtain ⟨hp', ha'⟩ := onlyKeys_headers (kakw_only h1)
    obtain ⟨alg', w', kek, n, k, sk, e1, _, _, e2, _, e3, _⟩ := kakwEncrypt_ok h1
    obtain ⟨i, rfl, hi, _⟩ := kwFunc_ids e2 e3
    rw [e1] at ha'
    refine ⟨pe, ct, by rw [hp', hp], rfl, inHeaders_of_get ha' (by simp [algCls]), by simp, by simp, by simp, fun _ => ?_⟩
    exact ⟨i, rcptAlg_of_get ha', .agreementKw (by simpa using hi)⟩

theorem keptL_length : ∀ {rs rs' : List Rcpt}, Spec.KeptL rs rs' → rs'.length = rs.length
  | _, _, .nil => rfl
  | _, _, .cons _ t => by simp [keptL_length t]

mutual
theorem encode_written {C : Crypto} {R : Rand} : ∀ (r : Rcpt) {path : List Nat} {v : Val} {r' : Rcpt},
    rcptEncode C R path r = .ok (v, r') → Spec.Written r' v
  | .mk c b x o rs, path, v, r', h => by
    simp only [rcptEncode] at h
    obtain ⟨⟨l, b'⟩, h1, h⟩ := bind_eq_ok.mp h
    obtain ⟨pe, ct, hp, hl, hr⟩ := head_written h1
    subst hl
    split at h
    · rename_i he
      simp at h he
      subst he
      obtain ⟨rfl, rfl⟩ := h
      exact .flat hp hr
    · rename_i he
      obtain ⟨⟨vs, rs'⟩, h2, h⟩ := bind_eq_ok.mp h
      simp at h he
      obtain ⟨rfl, rfl⟩ := h
      have hlen : rs'.length = rs.length := keptL_length (encodes_kept rs h2)
      refine .nested hp (by rw [hlen]; exact hr) ?_ (encodes_written rs h2)
      intro e0; rw [e0] at hlen; exact he (List.length_eq_zero_iff.mp hlen.symm)
theorem encodes_written {C : Crypto} {R : Rand} : ∀ (rs : List Rcpt) {path : List Nat} {i : Nat} {vs : List Val} {rs' : List Rcpt},
    rcptsEncode C R path i rs = .ok (vs, rs') → Spec.WrittenL rs' vs
  | [], path, i, vs, rs', h => by
    simp [rcptsEncode] at h
    rw [h.1, h.2]; exact .nil
  | r :: t, path, i, vs, rs', h => by
    simp only [rcptsEncode] at h
    obtain ⟨⟨v, r1⟩, h1, h⟩ := bind_eq_ok.mp h
    obtain ⟨⟨vs', t1⟩, h2, h⟩ := bind_eq_ok.mp h
    simp at h
    rw [← h.1, ← h.2]
    exact .cons (encode_written r h1) (encodes_written t h2)
end

/-- C88, as far as it holds: whatever recipient is written, at any depth, obeys the rules of its class.  Missing: that its algorithm is one of
its class (`c88_class_refuted`), and the ephemeral key of key agreement with key wrap (`c88_ephemeral_refuted`). -/
theorem c88_recipient_partial {C : Crypto} {R : Rand} {path : List Nat} {r r' : Rcpt} {v : Val} (h : rcptEncode C R path r = .ok (v, r')) :
    Spec.Written r' v ∧ Spec.Kept r r' := ⟨encode_written r h, encode_kept r h⟩

/-- … and the recipients of an encoded message are written in their order, as the last element of the message. -/
theorem c88_enc_partial {C : Crypto} {R : Rand} {m m' : Enc} {tag e : Bool} {out : Bytes} (h : m.encode C R tag e = .ok (out, m')) :
    ∃ pe v vs, Spec.WrittenL m'.recipients vs ∧
      m'.base.finish 96 tag ([.bytes pe, .map m.base.uhdr, v] ++ if m'.recipients = [] then [] else [.arr vs]) = .ok out := by
  obtain ⟨pe, v, m1, tl, hp, h1, hf, h2⟩ := enc_encode_inv h
  rcases h2 with ⟨h2, rfl, rfl⟩ | ⟨h0, vs, rs, h2, rfl, rfl⟩
  · exact ⟨pe, v, [], by rw [h2]; exact .nil, by rw [if_pos h2]; exact hf⟩
  · have hn : rs ≠ [] := by
      intro e0; have := keptL_length (encodes_kept _ h2); rw [e0] at this
      exact h0 (List.length_eq_zero_iff.mp this.symm)
    exact ⟨pe, v, vs, encodes_written _ h2, by rw [if_neg hn]; exact hf⟩

theorem c88_mac_partial {C : Crypto} {R : Rand} {m m' : Mac} {tag e : Bool} {out : Bytes} (h : m.encode C R tag e = .ok (out, m')) :
    ∃ pe t vs rs, m'.recipients = some rs ∧ Spec.WrittenL rs vs ∧
      m'.base.finish 97 tag ([.bytes pe, .map m.base.uhdr, optBytes m.base.payload] ++ t ++ if rs = [] then [] else [.arr vs]) = .ok out := by
  obtain ⟨pe, m1, tl0, tl, rs1, hp, h1, hf, h3, h2⟩ := mac_encode_inv h
  rcases h2 with ⟨rfl, rfl, rfl⟩ | ⟨h0, vs, rs, h2, rfl, rfl⟩
  · exact ⟨pe, tl0, [], [], h3, .nil, by rw [if_pos rfl]; exact hf⟩
  · have hn : rs ≠ [] := by
      intro e0; have := keptL_length (encodes_kept _ h2); rw [e0] at this
      exact h0 (List.length_eq_zero_iff.mp this.symm)
    exact ⟨pe, tl0, vs, rs, rfl, encodes_written _ h2, by rw [if_neg hn]; exact hf⟩

/-- A recipient for direct encryption with the algorithm of key wrap. -/
def Sample.oddRcpt : Rcpt :=
  .mk .directEncryption { uhdr := [(.cls Hdr.Algorithm, algCls (-3)), (.cls Hdr.KID, .bytes b!"kek")], payload := some [] } [] 1 []
def Sample.macOdd : Mac := { Sample.mac with recipients := some [Sample.oddRcpt] }

/-- The class of a recipient that is written need not be that of its algorithm; no receiver reads such a message. -/
theorem c88_class_refuted : ∃ out m', Sample.macOdd.encode toy Sample.rand true true = .ok (out, m') ∧ Spec.RcptAlg Sample.oddRcpt.base (-3) ∧
    ¬ Spec.ClassOf Sample.oddRcpt.cls (-3) ∧ decode toy .any true out = .error .malformedMessage := by
  obtain ⟨⟨out, m'⟩, h1, h2⟩ := res_any (r := Sample.macOdd.encode toy Sample.rand true true)
    (p := fun o => decide (decode toy .any true o.1 = .error .malformedMessage)) (by decide +kernel)
  refine ⟨out, m', h1, .inr ⟨rfl, rfl⟩, ?_, by simpa using h2⟩
  intro h
  cases h with | direct h => omega

/-- A recipient for ECDH-ES + A128KW whose key the caller has set. -/
def Sample.esSet : Rcpt := (Sample.esRcpt 1).withBase { (Sample.esRcpt 1).base with key := some Sample.sndPriv }
def Sample.encEsSet : Enc := { base := { Sample.enc0.base with key := none }, recipients := [Sample.esSet] }

/-- Key agreement with key wrap writes a recipient for ECDH-ES without ephemeral key, if the caller has set the key: no receiver can use it. -/
theorem c88_ephemeral_refuted : ∃ out m' m2 r, Sample.encEsSet.encode toy Sample.rand true true = .ok (out, m') ∧ Spec.RcptAlg Sample.esSet.base (-29) ∧
    decode toy .any true out = .ok (.enc m2) ∧ m2.recipients = [r] ∧ ¬ Spec.InHeaders r.base Hdr.EphemeralKey := by
  obtain ⟨⟨out, m'⟩, h1, h2⟩ := res_any (r := Sample.encEsSet.encode toy Sample.rand true true)
    (p := fun o => match decode toy .any true o.1 with
      | .ok (.enc m) => (match m.recipients with
        | [r] => decide (getD r.base.phdr Hdr.EphemeralKey .none = .none ∧ getD r.base.uhdr Hdr.EphemeralKey .none = .none)
        | _ => false)
      | _ => false) (by decide +kernel)
  simp only at h2
  split at h2
  · rename_i m hm
    split at h2
    · rename_i r hr
      simp at h2
      exact ⟨out, m', m, r, h1, .inl rfl, hm, hr, fun h => h.elim (fun h => h h2.1) (fun h => h h2.2)⟩
    · cases h2
  · cases h2

/-- Messages with recipients of all four classes are written, and one with a recipient inside a recipient. -/
example : (Sample.encMix.encode toy Sample.rand true true).isOk = true ∧ (Sample.mac.encode toy Sample.rand true true).isOk = true ∧
    ((Sample.macDka Sample.rcvPub).encode pairC Sample.rand2 true true).isOk = true ∧
    (rcptEncode toy Sample.rand [0] (.mk .keyWrap { (Sample.kwRcpt 1).base with payload := some (List.replicate 16 1) } [] 1 [Sample.directRcpt 2])).isOk = true := by
  decide +kernel

end Cose
