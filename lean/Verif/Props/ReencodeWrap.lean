import Verif.Props.Reencode
/-!
# Re-encoding a received COSE_Encrypt message whose recipients carry a wrapped key (C53)
-/
set_option autoImplicit false
namespace Cose

/-- A recipient as received that carries the ciphertext `c` of the content key: AES key wrap or RSA-OAEP. -/
def Spec.CarriesWrapped (r : Rcpt) (c : Bytes) : Prop :=
  r.cls = .keyWrap ∧ r.recipients = [] ∧ r.base.payload = some c ∧
    ∃ i : Int, r.base.getAttr Hdr.Algorithm = .ok (algCls i) ∧ i ∈ [-3, -4, -5, -40, -41, -42]

/-- `r1` is the received recipient `r` after its user has set its key and its local attributes. -/
def Spec.HasBeenKeyed (r r1 : Rcpt) : Prop := ∃ k la, r1 = r.receiver k la

/-! ### Lemmas -/

theorem kw_rewrapped {C : Crypto} (L : C.Laws) {R : Rand} {tstr allow : Bool} {r r2 : Rcpt} {v : Val} {cek : Bytes} {p : List Nat}
    (hs : Spec.Sendable C tstr allow r.base r.base.phdr r.base.uhdr) (hr : Spec.CarriesWrapped r cek)
    (h1 : rcptEncode C R p r = .ok (v, r2)) :
    ∃ w, Sent (.base tstr) v w ∧ ∀ ctx oid, ∃ r', createRecipient C allow ctx oid w = .ok r' ∧ r'.oid = oid ∧
      (r'.cls = r.cls ∧ r'.recipients = [] ∧ r'.base.phdr = r.base.phdr ∧ r'.base.uhdr = r.base.uhdr ∧
        ∀ rk la, Spec.Unwraps C r r.base.uhdr rk la → rcptDecrypt C (r'.receiver rk la) = .ok cek) := by
  obtain ⟨cls, b, rctx, roid, rs⟩ := r
  obtain ⟨hc, hr1, hr2, i, ha, hi⟩ := hr
  simp only [Rcpt.recipients, Rcpt.base, Rcpt.cls] at hc hr1 hr2 ha hs
  subst hc
  subst hr1
  obtain ⟨head, b', hh, rfl, rfl⟩ := rcptEncode_flat rfl h1
  simp only [rcptHead, bind_eq_ok] at hh
  obtain ⟨pe, hpe, c, hc, hh⟩ := hh
  simp at hh
  obtain ⟨rfl, rfl⟩ := hh
  obtain ⟨w, hw, hrec⟩ := recv_rcpt hs hpe (alg := algCls i) ha (rcptClass_kw hi)
  refine ⟨.arr [.bytes pe, .map w, .bytes c], sent_arr (.cons sent_bytes (.cons hw (.cons sent_bytes .nil))), ?_⟩
  intro ctx oid
  obtain ⟨e1, e2, e3⟩ := hrec ctx oid c
  obtain ⟨hne, hph, hrt⟩ := kw_roundtrip L hr2 hc
  obtain ⟨bb, hbb⟩ := inSet_alg i aesKws
  refine ⟨.mk .keyWrap (recvBase pe b.phdr b.uhdr (some c)) ctx oid [], ?_, rfl, rfl, rfl, rfl, rfl, ?_⟩
  · rw [e1]
    simp only [rcptFromObj, e2, ok_bind, e3, hbb]
    rw [if_neg, if_neg]
    · simpa [recvBase] using hne
    · simp [recvBase, hph]
  · intro rk la hu
    refine hrt _ _ _ rk ?_ rfl rfl ?_
    · rw [ha]; exact e3
    · cases hu with
      | aesKw g1 g2 g3 g4 => exact .inl ⟨_, _, g1, g2, g3, g4⟩
      | oaep g1 g2 g3 g4 g5 g6 g7 => exact .inr ⟨_, _, _, g1, g2, g3, g4, g5, g6, g7⟩
      | ecdh g1 g2 =>
        simp only [Rcpt.base] at g1
        rw [ha] at g1; simp at g1; subst g1
        simp at hi g2
        omega
      | ecdhGenerated g1 g2 =>
        simp only [Rcpt.base] at g1
        rw [ha] at g1; simp at g1; subst g1
        simp at hi g2
        omega

theorem all2_getElem {α β : Type} {P : α → β → Prop} {l : List α} {l' : List β} (h : All2 P l l') :
    ∀ {j : Nat} {a : α} {b : β}, l[j]? = some a → l'[j]? = some b → P a b := by
  induction h with
  | nil => intro j a b h; simp at h
  | cons h0 _ ih =>
    intro j a b h1 h2
    cases j with
    | zero => simp at h1 h2; subst h1; subst h2; exact h0
    | succ j => simp at h1 h2; exact ih h1 h2

/-! ### C53 -/

/-- C53 is false for every COSE_Encrypt message that is received with key-wrapping recipients.  `encode(encrypt=False)` wraps
what the recipients carry once more: the message decodes with the same headers and the same ciphertext, but whoever unwraps
the key of a recipient obtains the ciphertext that the recipient carried before, instead of the content key. -/
theorem c53_enc_wrapped_refuted {C : Crypto} (L : C.Laws) {R : Rand} {cls : DecCls} {allow : Bool} {received out : Bytes} {m m1 : Enc}
    {rs : List Rcpt} (hdec : decode C cls allow received = .ok (.enc m)) (hu : Spec.PlainHeader C m.base.uhdr) (hne : m.recipients ≠ [])
    (hr : ∀ r ∈ m.recipients, Spec.PlainHeader C r.base.uhdr ∧ ∃ c, Spec.CarriesWrapped r c)
    (hrs : All2 Spec.HasBeenKeyed m.recipients rs) (k : Option Key) (x : Bytes)
    (h : Enc.encode C R { base := m.base.using k x, recipients := rs } true false = .ok (out, m1)) :
    ∃ m', decode C cls allow out = .ok (.enc m') ∧ Spec.SameContent m.base m'.base ∧
      m'.recipients.length = m.recipients.length ∧
      ∀ (j : Nat) (r r1 r' : Rcpt), m.recipients[j]? = some r → rs[j]? = some r1 → m'.recipients[j]? = some r' →
        r'.cls = r.cls ∧ r'.base.phdr = r.base.phdr ∧ r'.base.uhdr = r.base.uhdr ∧
        ∀ rk la, Spec.Unwraps C r1 r1.base.uhdr rk la → ∃ c, r.base.payload = some c ∧ rcptDecrypt C (r'.receiver rk la) = .ok c := by
  obtain ⟨n, obj, ho, hk, hf, hc⟩ := decode_obj hdec
  simp only [Msg.kind, fromObj, Enc.fromObj, bind_eq_ok] at hf
  obtain ⟨m0, ⟨⟨b, rest⟩, h1, h3⟩, h4⟩ := hf
  simp at h4; subst h4
  simp only at h3
  split at h3
  rotate_left
  · split at h3 <;> simp at h3
    subst h3
    simp at hne
  rename_i rs0 hrs0
  simp at h3; subst h3
  dsimp only at hne hr hrs hu h
  obtain ⟨v, rest', l, rfl, hl, hcr⟩ := recipientsOf_ok hrs0
  have hv : PyOK v := by
    obtain ⟨_, _, rfl, _⟩ := baseFromObj_iff.mp h1
    exact pyokl_mem ho _ (by simp)
  have hsr := sendable_recipients (tstr := b.tstr) (iterRecipients_ok hv hl) hcr (fun r hh => (hr r hh).1)
  have hall : All2 (fun (a : Rcpt × Rcpt) r1 => ∀ p v r2, rcptEncode C R p r1 = .ok (v, r2) → ∃ w, Sent (.base b.tstr) v w ∧
      ∀ ctx oid, ∃ r', createRecipient C allow ctx oid w = .ok r' ∧ r'.oid = oid ∧
      (r'.cls = a.1.cls ∧ r'.base.phdr = a.1.base.phdr ∧ r'.base.uhdr = a.1.base.uhdr ∧
        ∀ rk la, Spec.Unwraps C a.2 a.2.base.uhdr rk la → ∃ c, a.1.base.payload = some c ∧
          rcptDecrypt C (r'.receiver rk la) = .ok c))
      (rs0.zip rs) rs := by
    clear h hcr hrs0 hne hdec hk hc
    induction hrs with
    | nil => exact .nil
    | @cons r r1 t t1 h0 _ ih =>
      refine .cons ?_ (ih (fun r hh => hr r (List.mem_cons_of_mem _ hh)) (fun r hh => hsr r (List.mem_cons_of_mem _ hh)))
      intro p v r2 he
      obtain ⟨kk, ll, rfl⟩ := h0
      obtain ⟨_, c, hcw⟩ := hr r (by simp)
      have hs := hsr r (by simp)
      obtain ⟨cls, rb, rctx, roid, rrs⟩ := r
      obtain ⟨w, hw, hrec⟩ := kw_rewrapped (r := Rcpt.receiver (.mk cls rb rctx roid rrs) kk ll) (cek := c) L ⟨hs.prot, hs.unprot⟩ hcw he
      refine ⟨w, hw, fun ctx oid => ?_⟩
      obtain ⟨r', g1, g2, g3, _, g5, g6, g7⟩ := hrec ctx oid
      exact ⟨r', g1, g2, g3, g5, g6, fun rk la hw => ⟨c, hcw.2.2.1, g7 rk la hw⟩⟩
  have hsend := sendable_received (tstr := b.tstr) ho h1 hu k x
  obtain ⟨pe, v', m2, tl, hpe, hc', hfin, ht⟩ := enc_encode_inv h
  rw [phdrEncoded_using] at hpe
  rcases hc' with ⟨h0, _⟩ | ⟨_, rfl, rfl⟩
  · simp at h0
  have hlen := all2_length hrs
  rcases ht with ⟨h0, _⟩ | ⟨_, vs, rs2, he, rfl, _⟩
  · simp only at h0
    rw [h0] at hlen
    simp only [List.length_nil] at hlen
    exact absurd (List.length_eq_zero_iff.mp hlen.symm) hne
  obtain ⟨ws, hws, hrec⟩ := rcptsEncode_received hall he
  obtain ⟨rs', hcr', hall'⟩ := hrec b!"Enc_Recipient" 0
  obtain ⟨w, hw, hb⟩ := received_base hsend hpe
  have hfo := enc_fromObj_rs (hb b.payload [.arr ws]) hcr'
  have hdec' := finish_decode (C := C) (allow := allow) (cls := cls) (k := .enc) (t := 96) rfl hc
    (.cons sent_bytes (.cons hw (.cons sent_opt (.cons (sent_arr hws) .nil)))) hfin
    (m := .enc { base := recvBase pe b.phdr b.uhdr b.payload, recipients := rs' })
    (by simp only [fromObj]; exact congrArg (fun r => r >>= fun m => Except.ok (Msg.enc m)) hfo) []
  rw [List.append_nil] at hdec'
  refine ⟨_, hdec', ⟨rfl, rfl, rfl, hpe.symm⟩, ?_, ?_⟩
  · have := all2_length hall'
    rw [List.length_zip] at this
    simp only; omega
  · intro j r r1 r' g1 g2 g3
    exact all2_getElem hall' (a := (r, r1)) (List.getElem?_zip_eq_some.mpr ⟨g1, g2⟩) g3

/-- A recipient of another class than direct encryption cannot be encoded as it is received. -/
theorem received_rcpt_stuck {C : Crypto} {R : Rand} {allow : Bool} {obj rest : List Val} {r : Rcpt} {cls : RCls} {ctx : Bytes} {oid : Nat}
    (hb : baseFromObj C obj allow = .ok (r.base, rest)) (hr : r = .mk cls r.base ctx oid []) (hd : r.cls ≠ .directEncryption)
    (p : List Nat) (x : Val × Rcpt) : rcptEncode C R p r ≠ .ok x := by
  obtain ⟨_, _, _, _, _, _, hk, _, hla⟩ := baseFromObj_iff.mp hb
  intro h
  generalize r.base = b at hk hla hr
  subst hr
  obtain ⟨v, r2⟩ := x
  obtain ⟨head, b', hh, _, _⟩ := rcptEncode_flat rfl h
  have hpeer : getD b.localAttrs Hdr.StaticKey .none = .none := by rw [hla]; rfl
  cases cls with
  | directEncryption => exact hd rfl
  | keyWrap =>
    simp only [rcptHead, bind_eq_ok] at hh
    obtain ⟨_, _, c, hc, _⟩ := hh
    unfold kwEncrypt at hc
    obtain ⟨alg, _, hc⟩ := bind_eq_ok.mp hc
    split at hc
    · simp at hc
    split at hc
    · simp at hc
    obtain ⟨isKw, _, hc⟩ := bind_eq_ok.mp hc
    split at hc
    · simp [kwKekEncrypt, hk] at hc
    obtain ⟨isRsa, _, hc⟩ := bind_eq_ok.mp hc
    split at hc <;> simp [hk] at hc
  | directKeyAgreement =>
    simp only [rcptHead, bind_eq_ok, hpeer, if_true] at hh
    obtain ⟨_, _, hh⟩ := hh
    split at hh <;> simp at hh
  | keyAgreementWithKeyWrap =>
    simp only [rcptHead, bind_eq_ok, kakwEncrypt, hpeer, if_true, reduceCtorEq, false_and, exists_false, and_false] at hh

theorem rcptsEncode_all {C : Crypto} {R : Rand} {p : List Nat} {rs rs2 : List Rcpt} {vs : List Val} {i : Nat}
    (h : rcptsEncode C R p i rs = .ok (vs, rs2)) : ∀ r ∈ rs, ∃ q x, rcptEncode C R q r = .ok x := by
  induction rs generalizing i vs rs2 with
  | nil => simp
  | cons r t ih =>
    simp only [rcptsEncode, bind_eq_ok] at h
    obtain ⟨x, h1, y, h2, _⟩ := h
    intro r' hr'
    rcases List.mem_cons.mp hr' with rfl | hr'
    · exact ⟨_, _, h1⟩
    · exact ih h2 r' hr'

/-- C53 is false for every COSE_Encrypt message with a recipient of another class than direct encryption: as it is received, before
keys have been set for its recipients, it cannot be encoded again. -/
theorem c53_enc_untouched_refuted {C : Crypto} {cls : DecCls} {allow : Bool} {received : Bytes} {m : Enc}
    (hdec : decode C cls allow received = .ok (.enc m)) {r : Rcpt} (hr : r ∈ m.recipients) (hd : r.cls ≠ .directEncryption)
    (R : Rand) (k : Option Key) (a : Bytes) (tag : Bool) (x : Bytes × Enc) :
    Enc.encode C R { m with base := m.base.using k a } tag false ≠ .ok x := by
  intro h
  obtain ⟨n, obj, ho, hk, hf, hc⟩ := decode_obj hdec
  simp only [Msg.kind, fromObj, Enc.fromObj, bind_eq_ok] at hf
  obtain ⟨m0, ⟨⟨b, rest⟩, h1, h3⟩, h4⟩ := hf
  simp at h4; subst h4
  simp only at h3
  split at h3
  rotate_left
  · split at h3 <;> simp at h3
    subst h3
    simp at hr
  rename_i rs hrs
  simp at h3; subst h3
  obtain ⟨v, rest', l, rfl, hl, hcr⟩ := recipientsOf_ok hrs
  obtain ⟨w, _, obj', rest'', c', oid, _, hb, hre⟩ := all2_mem_right (createRecipients_all2 hcr) hr
  obtain ⟨out, m1⟩ := x
  obtain ⟨pe, v', m2, tl, hpe, hc', hfin, ht⟩ := enc_encode_inv h
  rcases hc' with ⟨h0, _⟩ | ⟨_, rfl, rfl⟩
  · simp at h0
  rcases ht with ⟨h0, _⟩ | ⟨_, vs, rs2, he, _, _⟩
  · simp only at h0
    subst h0
    cases hr
  obtain ⟨q, y, hy⟩ := rcptsEncode_all he r hr
  exact received_rcpt_stuck hb hre hd q y hy

/-- The same for COSE_Mac. -/
theorem c53_mac_untouched_refuted {C : Crypto} {cls : DecCls} {allow : Bool} {received : Bytes} {m : Mac} {rs : List Rcpt}
    (hdec : decode C cls allow received = .ok (.mac m)) (hrs : m.recipients = some rs) {r : Rcpt} (hr : r ∈ rs)
    (hd : r.cls ≠ .directEncryption) (R : Rand) (k : Option Key) (a : Bytes) (tag : Bool) (x : Bytes × Mac) :
    Mac.encode C R { m with base := m.base.using k a } tag false ≠ .ok x := by
  intro h
  obtain ⟨n, obj, ho, hk, hf, hc⟩ := decode_obj hdec
  simp only [Msg.kind, fromObj, Mac.fromObj, bind_eq_ok] at hf
  obtain ⟨m0, ⟨⟨b, rest⟩, h1, ⟨t, rest1⟩, hp, h3⟩, h4⟩ := hf
  simp at h4; subst h4
  simp only at h3 hp
  split at h3
  rotate_left
  · split at h3 <;> simp at h3
    subst h3
    simp at hrs
  rename_i rs0 hrs0
  simp at h3; subst h3
  simp only [Option.some.injEq] at hrs
  subst hrs
  obtain ⟨v, rest', l, rfl, hl, hcr⟩ := recipientsOf_ok hrs0
  obtain ⟨w, _, obj', rest'', c', oid, _, hb, hre⟩ := all2_mem_right (createRecipients_all2 hcr) hr
  obtain ⟨out, m1⟩ := x
  obtain ⟨pe, m2, tl0, tl, rs1, hpe, hc', hfin, hr1, ht⟩ := mac_encode_inv h
  rcases hc' with ⟨h0, _⟩ | ⟨_, rfl, rfl⟩
  · simp at h0
  simp only [Option.some.injEq] at hr1
  subst hr1
  rcases ht with ⟨rfl, _⟩ | ⟨_, vs, rs2, he, _, _⟩
  · cases hr
  obtain ⟨q, y, hy⟩ := rcptsEncode_all he r hr
  exact received_rcpt_stuck hb hre hd q y hy

/-- The received sample message with key-wrap recipients, encoded again after the keys of its recipients have been set, and what is
decoded from the result. -/
def Sample.encRewrapped : Res (Enc × Enc) := do
  let r ← Sample.encKw.encode toy Sample.rand true true
  let m ← Sample.encOf (.ok r.1)
  let o ← Enc.encode toy Sample.rand { m with recipients := m.recipients.map (·.receiver Sample.symKey []) } true false
  let m' ← Sample.encOf (.ok o.1)
  .ok (m, m')

/-- Its recipients meet the hypotheses. -/
example : (Sample.encRewrapped.map fun t => t.1.recipients.length == 2 && t.1.recipients.all fun r =>
    r.cls == .keyWrap && r.recipients.isEmpty && r.base.payload.isSome && r.base.getAttr Hdr.Algorithm == .ok (algCls (-3))) = .ok true := by
  decide +kernel

/-- The recipients of the result unwrap what the received recipients carried. -/
example : (Sample.encRewrapped.map fun t => (t.2.recipients.zip t.1.recipients).map fun r =>
    (rcptDecrypt toy (r.1.receiver Sample.symKey [])).map some == .ok r.2.base.payload) = .ok [true, true] := by decide +kernel

/-- The received sample message with key-wrap recipients, as it is. -/
example : (do
    let r ← Sample.encKw.encode toy Sample.rand true true
    let m ← Sample.encOf (.ok r.1)
    .ok (m.recipients.map (fun r => decide (r.cls = .directEncryption)), (m.encode toy Sample.rand true false).isOk) :
      Res (List Bool × Bool)) = .ok ([false, false], false) := by decide +kernel

end Cose
