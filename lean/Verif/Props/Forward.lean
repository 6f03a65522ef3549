import Verif.Props.ReencodeWrap
/-!
# Forwarding a message any number of times (C100)

A node that forwards decodes what it receives, may set a key and external data in order to check it, and sends it on with
`encode(sign=False)` or `encode(encrypt=False)`.
-/
set_option autoImplicit false
namespace Cose

/-! ### Specification -/

/-- `y` is what a node sends on that has received the COSE_Sign1 message `x`, for some key `k`, external data `a`, detached payload
`d` and randomness. -/
def Spec.Sign1Hop (C : Crypto) (cls : DecCls) (allow : Bool) (x y : Bytes) : Prop :=
  ∃ m rnd d k a, decode C cls allow x = .ok (.sign1 m) ∧
    Sign1.encode C rnd { m with base := m.base.using k a } true false d = .ok y

/-- The same for COSE_Encrypt0. -/
def Spec.Enc0Hop (C : Crypto) (cls : DecCls) (allow : Bool) (x y : Bytes) : Prop :=
  ∃ m k a, decode C cls allow x = .ok (.enc0 m) ∧ Enc0.encode C { m with base := m.base.using k a } true false = .ok y

/-- The same for COSE_Encrypt. -/
def Spec.EncHop (C : Crypto) (cls : DecCls) (allow : Bool) (x y : Bytes) : Prop :=
  ∃ m m1 R k a, decode C cls allow x = .ok (.enc m) ∧ Enc.encode C R { m with base := m.base.using k a } true false = .ok (y, m1)

/-- `y` arrives when `x` is sent and any number of nodes forward. -/
inductive Spec.Forwarded (hop : Bytes → Bytes → Prop) (x : Bytes) : Bytes → Prop
  | sent : Forwarded hop x x
  | hop {y z : Bytes} : Forwarded hop x y → hop y z → Forwarded hop x z

/-! ### Lemmas -/

theorem sameContent_refl (b : Base) : Spec.SameContent b b := ⟨rfl, rfl, rfl, rfl⟩

theorem sameContent_trans {a b c : Base} (h : Spec.SameContent a b) (h' : Spec.SameContent b c) : Spec.SameContent a c :=
  ⟨h'.phdr.trans h.phdr, h'.uhdr.trans h.uhdr, h'.payload.trans h.payload, h'.encoded.trans h.encoded⟩

theorem same_getAttr {b b' : Base} (h : Spec.SameContent b b') (k : Option Key) (a : Bytes) (q : Cls) :
    (b'.using k a).getAttr q = (b.using k a).getAttr q := by
  exact getAttr_congr h.phdr (congrArg (fun d => dget d (.cls q)) h.uhdr)

theorem same_structure {b b' : Base} (h : Spec.SameContent b b') (k : Option Key) (a : Bytes) :
    (b'.using k a).baseStructure = (b.using k a).baseStructure := by
  have e : (b'.using k a).phdr.length = (b.using k a).phdr.length := congrArg List.length h.phdr
  unfold Base.baseStructure
  by_cases hl : (b.using k a).phdr.length = 0
  · rw [if_pos hl, if_pos (e.trans hl)]; rfl
  · rw [if_neg hl, if_neg (by rw [e]; exact hl), phdrEncoded_using, phdrEncoded_using, h.encoded]; rfl

theorem same_verify {C : Crypto} {m m' : Sign1} (h : Spec.SameContent m.base m'.base) (hs : m'.signature = m.signature)
    (k : Option Key) (a : Bytes) (d : Option Bytes) :
    Sign1.verifySignature C { m' with base := m'.base.using k a } d = Sign1.verifySignature C { m with base := m.base.using k a } d := by
  have hp : (m'.base.using k a).payload = (m.base.using k a).payload := h.payload
  simp only [Sign1.verifySignature, verifySignature, Sign1.sigStructure, same_getAttr h, same_structure h, hs, hp]
  rfl

theorem same_decrypt {C : Crypto} {ctx : Bytes} {b b' : Base} (h : Spec.SameContent b b') (k : Option Key) (a : Bytes) :
    encDecrypt C ctx (b'.using k a) = encDecrypt C ctx (b.using k a) := by
  have hp : (b'.using k a).payload = (b.using k a).payload := h.payload
  have hn : getNonce (b'.using k a) = getNonce (b.using k a) := by
    simp only [getNonce, same_getAttr h]
    rfl
  simp only [encDecrypt, same_getAttr h, hn, hp, encStructure, same_structure h]
  rfl

theorem decoded_tstr {C : Crypto} {obj rest : List Val} {allow : Bool} {b : Base} (h : baseFromObj C obj allow = .ok (b, rest)) :
    b.tstr = false := by
  obtain ⟨_, _, _, _, _, _, _, h, _⟩ := baseFromObj_iff.mp h
  exact h

theorem sign1_tstr {C : Crypto} {cls : DecCls} {allow : Bool} {x : Bytes} {m : Sign1} (h : decode C cls allow x = .ok (.sign1 m)) :
    m.base.tstr = false := by
  obtain ⟨n, obj, ho, hk, hf, hc⟩ := decode_obj h
  simp only [Msg.kind, fromObj, Sign1.fromObj, bind_eq_ok] at hf
  obtain ⟨m0, ⟨⟨b, r⟩, h1, ⟨s, r'⟩, h2, h3⟩, h4⟩ := hf
  simp at h4; subst h4
  simp at h3; subst h3
  exact decoded_tstr h1

theorem enc0_tstr {C : Crypto} {cls : DecCls} {allow : Bool} {x : Bytes} {m : Enc0} (h : decode C cls allow x = .ok (.enc0 m)) :
    m.base.tstr = false := by
  obtain ⟨n, obj, ho, hk, hf, hc⟩ := decode_obj h
  simp only [Msg.kind, fromObj, Enc0.fromObj, bind_eq_ok] at hf
  obtain ⟨m0, ⟨⟨b, r⟩, h1, h3⟩, h4⟩ := hf
  simp at h4; subst h4
  simp at h3; subst h3
  exact decoded_tstr h1

theorem same_finish {b b' : Base} (h : b'.tstr = b.tstr) (k k' : Option Key) (a a' : Bytes) (t : Nat) (tag : Bool) (l : List Val) :
    (b'.using k' a').finish t tag l = (b.using k a).finish t tag l := by
  simp only [Base.finish, Base.mode, Base.using, h]

theorem sign1_again {C : Crypto} {m m' : Sign1} (h : Spec.SameContent m.base m'.base) (hs : m'.signature = m.signature)
    (ht : m'.base.tstr = m.base.tstr) (k k' : Option Key) (a a' : Bytes) (r r' : Bytes) (d d' : Option Bytes) :
    Sign1.encode C r' { m' with base := m'.base.using k' a' } true false d' =
      Sign1.encode C r { m with base := m.base.using k a } true false d := by
  have hp : ∀ k' a', (m'.base.using k' a').payload = (m.base.using k a).payload := fun _ _ => h.payload
  have hu : ∀ k' a', (m'.base.using k' a').uhdr = (m.base.using k a).uhdr := fun _ _ => h.uhdr
  simp only [Sign1.encode, phdrEncoded_using, h.encoded, hp, hu, hs, Bool.false_eq_true, if_false, same_finish ht k k' a a']

theorem enc0_again {C : Crypto} {m m' : Enc0} (h : Spec.SameContent m.base m'.base) (ht : m'.base.tstr = m.base.tstr)
    (k k' : Option Key) (a a' : Bytes) :
    Enc0.encode C { m' with base := m'.base.using k' a' } true false = Enc0.encode C { m with base := m.base.using k a } true false := by
  have hp : ∀ k' a', (m'.base.using k' a').payload = (m.base.using k a).payload := fun _ _ => h.payload
  have hu : ∀ k' a', (m'.base.using k' a').uhdr = (m.base.using k a).uhdr := fun _ _ => h.uhdr
  simp only [Enc0.encode, phdrEncoded_using, h.encoded, hp, hu, Bool.false_eq_true, if_false, same_finish ht k k' a a']

/-- What arrives for a direct recipient that is sent on: the bytes of its protected header included. -/
theorem direct_forwarded {C : Crypto} {R : Rand} {tstr allow : Bool} {r : Rcpt} (hr : Spec.DirectRecipient r)
    (hs : Spec.Sendable C tstr allow r.base r.base.phdr r.base.uhdr) {p : List Nat} {v : Val} {r2 : Rcpt}
    (h : rcptEncode C R p r = .ok (v, r2)) :
    ∃ w, Sent (.base tstr) v w ∧ ∀ ctx oid, ∃ r', createRecipient C allow ctx oid w = .ok r' ∧ r'.oid = oid ∧
      (Spec.DirectRecipient r' ∧ r'.base.payload = some [] ∧ r'.base.phdr = r.base.phdr ∧ r'.base.uhdr = r.base.uhdr ∧
        r'.base.phdrEncoded = r.base.phdrEncoded ∧ ∀ R' p', ∃ r2', rcptEncode C R' p' r' = .ok (v, r2')) := by
  obtain ⟨cls, b, rctx, roid, rs⟩ := r
  obtain ⟨h1, h2, i, h3, h4⟩ := hr
  simp only [Rcpt.cls, Rcpt.recipients, Rcpt.base] at h1 h2 h3 hs
  subst h1 h2
  obtain ⟨head, b', hh, rfl, rfl⟩ := rcptEncode_flat rfl h
  simp only [rcptHead, h3, ok_bind] at hh
  split at hh
  · simp at hh
  rename_i hphd
  split at hh
  · simp at hh
  rename_i hnn
  split at hh
  · simp at hh
  obtain ⟨pe, hpe, hh⟩ := bind_eq_ok.mp hh
  simp only [Except.ok.injEq, Prod.mk.injEq] at hh
  obtain ⟨rfl, rfl⟩ := hh
  have hc : rcptClass (algCls i) = .ok .directEncryption := by
    simp at h4; rcases h4 with rfl | rfl | rfl <;> rfl
  obtain ⟨w, hw, hrec⟩ := recv_rcpt hs hpe h3 hc
  refine ⟨.arr [.bytes pe, .map w, .bytes []], sent_arr (.cons sent_bytes (.cons hw (.cons sent_bytes .nil))), ?_⟩
  intro ctx oid
  obtain ⟨e1, e2, e3⟩ := hrec ctx oid []
  refine ⟨.mk .directEncryption (recvBase pe b.phdr b.uhdr (some [])) ctx oid [], ?_, rfl, ⟨rfl, rfl, i, e3, h4⟩, rfl, rfl, rfl,
    hpe.symm, fun R' p' => ⟨.mk .directEncryption (recvBase pe b.phdr b.uhdr (some [])) ctx oid [], ?_⟩⟩
  · rw [e1]
    simp only [rcptFromObj, e2, ok_bind, e3]
    rw [if_neg (by simp [recvBase]), if_neg]
    simpa [recvBase] using hphd
  · simp only [rcptEncode, rcptHead, e3, ok_bind]
    rw [if_neg (by simpa [recvBase] using hphd), if_neg hnn]
    rfl

/-- What a direct recipient and the one that arrives for it have in common. -/
structure Spec.SameDirect (r r' : Rcpt) : Prop where
  direct : Spec.DirectRecipient r'
  phdr : r'.base.phdr = r.base.phdr
  uhdr : r'.base.uhdr = r.base.uhdr
  payload : r'.base.payload = some []
  encoded : r'.base.phdrEncoded = r.base.phdrEncoded

theorem rcptsEncode_direct {C : Crypto} {R : Rand} {vs : List Val} {rs : List Rcpt}
    (h : All2 (fun v r => ∀ R' p', ∃ r2', rcptEncode C R' p' r = .ok (v, r2')) vs rs) :
    ∀ i, ∃ rs2, rcptsEncode C R [] i rs = .ok (vs, rs2) := by
  induction h with
  | nil => intro i; exact ⟨[], by simp [rcptsEncode]⟩
  | cons h0 _ ih =>
    intro i
    obtain ⟨r2, e⟩ := h0 R ([] ++ [i])
    obtain ⟨t2, e'⟩ := ih (i + 1)
    exact ⟨r2 :: t2, by simp only [rcptsEncode, e, e', ok_bind]⟩

theorem rcptsEncode_forwarded {C : Crypto} {R : Rand} {tstr allow : Bool} {rs : List Rcpt}
    (hr : ∀ r ∈ rs, Spec.DirectRecipient r ∧ Spec.Sendable C tstr allow r.base r.base.phdr r.base.uhdr) :
    ∀ {i : Nat} {vs : List Val} {rs2 : List Rcpt}, rcptsEncode C R [] i rs = .ok (vs, rs2) →
      ∃ ws, All2 (Sent (.base tstr)) vs ws ∧ ∀ ctx oid, ∃ rs', createRecipients C allow ctx oid ws = .ok rs' ∧
        All2 Spec.SameDirect rs rs' ∧ All2 (fun v r => ∀ R' p', ∃ r2', rcptEncode C R' p' r = .ok (v, r2')) vs rs' := by
  induction rs with
  | nil =>
    intro i vs rs2 h
    simp only [rcptsEncode] at h
    simp at h
    obtain ⟨rfl, rfl⟩ := h
    exact ⟨[], .nil, fun _ _ => ⟨[], rfl, .nil, .nil⟩⟩
  | cons r t ih =>
    intro i vs rs2 h
    simp only [rcptsEncode, bind_eq_ok] at h
    obtain ⟨⟨v, r2⟩, h1, ⟨vs', t2⟩, h2, h3⟩ := h
    simp at h3
    obtain ⟨rfl, rfl⟩ := h3
    obtain ⟨w, hw, hc⟩ := direct_forwarded (hr r (by simp)).1 (hr r (by simp)).2 h1
    obtain ⟨ws, hws, hcs⟩ := ih (fun r hh => hr r (List.mem_cons_of_mem _ hh)) h2
    refine ⟨w :: ws, .cons hw hws, ?_⟩
    intro ctx oid
    obtain ⟨r', g1, _, g3, g3', g4, g5, g6, g7⟩ := hc ctx oid
    obtain ⟨rs', g8, g9, g10⟩ := hcs ctx (oid + 1)
    exact ⟨r' :: rs', by simp only [createRecipients, g1, ok_bind, g8], .cons ⟨g3, g4, g5, g3', g6⟩ g9, .cons g7 g10⟩

/-- One node that forwards a COSE_Encrypt message with direct recipients. -/
theorem enc_hop {C : Crypto} {R : Rand} {cls : DecCls} {allow : Bool} {x y : Bytes} {m m1 : Enc}
    (hdec : decode C cls allow x = .ok (.enc m)) (hu : Spec.PlainHeader C m.base.uhdr)
    (hr : ∀ r ∈ m.recipients, Spec.DirectRecipient r ∧ Spec.PlainHeader C r.base.uhdr) (k : Option Key) (a : Bytes)
    (h : Enc.encode C R { m with base := m.base.using k a } true false = .ok (y, m1)) :
    ∃ m', decode C cls allow y = .ok (.enc m') ∧ Spec.SameContent m.base m'.base ∧ All2 Spec.SameDirect m.recipients m'.recipients ∧
      ∀ R' k' a', ∃ m2, Enc.encode C R' { m' with base := m'.base.using k' a' } true false = .ok (y, m2) := by
  obtain ⟨n, obj, ho, hk, hf, hc⟩ := decode_obj hdec
  simp only [Msg.kind, fromObj, Enc.fromObj, bind_eq_ok] at hf
  obtain ⟨m0, ⟨⟨b, rest⟩, h1, h3⟩, h4⟩ := hf
  simp at h4; subst h4
  simp only at h3
  have hb0 : m0.base = b := by
    split at h3
    · simp at h3; rw [← h3]
    · split at h3 <;> simp at h3
      rw [← h3]
  have hsr : ∀ r ∈ m0.recipients, Spec.DirectRecipient r ∧ Spec.Sendable C b.tstr allow r.base r.base.phdr r.base.uhdr := by
    split at h3
    rotate_left
    · split at h3 <;> simp at h3
      subst h3
      intro r hh; cases hh
    rename_i rs hrs
    simp at h3; subst h3
    obtain ⟨v, rest', l, rfl, hl, hcr⟩ := recipientsOf_ok hrs
    have hv : PyOK v := by
      obtain ⟨_, _, rfl, _⟩ := baseFromObj_iff.mp h1
      exact pyokl_mem ho _ (by simp)
    have hsr := sendable_recipients (tstr := b.tstr) (iterRecipients_ok hv hl) hcr (fun r hh => (hr r hh).2)
    exact fun r hh => ⟨(hr r hh).1, hsr r hh⟩
  clear h3
  obtain ⟨mb, rs⟩ := m0
  simp only at hb0
  subst hb0
  simp only at hu hr hsr h
  have htstr := decoded_tstr h1
  have hsend := sendable_received (tstr := mb.tstr) ho h1 hu k a
  have halg : rs ≠ [] → ∃ al, mb.getAttr Hdr.Algorithm = .ok al := by
    intro hne
    have hie : rs.isEmpty = false := by cases rs <;> simp at hne ⊢
    simp only [Enc.encode, Bool.false_eq_true, if_false, bind_eq_ok] at h
    obtain ⟨_, _, ⟨_, e⟩, h5, h⟩ := h
    simp only [Except.ok.injEq, Prod.mk.injEq] at h5
    obtain ⟨_, rfl⟩ := h5
    simp only [hie, Bool.false_eq_true, if_false, bind_eq_ok] at h
    obtain ⟨al, h6, _⟩ := h
    exact ⟨al, h6⟩
  obtain ⟨pe, v', m2, tl, hpe, hc', hfin, ht⟩ := enc_encode_inv h
  simp only at hpe
  rw [phdrEncoded_using] at hpe
  rcases hc' with ⟨h0, _⟩ | ⟨_, rfl, rfl⟩
  · simp at h0
  obtain ⟨w, hw, hb⟩ := received_base hsend hpe
  have again : ∀ (rs' : List Rcpt) (R' : Rand) (k' : Option Key) (a' : Bytes),
      (tl = [] ∧ rs' = [] ∨ ∃ vs rs2', tl = [.arr vs] ∧ rs' ≠ [] ∧ rcptsEncode C R' [] 0 rs' = .ok (vs, rs2')) →
      ∃ m2, Enc.encode C R' { base := (recvBase pe mb.phdr mb.uhdr mb.payload).using k' a', recipients := rs' } true false = .ok (y, m2) := by
    intro rs' R' k' a' ht'
    have hf' : ∀ l, ((recvBase pe mb.phdr mb.uhdr mb.payload).using k' a').finish 96 true l = (mb.using k a).finish 96 true l :=
      fun l => same_finish (b := mb) (b' := recvBase pe mb.phdr mb.uhdr mb.payload) htstr.symm k k' a a' 96 true l
    have hfin' : (mb.using k a).finish 96 true ([.bytes pe, .map mb.uhdr, optBytes mb.payload] ++ tl) = .ok y := hfin
    have e1 : ((recvBase pe mb.phdr mb.uhdr mb.payload).using k' a').phdrEncoded = .ok pe := rfl
    rcases ht' with ⟨rfl, rfl⟩ | ⟨vs, rs2', rfl, hne, he⟩
    · refine ⟨{ base := (recvBase pe mb.phdr mb.uhdr mb.payload).using k' a', recipients := [] }, ?_⟩
      simp only [Enc.encode, e1, ok_bind, Bool.false_eq_true, if_false, List.isEmpty_nil, if_true]
      simp only [hf']
      simp only [List.append_nil] at hfin'
      change (do
        let out ← (mb.using k a).finish 96 true [.bytes pe, .map mb.uhdr, optBytes mb.payload]
        Except.ok (out, _)) = _
      rw [hfin']; rfl
    · have hie : rs'.isEmpty = false := by cases rs' <;> simp at hne ⊢
      have hg : ∃ al, ((recvBase pe mb.phdr mb.uhdr mb.payload).using k' a').getAttr Hdr.Algorithm = .ok al := by
        obtain ⟨al, h5⟩ := halg (by rintro rfl; rcases ht with ⟨_, h6, _⟩ | ⟨h6, _⟩ <;> simp at h6)
        exact ⟨al, h5⟩
      obtain ⟨al, hg⟩ := hg
      refine ⟨{ base := (recvBase pe mb.phdr mb.uhdr mb.payload).using k' a', recipients := rs2' }, ?_⟩
      simp only [Enc.encode, e1, ok_bind, Bool.false_eq_true, if_false, hie, hg, he]
      simp only [hf']
      change (do
        let out ← (mb.using k a).finish 96 true [.bytes pe, .map mb.uhdr, optBytes mb.payload, .arr vs]
        Except.ok (out, _)) = _
      rw [show (mb.using k a).finish 96 true [.bytes pe, .map mb.uhdr, optBytes mb.payload, .arr vs] = .ok y from hfin']; rfl
  rcases ht with ⟨h0, rfl, _⟩ | ⟨hne, vs, rs2, he, rfl, _⟩
  · simp only at h0
    subst h0
    have hdec' := finish_decode (C := C) (allow := allow) (cls := cls) (k := .enc) (t := 96) rfl hc
      (.cons sent_bytes (.cons hw (.cons sent_opt .nil))) hfin
      (m := .enc { base := recvBase pe mb.phdr mb.uhdr mb.payload, recipients := [] })
      (by simp only [fromObj]; exact congrArg (fun r => r >>= fun m => Except.ok (Msg.enc m)) (enc_fromObj_none (hb mb.payload []))) []
    rw [List.append_nil] at hdec'
    exact ⟨_, hdec', ⟨rfl, rfl, rfl, hpe.symm⟩, .nil, fun R' k' a' => again [] R' k' a' (.inl ⟨rfl, rfl⟩)⟩
  · simp only at he hne
    obtain ⟨ws, hws, hrec⟩ := rcptsEncode_forwarded hsr he
    obtain ⟨rs', hcr', hall', hvs⟩ := hrec b!"Enc_Recipient" 0
    have hfo := enc_fromObj_rs (hb mb.payload [.arr ws]) hcr'
    have hdec' := finish_decode (C := C) (allow := allow) (cls := cls) (k := .enc) (t := 96) rfl hc
      (.cons sent_bytes (.cons hw (.cons sent_opt (.cons (sent_arr hws) .nil)))) hfin
      (m := .enc { base := recvBase pe mb.phdr mb.uhdr mb.payload, recipients := rs' })
      (by simp only [fromObj]; exact congrArg (fun r => r >>= fun m => Except.ok (Msg.enc m)) hfo) []
    rw [List.append_nil] at hdec'
    refine ⟨_, hdec', ⟨rfl, rfl, rfl, hpe.symm⟩, hall', fun R' k' a' => again rs' R' k' a' (.inr ?_)⟩
    obtain ⟨rs2', e⟩ := rcptsEncode_direct (R := R') hvs 0
    refine ⟨vs, rs2', rfl, ?_, e⟩
    rintro rfl
    exact hne (List.length_eq_zero_iff.mp (all2_length hall').symm)

/-! ### C100 -/

/-- C100 for COSE_Sign1: whatever number of nodes forward a message, it arrives with the same headers, payload and signature,
and every verification has the outcome that it has where the message was sent from. -/
theorem c100_sign1_content {C : Crypto} {cls : DecCls} {allow : Bool} {x y : Bytes} {m : Sign1}
    (hdec : decode C cls allow x = .ok (.sign1 m)) (hu : Spec.PlainHeader C m.base.uhdr) (hs : truthy m.signature = true)
    (h : Spec.Forwarded (Spec.Sign1Hop C cls allow) x y) :
    ∃ m', decode C cls allow y = .ok (.sign1 m') ∧ Spec.SameContent m.base m'.base ∧ m'.signature = m.signature ∧
      ∀ k a d, Sign1.verifySignature C { m' with base := m'.base.using k a } d =
        Sign1.verifySignature C { m with base := m.base.using k a } d := by
  suffices h : ∃ m', decode C cls allow y = .ok (.sign1 m') ∧ Spec.SameContent m.base m'.base ∧ m'.signature = m.signature by
    obtain ⟨m', h1, h2, h3⟩ := h
    exact ⟨m', h1, h2, h3, fun k a d => same_verify h2 h3 k a d⟩
  induction h with
  | sent => exact ⟨m, hdec, sameContent_refl _, rfl⟩
  | hop _ hhop ih =>
    obtain ⟨m', h1, h2, h3⟩ := ih
    obtain ⟨m2, rnd, d, k, a, g1, g2⟩ := hhop
    rw [h1] at g1
    simp only [Except.ok.injEq, Msg.sign1.injEq] at g1
    subst g1
    obtain ⟨m3, e1, e2, e3⟩ := c53_sign1_partial h1 (by rw [h2.uhdr]; exact hu) (by rw [h3]; exact hs) k a g2
    exact ⟨m3, e1, sameContent_trans h2 e2, e3.trans h3⟩

/-- C100 for COSE_Sign1: a message that has been forwarded once can always be forwarded, by a node with any key and external
data, and its bytes do not change any more. -/
theorem c100_sign1_bytes {C : Crypto} {cls : DecCls} {allow : Bool} {x y z : Bytes} {m : Sign1}
    (hdec : decode C cls allow x = .ok (.sign1 m)) (hu : Spec.PlainHeader C m.base.uhdr) (hs : truthy m.signature = true)
    (h : Spec.Sign1Hop C cls allow x y) (hf : Spec.Forwarded (Spec.Sign1Hop C cls allow) y z) :
    z = y ∧ ∃ m', decode C cls allow z = .ok (.sign1 m') ∧
      ∀ rnd d k a, Sign1.encode C rnd { m' with base := m'.base.using k a } true false d = .ok z := by
  obtain ⟨m0, rnd, d, k, a, g1, g2⟩ := h
  rw [hdec] at g1
  simp only [Except.ok.injEq, Msg.sign1.injEq] at g1
  subst g1
  obtain ⟨m1, e1, e2, e3⟩ := c53_sign1_partial hdec hu hs k a g2
  have again : ∀ rnd d k a, Sign1.encode C rnd { m1 with base := m1.base.using k a } true false d = .ok y := fun rnd' d' k' a' =>
    (sign1_again e2 e3 ((sign1_tstr e1).trans (sign1_tstr hdec).symm) k k' a a' rnd rnd' d d').trans g2
  have : z = y := by
    induction hf with
    | sent => rfl
    | hop _ hh ih =>
      subst ih
      obtain ⟨m2, rnd', d', k', a', f1, f2⟩ := hh
      rw [e1] at f1
      simp only [Except.ok.injEq, Msg.sign1.injEq] at f1
      subst f1
      rw [again] at f2
      simpa using f2.symm
  subst this
  exact ⟨rfl, m1, e1, again⟩

/-- C100 for COSE_Encrypt0: the same headers and ciphertext arrive, and every decryption has the same outcome. -/
theorem c100_enc0_content {C : Crypto} {cls : DecCls} {allow : Bool} {x y : Bytes} {m : Enc0}
    (hdec : decode C cls allow x = .ok (.enc0 m)) (hu : Spec.PlainHeader C m.base.uhdr)
    (h : Spec.Forwarded (Spec.Enc0Hop C cls allow) x y) :
    ∃ m', decode C cls allow y = .ok (.enc0 m') ∧ Spec.SameContent m.base m'.base ∧
      ∀ k a, Enc0.decrypt C { m' with base := m'.base.using k a } = Enc0.decrypt C { m with base := m.base.using k a } := by
  suffices h : ∃ m', decode C cls allow y = .ok (.enc0 m') ∧ Spec.SameContent m.base m'.base by
    obtain ⟨m', h1, h2⟩ := h
    exact ⟨m', h1, h2, fun k a => same_decrypt h2 k a⟩
  induction h with
  | sent => exact ⟨m, hdec, sameContent_refl _⟩
  | hop _ hhop ih =>
    obtain ⟨m', h1, h2⟩ := ih
    obtain ⟨m2, k, a, g1, g2⟩ := hhop
    rw [h1] at g1
    simp only [Except.ok.injEq, Msg.enc0.injEq] at g1
    subst g1
    obtain ⟨m3, e1, e2⟩ := c53_enc0_partial h1 (by rw [h2.uhdr]; exact hu) k a g2
    exact ⟨m3, e1, sameContent_trans h2 e2⟩

/-- C100 for COSE_Encrypt0: after the first node the bytes do not change any more, and no node can fail to forward. -/
theorem c100_enc0_bytes {C : Crypto} {cls : DecCls} {allow : Bool} {x y z : Bytes} {m : Enc0}
    (hdec : decode C cls allow x = .ok (.enc0 m)) (hu : Spec.PlainHeader C m.base.uhdr)
    (h : Spec.Enc0Hop C cls allow x y) (hf : Spec.Forwarded (Spec.Enc0Hop C cls allow) y z) :
    z = y ∧ ∃ m', decode C cls allow z = .ok (.enc0 m') ∧
      ∀ k a, Enc0.encode C { m' with base := m'.base.using k a } true false = .ok z := by
  obtain ⟨m0, k, a, g1, g2⟩ := h
  rw [hdec] at g1
  simp only [Except.ok.injEq, Msg.enc0.injEq] at g1
  subst g1
  obtain ⟨m1, e1, e2⟩ := c53_enc0_partial hdec hu k a g2
  have again : ∀ k a, Enc0.encode C { m1 with base := m1.base.using k a } true false = .ok y := fun k' a' =>
    (enc0_again e2 ((enc0_tstr e1).trans (enc0_tstr hdec).symm) k k' a a').trans g2
  have : z = y := by
    induction hf with
    | sent => rfl
    | hop _ hh ih =>
      subst ih
      obtain ⟨m2, k', a', f1, f2⟩ := hh
      rw [e1] at f1
      simp only [Except.ok.injEq, Msg.enc0.injEq] at f1
      subst f1
      rw [again] at f2
      simpa using f2.symm
  subst this
  exact ⟨rfl, m1, e1, again⟩

theorem sameDirect_trans {a b c : Rcpt} (h : Spec.SameDirect a b) (h' : Spec.SameDirect b c) : Spec.SameDirect a c :=
  ⟨h'.direct, h'.phdr.trans h.phdr, h'.uhdr.trans h.uhdr, h'.payload, h'.encoded.trans h.encoded⟩

theorem all2_trans {α : Type} {P : α → α → Prop} (ht : ∀ a b c, P a b → P b c → P a c) {l l' l'' : List α} (h : All2 P l l')
    (h' : All2 P l' l'') : All2 P l l'' := by
  induction h generalizing l'' with
  | nil => cases h'; exact .nil
  | cons h0 _ ih =>
    cases h' with
    | cons g0 g1 => exact .cons (ht _ _ _ h0 g0) (ih g1)

/-- Decryption of a message with direct recipients only depends on the message. -/
theorem enc_decrypt_direct {C : Crypto} {b : Base} {rs : List Rcpt} (hr : ∀ r ∈ rs, Spec.DirectRecipient r) {r : Rcpt} (hm : r ∈ rs) :
    (Enc.decrypt C { base := b, recipients := rs } r).map Prod.fst = (do
      let _ ← b.getAttr Hdr.Algorithm
      encDecrypt C b!"Encrypt" b) := by
  obtain ⟨t1, t2⟩ := direct_types (fun r h => (hr r h).1) (List.ne_nil_of_mem hm)
  simp only [Enc.decrypt, hasRecipient_mem hm, t1, t2, ok_bind, Bool.true_eq_false, if_false, if_true]
  cases b.getAttr Hdr.Algorithm with
  | error => rfl
  | ok v =>
    simp only [ok_bind]
    cases encDecrypt C b!"Encrypt" b <;> rfl

theorem enc_forwarded {C : Crypto} {cls : DecCls} {allow : Bool} {x y : Bytes} {m : Enc}
    (hdec : decode C cls allow x = .ok (.enc m)) (hu : Spec.PlainHeader C m.base.uhdr)
    (hr : ∀ r ∈ m.recipients, Spec.DirectRecipient r ∧ r.base.payload = some [] ∧ Spec.PlainHeader C r.base.uhdr)
    (h : Spec.Forwarded (Spec.EncHop C cls allow) x y) :
    ∃ m', decode C cls allow y = .ok (.enc m') ∧ Spec.SameContent m.base m'.base ∧ All2 Spec.SameDirect m.recipients m'.recipients := by
  induction h with
  | sent =>
    refine ⟨m, hdec, sameContent_refl _, ?_⟩
    generalize m.recipients = rs at hr
    induction rs with
    | nil => exact .nil
    | cons r t ih =>
      obtain ⟨h1, h2, _⟩ := hr r (by simp)
      exact .cons ⟨h1, rfl, rfl, h2, rfl⟩ (ih (fun r hh => hr r (List.mem_cons_of_mem _ hh)))
  | hop _ hhop ih =>
    obtain ⟨m', h1, h2, h3⟩ := ih
    obtain ⟨m2, m3, R, k, a, g1, g2⟩ := hhop
    rw [h1] at g1
    simp only [Except.ok.injEq, Msg.enc.injEq] at g1
    subst g1
    have hr' : ∀ r ∈ m'.recipients, Spec.DirectRecipient r ∧ Spec.PlainHeader C r.base.uhdr := by
      intro r hh
      obtain ⟨r0, hm0, hs⟩ := all2_mem_right h3 hh
      exact ⟨hs.direct, by rw [hs.uhdr]; exact (hr r0 hm0).2.2⟩
    obtain ⟨m4, e1, e2, e3, _⟩ := enc_hop h1 (by rw [h2.uhdr]; exact hu) hr' k a g2
    exact ⟨m4, e1, sameContent_trans h2 e2, all2_trans (P := Spec.SameDirect) (fun _ _ _ => sameDirect_trans) h3 e3⟩

/-- C100 for COSE_Encrypt with direct recipients: the message and its recipients, in order, arrive with the same headers and
ciphertext, and every decryption has the same outcome. -/
theorem c100_enc_content {C : Crypto} {cls : DecCls} {allow : Bool} {x y : Bytes} {m : Enc}
    (hdec : decode C cls allow x = .ok (.enc m)) (hu : Spec.PlainHeader C m.base.uhdr)
    (hr : ∀ r ∈ m.recipients, Spec.DirectRecipient r ∧ r.base.payload = some [] ∧ Spec.PlainHeader C r.base.uhdr)
    (h : Spec.Forwarded (Spec.EncHop C cls allow) x y) :
    ∃ m', decode C cls allow y = .ok (.enc m') ∧ Spec.SameContent m.base m'.base ∧
      m'.recipients.length = m.recipients.length ∧
      (∀ (j : Nat) (r r' : Rcpt), m.recipients[j]? = some r → m'.recipients[j]? = some r' →
        r'.cls = r.cls ∧ r'.recipients = [] ∧ Spec.SameContent r.base r'.base) ∧
      ∀ r ∈ m.recipients, ∀ r' ∈ m'.recipients, ∀ k a,
        (Enc.decrypt C { m' with base := m'.base.using k a } r').map Prod.fst =
        (Enc.decrypt C { m with base := m.base.using k a } r).map Prod.fst := by
  obtain ⟨m', h1, h2, h3⟩ := enc_forwarded hdec hu hr h
  refine ⟨m', h1, h2, all2_length h3, ?_, ?_⟩
  · intro j r r' g1 g2
    have hs := all2_getElem h3 g1 g2
    obtain ⟨d1, d2, _⟩ := hr r (List.mem_of_getElem? g1)
    exact ⟨hs.direct.1.trans d1.1.symm, hs.direct.2.1, hs.phdr, hs.uhdr, hs.payload.trans d2.symm, hs.encoded⟩
  · intro r hm r' hm' k a
    rw [enc_decrypt_direct (fun r hh => by obtain ⟨_, _, hs⟩ := all2_mem_right h3 hh; exact hs.direct) hm',
      enc_decrypt_direct (fun r hh => (hr r hh).1) hm, same_getAttr h2, same_decrypt h2]

/-- C100 for COSE_Encrypt with direct recipients: after the first node the bytes do not change any more, and no node can fail to
forward. -/
theorem c100_enc_bytes {C : Crypto} {cls : DecCls} {allow : Bool} {x y z : Bytes} {m : Enc}
    (hdec : decode C cls allow x = .ok (.enc m)) (hu : Spec.PlainHeader C m.base.uhdr)
    (hr : ∀ r ∈ m.recipients, Spec.DirectRecipient r ∧ r.base.payload = some [] ∧ Spec.PlainHeader C r.base.uhdr)
    (h : Spec.EncHop C cls allow x y) (hf : Spec.Forwarded (Spec.EncHop C cls allow) y z) :
    z = y ∧ ∃ m', decode C cls allow z = .ok (.enc m') ∧
      ∀ R k a, ∃ m2, Enc.encode C R { m' with base := m'.base.using k a } true false = .ok (z, m2) := by
  obtain ⟨m0, m1, R, k, a, g1, g2⟩ := h
  rw [hdec] at g1
  simp only [Except.ok.injEq, Msg.enc.injEq] at g1
  subst g1
  obtain ⟨m2, e1, e2, e3, again⟩ := enc_hop hdec hu (fun r hh => ⟨(hr r hh).1, (hr r hh).2.2⟩) k a g2
  have : z = y := by
    induction hf with
    | sent => rfl
    | hop _ hh ih =>
      subst ih
      obtain ⟨m3, m4, R', k', a', f1, f2⟩ := hh
      rw [e1] at f1
      simp only [Except.ok.injEq, Msg.enc.injEq] at f1
      subst f1
      obtain ⟨m5, e⟩ := again R' k' a'
      rw [e] at f2
      simp only [Except.ok.injEq, Prod.mk.injEq] at f2
      exact f2.1.symm
  subst this
  exact ⟨rfl, m2, e1, again⟩

/-- `y` is what a node sends on that has received the key `x`. -/
def Spec.KeyHop (C : Crypto) (x y : Bytes) : Prop := ∃ k, Key.decode C x = .ok k ∧ k.encode = .ok y

/-- C74 for any number of nodes: the key arrives unchanged, and after the first node its bytes do not change any more.  Missing: as
for one node, keys with other labels and RSA keys with further primes. -/
theorem c74_forwarded_partial {C : Crypto} {x y z : Bytes} {k : Key} (hdec : Key.decode C x = .ok k)
    (hl : ∀ d, loads x = .ok (.map d) → Spec.KeyLabels k.kind d) (hx : k.extra = [])
    (h : Spec.KeyHop C x y) (hf : Spec.Forwarded (Spec.KeyHop C) y z) :
    z = y ∧ Key.decode C z = .ok k ∧ k.encode = .ok z := by
  obtain ⟨k0, g1, g2⟩ := h
  rw [hdec] at g1
  simp only [Except.ok.injEq] at g1
  subst g1
  have e := c74_same_partial hdec hl hx g2
  have : z = y := by
    induction hf with
    | sent => rfl
    | hop _ hh ih =>
      subst ih
      obtain ⟨k2, f1, f2⟩ := hh
      rw [e] at f1
      simp only [Except.ok.injEq] at f1
      subst f1
      rw [g2] at f2
      simpa using f2.symm
  subst this
  exact ⟨rfl, e, g2⟩

/-! ### Samples -/

/-- A key is read, sent on and read again; the bytes of the second encoding are those of the first, not those received. -/
example : (do
    let k ← Key.decode toy ([0xa2, 0x20, 0x58, 0x10] ++ List.replicate 16 9 ++ [0x01, 0x04])
    let y ← k.encode
    let k' ← Key.decode toy y
    let z ← k'.encode
    .ok (decide (y = z), decide (k = k'), k.extra.length, y.take 4) : Res (Bool × Bool × Nat × Bytes)) =
    .ok (true, true, 0, [0xa2, 0x01, 0x04, 0x20]) := by decide +kernel

/-- A COSE_Sign1 message that is not in the shortest form: the head of its protected header takes two bytes more than needed. -/
def Sample.longSign1 : Res Bytes := do
  let b ← Sample.sign1.encode toy [] true true none
  match b with
  | t :: a :: h :: rest => .ok (t :: a :: 0x59 :: 0 :: (h - 0x40) :: rest)
  | _ => .error .typeError

/-- Two nodes forward it: the first one changes its bytes, the second one does not. -/
example : (do
    let x ← Sample.longSign1
    let m ← Sample.sign1Of (.ok x)
    let y ← Sign1.encode toy [] { m with base := m.base.using (some Sample.symKey) [7] } true false none
    let m' ← Sample.sign1Of (.ok y)
    let z ← Sign1.encode toy [1] { m' with base := m'.base.using none [] } true false (some [3])
    .ok (decide (x = y), decide (y = z), truthy m.signature) : Res (Bool × Bool × Bool)) = .ok (false, true, true) := by decide +kernel

example : (do
    let x ← Sample.enc.encode toy Sample.rand true true
    let m ← Sample.encOf (.ok x.1)
    let y ← Enc.encode toy Sample.rand { m with base := m.base.using (some Sample.symKey) [7] } true false
    let m' ← Sample.encOf (.ok y.1)
    let z ← Enc.encode toy Sample.rand { m' with base := m'.base.using none [] } true false
    .ok (decide (y.1 = z.1), m.recipients.map fun r => decide (r.cls = .directEncryption ∧ r.base.payload = some [])) :
      Res (Bool × List Bool)) = .ok (true, [true]) := by decide +kernel

end Cose
