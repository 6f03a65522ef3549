import Verif.Props.Forward
/-!
# Payloads that are detached or attached after signing (C101)

`msg.payload = None` and `msg.payload = p` on a received COSE_Sign1 message, followed by `encode(sign=False)`.
-/
set_option autoImplicit false
namespace Cose

/-! ### Specification -/

/-- `y` is what a node sends that has received the COSE_Sign1 message `x`, assigned `v` to its payload (`None` or a byte string), and
sends it on without signing; for some key, external data, detached payload and randomness. -/
def Spec.PayloadHop (C : Crypto) (cls : DecCls) (allow : Bool) (v : Val) (x y : Bytes) : Prop :=
  ∃ m b rnd d k a, decode C cls allow x = .ok (.sign1 m) ∧ (m.base.using k a).setPayload v = .ok b ∧
    Sign1.encode C rnd { m with base := b } true false d = .ok y

/-- Everything but the payload is the same. -/
structure Spec.SameSigned (m m' : Sign1) : Prop where
  phdr : m'.base.phdr = m.base.phdr
  uhdr : m'.base.uhdr = m.base.uhdr
  encoded : m'.base.phdrEncoded = m.base.phdrEncoded
  signature : m'.signature = m.signature

/-- What the receiver gets who sets the key `k` and the external data `a` and calls `verify_signature(d)`. -/
def Spec.verdict (C : Crypto) (m : Sign1) (k : Option Key) (a : Bytes) (d : Option Bytes) : Res Bool :=
  Sign1.verifySignature C { m with base := m.base.using k a } d

/-! ### Lemmas -/

theorem optBytes_inj {o o' : Option Bytes} (h : optBytes o = optBytes o') : o = o' := by
  cases o <;> cases o' <;> simp [optBytes] at h ⊢; exact h

theorem payload_hop {C : Crypto} {cls : DecCls} {allow : Bool} {x y : Bytes} {m : Sign1} {o : Option Bytes}
    (hdec : decode C cls allow x = .ok (.sign1 m)) (hu : Spec.PlainHeader C m.base.uhdr) (hs : truthy m.signature = true)
    (h : Spec.PayloadHop C cls allow (optBytes o) x y) :
    ∃ m', decode C cls allow y = .ok (.sign1 m') ∧ Spec.SameSigned m m' ∧ m'.base.payload = o ∧ m'.base.tstr = m.base.tstr := by
  obtain ⟨m1, b1, rnd, d, k, a, g1, g2, g3⟩ := h
  rw [hdec] at g1
  simp only [Except.ok.injEq, Msg.sign1.injEq] at g1
  subst g1
  obtain ⟨o', e1, rfl⟩ := setPayload_ok.mp g2
  rw [← optBytes_inj e1] at g3
  obtain ⟨n, obj, ho, hk, hf, hc⟩ := decode_obj hdec
  simp only [Msg.kind, fromObj, Sign1.fromObj, bind_eq_ok] at hf
  obtain ⟨m0, ⟨⟨b, r⟩, h1, ⟨s, r'⟩, h2, h3⟩, h4⟩ := hf
  simp at h4; subst h4
  rw [pop0_ok] at h2; subst h2
  simp at h3; subst h3
  have hsend0 := sendable_received (tstr := b.tstr) ho h1 hu k a
  have hsend : Spec.Sendable C b.tstr allow { b.using k a with payload := o } b.phdr b.uhdr := ⟨hsend0.prot, hsend0.unprot⟩
  obtain ⟨pe, tl, hpe, hfin, ht⟩ := sign1_encode_inv g3
  obtain ⟨w, hw, hb⟩ := received_base hsend hpe
  have hpe' : b.phdrEncoded = .ok pe := hpe
  have hsig : PyOK s := by
    obtain ⟨_, _, rfl, _⟩ := baseFromObj_iff.mp h1
    exact pyokl_mem ho _ (by simp)
  rcases ht with ⟨h0, _⟩ | ⟨_, _, rfl⟩ | ⟨_, h0, _⟩
  · simp at h0
  · refine ⟨⟨recvBase pe b.phdr b.uhdr o, s⟩, ?_, ⟨rfl, rfl, hpe'.symm, rfl⟩, rfl, ?_⟩
    · have := finish_decode (C := C) (allow := allow) (cls := cls) (k := .sign1)
          (m := .sign1 ⟨recvBase pe b.phdr b.uhdr o, s⟩)
          rfl hc (.cons sent_bytes (.cons hw (.cons sent_opt (.cons (sent_plain hsig) .nil)))) hfin ?_ []
      · rwa [List.append_nil] at this
      · simp only [fromObj, Sign1.fromObj, hb, ok_bind, pop0]
    · exact (decoded_tstr h1).symm ▸ rfl
  · simp only at h0; rw [hs] at h0; simp at h0

theorem same_verdict {C : Crypto} {m m' : Sign1} (h : Spec.SameSigned m m') {d d' : Option Bytes}
    (hp : choosePayload m'.base.payload d' = choosePayload m.base.payload d) (k : Option Key) (a : Bytes) :
    Spec.verdict C m' k a d' = Spec.verdict C m k a d := by
  have hc : choosePayload (m'.base.using k a).payload d' = choosePayload (m.base.using k a).payload d := hp
  have e : (m'.base.using k a).phdr.length = (m.base.using k a).phdr.length := congrArg List.length h.phdr
  have hb : (m'.base.using k a).baseStructure = (m.base.using k a).baseStructure := by
    unfold Base.baseStructure
    by_cases hl : (m.base.using k a).phdr.length = 0
    · rw [if_pos hl, if_pos (e.trans hl)]; rfl
    · rw [if_neg hl, if_neg (by rw [e]; exact hl), phdrEncoded_using, phdrEncoded_using, h.encoded]; rfl
  have hg : ∀ q, (m'.base.using k a).getAttr q = (m.base.using k a).getAttr q := fun q =>
    getAttr_congr h.phdr (congrArg (fun d => dget d (.cls q)) h.uhdr)
  simp only [Spec.verdict, Sign1.verifySignature, verifySignature, Sign1.sigStructure, hg, hb, h.signature, hc]
  rfl

/-! ### Properties -/

/-- **C101**: only the payload of a received message changes when it is detached or attached on the way. -/
theorem c101_only_payload {C : Crypto} {cls : DecCls} {allow : Bool} {x y : Bytes} {m : Sign1} {o : Option Bytes}
    (hdec : decode C cls allow x = .ok (.sign1 m)) (hu : Spec.PlainHeader C m.base.uhdr) (hs : truthy m.signature = true)
    (h : Spec.PayloadHop C cls allow (optBytes o) x y) :
    ∃ m', decode C cls allow y = .ok (.sign1 m') ∧ Spec.SameSigned m m' ∧ m'.base.payload = o := by
  obtain ⟨m', h1, h2, h3, _⟩ := payload_hop hdec hu hs h
  exact ⟨m', h1, h2, h3⟩

/-- **C101**: a payload is assigned only if it is `None` or a byte string. -/
theorem c101_values {C : Crypto} {cls : DecCls} {allow : Bool} {x y : Bytes} {v : Val} (h : Spec.PayloadHop C cls allow v x y) :
    v = .none ∨ ∃ p, v = .bytes p := by
  obtain ⟨_, _, _, _, _, _, _, h, _⟩ := h
  obtain ⟨o, rfl, _⟩ := setPayload_ok.mp h
  cases o
  · exact .inl rfl
  · exact .inr ⟨_, rfl⟩

/-- **C101**: the payload `p` is removed on the way.  Whoever has it gets, with `verify_signature(p)`, for every key and external
data the result that the message would have given; and without it there is none. -/
theorem c101_detached {C : Crypto} {cls : DecCls} {allow : Bool} {x y : Bytes} {m : Sign1} {p : Bytes}
    (hdec : decode C cls allow x = .ok (.sign1 m)) (hp : m.base.payload = some p) (hu : Spec.PlainHeader C m.base.uhdr)
    (hs : truthy m.signature = true) (h : Spec.PayloadHop C cls allow .none x y) :
    ∃ m', decode C cls allow y = .ok (.sign1 m') ∧ m'.base.payload = none ∧ ∀ k a,
      Spec.verdict C m' k a (some p) = Spec.verdict C m k a none ∧ ∀ r, Spec.verdict C m' k a none ≠ .ok r := by
  obtain ⟨m', h1, h2, h3, _⟩ := payload_hop (o := none) hdec hu hs h
  refine ⟨m', h1, h3, fun k a => ⟨same_verdict h2 (by rw [h3, hp]; rfl) k a, ?_⟩⟩
  exact (c15_wrong_payload_no_result (C := C) (rnd := []) (m := { m' with base := m'.base.using k a }) (det := none)
    (.inl ⟨h3, rfl⟩)).2

/-- **C101**: a payload is attached on the way.  The message then verifies, for every key and external data, exactly as before with
this payload as argument – so if another payload was signed, it does not. -/
theorem c101_attached {C : Crypto} {cls : DecCls} {allow : Bool} {x y : Bytes} {m : Sign1} {p : Bytes}
    (hdec : decode C cls allow x = .ok (.sign1 m)) (hp : m.base.payload = none) (hu : Spec.PlainHeader C m.base.uhdr)
    (hs : truthy m.signature = true) (h : Spec.PayloadHop C cls allow (.bytes p) x y) :
    ∃ m', decode C cls allow y = .ok (.sign1 m') ∧ m'.base.payload = some p ∧ ∀ k a,
      Spec.verdict C m' k a none = Spec.verdict C m k a (some p) ∧ ∀ d r, Spec.verdict C m' k a (some d) ≠ .ok r := by
  obtain ⟨m', h1, h2, h3, _⟩ := payload_hop (o := some p) hdec hu hs h
  refine ⟨m', h1, h3, fun k a => ⟨same_verdict h2 (by rw [h3, hp]; rfl) k a, fun d => ?_⟩⟩
  exact (c15_wrong_payload_no_result (C := C) (rnd := []) (m := { m' with base := m'.base.using k a }) (det := some d)
    (.inr ⟨by simp [Base.using, h3], by simp⟩)).2

/-- **C101**: the payload is detached by one node and attached by another one, with any number of nodes between them that only
forward.  The message that arrives has the content and the signature of the one that was sent, and the bytes it would have if
nobody had touched the payload. -/
theorem c101_restored {C : Crypto} {cls : DecCls} {allow : Bool} {x y y' z : Bytes} {m : Sign1} {p : Bytes}
    (hdec : decode C cls allow x = .ok (.sign1 m)) (hp : m.base.payload = some p) (hu : Spec.PlainHeader C m.base.uhdr)
    (hs : truthy m.signature = true) (h1 : Spec.PayloadHop C cls allow .none x y)
    (h2 : Spec.Forwarded (Spec.Sign1Hop C cls allow) y y') (h3 : Spec.PayloadHop C cls allow (.bytes p) y' z) :
    (∃ m', decode C cls allow z = .ok (.sign1 m') ∧ Spec.SameContent m.base m'.base ∧ m'.signature = m.signature) ∧
    Spec.Sign1Hop C cls allow x z := by
  obtain ⟨m1, a1, a2, a3, a4⟩ := payload_hop (o := none) hdec hu hs h1
  have hu1 : Spec.PlainHeader C m1.base.uhdr := by rw [a2.uhdr]; exact hu
  have hs1 : truthy m1.signature = true := by rw [a2.signature]; exact hs
  obtain ⟨m2, b1, b2, b3, _⟩ := c100_sign1_content a1 hu1 hs1 h2
  have hu2 : Spec.PlainHeader C m2.base.uhdr := by rw [b2.uhdr]; exact hu1
  have hs2 : truthy m2.signature = true := by rw [b3]; exact hs1
  obtain ⟨m3, c1, c2, c3, c4⟩ := payload_hop (o := some p) b1 hu2 hs2 h3
  refine ⟨⟨m3, c1, ⟨c2.phdr.trans (b2.phdr.trans a2.phdr), c2.uhdr.trans (b2.uhdr.trans a2.uhdr), c3.trans hp.symm,
    c2.encoded.trans (b2.encoded.trans a2.encoded)⟩, c2.signature.trans (b3.trans a2.signature)⟩, ?_⟩
  obtain ⟨m2', b, rnd, d, k, a, g1, g2, g3⟩ := h3
  rw [b1] at g1
  simp only [Except.ok.injEq, Msg.sign1.injEq] at g1
  subst g1
  simp only [Base.setPayload, Except.ok.injEq] at g2
  subst g2
  refine ⟨m, rnd, d, k, a, hdec, ?_⟩
  rw [← g3]
  have t : m2.base.tstr = m.base.tstr := (sign1_tstr b1).trans (sign1_tstr hdec).symm
  have e1 : Base.phdrEncoded { m2.base.using k a with payload := some p } = (m.base.using k a).phdrEncoded := by
    rw [phdrEncoded_using, ← b2.encoded.trans a2.encoded]; rfl
  have e2 : (m.base.using k a).uhdr = m2.base.uhdr := (b2.uhdr.trans a2.uhdr).symm
  have e3 : (m.base.using k a).payload = some p := hp
  have e4 : ∀ l, Base.finish { m2.base.using k a with payload := some p } 18 true l = (m.base.using k a).finish 18 true l := by
    intro l; simp only [Base.finish, Base.mode, Base.using, t]
  simp only [Sign1.encode, e1, e2, e3, e4, b3, a2.signature, Bool.false_eq_true, if_false]
  rfl

/-- **C101** for the signers of a COSE_Sign message: after `msg.payload = None` a signer gives with `verify_signature(p)` the result
it gave before with the payload `p` in the message, and the other way round. -/
theorem c101_signer {C : Crypto} {b s : Base} {p : Bytes} :
    (b.payload = some p → ∃ b', b.setPayload .none = .ok b' ∧ signerVerify C b' s (some p) = signerVerify C b s none) ∧
    (b.payload = none → ∃ b', b.setPayload (.bytes p) = .ok b' ∧ signerVerify C b' s none = signerVerify C b s (some p)) := by
  constructor <;> intro h <;> refine ⟨_, rfl, ?_⟩
  · simp only [signerVerify, signerStructure, h]; rfl
  · simp only [signerVerify, signerStructure, h]; rfl

/-- **C101** from end to end: what `encode()` made of a message with payload `p` is stripped of it on the way; the receiver who has the
matching key, the external data and `p` accepts it. -/
theorem c101_end_to_end {C : Crypto} (L : C.Laws) {m : Sign1} {rnd x y : Bytes} {p : Bytes} {allow : Bool} {ph uh : Dict}
    {cls : DecCls} {alg : Val} {sk vk : Key} (hcls : cls.accepts .sign1 = true) (hp : m.base.payload = some p)
    (hs : Spec.Sendable C m.base.tstr allow m.base ph uh) (hu : Spec.PlainHeader C uh) (h : m.encode C rnd true true none = .ok x)
    (hsig : ∀ s, m.computeSignature C rnd none = .ok s → s ≠ [])
    (halg : m.base.getAttr Hdr.Algorithm = .ok alg) (hsk : m.base.key = some sk)
    (hk : Spec.KeyPair C alg sk vk) (hperm : Spec.Permits vk vk.kind alg [Op.Verify])
    (hy : Spec.PayloadHop C cls allow .none x y) :
    ∃ m', decode C cls allow y = .ok (.sign1 m') ∧ m'.base.phdr = ph ∧ m'.base.uhdr = uh ∧ m'.base.payload = none ∧
      Spec.verdict C m' (some vk) m.base.aad (some p) = .ok true := by
  obtain ⟨m1, d1, d2, d3, d4, d5⟩ := c06_sign1_roundtrip L hcls hs h halg hsk hk hperm
  have ht : truthy m1.signature = true := by
    obtain ⟨pe, tl, hpe, hf, ht⟩ := sign1_encode_inv h
    rcases ht with ⟨_, s, hs', rfl⟩ | ⟨h0, _⟩ | ⟨h0, _⟩
    · obtain ⟨w, hw, hb⟩ := received_base hs hpe
      have := finish_decode (C := C) (allow := allow) (cls := cls) (k := .sign1) (m := .sign1 ⟨recvBase pe ph uh m.base.payload, .bytes s⟩)
        rfl hcls (.cons sent_bytes (.cons hw (.cons sent_opt (.cons sent_bytes .nil)))) hf (by
          simp only [fromObj, Sign1.fromObj, hb, ok_bind, pop0]) []
      rw [List.append_nil, d1] at this
      simp only [Except.ok.injEq, Msg.sign1.injEq] at this
      subst this
      cases s with
      | nil => exact absurd rfl (hsig [] hs')
      | cons _ _ => rfl
    · simp at h0
    · simp at h0
  obtain ⟨m2, f1, f2, f3, _⟩ := payload_hop (o := none) d1 (by rw [d3]; exact hu) ht hy
  refine ⟨m2, f1, f2.phdr.trans d2, f2.uhdr.trans d3, f3, ?_⟩
  rw [same_verdict f2 (d := none) (by rw [f3, d4, hp]; rfl)]
  exact d5

/-! ### Samples -/

/-- A signed message loses its payload on the way, is forwarded, and gets it back: the bytes are the original ones; in between it
verifies with the payload as argument, not without it, and not with another one. -/
example : (match (do
    let x ← Sample.sign1.encode toy [] true true none
    let m ← Sample.sign1Of (.ok x)
    let b ← (m.base.using none []).setPayload .none
    let y ← Sign1.encode toy [] { m with base := b } true false none
    let m1 ← Sample.sign1Of (.ok y)
    let r ← Spec.verdict toy m1 (some Sample.ecPubKey) Sample.sign1.base.aad Sample.sign1.base.payload
    let r' ← Spec.verdict toy m1 (some Sample.ecPubKey) Sample.sign1.base.aad (some [1])
    let b1 ← (m1.base.using none []).setPayload (optBytes Sample.sign1.base.payload)
    let z ← Sign1.encode toy [] { m1 with base := b1 } true false none
    .ok (!decide (x = y) && decide (x = z) && r && !r' && m1.base.payload.isNone && truthy m.signature) : Res Bool) with
    | .ok r => r
    | .error _ => false) = true := by decide +kernel

example : ∃ m x, Sample.sign1.base.payload ≠ none ∧ Sample.sign1.encode toy [] true true none = .ok x ∧
    decode toy .any false x = .ok (.sign1 m) ∧ Spec.PlainHeader toy m.base.uhdr ∧ truthy m.signature = true := by
  obtain ⟨⟨x, m⟩, h, hx⟩ := res_any (r := (do
      let x ← Sample.sign1.encode toy [] true true none
      let m ← decode toy .any false x
      .ok (x, m) : Res (Bytes × Msg)))
    (p := fun q => match q.2 with
      | .sign1 m => decide (m.base.uhdr = [(.cls Hdr.KID, .bytes b!"me")]) && truthy m.signature
      | _ => false) (by decide +kernel)
  simp only [bind_eq_ok] at h
  obtain ⟨x', h1, m', h2, h3⟩ := h
  simp only [Except.ok.injEq, Prod.mk.injEq] at h3
  obtain ⟨rfl, rfl⟩ := h3
  cases m' with
  | sign1 m =>
    simp only [Bool.and_eq_true, decide_eq_true_eq] at hx
    refine ⟨m, x', by decide, h1, h2, ?_, hx.2⟩
    rw [hx.1]
    intro k v hkv
    simp only [List.mem_singleton, Prod.mk.injEq] at hkv
    obtain ⟨rfl, rfl⟩ := hkv
    exact ⟨fun p _ => by simp [keq, norm], fun h => h.elim (fun h => absurd h (by decide)) (fun h => absurd h (by decide))⟩
  | _ => simp at hx

end Cose
