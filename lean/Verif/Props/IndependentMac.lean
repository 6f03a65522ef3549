import Verif.Props.Independent
/-!
# Recipients of a COSE_Mac message do not influence each other (C78)
-/
set_option autoImplicit false
namespace Cose

/-- The same message with this one recipient. -/
def Spec.macAlone (m : Mac) (r : Rcpt) : Mac := { m with recipients := some [r] }

/-! ### Lemmas -/

theorem mac_encode_iff {C : Crypto} {R : Rand} {m m' : Mac} {tag e : Bool} {out : Bytes} {rs : List Rcpt} (hrs : m.recipients = some rs)
    (hne : rs ≠ []) (hk : ∀ t m1, m.computeTag C R = .ok (t, m1) → m1.recipients = m.recipients) :
    m.encode C R tag e = .ok (out, m') ↔ ∃ pe x m1 a vs rs', m.base.phdrEncoded = .ok pe ∧
      (if e then ∃ t, m.computeTag C R = .ok (t, m1) ∧ x = [.bytes t] else m1 = m ∧ x = []) ∧
      m1.base.getAttr Hdr.Algorithm = .ok a ∧ rcptsEncode C R [] 0 rs = .ok (vs, rs') ∧
      m1.base.finish 97 tag ([.bytes pe, .map m.base.uhdr, optBytes m.base.payload] ++ x ++ [.arr vs]) = .ok out ∧
      m' = { m1 with recipients := some rs' } := by
  obtain ⟨r, t, rfl⟩ : ∃ r t, rs = r :: t := by
    cases rs with
    | nil => exact absurd rfl hne
    | cons r t => exact ⟨r, t, rfl⟩
  have tail : ∀ (m1 : Mac) (hd : List Val), m1.recipients = some (r :: t) →
      ((match m1.recipients with
        | none => .error .typeError
        | some [] => do
          let out ← m1.base.finish 97 tag hd
          .ok (out, m1)
        | some (r :: t) => do
          let _ ← m1.base.getAttr Hdr.Algorithm
          let (vs, rs) ← rcptsEncode C R [] 0 (r :: t)
          let out ← m1.base.finish 97 tag (hd ++ [.arr vs])
          .ok (out, { m1 with recipients := some rs }) : Res (Bytes × Mac)) = .ok (out, m') ↔
      ∃ a vs rs', m1.base.getAttr Hdr.Algorithm = .ok a ∧ rcptsEncode C R [] 0 (r :: t) = .ok (vs, rs') ∧
        m1.base.finish 97 tag (hd ++ [.arr vs]) = .ok out ∧ m' = { m1 with recipients := some rs' }) := by
    intro m1 hd h1
    rw [h1]
    simp only [bind_eq_ok]
    constructor
    · rintro ⟨a, g1, ⟨vs, rs'⟩, g2, o, g4, g5⟩
      simp at g5; obtain ⟨rfl, rfl⟩ := g5
      exact ⟨a, vs, rs', g1, g2, g4, rfl⟩
    · rintro ⟨a, vs, rs', g1, g2, g3, rfl⟩
      exact ⟨a, g1, (vs, rs'), g2, out, g3, rfl⟩
  unfold Mac.encode
  rw [bind_eq_ok]
  cases e with
  | false =>
    simp only [Bool.false_eq_true, if_false, ok_bind]
    constructor
    · rintro ⟨pe, h1, h2⟩
      obtain ⟨a, vs, rs', g1, g2, g3, g4⟩ := (tail _ _ hrs).mp h2
      exact ⟨pe, [], m, a, vs, rs', h1, ⟨rfl, rfl⟩, g1, g2, by simpa using g3, g4⟩
    · rintro ⟨pe, x, m1, a, vs, rs', h1, ⟨rfl, rfl⟩, g1, g2, g3, g4⟩
      exact ⟨pe, h1, (tail _ _ hrs).mpr ⟨a, vs, rs', g1, g2, by simpa using g3, g4⟩⟩
  | true =>
    simp only [if_true]
    constructor
    · rintro ⟨pe, h1, h2⟩
      obtain ⟨⟨c, m2⟩, h2, h3⟩ := bind_eq_ok.mp h2
      obtain ⟨a, vs, rs', g1, g2, g3, g4⟩ := (tail _ _ ((hk _ _ h2).trans hrs)).mp h3
      exact ⟨pe, _, m2, a, vs, rs', h1, ⟨c, h2, rfl⟩, g1, g2, g3, g4⟩
    · rintro ⟨pe, x, m1, a, vs, rs', h1, ⟨c, h2, rfl⟩, g1, g2, g3, g4⟩
      refine ⟨pe, h1, ?_⟩
      rw [h2]
      exact (tail _ _ ((hk _ _ h2).trans hrs)).mpr ⟨a, vs, rs', g1, g2, g3, g4⟩

/-- What `compute_tag` leaves, and that it does not look at the recipients beyond their classes. -/
theorem computeTag_each {C : Crypto} {R : Rand} {m m1 : Mac} {t : Bytes} {rs : List Rcpt} (hrs : m.recipients = some rs)
    (h : m.computeTag C R = .ok (t, m1)) :
    m1.recipients = m.recipients ∧ ∀ r ∈ rs, ∀ R', (Spec.macAlone m r).computeTag C R' = .ok (t, Spec.macAlone m1 r) := by
  simp only [Mac.computeTag, hrs, bind_eq_ok] at h
  obtain ⟨target, h1, types, h2, h⟩ := h
  obtain ⟨rfl, hd, hk⟩ := verifyRecipients_iff.mp h2
  split at h
  · rename_i hc
    have hc' : ∃ r ∈ rs, r.cls = .directEncryption := by simpa using hc
    simp only [bind_eq_ok] at h
    obtain ⟨t', h3, h4⟩ := h
    simp only [Except.ok.injEq, Prod.mk.injEq] at h4
    obtain ⟨rfl, rfl⟩ := h4
    refine ⟨hrs.symm, fun r hr R' => ?_⟩
    have hv : verifyRecipients [r] = .ok [r.cls] :=
      verifyRecipients_iff.mpr ⟨rfl, fun _ s hs => by simp at hs; subst hs; exact hd hc' _ hr, fun _ => by simp⟩
    simp [Mac.computeTag, Spec.macAlone, h1, hv, hd hc' r hr, h3, ok_bind]
  split at h
  · rename_i hn hc
    have hc' : ∃ r ∈ rs, r.cls = .directKeyAgreement := by simpa using hc
    have hl := hk hc'
    cases rs with
    | nil => simp at hc'
    | cons r0 t0 =>
      have : t0 = [] := by simpa using hl
      subst this
      simp only [bind_eq_ok] at h
      obtain ⟨k, h3, t', h4, h5⟩ := h
      simp only [Except.ok.injEq, Prod.mk.injEq] at h5
      obtain ⟨rfl, rfl⟩ := h5
      refine ⟨hrs.symm, fun r hr R' => ?_⟩
      simp at hr; subst hr
      simp only [Mac.computeTag, Spec.macAlone, h1, h2, ok_bind, if_neg hn, if_pos hc, h3, h4]
  · split at h
    · simp only [bind_eq_ok] at h
      obtain ⟨_, _, _, _, h⟩ := h
      cases h
    · cases h

theorem computeTag_keeps {C : Crypto} {R : Rand} {m m1 : Mac} {t : Bytes} (h : m.computeTag C R = .ok (t, m1)) : m1.recipients = m.recipients := by
  cases hrs : m.recipients with
  | none => simp only [Mac.computeTag, hrs, bind_eq_ok] at h; obtain ⟨_, _, h⟩ := h; cases h
  | some rs => rw [(computeTag_each hrs h).1, hrs]

/-! ### C78 -/

/-- **C78**, sender: a COSE_Mac message consists of a part that is the same whatever the recipients are, the head of an array, and one entry
for every recipient; entry `i` is exactly what the message with recipient `i` alone contains (with the same random values), and the object
of recipient `i` is left in the same state. -/
theorem c78_mac_split {C : Crypto} {R : Rand} {m m' : Mac} {tag e : Bool} {out : Bytes} {rs : List Rcpt} (hrs : m.recipients = some rs)
    (hne : rs ≠ []) (h : m.encode C R tag e = .ok (out, m')) :
    ∃ (common head : Bytes) (entries : List Bytes) (rs' : List Rcpt), out = common ++ head ++ entries.flatten ∧ encHead 4 rs.length = .ok head ∧
      entries.length = rs.length ∧ m'.recipients = some rs' ∧ rs'.length = rs.length ∧
      ∀ i r, rs[i]? = some r → ∃ entry r', entries[i]? = some entry ∧ rs'[i]? = some r' ∧
        (Spec.macAlone m r).encode C (Spec.drawnFor R i) tag e = .ok (common ++ [0x81] ++ entry, Spec.macAlone m' r') := by
  obtain ⟨pe, x, m1, a, vs, rs', h1, h2, h3, h4, h5, rfl⟩ := (mac_encode_iff hrs hne fun _ _ => computeTag_keeps).mp h
  obtain ⟨l1, l2, h4⟩ := (rcptsEncode_each _).mp h4
  obtain ⟨pre, hd, es, g1, g2, ⟨l3, g3⟩, rfl⟩ := finish_list.mp h5
  refine ⟨pre, hd, es, rs', rfl, by rw [← l1]; exact g2, by rw [l3, l1], rfl, l2, fun i r hi => ?_⟩
  obtain ⟨v, r2, k3, k4, k5⟩ := h4 i r hi
  obtain ⟨ent, k6, k7⟩ := g3 i v k3
  refine ⟨ent, r2, k6, k4, ?_⟩
  refine (mac_encode_iff rfl (by simp) fun _ _ => computeTag_keeps).mpr ⟨pe, x, Spec.macAlone m1 r, a, [v], [r2], h1, ?_, h3, ?_, ?_, rfl⟩
  · cases e with
    | false =>
      simp only [Bool.false_eq_true, if_false] at h2 ⊢
      obtain ⟨rfl, rfl⟩ := h2
      exact ⟨rfl, rfl⟩
    | true =>
      simp only [if_true] at h2 ⊢
      obtain ⟨c, h2, rfl⟩ := h2
      exact ⟨c, (computeTag_each hrs h2).2 r (List.mem_of_getElem? hi) _, rfl⟩
  · exact rcptsEncode_alone (by simpa using k5)
  · exact finish_list.mpr ⟨pre, [0x81], [ent], g1, rfl, dumpsEach_single k7, by simp⟩

/-- **C78**, sender: recipients of a COSE_Mac message that obey the structure rules together and can each be encoded alone can be encoded
together. -/
theorem c78_mac_join {C : Crypto} {R : Rand} {m : Mac} {tag e : Bool} {rs : List Rcpt} (hrs : m.recipients = some rs) (hr : Spec.RecipientRules rs)
    (hlen : rs.length < 2 ^ 64)
    (h : ∀ i r, rs[i]? = some r → ((Spec.macAlone m r).encode C (Spec.drawnFor R i) tag e).isOk = true) : (m.encode C R tag e).isOk = true := by
  have h : ∀ i r, rs[i]? = some r → ∃ o m1, (Spec.macAlone m r).encode C (Spec.drawnFor R i) tag e = .ok (o, m1) := by
    intro i r hi
    have := h i r hi
    cases e : (Spec.macAlone m r).encode C (Spec.drawnFor R i) tag e with
    | error _ => rw [e] at this; simp [Except.isOk, Except.toBool] at this
    | ok p => exact ⟨p.1, p.2, rfl⟩
  obtain ⟨r0, t0, rfl⟩ : ∃ r0 t0, rs = r0 :: t0 := by
    cases rs with
    | nil => exact absurd rfl hr.nonempty
    | cons r t => exact ⟨r, t, rfl⟩
  obtain ⟨o0, m0, h0⟩ := h 0 r0 rfl
  obtain ⟨pe, x, n0, a0, vs0, rs0, f1, f2, f3, f4, f5, _⟩ := (mac_encode_iff rfl (by simp) fun _ _ => computeTag_keeps).mp h0
  -- the message after `compute_tag`
  have hm1 : ∃ m1 : Mac, (if e then ∃ t, m.computeTag C R = .ok (t, m1) ∧ x = [.bytes t] else m1 = m ∧ x = []) := by
    cases e with
    | false => exact ⟨m, by simpa using f2.2⟩
    | true =>
      simp only [if_true] at f2 ⊢
      obtain ⟨t, f2, rfl⟩ := f2
      refine ⟨{ n0 with recipients := some (r0 :: t0) }, t, ?_, rfl⟩
      have hv : verifyRecipients (r0 :: t0) = .ok ((r0 :: t0).map Rcpt.cls) :=
        verifyRecipients_iff.mpr ⟨rfl, hr.direct, fun hx => Nat.le_of_eq (hr.agreement hx)⟩
      simp only [Mac.computeTag, Spec.macAlone, bind_eq_ok] at f2
      obtain ⟨target, g1, types, g2, f2⟩ := f2
      obtain ⟨rfl, -, -⟩ := verifyRecipients_iff.mp g2
      split at f2
      · rename_i hc
        have hc0 : r0.cls = .directEncryption := by simpa using Eq.symm (by simpa using hc)
        have hc' : ((r0 :: t0).map Rcpt.cls).contains .directEncryption = true := by simp [hc0]
        simp only [bind_eq_ok] at f2
        obtain ⟨t', g3, g4⟩ := f2
        simp only [Except.ok.injEq, Prod.mk.injEq] at g4
        obtain ⟨rfl, rfl⟩ := g4
        simp only [Mac.computeTag, hrs, g1, hv, ok_bind, if_pos hc', g3]
      split at f2
      · rename_i hn hc
        have hc0 : r0.cls = .directKeyAgreement := by simpa using Eq.symm (by simpa using hc)
        have : t0 = [] := by simpa using hr.agreement ⟨r0, by simp, hc0⟩
        subst this
        simp only [bind_eq_ok] at f2
        obtain ⟨k, g3, t', g4, g5⟩ := f2
        simp only [Except.ok.injEq, Prod.mk.injEq] at g5
        obtain ⟨rfl, rfl⟩ := g5
        simp only [Mac.computeTag, hrs, g1, g2, ok_bind, if_neg hn, if_pos hc, g3, g4]
      · split at f2
        · simp only [bind_eq_ok] at f2
          obtain ⟨_, _, _, _, f2⟩ := f2
          cases f2
        · cases f2
  obtain ⟨m1, hx⟩ := hm1
  have each : ∀ (j : Nat) r, (r0 :: t0)[j]? = some r → ∃ p : Val × Rcpt × Bytes × Bytes,
      rcptEncode C R [j] r = .ok (p.1, p.2.1) ∧ dumps fullname m1.base.mode p.1 = .ok p.2.2.1 ∧
      before m1.base 97 tag ([.bytes pe, .map m.base.uhdr, optBytes m.base.payload] ++ x) p.2.2.2 ∧
      ∃ a, m1.base.getAttr Hdr.Algorithm = .ok a := by
    intro j r hj
    obtain ⟨o, q, g⟩ := h j r hj
    obtain ⟨pe', x', n1, a, vs, rs, e1, e2, e3, e4, e5, _⟩ := (mac_encode_iff rfl (by simp) fun _ _ => computeTag_keeps).mp g
    have epe : pe' = pe := by
      have : (Spec.macAlone m r).base.phdrEncoded = (Spec.macAlone m r0).base.phdrEncoded := rfl
      rw [e1, f1] at this; exact Except.ok.inj this
    subst epe
    have en : n1 = Spec.macAlone m1 r ∧ x' = x := by
      cases e with
      | false =>
        simp only [Bool.false_eq_true, if_false] at e2 hx
        obtain ⟨rfl, rfl⟩ := hx
        exact ⟨e2.1, e2.2⟩
      | true =>
        simp only [if_true] at e2 hx
        obtain ⟨c, e2, rfl⟩ := e2
        obtain ⟨c', hx, rfl⟩ := hx
        rw [(computeTag_each hrs hx).2 r (List.mem_of_getElem? hj)] at e2
        simp at e2
        exact ⟨e2.2.symm, by rw [e2.1]⟩
    obtain ⟨rfl, rfl⟩ := en
    obtain ⟨v, r', rfl, rfl, w1⟩ := alone_inv e4
    obtain ⟨pre, hd, es, b1, _, b3, _⟩ := finish_list.mp e5
    obtain ⟨ent, _, _, b4, _⟩ := dumpsEach_cons.mp b3
    exact ⟨(v, r', ent, pre), w1, b4, b1, a, e3⟩
  obtain ⟨ps, l2, hps⟩ := choose_list (P := fun j r (p : Val × Rcpt × Bytes × Bytes) => rcptEncode C R [j] r = .ok (p.1, p.2.1) ∧
      dumps fullname m1.base.mode p.1 = .ok p.2.2.1 ∧
      before m1.base 97 tag ([.bytes pe, .map m.base.uhdr, optBytes m.base.payload] ++ x) p.2.2.2 ∧
      ∃ a, m1.base.getAttr Hdr.Algorithm = .ok a) (r0 :: t0) 0 (fun j r hj => by simpa using each j r hj)
  obtain ⟨head, hhead⟩ := encHead_small (mt := 4) hlen
  obtain ⟨p1, _, _, b1, a, ha⟩ := each 0 r0 rfl
  have fin : m.encode C R tag e = .ok (p1.2.2.2 ++ head ++ (ps.map (·.2.2.1)).flatten, { m1 with recipients := some (ps.map (·.2.1)) }) := by
    refine (mac_encode_iff hrs (by simp) fun _ _ => computeTag_keeps).mpr
      ⟨pe, x, m1, a, ps.map (·.1), ps.map (·.2.1), f1, hx, ha, ?_, ?_, rfl⟩
    · refine (rcptsEncode_each _).mpr ⟨by simp [l2], by simp [l2], fun j r hj => ?_⟩
      obtain ⟨p, c1, c2, _⟩ := hps j r hj
      exact ⟨p.1, p.2.1, by simp [c1], by simp [c1], by simpa using c2⟩
    · refine finish_list.mpr ⟨p1.2.2.2, head, ps.map (·.2.2.1), b1, by simpa [l2] using hhead, ⟨by simp, fun j v hj => ?_⟩, rfl⟩
      simp only [List.getElem?_map, Option.map_eq_some_iff] at hj
      obtain ⟨p, c1, rfl⟩ := hj
      obtain ⟨r, hr2⟩ : ∃ r, (r0 :: t0)[j]? = some r := by
        have : j < ps.length := (List.getElem?_eq_some_iff.mp c1).1
        exact ⟨_, List.getElem?_eq_getElem (by omega)⟩
      obtain ⟨p', d1, d2, d3, _⟩ := hps j r hr2
      rw [c1] at d1; obtain rfl := Option.some.inj d1
      exact ⟨_, by simp [c1], d3⟩
  rw [fin]; rfl

theorem mac_received {C : Crypto} {cls : DecCls} {allow : Bool} {w : Bytes} {m : Mac} {a b c t : Val} {vs : List Val} {rs : List Rcpt}
    (h : decode C cls allow w = .ok (.mac m)) (hw : loads w = .ok (.tag 97 (.arr [a, b, c, t, .arr vs]))) (hrs : m.recipients = some rs) :
    baseFromObj C [a, b, c, t, .arr vs] allow = .ok (m.base, [t, .arr vs]) ∧ m.authTag = t ∧
      createRecipients C allow b!"Mac_Recipient" 0 vs = .ok rs := by
  obtain ⟨n, obj, k, h1, h2, h3, h4, h5⟩ := decode_iff.mp h
  simp only [Msg.kind] at h5; subst h5
  rw [hw] at h1
  simp at h1
  obtain ⟨rfl, rfl⟩ := h1
  simp only [fromObj, Mac.fromObj, bind_eq_ok] at h3
  obtain ⟨m', ⟨⟨q, r⟩, g1, ⟨v, r2⟩, g2, g3⟩, g4⟩ := h3
  simp at g4; subst g4
  have er : r = [t, .arr vs] := by
    obtain ⟨p, u, pl, e⟩ := fromObj_short g1
    simp at e
    exact e.2.2.2.symm
  subst er
  simp [pop0] at g2
  obtain ⟨rfl, rfl⟩ := g2
  simp only [recipientsOf, pop0, iterRecipients, ok_bind] at g3
  split at g3
  · rename_i rs' hrs'
    simp at g3; subst g3
    obtain rfl := Option.some.inj hrs
    exact ⟨g1, rfl, hrs'⟩
  · split at g3
    · simp at g3; subst g3; cases hrs
    · simp at g3

/-- **C78**, receiver: if two received COSE_Mac messages agree in everything but the entries of other recipients, and the recipients of both
are recognised, then recipient `i` is the same in both, and verifying the tag, with whatever key is put into the message, gives the same
answer: either both raise the same exception or both return the same truth value. -/
theorem c78_mac_received {C : Crypto} {cls cls' : DecCls} {allow : Bool} {w w' : Bytes} {m m' : Mac} {a b c t : Val} {vs vs' : List Val}
    {rs rs' : List Rcpt} (h : decode C cls allow w = .ok (.mac m)) (h' : decode C cls' allow w' = .ok (.mac m'))
    (hl : loads w = .ok (.tag 97 (.arr [a, b, c, t, .arr vs]))) (hl' : loads w' = .ok (.tag 97 (.arr [a, b, c, t, .arr vs'])))
    (hrs : m.recipients = some rs) (hrs' : m'.recipients = some rs') :
    m'.base = m.base ∧ m'.authTag = m.authTag ∧
      (∀ k : Option Key, ({ m' with base := { m'.base with key := k } } : Mac).verifyTag C = ({ m with base := { m.base with key := k } } : Mac).verifyTag C) ∧
      ∀ (i : Nat) v, vs[i]? = some v → vs'[i]? = some v → ∃ r, rs[i]? = some r ∧ rs'[i]? = some r := by
  obtain ⟨g1, ht, g2⟩ := mac_received h hl hrs
  obtain ⟨g1', ht', g2'⟩ := mac_received h' hl' hrs'
  have hb : m'.base = m.base := by
    have := base_rest g1 (l' := [t, .arr vs'])
    rw [g1'] at this
    simp at this
    exact this
  refine ⟨hb, by rw [ht, ht'], fun k => by simp only [Mac.verifyTag, hb, ht, ht'], fun i v hi hi' => ?_⟩
  obtain ⟨r, k1, k2⟩ := createRecipients_get g2 i v hi
  obtain ⟨r', k1', k2'⟩ := createRecipients_get g2' i v hi'
  rw [k2] at k2'
  obtain rfl := Except.ok.inj k2'
  exact ⟨r, k1, k1'⟩

/-- A message with two direct recipients, the first with this key identifier. -/
def Sample.macTwo (a : UInt8) : Mac :=
  { base := Sample.mac0.base, recipients := some [(Sample.directRcpt 1).withBase
    { (Sample.directRcpt 1).base with uhdr := [(.cls Hdr.Algorithm, algCls (-6)), (.cls Hdr.KID, .bytes [a])] }, Sample.directRcpt 2] }

def Sample.macTwoWire (a : UInt8) : Bytes := (((Sample.macTwo a).encode toy Sample.rand true true).toOption.map (·.1)).getD []

/-- Two recipients, each of which can be encoded alone; two received messages that differ in the first recipient. -/
example : ((Sample.macTwo 1).encode toy Sample.rand true true).isOk = true ∧
    (∀ rs ∈ (Sample.macTwo 1).recipients, rs.length = 2 ∧ ∀ i ∈ [0, 1], ∀ r ∈ rs[i]?,
      ((Spec.macAlone (Sample.macTwo 1) r).encode toy (Spec.drawnFor Sample.rand i) true true).isOk = true) ∧
    Sample.macTwoWire 1 ≠ Sample.macTwoWire 3 := by
  refine ⟨by decide +kernel, by decide +kernel, by decide +kernel⟩

example : ∀ n : UInt8, n = 1 ∨ n = 3 → ∃ m : Mac, decode toy .any false (Sample.macTwoWire n) = .ok (.mac m) ∧
    ∃ rs, m.recipients = some rs ∧ rs.length = 2 := by
  intro n hn
  have : ∃ x, decode toy .any false (Sample.macTwoWire n) = .ok x ∧ (match x with
      | .mac m => (match m.recipients with
        | some rs => rs.length == 2
        | none => false)
      | _ => false) = true := by
    rcases hn with rfl | rfl <;> exact res_any (by decide +kernel)
  obtain ⟨x, h1, h2⟩ := this
  split at h2
  · rename_i m
    split at h2
    · rename_i rs hrs
      exact ⟨m, h1, rs, hrs, by simpa using h2⟩
    · cases h2
  · cases h2

def Sample.macParts : Res Val → Option ((Val × Val × Val × Val) × Val × Val)
  | .ok (.tag 97 (.arr [a, b, c, t, .arr [v1, v2]])) => some ((a, b, c, t), v1, v2)
  | _ => none

theorem Sample.macParts_ok {r : Res Val} {a b c t v1 v2 : Val} (h : Sample.macParts r = some ((a, b, c, t), v1, v2)) :
    r = .ok (.tag 97 (.arr [a, b, c, t, .arr [v1, v2]])) := by
  unfold Sample.macParts at h
  split at h
  · simp at h
    obtain ⟨⟨rfl, rfl, rfl, rfl⟩, rfl, rfl⟩ := h
    rfl
  · simp at h

/-- They agree in everything else. -/
example : ∃ a b c t v1 v2 v1', loads (Sample.macTwoWire 1) = .ok (.tag 97 (.arr [a, b, c, t, .arr [v1, v2]])) ∧
    loads (Sample.macTwoWire 3) = .ok (.tag 97 (.arr [a, b, c, t, .arr [v1', v2]])) := by
  have h : ((Sample.macParts (loads (Sample.macTwoWire 1))).map (fun p => (p.1, p.2.2)) =
      (Sample.macParts (loads (Sample.macTwoWire 3))).map (fun p => (p.1, p.2.2))) ∧
      (Sample.macParts (loads (Sample.macTwoWire 1))).isSome = true := by decide +kernel
  cases h1 : Sample.macParts (loads (Sample.macTwoWire 1)) with
  | none => rw [h1] at h; simp at h
  | some p =>
    cases h3 : Sample.macParts (loads (Sample.macTwoWire 3)) with
    | none => rw [h1, h3] at h; simp at h
    | some q =>
      rw [h1, h3] at h
      obtain ⟨⟨a, b, c, t⟩, v1, v2⟩ := p
      obtain ⟨⟨a', b', c', t'⟩, v1', v2'⟩ := q
      simp at h
      obtain ⟨⟨rfl, rfl, rfl, rfl⟩, rfl⟩ := h
      exact ⟨a, b, c, t, v1, v2, v1', Sample.macParts_ok h1, Sample.macParts_ok h3⟩

end Cose
