import Verif.Props.Secrecy
/-!
# Every generated ephemeral key is drawn for one recipient (C70)
-/
set_option autoImplicit false
namespace Cose

/-- The recipient with base `b` has a generated key: its private value is the draw `d`, and its ephemeral key header is
the matching public key. -/
def Spec.Drawn (C : Crypto) (d : Nat) (b : Base) : Prop :=
  ∃ c bx bY bd, b.key = some { kind := .ec2, store := ec2Pub c bx bY ++ [(.cls Ec2D, .bytes bd)] } ∧ natOfBytes bd = d ∧
    C.ecPub c d = .ok (natOfBytes bx, natOfBytes bY) ∧ dget b.uhdr (.cls Hdr.EphemeralKey) = some (.map (ec2Pub c bx bY))

/-- The two classes that use ephemeral keys. -/
def Spec.agrees (c : RCls) : Prop := c = .directKeyAgreement ∨ c = .keyAgreementWithKeyWrap

mutual
/-- From `r` to `r'` in the place `path`: a recipient without key has got one drawn for this place; a recipient with a
key keeps it, with its ephemeral key header; and so for the recipients inside. -/
inductive Spec.Fresh (C : Crypto) (R : Rand) : List Nat → Rcpt → Rcpt → Prop
  | mk {path : List Nat} {c : RCls} {b b' : Base} {x : Bytes} {o : Nat} {rs rs' : List Rcpt} :
      (b.key = none → Spec.agrees c → Spec.Drawn C (R.eph path) b') →
      (∀ k, b.key = some k → b'.key = some k ∧ dget b'.uhdr (.cls Hdr.EphemeralKey) = dget b.uhdr (.cls Hdr.EphemeralKey)) →
      Spec.FreshL C R path 0 rs rs' → Spec.Fresh C R path (.mk c b x o rs) (.mk c b' x o rs')
/-- The same for the recipients numbered from `i` in the list at `path`. -/
inductive Spec.FreshL (C : Crypto) (R : Rand) : List Nat → Nat → List Rcpt → List Rcpt → Prop
  | nil {path : List Nat} {i : Nat} : Spec.FreshL C R path i [] []
  | cons {path : List Nat} {i : Nat} {r r' : Rcpt} {t t' : List Rcpt} : Spec.Fresh C R (path ++ [i]) r r' →
      Spec.FreshL C R path (i + 1) t t' → Spec.FreshL C R path i (r :: t) (r' :: t')
end

theorem setup_drawn {C : Crypto} {d : Nat} {b b' : Base} {peer : Val} (h : setupEphemeral C d b peer = .ok b') : Spec.Drawn C d b' := by
  simp only [setupEphemeral, bind_eq_ok] at h
  obtain ⟨pk, _, crv, _, k, hk, e, _, h⟩ := h
  obtain ⟨c, x, y, bx, bY, bd, _, hp, _, _, _, vx, vy, vd, rfl⟩ := ec2Generate_ok hk
  split at h
  · simp at h
  split at h
  · simp at h
  · simp at h
    subst h
    refine ⟨c, bx, bY, bd, rfl, vd, by rw [vx, vy]; exact hp, ?_⟩
    simp only [dupdate]
    rw [dget_dset_same]
    rfl

theorem kakw_fresh {C : Crypto} {d : Nat} {b b' : Base} {w : Bytes} (h : kakwEncrypt C d b = .ok (w, b')) :
    (b.key = none ∧ Spec.Drawn C d b') ∨ ∃ k, b.key = some k ∧ b' = b := by
  simp only [kakwEncrypt] at h
  split at h
  · simp at h
  obtain ⟨alg, _, h⟩ := bind_eq_ok.mp h
  split at h
  · simp at h
  cases hk : b.key with
  | some k =>
    right
    simp only [hk] at h
    simp only [bind_eq_ok, ok_bind] at h
    obtain ⟨w', _, kek, _, h⟩ := h
    split at h
    · obtain ⟨_, _, h⟩ := bind_eq_ok.mp h
      obtain ⟨_, _, h⟩ := bind_eq_ok.mp h
      simp at h
      exact ⟨k, rfl, h.2.symm⟩
    · simp at h
  | none =>
    left
    simp only [hk] at h
    obtain ⟨es, _, h⟩ := bind_eq_ok.mp h
    cases es
    · simp at h
    · simp only [if_true] at h
      obtain ⟨b1, h1, h⟩ := bind_eq_ok.mp h
      simp only [bind_eq_ok] at h
      obtain ⟨w', _, kek, _, h⟩ := h
      split at h
      · obtain ⟨_, _, h⟩ := bind_eq_ok.mp h
        obtain ⟨_, _, h⟩ := bind_eq_ok.mp h
        simp at h
        rw [← h.2]
        exact ⟨rfl, setup_drawn h1⟩
      · simp at h

theorem head_fresh {C : Crypto} {R : Rand} {path : List Nat} {c : RCls} {b b' : Base} {x : Bytes} {o : Nat} {rs : List Rcpt} {l : List Val}
    (h : rcptHead C R path (.mk c b x o rs) = .ok (l, b')) :
    (b.key = none → Spec.agrees c → Spec.Drawn C (R.eph path) b') ∧ (∀ k, b.key = some k → b' = b) := by
  cases c <;> simp only [rcptHead] at h
  · obtain ⟨_, _, h⟩ := bind_eq_ok.mp h
    split at h
    · simp at h
    split at h
    · simp at h
    split at h
    · simp at h
    obtain ⟨_, _, h⟩ := bind_eq_ok.mp h
    simp at h
    exact ⟨fun _ ha => by rcases ha with ha | ha <;> simp at ha, fun _ _ => h.2.symm⟩
  · obtain ⟨_, _, h⟩ := bind_eq_ok.mp h
    obtain ⟨_, _, h⟩ := bind_eq_ok.mp h
    simp at h
    exact ⟨fun _ ha => by rcases ha with ha | ha <;> simp at ha, fun _ _ => h.2.symm⟩
  · obtain ⟨alg, _, h⟩ := bind_eq_ok.mp h
    split at h
    · simp at h
    split at h
    · simp at h
    cases hk : b.key with
    | some k =>
      simp only [hk] at h
      split at h
      · simp at h
      simp only [ok_bind] at h
      obtain ⟨e, _, h⟩ := bind_eq_ok.mp h
      obtain ⟨m, _, h⟩ := bind_eq_ok.mp h
      split at h
      · simp at h
      obtain ⟨_, _, h⟩ := bind_eq_ok.mp h
      simp at h
      exact ⟨by simp, fun _ _ => h.2.symm⟩
    | none =>
      simp only [hk] at h
      obtain ⟨es, _, h⟩ := bind_eq_ok.mp h
      cases es
      · simp at h
      · simp only [if_true] at h
        obtain ⟨b1, h1, h⟩ := bind_eq_ok.mp h
        split at h
        · simp at h
        obtain ⟨e, _, h⟩ := bind_eq_ok.mp h
        obtain ⟨m, _, h⟩ := bind_eq_ok.mp h
        split at h
        · simp at h
        obtain ⟨_, _, h⟩ := bind_eq_ok.mp h
        simp at h
        rw [← h.2]
        exact ⟨fun _ _ => setup_drawn h1, by simp⟩
  · obtain ⟨_, _, h⟩ := bind_eq_ok.mp h
    obtain ⟨_, _, h⟩ := bind_eq_ok.mp h
    obtain ⟨_, _, h⟩ := bind_eq_ok.mp h
    obtain ⟨⟨w, b1⟩, h1, h⟩ := bind_eq_ok.mp h
    simp at h
    obtain ⟨_, rfl⟩ := h
    rcases kakw_fresh h1 with ⟨_, hd⟩ | ⟨k, hk, rfl⟩
    · exact ⟨fun _ _ => hd, fun k hk => by simp_all⟩
    · exact ⟨fun hn => by rw [hk] at hn; simp at hn, fun _ _ => rfl⟩

mutual
theorem encode_fresh {C : Crypto} {R : Rand} : ∀ (r : Rcpt) {path : List Nat} {v : Val} {r' : Rcpt},
    rcptEncode C R path r = .ok (v, r') → Spec.Fresh C R path r r'
  | .mk c b x o rs, path, v, r', h => by
    simp only [rcptEncode] at h
    obtain ⟨⟨l, b'⟩, h1, h⟩ := bind_eq_ok.mp h
    obtain ⟨f1, f2⟩ := head_fresh h1
    have f2' : ∀ k, b.key = some k → b'.key = some k ∧ dget b'.uhdr (.cls Hdr.EphemeralKey) = dget b.uhdr (.cls Hdr.EphemeralKey) := by
      intro k hk
      rw [f2 k hk]; exact ⟨hk, rfl⟩
    split at h
    · rename_i he
      simp at h he
      subst he
      rw [← h.2]
      exact .mk f1 f2' .nil
    · obtain ⟨⟨vs, rs'⟩, h2, h⟩ := bind_eq_ok.mp h
      simp at h
      rw [← h.2]
      exact .mk f1 f2' (encodes_fresh rs h2)
theorem encodes_fresh {C : Crypto} {R : Rand} : ∀ (rs : List Rcpt) {path : List Nat} {i : Nat} {vs : List Val} {rs' : List Rcpt},
    rcptsEncode C R path i rs = .ok (vs, rs') → Spec.FreshL C R path i rs rs'
  | [], path, i, vs, rs', h => by
    simp [rcptsEncode] at h
    rw [h.2]; exact .nil
  | r :: t, path, i, vs, rs', h => by
    simp only [rcptsEncode] at h
    obtain ⟨⟨v, r1⟩, h1, h⟩ := bind_eq_ok.mp h
    obtain ⟨⟨vs', t1⟩, h2, h⟩ := bind_eq_ok.mp h
    simp at h
    rw [← h.2]
    exact .cons (encode_fresh r h1) (encodes_fresh t h2)
end

/-! ### The key wrapping inside `encrypt` -/

/-- One recipient of the loop: the recipients inside stay as they are. -/
def TopFresh (C : Crypto) (R : Rand) (i : Nat) (r r' : Rcpt) : Prop :=
  ∃ c b b' x o rs, r = .mk c b x o rs ∧ r' = .mk c b' x o rs ∧
    (b.key = none → Spec.agrees c → Spec.Drawn C (R.eph [i]) b') ∧
    (∀ k, b.key = some k → b'.key = some k ∧ dget b'.uhdr (.cls Hdr.EphemeralKey) = dget b.uhdr (.cls Hdr.EphemeralKey))

inductive TopFreshL (C : Crypto) (R : Rand) : Nat → List Rcpt → List Rcpt → Prop
  | nil {i : Nat} : TopFreshL C R i [] []
  | cons {i : Nat} {r r' : Rcpt} {t t' : List Rcpt} : TopFresh C R i r r' → TopFreshL C R (i + 1) t t' → TopFreshL C R i (r :: t) (r' :: t')

theorem rcptEncrypt_fresh {C : Crypto} {R : Rand} {i : Nat} {r r' : Rcpt} {w : Bytes} (h : rcptEncrypt C R 0 [i] r = .ok (w, r')) :
    TopFresh C R i r r' := by
  obtain ⟨c, b, x, o, rs⟩ := r
  cases c <;> simp only [rcptEncrypt, Rcpt.cls] at h
  · simp at h
  · obtain ⟨_, _, h⟩ := bind_eq_ok.mp h
    simp at h
    refine ⟨_, b, b, x, o, rs, rfl, h.2.symm, ?_, fun k hk => ⟨hk, rfl⟩⟩
    rintro _ (h | h) <;> simp at h
  · simp at h
  · obtain ⟨⟨w', b1⟩, h1, h⟩ := bind_eq_ok.mp h
    simp at h
    refine ⟨_, b, b1, x, o, rs, rfl, h.2.symm, ?_⟩
    rcases kakw_fresh h1 with ⟨h2, h3⟩ | ⟨k, h2, h3⟩
    · exact ⟨fun _ _ => h3, fun k hk => by simp only [Rcpt.base] at h2; rw [h2] at hk; simp at hk⟩
    · simp only [Rcpt.base] at h2 h3
      subst h3
      exact ⟨fun hn => by rw [h2] at hn; simp at hn, fun k hk => ⟨hk, rfl⟩⟩

theorem wrapLoop_drawn {C : Crypto} {R : Rand} : ∀ (rs : List Rcpt) {i : Nat} {key kb : Option Bytes} {rs' : List Rcpt},
    wrapLoop C R i key rs = .ok (kb, rs') → TopFreshL C R i rs rs'
  | [], i, key, kb, rs', h => by
    simp [wrapLoop] at h
    rw [h.2]; exact .nil
  | r :: t, i, key, kb, rs', h => by
    simp only [wrapLoop] at h
    split at h
    · obtain ⟨⟨w, r2⟩, h1, h⟩ := bind_eq_ok.mp h
      obtain ⟨⟨kb', t'⟩, h2, h⟩ := bind_eq_ok.mp h
      simp at h
      rw [← h.2]
      refine .cons ?_ (wrapLoop_drawn t h2)
      obtain ⟨c, b, x, o, rs⟩ := r
      obtain ⟨_, _, b', _, _, _, e1, e2, e3, e4⟩ := rcptEncrypt_fresh h1
      simp only [Rcpt.withBase, Rcpt.cls, Rcpt.context, Rcpt.oid, Rcpt.recipients, Rcpt.base, Rcpt.mk.injEq] at e1
      obtain ⟨rfl, rfl, rfl, rfl, rfl⟩ := e1
      exact ⟨_, b, b', _, _, _, rfl, e2, e3, e4⟩
    · obtain ⟨⟨w, r2⟩, h1, h⟩ := bind_eq_ok.mp h
      obtain ⟨⟨kb', t'⟩, h2, h⟩ := bind_eq_ok.mp h
      simp at h
      rw [← h.2]
      exact .cons (rcptEncrypt_fresh h1) (wrapLoop_drawn t h2)

theorem drawn_kept {C : Crypto} {d : Nat} {b b' : Base} (h : Spec.Drawn C d b)
    (hk : ∀ k, b.key = some k → b'.key = some k ∧ dget b'.uhdr (.cls Hdr.EphemeralKey) = dget b.uhdr (.cls Hdr.EphemeralKey)) : Spec.Drawn C d b' := by
  obtain ⟨c, bx, bY, bd, h1, h2, h3, h4⟩ := h
  obtain ⟨k1, k2⟩ := hk _ h1
  exact ⟨c, bx, bY, bd, k1, h2, h3, by rw [k2, h4]⟩

theorem top_then_encode {C : Crypto} {R : Rand} {i : Nat} {rs rs1 : List Rcpt} (h1 : TopFreshL C R i rs rs1) :
    ∀ {rs2 : List Rcpt}, Spec.FreshL C R [] i rs1 rs2 → Spec.FreshL C R [] i rs rs2 := by
  induction h1 with
  | nil => intro rs2 h; exact h
  | cons h1 _ ih =>
    intro rs2 h
    cases h with
    | cons g1 g2 =>
      refine .cons ?_ (ih g2)
      obtain ⟨c, b, b1, x, o, rs, rfl, rfl, e1, e2⟩ := h1
      cases g1 with
      | mk f1 f2 f3 =>
        refine .mk (fun hn ha => drawn_kept (e1 hn ha) f2) (fun k hk => ?_) f3
        obtain ⟨k1, k2⟩ := e2 k hk
        obtain ⟨k3, k4⟩ := f2 k k1
        exact ⟨k3, by rw [k4, k2]⟩

theorem enc_top {C : Crypto} {R : Rand} {m m' : Enc} {c : Bytes} (h : m.encrypt C R = .ok (c, m')) :
    m'.recipients = m.recipients ∨ TopFreshL C R 0 m.recipients m'.recipients := by
  simp only [Enc.encrypt, bind_eq_ok] at h
  obtain ⟨target, _, types, _, h⟩ := h
  split at h
  · obtain ⟨_, _, h⟩ := bind_eq_ok.mp h
    simp at h; exact .inl (by rw [← h.2])
  split at h
  · split at h
    · simp at h
    · obtain ⟨_, _, h⟩ := bind_eq_ok.mp h
      obtain ⟨_, _, h⟩ := bind_eq_ok.mp h
      simp at h; exact .inl (by rw [← h.2])
  split at h
  · simp only [bind_eq_ok] at h
    obtain ⟨n, _, ⟨kb, rs⟩, h1, k, _, c', _, h4⟩ := h
    simp at h4
    right
    rw [← h4.2]
    exact wrapLoop_drawn _ h1
  · simp at h

theorem mac_top {C : Crypto} {R : Rand} {m m' : Mac} {c : Bytes} (h : m.computeTag C R = .ok (c, m')) : m'.recipients = m.recipients := by
  simp only [Mac.computeTag, bind_eq_ok] at h
  obtain ⟨target, _, h⟩ := h
  split at h
  · simp at h
  · rename_i rs _
    obtain ⟨types, _, h⟩ := bind_eq_ok.mp h
    split at h
    · obtain ⟨_, _, h⟩ := bind_eq_ok.mp h
      simp at h; rw [← h.2]
    split at h
    · split at h
      · simp at h
      · obtain ⟨_, _, h⟩ := bind_eq_ok.mp h
        obtain ⟨_, _, h⟩ := bind_eq_ok.mp h
        simp at h; rw [← h.2]
    split at h
    · simp [bind_eq_ok] at h
    · simp at h

/-! ### The property -/

/-- **C70**: in a message that was encrypted and encoded, every recipient, at any depth, that had no key and needs one for
key agreement has got a key pair drawn for its place; the other keys are untouched. -/
theorem c70_enc {C : Crypto} {R : Rand} {m m' : Enc} {tag e : Bool} {out : Bytes} (h : m.encode C R tag e = .ok (out, m')) :
    Spec.FreshL C R [] 0 m.recipients m'.recipients := by
  obtain ⟨_, _, m1, tl, _, h1, _, h2⟩ := enc_encode_inv h
  have top : m1.recipients = m.recipients ∨ TopFreshL C R 0 m.recipients m1.recipients := by
    rcases h1 with ⟨_, c, h1, _⟩ | ⟨_, h1, _⟩
    · exact enc_top h1
    · exact .inl (by rw [h1])
  have fin : Spec.FreshL C R [] 0 m1.recipients m'.recipients := by
    rcases h2 with ⟨h2, _, rfl⟩ | ⟨_, vs, rs, h2, _, rfl⟩
    · rw [h2]; exact .nil
    · exact encodes_fresh _ h2
  rcases top with e | ht
  · rw [← e]; exact fin
  · exact top_then_encode ht fin

theorem c70_mac {C : Crypto} {R : Rand} {m m' : Mac} {tag e : Bool} {out : Bytes} (h : m.encode C R tag e = .ok (out, m')) :
    ∃ rs rs', m.recipients = some rs ∧ m'.recipients = some rs' ∧ Spec.FreshL C R [] 0 rs rs' := by
  obtain ⟨_, m1, _, tl, rs1, _, h1, _, h3, h2⟩ := mac_encode_inv h
  have top : m1.recipients = m.recipients := by
    rcases h1 with ⟨_, c, h1, _⟩ | ⟨_, h1, _⟩
    · exact mac_top h1
    · rw [h1]
  rcases h2 with ⟨rfl, _, rfl⟩ | ⟨_, vs, rs, h2, _, rfl⟩
  · exact ⟨[], [], by rw [← top, h3], h3, .nil⟩
  · exact ⟨rs1, rs, by rw [← top, h3], rfl, encodes_fresh _ h2⟩

/-- A recipient of a list, and what became of it. -/
theorem freshL_get {C : Crypto} {R : Rand} {i : Nat} {rs rs' : List Rcpt} (h : Spec.FreshL C R [] i rs rs') :
    ∀ (j : Nat) (r : Rcpt), rs[j]? = some r → ∃ r', rs'[j]? = some r' ∧ Spec.Fresh C R [i + j] r r' := by
  induction rs generalizing i rs' with
  | nil => intro j r hr; simp at hr
  | cons a t ih =>
    cases h with
    | cons h1 h2 =>
      intro j r hr
      cases j with
      | zero => simp at hr; subst hr; exact ⟨_, rfl, h1⟩
      | succ j =>
        simp at hr
        obtain ⟨r', e1, e2⟩ := ih h2 j r hr
        refine ⟨r', by simpa using e1, ?_⟩
        rw [show i + (j + 1) = i + 1 + j by omega]; exact e2

/-- The private value of the key of a recipient. -/
def Spec.privateOf (r : Rcpt) (d : Nat) : Prop := ∃ k bd, r.base.key = some k ∧ k.d = .ok (.bytes bd) ∧ natOfBytes bd = d

theorem fresh_private {C : Crypto} {R : Rand} {path : List Nat} {r r' : Rcpt} (h : Spec.Fresh C R path r r') (hk : r.base.key = none)
    (hc : Spec.agrees r.cls) : Spec.privateOf r' (R.eph path) := by
  cases h with
  | mk f1 _ _ =>
    obtain ⟨c, bx, bY, bd, h1, h2, _, _⟩ := f1 hk hc
    refine ⟨_, bd, h1, ?_, h2⟩
    rfl

/-- **C70**: two recipients of a message get different generated keys if the two draws differ. -/
theorem c70_distinct {C : Crypto} {R : Rand} {m m' : Enc} {tag e : Bool} {out : Bytes} (h : m.encode C R tag e = .ok (out, m'))
    {i j : Nat} (hR : R.eph [i] ≠ R.eph [j]) {r s : Rcpt} (hi : m.recipients[i]? = some r) (hj : m.recipients[j]? = some s)
    (hr : r.base.key = none ∧ Spec.agrees r.cls) (hs : s.base.key = none ∧ Spec.agrees s.cls) :
    ∃ r' s' d d', m'.recipients[i]? = some r' ∧ m'.recipients[j]? = some s' ∧ Spec.privateOf r' d ∧ Spec.privateOf s' d' ∧ d ≠ d' := by
  obtain ⟨r', h1, h2⟩ := freshL_get (c70_enc h) i r hi
  obtain ⟨s', h3, h4⟩ := freshL_get (c70_enc h) j s hj
  refine ⟨r', s', _, _, h1, h3, fresh_private h2 hr.1 hr.2, fresh_private h4 hs.1 hs.2, by simpa using hR⟩

/-- A message with two recipients for which keys are generated. -/
def Sample.encEs2 : Enc := { base := { Sample.enc0.base with key := none }, recipients := [Sample.esRcpt 1, Sample.esRcpt 2] }
def Sample.randEph : Rand := { Sample.rand with eph := fun p => 11 + p.headD 0 }

example : (Sample.encEs2.encode toy Sample.randEph true true).isOk = true ∧ Sample.randEph.eph [0] ≠ Sample.randEph.eph [1] ∧
    (∀ r ∈ Sample.encEs2.recipients, r.base.key = none ∧ Spec.agrees r.cls) := by
  refine ⟨by decide +kernel, by decide, ?_⟩
  intro r hr
  simp only [Sample.encEs2, List.mem_cons, List.not_mem_nil, or_false] at hr
  rcases hr with rfl | rfl <;> exact ⟨rfl, .inr rfl⟩

end Cose
