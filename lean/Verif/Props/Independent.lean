import Verif.Props.Effects
import Verif.Props.Accept
/-!
# Recipients and signers do not influence each other (C78)
-/
set_option autoImplicit false
namespace Cose

/-- The random values drawn for recipient `i` of a message (for itself and for the recipients nested in it), in the place of those
drawn for the first recipient. -/
def Spec.drawnFor (R : Rand) (i : Nat) : Rand :=
  { cek := R.cek, eph := fun p => R.eph (i :: p.tail), salt := fun phase p => R.salt phase (i :: p.tail) }

/-! ### Lemmas -/

theorem rcptHead_drawn {C : Crypto} {R : Rand} {i : Nat} (q : List Nat) (r : Rcpt) :
    rcptHead C (Spec.drawnFor R i) (0 :: q) r = rcptHead C R (i :: q) r := by
  obtain ⟨c, b, x, o, rs⟩ := r
  cases c <;> rfl

mutual
theorem rcptEncode_drawn {C : Crypto} {R : Rand} {i : Nat} : ∀ (r : Rcpt) (q : List Nat),
    rcptEncode C (Spec.drawnFor R i) (0 :: q) r = rcptEncode C R (i :: q) r
  | .mk c b x o rs, q => by
    simp only [rcptEncode, rcptHead_drawn, rcptsEncode_drawn rs q 0]
theorem rcptsEncode_drawn {C : Crypto} {R : Rand} {i : Nat} : ∀ (rs : List Rcpt) (q : List Nat) (j : Nat),
    rcptsEncode C (Spec.drawnFor R i) (0 :: q) j rs = rcptsEncode C R (i :: q) j rs
  | [], _, _ => by simp only [rcptsEncode]
  | r :: t, q, j => by
    simp only [rcptsEncode, List.cons_append, rcptEncode_drawn r (q ++ [j]), rcptsEncode_drawn t q (j + 1)]
end

theorem rcptEncrypt_drawn {C : Crypto} {R : Rand} {i phase : Nat} (r : Rcpt) :
    rcptEncrypt C (Spec.drawnFor R i) phase [0] r = rcptEncrypt C R phase [i] r := rfl

/-- Pointwise reading of a list of encoded recipients. -/
theorem rcptsEncode_each {C : Crypto} {R : Rand} {p : List Nat} : ∀ (rs : List Rcpt) {i : Nat} {vs : List Val} {rs' : List Rcpt},
    rcptsEncode C R p i rs = .ok (vs, rs') ↔
      vs.length = rs.length ∧ rs'.length = rs.length ∧
      ∀ j r, rs[j]? = some r → ∃ v r', vs[j]? = some v ∧ rs'[j]? = some r' ∧ rcptEncode C R (p ++ [i + j]) r = .ok (v, r')
  | [], i, vs, rs' => by
    simp [rcptsEncode, List.length_eq_zero_iff]
  | r :: t, i, vs, rs' => by
    simp only [rcptsEncode, bind_eq_ok]
    constructor
    · rintro ⟨⟨v, r'⟩, h1, ⟨vs', t'⟩, h2, h3⟩
      simp at h3
      obtain ⟨rfl, rfl⟩ := h3
      obtain ⟨l1, l2, h2⟩ := (rcptsEncode_each t).mp h2
      refine ⟨by simp [l1], by simp [l2], ?_⟩
      intro j s hj
      cases j with
      | zero => simp at hj; subst hj; exact ⟨v, r', rfl, rfl, h1⟩
      | succ j =>
        obtain ⟨w, s', g1, g2, g3⟩ := h2 j s (by simpa using hj)
        exact ⟨w, s', by simpa using g1, by simpa using g2, by rw [show i + (j + 1) = i + 1 + j by omega]; exact g3⟩
    · rintro ⟨l1, l2, h⟩
      match vs, rs' with
      | v :: vs', r1 :: t' =>
        obtain ⟨v0, r0, g1, g2, g3⟩ := h 0 r rfl
        simp at g1 g2
        subst g1; subst g2
        refine ⟨(v, r1), g3, (vs', t'), ?_, rfl⟩
        refine (rcptsEncode_each t).mpr ⟨by simpa using l1, by simpa using l2, ?_⟩
        intro j s hj
        obtain ⟨w, s', k1, k2, k3⟩ := h (j + 1) s (by simpa using hj)
        exact ⟨w, s', by simpa using k1, by simpa using k2, by rw [show i + 1 + j = i + (j + 1) by omega]; exact k3⟩
      | [], _ => simp at l1
      | _ :: _, [] => simp at l2

/-- Pointwise reading of the loop that hands the content key to recipients that have none. -/
theorem wrapLoop_each {C : Crypto} {R : Rand} {key : Option Bytes} : ∀ (rs : List Rcpt) {i : Nat} {kb : Option Bytes} {rs' : List Rcpt},
    (∀ r ∈ rs, r.base.payload = some []) →
    (wrapLoop C R i key rs = .ok (kb, rs') ↔
      kb = key ∧ rs'.length = rs.length ∧
      ∀ j r, rs[j]? = some r → ∃ c r', rs'[j]? = some r' ∧
        rcptEncrypt C R 0 [i + j] (r.withBase { r.base with payload := key }) = .ok (c, r'))
  | [], i, kb, rs', _ => by
    simp [wrapLoop, List.length_eq_zero_iff]
    exact fun _ => eq_comm
  | r :: t, i, kb, rs', hp => by
    simp only [wrapLoop, hp r (by simp), if_true, bind_eq_ok]
    have ht : ∀ s ∈ t, s.base.payload = some [] := fun s hs => hp s (by simp [hs])
    constructor
    · rintro ⟨⟨c, r1⟩, h1, ⟨k2, t'⟩, h2, h3⟩
      simp at h3
      obtain ⟨rfl, rfl⟩ := h3
      obtain ⟨rfl, l2, h2⟩ := (wrapLoop_each t ht).mp h2
      refine ⟨rfl, by simp [l2], ?_⟩
      intro j s hj
      cases j with
      | zero => simp at hj; subst hj; exact ⟨c, r1, rfl, h1⟩
      | succ j =>
        obtain ⟨c', s', g2, g3⟩ := h2 j s (by simpa using hj)
        exact ⟨c', s', by simpa using g2, by rw [show i + (j + 1) = i + 1 + j by omega]; exact g3⟩
    · rintro ⟨rfl, l2, h⟩
      match rs' with
      | r1 :: t' =>
        obtain ⟨c0, r0, g2, g3⟩ := h 0 r rfl
        simp at g2
        subst g2
        refine ⟨(c0, r1), g3, (kb, t'), ?_, rfl⟩
        refine (wrapLoop_each t ht).mpr ⟨rfl, by simpa using l2, ?_⟩
        intro j s hj
        obtain ⟨c', s', k2, k3⟩ := h (j + 1) s (by simpa using hj)
        exact ⟨c', s', by simpa using k2, by rw [show i + 1 + j = i + (j + 1) by omega]; exact k3⟩
      | [] => simp at l2

/-! ### The bytes of a list -/

/-- The serialisations of the elements, one after the other. -/
def dumpsEach (fn : Cls → Bytes) (md : Mode) (l : List Val) (es : List Bytes) : Prop :=
  es.length = l.length ∧ ∀ (j : Nat) v, l[j]? = some v → ∃ e, es[j]? = some e ∧ dumps fn md v = .ok e

theorem dumpsEach_cons {fn : Cls → Bytes} {md : Mode} {v : Val} {l : List Val} {es : List Bytes} :
    dumpsEach fn md (v :: l) es ↔ ∃ e es', es = e :: es' ∧ dumps fn md v = .ok e ∧ dumpsEach fn md l es' := by
  constructor
  · rintro ⟨hl, h⟩
    match es with
    | [] => simp at hl
    | e :: es' =>
      obtain ⟨e0, g1, g2⟩ := h 0 v rfl
      simp at g1; subst g1
      exact ⟨e, es', rfl, g2, by simpa using hl, fun j w hj => by
        obtain ⟨e1, k1, k2⟩ := h (j + 1) w (by simpa using hj)
        exact ⟨e1, by simpa using k1, k2⟩⟩
  · rintro ⟨e, es', rfl, g, hl, h⟩
    refine ⟨by simp [hl], fun j w hj => ?_⟩
    cases j with
    | zero => simp at hj; subst hj; exact ⟨e, rfl, g⟩
    | succ j =>
      obtain ⟨e1, k1, k2⟩ := h j w (by simpa using hj)
      exact ⟨e1, by simpa using k1, k2⟩

theorem dumpsEach_append {fn : Cls → Bytes} {md : Mode} {l l' : List Val} {es : List Bytes} :
    dumpsEach fn md (l ++ l') es ↔ ∃ e e', es = e ++ e' ∧ dumpsEach fn md l e ∧ dumpsEach fn md l' e' := by
  induction l generalizing es with
  | nil =>
    constructor
    · intro h; exact ⟨[], es, rfl, ⟨rfl, by simp⟩, h⟩
    · rintro ⟨e, e', rfl, ⟨h, _⟩, h'⟩
      simp at h; subst h
      exact h'
  | cons v l ih =>
    simp only [List.cons_append, dumpsEach_cons, ih]
    constructor
    · rintro ⟨a, _, rfl, h1, e, e', rfl, h2, h3⟩
      exact ⟨a :: e, e', rfl, ⟨a, e, rfl, h1, h2⟩, h3⟩
    · rintro ⟨_, e', rfl, ⟨a, e, rfl, h1, h2⟩, h3⟩
      exact ⟨a, e ++ e', rfl, h1, e, e', rfl, h2, h3⟩

theorem bigL_length (l : List Val) : (bigL l).length = l.length := by
  induction l with
  | nil => rfl
  | cons v t ih => simp [bigL, ih]

theorem dumps_list {fn : Cls → Bytes} {md : Mode} {l : List Val} {b : Bytes} :
    (∃ l', substL fn md l = .ok l' ∧ encL (bigL l') = .ok b) ↔ ∃ es, dumpsEach fn md l es ∧ b = es.flatten := by
  induction l generalizing b with
  | nil =>
    simp only [substL]
    constructor
    · rintro ⟨l', h1, h2⟩
      simp at h1; subst h1
      simp [bigL, encL] at h2; subst h2
      exact ⟨[], ⟨rfl, by simp⟩, rfl⟩
    · rintro ⟨es, ⟨h1, _⟩, rfl⟩
      simp at h1; subst h1
      exact ⟨[], rfl, rfl⟩
  | cons v t ih =>
    simp only [substL, bind_eq_ok, dumpsEach_cons]
    constructor
    · rintro ⟨l', ⟨v', h1, t', h2, h3⟩, h4⟩
      simp at h3; subst h3
      simp only [bigL, encL, bind_eq_ok] at h4
      obtain ⟨a, g1, c, g2, g3⟩ := h4
      simp at g3; subst g3
      obtain ⟨es, k1, rfl⟩ := ih.mp ⟨t', h2, g2⟩
      exact ⟨a :: es, ⟨a, es, rfl, by simp only [dumps, h1, ok_bind]; exact g1, k1⟩, rfl⟩
    · rintro ⟨_, ⟨a, es, rfl, h1, h2⟩, rfl⟩
      obtain ⟨t', k1, k2⟩ := ih.mpr ⟨es, h2, rfl⟩
      simp only [dumps, bind_eq_ok] at h1
      obtain ⟨v', g1, g2⟩ := h1
      refine ⟨v' :: t', ⟨v', g1, t', k1, rfl⟩, ?_⟩
      simp only [bigL, encL, g2, k2, ok_bind, List.flatten_cons]

theorem substL_length {fn : Cls → Bytes} {md : Mode} : ∀ {l l' : List Val}, substL fn md l = .ok l' → l'.length = l.length
  | [], _, h => by simp [substL] at h; subst h; rfl
  | v :: t, _, h => by
    simp only [substL, bind_eq_ok] at h
    obtain ⟨_, _, t', h2, h3⟩ := h
    simp at h3; subst h3
    simp [substL_length h2]

theorem dumps_arr {fn : Cls → Bytes} {md : Mode} {l : List Val} {b : Bytes} :
    dumps fn md (.arr l) = .ok b ↔ ∃ h es, encHead 4 l.length = .ok h ∧ dumpsEach fn md l es ∧ b = h ++ es.flatten := by
  constructor
  · intro h
    simp only [dumps, subst, bind_eq_ok] at h
    obtain ⟨w, ⟨l', h1, h2⟩, h3⟩ := h
    simp at h2; subst h2
    simp only [big, enc, bind_eq_ok, bigL_length, substL_length h1] at h3
    obtain ⟨hd, g1, c, g2, g3⟩ := h3
    simp at g3; subst g3
    obtain ⟨es, k1, rfl⟩ := dumps_list.mp ⟨l', h1, g2⟩
    exact ⟨hd, es, g1, k1, rfl⟩
  · rintro ⟨hd, es, h1, h2, rfl⟩
    obtain ⟨l', g1, g2⟩ := dumps_list.mpr ⟨es, h2, rfl⟩
    simp only [dumps, subst, g1, ok_bind, big, enc, bigL_length, substL_length g1, h1, g2]

theorem dumps_tag {fn : Cls → Bytes} {md : Mode} {n : Nat} {v : Val} {b : Bytes} :
    dumps fn md (.tag n v) = .ok b ↔ ∃ h e, encHead 6 n = .ok h ∧ dumps fn md v = .ok e ∧ b = h ++ e := by
  simp only [dumps, subst, bind_eq_ok]
  constructor
  · rintro ⟨w, ⟨v', h1, h2⟩, h3⟩
    simp at h2; subst h2
    simp only [big, enc, bind_eq_ok] at h3
    obtain ⟨hd, g1, c, g2, g3⟩ := h3
    simp at g3; subst g3
    exact ⟨hd, c, g1, ⟨v', h1, g2⟩, rfl⟩
  · rintro ⟨hd, e, h1, ⟨v', h2, h3⟩, rfl⟩
    refine ⟨.tag n v', ⟨v', h2, rfl⟩, ?_⟩
    simp only [big, enc, h1, h3, ok_bind]

/-- What precedes the last element of a message. -/
def before (b : Base) (n : Nat) (tag : Bool) (hd : List Val) (pre : Bytes) : Prop :=
  ∃ t h es, (if tag then encHead 6 n = .ok t else t = []) ∧ encHead 4 (hd.length + 1) = .ok h ∧ dumpsEach fullname b.mode hd es ∧
    pre = t ++ h ++ es.flatten

/-- A message whose last element is an array. -/
theorem finish_list {b : Base} {n : Nat} {tag : Bool} {hd vs : List Val} {out : Bytes} :
    b.finish n tag (hd ++ [.arr vs]) = .ok out ↔
      ∃ pre h es, before b n tag hd pre ∧ encHead 4 vs.length = .ok h ∧ dumpsEach fullname b.mode vs es ∧ out = pre ++ h ++ es.flatten := by
  have key : ∀ o, dumps fullname b.mode (.arr (hd ++ [.arr vs])) = .ok o ↔
      ∃ h1 e1 h es, encHead 4 (hd.length + 1) = .ok h1 ∧ dumpsEach fullname b.mode hd e1 ∧ encHead 4 vs.length = .ok h ∧
        dumpsEach fullname b.mode vs es ∧ o = h1 ++ e1.flatten ++ h ++ es.flatten := by
    intro o
    simp only [dumps_arr, List.length_append, List.length_singleton, dumpsEach_append, dumpsEach_cons]
    constructor
    · rintro ⟨h1, _, g1, ⟨e1, _, rfl, g2, e, e2, rfl, ⟨h, es, g3, g4, rfl⟩, g5, _⟩, rfl⟩
      simp at g5; subst g5
      exact ⟨h1, e1, h, es, g1, g2, g3, g4, by simp⟩
    · rintro ⟨h1, e1, h, es, g1, g2, g3, g4, rfl⟩
      exact ⟨h1, _, g1, ⟨e1, [h ++ es.flatten], rfl, g2, _, [], rfl, ⟨h, es, g3, g4, rfl⟩, rfl, by simp⟩, by simp⟩
  cases tag with
  | false =>
    simp only [Base.finish, Bool.false_eq_true, if_false, key, before]
    constructor
    · rintro ⟨h1, e1, h, es, g1, g2, g3, g4, rfl⟩
      exact ⟨_, h, es, ⟨[], h1, e1, rfl, g1, g2, rfl⟩, g3, g4, by simp⟩
    · rintro ⟨_, h, es, ⟨_, h1, e1, rfl, g1, g2, rfl⟩, g3, g4, rfl⟩
      exact ⟨h1, e1, h, es, g1, g2, g3, g4, by simp⟩
  | true =>
    simp only [Base.finish, if_true, dumps_tag, key, before]
    constructor
    · rintro ⟨t, _, g0, ⟨h1, e1, h, es, g1, g2, g3, g4, rfl⟩, rfl⟩
      exact ⟨_, h, es, ⟨t, h1, e1, g0, g1, g2, rfl⟩, g3, g4, by simp⟩
    · rintro ⟨_, h, es, ⟨t, h1, e1, g0, g1, g2, rfl⟩, g3, g4, rfl⟩
      exact ⟨t, _, g0, ⟨h1, e1, h, es, g1, g2, g3, g4, rfl⟩, by simp⟩

/-! ### Encoding, recipient by recipient -/

/-- The same message with this one recipient. -/
def Spec.alone (m : Enc) (r : Rcpt) : Enc := { m with recipients := [r] }

theorem encode_iff {C : Crypto} {R : Rand} {m m' : Enc} {tag e : Bool} {out : Bytes}
    (hl : ∀ c m1, m.encrypt C R = .ok (c, m1) → m1.recipients ≠ []) (hne : m.recipients ≠ []) :
    m.encode C R tag e = .ok (out, m') ↔ ∃ pe x m1 a vs rs', m.base.phdrEncoded = .ok pe ∧
      (if e then ∃ c, m.encrypt C R = .ok (c, m1) ∧ x = .bytes c else m1 = m ∧ x = optBytes m.base.payload) ∧
      m1.base.getAttr Hdr.Algorithm = .ok a ∧ rcptsEncode C R [] 0 m1.recipients = .ok (vs, rs') ∧
      m1.base.finish 96 tag ([.bytes pe, .map m.base.uhdr, x] ++ [.arr vs]) = .ok out ∧ m' = { m1 with recipients := rs' } := by
  have tail : ∀ (m1 : Enc) (hd : List Val), m1.recipients ≠ [] → ((if m1.recipients.isEmpty = true then (do
        let out ← m1.base.finish 96 tag hd
        Except.ok (out, m1) : Res (Bytes × Enc))
      else do
        let _ ← m1.base.getAttr Hdr.Algorithm
        let x ← rcptsEncode C R [] 0 m1.recipients
        let out ← m1.base.finish 96 tag (hd ++ [.arr x.1])
        .ok (out, { base := m1.base, recipients := x.2 })) = .ok (out, m') ↔
      ∃ a vs rs', m1.base.getAttr Hdr.Algorithm = .ok a ∧ rcptsEncode C R [] 0 m1.recipients = .ok (vs, rs') ∧
        m1.base.finish 96 tag (hd ++ [.arr vs]) = .ok out ∧ m' = { m1 with recipients := rs' }) := by
    intro m1 hd h1
    rw [if_neg (by simpa using h1)]
    simp only [bind_eq_ok]
    constructor
    · rintro ⟨a, g1, ⟨vs, rs'⟩, g2, o, g4, g5⟩
      simp at g5; obtain ⟨rfl, rfl⟩ := g5
      exact ⟨a, vs, rs', g1, g2, g4, rfl⟩
    · rintro ⟨a, vs, rs', g1, g2, g3, rfl⟩
      exact ⟨a, g1, (vs, rs'), g2, out, g3, rfl⟩
  unfold Enc.encode
  rw [bind_eq_ok]
  cases e with
  | false =>
    simp only [Bool.false_eq_true, if_false, ok_bind]
    constructor
    · rintro ⟨pe, h1, h2⟩
      obtain ⟨a, vs, rs', g1, g2, g3, g4⟩ := (tail _ _ hne).mp h2
      exact ⟨pe, _, m, a, vs, rs', h1, ⟨rfl, rfl⟩, g1, g2, g3, g4⟩
    · rintro ⟨pe, x, m1, a, vs, rs', h1, ⟨rfl, rfl⟩, g1, g2, g3, g4⟩
      exact ⟨pe, h1, (tail _ _ hne).mpr ⟨a, vs, rs', g1, g2, g3, g4⟩⟩
  | true =>
    simp only [if_true]
    constructor
    · rintro ⟨pe, h1, h2⟩
      obtain ⟨⟨c, m1⟩, h2, h3⟩ := bind_eq_ok.mp h2
      obtain ⟨a, vs, rs', g1, g2, g3, g4⟩ := (tail _ _ (hl _ _ h2)).mp h3
      exact ⟨pe, _, m1, a, vs, rs', h1, ⟨c, h2, rfl⟩, g1, g2, g3, g4⟩
    · rintro ⟨pe, x, m1, a, vs, rs', h1, ⟨c, h2, rfl⟩, g1, g2, g3, g4⟩
      refine ⟨pe, h1, ?_⟩
      rw [h2]
      exact (tail _ _ (hl _ _ h2)).mpr ⟨a, vs, rs', g1, g2, g3, g4⟩

theorem encrypt_wrapped {C : Crypto} {R : Rand} {m m1 : Enc} {c : Bytes} (hw : Spec.Wrapped m) (hne : m.recipients ≠ [])
    (hp : ∀ r ∈ m.recipients, r.base.payload = some []) :
    m.encrypt C R = .ok (c, m1) ↔ ∃ target n k, m.base.getAttr Hdr.Algorithm = .ok target ∧ algKeyLength target = .ok n ∧
      mkSym (.bytes (R.cek n)) target [Op.Encrypt] = .ok k ∧ encEncrypt C b!"Encrypt" { m.base with key := some k } = .ok c ∧
      m1.base = { m.base with key := some k } ∧ m1.recipients.length = m.recipients.length ∧
      ∀ j r, m.recipients[j]? = some r → ∃ w r', m1.recipients[j]? = some r' ∧
        rcptEncrypt C R 0 [j] (r.withBase { r.base with payload := some (R.cek n) }) = .ok (w, r') := by
  obtain ⟨k1, k2⟩ := kw_not_direct hw
  have hv : verifyRecipients m.recipients = .ok (m.recipients.map Rcpt.cls) := by
    refine verifyRecipients_iff.mpr ⟨rfl, ?_, ?_⟩ <;> rintro ⟨r, hr, e⟩ <;> rcases hw r hr with h | h <;> simp [h] at e
  obtain ⟨r0, hr0⟩ := List.exists_mem_of_ne_nil _ hne
  have hk : (m.recipients.map Rcpt.cls).contains RCls.keyWrap = true ∨ (m.recipients.map Rcpt.cls).contains RCls.keyAgreementWithKeyWrap = true := by
    rcases hw r0 hr0 with h | h
    · exact .inl (by simpa using ⟨r0, hr0, h⟩)
    · exact .inr (by simpa using ⟨r0, hr0, h⟩)
  simp only [Enc.encrypt, bind_eq_ok, hv, ok_bind]
  constructor
  · rintro ⟨target, h0, h⟩
    rw [if_neg (by rw [k1]; decide), if_neg (by rw [k2]; decide), if_pos hk] at h
    simp only [bind_eq_ok] at h
    obtain ⟨n, hn, ⟨kb, rs⟩, h1, k, h2, c', h3, h4⟩ := h
    simp at h4; obtain ⟨rfl, rfl⟩ := h4
    obtain ⟨rfl, g1, g2⟩ := (wrapLoop_each _ hp).mp h1
    refine ⟨target, n, k, h0, hn, h2, h3, rfl, g1, fun j r hj => ?_⟩
    obtain ⟨w, r', g3, g4⟩ := g2 j r hj
    exact ⟨w, r', g3, by simpa using g4⟩
  · rintro ⟨target, n, k, h0, hn, h2, h3, h4, g1, g2⟩
    refine ⟨target, h0, ?_⟩
    rw [if_neg (by rw [k1]; decide), if_neg (by rw [k2]; decide), if_pos hk]
    simp only [bind_eq_ok]
    refine ⟨n, hn, (some (R.cek n), m1.recipients), (wrapLoop_each _ hp).mpr ⟨rfl, g1, fun j r hj => ?_⟩, k, h2, c, h3, ?_⟩
    · obtain ⟨w, r', g3, g4⟩ := g2 j r hj
      exact ⟨w, r', g3, by simpa using g4⟩
    · simp [← h4]

theorem encrypt_direct {C : Crypto} {R : Rand} {m m1 : Enc} {c : Bytes} (hd : ∀ r ∈ m.recipients, r.cls = .directEncryption)
    (hne : m.recipients ≠ []) :
    m.encrypt C R = .ok (c, m1) ↔ ∃ target, m.base.getAttr Hdr.Algorithm = .ok target ∧ encEncrypt C b!"Encrypt" m.base = .ok c ∧ m1 = m := by
  have hv : verifyRecipients m.recipients = .ok (m.recipients.map Rcpt.cls) := by
    refine verifyRecipients_iff.mpr ⟨rfl, fun _ => hd, ?_⟩
    rintro ⟨r, hr, e⟩
    rw [hd r hr] at e; cases e
  obtain ⟨r0, hr0⟩ := List.exists_mem_of_ne_nil _ hne
  have hk : (m.recipients.map Rcpt.cls).contains RCls.directEncryption = true := by simpa using ⟨r0, hr0, hd r0 hr0⟩
  simp only [Enc.encrypt, bind_eq_ok, hv, ok_bind, hk, if_true]
  constructor
  · rintro ⟨target, h0, c', h1, h2⟩
    simp at h2; obtain ⟨rfl, rfl⟩ := h2
    exact ⟨target, h0, h1, rfl⟩
  · rintro ⟨target, h0, h1, rfl⟩
    exact ⟨target, h0, c, h1, rfl⟩

/-- What `encrypt` does for every recipient separately. -/
theorem encrypt_alone {C : Crypto} {R : Rand} {m m1 : Enc} {c : Bytes} (hr : Spec.RecipientRules m.recipients)
    (hp : ∀ r ∈ m.recipients, r.base.payload = some []) (h : m.encrypt C R = .ok (c, m1)) :
    m1.recipients.length = m.recipients.length ∧ ∀ j r, m.recipients[j]? = some r → ∃ r', m1.recipients[j]? = some r' ∧
      (Spec.alone m r).encrypt C (Spec.drawnFor R j) = .ok (c, Spec.alone m1 r') := by
  have hmem : ∀ j r, m.recipients[j]? = some r → r ∈ m.recipients := fun j r h => List.mem_of_getElem? h
  cases Classical.em (∃ r ∈ m.recipients, r.cls = .directEncryption) with
  | inl hd =>
    have hd := hr.direct hd
    obtain ⟨target, h0, h1, rfl⟩ := (encrypt_direct hd hr.nonempty).mp h
    refine ⟨rfl, fun j r hj => ⟨r, hj, ?_⟩⟩
    exact (encrypt_direct (m := Spec.alone m1 r) (by simpa [Spec.alone] using hd r (hmem j r hj)) (by simp [Spec.alone])).mpr ⟨target, h0, h1, rfl⟩
  | inr hd =>
    cases Classical.em (∃ r ∈ m.recipients, r.cls = .directKeyAgreement) with
    | inl ha =>
      have h1 := hr.agreement ha
      match hm : m.recipients, h1 with
      | [r0], _ =>
        have hv : verifyRecipients m.recipients = .ok (m.recipients.map Rcpt.cls) :=
          verifyRecipients_iff.mpr ⟨rfl, hr.direct, fun _ => by rw [h1]; exact Nat.le_refl 1⟩
        have hrs : m1.recipients = m.recipients := by
          simp only [Enc.encrypt, bind_eq_ok, hv, ok_bind] at h
          obtain ⟨target, h0, h⟩ := h
          rw [if_neg (by simpa using hd), if_pos (by simpa using ha)] at h
          split at h
          · simp at h
          · simp only [bind_eq_ok] at h
            obtain ⟨k, _, c', _, h⟩ := h
            simp at h; rw [← h.2]
        refine ⟨by rw [hrs, hm], fun j r hj => ?_⟩
        match j with
        | 0 =>
          simp at hj; subst hj
          refine ⟨r0, by rw [hrs, hm]; rfl, ?_⟩
          have e1 : Spec.alone m r0 = m := by rw [Spec.alone, ← hm]
          have e2 : Spec.alone m1 r0 = m1 := by rw [Spec.alone, ← hm, ← hrs]
          rw [e1, e2, ← h]
          have ha' : (m.recipients.map Rcpt.cls).contains RCls.directKeyAgreement = true := by simpa using ha
          have hd' : (m.recipients.map Rcpt.cls).contains RCls.directEncryption = false := by
            rw [Bool.eq_false_iff]; simpa using hd
          simp only [Enc.encrypt, hv, ok_bind, hd', ha', if_true, Bool.false_eq_true, if_false]
        | j + 1 => simp at hj
    | inr ha =>
      have hw : Spec.Wrapped m := by
        intro r hr
        cases hc : r.cls with
        | directEncryption => exact absurd ⟨r, hr, hc⟩ hd
        | directKeyAgreement => exact absurd ⟨r, hr, hc⟩ ha
        | keyWrap => exact .inl rfl
        | keyAgreementWithKeyWrap => exact .inr rfl
      obtain ⟨target, n, k, h0, hn, h2, h3, h4, g1, g2⟩ := (encrypt_wrapped hw hr.nonempty hp).mp h
      refine ⟨g1, fun j r hj => ?_⟩
      obtain ⟨w, r', g3, g4⟩ := g2 j r hj
      refine ⟨r', g3, ?_⟩
      refine (encrypt_wrapped (m := Spec.alone m r) (by intro s hs; simp [Spec.alone] at hs; subst hs; exact hw _ (hmem j _ hj))
        (by simp [Spec.alone]) (by intro s hs; simp [Spec.alone] at hs; subst hs; exact hp _ (hmem j _ hj))).mpr
        ⟨target, n, k, h0, hn, h2, h3, h4, rfl, fun i s hi => ?_⟩
      match i with
      | 0 =>
        simp [Spec.alone] at hi; subst hi
        exact ⟨w, r', rfl, g4⟩
      | i + 1 => simp [Spec.alone] at hi

theorem dumpsEach_single {fn : Cls → Bytes} {md : Mode} {v : Val} {e : Bytes} (h : dumps fn md v = .ok e) : dumpsEach fn md [v] [e] :=
  dumpsEach_cons.mpr ⟨e, [], rfl, h, rfl, by simp⟩

theorem rcptsEncode_alone {C : Crypto} {R : Rand} {i : Nat} {r r' : Rcpt} {v : Val} (h : rcptEncode C R [i] r = .ok (v, r')) :
    rcptsEncode C (Spec.drawnFor R i) [] 0 [r] = .ok ([v], [r']) := by
  simp only [rcptsEncode, List.nil_append, rcptEncode_drawn, h, ok_bind]

theorem encrypt_nonempty {C : Crypto} {R : Rand} {m m1 : Enc} {c : Bytes} (h : m.encrypt C R = .ok (c, m1)) : m1.recipients ≠ [] := by
  have hr := c32_enc_encrypt h
  simp only [Enc.encrypt, bind_eq_ok] at h
  obtain ⟨target, _, types, _, h⟩ := h
  split at h
  · simp only [bind_eq_ok] at h
    obtain ⟨_, _, h⟩ := h
    simp at h; rw [← h.2]; exact hr.nonempty
  split at h
  · split at h
    · simp at h
    · simp only [bind_eq_ok] at h
      obtain ⟨_, _, _, _, h⟩ := h
      simp at h; rw [← h.2]; exact hr.nonempty
  split at h
  · simp only [bind_eq_ok] at h
    obtain ⟨n, _, ⟨kb, rs⟩, h1, k, _, c', _, h4⟩ := h
    simp at h4; rw [← h4.2]
    intro e
    simp only at e; subst e
    cases hm : m.recipients with
    | nil => exact hr.nonempty hm
    | cons r t =>
      rw [hm] at h1
      simp only [wrapLoop, bind_eq_ok] at h1
      obtain ⟨_, _, _, _, h1⟩ := h1
      simp at h1
  · simp at h

/-! ### C78 -/

/-- **C78**, sender: a COSE_Encrypt message whose recipients hold no content key of their own consists of a part that is the same
whatever the recipients are, the head of an array, and one entry for every recipient; entry `i` is exactly what the message with
recipient `i` alone contains (with the same random values), and the object of recipient `i` is left in the same state. -/
theorem c78_enc_split {C : Crypto} {R : Rand} {m m' : Enc} {tag e : Bool} {out : Bytes} (hne : m.recipients ≠ [])
    (hp : e = true → ∀ r ∈ m.recipients, r.base.payload = some []) (h : m.encode C R tag e = .ok (out, m')) :
    ∃ (common head : Bytes) (entries : List Bytes), out = common ++ head ++ entries.flatten ∧ encHead 4 m.recipients.length = .ok head ∧
      entries.length = m.recipients.length ∧ m'.recipients.length = m.recipients.length ∧
      ∀ i r, m.recipients[i]? = some r → ∃ entry r', entries[i]? = some entry ∧ m'.recipients[i]? = some r' ∧
        (Spec.alone m r).encode C (Spec.drawnFor R i) tag e = .ok (common ++ [0x81] ++ entry, Spec.alone m' r') := by
  obtain ⟨pe, x, m1, a, vs, rs', h1, h2, h3, h4, h5, rfl⟩ := (encode_iff (fun _ _ => encrypt_nonempty) hne).mp h
  obtain ⟨l1, l2, h4⟩ := (rcptsEncode_each _).mp h4
  obtain ⟨pre, hd, es, g1, g2, ⟨l3, g3⟩, rfl⟩ := finish_list.mp h5
  have hlen : m1.recipients.length = m.recipients.length ∧ ∀ (j : Nat) r, m.recipients[j]? = some r → ∃ r', m1.recipients[j]? = some r' ∧
      (if e = true then ∃ c, (Spec.alone m r).encrypt C (Spec.drawnFor R j) = .ok (c, Spec.alone m1 r') ∧ x = .bytes c
        else Spec.alone m1 r' = Spec.alone m r ∧ x = optBytes m.base.payload) := by
    cases e with
    | false =>
      simp only [Bool.false_eq_true, if_false] at h2 ⊢
      obtain ⟨rfl, rfl⟩ := h2
      exact ⟨rfl, fun j r hj => ⟨r, hj, rfl, rfl⟩⟩
    | true =>
      simp only [if_true] at h2 ⊢
      obtain ⟨c, h2, rfl⟩ := h2
      obtain ⟨k1, k2⟩ := encrypt_alone (c32_enc_encrypt h2) (hp rfl) h2
      refine ⟨k1, fun j r hj => ?_⟩
      obtain ⟨r', k3, k4⟩ := k2 j r hj
      exact ⟨r', k3, c, k4, rfl⟩
  obtain ⟨l0, hs⟩ := hlen
  refine ⟨pre, hd, es, rfl, by rw [← l0, ← l1]; exact g2, by rw [l3, l1, l0], by simp [l2, l0], fun i r hi => ?_⟩
  obtain ⟨r1, k1, k2⟩ := hs i r hi
  obtain ⟨v, r2, k3, k4, k5⟩ := h4 i r1 k1
  obtain ⟨ent, k6, k7⟩ := g3 i v k3
  refine ⟨ent, r2, k6, k4, ?_⟩
  refine (encode_iff (fun _ _ => encrypt_nonempty) (by simp [Spec.alone])).mpr ⟨pe, x, Spec.alone m1 r1, a, [v], [r2], h1, k2, h3, ?_, ?_, rfl⟩
  · exact rcptsEncode_alone (by simpa using k5)
  · exact finish_list.mpr ⟨pre, [0x81], [ent], g1, rfl, dumpsEach_single k7, by simp⟩

theorem encHead_small {mt n : Nat} (h : n < 2 ^ 64) : ∃ b, encHead mt n = .ok b := by
  unfold encHead
  split; · exact ⟨_, rfl⟩
  split; · exact ⟨_, rfl⟩
  split; · exact ⟨_, rfl⟩
  split; · exact ⟨_, rfl⟩
  exact ⟨_, rfl⟩

/-- Pointwise existence gives a list. -/
theorem choose_list {α β : Type} {P : Nat → α → β → Prop} : ∀ (l : List α) (i : Nat), (∀ j a, l[j]? = some a → ∃ b, P (i + j) a b) →
    ∃ l' : List β, l'.length = l.length ∧ ∀ j a, l[j]? = some a → ∃ b, l'[j]? = some b ∧ P (i + j) a b
  | [], _, _ => ⟨[], rfl, by simp⟩
  | a :: t, i, h => by
    obtain ⟨b, hb⟩ := h 0 a rfl
    obtain ⟨t', l1, ht⟩ := choose_list t (i + 1) (P := P) (fun j c hj => by
      obtain ⟨d, hd⟩ := h (j + 1) c (by simpa using hj)
      exact ⟨d, by rw [show i + 1 + j = i + (j + 1) by omega]; exact hd⟩)
    refine ⟨b :: t', by simp [l1], fun j c hj => ?_⟩
    cases j with
    | zero => simp at hj; subst hj; exact ⟨b, rfl, hb⟩
    | succ j =>
      obtain ⟨d, k1, k2⟩ := ht j c (by simpa using hj)
      exact ⟨d, by simpa using k1, by rw [show i + (j + 1) = i + 1 + j by omega]; exact k2⟩

theorem alone_inv {C : Crypto} {R : Rand} {i : Nat} {r : Rcpt} {vs : List Val} {rs : List Rcpt}
    (h : rcptsEncode C (Spec.drawnFor R i) [] 0 [r] = .ok (vs, rs)) : ∃ v r', vs = [v] ∧ rs = [r'] ∧ rcptEncode C R [i] r = .ok (v, r') := by
  simp only [rcptsEncode, List.nil_append, rcptEncode_drawn, bind_eq_ok] at h
  obtain ⟨⟨v, r'⟩, h1, ⟨a, b⟩, h2, h3⟩ := h
  simp at h2 h3
  obtain ⟨rfl, rfl⟩ := h2
  obtain ⟨rfl, rfl⟩ := h3
  exact ⟨v, r', rfl, rfl, h1⟩

/-- `encrypt` succeeds for all recipients together when it does for each of them. -/
theorem encrypt_together {C : Crypto} {R : Rand} {m : Enc} (hr : Spec.RecipientRules m.recipients)
    (hp : ∀ r ∈ m.recipients, r.base.payload = some [])
    (h : ∀ i r, m.recipients[i]? = some r → ((Spec.alone m r).encrypt C (Spec.drawnFor R i)).isOk = true) :
    (m.encrypt C R).isOk = true := by
  have h : ∀ i r, m.recipients[i]? = some r → ∃ c m1, (Spec.alone m r).encrypt C (Spec.drawnFor R i) = .ok (c, m1) := by
    intro i r hi
    have := h i r hi
    cases e : (Spec.alone m r).encrypt C (Spec.drawnFor R i) with
    | error _ => rw [e] at this; simp [Except.isOk, Except.toBool] at this
    | ok p => exact ⟨p.1, p.2, rfl⟩
  suffices hs : ∃ c m1, m.encrypt C R = .ok (c, m1) by
    obtain ⟨c, m1, hs⟩ := hs
    rw [hs]; rfl
  have hmem : ∀ (j : Nat) r, m.recipients[j]? = some r → r ∈ m.recipients := fun j r h => List.mem_of_getElem? h
  obtain ⟨r0, t0, hm0⟩ : ∃ r0 t0, m.recipients = r0 :: t0 := by
    cases hm : m.recipients with
    | nil => exact absurd hm hr.nonempty
    | cons r t => exact ⟨r, t, rfl⟩
  obtain ⟨c0, m0, h0⟩ := h 0 r0 (by rw [hm0]; rfl)
  have hr0 : r0 ∈ m.recipients := by rw [hm0]; simp
  cases Classical.em (∃ r ∈ m.recipients, r.cls = .directEncryption) with
  | inl hd =>
    have hd := hr.direct hd
    obtain ⟨target, g0, g1, _⟩ := (encrypt_direct (m := Spec.alone m r0) (by simpa [Spec.alone] using hd r0 hr0) (by simp [Spec.alone])).mp h0
    exact ⟨c0, m, (encrypt_direct hd hr.nonempty).mpr ⟨target, g0, g1, rfl⟩⟩
  | inr hd =>
    cases Classical.em (∃ r ∈ m.recipients, r.cls = .directKeyAgreement) with
    | inl ha =>
      have h1 := hr.agreement ha
      have hm : m.recipients = [r0] := by rw [hm0] at h1 ⊢; simp at h1; rw [h1]
      have e1 : Spec.alone m r0 = m := by rw [Spec.alone, ← hm]
      have hv : verifyRecipients m.recipients = .ok (m.recipients.map Rcpt.cls) :=
        verifyRecipients_iff.mpr ⟨rfl, hr.direct, fun _ => by rw [h1]; exact Nat.le_refl 1⟩
      rw [e1] at h0
      have ha' : (m.recipients.map Rcpt.cls).contains RCls.directKeyAgreement = true := by simpa using ha
      have hd' : (m.recipients.map Rcpt.cls).contains RCls.directEncryption = false := by
        rw [Bool.eq_false_iff]; simpa using hd
      refine ⟨c0, m0, ?_⟩
      rw [← h0]
      simp only [Enc.encrypt, hv, ok_bind, hd', ha', if_true, Bool.false_eq_true, if_false]
    | inr ha =>
      have hw : Spec.Wrapped m := by
        intro r hr
        cases hc : r.cls with
        | directEncryption => exact absurd ⟨r, hr, hc⟩ hd
        | directKeyAgreement => exact absurd ⟨r, hr, hc⟩ ha
        | keyWrap => exact .inl rfl
        | keyAgreementWithKeyWrap => exact .inr rfl
      have aw : ∀ r ∈ m.recipients, Spec.Wrapped (Spec.alone m r) := by
        intro r hr s hs; simp [Spec.alone] at hs; subst hs; exact hw _ hr
      have ap : ∀ r ∈ m.recipients, ∀ s ∈ (Spec.alone m r).recipients, s.base.payload = some [] := by
        intro r hr s hs; simp [Spec.alone] at hs; subst hs; exact hp _ hr
      obtain ⟨target, n, k, g0, gn, g2, g3, g4, _, _⟩ := (encrypt_wrapped (aw r0 hr0) (by simp [Spec.alone]) (ap r0 hr0)).mp h0
      obtain ⟨rs', l1, hrs⟩ := choose_list (P := fun j r r' => ∃ w, rcptEncrypt C R 0 [j] (r.withBase { r.base with payload := some (R.cek n) }) = .ok (w, r'))
        m.recipients 0 (fun j r hj => by
          obtain ⟨c1, m1, h1⟩ := h j r hj
          obtain ⟨target', n', k', f0, fn, f2, f3, f4, f5, f6⟩ := (encrypt_wrapped (aw r (hmem j r hj)) (by simp [Spec.alone]) (ap r (hmem j r hj))).mp h1
          have e0 : target' = target := by
            have : (Spec.alone m r).base.getAttr Hdr.Algorithm = (Spec.alone m r0).base.getAttr Hdr.Algorithm := rfl
            rw [f0, g0] at this
            exact Except.ok.inj this
          subst e0
          have en : n' = n := by rw [fn] at gn; exact Except.ok.inj gn
          subst en
          obtain ⟨w, r', _, f8⟩ := f6 0 r rfl
          exact ⟨r', w, by rw [Nat.zero_add]; exact f8⟩)
      refine ⟨c0, { m with base := m0.base, recipients := rs' }, (encrypt_wrapped hw hr.nonempty hp).mpr
        ⟨target, n, k, g0, gn, g2, g3, g4, l1, fun j r hj => ?_⟩⟩
      obtain ⟨r', k1, w, k2⟩ := hrs j r hj
      exact ⟨w, r', k1, by simpa using k2⟩

/-- **C78**, sender: recipients that obey the structure rules together and can each be encoded alone can be encoded together, so no
recipient makes the encoding of another one fail. -/
theorem c78_enc_join {C : Crypto} {R : Rand} {m : Enc} {tag e : Bool} (hr : Spec.RecipientRules m.recipients)
    (hlen : m.recipients.length < 2 ^ 64) (hp : e = true → ∀ r ∈ m.recipients, r.base.payload = some [])
    (h : ∀ i r, m.recipients[i]? = some r → ((Spec.alone m r).encode C (Spec.drawnFor R i) tag e).isOk = true) :
    (m.encode C R tag e).isOk = true := by
  have hmem : ∀ (j : Nat) r, m.recipients[j]? = some r → r ∈ m.recipients := fun j r h => List.mem_of_getElem? h
  have h : ∀ i r, m.recipients[i]? = some r → ∃ o m1, (Spec.alone m r).encode C (Spec.drawnFor R i) tag e = .ok (o, m1) := by
    intro i r hi
    have := h i r hi
    cases e : (Spec.alone m r).encode C (Spec.drawnFor R i) tag e with
    | error _ => rw [e] at this; simp [Except.isOk, Except.toBool] at this
    | ok p => exact ⟨p.1, p.2, rfl⟩
  obtain ⟨r0, t0, hm0⟩ : ∃ r0 t0, m.recipients = r0 :: t0 := by
    cases hm : m.recipients with
    | nil => exact absurd hm hr.nonempty
    | cons r t => exact ⟨r, t, rfl⟩
  -- the part before the recipients
  obtain ⟨o0, m0, h0⟩ := h 0 r0 (by rw [hm0]; rfl)
  obtain ⟨pe, x0, n0, a0, vs0, rs0, f1, f2, f3, f4, f5, _⟩ := (encode_iff (fun _ _ => encrypt_nonempty) (by simp [Spec.alone])).mp h0
  -- the message after `encrypt`
  have hm1 : ∃ x m1, (if e then ∃ c, m.encrypt C R = .ok (c, m1) ∧ x = .bytes c else m1 = m ∧ x = optBytes m.base.payload) ∧
      m1.recipients.length = m.recipients.length ∧
      ∀ (j : Nat) r, m.recipients[j]? = some r → ∃ r', m1.recipients[j]? = some r' ∧
        (if e = true then ∃ c, (Spec.alone m r).encrypt C (Spec.drawnFor R j) = .ok (c, Spec.alone m1 r') ∧ x = .bytes c
          else Spec.alone m1 r' = Spec.alone m r ∧ x = optBytes m.base.payload) := by
    cases e with
    | false => exact ⟨optBytes m.base.payload, m, by simp, rfl, fun j r hj => ⟨r, hj, by simp⟩⟩
    | true =>
      have he : (m.encrypt C R).isOk = true := encrypt_together hr (hp rfl) (fun i r hi => by
        obtain ⟨o, q, g⟩ := h i r hi
        obtain ⟨_, _, _, _, _, _, _, g2, _⟩ := (encode_iff (fun _ _ => encrypt_nonempty) (by simp [Spec.alone])).mp g
        simp only [if_true] at g2
        obtain ⟨c, g2, _⟩ := g2
        rw [g2]; rfl)
      cases hc : m.encrypt C R with
      | error _ => rw [hc] at he; simp [Except.isOk, Except.toBool] at he
      | ok p =>
        obtain ⟨c, m1⟩ := p
        obtain ⟨k1, k2⟩ := encrypt_alone hr (hp rfl) hc
        refine ⟨.bytes c, m1, by simp, k1, fun j r hj => ?_⟩
        obtain ⟨r', k3, k4⟩ := k2 j r hj
        exact ⟨r', k3, by simpa using k4⟩
  obtain ⟨x, m1, hx, l1, hs⟩ := hm1
  -- each recipient of it
  have each : ∀ (j : Nat) r1, m1.recipients[j]? = some r1 → ∃ p : Val × Rcpt × Bytes × Bytes,
      rcptEncode C R [j] r1 = .ok (p.1, p.2.1) ∧ dumps fullname m1.base.mode p.1 = .ok p.2.2.1 ∧
      before m1.base 96 tag [.bytes pe, .map m.base.uhdr, x] p.2.2.2 ∧ ∃ a, m1.base.getAttr Hdr.Algorithm = .ok a := by
    intro j r1 hj
    obtain ⟨r, hr1⟩ : ∃ r, m.recipients[j]? = some r := by
      have : j < m1.recipients.length := (List.getElem?_eq_some_iff.mp hj).1
      exact ⟨_, List.getElem?_eq_getElem (by omega)⟩
    obtain ⟨r1', k1, k2⟩ := hs j r hr1
    rw [hj] at k1; obtain rfl := Option.some.inj k1
    obtain ⟨o, q, g⟩ := h j r hr1
    obtain ⟨pe', x', n1, a, vs, rs, e1, e2, e3, e4, e5, _⟩ := (encode_iff (fun _ _ => encrypt_nonempty) (by simp [Spec.alone])).mp g
    have epe : pe' = pe := by
      have : (Spec.alone m r).base.phdrEncoded = (Spec.alone m r0).base.phdrEncoded := rfl
      rw [e1, f1] at this; exact Except.ok.inj this
    subst epe
    have en : n1 = Spec.alone m1 r1 ∧ x' = x := by
      cases e with
      | false =>
        simp only [Bool.false_eq_true, if_false] at e2 k2
        exact ⟨e2.1.trans k2.1.symm, e2.2.trans k2.2.symm⟩
      | true =>
        simp only [if_true] at e2 k2
        obtain ⟨c, e2, rfl⟩ := e2
        obtain ⟨c', k2, rfl⟩ := k2
        rw [e2] at k2
        simp at k2
        exact ⟨k2.2, by rw [k2.1]⟩
    obtain ⟨rfl, rfl⟩ := en
    obtain ⟨v, r', rfl, rfl, w1⟩ := alone_inv e4
    obtain ⟨pre, hd, es, b1, _, b3, _⟩ := finish_list.mp e5
    obtain ⟨ent, _, _, b4, _⟩ := dumpsEach_cons.mp b3
    exact ⟨(v, r', ent, pre), w1, b4, b1, a, e3⟩
  obtain ⟨ps, l2, hps⟩ := choose_list (P := fun j r (p : Val × Rcpt × Bytes × Bytes) => rcptEncode C R [j] r = .ok (p.1, p.2.1) ∧
      dumps fullname m1.base.mode p.1 = .ok p.2.2.1 ∧ before m1.base 96 tag [.bytes pe, .map m.base.uhdr, x] p.2.2.2 ∧
      ∃ a, m1.base.getAttr Hdr.Algorithm = .ok a) m1.recipients 0 (fun j r hj => by simpa using each j r hj)
  obtain ⟨head, hhead⟩ := encHead_small (mt := 4) hlen
  obtain ⟨r1, hr1⟩ : ∃ r, m1.recipients[0]? = some r := ⟨_, List.getElem?_eq_getElem (by rw [l1, hm0]; simp)⟩
  obtain ⟨p1, _, _, b1, a, ha⟩ := each 0 r1 hr1
  have fin : m.encode C R tag e = .ok (p1.2.2.2 ++ head ++ (ps.map (·.2.2.1)).flatten, { m1 with recipients := ps.map (·.2.1) }) := by
    refine (encode_iff (fun _ _ => encrypt_nonempty) hr.nonempty).mpr ⟨pe, x, m1, a, ps.map (·.1), ps.map (·.2.1), f1, hx, ha, ?_, ?_, rfl⟩
    · refine (rcptsEncode_each _).mpr ⟨by simp [l2], by simp [l2], fun j r hj => ?_⟩
      obtain ⟨p, c1, c2, _⟩ := hps j r hj
      exact ⟨p.1, p.2.1, by simp [c1], by simp [c1], by simpa using c2⟩
    · refine finish_list.mpr ⟨p1.2.2.2, head, ps.map (·.2.2.1), b1, by simpa [l2, l1] using hhead, ⟨by simp, fun j v hj => ?_⟩, rfl⟩
      simp only [List.getElem?_map, Option.map_eq_some_iff] at hj
      obtain ⟨p, c1, rfl⟩ := hj
      obtain ⟨r, hr2⟩ : ∃ r, m1.recipients[j]? = some r := by
        have : j < ps.length := (List.getElem?_eq_some_iff.mp c1).1
        exact ⟨_, List.getElem?_eq_getElem (by omega)⟩
      obtain ⟨p', d1, d2, d3, _⟩ := hps j r hr2
      rw [c1] at d1; obtain rfl := Option.some.inj d1
      exact ⟨_, by simp [c1], d3⟩
  rw [fin]; rfl

/-! ### Signers -/

theorem signersEncode_each {C : Crypto} {rnd : Nat → Bytes} {p : Base} {det : Option Bytes} :
    ∀ (ss : List Base) {i : Nat} {vs : List Val}, signersEncode C rnd p det i ss = .ok vs ↔
      vs.length = ss.length ∧ ∀ j s, ss[j]? = some s → ∃ v, vs[j]? = some v ∧ signerEncode C (rnd (i + j)) p s det = .ok v
  | [], i, vs => by simp [signersEncode, List.length_eq_zero_iff]
  | s :: t, i, vs => by
    simp only [signersEncode, bind_eq_ok]
    constructor
    · rintro ⟨v, h1, vs', h2, h3⟩
      simp at h3; subst h3
      obtain ⟨l1, h2⟩ := (signersEncode_each t).mp h2
      refine ⟨by simp [l1], fun j q hj => ?_⟩
      cases j with
      | zero => simp at hj; subst hj; exact ⟨v, rfl, h1⟩
      | succ j =>
        obtain ⟨w, g1, g2⟩ := h2 j q (by simpa using hj)
        exact ⟨w, by simpa using g1, by rw [show i + (j + 1) = i + 1 + j by omega]; exact g2⟩
    · rintro ⟨l1, h⟩
      match vs with
      | [] => simp at l1
      | v :: vs' =>
        obtain ⟨v0, g1, g2⟩ := h 0 s rfl
        simp at g1; subst g1
        refine ⟨v, g2, vs', (signersEncode_each t).mpr ⟨by simpa using l1, fun j q hj => ?_⟩, rfl⟩
        obtain ⟨w, k1, k2⟩ := h (j + 1) q (by simpa using hj)
        exact ⟨w, by simpa using k1, by rw [show i + 1 + j = i + (j + 1) by omega]; exact k2⟩

theorem sign_encode_iff {C : Crypto} {rnd : Nat → Bytes} {m : SignMsg} {tag : Bool} {det : Option Bytes} {out : Bytes} (hne : m.signers ≠ []) :
    m.encode C rnd tag det = .ok out ↔ ∃ pe vs, m.base.phdrEncoded = .ok pe ∧ signersEncode C rnd m.base det 0 m.signers = .ok vs ∧
      m.base.finish 98 tag ([.bytes pe, .map m.base.uhdr, optBytes m.base.payload] ++ [.arr vs]) = .ok out := by
  have hl : m.signers.length ≠ 0 := by simpa [List.length_eq_zero_iff] using hne
  unfold SignMsg.encode
  simp only [hl, ne_eq, not_false_eq_true, if_true, bind_eq_ok]
  constructor
  · rintro ⟨pe, h1, vs, h2, _, h3, h4⟩
    obtain rfl := Except.ok.inj h3
    exact ⟨pe, vs, h1, h2, h4⟩
  · rintro ⟨pe, vs, h1, h2, h3⟩
    exact ⟨pe, h1, vs, h2, _, rfl, h3⟩

/-- **C78**, signers: a COSE_Sign message consists of a part that does not depend on the signers, the head of an array and one entry for
every signer; entry `i` is exactly what the message with signer `i` alone contains.  Together they can be encoded if and only if each
of them can be encoded alone. -/
theorem c78_sign_split {C : Crypto} {rnd : Nat → Bytes} {m : SignMsg} {tag : Bool} {det : Option Bytes} {out : Bytes} (hne : m.signers ≠ [])
    (h : m.encode C rnd tag det = .ok out) :
    ∃ (common head : Bytes) (entries : List Bytes), out = common ++ head ++ entries.flatten ∧ encHead 4 m.signers.length = .ok head ∧
      entries.length = m.signers.length ∧
      ∀ i s, m.signers[i]? = some s → ∃ entry, entries[i]? = some entry ∧
        SignMsg.encode C (fun _ => rnd i) { m with signers := [s] } tag det = .ok (common ++ [0x81] ++ entry) := by
  obtain ⟨pe, vs, h1, h2, h3⟩ := (sign_encode_iff hne).mp h
  obtain ⟨l1, h2⟩ := (signersEncode_each _).mp h2
  obtain ⟨pre, hd, es, g1, g2, ⟨l3, g3⟩, rfl⟩ := finish_list.mp h3
  refine ⟨pre, hd, es, rfl, by rw [← l1]; exact g2, by rw [l3, l1], fun i s hi => ?_⟩
  obtain ⟨v, k1, k2⟩ := h2 i s hi
  obtain ⟨ent, k3, k4⟩ := g3 i v k1
  refine ⟨ent, k3, (sign_encode_iff (by simp)).mpr ⟨pe, [v], h1, ?_, ?_⟩⟩
  · rw [Nat.zero_add] at k2
    simp only [signersEncode, k2, ok_bind]
  · exact finish_list.mpr ⟨pre, [0x81], [ent], g1, rfl, dumpsEach_single k4, by simp⟩

theorem c78_sign_join {C : Crypto} {rnd : Nat → Bytes} {m : SignMsg} {tag : Bool} {det : Option Bytes} (hne : m.signers ≠ [])
    (hlen : m.signers.length < 2 ^ 64)
    (h : ∀ i s, m.signers[i]? = some s → (SignMsg.encode C (fun _ => rnd i) { m with signers := [s] } tag det).isOk = true) :
    (m.encode C rnd tag det).isOk = true := by
  have each : ∀ (i : Nat) s, m.signers[i]? = some s → ∃ p : Val × Bytes × Bytes × Bytes, m.base.phdrEncoded = .ok p.2.2.2 ∧
      signerEncode C (rnd i) m.base s det = .ok p.1 ∧ dumps fullname m.base.mode p.1 = .ok p.2.1 ∧
      before m.base 98 tag [.bytes p.2.2.2, .map m.base.uhdr, optBytes m.base.payload] p.2.2.1 := by
    intro i s hi
    have := h i s hi
    cases e : SignMsg.encode C (fun _ => rnd i) { m with signers := [s] } tag det with
    | error _ => rw [e] at this; simp [Except.isOk, Except.toBool] at this
    | ok o =>
      obtain ⟨pe, vs, h1, h2, h3⟩ := (sign_encode_iff (by simp)).mp e
      simp only [signersEncode, bind_eq_ok] at h2
      obtain ⟨v, h2, _, h5, h4⟩ := h2
      simp at h5 h4; subst h5; subst h4
      obtain ⟨pre, hd, es, b1, _, b3, _⟩ := finish_list.mp h3
      obtain ⟨ent, _, _, b4, _⟩ := dumpsEach_cons.mp b3
      exact ⟨(v, ent, pre, pe), h1, h2, b4, b1⟩
  obtain ⟨s0, t0, hm0⟩ : ∃ s0 t0, m.signers = s0 :: t0 := by
    cases hm : m.signers with
    | nil => exact absurd hm hne
    | cons r t => exact ⟨r, t, rfl⟩
  obtain ⟨p0, f1, _, _, f4⟩ := each 0 s0 (by rw [hm0]; rfl)
  obtain ⟨ps, l2, hps⟩ := choose_list (P := fun i s (p : Val × Bytes × Bytes × Bytes) => m.base.phdrEncoded = .ok p.2.2.2 ∧
      signerEncode C (rnd i) m.base s det = .ok p.1 ∧ dumps fullname m.base.mode p.1 = .ok p.2.1 ∧
      before m.base 98 tag [.bytes p.2.2.2, .map m.base.uhdr, optBytes m.base.payload] p.2.2.1) m.signers 0
      (fun j s hj => by simpa using each j s hj)
  obtain ⟨head, hhead⟩ := encHead_small (mt := 4) hlen
  have fin : m.encode C rnd tag det = .ok (p0.2.2.1 ++ head ++ (ps.map (·.2.1)).flatten) := by
    refine (sign_encode_iff hne).mpr ⟨p0.2.2.2, ps.map (·.1), f1, ?_, ?_⟩
    · refine (signersEncode_each _).mpr ⟨by simp [l2], fun j s hj => ?_⟩
      obtain ⟨p, c1, _, c2, _⟩ := hps j s hj
      exact ⟨p.1, by simp [c1], c2⟩
    · refine finish_list.mpr ⟨p0.2.2.1, head, ps.map (·.2.1), f4, by simpa [l2] using hhead, ⟨by simp, fun j v hj => ?_⟩, rfl⟩
      simp only [List.getElem?_map, Option.map_eq_some_iff] at hj
      obtain ⟨p, c1, rfl⟩ := hj
      obtain ⟨s, hs⟩ : ∃ s, m.signers[j]? = some s := by
        have : j < ps.length := (List.getElem?_eq_some_iff.mp c1).1
        exact ⟨_, List.getElem?_eq_getElem (by omega)⟩
      obtain ⟨p', d1, _, _, d3, _⟩ := hps j s hs
      rw [c1] at d1; obtain rfl := Option.some.inj d1
      exact ⟨_, by simp [c1], d3⟩
  rw [fin]; rfl

/-! ### Receiving -/

/-- **C78**, receiver: what a recipient that is handed the content key obtains does not depend on which other such recipients the
message has, nor on the order of the recipients. -/
theorem c78_decrypt {C : Crypto} {m m' : Enc} {r : Rcpt} (hb : m'.base = m.base) (hw : Spec.Wrapped m) (hw' : Spec.Wrapped m')
    (hr : r ∈ m.recipients) (hr' : r ∈ m'.recipients) :
    (m'.decrypt C r).map (fun p => (p.1, p.2.base)) = (m.decrypt C r).map (fun p => (p.1, p.2.base)) := by
  have key : ∀ q : Enc, Spec.Wrapped q → r ∈ q.recipients → q.decrypt C r = (do
      let target ← q.base.getAttr Hdr.Algorithm
      let k ← rcptComputeCek C r target
      let p ← encDecrypt C b!"Encrypt" { q.base with key := some k }
      .ok (p, { q with base := { q.base with key := some k } })) := by
    intro q hw hr
    have hv : verifyRecipients q.recipients = .ok (q.recipients.map Rcpt.cls) := by
      refine verifyRecipients_iff.mpr ⟨rfl, ?_, ?_⟩ <;> rintro ⟨r, hr, e⟩ <;> rcases hw r hr with h | h <;> simp [h] at e
    obtain ⟨k1, k2⟩ := kw_not_direct hw
    have hk : (q.recipients.map Rcpt.cls).contains RCls.directKeyAgreement = true ∨ (q.recipients.map Rcpt.cls).contains RCls.keyWrap = true ∨
        (q.recipients.map Rcpt.cls).contains RCls.keyAgreementWithKeyWrap = true := by
      rcases hw r hr with h | h
      · exact .inr (.inl (by simpa using ⟨r, hr, h⟩))
      · exact .inr (.inr (by simpa using ⟨r, hr, h⟩))
    unfold Enc.decrypt
    rw [hasRecipient_mem hr]
    simp only [hv, ok_bind, k1, Bool.true_eq_false, Bool.false_eq_true, if_false, if_pos hk]
  rw [key m hw hr, key m' hw' hr', hb]
  cases m.base.getAttr Hdr.Algorithm with
  | error e => rfl
  | ok target =>
    simp only [ok_bind]
    cases rcptComputeCek C r target with
    | error e => rfl
    | ok k =>
      simp only [ok_bind]
      cases encDecrypt C b!"Encrypt" { m.base with key := some k } <;> rfl

theorem createRecipients_get {C : Crypto} {allow : Bool} {ctx : Bytes} : ∀ {l : List Val} {i : Nat} {rs : List Rcpt},
    createRecipients C allow ctx i l = .ok rs → ∀ (j : Nat) v, l[j]? = some v → ∃ r, rs[j]? = some r ∧ createRecipient C allow ctx (i + j) v = .ok r
  | [], _, _, _ => by simp
  | w :: t, i, rs, h => by
    simp only [createRecipients, bind_eq_ok] at h
    obtain ⟨r, h1, rs', h2, h3⟩ := h
    simp at h3; subst h3
    intro j v hj
    cases j with
    | zero => simp at hj; subst hj; exact ⟨r, rfl, h1⟩
    | succ j =>
      obtain ⟨r', g1, g2⟩ := createRecipients_get h2 j v (by simpa using hj)
      exact ⟨r', by simpa using g1, by rw [show i + (j + 1) = i + 1 + j by omega]; exact g2⟩

theorem base_rest {C : Crypto} {allow : Bool} {a b c : Val} {l l' r : List Val} {q : Base}
    (h : baseFromObj C (a :: b :: c :: l) allow = .ok (q, r)) : baseFromObj C (a :: b :: c :: l') allow = .ok (q, l') := by
  obtain ⟨pe, uh, e, g⟩ := baseFromObj_iff.mp h
  simp at e
  obtain ⟨rfl, rfl, rfl, rfl⟩ := e
  exact baseFromObj_iff.mpr ⟨_, _, rfl, g⟩

/-- The message a byte string of this form is decoded to. -/
theorem enc_received {C : Crypto} {cls : DecCls} {allow : Bool} {w : Bytes} {m : Enc} {a b c : Val} {vs : List Val}
    (h : decode C cls allow w = .ok (.enc m)) (hw : loads w = .ok (.tag 96 (.arr [a, b, c, .arr vs]))) (hne : m.recipients ≠ []) :
    baseFromObj C [a, b, c, .arr vs] allow = .ok (m.base, [.arr vs]) ∧ createRecipients C allow b!"Enc_Recipient" 0 vs = .ok m.recipients := by
  obtain ⟨n, obj, k, h1, h2, h3, h4, h5⟩ := decode_iff.mp h
  simp only [Msg.kind] at h5; subst h5
  rw [hw] at h1
  simp at h1
  obtain ⟨rfl, rfl⟩ := h1
  simp only [fromObj, Enc.fromObj, bind_eq_ok] at h3
  obtain ⟨m', ⟨⟨q, r⟩, g1, g3⟩, g4⟩ := h3
  simp at g4; subst g4
  have er : r = [.arr vs] := by
    obtain ⟨p, u, pl, e⟩ := fromObj_short g1
    simp at e
    exact e.2.2.2.symm
  subst er
  simp only [recipientsOf, pop0, iterRecipients, ok_bind] at g3
  split at g3
  · rename_i rs hrs
    simp at g3; subst g3
    exact ⟨g1, hrs⟩
  · split at g3
    · simp at g3; subst g3; exact absurd rfl hne
    · simp at g3

/-- **C78**, receiver: recipient `i` of a received message depends on its own entry only.  If two received messages agree in everything
but the entries of other recipients, and the recipients of both are recognised and are handed the content key, then recipient `i`,
given any key, obtains the same result from both. -/
theorem c78_received {C : Crypto} {cls cls' : DecCls} {allow : Bool} {w w' : Bytes} {m m' : Enc} {a b c : Val} {vs vs' : List Val}
    (h : decode C cls allow w = .ok (.enc m)) (h' : decode C cls' allow w' = .ok (.enc m'))
    (hl : loads w = .ok (.tag 96 (.arr [a, b, c, .arr vs]))) (hl' : loads w' = .ok (.tag 96 (.arr [a, b, c, .arr vs'])))
    (hne : m.recipients ≠ []) (hne' : m'.recipients ≠ []) {i : Nat} {v : Val} (hi : vs[i]? = some v) (hi' : vs'[i]? = some v) :
    m'.base = m.base ∧ ∃ r, m.recipients[i]? = some r ∧ m'.recipients[i]? = some r ∧
      (Spec.Wrapped m → Spec.Wrapped m' → ∀ k : Key,
        (Enc.decrypt C { m' with recipients := m'.recipients.set i (r.withKey (some k)) } (r.withKey (some k))).map (·.1) =
        (Enc.decrypt C { m with recipients := m.recipients.set i (r.withKey (some k)) } (r.withKey (some k))).map (·.1)) := by
  obtain ⟨g1, g2⟩ := enc_received h hl hne
  obtain ⟨g1', g2'⟩ := enc_received h' hl' hne'
  have hb : m'.base = m.base := by
    have := base_rest g1 (l' := [.arr vs'])
    rw [g1'] at this
    simp at this
    exact this
  obtain ⟨r, k1, k2⟩ := createRecipients_get g2 i v hi
  obtain ⟨r', k1', k2'⟩ := createRecipients_get g2' i v hi'
  rw [k2] at k2'
  obtain rfl := Except.ok.inj k2'
  refine ⟨hb, r, k1, k1', fun hw hw' k => ?_⟩
  have wr : ∀ q : Enc, Spec.Wrapped q → q.recipients[i]? = some r →
      Spec.Wrapped { q with recipients := q.recipients.set i (r.withKey (some k)) } ∧ r.withKey (some k) ∈ q.recipients.set i (r.withKey (some k)) := by
    intro q hw hq
    have hlt : i < q.recipients.length := (List.getElem?_eq_some_iff.mp hq).1
    refine ⟨fun s hs => ?_, List.mem_set hlt _⟩
    rcases List.mem_or_eq_of_mem_set hs with hs | rfl
    · exact hw s hs
    · have := hw r (List.mem_of_getElem? hq)
      cases r; exact this
  obtain ⟨w1, w2⟩ := wr m hw k1
  obtain ⟨w1', w2'⟩ := wr m' hw' k1'
  have := congrArg (Except.map Prod.fst) (c78_decrypt (C := C) (m := { m with recipients := m.recipients.set i (r.withKey (some k)) })
    (m' := { m' with recipients := m'.recipients.set i (r.withKey (some k)) }) hb w1 w1' w2 w2')
  have mm : ∀ x : Res (Bytes × Enc), Except.map Prod.fst (Except.map (fun p => (p.1, p.2.base)) x) = x.map (·.1) := by
    intro x; cases x <;> rfl
  rw [mm, mm] at this
  exact this

theorem signersFromObj_get {C : Crypto} {allow : Bool} : ∀ {l : List Val} {ss : List Base}, signersFromObj C allow l = .ok ss →
    ss.length = l.length ∧ ∀ (j : Nat) v, l[j]? = some v → ∃ s, ss[j]? = some s ∧ signerFromObj C allow v = .ok s
  | [], ss, h => by simp [signersFromObj] at h; subst h; simp
  | w :: t, ss, h => by
    simp only [signersFromObj, bind_eq_ok] at h
    obtain ⟨s, h1, ss', h2, h3⟩ := h
    simp at h3; subst h3
    obtain ⟨l1, h2⟩ := signersFromObj_get h2
    refine ⟨by simp [l1], fun j v hj => ?_⟩
    cases j with
    | zero => simp at hj; subst hj; exact ⟨s, rfl, h1⟩
    | succ j =>
      obtain ⟨s', g1, g2⟩ := h2 j v (by simpa using hj)
      exact ⟨s', by simpa using g1, g2⟩

theorem sign_received {C : Crypto} {cls : DecCls} {allow : Bool} {w : Bytes} {m : SignMsg} {a b c : Val} {vs : List Val}
    (h : decode C cls allow w = .ok (.sign m)) (hw : loads w = .ok (.tag 98 (.arr [a, b, c, .arr vs]))) :
    baseFromObj C [a, b, c, .arr vs] allow = .ok (m.base, [.arr vs]) ∧ signersFromObj C allow vs = .ok m.signers := by
  obtain ⟨n, obj, k, h1, h2, h3, h4, h5⟩ := decode_iff.mp h
  simp only [Msg.kind] at h5; subst h5
  rw [hw] at h1
  simp at h1
  obtain ⟨rfl, rfl⟩ := h1
  simp only [fromObj, SignMsg.fromObj, bind_eq_ok] at h3
  obtain ⟨m', ⟨⟨q, r⟩, g1, ⟨v, r2⟩, g2, l, g3, ss, g4, g5⟩, g6⟩ := h3
  simp at g6; subst g6
  simp at g5; subst g5
  have er : r = [.arr vs] := by
    obtain ⟨p, u, pl, e⟩ := fromObj_short g1
    simp at e
    exact e.2.2.2.symm
  subst er
  simp [pop0] at g2
  obtain ⟨rfl, rfl⟩ := g2
  simp [iterSigners] at g3
  subst g3
  exact ⟨g1, g4⟩

/-- **C78**, receiver: signer `i` of a received COSE_Sign message, and with it the result of verifying it with any key and any
detached payload, depends on the message itself and on its own entry only. -/
theorem c78_sign_received {C : Crypto} {cls cls' : DecCls} {allow : Bool} {w w' : Bytes} {m m' : SignMsg} {a b c : Val} {vs vs' : List Val}
    (h : decode C cls allow w = .ok (.sign m)) (h' : decode C cls' allow w' = .ok (.sign m'))
    (hl : loads w = .ok (.tag 98 (.arr [a, b, c, .arr vs]))) (hl' : loads w' = .ok (.tag 98 (.arr [a, b, c, .arr vs'])))
    {i : Nat} {v : Val} (hi : vs[i]? = some v) (hi' : vs'[i]? = some v) :
    m'.base = m.base ∧ ∃ s, m.signers[i]? = some s ∧ m'.signers[i]? = some s ∧
      ∀ (k : Key) (det : Option Bytes), signerVerify C m'.base { s with key := some k } det = signerVerify C m.base { s with key := some k } det := by
  obtain ⟨g1, g2⟩ := sign_received h hl
  obtain ⟨g1', g2'⟩ := sign_received h' hl'
  have hb : m'.base = m.base := by
    have := base_rest g1 (l' := [.arr vs'])
    rw [g1'] at this
    simp at this
    exact this
  obtain ⟨s, k1, k2⟩ := (signersFromObj_get g2).2 i v hi
  obtain ⟨s', k1', k2'⟩ := (signersFromObj_get g2').2 i v hi'
  rw [k2] at k2'
  obtain rfl := Except.ok.inj k2'
  exact ⟨hb, s, k1, k1', fun k det => by rw [hb]⟩

/-! ### The hypotheses are met -/

example : Sample.encMix.recipients.length = 4 ∧ (∀ r ∈ Sample.encMix.recipients, r.base.payload = some []) ∧
    (Sample.encMix.encode toy Sample.rand true true).isOk = true ∧
    (∀ i ∈ [0, 1, 2, 3], ∀ r ∈ Sample.encMix.recipients[i]?, ((Spec.alone Sample.encMix r).encode toy (Spec.drawnFor Sample.rand i) true true).isOk = true) ∧
    Sample.sign.signers.length = 2 ∧ (Sample.sign.encode toy (fun _ => []) true none).isOk = true := by
  refine ⟨by decide +kernel, by decide +kernel, by decide +kernel, by decide +kernel, by decide +kernel, by decide +kernel⟩

/-- Two received messages with the same second recipient. -/
def Sample.wireTwo (a : Nat) : Bytes :=
  (((Enc.encode toy Sample.rand { Sample.encKw with recipients := [((Sample.kwRcpt a).withBase
    { (Sample.kwRcpt a).base with uhdr := [(.cls Hdr.Algorithm, algCls (-3)), (.cls Hdr.KID, .bytes [UInt8.ofNat a])] }), Sample.kwRcpt 2] } true true).toOption.map
      (·.1)).getD [])

/-- The elements of a message with two recipients. -/
def Sample.parts : Res Val → Option ((Val × Val × Val) × Val × Val)
  | .ok (.tag 96 (.arr [a, b, c, .arr [v1, v2]])) => some ((a, b, c), v1, v2)
  | _ => none

theorem Sample.parts_ok {r : Res Val} {a b c v1 v2 : Val} (h : Sample.parts r = some ((a, b, c), v1, v2)) :
    r = .ok (.tag 96 (.arr [a, b, c, .arr [v1, v2]])) := by
  unfold Sample.parts at h
  split at h
  · simp at h
    obtain ⟨⟨rfl, rfl, rfl⟩, rfl, rfl⟩ := h
    rfl
  · simp at h

example : Sample.wireTwo 1 ≠ Sample.wireTwo 3 ∧ (∃ m m' : Enc, decode toy .any false (Sample.wireTwo 1) = .ok (.enc m) ∧
    decode toy .any false (Sample.wireTwo 3) = .ok (.enc m') ∧ m.recipients.length = 2 ∧ m'.recipients.length = 2 ∧
    Spec.Wrapped m ∧ Spec.Wrapped m' ∧ m.recipients[0]? ≠ m'.recipients[0]?) ∧
    ∃ a b c v1 v2 v1', loads (Sample.wireTwo 1) = .ok (.tag 96 (.arr [a, b, c, .arr [v1, v2]])) ∧
      loads (Sample.wireTwo 3) = .ok (.tag 96 (.arr [a, b, c, .arr [v1', v2]])) := by
  have hw : ∀ n, n = 1 ∨ n = 3 → ∃ m : Enc, decode toy .any false (Sample.wireTwo n) = .ok (.enc m) ∧ (m.recipients.length = 2 ∧
      Spec.Wrapped m ∧ (m.recipients[0]?.map (fun r => getD r.base.uhdr Hdr.KID .none)) = some (.bytes [UInt8.ofNat n])) := by
    intro n hn
    have : ∃ x, decode toy .any false (Sample.wireTwo n) = .ok x ∧ (match x with
        | .enc m => decide (m.recipients.length = 2) && m.recipients.all (fun r => r.cls == .keyWrap) &&
          decide ((m.recipients[0]?.map (fun r => getD r.base.uhdr Hdr.KID .none)) = some (.bytes [UInt8.ofNat n]))
        | _ => false) = true := by
      rcases hn with rfl | rfl <;> exact res_any (by decide +kernel)
    obtain ⟨x, h1, h2⟩ := this
    cases x <;> simp at h2
    rename_i m
    exact ⟨m, h1, h2.1.1, fun r hr => .inl (h2.1.2 r hr), by simpa using h2.2⟩
  obtain ⟨m, a1, a2, a3, a4⟩ := hw 1 (.inl rfl)
  obtain ⟨m', b1, b2, b3, b4⟩ := hw 3 (.inr rfl)
  refine ⟨by decide +kernel, ⟨m, m', a1, b1, a2, b2, a3, b3, fun e => ?_⟩, ?_⟩
  · rw [e, b4] at a4; exact absurd a4 (by decide)
  · have h : ∃ x y, (Sample.parts (loads (Sample.wireTwo 1))) = some x ∧ (Sample.parts (loads (Sample.wireTwo 3))) = some y ∧
        (x.1, x.2.2) = (y.1, y.2.2) := by
      refine ⟨(Sample.parts (loads (Sample.wireTwo 1))).get (by decide +kernel), (Sample.parts (loads (Sample.wireTwo 3))).get (by decide +kernel),
        by simp, by simp, by decide +kernel⟩
    obtain ⟨⟨⟨a, b, c⟩, v1, v2⟩, ⟨⟨a', b', c'⟩, v1', v2'⟩, h1, h2, h3⟩ := h
    simp at h3
    obtain ⟨⟨rfl, rfl, rfl⟩, rfl⟩ := h3
    exact ⟨a, b, c, v1, v2, v1', Sample.parts_ok h1, Sample.parts_ok h2⟩

/-- A recipient to which the caller has given a content key of its own does influence the others (see C37). -/
theorem c78_preset : ∃ (m : Enc) (r : Rcpt), m.recipients[1]? = some r ∧ r.base.payload = some [] ∧
    (∃ c m' c1 m1, m.encrypt toy Sample.rand = .ok (c, m') ∧ (Spec.alone m r).encrypt toy (Spec.drawnFor Sample.rand 1) = .ok (c1, m1) ∧
      m'.recipients[1]? ≠ m1.recipients[0]?) := by
  refine ⟨{ Sample.encKw with recipients := [(Sample.kwRcpt 1).withBase { (Sample.kwRcpt 1).base with payload := some (List.replicate 16 1) }, Sample.kwRcpt 2] },
    Sample.kwRcpt 2, rfl, rfl, ?_⟩
  obtain ⟨⟨x, y⟩, h1, h2⟩ := res_any
    (r := do
      let x ← Enc.encrypt toy Sample.rand { Sample.encKw with recipients := [(Sample.kwRcpt 1).withBase { (Sample.kwRcpt 1).base with payload := some (List.replicate 16 1) }, Sample.kwRcpt 2] }
      let y ← (Spec.alone { Sample.encKw with recipients := [(Sample.kwRcpt 1).withBase { (Sample.kwRcpt 1).base with payload := some (List.replicate 16 1) }, Sample.kwRcpt 2] }
        (Sample.kwRcpt 2)).encrypt toy (Spec.drawnFor Sample.rand 1)
      .ok (x, y))
    (p := fun p : (Bytes × Enc) × (Bytes × Enc) => decide (p.1.2.recipients[1]? ≠ p.2.2.recipients[0]?)) (by decide +kernel)
  simp only [bind_eq_ok] at h1
  obtain ⟨_, e1, _, e2, h1⟩ := h1
  simp only [Except.ok.injEq, Prod.mk.injEq] at h1
  obtain ⟨rfl, rfl⟩ := h1
  exact ⟨_, _, _, _, e1, e2, of_decide_eq_true h2⟩

end Cose
