import Verif.EncodeLemmas
import Verif.SpecLemmas
import Verif.Props.Samples
/-!
# C17–C21 — decoding
-/
set_option autoImplicit false
namespace Cose

/-! ### Specification -/

/-- `out` is what some call of `encode` on the message `m` returns; `tag` says whether the CBOR tag was
asked for.  All other arguments (sign/mac/encrypt flags, detached payload, randomness) are free. -/
inductive Spec.EncodesTo (C : Crypto) (tag : Bool) (out : Bytes) : Msg → Prop
  | enc0 {m : Enc0} {e : Bool} : m.encode C tag e = .ok out → EncodesTo C tag out (.enc0 m)
  | mac0 {m m' : Mac0} {e : Bool} : m.encode C tag e = .ok (out, m') → EncodesTo C tag out (.mac0 m)
  | sign1 {m : Sign1} {e : Bool} {r : Bytes} {d : Option Bytes} :
      m.encode C r tag e d = .ok out → EncodesTo C tag out (.sign1 m)
  | sign {m : SignMsg} {r : Nat → Bytes} {d : Option Bytes} : m.encode C r tag d = .ok out → EncodesTo C tag out (.sign m)
  | enc {m m' : Enc} {R : Rand} {e : Bool} : m.encode C R tag e = .ok (out, m') → EncodesTo C tag out (.enc m)
  | mac {m m' : Mac} {R : Rand} {e : Bool} : m.encode C R tag e = .ok (out, m') → EncodesTo C tag out (.mac m)

/-- The CBOR tags of RFC 8152, table 1. -/
def Spec.msgTag : MsgKind → Nat
  | .enc0 => 16 | .mac0 => 17 | .sign1 => 18 | .enc => 96 | .mac => 97 | .sign => 98

/-- `e` is an encoding of the current protected header of `b`: empty for an empty header, what pycose
emits for the header, or bytes that pycose parses to the header. -/
def Spec.CurrentEncoding (C : Crypto) (b : Base) (e : Bytes) : Prop :=
  (b.phdr = [] ∧ e = []) ∨ (b.phdr ≠ [] ∧ dumps fullname (.base b.tstr) (.map b.phdr) = .ok e) ∨
  ∃ raw allow, loads e = .ok (.map raw) ∧ parseHeader C allow raw = .ok b.phdr

/-- One operation of a caller on a message: property assignments and update methods. -/
inductive Spec.BaseStep : Base → Base → Prop
  | setPhdr {b b' : Base} (v : Val) : b.setPhdr v = .ok b' → BaseStep b b'
  | phdrUpdate {b b' : Base} (v : Val) : b.phdrUpdate v = .ok b' → BaseStep b b'
  | setUhdr {b b' : Base} (v : Val) : b.setUhdr v = .ok b' → BaseStep b b'
  | uhdrUpdate {b b' : Base} (v : Val) : b.uhdrUpdate v = .ok b' → BaseStep b b'
  | setPayload {b b' : Base} (v : Val) : b.setPayload v = .ok b' → BaseStep b b'
  | setAad {b b' : Base} (v : Val) : b.setAad v = .ok b' → BaseStep b b'
  | setKey {b : Base} (k : Option Key) : BaseStep b { b with key := k }
  | setLocal {b : Base} (d : Dict) : BaseStep b (b.setLocal d)
  | uhdrItems {b : Base} (d : Dict) : BaseStep b { b with uhdr := d }

/-- Constructed or received messages (signers, recipients) and what callers make of them. -/
inductive Spec.Reachable (C : Crypto) : Base → Prop
  | constructed {a : HdrArgs} {p d : Val} {k : Option Key} {b : Base} : initMsg C a p d k = .ok b → Reachable C b
  | received {obj rest : List Val} {allow : Bool} {b : Base} : baseFromObj C obj allow = .ok (b, rest) → Reachable C b
  | step {b b' : Base} : Reachable C b → Spec.BaseStep b b' → Reachable C b'

/-! ### Helpers -/

theorem fromObj_base {C : Crypto} {k : MsgKind} {obj : List Val} {allow : Bool} {m : Msg}
    (h : fromObj C k obj allow = .ok m) : ∃ rest, baseFromObj C obj allow = .ok (m.base, rest) := by
  cases k <;> simp only [fromObj, bind_eq_ok, Enc0.fromObj, Mac0.fromObj, Sign1.fromObj, Enc.fromObj, Mac.fromObj,
    SignMsg.fromObj] at h
  case enc0 => obtain ⟨m', ⟨⟨b, o⟩, h1, h2⟩, h3⟩ := h; simp at h2 h3; subst h2 h3; exact ⟨_, h1⟩
  case mac0 => obtain ⟨m', ⟨⟨b, o⟩, h1, _, _, h2⟩, h3⟩ := h; simp at h2 h3; subst h2 h3; exact ⟨_, h1⟩
  case sign1 => obtain ⟨m', ⟨⟨b, o⟩, h1, _, _, h2⟩, h3⟩ := h; simp at h2 h3; subst h2 h3; exact ⟨_, h1⟩
  case enc =>
    obtain ⟨m', ⟨⟨b, o⟩, h1, h2⟩, h3⟩ := h
    simp at h3; subst h3
    refine ⟨o, ?_⟩
    (repeat' split at h2) <;> simp at h2 <;> subst h2 <;> exact h1
  case mac =>
    obtain ⟨m', ⟨⟨b, o⟩, h1, _, _, h2⟩, h3⟩ := h
    simp at h3; subst h3
    refine ⟨o, ?_⟩
    (repeat' split at h2) <;> simp at h2 <;> subst h2 <;> exact h1
  case sign => obtain ⟨m', ⟨⟨b, o⟩, h1, _, _, _, _, _, _, h2⟩, h3⟩ := h; simp at h2 h3; subst h2 h3; exact ⟨_, h1⟩

theorem baseFromObj_verbatim {C : Crypto} {pe : Bytes} {l rest : List Val} {allow : Bool} {b : Base}
    (h : baseFromObj C (.bytes pe :: l) allow = .ok (b, rest)) : b.phdrEncoded = .ok pe ∧
      (∀ p, Spec.AuthProtected b p → b.phdr ≠ [] → p = pe) ∧ Spec.CurrentEncoding C b pe := by
  obtain ⟨pe', uh, he, hp, _⟩ := baseFromObj_iff.mp h
  simp at he
  obtain ⟨rfl, _⟩ := he
  have hpe : b.phdrEncoded = .ok pe := by
    rcases hp.inv with ⟨e, _⟩ | ⟨e, e2, _⟩ | ⟨_, _, e, e2, _⟩
    · simp at e
    · simp at e; subst e; simp [Base.phdrEncoded, e2]
    · simp at e; subst e; simp [Base.phdrEncoded, e2]
  refine ⟨hpe, ?_, ?_⟩
  · rintro p (⟨h, _⟩ | ⟨_, h⟩) hn
    · exact absurd h hn
    · rw [hpe] at h; simp at h; exact h.symm
  · rcases hp.inv with ⟨e, _⟩ | ⟨e, _, e2⟩ | ⟨_, d, e, _, _, h1, h2⟩
    · simp at e
    · simp at e; exact .inl ⟨e2, e⟩
    · simp at e; subst e; exact .inr (.inr ⟨d, allow, h1, h2⟩)

theorem enc_tag_inv {m : Mode} {t : Nat} {v : Val} {out : Bytes} (h : dumps fullname m (.tag t v) = .ok out) :
    ∃ o, dumps fullname m v = .ok o ∧ out = Spec.head 6 t ++ o := by
  simp only [dumps, subst, bind_eq_ok] at h
  obtain ⟨w, ⟨v', h1, h2⟩, h3⟩ := h
  simp at h2; subst h2
  simp only [big, enc, bind_eq_ok] at h3
  obtain ⟨hd, h3, b, h4, h5⟩ := h3
  simp at h5
  exact ⟨b, by simp [dumps, h1, h4], by rw [← h5, encHead_eq h3]⟩

theorem enc_arr_inv {m : Mode} {pe : Bytes} {l : List Val} {out : Bytes}
    (h : dumps fullname m (.arr (.bytes pe :: l)) = .ok out) :
    ∃ r, out = Spec.head 4 (l.length + 1) ++ Spec.bstr pe ++ r := by
  have hlen : ∀ (l l' : List Val), substL fullname m l = .ok l' → l'.length = l.length := by
    intro l
    induction l with
    | nil => intro l' h; simp [substL] at h; subst h; rfl
    | cons v t ih =>
      intro l' h
      simp only [substL, bind_eq_ok] at h
      obtain ⟨v', _, t', h2, h3⟩ := h
      simp at h3; subst h3
      simp [ih t' h2]
  have hbig : ∀ l : List Val, (bigL l).length = l.length := by
    intro l
    induction l with
    | nil => rfl
    | cons v t ih => simp [bigL, ih]
  simp only [dumps, subst, substL, bind_eq_ok] at h
  obtain ⟨w, ⟨v', ⟨_, h0, l', h1, h2⟩, h3⟩, h4⟩ := h
  simp at h0 h2 h3; subst h0 h2 h3
  simp only [big, bigL, enc, encL, bind_eq_ok] at h4
  obtain ⟨hd, h5, b, ⟨a, ⟨hb, h6, h7⟩, c, h8, h9⟩, h10⟩ := h4
  simp at h7 h9 h10
  subst h7 h9 h10
  rw [encHead_eq h5, encHead_eq h6]
  refine ⟨c, ?_⟩
  simp [Spec.bstr, hbig, hlen _ _ h1]

theorem finish_prefix {b : Base} {t : Nat} {tag : Bool} {pe : Bytes} {l : List Val} {out : Bytes}
    (h : b.finish t tag (.bytes pe :: l) = .ok out) :
    ∃ r, out = (if tag then Spec.head 6 t else []) ++ Spec.head 4 (l.length + 1) ++ Spec.bstr pe ++ r := by
  unfold Base.finish at h
  split at h
  · obtain ⟨o, h1, rfl⟩ := enc_tag_inv h
    obtain ⟨r, rfl⟩ := enc_arr_inv h1
    rename_i ht
    exact ⟨r, by simp [ht]⟩
  · obtain ⟨r, rfl⟩ := enc_arr_inv h
    rename_i ht
    exact ⟨r, by simp [ht]⟩

theorem loads_append {bs t : Bytes} {v : Val} (h : loads bs = .ok v) : loads (bs ++ t) = .ok v := by
  unfold loads at h ⊢
  obtain ⟨⟨w, r⟩, h1, h2⟩ := bind_eq_ok.mp h
  rw [decodeItem_append h1]
  exact h2

/-! ### C17 — received protected bytes are used verbatim -/

/-- For the message itself: `phdr_encoded` is what was received; it is what is authenticated when the
header is not empty; and it really is an encoding of the header. -/
theorem c17_message {C : Crypto} {cls : DecCls} {allow : Bool} {bs pe : Bytes} {n : Nat} {l : List Val} {m : Msg}
    (hl : loads bs = .ok (.tag n (.arr (.bytes pe :: l)))) (h : decode C cls allow bs = .ok m) :
    m.base.phdrEncoded = .ok pe ∧ (∀ p, Spec.AuthProtected m.base p → m.base.phdr ≠ [] → p = pe) ∧
    Spec.CurrentEncoding C m.base pe := by
  obtain ⟨n', obj, k, h1, _, h2, _, _⟩ := decode_iff.mp h
  rw [hl] at h1
  simp at h1
  obtain ⟨_, rfl⟩ := h1
  obtain ⟨rest, h3⟩ := fromObj_base h2
  exact baseFromObj_verbatim h3

/-- For every signer of a COSE_Sign message. -/
theorem c17_signers {C : Crypto} {cls : DecCls} {allow : Bool} {bs : Bytes} {n : Nat} {p u pl : Val} {sg rest : List Val}
    {m : SignMsg} (hl : loads bs = .ok (.tag n (.arr (p :: u :: pl :: .arr sg :: rest))))
    (h : decode C cls allow bs = .ok (.sign m)) :
    sg.length = m.signers.length ∧
    ∀ (i : Nat) (s : Base), m.signers[i]? = some s → ∃ so : List Val, sg[i]? = some (.arr so) ∧
      ∀ pe t, so = .bytes pe :: t → s.phdrEncoded = .ok pe ∧
        (∀ p, Spec.AuthProtected s p → s.phdr ≠ [] → p = pe) ∧ Spec.CurrentEncoding C s pe := by
  obtain ⟨n', obj, k, h1, _, h2, _, hk⟩ := decode_iff.mp h
  rw [hl] at h1
  simp at h1
  obtain ⟨_, rfl⟩ := h1
  simp [Msg.kind] at hk; subst hk
  simp only [fromObj, SignMsg.fromObj, bind_eq_ok] at h2
  obtain ⟨m', ⟨⟨b, o⟩, h3, ⟨v, o'⟩, h4, l, h5, ss, h6, h7⟩, h8⟩ := h2
  simp at h7 h8; subst h7 h8
  rw [pop0_ok] at h4
  obtain ⟨_, _, he, _⟩ := baseFromObj_iff.mp h3
  simp at he
  obtain ⟨_, _, _, he⟩ := he
  rw [← he] at h4
  simp at h4
  obtain ⟨rfl, rfl⟩ := h4
  simp [iterSigners] at h5
  subst h5
  have ha := signersFromObj_all2 h6
  refine ⟨ha.length, ?_⟩
  intro i s hs
  obtain ⟨v, hv, so, r, rfl, hb⟩ := ha.get i s hs
  refine ⟨so, hv, ?_⟩
  rintro pe t rfl
  exact baseFromObj_verbatim hb

/-- For every recipient of a COSE_Encrypt message. -/
theorem c17_recipients {C : Crypto} {cls : DecCls} {allow : Bool} {bs : Bytes} {n : Nat} {p u pl : Val} {sg rest : List Val}
    {m : Enc} (hl : loads bs = .ok (.tag n (.arr (p :: u :: pl :: .arr sg :: rest))))
    (h : decode C cls allow bs = .ok (.enc m)) :
    ∀ (i : Nat) (r : Rcpt), m.recipients[i]? = some r → ∃ so : List Val, sg[i]? = some (.arr so) ∧
      ∀ pe t, so = .bytes pe :: t → r.base.phdrEncoded = .ok pe ∧
        (∀ p, Spec.AuthProtected r.base p → r.base.phdr ≠ [] → p = pe) ∧ Spec.CurrentEncoding C r.base pe := by
  obtain ⟨n', obj, k, h1, _, h2, _, hk⟩ := decode_iff.mp h
  rw [hl] at h1
  simp at h1
  obtain ⟨_, rfl⟩ := h1
  simp [Msg.kind] at hk; subst hk
  simp only [fromObj, Enc.fromObj, bind_eq_ok] at h2
  obtain ⟨m', ⟨⟨b, o⟩, h3, h4⟩, h8⟩ := h2
  simp at h8; subst h8
  obtain ⟨_, _, he, _⟩ := baseFromObj_iff.mp h3
  simp at he
  obtain ⟨_, _, _, he⟩ := he
  intro i r hr
  split at h4
  · rename_i rs hrs
    simp at h4; subst h4
    obtain ⟨v, rest', l, h5, h6, h7⟩ := recipientsOf_ok hrs
    rw [← he] at h5
    simp at h5
    obtain ⟨rfl, rfl⟩ := h5
    simp [iterRecipients] at h6
    subst h6
    obtain ⟨v, hv, so, r', _, _, rfl, hb, _⟩ := (createRecipients_all2 h7).get i r hr
    refine ⟨so, hv, ?_⟩
    rintro pe t rfl
    exact baseFromObj_verbatim hb
  · split at h4 <;> simp at h4
    subst h4
    simp at hr

/-- Re-encoding in any way (with or without tag, with or without protecting again) emits the protected
bytes as the first element of the message array. -/
theorem c17_reencode {C : Crypto} {m : Msg} {tag : Bool} {pe out : Bytes} (hp : m.base.phdrEncoded = .ok pe)
    (h : Spec.EncodesTo C tag out m) :
    ∃ n r, (n = 3 ∨ n = 4 ∨ n = 5) ∧
      out = (if tag then Spec.head 6 (Spec.msgTag m.kind) else []) ++ Spec.head 4 n ++ Spec.bstr pe ++ r := by
  cases h with
  | enc0 h =>
    obtain ⟨pe', v, hp', h, _⟩ := enc0_encode_inv h
    simp only [Msg.base, hp'] at hp; simp at hp; subst hp
    obtain ⟨r, hr⟩ := finish_prefix h
    exact ⟨3, r, by simp, hr⟩
  | mac0 h =>
    obtain ⟨pe', tl, hp', h, ht⟩ := mac0_encode_inv h
    simp only [Msg.base, hp'] at hp; simp at hp; subst hp
    obtain ⟨r, hr⟩ := finish_prefix h
    refine ⟨_, r, ?_, hr⟩
    rcases ht with ⟨_, _, _, rfl, _⟩ | ⟨_, rfl, _⟩ <;> simp
  | sign1 h =>
    obtain ⟨pe', tl, hp', h, ht⟩ := sign1_encode_inv h
    simp only [Msg.base, hp'] at hp; simp at hp; subst hp
    obtain ⟨r, hr⟩ := finish_prefix h
    refine ⟨_, r, ?_, hr⟩
    rcases ht with ⟨_, _, _, rfl⟩ | ⟨_, _, rfl⟩ | ⟨_, _, rfl⟩ <;> simp
  | sign h =>
    obtain ⟨pe', tl, hp', h, ht⟩ := sign_encode_inv h
    simp only [Msg.base, hp'] at hp; simp at hp; subst hp
    obtain ⟨r, hr⟩ := finish_prefix h
    refine ⟨_, r, ?_, hr⟩
    rcases ht with ⟨_, _, _, rfl⟩ | ⟨_, rfl⟩ <;> simp
  | enc h =>
    obtain ⟨pe', v, m1, tl, hp', _, h, ht⟩ := enc_encode_inv h
    simp only [Msg.base, hp'] at hp; simp at hp; subst hp
    obtain ⟨r, hr⟩ := finish_prefix h
    refine ⟨_, r, ?_, hr⟩
    rcases ht with ⟨_, rfl, _⟩ | ⟨_, _, _, _, rfl, _⟩ <;> simp
  | mac h =>
    obtain ⟨pe', m1, tl0, tl, rs, hp', ht0, h, _, ht⟩ := mac_encode_inv h
    simp only [Msg.base, hp'] at hp; simp at hp; subst hp
    obtain ⟨r, hr⟩ := finish_prefix h
    refine ⟨_, r, ?_, hr⟩
    rcases ht0 with ⟨_, _, _, rfl⟩ | ⟨_, _, rfl⟩ <;> rcases ht with ⟨_, rfl, _⟩ | ⟨_, _, _, _, rfl, _⟩ <;> simp

/-- Non-vacuity: a message with a protected header that pycose would not emit itself (indefinite-length
map, long integer form) decodes and is re-emitted unchanged. -/
def Sample.oddSign1 : Bytes :=
  [0xd2, 0x84] ++ Spec.bstr [0xbf, 0x18, 0x01, 0x26, 0xff] ++ [0xa0] ++ Spec.bstr b!"hi" ++ Spec.bstr b!"sig"

def Sample.oddMsg : Sign1 :=
  { base := { phdrEnc := some [0xbf, 0x18, 0x01, 0x26, 0xff], phdr := [(.cls Hdr.Algorithm, algCls (-7))],
              payload := some b!"hi" }, signature := .bytes b!"sig" }

example : decode toy .any true Sample.oddSign1 = .ok (.sign1 Sample.oddMsg) ∧
    Sample.oddMsg.encode toy [] true false none = .ok Sample.oddSign1 ∧
    dumps fullname (.base false) (.map Sample.oddMsg.base.phdr) = .ok [0xa1, 0x01, 0x26] := by decide +kernel

/-! ### C18 — the protected header sent is the current one -/

theorem c18_current {C : Crypto} {b : Base} (h : Spec.Reachable C b) {e : Bytes} (he : b.phdrEncoded = .ok e) :
    Spec.CurrentEncoding C b e := by
  have fresh : ∀ {b : Base} {e : Bytes}, b.phdrEnc = none → b.phdrEncoded = .ok e → Spec.CurrentEncoding C b e := by
    intro b e hn he
    simp only [Base.phdrEncoded, hn] at he
    split at he
    · rename_i hl
      exact .inr (.inl ⟨by intro h; simp [h] at hl, he⟩)
    · rename_i hl
      simp at he
      exact .inl ⟨by simpa using hl, he⟩
  have inv : ∀ {b : Base}, Spec.Reachable C b → ∀ e, b.phdrEnc = some e →
      (b.phdr = [] ∧ e = []) ∨ ∃ raw allow, loads e = .ok (.map raw) ∧ parseHeader C allow raw = .ok b.phdr := by
    intro b h
    have prot : ∀ {allow : Bool} {v : Val} {o : Option Bytes} {ph : Dict}, ProtReceived C allow v o ph → ∀ e, o = some e →
        (ph = [] ∧ e = []) ∨ ∃ raw allow, loads e = .ok (.map raw) ∧ parseHeader C allow raw = .ok ph := by
      intro allow v o ph h e ho
      rcases h.inv with ⟨_, e1, _⟩ | ⟨_, e1, e2⟩ | ⟨_, d, _, e1, _, h1, h2⟩
      · simp [ho] at e1
      · rw [ho] at e1; simp at e1; exact .inl ⟨e2, e1⟩
      · rw [ho] at e1; simp at e1; subst e1; exact .inr ⟨d, allow, h1, h2⟩
    induction h with
    | constructed h =>
      rename_i a p d k b
      obtain ⟨b0, p', d', hb, _, _, rfl⟩ := initMsg_ok h
      intro e he
      by_cases hp : a.phdr = .none
      · exact prot ((initBase_enc hp).mp hb).1 e he
      · by_cases hpe : a.phdrEncoded = .none
        · have hx := (initBase_dict hpe).mp hb
          have hn : b0.phdrEnc = none := by rw [hx.2.2]
          simp [hn] at he
        · simp [initBase, hp, hpe] at hb
    | received h =>
      obtain ⟨_, _, _, hp, _⟩ := baseFromObj_iff.mp h
      exact prot hp
    | step _ hs ih =>
      intro e he
      cases hs with
      | setPhdr v h => simp only [Base.setPhdr, bind_eq_ok] at h; obtain ⟨d, _, h⟩ := h; simp at h; subst h; simp at he
      | phdrUpdate v h =>
        simp only [Base.phdrUpdate, bind_eq_ok] at h; obtain ⟨d, _, h⟩ := h; simp at h; subst h; simp at he
      | setUhdr v h =>
        simp only [Base.setUhdr, bind_eq_ok] at h; obtain ⟨d, _, h⟩ := h; simp at h; subst h; exact ih e he
      | uhdrUpdate v h =>
        simp only [Base.uhdrUpdate, bind_eq_ok] at h; obtain ⟨d, _, h⟩ := h; simp at h; subst h; exact ih e he
      | setPayload v h => obtain ⟨p', rfl, rfl⟩ := setPayload_ok.mp h; exact ih e he
      | setAad v h => cases v <;> simp [Base.setAad] at h; subst h; exact ih e he
      | setKey k => exact ih e he
      | setLocal d => exact ih e he
      | uhdrItems d => exact ih e he
  cases hn : b.phdrEnc with
  | none => exact fresh hn he
  | some e' =>
    have : e' = e := by simpa [Base.phdrEncoded, hn] using he
    subst this
    rcases inv h e' hn with h | h
    · exact .inl h
    · exact .inr (.inr h)

/-- Right after an assignment or update of the protected header, whatever was received before, the
encoding is the one pycose makes of the new header. -/
theorem c18_fresh_after_update {b b' : Base} {v : Val} (h : b.setPhdr v = .ok b' ∨ b.phdrUpdate v = .ok b') :
    (∃ d, v = .map d ∧ (b'.phdr = d ∨ b'.phdr = dupdate b.phdr d)) ∧
    (b'.phdr = [] → b'.phdrEncoded = .ok []) ∧
    (b'.phdr ≠ [] → b'.phdrEncoded = dumps fullname (.base b.tstr) (.map b'.phdr)) := by
  rcases h with h | h
  · simp only [Base.setPhdr, bind_eq_ok] at h
    obtain ⟨d, hd, h⟩ := h
    rw [asDict_ok] at hd
    simp at h; subst h
    refine ⟨⟨d, hd, .inl rfl⟩, ?_, ?_⟩
    · intro h; simp [Base.phdrEncoded, Base.mode] at h ⊢; simp [h]
    · intro h; simp [Base.phdrEncoded, Base.mode] at h ⊢; simp [h]
  · simp only [Base.phdrUpdate, bind_eq_ok] at h
    obtain ⟨d, hd, h⟩ := h
    rw [asDict_ok] at hd
    simp at h; subst h
    refine ⟨⟨d, hd, .inr rfl⟩, ?_, ?_⟩
    · intro h; simp [Base.phdrEncoded, Base.mode] at h ⊢; simp [h]
    · intro h; simp [Base.phdrEncoded, Base.mode] at h ⊢; simp [h]

/-- The exception: mutating the dictionary returned by `.phdr` of a decoded message in place leaves the
received bytes in use, which no longer encode the header. -/
theorem c18_in_place_mutation_stale :
    ∃ (m : Sign1) (k v : Val) (e : Bytes), decode toy .any true Sample.oddSign1 = .ok (.sign1 m) ∧
      (m.base.phdrSetItem k v).phdrEncoded = .ok e ∧ ¬ Spec.CurrentEncoding toy (m.base.phdrSetItem k v) e := by
  refine ⟨Sample.oddMsg,
    .cls Hdr.KID, .bytes [1], [0xbf, 0x18, 0x01, 0x26, 0xff], by decide +kernel, by decide +kernel, ?_⟩
  rintro (⟨h, _⟩ | ⟨_, h⟩ | ⟨raw, allow, h1, h2⟩)
  · revert h; decide +kernel
  · revert h; decide +kernel
  · have : raw = [(.int 1, .int (-7))] := by
      have e : loads [0xbf, 0x18, 0x01, 0x26, 0xff] = .ok (.map [(.int 1, .int (-7))]) := by decide +kernel
      rw [e] at h1; simp at h1; exact h1.symm
    subst this
    cases allow <;> revert h2 <;> decide +kernel

example : Spec.Reachable toy { Sample.sign1.base with aad := [7] } := by
  have h : Sign1.new toy { phdr := .map [(.text b!"alg", .text b!"es256")], uhdr := .map [(.int 4, .bytes b!"me")] }
    (.bytes b!"hello") (.bytes b!"aad") (some Sample.ecKey) = .ok Sample.sign1 := by decide +kernel
  simp only [Sign1.new, bind_eq_ok] at h
  obtain ⟨b, h1, h2⟩ := h
  simp at h2
  rw [← h2]
  exact .step (.constructed h1) (.setAad (.bytes [7]) rfl)

/-! ### C19 — dispatch on the CBOR tag -/

/-- The decoded message has the class registered for the outer tag. -/
theorem c19_dispatch {C : Crypto} {cls : DecCls} {allow : Bool} {bs : Bytes} {m : Msg}
    (h : decode C cls allow bs = .ok m) : ∃ obj, loads bs = .ok (.tag (Spec.msgTag m.kind) (.arr obj)) := by
  obtain ⟨n, obj, k, h1, h2, _, _, h3⟩ := decode_iff.mp h
  refine ⟨obj, ?_⟩
  rw [h1, h3]
  have : n = Spec.msgTag k := by
    simp only [tagKind] at h2
    (repeat' split at h2) <;> simp at h2 <;> subst h2 <;> simpa [Spec.msgTag]
  rw [this]

/-- `X.decode` returns an `X`: for the concrete classes and for the abstract ones. -/
theorem c19_class {C : Crypto} {allow : Bool} {bs : Bytes} {m : Msg} :
    (∀ k, decode C (.only k) allow bs = .ok m → m.kind = k) ∧
    (decode C .encCommon allow bs = .ok m → m.kind = .enc0 ∨ m.kind = .enc) ∧
    (decode C .macCommon allow bs = .ok m → m.kind = .mac0 ∨ m.kind = .mac) ∧
    (decode C .signCommon allow bs = .ok m → m.kind = .sign1) ∧
    (decode C .signBase allow bs = .ok m → m.kind = .sign) ∧
    decode C .never allow bs ≠ .ok m := by
  have key : ∀ {cls}, decode C cls allow bs = .ok m → cls.accepts m.kind = true := by
    intro cls h
    obtain ⟨_, _, k, _, _, _, h4, h5⟩ := decode_iff.mp h
    rw [h5]; exact h4
  refine ⟨?_, ?_, ?_, ?_, ?_, ?_⟩
  · intro k h; have := key h; simp [DecCls.accepts] at this; exact this.symm
  · intro h; have := key h; simpa [DecCls.accepts] using this
  · intro h; have := key h; simpa [DecCls.accepts] using this
  · intro h; have := key h; simpa [DecCls.accepts] using this
  · intro h; have := key h; simpa [DecCls.accepts] using this
  · intro h; have := key h; simp [DecCls.accepts] at this

/-- The three refusals. -/
theorem c19_refusals {C : Crypto} {cls : DecCls} {allow : Bool} {bs : Bytes} {v : Val} (hl : loads bs = .ok v) :
    ((∀ n w, v ≠ .tag n w) → decode C cls allow bs = .error .attributeError) ∧
    (∀ n obj, v = .tag n (.arr obj) → (∀ k, Spec.msgTag k ≠ n) → decode C cls allow bs = .error .keyError) ∧
    (∀ n w, v = .tag n w → (∀ obj, w ≠ .arr obj) → decode C cls allow bs = .error .typeError) := by
  refine ⟨?_, ?_, ?_⟩
  · intro hv
    unfold decode
    simp only [hl, ok_bind]
    cases v <;> first | rfl | exact absurd rfl (hv _ _)
  · rintro n obj rfl hn
    have : tagKind n = none := by
      have h1 := hn .enc0; have h2 := hn .mac0; have h3 := hn .sign1
      have h4 := hn .enc; have h5 := hn .mac; have h6 := hn .sign
      simp only [Spec.msgTag] at h1 h2 h3 h4 h5 h6
      simp only [tagKind]
      simp [Ne.symm h1, Ne.symm h2, Ne.symm h3, Ne.symm h4, Ne.symm h5, Ne.symm h6]
    unfold decode
    simp only [hl, ok_bind, this]
  · rintro n w rfl hw
    unfold decode
    simp only [hl, ok_bind]


/-- Input that is not CBOR never gives a message. -/
theorem c19_not_cbor {C : Crypto} {cls : DecCls} {allow : Bool} {bs : Bytes} {e : PyErr} (hl : loads bs = .error e) :
    ∃ e', decode C cls allow bs = .error e' ∧ (e.isValueError = true → e' = .valueError) := by
  unfold decode
  simp only [hl]
  split
  · rename_i h; subst h; exact ⟨_, rfl, by simp [PyErr.isValueError]⟩
  · split
    · exact ⟨_, rfl, fun _ => rfl⟩
    · rename_i h; exact ⟨_, rfl, fun h' => absurd h' h⟩

example : decode toy .any true [0xc2, 0x41, 0x05] = .error .attributeError ∧
    decode toy .any true [0x80] = .error .attributeError ∧
    decode toy .any true [0xd3, 0x80] = .error .keyError ∧ decode toy .any true [0xd2, 0xa0] = .error .typeError ∧
    decode toy .any true [0xd2, 0x62, 0xff, 0xff] = .error .valueError ∧
    decode toy (.only .mac0) true Sample.oddSign1 = .error .typeError := by decide +kernel

/-! ### C20 — bytes after the message -/

/-- `decode` depends on the first data item only. -/
theorem c20_trailing_ignored {C : Crypto} {cls : DecCls} {allow : Bool} {bs : Bytes} {v : Val} (hl : loads bs = .ok v)
    (t : Bytes) : decode C cls allow (bs ++ t) = decode C cls allow bs := by
  unfold decode
  rw [hl, loads_append hl]

/-- So every decodable byte string has infinitely many variants that decode to the same message. -/
theorem c20_not_injective {C : Crypto} {cls : DecCls} {allow : Bool} {bs : Bytes} {m : Msg}
    (h : decode C cls allow bs = .ok m) (t : Bytes) : decode C cls allow (bs ++ t) = .ok m := by
  obtain ⟨_, _, _, h1, _⟩ := decode_iff.mp h
  rw [c20_trailing_ignored h1, h]

/-- The item that matters is a proper, non-empty prefix of the input, determined by the input. -/
theorem c20_first_item {bs : Bytes} {v : Val} (h : loads bs = .ok v) :
    ∃ w r, decodeItem bs = .ok (w, r) ∧ r.length < bs.length ∧ interp w = .ok v ∧
      ∀ t, decodeItem (bs ++ t) = .ok (w, r ++ t) := by
  unfold loads at h
  obtain ⟨⟨w, r⟩, h1, h2⟩ := bind_eq_ok.mp h
  exact ⟨w, r, h1, decodeItem_length h1, h2, decodeItem_append h1⟩

example : decode toy .any true (Sample.oddSign1 ++ [1, 2, 3]) = .ok (.sign1 Sample.oddMsg) := by decide +kernel

/-! ### C21 — serialisation is lossless -/

/-- Parsing what was serialised gives the value back, whatever follows, for every value cbor2 can
represent (`PyOK`: distinct dictionary keys, valid text, no tag that cbor2 interprets). -/
theorem c21_lossless {m : Mode} {v : Val} {b : Bytes} (hv : PyOK v) (h : dumps fullname m v = .ok b) (r : Bytes) :
    loads (b ++ r) = .ok v := loads_dumps_plain hv h r

/-- Serialisation is injective and prefix-free. -/
theorem c21_prefix_free {m n : Mode} {v w : Val} {a b r s : Bytes} (hv : PyOK v) (hw : PyOK w)
    (ha : dumps fullname m v = .ok a) (hb : dumps fullname n w = .ok b) (h : a ++ r = b ++ s) :
    v = w ∧ a = b ∧ r = s := dumps_append_inj hv hw ha hb h

/-- No serialisation is a proper prefix of another, even of the same value. -/
theorem c21_no_proper_prefix {m n : Mode} {v w : Val} {a b : Bytes} (hv : PyOK v) (hw : PyOK w)
    (ha : dumps fullname m v = .ok a) (hb : dumps fullname n w = .ok b) (h : a <+: b) : a = b := by
  obtain ⟨r, hr⟩ := h
  exact (dumps_append_inj hv hw ha hb (r := r) (s := []) (by simpa using hr)).2.1

/-- With classes among the values: what is parsed is the value with every class replaced by its
identifier (or, for algorithms with `alg_tstr_encoding`, its name). -/
theorem c21_classes {m : Mode} {v w : Val} {b : Bytes} (hs : subst fullname m v = .ok w) (hw : PyOK w)
    (h : dumps fullname m v = .ok b) (r : Bytes) : loads (b ++ r) = .ok w := loads_dumps hs hw h r

example : PyOK (.map [(.int 1, .int (-7)), (.text b!"x", .arr [.bytes [1, 2], .int (10 ^ 30), .float 0, .none]),
    (.int (-5), .map [(.bool false, .undef)])]) := by
  simp [PyOK, PyOKP, PyOKQ, PyOKL, KeysNodup]
  decide +kernel
example : dumps fullname .ident (.map [(.cls Hdr.Algorithm, .int (10 ^ 30))]) =
    .ok [0xa1, 0x01, 0xc2, 0x4d, 0x0c, 0x9f, 0x2c, 0x9c, 0xd0, 0x46, 0x74, 0xed, 0xea, 0x40, 0, 0, 0] := by decide +kernel

end Cose
