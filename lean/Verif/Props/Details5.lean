import Verif.Props.Details4
import Verif.Props.Recipients
import Verif.Props.RcptAccept
import Verif.Props.Accept
import Verif.Props.Encodable
import Verif.Props.KeyImport
import Verif.Props.Usage
/-!
# Further details (C07, C10–C14, C63, C77, C81)
-/
set_option autoImplicit false
namespace Cose

/-! ### Messages, signers and recipients made by the constructors, with COSE keys in their headers -/

/-- The headers are those a constructor (of a message, signer or recipient; they share it) makes of two dictionaries with serialisable
values; keys, payload, external data and local attributes may have been set since. -/
def Spec.MadeWithKeys (C : Crypto) (allow : Bool) (b : Base) : Prop :=
  ∃ (a : HdrArgs) (dp du : Dict) (pl aad : Val) (key : Option Key) (b0 : Base), a.phdrEncoded = .none ∧ a.phdr = .map dp ∧
    a.uhdr = .map du ∧ a.allow = allow ∧ Spec.KeyedArgs C dp ∧ Spec.KeyedArgs C du ∧ initMsg C a pl aad key = .ok b0 ∧
    b.phdr = b0.phdr ∧ b.uhdr = b0.uhdr ∧ b.phdrEnc = b0.phdrEnc

theorem madeWithKeys_sendable {C : Crypto} {allow : Bool} {b : Base} (h : Spec.MadeWithKeys C allow b) (tstr : Bool) :
    Spec.Sendable C tstr allow b b.phdr b.uhdr := by
  obtain ⟨a, dp, du, pl, aad, key, b0, h0, h1, h2, rfl, hp, hu, hi, e1, e2, e3⟩ := h
  obtain ⟨u1, u2, u3, _⟩ := constructed_headers h0 h1 h2 hi
  refine ⟨.inl ⟨e3.trans u3, ?_⟩, ?_⟩
  · rw [e1]; exact hdrSend_keyed hp u1
  · rw [e2]; exact hdrSend_keyed hu u2

theorem all2_self {α β : Type} {P : α → β → Prop} {f : α → β} {l : List α} (h : ∀ x ∈ l, P x (f x)) : All2 P l (l.map f) := by
  induction l with
  | nil => exact .nil
  | cons x t ih => exact .cons (h x (by simp)) (ih fun y hy => h y (by simp [hy]))

/-- C07 for messages and signers made by the constructors: all headers, COSE keys included, arrive unchanged, and every signature verifies. -/
theorem c07_constructed_keys {C : Crypto} (L : C.Laws) {m : SignMsg} {rnd : Nat → Bytes} {out : Bytes} {d : Option Bytes}
    {allow : Bool} {cls : DecCls} (hcls : cls.accepts .sign = true) (hne : m.signers ≠ []) (hb : Spec.MadeWithKeys C allow m.base)
    (hss : ∀ s ∈ m.signers, Spec.MadeWithKeys C allow s) (h : m.encode C rnd true d = .ok out) :
    ∃ m', decode C cls allow out = .ok (.sign m') ∧ m'.base.phdr = m.base.phdr ∧ m'.base.uhdr = m.base.uhdr ∧
      m'.base.payload = m.base.payload ∧ m'.signers.length = m.signers.length ∧
      ∀ (j : Nat) (s s' : Base), m.signers[j]? = some s → m'.signers[j]? = some s' →
        Spec.SignerReceived C m.base m'.base d s s' s.phdr s.uhdr := by
  obtain ⟨m', h1, h2, h3, h4, h5, h6⟩ := c07_sign_roundtrip L hcls hne (madeWithKeys_sendable hb _)
    (all2_self (f := fun s => (s.phdr, s.uhdr)) fun s hs => madeWithKeys_sendable (hss s hs) _) h
  exact ⟨m', h1, h2, h3, h4, h5, fun j s s' a1 a2 => h6 j s s' (s.phdr, s.uhdr) a1 a2 (by simp [a1])⟩

/-- C10 for messages and recipients made by the constructors. -/
theorem c10_constructed_keys {C : Crypto} {m m1 : Mac} {R : Rand} {out : Bytes} {allow : Bool} {rs : List Rcpt} {cls : DecCls} {alg : Val}
    {k rk : Key} (hcls : cls.accepts .mac = true) (hb : Spec.MadeWithKeys C allow m.base) (hrs : m.recipients = some rs) (hne : rs ≠ [])
    (hd : ∀ r ∈ rs, Spec.DirectRecipient r ∧ Spec.MadeWithKeys C allow r.base) (h : m.encode C R true true = .ok (out, m1))
    (halg : m.base.getAttr Hdr.Algorithm = .ok alg) (hk : m.base.key = some k) (hK : rk.symK = k.symK)
    (hp : Spec.Permits rk .sym alg [Op.MacVerify]) :
    ∃ m' rs', decode C cls allow out = .ok (.mac m') ∧ m'.base.phdr = m.base.phdr ∧ m'.base.uhdr = m.base.uhdr ∧
      m'.base.payload = m.base.payload ∧ m'.recipients = some rs' ∧
      All2 (fun r r' => Spec.DirectReceived (r.base.phdr, r.base.uhdr) r') rs rs' ∧
      Mac.verifyTag C { m' with base := m'.base.withKeyAad rk m.base.aad } = .ok true := by
  obtain ⟨m', rs', h1, h2, h3, h4, h5, h6, h7⟩ := c10_mac_direct_roundtrip hcls (madeWithKeys_sendable hb _) hrs hne
    (all2_self (f := fun r : Rcpt => (r.base.phdr, r.base.uhdr)) fun r hr => ⟨(hd r hr).1, madeWithKeys_sendable (hd r hr).2 _⟩) h halg hk hK hp
  exact ⟨m', rs', h1, h2, h3, h4, h5, all2_of_map h6, h7⟩

/-- C11 for messages and recipients made by the constructors. -/
theorem c11_constructed_keys {C : Crypto} (L : C.Laws) {m m1 : Enc} {R : Rand} {out : Bytes} {allow : Bool} {cls : DecCls} {alg : Val}
    {k rk : Key} (hcls : cls.accepts .enc = true) (hb : Spec.MadeWithKeys C allow m.base) (hne : m.recipients ≠ [])
    (hd : ∀ r ∈ m.recipients, Spec.DirectRecipient r ∧ Spec.MadeWithKeys C allow r.base) (h : m.encode C R true true = .ok (out, m1))
    (halg : m.base.getAttr Hdr.Algorithm = .ok alg) (hk : m.base.key = some k) (hK : rk.symK = k.symK) (hiv : rk.baseIv = k.baseIv)
    (hp : Spec.Permits rk .sym alg [Op.Decrypt]) :
    ∃ m' p, decode C cls allow out = .ok (.enc m') ∧ m'.base.phdr = m.base.phdr ∧ m'.base.uhdr = m.base.uhdr ∧
      All2 (fun r r' => Spec.DirectReceived (r.base.phdr, r.base.uhdr) r') m.recipients m'.recipients ∧ m.base.payload = some p ∧
      ∀ r ∈ m'.recipients, ∃ m'', Enc.decrypt C { m' with base := m'.base.withKeyAad rk m.base.aad } r = .ok (p, m'') := by
  obtain ⟨m', p, h1, h2, h3, h4, h5, h6⟩ := c11_enc_direct_roundtrip L hcls (madeWithKeys_sendable hb _) hne
    (all2_self (f := fun r : Rcpt => (r.base.phdr, r.base.uhdr)) fun r hr => ⟨(hd r hr).1, madeWithKeys_sendable (hd r hr).2 _⟩) h halg hk hK hiv hp
  exact ⟨m', p, h1, h2, h3, all2_of_map h4, h5, h6⟩

/-- C12 and C13 for messages and recipients made by the constructors: any mix of recipients that wrap the content key. -/
theorem c12_constructed_keys {C : Crypto} (L : C.Laws) {m m1 : Enc} {R : Rand} {out : Bytes} {allow : Bool} {cls : DecCls}
    (hcls : cls.accepts .enc = true) (hb : Spec.MadeWithKeys C allow m.base) (hne : m.recipients ≠ [])
    (hrs : ∀ r ∈ m.recipients, Spec.WrapRecipient r ∧ Spec.MadeWithKeys C allow r.base) (h : m.encode C R true true = .ok (out, m1)) :
    ∃ m' p, decode C cls allow out = .ok (.enc m') ∧ m'.base.phdr = m.base.phdr ∧ m'.base.uhdr = m.base.uhdr ∧
      m'.recipients.length = m.recipients.length ∧
      (∀ (j : Nat) (r r' : Rcpt), m.recipients[j]? = some r → m'.recipients[j]? = some r' → Spec.WrapPreserved r r.base.uhdr r') ∧
      m.base.payload = some p ∧
      ∀ (j : Nat) (r r' : Rcpt) (rk : Key) (la : Dict), m.recipients[j]? = some r → m'.recipients[j]? = some r' →
        Spec.Unwraps C r r.base.uhdr rk la →
        ∃ m'', Enc.decrypt C { base := { m'.base with aad := m.base.aad },
                               recipients := m'.recipients.set j (r'.receiver rk la) } (r'.receiver rk la) = .ok (p, m'') := by
  obtain ⟨m', p, h1, h2, h3, h4, h0, h5, h6⟩ := c12_keywrap_roundtrip L hcls (madeWithKeys_sendable hb _) hne
    (all2_self (f := fun r : Rcpt => r.base.uhdr) fun r hr => ⟨(hrs r hr).1, madeWithKeys_sendable (hrs r hr).2 _⟩) h
  exact ⟨m', p, h1, h2, h3, h4, fun j r r' a1 a2 => h0 j r r' _ a1 (by simp [a1]) a2, h5, fun j r r' rk la a1 a2 a3 => h6 j r r' _ rk la a1 (by simp [a1]) a2 a3⟩

/-- C14 for messages and recipients made by the constructors. -/
theorem c14_constructed_keys {C : Crypto} (L : C.Laws) {m m1 : Enc} {R : Rand} {out : Bytes} {allow : Bool} {r : Rcpt} {rk : Key} {la : Dict}
    {cls : DecCls} (hcls : cls.accepts .enc = true) (hb : Spec.MadeWithKeys C allow m.base) (hrs : m.recipients = [r])
    (hs : Spec.MadeWithKeys C allow r.base) (hr : Spec.DirectAgreement C r r.base.uhdr rk la) (h : m.encode C R true true = .ok (out, m1)) :
    ∃ m' r' p, decode C cls allow out = .ok (.enc m') ∧ m'.base.phdr = m.base.phdr ∧ m'.base.uhdr = m.base.uhdr ∧ m'.recipients = [r'] ∧
      r'.base.phdr = r.base.phdr ∧ r'.base.uhdr = r.base.uhdr ∧ m.base.payload = some p ∧
      ∃ m'', Enc.decrypt C { base := { m'.base with aad := m.base.aad }, recipients := [r'.receiver rk la] }
        (r'.receiver rk la) = .ok (p, m'') :=
  c14_direct_agreement_roundtrip L hcls (madeWithKeys_sendable hb _) hrs (madeWithKeys_sendable hs _) hr h

/-- C14 for COSE_Mac messages and recipients made by the constructors. -/
theorem c14_mac_constructed_keys {C : Crypto} (L : C.Laws) {m m1 : Mac} {R : Rand} {out : Bytes} {allow : Bool} {r : Rcpt} {rk : Key}
    {la : Dict} {cls : DecCls} {alg : Val} (hcls : cls.accepts .mac = true) (hb : Spec.MadeWithKeys C allow m.base) (hrs : m.recipients = some [r])
    (hs : Spec.MadeWithKeys C allow r.base) (hr : Spec.DirectAgreement C r r.base.uhdr rk la) (halg : m.base.getAttr Hdr.Algorithm = .ok alg)
    (h : m.encode C R true true = .ok (out, m1)) :
    ∃ m' r' k, decode C cls allow out = .ok (.mac m') ∧ m'.base.phdr = m.base.phdr ∧ m'.base.uhdr = m.base.uhdr ∧
      m'.base.payload = m.base.payload ∧ m'.recipients = some [r'] ∧ r'.base.phdr = r.base.phdr ∧ r'.base.uhdr = r.base.uhdr ∧
      rcptComputeCek C (r'.receiver rk la) alg = .ok k ∧
      Mac.verifyTag C { m' with base := m'.base.withKeyAad k m.base.aad } = .ok true :=
  c14_mac_direct_agreement_roundtrip L hcls (madeWithKeys_sendable hb _) hrs (madeWithKeys_sendable hs _) hr halg h

/-! ### C63 -/

/-- C63: a key class refuses keys of other types. -/
theorem c63_class {C : Crypto} {kind : Kind} {k : ExtKey} {opt : Dict} (h : supportsExt kind k = false) :
    kindFromExt C kind k opt = .error .illegalKeyType := by
  cases kind <;> cases k <;> simp_all [supportsExt, kindFromExt]
  rename_i t _ _
  cases t <;> simp_all [okpCurveOf, Except.isOk, Except.toBool]

/-! ### C81: the exception -/

/-- What the serialiser raises for a value that it does not know and the callback does not know either. -/
def Spec.refusal : Mode → PyErr
  | .plain => .cborEncode
  | .ident => .attributeError
  | .base _ => .typeError

theorem lenOf_error {v : Val} {e : PyErr} (h : lenOf v = .error e) : e = .typeError := by
  cases v <;> simp_all [lenOf]

mutual
theorem subst_refusal {m : Mode} {e : PyErr} : ∀ {v : Val}, subst fullname m v = .error e → e = Spec.refusal m
  | .arr l, h => by
    simp only [subst, bind_eq_error] at h
    rcases h with h | ⟨_, _, h⟩
    · exact substL_refusal h
    · simp at h
  | .map l, h => by
    simp only [subst, bind_eq_error] at h
    rcases h with h | ⟨_, _, h⟩
    · exact substP_refusal h
    · simp at h
  | .tag n v, h => by
    simp only [subst, bind_eq_error] at h
    rcases h with h | ⟨_, _, h⟩
    · exact subst_refusal h
    · simp at h
  | .cls c, h => by
    cases m <;> simp_all [subst, substCls, Spec.refusal]
    split at h <;> simp at h
  | .key _ s, h => by
    cases m <;> simp only [subst, Except.error.injEq, bind_eq_error] at h
    · exact h.symm
    · exact h.symm
    · rcases h with h | ⟨_, _, h | ⟨_, _, h⟩⟩
      · unfold keyOpsLen at h
        split at h
        · exact lenOf_error h
        · simp at h
      · exact substS_refusal h
      · simp at h
  | .none, h => by simp [subst] at h
  | .undef, h => by simp [subst] at h
  | .bool _, h => by simp [subst] at h
  | .simple _, h => by simp [subst] at h
  | .int _, h => by simp [subst] at h
  | .float _, h => by simp [subst] at h
  | .bytes _, h => by simp [subst] at h
  | .text _, h => by simp [subst] at h
theorem substL_refusal {m : Mode} {e : PyErr} : ∀ {l : List Val}, substL fullname m l = .error e → e = Spec.refusal m
  | [], h => by simp [substL] at h
  | v :: t, h => by
    simp only [substL, bind_eq_error] at h
    rcases h with h | ⟨_, _, h | ⟨_, _, h⟩⟩
    · exact subst_refusal h
    · exact substL_refusal h
    · simp at h
theorem substP_refusal {m : Mode} {e : PyErr} : ∀ {l : List (Val × Val)}, substP fullname m l = .error e → e = Spec.refusal m
  | [], h => by simp [substP] at h
  | p :: t, h => by
    simp only [substP, bind_eq_error] at h
    rcases h with h | ⟨_, _, h | ⟨_, _, h⟩⟩
    · exact substQ_refusal h
    · exact substP_refusal h
    · simp at h
theorem substS_refusal {m : Mode} {e : PyErr} : ∀ {l : List (Val × Val)}, substS fullname m l = .error e → e = Spec.refusal m
  | [], h => by simp [substS] at h
  | p :: t, h => by
    simp only [substS, bind_eq_error] at h
    rcases h with h | ⟨_, _, h | ⟨_, _, h⟩⟩
    · exact substQ_refusal h
    · exact substS_refusal h
    · split at h <;> simp at h
theorem substQ_refusal {m : Mode} {e : PyErr} : ∀ {p : Val × Val}, substQ fullname m p = .error e → e = Spec.refusal m
  | (k, v), h => by
    simp only [substQ, bind_eq_error] at h
    rcases h with h | ⟨_, _, h | ⟨_, _, h⟩⟩
    · exact subst_refusal h
    · exact subst_refusal h
    · simp at h
end

mutual
/-- No classes and no key objects inside. -/
def Bare : Val → Prop
  | .arr l => BareL l
  | .map l => BareP l
  | .tag _ v => Bare v
  | .cls _ => False
  | .key _ _ => False
  | _ => True
termination_by structural x => x
def BareL : List Val → Prop
  | [] => True
  | v :: t => Bare v ∧ BareL t
termination_by structural x => x
def BareP : List (Val × Val) → Prop
  | [] => True
  | p :: t => BareQ p ∧ BareP t
termination_by structural x => x
def BareQ : Val × Val → Prop
  | (k, v) => Bare k ∧ Bare v
termination_by structural x => x
end

mutual
theorem subst_bare {m : Mode} : ∀ {v w : Val}, subst fullname m v = .ok w → Bare w
  | .arr l, w, h => by
    simp only [subst, bind_eq_ok] at h
    obtain ⟨l', h1, h2⟩ := h
    simp at h2; subst h2
    exact substL_bare h1
  | .map l, w, h => by
    simp only [subst, bind_eq_ok] at h
    obtain ⟨l', h1, h2⟩ := h
    simp at h2; subst h2
    exact substP_bare h1
  | .tag n v, w, h => by
    simp only [subst, bind_eq_ok] at h
    obtain ⟨l', h1, h2⟩ := h
    simp at h2; subst h2
    exact (subst_bare h1 : Bare l')
  | .cls c, w, h => by
    cases m <;> simp only [subst, substCls] at h
    · simp at h
    · simp at h; subst h; trivial
    · split at h <;> (simp at h; subst h; trivial)
  | .key _ s, w, h => by
    cases m <;> simp only [subst, bind_eq_ok] at h
    · simp at h
    · simp at h
    · obtain ⟨_, _, l', h1, h2⟩ := h
      simp at h2; subst h2
      exact substS_bare h1
  | .none, w, h => by simp [subst] at h; subst h; trivial
  | .undef, w, h => by simp [subst] at h; subst h; trivial
  | .bool _, w, h => by simp [subst] at h; subst h; trivial
  | .simple _, w, h => by simp [subst] at h; subst h; trivial
  | .int _, w, h => by simp [subst] at h; subst h; trivial
  | .float _, w, h => by simp [subst] at h; subst h; trivial
  | .bytes _, w, h => by simp [subst] at h; subst h; trivial
  | .text _, w, h => by simp [subst] at h; subst h; trivial
theorem substL_bare {m : Mode} : ∀ {l w : List Val}, substL fullname m l = .ok w → BareL w
  | [], w, h => by simp [substL] at h; subst h; trivial
  | v :: t, w, h => by
    simp only [substL, bind_eq_ok] at h
    obtain ⟨v', h1, t', h2, h3⟩ := h
    simp at h3; subst h3
    exact ⟨subst_bare h1, substL_bare h2⟩
theorem substP_bare {m : Mode} : ∀ {l w : List (Val × Val)}, substP fullname m l = .ok w → BareP w
  | [], w, h => by simp [substP] at h; subst h; trivial
  | p :: t, w, h => by
    simp only [substP, bind_eq_ok] at h
    obtain ⟨v', h1, t', h2, h3⟩ := h
    simp at h3; subst h3
    exact ⟨substQ_bare h1, substP_bare h2⟩
theorem substS_bare {m : Mode} : ∀ {l w : List (Val × Val)}, substS fullname m l = .ok w → BareP w
  | [], w, h => by simp [substS] at h; subst h; trivial
  | p :: t, w, h => by
    simp only [substS, bind_eq_ok] at h
    obtain ⟨v', h1, t', h2, h3⟩ := h
    split at h3
    · simp at h3; subst h3
      exact substS_bare h2
    · simp at h3; subst h3
      exact ⟨substQ_bare h1, substS_bare h2⟩
theorem substQ_bare {m : Mode} : ∀ {p w : Val × Val}, substQ fullname m p = .ok w → BareQ w
  | (k, v), w, h => by
    simp only [substQ, bind_eq_ok] at h
    obtain ⟨v', h1, t', h2, h3⟩ := h
    simp at h3; subst h3
    exact ⟨subst_bare h1, subst_bare h2⟩
end

/-- A value that does not exist in Python, or one that CBOR has no room for. -/
def Unwritable (e : PyErr) : Prop := e = .unsupported ∨ e = .overflowError

theorem encHead_error {mt n : Nat} {e : PyErr} (h : encHead mt n = .error e) : Unwritable e := by
  unfold encHead at h
  repeat' split at h
  all_goals simp at h
  exact .inr h.symm

mutual
theorem enc_bare {e : PyErr} : ∀ {v : Val}, Bare v → enc (big v) = .error e → Unwritable e
  | .arr l, hb, h => by
    simp only [big, enc, bind_eq_error] at h
    rcases h with h | ⟨_, _, h | ⟨_, _, h⟩⟩
    · exact encHead_error h
    · exact encL_bare hb h
    · simp at h
  | .map l, hb, h => by
    simp only [big, enc, bind_eq_error] at h
    rcases h with h | ⟨_, _, h | ⟨_, _, h⟩⟩
    · exact encHead_error h
    · exact encP_bare hb h
    · simp at h
  | .tag n v, hb, h => by
    simp only [big, enc, bind_eq_error] at h
    rcases h with h | ⟨_, _, h | ⟨_, _, h⟩⟩
    · exact encHead_error h
    · exact enc_bare (v := v) hb h
    · simp at h
  | .cls _, hb, _ => hb.elim
  | .key _ _, hb, _ => hb.elim
  | .none, _, h => by simp [big, enc] at h
  | .undef, _, h => by simp [big, enc] at h
  | .bool _, _, h => by simp [big, enc] at h
  | .simple _, _, h => by
    simp only [big, enc, encSimple] at h
    repeat' split at h
    all_goals simp at h
    exact .inl h.symm
  | .int _, _, h => by
    simp only [big, bigInt] at h
    repeat' split at h
    all_goals simp only [enc, bind_eq_error] at h
    · rcases h with h | ⟨_, _, (h | ⟨_, _, h⟩) | ⟨_, _, h⟩⟩
      · exact encHead_error h
      · exact encHead_error h
      · simp at h
      · simp at h
    · rcases h with h | ⟨_, _, (h | ⟨_, _, h⟩) | ⟨_, _, h⟩⟩
      · exact encHead_error h
      · exact encHead_error h
      · simp at h
      · simp at h
    · split at h <;> exact encHead_error h
  | .float _, _, h => by
    simp only [big, enc, encFloat] at h
    repeat' split at h
    all_goals simp at h
    all_goals exact .inl h.symm
  | .bytes _, _, h => by
    simp only [big, enc, bind_eq_error] at h
    rcases h with h | ⟨_, _, h⟩
    · exact encHead_error h
    · simp at h
  | .text _, _, h => by
    simp only [big, enc] at h
    split at h
    · simp only [bind_eq_error] at h
      rcases h with h | ⟨_, _, h⟩
      · exact encHead_error h
      · simp at h
    · simp at h; exact .inl h.symm
theorem encL_bare {e : PyErr} : ∀ {l : List Val}, BareL l → encL (bigL l) = .error e → Unwritable e
  | [], _, h => by simp [bigL, encL] at h
  | v :: t, hb, h => by
    simp only [bigL, encL, bind_eq_error] at h
    rcases h with h | ⟨_, _, h | ⟨_, _, h⟩⟩
    · exact enc_bare hb.1 h
    · exact encL_bare hb.2 h
    · simp at h
theorem encP_bare {e : PyErr} : ∀ {l : List (Val × Val)}, BareP l → encP (bigP l) = .error e → Unwritable e
  | [], _, h => by simp [bigP, encP] at h
  | p :: t, hb, h => by
    simp only [bigP, encP, bind_eq_error] at h
    rcases h with h | ⟨_, _, h | ⟨_, _, h⟩⟩
    · exact encQ_bare hb.1 h
    · exact encP_bare hb.2 h
    · simp at h
theorem encQ_bare {e : PyErr} : ∀ {p : Val × Val}, BareQ p → encQ (bigQ p) = .error e → Unwritable e
  | (k, v), hb, h => by
    simp only [bigQ, encQ, bind_eq_error] at h
    rcases h with h | ⟨_, _, h | ⟨_, _, h⟩⟩
    · exact enc_bare hb.1 h
    · exact enc_bare hb.2 h
    · simp at h
end

/-- C81: a value is refused with `OverflowError` if something in it is too large for CBOR; otherwise the exception is `CBOREncodeTypeError`
where there is no callback, `AttributeError` where the callback knows attributes only, and `TypeError` where it knows keys too.
(`unsupported` marks values that do not exist in Python, such as texts that are not UTF-8.) -/
theorem c81_refused {m : Mode} {v : Val} {e : PyErr} (h : dumps fullname m v = .error e) (hl : e ≠ .unsupported) :
    e = .overflowError ∨ e = Spec.refusal m := by
  simp only [dumps, bind_eq_error] at h
  rcases h with h | ⟨w, h1, h2⟩
  · exact .inr (subst_refusal h)
  · exact (enc_bare (subst_bare h1) h2).elim (fun e => absurd e hl) .inl

example : dumps fullname .plain (.arr [.bytes [1], .cls Hdr.Algorithm]) = .error .cborEncode ∧
    dumps fullname .ident (.arr [.key .sym []]) = .error .attributeError ∧
    dumps fullname (.base false) (.key .sym [(.cls KpKeyOps, .int 1)]) = .error .typeError := by decide +kernel

/-! ### C77 for messages with recipients -/

/-- C77: exactly these byte strings, with recipients that can be read, are accepted as COSE_Encrypt messages: a CBOR array with tag 96, of
which the first three elements can be read and all recipients obey the rules of their classes (C69). -/
theorem c77_enc_accepts {C : Crypto} {cls : DecCls} {allow : Bool} {bs : Bytes} {n : Nat} {p u pl : Val} {sg rest : List Val}
    (hl : loads bs = .ok (.tag n (.arr (p :: u :: pl :: .arr sg :: rest)))) (hr : ∀ v ∈ sg, ∃ b, Spec.Readable C allow v b) :
    (∃ m, decode C cls allow bs = .ok (.enc m)) ↔ cls.accepts .enc = true ∧ n = 96 ∧ Spec.HeadOk C allow p u pl ∧
      ∃ rs, Spec.AcceptedFrom C allow b!"Enc_Recipient" 0 sg rs := by
  constructor
  · rintro ⟨m, h⟩
    have hrs := (c69_enc_received hl h).resolve_right (by
      rintro ⟨_, v, hv, hn⟩
      obtain ⟨b, hb⟩ := hr v hv
      exact hn b hb)
    obtain ⟨n', obj, k, h1, h2, h3, h4, h5⟩ := decode_iff.mp h
    simp only [Msg.kind] at h5; subst h5
    have en := tagKind_num h2
    simp only [Spec.tagNumber] at en
    rw [hl] at h1
    simp at h1
    obtain ⟨e, rfl⟩ := h1
    simp only [fromObj, Enc.fromObj, bind_eq_ok] at h3
    obtain ⟨m', ⟨⟨b, r⟩, g1, _⟩, _⟩ := h3
    have hrr : r = .arr sg :: rest := by
      obtain ⟨_, _, _, e⟩ := fromObj_short g1
      simp at e
      exact e.2.2.2.symm
    subst hrr
    exact ⟨h4, by omega, head_ok.mp ⟨b, g1⟩, m.recipients, hrs⟩
  · rintro ⟨hc, rfl, h2, rs, hrs⟩
    obtain ⟨b, hb⟩ := (head_ok (rest := .arr sg :: rest)).mpr h2
    refine ⟨{ base := b, recipients := rs }, decode_iff.mpr ⟨96, _, .enc, hl, rfl, ?_, hc, rfl⟩⟩
    simp only [fromObj, Enc.fromObj, hb, ok_bind, recipientsOf, pop0, iterRecipients, creates_iff.mpr hrs]

/-- C77: COSE_Mac. -/
theorem c77_mac_accepts {C : Crypto} {cls : DecCls} {allow : Bool} {bs : Bytes} {n : Nat} {p u pl t : Val} {sg rest : List Val}
    (hl : loads bs = .ok (.tag n (.arr (p :: u :: pl :: t :: .arr sg :: rest)))) (hr : ∀ v ∈ sg, ∃ b, Spec.Readable C allow v b) :
    (∃ m, decode C cls allow bs = .ok (.mac m)) ↔ cls.accepts .mac = true ∧ n = 97 ∧ Spec.HeadOk C allow p u pl ∧
      ∃ rs, Spec.AcceptedFrom C allow b!"Mac_Recipient" 0 sg rs := by
  constructor
  · rintro ⟨m, h⟩
    have hrs := (c69_mac_received hl h).resolve_right (by
      rintro ⟨_, v, hv, hn⟩
      obtain ⟨b, hb⟩ := hr v hv
      exact hn b hb)
    obtain ⟨n', obj, k, h1, h2, h3, h4, h5⟩ := decode_iff.mp h
    simp only [Msg.kind] at h5; subst h5
    have en := tagKind_num h2
    simp only [Spec.tagNumber] at en
    rw [hl] at h1
    simp at h1
    obtain ⟨e, rfl⟩ := h1
    simp only [fromObj, Mac.fromObj, bind_eq_ok] at h3
    obtain ⟨m', ⟨⟨b, r⟩, g1, _⟩, _⟩ := h3
    have hrr : r = t :: .arr sg :: rest := by
      obtain ⟨_, _, _, e⟩ := fromObj_short g1
      simp at e
      exact e.2.2.2.symm
    subst hrr
    obtain ⟨rs, _, hrs⟩ := hrs
    exact ⟨h4, by omega, head_ok.mp ⟨b, g1⟩, rs, hrs⟩
  · rintro ⟨hc, rfl, h2, rs, hrs⟩
    obtain ⟨b, hb⟩ := (head_ok (rest := t :: .arr sg :: rest)).mpr h2
    refine ⟨{ base := b, authTag := t, recipients := some rs }, decode_iff.mpr ⟨97, _, .mac, hl, rfl, ?_, hc, rfl⟩⟩
    simp only [fromObj, Mac.fromObj, hb, ok_bind, recipientsOf, pop0, iterRecipients, creates_iff.mpr hrs]

/-- C77: a message without the field for recipients is accepted too. -/
theorem c77_enc_bare {C : Crypto} {cls : DecCls} {allow : Bool} {bs : Bytes} {n : Nat} {p u pl : Val}
    (hl : loads bs = .ok (.tag n (.arr [p, u, pl]))) :
    (∃ m, decode C cls allow bs = .ok (.enc m)) ↔ cls.accepts .enc = true ∧ n = 96 ∧ Spec.HeadOk C allow p u pl := by
  constructor
  · rintro ⟨m, h⟩
    obtain ⟨n', obj, k, h1, h2, h3, h4, h5⟩ := decode_iff.mp h
    simp only [Msg.kind] at h5; subst h5
    have en := tagKind_num h2
    simp only [Spec.tagNumber] at en
    rw [hl] at h1
    simp at h1
    obtain ⟨e, rfl⟩ := h1
    simp only [fromObj, Enc.fromObj, bind_eq_ok] at h3
    obtain ⟨m', ⟨⟨b, r⟩, g1, _⟩, _⟩ := h3
    have hrr : r = [] := by
      obtain ⟨_, _, _, e⟩ := fromObj_short g1
      simp at e
      exact e.2.2.2
    subst hrr
    exact ⟨h4, by omega, head_ok.mp ⟨b, g1⟩⟩
  · rintro ⟨hc, rfl, h2⟩
    obtain ⟨b, hb⟩ := (head_ok (rest := [])).mpr h2
    refine ⟨{ base := b, recipients := [] }, decode_iff.mpr ⟨96, _, .enc, hl, rfl, ?_, hc, rfl⟩⟩
    simp only [fromObj, Enc.fromObj, hb, ok_bind, recipientsOf, pop0]
    rfl

/-- C77: the same for COSE_Mac. -/
theorem c77_mac_bare {C : Crypto} {cls : DecCls} {allow : Bool} {bs : Bytes} {n : Nat} {p u pl t : Val}
    (hl : loads bs = .ok (.tag n (.arr [p, u, pl, t]))) :
    (∃ m, decode C cls allow bs = .ok (.mac m)) ↔ cls.accepts .mac = true ∧ n = 97 ∧ Spec.HeadOk C allow p u pl := by
  constructor
  · rintro ⟨m, h⟩
    obtain ⟨n', obj, k, h1, h2, h3, h4, h5⟩ := decode_iff.mp h
    simp only [Msg.kind] at h5; subst h5
    have en := tagKind_num h2
    simp only [Spec.tagNumber] at en
    rw [hl] at h1
    simp at h1
    obtain ⟨e, rfl⟩ := h1
    simp only [fromObj, Mac.fromObj, bind_eq_ok] at h3
    obtain ⟨m', ⟨⟨b, r⟩, g1, _⟩, _⟩ := h3
    have hrr : r = [t] := by
      obtain ⟨_, _, _, e⟩ := fromObj_short g1
      simp at e
      exact e.2.2.2.symm
    subst hrr
    exact ⟨h4, by omega, head_ok.mp ⟨b, g1⟩⟩
  · rintro ⟨hc, rfl, h2⟩
    obtain ⟨b, hb⟩ := (head_ok (rest := [t])).mpr h2
    refine ⟨{ base := b, authTag := t, recipients := none }, decode_iff.mpr ⟨97, _, .mac, hl, rfl, ?_, hc, rfl⟩⟩
    simp only [fromObj, Mac.fromObj, hb, ok_bind, recipientsOf, pop0]
    rfl

/-- Both messages of the samples of C69 have recipients that can be read; the first is accepted and the second is not. -/
example : (∃ p u pl, loads [0xd8, 96, 0x84, 0x43, 0xa1, 1, 1, 0xa0, 0x41, 0, 0x81, 0x83, 0x40, 0xa1, 1, 0x22, 0x41, 1] =
      .ok (.tag 96 (.arr [p, u, pl, .arr [sampleKwVal false [1]]]))) ∧
    (∃ p u pl, loads [0xd8, 96, 0x84, 0x43, 0xa1, 1, 1, 0xa0, 0x41, 0, 0x81, 0x83, 0x40, 0xa1, 1, 0x22, 0x40] =
      .ok (.tag 96 (.arr [p, u, pl, .arr [sampleKwVal false []]]))) ∧
    (∀ c, ∃ b, Spec.Readable toy true (sampleKwVal false c) b) :=
  ⟨⟨.bytes [0xa1, 1, 1], .map [], .bytes [0], by decide +kernel⟩, ⟨.bytes [0xa1, 1, 1], .map [], .bytes [0], by decide +kernel⟩,
    fun c => ⟨_, sampleKw_readable false c⟩⟩

/-! ### A COSE_Sign message with COSE keys in the headers of the message and of its signer -/

/-- The headers of a signer. -/
def Sample.signerArgs : HdrArgs :=
  { phdr := .map [(.text b!"alg", .text b!"es256")], uhdr := .map [(.int (-2), Sample.symKey.toVal), (.int 999, .bytes [7])] }

theorem Sample.symConstructed : Spec.ConstructedKey toy Sample.symKey :=
  ⟨[], (by intro k v h; cases h), .bytes (List.replicate 16 5), by decide +kernel⟩

theorem Sample.signerArgs_keyed : ∃ dp du, Sample.signerArgs.phdr = .map dp ∧ Sample.signerArgs.uhdr = .map du ∧
    Spec.KeyedArgs toy dp ∧ Spec.KeyedArgs toy du := by
  refine ⟨_, _, rfl, rfl, ?_, ?_⟩
  · intro k v h
    have h : (k, v) = (.text b!"alg", .text b!"es256") := by simpa using h
    cases h
    exact .inl ⟨Hdr.Algorithm, b!"ALG", by decide +kernel,
      .name (.lower 65 (by decide) (by decide) (.lower 76 (by decide) (by decide) (.lower 71 (by decide) (by decide) .nil))),
      .inr ⟨by decide, by decide, fun h => absurd rfl h⟩⟩
  · intro k v h
    have h : (k, v) = (.int (-2), Sample.symKey.toVal) ∨ (k, v) = (.int 999, .bytes [7]) := by simpa using h
    rcases h with e | e <;> cases e
    · exact .inl ⟨Hdr.StaticKey, b!"STATIC_KEY", by decide +kernel, .ident, .inl ⟨.inr rfl, Sample.symKey, rfl, Sample.symConstructed⟩⟩
    · exact .inr ⟨foreign_int (by decide +kernel), trivial⟩

/-- What the constructor makes of them. -/
def Sample.signerMade (key : Option Key) : Base :=
  { phdr := [(.cls Hdr.Algorithm, algCls (-7))], uhdr := [(.cls Hdr.StaticKey, Sample.symKey.toVal), (.int 999, .bytes [7])],
    payload := some [], key := key }

theorem Sample.signerMade_keyed (key : Option Key) : Spec.MadeWithKeys toy true (Sample.signerMade key) := by
  obtain ⟨dp, du, h1, h2, h3, h4⟩ := Sample.signerArgs_keyed
  exact ⟨Sample.signerArgs, dp, du, .bytes [], .bytes [], none, Sample.signerMade none, rfl, h1, h2, rfl, h3, h4, by decide +kernel, rfl, rfl, rfl⟩

/-- A message with two signers. -/
def Sample.keyedSign : SignMsg :=
  { base := { Sample.signerMade none with payload := some [1] }
    signers := [Sample.signerMade (some Sample.ecKey), Sample.signerMade (some Sample.ecKey)] }

/-- The message is encoded, so all hypotheses of `c07_constructed_keys` are met. -/
example : (Sample.keyedSign.encode toy (fun _ => []) true none).isOk = true ∧ Spec.MadeWithKeys toy true Sample.keyedSign.base ∧
    ∀ s ∈ Sample.keyedSign.signers, Spec.MadeWithKeys toy true s := by
  refine ⟨by decide +kernel, ?_, ?_⟩
  · obtain ⟨a, dp, du, pl, aad, key, b0, h⟩ := Sample.signerMade_keyed none
    exact ⟨a, dp, du, pl, aad, key, b0, h⟩
  · intro s hs
    simp [Sample.keyedSign] at hs
    subst hs
    exact Sample.signerMade_keyed _

end Cose
