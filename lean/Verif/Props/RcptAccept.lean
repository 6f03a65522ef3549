import Verif.Props.RcptRules
/-!
# Which received recipients are accepted (C69)
-/
set_option autoImplicit false
namespace Cose

/-- The received structure `v` can be read: it is an array of protected header, unprotected header, ciphertext and
possibly more, with the protected header a byte string and the unprotected header a map, both readable.  `b` is what
is read. -/
def Spec.Readable (C : Crypto) (allow : Bool) (v : Val) (b : Base) : Prop :=
  ∃ pe uh rest, v = .arr (pe :: uh :: optBytes b.payload :: rest) ∧ pe ≠ .none ∧ uh ≠ .none ∧
    ProtReceived C allow pe b.phdrEnc b.phdr ∧ UnprotReceived C allow uh b.uhdr ∧
    b.aad = [] ∧ b.key = none ∧ b.tstr = false ∧ b.localAttrs = []

/-- The value of a header in the protected and in the unprotected header. -/
def Spec.inP (b : Base) (c : Cls) : Prop := getD b.phdr c .none ≠ .none
def Spec.inU (b : Base) (c : Cls) : Prop := getD b.uhdr c .none ≠ .none

/-- A header is not in both. -/
def Spec.once (b : Base) (c : Cls) : Prop := ¬ (Spec.inP b c ∧ Spec.inU b c)

/-- Why and how a readable structure is refused. -/
inductive Spec.Refused (b : Base) : PyErr → Prop
  | noAlgorithm : ¬ Spec.inP b Hdr.Algorithm → ¬ Spec.inU b Hdr.Algorithm → Spec.Refused b .coseException
  | algorithmList {l : List Val} : getD b.phdr Hdr.Algorithm .none = .arr l ∨
      ¬ Spec.inP b Hdr.Algorithm ∧ getD b.uhdr Hdr.Algorithm .none = .arr l → Spec.Refused b .typeError
  | noRecipientAlgorithm {i : Int} : Spec.RcptAlg b i → (∀ c, ¬ Spec.ClassOf c i) → Spec.Refused b .keyError
  | ciphertextOfDirect {i : Int} : Spec.RcptAlg b i → Spec.ClassOf .directEncryption i → b.payload ≠ some [] →
      Spec.Refused b .malformedMessage
  | algorithmTwice {i : Int} {c : RCls} : Spec.RcptAlg b i → Spec.ClassOf c i → c ≠ .keyAgreementWithKeyWrap →
      (c = .directEncryption → b.payload = some []) → ¬ Spec.once b Hdr.Algorithm → Spec.Refused b .coseException
  | protectedOfDirect : Spec.RcptAlg b (-6) → b.payload = some [] → Spec.once b Hdr.Algorithm → b.phdr ≠ [] →
      Spec.Refused b .malformedMessage
  | protectedOfKeyWrap {i : Int} : Spec.RcptAlg b i → i = -3 ∨ i = -4 ∨ i = -5 → Spec.once b Hdr.Algorithm → b.phdr ≠ [] →
      Spec.Refused b .malformedMessage
  | keyWrapWithoutCiphertext {i : Int} : Spec.RcptAlg b i → Spec.ClassOf .keyWrap i → Spec.once b Hdr.Algorithm →
      b.payload = some [] → Spec.Refused b .malformedMessage
  | agreementWithoutCiphertext {i : Int} : Spec.RcptAlg b i → Spec.ClassOf .keyAgreementWithKeyWrap i →
      b.payload = some [] → Spec.Refused b .malformedMessage
  | ephemeralTwice {i : Int} : Spec.RcptAlg b i → i = -25 ∨ i = -26 → Spec.once b Hdr.Algorithm →
      ¬ Spec.once b Hdr.EphemeralKey → Spec.Refused b .coseException
  | noEphemeral {i : Int} : Spec.RcptAlg b i → i = -25 ∨ i = -26 → Spec.once b Hdr.Algorithm →
      ¬ Spec.inP b Hdr.EphemeralKey → ¬ Spec.inU b Hdr.EphemeralKey → Spec.Refused b .malformedMessage

/-- A readable structure that obeys the rules; the recipient object that stands for it has the class of its algorithm,
the context in which it is used and a number of its own. -/
structure Spec.Accepted (C : Crypto) (allow : Bool) (ctx : Bytes) (n : Nat) (v : Val) (r : Rcpt) : Prop where
  readable : Spec.Readable C allow v r.base
  obj : ∃ c b, r = .mk c b ctx n []
  rules : ∃ i, Spec.RcptRules r i ∧ (r.cls ≠ .keyAgreementWithKeyWrap → Spec.once r.base Hdr.Algorithm) ∧
    (i = -25 ∨ i = -26 → Spec.once r.base Hdr.EphemeralKey)

/-- Lists of accepted structures; the objects are numbered from `n`. -/
inductive Spec.AcceptedFrom (C : Crypto) (allow : Bool) (ctx : Bytes) : Nat → List Val → List Rcpt → Prop
  | nil {n : Nat} : Spec.AcceptedFrom C allow ctx n [] []
  | cons {n : Nat} {v : Val} {r : Rcpt} {vs : List Val} {rs : List Rcpt} : Spec.Accepted C allow ctx n v r →
      Spec.AcceptedFrom C allow ctx (n + 1) vs rs → Spec.AcceptedFrom C allow ctx n (v :: vs) (r :: rs)

/-! ### The algorithm of a received structure -/

theorem parsed_alg {C : Crypto} {allow : Bool} {d h : Dict} (e : parseHeader C allow d = .ok h) :
    getD h Hdr.Algorithm .none = .none ∨ (∃ i, getD h Hdr.Algorithm .none = algCls i) ∨ ∃ l, getD h Hdr.Algorithm .none = .arr l := by
  rcases parseAttrs_get e Hdr.Algorithm with ⟨_, h1⟩ | ⟨_, _, v, _, w, _, _, h1, _, h2⟩
  · left; simp only [getD, h1]; rfl
  · right
    simp only [getD, h2, Option.getD_some]
    have h1 : fromId .alg v = .ok w := h1
    cases v
    case arr l =>
      simp only [fromId, bind_eq_ok] at h1
      obtain ⟨l', _, h1⟩ := h1
      simp at h1; exact .inr ⟨l', h1.symm⟩
    all_goals
      simp only [fromId] at h1
      split at h1 <;> simp at h1
      rename_i c hc
      subst h1
      obtain ⟨_, n, hn⟩ := resolve_some hc
      have := alg_reg hn
      obtain ⟨r, i⟩ := c
      simp only at this; subst this
      exact .inl ⟨i, rfl⟩

theorem readable_alg {C : Crypto} {allow : Bool} {v : Val} {b : Base} (h : Spec.Readable C allow v b) :
    (getD b.phdr Hdr.Algorithm .none = .none ∨ (∃ i, getD b.phdr Hdr.Algorithm .none = algCls i) ∨ ∃ l, getD b.phdr Hdr.Algorithm .none = .arr l) ∧
    (getD b.uhdr Hdr.Algorithm .none = .none ∨ (∃ i, getD b.uhdr Hdr.Algorithm .none = algCls i) ∨ ∃ l, getD b.uhdr Hdr.Algorithm .none = .arr l) := by
  obtain ⟨pe, uh, rest, _, h1, h2, hp, hu, _⟩ := h
  constructor
  · rcases hp.inv with ⟨e, _⟩ | ⟨_, _, e⟩ | ⟨_, _, _, _, _, _, e⟩
    · exact absurd e h1
    · left; rw [e]; rfl
    · exact parsed_alg e
  · rcases hu.inv with ⟨e, _⟩ | ⟨_, _, e⟩
    · exact absurd e h2
    · exact parsed_alg e

/-! ### The code on a readable structure -/

/-- What the class checks, on what was read. -/
def judge (c : RCls) (b : Base) : Res Unit :=
  match c with
  | .directEncryption =>
    if b.payload ≠ some [] then .error .malformedMessage
    else do
      let alg ← b.getAttr Hdr.Algorithm
      if alg = algCls (-6) ∧ b.phdr.length ≠ 0 then .error .malformedMessage else .ok ()
  | .keyWrap => do
    let alg ← b.getAttr Hdr.Algorithm
    let isKw ← inSet alg aesKws
    if isKw = true ∧ b.phdr.length ≠ 0 then .error .malformedMessage
    else if b.payload = some [] then .error .malformedMessage
    else .ok ()
  | .directKeyAgreement => do
    let alg ← b.getAttr Hdr.Algorithm
    let es ← inSet alg ecdhEsHkdf
    if es then do
      let e ← b.getAttr Hdr.EphemeralKey
      if e = .none then .error .malformedMessage else .ok ()
    else .ok ()
  | .keyAgreementWithKeyWrap =>
    if b.payload = some [] then .error .malformedMessage else .ok ()

theorem rcptFromObj_readable {C : Crypto} {allow : Bool} {v : Val} {b : Base} (h : Spec.Readable C allow v b) (c : RCls) (ctx : Bytes) (n : Nat) :
    rcptFromObj C c v allow ctx n = (do judge c b; .ok (.mk c b ctx n [])) := by
  obtain ⟨pe, uh, rest, rfl, _, _, hp, hu, ho⟩ := h
  have hb : baseFromObj C (pe :: uh :: optBytes b.payload :: rest) allow = .ok (b, rest) := baseFromObj_iff.mpr ⟨pe, uh, rfl, hp, hu, ho⟩
  simp only [rcptFromObj, hb, ok_bind]
  cases c <;> simp only [judge]
  · split
    · simp only [error_bind]
    · cases b.getAttr Hdr.Algorithm with
      | error e => simp only [error_bind]
      | ok alg => simp only [ok_bind]; split <;> simp only [error_bind, ok_bind]
  · cases b.getAttr Hdr.Algorithm with
    | error e => simp only [error_bind]
    | ok alg =>
      simp only [ok_bind]
      cases inSet alg aesKws with
      | error e => simp only [error_bind]
      | ok k =>
        simp only [ok_bind]
        split
        · simp only [error_bind]
        · split <;> simp only [error_bind, ok_bind]
  · cases b.getAttr Hdr.Algorithm with
    | error e => simp only [error_bind]
    | ok alg =>
      simp only [ok_bind]
      cases inSet alg ecdhEsHkdf with
      | error e => simp only [error_bind]
      | ok k =>
        simp only [ok_bind]
        cases k
        · simp
        · simp only [if_true]
          cases b.getAttr Hdr.EphemeralKey with
          | error e => simp only [error_bind]
          | ok e => simp only [ok_bind]; by_cases he : e = .none <;> simp [he]
  · split <;> simp only [error_bind, ok_bind]

theorem createRecipient_readable {C : Crypto} {allow : Bool} {v : Val} {b : Base} (h : Spec.Readable C allow v b) (ctx : Bytes) (n : Nat) :
    createRecipient C allow ctx n v =
      if getD b.phdr Hdr.Algorithm .none ≠ .none then do
        let c ← rcptClass (getD b.phdr Hdr.Algorithm .none)
        judge c b
        .ok (.mk c b ctx n [])
      else if getD b.uhdr Hdr.Algorithm .none ≠ .none then do
        let c ← rcptClass (getD b.uhdr Hdr.Algorithm .none)
        judge c b
        .ok (.mk c b ctx n [])
      else .error .coseException := by
  have hf := rcptFromObj_readable h
  obtain ⟨pe, uh, rest, rfl, h1, h2, hp, hu, ho⟩ := h
  obtain ⟨d, rfl, hd⟩ := hu.inv.resolve_left (fun e => h2 e.1)
  unfold createRecipient
  rcases hp.inv with ⟨e, _⟩ | ⟨rfl, _, e⟩ | ⟨bb, d', rfl, _, hne, e3, e4⟩
  · exact absurd e h1
  · have e0 : getD b.phdr Hdr.Algorithm .none = .none := by rw [e]; rfl
    simp only [rcptItem, List.getElem?_cons_zero, List.getElem?_cons_succ, ok_bind, parseHeaderVal, hd, e0, hf, ne_eq,
      not_true_eq_false, if_false]
  · have hx : ¬ Val.bytes bb = .bytes [] := by simp [hne]
    simp only [rcptItem, List.getElem?_cons_zero, List.getElem?_cons_succ, ok_bind, parseHeaderVal, hd, loadsVal, e3, e4, hf, ne_eq, hx,
      not_false_eq_true, if_true]

theorem getAttr_cases (b : Base) (c : Cls) :
    (¬ Spec.once b c ∧ b.getAttr c = .error .coseException) ∨
    (Spec.once b c ∧ Spec.inP b c ∧ b.getAttr c = .ok (getD b.phdr c .none)) ∨
    (Spec.once b c ∧ ¬ Spec.inP b c ∧ b.getAttr c = .ok (getD b.uhdr c .none)) := by
  have h : b.getAttr c = (if getD b.phdr c .none ≠ .none ∧ getD b.uhdr c .none ≠ .none then .error .coseException
      else if getD b.phdr c .none ≠ .none then .ok (getD b.phdr c .none) else .ok (getD b.uhdr c .none) : Res Val) := rfl
  rw [h]
  simp only [Spec.once, Spec.inP, Spec.inU]
  split
  · rename_i hh; exact .inl ⟨fun g => g hh, rfl⟩
  · rename_i hh
    split
    · rename_i h1; exact .inr (.inl ⟨hh, h1, rfl⟩)
    · rename_i h1; exact .inr (.inr ⟨hh, h1, rfl⟩)

theorem getAttr_alg {b : Base} {i : Int} (h : Spec.RcptAlg b i) :
    (¬ Spec.once b Hdr.Algorithm ∧ b.getAttr Hdr.Algorithm = .error .coseException) ∨
    (Spec.once b Hdr.Algorithm ∧ b.getAttr Hdr.Algorithm = .ok (algCls i)) := by
  rcases getAttr_cases b Hdr.Algorithm with h1 | ⟨h1, h2, h3⟩ | ⟨h1, h2, h3⟩
  · exact .inl h1
  · refine .inr ⟨h1, ?_⟩
    rw [h3]
    rcases h with h | ⟨h, _⟩
    · rw [h]
    · exact absurd h h2
  · refine .inr ⟨h1, ?_⟩
    rw [h3]
    rcases h with h | ⟨_, h⟩
    · exact absurd (by rw [Spec.inP, h]; simp) h2
    · rw [h]

/-- The rules without the object. -/
def Spec.Rules (c : RCls) (b : Base) (i : Int) : Prop :=
  (c = .directEncryption → b.payload = some [] ∧ (i = -6 → b.phdr = [])) ∧
  (c = .keyWrap → b.payload ≠ some [] ∧ (i = -3 ∨ i = -4 ∨ i = -5 → b.phdr = [])) ∧
  (i = -25 ∨ i = -26 → Spec.inP b Hdr.EphemeralKey ∨ Spec.inU b Hdr.EphemeralKey) ∧
  (c = .keyAgreementWithKeyWrap → b.payload ≠ some []) ∧
  (c ≠ .keyAgreementWithKeyWrap → Spec.once b Hdr.Algorithm) ∧ (i = -25 ∨ i = -26 → Spec.once b Hdr.EphemeralKey)

theorem judge_ok {c : RCls} {b : Base} {i : Int} (ha : Spec.RcptAlg b i) (hc : Spec.ClassOf c i) (h : Spec.Rules c b i) :
    judge c b = .ok () := by
  obtain ⟨r1, r2, r3, r4, r5, r6⟩ := h
  cases c
  · obtain ⟨p1, p2⟩ := r1 rfl
    have h3 := (getAttr_alg ha).resolve_left (fun h => h.1 (r5 (by simp)))
    simp only [judge, p1, ne_eq, not_true_eq_false, if_false, h3.2, ok_bind]
    by_cases hi : i = -6
    · simp [p2 hi]
    · rw [if_neg]
      rintro ⟨he, _⟩
      simp at he; exact hi he
  · obtain ⟨p1, p2⟩ := r2 rfl
    have h3 := (getAttr_alg ha).resolve_left (fun h => h.1 (r5 (by simp)))
    simp only [judge, h3.2, ok_bind, inSet, p1, if_false]
    rw [if_neg]
    rintro ⟨he, hl⟩
    simp [aesKws] at he
    simp [p2 he] at hl
  · have h3 := (getAttr_alg ha).resolve_left (fun h => h.1 (r5 (by simp)))
    simp only [judge, h3.2, ok_bind, inSet]
    split
    · rename_i he
      simp [ecdhEsHkdf] at he
      rcases getAttr_cases b Hdr.EphemeralKey with h1 | ⟨_, h2, h4⟩ | ⟨_, h2, h4⟩
      · exact absurd (r6 he) h1.1
      · simp only [h4, ok_bind]; rw [if_neg h2]
      · simp only [h4, ok_bind]; rw [if_neg ((r3 he).resolve_left h2)]
    · rfl
  · simp [judge, r4 rfl]

theorem judge_refused {c : RCls} {b : Base} {e : PyErr} {i : Int} (ha : Spec.RcptAlg b i) (hc : Spec.ClassOf c i)
    (h : Spec.Refused b e) : judge c b = .error e := by
  have same : ∀ {j}, Spec.RcptAlg b j → j = i := by
    intro j hj
    rcases ha with h1 | ⟨h1, h2⟩ <;> rcases hj with h3 | ⟨h3, h4⟩
    · rw [h1] at h3; simp at h3; exact h3.symm
    · rw [h1] at h3; simp at h3
    · rw [h1] at h3; simp at h3
    · rw [h2] at h4; simp at h4; exact h4.symm
  have cls : ∀ {c'}, Spec.ClassOf c' i → c' = c := by
    intro c' hc'
    cases hc <;> cases hc' <;> first | rfl | omega
  cases h with
  | noAlgorithm h1 h2 =>
    rcases ha with h | ⟨_, h⟩
    · exact absurd (by rw [Spec.inP, h]; simp) h1
    · exact absurd (by rw [Spec.inU, h]; simp) h2
  | algorithmList h =>
    rcases ha with h1 | ⟨h1, h2⟩ <;> rcases h with h3 | ⟨h3, h4⟩
    · rw [h1] at h3; simp at h3
    · exact absurd (by rw [Spec.inP, h1]; simp) h3
    · rw [h1] at h3; simp at h3
    · rw [h2] at h4; simp at h4
  | noRecipientAlgorithm h1 h2 => have := same h1; subst this; exact absurd hc (h2 c)
  | ciphertextOfDirect h1 h2 h3 =>
    have := same h1; subst this
    have := cls h2; subst this
    simp only [judge, ne_eq, h3, not_false_eq_true, if_true]
  | algorithmTwice h1 h2 h3 h4 h5 =>
    have := same h1; subst this
    have := cls h2; subst this
    have h6 := (getAttr_alg ha).resolve_right (fun h => h5 h.1)
    rename_i c'
    cases c'
    · simp only [judge, h4 rfl, ne_eq, not_true_eq_false, if_false, h6.2, error_bind]
    · simp only [judge, h6.2, error_bind]
    · simp only [judge, h6.2, error_bind]
    · exact absurd rfl h3
  | protectedOfDirect h1 h2 h3 h4 =>
    have := same h1; subst this
    have := cls (.direct (.inl rfl)); subst this
    have h6 := (getAttr_alg ha).resolve_left (fun h => h.1 h3)
    simp only [judge, h2, ne_eq, not_true_eq_false, if_false, h6.2, ok_bind]
    rw [if_pos]
    exact ⟨trivial, by simpa using h4⟩
  | protectedOfKeyWrap h1 h2 h3 h4 =>
    have := same h1; subst this
    have := cls (.aesKw h2); subst this
    have h6 := (getAttr_alg ha).resolve_left (fun h => h.1 h3)
    simp only [judge, h6.2, ok_bind, inSet]
    rw [if_pos]
    exact ⟨by simpa [aesKws] using h2, by simpa using h4⟩
  | keyWrapWithoutCiphertext h1 h2 h3 h4 =>
    have := same h1; subst this
    have := cls h2; subst this
    have h6 := (getAttr_alg ha).resolve_left (fun h => h.1 h3)
    simp only [judge, h6.2, ok_bind, inSet, h4, if_true]
    split <;> rfl
  | agreementWithoutCiphertext h1 h2 h3 =>
    have := same h1; subst this
    have := cls h2; subst this
    simp [judge, h3]
  | ephemeralTwice h1 h2 h3 h4 =>
    have := same h1; subst this
    have := cls (.agreement (by omega)); subst this
    have h6 := (getAttr_alg ha).resolve_left (fun h => h.1 h3)
    simp only [judge, h6.2, ok_bind, inSet]
    rw [if_pos (by simpa [ecdhEsHkdf] using h2)]
    rcases getAttr_cases b Hdr.EphemeralKey with h | h | h
    · simp only [h.2, error_bind]
    · exact absurd h.1 h4
    · exact absurd h.1 h4
  | noEphemeral h1 h2 h3 h4 h5 =>
    have := same h1; subst this
    have := cls (.agreement (by omega)); subst this
    have h6 := (getAttr_alg ha).resolve_left (fun h => h.1 h3)
    simp only [judge, h6.2, ok_bind, inSet]
    rw [if_pos (by simpa [ecdhEsHkdf] using h2)]
    rcases getAttr_cases b Hdr.EphemeralKey with h | h | h
    · exact absurd (fun g => h4 g.1) h.1
    · exact absurd h.2.1 h4
    · simp only [h.2.2, ok_bind]
      rw [if_pos (Classical.byContradiction h5)]

theorem judge_total {c : RCls} {b : Base} {i : Int} (ha : Spec.RcptAlg b i) (hc : Spec.ClassOf c i) :
    Spec.Rules c b i ∨ ∃ e, Spec.Refused b e := by
  refine Classical.byContradiction fun hno => ?_
  have hr : ∀ e, ¬ Spec.Refused b e := fun e h => hno (.inr ⟨e, h⟩)
  refine hno (.inl ?_)
  have once : c ≠ .keyAgreementWithKeyWrap → Spec.once b Hdr.Algorithm := by
    intro hk
    refine Classical.byContradiction fun h1 => ?_
    by_cases hd : c = .directEncryption
    · subst hd
      by_cases hp : b.payload = some []
      · exact hr _ (.algorithmTwice ha hc hk (fun _ => hp) h1)
      · exact hr _ (.ciphertextOfDirect ha hc hp)
    · exact hr _ (.algorithmTwice ha hc hk (fun h => absurd h hd) h1)
  have agr : i = -25 ∨ i = -26 → c = .directKeyAgreement := by
    intro h; cases hc <;> first | rfl | omega
  refine ⟨?_, ?_, ?_, ?_, once, ?_⟩
  · rintro rfl
    have hp : b.payload = some [] := Classical.byContradiction fun h => hr _ (.ciphertextOfDirect ha hc h)
    refine ⟨hp, ?_⟩
    rintro rfl
    exact Classical.byContradiction fun h => hr _ (.protectedOfDirect ha hp (once (by simp)) h)
  · rintro rfl
    refine ⟨fun hp => hr _ (.keyWrapWithoutCiphertext ha hc (once (by simp)) hp), fun hi => ?_⟩
    exact Classical.byContradiction fun h => hr _ (.protectedOfKeyWrap ha hi (once (by simp)) h)
  · intro hi
    have := agr hi; subst this
    refine Classical.byContradiction fun h => ?_
    exact hr _ (.noEphemeral ha hi (once (by simp)) (fun g => h (.inl g)) (fun g => h (.inr g)))
  · rintro rfl hp
    exact hr _ (.agreementWithoutCiphertext ha hc hp)
  · intro hi
    have := agr hi; subst this
    exact Classical.byContradiction fun h => hr _ (.ephemeralTwice ha hi (once (by simp)) h)

theorem rcptClass_of {c : RCls} {i : Int} (h : Spec.ClassOf c i) : rcptClass (algCls i) = .ok c := by
  cases h with
  | direct h => rcases h with rfl | rfl | rfl <;> rfl
  | aesKw h => rcases h with rfl | rfl | rfl <;> rfl
  | oaep h => rcases h with rfl | rfl | rfl <;> rfl
  | agreement h => rcases h with rfl | rfl | rfl | rfl <;> rfl
  | agreementKw h => rcases h with rfl | rfl | rfl | rfl | rfl | rfl <;> rfl

theorem rcptClass_foreign {i : Int} (h : ∀ c, ¬ Spec.ClassOf c i) : rcptClass (algCls i) = .error .keyError := by
  cases hr : rcptClass (algCls i) with
  | ok c =>
    obtain ⟨j, hj, hc⟩ := rcptClass_spec hr
    simp at hj; subst hj
    exact absurd hc (h c)
  | error e =>
    have hx : rcptClass (algCls i) = .error .keyError ∨ ∃ c, rcptClass (algCls i) = .ok c := by
      simp only [rcptClass, if_true]
      repeat' split
      all_goals first | exact .inl rfl | exact .inr ⟨_, rfl⟩
    rcases hx with hx | ⟨c, hx⟩
    · rw [← hr, hx]
    · rw [hr] at hx; simp at hx

theorem create_alg {C : Crypto} {allow : Bool} {v : Val} {b : Base} (h : Spec.Readable C allow v b) {i : Int} (ha : Spec.RcptAlg b i)
    (ctx : Bytes) (n : Nat) : createRecipient C allow ctx n v = (do
      let c ← rcptClass (algCls i)
      judge c b
      .ok (.mk c b ctx n [])) := by
  rw [createRecipient_readable h]
  rcases ha with h1 | ⟨h1, h2⟩
  · rw [h1]; simp
  · rw [h1, h2]; simp

theorem create_refused {C : Crypto} {allow : Bool} {v : Val} {b : Base} {e : PyErr} (h : Spec.Readable C allow v b)
    (hr : Spec.Refused b e) (ctx : Bytes) (n : Nat) : createRecipient C allow ctx n v = .error e := by
  have key : ∀ i c, Spec.RcptAlg b i → Spec.ClassOf c i → createRecipient C allow ctx n v = .error e := by
    intro i c ha hc
    rw [create_alg h ha, rcptClass_of hc, ok_bind, judge_refused ha hc hr, error_bind]
  cases hr with
  | noAlgorithm h1 h2 =>
    simp only [Spec.inP, Spec.inU] at h1 h2
    rw [createRecipient_readable h, if_neg h1, if_neg h2]
  | algorithmList h1 =>
    rw [createRecipient_readable h]
    rcases h1 with h1 | ⟨h1, h2⟩
    · rw [h1]; rfl
    · simp only [Spec.inP] at h1
      rw [if_neg h1, h2]; rfl
  | noRecipientAlgorithm h1 h2 => rw [create_alg h h1, rcptClass_foreign h2, error_bind]
  | ciphertextOfDirect h1 h2 _ => exact key _ _ h1 h2
  | algorithmTwice h1 h2 _ _ _ => exact key _ _ h1 h2
  | protectedOfDirect h1 _ _ _ => exact key _ _ h1 (.direct (.inl rfl))
  | protectedOfKeyWrap h1 h2 _ _ => exact key _ _ h1 (.aesKw h2)
  | keyWrapWithoutCiphertext h1 h2 _ _ => exact key _ _ h1 h2
  | agreementWithoutCiphertext h1 h2 _ => exact key _ _ h1 h2
  | ephemeralTwice h1 h2 _ _ => exact key _ _ h1 (.agreement (by omega))
  | noEphemeral h1 h2 _ _ _ => exact key _ _ h1 (.agreement (by omega))

theorem create_accepted {C : Crypto} {allow : Bool} {v : Val} {r : Rcpt} {ctx : Bytes} {n : Nat} (h : Spec.Accepted C allow ctx n v r) :
    createRecipient C allow ctx n v = .ok r := by
  obtain ⟨hr, ⟨c, b, rfl⟩, i, hru, h1, h2⟩ := h
  have hj : judge c b = .ok () := judge_ok hru.alg hru.cls ⟨hru.direct, hru.keyWrap, hru.ephemeral, hru.agreementKw, h1, h2⟩
  rw [create_alg hr hru.alg, rcptClass_of hru.cls, ok_bind]
  show (do judge c b; Except.ok (Rcpt.mk c b ctx n [])) = _
  rw [hj, ok_bind]

/-- A readable structure is accepted or refused for one of the reasons listed. -/
theorem create_total {C : Crypto} {allow : Bool} {v : Val} {b : Base} (h : Spec.Readable C allow v b) (ctx : Bytes) (n : Nat) :
    (∃ c, Spec.Accepted C allow ctx n v (.mk c b ctx n [])) ∨ ∃ e, Spec.Refused b e := by
  have alg : (∃ e, Spec.Refused b e) ∨ ∃ i, Spec.RcptAlg b i := by
    obtain ⟨h1, h2⟩ := readable_alg h
    rcases h1 with h1 | ⟨i, h1⟩ | ⟨l, h1⟩
    · rcases h2 with h2 | ⟨i, h2⟩ | ⟨l, h2⟩
      · exact .inl ⟨_, .noAlgorithm (fun g => g h1) (fun g => g h2)⟩
      · exact .inr ⟨i, .inr ⟨h1, h2⟩⟩
      · exact .inl ⟨_, .algorithmList (.inr ⟨fun g => g h1, h2⟩)⟩
    · exact .inr ⟨i, .inl h1⟩
    · exact .inl ⟨_, .algorithmList (.inl h1)⟩
  rcases alg with h1 | ⟨i, ha⟩
  · exact .inr h1
  · by_cases hc : ∃ c, Spec.ClassOf c i
    · obtain ⟨c, hc⟩ := hc
      rcases judge_total ha hc with ⟨r1, r2, r3, r4, r5, r6⟩ | hr
      · exact .inl ⟨c, h, ⟨c, b, rfl⟩, i, ⟨ha, hc, r1, r2, r3, r4, rfl⟩, r5, r6⟩
      · exact .inr hr
    · exact .inr ⟨_, .noRecipientAlgorithm ha fun c h => hc ⟨c, h⟩⟩

/-- The structure an object was made from can be read. -/
theorem create_readable {C : Crypto} {allow : Bool} {v : Val} {r : Rcpt} {ctx : Bytes} {n : Nat}
    (h : createRecipient C allow ctx n v = .ok r) : Spec.Readable C allow v r.base := by
  have h' := h
  obtain ⟨cls, hf⟩ := createRecipient_ok h
  obtain ⟨l, rest, b, rfl, hb, rfl⟩ := rcptFromObj_ok hf
  obtain ⟨pe, uh, rfl, hp, hu, ho⟩ := baseFromObj_iff.mp hb
  refine ⟨pe, uh, rest, rfl, ?_, ?_, hp, hu, ho⟩
  · rintro rfl
    simp only [createRecipient, rcptItem, List.getElem?_cons_zero, ok_bind, ne_eq, reduceCtorEq, not_false_eq_true, if_true,
      loadsVal] at h'
    cases hl : loads [] with
    | ok x => exact loads_nil _ hl
    | error e => rw [hl] at h'; simp at h'
  · rintro rfl
    unfold createRecipient at h'
    simp only [rcptItem, List.getElem?_cons_zero, List.getElem?_cons_succ, ok_bind, parseHeaderVal, error_bind] at h'
    split at h'
    · simp only [bind_eq_ok, reduceCtorEq, and_false, exists_false] at h'
    · simp at h'

theorem create_iff {C : Crypto} {allow : Bool} {v : Val} {r : Rcpt} {ctx : Bytes} {n : Nat} :
    createRecipient C allow ctx n v = .ok r ↔ Spec.Accepted C allow ctx n v r := by
  refine ⟨fun h => ?_, create_accepted⟩
  have hr := create_readable h
  rcases create_total hr ctx n with ⟨c, ha⟩ | ⟨e, he⟩
  · have := create_accepted ha
    rw [h] at this
    simp at this
    rw [this]; exact ha
  · rw [create_refused hr he] at h; simp at h

theorem creates_iff {C : Crypto} {allow : Bool} {vs : List Val} {rs : List Rcpt} {ctx : Bytes} {n : Nat} :
    createRecipients C allow ctx n vs = .ok rs ↔ Spec.AcceptedFrom C allow ctx n vs rs := by
  induction vs generalizing n rs with
  | nil =>
    simp only [createRecipients, Except.ok.injEq]
    constructor
    · rintro rfl; exact .nil
    · intro h; cases h; rfl
  | cons v t ih =>
    simp only [createRecipients, bind_eq_ok, Except.ok.injEq]
    constructor
    · rintro ⟨r, h1, rs', h2, rfl⟩
      exact .cons (create_iff.mp h1) (ih.mp h2)
    · intro h
      cases h with
      | cons h1 h2 => exact ⟨_, create_iff.mpr h1, _, ih.mpr h2, rfl⟩

theorem creates_error {C : Crypto} {allow : Bool} {pre post : List Val} {v : Val} {rs : List Rcpt} {ctx : Bytes} {n : Nat} {e : PyErr}
    (hp : Spec.AcceptedFrom C allow ctx n pre rs) (hv : ∀ m, createRecipient C allow ctx m v = .error e) :
    createRecipients C allow ctx n (pre ++ v :: post) = .error e := by
  induction hp with
  | nil => simp only [List.nil_append, createRecipients, hv, error_bind]
  | cons h1 _ ih => simp only [List.cons_append, createRecipients, create_accepted h1, ok_bind, ih, error_bind]

/-- A failure comes from a structure that cannot be read, or is one of the refusals. -/
theorem creates_fail {C : Crypto} {allow : Bool} {vs : List Val} {ctx : Bytes} {n : Nat} {e : PyErr}
    (h : createRecipients C allow ctx n vs = .error e) :
    ∃ v ∈ vs, (∀ b, ¬ Spec.Readable C allow v b) ∨ ∃ b, Spec.Readable C allow v b ∧ Spec.Refused b e := by
  induction vs generalizing n with
  | nil => simp [createRecipients] at h
  | cons v t ih =>
    simp only [createRecipients] at h
    cases hc : createRecipient C allow ctx n v with
    | ok r =>
      rw [hc, ok_bind] at h
      cases ht : createRecipients C allow ctx (n + 1) t with
      | ok rs => rw [ht] at h; simp at h
      | error e' =>
        rw [ht, error_bind] at h
        simp at h; subst h
        obtain ⟨v', hv', h'⟩ := ih ht
        exact ⟨v', List.mem_cons_of_mem _ hv', h'⟩
    | error e' =>
      rw [hc, error_bind] at h
      simp at h; subst h
      refine ⟨v, by simp, ?_⟩
      by_cases hb : ∃ b, Spec.Readable C allow v b
      · obtain ⟨b, hb⟩ := hb
        rcases create_total hb ctx n with ⟨c, ha⟩ | ⟨e'', he⟩
        · rw [create_accepted ha] at hc; simp at hc
        · rw [create_refused hb he] at hc
          simp at hc; subst hc
          exact .inr ⟨b, hb, he⟩
      · exact .inl fun b h => hb ⟨b, h⟩

theorem refused_kept {b : Base} {e : PyErr} (h : Spec.Refused b e) : e.dropsRecipients = false := by
  cases h <;> rfl

/-! ### The property -/

/-- What the first three fields of a received message say. -/
def Spec.HeadRead (C : Crypto) (allow : Bool) (p u pl : Val) (b : Base) : Prop :=
  ProtReceived C allow p b.phdrEnc b.phdr ∧ UnprotReceived C allow u b.uhdr ∧ pl = optBytes b.payload ∧
    b.aad = [] ∧ b.key = none ∧ b.tstr = false ∧ b.localAttrs = []

theorem head_read {C : Crypto} {allow : Bool} {p u pl : Val} {rest : List Val} {b : Base} (h : Spec.HeadRead C allow p u pl b) :
    baseFromObj C (p :: u :: pl :: rest) allow = .ok (b, rest) := by
  obtain ⟨h1, h2, rfl, h3⟩ := h
  exact baseFromObj_iff.mpr ⟨p, u, rfl, h1, h2, h3⟩

/-- **C69**: received recipients that obey the rules are accepted. -/
theorem c69_enc_accepted {C : Crypto} {cls : DecCls} {allow : Bool} {bs : Bytes} {p u pl : Val} {sg rest : List Val} {b : Base}
    {rs : List Rcpt} (hl : loads bs = .ok (.tag 96 (.arr (p :: u :: pl :: .arr sg :: rest)))) (hc : cls = .any ∨ cls = .only .enc)
    (hb : Spec.HeadRead C allow p u pl b) (hs : Spec.AcceptedFrom C allow b!"Enc_Recipient" 0 sg rs) :
    decode C cls allow bs = .ok (.enc { base := b, recipients := rs }) := by
  refine decode_iff.mpr ⟨96, _, .enc, hl, rfl, ?_, ?_, rfl⟩
  · simp only [fromObj, Enc.fromObj, head_read hb, ok_bind, recipientsOf, pop0, iterRecipients, creates_iff.mpr hs]
  · rcases hc with rfl | rfl <;> rfl

theorem c69_mac_accepted {C : Crypto} {cls : DecCls} {allow : Bool} {bs : Bytes} {p u pl t : Val} {sg rest : List Val} {b : Base}
    {rs : List Rcpt} (hl : loads bs = .ok (.tag 97 (.arr (p :: u :: pl :: t :: .arr sg :: rest)))) (hc : cls = .any ∨ cls = .only .mac)
    (hb : Spec.HeadRead C allow p u pl b) (hs : Spec.AcceptedFrom C allow b!"Mac_Recipient" 0 sg rs) :
    decode C cls allow bs = .ok (.mac { base := b, authTag := t, recipients := some rs }) := by
  refine decode_iff.mpr ⟨97, _, .mac, hl, rfl, ?_, ?_, rfl⟩
  · simp only [fromObj, Mac.fromObj, head_read hb, ok_bind, recipientsOf, pop0, iterRecipients, creates_iff.mpr hs]
  · rcases hc with rfl | rfl <;> rfl

/-- **C69**: a message with a readable recipient that breaks a rule, after recipients that obey them, is refused, with
the exception named. -/
theorem c69_enc_refused {C : Crypto} {cls : DecCls} {allow : Bool} {bs : Bytes} {p u pl v : Val} {pre post rest : List Val} {b br : Base}
    {rs : List Rcpt} {e : PyErr} (hl : loads bs = .ok (.tag 96 (.arr (p :: u :: pl :: .arr (pre ++ v :: post) :: rest))))
    (hb : Spec.HeadRead C allow p u pl b) (hs : Spec.AcceptedFrom C allow b!"Enc_Recipient" 0 pre rs)
    (hv : Spec.Readable C allow v br) (he : Spec.Refused br e) : decode C cls allow bs = .error e := by
  have := creates_error (post := post) hs fun m => create_refused hv he b!"Enc_Recipient" m
  simp only [decode, hl, ok_bind, show tagKind 96 = some .enc from rfl, fromObj, Enc.fromObj, head_read hb, recipientsOf, pop0,
    iterRecipients, this, refused_kept he]
  simp

theorem c69_mac_refused {C : Crypto} {cls : DecCls} {allow : Bool} {bs : Bytes} {p u pl t v : Val} {pre post rest : List Val} {b br : Base}
    {rs : List Rcpt} {e : PyErr} (hl : loads bs = .ok (.tag 97 (.arr (p :: u :: pl :: t :: .arr (pre ++ v :: post) :: rest))))
    (hb : Spec.HeadRead C allow p u pl b) (hs : Spec.AcceptedFrom C allow b!"Mac_Recipient" 0 pre rs)
    (hv : Spec.Readable C allow v br) (he : Spec.Refused br e) : decode C cls allow bs = .error e := by
  have := creates_error (post := post) hs fun m => create_refused hv he b!"Mac_Recipient" m
  simp only [decode, hl, ok_bind, show tagKind 97 = some .mac from rfl, fromObj, Mac.fromObj, head_read hb, recipientsOf, pop0,
    iterRecipients, this, refused_kept he]
  simp

/-- **C69**: there are no other outcomes for a readable structure. -/
theorem c69_total {C : Crypto} {allow : Bool} {v : Val} {b : Base} (h : Spec.Readable C allow v b) (ctx : Bytes) (n : Nat) :
    (∃ c, Spec.Accepted C allow ctx n v (.mk c b ctx n [])) ∨ ∃ e, Spec.Refused b e := create_total h ctx n

theorem acceptedFrom_oids {C : Crypto} {allow : Bool} {ctx : Bytes} {n : Nat} {vs : List Val} {rs : List Rcpt}
    (h : Spec.AcceptedFrom C allow ctx n vs rs) : rs.map Rcpt.oid = List.range' n rs.length := by
  induction h with
  | nil => rfl
  | cons h1 _ ih =>
    obtain ⟨c, b, rfl⟩ := h1.obj
    simp only [List.map_cons, ih, List.length_cons, List.range'_succ, Rcpt.oid]

/-- **C69**, **C35**: the recipients of a received message stand for accepted structures, one for one and in order; or
there is none, and then one of the structures cannot be read. -/
theorem c69_enc_received {C : Crypto} {cls : DecCls} {allow : Bool} {bs : Bytes} {n : Nat} {p u pl : Val} {sg rest : List Val} {m : Enc}
    (hl : loads bs = .ok (.tag n (.arr (p :: u :: pl :: .arr sg :: rest)))) (h : decode C cls allow bs = .ok (.enc m)) :
    Spec.AcceptedFrom C allow b!"Enc_Recipient" 0 sg m.recipients ∨
      m.recipients = [] ∧ ∃ v ∈ sg, ∀ b, ¬ Spec.Readable C allow v b := by
  obtain ⟨n', obj, k, h1, _, h2, _, hk⟩ := decode_iff.mp h
  rw [hl] at h1
  simp at h1
  obtain ⟨_, rfl⟩ := h1
  simp [Msg.kind] at hk; subst hk
  simp only [fromObj, Enc.fromObj, bind_eq_ok] at h2
  obtain ⟨m', ⟨⟨b, o⟩, h3, h4⟩, h8⟩ := h2
  simp at h8; subst h8
  obtain ⟨_, _, he, _⟩ := baseFromObj_iff.mp h3
  simp at he
  obtain ⟨_, _, _, rfl⟩ := he
  simp only [recipientsOf, pop0, ok_bind, iterRecipients] at h4
  split at h4
  · rename_i rs hrs
    simp at h4; subst h4
    exact .inl (creates_iff.mp hrs)
  · rename_i e hrs
    split at h4 <;> simp at h4
    rename_i hd
    subst h4
    obtain ⟨v, hv, h | ⟨b, _, h⟩⟩ := creates_fail hrs
    · exact .inr ⟨rfl, v, hv, h⟩
    · rw [refused_kept h] at hd; simp at hd

theorem c69_mac_received {C : Crypto} {cls : DecCls} {allow : Bool} {bs : Bytes} {n : Nat} {p u pl t : Val} {sg rest : List Val} {m : Mac}
    (hl : loads bs = .ok (.tag n (.arr (p :: u :: pl :: t :: .arr sg :: rest)))) (h : decode C cls allow bs = .ok (.mac m)) :
    (∃ rs, m.recipients = some rs ∧ Spec.AcceptedFrom C allow b!"Mac_Recipient" 0 sg rs) ∨
      m.recipients = none ∧ ∃ v ∈ sg, ∀ b, ¬ Spec.Readable C allow v b := by
  obtain ⟨n', obj, k, h1, _, h2, _, hk⟩ := decode_iff.mp h
  rw [hl] at h1
  simp at h1
  obtain ⟨_, rfl⟩ := h1
  simp [Msg.kind] at hk; subst hk
  simp only [fromObj, Mac.fromObj, bind_eq_ok] at h2
  obtain ⟨m', ⟨⟨b, o⟩, h3, ⟨t', o'⟩, h3', h4⟩, h8⟩ := h2
  simp at h8; subst h8
  obtain ⟨_, _, he, _⟩ := baseFromObj_iff.mp h3
  simp at he
  obtain ⟨_, _, _, rfl⟩ := he
  rw [pop0_ok] at h3'
  simp at h3'
  obtain ⟨rfl, rfl⟩ := h3'
  simp only [recipientsOf, pop0, ok_bind, iterRecipients] at h4
  split at h4
  · rename_i rs hrs
    simp at h4; subst h4
    exact .inl ⟨rs, rfl, creates_iff.mp hrs⟩
  · rename_i e hrs
    split at h4 <;> simp at h4
    rename_i hd
    subst h4
    obtain ⟨v, hv, h | ⟨b, _, h⟩⟩ := creates_fail hrs
    · exact .inr ⟨rfl, v, hv, h⟩
    · rw [refused_kept h] at hd; simp at hd

theorem recipient_field (C : Crypto) (allow : Bool) (ctx : Bytes) (v : Val) :
    (∃ sg, v = .arr sg) ∨
    (v = .bytes [] ∨ v = .text [] ∨ ∃ d, v = .map d) ∧
      ((do let l ← iterRecipients v; createRecipients C allow ctx 0 l) = .ok [] ∨
        ∃ e, (do let l ← iterRecipients v; createRecipients C allow ctx 0 l) = .error e) ∨
    (do let l ← iterRecipients v; createRecipients C allow ctx 0 l) = .error .typeError := by
  cases v with
  | arr l => exact .inl ⟨l, rfl⟩
  | bytes s => cases s with
    | nil => exact .inr (.inl ⟨.inl rfl, .inl (by simp [iterRecipients, createRecipients])⟩)
    | cons _ _ => exact .inr (.inr rfl)
  | text s => cases s with
    | nil => exact .inr (.inl ⟨.inr (.inl rfl), .inl (by simp [iterRecipients, createRecipients])⟩)
    | cons _ _ => exact .inr (.inr rfl)
  | map d =>
    refine .inr (.inl ⟨.inr (.inr ⟨d, rfl⟩), ?_⟩)
    cases d with
    | nil => exact .inl (by simp [iterRecipients, createRecipients])
    | cons p _ => exact .inr ⟨labelRecipient p.1, rfl⟩
  | _ => exact .inr (.inr rfl)

/-- **C77**: where the recipients are expected a message has an array, and otherwise an empty string or a map, and then it has
no recipients; anything else is refused. -/
theorem c77_enc_recipient_field {C : Crypto} {cls : DecCls} {allow : Bool} {bs : Bytes} {n : Nat} {p u pl v : Val} {rest : List Val} {m : Enc}
    (hl : loads bs = .ok (.tag n (.arr (p :: u :: pl :: v :: rest)))) (h : decode C cls allow bs = .ok (.enc m)) :
    (∃ sg, v = .arr sg) ∨ m.recipients = [] ∧ (v = .bytes [] ∨ v = .text [] ∨ ∃ d, v = .map d) := by
  obtain ⟨n', obj, k, h1, _, h2, _, hk⟩ := decode_iff.mp h
  rw [hl] at h1
  simp at h1
  obtain ⟨_, rfl⟩ := h1
  simp [Msg.kind] at hk; subst hk
  simp only [fromObj, Enc.fromObj, bind_eq_ok] at h2
  obtain ⟨m', ⟨⟨b, o⟩, h3, h4⟩, h8⟩ := h2
  simp at h8; subst h8
  obtain ⟨_, _, he, _⟩ := baseFromObj_iff.mp h3
  simp at he
  obtain ⟨_, _, _, rfl⟩ := he
  simp only [recipientsOf, pop0, ok_bind] at h4
  rcases recipient_field C allow b!"Enc_Recipient" v with ⟨sg, hv⟩ | ⟨hv, e | ⟨e, hr⟩⟩ | hr
  · exact .inl ⟨sg, hv⟩
  · rw [e] at h4; simp at h4; subst h4; exact .inr ⟨rfl, hv⟩
  · rw [hr] at h4; simp only at h4
    split at h4 <;> simp at h4
    subst h4; exact .inr ⟨rfl, hv⟩
  · rw [hr] at h4; simp [PyErr.dropsRecipients, PyErr.isValueError] at h4

theorem c77_mac_recipient_field {C : Crypto} {cls : DecCls} {allow : Bool} {bs : Bytes} {n : Nat} {p u pl t v : Val} {rest : List Val} {m : Mac}
    (hl : loads bs = .ok (.tag n (.arr (p :: u :: pl :: t :: v :: rest)))) (h : decode C cls allow bs = .ok (.mac m)) :
    (∃ sg, v = .arr sg) ∨ (m.recipients = some [] ∨ m.recipients = none) ∧ (v = .bytes [] ∨ v = .text [] ∨ ∃ d, v = .map d) := by
  obtain ⟨n', obj, k, h1, _, h2, _, hk⟩ := decode_iff.mp h
  rw [hl] at h1
  simp at h1
  obtain ⟨_, rfl⟩ := h1
  simp [Msg.kind] at hk; subst hk
  simp only [fromObj, Mac.fromObj, bind_eq_ok] at h2
  obtain ⟨m', ⟨⟨b, o⟩, h3, ⟨t', o'⟩, h3', h4⟩, h8⟩ := h2
  simp at h8; subst h8
  obtain ⟨_, _, he, _⟩ := baseFromObj_iff.mp h3
  simp at he
  obtain ⟨_, _, _, rfl⟩ := he
  rw [pop0_ok] at h3'
  simp at h3'
  obtain ⟨rfl, rfl⟩ := h3'
  simp only [recipientsOf, pop0, ok_bind] at h4
  rcases recipient_field C allow b!"Mac_Recipient" v with ⟨sg, hv⟩ | ⟨hv, e | ⟨e, hr⟩⟩ | hr
  · exact .inl ⟨sg, hv⟩
  · rw [e] at h4; simp at h4; subst h4; exact .inr ⟨.inl rfl, hv⟩
  · rw [hr] at h4; simp only at h4
    split at h4 <;> simp at h4
    subst h4; exact .inr ⟨.inr rfl, hv⟩
  · rw [hr] at h4; simp [PyErr.dropsRecipients, PyErr.isValueError] at h4

/-- Null where the recipients are expected is refused; an empty string is not. -/
example : decode toy .any true [0xd8, 96, 0x84, 0x43, 0xa1, 1, 1, 0xa0, 0x41, 0, 0xf6] = .error .typeError ∧
    (decode toy .any true [0xd8, 96, 0x84, 0x43, 0xa1, 1, 1, 0xa0, 0x41, 0, 0x40]).isOk = true ∧
    decode toy .any true [0xd8, 97, 0x85, 0x43, 0xa1, 1, 5, 0xa0, 0x41, 0, 0x41, 0, 0xf6] = .error .typeError ∧
    (decode toy .any true [0xd8, 97, 0x85, 0x43, 0xa1, 1, 5, 0xa0, 0x41, 0, 0x41, 0, 0x60]).isOk = true := by decide +kernel

/-- **C69**: the recipients of a received message are different objects, so that configuring one leaves the others alone. -/
theorem c69_distinct {C : Crypto} {cls : DecCls} {allow : Bool} {bs : Bytes} {m : Msg} {rs : List Rcpt} (h : decode C cls allow bs = .ok m)
    (hr : (∃ e, m = .enc e ∧ e.recipients = rs) ∨ ∃ e, m = .mac e ∧ e.recipients = some rs) : (rs.map Rcpt.oid).Nodup := by
  have fin : ∀ ctx vs, createRecipients C allow ctx 0 vs = .ok rs → (rs.map Rcpt.oid).Nodup := by
    intro ctx vs hc
    rw [acceptedFrom_oids (creates_iff.mp hc)]
    exact List.nodup_range'
  obtain ⟨n', obj, k, _, _, h2, _, hk⟩ := decode_iff.mp h
  rcases hr with ⟨e, rfl, rfl⟩ | ⟨e, rfl, he⟩
  · simp [Msg.kind] at hk; subst hk
    simp only [fromObj, Enc.fromObj, bind_eq_ok] at h2
    obtain ⟨m', ⟨⟨b, o⟩, _, h4⟩, h8⟩ := h2
    simp at h8; subst h8
    split at h4
    · rename_i rs hrs
      simp at h4; subst h4
      obtain ⟨_, _, _, _, _, h7⟩ := recipientsOf_ok hrs
      exact fin _ _ h7
    · split at h4 <;> simp at h4
      subst h4; simp
  · simp [Msg.kind] at hk; subst hk
    simp only [fromObj, Mac.fromObj, bind_eq_ok] at h2
    obtain ⟨m', ⟨⟨b, o⟩, _, ⟨t, o'⟩, _, h4⟩, h8⟩ := h2
    simp at h8; subst h8
    split at h4
    · rename_i rs' hrs
      simp at h4; subst h4
      simp at he; subst he
      obtain ⟨_, _, _, _, _, h7⟩ := recipientsOf_ok hrs
      exact fin _ _ h7
    · split at h4 <;> simp at h4
      subst h4; simp at he

/-- **C35**: recipients are dropped only when one of the structures received cannot be read. -/
theorem c35_enc_dropped_partial {C : Crypto} {cls : DecCls} {allow : Bool} {bs : Bytes} {n : Nat} {p u pl : Val} {sg rest : List Val} {m : Enc}
    (hl : loads bs = .ok (.tag n (.arr (p :: u :: pl :: .arr sg :: rest)))) (h : decode C cls allow bs = .ok (.enc m))
    (hd : m.recipients.length ≠ sg.length) : ∃ v ∈ sg, ∀ b, ¬ Spec.Readable C allow v b := by
  rcases c69_enc_received hl h with h | ⟨_, h⟩
  · exfalso
    refine hd ?_
    generalize m.recipients = rs, (0 : Nat) = k at h
    clear hd hl
    induction h with
    | nil => rfl
    | cons _ _ ih => simp [ih]
  · exact h

theorem c35_mac_dropped_partial {C : Crypto} {cls : DecCls} {allow : Bool} {bs : Bytes} {n : Nat} {p u pl t : Val} {sg rest : List Val} {m : Mac}
    (hl : loads bs = .ok (.tag n (.arr (p :: u :: pl :: t :: .arr sg :: rest)))) (h : decode C cls allow bs = .ok (.mac m))
    (hd : m.recipients = none) : ∃ v ∈ sg, ∀ b, ¬ Spec.Readable C allow v b := by
  rcases c69_mac_received hl h with ⟨rs, h, _⟩ | ⟨_, h⟩
  · rw [h] at hd; simp at hd
  · exact h

/-! ### Samples -/

/-- A recipient that wraps the key with A128KW, and the same with a protected header, and without ciphertext. -/
def sampleKwBase (p : Bool) (c : Bytes) : Base :=
  { phdrEnc := some (if p then [0xa1, 4, 0x41, 7] else []), phdr := if p then [(.cls Hdr.KID, .bytes [7])] else [],
    uhdr := [(.cls Hdr.Algorithm, algCls (-3))], payload := some c }

def sampleKwVal (p : Bool) (c : Bytes) : Val :=
  .arr [.bytes (if p then [0xa1, 4, 0x41, 7] else []), .map [(.int 1, .int (-3))], .bytes c]

theorem sampleKw_readable (p : Bool) (c : Bytes) : Spec.Readable toy true (sampleKwVal p c) (sampleKwBase p c) := by
  refine ⟨_, _, [], rfl, by simp, by simp, ?_, .full (d := [(.int 1, .int (-3))]) ?_, rfl, rfl, rfl, rfl⟩
  · cases p
    · exact .empty
    · exact .full (d := [(.int 4, .bytes [7])]) (by simp) (by decide +kernel)
        (show parseHeader toy true [(.int 4, .bytes [7])] = .ok [(.cls Hdr.KID, .bytes [7])] by decide +kernel)
  · have : parseHeader toy true [(.int 1, .int (-3))] = .ok [(.cls Hdr.Algorithm, algCls (-3))] := by decide +kernel
    exact this

/-- The first is accepted. -/
example : Spec.AcceptedFrom toy true b!"Enc_Recipient" 0 [sampleKwVal false [1], sampleKwVal false [2]]
    [.mk .keyWrap (sampleKwBase false [1]) b!"Enc_Recipient" 0 [], .mk .keyWrap (sampleKwBase false [2]) b!"Enc_Recipient" 1 []] := by
  have h : ∀ n x, Spec.Accepted toy true b!"Enc_Recipient" n (sampleKwVal false [x]) (.mk .keyWrap (sampleKwBase false [x]) b!"Enc_Recipient" n []) := by
    intro n x
    refine ⟨sampleKw_readable _ _, ⟨_, _, rfl⟩, -3, ⟨.inr ⟨rfl, rfl⟩, .aesKw (.inl rfl), by simp [Rcpt.cls], ?_, by simp, by simp [Rcpt.cls], rfl⟩, ?_, by simp⟩
    · intro _; exact ⟨by simp [Rcpt.base, sampleKwBase], fun _ => rfl⟩
    · rintro _ ⟨h, _⟩; exact h rfl
  exact .cons (h _ _) (.cons (h _ _) .nil)

/-- The others are refused. -/
example : Spec.Refused (sampleKwBase true [1]) .malformedMessage ∧ Spec.Refused (sampleKwBase false []) .malformedMessage := by
  have o : ∀ p c, Spec.once (sampleKwBase p c) Hdr.Algorithm := by
    rintro p c ⟨h, _⟩; cases p <;> exact h rfl
  exact ⟨.protectedOfKeyWrap (i := -3) (.inr ⟨rfl, rfl⟩) (.inl rfl) (o _ _) (by simp [sampleKwBase]),
    .keyWrapWithoutCiphertext (i := -3) (.inr ⟨rfl, rfl⟩) (.aesKw (.inl rfl)) (o _ _) rfl⟩

/-- A whole message of each kind. -/
example : ∃ m, decode toy .any true [0xd8, 96, 0x84, 0x43, 0xa1, 1, 1, 0xa0, 0x41, 0, 0x81, 0x83, 0x40, 0xa1, 1, 0x22, 0x41, 1] = .ok (.enc m) ∧
    m.recipients.length = 1 := by
  obtain ⟨m, h1, h2⟩ := res_any (r := decode toy .any true [0xd8, 96, 0x84, 0x43, 0xa1, 1, 1, 0xa0, 0x41, 0, 0x81, 0x83, 0x40, 0xa1, 1, 0x22, 0x41, 1])
    (p := fun m => match m with | .enc m => decide (m.recipients.length = 1) | _ => false) (by decide +kernel)
  cases m with
  | enc m => exact ⟨m, h1, of_decide_eq_true h2⟩
  | _ => simp at h2

example : decode toy .any true [0xd8, 96, 0x84, 0x43, 0xa1, 1, 1, 0xa0, 0x41, 0, 0x81, 0x83, 0x40, 0xa1, 1, 0x22, 0x40] = .error .malformedMessage := by
  decide +kernel

end Cose
