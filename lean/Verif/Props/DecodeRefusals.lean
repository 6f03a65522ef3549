import Verif.Props.RefusalsAgree
import Verif.Props.KeyAdmitDict
import Verif.Props.Decode
/-!
# Property C93: which received byte strings are messages, and which exception the others raise
-/
set_option autoImplicit false
namespace Cose

/-! ### Specification -/

/-- A header entry that is refused, and the exception: an unknown label where none are allowed; a value that is no algorithm; a value of the
wrong form; a key that is refused (which keys are: C92). -/
inductive Spec.EntryRefused (C : Crypto) (allow : Bool) : Val × Val → PyErr → Prop
  | unknown {k v : Val} : allow = false → Spec.UnregisteredLabel k → EntryRefused C allow (k, v) .coseException
  | algorithm {n : Bytes} {k v : Val} : (Hdr.Algorithm, n) ∈ registry .hdr → Spec.Denotes Hdr.Algorithm n k →
      (¬ ∃ w, Spec.AlgorithmArg v w) → EntryRefused C allow (k, v) .coseException
  | form {c : Cls} {n : Bytes} {k v : Val} : (c, n) ∈ registry .hdr → Spec.Denotes c n k →
      c ∈ [Hdr.Critical, Hdr.ContentType, Hdr.KID, Hdr.IV, Hdr.PartialIV, Hdr.CounterSignature0, Hdr.KIDContext] →
      (¬ ∃ w, Spec.ValueArg C c v w) → EntryRefused C allow (k, v) .valueError
  | key {c : Cls} {n : Bytes} {k v : Val} {e : PyErr} : (c, n) ∈ registry .hdr → Spec.Denotes c n k →
      c ∈ [Hdr.EphemeralKey, Hdr.StaticKey] → fromDictVal C v = .error e → EntryRefused C allow (k, v) e

/-- A received header dictionary is read entry by entry, into an empty dictionary; the first entry that is refused decides. -/
def Spec.HeaderRead (C : Crypto) (allow : Bool) (d : Dict) (r : Res Dict) : Prop :=
  (∃ es, All2 (Spec.EntryArg C allow) d es ∧ r = .ok (dupdate [] es)) ∨
  ∃ before entry after es e, d = before ++ entry :: after ∧ All2 (Spec.EntryArg C allow) before es ∧ Spec.EntryRefused C allow entry e ∧ r = .error e

/-- The protected header as received: absent or empty, or a byte string with CBOR data in it. -/
inductive Spec.Carried : Val → Res Val → Prop
  | absent : Carried .none (.ok (.map []))
  | empty : Carried (.bytes []) (.ok (.map []))
  | encoded {b : Bytes} : b ≠ [] → Carried (.bytes b) (loads b)

/-- A byte string, or `None`. -/
def Spec.OptionalBytes (v : Val) (o : Option Bytes) : Prop := (v = .none ∧ o = none) ∨ ∃ b, v = .bytes b ∧ o = some b

/-- The three parts every message, signature and recipient starts with, and what follows them. -/
def Spec.Front (C : Crypto) (allow : Bool) (obj : List Val) : Res (Base × List Val) → Prop :=
  Spec.Outcome [(2 ≤ obj.length, .indexError)] fun r => ∃ p u rest, obj = p :: u :: rest ∧
  Spec.Outcome [(∃ o, Spec.OptionalBytes p o, .typeError)] (fun r => ∃ q, Spec.Carried p q ∧ Spec.Then q (fun pv =>
  Spec.Outcome [(∃ d, pv = .map d, .typeError), (u = .none ∨ ∃ d, u = .map d, .typeError)] (fun r => ∃ P U, pv = .map P ∧ ((u = .none ∧ U = []) ∨ u = .map U) ∧
  ∃ qp, Spec.HeaderRead C allow P qp ∧ Spec.Then qp (fun ph r =>
  ∃ qu, Spec.HeaderRead C allow U qu ∧ Spec.Then qu (fun uh =>
  Spec.Outcome [(rest ≠ [], .indexError), (∀ v ∈ rest.head?, ∃ o, Spec.OptionalBytes v o, .typeError)] fun r =>
    ∃ v more pe pl, rest = v :: more ∧ Spec.OptionalBytes p pe ∧ Spec.OptionalBytes v pl ∧
      r = .ok ({ phdrEnc := pe, phdr := ph, uhdr := uh, payload := pl }, more)) r) r)) r) r

/-- One element more. -/
def Spec.Next {α : Type} (rest : List Val) (next : Val → List Val → Res α → Prop) : Res α → Prop :=
  Spec.Outcome [(rest ≠ [], .indexError)] fun r => ∃ v more, rest = v :: more ∧ next v more r

/-- One after the other; the first exception decides. -/
def Spec.Each {α β : Type} (one : Nat → α → Res β → Prop) : Nat → List α → Res (List β) → Prop
  | _, [], r => r = .ok []
  | i, a :: t, r => ∃ q, one i a q ∧ Spec.Then q (fun b r => ∃ qs, Spec.Each one (i + 1) t qs ∧ Spec.Then qs (fun bs r => r = .ok (b :: bs)) r) r

/-- A signature structure. -/
def Spec.SignerRead (C : Crypto) (allow : Bool) (v : Val) : Res Base → Prop :=
  Spec.Outcome [(∀ d, v ≠ .map d, .keyError), (∃ l, v = .arr l, .attributeError)] fun r =>
    ∃ l q, v = .arr l ∧ Spec.Front C allow l q ∧ Spec.Then q (fun p r => r = .ok p.1) r

/-- Nothing to iterate over. -/
def Spec.Bare (v : Val) : Prop := v = .bytes [] ∨ v = .text [] ∨ v = .map []

/-- The list of the signatures. -/
def Spec.SignersRead (C : Crypto) (allow : Bool) (v : Val) : Res (List Base) → Prop :=
  Spec.Outcome [((∃ l, v = .arr l) ∨ (∃ b, v = .bytes b) ∨ (∃ s, v = .text s) ∨ ∃ d, v = .map d, .typeError), ((∃ l, v = .arr l) ∨ Spec.Bare v, .attributeError)] fun r =>
    ∃ l, (v = .arr l ∨ (Spec.Bare v ∧ l = [])) ∧ Spec.Each (fun _ => Spec.SignerRead C allow) 0 l r

/-- `v[i]`: of a list, a dictionary, a byte string or a text (a single character is a text, whichever it is: it is refused in any case). -/
inductive Spec.Element : Val → Nat → Res Val → Prop
  | list {l : List Val} {i : Nat} {v : Val} : l[i]? = some v → Element (.arr l) i (.ok v)
  | short {l : List Val} {i : Nat} : l.length ≤ i → Element (.arr l) i (.error .indexError)
  | dict {d : Dict} {i : Nat} {v : Val} : dget d (.int i) = some v → Element (.map d) i (.ok v)
  | missing {d : Dict} {i : Nat} : dget d (.int i) = none → Element (.map d) i (.error .keyError)
  | byte {b : Bytes} {i : Nat} {x : UInt8} : b[i]? = some x → Element (.bytes b) i (.ok (.int x.toNat))
  | shortBytes {b : Bytes} {i : Nat} : b.length ≤ i → Element (.bytes b) i (.error .indexError)
  | char {s : Bytes} {i : Nat} : s ≠ [] → Element (.text s) i (.ok (.text s))
  | noText {i : Nat} : Element (.text []) i (.error .indexError)
  | other {v : Val} {i : Nat} : (∀ l, v ≠ .arr l) → (∀ d, v ≠ .map d) → (∀ b, v ≠ .bytes b) → (∀ s, v ≠ .text s) → Element v i (.error .typeError)

/-- A header of a recipient, where the kind of recipient is looked up. -/
def Spec.DictRead (C : Crypto) (allow : Bool) (v : Val) : Res Dict → Prop :=
  Spec.Outcome [(∃ d, v = .map d, .attributeError)] fun r => ∃ d, v = .map d ∧ Spec.HeaderRead C allow d r

/-- The protected header, where the kind of recipient is looked up: an empty byte string, or one with CBOR data (`None` is read as no data at all). -/
def Spec.EncodedRead (C : Crypto) (allow : Bool) (v : Val) (r : Res Dict) : Prop :=
  (v = .bytes [] ∧ r = .ok []) ∨
  v ≠ .bytes [] ∧ Spec.Outcome [(∃ o, Spec.OptionalBytes v o, .typeError)] (fun r => ∃ o, Spec.OptionalBytes v o ∧
    Spec.Then (loads (o.getD [])) (Spec.DictRead C allow) r) r

/-- The algorithm that decides on the kind of recipient: the one of the protected header, if it has one. -/
def Spec.Deciding (ph uh : Dict) (a : Val) : Prop :=
  a ≠ .none ∧ (dget ph (.cls Hdr.Algorithm) = some a ∨
    ((∀ v, dget ph (.cls Hdr.Algorithm) = some v → v = .none) ∧ dget uh (.cls Hdr.Algorithm) = some a))

/-- The algorithms of each kind of recipient. -/
def Spec.kindAlgorithms : RCls → List Int
  | .directEncryption => [-6, -10, -13]
  | .keyWrap => [-3, -4, -5, -40, -41, -42]
  | .directKeyAgreement => [-25, -26, -27, -28]
  | .keyAgreementWithKeyWrap => [-29, -30, -31, -32, -33, -34]

/-- What a recipient of a kind must look like. -/
def Spec.recipientForm (b : Base) : RCls → List (Prop × PyErr)
  | .directEncryption => [(b.payload = some [], .malformedMessage), (¬ Spec.Twice b Hdr.Algorithm, .coseException),
      (Spec.Value b Hdr.Algorithm (algCls (-6)) → b.phdr = [], .malformedMessage)]
  | .keyWrap => [(¬ Spec.Twice b Hdr.Algorithm, .coseException), (∀ v, Spec.Value b Hdr.Algorithm v → Spec.Hashable v, .typeError),
      ((∃ i ∈ [-3, -4, -5], Spec.Value b Hdr.Algorithm (algCls i)) → b.phdr = [], .malformedMessage), (b.payload ≠ some [], .malformedMessage)]
  | .directKeyAgreement => [(¬ Spec.Twice b Hdr.Algorithm, .coseException), (∀ v, Spec.Value b Hdr.Algorithm v → Spec.Hashable v, .typeError),
      ((∃ i ∈ [-25, -26], Spec.Value b Hdr.Algorithm (algCls i)) → ¬ Spec.Twice b Hdr.EphemeralKey, .coseException),
      ((∃ i ∈ [-25, -26], Spec.Value b Hdr.Algorithm (algCls i)) → ∃ v, Spec.Value b Hdr.EphemeralKey v, .malformedMessage)]
  | .keyAgreementWithKeyWrap => [(b.payload ≠ some [], .malformedMessage)]

/-- A recipient structure. -/
def Spec.RecipientRead (C : Crypto) (allow : Bool) (context : Bytes) (i : Nat) (v : Val) (r : Res Rcpt) : Prop :=
  ∃ q0, Spec.Element v 0 q0 ∧ Spec.Then q0 (fun v0 r => ∃ qp, Spec.EncodedRead C allow v0 qp ∧ Spec.Then qp (fun ph r =>
  ∃ q1, Spec.Element v 1 q1 ∧ Spec.Then q1 (fun v1 r => ∃ qu, Spec.DictRead C allow v1 qu ∧ Spec.Then qu (fun uh =>
  Spec.Outcome [(∃ a, Spec.Deciding ph uh a, .coseException), (∀ l, ¬ Spec.Deciding ph uh (.arr l), .typeError),
    (∃ kind, ∃ n ∈ Spec.kindAlgorithms kind, Spec.Deciding ph uh (algCls n), .keyError), (∃ l, v = .arr l, .keyError)] fun r =>
    ∃ kind n l q, n ∈ Spec.kindAlgorithms kind ∧ Spec.Deciding ph uh (algCls n) ∧ v = .arr l ∧ Spec.Front C allow l q ∧ Spec.Then q (fun p =>
      Spec.Outcome (Spec.recipientForm p.1 kind) fun r => r = .ok (.mk kind p.1 context i [])) r) r) r) r) r

/-- The first label of a dictionary. -/
def Spec.FirstLabel (v k : Val) : Prop := ∃ w d, v = .map ((k, w) :: d)

/-- The list of the recipients.  In its place, a dictionary whose first label is itself a non-empty list or dictionary is not modelled. -/
def Spec.RecipientsRead (C : Crypto) (allow : Bool) (context : Bytes) (rest : List Val) : Res (List Rcpt) → Prop :=
  Spec.Next rest fun v _ => Spec.Outcome [(∀ k, Spec.FirstLabel v k → (∀ x l, k ≠ .arr (x :: l)) ∧ ∀ p d, k ≠ .map (p :: d), .unsupported),
      (∀ k, Spec.FirstLabel v k → k ≠ .bytes [] ∧ k ≠ .text [] ∧ k ≠ .arr [], .indexError), (∀ k, Spec.FirstLabel v k → k ≠ .map [], .keyError),
      ((∃ l, v = .arr l) ∨ Spec.Bare v, .typeError)] fun r =>
    ∃ l, (v = .arr l ∨ (Spec.Bare v ∧ l = [])) ∧ Spec.Each (Spec.RecipientRead C allow context) 0 l r

/-- Where reading the recipients raises `IndexError` or `ValueError` (also those of the CBOR library), the message is taken to have none. -/
def Spec.OrNone {α β : Type} (q : Res α) (none : β) (some : α → β) (r : Res β) : Prop :=
  (∃ a, q = .ok a ∧ r = .ok (some a)) ∨ (∃ e, q = .error e ∧ e ∈ [.indexError, .valueError, .cborValue] ∧ r = .ok none) ∨
  ∃ e, q = .error e ∧ e ∉ [.indexError, .valueError, .cborValue] ∧ r = .error e

/-- What follows the three parts, by the CBOR tag of the message. -/
def Spec.Content (C : Crypto) (allow : Bool) (tag : Nat) (b : Base) (rest : List Val) (r : Res Msg) : Prop :=
  (tag = 16 ∧ r = .ok (.enc0 { base := b })) ∨
  (tag = 17 ∧ Spec.Next rest (fun t _ r => r = .ok (.mac0 { base := b, authTag := t })) r) ∨
  (tag = 18 ∧ Spec.Next rest (fun s _ r => r = .ok (.sign1 { base := b, signature := s })) r) ∨
  (tag = 96 ∧ ∃ q, Spec.RecipientsRead C allow b!"Enc_Recipient" rest q ∧ Spec.OrNone q (.enc { base := b }) (fun rs => .enc { base := b, recipients := rs }) r) ∨
  (tag = 97 ∧ Spec.Next rest (fun t more r => ∃ q, Spec.RecipientsRead C allow b!"Mac_Recipient" more q ∧
    Spec.OrNone q (.mac { base := b, authTag := t, recipients := none }) (fun rs => .mac { base := b, authTag := t, recipients := some rs }) r) r) ∨
  (tag = 98 ∧ Spec.Next rest (fun v _ r => ∃ q, Spec.SignersRead C allow v q ∧ Spec.Then q (fun ss r => r = .ok (.sign { base := b, signers := ss })) r) r)

/-- Is a message of this kind an instance of the class whose `decode` is called? -/
def Spec.instanceOf : DecCls → List Nat
  | .any => [16, 17, 18, 96, 97, 98]
  | .encCommon => [16, 96]
  | .macCommon => [17, 97]
  | .signCommon => [18]
  | .signBase => [98]
  | .only k => [Spec.msgTag k]
  | .never => []

/-- The whole of `decode`. -/
def Spec.Decodes (C : Crypto) (cls : DecCls) (allow : Bool) (received : Bytes) (r : Res Msg) : Prop :=
  (∃ e, loads received = .error e ∧ r = .error (if e ∈ [.valueError, .cborValue] then .valueError else e)) ∨
  ∃ v, loads received = .ok v ∧ Spec.Outcome [(∃ n w, v = .tag n w, .attributeError), (∃ n l, v = .tag n (.arr l), .typeError),
      (∃ n w, v = .tag n w ∧ n ∈ [16, 17, 18, 96, 97, 98], .keyError)] (fun r => ∃ n l q, v = .tag n (.arr l) ∧ Spec.Front C allow l q ∧
        Spec.Then q (fun p r => ∃ q, Spec.Content C allow n p.1 p.2 q ∧ Spec.Then q (fun m =>
          Spec.Outcome [(n ∈ Spec.instanceOf cls, .typeError)] fun r => r = .ok m) r) r) r

/-! ### Lemmas -/

theorem entry_refused {C : Crypto} {allow : Bool} {k v a : Val} {e : PyErr} (ha : fromIdKey .hdr k allow = .ok a) (h : parsedVal (hdrParser C) a v = .error e) :
    Spec.EntryRefused C allow (k, v) e := by
  rcases fromIdKey_ok ha with ⟨c, hc, rfl⟩ | ⟨hn, _, rfl⟩
  · obtain ⟨n, hn, hd⟩ := denotes_resolve.mp hc
    have hreg := hdr_reg hn
    have hno : ¬ ∃ w, Spec.ValueArg C c v w := by
      rintro ⟨w, hw⟩
      have := (hdrParser_iff hreg).mpr hw
      simp only [parsedVal] at h
      rw [this] at h
      simp at h
    have hh : hdrParser C c v = .error e := h
    obtain ⟨r, i⟩ := c
    simp only at hreg
    subst hreg
    unfold hdrParser at hh
    by_cases hk : i = -1 ∨ i = -2
    · simp only [hk, and_self, if_true] at hh
      rcases bind_eq_error.mp hh with hh | ⟨_, _, hh⟩
      · exact .key hn hd (by rcases hk with rfl | rfl <;> simp) hh
      · simp at hh
    · simp only [hk, and_false, if_false, simpleParser] at hh
      split at hh
      · subst i
        refine fromId_error v hh ▸ .algorithm hn hd ?_
        rintro ⟨w, hw⟩
        exact hno ⟨w, .algorithm hw⟩
      · split at hh
        · subst i
          have : e = .valueError := by
            cases v <;> simp only [critIsArray] at hh <;> try (split at hh) <;> simp_all
            all_goals simp_all
          subst this
          exact .form hn hd (by simp) hno
        · split at hh
          · subst i
            have : e = .valueError := by
              cases v <;> simp only [contentType] at hh <;> try (split at hh) <;> simp_all
              all_goals simp_all
            subst this
            exact .form hn hd (by simp) hno
          · split at hh
            · rename_i h4
              have : e = .valueError := by
                cases v <;> simp only [isBstr] at hh <;> simp_all
              subst this
              exact .form hn hd (by rcases h4 with rfl | rfl | rfl | rfl | rfl <;> simp) hno
            · simp at hh
  · exfalso
    cases a <;> simp [parsedVal] at h
    rw [hdrParser_unregistered hn] at h
    simp at h

theorem header_read {C : Crypto} {allow : Bool} (d : Dict) : Spec.HeaderRead C allow d (parseHeader C allow d) := by
  have go : ∀ (d acc : Dict), (∃ es, All2 (Spec.EntryArg C allow) d es ∧ parseAttrs .hdr allow (hdrParser C) acc d = .ok (dupdate acc es)) ∨
      ∃ before entry after es e, d = before ++ entry :: after ∧ All2 (Spec.EntryArg C allow) before es ∧ Spec.EntryRefused C allow entry e ∧
        parseAttrs .hdr allow (hdrParser C) acc d = .error e := by
    intro d
    induction d with
    | nil => exact fun acc => .inl ⟨[], .nil, rfl⟩
    | cons p t ih =>
      obtain ⟨k, v⟩ := p
      intro acc
      rw [parseAttrs_cons]
      cases hk : fromIdKey .hdr k allow with
      | error e =>
        refine .inr ⟨[], (k, v), t, [], e, rfl, .nil, ?_, rfl⟩
        unfold fromIdKey at hk
        split at hk
        · simp at hk
        · rename_i hr
          split at hk
          · simp at hk
          · rename_i ha
            simp at hk
            subst hk
            exact .unknown (by simpa using ha) (unregistered_iff.mpr hr)
      | ok a =>
        rw [ok_bind]
        cases hv : parsedVal (hdrParser C) a v with
        | error e => exact .inr ⟨[], (k, v), t, [], e, rfl, .nil, entry_refused hk hv, rfl⟩
        | ok w =>
          rw [ok_bind]
          have he : Spec.EntryArg C allow (k, v) (a, w) := entryArg_iff.mpr ⟨hk, hv⟩
          rcases ih (dset acc a w) with ⟨es, h1, h2⟩ | ⟨before, entry, after, es, e, rfl, h1, h2, h3⟩
          · exact .inl ⟨(a, w) :: es, .cons he h1, h2⟩
          · exact .inr ⟨(k, v) :: before, entry, after, (a, w) :: es, e, rfl, .cons he h1, h2, h3⟩
  rcases go d [] with ⟨es, h1, h2⟩ | h
  · exact .inl ⟨es, h1, h2⟩
  · exact .inr h

theorem then_of {α β : Type} {q q' : Res α} {next : α → Res β → Prop} {r : Res β} (h : q = q') (h' : Spec.Then q' next r) : Spec.Then q next r := h ▸ h'

theorem carried {p : Val} {o : Option Bytes} (h : Spec.OptionalBytes p o) :
    Spec.Carried p (if p ≠ .none then if p = .bytes [] then .ok (.map []) else loadsVal p else .ok (.map [])) := by
  rcases h with ⟨rfl, _⟩ | ⟨b, rfl, _⟩
  · exact .absent
  · by_cases hb : b = []
    · subst hb; exact .empty
    · have : Val.bytes b ≠ .bytes [] := by simpa using hb
      simp only [ne_eq, reduceCtorEq, not_false_eq_true, if_true, this, if_false, loadsVal]
      exact .encoded hb

theorem optional_not {p : Val} (h : ¬ ∃ o, Spec.OptionalBytes p o) : p ≠ .none ∧ p ≠ .bytes [] ∧ loadsVal p = .error .typeError := by
  cases p with
  | none => exact absurd ⟨_, .inl ⟨rfl, rfl⟩⟩ h
  | bytes b => exact absurd ⟨_, .inr ⟨b, rfl, rfl⟩⟩ h
  | _ => exact ⟨by simp, by simp, rfl⟩

/-- The protected bytes that are kept. -/
def keptBytes : Val → Res (Option Bytes)
  | .none => .ok none
  | .bytes b => .ok (some b)
  | _ => .error .typeError

theorem kept_of {p : Val} {o : Option Bytes} (h : Spec.OptionalBytes p o) : keptBytes p = .ok o := by
  rcases h with ⟨rfl, rfl⟩ | ⟨b, rfl, rfl⟩ <;> rfl

theorem init_read {C : Crypto} {allow : Bool} {p u : Val} : initMsg C { phdrEncoded := p, uhdr := u, allow := allow } .none =
    (if p ≠ .none then if p = .bytes [] then .ok (.map []) else loadsVal p else .ok (.map [])) >>= fun pv => asDict pv >>= fun P =>
      asDict (if u = .none then .map [] else u) >>= fun U => parseHeader C allow P >>= fun ph => parseHeader C allow U >>= fun uh =>
      keptBytes p >>= fun pe => .ok { phdrEnc := pe, phdr := ph, uhdr := uh } := by
  have hd : initBase C { phdrEncoded := p, uhdr := u, allow := allow } =
    (if p ≠ .none then if p = .bytes [] then .ok (.map []) else loadsVal p else .ok (.map [])) >>= fun pv => asDict pv >>= fun P =>
      asDict (if u = .none then .map [] else u) >>= fun U => parseHeader C allow P >>= fun ph => parseHeader C allow U >>= fun uh =>
      keptBytes p >>= fun pe => .ok { phdrEnc := pe, phdr := ph, uhdr := uh } := by
    simp only [initBase, ne_eq, not_true, false_and, if_false, if_true]
    cases p with
    | none => rfl
    | bytes b => by_cases hb : b = [] <;> simp only [reduceCtorEq, not_false_eq_true, if_true, Val.bytes.injEq, hb, if_false] <;> rfl
    | _ => rfl
  unfold initMsg
  rw [hd]
  simp only [bind_assoc, ok_bind, Base.setPayload, Base.setAad]

theorem asDict_read {α : Type} {v : Val} {f : Dict → Res α} (h : ¬ ∃ d, v = .map d) : (asDict v >>= f) = .error .typeError := by
  cases v with
  | map d => exact absurd ⟨d, rfl⟩ h
  | _ => rfl

theorem front_read {C : Crypto} {allow : Bool} (obj : List Val) : Spec.Front C allow obj (baseFromObj C obj allow) := by
  unfold Spec.Front
  match obj with
  | [] => exact outcome_cons (fun _ => rfl) fun h => by simp at h
  | [x] => exact outcome_cons (fun _ => rfl) fun h => by simp at h
  | p :: u :: rest =>
    refine outcome_cons (fun h => by simp at h) fun _ => outcome_nil ⟨p, u, rest, rfl, ?_⟩
    have e : baseFromObj C (p :: u :: rest) allow =
        (initMsg C { phdrEncoded := p, uhdr := u, allow := allow } .none >>= fun b => pop0 rest >>= fun x => b.setPayload x.1 >>= fun b => .ok (b, x.2)) := rfl
    rw [e, init_read]
    refine outcome_cons (fun h => ?_) fun ⟨o, ho⟩ => outcome_nil ⟨_, carried ho, ?_⟩
    · obtain ⟨h1, h2, h3⟩ := optional_not h
      simp only [ne_eq, h1, not_false_eq_true, if_true, h2, if_false, h3, error_bind]
    simp only [bind_assoc, ok_bind, kept_of ho]
    refine then_bind fun pv _ => outcome_cons (fun h => asDict_read h) fun ⟨P, hP⟩ => ?_
    subst hP
    refine outcome_cons (fun h => ?_) fun hu => ?_
    · rw [asDict, ok_bind, if_neg (fun hn => h (.inl hn))]
      exact asDict_read fun hd => h (.inr hd)
    obtain ⟨U, hU, hU'⟩ : ∃ U, ((u = .none ∧ U = []) ∨ u = .map U) ∧ asDict (if u = .none then .map [] else u) = .ok U := by
      rcases hu with rfl | ⟨U, rfl⟩
      · exact ⟨[], .inl ⟨rfl, rfl⟩, rfl⟩
      · exact ⟨U, .inr rfl, rfl⟩
    refine outcome_nil ⟨P, U, rfl, hU, _, header_read P, ?_⟩
    rw [hU', asDict, ok_bind, ok_bind]
    refine then_bind fun ph _ => ⟨_, header_read U, then_bind fun uh _ => ?_⟩
    match rest with
    | [] => exact outcome_cons (fun _ => rfl) fun h => absurd rfl h
    | v :: more =>
      refine outcome_cons (fun h => absurd (by simp) h) fun _ => outcome_cons (fun h => ?_) fun h => ?_
      · cases v with
        | none => exact absurd (by simpa using ⟨_, .inl ⟨rfl, rfl⟩⟩) h
        | bytes b => exact absurd (by simpa using ⟨_, .inr ⟨b, rfl, rfl⟩⟩) h
        | _ => rfl
      · obtain ⟨pl, hpl⟩ := h v rfl
        refine outcome_nil ⟨v, more, o, pl, rfl, ho, hpl, ?_⟩
        rcases hpl with ⟨rfl, rfl⟩ | ⟨b, rfl, rfl⟩ <;> rfl

theorem next_read {α : Type} {rest : List Val} {f : Val × List Val → Res α} {next : Val → List Val → Res α → Prop} (h : ∀ v more, next v more (f (v, more))) :
    Spec.Next rest next (pop0 rest >>= f) := by
  match rest with
  | [] => exact outcome_cons (fun _ => rfl) fun h => absurd rfl h
  | v :: more => exact outcome_cons (fun h => absurd (by simp) h) fun _ => outcome_nil ⟨v, more, rfl, h v more⟩

theorem signer_read {C : Crypto} {allow : Bool} (v : Val) : Spec.SignerRead C allow v (signerFromObj C allow v) := by
  refine outcome_cons (fun h => ?_) fun h => outcome_cons (fun h' => ?_) fun ⟨l, hl⟩ => outcome_nil ⟨l, _, hl, front_read l, ?_⟩
  · cases v with
    | map d => rfl
    | _ => exact absurd (by simp) h
  · cases v with
    | map d => exact absurd rfl (h d)
    | arr l => exact absurd ⟨l, rfl⟩ h'
    | _ => rfl
  · subst hl
    exact then_bind fun _ _ => rfl

theorem signers_read {C : Crypto} {allow : Bool} (l : List Val) (i : Nat) : Spec.Each (fun _ => Spec.SignerRead C allow) i l (signersFromObj C allow l) := by
  induction l generalizing i with
  | nil => rfl
  | cons v t ih => exact ⟨_, signer_read v, then_bind fun _ _ => ⟨_, ih (i + 1), then_bind fun _ _ => rfl⟩⟩

theorem signerList_read {C : Crypto} {allow : Bool} (v : Val) : Spec.SignersRead C allow v (iterSigners v >>= signersFromObj C allow) := by
  refine outcome_cons (fun h => ?_) fun h => outcome_cons (fun h' => ?_) fun h' => outcome_nil ?_
  · cases v <;> first | rfl | exact absurd (by simp) h
  · cases v with
    | arr l => exact absurd (.inl ⟨l, rfl⟩) h'
    | bytes b => cases b with
      | nil => exact absurd (.inr (.inl rfl)) h'
      | cons _ _ => rfl
    | text b => cases b with
      | nil => exact absurd (.inr (.inr (.inl rfl))) h'
      | cons _ _ => rfl
    | map b => cases b with
      | nil => exact absurd (.inr (.inr (.inr rfl))) h'
      | cons _ _ => rfl
    | _ => simp at h
  · rcases h' with ⟨l, rfl⟩ | hb
    · exact ⟨l, .inl rfl, signers_read l 0⟩
    · refine ⟨[], .inr ⟨hb, rfl⟩, ?_⟩
      rcases hb with rfl | rfl | rfl <;> rfl

theorem element_read (v : Val) (i : Nat) : Spec.Element v i (rcptItem v i) := by
  cases v with
  | arr l =>
    cases h : l[i]? with
    | none => simp only [rcptItem, h]; exact .short (List.getElem?_eq_none_iff.mp h)
    | some x => simp only [rcptItem, h]; exact .list h
  | map d =>
    cases h : dget d (.int i) with
    | none => simp only [rcptItem, h]; exact .missing h
    | some x => simp only [rcptItem, h]; exact .dict h
  | bytes l =>
    cases h : l[i]? with
    | none => simp only [rcptItem, h]; exact .shortBytes (List.getElem?_eq_none_iff.mp h)
    | some x => simp only [rcptItem, h]; exact .byte h
  | text s => cases s with
    | nil => exact .noText
    | cons a t => exact .char (by simp)
  | _ => exact .other (by simp) (by simp) (by simp) (by simp)

theorem dict_read {C : Crypto} {allow : Bool} (v : Val) : Spec.DictRead C allow v (parseHeaderVal C allow v) := by
  refine outcome_cons (fun h => ?_) fun ⟨d, hd⟩ => outcome_nil ⟨d, hd, ?_⟩
  · cases v with
    | map d => exact absurd ⟨d, rfl⟩ h
    | _ => rfl
  · subst hd; exact header_read d

theorem encoded_read {C : Crypto} {allow : Bool} (v : Val) :
    Spec.EncodedRead C allow v (if v ≠ .bytes [] then loadsVal v >>= parseHeaderVal C allow else .ok []) := by
  by_cases h : v = .bytes []
  · exact .inl ⟨h, if_neg (by simpa using h)⟩
  · rw [if_pos h]
    refine .inr ⟨h, outcome_cons (fun h' => ?_) fun ⟨o, ho⟩ => outcome_nil ⟨o, ho, ?_⟩⟩
    · rw [(optional_not h').2.2, error_bind]
    · have : loadsVal v = loads (o.getD []) := by rcases ho with ⟨rfl, rfl⟩ | ⟨b, rfl, rfl⟩ <;> rfl
      rw [this]
      exact then_bind fun w _ => dict_read w

/-- The algorithm looked up in both headers. -/
def decidingAlg (ph uh : Dict) : Val := if getD ph Hdr.Algorithm .none ≠ .none then getD ph Hdr.Algorithm .none else getD uh Hdr.Algorithm .none

theorem deciding_iff {ph uh : Dict} {a : Val} : Spec.Deciding ph uh a ↔ a ≠ .none ∧ decidingAlg ph uh = a := by
  unfold Spec.Deciding decidingAlg getD
  cases hp : dget ph (.cls Hdr.Algorithm) <;> cases hu : dget uh (.cls Hdr.Algorithm) <;> grind

theorem create_steps {C : Crypto} {allow : Bool} {context : Bytes} {i : Nat} {v : Val} : createRecipient C allow context i v =
    rcptItem v 0 >>= fun v0 => (if v0 ≠ .bytes [] then loadsVal v0 >>= parseHeaderVal C allow else .ok []) >>= fun ph =>
    rcptItem v 1 >>= fun v1 => parseHeaderVal C allow v1 >>= fun uh =>
    if decidingAlg ph uh = .none then .error .coseException else rcptClass (decidingAlg ph uh) >>= fun c => rcptFromObj C c v allow context i := by
  unfold createRecipient
  cases rcptItem v 0 with
  | error e => rfl
  | ok v0 =>
    simp only [ok_bind]
    have go : ∀ ph, (rcptItem v 1 >>= fun v1 => parseHeaderVal C allow v1 >>= fun uh =>
        if getD ph Hdr.Algorithm .none ≠ .none then rcptClass (getD ph Hdr.Algorithm .none) >>= fun c => rcptFromObj C c v allow context i
        else if getD uh Hdr.Algorithm .none ≠ .none then rcptClass (getD uh Hdr.Algorithm .none) >>= fun c => rcptFromObj C c v allow context i
        else .error .coseException) =
        (rcptItem v 1 >>= fun v1 => parseHeaderVal C allow v1 >>= fun uh =>
          if decidingAlg ph uh = .none then .error .coseException else rcptClass (decidingAlg ph uh) >>= fun c => rcptFromObj C c v allow context i) := by
      intro ph
      congr 1; funext v1
      congr 1; funext uh
      unfold decidingAlg
      by_cases h1 : getD ph Hdr.Algorithm .none = .none <;> by_cases h2 : getD uh Hdr.Algorithm .none = .none <;> simp [h1, h2]
    by_cases h0 : v0 = .bytes []
    · subst h0
      simp only [ne_eq, not_true, if_false, ok_bind]
      exact go []
    · simp only [ne_eq, h0, not_false_eq_true, if_true, bind_assoc]
      congr 1; funext w
      congr 1; funext ph
      exact go ph

theorem class_read {a : Val} {α : Type} {f : RCls → Res α} {rest : Res α → Prop} (ha : a ≠ .none)
    (h : ∀ kind n, n ∈ Spec.kindAlgorithms kind → a = algCls n → rest (f kind)) :
    Spec.Outcome [(∀ l, a ≠ .arr l, .typeError), (∃ kind, ∃ n ∈ Spec.kindAlgorithms kind, a = algCls n, .keyError)] rest (rcptClass a >>= f) := by
  refine outcome_cons (fun h => ?_) fun h1 => outcome_cons (fun h2 => ?_) fun ⟨kind, n, hn, e⟩ => outcome_nil ?_
  · cases a <;> first | rfl | exact absurd (by simp) h
  · cases a with
    | arr l => exact absurd rfl (h1 l)
    | cls c =>
      obtain ⟨r, i⟩ := c
      by_cases hr : r = .alg
      · subst hr
        have hk : ∀ kind, i ∉ Spec.kindAlgorithms kind := fun kind hi => h2 ⟨kind, i, hi, rfl⟩
        have k1 := hk .directEncryption
        have k2 := hk .keyWrap
        have k3 := hk .directKeyAgreement
        have k4 := hk .keyAgreementWithKeyWrap
        simp only [Spec.kindAlgorithms] at k1 k2 k3 k4
        simp only [rcptClass, if_true, k1, k2, k3, k4, if_false, error_bind]
      · simp only [rcptClass, hr, if_false, error_bind]
    | _ => rfl
  · subst e
    have : rcptClass (algCls n) = .ok kind := by
      cases kind <;> simp only [Spec.kindAlgorithms, List.mem_cons, List.not_mem_nil, or_false] at hn <;> rcases hn with h | h | h | h | h | h <;> (try subst h) <;> rfl
    rw [this, ok_bind]
    exact h kind n hn rfl

theorem form_read {b : Base} {kind : RCls} {r : Rcpt} {q : Res Rcpt}
    (h : q = match kind with
    | .directEncryption =>
      if b.payload ≠ some [] then .error .malformedMessage
      else do
        let alg ← b.getAttr Hdr.Algorithm
        if alg = algCls (-6) ∧ b.phdr.length ≠ 0 then .error .malformedMessage else .ok r
    | .keyWrap => do
      let alg ← b.getAttr Hdr.Algorithm
      let isKw ← inSet alg aesKws
      if isKw = true ∧ b.phdr.length ≠ 0 then .error .malformedMessage
      else if b.payload = some [] then .error .malformedMessage
      else .ok r
    | .directKeyAgreement => do
      let alg ← b.getAttr Hdr.Algorithm
      let es ← inSet alg ecdhEsHkdf
      let missing ← if es then do
          let e ← b.getAttr Hdr.EphemeralKey
          .ok (decide (e = .none))
        else .ok false
      if missing then .error .malformedMessage else .ok r
    | .keyAgreementWithKeyWrap =>
      if b.payload = some [] then .error .malformedMessage else .ok r) :
    Spec.Outcome (Spec.recipientForm b kind) (fun q => q = .ok r) q := by
  subst h
  cases kind with
  | directEncryption =>
    refine outcome_cons (fun h => if_pos h) fun h1 => ?_
    rw [if_neg (by simpa using h1)]
    refine outcome_cons (fun h => by rw [getAttr_twice (Classical.not_not.mp h), error_bind]) fun h2 => ?_
    obtain ⟨v, hv, hv'⟩ := getAttr_value h2
    rw [hv, ok_bind, hv' _ cls_ne_none]
    refine outcome_cons (fun h => if_pos (by simpa using h)) fun h => outcome_nil (if_neg (by simpa using h))
  | keyWrap =>
    dsimp only
    refine outcome_cons (fun h => by rw [getAttr_twice (Classical.not_not.mp h), error_bind]) fun h2 => ?_
    obtain ⟨v, hv, hv'⟩ := getAttr_value h2
    rw [hv, ok_bind, hashable_value hv']
    refine outcome_cons (fun h => by rw [inSet_unhashable h, error_bind]) fun h3 => ?_
    rw [inSet_hashable h3, ok_bind]
    have : (∃ i ∈ [-3, -4, -5], Spec.Value b Hdr.Algorithm (algCls i)) ↔ ∃ i ∈ aesKws, v = algCls i := by
      simp only [aesKws, hv' _ cls_ne_none]
    rw [this]
    refine outcome_cons (fun h => if_pos ⟨decide_eq_true (Classical.not_imp.mp h).1, by simpa using (Classical.not_imp.mp h).2⟩) fun h => ?_
    rw [if_neg (by simpa using h)]
    exact outcome_cons (fun h => if_pos (Classical.not_not.mp h)) fun h => outcome_nil (if_neg h)
  | directKeyAgreement =>
    dsimp only
    refine outcome_cons (fun h => by rw [getAttr_twice (Classical.not_not.mp h), error_bind]) fun h2 => ?_
    obtain ⟨v, hv, hv'⟩ := getAttr_value h2
    rw [hv, ok_bind, hashable_value hv']
    refine outcome_cons (fun h => by rw [inSet_unhashable h, error_bind]) fun h3 => ?_
    rw [inSet_hashable h3, ok_bind]
    have : (∃ i ∈ [-25, -26], Spec.Value b Hdr.Algorithm (algCls i)) ↔ ∃ i ∈ ecdhEsHkdf, v = algCls i := by
      simp only [ecdhEsHkdf, hv' _ cls_ne_none]
    rw [this]
    by_cases hes : ∃ i ∈ ecdhEsHkdf, v = algCls i
    · simp only [hes, decide_true, if_true, true_imp_iff]
      refine outcome_cons (fun h => by rw [getAttr_twice (Classical.not_not.mp h)]; rfl) fun h4 => ?_
      obtain ⟨w, hw, hw'⟩ := getAttr_value h4
      simp only [hw, ok_bind, decide_eq_true_eq]
      refine outcome_cons (fun h => if_pos ?_) fun ⟨w', h⟩ => outcome_nil (if_neg ?_)
      · exact Classical.not_not.mp fun hn => h ⟨w, (hw' w hn).mpr rfl⟩
      · rw [(hw' w' h.1).mp h]; exact h.1
    · simp only [hes, decide_false, Bool.false_eq_true, if_false, false_imp_iff, ok_bind]
      exact outcome_cons (fun h => absurd trivial h) fun _ => outcome_cons (fun h => absurd trivial h) fun _ => outcome_nil rfl
  | keyAgreementWithKeyWrap =>
    exact outcome_cons (fun h => if_pos (Classical.not_not.mp h)) fun h => outcome_nil (if_neg h)

theorem recipient_read {C : Crypto} {allow : Bool} {context : Bytes} {i : Nat} (v : Val) :
    Spec.RecipientRead C allow context i v (createRecipient C allow context i v) := by
  rw [create_steps]
  refine ⟨_, element_read v 0, then_bind fun v0 _ => ⟨_, encoded_read v0, then_bind fun ph _ => ⟨_, element_read v 1, then_bind fun v1 _ =>
    ⟨_, dict_read v1, then_bind fun uh _ => ?_⟩⟩⟩⟩
  refine outcome_cons (fun h => if_pos (Classical.not_not.mp fun hn => h ⟨_, deciding_iff.mpr ⟨hn, rfl⟩⟩)) fun ⟨a, ha⟩ => ?_
  obtain ⟨hn, ha⟩ := deciding_iff.mp ha
  rw [if_neg (by rw [ha]; exact hn), ha]
  have hd : ∀ x, x ≠ .none → (Spec.Deciding ph uh x ↔ a = x) := fun x hx => by rw [deciding_iff, ha]; simp [hx]
  have := class_read (a := a) (f := fun c => rcptFromObj C c v allow context i) (rest := Spec.Outcome [(∃ l, v = .arr l, .keyError)] fun r =>
    ∃ kind n l q, n ∈ Spec.kindAlgorithms kind ∧ Spec.Deciding ph uh (algCls n) ∧ v = .arr l ∧ Spec.Front C allow l q ∧ Spec.Then q (fun p =>
      Spec.Outcome (Spec.recipientForm p.1 kind) fun r => r = .ok (.mk kind p.1 context i [])) r) hn fun kind n hn' ha' => by
    refine outcome_cons (fun h => ?_) fun ⟨l, hl⟩ => outcome_nil ⟨kind, n, l, _, hn', (hd _ cls_ne_none).mpr ha', hl, front_read l, ?_⟩
    · cases v with
      | arr l => exact absurd ⟨l, rfl⟩ h
      | _ => rfl
    · subst hl
      simp only [rcptFromObj]
      exact then_bind fun p _ => form_read rfl
  have h1 := outcome_append this
  simp only [hd _ cls_ne_none, hd (.arr _) (by simp)]
  simp only [hd _ cls_ne_none] at h1
  exact h1

theorem recipients_read {C : Crypto} {allow : Bool} {context : Bytes} (l : List Val) (i : Nat) :
    Spec.Each (Spec.RecipientRead C allow context) i l (createRecipients C allow context i l) := by
  induction l generalizing i with
  | nil => rfl
  | cons v t ih => exact ⟨_, recipient_read v, then_bind fun _ _ => ⟨_, ih (i + 1), then_bind fun _ _ => rfl⟩⟩

theorem recipientList_read {C : Crypto} {allow : Bool} {context : Bytes} (rest : List Val) :
    Spec.RecipientsRead C allow context rest (recipientsOf C allow context rest) := by
  have hno : ∀ {v : Val} {P : Val → Prop}, (∀ k w d, v = .map ((k, w) :: d) → P k) → ∀ k, Spec.FirstLabel v k → P k :=
    fun h k ⟨w, d, e⟩ => h k w d e
  refine next_read fun v _ => outcome_cons (fun h => ?_) fun h1 => outcome_cons (fun h => ?_) fun h2 => outcome_cons (fun h => ?_) fun h3 =>
    outcome_cons (fun h' => ?_) fun h' => outcome_nil ?_
  · cases v with
    | map d => cases d with
      | nil => exact absurd (hno fun _ _ _ e => by cases e) h
      | cons p d =>
        obtain ⟨k, w⟩ := p
        have hk : (∃ x l, k = .arr (x :: l)) ∨ ∃ p d, k = .map (p :: d) := by
          refine Classical.byContradiction fun hc => h (hno fun k' _ _ e => ?_)
          cases e
          exact ⟨fun x l e => hc (.inl ⟨x, l, e⟩), fun p d e => hc (.inr ⟨p, d, e⟩)⟩
        rcases hk with ⟨x, l, rfl⟩ | ⟨p, d, rfl⟩ <;> rfl
    | _ => exact absurd (hno fun _ _ _ e => by cases e) h
  · cases v with
    | map d => cases d with
      | nil => exact absurd (hno fun _ _ _ e => by cases e) h
      | cons p d =>
        obtain ⟨k, w⟩ := p
        have hk : k = .bytes [] ∨ k = .text [] ∨ k = .arr [] := by
          refine Classical.byContradiction fun hc => h (hno fun k' _ _ e => ?_)
          cases e
          exact ⟨fun e => hc (.inl e), fun e => hc (.inr (.inl e)), fun e => hc (.inr (.inr e))⟩
        rcases hk with rfl | rfl | rfl <;> rfl
    | _ => exact absurd (hno fun _ _ _ e => by cases e) h
  · cases v with
    | map d => cases d with
      | nil => exact absurd (hno fun _ _ _ e => by cases e) h
      | cons p d =>
        obtain ⟨k, w⟩ := p
        have hk : k = .map [] := by
          refine Classical.byContradiction fun hc => h (hno fun k' _ _ e => ?_)
          cases e
          exact hc
        subst hk
        rfl
    | _ => exact absurd (hno fun _ _ _ e => by cases e) h
  · cases v with
    | arr l => exact absurd (.inl ⟨l, rfl⟩) h'
    | bytes b => cases b with
      | nil => exact absurd (.inr (.inl rfl)) h'
      | cons _ _ => rfl
    | text b => cases b with
      | nil => exact absurd (.inr (.inr (.inl rfl))) h'
      | cons _ _ => rfl
    | map b => cases b with
      | nil => exact absurd (.inr (.inr (.inr rfl))) h'
      | cons p d =>
        obtain ⟨k, w⟩ := p
        have a1 := h1 k ⟨w, d, rfl⟩
        have a2 := h2 k ⟨w, d, rfl⟩
        have a3 := h3 k ⟨w, d, rfl⟩
        have : labelRecipient k = .typeError := by
          unfold labelRecipient
          split <;> first | rfl | exact absurd rfl a2.1 | exact absurd rfl a2.2.1 | exact absurd rfl a2.2.2 | exact absurd rfl a3 | skip
          · rename_i l h4
            match l, h4, a1.1 with
            | [], h4, _ => exact (h4 rfl).elim
            | x :: l, _, a => exact absurd rfl (a x l)
          · rename_i l h4
            match l, h4, a1.2 with
            | [], h4, _ => exact (h4 rfl).elim
            | x :: l, _, a => exact absurd rfl (a x l)
        simp only [iterRecipients, this, error_bind]
    | _ => rfl
  · rcases h' with ⟨l, rfl⟩ | hb
    · exact ⟨l, .inl rfl, recipients_read l 0⟩
    · refine ⟨[], .inr ⟨hb, rfl⟩, ?_⟩
      rcases hb with rfl | rfl | rfl <;> rfl

theorem orNone_read {α β : Type} {q : Res α} {n : β} {f : α → β} {r : Res β} (h1 : ∀ a, q = .ok a → r = .ok (f a))
    (h2 : ∀ e, q = .error e → r = if e.dropsRecipients then .ok n else .error e) : Spec.OrNone q n f r := by
  cases q with
  | ok a => exact .inl ⟨a, rfl, h1 a rfl⟩
  | error e =>
    rw [h2 e rfl]
    cases e <;> first | exact .inr (.inl ⟨_, rfl, by simp, rfl⟩) | exact .inr (.inr ⟨_, rfl, by simp, rfl⟩)

/-- What each class does after the three parts. -/
def contentOf (C : Crypto) (allow : Bool) (k : MsgKind) (p : Base × List Val) : Res Msg :=
  match k with
  | .enc0 => .ok (.enc0 { base := p.1 })
  | .mac0 => pop0 p.2 >>= fun x => .ok (.mac0 { base := p.1, authTag := x.1 })
  | .sign1 => pop0 p.2 >>= fun x => .ok (.sign1 { base := p.1, signature := x.1 })
  | .enc => match recipientsOf C allow b!"Enc_Recipient" p.2 with
    | .ok rs => .ok (.enc { base := p.1, recipients := rs })
    | .error e => if e.dropsRecipients then .ok (.enc { base := p.1 }) else .error e
  | .mac => pop0 p.2 >>= fun x => match recipientsOf C allow b!"Mac_Recipient" x.2 with
    | .ok rs => .ok (.mac { base := p.1, authTag := x.1, recipients := some rs })
    | .error e => if e.dropsRecipients then .ok (.mac { base := p.1, authTag := x.1, recipients := none }) else .error e
  | .sign => pop0 p.2 >>= fun x => (iterSigners x.1 >>= signersFromObj C allow) >>= fun ss => .ok (.sign { base := p.1, signers := ss })

theorem fromObj_content {C : Crypto} {allow : Bool} {k : MsgKind} {l : List Val} : fromObj C k l allow = baseFromObj C l allow >>= contentOf C allow k := by
  have drop : ∀ (q : Res (List Rcpt)) {β : Type} (n : β) (f : List Rcpt → β) (g : β → Msg), ((match q with
      | .ok rs => .ok (f rs)
      | .error e => if e.dropsRecipients then .ok n else .error e : Res β) >>= fun m => .ok (g m)) = match q with
      | .ok rs => .ok (g (f rs))
      | .error e => if e.dropsRecipients then .ok (g n) else .error e := by
    intro q β n f g
    cases q with
    | ok _ => rfl
    | error e => dsimp only; split <;> rfl
  cases h : baseFromObj C l allow with
  | error e => cases k <;> simp only [fromObj, Enc0.fromObj, Mac0.fromObj, Sign1.fromObj, Enc.fromObj, Mac.fromObj, SignMsg.fromObj, h, error_bind]
  | ok p =>
    cases k <;> simp only [fromObj, Enc0.fromObj, Mac0.fromObj, Sign1.fromObj, Enc.fromObj, Mac.fromObj, SignMsg.fromObj, h, ok_bind, contentOf, bind_assoc]
    · exact drop ..
    · congr 1; funext x; exact drop ..

theorem content_read {C : Crypto} {allow : Bool} {n : Nat} {k : MsgKind} (p : Base × List Val) (hk : n = Spec.msgTag k) :
    Spec.Content C allow n p.1 p.2 (contentOf C allow k p) := by
  subst hk
  unfold Spec.Content
  cases k
  · exact .inl ⟨rfl, rfl⟩
  · exact .inr (.inl ⟨rfl, next_read fun _ _ => rfl⟩)
  · exact .inr (.inr (.inl ⟨rfl, next_read fun _ _ => rfl⟩))
  · exact .inr (.inr (.inr (.inl ⟨rfl, _, recipientList_read p.2, orNone_read (fun a h => by simp only [contentOf, h]) fun e h => by simp only [contentOf, h]⟩)))
  · exact .inr (.inr (.inr (.inr (.inl ⟨rfl, next_read fun _ more => ⟨_, recipientList_read more, orNone_read (fun a h => by simp only [h]) fun e h => by simp only [h]⟩⟩))))
  · exact .inr (.inr (.inr (.inr (.inr ⟨rfl, next_read fun v _ => ⟨_, signerList_read v, then_bind fun _ _ => rfl⟩⟩))))

theorem tagKind_iff {n : Nat} {k : MsgKind} : tagKind n = some k ↔ n = Spec.msgTag k := by
  constructor
  · intro h
    unfold tagKind at h
    repeat' split at h
    all_goals first | (simp at h; done) | (simp at h; subst h; subst n; rfl)
  · rintro rfl; cases k <;> rfl

theorem instance_iff {cls : DecCls} {k : MsgKind} : Spec.msgTag k ∈ Spec.instanceOf cls ↔ cls.accepts k = true := by
  cases cls with
  | only k' => cases k <;> cases k' <;> decide
  | _ => cases k <;> decide

theorem contentOf_kind {C : Crypto} {allow : Bool} {k : MsgKind} {p : Base × List Val} {m : Msg} (h : contentOf C allow k p = .ok m) : m.kind = k := by
  cases k <;> simp only [contentOf, bind_eq_ok] at h
  · cases h; rfl
  · obtain ⟨_, _, h⟩ := h; cases h; rfl
  · obtain ⟨_, _, h⟩ := h; cases h; rfl
  · split at h
    · cases h; rfl
    · split at h <;> cases h; rfl
  · obtain ⟨_, _, h⟩ := h
    split at h
    · cases h; rfl
    · split at h <;> cases h; rfl
  · obtain ⟨_, _, _, _, h⟩ := h; cases h; rfl

/-! ### The specification leaves no choice -/

/-- At most one result. -/
def Single {α : Type} (P : Res α → Prop) : Prop := ∀ r r', P r → P r' → r = r'

theorem unmet_single {l : List (Prop × PyErr)} {e e' : PyErr} (h : Spec.FirstUnmet l e) (h' : Spec.FirstUnmet l e') : e = e' := by
  induction l with
  | nil => exact h.elim
  | cons p l ih =>
    obtain ⟨p, x⟩ := p
    rcases h with h | h <;> rcases h' with h' | h'
    · rw [← h.2, h'.2]
    · exact absurd h'.1 h.1
    · exact absurd h.1 h'.1
    · exact ih h.2 h'.2

theorem unmet_met {l : List (Prop × PyErr)} {e : PyErr} (h : Spec.FirstUnmet l e) (h' : Spec.Met l) : False := by
  induction l with
  | nil => exact h
  | cons p l ih =>
    obtain ⟨p, x⟩ := p
    rcases h with h | h
    · exact h.1 h'.1
    · exact ih h.2 h'.2

theorem Single.outcome {α : Type} {l : List (Prop × PyErr)} {rest : Res α → Prop} (h : Spec.Met l → Single rest) : Single (Spec.Outcome l rest) := by
  rintro r r' (⟨e, h1, rfl⟩ | ⟨h1, h2⟩) (⟨e', h1', rfl⟩ | ⟨h1', h2'⟩)
  · rw [unmet_single h1 h1']
  · exact (unmet_met h1 h1').elim
  · exact (unmet_met h1' h1).elim
  · exact h h1 r r' h2 h2'

theorem Single.then {α β : Type} {q : Res α} {next : α → Res β → Prop} (h : ∀ a, q = .ok a → Single (next a)) : Single (Spec.Then q next) := by
  rintro r r' (⟨e, h1, rfl⟩ | ⟨a, h1, h2⟩) (⟨e', h1', rfl⟩ | ⟨a', h1', h2'⟩)
  · rw [h1] at h1'; cases h1'; rfl
  · rw [h1] at h1'; cases h1'
  · rw [h1] at h1'; cases h1'
  · rw [h1] at h1'; cases h1'; exact h a h1 r r' h2 h2'

/-- A step with one result, and what follows it. -/
theorem Single.step {α β : Type} {P : Res α → Prop} {next : α → Res β → Prop} (h : Single P) (h' : ∀ a, Single (next a)) :
    Single fun r => ∃ q, P q ∧ Spec.Then q next r := by
  rintro r r' ⟨q, h1, h2⟩ ⟨q', h1', h2'⟩
  rw [h q' q h1' h1] at h2'
  exact Single.then (fun a _ => h' a) r r' h2 h2'

theorem Single.eq {α : Type} (x : Res α) : Single fun r => r = x := fun _ _ h h' => h.trans h'.symm

theorem refused_value {C : Crypto} {c : Cls} {v : Val} (hc : c ∈ [Hdr.Critical, Hdr.ContentType, Hdr.KID, Hdr.IV, Hdr.PartialIV, Hdr.CounterSignature0, Hdr.KIDContext])
    (h : ¬ ∃ w, Spec.ValueArg C c v w) : hdrParser C c v = .error .valueError := by
  have hr : c.reg = .hdr := by
    simp only [List.mem_cons, List.not_mem_nil, or_false] at hc
    rcases hc with rfl | rfl | rfl | rfl | rfl | rfl | rfl <;> rfl
  cases hv : hdrParser C c v with
  | ok w => exact absurd ⟨w, (hdrParser_iff hr).mp hv⟩ h
  | error e =>
    simp only [List.mem_cons, List.not_mem_nil, or_false] at hc
    rcases hc with rfl | rfl | rfl | rfl | rfl | rfl | rfl <;>
      simp [hdrParser, simpleParser] at hv <;> cases v <;> simp [critIsArray, contentType, isBstr] at hv <;> grind

theorem refused_entry {C : Crypto} {allow : Bool} {k v : Val} {e : PyErr} (h : Spec.EntryRefused C allow (k, v) e) :
    (fromIdKey .hdr k allow >>= fun a => parsedVal (hdrParser C) a v) = .error e := by
  have res : ∀ {c n}, (c, n) ∈ registry .hdr → Spec.Denotes c n k → fromIdKey .hdr k allow = .ok (.cls c) := fun hn hd => by
    simp [fromIdKey, denotes_resolve.mpr ⟨_, hn, hd⟩]
  cases h with
  | unknown ha hu => simp [fromIdKey, unregistered_iff.mp hu, ha]
  | algorithm hn hd hv =>
    rw [res hn hd, ok_bind]
    have : fromId .alg v = .error .coseException := attrArg_none fun w hw => hv ⟨w, hw⟩
    simpa [parsedVal, hdrParser, simpleParser] using this
  | form hn hd hc hv =>
    rw [res hn hd, ok_bind]
    exact refused_value hc hv
  | key hn hd hc hv =>
    rw [res hn hd, ok_bind]
    simp only [List.mem_cons, List.not_mem_nil, or_false] at hc
    rcases hc with rfl | rfl <;> simp [parsedVal, hdrParser, hv]

theorem header_single {C : Crypto} {allow : Bool} (d : Dict) {r : Res Dict} (h : Spec.HeaderRead C allow d r) : r = parseHeader C allow d := by
  rcases h with ⟨es, h1, rfl⟩ | ⟨before, entry, after, es, e, rfl, h1, h2, rfl⟩
  · exact ((parseAttrs_entries d).2 [] es h1).symm
  · have go : ∀ (before es acc : Dict), All2 (Spec.EntryArg C allow) before es → parseAttrs .hdr allow (hdrParser C) acc (before ++ entry :: after) = .error e := by
      intro before
      induction before with
      | nil =>
        intro es acc _
        obtain ⟨k, v⟩ := entry
        have := refused_entry h2
        rw [List.nil_append, parseAttrs_cons]
        cases hk : fromIdKey .hdr k allow with
        | error e' => rw [hk, error_bind] at this; rw [error_bind]; cases this; rfl
        | ok a =>
          rw [hk, ok_bind] at this
          rw [ok_bind, this]
          rfl
      | cons p t ih =>
        obtain ⟨k, v⟩ := p
        intro es acc h
        cases h with
        | cons h3 h4 =>
          rename_i b m
          obtain ⟨a, w⟩ := b
          obtain ⟨h5, h6⟩ := entryArg_iff.mp h3
          rw [List.cons_append, parseAttrs_cons, h5, ok_bind, h6, ok_bind]
          exact ih _ _ h4
    exact (go before es [] h1).symm

theorem Single.header {C : Crypto} {allow : Bool} {d : Dict} : Single (Spec.HeaderRead C allow d) := fun _ _ h h' =>
  (header_single d h).trans (header_single d h').symm

theorem Single.carried {v : Val} : Single (Spec.Carried v) := by
  intro r r' h h'
  cases h <;> cases h' <;> first | rfl | (exfalso; rename_i h; exact h rfl)

theorem optional_single {v : Val} {o o' : Option Bytes} (h : Spec.OptionalBytes v o) (h' : Spec.OptionalBytes v o') : o = o' := by
  have := kept_of h
  rw [kept_of h'] at this
  simpa using this.symm

theorem Single.front {C : Crypto} {allow : Bool} {obj : List Val} : Single (Spec.Front C allow obj) := by
  refine .outcome fun _ => ?_
  rintro r r' ⟨p, u, rest, rfl, h⟩ ⟨p', u', rest', e, h'⟩
  cases e
  refine Single.outcome (fun _ => Single.step .carried fun pv => .outcome fun _ => ?_) r r' h h'
  rintro r r' ⟨P, U, rfl, hU, h⟩ ⟨P', U', e, hU', h'⟩
  cases e
  have : U' = U := by
    rcases hU with ⟨rfl, rfl⟩ | rfl <;> rcases hU' with ⟨e, rfl⟩ | e
    · rfl
    · cases e
    · cases e
    · cases e; rfl
  subst this
  refine Single.step .header (fun ph => Single.step .header fun uh => .outcome fun _ => ?_) r r' h h'
  rintro r r' ⟨v, more, pe, pl, rfl, h1, h2, rfl⟩ ⟨v', more', pe', pl', e, h1', h2', rfl⟩
  cases e
  rw [optional_single h1 h1', optional_single h2 h2']

theorem Single.next {α : Type} {rest : List Val} {next : Val → List Val → Res α → Prop} (h : ∀ v more, Single (next v more)) : Single (Spec.Next rest next) := by
  refine .outcome fun _ => ?_
  rintro r r' ⟨v, more, rfl, h1⟩ ⟨v', more', e, h1'⟩
  cases e
  exact h v more r r' h1 h1'

theorem Single.each {α β : Type} {one : Nat → α → Res β → Prop} (h : ∀ i a, Single (one i a)) (l : List α) : ∀ i, Single (Spec.Each one i l) := by
  induction l with
  | nil => exact fun _ => .eq _
  | cons a t ih => exact fun i => Single.step (h i a) fun b => Single.step (ih (i + 1)) fun bs => .eq _

theorem Single.signer {C : Crypto} {allow : Bool} {v : Val} : Single (Spec.SignerRead C allow v) := by
  refine .outcome fun _ => ?_
  rintro r r' ⟨l, q, rfl, h⟩ ⟨l', q', e, h'⟩
  cases e
  exact Single.step .front (fun p => .eq _) r r' ⟨q, h⟩ ⟨q', h'⟩

theorem listed_single {v : Val} {l l' : List Val} (h : v = .arr l ∨ (Spec.Bare v ∧ l = [])) (h' : v = .arr l' ∨ (Spec.Bare v ∧ l' = [])) : l = l' := by
  unfold Spec.Bare at h h'
  grind

theorem Single.signers {C : Crypto} {allow : Bool} {v : Val} : Single (Spec.SignersRead C allow v) := by
  refine .outcome fun _ => ?_
  rintro r r' ⟨l, hl, h⟩ ⟨l', hl', h'⟩
  cases listed_single hl hl'
  exact Single.each (fun _ _ => .signer) l 0 r r' h h'

theorem Single.element {v : Val} {i : Nat} : Single (Spec.Element v i) := by
  intro r r' h h'
  cases h <;> cases h' <;> simp_all <;> grind

theorem Single.dict {C : Crypto} {allow : Bool} {v : Val} : Single (Spec.DictRead C allow v) := by
  refine .outcome fun _ => ?_
  rintro r r' ⟨d, rfl, h⟩ ⟨d', e, h'⟩
  cases e
  exact Single.header r r' h h'

theorem Single.encoded {C : Crypto} {allow : Bool} {v : Val} : Single (Spec.EncodedRead C allow v) := by
  rintro r r' (⟨h1, h⟩ | ⟨h1, h⟩) (⟨h1', h'⟩ | ⟨h1', h'⟩)
  · rw [h, h']
  · exact absurd h1 h1'
  · exact absurd h1' h1
  · refine Single.outcome (fun _ => ?_) r r' h h'
    rintro r r' ⟨o, ho, h⟩ ⟨o', ho', h'⟩
    cases optional_single ho ho'
    exact Single.then (fun _ _ => .dict) r r' h h'

theorem kind_single {k k' : RCls} {n : Int} (h : n ∈ Spec.kindAlgorithms k) (h' : n ∈ Spec.kindAlgorithms k') : k = k' := by
  cases k <;> cases k' <;> simp only [Spec.kindAlgorithms, List.mem_cons, List.not_mem_nil, or_false] at h h' <;> first | rfl | omega

theorem Single.recipient {C : Crypto} {allow : Bool} {context : Bytes} {i : Nat} {v : Val} : Single (Spec.RecipientRead C allow context i v) := by
  refine Single.step .element fun v0 => Single.step .encoded fun ph => Single.step .element fun v1 => Single.step .dict fun uh => .outcome fun _ => ?_
  rintro r r' ⟨kind, n, l, q, h1, h2, rfl, h⟩ ⟨kind', n', l', q', h1', h2', e, h'⟩
  cases e
  have : n' = n := by
    have e1 := (deciding_iff.mp h2).2
    rw [(deciding_iff.mp h2').2] at e1
    simpa using e1
  subst this
  cases kind_single h1 h1'
  exact Single.step .front (fun p => .outcome fun _ => .eq _) r r' ⟨q, h⟩ ⟨q', h'⟩

theorem Single.recipients {C : Crypto} {allow : Bool} {context : Bytes} {rest : List Val} : Single (Spec.RecipientsRead C allow context rest) := by
  refine .next fun v _ => .outcome fun _ => ?_
  rintro r r' ⟨l, hl, h⟩ ⟨l', hl', h'⟩
  cases listed_single hl hl'
  exact Single.each (fun _ _ => .recipient) l 0 r r' h h'

theorem Single.orNone {α β : Type} {P : Res α → Prop} {n : β} {f : α → β} (h : Single P) : Single fun r => ∃ q, P q ∧ Spec.OrNone q n f r := by
  rintro r r' ⟨q, h1, h2⟩ ⟨q', h1', h2'⟩
  cases h q q' h1 h1'
  unfold Spec.OrNone at h2 h2'
  grind

theorem Single.content {C : Crypto} {allow : Bool} {tag : Nat} {b : Base} {rest : List Val} : Single (Spec.Content C allow tag b rest) := by
  rintro r r' (⟨rfl, h⟩ | ⟨rfl, h⟩ | ⟨rfl, h⟩ | ⟨rfl, h⟩ | ⟨rfl, h⟩ | ⟨rfl, h⟩) (⟨e, h'⟩ | ⟨e, h'⟩ | ⟨e, h'⟩ | ⟨e, h'⟩ | ⟨e, h'⟩ | ⟨e, h'⟩) <;> try (exfalso; omega)
  · rw [h, h']
  · exact Single.next (fun _ _ => .eq _) r r' h h'
  · exact Single.next (fun _ _ => .eq _) r r' h h'
  · exact Single.orNone .recipients r r' h h'
  · exact Single.next (fun _ _ => .orNone .recipients) r r' h h'
  · exact Single.next (fun _ _ => .step .signers fun _ => .eq _) r r' h h'

theorem Single.decodes {C : Crypto} {cls : DecCls} {allow : Bool} {received : Bytes} : Single (Spec.Decodes C cls allow received) := by
  rintro r r' (⟨e, h1, rfl⟩ | ⟨v, h1, h⟩) (⟨e', h1', rfl⟩ | ⟨v', h1', h'⟩)
  · rw [h1] at h1'; cases h1'; rfl
  · rw [h1] at h1'; cases h1'
  · rw [h1] at h1'; cases h1'
  · rw [h1] at h1'; cases h1'
    refine Single.outcome (fun _ => ?_) r r' h h'
    rintro s s' ⟨n, l, q, rfl, g⟩ ⟨n', l', q', e, g'⟩
    cases e
    exact Single.step .front (fun p => .step .content fun m => .outcome fun _ => .eq _) s s' ⟨q, g⟩ ⟨q', g'⟩

theorem decodes_decode (C : Crypto) (cls : DecCls) (allow : Bool) (received : Bytes) : Spec.Decodes C cls allow received (decode C cls allow received) := by
  unfold decode
  cases hl : loads received with
  | error e =>
    refine .inl ⟨e, hl, ?_⟩
    cases e <;> rfl
  | ok v =>
    refine .inr ⟨v, hl, ?_⟩
    simp only [ok_bind]
    refine outcome_cons (fun h => ?_) fun ⟨n, w, hv⟩ => ?_
    · cases v with
      | tag n w => exact absurd ⟨n, w, rfl⟩ h
      | _ => rfl
    subst hv
    refine outcome_cons (fun h => ?_) fun ⟨n', l, hv⟩ => ?_
    · cases w with
      | arr l => exact absurd ⟨n, l, rfl⟩ h
      | _ => rfl
    cases hv
    dsimp only
    refine outcome_cons (fun h => ?_) fun ⟨n', w, hv, hn⟩ => ?_
    · cases hk : tagKind n with
      | none => rfl
      | some k =>
        refine absurd ⟨n, _, rfl, ?_⟩ h
        rw [tagKind_iff] at hk
        subst hk
        cases k <;> decide
    cases hv
    obtain ⟨k, rfl⟩ : ∃ k, n = Spec.msgTag k := by
      simp only [List.mem_cons, List.not_mem_nil, or_false] at hn
      rcases hn with rfl | rfl | rfl | rfl | rfl | rfl
      · exact ⟨.enc0, rfl⟩
      · exact ⟨.mac0, rfl⟩
      · exact ⟨.sign1, rfl⟩
      · exact ⟨.enc, rfl⟩
      · exact ⟨.mac, rfl⟩
      · exact ⟨.sign, rfl⟩
    rw [tagKind_iff.mpr rfl]
    dsimp only
    refine outcome_nil ⟨_, l, _, rfl, front_read l, ?_⟩
    rw [fromObj_content, bind_assoc]
    refine then_bind fun p _ => ⟨_, content_read p rfl, then_bind fun m hm => ?_⟩
    rw [contentOf_kind hm, instance_iff]
    exact outcome_cons (fun h => if_neg h) fun h => outcome_nil (if_pos h)

/-! ### C93 -/

/-- **C93**: what `decode` returns, and which exception it raises, for every byte string: what the specification says, and it leaves no choice. -/
theorem c93_decode (C : Crypto) (cls : DecCls) (allow : Bool) (received : Bytes) (r : Res Msg) :
    Spec.Decodes C cls allow received r ↔ r = decode C cls allow received :=
  ⟨fun h => Single.decodes r _ h (decodes_decode C cls allow received), fun h => h ▸ decodes_decode C cls allow received⟩

/-- **C93**: the same for a header of a message, a signature or a recipient. -/
theorem c93_header (C : Crypto) (allow : Bool) (d : Dict) (r : Res Dict) : Spec.HeaderRead C allow d r ↔ r = parseHeader C allow d :=
  ⟨header_single d, fun h => h ▸ header_read d⟩

/-- **C93**: and for a recipient. -/
theorem c93_recipient (C : Crypto) (allow : Bool) (context : Bytes) (i : Nat) (v : Val) (r : Res Rcpt) :
    Spec.RecipientRead C allow context i v r ↔ r = createRecipient C allow context i v :=
  ⟨fun h => Single.recipient r _ h (recipient_read v), fun h => h ▸ recipient_read v⟩

/-! ### Instances -/

-- a MAC0 message with an HMAC algorithm, payload and tag
example : ∃ m, Spec.Decodes toy .any true [0xd1, 0x84, 0x43, 0xa1, 1, 5, 0xa0, 0x41, 9, 0x41, 8] (.ok (.mac0 m)) ∧ m.authTag = .bytes [8] ∧
    m.base.phdr = [(.cls Hdr.Algorithm, algCls 5)] ∧ m.base.payload = some [9] :=
  ⟨{ base := { phdrEnc := some [0xa1, 1, 5], phdr := [(.cls Hdr.Algorithm, algCls 5)], payload := some [9] }, authTag := .bytes [8] },
    (c93_decode ..).mpr (by decide +kernel), rfl, rfl, rfl⟩
-- without the tag
example : Spec.Decodes toy .any true [0xd1, 0x83, 0x43, 0xa1, 1, 5, 0xa0, 0x41, 9] (.error .indexError) := (c93_decode ..).mpr (by decide +kernel)
-- an algorithm that does not exist
example : Spec.Decodes toy .any true [0xd1, 0x84, 0x44, 0xa1, 1, 0x18, 99, 0xa0, 0x41, 9, 0x41, 8] (.error .coseException) := (c93_decode ..).mpr (by decide +kernel)
-- a key identifier that is not a byte string, an empty list of critical headers
example : Spec.Decodes toy .any true [0xd1, 0x84, 0x40, 0xa1, 4, 5, 0x41, 9, 0x41, 8] (.error .valueError) := (c93_decode ..).mpr (by decide +kernel)
example : Spec.Decodes toy .any true [0xd1, 0x84, 0x40, 0xa1, 2, 0x80, 0x41, 9, 0x41, 8] (.error .valueError) := (c93_decode ..).mpr (by decide +kernel)
-- an unknown label, allowed or not
example : Spec.Decodes toy .any false [0xd1, 0x84, 0x40, 0xa1, 0x18, 77, 5, 0x41, 9, 0x41, 8] (.error .coseException) := (c93_decode ..).mpr (by decide +kernel)
example : ∃ m, Spec.Decodes toy .any true [0xd1, 0x84, 0x40, 0xa1, 0x18, 77, 5, 0x41, 9, 0x41, 8] (.ok m) :=
  ⟨.mac0 { base := { phdrEnc := some [], uhdr := [(.int 77, .int 5)], payload := some [9] }, authTag := .bytes [8] }, (c93_decode ..).mpr (by decide +kernel)⟩
-- the class of another message; an unknown tag; a tagged number; no tag
example : Spec.Decodes toy (.only .enc0) true [0xd1, 0x84, 0x40, 0xa0, 0x41, 9, 0x41, 8] (.error .typeError) := (c93_decode ..).mpr (by decide +kernel)
example : Spec.Decodes toy .any true [0xd3, 0x84, 0x40, 0xa0, 0x41, 9, 0x41, 8] (.error .keyError) := (c93_decode ..).mpr (by decide +kernel)
example : Spec.Decodes toy .any true [0xd1, 5] (.error .typeError) := (c93_decode ..).mpr (by decide +kernel)
example : Spec.Decodes toy .any true [0x84, 0x40, 0xa0, 0x41, 9, 0x41, 8] (.error .attributeError) := (c93_decode ..).mpr (by decide +kernel)
-- the signatures of a COSE_Sign message: a list, nothing, a byte string, a number
example : ∃ m, Spec.Decodes toy .any true [0xd8, 98, 0x84, 0x40, 0xa0, 0x41, 9, 0x81, 0x83, 0x40, 0xa0, 0x41, 7] (.ok (.sign m)) ∧ m.signers.length = 1 :=
  ⟨{ base := { phdrEnc := some [], payload := some [9] }, signers := [{ phdrEnc := some [], payload := some [7] }] }, (c93_decode ..).mpr (by decide +kernel), rfl⟩
example : Spec.Decodes toy .any true [0xd8, 98, 0x84, 0x40, 0xa0, 0x41, 9, 0x41, 7] (.error .attributeError) := (c93_decode ..).mpr (by decide +kernel)
example : Spec.Decodes toy .any true [0xd8, 98, 0x84, 0x40, 0xa0, 0x41, 9, 7] (.error .typeError) := (c93_decode ..).mpr (by decide +kernel)
example : Spec.Decodes toy .any true [0xd8, 98, 0x84, 0x40, 0xa0, 0x41, 9, 0x81, 0xa0] (.error .keyError) := (c93_decode ..).mpr (by decide +kernel)
-- recipients: direct use of a key, with a ciphertext it must not have; a structure that is too short is dropped
example : ∃ m, Spec.Decodes toy .any true [0xd8, 96, 0x84, 0x40, 0xa0, 0x41, 9, 0x81, 0x83, 0x40, 0xa1, 1, 0x25, 0x40] (.ok (.enc m)) ∧ m.recipients.length = 1 :=
  ⟨{ base := { phdrEnc := some [], payload := some [9] },
     recipients := [.mk .directEncryption { phdrEnc := some [], uhdr := [(.cls Hdr.Algorithm, algCls (-6))], payload := some [] } b!"Enc_Recipient" 0 []] },
    (c93_decode ..).mpr (by decide +kernel), rfl⟩
example : Spec.Decodes toy .any true [0xd8, 96, 0x84, 0x40, 0xa0, 0x41, 9, 0x81, 0x83, 0x40, 0xa1, 1, 0x25, 0x41, 1] (.error .malformedMessage) :=
  (c93_decode ..).mpr (by decide +kernel)
example : ∃ m, Spec.Decodes toy .any true [0xd8, 96, 0x84, 0x40, 0xa0, 0x41, 9, 0x81, 0x81, 0x40] (.ok (.enc m)) ∧ m.recipients = [] :=
  ⟨{ base := { phdrEnc := some [], payload := some [9] } }, (c93_decode ..).mpr (by decide +kernel), rfl⟩
example : Spec.Decodes toy .any true [0xd8, 96, 0x84, 0x40, 0xa0, 0x41, 9, 0x81, 0x83, 0x40, 0xa0, 0x40] (.error .coseException) := (c93_decode ..).mpr (by decide +kernel)

/-- **C93**: a dictionary in place of the recipients, with the empty byte string as first label, is accepted: the message has no recipients. -/
theorem c93_dictionary_accepted : ∃ m, decode toy .any true [0xd8, 0x60, 0x84, 0x40, 0xa0, 0x41, 0x01, 0xa1, 0x40, 0x00] = .ok (.enc m) ∧ m.recipients = [] :=
  ⟨_, by rfl, by rfl⟩

end Cose
