import Verif.Props.RcptAccept
/-!
# The field for the recipients, when it is no array (C77)
-/
set_option autoImplicit false
namespace Cose

/-! ### Specification -/

/-- Nothing to iterate over: an empty byte string, text or map. -/
def Spec.EmptyField (v : Val) : Prop := v = .bytes [] ∨ v = .text [] ∨ v = .map []

/-- A map whose first label is this one. -/
def Spec.FieldLabel (v k : Val) : Prop := ∃ w d, v = .map ((k, w) :: d)

/-- A map whose first label is an empty string, text or array: the IndexError for its first element is swallowed. -/
def Spec.Swallowed (v : Val) : Prop := Spec.FieldLabel v (.bytes []) ∨ Spec.FieldLabel v (.text []) ∨ Spec.FieldLabel v (.arr [])

/-- A map whose first label is a non-empty array or map: not modelled. -/
def Spec.OddLabel (v : Val) : Prop :=
  (∃ x l, Spec.FieldLabel v (.arr (x :: l))) ∨ ∃ x l, Spec.FieldLabel v (.map (x :: l))

/-! ### Lemmas -/

theorem field_empty {C : Crypto} {allow : Bool} {ctx : Bytes} {v : Val} (h : Spec.EmptyField v) (rest : List Val) :
    recipientsOf C allow ctx (v :: rest) = .ok [] := by
  rcases h with rfl | rfl | rfl <;> simp [recipientsOf, pop0, iterRecipients, createRecipients, ok_bind]

theorem field_swallowed {C : Crypto} {allow : Bool} {ctx : Bytes} {v : Val} (h : Spec.Swallowed v) (rest : List Val) :
    recipientsOf C allow ctx (v :: rest) = .error .indexError := by
  rcases h with ⟨w, d, rfl⟩ | ⟨w, d, rfl⟩ | ⟨w, d, rfl⟩ <;> rfl

theorem field_keyError {C : Crypto} {allow : Bool} {ctx : Bytes} {v : Val} (h : Spec.FieldLabel v (.map [])) (rest : List Val) :
    recipientsOf C allow ctx (v :: rest) = .error .keyError := by
  obtain ⟨w, d, rfl⟩ := h
  rfl

theorem field_typeError {C : Crypto} {allow : Bool} {ctx : Bytes} {v : Val} (h0 : ∀ sg, v ≠ .arr sg) (h1 : ¬ Spec.EmptyField v)
    (h2 : ¬ Spec.Swallowed v) (h3 : ¬ Spec.FieldLabel v (.map [])) (h4 : ¬ Spec.OddLabel v) (rest : List Val) :
    recipientsOf C allow ctx (v :: rest) = .error .typeError := by
  cases v with
  | arr l => exact absurd rfl (h0 l)
  | bytes s => cases s with
    | nil => exact absurd (.inl rfl) h1
    | cons _ _ => rfl
  | text s => cases s with
    | nil => exact absurd (.inr (.inl rfl)) h1
    | cons _ _ => rfl
  | map d => cases d with
    | nil => exact absurd (.inr (.inr rfl)) h1
    | cons p d =>
      obtain ⟨k, w⟩ := p
      cases k with
      | bytes s => cases s with
        | nil => exact absurd (.inl ⟨w, d, rfl⟩) h2
        | cons _ _ => rfl
      | text s => cases s with
        | nil => exact absurd (.inr (.inl ⟨w, d, rfl⟩)) h2
        | cons _ _ => rfl
      | arr l => cases l with
        | nil => exact absurd (.inr (.inr ⟨w, d, rfl⟩)) h2
        | cons x l => exact absurd (.inl ⟨x, l, w, d, rfl⟩) h4
      | map l => cases l with
        | nil => exact absurd ⟨w, d, rfl⟩ h3
        | cons x l => exact absurd (.inr ⟨x, l, w, d, rfl⟩) h4
      | _ => rfl
  | _ => rfl

/-! ### Properties -/

/-- **C77**: what becomes of a COSE_Encrypt message that has something else than an array where the recipients are expected. -/
theorem c77_enc_recipient_field_exact {C : Crypto} {cls : DecCls} {allow : Bool} {bs : Bytes} {p u pl v : Val} {rest : List Val} {b : Base}
    (hl : loads bs = .ok (.tag 96 (.arr (p :: u :: pl :: v :: rest)))) (hc : cls = .any ∨ cls = .only .enc)
    (hb : Spec.HeadRead C allow p u pl b) (hv : ∀ sg, v ≠ .arr sg) (hn : ¬ Spec.OddLabel v) :
    (Spec.EmptyField v ∨ Spec.Swallowed v → decode C cls allow bs = .ok (.enc { base := b, recipients := [] })) ∧
    (Spec.FieldLabel v (.map []) → decode C cls allow bs = .error .keyError) ∧
    (¬ Spec.EmptyField v → ¬ Spec.Swallowed v → ¬ Spec.FieldLabel v (.map []) → decode C cls allow bs = .error .typeError) := by
  have bad : ∀ e, e.dropsRecipients = false → recipientsOf C allow b!"Enc_Recipient" (v :: rest) = .error e →
      decode C cls allow bs = .error e := by
    intro e he hr
    simp only [decode, hl, ok_bind, show tagKind 96 = some .enc from rfl, fromObj, Enc.fromObj, head_read hb, hr, he]
    simp
  refine ⟨fun h => decode_iff.mpr ⟨96, _, .enc, hl, rfl, ?_, by rcases hc with rfl | rfl <;> rfl, rfl⟩,
    fun h => bad _ rfl (field_keyError h rest), fun h1 h2 h3 => bad _ rfl (field_typeError hv h1 h2 h3 hn rest)⟩
  rcases h with h | h
  · simp only [fromObj, Enc.fromObj, head_read hb, ok_bind, field_empty h]
  · simp only [fromObj, Enc.fromObj, head_read hb, ok_bind, field_swallowed h]
    rfl

/-- **C77** for COSE_Mac: if the IndexError was swallowed, the message has no attribute for recipients. -/
theorem c77_mac_recipient_field_exact {C : Crypto} {cls : DecCls} {allow : Bool} {bs : Bytes} {p u pl t v : Val} {rest : List Val} {b : Base}
    (hl : loads bs = .ok (.tag 97 (.arr (p :: u :: pl :: t :: v :: rest)))) (hc : cls = .any ∨ cls = .only .mac)
    (hb : Spec.HeadRead C allow p u pl b) (hv : ∀ sg, v ≠ .arr sg) (hn : ¬ Spec.OddLabel v) :
    (Spec.EmptyField v → decode C cls allow bs = .ok (.mac { base := b, authTag := t, recipients := some [] })) ∧
    (Spec.Swallowed v → decode C cls allow bs = .ok (.mac { base := b, authTag := t, recipients := none })) ∧
    (Spec.FieldLabel v (.map []) → decode C cls allow bs = .error .keyError) ∧
    (¬ Spec.EmptyField v → ¬ Spec.Swallowed v → ¬ Spec.FieldLabel v (.map []) → decode C cls allow bs = .error .typeError) := by
  have bad : ∀ e, e.dropsRecipients = false → recipientsOf C allow b!"Mac_Recipient" (v :: rest) = .error e →
      decode C cls allow bs = .error e := by
    intro e he hr
    simp only [decode, hl, ok_bind, show tagKind 97 = some .mac from rfl, fromObj, Mac.fromObj, head_read hb, pop0, hr, he]
    simp
  refine ⟨fun h => decode_iff.mpr ⟨97, _, .mac, hl, rfl, ?_, by rcases hc with rfl | rfl <;> rfl, rfl⟩,
    fun h => decode_iff.mpr ⟨97, _, .mac, hl, rfl, ?_, by rcases hc with rfl | rfl <;> rfl, rfl⟩,
    fun h => bad _ rfl (field_keyError h rest), fun h1 h2 h3 => bad _ rfl (field_typeError hv h1 h2 h3 hn rest)⟩
  · simp only [fromObj, Mac.fromObj, head_read hb, ok_bind, pop0, field_empty h]
  · simp only [fromObj, Mac.fromObj, head_read hb, ok_bind, pop0, field_swallowed h]
    rfl

/-! ### Samples: `96([h'', {}, h'', v])` -/

example : Spec.HeadRead toy false (.bytes []) (.map []) (.bytes []) { phdrEnc := some [], payload := some [] } := by
  refine ⟨?_, ?_, rfl, rfl, rfl, rfl, rfl⟩
  · exact ((baseFromObj_iff (C := toy) (allow := false) (obj := [.bytes [], .map [], .bytes []]) (rest := [])).mp rfl).elim
      fun _ ⟨_, e, h, _⟩ => by simp at e; rw [e.1]; exact h
  · exact ((baseFromObj_iff (C := toy) (allow := false) (obj := [.bytes [], .map [], .bytes []])
      (b := { phdrEnc := some [], payload := some [] }) (rest := [])).mp rfl).elim
      fun _ ⟨_, e, _, h, _⟩ => by simp at e; rw [e.2.1]; exact h

/-- The message with the encoding `f` of the last field. -/
def Sample.encField (f : Bytes) : Res Msg := decode toy .any false ([0xd8, 96, 0x84, 0x40, 0xa0, 0x40] ++ f)

def Sample.noRecipients : Res Msg → Bool
  | .ok (.enc m) => m.recipients.isEmpty
  | _ => false

def Sample.refusedWith (e : PyErr) : Res Msg → Bool
  | .error e' => e' == e
  | _ => false

/-- `h''`, `{h'': 1}`, `{[]: 1}` -/
example : Sample.noRecipients (Sample.encField [0x40]) = true ∧ Sample.noRecipients (Sample.encField [0xa1, 0x40, 1]) = true ∧
    Sample.noRecipients (Sample.encField [0xa1, 0x80, 1]) = true := by decide +kernel

/-- `{{}: 1}`, `{1: 1}`, `h'00'`, `null` -/
example : Sample.refusedWith .keyError (Sample.encField [0xa1, 0xa0, 1]) = true ∧ Sample.refusedWith .typeError (Sample.encField [0xa1, 1, 1]) = true ∧
    Sample.refusedWith .typeError (Sample.encField [0x41, 0]) = true ∧ Sample.refusedWith .typeError (Sample.encField [0xf6]) = true := by
  decide +kernel

end Cose
