import Verif.WrapLemmas
/-!
# Lists of recipients
-/
set_option autoImplicit false
namespace Cose

theorem all2_length {α β : Type} {P : α → β → Prop} {l : List α} {l' : List β} (h : All2 P l l') : l'.length = l.length := by
  induction h with
  | nil => rfl
  | cons _ _ ih => simp [ih]

theorem all2_get {α β : Type} {P : α → β → Prop} {l : List α} {l' : List β} (h : All2 P l l') :
    ∀ {j : Nat} {a : α} {b : β}, l[j]? = some a → l'[j]? = some b → P a b := by
  induction h with
  | nil => intro j a b h; simp at h
  | cons h0 _ ih =>
    intro j a b h1 h2
    cases j with
    | zero => simp at h1 h2; subst h1 h2; exact h0
    | succ j => simp at h1 h2; exact ih h1 h2

theorem all2_map {α β γ : Type} {P : α → β → Prop} {l : List α} {l' : List β} (h : All2 P l l') {f : α → γ} {g : β → γ}
    (hfg : ∀ a b, P a b → g b = f a) : l'.map g = l.map f := by
  induction h with
  | nil => rfl
  | cons h0 _ ih => simp [ih, hfg _ _ h0]

theorem map_set_same {α β : Type} {f : α → β} {l : List α} {j : Nat} {a x : α} (h : l[j]? = some a) (hx : f x = f a) :
    (l.set j x).map f = l.map f := by
  induction l generalizing j with
  | nil => rfl
  | cons b t ih =>
    cases j with
    | zero => simp at h; subst h; simp [hx]
    | succ j => simp at h; simp [ih h]

theorem verifyRecipients_congr {rs rs' : List Rcpt} (h : rs'.map Rcpt.cls = rs.map Rcpt.cls) :
    verifyRecipients rs' = verifyRecipients rs := by
  have hl : rs'.length = rs.length := by simpa using congrArg List.length h
  simp only [verifyRecipients, h, hl]

theorem verifyRecipients_types {rs : List Rcpt} {ts : List RCls} (h : verifyRecipients rs = .ok ts) : ts = rs.map Rcpt.cls := by
  simp only [verifyRecipients] at h
  split at h
  · simp at h
  · split at h <;> simp at h
    exact h.symm

/-- Encoding and decoding a list of recipients, element by element. -/
theorem rcptsEncode_received {α : Type} {C : Crypto} {R : Rand} {tstr allow : Bool} {path : List Nat} {P : α → Rcpt → Prop} {xs : List α}
    {rs1 : List Rcpt}
    (h : All2 (fun a r1 => ∀ p v r2, rcptEncode C R p r1 = .ok (v, r2) → ∃ w, Sent (.base tstr) v w ∧
      ∀ ctx oid, ∃ r', createRecipient C allow ctx oid w = .ok r' ∧ r'.oid = oid ∧ P a r') xs rs1) :
    ∀ {i : Nat} {vs : List Val} {rs2 : List Rcpt}, rcptsEncode C R path i rs1 = .ok (vs, rs2) →
      ∃ ws, All2 (Sent (.base tstr)) vs ws ∧ ∀ ctx oid, ∃ rs', createRecipients C allow ctx oid ws = .ok rs' ∧ All2 P xs rs' := by
  induction h with
  | nil =>
    intro i vs rs2 h
    simp only [rcptsEncode] at h
    simp at h
    obtain ⟨rfl, rfl⟩ := h
    exact ⟨[], .nil, fun _ _ => ⟨[], rfl, .nil⟩⟩
  | cons h0 _ ih =>
    intro i vs rs2 h
    simp only [rcptsEncode, bind_eq_ok] at h
    obtain ⟨⟨v, r2⟩, h1, ⟨vs', t2⟩, h2, h3⟩ := h
    simp at h3
    obtain ⟨rfl, rfl⟩ := h3
    obtain ⟨w, hw, hc⟩ := h0 _ _ _ h1
    obtain ⟨ws, hws, hcs⟩ := ih h2
    refine ⟨w :: ws, .cons hw hws, ?_⟩
    intro ctx oid
    obtain ⟨r', g1, _, g3⟩ := hc ctx oid
    obtain ⟨rs', g4, g5⟩ := hcs ctx (oid + 1)
    exact ⟨r' :: rs', by simp only [createRecipients, g1, ok_bind, g4], .cons g3 g5⟩

/-- The loop that wraps the content key. -/
theorem wrapLoop_received {C : Crypto} (L : C.Laws) {R : Rand} {tstr allow : Bool} {cek : Bytes} {rs : List Rcpt} {uhs : List Dict}
    (h : All2 (fun r uh => Spec.WrapRecipient r ∧ Spec.Sendable C tstr allow r.base r.base.phdr uh) rs uhs) :
    ∀ {i : Nat} {kb : Option Bytes} {rs1 : List Rcpt}, wrapLoop C R i (some cek) rs = .ok (kb, rs1) →
      kb = some cek ∧ All2 (fun (a : Rcpt × Dict) r1 => ∀ p v r2, rcptEncode C R p r1 = .ok (v, r2) → ∃ w, Sent (.base tstr) v w ∧
      ∀ ctx oid, ∃ r', createRecipient C allow ctx oid w = .ok r' ∧ r'.oid = oid ∧ Spec.WrapReceived C a.2 cek a.1 r') (rs.zip uhs) rs1 := by
  induction h with
  | nil =>
    intro i kb rs1 h
    simp [wrapLoop] at h
    obtain ⟨rfl, rfl⟩ := h
    exact ⟨rfl, .nil⟩
  | cons h0 _ ih =>
    intro i kb rs1 h
    simp only [wrapLoop, h0.1.2.1, if_true, bind_eq_ok] at h
    obtain ⟨⟨c0, r1⟩, h1, ⟨kb', t⟩, h2, h3⟩ := h
    simp at h3
    obtain ⟨rfl, rfl⟩ := h3
    obtain ⟨e, hrest⟩ := ih h2
    refine ⟨e, .cons ?_ hrest⟩
    intro p v r2 h4
    exact wrap_received L h0.2 h0.1 h1 h4

/-- Decoding of a COSE_Encrypt message with recipients. -/
theorem enc_fromObj_rs {C : Crypto} {allow : Bool} {obj ws : List Val} {b : Base} {rs : List Rcpt}
    (h1 : baseFromObj C obj allow = .ok (b, [.arr ws])) (h2 : createRecipients C allow b!"Enc_Recipient" 0 ws = .ok rs) :
    Enc.fromObj C obj allow = .ok { base := b, recipients := rs } := by
  simp only [Enc.fromObj, h1, ok_bind]
  simp only [recipientsOf, pop0, ok_bind, iterRecipients, h2]

theorem mac_fromObj_rs {C : Crypto} {allow : Bool} {obj ws : List Val} {b : Base} {t : Val} {rs : List Rcpt}
    (h1 : baseFromObj C obj allow = .ok (b, [t, .arr ws])) (h2 : createRecipients C allow b!"Mac_Recipient" 0 ws = .ok rs) :
    Mac.fromObj C obj allow = .ok { base := b, authTag := t, recipients := some rs } := by
  simp only [Mac.fromObj, h1, ok_bind, pop0]
  simp only [recipientsOf, pop0, ok_bind, iterRecipients, h2]

end Cose
