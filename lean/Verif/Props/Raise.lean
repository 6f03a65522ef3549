import Verif.RaiseLemmas
import Verif.Props.Independent
import Verif.Props.Effects
/-!
# What a call that raises leaves behind (C80)
-/
set_option autoImplicit false
namespace Cose
open Eff

/-- What an attempt to encrypt may do to the attributes of a recipient: nothing, if it has a key; otherwise it may get a new key, which is
announced in its unprotected header if no header has announced one before. -/
inductive Spec.Tried : Base → Base → Prop
  | same (b : Base) : Spec.Tried b b
  | announced {b : Base} (k : Key) : b.key = none → b.getAttr Hdr.EphemeralKey = .ok .none →
      Spec.Tried b { b with key := some k, uhdr := dupdate b.uhdr [(.cls Hdr.EphemeralKey, .map (ddel k.store (.cls Ec2D)))] }
  | unannounced {b : Base} (k : Key) : b.key = none → b.getAttr Hdr.EphemeralKey ≠ .ok .none → Spec.Tried b { b with key := some k }

mutual
/-- The same for a recipient with its recipients; class, context and identity stay. -/
inductive Spec.TriedR : Rcpt → Rcpt → Prop
  | mk {c : RCls} {b b' : Base} {x : Bytes} {o : Nat} {rs rs' : List Rcpt} :
      Spec.Tried b b' → Spec.TriedL rs rs' → Spec.TriedR (.mk c b x o rs) (.mk c b' x o rs')
inductive Spec.TriedL : List Rcpt → List Rcpt → Prop
  | nil : Spec.TriedL [] []
  | cons {r r' : Rcpt} {t t' : List Rcpt} : Spec.TriedR r r' → Spec.TriedL t t' → Spec.TriedL (r :: t) (r' :: t')
end

/-- The recipients of a message: those without content key may have been given one, and keys may have been generated. -/
def Spec.AttemptedL (rs rs' : List Rcpt) : Prop := ∃ rs1, All2 Spec.Filled rs rs1 ∧ Spec.TriedL rs1 rs'

theorem tried_trans {a b c : Base} (h : Spec.Tried a b) (g : Spec.Tried b c) : Spec.Tried a c := by
  cases h with
  | same => exact g
  | announced k h1 h2 =>
    cases g with
    | same => exact .announced k h1 h2
    | announced k' h3 => simp at h3
    | unannounced k' h3 => simp at h3
  | unannounced k h1 h2 =>
    cases g with
    | same => exact .unannounced k h1 h2
    | announced k' h3 => simp at h3
    | unannounced k' h3 => simp at h3

mutual
theorem triedR_refl : ∀ r : Rcpt, Spec.TriedR r r
  | .mk _ b _ _ rs => .mk (.same b) (triedL_refl rs)
theorem triedL_refl : ∀ rs : List Rcpt, Spec.TriedL rs rs
  | [] => .nil
  | r :: t => .cons (triedR_refl r) (triedL_refl t)
end

mutual
theorem triedR_trans : ∀ (r : Rcpt) {s t : Rcpt}, Spec.TriedR r s → Spec.TriedR s t → Spec.TriedR r t
  | .mk _ _ _ _ rs, _, _, h, g => by
    cases h with
    | mk h1 h2 =>
      cases g with
      | mk g1 g2 => exact .mk (tried_trans h1 g1) (triedL_trans rs h2 g2)
theorem triedL_trans : ∀ (r : List Rcpt) {s t : List Rcpt}, Spec.TriedL r s → Spec.TriedL s t → Spec.TriedL r t
  | [], _, _, h, g => by cases h; exact g
  | r :: t, _, _, h, g => by
    cases h with
    | cons h1 h2 =>
      cases g with
      | cons g1 g2 => exact .cons (triedR_trans r h1 g1) (triedL_trans t h2 g2)
end

theorem setup_tried {C : Crypto} {d : Nat} {peer : Val} {b : Base} (hk : b.key = none) : Spec.Tried b ((setupEphemeralE C d peer).run b).2 := by
  unfold setupEphemeralE
  rw [expr_bind]; split
  rotate_left
  · exact .same b
  rw [expr_bind]; split
  rotate_left
  · exact .same b
  rw [expr_bind]; split
  rotate_left
  · exact .same b
  rename_i k hg
  rw [assignKey, assign_bind]
  have e : Base.getAttr { b with key := some k } Hdr.EphemeralKey = b.getAttr Hdr.EphemeralKey := rfl
  rw [expr_bind]; simp only [e]; split
  rotate_left
  · rename_i he
    exact .unannounced k hk (by rw [he]; simp)
  rename_i v he
  split
  · rename_i hv
    exact .unannounced k hk (by rw [he]; simpa using hv)
  rename_i hv
  have hv : v = .none := Classical.byContradiction hv
  subst hv
  split
  · rename_i hd
    obtain ⟨c, x, y, bx, bY, bd, _, _, _, _, _, _, _, _, rfl⟩ := ec2Generate_ok hg
    revert hd
    have e : dget (ec2Pub c bx bY ++ [(Val.cls Ec2D, Val.bytes bd)]) (Val.cls Ec2D) = some (.bytes bd) := rfl
    simp [dhas, e]
  · exact .announced k hk he

theorem kakwE_tried {C : Crypto} {d : Nat} {b : Base} : Spec.Tried b ((kakwEncryptE C d).run b).2 := by
  unfold kakwEncryptE
  rw [expr_bind]; simp only
  split
  · exact .same b
  rw [expr_bind]; split
  rotate_left
  · exact .same b
  split
  · exact .same b
  rw [expr_bind]; simp only
  split
  · rename_i hk
    rw [expr_bind]; split
    rotate_left
    · exact .same b
    rename_i es _
    cases es with
    | false => exact .same b
    | true =>
      simp only [if_true]
      rw [eff_bind]
      have := setup_tried (C := C) (d := d) (peer := getD b.localAttrs Hdr.StaticKey Val.none) hk
      split
      · rename_i h; rw [h] at this; exact this
      · rename_i h; rw [h] at this; exact this
  · exact .same b

theorem rcptEncryptE_tried {C : Crypto} {R : Rand} {ph : Nat} {path : List Nat} {r : Rcpt} :
    Spec.TriedR r ((rcptEncryptE C R ph path).run r).2 := by
  unfold rcptEncryptE
  rw [self_bind]
  split
  · exact triedR_refl r
  · obtain ⟨c, b, x, o, rs⟩ := r
    exact .mk kakwE_tried (triedL_refl rs)
  · exact triedR_refl r

theorem headE_tried {C : Crypto} {R : Rand} {path : List Nat} {c : RCls} {b : Base} {rs : List Rcpt} :
    Spec.Tried b ((rcptHeadE C R path c rs).run b).2 := by
  cases c <;> simp only [rcptHeadE]
  · exact .same b
  · exact .same b
  · rw [expr_bind]; split
    rotate_left
    · exact .same b
    split
    · exact .same b
    rw [expr_bind]; simp only
    split
    · exact .same b
    rw [expr_bind]; simp only
    split
    · rename_i hk
      rw [expr_bind]; split
      rotate_left
      · exact .same b
      rename_i es _
      cases es with
      | false => exact .same b
      | true =>
        simp only [if_true]
        rw [eff_bind]
        have := setup_tried (C := C) (d := R.eph path) (peer := getD b.localAttrs Hdr.StaticKey Val.none) hk
        split
        · rename_i h; rw [h] at this; exact this
        · rename_i h; rw [h] at this; exact this
    · exact .same b
  · rw [expr_bind]; split
    rotate_left
    · exact .same b
    rw [expr_bind]; split
    rotate_left
    · exact .same b
    rw [expr_bind]; split
    rotate_left
    · exact .same b
    rw [eff_bind]
    have := kakwE_tried (C := C) (d := R.eph path) (b := b)
    split
    · rename_i h; rw [h] at this; exact this
    · rename_i h; rw [h] at this; exact this

mutual
theorem encodeE_tried {C : Crypto} {R : Rand} : ∀ (r : Rcpt) {path : List Nat}, Spec.TriedR r (rcptEncodeE C R path r).2
  | .mk c b x o rs, path => by
    have hh := headE_tried (C := C) (R := R) (path := path) (c := c) (b := b) (rs := rs)
    have ih := encodesE_tried (C := C) (R := R) rs (path := path) (i := 0)
    simp only [rcptEncodeE]
    split
    · rename_i h; rw [h] at hh; exact .mk hh (triedL_refl rs)
    · rename_i h; rw [h] at hh
      split
      · exact .mk hh (triedL_refl rs)
      · split
        · rename_i h; rw [h] at ih; exact .mk hh ih
        · rename_i h; rw [h] at ih; exact .mk hh ih
theorem encodesE_tried {C : Crypto} {R : Rand} : ∀ (rs : List Rcpt) {path : List Nat} {i : Nat}, Spec.TriedL rs (rcptsEncodeE C R path i rs).2
  | [], path, i => .nil
  | r :: t, path, i => by
    have hh := encodeE_tried (C := C) (R := R) r (path := path ++ [i])
    have ih := encodesE_tried (C := C) (R := R) t (path := path) (i := i + 1)
    simp only [rcptsEncodeE]
    split
    · rename_i h; rw [h] at hh; exact .cons hh (triedL_refl t)
    · rename_i h; rw [h] at hh
      split
      · rename_i h; rw [h] at ih; exact .cons hh ih
      · rename_i h; rw [h] at ih; exact .cons hh ih
end

theorem giveKey_filled {key : Option Bytes} {r : Rcpt} : Spec.Filled r (giveKey key r).2 := by
  unfold giveKey
  split
  · rename_i h; exact .inr ⟨key, h, rfl⟩
  · exact .inl rfl

theorem filled_refl_all : ∀ rs : List Rcpt, All2 Spec.Filled rs rs
  | [] => .nil
  | _ :: t => .cons (.inl rfl) (filled_refl_all t)

theorem attemptedL_refl (rs : List Rcpt) : Spec.AttemptedL rs rs := ⟨rs, filled_refl_all rs, triedL_refl rs⟩

theorem wrapLoopE_attempted {C : Crypto} {R : Rand} : ∀ (rs : List Rcpt) {i : Nat} {key : Option Bytes},
    Spec.AttemptedL rs (wrapLoopE C R i key rs).2
  | [], i, key => ⟨[], .nil, .nil⟩
  | r :: t, i, key => by
    have hh := rcptEncryptE_tried (C := C) (R := R) (ph := 0) (path := [i]) (r := (giveKey key r).2)
    obtain ⟨t1, g1, g2⟩ := wrapLoopE_attempted (C := C) (R := R) t (i := i + 1) (key := (giveKey key r).1)
    simp only [wrapLoopE]
    split
    · rename_i h; rw [h] at hh
      exact ⟨_, .cons giveKey_filled (filled_refl_all t), .cons hh (triedL_refl t)⟩
    · rename_i h; rw [h] at hh
      exact ⟨_, .cons giveKey_filled g1, .cons hh g2⟩

/-! ### COSE_Encrypt -/

/-- Before and after a call on a COSE_Encrypt message. -/
structure Spec.EncAttempt (m m' : Enc) : Prop where
  base : ∃ k, m'.base = { m.base with key := k }
  recipients : Spec.AttemptedL m.recipients m'.recipients

theorem encryptE_attempt {C : Crypto} {R : Rand} {m : Enc} : Spec.EncAttempt m ((Enc.encryptE C R).run m).2 := by
  have same : Spec.EncAttempt m m := ⟨⟨m.base.key, rfl⟩, attemptedL_refl _⟩
  unfold Enc.encryptE
  rw [expr_bind]; split
  rotate_left
  · exact same
  rw [expr_bind]; split
  rotate_left
  · exact same
  split
  · exact same
  split
  · rw [expr_bind]; split
    rotate_left
    · exact same
    exact ⟨⟨_, rfl⟩, attemptedL_refl _⟩
  split
  · rw [expr_bind]; split
    rotate_left
    · exact same
    rename_i n _
    rw [eff_bind, call_run]
    have := wrapLoopE_attempted (C := C) (R := R) m.recipients (i := 0) (key := some (R.cek n))
    split
    rotate_left
    · rename_i h; simp only [Prod.mk.injEq] at h; rw [← h.2]; exact ⟨⟨m.base.key, rfl⟩, this⟩
    rename_i kb m1 h
    simp only [Prod.mk.injEq] at h
    rw [← h.2]
    rw [expr_bind]; split
    rotate_left
    · exact ⟨⟨m.base.key, rfl⟩, this⟩
    exact ⟨⟨_, rfl⟩, this⟩
  · exact same

theorem triedL_attempted {rs rs' : List Rcpt} (h : Spec.TriedL rs rs') : Spec.AttemptedL rs rs' := ⟨rs, filled_refl_all rs, h⟩

theorem finishE_attempt {C : Crypto} {R : Rand} {tag : Bool} {l : List Val} {m : Enc} :
    ((Enc.finishE C R tag l).run m).2.base = m.base ∧ Spec.TriedL m.recipients ((Enc.finishE C R tag l).run m).2.recipients := by
  unfold Enc.finishE
  rw [self_bind]
  split
  · exact ⟨rfl, triedL_refl _⟩
  rw [expr_bind]; split
  rotate_left
  · exact ⟨rfl, triedL_refl _⟩
  rw [eff_bind, call_run]
  have := encodesE_tried (C := C) (R := R) m.recipients (path := []) (i := 0)
  split
  · rename_i h; simp only [Prod.mk.injEq] at h; rw [← h.2]; exact ⟨rfl, this⟩
  · rename_i h; simp only [Prod.mk.injEq] at h; rw [← h.2]; exact ⟨rfl, this⟩

/-- C80: whatever `encrypt` does on a COSE_Encrypt message, raise or return … -/
theorem c80_enc_encrypt {C : Crypto} {R : Rand} {m : Enc} : Spec.EncAttempt m ((Enc.encryptE C R).run m).2 := encryptE_attempt

/-- … and whatever `encode` does: only the key of the message, the empty content keys of recipients and the keys of recipients without key
can have changed. -/
theorem c80_enc_encode {C : Crypto} {R : Rand} {tag e : Bool} {m : Enc} : Spec.EncAttempt m ((Enc.encodeE C R tag e).run m).2 := by
  have same : Spec.EncAttempt m m := ⟨⟨m.base.key, rfl⟩, attemptedL_refl _⟩
  unfold Enc.encodeE
  rw [expr_bind]; split
  rotate_left
  · exact same
  rw [expr_bind]; simp only
  cases e with
  | false =>
    simp only [Bool.false_eq_true, if_false]
    rw [expr_bind]; simp only
    obtain ⟨h1, h2⟩ := finishE_attempt (C := C) (R := R) (tag := tag) (l := _) (m := m)
    exact ⟨⟨m.base.key, h1⟩, triedL_attempted h2⟩
  | true =>
    simp only [if_true]
    rw [eff_bind]
    have := encryptE_attempt (C := C) (R := R) (m := m)
    split
    rotate_left
    · rename_i h; rw [h] at this; exact this
    rename_i m1 h
    rw [h] at this
    obtain ⟨⟨k, hk⟩, rs1, g1, g2⟩ := this
    obtain ⟨h1, h2⟩ := finishE_attempt (C := C) (R := R) (tag := tag) (l := _) (m := m1)
    exact ⟨⟨k, h1.trans hk⟩, rs1, g1, triedL_trans _ g2 h2⟩

/-! ### COSE_Mac and COSE_Mac0 -/

/-- Before and after a call on a COSE_Mac message; a new tag is the tag of the message. -/
structure Spec.MacAttempt (C : Crypto) (m m' : Mac) : Prop where
  base : ∃ k, m'.base = { m.base with key := k }
  recipients : (m.recipients = none ∧ m'.recipients = none) ∨
    ∃ rs rs', m.recipients = some rs ∧ m'.recipients = some rs' ∧ Spec.AttemptedL rs rs'
  tag : m'.authTag = m.authTag ∨ ∃ t, m'.authTag = .bytes t ∧ macCompute C b!"MAC" m'.base = .ok t

theorem macAttempt_refl {C : Crypto} (m : Mac) : Spec.MacAttempt C m m := by
  refine ⟨⟨m.base.key, rfl⟩, ?_, .inl rfl⟩
  cases h : m.recipients with
  | none => exact .inl ⟨rfl, rfl⟩
  | some rs => exact .inr ⟨rs, rs, rfl, rfl, attemptedL_refl rs⟩

theorem macTagE_attempt {C : Crypto} {m m1 : Mac} (h0 : Spec.MacAttempt C m m1) : Spec.MacAttempt C m ((Mac.tagE C).run m1).2 := by
  unfold Mac.tagE
  rw [expr_bind]; split
  rotate_left
  · exact h0
  rename_i t ht
  exact ⟨h0.base, h0.recipients, .inr ⟨t, rfl, ht⟩⟩

theorem computeTagE_attempt {C : Crypto} {R : Rand} {m : Mac} : Spec.MacAttempt C m ((Mac.computeTagE C R).run m).2 := by
  have same := macAttempt_refl (C := C) m
  unfold Mac.computeTagE
  rw [expr_bind]; split
  rotate_left
  · exact same
  cases hr : m.recipients with
  | none => rw [expr_bind]; simp only [hr]; exact same
  | some rs =>
    rw [expr_bind]; simp only [hr]
    rw [expr_bind]; split
    rotate_left
    · exact same
    split
    · exact macTagE_attempt same
    split
    · rw [expr_bind]; split
      rotate_left
      · exact same
      refine macTagE_attempt ⟨⟨_, rfl⟩, ?_, .inl rfl⟩
      rw [hr]
      exact .inr ⟨rs, rs, rfl, rfl, attemptedL_refl rs⟩
    split
    · rw [expr_bind]; split
      rotate_left
      · exact same
      rename_i n _
      rw [eff_bind, call_run]
      have := wrapLoopE_attempted (C := C) (R := R) rs (i := 0) (key := some (R.cek n))
      split
      · rename_i h; simp only [Prod.mk.injEq] at h; rw [← h.2]
        exact ⟨⟨m.base.key, rfl⟩, .inr ⟨rs, _, hr, rfl, this⟩, .inl rfl⟩
      · rename_i h; simp only [Prod.mk.injEq] at h; rw [← h.2]
        exact ⟨⟨m.base.key, rfl⟩, .inr ⟨rs, _, hr, rfl, this⟩, .inl rfl⟩
    · exact same

theorem macFinishE_attempt {C : Crypto} {R : Rand} {tag : Bool} {l : List Val} {m m1 : Mac} (h0 : Spec.MacAttempt C m m1) :
    Spec.MacAttempt C m ((Mac.finishE C R tag l).run m1).2 := by
  unfold Mac.finishE
  rw [self_bind]
  split
  · exact h0
  · exact h0
  rename_i r t hr
  rw [expr_bind]; split
  rotate_left
  · exact h0
  rw [eff_bind, call_run]
  have this := encodesE_tried (C := C) (R := R) (r :: t) (path := []) (i := 0)
  obtain ⟨hb, hrs, ht⟩ := h0
  rcases hrs with ⟨_, h⟩ | ⟨rs, rs', e1, e2, rs1, g1, g2⟩
  · rw [h] at hr; simp at hr
  rw [hr] at e2
  obtain rfl := Option.some.inj e2
  split
  · rename_i h; simp only [Prod.mk.injEq] at h; rw [← h.2]
    exact ⟨hb, .inr ⟨rs, _, e1, rfl, rs1, g1, triedL_trans _ g2 this⟩, ht⟩
  · rename_i h; simp only [Prod.mk.injEq] at h; rw [← h.2]
    exact ⟨hb, .inr ⟨rs, _, e1, rfl, rs1, g1, triedL_trans _ g2 this⟩, ht⟩

/-- C80: whatever `encode` does on a COSE_Mac message, raise or return: besides keys only the tag can have changed, and if it has, it is the
tag of the message. -/
theorem c80_mac_encode {C : Crypto} {R : Rand} {tag e : Bool} {m : Mac} : Spec.MacAttempt C m ((Mac.encodeE C R tag e).run m).2 := by
  have same := macAttempt_refl (C := C) m
  unfold Mac.encodeE
  rw [expr_bind]; split
  rotate_left
  · exact same
  rw [expr_bind]; simp only
  rw [expr_bind]; simp only
  cases e with
  | false =>
    simp only [Bool.false_eq_true, if_false]
    exact macFinishE_attempt same
  | true =>
    simp only [if_true]
    rw [eff_bind]
    have := computeTagE_attempt (C := C) (R := R) (m := m)
    split
    rotate_left
    · rename_i h; rw [h] at this; exact this
    rename_i h
    rw [h] at this
    exact macFinishE_attempt this

/-- C80: the same for COSE_Mac0. -/
theorem c80_mac0_encode {C : Crypto} {tag e : Bool} {m : Mac0} :
    ((Mac0.encodeE C tag e).run m).2.base = m.base ∧
    (((Mac0.encodeE C tag e).run m).2.authTag = m.authTag ∨
      ∃ t, ((Mac0.encodeE C tag e).run m).2.authTag = .bytes t ∧ m.computeTag C = .ok t) := by
  unfold Mac0.encodeE
  rw [expr_bind]; split
  rotate_left
  · exact ⟨rfl, .inl rfl⟩
  cases e with
  | false => exact ⟨rfl, .inl rfl⟩
  | true =>
    simp only [if_true]
    rw [expr_bind]; split
    rotate_left
    · exact ⟨rfl, .inl rfl⟩
    rename_i t ht
    exact ⟨rfl, .inr ⟨t, rfl, ht⟩⟩

/-! ### Payloads and classes -/

theorem triedR_payload {r r' : Rcpt} (h : Spec.TriedR r r') : r'.cls = r.cls ∧ r'.base.payload = r.base.payload := by
  cases h with
  | mk h1 _ =>
    refine ⟨rfl, ?_⟩
    cases h1 <;> rfl

theorem triedL_payloads : ∀ (rs : List Rcpt) {rs' : List Rcpt}, Spec.TriedL rs rs' →
    rs'.map Rcpt.cls = rs.map Rcpt.cls ∧ rs'.map (·.base.payload) = rs.map (·.base.payload)
  | [], _, h => by cases h; exact ⟨rfl, rfl⟩
  | r :: t, _, h => by
    cases h with
    | cons h1 h2 =>
      obtain ⟨e1, e2⟩ := triedL_payloads t h2
      obtain ⟨f1, f2⟩ := triedR_payload h1
      simp [e1, f1, f2] at e2 ⊢
      exact e2

theorem filled_cls : ∀ {rs rs' : List Rcpt}, All2 Spec.Filled rs rs' → rs'.map Rcpt.cls = rs.map Rcpt.cls
  | _, _, .nil => rfl
  | _, _, .cons h t => by
    have := filled_cls t
    rcases h with rfl | ⟨k, _, rfl⟩
    · simp [this]
    · rename_i r _ _ _
      obtain ⟨c, b, x, o, rs⟩ := r
      simp [this, Rcpt.withBase, Rcpt.cls]

theorem attempted_cls {rs rs' : List Rcpt} (h : Spec.AttemptedL rs rs') : rs'.map Rcpt.cls = rs.map Rcpt.cls := by
  obtain ⟨rs1, h1, h2⟩ := h
  rw [(triedL_payloads _ h2).1, filled_cls h1]

/-! ### Decryption -/

/-- The message after a sequence of attempts to decrypt it, whether they succeeded or not. -/
def Spec.afterDecrypts (C : Crypto) (m : Enc) (rs : List Rcpt) : Enc := rs.foldl (fun m r => ((Enc.decryptE C r).run m).2) m

/-- Messages that differ at most in the key, and not even in that if it is the one to be used. -/
def KeyOnly (m m' : Enc) : Prop :=
  m'.recipients = m.recipients ∧ (∃ k, m'.base = { m.base with key := k }) ∧ ((m.recipients.map Rcpt.cls).contains .directEncryption = true → m' = m)

theorem keyOnly_trans {a b c : Enc} (h : KeyOnly a b) (g : KeyOnly b c) : KeyOnly a c := by
  obtain ⟨h1, ⟨k, h2⟩, h3⟩ := h
  obtain ⟨g1, ⟨q, g2⟩, g3⟩ := g
  refine ⟨g1.trans h1, ⟨q, by rw [g2, h2]⟩, fun hc => ?_⟩
  rw [g3 (by rw [h1]; exact hc), h3 hc]

theorem keyOnly_refl (m : Enc) : KeyOnly m m := ⟨rfl, ⟨m.base.key, rfl⟩, fun _ => rfl⟩

theorem decryptE_keyOnly {C : Crypto} {r : Rcpt} {m : Enc} : KeyOnly m ((Enc.decryptE C r).run m).2 := by
  have same := keyOnly_refl m
  unfold Enc.decryptE
  rw [expr_bind]; split
  rotate_left
  · exact same
  rw [self_bind]
  split
  · exact same
  rw [expr_bind]; split
  rotate_left
  · exact same
  rename_i types ht
  obtain ⟨rfl, _⟩ := verifyRecipients_iff.mp ht
  split
  · exact same
  rename_i hd
  split
  · rw [expr_bind]; split
    rotate_left
    · exact same
    rename_i k _
    exact ⟨rfl, ⟨some k, rfl⟩, fun hc => absurd hc hd⟩
  · exact same

theorem afterDecrypts_keyOnly {C : Crypto} : ∀ (rs : List Rcpt) {m : Enc}, KeyOnly m (Spec.afterDecrypts C m rs)
  | [], m => keyOnly_refl m
  | _ :: t, _ => keyOnly_trans decryptE_keyOnly (afterDecrypts_keyOnly t)

theorem decryptE_result {C : Crypto} {r : Rcpt} {m m' : Enc} (h : KeyOnly m m') :
    ((Enc.decryptE C r).run m').1 = ((Enc.decryptE C r).run m).1 := by
  obtain ⟨b, rs⟩ := m
  obtain ⟨b', rs'⟩ := m'
  obtain ⟨h1, ⟨k, h2⟩, h3⟩ := h
  simp only at h1 h2 h3
  subst h1 h2
  unfold Enc.decryptE
  have e : Base.getAttr { b with key := k } Hdr.Algorithm = b.getAttr Hdr.Algorithm := rfl
  rw [expr_bind, expr_bind]; simp only [e]; split
  rotate_left
  · rfl
  rw [self_bind, self_bind]; simp only
  split
  · rfl
  rw [expr_bind, expr_bind]; simp only; split
  rotate_left
  · rfl
  rename_i types ht
  obtain ⟨rfl, _⟩ := verifyRecipients_iff.mp ht
  split
  · rename_i hc; rw [h3 hc]
  split
  · rw [expr_bind, expr_bind]; split
    · rfl
    · rfl
  · rfl

/-- C80: attempts to decrypt, whether they succeed or raise, do not change what later calls return: neither the result of decrypting … -/
theorem c80_decrypt {C : Crypto} {m : Enc} (rs : List Rcpt) (r : Rcpt) :
    ((Enc.decryptE C r).run (Spec.afterDecrypts C m rs)).1 = ((Enc.decryptE C r).run m).1 := decryptE_result (afterDecrypts_keyOnly rs)

/-- … nor the recipients, nor anything of the message but its key, and not even that if the key was given by the application. -/
theorem c80_decrypt_kept {C : Crypto} {m : Enc} (rs : List Rcpt) :
    (Spec.afterDecrypts C m rs).recipients = m.recipients ∧ (∃ k, (Spec.afterDecrypts C m rs).base = { m.base with key := k }) ∧
    ((∃ r ∈ m.recipients, r.cls = .directEncryption) → Spec.afterDecrypts C m rs = m) := by
  obtain ⟨h1, h2, h3⟩ := afterDecrypts_keyOnly (C := C) rs (m := m)
  refine ⟨h1, h2, fun ⟨r, hr, hc⟩ => h3 ?_⟩
  simp only [List.contains_iff_mem, List.mem_map]
  exact ⟨r, hr, hc⟩

theorem encryptE_result {C : Crypto} {R : Rand} {m m' : Enc} (h : KeyOnly m m') :
    ((Enc.encryptE C R).run m').1 = ((Enc.encryptE C R).run m).1 ∧ KeyOnly ((Enc.encryptE C R).run m).2 ((Enc.encryptE C R).run m').2 := by
  obtain ⟨b, rs⟩ := m
  obtain ⟨b', rs'⟩ := m'
  have hk := h
  obtain ⟨h1, ⟨k, h2⟩, h3⟩ := h
  simp only at h1 h2 h3
  subst h1 h2
  unfold Enc.encryptE
  have e : Base.getAttr { b with key := k } Hdr.Algorithm = b.getAttr Hdr.Algorithm := rfl
  rw [expr_bind, expr_bind]; simp only [e]; split
  rotate_left
  · exact ⟨rfl, hk⟩
  rw [expr_bind, expr_bind]; simp only; split
  rotate_left
  · exact ⟨rfl, hk⟩
  rename_i types ht
  obtain ⟨rfl, _⟩ := verifyRecipients_iff.mp ht
  split
  · rename_i hc; rw [h3 hc]; exact ⟨rfl, keyOnly_refl _⟩
  rename_i hd
  split
  · rw [expr_bind, expr_bind]; simp only; split
    · exact ⟨rfl, keyOnly_refl _⟩
    · exact ⟨rfl, hk⟩
  split
  · rw [expr_bind, expr_bind]; split
    rotate_left
    · exact ⟨rfl, hk⟩
    rename_i n _
    rw [eff_bind, eff_bind, call_run, call_run]
    have hcls := attempted_cls (wrapLoopE_attempted (C := C) (R := R) rs' (i := 0) (key := some (R.cek n)))
    simp only
    generalize wrapLoopE C R 0 (some (R.cek n)) rs' = x at hcls ⊢
    obtain ⟨x1, rs1⟩ := x
    have hk1 : KeyOnly { base := b, recipients := rs1 } { base := { b with key := k }, recipients := rs1 } :=
      ⟨rfl, ⟨k, rfl⟩, fun hc => absurd (by simpa [hcls] using hc) hd⟩
    cases x1 with
    | error e => exact ⟨rfl, hk1⟩
    | ok kb =>
      simp only
      rw [expr_bind, expr_bind]; split
      · exact ⟨rfl, keyOnly_refl _⟩
      · exact ⟨rfl, hk1⟩
  · exact ⟨rfl, hk⟩

theorem finishE_result {C : Crypto} {R : Rand} {tag : Bool} {l : List Val} {m m' : Enc} (h : KeyOnly m m') :
    ((Enc.finishE C R tag l).run m').1 = ((Enc.finishE C R tag l).run m).1 := by
  obtain ⟨b, rs⟩ := m
  obtain ⟨b', rs'⟩ := m'
  obtain ⟨h1, ⟨k, h2⟩, _⟩ := h
  simp only at h1 h2
  subst h1 h2
  unfold Enc.finishE
  have e : Base.getAttr { b with key := k } Hdr.Algorithm = b.getAttr Hdr.Algorithm := rfl
  rw [self_bind, self_bind]
  simp only
  split
  · rfl
  rw [expr_bind, expr_bind]; simp only [e]; split
  rotate_left
  · rfl
  rw [eff_bind, eff_bind, call_run, call_run]
  simp only
  generalize rcptsEncodeE C R [] 0 rs' = x
  obtain ⟨x1, rs1⟩ := x
  cases x1 <;> rfl

/-- C80: … nor the result of encoding the message … -/
theorem c80_decrypt_encode {C : Crypto} {R : Rand} {m : Enc} {tag e : Bool} (rs : List Rcpt) :
    ((Enc.encodeE C R tag e).run (Spec.afterDecrypts C m rs)).1 = ((Enc.encodeE C R tag e).run m).1 := by
  have h := afterDecrypts_keyOnly (C := C) rs (m := m)
  generalize Spec.afterDecrypts C m rs = m' at h ⊢
  have hk := h
  obtain ⟨h1, ⟨k, h2⟩, h3⟩ := h
  have e1 : m'.base.phdrEncoded = m.base.phdrEncoded := by rw [h2]; rfl
  have e2 : m'.base.uhdr = m.base.uhdr := by rw [h2]
  have e3 : m'.base.payload = m.base.payload := by rw [h2]
  unfold Enc.encodeE
  rw [expr_bind, expr_bind]; simp only [e1]; split
  rotate_left
  · rfl
  rw [expr_bind, expr_bind]; simp only [e2]
  cases e with
  | false =>
    simp only [Bool.false_eq_true, if_false]
    rw [expr_bind, expr_bind]; simp only [e3]
    exact finishE_result hk
  | true =>
    simp only [if_true]
    obtain ⟨g1, g2⟩ := encryptE_result (C := C) (R := R) hk
    rw [eff_bind, eff_bind]
    generalize (Enc.encryptE C R).run m = x at g1 g2 ⊢
    generalize (Enc.encryptE C R).run m' = y at g1 g2 ⊢
    obtain ⟨x1, x2⟩ := x
    obtain ⟨y1, y2⟩ := y
    simp only at g1 g2
    subst g1
    cases y1 with
    | error e => rfl
    | ok c => exact finishE_result g2

/-! ### One content key, also after failures -/

theorem onePreset_congr {rs rs' : List Rcpt} (e : rs'.map (·.base.payload) = rs.map (·.base.payload)) (h : Spec.OnePreset rs) : Spec.OnePreset rs' := by
  have all : ∀ {rs rs' : List Rcpt} {P : Option Bytes → Prop}, rs'.map (·.base.payload) = rs.map (·.base.payload) →
      (∀ r ∈ rs, P r.base.payload) → ∀ r ∈ rs', P r.base.payload := by
    intro rs rs' P e h r hr
    have : r.base.payload ∈ rs'.map (·.base.payload) := List.mem_map.mpr ⟨r, hr, rfl⟩
    rw [e] at this
    obtain ⟨s, hs, he⟩ := List.mem_map.mp this
    rw [← he]; exact h s hs
  rcases h with h | ⟨p, r, t, rfl, hr, hp, ht⟩
  · exact .inl (all (P := fun x => x = some []) e h)
  · cases rs' with
    | nil => simp at e
    | cons r' t' =>
      simp only [List.map_cons, List.cons.injEq] at e
      exact .inr ⟨p, r', t', rfl, e.1.trans hr, hp, all (P := fun x => x = some [] ∨ x = some p) e.2 ht⟩

theorem wrapLoopE_uniform {C : Crypto} {R : Rand} {q : Bytes} : ∀ (rs : List Rcpt) {i : Nat},
    (∀ r ∈ rs, r.base.payload = some [] ∨ r.base.payload = some q) →
    ∀ r ∈ (wrapLoopE C R i (some q) rs).2, r.base.payload = some [] ∨ r.base.payload = some q
  | [], i, _ => by simp [wrapLoopE]
  | r :: t, i, h => by
    have hr := h r (by simp)
    have ht := fun s hs => h s (List.mem_cons_of_mem _ hs)
    have hg : (giveKey (some q) r).1 = some q ∧ (giveKey (some q) r).2.base.payload = some q := by
      unfold giveKey
      obtain ⟨c, b, x, o, rs⟩ := r
      simp only [Rcpt.base] at hr
      by_cases e : b.payload = some []
      · simp [Rcpt.base, e, Rcpt.withBase]
      · rcases hr with hr | hr
        · exact absurd hr e
        · have hq : q ≠ [] := fun e' => e (by rw [hr, e'])
          simp [Rcpt.base, hr, hq]
    have hh := (triedR_payload (rcptEncryptE_tried (C := C) (R := R) (ph := 0) (path := [i]) (r := (giveKey (some q) r).2))).2
    have ih := wrapLoopE_uniform (C := C) (R := R) t (i := i + 1) ht
    intro s hs
    simp only [wrapLoopE] at hs
    split at hs
    · rename_i e; rw [e] at hh
      rcases List.mem_cons.mp hs with rfl | hs
      · right; rw [hh]; exact hg.2
      · exact ht s hs
    · rename_i e; rw [e] at hh
      rcases List.mem_cons.mp hs with rfl | hs
      · right; rw [hh]; exact hg.2
      · rw [hg.1] at hs; exact ih s hs

theorem wrapLoopE_onePreset {C : Crypto} {R : Rand} {q : Bytes} {i : Nat} {rs : List Rcpt} (h : Spec.OnePreset rs) :
    Spec.OnePreset (wrapLoopE C R i (some q) rs).2 := by
  cases rs with
  | nil => exact .inl (by simp [wrapLoopE])
  | cons r t =>
    -- the key that is in the first recipient afterwards
    have main : ∀ p, (giveKey (some q) r).1 = some p → (giveKey (some q) r).2.base.payload = some p →
        (∀ s ∈ t, s.base.payload = some [] ∨ s.base.payload = some p) → Spec.OnePreset (wrapLoopE C R i (some q) (r :: t)).2 := by
      intro p g1 g2 ht
      have hh := (triedR_payload (rcptEncryptE_tried (C := C) (R := R) (ph := 0) (path := [i]) (r := (giveKey (some q) r).2))).2
      have ih := wrapLoopE_uniform (C := C) (R := R) t (i := i + 1) ht
      have fin : ∀ r' t', r'.base.payload = some p → (∀ s ∈ t', s.base.payload = some [] ∨ s.base.payload = some p) → Spec.OnePreset (r' :: t') := by
        intro r' t' e1 e2
        by_cases hp : p = []
        · subst hp
          refine .inl fun s hs => ?_
          rcases List.mem_cons.mp hs with rfl | hs
          · exact e1
          · exact (e2 s hs).elim id id
        · exact .inr ⟨p, r', t', rfl, e1, hp, e2⟩
      simp only [wrapLoopE]
      split
      · rename_i e; rw [e] at hh
        exact fin _ _ (hh.trans g2) ht
      · rename_i e; rw [e] at hh
        refine fin _ _ (hh.trans g2) ?_
        rw [g1]; exact ih
    rcases h with h | ⟨p, r', t', e, hr, hp, ht⟩
    · have hr := h r (by simp)
      refine main q ?_ ?_ fun s hs => .inl (h s (List.mem_cons_of_mem _ hs))
      · simp [giveKey, hr]
      · obtain ⟨c, b, x, o, rs⟩ := r
        simp only [Rcpt.base] at hr
        simp [giveKey, Rcpt.base, hr, Rcpt.withBase]
    · obtain ⟨rfl, rfl⟩ := List.cons.inj e
      refine main p ?_ ?_ ht
      · simp [giveKey, hr, hp]
      · simp [giveKey, hr, hp]

theorem encryptE_onePreset {C : Crypto} {R : Rand} {m : Enc} (hu : Spec.OnePreset m.recipients) :
    Spec.OnePreset ((Enc.encryptE C R).run m).2.recipients := by
  unfold Enc.encryptE
  rw [expr_bind]; split
  rotate_left
  · exact hu
  rw [expr_bind]; split
  rotate_left
  · exact hu
  split
  · exact hu
  split
  · rw [expr_bind]; split
    rotate_left
    · exact hu
    exact hu
  split
  · rw [expr_bind]; split
    rotate_left
    · exact hu
    rename_i n _
    rw [eff_bind, call_run]
    have := wrapLoopE_onePreset (C := C) (R := R) (q := R.cek n) (i := 0) hu
    split
    rotate_left
    · rename_i h; simp only [Prod.mk.injEq] at h; rw [← h.2]; exact this
    rename_i kb m1 h
    simp only [Prod.mk.injEq] at h
    rw [← h.2]
    rw [expr_bind]; split
    rotate_left
    · exact this
    exact this
  · exact hu

theorem encodeE_onePreset {C : Crypto} {R : Rand} {m : Enc} {tag e : Bool} (hu : Spec.OnePreset m.recipients) :
    Spec.OnePreset ((Enc.encodeE C R tag e).run m).2.recipients := by
  have fin : ∀ {m : Enc} {l : List Val}, Spec.OnePreset m.recipients → Spec.OnePreset ((Enc.finishE C R tag l).run m).2.recipients := by
    intro m l hu
    obtain ⟨_, h2⟩ := finishE_attempt (C := C) (R := R) (tag := tag) (l := l) (m := m)
    exact onePreset_congr (triedL_payloads _ h2).2 hu
  unfold Enc.encodeE
  rw [expr_bind]; split
  rotate_left
  · exact hu
  rw [expr_bind]; simp only
  cases e with
  | false =>
    simp only [Bool.false_eq_true, if_false]
    rw [expr_bind]; simp only
    exact fin hu
  | true =>
    simp only [if_true]
    rw [eff_bind]
    have := encryptE_onePreset (C := C) (R := R) hu
    split
    rotate_left
    · rename_i h; rw [h] at this; exact this
    rename_i h
    rw [h] at this
    exact fin this

/-- What can have happened to a COSE_Encrypt message: calls of `encode` and `decrypt`, which may have returned or raised, and changes by the
application which leave the number and the classes of the recipients and their content keys as they are. -/
inductive Spec.EncHistory (C : Crypto) : Enc → Enc → Prop
  | new (m : Enc) : Spec.EncHistory C m m
  | encode {m m' : Enc} (R : Rand) (tag e : Bool) : Spec.EncHistory C m m' → Spec.EncHistory C m ((Enc.encodeE C R tag e).run m').2
  | decrypt {m m' : Enc} (r : Rcpt) : Spec.EncHistory C m m' → Spec.EncHistory C m ((Enc.decryptE C r).run m').2
  | change {m m' m'' : Enc} : Spec.EncHistory C m m' → m''.recipients.map Rcpt.cls = m'.recipients.map Rcpt.cls →
      m''.recipients.map (·.base.payload) = m'.recipients.map (·.base.payload) → Spec.EncHistory C m m''

theorem history_onePreset {C : Crypto} {m m' : Enc} (h : Spec.EncHistory C m m') (hu : Spec.OnePreset m.recipients) :
    m'.recipients.map Rcpt.cls = m.recipients.map Rcpt.cls ∧ Spec.OnePreset m'.recipients := by
  induction h with
  | new => exact ⟨rfl, hu⟩
  | encode R tag e _ ih => exact ⟨(attempted_cls c80_enc_encode.recipients).trans ih.1, encodeE_onePreset ih.2⟩
  | decrypt r _ ih =>
    rw [decryptE_keyOnly.1]
    exact ih
  | change _ e1 e2 ih => exact ⟨e1.trans ih.1, onePreset_congr e2 ih.2⟩

/-- C80: however often encoding and decrypting have failed or succeeded before, when encoding succeeds all recipients have the same
content key, the one the message is encrypted with. -/
theorem c80_same_key {C : Crypto} {R : Rand} {m m' : Enc} {tag : Bool} {out : Bytes}
    (hk : ∀ r ∈ m.recipients, r.cls = .keyWrap ∨ r.cls = .keyAgreementWithKeyWrap) (hu : Spec.OnePreset m.recipients)
    (hh : Spec.EncHistory C m m') (h : ((Enc.encodeE C R tag true).run m').1 = .ok out) :
    Spec.AllHaveKey ((Enc.encodeE C R tag true).run m').2 := by
  obtain ⟨e1, e2⟩ := history_onePreset hh hu
  have h' := agrees_of_ok (x := (Enc.encodeE C R tag true).run m') (s := ((Enc.encodeE C R tag true).run m').2) enc_encode_agrees (by rw [← h])
  refine (c37_encode_partial (fun r hr => ?_) e2 h').1
  have : r.cls ∈ m'.recipients.map Rcpt.cls := List.mem_map.mpr ⟨r, hr, rfl⟩
  rw [e1] at this
  obtain ⟨s, hs, he⟩ := List.mem_map.mp this
  rw [← he]; exact hk s hs

/-! ### Keys that were generated and what the headers say -/

mutual
/-- No recipient, at any depth, announces an ephemeral key although it has no key. -/
inductive Spec.FitsR : Rcpt → Prop
  | mk {c : RCls} {b : Base} {x : Bytes} {o : Nat} {rs : List Rcpt} :
      (b.key = none → b.getAttr Hdr.EphemeralKey = .ok .none) → Spec.FitsL rs → Spec.FitsR (.mk c b x o rs)
inductive Spec.FitsL : List Rcpt → Prop
  | nil : Spec.FitsL []
  | cons {r : Rcpt} {t : List Rcpt} : Spec.FitsR r → Spec.FitsL t → Spec.FitsL (r :: t)
end

mutual
/-- Keys have been generated only together with the header that announces them. -/
inductive Spec.AnnouncedR : Rcpt → Rcpt → Prop
  | same {c : RCls} {b : Base} {x : Bytes} {o : Nat} {rs rs' : List Rcpt} :
      Spec.AnnouncedL rs rs' → Spec.AnnouncedR (.mk c b x o rs) (.mk c b x o rs')
  | generated {c : RCls} {b : Base} {x : Bytes} {o : Nat} {rs rs' : List Rcpt} (k : Key) : b.key = none →
      Spec.AnnouncedL rs rs' → Spec.AnnouncedR (.mk c b x o rs)
        (.mk c { b with key := some k, uhdr := dupdate b.uhdr [(.cls Hdr.EphemeralKey, .map (ddel k.store (.cls Ec2D)))] } x o rs')
inductive Spec.AnnouncedL : List Rcpt → List Rcpt → Prop
  | nil : Spec.AnnouncedL [] []
  | cons {r r' : Rcpt} {t t' : List Rcpt} : Spec.AnnouncedR r r' → Spec.AnnouncedL t t' → Spec.AnnouncedL (r :: t) (r' :: t')
end

mutual
theorem announcedR : ∀ (r : Rcpt) {r' : Rcpt}, Spec.FitsR r → Spec.TriedR r r' → Spec.AnnouncedR r r' ∧ Spec.FitsR r'
  | .mk _ b _ _ rs, _, hf, h => by
    cases hf with
    | mk f1 f2 =>
      cases h with
      | mk h1 h2 =>
        obtain ⟨g1, g2⟩ := announcedL rs f2 h2
        cases h1 with
        | same => exact ⟨.same g1, .mk f1 g2⟩
        | announced k hk _ => exact ⟨.generated k hk g1, .mk (fun e => by simp at e) g2⟩
        | unannounced k hk he => exact absurd (f1 hk) he
theorem announcedL : ∀ (rs : List Rcpt) {rs' : List Rcpt}, Spec.FitsL rs → Spec.TriedL rs rs' → Spec.AnnouncedL rs rs' ∧ Spec.FitsL rs'
  | [], _, hf, h => by cases h; exact ⟨.nil, .nil⟩
  | r :: t, _, hf, h => by
    cases hf with
    | cons f1 f2 =>
      cases h with
      | cons h1 h2 =>
        obtain ⟨g1, g2⟩ := announcedR r f1 h1
        obtain ⟨g3, g4⟩ := announcedL t f2 h2
        exact ⟨.cons g1 g3, .cons g2 g4⟩
end

theorem fits_filled {rs rs' : List Rcpt} (h : All2 Spec.Filled rs rs') (hf : Spec.FitsL rs) : Spec.FitsL rs' := by
  induction h with
  | nil => exact .nil
  | cons h _ ih =>
    cases hf with
    | cons f1 f2 =>
      refine .cons ?_ (ih f2)
      rcases h with rfl | ⟨k, _, rfl⟩
      · exact f1
      · cases f1 with
        | mk f1 f2 => exact .mk f1 f2

/-- C80, for recipients which do not announce an ephemeral key while they have no key: whatever `encode` does, raise or return, no recipient
gets a key without announcing it, and the recipients can be used with this theorem again.  Missing: recipients with such a header, for which
`c80_refuted` shows that a key unrelated to the header is used. -/
theorem c80_announced_partial {C : Crypto} {R : Rand} {tag e : Bool} {m : Enc} (hf : Spec.FitsL m.recipients) :
    (∃ rs1, All2 Spec.Filled m.recipients rs1 ∧ Spec.AnnouncedL rs1 ((Enc.encodeE C R tag e).run m).2.recipients) ∧
    Spec.FitsL ((Enc.encodeE C R tag e).run m).2.recipients := by
  obtain ⟨_, rs1, h1, h2⟩ := c80_enc_encode (C := C) (R := R) (tag := tag) (e := e) (m := m)
  obtain ⟨g1, g2⟩ := announcedL _ (fits_filled h1 hf) h2
  exact ⟨⟨rs1, h1, g1⟩, g2⟩

/-! ### Returning calls, and examples -/

/-- C80: if the calls return, result and object are those of the model of returning calls, to which the other theorems apply; and they
raise exactly when those raise, with the same exception. -/
theorem c80_returns {C : Crypto} {R : Rand} {tag e : Bool} {m : Enc} {r : Rcpt} {a : Mac} {a0 : Mac0} :
    Spec.Agrees ((Enc.encodeE C R tag e).run m) (m.encode C R tag e) ∧ Spec.Agrees ((Enc.encryptE C R).run m) (m.encrypt C R) ∧
    Spec.Agrees ((Enc.decryptE C r).run m) (m.decrypt C r) ∧ Spec.Agrees ((Mac.encodeE C R tag e).run a) (a.encode C R tag e) ∧
    Spec.Agrees ((Mac0.encodeE C tag e).run a0) (a0.encode C tag e) :=
  ⟨enc_encode_agrees, encrypt_agrees, decrypt_agrees, mac_encode_agrees, mac0_encode_agrees⟩

namespace Sample
/-- A recipient without key, with the ephemeral key of somebody else in its header. -/
def strayRcpt : Rcpt := (esRcpt 1).withBase { (esRcpt 1).base with uhdr := [(.cls Hdr.EphemeralKey, .map sndPub.store)] }
def encStray : Enc := { base := { enc0.base with key := none }, recipients := [strayRcpt] }
/-- What the receiver gets from the bytes. -/
def receive (out : Bytes) : Res Bytes := do
  let d ← decode toy .any false out
  match d with
  | .enc ⟨b, [r]⟩ => do
    let (p, _) ← Enc.decrypt toy ⟨b, [r.receiver rcvPriv []]⟩ (r.receiver rcvPriv [])
    .ok p
  | _ => .error .unsupported
end Sample

/-- The property is false of the code: encoding raises, because the header announces an unrelated ephemeral key; but the same call on the
same object then returns a message, with that header, which the receiver cannot decrypt. -/
theorem c80_refuted : ∃ (m : Enc) (out : Bytes), ((Enc.encodeE toy Sample.rand true true).run m).1 = .error .coseException ∧
    ((Enc.encodeE toy Sample.rand true true).run ((Enc.encodeE toy Sample.rand true true).run m).2).1 = .ok out ∧
    Sample.receive out = .error .crypto := by
  obtain ⟨out, h, hr⟩ := res_any (r := ((Enc.encodeE toy Sample.rand true true).run ((Enc.encodeE toy Sample.rand true true).run Sample.encStray).2).1)
    (p := fun out => decide (Sample.receive out = .error .crypto)) (by decide +kernel)
  exact ⟨Sample.encStray, out, by decide +kernel, h, by simpa using hr⟩

/-- Without that header the receiver gets the content from the first call. -/
example : ∃ out, ((Enc.encodeE toy Sample.rand true true).run { Sample.encStray with recipients := [Sample.esRcpt 1] }).1 = .ok out ∧
    Sample.encStray.base.payload.isSome = true ∧ Sample.receive out = .ok (Sample.encStray.base.payload.getD []) := by
  obtain ⟨out, h, hr⟩ := res_any (r := ((Enc.encodeE toy Sample.rand true true).run { Sample.encStray with recipients := [Sample.esRcpt 1] }).1)
    (p := fun out => decide (Sample.receive out = .ok (Sample.encStray.base.payload.getD []))) (by decide +kernel)
  exact ⟨out, h, rfl, by simpa using hr⟩

namespace Sample
/-- A message whose second recipient cannot be used, since it has no key: encryption fails after the first recipient. -/
def encHalf : Enc := { base := { enc0.base with key := none }, recipients := [esRcpt 1, (kwRcpt 2).withKey none, esRcpt 3] }
/-- What the application does then: it gives the recipient a key. -/
def repaired (m : Enc) : Enc := { m with recipients := m.recipients.map fun r => if r.oid = 2 then kwRcpt 2 |>.withBase { r.base with key := some symKey } else r }
end Sample

/-- A failing call does leave something behind: the content key in the first two recipients, and the ephemeral key of the first one, which
is announced … -/
example : ((Enc.encodeE toy Sample.rand true true).run Sample.encHalf).1.isOk = false ∧
    ((Enc.encodeE toy Sample.rand true true).run Sample.encHalf).2.recipients.map (fun r => r.base.payload == some []) = [false, false, true] ∧
    ((Enc.encodeE toy Sample.rand true true).run Sample.encHalf).2.recipients.map (fun r => r.base.key.isSome) = [true, false, false] ∧
    Spec.FitsL Sample.encHalf.recipients :=
  ⟨by decide +kernel, by decide +kernel, by decide +kernel,
    .cons (.mk (fun _ => by decide +kernel) .nil) (.cons (.mk (fun _ => by decide +kernel) .nil) (.cons (.mk (fun _ => by decide +kernel) .nil) .nil))⟩

/-- … and, with the key given by the application, the next call succeeds: the hypotheses of `c80_same_key` are met by a history with a
failing call and a change. -/
example : Spec.OnePreset Sample.encHalf.recipients ∧
    (∀ r ∈ Sample.encHalf.recipients, r.cls = .keyWrap ∨ r.cls = .keyAgreementWithKeyWrap) ∧
    Spec.EncHistory toy Sample.encHalf (Sample.repaired ((Enc.encodeE toy Sample.rand true true).run Sample.encHalf).2) ∧
    ((Enc.encodeE toy Sample.rand true true).run (Sample.repaired ((Enc.encodeE toy Sample.rand true true).run Sample.encHalf).2)).1.isOk = true := by
  refine ⟨.inl ?_, ?_, .change (.encode Sample.rand true true (.new _)) (by decide +kernel) (by decide +kernel), by decide +kernel⟩ <;>
    simp [Sample.encHalf, Sample.esRcpt, Sample.kwRcpt, Rcpt.withKey, Rcpt.withBase, Rcpt.base, Rcpt.cls]

/-- A MAC with a key-wrap recipient: the call raises, and leaves a content key in the recipient. -/
example : ((Mac.encodeE toy Sample.rand true true).run { base := Sample.mac0Aes.base, recipients := some [Sample.kwRcpt 1] }).1.isOk = false ∧
    (((Mac.encodeE toy Sample.rand true true).run { base := Sample.mac0Aes.base, recipients := some [Sample.kwRcpt 1] }).2.recipients.map
      (·.map (fun r => r.base.payload == some []))) = some [false] := by
  decide +kernel

/-- A failing attempt to decrypt leaves a key in the message: here the ciphertext was damaged. -/
example : ∃ m r, ((Enc.decryptE toy r).run m).1 = .error .crypto ∧ m.base.key = none ∧ ((Enc.decryptE toy r).run m).2.base.key.isSome = true := by
  obtain ⟨m, h, hp⟩ := res_any (r := do
      let (out, _) ← Enc.encode toy Sample.rand { Sample.encStray with recipients := [Sample.esRcpt 1] } true true
      match ← decode toy .any false out with
      | .enc ⟨b, [r]⟩ => .ok (Enc.mk { b with payload := some [1] } [r.receiver Sample.rcvPriv []])
      | _ => .error .unsupported)
    (p := fun m => match m.recipients with
      | [r] => decide (((Enc.decryptE toy r).run m).1 = .error .crypto ∧ m.base.key = none ∧ ((Enc.decryptE toy r).run m).2.base.key.isSome = true)
      | _ => false) (by decide +kernel)
  split at hp
  · rename_i r _
    exact ⟨m, r, by simpa using hp⟩
  · simp at hp
end Cose
