import Verif.Props.Relabel
/-!
# Messages whose unprotected header does not survive (C53, C100)

The hypothesis `Spec.PlainHeader` of C53 and C100 is needed: executions in which a signed message is received and verified, is sent on
with `encode(sign=False)`, and is then refused, or arrives with other headers.
-/
set_option autoImplicit false
namespace Cose

/-- The sample message, with an OKP key in its unprotected header that spells the parameter `x` in small letters. -/
def Sample.sign1Key : Sign1 := { base := { Sample.sign1.base with
  uhdr := [(.int (-1), .map [(.int 1, .int 1), (.int (-1), .int 6), (.int (-4), .bytes [3]), (.text b!"x", .int 5)])] } }

/-- The sample message, with a key identifier under its name and something else under the floating point number 4.0. -/
def Sample.sign1Label : Sign1 := { base := { Sample.sign1.base with
  uhdr := [(.text b!"KID", .bytes b!"me"), (.float 0x4010000000000000, .bytes b!"you")] } }

/-- The message as it is sent, received, and sent on. -/
def Sample.sentOn (m : Sign1) : Res (Bytes × Sign1 × Bytes) := do
  let x ← m.encode toy [] true true none
  let m1 ← Sample.sign1Of (.ok x)
  let y ← Sign1.encode toy [] { m1 with base := m1.base.using none [] } true false none
  .ok (x, m1, y)

theorem sentOn_inv {m m1 : Sign1} {x y : Bytes} (h : Sample.sentOn m = .ok (x, m1, y)) :
    decode toy .any true x = .ok (.sign1 m1) ∧ Spec.Sign1Hop toy .any true x y := by
  simp only [Sample.sentOn, bind_eq_ok] at h
  obtain ⟨x', _, m', h2, y', h3, h4⟩ := h
  simp only [Except.ok.injEq, Prod.mk.injEq] at h4
  obtain ⟨rfl, rfl, rfl⟩ := h4
  have hd : decode toy .any true x' = .ok (.sign1 m') := by
    simp only [Sample.sign1Of, ok_bind, bind_eq_ok] at h2
    obtain ⟨q, h2, h5⟩ := h2
    cases q <;> simp at h5
    rw [h2, h5]
  exact ⟨hd, m', [], none, none, [], hd, h3⟩

/-- **C53**, refuted for keys whose parameters are spelled in small letters: the message is accepted and its signature verified; sent
on without any change it is refused. -/
theorem c53_sign1_key_refuted : ∃ (x y : Bytes) (m : Sign1), decode toy .any true x = .ok (.sign1 m) ∧
    Spec.verdict toy m (some Sample.ecPubKey) Sample.sign1.base.aad none = .ok true ∧
    Spec.Sign1Hop toy .any true x y ∧ decode toy .any true y = .error .typeError := by
  obtain ⟨⟨x, m, y⟩, h, hp⟩ := res_any (r := Sample.sentOn Sample.sign1Key)
    (p := fun t => decide (Spec.verdict toy t.2.1 (some Sample.ecPubKey) Sample.sign1.base.aad none = (.ok true : Res Bool)) &&
      decide (decode toy .any true t.2.2 = (.error .typeError : Res Msg))) (by decide +kernel)
  simp only [Bool.and_eq_true, decide_eq_true_eq] at hp
  obtain ⟨h1, h2⟩ := sentOn_inv h
  exact ⟨x, y, m, h1, hp.1, h2, hp.2⟩

/-- **C53**, refuted for labels that are numerically equal to registered ones: the message is accepted with the key identifier `me`;
sent on without any change it arrives with the key identifier `you`, and both times the signature is verified. -/
theorem c53_sign1_label_refuted : ∃ (x y : Bytes) (m m' : Sign1), decode toy .any true x = .ok (.sign1 m) ∧
    Spec.Sign1Hop toy .any true x y ∧ decode toy .any true y = .ok (.sign1 m') ∧
    Spec.verdict toy m (some Sample.ecPubKey) Sample.sign1.base.aad none = .ok true ∧
    Spec.verdict toy m' (some Sample.ecPubKey) Sample.sign1.base.aad none = .ok true ∧
    dget m.base.uhdr (.cls Hdr.KID) = some (.bytes b!"me") ∧ dget m'.base.uhdr (.cls Hdr.KID) = some (.bytes b!"you") := by
  obtain ⟨⟨x, m, y⟩, h, hp⟩ := res_any (r := Sample.sentOn Sample.sign1Label)
    (p := fun t => decide (Spec.verdict toy t.2.1 (some Sample.ecPubKey) Sample.sign1.base.aad none = (.ok true : Res Bool)) &&
      decide (dget t.2.1.base.uhdr (.cls Hdr.KID) = some (Val.bytes b!"me")) &&
      match decode toy .any true t.2.2 with
      | .ok (.sign1 m') => decide (Spec.verdict toy m' (some Sample.ecPubKey) Sample.sign1.base.aad none = (.ok true : Res Bool)) &&
          decide (dget m'.base.uhdr (.cls Hdr.KID) = some (Val.bytes b!"you"))
      | _ => false) (by decide +kernel)
  simp only [Bool.and_eq_true, decide_eq_true_eq] at hp
  obtain ⟨h1, h2⟩ := sentOn_inv h
  obtain ⟨⟨p1, p2⟩, p3⟩ := hp
  cases hd : decode toy .any true y with
  | error e => rw [hd] at p3; simp at p3
  | ok q =>
    rw [hd] at p3
    cases q with
    | sign1 m' =>
      simp only [Bool.and_eq_true, decide_eq_true_eq] at p3
      exact ⟨x, y, m, m', h1, h2, hd, p1, p3.1, p2, p3.2⟩
    | _ => simp at p3

end Cose
