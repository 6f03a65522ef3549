import Verif.Props.Relabel
/-!
# Unprotected headers that are replaced on the way: IV and Partial IV (C102)

RFC 8152, 3.1: "The 'Initialization Vector' and 'Partial Initialization Vector' parameters MUST NOT both be present in the same security
layer."  `_get_nonce` (`enccommon.py:81-92`) does not look at the Partial IV when there is an IV.
-/
set_option autoImplicit false
namespace Cose

theorem getAttr_unprotected {b : Base} {c : Cls} {v : Val} (hp : Spec.Absent b.phdr c) (hu : dget b.uhdr (.cls c) = some v) :
    b.getAttr c = .ok v := by
  have : (dget b.phdr (.cls c)).getD .none = .none := by rcases hp with h | h <;> rw [h] <;> rfl
  simp only [Base.getAttr, Base.getAttrD, this, hu, Option.getD_some]
  simp

theorem getAttr_nowhere {b : Base} {c : Cls} (hp : Spec.Absent b.phdr c) (hu : Spec.Absent b.uhdr c) : b.getAttr c = .ok .none := by
  have h1 : (dget b.phdr (.cls c)).getD .none = .none := by rcases hp with h | h <;> rw [h] <;> rfl
  have h2 : (dget b.uhdr (.cls c)).getD .none = .none := by rcases hu with h | h <;> rw [h] <;> rfl
  simp only [Base.getAttr, Base.getAttrD, h1, h2]
  simp

/-- **C102** for COSE_Encrypt0 with a protected Partial IV: a node that puts in no IV gains nothing; whatever decrypts after the node
decrypts to the same plaintext before it. -/
theorem c102_enc0_partial_iv {C : Crypto} {cls : DecCls} {allow : Bool} {x y : Bytes} {m : Enc0} {d uh : Dict} {alg pv : Val}
    (hdec : decode C cls allow x = .ok (.enc0 m)) (hd : Spec.HdrSend C false allow d uh)
    (hp : Spec.InProtected m.base Hdr.Algorithm alg) (hi : Spec.InProtected m.base Hdr.PartialIV pv)
    (hm : Spec.Absent m.base.uhdr Hdr.Algorithm ∧ Spec.Absent m.base.uhdr Hdr.PartialIV)
    (hiv : Spec.Absent m.base.phdr Hdr.IV ∧ Spec.Absent m.base.uhdr Hdr.IV) (huh : Spec.Absent uh Hdr.IV)
    (h : Spec.Enc0Relabel C cls allow d x y) :
    ∃ m', decode C cls allow y = .ok (.enc0 m') ∧ ∀ k a p, Enc0.decrypt C { m' with base := m'.base.using k a } = .ok p →
      Enc0.decrypt C { m with base := m.base.using k a } = .ok p := by
  obtain ⟨m', h1, h2, h3⟩ := c102_enc0 hdec hd h
  refine ⟨m', h1, fun k a p hdp => ?_⟩
  have hp' : Spec.InProtected (m'.base.using k a) Hdr.Algorithm alg := ⟨by rw [← hp.1, ← h2.phdr]; rfl, hp.2⟩
  have hi' : Spec.InProtected (m'.base.using k a) Hdr.PartialIV pv := ⟨by rw [← hi.1, ← h2.phdr]; rfl, hi.2⟩
  have ea : (m.base.using k a).getAttr Hdr.Algorithm = .ok alg := getAttr_absent (b := m.base.using k a) hp hm.1
  have ei : (m.base.using k a).getAttr Hdr.PartialIV = .ok pv := getAttr_absent (b := m.base.using k a) hi hm.2
  have ev : (m.base.using k a).getAttr Hdr.IV = .ok .none := getAttr_nowhere (b := m.base.using k a) hiv.1 hiv.2
  have ev' : (m'.base.using k a).getAttr Hdr.IV = .ok .none :=
    getAttr_nowhere (b := m'.base.using k a)
      (show Spec.Absent m'.base.phdr Hdr.IV by rw [h2.phdr]; exact hiv.1) (show Spec.Absent m'.base.uhdr Hdr.IV by rw [h3]; exact huh)
  have hpl : (m'.base.using k a).payload = (m.base.using k a).payload := h2.payload
  have hk : (m'.base.using k a).key = k := rfl
  have hk' : (m.base.using k a).key = k := rfl
  by_cases ua : Spec.Absent (m'.base.using k a).uhdr Hdr.Algorithm
  · by_cases ui : Spec.Absent (m'.base.using k a).uhdr Hdr.PartialIV
    · rw [← hdp]
      simp only [Enc0.decrypt, encDecrypt, getNonce, getAttr_absent hp' ua, getAttr_absent hi' ui, ea, ei, ev, ev', ok_bind,
        hpl, hk, hk', encStructure, relabel_structure h2]
    · cases k with
      | none =>
        simp only [Enc0.decrypt, encDecrypt, getNonce, getAttr_absent hp' ua, ev', hk, ok_bind] at hdp
        simp [error_bind] at hdp
      | some q =>
        simp only [Enc0.decrypt, encDecrypt, getNonce, getAttr_absent hp' ua, getAttr_both hi' ui, ev', hk, ok_bind, error_bind] at hdp
        by_cases hb : q.baseIv = .bytes [] <;> simp [hb, error_bind] at hdp
  · simp only [Enc0.decrypt, encDecrypt, getAttr_both hp' ua, error_bind] at hdp
    simp at hdp

/-- **C102**, the limit of it: protecting the Partial IV does not protect the nonce.  If no IV is protected, an IV in the header of the
node is the nonce of every decryption, whatever the Partial IV of the sender and the base IV of the key are; nothing is raised for the
message that has both (`getNonce` models `EncCommon._get_nonce`). -/
theorem c102_enc0_inserted_iv {C : Crypto} {cls : DecCls} {allow : Bool} {x y : Bytes} {m : Enc0} {d uh : Dict} {iv : Val}
    (hdec : decode C cls allow x = .ok (.enc0 m)) (hd : Spec.HdrSend C false allow d uh)
    (hp : Spec.Absent m.base.phdr Hdr.IV) (hu : dget uh (.cls Hdr.IV) = some iv) (hn : iv ≠ .none)
    (h : Spec.Enc0Relabel C cls allow d x y) :
    ∃ m', decode C cls allow y = .ok (.enc0 m') ∧ m'.base.phdr = m.base.phdr ∧ ∀ k a, getNonce (m'.base.using k a) = .ok iv := by
  obtain ⟨m', h1, h2, h3⟩ := c102_enc0 hdec hd h
  refine ⟨m', h1, h2.phdr, fun k a => ?_⟩
  have : (m'.base.using k a).getAttr Hdr.IV = .ok iv :=
    getAttr_unprotected (b := m'.base.using k a) (show Spec.Absent m'.base.phdr Hdr.IV by rw [h2.phdr]; exact hp)
      (show dget m'.base.uhdr (.cls Hdr.IV) = some iv by rw [h3]; exact hu)
  simp only [getNonce, this, ok_bind, if_pos hn]

/-! ### Samples -/

/-- The algorithm and a Partial IV are protected; the key has the base IV `01 … 01`. -/
def Sample.enc0Partial : Enc0 :=
  { base := { Sample.enc0.base with
      phdr := [(.cls Hdr.Algorithm, algCls 1), (.cls Hdr.PartialIV, .bytes [7])], uhdr := []
      key := Sample.enc0.base.key.map fun k => { k with store := k.store ++ [(.cls KpBaseIV, .bytes (List.replicate 12 1))] } } }

/-- The message after a node has put `d` in: its nonce, and what it decrypts to. -/
def Sample.nonceAfter (m : Enc0) (d : Dict) : Res (Res Val × Res Bytes) := do
  let x ← m.encode toy true true
  let m1 ← Sample.enc0Of (.ok x)
  let b ← (m1.base.using none []).setUhdr (.map d)
  let y ← Enc0.encode toy { m1 with base := b } true false
  let m2 ← Sample.enc0Of (.ok y)
  let r := m2.base.using m.base.key m.base.aad
  .ok (getNonce r, Enc0.decrypt toy { m2 with base := r })

/-- The nonce and the plaintext are these. -/
def Sample.nonceIs (r : Res (Res Val × Res Bytes)) (n p : Bytes) : Bool :=
  match r with
  | .ok (.ok (.bytes n'), .ok p') => n' == n && p' == p
  | _ => false

example : Sample.nonceIs (Sample.nonceAfter Sample.enc0Partial [(.cls Hdr.KID, .bytes b!"you")]) (List.replicate 11 1 ++ [6]) b!"hello" = true := by
  decide +kernel

/-- With the header of the node the nonce is another one (`toy` does not depend on the nonce and decrypts anyway). -/
example : Sample.nonceIs (Sample.nonceAfter Sample.enc0Partial [(.cls Hdr.IV, .bytes (List.replicate 12 2))]) (List.replicate 12 2) b!"hello" = true := by
  decide +kernel

/-- A second Partial IV is noticed. -/
example : (match Sample.nonceAfter Sample.enc0Partial [(.cls Hdr.PartialIV, .bytes [8])] with
    | .ok (.error e, _) => e == .coseException | _ => false) = true := by
  decide +kernel

/-- The header with the IV can be sent. -/
example : Spec.HdrSend toy false false [(.cls Hdr.IV, .bytes (List.replicate 12 2))] [(.cls Hdr.IV, .bytes (List.replicate 12 2))] := by
  refine ⟨by simp [KeysNodup], .cons ?_ .nil⟩
  exact .plain (n := b!"IV") (by decide +kernel) (by decide) (by decide) (by decide) trivial (by
    rw [Spec.ValidValue, if_pos (by decide)]; exact ⟨_, rfl⟩)

end Cose
