import Verif.DecodeLemmas
/-! Inversion of the `encode` methods. -/
set_option autoImplicit false
namespace Cose

theorem enc0_encode_inv {C : Crypto} {m : Enc0} {tag e : Bool} {out : Bytes} (h : m.encode C tag e = .ok out) :
    ∃ pe v, m.base.phdrEncoded = .ok pe ∧ m.base.finish 16 tag [.bytes pe, .map m.base.uhdr, v] = .ok out ∧
      ((e = true ∧ ∃ c, m.encrypt C = .ok c ∧ v = .bytes c) ∨ (e = false ∧ v = optBytes m.base.payload)) := by
  unfold Enc0.encode at h
  obtain ⟨pe, hp, h⟩ := bind_eq_ok.mp h
  refine ⟨pe, ?_⟩
  split at h
  · rename_i he
    simp only [bind_eq_ok] at h
    obtain ⟨c, hc, _, h1, h⟩ := h
    simp at h1; subst h1
    exact ⟨_, hp, h, .inl ⟨he, c, hc, rfl⟩⟩
  · rename_i he
    exact ⟨_, hp, h, .inr ⟨by simpa using he, rfl⟩⟩

theorem mac0_encode_inv {C : Crypto} {m m' : Mac0} {tag e : Bool} {out : Bytes} (h : m.encode C tag e = .ok (out, m')) :
    ∃ pe tl, m.base.phdrEncoded = .ok pe ∧
      m.base.finish 17 tag ([.bytes pe, .map m.base.uhdr, optBytes m.base.payload] ++ tl) = .ok out ∧
      ((e = true ∧ ∃ t, m.computeTag C = .ok t ∧ tl = [.bytes t] ∧ m' = { m with authTag := .bytes t }) ∨
       (e = false ∧ tl = [] ∧ m' = m)) := by
  unfold Mac0.encode at h
  obtain ⟨pe, hp, h⟩ := bind_eq_ok.mp h
  refine ⟨pe, ?_⟩
  split at h
  · rename_i he
    simp only [bind_eq_ok] at h
    obtain ⟨t, ht, o, ho, h1⟩ := h
    simp at h1
    obtain ⟨rfl, rfl⟩ := h1
    exact ⟨[.bytes t], hp, ho, .inl ⟨he, t, ht, rfl, rfl⟩⟩
  · rename_i he
    simp only [bind_eq_ok] at h
    obtain ⟨o, ho, h1⟩ := h
    simp at h1
    obtain ⟨rfl, rfl⟩ := h1
    exact ⟨[], hp, by simpa using ho, .inr ⟨by simpa using he, rfl, rfl⟩⟩

theorem sign1_encode_inv {C : Crypto} {m : Sign1} {rnd : Bytes} {tag e : Bool} {d : Option Bytes} {out : Bytes}
    (h : m.encode C rnd tag e d = .ok out) :
    ∃ pe tl, m.base.phdrEncoded = .ok pe ∧
      m.base.finish 18 tag ([.bytes pe, .map m.base.uhdr, optBytes m.base.payload] ++ tl) = .ok out ∧
      ((e = true ∧ ∃ s, m.computeSignature C rnd d = .ok s ∧ tl = [.bytes s]) ∨
       (e = false ∧ truthy m.signature = true ∧ tl = [m.signature]) ∨
       (e = false ∧ truthy m.signature = false ∧ tl = [])) := by
  unfold Sign1.encode at h
  obtain ⟨pe, hp, h⟩ := bind_eq_ok.mp h
  refine ⟨pe, ?_⟩
  split at h
  · rename_i he
    simp only [bind_eq_ok] at h
    obtain ⟨s, hs, _, h1, h⟩ := h
    simp at h1; subst h1
    exact ⟨[.bytes s], hp, h, .inl ⟨he, s, hs, rfl⟩⟩
  · rename_i he
    have he : e = false := by simpa using he
    split at h
    · rename_i ht
      exact ⟨_, hp, h, .inr (.inl ⟨he, ht, rfl⟩)⟩
    · rename_i ht
      exact ⟨[], hp, by simpa using h, .inr (.inr ⟨he, by simpa using ht, rfl⟩)⟩

theorem sign_encode_inv {C : Crypto} {m : SignMsg} {rnd : Nat → Bytes} {tag : Bool} {d : Option Bytes} {out : Bytes}
    (h : m.encode C rnd tag d = .ok out) :
    ∃ pe tl, m.base.phdrEncoded = .ok pe ∧
      m.base.finish 98 tag ([.bytes pe, .map m.base.uhdr, optBytes m.base.payload] ++ tl) = .ok out ∧
      ((m.signers ≠ [] ∧ ∃ ss, signersEncode C rnd m.base d 0 m.signers = .ok ss ∧ tl = [.arr ss]) ∨
       (m.signers = [] ∧ tl = [])) := by
  unfold SignMsg.encode at h
  obtain ⟨pe, hp, h⟩ := bind_eq_ok.mp h
  refine ⟨pe, ?_⟩
  split at h
  · rename_i he
    simp only [bind_eq_ok] at h
    obtain ⟨s, hs, _, h1, h⟩ := h
    simp at h1; subst h1
    exact ⟨[.arr s], hp, h, .inl ⟨by intro e; simp [e] at he, s, hs, rfl⟩⟩
  · rename_i he
    exact ⟨[], hp, by simpa using h, .inr ⟨by simpa using he, rfl⟩⟩

theorem enc_encode_inv {C : Crypto} {m m' : Enc} {R : Rand} {tag e : Bool} {out : Bytes}
    (h : m.encode C R tag e = .ok (out, m')) :
    ∃ pe v m1 tl, m.base.phdrEncoded = .ok pe ∧
      ((e = true ∧ ∃ c, m.encrypt C R = .ok (c, m1) ∧ v = .bytes c) ∨
       (e = false ∧ m1 = m ∧ v = optBytes m.base.payload)) ∧
      m1.base.finish 96 tag ([.bytes pe, .map m.base.uhdr, v] ++ tl) = .ok out ∧
      ((m1.recipients = [] ∧ tl = [] ∧ m' = m1) ∨
       (m1.recipients ≠ [] ∧ ∃ vs rs, rcptsEncode C R [] 0 m1.recipients = .ok (vs, rs) ∧ tl = [.arr vs] ∧
         m' = { m1 with recipients := rs })) := by
  unfold Enc.encode at h
  obtain ⟨pe, hp, h⟩ := bind_eq_ok.mp h
  have aux : ∀ (v : Val) (m1 : Enc),
      (do
        let (message, m) ←
          if m1.recipients.isEmpty then .ok ([.bytes pe, .map m.base.uhdr] ++ [v], m1)
          else do
            let _ ← m1.base.getAttr Hdr.Algorithm
            let (vs, rs) ← rcptsEncode C R [] 0 m1.recipients
            .ok ([.bytes pe, .map m.base.uhdr] ++ [v] ++ [.arr vs], { m1 with recipients := rs })
        let out ← m.base.finish 96 tag message
        .ok (out, m) : Res (Bytes × Enc)) = .ok (out, m') →
      ∃ tl, m1.base.finish 96 tag ([.bytes pe, .map m.base.uhdr, v] ++ tl) = .ok out ∧
      ((m1.recipients = [] ∧ tl = [] ∧ m' = m1) ∨
       (m1.recipients ≠ [] ∧ ∃ vs rs, rcptsEncode C R [] 0 m1.recipients = .ok (vs, rs) ∧ tl = [.arr vs] ∧
         m' = { m1 with recipients := rs })) := by
    intro v m1 h
    split at h
    · rename_i he
      simp only [bind_eq_ok, ok_bind] at h
      obtain ⟨o, h1, h2⟩ := h
      simp at h2
      obtain ⟨rfl, rfl⟩ := h2
      exact ⟨[], by simpa using h1, .inl ⟨by simpa using he, rfl, rfl⟩⟩
    · rename_i he
      simp only [bind_eq_ok] at h
      obtain ⟨_, _, ⟨vs, rs⟩, h1, ⟨ms, m2⟩, h2, o, h3, h4⟩ := h
      simp at h2 h4
      obtain ⟨rfl, rfl⟩ := h2
      obtain ⟨rfl, rfl⟩ := h4
      exact ⟨[.arr vs], by simpa using h3, .inr ⟨by simpa using he, vs, rs, h1, rfl, rfl⟩⟩
  split at h
  · rename_i he
    obtain ⟨⟨c, m1⟩, h1, h2⟩ := bind_eq_ok.mp h
    obtain ⟨tl, h3, h4⟩ := aux (.bytes c) m1 h2
    exact ⟨pe, _, m1, tl, hp, .inl ⟨he, c, h1, rfl⟩, h3, h4⟩
  · rename_i he
    obtain ⟨tl, h3, h4⟩ := aux (optBytes m.base.payload) m h
    exact ⟨pe, _, m, tl, hp, .inr ⟨by simpa using he, rfl, rfl⟩, h3, h4⟩

theorem mac_encode_inv {C : Crypto} {m m' : Mac} {R : Rand} {tag e : Bool} {out : Bytes}
    (h : m.encode C R tag e = .ok (out, m')) :
    ∃ pe m1 tl0 tl rs1, m.base.phdrEncoded = .ok pe ∧
      ((e = true ∧ ∃ t, m.computeTag C R = .ok (t, m1) ∧ tl0 = [.bytes t]) ∨ (e = false ∧ m1 = m ∧ tl0 = [])) ∧
      m1.base.finish 97 tag ([.bytes pe, .map m.base.uhdr, optBytes m.base.payload] ++ tl0 ++ tl) = .ok out ∧
      m1.recipients = some rs1 ∧
      ((rs1 = [] ∧ tl = [] ∧ m' = m1) ∨
       (rs1 ≠ [] ∧ ∃ vs rs, rcptsEncode C R [] 0 rs1 = .ok (vs, rs) ∧ tl = [.arr vs] ∧
         m' = { m1 with recipients := some rs })) := by
  unfold Mac.encode at h
  obtain ⟨pe, hp, h⟩ := bind_eq_ok.mp h
  have aux : ∀ (msg : List Val) (m1 : Mac),
      (match m1.recipients with
        | none => .error .typeError
        | some [] => do
          let out ← m1.base.finish 97 tag msg
          .ok (out, m1)
        | some (r :: t) => do
          let _ ← m1.base.getAttr Hdr.Algorithm
          let (vs, rs) ← rcptsEncode C R [] 0 (r :: t)
          let out ← m1.base.finish 97 tag (msg ++ [.arr vs])
          .ok (out, { m1 with recipients := some rs }) : Res (Bytes × Mac)) = .ok (out, m') →
      ∃ tl rs1, m1.base.finish 97 tag (msg ++ tl) = .ok out ∧ m1.recipients = some rs1 ∧
      ((rs1 = [] ∧ tl = [] ∧ m' = m1) ∨
       (rs1 ≠ [] ∧ ∃ vs rs, rcptsEncode C R [] 0 rs1 = .ok (vs, rs) ∧ tl = [.arr vs] ∧
         m' = { m1 with recipients := some rs })) := by
    intro msg m1 h
    split at h
    · simp at h
    · rename_i he
      simp only [bind_eq_ok] at h
      obtain ⟨o, h1, h2⟩ := h
      simp at h2
      obtain ⟨rfl, rfl⟩ := h2
      exact ⟨[], [], by simpa using h1, he, .inl ⟨rfl, rfl, rfl⟩⟩
    · rename_i r t he
      simp only [bind_eq_ok] at h
      obtain ⟨_, _, ⟨vs, rs⟩, h1, o, h3, h4⟩ := h
      simp at h4
      obtain ⟨rfl, rfl⟩ := h4
      exact ⟨[.arr vs], r :: t, h3, he, .inr ⟨by simp, vs, rs, h1, rfl, rfl⟩⟩
  split at h
  · rename_i he
    obtain ⟨⟨t, m1⟩, h1, h2⟩ := bind_eq_ok.mp h
    obtain ⟨tl, rs1, h3, h4⟩ := aux _ m1 h2
    exact ⟨pe, m1, [.bytes t], tl, rs1, hp, .inl ⟨he, t, h1, rfl⟩, h3, h4⟩
  · rename_i he
    obtain ⟨tl, rs1, h3, h4⟩ := aux _ m h
    exact ⟨pe, m, [], tl, rs1, hp, .inr ⟨by simpa using he, rfl, rfl⟩, by simpa using h3, h4⟩

end Cose
