import Verif.CborStable
/-!
# Numbers in the three floating-point formats of CBOR (used by C98)
-/
set_option autoImplicit false
namespace Cose

/-! ### Specification (IEEE 754: `eb` bits of exponent, `mb` bits of mantissa) -/

/-- The exponent field is all ones: infinities and "not a number". -/
def Spec.Extreme (eb mb x : Nat) : Prop := x / 2 ^ mb % 2 ^ eb = 2 ^ eb - 1

def Spec.NotNumber (eb mb x : Nat) : Prop := Spec.Extreme eb mb x ∧ x % 2 ^ mb ≠ 0

/-- The sign bit. -/
def Spec.negative (eb mb x : Nat) : Nat := x / 2 ^ (eb + mb) % 2

/-- The magnitude of a finite number, in units of `2 ^ -1074` (the smallest positive number of the widest format). -/
def Spec.magnitude (eb mb x : Nat) : Nat :=
  (if x / 2 ^ mb % 2 ^ eb = 0 then x % 2 ^ mb else (2 ^ mb + x % 2 ^ mb) * 2 ^ (x / 2 ^ mb % 2 ^ eb - 1)) * 2 ^ (1074 - (2 ^ (eb - 1) - 2 + mb))

/-- The 64-bit pattern `w` denotes what the pattern `x` denotes; there is one pattern for "not a number". -/
structure Spec.SameNumber (eb mb x w : Nat) : Prop where
  bits : w < 2 ^ 64
  nan : Spec.NotNumber eb mb x → w = 0x7ff8000000000000
  number : ¬ Spec.NotNumber eb mb x → ¬ Spec.NotNumber 11 52 w ∧ Spec.negative eb mb x = Spec.negative 11 52 w
  infinite : ¬ Spec.NotNumber eb mb x → (Spec.Extreme eb mb x ↔ Spec.Extreme 11 52 w)
  finite : ¬ Spec.Extreme eb mb x → Spec.magnitude eb mb x = Spec.magnitude 11 52 w

/-! ### Lemmas -/

def mag64 (e m : Nat) : Nat := if e = 0 then m else (2 ^ 52 + m) * 2 ^ (e - 1)

theorem mag64_lt {e m : Nat} (hm : m < 2 ^ 52) : mag64 e m < 2 ^ 52 * 2 ^ e := by
  unfold mag64
  split
  · rename_i h; subst h; omega
  · have h2 : (2 : Nat) ^ e = 2 * 2 ^ (e - 1) := by
      rw [show e = (e - 1) + 1 by omega, Nat.pow_succ, Nat.add_sub_cancel]
      omega
    rw [h2]
    have : 0 < 2 ^ (e - 1) := Nat.two_pow_pos _
    calc (2 ^ 52 + m) * 2 ^ (e - 1) < (2 ^ 52 * 2) * 2 ^ (e - 1) := Nat.mul_lt_mul_of_pos_right (by omega) this
      _ = 2 ^ 52 * (2 * 2 ^ (e - 1)) := by rw [Nat.mul_assoc]

theorem mag64_ge {e m : Nat} (he : e ≠ 0) : 2 ^ 52 * 2 ^ (e - 1) ≤ mag64 e m := by
  unfold mag64
  rw [if_neg he]
  exact Nat.mul_le_mul_right _ (by omega)

theorem mag64_inj {e m e' m' : Nat} (hm : m < 2 ^ 52) (hm' : m' < 2 ^ 52) (h : mag64 e m = mag64 e' m') : e = e' ∧ m = m' := by
  have key : ∀ {e m e' m' : Nat}, m < 2 ^ 52 → e < e' → mag64 e m < mag64 e' m' := by
    intro e m e' m' hm hlt
    calc mag64 e m < 2 ^ 52 * 2 ^ e := mag64_lt hm
      _ ≤ 2 ^ 52 * 2 ^ (e' - 1) := Nat.mul_le_mul_left _ (Nat.pow_le_pow_right (by omega) (by omega))
      _ ≤ mag64 e' m' := mag64_ge (by omega)
  have he : e = e' := by
    rcases Nat.lt_trichotomy e e' with hl | hl | hl
    · have := key (m' := m') hm hl; omega
    · exact hl
    · have := key (m' := m) hm' hl; omega
  subst he
  refine ⟨rfl, ?_⟩
  unfold mag64 at h
  split at h
  · exact h
  · have := Nat.eq_of_mul_eq_mul_right (Nat.two_pow_pos _) h
    omega

theorem parts64 (w : Nat) (h : w < 2 ^ 64) : ∃ s e m, s < 2 ∧ e < 2048 ∧ m < 2 ^ 52 ∧ w = s * 2 ^ 63 + e * 2 ^ 52 + m :=
  ⟨w / 2 ^ 63, w / 2 ^ 52 % 2048, w % 2 ^ 52, by omega, by omega, by omega, by omega⟩

theorem field64 {s e m : Nat} (hs : s < 2) (he : e < 2048) (hm : m < 2 ^ 52) :
    (s * 2 ^ 63 + e * 2 ^ 52 + m) / 2 ^ 52 % 2 ^ 11 = e ∧ (s * 2 ^ 63 + e * 2 ^ 52 + m) % 2 ^ 52 = m ∧ (s * 2 ^ 63 + e * 2 ^ 52 + m) / 2 ^ (11 + 52) % 2 = s := by
  refine ⟨?_, ?_, ?_⟩ <;> omega

theorem magnitude64 {s e m : Nat} (hs : s < 2) (he : e < 2048) (hm : m < 2 ^ 52) : Spec.magnitude 11 52 (s * 2 ^ 63 + e * 2 ^ 52 + m) = mag64 e m := by
  obtain ⟨h1, h2, _⟩ := field64 hs he hm
  simp only [Spec.magnitude, h1, h2, mag64]
  simp

theorem extreme64 {s e m : Nat} (hs : s < 2) (he : e < 2048) (hm : m < 2 ^ 52) : Spec.Extreme 11 52 (s * 2 ^ 63 + e * 2 ^ 52 + m) ↔ e = 2047 := by
  obtain ⟨h1, _, _⟩ := field64 hs he hm
  simp only [Spec.Extreme, h1]

/-- The pattern is determined. -/
theorem sameNumber_unique {eb mb x w w' : Nat} (h : Spec.SameNumber eb mb x w) (h' : Spec.SameNumber eb mb x w') : w = w' := by
  by_cases hn : Spec.NotNumber eb mb x
  · rw [h.nan hn, h'.nan hn]
  obtain ⟨s, e, m, hs, he, hm, rfl⟩ := parts64 w h.bits
  obtain ⟨s', e', m', hs', he', hm', rfl⟩ := parts64 w' h'.bits
  have hsign := (h.number hn).2.symm.trans (h'.number hn).2
  simp only [Spec.negative, (field64 hs he hm).2.2, (field64 hs' he' hm').2.2] at hsign
  subst hsign
  have hi := h.infinite hn
  have hi' := h'.infinite hn
  rw [extreme64 hs he hm] at hi
  rw [extreme64 hs' he' hm'] at hi'
  by_cases hx : Spec.Extreme eb mb x
  · have a := hi.mp hx
    have a' := hi'.mp hx
    have z : ∀ {s e m : Nat}, s < 2 → e < 2048 → m < 2 ^ 52 → e = 2047 → ¬ Spec.NotNumber 11 52 (s * 2 ^ 63 + e * 2 ^ 52 + m) → m = 0 := by
      intro s e m hs he hm h2 hc
      refine Classical.byContradiction fun h0 => hc ⟨(extreme64 hs he hm).mpr h2, ?_⟩
      rw [(field64 hs he hm).2.1]; exact h0
    rw [z hs he hm a (h.number hn).1, z hs' he' hm' a' (h'.number hn).1, a, a']
  · have := (h.finite hx).symm.trans (h'.finite hx)
    rw [magnitude64 hs he hm, magnitude64 hs' he' hm'] at this
    obtain ⟨rfl, rfl⟩ := mag64_inj hm hm' this
    rfl

theorem sameNumber_parts {eb mb x s e m : Nat} (hs : s < 2) (he : e < 2047) (hm : m < 2 ^ 52) (hx : ¬ Spec.Extreme eb mb x) (hn : Spec.negative eb mb x = s)
    (hg : Spec.magnitude eb mb x = mag64 e m) : Spec.SameNumber eb mb x (s * 2 ^ 63 + e * 2 ^ 52 + m) := by
  have he' : e < 2048 := by omega
  have hx' : ¬ Spec.Extreme 11 52 (s * 2 ^ 63 + e * 2 ^ 52 + m) := fun h => by
    have := (extreme64 hs he' hm).mp h
    omega
  exact ⟨by omega, fun h => absurd h.1 hx, fun _ => ⟨fun h => hx' h.1, by rw [hn, Spec.negative, (field64 hs he' hm).2.2]⟩,
    fun _ => ⟨fun h => absurd h hx, fun h => absurd h hx'⟩, fun _ => by rw [hg, magnitude64 hs he' hm]⟩

theorem sameNumber_inf {eb mb x s : Nat} (hs : s < 2) (hx : Spec.Extreme eb mb x) (h0 : x % 2 ^ mb = 0) (hn : Spec.negative eb mb x = s) :
    Spec.SameNumber eb mb x (s * 2 ^ 63 + infBits) := by
  have hnn : ¬ Spec.NotNumber eb mb x := fun h => h.2 h0
  have e0 : s * 2 ^ 63 + infBits = s * 2 ^ 63 + 2047 * 2 ^ 52 + 0 := by simp [infBits]
  have f := field64 hs (e := 2047) (m := 0) (by omega) (by omega)
  rw [e0]
  refine ⟨by omega, fun h => absurd h hnn, fun _ => ⟨fun h => h.2 f.2.1, ?_⟩, fun _ => ⟨fun _ => (extreme64 hs (by omega) (by omega)).mpr rfl, fun _ => hx⟩,
    fun h => absurd hx h⟩
  rw [hn, Spec.negative, f.2.2]

theorem widen_same {eb mb x : Nat} (h : (eb = 5 ∧ mb = 10) ∨ (eb = 8 ∧ mb = 23)) (hb : x < 2 ^ (1 + eb + mb)) : Spec.SameNumber eb mb x (widen eb mb x) := by
  have hs : x / 2 ^ (eb + mb) < 2 := by
    rw [Nat.div_lt_iff_lt_mul (Nat.two_pow_pos _), ← Nat.pow_succ']
    rw [show 1 + eb + mb = (eb + mb).succ by omega] at hb
    exact hb
  have hneg : Spec.negative eb mb x = x / 2 ^ (eb + mb) := Nat.mod_eq_of_lt hs
  unfold widen
  simp only []
  split
  · rename_i hx
    split
    · rename_i h0
      exact sameNumber_inf hs hx h0 hneg
    · rename_i h0
      have hnn : Spec.NotNumber eb mb x := ⟨hx, h0⟩
      exact ⟨by decide, fun _ => rfl, fun hc => absurd hnn hc, fun hc => absurd hnn hc, fun hc => absurd hx hc⟩
  · rename_i hx
    have hx' : ¬ Spec.Extreme eb mb x := hx
    have he : x / 2 ^ mb % 2 ^ eb < 2 ^ eb := Nat.mod_lt _ (Nat.two_pow_pos _)
    have hm : x % 2 ^ mb < 2 ^ mb := Nat.mod_lt _ (Nat.two_pow_pos _)
    have hmag : Spec.magnitude eb mb x = (if x / 2 ^ mb % 2 ^ eb = 0 then x % 2 ^ mb else (2 ^ mb + x % 2 ^ mb) * 2 ^ (x / 2 ^ mb % 2 ^ eb - 1)) *
        2 ^ (1074 - (2 ^ (eb - 1) - 2 + mb)) := rfl
    generalize x / 2 ^ mb % 2 ^ eb = e at *
    generalize x % 2 ^ mb = m at *
    split
    · rename_i h0
      rw [if_pos h0] at hmag
      split
      · rename_i h3
        have := sameNumber_parts hs (e := 0) (m := 0) (by omega) (by omega) hx' hneg (by rw [hmag, h3]; simp [mag64])
        simpa using this
      · rename_i h3
        obtain ⟨k1, k2⟩ := log2_bounds h3
        have hk : Nat.log2 m < mb := by rw [Nat.log2_lt h3]; exact hm
        generalize Nat.log2 m = k at *
        have hlt : m - 2 ^ k < 2 ^ k := by rw [Nat.pow_succ] at k2; omega
        refine sameNumber_parts hs ?_ ?_ hx' hneg ?_
        · rcases h with ⟨rfl, rfl⟩ | ⟨rfl, rfl⟩ <;> omega
        · calc (m - 2 ^ k) * 2 ^ (52 - k) < 2 ^ k * 2 ^ (52 - k) := Nat.mul_lt_mul_of_pos_right hlt (Nat.two_pow_pos _)
            _ = 2 ^ 52 := by
              rw [← Nat.pow_add]
              congr 1
              rcases h with ⟨_, rfl⟩ | ⟨_, rfl⟩ <;> omega
        · have e1 : 2 ^ 52 + (m - 2 ^ k) * 2 ^ (52 - k) = m * 2 ^ (52 - k) := by
            have : (2 : Nat) ^ 52 = 2 ^ k * 2 ^ (52 - k) := by
              rw [← Nat.pow_add]
              congr 1
              rcases h with ⟨_, rfl⟩ | ⟨_, rfl⟩ <;> omega
            rw [this, ← Nat.add_mul]
            congr 1
            omega
          rw [hmag, mag64, if_neg (by rcases h with ⟨rfl, rfl⟩ | ⟨rfl, rfl⟩ <;> simp <;> omega), e1, Nat.mul_assoc, ← Nat.pow_add]
          congr 2
          rcases h with ⟨rfl, rfl⟩ | ⟨rfl, rfl⟩ <;> simp <;> omega
    · rename_i h0
      rw [if_neg h0] at hmag
      have e1 : 2 ^ 52 + m * 2 ^ (52 - mb) = (2 ^ mb + m) * 2 ^ (52 - mb) := by
        have : (2 : Nat) ^ 52 = 2 ^ mb * 2 ^ (52 - mb) := by
          rw [← Nat.pow_add]
          congr 1
          rcases h with ⟨_, rfl⟩ | ⟨_, rfl⟩ <;> omega
        rw [this, ← Nat.add_mul]
      refine sameNumber_parts hs ?_ ?_ hx' hneg ?_
      · rcases h with ⟨rfl, rfl⟩ | ⟨rfl, rfl⟩ <;> simp <;> omega
      · rcases h with ⟨rfl, rfl⟩ | ⟨rfl, rfl⟩ <;> omega
      · rw [hmag, mag64, if_neg (by rcases h with ⟨rfl, rfl⟩ | ⟨rfl, rfl⟩ <;> simp <;> omega), e1, Nat.mul_assoc, Nat.mul_assoc, ← Nat.pow_add, ← Nat.pow_add]
        congr 2
        rcases h with ⟨rfl, rfl⟩ | ⟨rfl, rfl⟩ <;> simp <;> omega

theorem floatNaN_iff {x : Nat} : floatNaN x = true ↔ Spec.NotNumber 11 52 x := by
  simp [floatNaN, floatSpecial, Spec.NotNumber, Spec.Extreme]

theorem double_same {x : Nat} (hb : x < 2 ^ 64) : Spec.SameNumber 11 52 x (if floatNaN x then nanBits else x) := by
  split
  · rename_i hn
    have hn := floatNaN_iff.mp hn
    exact ⟨by decide, fun _ => rfl, fun hc => absurd hn hc, fun hc => absurd hn hc, fun hc => absurd hn.1 hc⟩
  · rename_i hn
    have hn : ¬ Spec.NotNumber 11 52 x := fun h => hn (floatNaN_iff.mpr h)
    exact ⟨hb, fun h => absurd h hn, fun _ => ⟨hn, rfl⟩, fun _ => Iff.rfl, fun _ => rfl⟩

/-- 1.5, the smallest positive number, and minus infinity, each in sixteen bits. -/
example : Spec.SameNumber 5 10 0x3e00 0x3ff8000000000000 ∧ Spec.SameNumber 5 10 1 0x3e70000000000000 ∧ Spec.SameNumber 5 10 0xfc00 0xfff0000000000000 :=
  ⟨widen_same (.inl ⟨rfl, rfl⟩) (x := 0x3e00) (by decide), widen_same (.inl ⟨rfl, rfl⟩) (x := 1) (by decide), widen_same (.inl ⟨rfl, rfl⟩) (x := 0xfc00) (by decide)⟩

end Cose
