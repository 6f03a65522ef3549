import Verif.Key
import Verif.Bits
/-!
# Numbers as byte strings

The specification of `int.from_bytes` and of the shortest byte string of a number, and the proof that the model's functions meet it.
-/
set_option autoImplicit false
namespace Cose

/-- The number with the digits `ds` to base 256, the most significant one first. -/
def Spec.number : List Nat → Nat
  | [] => 0
  | d :: t => d * 256 ^ t.length + Spec.number t

/-- The number that bytes stand for. -/
def Spec.value (b : Bytes) : Nat := Spec.number (b.map UInt8.toNat)

/-- The values `int.from_bytes` takes as a byte: small integers, and `True` and `False`. -/
def Spec.digit : Val → Option Nat
  | .int i => if 0 ≤ i ∧ i < 256 then some i.toNat else none
  | .bool true => some 1
  | .bool false => some 0
  | _ => none

/-- `int.from_bytes(v, "big")` is `n`: `v` is a byte string, or a list of bytes, or a dictionary with bytes for keys. -/
inductive Spec.BigEndian : Val → Nat → Prop
  | bytes (b : Bytes) : Spec.BigEndian (.bytes b) (Spec.value b)
  | items {l : List Val} {ds : List Nat} : l.map Spec.digit = ds.map some → Spec.BigEndian (.arr l) (Spec.number ds)
  | keys {l : List (Val × Val)} {ds : List Nat} : l.map (fun e => Spec.digit e.1) = ds.map some → Spec.BigEndian (.map l) (Spec.number ds)

/-- `b` is the shortest byte string that stands for `n`. -/
def Spec.Shortest (b : Bytes) (n : Nat) : Prop := Spec.value b = n ∧ ∀ b', Spec.value b' = n → b.length ≤ b'.length

theorem natOfBytes_value (b : Bytes) : natOfBytes b = Spec.value b := by
  induction b with
  | nil => rfl
  | cons a t ih =>
    rw [natOfBytes_cons, ih]
    simp [Spec.value, Spec.number]

theorem byteOf_iff {v : Val} {x : UInt8} : byteOf v = .ok x ↔ Spec.digit v = some x.toNat := by
  cases v with
  | int i =>
    simp only [byteOf, Spec.digit]
    by_cases h : 0 ≤ i ∧ i < 256
    · rw [if_pos h, if_pos h]
      have : (UInt8.ofNat i.toNat).toNat = i.toNat := by simp; omega
      constructor
      · rintro ⟨⟩; rw [this]
      · intro e
        have e := Option.some.inj e
        rw [← this] at e
        rw [UInt8.toNat_inj.mp e]
    · rw [if_neg h, if_neg h]; simp
  | bool b =>
    cases b <;> simp only [byteOf, Spec.digit, Bool.false_eq_true, if_false, if_true, Except.ok.injEq, Option.some.injEq]
    · constructor
      · rintro rfl; rfl
      · intro h; exact UInt8.toNat_inj.mp h
    · constructor
      · rintro rfl; rfl
      · intro h; exact UInt8.toNat_inj.mp h
  | _ => simp [byteOf, Spec.digit]

theorem bytesOfL_iff {l : List Val} {b : Bytes} : bytesOfL l = .ok b ↔ l.map Spec.digit = (b.map UInt8.toNat).map some := by
  induction l generalizing b with
  | nil => cases b <;> simp [bytesOfL]
  | cons v t ih =>
    simp only [bytesOfL, bind_eq_ok, byteOf_iff, ih]
    constructor
    · rintro ⟨x, h1, bs, h2, h3⟩
      cases h3
      simp [h1, h2]
    · intro h
      cases b with
      | nil => simp at h
      | cons x bs =>
        simp only [List.map_cons, List.cons.injEq] at h
        exact ⟨x, h.1, bs, h.2, rfl⟩

theorem digit_small {v : Val} {n : Nat} (h : Spec.digit v = some n) : n < 256 := by
  cases v with
  | int i => simp only [Spec.digit] at h; split at h <;> simp at h; omega
  | bool b => cases b <;> simp [Spec.digit] at h <;> omega
  | _ => simp [Spec.digit] at h

theorem digits_bytes {l : List Val} {ds : List Nat} (h : l.map Spec.digit = ds.map some) : ∃ b : Bytes, ds = b.map UInt8.toNat := by
  induction l generalizing ds with
  | nil => cases ds <;> simp at h; exact ⟨[], rfl⟩
  | cons v t ih =>
    cases ds with
    | nil => simp at h
    | cons d ds =>
      simp only [List.map_cons, List.cons.injEq] at h
      obtain ⟨b, rfl⟩ := ih h.2
      have := digit_small h.1
      exact ⟨UInt8.ofNat d :: b, by simp; omega⟩

theorem intFromBytes_iff {v : Val} {n : Nat} : intFromBytes v = .ok n ↔ Spec.BigEndian v n := by
  have key : ∀ l : List Val, (∃ b, bytesOfL l = .ok b ∧ natOfBytes b = n) ↔ ∃ ds, l.map Spec.digit = ds.map some ∧ Spec.number ds = n := by
    intro l
    constructor
    · rintro ⟨b, h1, h2⟩
      exact ⟨_, bytesOfL_iff.mp h1, by rw [← h2, natOfBytes_value]; rfl⟩
    · rintro ⟨ds, h1, h2⟩
      obtain ⟨b, rfl⟩ := digits_bytes h1
      exact ⟨b, bytesOfL_iff.mpr h1, by rw [natOfBytes_value]; exact h2⟩
  cases v with
  | bytes b =>
    simp only [intFromBytes, natOfBytes_value]
    constructor
    · rintro ⟨⟩; exact .bytes b
    · rintro ⟨⟩; rfl
  | arr l =>
    simp only [intFromBytes, bind_eq_ok, Except.ok.injEq, key]
    constructor
    · rintro ⟨ds, h, rfl⟩; exact .items h
    · rintro ⟨⟩; exact ⟨_, ‹_›, rfl⟩
  | map l =>
    simp only [intFromBytes, bind_eq_ok, Except.ok.injEq, key, List.map_map]
    constructor
    · rintro ⟨ds, h, rfl⟩; exact .keys h
    · rintro ⟨⟩; exact ⟨_, ‹_›, rfl⟩
  | _ => simp only [intFromBytes, reduceCtorEq, false_iff]; rintro ⟨⟩

theorem toBstr_length_le {n m : Nat} (h : n < 256 ^ m) : (toBstr n).length ≤ m := by
  rw [toBstr, beBytes_length]
  by_cases h0 : n = 0
  · subst h0; exact Nat.zero_le _
  · have h1 := pow_byteLen_le h0
    have h2 : 256 ^ ((bitLength n + 7) / 8 - 1) < 256 ^ m := Nat.lt_of_le_of_lt h1 h
    have := (Nat.pow_lt_pow_iff_right (by decide : 1 < 256)).mp h2
    omega

theorem toBstr_shortest (n : Nat) : Spec.Shortest (toBstr n) n :=
  ⟨by rw [← natOfBytes_value]; exact natOfBytes_beBytes_of_lt (lt_pow_byteLen n),
    fun b' hb => toBstr_length_le (by rw [← hb, ← natOfBytes_value]; exact natOfBytes_lt b')⟩

example : Spec.BigEndian (.bytes [1, 0]) 256 ∧ Spec.BigEndian (.arr [.int 2, .bool true]) 513 := ⟨.bytes [1, 0], .items (ds := [2, 1]) rfl⟩

end Cose
