import Verif.Py
/-!
# Lemmas about big-endian byte strings
-/
set_option autoImplicit false

namespace Cose

theorem natOfBytes_nil : natOfBytes [] = 0 := rfl

theorem foldl_natOfBytes (b : Bytes) (a : Nat) :
    b.foldl (fun acc x => acc * 256 + x.toNat) a = a * 256 ^ b.length + natOfBytes b := by
  unfold natOfBytes
  induction b generalizing a with
  | nil => simp
  | cons x t ih =>
    simp only [List.foldl_cons, List.length_cons, Nat.zero_mul, Nat.zero_add]
    rw [ih, ih (x.toNat), Nat.pow_succ]
    generalize List.foldl (fun acc (x : UInt8) => acc * 256 + x.toNat) 0 t = z
    rw [Nat.add_mul, Nat.mul_assoc, Nat.mul_comm 256 (256 ^ t.length), Nat.add_assoc]

theorem natOfBytes_cons (x : UInt8) (t : Bytes) :
    natOfBytes (x :: t) = x.toNat * 256 ^ t.length + natOfBytes t := by
  have := foldl_natOfBytes t (x.toNat)
  simpa [natOfBytes] using this

theorem natOfBytes_append (a b : Bytes) :
    natOfBytes (a ++ b) = natOfBytes a * 256 ^ b.length + natOfBytes b := by
  conv => lhs; rw [natOfBytes, List.foldl_append]
  rw [foldl_natOfBytes]; rfl

theorem natOfBytes_lt (b : Bytes) : natOfBytes b < 256 ^ b.length := by
  induction b with
  | nil => simp [natOfBytes]
  | cons x t ih =>
    rw [natOfBytes_cons, List.length_cons, Nat.pow_succ]
    have hx : x.toNat < 256 := x.toNat_lt
    have : (x.toNat + 1) * 256 ^ t.length ≤ 256 * 256 ^ t.length := Nat.mul_le_mul_right _ hx
    rw [Nat.add_mul, Nat.one_mul] at this
    omega

@[simp] theorem beBytes_length (len n : Nat) : (beBytes len n).length = len := by
  induction len generalizing n with
  | zero => rfl
  | succ k ih => simp [beBytes, ih]

theorem natOfBytes_beBytes (len n : Nat) : natOfBytes (beBytes len n) = n % 256 ^ len := by
  induction len generalizing n with
  | zero => simp [beBytes, natOfBytes, Nat.mod_one]
  | succ k ih =>
    rw [beBytes, natOfBytes_append, ih]
    simp only [List.length_singleton, Nat.pow_one]
    have h1 : natOfBytes [UInt8.ofNat (n % 256)] = n % 256 := by
      simp [natOfBytes]
    rw [h1, Nat.pow_succ, Nat.mul_comm (256 ^ k) 256, Nat.mod_mul]
    omega

theorem natOfBytes_beBytes_of_lt {len n : Nat} (h : n < 256 ^ len) :
    natOfBytes (beBytes len n) = n := by
  rw [natOfBytes_beBytes, Nat.mod_eq_of_lt h]

theorem beBytes_natOfBytes (b : Bytes) : beBytes b.length (natOfBytes b) = b := by
  generalize hn : b.length = n
  induction n generalizing b with
  | zero => simp [List.length_eq_zero_iff.mp hn, beBytes]
  | succ k ih =>
    obtain ⟨i, x, rfl⟩ : ∃ i x, b = i ++ [x] := by
      rcases List.eq_nil_or_concat b with h | ⟨i, x, h⟩
      · simp [h] at hn
      · exact ⟨i, x, by simpa using h⟩
    have hi : i.length = k := by simpa using hn
    rw [beBytes, natOfBytes_append]
    have h1 : natOfBytes [x] = x.toNat := by simp [natOfBytes]
    have hx : x.toNat < 256 := x.toNat_lt
    have e1 : (natOfBytes i * 256 ^ [x].length + natOfBytes [x]) / 256 = natOfBytes i := by
      rw [h1]; simp; omega
    have e2 : (natOfBytes i * 256 ^ [x].length + natOfBytes [x]) % 256 = x.toNat := by
      rw [h1]; simp
    rw [e1, e2, ih i hi]
    simp

theorem beBytes_inj {len a b : Nat} (ha : a < 256 ^ len) (hb : b < 256 ^ len)
    (h : beBytes len a = beBytes len b) : a = b := by
  rw [← natOfBytes_beBytes_of_lt ha, ← natOfBytes_beBytes_of_lt hb, h]

theorem lt_pow_bitLength (n : Nat) : n < 2 ^ bitLength n := by
  unfold bitLength
  split
  · simp_all
  · exact Nat.lt_log2_self

theorem pow_bitLength_le {n : Nat} (h : n ≠ 0) : 2 ^ (bitLength n - 1) ≤ n := by
  unfold bitLength
  simp [h]
  exact Nat.log2_self_le h

/-- `(n.bit_length() + 7) // 8` bytes are enough. -/
theorem lt_pow_byteLen (n : Nat) : n < 256 ^ ((bitLength n + 7) / 8) := by
  have h1 := lt_pow_bitLength n
  have h2 : (256 : Nat) ^ ((bitLength n + 7) / 8) = 2 ^ (8 * ((bitLength n + 7) / 8)) := by
    rw [Nat.pow_mul]
  rw [h2]
  exact Nat.lt_of_lt_of_le h1 (Nat.pow_le_pow_right (by decide) (by omega))

/-- … and one byte fewer is not. -/
theorem pow_byteLen_le {n : Nat} (h : n ≠ 0) : 256 ^ ((bitLength n + 7) / 8 - 1) ≤ n := by
  have h1 := pow_bitLength_le h
  have hb : 0 < bitLength n := by unfold bitLength; simp [h]
  have h2 : (256 : Nat) ^ ((bitLength n + 7) / 8 - 1) = 2 ^ (8 * ((bitLength n + 7) / 8 - 1)) := by
    rw [Nat.pow_mul]
  rw [h2]
  exact Nat.le_trans (Nat.pow_le_pow_right (by decide) (by omega)) h1

end Cose
