import Verif.Props.Details
import Verif.Props.Utf8
/-!
# Further details of properties C21, C47 and C87: numbers as labels, refused numbers, and the text of unusual tags
-/
set_option autoImplicit false
namespace Cose

/-! ### C21: floats and integers as labels of dictionaries -/

/-- The binary64 number with this bit pattern is the integer `i`: with sign `s`, exponent `e` and fraction `m`, the absolute value is
`(2 ^ 52 + m) * 2 ^ (e - 1075)`, or `m * 2 ^ (-1074)` if the exponent is zero; exponent 2047 is no number. -/
def Spec.FloatIs (bits : Nat) (i : Int) : Prop :=
  ∃ s e m, bits = s * 2 ^ 63 + e * 2 ^ 52 + m ∧ e < 2047 ∧ m < 2 ^ 52 ∧ (if s = 0 then 0 ≤ i else i ≤ 0) ∧
    if e = 0 then i.natAbs * 2 ^ 1074 = m else i.natAbs * 2 ^ 1075 = (2 ^ 52 + m) * 2 ^ e

theorem float_parts {bits s e m : Nat} (h : bits = s * 2 ^ 63 + e * 2 ^ 52 + m) (he : e < 2047) (hm : m < 2 ^ 52) :
    bits / 2 ^ 63 = s ∧ bits / 2 ^ 52 % 2048 = e ∧ bits % 2 ^ 52 = m := by
  subst h
  refine ⟨by omega, by omega, by omega⟩

set_option exponentiation.threshold 2100 in
theorem floatInt_iff {bits : Nat} {i : Int} : floatInt? bits = some i ↔ Spec.FloatIs bits i := by
  have hsplit : bits = bits / 2 ^ 63 * 2 ^ 63 + bits / 2 ^ 52 % 2048 * 2 ^ 52 + bits % 2 ^ 52 := by omega
  have key : Spec.FloatIs bits i ↔ bits / 2 ^ 52 % 2048 < 2047 ∧ (if bits / 2 ^ 63 = 0 then 0 ≤ i else i ≤ 0) ∧
      if bits / 2 ^ 52 % 2048 = 0 then i.natAbs * 2 ^ 1074 = bits % 2 ^ 52 else i.natAbs * 2 ^ 1075 = (2 ^ 52 + bits % 2 ^ 52) * 2 ^ (bits / 2 ^ 52 % 2048) := by
    constructor
    · rintro ⟨s, e, m, h, he, hm, h1, h2⟩
      obtain ⟨rfl, rfl, rfl⟩ := float_parts h he hm
      exact ⟨he, h1, h2⟩
    · rintro ⟨he, h1, h2⟩
      exact ⟨_, _, _, hsplit, he, by omega, h1, h2⟩
  rw [key]
  clear key hsplit
  unfold floatInt?
  generalize bits / 2 ^ 63 = s
  have he : bits / 2 ^ 52 % 2048 < 2048 := Nat.mod_lt _ (by decide)
  generalize bits / 2 ^ 52 % 2048 = e at he ⊢
  have hm : bits % 2 ^ 52 < 2 ^ 52 := Nat.mod_lt _ (Nat.two_pow_pos 52)
  generalize bits % 2 ^ 52 = m at hm ⊢
  have sgn : ∀ n : Nat, (if s = 0 then (n : Int) else -(n : Int)) = i ↔ (if s = 0 then 0 ≤ i else i ≤ 0) ∧ i.natAbs = n := by
    intro n; split <;> omega
  by_cases h1 : e = 2047
  · simp [h1]
  have hlt : e < 2047 := by omega
  simp only [h1, if_false, hlt, true_and]
  by_cases h0 : e = 0
  · simp only [h0, if_true]
    by_cases hm0 : m = 0
    · simp only [hm0, if_true, Option.map_some, Option.some.injEq, sgn]
      have : i.natAbs * 2 ^ 1074 = 0 ↔ i.natAbs = 0 := by
        simp [Nat.mul_eq_zero]
      rw [this]
    · simp only [hm0, if_false, Option.map_none, reduceCtorEq, false_iff]
      rintro ⟨_, h⟩
      have hp : 2 ^ 52 ≤ 2 ^ 1074 := Nat.pow_le_pow_right (by decide) (by decide)
      rcases Nat.eq_zero_or_pos i.natAbs with hz | hz
      · rw [hz, Nat.zero_mul] at h; exact hm0 h.symm
      · have := Nat.le_mul_of_pos_left (2 ^ 1074) hz
        omega
  · simp only [h0, if_false]
    by_cases hb : 1075 ≤ e
    · simp only [hb, if_true, Option.map_some, Option.some.injEq, sgn]
      have : i.natAbs * 2 ^ 1075 = (2 ^ 52 + m) * 2 ^ e ↔ i.natAbs = (2 ^ 52 + m) * 2 ^ (e - 1075) := by
        have : 2 ^ e = 2 ^ (e - 1075) * 2 ^ 1075 := by rw [← Nat.pow_add]; congr 1; omega
        rw [this, ← Nat.mul_assoc]
        exact Nat.mul_left_inj (by simp [Nat.pow_eq_zero])
      rw [this]
    · simp only [hb, if_false]
      have hp : 0 < 2 ^ (1075 - e) := Nat.two_pow_pos _
      have hs : i.natAbs * 2 ^ 1075 = (2 ^ 52 + m) * 2 ^ e ↔ i.natAbs * 2 ^ (1075 - e) = 2 ^ 52 + m := by
        have : 2 ^ 1075 = 2 ^ (1075 - e) * 2 ^ e := by rw [← Nat.pow_add]; congr 1; omega
        rw [this, ← Nat.mul_assoc]
        exact Nat.mul_left_inj (by simp [Nat.pow_eq_zero])
      rw [hs]
      by_cases hd : (2 ^ 52 + m) % 2 ^ (1075 - e) = 0
      · simp only [hd, if_true, Option.map_some, Option.some.injEq, sgn]
        obtain ⟨c, hc⟩ := Nat.dvd_of_mod_eq_zero hd
        rw [hc, Nat.mul_div_cancel_left _ hp, Nat.mul_comm]
        exact and_congr_right fun _ => (Nat.mul_right_inj (by omega)).symm
      · simp only [hd, if_false, Option.map_none, reduceCtorEq, false_iff]
        rintro ⟨_, h⟩
        rw [← h, Nat.mul_mod_left] at hd
        exact hd rfl

/-- C21: as labels of a dictionary, a float and an integer are the same label exactly if they are the same number; two floats that are no integers are the
same label if they have the same bits; and `True` and `False` are the integers 1 and 0. -/
theorem c21_number_labels (d : Dict) (v : Val) (bits : Nat) (i : Int) :
    (dget ((.int i, v) :: d) (.float bits) = (if keq (.int i) (.float bits) then some v else dget d (.float bits))) ∧
    (keq (.int i) (.float bits) = true ↔ Spec.FloatIs bits i) ∧ (keq (.float bits) (.int i) = true ↔ Spec.FloatIs bits i) ∧
    (keq (.bool true) (.int i) = true ↔ i = 1) ∧ (keq (.bool false) (.int i) = true ↔ i = 0) := by
  refine ⟨rfl, ?_, ?_, ?_, ?_⟩
  · rw [← floatInt_iff]
    cases h : floatInt? bits with
    | none => simp [keq, norm, h]
    | some j => simp only [keq, norm, h, beq_iff_eq, Val.int.injEq, Option.some.injEq]; exact eq_comm
  · rw [← floatInt_iff]
    cases h : floatInt? bits with
    | none => simp [keq, norm, h]
    | some j => simp [keq, norm, h]
  · simp only [keq, norm, if_true, beq_iff_eq, Val.int.injEq]; exact eq_comm
  · simp only [keq, norm, Bool.false_eq_true, if_false, beq_iff_eq, Val.int.injEq]; exact eq_comm

/-- `1.0` is 1, `-3.0` is -3, `1.5` is no integer; a header under the label `1.0` is the header under the label 1. -/
example : Spec.FloatIs 0x3FF0000000000000 1 ∧ Spec.FloatIs 0xC008000000000000 (-3) ∧ (∀ i, ¬ Spec.FloatIs 0x3FF8000000000000 i) ∧
    dget [(.int 1, .text b!"a")] (.float 0x3FF0000000000000) = some (.text b!"a") := by
  refine ⟨floatInt_iff.mp (by decide +kernel), floatInt_iff.mp (by decide +kernel), fun i h => ?_, by decide +kernel⟩
  have := floatInt_iff.mpr h
  rw [show floatInt? 0x3FF8000000000000 = none by decide +kernel] at this
  cases this

/-! ### C47: values that are no numbers -/

/-- What `int.from_bytes` says to an element that is no digit: `ValueError` to an integer out of range, `TypeError` to anything else. -/
def Spec.digitError : Val → PyErr
  | .int _ => .valueError
  | _ => .typeError

/-- `int.from_bytes(v, "big")` is refused: the first element that is no digit decides; what cannot be iterated is a `TypeError`. -/
inductive Spec.NoNumber : Val → PyErr → Prop
  | items {l pre post : List Val} {x : Val} : l = pre ++ x :: post → (∀ y ∈ pre, Spec.digit y ≠ none) → Spec.digit x = none →
      Spec.NoNumber (.arr l) (Spec.digitError x)
  | keys {l pre post : List (Val × Val)} {x : Val × Val} : l = pre ++ x :: post → (∀ y ∈ pre, Spec.digit y.1 ≠ none) → Spec.digit x.1 = none →
      Spec.NoNumber (.map l) (Spec.digitError x.1)
  | other {v : Val} : (∀ b, v ≠ .bytes b) → (∀ l, v ≠ .arr l) → (∀ l, v ≠ .map l) → Spec.NoNumber v .typeError

theorem byteOf_error {v : Val} {e : PyErr} : byteOf v = .error e ↔ Spec.digit v = none ∧ e = Spec.digitError v := by
  cases v with
  | int i => simp only [byteOf, Spec.digit, Spec.digitError]; split <;> simp [eq_comm]
  | bool b => cases b <;> simp [byteOf, Spec.digit]
  | _ => simp [byteOf, Spec.digit, Spec.digitError, eq_comm]

theorem bytesOfL_error {l : List Val} {e : PyErr} : bytesOfL l = .error e ↔
    ∃ pre x post, l = pre ++ x :: post ∧ (∀ y ∈ pre, Spec.digit y ≠ none) ∧ Spec.digit x = none ∧ e = Spec.digitError x := by
  induction l with
  | nil => simp [bytesOfL]
  | cons v t ih =>
    simp only [bytesOfL, bind_eq_error, byteOf_error, byteOf_iff, reduceCtorEq, and_false, exists_false, or_false, ih]
    constructor
    · rintro (⟨h1, h2⟩ | ⟨b, h1, pre, x, post, rfl, h2, h3, h4⟩)
      · exact ⟨[], v, t, rfl, by simp, h1, h2⟩
      · refine ⟨v :: pre, x, post, rfl, ?_, h3, h4⟩
        intro y hy
        rcases List.mem_cons.mp hy with rfl | hy
        · simp [h1]
        · exact h2 y hy
    · rintro ⟨pre, x, post, h1, h2, h3, h4⟩
      cases pre with
      | nil => cases h1; exact .inl ⟨h3, h4⟩
      | cons p pre =>
        cases h1
        cases hd : Spec.digit v with
        | none => exact absurd hd (h2 v (by simp))
        | some n =>
          have := digit_small hd
          have hn : (UInt8.ofNat n).toNat = n := by simp; omega
          refine .inr ⟨UInt8.ofNat n, by rw [hn], pre, x, post, rfl, fun y hy => h2 y (by simp [hy]), h3, h4⟩

/-- C47: exactly when, and with which exception, a key parameter is not read as a number. -/
theorem c47_read_refused (v : Val) (e : PyErr) : intFromBytes v = .error e ↔ Spec.NoNumber v e := by
  cases v with
  | bytes b =>
    simp only [intFromBytes, reduceCtorEq, false_iff]
    rintro ⟨⟩
    rename_i h _ _; exact h b rfl
  | arr l =>
    simp only [intFromBytes, bind_eq_error, reduceCtorEq, and_false, exists_false, or_false, bytesOfL_error]
    constructor
    · rintro ⟨pre, x, post, h1, h2, h3, rfl⟩; exact .items h1 h2 h3
    · intro h
      cases h with
      | items h1 h2 h3 => exact ⟨_, _, _, h1, h2, h3, rfl⟩
      | other _ h _ => exact absurd rfl (h l)
  | map l =>
    simp only [intFromBytes, bind_eq_error, reduceCtorEq, and_false, exists_false, or_false, bytesOfL_error]
    constructor
    · rintro ⟨pre, x, post, h1, h2, h3, rfl⟩
      obtain ⟨pre', l', rfl, rfl, h⟩ := List.map_eq_append_iff.mp h1
      obtain ⟨x', post', rfl, rfl, rfl⟩ := List.map_eq_cons_iff.mp h
      exact .keys rfl (fun y hy => h2 _ (List.mem_map_of_mem hy)) h3
    · intro h
      cases h with
      | keys h1 h2 h3 =>
        rename_i pre post x
        subst h1
        exact ⟨pre.map (·.1), x.1, post.map (·.1), by simp, by simpa using h2, h3, rfl⟩
      | other _ _ h => exact absurd rfl (h l)
  | _ =>
    simp only [intFromBytes, Except.error.injEq]
    constructor
    · rintro rfl; exact .other (by simp) (by simp) (by simp)
    · intro h; cases h; rfl

/-- An element out of range after a digit, and one that is no integer. -/
example : Spec.NoNumber (.arr [.int 255, .int 256, .none]) .valueError ∧ Spec.NoNumber (.arr [.bool true, .text b!"a", .int 300]) .typeError :=
  ⟨.items (pre := [.int 255]) (x := .int 256) (post := [.none]) rfl (by simp [Spec.digit]) (by simp [Spec.digit]),
    .items (pre := [.bool true]) (x := .text b!"a") (post := [.int 300]) rfl (by simp [Spec.digit]) (by simp [Spec.digit])⟩

/-! ### C87: tags and signatures that are not byte strings -/

/-- What `repr` writes for a tag or signature `v`: the first five bytes, characters or elements, and how many there are. -/
inductive Spec.TailText : Val → Res Shown → Prop
  | bytes (b : Bytes) : Spec.TailText (.bytes b) (.ok (.trunc (.atom (.bytes (b.take 5))) b.length))
  | text {cs : List Nat} : (∀ c ∈ cs, Spec.Scalar c) → Spec.TailText (.text (Spec.utf8 cs)) (.ok (.trunc (.atom (.text (Spec.utf8 (cs.take 5)))) cs.length))
  | list {l : List Val} {ss : List Shown} : l.map showVal = ss.map .ok → Spec.TailText (.arr l) (.ok (.trunc (.list (ss.take 5)) ss.length))
  | listFails {l pre post : List Val} {x : Val} {e : PyErr} : l = pre ++ x :: post → (∀ y ∈ pre, ∃ s, showVal y = .ok s) → showVal x = .error e →
      Spec.TailText (.arr l) (.error e)
  | other {v : Val} : (∀ b, v ≠ .bytes b) → (∀ s, v ≠ .text s) → (∀ l, v ≠ .arr l) → Spec.TailText v (.error .typeError)

theorem showL_ok {l : List Val} {ss : List Shown} (h : l.map showVal = ss.map .ok) : showL l = .ok ss := by
  induction l generalizing ss with
  | nil => cases ss <;> simp_all [showL]
  | cons v t ih =>
    cases ss with
    | nil => simp at h
    | cons s ss =>
      simp only [List.map_cons, List.cons.injEq] at h
      simp [showL, h.1, ih h.2]

theorem showL_fails {pre post : List Val} {x : Val} {e : PyErr} (h : ∀ y ∈ pre, ∃ s, showVal y = .ok s) (hx : showVal x = .error e) :
    showL (pre ++ x :: post) = .error e := by
  induction pre with
  | nil => simp [showL, hx]
  | cons v t ih =>
    obtain ⟨s, hs⟩ := h v (by simp)
    simp [showL, hs, ih fun y hy => h y (by simp [hy])]

/-- C87: a tag or signature of any kind is printed as its first five bytes, characters or elements and its length, or refused with `TypeError`. -/
theorem c87_any_tail (v : Val) (r : Res Shown) (h : Spec.TailText v r) : tailShown v = r := by
  cases h with
  | bytes b => rfl
  | text hc => exact (c89_shortened hc _).1
  | list hl =>
    have hlen := congrArg List.length hl
    simp only [List.length_map] at hlen
    simp [tailShown, truncate, showVal, showL_ok hl, hlen]
  | listFails he hp hx => subst he; simp [tailShown, truncate, showVal, showL_fails hp hx]
  | other h1 h2 h3 =>
    cases v with
    | bytes b => exact absurd rfl (h1 b)
    | text s => exact absurd rfl (h2 s)
    | arr l => exact absurd rfl (h3 l)
    | _ => rfl

/-- A tag that is a list of six integers. -/
example : tailShown (.arr [.int 1, .int 2, .int 3, .int 4, .int 5, .int 6]) =
    .ok (.trunc (.list [.atom (.int 1), .atom (.int 2), .atom (.int 3), .atom (.int 4), .atom (.int 5)]) 6) :=
  c87_any_tail _ _ (.list (ss := [.atom (.int 1), .atom (.int 2), .atom (.int 3), .atom (.int 4), .atom (.int 5), .atom (.int 6)]) rfl)

end Cose
