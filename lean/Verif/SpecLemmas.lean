import Verif.Spec
import Verif.CborPy
/-! Lemmas linking the specification's byte formats to the encoder model. -/
set_option autoImplicit false

namespace Cose

theorem map_bind {α β γ : Type} (x : Res α) (f : α → Res β) (g : β → γ) :
    Except.map g (x >>= f) = x >>= fun a => Except.map g (f a) := by
  cases x <;> rfl

theorem be_succ (k n : Nat) : Spec.be (k + 1) n = Spec.be k (n / 256) ++ [UInt8.ofNat (n % 256)] := by
  simp only [Spec.be, List.range_succ, List.map_append, List.map_cons, List.map_nil]
  congr 1
  · apply List.map_congr_left
    intro i hi
    have hi := List.mem_range.mp hi
    have e : k + 1 - 1 - i = (k - 1 - i) + 1 := by omega
    rw [e, Nat.pow_succ, Nat.mul_comm, Nat.div_div_eq_div_mul]
  · simp

theorem be_eq (k n : Nat) : Spec.be k n = beBytes k n := by
  induction k generalizing n with
  | zero => rfl
  | succ k ih => rw [be_succ, ih]; rfl

theorem encHead_eq {mt n : Nat} {h : Bytes} (hh : encHead mt n = .ok h) : h = Spec.head mt n := by
  unfold encHead at hh
  unfold Spec.head
  simp only [be_eq]
  repeat' split at hh
  all_goals first
    | (simp only [Except.ok.injEq] at hh; subst hh; simp_all)
    | simp at hh
  all_goals (repeat' split)
  all_goals first | rfl | omega

theorem encHead_ok {mt n : Nat} (h : n < 2 ^ 64) : encHead mt n = .ok (Spec.head mt n) := by
  cases e : encHead mt n with
  | ok x => rw [encHead_eq e]
  | error x =>
    unfold encHead at e
    repeat' split at e
    all_goals first | (simp at e; done) | omega

theorem enc_bytes {p b : Bytes} (h : enc (.bytes p) = .ok b) : b = Spec.bstr p := by
  simp only [enc, bind_eq_ok] at h
  obtain ⟨x, h1, h2⟩ := h
  simp only [Except.ok.injEq] at h2
  rw [← h2, encHead_eq h1]; rfl

theorem enc_text {p b : Bytes} (h : enc (.text p) = .ok b) : b = Spec.tstr p := by
  simp only [enc] at h
  split at h
  · simp only [bind_eq_ok] at h
    obtain ⟨x, h1, h2⟩ := h
    simp only [Except.ok.injEq] at h2
    rw [← h2, encHead_eq h1]; rfl
  · simp at h

/-- An array of byte strings after one text. -/
theorem encL_bytes {l : List Bytes} {b : Bytes} (h : encL (l.map .bytes) = .ok b) :
    b = (l.map Spec.bstr).flatten := by
  induction l generalizing b with
  | nil => simpa [encL] using h.symm
  | cons a t ih =>
    simp only [List.map_cons, encL, bind_eq_ok, Except.ok.injEq] at h
    obtain ⟨x, h1, y, h2, h3⟩ := h
    rw [← h3, enc_bytes h1, ih h2]; simp

theorem big_bytes (l : List Bytes) : bigL (l.map .bytes) = l.map .bytes := by
  induction l with
  | nil => rfl
  | cons a t ih => simp [bigL, big, ih]

theorem substL_bytes (m : Mode) (l : List Bytes) :
    substL fullname m (l.map .bytes) = .ok (l.map .bytes) := by
  induction l with
  | nil => rfl
  | cons a t ih => simp [substL, subst, ih]

/-- The structures that get authenticated: `cbor2.dumps([text, bytes, …])`. -/
theorem dumpsPlain_struct {c : Bytes} {l : List Bytes} {b : Bytes}
    (h : dumpsPlain (.arr (.text c :: l.map .bytes)) = .ok b) :
    b = Spec.array (Spec.tstr c :: l.map Spec.bstr) := by
  simp only [dumpsPlain, dumps, subst, substL, substL_bytes, ok_bind, big, bigL, big_bytes, enc,
    encL, bind_eq_ok, Except.ok.injEq] at h
  obtain ⟨hd, h1, x, ⟨tx, h2, y, h3, h4⟩, h5⟩ := h
  have h2' : enc (.text c) = .ok tx := by simpa only [enc] using h2
  rw [← h5, ← h4, enc_text h2', encL_bytes h3, encHead_eq h1]
  simp [Spec.array]

theorem pyOK_struct {c : Bytes} (hc : validUtf8 c = true) (l : List Bytes) :
    PyOK (.arr (.text c :: l.map .bytes)) := by
  simp only [PyOK, PyOKL, hc, true_and]
  rw [PyOKL_iff]; intro v hv
  obtain ⟨b, _, rfl⟩ := List.mem_map.mp hv
  trivial

/-- Injectivity of the authenticated structures, also under common suffixes. -/
theorem struct_inj {c d : Bytes} {l k : List Bytes} {a b r s : Bytes} (hc : validUtf8 c = true)
    (hd : validUtf8 d = true) (ha : dumpsPlain (.arr (.text c :: l.map .bytes)) = .ok a)
    (hb : dumpsPlain (.arr (.text d :: k.map .bytes)) = .ok b) (h : a ++ r = b ++ s) :
    c = d ∧ l = k ∧ r = s := by
  obtain ⟨h1, _, h3⟩ := dumps_append_inj (pyOK_struct hc l) (pyOK_struct hd k) ha hb h
  simp only [Val.arr.injEq, List.cons.injEq, Val.text.injEq] at h1
  refine ⟨h1.1, ?_, h3⟩
  have inj : ∀ x y : List Bytes, x.map Val.bytes = y.map Val.bytes → x = y := by
    intro x
    induction x with
    | nil => intro y hy; cases y <;> simp_all
    | cons p t ih =>
      intro y hy
      cases y with
      | nil => simp at hy
      | cons q u =>
        simp only [List.map_cons, List.cons.injEq, Val.bytes.injEq] at hy
        rw [hy.1, ih u hy.2]
  exact inj _ _ h1.2

end Cose
