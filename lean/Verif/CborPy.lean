import Verif.CborFuel
import Verif.DictLemmas
/-!
# Python-level CBOR round trip

`PyOK v`: a plain Python value that cbor2 can write and read back unchanged.
-/
set_option autoImplicit false

namespace Cose

mutual
/-- Plain values (no classes, no key objects) with distinct dictionary keys, valid text, and without
the tags that cbor2 interprets. -/
def PyOK : Val → Prop
  | .none => True
  | .undef => True
  | .bool _ => True
  | .simple n => n < 20 ∨ (32 ≤ n ∧ n < 256)
  | .int _ => True
  | .float f => f < 2 ^ 64 ∧ (floatNaN f = true → f = nanBits)
  | .bytes _ => True
  | .text s => validUtf8 s = true
  | .arr l => PyOKL l
  | .map l => PyOKP l ∧ KeysNodup l
  | .tag n v => n ≠ 2 ∧ n ≠ 3 ∧ n ≠ 55799 ∧ n ∉ semanticTags ∧ PyOK v
  | .cls _ => False
  | .key _ _ => False
termination_by structural x => x
def PyOKL : List Val → Prop
  | [] => True
  | v :: t => PyOK v ∧ PyOKL t
termination_by structural x => x
def PyOKP : List (Val × Val) → Prop
  | [] => True
  | p :: t => PyOKQ p ∧ PyOKP t
termination_by structural x => x
def PyOKQ : Val × Val → Prop
  | (k, v) => PyOK k ∧ PyOK v
termination_by structural x => x
end

theorem PyOKL_iff {l : List Val} : PyOKL l ↔ ∀ v ∈ l, PyOK v := by
  induction l with
  | nil => simp [PyOKL]
  | cons a t ih => simp [PyOKL, ih]

theorem PyOKP_iff {l : List (Val × Val)} : PyOKP l ↔ ∀ p ∈ l, PyOK p.1 ∧ PyOK p.2 := by
  induction l with
  | nil => simp [PyOKP]
  | cons a t ih => obtain ⟨x, y⟩ := a; simp [PyOKP, PyOKQ, ih]

theorem interp_bigInt (i : Int) : interp (bigInt i) = .ok (.int i) := by
  unfold bigInt
  split
  · simp only [interp, ok_bind, mkTag, ↓reduceIte]
    rw [natOfBytes_beBytes_of_lt (lt_pow_byteLen _)]
    congr 2; omega
  · split
    · simp only [interp, ok_bind, mkTag]
      rw [natOfBytes_beBytes_of_lt (lt_pow_byteLen _)]
      simp; omega
    · simp [interp]

mutual
theorem interp_big (v : Val) (h : PyOK v) : interp (big v) = .ok v := by
  cases v <;> simp only [PyOK] at h <;> simp only [big]
  case int i => exact interp_bigInt i
  case float f =>
    simp only [interp]
    split
    · rename_i e; rw [h.2 e]
    · rfl
  case arr l => simp [interp, interpL_bigL l h]
  case map l => simp [interp, interpP_bigP l h.1, dictOf_nodup h.2]
  case tag n v =>
    simp only [interp, interp_big v h.2.2.2.2, ok_bind, mkTag]
    simp [h.1, h.2.1, h.2.2.1, h.2.2.2.1]
  all_goals rfl
termination_by structural v
theorem interpL_bigL (l : List Val) (h : PyOKL l) : interpL (bigL l) = .ok l := by
  cases l with
  | nil => rfl
  | cons v t =>
    simp only [PyOKL] at h
    simp [bigL, interpL, interp_big v h.1, interpL_bigL t h.2]
termination_by structural l
theorem interpP_bigP (l : List (Val × Val)) (h : PyOKP l) : interpP (bigP l) = .ok l := by
  cases l with
  | nil => rfl
  | cons p t =>
    simp only [PyOKP] at h
    simp [bigP, interpP, interpQ_bigQ p h.1, interpP_bigP t h.2]
termination_by structural l
theorem interpQ_bigQ (p : Val × Val) (h : PyOKQ p) : interpQ (bigQ p) = .ok p := by
  obtain ⟨k, v⟩ := p
  simp only [PyOKQ] at h
  simp [bigQ, interpQ, interp_big k h.1, interp_big v h.2]
termination_by structural p
end

mutual
theorem subst_plain (fn : Cls → Bytes) (m : Mode) (v : Val) (h : PyOK v) : subst fn m v = .ok v := by
  cases v <;> simp only [PyOK] at h <;> simp only [subst]
  case arr l => simp [substL_plain fn m l h]
  case map l => simp [substP_plain fn m l h.1]
  case tag n v => simp [subst_plain fn m v h.2.2.2.2]
termination_by structural v
theorem substL_plain (fn : Cls → Bytes) (m : Mode) (l : List Val) (h : PyOKL l) :
    substL fn m l = .ok l := by
  cases l with
  | nil => rfl
  | cons v t =>
    simp only [PyOKL] at h
    simp [substL, subst_plain fn m v h.1, substL_plain fn m t h.2]
termination_by structural l
theorem substP_plain (fn : Cls → Bytes) (m : Mode) (l : List (Val × Val)) (h : PyOKP l) :
    substP fn m l = .ok l := by
  cases l with
  | nil => rfl
  | cons p t =>
    simp only [PyOKP] at h
    simp [substP, substQ_plain fn m p h.1, substP_plain fn m t h.2]
termination_by structural l
theorem substQ_plain (fn : Cls → Bytes) (m : Mode) (p : Val × Val) (h : PyOKQ p) :
    substQ fn m p = .ok p := by
  obtain ⟨k, v⟩ := p
  simp only [PyOKQ] at h
  simp [substQ, subst_plain fn m k h.1, subst_plain fn m v h.2]
termination_by structural p
end

/-- Serialise, append anything, parse: the value after the `default` callback comes back. -/
theorem loads_dumps {fn : Cls → Bytes} {m : Mode} {v w : Val} {b : Bytes}
    (hs : subst fn m v = .ok w) (hw : PyOK w) (h : dumps fn m v = .ok b) (r : Bytes) :
    loads (b ++ r) = .ok w := by
  simp only [dumps, hs, ok_bind] at h
  rw [loads_enc h, interp_big w hw]

theorem loads_dumps_plain {fn : Cls → Bytes} {m : Mode} {v : Val} {b : Bytes}
    (hw : PyOK v) (h : dumps fn m v = .ok b) (r : Bytes) : loads (b ++ r) = .ok v :=
  loads_dumps (subst_plain fn m v hw) hw h r

/-- Serialisation of plain values is injective and prefix-free. -/
theorem dumps_append_inj {fn gn : Cls → Bytes} {m n : Mode} {v w : Val} {a b r s : Bytes}
    (hv : PyOK v) (hw : PyOK w) (ha : dumps fn m v = .ok a) (hb : dumps gn n w = .ok b)
    (h : a ++ r = b ++ s) : v = w ∧ a = b ∧ r = s := by
  have e1 := loads_dumps_plain hv ha r
  have e2 := loads_dumps_plain hw hb s
  simp only [dumps, subst_plain _ _ _ hv, subst_plain _ _ _ hw, ok_bind] at ha hb
  obtain ⟨_, h2, h3⟩ := enc_append_inj ha hb h
  rw [h, e2] at e1; simp at e1
  exact ⟨e1.symm, h2, h3⟩

end Cose
