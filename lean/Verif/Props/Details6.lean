import Verif.Props.X509
import Verif.Props.Utf8
/-!
# More about certificates (C50, C60): texts and empty chains, and what a thumbprint that cannot be made raises
-/
set_option autoImplicit false
namespace Cose

theorem computeHash_fails {C : Crypto} {alg : Val} {m : Bytes} (h : ¬ ∃ i d, alg = algCls i ∧ Spec.digest C i m = some d) :
    computeHash C alg m = .error (if alg = algCls (-18) ∨ alg = algCls (-45) then .typeError else .attributeError) := by
  split
  · rename_i hs
    rcases hs with rfl | rfl <;> simp [computeHash, algFam, algTable]
  · rename_i hs
    cases hc : computeHash C alg m with
    | ok d => obtain ⟨i, h1, h2⟩ := computeHash_iff.mp hc; exact absurd ⟨i, d, h1, h2⟩ h
    | error e =>
      unfold computeHash at hc
      split at hc
      · rename_i hh t e'
        split at hc
        · rename_i hsh
          exfalso
          apply hs
          unfold algFam at e'
          split at e'
          · rename_i c
            split at e'
            · rename_i hcr
              simp only [Option.map_eq_some_iff] at e'
              obtain ⟨p, hp, e'⟩ := e'
              have hm := List.mem_of_find?_eq_some hp
              have hi := List.find?_some hp
              simp only [beq_iff_eq] at hi
              have := hashRows p hm
              rw [hashRow, e'] at this
              simp only [decide_eq_true_eq, List.mem_cons, List.not_mem_nil, or_false, Prod.mk.injEq] at this
              obtain ⟨r, i⟩ := c
              cases hcr
              simp only at hi
              subst hi
              rcases this with ⟨h1, rfl, rfl⟩ | ⟨h1, rfl, rfl⟩ | ⟨h1, rfl, rfl⟩ | ⟨h1, rfl, rfl⟩ | ⟨h1, rfl, rfl⟩ | ⟨h1, rfl, rfl⟩ |
                ⟨h1, rfl, rfl⟩ | ⟨h1, rfl, rfl⟩ <;> simp at hsh <;> rw [h1] <;> simp [algCls]
            · cases e'
          · cases e'
        · split at hc <;> cases hc
      · cases hc; rfl

/-- C50: with anything but one of the six digests, making and checking a thumbprint raise: `TypeError` for SHAKE, `AttributeError` for an algorithm that is no hash
(or a value that is no algorithm). -/
theorem c50_refused {C : Crypto} {alg : Val} {cert : Bytes} (h : ¬ ∃ i d, alg = algCls i ∧ Spec.digest C i cert = some d) (a : UInt8) (r : Bytes) :
    X5T.fromCertificate C alg cert = .error (if alg = algCls (-18) ∨ alg = algCls (-45) then .typeError else .attributeError) ∧
    X5T.matchesCert C ⟨alg, .bytes (a :: r)⟩ cert = .error (if alg = algCls (-18) ∨ alg = algCls (-45) then .typeError else .attributeError) := by
  simp [X5T.fromCertificate, X5T.matchesCert, certBytes, computeHashVal, computeHash_fails h, truthy]

/-- ES256 is no hash. -/
example : (¬ ∃ i d, algCls (-7) = algCls i ∧ Spec.digest toy i b!"c" = some d) ∧ X5T.fromCertificate toy (algCls (-7)) b!"c" = .error .attributeError := by
  refine ⟨?_, by decide +kernel⟩
  rintro ⟨i, d, h1, h2⟩
  simp [algCls] at h1
  subst h1
  simp [Spec.digest] at h2

/-- C60: a text is taken apart into characters: the first one is what is validated. -/
theorem c60_text {c : Nat} {cs : List Nat} (h : ∀ x ∈ c :: cs, Spec.Scalar x) (validator : Val → Val → Res Val) :
    X5Chain.init validator (.text (Spec.utf8 (c :: cs))) true =
      (do let _ ← validator (.text (Spec.utf8 [c])) (.text (Spec.utf8 cs)); .ok (.text (Spec.utf8 (c :: cs)))) := by
  have e1 : Spec.utf8 [c] = Spec.utf8Char c := by simp [Spec.utf8]
  have e2 : (List.map Spec.utf8Char cs).flatten = Spec.utf8 cs := rfl
  simp [X5Chain.init, x5Collapse, verifyChain, pyItem, chars_utf8 h, e1, e2]

/-- C60: an empty chain cannot be validated: `IndexError`; nor can anything that is not a sequence. -/
theorem c60_nothing (validator : Val → Val → Res Val) :
    (∀ v ∈ [Val.arr [], Val.bytes [], Val.text []], X5Chain.init validator v true = .error .indexError) ∧
    (∀ i, X5Chain.init validator (.int i) true = .error .typeError) ∧ X5Chain.init validator .none true = .error .typeError := by
  simp [X5Chain.init, x5Collapse, verifyChain, pyItem, chars]

example : X5Chain.init (fun c d => if c = .text [0xC3, 0xA9] ∧ d = .text b!"x" then .ok .none else .error .valueError) (.text [0xC3, 0xA9, 0x78]) true =
    .ok (.text [0xC3, 0xA9, 0x78]) := by decide +kernel

end Cose
