import Verif.CborLemmas
/-!
# The decoder is a function of the first data item only

Extending the input after a successfully decoded item changes nothing, the fuel used by
`decodeItem` is always sufficient, and every item consumes at least one byte.
-/
set_option autoImplicit false

namespace Cose

theorem readN_suffix {n : Nat} {bs x r : Bytes} (h : readN n bs = .ok (x, r)) (t : Bytes) :
    readN n (bs ++ t) = .ok (x, r ++ t) := by
  obtain ⟨rfl, h2⟩ := readN_ok h
  rw [List.append_assoc]; exact readN_append _ _ _ h2

theorem decLen_ok {ai n : Nat} {bs r : Bytes} (h : decLen ai bs = .ok (n, r)) :
    (∀ t, decLen ai (bs ++ t) = .ok (n, r ++ t)) ∧ r.length ≤ bs.length := by
  unfold decLen at h
  split at h
  · simp at h; obtain ⟨rfl, rfl⟩ := h
    refine ⟨fun t => ?_, Nat.le_refl _⟩
    simp only [decLen]; rw [if_pos (by assumption)]
  · repeat' (first
      | (exfalso; simp at h; done)
      | (split at h
         · rename_i e
           subst e
           simp only [bind_eq_ok, Except.ok.injEq, Prod.mk.injEq] at h
           obtain ⟨⟨x, r'⟩, hr, h1, rfl⟩ := h
           refine ⟨fun t => ?_, ?_⟩
           · simp [decLen, readN_suffix hr t, h1]
           · obtain ⟨rfl, _⟩ := readN_ok hr; simp))

theorem decChunks_ok {f mt : Nat} {bs b r : Bytes} (h : decChunks f mt bs = .ok (b, r)) :
    (∀ g t, f ≤ g → decChunks g mt (bs ++ t) = .ok (b, r ++ t)) ∧ r.length < bs.length := by
  induction f generalizing bs b r with
  | zero => simp [decChunks] at h
  | succ f ih =>
    cases bs with
    | nil => simp [decChunks] at h
    | cons ib s =>
      simp only [decChunks] at h
      split at h
      · rename_i e
        simp at h; obtain ⟨rfl, rfl⟩ := h
        refine ⟨fun g t hg => ?_, by simp⟩
        obtain ⟨g, rfl⟩ : ∃ k, g = k + 1 := ⟨g - 1, by omega⟩
        simp [decChunks, e]
      · rename_i e0
        split at h
        · rename_i e1
          simp only [bind_eq_ok, Prod.exists] at h
          obtain ⟨n, r1, h1, c, r2, h2, h⟩ := h
          split at h
          · simp at h
          · rename_i e2
            simp only [bind_eq_ok, Prod.exists, Except.ok.injEq, Prod.mk.injEq] at h
            obtain ⟨cs, r3, h3, rfl, rfl⟩ := h
            obtain ⟨a1, a2⟩ := decLen_ok h1
            obtain ⟨b1, b2⟩ := ih h3
            obtain ⟨c1, c2⟩ := readN_ok h2
            refine ⟨fun g t hg => ?_, ?_⟩
            · obtain ⟨g, rfl⟩ : ∃ k, g = k + 1 := ⟨g - 1, by omega⟩
              simp [decChunks, e0, e1, a1, readN_suffix h2, e2, b1 g t (by omega)]
            · simp; rw [c1] at a2; simp at a2; omega
        · simp at h

theorem decSpecial_ok {ai : Nat} {bs r : Bytes} {v : Val} (h : decSpecial ai bs = .ok (v, r)) :
    (∀ t, decSpecial ai (bs ++ t) = .ok (v, r ++ t)) ∧ r.length ≤ bs.length := by
  unfold decSpecial at h
  split at h
  · simp at h; obtain ⟨rfl, rfl⟩ := h
    refine ⟨fun t => ?_, Nat.le_refl _⟩
    simp only [decSpecial]; rw [if_pos (by assumption)]
  split at h
  · rename_i e; subst e; simp at h; obtain ⟨rfl, rfl⟩ := h
    exact ⟨fun t => rfl, Nat.le_refl _⟩
  split at h
  · rename_i e; subst e; simp at h; obtain ⟨rfl, rfl⟩ := h
    exact ⟨fun t => rfl, Nat.le_refl _⟩
  split at h
  · rename_i e; subst e; simp at h; obtain ⟨rfl, rfl⟩ := h
    exact ⟨fun t => rfl, Nat.le_refl _⟩
  split at h
  · rename_i e; subst e; simp at h; obtain ⟨rfl, rfl⟩ := h
    exact ⟨fun t => rfl, Nat.le_refl _⟩
  split at h
  · rename_i e; subst e
    simp only [bind_eq_ok, Prod.exists] at h
    obtain ⟨x, r1, h1, h⟩ := h
    split at h
    · simp at h
    · rename_i e
      simp at h; obtain ⟨rfl, rfl⟩ := h
      refine ⟨fun t => ?_, ?_⟩
      · simp [decSpecial, readN_suffix h1, e]
      · obtain ⟨rfl, _⟩ := readN_ok h1; simp
  repeat' (first
      | (exfalso; simp at h; done)
      | (split at h
         · rename_i e
           subst e
           simp only [bind_eq_ok, Except.ok.injEq, Prod.mk.injEq] at h
           obtain ⟨⟨x, r'⟩, hr, h1, rfl⟩ := h
           refine ⟨fun t => ?_, ?_⟩
           · simp [decSpecial, readN_suffix hr t, h1]
           · obtain ⟨rfl, _⟩ := readN_ok hr; simp))

/-- What is proved, for fuel `f`, of all five mutually recursive decoders. -/
def SuffixOK (f : Nat) : Prop :=
  (∀ bs v r, dec f bs = .ok (v, r) →
    (∀ g t, f ≤ g → dec g (bs ++ t) = .ok (v, r ++ t)) ∧ r.length < bs.length) ∧
  (∀ n bs v r, decArr f n bs = .ok (v, r) →
    (∀ g t, f ≤ g → decArr g n (bs ++ t) = .ok (v, r ++ t)) ∧ r.length ≤ bs.length) ∧
  (∀ bs v r, decArrInf f bs = .ok (v, r) →
    (∀ g t, f ≤ g → decArrInf g (bs ++ t) = .ok (v, r ++ t)) ∧ r.length ≤ bs.length) ∧
  (∀ n bs v r, decMap f n bs = .ok (v, r) →
    (∀ g t, f ≤ g → decMap g n (bs ++ t) = .ok (v, r ++ t)) ∧ r.length ≤ bs.length) ∧
  (∀ bs v r, decMapInf f bs = .ok (v, r) →
    (∀ g t, f ≤ g → decMapInf g (bs ++ t) = .ok (v, r ++ t)) ∧ r.length ≤ bs.length)

theorem head_append {bs t : Bytes} (h : bs ≠ []) : (bs ++ t).head? = bs.head? := by
  cases bs <;> simp_all

theorem dec_nil (f : Nat) (v : Val) (r : Bytes) : dec f [] ≠ .ok (v, r) := by
  cases f <;> simp [dec]

theorem suffixOK (f : Nat) : SuffixOK f := by
  induction f with
  | zero =>
    refine ⟨?_, ?_, ?_, ?_, ?_⟩ <;> intros <;>
      simp_all [dec, decArr, decArrInf, decMap, decMapInf]
  | succ f ih =>
    obtain ⟨ih1, ih2, ih3, ih4, ih5⟩ := ih
    refine ⟨?_, ?_, ?_, ?_, ?_⟩
    · intro bs v r h
      cases bs with
      | nil => simp [dec] at h
      | cons ib s =>
        generalize hm : ib.toNat / 32 = mt
        rw [dec_cons f ib s mt hm] at h
        simp only at h
        have key : ∀ (g : Nat), f + 1 ≤ g → ∃ k, g = k + 1 ∧ f ≤ k := fun g hg => ⟨g - 1, by omega, by omega⟩
        split at h
        · rename_i e
          simp only [bind_eq_ok, Except.ok.injEq, Prod.mk.injEq, Prod.exists] at h
          obtain ⟨n, r1, h1, h2, rfl⟩ := h
          obtain ⟨a1, a2⟩ := decLen_ok h1
          refine ⟨fun g t hg => ?_, by simp; omega⟩
          obtain ⟨g, rfl, hg⟩ := key g hg
          rw [List.cons_append, dec_cons g ib _ mt hm]
          simp [e, a1, ← h2]
        split at h
        · rename_i e0 e
          simp only [bind_eq_ok, Except.ok.injEq, Prod.mk.injEq, Prod.exists] at h
          obtain ⟨n, r1, h1, h2, rfl⟩ := h
          obtain ⟨a1, a2⟩ := decLen_ok h1
          refine ⟨fun g t hg => ?_, by simp; omega⟩
          obtain ⟨g, rfl, hg⟩ := key g hg
          rw [List.cons_append, dec_cons g ib _ mt hm]
          simp [e, a1, ← h2]
        split at h
        · rename_i e0 e1 e
          split at h
          · rename_i e2
            simp only [bind_eq_ok, Except.ok.injEq, Prod.mk.injEq, Prod.exists] at h
            obtain ⟨n, r1, h1, h2, rfl⟩ := h
            obtain ⟨a1, a2⟩ := decChunks_ok h1
            refine ⟨fun g t hg => ?_, by simp; omega⟩
            obtain ⟨g, rfl, hg⟩ := key g hg
            rw [List.cons_append, dec_cons g ib _ mt hm]
            simp [e, e2, a1 g t (by omega), ← h2]
          · rename_i e2
            simp only [bind_eq_ok, Except.ok.injEq, Prod.mk.injEq, Prod.exists] at h
            obtain ⟨n, r1, h1, x, r2, h3, h2, rfl⟩ := h
            obtain ⟨a1, a2⟩ := decLen_ok h1
            obtain ⟨b1, b2⟩ := readN_ok h3
            refine ⟨fun g t hg => ?_, by rw [b1] at a2; simp at a2 ⊢; omega⟩
            obtain ⟨g, rfl, hg⟩ := key g hg
            rw [List.cons_append, dec_cons g ib _ mt hm]
            simp [e, e2, a1, readN_suffix h3, ← h2]
        split at h
        · rename_i e0 e1 e3 e
          split at h
          · rename_i e2
            simp only [bind_eq_ok, Except.ok.injEq, Prod.mk.injEq, Prod.exists] at h
            obtain ⟨n, r1, h1, h2, rfl⟩ := h
            obtain ⟨a1, a2⟩ := decChunks_ok h1
            refine ⟨fun g t hg => ?_, by simp; omega⟩
            obtain ⟨g, rfl, hg⟩ := key g hg
            rw [List.cons_append, dec_cons g ib _ mt hm]
            simp [e, e2, a1 g t (by omega), ← h2]
          · rename_i e2
            simp only [bind_eq_ok, Prod.exists] at h
            obtain ⟨n, r1, h1, x, r2, h3, h4⟩ := h
            split at h4
            · rename_i e5
              simp only [Except.ok.injEq, Prod.mk.injEq] at h4
              obtain ⟨h2, rfl⟩ := h4
              obtain ⟨a1, a2⟩ := decLen_ok h1
              obtain ⟨b1, b2⟩ := readN_ok h3
              refine ⟨fun g t hg => ?_, by rw [b1] at a2; simp at a2 ⊢; omega⟩
              obtain ⟨g, rfl, hg⟩ := key g hg
              rw [List.cons_append, dec_cons g ib _ mt hm]
              simp [e, e2, a1, readN_suffix h3, ← h2, e5]
            · simp at h4
        split at h
        · rename_i e0 e1 e3 e4 e
          split at h
          · rename_i e2
            simp only [bind_eq_ok, Except.ok.injEq, Prod.mk.injEq, Prod.exists] at h
            obtain ⟨n, r1, h1, h2, rfl⟩ := h
            obtain ⟨a1, a2⟩ := ih3 _ _ _ h1
            refine ⟨fun g t hg => ?_, by simp; omega⟩
            obtain ⟨g, rfl, hg⟩ := key g hg
            rw [List.cons_append, dec_cons g ib _ mt hm]
            simp [e, e2, a1 g t (by omega), ← h2]
          · rename_i e2
            simp only [bind_eq_ok, Except.ok.injEq, Prod.mk.injEq, Prod.exists] at h
            obtain ⟨n, r1, h1, x, r2, h3, h2, rfl⟩ := h
            obtain ⟨a1, a2⟩ := decLen_ok h1
            obtain ⟨b1, b2⟩ := ih2 _ _ _ _ h3
            refine ⟨fun g t hg => ?_, by simp; omega⟩
            obtain ⟨g, rfl, hg⟩ := key g hg
            rw [List.cons_append, dec_cons g ib _ mt hm]
            simp [e, e2, a1, b1 g t (by omega), ← h2]
        split at h
        · rename_i e0 e1 e3 e4 e6 e
          split at h
          · rename_i e2
            simp only [bind_eq_ok, Except.ok.injEq, Prod.mk.injEq, Prod.exists] at h
            obtain ⟨n, r1, h1, h2, rfl⟩ := h
            obtain ⟨a1, a2⟩ := ih5 _ _ _ h1
            refine ⟨fun g t hg => ?_, by simp; omega⟩
            obtain ⟨g, rfl, hg⟩ := key g hg
            rw [List.cons_append, dec_cons g ib _ mt hm]
            simp [e, e2, a1 g t (by omega), ← h2]
          · rename_i e2
            simp only [bind_eq_ok, Except.ok.injEq, Prod.mk.injEq, Prod.exists] at h
            obtain ⟨n, r1, h1, x, r2, h3, h2, rfl⟩ := h
            obtain ⟨a1, a2⟩ := decLen_ok h1
            obtain ⟨b1, b2⟩ := ih4 _ _ _ _ h3
            refine ⟨fun g t hg => ?_, by simp; omega⟩
            obtain ⟨g, rfl, hg⟩ := key g hg
            rw [List.cons_append, dec_cons g ib _ mt hm]
            simp [e, e2, a1, b1 g t (by omega), ← h2]
        split at h
        · rename_i e0 e1 e3 e4 e6 e7 e
          simp only [bind_eq_ok, Except.ok.injEq, Prod.mk.injEq, Prod.exists] at h
          obtain ⟨n, r1, h1, x, r2, h3, h2, rfl⟩ := h
          obtain ⟨a1, a2⟩ := decLen_ok h1
          obtain ⟨b1, b2⟩ := ih1 _ _ _ h3
          refine ⟨fun g t hg => ?_, by simp; omega⟩
          obtain ⟨g, rfl, hg⟩ := key g hg
          rw [List.cons_append, dec_cons g ib _ mt hm]
          simp [e, a1, b1 g t (by omega), ← h2]
        · rename_i e0 e1 e3 e4 e6 e7 e8
          obtain ⟨a1, a2⟩ := decSpecial_ok h
          refine ⟨fun g t hg => ?_, by simp; omega⟩
          obtain ⟨g, rfl, hg⟩ := key g hg
          rw [List.cons_append, dec_cons g ib _ mt hm]
          simp [e0, e1, e3, e4, e6, e7, e8, a1]
    · intro n bs v r h
      cases n with
      | zero =>
        simp [decArr] at h; obtain ⟨rfl, rfl⟩ := h
        refine ⟨fun g t hg => ?_, Nat.le_refl _⟩
        obtain ⟨g, rfl⟩ : ∃ k, g = k + 1 := ⟨g - 1, by omega⟩
        simp [decArr]
      | succ n =>
        simp only [decArr, bind_eq_ok, Except.ok.injEq, Prod.mk.injEq, Prod.exists] at h
        obtain ⟨x, r1, h1, l, r2, h2, rfl, rfl⟩ := h
        obtain ⟨a1, a2⟩ := ih1 _ _ _ h1
        obtain ⟨b1, b2⟩ := ih2 _ _ _ _ h2
        refine ⟨fun g t hg => ?_, by omega⟩
        obtain ⟨g, rfl⟩ : ∃ k, g = k + 1 := ⟨g - 1, by omega⟩
        simp [decArr, a1 g t (by omega), b1 g t (by omega)]
    · intro bs v r h
      simp only [decArrInf] at h
      split at h
      · rename_i e
        simp at h; obtain ⟨rfl, rfl⟩ := h
        cases bs with
        | nil => simp at e
        | cons a s =>
          refine ⟨fun g t hg => ?_, by simp⟩
          obtain ⟨g, rfl⟩ : ∃ k, g = k + 1 := ⟨g - 1, by omega⟩
          simp at e
          simp [decArrInf, e]
      · rename_i e
        simp only [bind_eq_ok, Except.ok.injEq, Prod.mk.injEq, Prod.exists] at h
        obtain ⟨x, r1, h1, l, r2, h2, rfl, rfl⟩ := h
        have hne : bs ≠ [] := by rintro rfl; exact dec_nil _ _ _ h1
        obtain ⟨a1, a2⟩ := ih1 _ _ _ h1
        obtain ⟨b1, b2⟩ := ih3 _ _ _ h2
        refine ⟨fun g t hg => ?_, by omega⟩
        obtain ⟨g, rfl⟩ : ∃ k, g = k + 1 := ⟨g - 1, by omega⟩
        simp only [decArrInf, head_append hne, e]
        simp [a1 g t (by omega), b1 g t (by omega)]
    · intro n bs v r h
      cases n with
      | zero =>
        simp [decMap] at h; obtain ⟨rfl, rfl⟩ := h
        refine ⟨fun g t hg => ?_, Nat.le_refl _⟩
        obtain ⟨g, rfl⟩ : ∃ k, g = k + 1 := ⟨g - 1, by omega⟩
        simp [decMap]
      | succ n =>
        simp only [decMap, bind_eq_ok, Except.ok.injEq, Prod.mk.injEq, Prod.exists] at h
        obtain ⟨x, r1, h1, y, r3, h3, l, r2, h2, rfl, rfl⟩ := h
        obtain ⟨a1, a2⟩ := ih1 _ _ _ h1
        obtain ⟨c1, c2⟩ := ih1 _ _ _ h3
        obtain ⟨b1, b2⟩ := ih4 _ _ _ _ h2
        refine ⟨fun g t hg => ?_, by omega⟩
        obtain ⟨g, rfl⟩ : ∃ k, g = k + 1 := ⟨g - 1, by omega⟩
        simp [decMap, a1 g t (by omega), c1 g t (by omega), b1 g t (by omega)]
    · intro bs v r h
      simp only [decMapInf] at h
      split at h
      · rename_i e
        simp at h; obtain ⟨rfl, rfl⟩ := h
        cases bs with
        | nil => simp at e
        | cons a s =>
          refine ⟨fun g t hg => ?_, by simp⟩
          obtain ⟨g, rfl⟩ : ∃ k, g = k + 1 := ⟨g - 1, by omega⟩
          simp at e
          simp [decMapInf, e]
      · rename_i e
        simp only [bind_eq_ok, Except.ok.injEq, Prod.mk.injEq, Prod.exists] at h
        obtain ⟨x, r1, h1, y, r3, h3, l, r2, h2, rfl, rfl⟩ := h
        have hne : bs ≠ [] := by rintro rfl; exact dec_nil _ _ _ h1
        obtain ⟨a1, a2⟩ := ih1 _ _ _ h1
        obtain ⟨c1, c2⟩ := ih1 _ _ _ h3
        obtain ⟨b1, b2⟩ := ih5 _ _ _ h2
        refine ⟨fun g t hg => ?_, by omega⟩
        obtain ⟨g, rfl⟩ : ∃ k, g = k + 1 := ⟨g - 1, by omega⟩
        simp only [decMapInf, head_append hne, e]
        simp [a1 g t (by omega), c1 g t (by omega), b1 g t (by omega)]

/-! ### Fuel is never exhausted -/

theorem readN_fuel (n : Nat) (bs : Bytes) : readN n bs ≠ .error .recursionError := by
  unfold readN; split <;> simp

theorem decLen_fuel (ai : Nat) (bs : Bytes) : decLen ai bs ≠ .error .recursionError := by
  unfold decLen
  repeat' split
  all_goals simp [bind_eq_error, readN_fuel]

theorem decSpecial_fuel (ai : Nat) (bs : Bytes) : decSpecial ai bs ≠ .error .recursionError := by
  unfold decSpecial
  repeat' split
  all_goals simp only [ne_eq, reduceCtorEq, not_false_eq_true, bind_eq_error, readN_fuel, false_or,
    and_false, exists_const, not_exists, not_and]
  · intro a _; split <;> simp
  · simp

theorem decChunks_fuel (f mt : Nat) (bs : Bytes) (h : bs.length + 1 ≤ f) :
    decChunks f mt bs ≠ .error .recursionError := by
  induction f generalizing bs with
  | zero => omega
  | succ f ih =>
    cases bs with
    | nil => simp [decChunks]
    | cons ib s =>
      simp only [decChunks]
      split
      · simp
      split
      · intro hc
        simp only [bind_eq_error, decLen_fuel, readN_fuel, false_or, Prod.exists] at hc
        obtain ⟨n, r1, h1, c, r2, h2, hc⟩ := hc
        split at hc
        · simp at hc
        · simp only [bind_eq_error, Prod.exists] at hc
          have l1 := (decLen_ok h1).2
          obtain ⟨l2, _⟩ := readN_ok h2
          rcases hc with hc | ⟨_, _, _, hc⟩
          · refine ih _ ?_ hc
            rw [l2] at l1; simp at l1 h; omega
          · simp at hc
      · simp

def FuelOK (f : Nat) : Prop :=
  (∀ bs : Bytes, 2 * bs.length + 1 ≤ f → dec f bs ≠ .error .recursionError) ∧
  (∀ n (bs : Bytes), 2 * bs.length + 2 ≤ f → decArr f n bs ≠ .error .recursionError) ∧
  (∀ bs : Bytes, 2 * bs.length + 2 ≤ f → decArrInf f bs ≠ .error .recursionError) ∧
  (∀ n (bs : Bytes), 2 * bs.length + 2 ≤ f → decMap f n bs ≠ .error .recursionError) ∧
  (∀ bs : Bytes, 2 * bs.length + 2 ≤ f → decMapInf f bs ≠ .error .recursionError)

theorem fuelOK (f : Nat) : FuelOK f := by
  induction f with
  | zero => exact ⟨fun _ h => by omega, fun _ _ h => by omega, fun _ h => by omega,
      fun _ _ h => by omega, fun _ h => by omega⟩
  | succ f ih =>
    obtain ⟨ih1, ih2, ih3, ih4, ih5⟩ := ih
    have len : ∀ {bs v r}, dec f bs = .ok (v, r) → r.length < bs.length :=
      fun h => ((suffixOK f).1 _ _ _ h).2
    refine ⟨?_, ?_, ?_, ?_, ?_⟩
    · intro bs hl
      cases bs with
      | nil => simp [dec]
      | cons ib s =>
        simp only [List.length_cons] at hl
        generalize hm : ib.toNat / 32 = mt
        rw [dec_cons f ib s mt hm]
        simp only
        intro h
        repeat' split at h
        all_goals
          simp only [bind_eq_error, Prod.exists, reduceCtorEq, and_false, exists_const, or_false,
            decLen_fuel, decSpecial_fuel, readN_fuel, false_or] at h
        · exact decChunks_fuel f 2 s (by omega) h
        · exact decChunks_fuel f 3 s (by omega) h
        · obtain ⟨_, _, _, _, _, _, h⟩ := h
          split at h <;> simp at h
        · exact ih3 s (by omega) h
        · obtain ⟨n, r, h1, h⟩ := h
          have := (decLen_ok h1).2
          exact ih2 n r (by omega) h
        · exact ih5 s (by omega) h
        · obtain ⟨n, r, h1, h⟩ := h
          have := (decLen_ok h1).2
          exact ih4 n r (by omega) h
        · obtain ⟨n, r, h1, h⟩ := h
          have := (decLen_ok h1).2
          exact ih1 r (by omega) h
    · intro n bs hl h
      cases n with
      | zero => simp [decArr] at h
      | succ n =>
        simp only [decArr, bind_eq_error, Prod.exists, reduceCtorEq, and_false, exists_const,
          or_false] at h
        rcases h with h | ⟨v, r, h1, h⟩
        · exact ih1 bs (by omega) h
        · have := len h1
          exact ih2 n r (by omega) h
    · intro bs hl h
      simp only [decArrInf] at h
      split at h
      · simp at h
      · simp only [bind_eq_error, Prod.exists, reduceCtorEq, and_false, exists_const,
          or_false] at h
        rcases h with h | ⟨v, r, h1, h⟩
        · exact ih1 bs (by omega) h
        · have := len h1
          exact ih3 r (by omega) h
    · intro n bs hl h
      cases n with
      | zero => simp [decMap] at h
      | succ n =>
        simp only [decMap, bind_eq_error, Prod.exists, reduceCtorEq, and_false, exists_const,
          or_false] at h
        rcases h with h | ⟨v, r, h1, h | ⟨w, r', h2, h⟩⟩
        · exact ih1 bs (by omega) h
        · have := len h1
          exact ih1 r (by omega) h
        · have := len h1
          have := len h2
          exact ih4 n r' (by omega) h
    · intro bs hl h
      simp only [decMapInf] at h
      split at h
      · simp at h
      · simp only [bind_eq_error, Prod.exists, reduceCtorEq, and_false, exists_const,
          or_false] at h
        rcases h with h | ⟨v, r, h1, h | ⟨w, r', h2, h⟩⟩
        · exact ih1 bs (by omega) h
        · have := len h1
          exact ih1 r (by omega) h
        · have := len h1
          have := len h2
          exact ih5 r' (by omega) h

/-- The fuel of `decodeItem` is always sufficient. -/
theorem decodeItem_fuel (bs : Bytes) : decodeItem bs ≠ .error .recursionError :=
  (fuelOK _).1 bs (Nat.le_refl _)

/-- Bytes after a complete item do not influence the item. -/
theorem decodeItem_append {bs r : Bytes} {v : Val} (h : decodeItem bs = .ok (v, r)) (t : Bytes) :
    decodeItem (bs ++ t) = .ok (v, r ++ t) :=
  ((suffixOK _).1 bs v r h).1 _ t (by simp; omega)

theorem decodeItem_length {bs r : Bytes} {v : Val} (h : decodeItem bs = .ok (v, r)) :
    r.length < bs.length := ((suffixOK _).1 bs v r h).2

end Cose
