import Verif.RegLemmas
/-!
# C51 — registries are unambiguous
-/
set_option autoImplicit false

namespace Cose

/-- `s` is the name `n` with some letters written in the other case: equal bytes, or an ASCII lower-case
letter in `s` where `n` has its capital. -/
inductive Spec.CaseVariant : Bytes → Bytes → Prop
  | nil : CaseVariant [] []
  | same (a : UInt8) {s n : Bytes} : CaseVariant s n → CaseVariant (a :: s) (a :: n)
  | lower (a : UInt8) {s n : Bytes} : 65 ≤ a → a ≤ 90 → CaseVariant s n → CaseVariant ((a + 32) :: s) (a :: n)

theorem Spec.CaseVariant.upper {s n : Bytes} (h : Spec.CaseVariant s n) (hn : ∀ b ∈ n, b < 128) :
    Cose.upper s = Cose.upper n := by
  have hs : (∀ b ∈ s, b < 128) ∧ s.map upByte = n.map upByte := by
    induction h with
    | nil => simp
    | same a h ih =>
      obtain ⟨h1, h2⟩ := ih (fun b hb => hn b (List.mem_cons_of_mem _ hb))
      have ha := hn a (by simp)
      refine ⟨?_, by simp [h2]⟩
      intro b hb
      rcases List.mem_cons.mp hb with rfl | hb
      · exact ha
      · exact h1 b hb
    | lower a h65 h90 h ih =>
      obtain ⟨h1, h2⟩ := ih (fun b hb => hn b (List.mem_cons_of_mem _ hb))
      have e : ∀ a : UInt8, 65 ≤ a → a ≤ 90 → a + 32 < 128 ∧ upByte (a + 32) = upByte a := by
        intro a
        cases a with | ofBitVec v => revert v; decide +kernel
      refine ⟨?_, by simp [h2, (e a h65 h90).2]⟩
      intro b hb
      rcases List.mem_cons.mp hb with rfl | hb
      · exact (e a h65 h90).1
      · exact h1 b hb
  rw [upper_ascii hs.1, upper_ascii hn, hs.2]

/-- The characters outside ASCII whose capital form, in Python's `str.upper`, is one or more ASCII letters. -/
def Spec.specialLetters : List (Bytes × Bytes) :=
  [(b!"ı", b!"I"), (b!"ſ", b!"S"), (b!"ß", b!"SS"), (b!"ﬀ", b!"FF"), (b!"ﬁ", b!"FI"), (b!"ﬂ", b!"FL"), (b!"ﬃ", b!"FFI"), (b!"ﬄ", b!"FFL"),
    (b!"ﬅ", b!"ST"), (b!"ﬆ", b!"ST")]

/-- The text `s` written in capital letters is the ASCII text `n`. -/
inductive Spec.Spells : Bytes → Bytes → Prop
  | nil : Spells [] []
  | small {a : UInt8} {s n : Bytes} : 65 ≤ a → a ≤ 90 → Spells s n → Spells ((a + 32) :: s) (a :: n)
  | other {a : UInt8} {s n : Bytes} : a < 128 → ¬ (97 ≤ a ∧ a ≤ 122) → Spells s n → Spells (a :: s) (a :: n)
  | special {p : Bytes × Bytes} {s n : Bytes} : p ∈ Spec.specialLetters → Spells s n → Spells (p.1 ++ s) (p.2 ++ n)

theorem upper_cons {a : UInt8} {t : Bytes} (h : a < 128) : upper (a :: t) = upByte a :: upper t := by
  have ne : ∀ b : UInt8, 128 ≤ b → a ≠ b := by
    rintro b hb rfl
    exact absurd h (UInt8.not_lt.mpr hb)
  have h1 := ne 0xC4 (by decide); have h2 := ne 0xC5 (by decide); have h3 := ne 0xC3 (by decide); have h4 := ne 0xEF (by decide)
  match t with
  | [] => rfl
  | [b] => rw [upper.eq_3, if_neg (fun e => h1 e.1), if_neg (fun e => h2 e.1), if_neg (fun e => h3 e.1)]
  | b :: c :: t => rw [upper.eq_4, if_neg (fun e => h1 e.1), if_neg (fun e => h2 e.1), if_neg (fun e => h3 e.1), if_neg (fun e => h4 e.1)]

theorem upper_special {p : Bytes × Bytes} (hp : p ∈ Spec.specialLetters) (t : Bytes) : upper (p.1 ++ t) = p.2 ++ upper t := by
  simp only [Spec.specialLetters, List.mem_cons, List.not_mem_nil, or_false] at hp
  rcases hp with rfl | rfl | rfl | rfl | rfl | rfl | rfl | rfl | rfl | rfl
  · cases t <;> rfl
  · cases t <;> rfl
  · cases t <;> rfl
  all_goals rfl

theorem Spec.Spells.upper {s n : Bytes} (h : Spec.Spells s n) : Cose.upper s = n := by
  induction h with
  | nil => rfl
  | @small a s n h1 h2 _ ih =>
    have e : ∀ a : UInt8, 65 ≤ a → a ≤ 90 → a + 32 < 128 ∧ upByte (a + 32) = a := by
      intro a
      cases a with | ofBitVec v => revert v; decide +kernel
    rw [upper_cons (e a h1 h2).1, (e a h1 h2).2, ih]
  | other h1 h2 _ ih => rw [upper_cons h1, upByte, if_neg h2, ih]
  | special hp _ ih => rw [upper_special hp, ih]

theorem spells_cons {a : UInt8} {s n : Bytes} (h : upByte a < 128) (hs : Spec.Spells s n) : Spec.Spells (a :: s) (upByte a :: n) := by
  unfold upByte at h ⊢
  split
  · rename_i ha
    have e : ∀ a : UInt8, 97 ≤ a ∧ a ≤ 122 → a = (a - 32) + 32 ∧ 65 ≤ a - 32 ∧ a - 32 ≤ 90 := by
      intro a
      cases a with | ofBitVec v => revert v; decide +kernel
    obtain ⟨e1, e2, e3⟩ := e a ha
    have := Spec.Spells.small e2 e3 hs
    rw [← e1] at this
    exact this
  · rename_i ha
    rw [if_neg ha] at h
    exact .other h ha hs

theorem spells_upper (s : Bytes) (h : ∀ b ∈ upper s, b < 128) : Spec.Spells s (upper s) := by
  induction s using upper.induct with
  | case1 => exact .nil
  | case2 a => exact spells_cons (h _ (by simp [upper])) .nil
  | case3 a b h1 => obtain ⟨rfl, rfl⟩ := h1; exact .special (p := (b!"ı", b!"I")) (s := []) (by decide) .nil
  | case4 a b h1 h2 => obtain ⟨rfl, rfl⟩ := h2; exact .special (p := (b!"ſ", b!"S")) (s := []) (by decide) .nil
  | case5 a b h1 h2 h3 => obtain ⟨rfl, rfl⟩ := h3; exact .special (p := (b!"ß", b!"SS")) (s := []) (by decide) .nil
  | case6 a b h1 h2 h3 ih =>
    rw [upper.eq_3, if_neg h1, if_neg h2, if_neg h3] at h ⊢
    exact spells_cons (h _ (by simp)) (ih fun b hb => h b (by simp [hb]))
  | case7 a b c t h1 ih =>
    rw [upper.eq_4, if_pos h1] at h ⊢
    obtain ⟨rfl, rfl⟩ := h1
    exact .special (p := (b!"ı", b!"I")) (by decide) (ih fun b hb => h b (by simp [hb]))
  | case8 a b c t h1 h2 ih =>
    rw [upper.eq_4, if_neg h1, if_pos h2] at h ⊢
    obtain ⟨rfl, rfl⟩ := h2
    exact .special (p := (b!"ſ", b!"S")) (by decide) (ih fun b hb => h b (by simp [hb]))
  | case9 a b c t h1 h2 h3 ih =>
    rw [upper.eq_4, if_neg h1, if_neg h2, if_pos h3] at h ⊢
    obtain ⟨rfl, rfl⟩ := h3
    exact .special (p := (b!"ß", b!"SS")) (by decide) (ih fun b hb => h b (by simp [hb]))
  | case10 a b c t h1 h2 h3 h4 ih =>
    rw [upper.eq_4, if_neg h1, if_neg h2, if_neg h3, if_pos h4] at h ⊢
    obtain ⟨rfl, rfl, h5, h6⟩ := h4
    have ht := ih fun b hb => h b (by simp [hb])
    have cases' : ∀ c : UInt8, 0x80 ≤ c → c ≤ 0x86 → c = 0x80 ∨ c = 0x81 ∨ c = 0x82 ∨ c = 0x83 ∨ c = 0x84 ∨ c = 0x85 ∨ c = 0x86 := by
      intro c
      cases c with | ofBitVec v => revert v; decide +kernel
    rcases cases' c h5 h6 with rfl | rfl | rfl | rfl | rfl | rfl | rfl
    · exact .special (p := (b!"ﬀ", b!"FF")) (by decide) ht
    · exact .special (p := (b!"ﬁ", b!"FI")) (by decide) ht
    · exact .special (p := (b!"ﬂ", b!"FL")) (by decide) ht
    · exact .special (p := (b!"ﬃ", b!"FFI")) (by decide) ht
    · exact .special (p := (b!"ﬄ", b!"FFL")) (by decide) ht
    · exact .special (p := (b!"ﬅ", b!"ST")) (by decide) ht
    · exact .special (p := (b!"ﬆ", b!"ST")) (by decide) ht
  | case11 a b c t h1 h2 h3 h4 ih =>
    rw [upper.eq_4, if_neg h1, if_neg h2, if_neg h3, if_neg h4] at h ⊢
    exact spells_cons (h _ (by simp)) (ih fun b hb => h b (by simp [hb]))

/-- Two registered classes of one registry with the same identifier are the same class. -/
theorem c51_identifiers_unique {r : Reg} {c d : Cls} {n m : Bytes} (hc : (c, n) ∈ registry r)
    (hd : (d, m) ∈ registry r) (h : c.ident = d.ident) : c = d := by
  have h1 := lookupId_mem hc
  have h2 := lookupId_mem hd
  rw [h, h2] at h1
  exact (Option.some.inj h1).symm

/-- Two registered classes of one registry whose full names differ only in letter case are the same
class. -/
theorem c51_names_unique {r : Reg} {c d : Cls} {n m s : Bytes} (hc : (c, n) ∈ registry r)
    (hd : (d, m) ∈ registry r) (hn : Spec.CaseVariant s n) (hm : Spec.CaseVariant s m) :
    c = d ∧ n = m := by
  have e1 := hn.upper (ascii_mem hc)
  have e2 := hm.upper (ascii_mem hd)
  rw [e1, upper_mem hc, upper_mem hd] at e2
  subst e2
  have h1 := lookupName_mem hc
  rw [lookupName_mem hd] at h1
  exact ⟨(Option.some.inj h1).symm, rfl⟩

/-- Each row of a registry lists a class with its `fullname`. -/
theorem c51_fullname {r : Reg} {c : Cls} {n : Bytes} (h : (c, n) ∈ registry r) : fullname c = n :=
  fullname_mem h

/-- `from_id` inverts `identifier` and `fullname` (in any letter case), and is the identity on
classes. -/
theorem c51_from_id {r : Reg} {c : Cls} {n : Bytes} (h : (c, n) ∈ registry r) :
    fromId r (.int c.ident) = .ok (.cls c) ∧ fromId r (.cls c) = .ok (.cls c) ∧
    ∀ s, Spec.CaseVariant s n → fromId r (.text s) = .ok (.cls c) := by
  refine ⟨?_, ?_, ?_⟩
  · simp [fromId, resolve, lookupId_mem h]
  · simp [fromId, resolve, lookupId_mem h]
  · intro s hs
    simp [fromId, resolve, hs.upper (ascii_mem h), upper_mem h, lookupName_mem h]

/-- Conversely, whatever scalar `from_id` resolves is the identifier, the name or the class of a
registered class, which is what it returns. -/
theorem c51_from_id_sound {r : Reg} {v w : Val} (hv : ∀ l, v ≠ .arr l) (h : fromId r v = .ok w) :
    ∃ c n, w = .cls c ∧ (c, n) ∈ registry r ∧
      (v = .int c.ident ∨ (∃ b, v = .bool b ∧ c.ident = if b then 1 else 0) ∨
       (∃ s, v = .text s ∧ Spec.Spells s n) ∨ (∃ d, v = .cls d ∧ d.ident = c.ident)) := by
  cases v <;> simp only [fromId, resolve] at h <;> try simp at h
  case int i =>
    split at h <;> simp at h
    rename_i c hc
    obtain ⟨h1, n, hn⟩ := lookupId_some hc
    exact ⟨c, n, h.symm, hn, .inl (by rw [h1])⟩
  case bool b =>
    split at h <;> simp at h
    rename_i c hc
    obtain ⟨h1, n, hn⟩ := lookupId_some hc
    exact ⟨c, n, h.symm, hn, .inr (.inl ⟨b, rfl, h1⟩)⟩
  case text s =>
    split at h <;> simp at h
    rename_i c hc
    obtain ⟨n, hn, hu⟩ := lookupName_some hc
    rw [upper_mem hn] at hu
    exact ⟨c, n, h.symm, hn, .inr (.inr (.inl ⟨s, rfl, by have := spells_upper s (by rw [← hu]; exact ascii_mem hn); rwa [← hu] at this⟩))⟩
  case cls d =>
    split at h <;> simp at h
    rename_i c hc
    obtain ⟨h1, n, hn⟩ := lookupId_some hc
    exact ⟨c, n, h.symm, hn, .inr (.inr (.inr ⟨d, rfl, h1.symm⟩))⟩
  case arr l => exact absurd rfl (hv l)

/-- A text denotes a registered class exactly if it spells its name: in capital or small letters, or with the few other characters
whose capital form is made of ASCII letters. -/
theorem c51_from_id_text {r : Reg} {s : Bytes} {c : Cls} :
    fromId r (.text s) = .ok (.cls c) ↔ ∃ n, (c, n) ∈ registry r ∧ Spec.Spells s n := by
  constructor
  · intro h
    obtain ⟨c', n, e, hn, hc⟩ := c51_from_id_sound (by simp) h
    cases e
    refine ⟨n, hn, ?_⟩
    rcases hc with e | ⟨_, e, _⟩ | ⟨s', e, hs⟩ | ⟨_, e, _⟩
    · cases e
    · cases e
    · cases e; exact hs
    · cases e
  · rintro ⟨n, hn, hs⟩
    simp [fromId, resolve, hs.upper, lookupName_mem hn]

/-- The text `eſ256`, with a long s, denotes the algorithm. -/
example : fromId .alg (.text b!"eſ256") = .ok (.cls ⟨.alg, -7⟩) :=
  c51_from_id_text.mpr ⟨b!"ES256", by decide +kernel,
    .small (a := 69) (by decide) (by decide) (.special (p := (b!"ſ", b!"S")) (by decide) (.other (by decide) (by decide)
      (.other (by decide) (by decide) (.other (by decide) (by decide) .nil))))⟩

example : ((⟨.alg, -7⟩ : Cls), b!"ES256") ∈ registry .alg := by decide +kernel
example : Spec.CaseVariant b!"Es256" b!"ES256" := .same _ (.lower 83 (by decide) (by decide) (.same _ (.same _ (.same _ .nil))))
example : fromId .alg (.text b!"Es256") = .ok (.cls ⟨.alg, -7⟩) := by
  have h : ((⟨.alg, -7⟩ : Cls), b!"ES256") ∈ registry .alg := by decide +kernel
  exact (c51_from_id h).2.2 _ (.same _ (.lower 83 (by decide) (by decide) (.same _ (.same _ (.same _ .nil)))))

end Cose
