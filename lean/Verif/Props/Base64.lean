import Verif.Base64
import Verif.Props.Samples
/-!
# Base64 helpers (C48)
-/
set_option autoImplicit false
namespace Cose

/-! ### Specification -/

/-- `c'` is `c` or its URL-safe replacement (RFC 4648 section 5). -/
def Spec.UrlChar (c c' : Char) : Prop := c' = c ∨ (c = '+' ∧ c' = '-') ∨ (c = '/' ∧ c' = '_')

/-- `t` is `s` with any of its characters replaced by the URL-safe ones. -/
inductive Spec.UrlText : List Char → List Char → Prop
  | nil : UrlText [] []
  | cons {c c' : Char} {s t : List Char} : Spec.UrlChar c c' → UrlText s t → UrlText (c :: s) (c' :: t)

/-- The alphabet of RFC 4648 section 4. -/
def Spec.base64Alphabet : List Char := "ABCDEFGHIJKLMNOPQRSTUVWXYZabcdefghijklmnopqrstuvwxyz0123456789+/".toList

/-! ### Lemmas -/

theorem b64_table : ∀ n : Fin 64, b64Val (b64Dig n.val) = some n.val ∧ b64Dig n.val ≠ '=' ∧ (b64Dig n.val).toNat < 128 ∧
    b64Dig n.val ∈ Spec.base64Alphabet ∧ b64Dig n.val ≠ '-' ∧ b64Dig n.val ≠ '_' := by decide +kernel

theorem b64_dig {n : Nat} (h : n < 64) : b64Val (b64Dig n) = some n ∧ b64Dig n ≠ '=' ∧ (b64Dig n).toNat < 128 ∧
    b64Dig n ∈ Spec.base64Alphabet ∧ b64Dig n ≠ '-' ∧ b64Dig n ≠ '_' := b64_table ⟨n, h⟩

theorem a2b_dig {quad left pads n : Nat} {t : List Char} (h : n < 64) : a2bBase64 quad left pads (b64Dig n :: t) =
      if quad = 0 then a2bBase64 1 n 0 t
      else if quad = 1 then do
        let r ← a2bBase64 2 (n % 16) 0 t
        .ok (UInt8.ofNat (left * 4 + n / 16) :: r)
      else if quad = 2 then do
        let r ← a2bBase64 3 (n % 4) 0 t
        .ok (UInt8.ofNat (left * 16 + n / 4) :: r)
      else (do
        let r ← a2bBase64 0 0 0 t
        .ok (UInt8.ofNat (left * 64 + n) :: r)) := by
  obtain ⟨h1, h2, _⟩ := b64_dig h
  conv => lhs; unfold a2bBase64
  simp only [h1, h2, if_false]

theorem ofNat_toNat {a : UInt8} {n : Nat} (h : n = a.toNat) : UInt8.ofNat n = a := by
  subst h; simp

theorem a2b_encode (b : Bytes) : a2bBase64 0 0 0 (base64encode b) = .ok b := by
  induction b using base64encode.induct with
  | case1 => rfl
  | case2 a =>
    have := a.toNat_lt
    simp only [base64encode]
    rw [a2b_dig (by omega), if_pos rfl, a2b_dig (by omega), if_neg (by decide), if_pos rfl]
    simp only [a2bBase64, reduceCtorEq, if_true, Nat.reduceLeDiff, Nat.reduceAdd, if_false, bind, Except.bind, Except.ok.injEq, List.cons.injEq, and_true]
    exact ofNat_toNat (by omega)
  | case3 a b =>
    have := a.toNat_lt; have := b.toNat_lt
    simp only [base64encode]
    rw [a2b_dig (by omega), if_pos rfl, a2b_dig (by omega), if_neg (by decide), if_pos rfl,
      a2b_dig (by omega), if_neg (by decide), if_neg (by decide), if_pos rfl]
    simp only [a2bBase64, reduceCtorEq, if_true, Nat.reduceLeDiff, Nat.reduceAdd, if_false, bind, Except.bind, Except.ok.injEq, List.cons.injEq, and_true]
    exact ⟨ofNat_toNat (by omega), ofNat_toNat (by omega)⟩
  | case4 a b c t ih =>
    have := a.toNat_lt; have := b.toNat_lt; have := c.toNat_lt
    simp only [base64encode]
    rw [a2b_dig (by omega), if_pos rfl, a2b_dig (by omega), if_neg (by decide), if_pos rfl,
      a2b_dig (by omega), if_neg (by decide), if_neg (by decide), if_pos rfl,
      a2b_dig (by omega), if_neg (by decide), if_neg (by decide), if_neg (by decide), ih]
    simp only [bind, Except.bind, Except.ok.injEq, List.cons.injEq, and_true]
    exact ⟨ofNat_toNat (by omega), ofNat_toNat (by omega), ofNat_toNat (by omega)⟩

/-- Shape of an encoding: digits of the alphabet, then the padding. -/
theorem encode_shape (b : Bytes) : ∃ ds p, base64encode b = ds ++ List.replicate p '=' ∧ (∀ c ∈ ds, ∃ n, n < 64 ∧ c = b64Dig n) ∧
    p < 3 ∧ (ds.length + p) % 4 = 0 ∧ ds.length + p = (b.length + 2) / 3 * 4 ∧ p = (3 - b.length % 3) % 3 := by
  induction b using base64encode.induct with
  | case1 => exact ⟨[], 0, rfl, by simp, by omega, by simp, by simp, by simp⟩
  | case2 a =>
    have := a.toNat_lt
    refine ⟨[b64Dig (a.toNat / 4), b64Dig (a.toNat % 4 * 16)], 2, rfl, ?_, by omega, by simp, by simp, by simp⟩
    simp only [List.mem_cons, List.not_mem_nil, or_false]
    rintro c (rfl | rfl) <;> exact ⟨_, by omega, rfl⟩
  | case3 a b =>
    have := a.toNat_lt; have := b.toNat_lt
    refine ⟨[b64Dig (a.toNat / 4), b64Dig (a.toNat % 4 * 16 + b.toNat / 16), b64Dig (b.toNat % 16 * 4)], 1, rfl, ?_, by omega, by simp, by simp, by simp⟩
    simp only [List.mem_cons, List.not_mem_nil, or_false]
    rintro c (rfl | rfl | rfl) <;> exact ⟨_, by omega, rfl⟩
  | case4 a b c t ih =>
    have := a.toNat_lt; have := b.toNat_lt; have := c.toNat_lt
    obtain ⟨ds, p, h1, h2, h3, h4, h5, h6⟩ := ih
    refine ⟨b64Dig (a.toNat / 4) :: b64Dig (a.toNat % 4 * 16 + b.toNat / 16) ::
      b64Dig (b.toNat % 16 * 4 + c.toNat / 64) :: b64Dig (c.toNat % 64) :: ds, p, by simp [base64encode, h1], ?_, h3, ?_, ?_, ?_⟩
    · simp only [List.mem_cons]
      rintro d (rfl | rfl | rfl | rfl | hd)
      · exact ⟨_, by omega, rfl⟩
      · exact ⟨_, by omega, rfl⟩
      · exact ⟨_, by omega, rfl⟩
      · exact ⟨_, by omega, rfl⟩
      · exact h2 d hd
    · simp only [List.length_cons]; omega
    · simp only [List.length_cons]; omega
    · simp only [List.length_cons]; omega

theorem unUrl_of {c c' : Char} (h : Spec.UrlChar c c') (h1 : c ≠ '-') (h2 : c ≠ '_') : unUrl c' = c := by
  rcases h with rfl | ⟨rfl, rfl⟩ | ⟨rfl, rfl⟩
  · simp [unUrl, h1, h2]
  · decide
  · decide

theorem urlText_map {s t : List Char} (h : Spec.UrlText s t) (hs : ∀ c ∈ s, c ≠ '-' ∧ c ≠ '_') : t.map unUrl = s := by
  induction h with
  | nil => rfl
  | cons hc _ ih =>
    simp only [List.map_cons]
    rw [unUrl_of hc (hs _ (by simp)).1 (hs _ (by simp)).2, ih (fun c hc => hs c (by simp [hc]))]

theorem UrlText.refl (s : List Char) : Spec.UrlText s s := by
  induction s with
  | nil => exact .nil
  | cons c s ih => exact .cons (.inl rfl) ih

/-! ### C48 -/

/-- C48: URL-safe characters may be used instead of the standard ones, and any of the padding may be left out. -/
theorem c48_url {b : Bytes} {u t : List Char} {n : Nat} (h : base64encode b = u ++ List.replicate n '=') (ht : Spec.UrlText u t) :
    base64decode t = .ok (some b) := by
  obtain ⟨ds, p, hs, hd, hp, hm, _, _⟩ := encode_shape b
  have hnp : '=' ∉ ds := fun hh => by
    obtain ⟨k, hk, e⟩ := hd _ hh
    exact (b64_dig hk).2.1 e.symm
  have hu : ∃ q, q ≤ p ∧ u = ds ++ List.replicate q '=' := by
    rw [hs] at h
    rcases List.append_eq_append_iff.mp h with ⟨a, h1, h2⟩ | ⟨a, h1, h2⟩
    · have ha : a = List.replicate a.length '=' := List.eq_replicate_iff.mpr ⟨rfl, fun c hc => by
        have : c ∈ List.replicate p '=' := by rw [h2]; simp [hc]
        exact (List.mem_replicate.mp this).2⟩
      refine ⟨a.length, ?_, by rw [h1]; congr⟩
      have := congrArg List.length h2
      simp at this; omega
    · have ha : a = [] := by
        cases a with
        | nil => rfl
        | cons c t =>
          have : c ∈ List.replicate n '=' := by rw [h2]; simp
          have hc := (List.mem_replicate.mp this).2
          exact absurd (by rw [h1, hc]; simp) hnp
      subst ha
      exact ⟨0, by omega, by simpa using h1.symm⟩
  obtain ⟨q, hq, rfl⟩ := hu
  have hmap : t.map unUrl = ds ++ List.replicate q '=' := urlText_map ht (by
    intro c hc
    rcases List.mem_append.mp hc with hc | hc
    · obtain ⟨k, hk, rfl⟩ := hd _ hc
      exact (b64_dig hk).2.2.2.2
    · rw [(List.mem_replicate.mp hc).2]; decide)
  have hok : b64decode (base64encode b) = .ok b := by
    have : (base64encode b).all (fun c => c.toNat < 128) = true := by
      rw [hs, List.all_eq_true]
      intro c hc
      rcases List.mem_append.mp hc with hc | hc
      · obtain ⟨k, hk, rfl⟩ := hd _ hc
        simpa using (b64_dig hk).2.2.1
      · rw [(List.mem_replicate.mp hc).2]; decide
    simp only [b64decode, this, if_true]
    exact a2b_encode b
  rw [hs] at hok
  have hl : (ds ++ List.replicate q '=').length = ds.length + q := by simp
  unfold base64decode
  simp only [hmap, hl]
  have key : ∀ k, q + k = p → b64decode ((ds ++ List.replicate q '=') ++ List.replicate k '=') = .ok b := by
    intro k hk
    rw [List.append_assoc, List.replicate_append_replicate, hk]
    exact hok
  have hk : q = p ∨ q + 1 = p ∨ q + 2 = p := by omega
  rcases hk with rfl | hk | hk
  · rw [if_pos (by omega)]
    have := key 0 (by omega)
    simp only [List.replicate_zero, List.append_nil] at this
    rw [this]; rfl
  · rw [if_neg (by omega), if_neg (by omega), if_pos (by omega)]
    have := key 1 (by omega)
    simp only [List.replicate_succ, List.replicate_zero] at this
    rw [this]; rfl
  · rw [if_neg (by omega), if_pos (by omega)]
    have := key 2 (by omega)
    simp only [List.replicate_succ, List.replicate_zero] at this
    rw [this]; rfl

/-- C48: decoding inverts encoding. -/
theorem c48_roundtrip (b : Bytes) : base64decode (base64encode b) = .ok (some b) :=
  c48_url (n := 0) (by simp) (UrlText.refl _)

/-- C48: the encoding is in the format of RFC 4648: four characters for every three bytes begun, of the base64 alphabet, the last
of them `=` for every missing byte. -/
theorem c48_format (b : Bytes) : ∃ ds p, base64encode b = ds ++ List.replicate p '=' ∧ (∀ c ∈ ds, c ∈ Spec.base64Alphabet) ∧
    (base64encode b).length = (b.length + 2) / 3 * 4 ∧ p = (3 - b.length % 3) % 3 := by
  obtain ⟨ds, p, h1, h2, _, _, h5, h6⟩ := encode_shape b
  refine ⟨ds, p, h1, ?_, by rw [h1]; simp [h5], h6⟩
  intro c hc
  obtain ⟨n, hn, rfl⟩ := h2 c hc
  exact (b64_dig hn).2.2.2.1

/-- C48: different byte strings have different encodings, also modulo URL-safe characters and missing padding. -/
theorem c48_injective {b b' : Bytes} {u u' t : List Char} {n n' : Nat} (h : base64encode b = u ++ List.replicate n '=')
    (h' : base64encode b' = u' ++ List.replicate n' '=') (ht : Spec.UrlText u t) (ht' : Spec.UrlText u' t) : b = b' := by
  have := c48_url h ht
  rw [c48_url h' ht'] at this
  simpa using this.symm

/-- C48, strings of any other form: a string of length 1 modulo 4 is never decoded, and no exception is raised either (`None`). -/
theorem c48_bad_length {s : List Char} (h : s.length % 4 = 1) : base64decode s = .ok none := by
  simp [base64decode, h]

theorem b64decode_none {s : List Char} (h : base64decode s = .ok none) : s.length % 4 = 1 := by
  unfold base64decode at h
  simp only [List.length_map] at h
  split at h
  · simp [bind_eq_ok] at h
  · split at h
    · simp [bind_eq_ok] at h
    · split at h
      · simp [bind_eq_ok] at h
      · omega

/-- … and only those. -/
theorem c48_none_iff {s : List Char} : base64decode s = .ok none ↔ s.length % 4 = 1 := ⟨b64decode_none, c48_bad_length⟩

/-- Beyond the property: decoding is lax. Characters outside the alphabet are ignored, and so is everything after the padding, so a
mistyped key may decode to other bytes instead of being refused. -/
theorem c48_lax : base64decode "QU!!JDRA==".toList = .ok (some b!"ABCD") ∧ base64decode "QQ==QUJD".toList = .ok (some b!"A") := by
  decide +kernel

example : base64encode b!"Man?>~" = "TWFuPz5+".toList ∧ base64decode "TWFuPz5-".toList = .ok (some b!"Man?>~") ∧
    base64encode b!"Ma" = "TWE".toList ++ List.replicate 1 '=' ∧ base64decode "TWE".toList = .ok (some b!"Ma") ∧
    base64decode "TQ=".toList = .ok (some b!"M") := by decide +kernel

end Cose
