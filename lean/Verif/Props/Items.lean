import Verif.Props.Floats
import Verif.Props.Utf8
import Verif.CborFuel
import Verif.SpecNumber
import Verif.Multi
import Verif.Props.Errors
/-!
# C98: every well-formed encoding of a message or key is read, and read as the data item it denotes
-/
set_option autoImplicit false
namespace Cose

/-! ### Specification: the encodings of a data item (RFC 7049, section 2) -/

/-- `h` is a head with major type `mt` and argument `n`: in the first byte, or in 1, 2, 4 or 8 bytes after it. -/
inductive Spec.Head (mt : Nat) : Nat → Bytes → Prop
  | tiny {n : Nat} : n < 24 → Spec.Head mt n [UInt8.ofNat (mt * 32 + n)]
  | wide {k : Nat} {x : Bytes} : k < 4 → x.length = 2 ^ k → Spec.Head mt (Spec.value x) (UInt8.ofNat (mt * 32 + 24 + k) :: x)

/-- A sequence of Unicode characters in UTF-8. -/
def Spec.IsText (b : Bytes) : Prop := ∃ cs, (∀ c ∈ cs, Spec.Scalar c) ∧ b = Spec.utf8 cs

/-- `b` is an encoding of the data item `v`. -/
inductive Spec.Item : Val → Bytes → Prop
  | uint {n : Nat} {h : Bytes} : Spec.Head 0 n h → Spec.Item (.int n) h
  | nint {n : Nat} {h : Bytes} : Spec.Head 1 n h → Spec.Item (.int (-1 - (n : Int))) h
  | bytes {h x : Bytes} : Spec.Head 2 x.length h → Spec.Item (.bytes x) (h ++ x)
  /-- a byte string in parts, each with a head `p.1` -/
  | bytesParts {ps : List (Bytes × Bytes)} : (∀ p ∈ ps, Spec.Head 2 p.2.length p.1) →
      Spec.Item (.bytes (ps.map (·.2)).flatten) (0x5f :: ((ps.map fun p => p.1 ++ p.2).flatten ++ [0xff]))
  | text {h x : Bytes} : Spec.Head 3 x.length h → Spec.IsText x → Spec.Item (.text x) (h ++ x)
  | textParts {ps : List (Bytes × Bytes)} : (∀ p ∈ ps, Spec.Head 3 p.2.length p.1 ∧ Spec.IsText p.2) →
      Spec.Item (.text (ps.map (·.2)).flatten) (0x7f :: ((ps.map fun p => p.1 ++ p.2).flatten ++ [0xff]))
  /-- a list of items, each with its encoding -/
  | arr {h : Bytes} {ps : List (Val × Bytes)} : Spec.Head 4 ps.length h → (∀ p ∈ ps, Spec.Item p.1 p.2) →
      Spec.Item (.arr (ps.map (·.1))) (h ++ (ps.map (·.2)).flatten)
  | arrParts {ps : List (Val × Bytes)} : (∀ p ∈ ps, Spec.Item p.1 p.2) →
      Spec.Item (.arr (ps.map (·.1))) (0x9f :: ((ps.map (·.2)).flatten ++ [0xff]))
  /-- pairs of items, each with its encoding -/
  | map {h : Bytes} {ps : List ((Val × Bytes) × (Val × Bytes))} : Spec.Head 5 ps.length h →
      (∀ p ∈ ps, Spec.Item p.1.1 p.1.2) → (∀ p ∈ ps, Spec.Item p.2.1 p.2.2) →
      Spec.Item (.map (ps.map fun p => (p.1.1, p.2.1))) (h ++ (ps.map fun p => p.1.2 ++ p.2.2).flatten)
  | mapParts {ps : List ((Val × Bytes) × (Val × Bytes))} : (∀ p ∈ ps, Spec.Item p.1.1 p.1.2) → (∀ p ∈ ps, Spec.Item p.2.1 p.2.2) →
      Spec.Item (.map (ps.map fun p => (p.1.1, p.2.1))) (0xbf :: ((ps.map fun p => p.1.2 ++ p.2.2).flatten ++ [0xff]))
  | tag {n : Nat} {v : Val} {h a : Bytes} : Spec.Head 6 n h → Spec.Item v a → Spec.Item (.tag n v) (h ++ a)
  | simple {n : Nat} : n < 20 → Spec.Item (.simple n) [UInt8.ofNat (0xe0 + n)]
  | wideSimple {n : Nat} : 32 ≤ n → n < 256 → Spec.Item (.simple n) [0xf8, UInt8.ofNat n]
  | no : Spec.Item (.bool false) [0xf4]
  | yes : Spec.Item (.bool true) [0xf5]
  | null : Spec.Item .none [0xf6]
  | undef : Spec.Item .undef [0xf7]
  | half {x : Bytes} {w : Nat} : x.length = 2 → Spec.SameNumber 5 10 (Spec.value x) w → Spec.Item (.float w) (0xf9 :: x)
  | single {x : Bytes} {w : Nat} : x.length = 4 → Spec.SameNumber 8 23 (Spec.value x) w → Spec.Item (.float w) (0xfa :: x)
  | double {x : Bytes} {w : Nat} : x.length = 8 → Spec.SameNumber 11 52 (Spec.value x) w → Spec.Item (.float w) (0xfb :: x)

/-! ### Heads -/

theorem head_complete {mt n : Nat} {h : Bytes} (hm : mt < 8) (hh : Spec.Head mt n h) :
    ∃ ib t, h = ib :: t ∧ ib.toNat / 32 = mt ∧ ib.toNat % 32 < 28 ∧ ∀ r, decLen (ib.toNat % 32) (t ++ r) = .ok (n, r) := by
  cases hh with
  | tiny hn =>
    refine ⟨_, _, rfl, ?_, ?_, ?_⟩
    · simp; omega
    · simp; omega
    · intro r
      have : (UInt8.ofNat (mt * 32 + n)).toNat % 32 = n := by simp; omega
      rw [this]; simp [decLen, hn]
  | @wide k x hk hx =>
    have hv := natOfBytes_value x
    refine ⟨_, _, rfl, ?_, ?_, ?_⟩
    · simp; omega
    · simp; omega
    · intro r
      have : (UInt8.ofNat (mt * 32 + 24 + k)).toNat % 32 = 24 + k := by simp; omega
      rw [this]
      obtain rfl | rfl | rfl | rfl : k = 0 ∨ k = 1 ∨ k = 2 ∨ k = 3 := by omega
      all_goals simp [decLen, readN_append x r _ hx, hv]

theorem head_sound {mt ai n : Nat} {ib : UInt8} {bs r : Bytes} (hm : ib.toNat / 32 = mt) (ha : ib.toNat % 32 = ai) (h : decLen ai bs = .ok (n, r)) :
    ∃ t, bs = t ++ r ∧ Spec.Head mt n (ib :: t) := by
  have hib : ∀ k, k = mt * 32 + ai → ib = UInt8.ofNat k := fun k hk => eq_ofNat8 (by omega)
  have wide : ∀ {k : Nat}, k < 4 → ai = 24 + k → (do let (x, r) ← readN (2 ^ k) bs; .ok (natOfBytes x, r)) = (.ok (n, r) : Res (Nat × Bytes)) →
      ∃ t, bs = t ++ r ∧ Spec.Head mt n (ib :: t) := by
    intro k hk e h
    simp only [bind_eq_ok, Except.ok.injEq, Prod.mk.injEq, Prod.exists] at h
    obtain ⟨x, r', hr, rfl, rfl⟩ := h
    obtain ⟨rfl, hl⟩ := readN_ok hr
    refine ⟨x, rfl, ?_⟩
    rw [hib (mt * 32 + 24 + k) (by omega), natOfBytes_value]
    exact .wide hk hl
  unfold decLen at h
  split at h
  · rename_i hlt
    cases h
    refine ⟨[], rfl, ?_⟩
    rw [hib _ rfl]
    exact .tiny hlt
  split at h
  · exact wide (k := 0) (by omega) (by omega) h
  split at h
  · exact wide (k := 1) (by omega) (by omega) h
  split at h
  · exact wide (k := 2) (by omega) (by omega) h
  split at h
  · exact wide (k := 3) (by omega) (by omega) h
  · simp at h

theorem head_pos {mt n : Nat} {h : Bytes} (hh : Spec.Head mt n h) : 1 ≤ h.length := by cases hh <;> simp

theorem isText_iff {b : Bytes} : validUtf8 b = true ↔ Spec.IsText b := c89_text b

theorem value_lt {x : Bytes} {n : Nat} (h : x.length = n) : Spec.value x < 256 ^ n := by
  rw [← natOfBytes_value, ← h]; exact natOfBytes_lt x

/-! ### Every encoding is read -/

theorem item_pos {v : Val} {a : Bytes} (h : Spec.Item v a) : ∃ ib t, a = ib :: t ∧ ib ≠ 0xff := by
  have hd : ∀ {mt n : Nat} {h x : Bytes}, mt < 7 → Spec.Head mt n h → ∃ ib t, h ++ x = ib :: t ∧ ib ≠ 0xff := by
    intro mt n h x hm hh
    obtain ⟨ib, t, rfl, h1, h2, _⟩ := head_complete (by omega) hh
    refine ⟨ib, t ++ x, rfl, ?_⟩
    rintro rfl
    simp at h1; omega
  cases h with
  | uint h => simpa using hd (x := []) (by omega) h
  | nint h => simpa using hd (x := []) (by omega) h
  | bytes h => exact hd (by omega) h
  | text h => exact hd (by omega) h
  | arr h => exact hd (by omega) h
  | map h => exact hd (by omega) h
  | tag h => exact hd (by omega) h
  | simple hn =>
    refine ⟨_, _, rfl, fun e => ?_⟩
    have := congrArg UInt8.toNat e
    simp at this; omega
  | wideSimple | no | yes | null | undef | half | single | double | bytesParts | textParts | arrParts | mapParts => exact ⟨_, _, rfl, by decide⟩

theorem chunks_complete {mt : Nat} (hm : mt < 7) {ps : List (Bytes × Bytes)} (h : ∀ p ∈ ps, Spec.Head mt p.2.length p.1 ∧ (mt = 3 → validUtf8 p.2 = true))
    (r : Bytes) (f : Nat) (hf : ((ps.map fun p => p.1 ++ p.2).flatten).length + 1 ≤ f) :
    decChunks f mt ((ps.map fun p => p.1 ++ p.2).flatten ++ 0xff :: r) = .ok ((ps.map (·.2)).flatten, r) := by
  induction ps generalizing f with
  | nil =>
    obtain ⟨f, rfl⟩ : ∃ k, f = k + 1 := ⟨f - 1, by simp at hf; omega⟩
    simp [decChunks]
  | cons p ps ih =>
    obtain ⟨hh, hu⟩ := h p (by simp)
    obtain ⟨ib, t, e, h1, h2, h3⟩ := head_complete (by omega) hh
    obtain ⟨f, rfl⟩ : ∃ k, f = k + 1 := ⟨f - 1, by omega⟩
    have hne : ib ≠ 0xff := by rintro rfl; simp at h1; omega
    simp only [List.map_cons, List.flatten_cons, e, List.cons_append, List.append_assoc, List.length_cons, List.length_append] at hf ⊢
    have hc : ¬ (mt = 3 ∧ validUtf8 p.2 = false) := fun hc => by simp [hu hc.1] at hc
    rw [decChunks]
    simp only [if_neg hne, if_pos h1, h3, ok_bind, readN_append p.2 _ _ rfl, if_neg hc]
    rw [ih (fun q hq => h q (by simp [hq])) f (by omega)]
    rfl

/-- The items of a list, read one after the other. -/
theorem arr_complete {ps : List (Val × Bytes)}
    (h : ∀ p ∈ ps, 1 ≤ p.2.length ∧ p.2.head? ≠ some 0xff ∧ ∀ (r : Bytes) (f : Nat), 2 * p.2.length + 1 ≤ f → dec f (p.2 ++ r) = .ok (p.1, r)) (r : Bytes) (f : Nat)
    (hf : 2 * ((ps.map (·.2)).flatten).length + 2 ≤ f) :
    decArr f ps.length ((ps.map (·.2)).flatten ++ r) = .ok (ps.map (·.1), r) ∧ decArrInf f ((ps.map (·.2)).flatten ++ 0xff :: r) = .ok (ps.map (·.1), r) := by
  induction ps generalizing f with
  | nil =>
    obtain ⟨f, rfl⟩ : ∃ k, f = k + 1 := ⟨f - 1, by omega⟩
    simp [decArr, decArrInf]
  | cons p ps ih =>
    obtain ⟨h0, h1, h2⟩ := h p (by simp)
    obtain ⟨f, rfl⟩ : ∃ k, f = k + 1 := ⟨f - 1, by omega⟩
    simp only [List.map_cons, List.flatten_cons, List.append_assoc, List.length_cons, List.length_append] at hf ⊢
    obtain ⟨i1, i2⟩ := ih (fun q hq => h q (by simp [hq])) f (by omega)
    have hne : p.2 ≠ [] := fun e => by simp [e] at h0
    refine ⟨?_, ?_⟩
    · rw [decArr, h2 _ f (by omega)]
      simp only [ok_bind, i1]
    · rw [decArrInf, head_append hne, if_neg h1, h2 _ f (by omega)]
      simp only [ok_bind, i2]

theorem map_complete {ps : List ((Val × Bytes) × (Val × Bytes))}
    (h : ∀ p ∈ ps, 1 ≤ p.1.2.length ∧ p.1.2.head? ≠ some 0xff ∧ ∀ (r : Bytes) (f : Nat), 2 * p.1.2.length + 1 ≤ f → dec f (p.1.2 ++ r) = .ok (p.1.1, r))
    (h' : ∀ p ∈ ps, 1 ≤ p.2.2.length ∧ p.2.2.head? ≠ some 0xff ∧ ∀ (r : Bytes) (f : Nat), 2 * p.2.2.length + 1 ≤ f → dec f (p.2.2 ++ r) = .ok (p.2.1, r)) (r : Bytes) (f : Nat)
    (hf : 2 * ((ps.map fun p => p.1.2 ++ p.2.2).flatten).length + 2 ≤ f) :
    decMap f ps.length ((ps.map fun p => p.1.2 ++ p.2.2).flatten ++ r) = .ok (ps.map fun p => (p.1.1, p.2.1), r) ∧
    decMapInf f ((ps.map fun p => p.1.2 ++ p.2.2).flatten ++ 0xff :: r) = .ok (ps.map fun p => (p.1.1, p.2.1), r) := by
  induction ps generalizing f with
  | nil =>
    obtain ⟨f, rfl⟩ : ∃ k, f = k + 1 := ⟨f - 1, by omega⟩
    simp [decMap, decMapInf]
  | cons p ps ih =>
    obtain ⟨h0, h1, h2⟩ := h p (by simp)
    obtain ⟨h3, _, h4⟩ := h' p (by simp)
    obtain ⟨f, rfl⟩ : ∃ k, f = k + 1 := ⟨f - 1, by omega⟩
    simp only [List.map_cons, List.flatten_cons, List.append_assoc, List.length_cons, List.length_append] at hf ⊢
    obtain ⟨i1, i2⟩ := ih (fun q hq => h q (by simp [hq])) (fun q hq => h' q (by simp [hq])) f (by omega)
    have hne : p.1.2 ≠ [] := fun e => by simp [e] at h0
    refine ⟨?_, ?_⟩
    · rw [decMap, h2 _ f (by omega)]
      simp only [ok_bind]
      rw [h4 _ f (by omega)]
      simp only [ok_bind, i1]
    · rw [decMapInf, head_append hne, if_neg h1, h2 _ f (by omega)]
      simp only [ok_bind]
      rw [h4 _ f (by omega)]
      simp only [ok_bind, i2]

theorem item_complete {v : Val} {a : Bytes} (h : Spec.Item v a) :
    1 ≤ a.length ∧ a.head? ≠ some 0xff ∧ ∀ (r : Bytes) (f : Nat), 2 * a.length + 1 ≤ f → dec f (a ++ r) = .ok (v, r) := by
  obtain ⟨ib0, t0, e0, hne0⟩ := item_pos h
  refine ⟨by simp [e0], by simp [e0, hne0], ?_⟩
  clear e0 hne0 ib0 t0
  have aux : ∀ {v : Val} {a : Bytes}, Spec.Item v a → (∀ (r : Bytes) (f : Nat), 2 * a.length + 1 ≤ f → dec f (a ++ r) = .ok (v, r)) →
      1 ≤ a.length ∧ a.head? ≠ some 0xff ∧ ∀ (r : Bytes) (f : Nat), 2 * a.length + 1 ≤ f → dec f (a ++ r) = .ok (v, r) := by
    intro v a hi hd
    obtain ⟨ib0, t0, e0, hne0⟩ := item_pos hi
    exact ⟨by simp [e0], by simp [e0, hne0], hd⟩
  induction h with
  | uint h =>
    intro r f hf
    obtain ⟨f, rfl⟩ : ∃ k, f = k + 1 := ⟨f - 1, by omega⟩
    obtain ⟨ib, t, rfl, h1, h2, h3⟩ := head_complete (by omega) h
    rw [List.cons_append, dec_cons f ib _ _ h1]
    simp [h3]
  | nint h =>
    intro r f hf
    obtain ⟨f, rfl⟩ : ∃ k, f = k + 1 := ⟨f - 1, by omega⟩
    obtain ⟨ib, t, rfl, h1, h2, h3⟩ := head_complete (by omega) h
    rw [List.cons_append, dec_cons f ib _ _ h1]
    simp [h3]
  | @bytes _ x h =>
    intro r f hf
    obtain ⟨f, rfl⟩ : ∃ k, f = k + 1 := ⟨f - 1, by omega⟩
    obtain ⟨ib, t, rfl, h1, h2, h3⟩ := head_complete (by omega) h
    rw [List.append_assoc, List.cons_append, dec_cons f ib _ _ h1]
    simp [h3, show ¬ ib.toNat % 32 = 31 by omega, readN_append x r _ rfl]
  | @bytesParts ps h =>
    intro r f hf
    obtain ⟨f, rfl⟩ : ∃ k, f = k + 1 := ⟨f - 1, by omega⟩
    have := chunks_complete (mt := 2) (by omega) (fun p hp => ⟨h p hp, by omega⟩) r f (by simp at hf ⊢; omega)
    rw [List.cons_append, dec_cons f _ _ 2 (by decide), List.append_assoc, List.singleton_append]
    simp [this]
  | @text _ x h hu =>
    intro r f hf
    obtain ⟨f, rfl⟩ : ∃ k, f = k + 1 := ⟨f - 1, by omega⟩
    obtain ⟨ib, t, rfl, h1, h2, h3⟩ := head_complete (by omega) h
    rw [List.append_assoc, List.cons_append, dec_cons f ib _ _ h1]
    simp [h3, show ¬ ib.toNat % 32 = 31 by omega, readN_append x r _ rfl, isText_iff.mpr hu]
  | @textParts ps h =>
    intro r f hf
    obtain ⟨f, rfl⟩ : ∃ k, f = k + 1 := ⟨f - 1, by omega⟩
    have := chunks_complete (mt := 3) (by omega) (fun p hp => ⟨(h p hp).1, fun _ => isText_iff.mpr (h p hp).2⟩) r f (by simp at hf ⊢; omega)
    rw [List.cons_append, dec_cons f _ _ 3 (by decide), List.append_assoc, List.singleton_append]
    simp [this]
  | @arr _ ps h hi ih =>
    intro r f hf
    obtain ⟨f, rfl⟩ : ∃ k, f = k + 1 := ⟨f - 1, by omega⟩
    obtain ⟨ib, t, rfl, h1, h2, h3⟩ := head_complete (by omega) h
    have := (arr_complete (fun p hp => aux (hi p hp) (ih p hp)) r f (by simp at hf ⊢; omega)).1
    rw [List.append_assoc, List.cons_append, dec_cons f ib _ _ h1]
    simp [h3, show ¬ ib.toNat % 32 = 31 by omega, this]
  | @arrParts ps hi ih =>
    intro r f hf
    obtain ⟨f, rfl⟩ : ∃ k, f = k + 1 := ⟨f - 1, by omega⟩
    have := (arr_complete (fun p hp => aux (hi p hp) (ih p hp)) r f (by simp at hf ⊢; omega)).2
    rw [List.cons_append, dec_cons f _ _ 4 (by decide), List.append_assoc, List.singleton_append]
    simp [this]
  | @map _ ps h hi hi' ih ih' =>
    intro r f hf
    obtain ⟨f, rfl⟩ : ∃ k, f = k + 1 := ⟨f - 1, by omega⟩
    obtain ⟨ib, t, rfl, h1, h2, h3⟩ := head_complete (by omega) h
    have := (map_complete (fun p hp => aux (hi p hp) (ih p hp)) (fun p hp => aux (hi' p hp) (ih' p hp)) r f (by simp at hf ⊢; omega)).1
    rw [List.append_assoc, List.cons_append, dec_cons f ib _ _ h1]
    simp [h3, show ¬ ib.toNat % 32 = 31 by omega, this]
  | @mapParts ps hi hi' ih ih' =>
    intro r f hf
    obtain ⟨f, rfl⟩ : ∃ k, f = k + 1 := ⟨f - 1, by omega⟩
    have := (map_complete (fun p hp => aux (hi p hp) (ih p hp)) (fun p hp => aux (hi' p hp) (ih' p hp)) r f (by simp at hf ⊢; omega)).2
    rw [List.cons_append, dec_cons f _ _ 5 (by decide), List.append_assoc, List.singleton_append]
    simp [this]
  | @tag n v _ a h _ ih =>
    intro r f hf
    obtain ⟨f, rfl⟩ : ∃ k, f = k + 1 := ⟨f - 1, by omega⟩
    obtain ⟨ib, t, rfl, h1, h2, h3⟩ := head_complete (by omega) h
    have := ih r f (by simp at hf ⊢; omega)
    rw [List.append_assoc, List.cons_append, dec_cons f ib _ _ h1]
    simp [h3, this]
  | @simple n hn =>
    intro r f hf
    exact encSimple_dec (b := n) (by simp only [encSimple]; rw [if_pos hn]) (f - 1) r |> fun h => by
      rw [show f - 1 + 1 = f by omega] at h; exact h
  | @wideSimple n hn hn' =>
    intro r f hf
    exact encSimple_dec (b := n) (by simp only [encSimple]; rw [if_neg (by omega), if_pos ⟨hn, hn'⟩]) (f - 1) r |> fun h => by
      rw [show f - 1 + 1 = f by omega] at h; exact h
  | no | yes | null | undef =>
    intro r f hf
    obtain ⟨f, rfl⟩ : ∃ k, f = k + 1 := ⟨f - 1, by omega⟩
    simp [dec, decSpecial]
  | @half x w hx hs =>
    intro r f hf
    obtain ⟨f, rfl⟩ : ∃ k, f = k + 1 := ⟨f - 1, by omega⟩
    have := sameNumber_unique hs (widen_same (.inl ⟨rfl, rfl⟩) (value_lt hx))
    rw [List.cons_append, dec_cons f _ _ 7 (by decide)]
    simp [decSpecial, readN_append x r _ hx, natOfBytes_value, this]
  | @single x w hx hs =>
    intro r f hf
    obtain ⟨f, rfl⟩ : ∃ k, f = k + 1 := ⟨f - 1, by omega⟩
    have := sameNumber_unique hs (widen_same (.inr ⟨rfl, rfl⟩) (value_lt hx))
    rw [List.cons_append, dec_cons f _ _ 7 (by decide)]
    simp [decSpecial, readN_append x r _ hx, natOfBytes_value, this]
  | @double x w hx hs =>
    intro r f hf
    obtain ⟨f, rfl⟩ : ∃ k, f = k + 1 := ⟨f - 1, by omega⟩
    have := sameNumber_unique hs (double_same (value_lt hx))
    rw [List.cons_append, dec_cons f _ _ 7 (by decide)]
    simp [decSpecial, readN_append x r _ hx, natOfBytes_value, this]

/-! ### Nothing else is read -/

theorem chunks_sound {f mt : Nat} {bs b r : Bytes} (h : decChunks f mt bs = .ok (b, r)) :
    ∃ ps : List (Bytes × Bytes), (∀ p ∈ ps, Spec.Head mt p.2.length p.1 ∧ (mt = 3 → validUtf8 p.2 = true)) ∧ b = (ps.map (·.2)).flatten ∧
      bs = (ps.map fun p => p.1 ++ p.2).flatten ++ 0xff :: r := by
  induction f generalizing bs b r with
  | zero => simp [decChunks] at h
  | succ f ih =>
    cases bs with
    | nil => simp [decChunks] at h
    | cons ib s =>
      simp only [decChunks] at h
      split at h
      · rename_i e
        cases h
        exact ⟨[], by simp, rfl, by simp [e]⟩
      · split at h
        · rename_i e1
          simp only [bind_eq_ok, Prod.exists] at h
          obtain ⟨n, r1, h1, c, r2, h2, h⟩ := h
          split at h
          · simp at h
          · rename_i e2
            simp only [bind_eq_ok, Prod.exists, Except.ok.injEq, Prod.mk.injEq] at h
            obtain ⟨cs, r3, h3, rfl, rfl⟩ := h
            obtain ⟨ps, i1, i2, i3⟩ := ih h3
            obtain ⟨t, rfl, hh⟩ := head_sound e1 rfl h1
            obtain ⟨rfl, rfl⟩ := readN_ok h2
            refine ⟨(ib :: t, c) :: ps, ?_, by simp [i2], by simp [i3]⟩
            intro p hp
            rcases List.mem_cons.mp hp with rfl | hp
            · refine ⟨hh, fun h3 => ?_⟩
              cases hv : validUtf8 c with
              | true => rfl
              | false => exact absurd ⟨h3, hv⟩ e2
            · exact i1 p hp
        · simp at h

theorem special_sound {ib : UInt8} {ai : Nat} {bs r : Bytes} {v : Val} (hm : ib.toNat / 32 = 7) (ha : ib.toNat % 32 = ai) (h : decSpecial ai bs = .ok (v, r)) :
    ∃ a, ib :: bs = a ++ r ∧ Spec.Item v a := by
  have hib : ib = UInt8.ofNat (224 + ai) := eq_ofNat8 (by omega)
  unfold decSpecial at h
  split at h
  · rename_i hn
    cases h
    exact ⟨[ib], rfl, hib ▸ .simple hn⟩
  split at h
  · rename_i e; subst e; cases h; exact ⟨[ib], rfl, hib ▸ .no⟩
  split at h
  · rename_i e; subst e; cases h; exact ⟨[ib], rfl, hib ▸ .yes⟩
  split at h
  · rename_i e; subst e; cases h; exact ⟨[ib], rfl, hib ▸ .null⟩
  split at h
  · rename_i e; subst e; cases h; exact ⟨[ib], rfl, hib ▸ .undef⟩
  split at h
  · rename_i e; subst e
    simp only [bind_eq_ok, Prod.exists] at h
    obtain ⟨x, r1, h1, h⟩ := h
    obtain ⟨rfl, hl⟩ := readN_ok h1
    split at h
    · simp at h
    · rename_i e
      cases h
      match x, hl with
      | [y], _ =>
        have hy : natOfBytes [y] = y.toNat := by simp [natOfBytes]
        refine ⟨[ib, y], rfl, ?_⟩
        rw [hy] at e ⊢
        have := Spec.Item.wideSimple (n := y.toNat) (by omega) (UInt8.toNat_lt y)
        rw [UInt8.ofNat_toNat] at this
        rw [hib]
        exact this
  split at h
  · rename_i e; subst e
    simp only [bind_eq_ok, Prod.exists, Except.ok.injEq, Prod.mk.injEq] at h
    obtain ⟨x, r1, h1, rfl, rfl⟩ := h
    obtain ⟨rfl, hl⟩ := readN_ok h1
    refine ⟨ib :: x, rfl, ?_⟩
    rw [hib, natOfBytes_value]
    exact .half hl (widen_same (.inl ⟨rfl, rfl⟩) (value_lt hl))
  split at h
  · rename_i e; subst e
    simp only [bind_eq_ok, Prod.exists, Except.ok.injEq, Prod.mk.injEq] at h
    obtain ⟨x, r1, h1, rfl, rfl⟩ := h
    obtain ⟨rfl, hl⟩ := readN_ok h1
    refine ⟨ib :: x, rfl, ?_⟩
    rw [hib, natOfBytes_value]
    exact .single hl (widen_same (.inr ⟨rfl, rfl⟩) (value_lt hl))
  split at h
  · rename_i e; subst e
    simp only [bind_eq_ok, Prod.exists, Except.ok.injEq, Prod.mk.injEq] at h
    obtain ⟨x, r1, h1, rfl, rfl⟩ := h
    obtain ⟨rfl, hl⟩ := readN_ok h1
    refine ⟨ib :: x, rfl, ?_⟩
    rw [hib, natOfBytes_value]
    exact .double hl (double_same (value_lt hl))
  · simp at h

/-- What is read, for fuel `f`, by the five decoders. -/
def SoundOK (f : Nat) : Prop :=
  (∀ bs v r, dec f bs = .ok (v, r) → ∃ a, bs = a ++ r ∧ Spec.Item v a) ∧
  (∀ n bs l r, decArr f n bs = .ok (l, r) → ∃ ps : List (Val × Bytes), (∀ p ∈ ps, Spec.Item p.1 p.2) ∧ ps.length = n ∧ l = ps.map (·.1) ∧
    bs = (ps.map (·.2)).flatten ++ r) ∧
  (∀ bs l r, decArrInf f bs = .ok (l, r) → ∃ ps : List (Val × Bytes), (∀ p ∈ ps, Spec.Item p.1 p.2) ∧ l = ps.map (·.1) ∧
    bs = (ps.map (·.2)).flatten ++ 0xff :: r) ∧
  (∀ n bs l r, decMap f n bs = .ok (l, r) → ∃ ps : List ((Val × Bytes) × (Val × Bytes)), (∀ p ∈ ps, Spec.Item p.1.1 p.1.2) ∧
    (∀ p ∈ ps, Spec.Item p.2.1 p.2.2) ∧ ps.length = n ∧ l = ps.map (fun p => (p.1.1, p.2.1)) ∧ bs = (ps.map fun p => p.1.2 ++ p.2.2).flatten ++ r) ∧
  (∀ bs l r, decMapInf f bs = .ok (l, r) → ∃ ps : List ((Val × Bytes) × (Val × Bytes)), (∀ p ∈ ps, Spec.Item p.1.1 p.1.2) ∧
    (∀ p ∈ ps, Spec.Item p.2.1 p.2.2) ∧ l = ps.map (fun p => (p.1.1, p.2.1)) ∧ bs = (ps.map fun p => p.1.2 ++ p.2.2).flatten ++ 0xff :: r)

theorem head_some {bs : Bytes} {x : UInt8} (h : bs.head? = some x) : bs = x :: bs.tail := by
  cases bs with
  | nil => simp at h
  | cons a t => simp at h; simp [h]

theorem soundOK (f : Nat) : SoundOK f := by
  induction f with
  | zero => refine ⟨?_, ?_, ?_, ?_, ?_⟩ <;> intros <;> simp_all [dec, decArr, decArrInf, decMap, decMapInf]
  | succ f ih =>
    obtain ⟨ih1, ih2, ih3, ih4, ih5⟩ := ih
    refine ⟨?_, ?_, ?_, ?_, ?_⟩
    · intro bs v r h
      cases bs with
      | nil => simp [dec] at h
      | cons ib s =>
        generalize hm : ib.toNat / 32 = mt
        have hlt := UInt8.toNat_lt ib
        have inf : ∀ k, k = mt * 32 + 31 → ib.toNat % 32 = 31 → ib = UInt8.ofNat k := fun k hk h31 => eq_ofNat8 (by omega)
        rw [dec_cons f ib s mt hm] at h
        simp only at h
        split at h
        · rename_i e; subst e
          simp only [bind_eq_ok, Except.ok.injEq, Prod.mk.injEq, Prod.exists] at h
          obtain ⟨n, r1, h1, rfl, rfl⟩ := h
          obtain ⟨t, rfl, hh⟩ := head_sound hm rfl h1
          exact ⟨ib :: t, rfl, .uint hh⟩
        split at h
        · rename_i e; subst e
          simp only [bind_eq_ok, Except.ok.injEq, Prod.mk.injEq, Prod.exists] at h
          obtain ⟨n, r1, h1, rfl, rfl⟩ := h
          obtain ⟨t, rfl, hh⟩ := head_sound hm rfl h1
          exact ⟨ib :: t, rfl, .nint hh⟩
        split at h
        · rename_i e; subst e
          split at h
          · rename_i e2
            simp only [bind_eq_ok, Except.ok.injEq, Prod.mk.injEq, Prod.exists] at h
            obtain ⟨b, r1, h1, rfl, rfl⟩ := h
            obtain ⟨ps, p1, rfl, rfl⟩ := chunks_sound h1
            rw [inf 0x5f rfl e2]
            exact ⟨_, by simp, .bytesParts fun p hp => (p1 p hp).1⟩
          · simp only [bind_eq_ok, Except.ok.injEq, Prod.mk.injEq, Prod.exists] at h
            obtain ⟨n, r1, h1, x, r2, h3, rfl, rfl⟩ := h
            obtain ⟨t, rfl, hh⟩ := head_sound hm rfl h1
            obtain ⟨rfl, rfl⟩ := readN_ok h3
            exact ⟨_, by simp, .bytes hh⟩
        split at h
        · rename_i e; subst e
          split at h
          · rename_i e2
            simp only [bind_eq_ok, Except.ok.injEq, Prod.mk.injEq, Prod.exists] at h
            obtain ⟨b, r1, h1, rfl, rfl⟩ := h
            obtain ⟨ps, p1, rfl, rfl⟩ := chunks_sound h1
            rw [inf 0x7f rfl e2]
            exact ⟨_, by simp, .textParts fun p hp => ⟨(p1 p hp).1, isText_iff.mp ((p1 p hp).2 rfl)⟩⟩
          · simp only [bind_eq_ok, Prod.exists] at h
            obtain ⟨n, r1, h1, x, r2, h3, h4⟩ := h
            split at h4
            · rename_i e5
              cases h4
              obtain ⟨t, rfl, hh⟩ := head_sound hm rfl h1
              obtain ⟨rfl, rfl⟩ := readN_ok h3
              exact ⟨_, by simp, .text hh (isText_iff.mp e5)⟩
            · simp at h4
        split at h
        · rename_i e; subst e
          split at h
          · rename_i e2
            simp only [bind_eq_ok, Except.ok.injEq, Prod.mk.injEq, Prod.exists] at h
            obtain ⟨b, r1, h1, rfl, rfl⟩ := h
            obtain ⟨ps, p1, rfl, rfl⟩ := ih3 _ _ _ h1
            rw [inf 0x9f rfl e2]
            exact ⟨_, by simp, .arrParts p1⟩
          · simp only [bind_eq_ok, Except.ok.injEq, Prod.mk.injEq, Prod.exists] at h
            obtain ⟨n, r1, h1, x, r2, h3, rfl, rfl⟩ := h
            obtain ⟨t, rfl, hh⟩ := head_sound hm rfl h1
            obtain ⟨ps, p1, rfl, rfl, rfl⟩ := ih2 _ _ _ _ h3
            exact ⟨_, by simp, .arr hh p1⟩
        split at h
        · rename_i e; subst e
          split at h
          · rename_i e2
            simp only [bind_eq_ok, Except.ok.injEq, Prod.mk.injEq, Prod.exists] at h
            obtain ⟨b, r1, h1, rfl, rfl⟩ := h
            obtain ⟨ps, p1, p2, rfl, rfl⟩ := ih5 _ _ _ h1
            rw [inf 0xbf rfl e2]
            exact ⟨_, by simp, .mapParts p1 p2⟩
          · simp only [bind_eq_ok, Except.ok.injEq, Prod.mk.injEq, Prod.exists] at h
            obtain ⟨n, r1, h1, x, r2, h3, rfl, rfl⟩ := h
            obtain ⟨t, rfl, hh⟩ := head_sound hm rfl h1
            obtain ⟨ps, p1, p2, rfl, rfl, rfl⟩ := ih4 _ _ _ _ h3
            exact ⟨_, by simp, .map hh p1 p2⟩
        split at h
        · rename_i e; subst e
          simp only [bind_eq_ok, Except.ok.injEq, Prod.mk.injEq, Prod.exists] at h
          obtain ⟨n, r1, h1, x, r2, h3, rfl, rfl⟩ := h
          obtain ⟨t, rfl, hh⟩ := head_sound hm rfl h1
          obtain ⟨a, rfl, ha⟩ := ih1 _ _ _ h3
          exact ⟨_, by simp, .tag hh ha⟩
        · exact special_sound (by omega) rfl h
    · intro n bs l r h
      cases n with
      | zero => simp [decArr] at h; obtain ⟨rfl, rfl⟩ := h; exact ⟨[], by simp, rfl, rfl, rfl⟩
      | succ n =>
        simp only [decArr, bind_eq_ok, Except.ok.injEq, Prod.mk.injEq, Prod.exists] at h
        obtain ⟨x, r1, h1, l, r2, h2, rfl, rfl⟩ := h
        obtain ⟨a, rfl, ha⟩ := ih1 _ _ _ h1
        obtain ⟨ps, p1, rfl, rfl, rfl⟩ := ih2 _ _ _ _ h2
        exact ⟨(x, a) :: ps, by simp; exact ⟨ha, fun y b hp => p1 _ hp⟩, by simp, by simp, by simp⟩
    · intro bs l r h
      simp only [decArrInf] at h
      split at h
      · rename_i e
        have := head_some e
        cases h
        exact ⟨[], by simp, rfl, by simpa using this⟩
      · simp only [bind_eq_ok, Except.ok.injEq, Prod.mk.injEq, Prod.exists] at h
        obtain ⟨x, r1, h1, l, r2, h2, rfl, rfl⟩ := h
        obtain ⟨a, rfl, ha⟩ := ih1 _ _ _ h1
        obtain ⟨ps, p1, rfl, rfl⟩ := ih3 _ _ _ h2
        exact ⟨(x, a) :: ps, by simp; exact ⟨ha, fun y b hp => p1 _ hp⟩, by simp, by simp⟩
    · intro n bs l r h
      cases n with
      | zero => simp [decMap] at h; obtain ⟨rfl, rfl⟩ := h; exact ⟨[], by simp, by simp, rfl, rfl, rfl⟩
      | succ n =>
        simp only [decMap, bind_eq_ok, Except.ok.injEq, Prod.mk.injEq, Prod.exists] at h
        obtain ⟨x, r1, h1, y, r3, h3, l, r2, h2, rfl, rfl⟩ := h
        obtain ⟨a, rfl, ha⟩ := ih1 _ _ _ h1
        obtain ⟨b, rfl, hb⟩ := ih1 _ _ _ h3
        obtain ⟨ps, p1, p2, rfl, rfl, rfl⟩ := ih4 _ _ _ _ h2
        refine ⟨((x, a), (y, b)) :: ps, ?_, ?_, by simp, by simp, by simp⟩
        · intro p hp
          rcases List.mem_cons.mp hp with rfl | hp
          · exact ha
          · exact p1 p hp
        · intro p hp
          rcases List.mem_cons.mp hp with rfl | hp
          · exact hb
          · exact p2 p hp
    · intro bs l r h
      simp only [decMapInf] at h
      split at h
      · rename_i e
        have := head_some e
        cases h
        exact ⟨[], by simp, by simp, rfl, by simpa using this⟩
      · simp only [bind_eq_ok, Except.ok.injEq, Prod.mk.injEq, Prod.exists] at h
        obtain ⟨x, r1, h1, y, r3, h3, l, r2, h2, rfl, rfl⟩ := h
        obtain ⟨a, rfl, ha⟩ := ih1 _ _ _ h1
        obtain ⟨b, rfl, hb⟩ := ih1 _ _ _ h3
        obtain ⟨ps, p1, p2, rfl, rfl⟩ := ih5 _ _ _ h2
        refine ⟨((x, a), (y, b)) :: ps, ?_, ?_, by simp, by simp⟩
        · intro p hp
          rcases List.mem_cons.mp hp with rfl | hp
          · exact ha
          · exact p1 p hp
        · intro p hp
          rcases List.mem_cons.mp hp with rfl | hp
          · exact hb
          · exact p2 p hp

/-! ### C98 -/

/-- C98: a data item is read from received bytes exactly if the bytes begin with an encoding of it; the rest is left. -/
theorem c98_item (b : Bytes) (v : Val) (r : Bytes) : decodeItem b = .ok (v, r) ↔ ∃ a, b = a ++ r ∧ Spec.Item v a := by
  refine ⟨fun h => (soundOK _).1 _ _ _ h, ?_⟩
  rintro ⟨a, rfl, h⟩
  exact (item_complete h).2.2 r _ (by simp; omega)

/-- C98: bytes denote at most one data item, and no encoding is the beginning of another one. -/
theorem c98_unique {v w : Val} {a b r s : Bytes} (ha : Spec.Item v a) (hb : Spec.Item w b) (h : a ++ r = b ++ s) : v = w ∧ a = b ∧ r = s := by
  have h1 := (c98_item (a ++ r) v r).mpr ⟨a, rfl, ha⟩
  have h2 := (c98_item (b ++ s) w s).mpr ⟨b, rfl, hb⟩
  rw [h, h2] at h1
  cases h1
  exact ⟨rfl, List.append_cancel_right h, rfl⟩

/-- C98: what the library writes is an encoding of what it was given. -/
theorem c98_own {v : Val} {b : Bytes} (h : enc v = .ok b) : Spec.Item v b := by
  have := dec_enc v b [] h _ (Nat.le_refl _)
  obtain ⟨a, e, hi⟩ := (soundOK _).1 _ _ _ this
  simp at e
  exact e ▸ hi

theorem loads_item {v : Val} {a : Bytes} (h : Spec.Item v a) (r : Bytes) : loads (a ++ r) = interp v := by
  unfold loads
  rw [(c98_item (a ++ r) v r).mpr ⟨a, rfl, h⟩]
  rfl

/-- C98: two encodings of the same item, whatever follows them, are the same message to every decoder (of all messages or of one type), or refused alike. -/
theorem c98_message {v : Val} {a b : Bytes} (ha : Spec.Item v a) (hb : Spec.Item v b) (r s : Bytes) (C : Crypto) (cls : DecCls) (allow : Bool) :
    decode C cls allow (a ++ r) = decode C cls allow (b ++ s) := by
  unfold decode
  rw [loads_item ha, loads_item hb]

/-- C98: and the same key. -/
theorem c98_key {v : Val} {a b : Bytes} (ha : Spec.Item v a) (hb : Spec.Item v b) (r s : Bytes) (C : Crypto) : Key.decode C (a ++ r) = Key.decode C (b ++ s) := by
  unfold Key.decode
  rw [loads_item ha, loads_item hb]

/-- C98: a protected header in another encoding has the same attributes; only the bytes that are kept (and authenticated) differ. -/
theorem c98_protected {v : Val} {a b : Bytes} (ha : Spec.Item v a) (hb : Spec.Item v b) (C : Crypto) (x : HdrArgs) :
    (do let m ← initBase C { x with phdrEncoded := .bytes b }; .ok { m with phdrEnc := some a }) = initBase C { x with phdrEncoded := .bytes a } := by
  have hl := (loads_item ha []).trans (loads_item hb []).symm
  simp only [List.append_nil] at hl
  have ea : a ≠ [] := fun e => by obtain ⟨_, _, h, _⟩ := item_pos ha; simp [e] at h
  have eb : b ≠ [] := fun e => by obtain ⟨_, _, h, _⟩ := item_pos hb; simp [e] at h
  unfold initBase
  by_cases hp : x.phdr = .none
  · simp only [hp, loadsVal, hl, ea, eb, ne_eq, reduceCtorEq, not_true_eq_false, not_false_eq_true, false_and, if_true, if_false, Val.bytes.injEq]
    cases loads b with
    | error e => rfl
    | ok w =>
      simp only [ok_bind]
      cases asDict w with
      | error e => rfl
      | ok pd =>
        simp only [ok_bind]
        cases asDict (if x.uhdr = .none then .map [] else x.uhdr) with
        | error e => rfl
        | ok ud =>
          simp only [ok_bind]
          cases parseHeader C x.allow pd with
          | error e => rfl
          | ok p =>
            simp only [ok_bind]
            cases parseHeader C x.allow ud with
            | error e => rfl
            | ok u => rfl
  · simp [hp]

/-- C98: bytes that do not begin with an encoding are refused: they are too short or not valid. -/
theorem c98_malformed {b : Bytes} (h : ¬ ∃ v a r, b = a ++ r ∧ Spec.Item v a) :
    ∃ e, loads b = .error e ∧ e ∈ Spec.cborErrors ∧ (∀ C cls allow, ∃ e', decode C cls allow b = .error e') ∧ ∀ C, Key.decode C b = .error e := by
  cases hd : decodeItem b with
  | ok p => exact absurd ⟨p.1, (soundOK _).1 _ _ _ hd |>.choose, p.2, (soundOK _).1 _ _ _ hd |>.choose_spec⟩ h
  | error e =>
    have hl : loads b = .error e := by simp [loads, hd]
    refine ⟨e, hl, (loads_errs b).get e hl, fun C cls allow => ?_, fun C => by simp [Key.decode, hl]⟩
    simp only [decode, hl]
    repeat' split
    all_goals exact ⟨_, rfl⟩

/-- C98: an encoding that is cut short, anywhere, is refused as such. -/
theorem c98_cut {v : Val} {a t : Bytes} (h : Spec.Item v (a ++ t)) (ht : t ≠ []) (C : Crypto) (cls : DecCls) (allow : Bool) :
    loads a = .error .cborEOF ∧ decode C cls allow a = .error .cborEOF ∧ Key.decode C a = .error .cborEOF := by
  have hd := (c98_item (a ++ t) v []).mpr ⟨a ++ t, by simp, h⟩
  have ht' : 0 < t.length := List.length_pos_iff.mpr ht
  have hl := loads_take hd a.length
  rw [List.take_left, if_pos (by simp; omega)] at hl
  exact ⟨hl, by simp only [decode, hl]; rfl, by simp [Key.decode, hl]⟩

/-! ### What a data item is to the library -/

/-- The dictionary of a sequence of pairs: one entry for each key, at the place of its first and with the value of its last occurrence (`keq` is `==` of keys). -/
inductive Spec.LastWins : List (Val × Val) → List (Val × Val) → Prop
  | nil : Spec.LastWins [] []
  | cons {k v w : Val} {t d : List (Val × Val)} : (v :: (t.filter fun p => keq k p.1).map (·.2)).getLast? = some w →
      Spec.LastWins (t.filter fun p => !keq k p.1) d → Spec.LastWins ((k, v) :: t) ((k, w) :: d)

/-- Tags that stand for dates, fractions, regular expressions and so on. -/
def Spec.otherTypes : List Nat := [0, 1, 4, 5, 25, 28, 29, 30, 35, 36, 37, 100, 256, 258, 260, 261, 1004, 43000]

/-- The data item `v` is the Python value `w`. -/
inductive Spec.Means : Val → Val → Prop
  | none : Spec.Means .none .none
  | undef : Spec.Means .undef .undef
  | bool (b : Bool) : Spec.Means (.bool b) (.bool b)
  | simple (n : Nat) : Spec.Means (.simple n) (.simple n)
  | int (i : Int) : Spec.Means (.int i) (.int i)
  | float (f : Nat) : Spec.Means (.float f) (.float f)
  | bytes (b : Bytes) : Spec.Means (.bytes b) (.bytes b)
  | text (b : Bytes) : Spec.Means (.text b) (.text b)
  | arr {ps : List (Val × Val)} : (∀ p ∈ ps, Spec.Means p.1 p.2) → Spec.Means (.arr (ps.map (·.1))) (.arr (ps.map (·.2)))
  /-- pairs of a key and a value, each of them an item and its meaning -/
  | map {ps : List ((Val × Val) × (Val × Val))} {d : List (Val × Val)} : (∀ p ∈ ps, Spec.Means p.1.1 p.2.1) → (∀ p ∈ ps, Spec.Means p.1.2 p.2.2) →
      Spec.LastWins (ps.map (·.2)) d → Spec.Means (.map (ps.map (·.1))) (.map d)
  | big {v : Val} {b : Bytes} : Spec.Means v (.bytes b) → Spec.Means (.tag 2 v) (.int (Spec.value b))
  | bigNeg {v : Val} {b : Bytes} : Spec.Means v (.bytes b) → Spec.Means (.tag 3 v) (.int (-1 - (Spec.value b : Int)))
  | selfDescribed {v w : Val} : Spec.Means v w → Spec.Means (.tag 55799 v) w
  | tag {n : Nat} {v w : Val} : n ∉ [2, 3, 55799] → n ∉ Spec.otherTypes → Spec.Means v w → Spec.Means (.tag n v) (.tag n w)

theorem dupdate_cons (k v : Val) (d e : Dict) :
    ∃ w, (v :: (e.filter fun p => keq k p.1).map (·.2)).getLast? = some w ∧ dupdate ((k, v) :: d) e = (k, w) :: dupdate d (e.filter fun p => !keq k p.1) := by
  induction e generalizing v d with
  | nil => simp [dupdate]
  | cons p e ih =>
    obtain ⟨q, w⟩ := p
    simp only [dupdate, dset]
    by_cases h : keq k q = true
    · obtain ⟨w', h1, h2⟩ := ih w d
      refine ⟨w', ?_, ?_⟩
      · simp only [h, List.filter_cons, if_true, List.map_cons]
        rw [List.getLast?_cons_cons]; exact h1
      · simp only [h, List.filter_cons, if_true, Bool.not_true, Bool.false_eq_true, if_false, h2]
    · obtain ⟨w', h1, h2⟩ := ih v (dset d q w)
      have h : keq k q = false := by simpa using h
      refine ⟨w', ?_, ?_⟩
      · simp only [h, List.filter_cons, Bool.false_eq_true, if_false]; exact h1
      · simp only [h, List.filter_cons, if_true, Bool.not_false, Bool.false_eq_true, if_false, h2, dupdate]

theorem dictOf_lastWins (e : Dict) : Spec.LastWins e (dictOf e) := by
  suffices ∀ n, ∀ e : Dict, e.length = n → Spec.LastWins e (dupdate [] e) from this _ e rfl
  intro n
  induction n using Nat.strongRecOn with
  | _ n ih =>
    intro e he
    cases e with
    | nil => exact .nil
    | cons p e =>
      obtain ⟨k, v⟩ := p
      have hl := List.length_filter_le (fun p : Val × Val => !keq k p.1) e
      obtain ⟨w, h1, h2⟩ := dupdate_cons k v [] e
      rw [dupdate, dset, h2]
      exact .cons h1 (ih _ (by simp at he; omega) _ rfl)

theorem lastWins_dictOf {e d : Dict} (h : Spec.LastWins e d) : d = dictOf e := by
  induction h with
  | nil => rfl
  | @cons k v w t d h1 _ ih =>
    obtain ⟨w', h1', h2⟩ := dupdate_cons k v [] t
    rw [h1] at h1'
    cases h1'
    rw [dictOf, dupdate, dset, h2, ih, dictOf]

theorem interpL_pairs {ps : List (Val × Val)} (h : ∀ p ∈ ps, interp p.1 = .ok p.2) : interpL (ps.map (·.1)) = .ok (ps.map (·.2)) := by
  induction ps with
  | nil => rfl
  | cons p ps ih => simp [interpL, h p (by simp), ih fun q hq => h q (by simp [hq])]

theorem interpP_pairs {ps : List ((Val × Val) × (Val × Val))} (h : ∀ p ∈ ps, interp p.1.1 = .ok p.2.1) (h' : ∀ p ∈ ps, interp p.1.2 = .ok p.2.2) :
    interpP (ps.map (·.1)) = .ok (ps.map (·.2)) := by
  induction ps with
  | nil => rfl
  | cons p ps ih =>
    have hq : interpQ p.1 = .ok p.2 := by
      obtain ⟨⟨k, v⟩, ⟨k', v'⟩⟩ := p
      have a := h _ (List.mem_cons_self)
      have b := h' _ (List.mem_cons_self)
      simp at a b
      simp [interpQ, a, b]
    simp [interpP, hq, ih (fun q hq => h q (by simp [hq])) (fun q hq => h' q (by simp [hq]))]

theorem means_interp {v w : Val} (h : Spec.Means v w) : interp v = .ok w := by
  induction h with
  | arr _ ih => simp [interp, interpL_pairs ih]
  | map _ _ hd ih ih' => simp [interp, interpP_pairs ih ih', lastWins_dictOf hd]
  | big _ ih => simp [interp, ih, mkTag, natOfBytes_value]
  | bigNeg _ ih => simp [interp, ih, mkTag, natOfBytes_value]
  | selfDescribed _ ih => simp [interp, ih, mkTag]
  | @tag n v w h1 h2 _ ih =>
    have h2' : n ∉ semanticTags := h2
    simp at h1
    simp [interp, ih, mkTag, h1, h2']
  | _ => simp [interp]

mutual
theorem interp_means (v : Val) (h : ItemOK v) {w : Val} (e : interp v = .ok w) : Spec.Means v w := by
  cases v <;> simp only [ItemOK] at h <;> simp only [interp] at e
  case arr l =>
    simp only [bind_eq_ok, Except.ok.injEq] at e
    obtain ⟨l', h1, rfl⟩ := e
    obtain ⟨ps, p1, rfl, rfl⟩ := interpL_means l h h1
    exact .arr p1
  case map l =>
    simp only [bind_eq_ok, Except.ok.injEq] at e
    obtain ⟨l', h1, rfl⟩ := e
    obtain ⟨ps, p1, p2, rfl, rfl⟩ := interpP_means l h h1
    exact .map p1 p2 (dictOf_lastWins _)
  case tag n v =>
    simp only [bind_eq_ok] at e
    obtain ⟨v', h1, e⟩ := e
    have hv := interp_means v h h1
    unfold mkTag at e
    split at e
    · rename_i hn; subst hn
      split at e <;> simp at e
      subst e; rw [natOfBytes_value]; exact .big hv
    split at e
    · rename_i hn; subst hn
      split at e <;> simp at e
      subst e; rw [natOfBytes_value]; exact .bigNeg hv
    split at e
    · rename_i hn; subst hn
      simp at e; subst e; exact .selfDescribed hv
    split at e
    · simp at e
    · rename_i n1 n2 n3 n4
      simp at e; subst e
      exact .tag (by simp [n1, n2, n3]) n4 hv
  all_goals (simp only [Except.ok.injEq] at e; subst e)
  case none => exact .none
  case undef => exact .undef
  case bool => exact .bool _
  case simple => exact .simple _
  case int => exact .int _
  case float => exact .float _
  case bytes => exact .bytes _
  case text => exact .text _
termination_by structural v
theorem interpL_means (l : List Val) (h : ItemOKL l) {w : List Val} (e : interpL l = .ok w) :
    ∃ ps : List (Val × Val), (∀ p ∈ ps, Spec.Means p.1 p.2) ∧ l = ps.map (·.1) ∧ w = ps.map (·.2) := by
  cases l with
  | nil => simp [interpL] at e; subst e; exact ⟨[], by simp, rfl, rfl⟩
  | cons v t =>
    simp only [ItemOKL] at h
    simp only [interpL, bind_eq_ok, Except.ok.injEq] at e
    obtain ⟨v', h1, t', h2, rfl⟩ := e
    obtain ⟨ps, p1, rfl, rfl⟩ := interpL_means t h.2 h2
    have hv := interp_means v h.1 h1
    refine ⟨(v, v') :: ps, ?_, rfl, rfl⟩
    intro p hp
    rcases List.mem_cons.mp hp with rfl | hp
    · exact hv
    · exact p1 p hp
termination_by structural l
theorem interpP_means (l : List (Val × Val)) (h : ItemOKP l) {w : List (Val × Val)} (e : interpP l = .ok w) :
    ∃ ps : List ((Val × Val) × (Val × Val)), (∀ p ∈ ps, Spec.Means p.1.1 p.2.1) ∧ (∀ p ∈ ps, Spec.Means p.1.2 p.2.2) ∧ l = ps.map (·.1) ∧ w = ps.map (·.2) := by
  cases l with
  | nil => simp [interpP] at e; subst e; exact ⟨[], by simp, by simp, rfl, rfl⟩
  | cons v t =>
    simp only [ItemOKP] at h
    simp only [interpP, bind_eq_ok, Except.ok.injEq] at e
    obtain ⟨v', h1, t', h2, rfl⟩ := e
    obtain ⟨ps, p1, p2, rfl, rfl⟩ := interpP_means t h.2 h2
    have hv := interpQ_means v h.1 h1
    refine ⟨(v, v') :: ps, ?_, ?_, rfl, rfl⟩
    · intro p hp
      rcases List.mem_cons.mp hp with rfl | hp
      · exact hv.1
      · exact p1 p hp
    · intro p hp
      rcases List.mem_cons.mp hp with rfl | hp
      · exact hv.2
      · exact p2 p hp
termination_by structural l
theorem interpQ_means (p : Val × Val) (h : ItemOKQ p) {w : Val × Val} (e : interpQ p = .ok w) : Spec.Means p.1 w.1 ∧ Spec.Means p.2 w.2 := by
  cases p with
  | mk k v =>
    simp only [ItemOKQ] at h
    simp only [interpQ, bind_eq_ok, Except.ok.injEq] at e
    obtain ⟨k', h1, v', h2, rfl⟩ := e
    exact ⟨interp_means k h.1 h1, interp_means v h.2 h2⟩
termination_by structural p
end

/-- C98: received bytes are read as the value `w` exactly if they begin with an encoding of a data item that means `w`. -/
theorem c98_value (b : Bytes) (w : Val) : loads b = .ok w ↔ ∃ v a r, b = a ++ r ∧ Spec.Item v a ∧ Spec.Means v w := by
  constructor
  · intro h
    simp only [loads, bind_eq_ok, Prod.exists] at h
    obtain ⟨v, r, h1, h2⟩ := h
    obtain ⟨a, rfl, ha⟩ := (c98_item b v r).mp h1
    exact ⟨v, a, r, rfl, ha, interp_means v ((itemsOK _).1 _ _ _ h1) h2⟩
  · rintro ⟨v, a, r, rfl, ha, hm⟩
    rw [loads_item ha r, means_interp hm]

/-! ### Examples -/

/-- The key `{1: 4, -1: h'0102'}`, in the encoding the library writes, and with long heads, indefinite lengths and the byte string in two parts. -/
def otherKey : Bytes := [0xbf, 0x18, 0x01, 0x19, 0x00, 0x04, 0x38, 0x00, 0x5f, 0x41, 0x01, 0x58, 0x01, 0x02, 0xff, 0xff]

theorem otherKey_item : Spec.Item (.map [(.int 1, .int 4), (.int (-1), .bytes [1, 2])]) otherKey := by
  have h := (c98_item otherKey (.map [(.int 1, .int 4), (.int (-1), .bytes [1, 2])]) []).mp (by decide +kernel)
  obtain ⟨a, e, h⟩ := h
  rw [List.append_nil] at e
  exact e ▸ h

example : enc (.map [(.int 1, .int 4), (.int (-1), .bytes [1, 2])]) = .ok [0xa2, 0x01, 0x04, 0x20, 0x42, 0x01, 0x02] ∧
    Key.decode toy otherKey = Key.decode toy [0xa2, 0x01, 0x04, 0x20, 0x42, 0x01, 0x02] ∧ Spec.Item (.map [(.int 1, .int 4), (.int (-1), .bytes [1, 2])]) otherKey := by
  have e : enc (.map [(.int 1, .int 4), (.int (-1), .bytes [1, 2])]) = .ok [0xa2, 0x01, 0x04, 0x20, 0x42, 0x01, 0x02] := by decide +kernel
  have := c98_key otherKey_item (c98_own e) [] [] toy
  simp only [List.append_nil] at this
  exact ⟨e, this, otherKey_item⟩

/-- The same item, built by the rules. -/
example : Spec.Item (.map [(.int 1, .int 4), (.int (-1), .bytes [1, 2])]) otherKey := by
  have h1 : Spec.Item (.int 1) [0x18, 1] := .uint (.wide (k := 0) (x := [1]) (by decide) rfl)
  have h4 : Spec.Item (.int 4) [0x19, 0, 4] := .uint (.wide (k := 1) (x := [0, 4]) (by decide) rfl)
  have hm : Spec.Item (.int (-1)) [0x38, 0] := .nint (n := 0) (.wide (k := 0) (x := [0]) (by decide) rfl)
  have hb : Spec.Item (.bytes [1, 2]) [0x5f, 0x41, 0x01, 0x58, 0x01, 0x02, 0xff] :=
    .bytesParts (ps := [([0x41], [1]), ([0x58, 1], [2])]) (by
      intro p hp
      simp at hp
      rcases hp with rfl | rfl
      · exact .tiny (n := 1) (by decide)
      · exact .wide (k := 0) (x := [1]) (by decide) rfl)
  refine .mapParts (ps := [((.int 1, [0x18, 1]), (.int 4, [0x19, 0, 4])), ((.int (-1), [0x38, 0]), (.bytes [1, 2], [0x5f, 0x41, 0x01, 0x58, 0x01, 0x02, 0xff]))]) ?_ ?_
  · intro p hp
    simp at hp
    rcases hp with rfl | rfl
    · exact h1
    · exact hm
  · intro p hp
    simp at hp
    rcases hp with rfl | rfl
    · exact h4
    · exact hb

/-- A map with a key twice; a self-described big number; a break code where an item should be; a string in parts with a part of another type. -/
example : loads [0xa3, 0x01, 0x02, 0x03, 0x04, 0x01, 0x05] = .ok (.map [(.int 1, .int 5), (.int 3, .int 4)]) ∧
    loads [0xd9, 0xd9, 0xf7, 0xc2, 0x42, 0x01, 0x00] = .ok (.int 256) ∧ loads [0x81, 0xff] = .error .cborValue ∧ loads [0x5f, 0x61, 0x61, 0xff] = .error .cborValue ∧
    loads [0x5f, 0x41] = .error .cborEOF := by decide +kernel

example : Spec.LastWins [(.int 1, .int 2), (.int 3, .int 4), (.int 1, .int 5)] [(.int 1, .int 5), (.int 3, .int 4)] := .cons rfl (.cons rfl .nil)

end Cose
