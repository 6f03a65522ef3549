import Verif.Props.Primitives
import Verif.Props.Iana
/-!
# C81: exactly which values can be serialised, and exactly when a message can be encoded
-/
set_option autoImplicit false
namespace Cose

/-- Values with a length. -/
def Spec.IsSized : Val → Prop
  | .bytes _ | .text _ | .arr _ | .map _ | .key _ _ => True
  | _ => False

/-- The sized values of length 0. -/
def Spec.isEmpty : Val → Bool
  | .bytes b => b.isEmpty
  | .text b => b.isEmpty
  | .arr l => l.isEmpty
  | .map l => l.isEmpty
  | .key _ s => s.isEmpty
  | _ => false

/-- The entries of a key that are written: all but an empty list of key operations. -/
def Spec.writtenEntries (s : Dict) : Dict := s.filter fun p => !(p.1 == .cls KpKeyOps && Spec.isEmpty p.2)

/-- The integer fits the CBOR representations of integers: below 2^64 in size directly, else as the bytes of its magnitude. -/
def Spec.IntWritable (i : Int) : Prop := bitLength (if 0 ≤ i then i.toNat else (-1 - i).toNat) ≤ 8 * (2 ^ 64 - 1)

mutual
/-- The values that have a CBOR representation; `classes` and `keys` say whether classes of the registries and key objects have one.  The
bounds are those of CBOR: lengths and tags have 64 bits. -/
def Spec.Writable (classes : Cls → Prop) (keys : Bool) : Val → Prop
  | .none | .undef | .bool _ => True
  | .simple n => n < 20 ∨ (32 ≤ n ∧ n < 256)
  | .int i => Spec.IntWritable i
  | .float f => f < 2 ^ 64 ∨ floatNaN f = true
  | .bytes b => b.length < 2 ^ 64
  | .text s => validUtf8 s = true ∧ s.length < 2 ^ 64
  | .arr l => l.length < 2 ^ 64 ∧ Spec.WritableL classes keys l
  | .map l => l.length < 2 ^ 64 ∧ Spec.WritableP classes keys l
  | .tag n v => n < 2 ^ 64 ∧ Spec.Writable classes keys v
  | .cls c => classes c
  | .key _ s => keys = true ∧ (∀ v, dget s (.cls KpKeyOps) = some v → Spec.IsSized v) ∧
      (Spec.writtenEntries s).length < 2 ^ 64 ∧ Spec.WritableP classes keys s
termination_by structural x => x
def Spec.WritableL (classes : Cls → Prop) (keys : Bool) : List Val → Prop
  | [] => True
  | v :: t => Spec.Writable classes keys v ∧ Spec.WritableL classes keys t
termination_by structural x => x
def Spec.WritableP (classes : Cls → Prop) (keys : Bool) : List (Val × Val) → Prop
  | [] => True
  | p :: t => Spec.WritableQ classes keys p ∧ Spec.WritableP classes keys t
termination_by structural x => x
def Spec.WritableQ (classes : Cls → Prop) (keys : Bool) : Val × Val → Prop
  | (k, v) => Spec.Writable classes keys k ∧ Spec.Writable classes keys v
termination_by structural x => x
end

theorem encHead_iff {mt n : Nat} : (∃ h, encHead mt n = .ok h) ↔ n < 2 ^ 64 := by
  unfold encHead
  repeat' split
  all_goals simp
  all_goals omega

theorem rows_ascii (r : Reg) : ∀ p ∈ ownRows r ++ (if r = .hdr then hdrUnregistered else []), validUtf8 p.2 = true ∧ p.2.length < 2 ^ 64 := by
  cases r <;> decide +kernel

theorem fullname_ascii (c : Cls) : validUtf8 (fullname c) = true ∧ (fullname c).length < 2 ^ 64 := by
  unfold fullname
  split
  · rename_i p h
    exact rows_ascii c.reg p (List.mem_of_find?_eq_some h)
  · exact ⟨rfl, by decide⟩

/-- Which values the three callbacks of the code can represent. -/
def Mode.classes : Mode → Cls → Prop
  | .plain, _ => False
  | .ident, c => Spec.IntWritable c.ident
  | .base t, c => (c.reg = .alg ∧ t = true) ∨ Spec.IntWritable c.ident
def Mode.keys : Mode → Bool
  | .base _ => true
  | _ => false

theorem ex_bind {α β : Type} {a : Res α} {f : α → Res β} : (∃ b, (a >>= f) = .ok b) ↔ ∃ x, a = .ok x ∧ ∃ b, f x = .ok b := by
  constructor
  · rintro ⟨b, h⟩
    obtain ⟨x, h1, h2⟩ := bind_eq_ok.mp h
    exact ⟨x, h1, b, h2⟩
  · rintro ⟨x, h1, b, h2⟩
    exact ⟨b, bind_eq_ok.mpr ⟨x, h1, h2⟩⟩

theorem ex_ok {α : Type} {a : α} : (∃ b, (Except.ok a : Res α) = .ok b) ↔ True := by simp

theorem enc_bytes_iff {b : Bytes} : (∃ o, enc (.bytes b) = .ok o) ↔ b.length < 2 ^ 64 := by
  rw [enc, ex_bind]
  constructor
  · rintro ⟨h, hh, _⟩; exact encHead_iff.mp ⟨h, hh⟩
  · intro hl; obtain ⟨h, hh⟩ := encHead_iff (mt := 2).mpr hl; exact ⟨h, hh, _, rfl⟩

theorem enc_text_iff {b : Bytes} : (∃ o, enc (.text b) = .ok o) ↔ validUtf8 b = true ∧ b.length < 2 ^ 64 := by
  rw [enc]
  by_cases hv : validUtf8 b = true
  · rw [if_pos hv, ex_bind]
    constructor
    · rintro ⟨h, hh, _⟩; exact ⟨hv, encHead_iff.mp ⟨h, hh⟩⟩
    · rintro ⟨_, hl⟩; obtain ⟨h, hh⟩ := encHead_iff (mt := 3).mpr hl; exact ⟨h, hh, _, rfl⟩
  · rw [if_neg hv]; simp [hv]

theorem enc_arr_iff {l : List Val} : (∃ o, enc (.arr l) = .ok o) ↔ l.length < 2 ^ 64 ∧ ∃ o, encL l = .ok o := by
  rw [enc, ex_bind]
  constructor
  · rintro ⟨h, hh, o, ho⟩
    obtain ⟨b, hb, _⟩ := bind_eq_ok.mp ho
    exact ⟨encHead_iff.mp ⟨h, hh⟩, b, hb⟩
  · rintro ⟨hl, b, hb⟩
    obtain ⟨h, hh⟩ := encHead_iff (mt := 4).mpr hl
    exact ⟨h, hh, _, bind_eq_ok.mpr ⟨b, hb, rfl⟩⟩

theorem enc_map_iff {l : List (Val × Val)} : (∃ o, enc (.map l) = .ok o) ↔ l.length < 2 ^ 64 ∧ ∃ o, encP l = .ok o := by
  rw [enc, ex_bind]
  constructor
  · rintro ⟨h, hh, o, ho⟩
    obtain ⟨b, hb, _⟩ := bind_eq_ok.mp ho
    exact ⟨encHead_iff.mp ⟨h, hh⟩, b, hb⟩
  · rintro ⟨hl, b, hb⟩
    obtain ⟨h, hh⟩ := encHead_iff (mt := 5).mpr hl
    exact ⟨h, hh, _, bind_eq_ok.mpr ⟨b, hb, rfl⟩⟩

theorem enc_tag_iff {n : Nat} {v : Val} : (∃ o, enc (.tag n v) = .ok o) ↔ n < 2 ^ 64 ∧ ∃ o, enc v = .ok o := by
  rw [enc, ex_bind]
  constructor
  · rintro ⟨h, hh, o, ho⟩
    obtain ⟨b, hb, _⟩ := bind_eq_ok.mp ho
    exact ⟨encHead_iff.mp ⟨h, hh⟩, b, hb⟩
  · rintro ⟨hl, b, hb⟩
    obtain ⟨h, hh⟩ := encHead_iff (mt := 6).mpr hl
    exact ⟨h, hh, _, bind_eq_ok.mpr ⟨b, hb, rfl⟩⟩

theorem encL_cons_iff {v : Val} {t : List Val} : (∃ o, encL (v :: t) = .ok o) ↔ (∃ o, enc v = .ok o) ∧ ∃ o, encL t = .ok o := by
  rw [encL, ex_bind]
  constructor
  · rintro ⟨a, ha, o, ho⟩
    obtain ⟨b, hb, _⟩ := bind_eq_ok.mp ho
    exact ⟨⟨a, ha⟩, b, hb⟩
  · rintro ⟨⟨a, ha⟩, b, hb⟩
    exact ⟨a, ha, _, bind_eq_ok.mpr ⟨b, hb, rfl⟩⟩

theorem encP_cons_iff {p : Val × Val} {t : List (Val × Val)} : (∃ o, encP (p :: t) = .ok o) ↔ (∃ o, encQ p = .ok o) ∧ ∃ o, encP t = .ok o := by
  rw [encP, ex_bind]
  constructor
  · rintro ⟨a, ha, o, ho⟩
    obtain ⟨b, hb, _⟩ := bind_eq_ok.mp ho
    exact ⟨⟨a, ha⟩, b, hb⟩
  · rintro ⟨⟨a, ha⟩, b, hb⟩
    exact ⟨a, ha, _, bind_eq_ok.mpr ⟨b, hb, rfl⟩⟩

theorem encQ_iff {k v : Val} : (∃ o, encQ (k, v) = .ok o) ↔ (∃ o, enc k = .ok o) ∧ ∃ o, enc v = .ok o := by
  rw [encQ, ex_bind]
  constructor
  · rintro ⟨a, ha, o, ho⟩
    obtain ⟨b, hb, _⟩ := bind_eq_ok.mp ho
    exact ⟨⟨a, ha⟩, b, hb⟩
  · rintro ⟨⟨a, ha⟩, b, hb⟩
    exact ⟨a, ha, _, bind_eq_ok.mpr ⟨b, hb, rfl⟩⟩

theorem enc_int {i : Int} : (∃ b, enc (bigInt i) = .ok b) ↔ Spec.IntWritable i := by
  unfold bigInt Spec.IntWritable
  have small : ∀ n : Nat, n < 18446744073709551616 → bitLength n ≤ 8 * (2 ^ 64 - 1) := by
    intro n hn
    have h0 : n = 0 ∨ n ≠ 0 := by omega
    rcases h0 with rfl | h0
    · decide
    have := pow_bitLength_le h0
    have h2 : 2 ^ (bitLength n - 1) < 2 ^ 64 := by omega
    have := (Nat.pow_lt_pow_iff_right (by decide : 1 < 2)).mp h2
    omega
  have len : ∀ k : Nat, (k + 7) / 8 < 2 ^ 64 ↔ k ≤ 8 * (2 ^ 64 - 1) := fun k => by omega
  split
  · rename_i h
    have h0 : (0 : Int) ≤ i := by omega
    simp only [h0, if_true, ← len]
    rw [enc_tag_iff, enc_bytes_iff, beBytes_length]
    exact ⟨fun h => h.2, fun h => ⟨by decide, h⟩⟩
  split
  · rename_i h1 h
    have h0 : ¬ (0 : Int) ≤ i := by omega
    simp only [h0, if_false, ← len]
    rw [enc_tag_iff, enc_bytes_iff, beBytes_length]
    exact ⟨fun h => h.2, fun h => ⟨by decide, h⟩⟩
  · rename_i h1 h2
    simp only [enc]
    split
    · simp only [encHead_iff]
      exact ⟨fun _ => small _ (by omega), fun _ => by omega⟩
    · rw [encHead_iff]
      exact ⟨fun _ => small _ (by omega), fun _ => by omega⟩

theorem enc_float {f : Nat} : (∃ b, encFloat (if floatNaN f then nanBits else f) = .ok b) ↔ f < 2 ^ 64 ∨ floatNaN f = true := by
  by_cases hf : floatNaN f = true
  · simp [hf, encFloat]
  · simp only [hf]
    simp only [Bool.false_eq_true, if_false, or_false, encFloat]
    repeat' split
    · rename_i h; subst h; simp [nanBits]
    · rename_i h; subst h; simp [infBits]
    · rename_i h; subst h; simp [ninfBits]
    · simp at *; assumption
    · simp at *; assumption

theorem bigL_size : ∀ l : List Val, (bigL l).length = l.length
  | [] => rfl
  | _ :: t => by simp [bigL, bigL_size t]
theorem bigP_size : ∀ l : List (Val × Val), (bigP l).length = l.length
  | [] => rfl
  | _ :: t => by simp [bigP, bigP_size t]
theorem substL_size {m : Mode} : ∀ {l w : List Val}, substL fullname m l = .ok w → w.length = l.length
  | [], w, h => by simp [substL] at h; subst h; rfl
  | v :: t, w, h => by
    simp only [substL, bind_eq_ok] at h
    obtain ⟨v', _, t', h2, h3⟩ := h
    simp at h3; subst h3
    simp [substL_size h2]
theorem substP_size {m : Mode} : ∀ {l w : List (Val × Val)}, substP fullname m l = .ok w → w.length = l.length
  | [], w, h => by simp [substP] at h; subst h; rfl
  | v :: t, w, h => by
    simp only [substP, bind_eq_ok] at h
    obtain ⟨v', _, t', h2, h3⟩ := h
    simp at h3; subst h3
    simp [substP_size h2]

theorem emptyKeyOps_eq {k v : Val} : emptyKeyOps k v = (k == .cls KpKeyOps && Spec.isEmpty v) := by
  unfold emptyKeyOps
  congr 1
  cases v with
  | bytes b => cases b <;> rfl
  | text b => cases b <;> rfl
  | arr b => cases b <;> rfl
  | map b => cases b <;> rfl
  | key k b => cases b <;> rfl
  | _ => rfl

theorem writtenEntries_cons {p : Val × Val} {t : Dict} :
    Spec.writtenEntries (p :: t) = if emptyKeyOps p.1 p.2 then Spec.writtenEntries t else p :: Spec.writtenEntries t := by
  rw [emptyKeyOps_eq]
  unfold Spec.writtenEntries
  rw [List.filter_cons]
  cases (p.1 == .cls KpKeyOps && Spec.isEmpty p.2) <;> rfl

theorem substS_size {m : Mode} : ∀ {l w : List (Val × Val)}, substS fullname m l = .ok w → w.length = (Spec.writtenEntries l).length
  | [], w, h => by simp [substS] at h; subst h; rfl
  | p :: t, w, h => by
    simp only [substS, bind_eq_ok] at h
    obtain ⟨v', _, t', h2, h3⟩ := h
    have ih := substS_size h2
    rw [writtenEntries_cons]
    split at h3 <;> rename_i hc <;> simp at h3 <;> subst h3 <;> simp [hc, ih]

theorem keyOpsLen_iff {s : Dict} : (∃ n, keyOpsLen s = .ok n) ↔ ∀ v, dget s (.cls KpKeyOps) = some v → Spec.IsSized v := by
  unfold keyOpsLen
  cases dget s (.cls KpKeyOps) with
  | none => simp
  | some v => cases v <;> simp [lenOf, Spec.IsSized]

theorem isEmpty_writable {m : Mode} {p : Val × Val} (hm : m.keys = true) (h : emptyKeyOps p.1 p.2 = true) :
    ∃ w, substQ fullname m p = .ok w ∧ ∃ b, encQ (bigQ w) = .ok b := by
  obtain ⟨k, v⟩ := p
  rw [emptyKeyOps_eq] at h
  simp only [Bool.and_eq_true, beq_iff_eq] at h
  obtain ⟨rfl, h⟩ := h
  have hm' : ∃ t, m = .base t := by cases m <;> simp_all [Mode.keys]
  obtain ⟨t, rfl⟩ := hm'
  have hc : subst fullname (.base t) (.cls KpKeyOps) = .ok (.int 4) := by simp [subst, substCls]
  have hv : ∃ w, subst fullname (.base t) v = .ok w ∧ ∃ b, enc (big w) = .ok b := by
    cases v with
    | bytes b => cases b <;> simp_all [Spec.isEmpty, subst, big, enc, encHead]
    | text b => cases b <;> simp_all [Spec.isEmpty, subst, big, enc, encHead, validUtf8, utf8Go]
    | arr b => cases b <;> simp_all [Spec.isEmpty, subst, substL, big, bigL, enc, encL, encHead]
    | map b => cases b <;> simp_all [Spec.isEmpty, subst, substP, big, bigP, enc, encP, encHead]
    | key k b => cases b <;> simp_all [Spec.isEmpty, subst, substS, keyOpsLen, dget, big, bigP, enc, encP, encHead]
    | _ => simp_all [Spec.isEmpty]
  obtain ⟨w, hw, b, hb⟩ := hv
  refine ⟨(.int 4, w), by simp only [substQ, hc, hw, ok_bind], ?_⟩
  simp only [bigQ]
  exact encQ_iff.mpr ⟨⟨[4], rfl⟩, b, hb⟩

mutual
theorem writable_iff {m : Mode} : ∀ v : Val, (∃ w, subst fullname m v = .ok w ∧ ∃ b, enc (big w) = .ok b) ↔ Spec.Writable m.classes m.keys v
  | .none => by simp [subst, big, enc, Spec.Writable]
  | .undef => by simp [subst, big, enc, Spec.Writable]
  | .bool b => by simp [subst, big, enc, Spec.Writable]
  | .simple n => by
    simp only [subst, Spec.Writable]
    simp only [Except.ok.injEq, exists_eq_left', big, enc, encSimple]
    repeat' split
    all_goals simp
    all_goals omega
  | .int i => by
    simp only [subst, Spec.Writable, Except.ok.injEq, exists_eq_left', big]
    exact enc_int
  | .float f => by
    simp only [subst, Spec.Writable, Except.ok.injEq, exists_eq_left', big, enc]
    exact enc_float
  | .bytes b => by
    simp only [subst, Spec.Writable, Except.ok.injEq, exists_eq_left', big]
    exact enc_bytes_iff
  | .text b => by
    simp only [subst, Spec.Writable, Except.ok.injEq, exists_eq_left', big]
    exact enc_text_iff
  | .arr l => by
    simp only [Spec.Writable, ← writableL_iff l]
    constructor
    · rintro ⟨w, hw, b, hb⟩
      simp only [subst, bind_eq_ok] at hw
      obtain ⟨l', hl, h⟩ := hw
      simp at h; subst h
      simp only [big] at hb
      obtain ⟨h1, h2⟩ := enc_arr_iff.mp ⟨b, hb⟩
      rw [bigL_size, substL_size hl] at h1
      exact ⟨h1, l', hl, h2⟩
    · rintro ⟨h1, l', hl, h2⟩
      refine ⟨.arr l', by simp only [subst, hl, ok_bind], ?_⟩
      simp only [big]
      exact enc_arr_iff.mpr ⟨by rw [bigL_size, substL_size hl]; exact h1, h2⟩
  | .map l => by
    simp only [Spec.Writable, ← writableP_iff l]
    constructor
    · rintro ⟨w, hw, b, hb⟩
      simp only [subst, bind_eq_ok] at hw
      obtain ⟨l', hl, h⟩ := hw
      simp at h; subst h
      simp only [big] at hb
      obtain ⟨h1, h2⟩ := enc_map_iff.mp ⟨b, hb⟩
      rw [bigP_size, substP_size hl] at h1
      exact ⟨h1, l', hl, h2⟩
    · rintro ⟨h1, l', hl, h2⟩
      refine ⟨.map l', by simp only [subst, hl, ok_bind], ?_⟩
      simp only [big]
      exact enc_map_iff.mpr ⟨by rw [bigP_size, substP_size hl]; exact h1, h2⟩
  | .tag n v => by
    simp only [Spec.Writable, ← writable_iff v]
    constructor
    · rintro ⟨w, hw, b, hb⟩
      simp only [subst, bind_eq_ok] at hw
      obtain ⟨l', hl, h⟩ := hw
      simp at h; subst h
      simp only [big] at hb
      obtain ⟨h1, h2⟩ := enc_tag_iff.mp ⟨b, hb⟩
      exact ⟨h1, l', hl, h2⟩
    · rintro ⟨h1, l', hl, h2⟩
      refine ⟨.tag n l', by simp only [subst, hl, ok_bind], ?_⟩
      simp only [big]
      exact enc_tag_iff.mpr ⟨h1, h2⟩
  | .cls c => by
    simp only [subst, Spec.Writable]
    cases m with
    | plain => simp [substCls, Mode.classes]
    | ident =>
      simp only [substCls, Mode.classes, Except.ok.injEq, exists_eq_left', big]
      exact enc_int
    | base t =>
      simp only [substCls, Mode.classes]
      by_cases hc : c.reg = .alg ∧ t = true
      · simp only [hc, and_self, if_true, Except.ok.injEq, exists_eq_left', big, true_or, iff_true]
        exact enc_text_iff.mpr (fullname_ascii c)
      · simp only [hc, if_false, Except.ok.injEq, exists_eq_left', big, false_or]
        exact enc_int
  | .key k s => by
    simp only [Spec.Writable]
    cases m with
    | plain => simp [subst, Mode.keys]
    | ident => simp [subst, Mode.keys]
    | base t =>
      rw [← writableS_iff (m := .base t) rfl s, ← keyOpsLen_iff]
      constructor
      · rintro ⟨w, hw, b, hb⟩
        simp only [subst, bind_eq_ok] at hw
        obtain ⟨n, hn, l', hl, h⟩ := hw
        simp at h; subst h
        simp only [big] at hb
        obtain ⟨h1, h2⟩ := enc_map_iff.mp ⟨b, hb⟩
        rw [bigP_size, substS_size hl] at h1
        exact ⟨rfl, ⟨n, hn⟩, h1, l', hl, h2⟩
      · rintro ⟨_, ⟨n, hn⟩, h1, l', hl, h2⟩
        refine ⟨.map l', by simp only [subst, hn, hl, ok_bind], ?_⟩
        simp only [big]
        exact enc_map_iff.mpr ⟨by rw [bigP_size, substS_size hl]; exact h1, h2⟩
theorem writableL_iff {m : Mode} : ∀ l : List Val, (∃ w, substL fullname m l = .ok w ∧ ∃ b, encL (bigL w) = .ok b) ↔
    Spec.WritableL m.classes m.keys l
  | [] => by simp [substL, bigL, encL, Spec.WritableL]
  | v :: t => by
    simp only [Spec.WritableL, ← writable_iff v, ← writableL_iff t]
    constructor
    · rintro ⟨w, hw, b, hb⟩
      simp only [substL, bind_eq_ok] at hw
      obtain ⟨v', hv, t', ht, h⟩ := hw
      simp at h; subst h
      simp only [bigL] at hb
      obtain ⟨h1, h2⟩ := encL_cons_iff.mp ⟨b, hb⟩
      exact ⟨⟨v', hv, h1⟩, t', ht, h2⟩
    · rintro ⟨⟨v', hv, h1⟩, t', ht, h2⟩
      refine ⟨v' :: t', by simp only [substL, hv, ht, ok_bind], ?_⟩
      simp only [bigL]
      exact encL_cons_iff.mpr ⟨h1, h2⟩
theorem writableP_iff {m : Mode} : ∀ l : List (Val × Val), (∃ w, substP fullname m l = .ok w ∧ ∃ b, encP (bigP w) = .ok b) ↔
    Spec.WritableP m.classes m.keys l
  | [] => by simp [substP, bigP, encP, Spec.WritableP]
  | p :: t => by
    simp only [Spec.WritableP, ← writableQ_iff p, ← writableP_iff t]
    constructor
    · rintro ⟨w, hw, b, hb⟩
      simp only [substP, bind_eq_ok] at hw
      obtain ⟨v', hv, t', ht, h⟩ := hw
      simp at h; subst h
      simp only [bigP] at hb
      obtain ⟨h1, h2⟩ := encP_cons_iff.mp ⟨b, hb⟩
      exact ⟨⟨v', hv, h1⟩, t', ht, h2⟩
    · rintro ⟨⟨v', hv, h1⟩, t', ht, h2⟩
      refine ⟨v' :: t', by simp only [substP, hv, ht, ok_bind], ?_⟩
      simp only [bigP]
      exact encP_cons_iff.mpr ⟨h1, h2⟩
theorem writableS_iff {m : Mode} (hm : m.keys = true) : ∀ l : List (Val × Val),
    (∃ w, substS fullname m l = .ok w ∧ ∃ b, encP (bigP w) = .ok b) ↔ Spec.WritableP m.classes m.keys l
  | [] => by simp [substS, bigP, encP, Spec.WritableP]
  | p :: t => by
    simp only [Spec.WritableP, ← writableQ_iff p, ← writableS_iff hm t]
    constructor
    · rintro ⟨w, hw, b, hb⟩
      simp only [substS, bind_eq_ok] at hw
      obtain ⟨v', hv, t', ht, h⟩ := hw
      split at h <;> rename_i hc <;> simp at h <;> subst h
      · exact ⟨isEmpty_writable hm hc, t', ht, b, hb⟩
      · simp only [bigP] at hb
        obtain ⟨h1, h2⟩ := encP_cons_iff.mp ⟨b, hb⟩
        exact ⟨⟨v', hv, h1⟩, t', ht, h2⟩
    · rintro ⟨⟨v', hv, h1⟩, t', ht, h2⟩
      by_cases hc : emptyKeyOps p.1 p.2 = true
      · exact ⟨t', by simp only [substS, hv, ht, ok_bind, hc, if_true], h2⟩
      · refine ⟨v' :: t', by simp only [substS, hv, ht, ok_bind, hc, if_false, Bool.false_eq_true], ?_⟩
        simp only [bigP]
        exact encP_cons_iff.mpr ⟨h1, h2⟩
theorem writableQ_iff {m : Mode} : ∀ p : Val × Val, (∃ w, substQ fullname m p = .ok w ∧ ∃ b, encQ (bigQ w) = .ok b) ↔
    Spec.WritableQ m.classes m.keys p
  | (k, v) => by
    simp only [Spec.WritableQ, ← writable_iff k, ← writable_iff v]
    constructor
    · rintro ⟨w, hw, b, hb⟩
      simp only [substQ, bind_eq_ok] at hw
      obtain ⟨v', hv, t', ht, h⟩ := hw
      simp at h; subst h
      simp only [bigQ] at hb
      obtain ⟨h1, h2⟩ := encQ_iff.mp ⟨b, hb⟩
      exact ⟨⟨v', hv, h1⟩, t', ht, h2⟩
    · rintro ⟨⟨v', hv, h1⟩, t', ht, h2⟩
      refine ⟨(v', t'), by simp only [substQ, hv, ht, ok_bind], ?_⟩
      simp only [bigQ]
      exact encQ_iff.mpr ⟨h1, h2⟩
end

/-- C81: a value is serialised exactly if it is writable. -/
theorem c81_serialised {m : Mode} {v : Val} : (∃ b, dumps fullname m v = .ok b) ↔ Spec.Writable m.classes m.keys v := by
  rw [← writable_iff, dumps, ex_bind]

/-! ### Messages -/

/-- The key's `alg`, if present, is an algorithm, and its `key_ops`, if present, are a list, as all ways to make a key leave them. -/
def Spec.PlainPolicy (k : Key) : Prop :=
  (dget k.store (.cls KpAlg) = none ∨ ∃ i, dget k.store (.cls KpAlg) = some (algCls i)) ∧
  (dget k.store (.cls KpKeyOps) = none ∨ ∃ l, dget k.store (.cls KpKeyOps) = some (.arr l))

theorem verify_exact {k : Key} {kind : Kind} {i : Int} {ops : List Cls} (hk : Spec.PlainPolicy k) :
    k.verify kind (algCls i) ops = .ok () ↔ Spec.Permits k kind (algCls i) ops := by
  refine ⟨fun h => ?_, permits_verify⟩
  obtain ⟨h1, h2, h3⟩ := verify_inv h
  refine ⟨h1, ?_, ?_⟩
  · rcases hk.1 with h | ⟨j, h⟩
    · exact .inl h
    · obtain ⟨c', hc, hi⟩ := h2 _ h
      simp only [algCls, Val.cls.injEq] at hc
      subst hc
      simp only at hi
      subst hi
      exact .inr ⟨_, rfl, h⟩
  · rcases hk.2 with h | ⟨l, h⟩
    · exact .inl h
    · refine .inr ⟨l, h, ?_⟩
      by_cases hl : l = []
      · exact .inl hl
      · exact .inr (h3 l h hl)

/-- The classes and keys that have a representation in the headers of `b`: all key objects; the classes with an identifier of CBOR size (or
written by name). -/
abbrev Spec.HeaderWritable (b : Base) (d : Dict) : Prop := Spec.Writable (Mode.base b.tstr).classes true (.map d)

/-- The protected header of `b` has the encoding `pe`. -/
def Spec.ShortProtected (b : Base) : Prop := ∃ pe, b.phdrEncoded = .ok pe ∧ pe.length < 2 ^ 64

/-- There is exactly one payload, `p`: in the message or detached. -/
def Spec.OnePayload (pl det : Option Bytes) (p : Bytes) : Prop := (pl = some p ∧ det = none) ∨ (pl = none ∧ det = some p)

/-- The payload field is absent or of CBOR length. -/
def Spec.ShortPayload (pl : Option Bytes) : Prop := ∀ p, pl = some p → p.length < 2 ^ 64

/-- C81: the encoding of the protected header exists exactly if it was received, the header is empty or its entries can be written. -/
theorem c81_protected {b : Base} :
    (∃ pe, b.phdrEncoded = .ok pe) ↔ b.phdrEnc ≠ none ∨ b.phdr = [] ∨ Spec.HeaderWritable b b.phdr := by
  unfold Base.phdrEncoded
  cases h : b.phdrEnc with
  | some e => simp
  | none =>
    by_cases hb : b.phdr = []
    · simp [hb]
    · have : b.phdr.length ≠ 0 := by simpa using hb
      simp only [this, ne_eq, not_false_eq_true, if_true, hb, not_true_eq_false, false_or]
      exact c81_serialised

theorem finish_iff {b : Base} {t : Nat} {tag : Bool} {l : List Val} (ht : t < 2 ^ 64) :
    (∃ o, b.finish t tag l = .ok o) ↔ Spec.Writable (Mode.base b.tstr).classes true (.arr l) := by
  unfold Base.finish
  cases tag
  · simp only [Bool.false_eq_true, if_false]
    exact c81_serialised
  · simp only [if_true]
    rw [c81_serialised]
    simp only [Spec.Writable, ht, true_and]
    rfl

theorem writable_opt {c : Cls → Prop} {k : Bool} {o : Option Bytes} : Spec.Writable c k (optBytes o) ↔ Spec.ShortPayload o := by
  cases o <;> simp [optBytes, Spec.Writable, Spec.ShortPayload]

theorem choosePayload_iff {pl det : Option Bytes} {p : Bytes} : choosePayload pl det = .ok p ↔ Spec.OnePayload pl det p := by
  unfold choosePayload Spec.OnePayload
  cases pl <;> cases det <;> simp

theorem plain_iff {v : Val} : (∃ o, dumpsPlain v = .ok o) ↔ Spec.Writable (fun _ => False) false v := by
  rw [dumpsPlain, c81_serialised]; rfl

/-- The protected header as the structures contain it is of CBOR length. -/
theorem baseStructure_iff {b : Base} {l : List Val} : b.baseStructure = .ok l ↔
    ∃ pe, (if b.phdr = [] then pe = [] else b.phdrEncoded = .ok pe) ∧ l = [.bytes pe, .bytes b.aad] := by
  unfold Base.baseStructure
  by_cases h : b.phdr = []
  · simp only [h, List.length_nil, if_true, ok_bind, Except.ok.injEq, exists_eq_left]
    exact eq_comm
  · have : b.phdr.length ≠ 0 := by simpa using h
    simp only [this, if_false, h, bind_eq_ok, Except.ok.injEq]
    exact ⟨fun ⟨p, h1, h2⟩ => ⟨p, h1, h2.symm⟩, fun ⟨p, h1, h2⟩ => ⟨p, h1, h2.symm⟩⟩

/-- The protected header enters a structure: it is empty, or its encoding exists and is of CBOR length. -/
def Spec.BoundProtected (b : Base) : Prop := b.phdr = [] ∨ Spec.ShortProtected b

theorem bound_iff {b : Base} : (∃ pe, (if b.phdr = [] then pe = [] else b.phdrEncoded = .ok pe) ∧ pe.length < 2 ^ 64) ↔ Spec.BoundProtected b := by
  unfold Spec.BoundProtected Spec.ShortProtected
  by_cases h : b.phdr = []
  · simp [h]
  · simp only [h, if_false, false_or]

theorem base_exists {b : Base} {f : Bytes → Res Bytes} {P : Prop} (hf : ∀ pe, (∃ o, f pe = .ok o) ↔ pe.length < 2 ^ 64 ∧ P) :
    (∃ pe o, (if b.phdr = [] then pe = [] else b.phdrEncoded = .ok pe) ∧ f pe = .ok o) ↔ Spec.BoundProtected b ∧ P := by
  rw [← bound_iff]
  constructor
  · rintro ⟨pe, o, h1, h2⟩
    obtain ⟨h3, h4⟩ := (hf pe).mp ⟨o, h2⟩
    exact ⟨⟨pe, h1, h3⟩, h4⟩
  · rintro ⟨⟨pe, h1, h3⟩, h4⟩
    obtain ⟨o, h2⟩ := (hf pe).mpr ⟨h3, h4⟩
    exact ⟨pe, o, h1, h2⟩

/-- C81: the bytes to be signed of a COSE_Sign1 message exist exactly if the protected header can be written, there is exactly one payload,
and all is of CBOR length. -/
theorem c81_sign1_structure {m : Sign1} {det : Option Bytes} :
    (∃ d, m.sigStructure det = .ok d) ↔ Spec.BoundProtected m.base ∧ m.base.aad.length < 2 ^ 64 ∧
      ∃ p, Spec.OnePayload m.base.payload det p ∧ p.length < 2 ^ 64 := by
  rw [← base_exists (f := fun pe => choosePayload m.base.payload det >>= fun p => dumpsPlain (.arr ([.text b!"Signature1"] ++ [.bytes pe, .bytes m.base.aad] ++ [.bytes p])))]
  · simp only [Sign1.sigStructure, bind_eq_ok, baseStructure_iff]
    constructor
    · rintro ⟨d, _, ⟨pe, h1, rfl⟩, h2⟩; exact ⟨pe, d, h1, h2⟩
    · rintro ⟨pe, d, h1, h2⟩; exact ⟨d, _, ⟨pe, h1, rfl⟩, h2⟩
  · intro pe
    rw [ex_bind]
    simp only [plain_iff, choosePayload_iff]
    have : validUtf8 b!"Signature1" = true := by decide
    simp only [Spec.Writable, Spec.WritableL, List.cons_append, List.nil_append, this, List.length_cons, List.length_nil]
    grind

/-- C81: the same for a MAC structure; there is no detached payload. -/
theorem mac_structure_iff {ctx : Bytes} {b : Base} (hc : validUtf8 ctx = true ∧ ctx.length < 2 ^ 64) :
    (∃ d, macStructure ctx b = .ok d) ↔ Spec.BoundProtected b ∧ b.aad.length < 2 ^ 64 ∧ ∃ p, b.payload = some p ∧ p.length < 2 ^ 64 := by
  rw [← base_exists (f := fun pe => match b.payload with
    | none => .error .valueError
    | some p => dumpsPlain (.arr ([.text ctx] ++ [.bytes pe, .bytes b.aad] ++ [.bytes p])))]
  · simp only [macStructure, bind_eq_ok, baseStructure_iff]
    constructor
    · rintro ⟨d, _, ⟨pe, h1, rfl⟩, h2⟩; exact ⟨pe, d, h1, h2⟩
    · rintro ⟨pe, d, h1, h2⟩; exact ⟨d, _, ⟨pe, h1, rfl⟩, h2⟩
  · intro pe
    cases b.payload with
    | none => simp
    | some p =>
      simp only [plain_iff, Option.some.injEq, exists_eq_left']
      simp only [Spec.Writable, Spec.WritableL, List.cons_append, List.nil_append, hc, List.length_cons, List.length_nil]
      grind

theorem enc_structure_iff {ctx : Bytes} {b : Base} (hc : validUtf8 ctx = true ∧ ctx.length < 2 ^ 64) :
    (∃ d, encStructure ctx b = .ok d) ↔ Spec.BoundProtected b ∧ b.aad.length < 2 ^ 64 := by
  rw [← base_exists (f := fun pe => dumpsPlain (.arr ([.text ctx] ++ [.bytes pe, .bytes b.aad])))]
  · simp only [encStructure, bind_eq_ok, baseStructure_iff]
    constructor
    · rintro ⟨d, _, ⟨pe, h1, rfl⟩, h2⟩; exact ⟨pe, d, h1, h2⟩
    · rintro ⟨pe, d, h1, h2⟩; exact ⟨d, _, ⟨pe, h1, rfl⟩, h2⟩
  · intro pe
    simp only [plain_iff]
    simp only [Spec.Writable, Spec.WritableL, List.cons_append, List.nil_append, hc, List.length_cons, List.length_nil]
    grind

/-- C81: the bytes to be signed by a signer. -/
theorem c81_signer_structure {p s : Base} {det : Option Bytes} :
    (∃ d, signerStructure p s det = .ok d) ↔ Spec.ShortProtected p ∧ Spec.BoundProtected s ∧ s.aad.length < 2 ^ 64 ∧
      ∃ pl, Spec.OnePayload p.payload det pl ∧ pl.length < 2 ^ 64 := by
  have hu : validUtf8 b!"Signature" = true := by decide
  unfold signerStructure Spec.BoundProtected Spec.ShortProtected
  by_cases h : s.phdr = []
  · simp only [h, List.length_nil, ne_eq, not_true_eq_false, if_false, ok_bind, true_or, true_and]
    rw [ex_bind]
    simp only [ex_bind, plain_iff, choosePayload_iff, Spec.Writable, Spec.WritableL, List.cons_append, List.nil_append, hu, List.length_cons, List.length_nil]
    grind
  · have hl : s.phdr.length ≠ 0 := by simpa using h
    simp only [h, hl, ne_eq, not_false_eq_true, if_true, false_or]
    simp only [bind_eq_ok, Except.ok.injEq, choosePayload_iff]
    constructor
    · rintro ⟨d, pe, h1, e, h2, _, rfl, pl, h3, h4⟩
      have h5 := plain_iff.mp ⟨d, h4⟩
      simp only [Spec.Writable, Spec.WritableL, List.cons_append, List.nil_append] at h5
      grind
    · rintro ⟨⟨pe, h1, h2⟩, ⟨e, h3, h4⟩, h5, pl, h6, h7⟩
      have : Spec.Writable (fun _ => False) false (.arr ([.text b!"Signature", .bytes pe] ++ [.bytes e] ++ [.bytes s.aad, .bytes pl])) := by
        simp only [Spec.Writable, Spec.WritableL, List.cons_append, List.nil_append, hu, List.length_cons, List.length_nil]
        grind
      obtain ⟨d, hd⟩ := plain_iff.mpr this
      exact ⟨d, pe, h1, e, h3, _, rfl, pl, h6, hd⟩

/-- `b` has an algorithm and a key that may sign with it, and `s` is the signature of the bytes `tbs` under them. -/
def Spec.Signs (C : Crypto) (rnd : Bytes) (b : Base) (tbs : Res Bytes) (s : Bytes) : Prop :=
  ∃ i k data, b.getAttr Hdr.Algorithm = .ok (algCls i) ∧ b.key = some k ∧ k.kind ≠ .sym ∧ Spec.Permits k k.kind (algCls i) [Op.Sign] ∧
    tbs = .ok data ∧ Spec.Signature C rnd i k data s

theorem signs_iff {C : Crypto} {rnd : Bytes} {b : Base} {tbs : Res Bytes} {s : Bytes} (hk : ∀ k, b.key = some k → Spec.PlainPolicy k) :
    computeSignature C rnd b tbs = .ok s ↔ Spec.Signs C rnd b tbs s := by
  constructor
  · intro h
    simp only [computeSignature, bind_eq_ok] at h
    obtain ⟨alg, ha, k, hv, f, hf, data, hd, h⟩ := h
    obtain ⟨i, rfl, hs⟩ := sign_iff.mp ⟨f, hf, h⟩
    have hb := (keyVerification_inv hv).1
    have hp := hk k hb
    have : k.kind ≠ .sym ∧ k.verify k.kind (algCls i) [Op.Sign] = .ok () := by
      unfold keyVerification at hv
      rw [hb] at hv
      cases hkd : k.kind <;> simp only [hkd, bind_eq_ok, reduceCtorEq] at hv
      all_goals exact ⟨by simp, hv.choose_spec.1⟩
    exact ⟨i, k, data, ha, hb, this.1, (verify_exact hp).mp this.2, hd, hs⟩
  · rintro ⟨i, k, data, h1, h2, h3, h4, h5, h6⟩
    exact compute_accepts h1 h2 h3 h4 h5 h6

/-- C81: a COSE_Sign1 message is encoded exactly if its headers and its payload can be written, its key may sign with the algorithm in the
header, and the primitive gives a signature of the bytes to be signed. -/
theorem c81_sign1 {C : Crypto} {rnd : Bytes} {m : Sign1} {tag : Bool} {det : Option Bytes} (hk : ∀ k, m.base.key = some k → Spec.PlainPolicy k) :
    (∃ out, m.encode C rnd tag true det = .ok out) ↔
      Spec.ShortProtected m.base ∧ Spec.HeaderWritable m.base m.base.uhdr ∧ Spec.ShortPayload m.base.payload ∧
      ∃ s, Spec.Signs C rnd m.base (m.sigStructure det) s ∧ s.length < 2 ^ 64 := by
  have fin : ∀ (pe s : Bytes), (∃ o, m.base.finish 18 tag ([.bytes pe, .map m.base.uhdr, optBytes m.base.payload] ++ [.bytes s]) = .ok o) ↔
      pe.length < 2 ^ 64 ∧ Spec.HeaderWritable m.base m.base.uhdr ∧ Spec.ShortPayload m.base.payload ∧ s.length < 2 ^ 64 := by
    intro pe s
    rw [finish_iff (by decide), ← writable_opt (c := (Mode.base m.base.tstr).classes) (k := true)]
    simp only [Spec.Writable, Spec.WritableL, List.cons_append, List.nil_append, List.length_cons, List.length_nil, Spec.HeaderWritable]
    grind
  simp only [Sign1.encode, if_true]
  constructor
  · rintro ⟨out, h⟩
    obtain ⟨pe, h1, h⟩ := bind_eq_ok.mp h
    obtain ⟨s, h3, h⟩ := bind_eq_ok.mp h
    simp only [ok_bind] at h
    obtain ⟨h4, h5, h6, h7⟩ := (fin pe s).mp ⟨out, h⟩
    exact ⟨⟨pe, h1, h4⟩, h5, h6, s, (signs_iff hk).mp h3, h7⟩
  · rintro ⟨⟨pe, h1, h4⟩, h5, h6, s, h3, h7⟩
    obtain ⟨out, ho⟩ := (fin pe s).mpr ⟨h4, h5, h6, h7⟩
    have h3 := (signs_iff hk).mpr h3
    exact ⟨out, by simp only [h1, ok_bind, Sign1.computeSignature, h3]; exact ho⟩

/-- C81: without `sign`, the signature already in the message is written. -/
theorem c81_sign1_unsigned {C : Crypto} {rnd : Bytes} {m : Sign1} {tag : Bool} {det : Option Bytes} {s : Bytes} (hs : m.signature = .bytes s) :
    (∃ out, m.encode C rnd tag false det = .ok out) ↔
      Spec.ShortProtected m.base ∧ Spec.HeaderWritable m.base m.base.uhdr ∧ Spec.ShortPayload m.base.payload ∧ s.length < 2 ^ 64 := by
  have fin : ∀ (pe : Bytes), (∃ o, m.base.finish 18 tag (if s = [] then [.bytes pe, .map m.base.uhdr, optBytes m.base.payload]
      else [.bytes pe, .map m.base.uhdr, optBytes m.base.payload] ++ [.bytes s]) = .ok o) ↔
      pe.length < 2 ^ 64 ∧ Spec.HeaderWritable m.base m.base.uhdr ∧ Spec.ShortPayload m.base.payload ∧ s.length < 2 ^ 64 := by
    intro pe
    rw [finish_iff (by decide), ← writable_opt (c := (Mode.base m.base.tstr).classes) (k := true)]
    split
    · simp only [Spec.Writable, Spec.WritableL, List.length_cons, List.length_nil, Spec.HeaderWritable]
      grind
    · simp only [Spec.Writable, Spec.WritableL, List.cons_append, List.nil_append, List.length_cons, List.length_nil, Spec.HeaderWritable]
      grind
  have e : ∀ pe, (if truthy m.signature = true then m.base.finish 18 tag ([.bytes pe, .map m.base.uhdr, optBytes m.base.payload] ++ [m.signature])
      else m.base.finish 18 tag [.bytes pe, .map m.base.uhdr, optBytes m.base.payload]) =
      m.base.finish 18 tag (if s = [] then [.bytes pe, .map m.base.uhdr, optBytes m.base.payload]
      else [.bytes pe, .map m.base.uhdr, optBytes m.base.payload] ++ [.bytes s]) := by
    intro pe
    rw [hs]
    cases s <;> simp [truthy]
  simp only [Sign1.encode, Bool.false_eq_true, if_false, Spec.ShortProtected, ok_bind, e]
  constructor
  · rintro ⟨out, h⟩
    obtain ⟨pe, h1, h⟩ := bind_eq_ok.mp h
    obtain ⟨h4, h5⟩ := (fin pe).mp ⟨out, h⟩
    exact ⟨⟨pe, h1, h4⟩, h5⟩
  · rintro ⟨⟨pe, h1, h4⟩, h5⟩
    obtain ⟨out, ho⟩ := (fin pe).mpr ⟨h4, h5⟩
    exact ⟨out, by simp only [h1, ok_bind]; exact ho⟩

/-! ### COSE_Sign -/

theorem signersEncode_iff {C : Crypto} {rnd : Nat → Bytes} {p : Base} {det : Option Bytes} {c : Cls → Prop} :
    ∀ {l : List Base} {n : Nat}, (∀ s ∈ l, ∀ k, s.key = some k → Spec.PlainPolicy k) →
      ((∃ ss, signersEncode C rnd p det n l = .ok ss ∧ Spec.WritableL c true ss) ↔
        ∀ (j : Nat) s, l[j]? = some s → Spec.ShortProtected s ∧ Spec.Writable c true (.map s.uhdr) ∧
          ∃ sg, Spec.Signs C (rnd (n + j)) s (signerStructure p s det) sg ∧ sg.length < 2 ^ 64)
  | [], n, _ => by simp [signersEncode, Spec.WritableL]
  | s :: t, n, hk => by
    have ih := signersEncode_iff (C := C) (rnd := rnd) (p := p) (det := det) (c := c) (l := t) (n := n + 1) (fun s hs => hk s (List.mem_cons_of_mem _ hs))
    have hs := fun sg => signs_iff (C := C) (rnd := rnd n) (b := s) (tbs := signerStructure p s det) (s := sg) (hk s (List.mem_cons_self ..))
    constructor
    · rintro ⟨ss, h, hw⟩
      simp only [signersEncode, signerEncode, bind_eq_ok, Except.ok.injEq] at h
      obtain ⟨v, ⟨e, h1, sg, h2, rfl⟩, vs, h3, rfl⟩ := h
      simp only [Spec.WritableL, Spec.Writable] at hw
      intro j s' hj
      cases j with
      | zero =>
        simp at hj; subst hj
        refine ⟨⟨e, h1, by grind⟩, by simp only [Spec.Writable]; grind, sg, (hs sg).mp h2, by grind⟩
      | succ j =>
        have := ih.mp ⟨vs, h3, hw.2⟩ j s' (by simpa using hj)
        rw [show n + (j + 1) = n + 1 + j by omega]
        exact this
    · intro h
      obtain ⟨⟨e, h1, h2⟩, h3, sg, h4, h5⟩ := h 0 s rfl
      obtain ⟨vs, h6, h7⟩ := ih.mpr (fun j s' hj => by
        have := h (j + 1) s' (by simpa using hj)
        rw [show n + 1 + j = n + (j + 1) by omega]
        exact this)
      have h4 := (hs sg).mpr h4
      refine ⟨.arr [.bytes e, .map s.uhdr, .bytes sg] :: vs, by simp only [signersEncode, signerEncode, signerCompute, h1, h4, h6, ok_bind], ?_⟩
      simp only [Spec.WritableL, Spec.Writable, List.length_cons, List.length_nil] at h3 ⊢
      grind

theorem signersEncode_size {C : Crypto} {rnd : Nat → Bytes} {p : Base} {det : Option Bytes} :
    ∀ {l : List Base} {n : Nat} {ss : List Val}, signersEncode C rnd p det n l = .ok ss → ss.length = l.length
  | [], n, ss, h => by simp [signersEncode] at h; subst h; rfl
  | s :: t, n, ss, h => by
    simp only [signersEncode, bind_eq_ok, Except.ok.injEq] at h
    obtain ⟨v, _, vs, h3, rfl⟩ := h
    simp [signersEncode_size h3]

/-- C81: a COSE_Sign message is encoded exactly if the headers of the message and of all signers can be written, there are fewer than 2^64 signers, and each signer signs. -/
theorem c81_sign {C : Crypto} {rnd : Nat → Bytes} {m : SignMsg} {tag : Bool} {det : Option Bytes}
    (hk : ∀ s ∈ m.signers, ∀ k, s.key = some k → Spec.PlainPolicy k) :
    (∃ out, m.encode C rnd tag det = .ok out) ↔
      Spec.ShortProtected m.base ∧ Spec.HeaderWritable m.base m.base.uhdr ∧ Spec.ShortPayload m.base.payload ∧ m.signers.length < 2 ^ 64 ∧
      ∀ (j : Nat) s, m.signers[j]? = some s → Spec.ShortProtected s ∧ Spec.HeaderWritable m.base s.uhdr ∧
        ∃ sg, Spec.Signs C (rnd j) s (signerStructure m.base s det) sg ∧ sg.length < 2 ^ 64 := by
  have hl := signersEncode_iff (C := C) (rnd := rnd) (p := m.base) (det := det) (c := (Mode.base m.base.tstr).classes) (n := 0) hk
  simp only [Nat.zero_add] at hl
  unfold SignMsg.encode
  by_cases h0 : m.signers = []
  · have fin : ∀ (pe : Bytes), (∃ o, m.base.finish 98 tag [.bytes pe, .map m.base.uhdr, optBytes m.base.payload] = .ok o) ↔
        pe.length < 2 ^ 64 ∧ Spec.HeaderWritable m.base m.base.uhdr ∧ Spec.ShortPayload m.base.payload := by
      intro pe
      rw [finish_iff (by decide), ← writable_opt (c := (Mode.base m.base.tstr).classes) (k := true)]
      simp only [Spec.Writable, Spec.WritableL, List.length_cons, List.length_nil, Spec.HeaderWritable]
      grind
    simp only [h0, List.length_nil, ne_eq, not_true_eq_false, if_false, ok_bind, ex_bind, fin, Spec.ShortProtected]
    simp only [List.getElem?_nil, reduceCtorEq, false_implies, implies_true, and_true]
    grind
  · have fin : ∀ (pe : Bytes) ss, (∃ o, m.base.finish 98 tag ([.bytes pe, .map m.base.uhdr, optBytes m.base.payload] ++ [.arr ss]) = .ok o) ↔
        pe.length < 2 ^ 64 ∧ Spec.HeaderWritable m.base m.base.uhdr ∧ Spec.ShortPayload m.base.payload ∧ ss.length < 2 ^ 64 ∧
          Spec.WritableL (Mode.base m.base.tstr).classes true ss := by
      intro pe ss
      rw [finish_iff (by decide), ← writable_opt (c := (Mode.base m.base.tstr).classes) (k := true)]
      simp only [Spec.Writable, Spec.WritableL, List.cons_append, List.nil_append, List.length_cons, List.length_nil, Spec.HeaderWritable]
      grind
    have hn : m.signers.length ≠ 0 := by simpa using h0
    simp only [hn, ne_eq, not_false_eq_true, if_true]
    rw [← hl]
    constructor
    · rintro ⟨out, h⟩
      obtain ⟨pe, h1, h⟩ := bind_eq_ok.mp h
      obtain ⟨ss, h3, h⟩ := bind_eq_ok.mp h
      simp only [ok_bind] at h
      obtain ⟨h4, h5, h6, h7, h8⟩ := (fin pe ss).mp ⟨out, h⟩
      rw [signersEncode_size h3] at h7
      exact ⟨⟨pe, h1, h4⟩, h5, h6, h7, ss, h3, h8⟩
    · rintro ⟨⟨pe, h1, h4⟩, h5, h6, h7, ss, h3, h8⟩
      obtain ⟨out, ho⟩ := (fin pe ss).mpr ⟨h4, h5, h6, by rw [signersEncode_size h3]; exact h7, h8⟩
      exact ⟨out, by simp only [h1, ok_bind, h3]; exact ho⟩

/-! ### COSE_Mac0 and COSE_Encrypt0 -/

/-- The key of `b` may be used for one of `ops`, it is symmetric, and `t` is the tag that the registered algorithm gives for `data`. -/
def Spec.Tags (C : Crypto) (ctx : Bytes) (b : Base) (t : Bytes) : Prop :=
  ∃ i k kb data, b.getAttr Hdr.Algorithm = .ok (algCls i) ∧ b.key = some k ∧ Spec.Permits k .sym (algCls i) [Op.MacCreate] ∧
    k.symK = .ok (.bytes kb) ∧ Cose.macStructure ctx b = .ok data ∧ Spec.MacTag C i kb data t

theorem hmac_row' : ∀ p ∈ Spec.hmacAlgs, macMethod (algCls p.1) = .ok (.hmac p.2.1 p.2.2) := by decide +kernel
theorem cbcMac_row' : ∀ p ∈ Spec.cbcMacAlgs, ∃ kl ∈ [16, 32], macMethod (algCls p.1) = .ok (.aesMac kl p.2) := by decide +kernel

theorem callTag_accepts {C : Crypto} (L : C.Laws) {i : Int} {k : Key} {kb data t : Bytes} (hne : data ≠ []) (hk : k.symK = .ok (.bytes kb))
    (h : Spec.MacTag C i kb data t) : ∃ f, macMethod (algCls i) = .ok f ∧ callTag C f k data = .ok t := by
  cases h with
  | hmac hm ht =>
    exact ⟨_, hmac_row' _ hm, by simp only [callTag, hk, ok_bind, asBytes, ht]⟩
  | aes hm h1 h2 h3 h4 h5 =>
    rename_i n pad' init last
    obtain ⟨kl, _, hf⟩ := cbcMac_row' _ hm
    refine ⟨_, hf, ?_⟩
    obtain ⟨pad, hp1, hp2, hp⟩ := zeroPad_spec data
    have : pad = pad' := by omega
    subst this
    rw [← hp] at h3
    have : ∃ t', callTag C (.aesMac kl n) k data = .ok t' := by
      simp only [callTag, hk, ok_bind, asBytes, h3]
      split <;> exact ⟨_, rfl⟩
    obtain ⟨t', ht⟩ := this
    obtain ⟨i', kb', e1, e2, e3⟩ := callTag_spec L hne hf ht
    simp at e1; subst e1
    rw [hk] at e2; simp at e2; subst e2
    rw [macTag_unique (.aes hm h1 h2 (by rw [← hp]; exact h3) h4 h5) e3]
    exact ht

theorem tags_iff {C : Crypto} (L : C.Laws) {ctx : Bytes} {b : Base} {t : Bytes} (hk : ∀ k, b.key = some k → Spec.PlainPolicy k) :
    macCompute C ctx b = .ok t ↔ Spec.Tags C ctx b t := by
  constructor
  · intro h
    simp only [macCompute, bind_eq_ok] at h
    obtain ⟨alg, ha, h⟩ := h
    split at h
    · simp at h
    · rename_i k hkk
      simp only [bind_eq_ok] at h
      obtain ⟨_, hv, f, hf, data, hd, ht⟩ := h
      obtain ⟨i, kb, rfl, h1, h2⟩ := callTag_spec L (macStructure_ne hd) hf ht
      exact ⟨i, k, kb, data, ha, hkk, (verify_exact (hk k hkk)).mp hv, h1, hd, h2⟩
  · rintro ⟨i, k, kb, data, ha, hkk, hv, h1, hd, h2⟩
    obtain ⟨f, hf, ht⟩ := callTag_accepts L (macStructure_ne hd) h1 h2
    simp only [macCompute, ha, ok_bind, hkk, permits_verify hv, hf, hd, ht]

/-- C81: a COSE_Mac0 message is encoded exactly if its headers and its payload can be written, its key may make tags with the algorithm in the header, and the primitive gives
a tag. -/
theorem c81_mac0 {C : Crypto} (L : C.Laws) {m : Mac0} {tag : Bool} (hk : ∀ k, m.base.key = some k → Spec.PlainPolicy k) :
    (∃ out m', m.encode C tag true = .ok (out, m')) ↔
      Spec.ShortProtected m.base ∧ Spec.HeaderWritable m.base m.base.uhdr ∧ Spec.ShortPayload m.base.payload ∧
      ∃ t, Spec.Tags C b!"MAC0" m.base t := by
  have fin : ∀ (pe s : Bytes), s.length < 2 ^ 64 →
      ((∃ o, m.base.finish 17 tag ([.bytes pe, .map m.base.uhdr, optBytes m.base.payload] ++ [.bytes s]) = .ok o) ↔
      pe.length < 2 ^ 64 ∧ Spec.HeaderWritable m.base m.base.uhdr ∧ Spec.ShortPayload m.base.payload) := by
    intro pe s hs
    rw [finish_iff (by decide), ← writable_opt (c := (Mode.base m.base.tstr).classes) (k := true)]
    simp only [Spec.Writable, Spec.WritableL, List.cons_append, List.nil_append, List.length_cons, List.length_nil, Spec.HeaderWritable]
    grind
  have short : ∀ t, Spec.Tags C b!"MAC0" m.base t → t.length < 2 ^ 64 := by
    rintro t ⟨i, k, kb, data, _, _, _, _, _, h⟩
    have := macTag_length L h
    have key : ∀ p ∈ Spec.hmacAlgs.map (·.1) ++ Spec.cbcMacAlgs.map (·.1), ∀ n, Spec.tagLength p = some n → n < 2 ^ 64 := by
      decide +kernel
    have hi : i ∈ Spec.hmacAlgs.map (·.1) ++ Spec.cbcMacAlgs.map (·.1) := by
      cases h with
      | hmac a => exact List.mem_append_left _ (List.mem_map.mpr ⟨_, a, rfl⟩)
      | aes a => exact List.mem_append_right _ (List.mem_map.mpr ⟨_, a, rfl⟩)
    exact key i hi _ this.symm
  simp only [Mac0.encode, if_true]
  constructor
  · rintro ⟨out, m', h⟩
    obtain ⟨pe, h1, h⟩ := bind_eq_ok.mp h
    obtain ⟨t, h3, h⟩ := bind_eq_ok.mp h
    obtain ⟨o, h4, h⟩ := bind_eq_ok.mp h
    have ht := (tags_iff L hk).mp h3
    obtain ⟨h5, h6, h7⟩ := (fin pe t (short t ht)).mp ⟨o, h4⟩
    exact ⟨⟨pe, h1, h5⟩, h6, h7, t, ht⟩
  · rintro ⟨⟨pe, h1, h5⟩, h6, h7, t, ht⟩
    obtain ⟨o, h4⟩ := (fin pe t (short t ht)).mpr ⟨h5, h6, h7⟩
    have h3 := (tags_iff L hk).mpr ht
    exact ⟨o, { m with authTag := .bytes t }, by simp only [h1, ok_bind, Mac0.computeTag, h3, h4]⟩

theorem seals_iff {C : Crypto} {ctx : Bytes} {b : Base} {c : Bytes} (hk : ∀ k, b.key = some k → Spec.PlainPolicy k) :
    encEncrypt C ctx b = .ok c ↔ ∃ a key nonce aad text, Spec.Sealing ctx b a key nonce aad text ∧ Spec.PolicyPermits b [Op.Encrypt] ∧
      C.aeadEnc a key nonce aad text = .ok c := by
  constructor
  · intro h
    obtain ⟨i, a, k, kb, n, aad, p, h1, h2, h3, h4, h5, h6, h7, h8⟩ := aead_enc_prim h
    have hv : k.verify .sym (algCls i) [Op.Encrypt] = .ok () := by
      simp only [encEncrypt, h3, h1, h5, ok_bind, bind_eq_ok] at h
      exact h.choose_spec.1
    exact ⟨a, kb, n, aad, p, ⟨⟨i, h1, h2⟩, ⟨k, h3, h4⟩, h5, h6, h7⟩, ⟨k, _, h3, h1, (verify_exact (hk k h3)).mp hv⟩, h8⟩
  · rintro ⟨a, key, nonce, aad, text, ⟨⟨i, ha, hm⟩, ⟨k, hkk, hK⟩, h1, h2, h3⟩, ⟨k', alg, hk', ha', hp⟩, h⟩
    rw [hkk] at hk'; simp at hk'; subst hk'
    rw [ha] at ha'; simp at ha'; subst ha'
    rw [aead_enc_accepts ha hm hkk hp hK h1 h2 h3, h]

/-- C81: a COSE_Encrypt0 message is encoded exactly if its headers can be written, its key may encrypt with the algorithm in the header,
there are a nonce and a payload, and the cipher gives a ciphertext. -/
theorem c81_enc0 {C : Crypto} {m : Enc0} {tag : Bool} (hk : ∀ k, m.base.key = some k → Spec.PlainPolicy k) :
    (∃ out, m.encode C tag true = .ok out) ↔
      Spec.ShortProtected m.base ∧ Spec.HeaderWritable m.base m.base.uhdr ∧
      ∃ a key nonce aad text c, Spec.Sealing b!"Encrypt0" m.base a key nonce aad text ∧ Spec.PolicyPermits m.base [Op.Encrypt] ∧
        C.aeadEnc a key nonce aad text = .ok c ∧ c.length < 2 ^ 64 := by
  have fin : ∀ (pe s : Bytes), (∃ o, m.base.finish 16 tag ([.bytes pe, .map m.base.uhdr] ++ [.bytes s]) = .ok o) ↔
      pe.length < 2 ^ 64 ∧ Spec.HeaderWritable m.base m.base.uhdr ∧ s.length < 2 ^ 64 := by
    intro pe s
    rw [finish_iff (by decide)]
    simp only [Spec.Writable, Spec.WritableL, List.cons_append, List.nil_append, List.length_cons, List.length_nil, Spec.HeaderWritable]
    grind
  simp only [Enc0.encode, if_true]
  constructor
  · rintro ⟨out, h⟩
    obtain ⟨pe, h1, h⟩ := bind_eq_ok.mp h
    obtain ⟨c, h3, h⟩ := bind_eq_ok.mp h
    simp only [ok_bind] at h
    obtain ⟨h5, h6, h7⟩ := (fin pe c).mp ⟨_, h⟩
    obtain ⟨a, key, nonce, aad, text, e1, e2, e3⟩ := (seals_iff hk).mp h3
    exact ⟨⟨pe, h1, h5⟩, h6, a, key, nonce, aad, text, c, e1, e2, e3, h7⟩
  · rintro ⟨⟨pe, h1, h5⟩, h6, a, key, nonce, aad, text, c, e1, e2, e3, h7⟩
    obtain ⟨o, h4⟩ := (fin pe c).mpr ⟨h5, h6, h7⟩
    have h3 := (seals_iff hk).mpr ⟨a, key, nonce, aad, text, e1, e2, e3⟩
    exact ⟨o, by simp only [h1, ok_bind, Enc0.encrypt, h3]; exact h4⟩

/-- C81: the structure that is authenticated by COSE_Mac0 and COSE_Mac. -/
theorem c81_mac_structure {ctx : Bytes} {b : Base} (hc : ctx ∈ [b!"MAC0", b!"MAC"]) :
    (∃ d, macStructure ctx b = .ok d) ↔ Spec.BoundProtected b ∧ b.aad.length < 2 ^ 64 ∧ ∃ p, b.payload = some p ∧ p.length < 2 ^ 64 :=
  mac_structure_iff (by
    have : ∀ c ∈ [b!"MAC0", b!"MAC"], validUtf8 c = true ∧ c.length < 2 ^ 64 := by decide
    exact this _ hc)

/-- C81: the structure that is authenticated by COSE_Encrypt0, COSE_Encrypt and the layers of recipients. -/
theorem c81_enc_structure {ctx : Bytes} {b : Base} (hc : ctx ∈ [b!"Encrypt0", b!"Encrypt", b!"Enc_Recipient", b!"Mac_Recipient", b!"Rec_Recipient"]) :
    (∃ d, encStructure ctx b = .ok d) ↔ Spec.BoundProtected b ∧ b.aad.length < 2 ^ 64 :=
  enc_structure_iff (by
    have : ∀ c ∈ [b!"Encrypt0", b!"Encrypt", b!"Enc_Recipient", b!"Mac_Recipient", b!"Rec_Recipient"], validUtf8 c = true ∧ c.length < 2 ^ 64 := by decide
    exact this _ hc)

/-- C81: a key is encoded exactly if its entries can be written (a key inside a key cannot). -/
theorem c81_key {k : Key} : (∃ b, k.encode = .ok b) ↔ Spec.Writable (fun c => Spec.IntWritable c.ident) false (.map k.store) := c81_serialised

/-- C81: every class of the registries can be written in headers and keys. -/
theorem c81_classes {m : Mode} {c : Cls} (h : Registered c) (hm : m ≠ .plain) : m.classes c := by
  have key : ∀ r : Reg, ∀ p ∈ registry r, bitLength (if 0 ≤ p.1.ident then p.1.ident.toNat else (-1 - p.1.ident).toNat) ≤ 8 * (2 ^ 64 - 1) := by
    intro r; cases r <;> decide +kernel
  have hi : Spec.IntWritable c.ident := by
    simp only [Registered, lookupId, Option.map_eq_some_iff] at h
    obtain ⟨p, hp, rfl⟩ := h
    exact key _ p (List.mem_reverse.mp (List.mem_of_find?_eq_some hp))
  cases m with
  | plain => exact absurd rfl hm
  | ident => exact hi
  | base t => exact .inr hi

/-! ### Cases -/

/-- Integers around 2^64 can be written, on both sides of zero. -/
example : (∃ b, dumps fullname .plain (.int 18446744073709551615) = .ok b) ∧ (∃ b, dumps fullname .plain (.int 18446744073709551616) = .ok b) ∧
    (∃ b, dumps fullname .plain (.int (-18446744073709551616)) = .ok b) ∧ ∃ b, dumps fullname .plain (.int (-18446744073709551617)) = .ok b := by
  refine ⟨c81_serialised.mpr ?_, c81_serialised.mpr ?_, c81_serialised.mpr ?_, c81_serialised.mpr ?_⟩
  all_goals simp only [Spec.Writable, Spec.IntWritable]; decide +kernel

/-- Without a callback no class can be written, and with the callback of keys no key. -/
example : (¬ ∃ b, dumps fullname .plain (algCls (-7)) = .ok b) ∧ (∃ b, dumps fullname .ident (algCls (-7)) = .ok b) ∧
    (¬ ∃ b, dumps fullname .ident Sample.symKey.toVal = .ok b) ∧ ∃ b, dumps fullname (.base false) Sample.symKey.toVal = .ok b := by
  refine ⟨fun h => c81_serialised.mp h, c81_serialised.mpr (c81_classes (m := .ident) (by decide) (by decide)), fun h => ?_, ?_⟩
  · have := c81_serialised.mp h
    simp [Key.toVal, Spec.Writable, Mode.keys] at this
  · obtain ⟨b, h, _⟩ := res_any (r := dumps fullname (.base false) Sample.symKey.toVal) (p := fun _ => true) (by decide +kernel)
    exact ⟨b, h⟩

/-- The keys of the samples are plain. -/
example : Spec.PlainPolicy Sample.symKey ∧ (∀ k, Sample.sign1.base.key = some k → Spec.PlainPolicy k) ∧
    (∀ s ∈ Sample.sign.signers, ∀ k, s.key = some k → Spec.PlainPolicy k) := by
  have plain : ∀ k : Key, (match dget k.store (.cls KpAlg) with
      | none => true
      | some (.cls ⟨.alg, _⟩) => true
      | _ => false) = true → (match dget k.store (.cls KpKeyOps) with
      | none => true
      | some (.arr _) => true
      | _ => false) = true → Spec.PlainPolicy k := by
    intro k h1 h2
    refine ⟨?_, ?_⟩
    · split at h1
      · exact .inl (by assumption)
      · exact .inr ⟨_, by assumption⟩
      · simp at h1
    · split at h2
      · exact .inl (by assumption)
      · exact .inr ⟨_, by assumption⟩
      · simp at h2
  refine ⟨plain _ (by decide +kernel) (by decide +kernel), fun k hk => ?_, fun s hs k hk => ?_⟩
  · simp only [Sample.sign1, Sample.baseWith, Option.some.injEq] at hk
    subst hk
    exact plain _ (by decide +kernel) (by decide +kernel)
  · simp only [Sample.sign, List.mem_cons, List.not_mem_nil, or_false] at hs
    rcases hs with rfl | rfl <;> simp only [Sample.baseWith, Option.some.injEq] at hk <;> subst hk <;>
      exact plain _ (by decide +kernel) (by decide +kernel)

/-- A key with both parameters. -/
example : Spec.PlainPolicy Sample.signOnlyKey := ⟨.inr ⟨-7, by decide +kernel⟩, .inr ⟨[.cls Op.Sign], by decide +kernel⟩⟩

/-- All four kinds of messages can be encoded; a message with two payloads, and one whose header contains an object without
representation, cannot. -/
example : (∃ out, Sample.sign1.encode toy [] true true none = .ok out) ∧ (∃ out, Sample.sign.encode toy (fun _ => []) true none = .ok out) ∧
    (∃ out m', Sample.mac0.encode toy true true = .ok (out, m')) ∧ (∃ out, Sample.enc0.encode toy true true = .ok out) ∧
    (¬ ∃ out, Sample.sign1.encode toy [] true true (some b!"hello") = .ok out) ∧
    ¬ ∃ out, ({ Sample.sign1 with base := { Sample.sign1.base with uhdr := [(.int 99, .simple 24)] } } : Sign1).encode toy [] true true none = .ok out := by
  obtain ⟨a, h1, _⟩ := res_any (r := Sample.sign1.encode toy [] true true none) (p := fun _ => true) (by decide +kernel)
  obtain ⟨b, h2, _⟩ := res_any (r := Sample.sign.encode toy (fun _ => []) true none) (p := fun _ => true) (by decide +kernel)
  obtain ⟨⟨c, m'⟩, h3, _⟩ := res_any (r := Sample.mac0.encode toy true true) (p := fun _ => true) (by decide +kernel)
  obtain ⟨d, h4, _⟩ := res_any (r := Sample.enc0.encode toy true true) (p := fun _ => true) (by decide +kernel)
  refine ⟨⟨a, h1⟩, ⟨b, h2⟩, ⟨c, m', h3⟩, ⟨d, h4⟩, ?_, ?_⟩
  · rintro ⟨o, h⟩
    have : Sample.sign1.encode toy [] true true (some b!"hello") = .error .coseException := by decide +kernel
    rw [this] at h; simp at h
  · rintro ⟨o, h⟩
    have : ({ Sample.sign1 with base := { Sample.sign1.base with uhdr := [(.int 99, .simple 24)] } } : Sign1).encode toy [] true true none =
      .error .unsupported := by decide +kernel
    rw [this] at h; simp at h
end Cose
