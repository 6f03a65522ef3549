import Verif.Cbor
import Verif.Bits
/-!
# Correctness of the CBOR model

Round trip of `dec` after `enc`, injectivity, prefix-freeness, fuel.
-/
set_option autoImplicit false

namespace Cose

theorem readN_append (x r : Bytes) (n : Nat) (h : x.length = n) : readN n (x ++ r) = .ok (x, r) := by
  subst h; simp [readN]

theorem readN_ok {n : Nat} {bs x r : Bytes} (h : readN n bs = .ok (x, r)) :
    bs = x ++ r ∧ x.length = n := by
  unfold readN at h
  split at h
  · simp at h; obtain ⟨h1, h2⟩ := h; subst h1 h2; simp; omega
  · simp at h

theorem encHead_spec {mt n : Nat} {h : Bytes} (hm : mt < 8) (hh : encHead mt n = .ok h) :
    ∃ ib t, h = ib :: t ∧ ib.toNat / 32 = mt ∧ ib.toNat % 32 < 28 ∧
      ∀ r, decLen (ib.toNat % 32) (t ++ r) = .ok (n, r) := by
  unfold encHead at hh
  split at hh
  · rename_i hn
    simp only [Except.ok.injEq] at hh; subst hh
    refine ⟨_, _, rfl, ?_, ?_, ?_⟩
    · simp; omega
    · simp; omega
    · intro r
      have : (UInt8.ofNat (mt * 32 + n)).toNat % 32 = n := by simp; omega
      rw [this]; simp [decLen, hn]
  · split at hh
    · rename_i h0 hn
      simp only [Except.ok.injEq] at hh; subst hh
      have e : (UInt8.ofNat (mt * 32 + 24)).toNat % 32 = 24 := by simp
      refine ⟨_, _, rfl, ?_, ?_, ?_⟩
      · simp; omega
      · omega
      · intro r
        rw [e, decLen, if_neg (by decide), if_pos rfl, readN_append _ _ _ (beBytes_length _ _)]
        simp [natOfBytes_beBytes_of_lt (show n < 256 ^ 1 by simpa using hn)]
    · split at hh
      · rename_i h0 h1 hn
        simp only [Except.ok.injEq] at hh; subst hh
        have e : (UInt8.ofNat (mt * 32 + 25)).toNat % 32 = 25 := by simp
        refine ⟨_, _, rfl, ?_, ?_, ?_⟩
        · simp; omega
        · omega
        · intro r
          rw [e, decLen, if_neg (by decide), if_neg (by decide), if_pos rfl,
            readN_append _ _ _ (beBytes_length _ _)]
          simp [natOfBytes_beBytes_of_lt (show n < 256 ^ 2 by simpa using hn)]
      · split at hh
        · rename_i h0 h1 h2 hn
          simp only [Except.ok.injEq] at hh; subst hh
          have e : (UInt8.ofNat (mt * 32 + 26)).toNat % 32 = 26 := by simp
          refine ⟨_, _, rfl, ?_, ?_, ?_⟩
          · simp; omega
          · omega
          · intro r
            rw [e, decLen, if_neg (by decide), if_neg (by decide), if_neg (by decide), if_pos rfl,
              readN_append _ _ _ (beBytes_length _ _)]
            simp [natOfBytes_beBytes_of_lt (show n < 256 ^ 4 by simpa using hn)]
        · split at hh
          · rename_i h0 h1 h2 h3 hn
            simp only [Except.ok.injEq] at hh; subst hh
            have e : (UInt8.ofNat (mt * 32 + 27)).toNat % 32 = 27 := by simp
            refine ⟨_, _, rfl, ?_, ?_, ?_⟩
            · simp; omega
            · omega
            · intro r
              rw [e, decLen, if_neg (by decide), if_neg (by decide), if_neg (by decide),
                if_neg (by decide), if_pos rfl, readN_append _ _ _ (beBytes_length _ _)]
              simp [natOfBytes_beBytes_of_lt (show n < 256 ^ 8 by simpa using hn)]
          · simp at hh

theorem encHead_pos {mt n : Nat} {h : Bytes} (hh : encHead mt n = .ok h) : 1 ≤ h.length := by
  unfold encHead at hh
  repeat' split at hh
  all_goals first | (simp at hh; done) | (simp only [Except.ok.injEq] at hh; subst hh; simp)

/-- The head of an item, as seen by `dec`. -/
theorem dec_cons (f : Nat) (ib : UInt8) (t : Bytes) (mt : Nat) (h : ib.toNat / 32 = mt) :
    dec (f + 1) (ib :: t) =
    (let ai := ib.toNat % 32
     if mt = 0 then do
      let (n, r) ← decLen ai t
      .ok (.int n, r)
    else if mt = 1 then do
      let (n, r) ← decLen ai t
      .ok (.int (-1 - (n : Int)), r)
    else if mt = 2 then
      if ai = 31 then do
        let (b, r) ← decChunks f 2 t
        .ok (.bytes b, r)
      else do
        let (n, r) ← decLen ai t
        let (b, r) ← readN n r
        .ok (.bytes b, r)
    else if mt = 3 then
      if ai = 31 then do
        let (b, r) ← decChunks f 3 t
        .ok (.text b, r)
      else do
        let (n, r) ← decLen ai t
        let (b, r) ← readN n r
        if validUtf8 b then .ok (.text b, r) else .error .cborValue
    else if mt = 4 then
      if ai = 31 then do
        let (l, r) ← decArrInf f t
        .ok (.arr l, r)
      else do
        let (n, r) ← decLen ai t
        let (l, r) ← decArr f n r
        .ok (.arr l, r)
    else if mt = 5 then
      if ai = 31 then do
        let (l, r) ← decMapInf f t
        .ok (.map l, r)
      else do
        let (n, r) ← decLen ai t
        let (l, r) ← decMap f n r
        .ok (.map l, r)
    else if mt = 6 then do
      let (n, r) ← decLen ai t
      let (v, r) ← dec f r
      .ok (.tag n v, r)
    else decSpecial ai t) := by
  subst h; rfl

theorem encFloat_dec {b : Nat} {bs : Bytes} (h : encFloat b = .ok bs) (f : Nat) (r : Bytes) :
    dec (f + 1) (bs ++ r) = .ok (.float b, r) := by
  unfold encFloat at h
  split at h
  · simp at h; subst h; subst_vars
    simp [dec, decSpecial, readN, natOfBytes, widen, nanBits]
  · split at h
    · simp at h; subst h; subst_vars
      simp [dec, decSpecial, readN, natOfBytes, widen, infBits]
    · split at h
      · simp at h; subst h; subst_vars
        simp [dec, decSpecial, readN, natOfBytes, widen, infBits, ninfBits]
      · split at h
        · simp at h
        · split at h
          · rename_i h1 h2 h3 h4 h5
            simp only [Except.ok.injEq] at h; subst h
            have hb : b < 256 ^ 8 := by
              have : (256 : Nat) ^ 8 = 2 ^ 64 := by decide
              omega
            simp [dec, decSpecial, readN_append _ _ _ (beBytes_length _ _),
              natOfBytes_beBytes_of_lt hb, h4]
          · simp at h

theorem encFloat_pos {b : Nat} {bs : Bytes} (h : encFloat b = .ok bs) : 1 ≤ bs.length := by
  unfold encFloat at h
  repeat' split at h
  all_goals first | (simp at h; done) | (simp only [Except.ok.injEq] at h; subst h; simp)

theorem encSimple_dec {b : Nat} {bs : Bytes} (h : encSimple b = .ok bs) (f : Nat) (r : Bytes) :
    dec (f + 1) (bs ++ r) = .ok (.simple b, r) := by
  unfold encSimple at h
  split at h
  · rename_i hb
    simp only [Except.ok.injEq] at h; subst h
    have e1 : (UInt8.ofNat (224 + b)).toNat / 32 = 7 := by simp; omega
    have e2 : (UInt8.ofNat (224 + b)).toNat % 32 = b := by simp; omega
    rw [List.singleton_append, dec_cons _ _ _ _ e1]
    simp only [e2]
    simp [decSpecial, hb]
  · split at h
    · rename_i hb hc
      simp only [Except.ok.injEq] at h; subst h
      have e3 : (UInt8.ofNat b).toNat = b := by simp; omega
      simp only [List.cons_append, List.nil_append]
      rw [dec_cons _ _ _ 7 (by decide)]
      simp [decSpecial, readN, natOfBytes]
      rw [if_neg (by omega)]
      simp; omega
    · simp at h

theorem encSimple_pos {b : Nat} {bs : Bytes} (h : encSimple b = .ok bs) : 1 ≤ bs.length := by
  unfold encSimple at h
  repeat' split at h
  all_goals first | (simp at h; done) | (simp only [Except.ok.injEq] at h; subst h; simp)

theorem enc_pos {v : Val} {b : Bytes} (h : enc v = .ok b) : 1 ≤ b.length := by
  cases v <;> simp only [enc] at h
  case none => simp at h; subst h; simp
  case undef => simp at h; subst h; simp
  case bool => simp at h; subst h; simp
  case simple => exact encSimple_pos h
  case int => split at h <;> exact encHead_pos h
  case float => exact encFloat_pos h
  case bytes =>
    simp only [bind_eq_ok, Except.ok.injEq] at h
    obtain ⟨a, h1, h2⟩ := h; subst h2
    have := encHead_pos h1; simp; omega
  case text =>
    split at h
    · simp only [bind_eq_ok, Except.ok.injEq] at h
      obtain ⟨a, h1, h2⟩ := h; subst h2
      have := encHead_pos h1; simp; omega
    · simp at h
  case arr =>
    simp only [bind_eq_ok, Except.ok.injEq] at h
    obtain ⟨a, h1, c, h3, h2⟩ := h; subst h2
    have := encHead_pos h1; simp; omega
  case map =>
    simp only [bind_eq_ok, Except.ok.injEq] at h
    obtain ⟨a, h1, c, h3, h2⟩ := h; subst h2
    have := encHead_pos h1; simp; omega
  case tag =>
    simp only [bind_eq_ok, Except.ok.injEq] at h
    obtain ⟨a, h1, c, h3, h2⟩ := h; subst h2
    have := encHead_pos h1; simp; omega
  case cls => simp at h
  case key => simp at h

mutual
/-- Decoding the encoding of `v`, followed by anything, gives `v` and the rest. -/
theorem dec_enc (v : Val) (b r : Bytes) (h : enc v = .ok b) (f : Nat) (hf : 2 * b.length + 1 ≤ f) :
    dec f (b ++ r) = .ok (v, r) := by
  have hp := enc_pos h
  obtain ⟨f, rfl⟩ : ∃ g, f = g + 1 := ⟨f - 1, by omega⟩
  cases v <;> simp only [enc] at h
  case none => simp at h; subst h; simp [dec, decSpecial]
  case undef => simp at h; subst h; simp [dec, decSpecial]
  case bool b' => simp at h; subst h; cases b' <;> simp [dec, decSpecial]
  case simple => exact encSimple_dec h f r
  case float => exact encFloat_dec h f r
  case int i =>
    split at h
    · obtain ⟨ib, t, rfl, h1, h2, h3⟩ := encHead_spec (by decide) h
      simp only [List.cons_append]
      rw [dec_cons f ib _ _ h1]
      simp only [h3, ok_bind]
      simp
      omega
    · obtain ⟨ib, t, rfl, h1, h2, h3⟩ := encHead_spec (by decide) h
      simp only [List.cons_append]
      rw [dec_cons f ib _ _ h1]
      simp only [h3, ok_bind]
      simp
      omega
  case bytes x =>
    simp only [bind_eq_ok, Except.ok.injEq] at h
    obtain ⟨a, h0, h⟩ := h; subst h
    obtain ⟨ib, t, rfl, h1, h2, h3⟩ := encHead_spec (by decide) h0
    simp only [List.cons_append, List.append_assoc]
    rw [dec_cons f ib _ _ h1]
    simp only [h3, ok_bind, if_neg (show ¬ ib.toNat % 32 = 31 by omega),
      readN_append x r _ rfl]
    simp
  case text x =>
    split at h
    case isFalse => simp at h
    rename_i hu
    simp only [bind_eq_ok, Except.ok.injEq] at h
    obtain ⟨a, h0, h⟩ := h; subst h
    obtain ⟨ib, t, rfl, h1, h2, h3⟩ := encHead_spec (by decide) h0
    simp only [List.cons_append, List.append_assoc]
    rw [dec_cons f ib _ _ h1]
    simp only [h3, ok_bind, if_neg (show ¬ ib.toNat % 32 = 31 by omega),
      readN_append x r _ rfl, hu]
    simp
  case arr l =>
    simp only [bind_eq_ok, Except.ok.injEq] at h
    obtain ⟨a, h0, c, hc, h⟩ := h; subst h
    obtain ⟨ib, t, rfl, h1, h2, h3⟩ := encHead_spec (by decide) h0
    simp only [List.cons_append, List.append_assoc]
    rw [dec_cons f ib _ _ h1]
    simp only [h3, ok_bind, if_neg (show ¬ ib.toNat % 32 = 31 by omega)]
    rw [decArr_encL l c r hc f (by simp at hf; omega)]
    simp
  case map l =>
    simp only [bind_eq_ok, Except.ok.injEq] at h
    obtain ⟨a, h0, c, hc, h⟩ := h; subst h
    obtain ⟨ib, t, rfl, h1, h2, h3⟩ := encHead_spec (by decide) h0
    simp only [List.cons_append, List.append_assoc]
    rw [dec_cons f ib _ _ h1]
    simp only [h3, ok_bind, if_neg (show ¬ ib.toNat % 32 = 31 by omega)]
    rw [decMap_encP l c r hc f (by simp at hf; omega)]
    simp
  case tag n v =>
    simp only [bind_eq_ok, Except.ok.injEq] at h
    obtain ⟨a, h0, c, hc, h⟩ := h; subst h
    obtain ⟨ib, t, rfl, h1, h2, h3⟩ := encHead_spec (by decide) h0
    simp only [List.cons_append, List.append_assoc]
    rw [dec_cons f ib _ _ h1]
    simp only [h3, ok_bind]
    rw [dec_enc v c r hc f (by simp at hf; omega)]
    simp
  case cls => simp at h
  case key => simp at h
termination_by structural v
theorem decArr_encL (l : List Val) (b r : Bytes) (h : encL l = .ok b) (f : Nat)
    (hf : 2 * b.length + 2 ≤ f) : decArr f l.length (b ++ r) = .ok (l, r) := by
  obtain ⟨f, rfl⟩ : ∃ g, f = g + 1 := ⟨f - 1, by omega⟩
  cases l with
  | nil => simp [encL] at h; subst h; simp [decArr]
  | cons v t =>
    simp only [encL, bind_eq_ok, Except.ok.injEq] at h
    obtain ⟨a, ha, c, hc, h⟩ := h; subst h
    have hp := enc_pos ha
    simp only [List.length_cons, decArr, List.append_assoc]
    simp at hf
    rw [dec_enc v a _ ha f (by omega)]
    simp only [ok_bind]
    rw [decArr_encL t c r hc f (by omega)]
    simp
termination_by structural l
theorem decMap_encP (l : List (Val × Val)) (b r : Bytes) (h : encP l = .ok b) (f : Nat)
    (hf : 2 * b.length + 2 ≤ f) : decMap f l.length (b ++ r) = .ok (l, r) := by
  obtain ⟨f, rfl⟩ : ∃ g, f = g + 1 := ⟨f - 1, by omega⟩
  cases l with
  | nil => simp [encP] at h; subst h; simp [decMap]
  | cons p t =>
    simp only [encP, bind_eq_ok, Except.ok.injEq] at h
    obtain ⟨a, ha, c, hc, h⟩ := h; subst h
    simp at hf
    have := decQ_encQ p a ha f (by omega) (c ++ r)
    obtain ⟨x, h1, h2, hp⟩ := this
    simp only [List.length_cons, decMap, List.append_assoc]
    rw [h1]
    simp only [ok_bind]
    rw [h2]
    simp only [ok_bind]
    rw [decMap_encP t c r hc f (by omega)]
    simp
termination_by structural l
theorem decQ_encQ (p : Val × Val) (b : Bytes) (h : encQ p = .ok b) (f : Nat)
    (hf : 2 * b.length + 1 ≤ f) (r : Bytes) :
    ∃ x, dec f (b ++ r) = .ok (p.1, x) ∧ dec f x = .ok (p.2, r) ∧ 1 ≤ b.length := by
  obtain ⟨k, v⟩ := p
  simp only [encQ, bind_eq_ok, Except.ok.injEq] at h
  obtain ⟨a, ha, c, hc, h⟩ := h; subst h
  simp at hf
  have hp := enc_pos ha
  refine ⟨c ++ r, ?_, ?_, by simp; omega⟩
  · rw [List.append_assoc]; exact dec_enc k a _ ha f (by omega)
  · exact dec_enc v c r hc f (by omega)
termination_by structural p
end

theorem decodeItem_enc {v : Val} {b : Bytes} (h : enc v = .ok b) (r : Bytes) :
    decodeItem (b ++ r) = .ok (v, r) :=
  dec_enc v b r h _ (by simp; omega)

/-- The encoder is injective, also in context: no encoding is a proper prefix of another. -/
theorem enc_append_inj {v w : Val} {a b r s : Bytes} (ha : enc v = .ok a) (hb : enc w = .ok b)
    (h : a ++ r = b ++ s) : v = w ∧ a = b ∧ r = s := by
  have h1 := decodeItem_enc ha r
  have h2 := decodeItem_enc hb s
  rw [h, h2] at h1
  simp at h1
  obtain ⟨h1, h3⟩ := h1
  subst h1; rw [ha] at hb; simp at hb
  exact ⟨rfl, hb, h3.symm⟩

theorem enc_inj {v w : Val} {a : Bytes} (ha : enc v = .ok a) (hb : enc w = .ok a) : v = w :=
  (enc_append_inj (r := []) (s := []) ha hb rfl).1

theorem loads_enc {v : Val} {b : Bytes} (h : enc v = .ok b) (r : Bytes) : loads (b ++ r) = interp v := by
  simp [loads, decodeItem_enc h r]

end Cose
