import Verif.CborPy
/-!
# Decoded values can be written and read back

Everything `cbor2.loads` returns (in the model) is a plain value that `dumps` followed by `loads` reproduces.
-/
set_option autoImplicit false
namespace Cose

theorem utf8Go_append {b : Bytes} (hb : validUtf8 b = true) : ∀ (a : Bytes) (n : Nat) (lo hi : UInt8),
    utf8Go n lo hi a = true → utf8Go n lo hi (a ++ b) = true := by
  intro a
  induction a with
  | nil =>
    intro n lo hi h
    cases n with
    | zero =>
      cases b with
      | nil => exact h
      | cons x t => simpa [validUtf8, utf8Go] using hb
    | succ n => simp [utf8Go] at h
  | cons x t ih =>
    intro n lo hi h
    cases n with
    | zero =>
      simp only [List.cons_append, utf8Go] at h ⊢
      repeat' split at h
      all_goals first
        | (simp at h; done)
        | skip
      all_goals simp only [*, Bool.false_eq_true, ↓reduceIte]
      all_goals first
        | exact ih _ _ _ h
        | simp_all
    | succ n =>
      simp only [List.cons_append, utf8Go] at h ⊢
      split at h
      · rename_i e; rw [if_pos e]; exact ih _ _ _ h
      · simp at h

theorem validUtf8_append {a b : Bytes} (ha : validUtf8 a = true) (hb : validUtf8 b = true) : validUtf8 (a ++ b) = true :=
  utf8Go_append hb a 0 _ _ ha

theorem decChunks_text {f : Nat} {bs b r : Bytes} (h : decChunks f 3 bs = .ok (b, r)) : validUtf8 b = true := by
  induction f generalizing bs b r with
  | zero => simp [decChunks] at h
  | succ f ih =>
    cases bs with
    | nil => simp [decChunks] at h
    | cons ib s =>
      simp only [decChunks] at h
      split at h
      · simp at h; obtain ⟨rfl, rfl⟩ := h; rfl
      · split at h
        · simp only [bind_eq_ok, Prod.exists] at h
          obtain ⟨n, r1, h1, c, r2, h2, h⟩ := h
          split at h
          · simp at h
          · rename_i e2
            simp only [bind_eq_ok, Prod.exists, Except.ok.injEq, Prod.mk.injEq] at h
            obtain ⟨cs, r3, h3, rfl, rfl⟩ := h
            exact validUtf8_append (by simpa using e2) (ih h3)
        · simp at h

/-- A binary64 pattern as the decoder gives it. -/
def FloatOK (f : Nat) : Prop := f < 2 ^ 64 ∧ (floatNaN f = true → f = nanBits)

theorem floatOK_parts {s e m : Nat} (hs : s < 2) (he : e < 2047) (hm : m < 2 ^ 52) : FloatOK (s * 2 ^ 63 + e * 2 ^ 52 + m) := by
  refine ⟨by omega, ?_⟩
  intro h
  exfalso
  simp only [floatNaN, floatSpecial, Bool.and_eq_true, beq_iff_eq] at h
  omega

theorem floatOK_inf {s : Nat} (hs : s < 2) : FloatOK (s * 2 ^ 63 + infBits) := by
  have : s = 0 ∨ s = 1 := by omega
  rcases this with rfl | rfl <;> refine ⟨by decide, by decide⟩

theorem log2_bounds {m : Nat} (h : m ≠ 0) : 2 ^ Nat.log2 m ≤ m ∧ m < 2 ^ (Nat.log2 m + 1) :=
  ⟨Nat.log2_self_le h, Nat.lt_log2_self⟩

theorem widen_ok {eb mb bits : Nat} (h : (eb = 5 ∧ mb = 10) ∨ (eb = 8 ∧ mb = 23)) (hb : bits < 2 ^ (1 + eb + mb)) :
    FloatOK (widen eb mb bits) := by
  have hs : bits / 2 ^ (eb + mb) < 2 := by
    rw [Nat.div_lt_iff_lt_mul (Nat.two_pow_pos _)]
    rw [← Nat.pow_succ']
    rw [show 1 + eb + mb = (eb + mb).succ by omega] at hb
    exact hb
  unfold widen
  simp only []
  generalize bits / 2 ^ (eb + mb) = s at hs
  split
  · split
    · exact floatOK_inf hs
    · exact ⟨by decide, fun _ => rfl⟩
  · rename_i h1
    have he : bits / 2 ^ mb % 2 ^ eb < 2 ^ eb := Nat.mod_lt _ (Nat.two_pow_pos _)
    have hm : bits % 2 ^ mb < 2 ^ mb := Nat.mod_lt _ (Nat.two_pow_pos _)
    generalize bits / 2 ^ mb % 2 ^ eb = e at he h1
    generalize bits % 2 ^ mb = m at hm
    split
    · split
      · simpa using floatOK_parts hs (e := 0) (m := 0) (by omega) (by omega)
      · rename_i h2 h3
        obtain ⟨k1, k2⟩ := log2_bounds h3
        have hk : Nat.log2 m < mb := by
          rw [Nat.log2_lt h3]; exact hm
        generalize hkk : Nat.log2 m = k at *
        have hlt : m - 2 ^ k < 2 ^ k := by rw [Nat.pow_succ] at k2; omega
        refine floatOK_parts hs ?_ ?_
        · rcases h with ⟨rfl, rfl⟩ | ⟨rfl, rfl⟩ <;> omega
        · calc (m - 2 ^ k) * 2 ^ (52 - k) < 2 ^ k * 2 ^ (52 - k) := Nat.mul_lt_mul_of_pos_right hlt (Nat.two_pow_pos _)
            _ = 2 ^ 52 := by
              rw [← Nat.pow_add]
              congr 1
              rcases h with ⟨_, rfl⟩ | ⟨_, rfl⟩ <;> omega
    · refine floatOK_parts hs ?_ ?_
      · rcases h with ⟨rfl, rfl⟩ | ⟨rfl, rfl⟩ <;> omega
      · rcases h with ⟨rfl, rfl⟩ | ⟨rfl, rfl⟩ <;> omega

mutual
/-- Decoded items, before Python's interpretation. -/
def ItemOK : Val → Prop
  | .simple n => n < 20 ∨ (32 ≤ n ∧ n < 256)
  | .float f => FloatOK f
  | .text s => validUtf8 s = true
  | .arr l => ItemOKL l
  | .map l => ItemOKP l
  | .tag _ v => ItemOK v
  | .cls _ => False
  | .key _ _ => False
  | _ => True
termination_by structural x => x
def ItemOKL : List Val → Prop
  | [] => True
  | v :: t => ItemOK v ∧ ItemOKL t
termination_by structural x => x
def ItemOKP : List (Val × Val) → Prop
  | [] => True
  | p :: t => ItemOKQ p ∧ ItemOKP t
termination_by structural x => x
def ItemOKQ : Val × Val → Prop
  | (k, v) => ItemOK k ∧ ItemOK v
termination_by structural x => x
end

theorem natOfBytes_lt' {n : Nat} {bs x r : Bytes} (h : readN n bs = .ok (x, r)) : natOfBytes x < 256 ^ n := by
  obtain ⟨_, h2⟩ := readN_ok h
  rw [← h2]; exact natOfBytes_lt x

theorem decSpecial_item {ai : Nat} {bs r : Bytes} {v : Val} (h : decSpecial ai bs = .ok (v, r)) : ItemOK v := by
  unfold decSpecial at h
  split at h
  · rename_i e; simp at h; obtain ⟨rfl, rfl⟩ := h; exact .inl e
  split at h
  · simp at h; obtain ⟨rfl, rfl⟩ := h; trivial
  split at h
  · simp at h; obtain ⟨rfl, rfl⟩ := h; trivial
  split at h
  · simp at h; obtain ⟨rfl, rfl⟩ := h; trivial
  split at h
  · simp at h; obtain ⟨rfl, rfl⟩ := h; trivial
  split at h
  · simp only [bind_eq_ok, Prod.exists] at h
    obtain ⟨x, r1, h1, h⟩ := h
    have := natOfBytes_lt' h1
    split at h
    · simp at h
    · simp at h; obtain ⟨rfl, rfl⟩ := h
      exact .inr ⟨by omega, by omega⟩
  split at h
  · simp only [bind_eq_ok, Prod.exists, Except.ok.injEq, Prod.mk.injEq] at h
    obtain ⟨x, r1, h1, rfl, rfl⟩ := h
    have := natOfBytes_lt' h1
    exact widen_ok (.inl ⟨rfl, rfl⟩) (by omega)
  split at h
  · simp only [bind_eq_ok, Prod.exists, Except.ok.injEq, Prod.mk.injEq] at h
    obtain ⟨x, r1, h1, rfl, rfl⟩ := h
    have := natOfBytes_lt' h1
    exact widen_ok (.inr ⟨rfl, rfl⟩) (by omega)
  split at h
  · simp only [bind_eq_ok, Prod.exists, Except.ok.injEq, Prod.mk.injEq] at h
    obtain ⟨x, r1, h1, rfl, rfl⟩ := h
    have := natOfBytes_lt' h1
    simp only [ItemOK]
    split
    · exact ⟨by decide, fun _ => rfl⟩
    · rename_i e
      exact ⟨by omega, fun h => absurd h e⟩
  · simp at h

def ItemsOK (f : Nat) : Prop :=
  (∀ bs v r, dec f bs = .ok (v, r) → ItemOK v) ∧
  (∀ n bs v r, decArr f n bs = .ok (v, r) → ItemOKL v) ∧
  (∀ bs v r, decArrInf f bs = .ok (v, r) → ItemOKL v) ∧
  (∀ n bs v r, decMap f n bs = .ok (v, r) → ItemOKP v) ∧
  (∀ bs v r, decMapInf f bs = .ok (v, r) → ItemOKP v)

theorem itemsOK (f : Nat) : ItemsOK f := by
  induction f with
  | zero => refine ⟨?_, ?_, ?_, ?_, ?_⟩ <;> intros <;> simp_all [dec, decArr, decArrInf, decMap, decMapInf]
  | succ f ih =>
    obtain ⟨i1, i2, i3, i4, i5⟩ := ih
    refine ⟨?_, ?_, ?_, ?_, ?_⟩
    · intro bs v r h
      cases bs with
      | nil => simp [dec] at h
      | cons ib t =>
        simp only [dec] at h
        split at h
        · simp only [bind_eq_ok, Prod.exists, Except.ok.injEq, Prod.mk.injEq] at h
          obtain ⟨_, _, _, rfl, _⟩ := h; trivial
        split at h
        · simp only [bind_eq_ok, Prod.exists, Except.ok.injEq, Prod.mk.injEq] at h
          obtain ⟨_, _, _, rfl, _⟩ := h; trivial
        split at h
        · split at h
          · simp only [bind_eq_ok, Prod.exists, Except.ok.injEq, Prod.mk.injEq] at h
            obtain ⟨_, _, _, rfl, _⟩ := h; trivial
          · simp only [bind_eq_ok, Prod.exists, Except.ok.injEq, Prod.mk.injEq] at h
            obtain ⟨_, _, _, _, _, _, rfl, _⟩ := h; trivial
        split at h
        · split at h
          · simp only [bind_eq_ok, Prod.exists, Except.ok.injEq, Prod.mk.injEq] at h
            obtain ⟨_, _, h1, rfl, _⟩ := h
            exact decChunks_text h1
          · simp only [bind_eq_ok, Prod.exists] at h
            obtain ⟨_, _, _, b, _, _, h⟩ := h
            split at h
            · rename_i e
              simp at h; obtain ⟨rfl, _⟩ := h; exact e
            · simp at h
        split at h
        · split at h
          · simp only [bind_eq_ok, Prod.exists, Except.ok.injEq, Prod.mk.injEq] at h
            obtain ⟨_, _, h1, rfl, _⟩ := h
            exact i3 _ _ _ h1
          · simp only [bind_eq_ok, Prod.exists, Except.ok.injEq, Prod.mk.injEq] at h
            obtain ⟨_, _, _, _, _, h1, rfl, _⟩ := h
            exact i2 _ _ _ _ h1
        split at h
        · split at h
          · simp only [bind_eq_ok, Prod.exists, Except.ok.injEq, Prod.mk.injEq] at h
            obtain ⟨_, _, h1, rfl, _⟩ := h
            exact i5 _ _ _ h1
          · simp only [bind_eq_ok, Prod.exists, Except.ok.injEq, Prod.mk.injEq] at h
            obtain ⟨_, _, _, _, _, h1, rfl, _⟩ := h
            exact i4 _ _ _ _ h1
        split at h
        · simp only [bind_eq_ok, Prod.exists, Except.ok.injEq, Prod.mk.injEq] at h
          obtain ⟨_, _, _, _, _, h1, rfl, _⟩ := h
          simp only [ItemOK]
          exact i1 _ _ _ h1
        · exact decSpecial_item h
    · intro n bs v r h
      cases n with
      | zero => simp [decArr] at h; obtain ⟨rfl, _⟩ := h; trivial
      | succ n =>
        simp only [decArr, bind_eq_ok, Prod.exists, Except.ok.injEq, Prod.mk.injEq] at h
        obtain ⟨_, _, h1, _, _, h2, rfl, _⟩ := h
        exact ⟨i1 _ _ _ h1, i2 _ _ _ _ h2⟩
    · intro bs v r h
      simp only [decArrInf] at h
      split at h
      · simp at h; obtain ⟨rfl, _⟩ := h; trivial
      · simp only [bind_eq_ok, Prod.exists, Except.ok.injEq, Prod.mk.injEq] at h
        obtain ⟨_, _, h1, _, _, h2, rfl, _⟩ := h
        exact ⟨i1 _ _ _ h1, i3 _ _ _ h2⟩
    · intro n bs v r h
      cases n with
      | zero => simp [decMap] at h; obtain ⟨rfl, _⟩ := h; trivial
      | succ n =>
        simp only [decMap, bind_eq_ok, Prod.exists, Except.ok.injEq, Prod.mk.injEq] at h
        obtain ⟨_, _, h1, _, _, h2, _, _, h3, rfl, _⟩ := h
        exact ⟨⟨i1 _ _ _ h1, i1 _ _ _ h2⟩, i4 _ _ _ _ h3⟩
    · intro bs v r h
      simp only [decMapInf] at h
      split at h
      · simp at h; obtain ⟨rfl, _⟩ := h; trivial
      · simp only [bind_eq_ok, Prod.exists, Except.ok.injEq, Prod.mk.injEq] at h
        obtain ⟨_, _, h1, _, _, h2, _, _, h3, rfl, _⟩ := h
        exact ⟨⟨i1 _ _ _ h1, i1 _ _ _ h2⟩, i5 _ _ _ h3⟩

theorem dset_pyok {d : Dict} {k v : Val} (hd : PyOKP d) (hk : PyOK k) (hv : PyOK v) : PyOKP (dset d k v) := by
  induction d with
  | nil => simp [dset, PyOKP, PyOKQ, hk, hv]
  | cons p t ih =>
    obtain ⟨a, b⟩ := p
    simp only [PyOKP, PyOKQ] at hd
    simp only [dset]
    split
    · exact ⟨⟨hd.1.1, hv⟩, hd.2⟩
    · exact ⟨hd.1, ih hd.2⟩

theorem dupdate_pyok {d e : Dict} (hd : PyOKP d) (he : PyOKP e) : PyOKP (dupdate d e) := by
  induction e generalizing d with
  | nil => exact hd
  | cons p t ih =>
    obtain ⟨a, b⟩ := p
    simp only [PyOKP, PyOKQ] at he
    exact ih (dset_pyok hd he.1.1 he.1.2) he.2

mutual
theorem interp_pyok (v : Val) (h : ItemOK v) {w : Val} (e : interp v = .ok w) : PyOK w := by
  cases v <;> simp only [ItemOK] at h <;> simp only [interp] at e
  case arr l =>
    simp only [bind_eq_ok, Except.ok.injEq] at e
    obtain ⟨l', h1, rfl⟩ := e
    exact interpL_pyok l h h1
  case map l =>
    simp only [bind_eq_ok, Except.ok.injEq] at e
    obtain ⟨l', h1, rfl⟩ := e
    exact ⟨dupdate_pyok trivial (interpP_pyok l h h1), dupdate_nodup (by simp [KeysNodup]) _⟩
  case tag n v =>
    simp only [bind_eq_ok] at e
    obtain ⟨v', h1, e⟩ := e
    have hv := interp_pyok v h h1
    unfold mkTag at e
    split at e
    · split at e <;> simp at e
      subst e; trivial
    split at e
    · split at e <;> simp at e
      subst e; trivial
    split at e
    · simp at e; subst e; exact hv
    split at e
    · simp at e
    · simp at e; subst e
      exact ⟨by assumption, by assumption, by assumption, by assumption, hv⟩
  all_goals (simp only [Except.ok.injEq] at e; subst e; first | trivial | exact h)
termination_by structural v
theorem interpL_pyok (l : List Val) (h : ItemOKL l) {w : List Val} (e : interpL l = .ok w) : PyOKL w := by
  cases l with
  | nil => simp [interpL] at e; subst e; trivial
  | cons v t =>
    simp only [ItemOKL] at h
    simp only [interpL, bind_eq_ok, Except.ok.injEq] at e
    obtain ⟨v', h1, t', h2, rfl⟩ := e
    exact ⟨interp_pyok v h.1 h1, interpL_pyok t h.2 h2⟩
termination_by structural l
theorem interpP_pyok (l : List (Val × Val)) (h : ItemOKP l) {w : List (Val × Val)} (e : interpP l = .ok w) : PyOKP w := by
  cases l with
  | nil => simp [interpP] at e; subst e; trivial
  | cons p t =>
    simp only [ItemOKP] at h
    simp only [interpP, bind_eq_ok, Except.ok.injEq] at e
    obtain ⟨v', h1, t', h2, rfl⟩ := e
    exact ⟨interpQ_pyok p h.1 h1, interpP_pyok t h.2 h2⟩
termination_by structural l
theorem interpQ_pyok (p : Val × Val) (h : ItemOKQ p) {w : Val × Val} (e : interpQ p = .ok w) : PyOKQ w := by
  obtain ⟨k, v⟩ := p
  simp only [ItemOKQ] at h
  simp only [interpQ, bind_eq_ok, Except.ok.injEq] at e
  obtain ⟨k', h1, v', h2, rfl⟩ := e
  exact ⟨interp_pyok k h.1 h1, interp_pyok v h.2 h2⟩
termination_by structural p
end

/-- Every received value is plain. -/
theorem loads_pyok {b : Bytes} {v : Val} (h : loads b = .ok v) : PyOK v := by
  simp only [loads, decodeItem, bind_eq_ok, Prod.exists] at h
  obtain ⟨w, r, h1, h2⟩ := h
  exact interp_pyok w ((itemsOK _).1 _ _ _ h1) h2

end Cose
