import Verif.ObjHeapSpec
import Verif.DecodeLemmas
/-!
# Lemmas about header dictionaries as objects
-/
set_option autoImplicit false
namespace Cose

/-! ### Values -/

theorem valuesL_mono {f g : Elem → Option Val} {l : List Elem} {vs : List Val} (h : ∀ e ∈ l, ∀ v, f e = some v → g e = some v) (hl : valuesL f l = some vs) :
    valuesL g l = some vs := by
  induction l generalizing vs with
  | nil => exact hl
  | cons e t ih =>
    simp only [valuesL] at hl ⊢
    cases he : f e with
    | none => simp [he] at hl
    | some v =>
      cases ht : valuesL f t with
      | none => simp [he, ht] at hl
      | some ws => rw [h e (by simp) v he, ih (fun e he => h e (by simp [he])) ht]; simpa [he, ht] using hl

theorem valuesD_mono {f g : Elem → Option Val} {l : List (Val × Elem)} {vs : Dict} (h : ∀ e ∈ l.map (·.2), ∀ v, f e = some v → g e = some v)
    (hl : valuesD f l = some vs) : valuesD g l = some vs := by
  induction l generalizing vs with
  | nil => exact hl
  | cons p t ih =>
    obtain ⟨k, e⟩ := p
    simp only [valuesD] at hl ⊢
    cases he : f e with
    | none => simp [he] at hl
    | some v =>
      cases ht : valuesD f t with
      | none => simp [he, ht] at hl
      | some ws => rw [h e (by simp) v he, ih (fun e he => h e (List.mem_cons_of_mem _ he)) ht]; simpa [he, ht] using hl

theorem valueAt_mono {c : Nat → Option Cell} {n : Nat} {e : Elem} {v : Val} (h : valueAt c n e = some v) : valueAt c (n + 1) e = some v := by
  induction n generalizing e v with
  | zero =>
    cases e with
    | imm w => exact h
    | ref a => simp [valueAt] at h
  | succ n ih =>
    cases e with
    | imm w => exact h
    | ref a =>
      rw [valueAt] at h ⊢
      cases hc : c a with
      | none => simp [hc] at h
      | some x =>
        cases x with
        | list l =>
          simp only [hc, Option.map_eq_some_iff] at h ⊢
          obtain ⟨vs, h1, h2⟩ := h
          exact ⟨vs, valuesL_mono (fun e _ v => ih) h1, h2⟩
        | dict d =>
          simp only [hc, Option.map_eq_some_iff] at h ⊢
          obtain ⟨vs, h1, h2⟩ := h
          exact ⟨vs, valuesD_mono (fun e _ v => ih) h1, h2⟩
        | key k s =>
          simp only [hc, Option.map_eq_some_iff] at h ⊢
          obtain ⟨vs, h1, h2⟩ := h
          exact ⟨vs, valuesD_mono (fun e _ v => ih) h1, h2⟩

theorem valueAt_le {c : Nat → Option Cell} {n m : Nat} {e : Elem} {v : Val} (h : valueAt c n e = some v) (hm : n ≤ m) : valueAt c m e = some v := by
  induction hm with
  | refl => exact h
  | step _ ih => exact valueAt_mono ih

/-- An element has at most one value. -/
theorem shows_unique {h : Mem} {e : Elem} {v w : Val} (h1 : Spec.Shows h e v) (h2 : Spec.Shows h e w) : v = w := by
  obtain ⟨n, h1⟩ := h1
  obtain ⟨m, h2⟩ := h2
  have a := valueAt_le h1 (Nat.le_max_left n m)
  have b := valueAt_le h2 (Nat.le_max_right n m)
  rw [a] at b
  exact Option.some.inj b

/-- The value of an element only depends on the objects it can reach. -/
theorem valueAt_frame {h h' : Mem} {n : Nat} {e : Elem} {v : Val} (hf : ∀ b, Mem.Reaches h e b → h'.cell b = h.cell b)
    (hv : valueAt h.cell n e = some v) : valueAt h'.cell n e = some v := by
  induction n generalizing e v with
  | zero =>
    cases e with
    | imm w => exact hv
    | ref a => simp [valueAt] at hv
  | succ n ih =>
    cases e with
    | imm w => exact hv
    | ref a =>
      rw [valueAt] at hv ⊢
      rw [hf a .self]
      cases hc : h.cell a with
      | none => simp [hc] at hv
      | some x =>
        have sub : ∀ e ∈ x.elems, ∀ v, valueAt h.cell n e = some v → valueAt h'.cell n e = some v :=
          fun e he v hv => ih (fun b hb => hf b (.step hc he hb)) hv
        cases x with
        | list l =>
          simp only [hc, Option.map_eq_some_iff] at hv ⊢
          obtain ⟨vs, h1, h2⟩ := hv
          exact ⟨vs, valuesL_mono sub h1, h2⟩
        | dict d =>
          simp only [hc, Option.map_eq_some_iff] at hv ⊢
          obtain ⟨vs, h1, h2⟩ := hv
          exact ⟨vs, valuesD_mono sub h1, h2⟩
        | key k s =>
          simp only [hc, Option.map_eq_some_iff] at hv ⊢
          obtain ⟨vs, h1, h2⟩ := hv
          exact ⟨vs, valuesD_mono sub h1, h2⟩

theorem shows_frame {h h' : Mem} {e : Elem} {v : Val} (hf : ∀ b, Mem.Reaches h e b → h'.cell b = h.cell b) (hv : Spec.Shows h e v) : Spec.Shows h' e v := by
  obtain ⟨n, hv⟩ := hv
  exact ⟨n, valueAt_frame hf hv⟩

theorem looks_frame {h h' : Mem} {m : Nat} {b : Base} (hm : h'.msg m = h.msg m)
    (hf : ∀ o, h.msg m = some o → ∀ e ∈ o.parts, ∀ x, Mem.Reaches h e x → h'.cell x = h.cell x) (hl : Spec.Looks h m b) : Spec.Looks h' m b := by
  obtain ⟨o, h1, h2, h3, h4, h5, h6, h7, h8, h9⟩ := hl
  have hf := hf o h1
  refine ⟨o, by rw [hm, h1], h2, shows_frame (hf _ (by simp [MObj.parts, MObj.dicts])) h3, shows_frame (hf _ (by simp [MObj.parts, MObj.dicts])) h4,
    shows_frame (hf _ (by simp [MObj.parts, MObj.dicts])) h5, h6, h7, h8, ?_⟩
  cases hk : o.key with
  | none => rw [hk] at h9; cases hb : b.key <;> rw [hb] at h9 <;> exact h9
  | some a =>
    rw [hk] at h9
    cases hb : b.key with
    | none => rw [hb] at h9; exact h9
    | some k => rw [hb] at h9; exact shows_frame (hf _ (by simp [MObj.parts, hk])) h9

/-! ### States a program can reach -/

/-- Nothing refers to an object that does not exist, messages refer to dictionaries and keys, and no dictionary belongs to two messages. -/
structure Mem.Ok (h : Mem) : Prop where
  bounded : ∀ a, h.next ≤ a → h.cell a = none
  closed : ∀ a c, h.cell a = some c → ∀ e ∈ c.elems, h.has e = true
  dicts : ∀ m o, h.msg m = some o → ∀ a ∈ o.dicts, ∃ d, h.cell a = some (.dict d)
  keys : ∀ m o, h.msg m = some o → ∀ a, o.key = some a → ∃ k s, h.cell a = some (.key k s)
  nodup : ∀ m o, h.msg m = some o → o.dicts.Nodup
  apart : ∀ m o m' o', h.msg m = some o → h.msg m' = some o' → m ≠ m' → ∀ a ∈ o.dicts, a ∉ o'.dicts

theorem mput_same {α : Type} {f : Nat → Option α} {i : Nat} {v : α} : put f i v i = some v := by simp [put]
theorem mput_other {α : Type} {f : Nat → Option α} {i j : Nat} {v : α} (h : j ≠ i) : put f i v j = f j := by simp [put, h]

theorem ok_lt {h : Mem} (ok : h.Ok) {a : Nat} (ha : (h.cell a).isSome) : a < h.next := by
  rcases Nat.lt_or_ge a h.next with h1 | h1
  · exact h1
  · rw [ok.bounded a h1] at ha; cases ha

theorem empty_ok : Mem.Ok {} := by
  constructor <;> intros <;> simp_all

/-- Another state that has all objects of the first, with their types. -/
def MKeeps (h h' : Mem) : Prop := ∀ a c, h.cell a = some c → ∃ c', h'.cell a = some c' ∧ c.alike c' = true

theorem alike_self (c : Cell) : c.alike c = true := by cases c <;> simp [Cell.alike]

theorem keeps_has {h h' : Mem} (hk : MKeeps h h') {e : Elem} (he : h.has e = true) : h'.has e = true := by
  cases e with
  | imm v => rfl
  | ref a =>
    simp only [Mem.has, Option.isSome_iff_exists] at he ⊢
    obtain ⟨c, hc⟩ := he
    obtain ⟨c', h1, _⟩ := hk a c hc
    exact ⟨c', h1⟩

theorem keeps_dict {h h' : Mem} (hk : MKeeps h h') {a : Nat} (he : ∃ d, h.cell a = some (.dict d)) : ∃ d, h'.cell a = some (.dict d) := by
  obtain ⟨d, hd⟩ := he
  obtain ⟨c', h1, h2⟩ := hk a _ hd
  cases c' <;> simp [Cell.alike] at h2
  exact ⟨_, h1⟩

theorem keeps_key {h h' : Mem} (hk : MKeeps h h') {a : Nat} (he : ∃ k s, h.cell a = some (.key k s)) : ∃ k s, h'.cell a = some (.key k s) := by
  obtain ⟨k, s, hd⟩ := he
  obtain ⟨c', h1, h2⟩ := hk a _ hd
  cases c' <;> simp [Cell.alike] at h2
  exact ⟨_, _, h1⟩

/-- Changing objects and making new ones, with the same messages. -/
theorem ok_cells {h h' : Mem} (ok : h.Ok) (hk : MKeeps h h') (hm : h'.msg = h.msg) (hb : ∀ a, h'.next ≤ a → h'.cell a = none)
    (hc : ∀ a c, h'.cell a = some c → ∀ e ∈ c.elems, h'.has e = true) : h'.Ok where
  bounded := hb
  closed := hc
  dicts m o ho a ha := keeps_dict hk (ok.dicts m o (by rw [← hm, ho]) a ha)
  keys m o ho a ha := keeps_key hk (ok.keys m o (by rw [← hm, ho]) a ha)
  nodup m o ho := ok.nodup m o (by rw [← hm, ho])
  apart m o m' o' ho ho' := ok.apart m o m' o' (by rw [← hm, ho]) (by rw [← hm, ho'])

theorem ok_write {h : Mem} (ok : h.Ok) {a : Nat} {c c' : Cell} (ha : h.cell a = some c') (hl : c'.alike c = true) (hc : ∀ e ∈ c.elems, h.has e = true) :
    ({ h with cell := put h.cell a c } : Mem).Ok ∧ MKeeps h { h with cell := put h.cell a c } := by
  have hk : MKeeps h { h with cell := put h.cell a c } := by
    intro b x hb
    by_cases e : b = a
    · subst e; rw [ha] at hb; cases hb; exact ⟨c, mput_same, hl⟩
    · exact ⟨x, by rw [← hb]; exact mput_other e, alike_self x⟩
  refine ⟨ok_cells ok hk rfl (fun b hb => ?_) fun b x hb e he => ?_, hk⟩
  · have : b ≠ a := by rintro rfl; have := ok_lt ok (a := b) (by simp [ha]); simp at hb; omega
    show put h.cell a c b = none
    rw [mput_other this]; exact ok.bounded b hb
  · refine keeps_has hk ?_
    by_cases hba : b = a
    · subst hba
      have : x = c := by simpa [put] using hb.symm
      subst this; exact hc e he
    · exact ok.closed b x (by rw [← hb]; exact (mput_other hba).symm) e he

theorem ok_new {h : Mem} (ok : h.Ok) {c : Cell} (hc : ∀ e ∈ c.elems, h.has e = true) :
    ({ h with cell := put h.cell h.next c, next := h.next + 1 } : Mem).Ok ∧ MKeeps h { h with cell := put h.cell h.next c, next := h.next + 1 } := by
  have hk : MKeeps h { h with cell := put h.cell h.next c, next := h.next + 1 } := by
    intro b x hb
    have : b ≠ h.next := by have := ok_lt ok (a := b) (by simp [hb]); omega
    exact ⟨x, by rw [← hb]; exact mput_other this, alike_self x⟩
  refine ⟨ok_cells ok hk rfl (fun b hb => ?_) fun b x hb e he => ?_, hk⟩
  · have hb : h.next + 1 ≤ b := hb
    show put h.cell h.next c b = none
    rw [mput_other (by omega)]; exact ok.bounded b (by omega)
  · refine keeps_has hk ?_
    by_cases hba : b = h.next
    · subst hba
      have : x = c := by simpa [put] using hb.symm
      subst this; exact hc e he
    · exact ok.closed b x (by rw [← hb]; exact (mput_other hba).symm) e he

theorem move_elems (n : Nat) (c : Cell) : (c.move n).elems = c.elems.map (Elem.move n) := by
  cases c <;> simp [Cell.move, Cell.elems]

theorem copy_low {h : Mem} {r a : Nat} (ha : a < h.next) : (h.copy r).cell a = h.cell a := by simp [Mem.copy, ha]

theorem copy_high {h : Mem} {r a : Nat} (hr : h.Reaches (.ref r) a) : (h.copy r).cell (a + h.next) = (h.cell a).map (Cell.move h.next) := by
  show (if a + h.next < h.next then _ else _) = _
  rw [if_neg (by omega), Nat.add_sub_cancel, if_pos hr]

/-- A new object of the copy is the copy of an object that can be reached. -/
theorem copy_inv {h : Mem} {r a : Nat} {c : Cell} (ha : h.next ≤ a) (hc : (h.copy r).cell a = some c) :
    ∃ b x, a = b + h.next ∧ h.Reaches (.ref r) b ∧ h.cell b = some x ∧ c = x.move h.next := by
  unfold Mem.copy at hc
  dsimp only at hc
  rw [if_neg (by omega)] at hc
  split at hc
  · rename_i hr
    rw [Option.map_eq_some_iff] at hc
    obtain ⟨x, hx, rfl⟩ := hc
    exact ⟨_, x, by omega, hr, hx, rfl⟩
  · cases hc

theorem reaches_trans {h : Mem} {e : Elem} {a b : Nat} (h1 : h.Reaches e a) (h2 : h.Reaches (.ref a) b) : h.Reaches e b := by
  induction h1 with
  | self => exact h2
  | step hc he _ ih => exact .step hc he (ih h2)

theorem reaches_elem {h : Mem} {r a z : Nat} {c : Cell} (hr : h.Reaches (.ref r) a) (hc : h.cell a = some c) (hz : .ref z ∈ c.elems) : h.Reaches (.ref r) z :=
  reaches_trans hr (.step hc hz .self)

theorem ok_copy {h : Mem} (ok : h.Ok) (r : Nat) : (h.copy r).Ok ∧ MKeeps h (h.copy r) := by
  have hk : MKeeps h (h.copy r) := fun b x hb => ⟨x, by rw [copy_low (ok_lt ok (by simp [hb])), hb], alike_self x⟩
  refine ⟨ok_cells ok hk rfl (fun b hb => ?_) fun b x hb e he => ?_, hk⟩
  · have hb : h.next + h.next ≤ b := hb
    cases hc : (h.copy r).cell b with
    | none => rfl
    | some c =>
      obtain ⟨a, x, rfl, _, hx, _⟩ := copy_inv (by omega) hc
      rw [ok.bounded a (by omega)] at hx
      cases hx
  · by_cases hl : b < h.next
    · rw [copy_low hl] at hb
      exact keeps_has hk (ok.closed b x hb e he)
    · obtain ⟨a, y, rfl, hr, hy, rfl⟩ := copy_inv (by omega) hb
      rw [move_elems, List.mem_map] at he
      obtain ⟨e0, he0, rfl⟩ := he
      cases e0 with
      | imm v => rfl
      | ref z =>
        have := ok.closed _ y hy _ he0
        simp only [Mem.has, Option.isSome_iff_exists, Elem.move, copy_high (reaches_elem hr hy he0)] at this ⊢
        obtain ⟨w, hw⟩ := this
        exact ⟨w.move h.next, by rw [hw]; rfl⟩

/-- The copy has the value of the original. -/
theorem copy_value {h : Mem} {r : Nat} (n : Nat) (e : Elem) (hr : ∀ a, e = .ref a → h.Reaches (.ref r) a) :
    valueAt (h.copy r).cell n (e.move h.next) = valueAt h.cell n e := by
  induction n generalizing e with
  | zero => cases e <;> simp [valueAt, Elem.move]
  | succ n ih =>
    have hl : ∀ l : List Elem, (∀ z, .ref z ∈ l → h.Reaches (.ref r) z) →
        valuesL (valueAt (h.copy r).cell n) (l.map (Elem.move h.next)) = valuesL (valueAt h.cell n) l := by
      intro l hz
      induction l with
      | nil => rfl
      | cons e t iht =>
        simp only [List.map_cons, valuesL]
        rw [ih e (by rintro a rfl; exact hz a (by simp)), iht fun z h => hz z (by simp [h])]
    have hd : ∀ l : List (Val × Elem), (∀ z, .ref z ∈ l.map (·.2) → h.Reaches (.ref r) z) →
        valuesD (valueAt (h.copy r).cell n) (l.map fun p => (p.1, p.2.move h.next)) = valuesD (valueAt h.cell n) l := by
      intro l hz
      induction l with
      | nil => rfl
      | cons e t iht =>
        simp only [List.map_cons, valuesD]
        rw [ih e.2 (by intro a h; exact hz a (by simp [h])), iht fun z h => hz z (List.mem_cons_of_mem _ h)]
    cases e with
    | imm v => simp [valueAt, Elem.move]
    | ref a =>
      have hra := hr a rfl
      simp only [Elem.move, valueAt, copy_high hra]
      cases hc : h.cell a with
      | none => rfl
      | some x =>
        have hx := fun z => reaches_elem (z := z) hra hc
        cases x with
        | list l => simp [Cell.move, hl l hx]
        | dict d => simp [Cell.move, hd d hx]
        | key k s => simp [Cell.move, hd s hx]

/-! ### One operation -/

/-- What every operation does. -/
structure Effect (h h' : Mem) (op : MemOp) : Prop where
  ok : h'.Ok
  keeps : MKeeps h h'
  next : h.next ≤ h'.next
  cells : ∀ a, a < h.next → a ∉ Spec.changes h op → h'.cell a = h.cell a
  msgs : ∀ m, op.target ≠ some m → h'.msg m = h.msg m
  dicts : ∀ m o', h'.msg m = some o' → ∀ a ∈ o'.dicts, h.next ≤ a ∨ ∃ o, h.msg m = some o ∧ a ∈ o.dicts

theorem keeps_refl (h : Mem) : MKeeps h h := fun _ c hc => ⟨c, hc, alike_self c⟩

theorem effect_none {h : Mem} (ok : h.Ok) (op : MemOp) : Effect h h op :=
  ⟨ok, keeps_refl h, Nat.le_refl _, fun _ _ _ => rfl, fun _ _ => rfl, fun _ o ho _ ha => .inr ⟨o, ho, ha⟩⟩

/-- A message object is replaced by one with valid parts. -/
theorem ok_msg {h : Mem} (ok : h.Ok) {m : Nat} {o : MObj} (hd : ∀ a ∈ o.dicts, ∃ d, h.cell a = some (.dict d))
    (hk : ∀ a, o.key = some a → ∃ k s, h.cell a = some (.key k s)) (hn : o.dicts.Nodup)
    (hx : ∀ m' o', h.msg m' = some o' → m ≠ m' → ∀ a ∈ o.dicts, a ∉ o'.dicts) : ({ h with msg := put h.msg m o } : Mem).Ok where
  bounded := ok.bounded
  closed := ok.closed
  dicts m' o' ho := by
    by_cases e : m' = m
    · subst e; have : o' = o := by simpa [put] using ho.symm
      subst this; exact hd
    · exact ok.dicts m' o' (by rw [← ho]; exact (mput_other e).symm)
  keys m' o' ho := by
    by_cases e : m' = m
    · subst e; have : o' = o := by simpa [put] using ho.symm
      subst this; exact hk
    · exact ok.keys m' o' (by rw [← ho]; exact (mput_other e).symm)
  nodup m' o' ho := by
    by_cases e : m' = m
    · subst e; have : o' = o := by simpa [put] using ho.symm
      subst this; exact hn
    · exact ok.nodup m' o' (by rw [← ho]; exact (mput_other e).symm)
  apart m1 o1 m2 o2 h1 h2 hne a ha hb := by
    by_cases e1 : m1 = m
    · subst e1
      have : o1 = o := by simpa [put] using h1.symm
      subst this
      exact hx m2 o2 (by rw [← h2]; exact (mput_other (Ne.symm hne)).symm) hne a ha hb
    · replace h1 : h.msg m1 = some o1 := by rw [← h1]; exact (mput_other e1).symm
      by_cases e2 : m2 = m
      · subst e2
        have : o2 = o := by simpa [put] using h2.symm
        subst this
        exact hx m1 o1 h1 (Ne.symm e1) a hb ha
      · exact ok.apart m1 o1 m2 o2 h1 (by rw [← h2]; exact (mput_other e2).symm) hne a ha hb

/-- A message that keeps its dictionaries. -/
theorem ok_msg_same {h : Mem} (ok : h.Ok) {m : Nat} {o o' : MObj} (ho : h.msg m = some o) (hd : o'.dicts = o.dicts)
    (hk : ∀ a, o'.key = some a → ∃ k s, h.cell a = some (.key k s)) : ({ h with msg := put h.msg m o' } : Mem).Ok :=
  ok_msg ok (by rw [hd]; exact ok.dicts m o ho) hk (by rw [hd]; exact ok.nodup m o ho)
    (by rw [hd]; exact fun m' o' h' hne => ok.apart m o m' o' ho h' hne)

theorem put_dicts {h : Mem} {m : Nat} {o o' : MObj} (ho : h.msg m = some o) (hd : ∀ a ∈ o'.dicts, h.next ≤ a ∨ a ∈ o.dicts) {f : Nat → Option MObj}
    (hf : f = h.msg) : ∀ m1 o1, put f m o' m1 = some o1 → ∀ a ∈ o1.dicts, h.next ≤ a ∨ ∃ o, h.msg m1 = some o ∧ a ∈ o.dicts := by
  subst hf
  intro m1 o1 h1 a ha
  by_cases e : m1 = m
  · subst e
    have : o1 = o' := by simpa [put] using h1.symm
    subst this
    rcases hd a ha with h | h
    · exact .inl h
    · exact .inr ⟨o, ho, h⟩
  · exact .inr ⟨o1, by rw [← h1]; exact (mput_other e).symm, ha⟩

theorem rset_elems {P : Elem → Prop} {d : List (Val × Elem)} {k : Val} {e : Elem} (hd : ∀ x ∈ d.map (·.2), P x) (he : P e) :
    ∀ x ∈ (rset d k e).map (·.2), P x := by
  induction d with
  | nil => simpa [rset] using he
  | cons p t ih =>
    obtain ⟨k', v⟩ := p
    simp only [rset]
    have hv := hd v (by simp)
    have ht : ∀ x ∈ t.map (·.2), P x := fun x hx => hd x (List.mem_cons_of_mem _ hx)
    split
    · intro x hx
      rcases List.mem_cons.mp hx with rfl | hx
      · exact he
      · exact ht x hx
    · intro x hx
      rcases List.mem_cons.mp hx with rfl | hx
      · exact hv
      · exact ih ht x hx

theorem rupdate_elems {P : Elem → Prop} {d es : List (Val × Elem)} (hd : ∀ x ∈ d.map (·.2), P x) (he : ∀ x ∈ es.map (·.2), P x) :
    ∀ x ∈ (rupdate d es).map (·.2), P x := by
  induction es generalizing d with
  | nil => exact hd
  | cons p t ih =>
    obtain ⟨k, v⟩ := p
    exact ih (rset_elems hd (he v (by simp))) fun x hx => he x (List.mem_cons_of_mem _ hx)

/-- The entries of a dictionary argument refer to what exists. -/
theorem asDict_elems {h : Mem} (ok : h.Ok) {e : Elem} {es : List (Val × Elem)} (he : h.asDict e = .ok es) :
    ∀ x ∈ es.map (·.2), h.has x = true ∧ ((∃ v, x = .imm v) ∨ ∃ a c, h.cell a = some c ∧ x ∈ c.elems) := by
  cases e with
  | imm v =>
    cases v <;> simp [Mem.asDict] at he
    subst he
    intro x hx
    simp at hx
    obtain ⟨_, w, _, rfl⟩ := hx
    exact ⟨rfl, .inl ⟨w, rfl⟩⟩
  | ref a =>
    simp only [Mem.asDict] at he
    split at he <;> cases he
    rename_i hc
    exact fun x hx => ⟨ok.closed _ _ hc x hx, .inr ⟨a, _, hc, hx⟩⟩

theorem items_elems {h : Mem} (ok : h.Ok) {e : Elem} {es : List (Val × Elem)} (he : h.items e = .ok es) :
    ∀ x ∈ es.map (·.2), h.has x = true ∧ ((∃ v, x = .imm v) ∨ ∃ a c, h.cell a = some c ∧ x ∈ c.elems) := by
  cases e with
  | imm v =>
    cases v <;> simp [Mem.items] at he
    all_goals
      subst he
      intro x hx
      simp at hx
      obtain ⟨_, w, _, rfl⟩ := hx
      exact ⟨rfl, .inl ⟨w, rfl⟩⟩
  | ref a =>
    simp only [Mem.items] at he
    split at he <;> cases he
    all_goals
      rename_i hc
      exact fun x hx => ⟨ok.closed _ _ hc x hx, .inr ⟨a, _, hc, hx⟩⟩

theorem parse_elem {C : Crypto} {h : Mem} {c : Cls} {e e' : Elem} (hp : h.parse C c e = .ok e') : e' = e ∨ ∃ v, e' = .imm v := by
  unfold Mem.parse at hp
  split at hp
  · cases hp
  · rw [bind_eq_ok] at hp
    obtain ⟨w, _, hw⟩ := hp
    cases hw
    split
    · exact .inr ⟨w, rfl⟩
    · exact .inl rfl

theorem parseEntry_elem {C : Crypto} {h : Mem} {a : Val} {e e' : Elem} (hp : h.parseEntry C a e = .ok e') : e' = e ∨ ∃ v, e' = .imm v := by
  unfold Mem.parseEntry at hp
  split at hp
  · exact parse_elem hp
  · cases hp; exact .inl rfl

theorem parseHeader_elems {C : Crypto} {allow : Bool} {h : Mem} {P : Elem → Prop} (hi : ∀ v, P (.imm v)) {es acc d : List (Val × Elem)}
    (ha : ∀ x ∈ acc.map (·.2), P x) (he : ∀ x ∈ es.map (·.2), P x) (hp : h.parseHeader C allow acc es = .ok d) : ∀ x ∈ d.map (·.2), P x := by
  induction es generalizing acc with
  | nil => cases hp; exact ha
  | cons p t ih =>
    obtain ⟨k, e⟩ := p
    simp only [Mem.parseHeader, bind_eq_ok] at hp
    obtain ⟨a, _, e', h2, h3⟩ := hp
    have he0 := he e (by simp)
    refine ih (rset_elems ha ?_) (fun x hx => he x (List.mem_cons_of_mem _ hx)) h3
    rcases parseEntry_elem h2 with rfl | ⟨v, rfl⟩
    · exact he0
    · exact hi v

theorem protectedArg_elems {h : Mem} (ok : h.Ok) {a : MArgs} {es : List (Val × Elem)} (he : h.protectedArg a = .ok es) :
    ∀ x ∈ es.map (·.2), h.has x = true ∧ ((∃ v, x = .imm v) ∨ ∃ a c, h.cell a = some c ∧ x ∈ c.elems) := by
  unfold Mem.protectedArg at he
  split at he
  · cases he
  · split at he
    · split at he
      · cases he; simp
      · rw [bind_eq_ok] at he
        obtain ⟨v, _, h2⟩ := he
        exact asDict_elems ok h2
    · split at he
      · cases he; simp
      · exact asDict_elems ok he

/-- Changing one dictionary of a message. -/
theorem update_effect {h : Mem} (ok : h.Ok) {op : MemOp} {m a : Nat} {o o' : MObj} {d es : List (Val × Elem)} (hm : h.msg m = some o) (ha : a ∈ o.dicts)
    (hop : op.target = some m) (hch : a ∈ Spec.changes h op) (hd : h.asDict (.ref a) = .ok d) (hes : ∀ x ∈ es.map (·.2), h.has x = true)
    (ho : o'.dicts = o.dicts) (hk : o'.key = o.key) : Effect h { h with cell := put h.cell a (.dict (rupdate d es)), msg := put h.msg m o' } op := by
  obtain ⟨d0, h0⟩ := ok.dicts m o hm a ha
  have hd' : d = d0 := by simp [Mem.asDict, h0] at hd; exact hd.symm
  subst hd'
  obtain ⟨ok', hk'⟩ := ok_write ok (c := .dict (rupdate d es)) h0 (by simp [Cell.alike]) (rupdate_elems (ok.closed a _ h0) hes)
  refine ⟨ok_msg_same ok' hm ho fun b hb => ok'.keys m o hm b (by rw [← hk]; exact hb), hk', Nat.le_refl _, fun b _ hb => ?_, fun m' h' => ?_,
    put_dicts hm (fun b hb => .inr (by rw [← ho]; exact hb)) rfl⟩
  · exact mput_other (by rintro rfl; exact hb hch)
  · exact mput_other (by rintro rfl; exact h' hop)

theorem mput_id {α : Type} {f : Nat → Option α} {i : Nat} {v : α} (h : f i = some v) : put f i v = f := by
  funext j; simp only [put]; split
  · rename_i e; rw [e, h]
  · rfl

/-- An operation that only replaces the message object. -/
theorem msg_effect {h : Mem} (ok : h.Ok) {op : MemOp} {m : Nat} {o o' : MObj} (hm : h.msg m = some o) (hop : op.target = some m)
    (ho : o'.dicts = o.dicts) (hk : ∀ a, o'.key = some a → ∃ k s, h.cell a = some (.key k s)) : Effect h { h with msg := put h.msg m o' } op :=
  ⟨ok_msg_same ok hm ho hk, keeps_refl _, Nat.le_refl _, fun _ _ _ => rfl, fun m' h' => mput_other (by rintro rfl; exact h' hop),
    put_dicts hm (fun b hb => .inr (by rw [← ho]; exact hb)) rfl⟩

/-- `deepcopy` of a dictionary. -/
theorem copyDict_spec {h h1 : Mem} (ok : h.Ok) {e : Elem} {a : Nat} (hc : h.copyDict e = .ok (h1, a)) :
    h1.Ok ∧ MKeeps h h1 ∧ h.next ≤ a ∧ h.next ≤ h1.next ∧ (∃ d, h1.cell a = some (.dict d)) ∧ h1.msg = h.msg ∧ (∀ b, b < h.next → h1.cell b = h.cell b) := by
  cases e with
  | imm v =>
    cases v <;> simp [Mem.copyDict] at hc
    obtain ⟨rfl, rfl⟩ := hc
    rename_i d
    obtain ⟨ok', hk'⟩ := ok_new ok (c := .dict (d.map fun p => (p.1, .imm p.2))) (by simp [Cell.elems]; intro e _ x _ h; subst h; rfl)
    exact ⟨ok', hk', Nat.le_refl _, Nat.le_succ _, ⟨_, mput_same⟩, rfl, fun b hb => mput_other (by omega)⟩
  | ref b =>
    simp only [Mem.copyDict] at hc
    split at hc <;> cases hc
    rename_i d hd
    obtain ⟨ok', hk'⟩ := ok_copy ok b
    exact ⟨ok', hk', Nat.le_add_left _ _, Nat.le_add_left _ _, ⟨_, by rw [copy_high .self, hd]; rfl⟩, rfl, fun b hb => copy_low hb⟩

theorem new_not_old {h : Mem} (ok : h.Ok) {m : Nat} {o : MObj} (ho : h.msg m = some o) {a : Nat} (ha : a ∈ o.dicts) : a < h.next := by
  obtain ⟨d, hd⟩ := ok.dicts m o ho a ha
  exact ok_lt ok (by simp [hd])

theorem set_effect {h h1 : Mem} (ok : h.Ok) {op : MemOp} {m a : Nat} {o o' : MObj} {e : Elem} (hm : h.msg m = some o) (hop : op.target = some m)
    (hc : h.copyDict e = .ok (h1, a)) (hd : ∀ b ∈ o'.dicts, b = a ∨ b ∈ o.dicts) (hn : o.dicts.Nodup → a ∉ o.dicts → o'.dicts.Nodup) (hk : o'.key = o.key) :
    Effect h { h1 with msg := put h1.msg m o' } op := by
  obtain ⟨ok1, k1, ha, hx, hda, hmsg, hlow⟩ := copyDict_spec ok hc
  refine ⟨ok_msg ok1 (fun b hb => ?_) (fun b hb => ?_) (hn (ok.nodup m o hm) fun h' => ?_) (fun m' o1 h1' hne b hb => ?_), k1, hx, fun b hb _ => hlow b hb, fun m' h' => ?_,
    put_dicts hm (fun b hb => ?_) hmsg⟩
  · rcases hd b hb with rfl | hb
    · exact hda
    · exact ok1.dicts m o (by rw [hmsg, hm]) b hb
  · exact ok1.keys m o (by rw [hmsg, hm]) b (by rw [← hk]; exact hb)
  · have := new_not_old ok hm h'; omega
  · rw [hmsg] at h1'
    rcases hd b hb with rfl | hb
    · intro h'; have := new_not_old ok h1' h'; omega
    · exact ok.apart m o m' o1 hm h1' hne b hb
  · show put h1.msg m o' m' = _
    rw [mput_other (by rintro rfl; exact h' hop), hmsg]
  · rcases hd b hb with rfl | hb
    · exact .inl ha
    · exact .inr hb

theorem keyOf_spec {h : Mem} {k : KeyRef} {r : Option Nat} (hk : h.keyOf k = .ok r) : ∀ a, r = some a → ∃ k s, h.cell a = some (.key k s) := by
  intro a ha
  cases k with
  | none => cases hk; cases ha
  | other => cases hk
  | key b =>
    simp only [Mem.keyOf] at hk
    split at hk <;> cases hk
    rename_i k s hc
    cases ha
    exact ⟨k, s, hc⟩

theorem construct_effect {C : Crypto} {h h' : Mem} (ok : h.Ok) {m : Nat} {a : MArgs} (hm : h.msg m = none) (hc : h.construct C m a = .ok h') :
    Effect h h' (.construct m a) := by
  simp only [Mem.construct, bind_eq_ok] at hc
  obtain ⟨pd, hpd, ud, hud, p, hp, u, hu, pe, _, pl, _, aad, _, key, hkey, hc⟩ := hc
  cases hc
  have hp' : ∀ x ∈ p.map (·.2), h.has x = true :=
    parseHeader_elems (fun _ => rfl) (by simp) (fun x hx => (protectedArg_elems ok hpd x hx).1) hp
  have hud' : ∀ x ∈ ud.map (·.2), h.has x = true := by
    unfold Mem.unprotectedArg at hud
    split at hud
    · cases hud; simp
    · exact fun x hx => (asDict_elems ok hud x hx).1
  have hu' : ∀ x ∈ u.map (·.2), h.has x = true := parseHeader_elems (fun _ => rfl) (by simp) hud' hu
  obtain ⟨ok1, k1⟩ := ok_new ok (c := .dict p) hp'
  obtain ⟨ok2, k2⟩ := ok_new ok1 (c := .dict u) fun x hx => keeps_has k1 (hu' x hx)
  obtain ⟨ok3, k3⟩ := ok_new ok2 (c := .dict []) (by simp [Cell.elems])
  have k13 : MKeeps h _ := fun b x hb => by
    obtain ⟨y, h1, h2⟩ := k1 b x hb
    obtain ⟨z, h3, h4⟩ := k2 b y h1
    obtain ⟨w, h5, h6⟩ := k3 b z h3
    refine ⟨w, h5, ?_⟩
    cases x <;> cases y <;> cases z <;> cases w <;> simp [Cell.alike] at h2 h4 h6 ⊢
    rw [h2, h4, h6]
  have low : ∀ b, b < h.next → put (put (put h.cell h.next (.dict p)) (h.next + 1) (.dict u)) (h.next + 2) (.dict []) b = h.cell b := fun b hb => by
    rw [mput_other (by omega), mput_other (by omega), mput_other (by omega)]
  refine ⟨ok_msg ok3 (fun b hb => ?_) (fun b hb => ?_) ?_ (fun m' o1 h1 hne b hb hb' => ?_), k13, Nat.le_add_right _ _, fun b hb _ => low b hb,
    fun m' h' => mput_other (by rintro rfl; exact h' rfl), fun m1 o1 h1 b hb => ?_⟩
  · simp only [MObj.dicts, List.mem_cons, List.not_mem_nil, or_false] at hb
    rcases hb with rfl | rfl | rfl
    · exact ⟨p, (mput_other (by dsimp only; omega)).trans ((mput_other (by dsimp only; omega)).trans mput_same)⟩
    · exact ⟨u, (mput_other (by dsimp only; omega)).trans mput_same⟩
    · exact ⟨[], mput_same⟩
  · exact keeps_key k13 (keyOf_spec hkey b hb)
  · simp [MObj.dicts]
  · have := new_not_old ok h1 hb'
    simp only [MObj.dicts, List.mem_cons, List.not_mem_nil, or_false] at hb
    omega
  · by_cases e : m1 = m
    · subst e
      left
      have : o1.dicts = [h.next, h.next + 1, h.next + 2] := by
        have := Option.some.inj ((mput_same (f := h.msg) (i := m1)).symm.trans h1)
        rw [← this]; rfl
      rw [this] at hb
      simp at hb
      omega
    · exact .inr ⟨o1, by rw [← h1]; exact (mput_other e).symm, hb⟩

theorem onMsg_effect {h h' : Mem} (ok : h.Ok) {op : MemOp} {m : Nat} {o : MObj} (hm : h.msg m = some o) (ht : op.target = some m)
    (hs : h.onMsg m o op = .ok h') : Effect h h' op := by
  cases op with
  | new c => cases ht
  | write a c => cases ht
  | construct m' a => cases hs; exact effect_none ok _
  | setPhdr m' e =>
    simp only [Mem.onMsg, bind_eq_ok] at hs
    obtain ⟨⟨h1, a⟩, hc, hs⟩ := hs
    cases hs
    refine set_effect ok hm ht hc (fun b hb => ?_) (fun h1 h2 => ?_) rfl
    · simp [MObj.dicts] at hb ⊢; grind
    · simp [MObj.dicts] at h1 h2 ⊢; grind
  | setUhdr m' e =>
    simp only [Mem.onMsg, bind_eq_ok] at hs
    obtain ⟨⟨h1, a⟩, hc, hs⟩ := hs
    cases hs
    refine set_effect ok hm ht hc (fun b hb => ?_) (fun h1 h2 => ?_) rfl
    · simp [MObj.dicts] at hb ⊢; grind
    · simp [MObj.dicts] at h1 h2 ⊢; grind
  | phdrUpdate m' e =>
    cases ht
    simp only [Mem.onMsg, bind_eq_ok] at hs
    obtain ⟨es, h1, d, h2, hs⟩ := hs
    cases hs
    exact update_effect ok hm (by simp [MObj.dicts]) rfl (by simp [Spec.changes, hm]) h2 (fun x hx => (asDict_elems ok h1 x hx).1) rfl rfl
  | uhdrUpdate m' e =>
    cases ht
    simp only [Mem.onMsg, bind_eq_ok] at hs
    obtain ⟨es, h1, d, h2, hs⟩ := hs
    cases hs
    have := update_effect (op := .uhdrUpdate m e) (o' := o) ok hm (a := o.uhdr) (by simp [MObj.dicts]) rfl (by simp [Spec.changes, hm]) h2 (fun x hx => (asDict_elems ok h1 x hx).1) rfl rfl
    rwa [mput_id hm] at this
  | setLocal m' e =>
    cases ht
    simp only [Mem.onMsg, bind_eq_ok] at hs
    obtain ⟨es, h1, d, h2, hs⟩ := hs
    cases hs
    have := update_effect (op := .setLocal m e) (o' := o) ok hm (a := o.loc) (by simp [MObj.dicts]) rfl (by simp [Spec.changes, hm]) h2 (fun x hx => (items_elems ok h1 x hx).1) rfl rfl
    rwa [mput_id hm] at this
  | setPayload m' v =>
    simp only [Mem.onMsg, bind_eq_ok] at hs
    obtain ⟨p, _, hs⟩ := hs
    cases hs
    exact msg_effect ok hm ht rfl (ok.keys m o hm)
  | setAad m' v =>
    simp only [Mem.onMsg, bind_eq_ok] at hs
    obtain ⟨p, _, hs⟩ := hs
    cases hs
    exact msg_effect ok hm ht rfl (ok.keys m o hm)
  | setKey m' k =>
    simp only [Mem.onMsg, bind_eq_ok] at hs
    obtain ⟨p, hk, hs⟩ := hs
    cases hs
    exact msg_effect ok hm ht rfl (keyOf_spec hk)

theorem step_effect {C : Crypto} {h h' : Mem} (ok : h.Ok) {op : MemOp} (hs : h.step C op = .ok h') : Effect h h' op := by
  unfold Mem.step at hs
  split at hs
  · rename_i hargs
    rw [List.all_eq_true] at hargs
    split at hs
    · rename_i c
      cases hs
      obtain ⟨ok', hk'⟩ := ok_new ok (c := c) hargs
      exact ⟨ok', hk', Nat.le_succ _, fun b hb _ => mput_other (by omega), fun _ _ => rfl, fun m o ho a ha => .inr ⟨o, ho, ha⟩⟩
    · rename_i a c
      split at hs
      · rename_i c' hc
        split at hs
        · rename_i hl
          cases hs
          obtain ⟨ok', hk'⟩ := ok_write ok (c := c) hc hl hargs
          exact ⟨ok', hk', Nat.le_refl _, fun b hb hb' => mput_other (by rintro rfl; exact hb' (by simp [Spec.changes])), fun _ _ => rfl, fun m o ho a ha => .inr ⟨o, ho, ha⟩⟩
        · cases hs; exact effect_none ok _
      · cases hs; exact effect_none ok _
    · split at hs
      · cases hs; exact effect_none ok _
      · exact construct_effect ok ‹_› hs
    · split at hs
      · cases hs; exact effect_none ok _
      · rename_i m hm
        split at hs
        · rename_i o ho
          exact onMsg_effect ok ho hm hs
        · cases hs; exact effect_none ok _
  · cases hs; exact effect_none ok _

theorem run_ok (C : Crypto) (p : List MemOp) {h : Mem} (ok : h.Ok) : (Mem.run C p h).Ok := by
  induction p generalizing h with
  | nil => exact ok
  | cons op t ih =>
    simp only [Mem.run]
    split
    · rename_i h' hs; exact ih (step_effect ok hs).ok
    · exact ih ok

/-! ### Dictionaries and their values -/

/-- The entries have these labels and values. -/
def ShowsD (h : Mem) (es : List (Val × Elem)) (d : Dict) : Prop := All2 (fun p q => p.1 = q.1 ∧ Spec.Shows h p.2 q.2) es d

theorem valuesD_all2 {h : Mem} {n : Nat} {es : List (Val × Elem)} {d : Dict} (hv : valuesD (valueAt h.cell n) es = some d) : ShowsD h es d := by
  induction es generalizing d with
  | nil => cases hv; exact .nil
  | cons p t ih =>
    obtain ⟨k, e⟩ := p
    simp only [valuesD] at hv
    cases he : valueAt h.cell n e with
    | none => simp [he] at hv
    | some v =>
      cases ht : valuesD (valueAt h.cell n) t with
      | none => simp [he, ht] at hv
      | some ws =>
        simp only [he, ht, Option.some.injEq] at hv
        subst hv
        exact .cons ⟨rfl, n, he⟩ (ih ht)

theorem all2_valuesD {h : Mem} {es : List (Val × Elem)} {d : Dict} (hv : ShowsD h es d) : ∃ n, valuesD (valueAt h.cell n) es = some d := by
  unfold ShowsD at hv
  induction hv with
  | nil => exact ⟨0, rfl⟩
  | @cons p q t t' hp _ ih =>
    obtain ⟨k, e⟩ := p
    obtain ⟨k', v⟩ := q
    obtain ⟨rfl, n, hn⟩ := hp
    obtain ⟨m, hm⟩ := ih
    refine ⟨max n m, ?_⟩
    simp only [valuesD]
    rw [valueAt_le hn (Nat.le_max_left n m), valuesD_mono (fun e _ v h => valueAt_le h (Nat.le_max_right n m)) hm]

theorem shows_dict {h : Mem} {a : Nat} {d : Dict} : Spec.Shows h (.ref a) (.map d) ↔ ∃ es, h.cell a = some (.dict es) ∧ ShowsD h es d := by
  constructor
  · rintro ⟨n, hn⟩
    cases n with
    | zero => simp [valueAt] at hn
    | succ n =>
      rw [valueAt] at hn
      cases hc : h.cell a with
      | none => simp [hc] at hn
      | some x =>
        cases x with
        | list l => simp [hc] at hn
        | dict es => simp only [hc, Option.map_eq_some_iff, Val.map.injEq, exists_eq_right] at hn; exact ⟨es, rfl, valuesD_all2 hn⟩
        | key k s => simp [hc] at hn
  · rintro ⟨es, hc, hs⟩
    obtain ⟨n, hn⟩ := all2_valuesD hs
    exact ⟨n + 1, by simp [valueAt, hc, hn]⟩

theorem shows_key {h : Mem} {a : Nat} {k : Kind} {d : Dict} : Spec.Shows h (.ref a) (.key k d) ↔ ∃ es, h.cell a = some (.key k es) ∧ ShowsD h es d := by
  constructor
  · rintro ⟨n, hn⟩
    cases n with
    | zero => simp [valueAt] at hn
    | succ n =>
      rw [valueAt] at hn
      cases hc : h.cell a with
      | none => simp [hc] at hn
      | some x =>
        cases x with
        | list l => simp [hc] at hn
        | dict es => simp [hc] at hn
        | key k' s =>
          simp only [hc, Option.map_eq_some_iff, Val.key.injEq] at hn
          obtain ⟨d', h1, rfl, rfl⟩ := hn
          exact ⟨s, rfl, valuesD_all2 h1⟩
  · rintro ⟨es, hc, hs⟩
    obtain ⟨n, hn⟩ := all2_valuesD hs
    exact ⟨n + 1, by simp [valueAt, hc, hn]⟩

theorem shows_imm {h : Mem} {v w : Val} : Spec.Shows h (.imm v) w ↔ v = w := by
  constructor
  · rintro ⟨n, hn⟩; cases n <;> simpa [valueAt] using hn
  · rintro rfl; exact ⟨0, rfl⟩

theorem imm_all2 (h : Mem) (d : Dict) : ShowsD h (d.map fun p => (p.1, .imm p.2)) d := by
  unfold ShowsD
  induction d with
  | nil => exact .nil
  | cons p t ih => exact .cons ⟨rfl, shows_imm.mpr rfl⟩ ih

/-- A dictionary argument. -/
theorem asDict_shows {h : Mem} {e : Elem} {v : Val} (hv : Spec.Shows h e v) :
    (∃ es d, v = .map d ∧ h.asDict e = .ok es ∧ ShowsD h es d) ∨ ((∀ d, v ≠ .map d) ∧ h.asDict e = .error .typeError) := by
  cases e with
  | imm w =>
    rw [shows_imm] at hv
    subst hv
    cases w with
    | map d => exact .inl ⟨_, d, rfl, rfl, imm_all2 h d⟩
    | _ => exact .inr ⟨by simp, rfl⟩
  | ref a =>
    cases v with
    | map d =>
      obtain ⟨es, hc, hs⟩ := shows_dict.mp hv
      exact .inl ⟨es, d, rfl, by simp [Mem.asDict, hc], hs⟩
    | _ =>
      refine .inr ⟨by simp, ?_⟩
      obtain ⟨n, hn⟩ := hv
      cases n with
      | zero => simp [valueAt] at hn
      | succ n =>
        rw [valueAt] at hn
        simp only [Mem.asDict]
        cases hc : h.cell a with
        | none => rfl
        | some x =>
          cases x with
          | dict es => simp [hc] at hn
          | _ => rfl

theorem rset_all2 {R : Elem → Val → Prop} {es : List (Val × Elem)} {d : Dict} (hv : All2 (fun p q => p.1 = q.1 ∧ R p.2 q.2) es d) {k : Val} {e : Elem} {v : Val}
    (he : R e v) : All2 (fun p q => p.1 = q.1 ∧ R p.2 q.2) (rset es k e) (dset d k v) := by
  induction hv with
  | nil => exact .cons ⟨rfl, he⟩ .nil
  | @cons p q t t' hp ht ih =>
    obtain ⟨k1, e1⟩ := p
    obtain ⟨k2, v2⟩ := q
    obtain ⟨rfl, hr⟩ := hp
    simp only [rset, dset]
    split
    · exact .cons ⟨rfl, he⟩ ht
    · exact .cons ⟨rfl, hr⟩ ih

theorem rupdate_all2 {R : Elem → Val → Prop} {es es' : List (Val × Elem)} {d d' : Dict} (hv : All2 (fun p q => p.1 = q.1 ∧ R p.2 q.2) es d)
    (hv' : All2 (fun p q => p.1 = q.1 ∧ R p.2 q.2) es' d') : All2 (fun p q => p.1 = q.1 ∧ R p.2 q.2) (rupdate es es') (dupdate d d') := by
  induction hv' generalizing es d with
  | nil => exact hv
  | @cons p q t t' hp _ ih =>
    obtain ⟨k1, e1⟩ := p
    obtain ⟨k2, v2⟩ := q
    obtain ⟨rfl, hr⟩ := hp
    exact ih (rset_all2 hv hr)

theorem all2_mono {α β : Type} {R S : α → β → Prop} {l : List α} {l' : List β} (h : All2 R l l') (hs : ∀ a ∈ l, ∀ b, R a b → S a b) : All2 S l l' := by
  induction h with
  | nil => exact .nil
  | cons hr _ ih => exact .cons (hs _ (by simp) _ hr) (ih fun a ha => hs a (by simp [ha]))

end Cose
