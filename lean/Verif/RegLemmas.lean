import Verif.Registry
import Verif.DictLemmas
/-! Facts about the registries: the tables are checked by kernel computation and lifted to lemmas about
look-ups. -/
set_option autoImplicit false

namespace Cose

theorem lookupId_some {r : Reg} {i : Int} {c : Cls} (h : lookupId r i = some c) :
    c.ident = i ∧ ∃ n, (c, n) ∈ registry r := by
  simp only [lookupId, Option.map_eq_some_iff] at h
  obtain ⟨⟨c', n⟩, h1, rfl⟩ := h
  have h2 := List.find?_some h1
  have h3 := List.mem_of_find?_eq_some h1
  exact ⟨by simpa using h2, n, by simpa using h3⟩

theorem lookupName_some {r : Reg} {s : Bytes} {c : Cls} (h : lookupName r s = some c) :
    ∃ n, (c, n) ∈ registry r ∧ upper n = s := by
  simp only [lookupName, Option.map_eq_some_iff] at h
  obtain ⟨⟨c', n⟩, h1, rfl⟩ := h
  have h2 := List.find?_some h1
  have h3 := List.mem_of_find?_eq_some h1
  exact ⟨n, by simpa using h3, by simpa using h2⟩

theorem registry_table (r : Reg) : ∀ p ∈ registry r,
    lookupId r p.1.ident = some p.1 ∧ lookupName r p.2 = some p.1 ∧ upper p.2 = p.2 ∧
    fullname p.1 = p.2 ∧ p.2 ≠ [] ∧ ∀ b ∈ p.2, b < 128 := by
  cases r <;> decide +kernel

theorem lookupId_mem {r : Reg} {c : Cls} {n : Bytes} (h : (c, n) ∈ registry r) :
    lookupId r c.ident = some c := (registry_table r _ h).1
theorem lookupName_mem {r : Reg} {c : Cls} {n : Bytes} (h : (c, n) ∈ registry r) :
    lookupName r n = some c := (registry_table r _ h).2.1
theorem upper_mem {r : Reg} {c : Cls} {n : Bytes} (h : (c, n) ∈ registry r) :
    upper n = n := (registry_table r _ h).2.2.1
theorem fullname_mem {r : Reg} {c : Cls} {n : Bytes} (h : (c, n) ∈ registry r) :
    fullname c = n := (registry_table r _ h).2.2.2.1
theorem ascii_mem {r : Reg} {c : Cls} {n : Bytes} (h : (c, n) ∈ registry r) :
    ∀ b ∈ n, b < 128 := (registry_table r _ h).2.2.2.2.2

/-- Every value that `from_id` resolves denotes a registered class. -/
theorem resolve_some {r : Reg} {v : Val} {c : Cls} (h : resolve r v = some c) :
    lookupId r c.ident = some c ∧ ∃ n, (c, n) ∈ registry r := by
  have key : ∃ n, (c, n) ∈ registry r := by
    cases v <;> simp only [resolve, reduceCtorEq] at h
    · exact (lookupId_some h).2
    · exact (lookupId_some h).2
    · obtain ⟨n, h1, _⟩ := lookupName_some h; exact ⟨n, h1⟩
    · exact (lookupId_some h).2
  obtain ⟨n, hn⟩ := key
  exact ⟨lookupId_mem hn, n, hn⟩

theorem resolve_cls {r : Reg} {v : Val} {c : Cls} (h : resolve r v = some c) :
    resolve r (.cls c) = some c := (resolve_some h).1

theorem resolve_int {r : Reg} {v : Val} {c : Cls} (h : resolve r v = some c) :
    resolve r (.int c.ident) = some c := (resolve_some h).1

theorem resolve_fullname {r : Reg} {v : Val} {c : Cls} (h : resolve r v = some c) :
    resolve r (.text (fullname c)) = some c := by
  obtain ⟨_, n, hn⟩ := resolve_some h
  simp only [resolve, fullname_mem hn, upper_mem hn, lookupName_mem hn]

/-- Registered classes of the registries other than the key parameter ones belong to them. -/
theorem registry_reg {r : Reg} (hr : r ≠ .kpEc2 ∧ r ≠ .kpOkp ∧ r ≠ .kpRsa ∧ r ≠ .kpSym) {c : Cls}
    {n : Bytes} (h : (c, n) ∈ registry r) : c.reg = r := by
  obtain ⟨h1, h2, h3, h4⟩ := hr
  cases r <;> simp_all [registry, clsRows] <;> (obtain ⟨_, _, _, rfl⟩ := h; rfl)

theorem resolve_reg {r : Reg} (hr : r ≠ .kpEc2 ∧ r ≠ .kpOkp ∧ r ≠ .kpRsa ∧ r ≠ .kpSym) {v : Val} {c : Cls}
    (h : resolve r v = some c) : c.reg = r := by
  obtain ⟨_, n, hn⟩ := resolve_some h
  exact registry_reg hr hn

/-! ### ASCII case -/

theorem upper_ascii {s : Bytes} (h : ∀ b ∈ s, b < 128) : upper s = s.map upByte := by
  induction s using upper.induct with
  | case1 => rfl
  | case2 a => rfl
  | case3 a b h1 => exact absurd (h a (by simp)) (by rw [h1.1]; decide)
  | case4 a b h1 h2 => exact absurd (h a (by simp)) (by rw [h2.1]; decide)
  | case5 a b h1 h2 h3 => exact absurd (h a (by simp)) (by rw [h3.1]; decide)
  | case6 a b h1 h2 h3 ih =>
    rw [upper.eq_3, if_neg h1, if_neg h2, if_neg h3, ih (fun x hx => h x (List.mem_cons_of_mem _ hx))]; rfl
  | case7 a b c t h1 ih => exact absurd (h a (by simp)) (by rw [h1.1]; decide)
  | case8 a b c t h1 h2 ih => exact absurd (h a (by simp)) (by rw [h2.1]; decide)
  | case9 a b c t h1 h2 h3 ih => exact absurd (h a (by simp)) (by rw [h3.1]; decide)
  | case10 a b c t h1 h2 h3 h4 ih => exact absurd (h a (by simp)) (by rw [h4.1]; decide)
  | case11 a b c t h1 h2 h3 h4 ih =>
    rw [upper.eq_4, if_neg h1, if_neg h2, if_neg h3, if_neg h4,
      ih (fun x hx => h x (List.mem_cons_of_mem _ hx))]; rfl

/-- ASCII text is valid UTF-8. -/
theorem validUtf8_ascii {s : Bytes} (h : ∀ b ∈ s, b < 128) : validUtf8 s = true := by
  unfold validUtf8
  have : ∀ lo hi, utf8Go 0 lo hi s = true := by
    induction s with
    | nil => intros; simp [utf8Go]
    | cons a t ih =>
      intro lo hi
      have ha := h a (by simp)
      have ht := ih (fun x hx => h x (List.mem_cons_of_mem _ hx))
      have : a < 0x80 := ha
      simp [utf8Go, this, ht]
  exact this _ _

theorem fullname_valid {r : Reg} {v : Val} {c : Cls} (h : resolve r v = some c) :
    validUtf8 (fullname c) = true := by
  obtain ⟨_, n, hn⟩ := resolve_some h
  rw [fullname_mem hn]; exact validUtf8_ascii (ascii_mem hn)

end Cose
