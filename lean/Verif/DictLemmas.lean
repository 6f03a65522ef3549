import Verif.Py
/-!
# Lemmas about dictionaries
-/
set_option autoImplicit false

namespace Cose

theorem keq_iff (a b : Val) : keq a b = true ↔ norm a = norm b := by simp [keq]
@[simp] theorem keq_refl (a : Val) : keq a a = true := by simp [keq]
theorem keq_symm {a b : Val} (h : keq a b = true) : keq b a = true := by simp_all [keq]
theorem keq_comm (a b : Val) : keq a b = keq b a := by
  rw [Bool.eq_iff_iff, keq_iff, keq_iff]; exact eq_comm
theorem keq_trans {a b c : Val} (h : keq a b = true) (g : keq b c = true) : keq a c = true := by
  simp_all [keq]
theorem keq_congr_left {a b : Val} (h : keq a b = true) (c : Val) : keq a c = keq b c := by
  simp_all [keq]
theorem keq_congr_right {a b : Val} (h : keq a b = true) (c : Val) : keq c a = keq c b := by
  simp_all [keq]

@[simp] theorem keq_cls_cls (a b : Cls) : keq (.cls a) (.cls b) = decide (a = b) := by
  rw [Bool.eq_iff_iff, keq_iff]; simp [norm]

theorem norm_eq_cls {v : Val} {c : Cls} (h : norm v = .cls c) : v = .cls c := by
  cases v <;> simp [norm] at h
  case float f => split at h <;> simp at h
  case cls => simp [h]

theorem keq_cls_right {v : Val} {c : Cls} : keq v (.cls c) = true ↔ v = .cls c := by
  constructor
  · intro h; rw [keq_iff] at h; exact norm_eq_cls h
  · rintro rfl; simp

theorem keq_cls_left {v : Val} {c : Cls} : keq (.cls c) v = true ↔ v = .cls c := by
  rw [keq_comm]; exact keq_cls_right

/-- No two keys of the dictionary are equal in the sense of Python. -/
def KeysNodup (d : Dict) : Prop := d.Pairwise (fun a b => keq a.1 b.1 = false)

instance (d : Dict) : Decidable (KeysNodup d) := by unfold KeysNodup; infer_instance

theorem dget_dset_same (d : Dict) (k v : Val) : dget (dset d k v) k = some v := by
  induction d with
  | nil => simp [dset, dget]
  | cons p t ih =>
    obtain ⟨a, b⟩ := p
    simp only [dset]; split
    · rename_i h; simp [dget, h]
    · rename_i h; simp only [dget, if_neg h, ih]

theorem dget_dset_keq {d : Dict} {k q v : Val} (h : keq k q = true) : dget (dset d k v) q = some v := by
  induction d with
  | nil => simp [dset, dget, h]
  | cons p t ih =>
    obtain ⟨a, b⟩ := p
    simp only [dset]; split
    · rename_i e; simp [dget, keq_trans e h]
    · rename_i e
      have : keq a q = false := by
        rw [keq_congr_right (keq_symm h)]; simpa using e
      simp [dget, this, ih]

theorem dget_dset_other {d : Dict} {k q v : Val} (h : keq k q = false) :
    dget (dset d k v) q = dget d q := by
  induction d with
  | nil => simp [dset, dget, h]
  | cons p t ih =>
    obtain ⟨a, b⟩ := p
    simp only [dset]; split
    · rename_i e
      have : keq a q = false := by rw [keq_congr_left e, h]
      simp [dget, this]
    · simp [dget, ih]

theorem dget_dset (d : Dict) (k q v : Val) :
    dget (dset d k v) q = if keq k q then some v else dget d q := by
  split
  · rename_i h; exact dget_dset_keq h
  · rename_i h; exact dget_dset_other (by simpa using h)

theorem dget_none_iff {d : Dict} {q : Val} : dget d q = none ↔ ∀ p ∈ d, keq p.1 q = false := by
  induction d with
  | nil => simp [dget]
  | cons p t ih =>
    obtain ⟨a, b⟩ := p
    simp only [dget]; split
    · rename_i h; simp [h]
    · rename_i h; simp [ih, h]

theorem dget_mem {d : Dict} {q v : Val} (h : dget d q = some v) : ∃ k, (k, v) ∈ d ∧ keq k q = true := by
  induction d with
  | nil => simp [dget] at h
  | cons p t ih =>
    obtain ⟨a, b⟩ := p
    simp only [dget] at h; split at h
    · rename_i e; simp at h; exact ⟨a, by simp [h], e⟩
    · obtain ⟨k, h1, h2⟩ := ih h; exact ⟨k, by simp [h1], h2⟩

theorem mem_dget {d : Dict} (hn : KeysNodup d) {k v : Val} (h : (k, v) ∈ d) {q : Val}
    (hq : keq k q = true) : dget d q = some v := by
  induction d with
  | nil => simp at h
  | cons p t ih =>
    obtain ⟨a, b⟩ := p
    rw [KeysNodup, List.pairwise_cons] at hn
    simp only [List.mem_cons] at h
    rcases h with h | h
    · injection h with h1 h2; subst h1 h2; simp [dget, hq]
    · have := hn.1 _ h
      simp only at this
      have : keq a q = false := by rw [keq_congr_right (keq_symm hq)]; exact this
      simp only [dget, this]; exact ih hn.2 h

theorem dset_keys (d : Dict) (k v : Val) :
    ∀ p ∈ dset d k v, p ∈ d ∨ (p.2 = v ∧ (keq p.1 k = true)) := by
  induction d with
  | nil => simp [dset]
  | cons q t ih =>
    obtain ⟨a, b⟩ := q
    intro p hp
    simp only [dset] at hp; split at hp
    · rename_i h
      simp only [List.mem_cons] at hp
      rcases hp with rfl | hp
      · right; simp [h]
      · left; simp [hp]
    · simp only [List.mem_cons] at hp
      rcases hp with rfl | hp
      · left; simp
      · rcases ih p hp with h | h
        · left; simp [h]
        · right; exact h

theorem dset_nodup {d : Dict} (h : KeysNodup d) (k v : Val) : KeysNodup (dset d k v) := by
  induction d with
  | nil => simp [dset, KeysNodup]
  | cons q t ih =>
    obtain ⟨a, b⟩ := q
    rw [KeysNodup, List.pairwise_cons] at h
    simp only [dset]; split
    · rw [KeysNodup, List.pairwise_cons]; exact h
    · rename_i e
      rw [KeysNodup, List.pairwise_cons]
      refine ⟨?_, ih h.2⟩
      intro p hp
      rcases dset_keys t k v p hp with hp | ⟨_, hp⟩
      · exact h.1 p hp
      · simp only; rw [keq_congr_right hp]; simpa using e

theorem dset_append_new {d : Dict} {k v : Val} (h : ∀ p ∈ d, keq p.1 k = false) :
    dset d k v = d ++ [(k, v)] := by
  induction d with
  | nil => simp [dset]
  | cons p t ih =>
    obtain ⟨a, b⟩ := p
    have h0 : keq a k = false := h (a, b) (by simp)
    simp only [dset, h0, List.cons_append]
    rw [ih (fun p hp => h p (by simp [hp]))]
    simp

theorem dupdate_append {d e : Dict} (h : KeysNodup (d ++ e)) : dupdate d e = d ++ e := by
  induction e generalizing d with
  | nil => simp [dupdate]
  | cons p t ih =>
    obtain ⟨a, b⟩ := p
    have h' := h
    rw [KeysNodup, List.pairwise_append] at h'
    have hnew : ∀ p ∈ d, keq p.1 a = false := fun p hp => h'.2.2 p hp (a, b) (by simp)
    simp only [dupdate, dset_append_new hnew]
    rw [ih]
    · simp
    · simpa using h

theorem dictOf_nodup {d : Dict} (h : KeysNodup d) : dictOf d = d := by
  simpa [dictOf] using dupdate_append (d := []) (e := d) (by simpa using h)

theorem dupdate_nodup {d : Dict} (h : KeysNodup d) (e : Dict) : KeysNodup (dupdate d e) := by
  induction e generalizing d with
  | nil => simpa [dupdate]
  | cons p t ih => obtain ⟨a, b⟩ := p; simp only [dupdate]; exact ih (dset_nodup h a b)

theorem keysNodup_dictOf (e : Dict) : KeysNodup (dictOf e) := dupdate_nodup (by simp [KeysNodup]) e

theorem dupdate_mem {d e : Dict} {p : Val × Val} (h : p ∈ dupdate d e) :
    (∃ q, q ∈ d ++ e ∧ q.1 = p.1) ∧ (∃ q, q ∈ d ++ e ∧ q.2 = p.2) := by
  induction e generalizing d with
  | nil => simp only [dupdate] at h; exact ⟨⟨p, by simp [h]⟩, ⟨p, by simp [h]⟩⟩
  | cons q t ih =>
    obtain ⟨a, b⟩ := q
    simp only [dupdate] at h
    obtain ⟨⟨q1, h1, h2⟩, ⟨q2, h3, h4⟩⟩ := ih h
    have aux1 : ∀ (d : Dict) (q : Val × Val), q ∈ dset d a b →
        (∃ r, r ∈ d ++ [(a, b)] ∧ r.1 = q.1) := by
      intro d
      induction d with
      | nil => simp [dset]
      | cons x s ihs =>
        obtain ⟨u, w⟩ := x
        intro q hq
        simp only [dset] at hq; split at hq
        · simp only [List.mem_cons] at hq
          rcases hq with rfl | hq
          · exact ⟨(u, w), by simp, rfl⟩
          · exact ⟨q, by simp [hq], rfl⟩
        · simp only [List.mem_cons] at hq
          rcases hq with rfl | hq
          · exact ⟨(u, w), by simp, rfl⟩
          · obtain ⟨r, hr, e⟩ := ihs q hq
            exact ⟨r, by simp only [List.cons_append, List.mem_cons]; right; exact hr, e⟩
    simp only [List.mem_append, List.mem_cons] at h1 h3 ⊢
    constructor
    · rcases h1 with h1 | h1
      · obtain ⟨r, hr, e⟩ := aux1 d q1 h1
        simp at hr
        refine ⟨r, ?_, by rw [e, h2]⟩
        rcases hr with hr | hr
        · exact Or.inl hr
        · exact Or.inr (Or.inl hr)
      · exact ⟨q1, Or.inr (Or.inr h1), h2⟩
    · rcases h3 with h3 | h3
      · rcases dset_keys d a b q2 h3 with hq | hq
        · exact ⟨q2, Or.inl hq, h4⟩
        · exact ⟨(a, b), Or.inr (Or.inl rfl), by rw [← h4, hq.1]⟩
      · exact ⟨q2, Or.inr (Or.inr h3), h4⟩

end Cose
