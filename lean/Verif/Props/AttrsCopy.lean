import Verif.Props.Attrs
/-!
# Registries that are filled from another one (C83)

The key parameter classes start with a copy of the common parameters (`keyparam.py:59-60,96-97,127-128,212-213`); a user may declare
further ones in the same way.
-/
set_option autoImplicit false
namespace Cose

/-- The labels of the dictionary are different. -/
def LabelsNodup {κ α : Type} (d : List (κ × α)) : Prop := (d.map (·.1)).Nodup

theorem aset_mem {κ α : Type} [DecidableEq κ] {d : List (κ × α)} {q x : κ} {w : α} (h : x ∈ (aset d q w).map (·.1)) :
    x = q ∨ x ∈ d.map (·.1) := by
  induction d with
  | nil => simp [aset] at h; exact .inl h
  | cons p t ih =>
    obtain ⟨k, v⟩ := p
    simp only [aset] at h
    split at h
    · exact .inr h
    · rcases List.mem_cons.mp h with h | h
      · exact .inr (List.mem_cons.mpr (.inl h))
      · exact (ih h).imp id (fun h => List.mem_cons.mpr (.inr h))

theorem aset_nodup {κ α : Type} [DecidableEq κ] {d : List (κ × α)} (h : LabelsNodup d) (q : κ) (w : α) : LabelsNodup (aset d q w) := by
  induction d with
  | nil => simp [aset, LabelsNodup]
  | cons p t ih =>
    obtain ⟨k, v⟩ := p
    simp only [LabelsNodup, List.map_cons, List.nodup_cons] at h
    simp only [aset]
    split
    · exact List.nodup_cons.mpr h
    · rename_i hne
      refine List.nodup_cons.mpr ⟨fun hm => ?_, ih h.2⟩
      rcases aset_mem hm with e | hm
      · exact hne e
      · exact h.1 hm

theorem aupdate_nodup {κ α : Type} [DecidableEq κ] {e d : List (κ × α)} (h : LabelsNodup d) : LabelsNodup (aupdate d e) := by
  induction e generalizing d with
  | nil => exact h
  | cons p t ih => exact ih (aset_nodup h _ _)

theorem aget_none {κ α : Type} [DecidableEq κ] {d : List (κ × α)} {q : κ} (h : q ∉ d.map (·.1)) : aget d q = none := by
  induction d with
  | nil => rfl
  | cons p t ih =>
    obtain ⟨k, v⟩ := p
    simp only [List.map_cons, List.mem_cons, not_or] at h
    have hk : ¬ k = q := fun e => h.1 e.symm
    simp only [aget, ih h.2, if_neg hk]

theorem aget_aupdate {κ α : Type} [DecidableEq κ] {e d : List (κ × α)} (h : LabelsNodup e) (k : κ) :
    aget (aupdate d e) k = (aget e k).or (aget d k) := by
  induction e generalizing d with
  | nil => rfl
  | cons p t ih =>
    obtain ⟨q, w⟩ := p
    simp only [LabelsNodup, List.map_cons, List.nodup_cons] at h
    simp only [aupdate, ih h.2, aget_aset, aget]
    split
    · rename_i e
      subst e
      rw [aget_none h.1]; rfl
    · rfl

theorem run_nodup {l : List RegStep} {s : Attrs} (h : ∀ r, LabelsNodup (s r)) (r : Reg) : LabelsNodup (s.run l r) := by
  induction l generalizing s with
  | nil => exact h r
  | cons p t ih =>
    refine ih (s := s.step p) fun q => ?_
    cases p with
    | register r' c =>
      simp only [Attrs.step, Attrs.put]
      split
      · exact aset_nodup (aset_nodup (h _) _ _) _ _
      · exact h q
    | copy a b =>
      simp only [Attrs.step, Attrs.put]
      split
      · exact aupdate_nodup (h _)
      · exact h q

theorem find_copied {s : Attrs} (h : ∀ r, LabelsNodup (s r)) {a b : Reg} (x : Attribute) :
    (s.step (.copy a b)).find b x = (s.find a x).or (s.find b x) := by
  have e : (s.step (.copy a b)) b = aupdate (s b) (s a) := by simp [Attrs.step, Attrs.put]
  cases x with
  | val v => cases v <;> simp [Attrs.find, e, aget_aupdate (h a)]
  | _ => simp [Attrs.find, e, aget_aupdate (h a)]

/-- **C83**: after `dst._registered.update(src._registered)`, in any state that registrations and such copies lead to, whatever denotes an
attribute in `src` denotes the same one in `dst`, also if it denoted another one there; everything else is looked up in `dst` as before.
No other registry changes. -/
theorem c83_copied {l : List RegStep} {s : Attrs} (hs : s = Attrs.run (fun _ => []) l) (src dst : Reg) :
    (∀ x allow, (∀ k, x ≠ .list k) → (s.step (.copy src dst)).fromId dst allow x =
      match s.fromId src false x with
      | .ok y => .ok y
      | .error _ => s.fromId dst allow x) ∧
    ∀ r, r ≠ dst → (s.step (.copy src dst)) r = s r := by
  have hn : ∀ r, LabelsNodup (s r) := fun r => by rw [hs]; exact run_nodup (fun _ => by simp [LabelsNodup]) r
  refine ⟨fun x allow hx => ?_, fun r hr => by simp [Attrs.step, Attrs.put, hr]⟩
  cases x with
  | list k => exact absurd rfl (hx k)
  | val v =>
    simp only [Attrs.fromId, find_copied hn]
    cases s.find src (.val v) <;> simp
  | cls c =>
    simp only [Attrs.fromId, find_copied hn]
    cases s.find src (.cls c) <;> simp
  | inst c =>
    simp only [Attrs.fromId, find_copied hn]
    cases s.find src (.inst c) <;> simp

/-- The state after the import, in which the sample class is registered for all keys under the number of the common parameter ALG, is such a state; EC2 keys get
to know it only by a further copy. -/
example : ∃ l, Attrs.run (fun _ => []) l = Attrs.imported.run [.register .kp ⟨.own 1, .int 3, b!"mine"⟩] :=
  ⟨importSteps ++ [.register .kp ⟨.own 1, .int 3, b!"mine"⟩], by simp [Attrs.imported, Attrs.run, List.foldl_append]⟩

example : ((Attrs.imported.run [.register .kp ⟨.own 1, .int 3, b!"mine"⟩]).find .kpEc2 (.val (.int 3))).map (·.obj) = some (.builtin KpAlg) ∧
    ((Attrs.imported.run [.register .kp ⟨.own 1, .int 3, b!"mine"⟩, .copy .kp .kpEc2]).find .kpEc2 (.val (.int 3))).map (·.obj) = some (.own 1) := by
  decide +kernel

end Cose
