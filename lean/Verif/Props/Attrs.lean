import Verif.AttrReg
import Verif.Props.Iana
/-!
# C83: registering further attributes, message types, recipient types and key types
-/

set_option autoImplicit false

namespace Cose

/-! ### Vocabulary -/

/-- The registries after the decorator `@r.register_attribute()` has been applied to these classes, in this order. -/
def Spec.after (s : Attrs) (h : List (Reg × AttrCls)) : Attrs := s.run (h.map fun p => .register p.1 p.2)

/-- Ways to refer to an attribute by its identifier: the number or label itself, a class with this identifier, or an object of such a class. -/
inductive Spec.ByIdent (i : Ident) : Attribute → Prop
  | number {n : Int} : i = .int n → ByIdent i (.val (.int n))
  | cls {c : AttrCls} : c.ident = i → ByIdent i (.cls c)
  | inst {c : AttrCls} : c.ident = i → ByIdent i (.inst c)

/-! ### Lemmas -/

theorem aget_aset_same {κ α : Type} [DecidableEq κ] (d : List (κ × α)) (k : κ) (v : α) : aget (aset d k v) k = some v := by
  induction d with
  | nil => simp [aset, aget]
  | cons p t ih =>
    obtain ⟨a, b⟩ := p
    simp only [aset]
    split
    · simp [aget, *]
    · simp [aget, *]

theorem aget_aset_other {κ α : Type} [DecidableEq κ] (d : List (κ × α)) {k q : κ} (v : α) (h : k ≠ q) : aget (aset d k v) q = aget d q := by
  induction d with
  | nil => simp [aset, aget, h]
  | cons p t ih =>
    obtain ⟨a, b⟩ := p
    simp only [aset]
    split
    · subst a
      simp [aget, h]
    · simp only [aget, ih]

theorem aget_aset {κ α : Type} [DecidableEq κ] (d : List (κ × α)) (k q : κ) (v : α) :
    aget (aset d k v) q = if k = q then some v else aget d q := by
  split
  · subst q
    exact aget_aset_same ..
  · exact aget_aset_other _ _ ‹_›

/-- What one registration does to the dictionary of its registry. -/
theorem aget_step (s : Attrs) (r r' : Reg) (c : AttrCls) (k : Ident) :
    aget ((s.step (.register r' c)) r) k =
      if r' = r ∧ (c.ident = k ∨ .text (upper c.name) = k) then some c else aget (s r) k := by
  simp only [Attrs.step, Attrs.put]
  by_cases e : r = r'
  · subst e
    simp only [if_true, aget_aset, true_and]
    grind
  · have e' : ¬ r' = r := fun h => e h.symm
    simp [e, e']

theorem after_cons (s : Attrs) (r : Reg) (c : AttrCls) (h : List (Reg × AttrCls)) :
    Spec.after s ((r, c) :: h) = Spec.after (s.step (.register r c)) h := rfl

theorem after_append (s : Attrs) (h h' : List (Reg × AttrCls)) : Spec.after s (h ++ h') = Spec.after (Spec.after s h) h' := by
  simp [Spec.after, Attrs.run]

/-- Registrations with other identifiers and names leave an entry alone. -/
theorem aget_after_other {s : Attrs} {r : Reg} {k : Ident} : ∀ {h : List (Reg × AttrCls)},
    (∀ c, (r, c) ∈ h → c.ident ≠ k ∧ .text (upper c.name) ≠ k) → aget (Spec.after s h r) k = aget (s r) k
  | [], _ => rfl
  | (r', c) :: t, hh => by
    rw [after_cons, aget_after_other (fun c hc => hh c (List.mem_cons_of_mem _ hc)), aget_step]
    by_cases e : r' = r
    · subst e
      have := hh c (List.mem_cons_self ..)
      simp [this.1, this.2]
    · simp [e]

theorem aget_after_last {s : Attrs} {r : Reg} {k : Ident} {c : AttrCls} {h1 h2 : List (Reg × AttrCls)} (hk : c.ident = k ∨ .text (upper c.name) = k)
    (h : ∀ c, (r, c) ∈ h2 → c.ident ≠ k ∧ .text (upper c.name) ≠ k) : aget (Spec.after s (h1 ++ (r, c) :: h2) r) k = some c := by
  rw [after_append, after_cons, aget_after_other h, aget_step]
  simp [hk]

theorem byIdent_find {s : Attrs} {r : Reg} {i : Ident} {a : Attribute} (h : Spec.ByIdent i a) : s.find r a = aget (s r) i := by
  cases h <;> simp [Attrs.find, *]

/-- What `from_id` does with an argument that is not a list. -/
theorem fromId_find (s : Attrs) (r : Reg) (allow : Bool) (a : Attribute) (ha : ∀ l, a ≠ .list l) :
    s.fromId r allow a = match s.find r a with
      | some c => .ok (.cls c)
      | none => if allow then .ok a else .error .coseException := by
  cases a with
  | list l => exact absurd rfl (ha l)
  | val v =>
    simp only [Attrs.fromId]
    rcases Attrs.find s r (.val v) with _ | c <;> rfl
  | cls c =>
    simp only [Attrs.fromId]
    rcases Attrs.find s r (.cls c) with _ | c <;> rfl
  | inst c =>
    simp only [Attrs.fromId]
    rcases Attrs.find s r (.inst c) with _ | c <;> rfl

theorem byIdent_ne_list {i : Ident} {a : Attribute} (h : Spec.ByIdent i a) : ∀ l, a ≠ .list l := by
  intro l
  cases h <;> simp

theorem fromId_byIdent {s : Attrs} {r : Reg} {i : Ident} {a : Attribute} {c : AttrCls} (allow : Bool) (ha : Spec.ByIdent i a) (h : aget (s r) i = some c) :
    s.fromId r allow a = .ok (.cls c) := by
  rw [fromId_find _ _ _ _ (byIdent_ne_list ha), byIdent_find ha, h]

/-! ### Registrations -/

/-- **C83**: after any history of registrations, the number of an attribute, its class, and an object of its class denote the class that was
registered last with that number in that registry. -/
theorem c83_latest_number {s : Attrs} {r : Reg} {c : AttrCls} {n : Int} {h1 h2 : List (Reg × AttrCls)} {a : Attribute} (allow : Bool)
    (hc : c.ident = .int n) (h : ∀ c', (r, c') ∈ h2 → c'.ident ≠ .int n) (ha : Spec.ByIdent (.int n) a) :
    (Spec.after s (h1 ++ (r, c) :: h2)).fromId r allow a = .ok (.cls c) := by
  rw [fromId_find _ _ _ _ (byIdent_ne_list ha), byIdent_find ha, aget_after_last (.inl hc) (fun c' hc' => ⟨h c' hc', by simp⟩)]

/-- **C83**: and its name in any letter case. -/
theorem c83_latest_name {s : Attrs} {r : Reg} {c : AttrCls} {h1 h2 : List (Reg × AttrCls)} {t : Bytes} (allow : Bool)
    (hc : ∀ b ∈ c.name, b < 128) (ht : Spec.CaseVariant t c.name)
    (h : ∀ c', (r, c') ∈ h2 → upper c'.name ≠ upper c.name ∧ c'.ident ≠ .text (upper c.name)) :
    (Spec.after s (h1 ++ (r, c) :: h2)).fromId r allow (.val (.text t)) = .ok (.cls c) := by
  rw [fromId_find _ _ _ _ (by simp)]
  simp only [Attrs.find, ht.upper hc]
  rw [aget_after_last (.inr rfl) (fun c' hc' => ⟨(h c' hc').2, by simpa using (h c' hc').1⟩)]

/-- **C83**: registrations do not touch what has another number, or is in another registry: looking up such a number gives what it gave before. -/
theorem c83_unaffected_number {s : Attrs} {r : Reg} {n : Int} {h : List (Reg × AttrCls)} {a : Attribute} (allow : Bool)
    (hh : ∀ c, (r, c) ∈ h → c.ident ≠ .int n) (ha : Spec.ByIdent (.int n) a) :
    (Spec.after s h).fromId r allow a = s.fromId r allow a := by
  rw [fromId_find _ _ _ _ (byIdent_ne_list ha), fromId_find _ _ _ _ (byIdent_ne_list ha), byIdent_find ha, byIdent_find ha,
    aget_after_other (fun c hc => ⟨hh c hc, by simp⟩)]

/-- **C83**: the same for names. -/
theorem c83_unaffected_name {s : Attrs} {r : Reg} {t : Bytes} {h : List (Reg × AttrCls)} (allow : Bool)
    (hh : ∀ c, (r, c) ∈ h → upper c.name ≠ upper t ∧ c.ident ≠ .text (upper t)) :
    (Spec.after s h).fromId r allow (.val (.text t)) = s.fromId r allow (.val (.text t)) := by
  rw [fromId_find _ _ _ _ (by simp), fromId_find _ _ _ _ (by simp)]
  simp only [Attrs.find]
  rw [aget_after_other (fun c hc => ⟨(hh c hc).2, by simpa using (hh c hc).1⟩)]

/-- **C83**: in particular each registry has its own history; key parameters registered for all key types after the import are unknown to the
key types. -/
theorem c83_separate {s : Attrs} {r : Reg} {h : List (Reg × AttrCls)} (hh : ∀ p ∈ h, p.1 ≠ r) :
    Spec.after s h r = s r := by
  induction h generalizing s with
  | nil => rfl
  | cons p t ih =>
    obtain ⟨r', c⟩ := p
    rw [after_cons, ih (fun p hp => hh p (List.mem_cons_of_mem _ hp))]
    have : ¬ r = r' := fun e => hh (r', c) (List.mem_cons_self ..) e.symm
    simp [Attrs.step, Attrs.put, this]

/-- **C83**: what a class with a text identifier is registered under: if the identifier contains a small letter (is not its own upper case), and
the name is another one, then the identifier as it appears in a message does not denote the class. Looking it up gives what it gave before. -/
theorem c83_text_identifier {s : Attrs} {r : Reg} {c : AttrCls} {t : Bytes} (allow : Bool) (hc : c.ident = .text t) (ht : upper t ≠ t)
    (hn : upper c.name ≠ upper t) :
    (Spec.after s [(r, c)]).fromId r allow (.val (.text t)) = s.fromId r allow (.val (.text t)) := by
  refine c83_unaffected_name allow (fun c' hc' => ?_)
  simp only [List.mem_singleton, Prod.mk.injEq, true_and] at hc'
  subst c'
  refine ⟨hn, ?_⟩
  rw [hc]
  simp only [ne_eq, Ident.text.injEq]
  exact fun e => ht e.symm

/-! ### After the import -/

theorem aget_mem {κ α : Type} [DecidableEq κ] {d : List (κ × α)} {k : κ} {v : α} (h : aget d k = some v) : (k, v) ∈ d := by
  induction d with
  | nil => simp [aget] at h
  | cons p t ih =>
    obtain ⟨a, b⟩ := p
    simp only [aget] at h
    split at h
    · subst a
      simp_all
    · exact List.mem_cons_of_mem _ (ih h)

theorem imported_numbers : ∀ r, ∀ p ∈ Spec.numbers r, ((aget (Attrs.imported r) (.int p.2)).any fun c =>
    decide (c.ident = .int p.2) && decide (c.name = p.1) && decide (aget (Attrs.imported r) (.text (upper p.1)) = some c)) = true ∧ ∀ b ∈ p.1, b < 128 := by
  intro r
  cases r <;> decide +kernel

theorem imported_entries : ∀ r, ∀ p ∈ Attrs.imported r, ∃ q ∈ Spec.numbers r, p.2.ident = .int q.2 ∧ p.2.name = q.1 ∧
    (p.1 = .int q.2 ∨ p.1 = .text (upper q.1)) := by
  intro r
  cases r <;> decide +kernel

/-- **C83**: after the import each registered name, in any letter case, each registered number, and each class or object with that number denotes the
attribute with that name and number ... -/
theorem c83_imported {r : Reg} {name t : Bytes} {n : Int} {a : Attribute} (allow : Bool) (h : (name, n) ∈ Spec.numbers r) (ht : Spec.CaseVariant t name)
    (ha : Spec.ByIdent (.int n) a) : ∃ c : AttrCls, c.name = name ∧ c.ident = .int n ∧ Attrs.imported.fromId r allow a = .ok (.cls c) ∧
      Attrs.imported.fromId r allow (.val (.text t)) = .ok (.cls c) := by
  obtain ⟨h1, h2⟩ := imported_numbers r _ h
  rcases e : aget (Attrs.imported r) (.int n) with _ | c
  · simp [e] at h1
  simp only [e, Option.any_some] at h1
  simp only [Bool.and_eq_true, decide_eq_true_eq] at h1
  refine ⟨c, h1.1.2, h1.1.1, ?_, ?_⟩
  · rw [fromId_find _ _ _ _ (byIdent_ne_list ha), byIdent_find ha, e]
  · rw [fromId_find _ _ _ _ (by simp)]
    simp only [Attrs.find, ht.upper h2]
    rw [h1.2]

/-- **C83**: ... and nothing else is known: what `from_id` finds has a registered name and number. -/
theorem c83_imported_only {r : Reg} {a : Attribute} {b : Attribute} (ha : ∀ l, a ≠ .list l) (h : Attrs.imported.fromId r false a = .ok b) :
    ∃ c : AttrCls, b = .cls c ∧ ∃ n, c.ident = .int n ∧ (c.name, n) ∈ Spec.numbers r := by
  rw [fromId_find _ _ _ _ ha] at h
  rcases e : Attrs.imported.find r a with _ | c
  · simp [e] at h
  simp only [e, Except.ok.injEq] at h
  refine ⟨c, h.symm, ?_⟩
  obtain ⟨k, hk⟩ : ∃ k, aget (Attrs.imported r) k = some c := by
    cases a with
    | val v =>
      cases v <;> simp only [Attrs.find, reduceCtorEq] at e <;> exact ⟨_, e⟩
    | cls d => exact ⟨_, e⟩
    | inst d => exact ⟨_, e⟩
    | list l => simp [Attrs.find] at e
  obtain ⟨⟨m, n⟩, hq, h1, h2, _⟩ := imported_entries r _ (aget_mem hk)
  have h2 : c.name = m := h2
  exact ⟨n, h1, h2 ▸ hq⟩

/-- A registry of the package keeps its attributes under any history of registrations that uses neither the number nor the name. -/
theorem c83_package {r : Reg} {name t : Bytes} {n : Int} {a : Attribute} {h : List (Reg × AttrCls)} (allow : Bool) (hn : (name, n) ∈ Spec.numbers r)
    (ht : Spec.CaseVariant t name) (ha : Spec.ByIdent (.int n) a)
    (hh : ∀ c, (r, c) ∈ h → c.ident ≠ .int n ∧ upper c.name ≠ upper name ∧ c.ident ≠ .text (upper name)) :
    ∃ c : AttrCls, c.name = name ∧ c.ident = .int n ∧ (Spec.after Attrs.imported h).fromId r allow a = .ok (.cls c) ∧
      (Spec.after Attrs.imported h).fromId r allow (.val (.text t)) = .ok (.cls c) := by
  obtain ⟨c, h1, h2, h3, h4⟩ := c83_imported allow hn ht ha
  have hu := ht.upper (imported_numbers r _ hn).2
  refine ⟨c, h1, h2, ?_, ?_⟩
  · rw [c83_unaffected_number allow (fun c hc => (hh c hc).1) ha, h3]
  · rw [c83_unaffected_name allow (fun c hc => by
      rw [hu]
      exact (hh c hc).2), h4]

/-! ### The tables of the model are what these registrations build -/

mutual
/-- A value as an argument of `from_id`. -/
def Val.attr : Val → Attribute
  | .cls c => .cls (builtinCls (c, fullname c))
  | .arr l => .list (Val.attrL l)
  | v => .val v
termination_by structural x => x
def Val.attrL : List Val → List Attribute
  | [] => []
  | v :: t => v.attr :: Val.attrL t
termination_by structural x => x
end

theorem imported_ids : ∀ r, (∀ p ∈ registry r, aget (Attrs.imported r) (.int p.1.ident) = (lookupId r p.1.ident).map (fun c => builtinCls (c, fullname c)) ∧
      aget (Attrs.imported r) (.text (upper p.2)) = (lookupName r (upper p.2)).map (fun c => builtinCls (c, fullname c))) ∧
    (∀ e ∈ Attrs.imported r, ∃ p ∈ registry r, e.1 = .int p.1.ident ∨ e.1 = .text (upper p.2)) := by
  intro r
  cases r <;> decide +kernel

theorem imported_int (r : Reg) (i : Int) : aget (Attrs.imported r) (.int i) = (lookupId r i).map (fun c => builtinCls (c, fullname c)) := by
  by_cases h : ∃ p ∈ registry r, p.1.ident = i
  · obtain ⟨p, hp, rfl⟩ := h
    exact ((imported_ids r).1 p hp).1
  · have h1 : lookupId r i = none := by
      simp only [lookupId, Option.map_eq_none_iff, List.find?_eq_none, List.mem_reverse, beq_iff_eq]
      exact fun p hp e => h ⟨p, hp, e⟩
    rw [h1]
    rcases e : aget (Attrs.imported r) (.int i) with _ | c
    · rfl
    · obtain ⟨p, hp, h2⟩ := (imported_ids r).2 _ (aget_mem e)
      simp only [Ident.int.injEq, reduceCtorEq, or_false] at h2
      exact absurd ⟨p, hp, h2.symm⟩ h

theorem imported_text (r : Reg) (s : Bytes) : aget (Attrs.imported r) (.text s) = (lookupName r s).map (fun c => builtinCls (c, fullname c)) := by
  by_cases h : ∃ p ∈ registry r, upper p.2 = s
  · obtain ⟨p, hp, rfl⟩ := h
    exact ((imported_ids r).1 p hp).2
  · have h1 : lookupName r s = none := by
      simp only [lookupName, Option.map_eq_none_iff, List.find?_eq_none, List.mem_reverse, beq_iff_eq]
      exact fun p hp e => h ⟨p, hp, e⟩
    rw [h1]
    rcases e : aget (Attrs.imported r) (.text s) with _ | c
    · rfl
    · obtain ⟨p, hp, h2⟩ := (imported_ids r).2 _ (aget_mem e)
      simp only [Ident.text.injEq, reduceCtorEq, false_or] at h2
      exact absurd ⟨p, hp, h2.symm⟩ h

theorem imported_find (r : Reg) (v : Val) (hv : ∀ l, v ≠ .arr l) :
    Attrs.imported.find r v.attr = (resolve r v).map (fun c => builtinCls (c, fullname c)) := by
  cases v <;> simp only [Val.attr, Attrs.find, resolve, Option.map_none, imported_int, imported_text, builtinCls]

theorem attr_not_list {v : Val} (hv : ∀ l, v ≠ .arr l) : ∀ l, v.attr ≠ .list l := by
  intro l
  cases v <;> simp [Val.attr]
  exact absurd rfl (hv _)

/-- **C83**: on the registries of the import, `from_id` is the function the rest of the model uses. -/
theorem c83_model_key (r : Reg) (v : Val) (allow : Bool) (hv : ∀ l, v ≠ .arr l) :
    Attrs.imported.fromId r allow v.attr = (fromIdKey r v allow).map Val.attr := by
  rw [fromId_find _ _ _ _ (attr_not_list hv), imported_find r v hv]
  simp only [fromIdKey]
  rcases resolve r v with _ | c
  · cases allow <;> rfl
  · rfl

mutual
/-- **C83**: the same for the value parsers, which also take lists. -/
theorem c83_model (r : Reg) (v : Val) : Attrs.imported.fromId r false v.attr = (fromId r v).map Val.attr := by
  match v with
  | .arr l =>
    simp only [Val.attr, Attrs.fromId, fromId, c83_model_list r l]
    rcases fromIdL r l with e | l'
    · rfl
    · rfl
  | .none | .undef | .bool _ | .simple _ | .int _ | .float _ | .bytes _ | .text _ | .map _ | .tag _ _ | .cls _ | .key _ _ =>
    rw [c83_model_key r _ false (by simp)]
    simp only [fromId, fromIdKey]
    rfl
termination_by structural v
theorem c83_model_list (r : Reg) (l : List Val) : Attrs.imported.fromIdL r (Val.attrL l) = (fromIdL r l).map Val.attrL := by
  match l with
  | [] => rfl
  | v :: t =>
    simp only [Val.attrL, Attrs.fromIdL, fromIdL, c83_model r v, c83_model_list r t]
    rcases fromId r v with e | v'
    · rfl
    · rcases fromIdL r t with e | t'
      · rfl
      · rfl
termination_by structural l
end

/-! ### Attribute objects -/

/-- The order of texts: `s` is a proper prefix of `t`, or at the first difference the byte of `s` is smaller. -/
def Spec.TextLess (s t : Bytes) : Prop :=
  (∃ b u, t = s ++ b :: u) ∨ ∃ p a b u v, s = p ++ a :: u ∧ t = p ++ b :: v ∧ a < b

/-- The order of labels of the same kind. -/
inductive Spec.Less : Ident → Ident → Prop
  | int {i j : Int} : i < j → Less (.int i) (.int j)
  | text {s t : Bytes} : Spec.TextLess s t → Less (.text s) (.text t)

/-- The two labels are both integers or both texts. -/
def Spec.SameKind : Ident → Ident → Prop
  | .int _, .int _ => True
  | .text _, .text _ => True
  | _, _ => False

theorem textLess_cons {a b : UInt8} {s t : Bytes} : Spec.TextLess (a :: s) (b :: t) ↔ a < b ∨ (a = b ∧ Spec.TextLess s t) := by
  constructor
  · rintro (⟨c, u, e⟩ | ⟨p, x, y, u, v, e1, e2, h⟩)
    · simp only [List.cons_append, List.cons.injEq] at e
      exact .inr ⟨e.1.symm, .inl ⟨c, u, e.2⟩⟩
    · cases p with
      | nil =>
        simp only [List.nil_append, List.cons.injEq] at e1 e2
        exact .inl (e1.1 ▸ e2.1 ▸ h)
      | cons q p =>
        simp only [List.cons_append, List.cons.injEq] at e1 e2
        exact .inr ⟨e1.1.trans e2.1.symm, .inr ⟨p, x, y, u, v, e1.2, e2.2, h⟩⟩
  · rintro (h | ⟨rfl, ⟨c, u, rfl⟩ | ⟨p, x, y, u, v, rfl, rfl, h⟩⟩)
    · exact .inr ⟨[], a, b, s, t, rfl, rfl, h⟩
    · exact .inl ⟨c, u, rfl⟩
    · exact .inr ⟨a :: p, x, y, u, v, rfl, rfl, h⟩

theorem textLess_nil {s : Bytes} : ¬ Spec.TextLess s [] := by
  rintro (⟨c, u, e⟩ | ⟨p, x, y, u, v, e1, e2, h⟩)
  · simp at e
  · simp at e2

theorem textLess_of_nil {b : UInt8} {t : Bytes} : Spec.TextLess [] (b :: t) := .inl ⟨b, t, rfl⟩

theorem textLt_iff : ∀ (s t : Bytes), textLt s t = true ↔ Spec.TextLess s t
  | [], [] => by simp [textLt, textLess_nil]
  | a :: s, [] => by simp [textLt, textLess_nil]
  | [], b :: t => by simp [textLt, textLess_of_nil]
  | a :: s, b :: t => by
    rw [textLess_cons, ← textLt_iff s t]
    simp [textLt]

/-- **C83**: an attribute object is equal to whatever has the same identifier, class or object, and comparing it with anything else raises. -/
theorem c83_equal {a c : AttrCls} {b : Attribute} (hb : b = .cls c ∨ b = .inst c) :
    (attrCmp .eq a b = .ok true ↔ a.ident = c.ident) ∧ (attrCmp .ne a b = .ok true ↔ a.ident ≠ c.ident) ∧
    (∃ x, attrCmp .eq a b = .ok x) ∧ ∃ x, attrCmp .ne a b = .ok x := by
  rcases hb with rfl | rfl <;> simp [attrCmp, identCmp]

/-- **C83**: that includes `None`, numbers and texts: an attribute object is not comparable with its own identifier. -/
theorem c83_equal_other {op : CmpOp} {a : AttrCls} {v : Val} {l : List Attribute} :
    attrCmp op a (.val v) = .error .attributeError ∧ attrCmp op a (.list l) = .error .attributeError := ⟨rfl, rfl⟩

/-- **C83**: attribute objects with identifiers of one kind are ordered by the identifiers; the four operators agree with that order. -/
theorem c83_ordered {a c : AttrCls} {b : Attribute} (hb : b = .cls c ∨ b = .inst c) (hk : Spec.SameKind a.ident c.ident) :
    (attrCmp .lt a b = .ok true ↔ Spec.Less a.ident c.ident) ∧
    (attrCmp .le a b = .ok true ↔ Spec.Less a.ident c.ident ∨ a.ident = c.ident) ∧
    (attrCmp .gt a b = .ok true ↔ Spec.Less c.ident a.ident) ∧
    (attrCmp .ge a b = .ok true ↔ Spec.Less c.ident a.ident ∨ a.ident = c.ident) ∧
    ∀ op, ∃ x, attrCmp op a b = .ok x := by
  obtain ⟨o, i, n⟩ := a
  obtain ⟨o', j, n'⟩ := c
  have hl : ∀ s t, Spec.Less (.text s) (.text t) ↔ textLt s t = true := fun s t =>
    ⟨fun h => by cases h; exact (textLt_iff ..).mpr ‹_›, fun h => .text ((textLt_iff ..).mp h)⟩
  have hi : ∀ s t, Spec.Less (.int s) (.int t) ↔ s < t := fun s t => ⟨fun h => by cases h; assumption, .int⟩
  cases i <;> cases j <;> simp only [Spec.SameKind] at hk
  · refine ⟨?_, ?_, ?_, ?_, fun op => ?_⟩
    rotate_right
    · rcases hb with rfl | rfl <;> cases op <;> exact ⟨_, rfl⟩
    all_goals rcases hb with rfl | rfl <;> simp [attrCmp, identCmp, hi] <;> omega
  · refine ⟨?_, ?_, ?_, ?_, fun op => ?_⟩
    rotate_right
    · rcases hb with rfl | rfl <;> cases op <;> exact ⟨_, rfl⟩
    all_goals rcases hb with rfl | rfl <;> simp [attrCmp, identCmp, hl] <;> grind

/-- **C83**: this order is a strict total order on the identifiers of one kind. -/
theorem c83_order : (∀ i, ¬ Spec.Less i i) ∧ (∀ i j k, Spec.Less i j → Spec.Less j k → Spec.Less i k) ∧
    ∀ i j, Spec.SameKind i j → Spec.Less i j ∨ i = j ∨ Spec.Less j i := by
  have h1 : ∀ s : Bytes, ¬ Spec.TextLess s s := by
    intro s
    induction s with
    | nil => exact textLess_nil
    | cons a s ih => rw [textLess_cons]; simp [ih]
  have h2 : ∀ s t u : Bytes, Spec.TextLess s t → Spec.TextLess t u → Spec.TextLess s u := by
    intro s
    induction s with
    | nil =>
      intro t u h1 h2
      cases u with
      | nil => exact absurd h2 textLess_nil
      | cons b u => exact textLess_of_nil
    | cons a s ih =>
      intro t u h1 h2
      cases t with
      | nil => exact absurd h1 textLess_nil
      | cons b t =>
        cases u with
        | nil => exact absurd h2 textLess_nil
        | cons c u =>
          rw [textLess_cons] at *
          rcases h1 with h1 | ⟨rfl, h1⟩
          · rcases h2 with h2 | ⟨rfl, h2⟩
            · exact .inl (UInt8.lt_trans h1 h2)
            · exact .inl h1
          · rcases h2 with h2 | ⟨rfl, h2⟩
            · exact .inl h2
            · exact .inr ⟨rfl, ih _ _ h1 h2⟩
  have h3 : ∀ s t : Bytes, Spec.TextLess s t ∨ s = t ∨ Spec.TextLess t s := by
    intro s
    induction s with
    | nil =>
      intro t
      cases t with
      | nil => simp
      | cons b t => exact .inl textLess_of_nil
    | cons a s ih =>
      intro t
      cases t with
      | nil => exact .inr (.inr textLess_of_nil)
      | cons b t =>
        simp only [textLess_cons, List.cons.injEq]
        by_cases e : a = b
        · subst e
          rcases ih t with h | h | h <;> simp [h]
        · rcases UInt8.lt_or_lt_of_ne e with h | h <;> simp [h]
  refine ⟨?_, ?_, ?_⟩
  · intro i h
    cases i <;> cases h
    · omega
    · exact h1 _ ‹_›
  · intro i j k h g
    cases h <;> cases g
    · exact .int (by omega)
    · exact .text (h2 _ _ _ ‹_› ‹_›)
  · intro i j h
    cases i <;> cases j <;> simp only [Spec.SameKind] at h
    · rename_i x y
      by_cases e : x = y
      · exact .inr (.inl (by rw [e]))
      · by_cases e' : x < y
        · exact .inl (.int e')
        · exact .inr (.inr (.int (by omega)))
    · rename_i x y
      rcases h3 x y with h | h | h
      · exact .inl (.text h)
      · exact .inr (.inl (by rw [h]))
      · exact .inr (.inr (.text h))

/-- **C83**: a label that is a number and one that is a text have no order. -/
theorem c83_unordered {op : CmpOp} {a c : AttrCls} {b : Attribute} (hb : b = .cls c ∨ b = .inst c) (hk : ¬ Spec.SameKind a.ident c.ident)
    (ho : op ≠ .eq ∧ op ≠ .ne) : attrCmp op a b = .error .typeError := by
  obtain ⟨o, i, n⟩ := a
  obtain ⟨o', j, n'⟩ := c
  cases i <;> cases j <;> simp only [Spec.SameKind, not_true_eq_false] at hk <;> rcases hb with rfl | rfl <;> cases op <;>
    simp_all [attrCmp, identCmp]

/-- **C83**, refuted: equal attribute objects need not be the same attribute. The object of P-256 equals the one of the key type OKP, the algorithm A128GCM and
the header ALG; and a curve passes for an algorithm. -/
theorem c83_confusion_refuted : ∃ a b c d : AttrCls, a.name = b!"P_256" ∧ b.name = b!"OKP" ∧ c.name = b!"A128GCM" ∧ d.name = b!"ALG" ∧
    attrCmp .eq a (.inst b) = .ok true ∧ attrCmp .eq a (.inst c) = .ok true ∧ attrCmp .eq a (.inst d) = .ok true ∧
    (∃ e, Attrs.imported.fromId .crv false (.cls a) = .ok (.cls e) ∧ e = a) ∧ Attrs.imported.fromId .alg false (.inst a) = .ok (.cls c) :=
  ⟨builtinCls (⟨.crv, 1⟩, b!"P_256"), builtinCls (⟨.kty, 1⟩, b!"OKP"), builtinCls (⟨.alg, 1⟩, b!"A128GCM"), builtinCls (⟨.hdr, 1⟩, b!"ALG"), by decide, by decide,
    by decide, by decide, rfl, rfl, rfl, ⟨_, fromId_byIdent false (.cls rfl) (by decide +kernel), rfl⟩, fromId_byIdent false (.inst rfl) (by decide +kernel)⟩

/-! ### Message types, recipient types, key types -/

/-- A decorator that raises leaves the dictionary as it was. -/
def Spec.orKeep {σ : Type} (s : σ) : Res σ → σ
  | .ok s' => s'
  | .error _ => s

/-- The decorators of one kind applied in this order. -/
def Spec.recordAll {σ π : Type} (f : σ → π → Res σ) (s : σ) (l : List π) : σ := l.foldl (fun s p => Spec.orKeep s (f s p)) s

/-- `@CoseMessage.record_cbor_tag(tag)` applied to a class. -/
def Spec.tagStep (d : List (Int × MsgCls)) (p : Int × Given MsgCls) : Res (List (Int × MsgCls)) := recordTag d p.1 p.2

/-- **C83**: after the import, `decode` knows the six tags of RFC 8152 and no other, and the model dispatches by the same table. -/
theorem c83_tags : (∀ n : Nat, aget importTags n = (tagKind n).map .builtin) ∧
    ∀ (n : Int) k, aget importTags n = some k ↔ (n, k) ∈ [(16, .builtin .enc0), (17, .builtin .mac0), (18, .builtin .sign1), (96, .builtin .enc),
      (97, .builtin .mac), (98, .builtin .sign)] := by
  constructor
  · intro n
    by_cases h : n = 16 ∨ n = 17 ∨ n = 18 ∨ n = 96 ∨ n = 97 ∨ n = 98
    · rcases h with rfl | rfl | rfl | rfl | rfl | rfl <;> rfl
    · simp only [not_or] at h
      obtain ⟨h1, h2, h3, h4, h5, h6⟩ := h
      simp only [tagKind, h1, h2, h3, h4, h5, h6, if_false, Option.map_none, importTags, aget]
      repeat rw [if_neg (by omega)]
  · intro n k
    constructor
    · intro h
      have := aget_mem h
      simp only [importTags, List.mem_cons, List.not_mem_nil, or_false] at this ⊢
      rcases this with h | h | h | h | h | h <;> simp [h]
    · intro h
      simp only [List.mem_cons, List.not_mem_nil, or_false, Prod.mk.injEq] at h
      rcases h with ⟨rfl, rfl⟩ | ⟨rfl, rfl⟩ | ⟨rfl, rfl⟩ | ⟨rfl, rfl⟩ | ⟨rfl, rfl⟩ | ⟨rfl, rfl⟩ <;> rfl

/-- **C83**: a class that is not a message class is refused. -/
theorem c83_tag_refused {d : List (Int × MsgCls)} {n : Int} {c : Given MsgCls} (h : c.subclass = false) : recordTag d n c = .error .valueError := by
  simp [recordTag, h]

theorem tag_step (d : List (Int × MsgCls)) (p : Int × Given MsgCls) (n : Int) :
    aget (Spec.orKeep d (Spec.tagStep d p)) n = if p.1 = n ∧ p.2.subclass = true then some p.2.what else aget d n := by
  simp only [Spec.tagStep, recordTag, Spec.orKeep]
  cases h : p.2.subclass
  · simp
  · simp [aget_aset]

/-- **C83**: a tag denotes the message class that was recorded for it last, and tags that were not recorded again denote what they did. -/
theorem c83_tag_history {l1 l2 : List (Int × Given MsgCls)} {n : Int} {d : List (Int × MsgCls)} (h : ∀ c, (n, c) ∈ l2 → c.subclass = false) :
    aget (Spec.recordAll Spec.tagStep d l2) n = aget d n ∧
    ∀ c : Given MsgCls, c.subclass = true → aget (Spec.recordAll Spec.tagStep d (l1 ++ (n, c) :: l2)) n = some c.what := by
  have key : ∀ d : List (Int × MsgCls), aget (Spec.recordAll Spec.tagStep d l2) n = aget d n := by
    intro d
    induction l2 generalizing d with
    | nil => rfl
    | cons p t ih =>
      have := ih (fun c hc => h c (List.mem_cons_of_mem _ hc))
      simp only [Spec.recordAll, List.foldl_cons] at this ⊢
      rw [this, tag_step]
      by_cases e : p.1 = n
      · have hp := h p.2 (by rw [← e]; exact List.mem_cons_self ..)
        simp [hp]
      · simp [e]
  refine ⟨key d, fun c hc => ?_⟩
  have := key
  simp only [Spec.recordAll, List.foldl_append, List.foldl_cons] at this ⊢
  rw [this, tag_step]
  simp [hc]

/-- `@CoseRecipient.record_rc(algs)` applied to a class. -/
def Spec.rcStep (d : List (ClsId × RcptCls)) (p : List (ClsId × Bool) × Given RcptCls) : Res (List (ClsId × RcptCls)) := recordRc d p.1 p.2

/-- **C83**: after the import, the algorithms that determine the class of a recipient are those the model uses. -/
theorem c83_recipients (c : Cls) : aget importRcpts (.builtin c) = match rcptClass (.cls c) with
    | .ok k => some (.builtin k)
    | .error _ => none := by
  obtain ⟨r, i⟩ := c
  by_cases hr : r = .alg
  · subst hr
    by_cases hi : i = -6 ∨ i = -10 ∨ i = -13 ∨ i = -3 ∨ i = -4 ∨ i = -5 ∨ i = -42 ∨ i = -41 ∨ i = -40 ∨ i = -25 ∨ i = -26 ∨ i = -27 ∨ i = -28 ∨ i = -29 ∨
        i = -30 ∨ i = -31 ∨ i = -32 ∨ i = -33 ∨ i = -34
    · rcases hi with rfl | rfl | rfl | rfl | rfl | rfl | rfl | rfl | rfl | rfl | rfl | rfl | rfl | rfl | rfl | rfl | rfl | rfl | rfl <;> decide
    · simp only [not_or] at hi
      have h : rcptClass (.cls ⟨.alg, i⟩) = .error .keyError := by
        simp [rcptClass, hi]
      rw [h]
      rcases e : aget importRcpts (.builtin ⟨.alg, i⟩) with _ | k
      · rfl
      · have hm : ∀ e ∈ importRcpts, e.1 ∈ [-6, -10, -13, -3, -4, -5, -42, -41, -40, -25, -26, -27, -28, -29, -30, -31, -32, -33, -34].map
            (fun i => ClsId.builtin ⟨.alg, i⟩) := by decide
        have := hm _ (aget_mem e)
        simp [hi] at this
  · have : ∀ e ∈ importRcpts, ∃ i, e.1 = .builtin ⟨.alg, i⟩ := by
      intro e he
      have h : ∀ e ∈ importRcpts, (match e.1 with
        | .builtin c => decide (c.reg = .alg)
        | .own _ => false) = true := by decide
      have := h e he
      split at this
      · rename_i c hc
        obtain ⟨a, b⟩ := c
        simp only [decide_eq_true_eq] at this
        subst this
        exact ⟨b, hc⟩
      · simp at this
    rcases e : aget importRcpts (.builtin ⟨r, i⟩) with _ | k
    · simp [rcptClass, hr]
    · obtain ⟨j, hj⟩ := this _ (aget_mem e)
      simp only [ClsId.builtin.injEq, Cls.mk.injEq] at hj
      exact absurd hj.1 hr

theorem rc_fold {α : Type} (algs : List (ClsId × Bool)) (d : List (ClsId × α)) (k : α) (a : ClsId) :
    aget (algs.foldl (fun d a => if a.2 then aset d a.1 k else d) d) a = if (a, true) ∈ algs then some k else aget d a := by
  induction algs generalizing d with
  | nil => simp
  | cons p t ih =>
    obtain ⟨x, b⟩ := p
    simp only [List.foldl_cons, ih]
    cases b
    · simp
    · simp only [if_true, aget_aset, List.mem_cons, Prod.mk.injEq, and_true]
      grind

theorem rc_step (d : List (ClsId × RcptCls)) (p : List (ClsId × Bool) × Given RcptCls) (a : ClsId) :
    aget (Spec.orKeep d (Spec.rcStep d p)) a = if (a, true) ∈ p.1 ∧ p.2.subclass = true then some p.2.what else aget d a := by
  simp only [Spec.rcStep, recordRc, Spec.orKeep]
  cases h : p.2.subclass
  · simp
  · simp [rc_fold]

/-- **C83**: an algorithm class denotes the recipient class that was recorded for it last; classes in the list that are not algorithms, and recipient classes
that are none, are not recorded. -/
theorem c83_recipient_history {l1 l2 : List (List (ClsId × Bool) × Given RcptCls)} {a : ClsId} {d : List (ClsId × RcptCls)}
    (h : ∀ p ∈ l2, (a, true) ∈ p.1 → p.2.subclass = false) :
    aget (Spec.recordAll Spec.rcStep d l2) a = aget d a ∧
    ∀ algs (c : Given RcptCls), (a, true) ∈ algs → c.subclass = true → aget (Spec.recordAll Spec.rcStep d (l1 ++ (algs, c) :: l2)) a = some c.what := by
  have key : ∀ d : List (ClsId × RcptCls), aget (Spec.recordAll Spec.rcStep d l2) a = aget d a := by
    intro d
    induction l2 generalizing d with
    | nil => rfl
    | cons p t ih =>
      have := ih (fun p hp => h p (List.mem_cons_of_mem _ hp))
      simp only [Spec.recordAll, List.foldl_cons] at this ⊢
      rw [this, rc_step]
      by_cases e : (a, true) ∈ p.1
      · simp [h p (List.mem_cons_self ..) e]
      · simp [e]
  refine ⟨key d, fun algs c ha hc => ?_⟩
  have := key
  simp only [Spec.recordAll, List.foldl_append, List.foldl_cons] at this ⊢
  rw [this, rc_step]
  simp [ha, hc]

/-- `@CoseKey.record_kty(kty)` applied to a class. -/
def Spec.ktyStep (d : List (KtyKey × KeyCls)) (p : AttrCls × Given KeyCls) : Res (List (KtyKey × KeyCls)) := recordKty d p.1 p.2

/-- The three ways to write a key type in a key: number or label, name (in this letter case), class. -/
inductive Spec.KtyAlias (c : AttrCls) : KtyKey → Prop
  | ident : KtyAlias c (.ident c.ident)
  | name : KtyAlias c (.ident (.text c.name))
  | cls : KtyAlias c (.cls c.obj)

theorem kty_alias {c : AttrCls} {k : KtyKey} : Spec.KtyAlias c k ↔ k = .ident c.ident ∨ k = .ident (.text c.name) ∨ k = .cls c.obj := by
  constructor
  · rintro (_ | _ | _) <;> simp
  · rintro (rfl | rfl | rfl)
    · exact .ident
    · exact .name
    · exact .cls

theorem kty_step_other {d : List (KtyKey × KeyCls)} {p : AttrCls × Given KeyCls} {k : KtyKey} (h : p.2.subclass = false ∨ ¬ Spec.KtyAlias p.1 k) :
    aget (Spec.orKeep d (Spec.ktyStep d p)) k = aget d k := by
  simp only [Spec.ktyStep, recordKty]
  rcases h with h | h
  · simp [h, Spec.orKeep]
  · rw [kty_alias] at h
    cases p.2.subclass
    · simp [Spec.orKeep]
    · simp only [if_true, Spec.orKeep, aget_aset]
      grind

/-- **C83**: each way to write a key type denotes the key class that was recorded for it last; a class that is not a key class is not recorded. -/
theorem c83_key_type_history {l1 l2 : List (AttrCls × Given KeyCls)} {k : KtyKey} {d : List (KtyKey × KeyCls)}
    (h : ∀ p ∈ l2, Spec.KtyAlias p.1 k → p.2.subclass = false) :
    aget (Spec.recordAll Spec.ktyStep d l2) k = aget d k ∧
    ∀ t (c : Given KeyCls), Spec.KtyAlias t k → c.subclass = true → aget (Spec.recordAll Spec.ktyStep d (l1 ++ (t, c) :: l2)) k = some c.what := by
  have key : ∀ d : List (KtyKey × KeyCls), aget (Spec.recordAll Spec.ktyStep d l2) k = aget d k := by
    intro d
    induction l2 generalizing d with
    | nil => rfl
    | cons p t ih =>
      have := ih (fun p hp => h p (List.mem_cons_of_mem _ hp))
      simp only [Spec.recordAll, List.foldl_cons] at this ⊢
      rw [this]
      refine kty_step_other ?_
      by_cases e : Spec.KtyAlias p.1 k
      · exact .inl (h p (List.mem_cons_self ..) e)
      · exact .inr e
  refine ⟨key d, fun t c ht hc => ?_⟩
  have := key
  simp only [Spec.recordAll, List.foldl_append, List.foldl_cons] at this ⊢
  rw [this]
  simp only [Spec.ktyStep, recordKty, hc, if_true, Spec.orKeep, aget_aset]
  rw [kty_alias] at ht
  grind

/-- A value of the parameter KTY as a key of `_key_types`. -/
def Spec.ktyKey : Val → Option KtyKey
  | .int i => some (.ident (.int i))
  | .bool b => some (.ident (.int (if b then 1 else 0)))
  | .text s => some (.ident (.text s))
  | .cls c => some (.cls (.builtin c))
  | _ => none

/-- **C83**: after the import, the key types that determine the class of a key are those the model uses. -/
theorem c83_key_types {v : Val} {k : KtyKey} (h : Spec.ktyKey v = some k) : aget importKtys k = match ktyLookup v with
    | .ok k => some (.builtin k)
    | .error _ => none := by
  have : importKtys = [(.ident (.int 2), .builtin .ec2), (.ident (.text b!"EC2"), .builtin .ec2), (.cls (.builtin ⟨.kty, 2⟩), .builtin .ec2),
      (.ident (.int 1), .builtin .okp), (.ident (.text b!"OKP"), .builtin .okp), (.cls (.builtin ⟨.kty, 1⟩), .builtin .okp),
      (.ident (.int 4), .builtin .sym), (.ident (.text b!"SYMMETRIC"), .builtin .sym), (.cls (.builtin ⟨.kty, 4⟩), .builtin .sym),
      (.ident (.int 3), .builtin .rsa), (.ident (.text b!"RSA"), .builtin .rsa), (.cls (.builtin ⟨.kty, 3⟩), .builtin .rsa)] := by decide
  rw [this]
  cases v <;> simp only [Spec.ktyKey, Option.some.injEq, reduceCtorEq] at h <;> subst h
  · rename_i b
    cases b <;> decide
  · simp only [aget, ktyLookup, keq, norm, KtyKey.ident.injEq, Ident.int.injEq, reduceCtorEq, if_false, or_false, beq_iff_eq, Val.int.injEq]
    grind
  · simp only [aget, ktyLookup, keq, norm, KtyKey.ident.injEq, Ident.text.injEq, reduceCtorEq, if_false, or_false, false_or, beq_iff_eq, Val.text.injEq]
    grind
  · simp only [aget, ktyLookup, keq, norm, KtyKey.cls.injEq, ClsId.builtin.injEq, reduceCtorEq, if_false, or_false, false_or, beq_iff_eq, Val.cls.injEq]
    grind

/-! ### Cases -/

namespace Sample
/-- A header parameter with number 42, one with the text label `trace-id`, and a second algorithm with the number of ES256. -/
def ownHeader : AttrCls := ⟨.own 0, .int 42, b!"Trace"⟩
def ownText : AttrCls := ⟨.own 1, .text b!"trace-id", b!"TRACE"⟩
def ownAlg : AttrCls := ⟨.own 2, .int (-7), b!"MY_ES256"⟩
end Sample

/-- **C83**, refuted for text labels: after the class with the label `trace-id` has been registered, neither that label nor its capitals denote the class, although
the class and its name do; so a label that was written with this class is not recognised when the message is decoded. -/
theorem c83_text_refuted : (Spec.after Attrs.imported [(.hdr, Sample.ownText)]).fromId .hdr true (.val (.text b!"trace-id")) = .ok (.val (.text b!"trace-id")) ∧
    (Spec.after Attrs.imported [(.hdr, Sample.ownText)]).fromId .hdr true (.val (.text b!"TRACE-ID")) = .ok (.val (.text b!"TRACE-ID")) ∧
    (Spec.after Attrs.imported [(.hdr, Sample.ownText)]).fromId .hdr true (.cls Sample.ownText) = .ok (.cls Sample.ownText) ∧
    (Spec.after Attrs.imported [(.hdr, Sample.ownText)]).fromId .hdr true (.val (.text b!"trace")) = .ok (.cls Sample.ownText) := by
  have find : ∀ t, (Spec.after Attrs.imported [(.hdr, Sample.ownText)]).find .hdr (.val (.text t)) =
      aget (Spec.after Attrs.imported [(.hdr, Sample.ownText)] .hdr) (.text (upper t)) := fun _ => rfl
  refine ⟨?_, ?_, fromId_byIdent true (.cls rfl) (by decide +kernel), ?_⟩
  · have h : aget (Spec.after Attrs.imported [(.hdr, Sample.ownText)] .hdr) (.text (upper b!"trace-id")) = none := by decide +kernel
    rw [fromId_find _ _ _ _ (by simp), find, h]
    rfl
  · have h : aget (Spec.after Attrs.imported [(.hdr, Sample.ownText)] .hdr) (.text (upper b!"TRACE-ID")) = none := by decide +kernel
    rw [fromId_find _ _ _ _ (by simp), find, h]
    rfl
  · have h : aget (Spec.after Attrs.imported [(.hdr, Sample.ownText)] .hdr) (.text (upper b!"trace")) = some Sample.ownText := by decide +kernel
    rw [fromId_find _ _ _ _ (by simp), find, h]

/-- A user registers a header parameter and a second class with the number of ES256: the header is found by number and by name, the algorithm number now
denotes the new class, and ES384 is still what it was. -/
example : (Spec.after Attrs.imported [(.hdr, Sample.ownHeader), (.alg, Sample.ownAlg)]).fromId .hdr true (.val (.int 42)) = .ok (.cls Sample.ownHeader) ∧
    (Spec.after Attrs.imported [(.hdr, Sample.ownHeader), (.alg, Sample.ownAlg)]).fromId .hdr true (.val (.text b!"Trace")) = .ok (.cls Sample.ownHeader) ∧
    (Spec.after Attrs.imported [(.hdr, Sample.ownHeader), (.alg, Sample.ownAlg)]).fromId .alg false (.val (.int (-7))) = .ok (.cls Sample.ownAlg) ∧
    ∃ c : AttrCls, c.name = b!"ES384" ∧ (Spec.after Attrs.imported [(.hdr, Sample.ownHeader), (.alg, Sample.ownAlg)]).fromId .alg false (.val (.int (-35))) = .ok (.cls c) := by
  refine ⟨c83_latest_number (h1 := []) true rfl (by simp) (.number rfl),
    c83_latest_name (h1 := []) true (by decide) (by repeat constructor) (by simp),
    c83_latest_number (h1 := [_]) (h2 := []) false rfl (by simp) (.number rfl), ?_⟩
  obtain ⟨c, h1, -, h2, -⟩ := c83_package (r := .alg) (n := -35) (name := b!"ES384") (t := b!"ES384") (h := [(.hdr, Sample.ownHeader), (.alg, Sample.ownAlg)])
    false (by decide +kernel) (by repeat constructor) (.number rfl) (fun c hc => by
      simp only [List.mem_cons, Prod.mk.injEq, reduceCtorEq, false_and, true_and, List.not_mem_nil, or_false, false_or] at hc
      subst hc
      decide)
  exact ⟨c, h1, h2⟩

/-- Two objects of different numbers, in order. -/
example : attrCmp .lt (builtinCls (⟨.alg, -7⟩, b!"ES256")) (.inst (builtinCls (⟨.alg, 1⟩, b!"A128GCM"))) = .ok true := by
  have h : Spec.SameKind (builtinCls (⟨.alg, -7⟩, b!"ES256")).ident (builtinCls (⟨.alg, 1⟩, b!"A128GCM")).ident := trivial
  exact (c83_ordered (.inr rfl) h).1.mpr (.int (by decide))

/-- Registrations in one registry leave the others alone; identifiers of different kinds have no order. -/
example : Spec.after Attrs.imported [(.hdr, Sample.ownHeader), (.alg, Sample.ownAlg)] .crv = Attrs.imported .crv ∧
    attrCmp .lt Sample.ownText (.cls Sample.ownHeader) = .error .typeError ∧
    (Spec.after Attrs.imported [(.hdr, Sample.ownHeader), (.alg, Sample.ownAlg)]).fromId .alg true (.val (.int 1)) =
      Attrs.imported.fromId .alg true (.val (.int 1)) :=
  ⟨c83_separate (by simp), c83_unordered (.inl rfl) (by simp [Spec.SameKind, Sample.ownText, Sample.ownHeader]) (by simp),
    c83_unaffected_number true (by simp [Sample.ownAlg]) (.number rfl)⟩

/-- A class of a user for tag 18, followed by a class that is no message class (refused) and one for another tag; the same for
recipients (algorithm A128KW) and key types (number 2). -/
example : aget (Spec.recordAll Spec.tagStep importTags ([] ++ (18, ⟨true, .own 1⟩) :: [(18, ⟨false, .own 2⟩), (17, ⟨true, .own 3⟩)])) 18 = some (.own 1) ∧
    aget (Spec.recordAll Spec.rcStep importRcpts ([] ++ ([(.builtin ⟨.alg, -3⟩, true)], ⟨true, .own 1⟩) ::
      [([(.builtin ⟨.alg, -3⟩, true)], ⟨false, .own 2⟩), ([(.builtin ⟨.alg, -4⟩, true)], ⟨true, .own 3⟩)])) (.builtin ⟨.alg, -3⟩) = some (.own 1) ∧
    aget (Spec.recordAll Spec.ktyStep importKtys ([] ++ (builtinCls (⟨.kty, 2⟩, b!"EC2"), ⟨true, .own 1⟩) ::
      [(builtinCls (⟨.kty, 2⟩, b!"EC2"), ⟨false, .own 2⟩), (builtinCls (⟨.kty, 1⟩, b!"OKP"), ⟨true, .own 3⟩)])) (.ident (.int 2)) = some (.own 1) := by
  refine ⟨(c83_tag_history (l1 := []) (l2 := [(18, ⟨false, .own 2⟩), (17, ⟨true, .own 3⟩)]) (d := importTags) (by simp)).2 ⟨true, .own 1⟩ rfl,
    (c83_recipient_history (l1 := []) (l2 := [([(.builtin ⟨.alg, -3⟩, true)], ⟨false, .own 2⟩), ([(.builtin ⟨.alg, -4⟩, true)], ⟨true, .own 3⟩)])
      (d := importRcpts) (by simp)).2 [(.builtin ⟨.alg, -3⟩, true)] ⟨true, .own 1⟩ (by simp) rfl,
    (c83_key_type_history (l1 := []) (l2 := [(builtinCls (⟨.kty, 2⟩, b!"EC2"), ⟨false, .own 2⟩), (builtinCls (⟨.kty, 1⟩, b!"OKP"), ⟨true, .own 3⟩)])
      (d := importKtys) ?_).2 (builtinCls (⟨.kty, 2⟩, b!"EC2")) ⟨true, .own 1⟩ .ident rfl⟩
  intro p hp ha
  simp only [List.mem_cons, List.not_mem_nil, or_false] at hp
  rcases hp with rfl | rfl
  · rfl
  · rw [kty_alias] at ha
    revert ha; decide

end Cose
