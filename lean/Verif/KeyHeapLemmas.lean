import Verif.KeyHeap
import Verif.DictLemmas
/-!
# Lemmas about keys as objects
-/
set_option autoImplicit false
namespace Cose

theorem dictVal_sset (h : KeyMem) (e : SDict) (k : Val) (s : Slot) : h.dictVal (sset e k s) = dset (h.dictVal e) k (h.val s) := by
  induction e with
  | nil => rfl
  | cons p t ih =>
    obtain ⟨l, v⟩ := p
    simp only [sset, KeyMem.dictVal, List.map_cons, dset]
    split <;> simp_all [KeyMem.dictVal]

theorem dictVal_sdel (h : KeyMem) (e : SDict) (k : Val) : h.dictVal (sdel e k) = ddel (h.dictVal e) k := by
  induction e with
  | nil => rfl
  | cons p t ih =>
    obtain ⟨l, v⟩ := p
    simp only [sdel, KeyMem.dictVal, List.map_cons, ddel]
    split <;> simp_all [KeyMem.dictVal]

theorem dictVal_sget (h : KeyMem) (e : SDict) (k : Val) : dget (h.dictVal e) k = (sget e k).map h.val := by
  induction e with
  | nil => rfl
  | cons p t ih =>
    obtain ⟨l, v⟩ := p
    simp only [sget, KeyMem.dictVal, List.map_cons, dget]
    split <;> simp_all [KeyMem.dictVal]

theorem sget_sset (e : SDict) (k q : Val) (s : Slot) : sget (sset e k s) q = if keq k q then some s else sget e q := by
  induction e with
  | nil => rfl
  | cons p t ih =>
    obtain ⟨l, v⟩ := p
    simp only [sset]
    by_cases hlk : keq l k = true
    · simp only [hlk, if_true, sget, keq_congr_left hlk q]
      split <;> rfl
    · simp only [hlk, if_false, sget, Bool.false_eq_true]
      rw [ih]
      by_cases hlq : keq l q = true
      · have : keq k q = false := by
          cases hkq : keq k q with
          | false => rfl
          | true => exact absurd (keq_trans hlq (keq_symm hkq)) hlk
        simp [hlq, this]
      · simp [hlq]

theorem sget_mem {e : SDict} {k : Val} {s : Slot} (h : sget e k = some s) : ∃ l, keq l k = true ∧ (l, s) ∈ e := by
  induction e with
  | nil => simp [sget] at h
  | cons p t ih =>
    obtain ⟨l, v⟩ := p
    simp only [sget] at h
    split at h
    · rename_i hk; cases h; exact ⟨l, hk, by simp⟩
    · obtain ⟨l', h1, h2⟩ := ih h; exact ⟨l', h1, by simp [h2]⟩

theorem mem_sset {e : SDict} {k : Val} {s : Slot} {p : Val × Slot} (h : p ∈ sset e k s) : p ∈ e ∨ p.2 = s := by
  induction e with
  | nil => simp [sset] at h; right; rw [h]
  | cons q t ih =>
    obtain ⟨l, v⟩ := q
    simp only [sset] at h
    split at h
    · cases h with
      | head => exact .inr rfl
      | tail _ h => exact .inl (List.mem_cons_of_mem _ h)
    · cases h with
      | head => exact .inl (by simp)
      | tail _ h => exact (ih h).elim (fun h => .inl (List.mem_cons_of_mem _ h)) .inr

theorem mem_sset_label {e : SDict} {k : Val} {s : Slot} {p : Val × Slot} (h : p ∈ sset e k s) : p ∈ e ∨ keq p.1 k = true ∧ p.2 = s := by
  induction e with
  | nil => simp [sset] at h; right; rw [h]; simp
  | cons q t ih =>
    obtain ⟨l, v⟩ := q
    simp only [sset] at h
    split at h
    · rename_i hk
      cases h with
      | head => exact .inr ⟨hk, rfl⟩
      | tail _ h => exact .inl (List.mem_cons_of_mem _ h)
    · cases h with
      | head => exact .inl (by simp)
      | tail _ h => exact (ih h).elim (fun h => .inl (List.mem_cons_of_mem _ h)) .inr

theorem mem_sdel {e : SDict} {k : Val} {p : Val × Slot} (h : p ∈ sdel e k) : p ∈ e := by
  induction e with
  | nil => simp [sdel] at h
  | cons q t ih =>
    obtain ⟨l, v⟩ := q
    simp only [sdel] at h
    split at h
    · exact List.mem_cons_of_mem _ h
    · cases h with
      | head => simp
      | tail _ h => exact List.mem_cons_of_mem _ (ih h)

theorem dictVal_sremove (h : KeyMem) (e : SDict) (c : Cls) : h.dictVal (sremove e c) = remove (h.dictVal e) c := by
  simp only [sremove, remove, dictVal_sdel]

theorem dictVal_sremoves (h : KeyMem) (cs : List Cls) (e : SDict) : h.dictVal (cs.foldl sremove e) = cs.foldl remove (h.dictVal e) := by
  induction cs generalizing e with
  | nil => rfl
  | cons c t ih => simp only [List.foldl_cons, ih, dictVal_sremove]

theorem mem_sremoves {cs : List Cls} {e : SDict} {p : Val × Slot} (h : p ∈ cs.foldl sremove e) : p ∈ e := by
  induction cs generalizing e with
  | nil => exact h
  | cons c t ih => exact mem_sdel (mem_sdel (mem_sdel (ih h)))

namespace KeyMem

/-- All objects of the first memory are in the second, unchanged. -/
structure Ext (h h' : KeyMem) : Prop where
  le : h.next ≤ h'.next
  same : ∀ a, a < h.next → h'.cell a = h.cell a

theorem Ext.refl (h : KeyMem) : Ext h h := ⟨Nat.le_refl _, fun _ _ => rfl⟩
theorem Ext.trans {h h' h'' : KeyMem} (a : Ext h h') (b : Ext h' h'') : Ext h h'' :=
  ⟨Nat.le_trans a.le b.le, fun x hx => by rw [b.same x (Nat.lt_of_lt_of_le hx a.le), a.same x hx]⟩

/-- Unused addresses. -/
def Fresh (h : KeyMem) : Prop := ∀ a, h.next ≤ a → h.cell a = none

theorem Fresh.lt {h : KeyMem} (f : h.Fresh) {a : Nat} (ha : h.cell a ≠ none) : a < h.next :=
  Classical.byContradiction fun hn => ha (f a (by omega))

theorem ext_alloc (h : KeyMem) (c : KCell) : Ext h (h.alloc c) :=
  ⟨by simp [alloc], fun a ha => by simp only [alloc, kput]; rw [if_neg (by omega)]⟩

theorem fresh_alloc {h : KeyMem} (f : h.Fresh) (c : KCell) : (h.alloc c).Fresh := fun a ha => by
  simp only [alloc] at ha
  simp only [alloc, kput]
  rw [if_neg (by omega)]
  exact f a (by omega)

theorem cell_alloc (h : KeyMem) (c : KCell) : (h.alloc c).cell h.next = some c := by simp [alloc, kput]

/-- Writing an address that the first memory does not use. -/
theorem ext_put {h h' : KeyMem} (x : Ext h h') {a : Nat} (ha : h.next ≤ a) (c : KCell) : Ext h (h'.put a c) :=
  ⟨x.le, fun b hb => by simp only [put, kput]; rw [if_neg (by omega)]; exact x.same b hb⟩

theorem fresh_put {h : KeyMem} (f : h.Fresh) {a : Nat} (ha : a < h.next) (c : KCell) : (h.put a c).Fresh := fun b hb => by
  simp only [put] at hb
  simp only [put, kput]
  rw [if_neg (by omega)]
  exact f b hb

/-- All values of the dictionary exist. -/
def SlotsOk (h : KeyMem) (e : SDict) : Prop := ∀ p ∈ e, h.slotOk p.2 = true

theorem slotOk_ext {h h' : KeyMem} (f : h.Fresh) (x : Ext h h') {s : Slot} (hs : h.slotOk s = true) : h'.slotOk s = true := by
  cases s with
  | imm v => exact hs
  | ref a =>
    simp only [slotOk] at hs ⊢
    have : a < h.next := f.lt (by intro e; rw [e] at hs; simp at hs)
    rw [x.same a this]; exact hs

theorem val_ext {h h' : KeyMem} (f : h.Fresh) (x : Ext h h') {s : Slot} (hs : h.slotOk s = true) : h'.val s = h.val s := by
  cases s with
  | imm v => rfl
  | ref a =>
    simp only [slotOk] at hs
    have : a < h.next := f.lt (by intro e; rw [e] at hs; simp at hs)
    simp only [val, x.same a this]

theorem SlotsOk.ext {h h' : KeyMem} (f : h.Fresh) (x : Ext h h') {e : SDict} (hs : h.SlotsOk e) : h'.SlotsOk e :=
  fun p hp => slotOk_ext f x (hs p hp)

theorem dictVal_ext {h h' : KeyMem} (f : h.Fresh) (x : Ext h h') {e : SDict} (hs : h.SlotsOk e) : h'.dictVal e = h.dictVal e := by
  simp only [dictVal]
  refine List.map_congr_left fun p hp => ?_
  rw [val_ext f x (hs p hp)]

theorem SlotsOk.sset {h : KeyMem} {e : SDict} (hs : h.SlotsOk e) {s : Slot} (h1 : h.slotOk s = true) (k : Val) : h.SlotsOk (sset e k s) :=
  fun p hp => (mem_sset hp).elim (fun h => hs p h) (fun e => by rw [e]; exact h1)

theorem newVal_ext (h : KeyMem) (v : Val) : Ext h (h.newVal v).1 := by
  unfold newVal; split
  · exact ext_alloc h _
  · exact Ext.refl h

theorem newVal_fresh {h : KeyMem} (f : h.Fresh) (v : Val) : (h.newVal v).1.Fresh := by
  unfold newVal; split
  · exact fresh_alloc f _
  · exact f

theorem newVal_ok (h : KeyMem) (v : Val) : (h.newVal v).1.slotOk (h.newVal v).2 = true := by
  unfold newVal; split
  · simp [slotOk, cell_alloc]
  · rename_i hv; cases v <;> simp_all [slotOk]

theorem newVal_val (h : KeyMem) (v : Val) : (h.newVal v).1.val (h.newVal v).2 = v := by
  unfold newVal; split
  · simp [val, cell_alloc]
  · rfl

theorem newVal_new {h : KeyMem} {v : Val} {a : Nat} (e : (h.newVal v).2 = .ref a) : h.next ≤ a ∧ a < (h.newVal v).1.next := by
  unfold newVal at e ⊢; split at e
  · cases e; simp [alloc]
  · cases e

end KeyMem

/-- A parser that does not translate returns what it gets. -/
theorem simpleParser_same {c : Cls} (hc : translates c = false) {v v' : Val} (h : simpleParser c v = .ok v') : v' = v := by
  unfold translates at hc
  unfold simpleParser at h
  split at h <;> simp_all
  · split at h
    · unfold critIsArray at h; split at h <;> (try split at h) <;> simp_all
    · split at h
      · unfold contentType at h; split at h <;> (try split at h) <;> simp_all
      · split at h
        · unfold isBstr at h; split at h <;> simp_all
        · split at h <;> simp_all

namespace KeyMem

/-- The loop on objects does what the loop on values does, and its new lists are new objects. -/
theorem parseSlots_sim {r : Reg} {allow : Bool} {e : SDict} {h : KeyMem} {acc : SDict} (f : h.Fresh) (ha : h.SlotsOk acc) (he : h.SlotsOk e) :
    match parseSlots r allow h acc e with
    | .error x => parseAttrs r allow simpleParser (h.dictVal acc) (h.dictVal e) = .error x
    | .ok (h', t) =>
      parseAttrs r allow simpleParser (h.dictVal acc) (h.dictVal e) = .ok (h'.dictVal t) ∧ Ext h h' ∧ h'.Fresh ∧ h'.SlotsOk t ∧
      ∀ a, (.cls KpKeyOps, .ref a) ∈ t → (.cls KpKeyOps, .ref a) ∈ acc ∨ h.next ≤ a := by
  induction e generalizing h acc with
  | nil => exact ⟨rfl, Ext.refl h, f, ha, fun a h => .inl h⟩
  | cons p t ih =>
    obtain ⟨k, s⟩ := p
    have hs : h.slotOk s = true := he (k, s) (by simp)
    have ht : h.SlotsOk t := fun p hp => he p (by simp [hp])
    have ed : h.dictVal ((k, s) :: t) = (k, h.val s) :: h.dictVal t := rfl
    rw [ed]
    simp only [parseSlots, parseAttrs]
    cases hk : fromIdKey r k allow with
    | error x => rfl
    | ok a =>
      -- an entry that is stored as it is
      have keep : ∀ (hne : a ≠ .cls KpKeyOps), (match parseSlots r allow h (Cose.sset acc a s) t with
          | .error x => parseAttrs r allow simpleParser (dset (h.dictVal acc) a (h.val s)) (h.dictVal t) = .error x
          | .ok (h', t') =>
            parseAttrs r allow simpleParser (dset (h.dictVal acc) a (h.val s)) (h.dictVal t) = .ok (h'.dictVal t') ∧ Ext h h' ∧ h'.Fresh ∧ h'.SlotsOk t' ∧
            ∀ b, (.cls KpKeyOps, .ref b) ∈ t' → (.cls KpKeyOps, .ref b) ∈ acc ∨ h.next ≤ b) := by
        intro hne
        have := ih (acc := Cose.sset acc a s) f (ha.sset hs a) ht
        rw [dictVal_sset] at this
        revert this
        cases parseSlots r allow h (Cose.sset acc a s) t with
        | error x => exact id
        | ok q =>
          obtain ⟨h', t'⟩ := q
          rintro ⟨h1, h2, h3, h4, h5⟩
          refine ⟨h1, h2, h3, h4, fun b hb => ?_⟩
          rcases h5 b hb with h6 | h6
          · rcases mem_sset_label h6 with h6 | ⟨h6, _⟩
            · exact .inl h6
            · exact absurd (keq_cls_left.mp h6) hne
          · exact .inr h6
      by_cases hc : ∃ c, a = .cls c
      · obtain ⟨c, rfl⟩ := hc
        simp only [Bind.bind, Except.bind]
        cases hp : simpleParser c (h.val s) with
        | error x => rfl
        | ok v =>
          simp only []
          by_cases htr : translates c = true
          · rw [if_pos htr]
            have x1 := newVal_ext h v
            have f1 := newVal_fresh f v
            have := ih (h := (h.newVal v).1) (acc := Cose.sset acc (.cls c) (h.newVal v).2) f1
              ((ha.ext f x1).sset (newVal_ok h v) _) (ht.ext f x1)
            rw [dictVal_sset, newVal_val, dictVal_ext f x1 ha, dictVal_ext f x1 ht] at this
            revert this
            cases parseSlots r allow (h.newVal v).1 (Cose.sset acc (.cls c) (h.newVal v).2) t with
            | error x => exact id
            | ok q =>
              obtain ⟨h', t'⟩ := q
              rintro ⟨h1, h2, h3, h4, h5⟩
              refine ⟨h1, x1.trans h2, h3, h4, fun b hb => ?_⟩
              rcases h5 b hb with h6 | h6
              · rcases mem_sset_label h6 with h6 | ⟨_, h6⟩
                · exact .inl h6
                · exact .inr (newVal_new h6.symm).1
              · exact .inr (Nat.le_trans x1.le h6)
          · rw [if_neg htr]
            have hv := simpleParser_same (by simpa using htr) hp
            subst hv
            exact keep (by intro e; simp only [Val.cls.injEq] at e; subst e; exact htr (by decide))
      · have : ∀ c, a ≠ .cls c := fun c e => hc ⟨c, e⟩
        have k := keep (this _)
        cases a <;> first | exact absurd rfl (this _) | exact k

/-- Placing the values of a store. -/
theorem place_spec {t : SDict} {d : Dict} {h : KeyMem} (f : h.Fresh) (ht : h.SlotsOk t) :
    Ext h (place t h d).1 ∧ (place t h d).1.Fresh ∧ (place t h d).1.SlotsOk (place t h d).2 ∧ (place t h d).1.dictVal (place t h d).2 = d ∧
    ∀ p ∈ (place t h d).2, (∃ l, sget t p.1 = some l ∧ p.2 = l) ∨ ∀ a, p.2 = .ref a → h.next ≤ a := by
  induction d generalizing h with
  | nil => exact ⟨Ext.refl h, f, fun p hp => by simp [place] at hp, rfl, fun p hp => by simp [place] at hp⟩
  | cons q d ih =>
    obtain ⟨l, v⟩ := q
    -- a new value
    have new : ∀ (r : KeyMem × SDict), r = ((place t (h.newVal v).1 d).1, (l, (h.newVal v).2) :: (place t (h.newVal v).1 d).2) →
        Ext h r.1 ∧ r.1.Fresh ∧ r.1.SlotsOk r.2 ∧ r.1.dictVal r.2 = (l, v) :: d ∧
        ∀ p ∈ r.2, (∃ l, sget t p.1 = some l ∧ p.2 = l) ∨ ∀ a, p.2 = .ref a → h.next ≤ a := by
      rintro _ rfl
      have x1 := newVal_ext h v
      have f1 := newVal_fresh f v
      obtain ⟨x2, f2, s2, d2, o2⟩ := ih (h := (h.newVal v).1) f1 (ht.ext f x1)
      refine ⟨x1.trans x2, f2, ?_, ?_, ?_⟩
      · intro p hp
        cases hp with
        | head => exact slotOk_ext f1 x2 (newVal_ok h v)
        | tail _ hp => exact s2 p hp
      · simp only [dictVal, List.map_cons] at d2 ⊢
        rw [d2, val_ext f1 x2 (newVal_ok h v), newVal_val]
      · intro p hp
        cases hp with
        | head => exact .inr fun a ha => (newVal_new ha).1
        | tail _ hp =>
          rcases o2 p hp with h6 | h6
          · exact .inl h6
          · exact .inr fun a ha => Nat.le_trans x1.le (h6 a ha)
    simp only [place]
    split
    · rename_i s hs
      split
      · rename_i hv
        have hok : h.slotOk s = true := by obtain ⟨k, _, hm⟩ := sget_mem hs; exact ht _ hm
        obtain ⟨x2, f2, s2, d2, o2⟩ := ih (h := h) f ht
        refine ⟨x2, f2, ?_, ?_, ?_⟩
        · intro p hp
          cases hp with
          | head => exact slotOk_ext f x2 hok
          | tail _ hp => exact s2 p hp
        · simp only [dictVal, List.map_cons] at d2 ⊢
          rw [d2, val_ext f x2 hok, hv]
        · intro p hp
          cases hp with
          | head => exact .inl ⟨s, hs, rfl⟩
          | tail _ hp => exact o2 p hp
      · exact new _ rfl
    · exact new _ rfl


/-- What holds in every memory a program can reach. -/
structure Ok (h : KeyMem) : Prop where
  fresh : h.Fresh
  slots : ∀ a e, h.cell a = some (.dict e) → h.SlotsOk e
  store : ∀ k o, h.cell k = some (.key o) → ∃ e, h.cell o.store = some (.dict e)
  own : ∀ k k' o o', h.cell k = some (.key o) → h.cell k' = some (.key o') → o.store = o'.store → k = k'

theorem ok_start : start.Ok :=
  ⟨fun _ _ => rfl, fun _ _ h => by simp [start] at h, fun _ _ h => by simp [start] at h, fun _ _ _ _ h => by simp [start] at h⟩

theorem alloc_cases {h : KeyMem} {c c' : KCell} {a : Nat} (e : (h.alloc c).cell a = some c') : a = h.next ∧ c' = c ∨ h.cell a = some c' := by
  simp only [alloc, kput] at e
  split at e
  · rename_i h1; cases e; exact .inl ⟨h1, rfl⟩
  · exact .inr e

theorem alloc_old {h : KeyMem} (f : h.Fresh) {c c' : KCell} {a : Nat} (e : h.cell a = some c') : (h.alloc c).cell a = some c' := by
  rw [(ext_alloc h c).same a (f.lt (by simp [e]))]; exact e

theorem ok_alloc {h : KeyMem} (ok : h.Ok) {c : KCell} (hd : ∀ e, c = .dict e → h.SlotsOk e)
    (hk : ∀ o, c = .key o → (∃ e, h.cell o.store = some (.dict e)) ∧ ∀ k o', h.cell k = some (.key o') → o'.store ≠ o.store) : (h.alloc c).Ok where
  fresh := fresh_alloc ok.fresh c
  slots := fun a e he => by
    rcases alloc_cases he with ⟨_, h1⟩ | h1
    · exact (hd e h1.symm).ext ok.fresh (ext_alloc h c)
    · exact (ok.slots a e h1).ext ok.fresh (ext_alloc h c)
  store := fun k o ho => by
    rcases alloc_cases ho with ⟨_, h1⟩ | h1
    · obtain ⟨⟨e, he⟩, _⟩ := hk o h1.symm
      exact ⟨e, alloc_old ok.fresh he⟩
    · obtain ⟨e, he⟩ := ok.store k o h1
      exact ⟨e, alloc_old ok.fresh he⟩
  own := fun k k' o o' ho ho' hs => by
    rcases alloc_cases ho with ⟨e1, h1⟩ | h1 <;> rcases alloc_cases ho' with ⟨e2, h2⟩ | h2
    · rw [e1, e2]
    · exact absurd hs.symm ((hk o h1.symm).2 k' o' h2)
    · exact absurd hs ((hk o' h2.symm).2 k o h1)
    · exact ok.own k k' o o' h1 h2 hs

theorem ok_alloc_list {h : KeyMem} (ok : h.Ok) (l : List Val) : (h.alloc (.list l)).Ok :=
  ok_alloc ok (fun _ e => by cases e) (fun _ e => by cases e)

theorem ok_alloc_dict {h : KeyMem} (ok : h.Ok) {e : SDict} (he : h.SlotsOk e) : (h.alloc (.dict e)).Ok :=
  ok_alloc ok (fun _ e => by cases e; exact he) (fun _ e => by cases e)

theorem put_cases {h : KeyMem} {c c' : KCell} {a b : Nat} (e : (h.put b c).cell a = some c') : a = b ∧ c' = c ∨ a ≠ b ∧ h.cell a = some c' := by
  simp only [put, kput] at e
  split at e
  · rename_i h1; cases e; exact .inl ⟨h1, rfl⟩
  · rename_i h1; exact .inr ⟨h1, e⟩

theorem cell_put_other {h : KeyMem} {c : KCell} {a b : Nat} (e : a ≠ b) : (h.put b c).cell a = h.cell a := by simp [put, kput, e]
theorem cell_put_same {h : KeyMem} {c : KCell} {b : Nat} : (h.put b c).cell b = some c := by simp [put, kput]

/-- Replacing a list by a list, or a dictionary by a dictionary, keeps the lists. -/
theorem slotOk_put_list {h : KeyMem} {a : Nat} {l l' : List Val} (ha : h.cell a = some (.list l)) (s : Slot) : (h.put a (.list l')).slotOk s = h.slotOk s := by
  cases s with
  | imm v => rfl
  | ref b =>
    simp only [slotOk]
    by_cases e : b = a
    · subst e; rw [cell_put_same, ha]
    · rw [cell_put_other e]

theorem slotOk_put_dict {h : KeyMem} {a : Nat} {e e' : SDict} (ha : h.cell a = some (.dict e)) (s : Slot) : (h.put a (.dict e')).slotOk s = h.slotOk s := by
  cases s with
  | imm v => rfl
  | ref b =>
    simp only [slotOk]
    by_cases e : b = a
    · subst e; rw [cell_put_same, ha]
    · rw [cell_put_other e]

theorem val_put_dict {h : KeyMem} {a : Nat} {e e' : SDict} (ha : h.cell a = some (.dict e)) (s : Slot) : (h.put a (.dict e')).val s = h.val s := by
  cases s with
  | imm v => rfl
  | ref b =>
    simp only [val]
    by_cases e : b = a
    · subst e; rw [cell_put_same, ha]
    · rw [cell_put_other e]

theorem dictVal_put_dict {h : KeyMem} {a : Nat} {e e' : SDict} (ha : h.cell a = some (.dict e)) (d : SDict) : (h.put a (.dict e')).dictVal d = h.dictVal d := by
  simp only [dictVal, val_put_dict ha]

theorem ok_put_list {h : KeyMem} (ok : h.Ok) {a : Nat} {l l' : List Val} (ha : h.cell a = some (.list l)) : (h.put a (.list l')).Ok where
  fresh := fresh_put ok.fresh (ok.fresh.lt (by simp [ha])) _
  slots := fun b e he => by
    rcases put_cases he with ⟨_, h1⟩ | ⟨_, h1⟩
    · cases h1
    · intro p hp; rw [slotOk_put_list ha]; exact ok.slots b e h1 p hp
  store := fun k o ho => by
    rcases put_cases ho with ⟨_, h1⟩ | ⟨_, h1⟩
    · cases h1
    · obtain ⟨e, he⟩ := ok.store k o h1
      exact ⟨e, by rw [cell_put_other (by rintro e2; rw [e2, ha] at he; cases he)]; exact he⟩
  own := fun k k' o o' ho ho' hs => by
    rcases put_cases ho with ⟨_, h1⟩ | ⟨_, h1⟩
    · cases h1
    rcases put_cases ho' with ⟨_, h2⟩ | ⟨_, h2⟩
    · cases h2
    exact ok.own k k' o o' h1 h2 hs

theorem ok_put_dict {h : KeyMem} (ok : h.Ok) {a : Nat} {e e' : SDict} (ha : h.cell a = some (.dict e)) (hs : h.SlotsOk e') : (h.put a (.dict e')).Ok where
  fresh := fresh_put ok.fresh (ok.fresh.lt (by simp [ha])) _
  slots := fun b d he => by
    rcases put_cases he with ⟨_, h1⟩ | ⟨_, h1⟩
    · cases h1; intro p hp; rw [slotOk_put_dict ha]; exact hs p hp
    · intro p hp; rw [slotOk_put_dict ha]; exact ok.slots b d h1 p hp
  store := fun k o ho => by
    rcases put_cases ho with ⟨_, h1⟩ | ⟨_, h1⟩
    · cases h1
    · obtain ⟨d, he⟩ := ok.store k o h1
      by_cases e2 : o.store = a
      · exact ⟨e', by rw [e2, cell_put_same]⟩
      · exact ⟨d, by rw [cell_put_other e2]; exact he⟩
  own := fun k k' o o' ho ho' hs => by
    rcases put_cases ho with ⟨_, h1⟩ | ⟨_, h1⟩
    · cases h1
    rcases put_cases ho' with ⟨_, h2⟩ | ⟨_, h2⟩
    · cases h2
    exact ok.own k k' o o' h1 h2 hs

theorem ok_newVal {h : KeyMem} (ok : h.Ok) (v : Val) : (h.newVal v).1.Ok := by
  unfold newVal; split
  · exact ok_alloc_list ok _
  · exact ok

/-- The keys of the second memory are those of the first. -/
def SameKeys (h h' : KeyMem) : Prop := ∀ k o, h'.cell k = some (.key o) ↔ h.cell k = some (.key o)

theorem SameKeys.refl (h : KeyMem) : SameKeys h h := fun _ _ => Iff.rfl
theorem SameKeys.trans {h h' h'' : KeyMem} (a : SameKeys h h') (b : SameKeys h' h'') : SameKeys h h'' := fun k o => (b k o).trans (a k o)

theorem sameKeys_alloc {h : KeyMem} (f : h.Fresh) {c : KCell} (hc : ∀ o, c ≠ .key o) : SameKeys h (h.alloc c) := fun k o => by
  refine ⟨fun e => ?_, fun e => alloc_old f e⟩
  rcases alloc_cases e with ⟨_, h1⟩ | h1
  · exact absurd h1.symm (hc o)
  · exact h1

theorem sameKeys_put {h : KeyMem} {a : Nat} {c c' : KCell} (hc : ∀ o, c ≠ .key o) (ha : h.cell a = some c') (hc' : ∀ o, c' ≠ .key o) : SameKeys h (h.put a c) :=
  fun k o => by
  refine ⟨fun e => ?_, fun e => ?_⟩
  · rcases put_cases e with ⟨_, h1⟩ | ⟨_, h1⟩
    · exact absurd h1.symm (hc o)
    · exact h1
  · rw [cell_put_other]
    · exact e
    · rintro rfl; rw [ha] at e; cases e; exact hc' o rfl

theorem sameKeys_newVal {h : KeyMem} (f : h.Fresh) (v : Val) : SameKeys h (h.newVal v).1 := by
  unfold newVal; split
  · exact sameKeys_alloc f (by intro o e; cases e)
  · exact SameKeys.refl h

theorem parseSlots_ok {r : Reg} {allow : Bool} {e : SDict} {h h' : KeyMem} {acc t : SDict} (ok : h.Ok) (hp : parseSlots r allow h acc e = .ok (h', t)) :
    h'.Ok ∧ SameKeys h h' := by
  induction e generalizing h acc with
  | nil => cases hp; exact ⟨ok, SameKeys.refl _⟩
  | cons p e ih =>
    obtain ⟨k, s⟩ := p
    simp only [parseSlots] at hp
    split at hp
    · cases hp
    · split at hp
      · cases hp
      · split at hp
        · obtain ⟨h1, h2⟩ := ih (ok_newVal ok _) hp
          exact ⟨h1, (sameKeys_newVal ok.fresh _).trans h2⟩
        · exact ih ok hp
    · exact ih ok hp

/-- The lists in the result are those in the accumulator, those in the dictionary, and new ones. -/
theorem parseSlots_refs {r : Reg} {allow : Bool} {e : SDict} {h h' : KeyMem} {acc t : SDict} (hp : parseSlots r allow h acc e = .ok (h', t)) {l : Val} {a : Nat}
    (hm : (l, .ref a) ∈ t) : (∃ l', (l', .ref a) ∈ acc) ∨ (∃ l', (l', .ref a) ∈ e) ∨ h.next ≤ a := by
  induction e generalizing h acc with
  | nil => cases hp; exact .inl ⟨l, hm⟩
  | cons p e ih =>
    obtain ⟨k, s⟩ := p
    have keep : ∀ q, parseSlots r allow h (Cose.sset acc q s) e = .ok (h', t) → (∃ l', (l', .ref a) ∈ acc) ∨ (∃ l', (l', .ref a) ∈ (k, s) :: e) ∨ h.next ≤ a := by
      intro q hp
      rcases ih hp with ⟨l', h1⟩ | ⟨l', h1⟩ | h1
      · rcases mem_sset h1 with h2 | h2
        · exact .inl ⟨l', h2⟩
        · exact .inr (.inl ⟨k, by simp only at h2; rw [h2]; simp⟩)
      · exact .inr (.inl ⟨l', List.mem_cons_of_mem _ h1⟩)
      · exact .inr (.inr h1)
    simp only [parseSlots] at hp
    split at hp
    · cases hp
    · split at hp
      · cases hp
      · rename_i v _
        split at hp
        · rcases ih hp with ⟨l', h1⟩ | ⟨l', h1⟩ | h1
          · rcases mem_sset h1 with h2 | h2
            · exact .inl ⟨l', h2⟩
            · exact .inr (.inr (newVal_new (h := h) (v := v) (by simp only at h2; exact h2.symm)).1)
          · exact .inr (.inl ⟨l', List.mem_cons_of_mem _ h1⟩)
          · exact .inr (.inr (Nat.le_trans (newVal_ext h v).le h1))
        · exact keep _ hp
    · exact keep _ hp

theorem place_ok {t : SDict} {d : Dict} {h : KeyMem} (ok : h.Ok) : (place t h d).1.Ok ∧ SameKeys h (place t h d).1 := by
  induction d generalizing h with
  | nil => exact ⟨ok, SameKeys.refl h⟩
  | cons q d ih =>
    obtain ⟨l, v⟩ := q
    have new : (place t (h.newVal v).1 d).1.Ok ∧ SameKeys h (place t (h.newVal v).1 d).1 := by
      obtain ⟨h1, h2⟩ := ih (ok_newVal ok v)
      exact ⟨h1, (sameKeys_newVal ok.fresh v).trans h2⟩
    simp only [place]
    split
    · split
      · exact ih ok
      · exact new
    · exact new

theorem SlotsOk.sdel {h : KeyMem} {e : SDict} (hs : h.SlotsOk e) (k : Val) : h.SlotsOk (Cose.sdel e k) := fun p hp => hs p (mem_sdel hp)

theorem sget_sdel {e : SDict} {k q : Val} {s : Slot} (hk : keq k q = false) (h : sget (Cose.sdel e k) q = some s) : sget e q = some s := by
  induction e with
  | nil => simp [Cose.sdel, sget] at h
  | cons p t ih =>
    obtain ⟨l, v⟩ := p
    simp only [Cose.sdel] at h
    split at h
    · rename_i hl
      rw [sget, if_neg (by rw [keq_congr_left hl]; simp [hk])]; exact h
    · simp only [sget] at h ⊢
      split at h
      · rename_i hl; simp only [hl, if_true]; exact h
      · rename_i hl; simp only [hl]; exact ih h

/-- A key was made. -/
structure Made (h h' : KeyMem) (key : Key) (k : Nat) (from_ src : Nat → Prop) : Prop where
  ok : h'.Ok
  ext : Ext h h'
  new : h.next ≤ k
  view : h'.view k = some key
  keys : ∀ k' o, h'.cell k' = some (.key o) → k' = k ∨ h.cell k' = some (.key o)
  ops : ∀ o e a, h'.cell k = some (.key o) → h'.cell o.store = some (.dict e) → (.cls KpKeyOps, .ref a) ∈ e →
    from_ a ∨ h.next ≤ a
  store : ∀ o e, h'.cell k = some (.key o) → h'.cell o.store = some (.dict e) → h.next ≤ o.store
  refs : ∀ o e l a, h'.cell k = some (.key o) → h'.cell o.store = some (.dict e) → (l, .ref a) ∈ e → src a ∨ h.next ≤ a

theorem finish_made {h : KeyMem} (ok : h.Ok) (key : Key) {t : SDict} (ht : h.SlotsOk t) :
    Made h (h.finish key t) key ((h.finish key t).next - 1) (fun a => (.cls KpKeyOps, .ref a) ∈ t) (fun a => ∃ l, (l, .ref a) ∈ t) := by
  let h1 := h.alloc (.dict t)
  let t' := if dget (h1.dictVal t) (.cls KpKeyOps) = some (.arr []) then Cose.sdel t (.cls KpKeyOps) else t
  let h2 := h1.put h.next (.dict t')
  let p := place t' h2 key.store
  let h3 := p.1.alloc (.dict p.2)
  have x1 : Ext h h1 := ext_alloc h _
  have ok1 : h1.Ok := ok_alloc_dict ok ht
  have ht1 : h1.SlotsOk t := ht.ext ok.fresh x1
  have ht' : h1.SlotsOk t' := by
    show h1.SlotsOk (if _ then _ else _)
    split
    · exact ht1.sdel _
    · exact ht1
  have c1 : h1.cell h.next = some (.dict t) := cell_alloc h _
  have ok2 : h2.Ok := ok_put_dict ok1 c1 ht'
  have x2 : Ext h h2 := ext_put x1 (Nat.le_refl _) _
  have ht2 : h2.SlotsOk t' := fun p hp => by show (h1.put _ _).slotOk _ = true; rw [slotOk_put_dict c1]; exact ht' p hp
  have s2 : SameKeys h h2 := (sameKeys_alloc ok.fresh (by intro o e; cases e)).trans (sameKeys_put (by intro o e; cases e) c1 (by intro o e; cases e))
  obtain ⟨x3, f3, sl3, d3, o3⟩ := place_spec (t := t') (d := key.store) ok2.fresh ht2
  obtain ⟨ok3, s3⟩ := place_ok (t := t') (d := key.store) ok2
  have ok4 : h3.Ok := ok_alloc_dict ok3 sl3
  have s4 : SameKeys p.1 h3 := sameKeys_alloc f3 (by intro o e; cases e)
  have x4 : Ext p.1 h3 := ext_alloc _ _
  let o : KeyCell := { kind := key.kind, store := p.1.next, extra := key.extra }
  have c4 : h3.cell p.1.next = some (.dict p.2) := cell_alloc _ _
  have hfin : h.finish key t = h3.alloc (.key o) := rfl
  have hn : (h.finish key t).next - 1 = h3.next := rfl
  have x5 : Ext h3 (h3.alloc (.key o)) := ext_alloc _ _
  have c5 : (h3.alloc (.key o)).cell p.1.next = some (.dict p.2) := alloc_old ok4.fresh c4
  have xall : Ext h h3 := (x2.trans x3).trans x4
  rw [hn, hfin]
  refine ⟨?_, xall.trans x5, xall.le, ?_, ?_, ?_, ?_, ?_⟩
  · refine ok_alloc ok4 (fun e he => by cases he) (fun o' ho' => ?_)
    cases ho'
    refine ⟨⟨_, c4⟩, fun k o'' hk hs => ?_⟩
    have := (s4 k o'').mp hk
    obtain ⟨e, he⟩ := ok3.store k o'' this
    have hlt : o''.store < p.1.next := ok3.fresh.lt (by rw [he]; simp)
    have : o''.store = p.1.next := hs
    omega
  · simp only [KeyMem.view, cell_alloc]
    show (match (h3.alloc (.key o)).cell p.1.next with | some (.dict e) => some ({ kind := o.kind, store := (h3.alloc (.key o)).dictVal e, extra := o.extra } : Key) | _ => none) = _
    rw [c5]
    simp only []
    rw [dictVal_ext f3 (x4.trans x5) sl3, d3]
  · intro k' o' hk'
    rcases alloc_cases hk' with ⟨e, _⟩ | e
    · exact .inl e
    · exact .inr ((s2 k' o').mp ((s3 k' o').mp ((s4 k' o').mp e)))
  · intro o' e a ho' he ha
    rw [cell_alloc] at ho'
    cases ho'
    have he' : (h3.alloc (.key o)).cell p.1.next = some (.dict e) := he
    rw [c5] at he'
    cases he'
    rcases o3 _ ha with ⟨s, h5, h6⟩ | h5
    · left
      simp only at h6
      rw [← h6] at h5
      have : sget t' (.cls KpKeyOps) = some (.ref a) := h5
      obtain ⟨l, hl, hm'⟩ := sget_mem this
      rw [keq_cls_right] at hl
      subst hl
      revert hm'
      show _ ∈ (if _ then _ else _) → _
      split
      · exact mem_sdel
      · exact id
    · exact .inr (Nat.le_trans x2.le (h5 a rfl))
  · intro o' e ho' _
    rw [cell_alloc] at ho'
    cases ho'
    exact Nat.le_trans x2.le x3.le
  · intro o' e l a ho' he ha
    rw [cell_alloc] at ho'
    cases ho'
    have he' : (h3.alloc (.key o)).cell p.1.next = some (.dict e) := he
    rw [c5] at he'
    cases he'
    rcases o3 _ ha with ⟨s, h5, h6⟩ | h5
    · left
      simp only at h6
      rw [← h6] at h5
      obtain ⟨l', _, hm'⟩ := sget_mem h5
      refine ⟨l', ?_⟩
      revert hm'
      show _ ∈ (if _ then _ else _) → _
      split
      · exact mem_sdel
      · exact id
    · exact .inr (Nat.le_trans x2.le (h5 a rfl))

end KeyMem

/-- All keys it may return are of this class. -/
def OfKind (kd : Kind) (r : Res Key) : Prop := ∀ k, r = .ok k → k.kind = kd

theorem ofKind_ok (kd : Kind) (s x : Dict) : OfKind kd (.ok { kind := kd, store := s, extra := x }) := fun _ h => by cases h; rfl
theorem ofKind_error (kd : Kind) (e : PyErr) : OfKind kd (.error e) := fun _ h => by cases h
theorem ofKind_bind {kd : Kind} {α : Type} {x : Res α} {f : α → Res Key} (h : ∀ a, OfKind kd (f a)) : OfKind kd (x >>= f) :=
  fun k hk => by obtain ⟨a, _, h1⟩ := bind_eq_ok.mp hk; exact h a k h1

/-- A key that was made went through the loop. -/
theorem symInit_loop {kv : Val} {opt : Dict} {allow : Bool} {key : Key} (h : symInit kv opt allow = .ok key) :
    key.kind = .sym ∧ ∃ s, initStore .sym opt allow = .ok s := by
  simp only [symInit, bind_eq_ok] at h
  obtain ⟨s, hs, h⟩ := h
  split at h
  · cases h
  · simp only [bind_eq_ok] at h
    obtain ⟨_, _, h⟩ := h
    cases h
    exact ⟨rfl, s, hs⟩

theorem ec2Init_loop {C : Crypto} {crv x y d : Val} {opt : Dict} {allow : Bool} {key : Key} (h : ec2Init C crv x y d opt allow = .ok key) :
    key.kind = .ec2 ∧ ∃ s, initStore .ec2 opt allow = .ok s := by
  obtain ⟨s, hs, h'⟩ := bind_eq_ok.mp h
  refine ⟨?_, s, hs⟩
  have : OfKind .ec2 (ec2Init C crv x y d opt allow) := by
    unfold ec2Init
    repeat' first | exact ofKind_ok _ _ _ | exact ofKind_error _ _ | (refine ofKind_bind fun _ => ?_) | split | (simp only [])
  exact this key h

theorem okpInit_loop {crv x d : Val} {opt : Dict} {allow : Bool} {key : Key} (h : okpInit crv x d opt allow = .ok key) :
    key.kind = .okp ∧ ∃ s, initStore .okp opt allow = .ok s := by
  obtain ⟨s, hs, h'⟩ := bind_eq_ok.mp h
  refine ⟨?_, s, hs⟩
  have : OfKind .okp (okpInit crv x d opt allow) := by
    unfold okpInit
    repeat' first | exact ofKind_ok _ _ _ | exact ofKind_error _ _ | (refine ofKind_bind fun _ => ?_) | split | (simp only [])
  exact this key h

theorem rsaInit_loop {a : RsaArgs} {opt : Dict} {allow : Bool} {key : Key} (h : rsaInit a opt allow = .ok key) :
    key.kind = .rsa ∧ ∃ s, initStore .rsa opt allow = .ok s := by
  simp only [rsaInit, bind_eq_ok] at h
  obtain ⟨_, _, h⟩ := h
  split at h
  · cases h
  · simp only [bind_eq_ok] at h
    obtain ⟨s, hs, _, _, _, _, _, _, _, _, _, _, _, _, _, _, _, _, h⟩ := h
    cases h
    exact ⟨rfl, s, hs⟩

theorem maker_loop {C : Crypto} {m : Maker} {opt : Dict} {allow : Bool} {key : Key} (h : m.run C opt allow = .ok key) :
    ∃ s, initStore key.kind opt allow = .ok s := by
  cases m with
  | sym k => obtain ⟨e, h⟩ := symInit_loop h; rw [e]; exact h
  | ec2 crv x y d => obtain ⟨e, h⟩ := ec2Init_loop h; rw [e]; exact h
  | okp crv x d => obtain ⟨e, h⟩ := okpInit_loop h; rw [e]; exact h
  | rsa a => obtain ⟨e, h⟩ := rsaInit_loop h; rw [e]; exact h

theorem fromDict_loop {C : Crypto} {d : Dict} {key : Key} (h : fromDict C d = .ok key) :
    ∃ s, initStore key.kind ((dropped key.kind).foldl remove d) true = .ok s := by
  have main : ∀ kd, kindFromDict C kd d = .ok key → ∃ s, initStore key.kind ((dropped key.kind).foldl remove d) true = .ok s := by
    intro kd h
    cases kd with
    | sym => obtain ⟨e, h⟩ := symInit_loop h; rw [e]; exact h
    | ec2 => obtain ⟨e, h⟩ := ec2Init_loop h; rw [e]; exact h
    | okp => obtain ⟨e, h⟩ := okpInit_loop h; rw [e]; exact h
    | rsa => obtain ⟨e, h⟩ := rsaInit_loop h; rw [e]; exact h
  unfold fromDict at h
  split at h
  · obtain ⟨kd, _, h⟩ := bind_eq_ok.mp h; exact main kd h
  · split at h
    · obtain ⟨kd, _, h⟩ := bind_eq_ok.mp h; exact main kd h
    · split at h
      · obtain ⟨kd, _, h⟩ := bind_eq_ok.mp h; exact main kd h
      · cases h

namespace KeyMem

theorem build_made {h : KeyMem} (ok : h.Ok) {key : Key} {e : SDict} {allow : Bool} (he : h.SlotsOk e) {s : Dict}
    (hi : initStore key.kind (h.dictVal e) allow = .ok s) :
    ∃ h' k, h.build key e allow = (h', .ok (some k)) ∧ Made h h' key k (fun _ => False) (fun a => ∃ l, (l, .ref a) ∈ e) := by
  simp only [initStore, bind_eq_ok] at hi
  obtain ⟨t, ht, _⟩ := hi
  have hk : h.SlotsOk [(.cls KpKty, .imm (.cls (kindKty key.kind)))] := by intro p hp; simp at hp; subst hp; rfl
  have sim := parseSlots_sim (r := kindReg key.kind) (allow := allow) ok.fresh hk he
  simp only [build]
  cases hp : parseSlots (kindReg key.kind) allow h [(.cls KpKty, .imm (.cls (kindKty key.kind)))] e with
  | error x =>
    rw [hp] at sim
    have : parseAttrs (kindReg key.kind) allow simpleParser [(.cls KpKty, .cls (kindKty key.kind))] (h.dictVal e) = .error x := sim
    rw [this] at ht; cases ht
  | ok q =>
    obtain ⟨h1, t'⟩ := q
    rw [hp] at sim
    obtain ⟨_, x1, _, sl, o1⟩ := sim
    obtain ⟨ok1, s1⟩ := parseSlots_ok ok hp
    have m := finish_made ok1 key sl
    refine ⟨_, _, rfl, m.ok, x1.trans m.ext, Nat.le_trans x1.le m.new, m.view, ?_, ?_, ?_, ?_⟩
    · intro k' o hk'
      rcases m.keys k' o hk' with h2 | h2
      · exact .inl h2
      · exact .inr ((s1 k' o).mp h2)
    · intro o d a h2 h3 h4
      rcases m.ops o d a h2 h3 h4 with h5 | h5
      · rcases o1 a h5 with h6 | h6
        · simp at h6
        · exact .inr h6
      · exact .inr (Nat.le_trans x1.le h5)
    · exact fun o d h2 h3 => Nat.le_trans x1.le (m.store o d h2 h3)
    · intro o d l a h2 h3 h4
      rcases m.refs o d l a h2 h3 h4 with ⟨l', h5⟩ | h5
      · rcases parseSlots_refs hp h5 with ⟨l2, h6⟩ | h6 | h6
        · simp at h6
        · exact .inl h6
        · exact .inr h6
      · exact .inr (Nat.le_trans x1.le h5)

end KeyMem

end Cose
