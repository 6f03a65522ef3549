import Verif.KeyHeapLemmas
import Verif.Props.KeyTwice
/-!
# C97: who sees a change of a COSE key

Property C97: a COSE key has its own dictionary and its own list of operations.  Constructing a key, or making one from a dictionary or another key, leaves the
arguments as they are; the key's list of operations is a new list, so that later changes of the arguments do not change what the key may be used for.  A write on
a key changes no other key.  The list that `key.key_ops` returns is the key's own list, unless the key has none.  This fails in three ways: a list for another
parameter is shared by the dictionary and all keys made from it; changes of the list `key.key_ops` are not checked; and those of the list returned for a key
without operations are lost.
-/
set_option autoImplicit false
namespace Cose

/-! ### Vocabulary -/

/-- A memory some program can reach. -/
def Spec.KeysReached (C : Crypto) (h : KeyMem) : Prop := ∃ p, h = KeyMem.run C p KeyMem.start

/-- The objects a key consists of: itself, its store, and the lists in it. -/
def Spec.keyParts (h : KeyMem) (k : Nat) : List Nat :=
  match h.cell k with
  | some (.key o) =>
    match h.cell o.store with
    | some (.dict e) => k :: o.store :: e.filterMap fun p => match p.2 with | .ref a => some a | .imm _ => none
    | _ => [k]
  | _ => [k]

/-- The list object a key has as its list of operations. -/
def Spec.operations (h : KeyMem) (k : Nat) : Option Nat :=
  match h.cell k with
  | some (.key o) =>
    match h.cell o.store with
    | some (.dict e) =>
      match sget e (.cls KpKeyOps) with
      | some (.ref a) => some a
      | _ => none
    | _ => none
  | _ => none

/-- The list object a key has under a label. -/
def Spec.listAt (h : KeyMem) (k : Nat) (label : Val) : Option Nat :=
  match h.cell k with
  | some (.key o) =>
    match h.cell o.store with
    | some (.dict e) =>
      match sget e label with
      | some (.ref a) => some a
      | _ => none
    | _ => none
  | _ => none

/-- The object an operation changes in place: for a write on a key this is its store. -/
def Spec.target (h : KeyMem) : Cose.KeyOp → Option Nat
  | .writeList a _ | .writeDict a _ => some a
  | .setOps k _ | .setItem k _ _ | .write k _ =>
    match h.cell k with
    | some (.key o) => some o.store
    | _ => none
  | _ => none

/-- The operation does not put a list object of the program in the place of a key's list of operations, by `key[KpKeyOps] = l` or by a change of `key.store`. -/
def Spec.Careful (h : KeyMem) : Cose.KeyOp → Prop
  | .setItem k label (.ref _) => ∀ o, h.cell k = some (.key o) → fromIdKey (kindReg o.kind) label true ≠ .ok (.cls KpKeyOps)
  | .writeDict a _ => ∀ k o, h.cell k = some (.key o) → o.store ≠ a
  | _ => True

/-- The memories reached by careful programs. -/
inductive Spec.CarefulHistory (C : Crypto) : KeyMem → Prop
  | start : Spec.CarefulHistory C KeyMem.start
  | step {h : KeyMem} (op : Cose.KeyOp) : Spec.CarefulHistory C h → Spec.Careful h op → Spec.CarefulHistory C (h.step C op).1

/-! ### Helpers -/

namespace KeyMem

/-- What the loop of the `key_ops` setters does on objects and on values. -/
def OpsSpec (h : KeyMem) (o : KeyCell) (v : Val) (e : SDict) (xs : List Val) : Prop :=
  (h.opsLoop o v xs).1.Ok ∧ (∀ a, a < h.next → a ≠ o.store → (h.opsLoop o v xs).1.cell a = h.cell a) ∧
  SameKeys h (h.opsLoop o v xs).1 ∧
  (∃ e', (h.opsLoop o v xs).1.cell o.store = some (.dict e') ∧
    (h.opsLoop o v xs).1.dictVal e' = (keyOpsLoop v { kind := o.kind, store := h.dictVal e, extra := o.extra } xs).1.store ∧
    (e' = e ∧ (xs = [] ∨ ∃ x, (h.opsLoop o v xs).2 = .error x) ∨ ∃ a, sget e' (.cls KpKeyOps) = some (.ref a) ∧ h.next ≤ a) ∧
    ∀ a, (.cls KpKeyOps, .ref a) ∈ e' → (.cls KpKeyOps, .ref a) ∈ e ∨ h.next ≤ a) ∧
  (h.opsLoop o v xs).2 = (keyOpsLoop v { kind := o.kind, store := h.dictVal e, extra := o.extra } xs).2.map (fun _ => none) ∧
  h.next ≤ (h.opsLoop o v xs).1.next

theorem opsLoop_spec {o : KeyCell} {v : Val} {xs : List Val} {h : KeyMem} {k : Nat} {e : SDict} (ok : h.Ok) (hk : h.cell k = some (.key o))
    (he : h.cell o.store = some (.dict e)) : OpsSpec h o v e xs := by
  induction xs generalizing h e with
  | nil => exact ⟨ok, fun _ _ _ => rfl, SameKeys.refl h, ⟨e, he, rfl, .inl ⟨rfl, .inl rfl⟩, fun _ h => .inl h⟩, rfl, Nat.le_refl _⟩
  | cons x xs ih =>
    have same : ∀ r, h.opsLoop o v (x :: xs) = (h, .error r) →
        keyOpsLoop v { kind := o.kind, store := h.dictVal e, extra := o.extra } (x :: xs) = ({ kind := o.kind, store := h.dictVal e, extra := o.extra }, .error r) →
        OpsSpec h o v e (x :: xs) :=
      fun r h1 h2 => by
        unfold OpsSpec
        rw [h1, h2]
        exact ⟨ok, fun _ _ _ => rfl, SameKeys.refl h, ⟨e, he, rfl, .inl ⟨rfl, .inr ⟨r, rfl⟩⟩, fun _ h => .inl h⟩, rfl, Nat.le_refl _⟩
    cases hs : supportedBy o.kind x with
    | error r => exact same r (by simp only [opsLoop, hs]) (by simp only [keyOpsLoop, hs])
    | ok b =>
      cases b with
      | false => exact same .illegalKeyOps (by simp only [opsLoop, hs]) (by simp only [keyOpsLoop, hs])
      | true =>
        by_cases hv : ∃ l, v = .arr l
        · obtain ⟨l, rfl⟩ := hv
          cases hl : fromIdL .op l with
          | error r =>
            exact same r (by simp only [opsLoop, hs, hl]) (by simp only [keyOpsLoop, hs, Key.setKeyOpsBase, hl, Bind.bind, Except.bind])
          | ok l' =>
            let h1 := h.alloc (.list l')
            let h2 := h1.put o.store (.dict (sset e (.cls KpKeyOps) (.ref h.next)))
            have ok1 : h1.Ok := ok_alloc_list ok l'
            have x1 : Ext h h1 := ext_alloc h _
            have he1 : h1.cell o.store = some (.dict e) := alloc_old ok.fresh he
            have sl1 : h1.SlotsOk e := ok1.slots _ _ he1
            have hn : h1.slotOk (.ref h.next) = true := by simp only [slotOk]; rw [show h1.cell h.next = some (.list l') from cell_alloc h _]
            have ok2 : h2.Ok := ok_put_dict ok1 he1 (sl1.sset hn _)
            have sk : SameKeys h h2 := (sameKeys_alloc ok.fresh (by intro o e; cases e)).trans
              (sameKeys_put (by intro o e; cases e) he1 (by intro o e; cases e))
            have hk2 : h2.cell k = some (.key o) := (sk k o).mpr hk
            have he2 : h2.cell o.store = some (.dict (sset e (.cls KpKeyOps) (.ref h.next))) := cell_put_same
            have hval : h2.dictVal (sset e (.cls KpKeyOps) (.ref h.next)) = dset (h.dictVal e) (.cls KpKeyOps) (.arr l') := by
              show (h1.put _ _).dictVal _ = _
              rw [dictVal_put_dict he1, dictVal_sset, dictVal_ext ok.fresh x1 (ok.slots _ _ he)]
              simp only [val, show h1.cell h.next = some (.list l') from cell_alloc h _]
            have hloop : h.opsLoop o (.arr l) (x :: xs) = h2.opsLoop o (.arr l) xs := by
              simp only [opsLoop, hs, hl, he]; rfl
            have hloop' : keyOpsLoop (.arr l) { kind := o.kind, store := h.dictVal e, extra := o.extra } (x :: xs) =
                keyOpsLoop (.arr l) { kind := o.kind, store := h2.dictVal (sset e (.cls KpKeyOps) (.ref h.next)), extra := o.extra } xs := by
              simp only [keyOpsLoop, hs, Key.setKeyOpsBase, hl, Bind.bind, Except.bind, hval]
            obtain ⟨i1, i2, i3, ⟨e', i4, i5, i6, i9⟩, i7, i8⟩ := ih ok2 hk2 he2
            unfold OpsSpec
            rw [hloop, hloop']
            have hnext : h2.next = h.next + 1 := rfl
            refine ⟨i1, fun a ha hne => ?_, sk.trans i3, ⟨e', i4, i5, .inr ?_, fun a ha => ?_⟩, i7, by omega⟩
            · rw [i2 a (by omega) hne]
              show (h1.put _ _).cell a = _
              rw [cell_put_other hne, x1.same a ha]
            · rcases i6 with ⟨rfl, _⟩ | ⟨a, ha, hle⟩
              · exact ⟨h.next, by rw [sget_sset]; simp, Nat.le_refl _⟩
              · exact ⟨a, ha, by omega⟩
            · rcases i9 a ha with h5 | h5
              · rcases mem_sset_label h5 with h6 | ⟨_, h6⟩
                · exact .inl h6
                · cases h6; exact .inr (Nat.le_refl _)
              · exact .inr (by omega)
        · have h1 : h.opsLoop o v (x :: xs) = (h, .error .valueError) := by
            simp only [opsLoop, hs]; cases v <;> first | rfl | exact absurd ⟨_, rfl⟩ hv
          refine same _ h1 ?_
          simp only [keyOpsLoop, hs, Key.setKeyOpsBase]
          cases v <;> first | rfl | exact absurd ⟨_, rfl⟩ hv

/-- What a write on the key does to the objects. -/
structure Wrote (h h' : KeyMem) (o : KeyCell) (e : SDict) (store : Dict) : Prop where
  ok : h'.Ok
  same : ∀ a, a < h.next → a ≠ o.store → h'.cell a = h.cell a
  keys : SameKeys h h'
  le : h.next ≤ h'.next
  written : ∃ e', h'.cell o.store = some (.dict e') ∧ h'.dictVal e' = store

/-- What the `key_ops` setters do on objects and on values. -/
def SetSpec (h : KeyMem) (o : KeyCell) (v : Val) (e : SDict) : Prop :=
  Wrote h (h.setOps o v).1 o e (Key.setKeyOps { kind := o.kind, store := h.dictVal e, extra := o.extra } v).1.store ∧
  (h.setOps o v).2 = (Key.setKeyOps { kind := o.kind, store := h.dictVal e, extra := o.extra } v).2.map (fun _ => none) ∧
  ∀ e', (h.setOps o v).1.cell o.store = some (.dict e') →
    (e' = e ∧ (v = .arr [] ∨ (∀ l, v ≠ .arr l) ∨ ∃ x, (h.setOps o v).2 = .error x) ∨ ∃ a, sget e' (.cls KpKeyOps) = some (.ref a) ∧ h.next ≤ a) ∧
    ∀ a, (.cls KpKeyOps, .ref a) ∈ e' → (.cls KpKeyOps, .ref a) ∈ e ∨ h.next ≤ a

theorem setOps_spec {o : KeyCell} {v : Val} {h : KeyMem} {k : Nat} {e : SDict} (ok : h.Ok) (hk : h.cell k = some (.key o))
    (he : h.cell o.store = some (.dict e)) : SetSpec h o v e := by
  have loop : ∀ xs, OpsSpec h o v e xs → h.setOps o v = h.opsLoop o v xs →
      Key.setKeyOps { kind := o.kind, store := h.dictVal e, extra := o.extra } v = keyOpsLoop v { kind := o.kind, store := h.dictVal e, extra := o.extra } xs →
      (xs = [] → v = .arr [] ∨ ∀ l, v ≠ .arr l) → SetSpec h o v e := fun xs s h1 h2 h3 => by
    unfold SetSpec
    obtain ⟨s1, s2, s3, ⟨e', s4, s5, s6, s9⟩, s7, s8⟩ := s
    rw [h1, h2]
    refine ⟨⟨s1, s2, s3, s8, e', s4, s5⟩, s7, fun e2 h4 => ?_⟩
    rw [s4] at h4
    cases h4
    refine ⟨?_, s9⟩
    rcases s6 with ⟨h5, h6 | h6⟩ | h5
    · exact .inl ⟨h5, (h3 h6).elim .inl (fun h => .inr (.inl h))⟩
    · exact .inl ⟨h5, .inr (.inr h6)⟩
    · exact .inr h5
  have same : ∀ r : Res (Option Nat), (∀ l, v ≠ .arr l) → h.setOps o v = (h, r) →
      (Key.setKeyOps { kind := o.kind, store := h.dictVal e, extra := o.extra } v).1 = { kind := o.kind, store := h.dictVal e, extra := o.extra } →
      (Key.setKeyOps { kind := o.kind, store := h.dictVal e, extra := o.extra } v).2.map (fun _ => none) = r → SetSpec h o v e := fun r hv h1 h2 h3 => by
    unfold SetSpec
    rw [h1, h2, h3]
    exact ⟨⟨ok, fun _ _ _ => rfl, SameKeys.refl h, Nat.le_refl _, e, he, rfl⟩, rfl, fun e2 h4 => by rw [he] at h4; cases h4; exact ⟨.inl ⟨rfl, .inr (.inl hv)⟩, fun _ h => .inl h⟩⟩
  cases v with
  | arr l => exact loop l (opsLoop_spec ok hk he) rfl rfl (fun h => .inl (by rw [h]))
  | map l => exact loop (l.map (·.1)) (opsLoop_spec ok hk he) rfl rfl (fun _ => .inr (by simp))
  | bytes b => exact loop (b.map fun x => .int x.toNat) (opsLoop_spec ok hk he) rfl rfl (fun _ => .inr (by simp))
  | text b => cases b <;> exact same _ (by simp) rfl rfl rfl
  | _ => exact same _ (by simp) rfl rfl rfl

theorem entries_ok {h : KeyMem} (ok : h.Ok) {a : Nat} {e : SDict} (he : h.entries a = some e) : h.SlotsOk e := by
  unfold entries at he
  split at he
  · rename_i h1; cases he; exact ok.slots _ _ h1
  · split at he
    · rename_i h1; cases he; exact ok.slots _ _ h1
    · cases he
  · cases he

/-- Making a key. -/
theorem construct_made {C : Crypto} {h : KeyMem} (ok : h.Ok) {m : Maker} {opt : Nat} {allow : Bool} {e : SDict} {key : Key}
    (ho : h.cell opt = some (.dict e)) (hr : m.run C (h.dictVal e) allow = .ok key) :
    ∃ h' k, h.step C (.construct m opt allow) = (h', .ok (some k)) ∧ Made h h' key k (fun _ => False) (fun b => ∃ l, (l, .ref b) ∈ e) := by
  obtain ⟨s, hs⟩ := maker_loop hr
  have := build_made ok (ok.slots _ _ ho) hs
  simpa only [step, ho, hr] using this

theorem fromDict_made {C : Crypto} {h : KeyMem} (ok : h.Ok) {a : Nat} {e : SDict} {key : Key}
    (ha : h.entries a = some e) (hr : Cose.fromDict C (h.dictVal e) = .ok key) :
    ∃ h' k, h.step C (.fromDict a) = (h', .ok (some k)) ∧ Made h h' key k (fun _ => False) (fun b => ∃ l, (l, .ref b) ∈ e) := by
  obtain ⟨s, hs⟩ := fromDict_loop hr
  let h1 := h.alloc (.dict e)
  let e' := (dropped key.kind).foldl sremove e
  let h2 := h1.put h.next (.dict e')
  have sl : h.SlotsOk e := entries_ok ok ha
  have sl' : h.SlotsOk e' := fun p hp => sl p (mem_sremoves hp)
  have x1 : Ext h h1 := ext_alloc h _
  have ok1 : h1.Ok := ok_alloc_dict ok sl
  have c1 : h1.cell h.next = some (.dict e) := cell_alloc h _
  have ok2 : h2.Ok := ok_put_dict ok1 c1 (sl'.ext ok.fresh x1)
  have x2 : Ext h h2 := ext_put x1 (Nat.le_refl _) _
  have sk : SameKeys h h2 := (sameKeys_alloc ok.fresh (by intro o e; cases e)).trans (sameKeys_put (by intro o e; cases e) c1 (by intro o e; cases e))
  have hs2 : initStore key.kind (h2.dictVal e') true = .ok s := by
    rw [dictVal_ext ok.fresh x2 sl', dictVal_sremoves]; exact hs
  obtain ⟨h', k, hb, hm⟩ := build_made ok2 (sl'.ext ok.fresh x2) hs2
  refine ⟨h', k, by simp only [step, ha, hr]; exact hb, hm.ok, x2.trans hm.ext, Nat.le_trans x2.le hm.new, hm.view, fun k' o hk' => ?_, fun o d a h3 h4 h5 => ?_,
    fun o d h3 h4 => Nat.le_trans x2.le (hm.store o d h3 h4), fun o d l a h3 h4 h5 => ?_⟩
  · exact (hm.keys k' o hk').elim .inl (fun h => .inr ((sk k' o).mp h))
  · exact (hm.ops o d a h3 h4 h5).elim False.elim (fun h => .inr (Nat.le_trans x2.le h))
  · exact (hm.refs o d l a h3 h4 h5).elim (fun ⟨l', h⟩ => .inl ⟨l', mem_sremoves h⟩) (fun h => .inr (Nat.le_trans x2.le h))

theorem all_slots {h : KeyMem} {e : SDict} (he : e.all (fun p => h.slotOk p.2) = true) : h.SlotsOk e := fun p hp => by
  rw [List.all_eq_true] at he; exact he p hp

theorem delBase_keeps {key key' : Key} {q : Val} (h : key.delBase q = .ok key') : key'.kind = key.kind ∧ key'.extra = key.extra := by
  simp only [Key.delBase, bind_eq_ok] at h
  obtain ⟨a, _, h⟩ := h
  split at h
  · cases h; exact ⟨rfl, rfl⟩
  · cases h

theorem write_keeps (key : Key) (w : KeyWrite) : (key.write w).1.kind = key.kind ∧ (key.write w).1.extra = key.extra := by
  have asg : ∀ r : Res Key, (∀ k', r = .ok k' → k'.kind = key.kind ∧ k'.extra = key.extra) →
      (key.assigned r).1.kind = key.kind ∧ (key.assigned r).1.extra = key.extra := by
    intro r h; cases r with
    | ok k' => exact h k' rfl
    | error e => exact ⟨rfl, rfl⟩
  cases w with
  | delItem q =>
    have main : (key.delItem q).1.kind = key.kind ∧ (key.delItem q).1.extra = key.extra := by
      have lift : ∀ q, ((match key.delBase q with | .ok k' => (k', (.ok () : Res Unit)) | .error e => (key, .error e)).1).kind = key.kind ∧
          ((match key.delBase q with | .ok k' => (k', (.ok () : Res Unit)) | .error e => (key, .error e)).1).extra = key.extra := by
        intro q
        split
        · rename_i h; exact delBase_keeps h
        · exact ⟨rfl, rfl⟩
      unfold Key.delItem
      dsimp only
      split
      · exact lift q
      · split
        · exact ⟨rfl, rfl⟩
        · split
          · exact lift q
          · exact ⟨rfl, rfl⟩
      · split
        · exact ⟨rfl, rfl⟩
        · split
          · split
            · exact ⟨rfl, rfl⟩
            · exact lift q
          · exact ⟨rfl, rfl⟩
      · split
        · exact ⟨rfl, rfl⟩
        · split
          · split
            · exact ⟨rfl, rfl⟩
            · split
              · exact ⟨rfl, rfl⟩
              · split
                · split
                  · exact ⟨rfl, rfl⟩
                  · rename_i h1
                    have k1 := delBase_keeps h1
                    split
                    · exact k1
                    · rename_i h2
                      have k2 := delBase_keeps h2
                      exact ⟨k2.1.trans k1.1, k2.2.trans k1.2⟩
                · exact lift q
          · exact ⟨rfl, rfl⟩
    simp only [Key.write]
    revert main
    rcases key.delItem q with ⟨k', r | e⟩ <;> exact id
  | setItem l v =>
    refine asg _ fun k' h => ?_
    simp only [Key.setItem, bind_eq_ok] at h
    obtain ⟨_, _, h⟩ := h; cases h; exact ⟨rfl, rfl⟩
  | setAlg v =>
    refine asg _ fun k' h => ?_
    simp only [Key.setAlg, bind_eq_ok] at h
    obtain ⟨_, _, h⟩ := h; cases h; exact ⟨rfl, rfl⟩
  | setKid v =>
    refine asg _ fun k' h => ?_
    simp only [Key.setKid, bind_eq_ok] at h
    obtain ⟨_, _, h⟩ := h; cases h; exact ⟨rfl, rfl⟩
  | setBaseIv v =>
    refine asg _ fun k' h => ?_
    simp only [Key.setBaseIv, bind_eq_ok] at h
    obtain ⟨_, _, h⟩ := h; cases h; exact ⟨rfl, rfl⟩
  | setK v =>
    refine asg _ fun k' h => ?_
    unfold Key.setK at h
    split at h
    · obtain ⟨_, _, h⟩ := bind_eq_ok.mp h; cases h; exact ⟨rfl, rfl⟩
    · cases h
  | setCrv v =>
    refine asg _ fun k' h => ?_
    unfold Key.setCrv at h
    split at h
    · obtain ⟨_, _, h⟩ := bind_eq_ok.mp h; cases h; exact ⟨rfl, rfl⟩
    · obtain ⟨_, _, h⟩ := bind_eq_ok.mp h; cases h; exact ⟨rfl, rfl⟩
    · cases h
  | setParam c v =>
    refine asg _ fun k' h => ?_
    unfold Key.setParam at h
    split at h
    · obtain ⟨_, _, h⟩ := bind_eq_ok.mp h; cases h; exact ⟨rfl, rfl⟩
    · cases h

/-- What the other writes do on objects and on values. -/
theorem write_spec (C : Crypto) {h : KeyMem} (ok : h.Ok) {k : Nat} {o : KeyCell} {e : SDict} (hk : h.cell k = some (.key o))
    (he : h.cell o.store = some (.dict e)) (w : KeyWrite) :
    Wrote h (h.step C (.write k w)).1 o e (Key.write { kind := o.kind, store := h.dictVal e, extra := o.extra } w).1.store ∧
    (h.step C (.write k w)).2 = (match (Key.write { kind := o.kind, store := h.dictVal e, extra := o.extra } w).2 with | none => .ok none | some x => .error x) ∧
    ∀ e' a, (h.step C (.write k w)).1.cell o.store = some (.dict e') → (.cls KpKeyOps, .ref a) ∈ e' →
      (.cls KpKeyOps, .ref a) ∈ e ∨ h.next ≤ a := by
  let key : Key := { kind := o.kind, store := h.dictVal e, extra := o.extra }
  let kept := match (key.write w).2, w.replaced o.kind with
    | none, some a => sdel e a
    | _, _ => e
  have hmem : ∀ p ∈ kept, p ∈ e := by
    intro p hp
    revert hp
    show p ∈ (match (key.write w).2, w.replaced o.kind with | none, some a => sdel e a | _, _ => e) → _
    split
    · exact mem_sdel
    · exact id
  have sl : h.SlotsOk e := ok.slots _ _ he
  have sl' : h.SlotsOk kept := fun p hp => sl p (hmem p hp)
  let p := place kept h (key.write w).1.store
  obtain ⟨x1, f1, sl1, d1, o1⟩ := place_spec (t := kept) (d := (key.write w).1.store) ok.fresh sl'
  obtain ⟨ok1, sk1⟩ := place_ok (t := kept) (d := (key.write w).1.store) ok
  have hlt : o.store < h.next := ok.fresh.lt (by rw [he]; simp)
  have he1 : p.1.cell o.store = some (.dict e) := by rw [x1.same _ hlt]; exact he
  have hv : h.view k = some key := by simp only [KeyMem.view, hk, he]; rfl
  have hst : h.step C (.write k w) = (p.1.put o.store (.dict p.2), match (key.write w).2 with | none => .ok none | some x => .error x) := by
    simp only [step, hv, hk, he]; rfl
  rw [hst]
  refine ⟨⟨ok_put_dict ok1 he1 sl1, fun a ha hne => ?_, sk1.trans (sameKeys_put (by intro o e; cases e) he1 (by intro o e; cases e)), x1.le, p.2, cell_put_same, ?_⟩,
    rfl, fun e' a h1 h2 => ?_⟩
  · rw [cell_put_other hne, x1.same a ha]
  · rw [dictVal_put_dict he1]; exact d1
  · rw [cell_put_same] at h1
    cases h1
    rcases o1 _ h2 with ⟨s, h3, h4⟩ | h3
    · simp only at h4
      rw [← h4] at h3
      obtain ⟨l, hl, hm'⟩ := sget_mem h3
      rw [keq_cls_right] at hl; subst hl
      exact .inl (hmem _ hm')
    · exact .inr (h3 a rfl)

/-- What one operation does: everything but its target stays, new objects are new, and the keys' lists of operations are old ones of the same key or new. -/
def StepSpec (C : Crypto) (h : KeyMem) (op : KeyOp) : Prop :=
  (h.step C op).1.Ok ∧ h.next ≤ (h.step C op).1.next ∧
  (∀ a, a < h.next → Spec.target h op ≠ some a → (h.step C op).1.cell a = h.cell a) ∧
  (∀ k o, h.cell k = some (.key o) → (h.step C op).1.cell k = some (.key o)) ∧
  (Spec.Careful h op → ∀ k o e a, (h.step C op).1.cell k = some (.key o) → (h.step C op).1.cell o.store = some (.dict e) → (.cls KpKeyOps, .ref a) ∈ e →
    h.next ≤ a ∨ ∃ e', h.cell k = some (.key o) ∧ h.cell o.store = some (.dict e') ∧ (.cls KpKeyOps, .ref a) ∈ e') ∧
  (∀ k k' o o' e e' a, (h.step C op).1.cell k = some (.key o) → (h.step C op).1.cell o.store = some (.dict e) → (.cls KpKeyOps, .ref a) ∈ e →
    (h.step C op).1.cell k' = some (.key o') → (h.step C op).1.cell o'.store = some (.dict e') → (.cls KpKeyOps, .ref a) ∈ e' → h.next ≤ a → k = k')

theorem step_spec (C : Crypto) {h : KeyMem} (ok : h.Ok) (op : KeyOp) : StepSpec C h op := by
  have oldRef : ∀ b e a, h.cell b = some (.dict e) → (.cls KpKeyOps, .ref a) ∈ e → a < h.next := fun b e a h1 h2 => by
    have := ok.slots _ _ h1 _ h2
    exact ok.fresh.lt (fun e => by simp only [KeyMem.slotOk, e] at this; cases this)
  -- nothing happens
  have same : ∀ r, h.step C op = (h, r) → StepSpec C h op := fun r hr => by
    unfold StepSpec
    rw [hr]
    exact ⟨ok, Nat.le_refl _, fun _ _ _ => rfl, fun _ _ h => h, fun _ k o e a h1 h2 h3 => .inr ⟨e, h1, h2, h3⟩,
      fun k k' o o' e e' a _ h2 h3 _ _ _ h4 => absurd (oldRef _ _ _ h2 h3) (by omega)⟩
  -- a new list or dictionary
  have new : ∀ c, (∀ o, c ≠ .key o) → (h.alloc c).Ok → (h.step C op).1 = h.alloc c → StepSpec C h op := fun c hc okc hr => by
    unfold StepSpec
    rw [hr]
    have sk := sameKeys_alloc ok.fresh hc
    have x := ext_alloc h c
    refine ⟨okc, x.le, fun a ha _ => x.same a ha, fun k o h => (sk k o).mpr h, fun _ k o e a h1 h2 h3 => ?_, fun k k' o o' e e' a h1 h2 h3 _ _ _ h4 => ?_⟩
    · have h1' := (sk k o).mp h1
      obtain ⟨e', he'⟩ := ok.store k o h1'
      rw [x.same _ (ok.fresh.lt (by rw [he']; simp))] at h2
      exact .inr ⟨e, h1', h2, h3⟩
    · obtain ⟨e', he'⟩ := ok.store k o ((sk k o).mp h1)
      rw [x.same _ (ok.fresh.lt (by rw [he']; simp))] at h2
      exact absurd (oldRef _ _ _ h2 h3) (by omega)
  -- a new key
  have made : ∀ h' key k src, (h.step C op).1 = h' → Made h h' key k (fun _ => False) src → StepSpec C h op := fun h' key k _ hr m => by
    unfold StepSpec
    rw [hr]
    refine ⟨m.ok, m.ext.le, fun a ha _ => m.ext.same a ha, fun k o hk => ?_, fun _ k' o e a h1 h2 h3 => ?_, fun k1 k2 o1 o2 e1 e2 a h1 h2 h3 h4 h5 h6 h7 => ?_⟩
    · rw [m.ext.same _ (ok.fresh.lt (by rw [hk]; simp))]; exact hk
    · rcases m.keys k' o h1 with rfl | h4
      · exact .inl ((m.ops o e a h1 h2 h3).elim False.elim id)
      · obtain ⟨e', he'⟩ := ok.store k' o h4
        rw [m.ext.same _ (ok.fresh.lt (by rw [he']; simp))] at h2
        exact .inr ⟨e, h4, h2, h3⟩
    · have isNew : ∀ k' o e, h'.cell k' = some (.key o) → h'.cell o.store = some (.dict e) → (.cls KpKeyOps, .ref a) ∈ e → k' = k := fun k' o e g1 g2 g3 => by
        rcases m.keys k' o g1 with g | g
        · exact g
        · obtain ⟨e', he'⟩ := ok.store k' o g
          rw [m.ext.same _ (ok.fresh.lt (by rw [he']; simp))] at g2
          exact absurd (oldRef _ _ _ g2 g3) (by omega)
      rw [isNew k1 o1 e1 h1 h2 h3, isNew k2 o2 e2 h4 h5 h6]
  -- a write on a key
  have wrote : ∀ k0 o0 e0 d, h.cell k0 = some (.key o0) → h.cell o0.store = some (.dict e0) → Spec.target h op = some o0.store → Wrote h (h.step C op).1 o0 e0 d →
      (Spec.Careful h op → ∀ e a, (h.step C op).1.cell o0.store = some (.dict e) → (.cls KpKeyOps, .ref a) ∈ e → (.cls KpKeyOps, .ref a) ∈ e0 ∨ h.next ≤ a) → StepSpec C h op :=
    fun k0 o0 e0 d hk0 he0 ht w hops => by
    refine ⟨w.ok, w.le, fun a ha hne => w.same a ha (fun e => hne (by rw [ht, e])), fun k o h => (w.keys k o).mpr h, fun hc k o e a h1 h2 h3 => ?_,
      fun k k' o o' e e' a h1 h2 h3 h4 h5 h6 h7 => ?_⟩
    rotate_left
    · have isIt : ∀ k o e, (h.step C op).1.cell k = some (.key o) → (h.step C op).1.cell o.store = some (.dict e) → (.cls KpKeyOps, .ref a) ∈ e → k = k0 :=
        fun k o e g1 g2 g3 => by
        have g := (w.keys k o).mp g1
        obtain ⟨e', he'⟩ := ok.store k o g
        by_cases hs : o.store = o0.store
        · exact ok.own k k0 o o0 g hk0 hs
        · rw [w.same _ (ok.fresh.lt (by rw [he']; simp)) hs] at g2
          exact absurd (oldRef _ _ _ g2 g3) (by omega)
      rw [isIt k o e h1 h2 h3, isIt k' o' e' h4 h5 h6]
    have h1' := (w.keys k o).mp h1
    obtain ⟨e', he'⟩ := ok.store k o h1'
    by_cases hs : o.store = o0.store
    · have hkk := ok.own k k0 o o0 h1' hk0 hs
      rw [hs] at h2 he'
      rw [he0] at he'
      cases he'
      rcases hops hc e a h2 h3 with h4 | h4
      · exact .inr ⟨e0, h1', by rw [hs]; exact he0, h4⟩
      · exact .inl h4
    · rw [w.same _ (ok.fresh.lt (by rw [he']; simp)) hs] at h2
      exact .inr ⟨e, h1', h2, h3⟩
  cases op with
  | newList l => exact new _ (by intro o e; cases e) (ok_alloc_list ok l) rfl
  | newDict e =>
    by_cases he : e.all (fun p => h.slotOk p.2) = true
    · exact new (.dict e) (by intro o e; cases e) (ok_alloc_dict ok (all_slots he)) (by simp only [step, he, if_true])
    · exact same (.ok none) (by simp only [step, he]; rfl)
  | writeList a l =>
    cases ha : h.cell a with
    | none => exact same (.ok none) (by simp only [step, ha])
    | some c =>
      cases c with
      | dict _ => exact same (.ok none) (by simp only [step, ha])
      | key _ => exact same (.ok none) (by simp only [step, ha])
      | list l0 =>
        have hr : (h.step C (.writeList a l)).1 = h.put a (.list l) := by simp only [step, ha]
        unfold StepSpec
        rw [hr]
        have sk : SameKeys h (h.put a (.list l)) := sameKeys_put (by intro o e; cases e) ha (by intro o e; cases e)
        refine ⟨ok_put_list ok ha, Nat.le_refl _, fun b _ hb => cell_put_other (fun e => hb (by rw [e]; rfl)), fun k o h => (sk k o).mpr h,
          fun _ k o e b h1 h2 h3 => ?_, fun k k' o o' e e' b _ h2 h3 _ _ _ h4 => ?_⟩
        rotate_left
        · rcases put_cases h2 with ⟨_, h5⟩ | ⟨_, h5⟩
          · cases h5
          · exact absurd (oldRef _ _ _ h5 h3) (by omega)
        rcases put_cases h2 with ⟨_, h4⟩ | ⟨_, h4⟩
        · cases h4
        · exact .inr ⟨e, (sk k o).mp h1, h4, h3⟩
  | writeDict a e =>
    cases ha : h.cell a with
    | none => exact same (.ok none) (by simp only [step, ha])
    | some c =>
      cases c with
      | list _ => exact same (.ok none) (by simp only [step, ha])
      | key _ => exact same (.ok none) (by simp only [step, ha])
      | dict e0 =>
        by_cases he : e.all (fun p => h.slotOk p.2) = true
        · have hr : (h.step C (.writeDict a e)).1 = h.put a (.dict e) := by simp only [step, ha, he, if_true]
          unfold StepSpec
          rw [hr]
          have sk : SameKeys h (h.put a (.dict e)) := sameKeys_put (by intro o e; cases e) ha (by intro o e; cases e)
          refine ⟨ok_put_dict ok ha (all_slots he), Nat.le_refl _, fun b _ hb => cell_put_other (fun e => hb (by rw [e]; rfl)), fun k o h => (sk k o).mpr h,
            fun hc k o e b h1 h2 h3 => ?_, fun k k' o o' e1 e2 b _ h2 h3 _ _ _ h4 => ?_⟩
          rotate_left
          · rcases put_cases h2 with ⟨_, h5⟩ | ⟨_, h5⟩
            · cases h5
              have := all_slots he _ h3
              exact absurd (ok.fresh.lt (a := b) (fun e => by simp only [KeyMem.slotOk, e] at this; cases this)) (by omega)
            · exact absurd (oldRef _ _ _ h5 h3) (by omega)
          have h1' := (sk k o).mp h1
          rcases put_cases h2 with ⟨h4, _⟩ | ⟨_, h4⟩
          · exact absurd h4 (hc k o h1')
          · exact .inr ⟨e, h1', h4, h3⟩
        · exact same (.ok none) (by simp only [step, ha, he]; rfl)
  | construct m opt allow =>
    cases ha : h.cell opt with
    | none => exact same (.ok none) (by simp only [step, ha])
    | some c =>
      cases c with
      | list _ => exact same (.ok none) (by simp only [step, ha])
      | key _ => exact same (.ok none) (by simp only [step, ha])
      | dict e =>
        cases hr : m.run C (h.dictVal e) allow with
        | error x => exact same (.error x) (by simp only [step, ha, hr])
        | ok key =>
          obtain ⟨h', k, hs, hm⟩ := construct_made ok ha hr
          exact made h' key k _ (by rw [hs]) hm
  | fromDict a =>
    cases ha : h.entries a with
    | none => exact same (.ok none) (by simp only [step, ha])
    | some e =>
      cases hr : Cose.fromDict C (h.dictVal e) with
      | error x => exact same (.error x) (by simp only [step, ha, hr])
      | ok key =>
        obtain ⟨h', k, hs, hm⟩ := fromDict_made ok ha hr
        exact made h' key k _ (by rw [hs]) hm
  | getOps k =>
    cases hk : h.cell k with
    | none => exact same (.ok none) (by simp only [step, hk])
    | some c =>
      cases c with
      | list _ => exact same (.ok none) (by simp only [step, hk])
      | dict _ => exact same (.ok none) (by simp only [step, hk])
      | key o =>
        obtain ⟨e, he⟩ := ok.store k o hk
        cases hs : sget e (.cls KpKeyOps) with
        | none => exact new (.list []) (by intro o e; cases e) (ok_alloc_list ok []) (by simp only [step, hk, he, hs])
        | some s =>
          cases s with
          | imm v => exact same (.ok none) (by simp only [step, hk, he, hs])
          | ref a => exact same (.ok (some a)) (by simp only [step, hk, he, hs])
  | setOps k s =>
    cases hk : h.cell k with
    | none => exact same (.ok none) (by simp only [step, hk])
    | some c =>
      cases c with
      | list _ => exact same (.ok none) (by simp only [step, hk])
      | dict _ => exact same (.ok none) (by simp only [step, hk])
      | key o =>
        obtain ⟨e, he⟩ := ok.store k o hk
        by_cases hs : h.slotOk s = true
        · have hr : h.step C (.setOps k s) = h.setOps o (h.val s) := by simp only [step, hk, hs, if_true]
          obtain ⟨w, _, hops⟩ := setOps_spec (v := h.val s) ok hk he
          rw [← hr] at w hops
          exact wrote k o e _ hk he (by simp only [Spec.target, hk]) w (fun _ e' a h1 h2 => (hops e' h1).2 a h2)
        · exact same (.ok none) (by simp only [step, hk, hs]; rfl)
  | setItem k label s =>
    cases hk : h.cell k with
    | none => exact same (.ok none) (by simp only [step, hk])
    | some c =>
      cases c with
      | list _ => exact same (.ok none) (by simp only [step, hk])
      | dict _ => exact same (.ok none) (by simp only [step, hk])
      | key o =>
        obtain ⟨e, he⟩ := ok.store k o hk
        by_cases hs : h.slotOk s = true
        · cases hl : fromIdKey (kindReg o.kind) label true with
          | error x => exact same (.error x) (by simp only [step, hk, he, hs, hl, if_true])
          | ok a =>
            have hr : (h.step C (.setItem k label s)).1 = h.put o.store (.dict (sset e a s)) := by simp only [step, hk, he, hs, hl, if_true]
            refine wrote k o e (h.dictVal (sset e a s)) hk he (by simp only [Spec.target, hk]) ?_ ?_
            · rw [hr]
              exact ⟨ok_put_dict ok he ((ok.slots _ _ he).sset hs a), fun b _ hb => cell_put_other hb,
                sameKeys_put (by intro o e; cases e) he (by intro o e; cases e), Nat.le_refl _, _, cell_put_same, dictVal_put_dict he _⟩
            · intro hc e' b h1 h2
              rw [hr, cell_put_same] at h1
              cases h1
              rcases mem_sset_label h2 with h3 | ⟨h3, h4⟩
              · exact .inl h3
              · simp only at h4 h3
                subst h4
                rw [keq_cls_left] at h3
                exact absurd (by rw [hl, h3]) (hc o hk)
        · exact same (.ok none) (by simp only [step, hk, he, hs]; rfl)
  | write k w =>
    cases hk : h.cell k with
    | none => exact same (.ok none) (by simp only [step, hk])
    | some c =>
      cases c with
      | list _ => exact same (.ok none) (by simp only [step, hk])
      | dict _ => exact same (.ok none) (by simp only [step, hk])
      | key o =>
        obtain ⟨e, he⟩ := ok.store k o hk
        obtain ⟨w1, _, hops⟩ := write_spec C ok hk he w
        exact wrote k o e _ hk he (by simp only [Spec.target, hk]) w1 (fun _ e' a h1 h2 => hops e' a h1 h2)

theorem run_ok (C : Crypto) {h : KeyMem} (ok : h.Ok) (p : List KeyOp) : (run C p h).Ok := by
  induction p generalizing h with
  | nil => exact ok
  | cons op t ih => exact ih (step_spec C ok op).1

end KeyMem

theorem keysReached_ok {C : Crypto} {h : KeyMem} (hr : Spec.KeysReached C h) : h.Ok := by
  obtain ⟨p, rfl⟩ := hr; exact KeyMem.run_ok C KeyMem.ok_start p

theorem view_of {h : KeyMem} {k : Nat} {key : Key} (hv : h.view k = some key) :
    ∃ o e, h.cell k = some (.key o) ∧ h.cell o.store = some (.dict e) ∧ key = { kind := o.kind, store := h.dictVal e, extra := o.extra } := by
  unfold KeyMem.view at hv
  split at hv
  · rename_i o ho
    split at hv
    · rename_i e he; cases hv; exact ⟨o, e, ho, he, rfl⟩
    · cases hv
  · cases hv

theorem view_to {h : KeyMem} {k : Nat} {o : KeyCell} {e : SDict} (hk : h.cell k = some (.key o)) (he : h.cell o.store = some (.dict e)) :
    h.view k = some { kind := o.kind, store := h.dictVal e, extra := o.extra } := by
  simp only [KeyMem.view, hk, he]

theorem operations_of {h : KeyMem} {k a : Nat} (ho : Spec.operations h k = some a) :
    ∃ o e, h.cell k = some (.key o) ∧ h.cell o.store = some (.dict e) ∧ sget e (.cls KpKeyOps) = some (.ref a) := by
  unfold Spec.operations at ho
  split at ho
  · rename_i o hk
    split at ho
    · rename_i e he
      split at ho
      · rename_i b hs; cases ho; exact ⟨o, e, hk, he, hs⟩
      · cases ho
    · cases ho
  · cases ho

theorem operations_mem {h : KeyMem} {k a : Nat} (ho : Spec.operations h k = some a) :
    ∃ o e, h.cell k = some (.key o) ∧ h.cell o.store = some (.dict e) ∧ (.cls KpKeyOps, .ref a) ∈ e := by
  obtain ⟨o, e, h1, h2, h3⟩ := operations_of ho
  obtain ⟨l, hl, hm⟩ := sget_mem h3
  rw [keq_cls_right] at hl; subst hl
  exact ⟨o, e, h1, h2, hm⟩

theorem made_fresh {h h' : KeyMem} {key : Key} {k : Nat} {src : Nat → Prop} (ok : h.Ok) (m : KeyMem.Made h h' key k (fun _ => False) src) :
    h.cell k = none ∧ h'.view k = some key ∧ (∀ a, Spec.operations h' k = some a → h.cell a = none) ∧ (∀ a c, h.cell a = some c → h'.cell a = some c) ∧
    ∀ a ∈ Spec.keyParts h' k, h.cell a = none ∨ src a := by
  refine ⟨ok.fresh k m.new, m.view, fun a ha => ?_, fun a c hc => by rw [m.ext.same a (ok.fresh.lt (by rw [hc]; simp))]; exact hc, fun a ha => ?_⟩
  rotate_left
  · obtain ⟨o, e, hk, he, _⟩ := view_of m.view
    simp only [Spec.keyParts, hk, he, List.mem_cons, List.mem_filterMap] at ha
    rcases ha with h1 | h1 | ⟨p, hp, h1⟩
    · exact .inl (h1 ▸ ok.fresh k m.new)
    · left
      rw [h1]
      refine ok.fresh _ (Classical.byContradiction fun hlt => ?_)
      have hlt : o.store < h.next := by omega
      have hold := m.ext.same _ hlt
      rw [he] at hold
      exact absurd (m.store o e hk he) (by omega)
    · cases hs : p.2 with
      | imm v => simp [hs] at h1
      | ref b =>
        simp only [hs, Option.some.injEq] at h1
        subst h1
        rcases m.refs o e p.1 b hk he (by rw [← hs]; exact hp) with h2 | h2
        · exact .inr h2
        · exact .inl (ok.fresh b h2)
  obtain ⟨o, e, h1, h2, h3⟩ := operations_mem ha
  exact ok.fresh a ((m.ops o e a h1 h2 h3).elim False.elim id)

/-! ### C97 -/

/-- **C97**: constructors.  For every program, constructor and dictionary of optional parameters: the constructor raises what it raises for the current contents of
the dictionary, and then there is no change; or it returns a new key object with the value computed from these contents, all other objects are as before –
in particular the dictionary and the lists in it –, the key's list of operations is a new list, and the parts of the key are new objects or lists in the dictionary. -/
theorem c97_constructed {C : Crypto} {h : KeyMem} (hr : Spec.KeysReached C h) {m : Maker} {opt : Nat} {allow : Bool} {e : SDict} (ho : h.cell opt = some (.dict e)) :
    (∀ x, m.run C (h.dictVal e) allow = .error x → h.step C (.construct m opt allow) = (h, .error x)) ∧
    ∀ key, m.run C (h.dictVal e) allow = .ok key → ∃ h' k, h.step C (.construct m opt allow) = (h', .ok (some k)) ∧
      h.cell k = none ∧ h'.view k = some key ∧ (∀ a, Spec.operations h' k = some a → h.cell a = none) ∧ (∀ a c, h.cell a = some c → h'.cell a = some c) ∧
      ∀ a ∈ Spec.keyParts h' k, h.cell a = none ∨ ∃ l, (l, .ref a) ∈ e := by
  refine ⟨fun x hx => by simp only [KeyMem.step, ho, hx], fun key hk => ?_⟩
  obtain ⟨h', k, hs, hm⟩ := KeyMem.construct_made (keysReached_ok hr) ho hk
  exact ⟨h', k, hs, made_fresh (keysReached_ok hr) hm⟩

/-- **C97**: `CoseKey.from_dict` on a dictionary or on a key, in the same way.  Although it removes entries from its copy of the dictionary, the original keeps them. -/
theorem c97_from_dict {C : Crypto} {h : KeyMem} (hr : Spec.KeysReached C h) {a : Nat} {e : SDict} (ha : h.entries a = some e) :
    (∀ x, fromDict C (h.dictVal e) = .error x → h.step C (.fromDict a) = (h, .error x)) ∧
    ∀ key, fromDict C (h.dictVal e) = .ok key → ∃ h' k, h.step C (.fromDict a) = (h', .ok (some k)) ∧
      h.cell k = none ∧ h'.view k = some key ∧ (∀ b, Spec.operations h' k = some b → h.cell b = none) ∧ (∀ b c, h.cell b = some c → h'.cell b = some c) ∧
      ∀ b ∈ Spec.keyParts h' k, h.cell b = none ∨ ∃ l, (l, .ref b) ∈ e := by
  refine ⟨fun x hx => by simp only [KeyMem.step, ha, hx], fun key hk => ?_⟩
  obtain ⟨h', k, hs, hm⟩ := KeyMem.fromDict_made (keysReached_ok hr) ha hk
  exact ⟨h', k, hs, made_fresh (keysReached_ok hr) hm⟩

/-- **C97**: a key made from a key has the value `from_dict` computes from the value of the key (C96: for a constructed key this is the key itself, apart from the
further primes of RSA). -/
theorem c97_copy {C : Crypto} {h : KeyMem} (hr : Spec.KeysReached C h) {k : Nat} {key key' : Key} (hv : h.view k = some key)
    (hd : fromDict C key.store = .ok key') :
    ∃ h' k', h.step C (.fromDict k) = (h', .ok (some k')) ∧ k' ≠ k ∧ h'.view k' = some key' ∧ h'.view k = some key := by
  obtain ⟨o, e, hk, he, rfl⟩ := view_of hv
  have ha : h.entries k = some e := by simp only [KeyMem.entries, hk, he]
  obtain ⟨h', k', hs, h1, h2, _, h4, _⟩ := (c97_from_dict hr ha).2 key' hd
  refine ⟨h', k', hs, (fun e2 => by rw [e2, hk] at h1; cases h1), h2, ?_⟩
  have ok := keysReached_ok hr
  have x : ∀ p ∈ e, h'.val p.2 = h.val p.2 := fun p hp => by
    have := ok.slots _ _ he p hp
    revert this
    cases p.2 with
    | imm v => exact fun _ => rfl
    | ref b =>
      simp only [KeyMem.slotOk, KeyMem.val]
      cases hb : h.cell b with
      | none => simp
      | some c => rw [h4 b c hb]; simp
  rw [view_to (h4 _ _ hk) (h4 _ _ he)]
  simp only [KeyMem.dictVal]
  rw [List.map_congr_left fun p hp => by rw [x p hp]]

/-- **C97**: assigning `key_ops`.  The key has the value that C45 describes; after a successful assignment of a non-empty list the key's list of operations is a new
list, not the assigned one; nothing but the key's store changes. -/
theorem c97_key_ops {C : Crypto} {h : KeyMem} (hr : Spec.KeysReached C h) {k : Nat} {key : Key} {s : Slot} (hv : h.view k = some key) (hs : h.slotOk s = true) :
    (h.step C (.setOps k s)).1.view k = some (key.setKeyOps (h.val s)).1 ∧
    (h.step C (.setOps k s)).2 = (key.setKeyOps (h.val s)).2.map (fun _ => none) ∧
    (∀ x l, h.val s = .arr (x :: l) → (key.setKeyOps (h.val s)).2 = .ok () →
      ∃ a, Spec.operations (h.step C (.setOps k s)).1 k = some a ∧ h.cell a = none) ∧
    ∀ a c, h.cell a = some c → Spec.target h (.setOps k s) ≠ some a → (h.step C (.setOps k s)).1.cell a = some c := by
  have ok := keysReached_ok hr
  obtain ⟨o, e, hk, he, rfl⟩ := view_of hv
  have hst : h.step C (.setOps k s) = h.setOps o (h.val s) := by simp only [KeyMem.step, hk, hs, if_true]
  obtain ⟨w, hres, hops⟩ := KeyMem.setOps_spec (v := h.val s) ok hk he
  rw [hst]
  obtain ⟨e', he', hd'⟩ := w.written
  have hk' := (w.keys k o).mpr hk
  have keeps : ∀ (v : Val) (xs : List Val) (q : Key), (keyOpsLoop v q xs).1.kind = q.kind ∧ (keyOpsLoop v q xs).1.extra = q.extra := by
    intro v xs
    induction xs with
    | nil => exact fun _ => ⟨rfl, rfl⟩
    | cons x xs ih =>
      intro q
      simp only [keyOpsLoop]
      split
      · exact ⟨rfl, rfl⟩
      · exact ⟨rfl, rfl⟩
      · split
        · exact ⟨rfl, rfl⟩
        · rename_i q' hq
          obtain ⟨i1, i2⟩ := ih q'
          unfold Key.setKeyOpsBase at hq
          split at hq
          · obtain ⟨_, _, hq⟩ := bind_eq_ok.mp hq
            cases hq
            exact ⟨i1, i2⟩
          · cases hq
  have keeps' : ∀ (v : Val) (q : Key), (q.setKeyOps v).1.kind = q.kind ∧ (q.setKeyOps v).1.extra = q.extra := by
    intro v q
    cases v with
    | arr l => exact keeps _ _ _
    | map l => exact keeps _ _ _
    | bytes l => exact keeps _ _ _
    | text b => cases b <;> exact ⟨rfl, rfl⟩
    | _ => exact ⟨rfl, rfl⟩
  refine ⟨?_, hres, fun x l hl hok => ?_, fun a c hc hne => ?_⟩
  · rw [view_to hk' he', hd']
    have := keeps' (h.val s) { kind := o.kind, store := h.dictVal e, extra := o.extra }
    revert this
    generalize Key.setKeyOps _ (h.val s) = r
    rintro ⟨h1, h2⟩
    simp only at h1 h2
    rw [← h1, ← h2]
  · rcases (hops e' he').1 with ⟨_, h1 | h1 | ⟨x, h1⟩⟩ | ⟨a, ha, hle⟩
    · rw [hl] at h1; simp at h1
    · exact absurd hl (h1 _)
    · rw [hres, hok] at h1; cases h1
    · exact ⟨a, by simp only [Spec.operations, hk', he', ha], ok.fresh a hle⟩
  · rw [w.same a (ok.fresh.lt (by rw [hc]; simp)) (fun e => hne (by simp only [Spec.target, hk, e])), hc]

/-- **C97**: assigning an item.  A list is stored as it is: the key's entry is then this list object. -/
theorem c97_item {C : Crypto} {h : KeyMem} (hr : Spec.KeysReached C h) {k : Nat} {key : Key} {label : Val} {s : Slot} (hv : h.view k = some key) (hs : h.slotOk s = true) :
    (∀ x, key.setItem label (h.val s) = .error x → h.step C (.setItem k label s) = (h, .error x)) ∧
    ∀ key', key.setItem label (h.val s) = .ok key' →
      (h.step C (.setItem k label s)).1.view k = some key' ∧ (h.step C (.setItem k label s)).2 = .ok none ∧
      (∀ a, s = .ref a → a ∈ Spec.keyParts (h.step C (.setItem k label s)).1 k) ∧
      ∀ a c, h.cell a = some c → Spec.target h (.setItem k label s) ≠ some a → (h.step C (.setItem k label s)).1.cell a = some c := by
  have ok := keysReached_ok hr
  obtain ⟨o, e, hk, he, rfl⟩ := view_of hv
  cases hl : fromIdKey (kindReg o.kind) label true with
  | error x => simp [Key.setItem, hl, KeyMem.step, hk, he, hs, Bind.bind, Except.bind]
  | ok q =>
    have hst : h.step C (.setItem k label s) = (h.put o.store (.dict (sset e q s)), .ok none) := by simp only [KeyMem.step, hk, he, hs, hl, if_true]
    refine ⟨fun x hx => by simp [Key.setItem, hl, Bind.bind, Except.bind] at hx, fun key' hk' => ?_⟩
    simp only [Key.setItem, hl, Bind.bind, Except.bind, Except.ok.injEq] at hk'
    subst hk'
    rw [hst]
    have hk2 : (h.put o.store (.dict (sset e q s))).cell k = some (.key o) := by
      rw [KeyMem.cell_put_other (fun e2 => by rw [e2, he] at hk; cases hk)]; exact hk
    refine ⟨?_, rfl, fun a ha => ?_, fun a c hc hne => ?_⟩
    · rw [view_to hk2 KeyMem.cell_put_same, KeyMem.dictVal_put_dict he, dictVal_sset]
    · subst ha
      simp only [Spec.keyParts, hk2, KeyMem.cell_put_same, List.mem_cons, List.mem_filterMap]
      right; right
      have : sget (sset e q (.ref a)) q = some (.ref a) := by rw [sget_sset]; simp
      obtain ⟨l, _, hm⟩ := sget_mem this
      exact ⟨_, hm, rfl⟩
    · rw [KeyMem.cell_put_other (fun e => hne (by simp only [Spec.target, hk, e]))]; exact hc

/-- **C97**: the other writes (C66) act on the key's value. -/
theorem c97_write {C : Crypto} {h : KeyMem} (hr : Spec.KeysReached C h) {k : Nat} {key : Key} (w : KeyWrite) (hv : h.view k = some key) :
    (h.step C (.write k w)).1.view k = some (key.write w).1 ∧
    (h.step C (.write k w)).2 = match (key.write w).2 with | none => .ok none | some x => .error x := by
  have ok := keysReached_ok hr
  obtain ⟨o, e, hk, he, rfl⟩ := view_of hv
  obtain ⟨w1, hres, _⟩ := KeyMem.write_spec C ok hk he w
  obtain ⟨e', he', hd'⟩ := w1.written
  refine ⟨?_, hres⟩
  rw [view_to ((w1.keys k o).mpr hk) he', hd']
  have := KeyMem.write_keeps { kind := o.kind, store := h.dictVal e, extra := o.extra } w
  revert this
  generalize Key.write _ w = r
  rintro ⟨h1, h2⟩
  simp only at h1 h2
  rw [← h1, ← h2]

theorem sget_congr {e : SDict} {k q : Val} (h : keq k q = true) : sget e k = sget e q := by
  induction e with
  | nil => rfl
  | cons p t ih =>
    obtain ⟨l, v⟩ := p
    simp only [sget, keq_congr_right h l, ih]

/-- **C97**: after a successful assignment `key.alg = v` or `key[label] = v` of a list that nobody else holds, the list under this label is a new object, also when
the old one had the same elements. -/
theorem c97_assigned {C : Crypto} {h : KeyMem} (hr : Spec.KeysReached C h) {k : Nat} {key : Key} {w : KeyWrite} {q : Val} (hv : h.view k = some key)
    (hn : KeysNodup key.store) (hw : (key.write w).2 = none) (hq : w.replaced key.kind = some q) {a : Nat}
    (ha : Spec.listAt (h.step C (.write k w)).1 k q = some a) : h.cell a = none := by
  have ok := keysReached_ok hr
  obtain ⟨o, e, hk, he, rfl⟩ := view_of hv
  have hnone : sget (sdel e q) q = none := by
    have h1 : dget (ddel (h.dictVal e) q) q = none := dget_ddel_same hn
    rw [← dictVal_sdel, dictVal_sget] at h1
    simpa using h1
  have sl' : h.SlotsOk (sdel e q) := (ok.slots _ _ he).sdel q
  have hst : (h.step C (.write k w)).1 =
      (KeyMem.place (sdel e q) h (Key.write { kind := o.kind, store := h.dictVal e, extra := o.extra } w).1.store).1.put o.store
        (.dict (KeyMem.place (sdel e q) h (Key.write { kind := o.kind, store := h.dictVal e, extra := o.extra } w).1.store).2) := by
    simp only [KeyMem.step, hv, hk, he, hw, show w.replaced o.kind = some q from hq]
  obtain ⟨x1, f1, sl1, d1, o1⟩ := KeyMem.place_spec (t := sdel e q) (d := (Key.write { kind := o.kind, store := h.dictVal e, extra := o.extra } w).1.store) ok.fresh sl'
  have hk' := ((KeyMem.write_spec C ok hk he w).1.keys k o).mpr hk
  simp only [Spec.listAt, hk'] at ha
  rw [hst, KeyMem.cell_put_same] at ha
  simp only at ha
  split at ha
  · rename_i b hs
    cases ha
    obtain ⟨l, hl, hm⟩ := sget_mem hs
    rcases o1 _ hm with ⟨s, h3, _⟩ | h3
    · simp only at h3
      rw [sget_congr hl, hnone] at h3; cases h3
    · exact ok.fresh _ (h3 _ rfl)
  · cases ha

/-- **C97**, frame: an operation changes at most one of the objects that exist, its target. -/
theorem c97_only {C : Crypto} {h : KeyMem} (hr : Spec.KeysReached C h) (op : KeyOp) {a : Nat} {c : KCell} (hc : h.cell a = some c) (ht : Spec.target h op ≠ some a) :
    (h.step C op).1.cell a = some c := by
  have ok := keysReached_ok hr
  rw [(KeyMem.step_spec C ok op).2.2.1 a (ok.fresh.lt (by rw [hc]; simp)) ht, hc]

/-- **C97**: a key's value depends on its parts only: an operation whose target is not one of them does not change the key. -/
theorem c97_frame {C : Crypto} {h : KeyMem} (hr : Spec.KeysReached C h) (op : KeyOp) {k : Nat} {key : Key} (hv : h.view k = some key)
    (ht : ∀ a, Spec.target h op = some a → a ∉ Spec.keyParts h k) : (h.step C op).1.view k = some key := by
  have ok := keysReached_ok hr
  obtain ⟨o, e, hk, he, rfl⟩ := view_of hv
  have hp : Spec.keyParts h k = k :: o.store :: e.filterMap fun p => match p.2 with | .ref a => some a | .imm _ => none := by
    simp only [Spec.keyParts, hk, he]
  have keep : ∀ a c, h.cell a = some c → a ∈ Spec.keyParts h k → (h.step C op).1.cell a = some c :=
    fun a c hc hm => c97_only hr op hc (fun e => ht a e hm)
  rw [view_to (keep k _ hk (by rw [hp]; simp)) (keep _ _ he (by rw [hp]; simp))]
  have x : ∀ p ∈ e, (h.step C op).1.val p.2 = h.val p.2 := fun p hpe => by
    have hsl := ok.slots _ _ he p hpe
    cases hs : p.2 with
    | imm v => rfl
    | ref b =>
      rw [hs] at hsl
      simp only [KeyMem.slotOk] at hsl
      cases hb : h.cell b with
      | none => rw [hb] at hsl; cases hsl
      | some c =>
        have : b ∈ Spec.keyParts h k := by
          rw [hp]
          simp only [List.mem_cons, List.mem_filterMap]
          exact .inr (.inr ⟨p, hpe, by simp only [hs]⟩)
        simp only [KeyMem.val, keep b c hb this, hb]
  simp only [KeyMem.dictVal]
  rw [List.map_congr_left fun p hp => by rw [x p hp]]

/-- **C97**: writes on one key do not change another key. -/
theorem c97_other_key {C : Crypto} {h : KeyMem} (hr : Spec.KeysReached C h) {k k' : Nat} (hne : k ≠ k') {key key' : Key} (hv : h.view k = some key)
    (hv' : h.view k' = some key') (op : KeyOp) (ho : (∃ s, op = .setOps k s) ∨ (∃ l s, op = .setItem k l s) ∨ ∃ w, op = .write k w) :
    (h.step C op).1.view k' = some key' := by
  have ok := keysReached_ok hr
  obtain ⟨o, e, hk, he, rfl⟩ := view_of hv
  obtain ⟨o', e', hk', he', rfl⟩ := view_of hv'
  refine c97_frame hr op hv' fun a ha hm => ?_
  have ht : Spec.target h op = some o.store := by
    rcases ho with ⟨s, rfl⟩ | ⟨l, s, rfl⟩ | ⟨w, rfl⟩ <;> simp only [Spec.target, hk]
  rw [ht] at ha
  cases ha
  simp only [Spec.keyParts, hk', he', List.mem_cons, List.mem_filterMap] at hm
  rcases hm with h1 | h1 | ⟨p, hp, h1⟩
  · rw [h1, hk'] at he; cases he
  · exact hne (ok.own k k' o o' hk hk' h1)
  · have hsl := ok.slots _ _ he' p hp
    cases hs : p.2 with
    | imm v => simp [hs] at h1
    | ref b =>
      simp only [hs, Option.some.injEq] at h1
      subst h1
      rw [hs] at hsl
      simp only [KeyMem.slotOk, he] at hsl
      cases hsl

/-- **C97**: who sees a change of a list: exactly the entries that are this list object, in every key. -/
theorem c97_list {C : Crypto} {h : KeyMem} {a : Nat} {l l' : List Val} (ha : h.cell a = some (.list l)) {k : Nat} {o : KeyCell} {e : SDict}
    (hk : h.cell k = some (.key o)) (he : h.cell o.store = some (.dict e)) :
    (h.step C (.writeList a l')).1.view k =
      some { kind := o.kind, store := e.map (fun p => (p.1, match p.2 with | .ref b => if b = a then .arr l' else h.val (.ref b) | .imm v => v)), extra := o.extra } := by
  have hst : (h.step C (.writeList a l')).1 = h.put a (.list l') := by simp only [KeyMem.step, ha]
  rw [hst, view_to (o := o) (e := e)]
  · simp only [KeyMem.dictVal]
    congr 2
    refine List.map_congr_left fun p _ => ?_
    cases p.2 with
    | imm v => rfl
    | ref b =>
      by_cases hb : b = a
      · subst hb; simp only [KeyMem.val, KeyMem.cell_put_same, if_true]
      · simp only [KeyMem.val, KeyMem.cell_put_other hb, if_neg hb]
  · rw [KeyMem.cell_put_other (fun e2 => by rw [e2, ha] at hk; cases hk)]; exact hk
  · rw [KeyMem.cell_put_other (fun e2 => by rw [e2, ha] at he; cases he)]; exact he

/-- **C97**: `key.key_ops` is the key's own list, and whatever is written into it are the operations of the key, without any check. -/
theorem c97_live {C : Crypto} {h : KeyMem} {k a : Nat} {l l' : List Val} (ho : Spec.operations h k = some a) (ha : h.cell a = some (.list l)) :
    h.step C (.getOps k) = (h, .ok (some a)) ∧
    ∃ key, (h.step C (.writeList a l')).1.view k = some key ∧ dget key.store (.cls KpKeyOps) = some (.arr l') := by
  obtain ⟨o, e, hk, he, hs⟩ := operations_of ho
  refine ⟨by simp only [KeyMem.step, hk, he, hs], _, c97_list ha hk he, ?_⟩
  clear he hk ho
  induction e with
  | nil => simp [sget] at hs
  | cons p t ih =>
    obtain ⟨q, s⟩ := p
    simp only [sget] at hs
    simp only [List.map_cons, dget]
    split at hs
    · rename_i hq; cases hs; simp only [hq, if_true]
    · rename_i hq; simp only [hq]; exact ih hs

/-- **C97**: for a key without operations `key.key_ops` is a new list that no key has: what is appended to it is lost. -/
theorem c97_lost {C : Crypto} {h : KeyMem} (hr : Spec.KeysReached C h) {k : Nat} {key : Key} (hv : h.view k = some key)
    (hn : dget key.store (.cls KpKeyOps) = none) :
    ∃ h' a, h.step C (.getOps k) = (h', .ok (some a)) ∧ h.cell a = none ∧ h'.cell a = some (.list []) ∧ h'.view k = some key ∧
      ∀ l k' key', h.view k' = some key' → (h'.step C (.writeList a l)).1.view k' = some key' := by
  have ok := keysReached_ok hr
  obtain ⟨o, e, hk, he, rfl⟩ := view_of hv
  have hs : sget e (.cls KpKeyOps) = none := by
    rw [show ({ kind := o.kind, store := h.dictVal e, extra := o.extra } : Key).store = h.dictVal e from rfl, dictVal_sget] at hn
    simpa using hn
  have hst : h.step C (.getOps k) = (h.alloc (.list []), .ok (some h.next)) := by simp only [KeyMem.step, hk, he, hs]
  have hr' : Spec.KeysReached C (h.alloc (.list [])) := by
    obtain ⟨p, rfl⟩ := hr
    refine ⟨p ++ [.newList []], ?_⟩
    have run_app : ∀ (p q : List KeyOp) (m : KeyMem), KeyMem.run C (p ++ q) m = KeyMem.run C q (KeyMem.run C p m) := by
      intro p; induction p with
      | nil => exact fun _ _ => rfl
      | cons x t ih => exact fun q m => ih q _
    rw [run_app]; rfl
  have old : ∀ k' key', h.view k' = some key' → (h.alloc (.list [])).view k' = some key' := fun k' key' hv' => by
    have := c97_frame hr (.newList []) hv' (fun a ha => by cases ha)
    exact this
  refine ⟨_, _, hst, ok.fresh _ (Nat.le_refl _), KeyMem.cell_alloc _ _, old k _ hv, fun l k' key' hv' => ?_⟩
  refine c97_frame hr' _ (old k' key' hv') fun a ha hm => ?_
  cases ha
  obtain ⟨o', e', hk', he', rfl⟩ := view_of hv'
  have x := KeyMem.ext_alloc h (.list [])
  have hk2 := x.same k' (ok.fresh.lt (by rw [hk']; simp))
  have he2 := x.same o'.store (ok.fresh.lt (by rw [he']; simp))
  rw [hk'] at hk2
  rw [he'] at he2
  simp only [Spec.keyParts, hk2, he2, List.mem_cons, List.mem_filterMap] at hm
  rcases hm with h1 | h1 | ⟨p, hp, h1⟩
  · rw [← h1, ok.fresh _ (Nat.le_refl _)] at hk'; cases hk'
  · rw [← h1, ok.fresh _ (Nat.le_refl _)] at he'; cases he'
  · have hsl := ok.slots _ _ he' p hp
    cases hs : p.2 with
    | imm v => simp [hs] at h1
    | ref b =>
      simp only [hs, Option.some.injEq] at h1
      subst h1
      rw [hs] at hsl
      simp only [KeyMem.slotOk, ok.fresh _ (Nat.le_refl _)] at hsl
      cases hsl

/-- The lists of operations of different keys are different objects, in any careful history. -/
theorem careful_inv {C : Crypto} {h : KeyMem} (hh : Spec.CarefulHistory C h) :
    h.Ok ∧ ∀ k k' o o' e e' a, h.cell k = some (.key o) → h.cell o.store = some (.dict e) → (.cls KpKeyOps, .ref a) ∈ e →
      h.cell k' = some (.key o') → h.cell o'.store = some (.dict e') → (.cls KpKeyOps, .ref a) ∈ e' → k = k' := by
  induction hh with
  | start => exact ⟨KeyMem.ok_start, fun k k' o o' e e' a h1 => by simp [KeyMem.start] at h1⟩
  | @step h op _ hc ih =>
    obtain ⟨ok, inv⟩ := ih
    have sp := KeyMem.step_spec C ok op
    have hops := sp.2.2.2.2.1 hc
    refine ⟨sp.1, fun k k' o o' e e' a h1 h2 h3 h4 h5 h6 => ?_⟩
    have old : ∀ k o e, h.cell k = some (.key o) → h.cell o.store = some (.dict e) → (.cls KpKeyOps, .ref a) ∈ e → a < h.next := fun k o e _ h2 h3 => by
      have := ok.slots _ _ h2 _ h3
      exact ok.fresh.lt (fun e => by simp only [KeyMem.slotOk, e] at this; cases this)
    rcases hops k o e a h1 h2 h3 with g | ⟨d, g1, g2, g3⟩ <;> rcases hops k' o' e' a h4 h5 h6 with g' | ⟨d', g1', g2', g3'⟩
    · exact sp.2.2.2.2.2 k k' o o' e e' a h1 h2 h3 h4 h5 h6 g
    · have := old k' o' d' g1' g2' g3'; omega
    · have := old k o d g1 g2 g3; omega
    · exact inv k k' o o' d d' a g1 g2 g3 g1' g2' g3'

/-- **C97**: unless the program itself puts a list there by `key[KpKeyOps] = l` or through `key.store`, no two keys have the same list of operations. -/
theorem c97_own_list {C : Crypto} {h : KeyMem} (hh : Spec.CarefulHistory C h) {k k' a : Nat} (ho : Spec.operations h k = some a) (ho' : Spec.operations h k' = some a) : k = k' := by
  obtain ⟨o, e, h1, h2, h3⟩ := operations_mem ho
  obtain ⟨o', e', h4, h5, h6⟩ := operations_mem ho'
  exact (careful_inv hh).2 k k' o o' e e' a h1 h2 h3 h4 h5 h6

theorem careful_reached {C : Crypto} {h : KeyMem} (hh : Spec.CarefulHistory C h) : Spec.KeysReached C h := by
  have run_app : ∀ (p q : List KeyOp) (m : KeyMem), KeyMem.run C (p ++ q) m = KeyMem.run C q (KeyMem.run C p m) := by
    intro p; induction p with
    | nil => exact fun _ _ => rfl
    | cons x t ih => exact fun q m => ih q _
  induction hh with
  | start => exact ⟨[], rfl⟩
  | step op _ _ ih => obtain ⟨p, rfl⟩ := ih; exact ⟨p ++ [op], by rw [run_app]; rfl⟩

/-- **C97**: so whatever is written into `key.key_ops` of one key, the operations of the other keys stay as they are. -/
theorem c97_policy {C : Crypto} {h : KeyMem} (hh : Spec.CarefulHistory C h) {k k' a : Nat} {l l' : List Val} (ho : Spec.operations h k = some a) (hne : k' ≠ k)
    (ha : h.cell a = some (.list l)) {key : Key} (hv : h.view k' = some key) :
    ∃ key', (h.step C (.writeList a l')).1.view k' = some key' ∧ dget key'.store (.cls KpKeyOps) = dget key.store (.cls KpKeyOps) := by
  obtain ⟨o, e, hk, he, rfl⟩ := view_of hv
  refine ⟨_, c97_list ha hk he, ?_⟩
  have hno : sget e (.cls KpKeyOps) ≠ some (.ref a) := fun hs => hne (c97_own_list hh (by simp only [Spec.operations, hk, he, hs]) ho)
  clear hv he hk
  induction e with
  | nil => rfl
  | cons p t ih =>
    obtain ⟨q, s⟩ := p
    simp only [sget] at hno
    simp only [KeyMem.dictVal, List.map_cons, dget] at ih ⊢
    by_cases hq : keq q (.cls KpKeyOps) = true
    · simp only [hq, if_true, ne_eq, Option.some.injEq] at hno ⊢
      cases s with
      | imm v => rfl
      | ref b => simp only [Slot.ref.injEq] at hno; simp only [if_neg hno]
    · simp only [hq] at hno ⊢
      exact ih hno

/-! ### Programs -/

/-- Two keys made from one dictionary `{"kty": "SYMMETRIC", "k": …, "key_ops": ["ENCRYPT"], "tags": [1]}`: the lists are objects 0 and 1, the dictionary object 2,
the keys objects 7 and 12. -/
def Sample.twoKeys : List KeyOp :=
  [.newList [.text b!"ENCRYPT"], .newList [.int 1],
   .newDict [(.int 1, .imm (.int 4)), (.int (-1), .imm (.bytes (List.replicate 16 1))), (.int 4, .ref 0), (.text b!"tags", .ref 1)],
   .fromDict 2, .fromDict 2]

def Sample.twoKeysMem : KeyMem := KeyMem.run toy Sample.twoKeys KeyMem.start

/-- Careful programs. -/
def Spec.CarefulRun (C : Crypto) : List Cose.KeyOp → KeyMem → Prop
  | [], _ => True
  | op :: t, h => Spec.Careful h op ∧ Spec.CarefulRun C t (h.step C op).1

theorem carefulRun_history {C : Crypto} {p : List KeyOp} {h : KeyMem} (hh : Spec.CarefulHistory C h) (hp : Spec.CarefulRun C p h) :
    Spec.CarefulHistory C (KeyMem.run C p h) := by
  induction p generalizing h with
  | nil => exact hh
  | cons op t ih => exact ih (.step op hh hp.1) hp.2

theorem twoKeys_careful : Spec.CarefulHistory toy Sample.twoKeysMem :=
  carefulRun_history .start ⟨trivial, trivial, trivial, trivial, trivial, trivial⟩

/-- The two keys have lists of operations of their own, made from object 0. -/
theorem twoKeys_parts : Spec.operations Sample.twoKeysMem 7 = some 4 ∧ Spec.operations Sample.twoKeysMem 12 = some 9 ∧
    1 ∈ Spec.keyParts Sample.twoKeysMem 7 ∧ 1 ∈ Spec.keyParts Sample.twoKeysMem 12 := by decide +kernel

/-- The value of a key after a program. -/
def Spec.shows (h : KeyMem) (k : Nat) (label : Val) : Option Val := (h.view k).bind fun key => dget key.store label

/-- **C97** fails for lists under other parameters: the two keys made from one dictionary share the list `tags`, and a change of it, for example through the first
key, appears in the second. -/
theorem c97_parameter_shared_refuted : ∃ (h : KeyMem) (k k' : Nat) (a : Nat) (l : List Val), Spec.CarefulHistory toy h ∧ k ≠ k' ∧ a ∈ Spec.keyParts h k ∧ a ∈ Spec.keyParts h k' ∧
    Spec.shows h k' (.text b!"tags") = some (.arr [.int 1]) ∧ Spec.shows (h.step toy (.writeList a l)).1 k' (.text b!"tags") = some (.arr l) ∧ l ≠ [.int 1] :=
  ⟨Sample.twoKeysMem, 7, 12, 1, [.int 1, .int 2], twoKeys_careful, by decide, twoKeys_parts.2.2.1, twoKeys_parts.2.2.2,
    by decide +kernel, by decide +kernel, by decide⟩

/-- **C97** fails for checks: `key.key_ops = ["SIGN"]` is refused for a symmetric key, but the same list can be written through `key.key_ops`. -/
theorem c97_unchecked_refuted : ∃ (h : KeyMem) (k a : Nat), Spec.CarefulHistory toy h ∧
    (∃ key, h.view k = some key ∧ (key.setKeyOps (.arr [.cls Op.Sign])).2 = .error .illegalKeyOps) ∧
    h.step toy (.getOps k) = (h, .ok (some a)) ∧
    Spec.shows (h.step toy (.writeList a [.cls Op.Sign])).1 k (.cls KpKeyOps) = some (.arr [.cls Op.Sign]) := by
  refine ⟨Sample.twoKeysMem, 7, 4, twoKeys_careful, ?_, (c97_live (l := [.cls Op.Encrypt]) (l' := []) twoKeys_parts.1 (by rfl)).1, by decide +kernel⟩
  refine ⟨_, rfl, ?_⟩
  decide +kernel

/-- Without care two keys can have the same list of operations: `key2[KpKeyOps] = key1.key_ops`. -/
theorem c97_assigned_list : ∃ h : KeyMem, Spec.KeysReached toy h ∧ Spec.operations h 7 = some 4 ∧ Spec.operations h 12 = some 4 :=
  ⟨KeyMem.run toy (Sample.twoKeys ++ [.setItem 12 (.text b!"KEY_OPS") (.ref 4)]) KeyMem.start, ⟨_, rfl⟩, by decide +kernel, by decide +kernel⟩

/-- The hypotheses of the theorems are met: changing the program's list, or the dictionary, or the operations of one key. -/
example : Spec.KeysReached toy Sample.twoKeysMem ∧ Sample.twoKeysMem.cell 0 = some (.list [.text b!"ENCRYPT"]) ∧
    Spec.shows Sample.twoKeysMem 7 (.cls KpKeyOps) = some (.arr [.cls Op.Encrypt]) ∧
    Spec.shows (Sample.twoKeysMem.step toy (.writeList 0 [])).1 7 (.cls KpKeyOps) = some (.arr [.cls Op.Encrypt]) ∧
    Spec.shows (Sample.twoKeysMem.step toy (.writeList 4 [])).1 7 (.cls KpKeyOps) = some (.arr []) ∧
    Spec.shows (Sample.twoKeysMem.step toy (.writeList 4 [])).1 12 (.cls KpKeyOps) = some (.arr [.cls Op.Encrypt]) :=
  ⟨careful_reached twoKeys_careful, rfl, by decide +kernel, by decide +kernel, by decide +kernel, by decide +kernel⟩

/-- A key without operations, made by the constructor: what is appended to `key.key_ops` is lost. -/
example : ∃ (p : List KeyOp) (key : Key), (KeyMem.run toy p KeyMem.start).view 3 = some key ∧ dget key.store (.cls KpKeyOps) = none ∧
    ((KeyMem.run toy p KeyMem.start).step toy (.getOps 3)).2 = .ok (some 4) :=
  ⟨[.newDict [], .construct (.sym (.bytes (List.replicate 16 1))) 0 true], _, rfl, by decide +kernel, by rfl⟩

/-- The list under `tags` is replaced by an equal one: it is a new object. -/
example : ∃ key, Sample.twoKeysMem.view 7 = some key ∧ KeysNodup key.store ∧ (key.write (.setItem (.text b!"tags") (.arr [.int 1]))).2 = none ∧
    KeyWrite.replaced key.kind (.setItem (.text b!"tags") (.arr [.int 1])) = some (.text b!"tags") ∧ Spec.listAt Sample.twoKeysMem 7 (.text b!"tags") = some 1 ∧
    Spec.listAt (Sample.twoKeysMem.step toy (.write 7 (.setItem (.text b!"tags") (.arr [.int 1])))).1 7 (.text b!"tags") = some 13 :=
  ⟨_, rfl, by decide +kernel, by decide +kernel, by decide +kernel, by decide +kernel, by decide +kernel⟩

/-- A list is assigned: `key.key_ops = l` copies it. -/
example : ∃ key, Sample.twoKeysMem.view 7 = some key ∧ Sample.twoKeysMem.slotOk (.ref 0) = true ∧ Sample.twoKeysMem.val (.ref 0) = .arr [.text b!"ENCRYPT"] ∧
    (key.setKeyOps (Sample.twoKeysMem.val (.ref 0))).2 = .ok () :=
  ⟨_, rfl, by decide +kernel, rfl, by decide +kernel⟩

end Cose
