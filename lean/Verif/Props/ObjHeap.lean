import Verif.ObjHeapLemmas2
/-!
# Who sees a change of a header, a list or a key (C94)

The words used in the statements are in `ObjHeapSpec.lean`.
-/
set_option autoImplicit false
namespace Cose

/-- Whatever a program does, the protected header, the unprotected header and the local attributes of a message are three different dictionaries, and no
dictionary belongs to two messages. -/
theorem c94_dictionaries (C : Crypto) (p : List MemOp) :
    (∀ m o, (Mem.run C p {}).msg m = some o → o.phdr ≠ o.uhdr ∧ o.phdr ≠ o.loc ∧ o.uhdr ≠ o.loc ∧
      ∀ a ∈ [o.phdr, o.uhdr, o.loc], ∃ d, (Mem.run C p {}).cell a = some (.dict d)) ∧
    (∀ m m' o o', m ≠ m' → (Mem.run C p {}).msg m = some o → (Mem.run C p {}).msg m' = some o' → ∀ a ∈ [o.phdr, o.uhdr, o.loc], a ∉ [o'.phdr, o'.uhdr, o'.loc]) := by
  have ok := run_ok C p empty_ok
  refine ⟨fun m o hm => ?_, fun m m' o o' hne hm hm' => ok.apart m o m' o' hm hm' hne⟩
  have nd := ok.nodup m o hm
  simp only [MObj.dicts, List.nodup_cons, List.mem_cons, not_or, List.not_mem_nil, not_false_eq_true, List.nodup_nil, and_true] at nd
  exact ⟨nd.1.1, nd.1.2, nd.2, ok.dicts m o hm⟩

/-- A dictionary of the program, which belongs to no message, never becomes the dictionary of a message, whatever it is passed to. -/
theorem c94_never_adopted {C : Crypto} {p q : List MemOp} {a : Nat} (ha : ((Mem.run C p {}).cell a).isSome)
    (hn : ∀ m o, (Mem.run C p {}).msg m = some o → a ∉ [o.phdr, o.uhdr, o.loc]) : ∀ m o, (Mem.run C (p ++ q) {}).msg m = some o → a ∉ [o.phdr, o.uhdr, o.loc] := by
  rw [mrun_append]
  have ok := run_ok C p empty_ok
  generalize Mem.run C p {} = h at *
  induction q generalizing h with
  | nil => exact hn
  | cons op t ih =>
    simp only [Mem.run]
    split
    · rename_i h' hs
      have eff := step_effect ok hs
      refine ih h' ?_ ?_ eff.ok
      · cases hc : h.cell a with
        | none => rw [hc] at ha; cases ha
        | some c => obtain ⟨c', hc', _⟩ := eff.keeps a c hc; simp [hc']
      · intro m o hm hin
        rcases eff.dicts m o hm a hin with h1 | ⟨o0, h1, h2⟩
        · have := ok_lt ok ha; omega
        · exact hn m o0 h1 h2
    · exact ih h ha hn ok

/-- An operation changes in place only the object of a `write`, or the dictionary that `phdr_update`, `uhdr_update` and the assignment of `local_attrs`
update: no object that is passed to a constructor, a setter or an update is changed, and no other message. -/
theorem c94_frame {C : Crypto} {p : List MemOp} {op : MemOp} {h' : Mem} (hs : (Mem.run C p {}).step C op = .ok h') :
    (∀ a, ((Mem.run C p {}).cell a).isSome → a ∉ Spec.changes (Mem.run C p {}) op → h'.cell a = (Mem.run C p {}).cell a) ∧
      ∀ m, op.target ≠ some m → h'.msg m = (Mem.run C p {}).msg m := by
  have ok := run_ok C p empty_ok
  have eff := step_effect ok hs
  exact ⟨fun a ha hn => eff.cells a (ok_lt ok ha) hn, eff.msgs⟩

/-- The header dictionaries of one message cannot be reached from another. -/
theorem c94_apart {C : Crypto} {h : Mem} (hr : Spec.MemReached C h) {m m' : Nat} {o o' : MObj} (hne : m ≠ m') (hm : h.msg m = some o) (hm' : h.msg m' = some o') :
    ∀ e ∈ o.parts, ∀ a ∈ o'.dicts, ¬ h.Reaches e a :=
  fun _ he _ ha => reach_apart (reached_ok hr).1 (reached_ok hr).2 hm hm' hne he ha

/-- A constructor called with objects makes a message that shows what the constructor called with their values gives, and raises the same exception. -/
theorem c94_construct {C : Crypto} {h : Mem} (hr : Spec.MemReached C h) {m : Nat} (hm : h.msg m = none) {a : MArgs} {x : HdrArgs} {key : Option Key}
    (hp : Spec.Shows h a.phdr x.phdr) (hu : Spec.Shows h a.uhdr x.uhdr) (he : a.phdrEncoded = x.phdrEncoded) (ht : a.tstr = x.tstr) (hal : a.allow = x.allow)
    (hk : Spec.SameKey h a.key key) :
    (∀ b, initMsg C x a.payload a.aad key = .ok b → ∃ h', h.step C (.construct m a) = .ok h' ∧ Spec.Looks h' m b) ∧
      ∀ e, initMsg C x a.payload a.aad key = .error e → h.step C (.construct m a) = .error e := by
  have hstep : h.step C (.construct m a) = h.construct C m a := by
    unfold Mem.step
    rw [if_pos (by simp [MemOp.args, shows_has hp, shows_has hu])]
    simp [hm]
  have ag := construct_agree (C := C) (m := m) (reached_ok hr).1 hp hu he ht hal hk
  rw [hstep]
  refine ⟨fun b hb => ?_, fun e hb => ?_⟩
  · rw [hb] at ag
    cases hc : h.construct C m a with
    | error e => rw [hc] at ag; exact ag.elim
    | ok h' => rw [hc] at ag; exact ⟨h', rfl, ag⟩
  · rw [hb] at ag
    cases hc : h.construct C m a with
    | error e' => rw [hc] at ag; cases ag; rfl
    | ok h' => rw [hc] at ag; exact ag.elim

/-- After every history of operations on any number of messages, a message shows what the writes on it give when they are made on values (C64), as long as
the other operations do not change in place an object it can reach. -/
theorem c94_history {C : Crypto} {h : Mem} (hr : Spec.MemReached C h) {m : Nat} {p : List MemOp} {q : List MsgOp} (ho : Spec.OrdinaryRun C h p)
    (hh : Spec.History C m h p q) {b : Base} (hl : Spec.Looks h m b) : Spec.Looks (Mem.run C p h) m (b.run q).1 :=
  history_looks hh (reached_ok hr).1 (reached_ok hr).2 ho hl

/-- A write on a message raises what the same write on values raises. -/
theorem c94_raises {C : Crypto} {h : Mem} (hr : Spec.MemReached C h) {m : Nat} {b : Base} (hl : Spec.Looks h m b) {op : MemOp} {w : MsgOp} (ht : op.target = some m)
    (hs : Spec.Same h op w) (e : PyErr) : h.step C op = .error e ↔ b.apply w = .error e := by
  have hx := onMsg_refines (C := C) (reached_ok hr).1 (reached_ok hr).2 hl ht hs
  cases ha : b.apply w with
  | ok b' => obtain ⟨h', h1, _⟩ := hx.1 b' ha; simp [h1]
  | error e' => rw [hx.2 e' ha]; constructor <;> (intro h; cases h; rfl)

theorem run_keeps_types {C : Crypto} {p : List MemOp} : ∀ {h : Mem}, h.Ok → MKeeps h (Mem.run C p h) := by
  induction p with
  | nil => exact fun _ => keeps_refl _
  | cons op t ih =>
    intro h ok a c hc
    rw [Mem.run]
    split
    · rename_i h' hs
      have ef := step_effect ok hs
      obtain ⟨c1, h1, a1⟩ := ef.keeps a c hc
      obtain ⟨c2, h2, a2⟩ := ih ef.ok a c1 h1
      refine ⟨c2, h2, ?_⟩
      cases c <;> cases c1 <;> simp [Cell.alike] at a1 <;> cases c2 <;> simp [Cell.alike] at a2 ⊢
      exact a1.trans a2
    · exact ih ok a c hc

/-- The key of a message stays a key of the same type, whatever the program does with it, until another key is assigned. -/
theorem c94_key_type {C : Crypto} {q p : List MemOp} {a : Nat} {k : Kind} {s : List (Val × Elem)} (hk : (Mem.run C q {}).cell a = some (.key k s)) :
    ∃ s', (Mem.run C (q ++ p) {}).cell a = some (.key k s') := by
  rw [mrun_append]
  obtain ⟨c, hc, hl⟩ := run_keeps_types (C := C) (p := p) (run_ok C q empty_ok) a _ hk
  cases c with
  | key k' s' =>
    simp only [Cell.alike, decide_eq_true_eq] at hl
    subst hl
    exact ⟨s', hc⟩
  | _ => simp [Cell.alike] at hl

/-- Local attributes are read from a dictionary or a key; anything else raises `AttributeError`. -/
theorem c94_local_refused {C : Crypto} {h : Mem} {m : Nat} {b : Base} (hl : Spec.Looks h m b) {e : Elem} {v : Val} (hv : Spec.Shows h e v)
    (hm : ∀ d, v ≠ .map d) (hk : ∀ k d, v ≠ .key k d) : h.step C (.setLocal m e) = .error .attributeError := by
  obtain ⟨o, ho, -⟩ := hl
  have hi : h.items e = .error .attributeError := by
    obtain ⟨n, hn⟩ := hv
    cases e with
    | imm w =>
      simp only [valueAt] at hn
      cases hn
      cases v with
      | map d => exact absurd rfl (hm d)
      | key k d => exact absurd rfl (hk k d)
      | _ => rfl
    | ref a =>
      cases n with
      | zero => simp [valueAt] at hn
      | succ n =>
        simp only [valueAt] at hn
        cases hc : h.cell a with
        | none => simp [hc] at hn
        | some c =>
          rw [hc] at hn
          cases c with
          | list l => simp [Mem.items, hc]
          | dict d =>
            simp only [Option.map_eq_some_iff] at hn
            obtain ⟨d', _, rfl⟩ := hn
            exact absurd rfl (hm d')
          | key k d =>
            simp only [Option.map_eq_some_iff] at hn
            obtain ⟨d', _, rfl⟩ := hn
            exact absurd rfl (hk k d')
  simp [Mem.step, MemOp.args, shows_has hv, MemOp.target, ho, Mem.onMsg, hi, bind, Except.bind]

/-- An assigned header is a copy: after `m.phdr = d` (or `m.uhdr = d`) the header shows the same value whatever the program does with `d`, with the objects in
it, and with anything else that is not part of the copy. -/
theorem c94_assigned {C : Crypto} {q p : List MemOp} {m : Nat} {e : Elem} {h' : Mem} (hn : Spec.NotOn m p) (hs : Spec.Spares (Mem.run C q {}) h' p) {b : Base}
    (hl : Spec.Looks h' m b) :
    ((Mem.run C q {}).step C (.setPhdr m e) = .ok h' → (Mem.run C q {}).has e = true →
      ∃ o, (Mem.run C p h').msg m = some o ∧ Spec.Shows (Mem.run C p h') (.ref o.phdr) (.map b.phdr)) ∧
    ((Mem.run C q {}).step C (.setUhdr m e) = .ok h' → (Mem.run C q {}).has e = true →
      ∃ o, (Mem.run C p h').msg m = some o ∧ Spec.Shows (Mem.run C p h') (.ref o.uhdr) (.map b.uhdr)) := by
  have ok := run_ok C q empty_ok
  obtain ⟨o', h1, _, h3, h4, _⟩ := hl
  constructor
  · intro hstep hhas
    have eff := step_effect ok hstep
    refine ⟨o', by rw [notOn_msg p hn eff.ok, h1], ?_⟩
    have okh := eff.ok
    unfold Mem.step at hstep
    rw [if_pos (by simp [MemOp.args, hhas])] at hstep
    simp only [MemOp.target] at hstep
    split at hstep
    · simp only [Mem.onMsg, bind_eq_ok] at hstep
      obtain ⟨⟨g, a⟩, hc, hstep⟩ := hstep
      cases hstep
      have e := mput_same.symm.trans h1
      cases e
      exact copied_stays ok hc okh hn hs h3
    · rename_i hm
      cases hstep
      rw [hm] at h1; cases h1
  · intro hstep hhas
    have eff := step_effect ok hstep
    refine ⟨o', by rw [notOn_msg p hn eff.ok, h1], ?_⟩
    have okh := eff.ok
    unfold Mem.step at hstep
    rw [if_pos (by simp [MemOp.args, hhas])] at hstep
    simp only [MemOp.target] at hstep
    split at hstep
    · simp only [Mem.onMsg, bind_eq_ok] at hstep
      obtain ⟨⟨g, a⟩, hc, hstep⟩ := hstep
      cases hstep
      have e := mput_same.symm.trans h1
      cases e
      exact copied_stays ok hc okh hn hs h4
    · rename_i hm
      cases hstep
      rw [hm] at h1; cases h1

/-- The key of a message is the object itself: whatever the program does after `m.key = k`, as long as it is not an operation on `m`, the message shows the key
object as it is then. -/
theorem c94_key {C : Crypto} {q p : List MemOp} {m a : Nat} {h' : Mem} (hs : (Mem.run C q {}).step C (.setKey m (.key a)) = .ok h') (hn : Spec.NotOn m p) {b : Base}
    (hl : Spec.Looks (Mem.run C p h') m b) : ∃ k, b.key = some k ∧ Spec.Shows (Mem.run C p h') (.ref a) k.toVal := by
  have ok := run_ok C q empty_ok
  have eff := step_effect ok hs
  obtain ⟨o, h1, _, _, _, _, _, _, _, h9⟩ := hl
  rw [notOn_msg p hn eff.ok] at h1
  unfold Mem.step at hs
  rw [if_pos (by simp [MemOp.args])] at hs
  simp only [MemOp.target] at hs
  split at hs
  · simp only [Mem.onMsg, bind_eq_ok] at hs
    obtain ⟨r, hk, hs⟩ := hs
    cases hs
    have e := mput_same.symm.trans h1
    cases e
    have : r = some a := by
      simp only [Mem.keyOf] at hk
      split at hk <;> cases hk
      rfl
    subst this
    cases hb : b.key with
    | none => rw [hb] at h9; exact h9.elim
    | some k => rw [hb] at h9; exact ⟨k, rfl, h9⟩
  · rename_i hm
    cases hs
    rw [hm] at h1; cases h1

/-- The entries of a header are shared: after `m.phdr_update(d)` the header holds the very object that `d` held under a label, so that whatever the program does
with this object later shows in the header, as long as the program does not operate on `m` or change the header itself. -/
theorem c94_update_shares {C : Crypto} {q p : List MemOp} {m r : Nat} {o : MObj} {h' : Mem} {es : List (Val × Elem)} {k : Val} {e : Elem}
    (hm : (Mem.run C q {}).msg m = some o) (hc : (Mem.run C q {}).cell r = some (.dict es)) (hd : es.Pairwise fun x y => keq x.1 y.1 = false) (hk : (k, e) ∈ es)
    (hs : (Mem.run C q {}).step C (.phdrUpdate m (.ref r)) = .ok h') (hn : Spec.NotOn m p) (hw : ∀ c, .write o.phdr c ∉ p) {b : Base}
    (hl : Spec.Looks (Mem.run C p h') m b) : ∃ v, dget b.phdr k = some v ∧ Spec.Shows (Mem.run C p h') e v := by
  have ok := run_ok C q empty_ok
  have eff := step_effect ok hs
  generalize Mem.run C q {} = h at *
  unfold Mem.step at hs
  rw [if_pos (by simp [MemOp.args, Mem.has, hc])] at hs
  simp only [MemOp.target, hm] at hs
  simp only [Mem.onMsg, bind_eq_ok] at hs
  obtain ⟨es', h1, d, h2, hs⟩ := hs
  cases hs
  have : es' = es := by simpa [Mem.asDict, hc] using h1.symm
  subst this
  have hcell := own_cell (C := C) eff.ok (m := m) (o := { o with phdrEnc := none }) mput_same (a := o.phdr) (by simp [MObj.dicts]) hn hw
  simp only [mput_same] at hcell
  obtain ⟨o', g1, _, g3, _⟩ := hl
  rw [notOn_msg p hn eff.ok] at g1
  have e' := mput_same.symm.trans g1
  cases e'
  obtain ⟨es0, hc0, hs0⟩ := shows_dict.mp g3
  rw [hcell] at hc0; cases hc0
  exact all2_rget (R := Spec.Shows _) hs0 (rget_rupdate d es' hd hk)

/-- The same for `m.uhdr_update(d)`. -/
theorem c94_uhdr_update_shares {C : Crypto} {q p : List MemOp} {m r : Nat} {o : MObj} {h' : Mem} {es : List (Val × Elem)} {k : Val} {e : Elem}
    (hm : (Mem.run C q {}).msg m = some o) (hc : (Mem.run C q {}).cell r = some (.dict es)) (hd : es.Pairwise fun x y => keq x.1 y.1 = false) (hk : (k, e) ∈ es)
    (hs : (Mem.run C q {}).step C (.uhdrUpdate m (.ref r)) = .ok h') (hn : Spec.NotOn m p) (hw : ∀ c, .write o.uhdr c ∉ p) {b : Base}
    (hl : Spec.Looks (Mem.run C p h') m b) : ∃ v, dget b.uhdr k = some v ∧ Spec.Shows (Mem.run C p h') e v := by
  have ok := run_ok C q empty_ok
  have eff := step_effect ok hs
  generalize Mem.run C q {} = h at *
  unfold Mem.step at hs
  rw [if_pos (by simp [MemOp.args, Mem.has, hc])] at hs
  simp only [MemOp.target, hm] at hs
  simp only [Mem.onMsg, bind_eq_ok] at hs
  obtain ⟨es', h1, d, h2, hs⟩ := hs
  cases hs
  have : es' = es := by simpa [Mem.asDict, hc] using h1.symm
  subst this
  have hcell := own_cell (C := C) eff.ok (m := m) (o := o) hm (a := o.uhdr) (by simp [MObj.dicts]) hn hw
  simp only [mput_same] at hcell
  obtain ⟨o', g1, _, _, g3, _⟩ := hl
  rw [notOn_msg p hn eff.ok] at g1
  have e' := hm.symm.trans g1
  cases e'
  obtain ⟨es0, hc0, hs0⟩ := shows_dict.mp g3
  rw [hcell] at hc0; cases hc0
  exact all2_rget (R := Spec.Shows _) hs0 (rget_rupdate d es' hd hk)

/-- The same for a message that is constructed with `d` as protected or unprotected header, except for the algorithm and the ephemeral and static key, whose
values are translated. -/
theorem c94_construct_shares {C : Crypto} {q p : List MemOp} {m r : Nat} {x : MArgs} {h' : Mem} {es : List (Val × Elem)} {k a : Val} {e : Elem}
    (hm : (Mem.run C q {}).msg m = none) (hc : (Mem.run C q {}).cell r = some (.dict es))
    (hd : es.Pairwise fun y z => ∀ a b, fromIdKey .hdr y.1 x.allow = .ok a → fromIdKey .hdr z.1 x.allow = .ok b → keq a b = false) (hk : (k, e) ∈ es)
    (ha : fromIdKey .hdr k x.allow = .ok a) (hv : a ∉ [.cls Hdr.Algorithm, .cls Hdr.EphemeralKey, .cls Hdr.StaticKey])
    (hs : (Mem.run C q {}).step C (.construct m x) = .ok h') (hargs : (Mem.run C q {}).has x.phdr = true ∧ (Mem.run C q {}).has x.uhdr = true) (hn : Spec.NotOn m p)
    (hw : ∀ o, h'.msg m = some o → ∀ c, .write o.phdr c ∉ p ∧ .write o.uhdr c ∉ p) {b : Base} (hl : Spec.Looks (Mem.run C p h') m b) :
    (x.phdr = .ref r → ∃ v, dget b.phdr a = some v ∧ Spec.Shows (Mem.run C p h') e v) ∧
      (x.uhdr = .ref r → ∃ v, dget b.uhdr a = some v ∧ Spec.Shows (Mem.run C p h') e v) := by
  have ok := run_ok C q empty_ok
  have eff := step_effect ok hs
  generalize Mem.run C q {} = h at *
  have hcv : ∀ c, a = .cls c → converts c = false := by
    rintro c rfl
    obtain ⟨rg, i⟩ := c
    simp only [converts, decide_eq_false_iff_not, not_and, not_or]
    rintro rfl
    simp only [List.mem_cons, Val.cls.injEq, Hdr.Algorithm, Hdr.EphemeralKey, Hdr.StaticKey, Cls.mk.injEq, true_and, List.not_mem_nil, or_false, not_or] at hv
    exact hv
  unfold Mem.step at hs
  rw [if_pos (by simp [MemOp.args, hargs])] at hs
  simp only [hm] at hs
  simp only [Mem.construct, bind_eq_ok] at hs
  obtain ⟨pd, hpd, ud, hud, pp, hp, u, hu, pe, _, pl, _, aad, _, key, hkey, hs⟩ := hs
  cases hs
  have hw := hw _ mput_same
  have hcp := own_cell (C := C) eff.ok (m := m) mput_same (a := h.next) (by simp [MObj.dicts]) hn fun c => (hw c).1
  have hcu := own_cell (C := C) eff.ok (m := m) mput_same (a := h.next + 1) (by simp [MObj.dicts]) hn fun c => (hw c).2
  simp only [] at hcp hcu
  rw [mput_other (by omega), mput_other (by omega), mput_same] at hcp
  rw [mput_other (by omega), mput_same] at hcu
  obtain ⟨o', g1, _, g3, g4, _⟩ := hl
  rw [notOn_msg p hn eff.ok] at g1
  have e' := mput_same.symm.trans g1
  cases e'
  constructor
  · intro hx
    obtain ⟨es0, hc0, hs0⟩ := shows_dict.mp g3
    rw [hcp] at hc0; cases hc0
    have : pd = es := by
      simp only [Mem.protectedArg, hx] at hpd
      split at hpd
      · cases hpd
      · rename_i h1
        rw [if_neg (by simpa using h1), if_neg (by simp)] at hpd
        simpa [Mem.asDict, hc] using hpd.symm
    subst this
    exact all2_rget (R := Spec.Shows _) hs0 (rget_parse hp hd hk ha hcv)
  · intro hx
    obtain ⟨es0, hc0, hs0⟩ := shows_dict.mp g4
    rw [hcu] at hc0; cases hc0
    have : ud = es := by
      simp only [Mem.unprotectedArg, hx] at hud
      rw [if_neg (by simp)] at hud
      simpa [Mem.asDict, hc] using hud.symm
    subst this
    exact all2_rget (R := Spec.Shows _) hs0 (rget_parse hu hd hk ha hcv)

/-- The dictionary itself is not shared: if the program changes `d` after constructing a message with `d` as a header, the header shows what it showed. -/
theorem c94_argument_not_shared {C : Crypto} {q : List MemOp} {m r : Nat} {x : MArgs} {h' h'' : Mem} {c : Cell} {o : MObj} {v w : Val}
    (hm : (Mem.run C q {}).msg m = none) (hargs : (Mem.run C q {}).has x.phdr = true ∧ (Mem.run C q {}).has x.uhdr = true)
    (hv : Spec.Shows (Mem.run C q {}) (.ref r) v) (hs : (Mem.run C q {}).step C (.construct m x) = .ok h') (ho : h'.msg m = some o)
    (hs' : h'.step C (.write r c) = .ok h'') :
    (x.phdr = .ref r → Spec.Shows h' (.ref o.phdr) w → Spec.Shows h'' (.ref o.phdr) w) ∧ (x.uhdr = .ref r → Spec.Shows h' (.ref o.uhdr) w → Spec.Shows h'' (.ref o.uhdr) w) := by
  have ok := run_ok C q empty_ok
  have eff := step_effect ok hs
  have eff' := step_effect eff.ok hs'
  generalize Mem.run C q {} = h at *
  have hr := shows_has hv
  have hrlt := has_lt ok hr
  unfold Mem.step at hs
  rw [if_pos (by simp [MemOp.args, hargs])] at hs
  simp only [hm] at hs
  simp only [Mem.construct, bind_eq_ok] at hs
  obtain ⟨pd, hpd, ud, hud, pp, hp, u, hu, pe, _, pl, _, aad, _, key, hkey, hs⟩ := hs
  cases hs
  have e' := mput_same.symm.trans ho
  cases e'
  -- what the entries of `d` reach
  have back : ∀ {cell : Nat → Option Cell} {n : Nat} {f : Nat → Option MObj}, (∀ b, b < h.next → cell b = h.cell b) → ∀ {e : Elem} {b : Nat},
      Mem.Reaches ⟨cell, n, f⟩ e b → h.has e = true → h.Reaches e b := by
    intro cell n f hlow e b hr
    induction hr with
    | self => exact fun _ => .self
    | step h1 h2 _ ih =>
      intro hh
      have h1' := h1
      dsimp only at h1'
      rw [hlow _ (has_lt ok hh)] at h1'
      exact .step h1' h2 (ih (ok.closed _ _ h1' _ h2))
  have low : ∀ b, b < h.next → put (put (put h.cell h.next (.dict pp)) (h.next + 1) (.dict u)) (h.next + 2) (.dict []) b = h.cell b := by
    intro b hb
    rw [mput_other (by omega), mput_other (by omega), mput_other (by omega)]
  have main : ∀ {a : Nat} {es hd : List (Val × Elem)}, h.next ≤ a → h.cell r = some (.dict es) →
      put (put (put h.cell h.next (.dict pp)) (h.next + 1) (.dict u)) (h.next + 2) (.dict []) a = some (.dict hd) →
      h.parseHeader C x.allow [] es = .ok hd → ∀ {n : Nat} {f : Nat → Option MObj},
      ¬ Mem.Reaches ⟨put (put (put h.cell h.next (.dict pp)) (h.next + 1) (.dict u)) (h.next + 2) (.dict []), n, f⟩ (.ref a) r := by
    intro a es hd ha hes hcell hparse n f hreach
    cases hreach with
    | self => omega
    | step h1 h2 h3 =>
      simp only [] at h1
      rw [hcell] at h1; cases h1
      have hin := parseHeader_elems (P := fun e => (∃ v, e = .imm v) ∨ e ∈ es.map (·.2)) (fun v => .inl ⟨v, rfl⟩) (by simp) (fun e he => .inr he) hparse _ h2
      rcases hin with ⟨v, rfl⟩ | hin
      · cases h3
      · exact shows_acyclic hv .self hes hin (back low h3 (ok.closed _ _ hes _ hin))
  have fin : ∀ {a : Nat} {w : Val}, ¬ Mem.Reaches _ (.ref a) r → Spec.Shows _ (.ref a) w → h''.Ok → a < h.next + 3 → Spec.Shows h'' (.ref a) w :=
    fun {a w} hnr hsw _ ha => shows_frame (fun b hrb => eff'.cells b (reaches_lt eff.ok hrb (shows_has hsw)) (by
      simp only [Spec.changes, List.mem_singleton]
      rintro rfl
      exact hnr hrb)) hsw
  constructor
  · intro hx hsw
    refine fin ?_ hsw eff'.ok (by show h.next < h.next + 3; omega)
    have hpd' : h.asDict (.ref r) = .ok pd := by
      simp only [Mem.protectedArg, hx] at hpd
      split at hpd
      · cases hpd
      · rename_i h1
        rw [if_neg (by simpa using h1), if_neg (by simp)] at hpd
        exact hpd
    have hes : h.cell r = some (.dict pd) := by
      simp only [Mem.asDict] at hpd'
      split at hpd' <;> cases hpd'
      assumption
    exact main (Nat.le_refl _) hes (by rw [mput_other (by omega), mput_other (by omega), mput_same]) hp
  · intro hx hsw
    refine fin ?_ hsw eff'.ok (by show h.next + 1 < h.next + 3; omega)
    have hud' : h.asDict (.ref r) = .ok ud := by
      simp only [Mem.unprotectedArg, hx] at hud
      rw [if_neg (by simp)] at hud
      exact hud
    have hes : h.cell r = some (.dict ud) := by
      simp only [Mem.asDict] at hud'
      split at hud' <;> cases hud'
      assumption
    exact main (Nat.le_succ _) hes (by rw [mput_other (by omega), mput_same]) hu

/-- The same for an update: if the program changes `d` after `m.phdr_update(d)` or `m.uhdr_update(d)`, the header shows what it showed, unless it had
referred to `d` before the update. -/
theorem c94_update_not_shared {C : Crypto} {q : List MemOp} {m r : Nat} {h' h'' : Mem} {c : Cell} {o : MObj} {v w : Val}
    (hm : (Mem.run C q {}).msg m = some o) (hv : Spec.Shows (Mem.run C q {}) (.ref r) v) (hs' : h'.step C (.write r c) = .ok h'') :
    ((Mem.run C q {}).step C (.phdrUpdate m (.ref r)) = .ok h' → ¬ (Mem.run C q {}).Reaches (.ref o.phdr) r →
      Spec.Shows h' (.ref o.phdr) w → Spec.Shows h'' (.ref o.phdr) w) ∧
    ((Mem.run C q {}).step C (.uhdrUpdate m (.ref r)) = .ok h' → ¬ (Mem.run C q {}).Reaches (.ref o.uhdr) r →
      Spec.Shows h' (.ref o.uhdr) w → Spec.Shows h'' (.ref o.uhdr) w) := by
  have ok := run_ok C q empty_ok
  constructor
  · intro hs hn hw
    have eff := step_effect ok hs
    have eff' := step_effect eff.ok hs'
    generalize Mem.run C q {} = h at *
    unfold Mem.step at hs
    rw [if_pos (by simpa [MemOp.args] using shows_has hv)] at hs
    simp only [MemOp.target, hm] at hs
    simp only [Mem.onMsg, bind_eq_ok] at hs
    obtain ⟨es, h1, d, h2, hs⟩ := hs
    cases hs
    exact shows_frame (fun b hrb => eff'.cells b (reaches_lt eff.ok hrb (shows_has hw)) (by
      simp only [Spec.changes, List.mem_singleton]
      rintro rfl
      exact update_reaches hv (asDict_cell h1) (asDict_cell h2) hn hrb)) hw
  · intro hs hn hw
    have eff := step_effect ok hs
    have eff' := step_effect eff.ok hs'
    generalize Mem.run C q {} = h at *
    unfold Mem.step at hs
    rw [if_pos (by simpa [MemOp.args] using shows_has hv)] at hs
    simp only [MemOp.target, hm] at hs
    simp only [Mem.onMsg, bind_eq_ok] at hs
    obtain ⟨es, h1, d, h2, hs⟩ := hs
    cases hs
    exact shows_frame (fun b hrb => eff'.cells b (reaches_lt eff.ok hrb (shows_has hw)) (by
      simp only [Spec.changes, List.mem_singleton]
      rintro rfl
      exact update_reaches hv (asDict_cell h1) (asDict_cell h2) hn hrb)) hw

/-! ### A program

`crit = [4]; d = {Critical: crit}; msg = Sign1Message(); msg.phdr_update(d)` with the list at 0, the dictionary at 1, the message 7 with its dictionaries at 2, 3
and 4. -/

def exMem : List MemOp := [.new (.list [.imm (.int 4)]), .new (.dict [(.cls Hdr.Critical, .ref 0)]), .construct 7 {}]

def exObj : MObj := { phdrEnc := none, phdr := 2, uhdr := 3, loc := 4, payload := none, aad := [], key := none, tstr := false }

theorem exMem_run (C : Crypto) : Mem.run C exMem {} =
    { cell := put (put (put (put (put (fun _ => none) 0 (.list [.imm (.int 4)])) 1 (.dict [(.cls Hdr.Critical, .ref 0)])) 2 (.dict [])) 3 (.dict [])) 4 (.dict []),
      next := 5,
      msg := put (fun _ => none) 7 exObj } := by
  simp [exMem, Mem.run, Mem.step, MemOp.args, Cell.elems, Mem.has, put, Mem.construct, Mem.protectedArg, Mem.unprotectedArg, Mem.parseHeader, encodedOf, payloadOf,
    asBytes, Mem.keyOf, exObj]

theorem exMem_reached (C : Crypto) : Spec.MemReached C (Mem.run C exMem {}) := by
  refine ⟨exMem, ?_, rfl⟩
  have one : ∀ {h : Mem} {op : MemOp} {p : List MemOp}, Spec.Ordinary h op → Spec.OrdinaryRun C (Mem.run C [op] h) p → Spec.OrdinaryRun C h (op :: p) := by
    intro h op p h1 h2
    refine ordinaryRun_append (p := [op]).mpr ⟨?_, h2⟩
    intro q op' r e
    cases q with
    | nil => cases e; exact h1
    | cons x t => simp at e
  have nil : ∀ {h : Mem}, Spec.OrdinaryRun C h [] := by intro h q op r e; simp at e
  refine one ?_ (one ?_ (one trivial nil))
  · intro m o hm; simp at hm
  · intro m o hm; simp [Mem.run, Mem.step, MemOp.args, Cell.elems, Mem.has] at hm

theorem exMem_looks (C : Crypto) : Spec.Looks (Mem.run C exMem {}) 7 {} := by
  rw [exMem_run]
  refine ⟨exObj, rfl, rfl, ⟨1, ?_⟩, ⟨1, ?_⟩, ⟨1, ?_⟩, rfl, rfl, rfl, trivial⟩ <;> decide

theorem exMem_dict (C : Crypto) : Spec.Shows (Mem.run C exMem {}) (.ref 1) (.map [(.cls Hdr.Critical, .arr [.int 4])]) := by
  rw [exMem_run]
  exact ⟨2, by decide⟩

/-- The list as local attributes. -/
example (C : Crypto) : (Mem.run C exMem {}).step C (.setLocal 7 (.ref 0)) = .error .attributeError :=
  c94_local_refused (exMem_looks C) (v := .arr [.int 4]) ⟨1, by rw [exMem_run]; rfl⟩ (by simp) (by simp)

/-- `c94_dictionaries`, `c94_never_adopted`, `c94_frame`, `c94_apart`: the state after the program has a message and a dictionary of the program. -/
example (C : Crypto) : ((Mem.run C exMem {}).msg 7).isSome ∧ ((Mem.run C exMem {}).cell 1).isSome ∧
    ∀ m o, (Mem.run C exMem {}).msg m = some o → 1 ∉ [o.phdr, o.uhdr, o.loc] := by
  rw [exMem_run]
  refine ⟨rfl, rfl, ?_⟩
  intro m o hm
  dsimp only at hm
  rcases mput_cases hm with ⟨_, rfl⟩ | hm
  · decide
  · cases hm

/-- `c94_construct`: a second message, constructed with the same dictionary. -/
theorem exMem_second (C : Crypto) : ∃ h', (Mem.run C exMem {}).step C (.construct 8 { phdr := .ref 1 }) = .ok h' ∧
    Spec.Looks h' 8 { phdr := [(.cls Hdr.Critical, .arr [.int 4])] } :=
  (c94_construct (exMem_reached C) (by rw [exMem_run]; rfl) (a := { phdr := .ref 1 }) (x := { phdr := .map [(.cls Hdr.Critical, .arr [.int 4])] }) (key := none) (exMem_dict C)
    (shows_imm.mpr rfl) rfl rfl rfl trivial).1 _ rfl

/-- `c94_construct`: a refused argument. -/
example (C : Crypto) : (Mem.run C exMem {}).step C (.construct 8 { phdr := .ref 0 }) = .error .typeError :=
  (c94_construct (exMem_reached C) (by rw [exMem_run]; rfl) (a := { phdr := .ref 0 }) (x := { phdr := .arr [.int 4] }) (key := none) (by rw [exMem_run]; exact ⟨1, by decide⟩)
    (shows_imm.mpr rfl) rfl rfl rfl trivial).2 _ rfl

/-- `c94_history`: writes on the message 7 among operations on the message 8, which shares a list with it. -/
example (C : Crypto) : Spec.Looks (Mem.run C [.phdrUpdate 7 (.ref 1), .construct 8 { phdr := .ref 1 }, .setPayload 7 (.bytes [1]), .setPayload 8 (.bytes [2])]
    (Mem.run C exMem {})) 7 { phdr := [(.cls Hdr.Critical, .arr [.int 4])], payload := some [1] } :=
  c94_history (q := [.phdrUpdate (.map [(.cls Hdr.Critical, .arr [.int 4])]), .setPayload (.bytes [1])]) (exMem_reached C)
    (by
      have one : ∀ {h : Mem} {op : MemOp} {p : List MemOp}, Spec.Ordinary h op → Spec.OrdinaryRun C (Mem.run C [op] h) p → Spec.OrdinaryRun C h (op :: p) := by
        intro h op p h1 h2
        refine ordinaryRun_append (p := [op]).mpr ⟨?_, h2⟩
        intro q op' r e
        cases q with
        | nil => cases e; exact h1
        | cons x t => simp at e
      exact one trivial (one trivial (one trivial (one trivial (by intro q op r e; simp at e)))))
    (.own (op := .phdrUpdate 7 (.ref 1)) rfl (exMem_dict C) (.elsewhere ⟨by simp [MemOp.target], by simp⟩ (.own (op := .setPayload 7 (.bytes [1])) rfl rfl (.elsewhere ⟨by simp [MemOp.target], by simp⟩ .done)))) (exMem_looks C)

/-- `c94_raises`: the list is refused as a header. -/
example (C : Crypto) : (Mem.run C exMem {}).step C (.setPhdr 7 (.ref 0)) = .error .typeError :=
  (c94_raises (exMem_reached C) (exMem_looks C) rfl (w := .setPhdr (.arr [.int 4])) (by rw [exMem_run]; exact ⟨1, by decide⟩) _).mpr rfl

/-- `c94_assigned`: the list and the dictionary are changed after the assignment. -/
example (C : Crypto) : ∃ h', (Mem.run C exMem {}).step C (.setPhdr 7 (.ref 1)) = .ok h' ∧
    ∃ o, (Mem.run C [.write 0 (.list [.imm (.int 4), .imm (.int 5)]), .write 1 (.dict [])] h').msg 7 = some o ∧
      Spec.Shows (Mem.run C [.write 0 (.list [.imm (.int 4), .imm (.int 5)]), .write 1 (.dict [])] h') (.ref o.phdr) (.map [(.cls Hdr.Critical, .arr [.int 4])]) := by
  obtain ⟨h', h1, h2⟩ := (onMsg_refines (C := C) (op := .setPhdr 7 (.ref 1)) (reached_ok (exMem_reached C)).1 (reached_ok (exMem_reached C)).2 (exMem_looks C) rfl
    (mop := .setPhdr (.map [(.cls Hdr.Critical, .arr [.int 4])])) (exMem_dict C)).1 _ rfl
  refine ⟨h', h1, (c94_assigned (b := { phdr := [(.cls Hdr.Critical, .arr [.int 4])] }) ?_ ?_ h2).1 h1 (shows_has (exMem_dict C))⟩
  · intro op hop
    simp only [List.mem_cons, List.not_mem_nil, or_false] at hop
    rcases hop with rfl | rfl <;> simp [MemOp.target]
  · intro a c hin
    simp only [List.mem_cons, MemOp.write.injEq, List.not_mem_nil, or_false] at hin
    rw [exMem_run]
    rcases hin with ⟨rfl, _⟩ | ⟨rfl, _⟩ <;> exact .inl rfl

theorem exMem_updated (C : Crypto) : Mem.run C [.phdrUpdate 7 (.ref 1)] (Mem.run C exMem {}) =
    { cell := put (put (put (put (put (put (fun _ => none) 0 (.list [.imm (.int 4)])) 1 (.dict [(.cls Hdr.Critical, .ref 0)])) 2 (.dict [])) 3 (.dict [])) 4 (.dict []))
        2 (.dict [(.cls Hdr.Critical, .ref 0)]),
      next := 5,
      msg := put (put (fun _ => none) 7 exObj) 7
        exObj } := by
  rw [exMem_run]
  simp [Mem.run, Mem.step, MemOp.args, Mem.has, MemOp.target, Mem.onMsg, Mem.asDict, put, rupdate, rset, exObj]

/-- `c94_update_shares`: the list is changed after the update, and the header of the message changes. -/
example (C : Crypto) :
    Spec.Looks (Mem.run C [.phdrUpdate 7 (.ref 1)] (Mem.run C exMem {})) 7 { phdr := [(.cls Hdr.Critical, .arr [.int 4])] } ∧
    Spec.Looks (Mem.run C [.write 0 (.list [.imm (.int 4), .imm (.int 5)])] (Mem.run C [.phdrUpdate 7 (.ref 1)] (Mem.run C exMem {}))) 7
      { phdr := [(.cls Hdr.Critical, .arr [.int 4, .int 5])] } := by
  rw [exMem_updated]
  constructor
  · refine ⟨exObj, rfl, rfl, ⟨3, ?_⟩, ⟨1, ?_⟩, ⟨1, ?_⟩, rfl, rfl, rfl, trivial⟩ <;> decide
  · have : ∀ h : Mem, h.cell 0 = some (.list [.imm (.int 4)]) → Mem.run C [.write 0 (.list [.imm (.int 4), .imm (.int 5)])] h =
        { h with cell := put h.cell 0 (.list [.imm (.int 4), .imm (.int 5)]) } := by
      intro h hc
      simp [Mem.run, Mem.step, MemOp.args, Cell.elems, Mem.has, hc, Cell.alike]
    rw [this _ rfl]
    refine ⟨exObj, rfl, rfl, ⟨3, ?_⟩, ⟨1, ?_⟩, ⟨1, ?_⟩, rfl, rfl, rfl, trivial⟩ <;> decide

/-- `c94_uhdr_update_shares` and `c94_update_not_shared`: after `msg.uhdr_update(d)` the list in `d` shows, also when it is changed; the change of `d` itself does not. -/
example (C : Crypto) : ∃ h', (Mem.run C exMem {}).step C (.uhdrUpdate 7 (.ref 1)) = .ok h' ∧
    (∀ b, Spec.Looks (Mem.run C [.write 0 (.list [.imm (.int 4), .imm (.int 5)])] h') 7 b → ∃ v, dget b.uhdr (.cls Hdr.Critical) = some v ∧
      Spec.Shows (Mem.run C [.write 0 (.list [.imm (.int 4), .imm (.int 5)])] h') (.ref 0) v) ∧
    ∀ h'', h'.step C (.write 1 (.dict [])) = .ok h'' → Spec.Shows h'' (.ref exObj.uhdr) (.map [(.cls Hdr.Critical, .arr [.int 4])]) := by
  have hm : (Mem.run C exMem {}).msg 7 = some exObj := by rw [exMem_run]; rfl
  have hc : (Mem.run C exMem {}).cell 1 = some (.dict [(.cls Hdr.Critical, .ref 0)]) := by rw [exMem_run]; rfl
  have hu : (Mem.run C exMem {}).cell exObj.uhdr = some (.dict []) := by rw [exMem_run]; rfl
  obtain ⟨h', h1, h2⟩ := (onMsg_refines (C := C) (op := .uhdrUpdate 7 (.ref 1)) (reached_ok (exMem_reached C)).1 (reached_ok (exMem_reached C)).2 (exMem_looks C) rfl
    (mop := .uhdrUpdate (.map [(.cls Hdr.Critical, .arr [.int 4])])) (exMem_dict C)).1 _ rfl
  refine ⟨h', h1, fun b hb => ?_, fun h'' hs => ?_⟩
  · refine c94_uhdr_update_shares (q := exMem) hm hc (by simp) (List.mem_singleton.mpr rfl) h1 ?_ ?_ hb
    · intro op hop
      simp only [List.mem_cons, List.not_mem_nil, or_false] at hop
      subst hop; simp [MemOp.target]
    · intro c hop
      simp [exObj] at hop
  · refine (c94_update_not_shared (q := exMem) hm (exMem_dict C) hs).2 h1 ?_ ?_
    · intro hr
      cases hr with
      | step g1 g2 g3 => rw [hu] at g1; cases g1; cases g2
    · obtain ⟨o, g1, _, _, g4, _⟩ := h2
      have : o.uhdr = exObj.uhdr := by
        have hs := h1
        unfold Mem.step at hs
        rw [if_pos (by simpa [MemOp.args] using shows_has (exMem_dict C))] at hs
        simp only [MemOp.target, hm] at hs
        simp only [Mem.onMsg, bind_eq_ok] at hs
        obtain ⟨_, _, _, _, hs⟩ := hs
        cases hs
        rw [hm] at g1; cases g1; rfl
      rw [← this]
      exact g4

/-- `c94_construct_shares` and `c94_argument_not_shared`: the same for a message constructed with the dictionary; the change of the dictionary itself does not show. -/
example (C : Crypto) : ∃ h' o, (Mem.run C exMem {}).step C (.construct 8 { phdr := .ref 1 }) = .ok h' ∧ h'.msg 8 = some o ∧
    (∀ b, Spec.Looks (Mem.run C [.write 0 (.list [.imm (.int 4), .imm (.int 5)])] h') 8 b → ∃ v, dget b.phdr (.cls Hdr.Critical) = some v ∧
      Spec.Shows (Mem.run C [.write 0 (.list [.imm (.int 4), .imm (.int 5)])] h') (.ref 0) v) ∧
    ∀ h'', h'.step C (.write 1 (.dict [])) = .ok h'' → Spec.Shows h'' (.ref o.phdr) (.map [(.cls Hdr.Critical, .arr [.int 4])]) := by
  obtain ⟨h', h1, o, h2, h3, h4, h5⟩ := exMem_second C
  have hm : (Mem.run C exMem {}).msg 8 = none := by rw [exMem_run]; rfl
  have hc : (Mem.run C exMem {}).cell 1 = some (.dict [(.cls Hdr.Critical, .ref 0)]) := by rw [exMem_run]; rfl
  have hargs : (Mem.run C exMem {}).has (.ref 1) = true ∧ (Mem.run C exMem {}).has (.imm .none) = true := ⟨shows_has (exMem_dict C), rfl⟩
  have eff := step_effect (run_ok C exMem empty_ok) h1
  refine ⟨h', o, h1, h2, fun b hb => ?_, fun h'' hs => ?_⟩
  · refine (c94_construct_shares (a := .cls Hdr.Critical) (k := .cls Hdr.Critical) (e := .ref 0) hm hc (by simp) (by simp) (by decide) (by decide) h1 hargs ?_ ?_ hb).1 rfl
    · intro op hop
      simp only [List.mem_singleton] at hop
      subst hop
      simp [MemOp.target]
    · intro o' ho' c
      have hne : ∀ a ∈ o'.dicts, a ≠ 0 := by
        rintro a ha rfl
        obtain ⟨d, hd⟩ := eff.ok.dicts 8 o' ho' 0 ha
        rw [eff.cells 0 (by rw [exMem_run]; decide) (by simp [Spec.changes]), exMem_run] at hd
        cases hd
      have e1 := hne o'.phdr (by simp [MObj.dicts])
      have e2 := hne o'.uhdr (by simp [MObj.dicts])
      simp [e1, e2]
  · exact (c94_argument_not_shared hm hargs (exMem_dict C) h1 h2 hs).1 rfl h4

/-- `c94_key`: a symmetric key is given to the message and changed later. -/
example (C : Crypto) : Spec.Looks (Mem.run C [.new (.key .sym []), .setKey 7 (.key 5), .write 5 (.key .sym [(.int 1, .imm (.int 4))])] (Mem.run C exMem {})) 7
    { key := some { kind := .sym, store := [(.int 1, .int 4)] } } := by
  rw [exMem_run]
  simp only [Mem.run, Mem.step, MemOp.args, Cell.elems, MemOp.target, Mem.onMsg, Mem.keyOf, put, Cell.alike]
  simp
  refine ⟨_, rfl, rfl, ⟨1, ?_⟩, ⟨1, ?_⟩, ⟨1, ?_⟩, rfl, rfl, rfl, ⟨1, ?_⟩⟩ <;> decide

end Cose
