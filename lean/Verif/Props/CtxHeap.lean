import Verif.CtxHeap
import Verif.Props.Kdf
/-!
# C95: who sees a change of a KDF context

Property C95: the parts of a KDF context (party information, supplementary public information, protected header) are objects that can be shared.  A context
shows the current values of its parts.  Assigning an attribute of a part changes exactly the contexts that refer to this part; a context made by
`get_kdf_context` has parts of its own, except for the dictionary of the recipient's protected header, which it follows.  A context constructed without party
information should have empty party information of its own: this fails, since all of them share one object per party.
-/
set_option autoImplicit false
namespace Cose

/-! ### Vocabulary -/

/-- A state a program can reach. -/
def Spec.CtxReached (h : KMem) : Prop := ∃ p, h = KMem.run p KMem.start

/-- The objects a context consists of: itself, the supplementary public information, its protected header, and the parties. -/
def Spec.ctxParts (h : KMem) (c : Nat) : List Nat :=
  match h.ctx c with
  | none => []
  | some o => [c, o.supp, o.u, o.v] ++ ((h.supp o.supp).map (·.prot)).toList

/-- The object an operation changes in place. -/
def Spec.changed : KOp → Option Nat
  | .newParty _ _ _ | .newDict _ | .newSupp _ _ _ | .newCtx _ _ _ _ _ | .ofRecipient _ _ _ _ => none
  | .setParty a _ _ | .writeDict a _ | .setLength a _ | .setProtected a _ | .setOther a _ => some a
  | .setAlgorithm c _ | .setSupp c _ | .setU c _ | .setV c _ | .setPriv c _ => some c

/-- The party information after an attribute was assigned. -/
def Spec.assigned (p : PartyInfo) : Cose.PartyField → Val → PartyInfo
  | .identity, v => ⟨v, p.nonce, p.other⟩
  | .nonce, v => ⟨p.identity, v, p.other⟩
  | .other, v => ⟨p.identity, p.nonce, v⟩

/-! ### Helpers -/

theorem kput_same {α : Type} {f : Nat → Option α} {i : Nat} {v : α} : kput f i v i = some v := by simp [kput]
theorem kput_other {α : Type} {f : Nat → Option α} {i j : Nat} {v : α} (h : j ≠ i) : kput f i v j = f j := by simp [kput, h]

/-- What holds in every state a program can reach. -/
structure KMem.Ok (h : KMem) : Prop where
  fresh : ∀ a, h.next ≤ a → h.party a = none ∧ h.dict a = none ∧ h.supp a = none ∧ h.ctx a = none
  prot : ∀ a s, h.supp a = some s → (h.dict s.prot).isSome
  whole : ∀ c o, h.ctx c = some o → (h.supp o.supp).isSome ∧ (h.party o.u).isSome ∧ (h.party o.v).isSome
  default : (h.party defaultU).isSome ∧ (h.party defaultV).isSome

/-- The second state has all objects of the first. -/
structure KMem.Grows (h h' : KMem) : Prop where
  party : ∀ a, (h.party a).isSome → (h'.party a).isSome
  dict : ∀ a, (h.dict a).isSome → (h'.dict a).isSome
  supp : ∀ a, (h.supp a).isSome → (h'.supp a).isSome

theorem kput_isSome {α : Type} {f : Nat → Option α} {i j : Nat} {v : α} (h : (f j).isSome) : (kput f i v j).isSome := by
  unfold kput; split <;> simp_all

theorem start_ok : KMem.start.Ok := by
  refine ⟨fun a ha => ?_, by simp [KMem.start], by simp [KMem.start], by simp [KMem.start, kput, defaultU, defaultV]⟩
  simp only [KMem.start] at ha
  have h0 : a ≠ 0 := by omega
  have h1 : a ≠ 1 := by omega
  simp [KMem.start, kput, defaultU, defaultV, h0, h1]

theorem grows_refl (h : KMem) : h.Grows h := ⟨fun _ h => h, fun _ h => h, fun _ h => h⟩

theorem fresh_ne {α : Type} {f : Nat → Option α} {n a : Nat} (hf : ∀ a, n ≤ a → f a = none) (h : (f a).isSome) : a ≠ n ∧ a < n := by
  have : a < n := Classical.byContradiction fun hn => by simp [hf a (by omega)] at h
  exact ⟨by omega, this⟩

/-- The same tables with new or replaced entries whose parts exist. -/
theorem ok_grown {h h' : KMem} (ok : h.Ok) (g : h.Grows h') (hn : ∀ a, h'.next ≤ a → h'.party a = none ∧ h'.dict a = none ∧ h'.supp a = none ∧ h'.ctx a = none)
    (hs : ∀ a s, h'.supp a = some s → h.supp a = some s ∨ (h'.dict s.prot).isSome)
    (hc : ∀ c o, h'.ctx c = some o → h.ctx c = some o ∨ (h'.supp o.supp).isSome ∧ (h'.party o.u).isSome ∧ (h'.party o.v).isSome) : h'.Ok where
  fresh := hn
  prot := fun a s ha => (hs a s ha).elim (fun h0 => g.dict _ (ok.prot a s h0)) id
  whole := fun c o ho => (hc c o ho).elim (fun h0 => ⟨g.supp _ (ok.whole c o h0).1, g.party _ (ok.whole c o h0).2.1, g.party _ (ok.whole c o h0).2.2⟩) id
  default := ⟨g.party _ ok.default.1, g.party _ ok.default.2⟩

theorem editCtx_ok {h : KMem} (ok : h.Ok) (c : Nat) (f : CtxObj → CtxObj) : (h.editCtx c f).Ok := by
  unfold KMem.editCtx
  split
  · rename_i o ho
    split
    · rename_i hw
      simp only [KMem.whole, Bool.and_eq_true] at hw
      refine ok_grown (h := h) ok ⟨fun _ h => h, fun _ h => h, fun _ h => h⟩ (fun a ha => ?_) (fun a s hs => .inl hs) (fun c' o' hc' => ?_)
      · have := ok.fresh a ha
        refine ⟨this.1, this.2.1, this.2.2.1, ?_⟩
        dsimp only
        rw [kput_other]
        · exact this.2.2.2
        · rintro rfl; rw [this.2.2.2] at ho; simp at ho
      · dsimp only at hc'
        by_cases e : c' = c
        · subst e
          rw [kput_same] at hc'
          cases hc'
          exact .inr ⟨hw.1.1, hw.1.2, hw.2⟩
        · rw [kput_other e] at hc'; exact .inl hc'
    · exact ok
  · exact ok

theorem put_supp_ok {h : KMem} (ok : h.Ok) {a : Nat} {s : SuppObj} (h0 : (h.supp a).isSome) (hd : (h.dict s.prot).isSome) :
    ({ h with supp := kput h.supp a s } : KMem).Ok := by
  refine ok_grown ok ⟨fun _ h => h, fun _ h => h, fun b hb => kput_isSome hb⟩ (fun b hb => ?_) (fun b t hb => ?_) (fun _ _ h => .inl h)
  · have := ok.fresh b hb
    refine ⟨this.1, this.2.1, ?_, this.2.2.2⟩
    dsimp only
    rw [kput_other]
    · exact this.2.2.1
    · rintro rfl; simp [this.2.2.1] at h0
  · dsimp only at hb ⊢
    by_cases e : b = a
    · subst e; rw [kput_same] at hb; cases hb; exact .inr hd
    · rw [kput_other e] at hb; exact .inl hb

theorem step_kok {h h' : KMem} (ok : h.Ok) {op : KOp} (hs : h.step op = .ok h') : h'.Ok := by
  have fr := ok.fresh
  cases op with
  | newParty i n o =>
    cases hs
    refine ok_grown ok ⟨fun b hb => kput_isSome hb, fun _ h => h, fun _ h => h⟩ (fun a ha => ?_) (fun _ _ h => .inl h) (fun _ _ h => .inl h)
    dsimp only at ha ⊢
    have := fr a (by omega)
    exact ⟨by rw [kput_other (by omega)]; exact this.1, this.2⟩
  | newDict d =>
    cases hs
    refine ok_grown ok ⟨fun _ h => h, fun b hb => kput_isSome hb, fun _ h => h⟩ (fun a ha => ?_) (fun _ _ h => .inl h) (fun _ _ h => .inl h)
    dsimp only at ha ⊢
    have := fr a (by omega)
    exact ⟨this.1, by rw [kput_other (by omega)]; exact this.2.1, this.2.2⟩
  | newSupp n p o =>
    cases p with
    | none =>
      cases hs
      refine ok_grown ok ⟨fun _ h => h, fun b hb => kput_isSome hb, fun b hb => kput_isSome hb⟩ (fun a ha => ?_) (fun a s hs => ?_) (fun _ _ h => .inl h)
      · dsimp only at ha ⊢
        have := fr a (by omega)
        exact ⟨this.1, by rw [kput_other (by omega)]; exact this.2.1, by rw [kput_other (by omega)]; exact this.2.2.1, this.2.2.2⟩
      · dsimp only at hs ⊢
        by_cases e : a = h.next + 1
        · subst e; rw [kput_same] at hs; cases hs; exact .inr (by rw [kput_same]; rfl)
        · rw [kput_other e] at hs; exact .inl hs
    | some p =>
      simp only [KMem.step] at hs
      split at hs
      · rename_i hp
        cases hs
        refine ok_grown ok ⟨fun _ h => h, fun _ h => h, fun b hb => kput_isSome hb⟩ (fun a ha => ?_) (fun a s hs => ?_) (fun _ _ h => .inl h)
        · dsimp only at ha ⊢
          have := fr a (by omega)
          exact ⟨this.1, this.2.1, by rw [kput_other (by omega)]; exact this.2.2.1, this.2.2.2⟩
        · dsimp only at hs ⊢
          by_cases e : a = h.next
          · subst e; rw [kput_same] at hs; cases hs; exact .inr hp
          · rw [kput_other e] at hs; exact .inl hs
      · cases hs; exact ok
  | newCtx a s u v p =>
    simp only [KMem.step, Except.ok.injEq] at hs
    subst hs
    unfold KMem.addCtx
    split
    · rename_i hw
      simp only [KMem.whole, Bool.and_eq_true] at hw
      refine ok_grown ok ⟨fun _ h => h, fun _ h => h, fun _ h => h⟩ (fun a ha => ?_) (fun _ _ h => .inl h) (fun c o ho => ?_)
      · dsimp only at ha ⊢
        have := fr a (by omega)
        exact ⟨this.1, this.2.1, this.2.2.1, by rw [kput_other (by omega)]; exact this.2.2.2⟩
      · dsimp only at ho ⊢
        by_cases e : c = h.next
        · subst e; rw [kput_same] at ho; cases ho; exact .inr ⟨hw.1.1, hw.1.2, hw.2⟩
        · rw [kput_other e] at ho; exact .inl ho
    · exact ok
  | ofRecipient d uhdr loc alg =>
    simp only [KMem.step] at hs
    split at hs
    · cases hs; exact ok
    · rename_i phdr hd
      obtain ⟨k, hk, hs⟩ := bind_eq_ok.mp hs
      cases hs
      refine ok_grown ok ⟨fun b hb => kput_isSome (kput_isSome hb), fun _ h => h, fun b hb => kput_isSome hb⟩ (fun a ha => ?_) (fun a s hs => ?_) (fun c o ho => ?_)
      · dsimp only at ha ⊢
        have := fr a (by omega)
        exact ⟨by rw [kput_other (by omega), kput_other (by omega)]; exact this.1, this.2.1, by rw [kput_other (by omega)]; exact this.2.2.1,
          by rw [kput_other (by omega)]; exact this.2.2.2⟩
      · dsimp only at hs ⊢
        by_cases e : a = h.next + 2
        · subst e; rw [kput_same] at hs; cases hs; exact .inr (by simp [hd])
        · rw [kput_other e] at hs; exact .inl hs
      · dsimp only at ho ⊢
        by_cases e : c = h.next + 3
        · subst e
          rw [kput_same] at ho
          cases ho
          exact .inr ⟨by simp [kput], by simp [kput], by simp [kput]⟩
        · rw [kput_other e] at ho; exact .inl ho
  | setParty a f v =>
    simp only [KMem.step] at hs
    split at hs
    · rename_i p hp
      cases hs
      refine ok_grown ok ⟨fun b hb => kput_isSome hb, fun _ h => h, fun _ h => h⟩ (fun b hb => ?_) (fun _ _ h => .inl h) (fun _ _ h => .inl h)
      have := fr b hb
      refine ⟨?_, this.2⟩
      dsimp only
      rw [kput_other]
      · exact this.1
      · rintro rfl; simp [this.1] at hp
    · cases hs; exact ok
  | writeDict a d =>
    simp only [KMem.step] at hs
    split at hs
    · rename_i hp
      cases hs
      refine ok_grown ok ⟨fun _ h => h, fun b hb => kput_isSome hb, fun _ h => h⟩ (fun b hb => ?_) (fun _ _ h => .inl h) (fun _ _ h => .inl h)
      have := fr b hb
      refine ⟨this.1, ?_, this.2.2⟩
      dsimp only
      rw [kput_other]
      · exact this.2.1
      · rintro rfl; simp [this.2.1] at hp
    · cases hs; exact ok
  | setLength a n =>
    simp only [KMem.step] at hs
    split at hs
    · rename_i s hp
      split at hs
      · cases hs; exact put_supp_ok ok (by simp [hp]) (ok.prot a s hp)
      · cases hs
    · cases hs; exact ok
  | setProtected a d =>
    simp only [KMem.step] at hs
    split at hs
    · rename_i s hp
      split at hs
      · rename_i hd
        cases hs; exact put_supp_ok ok (by simp [hp]) hd
      · cases hs; exact ok
    · cases hs; exact ok
  | setOther a v =>
    simp only [KMem.step] at hs
    split at hs
    · rename_i s hp
      cases hs; exact put_supp_ok ok (by simp [hp]) (ok.prot a s hp)
    · cases hs; exact ok
  | setAlgorithm c v => cases hs; exact editCtx_ok ok _ _
  | setSupp c s => cases hs; exact editCtx_ok ok _ _
  | setU c p => cases hs; exact editCtx_ok ok _ _
  | setV c p => cases hs; exact editCtx_ok ok _ _
  | setPriv c v => cases hs; exact editCtx_ok ok _ _

theorem krun_ok {p : List KOp} : ∀ {h : KMem}, h.Ok → (KMem.run p h).Ok := by
  induction p with
  | nil => exact id
  | cons op t ih =>
    intro h ok
    rw [KMem.run]
    split
    · rename_i h' hs; exact ih (step_kok ok hs)
    · exact ih ok

theorem ctxReached_ok {h : KMem} (hr : Spec.CtxReached h) : h.Ok := by
  obtain ⟨p, rfl⟩ := hr
  exact krun_ok start_ok

theorem krun_append (p q : List KOp) (h : KMem) : KMem.run (p ++ q) h = KMem.run q (KMem.run p h) := by
  induction p generalizing h with
  | nil => rfl
  | cons op t ih => simp only [List.cons_append, KMem.run]; split <;> exact ih _

/-- The parts of a context in this state. -/
theorem view_parts {h : KMem} (ok : h.Ok) {c : Nat} {o : CtxObj} (ho : h.ctx c = some o) :
    ∃ s d u v, h.supp o.supp = some s ∧ h.dict s.prot = some d ∧ h.party o.u = some u ∧ h.party o.v = some v ∧
      h.view c = some { algorithm := o.algorithm, suppPub := ⟨s.keyDataLength, d, s.other⟩, partyU := u, partyV := v, suppPriv := o.suppPriv } ∧
      Spec.ctxParts h c = [c, o.supp, o.u, o.v, s.prot] := by
  obtain ⟨h1, h2, h3⟩ := ok.whole c o ho
  obtain ⟨s, hs⟩ := Option.isSome_iff_exists.mp h1
  obtain ⟨u, hu⟩ := Option.isSome_iff_exists.mp h2
  obtain ⟨v, hv⟩ := Option.isSome_iff_exists.mp h3
  obtain ⟨d, hd⟩ := Option.isSome_iff_exists.mp (ok.prot _ s hs)
  exact ⟨s, d, u, v, hs, hd, hu, hv, by simp [KMem.view, ho, hs, hd, hu, hv], by simp [Spec.ctxParts, ho, hs]⟩

theorem view_isSome {h : KMem} (ok : h.Ok) {c : Nat} : (h.view c).isSome ↔ (h.ctx c).isSome := by
  cases ho : h.ctx c with
  | none => simp [KMem.view, ho]
  | some o => obtain ⟨s, d, u, v, -, -, -, -, hv, -⟩ := view_parts ok ho; simp [hv]

/-- A state that agrees on the parts of a context shows the same context. -/
theorem view_same {h h' : KMem} {c : Nat} {o : CtxObj} {s : SuppObj} (ho : h.ctx c = some o) (hs : h.supp o.supp = some s)
    (h1 : h'.ctx c = h.ctx c) (h2 : h'.supp o.supp = h.supp o.supp) (h3 : h'.dict s.prot = h.dict s.prot) (h4 : h'.party o.u = h.party o.u)
    (h5 : h'.party o.v = h.party o.v) : h'.view c = h.view c ∧ Spec.ctxParts h' c = Spec.ctxParts h c := by
  simp [KMem.view, Spec.ctxParts, h1, ho, h2, hs, h3, h4, h5]

theorem editCtx_other {h : KMem} {c c' : Nat} {f : CtxObj → CtxObj} (hne : c ≠ c') :
    (h.editCtx c' f).ctx c = h.ctx c ∧ (h.editCtx c' f).supp = h.supp ∧ (h.editCtx c' f).dict = h.dict ∧ (h.editCtx c' f).party = h.party := by
  unfold KMem.editCtx
  split
  · split
    · exact ⟨kput_other hne, rfl, rfl, rfl⟩
    · exact ⟨rfl, rfl, rfl, rfl⟩
  · exact ⟨rfl, rfl, rfl, rfl⟩

/-! ### The property -/

/-- **C95**: in every state a program can reach, every context shows the current values of its parts (and so can be encoded as such). -/
theorem c95_shows {h : KMem} (hr : Spec.CtxReached h) {c : Nat} {o : CtxObj} (ho : h.ctx c = some o) :
    ∃ s d u v, h.supp o.supp = some s ∧ h.dict s.prot = some d ∧ h.party o.u = some u ∧ h.party o.v = some v ∧
      h.encode c = some (KdfContext.encode ⟨o.algorithm, ⟨s.keyDataLength, d, s.other⟩, u, v, o.suppPriv⟩) := by
  obtain ⟨s, d, u, v, h1, h2, h3, h4, h5, -⟩ := view_parts (ctxReached_ok hr) ho
  exact ⟨s, d, u, v, h1, h2, h3, h4, by simp [KMem.encode, h5]⟩

theorem frame_step {h h' : KMem} (ok : h.Ok) {c : Nat} (hc : (h.ctx c).isSome) {op : KOp} (hs : h.step op = .ok h')
    (hn : ∀ a, Spec.changed op = some a → a ∉ Spec.ctxParts h c) : h'.view c = h.view c ∧ Spec.ctxParts h' c = Spec.ctxParts h c ∧ (h'.ctx c).isSome := by
  obtain ⟨o, ho⟩ := Option.isSome_iff_exists.mp hc
  obtain ⟨s, d, u, v, e1, e2, e3, e4, -, ep⟩ := view_parts ok ho
  have lt : ∀ {α : Type} {f : Nat → Option α} {a : Nat} {x : α}, (∀ a, h.next ≤ a → f a = none) → f a = some x → a < h.next :=
    fun hf hx => (fresh_ne hf (by simp [hx])).2
  have lc : c < h.next := lt (fun a ha => (ok.fresh a ha).2.2.2) ho
  have ls : o.supp < h.next := lt (fun a ha => (ok.fresh a ha).2.2.1) e1
  have ld : s.prot < h.next := lt (fun a ha => (ok.fresh a ha).2.1) e2
  have lu : o.u < h.next := lt (fun a ha => (ok.fresh a ha).1) e3
  have lv : o.v < h.next := lt (fun a ha => (ok.fresh a ha).1) e4
  have same : h'.ctx c = h.ctx c → h'.supp o.supp = h.supp o.supp → h'.dict s.prot = h.dict s.prot → h'.party o.u = h.party o.u →
      h'.party o.v = h.party o.v → h'.view c = h.view c ∧ Spec.ctxParts h' c = Spec.ctxParts h c ∧ (h'.ctx c).isSome := by
    intro h1 h2 h3 h4 h5
    obtain ⟨a, b⟩ := view_same ho e1 h1 h2 h3 h4 h5
    exact ⟨a, b, by rw [h1]; exact hc⟩
  have triv : h' = h → h'.view c = h.view c ∧ Spec.ctxParts h' c = Spec.ctxParts h c ∧ (h'.ctx c).isSome := by
    rintro rfl; exact ⟨rfl, rfl, hc⟩
  rw [ep] at hn
  cases op with
  | newParty i n o' => cases hs; exact same rfl rfl rfl (kput_other (by omega)) (kput_other (by omega))
  | newDict d' => cases hs; exact same rfl rfl (kput_other (by omega)) rfl rfl
  | newSupp n p o' =>
    cases p with
    | none => cases hs; exact same rfl (kput_other (by omega)) (kput_other (by omega)) rfl rfl
    | some p =>
      simp only [KMem.step] at hs
      split at hs
      · cases hs; exact same rfl (kput_other (by omega)) rfl rfl rfl
      · cases hs; exact triv rfl
  | newCtx a s' u' v' p =>
    simp only [KMem.step, Except.ok.injEq] at hs
    subst hs
    have hx : ∀ o', h.addCtx o' = { h with ctx := kput h.ctx h.next o', next := h.next + 1 } ∨ h.addCtx o' = h := by
      intro o'; unfold KMem.addCtx; split
      · exact .inl rfl
      · exact .inr rfl
    rcases hx ⟨a, s', u'.getD defaultU, v'.getD defaultV, p⟩ with e | e
    · rw [e] at same ⊢; exact same (kput_other (by omega)) rfl rfl rfl rfl
    · exact triv e
  | ofRecipient d' uhdr loc alg =>
    simp only [KMem.step] at hs
    split at hs
    · cases hs; exact triv rfl
    · obtain ⟨k, hk, hs⟩ := bind_eq_ok.mp hs
      cases hs
      exact same (kput_other (by omega)) (kput_other (by omega)) rfl (by dsimp only; rw [kput_other (by omega), kput_other (by omega)])
        (by dsimp only; rw [kput_other (by omega), kput_other (by omega)])
  | setParty a f x =>
    have := hn a rfl
    simp only [List.mem_cons, not_or] at this
    simp only [KMem.step] at hs
    split at hs
    · cases hs; exact same rfl rfl rfl (kput_other (Ne.symm this.2.2.1)) (kput_other (Ne.symm this.2.2.2.1))
    · cases hs; exact triv rfl
  | writeDict a d' =>
    have := hn a rfl
    simp only [List.mem_cons, not_or] at this
    simp only [KMem.step] at hs
    split at hs
    · cases hs; exact same rfl rfl (kput_other (Ne.symm this.2.2.2.2.1)) rfl rfl
    · cases hs; exact triv rfl
  | setLength a n =>
    have := hn a rfl
    simp only [List.mem_cons, not_or] at this
    simp only [KMem.step] at hs
    split at hs
    · split at hs
      · cases hs; exact same rfl (kput_other (Ne.symm this.2.1)) rfl rfl rfl
      · cases hs
    · cases hs; exact triv rfl
  | setProtected a d' =>
    have := hn a rfl
    simp only [List.mem_cons, not_or] at this
    simp only [KMem.step] at hs
    split at hs
    · split at hs
      · cases hs; exact same rfl (kput_other (Ne.symm this.2.1)) rfl rfl rfl
      · cases hs; exact triv rfl
    · cases hs; exact triv rfl
  | setOther a x =>
    have := hn a rfl
    simp only [List.mem_cons, not_or] at this
    simp only [KMem.step] at hs
    split at hs
    · cases hs; exact same rfl (kput_other (Ne.symm this.2.1)) rfl rfl rfl
    · cases hs; exact triv rfl
  | setAlgorithm c' x | setSupp c' x | setU c' x | setV c' x | setPriv c' x =>
    have := hn c' rfl
    simp only [List.mem_cons, not_or] at this
    cases hs
    obtain ⟨h1, h2, h3, h4⟩ := editCtx_other (h := h) (f := _) (Ne.symm this.1)
    exact same h1 (by rw [h2]) (by rw [h3]) (by rw [h4]) (by rw [h4])

/-- **C95**: a program that changes none of the parts of a context leaves it, and its encoding, as they are, whatever else it does. -/
theorem c95_frame {h : KMem} (hr : Spec.CtxReached h) {c : Nat} (hc : (h.ctx c).isSome) {p : List KOp}
    (hp : ∀ op ∈ p, ∀ a, Spec.changed op = some a → a ∉ Spec.ctxParts h c) : (KMem.run p h).view c = h.view c ∧ (KMem.run p h).encode c = h.encode c := by
  have key : ∀ (p : List KOp) (h : KMem), h.Ok → (h.ctx c).isSome → (∀ op ∈ p, ∀ a, Spec.changed op = some a → a ∉ Spec.ctxParts h c) →
      (KMem.run p h).view c = h.view c := by
    intro p
    induction p with
    | nil => intros; rfl
    | cons op t ih =>
      intro h ok hc hp
      rw [KMem.run]
      split
      · rename_i h' hs
        obtain ⟨a, b, d⟩ := frame_step ok hc hs (hp op (by simp))
        rw [ih h' (step_kok ok hs) d (by rw [b]; exact fun op' ho => hp op' (by simp [ho])), a]
      · exact ih h ok hc fun op' ho => hp op' (by simp [ho])
  have := key p h (ctxReached_ok hr) hc hp
  exact ⟨this, by rw [KMem.encode, KMem.encode, this]⟩

/-- **C95**: who sees an assignment to a party: exactly the contexts that refer to this party, in the role in which they refer to it. -/
theorem c95_party_seen {h : KMem} (hr : Spec.CtxReached h) {a : Nat} {q : PartyInfo} (ha : h.party a = some q) (f : PartyField) (x : Val) :
    ∃ h', h.step (.setParty a f x) = .ok h' ∧ ∀ c o k, h.ctx c = some o → h.view c = some k →
      h'.view c = some { k with partyU := if o.u = a then Spec.assigned q f x else k.partyU, partyV := if o.v = a then Spec.assigned q f x else k.partyV } := by
  have he : q.assign f x = Spec.assigned q f x := by cases f <;> rfl
  rw [← he]
  refine ⟨{ h with party := kput h.party a (q.assign f x) }, by simp [KMem.step, ha], fun c o k ho hk => ?_⟩
  obtain ⟨s, d, u, v, e1, e2, e3, e4, e5, -⟩ := view_parts (ctxReached_ok hr) ho
  rw [hk] at e5
  cases e5
  simp only [KMem.view, ho]
  by_cases hu : o.u = a <;> by_cases hv : o.v = a <;> simp [kput, hu, hv, e3, e4]
  all_goals grind

/-- **C95**: who sees a change of a protected header: exactly the contexts whose supplementary information refers to that dictionary. -/
theorem c95_protected_seen {h : KMem} (hr : Spec.CtxReached h) {a : Nat} (ha : (h.dict a).isSome) (d : Dict) :
    ∃ h', h.step (.writeDict a d) = .ok h' ∧ ∀ c o s k, h.ctx c = some o → h.supp o.supp = some s → h.view c = some k →
      h'.view c = some { k with suppPub := { k.suppPub with isProtected := if s.prot = a then d else k.suppPub.isProtected } } := by
  refine ⟨{ h with dict := kput h.dict a d }, by simp [KMem.step, ha], fun c o s k ho hs hk => ?_⟩
  obtain ⟨s', d', u, v, e1, e2, e3, e4, e5, -⟩ := view_parts (ctxReached_ok hr) ho
  rw [hk] at e5
  cases e5
  rw [hs] at e1
  cases e1
  by_cases hp : s.prot = a <;> simp [KMem.view, ho, hs, e2, e3, e4, kput, hp]

/-- **C95**: who sees an assignment to the supplementary information: exactly the contexts that refer to it.  A key length other than 16, 24 and 32 raises `ValueError`. -/
theorem c95_supp_seen {h : KMem} (hr : Spec.CtxReached h) {a : Nat} {s : SuppObj} (ha : h.supp a = some s) :
    (∀ x, ∃ h', h.step (.setOther a x) = .ok h' ∧ ∀ c o k, h.ctx c = some o → h.view c = some k →
      h'.view c = some { k with suppPub := if o.supp = a then { k.suppPub with other := x } else k.suppPub }) ∧
    (∀ n, n = 16 ∨ n = 24 ∨ n = 32 → ∃ h', h.step (.setLength a n) = .ok h' ∧ ∀ c o k, h.ctx c = some o → h.view c = some k →
      h'.view c = some { k with suppPub := if o.supp = a then { k.suppPub with keyDataLength := n } else k.suppPub }) ∧
    (∀ n, n ≠ 16 → n ≠ 24 → n ≠ 32 → h.step (.setLength a n) = .error .valueError) ∧
    (∀ b d, h.dict b = some d → ∃ h', h.step (.setProtected a b) = .ok h' ∧ ∀ c o k, h.ctx c = some o → h.view c = some k →
      h'.view c = some { k with suppPub := if o.supp = a then { k.suppPub with isProtected := d } else k.suppPub }) := by
  have key : ∀ (t : SuppObj) (d' : Dict), h.dict t.prot = some d' → ∀ c o k, h.ctx c = some o → h.view c = some k →
      ({ h with supp := kput h.supp a t } : KMem).view c = some { k with suppPub := if o.supp = a then ⟨t.keyDataLength, d', t.other⟩ else k.suppPub } := by
    intro t d' hd c o k ho hk
    obtain ⟨s', d0, u, v, e1, e2, e3, e4, e5, -⟩ := view_parts (ctxReached_ok hr) ho
    rw [hk] at e5
    cases e5
    by_cases hp : o.supp = a <;> simp [KMem.view, ho, e1, e2, e3, e4, kput, hp, hd]
  have own : ∀ {c : Nat} {o : CtxObj} {k : KdfContext} {d' : Dict}, h.dict s.prot = some d' → h.ctx c = some o → h.view c = some k → o.supp = a →
      k.suppPub = ⟨s.keyDataLength, d', s.other⟩ := by
    intro c o k d' hd ho hk he
    obtain ⟨s', d0, u, v, e1, e2, e3, e4, e5, -⟩ := view_parts (ctxReached_ok hr) ho
    rw [hk] at e5
    cases e5
    rw [he, ha] at e1
    cases e1
    rw [hd] at e2
    cases e2
    rfl
  obtain ⟨d0, hd0⟩ := Option.isSome_iff_exists.mp ((ctxReached_ok hr).prot a s ha)
  refine ⟨fun x => ⟨{ h with supp := kput h.supp a { s with other := x } }, by simp only [KMem.step, ha], fun c o k ho hk => ?_⟩,
    fun n hn => ⟨{ h with supp := kput h.supp a { s with keyDataLength := n } }, by simp only [KMem.step, ha, if_pos hn], fun c o k ho hk => ?_⟩, ?_,
    fun b d hb => ⟨{ h with supp := kput h.supp a { s with prot := b } }, by simp only [KMem.step, ha, hb, Option.isSome_some, if_true], fun c o k ho hk => ?_⟩⟩
  · rw [key { s with other := x } d0 hd0 c o k ho hk]
    by_cases he : o.supp = a
    · simp [he, own hd0 ho hk he]
    · simp [he]
  · rw [key { s with keyDataLength := n } d0 hd0 c o k ho hk]
    by_cases he : o.supp = a
    · simp [he, own hd0 ho hk he]
    · simp [he]
  · intro n h1 h2 h3
    simp [KMem.step, ha, h1, h2, h3]
  · rw [key { s with prot := b } d hb c o k ho hk]
    by_cases he : o.supp = a
    · simp [he, own hd0 ho hk he]
    · simp [he]

/-- **C95**: a context constructed from parts shows them; without a party it shows the default object's current value. -/
theorem c95_new {h : KMem} (hr : Spec.CtxReached h) {a : Nat} {s : SuppObj} {d : Dict} (ha : h.supp a = some s) (hd : h.dict s.prot = some d) (u v : Option Nat)
    {pu pv : PartyInfo} (hu : h.party (u.getD defaultU) = some pu) (hv : h.party (v.getD defaultV) = some pv) (alg priv : Val) :
    ∃ h' c, h.step (.newCtx alg a u v priv) = .ok h' ∧ h.ctx c = none ∧ h'.view c = some ⟨alg, ⟨s.keyDataLength, d, s.other⟩, pu, pv, priv⟩ := by
  refine ⟨{ h with ctx := kput h.ctx h.next ⟨alg, a, u.getD defaultU, v.getD defaultV, priv⟩, next := h.next + 1 }, h.next, ?_,
    ((ctxReached_ok hr).fresh _ (Nat.le_refl _)).2.2.2, ?_⟩
  · simp [KMem.step, KMem.addCtx, KMem.whole, ha, hu, hv]
  · simp [KMem.view, kput, ha, hd, hu, hv]

/-- **C95**: new parts hold what they are constructed with; supplementary information constructed without a protected header gets an empty dictionary of its own. -/
theorem c95_new_parts {h : KMem} (hr : Spec.CtxReached h) :
    (∀ i n o, ∃ h' a, h.step (.newParty i n o) = .ok h' ∧ h.party a = none ∧ h'.party a = some ⟨i, n, o⟩) ∧
    (∀ n o, ∃ h' a b, h.step (.newSupp n none o) = .ok h' ∧ h.supp a = none ∧ h.dict b = none ∧ h'.supp a = some ⟨n, b, o⟩ ∧ h'.dict b = some [] ∧
      ∀ a' s, a' ≠ a → h'.supp a' = some s → s.prot ≠ b) ∧
    (∀ n o b, (h.dict b).isSome → ∃ h' a, h.step (.newSupp n (some b) o) = .ok h' ∧ h.supp a = none ∧ h'.supp a = some ⟨n, b, o⟩) := by
  have ok := ctxReached_ok hr
  refine ⟨fun i n o => ⟨_, h.next, rfl, (ok.fresh _ (Nat.le_refl _)).1, kput_same⟩, fun n o => ⟨_, h.next + 1, h.next, rfl, (ok.fresh _ (by omega)).2.2.1,
    (ok.fresh _ (Nat.le_refl _)).2.1, kput_same, kput_same, fun a' s hne hs => ?_⟩, fun n o b hb => ⟨{ h with supp := kput h.supp h.next ⟨n, b, o⟩, next := h.next + 1 }, h.next, by simp only [KMem.step, hb, if_true],
    (ok.fresh _ (Nat.le_refl _)).2.2.1, kput_same⟩⟩
  dsimp only at hs
  rw [kput_other hne] at hs
  intro he
  have := ok.prot a' s hs
  rw [he, (ok.fresh _ (Nat.le_refl _)).2.1] at this
  simp at this

/-- **C95**: the attributes of a context itself are its own: assigning one changes this context only, and only in this attribute. -/
theorem c95_attributes {h : KMem} (hr : Spec.CtxReached h) {c : Nat} {o : CtxObj} {k : KdfContext} (ho : h.ctx c = some o) (hk : h.view c = some k) (x : Val) :
    (∃ h', h.step (.setAlgorithm c x) = .ok h' ∧ h'.view c = some { k with algorithm := x }) ∧
    (∃ h', h.step (.setPriv c x) = .ok h' ∧ h'.view c = some { k with suppPriv := x }) ∧
    (∀ a q, h.party a = some q → ∃ h', h.step (.setU c a) = .ok h' ∧ h'.view c = some { k with partyU := q }) ∧
    (∀ a q, h.party a = some q → ∃ h', h.step (.setV c a) = .ok h' ∧ h'.view c = some { k with partyV := q }) ∧
    (∀ a s d, h.supp a = some s → h.dict s.prot = some d →
      ∃ h', h.step (.setSupp c a) = .ok h' ∧ h'.view c = some { k with suppPub := ⟨s.keyDataLength, d, s.other⟩ }) := by
  obtain ⟨s', d', u, v, e1, e2, e3, e4, e5, -⟩ := view_parts (ctxReached_ok hr) ho
  rw [hk] at e5
  cases e5
  refine ⟨⟨_, rfl, ?_⟩, ⟨_, rfl, ?_⟩, fun a q hq => ⟨_, rfl, ?_⟩, fun a q hq => ⟨_, rfl, ?_⟩, fun a s d hs hd => ⟨_, rfl, ?_⟩⟩
  all_goals simp_all [KMem.editCtx, KMem.whole, KMem.view, kput]

/-- **C95**: the context that `get_kdf_context` returns shows what the recipient's headers say, has new parts, and its protected header is the recipient's own
dictionary. -/
theorem c95_recipient {h : KMem} (hr : Spec.CtxReached h) {d : Nat} {phdr uhdr loc : Dict} {alg : Val} {k : KdfContext} (hd : h.dict d = some phdr)
    (hk : kdfContext { phdr := phdr, uhdr := uhdr, localAttrs := loc } alg = .ok k) :
    ∃ h' c, h.step (.ofRecipient d uhdr loc alg) = .ok h' ∧ h'.view c = some k ∧ d ∈ Spec.ctxParts h' c ∧
      (∀ a ∈ Spec.ctxParts h' c, a ≠ d → h.party a = none ∧ h.dict a = none ∧ h.supp a = none ∧ h.ctx a = none) ∧
      ∀ c', c' ≠ c → ∀ a ∈ Spec.ctxParts h' c', a ∈ Spec.ctxParts h' c → a = d := by
  have ok := ctxReached_ok hr
  have hp : k.suppPub.isProtected = phdr := by
    simp only [kdfContext, SuppPubInfo.init, bind_eq_ok, Except.ok.injEq] at hk
    obtain ⟨_, _, _, _, _, _, _, _, _, _, _, _, _, _, sp, rfl, rfl⟩ := hk
    rfl
  have hs : h.step (.ofRecipient d uhdr loc alg) = .ok { h with
      party := kput (kput h.party h.next k.partyU) (h.next + 1) k.partyV,
      supp := kput h.supp (h.next + 2) ⟨k.suppPub.keyDataLength, d, k.suppPub.other⟩,
      ctx := kput h.ctx (h.next + 3) ⟨k.algorithm, h.next + 2, h.next, h.next + 1, k.suppPriv⟩,
      next := h.next + 4 } := by simp [KMem.step, hd, hk, bind, Except.bind]
  have ok' := step_kok ok hs
  refine ⟨_, h.next + 3, hs, ?_, ?_, ?_, ?_⟩
  · cases k with
    | mk a sp u v p => cases sp; simp_all [KMem.view, kput]
  · simp [Spec.ctxParts, kput]
  · intro a ha hne
    simp [Spec.ctxParts, kput] at ha
    exact ok.fresh a (by omega)
  · intro c' hne a ha hc
    have hc' : a = d ∨ h.next ≤ a := by simp [Spec.ctxParts, kput] at hc; omega
    refine hc'.resolve_right fun hge => ?_
    simp only [Spec.ctxParts, kput_other hne] at ha
    split at ha
    · simp at ha
    · rename_i o ho
      obtain ⟨s, d', u, v, e1, e2, e3, e4, -, -⟩ := view_parts ok ho
      have hs' : o.supp < h.next := (fresh_ne (fun a ha => (ok.fresh a ha).2.2.1) (by simp [e1] : (h.supp o.supp).isSome)).2
      rw [kput_other (by omega), e1] at ha
      simp only [List.mem_append, List.mem_cons, List.not_mem_nil, or_false, Option.map_some, Option.toList_some] at ha
      have fr := ok.fresh a hge
      rcases ha with (rfl | rfl | rfl | rfl) | rfl
      · simp [fr.2.2.2] at ho
      · simp [fr.2.2.1] at e1
      · simp [fr.1] at e3
      · simp [fr.1] at e4
      · simp [fr.2.1] at e2

/-- **C95**: so the context follows the recipient's protected header: after a change of that dictionary it shows the new one. -/
theorem c95_recipient_live {h : KMem} {d : Nat} {phdr uhdr loc : Dict} {alg : Val} {k : KdfContext} (hd : h.dict d = some phdr)
    (hk : kdfContext { phdr := phdr, uhdr := uhdr, localAttrs := loc } alg = .ok k) (phdr' : Dict) :
    (KMem.run [.ofRecipient d uhdr loc alg, .writeDict d phdr'] h).view (h.next + 3) = some { k with suppPub := { k.suppPub with isProtected := phdr' } } := by
  cases k with
  | mk a sp u v p => simp [KMem.run, KMem.step, hd, hk, bind, Except.bind, KMem.view, kput]

/-- **C95**: key lengths: if every `SuppPubInfo` of a program is constructed with 16, 24 or 32, then every one has such a length at any time, whatever is assigned. -/
theorem c95_lengths {p : List KOp} (hp : ∀ n d o, KOp.newSupp n d o ∈ p → n = 16 ∨ n = 24 ∨ n = 32) {a : Nat} {s : SuppObj}
    (hs : (KMem.run p KMem.start).supp a = some s) : s.keyDataLength = 16 ∨ s.keyDataLength = 24 ∨ s.keyDataLength = 32 := by
  have key : ∀ (p : List KOp) (h : KMem), (∀ n d o, KOp.newSupp n d o ∈ p → n = 16 ∨ n = 24 ∨ n = 32) →
      (∀ a s, h.supp a = some s → s.keyDataLength = 16 ∨ s.keyDataLength = 24 ∨ s.keyDataLength = 32) →
      ∀ a s, (KMem.run p h).supp a = some s → s.keyDataLength = 16 ∨ s.keyDataLength = 24 ∨ s.keyDataLength = 32 := by
    intro p
    induction p with
    | nil => exact fun h _ hi => hi
    | cons op t ih =>
      intro h hp hi
      rw [KMem.run]
      split
      · rename_i h' hs
        refine ih h' (fun n d o hm => hp n d o (by simp [hm])) ?_
        have put : ∀ (a : Nat) (s : SuppObj), (s.keyDataLength = 16 ∨ s.keyDataLength = 24 ∨ s.keyDataLength = 32) →
            ∀ b t, kput h.supp a s b = some t → t.keyDataLength = 16 ∨ t.keyDataLength = 24 ∨ t.keyDataLength = 32 := by
          intro a s hl b t ht
          by_cases e : b = a
          · subst e; rw [kput_same] at ht; cases ht; exact hl
          · rw [kput_other e] at ht; exact hi b t ht
        have edit : ∀ (c : Nat) (f : CtxObj → CtxObj), (h.editCtx c f).supp = h.supp := by
          intro c f; unfold KMem.editCtx; split <;> (try split) <;> rfl
        cases op with
        | newSupp n d o =>
          have hl := hp n d o (by simp)
          cases d with
          | none => cases hs; exact put _ _ hl
          | some d =>
            simp only [KMem.step] at hs
            split at hs <;> cases hs
            · exact put _ _ hl
            · exact hi
        | newCtx x1 x2 x3 x4 x5 =>
          simp only [KMem.step, KMem.addCtx] at hs
          split at hs <;> cases hs <;> exact hi
        | ofRecipient d uhdr loc alg =>
          simp only [KMem.step] at hs
          split at hs
          · cases hs; exact hi
          · obtain ⟨k, hk, hs⟩ := bind_eq_ok.mp hs
            cases hs
            exact put _ _ (c49_recipient_length hk)
        | setLength a n =>
          simp only [KMem.step] at hs
          split at hs
          · split at hs
            · rename_i hn; cases hs; exact put _ _ hn
            · cases hs
          · cases hs; exact hi
        | setProtected a d =>
          simp only [KMem.step] at hs
          split at hs
          · rename_i s0 h0
            split at hs <;> cases hs
            · exact put _ _ (hi a s0 h0)
            · exact hi
          · cases hs; exact hi
        | setOther a x =>
          simp only [KMem.step] at hs
          split at hs
          · rename_i s0 h0
            cases hs; exact put _ _ (hi a s0 h0)
          · cases hs; exact hi
        | newParty _ _ _ => cases hs; exact hi
        | newDict _ => cases hs; exact hi
        | setParty _ _ _ => simp only [KMem.step] at hs; split at hs <;> cases hs <;> exact hi
        | writeDict _ _ => simp only [KMem.step] at hs; split at hs <;> cases hs <;> exact hi
        | setAlgorithm _ _ => cases hs; rw [edit]; exact hi
        | setSupp _ _ => cases hs; rw [edit]; exact hi
        | setU _ _ => cases hs; rw [edit]; exact hi
        | setV _ _ => cases hs; rw [edit]; exact hi
        | setPriv _ _ => cases hs; rw [edit]; exact hi
      · exact ih h (fun n d o hm => hp n d o (by simp [hm])) hi
  exact key p KMem.start hp (by simp [KMem.start]) a s hs

/-! ### Contexts constructed without party information -/

theorem newCtx_step {h : KMem} (ok : h.Ok) {alg : Val} {s : Nat} (hs : (h.supp s).isSome) (p : Val) :
    h.step (.newCtx alg s none none p) = .ok { h with ctx := kput h.ctx h.next ⟨alg, s, defaultU, defaultV, p⟩, next := h.next + 1 } := by
  simp [KMem.step, KMem.addCtx, KMem.whole, hs, ok.default]

/-- **C95**, the part that holds: as long as nothing is assigned to the party information that a context was given by default, a context constructed without party
information has empty party information. -/
theorem c95_default_partial {p : List KOp} (hp : ∀ a f v, KOp.setParty a f v ∈ p → a ≠ defaultU ∧ a ≠ defaultV) {alg : Val} {s : Nat} {priv : Val}
    (hs : ((KMem.run p KMem.start).supp s).isSome) :
    ∃ h' c k, (KMem.run p KMem.start).step (.newCtx alg s none none priv) = .ok h' ∧ h'.view c = some k ∧ k.partyU = {} ∧ k.partyV = {} := by
  have ok : (KMem.run p KMem.start).Ok := krun_ok start_ok
  have key : ∀ (p : List KOp) (h : KMem), h.Ok → (∀ a f v, KOp.setParty a f v ∈ p → a ≠ defaultU ∧ a ≠ defaultV) →
      h.party defaultU = some {} ∧ h.party defaultV = some {} → (KMem.run p h).party defaultU = some {} ∧ (KMem.run p h).party defaultV = some {} := by
    intro p
    induction p with
    | nil => exact fun h _ _ hi => hi
    | cons op t ih =>
      intro h ok hp hi
      rw [KMem.run]
      split
      · rename_i h' hs
        refine ih h' (step_kok ok hs) (fun a f v hm => hp a f v (by simp [hm])) ?_
        have edit : ∀ (c : Nat) (f : CtxObj → CtxObj), (h.editCtx c f).party = h.party := by
          intro c f; unfold KMem.editCtx; split <;> (try split) <;> rfl
        have l1 : defaultU < h.next := (fresh_ne (fun a ha => (ok.fresh a ha).1) ok.default.1).2
        have l2 : defaultV < h.next := (fresh_ne (fun a ha => (ok.fresh a ha).1) ok.default.2).2
        cases op with
        | newParty _ _ _ => cases hs; dsimp only; rw [kput_other (by omega), kput_other (by omega)]; exact hi
        | setParty a f v =>
          obtain ⟨n1, n2⟩ := hp a f v (by simp)
          simp only [KMem.step] at hs
          split at hs <;> cases hs
          · dsimp only; rw [kput_other (Ne.symm n1), kput_other (Ne.symm n2)]; exact hi
          · exact hi
        | ofRecipient d uhdr loc alg =>
          simp only [KMem.step] at hs
          split at hs
          · cases hs; exact hi
          · obtain ⟨k, hk, hs⟩ := bind_eq_ok.mp hs
            cases hs
            dsimp only
            rw [kput_other (by omega), kput_other (by omega), kput_other (by omega), kput_other (by omega)]
            exact hi
        | newDict _ => cases hs; exact hi
        | newSupp n d o =>
          cases d with
          | none => cases hs; exact hi
          | some d => simp only [KMem.step] at hs; split at hs <;> cases hs <;> exact hi
        | newCtx _ _ _ _ _ => simp only [KMem.step, KMem.addCtx] at hs; split at hs <;> cases hs <;> exact hi
        | writeDict _ _ => simp only [KMem.step] at hs; split at hs <;> cases hs <;> exact hi
        | setLength _ _ =>
          simp only [KMem.step] at hs
          split at hs
          · split at hs <;> cases hs; exact hi
          · cases hs; exact hi
        | setProtected _ _ =>
          simp only [KMem.step] at hs
          split at hs
          · split at hs <;> cases hs <;> exact hi
          · cases hs; exact hi
        | setOther _ _ => simp only [KMem.step] at hs; split at hs <;> cases hs <;> exact hi
        | setAlgorithm _ _ => cases hs; rw [edit]; exact hi
        | setSupp _ _ => cases hs; rw [edit]; exact hi
        | setU _ _ => cases hs; rw [edit]; exact hi
        | setV _ _ => cases hs; rw [edit]; exact hi
        | setPriv _ _ => cases hs; rw [edit]; exact hi
      · exact ih h ok (fun a f v hm => hp a f v (by simp [hm])) hi
  have hd := key p KMem.start start_ok hp (by simp [KMem.start, kput, defaultU, defaultV])
  have hst := newCtx_step ok (alg := alg) hs priv
  have ok' := step_kok ok hst
  obtain ⟨s0, d, u, v, e1, e2, e3, e4, e5, -⟩ := view_parts ok' (c := (KMem.run p KMem.start).next) (by dsimp only; rw [kput_same])
  dsimp only at e3 e4
  rw [hd.1] at e3
  rw [hd.2] at e4
  cases e3; cases e4
  exact ⟨_, _, _, hst, e5, rfl, rfl⟩

/-- **C95**, the part that fails, for every state and every two contexts constructed without party information: what is assigned to the party information of the first
shows in the second. -/
theorem c95_default_shared {h : KMem} (hr : Spec.CtxReached h) {alg alg' : Val} {s s' : Nat} (hs : (h.supp s).isSome) (hs' : (h.supp s').isSome) (p p' x : Val) :
    let h2 := KMem.run [.newCtx alg s none none p, .newCtx alg' s' none none p'] h
    ∃ o k, h2.ctx h.next = some o ∧ (KMem.run [.setParty o.u .identity x] h2).view (h.next + 1) = some k ∧ k.partyU.identity = x := by
  have ok := ctxReached_ok hr
  have st1 := newCtx_step ok (alg := alg) hs p
  have ok1 := step_kok ok st1
  have st2 := newCtx_step ok1 (alg := alg') (s := s') hs' p'
  have ok2 := step_kok ok1 st2
  intro h2
  have e : h2 = { h with ctx := kput (kput h.ctx h.next ⟨alg, s, defaultU, defaultV, p⟩) (h.next + 1) ⟨alg', s', defaultU, defaultV, p'⟩, next := h.next + 2 } := by
    show KMem.run _ h = _
    simp only [KMem.run, st1, st2]
  replace ok2 : h2.Ok := by rw [e]; exact ok2
  obtain ⟨q, hq⟩ := Option.isSome_iff_exists.mp ok2.default.1
  have hc1 : h2.ctx h.next = some ⟨alg, s, defaultU, defaultV, p⟩ := by rw [e]; simp [kput]
  have hc2 : h2.ctx (h.next + 1) = some ⟨alg', s', defaultU, defaultV, p'⟩ := by rw [e]; simp [kput]
  have hr2 : Spec.CtxReached h2 := by
    obtain ⟨w, rfl⟩ := hr
    exact ⟨w ++ [.newCtx alg s none none p, .newCtx alg' s' none none p'], (krun_append _ _ _).symm⟩
  obtain ⟨h', hst, hv⟩ := c95_party_seen hr2 hq .identity x
  obtain ⟨s0, d, u, v, -, -, -, -, e5, -⟩ := view_parts ok2 hc2
  have := hv _ _ _ hc2 e5
  refine ⟨_, _, hc1, by simp only [KMem.run, hst]; exact this, by simp [Spec.assigned]⟩

/-- The program: two contexts, then `first.party_u_info.identity = b'alice'`. -/
def exCtx : List KOp := [.newSupp 16 none (.bytes []), .newCtx (algCls 1) 3 none none (.bytes []), .newCtx (algCls 3) 3 none none (.bytes [])]

/-- **C95** is false for the code: the second context, which the program does not touch, encodes differently afterwards, and so does a context constructed later. -/
theorem c95_refuted :
    (KMem.run exCtx KMem.start).encode 5 = some (.ok [0x84, 3, 0x83, 0xf6, 0xf6, 0xf6, 0x83, 0xf6, 0xf6, 0xf6, 0x82, 0x18, 0x80, 0x41, 0xa0]) ∧
    (KMem.run (exCtx ++ [.setParty 0 .identity (.bytes b!"alice")]) KMem.start).encode 5 =
      some (.ok ([0x84, 3, 0x83, 0x45] ++ b!"alice" ++ [0xf6, 0xf6, 0x83, 0xf6, 0xf6, 0xf6, 0x82, 0x18, 0x80, 0x41, 0xa0])) ∧
    (KMem.run (exCtx ++ [.setParty 0 .identity (.bytes b!"alice"), .newCtx (algCls 2) 3 none none (.bytes [])]) KMem.start).encode 6 =
      some (.ok ([0x84, 2, 0x83, 0x45] ++ b!"alice" ++ [0xf6, 0xf6, 0x83, 0xf6, 0xf6, 0xf6, 0x82, 0x18, 0x80, 0x41, 0xa0])) := by
  decide +kernel

/-! ### Instances -/

example : ((KMem.run exCtx KMem.start).ctx 4).isSome ∧ ((KMem.run exCtx KMem.start).ctx 5).isSome ∧ Spec.ctxParts (KMem.run exCtx KMem.start) 5 = [5, 3, 0, 1, 2] := by
  decide +kernel
/-- A program that changes another party and the attributes of the first context leaves the second as it is. -/
example : (KMem.run [.newParty (.bytes [1]) .none .none, .setU 4 6, .setParty 6 .nonce (.bytes [2]), .setPriv 4 (.bytes [3])] (KMem.run exCtx KMem.start)).encode 5 =
    (KMem.run exCtx KMem.start).encode 5 := by
  refine (c95_frame ⟨exCtx, rfl⟩ (by decide +kernel) ?_).2
  have : Spec.ctxParts (KMem.run exCtx KMem.start) 5 = [5, 3, 0, 1, 2] := by decide +kernel
  rw [this]
  simp [Spec.changed]
/-- A recipient's context, and the recipient's protected header changed afterwards. -/
example : ∃ k, kdfContext { phdr := [(.cls Hdr.Algorithm, algCls (-25))], uhdr := [(.cls Hdr.PartyUID, .bytes [1])], localAttrs := [] } (algCls 1) = .ok k ∧
    k.partyU = ⟨.bytes [1], .none, .none⟩ ∧ k.suppPub.keyDataLength = 16 := ⟨_, rfl, rfl, rfl⟩

end Cose
