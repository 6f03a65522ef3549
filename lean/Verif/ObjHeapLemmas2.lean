import Verif.ObjHeapLemmas
import Verif.Props.MsgObj
/-!
# Lemmas about header dictionaries as objects, second part
-/
set_option autoImplicit false
namespace Cose

/-! ### Dictionaries of messages inside other objects -/

/-- No object refers to the dictionary of a message. -/
def Mem.Flat (h : Mem) : Prop := ∀ a c, h.cell a = some c → ∀ m o, h.msg m = some o → ∀ b ∈ o.dicts, .ref b ∉ c.elems

theorem flat_reach {h : Mem} (hf : h.Flat) {e : Elem} {b : Nat} (hr : h.Reaches e b) {m : Nat} {o : MObj} (hm : h.msg m = some o) (hb : b ∈ o.dicts) : e = .ref b := by
  induction hr with
  | self => rfl
  | step hc he _ ih =>
    have := ih hb
    subst this
    exact absurd he (hf _ _ hc m o hm _ hb)

/-- An object that shows a value is not reached from its own entries. -/
theorem shows_acyclic {h : Mem} {a b : Nat} {c : Cell} {e : Elem} {v : Val} (hv : Spec.Shows h (.ref a) v) (hr : h.Reaches (.ref a) b) (hc : h.cell b = some c)
    (he : e ∈ c.elems) : ¬ h.Reaches e a := by
  have elems : ∀ {n : Nat} {c : Cell} {v : Val} {x : Nat}, h.cell x = some c → valueAt h.cell (n + 1) (.ref x) = some v → ∀ e ∈ c.elems, ∃ w, valueAt h.cell n e = some w := by
    intro n c v x hx hv e he
    rw [valueAt] at hv
    have hl : ∀ {l : List Elem} {vs : List Val}, valuesL (valueAt h.cell n) l = some vs → ∀ e ∈ l, ∃ w, valueAt h.cell n e = some w := by
      intro l
      induction l with
      | nil => simp
      | cons y t ih =>
        intro vs hvs e he
        simp only [valuesL] at hvs
        cases h1 : valueAt h.cell n y with
        | none => simp [h1] at hvs
        | some w =>
          cases h2 : valuesL (valueAt h.cell n) t with
          | none => simp [h1, h2] at hvs
          | some ws =>
            rcases List.mem_cons.mp he with rfl | he
            · exact ⟨w, h1⟩
            · exact ih h2 e he
    have hd : ∀ {l : List (Val × Elem)} {vs : Dict}, valuesD (valueAt h.cell n) l = some vs → ∀ e ∈ l.map (·.2), ∃ w, valueAt h.cell n e = some w := by
      intro l
      induction l with
      | nil => simp
      | cons y t ih =>
        obtain ⟨k, y⟩ := y
        intro vs hvs e he
        simp only [valuesD] at hvs
        cases h1 : valueAt h.cell n y with
        | none => simp [h1] at hvs
        | some w =>
          cases h2 : valuesD (valueAt h.cell n) t with
          | none => simp [h1, h2] at hvs
          | some ws =>
            rcases List.mem_cons.mp he with rfl | he
            · exact ⟨w, h1⟩
            · exact ih h2 e he
    cases c with
    | list l => simp only [hx, Option.map_eq_some_iff] at hv; obtain ⟨vs, h1, _⟩ := hv; exact hl h1 e he
    | dict l => simp only [hx, Option.map_eq_some_iff] at hv; obtain ⟨vs, h1, _⟩ := hv; exact hd h1 e he
    | key k l => simp only [hx, Option.map_eq_some_iff] at hv; obtain ⟨vs, h1, _⟩ := hv; exact hd h1 e he
  -- every object on a path has a value at a smaller depth
  have path : ∀ {e : Elem} {b : Nat}, h.Reaches e b → ∀ {n : Nat} {v : Val}, valueAt h.cell n e = some v → (∃ w, valueAt h.cell n (.ref b) = some w) := by
    intro e b hr
    induction hr with
    | self => exact fun hv => ⟨_, hv⟩
    | step hc he _ ih =>
      intro n v hv
      cases n with
      | zero => simp [valueAt] at hv
      | succ n =>
        obtain ⟨w, hw⟩ := elems hc hv _ he
        obtain ⟨w', hw'⟩ := ih hw
        exact ⟨w', valueAt_mono hw'⟩
  intro hback
  have down : ∀ n v, valueAt h.cell n (.ref a) ≠ some v := by
    intro n
    induction n with
    | zero => intro v hv; simp [valueAt] at hv
    | succ n ih =>
      intro v hv
      obtain ⟨w, hw⟩ := path hr hv
      obtain ⟨w2, hw2⟩ := elems hc hw e he
      obtain ⟨w3, hw3⟩ := path hback hw2
      exact ih w3 hw3
  obtain ⟨n, hn⟩ := hv
  exact down n v hn

/-- References that are harmless after an operation. -/
def Harmless (h h' : Mem) (x : Nat) : Prop :=
  (x < h.next ∧ ∀ m o, h.msg m = some o → x ∉ o.dicts) ∨ (h.next ≤ x ∧ ∀ m o, h'.msg m = some o → x ∉ o.dicts)

theorem has_lt {h : Mem} (ok : h.Ok) {x : Nat} (hx : h.has (.ref x) = true) : x < h.next := ok_lt ok hx

theorem old_harmless {h h' : Mem} (ok : h.Ok) (hf : h.Flat) {a x : Nat} {c : Cell} (hc : h.cell a = some c) (hx : .ref x ∈ c.elems) : Harmless h h' x :=
  .inl ⟨has_lt ok (ok.closed a c hc _ hx), fun m o hm hb => hf a c hc m o hm x hb hx⟩

theorem flat_of {h h' : Mem} {op : MemOp} (he : Effect h h' op) (hel : ∀ a c x, h'.cell a = some c → .ref x ∈ c.elems → Harmless h h' x) : h'.Flat := by
  intro a c hc m o' hm b hb hx
  rcases hel a c b hc hx with ⟨h1, h2⟩ | ⟨h1, h2⟩
  · rcases he.dicts m o' hm b hb with h3 | ⟨o, h3, h4⟩
    · omega
    · exact h2 m o h3 h4
  · exact h2 m o' hm hb

/-- The entries of a dictionary made from old entries. -/
theorem sourced_harmless {h h' : Mem} (ok : h.Ok) (hf : h.Flat) {es : List (Val × Elem)}
    (hs : ∀ e ∈ es.map (·.2), (∃ v, e = .imm v) ∨ ∃ a c, h.cell a = some c ∧ e ∈ c.elems) : ∀ x, .ref x ∈ es.map (·.2) → Harmless h h' x := by
  intro x hx
  rcases hs _ hx with ⟨v, hv⟩ | ⟨a, c, hc, he⟩
  · cases hv
  · exact old_harmless ok hf hc he

theorem mput_cases {α : Type} {f : Nat → Option α} {i j : Nat} {v w : α} (h : put f i v j = some w) : j = i ∧ w = v ∨ f j = some w := by
  simp only [put] at h
  split at h
  · rename_i e; exact .inl ⟨e, by simpa using h.symm⟩
  · exact .inr h

theorem flat_step {C : Crypto} {h h' : Mem} (ok : h.Ok) (hf : h.Flat) {op : MemOp} (ho : Spec.Ordinary h op) (hs : h.step C op = .ok h') : h'.Flat := by
  have eff := step_effect ok hs
  unfold Mem.step at hs
  split at hs
  case isFalse => cases hs; exact hf
  rename_i hargs
  rw [List.all_eq_true] at hargs
  have upd : ∀ {a : Nat} {d es : List (Val × Elem)} {f : Nat → Option MObj} {n : Nat}, h.asDict (.ref a) = .ok d →
      (∀ x ∈ es.map (·.2), (∃ v, x = .imm v) ∨ ∃ a c, h.cell a = some c ∧ x ∈ c.elems) →
      ∀ b c x, put h.cell a (.dict (rupdate d es)) b = some c → .ref x ∈ c.elems → Harmless h ⟨put h.cell a (.dict (rupdate d es)), n, f⟩ x := by
    intro a d es f n hd hes b c x hc hx
    rcases mput_cases hc with ⟨_, rfl⟩ | hc
    · exact sourced_harmless ok hf (rupdate_elems (fun x hx => (asDict_elems ok hd x hx).2) hes) x hx
    · exact old_harmless ok hf hc hx
  split at hs
  · cases hs
    refine flat_of eff fun a c x hc hx => ?_
    rcases mput_cases hc with ⟨_, rfl⟩ | hc
    · exact .inl ⟨has_lt ok (hargs _ hx), fun m o hm hb => ho m o hm x hb hx⟩
    · exact old_harmless ok hf hc hx
  · split at hs
    · split at hs
      · cases hs
        refine flat_of eff fun a c x hc hx => ?_
        rcases mput_cases hc with ⟨_, rfl⟩ | hc
        · exact .inl ⟨has_lt ok (hargs _ hx), fun m o hm hb => ho m o hm x hb hx⟩
        · exact old_harmless ok hf hc hx
      · cases hs; exact hf
    · cases hs; exact hf
  · split at hs
    · cases hs; exact hf
    · simp only [Mem.construct, bind_eq_ok] at hs
      obtain ⟨pd, hpd, ud, hud, p, hp, u, hu, pe, _, pl, _, aad, _, key, hkey, hs⟩ := hs
      cases hs
      refine flat_of eff fun a c x hc hx => ?_
      rcases mput_cases hc with ⟨_, rfl⟩ | hc
      · simp [Cell.elems] at hx
      rcases mput_cases hc with ⟨_, rfl⟩ | hc
      · refine sourced_harmless ok hf (parseHeader_elems (P := fun e => (∃ v, e = .imm v) ∨ ∃ a c, h.cell a = some c ∧ e ∈ c.elems) (fun v => .inl ⟨v, rfl⟩)
          (by simp) (fun e he => ?_) hu) x hx
        unfold Mem.unprotectedArg at hud
        split at hud
        · cases hud; simp at he
        · exact (asDict_elems ok hud e he).2
      rcases mput_cases hc with ⟨_, rfl⟩ | hc
      · exact sourced_harmless ok hf (parseHeader_elems (P := fun e => (∃ v, e = .imm v) ∨ ∃ a c, h.cell a = some c ∧ e ∈ c.elems) (fun v => .inl ⟨v, rfl⟩)
          (by simp) (fun e he => (protectedArg_elems ok hpd e he).2) hp) x hx
      · exact old_harmless ok hf hc hx
  · split at hs
    · cases hs; exact hf
    · rename_i m ht
      split at hs
      case h_2 => cases hs; exact hf
      rename_i o hm
      -- a copied dictionary
      have cpy : ∀ {e : Elem} {h1 : Mem} {a : Nat} {o' : MObj}, (∃ v, Spec.Shows h e v) → h.copyDict e = .ok (h1, a) → (∀ b ∈ o'.dicts, b = a ∨ b ∈ o.dicts) →
          ∀ b c x, h1.cell b = some c → .ref x ∈ c.elems → Harmless h ⟨h1.cell, h1.next, put h1.msg m o'⟩ x := by
        intro e h1 a o' hv hcp hd b c x hc hx
        cases e with
        | imm v =>
          cases v <;> simp [Mem.copyDict] at hcp
          obtain ⟨rfl, rfl⟩ := hcp
          rcases mput_cases hc with ⟨_, rfl⟩ | hc
          · simp [Cell.elems] at hx
          · exact old_harmless ok hf hc hx
        | ref r =>
          simp only [Mem.copyDict] at hcp
          split at hcp <;> cases hcp
          by_cases hl : b < h.next
          · rw [copy_low hl] at hc
            exact old_harmless ok hf hc hx
          · obtain ⟨b0, c0, rfl, hr, hc0, rfl⟩ := copy_inv (by omega) hc
            rw [move_elems, List.mem_map] at hx
            obtain ⟨e0, he0, hmv⟩ := hx
            cases e0 with
            | imm v => simp [Elem.move] at hmv
            | ref y =>
              simp only [Elem.move, Elem.ref.injEq] at hmv
              subst hmv
              refine .inr ⟨Nat.le_add_left _ _, fun m' o1 hm' hin => ?_⟩
              have hne : y ≠ r := by
                rintro rfl
                obtain ⟨v, hv⟩ := hv
                exact shows_acyclic hv hr hc0 he0 .self
              rcases mput_cases hm' with ⟨_, rfl⟩ | hm'
              · rcases hd _ hin with h1 | h1
                · omega
                · have := new_not_old ok hm h1; omega
              · have := new_not_old ok hm' hin; omega
      cases op with
      | new c => cases ht
      | write a c => cases ht
      | construct m' a => cases hs; exact hf
      | setPhdr m' e =>
        simp only [Mem.onMsg, bind_eq_ok] at hs
        obtain ⟨⟨h1, a⟩, hc, hs⟩ := hs
        cases hs
        exact flat_of eff (cpy ho hc (by simp [MObj.dicts]))
      | setUhdr m' e =>
        simp only [Mem.onMsg, bind_eq_ok] at hs
        obtain ⟨⟨h1, a⟩, hc, hs⟩ := hs
        cases hs
        exact flat_of eff (cpy ho hc (by simp [MObj.dicts]))
      | phdrUpdate m' e =>
        simp only [Mem.onMsg, bind_eq_ok] at hs
        obtain ⟨es, h1, d, h2, hs⟩ := hs
        cases hs
        exact flat_of eff (upd h2 fun x hx => (asDict_elems ok h1 x hx).2)
      | uhdrUpdate m' e =>
        simp only [Mem.onMsg, bind_eq_ok] at hs
        obtain ⟨es, h1, d, h2, hs⟩ := hs
        cases hs
        exact flat_of eff (upd h2 fun x hx => (asDict_elems ok h1 x hx).2)
      | setLocal m' e =>
        simp only [Mem.onMsg, bind_eq_ok] at hs
        obtain ⟨es, h1, d, h2, hs⟩ := hs
        cases hs
        exact flat_of eff (upd h2 fun x hx => (items_elems ok h1 x hx).2)
      | setPayload m' v =>
        simp only [Mem.onMsg, bind_eq_ok] at hs
        obtain ⟨p, _, hs⟩ := hs
        cases hs
        exact flat_of eff fun a c x hc hx => old_harmless ok hf hc hx
      | setAad m' v =>
        simp only [Mem.onMsg, bind_eq_ok] at hs
        obtain ⟨p, _, hs⟩ := hs
        cases hs
        exact flat_of eff fun a c x hc hx => old_harmless ok hf hc hx
      | setKey m' k =>
        simp only [Mem.onMsg, bind_eq_ok] at hs
        obtain ⟨p, _, hs⟩ := hs
        cases hs
        exact flat_of eff fun a c x hc hx => old_harmless ok hf hc hx

theorem run_flat {C : Crypto} {p : List MemOp} {h : Mem} (ok : h.Ok) (hf : h.Flat) (ho : Spec.OrdinaryRun C h p) : (Mem.run C p h).Flat := by
  induction p generalizing h with
  | nil => exact hf
  | cons op t ih =>
    have h0 := ho [] op t rfl
    have ht : ∀ h', (h.step C op = .ok h' ∨ (∃ e, h.step C op = .error e) ∧ h' = h) → Spec.OrdinaryRun C h' t := by
      intro h' hc q op' r e
      have := ho (op :: q) op' r (by rw [e]; rfl)
      rcases hc with hc | ⟨⟨e', hc⟩, rfl⟩
      · simpa [Mem.run, hc] using this
      · simpa [Mem.run, hc] using this
    simp only [Mem.run]
    split
    · rename_i h' hs
      exact ih (step_effect ok hs).ok (flat_step ok hf h0 hs) (ht h' (.inl hs))
    · rename_i e hs
      exact ih ok hf (ht h (.inr ⟨⟨e, hs⟩, rfl⟩))

/-! ### The objects a message is made of -/

theorem value_shows {h : Mem} {e : Elem} {v : Val} : h.value e = some v ↔ Spec.Shows h e v := by
  unfold Mem.value
  split
  · rename_i hv
    constructor
    · intro e; cases e; exact hv.choose_spec
    · intro hs; rw [shows_unique hs hv.choose_spec]
  · rename_i hv
    constructor
    · intro e; cases e
    · exact fun hs => absurd ⟨v, hs⟩ hv

theorem reaches_lt {h : Mem} (ok : h.Ok) {e : Elem} {b : Nat} (hr : h.Reaches e b) (he : h.has e = true) : b < h.next := by
  induction hr with
  | self => exact has_lt ok he
  | step hc hm _ ih => exact ih (ok.closed _ _ hc _ hm)

theorem part_has {h : Mem} (ok : h.Ok) {m : Nat} {o : MObj} (hm : h.msg m = some o) {e : Elem} (he : e ∈ o.parts) : h.has e = true := by
  simp only [MObj.parts, List.mem_append, List.mem_map, Option.mem_toList] at he
  rcases he with ⟨a, ha, rfl⟩ | he
  · obtain ⟨d, hd⟩ := ok.dicts m o hm a ha
    simp [Mem.has, hd]
  · cases hk : o.key with
    | none => rw [hk] at he; simp at he
    | some a =>
      rw [hk] at he
      simp at he
      subst he
      obtain ⟨k, s, hd⟩ := ok.keys m o hm a hk
      simp [Mem.has, hd]

theorem part_dict {h : Mem} (ok : h.Ok) {m : Nat} {o : MObj} (hm : h.msg m = some o) {a : Nat} (he : .ref a ∈ o.parts) {d : List (Val × Elem)}
    (hc : h.cell a = some (.dict d)) : a ∈ o.dicts := by
  simp only [MObj.parts, List.mem_append, List.mem_map, Option.mem_toList] at he
  rcases he with ⟨b, hb, e⟩ | he
  · cases e; exact hb
  · cases hk : o.key with
    | none => rw [hk] at he; simp at he
    | some b =>
      rw [hk] at he
      simp at he
      subst he
      obtain ⟨k, s, hd⟩ := ok.keys m o hm _ hk
      rw [hd] at hc; cases hc

/-- A message does not reach the dictionaries of another. -/
theorem reach_apart {h : Mem} (ok : h.Ok) (hf : h.Flat) {m m' : Nat} {o o' : MObj} (hm : h.msg m = some o) (hm' : h.msg m' = some o') (hne : m ≠ m') {e : Elem}
    (he : e ∈ o.parts) {a : Nat} (ha : a ∈ o'.dicts) : ¬ h.Reaches e a := by
  intro hr
  have := flat_reach hf hr hm' ha
  subst this
  obtain ⟨d, hd⟩ := ok.dicts m' o' hm' a ha
  exact ok.apart m o m' o' hm hm' hne a (part_dict ok hm he hd) ha

theorem looks_step {C : Crypto} {h h' : Mem} (ok : h.Ok) (hf : h.Flat) {m : Nat} {b : Base} (hl : Spec.Looks h m b) {op : MemOp} (he : Spec.Elsewhere h m op)
    (hs : h.step C op = .ok h') : Spec.Looks h' m b := by
  have eff := step_effect ok hs
  refine looks_frame (eff.msgs m he.1) (fun o hm e hp x hr => ?_) hl
  refine eff.cells x (reaches_lt ok hr (part_has ok hm hp)) fun hx => ?_
  have other : ∀ {m' : Nat} {f : MObj → Nat}, (∀ o, f o ∈ o.dicts) → op.target = some m' → x ∈ ((h.msg m').map f).toList → False := by
    intro m' f hfd ht hx
    simp only [Option.mem_toList, Option.map_eq_some_iff] at hx
    obtain ⟨o', hm', rfl⟩ := hx
    exact reach_apart ok hf hm hm' (by rintro rfl; exact he.1 ht) hp (hfd o') hr
  cases op with
  | write a c =>
    simp only [Spec.changes, List.mem_singleton] at hx
    subst hx
    exact he.2 x c rfl o hm e hp hr
  | phdrUpdate m' e => exact other (f := (·.phdr)) (by simp [MObj.dicts]) rfl hx
  | uhdrUpdate m' e => exact other (f := (·.uhdr)) (by simp [MObj.dicts]) rfl hx
  | setLocal m' e => exact other (f := (·.loc)) (by simp [MObj.dicts]) rfl hx
  | _ => simp [Spec.changes] at hx

/-! ### Operations on a message and the same operations on values -/

theorem shows_write {h h' : Mem} (hf : h.Flat) {m : Nat} {o : MObj} (hm : h.msg m = some o) {a : Nat} (ha : a ∈ o.dicts) (hc : ∀ b, b ≠ a → h'.cell b = h.cell b)
    {e : Elem} (he : e ≠ .ref a) {v : Val} (hv : Spec.Shows h e v) : Spec.Shows h' e v :=
  shows_frame (fun _ hr => hc _ (by rintro rfl; exact he (flat_reach hf hr hm ha))) hv

theorem showsKey_mono {h h' : Mem} {r : Option Nat} {k : Option Key} (hk : ∀ a, r = some a → ∀ v, Spec.Shows h (.ref a) v → Spec.Shows h' (.ref a) v)
    (hs : Spec.ShowsKey h r k) : Spec.ShowsKey h' r k := by
  cases r with
  | none => cases k <;> exact hs
  | some a =>
    cases k with
    | none => exact hs
    | some k => exact hk a rfl _ hs

/-- One of the dictionaries of a message is updated. -/
theorem update_shows {h : Mem} (hf : h.Flat) {m a : Nat} {o : MObj} (hm : h.msg m = some o) (ha : a ∈ o.dicts) {d0 : Dict}
    (hd : Spec.Shows h (.ref a) (.map d0)) {es : List (Val × Elem)} {d : Dict} (hes : ShowsD h es d)
    (hsrc : ∀ x ∈ es.map (·.2), (∃ v, x = .imm v) ∨ ∃ a c, h.cell a = some c ∧ x ∈ c.elems) :
    ∃ es0, h.asDict (.ref a) = .ok es0 ∧ ∀ f, Spec.Shows ⟨put h.cell a (.dict (rupdate es0 es)), h.next, f⟩ (.ref a) (.map (dupdate d0 d)) ∧
      ∀ e v, e ≠ .ref a → Spec.Shows h e v → Spec.Shows ⟨put h.cell a (.dict (rupdate es0 es)), h.next, f⟩ e v := by
  obtain ⟨es0, hc, hs0⟩ := shows_dict.mp hd
  refine ⟨es0, by simp [Mem.asDict, hc], fun f => ?_⟩
  have keep : ∀ e v, e ≠ .ref a → Spec.Shows h e v → Spec.Shows ⟨put h.cell a (.dict (rupdate es0 es)), h.next, f⟩ e v :=
    fun e v he hv => shows_write hf hm ha (fun b hb => mput_other hb) he hv
  refine ⟨shows_dict.mpr ⟨rupdate es0 es, mput_same, ?_⟩, keep⟩
  refine rupdate_all2 (all2_mono hs0 fun p hp q hq => ⟨hq.1, keep _ _ ?_ hq.2⟩) (all2_mono hes fun p hp q hq => ⟨hq.1, keep _ _ ?_ hq.2⟩)
  · intro e
    exact hf a _ hc m o hm a ha (by rw [← e]; exact List.mem_map.mpr ⟨p, hp, rfl⟩)
  · intro e
    rcases hsrc p.2 (List.mem_map.mpr ⟨p, hp, rfl⟩) with ⟨v, hv⟩ | ⟨b, c, hb, hx⟩
    · rw [e] at hv; cases hv
    · exact hf b c hb m o hm a ha (by rw [← e]; exact hx)

/-- A header is copied. -/
theorem copyDict_shows {h : Mem} (ok : h.Ok) {e : Elem} {v : Val} (hv : Spec.Shows h e v) :
    (∃ h1 a d, v = .map d ∧ h.copyDict e = .ok (h1, a) ∧ Spec.Shows h1 (.ref a) (.map d) ∧ ∀ x w, h.has x = true → Spec.Shows h x w → Spec.Shows h1 x w) ∨
      ((∀ d, v ≠ .map d) ∧ h.copyDict e = .error .typeError) := by
  cases e with
  | imm w =>
    rw [shows_imm] at hv
    subst hv
    cases w with
    | map d =>
      refine .inl ⟨_, _, d, rfl, rfl, shows_dict.mpr ⟨_, mput_same, imm_all2 _ d⟩, fun x w hx hs => shows_frame (fun b hr => mput_other ?_) hs⟩
      have := reaches_lt ok hr hx
      omega
    | _ => exact .inr ⟨by simp, rfl⟩
  | ref a =>
    cases hc : h.cell a with
    | none =>
      obtain ⟨n, hn⟩ := hv
      cases n <;> simp [valueAt, hc] at hn
    | some x =>
      obtain ⟨n, hn⟩ := hv
      cases n with
      | zero => simp [valueAt] at hn
      | succ n =>
        cases x with
        | dict es =>
          have hn' := hn
          simp only [valueAt, hc, Option.map_eq_some_iff] at hn'
          obtain ⟨d, _, rfl⟩ := hn'
          refine .inl ⟨h.copy a, a + h.next, d, rfl, by simp [Mem.copyDict, hc], ⟨n + 1, ?_⟩, fun x w hx hs => shows_frame (fun b hr => copy_low (reaches_lt ok hr hx)) hs⟩
          have := copy_value (h := h) (r := a) (n + 1) (.ref a) (by rintro b e; cases e; exact .self)
          rw [← hn, ← this]; rfl
        | list l =>
          simp only [valueAt, hc, Option.map_eq_some_iff] at hn
          obtain ⟨d, _, rfl⟩ := hn
          exact .inr ⟨by simp, by simp [Mem.copyDict, hc]⟩
        | key k l =>
          simp only [valueAt, hc, Option.map_eq_some_iff] at hn
          obtain ⟨d, _, rfl⟩ := hn
          exact .inr ⟨by simp, by simp [Mem.copyDict, hc]⟩

/-- The entries given to `local_attrs`. -/
theorem items_shows {h : Mem} {e : Elem} {d : Dict} (hv : Spec.Shows h e (.map d) ∨ ∃ k, Spec.Shows h e (.key k d)) : ∃ es, h.items e = .ok es ∧ ShowsD h es d := by
  cases e with
  | imm w =>
    rcases hv with hv | ⟨k, hv⟩ <;> rw [shows_imm] at hv <;> subst hv <;> exact ⟨_, rfl, imm_all2 h d⟩
  | ref a =>
    rcases hv with hv | ⟨k, hv⟩
    · obtain ⟨es, hc, hs⟩ := shows_dict.mp hv
      exact ⟨es, by simp [Mem.items, hc], hs⟩
    · obtain ⟨es, hc, hs⟩ := shows_key.mp hv
      exact ⟨es, by simp [Mem.items, hc], hs⟩

theorem shows_has {h : Mem} {e : Elem} {v : Val} (hv : Spec.Shows h e v) : h.has e = true := by
  cases e with
  | imm v => rfl
  | ref a =>
    obtain ⟨n, hn⟩ := hv
    cases n with
    | zero => simp [valueAt] at hn
    | succ n =>
      cases hc : h.cell a with
      | none => simp [valueAt, hc] at hn
      | some c => simp [Mem.has, hc]

/-- An operation on a message changes what the message shows as the same operation does on values. -/
theorem onMsg_refines {C : Crypto} {h : Mem} (ok : h.Ok) (hf : h.Flat) {m : Nat} {b : Base} (hl : Spec.Looks h m b) {op : MemOp} {mop : MsgOp}
    (ht : op.target = some m) (hs : Spec.Same h op mop) :
    (∀ b', b.apply mop = .ok b' → ∃ h', h.step C op = .ok h' ∧ Spec.Looks h' m b') ∧ (∀ e, b.apply mop = .error e → h.step C op = .error e) := by
  obtain ⟨o, h1, h2, h3, h4, h5, h6, h7, h8, h9⟩ := hl
  have nd := ok.nodup m o h1
  simp only [MObj.dicts, List.nodup_cons, List.mem_cons, not_or, List.not_mem_nil, not_false_eq_true, List.nodup_nil, and_true] at nd
  obtain ⟨⟨npu, npl⟩, nul⟩ := nd
  have keyne : ∀ {a b : Nat}, o.key = some a → b ∈ o.dicts → (Elem.ref a) ≠ .ref b := by
    intro a b hk hb e
    cases e
    obtain ⟨k, s, hc⟩ := ok.keys m o h1 _ hk
    obtain ⟨d, hd⟩ := ok.dicts m o h1 _ hb
    rw [hd] at hc; cases hc
  have ph : o.phdr ∈ o.dicts := by simp [MObj.dicts]
  have uh : o.uhdr ∈ o.dicts := by simp [MObj.dicts]
  have lh : o.loc ∈ o.dicts := by simp [MObj.dicts]
  have has : ∀ {a : Nat}, a ∈ o.dicts → h.has (.ref a) = true := fun ha => part_has ok h1 (by simp [MObj.parts, ha])
  have hask : ∀ {a : Nat}, o.key = some a → h.has (.ref a) = true := fun ha => part_has ok h1 (by simp [MObj.parts, ha])
  have stp : ∀ {e : Elem}, op.args = [e] → h.has e = true → (∀ c, op ≠ .new c) → (∀ a c, op ≠ .write a c) → (∀ m a, op ≠ .construct m a) →
      h.step C op = h.onMsg m o op := by
    intro e ha he hn hw hc
    unfold Mem.step
    rw [if_pos (by simp [ha, he])]
    cases op <;> simp_all [MemOp.target]
  have stp0 : op.args = [] → (∀ c, op ≠ .new c) → (∀ a c, op ≠ .write a c) → (∀ m a, op ≠ .construct m a) → h.step C op = h.onMsg m o op := by
    intro ha hn hw hc
    unfold Mem.step
    rw [if_pos (by simp [ha])]
    cases op <;> simp_all [MemOp.target]
  cases op <;> cases mop <;> simp only [Spec.Same] at hs <;> simp only [MemOp.target, Option.some.injEq] at ht <;> subst ht
  case setPhdr.setPhdr m e v =>
    rw [stp rfl (shows_has hs) (by simp) (by simp) (by simp)]
    rcases copyDict_shows ok hs with ⟨hh, a, d, rfl, hc, hd, hk⟩ | ⟨hn, hc⟩
    · refine ⟨fun b' hb => ?_, fun e he => by simp [Base.apply, Base.setPhdr, asDict] at he⟩
      simp only [Base.apply, Base.setPhdr, asDict, ok_bind, Except.ok.injEq] at hb
      subst hb
      exact ⟨{ hh with msg := put hh.msg m { o with phdr := a, phdrEnc := none } }, by simp [Mem.onMsg, hc], _, mput_same, rfl, hd, hk _ _ (has uh) h4, hk _ _ (has lh) h5, h6, h7, h8,
        showsKey_mono (fun a ha v hv => hk _ _ (hask ha) hv) h9⟩
    · have : b.apply (.setPhdr v) = .error .typeError := by
        cases v <;> simp_all [Base.apply, Base.setPhdr, asDict]
      rw [this]
      exact ⟨by simp, by rintro e he; cases he; simp [Mem.onMsg, hc]⟩
  case setUhdr.setUhdr m e v =>
    rw [stp rfl (shows_has hs) (by simp) (by simp) (by simp)]
    rcases copyDict_shows ok hs with ⟨hh, a, d, rfl, hc, hd, hk⟩ | ⟨hn, hc⟩
    · refine ⟨fun b' hb => ?_, fun e he => by simp [Base.apply, Base.setUhdr, asDict] at he⟩
      simp only [Base.apply, Base.setUhdr, asDict, ok_bind, Except.ok.injEq] at hb
      subst hb
      exact ⟨{ hh with msg := put hh.msg m { o with uhdr := a } }, by simp [Mem.onMsg, hc], _, mput_same, h2, hk _ _ (has ph) h3, hd, hk _ _ (has lh) h5, h6, h7, h8,
        showsKey_mono (fun a ha v hv => hk _ _ (hask ha) hv) h9⟩
    · have : b.apply (.setUhdr v) = .error .typeError := by
        cases v <;> simp_all [Base.apply, Base.setUhdr, asDict]
      rw [this]
      exact ⟨by simp, by rintro e he; cases he; simp [Mem.onMsg, hc]⟩
  case phdrUpdate.phdrUpdate m e v =>
    rw [stp rfl (shows_has hs) (by simp) (by simp) (by simp)]
    rcases asDict_shows hs with ⟨es, d, rfl, hc, hd⟩ | ⟨hn, hc⟩
    · refine ⟨fun b' hb => ?_, fun e he => by simp [Base.apply, Base.phdrUpdate, asDict] at he⟩
      simp only [Base.apply, Base.phdrUpdate, asDict, ok_bind, Except.ok.injEq] at hb
      subst hb
      obtain ⟨es0, he0, hk⟩ := update_shows hf h1 ph h3 hd fun x hx => (asDict_elems ok hc x hx).2
      obtain ⟨hk1, hk2⟩ := hk (put h.msg m { o with phdrEnc := none })
      exact ⟨⟨put h.cell o.phdr (.dict (rupdate es0 es)), h.next, put h.msg m { o with phdrEnc := none }⟩, by simp [Mem.onMsg, hc, he0], _, mput_same, rfl, hk1, hk2 _ _ (by simpa using Ne.symm npu) h4, hk2 _ _ (by simpa using Ne.symm npl) h5,
        h6, h7, h8, showsKey_mono (fun a ha v hv => hk2 _ _ (keyne ha ph) hv) h9⟩
    · have : b.apply (.phdrUpdate v) = .error .typeError := by
        cases v <;> simp_all [Base.apply, Base.phdrUpdate, asDict]
      rw [this]
      exact ⟨by simp, by rintro e he; cases he; simp [Mem.onMsg, hc]⟩
  case uhdrUpdate.uhdrUpdate m e v =>
    rw [stp rfl (shows_has hs) (by simp) (by simp) (by simp)]
    rcases asDict_shows hs with ⟨es, d, rfl, hc, hd⟩ | ⟨hn, hc⟩
    · refine ⟨fun b' hb => ?_, fun e he => by simp [Base.apply, Base.uhdrUpdate, asDict] at he⟩
      simp only [Base.apply, Base.uhdrUpdate, asDict, ok_bind, Except.ok.injEq] at hb
      subst hb
      obtain ⟨es0, he0, hk⟩ := update_shows hf h1 uh h4 hd fun x hx => (asDict_elems ok hc x hx).2
      obtain ⟨hk1, hk2⟩ := hk h.msg
      exact ⟨⟨put h.cell o.uhdr (.dict (rupdate es0 es)), h.next, h.msg⟩, by simp [Mem.onMsg, hc, he0], o, h1, h2, hk2 _ _ (by simpa using npu) h3, hk1, hk2 _ _ (by simpa using Ne.symm nul) h5,
        h6, h7, h8, showsKey_mono (fun a ha v hv => hk2 _ _ (keyne ha uh) hv) h9⟩
    · have : b.apply (.uhdrUpdate v) = .error .typeError := by
        cases v <;> simp_all [Base.apply, Base.uhdrUpdate, asDict]
      rw [this]
      exact ⟨by simp, by rintro e he; cases he; simp [Mem.onMsg, hc]⟩
  case setPayload.setPayload m v w =>
    subst hs
    rw [stp0 rfl (by simp) (by simp) (by simp)]
    cases v <;> simp [Base.apply, Base.setPayload, Mem.onMsg, payloadOf] <;>
      exact ⟨_, mput_same, h2, h3, h4, h5, rfl, h7, h8, h9⟩
  case setAad.setAad m v w =>
    subst hs
    rw [stp0 rfl (by simp) (by simp) (by simp)]
    cases v <;> simp [Base.apply, Base.setAad, Mem.onMsg, asBytes] <;>
      exact ⟨_, mput_same, h2, h3, h4, h5, h6, rfl, h8, h9⟩
  case setKey.setKey m r k =>
    rw [stp0 rfl (by simp) (by simp) (by simp)]
    cases r <;> cases k <;> simp only at hs
    · simp [Base.apply, Base.setKey, Mem.onMsg, Mem.keyOf]
      exact ⟨_, mput_same, h2, h3, h4, h5, h6, h7, h8, trivial⟩
    · rename_i a k
      obtain ⟨es, hc, _⟩ := shows_key.mp hs
      simp [Base.apply, Base.setKey, Mem.onMsg, Mem.keyOf, hc]
      exact ⟨_, mput_same, h2, h3, h4, h5, h6, h7, h8, hs⟩
    · simp [Base.apply, Base.setKey, Mem.onMsg, Mem.keyOf]
  case setLocal.setLocal m e d =>
    obtain ⟨es, hc, hd⟩ := items_shows hs
    have : h.has e = true := by rcases hs with hs | ⟨k, hs⟩ <;> exact shows_has hs
    rw [stp rfl this (by simp) (by simp) (by simp)]
    refine ⟨fun b' hb => ?_, fun e he => by simp [Base.apply] at he⟩
    simp only [Base.apply, Base.setLocal, Except.ok.injEq] at hb
    subst hb
    obtain ⟨es0, he0, hk⟩ := update_shows hf h1 lh h5 hd fun x hx => (items_elems ok hc x hx).2
    obtain ⟨hk1, hk2⟩ := hk h.msg
    exact ⟨⟨put h.cell o.loc (.dict (rupdate es0 es)), h.next, h.msg⟩, by simp [Mem.onMsg, hc, he0], o, h1, h2, hk2 _ _ (by simpa using npl) h3, hk2 _ _ (by simpa using nul) h4, hk1,
      h6, h7, h8, showsKey_mono (fun a ha v hv => hk2 _ _ (keyne ha lh) hv) h9⟩

/-! ### Construction -/

/-- Two computations raise the same exception or give related results. -/
def Agree {α β : Type} (R : α → β → Prop) : Res α → Res β → Prop
  | .ok a, .ok b => R a b
  | .error e, .error e' => e = e'
  | _, _ => False

theorem agree_bind {α β γ δ : Type} {R : α → β → Prop} {S : γ → δ → Prop} {x : Res α} {y : Res β} {f : α → Res γ} {g : β → Res δ} (hxy : Agree R x y)
    (hfg : ∀ a b, R a b → Agree S (f a) (g b)) : Agree S (x >>= f) (y >>= g) := by
  cases x <;> cases y <;> simp only [Agree] at hxy
  · subst hxy; simp [Agree]
  · exact hfg _ _ hxy

theorem agree_eq {α : Type} (x : Res α) : Agree (fun a b => a = b) x x := by cases x <;> simp [Agree]

theorem asDict_agree {h : Mem} {e : Elem} {v : Val} (hv : Spec.Shows h e v) : Agree (ShowsD h) (h.asDict e) (asDict v) := by
  rcases asDict_shows hv with ⟨es, d, rfl, h1, h2⟩ | ⟨h1, h2⟩
  · rw [h1]; exact h2
  · rw [h2]
    cases v <;> first | rfl | exact absurd rfl (h1 _)

theorem fixed_value {C : Crypto} {k : Val} {allow : Bool} {c : Cls} (hk : fromIdKey .hdr k allow = .ok (.cls c)) (hc : converts c = false) {v w : Val}
    (hp : hdrParser C c v = .ok w) : w = v := by
  rcases fromIdKey_ok hk with ⟨c', hc', e⟩ | ⟨hn, _, e⟩
  · cases e
    obtain ⟨n, hn, _⟩ := denotes_resolve.mp hc'
    have hr := hdr_reg hn
    have hv := (hdrParser_iff hr).mp hp
    cases hv with
    | algorithm _ => simp [converts] at hc
    | key hm _ =>
      simp only [List.mem_cons, List.not_mem_nil, or_false] at hm
      rcases hm with rfl | rfl <;> exact absurd hc (by decide)
    | _ => rfl
  · subst e
    rw [hdrParser_unregistered (by simpa [resolve] using hn)] at hp
    cases hp; rfl

theorem parseEntry_agree {C : Crypto} {h : Mem} {k a : Val} {allow : Bool} (hk : fromIdKey .hdr k allow = .ok a) {e : Elem} {v : Val} (hv : Spec.Shows h e v) :
    Agree (Spec.Shows h) (h.parseEntry C a e) (parsedVal (hdrParser C) a v) := by
  cases a with
  | cls c =>
    simp only [Mem.parseEntry, Mem.parse, parsedVal, value_shows.mpr hv]
    cases hp : hdrParser C c v with
    | error x => simp [Agree]
    | ok w =>
      simp only [ok_bind, Agree]
      cases hc : converts c with
      | true => exact shows_imm.mpr rfl
      | false =>
        rw [fixed_value hk hc hp]
        exact hv
  | _ => exact hv

theorem parseHeader_agree {C : Crypto} {allow : Bool} {h : Mem} {es : List (Val × Elem)} {d : Dict} (hd : ShowsD h es d) {acc : List (Val × Elem)} {accd : Dict}
    (ha : ShowsD h acc accd) : Agree (ShowsD h) (h.parseHeader C allow acc es) (parseAttrs .hdr allow (hdrParser C) accd d) := by
  unfold ShowsD at hd
  induction hd generalizing acc accd with
  | nil => exact ha
  | @cons p q t t' hpq _ ih =>
    obtain ⟨k, e⟩ := p
    obtain ⟨k', v⟩ := q
    obtain ⟨rfl, hv⟩ := hpq
    rw [parseAttrs_cons, Mem.parseHeader]
    cases hk : fromIdKey .hdr k allow with
    | error x => rfl
    | ok a =>
      simp only [ok_bind]
      exact agree_bind (parseEntry_agree hk hv) fun e' w he => ih (rset_all2 ha he)

/-- The dictionary the protected header is parsed from, for values. -/
def protVal (a : HdrArgs) : Res Dict :=
  if a.phdr ≠ .none ∧ a.phdrEncoded ≠ .none then .error .valueError
  else if a.phdrEncoded ≠ .none then
    if a.phdrEncoded = .bytes [] then .ok [] else loadsVal a.phdrEncoded >>= asDict
  else if a.phdr = .none then .ok [] else asDict a.phdr

/-- The dictionary the unprotected header is parsed from, for values. -/
def unprotVal (a : HdrArgs) : Res Dict := if a.uhdr = .none then .ok [] else asDict a.uhdr

theorem initMsg_norm (C : Crypto) (a : HdrArgs) (pl aad : Val) (key : Option Key) : initMsg C a pl aad key =
    protVal a >>= fun pd => unprotVal a >>= fun ud => parseHeader C a.allow pd >>= fun p => parseHeader C a.allow ud >>= fun u =>
      encodedOf a.phdrEncoded >>= fun pe => payloadOf pl >>= fun py => asBytes .typeError aad >>= fun ad =>
        .ok { phdrEnc := pe, phdr := p, uhdr := u, payload := py, aad := ad, key := key, tstr := a.tstr } := by
  have hu : asDict (if a.uhdr = .none then .map [] else a.uhdr) = unprotVal a := by
    unfold unprotVal; split <;> rfl
  have tail : ∀ (pd : Dict), (do
      let ud ← asDict (if a.uhdr = .none then .map [] else a.uhdr)
      let p ← parseHeader C a.allow pd
      let u ← parseHeader C a.allow ud
      let pe ← match a.phdrEncoded with
        | .none => .ok none
        | .bytes b => .ok (some b)
        | _ => .error .typeError
      (.ok { phdrEnc := pe, phdr := p, uhdr := u, tstr := a.tstr } : Res Base)) >>= (fun b => do
        let b ← b.setPayload pl
        let b ← b.setAad aad
        (.ok { b with key := key } : Res Base)) =
      unprotVal a >>= fun ud => parseHeader C a.allow pd >>= fun p => parseHeader C a.allow ud >>= fun u =>
      encodedOf a.phdrEncoded >>= fun pe => payloadOf pl >>= fun py => asBytes .typeError aad >>= fun ad =>
        .ok { phdrEnc := pe, phdr := p, uhdr := u, payload := py, aad := ad, key := key, tstr := a.tstr } := by
    intro pd
    rw [hu]
    cases unprotVal a with
    | error e => rfl
    | ok ud =>
      simp only [ok_bind]
      cases parseHeader C a.allow pd with
      | error e => rfl
      | ok p =>
        simp only [ok_bind]
        cases parseHeader C a.allow ud with
        | error e => rfl
        | ok u =>
          simp only [ok_bind]
          cases a.phdrEncoded <;> simp only [encodedOf, ok_bind, error_bind] <;>
            cases pl <;> simp only [payloadOf, Base.setPayload, ok_bind, error_bind] <;>
            cases aad <;> simp only [asBytes, Base.setAad, ok_bind, error_bind]
  unfold initMsg initBase protVal
  by_cases h1 : a.phdr ≠ .none ∧ a.phdrEncoded ≠ .none
  · rw [if_pos h1, if_pos h1]; rfl
  · rw [if_neg h1, if_neg h1]
    by_cases h2 : a.phdrEncoded ≠ .none
    · simp only [if_pos h2]
      by_cases h3 : a.phdrEncoded = .bytes []
      · simp only [if_pos h3, ok_bind, ← tail]
        rfl
      · simp only [if_neg h3]
        cases loadsVal a.phdrEncoded with
        | error e => rfl
        | ok v =>
          simp only [ok_bind]
          cases hd : asDict v with
          | error e => simp
          | ok d => simp only [ok_bind, ← tail]; rfl
    · simp only [if_neg h2]
      by_cases h3 : a.phdr = .none
      · simp only [if_pos h3, ok_bind, ← tail]
        rfl
      · simp only [if_neg h3, ok_bind]
        cases hd : asDict a.phdr with
        | error e => simp
        | ok d => simp only [ok_bind, ← tail]; rfl

theorem protectedArg_agree {h : Mem} {a : MArgs} {x : HdrArgs} (hp : Spec.Shows h a.phdr x.phdr) (he : a.phdrEncoded = x.phdrEncoded) :
    Agree (ShowsD h) (h.protectedArg a) (protVal x) := by
  have hn : a.phdr = .imm .none ↔ x.phdr = .none := by
    constructor
    · intro e; rw [e, shows_imm] at hp; exact hp.symm
    · intro e
      rw [e] at hp
      cases hc : a.phdr with
      | imm v => rw [hc, shows_imm] at hp; rw [hp]
      | ref r =>
        rw [hc] at hp
        obtain ⟨n, hn⟩ := hp
        cases n with
        | zero => simp [valueAt] at hn
        | succ n =>
          rw [valueAt] at hn
          split at hn <;> simp at hn
  unfold Mem.protectedArg protVal
  simp only [ne_eq, hn, he]
  split
  · rfl
  · split
    · split
      · exact All2.nil
      · cases loadsVal x.phdrEncoded with
        | error e => rfl
        | ok v => simp only [ok_bind]; exact asDict_agree (shows_imm.mpr rfl)
    · split
      · exact All2.nil
      · exact asDict_agree hp

theorem unprotectedArg_agree {h : Mem} {a : MArgs} {x : HdrArgs} (hp : Spec.Shows h a.uhdr x.uhdr) : Agree (ShowsD h) (h.unprotectedArg a) (unprotVal x) := by
  unfold Mem.unprotectedArg unprotVal
  by_cases e : a.uhdr = .imm .none
  · rw [e, shows_imm] at hp
    rw [if_pos e, if_pos hp.symm]
    exact All2.nil
  · rw [if_neg e]
    split
    · rename_i hx
      rw [hx] at hp
      cases hc : a.uhdr with
      | imm v => rw [hc, shows_imm] at hp; exact absurd (by rw [hc, hp]) e
      | ref r =>
        rw [hc] at hp
        obtain ⟨n, hn⟩ := hp
        cases n with
        | zero => simp [valueAt] at hn
        | succ n =>
          rw [valueAt] at hn
          split at hn <;> simp at hn
    · exact asDict_agree hp

theorem keyOf_agree {h : Mem} {r : KeyRef} {k : Option Key} (hk : Spec.SameKey h r k) : ∃ o, h.keyOf r = .ok o ∧ Spec.ShowsKey h o k := by
  cases r <;> cases k <;> simp only [Spec.SameKey] at hk
  · exact ⟨none, rfl, trivial⟩
  · rename_i a k
    obtain ⟨es, hc, _⟩ := shows_key.mp hk
    exact ⟨some a, by simp [Mem.keyOf, hc], hk⟩

theorem construct_agree {C : Crypto} {h : Mem} (ok : h.Ok) {m : Nat} {a : MArgs} {x : HdrArgs} {key : Option Key} (hp : Spec.Shows h a.phdr x.phdr)
    (hu : Spec.Shows h a.uhdr x.uhdr) (he : a.phdrEncoded = x.phdrEncoded) (ht : a.tstr = x.tstr) (hal : a.allow = x.allow) (hk : Spec.SameKey h a.key key) :
    Agree (fun h' b => Spec.Looks h' m b) (h.construct C m a) (initMsg C x a.payload a.aad key) := by
  rw [initMsg_norm]
  unfold Mem.construct
  have src : ∀ {pd p}, (∀ e ∈ pd.map (·.2), h.has e = true) → h.parseHeader C a.allow [] pd = .ok p → ∀ e ∈ p.map (·.2), h.has e = true :=
    fun h1 h2 => parseHeader_elems (P := fun e => h.has e = true) (fun _ => rfl) (by simp) h1 h2
  cases hpd : h.protectedArg a with
  | error e =>
    have := protectedArg_agree hp he
    rw [hpd] at this
    cases hq : protVal x <;> rw [hq] at this <;> simp only [Agree] at this
    subst this; rfl
  | ok pd =>
  cases hud : h.unprotectedArg a with
  | error e =>
    have h1 := protectedArg_agree hp he
    have h2 := unprotectedArg_agree hu
    rw [hpd] at h1
    rw [hud] at h2
    cases hq : protVal x <;> rw [hq] at h1 <;> simp only [Agree] at h1
    cases hq2 : unprotVal x <;> rw [hq2] at h2 <;> simp only [Agree] at h2
    subst h2; rfl
  | ok ud =>
  have h1 := protectedArg_agree hp he
  have h2 := unprotectedArg_agree hu
  rw [hpd] at h1
  rw [hud] at h2
  cases hq : protVal x with
  | error e => rw [hq] at h1; exact h1.elim
  | ok pv =>
  rw [hq] at h1
  cases hq2 : unprotVal x with
  | error e => rw [hq2] at h2; exact h2.elim
  | ok uv =>
  rw [hq2] at h2
  simp only [ok_bind]
  have hpe : ∀ e ∈ pd.map (·.2), h.has e = true := fun e he => (protectedArg_elems ok hpd e he).1
  have hue : ∀ e ∈ ud.map (·.2), h.has e = true := by
    intro e he
    unfold Mem.unprotectedArg at hud
    split at hud
    · cases hud; simp at he
    · exact (asDict_elems ok hud e he).1
  have a1 := parseHeader_agree (C := C) (allow := a.allow) (h := h) h1 All2.nil
  have a2 := parseHeader_agree (C := C) (allow := a.allow) (h := h) h2 All2.nil
  unfold parseHeader
  rw [← hal]
  cases hph : h.parseHeader C a.allow [] pd with
  | error e =>
    rw [hph] at a1
    cases hq : parseAttrs .hdr a.allow (hdrParser C) [] pv <;> rw [hq] at a1 <;> simp only [Agree] at a1
    subst a1; rfl
  | ok p =>
  cases hpv : parseAttrs .hdr a.allow (hdrParser C) [] pv with
  | error e => rw [hph, hpv] at a1; exact a1.elim
  | ok pw =>
  rw [hph, hpv] at a1
  cases huh : h.parseHeader C a.allow [] ud with
  | error e =>
    rw [huh] at a2
    cases hq : parseAttrs .hdr a.allow (hdrParser C) [] uv <;> rw [hq] at a2 <;> simp only [Agree] at a2
    subst a2; rfl
  | ok u =>
  cases huv : parseAttrs .hdr a.allow (hdrParser C) [] uv with
  | error e => rw [huh, huv] at a2; exact a2.elim
  | ok uw =>
  rw [huh, huv] at a2
  simp only [ok_bind]
  rw [he]
  cases encodedOf x.phdrEncoded with
  | error e => rfl
  | ok pe =>
  cases payloadOf a.payload with
  | error e => rfl
  | ok py =>
  cases asBytes .typeError a.aad with
  | error e => rfl
  | ok ad =>
  obtain ⟨ko, hko, hks⟩ := keyOf_agree hk
  simp only [ok_bind, hko, Agree]
  have keep : ∀ {c : Nat → Option Cell} {n : Nat} {f : Nat → Option MObj}, (∀ b, b < h.next → c b = h.cell b) → ∀ e v, h.has e = true → Spec.Shows h e v →
      Spec.Shows ⟨c, n, f⟩ e v := fun hc e v he hv => shows_frame (fun b hr => hc b (reaches_lt ok hr he)) hv
  have low : ∀ b, b < h.next → put (put (put h.cell h.next (.dict p)) (h.next + 1) (.dict u)) (h.next + 2) (.dict []) b = h.cell b := by
    intro b hb
    rw [mput_other (by omega), mput_other (by omega), mput_other (by omega)]
  refine ⟨_, mput_same, rfl, shows_dict.mpr ⟨p, ?_, all2_mono a1 fun q hq r hr => ⟨hr.1, keep low _ _ (src hpe hph _ (List.mem_map.mpr ⟨q, hq, rfl⟩)) hr.2⟩⟩,
    shows_dict.mpr ⟨u, ?_, all2_mono a2 fun q hq r hr => ⟨hr.1, keep low _ _ (src hue huh _ (List.mem_map.mpr ⟨q, hq, rfl⟩)) hr.2⟩⟩,
    shows_dict.mpr ⟨[], mput_same, All2.nil⟩, rfl, rfl, ht, ?_⟩
  · simp only; rw [mput_other (by omega), mput_other (by omega), mput_same]
  · simp only; rw [mput_other (by omega), mput_same]
  · refine showsKey_mono (fun r hr v hv => keep low _ _ ?_ hv) hks
    obtain ⟨k, s, hc⟩ := keyOf_spec hko r hr
    simp [Mem.has, hc]

/-! ### Runs -/

theorem mrun_append (C : Crypto) (p q : List MemOp) (h : Mem) : Mem.run C (p ++ q) h = Mem.run C q (Mem.run C p h) := by
  induction p generalizing h with
  | nil => rfl
  | cons op t ih =>
    simp only [List.cons_append, Mem.run]
    split <;> exact ih _

theorem run_cons (C : Crypto) (op : MemOp) (p : List MemOp) (h : Mem) : Mem.run C (op :: p) h = Mem.run C p (Mem.run C [op] h) := mrun_append C [op] p h

theorem ordinaryRun_append {C : Crypto} {h : Mem} {p q : List MemOp} : Spec.OrdinaryRun C h (p ++ q) ↔ Spec.OrdinaryRun C h p ∧ Spec.OrdinaryRun C (Mem.run C p h) q := by
  constructor
  · intro ho
    refine ⟨fun a op r e => ho a op (r ++ q) (by rw [e]; simp), fun a op r e => ?_⟩
    rw [← mrun_append]
    exact ho (p ++ a) op r (by rw [e]; simp)
  · rintro ⟨h1, h2⟩ a op r e
    rw [List.append_eq_append_iff] at e
    rcases e with ⟨x, rfl, e⟩ | ⟨x, e1, e⟩
    · rw [mrun_append]
      exact h2 x op r e
    · cases x with
      | nil =>
        simp at e1 e
        subst e1
        have := h2 [] op r (by simpa using e.symm)
        exact this
      | cons y t =>
        simp at e
        obtain ⟨rfl, rfl⟩ := e
        exact h1 a op t (by rw [e1])

theorem reached_ok {C : Crypto} {h : Mem} (hr : Spec.MemReached C h) : h.Ok ∧ h.Flat := by
  obtain ⟨p, ho, rfl⟩ := hr
  exact ⟨run_ok C p empty_ok, run_flat empty_ok (by intro a c hc; simp at hc) ho⟩

theorem reached_run {C : Crypto} {h : Mem} (hr : Spec.MemReached C h) {p : List MemOp} (ho : Spec.OrdinaryRun C h p) : Spec.MemReached C (Mem.run C p h) := by
  obtain ⟨q, hq, rfl⟩ := hr
  exact ⟨q ++ p, ordinaryRun_append.mpr ⟨hq, ho⟩, (mrun_append C q p {}).symm⟩

theorem ordinaryRun_cons {C : Crypto} {h : Mem} {op : MemOp} {p : List MemOp} (ho : Spec.OrdinaryRun C h (op :: p)) :
    Spec.OrdinaryRun C h [op] ∧ Spec.OrdinaryRun C (Mem.run C [op] h) p := ordinaryRun_append (p := [op]).mp ho

theorem run_one_ok {C : Crypto} {h h' : Mem} {op : MemOp} (hs : h.step C op = .ok h') : Mem.run C [op] h = h' := by simp [Mem.run, hs]
theorem run_one_error {C : Crypto} {h : Mem} {op : MemOp} {e : PyErr} (hs : h.step C op = .error e) : Mem.run C [op] h = h := by simp [Mem.run, hs]

theorem rdel_all2 {R : Elem → Val → Prop} {es : List (Val × Elem)} {d : Dict} (hv : All2 (fun p q => p.1 = q.1 ∧ R p.2 q.2) es d) {k : Val} :
    All2 (fun p q => p.1 = q.1 ∧ R p.2 q.2) (rdel es k) (ddel d k) := by
  induction hv with
  | nil => exact .nil
  | @cons p q t t' hp ht ih =>
    obtain ⟨k1, e1⟩ := p
    obtain ⟨k2, v2⟩ := q
    obtain ⟨rfl, hr⟩ := hp
    simp only [rdel, ddel]
    split
    · exact ht
    · exact .cons ⟨rfl, hr⟩ ih

theorem all2_dget {R : Elem → Val → Prop} {es : List (Val × Elem)} {d : Dict} (hv : All2 (fun p q => p.1 = q.1 ∧ R p.2 q.2) es d) {k k' : Val} {e : Elem}
    (hm : (k', e) ∈ es) (hk : keq k' k = true) : ∃ v, dget d k = some v := by
  induction hv with
  | nil => simp at hm
  | @cons p q t t' hp ht ih =>
    obtain ⟨k1, e1⟩ := p
    obtain ⟨k2, v2⟩ := q
    obtain ⟨rfl, hr⟩ := hp
    simp only [dget]
    split
    · exact ⟨v2, rfl⟩
    · rename_i hne
      rcases List.mem_cons.mp hm with e | hm
      · cases e; exact absurd hk hne
      · exact ih hm

/-- Another dictionary in the place of the protected header. -/
theorem phdr_write {C : Crypto} {h : Mem} (ok : h.Ok) (hf : h.Flat) {m : Nat} {b : Base} (hl : Spec.Looks h m b) {o : MObj} (hm : h.msg m = some o)
    {es' : List (Val × Elem)} {d : Dict} (hsh : ShowsD h es' d) (ho : Spec.Ordinary h (.write o.phdr (.dict es'))) :
    Spec.Looks (Mem.run C [.write o.phdr (.dict es')] h) m { b with phdr := d } := by
  obtain ⟨o', h1, h2, h3, h4, h5, h6, h7, h8, h9⟩ := hl
  rw [h1] at hm; cases hm
  have ph : o.phdr ∈ o.dicts := by simp [MObj.dicts]
  obtain ⟨es0, hc⟩ := ok.dicts m o h1 o.phdr ph
  have hargs : (MemOp.write o.phdr (.dict es')).args.all h.has = true := by
    rw [List.all_eq_true]
    intro x hx
    obtain ⟨p, hp, rfl⟩ := List.mem_map.mp (show x ∈ es'.map (·.2) from hx)
    have : ∀ {l : List (Val × Elem)} {d : Dict}, ShowsD h l d → ∀ p ∈ l, h.has p.2 = true := by
      intro l d hs
      unfold ShowsD at hs
      induction hs with
      | nil => simp
      | cons hp _ ih =>
        intro p hp'
        rcases List.mem_cons.mp hp' with rfl | hp'
        · exact shows_has hp.2
        · exact ih p hp'
    exact this hsh p hp
  have hstep : h.step C (.write o.phdr (.dict es')) = .ok { h with cell := put h.cell o.phdr (.dict es') } := by
    unfold Mem.step
    rw [if_pos hargs]
    simp [hc, Cell.alike]
  rw [run_one_ok hstep]
  have nd := ok.nodup m o h1
  simp only [MObj.dicts, List.nodup_cons, List.mem_cons, not_or, List.not_mem_nil, not_false_eq_true, List.nodup_nil, and_true] at nd
  have keep : ∀ e v, e ≠ .ref o.phdr → Spec.Shows h e v → Spec.Shows { h with cell := put h.cell o.phdr (.dict es') } e v :=
    fun e v he hv => shows_write hf h1 ph (fun b hb => mput_other hb) he hv
  refine ⟨o, h1, h2, shows_dict.mpr ⟨es', mput_same, all2_mono hsh fun p hp q hq => ⟨hq.1, keep _ _ ?_ hq.2⟩⟩, keep _ _ (by simpa using Ne.symm nd.1.1) h4,
    keep _ _ (by simpa using Ne.symm nd.1.2) h5, h6, h7, h8, showsKey_mono (fun a ha v hv => keep _ _ ?_ hv) h9⟩
  · intro e
    exact ho m o h1 o.phdr ph (by rw [← e]; exact List.mem_map.mpr ⟨p, hp, rfl⟩)
  · intro e
    cases e
    obtain ⟨k, s, hc'⟩ := ok.keys m o h1 _ ha
    rw [hc] at hc'; cases hc'

theorem history_looks {C : Crypto} {m : Nat} {h : Mem} {p : List MemOp} {q : List MsgOp} (hh : Spec.History C m h p q) (ok : h.Ok) (hf : h.Flat)
    (ho : Spec.OrdinaryRun C h p) {b : Base} (hl : Spec.Looks h m b) : Spec.Looks (Mem.run C p h) m (b.run q).1 := by
  induction hh generalizing b with
  | done => exact hl
  | @elsewhere h op p q he _ ih =>
    obtain ⟨h1, h2⟩ := ordinaryRun_cons ho
    rw [run_cons]
    refine ih (run_ok C _ ok) (run_flat ok hf h1) h2 ?_
    cases hs : h.step C op with
    | ok h' => rw [run_one_ok hs]; exact looks_step ok hf hl he hs
    | error e => rw [run_one_error hs]; exact hl
  | @own h op w p q ht hs _ ih =>
    obtain ⟨h1, h2⟩ := ordinaryRun_cons ho
    rw [run_cons]
    have hr := onMsg_refines (C := C) ok hf hl ht hs
    cases ha : b.apply w with
    | ok b' =>
      obtain ⟨h', hs', hl'⟩ := hr.1 b' ha
      have : (b.run (w :: q)).1 = (b'.run q).1 := by simp [Base.run, ha]
      rw [this]
      refine ih (run_ok C _ ok) (run_flat ok hf h1) h2 ?_
      rw [run_one_ok hs']; exact hl'
    | error e =>
      have : (b.run (w :: q)).1 = (b.run q).1 := by simp [Base.run, ha]
      rw [this]
      refine ih (run_ok C _ ok) (run_flat ok hf h1) h2 ?_
      rw [run_one_error (hr.2 e ha)]; exact hl
  | @setItem h o es k v e p q hm hc hv _ ih =>
    obtain ⟨h1, h2⟩ := ordinaryRun_cons ho
    rw [run_cons]
    obtain ⟨o', h1', _, h3, _⟩ := id hl
    rw [hm] at h1'; cases h1'
    obtain ⟨es0, hc0, hs0⟩ := shows_dict.mp h3
    rw [hc] at hc0; cases hc0
    have hl' := phdr_write (C := C) ok hf hl hm (rset_all2 (R := Spec.Shows h) hs0 (k := k) hv) (h1 [] _ [] rfl)
    have : (b.run (.phdrSetItem k v :: q)).1 = (({ b with phdr := dset b.phdr k v } : Base).run q).1 := by simp [Base.run, Base.apply, Base.phdrSetItem]
    rw [this]
    exact ih (run_ok C _ ok) (run_flat ok hf h1) h2 hl'
  | @delItem h o es k k' e p q hm hc hmem hk _ ih =>
    obtain ⟨h1, h2⟩ := ordinaryRun_cons ho
    rw [run_cons]
    obtain ⟨o', h1', _, h3, _⟩ := id hl
    rw [hm] at h1'; cases h1'
    obtain ⟨es0, hc0, hs0⟩ := shows_dict.mp h3
    rw [hc] at hc0; cases hc0
    have hl' := phdr_write (C := C) ok hf hl hm (rdel_all2 (R := Spec.Shows h) hs0 (k := k)) (h1 [] _ [] rfl)
    obtain ⟨v, hv⟩ := all2_dget (R := Spec.Shows h) hs0 hmem hk
    have : (b.run (.phdrDelItem k :: q)).1 = (({ b with phdr := ddel b.phdr k } : Base).run q).1 := by
      simp [Base.run, Base.apply, Base.phdrDel, hv, Base.phdrDelItem]
    rw [this]
    exact ih (run_ok C _ ok) (run_flat ok hf h1) h2 hl'

/-! ### Copies -/

theorem notOn_msg {C : Crypto} {m : Nat} (p : List MemOp) (hn : Spec.NotOn m p) {h : Mem} (ok : h.Ok) : (Mem.run C p h).msg m = h.msg m := by
  induction p generalizing h with
  | nil => rfl
  | cons op t ih =>
    simp only [Mem.run]
    have ht : Spec.NotOn m t := fun op' h' => hn op' (by simp [h'])
    split
    · rename_i h' hs
      have eff := step_effect ok hs
      rw [ih ht eff.ok, eff.msgs m (hn op (by simp))]
    · exact ih ht ok

/-- A region of memory that only `m` may use, and that the program does not write to. -/
theorem spared {C : Crypto} {m lo hi : Nat} (p : List MemOp) (hn : Spec.NotOn m p) {g : Mem} (ok : g.Ok) (hb : hi ≤ g.next)
    (hd : ∀ m' o, m' ≠ m → g.msg m' = some o → ∀ a ∈ o.dicts, ¬ (lo ≤ a ∧ a < hi)) (hw : ∀ a c, .write a c ∈ p → lo ≤ a → a < hi → g.cell a = none) :
    ∀ x, lo ≤ x → x < hi → (Mem.run C p g).cell x = g.cell x := by
  induction p generalizing g with
  | nil => intros; rfl
  | cons op t ih =>
    intro x hx1 hx2
    have ht : Spec.NotOn m t := fun op' h' => hn op' (by simp [h'])
    simp only [Mem.run]
    split
    · rename_i g' hs
      have eff := step_effect ok hs
      have same : ∀ x, lo ≤ x → x < hi → g'.cell x = g.cell x := by
        intro x hx1 hx2
        by_cases hch : x ∈ Spec.changes g op
        · have other : ∀ {m' : Nat} {f : MObj → Nat}, (∀ o, f o ∈ o.dicts) → op.target = some m' → x ∈ ((g.msg m').map f).toList → False := by
            intro m' f hfd htg hx
            simp only [Option.mem_toList, Option.map_eq_some_iff] at hx
            obtain ⟨o', hm', rfl⟩ := hx
            exact hd m' o' (by rintro rfl; exact hn op (by simp) htg) hm' _ (hfd o') ⟨hx1, hx2⟩
          cases op with
          | write a c =>
            simp only [Spec.changes, List.mem_singleton] at hch
            subst hch
            have hnone := hw x c (by simp) hx1 hx2
            unfold Mem.step at hs
            split at hs
            · simp [hnone] at hs; rw [hs]
            · cases hs; rfl
          | phdrUpdate m' e => exact (other (f := (·.phdr)) (by simp [MObj.dicts]) rfl hch).elim
          | uhdrUpdate m' e => exact (other (f := (·.uhdr)) (by simp [MObj.dicts]) rfl hch).elim
          | setLocal m' e => exact (other (f := (·.loc)) (by simp [MObj.dicts]) rfl hch).elim
          | _ => simp [Spec.changes] at hch
        · exact eff.cells x (by omega) hch
      rw [ih ht eff.ok (Nat.le_trans hb eff.next) ?_ ?_ x hx1 hx2, same x hx1 hx2]
      · intro m' o hne hm a ha
        rcases eff.dicts m' o hm a ha with h1 | ⟨o0, h1, h2⟩
        · omega
        · exact hd m' o0 hne h1 a h2
      · intro a c hin h1 h2
        rw [same a h1 h2]
        exact hw a c (by simp [hin]) h1 h2
    · exact ih ht ok hb hd (fun a c hin => hw a c (by simp [hin])) x hx1 hx2

/-- A copied dictionary lies in new memory. -/
theorem copyDict_region {h h1 : Mem} (ok : h.Ok) {e : Elem} {a : Nat} (hc : h.copyDict e = .ok (h1, a)) {x : Nat} (hr : h1.Reaches (.ref a) x) :
    h.next ≤ x ∧ x < h1.next := by
  have okh := copyDict_spec ok hc
  have inv : ∀ {e : Elem} {x : Nat}, h1.Reaches e x → (∀ b, e = .ref b → h.next ≤ b) → h.next ≤ x := by
    intro e' x hr
    induction hr with
    | self => exact fun hb => hb _ rfl
    | @step b y c e1 hcell hmem _ ih =>
      intro hb
      refine ih fun z hz => ?_
      subst hz
      have hb := hb b rfl
      cases e with
      | imm v =>
        cases v <;> simp [Mem.copyDict] at hc
        obtain ⟨rfl, rfl⟩ := hc
        rcases mput_cases hcell with ⟨_, rfl⟩ | hcell
        · simp [Cell.elems] at hmem
        · rw [ok.bounded b hb] at hcell; cases hcell
      | ref r =>
        simp only [Mem.copyDict] at hc
        split at hc <;> cases hc
        obtain ⟨b0, c0, rfl, hr0, hc0, rfl⟩ := copy_inv hb hcell
        rw [move_elems, List.mem_map] at hmem
        obtain ⟨e0, he0, hmv⟩ := hmem
        cases e0 with
        | imm v => simp [Elem.move] at hmv
        | ref y => simp only [Elem.move, Elem.ref.injEq] at hmv; omega
  refine ⟨inv hr fun b e => by cases e; exact okh.2.2.1, reaches_lt okh.1 hr ?_⟩
  obtain ⟨d, hd⟩ := okh.2.2.2.2.1
  simp [Mem.has, hd]

/-- What a copied header shows does not depend on the rest of the program. -/
theorem copied_stays {C : Crypto} {h h1 : Mem} (ok : h.Ok) {e : Elem} {a m : Nat} {o' : MObj} (hc : h.copyDict e = .ok (h1, a))
    (okh : ({ h1 with msg := put h1.msg m o' } : Mem).Ok) {p : List MemOp} (hn : Spec.NotOn m p) (hs : Spec.Spares h { h1 with msg := put h1.msg m o' } p)
    {v : Val} (hv : Spec.Shows { h1 with msg := put h1.msg m o' } (.ref a) v) : Spec.Shows (Mem.run C p { h1 with msg := put h1.msg m o' }) (.ref a) v := by
  have spec := copyDict_spec ok hc
  refine shows_frame (h := { h1 with msg := put h1.msg m o' }) (fun x hr => ?_) hv
  have hr' : h1.Reaches (.ref a) x := by
    have : ∀ {e : Elem} {x : Nat}, Mem.Reaches { h1 with msg := put h1.msg m o' } e x → h1.Reaches e x := by
      intro e x hr
      induction hr with
      | self => exact .self
      | step h1 h2 _ ih => exact .step h1 h2 ih
    exact this hr
  obtain ⟨hx1, hx2⟩ := copyDict_region ok hc hr'
  refine spared (lo := h.next) (hi := h1.next) p hn okh (Nat.le_refl _) ?_ ?_ x hx1 hx2
  · rintro m' o hne hm b hb ⟨h2, _⟩
    have hm : h.msg m' = some o := by
      have := spec.2.2.2.2.2.1
      simp only [mput_other hne, this] at hm
      exact hm
    have := new_not_old ok hm hb
    omega
  · intro b c hin h2 _
    rcases hs b c hin with h3 | h3
    · have := ok_lt ok h3; omega
    · exact h3

/-! ### Shared entries -/

/-- `d.get(k)`. -/
def rget : List (Val × Elem) → Val → Option Elem
  | [], _ => none
  | (k, v) :: t, q => if keq k q then some v else rget t q

theorem rget_rset_same (d : List (Val × Elem)) (k q : Val) (e : Elem) (hk : keq k q = true) : rget (rset d k e) q = some e := by
  induction d with
  | nil => simp [rset, rget, hk]
  | cons p t ih =>
    obtain ⟨k1, e1⟩ := p
    simp only [rset]
    split
    · rename_i h1; simp [rget, keq_trans h1 hk]
    · rename_i h1
      have : keq k1 q = false := by
        cases h2 : keq k1 q with
        | false => rfl
        | true => exact absurd (keq_trans h2 (keq_symm hk)) h1
      simp [rget, this, ih]

theorem rget_rset_other (d : List (Val × Elem)) (k q : Val) (e : Elem) (hk : keq k q = false) : rget (rset d k e) q = rget d q := by
  induction d with
  | nil => simp [rset, rget, hk]
  | cons p t ih =>
    obtain ⟨k1, e1⟩ := p
    simp only [rset]
    split
    · rename_i h1
      have : keq k1 q = false := by rw [keq_congr_left h1]; exact hk
      simp [rget, this]
    · simp only [rget, ih]

theorem rget_rupdate_other (d es : List (Val × Elem)) (q : Val) (hk : ∀ p ∈ es, keq p.1 q = false) : rget (rupdate d es) q = rget d q := by
  induction es generalizing d with
  | nil => rfl
  | cons p t ih =>
    obtain ⟨k1, e1⟩ := p
    simp only [rupdate]
    rw [ih _ fun p hp => hk p (by simp [hp]), rget_rset_other _ _ _ _ (hk (k1, e1) (by simp))]

theorem rget_rupdate (d es : List (Val × Elem)) {k : Val} {e : Elem} (hp : es.Pairwise fun a b => keq a.1 b.1 = false) (hm : (k, e) ∈ es) :
    rget (rupdate d es) k = some e := by
  induction es generalizing d with
  | nil => simp at hm
  | cons p t ih =>
    obtain ⟨k1, e1⟩ := p
    rw [List.pairwise_cons] at hp
    simp only [rupdate]
    rcases List.mem_cons.mp hm with h | hm
    · cases h
      rw [rget_rupdate_other _ _ _ fun p h' => by rw [keq_comm]; exact hp.1 p h', rget_rset_same _ _ _ _ (keq_refl _)]
    · exact ih _ hp.2 hm

theorem rget_parse_other {C : Crypto} {allow : Bool} {h : Mem} {es acc d : List (Val × Elem)} {q : Val} (hp : h.parseHeader C allow acc es = .ok d)
    (hk : ∀ p ∈ es, ∀ a, fromIdKey .hdr p.1 allow = .ok a → keq a q = false) : rget d q = rget acc q := by
  induction es generalizing acc with
  | nil => cases hp; rfl
  | cons p t ih =>
    obtain ⟨k1, e1⟩ := p
    simp only [Mem.parseHeader, bind_eq_ok] at hp
    obtain ⟨a, ha, e', _, hp⟩ := hp
    rw [ih hp fun p h' => hk p (by simp [h']), rget_rset_other _ _ _ _ (hk (k1, e1) (by simp) a ha)]

theorem rget_parse {C : Crypto} {allow : Bool} {h : Mem} {es acc d : List (Val × Elem)} {k a : Val} {e : Elem} (hp : h.parseHeader C allow acc es = .ok d)
    (hw : es.Pairwise fun x y => ∀ a b, fromIdKey .hdr x.1 allow = .ok a → fromIdKey .hdr y.1 allow = .ok b → keq a b = false) (hm : (k, e) ∈ es)
    (ha : fromIdKey .hdr k allow = .ok a) (hc : ∀ c, a = .cls c → converts c = false) : rget d a = some e := by
  induction es generalizing acc with
  | nil => simp at hm
  | cons p t ih =>
    obtain ⟨k1, e1⟩ := p
    rw [List.pairwise_cons] at hw
    simp only [Mem.parseHeader, bind_eq_ok] at hp
    obtain ⟨a', ha', e', he', hp⟩ := hp
    rcases List.mem_cons.mp hm with h' | hm
    · cases h'
      rw [ha] at ha'; cases ha'
      rw [rget_parse_other hp fun p h' b hb => by rw [keq_comm]; exact hw.1 p h' a b ha hb, rget_rset_same _ _ _ _ (keq_refl _)]
      cases a with
      | cls c =>
        simp only [Mem.parseEntry, Mem.parse] at he'
        split at he'
        · cases he'
        · obtain ⟨w, _, h2⟩ := bind_eq_ok.mp he'
          simp only [hc c rfl, Bool.false_eq_true, if_false] at h2
          cases h2; rfl
      | _ => simp only [Mem.parseEntry] at he'; cases he'; rfl
    · exact ih hp hw.2 hm

theorem all2_rget {R : Elem → Val → Prop} {es : List (Val × Elem)} {d : Dict} (hv : All2 (fun p q => p.1 = q.1 ∧ R p.2 q.2) es d) {k : Val} {e : Elem}
    (hg : rget es k = some e) : ∃ v, dget d k = some v ∧ R e v := by
  induction hv with
  | nil => cases hg
  | @cons p q t t' hp ht ih =>
    obtain ⟨k1, e1⟩ := p
    obtain ⟨k2, v2⟩ := q
    obtain ⟨rfl, hr⟩ := hp
    simp only [dget]
    simp only [rget] at hg
    split at hg
    · rename_i h1; cases hg; exact ⟨v2, by simp [h1], hr⟩
    · rename_i h1
      obtain ⟨v, h2, h3⟩ := ih hg
      exact ⟨v, by simp [h1, h2], h3⟩

/-- The header dictionary of a message that the program leaves alone. -/
theorem own_cell {C : Crypto} {h : Mem} (ok : h.Ok) {m : Nat} {o : MObj} (hm : h.msg m = some o) {a : Nat} (ha : a ∈ o.dicts) {p : List MemOp} (hn : Spec.NotOn m p)
    (hw : ∀ c, .write a c ∉ p) : (Mem.run C p h).cell a = h.cell a := by
  obtain ⟨d, hd⟩ := ok.dicts m o hm a ha
  have hlt := ok_lt ok (a := a) (by simp [hd])
  refine spared (lo := a) (hi := a + 1) p hn ok hlt ?_ ?_ a (Nat.le_refl _) (Nat.lt_succ_self _)
  · rintro m' o' hne hm' b hb ⟨h1, h2⟩
    have : b = a := by omega
    subst this
    exact ok.apart m o m' o' hm hm' (Ne.symm hne) b ha hb
  · intro b c hin h1 h2
    have : b = a := by omega
    subst this
    exact absurd hin (hw c)

/-! ### An update and the dictionary it is made from -/

theorem asDict_cell {h : Mem} {a : Nat} {d : List (Val × Elem)} (hd : h.asDict (.ref a) = .ok d) : h.cell a = some (.dict d) := by
  simp only [Mem.asDict] at hd
  split at hd <;> cases hd
  assumption

theorem update_reaches {h : Mem} {r a n : Nat} {f : Nat → Option MObj} {v : Val} {es d : List (Val × Elem)} (hv : Spec.Shows h (.ref r) v)
    (hr : h.cell r = some (.dict es)) (ha : h.cell a = some (.dict d)) (hn : ¬ h.Reaches (.ref a) r) :
    ¬ Mem.Reaches ⟨put h.cell a (.dict (rupdate d es)), n, f⟩ (.ref a) r := by
  have key : ∀ {e : Elem} {b : Nat}, Mem.Reaches ⟨put h.cell a (.dict (rupdate d es)), n, f⟩ e b →
      h.Reaches e b ∨ ∃ x ∈ (rupdate d es).map (·.2), h.Reaches x b := by
    intro e b hp
    induction hp with
    | self => exact .inl .self
    | @step z b c x h1 h2 _ ih =>
      rcases ih with ih | ih
      · by_cases hz : z = a
        · subst hz
          simp only [mput_same] at h1
          cases h1
          exact .inr ⟨x, h2, ih⟩
        · simp only [mput_other hz] at h1
          exact .inl (.step h1 h2 ih)
      · exact .inr ih
  intro hp
  rcases key hp with h1 | ⟨x, hx, h1⟩
  · exact hn h1
  · have : x ∈ d.map (·.2) ∨ x ∈ es.map (·.2) := rupdate_elems (P := fun x => x ∈ d.map (·.2) ∨ x ∈ es.map (·.2)) (fun _ h => .inl h) (fun _ h => .inr h) x hx
    rcases this with hx | hx
    · exact hn (.step ha hx h1)
    · exact shows_acyclic hv .self hr hx h1

end Cose
