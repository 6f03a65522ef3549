import Verif.Multi
import Verif.RegLemmas
/-! Facts about the attribute parsing loop. -/
set_option autoImplicit false
namespace Cose

theorem fromIdKey_ok {r : Reg} {k a : Val} {allow : Bool} (h : fromIdKey r k allow = .ok a) :
    (∃ c, resolve r k = some c ∧ a = .cls c) ∨ (resolve r k = none ∧ allow = true ∧ a = k) := by
  unfold fromIdKey at h
  split at h
  · rename_i c hc; simp at h; exact .inl ⟨c, hc, h.symm⟩
  · rename_i hc; split at h <;> simp at h
    rename_i ha; exact .inr ⟨hc, ha, h.symm⟩

/-- `from_id` on its own result. -/
theorem fromIdKey_idem {r : Reg} {k a : Val} {allow : Bool} (h : fromIdKey r k allow = .ok a) :
    fromIdKey r a allow = .ok a := by
  rcases fromIdKey_ok h with ⟨c, hc, rfl⟩ | ⟨hc, ha, rfl⟩
  · simp [fromIdKey, resolve_cls hc]
  · exact h

theorem resolve_keq_cls {r : Reg} {c : Cls} {v : Val} (h : keq v (.cls c) = true) : resolve r v = lookupId r c.ident := by
  rw [keq_cls_right] at h; subst h; rfl

/-- The value the loop stores for the label `a` (after translation) and the raw value `v`. -/
def parsedVal (parse : Cls → Val → Res Val) (a v : Val) : Res Val :=
  match a with
  | .cls c => parse c v
  | _ => .ok v

theorem parseAttrs_cons {r : Reg} {allow : Bool} {parse : Cls → Val → Res Val} {acc : Dict} {k v : Val} {t : Dict} :
    parseAttrs r allow parse acc ((k, v) :: t) =
      (do let a ← fromIdKey r k allow
          let v' ← parsedVal parse a v
          parseAttrs r allow parse (dset acc a v') t) := by
  rw [parseAttrs]
  congr 1; funext a
  cases a <;> rfl

theorem parseAttrs_append {r : Reg} {allow : Bool} {parse : Cls → Val → Res Val} (acc d e : Dict) :
    parseAttrs r allow parse acc (d ++ e) =
      (do let acc' ← parseAttrs r allow parse acc d
          parseAttrs r allow parse acc' e) := by
  induction d generalizing acc with
  | nil => simp [parseAttrs]
  | cons p t ih =>
    obtain ⟨k, v⟩ := p
    simp only [List.cons_append, parseAttrs_cons]
    cases fromIdKey r k allow with
    | error e => simp
    | ok a =>
      simp only [ok_bind]
      cases parsedVal parse a v with
      | error e => simp
      | ok w => simp [ih]

/-- An entry that parses to itself. -/
def FixEntry (r : Reg) (allow : Bool) (parse : Cls → Val → Res Val) (p : Val × Val) : Prop :=
  fromIdKey r p.1 allow = .ok p.1 ∧ parsedVal parse p.1 p.2 = .ok p.2

theorem parseAttrs_fix {r : Reg} {allow : Bool} {parse : Cls → Val → Res Val} {acc d : Dict}
    (hn : KeysNodup (acc ++ d)) (hf : ∀ p ∈ d, FixEntry r allow parse p) :
    parseAttrs r allow parse acc d = .ok (acc ++ d) := by
  induction d generalizing acc with
  | nil => simp [parseAttrs]
  | cons p t ih =>
    obtain ⟨k, v⟩ := p
    obtain ⟨h1, h2⟩ := hf (k, v) (by simp)
    simp only at h1 h2
    rw [parseAttrs_cons, h1, ok_bind, h2, ok_bind, dset_append_new, ih]
    · simp
    · simpa using hn
    · intro p hp; exact hf p (List.mem_cons_of_mem _ hp)
    · intro p hp
      have := (List.pairwise_append.mp hn).2.2 p hp (k, v) (by simp)
      exact this

/-- An entry of a parsed dictionary: its label is a fixed point of the translation, and a value under
a class label came out of that class's value parser. -/
def ParsedEntry (r : Reg) (allow : Bool) (parse : Cls → Val → Res Val) (p : Val × Val) : Prop :=
  fromIdKey r p.1 allow = .ok p.1 ∧ ∀ c, p.1 = .cls c → ∃ w, parse c w = .ok p.2

theorem parseAttrs_nodup {r : Reg} {allow : Bool} {parse : Cls → Val → Res Val} {acc d h : Dict}
    (hn : KeysNodup acc) (e : parseAttrs r allow parse acc d = .ok h) : KeysNodup h := by
  induction d generalizing acc with
  | nil => simp [parseAttrs] at e; subst e; exact hn
  | cons p t ih =>
    obtain ⟨k, v⟩ := p
    rw [parseAttrs_cons] at e
    simp only [bind_eq_ok] at e
    obtain ⟨a, _, w, _, e⟩ := e
    exact ih (dset_nodup hn _ _) e

theorem parseAttrs_parsed {r : Reg} {allow : Bool} {parse : Cls → Val → Res Val} {acc d h : Dict}
    (ha : ∀ p ∈ acc, ParsedEntry r allow parse p)
    (e : parseAttrs r allow parse acc d = .ok h) : ∀ p ∈ h, ParsedEntry r allow parse p := by
  induction d generalizing acc with
  | nil => simp [parseAttrs] at e; subst e; exact ha
  | cons p t ih =>
    obtain ⟨k, v⟩ := p
    rw [parseAttrs_cons] at e
    simp only [bind_eq_ok] at e
    obtain ⟨a, h1, w, h2, e⟩ := e
    refine ih ?_ e
    have key : ∀ p, (∃ q ∈ acc, q.1 = p.1) ∨ p.1 = a → p.2 = w → keq p.1 a = true → ParsedEntry r allow parse p := by
      intro p hp1 hp2 hp3
      refine ⟨?_, ?_⟩
      · rcases hp1 with ⟨q, hq, hq'⟩ | hq
        · rw [← hq']; exact (ha q hq).1
        · rw [hq]; exact fromIdKey_idem h1
      · intro c hc
        rw [hc, keq_cls_left] at hp3
        subst hp3
        exact ⟨v, by rw [hp2]; exact h2⟩
    -- membership in `dset`
    clear ih e h1 h2
    intro p hp
    have : p ∈ acc ∨ ((∃ q ∈ acc, q.1 = p.1) ∨ p.1 = a) ∧ p.2 = w ∧ keq p.1 a = true := by
      clear key ha
      induction acc with
      | nil => simp [dset] at hp; subst hp; exact .inr ⟨.inr rfl, rfl, by simp⟩
      | cons q s ihs =>
        obtain ⟨x, y⟩ := q
        simp only [dset] at hp
        split at hp
        · rename_i hx
          rcases List.mem_cons.mp hp with rfl | hp
          · exact .inr ⟨.inl ⟨(x, y), by simp, rfl⟩, rfl, hx⟩
          · exact .inl (List.mem_cons_of_mem _ hp)
        · rcases List.mem_cons.mp hp with rfl | hp
          · exact .inl (by simp)
          · rcases ihs hp with h | ⟨⟨q, hq, e⟩ | e, h2, h3⟩
            · exact .inl (List.mem_cons_of_mem _ h)
            · exact .inr ⟨.inl ⟨q, List.mem_cons_of_mem _ hq, e⟩, h2, h3⟩
            · exact .inr ⟨.inr e, h2, h3⟩
    rcases this with h | ⟨h1, h2, h3⟩
    · exact ha p h
    · exact key p h1 h2 h3

/-- The value under a class label after the loop: the parsed value of the last entry whose label
denotes that class; the initial one if there is none. -/
theorem parseAttrs_get {r : Reg} {allow : Bool} {parse : Cls → Val → Res Val} {acc d h : Dict}
    (e : parseAttrs r allow parse acc d = .ok h) (c : Cls) :
    ((∀ p ∈ d, resolve r p.1 ≠ some c ∧ (resolve r p.1 = none → p.1 ≠ .cls c)) ∧ dget h (.cls c) = dget acc (.cls c)) ∨
    (∃ d1 k v d2 w, d = d1 ++ (k, v) :: d2 ∧ fromIdKey r k allow = .ok (.cls c) ∧ parse c v = .ok w ∧
      (∀ p ∈ d2, fromIdKey r p.1 allow ≠ .ok (.cls c)) ∧ dget h (.cls c) = some w) := by
  induction d generalizing acc with
  | nil => simp [parseAttrs] at e; subst e; exact .inl ⟨by simp, rfl⟩
  | cons p t ih =>
    obtain ⟨k, v⟩ := p
    rw [parseAttrs_cons] at e
    simp only [bind_eq_ok] at e
    obtain ⟨a, h1, w, h2, e⟩ := e
    rcases ih e with ⟨ht, hg⟩ | ⟨d1, k', v', d2, w', rfl, hk, hp, hr, hg⟩
    · by_cases hac : a = .cls c
      · subst hac
        refine .inr ⟨[], k, v, t, w, rfl, h1, h2, ?_, ?_⟩
        · intro p hp hc
          obtain ⟨ht1, ht2⟩ := ht p hp
          rcases fromIdKey_ok hc with ⟨c', hc', hcc⟩ | ⟨hn, _, he⟩
          · simp at hcc; subst hcc; exact ht1 hc'
          · exact ht2 hn he.symm
        · rw [hg]; exact dget_dset_same _ _ _
      · refine .inl ⟨?_, ?_⟩
        · intro p hp
          rcases List.mem_cons.mp hp with rfl | hp
          · rcases fromIdKey_ok h1 with ⟨c', hc', rfl⟩ | ⟨hn, _, rfl⟩
            · simp only [hc', reduceCtorEq, false_implies, and_true]
              intro hcc; simp at hcc; exact hac (by rw [hcc])
            · exact ⟨by simp [hn], fun _ h => hac h⟩
          · exact ht p hp
        · rw [hg]; apply dget_dset_other
          rw [Bool.eq_false_iff]; intro hk; exact hac (keq_cls_right.mp hk)
    · exact .inr ⟨(k, v) :: d1, k', v', d2, w', rfl, hk, hp, hr, hg⟩

/-! ### Value parsers are idempotent -/

mutual
theorem fromId_idem {r : Reg} (v : Val) {w : Val} (h : fromId r v = .ok w) : fromId r w = .ok w := by
  cases v
  case arr l =>
    simp only [fromId, bind_eq_ok] at h
    obtain ⟨l', h1, h2⟩ := h
    simp at h2; subst h2
    simp [fromId, fromIdL_idem l h1]
  all_goals
    simp only [fromId] at h
    split at h <;> simp at h
    rename_i c hc
    subst h
    simp [fromId, resolve_cls hc]
theorem fromIdL_idem {r : Reg} (l : List Val) {w : List Val} (h : fromIdL r l = .ok w) : fromIdL r w = .ok w := by
  cases l with
  | nil => simp [fromIdL] at h; subst h; rfl
  | cons v t =>
    simp only [fromIdL, bind_eq_ok] at h
    obtain ⟨a, h1, b, h2, h3⟩ := h
    simp at h3; subst h3
    simp [fromIdL, fromId_idem v h1, fromIdL_idem t h2]
end

theorem isBstr_ok {v w : Val} (h : isBstr v = .ok w) : ∃ b, v = .bytes b ∧ w = .bytes b := by
  cases v <;> simp [isBstr] at h; subst h; exact ⟨_, rfl, rfl⟩

theorem critIsArray_ok {v w : Val} (h : critIsArray v = .ok w) :
    ∃ l, v = .arr l ∧ w = .arr l ∧ l ≠ [] ∧ ∀ x ∈ l, isIntOrStr x = true := by
  cases v <;> simp only [critIsArray, reduceCtorEq] at h
  rename_i l
  split at h <;> simp at h
  rename_i hc
  subst h
  refine ⟨l, rfl, rfl, ?_, ?_⟩
  · rintro rfl; exact hc (by simp)
  · have : l.all isIntOrStr = true := by
      cases h : l.all isIntOrStr
      · exact absurd (Or.inr h) hc
      · rfl
    simpa using this

theorem contentType_ok {v w : Val} (h : contentType v = .ok w) :
    v = w ∧ ((∃ i, 0 ≤ i ∧ v = .int i) ∨ (∃ b, v = .bool b) ∨ ∃ s, v = .text s) := by
  cases v <;> simp only [contentType, reduceCtorEq] at h
  case int i =>
    split at h <;> simp at h
    exact ⟨h, .inl ⟨i, by omega, rfl⟩⟩
  case bool b => simp at h; exact ⟨h, .inr (.inl ⟨b, rfl⟩)⟩
  case text b => simp at h; exact ⟨h, .inr (.inr ⟨b, rfl⟩)⟩

theorem simpleParser_idem {c : Cls} {v w : Val} (h : simpleParser c v = .ok w) : simpleParser c w = .ok w := by
  unfold simpleParser at h ⊢
  split
  case h_1 hr =>
    simp only [hr] at h
    (repeat' split at h) <;> simp_all [isBstr]
    · exact fromId_idem _ h
    · obtain ⟨l, rfl, rfl, _⟩ := critIsArray_ok h; exact h
    · obtain ⟨rfl, _⟩ := contentType_ok h; exact h
    all_goals (obtain ⟨b, rfl, rfl⟩ := isBstr_ok h; rfl)
  case h_2 hr =>
    simp only [hr] at h
    (repeat' split at h) <;> simp_all
    all_goals exact fromId_idem _ h
  case h_3 hr =>
    simp only [hr] at h
    (repeat' split at h) <;> simp_all
    all_goals exact fromId_idem _ h
  case h_4 hr =>
    simp only [hr] at h
    (repeat' split at h) <;> simp_all
    all_goals exact fromId_idem _ h
  case h_5 => rfl

/-- Header classes whose value is a key. -/
def isKeyHdr (c : Cls) : Prop := c.reg = .hdr ∧ (c.ident = -1 ∨ c.ident = -2)
instance (c : Cls) : Decidable (isKeyHdr c) := by unfold isKeyHdr; infer_instance

theorem hdrParser_simple {C : Crypto} {c : Cls} (h : ¬ isKeyHdr c) (v : Val) : hdrParser C c v = simpleParser c v := by
  unfold isKeyHdr at h; unfold hdrParser; rw [if_neg h]

theorem hdrParser_idem {C : Crypto} {c : Cls} {v w : Val} (hc : ¬ isKeyHdr c) (h : hdrParser C c v = .ok w) :
    hdrParser C c w = .ok w := by
  rw [hdrParser_simple hc] at h ⊢; exact simpleParser_idem h

end Cose
