import Verif.Class.Fields
import Verif.Props.Math

/-! Helper lemmas for the field layout. -/

namespace Avian.Class

open Avian.Math (U32 U64 pad ceilingDivide pad_toNat)

/-- size of a field code as a number -/
def sz (c : FieldCode) : Nat := (fieldSize c).toNat

theorem fieldSize_pow (c : FieldCode) (hc : c ≠ .void) :
    ∃ k, k ≤ 3 ∧ fieldSize c = BitVec.ofNat 32 (2 ^ k) ∧ sz c = 2 ^ k := by
  cases c
  case void => exact absurd rfl hc
  all_goals first
    | exact ⟨0, by decide, by decide, by decide⟩
    | exact ⟨1, by decide, by decide, by decide⟩
    | exact ⟨2, by decide, by decide, by decide⟩
    | exact ⟨3, by decide, by decide, by decide⟩

theorem sz_cases (c : FieldCode) (hc : c ≠ .void) : sz c = 1 ∨ sz c = 2 ∨ sz c = 4 ∨ sz c = 8 := by
  cases c <;> first | exact absurd rfl hc | decide

theorem pad_size (n : U32) (c : FieldCode) (hc : c ≠ .void) (h : n.toNat + 8 ≤ 2 ^ 32) :
    (pad n (fieldSize c)).toNat = (n.toNat + sz c - 1) - (n.toNat + sz c - 1) % sz c := by
  obtain ⟨k, hk, hs, hz⟩ := fieldSize_pow c hc
  have h8 : 2 ^ k ≤ 2 ^ 3 := Nat.pow_le_pow_right (by omega) hk
  rw [hs, hz, pad_toNat n k (by omega) (by omega)]

theorem pad_spec (n : U32) (c : FieldCode) (hc : c ≠ .void) (h : n.toNat + 8 ≤ 2 ^ 32) :
    n.toNat ≤ (pad n (fieldSize c)).toNat ∧ (pad n (fieldSize c)).toNat % sz c = 0 ∧
    (pad n (fieldSize c)).toNat + sz c ≤ (n.toNat + 7) / 8 * 8 + 8 := by
  rw [pad_size n c hc h]
  rcases sz_cases c hc with h1 | h1 | h1 | h1 <;> rw [h1] <;> omega

theorem sz_le (c : FieldCode) : sz c ≤ 8 := by cases c <;> decide

theorem toNat_fieldSize (c : FieldCode) : (fieldSize c).toNat = sz c := rfl

/-- offsets given to a list of fields of one kind -/
def place (o : U32) : List FieldCode → List (FieldCode × U32)
  | [] => []
  | c :: cs => (c, pad o (fieldSize c)) :: place (pad o (fieldSize c) + fieldSize c) cs

/-- offset after the last field -/
def placeEnd (o : U32) : List FieldCode → U32
  | [] => o
  | c :: cs => placeEnd (pad o (fieldSize c) + fieldSize c) cs

theorem place_spec (cs : List FieldCode) : ∀ (o : U32), (∀ c ∈ cs, c ≠ .void) →
    (o.toNat + 7) / 8 * 8 + 8 * cs.length < 2 ^ 32 →
    o.toNat ≤ (placeEnd o cs).toNat ∧
    (placeEnd o cs).toNat ≤ (o.toNat + 7) / 8 * 8 + 8 * cs.length ∧
    (∀ p ∈ place o cs, o.toNat ≤ p.2.toNat ∧ p.2.toNat % sz p.1 = 0 ∧
      p.2.toNat + sz p.1 ≤ (placeEnd o cs).toNat) ∧
    (place o cs).Pairwise (fun a b => a.2.toNat + sz a.1 ≤ b.2.toNat) := by
  induction cs with
  | nil =>
    intro o _ h
    simp only [placeEnd, place, List.length_nil]
    refine ⟨by omega, by omega, by simp, by simp⟩
  | cons c cs ih =>
    intro o hv h
    simp only [List.length_cons] at h
    have hc := hv c (by simp)
    obtain ⟨h1, h2, h3⟩ := pad_spec o c hc (by omega)
    have hsz := sz_le c
    have hn : (pad o (fieldSize c) + fieldSize c).toNat = (pad o (fieldSize c)).toNat + sz c := by
      rw [BitVec.toNat_add, toNat_fieldSize, Nat.mod_eq_of_lt (by omega)]
    obtain ⟨i1, i2, i3, i4⟩ := ih (pad o (fieldSize c) + fieldSize c)
      (fun x hx => hv x (by simp [hx])) (by omega)
    simp only [placeEnd, place, List.length_cons]
    refine ⟨by omega, by omega, ?_, ?_⟩
    · intro p hp
      rcases List.mem_cons.1 hp with hp | hp
      · subst hp
        exact ⟨h1, h2, by simp only; omega⟩
      · have := i3 p hp
        exact ⟨by omega, this.2⟩
    · refine List.Pairwise.cons ?_ i4
      intro p hp
      have := i3 p hp
      simp only
      omega

theorem place_codes (cs : List FieldCode) : ∀ o, (place o cs).map (·.1) = cs := by
  induction cs with
  | nil => intro o; rfl
  | cons c cs ih => intro o; simp [place, ih]

/-- truncated field record of a placed field -/
def mkField (st : Bool) (p : FieldCode × U32) : Field := ⟨st, p.1, p.2.setWidth 16⟩

def instCodes (ds : List Decl) : List FieldCode := (ds.filter (!·.isStatic)).map (·.code)
def statCodes (ds : List Decl) : List FieldCode := (ds.filter (·.isStatic)).map (·.code)

theorem layFields_eq (ds : List Decl) : ∀ m s,
    (layFields m s ds).member = placeEnd m (instCodes ds) ∧
    (layFields m s ds).static = placeEnd s (statCodes ds) ∧
    (layFields m s ds).fields.filter (!·.isStatic) =
      (place m (instCodes ds)).map (mkField false) ∧
    (layFields m s ds).fields.filter (·.isStatic) =
      (place s (statCodes ds)).map (mkField true) := by
  induction ds with
  | nil => intro m s; simp [layFields, instCodes, statCodes, placeEnd, place]
  | cons d ds ih =>
    intro m s
    obtain ⟨st, c, v⟩ := d
    cases st
    · obtain ⟨a, b, e, f⟩ := ih (pad m (fieldSize c) + fieldSize c) s
      simp only [instCodes, statCodes] at a b e f ⊢
      simp [layFields, placeEnd, place, mkField, a, b, e, f]
    · obtain ⟨a, b, e, f⟩ := ih m (pad s (fieldSize c) + fieldSize c)
      simp only [instCodes, statCodes] at a b e f ⊢
      simp [layFields, placeEnd, place, mkField, a, b, e, f]

theorem layFields_flat (ds : List Decl) : ∀ m s,
    (layFields m s ds).fields.map (fun f => (f.isStatic, f.code)) =
      ds.map (fun d => (d.isStatic, d.code)) := by
  induction ds with
  | nil => intro m s; rfl
  | cons d ds ih =>
    intro m s
    obtain ⟨st, c, v⟩ := d
    cases st <;> simp [layFields, ih]

/-! ### Masks -/

theorem testBit_lt {mask : List U32} {i : Nat} (h : i < 32 * mask.length) :
    testBit mask i = some (mask[i / 32]'(by omega)|>.getLsbD (i % 32)) := by
  have h1 : i / 32 < mask.length := by omega
  simp only [testBit, List.getElem?_eq_getElem h1, Option.map_some]
  congr 1
  have hm : i % 32 < 32 := Nat.mod_lt _ (by omega)
  rw [Bool.eq_iff_iff]
  constructor
  · intro hne
    cases hb : (mask[i / 32]).getLsbD (i % 32) with
    | true => rfl
    | false =>
      exfalso
      have : mask[i / 32] &&& (1#32 <<< (i % 32)) = 0#32 := by
        apply BitVec.eq_of_getLsbD_eq
        intro j hj
        rw [BitVec.getLsbD_and, BitVec.getLsbD_shiftLeft]
        by_cases hji : j = i % 32
        · rw [hji, hb]; simp
        · have : (1#32).getLsbD (j - i % 32) = false ∨ j < i % 32 := by
            by_cases hlt : j < i % 32
            · exact .inr hlt
            · left
              rw [BitVec.getLsbD_one]
              have : j - i % 32 ≠ 0 := by omega
              simp [this]
          rcases this with h' | h' <;> simp [h']
      rw [this] at hne
      exact absurd hne (by decide)
  · intro hb
    rw [bne_iff_ne]
    intro h0
    have := congrArg (fun x => BitVec.getLsbD x (i % 32)) h0
    simp only [BitVec.getLsbD_and, BitVec.getLsbD_shiftLeft, hb] at this
    simp [hm] at this

theorem testBit_isSome {mask : List U32} {i : Nat} (h : i < 32 * mask.length) :
    ∃ b, testBit mask i = some b := ⟨_, testBit_lt h⟩

theorem setBit_spec (mask : List U32) (i : Nat) (h : i < 32 * mask.length) :
    ∃ m, setBit mask i = some m ∧ m.length = mask.length ∧
      ∀ j, j < 32 * mask.length → (testBit m j = some true ↔ j = i ∨ testBit mask j = some true) := by
  have h1 : i / 32 < mask.length := by omega
  refine ⟨_, by rw [setBit, if_pos h1], by simp, ?_⟩
  intro j hj
  have hj1 : j / 32 < mask.length := by omega
  rw [testBit_lt (by simpa using hj), testBit_lt hj]
  simp only [List.getElem_modify, Option.some.injEq]
  by_cases hw : i / 32 = j / 32
  · rw [if_pos hw, BitVec.getLsbD_or, BitVec.getLsbD_shiftLeft, BitVec.getLsbD_one]
    have hm : j % 32 < 32 := Nat.mod_lt _ (by omega)
    simp only [Bool.or_eq_true, Bool.and_eq_true, decide_eq_true_eq, Bool.not_eq_true',
      decide_eq_false_iff_not]
    constructor
    · rintro (h' | ⟨⟨_, h'⟩, h''⟩)
      · exact .inr h'
      · left; omega
    · rintro (h' | h')
      · right; subst h'; refine ⟨⟨hm, by omega⟩, by omega, by omega⟩
      · exact .inl h'
  · rw [if_neg hw]
    constructor
    · exact fun h' => .inr h'
    · rintro (h' | h')
      · subst h'; exact absurd rfl hw
      · exact h'

theorem testBit_replicate (n i : Nat) (h : i < 32 * n) :
    testBit (List.replicate n 0#32) i = some false := by
  rw [testBit_lt (by simpa using h)]
  simp

theorem testBit_first (n i : Nat) (h : i < 32 * n) :
    testBit ((List.replicate n 0#32).set 0 1#32) i = some (decide (i = 0)) := by
  rw [testBit_lt (by simpa using h)]
  simp only [List.getElem_set, List.getElem_replicate, Option.some.injEq]
  by_cases h0 : 0 = i / 32
  · rw [if_pos h0, BitVec.getLsbD_one]
    rw [Bool.eq_iff_iff]
    simp only [Bool.and_eq_true, decide_eq_true_eq]
    omega
  · rw [if_neg h0]
    have : i ≠ 0 := by omega
    simp [this]

theorem testBit_append (a b : List U32) (i : Nat) :
    testBit (a ++ b) i = if i < 32 * a.length then testBit a i else testBit b (i - 32 * a.length) := by
  simp only [testBit]
  by_cases h : i < 32 * a.length
  · rw [if_pos h, List.getElem?_append_left (by omega)]
  · rw [if_neg h, List.getElem?_append_right (by omega)]
    have h1 : i / 32 - a.length = (i - 32 * a.length) / 32 := by omega
    have h2 : (i - 32 * a.length) % 32 = i % 32 := by omega
    rw [h1, h2]

theorem testBit_take (a : List U32) (k i : Nat) (h : i < 32 * k) :
    testBit (a.take k) i = testBit a i := by
  simp only [testBit]
  rw [List.getElem?_take_of_lt (by omega)]

theorem testBit_drop (a : List U32) (k i : Nat) :
    testBit (a.drop k) i = testBit a (i + 32 * k) := by
  simp only [testBit]
  rw [List.getElem?_drop]
  have h1 : k + i / 32 = (i + 32 * k) / 32 := by omega
  have h2 : (i + 32 * k) % 32 = i % 32 := by omega
  rw [h1, h2]

theorem markFields_spec (fs : List Field) : ∀ (mask : List U32),
    (∀ f ∈ fs, f.isStatic = false → f.code = .object → f.offset.toNat / 8 < 32 * mask.length) →
    ∃ m, markFields mask fs = some m ∧ m.length = mask.length ∧
      ∀ j, j < 32 * mask.length → (testBit m j = some true ↔
        testBit mask j = some true ∨
        ∃ f ∈ fs, f.isStatic = false ∧ f.code = .object ∧ f.offset.toNat / 8 = j) := by
  induction fs with
  | nil => intro mask _; exact ⟨mask, rfl, rfl, by simp⟩
  | cons f fs ih =>
    intro mask hb
    obtain ⟨m, hm, hl, hs⟩ := ih mask (fun g hg => hb g (by simp [hg]))
    by_cases hf : f.isStatic = false ∧ f.code = .object
    · obtain ⟨m', hm', hl', hs'⟩ := setBit_spec m (f.offset.toNat / 8)
        (by rw [hl]; exact hb f (by simp) hf.1 hf.2)
      refine ⟨m', ?_, by omega, ?_⟩
      · simp [markFields, hm, hf.1, hf.2, hm']
      · intro j hj
        rw [hs' j (by omega), hs j hj]
        simp only [List.mem_cons, exists_eq_or_imp, hf.1, hf.2, true_and]
        constructor
        · rintro (h | h | h)
          · exact .inr (.inl h.symm)
          · exact .inl h
          · exact .inr (.inr h)
        · rintro (h | h | h)
          · exact .inr (.inl h)
          · exact .inl h.symm
          · exact .inr (.inr h)
    · refine ⟨m, ?_, hl, ?_⟩
      · have : (!f.isStatic && decide (f.code = .object)) = false := by
          cases h1 : f.isStatic with
          | true => rfl
          | false =>
            have : f.code ≠ .object := fun h2 => hf ⟨h1, h2⟩
            simp [this]
        simp [markFields, hm, this]
      · intro j hj
        rw [hs j hj]
        simp only [List.mem_cons, exists_eq_or_imp]
        constructor
        · rintro (h | h)
          · exact .inl h
          · exact .inr (.inr h)
        · rintro (h | ⟨h1, h2, _⟩ | h)
          · exact .inl h
          · exact absurd ⟨h1, h2⟩ hf
          · exact .inr h

theorem ceilingDivide_256 (n : U16) :
    ∃ r, ceilingDivide (n.setWidth 32) 256#32 = some r ∧ r.toNat = (n.toNat + 255) / 256 := by
  refine ⟨_, rfl, ?_⟩
  have hn := n.isLt
  rw [BitVec.toNat_udiv, BitVec.toNat_sub, BitVec.toNat_add, BitVec.toNat_setWidth]
  simp only [BitVec.toNat_ofNat, Nat.reducePow, Nat.reduceMod]
  omega

/-! ### Walking -/

theorem walkRange_spec (mask : List U32) (n : Nat) : ∀ i, i + n ≤ 32 * mask.length →
    ∃ l, walkRange mask i n = some l ∧ l.Pairwise (· < ·) ∧
      ∀ j, j ∈ l ↔ i ≤ j ∧ j < i + n ∧ testBit mask j = some true := by
  induction n with
  | zero => intro i _; exact ⟨[], rfl, .nil, by intro j; simp; omega⟩
  | succ n ih =>
    intro i h
    obtain ⟨l, hl, hp, hm⟩ := ih (i + 1) (by omega)
    obtain ⟨b, hb⟩ := testBit_isSome (mask := mask) (i := i) (by omega)
    cases b with
    | true =>
      refine ⟨i :: l, by simp [walkRange, hb, hl], ?_, ?_⟩
      · exact List.Pairwise.cons (fun j hj => by have := (hm j).1 hj; omega) hp
      · intro j
        rw [List.mem_cons, hm]
        constructor
        · rintro (h' | ⟨h1, h2, h3⟩)
          · subst h'; exact ⟨by omega, by omega, hb⟩
          · exact ⟨by omega, by omega, h3⟩
        · rintro ⟨h1, h2, h3⟩
          by_cases hji : j = i
          · exact .inl hji
          · exact .inr ⟨by omega, by omega, h3⟩
    | false =>
      refine ⟨l, by simp [walkRange, hb, hl], hp, ?_⟩
      intro j
      rw [hm]
      constructor
      · rintro ⟨h1, h2, h3⟩; exact ⟨by omega, by omega, h3⟩
      · rintro ⟨h1, h2, h3⟩
        have : j ≠ i := by rintro rfl; rw [hb] at h3; simp at h3
        exact ⟨by omega, by omega, h3⟩

theorem walk_fixed (mask : List U32) (fixedSize start : Nat)
    (h : (fixedSize + 7) / 8 ≤ 32 * mask.length) :
    ∃ l, walk mask fixedSize 0 0 start = some l ∧ l.Pairwise (· < ·) ∧
      ∀ j, j ∈ l ↔ start ≤ j ∧ j < (fixedSize + 7) / 8 ∧ testBit mask j = some true := by
  by_cases hs : start ≤ (fixedSize + 7) / 8
  · obtain ⟨l, hl, hp, hm⟩ := walkRange_spec mask ((fixedSize + 7) / 8 - start) start (by omega)
    refine ⟨l, by simp [walk, hl, arrayObjectElements], hp, ?_⟩
    intro j; rw [hm]
    constructor
    · rintro ⟨a, b, c⟩; exact ⟨a, by omega, c⟩
    · rintro ⟨a, b, c⟩; exact ⟨a, by omega, c⟩
  · refine ⟨[], ?_, .nil, by intro j; simp; omega⟩
    have : (fixedSize + 7) / 8 - start = 0 := by omega
    simp [walk, this, walkRange, arrayObjectElements]

end Avian.Class
