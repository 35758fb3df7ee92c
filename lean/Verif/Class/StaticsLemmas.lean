import Verif.Class.FieldsLemmas

/-! Helper lemmas for the static table. -/

namespace Avian.Class

open Avian.Math (U32 U64 pad ceilingDivide pad_toNat)

/-- byte `i` of a word in memory order -/
def byteOf (v : U64) (i : Nat) : U8 := v.extractLsb' (8 * i) 8

theorem leBytes_length (n : Nat) (v : U64) : (leBytes n v).length = n := by simp [leBytes]

theorem leBytes_get (n : Nat) (v : U64) (i : Nat) (h : i < n) :
    (leBytes n v)[i]? = some (byteOf v i) := by
  simp [leBytes, byteOf, List.getElem?_range h]

theorem store_spec (mem : List U8) (off : Nat) (bs : List U8) (h : off + bs.length ≤ mem.length) :
    ∃ m, store mem off bs = some m ∧ m.length = mem.length ∧
      (∀ i, i < bs.length → m[off + i]? = bs[i]?) ∧
      (∀ i, i < off ∨ off + bs.length ≤ i → m[i]? = mem[i]?) := by
  refine ⟨_, by rw [store, if_pos h], ?_, ?_, ?_⟩
  · simp; omega
  · intro i hi
    rw [List.append_assoc, List.getElem?_append_right (by simp; omega),
      List.getElem?_append_left (by simp; omega)]
    congr 1
    simp; omega
  · intro i hi
    rcases hi with hi | hi
    · rw [List.append_assoc, List.getElem?_append_left (by simp; omega),
        List.getElem?_take_of_lt hi]
    · rw [List.getElem?_append_right (by simp; omega), List.getElem?_drop]
      congr 1
      simp; omega

theorem storeConstant_eq (data : List U8) (o : Nat) (c : FieldCode) (hc : c ≠ .void) (v : U64) :
    storeConstant data o c v = store data o (leBytes (sz c) v) := by
  cases c <;> first | exact absurd rfl hc | rfl

/-- byte `i` of a constant, or the byte already there -/
def pick : Option U64 → Nat → Option U8 → Option U8
  | some w, i, _ => some (byteOf w i)
  | none, _, old => old

/-- what the second pass guarantees -/
structure Filled (s s' : Singleton) (o : U32) (cs : List (FieldCode × Option U64)) : Prop where
  len : s'.data.length = s.data.length
  mlen : s'.mask.length = s.mask.length
  below : ∀ i, i < o.toNat → s'.data[i]? = s.data[i]?
  bytes : ∀ (k : Nat) c v o', cs[k]? = some (c, v) → (place o (cs.map (·.1)))[k]? = some (c, o') →
    ∀ i, i < sz c → s'.data[o'.toNat + i]? = pick v i s.data[o'.toNat + i]?
  bits : ∀ j, j < 32 * s.mask.length → (testBit s'.mask j = some true ↔ testBit s.mask j = some true ∨
    ∃ p ∈ place o (cs.map (·.1)), p.1 = .object ∧ p.2.toNat / 8 + 2 = j)

theorem fillStatics_spec (cs : List (FieldCode × Option U64)) : ∀ (o : U32) (s : Singleton),
    (∀ c ∈ cs, c.1 ≠ .void) → (o.toNat + 7) / 8 * 8 + 8 * cs.length < 2 ^ 32 →
    (placeEnd o (cs.map (·.1))).toNat ≤ s.data.length →
    s.data.length / 8 + 2 ≤ 32 * s.mask.length →
    ∃ s', fillStatics s o cs = some s' ∧ Filled s s' o cs := by
  induction cs with
  | nil =>
    intro o s _ _ _ _
    exact ⟨s, rfl, rfl, rfl, fun _ _ => rfl, by intro k c v o' h; simp at h, by simp [place]⟩
  | cons cv cs ih =>
    intro o s hv hb he hm
    obtain ⟨c, v⟩ := cv
    have hc : c ≠ .void := hv (c, v) (by simp)
    simp only [List.length_cons] at hb
    obtain ⟨h1, h2, h3⟩ := pad_spec o c hc (by omega)
    have hsz := sz_le c
    have hn : (pad o (fieldSize c) + fieldSize c).toNat = (pad o (fieldSize c)).toNat + sz c := by
      rw [BitVec.toNat_add, toNat_fieldSize, Nat.mod_eq_of_lt (by omega)]
    simp only [List.map_cons, placeEnd] at he
    have hb' : ((pad o (fieldSize c) + fieldSize c).toNat + 7) / 8 * 8 + 8 * cs.length < 2 ^ 32 := by
      omega
    have hplace := place_spec (cs.map (·.1)) (pad o (fieldSize c) + fieldSize c)
      (by intro x hx; obtain ⟨y, hy, rfl⟩ := List.mem_map.1 hx; exact hv y (by simp [hy]))
      (by simpa using hb')
    have hend : (pad o (fieldSize c)).toNat + sz c ≤ s.data.length := by
      have := hplace.1
      omega
    -- the constant
    obtain ⟨d, hd, dlen, dbelow, dbytes, dabove⟩ : ∃ d, (match v with
        | some w => storeConstant s.data (pad o (fieldSize c)).toNat c w
        | none => some s.data) = some d ∧ d.length = s.data.length ∧
        (∀ i, i < (pad o (fieldSize c)).toNat → d[i]? = s.data[i]?) ∧
        (∀ i, i < sz c → d[(pad o (fieldSize c)).toNat + i]? =
          pick v i s.data[(pad o (fieldSize c)).toNat + i]?) ∧
        (∀ i, (pad o (fieldSize c)).toNat + sz c ≤ i → d[i]? = s.data[i]?) := by
      cases v with
      | none => exact ⟨s.data, rfl, rfl, fun _ _ => rfl, fun _ _ => rfl, fun _ _ => rfl⟩
      | some w =>
        obtain ⟨m, e1, e2, e3, e4⟩ := store_spec s.data (pad o (fieldSize c)).toNat (leBytes (sz c) w)
          (by rw [leBytes_length]; exact hend)
        rw [leBytes_length] at e3 e4
        refine ⟨m, ?_, e2, fun i hi => e4 i (.inl hi), ?_, fun i hi => e4 i (.inr hi)⟩
        · show storeConstant _ _ _ _ = _
          rw [storeConstant_eq _ _ _ hc, e1]
        · intro i hi
          rw [e3 i hi, leBytes_get _ _ _ hi]
          rfl
    -- the mark
    obtain ⟨mk, hmk, mlen, mbits⟩ : ∃ mk : List U32,
        (if c = .object then singletonMarkObject { s with data := d } ((pad o (fieldSize c)).toNat / 8)
          else some { s with data := d }) = some ⟨d, mk⟩ ∧ mk.length = s.mask.length ∧
        ∀ j, j < 32 * s.mask.length → (testBit mk j = some true ↔ testBit s.mask j = some true ∨
          (c = .object ∧ (pad o (fieldSize c)).toNat / 8 + 2 = j)) := by
      by_cases hco : c = .object
      · obtain ⟨m, e1, e2, e3⟩ := setBit_spec s.mask ((pad o (fieldSize c)).toNat / 8 + 2) (by
          have h8 : sz c = 8 := by rw [hco]; rfl
          omega)
        refine ⟨m, ?_, e2, ?_⟩
        · rw [if_pos hco]; simp [singletonMarkObject, e1]
        · intro j hj
          rw [e3 j hj]
          constructor
          · rintro (h | h)
            · exact .inr ⟨hco, h.symm⟩
            · exact .inl h
          · rintro (h | ⟨_, h⟩)
            · exact .inr h
            · exact .inl h.symm
      · refine ⟨s.mask, by rw [if_neg hco], rfl, ?_⟩
        intro j _
        simp [hco]
    obtain ⟨s', hs', hf⟩ := ih (pad o (fieldSize c) + fieldSize c) ⟨d, mk⟩
      (fun x hx => hv x (by simp [hx])) hb' (by simp only; omega) (by simp only; omega)
    refine ⟨s', ?_, ?_⟩
    · simp only [fillStatics]
      simp only [Option.bind_eq_bind]
      by_cases hco : c = .object
      · rw [if_pos hco] at hmk
        cases v with
        | none =>
          have hd' : s.data = d := Option.some.inj hd
          simp only [if_pos hco, Option.bind_some, hd']
          rw [hmk]; exact hs'
        | some w =>
          simp only at hd
          simp only [if_pos hco, hd, Option.bind_some]
          rw [hmk]; exact hs'
      · rw [if_neg hco] at hmk
        have hmk' : s.mask = mk := by
          have := Option.some.inj hmk
          simp only [Singleton.mk.injEq, true_and] at this
          exact this
        cases v with
        | none =>
          have hd' : s.data = d := Option.some.inj hd
          simp only [if_neg hco, Option.bind_some, hd', hmk']
          exact hs'
        | some w =>
          simp only at hd
          simp only [if_neg hco, hd, Option.bind_some, hmk']
          exact hs'
    · refine ⟨by rw [hf.len]; exact dlen, by rw [hf.mlen]; exact mlen, ?_, ?_, ?_⟩
      · intro i hi
        rw [hf.below i (by omega)]
        exact dbelow i (by omega)
      · intro k c' v' o' hk hp i hi
        cases k with
        | zero =>
          simp only [List.getElem?_cons_zero, Option.some.injEq, Prod.mk.injEq, List.map_cons,
            place] at hk hp
          obtain ⟨rfl, rfl⟩ := hk
          obtain ⟨_, rfl⟩ := hp
          rw [hf.below _ (by omega)]
          exact dbytes i hi
        | succ k =>
          simp only [List.getElem?_cons_succ, List.map_cons, place] at hk hp
          rw [hf.bytes k c' v' o' hk hp i hi]
          cases v' with
          | some w => rfl
          | none =>
            have := (hplace.2.2.1 (c', o') (List.mem_of_getElem? hp)).1
            simp only [pick] at this ⊢
            exact dabove _ (by omega)
      · intro j hj
        rw [hf.bits j (by simp only; omega)]
        simp only
        rw [mbits j hj]
        simp only [List.map_cons, place, List.mem_cons, exists_eq_or_imp]
        constructor
        · rintro ((h | h) | h)
          · exact .inl h
          · exact .inr (.inl h)
          · exact .inr (.inr h)
        · rintro (h | h | h)
          · exact .inl (.inl h)
          · exact .inl (.inr h)
          · exact .inr h

theorem place_shift (cs : List FieldCode) : ∀ (o : U32), (∀ c ∈ cs, c ≠ .void) →
    (o.toNat + 7) / 8 * 8 + 8 * cs.length + 16 < 2 ^ 32 →
    place (o + 16#32) cs = (place o cs).map (fun p => (p.1, p.2 + 16#32)) ∧
    placeEnd (o + 16#32) cs = placeEnd o cs + 16#32 := by
  induction cs with
  | nil => intro o _ _; exact ⟨rfl, rfl⟩
  | cons c cs ih =>
    intro o hv hb
    have hc := hv c (by simp)
    simp only [List.length_cons] at hb
    obtain ⟨h1, h2, h3⟩ := pad_spec o c hc (by omega)
    have hsz := sz_le c
    have ho16 : (o + 16#32).toNat = o.toNat + 16 := by
      rw [BitVec.toNat_add]; simp only [BitVec.toNat_ofNat, Nat.reducePow, Nat.reduceMod]; omega
    have hpad : pad (o + 16#32) (fieldSize c) = pad o (fieldSize c) + 16#32 := by
      apply BitVec.eq_of_toNat_eq
      rw [pad_size _ c hc (by omega), BitVec.toNat_add (pad o (fieldSize c)), pad_size o c hc (by omega),
        ho16]
      simp only [BitVec.toNat_ofNat, Nat.reducePow, Nat.reduceMod]
      rcases sz_cases c hc with h | h | h | h <;> rw [h] <;> omega
    have hn : (pad o (fieldSize c) + fieldSize c).toNat = (pad o (fieldSize c)).toNat + sz c := by
      rw [BitVec.toNat_add, toNat_fieldSize, Nat.mod_eq_of_lt (by omega)]
    obtain ⟨i1, i2⟩ := ih (pad o (fieldSize c) + fieldSize c) (fun x hx => hv x (by simp [hx]))
      (by omega)
    have hcomm : pad o (fieldSize c) + 16#32 + fieldSize c
        = pad o (fieldSize c) + fieldSize c + 16#32 := by
      rw [BitVec.add_assoc, BitVec.add_comm 16#32, ← BitVec.add_assoc]
    simp only [place, placeEnd, hpad, hcomm, List.map_cons]
    exact ⟨by rw [i1], i2⟩

theorem ceilingDivide_nat (n d : U32) (hd : 0 < d.toNat) (h : n.toNat + d.toNat ≤ 2 ^ 32) :
    ∃ r, ceilingDivide n d = some r ∧ r.toNat = (n.toNat + d.toNat - 1) / d.toNat := by
  have hd0 : d ≠ 0#32 := by rintro rfl; simp at hd
  refine ⟨(n + d - 1#32) / d, by simp [ceilingDivide, hd0], ?_⟩
  have hn := n.isLt; have hdl := d.isLt
  rw [BitVec.toNat_udiv, BitVec.toNat_sub, BitVec.toNat_add]
  simp only [BitVec.toNat_ofNat]
  congr 1
  omega

theorem makeSingletonOfSize_spec (count : U32) (h0 : count ≠ 0#32) (h : count.toNat + 66 < 2 ^ 32) :
    ∃ s, makeSingletonOfSize count = some s ∧ s.data = List.replicate (8 * count.toNat) 0#8 ∧
      s.mask.length = 2 * ((count.toNat + 65) / 64) ∧
      ∀ j, j < 32 * s.mask.length → testBit s.mask j = some (decide (j = 0)) := by
  have h2 : (count + 2#32).toNat = count.toNat + 2 := by
    rw [BitVec.toNat_add]; simp only [BitVec.toNat_ofNat, Nat.reducePow, Nat.reduceMod]; omega
  obtain ⟨r, hr, hrn⟩ := ceilingDivide_nat (count + 2#32) 64#32 (by decide)
    (by rw [h2]; show _ + 64 ≤ _; omega)
  rw [h2] at hrn
  have hrn' : r.toNat = (count.toNat + 65) / 64 := by
    rw [hrn]; show (count.toNat + 2 + 64 - 1) / 64 = _; congr 1
  refine ⟨⟨List.replicate (8 * count.toNat) 0#8, (List.replicate (2 * r.toNat) 0#32).set 0 1#32⟩,
    ?_, rfl, ?_, ?_⟩
  · simp [makeSingletonOfSize, singletonMaskSize, h0, hr]
  · simp; omega
  · intro j hj
    exact testBit_first _ _ (by simpa using hj)

/-- what the finished static table satisfies -/
structure TableOk (t : Singleton) (cls : U64) (cs : List (FieldCode × Option U64)) : Prop where
  link : ∀ i, i < 8 → t.data[i]? = some (byteOf cls i)
  room : (placeEnd 8#32 (cs.map (·.1))).toNat ≤ t.data.length
  maskRoom : t.data.length / 8 + 2 ≤ 32 * t.mask.length
  whole : t.data.length % 8 = 0
  evenMask : t.mask.length = 2 * ((t.data.length / 8 + 65) / 64)
  bytes : ∀ (k : Nat) c v o', cs[k]? = some (c, v) → (place 8#32 (cs.map (·.1)))[k]? = some (c, o') →
    ∀ i, i < sz c → t.data[o'.toNat + i]? = some (byteOf (v.getD 0#64) i)
  bits : ∀ j, j < 32 * t.mask.length → (testBit t.mask j = some true ↔ j = 0 ∨ j = 2 ∨
    ∃ p ∈ place 8#32 (cs.map (·.1)), p.1 = .object ∧ p.2.toNat / 8 + 2 = j)

theorem byteOf_zero (i : Nat) : byteOf 0#64 i = 0#8 := by
  apply BitVec.eq_of_getLsbD_eq
  intro j hj
  simp [byteOf]

theorem makeStaticTable_spec (cs : List (FieldCode × Option U64)) (cls : U64)
    (hv : ∀ c ∈ cs, c.1 ≠ .void) (hne : cs.length ≤ 65535) :
    ∃ t, makeStaticTable (placeEnd 24#32 (cs.map (·.1))) cls cs = some t ∧ TableOk t cls cs := by
  have hv' : ∀ c ∈ cs.map (·.1), c ≠ .void := by
    intro x hx; obtain ⟨y, hy, rfl⟩ := List.mem_map.1 hx; exact hv y hy
  obtain ⟨_, hshift⟩ := place_shift (cs.map (·.1)) 8#32 hv' (by simp; omega)
  obtain ⟨hp1, hp2, hp3, _⟩ := place_spec (cs.map (·.1)) 8#32 hv' (by simp; omega)
  have h8 : (8#32 : U32).toNat = 8 := rfl
  have hlen : (cs.map (·.1)).length = cs.length := by simp
  rw [h8] at hp1 hp2
  rw [hlen] at hp2
  have hshift' : placeEnd 24#32 (cs.map (·.1)) - 16#32 = placeEnd 8#32 (cs.map (·.1)) := by
    have : (24#32 : U32) = 8#32 + 16#32 := by decide
    rw [this, hshift, BitVec.add_sub_cancel]
  obtain ⟨r, hr, hrn⟩ := ceilingDivide_nat (placeEnd 8#32 (cs.map (·.1))) 8#32 (by decide)
    (by rw [h8]; omega)
  rw [h8] at hrn
  have hr0 : r ≠ 0#32 := by
    rintro rfl
    simp only [BitVec.toNat_ofNat, Nat.zero_mod] at hrn
    omega
  obtain ⟨s, hs, hsd, hsm, hsb⟩ := makeSingletonOfSize_spec r hr0 (by omega)
  have hdl : s.data.length = 8 * r.toNat := by rw [hsd]; simp
  obtain ⟨d, hd, dlen, dbytes, drest⟩ := store_spec s.data 0 (leBytes 8 cls)
    (by rw [leBytes_length]; omega)
  rw [leBytes_length] at dbytes drest
  obtain ⟨m, hm, mlen, mbits⟩ := setBit_spec s.mask 2 (by omega)
  obtain ⟨t, ht, hf⟩ := fillStatics_spec cs 8#32 ⟨d, m⟩ hv (by rw [h8]; omega)
    (by simp only; omega) (by simp only; omega)
  refine ⟨t, ?_, ?_, ?_, ?_, ?_, ?_, ?_, ?_⟩
  · simp only [makeStaticTable, hshift', hr, Option.bind_eq_bind, Option.bind_some, hs, hd,
      singletonMarkObject, hm, Option.pure_def, Nat.zero_add]
    exact ht
  · intro i hi
    rw [hf.below i (by rw [h8]; exact hi)]
    have := dbytes i hi
    rw [Nat.zero_add, leBytes_get _ _ _ hi] at this
    exact this
  · rw [hf.len]; (try simp only); omega
  · rw [hf.len, hf.mlen]; (try simp only); omega
  · rw [hf.len]; (try simp only); omega
  · rw [hf.len, hf.mlen]; simp only; rw [mlen, hsm]; omega
  · intro k c v o' hk hp i hi
    rw [hf.bytes k c v o' hk hp i hi]
    cases v with
    | some w => rfl
    | none =>
      obtain ⟨q1, _, q3⟩ := hp3 _ (List.mem_of_getElem? hp)
      simp only [pick] at q1 q3 ⊢
      rw [h8] at q1
      rw [drest _ (.inr (by omega)), hsd, List.getElem?_replicate, if_pos (by omega)]
      show some 0#8 = some (byteOf 0#64 i)
      rw [byteOf_zero]
  · intro j hj
    rw [hf.mlen] at hj
    simp only at hj
    rw [hf.bits j hj]
    simp only
    rw [mbits j (by omega), hsb j (by omega)]
    simp only [Option.some.injEq, decide_eq_true_eq]
    constructor
    · rintro ((h | h) | h)
      · exact .inr (.inl h)
      · exact .inl h
      · exact .inr (.inr h)
    · rintro (h | h | h)
      · exact .inl (.inr h)
      · exact .inl (.inl h)
      · exact .inr h

end Avian.Class
