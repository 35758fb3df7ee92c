import Verif.Interp.Lines

/-
Property C49: the line reported for a position in a method.
-/
namespace Avian.Lines

/-! ### Specification -/

/-- The last entry that starts at or before `pos`. -/
def covering (entries : List (BitVec 16 × BitVec 16)) (pos : Nat) : Option (BitVec 16 × BitVec 16) :=
  (entries.filter fun e => e.1.toNat ≤ pos).getLast?

/-- The line for the instruction at `pos`: that of the covering entry; before the first entry that of
the first one. -/
def lineAt (entries : List (BitVec 16 × BitVec 16)) (pos : Nat) : Int :=
  match covering entries pos, entries.head? with
  | some e, _ => e.2.toNat
  | none, some e => e.2.toNat
  | none, none => -1

/-! ### Proofs -/

theorem pack_toNat (e : BitVec 16 × BitVec 16) :
    (lineNumber (e.1.setWidth 64) (e.2.setWidth 64)).toNat = e.1.toNat * 2 ^ 32 + e.2.toNat := by
  have h1 := e.1.isLt
  have h2 := e.2.isLt
  unfold lineNumber
  rw [BitVec.toNat_or, BitVec.toNat_shiftLeft, BitVec.toNat_setWidth, BitVec.toNat_setWidth,
    Nat.mod_eq_of_lt (show e.1.toNat < 2 ^ 64 by omega), Nat.mod_eq_of_lt (show e.2.toNat < 2 ^ 64 by omega),
    Nat.mod_eq_of_lt (show e.1.toNat <<< 32 < 2 ^ 64 by rw [Nat.shiftLeft_eq]; omega),
    ← Nat.shiftLeft_add_eq_or_of_lt (show e.2.toNat < 2 ^ 32 by omega), Nat.shiftLeft_eq]

theorem ip_pack (e : BitVec 16 × BitVec 16) :
    (lineNumberIp (lineNumber (e.1.setWidth 64) (e.2.setWidth 64))).toNat = e.1.toNat := by
  have h1 := e.1.isLt
  have h2 := e.2.isLt
  unfold lineNumberIp
  rw [BitVec.toNat_setWidth, BitVec.toNat_ushiftRight, pack_toNat, Nat.shiftRight_eq_div_pow]
  omega

theorem line_pack (e : BitVec 16 × BitVec 16) :
    (lineNumberLine (lineNumber (e.1.setWidth 64) (e.2.setWidth 64))).toInt = e.2.toNat := by
  have h1 := e.1.isLt
  have h2 := e.2.isLt
  have h : (lineNumberLine (lineNumber (e.1.setWidth 64) (e.2.setWidth 64))).toNat = e.2.toNat := by
    unfold lineNumberLine
    rw [BitVec.toNat_setWidth, BitVec.toNat_and, pack_toNat,
      show (0xFFFFFFFF#64).toNat = 2 ^ 32 - 1 from rfl, Nat.and_two_pow_sub_one_eq_mod]
    omega
  rw [BitVec.toInt_eq_toNat_of_lt (by rw [h]; omega), h]

theorem start_at (entries : List (BitVec 16 × BitVec 16)) (i : Nat) (h : i < entries.length) :
    (lineNumberIp ((makeTable entries).getD i 0)).toNat = entries[i].1.toNat := by
  unfold makeTable
  rw [List.getD_eq_getElem?_getD, List.getElem?_map, List.getElem?_eq_getElem h]
  exact ip_pack _

theorem line_at (entries : List (BitVec 16 × BitVec 16)) (i : Nat) (h : i < entries.length) :
    (lineNumberLine ((makeTable entries).getD i 0)).toInt = entries[i].2.toNat := by
  unfold makeTable
  rw [List.getD_eq_getElem?_getD, List.getElem?_map, List.getElem?_eq_getElem h]
  exact line_pack _

/-- In a sorted table, the entry that starts at or before `pos` and whose successor starts after it
is the covering one. -/
theorem covering_at : ∀ (entries : List (BitVec 16 × BitVec 16)) (pos i : Nat) (h : i < entries.length),
    entries.Pairwise (fun a b => a.1.toNat ≤ b.1.toNat) → entries[i].1.toNat ≤ pos →
    (∀ h' : i + 1 < entries.length, pos < entries[i + 1].1.toNat) → covering entries pos = some entries[i]
  | [], _, _, h, _, _, _ => absurd h (by simp)
  | e :: l, pos, 0, _, hp, h1, h2 => by
    unfold covering
    have hl : l.filter (fun e => decide (e.1.toNat ≤ pos)) = [] := by
      rw [List.filter_eq_nil_iff]
      intro x hx
      cases l with
      | nil => cases hx
      | cons y l =>
        have hy := h2 (by simp)
        simp only [List.getElem_cons_succ, List.getElem_cons_zero] at hy
        have := (List.pairwise_cons.1 (List.pairwise_cons.1 hp).2).1
        rcases List.mem_cons.1 hx with e | e
        · subst e; simp; omega
        · have := this x e; simp; omega
    simp only [List.getElem_cons_zero] at h1 ⊢
    rw [List.filter_cons_of_pos (by simpa using h1), hl]
    rfl
  | e :: l, pos, i + 1, h, hp, h1, h2 => by
    simp only [List.length_cons, Nat.add_lt_add_iff_right] at h
    simp only [List.getElem_cons_succ] at h1 ⊢
    have ih := covering_at l pos i h (List.pairwise_cons.1 hp).2 h1 (fun h' => by
      have := h2 (by simpa using h')
      simpa using this)
    have he : e.1.toNat ≤ pos := by
      have := (List.pairwise_cons.1 hp).1 l[i] (List.getElem_mem h)
      omega
    unfold covering at ih ⊢
    rw [List.filter_cons_of_pos (by simpa using he), List.getLast?_cons, ih]
    rfl

theorem covering_none {entries : List (BitVec 16 × BitVec 16)} {pos : Nat}
    (hp : entries.Pairwise (fun a b => a.1.toNat ≤ b.1.toNat))
    (h : ∀ h' : 0 < entries.length, pos < entries[0].1.toNat) : covering entries pos = none := by
  unfold covering
  rw [List.getLast?_eq_none_iff, List.filter_eq_nil_iff]
  cases entries with
  | nil => simp
  | cons e l =>
    have h0 := h (by simp)
    simp only [List.getElem_cons_zero] at h0
    intro x hx
    rcases List.mem_cons.1 hx with y | y
    · subst y; simp; omega
    · have := (List.pairwise_cons.1 hp).1 x y; simp; omega

theorem search_sorted (entries : List (BitVec 16 × BitVec 16)) (ip : BitVec 32)
    (hp : entries.Pairwise (fun a b => a.1.toNat ≤ b.1.toNat))
    (hd : ∀ i, ∀ h : i + 1 < entries.length, entries[i].1 = entries[i + 1].1 → entries[i].1.toNat ≠ ip.toNat) :
    ∀ (fuel bottom top : Nat), top - bottom < fuel → bottom ≤ top → top ≤ entries.length →
      (bottom = 0 ∨ ∃ h : bottom < entries.length, entries[bottom].1.toNat ≤ ip.toNat) →
      (top = entries.length ∨ ∃ h : top < entries.length, ip.toNat < entries[top].1.toNat) →
      (search (makeTable entries) ip fuel bottom top).map (finish (makeTable entries)) = some (lineAt entries ip.toNat) := by
  have hlen : (makeTable entries).length = entries.length := by simp [makeTable]
  intro fuel
  induction fuel with
  | zero => intro bottom top h; omega
  | succ fuel ih =>
    intro bottom top hf hbt ht hb0 ht0
    simp only [search]
    by_cases hz : top - bottom = 0
    · rw [if_pos hz]
      have hz' : top = bottom := by clear hb0 ht0; omega
      subst hz'
      have h0 : top = 0 := by
        rcases hb0 with h | ⟨h, h'⟩
        · exact h
        · rcases ht0 with e | ⟨_, e⟩
          · omega
          · omega
      subst h0
      have hc := covering_none (pos := ip.toNat) hp (by
        intro h'
        rcases ht0 with e | ⟨_, e⟩
        · omega
        · exact e)
      simp only [Option.map_some, finish, lineAt, hc, hlen]
      cases entries with
      | nil => rfl
      | cons e l =>
        rw [if_pos (by simp), line_at _ 0 (by simp)]
        rfl
    · rw [if_neg hz]
      have hm : bottom + (top - bottom) / 2 < top := by clear hb0 ht0; omega
      have hmb : bottom ≤ bottom + (top - bottom) / 2 := by clear hb0 ht0; omega
      generalize bottom + (top - bottom) / 2 = middle at hm hmb
      have hml : middle < entries.length := by omega
      have hs := start_at entries middle hml
      rw [hlen]
      by_cases hg : lineNumberIp ((makeTable entries).getD middle 0) ≤ ip ∧
          (middle + 1 = entries.length ∨ ip < lineNumberIp ((makeTable entries).getD (middle + 1) 0))
      · rw [if_pos hg]
        obtain ⟨g1, g2⟩ := hg
        rw [BitVec.le_def, hs] at g1
        have hc := covering_at entries ip.toNat middle hml hp g1 (by
          intro h'
          rcases g2 with e | e
          · omega
          · rw [BitVec.lt_def, start_at entries (middle + 1) h'] at e; exact e)
        simp only [Option.map_some, finish, lineAt, hc, line_at entries middle hml]
      · rw [if_neg hg]
        by_cases hlt : ip < lineNumberIp ((makeTable entries).getD middle 0)
        · rw [if_pos hlt]
          rw [BitVec.lt_def, hs] at hlt
          exact ih bottom middle (by clear hb0 ht0; omega) hmb (by clear hb0 ht0; omega) hb0 (Or.inr ⟨hml, hlt⟩)
        · rw [if_neg hlt]
          have hle : lineNumberIp ((makeTable entries).getD middle 0) ≤ ip := by
            rw [BitVec.le_def]; rw [BitVec.lt_def] at hlt; omega
          have hm1 : middle + 1 < entries.length := by
            have : ¬ middle + 1 = entries.length := fun e => hg ⟨hle, Or.inl e⟩
            omega
          have hnx : entries[middle + 1].1.toNat ≤ ip.toNat := by
            have : ¬ ip < lineNumberIp ((makeTable entries).getD (middle + 1) 0) := fun e => hg ⟨hle, Or.inr e⟩
            rw [BitVec.lt_def, start_at entries (middle + 1) hm1] at this; omega
          have hmono : entries[middle].1.toNat ≤ entries[middle + 1].1.toNat :=
            List.pairwise_iff_getElem.1 hp middle (middle + 1) hml hm1 (by omega)
          have hgt : lineNumberIp ((makeTable entries).getD middle 0) < ip := by
            rw [BitVec.lt_def, hs]
            rw [BitVec.le_def, hs] at hle
            rcases Nat.lt_or_ge entries[middle].1.toNat ip.toNat with h | h
            · exact h
            · exact absurd (show entries[middle].1.toNat = ip.toNat by omega)
                (hd middle hm1 (BitVec.eq_of_toNat_eq (by omega)))
          rw [if_pos hgt]
          refine ih (middle + 1) top (by clear hb0 ht0; omega) (by clear hb0 ht0; omega) ht (Or.inr ⟨hm1, hnx⟩) ht0

/-! ### Theorems -/

/-- For every table whose entries are in order, and every return position, the search ends and the line
reported is that of the last entry starting before the position (the first entry's line if there is
none, unknown if the table is empty).  Missing for the full statement: tables in another order, and a
position just after the start of an instruction at which two entries start
(`duplicate_entry_never_ends`, `unsorted_table_wrong_line`). -/
theorem line_number_partial (entries : List (BitVec 16 × BitVec 16)) (pos : Nat) (hpos : pos + 1 < 2 ^ 32)
    (hp : entries.Pairwise (fun a b => a.1.toNat ≤ b.1.toNat))
    (hd : ∀ i, ∀ h : i + 1 < entries.length, entries[i].1 = entries[i + 1].1 → entries[i].1.toNat ≠ pos)
    (fuel : Nat) (hf : entries.length < fuel) :
    findLineNumber false (some (makeTable entries)) (BitVec.ofNat 32 (pos + 1)) fuel = some (lineAt entries pos) := by
  have hip : (BitVec.ofNat 32 (pos + 1) - 1).toNat = pos := by
    rw [BitVec.toNat_sub, BitVec.toNat_ofNat]
    simp
    omega
  have hlen : (makeTable entries).length = entries.length := by simp [makeTable]
  have := search_sorted entries (BitVec.ofNat 32 (pos + 1) - 1) hp (by rw [hip]; exact hd) fuel 0 entries.length
    (by omega) (by omega) (Nat.le_refl _) (Or.inl rfl) (Or.inl rfl)
  rw [hip] at this
  simp only [findLineNumber, hlen]
  exact this

/-- Without a table the line is unknown, for native methods it says so. -/
theorem line_number_other (ip : BitVec 32) (fuel : Nat) (t : Option (List (BitVec 64))) :
    findLineNumber true t ip fuel = some (-2) ∧ findLineNumber false none ip fuel = some (-1) := ⟨rfl, rfl⟩

/-- Whatever the table, a line that comes from an entry comes from one of the table's entries. -/
theorem line_number_from_table (entries : List (BitVec 16 × BitVec 16)) (ip : BitVec 32) (fuel : Nat) (l : Int)
    (h : findLineNumber false (some (makeTable entries)) ip fuel = some l) :
    (l = -1 ∧ entries = []) ∨ ∃ e ∈ entries, l = e.2.toNat := by
  have hlen : (makeTable entries).length = entries.length := by simp [makeTable]
  have hs : ∀ (fuel bottom top : Nat) (ip : BitVec 32) (l : Int), top ≤ entries.length → bottom ≤ top →
      (top = entries.length → bottom < entries.length ∨ entries = []) →
      (search (makeTable entries) ip fuel bottom top).map (finish (makeTable entries)) = some l →
      (l = -1 ∧ entries = []) ∨ ∃ e ∈ entries, l = e.2.toNat := by
    intro fuel
    induction fuel with
    | zero => intro bottom top ip l _ _ _ h; simp [search] at h
    | succ fuel ih =>
      intro bottom top ip l ht hbt hlast h
      simp only [search] at h
      by_cases hz : top - bottom = 0
      · rw [if_pos hz] at h
        simp only [Option.map_some, Option.some.injEq, finish, hlen] at h
        split at h
        · rename_i hlt
          rw [line_at entries top hlt] at h
          exact Or.inr ⟨_, List.getElem_mem hlt, h.symm⟩
        · left
          refine ⟨h.symm, ?_⟩
          rcases hlast (by omega) with e | e
          · omega
          · exact e
      · rw [if_neg hz] at h
        have hm : bottom + (top - bottom) / 2 < top := by omega
        have hmb : bottom ≤ bottom + (top - bottom) / 2 := by omega
        generalize bottom + (top - bottom) / 2 = middle at hm hmb h
        have hml : middle < entries.length := by omega
        split at h
        · simp only [Option.map_some, Option.some.injEq, finish, line_at entries middle hml] at h
          exact Or.inr ⟨_, List.getElem_mem hml, h.symm⟩
        · rename_i hg
          split at h
          · exact ih bottom middle ip l (by omega) hmb (by omega) h
          · split at h
            · rename_i h1 h2
              refine ih (middle + 1) top ip l ht (by omega) ?_ h
              intro _
              left
              have : ¬ middle + 1 = entries.length := fun e => hg ⟨by rw [BitVec.le_def]; rw [BitVec.lt_def] at h2; omega, Or.inl (by rw [hlen]; exact e)⟩
              omega
            · exact ih bottom top ip l ht hbt hlast h
  simp only [findLineNumber, hlen] at h
  refine hs fuel 0 entries.length _ l (Nat.le_refl _) (by omega) ?_ (by simpa using h)
  intro _
  cases entries with
  | nil => exact Or.inr rfl
  | cons a b => exact Or.inl (by simp)

/-- Two entries for one position: the search for that position may never end. -/
theorem duplicate_entry_never_ends (fuel : Nat) :
    findLineNumber false (some (makeTable [(0, 10), (4, 11), (4, 12)])) 5 fuel = none := by
  have : ∀ fuel, search (makeTable [(0, 10), (4, 11), (4, 12)]) 4 fuel 0 3 = none := by
    intro fuel
    induction fuel with
    | zero => rfl
    | succ n ih => exact ih
  show (search (makeTable [(0, 10), (4, 11), (4, 12)]) 4 fuel 0 3).map _ = none
  rw [this fuel]; rfl

/-- A table in another order, which the class file format allows: for position 7 the line 10 is reported
although the entry (5, 11) starts later and before 7. -/
theorem unsorted_table_wrong_line :
    findLineNumber false (some (makeTable [(0, 10), (10, 12), (5, 11)])) 8 4 = some 10 := by decide +kernel

/-- The very first position, 0, is taken for the largest one. -/
theorem position_zero_wraps : findLineNumber false (some (makeTable [(0, 10), (4, 11)])) 0 4 = some 11 := by
  decide +kernel

/-! ### Concrete cases -/

example : [(0#16, 10#16), (4, 11), (9, 8), (9, 13)].Pairwise (fun a b => a.1.toNat ≤ b.1.toNat) ∧
    lineAt [(0, 10), (4, 11), (9, 8), (9, 13)] 7 = 11 ∧ lineAt [(3, 10), (4, 11)] 1 = 10 ∧
    findLineNumber false (some (makeTable [(0, 10), (4, 11), (9, 8), (9, 13)])) 8 5 = some 11 := by decide +kernel

end Avian.Lines
