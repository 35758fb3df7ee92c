import Verif.Lib.StringBuilder

/-
Property C59: a string builder contains what the operations put there.
-/
namespace Avian.Builder

/-! ### Specification -/

/-- All characters in the cells and the buffer. -/
def all (sb : SB) : List Nat := sb.chain.reverse.flatten ++ (sb.buffer.getD []).take sb.position

/-- The characters of the builder: the last `length` ones. -/
def text (sb : SB) : List Nat := (all sb).drop ((all sb).length - sb.length.toNat)

structure Good (sb : SB) : Prop where
  nonneg : 0 ≤ sb.length
  enough : sb.length ≤ (all sb).length
  buffer : ∀ b, sb.buffer = some b → sb.position ≤ b.length
  noBuffer : sb.buffer = none → sb.position = 0

/-- The operations with the conditions under which the code is right. -/
inductive Op where
  | append (s : List Nat)
  | appendChar (c : Nat)
  | insert (i : Nat) (s : List Nat)
  /-- `delete(start, length())` -/
  | deleteEnd (start : Nat)
  | setLength (n : Nat)
  | charAt (i : Nat)

def Op.fits (l : List Nat) : Op → Prop
  | .append _ => True
  | .appendChar _ => True
  | .insert i _ => i ≤ l.length
  | .deleteEnd i => i ≤ l.length
  | .setLength n => n ≤ l.length
  | .charAt i => i < l.length

/-- What the operation does to the sequence of characters. -/
def Op.effect (l : List Nat) : Op → List Nat
  | .append s => l ++ s
  | .appendChar c => l ++ [c]
  | .insert i s => l.take i ++ s ++ l.drop i
  | .deleteEnd i => l.take i
  | .setLength n => l.take n
  | .charAt _ => l

/-- What the code does. -/
def Op.run (sb : SB) : Op → R SB
  | .append s => .ok (Builder.append sb s)
  | .appendChar c => .ok (Builder.appendChar sb c)
  | .insert i s => Builder.insert sb i s
  | .deleteEnd i => delete sb i sb.length
  | .setLength n => Builder.setLength sb n
  | .charAt i => (Builder.charAt sb i).map (·.2)

/-! ### Helpers -/

private theorem ok_bind {A B : Type} (a : A) (f : A → R B) : (Except.ok a : R A).bind f = f a := rfl
private theorem ok_map {A B : Type} (a : A) (f : A → B) :
    (Except.ok a : R A).map f = .ok (f a) := rfl

private theorem chain_flat (c : List Nat) (chain : List (List Nat)) :
    (c :: chain).reverse.flatten = chain.reverse.flatten ++ c := by simp

theorem text_length {sb : SB} (h : Good sb) : (text sb).length = sb.length.toNat := by
  have := h.enough
  have := h.nonneg
  simp [text]; omega

private theorem flush_all {sb : SB} (h : Good sb) : all (flush sb) = all sb ∧
    (flush sb).chain.reverse.flatten = all sb ∧ (flush sb).position = 0 ∧
    (flush sb).length = sb.length ∧ Good (flush sb) := by
  unfold flush
  split
  · have e : all { sb with chain := (sb.buffer.getD []).take sb.position :: sb.chain,
                           buffer := none, position := 0 } = all sb := by
      simp [all]
    refine ⟨e, ?_, rfl, rfl, ⟨h.nonneg, ?_, by simp, fun _ => rfl⟩⟩
    · rw [chain_flat]; rfl
    · rw [e]; exact h.enough
  · refine ⟨rfl, ?_, by omega, rfl, h⟩
    have : sb.position = 0 := by omega
    simp [all, this]

/-- Only the cells change; nothing is in the buffer. -/
private theorem good_with {sb : SB} (h : Good sb) (chain : List (List Nat)) (n : Int) (h0 : 0 ≤ n)
    (hn : n ≤ chain.reverse.flatten.length) :
    Good { flush sb with chain := chain, length := n } ∧
    text { flush sb with chain := chain, length := n } =
      chain.reverse.flatten.drop (chain.reverse.flatten.length - n.toNat) := by
  obtain ⟨_, _, hp, _, hg⟩ := flush_all h
  have e : all { flush sb with chain := chain, length := n } = chain.reverse.flatten := by
    simp [all, hp]
  refine ⟨⟨h0, by rw [e]; exact hn, hg.buffer, hg.noBuffer⟩, ?_⟩
  rw [text, e]

private theorem suffix_append (A s : List Nat) (n : Nat) (hn : n ≤ A.length) :
    (A ++ s).drop ((A ++ s).length - (n + s.length)) = A.drop (A.length - n) ++ s := by
  rw [List.length_append, show A.length + s.length - (n + s.length) = A.length - n by omega,
    List.drop_append_of_le_length (by omega)]

/-! ### Appending -/

private theorem put_all {sb : SB} (h : Good sb) (s : List Nat) : all (put sb s) = all sb ++ s ∧
    (∀ b, (put sb s).buffer = some b → (put sb s).position ≤ b.length) ∧
    ((put sb s).buffer = none → (put sb s).position = 0) := by
  obtain ⟨_, hf, hp, _, hg⟩ := flush_all h
  have cell : all { flush sb with chain := s :: (flush sb).chain } = all sb ++ s := by
    simp only [all, hp, List.take_zero, List.append_nil]
    rw [chain_flat, hf]; rfl
  unfold put
  split
  · rename_i b hb
    have hpos := h.buffer b hb
    split
    · rename_i hfit
      refine ⟨?_, ?_, by simp⟩
      · simp only [all, hb, Option.getD_some]
        rw [List.append_assoc (b.take _), List.take_append, List.append_assoc]
        congr 1
        rw [List.length_take, Nat.min_eq_left hpos, Nat.add_sub_cancel_left, List.take_append,
          List.take_of_length_le (by rw [List.length_take]; omega)]
        simp
      · intro b' hb'
        rw [← Option.some.inj hb']
        simp; omega
    · exact ⟨cell, hg.buffer, hg.noBuffer⟩
  · exact ⟨cell, hg.buffer, hg.noBuffer⟩

/-- C59: `append` puts the characters at the end. -/
theorem append_text {sb : SB} (h : Good sb) (s : List Nat) :
    Good (append sb s) ∧ text (append sb s) = text sb ++ s := by
  have hn := h.nonneg
  have he := h.enough
  unfold append
  split
  · obtain ⟨e, hb, hnb⟩ := put_all h s
    have ea : all { put sb s with length := sb.length + s.length } = all sb ++ s := by
      rw [← e]; rfl
    refine ⟨⟨by show 0 ≤ sb.length + s.length; omega, ?_, hb, hnb⟩, ?_⟩
    · rw [ea, List.length_append]
      show sb.length + s.length ≤ _
      omega
    · rw [text, ea]
      show (all sb ++ s).drop ((all sb ++ s).length - (sb.length + s.length).toNat) = _
      rw [show (sb.length + (s.length : Int)).toNat = sb.length.toNat + s.length by omega,
        suffix_append _ _ _ (by omega)]
      rfl
  · have : s = [] := List.eq_nil_of_length_eq_zero (by omega)
    subst this
    exact ⟨h, by simp⟩

private theorem room_all {sb : SB} (h : Good sb) : all (room sb) = all sb ∧ (room sb).length = sb.length ∧
    ∃ b, (room sb).buffer = some b ∧ (room sb).position < b.length := by
  unfold room
  split
  · rename_i hb
    have hp := h.noBuffer hb
    refine ⟨?_, rfl, _, rfl, by simp [hp, bufferSize]⟩
    simp [all, hp]
  · rename_i b hb
    split
    · rename_i hfull
      obtain ⟨_, hf, hp, hl, hg⟩ := flush_all h
      refine ⟨?_, hl, _, rfl, by simp [hp, bufferSize]⟩
      rw [← hf]
      simp [all, hp]
    · exact ⟨rfl, rfl, b, hb, by omega⟩

/-- C59: `append(char)` puts the character at the end. -/
theorem appendChar_text {sb : SB} (h : Good sb) (c : Nat) :
    Good (appendChar sb c) ∧ text (appendChar sb c) = text sb ++ [c] := by
  have hn := h.nonneg
  have he := h.enough
  obtain ⟨e, hl, b, hb, hp⟩ := room_all h
  have ea : all (appendChar sb c) = all sb ++ [c] := by
    rw [← e]
    simp only [appendChar, all, hb, Option.map_some, Option.getD_some]
    rw [List.append_assoc]
    congr 1
    rw [List.take_add_one, List.take_set_of_le (Nat.le_refl _)]
    congr 1
    simp [hp]
  refine ⟨⟨?_, ?_, ?_, ?_⟩, ?_⟩
  · show 0 ≤ (room sb).length + 1
    omega
  · rw [ea, List.length_append]
    show (room sb).length + 1 ≤ _
    simp; omega
  · intro b' hb'
    simp only [appendChar, hb, Option.map_some, Option.some.injEq] at hb' ⊢
    rw [← hb', List.length_set]
    omega
  · intro hb'
    simp [appendChar, hb] at hb'
  · rw [text, ea]
    show (all sb ++ [c]).drop ((all sb ++ [c]).length - ((room sb).length + 1).toNat) = _
    rw [hl, show (sb.length + 1).toNat = sb.length.toNat + [c].length by simp; omega,
      suffix_append _ _ _ (by omega)]
    rfl

/-! ### Looking up -/

private theorem charLoop_eq (i : Int) : ∀ (chain : List (List Nat)) (index : Int), 0 ≤ i → i < index →
    index ≤ chain.reverse.flatten.length → ∀ x,
    chain.reverse.flatten[(i + chain.reverse.flatten.length - index).toNat]? = some x →
    charLoop i chain index = .ok x := by
  intro chain
  induction chain with
  | nil => intro index _ _ h; simp at h; omega
  | cons c chain ih =>
    intro index h0 h1 h2 x hx
    rw [chain_flat, List.length_append] at h2
    rw [chain_flat, List.length_append] at hx
    rw [charLoop]
    split
    · rw [List.getElem?_append_right (by omega)] at hx
      have : (i - (index - c.length)).toNat =
          (i + (chain.reverse.flatten.length + c.length : Nat) - index).toNat -
            chain.reverse.flatten.length := by omega
      rw [this, hx]
    · refine ih _ h0 (by omega) (by omega) x ?_
      rw [List.getElem?_append_left (by omega)] at hx
      rw [← hx]
      congr 1
      omega

/-- C59: `charAt` delivers the character and keeps the contents; other indexes are refused. -/
theorem charAt_text {sb : SB} (h : Good sb) (i : Int) :
    (∀ k : Nat, i = k → ∀ x, (text sb)[k]? = some x →
      ∃ sb', charAt sb i = .ok (x, sb') ∧ Good sb' ∧ text sb' = text sb) ∧
    (i < 0 ∨ i ≥ (text sb).length → charAt sb i = .error .indexOutOfBounds) := by
  have hn := h.nonneg
  have he := h.enough
  have hl := text_length h
  obtain ⟨ha, hf, hp, hlen, hg⟩ := flush_all h
  constructor
  · rintro k rfl x hx
    have hk : k < (text sb).length := (List.getElem?_eq_some_iff.1 hx).1
    unfold charAt
    rw [if_neg (by omega), charLoop_eq k (flush sb).chain sb.length (by omega) (by omega)
      (by rw [hf]; omega) x ?_]
    · refine ⟨flush sb, rfl, hg, ?_⟩
      rw [text, text, ha, hlen]
    · rw [hf]
      rw [text, List.getElem?_drop] at hx
      rw [← hx]
      congr 1
      omega
  · intro hi
    unfold charAt
    rw [if_pos (by omega)]

/-! ### Inserting -/

private theorem sub_ok (v : List Nat) (a b : Nat) (h1 : a ≤ b) (h2 : b ≤ v.length) (x y : Int)
    (hx : x = a) (hy : y = b) : sub v x y = .ok ((v.drop a).take (b - a)) := by
  subst hx; subst hy
  unfold sub
  rw [if_neg (by omega)]
  congr 2
  omega

private theorem insertLoop_eq (i : Int) (s : List Nat) : ∀ (chain : List (List Nat)) (index : Int),
    0 ≤ i → i < index → index ≤ chain.reverse.flatten.length → ∀ k : Nat,
    (k : Int) = i + chain.reverse.flatten.length - index →
    ∃ chain', insertLoop i s chain index = .ok chain' ∧
      chain'.reverse.flatten = chain.reverse.flatten.take k ++ s ++ chain.reverse.flatten.drop k := by
  intro chain
  induction chain with
  | nil => intro index _ _ h; simp at h; omega
  | cons c chain ih =>
    intro index h0 h1 h2 k hk
    rw [chain_flat, List.length_append] at h2 hk
    unfold insertLoop
    simp only
    split
    · split
      · rename_i heq
        refine ⟨_, rfl, ?_⟩
        have hk' : k = chain.reverse.flatten.length := by omega
        rw [chain_flat, chain_flat, chain_flat, hk', List.take_left, List.drop_left]
      · obtain ⟨m, hm⟩ : ∃ m : Nat, i - (index - c.length) = m := ⟨(i - (index - c.length)).toNat, by omega⟩
        rw [sub_ok c m c.length (by omega) (by omega) _ _ hm rfl, ok_bind,
          sub_ok c 0 m (by omega) (by omega) 0 _ rfl hm, ok_bind]
        refine ⟨_, rfl, ?_⟩
        have hk' : k = chain.reverse.flatten.length + m := by omega
        rw [chain_flat, chain_flat, chain_flat, chain_flat, hk', List.take_length_add_append,
          List.drop_length_add_append, List.take_of_length_le (l := c.drop m) (by simp)]
        simp
    · obtain ⟨chain', e, hc⟩ := ih (index - c.length) h0 (by omega) (by omega) k (by omega)
      rw [e]
      refine ⟨_, rfl, ?_⟩
      rw [chain_flat, chain_flat, hc, List.take_append_of_le_length (by omega),
        List.drop_append_of_le_length (by omega)]
      simp

/-- C59: `insert` puts the characters before the one at the index; other indexes are refused. -/
theorem insert_text {sb : SB} (h : Good sb) (i : Int) (s : List Nat) :
    (∀ k : Nat, i = k → k ≤ (text sb).length →
      ∃ sb', insert sb i s = .ok sb' ∧ Good sb' ∧
        text sb' = (text sb).take k ++ s ++ (text sb).drop k) ∧
    (i < 0 ∨ i > (text sb).length → insert sb i s = .error .indexOutOfBounds) := by
  have hn := h.nonneg
  have he := h.enough
  have hl := text_length h
  obtain ⟨ha, hf, hp, hlen, hg⟩ := flush_all h
  constructor
  · rintro k rfl hk
    unfold insert
    rw [if_neg (by omega)]
    split
    · refine ⟨_, rfl, (append_text h s).1, ?_⟩
      rw [(append_text h s).2, List.take_of_length_le (by omega), List.drop_eq_nil_of_le (by omega),
        List.append_nil]
    · obtain ⟨chain', e, hc⟩ := insertLoop_eq k s (flush sb).chain sb.length (by omega) (by omega)
        (by rw [hf]; exact he) (k + ((all sb).length - sb.length.toNat)) (by rw [hf]; omega)
      rw [e, ok_map]
      rw [hf] at hc
      have hlc : chain'.reverse.flatten.length = (all sb).length + s.length := by
        rw [hc]; simp; omega
      obtain ⟨g, t⟩ := good_with h chain' (sb.length + s.length) (by omega) (by rw [hlc]; omega)
      refine ⟨_, rfl, g, ?_⟩
      rw [t, hlc, hc, show (all sb).length + s.length - (sb.length + s.length).toNat =
        (all sb).length - sb.length.toNat by omega, List.append_assoc,
        List.drop_append_of_le_length (by simp; omega), ← List.append_assoc]
      congr 1
      · congr 1
        rw [text, List.take_drop, Nat.add_comm k]
      · rw [text, List.drop_drop, Nat.add_comm k]
  · intro hi
    unfold insert
    rw [if_pos (by omega)]

/-! ### Cutting -/

private theorem cutLoop_eq (v : Int) : ∀ (chain : List (List Nat)) (index : Int), 0 < v → v ≤ index →
    index ≤ chain.reverse.flatten.length → ∀ k : Nat,
    (k : Int) = v + chain.reverse.flatten.length - index →
    ∃ chain', cutLoop v chain index = .ok chain' ∧
      chain'.reverse.flatten = chain.reverse.flatten.take k := by
  intro chain
  induction chain with
  | nil => intro index _ _ h; simp at h; omega
  | cons c chain ih =>
    intro index h0 h1 h2 k hk
    rw [chain_flat, List.length_append] at h2 hk
    unfold cutLoop
    simp only
    split
    · split
      · obtain ⟨m, hm⟩ : ∃ m : Nat, v - (index - c.length) = m := ⟨(v - (index - c.length)).toNat, by omega⟩
        rw [sub_ok c 0 m (by omega) (by omega) 0 _ rfl hm, ok_map]
        refine ⟨_, rfl, ?_⟩
        have hk' : k = chain.reverse.flatten.length + m := by omega
        rw [chain_flat, chain_flat, hk', List.take_length_add_append]
        simp
      · refine ⟨_, rfl, ?_⟩
        rw [List.take_of_length_le]
        rw [chain_flat, List.length_append]; omega
    · by_cases hv : v ≤ index - c.length
      · obtain ⟨chain', e, hc⟩ := ih (index - c.length) h0 hv (by omega) k (by omega)
        refine ⟨_, e, ?_⟩
        rw [hc, chain_flat, List.take_append_of_le_length (by omega)]
      · omega

/-- C59: `setLength` to at most the present length keeps the first characters. -/
theorem setLength_text {sb : SB} (h : Good sb) (v : Int) :
    (∀ k : Nat, v = k → k ≤ (text sb).length →
      ∃ sb', setLength sb v = .ok sb' ∧ Good sb' ∧ text sb' = (text sb).take k) ∧
    (v < 0 → setLength sb v = .error .indexOutOfBounds) := by
  have hn := h.nonneg
  have he := h.enough
  have hl := text_length h
  obtain ⟨ha, hf, hp, hlen, hg⟩ := flush_all h
  constructor
  · rintro k rfl hk
    unfold setLength
    rw [if_neg (by omega)]
    split
    · refine ⟨_, rfl, ⟨Int.le_refl 0, by simp, h.buffer, h.noBuffer⟩, ?_⟩
      rw [show k = 0 by omega, text]
      simp
    · obtain ⟨chain', e, hc⟩ := cutLoop_eq k (flush sb).chain sb.length (by omega) (by omega)
        (by rw [hf]; exact he) (k + ((all sb).length - sb.length.toNat)) (by rw [hf]; omega)
      rw [e, ok_map]
      rw [hf] at hc
      have hlc : chain'.reverse.flatten.length = k + ((all sb).length - sb.length.toNat) := by
        rw [hc]; simp; omega
      obtain ⟨g, t⟩ := good_with h chain' k (by omega) (by rw [hlc]; omega)
      refine ⟨_, rfl, g, ?_⟩
      rw [t, hlc, hc, text, List.take_drop, Nat.add_comm k]
      congr 1
      omega
  · intro hv
    unfold setLength
    rw [if_pos hv]

private theorem deleteLoop_end (start stop : Int) : ∀ (chain : List (List Nat)) (index : Int),
    0 ≤ start → start ≤ index → index ≤ stop → index ≤ chain.reverse.flatten.length → ∀ k : Nat,
    (k : Int) = start + chain.reverse.flatten.length - index →
    ∃ chain', deleteLoop start stop [] chain index = .ok chain' ∧
      chain'.reverse.flatten = chain.reverse.flatten.take k := by
  intro chain
  induction chain with
  | nil => intro index _ _ _ _ k _; exact ⟨[], rfl, by simp⟩
  | cons c chain ih =>
    intro index h0 h1 hs h2 k hk
    rw [chain_flat, List.length_append] at h2 hk
    unfold deleteLoop
    simp only
    rw [if_pos (by omega)]
    split
    · obtain ⟨chain', e, hc⟩ := ih (index - c.length) h0 (by omega) (by omega) (by omega) k (by omega)
      refine ⟨_, e, ?_⟩
      rw [hc, chain_flat, List.take_append_of_le_length (by omega)]
    · obtain ⟨m, hm⟩ : ∃ m : Nat, start - (index - c.length) = m :=
        ⟨(start - (index - c.length)).toNat, by omega⟩
      rw [sub_ok c 0 m (by omega) (by omega) 0 _ rfl hm, ok_map]
      refine ⟨_, rfl, ?_⟩
      have hk' : k = chain.reverse.flatten.length + m := by omega
      simp only [List.reverse_nil, List.nil_append]
      rw [chain_flat, chain_flat, hk', List.take_length_add_append]
      simp

/-- C59: deleting up to the end keeps the first characters; an empty range does nothing; ranges out of
bounds are refused. -/
theorem delete_end_text {sb : SB} (h : Good sb) (start stop : Int) :
    (∀ k : Nat, start = k → k ≤ (text sb).length → stop = sb.length →
      ∃ sb', delete sb start stop = .ok sb' ∧ Good sb' ∧ text sb' = (text sb).take k) ∧
    (start ≥ stop → delete sb start stop = .ok sb) ∧
    (start < stop → start < 0 ∨ stop > (text sb).length →
      delete sb start stop = .error .indexOutOfBounds) := by
  have hn := h.nonneg
  have he := h.enough
  have hl := text_length h
  obtain ⟨ha, hf, hp, hlen, hg⟩ := flush_all h
  refine ⟨?_, ?_, ?_⟩
  · rintro k rfl hk rfl
    unfold delete
    split
    · exact ⟨sb, rfl, h, by rw [List.take_of_length_le (by omega)]⟩
    · rw [if_neg (by omega)]
      obtain ⟨chain', e, hc⟩ := deleteLoop_end k sb.length (flush sb).chain sb.length (by omega) (by omega)
        (by omega) (by rw [hf]; exact he) (k + ((all sb).length - sb.length.toNat)) (by rw [hf]; omega)
      rw [e, ok_map]
      rw [hf] at hc
      have hlc : chain'.reverse.flatten.length = k + ((all sb).length - sb.length.toNat) := by
        rw [hc]; simp; omega
      obtain ⟨g, t⟩ := good_with h chain' (sb.length - (sb.length - k)) (by omega) (by rw [hlc]; omega)
      refine ⟨_, rfl, g, ?_⟩
      rw [t, hlc, hc, text, List.take_drop, Nat.add_comm k]
      congr 1
      omega
  · intro hs
    unfold delete
    rw [if_pos hs]
  · intro hs hb
    unfold delete
    rw [if_neg (by omega), if_pos (by omega)]

/-- C59, part: deleting a range within the last piece of the builder.  The full claim, for any range,
fails (`delete_loses`, `delete_throws`). -/
theorem delete_last_text_partial {sb : SB} (h : Good sb) (c : List Nat) (rest : List (List Nat))
    (hcells : (flush sb).chain = c :: rest) (hne : ∀ d ∈ rest, d ≠ []) (a b : Nat) (hab : a < b)
    (ha : sb.length - c.length ≤ a) (hb : b ≤ (text sb).length) :
    ∃ sb', delete sb a b = .ok sb' ∧ Good sb' ∧
      text sb' = (text sb).take a ++ (text sb).drop b := by
  have hn := h.nonneg
  have he := h.enough
  have hl := text_length h
  obtain ⟨_, hf, hp, hlen, hg⟩ := flush_all h
  have key : ∀ k m : Nat, k = a + ((all sb).length - sb.length.toNat) →
      m = b + ((all sb).length - sb.length.toNat) →
      ∃ chain', deleteLoop a b [] (c :: rest) sb.length = .ok chain' ∧
      chain'.reverse.flatten = (all sb).take k ++ (all sb).drop m := by
    intro k m hk hm
    have hA : all sb = rest.reverse.flatten ++ c := by rw [← hf, hcells, chain_flat]
    have hAl : (all sb).length = rest.reverse.flatten.length + c.length := by rw [hA]; simp
    by_cases hstop : sb.length ≤ b
    · obtain ⟨chain', e, hc⟩ := deleteLoop_end a b (c :: rest) sb.length (by omega) (by omega)
        hstop (by rw [← hcells, hf]; exact he) k (by rw [← hcells, hf]; omega)
      refine ⟨chain', e, ?_⟩
      rw [hc, ← hcells, hf, List.drop_eq_nil_of_le (by omega), List.append_nil]
    · unfold deleteLoop
      simp only
      rw [if_neg (by omega)]
      obtain ⟨y, hy⟩ : ∃ y : Nat, (b : Int) - (sb.length - c.length) = y :=
        ⟨((b : Int) - (sb.length - c.length)).toNat, by omega⟩
      obtain ⟨x, hx⟩ : ∃ x : Nat, (a : Int) - (sb.length - c.length) = x :=
        ⟨((a : Int) - (sb.length - c.length)).toNat, by omega⟩
      have hk' : k = rest.reverse.flatten.length + x := by omega
      have hm' : m = rest.reverse.flatten.length + y := by omega
      rw [sub_ok c y c.length (by omega) (by omega) _ _ hy (by omega), ok_bind]
      rw [hA, hk', hm', List.take_length_add_append, List.drop_length_add_append,
        List.take_of_length_le (l := c.drop y) (by simp)]
      split
      · have hx0 : x = 0 := by omega
        subst hx0
        refine ⟨c.drop y :: rest, ?_, by rw [chain_flat]; simp⟩
        cases rest with
        | nil => rfl
        | cons d rest =>
          have hd := List.length_pos_iff.2 (hne d (by simp))
          unfold deleteLoop
          simp only
          rw [if_pos (by omega), if_neg (by omega),
            sub_ok d 0 d.length (by omega) (by omega) 0 _ rfl (by omega), ok_map]
          simp
      · rw [sub_ok c 0 x (by omega) (by omega) 0 _ rfl hx]
        refine ⟨_, rfl, ?_⟩
        simp
  obtain ⟨chain', e, hc⟩ := key _ _ rfl rfl
  unfold delete
  rw [if_neg (by omega), if_neg (by omega), hcells, e, ok_map]
  have hlc : chain'.reverse.flatten.length = (all sb).length - (b - a) := by
    rw [hc]; simp; omega
  obtain ⟨g, t⟩ := good_with h chain' (sb.length - ((b : Int) - a)) (by omega) (by rw [hlc]; omega)
  refine ⟨_, rfl, g, ?_⟩
  rw [t, hlc, hc, List.drop_append_of_le_length (by simp; omega), text, List.take_drop, List.drop_drop]
  congr 1
  · rw [Nat.add_comm a]
    congr 1
    omega
  · rw [Nat.add_comm b]

/-! ### Reading out -/

private theorem write_get (dst w : List Nat) (p : Nat) (hp : p + w.length ≤ dst.length) (x : Int)
    (hx : x = p) : ∃ d, write dst x w = .ok d ∧ d.length = dst.length ∧
    ∀ q : Nat, d[q]? = if p ≤ q ∧ q < p + w.length then w[q - p]? else dst[q]? := by
  subst hx
  unfold write
  rw [if_pos (by omega)]
  refine ⟨_, rfl, ?_, ?_⟩
  · simp; omega
  · intro q
    simp only [Int.toNat_natCast]
    by_cases h1 : q < p
    · rw [if_neg (by omega), List.append_assoc, List.getElem?_append_left (by simp; omega),
        List.getElem?_take_of_lt h1]
    · by_cases h2 : q < p + w.length
      · rw [if_pos ⟨by omega, h2⟩, List.append_assoc, List.getElem?_append_right (by simp; omega),
          List.getElem?_append_left (by simp; omega)]
        congr 1
        simp; omega
      · rw [if_neg (by omega), List.getElem?_append_right (by simp; omega), List.getElem?_drop]
        congr 1
        simp; omega

private theorem getLoop_eq (a b dstStart : Nat) : ∀ (chain : List (List Nat)) (index : Int)
    (dst : List Nat), index ≤ chain.reverse.flatten.length → dstStart + (b - a) ≤ dst.length →
    ∃ dst', getLoop a b dstStart chain index dst = .ok dst' ∧ dst'.length = dst.length ∧
      ∀ q : Nat, dst'[q]? =
        if dstStart ≤ q ∧ q < dstStart + (b - a) ∧ (a : Int) + q - dstStart < index
        then chain.reverse.flatten[((a : Int) + q - dstStart + chain.reverse.flatten.length - index).toNat]?
        else dst[q]? := by
  intro chain
  induction chain with
  | nil =>
    intro index dst h _
    refine ⟨dst, rfl, rfl, fun q => ?_⟩
    simp at h
    rw [if_neg (by omega)]
  | cons c chain ih =>
    intro index dst h hd
    rw [chain_flat, List.length_append] at h
    simp only [chain_flat, List.length_append]
    unfold getLoop
    simp only
    obtain ⟨start, hstart⟩ : ∃ x, x = if index - (c.length : Int) < a then (a : Int) else index - c.length :=
      ⟨_, rfl⟩
    obtain ⟨stop, hstop⟩ : ∃ x, x = if index > (b : Int) then (b : Int) else index := ⟨_, rfl⟩
    rw [← hstart, ← hstop]
    split
    · rename_i hlt
      obtain ⟨x, hx⟩ : ∃ x : Nat, start - (index - c.length) = x := ⟨_, (Int.toNat_of_nonneg (by omega)).symm⟩
      obtain ⟨y, hy⟩ : ∃ y : Nat, stop - (index - c.length) = y := ⟨_, (Int.toNat_of_nonneg (by omega)).symm⟩
      rw [sub_ok c x y (by omega) (by omega) _ _ hx hy, ok_bind]
      have hwl : ((c.drop x).take (y - x)).length = y - x := by simp; omega
      obtain ⟨d, e, hdl, hdq⟩ := write_get dst ((c.drop x).take (y - x)) (dstStart + (start - a).toNat)
        (by rw [hwl]; omega) (dstStart + (start - a)) (by omega)
      rw [e, ok_bind]
      obtain ⟨d', e', hdl', hdq'⟩ := ih (index - c.length) d (by omega) (by omega)
      refine ⟨d', e', by omega, fun q => ?_⟩
      rw [hdq', hdq, hwl]
      by_cases h1 : dstStart ≤ q ∧ q < dstStart + (b - a) ∧ (a : Int) + q - dstStart < index
      · rw [if_pos h1]
        by_cases h2 : (a : Int) + q - dstStart < index - c.length
        · rw [if_pos ⟨h1.1, h1.2.1, h2⟩, List.getElem?_append_left (by omega)]
          congr 1
          omega
        · rw [if_neg (by omega), if_pos (by omega), List.getElem?_append_right (by omega),
            List.getElem?_take_of_lt (by omega), List.getElem?_drop]
          congr 1
          omega
      · rw [if_neg h1, if_neg (by omega), if_neg (by omega)]
    · obtain ⟨d', e', hdl', hdq'⟩ := ih (index - c.length) dst (by omega) (by omega)
      refine ⟨d', e', by omega, fun q => ?_⟩
      rw [hdq']
      by_cases h1 : dstStart ≤ q ∧ q < dstStart + (b - a) ∧ (a : Int) + q - dstStart < index
      · rw [if_pos h1, if_pos (by omega), List.getElem?_append_left (by omega)]
        congr 1
        omega
      · rw [if_neg h1, if_neg (by omega)]

/-- C59: `getChars` copies the characters of the range to the place given and touches nothing else. -/
theorem getChars_text {sb : SB} (h : Good sb) (a b : Nat) (dst : List Nat) (d : Nat) (hab : a ≤ b)
    (hb : b ≤ (text sb).length) (hd : d + (b - a) ≤ dst.length) :
    getChars sb a b dst d =
      .ok (dst.take d ++ ((text sb).drop a).take (b - a) ++ dst.drop (d + (b - a))) := by
  have hn := h.nonneg
  have he := h.enough
  have hl := text_length h
  obtain ⟨_, hf, hp, hlen, hg⟩ := flush_all h
  unfold getChars
  rw [if_neg (by omega)]
  obtain ⟨d', e, hdl, hdq⟩ := getLoop_eq a b d (flush sb).chain sb.length dst (by rw [hf]; exact he) hd
  rw [e]
  congr 1
  apply List.ext_getElem?
  intro q
  rw [hdq, hf]
  by_cases h1 : q < d
  · rw [if_neg (by omega), List.append_assoc, List.getElem?_append_left (by simp; omega),
      List.getElem?_take_of_lt h1]
  · by_cases h2 : q < d + (b - a)
    · rw [if_pos (by omega), List.append_assoc, List.getElem?_append_right (by simp; omega),
        List.getElem?_append_left (by simp; omega), List.getElem?_take_of_lt (by simp; omega), text,
        List.getElem?_drop, List.getElem?_drop]
      congr 1
      simp; omega
    · rw [if_neg (by omega), List.getElem?_append_right (by simp; omega), List.getElem?_drop]
      congr 1
      simp; omega

/-- C59: `toString` delivers the characters. -/
theorem toString_text {sb : SB} (h : Good sb) : toString sb = .ok (text sb) := by
  have hn := h.nonneg
  have hl := text_length h
  unfold toString
  have := getChars_text h 0 sb.length.toNat (List.replicate sb.length.toNat 0) 0 (by omega) (by omega)
    (by simp)
  rw [Int.toNat_of_nonneg hn] at this
  refine this.trans ?_
  rw [List.drop_eq_nil_of_le (as := List.replicate _ _) (by simp),
    List.take_of_length_le (l := List.drop 0 _) (by simp; omega)]
  simp

/-- C59: `substring` delivers the characters of the range; other ranges are refused. -/
theorem substring_text {sb : SB} (h : Good sb) (start stop : Int) :
    (∀ a b : Nat, start = a → stop = b → a ≤ b → b ≤ (text sb).length →
      substring sb start stop = .ok (((text sb).drop a).take (b - a))) ∧
    (stop < start ∨ start < 0 ∨ stop > (text sb).length → ∃ e, substring sb start stop = .error e) := by
  have hn := h.nonneg
  have hl := text_length h
  constructor
  · rintro a b rfl rfl hab hb
    unfold substring
    rw [if_neg (by omega)]
    have := getChars_text h a b (List.replicate ((b : Int) - a).toNat 0) 0 hab hb
      (by rw [List.length_replicate]; omega)
    refine this.trans ?_
    rw [List.drop_eq_nil_of_le (as := List.replicate _ _) (by rw [List.length_replicate]; omega)]
    simp
  · intro hr
    unfold substring
    by_cases h1 : stop - start < 0
    · rw [if_pos h1]; exact ⟨_, rfl⟩
    · rw [if_neg h1]
      unfold getChars
      rw [if_pos (by omega)]
      exact ⟨_, rfl⟩

/-! ### Histories -/

theorem new_good : Good new ∧ text new = [] := by
  refine ⟨⟨by decide, by decide, by simp [new], fun _ => rfl⟩, rfl⟩

/-- C59: an operation of the list above has the effect it should. -/
theorem run_effect {sb : SB} (h : Good sb) (op : Op) (hop : op.fits (text sb)) :
    ∃ sb', op.run sb = .ok sb' ∧ Good sb' ∧ text sb' = op.effect (text sb) := by
  cases op with
  | append s => exact ⟨_, rfl, append_text h s⟩
  | appendChar c => exact ⟨_, rfl, appendChar_text h c⟩
  | insert i s => exact (insert_text h i s).1 i rfl hop
  | deleteEnd i => exact (delete_end_text h i sb.length).1 i rfl hop rfl
  | setLength n => exact (setLength_text h n).1 n rfl hop
  | charAt i =>
    obtain ⟨sb', e, g, t⟩ := (charAt_text h i).1 i rfl _ (List.getElem?_eq_getElem hop)
    refine ⟨sb', ?_, g, t⟩
    show (Builder.charAt sb i).map _ = _
    rw [e]; rfl

/-- Each operation fits the contents the earlier ones have produced. -/
def fitsAll : List Nat → List Op → Prop
  | _, [] => True
  | l, op :: ops => op.fits l ∧ fitsAll (op.effect l) ops

/-- C59: after any sequence of these operations the builder delivers the characters that the same
operations on a sequence of characters produce. -/
theorem history (ops : List Op) (hops : fitsAll [] ops) :
    ∃ sb, ops.foldlM Op.run new = .ok sb ∧ Good sb ∧
      toString sb = .ok (ops.foldl Op.effect []) := by
  suffices H : ∀ (ops : List Op) (sb : SB), Good sb → fitsAll (text sb) ops →
      ∃ sb', ops.foldlM Op.run sb = .ok sb' ∧ Good sb' ∧ text sb' = ops.foldl Op.effect (text sb) by
    obtain ⟨sb, e, g, t⟩ := H ops new new_good.1 (by rw [new_good.2]; exact hops)
    exact ⟨sb, e, g, by rw [toString_text g, t, new_good.2]⟩
  intro ops
  induction ops with
  | nil => intro sb h _; exact ⟨sb, rfl, h, rfl⟩
  | cons op ops ih =>
    intro sb h hf
    obtain ⟨sb1, e1, g1, t1⟩ := run_effect h op hf.1
    obtain ⟨sb2, e2, g2, t2⟩ := ih sb1 g1 (by rw [t1]; exact hf.2)
    refine ⟨sb2, ?_, g2, by rw [t2, t1]; rfl⟩
    rw [List.foldlM_cons, e1]
    exact e2

/-- C59, part: `replace` and `setCharAt` within the last piece. -/
theorem replace_text_partial {sb : SB} (h : Good sb) (c : List Nat) (rest : List (List Nat))
    (hcells : (flush sb).chain = c :: rest) (hne : ∀ d ∈ rest, d ≠ []) (a b : Nat) (hab : a < b)
    (ha : sb.length - c.length ≤ a) (hb : b ≤ (text sb).length) (s : List Nat) :
    ∃ sb', replace sb a b s = .ok sb' ∧ Good sb' ∧
      text sb' = (text sb).take a ++ s ++ (text sb).drop b := by
  obtain ⟨sb1, e1, g1, t1⟩ := delete_last_text_partial h c rest hcells hne a b hab ha hb
  have hlen : (text sb1).length = (text sb).length - (b - a) := by rw [t1]; simp; omega
  obtain ⟨sb2, e2, g2, t2⟩ := (insert_text g1 a s).1 a rfl (by omega)
  refine ⟨sb2, ?_, g2, ?_⟩
  · unfold replace
    rw [e1, ok_bind, e2]
  · rw [t2, t1, List.take_append_of_le_length (by simp; omega), List.drop_append_of_le_length (by simp; omega)]
    rw [List.take_take, Nat.min_self, List.drop_eq_nil_of_le (by simp; omega)]
    simp

theorem setCharAt_text_partial {sb : SB} (h : Good sb) (c : List Nat) (rest : List (List Nat))
    (hcells : (flush sb).chain = c :: rest) (hne : ∀ d ∈ rest, d ≠ []) (a : Nat)
    (ha : sb.length - c.length ≤ a) (hb : a < (text sb).length) (x : Nat) :
    ∃ sb', setCharAt sb a x = .ok sb' ∧ Good sb' ∧ text sb' = (text sb).set a x := by
  have hn := h.nonneg
  have hl := text_length h
  obtain ⟨sb', e, g, t⟩ := replace_text_partial h c rest hcells hne a (a + 1) (by omega) ha hb [x]
  refine ⟨sb', ?_, g, ?_⟩
  · unfold setCharAt
    rw [if_neg (by omega)]
    exact e
  · rw [t, List.set_eq_take_append_cons_drop, if_pos hb]
    simp

/-! ### Cases that meet the hypotheses -/

/-- "abc", then "def", then 'g': two cells and a buffer. -/
def sample : SB := appendChar (append (append new [97, 98, 99]) [100, 101, 102]) 103

theorem sample_good : Good sample :=
  (appendChar_text (append_text (append_text new_good.1 _).1 _).1 _).1

example : sample.chain = [[100, 101, 102], [97, 98, 99]] ∧ sample.buffer.isSome ∧
    text sample = [97, 98, 99, 100, 101, 102, 103] := by decide +kernel

example : (insert sample 4 [120, 121]).bind toString = .ok [97, 98, 99, 100, 120, 121, 101, 102, 103] := by
  decide +kernel

example : fitsAll [] [.append [97, 98, 99], .appendChar 100, .insert 1 [120, 121], .setLength 5,
    .append [101], .charAt 5, .deleteEnd 2] ∧
    ([Op.append [97, 98, 99], .appendChar 100, .insert 1 [120, 121], .setLength 5,
      .append [101], .charAt 5, .deleteEnd 2].foldlM Op.run new).bind toString = .ok [97, 120] := by
  refine ⟨?_, by decide +kernel⟩
  simp [fitsAll, Op.fits, Op.effect]

/-- "def" is the last piece of "abc" "def"; "de" becomes "x". -/
example : (replace (append (append new [97, 98, 99]) [100, 101, 102]) 3 5 [120]).bind toString =
    .ok [97, 98, 99, 120, 102] := by decide +kernel

/-! ### Where the code does not do what it should -/

/-- The buffer, if there is one, is an array of 32 characters, and the position is in it. -/
def Sized (sb : SB) : Prop :=
  sb.position ≤ 32 ∧ (sb.buffer = none → sb.position = 0) ∧ ∀ b, sb.buffer = some b → b.length = 32

private theorem flush_sized {sb : SB} (h : Sized sb) : Sized (flush sb) := by
  unfold flush
  split
  · exact ⟨by simp, by simp, by simp⟩
  · exact h

/-- C59: characters are stored inside of the buffer only; its size never changes. -/
theorem stores_in_bounds {sb : SB} (h : Sized sb) (s : List Nat) (c : Nat) :
    Sized (append sb s) ∧ Sized (appendChar sb c) ∧ Sized (flush sb) := by
  refine ⟨?_, ?_, flush_sized h⟩
  · unfold append
    split
    · show (put sb s).position ≤ 32 ∧ ((put sb s).buffer = none → (put sb s).position = 0) ∧
        ∀ b, (put sb s).buffer = some b → b.length = 32
      unfold put
      cases hb : sb.buffer with
      | none => exact flush_sized h
      | some b =>
        simp only
        split
        · rename_i hl
          have h1 := h.1
          have h2 := h.2.2 b hb
          refine ⟨by simp only; omega, by simp, ?_⟩
          simp only [Option.some.injEq]
          rintro b' rfl
          simp; omega
        · exact flush_sized h
    · exact h
  · unfold appendChar
    have hr : (room sb).position < 32 ∧ (room sb).buffer ≠ none ∧ ∀ b, (room sb).buffer = some b → b.length = 32 := by
      have h1 := h.1
      unfold room
      cases hb : sb.buffer with
      | none =>
        exact ⟨by simp only; rw [h.2.1 hb]; omega, by simp, by simp [bufferSize]⟩
      | some b =>
        have h2 := h.2.2 b hb
        simp only
        split
        · refine ⟨?_, by simp, by simp [bufferSize]⟩
          show (flush sb).position < 32
          unfold flush
          split
          · simp
          · omega
        · exact ⟨by omega, by simp [hb], h.2.2⟩
    refine ⟨by simp only; omega, ?_, ?_⟩
    · intro e; simp only [Option.map_eq_none_iff] at e; exact absurd e hr.2.1
    intro b' hb'
    simp only [Option.map_eq_some_iff] at hb'
    obtain ⟨b, h1, rfl⟩ := hb'
    simp [hr.2.2 b h1]

example : Sized (appendChar (append (appendChar new 97) [98, 99]) 100) :=
  (stores_in_bounds (stores_in_bounds (stores_in_bounds (sb := new) ⟨by decide, by decide, by simp [new]⟩ [] 97).2.1
    [98, 99] 0).1 [] 100).2.1

/-- After `append("abc").append("def").append("ghi")`, `delete(3, 7)` should leave "abchi"; it leaves
"abc" behind two characters that are zero. -/
theorem delete_loses :
    (delete (append (append (append new [97, 98, 99]) [100, 101, 102]) [103, 104, 105]) 3 7).bind
      toString = .ok [0, 0, 97, 98, 99] := by decide +kernel

/-- After `append("abc").append("def")`, deleting the first character throws. -/
theorem delete_throws :
    deleteCharAt (append (append new [97, 98, 99]) [100, 101, 102]) 0 = .error .stringIndex ∧
    setCharAt (append (append new [97, 98, 99]) [100, 101, 102]) 0 120 = .error .stringIndex := by
  decide +kernel

/-- `append("abc").setLength(5)` puts the new characters at the front. -/
theorem setLength_shifts :
    (setLength (append new [97, 98, 99]) 5).bind toString = .ok [0, 0, 97, 98, 99] := by
  decide +kernel

end Avian.Builder
