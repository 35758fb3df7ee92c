import Verif.Lib.ArrayCopy

/-
C68: `System.arraycopy`.
-/
namespace Avian.ArrayCopy

/-! ### The specification -/

/-- The bytes of one element. -/
def element (a : Arr) (i : Nat) : List Byte := (a.body.drop (i * a.cls.elementSize)).take a.cls.elementSize

/-- An array as it is allocated: its bytes are those of its elements, and their number is a 32-bit number
(as `allocate` takes it). -/
structure Valid (a : Arr) : Prop where
  size : a.cls.elementSize ≠ 0
  body : a.body.length = a.length * a.cls.elementSize
  small : a.length * a.cls.elementSize < 2 ^ 32
  length : a.length < 2 ^ 31

/-- The range is within the array. -/
def Within (offset length : Int) (a : Arr) : Prop := 0 ≤ offset ∧ offset + length ≤ a.length

instance (offset length : Int) (a : Arr) : Decidable (Within offset length a) := by
  unfold Within; infer_instance

/-- What a copy of `n` elements does. -/
structure Copied (st st' : State) (s d : Ref) (so doff n : Nat) : Prop where
  /-- the elements of the range are those of the source before -/
  copied : ∀ i, i < n → element (st'.arr d) (doff + i) = element (st.arr s) (so + i)
  /-- the other elements are as before -/
  kept : ∀ i, ¬ (doff ≤ i ∧ i < doff + n) → element (st'.arr d) i = element (st.arr d) i
  /-- the class, the length and the other arrays are as before -/
  cls : (st'.arr d).cls = (st.arr d).cls
  length : (st'.arr d).length = (st.arr d).length
  valid : Valid (st'.arr d)
  others : ∀ r, r ≠ d → st'.arr r = st.arr r
  /-- every element that was changed is marked if the elements are references, and old marks stay -/
  marked : (st.arr d).cls.objectMask → ∀ i, doff ≤ i → i < doff + n → (d, i) ∈ st'.marks
  marks : ∀ x, x ∈ st.marks → x ∈ st'.marks
  /-- nothing else is marked -/
  only : ∀ x, x ∈ st'.marks → x ∈ st.marks ∨ (x.1 = d ∧ doff ≤ x.2 ∧ x.2 < doff + n)

/-! ### The proofs -/

theorem wrap_eq {i : Int} (h : -(2 ^ 31) ≤ i) (h' : i < 2 ^ 31) : wrap i = i := by unfold wrap; omega

theorem inRange_iff {offset length : Int} {a : Arr} (ho : -(2 ^ 31) ≤ offset ∧ offset < 2 ^ 31)
    (hl : 0 < length ∧ length < 2 ^ 31) (ha : a.length < 2 ^ 31) :
    inRange offset length a.length = true ↔ Within offset length a := by
  unfold inRange Within wrap
  simp only [Bool.and_eq_true, decide_eq_true_eq]
  omega

theorem getElem_copy {src dst body : List Byte} {s d n : Nat} (h : copyBytes src dst s d n = some body) (j : Nat) :
    body[j]? = if d ≤ j ∧ j < d + n then src[s + (j - d)]? else dst[j]? := by
  unfold copyBytes at h
  split at h
  · rename_i hb
    simp only [Option.some.injEq] at h
    subst h
    rw [List.append_assoc, List.getElem?_append, List.getElem?_append]
    simp only [List.length_take, List.length_drop]
    by_cases h1 : j < d
    · rw [if_pos (by omega), if_neg (by omega), List.getElem?_take, if_pos h1]
    · rw [if_neg (by omega)]
      by_cases h2 : j < d + n
      · rw [if_pos (by omega), if_pos (by omega), List.getElem?_take, if_pos (by omega), List.getElem?_drop]
        congr 1; omega
      · rw [if_neg (by omega), if_neg (by omega), List.getElem?_drop]
        congr 1; omega
  · cases h

theorem length_copy {src dst body : List Byte} {s d n : Nat} (h : copyBytes src dst s d n = some body) :
    body.length = dst.length := by
  unfold copyBytes at h
  split at h
  · simp only [Option.some.injEq] at h
    subst h
    simp; omega
  · cases h

theorem element_get (a : Arr) (i k : Nat) :
    (element a i)[k]? = if k < a.cls.elementSize then a.body[i * a.cls.elementSize + k]? else none := by
  unfold element
  rw [List.getElem?_take, List.getElem?_drop]

theorem mul_le_of {a b e : Nat} (h : a ≤ b) : a * e ≤ b * e := Nat.mul_le_mul_right e h

theorem below_mul {a b e k : Nat} (h : a < b) (hk : k < e) : a * e + k < b * e := by
  have := Nat.mul_le_mul_right e (Nat.succ_le_of_lt h)
  rw [Nat.succ_mul] at this
  omega

/-- C68, for two arrays of the same class: a range outside either array is refused, with no effect; otherwise the
elements of the range become those the source had before the call (also if the ranges overlap), all others
stay, and what is changed is marked for the garbage collector.  (The full claim would be for all pairs of
classes, with ArrayStoreException for those whose elements do not fit; see `mixed_overrun` and
`numbers_as_references`.) -/
theorem arrayCopy_partial (st : State) (s d : Ref) (so doff len : Int)
    (hs : Valid (st.arr s)) (hd : Valid (st.arr d)) (hc : (st.arr s).cls = (st.arr d).cls)
    (hso : -(2 ^ 31) ≤ so ∧ so < 2 ^ 31) (hdo : -(2 ^ 31) ≤ doff ∧ doff < 2 ^ 31)
    (hlen : -(2 ^ 31) ≤ len ∧ len < 2 ^ 31) :
    (len < 0 ∨ (0 < len ∧ ¬ (Within so len (st.arr s) ∧ Within doff len (st.arr d))) →
      arrayCopy st (some s) so (some d) doff len = .indexOutOfBounds) ∧
    (len = 0 → arrayCopy st (some s) so (some d) doff len = .done st) ∧
    (0 < len → Within so len (st.arr s) → Within doff len (st.arr d) →
      ∃ st', arrayCopy st (some s) so (some d) doff len = .done st' ∧
        Copied st st' s d so.toNat doff.toNat len.toNat) := by
  have hcomp : compatible (st.arr s).cls (st.arr d).cls = true := by
    unfold compatible
    simp [hc, hd.size]
  refine ⟨?_, ?_, ?_⟩
  · intro h
    unfold arrayCopy
    simp only [hcomp, if_true]
    rcases h with h | ⟨h1, h2⟩
    · rw [if_neg (by omega), if_pos h]
    · rw [if_pos h1, if_neg]
      rw [Bool.and_eq_true, inRange_iff hso ⟨h1, hlen.2⟩ hs.length, inRange_iff hdo ⟨h1, hlen.2⟩ hd.length]
      exact h2
  · intro h
    subst h
    unfold arrayCopy
    simp only [hcomp, if_true]
    rw [if_neg (by omega), if_neg (by omega)]
  · intro h1 h2 h3
    obtain ⟨n, rfl⟩ : ∃ n : Nat, len = n := ⟨len.toNat, by omega⟩
    obtain ⟨a, rfl⟩ : ∃ n : Nat, so = n := ⟨so.toNat, by have := h2.1; omega⟩
    obtain ⟨b, rfl⟩ : ∃ n : Nat, doff = n := ⟨doff.toNat, by have := h3.1; omega⟩
    have ha : a + n ≤ (st.arr s).length := by have := h2.2; omega
    have hb : b + n ≤ (st.arr d).length := by have := h3.2; omega
    have hsz : (st.arr s).cls.elementSize = (st.arr d).cls.elementSize := by rw [hc]
    have hpos : 0 < (st.arr d).cls.elementSize := Nat.pos_of_ne_zero hd.size
    have hbs := hs.body
    have hss := hs.small
    rw [hsz] at hbs hss
    -- the numbers of bytes
    generalize he : (st.arr d).cls.elementSize = e at *
    have hu : ∀ x : Nat, x ≤ (st.arr s).length ∨ x ≤ (st.arr d).length → unsigned ((x : Int) * (e : Int)) = x * e := by
      intro x hx
      have : x * e < 2 ^ 32 := by
        rcases hx with hx | hx
        · exact Nat.lt_of_le_of_lt (mul_le_of hx) hss
        · have := hd.small; rw [he] at this; exact Nat.lt_of_le_of_lt (mul_le_of hx) this
      unfold unsigned
      rw [← Int.natCast_mul]
      omega
    have hbd := hd.body
    rw [he] at hbd
    have g1 : a * e + n * e ≤ (st.arr s).body.length := by
      rw [hbs, ← Nat.add_mul]; exact mul_le_of ha
    have g2 : b * e + n * e ≤ (st.arr d).body.length := by
      rw [hbd, ← Nat.add_mul]; exact mul_le_of hb
    obtain ⟨body, hbody⟩ : ∃ body, copyBytes (st.arr s).body (st.arr d).body (a * e) (b * e) (n * e) = some body :=
      ⟨_, by unfold copyBytes; rw [if_pos ⟨g1, g2⟩]⟩
    have hrun : arrayCopy st (some s) a (some d) b n = .done
        { arr := fun r => if r = d then { st.arr d with body := body } else st.arr r
          marks := if (st.arr d).cls.objectMask then
              st.marks ++ (List.range n).map fun k => (d, b + k)
            else st.marks } := by
      unfold arrayCopy
      simp only [hcomp, if_true]
      rw [if_pos h1, if_pos]
      · rw [hsz, hu a (Or.inl (by omega)), hu b (Or.inr (by omega)), hu n (Or.inl (by omega)), hbody]
        simp
      · rw [Bool.and_eq_true, inRange_iff hso ⟨h1, hlen.2⟩ hs.length, inRange_iff hdo ⟨h1, hlen.2⟩ hd.length]
        exact ⟨h2, h3⟩
    refine ⟨_, hrun, ?_⟩
    simp only [Int.toNat_natCast]
    have hget := getElem_copy hbody
    refine ⟨?_, ?_, ?_, ?_, ?_, ?_, ?_, ?_, ?_⟩
    · intro i hi
      apply List.ext_getElem?
      intro k
      rw [element_get, element_get]
      simp only [if_true, he, hsz]
      by_cases hk : k < e
      · rw [if_pos hk, if_pos hk, hget, if_pos]
        · congr 1
          rw [Nat.add_mul, Nat.add_mul]; omega
        · have := below_mul (e := e) hi hk
          rw [Nat.add_mul]; omega
      · rw [if_neg hk, if_neg hk]
    · intro i hi
      apply List.ext_getElem?
      intro k
      rw [element_get, element_get]
      simp only [if_true, he]
      by_cases hk : k < e
      · rw [if_pos hk, if_pos hk, hget, if_neg]
        rintro ⟨x1, x2⟩
        apply hi
        constructor
        · apply Nat.le_of_not_lt
          intro hlt
          have := below_mul (e := e) hlt hk
          omega
        · apply Nat.lt_of_not_le
          intro hle
          have := mul_le_of (e := e) hle
          rw [Nat.add_mul] at this
          omega
      · rw [if_neg hk, if_neg hk]
    · simp
    · simp
    · simp only [if_true]
      exact ⟨hd.size, by simp only [length_copy hbody]; exact hd.body, hd.small, hd.length⟩
    · intro r hr
      simp [hr]
    · intro hm i hi1 hi2
      simp only [hm, if_true, List.mem_append, List.mem_map, List.mem_range, Prod.mk.injEq, true_and]
      exact Or.inr ⟨i - b, by omega, by omega⟩
    · intro x hx
      simp only
      split
      · exact List.mem_append_left _ hx
      · exact hx
    · intro x hx
      simp only at hx
      split at hx
      · rcases List.mem_append.1 hx with hx | hx
        · exact Or.inl hx
        · obtain ⟨k, hk, rfl⟩ := List.mem_map.1 hx
          have := List.mem_range.1 hk
          exact Or.inr ⟨rfl, by simp, by simpa using this⟩
      · exact Or.inl hx

/-- An array of three references copied onto itself with overlap meets the hypotheses. -/
example : ∃ st : State, Valid (st.arr 0) ∧ Within 0 2 (st.arr 0) ∧ Within 1 2 (st.arr 0) ∧
    element (st.arr 0) 1 ≠ element (st.arr 0) 0 :=
  ⟨⟨fun _ => ⟨arrayClass 7 8 true, 3, List.replicate 8 1 ++ List.replicate 8 2 ++ List.replicate 8 3⟩, []⟩,
    ⟨by decide, by decide, by decide, by decide⟩, by decide, by decide, by decide⟩

/-- A null array is refused. -/
theorem arrayCopy_null (st : State) (r : Option Ref) (so doff len : Int) :
    arrayCopy st none so r doff len = .nullPointer ∧ arrayCopy st r so none doff len = .nullPointer := by
  constructor <;> cases r <;> rfl

/-- Objects that are not arrays (the element size of their class is 0) are refused, whatever the other arguments. -/
theorem not_array (st : State) (s d : Ref) (so doff len : Int)
    (h : (st.arr s).cls.elementSize = 0 ∨ (st.arr d).cls.elementSize = 0) :
    arrayCopy st (some s) so (some d) doff len = .arrayStore := by
  have : compatible (st.arr s).cls (st.arr d).cls = false := by
    unfold compatible
    rcases h with h | h <;> simp [h]
  simp [arrayCopy, this]

example : arrayCopy ⟨fun r => if r = 0 then ⟨⟨1, 0, false, true⟩, 0, []⟩ else ⟨arrayClass 2 4 false, 0, []⟩, []⟩ (some 0) 0 (some 1) 0 0 =
    .arrayStore := not_array _ _ _ _ _ _ (.inl rfl)

/-- C68 (limit of the code): copying one element of an array of longs into an array with one int is not refused; it
writes beyond the end of the array, whatever the arrays contain. -/
theorem mixed_overrun (st : State) (s d : Ref) (hs : (st.arr s).cls = arrayClass 1 8 false) (hd : (st.arr d).cls = arrayClass 2 4 false)
    (hls : (st.arr s).length = 1) (hld : (st.arr d).length = 1) (hbd : (st.arr d).body.length = 4) :
    arrayCopy st (some s) 0 (some d) 0 1 = .overrun := by
  simp [arrayCopy, hs, hd, compatible, arrayClass, hls, hld, inRange, wrap, copyBytes, hbd, unsigned]

example : ∃ st : State, (st.arr 0).cls = arrayClass 1 8 false ∧ (st.arr 1).cls = arrayClass 2 4 false ∧
    (st.arr 0).length = 1 ∧ (st.arr 1).length = 1 ∧ (st.arr 1).body.length = 4 ∧ Valid (st.arr 0) ∧ Valid (st.arr 1) :=
  ⟨⟨fun r => if r = 0 then ⟨arrayClass 1 8 false, 1, List.replicate 8 0⟩
      else ⟨arrayClass 2 4 false, 1, List.replicate 4 0⟩, []⟩,
    rfl, rfl, rfl, rfl, rfl, ⟨by decide, by decide, by decide, by decide⟩, ⟨by decide, by decide, by decide, by decide⟩⟩

/-- C68 (limit of the code): copying from an array of longs into an array of references is not refused; the number becomes
the reference. -/
theorem numbers_as_references (st : State) (s d : Ref) (hs : (st.arr s).cls = arrayClass 1 8 false)
    (hd : (st.arr d).cls = arrayClass 3 8 true) (hls : (st.arr s).length = 1) (hld : (st.arr d).length = 1)
    (hbs : (st.arr s).body.length = 8) (hbd : (st.arr d).body.length = 8) :
    ∃ st', arrayCopy st (some s) 0 (some d) 0 1 = .done st' ∧ (st'.arr d).cls.objectMask = true ∧
      (st'.arr d).body = (st.arr s).body := by
  have hcb : copyBytes (st.arr s).body (st.arr d).body 0 0 8 = some (st.arr s).body := by
    unfold copyBytes
    rw [if_pos (by omega)]
    simp [List.take_of_length_le (Nat.le_of_eq hbs), List.drop_eq_nil_of_le (Nat.le_of_eq hbd)]
  have hu : unsigned ((0 : Int) * ((8 : Nat) : Int)) = 0 ∧ unsigned ((1 : Int) * ((8 : Nat) : Int)) = 8 := by decide
  refine ⟨{ arr := fun r => if r = d then { st.arr d with body := (st.arr s).body } else st.arr r
            marks := st.marks ++ (List.range 1).map fun k => (d, 0 + k) }, ?_, ?_, ?_⟩
  · unfold arrayCopy
    simp only [hs, hd, compatible, arrayClass, hls, hld, hu.1, hu.2, hcb]
    rfl
  · simp [hd, arrayClass]
  · simp

/-- Arrays as in `numbers_as_references`, with different contents. -/
example : ∃ st : State, (st.arr 0).cls = arrayClass 1 8 false ∧ (st.arr 1).cls = arrayClass 3 8 true ∧
    (st.arr 0).body ≠ (st.arr 1).body ∧ Valid (st.arr 0) ∧ Valid (st.arr 1) :=
  ⟨⟨fun r => if r = 0 then ⟨arrayClass 1 8 false, 1, List.replicate 8 1⟩
      else ⟨arrayClass 3 8 true, 1, List.replicate 8 0⟩, []⟩,
    rfl, rfl, by decide, ⟨by decide, by decide, by decide, by decide⟩, ⟨by decide, by decide, by decide, by decide⟩⟩

/-- C68 (limit of the code): a copy of no elements is not refused, even at places outside the arrays. -/
theorem empty_copy_unchecked (st : State) (s d : Ref) (hs : Valid (st.arr s)) (hc : (st.arr s).cls = (st.arr d).cls) :
    arrayCopy st (some s) (-1) (some d) (-1) 0 = .done st := by
  have : compatible (st.arr s).cls (st.arr d).cls = true := by
    unfold compatible; simp [← hc, hs.size]
  simp [arrayCopy, this]

end Avian.ArrayCopy
