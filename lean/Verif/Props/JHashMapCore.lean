import Verif.Lib.JHashMap

/-
What holds of a hash map between two operations, and that every operation keeps it.
-/
namespace Avian.JHashMap

variable {K V : Type}

/-! ### Sizes of the array -/

theorem wrap_id {i : Int} (h1 : -2 ^ 31 ≤ i) (h2 : i < 2 ^ 31) : wrap i = i := by
  unfold wrap; omega

theorem pow_le_pow {j k : Nat} (h : j ≤ k) : 2 ^ j ≤ 2 ^ k := Nat.pow_le_pow_right (by decide) h

theorem doubling_ok (n : Int) (hn : n ≤ 2 ^ 30) : ∀ (fuel j : Nat), j ≤ 30 → 31 - j ≤ fuel →
    (j = 0 ∨ (2 : Int) ^ (j - 1) < n) →
    ∃ k, k ≤ 30 ∧ doubling n fuel (2 ^ j) = some (2 ^ k) ∧ n ≤ 2 ^ k ∧ (k = 0 ∨ (2 : Int) ^ (k - 1) < n) := by
  intro fuel
  induction fuel with
  | zero => intro j h1 h2; omega
  | succ fuel ih =>
    intro j h1 h2 h3
    unfold doubling
    split
    · rename_i hlt
      have hj : j < 30 := by
        rcases Nat.lt_or_ge j 30 with h | h
        · exact h
        · have : j = 30 := by omega
          subst this; omega
      have hp : (2 : Int) ^ (j + 1) = 2 * 2 ^ j := by rw [Int.pow_succ, Int.mul_comm]
      have hb : (2 : Int) ^ (j + 1) ≤ 2 ^ 30 := by
        have h : (2 : Nat) ^ (j + 1) ≤ 2 ^ 30 := pow_le_pow (by omega)
        exact_mod_cast h
      have h0 : (0 : Int) < 2 ^ (j + 1) := Int.pow_pos (by decide)
      have hw : wrap (2 * 2 ^ j) = 2 ^ (j + 1) := by
        rw [← hp]; exact wrap_id (by omega) (by omega)
      rw [hw]
      exact ih (j + 1) (by omega) (by omega) (Or.inr (by simpa using hlt))
    · rename_i hge
      exact ⟨j, h1, rfl, by omega, h3⟩

/-- The capacity is the least power of two that is not below `n`. -/
theorem nextPowerOfTwo_ok {n : Int} (hn : n ≤ 2 ^ 30) :
    ∃ k, k ≤ 30 ∧ nextPowerOfTwo n = some (2 ^ k) ∧ n ≤ 2 ^ k ∧ (k = 0 ∨ (2 : Int) ^ (k - 1) < n) :=
  doubling_ok n hn 34 0 (by omega) (by omega) (Or.inl rfl)

theorem doubling_never_aux {n : Int} (hn : 2 ^ 30 < n) : ∀ (fuel : Nat) (r : Int),
    ((∃ j : Nat, j ≤ 30 ∧ r = 2 ^ j) ∨ r = -2 ^ 31 ∨ r = 0) → doubling n fuel r = none := by
  intro fuel
  induction fuel with
  | zero => intro r _; rfl
  | succ fuel ih =>
    intro r hr
    unfold doubling
    have hlt : r < n := by
      rcases hr with ⟨j, hj, rfl⟩ | rfl | rfl
      · have h : (2 : Nat) ^ j ≤ 2 ^ 30 := pow_le_pow hj
        have h' : (2 : Int) ^ j ≤ 2 ^ 30 := by exact_mod_cast h
        omega
      · omega
      · omega
    rw [if_pos hlt]
    apply ih
    rcases hr with ⟨j, hj, rfl⟩ | rfl | rfl
    · rcases Nat.lt_or_ge j 30 with h | h
      · refine Or.inl ⟨j + 1, by omega, ?_⟩
        have hp : (2 : Int) ^ (j + 1) = 2 * 2 ^ j := by rw [Int.pow_succ, Int.mul_comm]
        have hb : (2 : Int) ^ (j + 1) ≤ 2 ^ 30 := by
          have h : (2 : Nat) ^ (j + 1) ≤ 2 ^ 30 := pow_le_pow (by omega)
          exact_mod_cast h
        have h0 : (0 : Int) < 2 ^ (j + 1) := Int.pow_pos (by decide)
        rw [← hp]; exact wrap_id (by omega) (by omega)
      · have : j = 30 := by omega
        subst this
        exact Or.inr (Or.inl (by decide))
    · exact Or.inr (Or.inr (by decide))
    · exact Or.inr (Or.inr (by decide))

theorem index_lt (x : BitVec 32) {k : Nat} (hk : k ≤ 30) : index x (2 ^ k) < 2 ^ k := by
  have h0 : 0 < 2 ^ k := Nat.two_pow_pos k
  have h1 : 2 ^ k ≤ 2 ^ 30 := pow_le_pow hk
  unfold index
  rw [BitVec.toNat_and]
  have h2 : (BitVec.ofNat 32 (2 ^ k) - 1).toNat = 2 ^ k - 1 := by
    rw [BitVec.toNat_sub]
    simp only [BitVec.toNat_ofNat, BitVec.ofNat_eq_ofNat]
    omega
  rw [h2]
  have := @Nat.and_le_right x.toNat (2 ^ k - 1)
  omega

/-! ### Chains of cells -/

/-- The cells reached from `o` are those of the list, in this order. -/
def Chain (next : Cell → Option Cell) (o : Option Cell) : List Cell → Prop
  | [] => o = none
  | c :: l => o = some c ∧ Chain next (next c) l

theorem set_same {A : Type} (f : Cell → A) (c : Cell) (a : A) : set f c a c = a := by simp [set]

theorem set_other {A : Type} (f : Cell → A) {c d : Cell} (a : A) (h : d ≠ c) : set f c a d = f d := by
  simp [set, h]

theorem chain_set {next : Cell → Option Cell} {x : Cell} {a : Option Cell} :
    ∀ {l : List Cell} {o : Option Cell}, x ∉ l → Chain next o l → Chain (set next x a) o l := by
  intro l
  induction l with
  | nil => intro o _ h; exact h
  | cons c l ih =>
    intro o hx h
    obtain ⟨h1, h2⟩ := h
    refine ⟨h1, ?_⟩
    have hc : c ≠ x := fun e => hx (by simp [e])
    rw [set_other next a hc]
    exact ih (fun hm => hx (by simp [hm])) h2

theorem chain_congr {next next' : Cell → Option Cell} :
    ∀ {l : List Cell} {o : Option Cell}, (∀ c ∈ l, next' c = next c) → Chain next o l → Chain next' o l := by
  intro l
  induction l with
  | nil => intro o _ h; exact h
  | cons c l ih =>
    intro o hx h
    obtain ⟨h1, h2⟩ := h
    exact ⟨h1, by rw [hx c (by simp)]; exact ih (fun d hd => hx d (by simp [hd])) h2⟩

theorem chain_tail {next : Cell → Option Cell} {c : Cell} {l2 : List Cell} :
    ∀ {l1 : List Cell} {o : Option Cell}, Chain next o (l1 ++ c :: l2) → Chain next (next c) l2 := by
  intro l1
  induction l1 with
  | nil => intro o h; exact h.2
  | cons d l1 ih => intro o h; exact ih h.2

theorem chain_unlink {next : Cell → Option Cell} {p c : Cell} {l2 : List Cell} :
    ∀ {l1 : List Cell} {o : Option Cell}, Chain next o (l1 ++ p :: c :: l2) → (l1 ++ p :: c :: l2).Nodup →
    Chain (set next p (next c)) o (l1 ++ p :: l2) := by
  intro l1
  induction l1 with
  | nil =>
    intro o h hn
    obtain ⟨h1, h2, h3⟩ := h
    refine ⟨h1, ?_⟩
    rw [set_same]
    refine chain_set ?_ h3
    simp at hn
    exact hn.1.2
  | cons d l1 ih =>
    intro o h hn
    obtain ⟨h1, h2⟩ := h
    refine ⟨h1, ?_⟩
    have hd : d ≠ p := by
      intro e
      simp [e] at hn
    rw [set_other next _ hd]
    exact ih h2 (by simp at hn ⊢; exact hn.2)

/-- A list without repetition of numbers below `n` has at most `n` elements. -/
theorem nodup_length_le {l : List Nat} {n : Nat} (hd : l.Nodup) (hb : ∀ c ∈ l, c < n) : l.length ≤ n := by
  have h := List.Nodup.length_le_of_subset (l₂ := List.range n) hd
    (fun c hc => List.mem_range.2 (hb c hc))
  simpa using h

theorem seek_spec {next : Cell → Option Cell} {test : Cell → Bool} :
    ∀ {l : List Cell} {fuel : Nat} {p o : Option Cell}, Chain next o l → l.length ≤ fuel →
    (seek next test fuel p o = .ok none ∧ ∀ c ∈ l, test c = false) ∨
    ∃ l1 c l2, l = l1 ++ c :: l2 ∧ test c = true ∧ (∀ d ∈ l1, test d = false) ∧
      seek next test fuel p o = .ok (some (l1.getLast?.or p, c)) := by
  intro l
  induction l with
  | nil =>
    intro fuel p o h _
    simp only [Chain] at h
    subst h
    exact Or.inl ⟨by cases fuel <;> rfl, by simp⟩
  | cons c l ih =>
    intro fuel p o h hf
    obtain ⟨rfl, h2⟩ := h
    cases fuel with
    | zero => simp at hf
    | succ fuel =>
      unfold seek
      cases ht : test c with
      | true => exact Or.inr ⟨[], c, l, rfl, ht, by simp, by simp⟩
      | false =>
        simp only [Bool.false_eq_true, if_false]
        rcases ih (fuel := fuel) (p := some c) h2 (by simpa using hf) with ⟨h3, h4⟩ | ⟨l1, d, l2, h3, h4, h5, h6⟩
        · exact Or.inl ⟨h3, by simpa [ht] using h4⟩
        · refine Or.inr ⟨c :: l1, d, l2, by simp [h3], h4, by simpa [ht] using h5, ?_⟩
          rw [h6]
          cases l1 with
          | nil => simp
          | cons e l1 => simp [List.getLast?_cons]

/-! ### Buckets -/

/-- The array holds the cells `P`, each in the bucket of its hash code. -/
structure Buckets (hash : Cell → BitVec 32) (cap : Nat) (arr : List (Option Cell))
    (next : Cell → Option Cell) (P : List Cell) : Prop where
  length : arr.length = cap
  power : ∃ k, k ≤ 30 ∧ cap = 2 ^ k
  chains : ∀ j, j < cap → ∃ o l, arr[j]? = some o ∧ Chain next o l ∧ l.Nodup ∧
    ∀ c, c ∈ l ↔ c ∈ P ∧ index (hash c) cap = j

theorem Buckets.index_lt {hash : Cell → BitVec 32} {cap arr next P} (hb : Buckets hash cap arr next P)
    (x : BitVec 32) : index x cap < cap := by
  obtain ⟨k, hk, rfl⟩ := hb.power
  exact JHashMap.index_lt x hk

theorem Buckets.insert {hash : Cell → BitVec 32} {cap arr next P} (hb : Buckets hash cap arr next P)
    {c : Cell} (hc : c ∉ P) :
    ∃ head, load arr (index (hash c) cap) = .ok head ∧
      Buckets hash cap (arr.set (index (hash c) cap) (some c)) (set next c head) (c :: P) := by
  have hi := hb.index_lt (hash c)
  obtain ⟨o, l, h1, h2, h3, h4⟩ := hb.chains _ hi
  refine ⟨o, by simp [load, h1], by simp [hb.length], hb.power, ?_⟩
  intro j hj
  by_cases e : j = index (hash c) cap
  · subst e
    have hcl : c ∉ l := fun hm => hc ((h4 c).1 hm).1
    refine ⟨some c, c :: l, ?_, ⟨rfl, ?_⟩, ?_, ?_⟩
    · rw [List.getElem?_set_self (by rw [hb.length]; exact hi)]
    · rw [set_same]; exact chain_set hcl h2
    · exact List.nodup_cons.2 ⟨hcl, h3⟩
    · intro d
      rw [List.mem_cons, h4 d, List.mem_cons]
      constructor
      · rintro (rfl | ⟨h5, h6⟩)
        · exact ⟨Or.inl rfl, rfl⟩
        · exact ⟨Or.inr h5, h6⟩
      · rintro ⟨rfl | h5, h6⟩
        · exact Or.inl rfl
        · exact Or.inr ⟨h5, h6⟩
  · obtain ⟨o', l', g1, g2, g3, g4⟩ := hb.chains j hj
    have hcl : c ∉ l' := fun hm => hc ((g4 c).1 hm).1
    refine ⟨o', l', ?_, chain_set hcl g2, g3, ?_⟩
    · rw [List.getElem?_set_ne (Ne.symm e)]; exact g1
    · intro d
      rw [g4 d, List.mem_cons]
      constructor
      · rintro ⟨h5, h6⟩; exact ⟨Or.inr h5, h6⟩
      · rintro ⟨rfl | h5, h6⟩
        · exact absurd h6.symm e
        · exact ⟨h5, h6⟩

theorem buckets_empty (hash : Cell → BitVec 32) {k : Nat} (hk : k ≤ 30) (next : Cell → Option Cell) :
    Buckets hash (2 ^ k) (List.replicate (2 ^ k) none) next [] :=
  ⟨by simp, ⟨k, hk, rfl⟩, fun j hj => ⟨none, [], by simp [hj], rfl, by simp, by simp⟩⟩

/-- Taking a cell out of its bucket: the cell before it, or the array, gets the cell behind it. -/
theorem Buckets.unlink {hash : Cell → BitVec 32} {cap arr next P} (hb : Buckets hash cap arr next P)
    {i : Nat} (hi : i < cap) {o : Option Cell} {l1 : List Cell} {c : Cell} {l2 : List Cell}
    (ho : arr[i]? = some o) (hch : Chain next o (l1 ++ c :: l2)) (hnd : (l1 ++ c :: l2).Nodup)
    (hmem : ∀ d, d ∈ l1 ++ c :: l2 ↔ d ∈ P ∧ index (hash d) cap = i) (hP : P.Nodup) :
    (l1 = [] → Buckets hash cap (arr.set i (next c)) next (P.erase c)) ∧
    (∀ l p, l1 = l ++ [p] → Buckets hash cap arr (set next p (next c)) (P.erase c)) := by
  have hc : c ∈ P ∧ index (hash c) cap = i := (hmem c).1 (by simp)
  have hother : ∀ j, j < cap → j ≠ i → ∃ o l, arr[j]? = some o ∧ Chain next o l ∧ l.Nodup ∧
      (∀ d ∈ l, index (hash d) cap = j) ∧
      ∀ d, d ∈ l ↔ d ∈ P.erase c ∧ index (hash d) cap = j := by
    intro j hj hne
    obtain ⟨o', l', g1, g2, g3, g4⟩ := hb.chains j hj
    refine ⟨o', l', g1, g2, g3, fun d hd => ((g4 d).1 hd).2, ?_⟩
    intro d
    rw [g4 d, hP.mem_erase_iff]
    constructor
    · rintro ⟨h5, h6⟩
      exact ⟨⟨fun e => hne (by rw [← h6, e, hc.2]), h5⟩, h6⟩
    · rintro ⟨⟨_, h5⟩, h6⟩; exact ⟨h5, h6⟩
  have hnew : ∀ d, d ∈ l1 ++ l2 ↔ d ∈ P.erase c ∧ index (hash d) cap = i := by
    intro d
    rw [hP.mem_erase_iff]
    have h1 := hmem d
    have hn2 : c ∉ l1 ∧ c ∉ l2 := by
      rw [List.nodup_append] at hnd
      refine ⟨fun hm => hnd.2.2 c hm c (by simp) rfl, ?_⟩
      exact (List.nodup_cons.1 hnd.2.1).1
    constructor
    · intro hd
      have hd' : d ∈ l1 ++ c :: l2 := by
        simp only [List.mem_append, List.mem_cons] at hd ⊢
        rcases hd with h | h
        · exact Or.inl h
        · exact Or.inr (Or.inr h)
      have hne : d ≠ c := by
        rintro rfl
        rcases List.mem_append.1 hd with h | h
        · exact hn2.1 h
        · exact hn2.2 h
      exact ⟨⟨hne, (h1.1 hd').1⟩, (h1.1 hd').2⟩
    · rintro ⟨⟨hne, hp⟩, hidx⟩
      have := h1.2 ⟨hp, hidx⟩
      simp only [List.mem_append, List.mem_cons] at this ⊢
      rcases this with h | h | h
      · exact Or.inl h
      · exact absurd h hne
      · exact Or.inr h
  have hnd' : (l1 ++ l2).Nodup := by
    rw [List.nodup_append] at hnd ⊢
    refine ⟨hnd.1, (List.nodup_cons.1 hnd.2.1).2, ?_⟩
    intro a ha b hb
    exact hnd.2.2 a ha b (by simp [hb])
  constructor
  · intro e
    subst e
    refine ⟨by simp [hb.length], hb.power, ?_⟩
    intro j hj
    by_cases hji : j = i
    · subst hji
      refine ⟨next c, l2, ?_, chain_tail hch, by simpa using hnd', by simpa using hnew⟩
      rw [List.getElem?_set_self (by rw [hb.length]; exact hj)]
    · obtain ⟨o', l', g1, g2, g3, _, g4⟩ := hother j hj hji
      exact ⟨o', l', by rw [List.getElem?_set_ne (Ne.symm hji)]; exact g1, g2, g3, g4⟩
  · intro l p e
    subst e
    refine ⟨hb.length, hb.power, ?_⟩
    intro j hj
    by_cases hji : j = i
    · subst hji
      refine ⟨o, l ++ [p] ++ l2, ho, ?_, hnd', hnew⟩
      have := chain_unlink (next := next) (p := p) (c := c) (l2 := l2) (l1 := l) (o := o)
        (by simpa using hch) (by simpa using hnd)
      simpa using this
    · obtain ⟨o', l', g1, g2, g3, g5, g4⟩ := hother j hj hji
      refine ⟨o', l', g1, chain_set ?_ g2, g3, g4⟩
      intro hm
      have h1 := g5 p hm
      have h2 := ((hmem p).1 (by simp)).2
      exact hji (by rw [← h1, h2])

/-! ### Moving the cells to another array -/

theorem moveBucket_ok {hash : Cell → BitVec 32} {cap : Nat} :
    ∀ {l : List Cell} {fuel : Nat} {o : Option Cell} {arr next} {P : List Cell},
    Buckets hash cap arr next P → Chain next o l → l.Nodup → (∀ c ∈ l, c ∉ P) → l.length ≤ fuel →
    ∃ arr' next', moveBucket hash cap fuel o arr next = .ok (arr', next') ∧
      (∃ P', Buckets hash cap arr' next' P' ∧ (∀ c, c ∈ P' ↔ c ∈ l ∨ c ∈ P)) ∧
      ∀ c, c ∉ l → next' c = next c := by
  intro l
  induction l with
  | nil =>
    intro fuel o arr next P hb hch _ _ _
    simp only [Chain] at hch
    subst hch
    exact ⟨arr, next, by cases fuel <;> rfl, ⟨P, hb, by simp⟩, fun _ _ => rfl⟩
  | cons c l ih =>
    intro fuel o arr next P hb hch hnd hdis hf
    obtain ⟨rfl, hch⟩ := hch
    cases fuel with
    | zero => simp at hf
    | succ fuel =>
      rw [List.nodup_cons] at hnd
      obtain ⟨head, h1, h2⟩ := hb.insert (hdis c (by simp))
      unfold moveBucket
      rw [h1]
      simp only [Except.bind]
      obtain ⟨arr', next', h3, ⟨P', h4, h5⟩, h6⟩ :=
        ih (fuel := fuel) (o := next c) h2 (chain_set hnd.1 hch) hnd.2
          (by
            intro d hd hm
            rcases List.mem_cons.1 hm with rfl | hm
            · exact hnd.1 hd
            · exact hdis d (by simp [hd]) hm)
          (by simpa using hf)
      refine ⟨arr', next', h3, ⟨P', h4, ?_⟩, ?_⟩
      · intro d
        rw [h5 d]
        simp only [List.mem_cons]
        constructor
        · rintro (h | h | h)
          · exact Or.inl (Or.inr h)
          · exact Or.inl (Or.inl h)
          · exact Or.inr h
        · rintro ((h | h) | h)
          · exact Or.inr (Or.inl h)
          · exact Or.inl h
          · exact Or.inr (Or.inr h)
      · intro d hd
        rw [h6 d (fun hm => hd (by simp [hm]))]
        exact set_other _ _ (fun e => hd (by simp [e]))

theorem moveAll_ok {hash : Cell → BitVec 32} {cap fuel : Nat} :
    ∀ {bs : List (Option Cell)} {ls : List (List Cell)} {arr next} {P : List Cell},
    Buckets hash cap arr next P → bs.length = ls.length →
    (∀ (i : Nat) (o : Option Cell) (l : List Cell), bs[i]? = some o → ls[i]? = some l → Chain next o l) →
    ls.flatten.Nodup → (∀ c ∈ ls.flatten, c ∉ P) → (∀ l ∈ ls, l.length ≤ fuel) →
    ∃ arr' next' P', moveAll hash cap fuel bs arr next = .ok (arr', next') ∧
      Buckets hash cap arr' next' P' ∧ (∀ c, c ∈ P' ↔ c ∈ ls.flatten ∨ c ∈ P) := by
  intro bs
  induction bs with
  | nil =>
    intro ls arr next P hb hlen _ _ _ _
    cases ls with
    | nil => exact ⟨arr, next, P, rfl, hb, by simp⟩
    | cons => simp at hlen
  | cons b bs ih =>
    intro ls arr next P hb hlen hch hnd hdis hf
    cases ls with
    | nil => simp at hlen
    | cons l ls =>
      simp only [List.flatten_cons, List.nodup_append] at hnd
      obtain ⟨arr1, next1, h1, ⟨P1, h2, h3⟩, h4⟩ :=
        moveBucket_ok (fuel := fuel) hb (hch 0 b l rfl rfl) hnd.1
          (fun c hc => hdis c (by simp [hc])) (hf l (by simp))
      obtain ⟨arr2, next2, P2, h5, h6, h7⟩ := ih (ls := ls) h2 (by simpa using hlen)
        (by
          intro i o l' hi hl
          refine chain_congr ?_ (hch (i + 1) o l' (by simpa using hi) (by simpa using hl))
          intro c hc
          refine h4 c ?_
          intro hm
          exact hnd.2.2 c hm c (List.mem_flatten.2 ⟨l', List.mem_of_getElem? hl, hc⟩) rfl)
        hnd.2.1
        (by
          intro c hc hm
          rcases (h3 c).1 hm with h | h
          · exact hnd.2.2 c h c hc rfl
          · exact hdis c (by simp only [List.flatten_cons, List.mem_append]; exact Or.inr hc) h)
        (fun l' hl => hf l' (by simp [hl]))
      refine ⟨arr2, next2, P2, ?_, h6, ?_⟩
      · simp only [moveAll, h1, Except.bind, h5]
      · intro c
        rw [h7 c, h3 c, List.flatten_cons, List.mem_append]
        constructor
        · rintro (h | h | h)
          · exact Or.inl (Or.inr h)
          · exact Or.inl (Or.inl h)
          · exact Or.inr h
        · rintro ((h | h) | h)
          · exact Or.inr (Or.inl h)
          · exact Or.inl h
          · exact Or.inr (Or.inr h)

/-- The lists of the buckets. -/
theorem Buckets.lists {hash : Cell → BitVec 32} {cap arr next P} (hb : Buckets hash cap arr next P) :
    ∃ ls : List (List Cell), ls.length = cap ∧ ls.flatten.Nodup ∧ (∀ c, c ∈ ls.flatten ↔ c ∈ P) ∧
      ∀ (i : Nat) (o : Option Cell) (l : List Cell), arr[i]? = some o → ls[i]? = some l → Chain next o l ∧ l.Nodup ∧
        ∀ c, c ∈ l ↔ c ∈ P ∧ index (hash c) cap = i := by
  have key : ∀ n, n ≤ cap → ∃ ls : List (List Cell), ls.length = n ∧ ls.flatten.Nodup ∧
      (∀ c, c ∈ ls.flatten ↔ c ∈ P ∧ index (hash c) cap < n) ∧
      ∀ (i : Nat) (o : Option Cell) (l : List Cell), arr[i]? = some o → ls[i]? = some l → Chain next o l ∧ l.Nodup ∧
        ∀ c, c ∈ l ↔ c ∈ P ∧ index (hash c) cap = i := by
    intro n
    induction n with
    | zero => intro _; exact ⟨[], rfl, by simp, by simp, by simp⟩
    | succ n ih =>
      intro hn
      obtain ⟨ls, h1, h2, h3, h4⟩ := ih (by omega)
      obtain ⟨o, l, g1, g2, g3, g4⟩ := hb.chains n (by omega)
      refine ⟨ls ++ [l], by simp [h1], ?_, ?_, ?_⟩
      · simp only [List.flatten_append, List.flatten_cons, List.flatten_nil, List.append_nil,
          List.nodup_append]
        refine ⟨h2, g3, ?_⟩
        intro a ha b hb' e
        subst e
        have h5 := ((h3 a).1 ha).2
        have h6 := ((g4 a).1 hb').2
        omega
      · intro c
        simp only [List.flatten_append, List.flatten_cons, List.flatten_nil, List.append_nil,
          List.mem_append, h3 c, g4 c]
        constructor
        · rintro (⟨h5, h6⟩ | ⟨h5, h6⟩)
          · exact ⟨h5, by omega⟩
          · exact ⟨h5, by omega⟩
        · rintro ⟨h5, h6⟩
          rcases Nat.lt_or_ge (index (hash c) cap) n with h | h
          · exact Or.inl ⟨h5, h⟩
          · exact Or.inr ⟨h5, by omega⟩
      · intro i o' l' hi hl
        rcases Nat.lt_trichotomy i n with h | h | h
        · rw [List.getElem?_append_left (by omega)] at hl
          exact h4 i o' l' hi hl
        · subst h
          rw [List.getElem?_append_right (by omega)] at hl
          simp [h1] at hl
          subst hl
          rw [g1] at hi
          cases hi
          exact ⟨g2, g3, g4⟩
        · rw [List.getElem?_eq_none (by simp; omega)] at hl
          cases hl
  obtain ⟨ls, h1, h2, h3, h4⟩ := key cap (by omega)
  refine ⟨ls, h1, h2, ?_, h4⟩
  intro c
  rw [h3 c]
  exact ⟨fun h => h.1, fun h => ⟨h, hb.index_lt _⟩⟩

/-! ### The invariant -/

/-- The contract of `equals` and `hashCode`. -/
structure Helper.Lawful (h : Helper K) : Prop where
  refl : ∀ a, h.equal a a = true
  symm : ∀ a b, h.equal a b = true → h.equal b a = true
  trans : ∀ a b c, h.equal a b = true → h.equal b c = true → h.equal a c = true
  hash : ∀ a b, h.equal a b = true → h.hash a = h.hash b

/-- The cells in the array, if there is one. -/
def InArray (hash : Cell → BitVec 32) (next : Cell → Option Cell) (cs : List Cell) :
    Option (List (Option Cell)) → Prop
  | none => cs = []
  | some arr => Buckets hash arr.length arr next cs

/-- The invariant: `cs` are the cells of the map. -/
structure Good (h : Helper K) (m : Map K V) (cs : List Cell) : Prop where
  nodup : cs.Nodup
  below : ∀ c ∈ cs, c < m.fresh
  size : m.size = cs.length
  hashes : ∀ c ∈ cs, m.hash c = h.hash (m.key c)
  unique : ∀ c ∈ cs, ∀ d ∈ cs, h.equal (m.key c) (m.key d) = true → c = d
  array : InArray m.hash m.next cs m.array

theorem Good.buckets {h : Helper K} {m : Map K V} {cs arr} (g : Good h m cs) (ha : m.array = some arr) :
    Buckets m.hash arr.length arr m.next cs := by
  have := g.array
  rw [ha] at this
  exact this

theorem Good.chain_le {h : Helper K} {m : Map K V} {cs : List Cell} (g : Good h m cs) {l : List Cell}
    (hn : l.Nodup) (hl : ∀ c ∈ l, c ∈ cs) : l.length ≤ m.fresh :=
  nodup_length_le hn (fun c hc => g.below c (hl c hc))

theorem InArray.perm {hash : Cell → BitVec 32} {next} {cs ds : List Cell} (hp : ∀ c, c ∈ cs ↔ c ∈ ds)
    {a : Option (List (Option Cell))} (ha : InArray hash next cs a) : InArray hash next ds a := by
  cases a with
  | none =>
    simp only [InArray] at ha ⊢
    subst ha
    exact List.eq_nil_iff_forall_not_mem.2 (fun c hc => by simpa using (hp c).2 hc)
  | some arr =>
    refine ⟨ha.length, ha.power, fun j hj => ?_⟩
    obtain ⟨o, l, h1, h2, h3, h4⟩ := ha.chains j hj
    exact ⟨o, l, h1, h2, h3, fun c => by rw [h4 c, hp c]⟩

/-- Resizing keeps the cells. -/
theorem resize_ok {m : Map K V} {cs : List Cell} (hn : cs.Nodup) (hb : ∀ c ∈ cs, c < m.fresh)
    (ha : InArray m.hash m.next cs m.array) {n : Int} (h0 : n ≠ 0) (h1 : n ≤ 2 ^ 30) :
    ∃ arr' next', resize m n = .ok { m with array := some arr', next := next' } ∧
      Buckets m.hash arr'.length arr' next' cs := by
  obtain ⟨k, hk, h2, -, -⟩ := nextPowerOfTwo_ok h1
  have h3 : ((2 : Int) ^ k).toNat = 2 ^ k := by
    have : ((2 : Int) ^ k) = ((2 ^ k : Nat) : Int) := by simp
    rw [this]; rfl
  unfold resize
  rw [if_pos h0, h2]
  simp only [h3]
  split
  · rename_i he
    cases hm : m.array with
    | none => rw [hm] at he; simp at he
    | some arr =>
      rw [hm] at ha
      refine ⟨arr, m.next, ?_, ha⟩
      cases m
      simp at hm
      subst hm
      rfl
  · rename_i he
    have hl : ∃ ls : List (List Cell), (m.array.getD []).length = ls.length ∧
        (∀ (i : Nat) (o : Option Cell) (l : List Cell), (m.array.getD [])[i]? = some o → ls[i]? = some l → Chain m.next o l) ∧
        ls.flatten.Nodup ∧ (∀ c, c ∈ ls.flatten ↔ c ∈ cs) ∧ ∀ l ∈ ls, l.length ≤ m.fresh := by
      cases hm : m.array with
      | none =>
        rw [hm] at ha
        simp only [InArray] at ha
        subst ha
        exact ⟨[], rfl, by simp, by simp, by simp, by simp⟩
      | some arr =>
        rw [hm] at ha
        obtain ⟨ls, g1, g2, g3, g4⟩ := Buckets.lists ha
        refine ⟨ls, by simp [g1], ?_, g2, g3, ?_⟩
        · intro i o l hi hl
          exact (g4 i o l (by simpa using hi) hl).1
        · intro l hl
          refine nodup_length_le ((List.pairwise_flatten.1 g2).1 l hl) ?_
          intro c hc
          exact hb c ((g3 c).1 (List.mem_flatten.2 ⟨l, hl, hc⟩))
    obtain ⟨ls, g1, g2, g3, g4, g5⟩ := hl
    obtain ⟨arr', next', P', e1, e2, e3⟩ :=
      moveAll_ok (fuel := m.fresh) (buckets_empty m.hash hk m.next) g1 g2 g3 (by simp) g5
    refine ⟨arr', next', ?_, ?_⟩
    · rw [e1]; rfl
    · rw [← e2.length] at e2
      have := InArray.perm (cs := P') (ds := cs) (a := some arr') (hash := m.hash) (next := next')
        (fun c => by rw [e3 c, g4 c]; simp) e2
      exact this

/-- The fields of the cells, except for `next`, and the number of entries are the same. -/
structure Same (m m' : Map K V) : Prop where
  size : m'.size = m.size
  key : m'.key = m.key
  value : m'.value = m.value
  hash : m'.hash = m.hash
  fresh : m'.fresh = m.fresh

theorem grow_ok {m : Map K V} {cs : List Cell} (hn : cs.Nodup) (hb : ∀ c ∈ cs, c < m.fresh)
    (ha : InArray m.hash m.next cs m.array) :
    ∃ m' arr', grow m = .ok m' ∧ Same m m' ∧ m'.array = some arr' ∧
      Buckets m'.hash arr'.length arr' m'.next cs := by
  unfold grow
  cases hm : m.array with
  | none =>
    obtain ⟨arr', next', e1, e2⟩ := resize_ok hn hb ha (n := 16) (by decide) (by decide)
    exact ⟨_, arr', e1, ⟨rfl, rfl, rfl, rfl, rfl⟩, rfl, e2⟩
  | some arr =>
    have hB : Buckets m.hash arr.length arr m.next cs := by rw [hm] at ha; exact ha
    simp only
    split
    · obtain ⟨k, hk, he⟩ := hB.power
      have h1 : 0 < arr.length := by rw [he]; exact Nat.two_pow_pos k
      have hw : wrap (arr.length * 2) ≠ 0 ∧ wrap (arr.length * 2) ≤ 2 ^ 30 := by
        rcases Nat.lt_or_ge k 30 with h | h
        · have h2 : arr.length ≤ 2 ^ 29 := by rw [he]; exact pow_le_pow (by omega)
          rw [wrap_id (by omega) (by omega)]
          omega
        · have hk' : k = 30 := by omega
          subst hk'
          rw [he]; decide
      obtain ⟨arr', next', e1, e2⟩ := resize_ok hn hb ha hw.1 hw.2
      exact ⟨_, arr', e1, ⟨rfl, rfl, rfl, rfl, rfl⟩, rfl, e2⟩
    · exact ⟨m, arr, rfl, ⟨rfl, rfl, rfl, rfl, rfl⟩, hm, hB⟩

theorem shrink_ok {m : Map K V} {cs : List Cell} {arr : List (Option Cell)} (hn : cs.Nodup)
    (hb : ∀ c ∈ cs, c < m.fresh) (hm : m.array = some arr) (hB : Buckets m.hash arr.length arr m.next cs) :
    ∃ m' arr', shrink m = .ok m' ∧ Same m m' ∧ m'.array = some arr' ∧
      Buckets m'.hash arr'.length arr' m'.next cs := by
  unfold shrink
  rw [hm]
  simp only
  split
  · rename_i hc
    obtain ⟨k, hk, he⟩ := hB.power
    have h1 : arr.length ≤ 2 ^ 30 := by rw [he]; exact pow_le_pow hk
    obtain ⟨arr', next', e1, e2⟩ := resize_ok (m := m) hn hb (by rw [hm]; exact hB)
      (n := ((arr.length / 2 : Nat) : Int)) (by omega) (by omega)
    exact ⟨_, arr', e1, ⟨rfl, rfl, rfl, rfl, rfl⟩, rfl, e2⟩
  · exact ⟨m, arr, rfl, ⟨rfl, rfl, rfl, rfl, rfl⟩, hm, hB⟩

end Avian.JHashMap
