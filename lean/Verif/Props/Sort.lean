import Verif.Lib.Sort

/-
C72: sorting.  C73: searching in sorted arrays; reversing and shuffling.
-/
namespace Avian.Sort

variable {A : Type}

/-! ### Arrays -/

theorem load_nat {a : List A} {i : Nat} (h : i < a.length) : load a (i : Int) = some a[i] := by
  unfold load
  rw [if_pos (by omega), Int.toNat_natCast, List.getElem?_eq_getElem h]

theorem store_nat {a : List A} {i : Nat} (h : i < a.length) (v : A) : store a (i : Int) v = some (a.set i v) := by
  unfold store
  rw [if_pos (by omega), Int.toNat_natCast]

/-- Moving an element into the hole leaves the hole at its place. -/
theorem hole_move {a : List A} {p q : Nat} (hp : p < a.length) (hq : q < a.length) (hne : p ≠ q) (v : A) :
    ((a.set p a[q]).set q v).Perm (a.set p v) := by
  have h := List.set_set_perm (as := a.set p v) (i := p) (j := q) (by simpa using hp) (by simpa using hq)
  simp only [List.getElem_set_self, List.set_set] at h
  rw [List.getElem_set_ne hne] at h
  exact h

theorem set_same {a : List A} {p : Nat} (hp : p < a.length) : a.set p a[p] = a := by
  apply List.ext_getElem
  · simp
  · intro i h1 h2
    by_cases h : p = i
    · subst h; simp
    · rw [List.getElem_set_ne h]

/-! ### Insertion -/

/-- The loop finds the place of `t`, moves the larger elements and leaves the rest. -/
theorem shift_ok (cmp : A → A → Int) (t : A) : ∀ (n : Nat) (l : List A), l.length = n → ∀ (x : A) (r : List A),
    ∃ l1 l2 y, l = l1 ++ l2 ∧ shift cmp t n (l ++ x :: r) = some (l1.length, l1 ++ y :: (l2 ++ r)) ∧
      (∀ z ∈ l2, cmp z t > 0) ∧ (∀ z, l1.getLast? = some z → ¬ cmp z t > 0) := by
  intro n
  induction n with
  | zero =>
    intro l hl x r
    have := List.length_eq_zero_iff.1 hl
    subst this
    exact ⟨[], [], x, rfl, rfl, by simp, by simp⟩
  | succ n ih =>
    intro l hl x r
    rcases List.eq_nil_or_concat l with rfl | ⟨l', z, rfl⟩
    · simp at hl
    · rw [List.concat_eq_append] at hl ⊢
      simp only [List.length_append, List.length_cons, List.length_nil, Nat.zero_add, Nat.add_right_cancel_iff] at hl
      unfold shift
      have hload : load (l' ++ [z] ++ x :: r) (n : Nat) = some z := by
        rw [load_nat (by simp; omega)]
        simp [← hl]
      rw [hload]
      simp only [Option.bind_some]
      by_cases hc : cmp z t > 0
      · rw [if_pos hc]
        have hst : store (l' ++ [z] ++ x :: r) ((n : Int) + 1) z = some (l' ++ z :: (z :: r)) := by
          rw [show (n : Int) + 1 = ((n + 1 : Nat) : Int) by omega, store_nat (by simp; omega)]
          congr 1
          rw [← hl, List.append_assoc, List.set_append_right _ _ (by omega)]
          simp
        rw [hst]
        simp only [Option.bind_some]
        obtain ⟨l1, l2, y, h1, h2, h3, h4⟩ := ih l' hl z (z :: r)
        refine ⟨l1, l2 ++ [z], y, by rw [h1, List.append_assoc], ?_, ?_, h4⟩
        · rw [h2, List.append_assoc]; rfl
        · intro w hw
          rcases List.mem_append.1 hw with hw | hw
          · exact h3 w hw
          · rw [List.mem_singleton.1 hw]; exact hc
      · rw [if_neg hc]
        refine ⟨l' ++ [z], [], x, by simp, by simp [hl], by simp, ?_⟩
        intro w hw
        simp only [List.getLast?_append, List.getLast?_singleton, Option.some_or, Option.some.injEq] at hw
        rw [← hw]; exact hc

/-- One turn of the outer loop. -/
theorem insert_one (cmp : A → A → Int) (l : List A) (t : A) (r : List A) :
    ∃ l1 l2, l = l1 ++ l2 ∧
      ((load (l ++ t :: r) l.length).bind fun u => (shift cmp u l.length (l ++ t :: r)).bind fun s => store s.2 s.1 u) =
        some (l1 ++ t :: l2 ++ r) ∧
      (∀ z ∈ l2, cmp z t > 0) ∧ (∀ z, l1.getLast? = some z → ¬ cmp z t > 0) := by
  obtain ⟨l1, l2, y, h1, h2, h3, h4⟩ := shift_ok cmp t l.length l rfl t r
  refine ⟨l1, l2, h1, ?_, h3, h4⟩
  rw [load_nat (by simp)]
  simp only [Option.bind_some, List.getElem_append_right (Nat.le_refl _), Nat.sub_self, List.getElem_cons_zero]
  rw [h2]
  simp only [Option.bind_some]
  rw [store_nat (by simp)]
  congr 1
  rw [List.set_append_right _ _ (Nat.le_refl _)]
  simp

/-- Whatever holds of the elements at the front before a turn and is kept by each insertion holds in the end. -/
theorem insertFrom_ok (cmp : A → A → Int) (P : List A → List A → Prop)
    (hstep : ∀ s l t l1 l2, P s l → l = l1 ++ l2 → (∀ z ∈ l2, cmp z t > 0) →
      (∀ z, l1.getLast? = some z → ¬ cmp z t > 0) → P (s ++ [t]) (l1 ++ t :: l2)) :
    ∀ (r s l : List A), P s l → ∃ a, insertFrom cmp r.length l.length (l ++ r) = some a ∧ P (s ++ r) a := by
  intro r
  induction r with
  | nil => intro s l hp; exact ⟨l, by simp [insertFrom], by simpa using hp⟩
  | cons t r ih =>
    intro s l hp
    obtain ⟨l1, l2, h1, h2, h3, h4⟩ := insert_one cmp l t r
    obtain ⟨a, ha, hpa⟩ := ih (s ++ [t]) (l1 ++ t :: l2) (hstep s l t l1 l2 hp h1 h3 h4)
    refine ⟨a, ?_, by simpa using hpa⟩
    simp only [List.length_cons]
    unfold insertFrom
    have e : ∀ k : List A → Option (List A),
        ((load (l ++ t :: r) l.length).bind fun u => (shift cmp u l.length (l ++ t :: r)).bind fun s =>
          (store s.2 s.1 u).bind k) = k (l1 ++ t :: l2 ++ r) := by
      intro k
      have := congrArg (fun o : Option (List A) => o.bind k) h2
      simpa [Option.bind_assoc] using this
    rw [e]
    rw [show l.length + 1 = (l1 ++ t :: l2).length by rw [h1]; simp; omega]
    exact ha

theorem insertionSort_ok (cmp : A → A → Int) (P : List A → List A → Prop) (hnil : P [] [])
    (hstep : ∀ s l t l1 l2, P s l → l = l1 ++ l2 → (∀ z ∈ l2, cmp z t > 0) →
      (∀ z, l1.getLast? = some z → ¬ cmp z t > 0) → P (s ++ [t]) (l1 ++ t :: l2)) (a : List A) :
    ∃ b, insertionSort cmp a = some b ∧ P a b := by
  cases a with
  | nil => exact ⟨[], rfl, hnil⟩
  | cons x r =>
    have h1 : P [x] [x] := by
      have := hstep [] [] x [] [] hnil rfl (by simp) (by simp)
      simpa using this
    obtain ⟨b, hb, hp⟩ := insertFrom_ok cmp P hstep r [x] [x] h1
    exact ⟨b, hb, hp⟩

/-! ### Permutations -/

theorem siftLoop_perm (cmp : A → A → Int) (value : A) (count offset : Nat) : ∀ (fuel i : Nat) (a : List A),
    i < count → offset + count ≤ a.length → count < fuel + i →
    ∃ b, siftLoop cmp value count offset fuel i a = some b ∧ b.Perm (a.set (offset + i) value) := by
  intro fuel
  induction fuel with
  | zero => intros; omega
  | succ fuel ih =>
    intro i a hi hl hf
    unfold siftLoop
    have hst : store a (offset + i : Nat) value = some (a.set (offset + i) value) := store_nat (by omega) _
    split
    · next hlt =>
      have hch : ∃ child, (if 2 * i + 1 + 1 < count then
          (load a (2 * i + 1 : Nat)).bind fun x => (load a (2 * i + 1 + 1 : Nat)).bind fun y =>
            some (if cmp x y < 0 then 2 * i + 1 + 1 else 2 * i + 1)
        else some (2 * i + 1)) = some child ∧ i < child ∧ child < count := by
        split
        · rw [load_nat (by omega), load_nat (by omega)]
          simp only [Option.bind_some]
          split
          · exact ⟨_, rfl, by omega, by omega⟩
          · exact ⟨_, rfl, by omega, by omega⟩
        · exact ⟨_, rfl, by omega, by omega⟩
      obtain ⟨child, e, h1, h2⟩ := hch
      rw [e]
      simp only [Option.bind_some]
      rw [load_nat (by omega)]
      simp only [Option.bind_some]
      split
      · exact ⟨_, hst, List.Perm.refl _⟩
      · rw [load_nat (by omega)]
        simp only [Option.bind_some]
        rw [store_nat (by omega)]
        simp only [Option.bind_some]
        obtain ⟨b, hb, hp⟩ := ih child (a.set (offset + i) a[offset + child]) h2 (by simpa using hl) (by omega)
        exact ⟨b, hb, hp.trans (hole_move (by omega) (by omega) (by omega) value)⟩
    · exact ⟨_, hst, List.Perm.refl _⟩

theorem siftDown_perm (cmp : A → A → Int) (a : List A) (i count offset : Nat) (hi : i < count)
    (hl : offset + count ≤ a.length) : ∃ b, siftDown cmp a i count offset = some b ∧ b.Perm a := by
  unfold siftDown
  rw [load_nat (by omega)]
  simp only [Option.bind_some]
  obtain ⟨b, hb, hp⟩ := siftLoop_perm cmp a[offset + i] count offset (count + 1) i a hi hl (by omega)
  rw [set_same] at hp
  exact ⟨b, hb, hp⟩

theorem heapify_perm (cmp : A → A → Int) (count offset : Nat) : ∀ (n : Nat) (a : List A), n ≤ count →
    offset + count ≤ a.length → ∃ b, heapify cmp count offset n a = some b ∧ b.Perm a := by
  intro n
  induction n with
  | zero => intro a _ _; exact ⟨a, rfl, List.Perm.refl _⟩
  | succ n ih =>
    intro a hn hl
    obtain ⟨b, hb, hp⟩ := siftDown_perm cmp a n count offset (by omega) hl
    obtain ⟨c, hc, hq⟩ := ih b (by omega) (by rw [hp.length_eq]; exact hl)
    exact ⟨c, by unfold heapify; rw [hb]; exact hc, hq.trans hp⟩

theorem swap_ok {a : List A} {i j : Nat} (hi : i < a.length) (hj : j < a.length) :
    ∃ b, ((load a i).bind fun swap => (load a j).bind fun x => (store a i x).bind fun a => store a j swap) = some b ∧
      b.Perm a ∧ b = (a.set i a[j]).set j a[i] := by
  rw [load_nat hi, load_nat hj]
  simp only [Option.bind_some]
  rw [store_nat hi]
  simp only [Option.bind_some]
  rw [store_nat (by simpa using hj)]
  exact ⟨_, rfl, List.set_set_perm hi hj, rfl⟩

theorem unheap_perm (cmp : A → A → Int) (offset : Nat) : ∀ (n : Nat) (a : List A), offset + n < a.length →
    ∃ b, unheap cmp offset n a = some b ∧ b.Perm a := by
  intro n
  induction n with
  | zero => intro a _; exact ⟨a, rfl, List.Perm.refl _⟩
  | succ n ih =>
    intro a hl
    obtain ⟨b, hb, hp, _⟩ := swap_ok (a := a) (i := offset + (n + 1)) (j := offset) (by omega) (by omega)
    have hbl := hp.length_eq
    obtain ⟨c, hc, hq⟩ := siftDown_perm cmp b 0 (n + 1) offset (by omega) (by omega)
    have hcl := hq.length_eq
    obtain ⟨d, hd, hr⟩ := ih c (by omega)
    refine ⟨d, ?_, hr.trans (hq.trans hp)⟩
    unfold unheap
    have := congrArg (fun o : Option (List A) => o.bind fun a => (siftDown cmp a 0 (n + 1) offset).bind fun a =>
      unheap cmp offset n a) hb
    simp only [Option.bind_assoc, Option.bind_some, hc, hd] at this
    exact this

theorem heapSort_perm (cmp : A → A → Int) (a : List A) (first fin : Nat) (h1 : first < fin) (h2 : fin ≤ a.length) :
    ∃ b, heapSort cmp a first fin = some b ∧ b.Perm a := by
  obtain ⟨b, hb, hp⟩ := heapify_perm cmp (fin - first) first ((fin - first) / 2) a (by omega) (by omega)
  have hbl := hp.length_eq
  obtain ⟨c, hc, hq⟩ := unheap_perm cmp first (fin - first - 1) b (by omega)
  exact ⟨c, by unfold heapSort; rw [hb]; exact hc, hq.trans hp⟩

/-! ### Partition -/

theorem scanUp_ok (cmp : A → A → Int) (a : List A) (m : A) : ∀ (fuel i p : Nat) (hp : p < a.length), i ≤ p → p < fuel + i →
    ¬ cmp a[p] m < 0 → ∃ i' : Nat, ∃ h : i' < a.length, scanUp cmp a m fuel i = some (i' : Int) ∧ i ≤ i' ∧ i' ≤ p ∧
      ¬ cmp a[i'] m < 0 := by
  intro fuel
  induction fuel with
  | zero => intros; omega
  | succ fuel ih =>
    intro i p hp h1 h2 h3
    unfold scanUp
    rw [load_nat (by omega)]
    simp only [Option.bind_some]
    split
    · next hc =>
      have hne : i ≠ p := by
        intro e; subst e; exact h3 hc
      obtain ⟨i', h', e, g1, g2, g3⟩ := ih (i + 1) p hp (by omega) (by omega) h3
      exact ⟨i', h', by rw [show (i : Int) + 1 = ((i + 1 : Nat) : Int) by omega]; exact e, by omega, g2, g3⟩
    · next hc => exact ⟨i, by omega, rfl, Nat.le_refl _, h1, hc⟩

theorem scanDown_ok (cmp : A → A → Int) (a : List A) (m : A) : ∀ (fuel j q : Nat) (hj : j < a.length), (hq : q ≤ j) →
    j < fuel + q → ¬ cmp m a[q] < 0 → ∃ j' : Nat, ∃ h : j' < a.length, scanDown cmp a m fuel j = some (j' : Int) ∧
      q ≤ j' ∧ j' ≤ j ∧ ¬ cmp m a[j'] < 0 := by
  intro fuel
  induction fuel with
  | zero => intros; omega
  | succ fuel ih =>
    intro j q hj hq h2 h3
    unfold scanDown
    rw [load_nat hj]
    simp only [Option.bind_some]
    split
    · next hc =>
      have hne : q ≠ j := by
        intro e; subst e; exact h3 hc
      obtain ⟨j', h', e, g1, g2, g3⟩ := ih (j - 1) q (by omega) (by omega) (by omega) h3
      exact ⟨j', h', by rw [show (j : Int) - 1 = ((j - 1 : Nat) : Int) by omega]; exact e, g1, by omega, g3⟩
    · next hc => exact ⟨j, hj, rfl, hq, Nat.le_refl _, hc⟩

/-- Both searches end within the range, since there is an element on either side at which they stop. -/
theorem partition_ok (cmp : A → A → Int) (m : A) (first fin : Nat) : ∀ (fuel i j : Nat) (a : List A), first ≤ i → j ≤ fin →
    fin ≤ a.length → j < fuel + first →
    (∃ p, ∃ h : p < a.length, i ≤ p ∧ p < fin ∧ ¬ cmp a[p] m < 0) →
    (∃ q, ∃ h : q < a.length, first ≤ q ∧ q < j ∧ ¬ cmp m a[q] < 0) →
    ∃ pivot b, partition cmp m fuel i j a = some (((pivot : Nat) : Int), b) ∧ b.Perm a ∧ first ≤ pivot ∧ pivot < fin := by
  intro fuel
  induction fuel with
  | zero => intro i j a h1 h2 h3 h4 h5 h6; obtain ⟨q, _, g1, g2, _⟩ := h6; omega
  | succ fuel ih =>
    intro i j a h1 h2 h3 h4 h5 h6
    obtain ⟨p, hp, p1, p2, p3⟩ := h5
    obtain ⟨q, hq, q1, q2, q3⟩ := h6
    obtain ⟨i', hi', ei, i1, i2, i3⟩ := scanUp_ok cmp a m (a.length + 1) i p hp p1 (by omega) p3
    obtain ⟨j', hj', ej, j1, j2, j3⟩ := scanDown_ok cmp a m (a.length + 1) (j - 1) q (by omega) (by omega) (by omega) q3
    unfold partition
    rw [ei]
    simp only [Option.bind_some]
    rw [show (j : Int) - 1 = ((j - 1 : Nat) : Int) by omega, ej]
    simp only [Option.bind_some]
    split
    · exact ⟨i', a, rfl, List.Perm.refl _, by omega, by omega⟩
    · next hij =>
      obtain ⟨b, hb, hperm, hbe⟩ := swap_ok hi' hj'
      have hbl := hperm.length_eq
      have hi_b : b[i']? = some a[j'] := by
        rw [hbe, List.getElem?_set_ne (by omega), List.getElem?_set_self hi']
      have hj_b : b[j']? = some a[i'] := by
        rw [hbe, List.getElem?_set_self (by simpa using hj')]
      obtain ⟨pivot, c, e, hc, c1, c2⟩ := ih (i' + 1) j' b (by omega) (by omega) (by omega) (by omega)
        ⟨j', by omega, by omega, by omega, by
          rw [List.getElem?_eq_getElem (by omega)] at hj_b
          rw [Option.some.inj hj_b]; exact i3⟩
        ⟨i', by omega, by omega, by omega, by
          rw [List.getElem?_eq_getElem (by omega)] at hi_b
          rw [Option.some.inj hi_b]; exact j3⟩
      refine ⟨pivot, c, ?_, hc.trans hperm, c1, c2⟩
      have := congrArg (fun o : Option (List A) => o.bind fun a => partition cmp m fuel ((i' : Int) + 1) j' a) hb
      simp only [Option.bind_assoc, Option.bind_some] at this
      rw [this]
      exact e

theorem median_mem (cmp : A → A → Int) (a b c : A) : median cmp a b c = a ∨ median cmp a b c = b ∨ median cmp a b c = c := by
  unfold median
  split
  · split
    · simp
    · split <;> simp
  · split
    · simp
    · split <;> simp

theorem introSort_perm (cmp : A → A → Int) (hirr : ∀ x, ¬ cmp x x < 0) : ∀ (fuel : Nat) (a : List A) (first fin limit : Nat),
    first ≤ fin → fin ≤ a.length → limit < fuel → ∃ b, introSort cmp fuel a first fin limit = some b ∧ b.Perm a := by
  intro fuel
  induction fuel with
  | zero => intros; omega
  | succ fuel ih =>
    intro a first fin limit h1 h2 h3
    unfold introSort
    split
    · next hbig =>
      split
      · exact heapSort_perm cmp a first fin (by omega) h2
      · next hlim =>
        have hA : first < a.length := by omega
        have hB : first + (fin - first) / 2 + 1 < a.length := by omega
        have hC : fin - 1 < a.length := by omega
        rw [load_nat hA]
        simp only [Option.bind_some]
        rw [load_nat hB]
        simp only [Option.bind_some]
        rw [show (fin : Int) - 1 = ((fin - 1 : Nat) : Int) by omega, load_nat hC]
        simp only [Option.bind_some]
        have hm : ∃ p, ∃ h : p < a.length, first ≤ p ∧ p < fin ∧
            median cmp a[first] a[first + (fin - first) / 2 + 1] a[fin - 1] = a[p] := by
          rcases median_mem cmp a[first] a[first + (fin - first) / 2 + 1] a[fin - 1] with e | e | e
          · exact ⟨first, hA, by omega, by omega, e⟩
          · exact ⟨first + (fin - first) / 2 + 1, hB, by omega, by omega, e⟩
          · exact ⟨fin - 1, hC, by omega, by omega, e⟩
        obtain ⟨p, hp, p1, p2, hm⟩ := hm
        rw [hm]
        obtain ⟨pivot, b, e, hb, b1, b2⟩ := partition_ok cmp a[p] first fin (a.length + 1) first fin a (Nat.le_refl _)
          (Nat.le_refl _) h2 (by omega) ⟨p, hp, p1, p2, hirr _⟩ ⟨p, hp, p1, p2, hirr _⟩
        rw [e]
        simp only [Option.bind_some, Int.toNat_natCast]
        have hbl := hb.length_eq
        obtain ⟨c, e2, hc⟩ := ih b pivot fin (limit / 2) (by omega) (by omega) (by omega)
        rw [e2]
        simp only [Option.bind_some]
        have hcl := hc.length_eq
        obtain ⟨d, e3, hd⟩ := ih c first pivot (limit / 2) b1 (by omega) (by omega)
        exact ⟨d, e3, hd.trans (hc.trans hb)⟩
    · exact ⟨a, rfl, List.Perm.refl _⟩

/-! ### C72 -/

/-- The comparator is a linear preorder: exchanging the arguments changes the sign, and "not greater" is transitive. -/
structure Order (cmp : A → A → Int) : Prop where
  sign : ∀ x y, cmp x y < 0 ↔ cmp y x > 0
  trans : ∀ x y z, cmp x y ≤ 0 → cmp y z ≤ 0 → cmp x z ≤ 0

theorem Order.self {cmp : A → A → Int} (h : Order cmp) (x : A) : cmp x x = 0 := by
  have := h.sign x x; omega

/-- C72: with a comparator that says of no element that it is smaller than itself - whatever else it says -, sorting ends,
does not fail, and the array then has the same elements as before, each as often. -/
theorem sort_permutes (cmp : A → A → Int) (h : ∀ x, ¬ cmp x x < 0) (a : List A) :
    ∃ b, sort cmp a = some b ∧ b.Perm a := by
  obtain ⟨b, hb, hp⟩ := introSort_perm cmp h (a.length + 1) a 0 a.length a.length (Nat.zero_le _) (Nat.le_refl _) (by omega)
  obtain ⟨c, hc, hq⟩ := insertionSort_ok cmp (fun s l => l.Perm s) (List.Perm.refl _) (by
    intro s l t l1 l2 hp he _ _
    rw [he] at hp
    have h1 : (l1 ++ t :: l2).Perm (t :: (l1 ++ l2)) := List.perm_middle
    have h2 : (t :: s).Perm (s ++ [t]) := (List.perm_append_singleton t s).symm
    exact (h1.trans (hp.cons t)).trans h2) b
  exact ⟨c, by unfold sort; rw [hb]; exact hc, hq.trans hp⟩

theorem le_of_last {cmp : A → A → Int} (h : Order cmp) {l : List A} {t : A} (hs : l.Pairwise fun x y => cmp x y ≤ 0)
    (hl : ∀ z, l.getLast? = some z → ¬ cmp z t > 0) : ∀ z ∈ l, cmp z t ≤ 0 := by
  rcases List.eq_nil_or_concat l with rfl | ⟨l', w, rfl⟩
  · simp
  · rw [List.concat_eq_append] at hs hl ⊢
    have hw : cmp w t ≤ 0 := by
      have := hl w (by simp)
      omega
    intro z hz
    rcases List.mem_append.1 hz with hz | hz
    · exact h.trans z w t ((List.pairwise_append.1 hs).2.2 z hz w (by simp)) hw
    · rw [List.mem_singleton.1 hz]; exact hw

theorem insert_sorted {cmp : A → A → Int} (h : Order cmp) {l1 l2 : List A} {t : A}
    (hs : (l1 ++ l2).Pairwise fun x y => cmp x y ≤ 0) (h2 : ∀ z ∈ l2, cmp z t > 0)
    (h1 : ∀ z, l1.getLast? = some z → ¬ cmp z t > 0) : (l1 ++ t :: l2).Pairwise fun x y => cmp x y ≤ 0 := by
  obtain ⟨s1, s2, s3⟩ := List.pairwise_append.1 hs
  have hle := le_of_last h s1 h1
  refine List.pairwise_append.2 ⟨s1, List.pairwise_cons.2 ⟨?_, s2⟩, ?_⟩
  · intro z hz
    have h4 := h2 z hz
    have := (h.sign t z).2 h4
    omega
  · intro x hx y hy
    rcases List.mem_cons.1 hy with rfl | hy
    · exact hle x hx
    · exact s3 x hx y hy

/-- C72: with a comparator that is a linear preorder, the sorted array is in ascending order (and has the same elements). -/
theorem sort_sorts (cmp : A → A → Int) (h : Order cmp) (a : List A) :
    ∃ b, sort cmp a = some b ∧ b.Perm a ∧ b.Pairwise fun x y => cmp x y ≤ 0 := by
  have hirr : ∀ x, ¬ cmp x x < 0 := fun x => by rw [h.self]; omega
  obtain ⟨b, hb, hp⟩ := introSort_perm cmp hirr (a.length + 1) a 0 a.length a.length (Nat.zero_le _) (Nat.le_refl _)
    (by omega)
  obtain ⟨c, hc, hq, hs⟩ := insertionSort_ok cmp (fun s l => l.Perm s ∧ l.Pairwise fun x y => cmp x y ≤ 0)
    ⟨List.Perm.refl _, List.Pairwise.nil⟩ (by
    intro s l t l1 l2 hp he h2 h1
    obtain ⟨hp, hs⟩ := hp
    rw [he] at hp hs
    have g1 : (l1 ++ t :: l2).Perm (t :: (l1 ++ l2)) := List.perm_middle
    have g2 : (t :: s).Perm (s ++ [t]) := (List.perm_append_singleton t s).symm
    exact ⟨(g1.trans (hp.cons t)).trans g2, insert_sorted h hs h2 h1⟩) b
  exact ⟨c, by unfold sort; rw [hb]; exact hc, hq.trans hp, hs⟩

/-- The comparison of the keys of pairs is a linear preorder, and not an order: it does not tell all pairs apart. -/
def byKey (x y : Int × Int) : Int := if x.1 < y.1 then -1 else if x.1 > y.1 then 1 else 0

theorem byKey_order : Order byKey := by
  constructor
  · intro x y
    unfold byKey
    split <;> split <;> try split
    all_goals (try split) <;> omega
  · intro x y z
    unfold byKey
    split <;> split <;> split <;> (try split) <;> (try split) <;> (try split) <;> omega

example : ∃ b, sort byKey [(3, 0), (1, 1), (3, 2), (2, 3)] = some b ∧ b = [(1, 1), (2, 3), (3, 0), (3, 2)] :=
  ⟨_, rfl, by decide +kernel⟩

/-- C72, for at most sixteen elements: the elements between which the comparator does not decide stay in their order.
(The full claim would be for all arrays; see `sort_unstable`.) -/
theorem sort_stable_partial (cmp : A → A → Int) (h : Order cmp) (a : List A) (ha : a.length ≤ 16) :
    ∃ b, sort cmp a = some b ∧ ∀ x, b.filter (fun y => cmp x y = 0) = a.filter (fun y => cmp x y = 0) := by
  obtain ⟨b, hb, hp⟩ := insertionSort_ok cmp
    (fun s l => ∀ x, l.filter (fun y => cmp x y = 0) = s.filter (fun y => cmp x y = 0)) (fun _ => rfl) (by
    intro s l t l1 l2 hp he h2 h1 x
    rw [List.filter_append, List.filter_append, ← hp x, he, List.filter_append, List.filter_cons]
    by_cases hx : cmp x t = 0
    · have hnil : l2.filter (fun y => cmp x y = 0) = [] := by
        rw [List.filter_eq_nil_iff]
        intro z hz
        simp only [decide_eq_true_eq]
        intro hxz
        have h3 := h2 z hz
        -- `z` is not greater than `x`, which is not greater than `t`
        have hzx : cmp z x ≤ 0 := by
          have := h.sign x z; omega
        have := h.trans z x t hzx (by omega)
        omega
      rw [hnil]
      simp [hx]
    · simp [hx]) a
  refine ⟨b, ?_, hp⟩
  unfold sort introSort
  rw [if_neg (by omega)]
  exact hb

/-- Seventeen pairs with the same key. -/
def seventeen : List (Int × Int) :=
  [(0, 1), (0, 2), (0, 3), (0, 4), (0, 5), (0, 6), (0, 7), (0, 8), (0, 9), (0, 10), (0, 11), (0, 12), (0, 13), (0, 14),
    (0, 15), (0, 16), (0, 17)]

/-- C72 (limit of the code): with seventeen elements that the comparator does not tell apart the order is changed. -/
theorem sort_unstable : ∃ b, sort byKey seventeen = some b ∧ b ≠ seventeen := by
  obtain ⟨b, hb, _⟩ := sort_permutes byKey (fun x => by rw [byKey_order.self]; omega) seventeen
  refine ⟨b, hb, ?_⟩
  rintro rfl
  exact absurd hb (by decide +kernel)

/-! ### C73: searching -/

/-- The answer of a search in the part of a sorted array from `s` below `e`: the index of the key, or how far from the
beginning it would have to be inserted, encoded by a negative number. -/
def Found (a : List Int) (s e : Nat) (key : Int) (r : Int) : Prop :=
  (∃ i : Nat, r = i ∧ s ≤ i ∧ i < e ∧ a[i]? = some key) ∨
  (∃ p : Nat, r = -(p : Int) - 1 ∧ s ≤ p ∧ p ≤ e ∧ (∀ i x, s ≤ i → i < p → a[i]? = some x → x < key) ∧
    (∀ i x, p ≤ i → i < e → a[i]? = some x → x > key))

/-- The part of the array is sorted. -/
def SortedIn (a : List Int) (s e : Nat) : Prop :=
  ∀ i j x y, s ≤ i → i ≤ j → j < e → a[i]? = some x → a[j]? = some y → x ≤ y

theorem searchLoop_ok (a : List Int) (key : Int) (s e : Nat) (he : e ≤ a.length) (hs : SortedIn a s e) :
    ∀ (fuel l r : Nat), s ≤ l → r ≤ e → r < fuel + l → l ≤ r →
    (∀ i x, s ≤ i → i < l → a[i]? = some x → x < key) → (∀ i x, r ≤ i → i < e → a[i]? = some x → x > key) →
    ∃ res, searchLoop a key fuel l ((r : Int) - 1) = some res ∧ Found a s e key res := by
  intro fuel
  induction fuel with
  | zero => intros; omega
  | succ fuel ih =>
    intro l r h1 h2 h3 h4 h5 h6
    unfold searchLoop
    split
    · next hlr =>
      have hm : ((l : Int) + ((r : Int) - 1)).tdiv 2 = (((l + r - 1) / 2 : Nat) : Int) := by
        rw [show (l : Int) + ((r : Int) - 1) = ((l + r - 1 : Nat) : Int) by omega]; rfl
      simp only [hm]
      generalize hmid : (l + r - 1) / 2 = mid
      have hin : mid < a.length := by omega
      rw [load_nat hin]
      simp only [Option.bind_some]
      have hget : a[mid]? = some a[mid] := List.getElem?_eq_getElem hin
      split
      · next hc =>
        rw [show (mid : Int) + 1 = ((mid + 1 : Nat) : Int) by omega]
        refine ih (mid + 1) r (by omega) h2 (by omega) (by omega) ?_ h6
        intro i x i1 i2 hx
        have := hs i mid x a[mid] i1 (by omega) (by omega) hx hget
        omega
      · split
        · next _ hc =>
          refine ih l mid h1 (by omega) (by omega) (by omega) h5 ?_
          intro i x i1 i2 hx
          have := hs mid i a[mid] x (by omega) i1 i2 hget hx
          omega
        · next hc1 hc2 =>
          refine ⟨mid, rfl, Or.inl ⟨mid, rfl, by omega, by omega, ?_⟩⟩
          rw [hget]; congr 1; omega
    · next hlr =>
      have : l = r := by omega
      subst this
      exact ⟨_, rfl, Or.inr ⟨l, rfl, h1, h2, h5, h6⟩⟩

/-- C73: a search for a number in a part of an array that is sorted there finds it or tells its place. -/
theorem searchRange_ok (a : List Int) (s e : Nat) (key : Int) (h1 : s ≤ e) (h2 : e ≤ a.length) (hs : SortedIn a s e) :
    ∃ r, searchRange a s e key = .ok (some r) ∧ Found a s e key r := by
  unfold searchRange checkRange
  rw [if_neg (by omega), if_neg (by omega), if_neg (by omega)]
  obtain ⟨r, hr, hf⟩ := searchLoop_ok a key s e h2 hs (a.length + 1) s e (Nat.le_refl _) (Nat.le_refl _) (by omega) h1
    (by omega) (by omega)
  exact ⟨r, by simp only [Except.bind]; rw [hr], hf⟩

/-- C73: a range outside of the array is refused. -/
theorem searchRange_refused (a : List Int) (s e key : Int) (h : s < 0 ∨ e > a.length ∨ e < s) :
    ∃ x, searchRange a s e key = .error x := by
  unfold searchRange checkRange
  split
  · exact ⟨_, rfl⟩
  · split
    · exact ⟨_, rfl⟩
    · rw [if_pos (by omega)]; exact ⟨_, rfl⟩

example : SortedIn [7, 1, 3, 3, 8, 2] 1 5 ∧ searchRange [7, 1, 3, 3, 8, 2] 1 5 8 = .ok (some 4) ∧
    searchRange [7, 1, 3, 3, 8, 2] 1 5 2 = .ok (some (-3)) := by
  refine ⟨?_, by decide +kernel, by decide +kernel⟩
  intro i j x y h1 h2 h3 hx hy
  rcases i with _ | _ | _ | _ | _ | i
  · omega
  all_goals rcases j with _ | _ | _ | _ | _ | j
  all_goals simp at hx hy <;> omega

/-- C73, for arrays with at least one element: a search in the whole array is a search in all but its last element. (The full
claim would be that it is a search in the whole array; see `search_last`.) -/
theorem search_partial (a : List Int) (key : Int) (h : a ≠ []) (hs : SortedIn a 0 a.length) :
    ∃ r, search a key = .ok (some r) ∧ Found a 0 (a.length - 1) key r := by
  have hl : 0 < a.length := List.length_pos_iff.2 h
  unfold search
  rw [show (a.length : Int) - 1 = ((a.length - 1 : Nat) : Int) by omega]
  exact searchRange_ok a 0 (a.length - 1) key (Nat.zero_le _) (by omega)
    (fun i j x y h1 h2 h3 => hs i j x y h1 h2 (by omega))

/-- C73 (limit of the code): a number that is only in the last place of a sorted array is not found in it, and a search in
an empty array fails. -/
theorem search_last (l : List Int) (key : Int) (h : ∀ x ∈ l, x < key) (hs : SortedIn (l ++ [key]) 0 (l.length + 1)) :
    (∃ r, search (l ++ [key]) key = .ok (some r) ∧ r < 0) ∧ search [] key = .error .illegalArgument := by
  refine ⟨?_, rfl⟩
  obtain ⟨r, hr, hf⟩ := search_partial (l ++ [key]) key (by simp) (by simpa using hs)
  refine ⟨r, hr, ?_⟩
  rcases hf with ⟨i, _, _, h2, h3⟩ | ⟨p, h1, _⟩
  · simp only [List.length_append, List.length_cons, List.length_nil, Nat.zero_add, Nat.add_sub_cancel] at h2
    rw [List.getElem?_append_left h2, List.getElem?_eq_getElem h2] at h3
    have := h l[i] (List.getElem_mem h2)
    have := Option.some.inj h3
    omega
  · omega

/-- Searching for 5 in 1, 3, 5. -/
example : search [1, 3, 5] 5 = .ok (some (-3)) := by decide +kernel

/-- The answer of a search in a sorted list. -/
def ListFound (cmp : A → Int) (a : List A) (r : Int) : Prop :=
  (∃ i : Nat, ∃ x, r = i ∧ a[i]? = some x ∧ cmp x = 0) ∨
  (∃ p : Nat, r = -(p : Int) - 1 ∧ p ≤ a.length ∧ (∀ i x, i < p → a[i]? = some x → cmp x > 0) ∧
    (∀ i x, p ≤ i → a[i]? = some x → cmp x < 0))

theorem listSearchLoop_ok (cmp : A → Int) (a : List A)
    (hs : ∀ (i j : Nat) x y, i ≤ j → a[i]? = some x → a[j]? = some y → (cmp x < 0 → cmp y < 0) ∧ (cmp y > 0 → cmp x > 0)) :
    ∀ (fuel l r : Nat), l ≤ r → r ≤ a.length → r < fuel + l →
    (∀ i x, i < l → a[i]? = some x → cmp x > 0) → (∀ i x, r ≤ i → a[i]? = some x → cmp x < 0) →
    ∃ res, listSearchLoop cmp a fuel ((l : Int) - 1) r = some res ∧ ListFound cmp a res := by
  intro fuel
  induction fuel with
  | zero => intros; omega
  | succ fuel ih =>
    intro l r h1 h2 h3 h4 h5
    unfold listSearchLoop
    split
    · next hlr =>
      have hm : ((l : Int) - 1 + (r : Int)) / 2 = (((l + r - 1) / 2 : Nat) : Int) := by omega
      simp only [hm]
      generalize hmid : (l + r - 1) / 2 = mid
      have hin : mid < a.length := by omega
      rw [load_nat hin]
      simp only [Option.bind_some]
      have hget : a[mid]? = some a[mid] := List.getElem?_eq_getElem hin
      split
      · next hc =>
        refine ih l mid (by omega) (by omega) (by omega) h4 ?_
        intro i x i1 hx
        exact (hs mid i a[mid] x i1 hget hx).1 hc
      · split
        · next _ hc =>
          rw [show (mid : Int) = ((mid + 1 : Nat) : Int) - 1 by omega]
          refine ih (mid + 1) r (by omega) h2 (by omega) ?_ h5
          intro i x i1 hx
          exact (hs i mid x a[mid] (by omega) hx hget).2 hc
        · next hc1 hc2 =>
          exact ⟨mid, rfl, Or.inl ⟨mid, a[mid], rfl, hget, by omega⟩⟩
    · next hlr =>
      have : l = r := by omega
      subst this
      exact ⟨_, rfl, Or.inr ⟨l, by omega, h2, h4, h5⟩⟩

/-- C73: a search in a list that is sorted by a linear preorder finds an element equal to the sought one, or tells where it
would have to be inserted. -/
theorem listSearch_ok (cmp : A → A → Int) (h : Order cmp) (needle : A) (a : List A) (hs : a.Pairwise fun x y => cmp x y ≤ 0) :
    ∃ r, listSearch (cmp needle) a = some r ∧ ListFound (cmp needle) a r := by
  unfold listSearch
  refine listSearchLoop_ok (cmp needle) a ?_ (a.length + 2) 0 a.length (Nat.zero_le _) (Nat.le_refl _) (by omega)
    (by intros; omega) (by
      intro i x i1 hx
      rw [List.getElem?_eq_none i1] at hx
      exact absurd hx (by simp))
  intro i j x y hij hx hy
  have hle : cmp x y ≤ 0 := by
    by_cases he : i = j
    · subst he
      rw [hx] at hy
      rw [Option.some.inj hy, h.self]
      exact Int.le_refl _
    · obtain ⟨hi, ex⟩ := List.getElem?_eq_some_iff.1 hx
      obtain ⟨hj, ey⟩ := List.getElem?_eq_some_iff.1 hy
      have := List.pairwise_iff_getElem.1 hs i j hi hj (by omega)
      rw [ex, ey] at this
      exact this
  have hyx : ¬ cmp y x < 0 := by
    have := h.sign y x; omega
  constructor
  · intro hc
    apply Classical.byContradiction
    intro hn
    -- `y` is not greater than `needle`, so `x` is not
    have hyn : cmp y needle ≤ 0 := by
      have := h.sign needle y; omega
    have hxn := h.trans x y needle hle hyn
    have := h.sign needle x
    omega
  · intro hc
    apply Classical.byContradiction
    intro hn
    have := h.trans needle x y (by omega) hle
    omega

/-! ### Reversing and shuffling -/

theorem reverseLoop_ok : ∀ (fuel : Nat) (l m r : List A), m.length < 2 * fuel →
    reverseLoop fuel l.length ((l.length + m.length : Nat) - 1 : Int) (l ++ m ++ r) = some (l ++ m.reverse ++ r) := by
  intro fuel
  induction fuel with
  | zero => intros; omega
  | succ fuel ih =>
    intro l m r hf
    unfold reverseLoop
    cases m with
    | nil => rw [if_neg (by simp; omega)]; simp
    | cons x m =>
      rcases List.eq_nil_or_concat m with rfl | ⟨m', y, rfl⟩
      · rw [if_neg (by simp)]; simp
      · rw [List.concat_eq_append] at hf ⊢
        rw [if_pos (by simp; omega)]
        have hlen : ((l.length + (x :: (m' ++ [y])).length : Nat) - 1 : Int) = ((l.length + 1 + m'.length : Nat) : Int) := by
          simp only [List.length_cons, List.length_append, List.length_nil]; omega
        rw [hlen]
        have hx : (l ++ x :: (m' ++ [y]) ++ r)[l.length]? = some x := by simp
        have hy : (l ++ x :: (m' ++ [y]) ++ r)[l.length + 1 + m'.length]? = some y := by
          have : l ++ x :: (m' ++ [y]) ++ r = (l ++ x :: m') ++ y :: r := by simp
          rw [this, List.getElem?_append_right (by simp; omega)]
          simp only [List.length_append, List.length_cons]
          rw [show l.length + 1 + m'.length - (l.length + (m'.length + 1)) = 0 by omega]
          simp
        have h1 : l.length < (l ++ x :: (m' ++ [y]) ++ r).length := by simp
        have h2 : l.length + 1 + m'.length < (l ++ x :: (m' ++ [y]) ++ r).length := by simp; omega
        obtain ⟨b, hb, _, hbe⟩ := swap_ok h1 h2
        have := congrArg (fun o : Option (List A) => o.bind fun a => reverseLoop fuel ((l.length : Int) + 1)
          (((l.length + 1 + m'.length : Nat) : Int) - 1) a) hb
        simp only [Option.bind_assoc, Option.bind_some] at this
        rw [this]
        have hb2 : b = (l ++ [y]) ++ m' ++ (x :: r) := by
          rw [List.getElem?_eq_getElem h1] at hx
          rw [List.getElem?_eq_getElem h2] at hy
          rw [hbe, Option.some.inj hx, Option.some.inj hy]
          have e1 : l ++ x :: (m' ++ [y]) ++ r = l ++ (x :: (m' ++ y :: r)) := by simp
          rw [e1, List.set_append_right _ _ (Nat.le_refl _), Nat.sub_self, List.set_cons_zero]
          have e2 : l ++ y :: (m' ++ y :: r) = (l ++ y :: m') ++ (y :: r) := by simp
          rw [e2, List.set_append_right _ _ (by simp; omega)]
          simp only [List.length_append, List.length_cons]
          rw [show l.length + 1 + m'.length - (l.length + (m'.length + 1)) = 0 by omega, List.set_cons_zero]
          simp
        rw [hb2]
        have h3 := ih (l ++ [y]) m' (x :: r) (by
          simp only [List.length_cons, List.length_append, List.length_nil] at hf; omega)
        simp only [List.length_append, List.length_cons, List.length_nil, Nat.zero_add] at h3
        rw [show ((l.length : Int) + 1) = ((l.length + 1 : Nat) : Int) by omega, h3]
        simp

/-- C73: `reverse` reverses a list. -/
theorem reverse_ok (a : List A) : reverse a = some a.reverse := by
  have := reverseLoop_ok (a.length + 1) ([] : List A) a [] (by omega)
  simpa [reverse] using this

/-- C73: whatever numbers (in the range that was asked for) the generator gives, `shuffle` only changes the order. -/
theorem shuffle_permutes : ∀ (js : List Int) (i : Nat) (a : List A), i + js.length ≤ a.length →
    (∀ j ∈ js, 0 ≤ j ∧ j < a.length) → ∃ b, shuffleLoop js i a = some b ∧ b.Perm a
  | [], _, a, _, _ => ⟨a, rfl, List.Perm.refl _⟩
  | j :: js, i, a, h1, h2 => by
    simp only [List.length_cons] at h1
    obtain ⟨j0, j1⟩ := h2 j (List.mem_cons_self ..)
    obtain ⟨n, rfl⟩ : ∃ n : Nat, j = n := ⟨j.toNat, by omega⟩
    obtain ⟨b, hb, hp, _⟩ := swap_ok (a := a) (i := i) (j := n) (by omega) (by omega)
    have hbl := hp.length_eq
    obtain ⟨c, hc, hq⟩ := shuffle_permutes js (i + 1) b (by omega)
      (fun k hk => by rw [hbl]; exact h2 k (List.mem_cons_of_mem _ hk))
    refine ⟨c, ?_, hq.trans hp⟩
    unfold shuffleLoop
    have := congrArg (fun o : Option (List A) => o.bind fun a => shuffleLoop js (i + 1) a) hb
    simp only [Option.bind_assoc, Option.bind_some, hc] at this
    exact this

example : shuffleLoop [2, 2, 0] 0 ['a', 'b', 'c'] = some ['b', 'a', 'c'] := by decide +kernel

/-! ### The reversed order -/

/-- C72, for comparators that never answer the smallest int: the comparator of `reverseOrder` is the reversed order. -/
theorem reverseCompare_partial (cmp : A → A → Int) (h : Order cmp) (hr : ∀ x y, -2 ^ 31 < cmp x y ∧ cmp x y < 2 ^ 31) :
    Order (reverseCompare cmp) ∧ ∀ x y, (reverseCompare cmp x y < 0 ↔ cmp y x < 0) := by
  have e : ∀ x y, reverseCompare cmp x y = -cmp x y := by
    intro x y
    have := hr x y
    unfold reverseCompare
    rw [Int.bmod_eq_of_le (by omega) (by omega)]
  refine ⟨⟨?_, ?_⟩, ?_⟩
  · intro x y
    rw [e, e]
    have := h.sign x y; have := h.sign y x; omega
  · intro x y z
    rw [e, e, e]
    intro h1 h2
    have a1 := h.sign z y; have a2 := h.sign y z
    have b1 := h.sign y x; have b2 := h.sign x y
    have := h.trans z y x (by omega) (by omega)
    have := h.sign x z; omega
  · intro x y
    rw [e]
    have := h.sign x y; have := h.sign y x; omega

/-- C72 (limit of the code): if the comparator answers the smallest int, so does the reversed one: both say that the first is
the smaller one. -/
theorem reverseCompare_smallest (cmp : A → A → Int) (x y : A) (h : cmp x y = -2 ^ 31) : reverseCompare cmp x y < 0 := by
  unfold reverseCompare
  rw [h]
  decide

end Avian.Sort
