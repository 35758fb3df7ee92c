import Verif.Lib.Shuffle

/-
C115: shuffling and reversing lists.
-/
namespace Avian.Shuffle

variable {A : Type}

theorem swap_same (p q : List A) (x : A) : swap (p ++ x :: q) p.length p.length = some (p ++ x :: q) := by
  unfold swap
  simp

theorem swap_at (p m q : List A) (x y : A) : swap (p ++ x :: (m ++ y :: q)) p.length (p.length + 1 + m.length) = some (p ++ y :: (m ++ x :: q)) := by
  have h1 : (p ++ x :: (m ++ y :: q))[p.length]? = some x := by simp
  have h2 : (p ++ x :: (m ++ y :: q))[p.length + 1 + m.length]? = some y := by
    rw [Nat.add_assoc, List.getElem?_append_right (by omega), show p.length + (1 + m.length) - p.length = m.length + 1 by omega, List.getElem?_cons_succ]
    simp
  unfold swap
  rw [h1, Option.bind_some, h2, Option.bind_some]
  congr 1
  rw [List.set_append_right _ _ (by omega), Nat.sub_self, List.set_cons_zero, List.set_append_right _ _ (by omega),
    show p.length + 1 + m.length - p.length = m.length + 1 by omega, List.set_cons_succ, List.set_append_right _ _ (by omega), Nat.sub_self, List.set_cons_zero]

theorem swap_perm (a : List A) (i j : Nat) (hi : i < a.length) (hj : j < a.length) : ∃ b, swap a i j = some b ∧ b.Perm a := by
  refine ⟨(a.set i a[j]).set j a[i], ?_, List.set_set_perm hi hj⟩
  unfold swap
  rw [List.getElem?_eq_getElem hi, Option.bind_some, List.getElem?_eq_getElem hj, Option.bind_some]

/-! ## Shuffling -/

theorem loop_perm (choice : Nat → Nat) (n : Nat) (hc : ∀ i, i < n → choice i < n) (turns i : Nat) (a : List A) (ha : a.length = n) (ht : i + turns = n) :
    ∃ b, shuffleLoop choice turns i a = some b ∧ b.Perm a := by
  induction turns generalizing i a with
  | zero => exact ⟨a, rfl, List.Perm.refl _⟩
  | succ turns ih =>
    have hi : i < a.length := by omega
    obtain ⟨b, h1, h2⟩ := swap_perm a i (choice i) hi (by rw [ha]; exact hc i (by omega))
    obtain ⟨c, h3, h4⟩ := ih (i + 1) b (by rw [h2.length_eq, ha]) (by omega)
    exact ⟨c, by rw [shuffleLoop, h1, Option.bind_some, h3], h4.trans h2⟩

/-- A shuffled list has the same elements, each as often, whatever the random numbers are. -/
theorem shuffle_perm (l : List A) (choice : Nat → Nat) (hc : ∀ i, i < l.length → choice i < l.length) :
    ∃ r, shuffle choice l = some r ∧ r.Perm l :=
  loop_perm choice l.length hc l.length 0 l rfl (by omega)

theorem loop_congr (c d : Nat → Nat) (turns i : Nat) (a : List A) (h : ∀ k, i ≤ k → c k = d k) : shuffleLoop c turns i a = shuffleLoop d turns i a := by
  induction turns generalizing i a with
  | zero => rfl
  | succ turns ih =>
    rw [shuffleLoop, shuffleLoop, h i (Nat.le_refl _)]
    congr 1
    funext b
    exact ih (i + 1) b (fun k hk => h k (by omega))

theorem loop_reaches (n : Nat) (rest : List A) (pre t : List A) (hn : pre.length + rest.length = n) (hp : t.Perm rest) :
    ∃ choice : Nat → Nat, (∀ i, i < n → choice i < n) ∧ shuffleLoop choice rest.length pre.length (pre ++ rest) = some (pre ++ t) := by
  induction t generalizing rest pre with
  | nil =>
    have := hp.symm.eq_nil
    subst this
    exact ⟨fun i => i, fun i h => h, rfl⟩
  | cons x t ih =>
    have hx : x ∈ rest := hp.mem_iff.mp (List.mem_cons_self ..)
    obtain ⟨a, b, hab⟩ := List.append_of_mem hx
    subst hab
    have next : ∀ r : List A, r.length + 1 = (a ++ x :: b).length → t.Perm r → ∀ j, j < n → swap (pre ++ (a ++ x :: b)) pre.length j = some (pre ++ x :: r) →
        ∃ choice : Nat → Nat, (∀ i, i < n → choice i < n) ∧ shuffleLoop choice (a ++ x :: b).length pre.length (pre ++ (a ++ x :: b)) = some (pre ++ x :: t) := by
      intro r hr hpr j hj hs
      obtain ⟨c, c1, c2⟩ := ih r (pre ++ [x]) (by simp at *; omega) hpr
      refine ⟨fun i => if i = pre.length then j else c i, ?_, ?_⟩
      · intro i hi
        simp only
        split
        · exact hj
        · exact c1 i hi
      · rw [← hr, shuffleLoop]
        simp only [if_true]
        rw [hs, Option.bind_some, loop_congr _ c r.length (pre.length + 1) _ (fun k hk => if_neg (by omega))]
        have e : (pre ++ [x]).length = pre.length + 1 := by simp
        rw [e, List.append_assoc, List.append_assoc] at c2
        exact c2
    cases a with
    | nil =>
      refine next b (by simp) (List.Perm.cons_inv hp) pre.length (by simp at hn; omega) ?_
      exact swap_same pre b x
    | cons y a =>
      refine next (a ++ y :: b) (by simp) ?_ (pre.length + 1 + a.length) (by simp at hn; omega) ?_
      · have h1 : (y :: a ++ x :: b).Perm (x :: (a ++ y :: b)) := by
          refine List.perm_middle.trans (List.Perm.cons x ?_)
          exact List.perm_middle.symm
        exact List.Perm.cons_inv (hp.trans h1)
      · exact swap_at pre a b y x

/-- And each order is possible. -/
theorem shuffle_reaches (l t : List A) (hp : t.Perm l) :
    ∃ choice : Nat → Nat, (∀ i, i < l.length → choice i < l.length) ∧ shuffle choice l = some t :=
  loop_reaches l.length l [] t (by simp) hp

/-! ### But not each as likely -/

/-- All choices for three elements. -/
def choices3 : List (Nat → Nat) :=
  (List.range 27).map fun k i => if i = 0 then k / 9 else if i = 1 then k / 3 % 3 else k % 3

/-- Of the 27 equally likely choices for three elements, 4 leave them in order and 5 exchange the last two: the orders are not equally likely. -/
theorem shuffle_unfair : (choices3.filter fun c => decide (shuffle c [1, 2, 3] = some [1, 2, 3])).length = 4 ∧
    (choices3.filter fun c => decide (shuffle c [1, 2, 3] = some [1, 3, 2])).length = 5 := by decide +kernel

/-! ## Reversing -/

theorem reverseLoop_ok (fuel : Nat) (mid : List A) (pre post : List A) (hf : mid.length < fuel) :
    reverseLoop fuel pre.length (pre.length + mid.length) (pre ++ (mid ++ post)) = some (pre ++ (mid.reverse ++ post)) := by
  induction fuel generalizing mid pre post with
  | zero => omega
  | succ fuel ih =>
    rw [reverseLoop]
    cases mid with
    | nil => rw [if_neg (by simp)]; rfl
    | cons x mid =>
      rcases List.eq_nil_or_concat mid with h | ⟨m, y, h⟩
      · subst h
        rw [if_neg (by simp)]
        rfl
      · subst h
        rw [List.concat_eq_append] at *
        rw [if_pos (by simp)]
        have e1 : pre ++ (x :: (m ++ [y]) ++ post) = pre ++ x :: (m ++ y :: post) := by simp
        have e2 : pre.length + (x :: (m ++ [y])).length - 1 = pre.length + 1 + m.length := by simp; omega
        rw [e1, e2, swap_at, Option.bind_some]
        have := ih m (pre ++ [y]) (x :: post) (by simp at hf; omega)
        simp only [List.length_append, List.length_cons, List.length_nil, List.append_assoc, List.cons_append, List.nil_append, Nat.zero_add] at this
        rw [this]
        simp

/-- A reversed list has its elements in the opposite order. -/
theorem reverse_ok (l : List A) : reverse l = some l.reverse := by
  have := reverseLoop_ok (l.length + 1) l [] [] (by omega)
  simpa [reverse] using this

/-! ## Examples -/

example : shuffle (fun i => [2, 0, 1, 3].getD i 0) ["a", "b", "c", "d"] = some ["b", "a", "c", "d"] := by decide +kernel

example : reverse [1, 2, 3, 4, 5] = some [5, 4, 3, 2, 1] := by decide +kernel

/-- A number out of range would be an exception. -/
example : shuffle (fun _ => 3) [1, 2, 3] = none := by decide +kernel

end Avian.Shuffle
