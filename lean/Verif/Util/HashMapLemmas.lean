import Verif.Util.HashMap
import Verif.Props.Math

/-
Helper lemmas about the hash table model: how each operation changes the multiset of live
entries.
-/
namespace Avian.HashMap
open Avian.Math

variable {K V : Type}

/-- All entries physically in the table. -/
def contents (s : St K V) : List (K × V) := (s.map.array.getD []).flatten

/-- Whether an entry is visible: strong table, or the key was not collected. -/
def alive (c : Cfg K) (dead : K → Bool) (e : K × V) : Bool := !(c.weak && dead e.1)

/-- The visible entries. -/
def live (c : Cfg K) (s : St K V) : List (K × V) := (contents s).filter (alive c s.dead)

/-- Every entry is in the chain chosen by its hash. -/
def Placed (c : Cfg K) (a : List (List (K × V))) : Prop :=
  ∀ i (h : i < a.length), ∀ e ∈ a[i], index (c.hash e.1) a.length = i

/-- The array is well formed and not longer than `b`. -/
def WF (c : Cfg K) (b : Nat) (s : St K V) : Prop :=
  ∀ a, s.map.array = some a → 0 < a.length ∧ a.length ≤ b ∧ Placed c a

theorem index_lt (h : U32) {n : Nat} (h0 : 0 < n) (h1 : n ≤ 2 ^ 32) : index h n < n := by
  unfold index
  have : (h &&& (BitVec.ofNat 32 n - 1#32)).toNat ≤ (BitVec.ofNat 32 n - 1#32).toNat := by
    rw [BitVec.toNat_and]; exact Nat.and_le_right
  have h2 : (BitVec.ofNat 32 n - 1#32).toNat = n - 1 := by
    rw [BitVec.toNat_sub]
    simp only [BitVec.toNat_ofNat]
    omega
  omega

theorem flatten_modify_perm (a : List (List (K × V))) (e : K × V) :
    ∀ i, i < a.length → (a.modify i (e :: ·)).flatten.Perm (e :: a.flatten) := by
  induction a with
  | nil => intro i h; simp at h
  | cons ch t ih =>
    intro i h
    cases i with
    | zero => simp
    | succ i =>
      simp only [List.modify_succ_cons, List.flatten_cons]
      have := ih i (by simpa using h)
      exact ((List.perm_append_left_iff ch).mpr this).trans List.perm_middle

theorem push_length (c : Cfg K) (a : List (List (K × V))) (e : K × V) :
    (push c a e).length = a.length := by simp [push]

theorem push_perm (c : Cfg K) (a : List (List (K × V))) (e : K × V)
    (h0 : 0 < a.length) (h1 : a.length ≤ 2 ^ 32) :
    (push c a e).flatten.Perm (e :: a.flatten) :=
  flatten_modify_perm a e _ (index_lt _ h0 h1)

theorem push_placed (c : Cfg K) (a : List (List (K × V))) (e : K × V)
    (h : Placed c a) : Placed c (push c a e) := by
  intro i hi e' he'
  rw [push_length] at hi
  simp only [push, List.length_modify]
  simp only [push, List.getElem_modify] at he'
  split at he'
  · next heq =>
    rcases List.mem_cons.mp he' with rfl | h'
    · exact heq
    · exact h i hi e' h'
  · exact h i hi e' he'

theorem relinkChain_spec (c : Cfg K) (dead : K → Bool) (ch : List (K × V)) :
    ∀ (new : List (List (K × V))), 0 < new.length → new.length ≤ 2 ^ 32 → Placed c new →
    (relinkChain c dead ch new).length = new.length ∧ Placed c (relinkChain c dead ch new) ∧
    (relinkChain c dead ch new).flatten.Perm (ch.filter (alive c dead) ++ new.flatten) := by
  induction ch with
  | nil => intro new h0 h1 hp; simp [relinkChain, hp]
  | cons e t ih =>
    intro new h0 h1 hp
    unfold relinkChain
    split
    · next hd =>
      have : alive c dead e = false := by simp only [alive, hd]; rfl
      simpa [List.filter_cons, this] using ih new h0 h1 hp
    · next hd =>
      have hal : alive c dead e = true := by
        simp only [alive, Bool.not_eq_true', Bool.eq_false_iff]; exact hd
      obtain ⟨i1, i2, i3⟩ := ih (push c new e) (by simpa [push_length] using h0)
        (by simpa [push_length] using h1) (push_placed c new e hp)
      refine ⟨by rw [i1, push_length], i2, ?_⟩
      rw [List.filter_cons, if_pos hal]
      refine i3.trans ?_
      refine ((List.perm_append_left_iff _).mpr (push_perm c new e h0 h1)).trans ?_
      exact List.perm_middle

theorem relink_spec (c : Cfg K) (dead : K → Bool) (a : List (List (K × V))) :
    ∀ (new : List (List (K × V))), 0 < new.length → new.length ≤ 2 ^ 32 → Placed c new →
    (relink c dead a new).length = new.length ∧ Placed c (relink c dead a new) ∧
    (relink c dead a new).flatten.Perm (a.flatten.filter (alive c dead) ++ new.flatten) := by
  induction a with
  | nil => intro new h0 h1 hp; simp [relink, hp]
  | cons ch t ih =>
    intro new h0 h1 hp
    obtain ⟨r1, r2, r3⟩ := relinkChain_spec c dead ch new h0 h1 hp
    obtain ⟨i1, i2, i3⟩ := ih (relinkChain c dead ch new) (by omega) (by omega) r2
    refine ⟨by rw [relink, i1, r1], by simpa [relink] using i2, ?_⟩
    simp only [relink, List.flatten_cons, List.filter_append]
    refine i3.trans ?_
    refine ((List.perm_append_left_iff _).mpr r3).trans ?_
    rw [← List.append_assoc]
    exact (List.perm_append_right_iff _).mpr List.perm_append_comm

theorem flatten_replicate_nil (n : Nat) : (List.replicate n ([] : List (K × V))).flatten = [] := by
  induction n with
  | zero => rfl
  | succ n ih => simp [List.replicate_succ, ih]

theorem placed_replicate (c : Cfg K) (n : Nat) :
    Placed c (List.replicate n ([] : List (K × V))) := by
  intro i h e he
  simp at he

theorem filter_filter_alive (c : Cfg K) (dead : K → Bool) (l : List (K × V)) :
    (l.filter (alive c dead)).filter (alive c dead) = l.filter (alive c dead) := by
  simp [List.filter_filter]

/-! ### Splitting the array at one chain -/

theorem set_split (a : List (List (K × V))) (i : Nat) (h : i < a.length) (ch : List (K × V)) :
    ∃ rest, a.flatten.Perm (a.getD i [] ++ rest) ∧ (a.set i ch).flatten.Perm (ch ++ rest) ∧
      ∀ e ∈ rest, ∃ j, ∃ hj : j < a.length, j ≠ i ∧ e ∈ a[j] := by
  induction a generalizing i with
  | nil => simp at h
  | cons c0 t ih =>
    cases i with
    | zero =>
      refine ⟨t.flatten, by simp, by simp, ?_⟩
      intro e he
      obtain ⟨l, hl, hel⟩ := List.mem_flatten.mp he
      obtain ⟨j, hj, rfl⟩ := List.mem_iff_getElem.mp hl
      exact ⟨j + 1, by simpa using hj, by simp, by simpa using hel⟩
    | succ i =>
      obtain ⟨rest, h1, h2, h3⟩ := ih i (by simpa using h)
      refine ⟨c0 ++ rest, ?_, ?_, ?_⟩
      · simp only [List.flatten_cons, List.getD_cons_succ]
        refine ((List.perm_append_left_iff _).mpr h1).trans ?_
        rw [← List.append_assoc, ← List.append_assoc]
        exact (List.perm_append_right_iff _).mpr List.perm_append_comm
      · simp only [List.flatten_cons, List.set_cons_succ]
        refine ((List.perm_append_left_iff _).mpr h2).trans ?_
        rw [← List.append_assoc, ← List.append_assoc]
        exact (List.perm_append_right_iff _).mpr List.perm_append_comm
      · intro e he
        rcases List.mem_append.mp he with h' | h'
        · exact ⟨0, by simp, by simp, by simpa using h'⟩
        · obtain ⟨j, hj, hne, hm⟩ := h3 e h'
          exact ⟨j + 1, by simpa using hj, by omega, by simpa using hm⟩

/-! ### Chains -/

/-- What the chain search returns. -/
theorem findChain_spec (c : Cfg K) (dead : K → Bool) (eq : K → K → Bool) (key : K)
    (ch : List (K × V)) :
    (findChain c dead eq key ch = none ∧
      ∀ e ∈ ch.filter (alive c dead), eq key e.1 = false) ∨
    (∃ e ∈ ch.filter (alive c dead), findChain c dead eq key ch = some e ∧ eq key e.1 = true) := by
  induction ch with
  | nil => simp [findChain]
  | cons e t ih =>
    unfold findChain
    split
    · next hd =>
      have : alive c dead e = false := by simp only [alive, hd]; rfl
      simpa [List.filter_cons, this] using ih
    · next hd =>
      have hal : alive c dead e = true := by
        simp only [alive, Bool.not_eq_true', Bool.eq_false_iff]; exact hd
      rw [List.filter_cons, if_pos hal]
      split
      · next he => exact Or.inr ⟨e, by simp, rfl, he⟩
      · next he =>
        rcases ih with ⟨h1, h2⟩ | ⟨e', h1, h2, h3⟩
        · refine Or.inl ⟨h1, ?_⟩
          intro e' he'
          rcases List.mem_cons.mp he' with rfl | h'
          · simpa using he
          · exact h2 e' h'
        · exact Or.inr ⟨e', List.mem_cons_of_mem _ h1, h2, h3⟩

/-- What the chain removal does. -/
theorem removeChain_spec (c : Cfg K) (dead : K → Bool) (eq : K → K → Bool) (key : K)
    (ch : List (K × V)) :
    (removeChain c dead eq key ch).1.length + (removeChain c dead eq key ch).2.1 = ch.length ∧
    (∀ e ∈ (removeChain c dead eq key ch).1, e ∈ ch) ∧
    (c.weak = false → (removeChain c dead eq key ch).2.1 =
      if (removeChain c dead eq key ch).2.2.isSome then 1 else 0) ∧
    (((removeChain c dead eq key ch).2.2 = none ∧
      (removeChain c dead eq key ch).1.filter (alive c dead) = ch.filter (alive c dead) ∧
      ∀ e ∈ ch.filter (alive c dead), eq key e.1 = false) ∨
    (∃ k v, (removeChain c dead eq key ch).2.2 = some v ∧ eq key k = true ∧
      (ch.filter (alive c dead)).Perm
        ((k, v) :: (removeChain c dead eq key ch).1.filter (alive c dead)))) := by
  induction ch with
  | nil => simp [removeChain]
  | cons e t ih =>
    unfold removeChain
    obtain ⟨i1, i2, i3, i4⟩ := ih
    split
    · next hd =>
      have : alive c dead e = false := by simp only [alive, hd]; rfl
      refine ⟨by simp; omega, fun e' he' => List.mem_cons_of_mem _ (i2 e' he'), ?_, ?_⟩
      · intro hw; simp [hw] at hd
      · simpa [List.filter_cons, this] using i4
    · next hd =>
      have hal : alive c dead e = true := by
        simp only [alive, Bool.not_eq_true', Bool.eq_false_iff]; exact hd
      split
      · next he =>
        refine ⟨by simp, fun e' he' => List.mem_cons_of_mem _ he', by simp, Or.inr ?_⟩
        exact ⟨e.1, e.2, rfl, he, by simp [hal]⟩
      · next he =>
        refine ⟨by simp; omega, ?_, i3, ?_⟩
        · intro e' he'
          rcases List.mem_cons.mp he' with rfl | h'
          · simp
          · exact List.mem_cons_of_mem _ (i2 e' h')
        · rcases i4 with ⟨h1, h2, h3⟩ | ⟨k, v, h1, h2, h3⟩
          · refine Or.inl ⟨h1, by simp [hal, h2], ?_⟩
            intro e' he'
            rw [List.filter_cons, if_pos hal] at he'
            rcases List.mem_cons.mp he' with rfl | h'
            · simpa using he
            · exact h3 e' h'
          · refine Or.inr ⟨k, v, h1, h2, ?_⟩
            simp only [List.filter_cons, hal, if_true]
            exact (h3.cons e).trans (List.Perm.swap _ _ _)

/-- What overwriting a node does. -/
theorem setChain_spec (c : Cfg K) (dead : K → Bool) (eq : K → K → Bool) (key : K) (value : V)
    (ch : List (K × V)) :
    (setChain c dead eq key value ch).length = ch.length ∧
    (∀ e ∈ setChain c dead eq key value ch, ∃ e' ∈ ch, e'.1 = e.1) ∧
    (∀ e, findChain c dead eq key ch = some e → ∃ rest,
      (ch.filter (alive c dead)).Perm (e :: rest) ∧
      ((setChain c dead eq key value ch).filter (alive c dead)).Perm ((e.1, value) :: rest)) := by
  induction ch with
  | nil => simp [setChain, findChain]
  | cons e t ih =>
    unfold setChain findChain
    obtain ⟨i1, i2, i3⟩ := ih
    split
    · next hd =>
      have : alive c dead e = false := by simp only [alive, hd]; rfl
      refine ⟨by simp [i1], ?_, by simpa [List.filter_cons, this] using i3⟩
      intro e' he'
      rcases List.mem_cons.mp he' with rfl | h'
      · exact ⟨e', by simp, rfl⟩
      · obtain ⟨x, hx, hxe⟩ := i2 e' h'
        exact ⟨x, by simp [hx], hxe⟩
    · next hd =>
      have hal : alive c dead e = true := by
        simp only [alive, Bool.not_eq_true', Bool.eq_false_iff]; exact hd
      split
      · next he =>
        refine ⟨by simp, ?_, ?_⟩
        · intro e' he'
          rcases List.mem_cons.mp he' with rfl | h'
          · exact ⟨e, by simp, rfl⟩
          · exact ⟨e', by simp [h'], rfl⟩
        · intro e' he'
          cases he'
          refine ⟨t.filter (alive c dead), by simp [hal], ?_⟩
          have : alive c dead (e.1, value) = true := hal
          simp [this]
      · next he =>
        refine ⟨by simp [i1], ?_, ?_⟩
        · intro e' he'
          rcases List.mem_cons.mp he' with rfl | h'
          · exact ⟨e', by simp, rfl⟩
          · obtain ⟨x, hx, hxe⟩ := i2 e' h'
            exact ⟨x, by simp [hx], hxe⟩
        · intro e' he'
          obtain ⟨rest, h1, h2⟩ := i3 e' he'
          refine ⟨e :: rest, ?_, ?_⟩
          · simp only [List.filter_cons, hal, if_true]
            exact (h1.cons e).trans (List.Perm.swap _ _ _)
          · simp only [List.filter_cons, hal, if_true]
            exact (h2.cons e).trans (List.Perm.swap _ _ _)

theorem set_placed (c : Cfg K) (a : List (List (K × V))) (i : Nat) (ch : List (K × V))
    (h : Placed c a) (hi : i < a.length) (hch : ∀ e ∈ ch, ∃ e' ∈ a.getD i [], e'.1 = e.1) :
    Placed c (a.set i ch) := by
  intro j hj e he
  rw [List.length_set] at hj ⊢
  rw [List.getElem_set] at he
  split at he
  · next hij =>
    subst hij
    obtain ⟨e', he', hk⟩ := hch e he
    rw [← hk]
    rw [List.getD_eq_getElem?_getD, List.getElem?_eq_getElem hi] at he'
    exact h i hi e' he'
  · exact h j hj e he

end Avian.HashMap
