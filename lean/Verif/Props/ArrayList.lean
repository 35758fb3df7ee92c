import Verif.Lib.ArrayList

/-
C69: array lists.
-/
namespace Avian.ArrayList

variable {V : Type}

/-! ### The specification: a list of elements -/

inductive Op (V : Type) where
  | add (v : Option V)
  | addAt (index : Int) (v : Option V)
  | addAll (vs : List (Option V))
  | addAllAt (index : Int) (vs : List (Option V))
  | get (index : Int)
  | set (index : Int) (v : Option V)
  | removeAt (index : Int)
  | remove (test : Option V → Bool)
  | contains (test : Option V → Bool)
  | indexOf (test : Option V → Bool)
  | lastIndexOf (test : Option V → Bool)
  | size
  | clear
  | ensureCapacity (capacity : Int)

inductive Res (V : Type) where
  | unit
  | elem (v : Option V)
  | bool (b : Bool)
  | int (i : Int)
  | exn (e : Exn)
  deriving DecidableEq

/-- The place of the first element that passes the test, or -1. -/
def firstIndex (es : List (Option V)) (test : Option V → Bool) : Int :=
  match es.findIdx? test with
  | none => -1
  | some i => i

/-- The place of the last element that passes the test, or -1. -/
def lastIndex (es : List (Option V)) (test : Option V → Bool) : Int :=
  match es.reverse.findIdx? test with
  | none => -1
  | some i => es.length - 1 - i

/-- The index denotes an element. -/
def Has (es : List (Option V)) (i : Int) : Prop := 0 ≤ i ∧ i < es.length

instance (es : List (Option V)) (i : Int) : Decidable (Has es i) := by unfold Has; infer_instance

/-- What the operations do. -/
def spec (es : List (Option V)) : Op V → Res V × List (Option V)
  | .add v => (.unit, es ++ [v])
  | .addAt i v => (.unit, es.take i.toNat ++ v :: es.drop i.toNat)
  | .addAll vs => (.unit, es ++ vs)
  | .addAllAt i vs => (.bool !vs.isEmpty, es.take i.toNat ++ vs ++ es.drop i.toNat)
  | .get i => (if Has es i then .elem (es[i.toNat]?.join) else .exn .indexOutOfBounds, es)
  | .set i v => if Has es i then (.elem (es[i.toNat]?.join), es.set i.toNat v) else (.exn .indexOutOfBounds, es)
  | .removeAt i => if Has es i then (.elem (es[i.toNat]?.join), es.eraseIdx i.toNat) else (.exn .indexOutOfBounds, es)
  | .remove test => (.bool (es.any test), es.eraseP test)
  | .contains test => (.bool (es.any test), es)
  | .indexOf test => (.int (firstIndex es test), es)
  | .lastIndexOf test => (.int (lastIndex es test), es)
  | .size => (.int es.length, es)
  | .clear => (.unit, [])
  | .ensureCapacity _ => (.unit, es)

/-- The result of a method that has no effect. -/
def pureRes {A : Type} (l : Lst V) (f : A → Res V) : Except Exn A → Res V × Lst V
  | .ok a => (f a, l)
  | .error e => (.exn e, l)

/-- The result of a method that has no effect if it throws. -/
def stateRes {A : Type} (l : Lst V) (f : A → Res V) : Except Exn (A × Lst V) → Res V × Lst V
  | .ok (a, l') => (f a, l')
  | .error e => (.exn e, l)

/-- The result of a method whose effect stays if it throws. -/
def bothRes {A : Type} (f : A → Res V) : Except Exn A × Lst V → Res V × Lst V
  | (.ok a, l) => (f a, l)
  | (.error e, l) => (.exn e, l)

/-- What the code does. -/
def exec (l : Lst V) : Op V → Res V × Lst V
  | .add v => bothRes (fun _ => .unit) (add l v)
  | .addAt i v => bothRes (fun _ => .unit) (addAt l i v)
  | .addAll vs => bothRes (fun _ => .unit) (addAll l vs)
  | .addAllAt i vs => bothRes .bool (addAllAt l i vs)
  | .get i => pureRes l .elem (get l i)
  | .set i v => stateRes l .elem (set l i v)
  | .removeAt i => stateRes l .elem (removeAt l i)
  | .remove test => stateRes l .bool (remove l test)
  | .contains test => pureRes l .bool (contains l test)
  | .indexOf test => pureRes l .int (indexOf l test)
  | .lastIndexOf test => pureRes l .int (lastIndexOf l test)
  | .size => (.int l.size, l)
  | .clear => (.unit, clear l)
  | .ensureCapacity c => stateRes l (fun _ => .unit) ((grow l c).bind fun l => .ok ((), l))

/-! ### The invariant -/

/-- The list has the elements `es`: they are at the front of the array. -/
def Rep (l : Lst V) (es : List (Option V)) : Prop :=
  l.size = es.length ∧
  match l.array with
  | none => es = []
  | some a => ∃ rest, a = es ++ rest

theorem rep_none {es : List (Option V)} {n : Int} : Rep (⟨none, n⟩ : Lst V) es ↔ n = es.length ∧ es = [] := Iff.rfl

theorem rep_some {es a : List (Option V)} {n : Int} : Rep (⟨some a, n⟩ : Lst V) es ↔ n = es.length ∧ ∃ rest, a = es ++ rest :=
  Iff.rfl

/-- Copying between two arrays, for lengths that are not negative. -/
theorem copy_ok {A : Type} (src dst : List A) (s d n : Nat) (h1 : s + n ≤ src.length) (h2 : d + n ≤ dst.length) :
    copy src dst s d n = .ok (dst.take d ++ (src.drop s).take n ++ dst.drop (d + n)) := by
  unfold copy
  by_cases hn : n = 0
  · subst hn
    rw [if_neg (by omega), if_neg (by omega)]
    simp
  · rw [if_pos (by omega), if_pos (by omega)]
    simp only [Int.toNat_natCast]
    congr 2

theorem newArray_ok (n : Nat) : newArray (V := V) n = .ok (List.replicate n none) := by
  unfold newArray
  rw [if_neg (by omega)]
  simp

/-- Resizing to a capacity that holds the elements. -/
theorem resize_ok {l : Lst V} {es : List (Option V)} (h : Rep l es) (n : Nat) (hn : es.length ≤ n) (hn0 : n ≠ 0) :
    ∃ rest, (es ++ rest).length = n ∧ resize l n = .ok ⟨some (es ++ rest), es.length⟩ := by
  obtain ⟨arr, size⟩ := l
  unfold resize
  rw [if_pos (by omega)]
  cases arr with
  | none =>
    obtain ⟨h1, rfl⟩ := rep_none.1 h
    subst h1
    refine ⟨List.replicate n none, by simp, ?_⟩
    simp [newArray_ok, Except.bind]
  | some a =>
    obtain ⟨h1, rest, rfl⟩ := rep_some.1 h
    subst h1
    simp only
    split
    · rename_i e
      exact ⟨rest, by omega, rfl⟩
    · refine ⟨List.replicate (n - es.length) none, by simp; omega, ?_⟩
      rw [newArray_ok]
      simp only [Except.bind]
      have := copy_ok (es ++ rest) (List.replicate n none) 0 0 es.length (by simp) (by simpa using hn)
      simp only [Int.natCast_zero] at this
      rw [this]
      simp [List.drop_replicate]

/-- Growing to at least `newSize` places. -/
theorem grow_ok {l : Lst V} {es : List (Option V)} (h : Rep l es) (newSize : Int) (hs : es.length ≤ newSize) :
    ∃ rest, newSize ≤ (es ++ rest).length ∧ grow l newSize = .ok ⟨some (es ++ rest), es.length⟩ := by
  unfold grow
  split
  · obtain ⟨rest, h1, h2⟩ := resize_ok h (max newSize 16).toNat (by omega) (by omega)
    rw [show (((max newSize 16).toNat : Nat) : Int) = max newSize 16 by omega] at h2
    exact ⟨rest, by omega, h2⟩
  · rename_i a ha
    split
    · obtain ⟨rest, h1, h2⟩ := resize_ok h (max newSize (wrap (a.length * 2))).toNat (by omega) (by omega)
      rw [show (((max newSize (wrap (a.length * 2))).toNat : Nat) : Int) = max newSize (wrap (a.length * 2)) by omega]
        at h2
      exact ⟨rest, by omega, h2⟩
    · obtain ⟨h1, h2⟩ := h
      rw [ha] at h2
      obtain ⟨rest, rfl⟩ := h2
      refine ⟨rest, by omega, ?_⟩
      obtain ⟨arr, size⟩ := l
      simp only at ha h1
      subst ha; subst h1
      rfl

/-- `ensureCapacity` with any argument. -/
theorem ensure_ok {l : Lst V} {es : List (Option V)} (h : Rep l es) (c : Int) :
    ∃ l', grow l c = .ok l' ∧ Rep l' es := by
  by_cases hc : es.length ≤ c
  · obtain ⟨rest, _, h2⟩ := grow_ok h c hc
    exact ⟨_, h2, rep_some.2 ⟨rfl, rest, rfl⟩⟩
  · unfold grow
    split
    · rename_i ha
      obtain ⟨rest, h1, h2⟩ := resize_ok h (max c 16).toNat
        (by
          obtain ⟨_, h2⟩ := h
          rw [ha] at h2
          subst h2; simp) (by omega)
      rw [show (((max c 16).toNat : Nat) : Int) = max c 16 by omega] at h2
      exact ⟨_, h2, rep_some.2 ⟨rfl, rest, rfl⟩⟩
    · rename_i a ha
      have : a.length ≥ es.length := by
        obtain ⟨_, h2⟩ := h
        rw [ha] at h2
        obtain ⟨rest, rfl⟩ := h2
        simp
      rw [if_neg (by omega)]
      exact ⟨l, rfl, h⟩

theorem shrink_ok {a es : List (Option V)} {rest : List (Option V)} (ha : a = es ++ rest) (h : es ≠ []) :
    ∃ rest', shrink ⟨some a, es.length⟩ (es.length - 1) = .ok ⟨some (es ++ rest'), es.length⟩ := by
  unfold shrink
  simp only
  split
  · rename_i hc
    have hr : Rep (⟨some a, es.length⟩ : Lst V) es := rep_some.2 ⟨rfl, rest, ha⟩
    obtain ⟨rest', _, h2⟩ := resize_ok hr (a.length / 2) (by omega) (by omega)
    exact ⟨rest', h2⟩
  · subst ha
    exact ⟨rest, rfl⟩

theorem store_ok (a : List (Option V)) (i : Nat) (h : i < a.length) (v : Option V) : store a i v = .ok (a.set i v) := by
  unfold store
  rw [if_pos (by omega)]
  simp

theorem load_ok (es rest : List (Option V)) (i : Nat) (h : i < es.length) :
    load (es ++ rest) i = .ok es[i] := by
  unfold load
  rw [if_pos (by omega)]
  simp only [Int.toNat_natCast, List.getElem?_append_left h, List.getElem?_eq_getElem h]

theorem addAt_ok {l : Lst V} {es : List (Option V)} (h : Rep l es) (i : Nat) (hi : i ≤ es.length) (v : Option V) :
    ∃ l', addAt l i v = (.ok (), l') ∧ Rep l' (es.take i ++ v :: es.drop i) := by
  unfold addAt
  rw [h.1, show max ((es.length : Int) + 1) (i + 1) = es.length + 1 by omega]
  obtain ⟨rest, h1, h2⟩ := grow_ok h (es.length + 1) (by omega)
  rw [h2]
  simp only
  have hrest : 0 < rest.length := by simp at h1; omega
  have hc := copy_ok (es ++ rest) (es ++ rest) i (i + 1) (es.length - i) (by simp; omega) (by simp; omega)
  rw [show ((es.length : Int) + 1 - i - 1) = ((es.length - i : Nat) : Int) by omega,
    show ((i : Int) + 1) = ((i + 1 : Nat) : Int) by omega, hc]
  simp only
  obtain ⟨r0, rest, rfl⟩ : ∃ x y, rest = x :: y := by
    cases rest with
    | nil => simp at hrest
    | cons x y => exact ⟨x, y, rfl⟩
  rw [store_ok _ _ (by simp; omega)]
  refine ⟨_, rfl, rep_some.2 ⟨by simp; omega, rest, ?_⟩⟩
  have e1 : (es ++ r0 :: rest).take (i + 1) = es.take i ++ [(es ++ r0 :: rest)[i]'(by simp; omega)] := by
    rw [List.take_succ, List.take_append_of_le_length hi, List.getElem?_eq_getElem (by simp; omega)]
    rfl
  have e2 : ((es ++ r0 :: rest).drop i).take (es.length - i) = es.drop i := by
    rw [List.drop_append_of_le_length hi, List.take_append_of_le_length (by simp)]
    rw [List.take_of_length_le (by simp)]
  have e3 : (es ++ r0 :: rest).drop (i + 1 + (es.length - i)) = rest := by
    rw [show i + 1 + (es.length - i) = es.length + 1 by omega, List.drop_append, List.drop_eq_nil_of_le (by omega)]
    simp
  rw [e1, e2, e3]
  simp only [List.append_assoc, List.cons_append, List.nil_append]
  rw [List.set_append_right (h := by simp; omega)]
  simp [Nat.min_eq_left hi]

theorem addAll_ok : ∀ (vs : List (Option V)) {l : Lst V} {es : List (Option V)}, Rep l es →
    ∃ l', addAll l vs = (.ok (), l') ∧ Rep l' (es ++ vs)
  | [], l, es, h => ⟨l, rfl, by simpa using h⟩
  | v :: vs, l, es, h => by
    obtain ⟨l1, h1, h2⟩ := addAt_ok h es.length (Nat.le_refl _) v
    obtain ⟨l2, h3, h4⟩ := addAll_ok vs (l := l1) (es := es ++ [v]) (by simpa using h2)
    refine ⟨l2, ?_, by simpa using h4⟩
    unfold addAll add
    rw [h.1, h1]
    exact h3

theorem addAllAt_ok : ∀ (vs : List (Option V)) {l : Lst V} {es : List (Option V)} (i : Nat), Rep l es → i ≤ es.length →
    ∃ l', addAllAt l i vs = (.ok (!vs.isEmpty), l') ∧ Rep l' (es.take i ++ vs ++ es.drop i)
  | [], l, es, i, h, _ => ⟨l, rfl, by simpa using h⟩
  | v :: vs, l, es, i, h, hi => by
    obtain ⟨l1, h1, h2⟩ := addAt_ok h i hi v
    obtain ⟨l2, h3, h4⟩ := addAllAt_ok vs (l := l1) (i + 1) h2 (by simp; omega)
    refine ⟨l2, ?_, ?_⟩
    · unfold addAllAt
      rw [h1]
      simp only
      rw [show ((i : Int) + 1) = ((i + 1 : Nat) : Int) by omega, h3]
      simp
    · have hl : (es.take i).length = i := by simp [Nat.min_eq_left hi]
      have e1 : (es.take i ++ v :: es.drop i).take (i + 1) = es.take i ++ [v] := by
        rw [List.take_append, hl, List.take_of_length_le (by omega)]; simp
      have e2 : (es.take i ++ v :: es.drop i).drop (i + 1) = es.drop i := by
        rw [List.drop_append, hl, List.drop_eq_nil_of_le (by omega)]; simp
      rw [e1, e2] at h4
      simpa using h4

theorem get_ok {l : Lst V} {es : List (Option V)} (h : Rep l es) (i : Nat) (hi : i < es.length) :
    get l i = .ok es[i] := by
  obtain ⟨arr, size⟩ := l
  unfold get
  rw [if_pos (by have := h.1; omega)]
  cases arr with
  | none => obtain ⟨_, rfl⟩ := rep_none.1 h; simp at hi
  | some a =>
    obtain ⟨_, rest, rfl⟩ := rep_some.1 h
    exact load_ok es rest i hi

theorem get_out {l : Lst V} {es : List (Option V)} (h : Rep l es) (i : Int) (hi : ¬ Has es i) :
    get l i = .error .indexOutOfBounds := by
  unfold get
  rw [if_neg]
  unfold Has at hi
  rw [h.1]; omega

theorem indexFrom_ok {l : Lst V} {es : List (Option V)} (h : Rep l es) (test : Option V → Bool) :
    ∀ (n k : Nat), n + k = es.length →
      indexFrom l test n k = .ok (match (es.drop k).findIdx? test with
        | none => -1
        | some j => (k + j : Nat)) := by
  intro n
  induction n with
  | zero =>
    intro k hk
    rw [List.drop_eq_nil_of_le (by omega)]
    rfl
  | succ n ih =>
    intro k hk
    have hlt : k < es.length := by omega
    obtain ⟨arr, size⟩ := l
    unfold indexFrom
    have hsz : size = es.length := h.1
    simp only
    rw [if_pos (by omega)]
    cases arr with
    | none => obtain ⟨_, rfl⟩ := rep_none.1 h; simp at hlt
    | some a =>
      obtain ⟨_, rest, rfl⟩ := rep_some.1 h
      simp only
      rw [load_ok es rest k hlt]
      simp only [Except.bind]
      rw [List.drop_eq_getElem_cons hlt, List.findIdx?_cons]
      cases ht : test es[k] with
      | true => simp
      | false =>
        simp only [Bool.false_eq_true, if_false]
        rw [show ((k : Int) + 1) = ((k + 1 : Nat) : Int) by omega, ih (k + 1) (by omega)]
        cases (es.drop (k + 1)).findIdx? test with
        | none => rfl
        | some j => simp; omega

theorem indexOf_ok {l : Lst V} {es : List (Option V)} (h : Rep l es) (test : Option V → Bool) :
    indexOf l test = .ok (firstIndex es test) := by
  unfold indexOf
  have := indexFrom_ok h test es.length 0 (by omega)
  rw [h.1]
  simp only [Int.toNat_natCast, Int.natCast_zero, List.drop_zero, Nat.zero_add] at this ⊢
  rw [this]
  rfl

theorem lastIndexFrom_ok {l : Lst V} {es : List (Option V)} (h : Rep l es) (test : Option V → Bool) :
    ∀ (n : Nat), n ≤ es.length → lastIndexFrom l test n = .ok (lastIndex (es.take n) test) := by
  intro n
  induction n with
  | zero => intro _; simp [lastIndexFrom, lastIndex]
  | succ n ih =>
    intro hn
    obtain ⟨arr, size⟩ := l
    unfold lastIndexFrom
    cases arr with
    | none => obtain ⟨_, rfl⟩ := rep_none.1 h; simp at hn
    | some a =>
      obtain ⟨_, rest, rfl⟩ := rep_some.1 h
      simp only
      rw [load_ok es rest n (by omega)]
      simp only [Except.bind]
      have e : es.take (n + 1) = es.take n ++ [es[n]] := by
        rw [List.take_succ, List.getElem?_eq_getElem (by omega)]; rfl
      unfold lastIndex
      rw [e, List.reverse_append, List.reverse_singleton, List.singleton_append, List.findIdx?_cons]
      cases ht : test es[n] with
      | true => simp; omega
      | false =>
        simp only [Bool.false_eq_true, if_false]
        rw [ih (by omega)]
        unfold lastIndex
        cases (es.take n).reverse.findIdx? test with
        | none => rfl
        | some j => simp; omega

theorem lastIndexOf_ok {l : Lst V} {es : List (Option V)} (h : Rep l es) (test : Option V → Bool) :
    lastIndexOf l test = .ok (lastIndex es test) := by
  unfold lastIndexOf
  rw [h.1, Int.toNat_natCast, lastIndexFrom_ok h test es.length (Nat.le_refl _), List.take_of_length_le (Nat.le_refl _)]

theorem set_ok {l : Lst V} {es : List (Option V)} (h : Rep l es) (i : Nat) (hi : i < es.length) (v : Option V) :
    ∃ l', set l i v = .ok (es[i], l') ∧ Rep l' (es.set i v) := by
  obtain ⟨arr, size⟩ := l
  unfold set
  rw [if_pos (by have := h.1; omega)]
  cases arr with
  | none => obtain ⟨_, rfl⟩ := rep_none.1 h; simp at hi
  | some a =>
    obtain ⟨h1, rest, rfl⟩ := rep_some.1 h
    simp only
    rw [load_ok es rest i hi, Except.bind, store_ok _ _ (by simp; omega)]
    refine ⟨_, rfl, rep_some.2 ⟨by simp [h1], rest, ?_⟩⟩
    rw [List.set_append_left _ _ hi]

theorem removeAt_ok {l : Lst V} {es : List (Option V)} (h : Rep l es) (i : Nat) (hi : i < es.length) :
    ∃ l', removeAt l i = .ok (es[i], l') ∧ Rep l' (es.eraseIdx i) := by
  unfold removeAt
  rw [get_ok h i hi]
  simp only [Except.bind]
  obtain ⟨arr, size⟩ := l
  cases arr with
  | none => obtain ⟨_, rfl⟩ := rep_none.1 h; simp at hi
  | some a =>
    obtain ⟨h1, rest, rfl⟩ := rep_some.1 h
    subst h1
    simp only
    obtain ⟨p, y, q, rfl, rfl⟩ : ∃ p y q, es = p ++ y :: q ∧ i = p.length :=
      ⟨es.take i, es[i], es.drop (i + 1), by simp, by simp; omega⟩
    have herase : (p ++ y :: q).eraseIdx p.length = p ++ q := by
      rw [List.eraseIdx_append_of_length_le (Nat.le_refl _)]; simp
    rw [herase]
    -- the array after the move
    have hmove : ∃ (w : List (Option V)) (x : Option V),
        (if (p.length : Int) = (p ++ y :: q).length - 1 then store (p ++ y :: q ++ rest) p.length none
          else copy (p ++ y :: q ++ rest) (p ++ y :: q ++ rest) (p.length + 1) p.length
            ((p ++ y :: q).length - 1 - p.length)) =
          .ok (p ++ q ++ x :: w) := by
      split
      · have hq : q = [] := by
          apply List.length_eq_zero_iff.1
          rename_i e; simp at e; omega
        subst hq
        refine ⟨rest, none, ?_⟩
        rw [store_ok _ _ (by simp), List.append_assoc, List.set_append_right _ _ (Nat.le_refl _)]
        simp
      · have hc := copy_ok (p ++ y :: q ++ rest) (p ++ y :: q ++ rest) (p.length + 1) p.length q.length
          (by simp; omega) (by simp; omega)
        rw [show ((p ++ y :: q).length : Int) - 1 - p.length = (q.length : Int) by simp; omega,
          show ((p.length : Int) + 1) = ((p.length + 1 : Nat) : Int) by omega, hc]
        obtain ⟨z, hz⟩ : ∃ z, (y :: q).drop q.length = [z] := by
          apply List.length_eq_one_iff.1
          simp
        refine ⟨rest, z, ?_⟩
        congr 1
        have e1 : (p ++ y :: q ++ rest).take p.length = p := by simp
        have e2 : ((p ++ y :: q ++ rest).drop (p.length + 1)).take q.length = q := by
          rw [List.append_assoc, List.drop_append, List.drop_eq_nil_of_le (by omega)]
          simp
        have e3 : (p ++ y :: q ++ rest).drop (p.length + q.length) = z :: rest := by
          rw [List.append_assoc, ← List.drop_drop, List.drop_left, List.drop_append_of_le_length (by simp), hz]
          rfl
        rw [e1, e2, e3]
    obtain ⟨w, x, hm⟩ := hmove
    rw [hm]
    simp only
    have hlen : (p ++ q ++ [x]).length = (p ++ y :: q).length := by simp
    have hsh := shrink_ok (a := p ++ q ++ x :: w) (es := p ++ q ++ [x]) (rest := w) (by simp) (by simp)
    rw [hlen] at hsh
    obtain ⟨rest', hs⟩ := hsh
    rw [hs]
    exact ⟨_, rfl, rep_some.2 ⟨by simp; omega, x :: rest', by simp⟩⟩

theorem firstIndex_cases (es : List (Option V)) (test : Option V → Bool) :
    (firstIndex es test = -1 ∧ es.any test = false ∧ es.eraseP test = es) ∨
    (∃ i : Nat, i < es.length ∧ firstIndex es test = i ∧ es.any test = true ∧ es.eraseP test = es.eraseIdx i) := by
  unfold firstIndex
  cases hf : es.findIdx? test with
  | none =>
    left
    rw [List.findIdx?_eq_none_iff] at hf
    refine ⟨rfl, ?_, ?_⟩
    · rw [List.any_eq_false]
      intro x hx; simp [hf x hx]
    · exact List.eraseP_of_forall_not (fun x hx => by simp [hf x hx])
  | some i =>
    right
    rw [List.findIdx?_eq_some_iff_getElem] at hf
    obtain ⟨h1, h2, h3⟩ := hf
    refine ⟨i, h1, rfl, ?_, ?_⟩
    · rw [List.any_eq_true]
      exact ⟨es[i], List.getElem_mem h1, h2⟩
    · rw [List.eraseP_eq_eraseIdx]
      have : es.findIdx? test = some i := by
        rw [List.findIdx?_eq_some_iff_getElem]; exact ⟨h1, h2, h3⟩
      rw [this]

/-- The indices at which the code adds as documented. -/
def Usable (es : List (Option V)) : Op V → Prop
  | .addAt i _ => 0 ≤ i ∧ i ≤ es.length
  | .addAllAt i _ => 0 ≤ i ∧ i ≤ es.length
  | _ => True

theorem exec_ok {l : Lst V} {es : List (Option V)} (h : Rep l es) (op : Op V) (hu : Usable es op) :
    ∃ l', exec l op = ((spec es op).1, l') ∧ Rep l' (spec es op).2 := by
  cases op with
  | add v =>
    obtain ⟨l', h1, h2⟩ := addAt_ok h es.length (Nat.le_refl _) v
    refine ⟨l', ?_, by simpa [spec] using h2⟩
    simp only [exec, add, h.1, h1, bothRes, spec]
  | addAt i v =>
    obtain ⟨n, rfl⟩ : ∃ n : Nat, i = n := ⟨i.toNat, by have := hu.1; omega⟩
    obtain ⟨l', h1, h2⟩ := addAt_ok h n (by have := hu.2; omega) v
    exact ⟨l', by simp only [exec, h1, bothRes, spec], by simpa [spec] using h2⟩
  | addAll vs =>
    obtain ⟨l', h1, h2⟩ := addAll_ok vs h
    exact ⟨l', by simp only [exec, h1, bothRes, spec], h2⟩
  | addAllAt i vs =>
    obtain ⟨n, rfl⟩ : ∃ n : Nat, i = n := ⟨i.toNat, by have := hu.1; omega⟩
    obtain ⟨l', h1, h2⟩ := addAllAt_ok vs n h (by have := hu.2; omega)
    exact ⟨l', by simp only [exec, h1, bothRes, spec], by simpa [spec] using h2⟩
  | get i =>
    refine ⟨l, ?_, h⟩
    simp only [exec, spec]
    by_cases hi : Has es i
    · obtain ⟨n, rfl⟩ : ∃ n : Nat, i = n := ⟨i.toNat, by have := hi.1; omega⟩
      have hn : n < es.length := by have := hi.2; omega
      rw [get_ok h n hn, if_pos hi]
      simp [pureRes, List.getElem?_eq_getElem hn]
    · rw [get_out h i hi, if_neg hi]; rfl
  | set i v =>
    simp only [exec, spec]
    by_cases hi : Has es i
    · obtain ⟨n, rfl⟩ : ∃ n : Nat, i = n := ⟨i.toNat, by have := hi.1; omega⟩
      have hn : n < es.length := by have := hi.2; omega
      obtain ⟨l', h1, h2⟩ := set_ok h n hn v
      refine ⟨l', ?_, ?_⟩
      · rw [h1, if_pos hi]; simp [stateRes, List.getElem?_eq_getElem hn]
      · rw [if_pos hi]; simpa using h2
    · refine ⟨l, ?_, by rw [if_neg hi]; exact h⟩
      have : set l i v = .error .indexOutOfBounds := by
        unfold set
        rw [if_neg]
        unfold Has at hi; rw [h.1]; omega
      rw [this, if_neg hi]; rfl
  | removeAt i =>
    simp only [exec, spec]
    by_cases hi : Has es i
    · obtain ⟨n, rfl⟩ : ∃ n : Nat, i = n := ⟨i.toNat, by have := hi.1; omega⟩
      have hn : n < es.length := by have := hi.2; omega
      obtain ⟨l', h1, h2⟩ := removeAt_ok h n hn
      refine ⟨l', ?_, ?_⟩
      · rw [h1, if_pos hi]; simp [stateRes, List.getElem?_eq_getElem hn]
      · rw [if_pos hi]; simpa using h2
    · refine ⟨l, ?_, by rw [if_neg hi]; exact h⟩
      have : removeAt l i = .error .indexOutOfBounds := by
        unfold removeAt
        rw [get_out h i hi]; rfl
      rw [this, if_neg hi]; rfl
  | remove test =>
    simp only [exec, spec, remove, indexOf_ok h, Except.bind]
    rcases firstIndex_cases es test with ⟨h1, h2, h3⟩ | ⟨i, hi, h1, h2, h3⟩
    · rw [h1, h2, h3]
      exact ⟨l, by simp [stateRes], h⟩
    · rw [h1, h2, h3, if_neg (by omega)]
      obtain ⟨l', e1, e2⟩ := removeAt_ok h i hi
      rw [e1]
      exact ⟨l', rfl, e2⟩
  | contains test =>
    refine ⟨l, ?_, h⟩
    simp only [exec, spec, contains, indexOf_ok h, Except.bind, pureRes]
    rcases firstIndex_cases es test with ⟨h1, h2, h3⟩ | ⟨i, hi, h1, h2, h3⟩
    · rw [h1, h2]; simp
    · rw [h1, h2]; simp
  | indexOf test => exact ⟨l, by simp only [exec, spec, indexOf_ok h, pureRes], h⟩
  | lastIndexOf test => exact ⟨l, by simp only [exec, spec, lastIndexOf_ok h, pureRes], h⟩
  | size => exact ⟨l, by simp only [exec, spec, h.1], h⟩
  | clear => exact ⟨clear l, rfl, rep_none.2 ⟨rfl, rfl⟩⟩
  | ensureCapacity c =>
    obtain ⟨l', h1, h2⟩ := ensure_ok h c
    exact ⟨l', by simp only [exec, h1, Except.bind, stateRes, spec], h2⟩

/-! ### Histories -/

def runCode (l : Lst V) : List (Op V) → List (Res V)
  | [] => []
  | op :: ops => (exec l op).1 :: runCode (exec l op).2 ops

def runSpec (es : List (Option V)) : List (Op V) → List (Res V)
  | [] => []
  | op :: ops => (spec es op).1 :: runSpec (spec es op).2 ops

/-- Every index at which something is added is within the list. -/
def AllUsable (es : List (Option V)) : List (Op V) → Prop
  | [] => True
  | op :: ops => Usable es op ∧ AllUsable (spec es op).2 ops

theorem run_ok : ∀ (ops : List (Op V)) {l : Lst V} {es : List (Option V)}, Rep l es → AllUsable es ops →
    runCode l ops = runSpec es ops
  | [], _, _, _, _ => rfl
  | op :: ops, l, es, h, hu => by
    obtain ⟨l', h1, h2⟩ := exec_ok h op hu.1
    simp only [runCode, runSpec, h1]
    rw [run_ok ops h2 hu.2]

theorem new_ok (n : Nat) : ∃ l, new (V := V) n = .ok l ∧ Rep l [] := by
  unfold new
  have h0 : Rep (⟨none, 0⟩ : Lst V) [] := rep_none.2 ⟨rfl, rfl⟩
  by_cases hn : n = 0
  · subst hn
    exact ⟨_, rfl, h0⟩
  · obtain ⟨rest, _, h2⟩ := resize_ok h0 n (by simp) hn
    exact ⟨_, h2, rep_some.2 ⟨rfl, rest, rfl⟩⟩

/-- C69, for additions at places within the list: whatever is done to an array list of any capacity, every result is
that of a list of elements.  (The full claim would be that an addition at another place is refused without
effect; see `add_beyond` and `add_negative`.) -/
theorem list_partial (capacity : Nat) (ops : List (Op V)) (hu : AllUsable [] ops) :
    ∃ l, new (V := V) capacity = .ok l ∧ runCode l ops = runSpec [] ops := by
  obtain ⟨l, h1, h2⟩ := new_ok (V := V) capacity
  exact ⟨l, h1, run_ok ops h2 hu⟩

/-- A history with additions in the middle, a removal and failing accesses meets the condition. -/
example : AllUsable ([] : List (Option Nat)) [.add (some 1), .addAt 0 (some 2), .addAllAt 1 [none, some 3], .removeAt 0,
      .get 3, .remove (· == some 1), .lastIndexOf (· == some 3), .size] ∧
    runSpec ([] : List (Option Nat)) [.add (some 1), .addAt 0 (some 2), .addAllAt 1 [none, some 3], .removeAt 0,
      .get 3, .remove (· == some 1), .lastIndexOf (· == some 3), .size] =
    [.unit, .unit, .bool true, .elem (some 2), .exn .indexOutOfBounds, .bool true, .int 1, .int 2] := by
  refine ⟨?_, by decide +kernel⟩
  simp [AllUsable, Usable, spec, Has]

/-- C69 (limit of the code): an addition beyond the end is not refused; the places between get what is left there
from elements removed before. -/
theorem add_beyond : runCode (⟨none, 0⟩ : Lst Nat) [.add (some 1), .add (some 2), .add (some 3), .removeAt 0,
      .addAt 4 (some 9), .size, .get 2, .get 3] =
    [.unit, .unit, .unit, .elem (some 1), .unit, .int 5, .elem (some 3), .elem none] := by decide +kernel

/-- C69 (limit of the code): an addition at a negative place is refused, but the list is longer afterwards, whatever
it was before. -/
theorem add_negative {l : Lst V} {es : List (Option V)} (h : Rep l es) (v : Option V) :
    ∃ l', exec l (.addAt (-1) v) = (.exn .indexOutOfBounds, l') ∧ l'.size = l.size + 1 := by
  simp only [exec, addAt]
  rw [h.1, show max ((es.length : Int) + 1) (-1 + 1) = es.length + 1 by omega]
  obtain ⟨rest, h1, h2⟩ := grow_ok h (es.length + 1) (by omega)
  rw [h2]
  simp only
  have : copy (es ++ rest) (es ++ rest) (-1) (-1 + 1) ((es.length : Int) + 1 - (-1) - 1) = .error .indexOutOfBounds := by
    unfold copy
    rw [if_pos (by omega), if_neg (by omega)]
  rw [this]
  exact ⟨_, rfl, rfl⟩

/-! ### List iterators -/

inductive ItOp where
  | hasNext
  | hasPrevious
  | next
  | previous
  | remove
  deriving DecidableEq

/-- A list with a place between two elements, and the place of the element delivered last. -/
structure Cursor (V : Type) where
  es : List (Option V)
  place : Nat
  last : Option Nat

/-- What the operations of an iterator do. -/
def itSpec (c : Cursor V) : ItOp → Res V × Cursor V
  | .hasNext => (.bool (c.place < c.es.length), c)
  | .hasPrevious => (.bool (0 < c.place), c)
  | .next =>
    if c.place < c.es.length then (.elem (c.es[c.place]?.join), ⟨c.es, c.place + 1, some c.place⟩)
    else (.exn .noSuchElement, c)
  | .previous =>
    if 0 < c.place then (.elem (c.es[c.place - 1]?.join), ⟨c.es, c.place - 1, some (c.place - 1)⟩)
    else (.exn .noSuchElement, c)
  | .remove =>
    match c.last with
    | none => (.exn .illegalState, c)
    | some i => (.unit, ⟨c.es.eraseIdx i, if i < c.place then c.place - 1 else c.place, none⟩)

/-- What the code does. -/
def itExec (l : Lst V) (it : Iter) : ItOp → Res V × Lst V × Iter
  | .hasNext => (.bool (hasNext l it), l, it)
  | .hasPrevious => (.bool (hasPrevious it), l, it)
  | .next =>
    match next l it with
    | .ok (v, it) => (.elem v, l, it)
    | .error e => (.exn e, l, it)
  | .previous =>
    match previous l it with
    | .ok (v, it) => (.elem v, l, it)
    | .error e => (.exn e, l, it)
  | .remove =>
    match itRemove l it with
    | .ok (l, it) => (.unit, l, it)
    | .error e => (.exn e, l, it)

def itRunCode (l : Lst V) (it : Iter) : List ItOp → List (Res V) × Lst V
  | [] => ([], l)
  | op :: ops =>
    ((itExec l it op).1 :: (itRunCode (itExec l it op).2.1 (itExec l it op).2.2 ops).1,
      (itRunCode (itExec l it op).2.1 (itExec l it op).2.2 ops).2)

def itRunSpec (c : Cursor V) : List ItOp → List (Res V) × List (Option V)
  | [] => ([], c.es)
  | op :: ops => ((itSpec c op).1 :: (itRunSpec (itSpec c op).2 ops).1, (itRunSpec (itSpec c op).2 ops).2)

/-- The iterator is at the place, and remembers the element delivered last. -/
structure At (l : Lst V) (it : Iter) (c : Cursor V) : Prop where
  rep : Rep l c.es
  place : it.index + 1 = c.place
  bound : c.place ≤ c.es.length
  last : match c.last with
    | none => it.toRemove = -1
    | some i => it.toRemove = i ∧ i < c.es.length ∧ (i + 1 = c.place ∨ i = c.place)

theorem itExec_ok {l : Lst V} {it : Iter} {c : Cursor V} (h : At l it c) (op : ItOp) :
    (itExec l it op).1 = (itSpec c op).1 ∧ At (itExec l it op).2.1 (itExec l it op).2.2 (itSpec c op).2 := by
  have hp := h.place
  have hb := h.bound
  have hsz := h.rep.1
  cases op with
  | hasNext =>
    refine ⟨?_, h⟩
    simp only [itExec, itSpec, hasNext, hsz]
    congr 1
    simp only [decide_eq_decide]
    omega
  | hasPrevious =>
    refine ⟨?_, h⟩
    simp only [itExec, itSpec, hasPrevious]
    congr 1
    simp only [decide_eq_decide]
    omega
  | next =>
    by_cases hc : c.place < c.es.length
    · have e : next l it = .ok (c.es[c.place], ⟨c.place, c.place⟩) := by
        unfold next hasNext
        rw [if_pos (by simp only [decide_eq_true_eq]; omega), hp, get_ok h.rep c.place hc]
        rfl
      simp only [itExec, e, itSpec, if_pos hc]
      exact ⟨by simp [List.getElem?_eq_getElem hc], h.rep, by simp, by simp only; omega, by simp [hc]⟩
    · have e : next l it = .error .noSuchElement := by
        unfold next hasNext
        rw [if_neg (by simp only [decide_eq_true_eq]; omega)]
      simp only [itExec, e, itSpec, if_neg hc]
      exact ⟨trivial, h⟩
  | previous =>
    by_cases hc : 0 < c.place
    · have hlt : c.place - 1 < c.es.length := by omega
      have e : previous l it = .ok (c.es[c.place - 1], ⟨(c.place - 1 : Nat), (c.place - 1 : Nat) - 1⟩) := by
        unfold previous hasPrevious
        rw [if_pos (by simp only [decide_eq_true_eq]; omega),
          show it.index = ((c.place - 1 : Nat) : Int) by omega, get_ok h.rep (c.place - 1) hlt]
        rfl
      simp only [itExec, e, itSpec, if_pos hc]
      exact ⟨by simp [List.getElem?_eq_getElem hlt], h.rep, by simp only; omega, by simp only; omega,
        by simp [hlt]⟩
    · have e : previous l it = .error .noSuchElement := by
        unfold previous hasPrevious
        rw [if_neg (by simp only [decide_eq_true_eq]; omega)]
      simp only [itExec, e, itSpec, if_neg hc]
      exact ⟨trivial, h⟩
  | remove =>
    have hl := h.last
    cases hcl : c.last with
    | none =>
      rw [hcl] at hl
      simp only at hl
      have e : itRemove l it = .error .illegalState := by
        unfold itRemove
        rw [if_neg (by simp [hl])]
      simp only [itExec, e, itSpec, hcl]
      exact ⟨trivial, h⟩
    | some i =>
      rw [hcl] at hl
      obtain ⟨h1, h2, h3⟩ := hl
      obtain ⟨l', e1, e2⟩ := removeAt_ok h.rep i h2
      have e : itRemove l it = .ok (l', ⟨-1, (i : Int) - 1⟩) := by
        unfold itRemove
        rw [if_pos (by omega), h1, e1]
        rfl
      have hlen : (c.es.eraseIdx i).length = c.es.length - 1 := by rw [List.length_eraseIdx, if_pos h2]
      simp only [itExec, e, itSpec, hcl]
      refine ⟨trivial, e2, ?_, ?_, ?_⟩
      · simp only; split <;> omega
      · simp only [hlen]; split <;> omega
      · simp

theorem itRun_ok : ∀ (ops : List ItOp) {l : Lst V} {it : Iter} {c : Cursor V}, At l it c →
    (itRunCode l it ops).1 = (itRunSpec c ops).1 ∧ Rep (itRunCode l it ops).2 (itRunSpec c ops).2
  | [], _, _, _, h => ⟨rfl, h.rep⟩
  | op :: ops, l, it, c, h => by
    obtain ⟨h1, h2⟩ := itExec_ok h op
    obtain ⟨h3, h4⟩ := itRun_ok ops h2
    exact ⟨by simp only [itRunCode, itRunSpec, h1, h3], h4⟩

/-- C69: whatever is done with a list iterator started at any place of a list, every result is that of a place moving
between the elements, removal takes out exactly the element delivered last and is refused if there is none, and the
list afterwards has exactly what was not removed. -/
theorem iterator_ok {l : Lst V} {es : List (Option V)} (h : Rep l es) (i : Nat) (hi : i ≤ es.length) (ops : List ItOp) :
    (itRunCode l (listIterator i) ops).1 = (itRunSpec ⟨es, i, none⟩ ops).1 ∧
    Rep (itRunCode l (listIterator i) ops).2 (itRunSpec ⟨es, i, none⟩ ops).2 :=
  itRun_ok ops ⟨h, by simp [listIterator], hi, rfl⟩

example : (itRunSpec (⟨[some 1, some 2, none], 1, none⟩ : Cursor Nat)
      [.remove, .next, .remove, .remove, .next, .hasNext, .previous, .remove, .hasNext, .previous]).1 =
    [.exn .illegalState, .elem (some 2), .unit, .exn .illegalState, .elem none, .bool false, .elem none, .unit,
      .bool false, .elem (some 1)] := by decide +kernel

/-- After any history the list has a representation, so `iterator_ok` applies to every list that can be reached. -/
theorem reachable_rep : ∀ (ops : List (Op V)) {l : Lst V} {es : List (Option V)}, Rep l es → AllUsable es ops →
    Rep (ops.foldl (fun l op => (exec l op).2) l) (ops.foldl (fun es op => (spec es op).2) es)
  | [], _, _, h, _ => h
  | op :: ops, l, es, h, hu => by
    obtain ⟨l', h1, h2⟩ := exec_ok h op hu.1
    simp only [List.foldl_cons, h1]
    exact reachable_rep ops h2 hu.2

end Avian.ArrayList
