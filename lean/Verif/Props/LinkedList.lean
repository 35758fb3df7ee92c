import Verif.Lib.LinkedList

/-
Property C61: a linked list is a list.
-/
namespace Avian.LinkedList

variable {E : Type}

/-! ### Specification -/

inductive Op (E : Type) where
  | add (e : Option E)
  | addFirst (e : Option E)
  | addAll (es : List (Option E))
  | addAt (i : Int) (e : Option E)
  | get (i : Int)
  | set (i : Int) (e : Option E)
  | peekFirst
  | getFirst
  | peekLast
  | getLast
  | removeAt (i : Int)
  | pollFirst
  | removeFirst
  | pollLast
  | removeLast
  | remove (e : Option E)
  | removeFirstOccurrence (e : Option E)
  | removeLastOccurrence (e : Option E)
  | clear
  | contains (e : Option E)
  | indexOf (e : Option E)
  | lastIndexOf (e : Option E)
  | size
  | isEmpty

inductive Res (E : Type) where
  | unit
  | bool (b : Bool)
  | elem (e : Option E)
  | int (i : Int)
  | exn (x : Exn)
  deriving DecidableEq

variable [DecidableEq E]

/-- The position of the first occurrence, or -1. -/
def firstIndex (xs : List (Option E)) (e : Option E) : Int :=
  match xs.idxOf? e with
  | some i => i
  | none => -1

/-- The position of the last occurrence, or -1. -/
def lastIndex (xs : List (Option E)) (e : Option E) : Int :=
  match xs.reverse.idxOf? e with
  | some i => xs.length - 1 - i
  | none => -1

/-- What the operations of java.util.List and java.util.Deque do to a sequence. -/
def spec (xs : List (Option E)) : Op E → Res E × List (Option E)
  | .add e => (.bool true, xs ++ [e])
  | .addFirst e => (.unit, e :: xs)
  | .addAll es => (.bool true, xs ++ es)
  | .addAt i e =>
    if 0 ≤ i ∧ i ≤ xs.length then (.unit, xs.take i.toNat ++ e :: xs.drop i.toNat)
    else (.exn .indexOutOfBounds, xs)
  | .get i =>
    if h : 0 ≤ i ∧ i < xs.length then (.elem (xs[i.toNat]'(by omega)), xs) else (.exn .indexOutOfBounds, xs)
  | .set i e =>
    if h : 0 ≤ i ∧ i < xs.length then (.elem (xs[i.toNat]'(by omega)), xs.set i.toNat e)
    else (.exn .indexOutOfBounds, xs)
  | .peekFirst => (.elem (xs.head?.getD none), xs)
  | .getFirst => (match xs.head? with | some e => .elem e | none => .exn .noSuchElement, xs)
  | .peekLast => (.elem (xs.getLast?.getD none), xs)
  | .getLast => (match xs.getLast? with | some e => .elem e | none => .exn .noSuchElement, xs)
  | .removeAt i =>
    if h : 0 ≤ i ∧ i < xs.length then (.elem (xs[i.toNat]'(by omega)), xs.eraseIdx i.toNat)
    else (.exn .indexOutOfBounds, xs)
  | .pollFirst => (.elem (xs.head?.getD none), xs.tail)
  | .removeFirst => (match xs.head? with | some e => .elem e | none => .exn .noSuchElement, xs.tail)
  | .pollLast => (.elem (xs.getLast?.getD none), xs.dropLast)
  | .removeLast => (match xs.getLast? with | some e => .elem e | none => .exn .noSuchElement, xs.dropLast)
  | .remove e => (.bool (decide (e ∈ xs)), xs.erase e)
  | .removeFirstOccurrence e => (.bool (decide (e ∈ xs)), xs.erase e)
  | .removeLastOccurrence e => (.bool (decide (e ∈ xs)),
      if lastIndex xs e < 0 then xs else xs.eraseIdx (lastIndex xs e).toNat)
  | .clear => (.unit, [])
  | .contains e => (.bool (decide (e ∈ xs)), xs)
  | .indexOf e => (.int (firstIndex xs e), xs)
  | .lastIndexOf e => (.int (lastIndex xs e), xs)
  | .size => (.int xs.length, xs)
  | .isEmpty => (.bool xs.isEmpty, xs)

/-- The calls that do what they should. -/
def Usable (xs : List (Option E)) : Op E → Prop
  | .addAt i _ => ¬ (0 < i ∧ i ≤ xs.length)
  | .removeFirst => xs.head? ≠ some none
  | .pollLast => xs ≠ []
  | .removeLast => xs.getLast? ≠ some none
  | .removeFirstOccurrence e => firstIndex xs e ≠ 0
  | .removeLastOccurrence e => lastIndex xs e ≠ 0
  | _ => True

/-! ### The operations of the code -/

def answer {A : Type} (l : LL E) (f : A → Res E × LL E) : Except Exn A → Res E × LL E
  | .ok a => f a
  | .error x => (.exn x, l)

/-- The calls of the code: the result and the list. -/
def call (l : LL E) : Op E → Res E × LL E
  | .add e => answer l (fun l' => (.bool true, l')) (addLast l e)
  | .addFirst e => (.unit, addFirst l e)
  | .addAll es => answer l (fun l' => (.bool true, l')) (addAll l es)
  | .addAt i e => answer l (fun l' => (.unit, l')) (addAt l i e)
  | .get i => answer l (fun e => (.elem e, l)) (get l i)
  | .set i e => answer l (fun r => (.elem r.1, r.2)) (setAt l i e)
  | .peekFirst => (.elem (peekFirst l), l)
  | .getFirst => answer l (fun e => (.elem e, l)) (getFirst l)
  | .peekLast => (.elem (peekLast l), l)
  | .getLast => answer l (fun e => (.elem e, l)) (getLast l)
  | .removeAt i => answer l (fun r => (.elem r.1, r.2)) (removeAt l i)
  | .pollFirst => (.elem (pollFirst l).1, (pollFirst l).2)
  | .removeFirst => answer (removeFirst l).2 (fun e => (.elem (some e), (removeFirst l).2)) (removeFirst l).1
  | .pollLast => answer (pollLast l).2 (fun e => (.elem e, (pollLast l).2)) (pollLast l).1
  | .removeLast => answer (removeLast l).2 (fun e => (.elem (some e), (removeLast l).2)) (removeLast l).1
  | .remove e => answer l (fun r => (.bool r.1, r.2)) (removeObject l e)
  | .removeFirstOccurrence e => answer l (fun r => (.bool r.1, r.2)) (removeFirstOccurrence l e)
  | .removeLastOccurrence e => answer l (fun r => (.bool r.1, r.2)) (removeLastOccurrence l e)
  | .clear => (.unit, clear l)
  | .contains e => answer l (fun b => (.bool b, l)) (contains l e)
  | .indexOf e => answer l (fun i => (.int i, l)) (indexOf l e)
  | .lastIndexOf e => answer l (fun i => (.int i, l)) (lastIndexOf l e)
  | .size => (.int l.size, l)
  | .isEmpty => (.bool (isEmpty l), l)

omit [DecidableEq E]

/-! ### Representation -/

structure Repr (l : LL E) (ids : List Cell) : Prop where
  nodup : ids.Nodup
  bound : ∀ a ∈ ids, a < l.fresh
  count : ids.length ≤ l.fresh
  front : l.front = ids[0]?
  rear : l.rear = ids[ids.length - 1]?
  next : ∀ (i : Nat) (a : Cell), ids[i]? = some a → l.next a = ids[i + 1]?
  prev0 : ∀ a : Cell, ids[0]? = some a → l.prev a = none
  prevS : ∀ (i : Nat) (b : Cell), ids[i + 1]? = some b → l.prev b = ids[i]?
  size : l.size = ids.length

/-- The list `l` contains `xs`. -/
def Has (l : LL E) (xs : List (Option E)) : Prop := ∃ ids, Repr l ids ∧ ids.map l.value = xs

theorem set_same {A : Type} (f : Cell → A) (c : Cell) (a : A) : set f c a c = a := by simp [set]
theorem set_other {A : Type} (f : Cell → A) {c d : Cell} (a : A) (h : d ≠ c) : set f c a d = f d := by
  simp [set, h]

theorem index_unique {ids : List Cell} (hn : ids.Nodup) {i j : Nat} {a : Cell}
    (hi : ids[i]? = some a) (hj : ids[j]? = some a) : i = j := by
  obtain ⟨h1, e1⟩ := List.getElem?_eq_some_iff.1 hi
  obtain ⟨h2, e2⟩ := List.getElem?_eq_some_iff.1 hj
  exact (List.getElem_inj hn).1 (e1.trans e2.symm)

theorem has_empty : Has (empty : LL E) [] :=
  ⟨[], ⟨by simp, by simp, by simp, rfl, rfl, by simp, by simp, by simp, rfl⟩, rfl⟩

/-! ### Adding -/

private theorem fresh_not_mem {l : LL E} {ids : List Cell} (h : Repr l ids) : l.fresh ∉ ids :=
  fun hm => Nat.lt_irrefl _ (h.bound _ hm)

private theorem get_snoc (ids : List Cell) (c : Cell) (i : Nat) :
    (ids ++ [c])[i]? = if i < ids.length then ids[i]? else if i = ids.length then some c else none := by
  rw [List.getElem?_append]
  split
  · rfl
  · rename_i h
    split
    · rename_i h'; subst h'; simp
    · rw [List.getElem?_eq_none]; simp; omega

theorem addLast_repr {l : LL E} {ids : List Cell} (h : Repr l ids) (e : Option E) :
    ∃ l', addLast l e = .ok l' ∧ Repr l' (ids ++ [l.fresh]) ∧ l'.value = set l.value l.fresh e := by
  have hf := fresh_not_mem h
  have hne : ∀ (i : Nat) (a : Cell), ids[i]? = some a → a ≠ l.fresh := by
    rintro i a e rfl; exact hf (List.mem_of_getElem? e)
  have nd : (ids ++ [l.fresh]).Nodup := by
    rw [List.nodup_append]
    exact ⟨h.nodup, by simp, fun a ha b hb => by
      simp at hb; subst hb; rintro rfl; exact hf ha⟩
  unfold addLast newCell addLastCell
  simp only
  cases hfr : l.front with
  | none =>
    have hnil : ids = [] := by
      have := h.front
      rw [hfr] at this
      exact List.eq_nil_of_length_eq_zero (by
        have := List.getElem?_eq_none_iff.1 this.symm; omega)
    subst hnil
    refine ⟨_, rfl, ⟨by simp, ?_, by simp, rfl, rfl, ?_, ?_, ?_, ?_⟩, rfl⟩
    · simp
    · intro i a ha
      cases i with
      | zero => simp at ha; subst ha; simp [set]
      | succ i => simp at ha
    · intro a ha; simp at ha; subst ha; simp [set]
    · intro i b hb; simp at hb
    · have := h.size; simp at this ⊢; omega
  | some f =>
    have hpos : 0 < ids.length := by
      have := h.front
      rw [hfr] at this
      exact (List.getElem?_eq_some_iff.1 this.symm).1
    have hlast : ids[ids.length - 1]? = some (ids[ids.length - 1]'(by omega)) :=
      List.getElem?_eq_getElem (by omega)
    have hrear := h.rear
    rw [hlast] at hrear
    simp only [hrear]
    have hr := hne _ _ hlast
    refine ⟨_, rfl, ⟨nd, ?_, ?_, ?_, ?_, ?_, ?_, ?_, ?_⟩, rfl⟩
    · intro a ha
      rcases List.mem_append.1 ha with ha | ha
      · exact Nat.lt_succ_of_lt (h.bound a ha)
      · simp at ha; subst ha; exact Nat.lt_succ_self _
    · have := h.count; simp; exact this
    · show some f = _
      rw [← hfr, get_snoc, if_pos hpos]; exact h.front
    · simp
    · intro i a ha
      rw [get_snoc] at ha ⊢
      split at ha
      · rename_i hi
        show set (set l.next l.fresh none) _ (some l.fresh) a = _
        by_cases hil : i = ids.length - 1
        · subst hil
          rw [hlast] at ha
          cases ha
          rw [set_same, if_neg (by omega), if_pos (by omega)]
        · rw [set_other, set_other, h.next i a ha, if_pos (by omega)]
          · exact hne i a ha
          · rintro rfl
            exact hil (index_unique h.nodup ha hlast)
      · split at ha
        · cases ha
          rw [if_neg (by omega), if_neg (by omega)]
          show set (set l.next l.fresh none) _ (some l.fresh) l.fresh = _
          rw [set_other _ _ (Ne.symm hr), set_same]
        · simp at ha
    · intro a ha
      rw [get_snoc, if_pos hpos] at ha
      show set (set l.prev l.fresh none) l.fresh _ a = _
      rw [set_other _ _ (hne 0 a ha), set_other _ _ (hne 0 a ha)]
      exact h.prev0 a ha
    · intro i b hb
      rw [get_snoc] at hb ⊢
      show set (set l.prev l.fresh none) l.fresh _ b = _
      split at hb
      · rw [set_other _ _ (hne _ b hb), set_other _ _ (hne _ b hb), if_pos (by omega)]
        exact h.prevS i b hb
      · split at hb
        · cases hb
          rw [set_same, if_pos (by omega), ← hlast]
          congr 1; omega
        · simp at hb
    · have := h.size; simp; omega

theorem map_set_fresh {l : LL E} {ids : List Cell} (h : Repr l ids) (e : Option E) :
    ids.map (set l.value l.fresh e) = ids.map l.value := by
  apply List.map_congr_left
  intro a ha
  exact set_other _ _ (Nat.ne_of_lt (h.bound a ha))

theorem addLast_has {l : LL E} {xs : List (Option E)} (h : Has l xs) (e : Option E) :
    ∃ l', addLast l e = .ok l' ∧ Has l' (xs ++ [e]) := by
  obtain ⟨ids, h, rfl⟩ := h
  obtain ⟨l', e1, h1, h2⟩ := addLast_repr h e
  refine ⟨l', e1, _, h1, ?_⟩
  rw [h2, List.map_append, map_set_fresh h]
  simp [set]

theorem addFirst_has {l : LL E} {xs : List (Option E)} (h : Has l xs) (e : Option E) :
    Has (addFirst l e) (e :: xs) := by
  obtain ⟨ids, h, rfl⟩ := h
  have hf := fresh_not_mem h
  have hne : ∀ (i : Nat) (a : Cell), ids[i]? = some a → a ≠ l.fresh := by
    rintro i a e rfl; exact hf (List.mem_of_getElem? e)
  have nd : (l.fresh :: ids).Nodup := List.nodup_cons.2 ⟨hf, h.nodup⟩
  refine ⟨l.fresh :: ids, ?_, ?_⟩
  · have hfr := h.front
    have hs := h.size
    have hc := h.count
    unfold addFirst newCell addFirstCell
    simp only
    cases hid : ids[0]? with
    | none =>
      have hnil : ids = [] := List.eq_nil_of_length_eq_zero (by
        have := List.getElem?_eq_none_iff.1 hid; omega)
      subst hnil
      rw [hfr]
      simp only [List.getElem?_nil]
      refine ⟨by simp, by simp, by simp, rfl, rfl, ?_, ?_, ?_, ?_⟩
      · intro i a ha
        cases i with
        | zero => simp at ha; subst ha; simp [set]
        | succ i => simp at ha
      · intro a ha; simp at ha; subst ha; simp [set]
      · intro i b hb; simp at hb
      · simp at hs ⊢; omega
    | some f =>
      have hpos : 0 < ids.length := (List.getElem?_eq_some_iff.1 hid).1
      rw [hfr, hid]
      simp only
      refine ⟨nd, ?_, by simp; exact hc, rfl, ?_, ?_, ?_, ?_, ?_⟩
      · intro a ha
        rcases List.mem_cons.1 ha with rfl | ha
        · exact Nat.lt_succ_self _
        · exact Nat.lt_succ_of_lt (h.bound a ha)
      · show l.rear = _
        rw [h.rear, List.length_cons, Nat.add_sub_cancel, ← Nat.succ_pred_eq_of_pos hpos]
        simp
      · intro i a ha
        show set (set l.next l.fresh none) l.fresh (some f) a = _
        cases i with
        | zero => simp at ha; subst ha; rw [set_same]; simp [hid]
        | succ i =>
          rw [List.getElem?_cons_succ] at ha ⊢
          rw [set_other _ _ (hne _ a ha), set_other _ _ (hne _ a ha)]
          exact h.next i a ha
      · intro a ha
        simp at ha; subst ha
        show set (set l.prev l.fresh none) f (some l.fresh) l.fresh = _
        rw [set_other _ _ (Ne.symm (hne 0 f hid)), set_same]
      · intro i b hb
        rw [List.getElem?_cons_succ] at hb
        show set (set l.prev l.fresh none) f (some l.fresh) b = _
        cases i with
        | zero =>
          rw [hid] at hb; cases hb
          rw [set_same]; rfl
        | succ i =>
          rw [set_other, set_other _ _ (hne _ b hb), List.getElem?_cons_succ]
          · exact h.prevS i b hb
          · rintro rfl
            have := index_unique h.nodup hb hid
            omega
      · simp; omega
  · have e1 : (addFirst l e).value = set l.value l.fresh e := by
      unfold addFirst newCell addFirstCell
      simp only
      split <;> rfl
    rw [e1, List.map_cons, map_set_fresh h, set_same]

theorem addAll_has : ∀ (es : List (Option E)) {l : LL E} {xs : List (Option E)}, Has l xs →
    ∃ l', addAll l es = .ok l' ∧ Has l' (xs ++ es) := by
  intro es
  induction es with
  | nil => intro l xs h; exact ⟨l, rfl, by simpa using h⟩
  | cons e es ih =>
    intro l xs h
    obtain ⟨l1, e1, h1⟩ := addLast_has h e
    obtain ⟨l2, e2, h2⟩ := ih h1
    refine ⟨l2, ?_, by simpa using h2⟩
    show (addLast l e).bind _ = _
    rw [e1]; exact e2

/-! ### Removing -/

private theorem removeCell_fields (l : LL E) (c : Cell) (hp : l.prev c ≠ some c) :
    (removeCell l c).front = (if l.prev c = none then l.next c else l.front) ∧
    (∀ a, (removeCell l c).next a = if l.prev c = some a then l.next c else l.next a) ∧
    (removeCell l c).rear = (if l.next c = none then l.prev c else l.rear) ∧
    (∀ a, (removeCell l c).prev a = if l.next c = some a then l.prev c else l.prev a) ∧
    (removeCell l c).size = l.size - 1 ∧ (removeCell l c).value = l.value ∧
    (removeCell l c).fresh = l.fresh := by
  unfold removeCell
  simp only
  cases h1 : l.prev c with
  | none =>
    cases h2 : l.next c with
    | none => simp [h1]
    | some n =>
      simp only [h1]
      refine ⟨by simp, by simp, by simp, fun a => ?_, trivial, trivial, trivial⟩
      simp only [set, Option.some.injEq]
      by_cases hna : n = a
      · rw [if_pos hna, if_pos hna.symm]
      · rw [if_neg hna, if_neg (fun x => hna x.symm)]
  | some p =>
    have hpc : c ≠ p := by rintro rfl; exact hp h1
    cases h2 : l.next c with
    | none =>
      simp only [set_other _ _ hpc, h1, h2]
      refine ⟨by simp, fun a => ?_, by simp, by simp, trivial, trivial, trivial⟩
      simp only [set, Option.some.injEq]
      by_cases hna : p = a
      · rw [if_pos hna, if_pos hna.symm]
      · rw [if_neg hna, if_neg (fun x => hna x.symm)]
    | some n =>
      simp only [set_other _ _ hpc, h1, h2]
      refine ⟨by simp, fun a => ?_, by simp, fun a => ?_, trivial, trivial, trivial⟩
      · simp only [set, Option.some.injEq]
        by_cases hna : p = a
        · rw [if_pos hna, if_pos hna.symm]
        · rw [if_neg hna, if_neg (fun x => hna x.symm)]
      · simp only [set, Option.some.injEq]
        by_cases hna : n = a
        · rw [if_pos hna, if_pos hna.symm]
        · rw [if_neg hna, if_neg (fun x => hna x.symm)]

theorem prev_eq {l : LL E} {ids : List Cell} (h : Repr l ids) {k : Nat} {c : Cell} (hk : ids[k]? = some c) :
    l.prev c = if k = 0 then none else ids[k - 1]? := by
  cases k with
  | zero => rw [if_pos rfl]; exact h.prev0 c hk
  | succ k => rw [if_neg (by omega)]; exact h.prevS k c hk

theorem removeCell_repr {l : LL E} {ids : List Cell} (h : Repr l ids) {k : Nat} {c : Cell}
    (hk : ids[k]? = some c) : Repr (removeCell l c) (ids.eraseIdx k) := by
  obtain ⟨hlt, _⟩ := List.getElem?_eq_some_iff.1 hk
  have hp := prev_eq h hk
  have hn := h.next k c hk
  have hpc : l.prev c ≠ some c := by
    intro e
    rw [e] at hp
    split at hp
    · simp at hp
    · have := index_unique h.nodup hk hp.symm; omega
  obtain ⟨f1, f2, f3, f4, f5, f6, f7⟩ := removeCell_fields l c hpc
  have hlen : (ids.eraseIdx k).length = ids.length - 1 := List.length_eraseIdx_of_lt hlt
  have sub : ∀ a ∈ ids.eraseIdx k, a ∈ ids := fun a ha => List.mem_of_mem_eraseIdx ha
  refine ⟨h.nodup.eraseIdx k, ?_, ?_, ?_, ?_, ?_, ?_, ?_, ?_⟩
  · intro a ha; rw [f7]; exact h.bound a (sub a ha)
  · rw [f7, hlen]; have := h.count; omega
  · rw [f1, hp, List.getElem?_eraseIdx]
    by_cases h0 : k = 0
    · subst h0; simp [hn]
    · rw [if_neg h0, if_neg, if_pos (by omega)]
      · exact h.front
      · rw [List.getElem?_eq_getElem (by omega)]; simp
  · rw [f3, hn, hlen, List.getElem?_eraseIdx]
    by_cases hl : k + 1 = ids.length
    · rw [if_pos (List.getElem?_eq_none (by omega)), hp]
      by_cases h0 : k = 0
      · rw [if_pos h0, if_neg (by omega), List.getElem?_eq_none (by omega)]
      · rw [if_neg h0, if_pos (by omega)]
        congr 1; omega
    · rw [if_neg (by rw [List.getElem?_eq_getElem (by omega)]; simp), if_neg (by omega), h.rear]
      congr 1; omega
  · intro i a ha
    rw [List.getElem?_eraseIdx] at ha ⊢
    rw [f2, hp, hn]
    split at ha
    · rename_i hi
      by_cases hik : i + 1 = k
      · rw [if_pos, if_neg (by omega)]
        · congr 1; omega
        · rw [if_neg (by omega), ← ha]; congr 1; omega
      · rw [if_neg, if_pos (by omega)]
        · exact h.next i a ha
        · intro e
          split at e
          · simp at e
          · have := index_unique h.nodup ha e; omega
    · rw [if_neg, if_neg (by omega)]
      · exact h.next (i + 1) a ha
      · intro e
        split at e
        · simp at e
        · have := index_unique h.nodup ha e; omega
  · intro a ha
    rw [List.getElem?_eraseIdx] at ha
    rw [f4, hn, hp]
    split at ha
    · rw [if_neg]
      · exact h.prev0 a ha
      · intro e; have := index_unique h.nodup ha e; omega
    · have : k = 0 := by omega
      subst this
      rw [if_pos ha, if_pos rfl]
  · intro i b hb
    rw [List.getElem?_eraseIdx] at hb ⊢
    rw [f4, hn, hp]
    split at hb
    · rw [if_neg, if_pos (by omega)]
      · exact h.prevS i b hb
      · intro e; have := index_unique h.nodup hb e; omega
    · by_cases hik : i + 1 = k
      · subst hik
        rw [if_pos hb, if_neg (by omega), if_pos (by omega)]
        rfl
      · rw [if_neg, if_neg (by omega)]
        · exact h.prevS (i + 1) b hb
        · intro e; have := index_unique h.nodup hb e; omega
  · rw [f5, hlen, h.size]; omega

theorem removeCell_value {l : LL E} {ids : List Cell} (h : Repr l ids) {k : Nat} {c : Cell}
    (hk : ids[k]? = some c) : (removeCell l c).value = l.value := by
  have hp := prev_eq h hk
  refine (removeCell_fields l c ?_).2.2.2.2.2.1
  intro e
  rw [e] at hp
  split at hp
  · simp at hp
  · have := index_unique h.nodup hk hp.symm; omega

private theorem map_eraseIdx {A B : Type} (f : A → B) : ∀ (xs : List A) (k : Nat),
    (xs.map f).eraseIdx k = (xs.eraseIdx k).map f
  | [], _ => rfl
  | _ :: _, 0 => rfl
  | x :: xs, k + 1 => by
    show f x :: (xs.map f).eraseIdx k = f x :: (xs.eraseIdx k).map f
    rw [map_eraseIdx f xs k]

theorem removeCell_has {l : LL E} {ids : List Cell} (h : Repr l ids) {k : Nat} {c : Cell}
    (hk : ids[k]? = some c) : Has (removeCell l c) ((ids.map l.value).eraseIdx k) :=
  ⟨_, removeCell_repr h hk, by rw [removeCell_value h hk]; exact (map_eraseIdx l.value ids k).symm⟩

/-! ### Searching -/

private theorem findAt_ok {l : LL E} {ids : List Cell} (h : Repr l ids) {n : Nat} {c : Cell}
    (hn : ids[n]? = some c) : ∀ (fuel j : Nat), ids.length ≤ fuel + j → j ≤ n →
    findAt l n fuel ids[j]? j = .ok c := by
  obtain ⟨hlt, _⟩ := List.getElem?_eq_some_iff.1 hn
  intro fuel
  induction fuel with
  | zero => intro j h1 h2; omega
  | succ fuel ih =>
    intro j h1 h2
    have hj : ids[j]? = some (ids[j]'(by omega)) := List.getElem?_eq_getElem (by omega)
    rw [hj, findAt]
    split
    · rename_i e
      have : j = n := by omega
      subst this
      rw [hj] at hn
      cases hn; rfl
    · rw [h.next j _ hj]
      exact ih (j + 1) (by omega) (by omega)

private theorem findAt_bad {l : LL E} {ids : List Cell} (h : Repr l ids) {index : Int}
    (hi : index < 0 ∨ ids.length ≤ index) : ∀ (fuel j : Nat), ids.length ≤ fuel + j →
    findAt l index fuel ids[j]? j = .error .indexOutOfBounds := by
  intro fuel
  induction fuel with
  | zero =>
    intro j h1
    rw [List.getElem?_eq_none (by omega)]; rfl
  | succ fuel ih =>
    intro j h1
    by_cases hlt : j < ids.length
    · have hj : ids[j]? = some (ids[j]'(by omega)) := List.getElem?_eq_getElem (by omega)
      rw [hj, findAt, if_neg (by omega), h.next j _ hj]
      exact ih (j + 1) (by omega)
    · rw [List.getElem?_eq_none (by omega)]; rfl

theorem find_ok {l : LL E} {ids : List Cell} (h : Repr l ids) {n : Nat} {c : Cell}
    (hn : ids[n]? = some c) : find l n = .ok c := by
  unfold find
  rw [h.front]
  exact findAt_ok h hn _ 0 (by have := h.count; omega) (by omega)

theorem find_bad {l : LL E} {ids : List Cell} (h : Repr l ids) {index : Int}
    (hi : index < 0 ∨ ids.length ≤ index) : find l index = .error .indexOutOfBounds := by
  unfold find
  rw [h.front]
  exact findAt_bad h hi _ 0 (by have := h.count; omega)

/-- The two outcomes of `find`. -/
theorem find_cases {l : LL E} {ids : List Cell} (h : Repr l ids) (index : Int) :
    (∃ (n : Nat) (c : Cell), index = n ∧ ids[n]? = some c ∧ find l index = .ok c) ∨
    (¬ (0 ≤ index ∧ index < ids.length) ∧ find l index = .error .indexOutOfBounds) := by
  by_cases hi : 0 ≤ index ∧ index < ids.length
  · left
    have hj : ids[index.toNat]? = some (ids[index.toNat]'(by omega)) := List.getElem?_eq_getElem (by omega)
    refine ⟨index.toNat, _, by omega, hj, ?_⟩
    have := find_ok h hj
    rw [Int.toNat_of_nonneg hi.1] at this
    exact this
  · exact .inr ⟨hi, find_bad h (by omega)⟩

variable [DecidableEq E]

omit [DecidableEq E] in
private theorem drop_map {l : LL E} {ids : List Cell} {j : Nat} {c : Cell} (hj : ids[j]? = some c) :
    (ids.map l.value).drop j = l.value c :: (ids.map l.value).drop (j + 1) := by
  obtain ⟨hlt, e⟩ := List.getElem?_eq_some_iff.1 hj
  rw [List.drop_eq_getElem_cons (by simpa using hlt), List.getElem_map, e]

private theorem findObject_eq {l : LL E} {ids : List Cell} (h : Repr l ids) (e : Option E) :
    ∀ (fuel j : Nat), ids.length ≤ fuel + j →
    findObject l e fuel ids[j]? = .ok (match ((ids.map l.value).drop j).idxOf? e with
      | some k => ids[j + k]?
      | none => none) := by
  intro fuel
  induction fuel with
  | zero =>
    intro j h1
    rw [List.getElem?_eq_none (by omega), List.drop_eq_nil_of_le (as := ids.map l.value) (by simpa using h1)]
    rfl
  | succ fuel ih =>
    intro j h1
    by_cases hlt : j < ids.length
    · have hj : ids[j]? = some (ids[j]'(by omega)) := List.getElem?_eq_getElem (by omega)
      rw [drop_map hj, hj, findObject, List.idxOf?_cons]
      by_cases hv : l.value (ids[j]'hlt) = e
      · rw [if_pos hv, if_pos (by simpa using hv)]
        simp only [Nat.add_zero, hj]
      · rw [if_neg hv, if_neg (by simpa using hv), h.next j _ hj, ih (j + 1) (by omega)]
        cases List.idxOf? e ((ids.map l.value).drop (j + 1)) with
        | none => rfl
        | some k => simp only [Option.map_some]; congr 2; omega
    · rw [List.getElem?_eq_none (by omega), List.drop_eq_nil_of_le (as := ids.map l.value) (by simpa using hlt)]
      rfl

private theorem indexLoop_eq {l : LL E} {ids : List Cell} (h : Repr l ids) (e : Option E) :
    ∀ (fuel j : Nat) (i : Int), ids.length ≤ fuel + j →
    indexLoop l e fuel ids[j]? i = .ok (match ((ids.map l.value).drop j).idxOf? e with
      | some k => i + k
      | none => -1) := by
  intro fuel
  induction fuel with
  | zero =>
    intro j i h1
    rw [List.getElem?_eq_none (by omega), List.drop_eq_nil_of_le (as := ids.map l.value) (by simpa using h1)]
    rfl
  | succ fuel ih =>
    intro j i h1
    by_cases hlt : j < ids.length
    · have hj : ids[j]? = some (ids[j]'(by omega)) := List.getElem?_eq_getElem (by omega)
      rw [drop_map hj, hj, indexLoop, List.idxOf?_cons]
      by_cases hv : l.value (ids[j]'hlt) = e
      · rw [if_pos hv, if_pos (by simpa using hv)]
        simp
      · rw [if_neg hv, if_neg (by simpa using hv), h.next j _ hj, ih (j + 1) _ (by omega)]
        cases List.idxOf? e ((ids.map l.value).drop (j + 1)) with
        | none => rfl
        | some k => simp only [Option.map_some]; congr 1; omega
    · rw [List.getElem?_eq_none (by omega), List.drop_eq_nil_of_le (as := ids.map l.value) (by simpa using hlt)]
      rfl

private theorem lastLoop_eq {l : LL E} {ids : List Cell} (h : Repr l ids) (e : Option E) :
    ∀ (j fuel : Nat) (i : Int), j ≤ fuel → j ≤ ids.length →
    lastLoop l e fuel (if j = 0 then none else ids[j - 1]?) i =
      .ok (match ((ids.map l.value).take j).reverse.idxOf? e with
      | some k => i - 1 - k
      | none => -1) := by
  intro j
  induction j with
  | zero =>
    intro fuel i _ _
    rw [if_pos rfl]
    cases fuel <;> rfl
  | succ j ih =>
    intro fuel i h1 h2
    obtain ⟨fuel, rfl⟩ : ∃ f, fuel = f + 1 := ⟨fuel - 1, by omega⟩
    have hj : ids[j]? = some (ids[j]'(by omega)) := List.getElem?_eq_getElem (by omega)
    rw [if_neg (by omega), Nat.add_sub_cancel, hj, lastLoop, List.take_add_one, List.getElem?_map, hj]
    simp only [Option.map_some, Option.toList_some, List.reverse_append, List.reverse_cons,
      List.reverse_nil, List.nil_append, List.singleton_append, List.idxOf?_cons]
    by_cases hv : l.value (ids[j]'(by omega)) = e
    · rw [if_pos hv, if_pos (by simpa using hv)]
      simp
    · rw [if_neg hv, if_neg (by simpa using hv), prev_eq h hj, ih fuel _ (by omega) (by omega)]
      cases List.idxOf? e ((ids.map l.value).take j).reverse with
      | none => rfl
      | some k => simp only [Option.map_some]; congr 1; omega

theorem find_object {l : LL E} {ids : List Cell} (h : Repr l ids) (e : Option E) :
    findObject l e l.fresh l.front = .ok (match (ids.map l.value).idxOf? e with
      | some k => ids[k]?
      | none => none) := by
  rw [h.front, findObject_eq h e _ 0 (by have := h.count; omega), List.drop_zero]
  simp

theorem index_of {l : LL E} {ids : List Cell} (h : Repr l ids) (e : Option E) :
    indexOf l e = .ok (firstIndex (ids.map l.value) e) := by
  unfold indexOf
  rw [h.front, indexLoop_eq h e _ 0 _ (by have := h.count; omega), List.drop_zero]
  unfold firstIndex
  split <;> simp

theorem last_index_of {l : LL E} {ids : List Cell} (h : Repr l ids) (e : Option E) :
    lastIndexOf l e = .ok (lastIndex (ids.map l.value) e) := by
  unfold lastIndexOf
  have := lastLoop_eq h e ids.length l.fresh l.size h.count (Nat.le_refl _)
  have hr : l.rear = if ids.length = 0 then none else ids[ids.length - 1]? := by
    rw [h.rear]
    split
    · rw [List.getElem?_eq_none (by omega)]
    · rfl
  rw [hr, this, List.take_of_length_le (by simp), h.size]
  unfold lastIndex
  split <;> simp

private theorem idx_lt {xs : List (Option E)} {e : Option E} {k : Nat} (h : xs.idxOf? e = some k) :
    k < xs.length ∧ xs[k]? = some e := by
  unfold List.idxOf? at h
  obtain ⟨h1, h2, _⟩ := List.findIdx?_eq_some_iff_getElem.1 h
  refine ⟨h1, ?_⟩
  rw [List.getElem?_eq_getElem h1]
  simpa using h2

private theorem idx_none {xs : List (Option E)} {e : Option E} (h : xs.idxOf? e = none) : e ∉ xs := by
  simpa using h

theorem first_range (xs : List (Option E)) (e : Option E) :
    (firstIndex xs e = -1 ∧ e ∉ xs ∧ xs.idxOf? e = none) ∨
    ∃ k : Nat, firstIndex xs e = k ∧ k < xs.length ∧ e ∈ xs ∧ xs.idxOf? e = some k := by
  unfold firstIndex
  cases h : xs.idxOf? e with
  | none => exact .inl ⟨rfl, idx_none h, rfl⟩
  | some k =>
    obtain ⟨h1, h2⟩ := idx_lt h
    exact .inr ⟨k, rfl, h1, List.mem_of_getElem? h2, rfl⟩

theorem last_range (xs : List (Option E)) (e : Option E) :
    (lastIndex xs e = -1 ∧ e ∉ xs) ∨
    ∃ k : Nat, lastIndex xs e = k ∧ k < xs.length ∧ e ∈ xs := by
  unfold lastIndex
  cases h : xs.reverse.idxOf? e with
  | none => exact .inl ⟨rfl, by simpa using idx_none h⟩
  | some k =>
    obtain ⟨h1, h2⟩ := idx_lt h
    simp at h1
    exact .inr ⟨xs.length - 1 - k, by show (xs.length : Int) - 1 - k = _; omega, by omega, by simpa using List.mem_of_getElem? h2⟩

/-! ### All calls -/

omit [DecidableEq E] in
private theorem first_last {l : LL E} {ids : List Cell} (h : Repr l ids) :
    (l.front = none ∧ l.rear = none ∧ ids = []) ∨
    (∃ a b, l.front = some a ∧ l.rear = some b ∧ ids[0]? = some a ∧ ids[ids.length - 1]? = some b ∧
      ids ≠ [] ∧ (ids.map l.value).head? = some (l.value a) ∧
      (ids.map l.value).getLast? = some (l.value b)) := by
  by_cases hn : ids = []
  · left
    have h1 := h.front
    have h2 := h.rear
    subst hn
    exact ⟨by simpa using h1, by simpa using h2, rfl⟩
  · right
    have hp : 0 < ids.length := List.length_pos_iff.2 hn
    have h0 : ids[0]? = some (ids[0]'hp) := List.getElem?_eq_getElem hp
    have hl : ids[ids.length - 1]? = some (ids[ids.length - 1]'(by omega)) := List.getElem?_eq_getElem (by omega)
    refine ⟨_, _, by rw [h.front, h0], by rw [h.rear, hl], h0, hl, hn, ?_, ?_⟩
    · rw [List.head?_eq_getElem?, List.getElem?_map, h0]; rfl
    · rw [List.getLast?_eq_getElem?, List.length_map, List.getElem?_map, hl]; rfl

/-- C61: each call answers and changes the list as it should; the calls that do not are named in
`Usable`. -/
theorem call_spec_partial {l : LL E} {xs : List (Option E)} (h : Has l xs) (op : Op E) (hu : Usable xs op) :
    (call l op).1 = (spec xs op).1 ∧ Has (call l op).2 (spec xs op).2 := by
  have h' := h
  obtain ⟨ids, hr, rfl⟩ := h
  cases op with
  | add e =>
    obtain ⟨l', e1, h1⟩ := addLast_has h' e
    simp only [call, e1, answer, spec]
    exact ⟨trivial, h1⟩
  | addFirst e => exact ⟨rfl, addFirst_has h' e⟩
  | addAll es =>
    obtain ⟨l', e1, h1⟩ := addAll_has es h'
    simp only [call, e1, answer, spec]
    exact ⟨trivial, h1⟩
  | addAt i e =>
    simp only [Usable, List.length_map] at hu
    simp only [call, addAt, spec, List.length_map]
    by_cases h0 : i = 0
    · subst h0
      rw [if_pos rfl, if_pos (by omega)]
      exact ⟨rfl, by simpa [answer] using addFirst_has h' e⟩
    · rw [if_neg h0, if_neg (by omega), find_bad hr (by omega)]
      exact ⟨rfl, h'⟩
  | get i =>
    simp only [call, get, spec, List.length_map]
    rcases find_cases hr i with ⟨n, c, rfl, h1, h2⟩ | ⟨h1, h2⟩
    · obtain ⟨hlt, e⟩ := List.getElem?_eq_some_iff.1 h1
      rw [h2, dif_pos (by omega)]
      refine ⟨?_, h'⟩
      simp [Except.map, answer, e]
    · rw [h2, dif_neg h1]
      exact ⟨rfl, h'⟩
  | set i e =>
    simp only [call, setAt, spec, List.length_map]
    rcases find_cases hr i with ⟨n, c, rfl, h1, h2⟩ | ⟨h1, h2⟩
    · obtain ⟨hlt, e'⟩ := List.getElem?_eq_some_iff.1 h1
      rw [h2, dif_pos (by omega)]
      refine ⟨by simp [Except.map, answer, e'], ids, ⟨hr.nodup, hr.bound, hr.count, hr.front, hr.rear, hr.next,
        hr.prev0, hr.prevS, hr.size⟩, ?_⟩
      show ids.map (LinkedList.set l.value c e) = (ids.map l.value).set n e
      apply List.ext_getElem (by simp)
      intro k hk1 hk2
      rw [List.getElem_map, List.getElem_set, List.getElem_map]
      unfold LinkedList.set
      have hkl : k < ids.length := by simpa using hk1
      by_cases hkn : n = k
      · subst hkn; rw [if_pos e', if_pos rfl]
      · rw [if_neg hkn, if_neg]
        intro hh
        exact hkn (index_unique hr.nodup h1 (by rw [List.getElem?_eq_getElem hkl, hh]))
    · rw [h2, dif_neg h1]
      exact ⟨rfl, h'⟩
  | peekFirst =>
    refine ⟨?_, h'⟩
    rcases first_last hr with ⟨h1, _, h3⟩ | ⟨a, b, h1, _, _, _, _, h6, _⟩
    · subst h3; simp [call, peekFirst, spec, h1]
    · simp [call, peekFirst, spec, h1, h6, -List.head?_map]
  | getFirst =>
    rcases first_last hr with ⟨h1, _, h3⟩ | ⟨a, b, h1, _, _, _, _, h6, _⟩
    · subst h3; simp only [call, getFirst, spec, h1, answer]; exact ⟨rfl, h'⟩
    · simp only [call, getFirst, spec, h1, answer, h6]; exact ⟨trivial, h'⟩
  | peekLast =>
    refine ⟨?_, h'⟩
    rcases first_last hr with ⟨_, h1, h3⟩ | ⟨a, b, _, h1, _, _, _, _, h6⟩
    · subst h3; simp [call, peekLast, spec, h1]
    · simp [call, peekLast, spec, h1, h6, -List.getLast?_map]
  | getLast =>
    rcases first_last hr with ⟨_, h1, h3⟩ | ⟨a, b, _, h1, _, _, _, _, h6⟩
    · subst h3; simp only [call, getLast, spec, h1, answer]; exact ⟨rfl, h'⟩
    · simp only [call, getLast, spec, h1, answer, h6]; exact ⟨trivial, h'⟩
  | removeAt i =>
    simp only [call, removeAt, spec, List.length_map]
    rcases find_cases hr i with ⟨n, c, rfl, h1, h2⟩ | ⟨h1, h2⟩
    · obtain ⟨hlt, e⟩ := List.getElem?_eq_some_iff.1 h1
      rw [h2, dif_pos (by omega)]
      exact ⟨by simp [Except.map, answer, e], removeCell_has hr h1⟩
    · rw [h2, dif_neg h1]
      exact ⟨rfl, h'⟩
  | pollFirst =>
    rcases first_last hr with ⟨h1, _, h3⟩ | ⟨a, b, h1, _, h2, _, _, h6, _⟩
    · subst h3; simp only [call, pollFirst, spec, h1]; exact ⟨rfl, h'⟩
    · simp only [call, pollFirst, spec, h1, h6]
      refine ⟨rfl, ?_⟩
      have := removeCell_has hr h2
      rwa [List.eraseIdx_zero] at this
  | removeFirst =>
    simp only [Usable] at hu
    rcases first_last hr with ⟨h1, _, h3⟩ | ⟨a, b, h1, _, h2, _, _, h6, _⟩
    · subst h3; simp only [call, removeFirst, pollFirst, spec, h1, answer]; exact ⟨rfl, h'⟩
    · rw [h6] at hu
      have := removeCell_has hr h2
      rw [List.eraseIdx_zero] at this
      cases hv : l.value a with
      | none => rw [hv] at hu; exact absurd rfl hu
      | some v =>
        simp only [call, removeFirst, pollFirst, spec, h1, h6, hv, answer]
        exact ⟨trivial, this⟩
  | pollLast =>
    simp only [Usable, ne_eq, List.map_eq_nil_iff] at hu
    rcases first_last hr with ⟨_, _, h3⟩ | ⟨a, b, _, h1, _, h2, _, _, h6⟩
    · exact absurd h3 hu
    · simp only [call, pollLast, spec, h1, h6, answer]
      refine ⟨rfl, ?_⟩
      have := removeCell_has hr h2
      rwa [← List.length_map (f := l.value) (as := ids), List.eraseIdx_length_sub_one] at this
  | removeLast =>
    simp only [Usable] at hu
    rcases first_last hr with ⟨_, h1, h3⟩ | ⟨a, b, _, h1, _, h2, _, _, h6⟩
    · subst h3; simp only [call, removeLast, pollLast, spec, h1, answer]; exact ⟨rfl, h'⟩
    · rw [h6] at hu
      have := removeCell_has hr h2
      rw [← List.length_map (f := l.value) (as := ids), List.eraseIdx_length_sub_one] at this
      cases hv : l.value b with
      | none => rw [hv] at hu; exact absurd rfl hu
      | some v =>
        simp only [call, removeLast, pollLast, spec, h1, h6, hv, answer]
        exact ⟨trivial, this⟩
  | remove e =>
    simp only [call, removeObject, spec, find_object hr e]
    rw [List.erase_eq_eraseIdx]
    rcases first_range (ids.map l.value) e with ⟨_, h2, h3⟩ | ⟨k, _, h2, h3, h4⟩
    · simp only [h3, Except.map, answer, h2, decide_false]
      exact ⟨trivial, h'⟩
    · have hk : ids[k]? = some (ids[k]'(by simpa using h2)) := List.getElem?_eq_getElem (by simpa using h2)
      simp only [h4, hk, Except.map, answer, h3, decide_true]
      exact ⟨trivial, removeCell_has hr hk⟩
  | removeFirstOccurrence e =>
    simp only [Usable] at hu
    simp only [call, removeFirstOccurrence, spec, index_of hr e]
    rw [List.erase_eq_eraseIdx]
    rcases first_range (ids.map l.value) e with ⟨h1, h2, h3⟩ | ⟨k, h1, h2, h3, h4⟩
    · simp only [h1, h3, Except.bind, answer, h2, decide_false]
      exact ⟨rfl, h'⟩
    · have hk : ids[k]? = some (ids[k]'(by simpa using h2)) := List.getElem?_eq_getElem (by simpa using h2)
      simp only [h1, h4, Except.bind, h3, decide_true]
      rw [if_pos (by omega), removeAt, find_ok hr hk]
      exact ⟨rfl, removeCell_has hr hk⟩
  | removeLastOccurrence e =>
    simp only [Usable] at hu
    simp only [call, removeLastOccurrence, spec, last_index_of hr e]
    rcases last_range (ids.map l.value) e with ⟨h1, h2⟩ | ⟨k, h1, h2, h3⟩
    · simp only [h1, Except.bind, answer, h2, decide_false]
      exact ⟨rfl, h'⟩
    · have hk : ids[k]? = some (ids[k]'(by simpa using h2)) := List.getElem?_eq_getElem (by simpa using h2)
      simp only [h1, Except.bind, h3, decide_true]
      rw [if_pos (by omega), if_neg (by omega), removeAt, find_ok hr hk]
      exact ⟨rfl, removeCell_has hr hk⟩
  | clear =>
    refine ⟨rfl, [], ⟨by simp, by simp, by simp, rfl, rfl, by simp, by simp, by simp, rfl⟩, rfl⟩
  | contains e =>
    simp only [call, contains, spec, find_object hr e]
    rcases first_range (ids.map l.value) e with ⟨_, h2, h3⟩ | ⟨k, _, h2, h3, h4⟩
    · simp only [h3, Except.map, answer, h2, decide_false]
      exact ⟨rfl, h'⟩
    · have hk : ids[k]? = some (ids[k]'(by simpa using h2)) := List.getElem?_eq_getElem (by simpa using h2)
      simp only [h4, hk, Except.map, answer, h3, decide_true]
      exact ⟨rfl, h'⟩
  | indexOf e =>
    simp only [call, spec, index_of hr e, answer]
    exact ⟨trivial, h'⟩
  | lastIndexOf e =>
    simp only [call, spec, last_index_of hr e, answer]
    exact ⟨trivial, h'⟩
  | size => exact ⟨by simp [call, spec, hr.size], h'⟩
  | isEmpty =>
    refine ⟨?_, h'⟩
    simp only [call, isEmpty, spec, hr.size]
    cases ids <;> simp
    omega

/-- A sequence of usable calls. -/
def AllUsable : List (Option E) → List (Op E) → Prop
  | _, [] => True
  | xs, op :: ops => Usable xs op ∧ AllUsable (spec xs op).2 ops

def runSpec : List (Option E) → List (Op E) → List (Res E)
  | _, [] => []
  | xs, op :: ops => (spec xs op).1 :: runSpec (spec xs op).2 ops

def runCalls : LL E → List (Op E) → List (Res E)
  | _, [] => []
  | l, op :: ops => (call l op).1 :: runCalls (call l op).2 ops

/-- C61: any history of usable calls answers as it does on a sequence of elements. -/
theorem history_partial (ops : List (Op E)) (hu : AllUsable [] ops) :
    runCalls empty ops = runSpec [] ops := by
  have : ∀ (ops : List (Op E)) (l : LL E) (xs : List (Option E)), Has l xs → AllUsable xs ops →
      runCalls l ops = runSpec xs ops := by
    intro ops
    induction ops with
    | nil => intro l xs _ _; rfl
    | cons op ops ih =>
      intro l xs h hu
      obtain ⟨h1, h2⟩ := call_spec_partial h op hu.1
      rw [runCalls, runSpec, h1, ih _ _ h2 hu.2]
  exact this ops empty [] has_empty hu

example : runCalls (empty : LL Nat) [.add (some 1), .addFirst (some 2), .add none, .remove (some 1), .pollLast,
    .size, .get 0] = [.bool true, .unit, .bool true, .bool true, .elem none, .int 1, .elem (some 2)] := by
  rw [history_partial _ (by simp [AllUsable, Usable, spec])]
  decide +kernel

/-! ### Iterators -/

omit [DecidableEq E]

inductive ItOp where
  | next
  | previous
  | remove
  | hasNext
  | hasPrevious

/-- A list iterator: the elements, the number of elements before the cursor, and the position of the
element that was returned last, unless it was removed. -/
structure SpecIt (E : Type) where
  xs : List (Option E)
  cursor : Nat
  last : Option Nat

def specIt (s : SpecIt E) : ItOp → Res E × SpecIt E
  | .next =>
    if h : s.cursor < s.xs.length then (.elem s.xs[s.cursor], ⟨s.xs, s.cursor + 1, some s.cursor⟩)
    else (.exn .noSuchElement, s)
  | .previous =>
    if h : 0 < s.cursor ∧ s.cursor ≤ s.xs.length then
      (.elem (s.xs[s.cursor - 1]'(by omega)), ⟨s.xs, s.cursor - 1, some (s.cursor - 1)⟩)
    else (.exn .noSuchElement, s)
  | .remove =>
    match s.last with
    | some k => (.unit, ⟨s.xs.eraseIdx k, k, none⟩)
    | none => (.exn .illegalState, s)
  | .hasNext => (.bool (decide (s.cursor < s.xs.length)), s)
  | .hasPrevious => (.bool (decide (0 < s.cursor)), s)

def callIt (l : LL E) (it : It) : ItOp → Res E × LL E × It
  | .next => match itNext l it with | .ok (e, it') => (.elem e, l, it') | .error x => (.exn x, l, it)
  | .previous => match itPrevious l it with | .ok (e, it') => (.elem e, l, it') | .error x => (.exn x, l, it)
  | .remove => match itRemove l it with | .ok (l', it') => (.unit, l', it') | .error x => (.exn x, l, it)
  | .hasNext => (.bool (hasNext l it), l, it)
  | .hasPrevious => (.bool (hasPrevious it), l, it)

structure ItRel (l : LL E) (it : It) (s : SpecIt E) (ids : List Cell) : Prop where
  repr : Repr l ids
  text : ids.map l.value = s.xs
  bound : s.cursor ≤ ids.length
  current : it.current = if s.cursor = 0 then none else ids[s.cursor - 1]?
  last : ∀ k, s.last = some k → k < ids.length ∧ it.toRemove = ids[k]?
  fresh : s.last = none → it.toRemove = none

private theorem hasNext_eq {l : LL E} {it : It} {s : SpecIt E} {ids : List Cell} (h : ItRel l it s ids) :
    following l it = ids[s.cursor]? := by
  have hb := h.bound
  unfold following
  rw [h.current]
  by_cases h0 : s.cursor = 0
  · rw [if_pos h0, h0]; exact h.repr.front
  · have hc : ids[s.cursor - 1]? = some (ids[s.cursor - 1]'(by omega)) := List.getElem?_eq_getElem (by omega)
    rw [if_neg h0, hc]
    show l.next _ = _
    rw [h.repr.next _ _ hc]; congr 1; omega

private theorem it_step {l : LL E} {it : It} {s : SpecIt E} {ids : List Cell} (h : ItRel l it s ids) (op : ItOp) :
    (callIt l it op).1 = (specIt s op).1 ∧
    ∃ ids', ItRel (callIt l it op).2.1 (callIt l it op).2.2 (specIt s op).2 ids' := by
  have hb := h.bound
  have hn := hasNext_eq h
  have hlen : s.xs.length = ids.length := by rw [← h.text]; simp
  have hnb : hasNext l it = decide (s.cursor < s.xs.length) := by
    have : hasNext l it = (following l it).isSome := by
      unfold hasNext following; cases it.current <;> rfl
    rw [this, hn, hlen]
    by_cases hc : s.cursor < ids.length
    · rw [List.getElem?_eq_getElem hc]; simp [hc]
    · rw [List.getElem?_eq_none (by omega)]; simp [hc]
  cases op with
  | next =>
    simp only [callIt, specIt]
    unfold itNext
    rw [hnb]
    by_cases hc : s.cursor < s.xs.length
    · have hg : ids[s.cursor]? = some (ids[s.cursor]'(by omega)) := List.getElem?_eq_getElem (by omega)
      rw [dif_pos hc, if_pos (by simpa using hc), hn, hg]
      refine ⟨?_, ids, h.repr, h.text, by simp only; omega, ?_, ?_, by simp⟩
      · simp only [Res.elem.injEq]
        have : s.xs[s.cursor]? = some (l.value (ids[s.cursor]'(by omega))) := by
          rw [← h.text, List.getElem?_map, hg]; rfl
        rw [List.getElem?_eq_getElem hc] at this
        exact (Option.some.inj this).symm
      · simp only [Nat.add_sub_cancel]; rw [if_neg (by omega), hg]
      · intro k hk
        simp only [Option.some.injEq] at hk
        subst hk
        exact ⟨by omega, hg.symm⟩
    · rw [dif_neg hc, if_neg (by simpa using hc)]
      exact ⟨rfl, ids, h⟩
  | previous =>
    simp only [callIt, specIt]
    unfold itPrevious
    rw [h.current]
    by_cases hc : s.cursor = 0
    · rw [dif_neg (by omega), if_pos hc]
      exact ⟨rfl, ids, h⟩
    · have hg : ids[s.cursor - 1]? = some (ids[s.cursor - 1]'(by omega)) := List.getElem?_eq_getElem (by omega)
      rw [dif_pos (by omega), if_neg hc, hg]
      refine ⟨?_, ids, h.repr, h.text, by simp only; omega, ?_, ?_, by simp⟩
      · simp only [Res.elem.injEq]
        have : s.xs[s.cursor - 1]? = some (l.value (ids[s.cursor - 1]'(by omega))) := by
          rw [← h.text, List.getElem?_map, hg]; rfl
        rw [List.getElem?_eq_getElem (by omega)] at this
        exact (Option.some.inj this).symm
      · exact prev_eq h.repr hg
      · intro k hk
        simp only [Option.some.injEq] at hk
        subst hk
        exact ⟨by omega, hg.symm⟩
  | remove =>
    simp only [callIt, specIt]
    unfold itRemove
    cases hl : s.last with
    | none =>
      rw [h.fresh hl]
      exact ⟨rfl, ids, h⟩
    | some k =>
      obtain ⟨hk, ht⟩ := h.last k hl
      have hg : ids[k]? = some (ids[k]'hk) := List.getElem?_eq_getElem hk
      rw [ht, hg]
      refine ⟨rfl, ids.eraseIdx k, removeCell_repr h.repr hg, ?_, ?_, ?_, by simp, by simp⟩
      · show _ = s.xs.eraseIdx k
        rw [removeCell_value h.repr hg, ← h.text, map_eraseIdx]
      · simp only
        rw [List.length_eraseIdx_of_lt hk]; omega
      · show l.prev _ = _
        rw [prev_eq h.repr hg]
        simp only
        split
        · rfl
        · rw [List.getElem?_eraseIdx, if_pos (by omega)]
  | hasNext => exact ⟨by simp only [callIt, specIt, hnb], ids, h⟩
  | hasPrevious =>
    refine ⟨?_, ids, h⟩
    simp only [callIt, specIt, hasPrevious, h.current]
    by_cases hc : s.cursor = 0
    · simp [hc]
    · rw [if_neg hc, List.getElem?_eq_getElem (by omega)]; simp; omega

def runIt : LL E → It → List ItOp → List (Res E) × LL E
  | l, _, [] => ([], l)
  | l, it, op :: ops =>
    ((callIt l it op).1 :: (runIt (callIt l it op).2.1 (callIt l it op).2.2 ops).1,
      (runIt (callIt l it op).2.1 (callIt l it op).2.2 ops).2)

def runSpecIt : SpecIt E → List ItOp → List (Res E) × List (Option E)
  | s, [] => ([], s.xs)
  | s, op :: ops => ((specIt s op).1 :: (runSpecIt (specIt s op).2 ops).1, (runSpecIt (specIt s op).2 ops).2)

private theorem it_run : ∀ (ops : List ItOp) (l : LL E) (it : It) (s : SpecIt E) (ids : List Cell),
    ItRel l it s ids → (runIt l it ops).1 = (runSpecIt s ops).1 ∧ Has (runIt l it ops).2 (runSpecIt s ops).2 := by
  intro ops
  induction ops with
  | nil => intro l it s ids h; exact ⟨rfl, ids, h.repr, h.text⟩
  | cons op ops ih =>
    intro l it s ids h
    obtain ⟨h1, ids', h2⟩ := it_step h op
    obtain ⟨h3, h4⟩ := ih _ _ _ _ h2
    refine ⟨?_, h4⟩
    rw [runIt, runSpecIt, h1, h3]

/-- `listIterator(n)` starts behind `n` elements. -/
theorem listIterator_starts {l : LL E} {xs : List (Option E)} (h : Has l xs) : ∀ (n : Nat), n ≤ xs.length →
    ∃ it last ids, listIterator l n = .ok it ∧ ItRel l it ⟨xs, n, last⟩ ids := by
  obtain ⟨ids, h, rfl⟩ := h
  have : ∀ n, n ≤ ids.length → ∃ it last, listIterator l n = .ok it ∧ ItRel l it ⟨ids.map l.value, n, last⟩ ids := by
    intro n
    induction n with
    | zero => intro _; exact ⟨_, none, rfl, h, rfl, Nat.zero_le _, rfl, by simp, fun _ => rfl⟩
    | succ n ih =>
      intro hn
      obtain ⟨it, last, e, hr⟩ := ih (by omega)
      have hb : n < (ids.map l.value).length := by simp; omega
      have hg : ids[n]? = some (ids[n]'(by omega)) := List.getElem?_eq_getElem (by omega)
      have hnx := hasNext_eq hr
      simp only at hnx
      refine ⟨⟨some (ids[n]'(by omega)), some (ids[n]'(by omega))⟩, some n, ?_, h, rfl, by simpa using hn, ?_, ?_, by simp⟩
      · rw [listIterator, e]
        show (itNext l it).map Prod.snd = _
        unfold itNext
        have : hasNext l it = (following l it).isSome := by
          unfold hasNext following; cases it.current <;> rfl
        rw [this, hnx, hg]
        simp only [Option.isSome_some, if_true]
        rfl
      · simp [hg]
      · intro k hk
        simp only [Option.some.injEq] at hk
        subst hk
        exact ⟨by omega, hg.symm⟩
  intro n hn
  obtain ⟨it, last, e, hr⟩ := this n (by simpa using hn)
  exact ⟨it, last, ids, e, hr⟩

/-- C61: an iterator started anywhere answers any sequence of calls as a list iterator should, and
leaves the list that the removals leave. -/
theorem iterator_spec {l : LL E} {xs : List (Option E)} (h : Has l xs) (n : Nat) (hn : n ≤ xs.length)
    (ops : List ItOp) : ∃ it last, listIterator l n = .ok it ∧
      (runIt l it ops).1 = (runSpecIt ⟨xs, n, last⟩ ops).1 ∧
      Has (runIt l it ops).2 (runSpecIt ⟨xs, n, last⟩ ops).2 := by
  obtain ⟨it, last, ids, e, hr⟩ := listIterator_starts h n hn
  exact ⟨it, last, e, it_run ops l it _ ids hr⟩

/-- C61: a loop over the whole list meets every element once, in order. -/
theorem iterator_visits_all {l : LL E} {xs : List (Option E)} (h : Has l xs) :
    ∃ it, listIterator l 0 = .ok it ∧
      (runIt l it (List.replicate xs.length .next ++ [.hasNext])).1 = xs.map .elem ++ [.bool false] := by
  obtain ⟨it, last, e, h1, _⟩ := iterator_spec h 0 (Nat.zero_le _) (List.replicate xs.length .next ++ [.hasNext])
  refine ⟨it, e, ?_⟩
  rw [h1]
  have : ∀ (m n : Nat) (last : Option Nat), n + m = xs.length →
      (runSpecIt ⟨xs, n, last⟩ (List.replicate m .next ++ [.hasNext])).1 =
        (xs.drop n).map .elem ++ [.bool false] := by
    intro m
    induction m with
    | zero =>
      intro n last hn
      rw [List.drop_eq_nil_of_le (by omega)]
      simp only [List.replicate_zero, List.nil_append, runSpecIt, specIt, List.map_nil]
      simp; omega
    | succ m ih =>
      intro n last hn
      rw [List.replicate_succ, List.cons_append, runSpecIt]
      simp only [specIt]
      rw [dif_pos (by omega)]
      simp only
      rw [ih (n + 1) _ (by omega), List.drop_eq_getElem_cons (i := n) (by omega), List.map_cons, List.cons_append]
  exact this xs.length 0 last (by omega)

/-! ### Calls that go wrong -/

variable [DecidableEq E]

/-- C61 (limit of the code): `add(size(), e)` is refused unless the list is empty. -/
theorem addAt_end_refused {l : LL E} {xs : List (Option E)} (h : Has l xs) (e : Option E) (hx : xs ≠ []) :
    call l (.addAt xs.length e) = (.exn .indexOutOfBounds, l) := by
  obtain ⟨ids, hr, rfl⟩ := h
  have hp : 0 < ids.length := by
    rcases ids with _ | ⟨a, t⟩
    · simp at hx
    · simp
  simp only [call, addAt, List.length_map]
  rw [if_neg (by omega), find_bad hr (by omega)]
  rfl

/-- C61 (limit of the code): `add(1, e)` in the middle does not count the element, and it is not found
from the end; the next removal before it drops it. -/
theorem addAt_corrupts : runCalls (empty : LL Nat) [.add (some 1), .add (some 2), .addAt 1 (some 9), .get 1, .size,
      .lastIndexOf (some 9), .pollLast, .contains (some 9)] =
    [.bool true, .bool true, .unit, .elem (some 9), .int 2, .int (-1), .elem (some 2), .bool false] := by
  decide +kernel

/-- C61 (limit of the code): an occurrence at the beginning is not removed. -/
theorem first_occurrence_stays {l : LL E} {xs : List (Option E)} (h : Has l xs) (e : Option E)
    (h0 : firstIndex xs e = 0) : call l (.removeFirstOccurrence e) = (.bool false, l) := by
  obtain ⟨ids, hr, rfl⟩ := h
  simp only [call, removeFirstOccurrence, index_of hr e, Except.bind, h0]
  rfl

theorem last_occurrence_stays {l : LL E} {xs : List (Option E)} (h : Has l xs) (e : Option E)
    (h0 : lastIndex xs e = 0) : call l (.removeLastOccurrence e) = (.bool false, l) := by
  obtain ⟨ids, hr, rfl⟩ := h
  simp only [call, removeLastOccurrence, last_index_of hr e, Except.bind, h0]
  rfl

/-- C61 (limit of the code): `pollLast` of an empty list throws. -/
theorem pollLast_throws : call (empty : LL E) .pollLast = (.exn .noSuchElement, empty) := rfl

/-- C61 (limit of the code): `removeFirst` of a null element removes it and throws. -/
theorem removeFirst_null {l : LL E} {xs : List (Option E)} (h : Has l (none :: xs)) :
    (call l .removeFirst).1 = .exn .noSuchElement ∧ Has (call l .removeFirst).2 xs := by
  obtain ⟨ids, hr, hx⟩ := h
  rcases first_last hr with ⟨h1, _, h3⟩ | ⟨a, b, h1, _, h2, _, _, h6, _⟩
  · subst h3; simp at hx
  · have := removeCell_has hr h2
    rw [List.eraseIdx_zero, hx, List.tail_cons] at this
    rw [hx] at h6
    simp only [List.head?_cons, Option.some.injEq] at h6
    simp only [call, removeFirst, pollFirst, h1, ← h6, answer]
    exact ⟨trivial, this⟩

example : Has (call (call (empty : LL Nat) (.add none)).2 (.add (some 1))).2 [none, some 1] :=
  (call_spec_partial (call_spec_partial has_empty (.add none) trivial).2 (.add (some 1)) trivial).2

end Avian.LinkedList
