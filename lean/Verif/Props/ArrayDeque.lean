import Verif.Lib.ArrayDeque
import Verif.Props.ArrayList

/-
C70: array deques.
-/
namespace Avian.ArrayDeque

open ArrayList (Exn copy newArray load store copy_ok newArray_ok store_ok)

variable {V : Type}

/-! ### The ring -/

/-- The place of the element `i` in a ring of `c` places that starts at `s`. -/
def pos (s i c : Nat) : Nat := if s + i < c then s + i else s + i - c

/-- The deque has the elements `es`, the first of them at `s`. -/
structure Rep (d : Dq V) (es : List (Option V)) (s : Nat) : Prop where
  start : d.start = s
  inside : s < d.data.length
  size : d.size = es.length
  fits : es.length ≤ d.data.length
  fin : d.fin = if es.length = 0 then (0 : Int) else (pos s (es.length - 1) d.data.length : Nat)
  zero : es.length = 0 → s = 0
  elems : ∀ i, i < es.length → d.data[pos s i d.data.length]? = es[i]?

theorem copy_get {A : Type} (src dst : List A) (s d n : Nat) (h1 : s + n ≤ src.length) (h2 : d + n ≤ dst.length) :
    ∃ a, copy src dst s d n = .ok a ∧ a.length = dst.length ∧
      ∀ j, a[j]? = if d ≤ j ∧ j < d + n then src[s + (j - d)]? else dst[j]? := by
  refine ⟨_, copy_ok src dst s d n h1 h2, by simp; omega, ?_⟩
  intro j
  rw [List.append_assoc, List.getElem?_append, List.getElem?_append]
  simp only [List.length_take, List.length_drop]
  by_cases h1 : j < d
  · rw [if_pos (by omega), if_neg (by omega), List.getElem?_take, if_pos h1]
  · rw [if_neg (by omega)]
    by_cases h2 : j < d + n
    · rw [if_pos (by omega), if_pos (by omega), List.getElem?_take, if_pos (by omega), List.getElem?_drop]
      congr 1; omega
    · rw [if_neg (by omega), if_neg (by omega), List.getElem?_drop]
      congr 1; omega

theorem load_get {a : List (Option V)} {i : Nat} {v : Option V} (h : a[i]? = some v) : load a i = .ok v := by
  unfold load
  rw [if_pos (by omega)]
  simp [h]

theorem tmod_pos {s i c : Nat} (hs : s < c) (hi : i ≤ c) : ((i : Int) + s).tmod c = (pos s i c : Nat) := by
  rw [← Int.natCast_add, ← Int.ofNat_tmod]
  congr 1
  unfold pos
  split
  · rw [Nat.mod_eq_of_lt (by omega)]; omega
  · rw [Nat.mod_eq_sub_mod (by omega), Nat.mod_eq_of_lt (by omega)]; omega

theorem copyInto_ok {d : Dq V} {es : List (Option V)} {s : Nat} (h : Rep d es s) (array : List (Option V))
    (hl : es.length ≤ array.length) :
    ∃ a, copyInto d array = .ok a ∧ a.length = array.length ∧ ∀ i, i < es.length → a[i]? = es[i]? := by
  have hin := h.inside
  have hfit := h.fits
  have hfin := h.fin
  unfold copyInto
  by_cases h0 : es.length = 0
  · rw [if_pos h0] at hfin
    rw [h.start, hfin, h.zero h0, if_pos (by simp), h.size, h0]
    obtain ⟨a, h1, h2, _⟩ := copy_get d.data array 0 0 0 (by omega) (by omega)
    exact ⟨a, h1, h2, by omega⟩
  · rw [if_neg h0] at hfin
    unfold pos at hfin
    by_cases hw : s + (es.length - 1) < d.data.length
    · rw [if_pos hw] at hfin
      rw [if_pos (by rw [h.start, hfin]; omega), h.start, h.size]
      obtain ⟨a, h1, h2, h3⟩ := copy_get d.data array s 0 es.length (by omega) (by omega)
      refine ⟨a, h1, h2, ?_⟩
      intro i hi
      rw [h3, if_pos (by omega), ← h.elems i hi]
      unfold pos
      rw [if_pos (by omega)]
      congr 1
    · rw [if_neg hw] at hfin
      rw [if_neg (by rw [h.start, hfin]; omega), h.start, hfin]
      obtain ⟨a, h1, h2, h3⟩ := copy_get d.data array s 0 (d.data.length - s) (by omega) (by omega)
      rw [show ((d.data.length : Int) - s) = ((d.data.length - s : Nat) : Int) by omega,
        show (((s + (es.length - 1) - d.data.length : Nat) : Int) + 1) = ((s + es.length - d.data.length : Nat) : Int)
          by omega]
      rw [show ((0 : Int)) = ((0 : Nat) : Int) from rfl, h1]
      obtain ⟨b, g1, g2, g3⟩ := copy_get d.data a 0 (d.data.length - s) (s + es.length - d.data.length)
        (by omega) (by omega)
      simp only [Except.bind]
      refine ⟨b, g1, by omega, ?_⟩
      intro i hi
      rw [g3, ← h.elems i hi]
      unfold pos
      by_cases hi' : s + i < d.data.length
      · rw [if_pos hi', if_neg (by omega), h3, if_pos (by omega)]
        congr 1
      · rw [if_neg hi', if_pos (by omega)]
        congr 1; omega

/-- There is room for a further element, if the deque is not empty or has a place. -/
theorem ensure_ok {d : Dq V} {es : List (Option V)} {s : Nat} (h : Rep d es s) (n : Nat)
    (hn : es ≠ [] ∨ n ≤ d.data.length) :
    ∃ d' s', ensureCapacity d n = .ok d' ∧ Rep d' es s' ∧ d'.modCount = d.modCount ∧
      d.data.length ≤ d'.data.length ∧ (n ≤ es.length + 1 → n ≤ d'.data.length) := by
  have hin := h.inside
  have hfit := h.fits
  unfold ensureCapacity
  by_cases hc : d.data.length < n
  · rw [if_pos (by omega)]
    have hne : es ≠ [] := by
      rcases hn with h1 | h1
      · exact h1
      · omega
    have hpos : 0 < es.length := List.length_pos_iff.2 hne
    rw [newArray_ok]
    simp only [Except.bind]
    obtain ⟨a, h1, h2, h3⟩ := copyInto_ok h (List.replicate (d.data.length * 2) none) (by simp; omega)
    rw [h1]
    simp only [List.length_replicate] at h2
    refine ⟨_, 0, rfl, ⟨rfl, by simp only; omega, h.size, by simp only; omega, ?_, fun _ => rfl, ?_⟩, rfl, by simp only; omega, ?_⟩
    · simp only [h.size, h2]
      rw [if_neg (by omega)]
      unfold pos
      rw [if_pos (by omega)]; omega
    · intro i hi
      simp only
      rw [← h3 i hi]
      unfold pos
      rw [if_pos (by omega), Nat.zero_add]
    · intro; simp only; omega
  · rw [if_neg (by omega)]
    exact ⟨d, s, rfl, h, rfl, Nat.le_refl _, fun _ => by omega⟩

theorem set_get {a : List (Option V)} {p : Nat} (hp : p < a.length) (v : Option V) (j : Nat) :
    (a.set p v)[j]? = if j = p then some v else a[j]? := by
  rw [List.getElem?_set]
  by_cases h : p = j
  · subst h; simp [hp]
  · rw [if_neg h, if_neg (fun e => h e.symm)]

theorem offerLast_ok {d : Dq V} {es : List (Option V)} {s : Nat} (h : Rep d es s) (v : Option V) :
    ∃ d' s', offerLast d v = .ok d' ∧ Rep d' (es ++ [v]) s' ∧ d.data.length ≤ d'.data.length := by
  obtain ⟨d1, s1, e1, h1, _, hlen, hroom⟩ := ensure_ok h (es.length + 1) (by
    cases es with
    | nil => have := h.inside; right; simp; omega
    | cons x l => left; simp)
  have hroom := hroom (Nat.le_refl _)
  unfold offerLast
  rw [h.size, show ((es.length : Int) + 1) = ((es.length + 1 : Nat) : Int) by omega, e1]
  simp only [Except.bind]
  have hin := h1.inside
  have hfin := h1.fin
  have hp : (if d1.size > 0 then (d1.fin + 1).tmod d1.data.length else d1.fin) =
      (pos s1 es.length d1.data.length : Nat) := by
    by_cases h0 : es.length = 0
    · rw [if_neg (by rw [h1.size]; omega), hfin, if_pos h0, h1.zero h0, h0]
      unfold pos; rw [if_pos (by omega)]; rfl
    · rw [if_pos (by rw [h1.size]; omega), hfin, if_neg h0]
      have := tmod_pos (s := pos s1 (es.length - 1) d1.data.length) (i := 1) (c := d1.data.length)
        (by unfold pos; split <;> omega) (by omega)
      rw [Int.add_comm, show (1 : Int) = ((1 : Nat) : Int) from rfl, this]
      congr 1
      unfold pos
      split <;> split <;> split <;> omega
  rw [hp]
  have hpl : pos s1 es.length d1.data.length < d1.data.length := by unfold pos; split <;> omega
  rw [store_ok _ _ hpl]
  refine ⟨_, s1, rfl, ⟨h1.start, by simpa using hin, by simp [h1.size], by simpa using hroom, ?_, by simp, ?_⟩, by simpa using hlen⟩
  · simp
  · intro i hi
    simp only [List.length_set]
    simp only [List.length_append, List.length_cons, List.length_nil] at hi
    rw [set_get hpl]
    by_cases hie : i = es.length
    · subst hie; simp
    · rw [if_neg (by unfold pos; split <;> split <;> omega), h1.elems i (by omega),
        List.getElem?_append_left (by omega)]

theorem offerFirst_ok {d : Dq V} {es : List (Option V)} {s : Nat} (h : Rep d es s) (v : Option V) :
    ∃ d' s', offerFirst d v = .ok d' ∧ Rep d' (v :: es) s' ∧ d.data.length ≤ d'.data.length := by
  obtain ⟨d1, s1, e1, h1, _, hlen, hroom⟩ := ensure_ok h (es.length + 1) (by
    cases es with
    | nil => have := h.inside; right; simp; omega
    | cons x l => left; simp)
  have hroom := hroom (Nat.le_refl _)
  unfold offerFirst
  rw [h.size, show ((es.length : Int) + 1) = ((es.length + 1 : Nat) : Int) by omega, e1]
  simp only [Except.bind]
  have hin := h1.inside
  have hfin := h1.fin
  generalize hs2 : (if es.length = 0 then s1 else if s1 = 0 then d1.data.length - 1 else s1 - 1) = s2
  have hp : (if d1.size > 0 then (if d1.start - 1 < 0 then (d1.data.length : Int) - 1 else d1.start - 1) else d1.start) =
      (s2 : Nat) := by
    rw [h1.size, h1.start]
    by_cases h0 : es.length = 0
    · rw [if_neg (by omega)]; rw [if_pos h0] at hs2; omega
    · rw [if_pos (by omega)]; rw [if_neg h0] at hs2
      split <;> split at hs2 <;> omega
  rw [hp]
  clear hp
  have hpl : s2 < d1.data.length := by
    split at hs2
    · omega
    · split at hs2 <;> omega
  rw [store_ok _ _ hpl]
  refine ⟨_, s2, rfl, ⟨rfl, by simpa using hpl, by simp [h1.size], by simpa using hroom, ?_, by simp, ?_⟩, by simpa using hlen⟩
  · simp only [List.length_cons, List.length_set]
    rw [hfin, if_neg (Nat.succ_ne_zero _)]
    by_cases h0 : es.length = 0
    · rw [if_pos h0] at hs2 ⊢
      have := h1.zero h0
      unfold pos
      rw [if_pos (by omega)]; omega
    · rw [if_neg h0] at hs2 ⊢
      congr 1
      unfold pos
      split at hs2 <;> split <;> split <;> omega
  · intro i hi
    simp only [List.length_set]
    simp only [List.length_cons] at hi
    rw [set_get hpl]
    cases i with
    | zero =>
      rw [if_pos (by unfold pos; rw [if_pos (by omega)]; rfl)]
      simp
    | succ i =>
      rw [if_neg (by unfold pos; split <;> omega), List.getElem?_cons_succ, ← h1.elems i (by omega)]
      rw [if_neg (by omega)] at hs2
      congr 1
      unfold pos
      split at hs2 <;> split <;> split <;> omega

theorem rep_empty {d : Dq V} (h : 0 < d.data.length) (h1 : d.start = 0) (h2 : d.fin = 0) (h3 : d.size = 0) :
    Rep d [] 0 :=
  ⟨h1, h, h3, by simp, by simp [h2], fun _ => rfl, by simp⟩

theorem rep_mod {d : Dq V} {es : List (Option V)} {s : Nat} (h : Rep d es s) (m : Nat) : Rep { d with modCount := m } es s :=
  ⟨h.start, h.inside, h.size, h.fits, h.fin, h.zero, h.elems⟩

theorem peekFirst_ok {d : Dq V} {es : List (Option V)} {s : Nat} (h : Rep d es s) :
    peekFirst d = .ok es.head?.join := by
  unfold peekFirst
  have hin := h.inside
  cases es with
  | nil => rw [if_pos (by simpa using h.size)]; rfl
  | cons x l =>
    rw [if_neg (by rw [h.size]; simp; omega), h.start]
    apply load_get
    have := h.elems 0 (by simp)
    unfold pos at this
    rw [if_pos (by omega)] at this
    simpa using this

theorem peekLast_ok {d : Dq V} {es : List (Option V)} {s : Nat} (h : Rep d es s) :
    peekLast d = .ok es.getLast?.join := by
  unfold peekLast
  rcases List.eq_nil_or_concat es with rfl | ⟨l, x, rfl⟩
  · rw [if_pos (by simpa using h.size)]; rfl
  · rw [List.concat_eq_append] at h ⊢
    rw [if_neg (by rw [h.size]; simp; omega), h.fin, if_neg (by simp)]
    apply load_get
    have := h.elems l.length (by simp)
    simpa using this

theorem pollFirst_ok {d : Dq V} {es : List (Option V)} {s : Nat} (h : Rep d es s) :
    ∃ d' s', pollFirst d = .ok (es.head?.join, d') ∧ Rep d' es.tail s' ∧ d'.data = d.data := by
  have hin := h.inside
  have hfit := h.fits
  have hpk := peekFirst_ok h
  unfold pollFirst
  unfold peekFirst at hpk
  cases es with
  | nil =>
    have h0 : d.size = 0 := by simpa using h.size
    rw [if_pos h0]
    exact ⟨_, s, rfl, rep_mod h _, rfl⟩
  | cons x l =>
    have hsz := h.size
    simp only [List.length_cons] at hsz hfit
    rw [if_neg (by omega)] at hpk ⊢
    rw [hpk]
    simp only [Except.bind]
    by_cases h1 : l.length = 0
    · rw [if_pos (by omega)]
      have := List.length_eq_zero_iff.1 h1
      subst this
      exact ⟨_, 0, rfl, rep_empty (by simp only; omega) rfl rfl rfl, rfl⟩
    · rw [if_neg (by omega)]
      refine ⟨_, pos s 1 d.data.length, rfl, ⟨?_, ?_, ?_, ?_, ?_, ?_, ?_⟩, rfl⟩
      · simp only [h.start]
        have := tmod_pos (s := s) (i := 1) (c := d.data.length) hin (by omega)
        rw [Int.add_comm]; exact this
      · simp only; unfold pos; split <;> omega
      · simp only [List.tail_cons]; omega
      · simp only [List.tail_cons]; omega
      · show d.fin = if l.length = 0 then (0 : Int) else (pos (pos s 1 d.data.length) (l.length - 1) d.data.length : Nat)
        rw [h.fin, if_neg (by simp), if_neg (by omega)]
        congr 1
        simp only [List.length_cons]
        unfold pos
        split <;> split <;> split <;> omega
      · simp only [List.tail_cons]; omega
      · intro i hi
        simp only [List.tail_cons] at hi ⊢
        have := h.elems (i + 1) (by simp; omega)
        rw [List.getElem?_cons_succ] at this
        rw [← this]
        congr 1
        unfold pos
        split <;> split <;> split <;> omega

theorem pollLast_ok {d : Dq V} {es : List (Option V)} {s : Nat} (h : Rep d es s) :
    ∃ d' s', pollLast d = .ok (es.getLast?.join, d') ∧ Rep d' es.dropLast s' ∧ d'.data = d.data := by
  have hin := h.inside
  have hfit := h.fits
  have hpk := peekLast_ok h
  unfold pollLast
  unfold peekLast at hpk
  rcases List.eq_nil_or_concat es with rfl | ⟨l, x, rfl⟩
  · have h0 : d.size = 0 := by simpa using h.size
    rw [if_pos h0]
    exact ⟨_, s, rfl, rep_mod h _, rfl⟩
  · rw [List.concat_eq_append] at h hfit hpk ⊢
    have hsz := h.size
    simp only [List.length_append, List.length_cons, List.length_nil, Nat.zero_add] at hsz hfit
    rw [if_neg (by omega)] at hpk ⊢
    rw [hpk]
    simp only [Except.bind]
    by_cases h1 : l.length = 0
    · rw [if_pos (by omega)]
      have := List.length_eq_zero_iff.1 h1
      subst this
      exact ⟨_, 0, rfl, rep_empty (by simp only; omega) rfl rfl rfl, rfl⟩
    · rw [if_neg (by omega)]
      have hfin := h.fin
      rw [if_neg (by simp)] at hfin
      simp only [List.length_append, List.length_cons, List.length_nil, Nat.zero_add, Nat.add_sub_cancel] at hfin
      refine ⟨_, s, rfl, ⟨h.start, hin, ?_, ?_, ?_, ?_, ?_⟩, rfl⟩
      · simp only [List.dropLast_concat]; omega
      · simp only [List.dropLast_concat]; omega
      · simp only [List.dropLast_concat]
        rw [hfin, if_neg h1]
        unfold pos
        split <;> split <;> split <;> omega
      · simp only [List.dropLast_concat]; omega
      · intro i hi
        simp only [List.dropLast_concat] at hi ⊢
        rw [h.elems i (by simp; omega), List.getElem?_append_left hi]

theorem addEach_ok : ∀ (vs : List (Option V)) {d : Dq V} {es : List (Option V)} {s : Nat}, Rep d es s →
    ∃ d' s', addEach d vs = .ok d' ∧ Rep d' (es ++ vs) s' ∧ d.data.length ≤ d'.data.length
  | [], d, es, s, h => ⟨d, s, rfl, by simpa using h, Nat.le_refl _⟩
  | v :: vs, d, es, s, h => by
    obtain ⟨d1, s1, e1, h1, l1⟩ := offerLast_ok h v
    obtain ⟨d2, s2, e2, h2, l2⟩ := addEach_ok vs h1
    exact ⟨d2, s2, by simp only [addEach, e1, Except.bind, e2], by simpa using h2, by omega⟩

theorem addAll_ok {d : Dq V} {es : List (Option V)} {s : Nat} (h : Rep d es s) (vs : List (Option V))
    (hv : es ≠ [] ∨ vs.length ≤ d.data.length) :
    ∃ d' s', addAll d vs = .ok (!vs.isEmpty, d') ∧ Rep d' (es ++ vs) s' ∧ d.data.length ≤ d'.data.length := by
  unfold addAll
  cases vs with
  | nil => exact ⟨d, s, rfl, by simpa using h, Nat.le_refl _⟩
  | cons v vs =>
    rw [if_neg (by simp), h.size, ← Int.natCast_add]
    obtain ⟨d1, s1, e1, h1, _, l1, _⟩ := ensure_ok h (es.length + (v :: vs).length) (by
      cases es with
      | nil =>
        right
        rcases hv with hv | hv
        · exact absurd rfl hv
        · simpa using hv
      | cons x l => left; simp)
    obtain ⟨d2, s2, e2, h2, l2⟩ := addEach_ok (v :: vs) h1
    rw [e1]
    simp only [Except.bind, e2]
    exact ⟨d2, s2, rfl, h2, by omega⟩

theorem toArray_ok {d : Dq V} {es : List (Option V)} {s : Nat} (h : Rep d es s) : toArray d = .ok es := by
  unfold toArray
  rw [h.size, newArray_ok]
  simp only [Except.bind]
  obtain ⟨a, h1, h2, h3⟩ := copyInto_ok h (List.replicate es.length none) (by simp)
  rw [h1]
  congr 1
  apply List.ext_getElem?
  intro i
  simp only [List.length_replicate] at h2
  by_cases hi : i < es.length
  · exact h3 i hi
  · rw [List.getElem?_eq_none (by omega), List.getElem?_eq_none (by omega)]

theorem next_ok {d : Dq V} {es : List (Option V)} {s : Nat} (h : Rep d es s) (k : Nat) (hk : k < es.length) :
    next d ⟨false, d.modCount, k⟩ = .ok (es[k], ⟨false, d.modCount, (k + 1 : Nat)⟩) := by
  unfold next
  have hin := h.inside
  have hfit := h.fits
  rw [if_neg (by simp), if_neg (by rw [h.size]; simp only; omega)]
  have : arrayIndex d ⟨false, d.modCount, k⟩ = (pos s k d.data.length : Nat) := by
    unfold arrayIndex
    simp only [Bool.false_eq_true, if_false, h.start]
    exact tmod_pos hin (by omega)
  rw [this, load_get (v := es[k]) (by rw [h.elems k hk, List.getElem?_eq_getElem hk])]
  rfl

theorem hasNext_iff {d : Dq V} {es : List (Option V)} {s : Nat} (h : Rep d es s) (b : Bool) (m k : Nat) :
    hasNext d ⟨b, m, k⟩ = decide (k < es.length) := by
  unfold hasNext
  rw [h.size]
  simp only [decide_eq_decide]; omega

theorem collect_ok {d : Dq V} {es : List (Option V)} {s : Nat} (h : Rep d es s) :
    ∀ n k, n + k = es.length → collect d n ⟨false, d.modCount, (k : Nat)⟩ = .ok (es.drop k) := by
  intro n
  induction n with
  | zero =>
    intro k hk
    unfold collect
    rw [hasNext_iff h, List.drop_eq_nil_of_le (by omega), decide_eq_false (by omega)]
    rfl
  | succ n ih =>
    intro k hk
    unfold collect
    have hlt : k < es.length := by omega
    rw [hasNext_iff h, decide_eq_true hlt, if_pos rfl, next_ok h k hlt]
    simp only [Except.bind]
    rw [ih (k + 1) (by omega)]
    simp only
    rw [List.drop_eq_getElem_cons hlt]

theorem contains_ok {d : Dq V} {es : List (Option V)} {s : Nat} (h : Rep d es s) (test : Option V → Bool) :
    ∀ n k, n + k = es.length + 1 → k ≤ es.length →
      containsLoop d test n ⟨false, d.modCount, (k : Nat)⟩ = .ok ((es.drop k).any test) := by
  intro n
  induction n with
  | zero => intro k hk hk'; omega
  | succ n ih =>
    intro k hk hk'
    unfold containsLoop
    by_cases hlt : k < es.length
    · rw [hasNext_iff h, decide_eq_true hlt, if_pos rfl, next_ok h k hlt]
      simp only [Except.bind]
      rw [List.drop_eq_getElem_cons hlt, List.any_cons]
      cases ht : test es[k] with
      | true => simp
      | false =>
        simp only [Bool.false_eq_true, if_false, Bool.false_or]
        exact ih (k + 1) (by omega) (by omega)
    · rw [hasNext_iff h, decide_eq_false hlt, List.drop_eq_nil_of_le (by omega)]
      rfl

/-! ### The specification: a list of elements -/

inductive Op (V : Type) where
  | offerFirst (v : Option V)
  | offerLast (v : Option V)
  | pollFirst
  | pollLast
  | peekFirst
  | peekLast
  | addAll (vs : List (Option V))
  | contains (test : Option V → Bool)
  | size
  | clear
  | toArray
  /-- an iteration from the first to the last element -/
  | iterate

inductive Res (V : Type) where
  | unit
  | elem (v : Option V)
  | bool (b : Bool)
  | int (i : Int)
  | list (vs : List (Option V))
  deriving DecidableEq

/-- What the operations do. -/
def spec (es : List (Option V)) : Op V → Res V × List (Option V)
  | .offerFirst v => (.bool true, v :: es)
  | .offerLast v => (.bool true, es ++ [v])
  | .pollFirst => (.elem es.head?.join, es.tail)
  | .pollLast => (.elem es.getLast?.join, es.dropLast)
  | .peekFirst => (.elem es.head?.join, es)
  | .peekLast => (.elem es.getLast?.join, es)
  | .addAll vs => (.bool !vs.isEmpty, es ++ vs)
  | .contains test => (.bool (es.any test), es)
  | .size => (.int es.length, es)
  | .clear => (.unit, [])
  | .toArray => (.list es, es)
  | .iterate => (.list es, es)

/-- What the code does. -/
def exec (d : Dq V) : Op V → Except Exn (Res V × Dq V)
  | .offerFirst v => (offerFirst d v).bind fun d => .ok (.bool true, d)
  | .offerLast v => (offerLast d v).bind fun d => .ok (.bool true, d)
  | .pollFirst => (pollFirst d).bind fun r => .ok (.elem r.1, r.2)
  | .pollLast => (pollLast d).bind fun r => .ok (.elem r.1, r.2)
  | .peekFirst => (peekFirst d).bind fun r => .ok (.elem r, d)
  | .peekLast => (peekLast d).bind fun r => .ok (.elem r, d)
  | .addAll vs => (addAll d vs).bind fun r => .ok (.bool r.1, r.2)
  | .contains test => (contains d test).bind fun r => .ok (.bool r, d)
  | .size => .ok (.int d.size, d)
  | .clear => .ok (.unit, clear d)
  | .toArray => (toArray d).bind fun r => .ok (.list r, d)
  | .iterate => (collect d d.size.toNat (iterator false d)).bind fun r => .ok (.list r, d)

def runCode (d : Dq V) : List (Op V) → Except Exn (List (Res V))
  | [] => .ok []
  | op :: ops => (exec d op).bind fun r => (runCode r.2 ops).bind fun rs => .ok (r.1 :: rs)

def runSpec (es : List (Option V)) : List (Op V) → List (Res V)
  | [] => []
  | op :: ops => (spec es op).1 :: runSpec (spec es op).2 ops

/-- No collection larger than the first capacity is added to an empty deque. -/
def Usable (capacity : Nat) (es : List (Option V)) : List (Op V) → Prop
  | [] => True
  | op :: ops =>
    (match op with
      | .addAll vs => es ≠ [] ∨ vs.length ≤ capacity
      | _ => True) ∧ Usable capacity (spec es op).2 ops

theorem exec_ok {d : Dq V} {es : List (Option V)} {s : Nat} (h : Rep d es s) (op : Op V)
    (hu : match op with
      | .addAll vs => es ≠ [] ∨ vs.length ≤ d.data.length
      | _ => True) :
    ∃ d' s', exec d op = .ok ((spec es op).1, d') ∧ Rep d' (spec es op).2 s' ∧ d.data.length ≤ d'.data.length := by
  cases op with
  | offerFirst v =>
    obtain ⟨d', s', h1, h2, h3⟩ := offerFirst_ok h v
    exact ⟨d', s', by simp only [exec, h1, Except.bind, spec], h2, h3⟩
  | offerLast v =>
    obtain ⟨d', s', h1, h2, h3⟩ := offerLast_ok h v
    exact ⟨d', s', by simp only [exec, h1, Except.bind, spec], h2, h3⟩
  | pollFirst =>
    obtain ⟨d', s', h1, h2, h3⟩ := pollFirst_ok h
    exact ⟨d', s', by simp only [exec, h1, Except.bind, spec], h2, by rw [h3]; exact Nat.le_refl _⟩
  | pollLast =>
    obtain ⟨d', s', h1, h2, h3⟩ := pollLast_ok h
    exact ⟨d', s', by simp only [exec, h1, Except.bind, spec], h2, by rw [h3]; exact Nat.le_refl _⟩
  | peekFirst => exact ⟨d, s, by simp only [exec, peekFirst_ok h, Except.bind, spec], h, Nat.le_refl _⟩
  | peekLast => exact ⟨d, s, by simp only [exec, peekLast_ok h, Except.bind, spec], h, Nat.le_refl _⟩
  | addAll vs =>
    obtain ⟨d', s', h1, h2, h3⟩ := addAll_ok h vs hu
    exact ⟨d', s', by simp only [exec, h1, Except.bind, spec], h2, h3⟩
  | contains test =>
    have := contains_ok h test (es.length + 1) 0 rfl (Nat.zero_le _)
    refine ⟨d, s, ?_, h, Nat.le_refl _⟩
    simp only [exec, contains, iterator, h.size, Int.toNat_natCast]
    simp only [Int.natCast_zero, List.drop_zero] at this
    rw [this]; rfl
  | size => exact ⟨d, s, by simp only [exec, spec, h.size], h, Nat.le_refl _⟩
  | clear => exact ⟨clear d, 0, rfl, rep_empty (Nat.lt_of_le_of_lt (Nat.zero_le s) h.inside) rfl rfl rfl, Nat.le_refl _⟩
  | toArray => exact ⟨d, s, by simp only [exec, toArray_ok h, Except.bind, spec], h, Nat.le_refl _⟩
  | iterate =>
    have := collect_ok h es.length 0 rfl
    refine ⟨d, s, ?_, h, Nat.le_refl _⟩
    simp only [exec, iterator, h.size, Int.toNat_natCast]
    simp only [Int.natCast_zero, List.drop_zero] at this
    rw [this]; rfl

theorem run_ok (capacity : Nat) : ∀ (ops : List (Op V)) {d : Dq V} {es : List (Option V)} {s : Nat}, Rep d es s →
    capacity ≤ d.data.length → Usable capacity es ops → runCode d ops = .ok (runSpec es ops)
  | [], _, _, _, _, _, _ => rfl
  | op :: ops, d, es, s, h, hc, hu => by
    obtain ⟨d', s', h1, h2, h3⟩ := exec_ok h op (by
      have := hu.1
      cases op with
      | addAll vs =>
        rcases this with h | h
        · exact Or.inl h
        · exact Or.inr (Nat.le_trans h hc)
      | _ => trivial)
    simp only [runCode, h1, Except.bind, runSpec]
    rw [run_ok capacity ops h2 (by omega) hu.2]

/-- C70, for a deque with at least one place, to which no collection larger than that is added while it is
empty: whatever is done at its two ends, no operation fails and every result is that of a list.  (The full claim
would be without these conditions, and with removal by iterators; see `no_places`, `large_addAll`, `remove_partial`,
`remove_full` and `remove_wrapped`.) -/
theorem deque_partial (capacity : Nat) (hc : 0 < capacity) (ops : List (Op V)) (hu : Usable capacity [] ops) :
    ∃ d, new (V := V) capacity = .ok d ∧ runCode d ops = .ok (runSpec [] ops) := by
  unfold new
  rw [newArray_ok]
  refine ⟨_, rfl, run_ok capacity ops (s := 0) (rep_empty (by simpa [clear] using hc) rfl rfl rfl) (by simp [clear]) hu⟩

/-- A history that goes around the end of the ring in both directions and makes it grow. -/
example : Usable 2 ([] : List (Option Nat)) [.offerLast (some 1), .offerFirst (some 2), .offerFirst (some 3), .pollLast,
      .addAll [some 4, none, some 5], .pollFirst, .peekLast, .iterate] ∧
    runSpec ([] : List (Option Nat)) [.offerLast (some 1), .offerFirst (some 2), .offerFirst (some 3), .pollLast,
      .addAll [some 4, none, some 5], .pollFirst, .peekLast, .iterate] =
    [.bool true, .bool true, .bool true, .elem (some 1), .bool true, .elem (some 3), .elem (some 5),
      .list [some 2, some 4, none, some 5]] := by
  refine ⟨?_, by decide +kernel⟩
  simp [Usable, spec]

/-- C70 (limit of the code): nothing can be added to a deque made with no places (or from an empty collection). -/
theorem no_places (v : Option V) : ∃ d, new (V := V) 0 = .ok d ∧ exec d (.offerLast v) = .error .indexOutOfBounds ∧
    exec d (.offerFirst v) = .error .indexOutOfBounds :=
  ⟨_, rfl, rfl, rfl⟩

/-- C70 (limit of the code): adding to an empty deque a collection larger than its capacity fails, whatever the
collection and the (positive) capacity. -/
theorem large_addAll (capacity : Nat) (hc : 0 < capacity) (vs : List (Option V)) (hv : capacity < vs.length) :
    ∃ d, new (V := V) capacity = .ok d ∧ exec d (.addAll vs) = .error .indexOutOfBounds := by
  unfold new
  rw [newArray_ok]
  refine ⟨_, rfl, ?_⟩
  cases vs with
  | nil => simp at hv
  | cons v vs =>
    simp only [exec, addAll, clear, List.isEmpty_cons, Bool.false_eq_true, if_false, ensureCapacity, List.length_replicate]
    rw [if_pos (by omega), newArray_ok]
    obtain ⟨a, h1, h2, _⟩ := copyInto_ok (d := (⟨List.replicate capacity none, 0, 0, 0, 1⟩ : Dq V)) (es := []) (s := 0)
      (rep_empty (by simpa using hc) rfl rfl rfl) (List.replicate (capacity * 2) none) (by simp)
    simp only [Except.bind, Nat.zero_add]
    rw [h1]
    simp only [List.length_replicate] at h2
    simp only [addEach, offerLast, ensureCapacity, h2]
    rw [if_neg (by omega)]
    simp [Except.bind, store]

/-! ### Removal by an iterator -/

theorem pos_inj {s i j c : Nat} (hs : s < c) (hi : i < c) (hj : j < c) (h : pos s i c = pos s j c) : i = j := by
  unfold pos at h
  split at h <;> split at h <;> omega

/-- The element delivered last is where the iterator looks for it. -/
theorem index_ok {d : Dq V} {es : List (Option V)} {s : Nat} (h : Rep d es s) (i m : Nat) (hi : i < es.length) :
    arrayIndex d ⟨false, m, ((i + 1 : Nat) : Int) - 1⟩ = (pos s i d.data.length : Nat) := by
  unfold arrayIndex
  simp only [Bool.false_eq_true, if_false, h.start]
  rw [show ((i + 1 : Nat) : Int) - 1 = (i : Int) by omega]
  exact tmod_pos h.inside (by have := h.fits; omega)

/-- C70, for the first and the last element, for elements of a deque that neither goes around the end of the array nor
reaches it, and for elements behind the place where it goes around: removal by an iterator takes out exactly the
element delivered last, and the iteration continues behind it. -/
theorem remove_partial {d : Dq V} {es : List (Option V)} {s : Nat} (h : Rep d es s) (i : Nat) (hi : i < es.length)
    (hc : i = 0 ∨ i = es.length - 1 ∨ s + es.length < d.data.length ∨ d.data.length ≤ s + i) :
    ∃ d' s' it', itRemove d ⟨false, d.modCount, (i + 1 : Nat)⟩ = .ok (d', it') ∧ Rep d' (es.eraseIdx i) s' ∧
      it' = ⟨false, d'.modCount, i⟩ := by
  have hin := h.inside
  have hfit := h.fits
  have hidx := index_ok h i d.modCount hi
  have hfin := h.fin
  rw [if_neg (by omega)] at hfin
  unfold itRemove
  simp only
  rw [hidx, h.start]
  by_cases h0 : i = 0
  · subst h0
    rw [if_pos (by unfold pos; rw [if_pos (by omega)]; rfl)]
    obtain ⟨d', s', e1, e2, _⟩ := pollFirst_ok h
    rw [e1]
    simp only [Except.bind]
    refine ⟨d', s', _, rfl, ?_, by simp⟩
    cases es with
    | nil => simp at hi
    | cons x l => simpa using e2
  · have hne : ¬ ((pos s i d.data.length : Nat) : Int) = s := by
      intro e
      have : pos s i d.data.length = pos s 0 d.data.length := by
        rw [Int.ofNat_inj.1 e]; unfold pos; rw [if_pos (by omega)]; rfl
      exact h0 (pos_inj hin (by omega) (by omega) this)
    rw [if_neg hne, hfin]
    by_cases hlast : i = es.length - 1
    · rw [if_pos (by rw [hlast])]
      obtain ⟨d', s', e1, e2, _⟩ := pollLast_ok h
      rw [e1]
      simp only [Except.bind]
      refine ⟨d', s', _, rfl, ?_, by simp⟩
      rw [List.eraseIdx_eq_dropLast (by omega)]
      exact e2
    · have hne2 : ¬ ((pos s i d.data.length : Nat) : Int) = ((pos s (es.length - 1) d.data.length : Nat) : Int) := by
        intro e
        exact hlast (pos_inj hin (by omega) (by omega) (Int.ofNat_inj.1 e))
      rw [if_neg hne2]
      have hlen : (es.eraseIdx i).length = es.length - 1 := by rw [List.length_eraseIdx, if_pos hi]
      have herase : ∀ j, j < es.length - 1 → (es.eraseIdx i)[j]? = if j < i then es[j]? else es[j + 1]? := by
        intro j _
        rw [List.getElem?_eraseIdx]
      have hwithout : ∃ a, without d ((pos s i d.data.length : Nat) : Int) = .ok a ∧ a.length = d.data.length ∧
          ∀ j, j < es.length - 1 → a[j]? = (es.eraseIdx i)[j]? := by
        unfold without
        rw [newArray_ok]
        simp only [Except.bind]
        rw [h.start, hfin, h.size]
        by_cases hw : s + es.length ≤ d.data.length
        · -- the deque does not go around the end
          have hroom : s + es.length < d.data.length := by omega
          have hp1 : pos s i d.data.length = s + i := by unfold pos; rw [if_pos (by omega)]
          have hp2 : pos s (es.length - 1) d.data.length = s + (es.length - 1) := by unfold pos; rw [if_pos (by omega)]
          rw [hp1, hp2, if_pos (by omega)]
          obtain ⟨a, a1, a2, a3⟩ := copy_get d.data (List.replicate d.data.length none) s 0 i (by omega) (by simp; omega)
          rw [show ((s + i : Nat) : Int) - s = (i : Int) by omega]
          rw [show ((0 : Int)) = ((0 : Nat) : Int) from rfl, a1]
          simp only
          simp only [List.length_replicate] at a2
          obtain ⟨b, b1, b2, b3⟩ := copy_get d.data a (s + i + 1) i (es.length - i) (by omega) (by omega)
          rw [show ((s + i : Nat) : Int) + 1 = ((s + i + 1 : Nat) : Int) by omega,
            show (es.length : Int) - i = ((es.length - i : Nat) : Int) by omega, b1]
          refine ⟨b, rfl, by omega, ?_⟩
          intro j hj
          rw [b3, herase j hj]
          by_cases hji : j < i
          · rw [if_pos hji, if_neg (by omega), a3, if_pos (by omega), ← h.elems j (by omega)]
            unfold pos; rw [if_pos (by omega)]; congr 1
          · rw [if_neg hji, if_pos (by omega), ← h.elems (j + 1) (by omega)]
            unfold pos; rw [if_pos (by omega)]; congr 1; omega
        · -- the element is behind the place where the deque goes around
          have hb : d.data.length ≤ s + i := by omega
          have hp1 : pos s i d.data.length = s + i - d.data.length := by unfold pos; rw [if_neg (by omega)]
          have hp2 : pos s (es.length - 1) d.data.length = s + (es.length - 1) - d.data.length := by
            unfold pos; rw [if_neg (by omega)]
          rw [hp1, hp2, if_neg (by omega), if_neg (by omega)]
          obtain ⟨a, a1, a2, a3⟩ := copy_get d.data (List.replicate d.data.length none) s 0 (d.data.length - s)
            (by omega) (by simp)
          rw [show (d.data.length : Int) - s = ((d.data.length - s : Nat) : Int) by omega]
          rw [show ((0 : Int)) = ((0 : Nat) : Int) from rfl, a1]
          simp only
          simp only [List.length_replicate] at a2
          obtain ⟨b, b1, b2, b3⟩ := copy_get d.data a 0 (d.data.length - s) (s + i - d.data.length) (by omega) (by omega)
          rw [b1]
          simp only
          obtain ⟨c, c1, c2, c3⟩ := copy_get d.data b (s + i - d.data.length + 1)
            (d.data.length - s + (s + i - d.data.length)) (es.length - 1 - i) (by omega) (by omega)
          rw [show ((s + i - d.data.length : Nat) : Int) + 1 = ((s + i - d.data.length + 1 : Nat) : Int) by omega,
            ← Int.natCast_add,
            show ((s + (es.length - 1) - d.data.length : Nat) : Int) - ((s + i - d.data.length : Nat) : Int) =
              ((es.length - 1 - i : Nat) : Int) by omega, c1]
          refine ⟨c, rfl, by omega, ?_⟩
          intro j hj
          rw [c3, herase j hj]
          by_cases hji : j < i
          · rw [if_pos hji, if_neg (by omega), b3, ← h.elems j (by omega)]
            unfold pos
            by_cases hjw : s + j < d.data.length
            · rw [if_pos hjw, if_neg (by omega), a3, if_pos (by omega)]; congr 1
            · rw [if_neg hjw, if_pos (by omega)]; congr 1; omega
          · rw [if_neg hji, if_pos (by omega), ← h.elems (j + 1) (by omega)]
            unfold pos; rw [if_neg (by omega)]; congr 1; omega
      obtain ⟨a, w1, w2, w3⟩ := hwithout
      rw [w1]
      simp only [Except.bind]
      refine ⟨_, 0, _, rfl, ⟨rfl, by simp only; omega, by rw [hlen]; simp only [h.size]; omega, by rw [hlen]; simp only; omega,
        ?_, fun _ => rfl, ?_⟩, by simp⟩
      · simp only [hlen, h.size, w2]
        rw [if_neg (by omega)]
        unfold pos; rw [if_pos (by omega)]; omega
      · intro j hj
        rw [hlen] at hj
        simp only
        rw [← w3 j hj, w2]
        unfold pos; rw [if_pos (by omega), Nat.zero_add]

/-- Removal in the middle of a deque of four in a ring of eight meets the conditions. -/
example : ∃ d : Dq Nat, Rep d [some 1, some 2, some 3, some 4] 2 ∧ 2 + 4 < d.data.length :=
  ⟨⟨[none, none, some 1, some 2, some 3, some 4, none, none], 2, 5, 4, 7⟩,
    ⟨rfl, by decide, rfl, by decide, rfl, by decide, by
      intro i hi
      simp only [List.length_cons, List.length_nil] at hi
      rcases i with _ | _ | _ | _ | i
      all_goals first | rfl | omega⟩, by decide⟩

/-- C70 (limit of the code): removal by an iterator in the middle of a deque that reaches the end of the array fails. -/
theorem remove_full {d : Dq V} {es : List (Option V)} {s : Nat} (h : Rep d es s) (i : Nat) (h0 : 0 < i)
    (hi : i < es.length - 1) (hf : s + es.length = d.data.length) :
    itRemove d ⟨false, d.modCount, (i + 1 : Nat)⟩ = .error .indexOutOfBounds := by
  have hin := h.inside
  have hidx := index_ok h i d.modCount (by omega)
  have hfin := h.fin
  rw [if_neg (by omega)] at hfin
  have hp1 : pos s i d.data.length = s + i := by unfold pos; rw [if_pos (by omega)]
  have hp2 : pos s (es.length - 1) d.data.length = s + (es.length - 1) := by unfold pos; rw [if_pos (by omega)]
  rw [hp1] at hidx
  rw [hp2] at hfin
  unfold itRemove
  simp only
  rw [hidx, h.start, hfin, if_neg (by omega), if_neg (by omega)]
  unfold without
  rw [newArray_ok, h.start, hfin, h.size]
  simp only [Except.bind]
  rw [if_pos (by omega)]
  obtain ⟨a, a1, a2, _⟩ := copy_get d.data (List.replicate d.data.length none) s 0 i (by omega) (by simp; omega)
  rw [show ((s + i : Nat) : Int) - s = (i : Int) by omega]
  rw [show ((0 : Int)) = ((0 : Nat) : Int) from rfl, a1]
  simp only
  unfold copy
  rw [if_pos (by omega), if_neg (by omega)]

/-- Such a deque: four elements in a ring of four. -/
example : ∃ d : Dq Nat, Rep d [some 1, some 2, some 3, some 4] 0 ∧ 0 + 4 = d.data.length :=
  ⟨⟨[some 1, some 2, some 3, some 4], 0, 3, 4, 5⟩,
    ⟨rfl, by decide, rfl, by decide, rfl, by decide, by
      intro i hi
      simp only [List.length_cons, List.length_nil] at hi
      rcases i with _ | _ | _ | _ | i
      all_goals first | rfl | omega⟩, by decide⟩

/-- The history that gives the deque 1, 2, 3, 4 in a ring of four with the first element at the place 1. -/
def around : Except Exn (Dq Nat) :=
  (new 4).bind fun d => (addEach d [some 0, some 1, some 2, some 3]).bind fun d =>
  (pollFirst d).bind fun r => offerLast r.2 (some 4)

/-- C70 (limit of the code): removal by an iterator in a deque that goes around the end of the array, before the place
where it does so, loses other elements: of 1, 2, 3, 4 the element 3 is removed, and what is left is 1, 4, null. -/
theorem remove_wrapped : around.bind toArray = .ok [some 1, some 2, some 3, some 4] ∧
    around.bind (fun d => (removeOccurrence (· == some 3) true d).bind fun r => (toArray r.2).bind fun a => .ok (r.1, a)) =
      .ok (true, [some 1, some 4, none]) := by
  constructor <;> decide +kernel

/-- C70 (limit of the code): a second removal without a further delivery is not refused but takes out the element before:
of 1, 2, 3 the iterator delivers 1, 2 and removes both. -/
theorem removes_twice : ((new 8).bind fun d => (addEach d [some 1, some 2, some 3]).bind fun d =>
    (next d (iterator false d)).bind fun r => (next d r.2).bind fun r => (itRemove d r.2).bind fun r =>
    (itRemove r.1 r.2).bind fun r => toArray r.1) = .ok [some 3] := by
  decide +kernel

/-! ### Descending iterators -/

/-- C70 (limit of the code): a descending iteration over a deque that goes around the end of the array fails. -/
theorem descending_wrapped {d : Dq V} {es : List (Option V)} {s : Nat} (h : Rep d es s)
    (hw : d.data.length < s + es.length) :
    collect d es.length (iterator true d) = .error .indexOutOfBounds := by
  have hin := h.inside
  have hfit := h.fits
  have hfin := h.fin
  rw [if_neg (by omega)] at hfin
  have hp : pos s (es.length - 1) d.data.length = s + es.length - 1 - d.data.length := by
    unfold pos; rw [if_neg (by omega)]; omega
  rw [hp] at hfin
  generalize hf : s + es.length - 1 - d.data.length = f at hfin
  have key : ∀ r k n, r + k = f + 1 → n + k = es.length →
      collect d n ⟨true, d.modCount, (k : Nat)⟩ = .error .indexOutOfBounds := by
    intro r
    induction r with
    | zero =>
      intro k n hk hn
      obtain ⟨n, rfl⟩ : ∃ m, n = m + 1 := ⟨n - 1, by omega⟩
      unfold collect
      rw [hasNext_iff h, decide_eq_true (by omega), if_pos rfl]
      unfold next
      rw [if_neg (by simp), if_neg (by rw [h.size]; simp only; omega)]
      have : arrayIndex d ⟨true, d.modCount, k⟩ = -1 := by
        unfold arrayIndex
        simp only [if_true, hfin]
        rw [show (f : Int) - (k : Int) = -1 by omega]
        rw [show (-1 : Int).tmod d.data.length = -((1 : Int).tmod d.data.length) from Int.neg_tmod _ _]
        rw [Int.tmod_eq_of_lt (by omega) (by omega)]
      rw [this]
      simp [load, Except.bind]
    | succ r ih =>
      intro k n hk hn
      obtain ⟨n, rfl⟩ : ∃ m, n = m + 1 := ⟨n - 1, by omega⟩
      unfold collect
      rw [hasNext_iff h, decide_eq_true (by omega), if_pos rfl]
      have hidx : arrayIndex d ⟨true, d.modCount, k⟩ = ((f - k : Nat) : Int) := by
        unfold arrayIndex
        simp only [if_true, hfin]
        rw [show (f : Int) - (k : Int) = ((f - k : Nat) : Int) by omega]
        rw [Int.tmod_eq_of_lt (by omega) (by omega)]
      have hnext : ∃ v, next d ⟨true, d.modCount, k⟩ = .ok (v, ⟨true, d.modCount, ((k + 1 : Nat) : Int)⟩) := by
        unfold next
        rw [if_neg (by simp), if_neg (by rw [h.size]; simp only; omega), hidx]
        have hlt : f - k < d.data.length := by omega
        rw [load_get (v := d.data[f - k]) (List.getElem?_eq_getElem hlt)]
        exact ⟨_, rfl⟩
      obtain ⟨v, hv⟩ := hnext
      rw [hv]
      simp only [Except.bind]
      rw [ih (k + 1) n (by omega) (by omega)]
  exact key (f + 1) 0 es.length (by omega) (by omega)

/-- C70, for a deque that does not go around the end of the array: a descending iteration delivers all elements, the last
first. -/
theorem descending_partial {d : Dq V} {es : List (Option V)} {s : Nat} (h : Rep d es s)
    (hw : s + es.length ≤ d.data.length) :
    collect d es.length (iterator true d) = .ok es.reverse := by
  have hin := h.inside
  have hfin := h.fin
  have key : ∀ n k, n + k = es.length → collect d n ⟨true, d.modCount, (k : Nat)⟩ = .ok (es.take n).reverse := by
    intro n
    induction n with
    | zero =>
      intro k hk
      unfold collect
      rw [hasNext_iff h, decide_eq_false (by omega)]
      rfl
    | succ n ih =>
      intro k hk
      unfold collect
      rw [hasNext_iff h, decide_eq_true (by omega), if_pos rfl]
      rw [if_neg (by omega)] at hfin
      have hp : pos s (es.length - 1) d.data.length = s + (es.length - 1) := by unfold pos; rw [if_pos (by omega)]
      rw [hp] at hfin
      have hlt : n < es.length := by omega
      have hidx : arrayIndex d ⟨true, d.modCount, k⟩ = ((s + n : Nat) : Int) := by
        unfold arrayIndex
        simp only [if_true, hfin]
        rw [show ((s + (es.length - 1) : Nat) : Int) - (k : Int) = ((s + n : Nat) : Int) by omega]
        rw [Int.tmod_eq_of_lt (by omega) (by omega)]
      have hnext : next d ⟨true, d.modCount, k⟩ = .ok (es[n], ⟨true, d.modCount, ((k + 1 : Nat) : Int)⟩) := by
        unfold next
        rw [if_neg (by simp), if_neg (by rw [h.size]; simp only; omega), hidx]
        have := h.elems n hlt
        unfold pos at this
        rw [if_pos (by omega), List.getElem?_eq_getElem hlt] at this
        rw [load_get this]
        rfl
      rw [hnext]
      simp only [Except.bind]
      rw [ih (k + 1) (by omega)]
      simp only
      rw [← List.take_append_getElem hlt, List.reverse_append]
      rfl
  have := key es.length 0 (by omega)
  rw [List.take_of_length_le (Nat.le_refl _)] at this
  exact this

/-! ### Changes during an iteration -/

/-- The operations that add or take elements. -/
def Op.changes : Op V → Bool
  | .offerFirst _ | .offerLast _ | .pollFirst | .pollLast | .clear => true
  | .addAll vs => !vs.isEmpty
  | _ => false

theorem ensureCapacity_count {d d' : Dq V} {n : Int} (h : ensureCapacity d n = .ok d') : d'.modCount = d.modCount := by
  unfold ensureCapacity at h
  split at h
  · cases e1 : newArray (V := V) ((d.data.length * 2 : Nat) : Int) with
    | error x => rw [e1] at h; simp [Except.bind] at h
    | ok a =>
      rw [e1] at h
      simp only [Except.bind] at h
      cases e2 : copyInto d a with
      | error x => rw [e2] at h; simp at h
      | ok b => rw [e2] at h; simp only [Except.ok.injEq] at h; rw [← h]
  · simp only [Except.ok.injEq] at h; rw [← h]

theorem offerLast_count {d d' : Dq V} {v : Option V} (h : offerLast d v = .ok d') : d'.modCount = d.modCount + 1 := by
  unfold offerLast at h
  cases e1 : ensureCapacity d (d.size + 1) with
  | error x => rw [e1] at h; simp [Except.bind] at h
  | ok a =>
    rw [e1] at h
    have := ensureCapacity_count e1
    simp only [Except.bind] at h
    split at h
    · cases h
    · simp only [Except.ok.injEq] at h
      rw [← h, this]

theorem offerFirst_count {d d' : Dq V} {v : Option V} (h : offerFirst d v = .ok d') : d'.modCount = d.modCount + 1 := by
  unfold offerFirst at h
  cases e1 : ensureCapacity d (d.size + 1) with
  | error x => rw [e1] at h; simp [Except.bind] at h
  | ok a =>
    rw [e1] at h
    have := ensureCapacity_count e1
    simp only [Except.bind] at h
    split at h
    · cases h
    · simp only [Except.ok.injEq] at h
      rw [← h, this]

theorem addEach_count : ∀ (vs : List (Option V)) {d d' : Dq V}, addEach d vs = .ok d' → d'.modCount = d.modCount + vs.length
  | [], d, d', h => by simp only [addEach, Except.ok.injEq] at h; rw [← h]; rfl
  | v :: vs, d, d', h => by
    unfold addEach at h
    cases e1 : offerLast d v with
    | error x => rw [e1] at h; simp [Except.bind] at h
    | ok a =>
      rw [e1] at h
      have h2 := addEach_count vs h
      rw [h2, offerLast_count e1, List.length_cons]
      omega

theorem pollFirst_count {d : Dq V} {r : Option V × Dq V} (h : pollFirst d = .ok r) : r.2.modCount = d.modCount + 1 := by
  unfold pollFirst at h
  split at h
  · simp only [Except.ok.injEq] at h; rw [← h]
  · cases e1 : load d.data d.start with
    | error x => rw [e1] at h; simp [Except.bind] at h
    | ok a =>
      rw [e1] at h
      simp only [Except.bind] at h
      split at h <;> simp only [Except.ok.injEq] at h <;> rw [← h]

theorem pollLast_count {d : Dq V} {r : Option V × Dq V} (h : pollLast d = .ok r) : r.2.modCount = d.modCount + 1 := by
  unfold pollLast at h
  split at h
  · simp only [Except.ok.injEq] at h; rw [← h]
  · cases e1 : load d.data d.fin with
    | error x => rw [e1] at h; simp [Except.bind] at h
    | ok a =>
      rw [e1] at h
      simp only [Except.bind] at h
      split at h <;> simp only [Except.ok.injEq] at h <;> rw [← h]

theorem exec_count {d : Dq V} {op : Op V} {r : Res V × Dq V} (h : exec d op = .ok r) :
    (op.changes = true → d.modCount < r.2.modCount) ∧ (op.changes = false → r.2 = d) := by
  cases op with
  | offerFirst v =>
    refine ⟨fun _ => ?_, fun x => by cases x⟩
    simp only [exec] at h
    cases e1 : offerFirst d v with
    | error x => rw [e1] at h; simp [Except.bind] at h
    | ok a =>
      rw [e1] at h
      simp only [Except.bind, Except.ok.injEq] at h
      rw [← h, offerFirst_count e1]
      exact Nat.lt_succ_self _
  | offerLast v =>
    refine ⟨fun _ => ?_, fun x => by cases x⟩
    simp only [exec] at h
    cases e1 : offerLast d v with
    | error x => rw [e1] at h; simp [Except.bind] at h
    | ok a =>
      rw [e1] at h
      simp only [Except.bind, Except.ok.injEq] at h
      rw [← h, offerLast_count e1]
      exact Nat.lt_succ_self _
  | pollFirst =>
    refine ⟨fun _ => ?_, fun x => by cases x⟩
    simp only [exec] at h
    cases e1 : pollFirst d with
    | error x => rw [e1] at h; simp [Except.bind] at h
    | ok a =>
      rw [e1] at h
      simp only [Except.bind, Except.ok.injEq] at h
      rw [← h, pollFirst_count e1]
      exact Nat.lt_succ_self _
  | pollLast =>
    refine ⟨fun _ => ?_, fun x => by cases x⟩
    simp only [exec] at h
    cases e1 : pollLast d with
    | error x => rw [e1] at h; simp [Except.bind] at h
    | ok a =>
      rw [e1] at h
      simp only [Except.bind, Except.ok.injEq] at h
      rw [← h, pollLast_count e1]
      exact Nat.lt_succ_self _
  | clear =>
    refine ⟨fun _ => ?_, fun x => by cases x⟩
    simp only [exec, Except.ok.injEq] at h
    rw [← h]
    exact Nat.lt_succ_self _
  | addAll vs =>
    simp only [exec, addAll] at h
    cases vs with
    | nil =>
      simp only [List.isEmpty_nil, if_true, Except.bind, Except.ok.injEq] at h
      rw [← h]
      exact ⟨fun x => by simp [Op.changes] at x, fun _ => rfl⟩
    | cons v vs =>
      refine ⟨fun _ => ?_, fun x => by simp [Op.changes] at x⟩
      simp only [List.isEmpty_cons, Bool.false_eq_true, if_false] at h
      cases e1 : ensureCapacity d (d.size + ((v :: vs).length : Nat)) with
      | error x => rw [e1] at h; simp [Except.bind] at h
      | ok a =>
        rw [e1] at h
        simp only [Except.bind] at h
        cases e2 : addEach a (v :: vs) with
        | error x => rw [e2] at h; simp at h
        | ok b =>
          rw [e2] at h
          simp only [Except.ok.injEq] at h
          have h1 := ensureCapacity_count e1
          have h2 := addEach_count _ e2
          rw [← h]
          simp only
          rw [h2, h1, List.length_cons]
          omega
  | peekFirst | peekLast | contains _ | size | toArray | iterate =>
    refine ⟨fun x => (by cases x), fun _ => ?_⟩
    simp only [exec, Except.bind] at h
    first
      | (split at h
         · cases h
         · simp only [Except.ok.injEq] at h; rw [← h])
      | (simp only [Except.ok.injEq] at h; rw [← h])

/-- The deque after some operations. -/
def after (d : Dq V) : List (Op V) → Except Exn (Dq V)
  | [] => .ok d
  | op :: ops => (exec d op).bind fun r => after r.2 ops

theorem after_count : ∀ (ops : List (Op V)) {d d' : Dq V}, after d ops = .ok d' →
    d.modCount ≤ d'.modCount ∧ (ops.any Op.changes = true → d.modCount < d'.modCount) ∧ (ops.any Op.changes = false → d' = d)
  | [], d, d', h => by
    simp only [after, Except.ok.injEq] at h
    rw [← h]
    exact ⟨Nat.le_refl _, fun x => by simp at x, fun _ => rfl⟩
  | op :: ops, d, d', h => by
    unfold after at h
    cases e1 : exec d op with
    | error x => rw [e1] at h; simp [Except.bind] at h
    | ok r =>
      rw [e1] at h
      obtain ⟨h1, h2, h3⟩ := after_count ops h
      obtain ⟨g1, g2⟩ := exec_count e1
      rw [List.any_cons]
      cases hc : op.changes with
      | true =>
        have := g1 hc
        exact ⟨by omega, fun _ => by omega, fun x => by simp at x⟩
      | false =>
        rw [g2 hc] at h1 h2 h3
        rw [Bool.false_or]
        exact ⟨h1, h2, h3⟩

/-- An iterator notices every change of the deque made since it was created: its next step is refused with
    ConcurrentModificationException; without a change the deque is the one the iterator was made for. -/
theorem iterator_notices (d d' : Dq V) (ops : List (Op V)) (h : after d ops = .ok d') (b : Bool) (k : Int) :
    (ops.any Op.changes = true → next d' { iterator b d with current := k } = .error .concurrentModification) ∧
    (ops.any Op.changes = false → d' = d) := by
  obtain ⟨_, h2, h3⟩ := after_count ops h
  refine ⟨fun hc => ?_, h3⟩
  have := h2 hc
  unfold next iterator
  simp only
  rw [if_pos (by omega)]

/-- A deque with one element to which another is added during an iteration. -/
example : ∃ d d' : Dq Nat, (new 4).bind (fun d => offerLast d (some 1)) = .ok d ∧ after d [.peekFirst, .offerLast (some 2)] = .ok d' ∧
    next d' (iterator false d) = .error .concurrentModification :=
  ⟨_, _, rfl, rfl, rfl⟩

end Avian.ArrayDeque
