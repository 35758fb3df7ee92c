import Verif.Lib.LinkedQueue

/-
Property C60: the lock-free queue is a queue for any number of threads.
-/
namespace Avian.LinkedQueue

variable {V : Type}

/-! ### Specification -/

/-- The content of a queue after the changes in a trace, oldest element first. -/
inductive Replay : List (Tid × Label V) → List V → Prop where
  | nil : Replay [] []
  | enq {ls q t v} : Replay ls q → Replay (ls ++ [(t, .enq (some v))]) (q ++ [v])
  | deq {ls q t v} : Replay ls (v :: q) → Replay (ls ++ [(t, .deq (some v))]) q
  | other {ls q t l} : Replay ls q → (∀ v, l ≠ .enq v ∧ l ≠ .deq v) → Replay (ls ++ [(t, l)]) q

/-- Where a thread is, as far as the outside can tell. -/
inductive Phase (V : Type) where
  | out
  | adding (v : V)
  | linked
  | polling (remove : Bool)

/-- The steps of thread `t` form operations: an `add` changes the queue once, with its element, before
it returns; a `poll` that returns an element takes it from the queue in its last step; `peek`, and
`poll` that returns null, do not change the queue. -/
inductive Follows (t : Tid) : List (Tid × Label V) → Phase V → Prop where
  | nil : Follows t [] .out
  | skip {ls p u l} : u ≠ t → Follows t ls p → Follows t (ls ++ [(u, l)]) p
  | tau {ls p} : Follows t ls p → Follows t (ls ++ [(t, .tau)]) p
  | callAdd {ls v} : Follows t ls .out → Follows t (ls ++ [(t, .callAdd v)]) (.adding v)
  | enq {ls v} : Follows t ls (.adding v) → Follows t (ls ++ [(t, .enq (some v))]) .linked
  | added {ls} : Follows t ls .linked → Follows t (ls ++ [(t, .added)]) .out
  | callPoll {ls r} : Follows t ls .out → Follows t (ls ++ [(t, .callPoll r)]) (.polling r)
  | deq {ls v} : Follows t ls (.polling true) → Follows t (ls ++ [(t, .deq (some v))]) .out
  | peeked {ls v} : Follows t ls (.polling false) → Follows t (ls ++ [(t, .peeked (some v))]) .out
  | null {ls r} : Follows t ls (.polling r) → Follows t (ls ++ [(t, .null)]) .out

def isCall : Label V → Bool
  | .callAdd _ | .callPoll _ => true
  | _ => false

/-- At some moment since the last call of `t` the queue contained `q`. -/
def Since (ls : List (Tid × Label V)) (t : Tid) (q : List V) : Prop :=
  ∃ before after, ls = before ++ after ∧ Replay before q ∧ ∀ l, (t, l) ∈ after → isCall l = false

/-- The nodes behind `h` hold the elements `q`. -/
inductive Holds (next : Node → Option Node) (value : Node → Option V) : Node → List V → Prop where
  | nil {h} : next h = none → Holds next value h []
  | cons {h n v q} : next h = some n → value n = some v → Holds next value n q → Holds next value h (v :: q)

/-! ### Invariant -/

structure Glob (ls : List (Tid × Label V)) (s : Shared V) (chain : List Node) (hi ti : Nat) : Prop where
  nodup : chain.Nodup
  link : ∀ i a, chain[i]? = some a → s.next a = chain[i + 1]?
  head : chain[hi]? = some s.head
  tail : chain[ti]? = some s.tail
  le : hi ≤ ti
  bound : ∀ a ∈ chain, a < s.fresh
  vals : ∃ q, Replay ls q ∧ (chain.drop (hi + 1)).map s.value = q.map some

/-- The node of an `add` that is not linked yet. -/
def Mine (ls : List (Tid × Label V)) (s : Shared V) (chain : List Node) (t : Tid) (n : Node) : Prop :=
  ∃ v, s.value n = some v ∧ Follows t ls (.adding v) ∧ n ∉ chain ∧ n < s.fresh ∧ s.next n = none

def owns : Pc V → Option Node
  | .a0 n | .a1 n _ | .a2 n _ _ | .a3 n _ _ | .a4 n _ _ | .a5 n _ | .a6 n _ _ => some n
  | _ => none

def OkPc (ls : List (Tid × Label V)) (s : Shared V) (chain : List Node) (hi ti : Nat) (t : Tid) :
    Pc V → Prop
  | .idle => Follows t ls .out
  | .abort => False
  | .a0 n => Mine ls s chain t n
  | .a1 n x => Mine ls s chain t n ∧ ∃ i, chain[i]? = some x ∧ i ≤ ti
  | .a2 n x y => Mine ls s chain t n ∧ ∃ i j, chain[i]? = some x ∧ chain[j]? = some y ∧ i ≤ j ∧ j ≤ ti
  | .a3 n x m => Mine ls s chain t n ∧ ∃ i, chain[i]? = some x ∧ i ≤ ti ∧
      ∀ m', i = ti → m = some m' → chain[i + 1]? = some m'
  | .a4 n x m => Mine ls s chain t n ∧ ∃ i, chain[i]? = some x ∧ i ≤ ti ∧ chain[i + 1]? = some m
  | .a5 n x => Mine ls s chain t n ∧ ∃ i, chain[i]? = some x ∧ i ≤ ti
  | .a6 n x y => Mine ls s chain t n ∧ ∃ i j, chain[i]? = some x ∧ chain[j]? = some y ∧ i ≤ j ∧ j ≤ ti
  | .a7 n x => Follows t ls .linked ∧ ∃ i, chain[i]? = some x ∧ i ≤ ti ∧ (i = ti → chain[i + 1]? = some n)
  | .p0 r => Follows t ls (.polling r)
  | .p1 r h => Follows t ls (.polling r) ∧ ∃ i, chain[i]? = some h ∧ i ≤ hi
  | .p2 r h x => Follows t ls (.polling r) ∧
      ∃ i k, chain[i]? = some h ∧ i ≤ hi ∧ chain[k]? = some x ∧ i ≤ k ∧ k ≤ ti
  | .p3 r h x y => Follows t ls (.polling r) ∧
      ∃ i k j, chain[i]? = some h ∧ i ≤ j ∧ j ≤ hi ∧ chain[k]? = some x ∧ i ≤ k ∧ k ≤ ti ∧
        chain[j]? = some y
  | .p4 r h x m => Follows t ls (.polling r) ∧
      ∃ i k, chain[i]? = some h ∧ i ≤ hi ∧ chain[k]? = some x ∧ i ≤ k ∧ k ≤ ti ∧
        (i = hi → (m = none → i = k ∧ Since ls t []) ∧
          ∀ m', m = some m' → chain[i + 1]? = some m' ∧ ∃ v q, s.value m' = some v ∧ Since ls t (v :: q))
  | .p5 r x m => Follows t ls (.polling r) ∧ ∃ k, chain[k]? = some x ∧ k ≤ ti ∧ chain[k + 1]? = some m
  | .p6 r h m => Follows t ls (.polling r) ∧
      ∃ i m', chain[i]? = some h ∧ i ≤ hi ∧ i < ti ∧ m = some m' ∧ chain[i + 1]? = some m' ∧
        ∃ v q, s.value m' = some v ∧ Since ls t (v :: q)
  | .p7 r h m w => Follows t ls (.polling r) ∧
      ∃ i, chain[i]? = some h ∧ i ≤ hi ∧ i < ti ∧ chain[i + 1]? = some m ∧ s.value m = w ∧
        ∃ v q, w = some v ∧ Since ls t (v :: q)

structure Inv (ls : List (Tid × Label V)) (s : Sys V) (chain : List Node) (hi ti : Nat) : Prop where
  glob : Glob ls s.sh chain hi ti
  pcs : ∀ t, OkPc ls s.sh chain hi ti t (s.pc t)
  apart : ∀ t u n, owns (s.pc t) = some n → owns (s.pc u) = some n → t = u

/-! ### Steps of other threads -/

theorem since_snoc {ls : List (Tid × Label V)} {t u : Tid} {q : List V} {l : Label V} (h : Since ls t q)
    (hl : u = t → isCall l = false) : Since (ls ++ [(u, l)]) t q := by
  obtain ⟨b, a, e, hr, hc⟩ := h
  refine ⟨b, a ++ [(u, l)], by rw [e, List.append_assoc], hr, ?_⟩
  intro l' hm
  rcases List.mem_append.1 hm with hm | hm
  · exact hc l' hm
  · simp only [List.mem_singleton, Prod.mk.injEq] at hm
    obtain ⟨rfl, rfl⟩ := hm
    exact hl rfl

theorem since_now {ls : List (Tid × Label V)} {t : Tid} {q : List V} (h : Replay ls q) : Since ls t q :=
  ⟨ls, [], by simp, h, by simp⟩

/-- What one step may do to the rest. -/
structure Grow (s s' : Shared V) (chain chain' : List Node) (hi hi' ti ti' : Nat) : Prop where
  ext : ∀ (i : Nat) (a : Node), chain[i]? = some a → chain'[i]? = some a
  hiLe : hi ≤ hi'
  tiLe : ti ≤ ti'
  fresh : s.fresh ≤ s'.fresh
  value : ∀ a, a < s.fresh → s'.value a = s.value a
  le : hi ≤ ti
  bound : ∀ a ∈ chain, a < s.fresh

theorem ok_other {ls : List (Tid × Label V)} {s s' : Shared V} {chain chain' hi hi' ti ti'} {t u : Tid}
    {l : Label V} {p : Pc V} (g : Grow s s' chain chain' hi hi' ti ti') (hu : u ≠ t)
    (hn : ∀ n, owns p = some n → n ∉ chain → s.next n = none → n < s.fresh →
      n ∉ chain' ∧ s'.next n = none)
    (h : OkPc ls s chain hi ti t p) : OkPc (ls ++ [(u, l)]) s' chain' hi' ti' t p := by
  have mem : ∀ i a, chain[i]? = some a → a < s.fresh := fun i a e => g.bound a (List.mem_of_getElem? e)
  have mine : ∀ n, owns p = some n → Mine ls s chain t n → Mine (ls ++ [(u, l)]) s' chain' t n := by
    rintro n ho ⟨v, h1, h2, h3, h4, h5⟩
    obtain ⟨h6, h7⟩ := hn n ho h3 h5 h4
    exact ⟨v, by rw [g.value n h4]; exact h1, .skip hu h2, h6, Nat.lt_of_lt_of_le h4 g.fresh, h7⟩
  have since : ∀ q, Since ls t q → Since (ls ++ [(u, l)]) t q :=
    fun q hq => since_snoc hq fun e => absurd e hu
  have hh := g.hiLe
  have ht := g.tiLe
  cases p with
  | idle => exact .skip hu h
  | abort => exact h
  | a0 n => exact mine n rfl h
  | a1 n x =>
    obtain ⟨h1, i, h2, h3⟩ := h
    exact ⟨mine n rfl h1, i, g.ext _ _ h2, by omega⟩
  | a2 n x y =>
    obtain ⟨h1, i, j, h2, h3, h4, h5⟩ := h
    exact ⟨mine n rfl h1, i, j, g.ext _ _ h2, g.ext _ _ h3, h4, by omega⟩
  | a3 n x m =>
    obtain ⟨h1, i, h2, h3, h4⟩ := h
    exact ⟨mine n rfl h1, i, g.ext _ _ h2, by omega, fun m' e1 e2 => g.ext _ _ (h4 m' (by omega) e2)⟩
  | a4 n x m =>
    obtain ⟨h1, i, h2, h3, h4⟩ := h
    exact ⟨mine n rfl h1, i, g.ext _ _ h2, by omega, g.ext _ _ h4⟩
  | a5 n x =>
    obtain ⟨h1, i, h2, h3⟩ := h
    exact ⟨mine n rfl h1, i, g.ext _ _ h2, by omega⟩
  | a6 n x y =>
    obtain ⟨h1, i, j, h2, h3, h4, h5⟩ := h
    exact ⟨mine n rfl h1, i, j, g.ext _ _ h2, g.ext _ _ h3, h4, by omega⟩
  | a7 n x =>
    obtain ⟨h1, i, h2, h3, h4⟩ := h
    exact ⟨.skip hu h1, i, g.ext _ _ h2, by omega, fun e => g.ext _ _ (h4 (by omega))⟩
  | p0 r => exact .skip hu h
  | p1 r x =>
    obtain ⟨h1, i, h2, h3⟩ := h
    exact ⟨.skip hu h1, i, g.ext _ _ h2, by omega⟩
  | p2 r x y =>
    obtain ⟨h1, i, k, h2, h3, h4, h5, h6⟩ := h
    exact ⟨.skip hu h1, i, k, g.ext _ _ h2, by omega, g.ext _ _ h4, h5, by omega⟩
  | p3 r x y z =>
    obtain ⟨h1, i, k, j, h2, h3, h4, h5, h6, h7, h8⟩ := h
    exact ⟨.skip hu h1, i, k, j, g.ext _ _ h2, h3, by omega, g.ext _ _ h5, h6, by omega, g.ext _ _ h8⟩
  | p4 r x y m =>
    obtain ⟨h1, i, k, h2, h3, h4, h5, h6, h7⟩ := h
    refine ⟨.skip hu h1, i, k, g.ext _ _ h2, by omega, g.ext _ _ h4, h5, by omega, fun e => ?_⟩
    obtain ⟨h8, h9⟩ := h7 (by omega)
    refine ⟨fun e => ⟨(h8 e).1, since _ (h8 e).2⟩, fun m' e => ?_⟩
    obtain ⟨h10, v, q, h11, h12⟩ := h9 m' e
    exact ⟨g.ext _ _ h10, v, q, by rw [g.value _ (mem _ _ h10)]; exact h11, since _ h12⟩
  | p5 r x m =>
    obtain ⟨h1, i, h2, h3, h4⟩ := h
    exact ⟨.skip hu h1, i, g.ext _ _ h2, by omega, g.ext _ _ h4⟩
  | p6 r x m =>
    obtain ⟨h1, i, m', h2, h3, h4, h5, h6, v, q, h7, h8⟩ := h
    exact ⟨.skip hu h1, i, m', g.ext _ _ h2, by omega, by omega, h5, g.ext _ _ h6, v, q,
      by rw [g.value _ (mem _ _ h6)]; exact h7, since _ h8⟩
  | p7 r x m w =>
    obtain ⟨h1, i, h2, h3, h4, h5, h6, v, q, h7, h8⟩ := h
    exact ⟨.skip hu h1, i, g.ext _ _ h2, by omega, by omega, g.ext _ _ h5,
      by rw [g.value _ (mem _ _ h5)]; exact h6, v, q, h7, since _ h8⟩

/-! ### The kinds of steps -/

theorem set_same {α : Type} (f : Nat → α) (i : Nat) (v : α) : set f i v i = v := by simp [set]
theorem set_other {α : Type} (f : Nat → α) {i j : Nat} (v : α) (h : j ≠ i) : set f i v j = f j := by
  simp [set, h]

/-- Nothing or only the tail changes. -/
theorem inv_quiet {ls : List (Tid × Label V)} {s : Sys V} {chain hi ti ti'} (h : Inv ls s chain hi ti)
    (t : Tid) (p : Pc V) (l : Label V) (tl : Node) (hl : ∀ v, l ≠ .enq v ∧ l ≠ .deq v)
    (htl : chain[ti']? = some tl) (hti : ti ≤ ti') (ho : ∀ n, owns p = some n → owns (s.pc t) = some n)
    (hp : OkPc (ls ++ [(t, l)]) { s.sh with tail := tl } chain hi ti' t p) :
    Inv (ls ++ [(t, l)]) ⟨{ s.sh with tail := tl }, set s.pc t p⟩ chain hi ti' := by
  have g := h.glob
  refine ⟨⟨g.nodup, g.link, g.head, htl, Nat.le_trans g.le hti, g.bound, ?_⟩, ?_, ?_⟩
  · obtain ⟨q, h1, h2⟩ := g.vals
    exact ⟨q, .other h1 hl, h2⟩
  · intro u
    by_cases hu : u = t
    · subst hu
      simp only [set_same]
      exact hp
    · simp only [set_other _ _ hu]
      exact ok_other ⟨fun _ _ e => e, Nat.le_refl _, hti, Nat.le_refl _, fun _ _ => rfl, g.le, g.bound⟩
        (Ne.symm hu) (fun n _ h1 h2 _ => ⟨h1, h2⟩) (h.pcs u)
  · intro u w n h1 h2
    simp only [set] at h1 h2
    refine h.apart u w n ?_ ?_
    · split at h1
      · rename_i e; subst e; exact ho n h1
      · exact h1
    · split at h2
      · rename_i e; subst e; exact ho n h2
      · exact h2

theorem inv_same {ls : List (Tid × Label V)} {s : Sys V} {chain hi ti} (h : Inv ls s chain hi ti)
    (t : Tid) (p : Pc V) (l : Label V) (hl : ∀ v, l ≠ .enq v ∧ l ≠ .deq v)
    (ho : ∀ n, owns p = some n → owns (s.pc t) = some n)
    (hp : OkPc (ls ++ [(t, l)]) s.sh chain hi ti t p) :
    Inv (ls ++ [(t, l)]) ⟨s.sh, set s.pc t p⟩ chain hi ti :=
  inv_quiet h t p l s.sh.tail hl h.glob.tail (Nat.le_refl _) ho hp

theorem index_unique {chain : List Node} (hn : chain.Nodup) {i j : Nat} {a : Node}
    (hi : chain[i]? = some a) (hj : chain[j]? = some a) : i = j := by
  obtain ⟨h1, e1⟩ := List.getElem?_eq_some_iff.1 hi
  obtain ⟨h2, e2⟩ := List.getElem?_eq_some_iff.1 hj
  exact (List.getElem_inj hn).1 (e1.trans e2.symm)

private theorem quiet_tau : ∀ v, (Label.tau : Label V) ≠ .enq v ∧ (Label.tau : Label V) ≠ .deq v :=
  fun _ => ⟨by simp, by simp⟩

/-- The first element of the queue, seen from the position of the head. -/
theorem front {ls : List (Tid × Label V)} {s : Shared V} {chain hi ti} (g : Glob ls s chain hi ti) {m : Node}
    (h : chain[hi + 1]? = some m) : ∃ v q, s.value m = some v ∧ Replay ls (v :: q) ∧
      (chain.drop (hi + 2)).map s.value = q.map some := by
  obtain ⟨q, h1, h2⟩ := g.vals
  obtain ⟨hlt, e⟩ := List.getElem?_eq_some_iff.1 h
  rw [List.drop_eq_getElem_cons hlt, e, List.map_cons] at h2
  cases q with
  | nil => simp at h2
  | cons v q =>
    rw [List.map_cons, List.cons.injEq] at h2
    exact ⟨v, q, h2.1, h1, h2.2⟩

/-- One more node is linked. -/
theorem inv_link {ls : List (Tid × Label V)} {s : Sys V} {chain hi ti} (h : Inv ls s chain hi ti)
    (t : Tid) (n x y : Node) (hpc : s.pc t = .a6 n x y) (hy : s.sh.next y = none) :
    Inv (ls ++ [(t, .enq (s.sh.value n))])
      ⟨{ s.sh with next := set s.sh.next y (some n) }, set s.pc t (.a7 n x)⟩ (chain ++ [n]) hi ti := by
  have g := h.glob
  have ho := h.pcs t
  rw [hpc] at ho
  obtain ⟨⟨v, hv, hf, hn1, hn2, hn3⟩, i, j, hx, hyj, hij, hjt⟩ := ho
  have hext : ∀ (i : Nat) (a : Node), chain[i]? = some a → (chain ++ [n])[i]? = some a := by
    intro i a e
    obtain ⟨hlt, _⟩ := List.getElem?_eq_some_iff.1 e
    rw [List.getElem?_append_left hlt, e]
  obtain ⟨hjlt, _⟩ := List.getElem?_eq_some_iff.1 hyj
  have hlast : j + 1 = chain.length := by
    have := g.link j y hyj
    rw [hy] at this
    have := List.getElem?_eq_none_iff.1 this.symm
    omega
  obtain ⟨htlt, _⟩ := List.getElem?_eq_some_iff.1 g.tail
  have hjt' : j = ti := by omega
  refine ⟨⟨?_, ?_, hext _ _ g.head, hext _ _ g.tail, g.le, ?_, ?_⟩, ?_, ?_⟩
  · rw [List.nodup_append]
    refine ⟨g.nodup, by simp, ?_⟩
    intro a ha b hb
    simp only [List.mem_singleton] at hb
    subst hb
    intro e; subst e; exact hn1 ha
  · intro k a e
    by_cases hk : k < chain.length
    · rw [List.getElem?_append_left hk] at e
      by_cases hay : a = y
      · subst hay
        have := index_unique g.nodup e hyj
        subst this
        simp only [set_same]
        rw [List.getElem?_append_right (by omega), hlast]
        simp
      · simp only [set_other _ _ hay]
        rw [g.link k a e]
        have : k ≠ j := by
          rintro rfl
          rw [hyj] at e
          exact hay (Option.some.inj e).symm
        rw [List.getElem?_append_left (by omega)]
    · rw [List.getElem?_append_right (by omega)] at e
      have hk' : k = chain.length := by
        obtain ⟨hlt, _⟩ := List.getElem?_eq_some_iff.1 e
        simp at hlt; omega
      subst hk'
      simp only [Nat.sub_self, List.getElem?_cons_zero, Option.some.injEq] at e
      subst e
      have hny : n ≠ y := by
        rintro rfl
        exact hn1 (List.mem_of_getElem? hyj)
      simp only [set_other _ _ hny, hn3]
      rw [List.getElem?_eq_none (by simp)]
  · intro a ha
    rcases List.mem_append.1 ha with ha | ha
    · exact g.bound a ha
    · simp only [List.mem_singleton] at ha
      subst ha; exact hn2
  · obtain ⟨q, h1, h2⟩ := g.vals
    refine ⟨q ++ [v], by rw [hv]; exact .enq h1, ?_⟩
    have hle := g.le
    rw [List.drop_append_of_le_length (by omega), List.map_append, h2, List.map_append]
    simp [hv]
  · intro u
    by_cases hu : u = t
    · subst hu
      simp only [set_same]
      refine ⟨by rw [hv]; exact .enq hf, i, hext _ _ hx, by omega, fun e => ?_⟩
      rw [List.getElem?_append_right (by omega), show i + 1 - chain.length = 0 by omega]
      rfl
    · simp only [set_other _ _ hu]
      refine ok_other (s := s.sh) ⟨hext, Nat.le_refl _, Nat.le_refl _, Nat.le_refl _, fun _ _ => rfl, g.le, g.bound⟩
        (Ne.symm hu) ?_ (h.pcs u)
      intro n' ho' h1 h2 _
      constructor
      · intro hm
        rcases List.mem_append.1 hm with hm | hm
        · exact h1 hm
        · simp only [List.mem_singleton] at hm
          subst hm
          exact hu (h.apart u t n' ho' (by rw [hpc]; rfl))
      · have hny : n' ≠ y := by
          rintro rfl
          exact h1 (List.mem_of_getElem? hyj)
        simp only [set_other _ _ hny]
        exact h2
  · intro u w m h1 h2
    simp only [set] at h1 h2
    split at h1
    · simp [owns] at h1
    · split at h2
      · simp [owns] at h2
      · exact h.apart u w m h1 h2

/-- The head moves. -/
theorem inv_take {ls : List (Tid × Label V)} {s : Sys V} {chain hi ti} (h : Inv ls s chain hi ti)
    (t : Tid) (x m : Node) (w : Option V) (hpc : s.pc t = .p7 true x m w) (hx : s.sh.head = x) :
    Inv (ls ++ [(t, .deq w)]) ⟨{ s.sh with head := m }, set s.pc t .idle⟩ chain (hi + 1) ti := by
  have g := h.glob
  have ho := h.pcs t
  rw [hpc] at ho
  obtain ⟨hf, i, h1, h2, h3, h4, h5, v, q, h6, h7⟩ := ho
  have hi' : i = hi := index_unique g.nodup h1 (by rw [← hx]; exact g.head)
  subst hi'
  obtain ⟨v', q', e1, e2, e3⟩ := front g h4
  have hw : w = some v' := h5.symm.trans e1
  refine ⟨⟨g.nodup, g.link, h4, g.tail, h3, g.bound, ?_⟩, ?_, ?_⟩
  · exact ⟨q', by rw [hw]; exact .deq e2, e3⟩
  · intro u
    by_cases hu : u = t
    · subst hu
      simp only [set_same]
      show Follows _ _ _
      rw [hw]; exact .deq hf
    · simp only [set_other _ _ hu]
      exact ok_other ⟨fun _ _ e => e, Nat.le_succ _, Nat.le_refl _, Nat.le_refl _, fun _ _ => rfl, g.le,
        g.bound⟩ (Ne.symm hu) (fun n _ h1 h2 _ => ⟨h1, h2⟩) (h.pcs u)
  · intro u w m h1 h2
    simp only [set] at h1 h2
    split at h1
    · simp [owns] at h1
    · split at h2
      · simp [owns] at h2
      · exact h.apart u w m h1 h2

theorem mine_tau {ls : List (Tid × Label V)} {s : Shared V} {chain t n} (tl : Node) (h : Mine ls s chain t n) :
    Mine (ls ++ [(t, .tau)]) { s with tail := tl } chain t n := by
  obtain ⟨v, h1, h2, h3, h4, h5⟩ := h
  exact ⟨v, h1, .tau h2, h3, h4, h5⟩

theorem inv_step {ls : List (Tid × Label V)} {s : Sys V} {chain hi ti} (h : Inv ls s chain hi ti) (t : Tid)
    (h0 : s.pc t ≠ .idle) :
    ∃ chain' hi' ti', Inv (ls ++ [(t, (step s.sh (s.pc t)).2.2)])
      ⟨(step s.sh (s.pc t)).1, set s.pc t (step s.sh (s.pc t)).2.1⟩ chain' hi' ti' := by
  have g := h.glob
  have ho := h.pcs t
  have hle := g.le
  have tau : ∀ p, (∀ n, owns p = some n → owns (s.pc t) = some n) →
      OkPc (ls ++ [(t, .tau)]) s.sh chain hi ti t p →
      ∃ chain' hi' ti', Inv (ls ++ [(t, .tau)]) ⟨s.sh, set s.pc t p⟩ chain' hi' ti' :=
    fun p a b => ⟨chain, hi, ti, inv_same h t p .tau quiet_tau a b⟩
  cases hpc : s.pc t with
  | idle => exact absurd hpc h0
  | abort => rw [hpc] at ho; exact ho.elim
  | a0 n =>
    rw [hpc] at ho tau
    exact tau _ (fun _ e => e) ⟨mine_tau s.sh.tail ho, ti, g.tail, Nat.le_refl _⟩
  | a1 n x =>
    rw [hpc] at ho tau
    obtain ⟨h1, i, h2, h3⟩ := ho
    exact tau _ (fun _ e => e) ⟨mine_tau s.sh.tail h1, i, ti, h2, g.tail, h3, Nat.le_refl _⟩
  | a2 n x y =>
    rw [hpc] at ho tau
    obtain ⟨h1, i, j, h2, h3, h4, h5⟩ := ho
    refine tau _ (fun _ e => e) ⟨mine_tau s.sh.tail h1, i, h2, by omega, fun m' e1 e2 => ?_⟩
    have : i = j := by omega
    subst this
    exact (g.link i y h3).symm.trans e2
  | a3 n x m =>
    rw [hpc] at ho tau
    obtain ⟨h1, i, h2, h3, h4⟩ := ho
    simp only [step]
    split
    · rename_i hx
      subst hx
      have hi' : i = ti := index_unique g.nodup h2 g.tail
      subst hi'
      cases m with
      | some m => exact tau _ (fun _ e => e) ⟨mine_tau s.sh.tail h1, i, h2, h3, h4 m rfl rfl⟩
      | none => exact tau _ (fun _ e => e) ⟨mine_tau s.sh.tail h1, i, h2, h3⟩
    · exact tau _ (fun _ e => e) (mine_tau s.sh.tail h1)
  | a4 n x m =>
    rw [hpc] at ho tau
    obtain ⟨h1, i, h2, h3, h4⟩ := ho
    simp only [step]
    split
    · rename_i hx
      have hi' : i = ti := index_unique g.nodup h2 (by rw [← hx]; exact g.tail)
      subst hi'
      exact ⟨chain, hi, i + 1, inv_quiet h t _ .tau m quiet_tau h4 (Nat.le_succ _)
        (by rw [hpc]; exact fun _ e => e) (mine_tau m h1)⟩
    · exact tau _ (fun _ e => e) (mine_tau s.sh.tail h1)
  | a5 n x =>
    rw [hpc] at ho tau
    obtain ⟨h1, i, h2, h3⟩ := ho
    exact tau _ (fun _ e => e) ⟨mine_tau s.sh.tail h1, i, ti, h2, g.tail, h3, Nat.le_refl _⟩
  | a6 n x y =>
    simp only [step]
    split
    · rename_i hy
      exact ⟨_, _, _, inv_link h t n x y hpc hy⟩
    · rw [hpc] at ho tau
      exact tau _ (fun _ e => e) (mine_tau s.sh.tail ho.1)
  | a7 n x =>
    rw [hpc] at ho
    obtain ⟨h1, i, h2, h3, h4⟩ := ho
    simp only [step]
    have hq : ∀ v, (Label.added : Label V) ≠ .enq v ∧ (Label.added : Label V) ≠ .deq v :=
      fun _ => ⟨by simp, by simp⟩
    split
    · rename_i hx
      have hi' : i = ti := index_unique g.nodup h2 (by rw [← hx]; exact g.tail)
      subst hi'
      exact ⟨chain, hi, i + 1, inv_quiet h t _ .added n hq (h4 rfl) (Nat.le_succ _)
        (by simp [owns]) (.added h1)⟩
    · exact ⟨chain, hi, ti, inv_same h t _ .added hq (by simp [owns]) (.added h1)⟩
  | p0 r =>
    rw [hpc] at ho tau
    exact tau _ (by simp [owns, step]) ⟨.tau ho, hi, g.head, Nat.le_refl _⟩
  | p1 r x =>
    rw [hpc] at ho tau
    obtain ⟨h1, i, h2, h3⟩ := ho
    exact tau _ (by simp [owns, step]) ⟨.tau h1, i, ti, h2, h3, g.tail, by omega, Nat.le_refl _⟩
  | p2 r x y =>
    rw [hpc] at ho tau
    obtain ⟨h1, i, k, h2, h3, h4, h5, h6⟩ := ho
    exact tau _ (by simp [owns, step]) ⟨.tau h1, i, k, hi, h2, h3, Nat.le_refl _, h4, h5, h6, g.head⟩
  | p3 r x y z =>
    rw [hpc] at ho tau
    obtain ⟨h1, i, k, j, h2, h3, h4, h5, h6, h7, h8⟩ := ho
    refine tau _ (by simp [owns, step]) ⟨.tau h1, i, k, h2, by omega, h5, h6, h7, fun e => ?_⟩
    have : j = i := by omega
    subst this
    rw [g.link j z h8]
    obtain ⟨klt, _⟩ := List.getElem?_eq_some_iff.1 h5
    refine ⟨fun e' => ?_, fun m' e' => ?_⟩
    · have hlen := List.getElem?_eq_none_iff.1 e'
      refine ⟨by omega, since_snoc (since_now ?_) (fun _ => rfl)⟩
      obtain ⟨q, q1, q2⟩ := g.vals
      rw [List.drop_eq_nil_of_le (by omega)] at q2
      cases q with
      | nil => exact q1
      | cons v q => simp at q2
    · obtain ⟨v, q, e1, e2, _⟩ := front g (by rw [← e]; exact e')
      exact ⟨e', v, q, e1, since_snoc (since_now e2) (fun _ => rfl)⟩
  | p4 r x y m =>
    rw [hpc] at ho tau
    obtain ⟨h1, i, k, h2, h3, h4, h5, h6, h7⟩ := ho
    simp only [step]
    split
    · rename_i hx
      have hi' : i = hi := index_unique g.nodup h2 (by rw [hx]; exact g.head)
      obtain ⟨h8, h9⟩ := h7 hi'
      split
      · rename_i hxy
        subst hxy
        cases m with
        | some m =>
          have hk : i = k := index_unique g.nodup h2 h4
          subst hk
          exact tau _ (by simp [owns]) ⟨.tau h1, i, h4, h6, (h9 m rfl).1⟩
        | none =>
          exact ⟨chain, hi, ti, inv_same h t _ .null (fun _ => ⟨by simp, by simp⟩) (by simp [owns])
            (.null h1)⟩
      · rename_i hxy
        have hik : i ≠ k := by
          rintro rfl
          rw [h2] at h4
          exact hxy (Option.some.inj h4)
        cases m with
        | none => exact absurd (h8 rfl).1 hik
        | some m =>
          obtain ⟨h10, v, q, h11, h12⟩ := h9 m rfl
          exact tau _ (by simp [owns]) ⟨.tau h1, i, m, h2, h3, by omega, rfl, h10, v, q, h11,
            since_snoc h12 (fun _ => rfl)⟩
    · exact tau _ (by simp [owns]) (.tau h1)
  | p5 r x m =>
    rw [hpc] at ho tau
    obtain ⟨h1, k, h2, h3, h4⟩ := ho
    simp only [step]
    split
    · rename_i hx
      have hk : k = ti := index_unique g.nodup h2 (by rw [← hx]; exact g.tail)
      subst hk
      exact ⟨chain, hi, k + 1, inv_quiet h t _ .tau m quiet_tau h4 (Nat.le_succ _)
        (by simp [owns]) (.tau h1)⟩
    · exact tau _ (by simp [owns]) (.tau h1)
  | p6 r x m =>
    rw [hpc] at ho tau
    obtain ⟨h1, i, m', h2, h3, h4, h5, h6, v, q, h7, h8⟩ := ho
    subst h5
    exact tau _ (by simp [owns, step]) ⟨.tau h1, i, h2, h3, h4, h6, rfl, v, q, h7, since_snoc h8 (fun _ => rfl)⟩
  | p7 r x m w =>
    simp only [step]
    split
    · rename_i hr
      subst hr
      rw [hpc] at ho
      obtain ⟨h1, i, h2, h3, h4, h5, h6, v, q, h7, h8⟩ := ho
      subst h7
      exact ⟨chain, hi, ti, inv_same h t _ _ (fun _ => ⟨by simp, by simp⟩) (by simp [owns]) (.peeked h1)⟩
    · rename_i hr
      have hr' : r = true := by simpa using hr
      subst hr'
      split
      · rename_i hx
        exact ⟨_, _, _, inv_take h t x m w hpc hx⟩
      · rw [hpc] at ho tau
        exact tau _ (by simp [owns]) (.tau ho.1)

theorem inv_exec {ls : List (Tid × Label V)} {s : Sys V} (h : Exec ls s) :
    ∃ chain hi ti, Inv ls s chain hi ti := by
  induction h with
  | init =>
    refine ⟨[0], 0, 0, ⟨⟨by simp, ?_, rfl, rfl, Nat.le_refl _, by simp [init], ⟨[], .nil, rfl⟩⟩,
      fun t => .nil, by simp [init, owns]⟩⟩
    intro i a _
    cases i <;> rfl
  | @add ls s t v hx hpc ih =>
    obtain ⟨chain, hi, ti, h⟩ := ih
    have g := h.glob
    have fresh : ∀ a ∈ chain, a ≠ s.sh.fresh := fun a ha => Nat.ne_of_lt (g.bound a ha)
    have low : ∀ u n, owns (s.pc u) = some n → n < s.sh.fresh := by
      intro u n ho
      have := h.pcs u
      cases hp : s.pc u <;> rw [hp] at ho this <;> simp only [owns, Option.some.injEq, reduceCtorEq] at ho
      all_goals subst ho
      · obtain ⟨_, _, _, _, h, _⟩ := this; exact h
      all_goals (obtain ⟨⟨_, _, _, _, h, _⟩, _⟩ := this; exact h)
    refine ⟨chain, hi, ti, ⟨⟨g.nodup, ?_, g.head, g.tail, g.le, ?_, ?_⟩, ?_, ?_⟩⟩
    · intro i a e
      simp only [newNode, set_other _ _ (fresh a (List.mem_of_getElem? e))]
      exact g.link i a e
    · intro a ha
      exact Nat.lt_succ_of_lt (g.bound a ha)
    · obtain ⟨q, h1, h2⟩ := g.vals
      refine ⟨q, .other h1 (fun _ => ⟨by simp, by simp⟩), ?_⟩
      rw [← h2]
      apply List.map_congr_left
      intro a ha
      simp only [newNode, set_other _ _ (fresh a (List.mem_of_mem_drop ha))]
    · intro u
      by_cases hu : u = t
      · subst hu
        simp only [set_same]
        have ho := h.pcs u
        rw [hpc] at ho
        refine ⟨v, by simp [newNode, set_same], .callAdd ho, fun hm => fresh _ hm rfl, Nat.lt_succ_self _,
          by simp [newNode, set_same]⟩
      · simp only [set_other _ _ hu]
        refine ok_other ⟨fun _ _ e => e, Nat.le_refl _, Nat.le_refl _, Nat.le_succ _, ?_, g.le, g.bound⟩
          (Ne.symm hu) ?_ (h.pcs u)
        · intro a ha
          simp only [newNode, set_other _ _ (Nat.ne_of_lt ha)]
        · intro n _ h1 h2 h3
          refine ⟨h1, ?_⟩
          simp only [newNode, set_other _ _ (Nat.ne_of_lt h3)]
          exact h2
    · intro u w n h1 h2
      simp only [set] at h1 h2
      split at h1
      · split at h2
        · simp_all
        · simp only [owns, Option.some.injEq] at h1
          exact absurd h1 (Nat.ne_of_gt (low w n h2))
      · split at h2
        · simp only [owns, Option.some.injEq] at h2
          exact absurd h2 (Nat.ne_of_gt (low u n h1))
        · exact h.apart u w n h1 h2
  | @poll ls s t r hx hpc ih =>
    obtain ⟨chain, hi, ti, h⟩ := ih
    have ho := h.pcs t
    rw [hpc] at ho
    exact ⟨chain, hi, ti, inv_same h t _ _ (fun _ => ⟨by simp, by simp⟩) (by simp [owns]) (.callPoll ho)⟩
  | @step ls s t hx h0 h1 ih =>
    obtain ⟨chain, hi, ti, h⟩ := ih
    exact inv_step h t h0

/-! ### Properties -/

theorem holds_of {ls : List (Tid × Label V)} {s : Shared V} {chain hi ti} (g : Glob ls s chain hi ti) :
    ∀ (q : List V) (i : Nat) (a : Node), chain[i]? = some a →
      (chain.drop (i + 1)).map s.value = q.map some → Holds s.next s.value a q := by
  intro q
  induction q with
  | nil =>
    intro i a ha hq
    simp only [List.map_nil, List.map_eq_nil_iff, List.drop_eq_nil_iff] at hq
    refine .nil ?_
    rw [g.link i a ha, List.getElem?_eq_none hq]
  | cons v q ih =>
    intro i a ha hq
    have hlt : i + 1 < chain.length := by
      refine Nat.lt_of_not_le fun hge => ?_
      rw [List.drop_eq_nil_of_le hge] at hq
      simp at hq
    rw [List.drop_eq_getElem_cons hlt, List.map_cons, List.map_cons, List.cons.injEq] at hq
    exact .cons (by rw [g.link i a ha, List.getElem?_eq_getElem hlt]) hq.1
      (ih (i + 1) _ (List.getElem?_eq_getElem hlt) hq.2)

/-- C60: in every execution the changes of the queue, in the order in which they happen, are those of a
first-in first-out queue, and the nodes hold its content.  In particular an element is delivered at
most once, after the elements added before it, and none is lost. -/
theorem fifo {ls : List (Tid × Label V)} {s : Sys V} (h : Exec ls s) :
    ∃ q, Replay ls q ∧ Holds s.sh.next s.sh.value s.sh.head q := by
  obtain ⟨chain, hi, ti, h⟩ := inv_exec h
  obtain ⟨q, h1, h2⟩ := h.glob.vals
  exact ⟨q, h1, holds_of h.glob q hi _ h.glob.head h2⟩

/-- C60: every operation has its effect exactly once, between its call and its return. -/
theorem operations {ls : List (Tid × Label V)} {s : Sys V} (h : Exec ls s) (t : Tid) :
    ∃ p, Follows t ls p := by
  obtain ⟨chain, hi, ti, h⟩ := inv_exec h
  have := h.pcs t
  cases hp : s.pc t <;> rw [hp] at this
  · exact ⟨_, this⟩
  · exact this.elim
  · obtain ⟨_, _, h, _⟩ := this; exact ⟨_, h⟩
  all_goals first
    | (obtain ⟨⟨_, _, h, _⟩, _⟩ := this; exact ⟨_, h⟩)
    | exact ⟨_, this.1⟩
    | exact ⟨_, this⟩

/-- C60: if `poll` or `peek` returns null, the queue was empty at some moment since the call. -/
theorem null_was_empty {ls : List (Tid × Label V)} {s : Sys V} (h : Exec ls s) (t : Tid)
    (hl : (step s.sh (s.pc t)).2.2 = .null) : Since ls t [] := by
  obtain ⟨chain, hi, ti, h⟩ := inv_exec h
  have ho := h.pcs t
  cases hp : s.pc t <;> rw [hp] at ho hl <;> simp only [step] at hl
  all_goals try (first | (simp at hl; done) | (split at hl <;> simp at hl; done))
  · split at hl
    · split at hl <;> simp at hl
    · simp at hl
  · split at hl
    · rename_i x y m hx
      split at hl
      · cases m with
        | some m => simp at hl
        | none =>
          obtain ⟨_, i, k, h2, h3, _, _, _, h7⟩ := ho
          have hi' : i = hi := index_unique h.glob.nodup h2 (by rw [hx]; exact h.glob.head)
          exact ((h7 hi').1 rfl).2
      · simp at hl
    · simp at hl
  · split at hl
    · simp at hl
    · split at hl <;> simp at hl

/-- C60: if `peek` returns an element, this was the first one at some moment since the call. -/
theorem peeked_was_first {ls : List (Tid × Label V)} {s : Sys V} (h : Exec ls s) (t : Tid) (w : Option V)
    (hl : (step s.sh (s.pc t)).2.2 = .peeked w) : ∃ v q, w = some v ∧ Since ls t (v :: q) := by
  obtain ⟨chain, hi, ti, h⟩ := inv_exec h
  have ho := h.pcs t
  cases hp : s.pc t <;> rw [hp] at ho hl <;> simp only [step] at hl
  all_goals try (first | (simp at hl; done) | (split at hl <;> simp at hl; done))
  · split at hl
    · split at hl <;> simp at hl
    · simp at hl
  · split at hl
    · split at hl
      · split at hl <;> simp at hl
      · simp at hl
    · simp at hl
  · split at hl
    · obtain ⟨_, i, _, _, _, _, _, v, q, h7, h8⟩ := ho
      simp only [Label.peeked.injEq] at hl
      exact ⟨v, q, hl ▸ h7, h8⟩
    · split at hl <;> simp at hl

/-- C60: no null pointer is followed. -/
theorem no_abort {ls : List (Tid × Label V)} {s : Sys V} (h : Exec ls s) (t : Tid) : s.pc t ≠ .abort := by
  obtain ⟨chain, hi, ti, h⟩ := inv_exec h
  intro e
  have := h.pcs t
  rw [e] at this
  exact this

/-! ### Progress -/

/-- The thread comes to the end of its operation if it runs alone. -/
inductive Ends : Shared V → Pc V → Prop where
  | now {s} : Ends s .idle
  | step {s p} : Ends (step s p).1 (step s p).2.1 → Ends s p

private theorem ends_a0 {chain : List Node} : ∀ (d : Nat) (s : Shared V) (ti : Nat) (n : Node),
    chain.length - ti = d → (∀ i a, chain[i]? = some a → s.next a = chain[i + 1]?) →
    chain[ti]? = some s.tail → Ends s (.a0 n) := by
  intro d
  induction d with
  | zero =>
    intro s ti n hd _ ht
    obtain ⟨hlt, _⟩ := List.getElem?_eq_some_iff.1 ht
    omega
  | succ d ih =>
    intro s ti n hd hl ht
    refine .step (.step (.step (.step ?_)))
    simp only [step, if_true]
    have e := hl _ _ ht
    cases hn : s.next s.tail with
    | some m =>
      rw [hn] at e
      refine .step ?_
      simp only [step, if_true]
      exact ih _ (ti + 1) n (by omega) hl e.symm
    | none =>
      refine .step (.step ?_)
      simp only [step, hn, if_true]
      exact .step .now

private theorem ends_p0 {chain : List Node} : ∀ (d : Nat) (s : Shared V) (hi ti : Nat) (r : Bool),
    chain.length - ti = d → (∀ i a, chain[i]? = some a → s.next a = chain[i + 1]?) → chain.Nodup →
    chain[hi]? = some s.head → chain[ti]? = some s.tail → hi ≤ ti → Ends s (.p0 r) := by
  intro d
  induction d with
  | zero =>
    intro s hi ti r hd _ _ _ ht
    obtain ⟨hlt, _⟩ := List.getElem?_eq_some_iff.1 ht
    omega
  | succ d ih =>
    intro s hi ti r hd hl hn hh ht hle
    refine .step (.step (.step (.step (.step ?_))))
    simp only [step, if_true]
    split
    · rename_i heq
      have e := hl _ _ ht
      cases hm : s.next s.head with
      | some m =>
        refine .step ?_
        simp only [step, if_true]
        rw [← heq, hm] at e
        exact ih _ hi (ti + 1) r (by omega) hl hn hh e.symm (by omega)
      | none => exact .now
    · rename_i hne
      have hlt : hi < ti := by
        refine Nat.lt_of_le_of_ne hle ?_
        rintro rfl
        rw [hh] at ht
        exact hne (Option.some.inj ht)
      obtain ⟨htl, _⟩ := List.getElem?_eq_some_iff.1 ht
      rw [hl _ _ hh, List.getElem?_eq_getElem (by omega)]
      refine .step (.step ?_)
      simp only [step]
      split
      · exact .now
      · simp only [if_true]
        exact .now

/-- C60: whatever the other threads have left behind, an operation that runs on alone comes to its
end; no thread has to wait for another one. -/
theorem ends_alone {ls : List (Tid × Label V)} {s : Sys V} (h : Exec ls s) (t : Tid) :
    Ends s.sh (s.pc t) := by
  obtain ⟨chain, hi, ti, h⟩ := inv_exec h
  have g := h.glob
  have ho := h.pcs t
  have a0 : ∀ n, Ends s.sh (.a0 n) := fun n => ends_a0 _ s.sh ti n rfl g.link g.tail
  have p0 : ∀ r, Ends s.sh (.p0 r) := fun r => ends_p0 _ s.sh hi ti r rfl g.link g.nodup g.head g.tail g.le
  have a4 : ∀ n x m, (∃ i, chain[i]? = some x ∧ i ≤ ti ∧ chain[i + 1]? = some m) → Ends s.sh (.a4 n x m) := by
    rintro n x m ⟨i, h1, h2, h3⟩
    refine .step ?_
    simp only [step]
    split
    · rename_i hx
      have hi' : i = ti := index_unique g.nodup h1 (by rw [← hx]; exact g.tail)
      exact ends_a0 _ _ (i + 1) n rfl g.link h3
    · exact a0 n
  have a5 : ∀ n x y, Ends s.sh (.a6 n x y) := by
    intro n x y
    refine .step ?_
    simp only [step]
    split
    · exact .step .now
    · exact a0 n
  have p5 : ∀ r x m, (∃ i, chain[i]? = some x ∧ i ≤ ti ∧ chain[i + 1]? = some m) → Ends s.sh (.p5 r x m) := by
    rintro r x m ⟨i, h1, h2, h3⟩
    refine .step ?_
    simp only [step]
    split
    · rename_i hx
      have hi' : i = ti := index_unique g.nodup h1 (by rw [← hx]; exact g.tail)
      have := g.le
      exact ends_p0 _ _ hi (i + 1) r rfl g.link g.nodup g.head h3 (by omega)
    · exact p0 r
  have p7 : ∀ r x m w, Ends s.sh (.p7 r x m w) := by
    intro r x m w
    refine .step ?_
    simp only [step]
    split
    · exact .now
    · split
      · exact .now
      · exact p0 r
  have a3 : ∀ n x m, OkPc ls s.sh chain hi ti t (.a3 n x m) → Ends s.sh (.a3 n x m) := by
    rintro n x m ⟨_, i, h1, h2, h3⟩
    refine .step ?_
    simp only [step]
    split
    · rename_i hx
      have hi' : i = ti := index_unique g.nodup h1 (by rw [hx]; exact g.tail)
      cases m with
      | some m => exact a4 n x m ⟨i, h1, h2, h3 m hi' rfl⟩
      | none => exact .step (a5 n x _)
    · exact a0 n
  have p4 : ∀ r x y m, (∃ i k, chain[i]? = some x ∧ chain[k]? = some y ∧ k ≤ ti ∧
      (i = hi → (m = none → i = k) ∧ ∀ m', m = some m' → chain[i + 1]? = some m')) → Ends s.sh (.p4 r x y m) := by
    rintro r x y m ⟨i, k, h1, h3, h5, h6⟩
    refine .step ?_
    simp only [step]
    split
    · rename_i hx
      have hi' : i = hi := index_unique g.nodup h1 (by rw [hx]; exact g.head)
      obtain ⟨h7, h8⟩ := h6 hi'
      split
      · rename_i hxy
        cases m with
        | some m =>
          have hk : i = k := index_unique g.nodup h1 (by rw [hxy]; exact h3)
          exact p5 r y m ⟨k, h3, h5, by rw [← hk]; exact h8 m rfl⟩
        | none => exact .now
      · rename_i hxy
        cases m with
        | some m => exact .step (p7 r x m _)
        | none =>
          have := h7 rfl
          subst this
          rw [h1] at h3
          exact absurd (Option.some.inj h3) hxy
    · exact p0 r
  have p3 : ∀ r x y z, (∃ i k j, chain[i]? = some x ∧ i ≤ j ∧ j ≤ hi ∧ chain[k]? = some y ∧ i ≤ k ∧ k ≤ ti ∧
        chain[j]? = some z) → Ends s.sh (.p3 r x y z) := by
    rintro r x y z ⟨i, k, j, h1, h2, h3, h4, h5, h6, h7⟩
    refine .step (p4 r x y _ ⟨i, k, h1, h4, h6, fun e => ?_⟩)
    have hj : i = j := by omega
    subst hj
    have e' := g.link i z h7
    refine ⟨fun e1 => ?_, fun m' e1 => ?_⟩
    · obtain ⟨hlt, _⟩ := List.getElem?_eq_some_iff.1 h4
      have := List.getElem?_eq_none_iff.1 (e'.symm.trans e1)
      omega
    · exact e'.symm.trans e1
  cases hp : s.pc t with
  | idle => exact .now
  | abort => rw [hp] at ho; exact ho.elim
  | a0 n => exact a0 n
  | a1 n x =>
    rw [hp] at ho
    obtain ⟨h1, i, h2, h3⟩ := ho
    refine .step (.step (a3 n x _ ⟨h1, i, h2, h3, fun m' e1 e2 => ?_⟩))
    rw [e1]
    exact (g.link ti _ g.tail).symm.trans e2
  | a2 n x y =>
    rw [hp] at ho
    obtain ⟨h1, i, j, h2, h3, h4, h5⟩ := ho
    refine .step (a3 n x _ ⟨h1, i, h2, by omega, fun m' e1 e2 => ?_⟩)
    have : i = j := by omega
    subst this
    exact (g.link i y h3).symm.trans e2
  | a3 n x m => rw [hp] at ho; exact a3 n x m ho
  | a4 n x m => rw [hp] at ho; exact a4 n x m ho.2
  | a5 n x => exact .step (a5 n x _)
  | a6 n x y => exact a5 n x y
  | a7 n x => exact .step .now
  | p0 r => exact p0 r
  | p1 r x =>
    rw [hp] at ho
    obtain ⟨_, i, h1, h2⟩ := ho
    have := g.le
    exact .step (.step (p3 r x _ _ ⟨i, ti, hi, h1, h2, Nat.le_refl _, g.tail, by omega, Nat.le_refl _, g.head⟩))
  | p2 r x y =>
    rw [hp] at ho
    obtain ⟨_, i, k, h1, h2, h3, h4, h5⟩ := ho
    exact .step (p3 r x y _ ⟨i, k, hi, h1, h2, Nat.le_refl _, h3, h4, h5, g.head⟩)
  | p3 r x y z => rw [hp] at ho; exact p3 r x y z ho.2
  | p4 r x y m =>
    rw [hp] at ho
    obtain ⟨_, i, k, h1, h2, h3, h4, h5, h6⟩ := ho
    exact p4 r x y m ⟨i, k, h1, h3, h5, fun e => ⟨fun e1 => ((h6 e).1 e1).1, fun m' e1 => ((h6 e).2 m' e1).1⟩⟩
  | p5 r x m => rw [hp] at ho; exact p5 r x m ho.2
  | p6 r x m =>
    rw [hp] at ho
    obtain ⟨_, _, m', _, _, _, h5, _⟩ := ho
    subst h5
    exact .step (p7 r x m' _)
  | p7 r x m w => exact p7 r x m w

/-! ### A case -/

inductive Act where
  | add (t : Tid) (v : Nat)
  | poll (t : Tid) (remove : Bool)
  | step (t : Tid)

/-- One action of an execution. -/
def act (c : List (Tid × Label Nat) × Sys Nat) : Act → Option (List (Tid × Label Nat) × Sys Nat)
  | .add t v =>
    if c.2.pc t = .idle then
      some (c.1 ++ [(t, .callAdd v)], ⟨newNode c.2.sh v, set c.2.pc t (.a0 c.2.sh.fresh)⟩)
    else none
  | .poll t r =>
    if c.2.pc t = .idle then some (c.1 ++ [(t, .callPoll r)], ⟨c.2.sh, set c.2.pc t (.p0 r)⟩) else none
  | .step t =>
    if c.2.pc t = .idle ∨ c.2.pc t = .abort then none
    else some (c.1 ++ [(t, (LinkedQueue.step c.2.sh (c.2.pc t)).2.2)],
      ⟨(LinkedQueue.step c.2.sh (c.2.pc t)).1, set c.2.pc t (LinkedQueue.step c.2.sh (c.2.pc t)).2.1⟩)

theorem act_exec {c c' : List (Tid × Label Nat) × Sys Nat} {a : Act} (h : Exec c.1 c.2) (ha : act c a = some c') :
    Exec c'.1 c'.2 := by
  cases a <;> simp only [act] at ha <;> split at ha <;> simp at ha <;> subst ha
  · rename_i t v e; exact .add t v h e
  · rename_i t r e; exact .poll t r h e
  · rename_i t e; exact .step t h (fun x => e (.inl x)) (fun x => e (.inr x))

theorem acts_exec : ∀ (l : List Act) {c c' : List (Tid × Label Nat) × Sys Nat}, Exec c.1 c.2 →
    l.foldlM act c = some c' → Exec c'.1 c'.2 := by
  intro l
  induction l with
  | nil => intro c c' h e; simp at e; subst e; exact h
  | cons a l ih =>
    intro c c' h e
    rw [List.foldlM_cons] at e
    cases ha : act c a with
    | none => rw [ha] at e; simp at e
    | some d => rw [ha] at e; exact ih (act_exec h ha) e

/-- Thread 0 links 7 but has not moved the tail when thread 1 polls: it moves the tail itself and gets
the element. -/
def sample : List Act :=
  [Act.add 0 7] ++ List.replicate 6 (Act.step 0) ++ [Act.poll 1 true] ++ List.replicate 13 (Act.step 1) ++
    [Act.step 0, Act.poll 0 false] ++ List.replicate 5 (Act.step 0)

example : ∃ c, sample.foldlM act ([], init) = some c ∧ Exec c.1 c.2 ∧
    c.1.filter (fun l => l.2 ≠ .tau) = [(0, .callAdd 7), (0, .enq (some 7)), (1, .callPoll true),
      (1, .deq (some 7)), (0, .added), (0, .callPoll false), (0, .null)] := by
  have h : ((sample.foldlM act ([], init)).map fun c => c.1.filter (fun l => l.2 ≠ .tau)) =
      some [(0, .callAdd 7), (0, .enq (some 7)), (1, .callPoll true),
      (1, .deq (some 7)), (0, .added), (0, .callPoll false), (0, .null)] := by decide +kernel
  obtain ⟨c, e1, e2⟩ := Option.map_eq_some_iff.1 h
  exact ⟨c, e1, acts_exec _ (c := ([], init)) .init e1, e2⟩

end Avian.LinkedQueue
