import Verif.Props.JHashMapOps

/-
Iteration over a hash map, with removal.
-/
namespace Avian.JHashMap

variable {K V : Type}

/-- The cell before the next one in its bucket, as `next` will find it (HashMap.java:337-343). -/
def prevOf (next : Cell → Option Cell) (it : Iter) : Option Cell :=
  match it.currentCell with
  | some c => if next c ≠ none then some c else none
  | none => it.previousCell

/-- The lists `ls` are the buckets of the array. -/
structure Lists (next : Cell → Option Cell) (arr : List (Option Cell)) (ls : List (List Cell)) : Prop where
  length : ls.length = arr.length
  chains : ∀ (i : Nat) (l : List Cell), ls[i]? = some l → ∃ o, arr[i]? = some o ∧ Chain next o l

/-- What holds of an iterator between its operations: `rest` are the cells still to come. -/
structure Iterating (m : Map K V) (arr : List (Option Cell)) (ls : List (List Cell)) (it : Iter)
    (rest : List Cell) : Prop where
  array : m.array = some arr
  lists : Lists m.next arr ls
  nodup : ls.flatten.Nodup
  low : -1 ≤ it.nextIndex
  none : it.nextCell = none → prevOf m.next it = none ∧
    rest = (ls.drop (it.nextIndex + 1).toNat).flatten
  next : ∀ n, it.nextCell = some n → 0 ≤ it.nextIndex ∧ ∃ pre post,
    ls[it.nextIndex.toNat]? = some (pre ++ n :: post) ∧ prevOf m.next it = pre.getLast? ∧
    rest = n :: post ++ (ls.drop (it.nextIndex + 1).toNat).flatten
  current : ∀ c, it.currentCell = some c → 0 ≤ it.currentIndex ∧ it.currentIndex ≤ it.nextIndex ∧
    c ∉ rest ∧ ∃ pre post, ls[it.currentIndex.toNat]? = some (pre ++ c :: post) ∧
      it.previousCell = pre.getLast?

theorem drop_split {A : Type} {ls : List (List A)} {i : Nat} {l : List A} (h : ls[i]? = some l) :
    (ls.drop i).flatten = l ++ (ls.drop (i + 1)).flatten := by
  obtain ⟨hi, rfl⟩ := List.getElem?_eq_some_iff.1 h
  rw [List.drop_eq_getElem_cons hi, List.flatten_cons]

theorem chain_mid {next : Cell → Option Cell} {c : Cell} {l2 : List Cell} {l1 : List Cell}
    {o : Option Cell} (h : Chain next o (l1 ++ c :: l2)) : next c = l2.head? := by
  have := chain_tail h
  cases l2 with
  | nil => exact this
  | cons d l2 => exact this.1

/-- Splits of a list without repetition at the same element are the same. -/
theorem split_unique {A : Type} {c : A} : ∀ {l1 l2 r1 r2 : List A}, (l1 ++ c :: l2).Nodup →
    l1 ++ c :: l2 = r1 ++ c :: r2 → l1 = r1 ∧ l2 = r2 := by
  intro l1
  induction l1 with
  | nil =>
    intro l2 r1 r2 hn e
    cases r1 with
    | nil => simp at e; exact ⟨rfl, e⟩
    | cons d r1 =>
      simp at e
      obtain ⟨rfl, rfl⟩ := e
      simp at hn
  | cons d l1 ih =>
    intro l2 r1 r2 hn e
    cases r1 with
    | nil =>
      simp at e
      obtain ⟨rfl, rfl⟩ := e
      simp at hn
    | cons f r1 =>
      simp only [List.cons_append, List.cons.injEq] at e
      obtain ⟨rfl, e⟩ := e
      obtain ⟨rfl, rfl⟩ := ih (by simp at hn ⊢; exact hn.2) e
      exact ⟨rfl, rfl⟩

/-- An element is in one bucket only. -/
theorem bucket_unique {A : Type} {ls : List (List A)} (hn : ls.flatten.Nodup) {i j : Nat} {l l' : List A}
    {c : A} (hi : ls[i]? = some l) (hj : ls[j]? = some l') (h1 : c ∈ l) (h2 : c ∈ l') : i = j := by
  have hp := (List.pairwise_flatten.1 hn).2
  rw [List.pairwise_iff_getElem] at hp
  obtain ⟨hi', rfl⟩ := List.getElem?_eq_some_iff.1 hi
  obtain ⟨hj', rfl⟩ := List.getElem?_eq_some_iff.1 hj
  rcases Nat.lt_trichotomy i j with h | h | h
  · exact absurd rfl (hp i j hi' hj' h c h1 c h2)
  · exact h
  · exact absurd rfl (hp j i hj' hi' h c h2 c h1)

theorem prevOf_congr (next : Cell → Option Cell) {it it' : Iter} (h1 : it'.currentCell = it.currentCell)
    (h2 : it'.previousCell = it.previousCell) : prevOf next it' = prevOf next it := by
  simp [prevOf, h1, h2]

/-- The loop of `hasNext`. -/
theorem advance_ok {m : Map K V} {arr : List (Option Cell)} {ls : List (List Cell)} {rest : List Cell} :
    ∀ (fuel : Nat) (it : Iter), Iterating m arr ls it rest → (arr.length : Int) - it.nextIndex ≤ fuel →
    Iterating m arr ls (advance arr fuel it) rest ∧
      ((advance arr fuel it).nextCell = none → rest = []) := by
  intro fuel
  induction fuel with
  | zero =>
    intro it h hf
    refine ⟨h, fun hn => ?_⟩
    simp only [advance] at hn
    rw [(h.none hn).2, List.drop_eq_nil_of_le (by rw [h.lists.length]; omega)]
    rfl
  | succ fuel ih =>
    intro it h hf
    unfold advance
    by_cases hn : it.nextCell = none
    · rw [if_pos hn]
      obtain ⟨p1, p2⟩ := h.none hn
      have hlow := h.low
      simp only
      by_cases hlt : it.nextIndex + 1 < (arr.length : Int)
      · rw [if_pos hlt]
        have hidx : (it.nextIndex + 1).toNat < ls.length := by rw [h.lists.length]; omega
        obtain ⟨l, hl⟩ : ∃ l, ls[(it.nextIndex + 1).toNat]? = some l :=
          ⟨_, List.getElem?_eq_getElem hidx⟩
        obtain ⟨o, ho, hch⟩ := h.lists.chains _ l hl
        have hsucc : (it.nextIndex + 1 + 1).toNat = (it.nextIndex + 1).toNat + 1 := by omega
        rw [ho]
        cases l with
        | nil =>
          simp only [Chain] at hch
          subst hch
          simp only
          refine ih _ ⟨h.array, h.lists, h.nodup, ?_, ?_, ?_, ?_⟩ ?_
          · simp only; omega
          · intro _
            refine ⟨p1, ?_⟩
            simp only [hsucc]
            rw [p2, drop_split hl]; simp
          · intro n e; simp [hn] at e
          · intro c hc
            obtain ⟨c1, c2, c3, c4⟩ := h.current c hc
            exact ⟨c1, Int.le_trans c2 (by simp only; omega), c3, c4⟩
          · simp only; omega
        | cons n post =>
          obtain ⟨rfl, hch⟩ := hch
          simp only
          refine ⟨⟨h.array, h.lists, h.nodup, ?_, ?_, ?_, ?_⟩, by simp⟩
          · simp only; omega
          · intro e; simp at e
          · intro n' e
            simp only [Option.some.injEq] at e
            subst e
            refine ⟨by simp only; omega, [], post, hl, p1, ?_⟩
            simp only [hsucc]
            rw [p2, drop_split hl]
          · intro c hc
            obtain ⟨c1, c2, c3, c4⟩ := h.current c hc
            exact ⟨c1, Int.le_trans c2 (by simp only; omega), c3, c4⟩
      · rw [if_neg hlt]
        have hrest : rest = [] := by
          rw [p2, List.drop_eq_nil_of_le (by rw [h.lists.length]; omega)]; rfl
        refine ⟨⟨h.array, h.lists, h.nodup, ?_, ?_, ?_, ?_⟩, fun _ => hrest⟩
        · simp only; omega
        · intro _
          refine ⟨p1, ?_⟩
          simp only
          rw [hrest, List.drop_eq_nil_of_le (by rw [h.lists.length]; omega)]; rfl
        · intro n e; simp [hn] at e
        · intro c hc
          obtain ⟨c1, c2, c3, c4⟩ := h.current c hc
          exact ⟨c1, Int.le_trans c2 (by simp only; omega), c3, c4⟩
    · rw [if_neg hn]
      exact ⟨h, fun e => absurd e hn⟩

theorem hasNext_ok {m : Map K V} {arr : List (Option Cell)} {ls : List (List Cell)} {rest : List Cell}
    {it : Iter} (h : Iterating m arr ls it rest) :
    ∃ it', hasNext m it = (!rest.isEmpty, it') ∧ Iterating m arr ls it' rest ∧
      (it'.nextCell = none ↔ rest = []) := by
  have hlow := h.low
  obtain ⟨h1, h2⟩ := advance_ok (arr.length + 1) it h (by omega)
  refine ⟨advance arr (arr.length + 1) it, ?_, h1, h2, ?_⟩
  · unfold hasNext
    rw [h.array]
    simp only
    congr 1
    cases hc : (advance arr (arr.length + 1) it).nextCell with
    | none => rw [h2 hc]; rfl
    | some n =>
      obtain ⟨_, pre, post, _, _, e⟩ := h1.next n hc
      rw [e]; rfl
  · intro e
    cases hc : (advance arr (arr.length + 1) it).nextCell with
    | none => rfl
    | some n =>
      obtain ⟨_, pre, post, _, _, e'⟩ := h1.next n hc
      rw [e] at e'; simp at e'

theorem next_ok {m : Map K V} {arr : List (Option Cell)} {ls : List (List Cell)} {c : Cell}
    {rest : List Cell} {it : Iter} (h : Iterating m arr ls it (c :: rest)) :
    ∃ it', next m it = .ok (c, it') ∧ it'.currentCell = some c ∧ Iterating m arr ls it' rest := by
  obtain ⟨it1, e1, h1, h2⟩ := hasNext_ok h
  unfold next
  rw [e1]
  simp only [List.isEmpty_cons, Bool.not_false]
  cases hn : it1.nextCell with
  | none => exact absurd (h2.1 hn) (by simp)
  | some n =>
    obtain ⟨p0, pre, post, p1, p2, p3⟩ := h1.next n hn
    simp only [List.cons_append, List.cons.injEq] at p3
    obtain ⟨rfl, p3⟩ := p3
    obtain ⟨o, _, hch⟩ := h1.lists.chains _ _ p1
    have hnx := chain_mid hch
    have hlow := h1.low
    have hnd : (pre ++ c :: post).Nodup :=
      (List.pairwise_flatten.1 h1.nodup).1 _ (List.mem_of_getElem? p1)
    refine ⟨_, rfl, rfl, h1.array, h1.lists, h1.nodup, h1.low, ?_, ?_, ?_⟩
    · intro e
      simp only at e
      refine ⟨by simp [prevOf, e], ?_⟩
      rw [hnx] at e
      have : post = [] := by cases post <;> simp_all
      subst this
      simpa using p3
    · intro n e
      simp only at e
      rw [hnx] at e
      cases post with
      | nil => simp at e
      | cons d post =>
        simp only [List.head?_cons, Option.some.injEq] at e hnx
        subst e
        refine ⟨p0, pre ++ [c], post, by simpa using p1, by simp [prevOf, hnx], ?_⟩
        simpa using p3
    · intro d e
      simp only [Option.some.injEq] at e
      subst e
      refine ⟨p0, by simp, ?_, pre, post, p1, p2⟩
      intro hm
      rw [p3, List.mem_append] at hm
      rcases hm with hm | hm
      · rw [List.nodup_append] at hnd
        exact (List.nodup_cons.1 hnd.2.1).1 hm
      · have hs := drop_split p1
        have hd : (ls.drop it1.nextIndex.toNat).flatten.Nodup := by
          have hfl : ls.flatten = (ls.take it1.nextIndex.toNat).flatten ++ (ls.drop it1.nextIndex.toNat).flatten := by
            rw [← List.flatten_append, List.take_append_drop]
          have hnn := h1.nodup
          rw [hfl, List.nodup_append] at hnn
          exact hnn.2.1
        rw [hs, List.nodup_append] at hd
        have : (it1.nextIndex + 1).toNat = it1.nextIndex.toNat + 1 := by omega
        rw [this] at hm
        exact hd.2.2 c (by simp) c hm rfl

theorem flatten_set {A : Type} [DecidableEq A] {ls : List (List A)} {j : Nat} {pre post : List A} {c : A}
    (hn : ls.flatten.Nodup) (hj : ls[j]? = some (pre ++ c :: post)) :
    (ls.set j (pre ++ post)).flatten.Nodup := by
  obtain ⟨hj', e⟩ := List.getElem?_eq_some_iff.1 hj
  have hsub : List.Sublist (pre ++ post) (pre ++ c :: post) :=
    List.Sublist.append (List.Sublist.refl pre) (List.sublist_cons_self c post)
  have h1 : ls = ls.take j ++ (pre ++ c :: post) :: ls.drop (j + 1) := by
    rw [← e, ← List.drop_eq_getElem_cons hj', List.take_append_drop]
  have h2 : ls.set j (pre ++ post) = ls.take j ++ (pre ++ post) :: ls.drop (j + 1) := by
    rw [List.set_eq_take_append_cons_drop, if_pos hj']
  rw [h2]
  rw [h1] at hn
  refine List.Sublist.nodup ?_ hn
  simp only [List.flatten_append, List.flatten_cons]
  exact List.Sublist.append (List.Sublist.refl _) (List.Sublist.append hsub (List.Sublist.refl _))

theorem itRemove_ok {h : Helper K} (hl : h.Lawful) {m : Map K V} {cs : List Cell} {s : Abs K V}
    (g : Stands h m cs s) {arr : List (Option Cell)} {ls : List (List Cell)} {c : Cell}
    {rest : List Cell} {it : Iter} (hit : Iterating m arr ls it rest) (hc : it.currentCell = some c)
    (hbk : ∀ (i : Nat) (l : List Cell), ls[i]? = some l → ∀ d, d ∈ l ↔ d ∈ cs ∧ index (m.hash d) arr.length = i) :
    ∃ m' it' arr' ls', itRemove m it = .ok (m', it') ∧ it'.currentCell = none ∧
      Iterating m' arr' ls' it' rest ∧
      (∀ (i : Nat) (l : List Cell), ls'[i]? = some l →
        ∀ d, d ∈ l ↔ d ∈ cs.erase c ∧ index (m'.hash d) arr'.length = i) ∧
      m'.key = m.key ∧ m'.value = m.value ∧
      Stands h m' (cs.erase c)
        ⟨fun x => if h.equal x (m.key c) = true then none else s.f x, s.n - 1⟩ := by
  obtain ⟨c1, c2, c3, pre, post, c4, c5⟩ := hit.current c hc
  have hlow := hit.low
  obtain ⟨o, ho, hch⟩ := hit.lists.chains _ _ c4
  have hnx := chain_mid hch
  have hnd : (pre ++ c :: post).Nodup :=
    (List.pairwise_flatten.1 hit.nodup).1 _ (List.mem_of_getElem? c4)
  have hmem := hbk _ _ c4
  have hcs : c ∈ cs := ((hmem c).1 (by simp)).1
  have hj : it.currentIndex.toNat < ls.length := (List.getElem?_eq_some_iff.1 c4).1
  have hja : it.currentIndex.toNat < arr.length := by rw [← hit.lists.length]; exact hj
  obtain ⟨arr', u1, u2⟩ := unlink_array g.good hit.array hja ho hch hnd hmem
  obtain ⟨f1, f2, f3, f4, f5⟩ := unlink_fields m it.currentIndex.toNat pre.getLast? c
  have hst := erase_stands hl g hcs (hl.refl (m.key c)) f1 f2 f3 f4 f5 (by rw [u1]; exact u2)
  -- the cells and iterator afterwards
  have hrem : ∃ p', itRemove m it =
      .ok (unlink m it.currentIndex.toNat pre.getLast? c, { it with currentCell := none, previousCell := p' }) ∧
      p' = if m.next c = none then none else pre.getLast? := by
    unfold itRemove
    rw [hc]
    simp only
    rw [c5]
    cases hp : pre.getLast? with
    | none =>
      refine ⟨none, ?_, by simp⟩
      rw [hit.array]
      simp only [unlink, hit.array, Option.map_some]
    | some p => exact ⟨_, rfl, rfl⟩
  obtain ⟨p', r1, r2⟩ := hrem
  -- cells other than the one before keep their successor
  have hlen' : arr'.length = arr.length := by
    have hu := u1
    unfold unlink at hu
    split at hu
    · simp only [hit.array, Option.map_some, Option.some.injEq] at hu
      rw [← hu]; simp
    · simp only [hit.array, Option.some.injEq] at hu
      rw [← hu]
  have hchains' : Lists (unlink m it.currentIndex.toNat pre.getLast? c).next arr'
      (ls.set it.currentIndex.toNat (pre ++ post)) := by
    refine ⟨by rw [List.length_set, hlen', hit.lists.length], ?_⟩
    intro i l hi
    by_cases e : i = it.currentIndex.toNat
    · subst e
      rw [List.getElem?_set_self hj, Option.some.injEq] at hi
      subst hi
      rcases List.eq_nil_or_concat pre with rfl | ⟨q, p, rfl⟩
      · simp only [unlink, List.getLast?_nil, hit.array, Option.map_some, Option.some.injEq] at u1 ⊢
        subst u1
        exact ⟨m.next c, List.getElem?_set_self hja, chain_tail hch⟩
      · simp only [unlink, List.concat_eq_append, List.getLast?_append, List.getLast?_singleton,
          Option.some_or, hit.array, Option.some.injEq] at u1 ⊢
        subst u1
        refine ⟨o, ho, ?_⟩
        have := chain_unlink (next := m.next) (p := p) (c := c) (l2 := post) (l1 := q) (o := o)
          (by simpa using hch) (by simpa using hnd)
        simpa using this
    · rw [List.getElem?_set_ne (Ne.symm e)] at hi
      obtain ⟨o', ho', hch'⟩ := hit.lists.chains _ _ hi
      rcases List.eq_nil_or_concat pre with rfl | ⟨q, p, rfl⟩
      · simp only [unlink, List.getLast?_nil, hit.array, Option.map_some, Option.some.injEq] at u1 ⊢
        subst u1
        exact ⟨o', by rw [List.getElem?_set_ne (Ne.symm e)]; exact ho', hch'⟩
      · simp only [unlink, List.concat_eq_append, List.getLast?_append, List.getLast?_singleton,
          Option.some_or, hit.array, Option.some.injEq] at u1 ⊢
        subst u1
        refine ⟨o', ho', chain_set ?_ hch'⟩
        intro hm
        exact e (bucket_unique hit.nodup hi c4 hm (by simp))
  have hdrop : (ls.set it.currentIndex.toNat (pre ++ post)).drop (it.nextIndex + 1).toNat =
      ls.drop (it.nextIndex + 1).toNat := by
    rw [List.drop_set, if_pos (by omega)]
  have hpv : prevOf (unlink m it.currentIndex.toNat pre.getLast? c).next
      { it with currentCell := none, previousCell := p' } = p' := rfl
  have hpv0 : prevOf m.next it = if m.next c ≠ none then some c else none := by simp [prevOf, hc]
  refine ⟨_, _, arr', ls.set it.currentIndex.toNat (pre ++ post), r1, rfl,
    ⟨u1, hchains', flatten_set hit.nodup c4, hlow, ?_, ?_, by simp⟩, ?_, f2, f3, hst⟩
  · intro hn
    obtain ⟨q1, q2⟩ := hit.none hn
    refine ⟨?_, ?_⟩
    · rw [hpv, r2]
      rw [hpv0] at q1
      by_cases e : m.next c = none
      · simp [e]
      · simp [e] at q1
    · simp only
      rw [hdrop]; exact q2
  · intro n hn
    obtain ⟨q0, pre', post', q1, q2, q3⟩ := hit.next n hn
    refine ⟨q0, ?_⟩
    rw [hpv, r2]
    simp only
    rw [hdrop]
    rw [hpv0] at q2
    by_cases e : m.next c = none
    · simp only [e, ne_eq, not_true, if_false] at q2
      have hpre' : pre' = [] := by
        rcases List.eq_nil_or_concat pre' with h | ⟨q, p, rfl⟩
        · exact h
        · simp at q2
      subst hpre'
      have hne : it.currentIndex.toNat ≠ it.nextIndex.toNat := by
        intro he
        rw [he, q1, Option.some.injEq] at c4
        apply c3
        rw [q3]
        have : c ∈ [] ++ n :: post' := by rw [c4]; simp
        simp only [List.nil_append] at this
        exact List.mem_append_left _ this
      refine ⟨[], post', ?_, by simp [e], q3⟩
      rw [List.getElem?_set_ne hne]; exact q1
    · simp only [e, ne_eq, not_false_eq_true, if_true] at q2
      rcases List.eq_nil_or_concat pre' with rfl | ⟨q, p, rfl⟩
      · simp at q2
      · simp only [List.concat_eq_append, List.getLast?_append, List.getLast?_singleton,
          Option.some_or, Option.some.injEq] at q2
        subst q2
        have he : it.currentIndex.toNat = it.nextIndex.toNat :=
          bucket_unique (c := c) hit.nodup c4 q1 (by simp) (by simp)
        rw [he, q1, Option.some.injEq] at c4
        have hsp := split_unique (c := c) (l1 := pre) (l2 := post) (r1 := q) (r2 := n :: post') hnd
          (by rw [← c4]; simp)
        obtain ⟨rfl, rfl⟩ := hsp
        refine ⟨pre, post', ?_, by simp [e], q3⟩
        rw [← he, List.getElem?_set_self hj]
  · intro i l hi d
    rw [f4, hlen', g.good.nodup.mem_erase_iff]
    by_cases e : i = it.currentIndex.toNat
    · subst e
      rw [List.getElem?_set_self hj, Option.some.injEq] at hi
      subst hi
      have h1 := hmem d
      simp only [List.mem_append, List.mem_cons] at h1
      have hn2 : c ∉ pre ∧ c ∉ post := by
        rw [List.nodup_append] at hnd
        exact ⟨fun hm => hnd.2.2 c hm c (by simp) rfl, (List.nodup_cons.1 hnd.2.1).1⟩
      simp only [List.mem_append]
      constructor
      · intro hd
        have hne : d ≠ c := by
          rintro rfl
          rcases hd with h | h
          · exact hn2.1 h
          · exact hn2.2 h
        have := h1.1 (by rcases hd with h | h <;> simp [h])
        exact ⟨⟨hne, this.1⟩, this.2⟩
      · rintro ⟨⟨hne, hp⟩, hidx⟩
        rcases h1.2 ⟨hp, hidx⟩ with h | h | h
        · exact Or.inl h
        · exact absurd h hne
        · exact Or.inr h
    · rw [List.getElem?_set_ne (Ne.symm e)] at hi
      rw [hbk i l hi d]
      constructor
      · rintro ⟨h5, h6⟩
        refine ⟨⟨?_, h5⟩, h6⟩
        rintro rfl
        exact e (by rw [← h6, ((hmem d).1 (by simp)).2])
      · rintro ⟨⟨_, h5⟩, h6⟩; exact ⟨h5, h6⟩

/-- The loop over the remaining cells. -/
theorem sweep_ok {h : Helper K} (hl : h.Lawful) (del : K → Option V → Bool) :
    ∀ (rest : List Cell) (fuel : Nat) (m : Map K V) (cs : List Cell) (s : Abs K V)
      (arr : List (Option Cell)) (ls : List (List Cell)) (it : Iter), Stands h m cs s →
    Iterating m arr ls it rest → rest.length < fuel → (∀ c ∈ rest, c ∈ cs) → rest.Nodup →
    (∀ (i : Nat) (l : List Cell), ls[i]? = some l → ∀ d, d ∈ l ↔ d ∈ cs ∧ index (m.hash d) arr.length = i) →
    ∃ m' cs', sweep del fuel m it = .ok (rest.map fun c => (m.key c, m.value c), m') ∧
      m'.key = m.key ∧ m'.value = m.value ∧
      (∀ c, c ∈ cs' ↔ c ∈ cs ∧ ¬ (c ∈ rest ∧ del (m.key c) (m.value c) = true)) ∧
      cs'.length + (rest.filter fun c => del (m.key c) (m.value c)).length = cs.length ∧
      ∃ s', Stands h m' cs' s' := by
  intro rest
  induction rest with
  | nil =>
    intro fuel m cs s arr ls it g hit hf _ _ _
    cases fuel with
    | zero => simp at hf
    | succ fuel =>
      obtain ⟨it1, e1, _, _⟩ := hasNext_ok hit
      unfold sweep
      rw [e1]
      exact ⟨m, cs, rfl, rfl, rfl, by simp, by simp, s, g⟩
  | cons c rest ih =>
    intro fuel m cs s arr ls it g hit hf hsub hnd hbk
    cases fuel with
    | zero => simp at hf
    | succ fuel =>
      obtain ⟨it1, e1, h1, _⟩ := hasNext_ok hit
      obtain ⟨it2, e2, h2, h3⟩ := next_ok h1
      rw [List.nodup_cons] at hnd
      unfold sweep
      rw [e1]
      simp only [List.isEmpty_cons, Bool.not_false]
      rw [e2]
      simp only [Except.bind]
      cases hd : del (m.key c) (m.value c) with
      | true =>
        obtain ⟨m', it3, arr', ls', e3, _, h4, h5, k1, k2, h6⟩ := itRemove_ok hl g h3 h2 hbk
        simp only [if_true, e3]
        obtain ⟨m'', cs'', e4, k3, k4, h7, h8, s', h9⟩ := ih fuel m' _ _ _ _ it3 h6 h4 (by simpa using hf)
          (fun d hd' => (g.good.nodup.mem_erase_iff).2
            ⟨fun e => hnd.1 (e ▸ hd'), hsub d (by simp [hd'])⟩) hnd.2 h5
        rw [e4]
        have hlen := List.length_erase_of_mem (hsub c (by simp))
        have hpos := List.length_pos_of_mem (hsub c (by simp))
        refine ⟨m'', cs'', ?_, by rw [k3, k1], by rw [k4, k2], ?_, ?_, s', h9⟩
        · simp [k1, k2]
        · intro d
          rw [h7 d, g.good.nodup.mem_erase_iff, k1, k2]
          simp only [List.mem_cons]
          constructor
          · rintro ⟨⟨a1, a2⟩, a3⟩
            refine ⟨a2, ?_⟩
            rintro ⟨a4 | a4, a5⟩
            · exact a1 a4
            · exact a3 ⟨a4, a5⟩
          · rintro ⟨a2, a3⟩
            refine ⟨⟨?_, a2⟩, fun a4 => a3 ⟨Or.inr a4.1, a4.2⟩⟩
            rintro rfl
            exact a3 ⟨Or.inl rfl, hd⟩
        · rw [List.filter_cons_of_pos (by simpa using hd), List.length_cons]
          rw [k1, k2] at h8
          omega
      | false =>
        simp only [Bool.false_eq_true, if_false]
        obtain ⟨m'', cs'', e4, k3, k4, h7, h8, s', h9⟩ := ih fuel m _ _ _ _ it2 g h3 (by simpa using hf)
          (fun d hd' => hsub d (by simp [hd'])) hnd.2 hbk
        rw [e4]
        refine ⟨m'', cs'', rfl, k3, k4, ?_, ?_, s', h9⟩
        · intro d
          rw [h7 d]
          simp only [List.mem_cons]
          constructor
          · rintro ⟨a2, a3⟩
            refine ⟨a2, ?_⟩
            rintro ⟨rfl | a4, a5⟩
            · rw [hd] at a5; cases a5
            · exact a3 ⟨a4, a5⟩
          · rintro ⟨a2, a3⟩
            exact ⟨a2, fun a4 => a3 ⟨Or.inr a4.1, a4.2⟩⟩
        · rw [List.filter_cons_of_neg (by simpa using hd)]
          exact h8

/-- A new iterator. -/
theorem iterator_ok {h : Helper K} {m : Map K V} {cs : List Cell} {s : Abs K V} (g : Stands h m cs s)
    {arr : List (Option Cell)} (ha : m.array = some arr) :
    ∃ ls rest, Iterating m arr ls (iterator m) rest ∧ rest.Nodup ∧ (∀ c, c ∈ rest ↔ c ∈ cs) ∧
      ∀ (i : Nat) (l : List Cell), ls[i]? = some l → ∀ d, d ∈ l ↔ d ∈ cs ∧ index (m.hash d) arr.length = i := by
  obtain ⟨ls, h1, h2, h3, h4⟩ := (g.good.buckets ha).lists
  have hget : ∀ (i : Nat) (l : List Cell), ls[i]? = some l → ∃ o, arr[i]? = some o := by
    intro i l hi
    have := (List.getElem?_eq_some_iff.1 hi).1
    exact ⟨_, List.getElem?_eq_getElem (by omega)⟩
  have hit : Iterating m arr ls {} ls.flatten :=
    ⟨ha, ⟨h1, fun i l hi => by
      obtain ⟨o, ho⟩ := hget i l hi
      exact ⟨o, ho, (h4 i o l ho hi).1⟩⟩, h2, by simp, fun _ => ⟨rfl, by simp⟩, by simp, by simp⟩
  obtain ⟨it', e1, h5, _⟩ := hasNext_ok hit
  refine ⟨ls, ls.flatten, by unfold iterator; rw [e1]; exact h5, h2, h3, ?_⟩
  intro i l hi
  obtain ⟨o, ho⟩ := hget i l hi
  exact (h4 i o l ho hi).2.2

end Avian.JHashMap
