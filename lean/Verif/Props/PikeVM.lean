import Verif.Lib.PikeVM

/-
C97, first part: the machine finds a match exactly when one of the ways through its program ends.
-/
namespace Avian.PikeVM

/-! ### Queues are lists -/

/-- The array `next` of a list of threads. -/
def links : List Nat → Nat → Nat
  | [], _ => 0
  | [_], _ => 0
  | a :: b :: r, x => if x = a then b + 1 else links (b :: r) x

/-- The queue has the threads of the list, in this order, and nothing else. -/
structure Lst (q : Queue) (l : List Nat) : Prop where
  nodup : l.Nodup
  head : q.head = l.head?
  tail : q.tail = l.getLast?
  next : ∀ x, q.next x = links l x
  offsets : ∀ x, x ∈ l → (q.offsets x).isSome = true

theorem links_not_mem : ∀ {l : List Nat} {x : Nat}, x ∉ l → links l x = 0
  | [], _, _ => rfl
  | [_], _, _ => rfl
  | a :: b :: r, x, h => by
    rw [List.mem_cons, not_or] at h
    simp only [links, if_neg h.1]
    exact links_not_mem h.2

theorem links_append : ∀ {d r : List Nat} {p : Nat}, (d ++ p :: r).Nodup → links (d ++ p :: r) p = (r.head?.map (· + 1)).getD 0
  | [], [], _, _ => rfl
  | [], _ :: _, _, _ => by simp [links]
  | [a], r, p, h => by
    have hne : p ≠ a := by
      rintro rfl
      simp at h
    show (if p = a then p + 1 else links (p :: r) p) = _
    rw [if_neg hne]
    exact links_append (d := []) (List.nodup_cons.1 h).2
  | a :: b :: d, r, p, h => by
    have hne : p ≠ a := by
      rintro rfl
      simp at h
    show (if p = a then b + 1 else links (b :: d ++ p :: r) p) = _
    rw [if_neg hne]
    exact links_append (d := b :: d) (List.nodup_cons.1 h).2

theorem links_pos_iff : ∀ {l : List Nat} {x : Nat}, l.Nodup → (x ∈ l ↔ l.getLast? = some x ∨ 0 < links l x)
  | [], _, _ => by simp [links]
  | [a], x, _ => by simp [links, eq_comm]
  | a :: b :: r, x, h => by
    have hn := List.nodup_cons.1 h
    have ih := links_pos_iff (x := x) hn.2
    rw [List.mem_cons, ih]
    simp only [links]
    by_cases hx : x = a
    · simp [hx]
    · rw [if_neg hx, List.getLast?_cons_cons]
      simp [hx]

theorem Lst.scheduled {q : Queue} {l : List Nat} (h : Lst q l) (x : Nat) : q.isScheduled x = true ↔ x ∈ l := by
  rw [links_pos_iff h.nodup]
  unfold Queue.isScheduled
  rw [h.tail, h.next x]
  simp

theorem Lst.not_scheduled {q : Queue} {l : List Nat} (h : Lst q l) {x : Nat} (hx : x ∉ l) : q.isScheduled x = false := by
  have := h.scheduled x
  cases hb : q.isScheduled x with
  | false => rfl
  | true => exact absurd (this.1 hb) hx

theorem empty_lst : Lst .empty [] := ⟨List.nodup_nil, rfl, rfl, fun _ => rfl, fun _ h => by cases h⟩

theorem start_lst (pc n : Nat) : Lst (.start pc n) [pc] :=
  ⟨by simp, rfl, rfl, fun _ => rfl, fun x h => by
    rw [List.mem_singleton.1 h]
    simp [Queue.start, upd]⟩

theorem Lst.after {q : Queue} {d r : List Nat} (h : Lst q (d ++ r)) : q.after d.getLast? = r.head? := by
  rcases List.eq_nil_or_concat d with rfl | ⟨d, p, rfl⟩
  · exact h.head
  · rw [List.concat_eq_append] at h ⊢
    rw [List.getLast?_append]
    show (if q.next p = 0 then none else some (q.next p - 1)) = _
    rw [List.append_assoc] at h
    rw [h.next p]
    have hl := links_append (show (d ++ p :: r).Nodup from h.nodup)
    rw [show d ++ ([p] ++ r) = d ++ p :: r from rfl, hl]
    cases r with
    | nil => rfl
    | cons b r => simp

/-- A list with an element put in behind another. -/
theorem links_insert : ∀ {d r : List Nat} {p p' x : Nat}, (d ++ p :: r).Nodup → p' ∉ d ++ p :: r →
    links (d ++ p :: p' :: r) x = if x = p then p' + 1 else if x = p' then links (d ++ p :: r) p else links (d ++ p :: r) x
  | [], [], p, p', x, _, _ => by
    simp only [List.nil_append, links]
    by_cases h : x = p
    · rw [if_pos h, if_pos h]
    · rw [if_neg h, if_neg h]; split <;> rfl
  | [], b :: r, p, p', x, hn, hm => by
    simp only [List.nil_append, links]
    by_cases h : x = p
    · rw [if_pos h, if_pos h]
    · rw [if_neg h, if_neg h, if_neg h]
      simp
  | [a], r, p, p', x, hn, hm => by
    have hne : p ≠ a := by
      rintro rfl
      simp at hn
    have hm' : p' ∉ p :: r := fun h => hm (List.mem_cons_of_mem _ h)
    have hpa : p' ≠ a := by
      rintro rfl
      exact hm List.mem_cons_self
    have ih := links_insert (d := []) (x := x) (List.nodup_cons.1 hn).2 hm'
    show (if x = a then p + 1 else links ([] ++ p :: p' :: r) x) = _
    rw [ih]
    show _ = if x = p then p' + 1 else if x = p' then (if p = a then p + 1 else links ([] ++ p :: r) p) else (if x = a then p + 1 else links ([] ++ p :: r) x)
    by_cases hx : x = a
    · subst hx
      rw [if_pos rfl, if_neg (Ne.symm hne), if_neg (Ne.symm hpa), if_pos rfl]
    · rw [if_neg hx, if_neg hx, if_neg hne]
  | a :: b :: d, r, p, p', x, hn, hm => by
    have hne : p ≠ a := by
      rintro rfl
      simp at hn
    have hm' : p' ∉ b :: d ++ p :: r := fun h => hm (List.mem_cons_of_mem _ h)
    have hpa : p' ≠ a := by
      rintro rfl
      exact hm List.mem_cons_self
    have ih := links_insert (d := b :: d) (x := x) (List.nodup_cons.1 hn).2 hm'
    show (if x = a then b + 1 else links (b :: d ++ p :: p' :: r) x) = _
    rw [ih]
    show _ = if x = p then p' + 1 else if x = p' then (if p = a then b + 1 else links (b :: d ++ p :: r) p) else (if x = a then b + 1 else links (b :: d ++ p :: r) x)
    by_cases hx : x = a
    · subst hx
      rw [if_pos rfl, if_neg (Ne.symm hne), if_neg (Ne.symm hpa), if_pos rfl]
    · rw [if_neg hx, if_neg hx, if_neg hne]

theorem nodup_insert {d r : List Nat} {p p' : Nat} (hn : (d ++ p :: r).Nodup) (hm : p' ∉ d ++ p :: r) : (d ++ p :: p' :: r).Nodup := by
  have hp : (d ++ p :: p' :: r).Perm (p' :: (d ++ p :: r)) := by
    rw [show d ++ p :: p' :: r = (d ++ [p]) ++ p' :: r by simp, show d ++ p :: r = (d ++ [p]) ++ r by simp]
    exact List.perm_middle
  rw [hp.nodup_iff]
  exact List.nodup_cons.2 ⟨hm, hn⟩

theorem Lst.queueImmediately {q : Queue} {d r : List Nat} {p p' : Nat} (h : Lst q (d ++ p :: r)) (hm : p' ∉ d ++ p :: r) :
    Lst (q.queueImmediately p p') (d ++ p :: p' :: r) := by
  have hpn : p' ≠ p := by rintro rfl; exact hm (by simp)
  have hoff : ∀ x ∈ d ++ p :: p' :: r, (upd q.offsets p' (q.offsets p) x).isSome = true := by
    intro x hx
    unfold upd
    by_cases hxp : x = p'
    · rw [if_pos hxp]; exact h.offsets p (by simp)
    · rw [if_neg hxp]
      refine h.offsets x ?_
      simp only [List.mem_append, List.mem_cons] at hx ⊢
      rcases hx with hx | hx | hx | hx
      · exact Or.inl hx
      · exact Or.inr (Or.inl hx)
      · exact absurd hx hxp
      · exact Or.inr (Or.inr hx)
  unfold Queue.queueImmediately
  rw [h.not_scheduled hm]
  simp only [Bool.false_eq_true, if_false]
  have hlp := h.next p
  rw [links_append h.nodup] at hlp
  by_cases ht : q.tail = some p
  · rw [if_pos ht]
    -- nothing is behind `p`
    have hr : r = [] := by
      cases r with
      | nil => rfl
      | cons b r =>
        exfalso
        rw [h.tail, List.getLast?_append, List.getLast?_cons_cons] at ht
        have hlast : p ∈ b :: r := by
          rw [List.getLast?_eq_some_getLast (by simp), Option.some_or] at ht
          have := List.getLast_mem (l := b :: r) (by simp)
          rw [Option.some.inj ht] at this
          exact this
        have := (List.nodup_append.1 h.nodup).2.1
        exact (List.nodup_cons.1 this).1 hlast
    subst hr
    refine ⟨nodup_insert h.nodup hm, ?_, ?_, ?_, hoff⟩
    · show q.head = _
      rw [h.head]
      cases d <;> rfl
    · show some p' = _
      simp [List.getLast?_append]
    · intro x
      show upd q.next p (p' + 1) x = _
      rw [links_insert h.nodup hm, links_append h.nodup]
      unfold upd
      by_cases hx : x = p
      · rw [if_pos hx, if_pos hx]
      · rw [if_neg hx, if_neg hx, h.next x]
        by_cases hx' : x = p'
        · rw [if_pos hx', hx', links_not_mem hm]; rfl
        · rw [if_neg hx']
  · rw [if_neg ht]
    refine ⟨nodup_insert h.nodup hm, ?_, ?_, ?_, hoff⟩
    · show q.head = _
      rw [h.head]
      cases d <;> rfl
    · show q.tail = _
      cases r with
      | nil =>
        exfalso
        apply ht
        rw [h.tail]
        simp
      | cons b r =>
        rw [h.tail]
        simp [List.getLast?_append, List.getLast?_cons_cons]
    · intro x
      show upd (upd q.next p' (q.next p)) p (p' + 1) x = _
      rw [links_insert h.nodup hm]
      unfold upd
      by_cases hx : x = p
      · rw [if_pos hx, if_pos hx]
      · rw [if_neg hx, if_neg hx]
        by_cases hx' : x = p'
        · rw [if_pos hx', if_pos hx', h.next p]
        · rw [if_neg hx', if_neg hx', h.next x]

theorem Lst.saveOffset {q : Queue} {l : List Nat} (h : Lst q l) (pc k i : Nat) : Lst (q.saveOffset pc k i) l := by
  refine ⟨h.nodup, h.head, h.tail, h.next, fun x hx => ?_⟩
  show (upd q.offsets pc _ x).isSome = true
  unfold upd
  by_cases hxp : x = pc
  · rw [if_pos hxp, Option.isSome_map, ← hxp]; exact h.offsets x hx
  · rw [if_neg hxp]; exact h.offsets x hx

/-- All the threads that an instruction starts at once. -/
theorem Lst.fold {d : List Nat} {p : Nat} : ∀ (pcs : List Nat) {q : Queue} {r : List Nat}, Lst q (d ++ p :: r) →
    ∃ r', Lst (pcs.foldl (fun q pc' => q.queueImmediately p pc') q) (d ++ p :: r') ∧ (∀ x ∈ r, x ∈ r') ∧
      (∀ x ∈ pcs, x ∈ d ++ p :: r') ∧ ∀ x ∈ r', x ∈ r ∨ x ∈ pcs
  | [], q, r, h => ⟨r, h, fun _ h => h, fun x h => absurd h (by simp), fun _ h => Or.inl h⟩
  | a :: pcs, q, r, h => by
    rw [List.foldl_cons]
    by_cases ha : a ∈ d ++ p :: r
    · have e : q.queueImmediately p a = q := by
        unfold Queue.queueImmediately
        rw [if_pos ((h.scheduled a).2 ha)]
      rw [e]
      obtain ⟨r', h1, h2, h3, h4⟩ := Lst.fold pcs h
      refine ⟨r', h1, h2, fun x hx => ?_, fun x hx => ?_⟩
      · rcases List.mem_cons.1 hx with rfl | hx
        · simp only [List.mem_append, List.mem_cons] at ha ⊢
          rcases ha with ha | ha | ha
          · exact Or.inl ha
          · exact Or.inr (Or.inl ha)
          · exact Or.inr (Or.inr (h2 _ ha))
        · exact h3 x hx
      · rcases h4 x hx with h | h
        · exact Or.inl h
        · exact Or.inr (List.mem_cons_of_mem _ h)
    · obtain ⟨r', h1, h2, h3, h4⟩ := Lst.fold pcs (h.queueImmediately ha)
      refine ⟨r', h1, fun x hx => h2 x (List.mem_cons_of_mem _ hx), fun x hx => ?_, fun x hx => ?_⟩
      · rcases List.mem_cons.1 hx with rfl | hx
        · have := h2 x List.mem_cons_self
          simp [this]
        · exact h3 x hx
      · rcases h4 x hx with h | h
        · rcases List.mem_cons.1 h with h | h
          · exact Or.inr (h ▸ List.mem_cons_self)
          · exact Or.inl h
        · exact Or.inr (List.mem_cons_of_mem _ h)

theorem links_concat : ∀ {l : List Nat} {a x : Nat}, a ∉ l → l.Nodup → links (l ++ [a]) x = if l.getLast? = some x then a + 1 else links l x
  | [], a, x, _, _ => by simp [links]
  | [b], a, x, _, _ => by
    show (if x = b then a + 1 else 0) = _
    simp [links, eq_comm]
  | b :: c :: l, a, x, h, hn => by
    have hn' := List.nodup_cons.1 hn
    have ih := links_concat (x := x) (a := a) (l := c :: l) (fun hh => h (List.mem_cons_of_mem _ hh)) hn'.2
    show (if x = b then c + 1 else links (c :: l ++ [a]) x) = _
    rw [ih, List.getLast?_cons_cons]
    simp only [links]
    by_cases hx : x = b
    · subst hx
      rw [if_pos rfl, if_pos rfl, if_neg]
      intro hl
      exact hn'.1 (List.mem_of_getLast? hl)
    · rw [if_neg hx, if_neg hx]

theorem Lst.queueNext {q next : Queue} {l : List Nat} {pc pc' : Nat} (h : Lst next l) (hq : (q.offsets pc).isSome = true) :
    (pc' ∈ l → q.queueNext pc pc' next = (next, false)) ∧
    (pc' ∉ l → Lst (q.queueNext pc pc' next).1 (l ++ [pc']) ∧ (q.queueNext pc pc' next).2 = true ∧ (q.queueNext pc pc' next).1.tail = some pc') := by
  unfold Queue.queueNext
  rcases List.eq_nil_or_concat l with rfl | ⟨l, a, rfl⟩
  · refine ⟨fun h => absurd h (by simp), fun _ => ?_⟩
    rw [show next.tail = none from h.tail]
    refine ⟨⟨by simp, rfl, rfl, h.next, fun x hx => ?_⟩, rfl, rfl⟩
    rw [List.nil_append, List.mem_singleton] at hx
    rw [hx]
    show (upd next.offsets pc' (q.offsets pc) _).isSome = true
    simp [upd, hq]
  · rw [List.concat_eq_append] at h ⊢
    have ht : next.tail = some a := by rw [h.tail]; simp
    rw [ht]
    constructor
    · intro hm
      simp only
      rw [if_pos ((h.scheduled pc').2 hm)]
    · intro hm
      simp only
      rw [if_neg (by rw [h.not_scheduled hm]; simp)]
      refine ⟨⟨?_, ?_, ?_, ?_, ?_⟩, rfl, rfl⟩
      · rw [List.nodup_append]
        refine ⟨h.nodup, by simp, fun x hx y hy => ?_⟩
        rw [List.mem_singleton.1 hy]
        rintro rfl
        exact hm hx
      · show next.head = _
        rw [h.head]
        cases l <;> rfl
      · simp
      · intro x
        show upd next.next a (pc' + 1) x = _
        rw [links_concat hm h.nodup, ← h.tail, ht, ← h.next x]
        unfold upd
        by_cases hx : x = a
        · rw [if_pos hx, if_pos (by rw [hx])]
        · rw [if_neg hx, if_neg (fun hh => hx (Option.some.inj hh).symm)]
      · intro x hx
        show (upd next.offsets pc' (q.offsets pc) _).isSome = true
        unfold upd
        by_cases hxp : x = pc'
        · rw [if_pos hxp]; exact hq
        · rw [if_neg hxp]
          rcases List.mem_append.1 hx with hx | hx
          · exact h.offsets x hx
          · exact absurd (List.mem_singleton.1 hx) hxp

theorem Lst.behead {q : Queue} {pc : Nat} {r : List Nat} (h : Lst q (pc :: r)) : Lst (q.behead pc) r := by
  have hn := List.nodup_cons.1 h.nodup
  have hoff : ∀ x ∈ r, (upd q.offsets pc none x).isSome = true := by
    intro x hx
    unfold upd
    rw [if_neg (by rintro rfl; exact hn.1 hx)]
    exact h.offsets x (List.mem_cons_of_mem _ hx)
  unfold Queue.behead
  simp only
  cases r with
  | nil =>
    rw [if_pos (by rw [h.head, h.tail]; rfl)]
    refine ⟨List.nodup_nil, rfl, rfl, fun x => ?_, hoff⟩
    show q.next x = _
    rw [h.next x]; rfl
  | cons b r =>
    rw [if_neg]
    · refine ⟨hn.2, ?_, ?_, fun x => ?_, hoff⟩
      · show q.after (some pc) = _
        have := Lst.after (d := [pc]) (r := b :: r) h
        exact this
      · show q.tail = _
        rw [h.tail, List.getLast?_cons_cons]
      · show upd q.next pc 0 x = _
        unfold upd
        by_cases hx : x = pc
        · rw [if_pos hx, hx, links_not_mem hn.1]
        · rw [if_neg hx, h.next x]
          show (if x = pc then _ else _) = _
          rw [if_neg hx]
    · rw [h.head, h.tail, List.getLast?_cons_cons]
      intro he
      exact hn.1 (List.mem_of_getLast? he.symm)

/-- One thread is taken from the queue, the first that is not there yet. -/
theorem queueOne_ok : ∀ (f : Nat) {q into : Queue} {Q L : List Nat}, Lst q Q → Lst into L → Q.length < f →
    (∃ q', q.queueOneImmediately f into = some (q', into, none) ∧ Lst q' [] ∧ ∀ x ∈ Q, x ∈ L) ∨
    ∃ q' into' p Q', q.queueOneImmediately f into = some (q', into', some p) ∧ p ∉ L ∧ p ∈ Q ∧ Lst q' Q' ∧ Lst into' (L ++ [p]) ∧
      (∀ x ∈ Q', x ∈ Q) ∧ ∀ x ∈ Q, x ∈ L ∨ x = p ∨ x ∈ Q'
  | 0, _, _, _, _, _, _, hf => by omega
  | f + 1, q, into, Q, L, hq, hi, hf => by
    unfold Queue.queueOneImmediately
    cases Q with
    | nil =>
      left
      rw [show q.head = none from hq.head]
      exact ⟨q, rfl, hq, fun _ h => by cases h⟩
    | cons p Q =>
      rw [show q.head = some p from hq.head]
      simp only
      have hn := Lst.queueNext (q := q) (pc := p) (pc' := p) hi (hq.offsets p List.mem_cons_self)
      by_cases hp : p ∈ L
      · have e := hn.1 hp
        rw [e]
        simp only [Bool.false_eq_true, if_false]
        rcases queueOne_ok f hq.behead hi (by simpa using hf) with ⟨q', h1, h2, h3⟩ | ⟨q', into', p', Q', h1, h2, h3, h4, h5, h6, h7⟩
        · left
          exact ⟨q', h1, h2, fun x hx => (List.mem_cons.1 hx).elim (fun e => e ▸ hp) (h3 x)⟩
        · right
          exact ⟨q', into', p', Q', h1, h2, List.mem_cons_of_mem _ h3, h4, h5, fun x hx => List.mem_cons_of_mem _ (h6 x hx),
            fun x hx => (List.mem_cons.1 hx).elim (fun e => Or.inl (e ▸ hp)) (h7 x)⟩
      · obtain ⟨e1, e2, e3⟩ := hn.2 hp
        right
        rw [if_pos e2]
        refine ⟨_, _, p, Q, rfl, hp, List.mem_cons_self, hq.behead, ?_, fun x hx => List.mem_cons_of_mem _ hx, fun x hx => ?_⟩
        · have : { (q.queueNext p p into).1 with tail := some p } = (q.queueNext p p into).1 := by
            rw [← e3]
          rw [this]
          exact e1
        · rcases List.mem_cons.1 hx with h | h
          · exact Or.inr (Or.inl h)
          · exact Or.inr (Or.inr h)

theorem cleanLoop_ok : ∀ (f : Nat) {q : Queue} {l : List Nat}, l.Nodup → (∀ x, q.next x = links l x) → l.length ≤ f →
    ∀ x, (q.cleanLoop f l.head?).next x = 0
  | 0, q, l, hn, h, hf, x => by
    have : l = [] := List.length_eq_zero_iff.1 (Nat.le_zero.1 hf)
    subst this
    exact h x
  | f + 1, q, l, hn, h, hf, x => by
    unfold Queue.cleanLoop
    cases l with
    | nil => exact h x
    | cons a l =>
      simp only [List.head?_cons]
      have hn' := List.nodup_cons.1 hn
      have ha : q.after (some a) = l.head? := by
        show (if q.next a = 0 then none else some (q.next a - 1)) = _
        rw [h a]
        have := links_append (d := []) (r := l) (p := a) hn
        rw [List.nil_append] at this
        rw [this]
        cases l <;> simp
      rw [ha]
      refine cleanLoop_ok f hn'.2 (fun y => ?_) (by simpa using hf) x
      show upd q.next a 0 y = _
      unfold upd
      by_cases hy : y = a
      · rw [if_pos hy, hy, links_not_mem hn'.1]
      · rw [if_neg hy, h y]
        cases l with
        | nil => rfl
        | cons b l =>
          show (if y = a then _ else _) = _
          rw [if_neg hy]

theorem Lst.clean {q : Queue} {l : List Nat} (h : Lst q l) {n : Nat} (hl : l.length ≤ n + 1) : Lst (q.clean n) [] := by
  refine ⟨List.nodup_nil, rfl, rfl, fun x => ?_, fun _ h => by cases h⟩
  show (q.cleanLoop (n + 1) q.head).next x = 0
  rw [h.head]
  exact cleanLoop_ok (n + 1) h.nodup h.next hl x

/-! ### Ways through the program -/

section
variable (vm : VM) (s : List Nat) (start : Nat) (look : Nat → Nat → Option Bool)

/-- A thread at `p` before the character at `i` goes on at `p'` before the one at `i'`. -/
inductive Move : Nat → Nat → Nat → Nat → Prop where
  | imm {i p p' : Nat} {ps : List Nat} {sv : Option Nat} (h : p ≠ vm.program.length) (h1 : act vm s start look i (s.getD i 0) p = .imm ps sv)
      (h2 : p' ∈ ps) : Move i p i p'
  | eat {i p p' : Nat} (h : p ≠ vm.program.length) (hi : i < s.length) (h1 : act vm s start look i (s.getD i 0) p = .eat p') : Move i p (i + 1) p'

/-- The threads that there are, from the one at `pc0`. -/
inductive Reach (pc0 : Nat) : Nat → Nat → Prop where
  | start : Reach pc0 start pc0
  | move {i p i' p' : Nat} (h : Reach pc0 i p) (h1 : Move vm s start look i p i' p') : Reach pc0 i' p'

/-- Threads that are there before any instruction is run at `i`. -/
def Entry (pc0 i p : Nat) : Prop :=
  (i = start ∧ p = pc0) ∨ ∃ j q, i = j + 1 ∧ Reach vm s start look pc0 j q ∧ q ≠ vm.program.length ∧ j < s.length ∧
    act vm s start look j (s.getD j 0) q = .eat p

/-- All instructions that are reached are instructions. -/
def Good (pc0 : Nat) : Prop := ∀ i p, i ≤ s.length → Reach vm s start look pc0 i p →
  p ≤ vm.program.length ∧ (p ≠ vm.program.length → act vm s start look i (s.getD i 0) p ≠ .bad)

end

section
variable {vm : VM} {s : List Nat} {start : Nat} {look : Nat → Nat → Option Bool} {pc0 : Nat}

theorem Entry.reach {i p : Nat} (h : Entry vm s start look pc0 i p) : Reach vm s start look pc0 i p := by
  rcases h with ⟨rfl, rfl⟩ | ⟨j, q, rfl, h1, h2, h3, h4⟩
  · exact .start
  · exact .move h1 (.eat h2 h3 h4)

theorem Reach.ge {i p : Nat} (h : Reach vm s start look pc0 i p) : start ≤ i := by
  induction h with
  | start => exact Nat.le_refl _
  | move _ h1 ih =>
    cases h1 with
    | imm => exact ih
    | eat => omega

/-- A set with all the entries that is closed has all the threads. -/
theorem Reach.closed {i : Nat} {L : List Nat} (h1 : ∀ p, Entry vm s start look pc0 i p → p ∈ L)
    (h2 : ∀ p ∈ L, p ≠ vm.program.length → ∀ ps sv, act vm s start look i (s.getD i 0) p = .imm ps sv → ∀ p' ∈ ps, p' ∈ L) {p : Nat}
    (h : Reach vm s start look pc0 i p) : p ∈ L := by
  have : ∀ {i' p'}, Reach vm s start look pc0 i' p' → i' = i → p' ∈ L := by
    intro i' p' h
    induction h with
    | start => intro e; exact h1 _ (Or.inl ⟨e.symm, rfl⟩)
    | move h h3 ih =>
      intro e
      cases h3 with
      | imm h4 h5 h6 => subst e; exact h2 _ (ih rfl) h4 _ _ h5 _ h6
      | eat h4 h5 h6 => exact h1 _ (Or.inr ⟨_, _, e.symm, h, h4, h5, h6⟩)
  exact this h rfl

/-- A thread later on comes from an entry. -/
theorem Reach.entry {i j p : Nat} (h : Reach vm s start look pc0 j p) (h1 : i ≤ j) (h2 : start ≤ i) : ∃ q, Entry vm s start look pc0 i q := by
  induction h with
  | start => exact ⟨pc0, Or.inl ⟨by omega, rfl⟩⟩
  | move h h3 ih =>
    cases h3 with
    | imm => exact ih h1
    | eat h4 h5 h6 =>
      rename_i j' q q'
      rcases Nat.lt_or_ge j' i with h7 | h7
      · exact ⟨_, Or.inr ⟨j', q, by omega, h, h4, h5, h6⟩⟩
      · exact ih h7

/-- What is true while the threads of a character run: `D` were run, `R` and `Q` are to be run. -/
structure Inv (vm : VM) (s : List Nat) (start : Nat) (look : Nat → Nat → Option Bool) (pc0 : Nat) (anchorEnd : Bool) (i : Nat) (cur que nxt : Queue)
    (D R Q N : List Nat) : Prop where
  cur : Lst cur (D ++ R)
  que : Lst que Q
  nxt : Lst nxt N
  entries : ∀ p, Entry vm s start look pc0 i p → p ∈ D ++ R ∨ p ∈ Q
  sound : ∀ p, p ∈ D ++ R ∨ p ∈ Q → Reach vm s start look pc0 i p
  final : vm.program.length ∈ D → anchorEnd = true ∧ i ≠ s.length
  imm : ∀ p ∈ D, p ≠ vm.program.length → ∀ ps sv, act vm s start look i (s.getD i 0) p = .imm ps sv → ∀ p' ∈ ps, p' ∈ D ++ R
  eat : ∀ p ∈ D, p ≠ vm.program.length → ∀ p', act vm s start look i (s.getD i 0) p = .eat p' → p' ∈ N
  from_ : ∀ p ∈ N, ∃ q, Reach vm s start look pc0 i q ∧ q ≠ vm.program.length ∧ act vm s start look i (s.getD i 0) q = .eat p

theorem small_list {n : Nat} {l : List Nat} (h : l.Nodup) (hb : ∀ x ∈ l, x ≤ n) : l.length ≤ n + 1 := by
  induction n generalizing l with
  | zero =>
    match l, h, hb with
    | [], _, _ => simp
    | [_], _, _ => simp
    | a :: b :: l, h, hb =>
      have h1 := hb a (by simp)
      have h2 := hb b (by simp)
      have : a = b := by omega
      subst this
      simp at h
  | succ n ih =>
    have h1 := ih (l := l.erase (n + 1)) (h.erase _) (fun x hx => by
      have h2 := hb x (List.mem_of_mem_erase hx)
      have h3 : x ≠ n + 1 := by
        rintro rfl
        exact (List.Nodup.mem_erase_iff h).1 hx |>.1 rfl
      omega)
    have h2 : l.length ≤ (l.erase (n + 1)).length + 1 := by
      by_cases hm : n + 1 ∈ l
      · rw [List.length_erase_of_mem hm]; omega
      · rw [List.erase_of_not_mem hm]; omega
    omega

/-- How the loop over the threads ends. -/
theorem threads_ok (hg : Good vm s start look pc0) {anchorStart anchorEnd result : Bool} {i : Nat} (hi : i ≤ s.length) :
    ∀ (f : Nat) {cur que nxt : Queue} {D R Q N : List Nat}, Inv vm s start look pc0 anchorEnd i cur que nxt D R Q N → vm.program.length + 2 ≤ D.length + f →
      (∃ cur' que' nxt' L N', threads vm s start look anchorStart anchorEnd result i (s.getD i 0) f cur que nxt D.getLast? = some (.ok cur' que' nxt' none) ∧
        Inv vm s start look pc0 anchorEnd i cur' que' nxt' L [] [] N') ∨
      (∃ cur' que' nxt', threads vm s start look anchorStart anchorEnd result i (s.getD i 0) f cur que nxt D.getLast? =
          some (accept vm anchorStart result cur' que' nxt' vm.program.length) ∧ (cur'.offsets vm.program.length).isSome = true ∧
        Reach vm s start look pc0 i vm.program.length ∧ (anchorEnd = true → i = s.length)) := by
  intro f
  induction f with
  | zero =>
    intro cur que nxt D R Q N h hf
    have h1 := small_list (n := vm.program.length) h.cur.nodup (fun x hx => (hg i x hi (h.sound x (Or.inl hx))).1)
    rw [List.length_append] at h1
    omega
  | succ f ih =>
    intro cur que nxt D R Q N h hf
    unfold threads
    -- a thread is run, in a state where it comes behind those that were run
    have main : ∀ {cur que : Queue} {p : Nat} {R Q : List Nat}, Inv vm s start look pc0 anchorEnd i cur que nxt D (p :: R) Q N →
        (∃ cur' que' nxt' L N',
          (if p = vm.program.length then
            if anchorEnd = true ∧ i ≠ s.length then threads vm s start look anchorStart anchorEnd result i (s.getD i 0) f cur que nxt (some p)
            else some (accept vm anchorStart result cur que nxt p)
          else
            match act vm s start look i (s.getD i 0) p with
            | .bad => some .fail
            | .die => threads vm s start look anchorStart anchorEnd result i (s.getD i 0) f cur que nxt (some p)
            | .eat pc' => threads vm s start look anchorStart anchorEnd result i (s.getD i 0) f cur que (cur.queueNext p pc' nxt).1 (some p)
            | .imm pcs save =>
              threads vm s start look anchorStart anchorEnd result i (s.getD i 0) f
                (pcs.foldl (fun q pc' => q.queueImmediately p pc') (cur.save result p i save)) que nxt (some p)) =
            some (.ok cur' que' nxt' none) ∧ Inv vm s start look pc0 anchorEnd i cur' que' nxt' L [] [] N') ∨
        (∃ cur' que' nxt',
          (if p = vm.program.length then
            if anchorEnd = true ∧ i ≠ s.length then threads vm s start look anchorStart anchorEnd result i (s.getD i 0) f cur que nxt (some p)
            else some (accept vm anchorStart result cur que nxt p)
          else
            match act vm s start look i (s.getD i 0) p with
            | .bad => some .fail
            | .die => threads vm s start look anchorStart anchorEnd result i (s.getD i 0) f cur que nxt (some p)
            | .eat pc' => threads vm s start look anchorStart anchorEnd result i (s.getD i 0) f cur que (cur.queueNext p pc' nxt).1 (some p)
            | .imm pcs save =>
              threads vm s start look anchorStart anchorEnd result i (s.getD i 0) f
                (pcs.foldl (fun q pc' => q.queueImmediately p pc') (cur.save result p i save)) que nxt (some p)) =
            some (accept vm anchorStart result cur' que' nxt' vm.program.length) ∧ (cur'.offsets vm.program.length).isSome = true ∧
          Reach vm s start look pc0 i vm.program.length ∧ (anchorEnd = true → i = s.length)) := by
      intro cur que p R Q h
      have hp : Reach vm s start look pc0 i p := h.sound p (Or.inl (by simp))
      have hlast : (some p : Option Nat) = (D ++ [p]).getLast? := by simp
      have hlen : vm.program.length + 2 ≤ (D ++ [p]).length + f := by simp; omega
      have happ : ∀ R : List Nat, D ++ [p] ++ R = D ++ p :: R := fun R => by simp
      by_cases hpl : p = vm.program.length
      · rw [if_pos hpl]
        by_cases ha : anchorEnd = true ∧ i ≠ s.length
        · rw [if_pos ha, hlast]
          refine ih (R := R) (Q := Q) (N := N) ⟨by rw [happ]; exact h.cur, h.que, h.nxt, ?_, ?_, fun _ => ha, ?_, ?_, h.from_⟩ hlen
          · rw [happ]; exact h.entries
          · rw [happ]; exact h.sound
          · intro x hx hxl
            rw [happ]
            rcases List.mem_append.1 hx with hx | hx
            · exact h.imm x hx hxl
            · rw [List.mem_singleton.1 hx] at hxl; exact absurd hpl hxl
          · intro x hx hxl
            rcases List.mem_append.1 hx with hx | hx
            · exact h.eat x hx hxl
            · rw [List.mem_singleton.1 hx] at hxl; exact absurd hpl hxl
        · rw [if_neg ha]
          right
          refine ⟨cur, que, nxt, by rw [hpl], ?_, hpl ▸ hp, fun hae => ?_⟩
          · rw [← hpl]; exact h.cur.offsets p (by simp)
          · rcases Nat.decEq i s.length with hne | heq
            · exact absurd ⟨hae, hne⟩ ha
            · exact heq
      · rw [if_neg hpl]
        have hbad := (hg i p hi hp).2 hpl
        have hfin : vm.program.length ∈ D ++ [p] → anchorEnd = true ∧ i ≠ s.length := by
          intro hx
          rcases List.mem_append.1 hx with hx | hx
          · exact h.final hx
          · exact absurd (List.mem_singleton.1 hx).symm hpl
        cases hact : act vm s start look i (s.getD i 0) p with
        | bad => exact absurd hact hbad
        | die =>
          simp only
          rw [hlast]
          refine ih (R := R) (Q := Q) (N := N) ⟨by rw [happ]; exact h.cur, h.que, h.nxt, ?_, ?_, hfin, ?_, ?_, h.from_⟩ hlen
          · rw [happ]; exact h.entries
          · rw [happ]; exact h.sound
          · intro x hx hxl ps sv hxa
            rw [happ]
            rcases List.mem_append.1 hx with hx | hx
            · exact h.imm x hx hxl ps sv hxa
            · rw [List.mem_singleton.1 hx, hact] at hxa; cases hxa
          · intro x hx hxl p' hxa
            rcases List.mem_append.1 hx with hx | hx
            · exact h.eat x hx hxl p' hxa
            · rw [List.mem_singleton.1 hx, hact] at hxa; cases hxa
        | eat p' =>
          simp only
          rw [hlast]
          have hq := Lst.queueNext (q := cur) (pc := p) (pc' := p') h.nxt (h.cur.offsets p (by simp))
          have hN : ∃ N', Lst (cur.queueNext p p' nxt).1 N' ∧ (∀ x ∈ N, x ∈ N') ∧ p' ∈ N' ∧ ∀ x ∈ N', x ∈ N ∨ x = p' := by
            by_cases hm : p' ∈ N
            · exact ⟨N, by rw [hq.1 hm]; exact h.nxt, fun _ h => h, hm, fun _ h => Or.inl h⟩
            · exact ⟨N ++ [p'], (hq.2 hm).1, fun x hx => by simp [hx], by simp, fun x hx => by simpa using hx⟩
          obtain ⟨N', n1, n2, n3, n4⟩ := hN
          refine ih (R := R) (Q := Q) (N := N') ⟨by rw [happ]; exact h.cur, h.que, n1, ?_, ?_, hfin, ?_, ?_, ?_⟩ hlen
          · rw [happ]; exact h.entries
          · rw [happ]; exact h.sound
          · intro x hx hxl ps sv hxa
            rw [happ]
            rcases List.mem_append.1 hx with hx | hx
            · exact h.imm x hx hxl ps sv hxa
            · rw [List.mem_singleton.1 hx, hact] at hxa; cases hxa
          · intro x hx hxl p'' hxa
            rcases List.mem_append.1 hx with hx | hx
            · exact n2 _ (h.eat x hx hxl p'' hxa)
            · rw [List.mem_singleton.1 hx, hact] at hxa; cases hxa; exact n3
          · intro x hx
            rcases n4 x hx with hx | hx
            · exact h.from_ x hx
            · rw [hx]; exact ⟨p, hp, hpl, hact⟩
        | imm ps sv =>
          simp only
          rw [hlast]
          have hsave : Lst (cur.save result p i sv) (D ++ p :: R) := by
            cases sv with
            | none => exact h.cur
            | some k =>
              show Lst (if result = true then cur.saveOffset p k i else cur) _
              split
              · exact h.cur.saveOffset p k i
              · exact h.cur
          obtain ⟨R', r1, r2, r3, r4⟩ := Lst.fold ps hsave
          have hsub : ∀ x, x ∈ D ++ p :: R → x ∈ D ++ p :: R' := by
            intro x hx
            simp only [List.mem_append, List.mem_cons] at hx ⊢
            rcases hx with hx | hx | hx
            · exact Or.inl hx
            · exact Or.inr (Or.inl hx)
            · exact Or.inr (Or.inr (r2 x hx))
          refine ih (R := R') (Q := Q) (N := N) ⟨by rw [happ]; exact r1, h.que, h.nxt, ?_, ?_, hfin, ?_, ?_, h.from_⟩ hlen
          · intro x hx
            rw [happ]
            rcases h.entries x hx with hx | hx
            · exact Or.inl (hsub x hx)
            · exact Or.inr hx
          · intro x hx
            rw [happ] at hx
            rcases hx with hx | hx
            · simp only [List.mem_append, List.mem_cons] at hx
              rcases hx with hx | hx | hx
              · exact h.sound x (Or.inl (by simp [hx]))
              · exact h.sound x (Or.inl (by simp [hx]))
              · rcases r4 x hx with hx | hx
                · exact h.sound x (Or.inl (by simp [hx]))
                · exact .move hp (.imm hpl hact hx)
            · exact h.sound x (Or.inr hx)
          · intro x hx hxl ps' sv' hxa p' hp'
            rw [happ]
            rcases List.mem_append.1 hx with hx | hx
            · exact hsub _ (h.imm x hx hxl ps' sv' hxa p' hp')
            · rw [List.mem_singleton.1 hx, hact] at hxa; cases hxa; exact r3 p' hp'
          · intro x hx hxl p' hxa
            rcases List.mem_append.1 hx with hx | hx
            · exact h.eat x hx hxl p' hxa
            · rw [List.mem_singleton.1 hx, hact] at hxa; cases hxa
    rw [h.cur.after]
    cases R with
    | cons p R => exact main h
    | nil =>
      simp only [List.head?_nil]
      have hQ : Q.length < vm.program.length + 2 := by
        have := small_list (n := vm.program.length) h.que.nodup (fun x hx => (hg i x hi (h.sound x (Or.inr hx))).1)
        omega
      have hcur : Lst cur D := by have := h.cur; rwa [List.append_nil] at this
      rcases queueOne_ok (vm.program.length + 2) h.que hcur hQ with ⟨q', e, e1, e2⟩ | ⟨q', into', p, Q', e, e1, e2, e3, e4, e5, e6⟩
      · rw [e]
        left
        refine ⟨cur, q', nxt, D, N, rfl, ⟨h.cur, e1, h.nxt, ?_, ?_, h.final, h.imm, h.eat, h.from_⟩⟩
        · intro x hx
          rcases h.entries x hx with hx | hx
          · exact Or.inl hx
          · exact Or.inl (by rw [List.append_nil]; exact e2 x hx)
        · intro x hx
          rcases hx with hx | hx
          · exact h.sound x (Or.inl hx)
          · cases hx
      · rw [e]
        refine main (R := []) (Q := Q') ⟨e4, e3, h.nxt, ?_, ?_, h.final, ?_, h.eat, h.from_⟩
        · intro x hx
          rcases h.entries x hx with hx | hx
          · rw [List.append_nil] at hx; exact Or.inl (by simp [hx])
          · rcases e6 x hx with hx | hx | hx
            · exact Or.inl (by simp [hx])
            · exact Or.inl (by simp [hx])
            · exact Or.inr hx
        · intro x hx
          rcases hx with hx | hx
          · rcases List.mem_append.1 hx with hx | hx
            · exact h.sound x (Or.inl (by simp [hx]))
            · rw [List.mem_singleton.1 hx]; exact h.sound p (Or.inr e2)
          · exact h.sound x (Or.inr (e5 x hx))
        · intro x hx hxl ps sv hxa p' hp'
          have := h.imm x hx hxl ps sv hxa p' hp'
          rw [List.append_nil] at this
          simp [this]

/-- A way ends at a place that counts, at `i` or later. -/
def AcceptsFrom (vm : VM) (s : List Nat) (start : Nat) (look : Nat → Nat → Option Bool) (pc0 : Nat) (anchorEnd : Bool) (i : Nat) : Prop :=
  ∃ j, i ≤ j ∧ j ≤ s.length ∧ Reach vm s start look pc0 j vm.program.length ∧ (anchorEnd = true → j = s.length)

/-- After a match, the answer stays (if there is no exception). -/
theorem steps_found {anchorStart anchorEnd result : Bool} : ∀ (m i : Nat) (cur que nxt : Queue) (o : Option (List Nat)) (out : Out),
    steps vm s start look anchorStart anchorEnd result m i cur que nxt true o = some out → out = .fail ∨ ∃ o', out = .done true o'
  | 0, i, cur, que, nxt, o, out, h => by
    cases h
    exact Or.inr ⟨o, rfl⟩
  | m + 1, i, cur, que, nxt, o, out, h => by
    unfold steps at h
    split at h
    · cases h; exact Or.inr ⟨o, rfl⟩
    · split at h
      · cases h
      · cases h; exact Or.inl rfl
      · cases h; exact Or.inr ⟨none, rfl⟩
      · rw [Bool.true_or] at h
        exact steps_found m _ _ _ _ _ out h

theorem accept_cases {anchorStart result : Bool} {cur que nxt : Queue} {pc : Nat} (ho : (cur.offsets pc).isSome = true) :
    (result = false ∧ accept vm anchorStart result cur que nxt pc = .yes) ∨
    (result = true ∧ anchorStart = true ∧ ∃ o, accept vm anchorStart result cur que nxt pc = .ok cur que nxt (some o)) ∨
    (result = true ∧ anchorStart = false ∧ (accept vm anchorStart result cur que nxt pc = .fail ∨
      ∃ nxt' o, accept vm anchorStart result cur que nxt pc = .ok cur que nxt' (some o))) := by
  unfold accept
  cases result with
  | false => exact Or.inl ⟨rfl, rfl⟩
  | true =>
    rw [if_neg (by simp)]
    obtain ⟨o, h⟩ := Option.isSome_iff_exists.1 ho
    rw [h]
    cases anchorStart with
    | true => exact Or.inr (Or.inl ⟨rfl, rfl, o, rfl⟩)
    | false =>
      refine Or.inr (Or.inr ⟨rfl, rfl, ?_⟩)
      simp only [Bool.false_eq_true, if_false]
      cases nxt.mustStartLoop (o.getD 0 0) (vm.program.length + 2) none nxt.head with
      | none => exact Or.inl rfl
      | some n => exact Or.inr ⟨n, o, rfl⟩

/-- The loop over the characters. -/
theorem steps_ok (hg : Good vm s start look pc0) {anchorStart anchorEnd result : Bool} :
    ∀ (m i : Nat) {cur que nxt : Queue} {S : List Nat}, start ≤ i → i + m = s.length + 1 → Lst cur [] → Lst que S → Lst nxt [] →
      (∀ p, p ∈ S ↔ Entry vm s start look pc0 i p) →
      let out := steps vm s start look anchorStart anchorEnd result m i cur que nxt false none
      (¬ AcceptsFrom vm s start look pc0 anchorEnd i → out = some (.done false none)) ∧
      (AcceptsFrom vm s start look pc0 anchorEnd i →
        (result = false → out = some (.done true none)) ∧
        (result = true → anchorStart = true → anchorEnd = true → ∃ o, out = some (.done true (some o))) ∧
        ∀ x, out = some x → x = .fail ∨ ∃ o, x = .done true o)
  | 0, i, cur, que, nxt, S, hs, hm, _, _, _, _ => by
    refine ⟨fun _ => rfl, fun h => ?_⟩
    obtain ⟨j, h1, h2, _⟩ := h
    omega
  | m + 1, i, cur, que, nxt, S, hs, hm, hc, hq, hn, hS => by
    have hi : i ≤ s.length := by omega
    simp only
    unfold steps
    by_cases he : que.head = none
    · have hS0 : S = [] := by
        rw [hq.head] at he
        exact List.head?_eq_none_iff.1 he
      rw [if_pos he]
      have hno : ¬ AcceptsFrom vm s start look pc0 anchorEnd i := by
        rintro ⟨j, h1, h2, h3, _⟩
        obtain ⟨q, hq⟩ := h3.entry h1 hs
        rw [← hS q, hS0] at hq
        cases hq
      exact ⟨fun _ => rfl, fun h => absurd h hno⟩
    · rw [if_neg he]
      have hinv : Inv vm s start look pc0 anchorEnd i cur que nxt [] [] S [] :=
        ⟨hc, hq, hn, fun p hp => Or.inr ((hS p).2 hp), fun p hp => by
          rcases hp with hp | hp
          · cases hp
          · exact ((hS p).1 hp).reach, fun h => (by cases h), fun p h => (by cases h), fun p h => (by cases h), fun p h => (by cases h)⟩
      rcases threads_ok (anchorStart := anchorStart) (result := result) hg hi (vm.program.length + 2) hinv (by simp) with
        ⟨cur', que', nxt', L, N, e, h⟩ | ⟨cur', que', nxt', e, ho, hr, hae⟩
      · rw [show ([] : List Nat).getLast? = none from rfl] at e
        rw [e]
        simp only [Option.isSome_none, Bool.or_false, Option.none_or]
        have hL : ∀ p, Reach vm s start look pc0 i p ↔ p ∈ L := by
          intro p
          constructor
          · intro hp
            refine Reach.closed (fun x hx => ?_) (fun x hx hxl ps sv hxa p' hp' => ?_) hp
            · have := h.entries x hx
              simpa using this
            · have := h.imm x hx hxl ps sv hxa p' hp'
              simpa using this
          · intro hp
            exact h.sound p (Or.inl (by simpa using hp))
        have hN : i < s.length → ∀ p, p ∈ N ↔ Entry vm s start look pc0 (i + 1) p := by
          intro hi' p
          constructor
          · intro hp
            obtain ⟨q, q1, q2, q3⟩ := h.from_ p hp
            exact Or.inr ⟨i, q, rfl, q1, q2, hi', q3⟩
          · rintro (⟨h1, _⟩ | ⟨j, q, h1, h2, h3, h4, h5⟩)
            · omega
            · have : i = j := by omega
              subst this
              exact h.eat q ((hL q).1 h2) h3 p h5
        have hcl : Lst (cur'.clean vm.program.length) [] := by
          refine h.cur.clean ?_
          exact small_list h.cur.nodup (fun x hx => (hg i x hi (h.sound x (Or.inl hx))).1)
        have hacc : AcceptsFrom vm s start look pc0 anchorEnd i ↔ AcceptsFrom vm s start look pc0 anchorEnd (i + 1) := by
          constructor
          · rintro ⟨j, h1, h2, h3, h4⟩
            rcases Nat.eq_or_lt_of_le h1 with h5 | h5
            · subst h5
              obtain ⟨f1, f2⟩ := h.final ((hL _).1 h3)
              exact absurd (h4 f1) f2
            · exact ⟨j, h5, h2, h3, h4⟩
          · rintro ⟨j, h1, h2⟩
            exact ⟨j, by omega, h2⟩
        rw [hacc]
        cases m with
        | zero =>
          refine ⟨fun _ => rfl, fun h => ?_⟩
          obtain ⟨j, h1, h2, _⟩ := h
          omega
        | succ m =>
          exact steps_ok hg (m + 1) (i + 1) (by omega) (by omega) hcl h.nxt h.que (hN (by omega))
      · rw [show ([] : List Nat).getLast? = none from rfl] at e
        rw [e]
        have hyes : AcceptsFrom vm s start look pc0 anchorEnd i := ⟨i, Nat.le_refl _, hi, hr, hae⟩
        refine ⟨fun h => absurd hyes h, fun _ => ?_⟩
        rcases accept_cases (vm := vm) (anchorStart := anchorStart) (result := result) (que := que') (nxt := nxt') ho with
          ⟨r1, r2⟩ | ⟨r1, r2, o, r3⟩ | ⟨r1, r2, r3 | ⟨n', o, r3⟩⟩
        · rw [r2]
          refine ⟨fun _ => rfl, fun h => ?_, fun x hx => ?_⟩
          · rw [r1] at h; cases h
          · cases hx; exact Or.inr ⟨none, rfl⟩
        · rw [r3]
          refine ⟨fun h => ?_, fun _ _ hae' => ?_, fun x hx => ?_⟩
          · rw [r1] at h; cases h
          · have : m = 0 := by have := hae hae'; omega
            subst this
            exact ⟨o, rfl⟩
          · exact steps_found m _ _ _ _ _ x hx
        · rw [r3]
          refine ⟨fun h => ?_, fun _ h => ?_, fun x hx => ?_⟩
          · rw [r1] at h; cases h
          · rw [r2] at h; cases h
          · cases hx; exact Or.inl rfl
        · rw [r3]
          refine ⟨fun h => ?_, fun _ h => ?_, fun x hx => ?_⟩
          · rw [r1] at h; cases h
          · rw [r2] at h; cases h
          · exact steps_found m _ _ _ _ _ x hx

/-- The machine, from the first thread on. -/
theorem begin_ok {anchorStart anchorEnd result : Bool} (hs : start ≤ s.length)
    (hg : Good vm s start look (if anchorStart then vm.findPrefixLength else 0)) :
    let out := begin vm s start look anchorStart anchorEnd result
    let accepts := AcceptsFrom vm s start look (if anchorStart then vm.findPrefixLength else 0) anchorEnd start
    (¬ accepts → out = some (.done false none)) ∧
    (accepts →
      (result = false → out = some (.done true none)) ∧
      (result = true → anchorStart = true → anchorEnd = true → ∃ o, out = some (.done true (some o))) ∧
      ∀ x, out = some x → x = .fail ∨ ∃ o, x = .done true o) := by
  simp only
  unfold begin
  rw [if_neg (show ¬ s.length < start by omega)]
  refine steps_ok hg (s.length + 1 - start) start (Nat.le_refl _) (by omega) empty_lst (start_lst _ _) empty_lst (fun p => ?_)
  rw [List.mem_singleton]
  constructor
  · intro h; exact Or.inl ⟨rfl, h⟩
  · rintro (⟨_, h⟩ | ⟨j, q, h1, h2, _⟩)
    · exact h
    · have := h2.ge; omega

end

end Avian.PikeVM
