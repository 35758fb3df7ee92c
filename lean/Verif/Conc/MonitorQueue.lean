import Verif.Conc.MonitorOwn

/-! The acquire queue of object monitors: inductive invariant. -/

namespace Avian.Monitor

/-- the part of memory that makes up the acquire queue, with its history -/
structure QS where
  head : Node
  tail : Node
  next : Node → Option Node
  value : Node → Option Tid
  fresh : Node
  chain : List Node
  hi : Nat
  ti : Nat
  joined : List Tid
  served : List Tid

def Shared.q (s : Shared) : QS :=
  ⟨s.head, s.tail, s.next, s.value, s.fresh, s.chain, s.hi, s.ti, s.joined, s.served⟩

/-- The nodes ever linked form a list; `head` and `tail` point into it; the values are the threads in
the order in which they joined. -/
structure Glob (q : QS) : Prop where
  nodup : q.chain.Nodup
  link : ∀ i a, q.chain[i]? = some a → q.next a = q.chain[i + 1]?
  head : q.chain[q.hi]? = some q.head
  tail : q.chain[q.ti]? = some q.tail
  le : q.hi ≤ q.ti
  len : q.chain.length = q.joined.length + 1
  val : ∀ i a, q.chain[i + 1]? = some a → q.value a = q.joined[i]?
  served : q.served = q.joined.take q.hi
  fresh : ∀ a, a ∈ q.chain → a < q.fresh
  qnodup : (q.joined.drop q.hi).Nodup

/-- the thread is in the queue -/
def inQ : Pc → Bool
  | .q5 _ _ _ | .s2 _ | .s3 _ | .s4 _ => true
  | .p0 c | .p1 c _ | .p2 c _ _ | .p3 c _ _ _ | .p4 c _ _ | .p5 c _ _ | .p6 c _ _ _ =>
    match c with
    | .loop _ | .rem _ => true
    | _ => false
  | _ => false

/-- the thread has seen that it is first in the queue -/
def isFirst : Pc → Bool
  | .s2 _ => true
  | .p0 c | .p1 c _ | .p2 c _ _ | .p3 c _ _ _ | .p4 c _ _ | .p5 c _ _ | .p6 c _ _ _ => isRem c
  | _ => false

def AK.node : AK → Option Node
  | .user => none
  | .wait _ nd => some nd

/-- a node that the thread has allocated and not yet linked -/
def ownNode : Pc → Option Node
  | .a0 k | .a1 k | .a2 k | .s0 k | .s1 k | .r0 k | .r1 k | .r2 k | .r3 k _ | .r4 k _ | .r5 k _ => k.node
  | .q0 _ nd | .q1 _ nd _ | .q2 _ nd _ _ | .q3 _ nd _ _ | .q4 _ nd _ => some nd
  | .p0 c | .p1 c _ | .p2 c _ _ | .p3 c _ _ _ | .p4 c _ _ | .p5 c _ _ | .p6 c _ _ _ =>
    match c with
    | .try k | .rel k => k.node
    | _ => none
  | .w2 nd | .w3 nd | .w4 nd | .w5 _ nd | .w6 _ nd | .w7 _ nd => some nd
  | _ => none

/-- what the registers of a thread hold -/
def Regs (t : Tid) (q : QS) : Pc → Prop
  | .p1 _ h => ∃ i, i ≤ q.hi ∧ q.chain[i]? = some h
  | .p2 _ h tl => ∃ i j, i ≤ q.hi ∧ i ≤ j ∧ j ≤ q.ti ∧ q.chain[i]? = some h ∧ q.chain[j]? = some tl
  | .p3 c h tl n => ∃ i j, i ≤ q.hi ∧ i ≤ j ∧ j ≤ q.ti ∧ q.chain[i]? = some h ∧ q.chain[j]? = some tl ∧
      (n = none → i = j) ∧ (∀ m, n = some m → q.chain[i + 1]? = some m) ∧ (inQ (.p0 c) = true → n ≠ none)
  | .p4 _ tl n => ∃ j, j ≤ q.ti ∧ q.chain[j]? = some tl ∧ q.chain[j + 1]? = some n
  | .p5 c h n => ∃ i, i ≤ q.hi ∧ i + 1 ≤ q.ti ∧ q.chain[i]? = some h ∧ q.chain[i + 1]? = some n ∧
      (q.joined[i]? = some t → i = q.hi ∧ inQ (.p5 c h n) = true)
  | .p6 c h n v => ∃ i, i ≤ q.hi ∧ i + 1 ≤ q.ti ∧ q.chain[i]? = some h ∧ q.chain[i + 1]? = some n ∧
      (q.joined[i]? = some t → i = q.hi ∧ inQ (.p6 c h n v) = true) ∧ v = q.joined[i]? ∧ isRem c = true
  | .q1 _ _ tl => ∃ j, j ≤ q.ti ∧ q.chain[j]? = some tl
  | .q2 _ _ tl n => ∃ j, j ≤ q.ti ∧ q.chain[j]? = some tl ∧ ∀ m, n = some m → q.chain[j + 1]? = some m
  | .q3 _ _ tl n => ∃ j, j ≤ q.ti ∧ q.chain[j]? = some tl ∧ q.chain[j + 1]? = some n
  | .q4 _ _ tl => ∃ j, j ≤ q.ti ∧ q.chain[j]? = some tl
  | .q5 _ nd tl => ∃ j, j ≤ q.ti ∧ q.chain[j]? = some tl ∧ q.chain[j + 1]? = some nd
  | .r3 _ u | .r4 _ u | .r5 _ u => u ≠ t
  | _ => True

/-- queue facts about one thread -/
structure QOK (t : Tid) (q : QS) (p : Pc) : Prop where
  inq : inQ p = true ↔ t ∈ q.joined.drop q.hi
  first : isFirst p = true → q.joined[q.hi]? = some t
  node : ∀ nd, ownNode p = some nd → nd ∉ q.chain ∧ q.value nd = some t ∧ nd < q.fresh ∧ q.next nd = none
  regs : Regs t q p

/-- effects on the queue -/
inductive QStep (t : Tid) (q : QS) : QS → Prop where
  | same : QStep t q q
  | alloc : QStep t q { q with fresh := q.fresh + 1, value := set q.value q.fresh (some t),
                               next := set q.next q.fresh none }
  | adv (n) : q.chain[q.ti + 1]? = some n → QStep t q { q with tail := n, ti := q.ti + 1 }
  | link (nd tl) : q.chain[q.ti]? = some tl → q.next tl = none → nd ∉ q.chain → q.value nd = some t →
      nd < q.fresh → q.next nd = none → t ∉ q.joined.drop q.hi →
      QStep t q { q with next := set q.next tl (some nd), chain := q.chain ++ [nd],
                         joined := q.joined ++ [t] }
  | rem (n) : q.chain[q.hi + 1]? = some n → q.hi + 1 ≤ q.ti → q.joined[q.hi]? = some t →
      QStep t q { q with head := n, hi := q.hi + 1, served := q.served ++ [t] }

theorem nodup_idx {l : List Nat} (h : l.Nodup) {i j : Nat} {a : Nat} (hi : l[i]? = some a)
    (hj : l[j]? = some a) : i = j := by
  have h1 : i < l.length := by
    rcases Nat.lt_or_ge i l.length with h | h
    · exact h
    · rw [List.getElem?_eq_none h] at hi; exact absurd hi (by simp)
  exact (List.getElem?_inj h1 h).1 (by rw [hi, hj])

theorem lt_of_getElem? {l : List Nat} {i a : Nat} (h : l[i]? = some a) : i < l.length := by
  rcases Nat.lt_or_ge i l.length with h' | h'
  · exact h'
  · rw [List.getElem?_eq_none h'] at h; exact absurd h (by simp)

theorem get_append {l : List Nat} {i a : Nat} (x : List Nat) (h : l[i]? = some a) :
    (l ++ x)[i]? = some a := by
  rw [List.getElem?_append_left (lt_of_getElem? h)]; exact h

theorem drop_cons_of_get {l : List Nat} {i a : Nat} (h : l[i]? = some a) :
    l.drop i = a :: l.drop (i + 1) := by
  have hl := lt_of_getElem? h
  rw [List.drop_eq_getElem_cons hl]
  rw [List.getElem?_eq_getElem hl] at h
  rw [Option.some.inj h]

theorem glob_step {t q q'} (g : Glob q) (h : QStep t q q') : Glob q' := by
  cases h with
  | same => exact g
  | alloc =>
    refine ⟨g.nodup, ?_, g.head, g.tail, g.le, g.len, ?_, g.served, ?_, g.qnodup⟩
    · intro i a ha
      have : a < q.fresh := g.fresh a (List.mem_of_getElem? ha)
      show set q.next q.fresh none a = _
      rw [set_ne _ _ _ _ (Nat.ne_of_lt this)]; exact g.link i a ha
    · intro i a ha
      have : a < q.fresh := g.fresh a (List.mem_of_getElem? ha)
      show set q.value q.fresh (some t) a = _
      rw [set_ne _ _ _ _ (Nat.ne_of_lt this)]; exact g.val i a ha
    · intro a ha; exact Nat.lt_succ_of_lt (g.fresh a ha)
  | adv n hn =>
    exact ⟨g.nodup, g.link, g.head, hn, Nat.le_succ_of_le g.le, g.len, g.val, g.served, g.fresh, g.qnodup⟩
  | link nd tl htl hnx hnd hv hf hnn htq =>
    have hlast : q.chain[q.ti + 1]? = none := by rw [← g.link _ _ htl]; exact hnx
    have hlen : q.chain.length = q.ti + 1 := by
      have h1 := lt_of_getElem? htl
      have h2 := List.getElem?_eq_none_iff.1 hlast
      omega
    have hle := g.le
    refine ⟨?_, ?_, get_append _ g.head, get_append _ g.tail, g.le, ?_, ?_, ?_, ?_, ?_⟩
    · rw [List.nodup_append]
      refine ⟨g.nodup, by simp, ?_⟩
      intro a ha b hb; simp at hb; subst hb; rintro rfl; exact hnd ha
    · intro i a ha
      show set q.next tl (some nd) a = (q.chain ++ [nd])[i + 1]?
      rcases Nat.lt_or_ge i q.chain.length with hi | hi
      · have ha' : q.chain[i]? = some a := by rw [← ha]; exact (List.getElem?_append_left hi).symm
        by_cases hat : a = tl
        · subst hat
          have := nodup_idx g.nodup ha' htl
          subst this
          rw [set_self, ← hlen]; simp
        · rw [set_ne _ _ _ _ hat, g.link i a ha']
          have : i ≠ q.ti := by
            rintro rfl; rw [htl] at ha'; exact hat (Option.some.inj ha').symm
          rw [List.getElem?_append_left (by omega)]
      · have : i = q.chain.length := by
          have := lt_of_getElem? ha; simp at this; omega
        subst this
        have : a = nd := by simpa using ha.symm
        subst this
        have hat : a ≠ tl := by rintro rfl; exact hnd (List.mem_of_getElem? htl)
        rw [set_ne _ _ _ _ hat, hnn]
        symm; apply List.getElem?_eq_none; simp
    · have := g.len; simp; omega
    · intro i a ha
      show q.value a = (q.joined ++ [t])[i]?
      have hg := g.len
      rcases Nat.lt_or_ge (i + 1) q.chain.length with hi | hi
      · have ha' : q.chain[i + 1]? = some a := by rw [← ha]; exact (List.getElem?_append_left hi).symm
        rw [g.val i a ha', List.getElem?_append_left (by omega)]
      · have hi' : i + 1 = q.chain.length := by
          have := lt_of_getElem? ha; simp at this; omega
        have ha'' : (q.chain ++ [nd])[i + 1]? = some a := ha
        rw [hi'] at ha''
        have : a = nd := by simpa using ha''.symm
        subst this
        have hij : i = q.joined.length := by omega
        rw [hv, hij]; simp
    · show q.served = (q.joined ++ [t]).take q.hi
      rw [List.take_append_of_le_length]
      · exact g.served
      · have := g.len; omega
    · intro a ha
      have ha' : a ∈ q.chain ++ [nd] := ha
      simp at ha'
      rcases ha' with ha' | ha'
      · exact g.fresh a ha'
      · subst ha'; exact hf
    · show ((q.joined ++ [t]).drop q.hi).Nodup
      rw [List.drop_append_of_le_length (by have := g.len; omega)]
      rw [List.nodup_append]
      refine ⟨g.qnodup, by simp, ?_⟩
      intro a ha b hb; simp at hb; subst hb; rintro rfl; exact htq ha
  | rem n hn hle hj =>
    refine ⟨g.nodup, g.link, hn, g.tail, hle, g.len, g.val, ?_, g.fresh, ?_⟩
    · show q.served ++ [t] = q.joined.take (q.hi + 1)
      rw [List.take_add_one, hj, g.served]; rfl
    · have := g.qnodup
      rw [drop_cons_of_get hj] at this
      exact (List.nodup_cons.1 this).2

/-- another thread's facts survive -/
theorem qok_frame {t u q q' p} (g : Glob q) (h : QStep t q q') (hut : u ≠ t) (ho : QOK u q p) :
    QOK u q' p := by
  cases h with
  | same => exact ho
  | alloc =>
    refine ⟨ho.inq, ho.first, ?_, ho.regs⟩
    intro nd hnd
    obtain ⟨h1, h2, h3, h4⟩ := ho.node nd hnd
    refine ⟨h1, ?_, ?_, ?_⟩
    · show set q.value q.fresh (some t) nd = _; rw [set_ne _ _ _ _ (Nat.ne_of_lt h3)]; exact h2
    · exact Nat.lt_succ_of_lt h3
    · show set q.next q.fresh none nd = _; rw [set_ne _ _ _ _ (Nat.ne_of_lt h3)]; exact h4
  | adv n hn =>
    refine ⟨ho.inq, ho.first, ho.node, ?_⟩
    have := ho.regs
    revert this
    cases p <;> simp only [Regs] <;> try exact id
    all_goals rintro ⟨i, hr⟩
    case p2 => obtain ⟨j, h1, h2, h3, h4⟩ := hr; exact ⟨i, j, h1, h2, Nat.le_succ_of_le h3, h4⟩
    case p3 => obtain ⟨j, h1, h2, h3, h4⟩ := hr; exact ⟨i, j, h1, h2, Nat.le_succ_of_le h3, h4⟩
    case p5 => exact ⟨i, hr.1, Nat.le_succ_of_le hr.2.1, hr.2.2⟩
    case p6 => exact ⟨i, hr.1, Nat.le_succ_of_le hr.2.1, hr.2.2⟩
    all_goals exact ⟨i, Nat.le_succ_of_le hr.1, hr.2⟩
  | link nd tl htl hnx hnd hv hf hnn htq =>
    have hjl := g.len
    have hlast : q.chain[q.ti + 1]? = none := by rw [← g.link _ _ htl]; exact hnx
    have hlen : q.chain.length = q.ti + 1 := by
      have h1 := lt_of_getElem? htl
      have h2 := List.getElem?_eq_none_iff.1 hlast
      omega
    have hle := g.le
    refine ⟨?_, ?_, ?_, ?_⟩
    · show _ ↔ u ∈ (q.joined ++ [t]).drop q.hi
      rw [List.drop_append_of_le_length (by omega), List.mem_append]
      simp [hut, ho.inq]
    · intro hf
      exact get_append _ (ho.first hf)
    · intro nd' hnd'
      obtain ⟨h1, h2, h3, h4⟩ := ho.node nd' hnd'
      have hne : nd' ≠ nd := by rintro rfl; rw [hv] at h2; exact hut (Option.some.inj h2).symm
      refine ⟨?_, h2, h3, ?_⟩
      · show nd' ∉ q.chain ++ [nd]; simp; exact ⟨h1, hne⟩
      · show set q.next tl (some nd) nd' = none
        rw [set_ne]; exact h4
        rintro rfl; exact h1 (List.mem_of_getElem? htl)
    · have jo : ∀ (i n : Nat), q.chain[i + 1]? = some n → (q.joined ++ [t])[i]? = q.joined[i]? := by
        intro i n hn
        have := lt_of_getElem? hn
        exact List.getElem?_append_left (by omega)
      have ga := fun (i a : Nat) (h : q.chain[i]? = some a) => get_append [nd] h
      have := ho.regs
      revert this
      cases p <;> simp only [Regs] <;> try exact id
      case p1 => rintro ⟨i, h1, h2⟩; exact ⟨i, h1, ga _ _ h2⟩
      case p2 => rintro ⟨i, j, h1, h2, h3, h4, h5⟩; exact ⟨i, j, h1, h2, h3, ga _ _ h4, ga _ _ h5⟩
      case p3 =>
        rintro ⟨i, j, h1, h2, h3, h4, h5, h6, h7, h8⟩
        exact ⟨i, j, h1, h2, h3, ga _ _ h4, ga _ _ h5, h6, fun m hm => ga _ _ (h7 m hm), h8⟩
      case p4 => rintro ⟨j, h1, h2, h3⟩; exact ⟨j, h1, ga _ _ h2, ga _ _ h3⟩
      case p5 =>
        rintro ⟨i, h1, h2, h3, h4, h5⟩
        exact ⟨i, h1, h2, ga _ _ h3, ga _ _ h4, by rw [jo i _ h4]; exact h5⟩
      case p6 =>
        rintro ⟨i, h1, h2, h3, h4, h5, h6⟩
        exact ⟨i, h1, h2, ga _ _ h3, ga _ _ h4, by rw [jo i _ h4]; exact h5, by rw [jo i _ h4]; exact h6⟩
      case q1 => rintro ⟨j, h1, h2⟩; exact ⟨j, h1, ga _ _ h2⟩
      case q2 => rintro ⟨j, h1, h2, h3⟩; exact ⟨j, h1, ga _ _ h2, fun m hm => ga _ _ (h3 m hm)⟩
      case q3 => rintro ⟨j, h1, h2, h3⟩; exact ⟨j, h1, ga _ _ h2, ga _ _ h3⟩
      case q4 => rintro ⟨j, h1, h2⟩; exact ⟨j, h1, ga _ _ h2⟩
      case q5 => rintro ⟨j, h1, h2, h3⟩; exact ⟨j, h1, ga _ _ h2, ga _ _ h3⟩
  | rem n hn hle hj =>
    have hdrop := drop_cons_of_get hj
    have huh : q.joined[q.hi]? ≠ some u := by rw [hj]; simp; exact fun h => hut h.symm
    refine ⟨?_, ?_, ho.node, ?_⟩
    · rw [ho.inq, hdrop]; simp [hut]
    · intro hf; exact absurd (ho.first hf) huh
    · have := ho.regs
      revert this
      cases p <;> simp only [Regs] <;> try exact id
      case p1 => rintro ⟨i, h1, h2⟩; exact ⟨i, Nat.le_succ_of_le h1, h2⟩
      case p2 => rintro ⟨i, j, h1, h2⟩; exact ⟨i, j, Nat.le_succ_of_le h1, h2⟩
      case p3 => rintro ⟨i, j, h1, h2⟩; exact ⟨i, j, Nat.le_succ_of_le h1, h2⟩
      case p5 =>
        rintro ⟨i, h1, h2, h3, h4, h5⟩
        refine ⟨i, Nat.le_succ_of_le h1, h2, h3, h4, fun h => ?_⟩
        have := (h5 h).1; subst this; exact absurd h huh
      case p6 =>
        rintro ⟨i, h1, h2, h3, h4, h5, h6⟩
        refine ⟨i, Nat.le_succ_of_le h1, h2, h3, h4, fun h => ?_, h6⟩
        have := (h5 h).1; subst this; exact absurd h huh

theorem QOK.mono {t q p p'} (h : QOK t q p) (h1 : inQ p' = inQ p)
    (h2 : isFirst p' = true → isFirst p = true)
    (h3 : ∀ nd, ownNode p' = some nd → ownNode p = some nd) (h4 : Regs t q p') : QOK t q p' :=
  ⟨by rw [h1]; exact h.inq, fun h' => h.first (h2 h'), fun nd hnd => h.node nd (h3 nd hnd), h4⟩

theorem appendWait_q {s s' t} (h : appendWait s t = some s') : s'.q = s.q := by
  simp only [appendWait] at h
  split at h
  · exact absurd h (by simp)
  · split at h
    · exact absurd h (by simp)
    · cases h; cases s.waitTail <;> rfl

theorem removeWait_q {f s s' t} (h : removeWait f s t = some s') : s'.q = s.q := by
  simp only [removeWait] at h
  split at h
  · exact absurd h (by simp)
  · cases h
    rename_i prev _
    by_cases h1 : s.waitHead = some t <;> cases prev <;> simp only [h1, if_true, if_false] <;>
      split <;> rfl

theorem pollWait_q (s) : (pollWait s).2.q = s.q := by
  simp only [pollWait]
  split
  · rfl
  · simp only; split <;> rfl

/-- a poll that finds nothing, or (not removing) finds `v` -/
theorem qok_ret {t q c v} {p : Pc} (ho : QOK t q p) (h1 : inQ p = inQ (.p0 c)) (hr : isRem c = false)
    (h3 : ∀ nd, ownNode (.p0 c) = some nd → ownNode p = some nd)
    (hf : v = some t → q.joined[q.hi]? = some t ∧ inQ (.p0 c) = true) :
    QOK t q (ret t v c) ∧ ret t v c ≠ .abort := by
  cases c <;> rename_i k
  · cases v
    · exact ⟨ho.mono h1.symm (by simp [ret, isFirst]) h3 trivial, by simp [ret]⟩
    · exact ⟨ho.mono h1.symm (by simp [ret, isFirst]) h3 trivial, by simp [ret]⟩
  · simp only [ret]
    split
    · refine ⟨⟨?_, fun _ => (hf (by assumption)).1, by simp [ownNode], trivial⟩, by simp⟩
      rw [← ho.inq, h1]; simp [inQ]
    · exact ⟨ho.mono h1.symm (by simp [isFirst]) (by simp [ownNode]) trivial, by simp⟩
  · simp [isRem] at hr
  · cases v with
    | none =>
      cases k
      · exact ⟨ho.mono h1.symm (by simp [ret, relDone, isFirst]) (by simp [ret, relDone, ownNode]) trivial,
          by simp [ret, relDone]⟩
      · exact ⟨ho.mono h1.symm (by simp [ret, relDone, isFirst]) (by exact h3)
          trivial, by simp [ret, relDone]⟩
    | some u =>
      refine ⟨ho.mono h1.symm (by simp [ret, isFirst]) h3 ?_, by simp [ret]⟩
      simp only [ret, Regs]
      rintro rfl
      have := (hf rfl).2
      simp [inQ] at this

set_option maxHeartbeats 1000000 in
theorem qok_local {t s p s' p'} (h : Local t s p s' p') (g : Glob s.q) (ho : QOK t s.q p)
    (hph : OkPh t s (phase p)) :
    QStep t s.q s'.q ∧ QOK t s'.q p' ∧ (p' = .abort → (∃ nd, p = .w3 nd) ∨ p = .w9) := by
  have hr := ho.regs
  cases h
  case q0 k nd => exact ⟨.same, ho.mono rfl (by simp [isFirst]) (by simp [ownNode]) ⟨_, Nat.le_refl _, g.tail⟩, by simp⟩
  case q1 k nd tl =>
    obtain ⟨j, h1, h2⟩ := hr
    refine ⟨.same, ho.mono rfl (by simp [isFirst]) (by simp [ownNode]) ⟨j, h1, h2, ?_⟩, by simp⟩
    intro m hm; rw [← hm]; exact (g.link j tl h2).symm
  case q2retry => exact ⟨.same, ho.mono rfl (by simp [isFirst]) (by simp [ownNode]) trivial, by simp⟩
  case q2help k nd tl n ht =>
    obtain ⟨j, h1, h2, h3⟩ := hr
    exact ⟨.same, ho.mono rfl (by simp [isFirst]) (by simp [ownNode]) ⟨j, h1, h2, h3 _ rfl⟩, by simp⟩
  case q2link k nd tl ht =>
    obtain ⟨j, h1, h2, h3⟩ := hr
    exact ⟨.same, ho.mono rfl (by simp [isFirst]) (by simp [ownNode]) ⟨j, h1, h2⟩, by simp⟩
  case q3ok k nd tl n ht =>
    obtain ⟨j, h1, h2, h3⟩ := hr
    have : j = s.q.ti := nodup_idx g.nodup h2 (by rw [← ht]; exact g.tail)
    subst this
    exact ⟨.adv n h3, ⟨ho.inq, by simp [isFirst], ho.node, trivial⟩, by simp⟩
  case q3fail => exact ⟨.same, ho.mono rfl (by simp [isFirst]) (by simp [ownNode]) trivial, by simp⟩
  case q4ok k nd tl hn =>
    obtain ⟨j, h1, h2⟩ := hr
    obtain ⟨n1, n2, n3, n4⟩ := ho.node nd rfl
    have hj1 : s.q.chain[j + 1]? = none := by rw [← g.link j tl h2]; exact hn
    have hjt : j = s.q.ti := by
      have := lt_of_getElem? g.tail
      have := List.getElem?_eq_none_iff.1 hj1
      omega
    subst hjt
    have htq : t ∉ s.q.joined.drop s.q.hi := by
      rw [← ho.inq]; simp [inQ]
    have hlen := g.len
    have hq : s.q.hi ≤ s.q.joined.length := by
      have := lt_of_getElem? g.head; omega
    refine ⟨.link nd tl h2 hn n1 n2 n3 n4 htq, ⟨?_, by simp [isFirst], by simp [ownNode], ?_⟩, by simp⟩
    · have : t ∈ (s.q.joined ++ [t]).drop s.q.hi := by
        rw [List.drop_append_of_le_length hq]; simp
      exact ⟨fun _ => this, fun _ => rfl⟩
    · refine ⟨s.q.ti, Nat.le_refl _, get_append _ h2, ?_⟩
      have hlen2 : s.q.ti + 1 = s.q.chain.length := by
        have := lt_of_getElem? g.tail
        have := List.getElem?_eq_none_iff.1 hj1
        omega
      show (s.q.chain ++ [nd])[s.q.ti + 1]? = some nd
      rw [hlen2]; simp
  case q4fail => exact ⟨.same, ho.mono rfl (by simp [isFirst]) (by simp [ownNode]) trivial, by simp⟩
  case q5ok k nd tl ht =>
    obtain ⟨j, h1, h2, h3⟩ := hr
    have : j = s.q.ti := nodup_idx g.nodup h2 (by rw [← ht]; exact g.tail)
    subst this
    exact ⟨.adv nd h3, ⟨ho.inq, by simp [isFirst, isRem], by simp [ownNode], trivial⟩, by simp⟩
  case q5fail => exact ⟨.same, ho.mono rfl (by simp [isFirst, isRem]) (by simp [ownNode]) trivial, by simp⟩
  case p0 c =>
    exact ⟨.same, ho.mono rfl (by simp [isFirst]) (by simp [ownNode]) ⟨_, Nat.le_refl _, g.head⟩, by simp⟩
  case p1 c h =>
    obtain ⟨i, h1, h2⟩ := hr
    exact ⟨.same, ho.mono rfl (by simp [isFirst]) (by simp [ownNode])
      ⟨i, _, h1, Nat.le_trans h1 g.le, Nat.le_refl _, h2, g.tail⟩, by simp⟩
  case p2 c h tl =>
    obtain ⟨i, j, h1, h2, h3, h4, h5⟩ := hr
    have hn : s.next h = s.q.chain[i + 1]? := g.link i h h4
    refine ⟨.same, ho.mono rfl (by simp [isFirst]) (by simp [ownNode])
      ⟨i, j, h1, h2, h3, h4, h5, ?_, ?_, ?_⟩, by simp⟩
    · intro hnn
      rw [hn] at hnn
      have := lt_of_getElem? h5
      have := List.getElem?_eq_none_iff.1 hnn
      omega
    · intro m hm; rw [← hm]; exact hn.symm
    · intro hq hnn
      rw [hn] at hnn
      have hf : t ∈ s.q.joined.drop s.q.hi := ho.inq.1 hq
      have hlt : s.q.hi < s.q.joined.length := by
        rcases Nat.lt_or_ge s.q.hi s.q.joined.length with h' | h'
        · exact h'
        · rw [List.drop_eq_nil_of_le h'] at hf; cases hf
      have := g.len
      have := List.getElem?_eq_none_iff.1 hnn
      omega
  case p3retry => exact ⟨.same, ho.mono rfl (by simp [isFirst]) (by simp [ownNode]) trivial, by simp⟩
  case p3help =>
    rename_i c h tl n hh ht
    subst ht
    obtain ⟨i, j, h1, h2, h3, h4, h5, h6, h7, h8⟩ := hr
    have : i = j := nodup_idx g.nodup h4 h5
    subst this
    exact ⟨.same, ho.mono rfl (by simp [isFirst]) (by simp [ownNode]) ⟨i, h3, h4, h7 _ rfl⟩, by simp⟩
  case p3empty =>
    rename_i c h tl hh ht
    obtain ⟨i, j, h1, h2, h3, h4, h5, h6, h7, h8⟩ := hr
    have hrem : isRem c = false := by
      cases hc : isRem c with
      | false => rfl
      | true => exact absurd rfl (h8 (by cases c <;> simp_all [isRem, inQ]))
    obtain ⟨a, b⟩ := qok_ret (v := none) (c := c) ho rfl hrem (by simp [ownNode]) (by simp)
    exact ⟨.same, a, fun e => absurd e b⟩
  case p3some =>
    rename_i c h tl n hh ht
    obtain ⟨i, j, h1, h2, h3, h4, h5, h6, h7, h8⟩ := hr
    have hi : i = s.q.hi := nodup_idx g.nodup h4 (by rw [← hh]; exact g.head)
    subst hi
    have hij : s.q.hi ≠ j := by
      rintro rfl
      rw [h4] at h5; exact ht (Option.some.inj h5)
    refine ⟨.same, ho.mono rfl (by simp [isFirst]) (by simp [ownNode])
      ⟨s.q.hi, Nat.le_refl _, by omega, h4, h7 _ rfl, ?_⟩, by simp⟩
    intro hj
    refine ⟨rfl, ?_⟩
    show inQ (.p3 c h tl (some n)) = true
    rw [ho.inq, drop_cons_of_get hj]; simp
  case p3null =>
    rename_i c h tl hh ht
    obtain ⟨i, j, h1, h2, h3, h4, h5, h6, h7, h8⟩ := hr
    have := h6 rfl
    subst this
    rw [h4] at h5; exact absurd (Option.some.inj h5) ht
  case p4ok c tl n ht =>
    obtain ⟨j, h1, h2, h3⟩ := hr
    have : j = s.q.ti := nodup_idx g.nodup h2 (by rw [← ht]; exact g.tail)
    subst this
    exact ⟨.adv n h3, ⟨ho.inq, ho.first, ho.node, trivial⟩, by simp⟩
  case p4fail => exact ⟨.same, ho.mono rfl (by simp [isFirst]) (by simp [ownNode]) trivial, by simp⟩
  case p5keep =>
    rename_i c h n hrem
    obtain ⟨i, h1, h2, h3, h4, h5⟩ := hr
    have hv : s.value n = s.q.joined[i]? := g.val i n h4
    obtain ⟨a, b⟩ := qok_ret (v := s.value n) (c := c) ho rfl hrem (by simp [ownNode]) (by
      intro he
      rw [hv] at he
      obtain ⟨e1, e2⟩ := h5 he
      subst e1
      exact ⟨he, e2⟩)
    exact ⟨.same, a, fun e => absurd e b⟩
  case p5rem =>
    rename_i c h n hrem
    obtain ⟨i, h1, h2, h3, h4, h5⟩ := hr
    exact ⟨.same, ho.mono rfl (by simp [isFirst]) (by simp [ownNode])
      ⟨i, h1, h2, h3, h4, h5, g.val i n h4, hrem⟩, by simp⟩
  case p6ok =>
    rename_i c h n v hh
    obtain ⟨i, h1, h2, h3, h4, h5, h6, h7⟩ := hr
    have hi : i = s.q.hi := nodup_idx g.nodup h3 (by rw [← hh]; exact g.head)
    subst hi
    have hf := ho.first (by simpa [isFirst] using h7)
    rw [hf] at h6
    cases c <;> simp [isRem] at h7
    rename_i k
    refine ⟨.rem n h4 h2 hf, ?_, ?_⟩
    · simp only [ret, h6, if_true]
      refine ⟨?_, by simp [isFirst], by simp [ownNode], trivial⟩
      have hq := g.qnodup
      rw [drop_cons_of_get hf] at hq
      have := (List.nodup_cons.1 hq).1
      show inQ (.s5 k) = true ↔ t ∈ s.q.joined.drop (s.q.hi + 1)
      simp [inQ]; exact this
    · simp [ret, h6]
  case p6fail => exact ⟨.same, ho.mono rfl (by simp [isFirst]) (by simp [ownNode]) trivial, by simp⟩
  case s1user =>
    refine ⟨.alloc, ⟨ho.inq, by simp [isFirst], ?_, trivial⟩, by simp⟩
    intro nd hnd
    simp [ownNode] at hnd; subst hnd
    refine ⟨fun hm => Nat.lt_irrefl _ (g.fresh _ hm), ?_, Nat.lt_succ_self _, ?_⟩
    · exact set_self _ _ _
    · exact set_self _ _ _
  case w1 =>
    refine ⟨.alloc, ⟨ho.inq, by simp [isFirst], ?_, trivial⟩, by simp⟩
    intro nd hnd
    simp [ownNode] at hnd; subst hnd
    refine ⟨fun hm => Nat.lt_irrefl _ (g.fresh _ hm), ?_, Nat.lt_succ_self _, ?_⟩
    · exact set_self _ _ _
    · exact set_self _ _ _
  case r0bug => simp [phase, OkPh] at hph; exact absurd hph.1 (by assumption)
  case w3ok hw =>
    rw [appendWait_q hw]
    exact ⟨.same, ho.mono rfl (by simp [isFirst]) (by simp [ownNode]) trivial, by simp⟩
  case w9still hw =>
    rw [removeWait_q hw]
    exact ⟨.same, ho.mono rfl (by simp [isFirst]) (by simp [ownNode]) trivial, by simp⟩
  case n1none hw =>
    rw [pollWait_q]
    exact ⟨.same, ho.mono rfl (by simp [isFirst]) (by simp [ownNode]) trivial, by simp⟩
  case n1some hw =>
    rw [pollWait_q]
    exact ⟨.same, ho.mono rfl (by simp [isFirst]) (by simp [ownNode]) trivial, by simp⟩
  case n4 all u =>
    cases all <;> exact ⟨.same, ho.mono rfl (by simp [isFirst]) (by simp [ownNode]) trivial, by simp⟩
  case a1 k => cases k <;> exact ⟨.same, ho.mono rfl (by simp [isFirst, acqDone]) (by simp [ownNode, acqDone]) trivial, by simp [acqDone]⟩
  case a3 k => cases k <;> exact ⟨.same, ho.mono rfl (by simp [isFirst, acqDone]) (by simp [ownNode, acqDone]) trivial, by simp [acqDone]⟩
  case s6 k => cases k <;> exact ⟨.same, ho.mono rfl (by simp [isFirst, acqDone]) (by simp [ownNode, acqDone]) trivial, by simp [acqDone]⟩
  case r1last k _ => cases k <;> exact ⟨.same, ho.mono rfl (by simp [isFirst]) (by simp [ownNode]) trivial, by simp⟩
  case r1more k _ => cases k <;> exact ⟨.same, ho.mono rfl (by simp [isFirst, relDone]) (by simp [ownNode, relDone, AK.node]) trivial, by simp [relDone]⟩
  case r5 k _ => cases k <;> exact ⟨.same, ho.mono rfl (by simp [isFirst, relDone]) (by simp [ownNode, relDone, AK.node]) trivial, by simp [relDone]⟩
  case r3 => exact ⟨.same, ho.mono rfl (by simp [isFirst]) (by simp [ownNode]) hr, by simp⟩
  case r4 => exact ⟨.same, ho.mono rfl (by simp [isFirst]) (by simp [ownNode]) hr, by simp⟩
  case s2ok => 
    refine ⟨.same, ⟨ho.inq, fun _ => ho.first rfl, by simp [ownNode], trivial⟩, by simp⟩
  all_goals exact ⟨.same, ho.mono rfl (by simp [isFirst, isRem]) (by simp [ownNode, AK.node]) trivial, by simp⟩

end Avian.Monitor
