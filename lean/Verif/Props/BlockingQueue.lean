import Verif.Lib.BlockingQueue

/-
Property C62: the blocking queue is a bounded queue, and nobody sleeps who could go on.
-/
namespace Avian.BlockingQueue

variable {V : Type} [DecidableEq V]

/-! ### Specification -/

/-- The results that an operation may have on a bounded queue with content `q`, and the content
afterwards. -/
inductive Sem (capacity : Nat) : Op V → Res V → List V → List V → Prop where
  | offered {q v} : q.length < capacity → Sem capacity (.offer v) (.bool true) q (q ++ [v])
  | full {q v} : q.length = capacity → Sem capacity (.offer v) (.bool false) q q
  | offeredWait {q v timed} : q.length < capacity → Sem capacity (.offerWait v timed) (.bool true) q (q ++ [v])
  | fullWait {q v} : q.length = capacity → Sem capacity (.offerWait v true) (.bool false) q q
  | put {q v} : q.length < capacity → Sem capacity (.put v) .unit q (q ++ [v])
  | addAll {q vs} : vs ≠ [] → q.length + vs.length ≤ capacity → Sem capacity (.addAll vs) (.bool true) q (q ++ vs)
  | addNone {q} : Sem capacity (.addAll []) (.bool false) q q
  | noSpace {q vs} : capacity < q.length + vs.length → Sem capacity (.addAll vs) .noSpace q q
  | peek {q v} : Sem capacity .peek (.elem (some v)) (v :: q) (v :: q)
  | peekEmpty : Sem capacity .peek (.elem none) [] []
  | poll {q v} : Sem capacity .poll (.elem (some v)) (v :: q) q
  | pollEmpty : Sem capacity .poll (.elem none) [] []
  | pollWait {q v timed} : Sem capacity (.pollWait timed) (.elem (some v)) (v :: q) q
  | pollWaitEmpty : Sem capacity (.pollWait true) (.elem none) [] []
  | take {q v} : Sem capacity .take (.elem (some v)) (v :: q) q
  | drained {vs q : List V} {max : Int} : vs.length = max ∨ (vs.length ≤ max ∧ q = []) ∨ (max < 0 ∧ vs = []) →
      Sem capacity (.drainTo max) (.elems vs) (vs ++ q) q
  | remainingCapacity {q} : Sem capacity .remainingCapacity (.int (capacity - q.length)) q q
  | size {q} : Sem capacity .size (.int q.length) q q
  | removed {a b : List V} {v : V} : v ∉ a → Sem capacity (.remove v) (.bool true) (a ++ v :: b) (a ++ b)
  | absent {q v} : v ∉ q → Sem capacity (.remove v) (.bool false) q q
  | removeNone {q} : Sem capacity (.removeAll []) (.bool false) q q
  | removeMore {q q' q'' v vs b c} : Sem capacity (.remove v) (.bool b) q q' →
      Sem capacity (.removeAll vs) (.bool c) q' q'' → Sem capacity (.removeAll (v :: vs)) (.bool (b || c)) q q''
  | clear {q} : Sem capacity .clear .unit q []

/-- The content of the queue according to the operations that returned, in the order of their
returns. -/
inductive Content (capacity : Nat) : List (Tid × Label V) → List V → Prop where
  | nil : Content capacity [] []
  | ret {ls q q' t op r} : Content capacity ls q → Sem capacity op r q q' →
      Content capacity (ls ++ [(t, .ret op r)]) q'
  | other {ls q t l} : Content capacity ls q → (∀ op r, l ≠ .ret op r) → Content capacity (ls ++ [(t, l)]) q

/-- A thread calls and returns in turn; between them it may wait. -/
inductive Turns (t : Tid) : List (Tid × Label V) → Option (Op V) → Prop where
  | nil : Turns t [] none
  | skip {ls p u l} : u ≠ t → Turns t ls p → Turns t (ls ++ [(u, l)]) p
  | call {ls op} : Turns t ls none → Turns t (ls ++ [(t, .call op)]) (some op)
  | wait {ls op} : Turns t ls (some op) → Turns t (ls ++ [(t, .wait op)]) (some op)
  | timeout {ls op} : Turns t ls (some op) → Turns t (ls ++ [(t, .timeout op)]) (some op)
  | ret {ls op r} : Turns t ls (some op) → Turns t (ls ++ [(t, .ret op r)]) none
  | interrupted {ls op} : Turns t ls (some op) → Turns t (ls ++ [(t, .interrupted op)]) none

/-- The operation could go on. -/
def CanGo (capacity : Nat) (q : List V) : Op V → Prop
  | .offerWait _ _ | .put _ => q.length < capacity
  | .pollWait _ | .take => q ≠ []
  | _ => True

/-! ### One stay -/

omit [DecidableEq V]

private theorem pass_full (capacity : Nat) (q : List V) (timed over : Bool) :
    passNotFull capacity q timed over = true ↔ q.length < capacity ∨ timed = true ∧ over = true := by
  unfold passNotFull
  split
  · simp; omega
  · simp; omega

private theorem pass_empty (q : List V) (timed over : Bool) :
    passNotEmpty q timed over = true ↔ q ≠ [] ∨ timed = true ∧ over = true := by
  unfold passNotEmpty
  cases q <;> simp

private theorem drain_spec (q : List V) : ∀ n, (drain n q).1 ++ (drain n q).2 = q ∧
    ((drain n q).1.length = n ∨ (drain n q).1.length ≤ n ∧ (drain n q).2 = []) := by
  induction q with
  | nil => intro n; cases n <;> simp [drain]
  | cons v q ih =>
    intro n
    cases n with
    | zero => simp [drain]
    | succ n =>
      obtain ⟨h1, h2⟩ := ih n
      refine ⟨by simp [drain, h1], ?_⟩
      rcases h2 with h2 | ⟨h2, h3⟩
      · left; simp [drain, h2]
      · right; exact ⟨by simp [drain]; omega, by simp [drain, h3]⟩

variable [DecidableEq V]

private theorem remove_sem (capacity : Nat) (q : List V) (v : V) :
    Sem capacity (.remove v) (.bool (decide (v ∈ q))) q (q.erase v) := by
  by_cases h : v ∈ q
  · obtain ⟨a, b, h1, h2, h3⟩ := List.exists_erase_eq h
    rw [h3]
    have : Sem capacity (.remove v) (.bool true) (a ++ v :: b) (a ++ b) := .removed h1
    rw [← h2] at this
    simpa [h] using this
  · rw [List.erase_of_not_mem h]
    simpa [h] using Sem.absent (capacity := capacity) h

private theorem removeAll_sem (capacity : Nat) : ∀ (vs q : List V),
    Sem capacity (.removeAll vs) (.bool (removeAll vs q).1) q (removeAll vs q).2 := by
  intro vs
  induction vs with
  | nil => intro q; exact .removeNone
  | cons v vs ih => intro q; exact .removeMore (remove_sem capacity q v) (ih _)

theorem stay_sem {capacity : Nat} {q q' : List V} {over : Bool} {op : Op V} {r : Res V} {n : Bool}
    (hq : q.length ≤ capacity) (h : stay capacity q over op = .done r q' n) : Sem capacity op r q q' := by
  have hoffer : ∀ v timed, (timed = true ∨ q.length < capacity) → offer capacity q v = .done r q' n →
      Sem capacity (.offer v) r q q' ∧ Sem capacity (.offerWait v timed) r q q' := by
    intro v timed ht h
    unfold offer at h
    split at h <;> cases h
    · exact ⟨.offered (by omega), .offeredWait (by omega)⟩
    · rcases ht with rfl | ht
      · exact ⟨.full (by omega), .fullWait (by omega)⟩
      · omega
  have hpoll : ∀ timed, (timed = true ∨ q ≠ []) → poll q = .done r q' n →
      Sem capacity .poll r q q' ∧ Sem capacity (.pollWait timed) r q q' := by
    intro timed ht h
    unfold poll at h
    cases q with
    | nil =>
      rcases ht with rfl | ht
      · cases h; exact ⟨.pollEmpty, .pollWaitEmpty⟩
      · exact absurd rfl ht
    | cons v q => cases h; exact ⟨.poll, .pollWait⟩
  cases op with
  | offer v => exact (hoffer v true (.inl rfl) h).1
  | offerWait v timed =>
    simp only [stay] at h
    split at h
    · rename_i hp
      refine (hoffer v timed ?_ h).2
      rcases (pass_full ..).1 hp with hp | hp
      · exact .inr hp
      · exact .inl hp.1
    · cases h
  | put v =>
    simp only [stay] at h
    split at h
    · rename_i hp
      cases h
      rcases (pass_full ..).1 hp with hp | hp
      · exact .put hp
      · simp at hp
    · cases h
  | addAll vs =>
    simp only [stay] at h
    split at h
    · cases h; exact .noSpace (by omega)
    · split at h
      · rename_i hv
        cases vs with
        | nil => cases h; exact .addNone
        | cons _ _ => simp at hv
      · rename_i hv
        cases h
        exact .addAll (by simpa using hv) (by omega)
  | peek =>
    cases q <;> cases h
    · exact .peekEmpty
    · exact .peek
  | poll => exact (hpoll true (.inl rfl) h).1
  | pollWait timed =>
    simp only [stay] at h
    split at h
    · rename_i hp
      refine (hpoll timed ?_ h).2
      rcases (pass_empty ..).1 hp with hp | hp
      · exact .inr hp
      · exact .inl hp.1
    · cases h
  | take =>
    cases q with
    | nil => cases h
    | cons v q => cases h; exact .take
  | drainTo max =>
    cases h
    obtain ⟨h1, h2⟩ := drain_spec q max.toNat
    have : Sem capacity (.drainTo max) (.elems (drain max.toNat q).1) ((drain max.toNat q).1 ++ (drain max.toNat q).2)
        (drain max.toNat q).2 := by
      refine .drained ?_
      by_cases hm : 0 ≤ max
      · rcases h2 with h2 | ⟨h2, h3⟩
        · left; omega
        · right; left; exact ⟨by omega, h3⟩
      · right; right
        refine ⟨by omega, List.eq_nil_of_length_eq_zero ?_⟩
        have : max.toNat = 0 := by omega
        omega
    rwa [h1] at this
  | remainingCapacity => cases h; exact .remainingCapacity
  | size => cases h; exact .size
  | remove v =>
    have hs := remove_sem capacity q v
    simp only [stay] at h
    split at h
    · rename_i hv; cases h; simpa [hv] using hs
    · rename_i hv; cases h
      rw [List.erase_of_not_mem hv] at hs
      simpa [hv] using hs
  | removeAll vs => cases h; exact removeAll_sem capacity vs q
  | clear => cases h; exact .clear

theorem sem_bound {capacity : Nat} {q q' : List V} {op : Op V} {r : Res V} (h : Sem capacity op r q q')
    (hq : q.length ≤ capacity) : q'.length ≤ capacity := by
  induction h with
  | removeMore _ _ ih1 ih2 => exact ih2 (ih1 hq)
  | _ => simp_all <;> omega

/-- C62: the queue never holds more elements than its capacity, and in the order of their returns the
operations are those of a bounded first-in first-out queue: no element is lost, delivered twice or out
of order; `offer` fails only if it is full, `poll` only if it is empty, and `put` and `take` never
fail. -/
theorem bounded_fifo {capacity : Nat} {ls : List (Tid × Label V)} {s : Sys V} (h : Exec capacity ls s) :
    Content capacity ls s.q ∧ s.q.length ≤ capacity := by
  induction h with
  | init => exact ⟨.nil, Nat.zero_le _⟩
  | call t op _ _ ih => exact ⟨.other ih.1 (by simp), ih.2⟩
  | wait t op over _ _ _ ih => exact ⟨.other ih.1 (by simp), ih.2⟩
  | ret t op over r q notify _ _ hs ih =>
    have := stay_sem ih.2 hs
    exact ⟨.ret ih.1 this, sem_bound this ih.2⟩
  | interrupt t op _ _ ih => exact ⟨.other ih.1 (by simp), ih.2⟩
  | timeout t op _ _ _ ih => exact ⟨.other ih.1 (by simp), ih.2⟩

def opOf : Pc V → Option (Op V)
  | .idle => none
  | .ready op => some op
  | .waiting op => some op

omit [DecidableEq V] in
theorem opOf_wake (pc : Tid → Pc V) (t : Tid) : opOf (wake pc t) = opOf (pc t) := by
  unfold wake; cases pc t <;> rfl

/-- C62: each return belongs to the call of the same operation by the same thread. -/
theorem calls_return {capacity : Nat} {ls : List (Tid × Label V)} {s : Sys V} (h : Exec capacity ls s) (u : Tid) :
    Turns u ls (opOf (s.pc u)) := by
  induction h with
  | init => exact .nil
  | call t op _ hp ih =>
    by_cases hu : u = t
    · subst hu
      rw [hp] at ih
      simp only [set, if_true]
      exact .call ih
    · simp only [set, if_neg hu]
      exact .skip (Ne.symm hu) ih
  | wait t op over _ hp _ ih =>
    by_cases hu : u = t
    · subst hu
      rw [hp] at ih
      simp only [set, if_true]
      exact .wait ih
    · simp only [set, if_neg hu]
      exact .skip (Ne.symm hu) ih
  | ret t op over r q notify _ hp _ ih =>
    by_cases hu : u = t
    · subst hu
      rw [hp] at ih
      simp only [set, if_true]
      exact .ret ih
    · simp only [set, if_neg hu]
      refine .skip (Ne.symm hu) ?_
      split
      · rw [opOf_wake]; exact ih
      · exact ih
  | interrupt t op _ hp ih =>
    by_cases hu : u = t
    · subst hu
      rw [hp] at ih
      simp only [set, if_true]
      exact .interrupted ih
    · simp only [set, if_neg hu]
      exact .skip (Ne.symm hu) ih
  | timeout t op _ hp _ ih =>
    by_cases hu : u = t
    · subst hu
      rw [hp] at ih
      simp only [set, if_true]
      exact .timeout ih
    · simp only [set, if_neg hu]
      exact .skip (Ne.symm hu) ih

/-! ### Waiting -/

/-- The operations that change the content without waking anybody. -/
def Silent (op : Op V) : Prop := (∃ vs, op = .addAll vs) ∨ op = .clear

theorem drain_nil {n : Nat} {q : List V} (h : (drain n q).1.isEmpty = true) : (drain n q).2 = q := by
  obtain ⟨h1, _⟩ := drain_spec q n
  simp only [List.isEmpty_iff] at h
  rw [h] at h1
  exact h1

theorem removeAll_same : ∀ (vs q : List V), (removeAll vs q).1 = false → (removeAll vs q).2 = q := by
  intro vs
  induction vs with
  | nil => intro q _; rfl
  | cons v vs ih =>
    intro q h
    simp only [removeAll, Bool.or_eq_false_iff, decide_eq_false_iff_not] at h ⊢
    rw [List.erase_of_not_mem h.1] at h ⊢
    exact ih q h.2

/-- Without a notification the content is the same, but for the silent operations. -/
theorem unnotified {capacity : Nat} {q q' : List V} {over : Bool} {op : Op V} {r : Res V}
    (h : stay capacity q over op = .done r q' false) (hs : ¬ Silent op) : q' = q := by
  have hoffer : ∀ v, offer capacity q v = .done r q' false → q' = q := by
    intro v h
    unfold offer at h
    split at h <;> cases h
    rfl
  have hpoll : poll q = .done r q' false → q' = q := by
    intro h
    unfold poll at h
    cases q <;> cases h
    rfl
  cases op with
  | offer v => exact hoffer v h
  | offerWait v timed =>
    simp only [stay] at h
    split at h
    · exact hoffer v h
    · cases h
  | put v =>
    simp only [stay] at h
    split at h <;> cases h
  | addAll vs => exact absurd (.inl ⟨vs, rfl⟩) hs
  | peek => cases h; rfl
  | poll => exact hpoll h
  | pollWait timed =>
    simp only [stay] at h
    split at h
    · exact hpoll h
    · cases h
  | take =>
    cases q <;> cases h
  | drainTo max =>
    simp only [stay, Stay.done.injEq, Bool.not_eq_false'] at h
    obtain ⟨_, rfl, h3⟩ := h
    exact drain_nil h3
  | remainingCapacity => cases h; rfl
  | size => cases h; rfl
  | remove v =>
    simp only [stay] at h
    split at h <;> cases h
    rfl
  | removeAll vs =>
    simp only [stay, Stay.done.injEq] at h
    obtain ⟨_, rfl, h3⟩ := h
    exact removeAll_same vs q h3
  | clear => exact absurd (.inr rfl) hs

/-- A thread begins to wait only if it cannot go on. -/
theorem wait_blocked {capacity : Nat} {q : List V} {over : Bool} {op : Op V}
    (h : stay capacity q over op = .wait) : ¬ CanGo capacity q op := by
  have hoffer : ∀ v, offer capacity q v ≠ .wait := by
    intro v h; unfold offer at h; split at h <;> cases h
  have hpoll : poll q ≠ .wait := by
    intro h; unfold poll at h; cases q <;> cases h
  cases op with
  | offer v => exact absurd h (hoffer v)
  | offerWait v timed =>
    simp only [stay] at h
    split at h
    · exact absurd h (hoffer v)
    · rename_i hp
      exact fun hg => hp ((pass_full ..).2 (.inl hg))
  | put v =>
    simp only [stay] at h
    split at h
    · cases h
    · rename_i hp
      exact fun hg => hp ((pass_full ..).2 (.inl hg))
  | addAll vs =>
    simp only [stay] at h
    split at h
    · cases h
    · split at h <;> cases h
  | peek => cases h
  | poll => exact absurd h hpoll
  | pollWait timed =>
    simp only [stay] at h
    split at h
    · exact absurd h hpoll
    · rename_i hp
      exact fun hg => hp ((pass_empty ..).2 (.inl hg))
  | take =>
    cases q with
    | nil => simp [CanGo]
    | cons v q => cases h
  | drainTo max => cases h
  | remainingCapacity => cases h
  | size => cases h
  | remove v =>
    simp only [stay] at h
    split at h <;> cases h
  | removeAll vs => cases h
  | clear => cases h

/-- Waits for an element. -/
def Op.taking : Op V → Bool
  | .pollWait _ | .take => true
  | _ => false

/-- Which operations a waiting thread may be in. -/
theorem waiting_kind {capacity : Nat} {q : List V} {over : Bool} {op : Op V}
    (h : stay capacity q over op = .wait) : op.taking = true ∨ (∃ v timed, op = .offerWait v timed) ∨ ∃ v, op = .put v := by
  cases op with
  | offer v => simp only [stay, offer] at h; split at h <;> cases h
  | offerWait v timed => exact .inr (.inl ⟨v, timed, rfl⟩)
  | put v => exact .inr (.inr ⟨v, rfl⟩)
  | addAll vs =>
    simp only [stay] at h
    split at h
    · cases h
    · split at h <;> cases h
  | peek => cases h
  | poll => simp only [stay, poll] at h; cases q <;> cases h
  | pollWait timed => exact .inl rfl
  | take => exact .inl rfl
  | drainTo max => cases h
  | remainingCapacity => cases h
  | size => cases h
  | remove v =>
    simp only [stay] at h
    split at h <;> cases h
  | removeAll vs => cases h
  | clear => cases h

private theorem called {capacity : Nat} {ls : List (Tid × Label V)} {s : Sys V} (h : Exec capacity ls s) {t : Tid}
    {op : Op V} (ht : opOf (s.pc t) = some op) : ∃ u, (u, Label.call op) ∈ ls := by
  have := calls_return h t
  rw [ht] at this
  clear ht h
  generalize ho : some op = o at this
  induction this with
  | nil => cases ho
  | skip _ _ ih => obtain ⟨u, hu⟩ := ih ho; exact ⟨u, List.mem_append_left _ hu⟩
  | call _ _ => cases ho; exact ⟨t, by simp⟩
  | wait _ ih => obtain ⟨u, hu⟩ := ih ho; exact ⟨u, List.mem_append_left _ hu⟩
  | timeout _ ih => obtain ⟨u, hu⟩ := ih ho; exact ⟨u, List.mem_append_left _ hu⟩
  | ret _ _ => cases ho
  | interrupted _ _ => cases ho

/-- The general invariant: `P` tells which waiting operations are of interest, `safe` that no operation
that may return without a notification makes them possible. -/
private theorem sleepers {capacity : Nat} (P : Op V → Prop) {ls : List (Tid × Label V)} {s : Sys V}
    (h : Exec capacity ls s)
    (safe : ∀ op, (∃ u, (u, Label.call op) ∈ ls) → Silent op → ∀ q over r q' w, P w →
      stay capacity q over op = .done r q' false → ¬ CanGo capacity q w → ¬ CanGo capacity q' w) :
    ∀ t op, P op → s.pc t = .waiting op → ¬ CanGo capacity s.q op := by
  induction h with
  | init => intro t op _ h; cases h
  | call t op _ hp ih =>
    have ih := ih fun op ⟨u, hu⟩ => safe op ⟨u, List.mem_append_left _ hu⟩
    intro u w hw hu
    by_cases hut : u = t
    · subst hut; simp [set] at hu
    · simp only [set, if_neg hut] at hu; exact ih u w hw hu
  | wait t op over _ hp hs ih =>
    have ih := ih fun op ⟨u, hu⟩ => safe op ⟨u, List.mem_append_left _ hu⟩
    intro u w hw hu
    by_cases hut : u = t
    · subst hut
      simp only [set, if_true, Pc.waiting.injEq] at hu
      subst hu
      exact wait_blocked hs
    · simp only [set, if_neg hut] at hu; exact ih u w hw hu
  | ret t op over r q notify he hp hs ih =>
    have ih := ih fun op ⟨u, hu⟩ => safe op ⟨u, List.mem_append_left _ hu⟩
    intro u w hw hu
    by_cases hut : u = t
    · subst hut; simp [set] at hu
    · simp only [set, if_neg hut] at hu
      cases notify with
      | true =>
        simp only [if_true, wake] at hu
        split at hu
        · cases hu
        · rename_i hne
          exact absurd hu (hne w)
      | false =>
        simp only [Bool.false_eq_true, if_false] at hu
        have hb := ih u w hw hu
        by_cases hsil : Silent op
        · obtain ⟨v, hv⟩ := called he (t := t) (op := op) (by rw [hp]; rfl)
          exact safe op ⟨v, List.mem_append_left _ hv⟩ hsil _ over r q w hw hs hb
        · rw [unnotified hs hsil]; exact hb
  | interrupt t op _ hp ih =>
    have ih := ih fun op ⟨u, hu⟩ => safe op ⟨u, List.mem_append_left _ hu⟩
    intro u w hw hu
    by_cases hut : u = t
    · subst hut; simp [set] at hu
    · simp only [set, if_neg hut] at hu; exact ih u w hw hu
  | timeout t op _ hp _ ih =>
    have ih := ih fun op ⟨u, hu⟩ => safe op ⟨u, List.mem_append_left _ hu⟩
    intro u w hw hu
    by_cases hut : u = t
    · subst hut; simp [set] at hu
    · simp only [set, if_neg hut] at hu; exact ih u w hw hu

/-- C62: as long as `addAll` is not called, nobody waits for an element while there is one. -/
theorem takers_awake_partial {capacity : Nat} {ls : List (Tid × Label V)} {s : Sys V} (h : Exec capacity ls s)
    (hno : ∀ u vs, (u, Label.call (.addAll vs)) ∉ ls) (t : Tid) (op : Op V) (ht : op.taking = true)
    (hw : s.pc t = .waiting op) : s.q = [] := by
  have := sleepers (fun op => op.taking = true) h ?_ t op ht hw
  · cases op <;> simp_all [Op.taking, CanGo]
  · rintro op' ⟨u, hu⟩ hsil q over r q' w hw' hst hb
    rcases hsil with ⟨vs, rfl⟩ | rfl
    · exact absurd hu (hno u vs)
    · cases hst
      cases w <;> simp_all [Op.taking, CanGo]

/-- C62: as long as `clear` is not called, nobody waits for room while there is some. -/
theorem putters_awake_partial {capacity : Nat} {ls : List (Tid × Label V)} {s : Sys V} (h : Exec capacity ls s)
    (hno : ∀ u, (u, Label.call .clear) ∉ ls) (t : Tid) (op : Op V) (ht : op.taking = false)
    (hw : s.pc t = .waiting op) : s.q.length = capacity := by
  have hle := (bounded_fifo h).2
  have := sleepers (fun op => op.taking = false) h ?_ t op ht hw
  · cases op <;> simp_all [Op.taking, CanGo] <;> omega
  · rintro op' ⟨u, hu⟩ hsil q over r q' w hw' hst hb
    rcases hsil with ⟨vs, rfl⟩ | rfl
    · have hlen : q.length ≤ q'.length := by
        simp only [stay] at hst
        split at hst
        · cases hst; exact Nat.le_refl _
        · split at hst <;> cases hst
          · exact Nat.le_refl _
          · simp
      cases w <;> simp_all [Op.taking, CanGo] <;> omega
    · exact absurd hu (hno u)

/-- C62: a thread that wants the monitor and can go on returns in its next stay, whatever the clock
says. -/
theorem ready_returns {capacity : Nat} {q : List V} (op : Op V) (h : CanGo capacity q op) (over : Bool) :
    ∃ r q' n, stay capacity q over op = .done r q' n := by
  cases hst : stay capacity q over op with
  | wait => exact absurd h (wait_blocked hst)
  | done r q' n => exact ⟨r, q', n, rfl⟩

/-- C62: only an operation called with a time limit times out. -/
theorem timeouts_limited {capacity : Nat} {ls : List (Tid × Label V)} {s : Sys V} (h : Exec capacity ls s) :
    ∀ t op, (t, Label.timeout op) ∈ ls → (∃ v, op = .offerWait v true) ∨ op = .pollWait true := by
  induction h with
  | init => intro t op hm; simp at hm
  | timeout u op' _ _ hl ih =>
    intro t op hm
    rcases List.mem_append.1 hm with h | h
    · exact ih t op h
    · simp only [List.mem_singleton, Prod.mk.injEq, Label.timeout.injEq] at h
      obtain ⟨-, rfl⟩ := h
      unfold Op.limited at hl
      split at hl
      · subst hl; exact Or.inl ⟨_, rfl⟩
      · subst hl; exact Or.inr rfl
      · cases hl
  | _ =>
    rename_i ih
    intro t op hm
    rcases List.mem_append.1 hm with h | h
    · exact ih t op h
    · simp at h

example : ∃ s : Sys Nat, Exec 1 [(0, .call (.pollWait true)), (0, .wait (.pollWait true)),
    (0, .timeout (.pollWait true)), (0, .ret (.pollWait true) (.elem none))] s :=
  ⟨_, .ret 0 (.pollWait true) true (.elem none) [] false (.timeout 0 (.pollWait true)
    (.wait 0 (.pollWait true) false (.call 0 (.pollWait true) .init rfl) rfl rfl) rfl rfl) rfl rfl⟩

/-! ### Wake-ups that are lost -/

/-- C62 (limit of the code): `addAll` wakes nobody: a thread may wait in `take` although the queue has
an element. -/
theorem addAll_wakes_nobody : ∃ (ls : List (Tid × Label Nat)) (s : Sys Nat), Exec 10 ls s ∧
    s.pc 0 = .waiting .take ∧ s.q = [7] ∧ ∀ t, t ≠ 0 → s.pc t = .idle := by
  refine ⟨_, _, .ret 1 (.addAll [7]) false (.bool true) [7] false (.call 1 (.addAll [7])
    (.wait 0 .take false (.call 0 .take .init rfl) rfl rfl) rfl) rfl rfl, rfl, rfl, ?_⟩
  intro t ht
  simp only [set, Bool.false_eq_true, if_false, init]
  split
  · rfl
  · simp [ht]

/-- C62 (limit of the code): nor does `clear`: a thread may wait in `put` although the queue is
empty. -/
theorem clear_wakes_nobody : ∃ (ls : List (Tid × Label Nat)) (s : Sys Nat), Exec 1 ls s ∧
    s.pc 0 = .waiting (.put 8) ∧ s.q = [] ∧ ∀ t, t ≠ 0 → s.pc t = .idle := by
  refine ⟨_, _, .ret 1 .clear false .unit [] false (.call 1 .clear
    (.wait 0 (.put 8) false (.call 0 (.put 8) (.ret 0 (.put 7) false .unit [7] true
      (.call 0 (.put 7) .init rfl) rfl rfl) rfl) rfl rfl) rfl) rfl rfl, rfl, rfl, ?_⟩
  intro t ht
  simp [set, init, wake, ht]

/-- A taker waits, a putter wakes it, and it returns the element. -/
example : ∃ (s : Sys Nat), Exec 1 [(0, .call .take), (0, .wait .take), (1, .call (.put 5)), (1, .ret (.put 5) .unit),
    (0, .ret .take (.elem (some 5)))] s ∧ s.q = [] :=
  ⟨_, .ret 0 .take false (.elem (some 5)) [] true (.ret 1 (.put 5) false .unit [5] true (.call 1 (.put 5)
    (.wait 0 .take false (.call 0 .take .init rfl) rfl rfl) rfl) rfl rfl) rfl rfl, rfl⟩

end Avian.BlockingQueue
