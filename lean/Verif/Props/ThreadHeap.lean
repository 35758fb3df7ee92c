import Verif.Heap.ThreadHeap

/-
C80: new objects are empty and do not overlap.
-/
namespace Avian.ThreadHeap

/-- Two parts have no word in common. -/
def Apart (p q : Part) : Prop := ∀ i j, i < p.words → j < q.words → ¬ (p.chunk = q.chunk ∧ p.start + i = q.start + j)

/-- A part that lies where the thread has allocated. -/
def Used (s : T) (p : Part) : Prop :=
  match p.chunk with
  | .default => p.start + p.words ≤ (if s.heap = some .default then s.index else heapSize)
  | .pool k => k < s.requests ∧ p.start + p.words ≤ (if s.heap = some (.pool k) then s.index else heapSize)
  | .backup => p.start + p.words ≤ s.backupIndex
  | .fixed k => k < s.requests

/-- Memory that will be handed out is zero. -/
structure Clean (s : T) : Prop where
  index : s.index ≤ heapSize
  heap : ∀ c, s.heap = some c → (∀ i, s.index ≤ i → i < heapSize → s.mem c i = 0) ∧
    (c = .default ∨ ∃ k, c = .pool k ∧ k < s.requests)
  backup : ∀ i, s.backupIndex ≤ i → i < backupSize → s.mem .backup i = 0
  flag : s.backupFlag = false → s.backupIndex = 0
  size : s.backupIndex ≤ backupSize

structure Inv (s : T) : Prop where
  clean : Clean s
  some : s.heap ≠ none
  used : ∀ p ∈ s.objs, Used s p
  apart : s.objs.Pairwise Apart

theorem clear_in (mem : Chunk → Nat → Nat) (c : Chunk) (start words i : Nat) (h : start ≤ i) (h' : i < start + words) :
    clear mem c start words c i = 0 := by
  unfold clear; rw [if_pos ⟨rfl, h, h'⟩]

theorem clear_other (mem : Chunk → Nat → Nat) (c d : Chunk) (start words i : Nat) (h : d ≠ c) : clear mem c start words d i = mem d i := by
  unfold clear; rw [if_neg (fun h' => h h'.1)]

theorem clear_zero (mem : Chunk → Nat → Nat) (c d : Chunk) (start words i : Nat) (h : mem d i = 0) : clear mem c start words d i = 0 := by
  unfold clear; split
  · rfl
  · exact h

theorem clear_out (mem : Chunk → Nat → Nat) (c d : Chunk) (start words i : Nat) (h : i < start ∨ start + words ≤ i) :
    clear mem c start words d i = mem d i := by
  unfold clear; rw [if_neg (fun h' => by omega)]

theorem newThread_inv (mem : Chunk → Nat → Nat) : Inv (newThread mem) := by
  refine ⟨⟨by simp [newThread], ?_, ?_, fun _ => rfl, by simp [newThread]⟩, by simp [newThread], by simp [newThread], by simp [newThread]⟩
  · intro c hc
    simp only [newThread, Option.some.injEq] at hc
    subst hc
    refine ⟨fun i _ h => ?_, .inl rfl⟩
    unfold newThread
    simp only
    exact clear_zero _ _ _ _ _ _ (clear_in _ _ _ _ _ (by omega) (by omega))
  · intro i _ h
    exact clear_in _ _ _ _ _ (by omega) (by omega)

theorem clearDefault_zero {s : T} (h : Clean s) : (∀ i, i < heapSize → (clearDefault s).mem .default i = 0) ∧
    (clearDefault s).heap = some .default ∧ (∀ i, (clearDefault s).mem .backup i = s.mem .backup i) ∧
    (clearDefault s).backupIndex = s.backupIndex ∧ (clearDefault s).backupFlag = s.backupFlag ∧ (clearDefault s).requests = s.requests := by
  unfold clearDefault
  split
  · rename_i e
    refine ⟨?_, e, fun i => clear_other s.mem .default .backup 0 s.index i (by decide), rfl, rfl, rfl⟩
    intro i hi
    by_cases hlt : i < s.index
    · exact clear_in _ _ _ _ _ (by omega) (by omega)
    · exact clear_zero _ _ _ _ _ _ ((h.heap _ e).1 i (by omega) hi)
  · exact ⟨fun i hi => clear_in _ _ _ _ _ (by omega) (by omega), rfl, fun i => clear_other s.mem .default .backup 0 heapSize i (by decide), rfl, rfl, rfl⟩

theorem postCollect_inv {s : T} (h : Clean s) (full : Bool) : Inv (postCollect s full) ∧
    (postCollect s full).index = (if full then heapSize else 0) ∧ (postCollect s full).objs = [] ∧
    (postCollect s full).backupFlag = false ∧ (postCollect s full).requests = s.requests := by
  obtain ⟨z, e1, e2, e3, e4, e5⟩ := clearDefault_zero h
  unfold postCollect
  simp only
  unfold clearBackup
  simp only
  split
  · rename_i hb
    refine ⟨⟨⟨?_, ?_, ?_, fun _ => rfl, Nat.zero_le _⟩, ?_, by simp, by simp⟩, by simp only, by simp only, by simp only, e5⟩
    · simp only; split <;> omega
    · intro c hc
      simp only at hc ⊢
      rw [e1] at hc
      cases hc
      refine ⟨fun i _ hi => ?_, .inl rfl⟩
      rw [clear_other _ _ _ _ _ _ (by decide)]
      exact z i hi
    · intro i _ hi
      exact clear_in _ _ _ _ _ (by omega) (by omega)
    · simp only; rw [e1]; simp
  · rename_i hb
    have hf : s.backupFlag = false := by rw [← e4]; simpa using hb
    refine ⟨⟨⟨?_, ?_, ?_, ?_, ?_⟩, ?_, by simp, by simp⟩, by simp only, by simp only, by simp only; rw [e4, hf], e5⟩
    · simp only; split <;> omega
    · intro c hc
      simp only at hc ⊢
      rw [e1] at hc
      cases hc
      exact ⟨fun i _ hi => z i hi, .inl rfl⟩
    · intro i hi hi'
      simp only at hi ⊢
      rw [e2]
      exact h.backup i (by rw [← e3]; exact hi) hi'
    · intro _
      simp only
      rw [e3, h.flag hf]
    · simp only; rw [e3]; exact h.size
    · simp only; rw [e1]; simp

theorem pairwise_snoc {l : List Part} {p : Part} (h : l.Pairwise Apart) (hp : ∀ q ∈ l, Apart q p) : (l ++ [p]).Pairwise Apart := by
  rw [List.pairwise_append]
  exact ⟨h, by simp, fun q hq r hr => by rw [List.mem_singleton.1 hr]; exact hp q hq⟩

/-- What an allocation promises: the new object `p`, the objects `l` that exist beside it, and the memory before. -/
structure Fresh (s s' : T) (words : Nat) (p : Part) : Prop where
  length : p.words = words
  zero : ∀ i, i < words → s'.mem p.chunk (p.start + i) = 0
  objs : s'.objs = s.objs ++ [p] ∨ s'.objs = [p]
  apart : ∀ q ∈ s'.objs.dropLast, Apart q p
  kept : ∀ q ∈ s.objs, s'.objs = s.objs ++ [p] → ∀ i, i < q.words → s'.mem q.chunk (q.start + i) = s.mem q.chunk (q.start + i)
  inside : (∃ k, p.chunk = .fixed k) ∨ p.start + p.words ≤ sizeOf p.chunk

theorem small_ok {s : T} (h : Inv s) (words : Nat) (hw : s.index + words ≤ heapSize) :
    ∃ s' p, allocateSmall s words = .ok s' p ∧ Inv s' ∧ s'.mem = s.mem ∧ s'.objs = s.objs ++ [p] ∧ p.words = words ∧
      (∀ i, i < words → s'.mem p.chunk (p.start + i) = 0) ∧ (∀ q ∈ s.objs, Apart q p) ∧ p.start + p.words ≤ sizeOf p.chunk := by
  obtain ⟨⟨c1, c2, c3, c4, c5⟩, h2, h3, h4⟩ := h
  unfold allocateSmall
  cases hc : s.heap with
  | none => exact absurd hc h2
  | some c =>
    obtain ⟨z, hk⟩ := c2 c hc
    have hap : ∀ q ∈ s.objs, Apart q ⟨c, s.index, words⟩ := by
      intro q hq i j hi hj ⟨e1, e2⟩
      have hu := h3 q hq
      unfold Used at hu
      simp only at e1 e2
      rw [e1] at hu
      rcases hk with rfl | ⟨k, rfl, hk⟩
      · simp only [hc, if_true] at hu; omega
      · simp only [hc, if_true] at hu; omega
    refine ⟨_, _, rfl, ⟨⟨hw, ?_, c3, c4, c5⟩, by simp [hc], ?_, pairwise_snoc h4 hap⟩, rfl, rfl, rfl, ?_, hap, ?_⟩
    · intro d hd
      simp only at hd ⊢
      cases hd
      exact ⟨fun i hi hi' => z i (by omega) hi', hk⟩
    · intro q hq
      rcases List.mem_append.1 hq with hq | hq
      · have hu := h3 q hq
        unfold Used at hu ⊢
        cases hch : q.chunk with
        | default => rw [hch] at hu; simp only [hc] at hu ⊢; split <;> simp_all <;> omega
        | pool k => rw [hch] at hu; simp only [hc] at hu ⊢; split <;> simp_all <;> omega
        | backup => rw [hch] at hu; exact hu
        | fixed k => rw [hch] at hu; exact hu
      · rw [List.mem_singleton.1 hq]
        unfold Used
        rcases hk with rfl | ⟨k, rfl, hk⟩
        · simp
        · simp [hk]
    · intro i hi
      exact z _ (by simp only; omega) (by simp only; omega)
    · rcases hk with rfl | ⟨k, rfl, hk⟩ <;> exact hw

theorem fresh_of_small {s s1 : T} (h : Inv s1) (hs : s1.objs = s.objs ∨ s1.objs = []) (words : Nat) (hw : s1.index + words ≤ heapSize)
    (hk : s1.objs = s.objs → ∀ q ∈ s.objs, ∀ i, i < q.words → s1.mem q.chunk (q.start + i) = s.mem q.chunk (q.start + i)) :
    ∃ s' p, allocateSmall s1 words = .ok s' p ∧ Inv s' ∧ Fresh s s' words p := by
  obtain ⟨s', p, e, hi, e1, e2, e3, e4, e5, e6⟩ := small_ok h words hw
  refine ⟨s', p, e, hi, ⟨e3, e4, ?_, ?_, ?_, .inr e6⟩⟩
  · rcases hs with hs | hs
    · left; rw [e2, hs]
    · right; rw [e2, hs]; rfl
  · rw [e2, List.dropLast_concat]; exact e5
  · intro q hq ho i hi'
    rw [e1]
    refine hk ?_ q hq i hi'
    rw [e2] at ho
    exact List.append_cancel_right ho

theorem none_clean {s : T} (h : Clean s) : Clean { s with heap := none } :=
  ⟨h.index, fun c hc => by simp at hc, h.backup, h.flag, h.size⟩

/-- A part of another chunk, or in front of the words in question. -/
theorem newChunk_inv {s : T} (h : Inv s) (junk : Nat → Nat) :
    Inv (newChunk { s with heap := none } junk) ∧
    ∀ q ∈ s.objs, ∀ i, i < q.words → (newChunk { s with heap := none } junk).mem q.chunk (q.start + i) = s.mem q.chunk (q.start + i) := by
  obtain ⟨⟨c1, c2, c3, c4, c5⟩, h2, h3, h4⟩ := h
  have hne : ∀ q ∈ s.objs, q.chunk ≠ .pool s.requests := by
    intro q hq e
    have hu := h3 q hq
    unfold Used at hu
    rw [e] at hu
    simp only at hu
    omega
  refine ⟨⟨⟨Nat.zero_le _, ?_, ?_, c4, c5⟩, by simp [newChunk], ?_, h4⟩, ?_⟩
  · intro c hc
    simp only [newChunk, Option.some.injEq] at hc
    subst hc
    refine ⟨fun i _ hi => ?_, .inr ⟨s.requests, rfl, by simp [newChunk]⟩⟩
    unfold newChunk
    simp only
    exact clear_in _ _ _ _ _ (by omega) (by omega)
  · intro i hi hi'
    unfold newChunk
    simp only
    rw [clear_other _ _ _ _ _ _ (by simp), if_neg (by simp)]
    exact c3 i hi hi'
  · intro q hq
    have hu := h3 q hq
    have hn := hne q hq
    unfold Used newChunk at *
    cases hch : q.chunk with
    | default =>
      rw [hch] at hu
      simp only at hu ⊢
      simp
      split at hu <;> omega
    | pool k =>
      rw [hch] at hu hn
      simp only at hu ⊢
      have hk : ¬ s.requests = k := fun e => hn (by rw [e])
      simp [hk]
      have := hu.2
      split at this <;> omega
    | backup => rw [hch] at hu; exact hu
    | fixed k => rw [hch] at hu; simp only at hu ⊢; omega
  · intro q hq i _
    unfold newChunk
    simp only
    rw [clear_other _ _ _ _ _ _ (hne q hq), if_neg (hne q hq)]

theorem backup_ok {s : T} (h : Inv s) (hb : s.backupFlag = true) (words : Nat) (hw : s.backupIndex + words ≤ backupSize) :
    ∃ s' p, allocateBackup s words = .ok s' p ∧ Inv s' ∧ Fresh s s' words p := by
  obtain ⟨⟨c1, c2, c3, c4, c5⟩, h2, h3, h4⟩ := h
  unfold allocateBackup
  rw [if_pos hw]
  have hap : ∀ q ∈ s.objs, Apart q ⟨.backup, s.backupIndex, words⟩ := by
    intro q hq i j hi hj ⟨e1, e2⟩
    have hu := h3 q hq
    unfold Used at hu
    simp only at e1 e2
    rw [e1] at hu
    simp only at hu
    omega
  refine ⟨_, _, rfl, ⟨⟨c1, ?_, ?_, fun h => by simp [hb] at h, hw⟩, h2, ?_, pairwise_snoc h4 hap⟩, ⟨rfl, ?_, .inl rfl, ?_, ?_, .inr hw⟩⟩
  · intro c hc
    obtain ⟨z, hk⟩ := c2 c hc
    exact ⟨fun i hi hi' => clear_zero _ _ _ _ _ _ (z i hi hi'), hk⟩
  · intro i hi hi'
    simp only at hi
    exact clear_zero _ _ _ _ _ _ (c3 i (by omega) hi')
  · intro q hq
    rcases List.mem_append.1 hq with hq | hq
    · have hu := h3 q hq
      unfold Used at hu ⊢
      cases hch : q.chunk with
      | default => rw [hch] at hu; exact hu
      | pool k => rw [hch] at hu; exact hu
      | backup => rw [hch] at hu; simp only at hu ⊢; omega
      | fixed k => rw [hch] at hu; exact hu
    · rw [List.mem_singleton.1 hq]
      exact Nat.le_refl _
  · intro i hi
    exact clear_zero _ _ _ _ _ _ (c3 _ (by simp only; omega) (by simp only; omega))
  · simp only [List.dropLast_concat]; exact hap
  · intro q hq _ i hi
    simp only
    by_cases e : q.chunk = .backup
    · have hu := h3 q hq
      unfold Used at hu
      rw [e] at hu ⊢
      simp only at hu
      exact clear_out _ _ _ _ _ _ (by omega)
    · exact clear_other _ _ _ _ _ _ e

/-- Allocating an object separately. -/
theorem fixed_ok {s s1 : T} (h : Inv s1) (hs : s1.objs = s.objs ∨ s1.objs = []) (junk : Nat → Nat) (words : Nat)
    (hk : s1.objs = s.objs → ∀ q ∈ s.objs, ∀ i, i < q.words → s1.mem q.chunk (q.start + i) = s.mem q.chunk (q.start + i)) :
    let p : Part := ⟨.fixed s1.requests, 0, words⟩
    let s' : T := { s1 with mem := clear (fun d i => if d = .fixed s1.requests then junk i else s1.mem d i) (.fixed s1.requests) 0 words,
                            requests := s1.requests + 1, objs := s1.objs ++ [p] }
    Inv s' ∧ Fresh s s' words p := by
  obtain ⟨⟨c1, c2, c3, c4, c5⟩, h2, h3, h4⟩ := h
  intro p s'
  have hne : ∀ q ∈ s1.objs, q.chunk ≠ .fixed s1.requests := by
    intro q hq e
    have hu := h3 q hq
    unfold Used at hu
    rw [e] at hu
    simp only at hu
    omega
  have hap : ∀ q ∈ s1.objs, Apart q p := fun q hq i j _ _ e => hne q hq e.1
  refine ⟨⟨⟨c1, ?_, ?_, c4, c5⟩, h2, ?_, pairwise_snoc h4 hap⟩, ⟨rfl, ?_, ?_, ?_, ?_, .inl ⟨_, rfl⟩⟩⟩
  · intro c hc
    obtain ⟨z, hk⟩ := c2 c hc
    have hc' : c ≠ .fixed s1.requests := by
      rcases hk with rfl | ⟨k, rfl, _⟩ <;> simp
    refine ⟨fun i hi hi' => ?_, ?_⟩
    · simp only [s']
      refine clear_zero _ _ _ _ _ _ ?_
      simp only [if_neg hc']; exact z i hi hi'
    · rcases hk with rfl | ⟨k, rfl, hk⟩
      · exact .inl rfl
      · exact .inr ⟨k, rfl, Nat.lt_succ_of_lt hk⟩
  · intro i hi hi'
    simp only [s']
    refine clear_zero _ _ _ _ _ _ ?_
    simp only [if_neg (show ¬ Chunk.backup = .fixed s1.requests by simp)]
    exact c3 i hi hi'
  · intro q hq
    rcases List.mem_append.1 hq with hq | hq
    · have hu := h3 q hq
      unfold Used at hu ⊢
      cases hch : q.chunk with
      | default => rw [hch] at hu; exact hu
      | pool k => rw [hch] at hu; exact ⟨Nat.lt_succ_of_lt hu.1, hu.2⟩
      | backup => rw [hch] at hu; exact hu
      | fixed k => rw [hch] at hu; exact Nat.lt_succ_of_lt hu
    · rw [List.mem_singleton.1 hq]
      exact Nat.lt_succ_self _
  · intro i hi
    simp only [s', p]
    exact clear_in _ _ _ _ _ (by omega) (by omega)
  · rcases hs with hs | hs
    · left; simp only [s', hs]
    · right; simp only [s', hs]; rfl
  · simp only [s', List.dropLast_concat]; exact hap
  · intro q hq ho i hi
    have ho' : s1.objs = s.objs := List.append_cancel_right ho
    have hq' : q ∈ s1.objs := by rw [ho']; exact hq
    simp only [s']
    rw [clear_other _ _ _ _ _ _ (hne q hq'), if_neg (hne q hq')]
    exact hk ho' q hq i hi

/-- The outcome of an allocation. -/
def Good (s : T) (words : Nat) : Res → Prop
  | .ok s' p => Inv s' ∧ Fresh s s' words p
  | .outOfMemory s' => Inv s' ∧ s'.objs = []
  | .abort => s.backupFlag = true ∧ backupSize < s.backupIndex + words

theorem collectIf_ok {s s1 : T} {e : Env} (hc : Clean s1) (hi : s1.heap ≠ none → Inv s1)
    (ho : s1.objs = s.objs) (hk : ∀ q ∈ s.objs, ∀ i, i < q.words → s1.mem q.chunk (q.start + i) = s.mem q.chunk (q.start + i)) :
    let r := collectIf s1 e
    Inv r.1 ∧ (r.1.objs = s.objs ∨ r.1.objs = []) ∧ (r.2 = true → r.1.objs = []) ∧
    (r.1.objs = s.objs → ∀ q ∈ s.objs, ∀ i, i < q.words → r.1.mem q.chunk (q.start + i) = s.mem q.chunk (q.start + i)) ∧
    (r.2 = false → r.1.index = s1.index ∧ s1.heap ≠ none ∨ r.1.index = 0) := by
  intro r
  unfold r collectIf
  by_cases h : s1.heap = none ∨ e.limit = true
  · rw [if_pos h]
    obtain ⟨i1, i2, i3, _, _⟩ := postCollect_inv hc e.full
    refine ⟨i1, .inr i3, fun _ => i3, ?_, ?_⟩
    · intro ho' q hq
      have : s.objs = [] := by rw [← ho']; exact i3
      rw [this] at hq
      simp at hq
    · intro hr
      right
      simp only [Bool.or_eq_false_iff] at hr
      simp only
      rw [i2, hr.1]
      rfl
  · rw [if_neg h]
    have hn : s1.heap ≠ none := fun e => h (.inl e)
    exact ⟨hi hn, .inl ho, fun h => by simp at h, fun _ => hk, fun _ => .inl ⟨rfl, hn⟩⟩

theorem allocate_good {s : T} (h : Inv s) (e : Env) (words : Nat) : Good s words (allocate s e words) := by
  unfold allocate
  by_cases h0 : s.index + words > heapSize ∨ e.exclusive = true
  · rw [if_pos h0]
    by_cases hb : s.backupFlag = true
    · rw [if_pos hb]
      by_cases hw : s.backupIndex + words ≤ backupSize
      · obtain ⟨s', p, e1, h1, h2⟩ := backup_ok h hb words hw
        rw [e1]; exact ⟨h1, h2⟩
      · unfold allocateBackup
        rw [if_neg hw]
        exact ⟨hb, by omega⟩
    · rw [if_neg hb]
      by_cases hw : words > heapSize
      · rw [if_pos hw]
        unfold allocateFixed
        have R := collectIf_ok (s := s) (s1 := makeRoomFixed s e) (e := e)
          (by unfold makeRoomFixed; split; exact h.clean; exact none_clean h.clean)
          (by unfold makeRoomFixed; split; exact fun _ => h; exact fun hn => absurd rfl hn)
          (by unfold makeRoomFixed; split <;> rfl) (by unfold makeRoomFixed; split <;> exact fun _ _ _ _ => rfl)
        simp only at R
        revert R
        cases collectIf (makeRoomFixed s e) e with
        | mk s2 b =>
          intro R
          simp only at R
          cases b with
          | true => exact ⟨R.1, R.2.2.1 rfl⟩
          | false => exact fixed_ok R.1 R.2.1 e.junk words R.2.2.2.1
      · rw [if_neg hw]
        unfold allocateMovable
        have R := collectIf_ok (s := s) (s1 := makeRoom s e words) (e := e)
          (by
            unfold makeRoom; split
            · split
              · exact (newChunk_inv h e.junk).1.clean
              · exact none_clean h.clean
            · exact h.clean)
          (by
            unfold makeRoom; split
            · split
              · exact fun _ => (newChunk_inv h e.junk).1
              · exact fun hn => absurd rfl hn
            · exact fun _ => h)
          (by
            unfold makeRoom; split
            · split <;> rfl
            · rfl)
          (by
            unfold makeRoom; split
            · split
              · exact (newChunk_inv h e.junk).2
              · exact fun _ _ _ _ => rfl
            · exact fun _ _ _ _ => rfl)
        simp only at R
        have hroom : (makeRoom s e words).heap ≠ none → (makeRoom s e words).index + words ≤ heapSize := by
          unfold makeRoom
          split
          · split
            · intro _; simp only [newChunk]; omega
            · intro hn; exact absurd rfl hn
          · intro _; omega
        revert R hroom
        cases collectIf (makeRoom s e words) e with
        | mk s2 b =>
          intro R hroom
          simp only at R
          cases b with
          | true => exact ⟨R.1, R.2.2.1 rfl⟩
          | false =>
            have hfit : s2.index + words ≤ heapSize := by
              rcases R.2.2.2.2 rfl with ⟨h1, h2⟩ | h1
              · have := hroom h2; omega
              · omega
            simp only
            rw [if_neg (by omega)]
            obtain ⟨s', p, e1, h1, h2⟩ := fresh_of_small (s := s) R.1 R.2.1 words hfit R.2.2.2.1
            rw [e1]; exact ⟨h1, h2⟩
  · rw [if_neg h0]
    obtain ⟨s', p, e1, h1, h2⟩ := fresh_of_small (s := s) h (.inl rfl) words (by omega) (fun _ _ _ _ _ => rfl)
    rw [e1]; exact ⟨h1, h2⟩

theorem write_inv {s : T} (h : Inv s) (p : Part) (i v : Nat) : Inv (write s p i v) := by
  unfold write
  split
  · rename_i hp
    obtain ⟨⟨c1, c2, c3, c4, c5⟩, h2, h3, h4⟩ := h
    have hu := h3 p hp.1
    unfold Used at hu
    refine ⟨⟨c1, ?_, ?_, c4, c5⟩, h2, h3, h4⟩
    · intro c hc
      obtain ⟨z, hk⟩ := c2 c hc
      refine ⟨fun j hj hj' => ?_, hk⟩
      simp only
      rw [if_neg]
      · exact z j hj hj'
      · rintro ⟨e1, e2⟩
        rw [← e1] at hu
        simp only at hj
        rcases hk with rfl | ⟨k, rfl, _⟩
        · simp only [show s.heap = some .default from hc, if_true] at hu; omega
        · simp only [show s.heap = some (.pool k) from hc, if_true] at hu; omega
    · intro j hj hj'
      simp only
      rw [if_neg]
      · exact c3 j hj hj'
      · rintro ⟨e1, e2⟩
        rw [← e1] at hu
        simp only at hj hu
        omega
  · exact h

theorem ensure_inv {s s' : T} {b : Bool} (h : Inv s) (words : Nat) (e : ensure s words = some (s', b)) : Inv s' := by
  unfold ensure at e
  have hf : Inv { s with backupFlag := true } := by
    obtain ⟨⟨c1, c2, c3, c4, c5⟩, h2, h3, h4⟩ := h
    exact ⟨⟨c1, c2, c3, fun h => by simp at h, c5⟩, h2, h3, h4⟩
  split at e
  · split at e
    · split at e
      · cases e
      · cases e; exact hf
    · cases e; exact h
  · cases e; exact h

theorem step_inv {s s' : T} (h : Inv s) (op : Op) (e : step s op = some s') : Inv s' := by
  cases op with
  | allocate env words =>
    have g := allocate_good h env words
    simp only [step] at e
    cases hr : allocate s env words with
    | ok s1 p => rw [hr] at g e; cases e; exact g.1
    | outOfMemory s1 => rw [hr] at g e; cases e; exact g.1
    | abort => rw [hr] at e; cases e
  | write p i v =>
    cases e
    exact write_inv h p i v
  | ensure words =>
    simp only [step] at e
    cases e' : ensure s words with
    | none => rw [e'] at e; cases e
    | some r => rw [e'] at e; cases e; exact ensure_inv (b := r.2) h words e'
  | collect full =>
    cases e
    exact (postCollect_inv h.clean full).1

theorem run_inv : ∀ (ops : List Op) {s s' : T}, Inv s → run s ops = some s' → Inv s' := by
  intro ops
  induction ops with
  | nil => intro s s' h e; cases e; exact h
  | cons op ops ih =>
    intro s s' h e
    unfold run at e
    split at e
    · cases e
    · rename_i s1 e1
      exact ih (step_inv h op e1) e

/-- **C80.** After any history of allocations, stores into objects and collections, an object that is allocated consists of
    zeros only, lies inside its piece of memory and has no word in common with any other object allocated since the last
    collection; the contents of those objects do not change.  An allocation ends the process only if the small reserve of
    memory for exceptions is in use and exhausted. -/
theorem new_object (mem : Chunk → Nat → Nat) (ops : List Op) (s : T) (hr : run (newThread mem) ops = some s) (e : Env) (words : Nat) :
    match allocate s e words with
    | .ok s' p => Fresh s s' words p ∧ s'.objs.Pairwise Apart
    | .outOfMemory s' => s'.objs = []
    | .abort => s.backupFlag = true ∧ backupSize < s.backupIndex + words := by
  have h := run_inv ops (newThread_inv mem) hr
  have g := allocate_good h e words
  revert g
  cases allocate s e words with
  | ok s' p => exact fun g => ⟨g.2, g.1.apart⟩
  | outOfMemory s' => exact fun g => g.2
  | abort => exact fun g => g

/-- **C80 (reserve).** After `ensure` has agreed, an object of that size can be allocated without a collection. -/
theorem ensure_enough (mem : Chunk → Nat → Nat) (ops : List Op) (s : T) (hr : run (newThread mem) ops = some s) (words : Nat) (s' : T)
    (he : ensure s words = some (s', true)) (hf : s.backupFlag = false) (e : Env) (hx : e.exclusive = false) :
    ∃ s'' p, allocate s' e words = .ok s'' p ∧ s''.objs = s.objs ++ [p] := by
  have h := run_inv ops (newThread_inv mem) hr
  have h' := ensure_inv h words he
  unfold ensure at he
  unfold allocate
  by_cases h0 : s.index + words > heapSize
  · rw [if_pos h0] at he
    split at he
    · rename_i hw
      rw [hf] at he
      simp only [Bool.false_eq_true, if_false] at he
      cases he
      rw [if_pos (.inl h0)]
      simp only [if_true]
      have hz : s.backupIndex = 0 := h.clean.flag hf
      unfold allocateBackup
      rw [if_pos (by simp only; omega)]
      exact ⟨_, _, rfl, rfl⟩
    · cases he
  · rw [if_neg h0] at he
    cases he
    rw [if_neg (by rw [hx]; simp; omega)]
    obtain ⟨s'', p, e1, _, _, e2, _⟩ := small_ok h' words (by omega)
    exact ⟨s'', p, e1, e2⟩

/-- Asking for the reserve a second time before a collection ends the process, even if enough of it is left. -/
theorem ensure_twice (s : T) (words : Nat) : ensure s words = none ↔ heapSize < s.index + words ∧ words ≤ backupSize ∧ s.backupFlag = true := by
  unfold ensure
  constructor
  · intro h
    split at h
    · split at h
      · split at h
        · exact ⟨by omega, by omega, by assumption⟩
        · cases h
      · cases h
    · cases h
  · rintro ⟨h1, h2, h3⟩
    rw [if_pos h1, if_pos h2, if_pos h3]

/-- Memory full of rubbish; an object is filled, one too large for the rest goes to a new chunk, then a collection, and another
    object. -/
def sampleOps : List Op :=
  [.allocate ⟨false, true, fun _ => 7, false, false, false⟩ 8000, .write ⟨.default, 0, 8000⟩ 5 42,
   .allocate ⟨false, true, fun _ => 7, false, false, false⟩ 300, .write ⟨.pool 0, 0, 300⟩ 1 43, .collect false,
   .allocate ⟨false, true, fun _ => 7, false, false, false⟩ 10]

example : (run (newThread fun _ _ => 9) sampleOps).map (fun s => (s.mem .default 5, s.objs)) = some (0, [⟨.default, 0, 10⟩]) := by
  decide +kernel

/-- When the memory is used up, the reserve is taken for an object of 200 words. -/
example : ((run (newThread fun _ _ => 9) [.allocate ⟨false, true, fun _ => 7, false, false, false⟩ 8100]).bind fun s =>
    (ensure s 200).map fun r => (r.2, r.1.backupFlag)) = some (true, true) := by
  decide +kernel

end Avian.ThreadHeap
