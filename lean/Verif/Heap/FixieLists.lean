import Verif.Heap.Fixies

/-
The link fields of `Verif.Heap.Fixies` represent five disjoint lists: effect of `add`,
`remove` and `move` on them.
-/
namespace Avian.Fixies

/-- Following `next` from the pointer `h` gives `xs`, and every element's `handle` points
at the pointer it was reached through. -/
def Chain (m : Mem) : Handle → List Nat → Prop
  | h, [] => read m h = 0
  | h, f :: fs => read m h = f ∧ f ≠ 0 ∧ m.handle f = h ∧ Chain m (.next f) fs

/-- The link fields represent the lists `Ls`. -/
structure Rep (m : Mem) (Ls : L → List Nat) : Prop where
  chain : ∀ l, Chain m (.head l) (Ls l)
  nodup : ∀ l, (Ls l).Nodup
  disj : ∀ l l' f, f ∈ Ls l → f ∈ Ls l' → l = l'
  off : ∀ f, (∀ l, f ∉ Ls l) → m.handle f = .null ∧ m.next f = 0

theorem upd_same {α β : Type} [DecidableEq α] (g : α → β) (a : α) (b : β) : upd g a b a = b := by
  simp [upd]

theorem upd_other {α β : Type} [DecidableEq α] (g : α → β) {a x : α} (b : β) (h : x ≠ a) :
    upd g a b x = g x := by simp [upd, h]

theorem chain_congr {m m' : Mem} {h : Handle} {xs : List Nat} (hc : Chain m h xs)
    (hr : read m' h = read m h)
    (hx : ∀ x ∈ xs, m'.next x = m.next x ∧ m'.handle x = m.handle x) : Chain m' h xs := by
  induction xs generalizing h with
  | nil => exact hr.trans hc
  | cons f fs ih =>
    obtain ⟨h1, h2, h3, h4⟩ := hc
    obtain ⟨e1, e2⟩ := hx f (List.mem_cons_self ..)
    exact ⟨hr.trans h1, h2, e2.trans h3,
      ih h4 e1 (fun x hxm => hx x (List.mem_cons_of_mem _ hxm))⟩

theorem chain_ne0 {m : Mem} {h : Handle} {xs : List Nat} (hc : Chain m h xs) : ∀ x ∈ xs, x ≠ 0 := by
  induction xs generalizing h with
  | nil => intro x hx; cases hx
  | cons f fs ih =>
    intro x hx
    rcases List.mem_cons.1 hx with rfl | hx
    · exact hc.2.1
    · exact ih hc.2.2.2 x hx

theorem chain_head {m : Mem} {h : Handle} {xs : List Nat} (hc : Chain m h xs) :
    (xs = [] ∧ read m h = 0) ∨ (∃ f fs, xs = f :: fs ∧ read m h = f ∧ f ≠ 0) := by
  cases xs with
  | nil => exact Or.inl ⟨rfl, hc⟩
  | cons f fs => exact Or.inr ⟨f, fs, rfl, hc.1, hc.2.1⟩

theorem chain_at {m : Mem} {f : Nat} {post : List Nat} :
    ∀ {pre : List Nat} {h : Handle}, Chain m h (pre ++ f :: post) →
      Chain m (.next f) post ∧ ((pre = [] ∧ m.handle f = h) ∨ ∃ x ∈ pre, m.handle f = .next x) := by
  intro pre
  induction pre with
  | nil => intro h hc; exact ⟨hc.2.2.2, Or.inl ⟨rfl, hc.2.2.1⟩⟩
  | cons a as ih =>
    intro h hc
    obtain ⟨h1, h2⟩ := ih hc.2.2.2
    refine ⟨h1, Or.inr ?_⟩
    rcases h2 with ⟨_, h2⟩ | ⟨x, hx, h2⟩
    · exact ⟨a, List.mem_cons_self .., h2⟩
    · exact ⟨x, List.mem_cons_of_mem _ hx, h2⟩

/-- What `remove` does, for a fixie that is not its own successor. -/
theorem remove_eff {m : Mem} {f : Nat} (hn : m.next f ≠ f) (hg : m.handle f ≠ .null)
    (hgf : m.handle f ≠ .next f) :
    (∀ k, k ≠ m.handle f → k ≠ .next f → read (remove m f) k = read m k) ∧
    read (remove m f) (m.handle f) = m.next f ∧
    (m.next f ≠ 0 → (remove m f).handle (m.next f) = m.handle f) ∧
    (remove m f).handle f = .null ∧ (remove m f).next f = 0 ∧
    (∀ x, x ≠ f → (m.next f ≠ 0 → x ≠ m.next f) → (remove m f).handle x = m.handle x) := by
  unfold remove
  rw [if_pos hg]
  rcases hh : m.handle f with _ | l | p
  · exact absurd hh hg
  · by_cases h0 : m.next f = 0
    · simp only [write, h0, ne_eq, not_true_eq_false, if_false, read]
      refine ⟨?_, by simp [upd], by simp, by simp [upd], by simp [upd], ?_⟩
      · intro k hk hk'
        cases k with
        | null => rfl
        | head l' => simp only [read]; exact upd_other _ _ (fun h => hk (by rw [h]))
        | next x => simp only [read]; exact upd_other _ _ (fun h => hk' (by rw [h]))
      · intro x hx _; exact upd_other _ _ hx
    · simp only [write, ne_eq, h0, not_false_eq_true, if_true, read, hh]
      refine ⟨?_, by simp [upd], ?_, by simp [upd], by simp [upd], ?_⟩
      · intro k hk hk'
        cases k with
        | null => rfl
        | head l' => simp only [read]; exact upd_other _ _ (fun h => hk (by rw [h]))
        | next x => simp only [read]; exact upd_other _ _ (fun h => hk' (by rw [h]))
      · intro _; rw [upd_other _ _ hn, upd_same]
      · intro x hx hx'; rw [upd_other _ _ hx, upd_other _ _ (hx' (by simp))]
  · have hpf : f ≠ p := fun h => hgf (by rw [hh, h])
    have hpf' : p ≠ f := fun h => hpf h.symm
    by_cases h0 : m.next f = 0
    · simp only [write, h0, ne_eq, upd_other _ _ hpf, not_true_eq_false, if_false, read]
      refine ⟨?_, by simp [upd, hpf'], by simp, by simp [upd], by simp [upd], ?_⟩
      · intro k hk hk'
        cases k with
        | null => rfl
        | head l' => rfl
        | next x =>
          simp only [read]
          rw [upd_other _ _ (fun h => hk' (by rw [h])), upd_other _ _ (fun h => hk (by rw [h]))]
      · intro x hx _; exact upd_other _ _ hx
    · simp only [write, ne_eq, upd_other _ _ hpf, h0, not_false_eq_true, if_true, read, hh]
      refine ⟨?_, by simp [upd, hpf'], ?_, by simp [upd], by simp [upd], ?_⟩
      · intro k hk hk'
        cases k with
        | null => rfl
        | head l' => rfl
        | next x =>
          simp only [read]
          rw [upd_other _ _ (fun h => hk' (by rw [h])), upd_other _ _ (fun h => hk (by rw [h]))]
      · intro _; rw [upd_other _ _ hn, upd_same]
      · intro x hx hx'; rw [upd_other _ _ hx, upd_other _ _ (hx' (by simp))]

theorem chain_next {m : Mem} {f : Nat} {pre post : List Nat} {h : Handle}
    (hc : Chain m h (pre ++ f :: post)) :
    m.next f = 0 ∧ post = [] ∨ ∃ fs, post = m.next f :: fs ∧ m.next f ≠ 0 := by
  rcases chain_head (chain_at hc).1 with ⟨h1, h2⟩ | ⟨x, fs, h1, h2, h3⟩
  · exact Or.inl ⟨h2, h1⟩
  · simp only [read] at h2
    exact Or.inr ⟨fs, by rw [h2]; exact h1, by rw [h2]; exact h3⟩

theorem remove_chain {m : Mem} {f : Nat} {post : List Nat} :
    ∀ {pre : List Nat} {h : Handle}, Chain m h (pre ++ f :: post) → (pre ++ f :: post).Nodup →
      h ≠ .null → (∀ x, h = .next x → x ∉ pre ++ f :: post) →
      Chain (remove m f) h (pre ++ post) := by
  intro pre
  induction pre with
  | nil =>
    intro h hc hnd hnull hout
    simp only [List.nil_append] at hc hnd hout ⊢
    obtain ⟨h1, h2, h3, h4⟩ := hc
    obtain ⟨hfp, hnd'⟩ := List.nodup_cons.1 hnd
    have hnf : m.next f ≠ f := by
      rcases chain_next (pre := []) (h := h) ⟨h1, h2, h3, h4⟩ with ⟨e, _⟩ | ⟨fs, e, _⟩
      · rw [e]; exact Ne.symm h2
      · intro he; rw [he] at e; exact hfp (by rw [e]; exact List.mem_cons_self ..)
    have hhf : h ≠ .next f := fun he => hout f he (List.mem_cons_self ..)
    obtain ⟨e1, e2, e3, e4, e5, e6⟩ := remove_eff hnf (by rw [h3]; exact hnull) (by rw [h3]; exact hhf)
    rw [h3] at e1 e2 e3
    cases post with
    | nil => exact e2.trans h4
    | cons x xs =>
      obtain ⟨g1, g2, g3, g4⟩ := h4
      simp only [read] at g1
      obtain ⟨hxx, _⟩ := List.nodup_cons.1 hnd'
      have hxf : x ≠ f := fun he => hfp (by rw [he]; exact List.mem_cons_self ..)
      refine ⟨e2.trans g1, g2, ?_, ?_⟩
      · rw [← g1]; exact e3 (by rw [g1]; exact g2)
      · have hnx : h ≠ .next x := fun he => hout x he (List.mem_cons_of_mem _ (List.mem_cons_self ..))
        refine chain_congr g4 (e1 _ (Ne.symm hnx) (by simpa using hxf)) ?_
        intro y hy
        have hyf : y ≠ f := fun he => hfp (by rw [← he]; exact List.mem_cons_of_mem _ hy)
        have hyx : y ≠ x := fun he => hxx (by rw [← he]; exact hy)
        have hny : h ≠ .next y := fun he =>
          hout y he (List.mem_cons_of_mem _ (List.mem_cons_of_mem _ hy))
        exact ⟨e1 (.next y) (Ne.symm hny) (by simpa using hyf), e6 y hyf (fun _ => by rw [g1]; exact hyx)⟩
  | cons a as ih =>
    intro h hc hnd hnull hout
    have hc' : Chain m h ((a :: as) ++ f :: post) := hc
    obtain ⟨h1, h2, h3, h4⟩ := hc
    simp only [List.cons_append] at hnd hout ⊢
    obtain ⟨ha, hnd'⟩ := List.nodup_cons.1 hnd
    have hfm : f ∈ as ++ f :: post := by simp
    have hne := chain_ne0 hc' f (by simp)
    have haf : a ≠ f := fun he => ha (by rw [he]; exact hfm)
    have hfp : f ∉ post := by
      have := (List.nodup_append.1 hnd').2.1
      exact (List.nodup_cons.1 this).1
    have hnf : m.next f ≠ f := by
      rcases chain_next hc' with ⟨e, _⟩ | ⟨fs, e, _⟩
      · rw [e]; exact Ne.symm hne
      · intro he; rw [he] at e; exact hfp (by rw [e]; exact List.mem_cons_self ..)
    obtain ⟨x, hx, hxh⟩ : ∃ x ∈ a :: as, m.handle f = .next x := by
      rcases (chain_at hc').2 with ⟨e, _⟩ | e
      · cases e
      · exact e
    have hxf : x ≠ f := by
      intro he
      rw [he] at hx
      rcases List.mem_cons.1 hx with e | e
      · exact haf e.symm
      · exact ((List.nodup_append.1 hnd').2.2 f e f (List.mem_cons_self ..)) rfl
    obtain ⟨e1, e2, e3, e4, e5, e6⟩ := remove_eff hnf (by rw [hxh]; simp) (by rw [hxh]; simpa using hxf)
    have hxmem : x ∈ a :: (as ++ f :: post) := by
      rcases List.mem_cons.1 hx with rfl | e
      · exact List.mem_cons_self ..
      · exact List.mem_cons_of_mem _ (List.mem_append_left _ e)
    refine ⟨(e1 h ?_ ?_).trans h1, h2, (e6 a haf ?_).trans h3, ih h4 hnd' (by simp) ?_⟩
    · rw [hxh]; exact fun he => hout x he hxmem
    · exact fun he => hout f he (List.mem_cons_of_mem _ hfm)
    · intro h0 he
      rcases chain_next hc' with ⟨e, _⟩ | ⟨fs, e, _⟩
      · exact h0 e
      · exact ha (by rw [he, e]; simp)
    · intro y hy
      cases hy
      exact ha

theorem remove_rep {m : Mem} {Ls : L → List Nat} (h : Rep m Ls) (f : Nat) :
    Rep (remove m f) (fun l => (Ls l).erase f) := by
  by_cases hf : ∃ l, f ∈ Ls l
  · obtain ⟨l, hl⟩ := hf
    obtain ⟨pre, post, hsplit⟩ := List.append_of_mem hl
    have hc := h.chain l
    have hnd := h.nodup l
    have hers : (Ls l).erase f = pre ++ post := by
      rw [hsplit] at hnd ⊢
      have hnp : f ∉ pre := fun hm => ((List.nodup_append.1 hnd).2.2 f hm f (List.mem_cons_self ..)) rfl
      rw [List.erase_append_right _ hnp]
      simp
    have hother : ∀ l', l' ≠ l → f ∉ Ls l' := fun l' hne hm => hne (h.disj _ _ f hm hl)
    rw [hsplit] at hc hnd
    have hchain := remove_chain hc hnd (by simp) (by intro x hx; cases hx)
    have hne := chain_ne0 hc f (by simp)
    have hfp : f ∉ post := (List.nodup_cons.1 (List.nodup_append.1 hnd).2.1).1
    have hnf : m.next f ≠ f := by
      rcases chain_next hc with ⟨e, _⟩ | ⟨fs, e, _⟩
      · rw [e]; exact Ne.symm hne
      · intro he; rw [he] at e; exact hfp (by rw [e]; exact List.mem_cons_self ..)
    have hhandle : (m.handle f = .head l) ∨ ∃ x ∈ Ls l, x ≠ f ∧ m.handle f = .next x := by
      rcases (chain_at hc).2 with ⟨_, e⟩ | ⟨x, hx, e⟩
      · exact Or.inl e
      · refine Or.inr ⟨x, ?_, ?_, e⟩
        · rw [hsplit]; exact List.mem_append_left _ hx
        · intro he
          rw [he] at hx
          exact ((List.nodup_append.1 hnd).2.2 f hx f (List.mem_cons_self ..)) rfl
    have hnext : m.next f = 0 ∨ m.next f ∈ Ls l := by
      rcases chain_next hc with ⟨e, _⟩ | ⟨fs, e, _⟩
      · exact Or.inl e
      · refine Or.inr ?_
        rw [hsplit, e]; simp
    obtain ⟨e1, e2, e3, e4, e5, e6⟩ := remove_eff hnf
      (by rcases hhandle with e | ⟨x, _, _, e⟩ <;> rw [e] <;> simp)
      (by
        rcases hhandle with e | ⟨x, _, hx, e⟩
        · rw [e]; simp
        · rw [e]; simpa using hx)
    refine ⟨?_, fun l' => (h.nodup l').erase f, ?_, ?_⟩
    · intro l'
      by_cases hll : l' = l
      · subst hll
        show Chain _ _ ((Ls l').erase f)
        rw [hers]; exact hchain
      · show Chain _ _ ((Ls l').erase f)
        rw [List.erase_of_not_mem (hother l' hll)]
        refine chain_congr (h.chain l') (e1 _ ?_ (by simp)) ?_
        · rcases hhandle with e | ⟨x, _, _, e⟩ <;> rw [e]
          · simpa using hll
          · simp
        · intro y hy
          have hyf : y ≠ f := fun he => hother l' hll (by rw [← he]; exact hy)
          have hyl : y ∉ Ls l := fun hm => hll (h.disj _ _ y hy hm)
          refine ⟨e1 (.next y) ?_ (by simpa using hyf), e6 y hyf ?_⟩
          · rcases hhandle with e | ⟨x, hx, _, e⟩ <;> rw [e]
            · simp
            · intro he; cases he; exact hyl hx
          · intro h0 he
            rcases hnext with e | e
            · exact h0 e
            · exact hyl (by rw [he]; exact e)
    · intro a b x ha hb
      exact h.disj a b x (List.mem_of_mem_erase ha) (List.mem_of_mem_erase hb)
    · intro x hx
      by_cases hxf : x = f
      · subst hxf; exact ⟨e4, e5⟩
      · have hxo : ∀ l', x ∉ Ls l' := fun l' hm => hx l' ((List.mem_erase_of_ne hxf).2 hm)
        obtain ⟨g1, g2⟩ := h.off x hxo
        refine ⟨(e6 x hxf ?_).trans g1, (e1 (.next x) ?_ (by simpa using hxf)).trans g2⟩
        · intro h0 he
          rcases hnext with e | e
          · exact h0 e
          · exact hxo l (by rw [he]; exact e)
        · rcases hhandle with e | ⟨z, hz, _, e⟩ <;> rw [e]
          · simp
          · intro he; cases he; exact hxo l hz
  · have hno : ∀ l, f ∉ Ls l := fun l hm => hf ⟨l, hm⟩
    obtain ⟨g1, g2⟩ := h.off f hno
    have hm : remove m f = m := by
      unfold remove
      rw [g1]
      simp only [ne_eq, not_true_eq_false, if_false, g2]
      have a1 : upd m.next f 0 = m.next := by
        funext x; unfold upd; split
        · rename_i hx; rw [hx, g2]
        · rfl
      have a2 : upd m.handle f .null = m.handle := by
        funext x; unfold upd; split
        · rename_i hx; rw [hx, g1]
        · rfl
      rw [a1, a2]
    rw [hm]
    have : (fun l => (Ls l).erase f) = Ls := by
      funext l; exact List.erase_of_not_mem (hno l)
    rw [this]; exact h

/-- Putting `f` in front of list `l`. -/
def push (Ls : L → List Nat) (l : L) (f : Nat) : L → List Nat := upd Ls l (f :: Ls l)

theorem mem_push {Ls : L → List Nat} {l l' : L} {f x : Nat} :
    x ∈ push Ls l f l' ↔ x ∈ Ls l' ∨ (x = f ∧ l' = l) := by
  unfold push upd
  by_cases h : l' = l
  · subst h; simp [or_comm]
  · simp [h]

theorem add_rep {m : Mem} {Ls : L → List Nat} (h : Rep m Ls) {f : Nat} (hf : ∀ l, f ∉ Ls l)
    (h0 : f ≠ 0) (l : L) : Rep (add m f (.head l)) (push Ls l f) := by
  have hnf : m.heads l = 0 ∨ m.heads l ∈ Ls l := by
    rcases chain_head (h.chain l) with ⟨_, e⟩ | ⟨x, fs, e1, e2, _⟩
    · exact Or.inl e
    · refine Or.inr ?_
      simp only [read] at e2
      rw [e1, e2]; exact List.mem_cons_self ..
  have hhf : m.heads l ≠ f := by
    rcases hnf with e | e
    · rw [e]; exact Ne.symm h0
    · exact fun he => hf l (by rw [← he]; exact e)
  have q1 : (add m f (.head l)).heads = upd m.heads l f := by
    simp only [add, ne_eq, reduceCtorEq, not_false_eq_true, if_true, read, upd_same, write]
    split <;> rfl
  have q2 : (add m f (.head l)).next = upd m.next f (m.heads l) := by
    simp only [add, ne_eq, reduceCtorEq, not_false_eq_true, if_true, read, upd_same, write]
    split <;> rfl
  have q3 : (add m f (.head l)).handle f = .head l := by
    simp only [add, ne_eq, reduceCtorEq, not_false_eq_true, if_true, read, upd_same, write]
    split
    · simp only; rw [upd_other _ _ (Ne.symm hhf), upd_same]
    · simp only; rw [upd_same]
  have q4 : m.heads l ≠ 0 → (add m f (.head l)).handle (m.heads l) = .next f := by
    intro hne
    simp only [add, ne_eq, reduceCtorEq, not_false_eq_true, if_true, read, upd_same, write, hne]
  have q5 : ∀ x, x ≠ f → (m.heads l ≠ 0 → x ≠ m.heads l) → (add m f (.head l)).handle x = m.handle x := by
    intro x hx hx'
    simp only [add, ne_eq, reduceCtorEq, not_false_eq_true, if_true, read, upd_same, write]
    split
    · rename_i hne; simp only; rw [upd_other _ _ (hx' hne), upd_other _ _ hx]
    · simp only; rw [upd_other _ _ hx]
  refine ⟨?_, ?_, ?_, ?_⟩
  · intro l'
    by_cases hll : l' = l
    · subst hll
      rw [push, upd_same]
      refine ⟨by simp only [read, q1, upd_same], h0, q3, ?_⟩
      have hc := h.chain l'
      have hnd := h.nodup l'
      generalize hxs : Ls l' = xs at hc hnd
      cases xs with
      | nil => simp only [Chain, read, q2, upd_same]; exact hc
      | cons x xs =>
        obtain ⟨g1, g2, g3, g4⟩ := hc
        simp only [read] at g1
        have hxf : x ≠ f := fun he => hf l' (by rw [hxs, he]; exact List.mem_cons_self ..)
        refine ⟨by simp only [read, q2, upd_same]; exact g1, g2, ?_, ?_⟩
        · rw [← g1]; exact q4 (by rw [g1]; exact g2)
        · refine chain_congr g4 (by simp only [read, q2]; exact upd_other _ _ hxf) ?_
          intro y hy
          have hyf : y ≠ f := fun he => hf l' (by rw [hxs, ← he]; exact List.mem_cons_of_mem _ hy)
          refine ⟨by rw [q2]; exact upd_other _ _ hyf, q5 y hyf ?_⟩
          intro _ he
          rw [g1] at he
          rw [he] at hy
          exact (List.nodup_cons.1 hnd).1 hy
    · rw [push, upd_other _ _ hll]
      refine chain_congr (h.chain l') (by simp only [read, q1]; exact upd_other _ _ hll) ?_
      intro y hy
      have hyf : y ≠ f := fun he => hf l' (by rw [← he]; exact hy)
      refine ⟨by rw [q2]; exact upd_other _ _ hyf, q5 y hyf ?_⟩
      intro hne he
      rcases hnf with e | e
      · exact hne e
      · exact hll (h.disj _ _ y hy (by rw [he]; exact e))
  · intro l'
    by_cases hll : l' = l
    · subst hll; rw [push, upd_same]; exact List.nodup_cons.2 ⟨hf l', h.nodup l'⟩
    · rw [push, upd_other _ _ hll]; exact h.nodup l'
  · intro a b x ha hb
    rcases mem_push.1 ha with ha | ⟨rfl, rfl⟩ <;> rcases mem_push.1 hb with hb | ⟨hb1, hb2⟩
    · exact h.disj a b x ha hb
    · exact absurd (hb1 ▸ ha) (hf a)
    · exact absurd hb (hf b)
    · exact hb2.symm
  · intro x hx
    have hxf : x ≠ f := fun he => hx l (mem_push.2 (Or.inr ⟨he, rfl⟩))
    have hxo : ∀ l', x ∉ Ls l' := fun l' hm => hx l' (mem_push.2 (Or.inl hm))
    obtain ⟨g1, g2⟩ := h.off x hxo
    refine ⟨(q5 x hxf ?_).trans g1, by rw [q2, upd_other _ _ hxf]; exact g2⟩
    intro hne he
    rcases hnf with e | e
    · exact hne e
    · exact hxo l (by rw [he]; exact e)

theorem not_mem_erase_all {m : Mem} {Ls : L → List Nat} (h : Rep m Ls) (f : Nat) :
    ∀ l, f ∉ (Ls l).erase f := fun l => (h.nodup l).not_mem_erase

theorem move_rep {m : Mem} {Ls : L → List Nat} (h : Rep m Ls) {f : Nat} (h0 : f ≠ 0) (l : L) :
    Rep (move m f (.head l)) (push (fun l => (Ls l).erase f) l f) :=
  add_rep (remove_rep h f) (not_mem_erase_all h f) h0 l

theorem mem_move {Ls : L → List Nat} (hnd : ∀ l, (Ls l).Nodup) {l l' : L} {f x : Nat} :
    x ∈ push (fun l => (Ls l).erase f) l f l' ↔ (x ≠ f ∧ x ∈ Ls l') ∨ (x = f ∧ l' = l) := by
  rw [mem_push]
  simp only [(hnd l').mem_erase_iff]

theorem rep_read_head {m : Mem} {Ls : L → List Nat} (h : Rep m Ls) (l : L) :
    m.heads l = 0 ∧ Ls l = [] ∨ m.heads l ≠ 0 ∧ m.heads l ∈ Ls l := by
  rcases chain_head (h.chain l) with ⟨e1, e2⟩ | ⟨x, fs, e1, e2, e3⟩
  · exact Or.inl ⟨e2, e1⟩
  · simp only [read] at e2
    exact Or.inr ⟨by rw [e2]; exact e3, by rw [e1, e2]; exact List.mem_cons_self ..⟩

end Avian.Fixies
