import Verif.Heap.FixieLists

/-
The loops of `Verif.Heap.Fixies` and the invariant of the lists over whole heap histories.
-/
namespace Avian.Fixies

/-! ### Loops over one list -/

/-- Following only the `next` fields from `v` gives `xs`. -/
def NChain (m : Mem) : Nat → List Nat → Prop
  | v, [] => v = 0
  | v, f :: fs => v = f ∧ f ≠ 0 ∧ NChain m (m.next f) fs

theorem chain_nchain {m : Mem} {h : Handle} {xs : List Nat} (hc : Chain m h xs) :
    NChain m (read m h) xs := by
  induction xs generalizing h with
  | nil => exact hc
  | cons f fs ih => exact ⟨hc.1, hc.2.1, ih hc.2.2.2⟩

theorem nchain_congr {m m' : Mem} {v : Nat} {xs : List Nat} (hc : NChain m v xs)
    (hx : ∀ x ∈ xs, m'.next x = m.next x) : NChain m' v xs := by
  induction xs generalizing v with
  | nil => exact hc
  | cons f fs ih =>
    refine ⟨hc.1, hc.2.1, ?_⟩
    rw [hx f (List.mem_cons_self ..)]
    exact ih hc.2.2 (fun x hxm => hx x (List.mem_cons_of_mem _ hxm))

/-- What `freeLoop` does with the list `xs` it is given. -/
structure Freed (l : L) (xs : List Nat) (s s' : St) : Prop where
  heads : s'.mem.heads = upd s.mem.heads l 0
  next : ∀ x, s'.mem.next x = if x ∈ xs then 0 else s.mem.next x
  handle : ∀ x, s'.mem.handle x = if x ∈ xs then .null else s.mem.handle x
  age : s'.age = s.age
  dead : s'.dead = s.dead
  mark : ∀ x, s'.mark x = if x ∈ xs ∧ immortal s x = true then false else s.mark x
  dirty : ∀ x, s'.isDirty x = if x ∈ xs ∧ immortal s x = true then false else s.isDirty x
  live : ∀ x, x ∈ s'.live ↔ x ∈ s.live ∧ (x ∉ xs ∨ immortal s x = true)
  nodup : s'.live.Nodup
  size : s'.live.length ≤ s.live.length

theorem freeLoop_succ (reset : Bool) (fuel : Nat) (s : St) (l : L) (f : Nat) (h : s.mem.heads l = f) :
    freeLoop reset (fuel + 1) s (.head l) =
      if f = 0 then s
      else if immortal s f then
        if reset then
          freeLoop reset fuel
            { s with
              mem := { heads := upd s.mem.heads l (s.mem.next f), next := upd s.mem.next f 0,
                       handle := upd s.mem.handle f .null }
              mark := upd s.mark f false
              isDirty := upd s.isDirty f false } (.head l)
        else freeLoop reset fuel s (.next f)
      else
        freeLoop reset fuel
          { s with
            mem := { heads := upd s.mem.heads l (s.mem.next f), next := upd s.mem.next f 0,
                     handle := upd s.mem.handle f .null }
            live := s.live.erase f } (.head l) := by
  subst h; rfl

theorem freeLoop_spec (reset : Bool) (l : L) (xs : List Nat) :
    ∀ (fuel : Nat) (s : St), xs.length < fuel → NChain s.mem (s.mem.heads l) xs → xs.Nodup →
      s.live.Nodup → (∀ f ∈ xs, immortal s f = true → reset = true) →
      Freed l xs s (freeLoop reset fuel s (.head l)) := by
  induction xs with
  | nil =>
    intro fuel s hfuel hc _ hnd _
    cases fuel with
    | zero => cases hfuel
    | succ fuel =>
      have h0 : s.mem.heads l = 0 := hc
      rw [freeLoop_succ _ _ _ _ _ h0, if_pos rfl]
      refine ⟨?_, by simp, by simp, rfl, rfl, by simp, by simp, by simp, hnd, Nat.le_refl _⟩
      funext x
      unfold upd; split
      · rename_i hx; rw [hx, h0]
      · rfl
  | cons f fs ih =>
    intro fuel s hfuel hc hxs hnd himm
    cases fuel with
    | zero => cases hfuel
    | succ fuel =>
      obtain ⟨h1, h2, h3⟩ := hc
      obtain ⟨hfs, hxs'⟩ := List.nodup_cons.1 hxs
      have hfuel' : fs.length < fuel := by simp only [List.length_cons] at hfuel; omega
      rw [freeLoop_succ _ _ _ _ _ h1, if_neg h2]
      by_cases hi : immortal s f = true
      · have hr := himm f (List.mem_cons_self ..) hi
        subst hr
        rw [if_pos hi]
        simp only [if_true]
        generalize hs1 : ({ s with
            mem := { heads := upd s.mem.heads l (s.mem.next f), next := upd s.mem.next f 0,
                     handle := upd s.mem.handle f .null }
            mark := upd s.mark f false, isDirty := upd s.isDirty f false } : St) = s1
        have := ih fuel s1 hfuel' (by
            subst hs1
            simp only [upd_same]
            refine nchain_congr h3 ?_
            intro x hx
            exact upd_other _ _ (fun he => hfs (by rw [← he]; exact hx))) hxs'
          (by subst hs1; exact hnd)
          (by intro g hg _; rfl)
        have hi1 : ∀ x, immortal s1 x = immortal s x := by subst hs1; intro x; rfl
        refine ⟨?_, ?_, ?_, ?_, ?_, ?_, ?_, ?_, this.nodup, ?_⟩
        · rw [this.heads]; subst hs1; funext x; simp only [upd]; split <;> rfl
        · intro x; rw [this.next]; subst hs1; simp only [upd, List.mem_cons]
          by_cases hx : x = f <;> by_cases hx' : x ∈ fs <;> simp [hx, hx']
        · intro x; rw [this.handle]; subst hs1; simp only [upd, List.mem_cons]
          by_cases hx : x = f <;> by_cases hx' : x ∈ fs <;> simp [hx, hx']
        · rw [this.age]; subst hs1; rfl
        · rw [this.dead]; subst hs1; rfl
        · intro x; rw [this.mark, hi1]; subst hs1; simp only [upd, List.mem_cons]
          by_cases hx : x = f <;> by_cases hx' : x ∈ fs <;> simp [hx, hx', hi]
        · intro x; rw [this.dirty, hi1]; subst hs1; simp only [upd, List.mem_cons]
          by_cases hx : x = f <;> by_cases hx' : x ∈ fs <;> simp [hx, hx', hi]
        · intro x; rw [this.live, hi1]; subst hs1; simp only [List.mem_cons]
          by_cases hx : x = f <;> by_cases hx' : x ∈ fs <;> simp [hx, hx', hi]
        · have := this.size; subst hs1; exact this
      · rw [if_neg hi]
        generalize hs1 : ({ s with
            mem := { heads := upd s.mem.heads l (s.mem.next f), next := upd s.mem.next f 0,
                     handle := upd s.mem.handle f .null }
            live := s.live.erase f } : St) = s1
        have := ih fuel s1 hfuel' (by
            subst hs1
            simp only [upd_same]
            refine nchain_congr h3 ?_
            intro x hx
            exact upd_other _ _ (fun he => hfs (by rw [← he]; exact hx))) hxs'
          (by subst hs1; exact hnd.erase f)
          (by
            intro g hg hgi
            subst hs1
            exact himm g (List.mem_cons_of_mem _ hg) hgi)
        have hi1 : ∀ x, immortal s1 x = immortal s x := by subst hs1; intro x; rfl
        refine ⟨?_, ?_, ?_, ?_, ?_, ?_, ?_, ?_, this.nodup, ?_⟩
        · rw [this.heads]; subst hs1; funext x; simp only [upd]; split <;> rfl
        · intro x; rw [this.next]; subst hs1; simp only [upd, List.mem_cons]
          by_cases hx : x = f <;> by_cases hx' : x ∈ fs <;> simp [hx, hx']
        · intro x; rw [this.handle]; subst hs1; simp only [upd, List.mem_cons]
          by_cases hx : x = f <;> by_cases hx' : x ∈ fs <;> simp [hx, hx']
        · rw [this.age]; subst hs1; rfl
        · rw [this.dead]; subst hs1; rfl
        · intro x; rw [this.mark, hi1]; subst hs1; simp only [List.mem_cons]
          by_cases hx : x = f
          · subst hx; simp [hi]
          · simp [hx]
        · intro x; rw [this.dirty, hi1]; subst hs1; simp only [List.mem_cons]
          by_cases hx : x = f
          · subst hx; simp [hi]
          · simp [hx]
        · intro x; rw [this.live, hi1]; subst hs1; simp only [List.mem_cons, hnd.mem_erase_iff]
          by_cases hx : x = f
          · subst hx; simp [hi]
          · simp [hx]
        · have := this.size; subst hs1
          have h2 := List.length_erase_le (a := f) (l := s.live)
          exact Nat.le_trans this h2

theorem freed_rep {l : L} {Ls : L → List Nat} {s s' : St} (h : Rep s.mem Ls)
    (hf : Freed l (Ls l) s s') : Rep s'.mem (upd Ls l []) := by
  refine ⟨?_, ?_, ?_, ?_⟩
  · intro l'
    by_cases hll : l' = l
    · subst hll
      rw [upd_same]
      simp only [Chain, read, hf.heads, upd_same]
    · rw [upd_other _ _ hll]
      refine chain_congr (h.chain l') (by simp only [read, hf.heads]; exact upd_other _ _ hll) ?_
      intro x hx
      have hxl : x ∉ Ls l := fun hm => hll (h.disj _ _ x hx hm)
      rw [hf.next, hf.handle, if_neg hxl, if_neg hxl]
      exact ⟨rfl, rfl⟩
  · intro l'
    by_cases hll : l' = l
    · subst hll; rw [upd_same]; exact List.nodup_nil
    · rw [upd_other _ _ hll]; exact h.nodup l'
  · intro a b x ha hb
    have aux : ∀ a, x ∈ upd Ls l [] a → x ∈ Ls a := by
      intro a ha
      by_cases hal : a = l
      · subst hal; rw [upd_same] at ha; cases ha
      · rwa [upd_other _ _ hal] at ha
    exact h.disj a b x (aux a ha) (aux b hb)
  · intro x hx
    rw [hf.next, hf.handle]
    by_cases hxl : x ∈ Ls l
    · rw [if_pos hxl, if_pos hxl]; exact ⟨rfl, rfl⟩
    · rw [if_neg hxl, if_neg hxl]
      refine h.off x ?_
      intro l' hm
      by_cases hll : l' = l
      · subst hll; exact hxl hm
      · exact hx l' (by rw [upd_other _ _ hll]; exact hm)

theorem killLoop_spec (xs : List Nat) :
    ∀ (fuel : Nat) (s : St) (v : Nat), xs.length < fuel → NChain s.mem v xs →
      killLoop fuel s v = { s with dead := fun x => if x ∈ xs ∧ immortal s x = false then true else s.dead x } := by
  induction xs with
  | nil =>
    intro fuel s v hfuel hc
    cases fuel with
    | zero => cases hfuel
    | succ fuel =>
      simp only [killLoop]
      rw [if_pos (show v = 0 from hc)]
      simp
  | cons f fs ih =>
    intro fuel s v hfuel hc
    cases fuel with
    | zero => cases hfuel
    | succ fuel =>
      obtain ⟨h1, h2, h3⟩ := hc
      have hfuel' : fs.length < fuel := by simp only [List.length_cons] at hfuel; omega
      simp only [killLoop]
      rw [h1, if_neg h2]
      by_cases hi : immortal s f = true
      · rw [if_pos hi, ih fuel s _ hfuel' h3]
        congr 1
        funext x
        simp only [List.mem_cons]
        by_cases hx : x = f
        · subst hx; simp [hi]
        · simp [hx]
      · have key := ih fuel { s with dead := upd s.dead f true } (s.mem.next f) hfuel' h3
        rw [if_neg hi, key]
        have hi' : immortal s f = false := by simpa using hi
        have hi1 : ∀ x, immortal { s with dead := upd s.dead f true } x = immortal s x := fun _ => rfl
        simp only [hi1]
        congr 1
        funext x
        simp only [List.mem_cons, upd]
        by_cases hx : x = f
        · subst hx; simp [hi']
        · simp [hx]

/-! ### The invariant -/

/-- The right list for a fixie that the current collection has not marked. -/
def Place (s : St) (Ls : L → List Nat) (f : Nat) : Prop :=
  if immortal s f = true then
    (if s.isDirty f = true then f ∈ Ls .dirty else (f ∈ Ls .tenured ∨ ∀ l, f ∉ Ls l))
  else if s.age f < threshold then f ∈ Ls .fixies ∧ s.isDirty f = false
  else if s.isDirty f = true then f ∈ Ls .dirty else f ∈ Ls .tenured

/-- Between collections, or during one: `major` or not, and the fixie whose slots are
being visited. -/
inductive Phase where
  | idle
  | gc (major : Bool) (cur : Option Nat)
deriving DecidableEq, Repr

/-- The right list for a fixie that the current collection has marked. -/
def MarkedPlace (s : St) (Ls : L → List Nat) (ph : Phase) (f : Nat) : Prop :=
  match ph with
  | .idle => False
  | .gc major cur =>
    (major = true ∨ s.age f < threshold) ∧ (s.isDirty f = true → threshold ≤ s.age f + 1) ∧
    (if cur = some f then ((∀ l, f ∉ Ls l) ∨ f ∈ Ls .dirty ∧ s.isDirty f = true)
     else f ∈ Ls .marked ∨ f ∈ Ls .visited)

/-- Whether the current collection frees an unmarked fixie. -/
def Doomed (s : St) (ph : Phase) (f : Nat) : Prop :=
  match ph with
  | .idle => False
  | .gc major _ => s.mark f = false ∧ immortal s f = false ∧ (major = true ∨ s.age f < threshold)

structure Inv (s : St) (Ls : L → List Nat) (ph : Phase) : Prop where
  rep : Rep s.mem Ls
  nodup : s.live.Nodup
  ne0 : 0 ∉ s.live
  isLive : ∀ l f, f ∈ Ls l → f ∈ s.live
  aged : ∀ f ∈ s.live, s.age f ≤ threshold + 1
  plain : ∀ f ∈ s.live, s.mark f = false → Place s Ls f
  busy : ∀ f ∈ s.live, s.mark f = true → MarkedPlace s Ls ph f
  cur : ∀ major f, ph = .gc major (some f) → f ∈ s.live ∧ s.mark f = true
  rest : ph = .idle → Ls .marked = [] ∧ Ls .visited = []
  killed : ∀ f ∈ s.live, s.dead f = true → Doomed s ph f

theorem inv_empty : Inv empty (fun _ => []) .idle where
  rep := ⟨fun _ => rfl, fun _ => List.nodup_nil, (by intro _ _ f h; cases h), fun _ _ => ⟨rfl, rfl⟩⟩
  nodup := List.nodup_nil
  ne0 := by intro h; cases h
  isLive := by intro _ _ h; cases h
  aged := by intro _ h; cases h
  plain := by intro _ h; cases h
  busy := by intro _ h; cases h
  cur := by intro _ _ h; cases h
  rest := fun _ => ⟨rfl, rfl⟩
  killed := by intro _ h; cases h

theorem inv_ne0 {s : St} {Ls : L → List Nat} {ph : Phase} (h : Inv s Ls ph) {f : Nat} (hf : f ∈ s.live) :
    f ≠ 0 := fun he => h.ne0 (he ▸ hf)

/-- An unmarked fixie is on none of the lists a collection builds. -/
theorem plain_lists {s : St} {Ls : L → List Nat} {ph : Phase} (h : Inv s Ls ph) {f : Nat}
    {l : L} (hf : f ∈ Ls l) (hm : s.mark f = false) :
    (l = .fixies ∧ s.age f < threshold ∧ s.isDirty f = false) ∨
    (l = .tenured ∧ threshold ≤ s.age f ∧ s.isDirty f = false) ∨
    (l = .dirty ∧ threshold ≤ s.age f ∧ s.isDirty f = true) := by
  have hp := h.plain f (h.isLive l f hf) hm
  unfold Place at hp
  split at hp
  · rename_i hi
    have ha : s.age f = threshold + 1 := by simpa [immortal] using hi
    split at hp
    · rename_i hd
      exact Or.inr (Or.inr ⟨h.rep.disj _ _ f hf hp, by omega, hd⟩)
    · rename_i hd
      rcases hp with hp | hp
      · exact Or.inr (Or.inl ⟨h.rep.disj _ _ f hf hp, by omega, by simpa using hd⟩)
      · exact absurd hf (hp l)
  · split at hp
    · rename_i ha
      exact Or.inl ⟨h.rep.disj _ _ f hf hp.1, ha, hp.2⟩
    · rename_i ha
      split at hp
      · rename_i hd
        exact Or.inr (Or.inr ⟨h.rep.disj _ _ f hf hp, by omega, hd⟩)
      · rename_i hd
        exact Or.inr (Or.inl ⟨h.rep.disj _ _ f hf hp, by omega, by simpa using hd⟩)

/-- A marked fixie that is not being visited is on one of the lists a collection builds. -/
theorem busy_lists {s : St} {Ls : L → List Nat} {major : Bool} {c : Option Nat}
    (h : Inv s Ls (.gc major c)) {f : Nat} (hf : f ∈ s.live) (hm : s.mark f = true) (hc : c ≠ some f) :
    (major = true ∨ s.age f < threshold) ∧ (s.isDirty f = true → threshold ≤ s.age f + 1) ∧
      (f ∈ Ls .marked ∨ f ∈ Ls .visited) := by
  have := h.busy f hf hm
  simp only [MarkedPlace, if_neg hc] at this
  exact this

/-- `Place` is about one fixie: it survives any change that keeps that fixie's fields and
membership. -/
theorem place_congr {s s' : St} {Ls Ls' : L → List Nat} {f : Nat} (h : Place s Ls f)
    (ha : s'.age f = s.age f) (hd : s'.isDirty f = s.isDirty f)
    (hl : ∀ l, f ∈ Ls' l ↔ f ∈ Ls l) : Place s' Ls' f := by
  unfold Place immortal at *
  rw [ha, hd]
  simp only [hl]
  exact h

theorem marked_congr {s s' : St} {Ls Ls' : L → List Nat} {major : Bool} {c c' : Option Nat} {f : Nat}
    (h : MarkedPlace s Ls (.gc major c) f)
    (ha : s'.age f = s.age f) (hd : s'.isDirty f = s.isDirty f)
    (hl : ∀ l, f ∈ Ls' l ↔ f ∈ Ls l) (hc : c = some f ↔ c' = some f) :
    MarkedPlace s' Ls' (.gc major c') f := by
  unfold MarkedPlace at *
  simp only [ha, hd, hl, ← hc] at *
  exact h

/-! ### Steps -/

theorem inv_alloc {s : St} {Ls : L → List Nat} (h : Inv s Ls .idle) {f : Nat} (hf : f ∉ s.live)
    (h0 : f ≠ 0) (imm : Bool) : ∃ Ls', Inv (alloc s f imm) Ls' .idle := by
  have hno : ∀ l, f ∉ Ls l := fun l hm => hf (h.isLive l f hm)
  obtain ⟨g1, g2⟩ := h.rep.off f hno
  have hmem : ({ s.mem with next := upd s.mem.next f 0, handle := upd s.mem.handle f .null } : Mem) = s.mem := by
    have a1 : upd s.mem.next f 0 = s.mem.next := by
      funext x; unfold upd; split
      · rename_i hx; rw [hx, g2]
      · rfl
    have a2 : upd s.mem.handle f .null = s.mem.handle := by
      funext x; unfold upd; split
      · rename_i hx; rw [hx, g1]
      · rfl
    rw [a1, a2]
  have hne : ∀ g ∈ s.live, g ≠ f := fun g hg he => hf (he ▸ hg)
  cases imm with
  | true =>
    have hadd : add s.mem f .null = s.mem := by
      simp only [add, ne_eq, not_true_eq_false, if_false]
      have a1 : upd s.mem.next f 0 = s.mem.next := by
        funext x; unfold upd; split
        · rename_i hx; rw [hx, g2]
        · rfl
      have a2 : upd s.mem.handle f .null = s.mem.handle := by
        funext x; unfold upd; split
        · rename_i hx; rw [hx, g1]
        · rfl
      rw [a1, a2]
    refine ⟨Ls, ?_, ?_, ?_, ?_, ?_, ?_, ?_, ?_, ?_, ?_⟩
    · simp only [alloc, if_true]; rw [hmem, hadd]; exact h.rep
    · exact List.nodup_cons.2 ⟨hf, h.nodup⟩
    · intro hm; rcases List.mem_cons.1 hm with e | e
      · exact h0 e.symm
      · exact h.ne0 e
    · intro l g hg; exact List.mem_cons_of_mem _ (h.isLive l g hg)
    · intro g hg
      rcases List.mem_cons.1 hg with rfl | hg
      · simp [alloc, upd]
      · simp only [alloc]; rw [upd_other _ _ (hne g hg)]; exact h.aged g hg
    · intro g hg hm
      rcases List.mem_cons.1 hg with rfl | hg
      · simp only [Place, immortal, alloc, upd_same]; simp [hno]
      · simp only [alloc] at hm; rw [upd_other _ _ (hne g hg)] at hm
        refine place_congr (h.plain g hg hm) ?_ ?_ (fun _ => Iff.rfl)
        · simp only [alloc]; exact upd_other _ _ (hne g hg)
        · simp only [alloc]; exact upd_other _ _ (hne g hg)
    · intro g hg hm
      rcases List.mem_cons.1 hg with rfl | hg
      · simp [alloc, upd_same] at hm
      · simp only [alloc] at hm; rw [upd_other _ _ (hne g hg)] at hm; exact (h.busy g hg hm).elim
    · intro _ _ he; cases he
    · exact h.rest
    · intro g hg hd
      rcases List.mem_cons.1 hg with rfl | hg
      · simp [alloc, upd_same] at hd
      · simp only [alloc] at hd; rw [upd_other _ _ (hne g hg)] at hd; exact (h.killed g hg hd).elim
  | false =>
    have hL : ∀ l g, g ∈ push Ls .fixies f l ↔ g ∈ Ls l ∨ (g = f ∧ l = .fixies) := fun l g => mem_push
    refine ⟨push Ls .fixies f, ?_, ?_, ?_, ?_, ?_, ?_, ?_, ?_, ?_, ?_⟩
    · simp only [alloc, Bool.false_eq_true, if_false]; rw [hmem]; exact add_rep h.rep hno h0 _
    · exact List.nodup_cons.2 ⟨hf, h.nodup⟩
    · intro hm; rcases List.mem_cons.1 hm with e | e
      · exact h0 e.symm
      · exact h.ne0 e
    · intro l g hg
      rcases (hL l g).1 hg with hg | ⟨rfl, _⟩
      · exact List.mem_cons_of_mem _ (h.isLive l g hg)
      · exact List.mem_cons_self ..
    · intro g hg
      rcases List.mem_cons.1 hg with rfl | hg
      · simp [alloc, upd, threshold]
      · simp only [alloc]; rw [upd_other _ _ (hne g hg)]; exact h.aged g hg
    · intro g hg hm
      rcases List.mem_cons.1 hg with rfl | hg
      · simp only [Place, immortal, alloc, upd_same]
        have : g ∈ push Ls .fixies g .fixies := (hL _ _).2 (Or.inr ⟨rfl, rfl⟩)
        simp [threshold, this]
      · simp only [alloc] at hm; rw [upd_other _ _ (hne g hg)] at hm
        refine place_congr (h.plain g hg hm) ?_ ?_ (fun l => ?_)
        · simp only [alloc]; exact upd_other _ _ (hne g hg)
        · simp only [alloc]; exact upd_other _ _ (hne g hg)
        · rw [hL]; simp [hne g hg]
    · intro g hg hm
      rcases List.mem_cons.1 hg with rfl | hg
      · simp [alloc, upd_same] at hm
      · simp only [alloc] at hm; rw [upd_other _ _ (hne g hg)] at hm; exact (h.busy g hg hm).elim
    · intro _ _ he; cases he
    · intro _
      obtain ⟨r1, r2⟩ := h.rest rfl
      exact ⟨by rw [push, upd_other _ _ (by decide)]; exact r1, by rw [push, upd_other _ _ (by decide)]; exact r2⟩
    · intro g hg hd
      rcases List.mem_cons.1 hg with rfl | hg
      · simp [alloc, upd_same] at hd
      · simp only [alloc] at hd; rw [upd_other _ _ (hne g hg)] at hd; exact (h.killed g hg hd).elim

/-- `markDirty` outside a visit: the fixie is old and unmarked. -/
theorem inv_dirty_plain {s : St} {Ls : L → List Nat} {ph : Phase} (h : Inv s Ls ph) {f : Nat}
    (hf : f ∈ s.live) (hm : s.mark f = false) (ha : threshold ≤ s.age f) :
    ∃ Ls', Inv (markDirty s f) Ls' ph := by
  unfold markDirty
  split
  · exact ⟨Ls, h⟩
  · rename_i hd
    have hL := fun l g => mem_move (Ls := Ls) h.rep.nodup (l := .dirty) (l' := l) (f := f) (x := g)
    refine ⟨push (fun l => (Ls l).erase f) .dirty f, move_rep h.rep (inv_ne0 h hf) _, h.nodup, h.ne0,
      ?_, h.aged, ?_, ?_, h.cur, ?_, h.killed⟩
    · intro l g hg
      rcases (hL l g).1 hg with ⟨_, hg⟩ | ⟨rfl, _⟩
      · exact h.isLive l g hg
      · exact hf
    · intro g hg hgm
      by_cases hgf : g = f
      · subst hgf
        have : g ∈ push (fun l => (Ls l).erase g) .dirty g .dirty := (hL _ _).2 (Or.inr ⟨rfl, rfl⟩)
        unfold Place
        simp only [upd_same, if_true, this]
        split
        · trivial
        · rw [if_neg (by omega)]; trivial
      · refine place_congr (h.plain g hg hgm) rfl ?_ (fun l => ?_)
        · exact upd_other _ _ hgf
        · rw [hL]; simp [hgf]
    · intro g hg hgm
      have hgf : g ≠ f := by intro he; subst he; simp only at hgm; rw [hm] at hgm; cases hgm
      have hb := h.busy g hg hgm
      cases ph with
      | idle => exact hb.elim
      | gc major c =>
        refine marked_congr hb rfl ?_ (fun l => ?_) Iff.rfl
        · exact upd_other _ _ hgf
        · rw [hL]; simp [hgf]
    · intro hi
      obtain ⟨r1, r2⟩ := h.rest hi
      constructor
      · rw [push, upd_other _ _ (by decide)]; show (Ls .marked).erase f = []; rw [r1]; rfl
      · rw [push, upd_other _ _ (by decide)]; show (Ls .visited).erase f = []; rw [r2]; rfl

/-- `markDirty` of the fixie being visited. -/
theorem inv_dirty_cur {s : St} {Ls : L → List Nat} {major : Bool} {f : Nat}
    (h : Inv s Ls (.gc major (some f))) (ha : threshold ≤ s.age f + 1) :
    ∃ Ls', Inv (markDirty s f) Ls' (.gc major (some f)) := by
  obtain ⟨hf, hm⟩ := h.cur major f rfl
  unfold markDirty
  split
  · exact ⟨Ls, h⟩
  · rename_i hd
    have hL := fun l g => mem_move (Ls := Ls) h.rep.nodup (l := .dirty) (l' := l) (f := f) (x := g)
    refine ⟨push (fun l => (Ls l).erase f) .dirty f, move_rep h.rep (inv_ne0 h hf) _, h.nodup, h.ne0,
      ?_, h.aged, ?_, ?_, h.cur, (by intro hi; cases hi), h.killed⟩
    · intro l g hg
      rcases (hL l g).1 hg with ⟨_, hg⟩ | ⟨rfl, _⟩
      · exact h.isLive l g hg
      · exact hf
    · intro g hg hgm
      have hgf : g ≠ f := by intro he; subst he; simp only at hgm; rw [hm] at hgm; cases hgm
      refine place_congr (h.plain g hg hgm) rfl ?_ (fun l => ?_)
      · exact upd_other _ _ hgf
      · rw [hL]; simp [hgf]
    · intro g hg hgm
      by_cases hgf : g = f
      · subst hgf
        have hb := h.busy g hg hm
        have : g ∈ push (fun l => (Ls l).erase g) .dirty g .dirty := (hL _ _).2 (Or.inr ⟨rfl, rfl⟩)
        unfold MarkedPlace at hb ⊢
        refine ⟨hb.1, fun _ => ha, ?_⟩
        rw [if_pos rfl]
        exact Or.inr ⟨this, upd_same _ _ _⟩
      · refine marked_congr (h.busy g hg hgm) rfl ?_ (fun l => ?_) Iff.rfl
        · exact upd_other _ _ hgf
        · rw [hL]; simp [hgf]

theorem inv_clean {s : St} {Ls : L → List Nat} {major : Bool}
    (h : Inv s Ls (.gc major none)) {f : Nat} (hf : f ∈ Ls .dirty) :
    ∃ Ls', Inv (markClean s f) Ls' (.gc major none) := by
  have hfl := h.isLive _ f hf
  have hm : s.mark f = false := by
    cases hm : s.mark f
    · rfl
    · have := (busy_lists h hfl hm (by simp)).2.2
      rcases this with hh | hh
      · exact absurd (h.rep.disj _ _ f hf hh) (by decide)
      · exact absurd (h.rep.disj _ _ f hf hh) (by decide)
  have ha : threshold ≤ s.age f ∧ s.isDirty f = true := by
    rcases plain_lists h hf hm with ⟨e, _⟩ | ⟨e, _⟩ | ⟨_, e1, e2⟩
    · cases e
    · cases e
    · exact ⟨e1, e2⟩
  unfold markClean
  rw [if_pos ha.2]
  by_cases hi : immortal s f = true
  · rw [if_pos hi]
    have hL : ∀ l g, g ∈ (Ls l).erase f ↔ g ≠ f ∧ g ∈ Ls l := fun l g => (h.rep.nodup l).mem_erase_iff
    refine ⟨fun l => (Ls l).erase f, remove_rep h.rep f, h.nodup, h.ne0, ?_, h.aged, ?_, ?_, h.cur,
      (by intro hi; cases hi), h.killed⟩
    · intro l g hg; exact h.isLive l g ((hL l g).1 hg).2
    · intro g hg hgm
      by_cases hgf : g = f
      · subst hgf
        unfold Place
        have hi' : immortal { s with isDirty := upd s.isDirty g false, mem := remove s.mem g } g = true := hi
        rw [if_pos hi']
        simp only [upd_same, Bool.false_eq_true, if_false]
        exact Or.inr (fun l hm => ((hL l g).1 hm).1 rfl)
      · refine place_congr (h.plain g hg hgm) rfl ?_ (fun l => ?_)
        · exact upd_other _ _ hgf
        · rw [hL]; simp [hgf]
    · intro g hg hgm
      have hgf : g ≠ f := by intro he; subst he; simp only at hgm; rw [hm] at hgm; cases hgm
      refine marked_congr (h.busy g hg hgm) rfl ?_ (fun l => ?_) Iff.rfl
      · exact upd_other _ _ hgf
      · rw [hL]; simp [hgf]
  · rw [if_neg hi]
    have hL := fun l g => mem_move (Ls := Ls) h.rep.nodup (l := .tenured) (l' := l) (f := f) (x := g)
    refine ⟨push (fun l => (Ls l).erase f) .tenured f, move_rep h.rep (inv_ne0 h hfl) _, h.nodup, h.ne0,
      ?_, h.aged, ?_, ?_, h.cur, (by intro hi; cases hi), h.killed⟩
    · intro l g hg
      rcases (hL l g).1 hg with ⟨_, hg⟩ | ⟨rfl, _⟩
      · exact h.isLive l g hg
      · exact hfl
    · intro g hg hgm
      by_cases hgf : g = f
      · subst hgf
        have : g ∈ push (fun l => (Ls l).erase g) .tenured g .tenured := (hL _ _).2 (Or.inr ⟨rfl, rfl⟩)
        unfold Place
        rw [if_neg (by exact hi), if_neg (by simp only; omega)]
        simp only [upd_same, Bool.false_eq_true, if_false]
        exact this
      · refine place_congr (h.plain g hg hgm) rfl ?_ (fun l => ?_)
        · exact upd_other _ _ hgf
        · rw [hL]; simp [hgf]
    · intro g hg hgm
      have hgf : g ≠ f := by intro he; subst he; simp only at hgm; rw [hm] at hgm; cases hgm
      refine marked_congr (h.busy g hg hgm) rfl ?_ (fun l => ?_) Iff.rfl
      · exact upd_other _ _ hgf
      · rw [hL]; simp [hgf]

theorem inv_touch {s : St} {Ls : L → List Nat} {major : Bool} {c : Option Nat}
    (h : Inv s Ls (.gc major c)) {f : Nat} (hf : f ∈ s.live) :
    ∃ Ls', Inv (touch s major f) Ls' (.gc major c) := by
  unfold touch
  split
  · rename_i hcond
    simp only [Bool.and_eq_true, Bool.not_eq_true', Bool.or_eq_true, decide_eq_true_eq] at hcond
    obtain ⟨hm, hage⟩ := hcond
    have hL := fun l g => mem_move (Ls := Ls) h.rep.nodup (l := .marked) (l' := l) (f := f) (x := g)
    have hcf : c ≠ some f := by
      intro he; subst he
      have := (h.cur major f rfl).2
      rw [hm] at this; cases this
    refine ⟨push (fun l => (Ls l).erase f) .marked f, move_rep h.rep (inv_ne0 h hf) _, h.nodup, h.ne0,
      ?_, h.aged, ?_, ?_, ?_, (by intro hi; cases hi), ?_⟩
    · intro l g hg
      rcases (hL l g).1 hg with ⟨_, hg⟩ | ⟨rfl, _⟩
      · exact h.isLive l g hg
      · exact hf
    · intro g hg hgm
      have hgf : g ≠ f := by intro he; subst he; simp [upd_same] at hgm
      simp only [upd_other _ _ hgf] at hgm
      refine place_congr (h.plain g hg hgm) rfl rfl (fun l => ?_)
      rw [hL]; simp [hgf]
    · intro g hg hgm
      by_cases hgf : g = f
      · subst hgf
        have : g ∈ push (fun l => (Ls l).erase g) .marked g .marked := (hL _ _).2 (Or.inr ⟨rfl, rfl⟩)
        refine ⟨hage, ?_, ?_⟩
        · intro hd
          simp only at hd
          have hp := h.plain g hg hm
          unfold Place at hp
          split at hp
          · rename_i hi
            have : s.age g = threshold + 1 := by simpa [immortal] using hi
            simp only; omega
          · split at hp
            · rw [hp.2] at hd; cases hd
            · simp only; omega
        · rw [if_neg hcf]; exact Or.inl this
      · simp only [upd_other _ _ hgf] at hgm
        refine marked_congr (h.busy g hg hgm) rfl rfl (fun l => ?_) Iff.rfl
        rw [hL]; simp [hgf]
    · intro mj g he
      obtain ⟨h1, h2⟩ := h.cur mj g he
      refine ⟨h1, ?_⟩
      simp only [upd]; split
      · rfl
      · exact h2
    · intro g hg hgd
      have hgf : g ≠ f := by intro he; subst he; simp [upd_same] at hgd
      simp only [upd_other _ _ hgf] at hgd
      have := h.killed g hg hgd
      unfold Doomed at this ⊢
      refine ⟨?_, this.2⟩
      simp only [upd_other _ _ hgf]; exact this.1
  · exact ⟨Ls, h⟩

theorem inv_begin {s : St} {Ls : L → List Nat} {major : Bool}
    (h : Inv s Ls (.gc major none)) (hf : s.mem.heads .marked ≠ 0) :
    ∃ Ls', Inv (visitBegin s (s.mem.heads .marked)) Ls' (.gc major (some (s.mem.heads .marked))) := by
  have hin : s.mem.heads .marked ∈ Ls .marked := by
    rcases rep_read_head h.rep .marked with ⟨e, _⟩ | ⟨_, e⟩
    · exact absurd e hf
    · exact e
  generalize s.mem.heads .marked = f at *
  have hfl := h.isLive _ f hin
  have hm : s.mark f = true := by
    cases hm : s.mark f
    · rcases plain_lists h hin hm with ⟨e, _⟩ | ⟨e, _⟩ | ⟨e, _⟩ <;> cases e
    · rfl
  have hL : ∀ l g, g ∈ (Ls l).erase f ↔ g ≠ f ∧ g ∈ Ls l := fun l g => (h.rep.nodup l).mem_erase_iff
  refine ⟨fun l => (Ls l).erase f, remove_rep h.rep f, h.nodup, h.ne0, ?_, h.aged, ?_, ?_, ?_,
    (by intro hi; cases hi), h.killed⟩
  · intro l g hg; exact h.isLive l g ((hL l g).1 hg).2
  · intro g hg hgm
    have hgf : g ≠ f := by intro he; subst he; simp only [visitBegin] at hgm; rw [hm] at hgm; cases hgm
    refine place_congr (h.plain g hg hgm) rfl rfl (fun l => ?_)
    rw [hL]; simp [hgf]
  · intro g hg hgm
    by_cases hgf : g = f
    · subst hgf
      have hb := h.busy g hg hm
      refine ⟨hb.1, hb.2.1, ?_⟩
      rw [if_pos rfl]
      exact Or.inl (fun l hh => ((hL l g).1 hh).1 rfl)
    · refine marked_congr (h.busy g hg hgm) rfl rfl (fun l => ?_) ?_
      · rw [hL]; simp [hgf]
      · simp only [reduceCtorEq, Option.some.injEq, false_iff]; exact fun he => hgf he.symm
  · intro mj g he
    simp only [Phase.gc.injEq, Option.some.injEq] at he
    obtain ⟨_, rfl⟩ := he
    exact ⟨hfl, hm⟩

theorem inv_end {s : St} {Ls : L → List Nat} {major : Bool} {f : Nat}
    (h : Inv s Ls (.gc major (some f))) : ∃ Ls', Inv (visitEnd s f) Ls' (.gc major none) := by
  obtain ⟨hf, hm⟩ := h.cur major f rfl
  have hL := fun l g => mem_move (Ls := Ls) h.rep.nodup (l := .visited) (l' := l) (f := f) (x := g)
  refine ⟨push (fun l => (Ls l).erase f) .visited f, move_rep h.rep (inv_ne0 h hf) _, h.nodup, h.ne0,
    ?_, h.aged, ?_, ?_, (by intro _ _ he; cases he), (by intro hi; cases hi), h.killed⟩
  · intro l g hg
    rcases (hL l g).1 hg with ⟨_, hg⟩ | ⟨rfl, _⟩
    · exact h.isLive l g hg
    · exact hf
  · intro g hg hgm
    have hgf : g ≠ f := by intro he; subst he; simp only [visitEnd] at hgm; rw [hm] at hgm; cases hgm
    refine place_congr (h.plain g hg hgm) rfl rfl (fun l => ?_)
    rw [hL]; simp [hgf]
  · intro g hg hgm
    by_cases hgf : g = f
    · subst hgf
      have hb := h.busy g hg hm
      refine ⟨hb.1, hb.2.1, ?_⟩
      rw [if_neg (by simp)]
      exact Or.inr ((hL _ _).2 (Or.inr ⟨rfl, rfl⟩))
    · refine marked_congr (h.busy g hg hgm) rfl rfl (fun l => ?_) ?_
      · rw [hL]; simp [hgf]
      · simp only [Option.some.injEq, reduceCtorEq, iff_false]; exact fun he => hgf he.symm

theorem length_lt {xs : List Nat} : ∀ {ys : List Nat}, xs.Nodup → (∀ x ∈ xs, x ∈ ys) → xs.length ≤ ys.length := by
  induction xs with
  | nil => intro ys _ _; exact Nat.zero_le _
  | cons a as ih =>
    intro ys hnd hsub
    obtain ⟨ha, hnd'⟩ := List.nodup_cons.1 hnd
    have hay := hsub a (List.mem_cons_self ..)
    have := ih (ys := ys.erase a) hnd' (fun x hx =>
      (List.mem_erase_of_ne (fun he => ha (by rw [← he]; exact hx))).2 (hsub x (List.mem_cons_of_mem _ hx)))
    rw [List.length_erase_of_mem hay] at this
    have hpos : 0 < ys.length := List.length_pos_of_mem hay
    simp only [List.length_cons]
    omega

theorem inv_fuel {s : St} {Ls : L → List Nat} {ph : Phase} (h : Inv s Ls ph) (l : L) :
    (Ls l).length < s.live.length + 1 :=
  Nat.lt_succ_of_le (length_lt (h.rep.nodup l) (h.isLive l))

/-- The lists `kill` walks. -/
def Walked (Ls : L → List Nat) (major : Bool) (f : Nat) : Prop :=
  f ∈ Ls .fixies ∨ (major = true ∧ (f ∈ Ls .tenured ∨ f ∈ Ls .dirty))

theorem kill_eq {s : St} {Ls : L → List Nat} {ph : Phase} (h : Inv s Ls ph) (major : Bool) :
    kill s major = { s with dead := (kill s major).dead } ∧
    ∀ f, (kill s major).dead f = true ↔
      s.dead f = true ∨ (Walked Ls major f ∧ immortal s f = false) := by
  have e1 : NChain s.mem (s.mem.heads .tenured) (Ls .tenured) := chain_nchain (h.rep.chain .tenured)
  have e2 : NChain s.mem (s.mem.heads .dirty) (Ls .dirty) := chain_nchain (h.rep.chain .dirty)
  have e3 : NChain s.mem (s.mem.heads .fixies) (Ls .fixies) := chain_nchain (h.rep.chain .fixies)
  unfold kill
  cases major with
  | false =>
    simp only [Bool.false_eq_true, if_false]
    rw [killLoop_spec _ _ s _ (inv_fuel h .fixies) e3]
    refine ⟨rfl, ?_⟩
    intro f
    simp only [Walked, Bool.false_eq_true, false_and, or_false]
    split
    · rename_i hc; simp [hc]
    · rename_i hc; simp [hc]
  | true =>
    simp only [if_true]
    rw [killLoop_spec _ _ s _ (inv_fuel h .tenured) e1]
    generalize hs1 : ({ s with dead := fun x => if x ∈ Ls .tenured ∧ immortal s x = false then true else s.dead x } : St) = s1
    have m1 : s1.mem = s.mem := by subst hs1; rfl
    rw [killLoop_spec (Ls .dirty) _ s1 (s1.mem.heads .dirty) (inv_fuel h .dirty) (by rw [m1]; exact e2)]
    generalize hs2 : ({ s1 with dead := fun x => if x ∈ Ls .dirty ∧ immortal s1 x = false then true else s1.dead x } : St) = s2
    have m2 : s2.mem = s.mem := by subst hs2; exact m1
    rw [killLoop_spec (Ls .fixies) _ s2 (s2.mem.heads .fixies) (inv_fuel h .fixies) (by rw [m2]; exact e3)]
    subst hs2 hs1
    refine ⟨rfl, ?_⟩
    intro f
    simp only [Walked, true_and, immortal]
    by_cases a1 : f ∈ Ls .fixies <;> by_cases a2 : f ∈ Ls .tenured <;> by_cases a3 : f ∈ Ls .dirty <;>
      by_cases a4 : (s.age f == threshold + 1) = false <;> simp [a1, a2, a3, a4]

theorem walked_doomed {s : St} {Ls : L → List Nat} {major : Bool}
    (h : Inv s Ls (.gc major none)) {f : Nat} (hf : f ∈ s.live) (hi : immortal s f = false) :
    Walked Ls major f ↔ Doomed s (.gc major none) f := by
  constructor
  · intro hw
    have hm : s.mark f = false := by
      cases hm : s.mark f
      · rfl
      · have := (busy_lists h hf hm (by simp)).2.2
        rcases hw with hw | ⟨_, hw | hw⟩ <;> rcases this with hh | hh <;>
          exact absurd (h.rep.disj _ _ f hw hh) (by decide)
    refine ⟨hm, hi, ?_⟩
    rcases hw with hw | ⟨hmj, _⟩
    · rcases plain_lists h hw hm with ⟨_, e, _⟩ | ⟨e, _⟩ | ⟨e, _⟩
      · exact Or.inr e
      · cases e
      · cases e
    · exact Or.inl hmj
  · rintro ⟨hm, _, hmj⟩
    have hp := h.plain f hf hm
    unfold Place at hp
    rw [if_neg (by rw [hi]; decide)] at hp
    split at hp
    · exact Or.inl hp.1
    · rename_i hage
      rcases hmj with hmj | hmj
      · split at hp
        · exact Or.inr ⟨hmj, Or.inr hp⟩
        · exact Or.inr ⟨hmj, Or.inl hp⟩
      · exact absurd hmj hage

theorem inv_kill {s : St} {Ls : L → List Nat} {major : Bool} (h : Inv s Ls (.gc major none)) :
    Inv (kill s major) Ls (.gc major none) := by
  obtain ⟨he, hd⟩ := kill_eq h major
  rw [he]
  refine ⟨h.rep, h.nodup, h.ne0, h.isLive, h.aged, h.plain, h.busy, h.cur, h.rest, ?_⟩
  intro f hf hfd
  rcases (hd f).1 hfd with e | ⟨e1, e2⟩
  · exact h.killed f hf e
  · exact (walked_doomed h hf e2).1 e1

/-! ### Sweeping -/

/-- Invariant of the loop over `visitedFixies`. -/
structure Sweeping (s : St) (Ls : L → List Nat) : Prop where
  rep : Rep s.mem Ls
  nodup : s.live.Nodup
  ne0 : 0 ∉ s.live
  isLive : ∀ l f, f ∈ Ls l → f ∈ s.live
  aged : ∀ f ∈ s.live, s.age f ≤ threshold + 1
  plain : ∀ f ∈ s.live, s.mark f = false → Place s Ls f
  busy : ∀ f ∈ s.live, s.mark f = true → f ∈ Ls .visited ∧ (s.isDirty f = true → threshold ≤ s.age f + 1)
  only : ∀ f ∈ Ls .visited, s.mark f = true
  noMark : Ls .marked = []
  killed : ∀ f ∈ s.live, s.dead f = false

/-- The age of a fixie after a collection that marked it. -/
def older (a : Nat) : Nat :=
  if a = threshold + 1 then a else if threshold < a + 1 then threshold else a + 1

theorem sweepOne_eq (s : St) (f : Nat) : sweepOne s f =
    { s with
      mem := add (remove s.mem f) f (.head (if threshold ≤ older (s.age f) then
        (if s.isDirty f = true then .dirty else .tenured) else .fixies))
      age := upd s.age f (older (s.age f))
      mark := upd s.mark f false } := by
  have : (if immortal s f = true then s.age f
      else if threshold < s.age f + 1 then threshold else s.age f + 1) = older (s.age f) := by
    simp only [immortal, older, beq_iff_eq]
  simp only [sweepOne, this]

theorem sweeping_one {s : St} {Ls : L → List Nat} (h : Sweeping s Ls) {f : Nat} (hf : f ∈ Ls .visited) :
    ∃ l, Sweeping (sweepOne s f) (push (fun l => (Ls l).erase f) l f) ∧ l ≠ .visited := by
  rw [sweepOne_eq]
  generalize hl : (if threshold ≤ older (s.age f) then
        (if s.isDirty f = true then L.dirty else .tenured) else .fixies) = l
  have hlm : l ≠ .marked ∧ l ≠ .visited := by
    subst hl; split
    · split <;> decide
    · decide
  have hfl := h.isLive _ f hf
  have hm := h.only f hf
  obtain ⟨_, hdirty⟩ := h.busy f hfl hm
  have hL := fun l' g => mem_move (Ls := Ls) h.rep.nodup (l := l) (l' := l') (f := f) (x := g)
  refine ⟨l, ⟨move_rep h.rep (fun he => h.ne0 (he ▸ hfl)) l, h.nodup, h.ne0, ?_, ?_, ?_, ?_, ?_, ?_, h.killed⟩, hlm.2⟩
  · intro l' g hg
    rcases (hL l' g).1 hg with ⟨_, hg⟩ | ⟨rfl, _⟩
    · exact h.isLive l' g hg
    · exact hfl
  · intro g hg
    simp only [upd]
    split
    · unfold older
      have := h.aged f hfl
      split
      · exact this
      · split <;> omega
    · exact h.aged g hg
  · intro g hg hgm
    by_cases hgf : g = f
    · subst hgf
      have hin : g ∈ push (fun l => (Ls l).erase g) l g l := (hL _ _).2 (Or.inr ⟨rfl, rfl⟩)
      unfold Place
      simp only [immortal, upd_same, beq_iff_eq]
      have hag := h.aged g hfl
      by_cases h6 : older (s.age g) = threshold + 1
      · have : threshold ≤ older (s.age g) := by omega
        rw [if_pos this] at hl
        rw [if_pos h6]
        cases hd : s.isDirty g <;> rw [hd] at hl <;> simp at hl <;> subst hl
        · simp only [Bool.false_eq_true, if_false]; exact Or.inl hin
        · simp only [if_true]; exact hin
      · rw [if_neg h6]
        by_cases h5 : threshold ≤ older (s.age g)
        · rw [if_pos h5] at hl
          rw [if_neg (by omega)]
          cases hd : s.isDirty g <;> rw [hd] at hl <;> simp at hl <;> subst hl
          · simp only [Bool.false_eq_true, if_false]; exact hin
          · simp only [if_true]; exact hin
        · rw [if_neg h5] at hl
          subst hl
          rw [if_pos (by omega)]
          refine ⟨hin, ?_⟩
          cases hd : s.isDirty g
          · rfl
          · exfalso
            have := hdirty hd
            unfold older at h5
            split at h5
            · omega
            · split at h5 <;> omega
    · simp only [upd_other _ _ hgf] at hgm
      refine place_congr (h.plain g hg hgm) (upd_other _ _ hgf) rfl (fun l' => ?_)
      rw [hL]; simp [hgf]
  · intro g hg hgm
    by_cases hgf : g = f
    · subst hgf; simp [upd_same] at hgm
    · simp only [upd_other _ _ hgf] at hgm ⊢
      obtain ⟨b1, b2⟩ := h.busy g hg hgm
      exact ⟨(hL _ _).2 (Or.inl ⟨hgf, b1⟩), b2⟩
  · intro g hg
    rcases (hL _ g).1 hg with ⟨hgf, hg⟩ | ⟨_, e⟩
    · simp only [upd_other _ _ hgf]; exact h.only g hg
    · exact absurd e.symm hlm.2
  · rw [push, upd_other _ _ (Ne.symm hlm.1)]
    show (Ls .marked).erase f = []
    rw [h.noMark]; rfl

theorem sweepLoop_spec : ∀ (n : Nat) (s : St) (Ls : L → List Nat), Sweeping s Ls →
    (Ls .visited).length < n →
    ∃ Ls', Sweeping (sweepLoop n s) Ls' ∧ Ls' .visited = [] ∧ (sweepLoop n s).live = s.live ∧
      (∀ f, (sweepLoop n s).age f = if f ∈ Ls .visited then older (s.age f) else s.age f) ∧
      (sweepLoop n s).isDirty = s.isDirty := by
  intro n
  induction n with
  | zero => intro s Ls _ hn; cases hn
  | succ n ih =>
    intro s Ls h hn
    simp only [sweepLoop]
    rcases rep_read_head h.rep .visited with ⟨e1, e2⟩ | ⟨e1, e2⟩
    · rw [if_pos e1]
      refine ⟨Ls, h, e2, rfl, ?_, rfl⟩
      intro f; rw [e2]; simp
    · rw [if_neg e1]
      generalize s.mem.heads .visited = f at *
      obtain ⟨l, h', hl⟩ := sweeping_one h e2
      have hlen : (push (fun l => (Ls l).erase f) l f .visited).length < n := by
        rw [push, upd_other _ _ (Ne.symm hl)]
        have := List.length_erase_of_mem e2
        have hp := List.length_pos_of_mem e2
        omega
      obtain ⟨Ls', g1, g2, g3, g4, g5⟩ := ih _ _ h' hlen
      refine ⟨Ls', g1, g2, ?_, ?_, ?_⟩
      · rw [g3, sweepOne_eq]
      · intro x
        rw [g4, push, upd_other _ _ (Ne.symm hl)]
        simp only [(h.rep.nodup .visited).mem_erase_iff, sweepOne_eq]
        by_cases hx : x = f
        · subst hx; simp [upd_same, e2]
        · simp [hx, upd_other _ _ hx]
      · rw [g5, sweepOne_eq]

/-- What a sweep keeps. -/
def Keeps (s : St) (major : Bool) (f : Nat) : Prop :=
  immortal s f = true ∨ s.mark f = true ∨ (major = false ∧ threshold ≤ s.age f)

theorem sweep_spec {s : St} {Ls : L → List Nat} {major : Bool} (h : Inv s Ls (.gc major none))
    (hm : s.mem.heads .marked = 0) :
    (∃ Ls', Inv (sweep s major) Ls' .idle) ∧
    (∀ f, f ∈ (sweep s major).live ↔ f ∈ s.live ∧ Keeps s major f) ∧
    (∀ f ∈ (sweep s major).live, (sweep s major).age f = if s.mark f = true then older (s.age f) else s.age f) ∧
    (∀ f ∈ (sweep s major).live, s.mark f = true → (sweep s major).isDirty f = s.isDirty f) := by
  have hmk : Ls .marked = [] := by
    rcases rep_read_head h.rep .marked with ⟨_, e⟩ | ⟨e, _⟩
    · exact e
    · exact absurd hm e
  have hvis : ∀ f ∈ s.live, (s.mark f = true ↔ f ∈ Ls .visited) := by
    intro f hf
    constructor
    · intro hmf
      rcases (busy_lists h hf hmf (by simp)).2.2 with e | e
      · rw [hmk] at e; cases e
      · exact e
    · intro hv
      cases hmf : s.mark f
      · rcases plain_lists h hv hmf with ⟨e, _⟩ | ⟨e, _⟩ | ⟨e, _⟩ <;> cases e
      · rfl
  have hmarked : ∀ l f, f ∈ Ls l → l ≠ .visited → s.mark f = false := by
    intro l f hf hl
    cases hmf : s.mark f
    · rfl
    · exact absurd (h.rep.disj _ _ f hf ((hvis f (h.isLive l f hf)).1 hmf)) hl
  have fuel : ∀ (s' : St) (l : L), s'.live.length ≤ s.live.length → (Ls l).length < s.live.length + 1 :=
    fun _ l _ => inv_fuel h l
  -- what is left after the lists of unmarked fixies have been freed
  have main : ∀ (s3 : St) (Ls3 : L → List Nat), Rep s3.mem Ls3 → s3.live.Nodup →
      (∀ f, f ∈ s3.live ↔ f ∈ s.live ∧ Keeps s major f) → s3.age = s.age →
      (∀ f ∈ s3.live, s3.mark f = s.mark f) → (∀ f ∈ s3.live, s.mark f = true → s3.isDirty f = s.isDirty f) →
      s3.dead = s.dead → Ls3 .visited = Ls .visited → Ls3 .marked = [] →
      (∀ l f, f ∈ Ls3 l → f ∈ s3.live) → (∀ f ∈ s3.live, s.mark f = false → Place s3 Ls3 f) →
      (∃ Ls', Inv (sweepLoop (s.live.length + 1) s3) Ls' .idle) ∧
      (∀ f, f ∈ (sweepLoop (s.live.length + 1) s3).live ↔ f ∈ s.live ∧ Keeps s major f) ∧
      (∀ f ∈ (sweepLoop (s.live.length + 1) s3).live, (sweepLoop (s.live.length + 1) s3).age f =
        if s.mark f = true then older (s.age f) else s.age f) ∧
      (∀ f ∈ (sweepLoop (s.live.length + 1) s3).live, s.mark f = true →
        (sweepLoop (s.live.length + 1) s3).isDirty f = s.isDirty f) := by
    intro s3 Ls3 hrep hnd hlive hage hmark hdirty hdead hv hmk3 hisl hplace
    have hsw : Sweeping s3 Ls3 := by
      refine ⟨hrep, hnd, fun h0 => h.ne0 ((hlive 0).1 h0).1, hisl, ?_, ?_, ?_, ?_, hmk3, ?_⟩
      · intro f hf; rw [hage]; exact h.aged f ((hlive f).1 hf).1
      · intro f hf hmf; exact hplace f hf (by rw [← hmark f hf]; exact hmf)
      · intro f hf hmf
        rw [hmark f hf] at hmf
        rw [hv, hdirty f hf hmf, hage]
        have hfl := ((hlive f).1 hf).1
        exact ⟨(hvis f hfl).1 hmf, (busy_lists h hfl hmf (by simp)).2.1⟩
      · intro f hf
        have hfl := hisl _ f hf
        rw [hmark f hfl]
        rw [hv] at hf
        exact (hvis f ((hlive f).1 hfl).1).2 hf
      · intro f hf
        rw [hdead]
        obtain ⟨hfl, hk⟩ := (hlive f).1 hf
        cases hd : s.dead f
        · rfl
        · exfalso
          obtain ⟨d1, d2, d3⟩ := h.killed f hfl hd
          rcases hk with hk | hk | ⟨hk1, hk2⟩
          · rw [d2] at hk; cases hk
          · rw [d1] at hk; cases hk
          · rcases d3 with d3 | d3
            · rw [d3] at hk1; cases hk1
            · omega
    obtain ⟨Ls', g1, g2, g3, g4, g5⟩ := sweepLoop_spec (s.live.length + 1) s3 Ls3 hsw
      (by rw [hv]; exact inv_fuel h .visited)
    have gnone : ∀ f ∈ (sweepLoop (s.live.length + 1) s3).live,
        (sweepLoop (s.live.length + 1) s3).mark f = false := by
      intro f hf
      cases hmf : (sweepLoop (s.live.length + 1) s3).mark f
      · rfl
      · have := (g1.busy f hf hmf).1
        rw [g2] at this; cases this
    refine ⟨⟨Ls', g1.rep, g1.nodup, g1.ne0, g1.isLive, g1.aged, g1.plain, ?_, (by intro _ _ he; cases he),
      fun _ => ⟨g1.noMark, g2⟩, ?_⟩, ?_, ?_, ?_⟩
    · intro f hf hmf; rw [gnone f hf] at hmf; cases hmf
    · intro f hf hd; rw [g1.killed f hf] at hd; cases hd
    · intro f; rw [g3]; exact hlive f
    · intro f hf
      rw [g3] at hf
      rw [g4, hv, hage]
      have := hvis f ((hlive f).1 hf).1
      by_cases hmf : s.mark f = true
      · rw [if_pos (this.1 hmf), if_pos hmf]
      · rw [if_neg (fun hh => hmf (this.2 hh)), if_neg hmf]
    · intro f hf hmf
      rw [g3] at hf
      rw [g5]; exact hdirty f hf hmf
  have nofix : ∀ f ∈ Ls .fixies, immortal s f = false := by
    intro f hf
    rcases plain_lists h hf (hmarked _ f hf (by decide)) with ⟨_, e, _⟩ | ⟨e, _⟩ | ⟨e, _⟩
    · simp only [immortal, beq_eq_false_iff_ne]; omega
    · cases e
    · cases e
  unfold sweep
  cases major with
  | false =>
    simp only [Bool.false_eq_true, if_false]
    have F := freeLoop_spec false .fixies (Ls .fixies) (s.live.length + 1) s (inv_fuel h _)
      (chain_nchain (h.rep.chain .fixies)) (h.rep.nodup _) h.nodup
      (by intro f hf hi; rw [nofix f hf] at hi; cases hi)
    have R := freed_rep h.rep F
    refine main _ _ R F.nodup ?_ F.age ?_ ?_ F.dead ?_ ?_ ?_ ?_
    · intro f
      rw [F.live]
      constructor
      · rintro ⟨hf, hx⟩
        refine ⟨hf, ?_⟩
        unfold Keeps
        rcases hx with hx | hx
        · cases hmf : s.mark f
          · right; right
            refine ⟨rfl, ?_⟩
            have hp := h.plain f hf hmf
            unfold Place at hp
            split at hp
            · rename_i hi
              have : s.age f = threshold + 1 := by simpa [immortal] using hi
              omega
            · split at hp
              · exact absurd hp.1 hx
              · omega
          · right; left; rfl
        · exact Or.inl hx
      · rintro ⟨hf, hk⟩
        refine ⟨hf, ?_⟩
        rcases hk with hk | hk | ⟨_, hk⟩
        · exact Or.inr hk
        · left; intro hx; rw [hmarked _ f hx (by decide)] at hk; cases hk
        · left; intro hx
          rcases plain_lists h hx (hmarked _ f hx (by decide)) with ⟨_, e, _⟩ | ⟨e, _⟩ | ⟨e, _⟩
          · omega
          · cases e
          · cases e
    · intro f hf
      rw [F.mark]
      rw [if_neg]
      rintro ⟨a, b⟩
      rw [nofix f a] at b; cases b
    · intro f hf _
      rw [F.dirty]
      rw [if_neg]
      rintro ⟨a, b⟩
      rw [nofix f a] at b; cases b
    · rw [upd_other _ _ (by decide)]
    · rw [upd_other _ _ (by decide)]; exact hmk
    · intro l f hf
      rw [F.live]
      by_cases hl : l = .fixies
      · subst hl; rw [upd_same] at hf; cases hf
      · rw [upd_other _ _ hl] at hf
        exact ⟨h.isLive l f hf, Or.inl (fun hx => hl (h.rep.disj _ _ f hf hx))⟩
    · intro f hf hmf
      obtain ⟨hfl, hx⟩ := (F.live f).1 hf
      have hnf : f ∉ Ls .fixies := by
        rcases hx with hx | hx
        · exact hx
        · intro hh; rw [nofix f hh] at hx; cases hx
      refine place_congr (h.plain f hfl hmf) (by rw [F.age]) ?_ (fun l => ?_)
      · rw [F.dirty, if_neg (fun hh => hnf hh.1)]
      · by_cases hl : l = .fixies
        · subst hl; rw [upd_same]; simp [hnf]
        · rw [upd_other _ _ hl]
  | true =>
    simp only [if_true]
    have F1 := freeLoop_spec true .tenured (Ls .tenured) (s.live.length + 1) s (inv_fuel h _)
      (chain_nchain (h.rep.chain .tenured)) (h.rep.nodup _) h.nodup (by intro _ _ _; rfl)
    have R1 := freed_rep h.rep F1
    generalize freeLoop true (s.live.length + 1) s (.head .tenured) = s1 at *
    have k1 : upd Ls .tenured [] .dirty = Ls .dirty := upd_other _ _ (by decide)
    have F2 := freeLoop_spec true .dirty (Ls .dirty) (s.live.length + 1) s1 (inv_fuel h _)
      (by have := chain_nchain (R1.chain .dirty); rw [k1] at this; exact this) (h.rep.nodup _) F1.nodup
      (by intro _ _ _; rfl)
    have R2 := freed_rep (l := .dirty) R1 (by rw [k1]; exact F2)
    generalize freeLoop true (s.live.length + 1) s1 (.head .dirty) = s2 at *
    have k2 : upd (upd Ls .tenured []) .dirty [] .fixies = Ls .fixies := by
      rw [upd_other _ _ (by decide), upd_other _ _ (by decide)]
    have i1 : ∀ x, immortal s1 x = immortal s x := fun x => by simp only [immortal, F1.age]
    have i2 : ∀ x, immortal s2 x = immortal s x := fun x => by simp only [immortal, F2.age, F1.age]
    have F3 := freeLoop_spec false .fixies (Ls .fixies) (s.live.length + 1) s2 (inv_fuel h _)
      (by have := chain_nchain (R2.chain .fixies); rw [k2] at this; exact this) (h.rep.nodup _) F2.nodup
      (by intro f hf hi; rw [i2, nofix f hf] at hi; cases hi)
    have R3 := freed_rep (l := .fixies) R2 (by rw [k2]; exact F3)
    generalize freeLoop false (s.live.length + 1) s2 (.head .fixies) = s3 at *
    have Ls3 : ∀ l, upd (upd (upd Ls .tenured []) .dirty []) .fixies [] l =
        if l = .marked ∨ l = .visited then Ls l else [] := by
      intro l; cases l <;> simp [upd]
    have hlive : ∀ f, f ∈ s3.live ↔ f ∈ s.live ∧ Keeps s true f := by
      intro f
      rw [F3.live, F2.live, F1.live, i1, i2]
      constructor
      · rintro ⟨⟨⟨hf, x1⟩, x2⟩, x3⟩
        refine ⟨hf, ?_⟩
        unfold Keeps
        cases hi : immortal s f
        · rw [hi] at x1 x2 x3
          simp only [Bool.false_eq_true, or_false] at x1 x2 x3
          cases hmf : s.mark f
          · exfalso
            have hp := h.plain f hf hmf
            unfold Place at hp
            rw [if_neg (by rw [hi]; decide)] at hp
            split at hp
            · exact x3 hp.1
            · split at hp
              · exact x2 hp
              · exact x1 hp
          · exact Or.inr (Or.inl rfl)
        · exact Or.inl rfl
      · rintro ⟨hf, hk⟩
        rcases hk with hk | hk | ⟨hk, _⟩
        · exact ⟨⟨⟨hf, Or.inr hk⟩, Or.inr hk⟩, Or.inr hk⟩
        · refine ⟨⟨⟨hf, Or.inl ?_⟩, Or.inl ?_⟩, Or.inl ?_⟩ <;>
            (intro hx; rw [hmarked _ f hx (by decide)] at hk; cases hk)
        · cases hk
    refine main s3 _ R3 F3.nodup hlive (by rw [F3.age, F2.age, F1.age]) ?_ ?_
      (by rw [F3.dead, F2.dead, F1.dead]) (by rw [Ls3]; simp) (by rw [Ls3]; simpa using hmk) ?_ ?_
    · intro f _
      rw [F3.mark, F2.mark, F1.mark, i1, i2]
      by_cases a1 : f ∈ Ls .fixies
      · simp [a1, hmarked _ f a1 (by decide)]
      · by_cases a2 : f ∈ Ls .dirty
        · simp [a2, hmarked _ f a2 (by decide)]
        · by_cases a3 : f ∈ Ls .tenured
          · simp [a3, hmarked _ f a3 (by decide)]
          · simp [a1, a2, a3]
    · intro f _ hmf
      have n1 : f ∉ Ls .fixies := fun hx => by rw [hmarked _ f hx (by decide)] at hmf; cases hmf
      have n2 : f ∉ Ls .dirty := fun hx => by rw [hmarked _ f hx (by decide)] at hmf; cases hmf
      have n3 : f ∉ Ls .tenured := fun hx => by rw [hmarked _ f hx (by decide)] at hmf; cases hmf
      rw [F3.dirty, F2.dirty, F1.dirty]
      simp [n1, n2, n3]
    · intro l f hf
      rw [Ls3] at hf
      split at hf
      · rename_i hl
        rcases hl with rfl | rfl
        · rw [hmk] at hf; cases hf
        · have hfl := h.isLive _ f hf
          exact (hlive f).2 ⟨hfl, Or.inr (Or.inl ((hvis f hfl).2 hf))⟩
      · cases hf
    · intro f hf hmf
      obtain ⟨hfl, hk⟩ := (hlive f).1 hf
      have hi : immortal s f = true := by
        rcases hk with hk | hk | ⟨hk, _⟩
        · exact hk
        · rw [hmf] at hk; cases hk
        · cases hk
      have hi3 : immortal s3 f = true := by simp only [immortal, F3.age, F2.age, F1.age]; exact hi
      unfold Place
      rw [if_pos hi3]
      have hd : s3.isDirty f = false := by
        rw [F3.dirty, F2.dirty, F1.dirty, i1, i2]
        have hp := h.plain f hfl hmf
        unfold Place at hp
        rw [if_pos hi] at hp
        cases hd : s.isDirty f
        · simp
        · rw [hd] at hp
          simp only [if_true] at hp
          simp [hp, hi]
      rw [hd]
      simp only [Bool.false_eq_true, if_false]
      right
      intro l hf'
      rw [Ls3] at hf'
      split at hf'
      · rename_i hl
        rcases hl with rfl | rfl
        · rw [hmk] at hf'; cases hf'
        · have := (hvis f hfl).2 hf'
          rw [hmf] at this; cases this
      · cases hf'

end Avian.Fixies
