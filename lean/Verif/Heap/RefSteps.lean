import Verif.Heap.Refs

/-
Lemmas about `Heap/Refs`: visiting, and what every step of `postVisit` preserves.
-/
namespace Avian.Refs

/-- Reachability through non-null pointers. -/
inductive Reach (g : Nat → List Nat) (o : Nat) : Nat → Prop where
  | refl : o ≠ 0 → Reach g o o
  | step {x y : Nat} : Reach g o x → y ∈ g x → y ≠ 0 → Reach g o y

theorem Reach.trans {g : Nat → List Nat} {a b c : Nat} (h : Reach g a b) (h' : Reach g b c) : Reach g a c := by
  induction h' with
  | refl _ => exact h
  | step _ hy hz ih => exact ih.step hy hz

theorem Reach.head {g : Nat → List Nat} {a b c : Nat} (ha : a ≠ 0) (hb : b ∈ g a) (h' : Reach g b c) :
    Reach g a c := by
  have hb0 : b ≠ 0 := by
    clear hb
    induction h' with
    | refl h => exact h
    | step _ _ _ ih => exact ih
  exact Reach.trans ((Reach.refl ha).step hb hb0) h'

theorem weight_drop (g : Nat → List Nat) (o : Nat) (seen : List Nat) : ∀ (l : List Nat),
    weight g (l.filter (fun x => decide (x ∉ o :: seen))) ≤ weight g (l.filter (fun x => decide (x ∉ seen)))
  | [] => Nat.le_refl _
  | a :: l => by
    have ih := weight_drop g o seen l
    by_cases h1 : a ∈ seen
    · have h2 : a ∈ o :: seen := List.mem_cons_of_mem _ h1
      rw [List.filter_cons_of_neg (by simp [h1]), List.filter_cons_of_neg (by simp [h1])]
      exact ih
    · rw [List.filter_cons_of_pos (a := a) (p := fun x => decide (x ∉ seen)) (by simpa using h1)]
      by_cases h2 : a = o
      · rw [List.filter_cons_of_neg (by simp [h2])]
        simp only [weight]; omega
      · rw [List.filter_cons_of_pos (by simp [h1, h2])]
        simp only [weight]; omega

theorem weight_take (g : Nat → List Nat) (o : Nat) (seen : List Nat) (hs : o ∉ seen) : ∀ (l : List Nat), o ∈ l →
    (g o).length + weight g (l.filter (fun x => decide (x ∉ o :: seen))) ≤
      weight g (l.filter (fun x => decide (x ∉ seen)))
  | [], h => by cases h
  | a :: l, h => by
    by_cases h2 : a = o
    · subst h2
      rw [List.filter_cons_of_pos (a := a) (p := fun x => decide (x ∉ seen)) (by simpa using hs),
        List.filter_cons_of_neg (by simp)]
      have := weight_drop g a seen l
      simp only [weight]; omega
    · have hl : o ∈ l := by
        rcases List.mem_cons.1 h with e | e
        · exact absurd e.symm h2
        · exact e
      have ih := weight_take g o seen hs l hl
      by_cases h1 : a ∈ seen
      · rw [List.filter_cons_of_neg (a := a) (p := fun x => decide (x ∉ seen)) (by simpa using h1),
          List.filter_cons_of_neg (by simp [h1])]
        exact ih
      · rw [List.filter_cons_of_pos (a := a) (p := fun x => decide (x ∉ seen)) (by simpa using h1),
          List.filter_cons_of_pos (by simp [h1, h2])]
        simp only [weight]; omega

theorem weight_filter (g : Nat → List Nat) (p : Nat → Bool) : ∀ (l : List Nat),
    weight g (l.filter p) ≤ weight g l
  | [] => Nat.le_refl _
  | a :: l => by
    have ih := weight_filter g p l
    by_cases h : p a = true
    · rw [List.filter_cons_of_pos h]; simp only [weight]; omega
    · rw [List.filter_cons_of_neg h]; simp only [weight]; omega

theorem close_spec (g : Nat → List Nat) (objs : List Nat)
    (hg : ∀ o ∈ objs, ∀ x ∈ g o, x = 0 ∨ x ∈ objs) : ∀ (n : Nat) (w seen : List Nat),
    (∀ o ∈ w, o = 0 ∨ o ∈ objs) →
    w.length + weight g (objs.filter (fun x => decide (x ∉ seen))) ≤ n →
    (∀ o ∈ seen, ∀ x ∈ g o, x = 0 ∨ x ∈ seen ∨ x ∈ w) →
    (∀ o ∈ seen, o ∈ close g n w seen) ∧ (∀ o ∈ w, o = 0 ∨ o ∈ close g n w seen) ∧
    (∀ o ∈ close g n w seen, ∀ x ∈ g o, x = 0 ∨ x ∈ close g n w seen) ∧
    (∀ x ∈ close g n w seen, x ∈ seen ∨ ∃ o ∈ w, Reach g o x)
  | 0, w, seen, hw, hn, hc => by
    have : w = [] := List.length_eq_zero_iff.1 (by omega)
    subst this
    refine ⟨fun _ h => h, by simp, ?_, fun _ h => Or.inl h⟩
    intro o ho x hx
    rcases hc o ho x hx with e | e | e
    · exact Or.inl e
    · exact Or.inr e
    · cases e
  | n + 1, [], seen, _, _, hc => by
    refine ⟨fun _ h => h, by simp, ?_, fun _ h => Or.inl h⟩
    intro o ho x hx
    rcases hc o ho x hx with e | e | e
    · exact Or.inl e
    · exact Or.inr e
    · cases e
  | n + 1, o :: w, seen, hw, hn, hc => by
    by_cases h : o = 0 ∨ o ∈ seen
    · simp only [close, if_pos h]
      have ih := close_spec g objs hg n w seen (fun x hx => hw x (List.mem_cons_of_mem _ hx))
        (by simp only [List.length_cons] at hn; omega)
        (by
          intro a ha x hx
          rcases hc a ha x hx with e | e | e
          · exact Or.inl e
          · exact Or.inr (Or.inl e)
          · rcases List.mem_cons.1 e with e | e
            · subst e
              rcases h with h | h
              · exact Or.inl h
              · exact Or.inr (Or.inl h)
            · exact Or.inr (Or.inr e))
      obtain ⟨i1, i2, i3, i4⟩ := ih
      refine ⟨i1, ?_, i3, ?_⟩
      · intro a ha
        rcases List.mem_cons.1 ha with e | e
        · subst e
          rcases h with h | h
          · exact Or.inl h
          · exact Or.inr (i1 _ h)
        · exact i2 a e
      · intro x hx
        rcases i4 x hx with e | ⟨a, ha, hr⟩
        · exact Or.inl e
        · exact Or.inr ⟨a, List.mem_cons_of_mem _ ha, hr⟩
    · simp only [close, if_neg h]
      have ho0 : o ≠ 0 := fun e => h (Or.inl e)
      have hos : o ∉ seen := fun e => h (Or.inr e)
      have hoo : o ∈ objs := by
        rcases hw o (List.mem_cons_self ..) with e | e
        · exact absurd e ho0
        · exact e
      have ht := weight_take g o seen hos objs hoo
      have ih := close_spec g objs hg n (g o ++ w) (o :: seen)
        (by
          intro a ha
          rcases List.mem_append.1 ha with e | e
          · exact hg o hoo a e
          · exact hw a (List.mem_cons_of_mem _ e))
        (by simp only [List.length_cons, List.length_append] at hn ⊢; omega)
        (by
          intro a ha x hx
          rcases List.mem_cons.1 ha with e | e
          · subst e; exact Or.inr (Or.inr (List.mem_append_left _ hx))
          · rcases hc a e x hx with e | e | e
            · exact Or.inl e
            · exact Or.inr (Or.inl (List.mem_cons_of_mem _ e))
            · rcases List.mem_cons.1 e with e | e
              · subst e; exact Or.inr (Or.inl (List.mem_cons_self ..))
              · exact Or.inr (Or.inr (List.mem_append_right _ e)))
      obtain ⟨i1, i2, i3, i4⟩ := ih
      refine ⟨fun a ha => i1 a (List.mem_cons_of_mem _ ha), ?_, i3, ?_⟩
      · intro a ha
        rcases List.mem_cons.1 ha with e | e
        · subst e; exact Or.inr (i1 _ (List.mem_cons_self ..))
        · exact i2 a (List.mem_append_right _ e)
      · intro x hx
        rcases i4 x hx with e | ⟨a, ha, hr⟩
        · rcases List.mem_cons.1 e with e | e
          · subst e; exact Or.inr ⟨_, List.mem_cons_self .., Reach.refl ho0⟩
          · exact Or.inl e
        · rcases List.mem_append.1 ha with e | e
          · exact Or.inr ⟨o, List.mem_cons_self .., Reach.head ho0 e hr⟩
          · exact Or.inr ⟨a, List.mem_cons_of_mem _ e, hr⟩

/-- Pointers lead to objects, and what is live is closed. -/
structure Good (s : St) : Prop where
  inObjs : ∀ o ∈ s.objs, ∀ x ∈ succ s o, x = 0 ∨ x ∈ s.objs
  nz : 0 ∉ s.objs
  liveObjs : ∀ o ∈ s.live, o ∈ s.objs
  closed : ∀ o ∈ s.live, ∀ x ∈ succ s o, x = 0 ∨ x ∈ s.live
  targets : ∀ r, s.target r = 0 ∨ s.target r ∈ s.objs
  queues : ∀ r, s.queue r = 0 ∨ s.queue r ∈ s.objs
  ftargets : ∀ f, s.ftarget f = 0 ∨ s.ftarget f ∈ s.objs

/-- What every step preserves. -/
structure Ext (s s' : St) : Prop where
  objs : s'.objs = s.objs
  ftarget : s'.ftarget = s.ftarget
  native : s'.native = s.native
  cleaner : s'.isCleaner = s.isCleaner
  hasF : s'.hasFinalizer = s.hasFinalizer
  live : ∀ o ∈ s.live, o ∈ s'.live
  target : ∀ r, s'.target r = s.target r ∨ s'.target r = 0
  queue : ∀ r, s'.queue r = s.queue r ∨ s'.queue r = 0
  good : Good s → Good s'

theorem Ext.refl (s : St) : Ext s s :=
  ⟨rfl, rfl, rfl, rfl, rfl, fun _ h => h, fun _ => Or.inl rfl, fun _ => Or.inl rfl, fun h => h⟩

theorem Ext.trans {a b c : St} (h : Ext a b) (h' : Ext b c) : Ext a c := by
  refine ⟨h'.objs.trans h.objs, h'.ftarget.trans h.ftarget, h'.native.trans h.native,
    h'.cleaner.trans h.cleaner, h'.hasF.trans h.hasF, fun o ho => h'.live o (h.live o ho), ?_, ?_, fun g => h'.good (h.good g)⟩
  · intro r
    rcases h'.target r with e | e
    · rw [e]; exact h.target r
    · exact Or.inr e
  · intro r
    rcases h'.queue r with e | e
    · rw [e]; exact h.queue r
    · exact Or.inr e

theorem visit_of_live {s : St} {o : Nat} (h : o = 0 ∨ o ∈ s.live) : visit s o = s := by
  unfold visit
  rw [Nat.add_comm]
  simp only [close, if_pos h]
  have : ∀ n, close (succ s) n [] s.live = s.live := by
    intro n; cases n <;> rfl
  rw [this]

theorem visit_spec {s : St} (hs : Good s) {o : Nat} (ho : o = 0 ∨ o ∈ s.objs) :
    (∀ x, x ∈ (visit s o).live ↔ x ∈ s.live ∨ Reach (succ s) o x) ∧
    (∀ a ∈ (visit s o).live, ∀ x ∈ succ s a, x = 0 ∨ x ∈ (visit s o).live) := by
  have h := close_spec (succ s) s.objs hs.inObjs (1 + weight (succ s) s.objs) [o] s.live
    (by intro a ha; simp only [List.mem_singleton] at ha; subst ha; exact ho)
    (by
      have := weight_filter (succ s) (fun x => decide (x ∉ s.live)) s.objs
      simp only [List.length_singleton]; omega)
    (by
      intro a ha x hx
      rcases hs.closed a ha x hx with e | e
      · exact Or.inl e
      · exact Or.inr (Or.inl e))
  obtain ⟨h1, h2, h3, h4⟩ := h
  refine ⟨?_, h3⟩
  intro x
  constructor
  · intro hx
    rcases h4 x hx with e | ⟨a, ha, hr⟩
    · exact Or.inl e
    · simp only [List.mem_singleton] at ha; subst ha; exact Or.inr hr
  · rintro (hx | hx)
    · exact h1 x hx
    · induction hx with
      | refl h0 =>
        rcases h2 o (List.mem_singleton.2 rfl) with e | e
        · exact absurd e h0
        · exact e
      | step _ hy hz ih =>
        rcases h3 _ ih _ hy with e | e
        · exact absurd e hz
        · exact e

theorem reach_objs {s : St} (hs : Good s) {o x : Nat} (ho : o = 0 ∨ o ∈ s.objs) (h : Reach (succ s) o x) :
    x ∈ s.objs := by
  induction h with
  | refl h0 =>
    rcases ho with e | e
    · exact absurd e h0
    · exact e
  | step _ hy hz ih =>
    rcases hs.inObjs _ ih _ hy with e | e
    · exact absurd e hz
    · exact e

theorem visit_ext {s : St} (hs : Good s) {o : Nat} (ho : o = 0 ∨ o ∈ s.objs) : Ext s (visit s o) := by
  obtain ⟨h1, h2⟩ := visit_spec hs ho
  refine ⟨rfl, rfl, rfl, rfl, rfl, fun x hx => (h1 x).2 (Or.inl hx), fun _ => Or.inl rfl, fun _ => Or.inl rfl, ?_⟩
  intro _
  refine ⟨hs.inObjs, hs.nz, ?_, h2, hs.targets, hs.queues, hs.ftargets⟩
  intro x hx
  rcases (h1 x).1 hx with e | e
  · exact hs.liveObjs x e
  · exact reach_objs hs ho e

theorem visit_mem {s : St} (hs : Good s) {o : Nat} (ho : o ∈ s.objs) : o ∈ (visit s o).live :=
  ((visit_spec hs (Or.inr ho)).1 o).2 (Or.inr (Reach.refl (fun e => hs.nz (e ▸ ho))))

theorem not_dead {s : St} {o : Nat} : dead s o = false ↔ o = 0 ∨ o ∈ s.live := by
  simp only [dead, Bool.and_eq_false_iff, decide_eq_false_iff_not, Bool.not_eq_false', List.contains_iff_mem,
    ne_eq, Decidable.not_not]

theorem is_dead {s : St} {o : Nat} : dead s o = true ↔ o ≠ 0 ∧ o ∉ s.live := by
  simp only [dead, Bool.and_eq_true, decide_eq_true_eq, Bool.not_eq_true', ne_eq]
  constructor
  · rintro ⟨h1, h2⟩
    refine ⟨h1, fun h => ?_⟩
    rw [← List.contains_iff_mem] at h
    rw [h] at h2; cases h2
  · rintro ⟨h1, h2⟩
    refine ⟨h1, ?_⟩
    cases hc : s.live.contains o
    · rfl
    · exact absurd (List.contains_iff_mem.1 hc) h2

theorem Ext.dead {s s' : St} (h : Ext s s') {o : Nat} (hd : dead s' o = true) : Refs.dead s o = true := by
  rw [is_dead] at hd ⊢
  exact ⟨hd.1, fun e => hd.2 (h.live o e)⟩

theorem upd_same {α : Type} {f : Nat → α} {i : Nat} {v : α} : upd f i v i = v := by simp [upd]
theorem upd_other {α : Type} {f : Nat → α} {i j : Nat} {v : α} (h : j ≠ i) : upd f i v j = f j := by simp [upd, h]

theorem setTarget_ext (s : St) (r : Nat) : Ext s { s with target := upd s.target r 0 } := by
  refine ⟨rfl, rfl, rfl, rfl, rfl, fun _ h => h, ?_, fun _ => Or.inl rfl, ?_⟩
  · intro x
    by_cases e : x = r
    · subst e; exact Or.inr upd_same
    · exact Or.inl (upd_other e)
  · intro g
    refine ⟨g.inObjs, g.nz, g.liveObjs, g.closed, ?_, g.queues, g.ftargets⟩
    intro x
    by_cases e : x = r
    · subst e; exact Or.inl upd_same
    · simp only; rw [upd_other e]; exact g.targets x

theorem setQueue_ext (s : St) (r : Nat) : Ext s { s with queue := upd s.queue r 0 } := by
  refine ⟨rfl, rfl, rfl, rfl, rfl, fun _ h => h, fun _ => Or.inl rfl, ?_, ?_⟩
  · intro x
    by_cases e : x = r
    · subst e; exact Or.inr upd_same
    · exact Or.inl (upd_other e)
  · intro g
    refine ⟨g.inObjs, g.nz, g.liveObjs, g.closed, g.targets, ?_, g.ftargets⟩
    intro x
    by_cases e : x = r
    · subst e; exact Or.inl upd_same
    · simp only; rw [upd_other e]; exact g.queues x

/-- Storing a live reference as the front of a live queue. -/
theorem enqueue_ext (s : St) (r q : Nat) (hr : r ∈ s.live) (hq : q ∈ s.live) :
    Ext s { s with
      jNext := upd s.jNext r (if s.front q ≠ 0 then s.front q else r)
      front := upd s.front q r
      queue := upd s.queue r 0 } := by
  refine ⟨rfl, rfl, rfl, rfl, rfl, fun _ h => h, fun _ => Or.inl rfl, ?_, ?_⟩
  · intro x
    by_cases e : x = r
    · subst e; exact Or.inr upd_same
    · exact Or.inl (upd_other e)
  · intro g
    have hfront : s.front q = 0 ∨ s.front q ∈ s.live := g.closed q hq _ (by simp [succ])
    have key : ∀ o x, x ∈ upd s.jNext r (if s.front q ≠ 0 then s.front q else r) o ::
        upd s.front q r o :: s.fields o → x = 0 ∨ x ∈ s.live ∨ x ∈ succ s o := by
      intro o x hx
      rcases List.mem_cons.1 hx with e | hx
      · by_cases h : o = r
        · subst h; rw [upd_same] at e
          by_cases hf : s.front q ≠ 0
          · rw [if_pos hf] at e; subst e
            rcases hfront with e | e
            · exact absurd e hf
            · exact Or.inr (Or.inl e)
          · rw [if_neg hf] at e; subst e; exact Or.inr (Or.inl hr)
        · rw [upd_other h] at e
          exact Or.inr (Or.inr (by rw [e]; simp [succ]))
      · rcases List.mem_cons.1 hx with e | hx
        · by_cases h : o = q
          · subst h; rw [upd_same] at e; subst e; exact Or.inr (Or.inl hr)
          · rw [upd_other h] at e
            exact Or.inr (Or.inr (by rw [e]; simp [succ]))
        · exact Or.inr (Or.inr (by simp [succ, hx]))
    refine ⟨?_, g.nz, g.liveObjs, ?_, g.targets, ?_, g.ftargets⟩
    · intro o ho x hx
      rcases key o x hx with e | e | e
      · exact Or.inl e
      · exact Or.inr (g.liveObjs x e)
      · exact g.inObjs o ho x e
    · intro o ho x hx
      rcases key o x hx with e | e | e
      · exact Or.inl e
      · exact Or.inr e
      · exact g.closed o ho x e
    · intro x
      by_cases e : x = r
      · subst e; exact Or.inl upd_same
      · simp only; rw [upd_other e]; exact g.queues x

theorem clearTarget_ext (s : St) (r : Nat) : Ext s (clearTarget s r) := by
  unfold clearTarget
  split
  · exact setTarget_ext s r
  · exact Ext.refl s

theorem finalizer_ext {s : St} (hs : Good s) (f : Nat) : Ext s (finalizerTargetUnreachable s f) := by
  have h := visit_ext hs (hs.ftargets f)
  unfold finalizerTargetUnreachable
  simp only
  split
  · exact ⟨h.objs, h.ftarget, h.native, h.cleaner, h.hasF, h.live, h.target, h.queue,
      fun g => ⟨(h.good g).inObjs, (h.good g).nz, (h.good g).liveObjs, (h.good g).closed, (h.good g).targets, (h.good g).queues, (h.good g).ftargets⟩⟩
  · exact ⟨h.objs, h.ftarget, h.native, h.cleaner, h.hasF, h.live, h.target, h.queue,
      fun g => ⟨(h.good g).inObjs, (h.good g).nz, (h.good g).liveObjs, (h.good g).closed, (h.good g).targets, (h.good g).queues, (h.good g).ftargets⟩⟩

theorem rtu_ext {s : St} (hs : Good s) {r : Nat} (hr : r ∈ s.objs) : Ext s (referenceTargetUnreachable s r) := by
  have h1 := visit_ext hs (Or.inr hr)
  have h2 := h1.trans (setTarget_ext (visit s r) r)
  have hrl := visit_mem hs hr
  unfold referenceTargetUnreachable
  simp only
  split
  · exact ⟨h2.objs, h2.ftarget, h2.native, h2.cleaner, h2.hasF, h2.live, h2.target, h2.queue,
      fun g => ⟨(h2.good g).inObjs, (h2.good g).nz, (h2.good g).liveObjs, (h2.good g).closed, (h2.good g).targets, (h2.good g).queues, (h2.good g).ftargets⟩⟩
  · split
    · rename_i hq
      have hq' := (not_dead.1 hq.2).resolve_left hq.1
      rw [visit_of_live (Or.inr hq')]
      exact h2.trans (enqueue_ext _ r _ hrl hq')
    · exact h2

theorem ru_ext {s : St} (hs : Good s) {r : Nat} (hr : r ∈ s.objs) : Ext s (referenceUnreachable s r) := by
  unfold referenceUnreachable
  split
  · exact rtu_ext hs hr
  · exact Ext.refl s

theorem rtr_ext {s : St} (hs : Good s) {r : Nat} (hr : r ∈ s.objs) : Ext s (referenceTargetReachable s r) := by
  have h1 := visit_ext hs (Or.inr hr)
  have g1 := h1.good hs
  have h2 := visit_ext g1 (g1.targets r)
  have g2 := h2.good g1
  unfold referenceTargetReachable
  simp only
  split
  · exact (h1.trans h2).trans (setQueue_ext _ r)
  · exact (h1.trans h2).trans (visit_ext g2 (g2.queues r))

/-- The four lists. -/
def SameLists (s s' : St) : Prop :=
  s'.weak = s.weak ∧ s'.tenuredWeak = s.tenuredWeak ∧ s'.finalizers = s.finalizers ∧
    s'.tenuredFinalizers = s.tenuredFinalizers ∧ s'.jni = s.jni

theorem SameLists.refl (s : St) : SameLists s s := ⟨rfl, rfl, rfl, rfl, rfl⟩
theorem SameLists.trans {a b c : St} (h : SameLists a b) (h' : SameLists b c) : SameLists a c :=
  ⟨h'.1.trans h.1, h'.2.1.trans h.2.1, h'.2.2.1.trans h.2.2.1, h'.2.2.2.1.trans h.2.2.2.1, h'.2.2.2.2.trans h.2.2.2.2⟩

theorem rtu_lists (s : St) (r : Nat) : SameLists s (referenceTargetUnreachable s r) := by
  unfold referenceTargetUnreachable visit
  simp only
  split
  · exact ⟨rfl, rfl, rfl, rfl, rfl⟩
  · split <;> exact ⟨rfl, rfl, rfl, rfl, rfl⟩

theorem ru_lists (s : St) (r : Nat) : SameLists s (referenceUnreachable s r) := by
  unfold referenceUnreachable
  split
  · exact rtu_lists s r
  · exact .refl s

theorem rtr_lists (s : St) (r : Nat) : SameLists s (referenceTargetReachable s r) := by
  unfold referenceTargetReachable visit
  simp only
  split <;> exact ⟨rfl, rfl, rfl, rfl, rfl⟩

theorem finalizer_lists (s : St) (f : Nat) : SameLists s (finalizerTargetUnreachable s f) := by
  unfold finalizerTargetUnreachable visit
  simp only
  split <;> exact ⟨rfl, rfl, rfl, rfl, rfl⟩

theorem clearTarget_lists (s : St) (f : Nat) : SameLists s (clearTarget s f) := by
  unfold clearTarget
  split <;> exact ⟨rfl, rfl, rfl, rfl, rfl⟩

/-! ### Loops -/

theorem clear_loop : ∀ (l : List Nat) (s : St), Ext s (l.foldl clearTarget s) ∧ SameLists s (l.foldl clearTarget s)
  | [], s => ⟨.refl s, .refl s⟩
  | r :: l, s => by
    have ih := clear_loop l (clearTarget s r)
    exact ⟨(clearTarget_ext s r).trans ih.1, (clearTarget_lists s r).trans ih.2⟩

/-- The part of the state the loops over finalizers leave alone. -/
def SameQueues (s s' : St) : Prop :=
  s'.finalizeQueue = s.finalizeQueue ∧ s'.toFinalize = s.toFinalize ∧ s'.toClean = s.toClean ∧
    s'.target = s.target ∧ s'.queue = s.queue ∧ s'.jNext = s.jNext ∧ s'.front = s.front ∧ s'.fields = s.fields

theorem SameQueues.refl (s : St) : SameQueues s s := ⟨rfl, rfl, rfl, rfl, rfl, rfl, rfl, rfl⟩
theorem SameQueues.trans {a b c : St} (h : SameQueues a b) (h' : SameQueues b c) : SameQueues a c := by
  obtain ⟨a1, a2, a3, a4, a5, a6, a7, a8⟩ := h
  obtain ⟨b1, b2, b3, b4, b5, b6, b7, b8⟩ := h'
  exact ⟨b1.trans a1, b2.trans a2, b3.trans a3, b4.trans a4, b5.trans a5, b6.trans a6, b7.trans a7, b8.trans a8⟩

theorem visit_queues (s : St) (o : Nat) : SameQueues s (visit s o) := ⟨rfl, rfl, rfl, rfl, rfl, rfl, rfl, rfl⟩

theorem split_spec : ∀ (l un : List Nat) (s s' : St) (kept un' : List Nat),
    Good s → (∀ f ∈ l, f ∈ s.objs) → splitFinalizers l un s = (s', kept, un') →
    Ext s s' ∧ SameLists s s' ∧ SameQueues s s' ∧
    (∃ new, un' = new ++ un ∧ (new ++ kept).Perm l ∧ ∀ f ∈ new, dead s (s.ftarget f) = true) ∧
    (∀ f ∈ l, f ∈ s'.live) ∧ (∀ f ∈ kept, dead s' (s.ftarget f) = false)
  | [], un, s, s', kept, un', _, _, h => by
    simp only [splitFinalizers, Prod.mk.injEq] at h
    obtain ⟨rfl, rfl, rfl⟩ := h
    exact ⟨.refl _, .refl _, .refl _, ⟨[], rfl, .refl _, by simp⟩, by simp, by simp⟩
  | f :: l, un, s, s', kept, un', hs, hl, h => by
    simp only [splitFinalizers] at h
    have hf : f ∈ s.objs := hl f (List.mem_cons_self ..)
    have e1 := visit_ext hs (Or.inr hf)
    have g1 := e1.good hs
    have hl' : ∀ x ∈ l, x ∈ (visit s f).objs := fun x hx => hl x (List.mem_cons_of_mem _ hx)
    split at h
    · rename_i hd
      obtain ⟨i1, i2, i3, ⟨new, i4, i5, i6⟩, i7, i8⟩ := split_spec l (f :: un) (visit s f) s' kept un' g1 hl' h
      refine ⟨e1.trans i1, .trans ⟨rfl, rfl, rfl, rfl, rfl⟩ i2, (visit_queues s f).trans i3,
        ⟨new ++ [f], by rw [i4]; simp, ?_, ?_⟩, ?_, ?_⟩
      · refine List.Perm.trans ?_ (List.Perm.cons f i5)
        simp only [List.append_assoc, List.singleton_append]
        exact List.perm_middle
      · intro x hx
        rcases List.mem_append.1 hx with e | e
        · have := e1.dead (i6 x e)
          exact this
        · simp only [List.mem_singleton] at e; subst e
          exact e1.dead hd
      · intro x hx
        rcases List.mem_cons.1 hx with e | e
        · subst e; exact i1.live _ (visit_mem hs hf)
        · exact i7 x e
      · intro x hx; exact i8 x hx
    · rename_i hd
      cases hrec : splitFinalizers l un (visit s f) with
      | mk s2 rest =>
        obtain ⟨kept2, un2⟩ := rest
        rw [hrec] at h
        simp only [Prod.mk.injEq] at h
        obtain ⟨rfl, rfl, rfl⟩ := h
        obtain ⟨i1, i2, i3, ⟨new, i4, i5, i6⟩, i7, i8⟩ := split_spec l un (visit s f) s2 kept2 un2 g1 hl' hrec
        refine ⟨e1.trans i1, .trans ⟨rfl, rfl, rfl, rfl, rfl⟩ i2, (visit_queues s f).trans i3,
          ⟨new, i4, ?_, fun x hx => e1.dead (i6 x hx)⟩, ?_, ?_⟩
        · exact List.Perm.trans List.perm_middle (List.Perm.cons f i5)
        · intro x hx
          rcases List.mem_cons.1 hx with e | e
          · subst e; exact i1.live _ (visit_mem hs hf)
          · exact i7 x e
        · intro x hx
          rcases List.mem_cons.1 hx with e | e
          · subst e
            cases hd2 : dead s2 (s.ftarget x)
            · rfl
            · exact absurd (i1.dead hd2) hd
          · exact i8 x e

/-- Visiting the targets that are reachable changes nothing. -/
theorem keep_spec (ten : Nat → Bool) : ∀ (l moved : List Nat) (s s' : St) (kept moved' : List Nat),
    (∀ f ∈ l, dead s (s.ftarget f) = false) → keepFinalizers ten l moved s = (s', kept, moved') →
    s' = s ∧ ∃ new, moved' = new ++ moved ∧ (new ++ kept).Perm l ∧ (∀ f ∈ new, ten f = true) ∧ ∀ f ∈ kept, ten f = false
  | [], moved, s, s', kept, moved', _, h => by
    simp only [keepFinalizers, Prod.mk.injEq] at h
    obtain ⟨rfl, rfl, rfl⟩ := h
    exact ⟨rfl, [], rfl, .refl _, by simp, by simp⟩
  | f :: l, moved, s, s', kept, moved', hd, h => by
    simp only [keepFinalizers] at h
    rw [visit_of_live (not_dead.1 (hd f (List.mem_cons_self ..)))] at h
    have hd' : ∀ x ∈ l, dead s (s.ftarget x) = false := fun x hx => hd x (List.mem_cons_of_mem _ hx)
    split at h
    · rename_i ht
      obtain ⟨i1, new, i2, i3, i4, i5⟩ := keep_spec ten l (f :: moved) s s' kept moved' hd' h
      refine ⟨i1, new ++ [f], by rw [i2]; simp, ?_, ?_, i5⟩
      · refine List.Perm.trans ?_ (List.Perm.cons f i3)
        simp only [List.append_assoc, List.singleton_append]
        exact List.perm_middle
      · intro x hx
        rcases List.mem_append.1 hx with e | e
        · exact i4 x e
        · simp only [List.mem_singleton] at e; subst e; exact ht
    · rename_i ht
      cases hrec : keepFinalizers ten l moved s with
      | mk s2 rest =>
        obtain ⟨kept2, moved2⟩ := rest
        rw [hrec] at h
        simp only [Prod.mk.injEq] at h
        obtain ⟨rfl, rfl, rfl⟩ := h
        obtain ⟨i1, new, i2, i3, i4, i5⟩ := keep_spec ten l moved s s2 kept2 moved2 hd' hrec
        refine ⟨i1, new, i2, List.Perm.trans List.perm_middle (List.Perm.cons f i3), i4, ?_⟩
        intro x hx
        rcases List.mem_cons.1 hx with e | e
        · subst e; simpa using ht
        · exact i5 x e

theorem schedule_spec : ∀ (l : List Nat) (s : St), Good s →
    Ext s (scheduleAll l s) ∧ SameLists s (scheduleAll l s) ∧
    (scheduleAll l s).target = s.target ∧ (scheduleAll l s).queue = s.queue ∧
    (scheduleAll l s).jNext = s.jNext ∧ (scheduleAll l s).front = s.front ∧ (scheduleAll l s).fields = s.fields ∧
    (scheduleAll l s).toClean = s.toClean ∧
    ∃ newN newJ, (scheduleAll l s).finalizeQueue = newN ++ s.finalizeQueue ∧
      (scheduleAll l s).toFinalize = newJ ++ s.toFinalize ∧ (newN ++ newJ).Perm l ∧
      (∀ f ∈ newN, s.native f = true) ∧ (∀ f ∈ newJ, s.native f = false) ∧
      ∀ f ∈ l, s.ftarget f = 0 ∨ s.ftarget f ∈ (scheduleAll l s).live
  | [], s, _ => ⟨.refl s, .refl s, rfl, rfl, rfl, rfl, rfl, rfl, [], [], rfl, rfl, .refl _, by simp, by simp, by simp⟩
  | f :: l, s, hs => by
    have e1 := finalizer_ext hs f
    have g1 := e1.good hs
    obtain ⟨i1, i2, i3, i4, i5, i6, i7, i8, newN, newJ, i9, i10, i11, i12, i13, i14⟩ :=
      schedule_spec l (finalizerTargetUnreachable s f) g1
    have hvis : s.ftarget f = 0 ∨ s.ftarget f ∈ (finalizerTargetUnreachable s f).live := by
      rcases hs.ftargets f with e | e
      · exact Or.inl e
      · right
        have := visit_mem hs e
        unfold finalizerTargetUnreachable
        simp only
        split <;> exact this
    have hlive : s.ftarget f = 0 ∨ s.ftarget f ∈ (scheduleAll (f :: l) s).live := by
      rcases hvis with e | e
      · exact Or.inl e
      · exact Or.inr (i1.live _ e)
    have hall : ∀ x ∈ f :: l, s.ftarget x = 0 ∨ s.ftarget x ∈ (scheduleAll (f :: l) s).live := by
      intro x hx
      rcases List.mem_cons.1 hx with e | e
      · subst e; exact hlive
      · have := i14 x e
        rw [e1.ftarget] at this
        exact this
    rw [e1.native] at i12 i13
    by_cases hn : s.native f = true
    · have q : finalizerTargetUnreachable s f = { visit s (s.ftarget f) with finalizeQueue := f :: s.finalizeQueue } := by
        unfold finalizerTargetUnreachable
        simp only
        rw [if_pos (show (visit s (s.ftarget f)).native f = true from hn)]
        rfl
      have e9 : (scheduleAll (f :: l) s).finalizeQueue = newN ++ (finalizerTargetUnreachable s f).finalizeQueue := i9
      have e10 : (scheduleAll (f :: l) s).toFinalize = newJ ++ (finalizerTargetUnreachable s f).toFinalize := i10
      rw [q] at e9 e10
      refine ⟨e1.trans i1, (finalizer_lists s f).trans i2, ?_, ?_, ?_, ?_, ?_, ?_, newN ++ [f], newJ, ?_, e10, ?_, ?_, i13, hall⟩
      · exact i3.trans (by rw [q]; rfl)
      · exact i4.trans (by rw [q]; rfl)
      · exact i5.trans (by rw [q]; rfl)
      · exact i6.trans (by rw [q]; rfl)
      · exact i7.trans (by rw [q]; rfl)
      · exact i8.trans (by rw [q]; rfl)
      · rw [e9]; simp
      · refine List.Perm.trans ?_ (List.Perm.cons f i11)
        simp only [List.append_assoc, List.singleton_append]
        exact List.perm_middle
      · intro x hx
        rcases List.mem_append.1 hx with e | e
        · exact i12 x e
        · simp only [List.mem_singleton] at e; subst e; exact hn
    · have q : finalizerTargetUnreachable s f = { visit s (s.ftarget f) with toFinalize := f :: s.toFinalize } := by
        unfold finalizerTargetUnreachable
        simp only
        rw [if_neg (show ¬ (visit s (s.ftarget f)).native f = true from hn)]
        rfl
      have e9 : (scheduleAll (f :: l) s).finalizeQueue = newN ++ (finalizerTargetUnreachable s f).finalizeQueue := i9
      have e10 : (scheduleAll (f :: l) s).toFinalize = newJ ++ (finalizerTargetUnreachable s f).toFinalize := i10
      rw [q] at e9 e10
      refine ⟨e1.trans i1, (finalizer_lists s f).trans i2, ?_, ?_, ?_, ?_, ?_, ?_, newN, newJ ++ [f], e9, ?_, ?_, i12, ?_, hall⟩
      · exact i3.trans (by rw [q]; rfl)
      · exact i4.trans (by rw [q]; rfl)
      · exact i5.trans (by rw [q]; rfl)
      · exact i6.trans (by rw [q]; rfl)
      · exact i7.trans (by rw [q]; rfl)
      · exact i8.trans (by rw [q]; rfl)
      · rw [e10]; simp
      · refine List.Perm.trans ?_ (List.Perm.cons f i11)
        rw [← List.append_assoc]
        exact List.perm_append_comm
      · intro x hx
        rcases List.mem_append.1 hx with e | e
        · exact i13 x e
        · simp only [List.mem_singleton] at e; subst e; simpa using hn

end Avian.Refs
